import Verif.Proofs.WopValues

/-!
Properties of the code builder of `wop`: C41 to C48 and C58 — the productions generated for a rule,
the aliases of its items, the reductors, and the declarations of a program.
-/

set_option linter.unusedSectionVars false
set_option maxRecDepth 100000

namespace Lrp.Props
open Wop Wop.Spec

/-! ### C47: declarations -/

/-- C47: processing a program stops exactly when a rule or token alias is declared twice (in the
program or to the builder before), an alternative of a rule has no code block, or an alternative of a
group has one.  It never hangs. -/
theorem C47_rejects {order : Nat → List Span → List Span} (hord : Orders order) {src : Text}
    {ast : Gramem} {ds : List Decl} (h : IsProgram src ast ds) (b : Builder) :
    (∃ w, Builder.process order src b ast = .panic w) ↔ ¬ Addable src b ds := by
  obtain ⟨gs, hast, hds⟩ := h.shape
  constructor
  · rintro ⟨w, hw⟩ hf
    obtain ⟨b', e, _⟩ := process_ok hord b hast hds h.inside hf
    rw [e] at hw
    cases hw
  · intro hf
    exact ⟨_, process_panics hord b hast hds h.inside hf⟩

/-- C47: otherwise every declaration is recorded, in order, and nothing else is. -/
theorem C47_records {order : Nat → List Span → List Span} (hord : Orders order) {src : Text}
    {ast : Gramem} {ds : List Decl} (h : IsProgram src ast ds) {b : Builder}
    (hf : Addable src b ds) :
    ∃ b', Builder.process order src b ast = .ok b' ∧ b'.imports = b.imports ++ uses ds ∧
      b'.aliases = b.aliases ++ tokens src ds ∧
      ∃ rs, b'.rules = b.rules ++ rs ∧ rs.map (·.1) = ruleNames src ds := by
  obtain ⟨gs, hast, hds⟩ := h.shape
  obtain ⟨b', e, h1, h2, rs, h3, h4⟩ := process_ok hord b hast hds h.inside hf
  refine ⟨b', e, h1, h2, rs, h3, ?_⟩
  rw [← ruleDecls_length src ds b.aliases]
  exact (All2.map_eq _ _ (fun a b h => h.1.symm) h4).symm

/-! ### C41: productions -/

/-- The rules of a processed program: the productions of each are related to the expansions of its
alternatives. -/
theorem rule_productions {order : Nat → List Span → List Span} (hord : Orders order) {src : Text}
    {ast : Gramem} {pre post : List Decl} {ident ty : Span} {alts : List Alt} {b b' : Builder}
    (h : IsProgram src ast (pre ++ .rule ident ty alts :: post))
    (hp : Builder.process order src b ast = .ok b') :
    ∃ prods, b'.rules.lookup (textOf src ident) = some prods ∧
      RuleRel src (b.aliases ++ tokens src pre) order ty alts prods := by
  obtain ⟨gs, hast, hds⟩ := h.shape
  exact process_rule hord hast hds h.inside hp

/-- C41: the productions of a rule are, in order, exactly the symbol sequences its alternatives
describe, with the token aliases declared before the rule put in. -/
theorem C41_expansions {order : Nat → List Span → List Span} (hord : Orders order) {src : Text}
    {ast : Gramem} {pre post : List Decl} {ident ty : Span} {alts : List Alt} {b b' : Builder}
    (h : IsProgram src ast (pre ++ .rule ident ty alts :: post))
    (hp : Builder.process order src b ast = .ok b') :
    ∃ prods, b'.rules.lookup (textOf src ident) = some prods ∧
      prods.map (·.production) = (expansions alts).map
        (fun ax => ax.2.word.map (resolve src (b.aliases ++ tokens src pre))) := by
  obtain ⟨prods, h1, h2⟩ := rule_productions hord h hp
  refine ⟨prods, h1, ?_⟩
  refine (All2.map_eq _ _ (fun ax q hq => ?_) h2).symm
  have := hq.word
  simp only [baseProd, List.nil_append] at this
  exact this.symm

/-! ### C48: token aliases -/

/-- C48: a symbol is replaced by the target of the token alias declared for its text before the rule
(here or to the builder before), and is left as it is if there is none, even if one follows. -/
theorem C48_scope {order : Nat → List Span → List Span} (hord : Orders order) {src : Text}
    {ast : Gramem} {pre post : List Decl} {ident ty : Span} {alts : List Alt} {b b' : Builder}
    (h : IsProgram src ast (pre ++ .rule ident ty alts :: post))
    (hp : Builder.process order src b ast = .ok b') :
    ∃ prods, b'.rules.lookup (textOf src ident) = some prods ∧
      ∀ (i j : Nat) (a : Alt) (x : Expansion) (sp : Span), (expansions alts)[i]? = some (a, x) →
        x.word[j]? = some sp → ∃ q s, prods[i]? = some q ∧ q.production[j]? = some s ∧
          (∀ target, (textOf src sp, target) ∈ tokens src pre → s = target) ∧
          (∀ target, b.aliases.lookup (textOf src sp) = some target → s = target) ∧
          (textOf src sp ∉ (b.aliases ++ tokens src pre).map (·.1) → s = sp) := by
  obtain ⟨prods, h1, h2⟩ := C41_expansions hord h hp
  refine ⟨prods, h1, ?_⟩
  intro i j a x sp hx hsp
  have hf : Addable src b (pre ++ .rule ident ty alts :: post) := by
    refine Classical.byContradiction (fun hn => ?_)
    obtain ⟨w, hw⟩ := (C47_rejects hord h b).mpr hn
    rw [hp] at hw
    cases hw
  have hq : (prods.map (·.production))[i]? =
      some (x.word.map (resolve src (b.aliases ++ tokens src pre))) := by
    rw [h2, List.getElem?_map, hx]
    rfl
  rw [List.getElem?_map] at hq
  cases hqi : prods[i]? with
  | none => rw [hqi] at hq; cases hq
  | some q =>
    rw [hqi] at hq
    simp only [Option.map_some, Option.some.injEq] at hq
    refine ⟨q, resolve src (b.aliases ++ tokens src pre) sp, rfl, ?_, ?_, ?_, ?_⟩
    · rw [hq, List.getElem?_map, hsp]
      rfl
    · intro target ht
      have hpre : ∀ (l m : List Decl), tokens src (l ++ m) = tokens src l ++ tokens src m := by
        intro l m
        induction l with
        | nil => rfl
        | cons d l ih => cases d <;> simp [tokens, ih]
      obtain ⟨⟨_, hnd, _⟩, _, hnew⟩ := hf
      rw [hpre] at hnd hnew
      have hm : textOf src sp ∉ b.aliases.map (·.1) :=
        hnew _ (List.mem_map_of_mem (f := (·.1)) (List.mem_append_left _ ht))
      unfold resolve
      rw [lookup_append_none hm, lookup_of_nodup ?_ ht]
      · rfl
      · rw [List.map_append] at hnd
        exact (List.nodup_append.mp hnd).1
    · intro target ht
      unfold resolve
      rw [List.lookup_append, ht]
      rfl
    · intro hn
      unfold resolve
      have : ((b.aliases ++ tokens src pre).lookup (textOf src sp)).isSome = false := by
        cases hs : ((b.aliases ++ tokens src pre).lookup (textOf src sp)).isSome with
        | false => rfl
        | true => exact absurd ((lookup_isSome _ _).mp hs) hn
      rw [Option.isSome_eq_false_iff, Option.isNone_iff_eq_none] at this
      rw [this]
      rfl

/-! ### The aliases of a production -/

/-- The production `q` was generated for the expansion `x` of the alternative `a` of a rule of a
processed program. -/
structure Generated (order : Nat → List Span → List Span) (src : Text) (a : Alt) (x : Expansion)
    (q : ProductionBuild) : Prop where
  intro ::
  made : ∃ (ast : Gramem) (pre post : List Decl) (ident ty : Span) (alts : List Alt) (b b' : Builder)
    (prods : RuleBuild) (i : Nat),
    IsProgram src ast (pre ++ .rule ident ty alts :: post) ∧
    Builder.process order src b ast = .ok b' ∧ b'.rules.lookup (textOf src ident) = some prods ∧
    (expansions alts)[i]? = some (a, x) ∧ prods[i]? = some q

theorem Generated.rel {order : Nat → List Span → List Span} (hord : Orders order) {src : Text}
    {a : Alt} {x : Expansion} {q : ProductionBuild} (h : Generated order src a x q) :
    x ∈ expand a.items ∧ Spec.Readable src a.items ∧ Full a.items ∧
    ∃ E p, E.src = src ∧ p.production = [] ∧ p.aliases = [] ∧
      Rel E p (names a.items) (bare a.items) (WellNamed src a.items) (fun t g c => Uniform src t g c a.items)
        x q := by
  obtain ⟨ast, pre, post, ident, ty, alts, b, b', prods, i, h1, h2, h3, h4, h5⟩ := h.made
  obtain ⟨prods', h6, h7⟩ := rule_productions hord h1 h2
  rw [h3] at h6
  cases h6
  have hr := h7.get h4 h5
  have hm : (a, x) ∈ expansions alts := List.mem_of_getElem? h4
  obtain ⟨a', ha', hx⟩ := List.mem_flatMap.mp hm
  obtain ⟨x', hx', e⟩ := List.mem_map.mp hx
  cases e
  have hin := h1.inside (.rule ident ty alts) (by simp)
  refine ⟨hx', (hin.2.2 a ha').2, ?_, _, _, rfl, rfl, rfl, hr⟩
  obtain ⟨gs, _, hds⟩ := h1.shape
  exact declsOf_full hds (ident := ident) (ty := ty) (alts := alts) (by simp) a ha'

/-- The aliases of a generated production, when the names are well used: one for every name of the
alternative. -/
theorem Generated.entries {order : Nat → List Span → List Span} (hord : Orders order) {src : Text}
    {a : Alt} {x : Expansion} {q : ProductionBuild} (h : Generated order src a x q)
    (hd : WellNamed src a.items) :
    (∀ e ∈ q.aliases, e.alias ∈ names a.items) ∧
      (∀ n ∈ names a.items, ∃ e ∈ q.aliases, textOf src e.alias = textOf src n) ∧
      (∀ e ∈ q.aliases, EntryOk src 0 (bare a.items) x e) ∧
      (q.aliases.map (fun e => textOf src e.alias)).Nodup := by
  obtain ⟨_, _, _, E, p, rfl, hp1, hp2, hr⟩ := h.rel hord
  obtain ⟨news, e1, h1, h2, h3, h4⟩ := hr.aliases hd (by
    unfold ProductionBuild.spans
    rw [hp2]
    intro a ha
    cases ha)
  rw [hp2, List.nil_append] at e1
  rw [hp1] at h4
  subst e1
  exact ⟨h2, fun n hn => List.mem_map.mp (h3 n hn), h4, h1⟩

/-- The alias of a taken item is the one with its name. -/
theorem Generated.taken {order : Nat → List Span → List Span} (hord : Orders order) {src : Text}
    {a : Alt} {x : Expansion} {q : ProductionBuild} (h : Generated order src a x q)
    (hd : WellNamed src a.items) {n : Span} {pl : Place} (hn : (n, pl) ∈ x.places) :
    ∃ e ∈ q.aliases, e.alias = n ∧ ∀ {τ : Type} (toks : List τ), e.value toks = (do
      let v ← piece toks pl.start (pl.items.map (fun k => pl.start + k))
      return wrap (decide (n ∈ bare a.items)) v) := by
  obtain ⟨hx, _, _, _⟩ := h.rel hord
  obtain ⟨_, h1, h2, _⟩ := h.entries hord hd
  obtain ⟨e, he, et⟩ := h1 n (places_names _ x hx n pl hn)
  obtain ⟨en, _⟩ := (h2 e he).place n pl hn et.symm
  refine ⟨e, he, en, fun toks => ?_⟩
  subst en
  rw [value_taken (h2 e he) hn (places_entered _ x hx _ pl hn)]
  have : decide (textOf src e.alias ∈ (bare a.items).map (textOf src)) =
      decide (e.alias ∈ bare a.items) := by
    rw [decide_eq_decide]
    constructor
    · intro h
      obtain ⟨b, hb, eb⟩ := List.mem_map.mp h
      rw [bare_eq _ hd e.alias (places_names _ x hx _ pl hn) b hb eb.symm]
      exact hb
    · exact List.mem_map_of_mem
  rw [this]

/-- An alias whose name is sure is `None` if no item with its name is taken. -/
theorem Generated.skipped {order : Nat → List Span → List Span} (hord : Orders order) {src : Text}
    {a : Alt} {x : Expansion} {q : ProductionBuild} (h : Generated order src a x q)
    (hd : WellNamed src a.items) {e : ItemAlias} (he : e ∈ q.aliases)
    (hent : textOf src e.alias ∉ x.entered.map (textOf src)) {τ : Type} {toks : List τ}
    (ht : toks ≠ []) : e.value toks = .ok .none := by
  obtain ⟨hx, _, _, _⟩ := h.rel hord
  obtain ⟨_, _, h2, _⟩ := h.entries hord hd
  refine value_skipped (h2 e he) (fun hb => hent ?_) hent ht
  obtain ⟨b, hb, eb⟩ := List.mem_map.mp hb
  obtain ⟨pl, hpl⟩ := bare_takes _ x hx b hb
  rw [← eb]
  exact List.mem_map_of_mem (places_entered _ x hx _ pl hpl)

theorem takes_entered {src : Text} {is : List Item} {x : Expansion} (hx : x ∈ expand is) {t : Text}
    (h : x.TakesName src t) : t ∈ x.entered.map (textOf src) := by
  obtain ⟨n, pl, hp, rfl⟩ := takesName_iff.mp h
  exact List.mem_map_of_mem (places_entered _ x hx n pl hp)

/-- C42: the line generated for the alias of a plain item binds the item at the position of its
symbol, bare if the item is in every expansion of the alternative and inside `Some` otherwise; there
is only one line for the name. -/
theorem C42_alias {order : Nat → List Span → List Span} (hord : Orders order) {src : Text} {a : Alt}
    {x : Expansion} {q : ProductionBuild} (h : Generated order src a x q)
    (hd : WellNamed src a.items) {n : Span} {pl : Place} (hn : (n, pl) ∈ x.places)
    (hpl : pl.items = none) {τ : Type} {toks : List τ} (ht : toks.length = q.production.length) :
    (∃ sp, (n, sp) ∈ marked a.items ∧ x.word[pl.start]? = some sp) ∧
    ∃ t e, toks[pl.start]? = some t ∧ e ∈ q.aliases ∧ e.alias = n ∧
      e.value toks = .ok (wrap (decide (n ∈ bare a.items)) (.one t)) ∧
      ∀ e' ∈ q.aliases, textOf src e'.alias = textOf src n → e' = e := by
  obtain ⟨hx, _, _, E, p, rfl, hp1, hp2, hr⟩ := h.rel hord
  obtain ⟨_, _, _, h3⟩ := h.entries hord hd
  have hlen : toks.length = x.word.length := by
    rw [ht, hr.word, hp1]; simp
  obtain ⟨b1, b2, b3⟩ := places_bounds _ x hx n pl hn
  have b4 := b3 hpl
  refine ⟨places_marked _ x hx n pl hn hpl, ?_⟩
  obtain ⟨e, he, en, hv⟩ := h.taken hord hd hn
  have hlt : pl.start < toks.length := by omega
  refine ⟨toks[pl.start], e, List.getElem?_eq_getElem hlt, he, en, ?_, ?_⟩
  · rw [hv, hpl]
    simp only [Option.map_none, piece, List.getElem?_eq_getElem hlt, Out.ok_bind]
    rfl
  · intro e' he' et
    exact inj_of_nodup_map h3 he' he (by rw [et, en])

/-- C43 in the part that holds: if a name is sure (whenever an alternative with the name is taken, an
item with the name is), its alias is `None` if no item with the name was taken and not otherwise.
(The full claim, for all aliases, is false: `C43_false`, and for every other name: `C43_boundary`.) -/
theorem C43_partial {order : Nat → List Span → List Span} (hord : Orders order) {src : Text} {a : Alt}
    {x : Expansion} {q : ProductionBuild} (h : Generated order src a x q)
    (hd : WellNamed src a.items) {n : Span} (hn : n ∈ names a.items)
    (hsure : Sure src a.items (textOf src n)) {τ : Type} {toks : List τ} (ht : toks ≠ []) :
    ∃ e ∈ q.aliases, textOf src e.alias = textOf src n ∧
      (¬ x.TakesName src (textOf src n) → e.value toks = .ok .none) ∧
      (x.TakesName src (textOf src n) → e.value toks ≠ .ok .none) := by
  obtain ⟨hx, _, _, _⟩ := h.rel hord
  obtain ⟨_, h1, h2, _⟩ := h.entries hord hd
  obtain ⟨e, he, et⟩ := h1 n hn
  refine ⟨e, he, et, fun hs => ?_, fun hs => ?_⟩
  · refine h.skipped hord hd he (fun hent => hs ?_) ht
    rw [et] at hent
    exact sure_takes _ hsure x hx hent
  · refine value_entered (h2 e he) ?_ toks
    rw [et]
    exact takes_entered hx hs

/-- C43, what happens in general: an alias is `None` exactly if no item with its name outside of groups
was taken, and no alternative, of a group outside of groups, in which its name occurs. -/
theorem C43_actual {order : Nat → List Span → List Span} (hord : Orders order) {src : Text} {a : Alt}
    {x : Expansion} {q : ProductionBuild} (h : Generated order src a x q)
    (hd : WellNamed src a.items) {n : Span} (hn : n ∈ names a.items) {τ : Type} {toks : List τ}
    (ht : toks ≠ []) :
    ∃ e ∈ q.aliases, textOf src e.alias = textOf src n ∧
      (e.value toks = .ok .none ↔ textOf src n ∉ x.entered.map (textOf src)) := by
  obtain ⟨_, h1, h2, _⟩ := h.entries hord hd
  obtain ⟨e, he, et⟩ := h1 n hn
  refine ⟨e, he, et, fun hv hent => value_entered (h2 e he) (by rw [et]; exact hent) toks hv,
    fun hent => ?_⟩
  exact h.skipped hord hd he (by rw [et]; exact hent) ht

/-- C43 fails for every other name: in some expansion its alias is bound, or its line panics, although
no item with the name was taken. -/
theorem C43_boundary {order : Nat → List Span → List Span} (hord : Orders order) {src : Text} {a : Alt}
    {x₀ : Expansion} {q₀ : ProductionBuild} (h₀ : Generated order src a x₀ q₀)
    (hd : WellNamed src a.items) {n : Span} (hn : n ∈ names a.items)
    (hc : ¬ Sure src a.items (textOf src n)) {τ : Type} :
    ∃ x q, Generated order src a x q ∧ ¬ x.TakesName src (textOf src n) ∧
      ∃ e ∈ q.aliases, textOf src e.alias = textOf src n ∧
        ∀ toks : List τ, e.value toks ≠ .ok .none := by
  obtain ⟨_, _, hfull, _⟩ := h₀.rel hord
  obtain ⟨x, hx, hent, hnt⟩ := unsure _ hfull hd hc
  obtain ⟨ast, pre, post, ident, ty, alts, b, b', prods, i, g1, g2, g3, g4, g5⟩ := h₀.made
  obtain ⟨prods', g6, g7⟩ := rule_productions hord g1 g2
  rw [g3] at g6
  cases g6
  have hm : (a, x₀) ∈ expansions alts := List.mem_of_getElem? g4
  obtain ⟨a', ha', hx'⟩ := List.mem_flatMap.mp hm
  obtain ⟨x', _, e⟩ := List.mem_map.mp hx'
  cases e
  have hm' : (a, x) ∈ expansions alts := List.mem_flatMap.mpr ⟨a, ha', List.mem_map.mpr ⟨x, hx, rfl⟩⟩
  obtain ⟨j, hj⟩ := List.getElem?_of_mem hm'
  have hlt : j < prods.length := by
    rw [← g7.length]
    exact (List.getElem?_eq_some_iff.mp hj).1
  have hg : Generated order src a x prods[j] := ⟨ast, pre, post, ident, ty, alts, b, b', prods, j, g1,
    g2, g3, hj, List.getElem?_eq_getElem hlt⟩
  refine ⟨x, prods[j], hg, hnt, ?_⟩
  obtain ⟨_, h1, h2, _⟩ := hg.entries hord hd
  obtain ⟨e, he, et⟩ := h1 n hn
  exact ⟨e, he, et, fun toks => value_entered (h2 e he) (by rw [et]; exact hent) toks⟩

/-- C44, what happens in general: the range of the alias of a group begins with the group and has as
many items as the alternative taken has items written; the line panics if the production ends
before. -/
theorem C44_actual {order : Nat → List Span → List Span} (hord : Orders order) {src : Text} {a : Alt}
    {x : Expansion} {q : ProductionBuild} (h : Generated order src a x q)
    (hd : WellNamed src a.items) {n : Span} {pl : Place} {k : Nat} (hn : (n, pl) ∈ x.places)
    (hpl : pl.items = some k) {τ : Type} (toks : List τ) :
    (∃ alts, (n, alts) ∈ groups a.items ∧ ∃ A ∈ alts, ∃ y ∈ expand A, k = A.length ∧
      pl.stop = pl.start + y.word.length ∧
      (x.word.drop pl.start).take (pl.stop - pl.start) = y.word) ∧
    ∃ e ∈ q.aliases, e.alias = n ∧ e.value toks =
      if pl.start + k ≤ toks.length then
        .ok (wrap (decide (n ∈ bare a.items)) (.many ((toks.drop pl.start).take k)))
      else .panic .indexRange := by
  obtain ⟨hx, _, _, _⟩ := h.rel hord
  refine ⟨places_groups _ x hx n pl k hn hpl, ?_⟩
  obtain ⟨e, he, en, hv⟩ := h.taken hord hd hn
  refine ⟨e, he, en, ?_⟩
  rw [hv, hpl]
  simp only [Option.map_some, piece, Span.fromSource, Span.new, Nat.le_add_right, true_and]
  by_cases hle : pl.start + k ≤ toks.length
  · rw [if_pos hle, if_pos hle, Nat.add_sub_cancel_left]
    rfl
  · rw [if_neg hle, if_neg hle]
    rfl

/-- C44 in the part that holds, and where it ends: the alias of a group covers exactly the group's items
if and only if the alternative taken has as many symbols in the production as items written.  (The full
claim is false: `C44_false`.) -/
theorem C44_boundary {order : Nat → List Span → List Span} (hord : Orders order) {src : Text} {a : Alt}
    {x : Expansion} {q : ProductionBuild} (h : Generated order src a x q)
    (hd : WellNamed src a.items) {n : Span} {pl : Place} {k : Nat} (hn : (n, pl) ∈ x.places)
    (hpl : pl.items = some k) {τ : Type} {toks : List τ} (ht : toks.length = q.production.length) :
    ∃ e ∈ q.aliases, e.alias = n ∧ (e.value toks = .ok (wrap (decide (n ∈ bare a.items))
      (.many ((toks.drop pl.start).take (pl.stop - pl.start)))) ↔ pl.stop = pl.start + k) := by
  obtain ⟨hx, _, _, E, p, rfl, hp1, hp2, hr⟩ := h.rel hord
  have hlen : toks.length = x.word.length := by
    rw [ht, hr.word, hp1]; simp
  obtain ⟨_, e, he, hen, hv⟩ := C44_actual hord h hd hn hpl toks
  obtain ⟨b1, b2, b3⟩ := places_bounds _ x hx n pl hn
  refine ⟨e, he, hen, ?_⟩
  rw [hv]
  constructor
  · intro h
    split at h
    · rename_i hle
      have : (toks.drop pl.start).take k = (toks.drop pl.start).take (pl.stop - pl.start) := by
        generalize decide (n ∈ bare a.items) = w at h
        cases w <;> (simp only [wrap] at h; injections)
      have := congrArg List.length this
      simp only [List.length_take, List.length_drop] at this
      omega
    · cases h
  · intro h
    rw [if_pos (by omega)]
    have : k = pl.stop - pl.start := by omega
    rw [← this]

/-- C44 in the part that holds: the alias of a group all of whose alternatives have as many symbols in
every expansion as items written covers exactly the group's items. -/
theorem C44_partial {order : Nat → List Span → List Span} (hord : Orders order) {src : Text} {a : Alt}
    {x : Expansion} {q : ProductionBuild} (h : Generated order src a x q)
    (hd : WellNamed src a.items) {n : Span} {pl : Place} {k : Nat} (hn : (n, pl) ∈ x.places)
    (hpl : pl.items = some k)
    (hs : ∀ alts, (n, alts) ∈ groups a.items → ∀ A ∈ alts, ∀ y ∈ expand A, y.word.length = A.length)
    {τ : Type} {toks : List τ} (ht : toks.length = q.production.length) :
    ∃ e ∈ q.aliases, e.alias = n ∧ e.value toks = .ok (wrap (decide (n ∈ bare a.items))
      (.many ((toks.drop pl.start).take (pl.stop - pl.start)))) := by
  obtain ⟨⟨alts, g1, A, hA, y, hy, g2, g3, _⟩, _⟩ := C44_actual hord h hd hn hpl toks
  obtain ⟨e, he, hen, hv⟩ := C44_boundary hord h hd hn hpl ht
  have := hs alts g1 A hA y hy
  exact ⟨e, he, hen, hv.mpr (by omega)⟩

/-- C45: every production generated for an alternative binds every alias name occurring anywhere in
the alternative, and no other, whatever the orders of the hash sets and even if names are repeated. -/
theorem C45_names {order : Nat → List Span → List Span} (hord : Orders order) {src : Text} {a : Alt}
    {x : Expansion} {q : ProductionBuild} (h : Generated order src a x q) (t : Text) :
    (∃ e ∈ q.aliases, textOf src e.alias = t) ↔ ∃ n ∈ names a.items, textOf src n = t := by
  obtain ⟨_, _, _, E, p, rfl, hp1, hp2, hr⟩ := h.rel hord
  have := hr.texts t
  rw [hp2] at this
  simp only [aliasTexts, List.mem_map, List.map_nil, List.not_mem_nil, false_or] at this
  exact this

/-- C45: if the alias names are well used, an alias is an `Option` in all productions of an alternative
or in none. -/
theorem C45_option {order order' : Nat → List Span → List Span} (hord : Orders order)
    (hord' : Orders order') {src : Text} {a : Alt} {x x' : Expansion} {q q' : ProductionBuild}
    (h : Generated order src a x q) (h' : Generated order' src a x' q')
    (hd : WellNamed src a.items) {e e' : ItemAlias} (he : e ∈ q.aliases) (he' : e' ∈ q'.aliases)
    (hn : textOf src e.alias = textOf src e'.alias) :
    e.optional.isSome = e'.optional.isSome := by
  obtain ⟨_, _, h2, _⟩ := h.entries hord hd
  obtain ⟨_, _, h2', _⟩ := h'.entries hord' hd
  rw [(h2 e he).status, (h2' e' he').status, hn]
  by_cases hb : textOf src e'.alias ∈ (bare a.items).map (textOf src)
  · simp only [if_pos hb]
  · simp only [if_neg hb, Option.isSome_some]

/-- C58: in an alternative whose alias names are well used and sure, and whose named groups have as many
symbols as items written, the `let`s of every reductor run without panic, and they give every alias of a
taken item exactly the items it stands for, and every name of which no item was taken `None`. -/
theorem C58_lets {order : Nat → List Span → List Span} (hord : Orders order) {src : Text} {a : Alt}
    {x : Expansion} {q : ProductionBuild} (h : Generated order src a x q)
    (hd : WellNamed src a.items) (htidy : Tidy src a.items) {τ : Type} {toks : List τ}
    (ht : toks.length = q.production.length) (hne : toks ≠ []) :
    ∃ lets, runLets src toks q.aliases = .ok lets ∧ ∀ n ∈ names a.items,
      (¬ x.TakesName src (textOf src n) → valueOf lets (textOf src n) = some .none) ∧
      ∀ pl, (n, pl) ∈ x.places → ∃ v, pl.covers toks = some v ∧
        valueOf lets (textOf src n) = some (wrap (decide (n ∈ bare a.items)) v) := by
  obtain ⟨hx, hread, _, E, p, rfl, hp1, hp2, hr⟩ := h.rel hord
  obtain ⟨h0, h1, h2, h3⟩ := h.entries hord hd
  have hlen : toks.length = x.word.length := by
    rw [ht, hr.word, hp1]; simp
  have taken : ∀ n pl, (n, pl) ∈ x.places → ∃ e ∈ q.aliases, e.alias = n ∧ ∃ v,
      pl.covers toks = some v ∧ e.value toks = .ok (wrap (decide (n ∈ bare a.items)) v) := by
    intro n pl hpl
    obtain ⟨b1, b2, b3⟩ := places_bounds _ x hx _ pl hpl
    obtain ⟨v, hv1, hv2⟩ := piece_covers (toks := toks) b1 (by omega) b3 (by
      intro k hk
      obtain ⟨alts, g1, A, hA, y, hy, g2, g3, _⟩ := places_groups _ x hx _ pl k hpl hk
      have := htidy.2 _ g1 A hA y hy
      omega)
    obtain ⟨e, he, en, hv⟩ := h.taken hord hd hpl
    refine ⟨e, he, en, v, hv1, ?_⟩
    rw [hv, hv2]
    rfl
  have skipped : ∀ e ∈ q.aliases, ¬ x.TakesName E.src (textOf E.src e.alias) →
      e.value toks = .ok .none := by
    intro e he hs
    exact h.skipped hord hd he (fun hent => hs (sure_takes _ (htidy.1 _ (h0 e he)) x hx hent)) hne
  have all : ∀ e ∈ q.aliases, ∃ v, e.value toks = .ok v := by
    intro e he
    by_cases hs : x.TakesName E.src (textOf E.src e.alias)
    · obtain ⟨n, pl, hpl, et⟩ := takesName_iff.mp hs
      obtain ⟨e', he', en, v, _, hv⟩ := taken n pl hpl
      have : e' = e := inj_of_nodup_map h3 he' he (by rw [en, et])
      subst this
      exact ⟨_, hv⟩
    · exact ⟨_, skipped e he hs⟩
  have hf : ∀ e ∈ q.aliases, InSrc E.src e.alias ∧
      e.value toks = .ok (match e.value toks with | .ok v => v | _ => .none) := by
    intro e he
    obtain ⟨v, hv⟩ := all e he
    refine ⟨hread _ (List.mem_append_right _ (h0 e he)), ?_⟩
    rw [hv]
  refine ⟨_, runLets_ok (fun e => match e.value toks with | .ok v => v | _ => .none) hf, ?_⟩
  intro n hn
  constructor
  · intro hs
    obtain ⟨e, he, et⟩ := h1 n hn
    rw [← et, valueOf_map _ h3 he, skipped e he (by rw [et]; exact hs)]
  · intro pl hpl
    obtain ⟨e, he, en, v, hv1, hv2⟩ := taken n pl hpl
    refine ⟨v, hv1, ?_⟩
    rw [← en, valueOf_map _ h3 he, hv2, en]

/-! ### C46: reductors -/

/-- C46: the written rule and the reductor vector have one entry per expansion, in the same order:
the i-th production has the symbols of the i-th expansion, and the i-th reductor the code block of its
alternative, the `let`s of its aliases, and the type of the rule. -/
theorem C46_reductors {order : Nat → List Span → List Span} (hord : Orders order) {src : Text}
    {ast : Gramem} {pre post : List Decl} {ident ty : Span} {alts : List Alt} {b b' : Builder}
    (h : IsProgram src ast (pre ++ .rule ident ty alts :: post)) (hne : alts ≠ [])
    (hb : ∀ p ∈ b.aliases, InSrc src p.2)
    (hp : Builder.process order src b ast = .ok b')
    (hcode : ∀ a ∈ alts, ∃ body, textOf src a.block = 45 :: 62 :: (body ++ [37])) :
    ∃ prods ws rs, b'.rules.lookup (textOf src ident) = some prods ∧
      writeRule src prods = .ok ws ∧ writeReduction src prods = .ok rs ∧
      ws.length = (expansions alts).length ∧ rs.length = (expansions alts).length ∧
      ∀ (i : Nat) (a : Alt) (x : Expansion), (expansions alts)[i]? = some (a, x) →
        ws[i]? = some (x.word.map
          (fun sp => textOf src (resolve src (b.aliases ++ tokens src pre) sp))) ∧
        ∃ (q : ProductionBuild) (r : Reductor), prods[i]? = some q ∧ rs[i]? = some r ∧ r.lets = q.aliases ∧ r.ty = textOf src ty ∧
          textOf src a.block = 45 :: 62 :: (r.code ++ [37]) := by
  obtain ⟨prods, g1, g2⟩ := rule_productions hord h hp
  have hin := h.inside (.rule ident ty alts) (by simp)
  have hA : ∀ p ∈ b.aliases ++ tokens src pre, InSrc src p.2 := by
    intro p hp
    rcases List.mem_append.mp hp with hp | hp
    · exact hb p hp
    · exact tokens_inSrc (fun d hd => h.inside d (List.mem_append_left _ hd)) p hp
  have hmem : ∀ q ∈ prods, ∃ a ∈ alts, ∃ x ∈ expand a.items,
      Rel { src := src, aliases := b.aliases ++ tokens src pre, order := order } (baseProd a ty)
        (names a.items) (bare a.items) (WellNamed src a.items)
        (fun t g c => Uniform src t g c a.items) x q := by
    intro q hq
    obtain ⟨⟨a, x⟩, hax, hr⟩ := g2.mem_right hq
    obtain ⟨a', ha', hx⟩ := List.mem_flatMap.mp hax
    obtain ⟨x', hx', e⟩ := List.mem_map.mp hx
    cases e
    exact ⟨a, ha', x, hx', hr⟩
  have hbody : ∀ q ∈ prods, textOf src q.codeblock =
      45 :: 62 :: (((textOf src q.codeblock).drop 2).dropLast ++ [37]) := by
    intro q hq
    obtain ⟨a, ha, x, hx, hr⟩ := hmem q hq
    obtain ⟨body, hbody⟩ := hcode a ha
    have e : q.codeblock = a.block := hr.block
    rw [e, hbody]
    simp
  have hw := writeRule_ok (src := src) (ps := prods) (by
    intro q hq s hs
    obtain ⟨a, ha, x, hx, hr⟩ := hmem q hq
    rw [hr.word] at hs
    simp only [baseProd, List.nil_append, List.mem_map] at hs
    obtain ⟨sp, hsp, rfl⟩ := hs
    exact resolve_inSrc hA ((hin.2.2 a ha).2 _ (List.mem_append_left _ (word_symbols _ x hx sp hsp))))
  have hrs := writeReductors_ok (src := src) (ty := textOf src ty)
    (fun q => ((textOf src q.codeblock).drop 2).dropLast) (ps := prods) (by
    intro q hq
    obtain ⟨a, ha, x, hx, hr⟩ := hmem q hq
    refine ⟨?_, ?_, hbody q hq⟩
    · intro s hs
      rcases hr.spans s hs with h | h
      · cases h
      · exact (hin.2.2 a ha).2 _ (List.mem_append_right _ h)
    · have e : q.codeblock = a.block := hr.block
      rw [e]
      exact (hin.2.2 a ha).1)
  have hlen := g2.length
  have hne' : prods ≠ [] := by
    intro e
    obtain ⟨gs, _, hds⟩ := h.shape
    obtain ⟨a, ha⟩ := List.exists_mem_of_ne_nil _ hne
    obtain ⟨x, hx⟩ := full_expand a.items
      (declsOf_full hds (ident := ident) (ty := ty) (alts := alts) (by simp) a ha)
    have : (a, x) ∈ expansions alts := List.mem_flatMap.mpr ⟨a, ha, List.mem_map.mpr ⟨x, hx, rfl⟩⟩
    rw [e] at hlen
    rw [List.eq_nil_of_length_eq_zero hlen] at this
    cases this
  refine ⟨prods, _, prods.map (fun q => (⟨textOf src ty, q.aliases,
    ((textOf src q.codeblock).drop 2).dropLast⟩ : Reductor)), g1, hw, ?_,
    by rw [List.length_map]; exact hlen.symm, ?_, ?_⟩
  · cases prods with
    | nil => exact absurd rfl hne'
    | cons q qs =>
      obtain ⟨a, ha, x, hx, hr⟩ := hmem q (List.mem_cons_self ..)
      have e : q.ty = ty := hr.ty
      unfold writeReduction
      simp only
      rw [e, slice_ok hin.2.1]
      simp only [Out.ok_bind]
      exact hrs
  · rw [List.length_map]; exact hlen.symm
  · intro i a x hax
    have hlt : i < prods.length := by
      rw [← hlen]
      exact (List.getElem?_eq_some_iff.mp hax).1
    have hqi := List.getElem?_eq_getElem hlt
    have hr := g2.get hax hqi
    refine ⟨?_, prods[i], _, hqi, by rw [List.getElem?_map, hqi]; rfl, rfl, rfl, ?_⟩
    · rw [List.getElem?_map, hqi]
      simp only [Option.map_some]
      rw [hr.word]
      simp [baseProd]
    · have e : prods[i].codeblock = a.block := hr.block
      rw [← e]
      exact hbody _ (List.mem_of_getElem? hqi)

/-! ### Sample programs -/

namespace WopSamples

/-- The source `A B C x y g r -> {1}% t T u x`; the spans below point into it. -/
def src : Text := "A B C x y g r -> {1}% t T u x".toUTF8.toList.map (·.toNat)

def sA : Span := ⟨0, 1⟩
def sB : Span := ⟨2, 3⟩
def sC : Span := ⟨4, 5⟩
def x : Span := ⟨6, 7⟩
def y : Span := ⟨8, 9⟩
def g : Span := ⟨10, 11⟩
def r : Span := ⟨12, 13⟩
def block : Span := ⟨14, 21⟩
def t : Span := ⟨22, 23⟩
def target : Span := ⟨24, 25⟩
def path : Span := ⟨26, 27⟩
def x' : Span := ⟨28, 29⟩

/-- A plain item of a rule. -/
def item (sp : Span) (opt : Bool) (alias : Option Span) : Gramem :=
  ⟨⟨.ruleItem ⟨⟨.identPath sp, sp⟩, .identPath⟩ opt alias true, sp⟩, .ruleItem⟩

/-- A group of alternatives. -/
def group (alts : List (List Gramem)) (opt : Bool) (alias : Option Span) (block : Span) : Gramem :=
  ⟨⟨.ruleItem ⟨⟨.rule (alts.map (fun a => (a, block))), sA⟩, .rule⟩ opt alias true, sA⟩, .ruleItem⟩

/-- A rule `r: t = pipe -> {1}%`. -/
def rule (pipe : List Gramem) (block : Span) : Gramem :=
  ⟨⟨.ruleDecl r t [(pipe, block)], r⟩, .ruleDecl⟩

/-- A token alias. -/
def token (name target : Span) : Gramem := ⟨⟨.alias name target, name⟩, .alias⟩

/-- An import. -/
def use : Gramem := ⟨⟨.import_ path, path⟩, .import_⟩

/-- A program. -/
def program (ds : List Gramem) : Gramem := ⟨⟨.program ds, sA⟩, .program⟩

/-- Hash sets are walked backwards. -/
def order : Nat → List Span → List Span := fun _ l => l.reverse

theorem orders : Orders order := fun _ l => List.reverse_perm l

/-- The alternative `A?:x (B:y | C):g`. -/
def flat : List Gramem :=
  [item sA true (some x), group [[item sB false (some y)], [item sC false none]] false (some g) ⟨0, 0⟩]

/-- The alternative `(A B?:y)`. -/
def inner : List Gramem := [group [[item sA false none, item sB true (some y)]] false none ⟨0, 0⟩]

/-- The alternative `(A? B):g`. -/
def range : List Gramem := [group [[item sA true none, item sB false none]] false (some g) ⟨0, 0⟩]

/-- The alternative `(A:x | B:x)`. -/
def twice : List Gramem :=
  [group [[item sA false (some x)], [item sB false (some x')]] false none ⟨0, 0⟩]

/-- The alternative `(A:x | B:x | C)`. -/
def lacking : List Gramem :=
  [group [[item sA false (some x)], [item sB false (some x')], [item sC false none]] false none ⟨0, 0⟩]

/-- A program with an import, the alias `alias A = T;` and a rule. -/
def prog (pipe : List Gramem) : Gramem := program [use, token sA target, rule pipe block]

theorem inSrc (sp : Span) (h : (decide (sp.start ≤ sp.stop ∧ sp.stop ≤ 29)) = true) : InSrc src sp := by
  have e : src.length = 29 := by decide +kernel
  have ha : ∀ c ∈ src, c < 128 := by decide +kernel
  have hb : ∀ i, Boundary src i := fun i => .inr (fun c hc => .inl (ha c (List.mem_of_getElem? hc)))
  have h := of_decide_eq_true h
  exact ⟨h.1, e ▸ h.2, hb _, hb _⟩

/-- The declarations of a sample program. -/
def decls (items : List Item) (inner : List Span) : List Decl :=
  [.use path, .token sA target, .rule r t [⟨items, block, inner⟩]]

theorem isProgram {pipe : List Gramem} {items : List Item} (h : itemsOf pipe = some items)
    (hin : ∀ s ∈ symbols items ++ names items, (decide (s.start ≤ s.stop ∧ s.stop ≤ 29)) = true) :
    IsProgram src (prog pipe) (decls items (blocksOf pipe)) where
  shape := ⟨_, rfl, by simp [declsOf, ruleOf, h, use, token, rule, decls]⟩
  inside := by
    intro d hd
    simp only [decls, List.mem_cons, List.not_mem_nil, or_false] at hd
    rcases hd with rfl | rfl | rfl
    · exact inSrc _ (by decide)
    · exact ⟨inSrc _ (by decide), inSrc _ (by decide)⟩
    · refine ⟨inSrc _ (by decide), inSrc _ (by decide), ?_⟩
      intro a ha
      rw [List.mem_singleton] at ha
      subst ha
      exact ⟨inSrc block (by decide), fun s hs => inSrc s (hin s hs)⟩

/-- The items of `flat`. -/
def flatItems : List Item :=
  [.sym sA true (some x) true, .group [[.sym sB false (some y) true], [.sym sC false none true]] false
    (some g) true]

/-- The items of `inner`. -/
def innerItems : List Item :=
  [.group [[.sym sA false none true, .sym sB true (some y) true]] false none true]

/-- The items of `range`. -/
def rangeItems : List Item :=
  [.group [[.sym sA true none true, .sym sB false none true]] false (some g) true]

/-- The items of `twice`. -/
def twiceItems : List Item :=
  [.group [[.sym sA false (some x) true], [.sym sB false (some x') true]] false none true]

/-- The items of `lacking`. -/
def lackingItems : List Item :=
  [.group [[.sym sA false (some x) true], [.sym sB false (some x') true], [.sym sC false none true]]
    false none true]

theorem twice_program : IsProgram src (prog twice) (decls twiceItems [⟨0, 0⟩, ⟨0, 0⟩]) :=
  have e : blocksOf twice = [⟨0, 0⟩, ⟨0, 0⟩] := by
    simp [blocksOf, altBlocks, twice, item, group]
  e ▸ isProgram (pipe := twice) (items := twiceItems)
    (by simp [itemsOf, altsOf, twice, twiceItems, item, group]) (by decide +kernel)

theorem lacking_program : IsProgram src (prog lacking) (decls lackingItems [⟨0, 0⟩, ⟨0, 0⟩, ⟨0, 0⟩]) :=
  have e : blocksOf lacking = [⟨0, 0⟩, ⟨0, 0⟩, ⟨0, 0⟩] := by
    simp [blocksOf, altBlocks, lacking, item, group]
  e ▸ isProgram (pipe := lacking) (items := lackingItems)
    (by simp [itemsOf, altsOf, lacking, lackingItems, item, group]) (by decide +kernel)

theorem flat_program : IsProgram src (prog flat) (decls flatItems [⟨0, 0⟩, ⟨0, 0⟩]) :=
  have e : blocksOf flat = [⟨0, 0⟩, ⟨0, 0⟩] := by
    simp [blocksOf, altBlocks, flat, item, group]
  e ▸ isProgram (pipe := flat) (items := flatItems)
    (by simp [itemsOf, altsOf, flat, flatItems, item, group]) (by decide +kernel)

theorem inner_program : IsProgram src (prog inner) (decls innerItems [⟨0, 0⟩]) :=
  have e : blocksOf inner = [⟨0, 0⟩] := by
    simp [blocksOf, altBlocks, inner, item, group]
  e ▸ isProgram (pipe := inner) (items := innerItems)
    (by simp [itemsOf, altsOf, inner, innerItems, item, group]) (by decide +kernel)

theorem range_program : IsProgram src (prog range) (decls rangeItems [⟨0, 0⟩]) :=
  have e : blocksOf range = [⟨0, 0⟩] := by
    simp [blocksOf, altBlocks, range, item, group]
  e ▸ isProgram (pipe := range) (items := rangeItems)
    (by simp [itemsOf, altsOf, range, rangeItems, item, group]) (by decide +kernel)

theorem ok_of_check {α : Type} {o : Out α} (P : α → Prop) [DecidablePred P]
    (h : (match o with | .ok b => decide (P b) | _ => false) = true) : ∃ b, o = .ok b ∧ P b := by
  cases o with
  | ok b => exact ⟨b, rfl, of_decide_eq_true h⟩
  | panic w => cases h
  | fuel => cases h

theorem panic_of_check {α : Type} {o : Out α}
    (h : (match o with | .panic _ => true | _ => false) = true) : ∃ w, o = .panic w := by
  cases o with
  | ok b => cases h
  | panic w => exact ⟨w, rfl⟩
  | fuel => cases h

theorem some_of_check {α : Type} {o : Option α} (P : α → Prop) [DecidablePred P]
    (h : (match o with | some b => decide (P b) | _ => false) = true) : ∃ b, o = some b ∧ P b := by
  cases o with
  | some b => exact ⟨b, rfl, of_decide_eq_true h⟩
  | none => cases h

/-- The text of a rule name is looked up in the built rules. -/
def built (pipe : List Gramem) : Option RuleBuild :=
  match Builder.process order src .empty (prog pipe) with
  | .ok b => b.rules.lookup (textOf src r)
  | _ => none

theorem generated {pipe : List Gramem} {items : List Item} {bs : List Span}
    (h : IsProgram src (prog pipe) (decls items bs)) {i : Nat} {x : Expansion} {q : ProductionBuild}
    (hx : (expand items)[i]? = some x) (hq : (built pipe).bind (·[i]?) = some q) :
    Generated order src ⟨items, block, bs⟩ x q := by
  unfold built at hq
  split at hq
  · rename_i b' hb'
    cases hl : b'.rules.lookup (textOf src r) with
    | none => rw [hl] at hq; cases hq
    | some prods =>
      rw [hl] at hq
      refine ⟨_, [.use path, .token sA target], [], r, t, [⟨items, block, bs⟩], .empty, b', prods, i,
        h, hb', hl, ?_, hq⟩
      unfold expansions
      simp only [List.flatMap_cons, List.flatMap_nil, List.append_nil, List.getElem?_map, hx,
        Option.map_some]
  · cases hq

end WopSamples

open WopSamples

/-- Not vacuous: a program with an import, a token alias and a rule with an optional item and an
aliased group is added to an empty builder. -/
example : Addable src .empty (decls flatItems [⟨0, 0⟩, ⟨0, 0⟩]) ∧
    ∃ b', Builder.process order src .empty (prog flat) = .ok b' ∧ b'.imports = [path] ∧
      b'.aliases = [(textOf src sA, target)] ∧ b'.rules.map (·.1) = [textOf src r] := by
  have h : ∃ b', Builder.process order src .empty (prog flat) = .ok b' ∧ b'.imports = [path] ∧
      b'.aliases = [(textOf src sA, target)] ∧ b'.rules.map (·.1) = [textOf src r] := by
    refine ok_of_check (fun b' : Builder => b'.imports = [path] ∧ b'.aliases = [(textOf src sA, target)] ∧
      b'.rules.map (·.1) = [textOf src r]) ?_
    decide +kernel
  refine ⟨?_, h⟩
  refine Classical.byContradiction (fun hn => ?_)
  obtain ⟨w, hw⟩ := (C47_rejects orders flat_program .empty).mpr hn
  obtain ⟨b', hb', _⟩ := h
  rw [hb'] at hw
  cases hw

/-- Not vacuous: the rejections — a rule declared twice, a token alias declared twice, an alternative
without code block, and a code block in a group. -/
example :
    (∃ w, Builder.process order src .empty (program [rule flat block, rule flat block]) = .panic w) ∧
    (∃ w, Builder.process order src .empty (program [token sA target, token sA sB]) = .panic w) ∧
    (∃ w, Builder.process order src .empty (program [rule flat ⟨0, 0⟩]) = .panic w) ∧
    (∃ w, Builder.process order src .empty
      (program [rule [group [[item sA false none]] false none block] block]) = .panic w) :=
  ⟨panic_of_check (by decide +kernel), panic_of_check (by decide +kernel),
    panic_of_check (by decide +kernel), panic_of_check (by decide +kernel)⟩

/-- Not vacuous: the productions of `A?:x (B:y | C):g` with `A` declared as an alias of `T`. -/
example : ∃ prods, built flat = some prods ∧ prods.map (·.production) =
    [[target, sB], [target, sC], [sB], [sC]] :=
  some_of_check (fun prods : RuleBuild => prods.map (·.production) =
    [[target, sB], [target, sC], [sB], [sC]]) (by decide +kernel)

/-- Not vacuous: in `[B]`, `x` is skipped, `y` is the first item and `g` the range of one item. -/
example : ∃ q, Generated order src ⟨flatItems, block, [⟨0, 0⟩, ⟨0, 0⟩]⟩
      ⟨[sB], [(g, ⟨0, 1, some 1, true⟩), (y, ⟨0, 1, none, true⟩)], [g, y]⟩ q ∧
    WellNamed src flatItems ∧ Tidy src flatItems ∧ q.production.length = 1 ∧
    (match runLets src [7] q.aliases with
      | .ok lets => (valueOf lets (textOf src x), valueOf lets (textOf src y), valueOf lets (textOf src g))
      | _ => (none, none, none)) = (some .none, some (.some (.one 7)), some (.bare (.many [7]))) := by
  obtain ⟨q, hq, _⟩ := some_of_check (o := (built flat).bind (·[2]?)) (fun _ => True) (by decide +kernel)
  refine ⟨q, generated flat_program (by with_unfolding_all rfl) hq, ?_, ?_, ?_, ?_⟩
  · refine distinct_wellNamed _ ?_
    unfold DistinctNames; decide +kernel
  · refine flat_tidy ?_
    intro i hi A hA j hj
    simp only [flatItems, List.mem_cons, List.not_mem_nil, or_false] at hi
    rcases hi with rfl | rfl
    · cases hA
    · simp only [Item.alts, List.mem_cons, List.not_mem_nil, or_false] at hA
      rcases hA with rfl | rfl
      · rw [List.mem_singleton] at hj; subst hj; rfl
      · rw [List.mem_singleton] at hj; subst hj; rfl
  · have e : ((built flat).bind (·[2]?)).map (·.production.length) = some 1 := by decide +kernel
    rw [hq] at e
    simpa using e
  · have e : ((built flat).bind (·[2]?)).map (fun q => match runLets src [7] q.aliases with
      | .ok lets => (valueOf lets (textOf src x), valueOf lets (textOf src y), valueOf lets (textOf src g))
      | _ => (none, none, none)) =
        some (some .none, some (.some (.one 7)), some (.bare (.many [7]))) := by decide +kernel
    rw [hq] at e
    simpa using e

/-- Not vacuous, with a repeated name: in `(A:x | B:x)` the name is well used, and in `[B]` it is bound
to the second item with that name. -/
example : ∃ q, Generated order src ⟨twiceItems, block, [⟨0, 0⟩, ⟨0, 0⟩]⟩
      ⟨[sB], [(x', ⟨0, 1, none, true⟩)], [x']⟩ q ∧
    ¬ DistinctNames src twiceItems ∧ WellNamed src twiceItems ∧ Tidy src twiceItems ∧
    q.aliases.map (fun e => (textOf src e.alias, e.value [7])) =
      [(textOf src x, .ok (.some (.one 7)))] := by
  obtain ⟨q, hq, _⟩ := some_of_check (o := (built twice).bind (·[1]?)) (fun _ => True) (by decide +kernel)
  refine ⟨q, generated twice_program (by with_unfolding_all rfl) hq, ?_, ?_, ?_, ?_⟩
  · unfold DistinctNames; decide +kernel
  · simp only [twiceItems, WellNamed, Item.WellNamed, AltsWellNamed, Balanced, Apart]
    decide +kernel
  · refine flat_tidy ?_
    intro i hi A hA j hj
    rw [twiceItems, List.mem_singleton] at hi
    subst hi
    simp only [Item.alts, List.mem_cons, List.not_mem_nil, or_false] at hA
    rcases hA with rfl | rfl <;> (rw [List.mem_singleton] at hj; subst hj; rfl)
  · have e : ((built twice).bind (·[1]?)).map (fun q => q.aliases.map
      (fun e => (textOf src e.alias, e.value [7]))) =
        some [(textOf src x, .ok (.some (.one 7)))] := by decide +kernel
    rw [hq] at e
    simpa using e

/-- `WellNamed` is needed: in `(A:x | B:x | C)`, where one alternative of the group lacks the repeated
name, the production for `C` binds `x` to the item `C` instead of `None`. -/
theorem C43_unbalanced : ∃ q, Generated order src ⟨lackingItems, block, [⟨0, 0⟩, ⟨0, 0⟩, ⟨0, 0⟩]⟩
      ⟨[sC], [], []⟩ q ∧ x ∈ names lackingItems ∧ Sure src lackingItems (textOf src x) ∧
    ¬ (⟨[sC], [], []⟩ : Expansion).TakesName src (textOf src x) ∧
    q.aliases.map (fun e => (textOf src e.alias, e.value [7])) =
      [(textOf src x, .ok (.some (.one 7)))] := by
  obtain ⟨q, hq, _⟩ := some_of_check (o := (built lacking).bind (·[2]?)) (fun _ => True)
    (by decide +kernel)
  refine ⟨q, generated lacking_program (by with_unfolding_all rfl) hq, by decide +kernel, ?_, ?_, ?_⟩
  · refine (flat_tidy ?_).1 x (by decide +kernel)
    intro i hi A hA j hj
    rw [lackingItems, List.mem_singleton] at hi
    subst hi
    simp only [Item.alts, List.mem_cons, List.not_mem_nil, or_false] at hA
    rcases hA with rfl | rfl | rfl <;> (rw [List.mem_singleton] at hj; subst hj; rfl)
  · intro h
    cases h
  · have e : ((built lacking).bind (·[2]?)).map (fun q => q.aliases.map
      (fun e => (textOf src e.alias, e.value [7]))) =
        some [(textOf src x, .ok (.some (.one 7)))] := by decide +kernel
    rw [hq] at e
    simpa using e

/-- C43 in full is false: of `(A B?:y)` reduced from the one item `A`, the line for `y` indexes the
second item and panics, instead of binding `None`. -/
theorem C43_false : ¬ (∀ (order : Nat → List Span → List Span), Orders order → ∀ (src : Text) (a : Alt)
    (x : Expansion) (q : ProductionBuild), Generated order src a x q → DistinctNames src a.items →
    ∀ n ∈ names a.items, ∀ toks : List Nat, toks ≠ [] → toks.length = q.production.length →
      ∃ e ∈ q.aliases, e.alias = n ∧ (¬ x.Takes n → e.value toks = .ok .none)) := by
  intro hall
  obtain ⟨q, hq, _⟩ := some_of_check (o := (built inner).bind (·[1]?)) (fun _ => True) (by decide +kernel)
  have hg : Generated order src ⟨innerItems, block, [⟨0, 0⟩]⟩ ⟨[sA], [], [y]⟩ q :=
    generated inner_program (by with_unfolding_all rfl) hq
  have hd : DistinctNames src innerItems := by unfold DistinctNames; decide +kernel
  have e : ((built inner).bind (·[1]?)).map (fun q => (q.production.length,
      q.aliases.map (fun e => e.value [7]))) = some (1, [.panic .indexRange]) := by decide +kernel
  rw [hq] at e
  simp only [Option.map_some, Option.some.injEq, Prod.mk.injEq] at e
  obtain ⟨e1, e2⟩ := e
  obtain ⟨a, ha, _, hv⟩ := hall order orders src _ _ q hg hd y (by decide +kernel) [7] (by simp)
    (by rw [e1]; rfl)
  have hv' := hv (by rintro ⟨pl, h⟩; cases h)
  have : a.value [7] ∈ q.aliases.map (fun e => e.value [7]) := List.mem_map.mpr ⟨a, ha, rfl⟩
  rw [e2, hv'] at this
  simp at this

/-- Not vacuous: the hypothesis of `C43_boundary` — `y` in `(A B?:y)`. -/
example : y ∈ names innerItems ∧ ¬ Sure src innerItems (textOf src y) := by
  refine ⟨by decide +kernel, fun h => ?_⟩
  have := h _ (List.mem_cons_self ..) _ (List.mem_cons_self ..) (by decide +kernel) ⟨[sA], [], []⟩
    (by with_unfolding_all decide +kernel)
  cases this

/-- C44 in full is false: of `(A? B):g` reduced from the one item `B`, the line for `g` takes a range
of two items and panics. -/
theorem C44_false : ¬ (∀ (order : Nat → List Span → List Span), Orders order → ∀ (src : Text) (a : Alt)
    (x : Expansion) (q : ProductionBuild), Generated order src a x q → DistinctNames src a.items →
    ∀ n pl k, (n, pl) ∈ x.places → pl.items = some k → ∀ toks : List Nat,
      toks.length = q.production.length →
      ∃ e ∈ q.aliases, e.alias = n ∧ e.value toks = .ok (wrap (decide (n ∈ bare a.items))
        (.many ((toks.drop pl.start).take (pl.stop - pl.start))))) := by
  intro hall
  obtain ⟨q, hq, _⟩ := some_of_check (o := (built range).bind (·[1]?)) (fun _ => True) (by decide +kernel)
  have hg : Generated order src ⟨rangeItems, block, [⟨0, 0⟩]⟩
      ⟨[sB], [(g, ⟨0, 1, some 2, true⟩)], [g]⟩ q := generated range_program (by with_unfolding_all rfl) hq
  have hd : DistinctNames src rangeItems := by unfold DistinctNames; decide +kernel
  have e : ((built range).bind (·[1]?)).map (fun q => (q.production.length,
      q.aliases.map (fun e => e.value [7]))) = some (1, [.panic .indexRange]) := by decide +kernel
  rw [hq] at e
  simp only [Option.map_some, Option.some.injEq, Prod.mk.injEq] at e
  obtain ⟨e1, e2⟩ := e
  obtain ⟨a, ha, _, hv⟩ := hall order orders src _ _ q hg hd g ⟨0, 1, some 2, true⟩ 2
    (List.mem_cons_self ..) rfl [7] (by rw [e1]; rfl)
  have : a.value [7] ∈ q.aliases.map (fun e => e.value [7]) := List.mem_map.mpr ⟨a, ha, rfl⟩
  rw [e2, hv] at this
  simp at this

/-- Not vacuous: C46 on the sample — the code block is `-> {1}%`, and the builder has no aliases to
begin with. -/
example : (∃ body, textOf src block = 45 :: 62 :: (body ++ [37])) ∧
    ∃ prods, built flat = some prods ∧ ∃ rs, writeReduction src prods = .ok rs ∧ rs.length = 4 := by
  refine ⟨⟨[32, 123, 49, 125], by decide +kernel⟩, ?_⟩
  obtain ⟨prods, h1, h2⟩ := some_of_check (o := built flat) (fun prods =>
    (match writeReduction src prods with | .ok b => b.length | _ => 0) = 4) (by decide +kernel)
  refine ⟨prods, h1, ?_⟩
  cases hw : writeReduction src prods with
  | ok b => rw [hw] at h2; exact ⟨b, rfl, h2⟩
  | panic w => rw [hw] at h2; cases h2
  | fuel => rw [hw] at h2; cases h2

end Lrp.Props
