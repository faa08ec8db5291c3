import Verif.Proofs.WopText

/-! The texts written for a source. -/

set_option linter.unusedSectionVars false

namespace Lrp.Wop
open Spec

/-- The rules `from_str` makes of a program that is a part of the source. -/
theorem fromStr_prods_of {dbg : Bool} {order : Nat → List Span → List Span} (hord : Orders order) {L : LexEnv}
    {src : Text} {ds : List Decl} (hu : Utf8 src) {toks : List Gramem} (hs : toks.Sublist (lex L src))
    (hr : ReadsProgram toks ds) {b : Builder} (hb : Returns (fun n => Builder.fromStr dbg order n src toks) (.ok b)) :
    Proper src ds ∧ b.rules.map (·.1) = ruleNames src ds ∧ b.imports = uses ds ∧
    (∀ sp ∈ b.imports, InSrc src sp) ∧
    ∀ r ∈ b.rules, ∃ (pre : List Decl) (ident ty : Span) (alts : List Alt) (post : List Decl),
      ds = pre ++ .rule ident ty alts :: post ∧ r.1 = textOf src ident ∧ r.2 ≠ [] ∧ InSrc src ty ∧
      r.2.length = (expansions alts).length ∧
      ∀ (i : Nat) (a : Alt) (x : Expansion), (expansions alts)[i]? = some (a, x) →
        ∃ q, r.2[i]? = some q ∧ q.ty = ty ∧ q.production = x.word.map (resolve src (tokens src pre)) ∧
          (∀ sp ∈ q.production, InSrc src sp) ∧
          InSrc src q.codeblock ∧ (∃ code, textOf src a.block = 45 :: 62 :: (code ++ [37]) ∧
            textOf src q.codeblock = 45 :: 62 :: (code ++ [37])) ∧
          (∀ e ∈ q.aliases, InSrc src e.alias ∧ e.alias ∈ names a.items) ∧
          Props.Generated order src a.cloning x.cloning q := by
  have hl := (lex_lexed L hu).sublist hs
  obtain ⟨ast, N, hprog, hfrom⟩ := Props.C50_program dbg order hl hr
  have hproc := Props.fromStr_process hfrom hb
  have hp : Proper src ds := by
    apply Classical.byContradiction
    intro hp
    obtain ⟨w, hw⟩ := (Props.C47_rejects hord hprog Builder.empty).mpr
      (fun h => hp (proper_cloning.mp (addable_empty.mp h)))
    rw [hproc] at hw
    cases hw
  obtain ⟨b', hb', himp, _, hnames, _⟩ := Props.C59_builds dbg hord hl hr hp
  have hproc' := Props.fromStr_process hfrom hb'
  rw [hproc] at hproc'
  cases hproc'
  refine ⟨hp, hnames, himp, ?_, ?_⟩
  · intro sp hsp
    rw [himp, ← uses_cloning] at hsp
    exact uses_inSrc hprog.inside sp hsp
  intro r hrm
  have hm : r.1 ∈ ruleNames src ds := hnames ▸ List.mem_map_of_mem hrm
  obtain ⟨pre, ident, ty, alts, post, rfl, e⟩ := Props.rule_of_name hm
  obtain ⟨hne, hbl⟩ := reads_blocks hr (ident := ident) (ty := ty) (alts := alts) (by simp)
  have hlook : b.rules.lookup (textOf src ident) = some r.2 := by
    rw [← e]
    exact lookup_of_nodup (hnames ▸ hp.rules) hrm
  rw [List.map_append, List.map_cons, Decl.cloning] at hprog
  obtain ⟨prods, g1, g2⟩ := Props.rule_productions hord hprog hproc
  rw [hlook] at g1
  cases g1
  have hin := hprog.inside (.rule ident ty (alts.map Alt.cloning)) (by simp)
  have hA : ∀ p ∈ tokens src pre, InSrc src p.2 := by
    rw [← tokens_cloning]
    exact tokens_inSrc (fun d hd => hprog.inside d (List.mem_append_left _ hd))
  have hlen : r.2.length = (expansions alts).length := by
    rw [← g2.length, expansions_cloning, List.length_map]
  refine ⟨pre, ident, ty, alts, post, rfl, e, ?_, hin.2.1, hlen, ?_⟩
  · intro e0
    obtain ⟨gs, _, hds⟩ := hprog.shape
    obtain ⟨a, ha⟩ := List.exists_mem_of_ne_nil _ hne
    obtain ⟨x, hx⟩ := full_expand a.cloning.items
      (declsOf_full hds (ident := ident) (ty := ty) (alts := alts.map Alt.cloning) (by simp) _
        (List.mem_map_of_mem ha))
    have : (a.cloning, x) ∈ expansions (alts.map Alt.cloning) :=
      List.mem_flatMap.mpr ⟨_, List.mem_map_of_mem ha, List.mem_map.mpr ⟨x, hx, rfl⟩⟩
    have h0 := g2.length
    rw [e0] at h0
    rw [List.eq_nil_of_length_eq_zero h0] at this
    cases this
  intro i a x hx
  have ha : a ∈ alts := (mem_expansions.mp (List.mem_of_getElem? hx)).1
  have hxe : x ∈ expand a.items := (mem_expansions.mp (List.mem_of_getElem? hx)).2
  have hx' : (expansions (alts.map Alt.cloning))[i]? = some (a.cloning, x.cloning) := by
    rw [expansions_cloning, List.getElem?_map, hx]
    rfl
  have hlt : i < r.2.length := by
    rw [hlen]
    exact (List.getElem?_eq_some_iff.mp hx).1
  obtain ⟨q, hq⟩ : ∃ q, r.2[i]? = some q := ⟨_, List.getElem?_eq_getElem hlt⟩
  have hrel := g2.get hx' hq
  have hw : q.production = x.word.map (resolve src (tokens src pre)) := by
    have := hrel.word
    simp only [baseProd, List.nil_append, Builder.empty, tokens_cloning] at this
    exact this
  have hca := hin.2.2 a.cloning (List.mem_map_of_mem ha)
  have hnames' : names a.cloning.items = names a.items := (cloning_spans a.items).2
  have hsyms : symbols a.cloning.items = symbols a.items := (cloning_spans a.items).1
  have hblk : q.codeblock = a.block := hrel.block
  obtain ⟨body, hbody⟩ := block_code hs ⟨hne, hbl⟩ ha (hp.blocks ident ty alts (by simp) a ha)
  refine ⟨q, hq, hrel.ty, hw, ?_, ?_, ⟨body ++ [125], ?_, ?_⟩, ?_, ?_⟩
  · intro sp hsp
    rw [hw] at hsp
    obtain ⟨s, hs, rfl⟩ := List.mem_map.mp hsp
    refine resolve_inSrc hA (hca.2 _ (List.mem_append_left _ ?_))
    rw [hsyms]
    exact word_symbols _ x hxe s hs
  · rw [hblk]
    exact hca.1
  · rw [hbody]; simp
  · rw [hblk, hbody]; simp
  · intro f hf
    have : f.alias ∈ names a.items := by
      rcases hrel.spans f.alias (List.mem_map_of_mem hf) with h | h
      · cases h
      · rw [← hnames']
        exact h
    exact ⟨hca.2 _ (List.mem_append_right _ (by rw [hnames']; exact this)), this⟩
  · exact ⟨⟨ast, _, _, ident, ty, _, Builder.empty, b, r.2, i, hprog, hproc, hlook, hx', hq⟩⟩

/-- The rules `from_str` makes of a program. -/
theorem fromStr_prods {dbg : Bool} {order : Nat → List Span → List Span} (hord : Orders order) {L : LexEnv}
    {src : Text} {ds : List Decl} (hu : Utf8 src) (hr : ReadsProgram (lex L src) ds) {b : Builder}
    (hb : Returns (fun n => Builder.fromStr dbg order n src (lex L src)) (.ok b)) :
    Proper src ds ∧ b.rules.map (·.1) = ruleNames src ds ∧ b.imports = uses ds ∧
    (∀ sp ∈ b.imports, InSrc src sp) ∧
    ∀ r ∈ b.rules, ∃ (pre : List Decl) (ident ty : Span) (alts : List Alt) (post : List Decl),
      ds = pre ++ .rule ident ty alts :: post ∧ r.1 = textOf src ident ∧ r.2 ≠ [] ∧ InSrc src ty ∧
      r.2.length = (expansions alts).length ∧
      ∀ (i : Nat) (a : Alt) (x : Expansion), (expansions alts)[i]? = some (a, x) →
        ∃ q, r.2[i]? = some q ∧ q.ty = ty ∧ q.production = x.word.map (resolve src (tokens src pre)) ∧
          (∀ sp ∈ q.production, InSrc src sp) ∧
          InSrc src q.codeblock ∧ (∃ code, textOf src a.block = 45 :: 62 :: (code ++ [37]) ∧
            textOf src q.codeblock = 45 :: 62 :: (code ++ [37])) ∧
          (∀ e ∈ q.aliases, InSrc src e.alias ∧ e.alias ∈ names a.items) ∧
          Props.Generated order src a.cloning x.cloning q :=
  fromStr_prods_of hord hu (.refl _) hr hb

/-- The production that is read for an expansion. -/
def prodToks (src : Text) (pre : List Decl) (x : Expansion) : List (List Tok) :=
  x.word.map (fun sp => toksOf (textOf src (resolve src (tokens src pre) sp)))

section
variable {dbg : Bool} {order : Nat → List Span → List Span} {L : LexEnv} {src : Text} {ds : List Decl}
  {b : Builder} {rules : List (Text × RuleBuild)}

/-- Every declared rule is found among the rules written. -/
theorem find_rule (hord : Orders order) (hu : Utf8 src) (hr : ReadsProgram (lex L src) ds)
    (hb : Returns (fun n => Builder.fromStr dbg order n src (lex L src)) (.ok b))
    (hp : rules.Perm b.rules) {pre post : List Decl} {ident ty : Span} {alts : List Alt}
    (hd : ds = pre ++ .rule ident ty alts :: post) :
    ∃ r ∈ rules, r.1 = textOf src ident ∧ r.2 ≠ [] ∧ r.2.length = (expansions alts).length ∧
      ∀ (i : Nat) (a : Alt) (x : Expansion), (expansions alts)[i]? = some (a, x) →
        ∃ q, r.2[i]? = some q ∧ q.ty = ty ∧ q.production = x.word.map (resolve src (tokens src pre)) ∧
          (∃ code, textOf src a.block = 45 :: 62 :: (code ++ [37]) ∧
            textOf src q.codeblock = 45 :: 62 :: (code ++ [37])) ∧
          Props.Generated order src a.cloning x.cloning q := by
  obtain ⟨hpr, hn, _, _, hrules⟩ := fromStr_prods hord hu hr hb
  have : textOf src ident ∈ b.rules.map (·.1) := by
    rw [hn, hd, ruleNames_append]
    simp [ruleNames]
  obtain ⟨r, hrm, e⟩ := List.mem_map.mp this
  obtain ⟨pre', ident', ty', alts', post', d1, d2, d3, d4, d5, d6⟩ := hrules r hrm
  subst hd
  obtain ⟨rfl, rfl, rfl⟩ := rule_unique hpr.rules d1 (by rw [← e, d2])
  have hty : ty = ty' := by
    have := List.append_cancel_left d1
    simp only [List.cons.injEq, Decl.rule.injEq] at this
    exact this.1.2.1
  subst hty
  refine ⟨r, hp.mem_iff.mpr hrm, e, d3, d5, ?_⟩
  intro i a x hx
  obtain ⟨q, k1, k2, k3, _, _, k4, _, k5⟩ := d6 i a x hx
  exact ⟨q, k1, k2, k3, k4, k5⟩

/-- The text of `dump_grammar` for a source. -/
theorem source_grammar (hord : Orders order) (hu : Utf8 src) (hr : ReadsProgram (lex L src) ds)
    (hb : Returns (fun n => Builder.fromStr dbg order n src (lex L src)) (.ok b))
    (hp : rules.Perm b.rules) (hleg : GrammarLegible src ds) :
    ∃ t gs, grammarText src b.imports rules = .ok t ∧ (Braceless src ds → Block t) ∧
      readGrammar t = some ((uses ds).map (fun sp => toksOf (textOf src sp)), gs) ∧
      (gs.map (·.1)).Perm ((ruleNames src ds).map toksOf) ∧
      ∀ pre ident alts, HasRule ds pre ident alts →
        (toksOf (textOf src ident), (expansions alts).map (fun ax => prodToks src pre ax.2)) ∈ gs := by
  obtain ⟨hpr, hn, himp, hin, hrules⟩ := fromStr_prods hord hu hr hb
  have hfree : ∀ {cs : List Nat} {t : Text}, Without cs t → Closed t ∧ Free cs (toksOf t) := fun h => h
  have hprods : ∀ r ∈ rules, ∀ p ∈ r.2, ∀ s ∈ p.production,
      InSrc src s ∧ Without [44, 93] (textOf src s) ∧
        (Braceless src ds → Without [123, 125] (textOf src s)) := by
    intro r hrm p hpm s hs
    obtain ⟨pre, ident, ty, alts, post, d1, d2, d3, d4, d5, d6⟩ := hrules r (hp.mem_iff.mp hrm)
    obtain ⟨i, hi⟩ := List.getElem?_of_mem hpm
    have hlt : i < (expansions alts).length := by
      rw [← d5]
      exact (List.getElem?_eq_some_iff.mp hi).1
    obtain ⟨q, k1, k2, k3, k4, _⟩ := d6 i _ _ (List.getElem?_eq_getElem hlt)
    rw [hi] at k1
    cases k1
    have hm := mem_expansions.mp (List.getElem_mem hlt)
    refine ⟨k4 s hs, ?_⟩
    rw [k3] at hs
    obtain ⟨u, hu, rfl⟩ := List.mem_map.mp hs
    exact ⟨hleg.symbols pre ident alts ⟨ty, post, d1⟩ _ hm.1 u (word_symbols _ _ hm.2 u hu),
      fun hbr => hbr.symbols pre ident alts ⟨ty, post, d1⟩ _ hm.1 u (word_symbols _ _ hm.2 u hu)⟩
  obtain ⟨t, h1, h2, hL⟩ := grammarText_read (src := src) (imports := b.imports) (rules := rules) hin
    (by
      intro i hi
      rw [himp] at hi
      exact ⟨(hleg.uses i hi).1, (hleg.uses i hi).2 59 (by simp)⟩)
    (by
      intro r hrm
      obtain ⟨pre, ident, ty, alts, post, d1, d2, _⟩ := hrules r (hp.mem_iff.mp hrm)
      have := hleg.rules pre ident alts ⟨ty, post, d1⟩
      rw [← d2] at this
      exact ⟨this.1, this.2 44 (by simp)⟩)
    (fun r hrm p hpm s hs => (hprods r hrm p hpm s hs).1)
    (fun r hrm p hpm s hs => hfree (hprods r hrm p hpm s hs).2.1)
  refine ⟨t, rules.map (readOf src), h1, ?_, by rw [h2, himp], ?_, ?_⟩
  · intro hbr
    refine grammar_block hL ?_ ?_
    · intro u hu
      obtain ⟨i, hi, rfl⟩ := List.mem_map.mp hu
      exact (hbr.uses i (himp ▸ hi)).2
    · intro r0 hrm0
      obtain ⟨r, hrm, rfl⟩ := List.mem_map.mp hrm0
      obtain ⟨pre, ident, ty, alts, post, d1, d2, _⟩ := hrules r (hp.mem_iff.mp hrm)
      refine ⟨?_, ?_⟩
      · simp only [readOf, d2]
        exact (hbr.rules ident ty alts (by rw [d1]; simp)).1.2
      · intro p hpm u hum
        simp only [readOf, List.mem_map] at hpm
        obtain ⟨q, hq, rfl⟩ := hpm
        obtain ⟨i, hi, rfl⟩ := List.mem_map.mp hum
        exact ((hprods r hrm q hq i hi).2.2 hbr).2
  · rw [List.map_map, ← hn, List.map_map]
    exact hp.map _
  · rintro pre ident alts ⟨ty, post, hd⟩
    obtain ⟨r, hrm, e1, _, e2, e3⟩ := find_rule hord hu hr hb hp hd
    refine List.mem_map.mpr ⟨r, hrm, ?_⟩
    unfold readOf
    rw [e1]
    congr 1
    refine List.ext_getElem? fun i => ?_
    rw [List.getElem?_map, List.getElem?_map]
    cases hx : (expansions alts)[i]? with
    | none =>
      have : r.2[i]? = none := by
        rw [List.getElem?_eq_none_iff] at hx ⊢
        omega
      rw [this]
      rfl
    | some ax =>
      obtain ⟨q, k1, _, k2, _⟩ := e3 i ax.1 ax.2 hx
      rw [k1]
      simp only [Option.map_some, k2, prodToks, List.map_map]
      rfl

end

/-! ### The statements -/

/-- A value, if there is one. -/
def Out.get? {α : Type} : Out α → Option α
  | .ok v => some v
  | _ => none

theorem access_eval {τ : Type} (toks : List τ) (i : Nat) : ∀ f : Option Nat,
    (match f with | none => Access.one i | some j => Access.range i j).eval toks =
      Out.get? (piece toks i f)
  | none => by
    unfold piece
    cases h : toks[i]? <;> simp [Access.eval, h, Out.get?]
  | some j => by
    have hs : (Span.new i j).fromSource toks = if i ≤ j ∧ j ≤ toks.length then
        .ok ((toks.drop i).take (j - i)) else .panic .indexRange := rfl
    simp only [piece, Access.eval]
    rw [hs]
    by_cases h : i ≤ j ∧ j ≤ toks.length
    · rw [if_pos h, if_pos h]
      rfl
    · rw [if_neg h, if_neg h]
      rfl

theorem letOf_eval {τ : Type} (toks : List τ) (a : ItemAlias) (name : Text) :
    (letOf a name).eval toks = Out.get? (a.value toks) := by
  obtain ⟨al, o, ix, fx, c⟩ := a
  have hp := access_eval toks ix fx
  rcases o with _ | _ | _
  · have e : (letOf ⟨al, none, ix, fx, c⟩ name).eval toks =
        (match (match fx with | none => Access.one ix | some j => Access.range ix j).eval toks with
          | none => none
          | some v => some (.bare v)) := by cases fx <;> rfl
    rw [e, hp]
    unfold ItemAlias.value
    simp only
    cases piece toks ix fx <;> rfl
  · unfold letOf Let.eval ItemAlias.value
    cases toks <;> rfl
  · have e : (letOf ⟨al, some true, ix, fx, c⟩ name).eval toks =
        (match (match fx with | none => Access.one ix | some j => Access.range ix j).eval toks with
          | none => none
          | some v => some (.some v)) := by cases fx <;> rfl
    rw [e, hp]
    unfold ItemAlias.value
    simp only
    cases piece toks ix fx <;> rfl

/-- The statements have the values of the model. -/
theorem evalLets_runLets {τ : Type} {src : Text} {toks : List τ} : ∀ {as : List ItemAlias}
    {vs : List (Text × Value τ)}, (∀ a ∈ as, InSrc src a.alias) →
    (∀ a ∈ as, textOf src a.alias ≠ ascii "toks") → runLets src toks as = .ok vs →
    evalLets toks (letsOf src as) = some vs
  | [], vs, _, _, h => by cases h; rfl
  | a :: as, vs, hi, hn, h => by
    rw [runLets, slice_ok (hi a (List.mem_cons_self ..))] at h
    simp only [Out.ok_bind] at h
    obtain ⟨v, hv, h⟩ := Out.bind_eq_ok.mp h
    obtain ⟨r, hr, h⟩ := Out.bind_eq_ok.mp h
    cases h
    have ih := evalLets_runLets (fun a ha => hi a (List.mem_cons_of_mem _ ha))
      (fun a ha => hn a (List.mem_cons_of_mem _ ha)) hr
    have e := letOf_eval toks a (textOf src a.alias)
    rw [hv] at e
    have hne : ¬ ((letOf a (textOf src a.alias)).name = ascii "toks" ∧ letsOf src as ≠ []) :=
      fun h => hn a (List.mem_cons_self ..) h.1
    have es : letsOf src (a :: as) = letOf a (textOf src a.alias) :: letsOf src as := rfl
    rw [es, evalLets, e]
    simp only [Out.get?]
    rw [if_neg hne, ih]
    rfl

/-! ### The reductors -/

theorem fnsOf_names (src entry name ty : Text) : ∀ (i : Nat) (ps : RuleBuild),
    (fnsOf src entry name ty i ps).map Fn.name = (List.range' i ps.length).map (fnName name)
  | i, [] => rfl
  | i, p :: ps => by
    rw [fnsOf, List.map_cons, fnsOf_names src entry name ty (i + 1) ps, List.length_cons, List.range'_succ,
      List.map_cons]
    rfl

theorem fnsOf_get (src entry name ty : Text) : ∀ (i : Nat) (ps : RuleBuild) (k : Nat),
    (fnsOf src entry name ty i ps)[k]? = ps[k]?.map (fnOf src entry name ty (i + k))
  | i, [], k => by simp [fnsOf]
  | i, p :: ps, 0 => by simp [fnsOf]
  | i, p :: ps, k + 1 => by
    rw [fnsOf, List.getElem?_cons_succ, List.getElem?_cons_succ, fnsOf_get src entry name ty (i + 1) ps k,
      show i + 1 + k = i + (k + 1) by omega]

theorem defined_append (a b : List Stmt) : defined (a ++ b) = defined a ++ defined b := by
  induction a with
  | nil => rfl
  | cons s a ih => cases s <;> simp [defined, ih]

theorem inserted_append (a b : List Stmt) : inserted (a ++ b) = inserted a ++ inserted b := by
  induction a with
  | nil => rfl
  | cons s a ih => cases s <;> simp [inserted, ih]

theorem defined_define (fs : List Fn) : defined (fs.map Stmt.define) = fs := by
  induction fs with
  | nil => rfl
  | cons f fs ih => simp [defined, ih]

theorem inserted_define (fs : List Fn) : inserted (fs.map Stmt.define) = [] := by
  induction fs with
  | nil => rfl
  | cons f fs ih => simp [inserted, ih]

theorem defined_acts (src entry : Text) (rules : List (Text × RuleBuild)) :
    defined (rules.flatMap (actsOf src entry)) =
      rules.flatMap (fun r => fnsOf src entry r.1 (tyOf src r.2) 0 r.2) := by
  induction rules with
  | nil => rfl
  | cons r rules ih =>
    rw [List.flatMap_cons, List.flatMap_cons, defined_append, ih]
    simp [actsOf, defined_append, defined_define, defined]

theorem inserted_acts (src entry : Text) (rules : List (Text × RuleBuild)) :
    inserted (rules.flatMap (actsOf src entry)) =
      rules.map (fun r => (toksOf r.1, (List.range' 0 r.2.length).map (fnName r.1))) := by
  induction rules with
  | nil => rfl
  | cons r rules ih =>
    rw [List.flatMap_cons, List.map_cons, inserted_append, ih]
    simp [actsOf, inserted_append, inserted_define, inserted]

theorem names_nodup : ∀ {rules : List (Text × RuleBuild)}, (rules.map (·.1)).Nodup →
    (rules.flatMap (fun r => (List.range' 0 r.2.length).map (fnName r.1))).Nodup := by
  intro rules h
  unfold List.Nodup
  rw [List.pairwise_flatMap]
  constructor
  · intro r _
    rw [List.pairwise_map]
    exact List.Pairwise.imp (fun {a b} (hab : a ≠ b) (e : fnName r.1 a = fnName r.1 b) => hab (fnName_inj e).2)
      List.nodup_range'
  · unfold List.Nodup at h
    rw [List.pairwise_map] at h
    refine h.imp ?_
    intro r r' hne x hx y hy e
    obtain ⟨i, _, rfl⟩ := List.mem_map.mp hx
    obtain ⟨j, _, rfl⟩ := List.mem_map.mp hy
    exact hne (fnName_inj e).1

section
variable {dbg : Bool} {order : Nat → List Span → List Span} {L : LexEnv} {src : Text} {ds : List Decl}
  {b : Builder} {rules : List (Text × RuleBuild)}

/-- The text of `dump_reductor` for a source. -/
theorem source_reductor (hord : Orders order) (hu : Utf8 src) (hr : ReadsProgram (lex L src) ds)
    (hb : Returns (fun n => Builder.fromStr dbg order n src (lex L src)) (.ok b))
    (hp : rules.Perm b.rules) {entry : Text} (h0 : entry ≠ []) (hleg : ReductorLegible entry src ds) :
    ∃ t acts, reductorText entry src b.imports rules = .ok t ∧
      (Braceless src ds → Without [123, 125] entry → Block t) ∧
      readReductor t = some ((uses ds).map (fun sp => toksOf (textOf src sp)), acts) ∧
      ((defined acts).map Fn.name).Nodup ∧
      (inserted acts).flatMap (·.2) = (defined acts).map Fn.name ∧
      ((inserted acts).map (·.1)).Perm ((ruleNames src ds).map toksOf) ∧
      ∀ pre post ident ty alts, ds = pre ++ .rule ident ty alts :: post →
        ∃ fns, (toksOf (textOf src ident), fns) ∈ inserted acts ∧ fns.length = (expansions alts).length ∧
          ∀ (i : Nat) (a : Alt) (x : Expansion), (expansions alts)[i]? = some (a, x) →
            ∃ f q code, f ∈ defined acts ∧ fns[i]? = some f.name ∧ f.entry = toksOf entry ∧
              f.ty = toksOf (textOf src ty) ∧ textOf src a.block = 45 :: 62 :: (code ++ [37]) ∧
              readLets (letsOf src q.aliases).length f.body = some (letsOf src q.aliases, toksOf code) ∧
              (∀ e ∈ q.aliases, InSrc src e.alias ∧ e.alias ∈ names a.items) ∧
              Props.Generated order src a.cloning x.cloning q := by
  obtain ⟨hpr, hn, himp, hin, hrules⟩ := fromStr_prods hord hu hr hb
  -- the productions
  have hprods : ∀ r ∈ rules, ∀ p ∈ r.2, InSrc src p.ty ∧ Without [62] (textOf src p.ty) ∧ ProdOk src p := by
    intro r hrm p hpm
    obtain ⟨pre, ident, ty, alts, post, d1, d2, d3, d4, d5, d6⟩ := hrules r (hp.mem_iff.mp hrm)
    obtain ⟨i, hi⟩ := List.getElem?_of_mem hpm
    have hlt : i < (expansions alts).length := by
      rw [← d5]
      exact (List.getElem?_eq_some_iff.mp hi).1
    obtain ⟨q, k1, k2, k3, k4, k5, ⟨code, k6, k7⟩, k8, _⟩ := d6 i _ _ (List.getElem?_eq_getElem hlt)
    rw [hi] at k1
    cases k1
    have hm := mem_expansions.mp (List.getElem_mem hlt)
    have hdm : Decl.rule ident ty alts ∈ ds := by rw [d1]; simp
    have hcode : codeOf src p = code := by
      unfold codeOf
      rw [k7]
      simp
    refine ⟨by rw [k2]; exact d4, by rw [k2]; exact (hleg.rules _ _ _ hdm).2,
      fun a ha => (k8 a ha).1, fun a ha => hleg.names _ _ _ hdm _ hm.1 _ (k8 a ha).2, k5, ?_, ?_, ?_⟩
    · rw [hcode, k7]
      exact stripBlock_ok code
    · rw [hcode]
      exact (hleg.code _ _ _ hdm _ hm.1 code k6).1
    · rw [hcode]
      exact (hleg.code _ _ _ hdm _ hm.1 code k6).2
  have hkey : ∀ r ∈ rules, IsWord r.1 ∧ r.2 ≠ [] := by
    intro r hrm
    obtain ⟨pre, ident, ty, alts, post, d1, d2, d3, _⟩ := hrules r (hp.mem_iff.mp hrm)
    rw [d2]
    exact ⟨(hleg.rules ident ty alts (by rw [d1]; simp)).1, d3⟩
  obtain ⟨t, h1, h2, hL⟩ := reductorText_read (entry := entry) (src := src) (imports := b.imports)
    (rules := rules) h0 ⟨hleg.entry.1, hleg.entry.2 93 (by simp)⟩ hin
    (by
      intro i hi
      rw [himp] at hi
      exact ⟨(hleg.uses i hi).1, (hleg.uses i hi).2 59 (by simp)⟩)
    (fun r hrm => (hkey r hrm).1) (fun r hrm => (hkey r hrm).2)
    (fun r hrm p hpm => ⟨(hprods r hrm p hpm).1, (hprods r hrm p hpm).2.1.1,
      (hprods r hrm p hpm).2.1.2 62 (by simp)⟩)
    (fun r hrm p hpm => (hprods r hrm p hpm).2.2)
  have hdn : (defined (rules.flatMap (actsOf src entry))).map Fn.name =
      rules.flatMap (fun r => (List.range' 0 r.2.length).map (fnName r.1)) := by
    rw [defined_acts, List.map_flatMap]
    simp only [fnsOf_names]
  refine ⟨t, _, h1, ?_, by rw [h2, himp], ?_, ?_, ?_, ?_⟩
  · intro hbr hen
    refine reductor_block hL ?_ ?_
    · intro u hu
      obtain ⟨i, hi, rfl⟩ := List.mem_map.mp hu
      exact (hbr.uses i (himp ▸ hi)).2
    · intro a ha
      obtain ⟨r, hrm, ha⟩ := List.mem_flatMap.mp ha
      obtain ⟨pre, ident, ty, alts, post, d1, d2, d3, d4, d5, d6⟩ := hrules r (hp.mem_iff.mp hrm)
      have hdm : Decl.rule ident ty alts ∈ ds := by rw [d1]; simp
      rcases List.mem_append.mp ha with ha | ha
      · obtain ⟨f, hf, rfl⟩ := List.mem_map.mp ha
        obtain ⟨k, hk⟩ := List.getElem?_of_mem hf
        rw [fnsOf_get] at hk
        obtain ⟨q, hq, rfl⟩ := Option.map_eq_some_iff.mp hk
        refine ⟨hen.2, ?_, ?_⟩
        · simp only [fnOf, tyOf]
          cases hr2 : r.2 with
          | nil => exact absurd hr2 d3
          | cons p ps =>
            have hlt : 0 < (expansions alts).length := by rw [← d5, hr2]; simp
            obtain ⟨q', j1, j2, _⟩ := d6 0 _ _ (List.getElem?_eq_getElem hlt)
            rw [hr2] at j1
            simp only [List.getElem?_cons_zero, Option.some.injEq] at j1
            subst j1
            simp only [List.head?_cons, Option.map_some, Option.getD_some, j2]
            exact (hbr.rules ident ty alts hdm).2.2
        · simp only [fnOf]
          rw [balance_append (balance_free 0 (free_lets _))]
          exact (hprods r hrm q (List.mem_of_getElem? hq)).2.2.balanced
      · rw [List.mem_singleton] at ha
        subst ha
        show Free [123, 125] (toksOf r.1)
        rw [d2]
        exact (hbr.rules ident ty alts hdm).1.2
  · rw [hdn]
    refine names_nodup ?_
    exact (hp.map _).nodup_iff.mpr (hn ▸ hpr.rules)
  · rw [hdn, inserted_acts, List.flatMap_map]
  · rw [inserted_acts, List.map_map, ← hn, List.map_map]
    exact hp.map _
  · intro pre post ident ty alts hd
    obtain ⟨r, hrm, e1, e2, e3, e4⟩ := find_rule hord hu hr hb hp hd
    refine ⟨(List.range' 0 r.2.length).map (fnName r.1), ?_, by simpa using e3, ?_⟩
    · rw [inserted_acts, ← e1]
      exact List.mem_map.mpr ⟨r, hrm, rfl⟩
    · intro i a x hx
      obtain ⟨q, k1, k2, k3, ⟨code, k4, k5⟩, k6⟩ := e4 i a x hx
      have hqm := List.mem_of_getElem? k1
      have hok := (hprods r hrm q hqm).2.2
      have hcode : codeOf src q = code := by
        unfold codeOf
        rw [k5]
        simp
      have hf : (fnsOf src entry r.1 (tyOf src r.2) 0 r.2)[i]? =
          some (fnOf src entry r.1 (tyOf src r.2) i q) := by
        rw [fnsOf_get, k1, Nat.zero_add]
        rfl
      have hty : tyOf src r.2 = textOf src ty := by
        unfold tyOf
        cases hr2 : r.2 with
        | nil => exact absurd hr2 e2
        | cons p ps =>
          have hlt : 0 < (expansions alts).length := by rw [← e3, hr2]; simp
          obtain ⟨q', j1, j2, _⟩ := e4 0 _ _ (List.getElem?_eq_getElem hlt)
          rw [hr2] at j1
          simp only [List.getElem?_cons_zero, Option.some.injEq] at j1
          subst j1
          simp [j2]
      refine ⟨fnOf src entry r.1 (tyOf src r.2) i q, q, code, ?_, ?_, rfl, by rw [← hty]; rfl, k4, ?_, ?_, k6⟩
      · rw [defined_acts]
        exact List.mem_flatMap.mpr ⟨r, hrm, List.mem_of_getElem? hf⟩
      · rw [List.getElem?_map, List.getElem?_range' (by
          rw [e3]
          exact (List.getElem?_eq_some_iff.mp hx).1)]
        simp [fnOf]
      · simp only [fnOf]
        rw [hcode]
        refine readLets_toks ?_ _
        intro l hl
        obtain ⟨e, he, rfl⟩ := List.mem_map.mp hl
        exact (hok.word e he).2
      · intro e he
        refine ⟨hok.inside e he, ?_⟩
        have hnames' : names a.cloning.items = names a.items := (cloning_spans a.items).2
        obtain ⟨_, _, _, E, p, rfl, hp1, hp2, hrel⟩ := k6.rel hord
        rcases hrel.spans e.alias (List.mem_map_of_mem he) with h | h
        · unfold ProductionBuild.spans at h
          rw [hp2] at h
          cases h
        · rw [← hnames']
          exact h

end

end Lrp.Wop
