import Verif.Proofs.WopBuild
import Verif.Props.WopGen
import Verif.Props.Folding
import Verif.Props.Lalr

/-! From which `wop` programs the generated parser can be made. -/

namespace Lrp.Props
open Spec Wop Wop.Spec
set_option linter.unusedSectionVars false
set_option maxRecDepth 100000

variable {X T : Type} [LinOrd T] [DecidableEq T]

/-- `Grammar::new` returns exactly if the start symbol has a production, and in debug builds no other. -/
theorem grammar_new_iff {dbg : Bool} {D : Decls T} {S eof : T} :
    (∃ g, Grammar.new dbg S (grammarMap D) eof = .ok g) ↔
      ∃ body, IsProd D S 0 body ∧ (dbg = true → ∀ i b, IsProd D S i b → i = 0) := by
  rw [(C03_panics dbg S eof (grammarMap D) (grammarMap_sorted D)).1]
  constructor
  · rintro ⟨r, hr, hne, hd⟩
    obtain ⟨bs, h1, rfl⟩ := (grammarMap_get? D S r).mp ((OMap.mem_iff_get? (grammarMap_sorted D)).mp hr)
    have hlen : (Rule.new S bs).prods.length = bs.length := by simp [Rule.new]
    match bs, hlen, hne with
    | [], _, hne => exact absurd rfl hne
    | b :: bs, hlen, _ =>
      refine ⟨b, ⟨_, h1, rfl⟩, fun hdb i b' hp => ?_⟩
      obtain ⟨bs', h2, h3⟩ := hp
      cases h1.unique h2
      have := (List.getElem?_eq_some_iff.mp h3).1
      rw [← hlen, hd hdb] at this
      omega
  · rintro ⟨body, ⟨bs, h1, h2⟩, hd⟩
    have hlen : (Rule.new S bs).prods.length = bs.length := by simp [Rule.new]
    have hpos := (List.getElem?_eq_some_iff.mp h2).1
    refine ⟨_, (OMap.mem_iff_get? (grammarMap_sorted D)).mpr ((grammarMap_get? D S _).mpr ⟨bs, h1, rfl⟩), ?_, ?_⟩
    · intro e
      rw [e] at hlen
      simp at hlen
      omega
    · intro hdb
      rw [hlen]
      refine Classical.byContradiction fun hn => ?_
      have h3 : 1 < bs.length := by omega
      have := hd hdb 1 bs[1] ⟨bs, h1, List.getElem?_eq_getElem h3⟩
      omega

/-- The three builders return exactly if `Tabler::new` does. -/
theorem build_returns_iff {k : Method} {dbg : Bool} {D : Decls T} {S eof : T} {g : Grammar T}
    (hg : Grammar.new dbg S (grammarMap D) eof = .ok g) :
    (∃ t, Returns (fun n => k.build dbg n g) t) ↔ ∃ t, Returns (fun n => Tabler.new dbg n g) t := by
  cases k with
  | slr => exact (C12_slr_new hg).symm
  | clr => exact (C13_clr_new hg).symm
  | lalr =>
    rw [C14_lalr_new hg]
    constructor
    · rintro ⟨t, n, h⟩
      obtain ⟨l, h1, _⟩ := Out.bind_eq_ok.mp h
      exact ⟨l, n, h1⟩
    · rintro ⟨l, n, h⟩
      refine ⟨l.table, n, ?_⟩
      show (Lalr.new dbg n g >>= fun l => pure l.table) = _
      rw [show Lalr.new dbg n g = .ok l from h]
      rfl

section
variable {dbg : Bool} {order : Nat → List Span → List Span} {L : LexEnv} {src : Text} {R : Rust X T}
  {ds : List Decl} {b : Builder} {rules : List (Text × RuleBuild)} {D : Decls T}

theorem hasProd_iff (hg : GrammarOf src R.sym ds D) {A : T} {P : List T → Prop} :
    (∃ i body, IsProd D A i body ∧ P body) ↔ HasAlt src R.sym ds A (fun pre is =>
      ∃ x ∈ Wop.Spec.expand is, P (x.word.map (denotes src R.sym pre))) := by
  constructor
  · rintro ⟨i, body, hp, h⟩
    obtain ⟨pre, ident, alts, a, x, h1, h2, h3, rfl⟩ := (hg.prods _ _ _).mp hp
    obtain ⟨h4, h5⟩ := mem_expansions.mp (List.mem_of_getElem? h3)
    exact ⟨pre, ident, alts, h1, h2, a, h4, x, h5, h⟩
  · rintro ⟨pre, ident, alts, h1, h2, a, h4, x, h5, h⟩
    obtain ⟨i, hi⟩ := List.getElem?_of_mem (mem_expansions.mpr ⟨h4, h5⟩)
    exact ⟨i, _, (hg.prods _ _ _).mpr ⟨pre, ident, alts, a, x, h1, h2, hi, rfl⟩, h⟩

theorem hasAlt_congr (hr : ReadsProgram (lex L src) ds) {A : T} {P Q : List Decl → List Item → Prop}
    (h : ∀ pre is, Full is → (P pre is ↔ Q pre is)) :
    HasAlt src R.sym ds A P ↔ HasAlt src R.sym ds A Q := by
  constructor
  · rintro ⟨pre, ident, alts, h1, h2, a, ha, hp⟩
    exact ⟨pre, ident, alts, h1, h2, a, ha, (h _ _ ((ReadsProgram.full hr h1).2 a ha)).mp hp⟩
  · rintro ⟨pre, ident, alts, h1, h2, a, ha, hp⟩
    exact ⟨pre, ident, alts, h1, h2, a, ha, (h _ _ ((ReadsProgram.full hr h1).2 a ha)).mpr hp⟩

theorem nonterminal_iff_rule (hg : GrammarOf src R.sym ds D) {A : T} :
    Nonterminal D A ↔ ¬ IsToken src R.sym ds A := by
  rw [← not_terminal_iff, hg.tokens]

theorem noEmpty_iff (hr : ReadsProgram (lex L src) ds) (hg : GrammarOf src R.sym ds D) :
    NoEmpty D ↔ ¬ CanBeEmpty src R.sym ds := by
  have : ∀ A, (∃ i body, IsProd D A i body ∧ body = []) ↔
      HasAlt src R.sym ds A (fun _ is => ∀ i ∈ is, Skips i) := fun A => by
    rw [hasProd_iff hg]
    refine hasAlt_congr hr (fun pre is _ => ?_)
    rw [← skips_iff_both]
    simp
  constructor
  · rintro h ⟨A, hA⟩
    obtain ⟨i, body, hp, e⟩ := (this A).mpr hA
    exact h A i body hp e
  · intro h A i body hp e
    exact h ⟨A, (this A).mp ⟨i, body, hp, e⟩⟩

theorem leftGraph_eq (hr : ReadsProgram (lex L src) ds) (hg : GrammarOf src R.sym ds D) :
    LeftGraph D = BeginsWith src R.sym ds := by
  refine fold_congr fun A B => ?_
  unfold LeftGraph BeginsWith
  rw [nonterminal_iff_rule hg]
  refine and_congr_right fun _ => ?_
  have := hasProd_iff hg (A := A) (P := fun body => ∃ b, body = B :: b)
  refine Iff.trans ⟨fun ⟨i, b, h⟩ => ⟨i, _, h, b, rfl⟩, fun ⟨i, _, h, b, e⟩ => ⟨i, b, e ▸ h⟩⟩
    (this.trans (hasAlt_congr hr (fun pre is hf => ?_)))
  rw [← opens_iff_both is hf]
  constructor
  · rintro ⟨x, hx, b, e⟩
    obtain ⟨sp, w, h1, h2, _⟩ := List.map_eq_cons_iff.mp e
    exact ⟨x, hx, sp, w, h1, h2⟩
  · rintro ⟨x, hx, sp, w, h1, h2⟩
    exact ⟨x, hx, w.map (denotes src R.sym pre), by rw [h1, List.map_cons, h2]⟩

theorem rightGraph_eq (hr : ReadsProgram (lex L src) ds) (hg : GrammarOf src R.sym ds D) :
    RightGraph D = EndsWith src R.sym ds := by
  refine fold_congr fun A B => ?_
  unfold RightGraph EndsWith
  rw [nonterminal_iff_rule hg]
  refine and_congr_right fun _ => ?_
  have := hasProd_iff hg (A := B) (P := fun body => ∃ b, body = b ++ [A])
  refine Iff.trans ⟨fun ⟨i, b, h⟩ => ⟨i, _, h, b, rfl⟩, fun ⟨i, _, h, b, e⟩ => ⟨i, b, e ▸ h⟩⟩
    (this.trans (hasAlt_congr hr (fun pre is hf => ?_)))
  rw [← closes_iff_both is hf]
  constructor
  · rintro ⟨x, hx, b, e⟩
    obtain ⟨w, w', h1, h2, h3⟩ := List.map_eq_append_iff.mp e
    obtain ⟨sp, w2, h4, h5, h6⟩ := List.map_eq_cons_iff.mp h3
    cases List.map_eq_nil_iff.mp h6
    exact ⟨x, hx, sp, w, by rw [h1, h4], h5⟩
  · rintro ⟨x, hx, sp, w, h1, h2⟩
    exact ⟨x, hx, w.map (denotes src R.sym pre), by
      rw [h1, List.map_append, List.map_cons, h2, List.map_nil]⟩

theorem afterGraph_eq (hr : ReadsProgram (lex L src) ds) (hg : GrammarOf src R.sym ds D) {S eof : T}
    {E : T → T → Prop} : AfterGraph D S eof E = FollowsWith src R.sym ds S eof E := by
  refine fold_congr fun A B => ?_
  unfold AfterGraph FollowsWith Loopless
  rw [nonterminal_iff_rule hg, rightGraph_eq hr hg]
  refine and_congr_right fun _ => or_congr_right (or_congr_right ?_)
  have key : ∀ C b, (∃ i u v, IsProd D C i (u ++ A :: b :: v)) ↔
      HasAlt src R.sym ds C (fun pre is => Beside src R.sym pre is A b) := fun C b => by
    have := hasProd_iff hg (A := C) (P := fun body => ∃ u v, body = u ++ A :: b :: v)
    refine Iff.trans ⟨fun ⟨i, u, v, h⟩ => ⟨i, _, h, u, v, rfl⟩, fun ⟨i, _, h, u, v, e⟩ => ⟨i, u, v, e ▸ h⟩⟩
      (this.trans (hasAlt_congr hr (fun pre is hf => ?_)))
    rw [← beside_iff_both is hf]
    constructor
    · rintro ⟨x, hx, u, v, e⟩
      obtain ⟨w, w', h1, h2, h3⟩ := List.map_eq_append_iff.mp e
      obtain ⟨sp, w2, rfl, h5, h6⟩ := List.map_eq_cons_iff.mp h3
      obtain ⟨sp', w3, rfl, h7, h8⟩ := List.map_eq_cons_iff.mp h6
      exact ⟨x, hx, w, sp, sp', w3, h1, h5, h7⟩
    · rintro ⟨x, hx, u, sp, sp', v, h1, h2, h3⟩
      exact ⟨x, hx, u.map (denotes src R.sym pre), v.map (denotes src R.sym pre), by
        rw [h1, List.map_append, List.map_cons, List.map_cons, h2, h3]⟩
  constructor
  · rintro ⟨C, i, u, b, v, h1, h2, h3, h4⟩
    exact ⟨C, b, (key C b).mp ⟨i, u, v, h1⟩, (nonterminal_iff_rule hg).mp h2,
      (nonterminal_iff_rule hg).mp h3, h4⟩
  · rintro ⟨C, b, h1, h2, h3, h4⟩
    obtain ⟨i, u, v, h1⟩ := (key C b).mpr h1
    exact ⟨C, i, u, b, v, h1, (nonterminal_iff_rule hg).mpr h2, (nonterminal_iff_rule hg).mpr h3, h4⟩

theorem startsAt_iff (hr : ReadsProgram (lex L src) ds) (hinj : ((ruleNames src ds).map R.sym).Nodup)
    (hg : GrammarOf src R.sym ds D) {S : T} {one : Bool} :
    (∃ body, IsProd D S 0 body ∧ (one = true → ∀ i b, IsProd D S i b → i = 0)) ↔
      StartsAt src R.sym ds one S := by
  constructor
  · rintro ⟨body, hp, hd⟩
    obtain ⟨pre, ident, alts, a, x, h1, h2, h3, rfl⟩ := (hg.prods _ _ _).mp hp
    refine ⟨pre, ident, alts, h1, h2, fun ho => (one_expansion (ReadsProgram.full hr h1).2).mp ?_⟩
    have hlt := (List.getElem?_eq_some_iff.mp h3).1
    refine Classical.byContradiction fun hn => ?_
    have h4 : 1 < (expansions alts).length := by omega
    have := hd ho 1 _ ((hg.prods _ _ _).mpr ⟨pre, ident, alts, _, _, h1, h2,
      List.getElem?_eq_getElem h4, rfl⟩)
    omega
  · rintro ⟨pre, ident, alts, h1, rfl, ho⟩
    obtain ⟨hne, hf⟩ := ReadsProgram.full hr h1
    obtain ⟨a, ha⟩ := List.exists_mem_of_ne_nil _ hne
    obtain ⟨x, hx⟩ := full_expand a.items (hf a ha)
    have hlt := List.length_pos_of_mem (mem_expansions.mpr ⟨ha, hx⟩)
    refine ⟨_, (hg.prods _ _ _).mpr ⟨pre, ident, alts, _, _, h1, rfl, List.getElem?_eq_getElem hlt, rfl⟩, ?_⟩
    intro hone i body hp
    obtain ⟨pre', ident', alts', a', x', k1, k2, k3, _⟩ := (hg.prods _ _ _).mp hp
    have hl := (one_expansion hf).mpr (ho hone)
    obtain ⟨ty, post, e⟩ := h1
    obtain ⟨ty', post', e'⟩ := k1
    have m1 : textOf src ident ∈ ruleNames src ds := by
      rw [e, ruleNames_append]; simp [ruleNames]
    have m2 : textOf src ident' ∈ ruleNames src ds := by
      rw [e', ruleNames_append]; simp [ruleNames]
    have et := inj_of_nodup_map hinj m1 m2 k2.symm
    obtain ⟨_, _, rfl⟩ := rule_unique (e ▸ nodup_of_map hinj) (e ▸ e') et
    have := (List.getElem?_eq_some_iff.mp k3).1
    omega

/-- C91: the generated parser can be made exactly if the start is a rule (in debug builds: with one
alternative that leaves no choice), no alternative can be left out altogether, and folding the graphs of
what alternatives begin with and of what follows comes to an end (in debug builds: with no edge left). -/
theorem C91_makes (hord : Orders order) (hu : Utf8 src) (hr : ReadsProgram (lex L src) ds)
    (hb : Returns (fun n => Builder.fromStr dbg order n src (lex L src)) (.ok b))
    (hp : rules.Perm b.rules) (hinj : ((ruleNames src ds).map R.sym).Nodup)
    (hD : R.dumpGrammar src b.imports rules = .ok D) (k : Method) (dbg' : Bool) (S eof : T) :
    (∃ t, Makes k dbg' D S eof t) ↔
      StartsAt src R.sym ds dbg' S ∧ ¬ CanBeEmpty src R.sym ds ∧
      ∃ E F, SettlesTo (Loopless (BeginsWith src R.sym ds)) E ∧
        SettlesTo (FollowsWith src R.sym ds S eof E) F ∧
        (dbg' = true → ∀ A B, ¬ E A B ∧ ¬ F A B) := by
  have hd : Dumped dbg order L src R ds b rules := ⟨hord, hu, hr, hb, hp⟩
  have hg := hd.grammarOf hinj hD
  rw [← startsAt_iff hr hinj hg, ← noEmpty_iff hr hg, ← leftGraph_eq hr hg, ← grammar_new_iff (eof := eof)]
  simp only [← afterGraph_eq hr hg]
  constructor
  · rintro ⟨t, g, h1, h2⟩
    obtain ⟨t0, n, h3⟩ := (build_returns_iff h1).mp ⟨t, h2⟩
    have hne : NoEmpty D := by
      intro A i body hpr e
      subst e
      have := C09_empty_always h1 hpr n
      rw [show Tabler.new dbg' n g = _ from h3] at this
      cases this
    exact ⟨⟨g, h1⟩, hne, (C79_returns_iff h1 hne).mp ⟨t0, n, h3⟩⟩
  · rintro ⟨⟨g, h1⟩, hne, h⟩
    obtain ⟨t, ht⟩ := (build_returns_iff (k := k) h1).mpr ((C79_returns_iff h1 hne).mpr h)
    exact ⟨t, g, h1, ht⟩

/-- C91: in debug builds, with a token for the end of the input, folding has to leave nothing of the graph
of what alternatives begin with and nothing of the graph of what they end with. -/
theorem C91_debug (hord : Orders order) (hu : Utf8 src) (hr : ReadsProgram (lex L src) ds)
    (hb : Returns (fun n => Builder.fromStr dbg order n src (lex L src)) (.ok b))
    (hp : rules.Perm b.rules) (hinj : ((ruleNames src ds).map R.sym).Nodup)
    (hD : R.dumpGrammar src b.imports rules = .ok D) (k : Method) {S eof : T}
    (he : IsToken src R.sym ds eof) :
    (∃ t, Makes k true D S eof t) ↔
      StartsAt src R.sym ds true S ∧ ¬ CanBeEmpty src R.sym ds ∧
      FoldsAway (Loopless (BeginsWith src R.sym ds)) ∧ FoldsAway (Loopless (EndsWith src R.sym ds)) := by
  have hd : Dumped dbg order L src R ds b rules := ⟨hord, hu, hr, hb, hp⟩
  have hg := hd.grammarOf hinj hD
  rw [C91_makes hord hu hr hb hp hinj hD k true S eof]
  refine and_congr_right fun h1 => and_congr_right fun h2 => ?_
  obtain ⟨g, hgr⟩ := (grammar_new_iff (eof := eof)).mpr ((startsAt_iff hr hinj hg).mpr h1)
  have hne := (noEmpty_iff hr hg).mpr h2
  have h3 := C79_returns_iff hgr hne
  have h4 := C79_debug_iff hgr hne ((hg.tokens eof).mpr he)
  rw [leftGraph_eq hr hg] at h3 h4
  rw [rightGraph_eq hr hg] at h4
  simp only [afterGraph_eq hr hg] at h3
  refine Iff.trans ?_ (h3.symm.trans h4)
  simp only

/-- C91: an alternative that can be left out altogether makes all builders panic, in all builds. -/
theorem C91_empty (hord : Orders order) (hu : Utf8 src) (hr : ReadsProgram (lex L src) ds)
    (hb : Returns (fun n => Builder.fromStr dbg order n src (lex L src)) (.ok b))
    (hp : rules.Perm b.rules) (hinj : ((ruleNames src ds).map R.sym).Nodup)
    (hD : R.dumpGrammar src b.imports rules = .ok D) (hempty : CanBeEmpty src R.sym ds) (k : Method)
    {dbg' : Bool} {S eof : T} {g : Grammar T} (hgr : Grammar.new dbg' S (grammarMap D) eof = .ok g)
    (n : Nat) : k.build dbg' n g = .panic .emptyProduction := by
  have hd : Dumped dbg order L src R ds b rules := ⟨hord, hu, hr, hb, hp⟩
  have hg := hd.grammarOf hinj hD
  have hne : ¬ NoEmpty D := fun h => (noEmpty_iff hr hg).mp h hempty
  unfold NoEmpty at hne
  simp only [Classical.not_forall, ne_eq, Classical.not_not] at hne
  obtain ⟨A, i, body, hpr, rfl⟩ := hne
  have h := C09_empty_always hgr hpr n
  cases k with
  | slr => show Slr.new dbg' n g = _; unfold Slr.new; rw [h]; rfl
  | clr => show Clr.new dbg' n g = _; unfold Clr.new; rw [h]; rfl
  | lalr => show (Lalr.new dbg' n g >>= fun l => pure l.table) = _; unfold Lalr.new; rw [h]; rfl

end

/-! ### Examples -/

namespace WopSamples

/-- The hypotheses are met by the sums of C66: a parser is made, so what C91 asks for holds. -/
theorem sum_makes : StartsAt sumSrc sumRust.sym sumDecls true 0 ∧ ¬ CanBeEmpty sumSrc sumRust.sym sumDecls ∧
    FoldsAway (Loopless (BeginsWith sumSrc sumRust.sym sumDecls)) ∧
    FoldsAway (Loopless (EndsWith sumSrc sumRust.sym sumDecls)) := by
  obtain ⟨b, maps, t, v, hb, hD, hM, ht, hc, hv, rfl⟩ := sum_built
  exact (C91_debug orders sum_utf8 sum_reads ⟨100, hb⟩ (.refl _) (by decide +kernel) hD .slr sum_eof).mp
    ⟨t, _, by decide +kernel, 50, ht⟩

/-- One rule, of one group; the second alternative of the group is an optional item. -/
def voidSrc : Text := bytes "S:T=(N M?|M?)->{v}%;"

def voidToks : List Gramem :=
  [tk .ident 0 1, tk .twoDots 1 2, tk .ident 2 3, tk .assign 3 4, tk .openParen 4 5, tk .ident 5 6,
   tk .ident 7 8, tk .optional 8 9, tk .pipe 9 10, tk .ident 10 11, tk .optional 11 12,
   tk .closeParen 12 13, tk .codeBlock 13 19, tk .sc 19 20]

theorem void_lex : lex lexer voidSrc = voidToks := by with_unfolding_all rfl

def voidAlt : Alt :=
  ⟨[.group [[.sym ⟨5, 6⟩ false none false, .sym ⟨7, 8⟩ true none false], [.sym ⟨10, 11⟩ true none false]]
      false none false], ⟨13, 19⟩, [Span.new 0 0, Span.new 0 0]⟩

def voidDecls : List Decl := [.rule ⟨0, 1⟩ ⟨2, 3⟩ [voidAlt]]

theorem void_utf8 : Utf8 voidSrc := utf8_ascii (by decide +kernel)

theorem void_reads : ReadsProgram (lex lexer voidSrc) voidDecls := by
  rw [void_lex]
  have i1 : ReadsItem [tk .ident 5 6] (.sym ⟨5, 6⟩ false none false) [] :=
    .path (ts := [tk .ident 5 6]) (.one rfl) .no .none
  have i2 : ReadsItem [tk .ident 7 8, tk .optional 8 9] (.sym ⟨7, 8⟩ true none false) [] :=
    .path (ts := [tk .ident 7 8]) (os := [tk .optional 8 9]) (.one rfl) (.yes rfl) .none
  have i3 : ReadsItem [tk .ident 10 11, tk .optional 11 12] (.sym ⟨10, 11⟩ true none false) [] :=
    .path (ts := [tk .ident 10 11]) (os := [tk .optional 11 12]) (.one rfl) (.yes rfl) .none
  have r := ReadsRule.more (us := []) (p := tk .pipe 9 10)
    (ReadsRule.one (us := []) (.more (.one i1) i2) .none) rfl (.one i3) .none
  have g := ReadsItem.group (o := tk .openParen 4 5) (c := tk .closeParen 12 13)
    (os := []) (as := []) rfl r rfl .no .none
  have a : ReadsRule _ [voidAlt] := .one (us := [tk .codeBlock 13 19]) (.one g) (.some rfl)
  have d : ReadsDecl (voidToks.take 13) (.rule ⟨0, 1⟩ ⟨2, 3⟩ [voidAlt]) :=
    .rule (is := [tk .ident 0 1]) (ts := [tk .ident 2 3]) (.one rfl) rfl (.one rfl) rfl a
  exact .one (s := tk .sc 19 20) d rfl

/-- `from_str` takes the program, the grammar is dumped, and no parser can be made from it: the builders
panic at once. -/
theorem void_panics : ∃ b D, Builder.fromStr false order 100 voidSrc (lex lexer voidSrc) = .ok (.ok b) ∧
    sumRust.dumpGrammar voidSrc b.imports b.rules = .ok D ∧
    ∃ g, Grammar.new false 0 (grammarMap D) 99 = .ok g ∧
      ∀ (k : Method) n, k.build false n g = .panic .emptyProduction := by
  have hrun : (match Builder.fromStr false order 100 voidSrc (lex lexer voidSrc) with
      | .ok (.ok b) => match sumRust.dumpGrammar voidSrc b.imports b.rules with
        | .ok D => match Grammar.new false 0 (grammarMap D) 99 with
          | .ok _ => true
          | _ => false
        | _ => false
      | _ => false) = true := by decide +kernel
  split at hrun
  · rename_i b hb
    split at hrun
    · rename_i D hD
      split at hrun
      · rename_i g hg
        refine ⟨b, D, hb, hD, g, hg, fun k n => ?_⟩
        refine C91_empty orders void_utf8 void_reads ⟨100, hb⟩ (.refl _) (by decide +kernel) hD ?_ k hg n
        refine ⟨0, [], ⟨0, 1⟩, [voidAlt], ⟨_, [], rfl⟩, by decide +kernel, voidAlt, by simp, ?_⟩
        intro i hi
        cases List.mem_singleton.mp hi
        refine .inside (is := [.sym ⟨10, 11⟩ true none false]) (by simp) ?_
        intro j hj
        cases List.mem_singleton.mp hj
        exact .sym
      · cases hrun
    · cases hrun
  · cases hrun

end WopSamples

end Lrp.Props
