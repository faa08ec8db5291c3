import Verif.Proofs.WopGen
import Verif.Props.WopLex

/-! C66, C67: the parser generated from a wop source reads what the source describes, and computes the
values its code blocks describe. -/

namespace Lrp.Props
open Spec Wop Wop.Spec
set_option maxRecDepth 100000
set_option linter.unusedSectionVars false

variable {X T : Type} [LinOrd T] [DecidableEq T]

/-! ### C66: the language -/

/-- C66: for every source that `Builder::from_str` takes, and every order in which the rules are written,
`dump_grammar` writes a grammar whose sentences are, for every symbol, the token sequences the source
describes; different rules are assumed to have different symbols. -/
theorem C66_grammar {dbg : Bool} {order : Nat → List Span → List Span} (hord : Orders order)
    {L : LexEnv} {src : Text} {R : Rust X T} {ds : List Decl} (hu : Utf8 src) (hr : ReadsProgram (lex L src) ds)
    {b : Builder} (hb : Returns (fun n => Builder.fromStr dbg order n src (lex L src)) (.ok b))
    {rules : List (Text × RuleBuild)} (hp : rules.Perm b.rules)
    (hinj : ((ruleNames src ds).map R.sym).Nodup) :
    ∃ D, R.dumpGrammar src b.imports rules = .ok D ∧
      (∀ x, Terminal D x ↔ IsToken src R.sym ds x) ∧
      ∀ x w, Sentence D x w ↔ SymWord src R.sym ds x w := by
  have h : Dumped dbg order L src R ds b rules := ⟨hord, hu, hr, hb, hp⟩
  obtain ⟨D, hD⟩ := h.dumps
  have hg := h.grammarOf hinj hD
  exact ⟨D, hD, hg.tokens, fun x w => sentence_iff_word hg⟩

/-- C66: so a conflict-free parser built from the generated grammar accepts exactly what the source
describes. -/
theorem C66_accepts {dbg : Bool} {order : Nat → List Span → List Span} (hord : Orders order)
    {L : LexEnv} {src : Text} {R : Rust X T} {ds : List Decl} (hu : Utf8 src) (hr : ReadsProgram (lex L src) ds)
    {b : Builder} (hb : Returns (fun n => Builder.fromStr dbg order n src (lex L src)) (.ok b))
    {rules : List (Text × RuleBuild)} (hp : rules.Perm b.rules)
    (hinj : ((ruleNames src ds).map R.sym).Nodup) {D : Decls T}
    (hD : R.dumpGrammar src b.imports rules = .ok D) {k : Method} {dbg' : Bool} {S eof : T}
    {t : Tabler T} (ht : Makes k dbg' D S eof t) (hk : k = .lalr → Propagated t) (hc : t.conflicts = [])
    (hS : InNoBody D S) (h1 : SingleStart D S) (he : IsToken src R.sym ds eof)
    {toks : List (Token Unit T)} :
    Validates t toks true ↔ SymWord src R.sym ds S (toks.map Token.ty) := by
  have h : Dumped dbg order L src R ds b rules := ⟨hord, hu, hr, hb, hp⟩
  have hg := h.grammarOf hinj hD
  rw [← sentence_iff_word hg]
  have he' := (hg.tokens eof).mpr he
  exact ⟨fun h => sound_sentence ht hS he' (validates_true.mp h), complete_validates ht hk hc hS h1 he'⟩

/-! ### C67: the values -/

section
variable {dbg : Bool} {order : Nat → List Span → List Span} {L : LexEnv} {src : Text} {R : Rust X T}
  {ds : List Decl} {b : Builder} {rules : List (Text × RuleBuild)}

/-- The start rule has one production, of one symbol. -/
theorem start_prod {D : Decls T} (hg : GrammarOf src R.sym ds D) {pre : List Decl} {ident sp : Span}
    {a : Alt} {x : Expansion} (hs : HasRule ds pre ident [a]) (hx : Spec.expand a.items = [x])
    (hw : x.word = [sp]) :
    IsProd D (R.sym (textOf src ident)) 0 [denotes src R.sym pre sp] := by
  refine (hg.prods _ _ _).mpr ⟨pre, ident, [a], a, x, hs, rfl, ?_, by rw [hw]; rfl⟩
  simp [expansions, hx]

/-- C67: for every source with distinct alias names in each alternative and no optional items or groups
inside of groups: if the generated parser, run with the generated reductors, returns a value, it is one
that the source describes for the input. -/
theorem C67_sound (hord : Orders order) (hu : Utf8 src) (hr : ReadsProgram (lex L src) ds)
    (hb : Returns (fun n => Builder.fromStr dbg order n src (lex L src)) (.ok b))
    (hp : rules.Perm b.rules) {rules' : List (Text × RuleBuild)} (hp' : rules'.Perm b.rules)
    (hinj : ((ruleNames src ds).map R.sym).Nodup) (hplain : Plain src ds) {D : Decls T}
    (hD : R.dumpGrammar src b.imports rules = .ok D) {entry : Text} {maps : ReductMap (Meta X) T}
    (hM : R.dumpReductor entry src b.imports rules' = .ok maps) {k : Method} {dbg' : Bool} {eof : T}
    {t : Tabler T} {pre : List Decl} {ident sp : Span} {a : Alt} {x : Expansion}
    (hs : HasRule ds pre ident [a]) (hx : Spec.expand a.items = [x]) (hw : x.word = [sp])
    (ht : Makes k dbg' D (R.sym (textOf src ident)) eof t) (hS : InNoBody D (R.sym (textOf src ident)))
    (he : IsToken src R.sym ds eof) {toks : List (Token (Meta X) T)} {v : Meta X}
    (h : Parses t maps toks (.ok v)) : SymValue src R ds (denotes src R.sym pre sp) toks v := by
  have hd : Dumped dbg order L src R ds b rules := ⟨hord, hu, hr, hb, hp⟩
  have hd' : Dumped dbg order L src R ds b rules' := ⟨hord, hu, hr, hb, hp'⟩
  have hg := hd.grammarOf hinj hD
  have hm := hd'.reductorsOf hinj hplain hM
  obtain ⟨tr, h1, h2, h3, h4⟩ :=
    C24_value_single ht hS ((hg.tokens eof).mpr he) (start_prod hg hs hx hw) h
  rw [← h2, ← h3]
  exact symValue_of_tree hg hm tr h1 v h4

/-- C67: and if the table has no conflicts, the generated parser returns a value exactly if the source
describes it for the input. -/
theorem C67_exact (hord : Orders order) (hu : Utf8 src) (hr : ReadsProgram (lex L src) ds)
    (hb : Returns (fun n => Builder.fromStr dbg order n src (lex L src)) (.ok b))
    (hp : rules.Perm b.rules) {rules' : List (Text × RuleBuild)} (hp' : rules'.Perm b.rules)
    (hinj : ((ruleNames src ds).map R.sym).Nodup) (hplain : Plain src ds) {D : Decls T}
    (hD : R.dumpGrammar src b.imports rules = .ok D) {entry : Text} {maps : ReductMap (Meta X) T}
    (hM : R.dumpReductor entry src b.imports rules' = .ok maps) {k : Method} {dbg' : Bool} {eof : T}
    {t : Tabler T} {pre : List Decl} {ident sp : Span} {a : Alt} {x : Expansion}
    (hs : HasRule ds pre ident [a]) (hx : Spec.expand a.items = [x]) (hw : x.word = [sp])
    (ht : Makes k dbg' D (R.sym (textOf src ident)) eof t) (hk : k = .lalr → Propagated t)
    (hc : t.conflicts = []) (hS : InNoBody D (R.sym (textOf src ident)))
    (he : IsToken src R.sym ds eof) {toks : List (Token (Meta X) T)} {v : Meta X} :
    Parses t maps toks (.ok v) ↔ SymValue src R ds (denotes src R.sym pre sp) toks v := by
  refine ⟨C67_sound hord hu hr hb hp hp' hinj hplain hD hM hs hx hw ht hS he, fun h => ?_⟩
  have hd : Dumped dbg order L src R ds b rules := ⟨hord, hu, hr, hb, hp⟩
  have hd' : Dumped dbg order L src R ds b rules' := ⟨hord, hu, hr, hb, hp'⟩
  have hg := hd.grammarOf hinj hD
  have hm := hd'.reductorsOf hinj hplain hM
  obtain ⟨tr, h1, h2, h3, h4⟩ := SymValue.tree hg hm h
  have hv : Tree.Valid D (.node (R.sym (textOf src ident)) 0 ([] ++ [tr])) :=
    .node (by simpa [h2] using start_prod hg hs hx hw) (by simpa using h1)
  obtain ⟨v', k1, k2⟩ := C25_follows (maps := maps) ht hk hc hS ((hg.tokens eof).mpr he) (by
    intro tr' htr
    simp only [List.nil_append, List.mem_singleton] at htr
    subst htr
    exact ⟨v, h4⟩) hv
  rw [h4] at k1
  cases k1
  simpa [Tree.yields_singleton, h3] using k2

/-- C67: on an input the source describes, but without a value for it because a code block panics, the
generated parser panics. -/
theorem C67_panics (hord : Orders order) (hu : Utf8 src) (hr : ReadsProgram (lex L src) ds)
    (hb : Returns (fun n => Builder.fromStr dbg order n src (lex L src)) (.ok b))
    (hp : rules.Perm b.rules) {rules' : List (Text × RuleBuild)} (hp' : rules'.Perm b.rules)
    (hinj : ((ruleNames src ds).map R.sym).Nodup) (hplain : Plain src ds) {D : Decls T}
    (hD : R.dumpGrammar src b.imports rules = .ok D) {entry : Text} {maps : ReductMap (Meta X) T}
    (hM : R.dumpReductor entry src b.imports rules' = .ok maps) {k : Method} {dbg' : Bool} {eof : T}
    {t : Tabler T} {pre : List Decl} {ident sp : Span} {a : Alt} {x : Expansion}
    (hs : HasRule ds pre ident [a]) (hx : Spec.expand a.items = [x]) (hw : x.word = [sp])
    (ht : Makes k dbg' D (R.sym (textOf src ident)) eof t) (hk : k = .lalr → Propagated t)
    (hc : t.conflicts = []) (hS : InNoBody D (R.sym (textOf src ident)))
    (he : IsToken src R.sym ds eof) {toks : List (Token (Meta X) T)}
    (hword : SymWord src R.sym ds (denotes src R.sym pre sp) (toks.map Token.ty))
    (hnone : ∀ v, ¬ SymValue src R ds (denotes src R.sym pre sp) toks v) :
    ∃ p, Panics (fun n => Parser.parse t n toks maps) p := by
  have hd : Dumped dbg order L src R ds b rules := ⟨hord, hu, hr, hb, hp⟩
  have hd' : Dumped dbg order L src R ds b rules' := ⟨hord, hu, hr, hb, hp'⟩
  have hg := hd.grammarOf hinj hD
  have hm := hd'.reductorsOf hinj hplain hM
  obtain ⟨hder, hterm⟩ := (sentence_iff_word hg).mpr hword
  obtain ⟨tr, h2, h1, h3⟩ := Tree.of_derives hder
    (fun tok ht => hterm _ (List.mem_map_of_mem ht))
  subst h3
  have hv : Tree.Valid D (.node (R.sym (textOf src ident)) 0 ([] ++ [tr])) :=
    .node (by simpa [h2] using start_prod hg hs hx hw) (by simpa using h1)
  have := C25_panics (maps := maps) ht hk hc hS ((hg.tokens eof).mpr he) ⟨tr, by simp, by
    cases hev : tr.eval (redOf maps) with
    | none => rfl
    | some v => exact absurd (h2 ▸ symValue_of_tree hg hm tr h1 v hev) (hnone v)⟩ hv
  simpa [Tree.yields_singleton] using this

end

/-! ### An example -/

namespace WopSamples

/-- Sums: a token alias, a rule for the start, and a rule with an optional group. -/
def sumSrc : Text := bytes "alias p P;S:T=E:v->{v}%;E:T=N:a(p E:b)?->{s}%;"

def sumToks : List Gramem :=
  [tk .aliasWord 0 5, tk .ident 6 7, tk .ident 8 9, tk .sc 9 10,
   tk .ident 10 11, tk .twoDots 11 12, tk .ident 12 13, tk .assign 13 14, tk .ident 14 15,
   tk .twoDots 15 16, tk .ident 16 17, tk .codeBlock 17 23, tk .sc 23 24,
   tk .ident 24 25, tk .twoDots 25 26, tk .ident 26 27, tk .assign 27 28, tk .ident 28 29,
   tk .twoDots 29 30, tk .ident 30 31, tk .openParen 31 32, tk .ident 32 33, tk .ident 34 35,
   tk .twoDots 35 36, tk .ident 36 37, tk .closeParen 37 38, tk .optional 38 39,
   tk .codeBlock 39 45, tk .sc 45 46]

theorem sum_lex : lex lexer sumSrc = sumToks := by with_unfolding_all rfl

def sumStart : Alt := ⟨[.sym ⟨14, 15⟩ false (some ⟨16, 17⟩) false], ⟨17, 23⟩, []⟩

def sumAlt : Alt :=
  ⟨[.sym ⟨28, 29⟩ false (some ⟨30, 31⟩) false,
    .group [[.sym ⟨32, 33⟩ false none false, .sym ⟨34, 35⟩ false (some ⟨36, 37⟩) false]] true none false],
   ⟨39, 45⟩, [Span.new 0 0]⟩

def sumDecls : List Decl :=
  [.token ⟨6, 7⟩ ⟨8, 9⟩, .rule ⟨10, 11⟩ ⟨12, 13⟩ [sumStart], .rule ⟨24, 25⟩ ⟨26, 27⟩ [sumAlt]]

theorem sum_utf8 : Utf8 sumSrc := utf8_ascii (by decide +kernel)

theorem sum_reads : ReadsProgram (lex lexer sumSrc) sumDecls := by
  rw [sum_lex]
  have d1 : ReadsDecl (sumToks.take 3) (.token ⟨6, 7⟩ ⟨8, 9⟩) :=
    .token (a := tk .aliasWord 0 5) (n := tk .ident 6 7) (ts := [tk .ident 8 9]) rfl (.inl rfl) (.one rfl)
  have p1 : ReadsProgram (sumToks.take 4) [.token ⟨6, 7⟩ ⟨8, 9⟩] := .one (s := tk .sc 9 10) d1 rfl
  have i2 : ReadsItem [tk .ident 14 15, tk .twoDots 15 16, tk .ident 16 17]
      (.sym ⟨14, 15⟩ false (some ⟨16, 17⟩) false) [] :=
    .path (ts := [tk .ident 14 15]) (as := [tk .twoDots 15 16, tk .ident 16 17]) (.one rfl) .no
      (.ref rfl rfl)
  have a2 : ReadsRule _ [sumStart] := .one (us := [tk .codeBlock 17 23]) (.one i2) (.some rfl)
  have d2 : ReadsDecl ((sumToks.drop 4).take 8) (.rule ⟨10, 11⟩ ⟨12, 13⟩ [sumStart]) :=
    .rule (is := [tk .ident 10 11]) (ts := [tk .ident 12 13]) (.one rfl) rfl (.one rfl) rfl a2
  have p2 : ReadsProgram (sumToks.take 13) (sumDecls.take 2) :=
    .more (s := tk .sc 23 24) p1 d2 rfl
  have i3 : ReadsItem [tk .ident 28 29, tk .twoDots 29 30, tk .ident 30 31]
      (.sym ⟨28, 29⟩ false (some ⟨30, 31⟩) false) [] :=
    .path (ts := [tk .ident 28 29]) (as := [tk .twoDots 29 30, tk .ident 30 31]) (.one rfl) .no
      (.ref rfl rfl)
  have i4 : ReadsItem [tk .ident 32 33] (.sym ⟨32, 33⟩ false none false) [] :=
    .path (ts := [tk .ident 32 33]) (.one rfl) .no .none
  have i5 : ReadsItem [tk .ident 34 35, tk .twoDots 35 36, tk .ident 36 37]
      (.sym ⟨34, 35⟩ false (some ⟨36, 37⟩) false) [] :=
    .path (ts := [tk .ident 34 35]) (as := [tk .twoDots 35 36, tk .ident 36 37]) (.one rfl) .no
      (.ref rfl rfl)
  have r := ReadsRule.one (us := []) (.more (.one i4) i5) .none
  have g := ReadsItem.group (o := tk .openParen 31 32) (c := tk .closeParen 37 38)
    (os := [tk .optional 38 39]) (as := []) rfl r rfl (.yes rfl) .none
  have a3 : ReadsRule _ [sumAlt] :=
    .one (us := [tk .codeBlock 39 45]) (.more (.one i3) g) (.some rfl)
  have d3 : ReadsDecl ((sumToks.drop 13).take 15) (.rule ⟨24, 25⟩ ⟨26, 27⟩ [sumAlt]) :=
    .rule (is := [tk .ident 24 25]) (ts := [tk .ident 26 27]) (.one rfl) rfl (.one rfl) rfl a3
  exact .more (s := tk .sc 45 46) p2 d3 rfl

/-- `S` is 0, `E` is 1, `N` is 10 and `P` is 11.  The first code block returns its variable `v`, the
second one adds `a` and, if it is there, `b`. -/
def sumRust : Rust Nat Nat where
  sym t := if t = [83] then 0 else if t = [69] then 1 else if t = [78] then 10 else
    if t = [80] then 11 else 12
  code c _ vars :=
    if c = bytes "{v}" then
      match vars (bytes "v") with
      | some (.bare (.one t)) => some t.item.item
      | _ => none
    else
      match vars (bytes "a"), vars (bytes "b") with
      | some (.bare (.one s)), some (.some (.one t)) => some (s.item.item + t.item.item)
      | some (.bare (.one s)), some .none => some s.item.item
      | _, _ => none

def sumD : Decls Nat := [(0, [[1]]), (1, [[10, 11, 1], [10]])]

/-- The tokens `3 + 4`, of one byte each. -/
def sumInput : List (Token (Meta Nat) Nat) := [⟨⟨3, ⟨0, 1⟩⟩, 10⟩, ⟨⟨0, ⟨1, 2⟩⟩, 11⟩, ⟨⟨4, ⟨2, 3⟩⟩, 10⟩]

/-- The whole way: the source is read, the grammar and the reductors are generated, the table is built and
run on `3 + 4`. -/
def sumRun : Bool :=
  match Builder.fromStr false order 100 sumSrc (lex lexer sumSrc) with
  | .ok (.ok b) =>
    decide (sumRust.dumpGrammar sumSrc b.imports b.rules = .ok sumD) &&
    match sumRust.dumpReductor [84] sumSrc b.imports b.rules.reverse, Slr.new true 50 (Samples.grammar sumD) with
    | .ok maps, .ok t => decide (t.conflicts = []) &&
      match Parser.parse t 50 sumInput maps with
      | .ok (.ok v) => decide (v.item = 7 ∧ v.span.start = 0 ∧ v.span.stop = 3)
      | _ => false
    | _, _ => false
  | _ => false

theorem sum_run : sumRun = true := by decide +kernel

theorem sum_built : ∃ b maps t v, Builder.fromStr false order 100 sumSrc (lex lexer sumSrc) = .ok (.ok b) ∧
    sumRust.dumpGrammar sumSrc b.imports b.rules = .ok sumD ∧
    sumRust.dumpReductor [84] sumSrc b.imports b.rules.reverse = .ok maps ∧
    Slr.new true 50 (Samples.grammar sumD) = .ok t ∧ t.conflicts = [] ∧
    Parser.parse t 50 sumInput maps = .ok (.ok v) ∧ v = ⟨7, ⟨0, 3⟩⟩ := by
  have h := sum_run
  unfold sumRun at h
  split at h
  · rename_i b hb
    rw [Bool.and_eq_true] at h
    obtain ⟨h1, h⟩ := h
    split at h
    · rename_i maps t hm ht
      rw [Bool.and_eq_true] at h
      obtain ⟨h2, h⟩ := h
      split at h
      · rename_i v hv
        obtain ⟨e1, e2, e3⟩ := of_decide_eq_true h
        refine ⟨b, maps, t, v, hb, of_decide_eq_true h1, hm, ht, of_decide_eq_true h2, hv, ?_⟩
        obtain ⟨n, a, c⟩ := v
        cases e1; cases e2; cases e3
        rfl
      · cases h
    · cases h
  · cases h

theorem sum_rule {pre : List Decl} {ident : Span} {alts : List Alt} (h : HasRule sumDecls pre ident alts) :
    (ident = ⟨10, 11⟩ ∧ alts = [sumStart]) ∨ (ident = ⟨24, 25⟩ ∧ alts = [sumAlt]) := by
  obtain ⟨ty, post, e⟩ := h
  have hm : Decl.rule ident ty alts ∈ sumDecls := by rw [e]; simp
  simp only [sumDecls, List.mem_cons, Decl.rule.injEq, reduceCtorEq, List.not_mem_nil, or_false,
    false_or] at hm
  rcases hm with ⟨rfl, _, rfl⟩ | ⟨rfl, _, rfl⟩
  · exact .inl ⟨rfl, rfl⟩
  · exact .inr ⟨rfl, rfl⟩

theorem sum_plain : Plain sumSrc sumDecls := by
  intro pre ident alts h a ha
  rcases sum_rule h with ⟨rfl, rfl⟩ | ⟨rfl, rfl⟩ <;> rw [List.mem_singleton] at ha <;> subst ha
  · refine ⟨distinct_wellNamed _ (by unfold DistinctNames; decide +kernel), flat_tidy ?_⟩
    intro i hi A hA
    simp only [sumStart, List.mem_singleton] at hi
    subst hi
    cases hA
  · refine ⟨distinct_wellNamed _ (by unfold DistinctNames; decide +kernel), flat_tidy ?_⟩
    intro i hi A hA j hj
    simp only [sumAlt, List.mem_cons, List.not_mem_nil, or_false] at hi
    rcases hi with rfl | rfl
    · cases hA
    · simp only [Item.alts, List.mem_singleton] at hA
      subst hA
      simp only [List.mem_cons, List.not_mem_nil, or_false] at hj
      rcases hj with rfl | rfl <;> simp [Item.Solid]

theorem sum_eof : IsToken sumSrc sumRust.sym sumDecls 99 := by
  intro pre ident alts h
  rcases sum_rule h with ⟨rfl, _⟩ | ⟨rfl, _⟩ <;> decide +kernel

/-- The hypotheses of C66 and C67 are met: the generated parser for sums accepts exactly the sums,
returns exactly the values the source describes, and 7 for `3 + 4`. -/
theorem sum_works : ∃ t maps,
    (∀ toks : List (Token Unit Nat),
      Validates t toks true ↔ SymWord sumSrc sumRust.sym sumDecls 0 (toks.map Token.ty)) ∧
    (∀ toks v, Parses t maps toks (.ok v) ↔ SymValue sumSrc sumRust sumDecls 1 toks v) ∧
    Parses t maps sumInput (.ok ⟨7, ⟨0, 3⟩⟩) := by
  obtain ⟨b, maps, t, v, hb, hD, hM, ht, hc, hv, rfl⟩ := sum_built
  have ht' : Makes .slr true sumD 0 99 t := ⟨_, by decide +kernel, 50, ht⟩
  have hS : InNoBody sumD 0 := Samples.inNoBody (by decide)
  have hinj : ((ruleNames sumSrc sumDecls).map sumRust.sym).Nodup := by decide +kernel
  have e0 : sumRust.sym (textOf sumSrc ⟨10, 11⟩) = 0 := by decide +kernel
  have e1 : denotes sumSrc sumRust.sym [.token ⟨6, 7⟩ ⟨8, 9⟩] ⟨14, 15⟩ = 1 := by decide +kernel
  refine ⟨t, maps, fun toks => ?_, fun toks v => ?_, 50, hv⟩
  · exact C66_accepts orders sum_utf8 sum_reads ⟨100, hb⟩ (.refl _) hinj hD ht' (by simp) hc hS
      (Samples.singleStart (by decide)) sum_eof
  · have := C67_exact (toks := toks) (v := v) orders sum_utf8 sum_reads ⟨100, hb⟩ (.refl _) (List.reverse_perm _) hinj
      sum_plain hD hM
      (pre := [.token ⟨6, 7⟩ ⟨8, 9⟩]) (ident := ⟨10, 11⟩) (sp := ⟨14, 15⟩) (a := sumStart)
      (x := ⟨[⟨14, 15⟩], [(⟨16, 17⟩, ⟨0, 1, none, false⟩)], [⟨16, 17⟩]⟩)
      ⟨⟨12, 13⟩, [.rule ⟨24, 25⟩ ⟨26, 27⟩ [sumAlt]], rfl⟩
      (by simp [sumStart, Spec.expand, Item.expand, Expansion.append, Expansion.empty]) rfl
      (by rw [e0]; exact ht') (by simp) hc (by rw [e0]; exact hS) sum_eof
    rw [e1] at this
    exact this

end WopSamples

end Lrp.Props
