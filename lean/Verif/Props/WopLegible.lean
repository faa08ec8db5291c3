import Verif.Proofs.WopLegible
import Verif.Props.WopFile

/-! C95: what the words of a program look like, and that they cannot garble the Rust that is written. -/

namespace Lrp.Props
open Spec Wop Wop.Spec
set_option maxRecDepth 100000
set_option linter.unusedSectionVars false

section
variable {quote : Text → Text} {dbg : Bool} {order : Nat → List Span → List Span}
  {walk : Nat → List (Text × RuleBuild) → List (Text × RuleBuild)} {L : LexEnv} {src : Text} {ds : List Decl}

theorem hasRule_decl {pre : List Decl} {ident : Span} {alts : List Alt} (h : HasRule ds pre ident alts) :
    ∃ ty, Decl.rule ident ty alts ∈ ds := by
  obtain ⟨ty, post, rfl⟩ := h
  exact ⟨ty, by simp⟩

theorem use_without (hr : ReadsProgram (lex L src) ds) (ht : Commentless src ds) {cs : List Nat}
    (hcs : ∀ c ∈ cs, c ≠ 58 ∧ c ≠ 42) : ∀ sp ∈ uses ds, Without cs (textOf src sp) := fun sp hs =>
  without_path (CoveredBy.bytes (readsProgram_names hr _ (use_mem hs)) (ht.uses sp hs)) hcs

theorem ident_without (hr : ReadsProgram (lex L src) ds) (ht : Commentless src ds) {cs : List Nat}
    (hcs : ∀ c ∈ cs, c ≠ 58 ∧ c ≠ 42) {ident ty : Span} {alts : List Alt} (h : Decl.rule ident ty alts ∈ ds) :
    Without cs (textOf src ident) ∧ Without cs (textOf src ty) := by
  obtain ⟨h1, h2, _⟩ := readsProgram_names hr _ h
  obtain ⟨t1, t2, _⟩ := ht.rules ident ty alts h
  exact ⟨without_path (h1.covered.bytes t1) hcs, without_path (h2.bytes t2) hcs⟩

theorem symbol_without (hr : ReadsProgram (lex L src) ds) (ht : Commentless src ds) {cs : List Nat}
    (hcs : ∀ c ∈ cs, c ≠ 58 ∧ c ≠ 42) {pre : List Decl} {ident : Span} {alts : List Alt}
    (h : HasRule ds pre ident alts) {a : Alt} (ha : a ∈ alts) {sp : Span} (hs : sp ∈ symbols a.items) :
    Without cs (textOf src (resolve src (tokens src pre) sp)) := by
  obtain ⟨ty, hm⟩ := hasRule_decl h
  unfold resolve
  cases e : (tokens src pre).lookup (textOf src sp) with
  | none =>
    exact (((readsProgram_names hr _ hm).2.2 a ha).1 sp hs).without ((ht.rules _ _ _ hm).2.2 a ha sp hs) hcs
  | some t =>
    obtain ⟨n, hn⟩ := token_mem (lookup_mem e)
    have hd : Decl.token n t ∈ ds := by
      obtain ⟨_, _, rfl⟩ := h
      simp [hn]
    exact without_path (CoveredBy.bytes (readsProgram_names hr _ hd) (ht.tokens n t hd)) hcs

/-- C95: the name of an alias is a word; so is that of a rule, unless it has a colon. -/
theorem C95_words (hr : ReadsProgram (lex L src) ds) {ident ty : Span} {alts : List Alt}
    (h : Decl.rule ident ty alts ∈ ds) :
    (58 ∉ textOf src ident → IsWord (textOf src ident)) ∧
      ∀ a ∈ alts, ∀ n ∈ names a.items, IsWord (textOf src n) := by
  obtain ⟨h1, _, h2⟩ := readsProgram_names hr _ h
  exact ⟨h1.word, fun a ha n hn => ((h2 a ha).2 n hn).word⟩

/-- C95: without comments inside of paths, no import, rule name, type or symbol of a program, nor what the
symbol is an alias of, can be taken for anything but a name in the Rust that is written. -/
theorem C95_legible (hr : ReadsProgram (lex L src) ds) (ht : Commentless src ds) :
    GrammarLegible src ds ∧ Braceless src ds ∧
      ∀ ident ty alts, Decl.rule ident ty alts ∈ ds → Without [62] (textOf src ty) := by
  refine ⟨⟨use_without hr ht (by decide), fun pre ident alts h => ?_, fun pre ident alts h a ha sp hs =>
    symbol_without hr ht (by decide) h ha hs⟩, ⟨use_without hr ht (by decide), fun ident ty alts h =>
    ident_without hr ht (by decide) h, fun pre ident alts h a ha sp hs => symbol_without hr ht (by decide) h ha hs⟩,
    fun ident ty alts h => (ident_without hr ht (by decide) h).2⟩
  obtain ⟨ty, hm⟩ := hasRule_decl h
  exact (ident_without hr ht (by decide) hm).1

/-- C95: what is left to the author for the reductors: rules not named by paths, no alias named `mut`, and
code with closed strings and balanced braces. -/
theorem C95_reductors (hr : ReadsProgram (lex L src) ds) (ht : Commentless src ds) {entry : Text}
    (hen : Without [93] entry)
    (hid : ∀ ident ty alts, Decl.rule ident ty alts ∈ ds → 58 ∉ textOf src ident)
    (hmut : ∀ ident ty alts, Decl.rule ident ty alts ∈ ds → ∀ a ∈ alts, ∀ n ∈ names a.items,
      textOf src n ≠ ascii "mut")
    (hcode : ∀ ident ty alts, Decl.rule ident ty alts ∈ ds → ∀ a ∈ alts, ∀ code,
      textOf src a.block = 45 :: 62 :: (code ++ [37]) → Closed code ∧ balance 0 (toksOf code) = some 0) :
    ReductorLegible entry src ds where
  entry := hen
  uses := use_without hr ht (by decide)
  rules := fun _ _ _ h => ⟨(C95_words hr h).1 (hid _ _ _ h), (ident_without hr ht (by decide) h).2⟩
  names := fun _ _ _ h a ha n hn => ⟨(C95_words hr h).2 a ha n hn, hmut _ _ _ h a ha n hn⟩
  code := hcode

/-- C95, put together with C74: the text of `dump_grammar` is what the program says, for every program
without comments inside of paths. -/
theorem C95_grammar (hord : Orders order) (hu : Utf8 src) (hr : ReadsProgram (lex L src) ds)
    (ht : Commentless src ds) {b : Builder} {rules : List (Text × RuleBuild)}
    (hb : Returns (fun n => Builder.fromStr dbg order n src (lex L src)) (.ok b)) (hp : rules.Perm b.rules) :
    ∃ t gs, grammarText src b.imports rules = .ok t ∧
      readGrammar t = some ((uses ds).map (fun sp => toksOf (textOf src sp)), gs) ∧
      (gs.map (·.1)).Perm ((ruleNames src ds).map toksOf) ∧
      ∀ pre ident alts, HasRule ds pre ident alts →
        (toksOf (textOf src ident), (expansions alts).map (fun ax =>
          ax.2.word.map (fun sp => toksOf (textOf src (resolve src (tokens src pre) sp))))) ∈ gs :=
  C74_reads hord hu hr hb hp (C95_legible hr ht).1

/-- C95, put together with C84: `out.rs` can be read back, if in addition no rule is named by a path, no alias
is named `mut`, and the code has closed strings and balanced braces. -/
theorem C95_file (hord : Orders order) (hw : Walks walk) (hu : Utf8 src) (hr : ReadsProgram (lex L src) ds)
    (hp : Proper src ds) (ht : Commentless src ds)
    (hid : ∀ ident ty alts, Decl.rule ident ty alts ∈ ds → 58 ∉ textOf src ident)
    (hmut : ∀ ident ty alts, Decl.rule ident ty alts ∈ ds → ∀ a ∈ alts, ∀ n ∈ names a.items,
      textOf src n ≠ ascii "mut")
    (hcode : ∀ ident ty alts, Decl.rule ident ty alts ∈ ds → ∀ a ∈ alts, ∀ code,
      textOf src a.block = 45 :: 62 :: (code ++ [37]) → Closed code ∧ balance 0 (toksOf code) = some 0) :
    ∃ t g r gs acts, Returns (fun n => Wop.run quote dbg order walk n src (lex L src)) (t, .ok ()) ∧
      readFile t = some (g, r) ∧
      readGrammarToks g = some ((uses ds).map (fun sp => toksOf (textOf src sp)), gs) ∧
      (gs.map (·.1)).Perm ((ruleNames src ds).map toksOf) ∧
      readReductorToks r = some ((uses ds).map (fun sp => toksOf (textOf src sp)), acts) ∧
      ((inserted acts).map (·.1)).Perm ((ruleNames src ds).map toksOf) := by
  obtain ⟨t, g, r, gs, acts, h1, h2, h3, h4, _, h6, _, _, h9, _⟩ := C84_reads (quote := quote) (dbg := dbg)
    hord hw hu hr hp (C95_legible hr ht).1
    (C95_reductors hr ht (WopSamples.without_of (by decide +kernel)) hid hmut hcode) (C95_legible hr ht).2.1
  exact ⟨t, g, r, gs, acts, h1, h2, h3, h4, h6, h9⟩

end

/-! ### Samples -/

namespace WopSamples

theorem sum_slash (sp : Span) : 47 ∉ textOf sumSrc sp := by
  intro h
  obtain ⟨i, _, _, h⟩ := mem_textOf.mp h
  have key : (47 : Nat) ∉ sumSrc := by decide +kernel
  exact key (List.mem_of_getElem? h)

theorem sum_commentless : Commentless sumSrc sumDecls where
  uses := fun sp _ => sum_slash sp
  rules := fun ident ty _ _ => ⟨sum_slash ident, sum_slash ty, fun _ _ sp _ h => absurd h (sum_slash sp)⟩
  tokens := fun _ target _ => sum_slash target

/-- The hypotheses of `C95_file` are met by the sums. -/
example : Orders order ∧ Walks (fun i rs => if i = 0 then rs else rs.reverse) ∧ Utf8 sumSrc ∧
    ReadsProgram (lex lexer sumSrc) sumDecls ∧ Proper sumSrc sumDecls ∧ Commentless sumSrc sumDecls ∧
    (∀ ident ty alts, Decl.rule ident ty alts ∈ sumDecls → 58 ∉ textOf sumSrc ident) ∧
    (∀ ident ty alts, Decl.rule ident ty alts ∈ sumDecls → ∀ a ∈ alts, ∀ n ∈ names a.items,
      textOf sumSrc n ≠ ascii "mut") ∧
    ∀ ident ty alts, Decl.rule ident ty alts ∈ sumDecls → ∀ a ∈ alts, ∀ code,
      textOf sumSrc a.block = 45 :: 62 :: (code ++ [37]) → Closed code ∧ balance 0 (toksOf code) = some 0 := by
  refine ⟨orders, ?_, sum_utf8, sum_reads, sum_proper, sum_commentless, ?_,
    fun ident ty alts h a ha n hn => (sum_reductorLegible.names ident ty alts h a ha n hn).2,
    sum_reductorLegible.code⟩
  · intro i rs
    simp only
    split
    · exact .refl _
    · exact List.reverse_perm _
  · intro ident ty alts h
    rcases sum_mem h with ⟨rfl, _, _⟩ | ⟨rfl, _, _⟩ <;> decide +kernel

/-- A path with a comment inside: its span runs over the comment, whose comma is then in the text of the
rule's name. A slash in a string literal does no harm, nor does a bracket. -/
example : (lex lexer (bytes "a/*,*/::b")).map (fun t => (t.ty, t.item.span.start, t.item.span.stop)) =
      [(.ident, 0, 1), (.pathAccess, 6, 8), (.ident, 8, 9)] ∧
    ¬ Without [44] (textOf (bytes "a/*,*/::b") ⟨0, 9⟩) ∧ Without [44, 93, 123, 125] (bytes "\"/,]{\"") := by
  refine ⟨by decide +kernel, ?_, without_of (by decide +kernel)⟩
  intro h
  exact h.2 44 (by simp) (by decide +kernel)

end WopSamples

end Lrp.Props
