import Verif.Props.Halt

/-! C107: of the alternatives of the start rule only the first counts. -/

set_option linter.unusedSectionVars false

namespace Lrp.Props
open Spec
set_option maxRecDepth 100000

variable {M T : Type} [LinOrd T] [DecidableEq T]

/-- C107: what is accepted is derived by the first alternative of the start rule. -/
theorem C107_only_first {k : Method} {dbg : Bool} {D : Decls T} {S eof : T} {t : Tabler T}
    (ht : Makes k dbg D S eof t) (hS : InNoBody D S) (he : Terminal D eof) {maps : ReductMap M T}
    {toks : List (Token M T)} {v : M} (h : Parses t maps toks (.ok v)) :
    ∃ b, IsProd D S 0 b ∧ Derives D b (toks.map Token.ty) ∧ TerminalToks D toks := by
  obtain ⟨cs, last, h1, h2, _⟩ := C24_value ht hS he h
  have hT : TerminalToks D toks := fun tok htok => h1.terminals tok (by simpa [h2] using htok)
  cases h1 with
  | node hp hc => exact ⟨_, hp, h2 ▸ Tree.forest_derives hc, hT⟩

/-- C107: and what it derives is accepted, or a conflict is reported. -/
theorem C107_first {k : Method} {dbg : Bool} {D : Decls T} {S eof : T} {t : Tabler T}
    (ht : Makes k dbg D S eof t) (hk : k = .lalr → Propagated t) (hS : InNoBody D S) (he : Terminal D eof)
    {maps : ReductMap M T} {toks : List (Token M T)} (hred : Evaluates D maps toks) {b : List T}
    (hp : IsProd D S 0 b) (hd : Derives D b (toks.map Token.ty)) (hT : TerminalToks D toks) :
    (∃ v, Parses t maps toks (.ok v)) ∨ ∃ a b, Parses t maps toks (.error (.conflict a b)) := by
  obtain ⟨cs, h1, h2, rfl⟩ := Tree.forest_of_derives hd hT
  have hv : Tree.Valid D (.node S 0 cs) := .node (h1 ▸ hp) h2
  obtain ⟨cs, last, rfl⟩ := split_last ht.noEmpty hv
  rcases follow_tree ht hk hS he hred hv with ⟨v, _, h⟩ | h
  · exact .inl ⟨v, h⟩
  · exact .inr h

/-- C107: a parser without conflicts accepts exactly what the first alternative of the start rule derives. -/
theorem C107_exactly {k : Method} {dbg : Bool} {D : Decls T} {S eof : T} {t : Tabler T}
    (ht : Makes k dbg D S eof t) (hk : k = .lalr → Propagated t) (hc : t.conflicts = []) (hS : InNoBody D S)
    (he : Terminal D eof) {toks : List (Token Unit T)} :
    Validates t toks true ↔ ∃ b, IsProd D S 0 b ∧ Derives D b (toks.map Token.ty) ∧ TerminalToks D toks := by
  rw [validates_true]
  constructor
  · exact C107_only_first ht hS he
  · rintro ⟨b, h1, h2, h3⟩
    rcases C107_first ht hk hS he ((reductors_empty ht.grammar).evaluates toks) h1 h2 h3 with ⟨v, h⟩ | ⟨a, b, h⟩
    · exact h
    · exact absurd h (not_conflict ht hc he h3)

/-- `S → a | b`, with `S` as the start. -/
def twoEntries : Decls Nat := [(0, [[10], [11]])]

/-- C107: not vacuous, and the alternatives after the first are really lost. In release builds all three methods
make a table of `S → a | b` without conflicts; it accepts `a`, and rejects the sentence `b`. Debug builds panic. -/
theorem C107_lost (k : Method) : (∃ t, Makes k false twoEntries 0 99 t ∧ t.conflicts = [] ∧
    InNoBody twoEntries 0 ∧ Terminal twoEntries 99 ∧ Sentence twoEntries 0 [11] ∧
    Validates t (Samples.toks [10]) true ∧ Validates t (Samples.toks [11]) false) ∧
    ¬ ∃ t, Makes k true twoEntries 0 99 t := by
  have hs : Sentence twoEntries 0 [11] := by
    refine ⟨.head (by simpa using Step.mk [] [] (isProd_of_mem (D := twoEntries) (by decide)
      (bs := [[10], [11]]) (by decide) rfl : IsProd twoEntries 0 1 [11])) (.refl _), ?_⟩
    unfold Terminal
    decide
  have hb : InNoBody twoEntries 0 := Samples.inNoBody (by decide)
  have he : Terminal twoEntries 99 := by unfold Terminal; decide
  refine ⟨?_, ?_⟩
  · have h : ∃ g t, Grammar.new false 0 (grammarMap twoEntries) 99 = .ok g ∧ k.build false 50 g = .ok t ∧
        t.conflicts = [] ∧ Parser.validate t 50 (Samples.toks [10]) = .ok true ∧
        Parser.validate t 50 (Samples.toks [11]) = .ok false := by
      cases k <;> exact ⟨_, _, rfl, rfl, rfl, rfl, rfl⟩
    obtain ⟨g, t, h1, h2, h3, h4, h5⟩ := h
    exact ⟨t, ⟨g, h1, 50, h2⟩, h3, hb, he, hs, ⟨50, h4⟩, ⟨50, h5⟩⟩
  · rintro ⟨t, g, h, _⟩
    have : Grammar.new true 0 (grammarMap twoEntries) 99 = .panic .dbgManyEntries := by rfl
    rw [this] at h
    cases h

end Lrp.Props
