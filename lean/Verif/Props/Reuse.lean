import Verif.Spec.Reuse
import Verif.Proofs.Reuse
import Verif.Props.Errors

/-! C32 once more: exactly for which grammars `Dfa::parse` works. -/

set_option linter.unusedSectionVars false

namespace Lrp.Props
open Spec
set_option maxRecDepth 100000

variable {T : Type} [LinOrd T] [DecidableEq T] {M : Type}

theorem reparse {k : Method} {dbg : Bool} {D : Decls T} {S eof X : T} {b : List T} {t : Tabler T}
    (ht : Makes k dbg D S eof t) (he : Terminal D eof) (hX : IsProd D S 0 (X :: b)) (hXt : Terminal D X)
    {maps : ReductMap M T} {d : Dfa M T} (hd : DfaOf t maps eof d) {input : List (Token M T)}
    (hT : TerminalToks D input) (n : Nat) :
    (∃ p, Dfa.parse n d input = .panic p ∧ Parser.parse t n input maps = .panic p) ∨
    (Dfa.parse n d input = .fuel ∧ Parser.parse t n input maps = .fuel) ∨
    ∃ d' r, Dfa.parse n d input = .ok (d', r) ∧ Parser.parse t n input maps = .ok r := by
  rcases C32_partial ht.eofHead d hd.table hd.reductors hd.eof n input with h | h | h | h
  · exfalso
    obtain ⟨b0, next, red, ha, _⟩ := ht.auto
    have hb0 := ha.start.unique hX
    have hb : NoBottom (Dfa.new input t.actions maps eof) { d.reset with buffer := input } :=
      ⟨rfl, rfl, hd.table, rfl, rfl, hd.reductors, hd.eof, rfl⟩
    unfold Dfa.parse Dfa.start at h
    rcases Out.bind_eq_panic.mp h with h | ⟨⟨e, r⟩, _, h⟩
    · exact ha.no_underflow (by rw [hb0]; rfl) hXt he hT n n (.refl _) (sim_init t.actions eof maps input) hb h
    · cases r with
      | error er => cases h
      | ok u =>
        revert h
        simp only
        cases e.items <;> intro h <;> cases h
  · exact Or.inl h
  · exact Or.inr (Or.inl h)
  · exact Or.inr (Or.inr h)

/-- C32: if the body of the start rule begins with a terminal, `Dfa::parse` on any `Dfa` of the parser, in
whatever state, does what `Parser::parse` does: it returns the same result, or panics in the same way, or does
not return either. -/
theorem C32_terminal_partial {k : Method} {dbg : Bool} {D : Decls T} {S eof X : T} {b : List T} {t : Tabler T}
    (ht : Makes k dbg D S eof t) (he : Terminal D eof) (hX : IsProd D S 0 (X :: b)) (hXt : Terminal D X)
    {maps : ReductMap M T} {d : Dfa M T} (hd : DfaOf t maps eof d) {input : List (Token M T)}
    (hT : TerminalToks D input) :
    (∀ r, Reparses d input r ↔ Parses t maps input r) ∧
    (∀ p, Panics (fun n => Dfa.parse n d input) p ↔ Panics (fun n => Parser.parse t n input maps) p) ∧
    (Diverges (fun n => Dfa.parse n d input) ↔ Diverges (fun n => Parser.parse t n input maps)) := by
  have key := reparse ht he hX hXt hd hT (maps := maps)
  refine ⟨fun r => ⟨?_, ?_⟩, fun p => ⟨?_, ?_⟩, ?_, ?_⟩
  · rintro ⟨d', n, h⟩
    rcases key n with ⟨p, h1, _⟩ | ⟨h1, _⟩ | ⟨d2, r2, h1, h2⟩
    · simp only [h1] at h; cases h
    · simp only [h1] at h; cases h
    · simp only [h1] at h; cases h; exact ⟨n, h2⟩
  · rintro ⟨n, h⟩
    rcases key n with ⟨p, _, h1⟩ | ⟨_, h1⟩ | ⟨d2, r2, h2, h1⟩
    · simp only [h1] at h; cases h
    · simp only [h1] at h; cases h
    · simp only [h1] at h; cases h; exact ⟨d2, n, h2⟩
  · rintro ⟨n, h⟩
    rcases key n with ⟨p, h1, h2⟩ | ⟨h1, _⟩ | ⟨d2, r2, h1, h2⟩
    · simp only [h1] at h; cases h; exact ⟨n, h2⟩
    · simp only [h1] at h; cases h
    · simp only [h1] at h; cases h
  · rintro ⟨n, h⟩
    rcases key n with ⟨p, h2, h1⟩ | ⟨_, h1⟩ | ⟨d2, r2, h2, h1⟩
    · simp only [h1] at h; cases h; exact ⟨n, h2⟩
    · simp only [h1] at h; cases h
    · simp only [h1] at h; cases h
  · intro hdv n
    rcases key n with ⟨p, h1, _⟩ | ⟨_, h1⟩ | ⟨d2, r2, h1, h2⟩
    · have := hdv n; simp only [h1] at this; cases this
    · exact h1
    · have := hdv n; simp only [h1] at this; cases this
  · intro hdv n
    rcases key n with ⟨p, _, h1⟩ | ⟨h1, _⟩ | ⟨d2, r2, _, h1⟩
    · have := hdv n; simp only [h1] at this; cases this
    · exact h1
    · have := hdv n; simp only [h1] at this; cases this

/-- C32, exactly when it holds: for a parser that accepts anything at all, `Dfa::parse` agrees with
`Parser::parse` on all inputs if and only if the body of the start rule begins with a terminal. -/
theorem C32_iff_partial {k : Method} {dbg : Bool} {D : Decls T} {S eof X : T} {b : List T} {t : Tabler T}
    (ht : Makes k dbg D S eof t) (hS : InNoBody D S) (he : Terminal D eof) (hX : IsProd D S 0 (X :: b))
    {maps : ReductMap M T} (hacc : ∃ toks v, TerminalToks D toks ∧ Parses t maps toks (.ok v)) :
    (∀ d, DfaOf t maps eof d → ∀ input, TerminalToks D input → ∀ r,
      Reparses d input r ↔ Parses t maps input r) ↔ Terminal D X := by
  constructor
  · intro h
    obtain ⟨toks, v, hT, hv⟩ := hacc
    have hd : DfaOf t maps eof (Dfa.new [] t.actions maps eof) := ⟨rfl, rfl, rfl⟩
    obtain ⟨d', n, hn⟩ := (h _ hd toks hT _).mpr hv
    refine Classical.byContradiction (fun hx => ?_)
    have hx' : Nonterminal D X := not_terminal_iff.mp hx
    exact C32_false ht hS he hX hx' _ hd.table hd.reductors hd.eof hT n d' v hn
  · intro hXt d hd input hT
    exact (C32_terminal_partial ht he hX hXt hd hT).1

/-- Statements: a keyword, then any number of letters, then a semicolon. -/
def keyword : Decls Nat := [(0, [[10, 1, 11]]), (1, [[1, 12], [12]])]

/-- Its Slr table. -/
def keywordSlr : Tabler Nat :=
  match Slr.new true 50 (Samples.grammar keyword) with
  | .ok t => t
  | _ => exprTabler

theorem makes_keyword : Makes .slr true keyword 0 99 keywordSlr :=
  ⟨Samples.grammar keyword, by decide +kernel, 50, by decide +kernel⟩

/-- Not vacuous: with this grammar a `Dfa` that is used twice accepts `kw a a ;` and reports the missing
semicolon of `kw a`, just as the parser does. -/
example : Terminal keyword 10 ∧
    (∃ toks v, TerminalToks keyword toks ∧ Parses keywordSlr (Parser.empty keywordSlr) toks (.ok v)) ∧
    (∃ d', Returns (fun n => Dfa.parse n (Dfa.new [] keywordSlr.actions (Parser.empty keywordSlr) 99)
        (Samples.toks [10, 12, 12, 11])) (d', .ok ()) ∧
      Reparses d' (Samples.toks [10, 12]) (.error (.unexpectedToken 99 [11, 12]))) := by
  have key : (match Dfa.parse 50 (Dfa.new [] keywordSlr.actions (Parser.empty keywordSlr) 99)
        (Samples.toks [10, 12, 12, 11]) with
      | .ok (d', .ok ()) => (match Dfa.parse 50 d' (Samples.toks [10, 12]) with
        | .ok (_, .error e) => decide (e = .unexpectedToken 99 [11, 12])
        | _ => false)
      | _ => false) = true := by decide +kernel
  have ht : Terminal keyword 10 := by unfold Terminal; decide
  have hT : TerminalToks keyword (Samples.toks [10, 12, 12, 11]) := by unfold TerminalToks Terminal; decide
  cases h1 : Dfa.parse 50 (Dfa.new [] keywordSlr.actions (Parser.empty keywordSlr) 99)
        (Samples.toks [10, 12, 12, 11]) with
  | panic p => rw [h1] at key; cases key
  | fuel => rw [h1] at key; cases key
  | ok r =>
    obtain ⟨d', e | u⟩ := r
    · rw [h1] at key; cases key
    · rw [h1] at key
      refine ⟨ht, ⟨_, (), hT, ?_⟩, d', ⟨50, h1⟩, ?_⟩
      · exact ((C32_terminal_partial makes_keyword (by unfold Terminal; decide)
          (b := [1, 11]) ⟨_, ⟨[], _, rfl, by simp⟩, rfl⟩ ht (d := Dfa.new [] keywordSlr.actions
            (Parser.empty keywordSlr) 99) ⟨rfl, rfl, rfl⟩ hT).1 _).mp ⟨d', 50, h1⟩
      · simp only at key
        cases h2 : Dfa.parse 50 d' (Samples.toks [10, 12]) with
        | panic p => rw [h2] at key; cases key
        | fuel => rw [h2] at key; cases key
        | ok r =>
          obtain ⟨d'', e | u⟩ := r
          · rw [h2] at key
            rw [of_decide_eq_true key] at h2
            exact ⟨d'', 50, h2⟩
          · rw [h2] at key; cases key

end Lrp.Props
