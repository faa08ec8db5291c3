import Verif.Proofs.Linear
import Verif.Props.Halt

/-! C68: parsing takes a number of rounds linear in the length of the input. -/

set_option linter.unusedSectionVars false

namespace Lrp.Props
open Spec
set_option maxRecDepth 100000

variable {T : Type} [LinOrd T] [DecidableEq T] {M : Type}

/-- The observer that counts its calls. -/
def counting (n : Nat) (d : Dfa M T) : Nat × Dfa M T := (n + 1, d)

/-- The loop of `Dfa::trace`, run on `toks` with at most `n` rounds and a counting observer, ends within
`most` rounds (by a result or by the panic of a reductor), and no call of `travel` nests deeper than two;
so `parse` ends as well. -/
def EndsWithin (t : Tabler T) (eof : T) (maps : ReductMap M T) (toks : List (Token M T)) (most : Nat) :
    Prop :=
  (∀ n, most < n → (∃ p, Dfa.traceWith counting 2 n 0 (Dfa.new toks t.actions maps eof) = .panic p) ∨
    ∃ calls r, Dfa.traceWith counting 2 n 0 (Dfa.new toks t.actions maps eof) = .ok (calls, r) ∧
      calls ≤ most) ∧
  ∀ n, most < n → Parser.parse t n toks maps ≠ .fuel

/-- C68: an observer that only looks does not change what `trace` does. -/
theorem C68_observer {σ : Type} (g : σ → Dfa M T → σ) (tf n : Nat) (s : σ) (d : Dfa M T) :
    (do let r ← Dfa.traceWith (fun s d => (g s d, d)) tf n s d; return r.2) = Dfa.trace id tf n d :=
  Dfa.traceWith_look g tf n s d

/-- From bounded rounds to `parse`. -/
theorem endsWithin_of {k : Method} {dbg : Bool} {D : Decls T} {S eof : T} {t : Tabler T}
    (ht : Makes k dbg D S eof t) {b0 : List T} {next : State T → T → Option Nat}
    {red : Position T → T → Prop} (ha : Auto D S b0 t.states t.actions next red) (he : Terminal D eof)
    (hU : ∀ i st syms y X, Path t.states next (i :: st) syms → Terminal D y →
      ¬ UnitLoop t.states t.actions next i y X)
    (maps : ReductMap M T) {toks : List (Token M T)} (hT : TerminalToks D toks) :
    EndsWithin t eof maps toks (2 * toks.length * (D.length + 1) + 1) := by
  constructor
  · intro n hn
    rcases ha.rounds he hU maps hT (n := n) (by omega) (Nat.le_refl 2) (fun (s : Nat) _ => s + 1) id
      (fun s d => Nat.le_refl _) 0 with h | ⟨s, r, h, hs⟩
    · exact .inl h
    · exact .inr ⟨s, r, h, by simpa using hs⟩
  · intro n hn
    have h1 : Dfa.start n (Dfa.new toks t.actions maps eof) ≠ .fuel := by
      unfold Dfa.start
      rw [← Dfa.traceWith_look (σ := Nat) (fun s _ => s + 1) n n 0]
      rcases ha.rounds he hU maps hT (n := n) (tf := n) (by omega) (by omega)
        (fun (s : Nat) _ => s + 1) id (fun s d => Nat.le_refl _) 0 with ⟨p, h⟩ | ⟨s, r, h, _⟩
      · rw [h]; simp
      · rw [h]; simp
    unfold Parser.parse Parser.dfa
    simp only [ht.eofHead, Out.ofOption_some, Out.ok_bind, Out.pure_eq]
    cases hd : Dfa.start n (Dfa.new toks t.actions maps eof) with
    | fuel => exact absurd hd h1
    | panic p => simp
    | ok r =>
      obtain ⟨d', e | u⟩ := r
      · simp
      · simp only [Out.ok_bind]
        split <;> simp

/-- C68 for `Clr`, with or without conflicts. -/
theorem C68_clr {dbg : Bool} {D : Decls T} {S eof : T} {t : Tabler T}
    (ht : Makes .clr dbg D S eof t) (he : Terminal D eof) (maps : ReductMap M T)
    {toks : List (Token M T)} (hT : TerminalToks D toks) :
    EndsWithin t eof maps toks (2 * toks.length * (D.length + 1) + 1) := by
  obtain ⟨b0, next, red, ha, hl, hx⟩ := ht.exact
  exact endsWithin_of ht ha he (fun i st syms y X _ hy => Exact.no_loop ha hl hx hy X) maps hT

/-- C68 for conflict-free tables of productive grammars: `Slr`, `Clr`, and `Lalr` tables whose lookaheads
have been passed on. -/
theorem C68_conflict_free {k : Method} {dbg : Bool} {D : Decls T} {S eof : T} {t : Tabler T}
    (ht : Makes k dbg D S eof t) (hk : k = .lalr → Propagated t) (hc : t.conflicts = [])
    (he : Terminal D eof) (hpr : AllProductive D) (maps : ReductMap M T)
    {toks : List (Token M T)} (hT : TerminalToks D toks) :
    EndsWithin t eof maps toks (2 * toks.length * (D.length + 1) + 1) := by
  obtain ⟨b0, next, red, ha, hl⟩ := ht.looks hk he
  exact endsWithin_of ht ha he
    (fun i st syms y X hp _ => Looks.no_loop ha hl he hpr (ht.no_conflict.mp hc) hp X) maps hT

/-- Not vacuous: the expression grammar satisfies all the hypotheses; so does every input of it. -/
example (toks : List (Token Unit Nat)) (hT : TerminalToks Samples.expr toks) :
    EndsWithin exprSlr 99 (Parser.empty exprSlr) toks (2 * toks.length * 5 + 1) :=
  C68_conflict_free makes_exprSlr (by simp) exprSlr_ok.2.2 expr_eof expr_productive _ hT

/-- The count on an input of five tokens (`n * n + n`): 5 shifts, 8 reductions and the last round. -/
example : ∃ r, Dfa.traceWith counting 2 100 0
    (Dfa.new (Samples.toks [14, 11, 14, 10, 14]) exprSlr.actions (Parser.empty exprSlr) 99) = .ok (14, r) ∧
    r.2.isOk = true := by
  refine ⟨_, rfl, ?_⟩; decide +kernel

end Lrp.Props
