import Verif.Proofs.Refill
import Verif.Props.Power

/-! C92: `with_table` on a table that has been filled. -/

set_option maxRecDepth 100000

namespace Lrp.Props
open Spec
variable {T M : Type} [LinOrd T] [DecidableEq T]

/-- C92: `with_table` of any parser, on a table made by any parser, changes nothing: whatever it returns parses every
input as before, with the same values, errors and panics (and does not return where it did not). -/
theorem C92_same {k k' : Method} {dbg dbg' : Bool} {D : Decls T} {S eof : T} {t t' : Tabler T}
    (ht : Makes k dbg D S eof t) (h : Returns (fun n => k'.fill dbg' n t) t') (n : Nat)
    (toks : List (Token M T)) (maps : ReductMap M T) :
    Parser.parse t' n toks maps = Parser.parse t n toks maps := by
  obtain ⟨m, h⟩ := h
  obtain ⟨hg, rows, ha⟩ := withTable_kept h
  obtain ⟨hc, h0, _⟩ := ht.closedTable
  exact parse_more_rows hc h0 hg ha n toks maps

/-- C92: `Slr::with_table` and `Clr::with_table` return on every table made by a parser. -/
theorem C92_returns {k k' : Method} {dbg : Bool} {D : Decls T} {S eof : T} {t : Tabler T}
    (ht : Makes k dbg D S eof t) (hk : k' ≠ .lalr) (dbg' : Bool) :
    ∃ t', Returns (fun n => k'.fill dbg' n t) t' := by
  obtain ⟨hof, hu⟩ := ht.usable
  cases k' with
  | slr => exact Slr.refill dbg' hof hu
  | clr => exact Clr.refill dbg' hof hu
  | lalr => exact absurd rfl hk

/-- C92: the same method again appends the start state and all rows once more, and nothing else. -/
theorem C92_again {k : Method} (hk : k ≠ .lalr) {dbg : Bool} {D : Decls T} {S eof : T} {t : Tabler T}
    (ht : Makes k dbg D S eof t) (dbg' : Bool) : ∃ s0 row0, t.states[0]? = some s0 ∧
      t.actions[0]? = some row0 ∧ Returns (fun n => k.fill dbg' n t)
        { t with states := t.states ++ [s0], actions := t.actions ++ t.actions ++ [row0] } := by
  cases k with
  | slr => exact ht.slr_again dbg'
  | clr => exact ht.clr_again dbg'
  | lalr => exact absurd rfl hk

/-- C92: `Lalr::with_table` panics on every table made by Clr, in every build. -/
theorem C92_lalr_panics {dbg : Bool} {D : Decls T} {S eof : T} {t : Tabler T}
    (ht : Makes .clr dbg D S eof t) (dbg' : Bool) :
    Panics (fun n => Method.lalr.fill dbg' n t) .incompleteKernels := by
  obtain ⟨n, h⟩ := ht.lalr_on_clr dbg'
  refine ⟨n, ?_⟩
  show (do let l ← Lalr.withTable dbg' n t; return l.table) = _
  have h : Lalr.withTable dbg' n t = _ := h
  rw [h]
  rfl

/-- What the code does not do: `Clr::with_table` on the table of an Slr parser does not give the Clr parser. For
`S → L = R | R`, `L → * R | id`, `R → L` it still answers `id = id` with Conflict, which `Clr::new` accepts. -/
theorem C92_not_clr : ∃ t t1 t2, Makes .slr true Samples.pointers 0 99 t ∧
    Returns (fun n => Method.clr.fill true n t) t1 ∧ Makes .clr true Samples.pointers 0 99 t2 ∧
    (∃ a b, Returns (fun n => Parser.parse t1 n (Samples.toks [12, 10, 12]) (Parser.empty t1))
      (.error (.conflict a b))) ∧
    Returns (fun n => Parser.parse t2 n (Samples.toks [12, 10, 12]) (Parser.empty t2)) (.ok ()) := by
  have hg : Grammar.new true 0 (grammarMap Samples.pointers) 99 =
    .ok (Samples.grammar Samples.pointers) := by decide +kernel
  have h : (match Slr.new true 50 (Samples.grammar Samples.pointers) with
      | .ok t => (match Clr.withTable true 50 t with
        | .ok t1 => (match Parser.parse t1 50 (Samples.toks [12, 10, 12]) (Parser.empty t1) with
          | .ok (.error (.conflict _ _)) => true
          | _ => false)
        | _ => false)
      | _ => false) = true := by decide +kernel
  have h' : (match Clr.new true 50 (Samples.grammar Samples.pointers) with
      | .ok t => (match Parser.parse t 50 (Samples.toks [12, 10, 12]) (Parser.empty t) with
        | .ok (.ok ()) => true
        | _ => false)
      | _ => false) = true := by decide +kernel
  split at h
  · rename_i t h1
    split at h
    · rename_i t1 h2
      split at h
      · rename_i a b h3
        split at h'
        · rename_i t2 h4
          split at h'
          · rename_i h5
            exact ⟨t, t1, t2, ⟨_, hg, 50, h1⟩, ⟨50, h2⟩, ⟨_, hg, 50, h4⟩, ⟨a, b, 50, h3⟩, 50, h5⟩
          · cases h'
        · cases h'
      · cases h
    · cases h
  · cases h

/-- Not vacuous: the Clr table of the same grammar, once more with `Clr::with_table`, and with `Slr::with_table`. -/
example : ∃ t, Makes .clr true Samples.pointers 0 99 t ∧
    (∃ t', Returns (fun n => Method.clr.fill true n t) t' ∧ t'.actions.length = 2 * t.actions.length + 1) ∧
    (∃ t', Returns (fun n => Method.slr.fill true n t) t' ∧ ∀ n (toks : List (Token Unit Nat)) maps,
      Parser.parse t' n toks maps = Parser.parse t n toks maps) ∧
    Panics (fun n => Method.lalr.fill false n t) .incompleteKernels := by
  obtain ⟨_, _, t, _, _, h, _⟩ := C92_not_clr
  obtain ⟨s0, row0, _, _, h1⟩ := C92_again (by simp) h true
  obtain ⟨t', h2⟩ := C92_returns (k' := .slr) h (by simp) true
  exact ⟨t, h, ⟨_, h1, by simp; omega⟩, ⟨t', h2, fun n toks maps => C92_same h h2 n toks maps⟩,
    C92_lalr_panics h false⟩

/-- Not vacuous: `Lalr::with_table` returns on the Slr table of the expression grammar. -/
example : ∃ t', Returns (fun n => Method.lalr.fill true n exprSlr) t' ∧
    ∀ n (toks : List (Token Unit Nat)) maps, Parser.parse t' n toks maps = Parser.parse exprSlr n toks maps := by
  have h : (match Method.lalr.fill true 300 exprSlr with
      | .ok _ => true
      | _ => false) = true := by decide +kernel
  split at h
  · rename_i t' h'
    exact ⟨t', ⟨300, h'⟩, fun n toks maps => C92_same makes_exprSlr ⟨300, h'⟩ n toks maps⟩
  · cases h

end Lrp.Props
