import Verif.Props.Automaton
import Verif.Proofs.LalrSpec

/-!
Properties C14, C15, C16 and C17 for Lalr, and C33 (`merged`).
-/

set_option linter.unusedSectionVars false
set_option maxRecDepth 100000

namespace Lrp.Props
open Spec
variable {T : Type} [LinOrd T] [DecidableEq T]

/-! ### C33: `merged` -/

/-- Equal up to lookahead. -/
def SameBare (p q : Position T) : Prop := p.rule = q.rule ∧ p.seq = q.seq ∧ p.point = q.point

/-- C33: `merged` has exactly one position for each body of its argument, with the union of the
lookaheads of the positions with this body; merging again changes nothing. -/
theorem C33_merged (s : State T) (hl : ∀ p ∈ s, IsSet p.look) :
    IsSet (merged s) ∧ (∀ q ∈ merged s, IsSet q.look) ∧
    (∀ q ∈ merged s, ∃ p ∈ s, SameBare p q) ∧
    (∀ p ∈ s, ∃ q ∈ merged s, SameBare p q ∧ ∀ q' ∈ merged s, SameBare p q' → q' = q) ∧
    (∀ q ∈ merged s, ∀ x, x ∈ q.look ↔ ∃ p ∈ s, SameBare p q ∧ x ∈ p.look) ∧
    merged (merged s) = merged s := by
  have h := merged_spec s
  refine ⟨h.sorted, h.looks hl, h.body, ?_, h.look, ?_⟩
  · intro p hp
    obtain ⟨q, hq, hb⟩ := h.cover p hp
    exact ⟨q, hq, hb, fun q' hq' hb' =>
      h.unique q' hq' q hq ((SameBody.symm hb').trans hb)⟩
  · refine (merged_spec (merged s)).eq h (h.looks hl) hl
      (fun q hq => (h.body q hq).imp fun p hp => ⟨hp.1, hp.2.symm⟩) ?_ ?_ ?_
    · intro p hp
      exact h.cover p hp
    · intro q hq x hx
      obtain ⟨p, hp, hb, hx'⟩ := (h.look q hq x).mp hx
      exact ⟨p, hp, hb.symm, hx'⟩
    · intro p hp x hx
      obtain ⟨q, hq, hb⟩ := h.cover p hp
      exact ⟨q, hq, hb, (h.look q hq x).mpr ⟨p, hp, hb, hx⟩⟩

/-- Not vacuous: three positions, two with the same body, are merged to two. -/
example : merged ([{ rule := 1, seq := ([2, 3], 0), point := 1, look := [5] },
      { rule := 1, seq := ([2, 3], 0), point := 1, look := [4, 7] },
      { rule := 1, seq := ([2, 3], 0), point := 2, look := [4] }] : State Nat) =
    [{ rule := 1, seq := ([2, 3], 0), point := 1, look := [4, 5, 7] },
      { rule := 1, seq := ([2, 3], 0), point := 2, look := [4] }] := by decide +kernel

/-! ### C14: construction terminates -/

/-- C14: `Lalr::with_table` returns on every table made by `Tabler::new`, in both builds. -/
theorem C14_lalr_total {dbg : Bool} {n : Nat} {D : Decls T} {S eof : T} {g : Grammar T}
    {t : Tabler T} (hg : Grammar.new dbg S (grammarMap D) eof = .ok g)
    (ht : Tabler.new dbg n g = .ok t) : ∃ l, Returns (fun n => Lalr.withTable dbg n t) l := by
  obtain ⟨_, _, _, _, _, _, _, e1, e2, e3⟩ := Tabler.new_ok ht
  have hof := Tabler.of_new (Grammar.of_new hg) ht
  obtain ⟨m, l, h, _⟩ := Lalr.withTable_total dbg hof e2 e3 e1 (lookRel_any hof) (by
    obtain ⟨b, _, he⟩ := hof.grammar.basis
    have he' : t.basisPos = _ := he
    refine List.mem_append_left _ ?_
    rw [he']; simp)
  exact ⟨l, m, h⟩

/-- C14: hence `Lalr::new` returns whenever `Tabler::new` does. -/
theorem C14_lalr_new {dbg : Bool} {D : Decls T} {S eof : T} {g : Grammar T}
    (hg : Grammar.new dbg S (grammarMap D) eof = .ok g) :
    (∃ t, Returns (fun n => Tabler.new dbg n g) t) ↔ ∃ l, Returns (fun n => Lalr.new dbg n g) l := by
  constructor
  · rintro ⟨t, n, ht⟩
    obtain ⟨l, m, h⟩ := C14_lalr_total hg ht
    refine ⟨l, max n m, ?_⟩
    show Lalr.new dbg (max n m) g = .ok l
    unfold Lalr.new
    rw [(Tabler.new_le (dbg := dbg) (g := g) (Nat.le_max_left n m)).ok ht, Out.ok_bind]
    exact (Lalr.withTable_le (Nat.le_max_right n m) t).ok h
  · rintro ⟨l, n, hl⟩
    unfold Lalr.new at hl
    obtain ⟨t0, h1, _⟩ := Out.bind_eq_ok.mp hl
    exact ⟨t0, n, h1⟩

/-- The Lalr parser of the expression grammar. -/
def exprLalr : Lalr Nat :=
  match Lalr.new true 500 (Samples.grammar Samples.expr) with
  | .ok l => l
  | _ => ⟨exprTabler, []⟩

/-- Not vacuous: the expression grammar has 12 Lalr states and no conflicts. -/
theorem exprLalr_ok : Lalr.new true 500 (Samples.grammar Samples.expr) = .ok exprLalr ∧
    exprLalr.table.states.length = 12 ∧ exprLalr.table.conflicts = [] := by decide +kernel

/-! ### C15 -/

/-- C15 for `Lalr`. -/
theorem C15_lalr {dbg : Bool} {n : Nat} {D : Decls T} {S eof : T} {g : Grammar T} {l : Lalr T}
    (hg : Grammar.new dbg S (grammarMap D) eof = .ok g) (hl : Lalr.new dbg n g = .ok l) :
    l.table.actions.length = l.table.states.length ∧
    ∀ (i : Nat) row x c a, l.table.actions[i]? = some row →
      row.get? x = some c → Among a c → GoodAction D S l.table.actions.length x a := by
  obtain ⟨t0, _, hb, _⟩ := Lalr.built (Grammar.of_new hg) hl
  obtain ⟨b0, hb0, _⟩ := hb.of.grammar.basis
  exact auto_good (hb.auto hb0)

/-! ### C16 -/

/-- C16 for `Lalr`: the actions recorded in a cell, also inside nested conflicts, are exactly the
decisions of the positions of the state; the cell is a conflict exactly when two differ. -/
theorem C16_lalr_cells {dbg : Bool} {n : Nat} {D : Decls T} {S eof : T} {g : Grammar T} {l : Lalr T}
    (hg : Grammar.new dbg S (grammarMap D) eof = .ok g) (hl : Lalr.new dbg n g = .ok l)
    (i : Nat) (s : State T) (row : OMap T (Action T)) (hs : l.table.states[i]? = some s)
    (hr : l.table.actions[i]? = some row) (x : T) :
    let Dec := DecisionLalr D S l.table.states s x
    (∀ a, (∃ c, row.get? x = some c ∧ Among a c) ↔ Dec a) ∧
    ((∃ a b, row.get? x = some (.conflict a b)) ↔ ∃ a b, Dec a ∧ Dec b ∧ a ≠ b) := by
  obtain ⟨t0, _, hb, _⟩ := Lalr.built (Grammar.of_new hg) hl
  obtain ⟨b0, hb0, _⟩ := hb.of.grammar.basis
  have hcell := ((hb.auto hb0).cell hs hr).2 x
  have hcell := hcell.congr (fun a => hb.decision hs x a)
  constructor
  · intro a
    constructor
    · rintro ⟨c, hc, ha⟩; exact (hcell.among c hc a).mp ha
    · intro ha
      cases hc : row.get? x with
      | none => exact absurd ha (hcell.empty.mp hc a)
      | some c => exact ⟨c, rfl, (hcell.among c hc a).mpr ha⟩
  · constructor
    · rintro ⟨a, b, hc⟩
      exact (hcell.conflict _ hc).mp ⟨a, b, rfl⟩
    · rintro ⟨a, b, ha, hb, hab⟩
      cases hc : row.get? x with
      | none => exact absurd ha (hcell.empty.mp hc a)
      | some c =>
        obtain ⟨y, z, rfl⟩ := (hcell.conflict c hc).mpr ⟨a, b, ha, hb, hab⟩
        exact ⟨y, z, rfl⟩

/-- C16 for `Lalr`: `conflicts()` is empty exactly when no state has two different decisions. -/
theorem C16_lalr_conflicts {dbg : Bool} {n : Nat} {D : Decls T} {S eof : T} {g : Grammar T}
    {l : Lalr T} (hg : Grammar.new dbg S (grammarMap D) eof = .ok g)
    (hl : Lalr.new dbg n g = .ok l) :
    let Dec := DecisionLalr D S l.table.states
    l.table.conflicts = [] ↔
      ∀ (i : Nat) s x a b, l.table.states[i]? = some s → Dec s x a → Dec s x b → a = b := by
  have hcells := C16_lalr_cells hg hl
  obtain ⟨t0, _, hb, _⟩ := Lalr.built (Grammar.of_new hg) hl
  obtain ⟨b0, hb0, _⟩ := hb.of.grammar.basis
  have ha := hb.auto hb0
  have hst : ∀ {i : Nat} {row}, l.table.actions[i]? = some row →
      ∃ s, l.table.states[i]? = some s := by
    intro i row hs
    have : i < l.table.states.length := by
      rw [← ha.len]; exact (List.getElem?_eq_some_iff.mp hs).1
    exact ⟨_, List.getElem?_eq_getElem this⟩
  intro Dec
  rw [conflicts_eq_nil]
  · constructor
    · intro hn i s x a b hs h1 h2
      have : i < l.table.actions.length := by
        rw [ha.len]; exact (List.getElem?_eq_some_iff.mp hs).1
      have hr := List.getElem?_eq_getElem this
      by_cases hab : a = b
      · exact hab
      · obtain ⟨c, d, hc⟩ := (hcells i s _ hs hr x).2.mpr ⟨a, b, h1, h2, hab⟩
        exact absurd hc (hn i _ x c d hr)
    · intro hu i row x a b hr hc
      obtain ⟨s, hs⟩ := hst hr
      obtain ⟨c, d, h1, h2, hcd⟩ := (hcells i s _ hs hr x).2.mp ⟨a, b, hc⟩
      exact hcd (hu i s x c d hs h1 h2)
  · intro row hm
    obtain ⟨i, hi, he⟩ := List.getElem_of_mem hm
    have hr : l.table.actions[i]? = some row := List.getElem?_eq_some_iff.mpr ⟨hi, he⟩
    obtain ⟨s, hs⟩ := hst hr
    exact (ha.cell hs hr).1

/-- Not vacuous: E → E + E | E * E | id has an Lalr table with four conflict cells. -/
example : ∃ l, Lalr.new true 500 (Samples.grammar Samples.ambiguous) = .ok l ∧
    l.table.conflicts.length = 4 := by
  refine ⟨(match Lalr.new true 500 (Samples.grammar Samples.ambiguous) with
    | .ok l => l | _ => ⟨exprTabler, []⟩), by decide +kernel, by decide +kernel⟩

/-! ### C17: the collection of Lalr, up to lookaheads -/

/-- `states` is, up to lookaheads, the canonical LR(0) collection. -/
structure CanonicalCores (D : Decls T) (S : T) (states : List (State T)) : Prop where
  /-- State 0 is the closure of the basis. -/
  zero : ∃ s b0, states[0]? = some s ∧ IsProd D S 0 b0 ∧ HasCore s (CoreStart D S b0)
  /-- No two states are equal up to lookaheads. -/
  nodup : ∀ (i j : Nat) s s', states[i]? = some s → states[j]? = some s' →
    (∀ q, (∃ p ∈ s, bare p = q) ↔ ∃ p ∈ s', bare p = q) → i = j
  /-- Every other state is the closure of an earlier one advanced over a symbol after a point. -/
  reached : ∀ (j : Nat) s', states[j]? = some s' → j ≠ 0 → ∃ i s x, i < j ∧ states[i]? = some s ∧
    (∃ p ∈ s, After p x) ∧ HasCore s' (CoreNext D s x)
  /-- All of those are there. -/
  all : ∀ (i : Nat) s x, states[i]? = some s → (∃ p ∈ s, After p x) → ∃ (j : Nat) (s' : State T),
    states[j]? = some s' ∧ HasCore s' (CoreNext D s x)

/-- C17 for `Lalr`: the states are the LR(0) collection up to lookaheads. -/
theorem C17_lalr {dbg : Bool} {n : Nat} {D : Decls T} {S eof : T} {g : Grammar T} {l : Lalr T}
    (hg : Grammar.new dbg S (grammarMap D) eof = .ok g) (hl : Lalr.new dbg n g = .ok l) :
    CanonicalCores D S l.table.states := by
  obtain ⟨t0, _, hb, _⟩ := Lalr.built (Grammar.of_new hg) hl
  obtain ⟨b0, hb0, _⟩ := hb.of.grammar.basis
  obtain ⟨⟨s, h1, h2⟩, h3, h4⟩ := hb.core_states hb0
  refine ⟨⟨s, b0, h1, hb0, h2⟩, ?_, h3, h4⟩
  intro i j s s' hs hs' he
  refine hb.core_inj hs hs' (OSet.ext (sorted_core _) (sorted_core _) (fun q => ?_))
  rw [mem_core, mem_core]
  exact he q

end Lrp.Props
