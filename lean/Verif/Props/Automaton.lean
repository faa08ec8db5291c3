import Verif.Props.Tables
import Verif.Proofs.Canonical

/-!
Properties C10–C13 and C15–C17: closures, and the construction of the Slr and Clr tables.
-/

set_option linter.unusedSectionVars false
set_option maxRecDepth 100000

namespace Lrp.Props
open Spec
variable {T : Type} [LinOrd T] [DecidableEq T]

/-! ### C10, C11: closures -/

/-- C10: `Slr::prop_closure` returns the least closed superset of its argument, and returns the
same set when applied again. -/
theorem C10_closure {dbg : Bool} {n : Nat} {D : Decls T} {S eof : T} {g : Grammar T} {t : Tabler T}
    (hg : Grammar.new dbg S (grammarMap D) eof = .ok g) (ht : Tabler.new dbg n g = .ok t)
    (seed : State T) (hs : IsSet seed) (hl : ∀ p ∈ seed, IsSet p.look) :
    ∃ s, Returns (fun n => propClosure Slr.closure n t seed) s ∧ IsSet s ∧
      LeastClosed (Expands0 D) (· ∈ seed) s ∧
      Returns (fun n => propClosure Slr.closure n t s) s := by
  have ho := Tabler.of_new (Grammar.of_new hg) ht
  obtain ⟨k, s, h⟩ := propClosure_returns Slr.isClosureFn (Or.inl rfl) t hs
  have hc := propClosure_spec Slr.isClosureFn hs h
  obtain ⟨k', s', h'⟩ := propClosure_returns Slr.isClosureFn (Or.inl rfl) t hc.sorted
  have hc' := propClosure_spec Slr.isClosureFn hc.sorted h'
  refine ⟨s, ⟨k, h⟩, hc.sorted, hc.leastClosed (implements0 ho.grammar _) hl (fun _ => Iff.rfl),
    k', ?_⟩
  refine h'.trans ?_
  refine congrArg _ (OSet.ext hc'.sorted hc.sorted (fun q => ?_))
  rw [hc'.mem]
  constructor
  · intro hq
    exact hq.closed_sub (P := (· ∈ s)) (fun p hp => hp)
      (fun p q hp ha => (hc.mem q).mpr (.step ((hc.mem p).mp hp) ha))
  · exact fun hq => .base hq

/-- C11: `Clr::prop_closure` returns the least superset of its argument closed under the LR(1) rule,
and returns the same set when applied again.  (FIRST is that of the table; C05 says what is in it.) -/
theorem C11_closure {dbg : Bool} {n : Nat} {D : Decls T} {S eof : T} {g : Grammar T} {t : Tabler T}
    (hg : Grammar.new dbg S (grammarMap D) eof = .ok g) (ht : Tabler.new dbg n g = .ok t)
    (seed : State T) (hs : IsSet seed) (hl : ∀ p ∈ seed, IsSet p.look) :
    ∃ s, Returns (fun n => propClosure Clr.closure n t seed) s ∧ IsSet s ∧
      LeastClosed (Expands1 D (fun Z x => ∃ F, t.first.get? Z = some F ∧ x ∈ F)) (· ∈ seed) s ∧
      Returns (fun n => propClosure Clr.closure n t s) s := by
  have ho := Tabler.of_new (Grammar.of_new hg) ht
  obtain ⟨k, s, h⟩ := propClosure_returns Clr.isClosureFn (Or.inr rfl) t hs
  have hc := propClosure_spec Clr.isClosureFn hs h
  obtain ⟨k', s', h'⟩ := propClosure_returns Clr.isClosureFn (Or.inr rfl) t hc.sorted
  have hc' := propClosure_spec Clr.isClosureFn hc.sorted h'
  refine ⟨s, ⟨k, h⟩, hc.sorted, hc.leastClosed (implements1 ho) hl (fun _ => Iff.rfl), k', ?_⟩
  refine h'.trans ?_
  refine congrArg _ (OSet.ext hc'.sorted hc.sorted (fun q => ?_))
  rw [hc'.mem]
  constructor
  · intro hq
    exact hq.closed_sub (P := (· ∈ s)) (fun p hp => hp)
      (fun p q hp ha => (hc.mem q).mpr (.step ((hc.mem p).mp hp) ha))
  · exact fun hq => .base hq

/-- The table of FIRST and FOLLOW of the expression grammar. -/
def exprTabler : Tabler Nat :=
  match Tabler.new true 10 (Samples.grammar Samples.expr) with
  | .ok t => t
  | _ => ⟨Samples.grammar Samples.expr, [], [], [], [], []⟩

theorem exprTabler_ok : Tabler.new true 10 (Samples.grammar Samples.expr) = .ok exprTabler ∧
    Grammar.new true 0 (grammarMap Samples.expr) 99 = .ok (Samples.grammar Samples.expr) := by
  decide +kernel

/-- Not vacuous: closing `S → . E` of the expression grammar gives seven LR(0) positions, and with
lookahead eof seventeen LR(1) positions. -/
example :
    (∃ s, propClosure Slr.closure 10 exprTabler
        [{ rule := 0, seq := ([1], 0), point := 0, look := [99] }] = .ok s ∧ s.length = 7) ∧
    (∃ s, propClosure Clr.closure 10 exprTabler
        [{ rule := 0, seq := ([1], 0), point := 0, look := [99] }] = .ok s ∧ s.length = 17) := by
  refine ⟨⟨(match propClosure Slr.closure 10 exprTabler
      [{ rule := 0, seq := ([1], 0), point := 0, look := [99] }] with
      | .ok s => s | _ => []), by decide +kernel⟩,
    ⟨(match propClosure Clr.closure 10 exprTabler
      [{ rule := 0, seq := ([1], 0), point := 0, look := [99] }] with
      | .ok s => s | _ => []), by decide +kernel⟩⟩

/-! ### C12, C13: construction terminates -/

/-- C12: `Slr::with_table` returns on every table made by `Tabler::new`, in both builds. -/
theorem C12_slr_total {dbg : Bool} {n : Nat} {D : Decls T} {S eof : T} {g : Grammar T} {t : Tabler T}
    (hg : Grammar.new dbg S (grammarMap D) eof = .ok g) (ht : Tabler.new dbg n g = .ok t) :
    ∃ t', Returns (fun n => Slr.withTable dbg n t) t' := by
  obtain ⟨_, _, _, _, _, _, _, e1, e2, e3⟩ := Tabler.new_ok ht
  obtain ⟨m, t', h, _⟩ := Slr.withTable_total dbg (Tabler.of_new (Grammar.of_new hg) ht) e2 e3 e1
  exact ⟨t', m, h⟩

/-- C12: hence `Slr::new` returns whenever `Tabler::new` does. -/
theorem C12_slr_new {dbg : Bool} {D : Decls T} {S eof : T} {g : Grammar T}
    (hg : Grammar.new dbg S (grammarMap D) eof = .ok g) :
    (∃ t, Returns (fun n => Tabler.new dbg n g) t) ↔ ∃ t, Returns (fun n => Slr.new dbg n g) t := by
  constructor
  · rintro ⟨t, n, ht⟩
    obtain ⟨t', m, h⟩ := C12_slr_total hg ht
    refine ⟨t', max n m, ?_⟩
    show Slr.new dbg (max n m) g = .ok t'
    unfold Slr.new
    rw [(Tabler.new_le (dbg := dbg) (g := g) (Nat.le_max_left n m)).ok ht, Out.ok_bind]
    exact (Slr.withTable_le (Nat.le_max_right n m) t).ok h
  · rintro ⟨t, n, ht⟩
    unfold Slr.new at ht
    obtain ⟨t0, h1, _⟩ := Out.bind_eq_ok.mp ht
    exact ⟨t0, n, h1⟩

/-- C13: `Clr::with_table` returns on every table made by `Tabler::new`, in both builds. -/
theorem C13_clr_total {dbg : Bool} {n : Nat} {D : Decls T} {S eof : T} {g : Grammar T} {t : Tabler T}
    (hg : Grammar.new dbg S (grammarMap D) eof = .ok g) (ht : Tabler.new dbg n g = .ok t) :
    ∃ t', Returns (fun n => Clr.withTable dbg n t) t' := by
  obtain ⟨_, _, _, _, _, _, _, e1, e2, e3⟩ := Tabler.new_ok ht
  obtain ⟨m, t', h, _⟩ := Clr.withTable_total dbg (Tabler.of_new (Grammar.of_new hg) ht) e2 e3 e1
  exact ⟨t', m, h⟩

/-- C13: hence `Clr::new` returns whenever `Tabler::new` does. -/
theorem C13_clr_new {dbg : Bool} {D : Decls T} {S eof : T} {g : Grammar T}
    (hg : Grammar.new dbg S (grammarMap D) eof = .ok g) :
    (∃ t, Returns (fun n => Tabler.new dbg n g) t) ↔ ∃ t, Returns (fun n => Clr.new dbg n g) t := by
  constructor
  · rintro ⟨t, n, ht⟩
    obtain ⟨t', m, h⟩ := C13_clr_total hg ht
    refine ⟨t', max n m, ?_⟩
    show Clr.new dbg (max n m) g = .ok t'
    unfold Clr.new
    rw [(Tabler.new_le (dbg := dbg) (g := g) (Nat.le_max_left n m)).ok ht, Out.ok_bind]
    exact (Clr.withTable_le (Nat.le_max_right n m) t).ok h
  · rintro ⟨t, n, ht⟩
    unfold Clr.new at ht
    obtain ⟨t0, h1, _⟩ := Out.bind_eq_ok.mp ht
    exact ⟨t0, n, h1⟩

/-- The Slr table of the expression grammar. -/
def exprSlr : Tabler Nat :=
  match Slr.new true 50 (Samples.grammar Samples.expr) with
  | .ok t => t
  | _ => exprTabler

/-- The Clr table of the expression grammar. -/
def exprClr : Tabler Nat :=
  match Clr.new true 50 (Samples.grammar Samples.expr) with
  | .ok t => t
  | _ => exprTabler

/-- Not vacuous: the expression grammar has 12 Slr states and 22 Clr states, and no conflicts. -/
theorem exprSlr_ok : Slr.new true 50 (Samples.grammar Samples.expr) = .ok exprSlr ∧
    exprSlr.states.length = 12 ∧ exprSlr.conflicts = [] := by decide +kernel

theorem exprClr_ok : Clr.new true 50 (Samples.grammar Samples.expr) = .ok exprClr ∧
    exprClr.states.length = 22 ∧ exprClr.conflicts = [] := by decide +kernel

/-! ### C15: well-formed tables -/

theorem auto_good {D : Decls T} {S : T} {b0 : List T} {states : List (State T)} {acts : ActTable T}
    {next : State T → T → Option Nat} {red : Position T → T → Prop}
    (h : Auto D S b0 states acts next red) :
    acts.length = states.length ∧ ∀ (i : Nat) row x c a, acts[i]? = some row →
      row.get? x = some c → Among a c → GoodAction D S acts.length x a := by
  refine ⟨h.len, fun i row x c a hr hc ha => ?_⟩
  have hi : i < states.length := by
    rw [← h.len]; exact (List.getElem?_eq_some_iff.mp hr).1
  have hs : states[i]? = some states[i] := List.getElem?_eq_getElem hi
  rcases (((h.cell hs hr).2 x).among c hc a).mp ha with ⟨p, hp, ht, j, hj, hk⟩ | ⟨p, hp, ht, _, hk⟩
  · obtain ⟨j', s', h1, h2, h3, _⟩ := h.edge hs hp ht
    have : j = j' := by
      have := hj.symm.trans h1; simpa using this
    subst this
    have hlt : j < acts.length := by rw [h.len]; exact (List.getElem?_eq_some_iff.mp h3).1
    rcases hk with ⟨hT, rfl⟩ | ⟨hN, rfl⟩
    · exact ⟨hT, Nat.pos_of_ne_zero h2, hlt⟩
    · exact ⟨hN, Nat.pos_of_ne_zero h2, hlt⟩
  · rcases hk with ⟨_, rfl⟩ | ⟨hne, rfl⟩
    · trivial
    · exact ⟨(h.prod hs hp).1, hne⟩

/-- C15 for `Slr`. -/
theorem C15_slr {dbg : Bool} {n : Nat} {D : Decls T} {S eof : T} {g : Grammar T} {t : Tabler T}
    (hg : Grammar.new dbg S (grammarMap D) eof = .ok g) (ht : Slr.new dbg n g = .ok t) :
    t.actions.length = t.states.length ∧ ∀ (i : Nat) row x c a, t.actions[i]? = some row →
      row.get? x = some c → Among a c → GoodAction D S t.actions.length x a := by
  have hb := Slr.built (Grammar.of_new hg) ht
  obtain ⟨b0, hb0, _⟩ := hb.basis_eq
  exact auto_good (hb.auto hb0)

/-- C15 for `Clr`. -/
theorem C15_clr {dbg : Bool} {n : Nat} {D : Decls T} {S eof : T} {g : Grammar T} {t : Tabler T}
    (hg : Grammar.new dbg S (grammarMap D) eof = .ok g) (ht : Clr.new dbg n g = .ok t) :
    t.actions.length = t.states.length ∧ ∀ (i : Nat) row x c a, t.actions[i]? = some row →
      row.get? x = some c → Among a c → GoodAction D S t.actions.length x a := by
  have hb := Clr.built (Grammar.of_new hg) ht
  obtain ⟨b0, hb0, _⟩ := hb.basis_eq
  exact auto_good (hb.auto hb0)

/-! ### C16: cells hold exactly the decisions -/

theorem built_cells {t : Tabler T} {D : Decls T} {S eof : T} {lk : Table T → Position T → OSet T}
    {red : Position T → T → Prop} {R : Position T → Position T → Prop}
    (h : Built t D S eof lk red) (hR : Implements t.grammar.rules (lk t.first) R)
    {i : Nat} {s : State T} {row : OMap T (Action T)} (hs : t.states[i]? = some s)
    (hr : t.actions[i]? = some row) (x : T) :
    (∀ a, (∃ c, row.get? x = some c ∧ Among a c) ↔ Decision D S t.states R red s x a) ∧
    ((∃ a b, row.get? x = some (.conflict a b)) ↔
      ∃ a b, Decision D S t.states R red s x a ∧ Decision D S t.states R red s x b ∧ a ≠ b) := by
  obtain ⟨b0, hb0, _⟩ := h.basis_eq
  have hcell := ((h.auto hb0).cell hs hr).2 x
  have hcell := hcell.congr (fun a => h.decision hR hs x a)
  constructor
  · intro a
    constructor
    · rintro ⟨c, hc, ha⟩; exact (hcell.among c hc a).mp ha
    · intro ha
      cases hc : row.get? x with
      | none => exact absurd ha (hcell.empty.mp hc a)
      | some c => exact ⟨c, rfl, (hcell.among c hc a).mpr ha⟩
  · constructor
    · rintro ⟨a, b, hc⟩
      exact (hcell.conflict _ hc).mp ⟨a, b, rfl⟩
    · rintro ⟨a, b, ha, hb, hab⟩
      cases hc : row.get? x with
      | none => exact absurd ha (hcell.empty.mp hc a)
      | some c =>
        obtain ⟨y, z, rfl⟩ := (hcell.conflict c hc).mpr ⟨a, b, ha, hb, hab⟩
        exact ⟨y, z, rfl⟩

theorem built_conflicts {t : Tabler T} {D : Decls T} {S eof : T} {lk : Table T → Position T → OSet T}
    {red : Position T → T → Prop} {R : Position T → Position T → Prop}
    (h : Built t D S eof lk red) (hR : Implements t.grammar.rules (lk t.first) R) :
    t.conflicts = [] ↔ ∀ (i : Nat) s x a b, t.states[i]? = some s →
      Decision D S t.states R red s x a → Decision D S t.states R red s x b → a = b := by
  obtain ⟨b0, hb0, _⟩ := h.basis_eq
  have ha := h.auto hb0
  have hrow : ∀ {i : Nat} {s}, t.states[i]? = some s → ∃ row, t.actions[i]? = some row := by
    intro i s hs
    have : i < t.actions.length := by
      rw [ha.len]; exact (List.getElem?_eq_some_iff.mp hs).1
    exact ⟨_, List.getElem?_eq_getElem this⟩
  have hst : ∀ {i : Nat} {row}, t.actions[i]? = some row → ∃ s, t.states[i]? = some s := by
    intro i row hs
    have : i < t.states.length := by
      rw [← ha.len]; exact (List.getElem?_eq_some_iff.mp hs).1
    exact ⟨_, List.getElem?_eq_getElem this⟩
  rw [conflicts_eq_nil]
  · constructor
    · intro hn i s x a b hs h1 h2
      obtain ⟨row, hr⟩ := hrow hs
      by_cases hab : a = b
      · exact hab
      · obtain ⟨c, d, hc⟩ := (built_cells h hR hs hr x).2.mpr ⟨a, b, h1, h2, hab⟩
        exact absurd hc (hn i row x c d hr)
    · intro hu i row x a b hr hc
      obtain ⟨s, hs⟩ := hst hr
      obtain ⟨c, d, h1, h2, hcd⟩ := (built_cells h hR hs hr x).2.mp ⟨a, b, hc⟩
      exact hcd (hu i s x c d hs h1 h2)
  · intro row hm
    obtain ⟨i, hi, he⟩ := List.getElem_of_mem hm
    have hr : t.actions[i]? = some row := List.getElem?_eq_some_iff.mpr ⟨hi, he⟩
    obtain ⟨s, hs⟩ := hst hr
    exact (ha.cell hs hr).1

/-- C16 for `Slr`: the actions recorded in a cell, also inside nested conflicts, are exactly the
decisions of the positions of the state; the cell is a conflict exactly when two differ. -/
theorem C16_slr_cells {dbg : Bool} {n : Nat} {D : Decls T} {S eof : T} {g : Grammar T} {t : Tabler T}
    (hg : Grammar.new dbg S (grammarMap D) eof = .ok g) (ht : Slr.new dbg n g = .ok t)
    (i : Nat) (s : State T) (row : OMap T (Action T)) (hs : t.states[i]? = some s)
    (hr : t.actions[i]? = some row) (x : T) :
    let Dec := Decision D S t.states (Expands0 D)
      (fun p x => ∃ F, t.follow.get? p.rule = some F ∧ x ∈ F) s x
    (∀ a, (∃ c, row.get? x = some c ∧ Among a c) ↔ Dec a) ∧
    ((∃ a b, row.get? x = some (.conflict a b)) ↔ ∃ a b, Dec a ∧ Dec b ∧ a ≠ b) := by
  have hb := Slr.built (Grammar.of_new hg) ht
  exact built_cells hb (implements0 hb.of.grammar _) hs hr x

/-- C16 for `Slr`: `conflicts()` is empty exactly when no state has two different decisions. -/
theorem C16_slr_conflicts {dbg : Bool} {n : Nat} {D : Decls T} {S eof : T} {g : Grammar T}
    {t : Tabler T} (hg : Grammar.new dbg S (grammarMap D) eof = .ok g)
    (ht : Slr.new dbg n g = .ok t) :
    let Dec := Decision D S t.states (Expands0 D)
      (fun p x => ∃ F, t.follow.get? p.rule = some F ∧ x ∈ F)
    t.conflicts = [] ↔ ∀ (i : Nat) s x a b, t.states[i]? = some s → Dec s x a → Dec s x b → a = b := by
  have hb := Slr.built (Grammar.of_new hg) ht
  exact built_conflicts hb (implements0 hb.of.grammar _)

/-- C16 for `Clr`: the actions recorded in a cell, also inside nested conflicts, are exactly the
decisions of the positions of the state; the cell is a conflict exactly when two differ. -/
theorem C16_clr_cells {dbg : Bool} {n : Nat} {D : Decls T} {S eof : T} {g : Grammar T} {t : Tabler T}
    (hg : Grammar.new dbg S (grammarMap D) eof = .ok g) (ht : Clr.new dbg n g = .ok t)
    (i : Nat) (s : State T) (row : OMap T (Action T)) (hs : t.states[i]? = some s)
    (hr : t.actions[i]? = some row) (x : T) :
    let Dec := Decision D S t.states (Expands1 D (fun Z x => ∃ F, t.first.get? Z = some F ∧ x ∈ F))
      (fun p x => x ∈ p.look) s x
    (∀ a, (∃ c, row.get? x = some c ∧ Among a c) ↔ Dec a) ∧
    ((∃ a b, row.get? x = some (.conflict a b)) ↔ ∃ a b, Dec a ∧ Dec b ∧ a ≠ b) := by
  have hb := Clr.built (Grammar.of_new hg) ht
  exact built_cells hb (implements1 hb.of) hs hr x

/-- C16 for `Clr`: `conflicts()` is empty exactly when no state has two different decisions. -/
theorem C16_clr_conflicts {dbg : Bool} {n : Nat} {D : Decls T} {S eof : T} {g : Grammar T}
    {t : Tabler T} (hg : Grammar.new dbg S (grammarMap D) eof = .ok g)
    (ht : Clr.new dbg n g = .ok t) :
    let Dec := Decision D S t.states (Expands1 D (fun Z x => ∃ F, t.first.get? Z = some F ∧ x ∈ F))
      (fun p x => x ∈ p.look)
    t.conflicts = [] ↔ ∀ (i : Nat) s x a b, t.states[i]? = some s → Dec s x a → Dec s x b → a = b := by
  have hb := Clr.built (Grammar.of_new hg) ht
  exact built_conflicts hb (implements1 hb.of)

/-- Not vacuous: E → E + E | E * E | id has an Slr table with four conflict cells, each holding a
shift and a reduce. -/
example : ∃ t, Slr.new true 60 (Samples.grammar Samples.ambiguous) = .ok t ∧ t.conflicts.length = 4 ∧
    ∃ j, Action.conflict (.reduce 1 ([1, 10, 1], 0)) (.shift j) ∈ t.conflicts ∨
      Action.conflict (.shift j) (.reduce 1 ([1, 10, 1], 0)) ∈ t.conflicts := by
  refine ⟨(match Slr.new true 60 (Samples.grammar Samples.ambiguous) with
    | .ok t => t | _ => exprTabler), by decide +kernel, by decide +kernel, 3, by decide +kernel⟩

/-! ### C17: the canonical collection -/

/-- `states` is the canonical collection for the closure rule `R`. -/
structure Canonical (D : Decls T) (S eof : T) (R : Position T → Position T → Prop)
    (states : List (State T)) : Prop where
  /-- State 0 is the closure of the basis. -/
  zero : ∃ s b0, states[0]? = some s ∧ IsProd D S 0 b0 ∧
    LeastClosed R (· = { rule := S, seq := (b0, 0), point := 0, look := [eof] }) s
  /-- No two states are equal. -/
  nodup : states.Nodup
  /-- Every other state is the closure of an earlier one advanced over a symbol after a point. -/
  reached : ∀ (j : Nat) s', states[j]? = some s' → j ≠ 0 → ∃ i s x, i < j ∧ states[i]? = some s ∧
    (∃ p ∈ s, After p x) ∧ LeastClosed R (Advance s x) s'
  /-- All of those are there, at a single index. -/
  all : ∀ (i : Nat) s x, states[i]? = some s → (∃ p ∈ s, After p x) → ∃ j s', states[j]? = some s' ∧
    j ≠ 0 ∧ LeastClosed R (Advance s x) s' ∧
    ∀ (j' : Nat) s'', states[j']? = some s'' → LeastClosed R (Advance s x) s'' → j' = j

theorem built_canonical {t : Tabler T} {D : Decls T} {S eof : T} {lk : Table T → Position T → OSet T}
    {red : Position T → T → Prop} {R : Position T → Position T → Prop}
    (h : Built t D S eof lk red) (hR : Implements t.grammar.rules (lk t.first) R) :
    Canonical D S eof R t.states := by
  refine ⟨h.least_zero hR, h.nodup, ?_, ?_⟩
  · intro j s' hs' hj
    obtain ⟨K, hK⟩ := h.coll.surj j (List.getElem?_eq_some_iff.mp hs').1
    obtain ⟨_, ⟨s0, h1, h2⟩, i, s, X, h3, h4, _, hKe⟩ := h.coll.kern K j hK hj
    rw [hs'] at h1; cases h1
    have hne : K ≠ [] := by
      rintro rfl
      rw [h.coll.zero] at hK; cases hK; exact hj rfl
    obtain ⟨q, hq⟩ := List.exists_mem_of_ne_nil _ hne
    rw [hKe] at hq
    obtain ⟨p, hp, ht, _⟩ := mem_symFilter.mp hq
    refine ⟨i, s, X, h3, h4, ⟨p, hp, ht⟩, ?_⟩
    rw [hKe] at hK
    exact (h.least_next hR h4 hp ht hs').mp hK
  · rintro i s x hs ⟨p, hp, ht⟩
    obtain ⟨j, s', h1, h2, h3, h4⟩ := h.coll.edge hs hp ht (h.doneAt hs hp ht)
    refine ⟨j, s', h3, h2, (h.least_next hR hs hp ht h3).mp h1, ?_⟩
    intro j' s'' hs'' hl
    have := (h.least_next hR hs hp ht hs'').mpr hl
    rw [h1] at this; cases this; rfl

/-- C17 for `Slr`.  (That shift/goto entries lead to these states is part of C16.) -/
theorem C17_slr {dbg : Bool} {n : Nat} {D : Decls T} {S eof : T} {g : Grammar T} {t : Tabler T}
    (hg : Grammar.new dbg S (grammarMap D) eof = .ok g) (ht : Slr.new dbg n g = .ok t) :
    Canonical D S eof (Expands0 D) t.states := by
  have hb := Slr.built (Grammar.of_new hg) ht
  exact built_canonical hb (implements0 hb.of.grammar _)

/-- C17 for `Clr`. -/
theorem C17_clr {dbg : Bool} {n : Nat} {D : Decls T} {S eof : T} {g : Grammar T} {t : Tabler T}
    (hg : Grammar.new dbg S (grammarMap D) eof = .ok g) (ht : Clr.new dbg n g = .ok t) :
    Canonical D S eof (Expands1 D (fun Z x => ∃ F, t.first.get? Z = some F ∧ x ∈ F)) t.states := by
  have hb := Clr.built (Grammar.of_new hg) ht
  exact built_canonical hb (implements1 hb.of)

/-- Not vacuous: the 12 LR(0) states and the 22 LR(1) states of the expression grammar. -/
example : Canonical Samples.expr 0 99 (Expands0 Samples.expr) exprSlr.states ∧
    exprSlr.states.length = 12 ∧ exprClr.states.length = 22 :=
  ⟨C17_slr exprTabler_ok.2 exprSlr_ok.1, exprSlr_ok.2.1, exprClr_ok.2.1⟩

end Lrp.Props
