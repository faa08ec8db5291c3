import Verif.Spec.Basic
import Verif.Proofs.Out

/-! `transitive` against orbits. -/

set_option linter.unusedSectionVars false

namespace Lrp
open Spec
variable {α : Type} [DecidableEq α] {f : α → Out α}

omit [DecidableEq α] in
theorem orbit_cons {a b : α} (h : f a = .ok b) {k : Nat} {c : α} (ho : Orbit f b k c) :
    Orbit f a (k + 1) c := by
  induction ho with
  | zero => exact .succ .zero h
  | succ _ h2 ih => exact .succ ih h2

omit [DecidableEq α] in
theorem orbit_uncons {a c : α} {k : Nat} (ho : Orbit f a (k + 1) c) :
    ∃ b, f a = .ok b ∧ Orbit f b k c := by
  generalize hn : k + 1 = n at ho
  induction ho generalizing k with
  | zero => omega
  | @succ j b c h1 h2 ih =>
    cases j with
    | zero =>
      cases h1
      obtain rfl : k = 0 := by omega
      exact ⟨c, h2, .zero⟩
    | succ j =>
      obtain ⟨d, h3, h4⟩ := ih rfl
      obtain rfl : k = j + 1 := by omega
      exact ⟨d, h3, .succ h4 h2⟩

omit [DecidableEq α] in
theorem orbit_unique {a b c : α} {k : Nat} (h : Orbit f a k b) (h' : Orbit f a k c) : b = c := by
  induction h generalizing c with
  | zero => cases h'; rfl
  | succ _ h2 ih =>
    cases h' with
    | succ h3 h4 => rw [ih h3, h4] at h2; cases h2; rfl

/-- The iterates before `k` are defined and not fixpoints. -/
def Moving (f : α → Out α) (a : α) (k : Nat) : Prop :=
  ∀ j, j < k → ∃ u v, Orbit f a j u ∧ f u = .ok v ∧ v ≠ u

theorem transitive_ok_iff {n : Nat} {a v : α} :
    transitive f n a = .ok v ↔ ∃ k, k < n ∧ Moving f a k ∧ Orbit f a k v ∧ f v = .ok v := by
  induction n generalizing a with
  | zero => simp [transitive_zero]
  | succ n ih =>
    rw [transitive_succ, Out.bind_eq_ok]
    constructor
    · rintro ⟨b, h1, h2⟩
      split at h2
      · rename_i hb; subst hb; cases h2
        exact ⟨0, by omega, fun j hj => by omega, .zero, h1⟩
      · rename_i hb
        obtain ⟨k, h3, h4, h5, h6⟩ := ih.mp h2
        refine ⟨k + 1, by omega, ?_, orbit_cons h1 h5, h6⟩
        intro j hj
        cases j with
        | zero => exact ⟨a, b, .zero, h1, hb⟩
        | succ j =>
          obtain ⟨u, w, h7, h8⟩ := h4 j (by omega)
          exact ⟨u, w, orbit_cons h1 h7, h8⟩
    · rintro ⟨k, h3, h4, h5, h6⟩
      cases k with
      | zero => cases h5; exact ⟨_, h6, by simp⟩
      | succ k =>
        obtain ⟨b, h7, h8⟩ := orbit_uncons h5
        refine ⟨b, h7, ?_⟩
        obtain ⟨u, w, h9, h10, h11⟩ := h4 0 (by omega)
        cases h9
        rw [h7] at h10; cases h10
        rw [if_neg h11, ih]
        refine ⟨k, by omega, ?_, h8, h6⟩
        intro j hj
        obtain ⟨u, w, h12, h13⟩ := h4 (j + 1) (by omega)
        obtain ⟨b', h14, h15⟩ := orbit_uncons h12
        rw [h7] at h14; cases h14
        exact ⟨u, w, h15, h13⟩

theorem transitive_panic_iff {n : Nat} {a : α} {p : Panic} :
    transitive f n a = .panic p ↔ ∃ k v, k < n ∧ Moving f a k ∧ Orbit f a k v ∧ f v = .panic p := by
  induction n generalizing a with
  | zero => simp [transitive_zero]
  | succ n ih =>
    rw [transitive_succ, Out.bind_eq_panic]
    constructor
    · rintro (h | ⟨b, h1, h2⟩)
      · exact ⟨0, a, by omega, fun j hj => by omega, .zero, h⟩
      split at h2
      · cases h2
      · rename_i hb
        obtain ⟨k, v, h3, h4, h5, h6⟩ := ih.mp h2
        refine ⟨k + 1, v, by omega, ?_, orbit_cons h1 h5, h6⟩
        intro j hj
        cases j with
        | zero => exact ⟨a, b, .zero, h1, hb⟩
        | succ j =>
          obtain ⟨u, w, h7, h8⟩ := h4 j (by omega)
          exact ⟨u, w, orbit_cons h1 h7, h8⟩
    · rintro ⟨k, v, h3, h4, h5, h6⟩
      cases k with
      | zero => cases h5; exact Or.inl h6
      | succ k =>
        obtain ⟨b, h7, h8⟩ := orbit_uncons h5
        refine Or.inr ⟨b, h7, ?_⟩
        obtain ⟨u, w, h9, h10, h11⟩ := h4 0 (by omega)
        cases h9
        rw [h7] at h10; cases h10
        rw [if_neg h11, ih]
        refine ⟨k, v, by omega, ?_, h8, h6⟩
        intro j hj
        obtain ⟨u, w, h12, h13⟩ := h4 (j + 1) (by omega)
        obtain ⟨b', h14, h15⟩ := orbit_uncons h12
        rw [h7] at h14; cases h14
        exact ⟨u, w, h15, h13⟩

theorem transitive_fuel_iff (hf : ∀ a, f a ≠ .fuel) {n : Nat} {a : α} :
    transitive f n a = .fuel ↔ Moving f a n := by
  induction n generalizing a with
  | zero => simp [transitive_zero, Moving]
  | succ n ih =>
    rw [transitive_succ, Out.bind_eq_fuel]
    constructor
    · rintro (h | ⟨b, h1, h2⟩)
      · exact absurd h (hf a)
      split at h2
      · cases h2
      · rename_i hb
        have h4 := ih.mp h2
        intro j hj
        cases j with
        | zero => exact ⟨a, b, .zero, h1, hb⟩
        | succ j =>
          obtain ⟨u, w, h7, h8⟩ := h4 j (by omega)
          exact ⟨u, w, orbit_cons h1 h7, h8⟩
    · intro h4
      obtain ⟨u, b, h9, h7, h11⟩ := h4 0 (by omega)
      cases h9
      refine Or.inr ⟨b, h7, ?_⟩
      rw [if_neg h11, ih]
      intro j hj
      obtain ⟨u, w, h12, h13⟩ := h4 (j + 1) (by omega)
      obtain ⟨b', h14, h15⟩ := orbit_uncons h12
      rw [h7] at h14; cases h14
      exact ⟨u, w, h15, h13⟩

/-- A cycle of iterates without fixpoint makes the iteration run forever. -/
theorem moving_of_cycle {a b : α} {k p : Nat} (hp : 0 < p) (hb : Orbit f a k b)
    (hc : Orbit f b p b) (hm : Moving f a (k + p)) : ∀ n, Moving f a n := by
  have hor : ∀ {j c}, Orbit f b j c → Orbit f a (k + j) c := by
    intro j c h
    induction h with
    | zero => exact hb
    | succ _ h2 ih => exact .succ ih h2
  have hrep : ∀ m, Orbit f a (k + m * p) b := by
    intro m
    induction m with
    | zero => simpa using hb
    | succ m ih =>
      have : ∀ {j c}, Orbit f b j c → Orbit f a (k + m * p + j) c := by
        intro j c h
        induction h with
        | zero => exact ih
        | succ _ h2 ih => exact .succ ih h2
      have := this hc
      rwa [show k + m * p + p = k + (m + 1) * p by rw [Nat.succ_mul]; omega] at this
  intro n j hj
  by_cases hjk : j < k
  · exact hm j (by omega)
  · obtain ⟨i, rfl⟩ : ∃ i, j = k + i := ⟨j - k, by omega⟩
    obtain ⟨u, v, h1, h2, h3⟩ := hm (k + i % p) (by have := Nat.mod_lt i hp; omega)
    -- the orbit from b
    have hbu : Orbit f b (i % p) u := by
      have : ∀ q (c : α), q ≤ p → (∃ d, Orbit f b q d) := by
        intro q c hq
        have : ∀ {r d}, Orbit f b r d → q ≤ r → ∃ e, Orbit f b q e := by
          intro r d h
          induction h with
          | zero => intro hq; obtain rfl : q = 0 := by omega
                    exact ⟨_, .zero⟩
          | @succ r x y h1 h2 ih =>
            intro hq
            by_cases hqr : q ≤ r
            · exact ih hqr
            · obtain rfl : q = r + 1 := by omega
              exact ⟨_, .succ h1 h2⟩
        exact this hc hq
      obtain ⟨d, hd⟩ := this (i % p) b (Nat.le_of_lt (Nat.mod_lt i hp))
      have := orbit_unique (hor hd) h1
      rwa [this] at hd
    refine ⟨u, v, ?_, h2, h3⟩
    have hm' := hrep (i / p)
    have : ∀ {j c}, Orbit f b j c → Orbit f a (k + i / p * p + j) c := by
      intro j c h
      induction h with
      | zero => exact hm'
      | succ _ h2 ih => exact .succ ih h2
    have := this hbu
    rwa [Nat.add_assoc, Nat.mul_comm, Nat.div_add_mod] at this

end Lrp
