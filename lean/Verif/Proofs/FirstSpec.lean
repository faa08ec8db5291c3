import Verif.Proofs.First

/-! FIRST against derivations. -/

set_option linter.unusedSectionVars false

namespace Lrp
open Spec
variable {T : Type} [LinOrd T] [DecidableEq T]

namespace Tabler
variable {g : Grammar T} {D : Decls T} {S eof : T}

theorem first_reach_sound {A t : T}
    (h : Doubling.Reach (Terminal D) (fun A x => x ≠ A ∧ LeftEdge D A x) A t) : InFirst D A t := by
  induction h with
  | base h =>
    obtain ⟨_, i, b, hp⟩ := h
    exact ⟨b, Derives.of_prod hp⟩
  | cons h _ _ ih =>
    obtain ⟨_, i, b, hp⟩ := h
    obtain ⟨v, hv⟩ := ih
    exact ⟨v ++ b, (Derives.of_prod hp).trans (by simpa using hv.cons (.refl b))⟩

theorem first_reach_complete (hne : NoEmpty D) {A t : T} {u v : List T} (ht : Terminal D t)
    (h : Derives D (A :: u) (t :: v)) :
    A = t ∨ Doubling.Reach (Terminal D) (fun A x => x ≠ A ∧ LeftEdge D A x) A t := by
  generalize hα : A :: u = α at h
  generalize hβ : t :: v = β at h
  induction h generalizing A u with
  | refl => subst hα; simp at hβ; exact Or.inl hβ.1.symm
  | head s _ ih =>
    cases s with
    | @mk p q B i body hp =>
      cases p with
      | cons x xs =>
        simp at hα
        obtain ⟨rfl, _⟩ := hα
        exact ih (u := xs ++ (body ++ q)) (by simp) hβ
      | nil =>
        simp at hα
        obtain ⟨rfl, _⟩ := hα
        cases body with
        | nil => exact absurd rfl (hne _ _ _ hp)
        | cons y ys =>
          right
          have hAt : t ≠ A := by rintro rfl; exact hp.not_terminal ht
          rcases ih (A := y) (u := ys ++ q) (by simp) hβ with rfl | hr
          · exact .base ⟨hAt, i, ys, hp⟩
          · by_cases hyA : y = A
            · subst hyA; exact hr
            · refine .cons ⟨hyA, i, ys, hp⟩ ?_ hr
              cases hr with
              | base h => obtain ⟨_, _, _, hp'⟩ := h; exact hp'.not_terminal
              | cons h => obtain ⟨_, _, _, hp'⟩ := h; exact hp'.not_terminal

theorem procFirst_fix {dbg : Bool} {n : Nat} {X Y : Table T} (h : procFirst dbg n g X = .ok Y) :
    transitive (firstStep g) n X = .ok Y ∧ (dbg = true → allTerminal g Y = true) := by
  unfold procFirst at h
  simp only [Out.bind_eq_ok, Out.assert_eq_ok] at h
  obtain ⟨Z, h1, _, h2, h3⟩ := h
  cases h3
  exact ⟨h1, fun hd => by simpa [hd] using h2⟩

/-- FIRST is exact. -/
theorem first_exact (hg : g.Of D S eof) {dbg : Bool} {n : Nat} {X Y : Table T}
    (hX : genFirst g = .ok X) (hY : procFirst dbg n g X = .ok Y) :
    FirstTable D Y ∧ ∀ A t, Nonterminal D A → Terminal D t → (Has Y A t ↔ InFirst D A t) := by
  obtain ⟨h1, h2⟩ := genFirst_spec hg hX
  obtain ⟨h3, h4⟩ := first_fix hg h1 (procFirst_fix hY).1
  refine ⟨h3, fun A t hA ht => ?_⟩
  have e : Has X = fun A x => x ≠ A ∧ LeftEdge D A x := by
    funext A x; exact propext (h2 A x)
  rw [h4 A t ht, e]
  constructor
  · exact first_reach_sound
  · rintro ⟨v, hv⟩
    rcases first_reach_complete (noEmpty_of_genFirst hg hX) ht hv with rfl | hr
    · exact absurd ht (not_terminal_iff.mpr hA)
    · exact hr

/-- Everything in FIRST, terminal or not, starts a derived sentential form. -/
theorem first_sound_any (hg : g.Of D S eof) {dbg : Bool} {n : Nat} {X Y : Table T}
    (hX : genFirst g = .ok X) (hY : procFirst dbg n g X = .ok Y) {A x : T} (h : Has Y A x) :
    InFirst D A x := by
  obtain ⟨h1, h2⟩ := genFirst_spec hg hX
  have e : Has X = fun A x => x ≠ A ∧ LeftEdge D A x := by
    funext A x; exact propext (h2 A x)
  have key := transitive_inv (P := fun Y => FirstTable D Y ∧
    ∃ k, Has Y = Doubling.iter (Terminal D) (Has X) k) (procFirst_fix hY).1 ⟨h1, 0, rfl⟩ (by
    rintro Z Z' ⟨h1, k, h2⟩ h3
    obtain ⟨Z2, h4, h5, h6⟩ := firstStep_spec hg h1
    rw [h4] at h3; cases h3
    refine ⟨h5, k + 1, ?_⟩
    funext A x
    rw [h2] at h6
    exact propext (h6 A x))
  obtain ⟨⟨_, k, h5⟩, _⟩ := key
  rw [h5] at h
  have := Doubling.iter_sound h
  rw [e] at this
  exact first_reach_sound this

theorem allTerminal_iff (hg : g.Of D S eof) {X : Table T} (hs : OMap.Sorted X) :
    allTerminal g X = true ↔ ∀ A x, Has X A x → Terminal D x := by
  unfold allTerminal
  rw [List.all_eq_true]
  simp only [List.mem_flatten, hg.isTerminal]
  constructor
  · rintro h A x ⟨s, hs', hx⟩
    exact h x ⟨s, OMap.mem_values_of_get? hs', hx⟩
  · rintro h x ⟨s, h1, h2⟩
    obtain ⟨A, hA⟩ := (OMap.mem_values hs).mp h1
    exact h A x ⟨s, hA, h2⟩

end Tabler

end Lrp
