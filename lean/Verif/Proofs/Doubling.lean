/-!
The iteration behind FIRST and FOLLOW, as a relation.

`X A x` says "x is in the set of A".  One step replaces every nonterminal member by the members of
its own set and removes A.  This is pointer doubling, not plain propagation; the lemmas below show
what a fixpoint of it contains.
-/

namespace Lrp.Doubling

variable {T : Type} (term : T → Prop)

/-- One step. -/
def step (X : T → T → Prop) (A x : T) : Prop :=
  x ≠ A ∧ ∃ y, X A y ∧ ((term y ∧ x = y) ∨ (¬ term y ∧ X y x))

/-- `k` steps. -/
def iter (X : T → T → Prop) : Nat → T → T → Prop
  | 0 => X
  | k + 1 => step term (iter X k)

/-- A path from `A` to `x` whose inner vertices are nonterminals. -/
inductive Reach (X : T → T → Prop) : T → T → Prop
  | base {A x : T} : X A x → Reach X A x
  | cons {A B x : T} : X A B → ¬ term B → Reach X B x → Reach X A x

variable {term}

theorem Reach.trans {X : T → T → Prop} {A B x : T} (h : Reach term X A B) (hB : ¬ term B)
    (h' : Reach term X B x) : Reach term X A x := by
  induction h with
  | base h => exact .cons h hB h'
  | cons h1 h2 _ ih => exact .cons h1 h2 (ih hB h')

theorem iter_sound {X : T → T → Prop} {k : Nat} {A x : T} (h : iter term X k A x) :
    Reach term X A x := by
  induction k generalizing A x with
  | zero => exact .base h
  | succ k ih =>
    obtain ⟨_, y, h1, h2⟩ := h
    rcases h2 with ⟨_, rfl⟩ | ⟨h2, h3⟩
    · exact ih h1
    · exact (ih h1).trans h2 (ih h3)

/-- A path of length `n`. -/
def Dist (term : T → Prop) (X : T → T → Prop) : Nat → T → T → Prop
  | 0, _, _ => False
  | 1, A, x => X A x
  | n + 2, A, x => ∃ B, X A B ∧ ¬ term B ∧ Dist term X (n + 1) B x

/-- A shortest path has length `n`. -/
def MinDist (term : T → Prop) (X : T → T → Prop) (n : Nat) (A x : T) : Prop :=
  Dist term X n A x ∧ ∀ m, m < n → ¬ Dist term X m A x

theorem Reach.dist {X : T → T → Prop} {A x : T} (h : Reach term X A x) :
    ∃ n, Dist term X n A x := by
  induction h with
  | base h => exact ⟨1, h⟩
  | cons h1 h2 _ ih =>
    obtain ⟨n, hn⟩ := ih
    cases n with
    | zero => exact absurd hn id
    | succ n => exact ⟨n + 2, _, h1, h2, hn⟩

theorem Dist.min {X : T → T → Prop} {A x : T} {n : Nat} (h : Dist term X n A x) :
    ∃ m, MinDist term X m A x := by
  induction n using Nat.strongRecOn with
  | ind n ih =>
    by_cases hm : ∃ m, m < n ∧ Dist term X m A x
    · obtain ⟨m, h1, h2⟩ := hm; exact ih m h1 h2
    · exact ⟨n, h, fun m h1 h2 => hm ⟨m, h1, h2⟩⟩

theorem MinDist.unique {X : T → T → Prop} {A x : T} {n m : Nat} (h : MinDist term X n A x)
    (h' : MinDist term X m A x) : n = m := by
  rcases Nat.lt_trichotomy n m with hlt | heq | hlt
  · exact absurd h.1 (h'.2 n hlt)
  · exact heq
  · exact absurd h'.1 (h.2 m hlt)

theorem iter_min {X : T → T → Prop} (hk : ∀ A x, X A x → ¬ term A) {t : T} (ht : term t) (k : Nat) :
    ∀ {A L}, MinDist term X L A t →
      (L ≤ 2 ^ k → iter term X k A t) ∧
      (2 ^ k < L → ∃ B, iter term X k A B ∧ ¬ term B ∧ MinDist term X (L - 2 ^ k) B t) := by
  induction k with
  | zero =>
    intro A L h
    match L, h with
    | 0, h => exact absurd h.1 id
    | 1, h => exact ⟨fun _ => h.1, fun h => by simp at h⟩
    | n + 2, h =>
      refine ⟨fun h => by simp at h, fun _ => ?_⟩
      obtain ⟨B, h1, h2, h3⟩ := h.1
      refine ⟨B, h1, h2, h3, ?_⟩
      intro m hm hd
      have hm' : m < n + 1 := by simpa using hm
      cases m with
      | zero => exact hd
      | succ m => exact h.2 (m + 2) (by omega) ⟨B, h1, h2, hd⟩
  | succ k ih =>
    intro A L h
    have hA : ¬ term A := by
      match L, h.1 with
      | 1, h => exact hk _ _ h
      | n + 2, ⟨B, h, _⟩ => exact hk _ _ h
    have htA : t ≠ A := fun e => hA (e ▸ ht)
    have h2 : 2 ^ (k + 1) = 2 ^ k + 2 ^ k := by rw [Nat.pow_succ]; omega
    have hpos : 0 < 2 ^ k := Nat.pow_pos (by omega)
    constructor
    · intro hL
      by_cases hL' : L ≤ 2 ^ k
      · exact ⟨htA, t, (ih h).1 hL', Or.inl ⟨ht, rfl⟩⟩
      · obtain ⟨B, h3, h4, h5⟩ := (ih h).2 (by omega)
        exact ⟨htA, B, h3, Or.inr ⟨h4, (ih h5).1 (by omega)⟩⟩
    · intro hL
      obtain ⟨B, h3, h4, h5⟩ := (ih h).2 (by omega)
      obtain ⟨C, h6, h7, h8⟩ := (ih h5).2 (by omega)
      refine ⟨C, ⟨?_, B, h3, Or.inr ⟨h4, h6⟩⟩, h7, ?_⟩
      · rintro rfl
        have := h.unique h8
        omega
      · have e : L - 2 ^ (k + 1) = L - 2 ^ k - 2 ^ k := by omega
        rw [e]; exact h8

theorem lt_two_pow (n : Nat) : n ≤ 2 ^ n := by
  induction n with
  | zero => simp
  | succ n ih => have : 0 < 2 ^ n := Nat.pow_pos (by omega); rw [Nat.pow_succ]; omega

/-- The terminals of a fixpoint are exactly the reachable ones. -/
theorem fix_exact {X : T → T → Prop} (hk : ∀ A x, X A x → ¬ term A) {k : Nat}
    (hf : step term (iter term X k) = iter term X k) {A t : T} (ht : term t) :
    iter term X k A t ↔ Reach term X A t := by
  refine ⟨iter_sound, fun h => ?_⟩
  obtain ⟨n, hn⟩ := h.dist
  obtain ⟨L, hL⟩ := hn.min
  have hstab : ∀ m, iter term X (k + m) = iter term X k := by
    intro m
    induction m with
    | zero => rfl
    | succ m ih => show step term (iter term X (k + m)) = _; rw [ih, hf]
  have := (iter_min (term := term) (X := X) hk ht (k + L) hL).1
    (Nat.le_trans (lt_two_pow L) (Nat.pow_le_pow_right (by omega) (by omega)))
  rw [hstab L] at this
  exact this

end Lrp.Doubling
