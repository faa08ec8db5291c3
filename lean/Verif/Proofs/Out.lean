import Verif.Model.Outcome

/-! Lemmas about outcomes, folds over outcomes, fuel, and `transitive`. -/

namespace Lrp

namespace Out
variable {α β γ : Type}

@[simp] theorem pure_eq (a : α) : (pure a : Out α) = .ok a := rfl
@[simp] theorem ok_bind (a : α) (f : α → Out β) : ((Out.ok a) >>= f) = f a := rfl
@[simp] theorem panic_bind (p : Panic) (f : α → Out β) : ((Out.panic p : Out α) >>= f) = .panic p := rfl
@[simp] theorem fuel_bind (f : α → Out β) : ((Out.fuel : Out α) >>= f) = .fuel := rfl

instance : LawfulMonad Out := LawfulMonad.mk'
  (id_map := fun x => by cases x <;> rfl)
  (pure_bind := fun _ _ => rfl)
  (bind_assoc := fun x _ _ => by cases x <;> rfl)

theorem bind_eq_ok {x : Out α} {f : α → Out β} {b : β} :
    (x >>= f) = .ok b ↔ ∃ a, x = .ok a ∧ f a = .ok b := by
  cases x <;> simp

theorem bind_eq_panic {x : Out α} {f : α → Out β} {p : Panic} :
    (x >>= f) = .panic p ↔ x = .panic p ∨ ∃ a, x = .ok a ∧ f a = .panic p := by
  cases x <;> simp

theorem bind_eq_fuel {x : Out α} {f : α → Out β} :
    (x >>= f) = .fuel ↔ x = .fuel ∨ ∃ a, x = .ok a ∧ f a = .fuel := by
  cases x <;> simp

@[simp] theorem ofOption_eq_ok {p : Panic} {o : Option α} {a : α} :
    ofOption p o = .ok a ↔ o = some a := by
  cases o <;> simp [ofOption]

@[simp] theorem ofOption_eq_panic {p q : Panic} {o : Option α} :
    ofOption p o = .panic q ↔ o = none ∧ p = q := by
  cases o <;> simp [ofOption]

@[simp] theorem ofOption_ne_fuel {p : Panic} {o : Option α} : ofOption p o ≠ .fuel := by
  cases o <;> simp [ofOption]

@[simp] theorem ofOption_some {p : Panic} {a : α} : ofOption p (some a) = .ok a := rfl
@[simp] theorem ofOption_none {p : Panic} : ofOption p (none : Option α) = .panic p := rfl

@[simp] theorem assert_eq_ok {p : Panic} {b : Bool} {u : Unit} : assert p b = .ok u ↔ b = true := by
  cases b <;> simp [assert]

@[simp] theorem assert_true {p : Panic} : assert p true = .ok () := rfl
@[simp] theorem assert_false {p : Panic} : assert p false = .panic p := rfl

@[simp] theorem assert_eq_panic {p q : Panic} {b : Bool} :
    assert p b = .panic q ↔ b = false ∧ p = q := by
  cases b <;> simp [assert]

@[simp] theorem assert_ne_fuel {p : Panic} {b : Bool} : assert p b ≠ .fuel := by
  cases b <;> simp [assert]

/-- `x ≼ y`: `y` is `x` computed with at least as much fuel. -/
def Le (x y : Out α) : Prop := x = .fuel ∨ x = y

theorem Le.refl (x : Out α) : Le x x := Or.inr rfl
theorem Le.fuel (x : Out α) : Le .fuel x := Or.inl rfl
theorem Le.trans {x y z : Out α} (h : Le x y) (h' : Le y z) : Le x z := by
  rcases h with h | h
  · exact Or.inl h
  · subst h; exact h'
theorem Le.ok {x y : Out α} {a : α} (h : Le x y) (hx : x = .ok a) : y = .ok a := by
  rcases h with h | h
  · rw [h] at hx; cases hx
  · rw [← h]; exact hx
theorem Le.panic {x y : Out α} {p : Panic} (h : Le x y) (hx : x = .panic p) : y = .panic p := by
  rcases h with h | h
  · rw [h] at hx; cases hx
  · rw [← h]; exact hx

theorem Le.bind {x y : Out α} {f g : α → Out β} (h : Le x y) (hf : ∀ a, Le (f a) (g a)) :
    Le (x >>= f) (y >>= g) := by
  rcases h with h | h
  · subst h; exact Or.inl rfl
  · subst h
    cases x with
    | ok a => exact hf a
    | panic p => exact Or.inr rfl
    | fuel => exact Or.inl rfl

theorem Le.foldlM {f g : β → α → Out β} (h : ∀ b a, Le (f b a) (g b a)) (l : List α) (b : β) :
    Le (l.foldlM f b) (l.foldlM g b) := by
  induction l generalizing b with
  | nil => exact .refl _
  | cons a l ih =>
    rw [List.foldlM_cons, List.foldlM_cons]
    exact Le.bind (h b a) ih

theorem Le.mapM {f g : α → Out β} (h : ∀ a, Le (f a) (g a)) (l : List α) :
    Le (l.mapM f) (l.mapM g) := by
  induction l with
  | nil => exact .refl _
  | cons a l ih =>
    rw [List.mapM_cons, List.mapM_cons]
    exact Le.bind (h a) (fun b => Le.bind ih (fun _ => .refl _))

end Out

/-! ### folds -/

section Folds
variable {α β : Type}

/-- An invariant carried through a fold that returned. -/
theorem foldlM_inv {f : β → α → Out β} {P : β → Prop} {l : List α} {b r : β}
    (h : l.foldlM f b = .ok r) (h0 : P b)
    (hs : ∀ b a b', a ∈ l → P b → f b a = .ok b' → P b') : P r := by
  induction l generalizing b with
  | nil => rw [List.foldlM_nil] at h; cases h; exact h0
  | cons a l ih =>
    rw [List.foldlM_cons, Out.bind_eq_ok] at h
    obtain ⟨b', h1, h2⟩ := h
    exact ih h2 (hs b a b' (by simp) h0 h1) (fun b a b' ha => hs b a b' (List.mem_cons_of_mem _ ha))

/-- An invariant indexed by the elements already treated. -/
theorem foldlM_inv' {f : β → α → Out β} {P : List α → β → Prop} {l : List α} {b r : β}
    (h : l.foldlM f b = .ok r) (h0 : P [] b)
    (hs : ∀ pre a post b b', l = pre ++ a :: post → P pre b → f b a = .ok b' → P (pre ++ [a]) b') :
    P l r := by
  suffices ∀ pre post b, l = pre ++ post → P pre b → post.foldlM f b = .ok r → P l r from
    this [] l b rfl h0 h
  intro pre post
  induction post generalizing pre with
  | nil =>
    intro b hl hp h
    rw [List.foldlM_nil] at h; cases h
    simp at hl; subst hl; exact hp
  | cons a post ih =>
    intro b hl hp h
    rw [List.foldlM_cons, Out.bind_eq_ok] at h
    obtain ⟨b', h1, h2⟩ := h
    exact ih (pre ++ [a]) b' (by simp [hl]) (hs pre a post b b' hl hp h1) h2

/-- A fold returns when each of its steps does, from any state satisfying the invariant. -/
theorem foldlM_total {f : β → α → Out β} {P : β → Prop} {l : List α} {b : β} (h0 : P b)
    (hs : ∀ b a, a ∈ l → P b → ∃ b', f b a = .ok b' ∧ P b') :
    ∃ r, l.foldlM f b = .ok r ∧ P r := by
  induction l generalizing b with
  | nil => exact ⟨b, rfl, h0⟩
  | cons a l ih =>
    obtain ⟨b', h1, h2⟩ := hs b a (by simp) h0
    obtain ⟨r, h3, h4⟩ := ih h2 (fun b a ha => hs b a (List.mem_cons_of_mem _ ha))
    refine ⟨r, ?_, h4⟩
    rw [List.foldlM_cons, h1]; exact h3

theorem foldlM_panic {f : β → α → Out β} {P : β → Prop} {l : List α} {b : β} {p : Panic} (h0 : P b)
    (h : l.foldlM f b = .panic p)
    (hs : ∀ b a b', a ∈ l → P b → f b a = .ok b' → P b') :
    ∃ b a, a ∈ l ∧ P b ∧ f b a = .panic p := by
  induction l generalizing b with
  | nil => simp at h
  | cons a l ih =>
    rw [List.foldlM_cons, Out.bind_eq_panic] at h
    rcases h with h | ⟨b', h1, h2⟩
    · exact ⟨b, a, by simp, h0, h⟩
    · obtain ⟨b2, a2, h3, h4, h5⟩ := ih (hs b a b' (by simp) h0 h1) h2
        (fun b a b' ha => hs b a b' (List.mem_cons_of_mem _ ha))
      exact ⟨b2, a2, List.mem_cons_of_mem _ h3, h4, h5⟩

theorem foldlM_fuel {f : β → α → Out β} {P : β → Prop} {l : List α} {b : β} (h0 : P b)
    (h : l.foldlM f b = .fuel)
    (hs : ∀ b a b', a ∈ l → P b → f b a = .ok b' → P b') :
    ∃ b a, a ∈ l ∧ P b ∧ f b a = .fuel := by
  induction l generalizing b with
  | nil => simp at h
  | cons a l ih =>
    rw [List.foldlM_cons, Out.bind_eq_fuel] at h
    rcases h with h | ⟨b', h1, h2⟩
    · exact ⟨b, a, by simp, h0, h⟩
    · obtain ⟨b2, a2, h3, h4, h5⟩ := ih (hs b a b' (by simp) h0 h1) h2
        (fun b a b' ha => hs b a b' (List.mem_cons_of_mem _ ha))
      exact ⟨b2, a2, List.mem_cons_of_mem _ h3, h4, h5⟩

/-- The result of a `mapM` that returned, pointwise. -/
theorem mapM_ok {f : α → Out β} {l : List α} {r : List β} (h : l.mapM f = .ok r) :
    r.length = l.length ∧ ∀ (i : Nat) b, r[i]? = some b → ∃ a, l[i]? = some a ∧ f a = .ok b := by
  induction l generalizing r with
  | nil => rw [List.mapM_nil] at h; cases h; simp
  | cons a l ih =>
    rw [List.mapM_cons, Out.bind_eq_ok] at h
    obtain ⟨b, h1, h⟩ := h
    rw [Out.bind_eq_ok] at h
    obtain ⟨bs, h2, h3⟩ := h
    cases h3
    obtain ⟨h4, h5⟩ := ih h2
    refine ⟨by simp [h4], ?_⟩
    intro i b' hi
    cases i with
    | zero => simp at hi; subst hi; exact ⟨a, rfl, h1⟩
    | succ i => simp at hi; exact h5 i b' hi

theorem mapM_total {f : α → Out β} {l : List α} (h : ∀ a ∈ l, ∃ b, f a = .ok b) :
    ∃ r, l.mapM f = .ok r := by
  induction l with
  | nil => exact ⟨[], rfl⟩
  | cons a l ih =>
    obtain ⟨b, h1⟩ := h a (by simp)
    obtain ⟨r, h2⟩ := ih (fun a ha => h a (List.mem_cons_of_mem _ ha))
    refine ⟨b :: r, ?_⟩
    rw [List.mapM_cons, h1, Out.ok_bind, h2, Out.ok_bind]; rfl

theorem mapM_panic {f : α → Out β} {l : List α} {p : Panic} (h : l.mapM f = .panic p) :
    ∃ a ∈ l, f a = .panic p := by
  induction l with
  | nil => simp at h
  | cons a l ih =>
    rw [List.mapM_cons, Out.bind_eq_panic] at h
    rcases h with h | ⟨b, _, h⟩
    · exact ⟨a, by simp, h⟩
    · rw [Out.bind_eq_panic] at h
      rcases h with h | ⟨bs, _, h⟩
      · obtain ⟨a, h1, h2⟩ := ih h; exact ⟨a, List.mem_cons_of_mem _ h1, h2⟩
      · simp at h

theorem mapM_fuel {f : α → Out β} {l : List α} (h : l.mapM f = .fuel) :
    ∃ a ∈ l, f a = .fuel := by
  induction l with
  | nil => simp at h
  | cons a l ih =>
    rw [List.mapM_cons, Out.bind_eq_fuel] at h
    rcases h with h | ⟨b, _, h⟩
    · exact ⟨a, by simp, h⟩
    · rw [Out.bind_eq_fuel] at h
      rcases h with h | ⟨bs, _, h⟩
      · obtain ⟨a, h1, h2⟩ := ih h; exact ⟨a, List.mem_cons_of_mem _ h1, h2⟩
      · simp at h

/-- An invariant of a pure fold. -/
theorem foldl_inv {f : β → α → β} {P : β → Prop} {l : List α} {b : β} (h0 : P b)
    (hs : ∀ b a, a ∈ l → P b → P (f b a)) : P (l.foldl f b) := by
  induction l generalizing b with
  | nil => exact h0
  | cons a l ih => exact ih (hs b a (by simp) h0) (fun b a ha => hs b a (List.mem_cons_of_mem _ ha))

theorem foldl_inv' {f : β → α → β} {P : List α → β → Prop} {l : List α} {b : β} (h0 : P [] b)
    (hs : ∀ pre a post b, l = pre ++ a :: post → P pre b → P (pre ++ [a]) (f b a)) :
    P l (l.foldl f b) := by
  suffices ∀ pre post b, l = pre ++ post → P pre b → P l (post.foldl f b) from this [] l b rfl h0
  intro pre post
  induction post generalizing pre with
  | nil => intro b hl hp; simp at hl; subst hl; exact hp
  | cons a post ih =>
    intro b hl hp
    exact ih (pre ++ [a]) (f b a) (by simp [hl]) (hs pre a post b hl hp)

end Folds

/-! ### `transitive` -/

section Transitive
variable {α : Type} [DecidableEq α]

/-- `k` applications of `f` to `a`. -/
def iterate (f : α → Out α) : Nat → α → Out α
  | 0, a => .ok a
  | n + 1, a => f a >>= iterate f n

theorem transitive_zero (f : α → Out α) (a : α) : transitive f 0 a = .fuel := rfl

theorem transitive_succ (f : α → Out α) (n : Nat) (a : α) :
    transitive f (n + 1) a = (f a >>= fun b => if b = a then .ok a else transitive f n b) := rfl

theorem transitive_le {f : α → Out α} {n m : Nat} (h : n ≤ m) (a : α) :
    Out.Le (transitive f n a) (transitive f m a) := by
  induction n generalizing m a with
  | zero => exact Or.inl rfl
  | succ n ih =>
    obtain ⟨m, rfl⟩ : ∃ k, m = k + 1 := ⟨m - 1, by omega⟩
    rw [transitive_succ, transitive_succ]
    refine Out.Le.bind (.refl _) (fun b => ?_)
    split
    · exact .refl _
    · exact ih (by omega) b

/-- An invariant of the iteration holds of the result, which is a fixpoint. -/
theorem transitive_inv {f : α → Out α} {P : α → Prop} {n : Nat} {a v : α}
    (h : transitive f n a = .ok v) (h0 : P a) (hs : ∀ x y, P x → f x = .ok y → P y) :
    P v ∧ f v = .ok v := by
  induction n generalizing a with
  | zero => cases h
  | succ n ih =>
    rw [transitive_succ, Out.bind_eq_ok] at h
    obtain ⟨b, h1, h2⟩ := h
    split at h2
    · cases h2; rename_i hb; subst hb; exact ⟨h0, h1⟩
    · exact ih h2 (hs a b h0 h1)

/-- The iteration returns when a measure bounded by `n` grows at each change. -/
theorem transitive_total {f : α → Out α} {P : α → Prop} (μ : α → Nat) {n : Nat} {a : α}
    (h0 : P a) (hb : ∀ x, P x → μ x ≤ n)
    (hs : ∀ x, P x → ∃ y, f x = .ok y ∧ P y ∧ (y ≠ x → μ x < μ y)) :
    ∃ v, transitive f (n + 1) a = .ok v := by
  suffices ∀ k a, P a → n - μ a ≤ k → ∃ v, transitive f (k + 1) a = .ok v from
    this n a h0 (by omega)
  intro k
  induction k with
  | zero =>
    intro a ha hk
    obtain ⟨y, h1, h2, h3⟩ := hs a ha
    refine ⟨a, ?_⟩
    rw [transitive_succ, h1, Out.ok_bind]
    by_cases hy : y = a
    · simp [hy]
    · have := h3 hy; have := hb y h2; have := hb a ha; omega
  | succ k ih =>
    intro a ha hk
    obtain ⟨y, h1, h2, h3⟩ := hs a ha
    rw [transitive_succ, h1, Out.ok_bind]
    by_cases hy : y = a
    · exact ⟨a, by simp [hy]⟩
    · simp only [hy, if_false]
      exact ih y h2 (by have := h3 hy; omega)

end Transitive

end Lrp
