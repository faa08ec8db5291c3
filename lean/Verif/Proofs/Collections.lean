import Verif.Model.Collections

/-! Laws of the ordered collections (the facts about `BTreeSet`/`BTreeMap` everything else uses). -/

set_option linter.unusedSectionVars false

namespace Lrp

namespace LinOrd
variable {α : Type} [LinOrd α]

@[simp] theorem cmp_self (a : α) : cmp a a = .eq := cmp_eq.mpr rfl

theorem cmp_lt_irrefl {a : α} (h : cmp a a = .lt) : False := by simp at h

theorem cmp_gt_iff {a b : α} : cmp a b = .gt ↔ cmp b a = .lt := by
  rw [cmp_swap a b]; cases cmp a b <;> simp

theorem cmp_lt_asymm {a b : α} (h : cmp a b = .lt) : cmp b a = .gt := by
  rw [cmp_gt_iff]; exact h

theorem cmp_ne_of_lt {a b : α} (h : cmp a b = .lt) : a ≠ b := by
  rintro rfl; simp at h

end LinOrd

open LinOrd

namespace OSet
variable {α : Type} [LinOrd α]

/-- The representation invariant of a set: strictly increasing. -/
def Sorted (s : OSet α) : Prop := s.Pairwise (fun a b => cmp a b = .lt)

@[simp] theorem mem_insert {x y : α} {s : OSet α} : y ∈ insert x s ↔ y = x ∨ y ∈ s := by
  induction s with
  | nil => simp [insert]
  | cons z zs ih =>
    unfold insert
    split
    · simp
    · rename_i h; rw [cmp_eq] at h; subst h; simp
    · simp only [List.mem_cons, ih]
      constructor
      · rintro (h | h | h) <;> simp [h]
      · rintro (h | h | h) <;> simp [h]

@[simp] theorem mem_extend {y : α} {xs : List α} {s : OSet α} :
    y ∈ extend s xs ↔ y ∈ s ∨ y ∈ xs := by
  unfold extend
  induction xs generalizing s with
  | nil => simp
  | cons x xs ih =>
    simp only [List.foldl_cons, ih, mem_insert, List.mem_cons]
    constructor
    · rintro ((h | h) | h) <;> simp [h]
    · rintro (h | h | h) <;> simp [h]

@[simp] theorem mem_ofList {y : α} {xs : List α} : y ∈ ofList xs ↔ y ∈ xs := by
  simp [ofList]

@[simp] theorem mem_remove [DecidableEq α] {x y : α} {s : OSet α} :
    y ∈ remove x s ↔ y ∈ s ∧ y ≠ x := by
  simp [remove]

theorem sorted_nil : Sorted ([] : OSet α) := List.Pairwise.nil

theorem sorted_insert {x : α} {s : OSet α} (h : Sorted s) : Sorted (insert x s) := by
  induction s with
  | nil => simp [insert, Sorted]
  | cons y ys ih =>
    have hy : ∀ z ∈ ys, cmp y z = .lt := (List.pairwise_cons.mp h).1
    have hys : Sorted ys := (List.pairwise_cons.mp h).2
    unfold insert
    split
    · rename_i hlt
      refine List.pairwise_cons.mpr ⟨?_, h⟩
      intro z hz
      rcases List.mem_cons.mp hz with rfl | hz
      · exact hlt
      · exact cmp_trans hlt (hy z hz)
    · exact h
    · rename_i hgt
      refine List.pairwise_cons.mpr ⟨?_, ih hys⟩
      intro z hz
      rcases mem_insert.mp hz with rfl | hz
      · exact cmp_gt_iff.mp hgt
      · exact hy z hz

theorem sorted_extend {xs : List α} {s : OSet α} (h : Sorted s) : Sorted (extend s xs) := by
  unfold extend
  induction xs generalizing s with
  | nil => exact h
  | cons x xs ih => exact ih (sorted_insert h)

theorem sorted_ofList (xs : List α) : Sorted (ofList xs) := sorted_extend sorted_nil

theorem sorted_remove [DecidableEq α] {x : α} {s : OSet α} (h : Sorted s) :
    Sorted (remove x s) := List.Pairwise.filter _ h

theorem Sorted.nodup {s : OSet α} (h : Sorted s) : s.Nodup :=
  h.imp (fun hlt => cmp_ne_of_lt hlt)

theorem Sorted.tail {x : α} {s : OSet α} (h : Sorted (x :: s)) : Sorted s :=
  (List.pairwise_cons.mp h).2

/-- Sets are determined by their elements. -/
theorem ext {s t : OSet α} (hs : Sorted s) (ht : Sorted t) (h : ∀ x, x ∈ s ↔ x ∈ t) : s = t := by
  induction s generalizing t with
  | nil =>
    cases t with
    | nil => rfl
    | cons y ys => exact absurd ((h y).mpr (by simp)) (by simp)
  | cons x xs ih =>
    cases t with
    | nil => exact absurd ((h x).mp (by simp)) (by simp)
    | cons y ys =>
      have hx := (List.pairwise_cons.mp hs).1
      have hy := (List.pairwise_cons.mp ht).1
      have hxy : x = y := by
        rcases List.mem_cons.mp ((h x).mp (by simp)) with h1 | h1
        · exact h1
        · rcases List.mem_cons.mp ((h y).mpr (by simp)) with h2 | h2
          · exact h2.symm
          · exact absurd (cmp_trans (hy x h1) (hx y h2)) (by simp)
      subst hxy
      congr 1
      apply ih hs.tail ht.tail
      intro z
      constructor
      · intro hz
        rcases List.mem_cons.mp ((h z).mp (by simp [hz])) with h1 | h1
        · subst h1; exact absurd (hx z hz) (by simp)
        · exact h1
      · intro hz
        rcases List.mem_cons.mp ((h z).mpr (by simp [hz])) with h1 | h1
        · subst h1; exact absurd (hy z hz) (by simp)
        · exact h1

theorem insert_of_mem {x : α} {s : OSet α} (hs : Sorted s) (hx : x ∈ s) : insert x s = s :=
  ext (sorted_insert hs) hs (by intro y; simp only [mem_insert]; constructor
                                · rintro (rfl | h) <;> assumption
                                · exact Or.inr)

theorem ofList_of_sorted {s : OSet α} (hs : Sorted s) : ofList s = s :=
  ext (sorted_ofList s) hs (by simp)

@[simp] theorem ofList_singleton (x : α) : ofList [x] = [x] := rfl

@[simp] theorem ofList_nil : ofList ([] : List α) = [] := rfl

end OSet

namespace OMap
variable {κ ν : Type} [LinOrd κ] [DecidableEq κ]

/-- The representation invariant of a map: strictly increasing keys. -/
def Sorted (m : OMap κ ν) : Prop := m.Pairwise (fun a b => cmp a.1 b.1 = .lt)

@[simp] theorem get?_nil (k : κ) : get? ([] : OMap κ ν) k = none := rfl

theorem get?_cons (k k' : κ) (v : ν) (m : OMap κ ν) :
    get? ((k', v) :: m) k = if k = k' then some v else get? m k := by
  show (if cmp k k' = .eq then some v else get? m k) = _
  by_cases h : k = k'
  · subst h; simp
  · rw [if_neg h, if_neg (fun h' => h (cmp_eq.mp h'))]

theorem get?_insert (k k' : κ) (v : ν) (m : OMap κ ν) :
    get? (insert k v m) k' = if k' = k then some v else get? m k' := by
  induction m with
  | nil => simp [insert, get?_cons]
  | cons e rest ih =>
    obtain ⟨k2, v2⟩ := e
    unfold insert
    split
    · rw [get?_cons]
    · rename_i h; rw [cmp_eq] at h; subst h
      rw [get?_cons, get?_cons]
      split <;> rfl
    · rename_i h
      rw [get?_cons, ih, get?_cons]
      by_cases h1 : k' = k2
      · subst h1
        have : k' ≠ k := by rintro rfl; simp at h
        simp [this]
      · simp [h1]

@[simp] theorem get?_insert_self (k : κ) (v : ν) (m : OMap κ ν) :
    get? (insert k v m) k = some v := by simp [get?_insert]

theorem get?_insert_ne {k k' : κ} (v : ν) (m : OMap κ ν) (h : k' ≠ k) :
    get? (insert k v m) k' = get? m k' := by simp [get?_insert, h]

theorem mem_of_get? {m : OMap κ ν} {k : κ} {v : ν} (h : get? m k = some v) : (k, v) ∈ m := by
  induction m with
  | nil => simp at h
  | cons e rest ih =>
    obtain ⟨k2, v2⟩ := e
    rw [get?_cons] at h
    split at h
    · rename_i hk; subst hk; simp at h; subst h; simp
    · exact List.mem_cons_of_mem _ (ih h)

theorem sorted_nil : Sorted ([] : OMap κ ν) := List.Pairwise.nil

theorem get?_of_mem {m : OMap κ ν} (hs : Sorted m) {k : κ} {v : ν} (h : (k, v) ∈ m) :
    get? m k = some v := by
  induction m with
  | nil => simp at h
  | cons e rest ih =>
    obtain ⟨k2, v2⟩ := e
    have h1 := (List.pairwise_cons.mp hs).1
    rw [get?_cons]
    rcases List.mem_cons.mp h with h2 | h2
    · injection h2 with h3 h4; subst h3 h4; simp
    · have : k ≠ k2 := by rintro rfl; exact absurd (h1 _ h2) (by simp)
      simp [this, ih (List.pairwise_cons.mp hs).2 h2]

theorem mem_iff_get? {m : OMap κ ν} (hs : Sorted m) {k : κ} {v : ν} :
    (k, v) ∈ m ↔ get? m k = some v := ⟨get?_of_mem hs, mem_of_get?⟩

theorem contains_iff {m : OMap κ ν} {k : κ} : contains m k = true ↔ ∃ v, get? m k = some v := by
  unfold contains; exact Option.isSome_iff_exists

theorem contains_eq_false_iff {m : OMap κ ν} {k : κ} :
    contains m k = false ↔ get? m k = none := by
  unfold contains; cases get? m k <;> simp

theorem mem_insert {m : OMap κ ν} {k : κ} {v : ν} {e : κ × ν} (h : e ∈ insert k v m) :
    e = (k, v) ∨ e ∈ m := by
  induction m with
  | nil => simpa [insert] using h
  | cons e' rest ih =>
    obtain ⟨k2, v2⟩ := e'
    unfold insert at h
    split at h
    · simpa using h
    · rcases List.mem_cons.mp h with h | h
      · exact Or.inl h
      · exact Or.inr (List.mem_cons_of_mem _ h)
    · rcases List.mem_cons.mp h with h | h
      · subst h; simp
      · rcases ih h with h | h
        · exact Or.inl h
        · exact Or.inr (List.mem_cons_of_mem _ h)

theorem sorted_insert {m : OMap κ ν} (hs : Sorted m) (k : κ) (v : ν) : Sorted (insert k v m) := by
  induction m with
  | nil => simp [insert, Sorted]
  | cons e rest ih =>
    obtain ⟨k2, v2⟩ := e
    have h1 := (List.pairwise_cons.mp hs).1
    have h2 : Sorted rest := (List.pairwise_cons.mp hs).2
    unfold insert
    split
    · rename_i hlt
      refine List.pairwise_cons.mpr ⟨?_, hs⟩
      intro z hz
      rcases List.mem_cons.mp hz with rfl | hz
      · exact hlt
      · exact cmp_trans hlt (h1 z hz)
    · rename_i heq
      rw [cmp_eq] at heq; subst heq
      exact List.pairwise_cons.mpr ⟨fun z hz => h1 z hz, h2⟩
    · rename_i hgt
      refine List.pairwise_cons.mpr ⟨?_, ih h2⟩
      intro z hz
      rcases mem_insert hz with rfl | hz
      · exact cmp_gt_iff.mp hgt
      · exact h1 z hz

theorem mem_insert_iff {m : OMap κ ν} (hs : Sorted m) {k : κ} {v : ν} {e : κ × ν} :
    e ∈ insert k v m ↔ e = (k, v) ∨ (e ∈ m ∧ e.1 ≠ k) := by
  obtain ⟨k2, v2⟩ := e
  rw [mem_iff_get? (sorted_insert hs k v), get?_insert, mem_iff_get? hs]
  by_cases h : k2 = k
  · subst h
    simp only [if_true, Option.some.injEq, Prod.mk.injEq, true_and, ne_eq, not_true_eq_false,
      and_false, or_false]
    exact eq_comm
  · simp [h]

theorem sorted_remove {m : OMap κ ν} (hs : Sorted m) (k : κ) :
    Sorted (remove k m) := List.Pairwise.filter _ hs

theorem get?_remove (m : OMap κ ν) (k k' : κ) :
    get? (remove k m) k' = if k' = k then none else get? m k' := by
  induction m with
  | nil => simp [remove]
  | cons e rest ih =>
    obtain ⟨k2, v2⟩ := e
    unfold remove at ih ⊢
    rw [List.filter_cons]
    by_cases h : k2 = k
    · subst h
      simp only [ne_eq, not_true_eq_false, decide_false, Bool.false_eq_true, if_false]
      rw [ih, get?_cons]
      split <;> rfl
    · simp only [ne_eq, h, not_false_eq_true, decide_true, if_true]
      rw [get?_cons, ih, get?_cons]
      by_cases h1 : k' = k2
      · subst h1; simp [h]
      · simp [h1]

theorem sorted_ofList (es : List (κ × ν)) : Sorted (ofList es) := by
  unfold ofList
  suffices ∀ m : OMap κ ν, Sorted m → Sorted (es.foldl (fun m e => insert e.1 e.2 m) m) from
    this [] sorted_nil
  induction es with
  | nil => intro m h; exact h
  | cons e es ih => intro m h; exact ih _ (sorted_insert h _ _)

theorem mem_ofList {es : List (κ × ν)} {e : κ × ν} (h : e ∈ ofList es) : e ∈ es := by
  unfold ofList at h
  suffices ∀ m : OMap κ ν, e ∈ es.foldl (fun m e => insert e.1 e.2 m) m → e ∈ m ∨ e ∈ es by
    rcases this [] h with h | h
    · simp at h
    · exact h
  clear h
  induction es with
  | nil => intro m h; exact Or.inl h
  | cons x xs ih =>
    intro m h
    rcases ih _ h with h | h
    · rcases mem_insert h with h | h
      · right; rw [h]; simp
      · exact Or.inl h
    · exact Or.inr (List.mem_cons_of_mem _ h)

@[simp] theorem ofList_singleton (k : κ) (v : ν) : ofList [(k, v)] = [(k, v)] := rfl

theorem mem_keys {m : OMap κ ν} {k : κ} : k ∈ keys m ↔ ∃ v, get? m k = some v := by
  induction m with
  | nil => simp [keys]
  | cons e rest ih =>
    obtain ⟨k2, v2⟩ := e
    unfold keys at ih ⊢
    rw [List.map_cons, List.mem_cons, ih]
    simp only [get?_cons]
    by_cases h : k = k2
    · subst h; simp
    · simp [h]

theorem mem_values {m : OMap κ ν} (hs : Sorted m) {v : ν} :
    v ∈ values m ↔ ∃ k, get? m k = some v := by
  unfold values
  simp only [List.mem_map, Prod.exists, exists_eq_right]
  constructor
  · rintro ⟨k, h⟩; exact ⟨k, get?_of_mem hs h⟩
  · rintro ⟨k, h⟩; exact ⟨k, mem_of_get? h⟩

theorem mem_values_of_get? {m : OMap κ ν} {k : κ} {v : ν} (h : get? m k = some v) :
    v ∈ values m := List.mem_map.mpr ⟨_, mem_of_get? h, rfl⟩

/-- Maps are determined by their lookups. -/
theorem ext {m n : OMap κ ν} (hm : Sorted m) (hn : Sorted n) (h : ∀ k, get? m k = get? n k) :
    m = n := by
  induction m generalizing n with
  | nil =>
    cases n with
    | nil => rfl
    | cons e rest =>
      obtain ⟨k, v⟩ := e
      have := h k
      rw [get?_cons] at this; simp at this
  | cons e rest ih =>
    obtain ⟨k, v⟩ := e
    cases n with
    | nil => have := h k; rw [get?_cons] at this; simp at this
    | cons e2 rest2 =>
      obtain ⟨k2, v2⟩ := e2
      have h1 := (List.pairwise_cons.mp hm).1
      have h2 := (List.pairwise_cons.mp hn).1
      have hk : k = k2 := by
        have a := h k
        have b := h k2
        rw [get?_cons, get?_cons] at a b
        by_cases hkk : k = k2
        · exact hkk
        · simp only [if_true, hkk, if_false] at a
          have hkk' : k2 ≠ k := fun h => hkk h.symm
          simp only [hkk', if_true, if_false] at b
          have c1 := h2 _ (mem_of_get? a.symm)
          have c2 := h1 _ (mem_of_get? b)
          exact absurd (cmp_trans c1 c2) (by simp)
      subst hk
      have hv : v = v2 := by
        have a := h k; rw [get?_cons, get?_cons] at a; simpa using a
      subst hv
      congr 1
      apply ih (List.pairwise_cons.mp hm).2 (List.pairwise_cons.mp hn).2
      intro k'
      by_cases hkk : k' = k
      · subst hkk
        have e1 : get? rest k' = none := by
          cases hg : get? rest k' with
          | none => rfl
          | some w => exact absurd (h1 _ (mem_of_get? hg)) (by simp)
        have e2 : get? rest2 k' = none := by
          cases hg : get? rest2 k' with
          | none => rfl
          | some w => exact absurd (h2 _ (mem_of_get? hg)) (by simp)
        rw [e1, e2]
      · have a := h k'; rw [get?_cons, get?_cons] at a; simpa [hkk] using a

end OMap

end Lrp
