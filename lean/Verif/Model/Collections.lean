/-
Ordered collections used everywhere in lrp.

src/lib.rs:21-22   `pub type Map<K, V> = BTreeMap<K, V>; pub type Set<T> = BTreeSet<T>;`

A `BTreeSet`/`BTreeMap` is modelled by the list of its elements/entries in iteration order.
Every operation below keeps that list strictly increasing (proved in
`Verif/Proofs/Collections.lean`), so two model sets are equal exactly when the two Rust sets
compare equal.  The tree shape of the B-tree is not modelled: it is not observable.
-/

namespace Lrp

/-- The contract of Rust's `Ord` (std documentation): `cmp` is a total order consistent with
`Eq`.  Every `T: Ord` bound of lrp becomes a `LinOrd T` argument, i.e. we assume the user's
`Ord` implementation is lawful. -/
class LinOrd (α : Type) where
  cmp : α → α → Ordering
  cmp_eq : ∀ {a b : α}, cmp a b = .eq ↔ a = b
  cmp_swap : ∀ (a b : α), cmp b a = (cmp a b).swap
  cmp_trans : ∀ {a b c : α}, cmp a b = .lt → cmp b c = .lt → cmp a c = .lt

export LinOrd (cmp)

/-- Rust's `Ord` on `usize`. -/
def natCmp (a b : Nat) : Ordering := if a < b then .lt else if a = b then .eq else .gt

instance : LinOrd Nat where
  cmp := natCmp
  cmp_eq := by
    intro a b
    unfold natCmp
    split
    · constructor
      · intro h; cases h
      · omega
    · split <;> simp_all
  cmp_swap := by
    intro a b
    unfold natCmp
    by_cases h1 : a < b
    · have : ¬ b < a := by omega
      have h3 : ¬ b = a := by omega
      simp [h1, this, h3]
    · by_cases h2 : a = b
      · subst h2; simp
      · have : b < a := by omega
        simp [h1, this, h2]
  cmp_trans := by
    intro a b c
    unfold natCmp
    intro h1 h2
    have h1' : a < b := by
      by_cases h : a < b
      · exact h
      · rw [if_neg h] at h1; split at h1 <;> cases h1
    have h2' : b < c := by
      by_cases h : b < c
      · exact h
      · rw [if_neg h] at h2; split at h2 <;> cases h2
    rw [if_pos (Nat.lt_trans h1' h2')]

/-- Rust's derived (lexicographic) `Ord` on tuples. -/
def pairCmp {α β : Type} [LinOrd α] [LinOrd β] (p q : α × β) : Ordering :=
  match cmp p.1 q.1 with
  | .lt => .lt
  | .gt => .gt
  | .eq => cmp p.2 q.2

instance {α β : Type} [LinOrd α] [LinOrd β] : LinOrd (α × β) where
  cmp := pairCmp
  cmp_eq := by
    rintro ⟨a1, a2⟩ ⟨b1, b2⟩
    unfold pairCmp
    constructor
    · intro h
      cases h1 : cmp a1 b1 <;> simp only [h1] at h
      · cases h
      · rw [LinOrd.cmp_eq] at h1 h; simp [h1, h]
      · cases h
    · intro h
      injection h with h1 h2
      subst h1 h2
      simp only [LinOrd.cmp_eq.mpr rfl]
  cmp_swap := by
    rintro ⟨a1, a2⟩ ⟨b1, b2⟩
    unfold pairCmp
    simp only
    rw [LinOrd.cmp_swap a1 b1]
    cases h1 : cmp a1 b1 <;> simp only [Ordering.swap]
    rw [LinOrd.cmp_swap a2 b2]
    rfl
  cmp_trans := by
    rintro ⟨a1, a2⟩ ⟨b1, b2⟩ ⟨c1, c2⟩
    unfold pairCmp
    simp only
    intro h1 h2
    cases ha : cmp a1 b1 <;> simp only [ha] at h1
    · cases hb : cmp b1 c1 <;> simp only [hb] at h2
      · rw [LinOrd.cmp_trans ha hb]
      · rw [LinOrd.cmp_eq] at hb; subst hb; rw [ha]
      · cases h2
    · rw [LinOrd.cmp_eq] at ha; subst ha
      cases hb : cmp a1 c1 <;> simp only [hb] at h2
      · rfl
      · rw [LinOrd.cmp_trans h1 h2]
      · cases h2
    · cases h1

/-- Rust's lexicographic `Ord` on `Vec<T>`, and on `BTreeSet<T>` (which compares the two
iteration sequences lexicographically). -/
def listCmp {α : Type} [LinOrd α] : List α → List α → Ordering
  | [], [] => .eq
  | [], _ :: _ => .lt
  | _ :: _, [] => .gt
  | x :: xs, y :: ys =>
    match cmp x y with
    | .lt => .lt
    | .gt => .gt
    | .eq => listCmp xs ys

instance {α : Type} [LinOrd α] : LinOrd (List α) where
  cmp := listCmp
  cmp_eq := by
    intro a
    induction a with
    | nil => intro b; cases b <;> simp [listCmp]
    | cons x xs ih =>
      intro b
      cases b with
      | nil => simp [listCmp]
      | cons y ys =>
        unfold listCmp
        constructor
        · intro h
          cases h1 : cmp x y <;> simp only [h1] at h
          · cases h
          · rw [LinOrd.cmp_eq] at h1; rw [ih] at h; rw [h1, h]
          · cases h
        · intro h
          injection h with h1 h2
          subst h1
          simp only [LinOrd.cmp_eq.mpr rfl]
          exact ih.mpr h2
  cmp_swap := by
    intro a
    induction a with
    | nil => intro b; cases b <;> simp [listCmp]
    | cons x xs ih =>
      intro b
      cases b with
      | nil => simp [listCmp]
      | cons y ys =>
        unfold listCmp
        rw [LinOrd.cmp_swap x y]
        cases h1 : cmp x y <;> simp only [Ordering.swap]
        rw [ih]; rfl
  cmp_trans := by
    intro a
    induction a with
    | nil =>
      intro b c h1 h2
      cases b <;> cases c <;> simp_all [listCmp]
    | cons x xs ih =>
      intro b c h1 h2
      cases b with
      | nil => simp [listCmp] at h1
      | cons y ys =>
        cases c with
        | nil => simp [listCmp] at h2
        | cons z zs =>
          unfold listCmp at h1 h2 ⊢
          cases ha : cmp x y <;> simp only [ha] at h1
          · cases hb : cmp y z <;> simp only [hb] at h2
            · rw [LinOrd.cmp_trans ha hb]
            · rw [LinOrd.cmp_eq] at hb; subst hb; rw [ha]
            · cases h2
          · rw [LinOrd.cmp_eq] at ha; subst ha
            cases hb : cmp x z <;> simp only [hb] at h2
            · rfl
            · exact ih h1 h2
            · cases h2
          · cases h1

/-- An order pulled back along an injection: Rust's derived `Ord` on a struct is the
lexicographic order on the tuple of its fields in declaration order. -/
@[reducible] def LinOrd.pullback {α β : Type} [LinOrd β] (f : α → β)
    (inj : ∀ {a b}, f a = f b → a = b) : LinOrd α where
  cmp a b := cmp (f a) (f b)
  cmp_eq := ⟨fun h => inj (LinOrd.cmp_eq.mp h), fun h => by subst h; exact LinOrd.cmp_eq.mpr rfl⟩
  cmp_swap a b := LinOrd.cmp_swap (f a) (f b)
  cmp_trans h1 h2 := LinOrd.cmp_trans h1 h2

/-! ### Sets -/

/-- `BTreeSet<T>` (src/lib.rs:22), as the list of its elements in iteration order. -/
abbrev OSet (α : Type) := List α

namespace OSet
variable {α : Type} [LinOrd α]

/-- `BTreeSet::insert`. -/
def insert (x : α) : OSet α → OSet α
  | [] => [x]
  | y :: ys =>
    match cmp x y with
    | .lt => x :: y :: ys
    | .eq => y :: ys
    | .gt => y :: insert x ys

/-- `BTreeSet::extend` (std inserts the elements one by one). -/
def extend (s : OSet α) (xs : List α) : OSet α := xs.foldl (fun acc x => insert x acc) s

/-- `Iterator::collect::<BTreeSet<_>>` and `BTreeSet::from([..])`. -/
def ofList (xs : List α) : OSet α := extend [] xs

/-- `BTreeSet::remove`. -/
def remove [DecidableEq α] (x : α) (s : OSet α) : OSet α := s.filter (fun y => decide (y ≠ x))

end OSet

/-! ### Maps -/

/-- `BTreeMap<K, V>` (src/lib.rs:21), as the list of its entries in iteration order. -/
abbrev OMap (κ ν : Type) := List (κ × ν)

namespace OMap
variable {κ ν : Type} [LinOrd κ]

/-- `BTreeMap::get`. -/
def get? (m : OMap κ ν) (k : κ) : Option ν :=
  match m with
  | [] => none
  | (k', v) :: rest => if cmp k k' = .eq then some v else get? rest k

/-- `BTreeMap::contains_key`. -/
def contains (m : OMap κ ν) (k : κ) : Bool := (get? m k).isSome

/-- `BTreeMap::insert` (replaces the value of an existing key). -/
def insert (k : κ) (v : ν) : OMap κ ν → OMap κ ν
  | [] => [(k, v)]
  | (k', v') :: rest =>
    match cmp k k' with
    | .lt => (k, v) :: (k', v') :: rest
    | .eq => (k, v) :: rest
    | .gt => (k', v') :: insert k v rest

/-- `BTreeMap::remove`. -/
def remove [DecidableEq κ] (k : κ) (m : OMap κ ν) : OMap κ ν :=
  m.filter (fun e => decide (e.1 ≠ k))

/-- `BTreeMap::from([..])` / `collect::<BTreeMap<_, _>>`. -/
def ofList (es : List (κ × ν)) : OMap κ ν := es.foldl (fun m e => insert e.1 e.2 m) []

/-- `BTreeMap::keys`. -/
def keys (m : OMap κ ν) : List κ := m.map Prod.fst

/-- `BTreeMap::values`. -/
def values (m : OMap κ ν) : List ν := m.map Prod.snd

end OMap

end Lrp
