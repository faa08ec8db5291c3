import Verif.Model.Text
import Verif.Spec.Text

/-! Proofs: the texts of positions, actions and errors can be read in only one way. -/

set_option linter.unusedSectionVars false

namespace Lrp
open Spec Text

variable {T : Type}

/-! ### Lists and numbers -/

/-- Legible on the part of the type where `P`. -/
structure LegOn {α : Type} (P : α → Prop) (fmt : α → Txt) (R : α → α → Prop) : Prop where
  split : ∀ a b u v, P a → P b → Break u → Break v → fmt a ++ u = fmt b ++ v → R a b ∧ u = v
  head : ∀ a, P a → ∃ c r, fmt a = c :: r ∧ c ∉ [' ', '.', ')', ']', '}']

theorem Spec.Legible.on {α : Type} {fmt : α → Txt} {R : α → α → Prop} (h : Legible fmt R) :
    LegOn (fun _ => True) fmt R := ⟨fun a b u v _ _ => h.split a b u v, fun a _ => h.head a⟩

theorem listTail_break {α : Type} (r : Char) (hr : r ∈ [')', ']',
      '}']) (fmt : α → Txt) (xs : List α) (u : Txt) :
    Break (listTail r fmt xs ++ u) := by
  cases xs with
  | nil =>
    refine ⟨r, u, rfl, ?_⟩
    simp only [List.mem_cons, List.not_mem_nil, or_false] at hr ⊢
    rcases hr with rfl | rfl | rfl <;> simp
  | cons x xs => exact ⟨',', _, rfl, by decide⟩

theorem listTail_split {α : Type} {r : Char} (hr : r ∈ [')', ']', '}']) {fmt : α → Txt} {R : α → α → Prop}
    {P : α → Prop}
    (h : LegOn P fmt R) : ∀ (xs ys : List α) (u v : Txt),
      (∀ x ∈ xs, P x) → (∀ y ∈ ys, P y) → listTail r fmt xs ++ u = listTail r fmt ys ++ v →
      Forall2 R xs ys ∧ u = v := by
  have hne : r ≠ ',' := by
    simp only [List.mem_cons, List.not_mem_nil, or_false] at hr
    rcases hr with rfl | rfl | rfl <;> decide
  intro xs
  induction xs with
  | nil =>
    intro ys u v hx hy e
    cases ys with
    | nil => simp only [listTail, List.cons_append, List.nil_append, List.cons.injEq,
      true_and] at e; exact ⟨.nil, e⟩
    | cons y ys =>
      simp only [listTail, List.cons_append, List.cons.injEq] at e
      exact absurd e.1 hne
  | cons x xs ih =>
    intro ys u v hx hy e
    cases ys with
    | nil =>
      simp only [listTail, List.cons_append, List.cons.injEq] at e
      exact absurd e.1.symm hne
    | cons y ys =>
      simp only [listTail, List.cons_append, List.append_assoc, List.cons.injEq, true_and] at e
      obtain ⟨h1,
      h2⟩ := h.split x y _ _ (hx x (by simp)) (hy y (by simp)) (listTail_break r hr fmt xs u) (listTail_break r hr fmt ys v) e
      obtain ⟨h3, h4⟩ := ih ys u v (fun z hz => hx z (by simp [hz])) (fun z hz => hy z (by simp [hz])) h2
      exact ⟨.cons h1 h3, h4⟩

theorem debugList_split {α : Type} {l r : Char} (hr : r ∈ [')', ']', '}']) {fmt : α → Txt} {R : α → α → Prop}
    {P : α → Prop}
    (h : LegOn P fmt R) (xs ys : List α) (u v : Txt)
    (hx : ∀ x ∈ xs, P x) (hy : ∀ y ∈ ys, P y) (e : debugList l r fmt xs ++ u = debugList l r fmt ys ++ v) :
    Forall2 R xs ys ∧ u = v := by
  have hne : ∀ x w, P x → fmt x ++ w ≠ r :: u ∧ fmt x ++ w ≠ r :: v := by
    intro x w hpx
    obtain ⟨c, q, h1, h2⟩ := h.head x hpx
    have : c ≠ r := by
      rintro rfl
      simp only [List.mem_cons, List.not_mem_nil, or_false] at hr
      rcases hr with rfl | rfl | rfl <;> simp at h2
    rw [h1]
    constructor <;> (intro e; exact this (List.cons.inj e).1)
  cases xs with
  | nil =>
    cases ys with
    | nil =>
      simp only [debugList, List.cons_append, List.nil_append, List.cons.injEq, true_and] at e
      exact ⟨.nil, e⟩
    | cons y ys =>
      simp only [debugList, List.cons_append, List.nil_append, List.append_assoc, List.cons.injEq,
      true_and] at e
      exact absurd e.symm (hne y _ (hy y (by simp))).1
  | cons x xs =>
    cases ys with
    | nil =>
      simp only [debugList, List.cons_append, List.nil_append, List.append_assoc, List.cons.injEq,
      true_and] at e
      exact absurd e (hne x _ (hx x (by simp))).2
    | cons y ys =>
      simp only [debugList, List.cons_append, List.append_assoc, List.cons.injEq, true_and] at e
      obtain ⟨h1,
      h2⟩ := h.split x y _ _ (hx x (by simp)) (hy y (by simp)) (listTail_break r hr fmt xs u) (listTail_break r hr fmt ys v) e
      obtain ⟨h3, h4⟩ := listTail_split hr h xs ys u v (fun z hz => hx z (by simp [hz]))
        (fun z hz => hy z (by simp [hz])) h2
      exact ⟨.cons h1 h3, h4⟩

theorem debugList_legible {α : Type} {l r : Char} (hr : r ∈ [')', ']', '}']) {fmt : α → Txt}
    (h : Legible fmt Eq) (xs ys : List α) (u v : Txt) (e : debugList l r fmt xs ++ u = debugList l r fmt ys ++ v) :
    Forall2 Eq xs ys ∧ u = v :=
  debugList_split hr h.on xs ys u v (fun _ _ => trivial) (fun _ _ => trivial) e

theorem forall2_eq {α : Type} {xs ys : List α} (h : Forall2 Eq xs ys) : xs = ys := by
  induction h with
  | nil => rfl
  | cons h _ ih => rw [h, ih]

/-- Different words, without blanks and brackets, are legible. -/
theorem legible_words {α : Type} {fmt : α → Txt} (hi : ∀ a b, fmt a = fmt b → a = b) (hn : ∀ a, fmt a ≠ [])
    (hc : ∀ a, ∀ c ∈ fmt a, c ∉ [' ', ',', '.', ')', ']', '}']) : Legible fmt Eq := by
  have key : ∀ (a b u v : Txt), (∀ c ∈ a, c ∉ [' ', ',', '.', ')', ']', '}']) →
      (∀ c ∈ b, c ∉ [' ', ',', '.', ')', ']', '}']) → Break u → Break v → a ++ u = b ++ v → a = b ∧ u = v := by
    intro a
    induction a with
    | nil =>
      intro b u v _ hb hu _ e
      cases b with
      | nil => exact ⟨rfl, e⟩
      | cons c b =>
        obtain ⟨d, w, rfl, hd⟩ := hu
        simp only [List.nil_append, List.cons_append, List.cons.injEq] at e
        exact absurd (e.1 ▸ hd) (hb c (by simp))
    | cons c a ih =>
      intro b u v ha hb hu hv e
      cases b with
      | nil =>
        obtain ⟨d, w, rfl, hd⟩ := hv
        simp only [List.nil_append, List.cons_append, List.cons.injEq] at e
        exact absurd (e.1 ▸ hd) (ha c (by simp))
      | cons d b =>
        simp only [List.cons_append, List.cons.injEq] at e
        obtain ⟨h1,
      h2⟩ := ih b u v (fun x hx => ha x (by simp [hx])) (fun x hx => hb x (by simp [hx])) hu hv e.2
        exact ⟨by rw [e.1, h1], h2⟩
  constructor
  · intro a b u v hu hv e
    obtain ⟨h1, h2⟩ := key _ _ _ _ (hc a) (hc b) hu hv e
    exact ⟨hi a b h1, h2⟩
  · intro a
    cases h : fmt a with
    | nil => exact absurd h (hn a)
    | cons c r =>
      refine ⟨c, r, rfl, fun hm => hc a c (by rw [h]; simp) ?_⟩
      simp only [List.mem_cons, List.not_mem_nil, or_false] at hm ⊢
      rcases hm with rfl | rfl | rfl | rfl | rfl <;> simp

/-- Texts in quotes are legible, if quotes in them are escaped. -/
theorem legible_quoted {esc : Char → Txt} (h1 : ∀ c d u v, esc c ++ u = esc d ++ v → c = d ∧ u = v)
    (h2 : ∀ c, ∃ x r, esc c = x :: r ∧ x ≠ '"') :
    Legible (fun s : List Char => '"' :: s.flatMap esc ++ ['"']) Eq := by
  have key : ∀ (a b u v : Txt), a.flatMap esc ++ '"' :: u = b.flatMap esc ++ '"' :: v → a = b ∧ u = v := by
    intro a
    induction a with
    | nil =>
      intro b u v e
      cases b with
      | nil => simp at e; exact ⟨rfl, e⟩
      | cons c b =>
        obtain ⟨x, r, k1, k2⟩ := h2 c
        simp only [List.flatMap_nil, List.nil_append, List.flatMap_cons, k1, List.cons_append,
          List.cons.injEq] at e
        exact absurd e.1.symm k2
    | cons c a ih =>
      intro b u v e
      cases b with
      | nil =>
        obtain ⟨x, r, k1, k2⟩ := h2 c
        simp only [List.flatMap_nil, List.nil_append, List.flatMap_cons, k1, List.cons_append,
          List.cons.injEq] at e
        exact absurd e.1 k2
      | cons d b =>
        simp only [List.flatMap_cons, List.append_assoc] at e
        obtain ⟨k1, k2⟩ := h1 c d _ _ e
        obtain ⟨k3, k4⟩ := ih b u v k2
        exact ⟨by rw [k1, k3], k4⟩
  constructor
  · intro a b u v _ _ e
    simp only [List.cons_append, List.append_assoc, List.nil_append, List.cons.injEq, true_and] at e
    exact key a b u v e
  · intro a
    exact ⟨'"', _, rfl, by decide⟩

theorem digit_inj {m n : Nat} (hm : m < 10) (hn : n < 10) (h : Char.ofNat (48 + m) = Char.ofNat (48 + n)) :
    m = n := by
  have key : ∀ a b : Fin 10, Char.ofNat (48 + a.val) = Char.ofNat (48 + b.val) → a = b := by decide
  have := key ⟨m, hm⟩ ⟨n, hn⟩ h
  exact congrArg Fin.val this

theorem digit_word {m : Nat} (hm : m < 10) : Char.ofNat (48 + m) ∉ [' ', ',', '.', ')', ']', '}'] := by
  have key : ∀ a : Fin 10, Char.ofNat (48 + a.val) ∉ [' ', ',', '.', ')', ']', '}'] := by decide
  exact key ⟨m, hm⟩

theorem decimal_ne_nil (n : Nat) : decimal n ≠ [] := by
  unfold decimal
  split <;> simp

theorem decimal_word (n : Nat) : ∀ c ∈ decimal n, c ∉ [' ', ',', '.', ')', ']', '}'] := by
  induction n using Nat.strongRecOn with
  | ind n ih =>
    intro c hc
    unfold decimal at hc
    split at hc
    · rw [List.mem_singleton] at hc; subst hc; exact digit_word (by assumption)
    · rcases List.mem_append.mp hc with hc | hc
      · exact ih (n / 10) (by omega) c hc
      · rw [List.mem_singleton] at hc; subst hc; exact digit_word (Nat.mod_lt _ (by omega))

theorem decimal_inj (m n : Nat) (h : decimal m = decimal n) : m = n := by
  induction m using Nat.strongRecOn generalizing n with
  | ind m ih =>
    unfold decimal at h
    split at h
    · split at h
      · exact digit_inj (by assumption) (by assumption) (List.cons.inj h).1
      · exfalso
        have h1 := congrArg List.length h
        have h2 := List.length_pos_iff.mpr (decimal_ne_nil (n / 10))
        simp at h1
        exact decimal_ne_nil _ h1
    · split at h
      · exfalso
        have h1 := congrArg List.length h
        simp at h1
        exact decimal_ne_nil _ h1
      · obtain ⟨h1, h2⟩ := List.append_inj' h rfl
        have h3 := ih (m / 10) (by omega) _ h1
        have h4 := digit_inj (Nat.mod_lt _ (by omega)) (Nat.mod_lt _ (by omega)) (List.cons.inj h2).1
        omega

theorem legible_decimal : Legible decimal Eq := legible_words decimal_inj decimal_ne_nil decimal_word

/-! ### Positions -/

theorem range_split (n m : Nat) : List.range (n + m) = List.range n ++ (List.range m).map (n + ·) :=
  List.range_add

/-- What an item looks like. -/
theorem position_eq (fmt : T → Txt) {p : Position T} (hp : p.point ≤ p.seq.1.length) :
    position fmt p = fmt p.rule ++ [' ', '='] ++ spaced fmt (p.seq.1.take p.point) ++ [' ', '.', ' '] ++
      (match p.seq.1.drop p.point with
        | [] => []
        | x :: xs => fmt x ++ spaced fmt xs ++ [' ']) ++
      ' ' :: debugList '{' '}' fmt p.look := by
  obtain ⟨rule, ⟨body, k⟩, point, look⟩ := p
  simp only at hp
  have before : ∀ m, m ≤ point →
      (List.range m).flatMap (positionPiece fmt ⟨rule, (body, k), point, look⟩) = spaced fmt (body.take m) := by
    intro m
    induction m with
    | zero => intro _; rfl
    | succ m ih =>
      intro hm
      obtain ⟨x, e⟩ : ∃ x, body[m]? = some x := ⟨_, List.getElem?_eq_getElem (by omega)⟩
      rw [List.range_succ, List.flatMap_append, ih (by omega), List.take_add_one, e]
      simp [spaced, positionPiece, Position.absIdx, e, show ¬ m = point by omega]
  have after : ∀ (l : List T) (j : Nat), point < j → (∀ i, body[j + i]? = l[i]?) →
      (List.range (l.length + 1)).flatMap (fun i => positionPiece fmt ⟨rule, (body, k), point, look⟩ (j + i)) =
        spaced fmt l ++ [' '] := by
    intro l
    induction l with
    | nil =>
      intro j hj h1
      have : body[j]? = none := by have := h1 0; simpa using this
      simp [spaced, positionPiece, Position.absIdx, this, show ¬ j = point by omega, List.range_succ]
    | cons x l ih =>
      intro j hj h1
      rw [List.length_cons, Nat.add_comm (l.length + 1) 1, range_split 1, List.flatMap_append]
      have e : body[j]? = some x := by have := h1 0; simpa using this
      have := ih (j + 1) (by omega) (fun i => by
        have := h1 (i + 1)
        rw [show j + 1 + i = j + (i + 1) by omega, this, List.getElem?_cons_succ])
      rw [List.flatMap_map]
      simp only [← Nat.add_assoc]
      rw [this]
      simp [spaced, positionPiece, Position.absIdx, e, show ¬ j = point by omega, List.range_succ]
  have hsplit : (List.range (max point body.length + 1)).flatMap
      (positionPiece fmt ⟨rule, (body, k), point, look⟩) =
      spaced fmt (body.take point) ++ [' ', '.', ' '] ++
      (match body.drop point with
        | [] => []
        | x :: xs => fmt x ++ spaced fmt xs ++ [' ']) := by
    rw [Nat.max_eq_right hp, show body.length + 1 = point + (body.length - point + 1) by omega, range_split,
      List.flatMap_append]
    have e1 := before point (Nat.le_refl _)
    rw [e1, List.append_assoc]
    congr 1
    cases hd : body.drop point with
    | nil =>
      have hl : body.length = point := by
        have := congrArg List.length hd
        simp at this; omega
      rw [hl]
      have : body[point]? = none := by rw [List.getElem?_eq_none_iff]; omega
      simp [positionPiece, Position.absIdx, this, List.range_succ]
    | cons x xs =>
      have hl : body.length - point = xs.length + 1 := by
        have := congrArg List.length hd
        simp at this; omega
      have hx : ∀ i, body[point + i]? = (x :: xs)[i]? := by
        intro i; rw [← hd, List.getElem?_drop]
      rw [hl, Nat.add_comm (xs.length + 1) 1, range_split 1, List.map_append, List.flatMap_append]
      have := after xs (point + 1) (by omega) (fun i => by
        have := hx (i + 1)
        rw [show point + 1 + i = point + (i + 1) by omega, this, List.getElem?_cons_succ])
      rw [List.map_map, List.flatMap_map, List.flatMap_map]
      simp only [Function.comp_def, ← Nat.add_assoc]
      rw [this]
      have e2 : body[point]? = some x := by have := hx 0; simpa using this
      simp [positionPiece, Position.absIdx, e2, List.range_succ]
  unfold position
  rw [hsplit]
  simp only [List.append_assoc]

/-- The symbols after the dot, with a blank after them. -/
def afterDot (fmt : T → Txt) : List T → Txt
  | [] => []
  | x :: xs => fmt x ++ spaced fmt xs ++ [' ']

theorem spaced_break (fmt : T → Txt) (xs : List T) (u : Txt) : Break (spaced fmt xs ++ ' ' :: u) := by
  cases xs with
  | nil => exact ⟨' ', u, rfl, by decide⟩
  | cons x xs => exact ⟨' ', _, rfl, by decide⟩

theorem spaced_split {fmt : T → Txt} (h : Legible fmt Eq) {c : Char} (hc : c ∈ [' ', '.']) :
    ∀ (xs ys : List T) (u v : Txt), spaced fmt xs ++ ' ' :: c :: u = spaced fmt ys ++ ' ' :: c :: v →
      xs = ys ∧ u = v := by
  have hne : ∀ x w u, fmt x ++ w ≠ c :: u := by
    intro x w u e
    obtain ⟨d, q, h1, h2⟩ := h.head x
    rw [h1, List.cons_append, List.cons.injEq] at e
    rw [e.1] at h2
    simp only [List.mem_cons, List.not_mem_nil, or_false] at hc
    rcases hc with rfl | rfl <;> simp at h2
  intro xs
  induction xs with
  | nil =>
    intro ys u v e
    cases ys with
    | nil => simp [spaced] at e; exact ⟨rfl, e⟩
    | cons y ys =>
      simp only [spaced, List.flatMap_nil, List.nil_append, List.flatMap_cons, List.cons_append,
        List.append_assoc, List.cons.injEq, true_and] at e
      exact absurd e.symm (hne _ _ _)
  | cons x xs ih =>
    intro ys u v e
    cases ys with
    | nil =>
      simp only [spaced, List.flatMap_nil, List.nil_append, List.flatMap_cons, List.cons_append,
        List.append_assoc, List.cons.injEq, true_and] at e
      exact absurd e (hne _ _ _)
    | cons y ys =>
      have e' : fmt x ++ (spaced fmt xs ++ ' ' :: c :: u) = fmt y ++ (spaced fmt ys ++ ' ' :: c :: v) := by
        simpa [spaced] using e
      obtain ⟨h1, h2⟩ := h.split x y _ _ (spaced_break fmt xs _) (spaced_break fmt ys _) e'
      obtain ⟨h3, h4⟩ := ih ys u v h2
      exact ⟨by rw [h1, h3], h4⟩

theorem afterDot_split {fmt : T → Txt} (h : Legible fmt Eq) (xs ys : List T) (u v : Txt)
    (e : afterDot fmt xs ++ ' ' :: u = afterDot fmt ys ++ ' ' :: v) : xs = ys ∧ u = v := by
  have hne : ∀ x w u, fmt x ++ w ≠ ' ' :: u := by
    intro x w u e
    obtain ⟨d, q, h1, h2⟩ := h.head x
    rw [h1, List.cons_append, List.cons.injEq] at e
    rw [e.1] at h2
    simp at h2
  cases xs with
  | nil =>
    cases ys with
    | nil => simp [afterDot] at e; exact ⟨rfl, e⟩
    | cons y ys =>
      simp only [afterDot, List.nil_append, List.append_assoc] at e
      exact absurd e.symm (hne _ _ _)
  | cons x xs =>
    cases ys with
    | nil =>
      simp only [afterDot, List.nil_append, List.append_assoc] at e
      exact absurd e (hne _ _ _)
    | cons y ys =>
      simp only [afterDot, List.append_assoc, List.cons_append, List.nil_append] at e
      obtain ⟨h1, h2⟩ := h.split x y _ _ (spaced_break fmt xs _) (spaced_break fmt ys _) e
      obtain ⟨h3, h4⟩ := spaced_split h (c := ' ') (by decide) xs ys u v h2
      exact ⟨by rw [h1, h3], h4⟩

theorem position_eq' (fmt : T → Txt) {p : Position T} (hp : p.point ≤ p.seq.1.length) (u : Txt) :
    position fmt p ++ u = fmt p.rule ++ (' ' :: '=' :: (spaced fmt (p.seq.1.take p.point) ++ (' ' :: '.' :: ' ' ::
      (afterDot fmt (p.seq.1.drop p.point) ++ ' ' :: (debugList '{' '}' fmt p.look ++ u))))) := by
  rw [position_eq fmt hp]
  cases h : p.seq.1.drop p.point <;> simp [afterDot]

/-- The text of a position tells which one it is, but for the number of the production. -/
theorem position_split {fmt : T → Txt} (h : Legible fmt Eq) {p q : Position T}
    (hp : p.point ≤ p.seq.1.length) (hq : q.point ≤ q.seq.1.length) {u v : Txt}
    (e : position fmt p ++ u = position fmt q ++ v) : SameItem p q ∧ u = v := by
  rw [position_eq' fmt hp, position_eq' fmt hq] at e
  obtain ⟨h1, e⟩ := h.split _ _ _ _ ⟨' ', _, rfl, by decide⟩ ⟨' ', _, rfl, by decide⟩ e
  simp only [List.cons.injEq, true_and] at e
  obtain ⟨h2, e⟩ := spaced_split h (c := '.') (by decide) _ _ _ _ e
  simp only [List.cons.injEq, true_and] at e
  obtain ⟨h3, e⟩ := afterDot_split h _ _ _ _ e
  obtain ⟨h4, e⟩ := debugList_legible (by decide) h _ _ _ _ e
  refine ⟨⟨h1, ?_, ?_, forall2_eq h4⟩, e⟩
  · rw [← List.take_append_drop p.point p.seq.1, h2, h3, List.take_append_drop]
  · have := congrArg List.length h2
    simp only [List.length_take] at this
    omega

/-- Positions whose point is in the body. -/
def Inside (s : State T) : Prop := ∀ p ∈ s, p.point ≤ p.seq.1.length

theorem state_split {fmt : T → Txt} (h : Legible fmt Eq) {s s' : State T} (hs : Inside s) (hs' : Inside s')
    {u v : Txt} (e : state fmt s ++ u = state fmt s' ++ v) : Forall2 SameItem s s' ∧ u = v := by
  have hl : LegOn (fun p : Position T => p.point ≤ p.seq.1.length) (position fmt) SameItem := by
    constructor
    · intro p q u v hp hq _ _ e
      exact position_split h hp hq e
    · intro p hp
      obtain ⟨c, r, h1, h2⟩ := h.head p.rule
      have := position_eq' fmt hp []
      rw [List.append_nil, h1, List.cons_append] at this
      exact ⟨c, _, this, h2⟩
  exact debugList_split (by decide) hl _ _ _ _ hs hs' e

/-! ### Actions and errors -/

theorem production_split {fmt : T → Txt} (h : Legible fmt Eq) {p q : Production T} {u v : Txt}
    (e : production fmt p ++ u = production fmt q ++ v) : p = q ∧ u = v := by
  simp only [production, List.cons_append, List.append_assoc, List.cons.injEq, true_and, List.nil_append] at e
  obtain ⟨h1, e⟩ := debugList_legible (by decide) h _ _ _ _ e
  simp only [List.cons.injEq, true_and] at e
  obtain ⟨h2, e⟩ := legible_decimal.split _ _ _ _ ⟨')', _, rfl, by decide⟩ ⟨')', _, rfl, by decide⟩ e
  simp only [List.cons.injEq, true_and] at e
  exact ⟨Prod.ext (forall2_eq h1) h2, e⟩

/-- The first letter of an action. -/
theorem action_head (fmt : T → Txt) (a : Action T) : ∃ r, action fmt a =
    (match a with
      | .shift _ => 'S'
      | .goto _ => 'G'
      | .reduce _ _ => 'R'
      | .acc => 'A'
      | .conflict _ _ => 'C') :: r := by
  cases a <;> exact ⟨_, rfl⟩

theorem action_split {fmt : T → Txt} (h : Legible fmt Eq) : ∀ (a b : Action T) (u v : Txt),
    action fmt a ++ u = action fmt b ++ v → a = b ∧ u = v := by
  have other : ∀ (a b : Action T) (u v : Txt), action fmt a ++ u = action fmt b ++ v →
      (match a with
      | .shift _ => 'S'
      | .goto _ => 'G'
      | .reduce _ _ => 'R'
      | .acc => 'A'
      | .conflict _ _ => 'C') = (match b with
      | .shift _ => 'S'
      | .goto _ => 'G'
      | .reduce _ _ => 'R'
      | .acc => 'A'
      | .conflict _ _ => 'C') := by
    intro a b u v e
    obtain ⟨r, h1⟩ := action_head fmt a
    obtain ⟨r', h2⟩ := action_head fmt b
    rw [h1, h2] at e
    exact (List.cons.inj e).1
  have num : ∀ {m n : Nat} {u v : Txt}, decimal m ++ ')' :: u = decimal n ++ ')' :: v → m = n ∧ u = v := by
    intro m n u v e
    obtain ⟨h2, e⟩ := legible_decimal.split _ _ _ _ ⟨')', _, rfl, by decide⟩ ⟨')', _, rfl, by decide⟩ e
    exact ⟨h2, (List.cons.inj e).2⟩
  intro a
  induction a with
  | shift n =>
    intro b u v e
    have ho := other _ _ _ _ e
    cases b with
    | shift m =>
      simp only [action, List.append_assoc, List.cons_append, List.nil_append, List.cons.injEq, true_and] at e
      obtain ⟨h1, h2⟩ := num e
      exact ⟨by rw [h1], h2⟩
    | _ => exact absurd ho (by simp)
  | goto n =>
    intro b u v e
    have ho := other _ _ _ _ e
    cases b with
    | goto m =>
      simp only [action, List.append_assoc, List.cons_append, List.nil_append, List.cons.injEq, true_and] at e
      obtain ⟨h1, h2⟩ := num e
      exact ⟨by rw [h1], h2⟩
    | _ => exact absurd ho (by simp)
  | reduce A prod =>
    intro b u v e
    have ho := other _ _ _ _ e
    cases b with
    | reduce B prod' =>
      simp only [action, List.append_assoc, List.cons_append, List.nil_append, List.cons.injEq, true_and] at e
      obtain ⟨h1, e⟩ := h.split _ _ _ _ ⟨',', _, rfl, by decide⟩ ⟨',', _, rfl, by decide⟩ e
      simp only [List.cons.injEq, true_and] at e
      obtain ⟨h2, e⟩ := production_split h e
      exact ⟨by rw [h1, h2], (List.cons.inj e).2⟩
    | _ => exact absurd ho (by simp)
  | acc =>
    intro b u v e
    have ho := other _ _ _ _ e
    cases b with
    | acc =>
      simp only [action, List.append_cancel_left_eq] at e
      exact ⟨rfl, e⟩
    | _ => exact absurd ho (by simp)
  | conflict a1 a2 ih1 ih2 =>
    intro b u v e
    have ho := other _ _ _ _ e
    cases b with
    | conflict b1 b2 =>
      simp only [action, List.append_assoc, List.cons_append, List.nil_append, List.cons.injEq, true_and] at e
      obtain ⟨h1, e⟩ := ih1 _ _ _ e
      simp only [List.cons.injEq, true_and] at e
      obtain ⟨h2, e⟩ := ih2 _ _ _ e
      exact ⟨by rw [h1, h2], (List.cons.inj e).2⟩
    | _ => exact absurd ho (by simp)

theorem error_inj {fmt : T → Txt} (h : Legible fmt Eq) {a b : Error T} (e : error fmt a = error fmt b) :
    a = b := by
  have tok : ∀ (x : T) (l : List T), error fmt (.unexpectedToken x l) = ['u', 'n', 'e', 'x', 'p', 'e', 'c',
      't', 'e', 'd', ' ', 't', 'o', 'k', 'e', 'n', ' '] ++ (fmt x ++
      ('.' :: ([' ', 'e', 'x', 'p', 'e', 'c', 't', 'e', 'd', ' '] ++ (debugList '[' ']' fmt l ++ [])))) := by
    intro x l; simp [error]
  have conf : ∀ (x y : Action T), error fmt (.conflict x y) = ['c', 'o', 'n', 'f', 'l', 'i', 'c', 't', 'i',
      'n', 'g', ' ', 'a', 'c', 't', 'i', 'o', 'n', ' '] ++ (action fmt x ++
      ([' ', 'a', 'n', 'd', ' '] ++ (action fmt y ++ []))) := by
    intro x y; simp [error]
  cases a with
  | unexpectedToken x l =>
    rw [tok] at e
    cases b with
    | unexpectedToken y l' =>
      rw [tok, List.append_cancel_left_eq] at e
      obtain ⟨h1, e⟩ := h.split _ _ _ _ ⟨'.', _, rfl, by decide⟩ ⟨'.', _, rfl, by decide⟩ e
      simp only [List.cons.injEq, true_and, List.append_cancel_left_eq] at e
      obtain ⟨h2, _⟩ := debugList_legible (by decide) h _ _ _ _ e
      rw [h1, forall2_eq h2]
    | conflict y z => rw [conf] at e; exact absurd (List.cons.inj e).1 (by decide)
    | unexpectedEof => exact absurd (congrArg (List.take 12) e) (by simp [error])
    | _ => exact absurd (List.cons.inj e).1 (by decide)
  | conflict x y =>
    rw [conf] at e
    cases b with
    | conflict x' y' =>
      rw [conf, List.append_cancel_left_eq] at e
      obtain ⟨h1, e⟩ := action_split h _ _ _ _ e
      rw [List.append_cancel_left_eq] at e
      obtain ⟨h2, _⟩ := action_split h _ _ _ _ e
      rw [h1, h2]
    | unexpectedToken y l' => rw [tok] at e; exact absurd (List.cons.inj e).1 (by decide)
    | _ => exact absurd (List.cons.inj e).1 (by decide)
  | unexpectedEof =>
    cases b with
    | unexpectedToken y l' => rw [tok] at e; exact absurd (congrArg (List.take 12) e) (by simp [error])
    | conflict y z => rw [conf] at e; exact absurd (List.cons.inj e).1 (by decide)
    | unexpectedEof => rfl
    | _ => exact absurd (List.cons.inj e).1 (by decide)
  | missingPreviousState =>
    cases b with
    | unexpectedToken y l' => rw [tok] at e; exact absurd (List.cons.inj e).1 (by decide)
    | conflict y z => rw [conf] at e; exact absurd (List.cons.inj e).1 (by decide)
    | missingPreviousState => rfl
    | _ => exact absurd (List.cons.inj e).1 (by decide)
  | stateNotSpecified =>
    cases b with
    | unexpectedToken y l' => rw [tok] at e; exact absurd (List.cons.inj e).1 (by decide)
    | conflict y z => rw [conf] at e; exact absurd (List.cons.inj e).1 (by decide)
    | stateNotSpecified => rfl
    | _ => exact absurd (List.cons.inj e).1 (by decide)
  | incompleteExec =>
    cases b with
    | unexpectedToken y l' => rw [tok] at e; exact absurd (List.cons.inj e).1 (by decide)
    | conflict y z => rw [conf] at e; exact absurd (List.cons.inj e).1 (by decide)
    | incompleteExec => rfl
    | _ => exact absurd (List.cons.inj e).1 (by decide)

end Lrp
