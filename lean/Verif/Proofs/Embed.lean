import Verif.Proofs.Collections
import Verif.Proofs.Closure
import Verif.Model.Lalr

/-!
Maps that keep the order commute with everything lrp does to build tables.

`Keeps f`: `f` keeps the order.  `OutRel R`: two calls end in the same way, with results related by `R`.
-/

set_option linter.unusedSectionVars false

namespace Lrp

/-- The map keeps the order. -/
def KeepsOrder {α β : Type} [LinOrd α] [LinOrd β] (f : α → β) : Prop := ∀ a b, cmp (f a) (f b) = cmp a b

section Keep
variable {α β : Type} [LinOrd α] [LinOrd β] {f : α → β}

theorem KeepsOrder.inj (h : KeepsOrder f) {a b : α} (e : f a = f b) : a = b := by
  rw [← LinOrd.cmp_eq, ← h, e]
  exact LinOrd.cmp_eq.mpr rfl

theorem KeepsOrder.eq_iff (h : KeepsOrder f) {a b : α} : f a = f b ↔ a = b := ⟨h.inj, fun e => e ▸ rfl⟩

theorem KeepsOrder.list (h : KeepsOrder f) : KeepsOrder (List.map f) := by
  intro a
  induction a with
  | nil => intro b; cases b <;> rfl
  | cons x xs ih =>
    intro b
    cases b with
    | nil => rfl
    | cons y ys =>
      show listCmp _ _ = listCmp _ _
      simp only [List.map_cons, listCmp, h x y]
      cases cmp x y <;> simp only
      exact ih ys

theorem KeepsOrder.sorted (h : KeepsOrder f) {s : OSet α} (hs : OSet.Sorted s) : OSet.Sorted (s.map f) := by
  unfold OSet.Sorted at *
  rw [List.pairwise_map]
  exact hs.imp (fun {a b} e => by rw [h]; exact e)

theorem KeepsOrder.insert (h : KeepsOrder f) (x : α) (s : OSet α) :
    (OSet.insert x s).map f = OSet.insert (f x) (s.map f) := by
  induction s with
  | nil => rfl
  | cons y ys ih =>
    simp only [OSet.insert, List.map_cons, h x y]
    cases cmp x y <;> simp [ih]

theorem KeepsOrder.extend (h : KeepsOrder f) (xs : List α) (s : OSet α) :
    (OSet.extend s xs).map f = OSet.extend (s.map f) (xs.map f) := by
  induction xs generalizing s with
  | nil => rfl
  | cons x xs ih =>
    show (OSet.extend (OSet.insert x s) xs).map f = OSet.extend (OSet.insert (f x) (s.map f)) (xs.map f)
    rw [ih, h.insert]

theorem KeepsOrder.ofList (h : KeepsOrder f) (xs : List α) : (OSet.ofList xs).map f = OSet.ofList (xs.map f) :=
  h.extend xs []

theorem KeepsOrder.remove [DecidableEq α] [DecidableEq β] (h : KeepsOrder f) (x : α) (s : OSet α) :
    (OSet.remove x s).map f = OSet.remove (f x) (s.map f) := by
  unfold OSet.remove
  rw [List.filter_map]
  congr 1
  refine List.filter_congr (fun y _ => ?_)
  simp [h.eq_iff]

end Keep

section KeepMap
variable {κ κ' ν ν' : Type} [LinOrd κ] [LinOrd κ'] {f : κ → κ'} {v : ν → ν'}

theorem KeepsOrder.get? (h : KeepsOrder f) (v : ν → ν') (m : OMap κ ν) (k : κ) :
    OMap.get? (m.map (Prod.map f v)) (f k) = (OMap.get? m k).map v := by
  induction m with
  | nil => rfl
  | cons e m ih =>
    obtain ⟨k', w⟩ := e
    simp only [List.map_cons, Prod.map, OMap.get?, h k k']
    split
    · rfl
    · exact ih

theorem KeepsOrder.contains (h : KeepsOrder f) (v : ν → ν') (m : OMap κ ν) (k : κ) :
    OMap.contains (m.map (Prod.map f v)) (f k) = OMap.contains m k := by
  unfold OMap.contains
  rw [h.get?]
  cases OMap.get? m k <;> rfl

theorem KeepsOrder.insertM (h : KeepsOrder f) (v : ν → ν') (m : OMap κ ν) (k : κ) (x : ν) :
    (OMap.insert k x m).map (Prod.map f v) = OMap.insert (f k) (v x) (m.map (Prod.map f v)) := by
  induction m with
  | nil => rfl
  | cons e m ih =>
    obtain ⟨k', w⟩ := e
    simp only [OMap.insert, List.map_cons, Prod.map, h k k']
    cases cmp k k' <;> simp [ih]

theorem KeepsOrder.removeM [DecidableEq κ] [DecidableEq κ'] (h : KeepsOrder f) (v : ν → ν') (m : OMap κ ν) (k : κ) :
    (OMap.remove k m).map (Prod.map f v) = OMap.remove (f k) (m.map (Prod.map f v)) := by
  unfold OMap.remove
  rw [List.filter_map]
  congr 1
  refine List.filter_congr (fun y _ => ?_)
  simp [h.eq_iff]

theorem KeepsOrder.foldM (h : KeepsOrder f) (v : ν → ν') (es : List (κ × ν)) (m : OMap κ ν) :
    (es.foldl (fun m e => OMap.insert e.1 e.2 m) m).map (Prod.map f v) =
      (es.map (Prod.map f v)).foldl (fun m e => OMap.insert e.1 e.2 m) (m.map (Prod.map f v)) := by
  induction es generalizing m with
  | nil => rfl
  | cons e es ih =>
    simp only [List.foldl_cons, List.map_cons]
    rw [ih, h.insertM]
    rfl

theorem KeepsOrder.ofListM (h : KeepsOrder f) (v : ν → ν') (es : List (κ × ν)) :
    (OMap.ofList es).map (Prod.map f v) = OMap.ofList (es.map (Prod.map f v)) := h.foldM v es []

end KeepMap

/-- Two calls end in the same way, with related results. -/
inductive OutRel {α β : Type} (R : α → β → Prop) : Out α → Out β → Prop
  | ok {a : α} {b : β} : R a b → OutRel R (.ok a) (.ok b)
  | panic (p : Panic) : OutRel R (.panic p) (.panic p)
  | fuel : OutRel R .fuel .fuel

namespace OutRel
variable {α β γ δ : Type} {R : α → β → Prop} {Q : γ → δ → Prop}

theorem bind {x : Out α} {y : Out β} {k : α → Out γ} {l : β → Out δ} (h : OutRel R x y)
    (hk : ∀ a b, R a b → OutRel Q (k a) (l b)) : OutRel Q (x >>= k) (y >>= l) := by
  cases h with
  | ok h => exact hk _ _ h
  | panic p => exact .panic p
  | fuel => exact .fuel

theorem mono {R' : α → β → Prop} {x : Out α} {y : Out β} (h : OutRel R x y) (hr : ∀ a b, R a b → R' a b) :
    OutRel R' x y := by
  cases h with
  | ok h => exact .ok (hr _ _ h)
  | panic p => exact .panic p
  | fuel => exact .fuel

theorem ofOption {v : α → β} (p : Panic) {o : Option α} {o' : Option β} (h : o' = o.map v) :
    OutRel (fun a b => b = v a) (Out.ofOption p o) (Out.ofOption p o') := by
  subst h
  cases o with
  | none => exact .panic p
  | some a => exact .ok rfl

theorem assert (p : Panic) {b b' : Bool} (h : b' = b) :
    OutRel (fun _ _ => True) (Out.assert p b) (Out.assert p b') := by
  subst h
  cases b'
  · exact .panic p
  · exact .ok trivial

theorem foldlM {ε ζ : Type} {v : ε → ζ} {k : α → ε → Out α} {l : β → ζ → Out β} {xs : List ε}
    (h : ∀ a b, R a b → ∀ x ∈ xs, OutRel R (k a x) (l b (v x))) {a : α} {b : β} (hab : R a b) :
    OutRel R (xs.foldlM k a) ((xs.map v).foldlM l b) := by
  induction xs generalizing a b with
  | nil => exact .ok hab
  | cons x xs ih =>
    simp only [List.foldlM_cons, List.map_cons]
    exact (h a b hab x (by simp)).bind
      (fun a b hab => ih (fun a b hab x hx => h a b hab x (List.mem_cons_of_mem _ hx)) hab)

theorem mapM {ε ζ : Type} {v : ε → ζ} {w : α → β} {k : ε → Out α} {l : ζ → Out β} {xs : List ε}
    (h : ∀ x ∈ xs, OutRel (fun a b => b = w a) (k x) (l (v x))) :
    OutRel (fun a b => b = a.map w) (xs.mapM k) ((xs.map v).mapM l) := by
  induction xs with
  | nil => exact .ok rfl
  | cons x xs ih =>
    simp only [List.mapM_cons, List.map_cons]
    refine (h x (by simp)).bind (fun a b e => ?_)
    refine (ih (fun x hx => h x (List.mem_cons_of_mem _ hx))).bind (fun as bs es => ?_)
    subst e es
    exact .ok rfl

theorem transitive [DecidableEq α] [DecidableEq β] {v : α → β} (hv : ∀ a b, v a = v b → a = b)
    {k : α → Out α} {l : β → Out β} (h : ∀ a, OutRel (fun a b => b = v a) (k a) (l (v a))) (n : Nat) (a : α) :
    OutRel (fun a b => b = v a) (Lrp.transitive k n a) (Lrp.transitive l n (v a)) := by
  induction n generalizing a with
  | zero => exact .fuel
  | succ n ih =>
    simp only [Lrp.transitive]
    refine (h a).bind (fun a' b' e => ?_)
    subst e
    by_cases e : a' = a
    · subst e
      simp only [↓reduceIte]
      exact .ok rfl
    · rw [if_neg e, if_neg (fun e' => e (hv _ _ e'))]
      exact ih a'

theorem of_ok {x : Out α} {y : Out β} (h : OutRel R x y) {a : α} (hx : x = .ok a) : ∃ b, y = .ok b ∧ R a b := by
  subst hx
  cases h with
  | ok h => exact ⟨_, rfl, h⟩

end OutRel

/-! ### Positions and states -/

section Pos
variable {T U : Type} [LinOrd T] [DecidableEq T] [LinOrd U] [DecidableEq U]

/-- A production with its symbols renamed, and its number raised. -/
def seqMap (f : T → U) (c : T → List T → Nat) (A : T) (p : Production T) : Production U :=
  (p.1.map f, p.2 + c A p.1)

/-- A position with its symbols renamed, and the number of its production raised. -/
def posMap (f : T → U) (c : T → List T → Nat) (p : Position T) : Position U :=
  { rule := f p.rule, seq := seqMap f c p.rule p.seq, point := p.point, look := p.look.map f }

/-- An action with its symbols renamed, and the number of its production raised. -/
def actMap (f : T → U) (c : T → List T → Nat) : Action T → Action U
  | .shift n => .shift n
  | .goto n => .goto n
  | .acc => .acc
  | .reduce A p => .reduce (f A) (seqMap f c A p)
  | .conflict a b => .conflict (actMap f c a) (actMap f c b)

variable {f : T → U} (c : T → List T → Nat)

theorem KeepsOrder.pos (hf : KeepsOrder f) : KeepsOrder (posMap f c) := by
  intro p q
  show pairCmp _ _ = pairCmp _ _
  simp only [pairCmp, posMap, hf p.rule q.rule]
  cases hr : cmp p.rule q.rule <;> simp only
  rw [LinOrd.cmp_eq] at hr
  have e1 : cmp (seqMap f c p.rule p.seq) (seqMap f c q.rule q.seq) = cmp p.seq q.seq := by
    show pairCmp _ _ = pairCmp _ _
    simp only [pairCmp, seqMap, hf.list p.seq.1 q.seq.1]
    cases hb : cmp p.seq.1 q.seq.1 <;> simp only
    rw [LinOrd.cmp_eq] at hb
    rw [hr, hb]
    show natCmp _ _ = natCmp _ _
    unfold natCmp
    by_cases h1 : p.seq.2 < q.seq.2
    · rw [if_pos h1, if_pos (by omega)]
    · rw [if_neg h1, if_neg (by omega)]
      by_cases h2 : p.seq.2 = q.seq.2
      · rw [if_pos h2, if_pos (by omega)]
      · rw [if_neg h2, if_neg (by omega)]
  have e2 : cmp (p.look.map f) (q.look.map f) = cmp p.look q.look := hf.list _ _
  have e : ∀ (a a' : Production T × Nat × OSet T) (b b' : Production U × Nat × OSet U),
      cmp b.1 b'.1 = cmp a.1 a'.1 → b.2.1 = a.2.1 → b'.2.1 = a'.2.1 → cmp b.2.2 b'.2.2 = cmp a.2.2 a'.2.2 →
      cmp b b' = cmp a a' := by
    intro a a' b b' h1 h2 h3 h4
    show pairCmp _ _ = pairCmp _ _
    unfold pairCmp
    rw [h1]
    cases cmp a.1 a'.1 <;> simp only
    show pairCmp _ _ = pairCmp _ _
    unfold pairCmp
    rw [h2, h3, h4]
  exact e (p.seq, p.point, p.look) (q.seq, q.point, q.look) _ _ e1 rfl rfl e2

variable {c}

theorem seqMap_inj (hf : KeepsOrder f) {A : T} {p q : Production T} (e : seqMap f c A p = seqMap f c A q) : p = q := by
  obtain ⟨b, i⟩ := p
  obtain ⟨b', i'⟩ := q
  simp only [seqMap, Prod.mk.injEq] at e
  have := hf.list.inj e.1
  subst this
  simp only [Prod.mk.injEq, true_and]
  omega

theorem actMap_inj (hf : KeepsOrder f) {a b : Action T} (e : actMap f c a = actMap f c b) : a = b := by
  induction a generalizing b with
  | shift n => cases b <;> simp_all [actMap]
  | goto n => cases b <;> simp_all [actMap]
  | acc => cases b <;> simp_all [actMap]
  | reduce A p =>
    cases b <;> simp only [actMap, Action.reduce.injEq, reduceCtorEq] at e
    have := hf.inj e.1
    subst this
    rw [seqMap_inj hf e.2]
  | conflict a a' ih1 ih2 =>
    cases b <;> simp only [actMap, Action.conflict.injEq, reduceCtorEq] at e
    rw [ih1 e.1, ih2 e.2]

theorem posMap_peek (p : Position T) (i : Nat) : (posMap f c p).peek i = (p.peek i).map f := by
  simp [Position.peek, posMap, seqMap]

theorem posMap_top (p : Position T) : (posMap f c p).top = p.top.map f := posMap_peek p 0
theorem posMap_next (p : Position T) : (posMap f c p).next = p.next.map f := posMap_peek p 1

theorem posMap_cloneNext (p : Position T) : (posMap f c p).cloneNext = p.cloneNext.map (posMap f c) := by
  unfold Position.cloneNext
  have : (posMap f c p).finished = p.finished := by simp [Position.finished, posMap, seqMap]
  rw [this]
  split <;> rfl

theorem symFilter_map (hf : KeepsOrder f) (s : State T) (x : T) :
    Tabler.symFilter (s.map (posMap f c)) (f x) = (Tabler.symFilter s x).map (posMap f c) := by
  unfold Tabler.symFilter
  rw [(hf.pos c).ofList]
  congr 1
  rw [List.filterMap_map, List.map_filterMap]
  refine congrArg (fun k => s.filterMap k) (funext (fun p => ?_))
  simp only [Function.comp_apply, posMap_top, posMap_cloneNext]
  have : (p.top.map f = some (f x)) ↔ p.top = some x := by
    cases p.top <;> simp [hf.eq_iff]
  by_cases h : p.top = some x
  · rw [if_pos h, if_pos (this.mpr h)]
  · rw [if_neg h, if_neg (fun e => h (this.mp e))]; rfl

theorem noLook_map (p : Position T) : (posMap f c p).noLook = posMap f c p.noLook := rfl

theorem withoutLook_map (hf : KeepsOrder f) (s : State T) :
    Lalr.withoutLook (s.map (posMap f c)) = (Lalr.withoutLook s).map (posMap f c) := by
  unfold Lalr.withoutLook
  rw [(hf.pos c).ofList, List.map_map, List.map_map]
  rfl

theorem bodyEq_map (hf : KeepsOrder f) (p q : Position T) :
    (posMap f c p).bodyEq (posMap f c q) = p.bodyEq q := by
  unfold Position.bodyEq
  rw [Bool.eq_iff_iff]
  simp only [Bool.and_eq_true, decide_eq_true_eq]
  constructor
  · rintro ⟨⟨h1, h2⟩, h3⟩
    have h3 := hf.inj h3
    refine ⟨⟨h1, ?_⟩, h3⟩
    simp only [posMap, h3] at h2
    exact seqMap_inj hf h2
  · rintro ⟨⟨h1, h2⟩, h3⟩
    exact ⟨⟨h1, by simp only [posMap, h2, h3]⟩, by simp only [posMap, h3]⟩

theorem mergeOne_map (hf : KeepsOrder f) (s : State T) (p : Position T) :
    mergeOne (s.map (posMap f c)) (posMap f c p) = (mergeOne s p).map (posMap f c) := by
  unfold mergeOne
  have e : (s.map (posMap f c)).find? (fun key => key.bodyEq (posMap f c p)) =
      (s.find? (fun key => key.bodyEq p)).map (posMap f c) := by
    rw [List.find?_map]
    refine congrArg (fun k => (s.find? k).map (posMap f c)) (funext (fun q => ?_))
    exact bodyEq_map hf q p
  rw [e]
  cases s.find? (fun key => key.bodyEq p) with
  | none => exact ((hf.pos c).insert p s).symm
  | some key =>
    simp only [Option.map_some]
    rw [(hf.pos c).insert, (hf.pos c).remove]
    congr 1
    simp only [posMap, hf.extend]

theorem merged_map (hf : KeepsOrder f) (s : State T) :
    merged (s.map (posMap f c)) = (merged s).map (posMap f c) := by
  unfold merged
  suffices ∀ acc : State T, (s.map (posMap f c)).foldl mergeOne (acc.map (posMap f c)) =
      (s.foldl mergeOne acc).map (posMap f c) from this []
  induction s with
  | nil => intro acc; rfl
  | cons p s ih =>
    intro acc
    simp only [List.map_cons, List.foldl_cons]
    rw [mergeOne_map hf, ih]

end Pos

end Lrp
