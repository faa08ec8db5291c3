import Verif.Spec.Fewer
import Verif.Spec.Run
import Verif.Proofs.Fewer
import Verif.Proofs.Folding
import Verif.Proofs.Ll1
import Verif.Proofs.Power

/-! The constructions of Clr and Lalr look only at what can be reached: rules that cannot be used change no table. -/

set_option linter.unusedSectionVars false

namespace Lrp
open Spec
variable {T : Type} [LinOrd T] [DecidableEq T]

/-! ### FIRST -/

section First
variable {D D' : Decls T} {S : T} (h : SameReachable D' D S)
include h

theorem reachable_iter {X X' : T → T → Prop} (hr : ∀ A x, Reachable D S A → X A x → Reachable D S x)
    (hX : ∀ A x, Reachable D S A → (X' A x ↔ X A x)) (k : Nat) :
    (∀ A x, Reachable D S A → Doubling.iter (Terminal D) X k A x → Reachable D S x) ∧
    ∀ A x, Reachable D S A → (Doubling.iter (Terminal D') X' k A x ↔ Doubling.iter (Terminal D) X k A x) := by
  induction k with
  | zero => exact ⟨hr, hX⟩
  | succ k ih =>
    obtain ⟨i1, i2⟩ := ih
    constructor
    · rintro A x hA ⟨_, y, h1, ⟨_, rfl⟩ | ⟨_, h2⟩⟩
      · exact i1 A _ hA h1
      · exact i1 y x (i1 A y hA h1) h2
    · intro A x hA
      constructor
      · rintro ⟨hne, y, h1, h2⟩
        have h1 := (i2 A y hA).mp h1
        have hy := i1 A y hA h1
        refine ⟨hne, y, h1, ?_⟩
        rw [reachable_terminal h hy, i2 y x hy] at h2
        exact h2
      · rintro ⟨hne, y, h1, h2⟩
        have hy := i1 A y hA h1
        refine ⟨hne, y, (i2 A y hA).mpr h1, ?_⟩
        rw [reachable_terminal h hy, i2 y x hy]
        exact h2

omit h in
theorem iter_add {term : T → Prop} {X : T → T → Prop} {k : Nat}
    (hf : Doubling.step term (Doubling.iter term X k) = Doubling.iter term X k) (j : Nat) :
    Doubling.iter term X (k + j) = Doubling.iter term X k := by
  induction j with
  | zero => rfl
  | succ j ih =>
    show Doubling.step term (Doubling.iter term X (k + j)) = _
    rw [ih, hf]

omit h in
theorem first_iter {g : Grammar T} {S eof : T} (hg : g.Of D S eof) {X Y : Table T} {n : Nat} (hX : Tabler.FirstTable D X)
    (h : transitive (Tabler.firstStep g) n X = .ok Y) :
    ∃ k, ∀ j, Tabler.Has Y = Doubling.iter (Terminal D) (Tabler.Has X) (k + j) := by
  obtain ⟨k, _, _, h1, h2⟩ := transitive_ok_iff.mp h
  obtain ⟨_, h4⟩ := Tabler.orbit_iter hX (fun X hX => Tabler.firstStep_spec hg hX) h1
  obtain ⟨_, h6⟩ := Tabler.orbit_iter hX (fun X hX => Tabler.firstStep_spec hg hX) (.succ h1 h2)
  refine ⟨k, fun j => ?_⟩
  rw [iter_add (h6.symm.trans h4) j, h4]

theorem reachable_first {eof eof' : T} {g g' : Grammar T} {dbg dbg' : Bool} {n n' : Nat} {t t' : Tabler T}
    (hg : g.Of D S eof) (hg' : g'.Of D' S eof') (ht : Tabler.new dbg n g = .ok t)
    (ht' : Tabler.new dbg' n' g' = .ok t') {A : T} (hA : Reachable D S A) : t'.first.get? A = t.first.get? A := by
  have ho := Tabler.of_new hg ht
  have ho' := Tabler.of_new hg' ht'
  obtain ⟨X, _, h1, h2, _⟩ := Tabler.new_ok ht
  obtain ⟨X', _, h1', h2', _⟩ := Tabler.new_ok ht'
  obtain ⟨a1, a2⟩ := Tabler.genFirst_spec hg h1
  obtain ⟨a1', a2'⟩ := Tabler.genFirst_spec hg' h1'
  obtain ⟨k, hk⟩ := first_iter hg a1 (Tabler.procFirst_fix h2).1
  obtain ⟨k', hk'⟩ := first_iter hg' a1' (Tabler.procFirst_fix h2').1
  have key := reachable_iter h (X := Tabler.Has X) (X' := Tabler.Has X') (by
    intro A x hA hx
    obtain ⟨_, i, b, hp⟩ := (a2 A x).mp hx
    exact Reachable.left hA hp) (by
    intro A x hA
    rw [a2, a2']
    unfold Tabler.LeftEdge
    simp only [(h A hA).2]) (k + k')
  have hh : ∀ x, Tabler.Has t'.first A x ↔ Tabler.Has t.first A x := by
    intro x
    rw [hk k', hk' k, Nat.add_comm k' k]
    exact key.2 A x hA
  by_cases hn : Nonterminal D A
  · obtain ⟨s, hs⟩ := (ho.firstT.keys A).mpr hn
    obtain ⟨s', hs'⟩ := (ho'.firstT.keys A).mpr ((h A hA).1.mpr hn)
    rw [hs, hs']
    congr 1
    refine OSet.ext (ho'.firstT.sets A s' hs') (ho.firstT.sets A s hs) (fun x => ?_)
    simpa [Tabler.Has, hs, hs'] using hh x
  · have : ∀ {D : Decls T} {t : Tabler T}, Tabler.FirstTable D t.first → ¬ Nonterminal D A → t.first.get? A = none := by
      intro D t h1 h2
      cases hs : t.first.get? A with
      | none => rfl
      | some s => exact absurd ((h1.keys A).mp ⟨s, hs⟩) h2
    rw [this ho.firstT hn, this ho'.firstT (fun e => hn ((h A hA).1.mp e))]

end First

/-! ### Two tables that agree on what can be reached -/

/-- The symbols of the bodies of all items are in `U`. -/
def InBodies (U : T → Prop) (s : State T) : Prop := ∀ p ∈ s, ∀ x ∈ p.seq.1, U x

/-- Two lists that agree on the symbols in `U`. -/
inductive Skim (U : T → Prop) : List T → List T → Prop
  | nil : Skim U [] []
  | left {x : T} {a b : List T} : ¬ U x → Skim U a b → Skim U (x :: a) b
  | right {x : T} {a b : List T} : ¬ U x → Skim U a b → Skim U a (x :: b)
  | both {x : T} {a b : List T} : Skim U a b → Skim U (x :: a) (x :: b)

/-- Two tables with the same states so far, which agree on the symbols in `U`. -/
structure Twin (U : T → Prop) (t t' : Tabler T) : Prop where
  states : t'.states = t.states
  kernels : t'.kernels = t.kernels
  actions : t'.actions = t.actions
  basis : t'.grammar.basis = t.grammar.basis
  start : ∀ x ∈ t.grammar.basis.seq.1, U x
  rules : ∀ A, U A → t'.grammar.rules.get? A = t.grammar.rules.get? A
  closed : ∀ A r, U A → t.grammar.rules.get? A = some r → ∀ p ∈ r.prods, ∀ x ∈ p.1, U x
  first : ∀ A, U A → t'.first.get? A = t.first.get? A
  within : ∀ s ∈ t.states, InBodies U s
  syms : Skim U t.grammar.symbols t'.grammar.symbols

theorem skim_of_sorted {U : T → Prop} {a b : List T} (ha : OSet.Sorted a) (hb : OSet.Sorted b)
    (h : ∀ x, U x → (x ∈ a ↔ x ∈ b)) : Skim U a b := by
  induction hn : a.length + b.length using Nat.strongRecOn generalizing a b with
  | ind n ih =>
    subst hn
    cases a with
    | nil =>
      cases b with
      | nil => exact .nil
      | cons y b =>
        have hy : ¬ U y := fun e => by simpa using (h y e).mpr (by simp)
        refine .right hy (ih _ (by simp) ha hb.tail (fun x hx => ?_) rfl)
        rw [h x hx, List.mem_cons]
        exact ⟨fun e => e.resolve_left (fun e => hy (e ▸ hx)), .inr⟩
    | cons x a =>
      by_cases hx : U x
      · cases b with
        | nil => simpa using (h x hx).mp (by simp)
        | cons y b =>
          by_cases hy : U y
          · have e : x = y := by
              have h1 := (h x hx).mp (by simp)
              have h2 := (h y hy).mpr (by simp)
              rcases List.mem_cons.mp h1 with h1 | h1
              · exact h1
              · rcases List.mem_cons.mp h2 with h2 | h2
                · exact h2.symm
                · have l1 := (List.pairwise_cons.mp ha).1 y h2
                  have l2 := (List.pairwise_cons.mp hb).1 x h1
                  exact (LinOrd.cmp_lt_irrefl (LinOrd.cmp_trans l1 l2)).elim
            subst e
            refine .both (ih _ (by simp; omega) ha.tail hb.tail (fun z hz => ?_) rfl)
            have := h z hz
            have n1 : z = x → (z ∉ a ∧ z ∉ b) := by
              rintro rfl
              exact ⟨fun e => LinOrd.cmp_lt_irrefl ((List.pairwise_cons.mp ha).1 z e),
                fun e => LinOrd.cmp_lt_irrefl ((List.pairwise_cons.mp hb).1 z e)⟩
            by_cases e : z = x
            · simp [n1 e]
            · simpa [e] using this
          · refine .right hy (ih _ (by simp) ha hb.tail (fun z hz => ?_) rfl)
            rw [h z hz, List.mem_cons]
            exact ⟨fun e => e.resolve_left (fun e => hy (e ▸ hz)), .inr⟩
      · refine .left hx (ih _ (by simp) ha.tail hb (fun z hz => ?_) rfl)
        rw [← h z hz, List.mem_cons]
        exact ⟨.inr, fun e => e.resolve_left (fun e => hx (e ▸ hz))⟩

section Twin
variable {U : T → Prop} {t t' : Tabler T}

theorem foldl_same {α β : Type} {f g : β → α → β} {l : List α} (h : ∀ b, ∀ a ∈ l, f b a = g b a) (b : β) :
    l.foldl f b = l.foldl g b := by
  induction l generalizing b with
  | nil => rfl
  | cons a l ih =>
    rw [List.foldl_cons, List.foldl_cons, h b a (by simp)]
    exact ih (fun b a ha => h b a (by simp [ha])) _

theorem foldlM_same {α β : Type} {f g : β → α → Out β} {l : List α} (h : ∀ b, ∀ a ∈ l, f b a = g b a) (b : β) :
    l.foldlM f b = l.foldlM g b := by
  induction l generalizing b with
  | nil => rfl
  | cons a l ih =>
    rw [List.foldlM_cons, List.foldlM_cons, h b a (by simp)]
    congr 1
    funext b
    exact ih (fun b a ha => h b a (by simp [ha])) _

theorem mapM_same {α β : Type} {f g : α → Out β} {l : List α} (h : ∀ a ∈ l, f a = g a) : l.mapM f = l.mapM g := by
  induction l with
  | nil => rfl
  | cons a l ih => rw [List.mapM_cons, List.mapM_cons, h a (by simp), ih (fun a ha => h a (by simp [ha]))]

theorem Position.top_mem {p : Position T} {x : T} (h : p.top = some x) : x ∈ p.seq.1 := List.mem_of_getElem? h
theorem Position.next_mem {p : Position T} {x : T} (h : p.next = some x) : x ∈ p.seq.1 := List.mem_of_getElem? h

theorem Twin.look (h : Twin U t t') {p : Position T} (hp : ∀ x ∈ p.seq.1, U x) :
    Clr.closureLook t' p = Clr.closureLook t p := by
  unfold Clr.closureLook
  cases hx : p.next with
  | none => rfl
  | some x =>
    have := h.first x (hp x (Position.next_mem hx))
    simp [Tabler.firstOf, OSet.ofList, OSet.extend, OSet.insert, this]

theorem Twin.closure (h : Twin U t t') {s : State T} (hs : InBodies U s) :
    Clr.closure t' s = Clr.closure t s ∧ InBodies U (Clr.closure t s) := by
  constructor
  · unfold Clr.closure
    show OSet.extend _ _ = OSet.extend _ _
    congr 1
    refine foldl_same (fun acc p hp => ?_) _
    cases hx : p.top with
    | none => rfl
    | some x =>
      simp only [h.rules x (hs p hp x (Position.top_mem hx)), h.look (hs p hp)]
  · unfold Clr.closure
    intro p hp
    rw [OSet.mem_extend] at hp
    rcases hp with hp | hp
    · revert p
      refine foldl_inv (P := fun acc : State T => ∀ p ∈ acc, ∀ x ∈ p.seq.1, U x) (by simp) ?_
      intro acc q hq hacc
      cases hx : q.top with
      | none => exact hacc
      | some x =>
        simp only
        split
        · exact hacc
        · rename_i r hr
          refine foldl_inv (P := fun acc : State T => ∀ p ∈ acc, ∀ x ∈ p.seq.1, U x) hacc ?_
          intro acc pr hpr hacc p hp
          rw [OSet.mem_insert] at hp
          rcases hp with rfl | hp
          · exact h.closed x r (hs q hq x (Position.top_mem hx)) hr pr hpr
          · exact hacc p hp
    · exact hs p hp

theorem Twin.propClosure (h : Twin U t t') {s : State T} (hs : InBodies U s) (n : Nat) :
    propClosure Clr.closure n t' s = propClosure Clr.closure n t s ∧
      ∀ r, propClosure Clr.closure n t s = .ok r → InBodies U r := by
  unfold Lrp.propClosure
  constructor
  · induction n generalizing s with
    | zero => rfl
    | succ n ih =>
      obtain ⟨h1, h2⟩ := h.closure hs
      rw [transitive_succ, transitive_succ]
      simp only [h1, Out.ok_bind]
      rw [ih h2]
  · intro r hr
    refine (transitive_inv (P := InBodies U) hr hs ?_).1
    intro x y hx hy
    cases hy
    exact (h.closure hx).2

theorem symFilter_within {s : State T} (hs : InBodies U s) (x : T) : InBodies U (Tabler.symFilter s x) := by
  intro p hp
  unfold Tabler.symFilter at hp
  rw [OSet.mem_ofList, List.mem_filterMap] at hp
  obtain ⟨q, hq, h1⟩ := hp
  split at h1
  · unfold Position.cloneNext at h1
    split at h1
    · cases h1
    · cases h1; exact hs q hq
  · cases h1

theorem symFilter_none {s : State T} (hs : InBodies U s) {x : T} (hx : ¬ U x) : Tabler.symFilter s x = [] := by
  unfold Tabler.symFilter
  rw [List.filterMap_eq_nil_iff.mpr]
  · rfl
  · intro p hp
    rw [if_neg]
    exact fun e => hx (hs p hp x (Position.top_mem e))

theorem closure_nil (t : Tabler T) : Clr.closure t [] = [] := rfl

theorem propClosure_nil {t : Tabler T} {n : Nat} {r : State T} (h : propClosure Clr.closure n t [] = .ok r) : r = [] := by
  refine (transitive_inv (P := fun s => s = []) h rfl ?_).1
  rintro x y rfl hy
  cases hy
  exact closure_nil t

/-- Symbols that cannot be reached lead nowhere. -/
theorem goto_none {s : State T} (hs : InBodies U s) {x : T} (hx : ¬ U x) {n : Nat} {r}
    (h : goto Clr.closure n t s x = .ok r) : r = none := by
  unfold Lrp.goto at h
  simp only [symFilter_none hs hx] at h
  split at h
  · cases h; rfl
  · simp only [Out.bind_eq_ok] at h
    obtain ⟨c, h1, h2⟩ := h
    cases propClosure_nil h1
    cases h2
    rfl

/-- Both tables lead to the same place. -/
theorem Twin.goto (h : Twin U t t') {s : State T} (hs : InBodies U s) {x : T} {n n' : Nat} {r r'}
    (h1 : goto Clr.closure n t s x = .ok r) (h2 : goto Clr.closure n' t' s x = .ok r') :
    r' = r ∧ ∀ k c, r = some (k, c) → InBodies U k ∧ InBodies U c := by
  have hw := symFilter_within hs x
  unfold Lrp.goto at h1 h2
  rw [h.kernels] at h2
  simp only at h1 h2
  split at h1
  · rename_i hk
    rw [if_pos hk] at h2
    cases h1; cases h2
    exact ⟨rfl, by rintro k c h; cases h⟩
  · rename_i hk
    rw [if_neg hk] at h2
    simp only [Out.bind_eq_ok] at h1 h2
    obtain ⟨c, a1, a2⟩ := h1
    obtain ⟨c', b1, b2⟩ := h2
    have hc := (h.propClosure hw n).2 c a1
    rw [(h.propClosure hw n').1] at b1
    have e : c' = c := by
      have m1 : Lrp.propClosure Clr.closure (max n n') t (Tabler.symFilter s x) = .ok c :=
        (transitive_le (Nat.le_max_left _ _) _).ok a1
      have m2 : Lrp.propClosure Clr.closure (max n n') t (Tabler.symFilter s x) = .ok c' :=
        (transitive_le (Nat.le_max_right _ _) _).ok b1
      rw [m1] at m2; cases m2; rfl
    subst e
    cases a2; cases b2
    refine ⟨rfl, ?_⟩
    intro k c h
    split at h
    · cases h
    · cases h; exact ⟨hw, hc⟩

/-! ### Clr -/

theorem Twin.put (h : Twin U t t') {K : OMap (State T) Nat} {S : List (State T)} (hS : ∀ s ∈ S, InBodies U s) :
    Twin U { t with kernels := K, states := S } { t' with kernels := K, states := S } :=
  ⟨rfl, rfl, h.actions, h.basis, h.start, h.rules, h.closed, h.first, hS, h.syms⟩

theorem Twin.row (h : Twin U t t') (i : Nat) : InBodies U (t.states[i]?.getD []) := by
  cases hi : t.states[i]? with
  | none => intro p hp; simp at hp
  | some s => exact h.within s (List.mem_of_getElem? hi)

theorem Twin.more (h : Twin U t t') {c : State T} (hc : InBodies U c) : ∀ s ∈ t.states ++ [c], InBodies U s := by
  intro s hs
  rcases List.mem_append.mp hs with hs | hs
  · exact h.within s hs
  · rw [List.mem_singleton.mp hs]; exact hc

theorem procSym_none {dbg : Bool} {n i : Nat} {x : T} (hs : InBodies U (t.states[i]?.getD [])) (hx : ¬ U x)
    {r : Tabler T} (h : procSym Clr.closure dbg n i t x = .ok r) : r = t := by
  unfold procSym at h
  obtain ⟨o, h1, h2⟩ := Out.bind_eq_ok.mp h
  cases goto_none hs hx h1
  cases h2
  rfl

theorem Twin.procSym (h : Twin U t t') {dbg dbg' : Bool} {n n' i : Nat} {x : T} {r r' : Tabler T}
    (h1 : procSym Clr.closure dbg n i t x = .ok r) (h2 : procSym Clr.closure dbg' n' i t' x = .ok r') :
    Twin U r r' := by
  unfold Lrp.procSym at h1 h2
  obtain ⟨o, a1, a2⟩ := Out.bind_eq_ok.mp h1
  obtain ⟨o', b1, b2⟩ := Out.bind_eq_ok.mp h2
  rw [h.states] at b1
  obtain ⟨e, hw⟩ := h.goto (h.row i) a1 b1
  subst e
  cases o' with
  | none => cases a2; cases b2; exact h
  | some kc =>
    obtain ⟨k, c⟩ := kc
    simp only [Out.bind_eq_ok] at a2 b2
    obtain ⟨_, _, a2⟩ := a2
    obtain ⟨_, _, b2⟩ := b2
    cases a2; cases b2
    rw [h.states, h.kernels]
    exact h.put (h.more (hw k c rfl).2)

theorem Twin.procSyms (h : Twin U t t') {dbg dbg' : Bool} {n n' i : Nat} {l l' : List T} (hl : Skim U l l')
    {r r' : Tabler T} (h1 : l.foldlM (Lrp.procSym Clr.closure dbg n i) t = .ok r)
    (h2 : l'.foldlM (Lrp.procSym Clr.closure dbg' n' i) t' = .ok r') : Twin U r r' := by
  induction hl generalizing t t' with
  | nil => cases h1; cases h2; exact h
  | left hx _ ih =>
    rw [List.foldlM_cons] at h1
    obtain ⟨s, a1, a2⟩ := Out.bind_eq_ok.mp h1
    cases procSym_none (h.row i) hx a1
    exact ih h a2 h2
  | right hx _ ih =>
    rw [List.foldlM_cons] at h2
    obtain ⟨s, a1, a2⟩ := Out.bind_eq_ok.mp h2
    cases procSym_none (h.states.symm ▸ h.row i) hx a1
    exact ih h h1 a2
  | both _ ih =>
    rw [List.foldlM_cons] at h1 h2
    obtain ⟨s, a1, a2⟩ := Out.bind_eq_ok.mp h1
    obtain ⟨s', b1, b2⟩ := Out.bind_eq_ok.mp h2
    exact ih (h.procSym a1 b1) a2 b2

theorem Twin.procLoop (h : Twin U t t') {dbg dbg' : Bool} {c c' n n' i : Nat} {r r' : Tabler T}
    (h1 : procLoop Clr.closure dbg c n i t = .ok r) (h2 : procLoop Clr.closure dbg' c' n' i t' = .ok r') :
    Twin U r r' := by
  induction n generalizing n' i t t' with
  | zero => cases h1
  | succ n ih =>
    cases n' with
    | zero => cases h2
    | succ n' =>
      unfold Lrp.procLoop at h1 h2
      rw [h.states] at h2
      split at h1
      · rename_i hi
        rw [if_pos hi] at h2
        obtain ⟨s, a1, a2⟩ := Out.bind_eq_ok.mp h1
        obtain ⟨s', b1, b2⟩ := Out.bind_eq_ok.mp h2
        exact ih (h.procSyms h.syms a1 b1) a2 b2
      · rename_i hi
        rw [if_neg hi] at h2
        cases h1; cases h2; exact h

theorem Twin.seed (h : Twin U t t') : InBodies U (OSet.ofList [t.basisPos]) := by
  intro p hp
  rw [OSet.mem_ofList, List.mem_singleton] at hp
  subst hp
  exact h.start

/-- Both closures of a state are the same. -/
theorem Twin.sameClosure (h : Twin U t t') {s : State T} (hs : InBodies U s) {n n' : Nat} {c c' : State T}
    (h1 : Lrp.propClosure Clr.closure n t s = .ok c) (h2 : Lrp.propClosure Clr.closure n' t' s = .ok c') :
    c' = c ∧ InBodies U c := by
  rw [(h.propClosure hs n').1] at h2
  have m1 : Lrp.propClosure Clr.closure (max n n') t s = .ok c := (transitive_le (Nat.le_max_left _ _) _).ok h1
  have m2 : Lrp.propClosure Clr.closure (max n n') t s = .ok c' := (transitive_le (Nat.le_max_right _ _) _).ok h2
  rw [m1] at m2; cases m2
  exact ⟨rfl, (h.propClosure hs n).2 c h1⟩

theorem Twin.procClosures (h : Twin U t t') {dbg dbg' : Bool} {n n' : Nat} {r r' : Tabler T}
    (h1 : procClosures Clr.closure dbg n t = .ok r) (h2 : procClosures Clr.closure dbg' n' t' = .ok r') :
    Twin U r r' := by
  unfold Lrp.procClosures procClosuresFirstRow at h1 h2
  simp only [Out.bind_eq_ok] at h1 h2
  obtain ⟨s, ⟨c, a0, a1⟩, a2⟩ := h1
  obtain ⟨s', ⟨c', b0, b1⟩, b2⟩ := h2
  have e : t'.basisPos = t.basisPos := h.basis
  rw [e] at b0
  obtain ⟨rfl, hc⟩ := h.sameClosure h.seed a0 b0
  cases a1; cases b1
  rw [h.states, h.kernels] at b2
  exact (h.put (h.more hc)).procLoop a2 b2

/-- The same rows. -/
theorem Twin.procRows (h : Twin U t t') {d d' : Position T → State T → Out (OMap T (Action T))}
    (hd : ∀ row, InBodies U row → ∀ p ∈ row, d' p row = d p row) {r r' : Tabler T}
    (h1 : procRows d t = .ok r) (h2 : procRows d' t' = .ok r') :
    r'.states = r.states ∧ r'.kernels = r.kernels ∧ r'.actions = r.actions := by
  unfold Lrp.procRows at h1 h2
  obtain ⟨s, a1, a2⟩ := Out.bind_eq_ok.mp h1
  obtain ⟨s', b1, b2⟩ := Out.bind_eq_ok.mp h2
  have : t'.states.mapM (rowActions d') = t.states.mapM (rowActions d) := by
    rw [h.states]
    refine mapM_same (fun row hrow => ?_)
    unfold rowActions
    refine foldlM_same (fun m p hp => ?_) _
    rw [hd row (h.within row hrow) p hp]
  rw [this, a1] at b1
  cases b1; cases a2; cases b2
  exact ⟨h.states, h.kernels, by simp [h.actions]⟩

theorem Twin.shiftDecision (h : Twin U t t') {f f' : State T → Option Nat} (hf : ∀ s, f' s = f s) (row : State T)
    {x : T} (hx : U x) : shiftDecision t' f' row x = shiftDecision t f row x := by
  unfold Lrp.shiftDecision Grammar.isTerminal OMap.contains
  rw [hf, h.rules x hx]

theorem Twin.clr (h : Twin U t t') {dbg dbg' : Bool} {n n' : Nat} {r r' : Tabler T}
    (h1 : Clr.withTable dbg n t = .ok r) (h2 : Clr.withTable dbg' n' t' = .ok r') :
    r'.states = r.states ∧ r'.kernels = r.kernels ∧ r'.actions = r.actions := by
  unfold Clr.withTable at h1 h2
  obtain ⟨s, a1, a2⟩ := Out.bind_eq_ok.mp h1
  obtain ⟨s', b1, b2⟩ := Out.bind_eq_ok.mp h2
  have hs := h.procClosures a1 b1
  refine hs.procRows (fun row hrow p hp => ?_) a2 b2
  have e : s'.basisPos = s.basisPos := hs.basis
  unfold Clr.decision
  rw [e]
  cases hx : p.top with
  | none => rfl
  | some x =>
    exact hs.shiftDecision (fun k => by unfold stateFromKernel; rw [hs.kernels]) row
      (hrow p hp x (Position.top_mem hx))

/-! ### Lalr -/

/-- Two Lalr parsers under construction that agree on the symbols in `U`. -/
structure LTwin (U : T → Prop) (l l' : Lalr T) : Prop where
  table : Twin U l.table l'.table
  raws : l'.raws = l.raws
  vals : ∀ k v, l.raws.get? k = some v → InBodies U v

/-- The same call. -/
inductive CallTwin (U : T → Prop) : Lalr.Call T → Lalr.Call T → Prop
  | enter {main inc clo : State T} : InBodies U main → InBodies U inc → InBodies U clo →
      CallTwin U (.enter main inc clo) (.enter main inc clo)
  | loop {id : Nat} {k : State T} {a b : List T} : InBodies U k → Skim U a b →
      CallTwin U (.loop id k a) (.loop id k b)

theorem merged_within {l : List (Position T)} (h : ∀ p ∈ l, ∀ x ∈ p.seq.1, U x) : InBodies U (merged l) := by
  intro q hq
  obtain ⟨p, hp, hb⟩ := (merged_spec l).body q hq
  have := h p hp
  rw [hb.2.1] at this
  exact this

theorem union_within {a b : State T} (ha : InBodies U a) (hb : InBodies U b) :
    InBodies U (OSet.ofList (a ++ b)) := by
  intro p hp
  rw [OSet.mem_ofList, List.mem_append] at hp
  exact hp.elim (ha p) (hb p)

variable {l l' : Lalr T}

theorem LTwin.put (h : LTwin U l l') {K : OMap (State T) Nat} {S : List (State T)} {key val : State T}
    (hS : ∀ s ∈ S, InBodies U s) (hv : InBodies U val) :
    LTwin U { table := { l.table with kernels := K, states := S }, raws := OMap.insert key val l.raws }
      { table := { l'.table with kernels := K, states := S }, raws := OMap.insert key val l.raws } := by
  refine ⟨h.table.put hS, rfl, ?_⟩
  intro k v hk
  simp only [OMap.get?_insert] at hk
  split at hk
  · cases hk; exact hv
  · exact h.vals k v hk

theorem LTwin.updateState (h : LTwin U l l') {dbg dbg' : Bool} {main inc clo : State T} (hm : InBodies U main)
    (hi : InBodies U inc) (hc : InBodies U clo) {r r' : Lalr T × Option (State T)}
    (h1 : l.updateState dbg main inc clo = .ok r) (h2 : l'.updateState dbg' main inc clo = .ok r') :
    LTwin U r.1 r'.1 ∧ r'.2 = r.2 ∧ ∀ k, r.2 = some k → InBodies U k := by
  unfold Lalr.updateState at h1 h2
  rw [h.table.kernels, h.table.states, h.raws] at h2
  cases hk : l.table.kernels.get? main with
  | none =>
    simp only [hk] at h1 h2
    cases h1; cases h2
    exact ⟨h, rfl, by simp⟩
  | some id =>
    simp only [hk] at h1 h2
    split at h1
    · rename_i he
      rw [if_pos he] at h2
      cases h1; cases h2
      exact ⟨h, rfl, by simp⟩
    · rename_i he
      rw [if_neg he] at h2
      simp only [Out.bind_eq_ok, Out.ofOption_eq_ok] at h1 h2
      obtain ⟨old, a1, _, _, a2⟩ := h1
      obtain ⟨old', b1, _, _, b2⟩ := h2
      rw [a1] at b1
      cases b1; cases a2; cases b2
      have hn : InBodies U (merged (OSet.ofList (inc ++ main))) := merged_within (union_within hi hm)
      refine ⟨h.put ?_ hn, rfl, by rintro k e; cases e; exact hn⟩
      intro s hs
      rcases List.mem_or_eq_of_mem_set hs with hs | rfl
      · exact h.table.within s hs
      · exact merged_within (union_within (h.table.within old (List.mem_of_getElem? a1)) hc)

theorem LTwin.update {dbg dbg' : Bool} {c c' : Nat} (m : Nat) : ∀ {n n' : Nat} {l l' : Lalr T} {a a' : Lalr.Call T}
    {r r' : Lalr T × Option (State T)}, n + n' ≤ m → LTwin U l l' → CallTwin U a a' →
    Lalr.update dbg c n l a = .ok r → Lalr.update dbg' c' n' l' a' = .ok r' →
    LTwin U r.1 r'.1 ∧ r'.2 = r.2 ∧ ∀ k, r.2 = some k → InBodies U k := by
  induction m with
  | zero =>
    intro n n' l l' a a' r r' hm _ _ h1
    have : n = 0 := by omega
    subst this
    simp [Lalr.update] at h1
  | succ m ih =>
    intro n n' l l' a a' r r' hm h ha h1 h2
    cases n with
    | zero => simp [Lalr.update] at h1
    | succ n =>
    cases n' with
    | zero => simp [Lalr.update] at h2
    | succ n' =>
    cases ha with
    | @enter main inc clo hmn hi hc =>
      rw [Lalr.update] at h1 h2
      obtain ⟨⟨l1, o⟩, a1, a2⟩ := Out.bind_eq_ok.mp h1
      obtain ⟨⟨l1', o'⟩, b1, b2⟩ := Out.bind_eq_ok.mp h2
      obtain ⟨k1, k2, k3⟩ := h.updateState hmn hi hc a1 b1
      simp only at k1 k2 k3
      subst k2
      cases o' with
      | none => cases a2; cases b2; exact ⟨k1, rfl, by simp⟩
      | some nk =>
        simp only [Out.bind_eq_ok, Out.ofOption_eq_ok] at a2 b2
        obtain ⟨id, a2, a3⟩ := a2
        obtain ⟨id', b2, b3⟩ := b2
        rw [k1.table.kernels, a2] at b2
        cases b2
        exact ih (by omega) k1 (.loop (k3 nk rfl) k1.table.syms) a3 b3
    | @loop id k ss ss' hk hs =>
      cases hs with
      | nil =>
        rw [Lalr.update] at h1 h2
        cases h1; cases h2
        exact ⟨h, rfl, by rintro k' e; cases e; exact hk⟩
      | left hx hs =>
        rw [Lalr.update] at h1
        obtain ⟨o, a1, a2⟩ := Out.bind_eq_ok.mp h1
        cases goto_none hk hx a1
        exact ih (n := n) (n' := n' + 1) (by omega) h (.loop hk hs) a2 h2
      | right hx hs =>
        rw [Lalr.update] at h2
        obtain ⟨o, a1, a2⟩ := Out.bind_eq_ok.mp h2
        cases goto_none hk hx a1
        exact ih (n := n + 1) (n' := n') (by omega) h (.loop hk hs) h1 a2
      | @both x ss ss' hs =>
        rw [Lalr.update] at h1 h2
        obtain ⟨o, a1, a2⟩ := Out.bind_eq_ok.mp h1
        obtain ⟨o', b1, b2⟩ := Out.bind_eq_ok.mp h2
        obtain ⟨e, hw⟩ := h.table.goto hk a1 b1
        subst e
        cases o' with
        | none => exact ih (by omega) h (.loop hk hs) a2 b2
        | some kc =>
          obtain ⟨kn, cl⟩ := kc
          obtain ⟨w1, w2⟩ := hw kn cl rfl
          simp only [h.raws] at a2 b2
          cases hr : l.raws.get? (Lalr.withoutLook kn) with
          | none =>
            simp only [hr] at a2 b2
            exact ih (by omega) h (.loop hk hs) a2 b2
          | some mk =>
            simp only [hr, Out.bind_eq_ok] at a2 b2
            obtain ⟨⟨l1, o1⟩, a2, a3⟩ := a2
            obtain ⟨⟨l1', o1'⟩, b2, b3⟩ := b2
            obtain ⟨k1, k2, k3⟩ := ih (by omega) h (.enter (h.vals _ _ hr) w1 w2) a2 b2
            simp only at k1 k2 k3
            subst k2
            cases o1' with
            | none => exact ih (by omega) k1 (.loop hk hs) a3 b3
            | some nk =>
              simp only [Out.bind_eq_ok, Out.ofOption_eq_ok] at a3 b3
              obtain ⟨id1, a3, a4⟩ := a3
              obtain ⟨id1', b3, b4⟩ := b3
              rw [k1.table.kernels, a3] at b3
              cases b3
              split at a4
              · rename_i he
                rw [if_pos he] at b4
                exact ih (by omega) k1 (.loop (k3 nk rfl) k1.table.syms) a4 b4
              · rename_i he
                rw [if_neg he] at b4
                exact ih (by omega) k1 (.loop hk hs) a4 b4

theorem LTwin.gen {dbg dbg' : Bool} {c c' u u' : Nat} (m : Nat) : ∀ {n n' i : Nat} {l l' : Lalr T} {row : State T}
    {a a' : List T} {r r' : Lalr T}, n + n' ≤ m → LTwin U l l' → InBodies U row → Skim U a a' →
    Lalr.gen dbg c u n i row a l = .ok r → Lalr.gen dbg' c' u' n' i row a' l' = .ok r' → LTwin U r r' := by
  induction m with
  | zero =>
    intro n n' i l l' row a a' r r' hm _ _ _ h1
    have : n = 0 := by omega
    subst this
    simp [Lalr.gen] at h1
  | succ m ih =>
    intro n n' i l l' row a a' r r' hm h hw hs h1 h2
    cases n with
    | zero => simp [Lalr.gen] at h1
    | succ n =>
    cases n' with
    | zero => simp [Lalr.gen] at h2
    | succ n' =>
    cases hs with
    | nil =>
      rw [Lalr.gen] at h1 h2
      rw [h.table.states] at h2
      cases hi : l.table.states[i + 1]? with
      | none =>
        simp only [hi] at h1 h2
        cases h1; cases h2; exact h
      | some row' =>
        simp only [hi] at h1 h2
        exact ih (by omega) h (h.table.within row' (List.mem_of_getElem? hi)) h.table.syms h1 h2
    | left hx hs =>
      rw [Lalr.gen] at h1
      obtain ⟨o, a1, a2⟩ := Out.bind_eq_ok.mp h1
      cases goto_none hw hx a1
      exact ih (n := n) (n' := n' + 1) (by omega) h hw hs a2 h2
    | right hx hs =>
      rw [Lalr.gen] at h2
      obtain ⟨o, a1, a2⟩ := Out.bind_eq_ok.mp h2
      cases goto_none hw hx a1
      exact ih (n := n + 1) (n' := n') (by omega) h hw hs h1 a2
    | @both x ss ss' hs =>
      rw [Lalr.gen] at h1 h2
      obtain ⟨o, a1, a2⟩ := Out.bind_eq_ok.mp h1
      obtain ⟨o', b1, b2⟩ := Out.bind_eq_ok.mp h2
      obtain ⟨e, hgo⟩ := h.table.goto hw a1 b1
      subst e
      cases o' with
      | none => exact ih (by omega) h hw hs a2 b2
      | some kc =>
        obtain ⟨kn, cl⟩ := kc
        obtain ⟨w1, w2⟩ := hgo kn cl rfl
        simp only [h.raws] at a2 b2
        cases hr : l.raws.get? (Lalr.withoutLook kn) with
        | none =>
          simp only [hr, Out.bind_eq_ok] at a2 b2
          obtain ⟨_, _, a2⟩ := a2
          obtain ⟨_, _, b2⟩ := b2
          rw [h.table.states, h.table.kernels] at b2
          exact ih (by omega) (h.put (h.table.more w2) w1) hw hs a2 b2
        | some mk =>
          simp only [hr, Out.bind_eq_ok, Lalr.updateClosures] at a2 b2
          obtain ⟨⟨l1, o1⟩, a2, a3⟩ := a2
          obtain ⟨⟨l1', o1'⟩, b2, b3⟩ := b2
          obtain ⟨k1, k2, k3⟩ := LTwin.update (u + u') (Nat.le_refl _) h (.enter (h.vals _ _ hr) w1 w2) a2 b2
          simp only at k1 k2 k3
          subst k2
          cases o1' with
          | none => exact ih (by omega) k1 hw hs a3 b3
          | some nk =>
            simp only [Out.bind_eq_ok, Out.ofOption_eq_ok] at a3 b3
            obtain ⟨id1, a3, a4⟩ := a3
            obtain ⟨id1', b3, b4⟩ := b3
            rw [k1.table.kernels, a3] at b3
            cases b3
            split at a4
            · rename_i he
              rw [if_pos he, k1.table.states] at b4
              cases hi : l1.table.states[i]? with
              | none =>
                simp only [hi] at a4 b4
                cases a4; cases b4; exact k1
              | some row' =>
                simp only [hi] at a4 b4
                exact ih (by omega) k1 (k1.table.within row' (List.mem_of_getElem? hi)) k1.table.syms a4 b4
            · rename_i he
              rw [if_neg he] at b4
              exact ih (by omega) k1 hw hs a4 b4

theorem Twin.lalr (h : Twin U t t') {dbg dbg' : Bool} {n n' : Nat} {r r' : Lalr T}
    (h1 : Lalr.withTable dbg n t = .ok r) (h2 : Lalr.withTable dbg' n' t' = .ok r') :
    r'.table.states = r.table.states ∧ r'.table.kernels = r.table.kernels ∧ r'.table.actions = r.table.actions ∧
      r'.raws = r.raws := by
  unfold Lalr.withTable Lalr.procClosures Lalr.firstRow at h1 h2
  simp only [Out.bind_eq_ok] at h1 h2
  obtain ⟨s, ⟨f, ⟨c, a0, a1⟩, a2⟩, tb, a3, a4⟩ := h1
  obtain ⟨s', ⟨f', ⟨c', b0, b1⟩, b2⟩, tb', b3, b4⟩ := h2
  have e : t'.basisPos = t.basisPos := h.basis
  rw [e] at b0
  obtain ⟨rfl, hc⟩ := h.sameClosure h.seed a0 b0
  cases a1; cases b1; cases a4; cases b4
  have h0 : LTwin U ⟨t, []⟩ ⟨t', []⟩ := ⟨h, rfl, by simp⟩
  have h1 := h0.put (K := OMap.insert [] 0 t.kernels) (S := t.states ++ [c']) (key := []) (h.more hc) hc
  have hs : LTwin U s s' := by
    rw [h.states, h.kernels] at b2
    simp only at a2 b2
    cases hi : (t.states ++ [c'])[0]? with
    | none =>
      simp only [hi] at a2 b2
      cases a2; cases b2
      exact h1
    | some row =>
      simp only [hi] at a2 b2
      exact LTwin.gen (n + n') (Nat.le_refl _) h1 (h1.table.within row (List.mem_of_getElem? hi)) h1.table.syms a2 b2
  obtain ⟨k1, k2, k3⟩ := hs.table.procRows (fun row hrow p hp => by
    have e : s'.table.basisPos = s.table.basisPos := hs.table.basis
    unfold Lalr.decision
    rw [e]
    cases hx : p.top with
    | none => rfl
    | some x =>
      exact hs.table.shiftDecision (fun k => by
        unfold Lalr.stateFromKernel Lalr.finalKernel; rw [hs.table.kernels, hs.raws]) row
        (hrow p hp x (Position.top_mem hx))) a3 b3
  exact ⟨k1, k2, k3, hs.raws⟩

end Twin

/-! ### With and without rules that cannot be reached -/

section Declared
variable {D D' : Decls T} {S eof : T}

theorem Spec.Reachable.body {A : T} {i : Nat} {b : List T} (h : Reachable D S A) (hp : IsProd D A i b) :
    ∀ x ∈ b, Reachable D S x := by
  intro x hx
  obtain ⟨p, q, rfl⟩ := List.append_of_mem hx
  obtain ⟨u, v, h⟩ := h
  refine ⟨u ++ p, q ++ v, h.trans ?_⟩
  simpa using Derives.ctx (Derives.of_prod hp) u v

theorem Spec.Reachable.parent {x : T} (h : Reachable D S x) :
    x = S ∨ ∃ A i b, Reachable D S A ∧ IsProd D A i b ∧ x ∈ b := by
  obtain ⟨u, v, h⟩ := h
  have key : ∀ {a c : List T}, Derives D a c →
      (∀ y ∈ a, Reachable D S y ∧ (y = S ∨ ∃ A i b, Reachable D S A ∧ IsProd D A i b ∧ y ∈ b)) →
      ∀ y ∈ c, Reachable D S y ∧ (y = S ∨ ∃ A i b, Reachable D S A ∧ IsProd D A i b ∧ y ∈ b) := by
    intro a c hd
    induction hd with
    | refl => exact id
    | head s _ ih =>
      intro ha
      refine ih ?_
      cases s with
      | @mk u v A i b hp =>
        have hA := (ha A (by simp)).1
        intro y hy
        rcases List.mem_append.mp hy with hy | hy
        · rcases List.mem_append.mp hy with hy | hy
          · exact ha y (by simp [hy])
          · exact ⟨hA.body hp y hy, .inr ⟨A, i, b, hA, hp, hy⟩⟩
        · exact ha y (by simp [hy])
  exact (key h (by simpa using ⟨[], [], .refl _⟩) x (by simp)).2

theorem declared_nonterminal {A : T} {bs : List (List T)} (h : Declared D A bs) : Nonterminal D A := by
  obtain ⟨p, q, rfl, _⟩ := h
  exact ⟨(A, bs), by simp, rfl⟩

theorem symbols_sorted {dbg : Bool} {g : Grammar T} (h : Grammar.new dbg S (grammarMap D) eof = .ok g) :
    OSet.Sorted g.symbols := by
  rw [Grammar.new_eq] at h
  split at h
  · cases h
  · split at h
    · cases h
    · split at h
      · cases h
      · cases h; exact OSet.sorted_ofList _

theorem Spec.SameReachable.declared (h : SameReachable D' D S) {A : T} (hA : Reachable D S A) (bs : List (List T)) :
    Declared D' A bs ↔ Declared D A bs := by
  obtain ⟨h1, h2⟩ := h A hA
  have key : ∀ {bs bs' : List (List T)}, Declared D' A bs → Declared D A bs' → bs = bs' := by
    intro bs bs' d d'
    refine List.ext_getElem? (fun i => ?_)
    cases hi : bs[i]? with
    | some b =>
      obtain ⟨bs2, d2, e2⟩ := (h2 i b).mp ⟨bs, d, hi⟩
      cases d'.unique d2
      exact e2.symm
    | none =>
      cases hi' : bs'[i]? with
      | none => rfl
      | some b =>
        obtain ⟨bs2, d2, e2⟩ := (h2 i b).mpr ⟨bs', d', hi'⟩
        cases d.unique d2
        rw [hi] at e2; cases e2
  constructor
  · intro d
    obtain ⟨bs', d'⟩ := declared_of_nonterminal (h1.mp (declared_nonterminal d))
    exact key d d' ▸ d'
  · intro d
    obtain ⟨bs', d'⟩ := declared_of_nonterminal (h1.mpr (declared_nonterminal d))
    exact key d' d ▸ d'

theorem Spec.SameReachable.twin (h : SameReachable D' D S) {dbg dbg' : Bool} {g g' : Grammar T} {n n' : Nat}
    {t t' : Tabler T} (hg : Grammar.new dbg S (grammarMap D) eof = .ok g)
    (hg' : Grammar.new dbg' S (grammarMap D') eof = .ok g') (ht : Tabler.new dbg n g = .ok t)
    (ht' : Tabler.new dbg' n' g' = .ok t') : Twin (fun x => Reachable D S x) t t' := by
  have ho := Grammar.of_new hg
  have ho' := Grammar.of_new hg'
  obtain ⟨_, _, _, _, _, _, e0, e1, e2, e3⟩ := Tabler.new_ok ht
  obtain ⟨_, _, _, _, _, _, e0', e1', e2', e3'⟩ := Tabler.new_ok ht'
  have hS : Reachable D S S := ⟨[], [], .refl _⟩
  obtain ⟨b, hb, hbas⟩ := ho.basis
  obtain ⟨b', hb', hbas'⟩ := ho'.basis
  cases hb.unique (((h S hS).2 0 b').mp hb')
  have hrules : ∀ A, Reachable D S A → g'.rules.get? A = g.rules.get? A := by
    intro A hA
    refine Option.ext (fun r => ?_)
    rw [ho.get?, ho'.get?]
    simp only [h.declared hA]
  refine ⟨by rw [e2, e2'], by rw [e3, e3'], by rw [e1, e1'], by rw [e0, e0', hbas, hbas'], ?_, ?_, ?_, ?_, ?_, ?_⟩
  · rw [e0, hbas]
    exact hS.body hb
  · rw [e0, e0']
    exact hrules
  · rw [e0]
    intro A r hA hr p hp
    exact hA.body ((ho.prods hr p).mp hp)
  · intro A hA
    exact reachable_first h ho ho' ht ht' hA
  · rw [e2]; simp
  · rw [e0, e0']
    refine skim_of_sorted (symbols_sorted hg) (symbols_sorted hg') (fun x hx => ?_)
    have k1 : x ∈ g.symbols := by
      rcases hx.parent with rfl | ⟨A, i, c, _, hp, hc⟩
      · exact (ho.symbols _).mpr (.inl hb.nonterminal)
      · exact ho.mem_symbols hp hc
    have k2 : x ∈ g'.symbols := by
      rcases hx.parent with rfl | ⟨A, i, c, hA, hp, hc⟩
      · exact (ho'.symbols _).mpr (.inl hb'.nonterminal)
      · exact ho'.mem_symbols (((h A hA).2 i c).mpr hp) hc
    exact ⟨fun _ => k2, fun _ => k1⟩

/-- The Clr and the Lalr table are the same with and without rules that cannot be reached. -/
theorem Spec.SameReachable.makes (h : SameReachable D' D S) {k : Method} (hk : k ≠ .slr) {dbg dbg' : Bool}
    {t t' : Tabler T} (ht : Makes k dbg D S eof t) (ht' : Makes k dbg' D' S eof t') :
    t'.states = t.states ∧ t'.kernels = t.kernels ∧ t'.actions = t.actions ∧
      t'.grammar.basis = t.grammar.basis := by
  have hbas : t'.grammar.basis = t.grammar.basis := by
    obtain ⟨g, n, t0, hg, h0, e, _⟩ := ht.tabler
    obtain ⟨g', n', t0', hg', h0', e', _⟩ := ht'.tabler
    rw [e, e']
    exact (h.twin hg hg' h0 h0').basis
  obtain ⟨g, hg, n, hb⟩ := ht
  obtain ⟨g', hg', n', hb'⟩ := ht'
  cases k with
  | slr => exact absurd rfl hk
  | clr =>
    obtain ⟨t0, h1, h2⟩ := Out.bind_eq_ok.mp hb
    obtain ⟨t0', h1', h2'⟩ := Out.bind_eq_ok.mp hb'
    obtain ⟨a, b, c⟩ := (h.twin hg hg' h1 h1').clr h2 h2'
    exact ⟨a, b, c, hbas⟩
  | lalr =>
    obtain ⟨l, hl, e⟩ := Out.bind_eq_ok.mp hb
    obtain ⟨l', hl', e'⟩ := Out.bind_eq_ok.mp hb'
    cases e; cases e'
    obtain ⟨t0, h1, h2⟩ := Out.bind_eq_ok.mp hl
    obtain ⟨t0', h1', h2'⟩ := Out.bind_eq_ok.mp hl'
    obtain ⟨a, b, c, _⟩ := (h.twin hg hg' h1 h1').lalr h2 h2'
    exact ⟨a, b, c, hbas⟩

end Declared

end Lrp
