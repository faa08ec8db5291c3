import Verif.Spec.Lr
import Verif.Proofs.Collection

/-! Rows of the action table: a cell records exactly the decisions made for it. -/

set_option linter.unusedSectionVars false

namespace Lrp
open Spec
variable {T : Type} [LinOrd T] [DecidableEq T]

theorem Spec.Among.plain {a c : Action T} (h : Among a c) : Plain a := by
  induction h with
  | here h => exact h
  | left _ ih => exact ih
  | right _ ih => exact ih

theorem among_plain {a c : Action T} (hc : Plain c) : Among a c ↔ a = c := by
  constructor
  · intro h
    cases h with
    | here _ => rfl
    | left _ => exact absurd rfl (hc _ _)
    | right _ => exact absurd rfl (hc _ _)
  · rintro rfl; exact .here hc

theorem among_conflict {a b c : Action T} : Among a (.conflict b c) ↔ Among a b ∨ Among a c := by
  constructor
  · intro h
    cases h with
    | here h => exact absurd rfl (h _ _)
    | left h => exact Or.inl h
    | right h => exact Or.inr h
  · rintro (h | h)
    · exact .left h
    · exact .right h

theorem among_exists (c : Action T) : ∃ a, Among a c := by
  induction c with
  | conflict a b iha _ => obtain ⟨x, hx⟩ := iha; exact ⟨x, .left hx⟩
  | shift to => exact ⟨_, .here (by intro x y h; cases h)⟩
  | goto to => exact ⟨_, .here (by intro x y h; cases h)⟩
  | reduce n p => exact ⟨_, .here (by intro x y h; cases h)⟩
  | acc => exact ⟨_, .here (by intro x y h; cases h)⟩

/-- The cell `c` records exactly the decisions `P`. -/
structure CellOK (c : Option (Action T)) (P : Action T → Prop) : Prop where
  empty : c = none ↔ ∀ a, ¬ P a
  among : ∀ b, c = some b → ∀ a, Among a b ↔ P a
  conflict : ∀ b, c = some b → ((∃ x y, b = .conflict x y) ↔ ∃ a a', P a ∧ P a' ∧ a ≠ a')

theorem CellOK.congr {c : Option (Action T)} {P Q : Action T → Prop} (h : CellOK c P)
    (hpq : ∀ a, P a ↔ Q a) : CellOK c Q := by
  have : P = Q := by funext a; exact propext (hpq a)
  exact this ▸ h

/-- A cell after one more decision. -/
def cellAdd (c : Option (Action T)) (a : Action T) : Option (Action T) :=
  match c with
  | some old => some (if old ≠ a then Action.conflict old a else a)
  | none => some a

theorem CellOK.add {c : Option (Action T)} {P : Action T → Prop} (h : CellOK c P) {a : Action T}
    (ha : Plain a) :
    CellOK (cellAdd c a) (fun b => P b ∨ b = a) := by
  unfold cellAdd
  cases c with
  | none =>
    have hn := h.empty.mp rfl
    refine ⟨by simp; exact ⟨a, fun _ => rfl⟩, ?_, ?_⟩
    · intro b hb x
      cases hb
      rw [among_plain ha]
      constructor
      · exact Or.inr
      · rintro (h | h)
        · exact absurd h (hn x)
        · exact h
    · intro b hb
      cases hb
      constructor
      · rintro ⟨x, y, h⟩; exact absurd h (ha x y)
      · rintro ⟨x, y, hx | hx, hy | hy, hne⟩
        · exact absurd hx (hn x)
        · exact absurd hx (hn x)
        · exact absurd hy (hn y)
        · exact absurd (hx.trans hy.symm) hne
  | some old =>
    have hold := h.among old rfl
    refine ⟨by simp; exact ⟨a, fun _ => rfl⟩, ?_, ?_⟩
    · intro b hb x
      injection hb with hb
      split at hb
      · subst hb
        rw [among_conflict, hold, among_plain ha]
      · rename_i heq
        have heq : old = a := Classical.not_not.mp heq
        subst hb heq
        rw [← hold, among_plain ha]
        simp
    · intro b hb
      injection hb with hb
      split at hb
      · rename_i hne
        subst hb
        refine ⟨fun _ => ?_, fun _ => ⟨_, _, rfl⟩⟩
        by_cases hex : ∃ a', P a' ∧ a' ≠ a
        · obtain ⟨a', h1, h2⟩ := hex
          exact ⟨a', a, Or.inl h1, Or.inr rfl, h2⟩
        · exfalso
          have hall : ∀ a', P a' → a' = a := fun a' h1 =>
            Classical.byContradiction (fun h2 => hex ⟨a', h1, h2⟩)
          have hcon := h.conflict old rfl
          have hpl : Plain old := by
            intro x y hxy
            obtain ⟨b1, b2, p1, p2, hb⟩ := hcon.mp ⟨x, y, hxy⟩
            exact hb ((hall b1 p1).trans (hall b2 p2).symm)
          have : P old := (hold old).mp (.here hpl)
          exact hne (hall old this)
      · rename_i heq
        have heq : old = a := Classical.not_not.mp heq
        subst hb heq
        constructor
        · rintro ⟨x, y, h⟩; exact absurd h (ha x y)
        · rintro ⟨x, y, hx, hy, hne⟩
          have hx' : x = old := by
            rcases hx with hx | hx
            · exact (among_plain ha).mp ((hold x).mpr hx)
            · exact hx
          have hy' : y = old := by
            rcases hy with hy | hy
            · exact (among_plain ha).mp ((hold y).mpr hy)
            · exact hy
          exact absurd (hx'.trans hy'.symm) hne

theorem get?_addAction (m : OMap T (Action T)) (e : T × Action T) (x : T) :
    (addAction m e).get? x =
      if x = e.1 then cellAdd (m.get? x) e.2 else m.get? x := by
  unfold addAction cellAdd
  cases h : m.get? e.1 with
  | none =>
    simp only
    rw [OMap.get?_insert]
    split
    · rename_i hx; subst hx; rw [h]
    · rfl
  | some old =>
    simp only
    split
    · rename_i hne
      rw [OMap.get?_insert]
      split
      · rename_i hx; subst hx; rw [h]; simp [hne]
      · rfl
    · rename_i hne
      rw [OMap.get?_insert]
      split
      · rename_i hx; subst hx; rw [h]; simp [hne]
      · rfl

theorem sorted_addAction {m : OMap T (Action T)} (h : OMap.Sorted m) (e : T × Action T) :
    OMap.Sorted (addAction m e) := by
  unfold addAction
  split
  · split <;> exact OMap.sorted_insert h _ _
  · exact OMap.sorted_insert h _ _

theorem addActions_spec {m : OMap T (Action T)} {P : T → Action T → Prop}
    (hm : ∀ x, CellOK (m.get? x) (P x)) (hs : OMap.Sorted m) (ds : List (T × Action T))
    (hd : ∀ e ∈ ds, Plain e.2) :
    OMap.Sorted (ds.foldl addAction m) ∧
    ∀ x, CellOK ((ds.foldl addAction m).get? x) (fun a => P x a ∨ (x, a) ∈ ds) := by
  induction ds generalizing m P with
  | nil => exact ⟨hs, fun x => (hm x).congr (by simp)⟩
  | cons e ds ih =>
    have := ih (m := addAction m e) (P := fun x a => P x a ∨ (x, a) = e) (by
      intro x
      rw [get?_addAction]
      by_cases hx : x = e.1
      · rw [if_pos hx]
        refine ((hm x).add (hd e (by simp))).congr (fun a => ?_)
        refine or_congr Iff.rfl ?_
        subst hx
        constructor
        · rintro rfl; rfl
        · intro h; exact congrArg Prod.snd h
      · rw [if_neg hx]
        refine (hm x).congr (fun a => ?_)
        constructor
        · exact Or.inl
        · rintro (h | h)
          · exact h
          · exact absurd (congrArg Prod.fst h) hx) (sorted_addAction hs e)
      (fun e he => hd e (by simp [he]))
    refine ⟨this.1, fun x => (this.2 x).congr (fun a => ?_)⟩
    simp only [List.mem_cons]
    rw [or_assoc]

theorem rowActions_spec {decision : Position T → State T → Out (OMap T (Action T))} {row : State T}
    {m : OMap T (Action T)} (h : rowActions decision row = .ok m)
    (hp : ∀ p ∈ row, ∀ ds, decision p row = .ok ds → ∀ e ∈ ds, Plain e.2) :
    OMap.Sorted m ∧ ∀ x, CellOK (m.get? x)
      (fun a => ∃ p ∈ row, ∃ ds, decision p row = .ok ds ∧ (x, a) ∈ ds) := by
  unfold rowActions at h
  have := foldlM_inv' (P := fun pre m => OMap.Sorted m ∧ ∀ x, CellOK (m.get? x)
      (fun a => ∃ p ∈ pre, ∃ ds, decision p row = .ok ds ∧ (x, a) ∈ ds)) h
    ⟨OMap.sorted_nil, fun x => ⟨by simp, by simp, by simp⟩⟩ (by
      intro pre p post b b' hrow hP hb
      obtain ⟨ds, h1, h2⟩ := Out.bind_eq_ok.mp hb
      cases h2
      have hmem : p ∈ row := by rw [hrow]; simp
      have := addActions_spec hP.2 hP.1 ds (fun e he => hp p hmem ds h1 e he)
      refine ⟨this.1, fun x => (this.2 x).congr (fun a => ?_)⟩
      simp only [List.mem_append, List.mem_singleton]
      constructor
      · rintro (⟨q, hq, ds', h3, h4⟩ | h)
        · exact ⟨q, Or.inl hq, ds', h3, h4⟩
        · exact ⟨p, Or.inr rfl, ds, h1, h⟩
      · rintro ⟨q, hq | rfl, ds', h3, h4⟩
        · exact Or.inl ⟨q, hq, ds', h3, h4⟩
        · rw [h1] at h3; cases h3
          exact Or.inr h4)
  exact this

theorem rowActions_total {decision : Position T → State T → Out (OMap T (Action T))} {row : State T}
    (h : ∀ p ∈ row, ∃ ds, decision p row = .ok ds) : ∃ m, rowActions decision row = .ok m := by
  unfold rowActions
  obtain ⟨r, hr, _⟩ := foldlM_total (P := fun _ => True) (l := row) (b := ([] : OMap T (Action T)))
    (f := fun map item => do
      let ds ← decision item row
      return ds.foldl addAction map) trivial (by
      intro b p hp _
      obtain ⟨ds, hds⟩ := h p hp
      exact ⟨_, by rw [hds]; rfl, trivial⟩)
  exact ⟨r, hr⟩

/-! ### decisions -/

theorem OMap.mem_ofList_const {κ ν : Type} [LinOrd κ] [DecidableEq κ] {l : List κ} {v : ν} {e : κ × ν} :
    e ∈ OMap.ofList (l.map (fun k => (k, v))) ↔ e.1 ∈ l ∧ e.2 = v := by
  constructor
  · intro h
    have := OMap.mem_ofList h
    obtain ⟨k, hk, rfl⟩ := List.mem_map.mp this
    exact ⟨hk, rfl⟩
  · rintro ⟨h1, h2⟩
    unfold OMap.ofList
    suffices ∀ m : OMap κ ν, OMap.Sorted m → (∀ e ∈ m, e.2 = v) → (e.1 ∈ l ∨ e ∈ m) →
        e ∈ (l.map (fun k => (k, v))).foldl (fun m e => OMap.insert e.1 e.2 m) m from
      this [] OMap.sorted_nil (by simp) (Or.inl h1)
    clear h1
    induction l with
    | nil => intro m _ _ h; simpa using h
    | cons k l ih =>
      intro m hs hm h
      rw [List.map_cons, List.foldl_cons]
      refine ih _ (OMap.sorted_insert hs _ _) ?_ ?_
      · intro e' he'
        rcases OMap.mem_insert he' with rfl | h
        · rfl
        · exact hm e' h
      · by_cases hk : e.1 = k
        · right
          refine (OMap.mem_insert_iff hs).mpr (Or.inl ?_)
          obtain ⟨e1, e2⟩ := e
          simp only at hk h2
          subst hk h2; rfl
        · rcases h with h | h
          · rcases List.mem_cons.mp h with h | h
            · exact absurd h hk
            · exact Or.inl h
          · exact Or.inr ((OMap.mem_insert_iff hs).mpr (Or.inr ⟨h, hk⟩))

theorem mem_reduceDecision {start : T} {pos : Position T} {set : OSet T} {x : T} {a : Action T} :
    (x, a) ∈ reduceDecision start pos set ↔
      x ∈ set ∧ a = if pos.rule = start then Action.acc else Action.reduce pos.rule pos.seq := by
  unfold reduceDecision
  exact OMap.mem_ofList_const

/-- The decisions of a state, for a goto function and a reduce-lookahead relation. -/
def Decides (g : Grammar T) (start : T) (next : T → Option Nat) (red : Position T → T → Prop)
    (s : State T) (x : T) (a : Action T) : Prop :=
  (∃ p ∈ s, p.top = some x ∧ ∃ j, next x = some j ∧
    a = if g.isTerminal x then Action.shift j else Action.goto j) ∨
  (∃ p ∈ s, p.top = none ∧ red p x ∧
    a = if p.rule = start then Action.acc else Action.reduce p.rule p.seq)

theorem Decides.plain {g : Grammar T} {start : T} {next : T → Option Nat}
    {red : Position T → T → Prop} {s : State T} {x : T} {a : Action T}
    (h : Decides g start next red s x a) : Plain a := by
  rcases h with ⟨_, _, _, j, _, rfl⟩ | ⟨p, _, _, _, rfl⟩
  · intro x y; split <;> intro h <;> cases h
  · intro x y; split <;> intro h <;> cases h

/-- A `decision` function of the three builders, abstractly. -/
structure IsDecision (decision : Position T → State T → Out (OMap T (Action T))) (g : Grammar T)
    (start : T) (sfk : State T → Option Nat) (red : Position T → T → Prop)
    (defined : Position T → Prop) : Prop where
  fin : ∀ p s, p.top = none → defined p →
    ∃ set, decision p s = .ok (reduceDecision start p set) ∧ ∀ x, x ∈ set ↔ red p x
  finNo : ∀ p s, p.top = none → ¬ defined p → ∃ w, decision p s = .panic w
  adv : ∀ p s x, p.top = some x → decision p s =
    (match sfk (Tabler.symFilter s x) with
    | some j => .ok [(x, if g.isTerminal x then Action.shift j else Action.goto j)]
    | none => .panic .incompleteKernels)

theorem shiftDecision_eq (t : Tabler T) (sfk : State T → Option Nat) (row : State T) (x : T) :
    shiftDecision t sfk row x = (match sfk (Tabler.symFilter row x) with
    | some j => .ok [(x, if t.grammar.isTerminal x then Action.shift j else Action.goto j)]
    | none => .panic .incompleteKernels) := by
  unfold shiftDecision
  cases sfk (Tabler.symFilter row x) with
  | none => rfl
  | some j =>
    simp only [Out.ofOption]
    cases t.grammar.isTerminal x <;> rfl

theorem Slr.isDecision (t : Tabler T) (start : T) :
    IsDecision (fun p s => Slr.decision t start p s) t.grammar start (stateFromKernel t)
      (fun p x => Tabler.Has t.follow p.rule x) (fun p => Tabler.Key t.follow p.rule) := by
  refine ⟨?_, ?_, ?_⟩
  · intro p s hp hd
    obtain ⟨set, hset⟩ := hd
    refine ⟨set, ?_, ?_⟩
    · simp only [Slr.decision, hp, hset]; rfl
    · intro x; simp [Tabler.Has, hset]
  · intro p s hp hd
    refine ⟨.missingFollow, ?_⟩
    have : t.follow.get? p.rule = none := by
      cases h : t.follow.get? p.rule with
      | none => rfl
      | some f => exact absurd ⟨f, h⟩ hd
    simp only [Slr.decision, hp, this]; rfl
  · intro p s x hp
    simp only [Slr.decision, hp]
    exact shiftDecision_eq t _ s x

theorem Clr.isDecision (t : Tabler T) (start : T) :
    IsDecision (fun p s => Clr.decision t start p s) t.grammar start (stateFromKernel t)
      (fun p x => x ∈ p.look) (fun _ => True) := by
  refine ⟨?_, fun _ _ _ h => absurd trivial h, ?_⟩
  · intro p s hp _
    exact ⟨p.look, by simp only [Clr.decision, hp], fun x => Iff.rfl⟩
  · intro p s x hp
    simp only [Clr.decision, hp]
    exact shiftDecision_eq t _ s x

section
variable {decision : Position T → State T → Out (OMap T (Action T))} {g : Grammar T} {start : T}
  {sfk : State T → Option Nat} {red : Position T → T → Prop} {defined : Position T → Prop}
  (hd : IsDecision decision g start sfk red defined)
include hd

theorem IsDecision.row_total {s : State T}
    (hk : ∀ p ∈ s, ∀ x, p.top = some x → ∃ j, sfk (Tabler.symFilter s x) = some j)
    (hf : ∀ p ∈ s, p.top = none → defined p) : ∃ m, rowActions decision s = .ok m := by
  refine rowActions_total (fun p hp => ?_)
  cases ht : p.top with
  | none =>
    obtain ⟨set, h, _⟩ := hd.fin p s ht (hf p hp ht)
    exact ⟨_, h⟩
  | some x =>
    obtain ⟨j, hj⟩ := hk p hp x ht
    rw [hd.adv p s x ht, hj]
    exact ⟨_, rfl⟩

theorem IsDecision.row_spec {s : State T} {m : OMap T (Action T)}
    (h : rowActions decision s = .ok m) (hf : ∀ p ∈ s, p.top = none → defined p) :
    OMap.Sorted m ∧ ∀ x, CellOK (m.get? x)
      (Decides g start (fun x => sfk (Tabler.symFilter s x)) red s x) := by
  have key : ∀ p ∈ s, ∀ ds, decision p s = .ok ds → ∀ x a, (x, a) ∈ ds ↔
      (p.top = some x ∧ ∃ j, sfk (Tabler.symFilter s x) = some j ∧
        a = if g.isTerminal x then Action.shift j else Action.goto j) ∨
      (p.top = none ∧ red p x ∧
        a = if p.rule = start then Action.acc else Action.reduce p.rule p.seq) := by
    intro p hp ds hds x a
    cases ht : p.top with
    | none =>
      obtain ⟨set, h1, h2⟩ := hd.fin p s ht (hf p hp ht)
      rw [h1] at hds; cases hds
      rw [mem_reduceDecision, h2]
      simp
    | some y =>
      rw [hd.adv p s y ht] at hds
      cases hj : sfk (Tabler.symFilter s y) with
      | none => rw [hj] at hds; cases hds
      | some j =>
        rw [hj] at hds; cases hds
        simp only [List.mem_singleton, Prod.mk.injEq, Option.some.injEq]
        constructor
        · rintro ⟨rfl, rfl⟩
          exact Or.inl ⟨rfl, j, hj, rfl⟩
        · rintro (⟨rfl, j', h1, rfl⟩ | ⟨h, _⟩)
          · rw [hj] at h1; cases h1
            exact ⟨rfl, rfl⟩
          · cases h
  have := rowActions_spec h (by
    intro p hp ds hds e he
    rcases (key p hp ds hds e.1 e.2).mp he with ⟨_, j, _, h⟩ | ⟨_, _, h⟩
    · rw [h]; intro x y; split <;> intro h <;> cases h
    · rw [h]; intro x y; split <;> intro h <;> cases h)
  refine ⟨this.1, fun x => (this.2 x).congr (fun a => ?_)⟩
  unfold Decides
  constructor
  · rintro ⟨p, hp, ds, h1, h2⟩
    rcases (key p hp ds h1 x a).mp h2 with ⟨h3, h4⟩ | ⟨h3, h4⟩
    · exact Or.inl ⟨p, hp, h3, h4⟩
    · exact Or.inr ⟨p, hp, h3, h4⟩
  · rintro (⟨p, hp, h3, j, h4, h5⟩ | ⟨p, hp, h3, h4⟩)
    · have h4 : sfk (Tabler.symFilter s x) = some j := h4
      have : decision p s = .ok [(x, if g.isTerminal x then Action.shift j else Action.goto j)] := by
        rw [hd.adv p s x h3, h4]
      exact ⟨p, hp, _, this, (key p hp _ this x a).mpr (Or.inl ⟨h3, j, h4, h5⟩)⟩
    · obtain ⟨set, h1, h2⟩ := hd.fin p s h3 (hf p hp h3)
      exact ⟨p, hp, _, h1, (key p hp _ h1 x a).mpr (Or.inr ⟨h3, h4⟩)⟩

end

end Lrp
