import Verif.Model.Automaton
import Verif.Proofs.TablerNew

/-! Closures: what one step adds, what the iteration returns, and when it stops. -/

set_option linter.unusedSectionVars false

namespace Lrp
open Spec
variable {T : Type} [LinOrd T] [DecidableEq T]

/-- The positions a closure step adds because of `p`, with lookahead function `lk`. -/
def Adds (rules : RuleMap T) (lk : Position T → OSet T) (p q : Position T) : Prop :=
  ∃ A r prod, p.top = some A ∧ rules.get? A = some r ∧ prod ∈ r.prods ∧
    q = { rule := A, seq := prod, point := 0, look := lk p }

/-- The closure step, with the lookahead function as a parameter. -/
def closureWith (rules : RuleMap T) (lk : Position T → OSet T) (state : State T) : State T :=
  let newState := state.foldl (fun acc pos =>
    match pos.top with
    | none => acc
    | some top =>
      match rules.get? top with
      | none => acc
      | some rule =>
        rule.prods.foldl (fun acc prod =>
          OSet.insert { rule := top, seq := prod, point := 0, look := lk pos } acc) acc) []
  OSet.extend newState state

theorem Slr.closure_eq (t : Tabler T) :
    Slr.closure t = closureWith t.grammar.rules (fun _ => []) := rfl

theorem Clr.closure_eq (t : Tabler T) :
    Clr.closure t = closureWith t.grammar.rules (Clr.closureLook t) := rfl

theorem Clr.closureLook_congr {t t' : Tabler T} (h : t.first = t'.first) :
    Clr.closureLook t = Clr.closureLook t' := by
  funext p
  unfold Clr.closureLook Tabler.firstOf
  rw [h]

section
variable {rules : RuleMap T} {lk : Position T → OSet T}

theorem mem_closure_add {pos q : Position T} {acc : State T} :
    q ∈ (match pos.top with
    | none => acc
    | some top =>
      match rules.get? top with
      | none => acc
      | some rule =>
        rule.prods.foldl (fun acc prod =>
          OSet.insert { rule := top, seq := prod, point := 0, look := lk pos } acc) acc) ↔
      q ∈ acc ∨ Adds rules lk pos q := by
  unfold Adds
  cases pos.top with
  | none => simp
  | some top =>
    cases hr : rules.get? top with
    | none => simp [hr]
    | some rule =>
      simp only [Option.some.injEq, exists_and_left, exists_eq_left', hr]
      generalize rule.prods = ps
      induction ps generalizing acc with
      | nil => simp
      | cons p ps ih =>
        rw [List.foldl_cons, ih, OSet.mem_insert]
        simp only [List.mem_cons]
        constructor
        · rintro ((rfl | h) | ⟨p', h1, h2⟩)
          · exact Or.inr ⟨p, Or.inl rfl, rfl⟩
          · exact Or.inl h
          · exact Or.inr ⟨p', Or.inr h1, h2⟩
        · rintro (h | ⟨p', rfl | h1, h2⟩)
          · exact Or.inl (Or.inr h)
          · exact Or.inl (Or.inl h2)
          · exact Or.inr ⟨p', h1, h2⟩

theorem sorted_closure_add {pos : Position T} {acc : State T} (h : OSet.Sorted acc) :
    OSet.Sorted (match pos.top with
    | none => acc
    | some top =>
      match rules.get? top with
      | none => acc
      | some rule =>
        rule.prods.foldl (fun acc prod =>
          OSet.insert { rule := top, seq := prod, point := 0, look := lk pos } acc) acc) := by
  cases pos.top with
  | none => exact h
  | some top =>
    cases hr : rules.get? top with
    | none => simp only [hr]; exact h
    | some rule =>
      simp only [hr]
      generalize rule.prods = ps
      induction ps generalizing acc with
      | nil => exact h
      | cons p ps ih => exact ih (OSet.sorted_insert h)

theorem mem_closureWith {s : State T} {q : Position T} :
    q ∈ closureWith rules lk s ↔ q ∈ s ∨ ∃ p ∈ s, Adds rules lk p q := by
  unfold closureWith
  simp only [OSet.mem_extend]
  rw [or_comm]
  refine or_congr Iff.rfl ?_
  suffices ∀ acc : State T, q ∈ s.foldl (fun acc pos =>
      match pos.top with
      | none => acc
      | some top =>
        match rules.get? top with
        | none => acc
        | some rule =>
          rule.prods.foldl (fun acc prod =>
            OSet.insert { rule := top, seq := prod, point := 0, look := lk pos } acc) acc) acc ↔
      q ∈ acc ∨ ∃ p ∈ s, Adds rules lk p q by
    simpa using this []
  induction s with
  | nil => simp
  | cons p ps ih =>
    intro acc
    rw [List.foldl_cons, ih, mem_closure_add]
    simp only [List.mem_cons]
    constructor
    · rintro ((h | h) | ⟨p', h1, h2⟩)
      · exact Or.inl h
      · exact Or.inr ⟨p, Or.inl rfl, h⟩
      · exact Or.inr ⟨p', Or.inr h1, h2⟩
    · rintro (h | ⟨p', rfl | h1, h2⟩)
      · exact Or.inl (Or.inl h)
      · exact Or.inl (Or.inr h2)
      · exact Or.inr ⟨p', h1, h2⟩

theorem sorted_closureWith (s : State T) : OSet.Sorted (closureWith rules lk s) := by
  unfold closureWith
  refine OSet.sorted_extend ?_
  exact foldl_inv OSet.sorted_nil (fun acc p _ h => sorted_closure_add h)

/-- The closure of a set of positions. -/
inductive Clo (rules : RuleMap T) (lk : Position T → OSet T) (seed : State T) : Position T → Prop
  | base {p : Position T} : p ∈ seed → Clo rules lk seed p
  | step {p q : Position T} : Clo rules lk seed p → Adds rules lk p q → Clo rules lk seed q

/-- `s` is the closure of `seed`. -/
structure IsClo (rules : RuleMap T) (lk : Position T → OSet T) (seed s : State T) : Prop where
  sorted : OSet.Sorted s
  mem : ∀ q, q ∈ s ↔ Clo rules lk seed q

theorem Clo.closed_sub {seed : State T} {P : Position T → Prop} (h0 : ∀ p ∈ seed, P p)
    (hs : ∀ p q, P p → Adds rules lk p q → P q) {q : Position T} (h : Clo rules lk seed q) : P q := by
  induction h with
  | base h => exact h0 _ h
  | step _ ha ih => exact hs _ _ ih ha

theorem IsClo.unique {seed s s' : State T} (h : IsClo rules lk seed s)
    (h' : IsClo rules lk seed s') : s = s' :=
  OSet.ext h.sorted h'.sorted (fun q => by rw [h.mem, h'.mem])

end

/-- `cl` is the closure step with lookahead function `lk` (which may depend on FIRST only). -/
structure IsClosureFn (cl : ClosureFn T) (lk : Table T → Position T → OSet T) : Prop where
  eq : ∀ t : Tabler T, cl t = closureWith t.grammar.rules (lk t.first)

/-- The lookahead function of `Clr` and `Lalr`, from the FIRST table only. -/
def clrLook (first : Table T) (pos : Position T) : OSet T :=
  match pos.next with
  | none => pos.look
  | some locus =>
    match first.get? locus with
    | some f => OSet.extend [] f
    | none => [locus]

theorem closureLook_eq (t : Tabler T) : Clr.closureLook t = clrLook t.first := by
  funext p
  unfold Clr.closureLook clrLook Tabler.firstOf
  cases p.next with
  | none => rfl
  | some locus =>
    simp only [OSet.ofList_singleton, List.foldl_cons, List.foldl_nil]
    cases t.first.get? locus <;> rfl

/-- The lookahead function of `Slr`. -/
def slrLook (_ : Table T) (_ : Position T) : OSet T := []

theorem Slr.isClosureFn : IsClosureFn (T := T) Slr.closure slrLook := ⟨fun _ => rfl⟩

theorem Clr.isClosureFn : IsClosureFn (T := T) Clr.closure clrLook :=
  ⟨fun t => by rw [Clr.closure_eq, closureLook_eq]⟩

section
variable {cl : ClosureFn T} {lk : Table T → Position T → OSet T} (hcl : IsClosureFn cl lk)
include hcl

theorem propClosure_le {n m : Nat} (h : n ≤ m) (t : Tabler T) (seed : State T) :
    Out.Le (propClosure cl n t seed) (propClosure cl m t seed) := transitive_le h seed

theorem propClosure_spec {n : Nat} {t : Tabler T} {seed v : State T} (hs : OSet.Sorted seed)
    (h : propClosure cl n t seed = .ok v) : IsClo t.grammar.rules (lk t.first) seed v := by
  unfold propClosure at h
  rw [hcl.eq] at h
  have := transitive_inv (P := fun s => OSet.Sorted s ∧ (∀ p ∈ seed, p ∈ s) ∧
    ∀ q ∈ s, Clo t.grammar.rules (lk t.first) seed q) h ⟨hs, fun p hp => hp, fun q hq => .base hq⟩ (by
      rintro x y ⟨h1, h2, h3⟩ h4
      cases h4
      refine ⟨sorted_closureWith x, fun p hp => mem_closureWith.mpr (Or.inl (h2 p hp)), ?_⟩
      intro q hq
      rcases mem_closureWith.mp hq with hq | ⟨p, hp, ha⟩
      · exact h3 q hq
      · exact .step (h3 p hp) ha)
  obtain ⟨⟨h1, h2, h3⟩, h4⟩ := this
  injection h4 with h4
  refine ⟨h1, fun q => ⟨h3 q, fun hq => ?_⟩⟩
  refine hq.closed_sub (P := fun q => q ∈ v) h2 (fun p q hp ha => ?_)
  rw [← h4]
  exact mem_closureWith.mpr (Or.inr ⟨p, hp, ha⟩)

/-- The iteration stops when everything stays inside a finite set `U`. -/
theorem propClosure_total {t : Tabler T} {seed : State T} (hs : OSet.Sorted seed)
    {U : List (Position T)} (h0 : ∀ p ∈ seed, p ∈ U)
    (hU : ∀ p ∈ U, ∀ q, Adds t.grammar.rules (lk t.first) p q → q ∈ U) {n : Nat}
    (hn : U.length < n) : ∃ v, propClosure cl n t seed = .ok v := by
  obtain ⟨v, hv⟩ := transitive_total (f := fun s => .ok (cl t s)) (n := U.length) (a := seed)
    (P := fun s => OSet.Sorted s ∧ ∀ p ∈ s, p ∈ U) List.length ⟨hs, h0⟩
    (fun x hx => List.Nodup.length_le_of_subset hx.1.nodup (fun p hp => hx.2 p hp))
    (by
      rintro x ⟨hx1, hx2⟩
      refine ⟨_, rfl, ?_, ?_⟩
      · rw [hcl.eq]
        refine ⟨sorted_closureWith x, fun q hq => ?_⟩
        rcases mem_closureWith.mp hq with hq | ⟨p, hp, ha⟩
        · exact hx2 q hq
        · exact hU p (hx2 p hp) q ha
      · intro hne
        rw [hcl.eq] at hne ⊢
        have hsub : ∀ p ∈ x, p ∈ closureWith t.grammar.rules (lk t.first) x :=
          fun p hp => mem_closureWith.mpr (Or.inl hp)
        have : ∃ q, q ∈ closureWith t.grammar.rules (lk t.first) x ∧ q ∉ x := by
          refine Classical.byContradiction (fun hcon => hne ?_)
          refine OSet.ext (sorted_closureWith x) hx1 (fun q => ⟨fun hq => ?_, hsub q⟩)
          exact Classical.byContradiction (fun hq' => hcon ⟨q, hq, hq'⟩)
        obtain ⟨q, hq1, hq2⟩ := this
        have := List.Nodup.length_le_of_subset (l₁ := q :: x)
          (l₂ := closureWith t.grammar.rules (lk t.first) x)
          (List.nodup_cons.mpr ⟨hq2, hx1.nodup⟩) (by
            intro p hp
            rcases List.mem_cons.mp hp with rfl | hp
            · exact hq1
            · exact hsub p hp)
        exact this)
  exact ⟨v, (transitive_le (by omega) seed).ok hv⟩

end

/-! ### A finite universe of positions -/

/-- Every position of a body of a rule, with a lookahead of `L`. -/
def univ (rules : RuleMap T) (L : List (OSet T)) : List (Position T) :=
  rules.flatMap (fun e => e.2.prods.flatMap (fun prod =>
    (List.range (prod.1.length + 1)).flatMap (fun pt =>
      L.map (fun l => { rule := e.1, seq := prod, point := pt, look := l }))))

theorem mem_univ {rules : RuleMap T} {L : List (OSet T)} {q : Position T} :
    q ∈ univ rules L ↔ ∃ r, (q.rule, r) ∈ rules ∧ q.seq ∈ r.prods ∧ q.point ≤ q.seq.1.length ∧
      q.look ∈ L := by
  unfold univ
  simp only [List.mem_flatMap, List.mem_map, List.mem_range]
  constructor
  · rintro ⟨e, he, prod, hp, pt, hpt, l, hl, rfl⟩
    exact ⟨e.2, he, hp, by show pt ≤ prod.1.length; omega, hl⟩
  · rintro ⟨r, h1, h2, h3, h4⟩
    exact ⟨(q.rule, r), h1, q.seq, h2, q.point, by omega, q.look, h4, rfl⟩

/-- Every symbol of every body. -/
def bodySymbols (rules : RuleMap T) : List T := rules.flatMap (fun e => e.2.prods.flatMap Prod.fst)

theorem mem_bodySymbols {rules : RuleMap T} {x : T} :
    x ∈ bodySymbols rules ↔ ∃ e ∈ rules, ∃ p ∈ e.2.prods, x ∈ p.1 := by
  simp [bodySymbols, List.mem_flatMap]

/-- The lookahead of a symbol in `clrLook`. -/
def symLook (first : Table T) (x : T) : OSet T :=
  match first.get? x with
  | some f => OSet.extend [] f
  | none => [x]

theorem clrLook_some {first : Table T} {p : Position T} {x : T} (h : p.next = some x) :
    clrLook first p = symLook first x := by
  unfold clrLook symLook; rw [h]

theorem clrLook_none {first : Table T} {p : Position T} (h : p.next = none) :
    clrLook first p = p.look := by
  unfold clrLook; rw [h]

/-- All lookahead sets that can occur: the given ones, the empty one, those of symbols. -/
def looks (first : Table T) (rules : RuleMap T) (L : List (OSet T)) : List (OSet T) :=
  [] :: (L ++ (bodySymbols rules).map (symLook first))

/-- A lookahead function of one of the two kinds. -/
def LookFn (lk : Table T → Position T → OSet T) : Prop := lk = slrLook ∨ lk = clrLook

theorem lookFn_cases {lk : Table T → Position T → OSet T} (h : LookFn lk) (first : Table T)
    (p : Position T) :
    lk first p = [] ∨ lk first p = p.look ∨ ∃ x, p.next = some x ∧ lk first p = symLook first x := by
  rcases h with rfl | rfl
  · exact Or.inl rfl
  · cases hn : p.next with
    | none => exact Or.inr (Or.inl (clrLook_none hn))
    | some x => exact Or.inr (Or.inr ⟨x, rfl, clrLook_some hn⟩)

theorem adds_univ {lk : Table T → Position T → OSet T} (hlk : LookFn lk) {first : Table T}
    {rules : RuleMap T} {L : List (OSet T)} {p q : Position T}
    (hp : p ∈ univ rules (looks first rules L)) (ha : Adds rules (lk first) p q) :
    q ∈ univ rules (looks first rules L) := by
  obtain ⟨A, r, prod, h1, h2, h3, rfl⟩ := ha
  obtain ⟨r', k1, k2, k3, k4⟩ := mem_univ.mp hp
  refine mem_univ.mpr ⟨r, OMap.mem_of_get? h2, h3, Nat.zero_le _, ?_⟩
  rcases lookFn_cases hlk first p with h | h | ⟨x, hx, h⟩
  · show lk first p ∈ _; rw [h]; exact List.mem_cons_self
  · show lk first p ∈ _; rw [h]; exact k4
  · show lk first p ∈ _; rw [h]
    refine List.mem_cons_of_mem _ (List.mem_append_right _ (List.mem_map.mpr ⟨x, ?_, rfl⟩))
    exact mem_bodySymbols.mpr ⟨_, k1, p.seq, k2, List.mem_of_getElem? hx⟩

/-- `prop_closure` returns for every seed. -/
theorem propClosure_returns {cl : ClosureFn T} {lk : Table T → Position T → OSet T}
    (hcl : IsClosureFn cl lk) (hlk : LookFn lk) (t : Tabler T) {seed : State T}
    (hs : OSet.Sorted seed) :
    ∃ n v, propClosure cl n t seed = .ok v := by
  let L := seed.map Position.look ++ (seed.flatMap (fun p => p.seq.1)).map (symLook t.first)
  let U := seed ++ univ t.grammar.rules (looks t.first t.grammar.rules L)
  obtain ⟨v, hv⟩ := propClosure_total hcl (t := t) (seed := seed) hs (U := U)
    (fun p hp => List.mem_append_left _ hp) (by
      intro p hp q ha
      rcases List.mem_append.mp hp with hp | hp
      · refine List.mem_append_right _ ?_
        obtain ⟨A, r, prod, h1, h2, h3, rfl⟩ := ha
        refine mem_univ.mpr ⟨r, OMap.mem_of_get? h2, h3, Nat.zero_le _, ?_⟩
        rcases lookFn_cases hlk t.first p with h | h | ⟨x, hx, h⟩
        · show lk t.first p ∈ _; rw [h]; exact List.mem_cons_self
        · show lk t.first p ∈ _; rw [h]
          refine List.mem_cons_of_mem _ (List.mem_append_left _ (List.mem_append_left _ ?_))
          exact List.mem_map.mpr ⟨p, hp, rfl⟩
        · show lk t.first p ∈ _; rw [h]
          refine List.mem_cons_of_mem _ (List.mem_append_left _ (List.mem_append_right _ ?_))
          exact List.mem_map.mpr ⟨x, List.mem_flatMap.mpr ⟨p, hp, List.mem_of_getElem? hx⟩, rfl⟩
      · exact List.mem_append_right _ (adds_univ hlk hp ha)) (n := U.length + 1) (by omega)
  exact ⟨_, v, hv⟩

end Lrp
