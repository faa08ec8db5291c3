import Verif.Model.Tabler
import Verif.Proofs.Grammar
import Verif.Proofs.Doubling

/-! FIRST: `gen_first`, `first_step`, `proc_first`. -/

set_option linter.unusedSectionVars false

namespace Lrp
open Spec

/-! ### Building a map entry by entry -/

section Build
variable {κ ν μ : Type} [LinOrd κ] [DecidableEq κ]

theorem OMap.Sorted.split {m pre post : OMap κ ν} {e : κ × ν} (hs : OMap.Sorted m)
    (h : m = pre ++ e :: post) : ∀ x ∈ pre, x.1 ≠ e.1 := by
  intro x hx
  subst h
  have := (List.pairwise_append.mp hs).2.2 x hx e (by simp)
  exact LinOrd.cmp_ne_of_lt this

theorem foldlM_insert {input : OMap κ ν} {f : OMap κ μ → κ × ν → Out (OMap κ μ)}
    {F : κ × ν → Out μ} (hs : OMap.Sorted input)
    (hf : ∀ tab, ∀ e ∈ input, f tab e = (F e >>= fun s => .ok (OMap.insert e.1 s tab)))
    {Y : OMap κ μ} (h : input.foldlM f [] = .ok Y) :
    OMap.Sorted Y ∧ ∀ k s, Y.get? k = some s ↔ ∃ v, input.get? k = some v ∧ F (k, v) = .ok s := by
  have key : OMap.Sorted Y ∧ ∀ k s, Y.get? k = some s ↔ ∃ v, (k, v) ∈ input ∧ F (k, v) = .ok s := by
    refine foldlM_inv' (P := fun pre Y => OMap.Sorted Y ∧
      ∀ k s, OMap.get? Y k = some s ↔ ∃ v, (k, v) ∈ pre ∧ F (k, v) = .ok s) h
      ⟨OMap.sorted_nil, by simp⟩ ?_
    rintro pre e post Y Y' hl ⟨h1, h2⟩ hstep
    have hne := hs.split hl
    rw [hf Y e (by rw [hl]; simp), Out.bind_eq_ok] at hstep
    obtain ⟨s, hFe, hY⟩ := hstep
    cases hY
    refine ⟨OMap.sorted_insert h1 _ _, ?_⟩
    intro k s'
    rw [OMap.get?_insert]
    by_cases hk : k = e.1
    · subst hk
      simp only [if_true, Option.some.injEq]
      constructor
      · rintro rfl; exact ⟨e.2, by simp, hFe⟩
      · rintro ⟨v, hv, hF⟩
        rcases List.mem_append.mp hv with hv | hv
        · exact absurd rfl (hne (e.1, v) hv)
        · simp at hv; rw [hv, hFe] at hF; cases hF; rfl
    · rw [if_neg hk, h2]
      constructor
      · rintro ⟨v, hv, hF⟩; exact ⟨v, by simp [hv], hF⟩
      · rintro ⟨v, hv, hF⟩
        rcases List.mem_append.mp hv with hv | hv
        · exact ⟨v, hv, hF⟩
        · simp at hv; subst hv; exact absurd rfl hk
  refine ⟨key.1, fun k s => ?_⟩
  rw [key.2]
  exact exists_congr (fun v => and_congr (OMap.mem_iff_get? hs) Iff.rfl)

theorem foldlM_insert_total {input : OMap κ ν} {f : OMap κ μ → κ × ν → Out (OMap κ μ)}
    {F : κ × ν → Out μ}
    (hf : ∀ tab, ∀ e ∈ input, f tab e = (F e >>= fun s => .ok (OMap.insert e.1 s tab)))
    (ht : ∀ e ∈ input, ∃ s, F e = .ok s) : ∃ Y, input.foldlM f [] = .ok Y := by
  obtain ⟨r, h, _⟩ := foldlM_total (f := f) (P := fun _ => True) (l := input) (b := []) trivial
    (fun tab e he _ => by
      obtain ⟨s, hs⟩ := ht e he
      exact ⟨_, by rw [hf tab e he, hs]; rfl, trivial⟩)
  exact ⟨r, h⟩

end Build

variable {T : Type} [LinOrd T] [DecidableEq T]

namespace Tabler

/-- `x` is in the set of `A`. -/
def Has (X : Table T) (A x : T) : Prop := ∃ s, X.get? A = some s ∧ x ∈ s

/-- `x` is the first symbol of a body of `A`. -/
def LeftEdge (D : Decls T) (A x : T) : Prop := ∃ i b, IsProd D A i (x :: b)

theorem ruleFirsts_ok {rule : Rule T} {ps : List (Production T)} (h : ∀ p ∈ ps, p.1 ≠ []) :
    ∃ s, ruleFirsts rule ps = .ok s ∧ OSet.Sorted s ∧
      ∀ x, x ∈ s ↔ x ≠ rule.name ∧ ∃ p ∈ ps, p.1.head? = some x := by
  induction ps with
  | nil => exact ⟨[], rfl, OSet.sorted_nil, by simp⟩
  | cons p ps ih =>
    obtain ⟨s, h1, h2, h3⟩ := ih (fun p hp => h p (List.mem_cons_of_mem _ hp))
    obtain ⟨b, i⟩ := p
    cases b with
    | nil => exact absurd rfl (h ([], i) (by simp))
    | cons y ys =>
      unfold ruleFirsts
      simp only [h1, Out.ok_bind, Out.pure_eq]
      refine ⟨_, rfl, ?_, ?_⟩
      · split
        · exact h2
        · exact OSet.sorted_insert h2
      · intro x
        split
        · rename_i hy
          rw [h3]
          simp only [List.mem_cons, exists_eq_or_imp, List.head?_cons, Option.some.injEq]
          constructor
          · rintro ⟨h4, h5⟩; exact ⟨h4, Or.inr h5⟩
          · rintro ⟨h4, h5⟩
            refine ⟨h4, ?_⟩
            rcases h5 with h5 | h5
            · subst h5; exact absurd hy h4
            · exact h5
        · rename_i hy
          rw [OSet.mem_insert, h3]
          simp only [List.mem_cons, exists_eq_or_imp, List.head?_cons, Option.some.injEq]
          constructor
          · rintro (rfl | ⟨h4, h5⟩)
            · exact ⟨hy, Or.inl rfl⟩
            · exact ⟨h4, Or.inr h5⟩
          · rintro ⟨h4, rfl | h5⟩
            · exact Or.inl rfl
            · exact Or.inr ⟨h4, h5⟩

theorem ruleFirsts_panic {rule : Rule T} {ps : List (Production T)} (h : ∃ p ∈ ps, p.1 = []) :
    ruleFirsts rule ps = .panic .emptyProduction := by
  induction ps with
  | nil => obtain ⟨p, hp, _⟩ := h; simp at hp
  | cons p ps ih =>
    obtain ⟨b, i⟩ := p
    cases b with
    | nil => rfl
    | cons y ys =>
      unfold ruleFirsts
      obtain ⟨q, hq, hq'⟩ := h
      rcases List.mem_cons.mp hq with rfl | hq
      · cases hq'
      · rw [ih ⟨q, hq, hq'⟩]; rfl

variable {g : Grammar T} {D : Decls T} {S eof : T}

theorem genFirst_eq (g : Grammar T) : genFirst g = g.rules.foldlM (fun table e =>
    (ruleFirsts e.2 e.2.prods >>= fun firsts => .ok (OMap.insert e.2.name firsts table))) [] := by
  unfold genFirst OMap.values
  rw [List.foldlM_map]
  rfl

/-- `gen_first` returns exactly when no production is empty … -/
theorem genFirst_ok (hg : g.Of D S eof) (hne : NoEmpty D) : ∃ X, genFirst g = .ok X := by
  rw [genFirst_eq]
  refine foldlM_insert_total (F := fun e => ruleFirsts e.2 e.2.prods) ?_ ?_
  · intro tab e he
    have hr : g.rules.get? e.1 = some e.2 := OMap.get?_of_mem hg.sorted he
    rw [hg.name hr]
  · intro e he
    have hr : g.rules.get? e.1 = some e.2 := OMap.get?_of_mem hg.sorted he
    obtain ⟨s, h, _⟩ := ruleFirsts_ok (rule := e.2) (ps := e.2.prods)
      (fun p hp => hne _ _ _ ((hg.prods hr p).mp hp))
    exact ⟨s, h⟩

theorem genFirst_panic (hg : g.Of D S eof) (hne : ¬ NoEmpty D) :
    genFirst g = .panic .emptyProduction := by
  have h : ∃ e ∈ g.rules, ruleFirsts e.2 e.2.prods = .panic .emptyProduction := by
    unfold NoEmpty at hne
    simp only [Classical.not_forall, ne_eq, Classical.not_not] at hne
    obtain ⟨A, i, b, hp, hb⟩ := hne; subst hb
    obtain ⟨r, h1, h2⟩ := hg.of_isProd hp
    exact ⟨(A, r), OMap.mem_of_get? h1, ruleFirsts_panic ⟨_, h2, rfl⟩⟩
  have h' : ∀ e ∈ g.rules, ruleFirsts e.2 e.2.prods = .panic .emptyProduction ∨
      ∃ s, ruleFirsts e.2 e.2.prods = .ok s := by
    intro e _
    by_cases hx : ∃ p ∈ e.2.prods, p.1 = []
    · exact Or.inl (ruleFirsts_panic hx)
    · obtain ⟨s, h, _⟩ := ruleFirsts_ok (rule := e.2) (ps := e.2.prods)
        (fun p hp hn => hx ⟨p, hp, hn⟩)
      exact Or.inr ⟨s, h⟩
  rw [genFirst_eq]
  generalize ([] : Table T) = tab
  revert h h' tab
  generalize g.rules = l
  intro h h' tab
  induction l generalizing tab with
  | nil => obtain ⟨e, he, _⟩ := h; simp at he
  | cons e l ih =>
    rw [List.foldlM_cons]
    rcases h' e (by simp) with hp | ⟨s, hs⟩
    · rw [hp]; rfl
    · rw [hs]
      simp only [Out.ok_bind]
      refine ih ?_ (fun e he => h' e (List.mem_cons_of_mem _ he)) _
      obtain ⟨e', he', hp⟩ := h
      rcases List.mem_cons.mp he' with rfl | he'
      · rw [hs] at hp; cases hp
      · exact ⟨e', he', hp⟩

/-- A table with an entry (a sorted set) for every nonterminal, all of whose members are terminals
or nonterminals with an entry. -/
structure FirstTable (D : Decls T) (X : Table T) : Prop where
  sorted : OMap.Sorted X
  sets : ∀ A s, X.get? A = some s → OSet.Sorted s
  keys : ∀ A, (∃ s, X.get? A = some s) ↔ Nonterminal D A

theorem FirstTable.has_nonterminal {X : Table T} (h : FirstTable D X) {A x : T} (hx : Has X A x) :
    ¬ Terminal D A := by
  obtain ⟨s, hs, _⟩ := hx
  exact not_terminal_iff.mpr ((h.keys A).mp ⟨s, hs⟩)

theorem noEmpty_of_genFirst (hg : g.Of D S eof) {X : Table T} (h : genFirst g = .ok X) :
    NoEmpty D := by
  refine Classical.byContradiction (fun hne => ?_)
  rw [genFirst_panic hg hne] at h; cases h

theorem genFirst_spec (hg : g.Of D S eof) {X : Table T} (h : genFirst g = .ok X) :
    FirstTable D X ∧ ∀ A x, Has X A x ↔ x ≠ A ∧ LeftEdge D A x := by
  have hne := noEmpty_of_genFirst hg h
  rw [genFirst_eq] at h
  have hrf : ∀ A r, g.rules.get? A = some r →
      ∃ s, ruleFirsts r r.prods = .ok s ∧ OSet.Sorted s ∧ ∀ x, x ∈ s ↔ x ≠ A ∧ LeftEdge D A x := by
    intro A r hr
    obtain ⟨s, h1, h2, h3⟩ := ruleFirsts_ok (rule := r) (ps := r.prods)
      (fun p hp => hne _ _ _ ((hg.prods hr p).mp hp))
    refine ⟨s, h1, h2, fun x => ?_⟩
    rw [h3, hg.name hr]
    refine and_congr Iff.rfl ?_
    constructor
    · rintro ⟨p, hp, hx⟩
      obtain ⟨b, i⟩ := p
      cases b with
      | nil => cases hx
      | cons y ys =>
        cases hx
        exact ⟨i, ys, (hg.prods hr _).mp hp⟩
    · rintro ⟨i, b, hp⟩
      exact ⟨(x :: b, i), (hg.prods hr _).mpr hp, rfl⟩
  have key := foldlM_insert (F := fun e => ruleFirsts e.2 e.2.prods) hg.sorted (by
    intro tab e he
    have hr : g.rules.get? e.1 = some e.2 := OMap.get?_of_mem hg.sorted he
    rw [hg.name hr]) h
  refine ⟨⟨key.1, ?_, ?_⟩, ?_⟩
  · intro A s hs
    obtain ⟨r, h1, h2⟩ := (key.2 A s).mp hs
    obtain ⟨s', h3, h4, _⟩ := hrf A r h1
    simp only [h3, Out.ok.injEq] at h2
    exact h2 ▸ h4
  · intro A
    constructor
    · rintro ⟨s, hs⟩
      obtain ⟨r, h1, h2⟩ := (key.2 A s).mp hs
      rw [← not_terminal_iff, ← hg.get?_none, h1]; simp
    · intro hA
      obtain ⟨r, hr⟩ := hg.exists_rule hA
      obtain ⟨s', h3, h4, _⟩ := hrf A r hr
      exact ⟨s', (key.2 A s').mpr ⟨r, hr, h3⟩⟩
  · intro A x
    constructor
    · rintro ⟨s, hs, hx⟩
      obtain ⟨r, h1, h2⟩ := (key.2 A s).mp hs
      obtain ⟨s', h3, h4, h5⟩ := hrf A r h1
      simp only [h3, Out.ok.injEq] at h2
      subst h2
      exact (h5 x).mp hx
    · rintro ⟨hx, i, b, hp⟩
      obtain ⟨r, h1, _⟩ := hg.of_isProd hp
      obtain ⟨s', h3, h4, h5⟩ := hrf A r h1
      exact ⟨s', (key.2 A s').mpr ⟨r, h1, h3⟩, (h5 x).mpr ⟨hx, i, b, hp⟩⟩

/-! ### one step -/

theorem firstStepSet_spec (hg : g.Of D S eof) {X : Table T} (hX : FirstTable D X) (s : OSet T) :
    ∃ r, firstStepSet g X s = .ok r ∧ OSet.Sorted r ∧
      ∀ x, x ∈ r ↔ ∃ y ∈ s, (Terminal D y ∧ x = y) ∨ (¬ Terminal D y ∧ Has X y x) := by
  unfold firstStepSet
  suffices ∀ (acc : OSet T), OSet.Sorted acc → ∃ r, (s.foldlM (fun acc first =>
      if g.isTerminal first then return OSet.insert first acc
      else do
        let s ← Out.ofOption .unlistedSymbol (X.get? first)
        return OSet.extend acc s) acc : Out (OSet T)) = .ok r ∧ OSet.Sorted r ∧
      ∀ x, x ∈ r ↔ x ∈ acc ∨ ∃ y ∈ s, (Terminal D y ∧ x = y) ∨ (¬ Terminal D y ∧ Has X y x) by
    obtain ⟨r, h1, h2, h3⟩ := this [] OSet.sorted_nil
    exact ⟨r, h1, h2, by simpa using h3⟩
  induction s with
  | nil => intro acc ha; exact ⟨acc, rfl, ha, by simp⟩
  | cons y s ih =>
    intro acc ha
    rw [List.foldlM_cons]
    by_cases hy : Terminal D y
    · simp only [(hg.isTerminal y).mpr hy, if_true, Out.pure_eq, Out.ok_bind]
      obtain ⟨r, h1, h2, h3⟩ := ih (OSet.insert y acc) (OSet.sorted_insert ha)
      refine ⟨r, h1, h2, fun x => ?_⟩
      rw [h3, OSet.mem_insert]
      simp only [List.mem_cons, exists_eq_or_imp, hy, true_and, not_true_eq_false, false_and,
        or_false, or_assoc]
      exact or_left_comm
    · have hf : g.isTerminal y = false := (hg.isTerminal_false y).mpr (not_terminal_iff.mp hy)
      obtain ⟨sy, hsy⟩ := (hX.keys y).mpr (not_terminal_iff.mp hy)
      simp only [hf, Bool.false_eq_true, if_false, hsy, Out.ofOption_some, Out.pure_eq, Out.ok_bind]
      obtain ⟨r, h1, h2, h3⟩ := ih (OSet.extend acc sy) (OSet.sorted_extend ha)
      refine ⟨r, h1, h2, fun x => ?_⟩
      rw [h3, OSet.mem_extend]
      have : Has X y x ↔ x ∈ sy := by simp [Has, hsy]
      simp only [List.mem_cons, exists_eq_or_imp, hy, false_and, not_false_eq_true, true_and,
        false_or, or_assoc, this]

theorem firstStep_spec (hg : g.Of D S eof) {X : Table T} (hX : FirstTable D X) :
    ∃ Y, firstStep g X = .ok Y ∧ FirstTable D Y ∧
      ∀ A x, Has Y A x ↔ Doubling.step (Terminal D) (Has X) A x := by
  have hf : ∀ tab, ∀ e ∈ X, (fun (table : Table T) (e : T × OSet T) => (do
      let s ← firstStepSet g X e.2
      return OMap.insert e.1 (OSet.remove e.1 s) table : Out (Table T))) tab e =
      ((fun e : T × OSet T => (firstStepSet g X e.2 >>= fun s => .ok (OSet.remove e.1 s) : Out (OSet T))) e >>=
        fun s => .ok (OMap.insert e.1 s tab)) := by
    intro tab e _
    cases h : firstStepSet g X e.2 <;> simp [h]
  obtain ⟨Y, hY⟩ := foldlM_insert_total hf (by
    intro e _
    obtain ⟨r, h, _⟩ := firstStepSet_spec hg hX e.2
    exact ⟨OSet.remove e.1 r, by simp only [h, Out.ok_bind]⟩)
  have key := foldlM_insert hX.sorted hf hY
  have key2 : ∀ A s', Y.get? A = some s' ↔ ∃ s r, X.get? A = some s ∧
      firstStepSet g X s = .ok r ∧ s' = OSet.remove A r := by
    intro A s'
    rw [key.2]
    constructor
    · rintro ⟨v, h1, h2⟩
      simp only [Out.bind_eq_ok, Out.ok.injEq] at h2
      obtain ⟨r, h3, h4⟩ := h2
      exact ⟨v, r, h1, h3, h4.symm⟩
    · rintro ⟨s, r, h1, h2, rfl⟩
      exact ⟨s, h1, by simp only [h2, Out.ok_bind]⟩
  refine ⟨Y, hY, ⟨key.1, ?_, ?_⟩, ?_⟩
  · intro A s' hs'
    obtain ⟨s, r, h1, h2, rfl⟩ := (key2 A s').mp hs'
    obtain ⟨r', h3, h4, _⟩ := firstStepSet_spec hg hX s
    rw [h2] at h3; cases h3
    exact OSet.sorted_remove h4
  · intro A
    rw [← hX.keys A]
    constructor
    · rintro ⟨s', hs'⟩
      obtain ⟨s, r, h1, h2, rfl⟩ := (key2 A s').mp hs'
      exact ⟨s, h1⟩
    · rintro ⟨s, hs⟩
      obtain ⟨r', h3, h4, _⟩ := firstStepSet_spec hg hX s
      exact ⟨_, (key2 A _).mpr ⟨s, r', hs, h3, rfl⟩⟩
  · intro A x
    constructor
    · rintro ⟨s', hs', hx⟩
      obtain ⟨s, r, h1, h2, rfl⟩ := (key2 A s').mp hs'
      obtain ⟨r', h3, h4, h5⟩ := firstStepSet_spec hg hX s
      rw [h2] at h3; cases h3
      rw [OSet.mem_remove] at hx
      obtain ⟨y, hy, h6⟩ := (h5 x).mp hx.1
      exact ⟨hx.2, y, ⟨s, h1, hy⟩, h6⟩
    · rintro ⟨hx, y, ⟨s, h1, hy⟩, h6⟩
      obtain ⟨r', h3, h4, h5⟩ := firstStepSet_spec hg hX s
      exact ⟨_, (key2 A _).mpr ⟨s, r', h1, h3, rfl⟩,
        OSet.mem_remove.mpr ⟨(h5 x).mpr ⟨y, hy, h6⟩, hx⟩⟩

theorem firstTable_ext {X Y : Table T} (hX : FirstTable D X) (hY : FirstTable D Y)
    (h : ∀ A x, Has X A x ↔ Has Y A x) : X = Y := by
  refine OMap.ext hX.sorted hY.sorted (fun A => ?_)
  by_cases hA : Nonterminal D A
  · obtain ⟨s, hs⟩ := (hX.keys A).mpr hA
    obtain ⟨t, ht⟩ := (hY.keys A).mpr hA
    rw [hs, ht]
    congr 1
    refine OSet.ext (hX.sets A s hs) (hY.sets A t ht) (fun x => ?_)
    have := h A x
    simpa [Has, hs, ht] using this
  · cases hs : X.get? A with
    | some s => exact absurd ((hX.keys A).mp ⟨s, hs⟩) hA
    | none =>
      cases ht : Y.get? A with
      | some t => exact absurd ((hY.keys A).mp ⟨t, ht⟩) hA
      | none => rfl

/-! ### the fixpoint -/

/-- What a returning FIRST computation returns. -/
theorem first_fix (hg : g.Of D S eof) {X Y : Table T} {n : Nat} (hX : FirstTable D X)
    (h : transitive (firstStep g) n X = .ok Y) :
    FirstTable D Y ∧ ∀ A t, Terminal D t →
      (Has Y A t ↔ Doubling.Reach (Terminal D) (Has X) A t) := by
  have key := transitive_inv (P := fun Y => FirstTable D Y ∧
    ∃ k, Has Y = Doubling.iter (Terminal D) (Has X) k) h ⟨hX, 0, rfl⟩ (by
    rintro Z Z' ⟨h1, k, h2⟩ h3
    obtain ⟨Z2, h4, h5, h6⟩ := firstStep_spec hg h1
    rw [h4] at h3; cases h3
    refine ⟨h5, k + 1, ?_⟩
    funext A x
    rw [h2] at h6
    exact propext (h6 A x))
  obtain ⟨⟨h1, k, h2⟩, h3⟩ := key
  refine ⟨h1, fun A t ht => ?_⟩
  obtain ⟨Z2, h4, h5, h6⟩ := firstStep_spec hg h1
  rw [h3] at h4; cases h4
  rw [h2]
  refine Doubling.fix_exact (fun A x hx => hX.has_nonterminal hx) ?_ ht
  rw [← h2]
  funext A x
  exact propext (h6 A x).symm

end Tabler

end Lrp
