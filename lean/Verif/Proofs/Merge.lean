import Verif.Proofs.Auto
import Verif.Model.Lalr

/-! `Parser::merged`, `Lalr::without_look` and cores. -/

set_option linter.unusedSectionVars false

namespace Lrp
open Spec
variable {T : Type} [LinOrd T] [DecidableEq T]

theorem bodyEq_iff {p q : Position T} : p.bodyEq q = true ↔ SameBody p q := by
  unfold Position.bodyEq SameBody
  simp only [Bool.and_eq_true, decide_eq_true_eq]
  constructor
  · rintro ⟨⟨h1, h2⟩, h3⟩; exact ⟨h3, h2, h1⟩
  · rintro ⟨h1, h2, h3⟩; exact ⟨⟨h3, h2⟩, h1⟩

/-- `m` holds one position per body of `s`, with the union of the lookaheads. -/
structure MergedOf (s : List (Position T)) (m : State T) : Prop where
  sorted : OSet.Sorted m
  body : ∀ q ∈ m, ∃ p ∈ s, SameBody p q
  cover : ∀ p ∈ s, ∃ q ∈ m, SameBody p q
  unique : ∀ q ∈ m, ∀ q' ∈ m, SameBody q q' → q = q'
  look : ∀ q ∈ m, ∀ x, x ∈ q.look ↔ ∃ p ∈ s, SameBody p q ∧ x ∈ p.look
  looks : (∀ p ∈ s, IsSet p.look) → ∀ q ∈ m, IsSet q.look

theorem mergeOne_spec {pre : List (Position T)} {m : State T} (h : MergedOf pre m)
    (p : Position T) : MergedOf (pre ++ [p]) (mergeOne m p) := by
  unfold mergeOne
  cases hf : m.find? (fun key => key.bodyEq p) with
  | some key =>
    have hk := List.mem_of_find?_eq_some hf
    have hb : SameBody key p := bodyEq_iff.mp (by simpa using List.find?_some hf)
    simp only
    have hmem : ∀ q, q ∈ OSet.insert { p with look := OSet.extend p.look key.look } (OSet.remove key m) ↔
        q = { p with look := OSet.extend p.look key.look } ∨ (q ∈ m ∧ q ≠ key) := by
      intro q; rw [OSet.mem_insert, OSet.mem_remove]
    have hnew : SameBody p { p with look := OSet.extend p.look key.look } := ⟨rfl, rfl, rfl⟩
    refine ⟨OSet.sorted_insert (OSet.sorted_remove h.sorted), ?_, ?_, ?_, ?_, ?_⟩
    · intro q hq
      rcases (hmem q).mp hq with rfl | ⟨hqm, _⟩
      · exact ⟨p, by simp, hnew⟩
      · obtain ⟨p', hp', hs⟩ := h.body q hqm
        exact ⟨p', by simp [hp'], hs⟩
    · intro p' hp'
      rcases List.mem_append.mp hp' with hp' | hp'
      · obtain ⟨q, hq, hs⟩ := h.cover p' hp'
        by_cases hqk : q = key
        · subst hqk
          exact ⟨_, (hmem _).mpr (Or.inl rfl), hs.trans (hb.trans hnew)⟩
        · exact ⟨q, (hmem q).mpr (Or.inr ⟨hq, hqk⟩), hs⟩
      · simp at hp'; subst hp'
        exact ⟨_, (hmem _).mpr (Or.inl rfl), hnew⟩
    · intro q hq q' hq' hs
      rcases (hmem q).mp hq with rfl | ⟨hqm, hqk⟩ <;> rcases (hmem q').mp hq' with rfl | ⟨hq', hqk'⟩
      · rfl
      · exact absurd (h.unique q' hq' key hk (hs.symm.trans (hnew.symm.trans hb.symm))) hqk'
      · exact absurd (h.unique q hqm key hk (hs.trans (hnew.symm.trans hb.symm))) hqk
      · exact h.unique q hqm q' hq' hs
    · intro q hq x
      rcases (hmem q).mp hq with rfl | ⟨hqm, hqk⟩
      · simp only [OSet.mem_extend]
        rw [h.look key hk x]
        constructor
        · rintro (hx | ⟨p', hp', hs, hx⟩)
          · exact ⟨p, by simp, hnew, hx⟩
          · exact ⟨p', by simp [hp'], hs.trans (hb.trans hnew), hx⟩
        · rintro ⟨p', hp', hs, hx⟩
          rcases List.mem_append.mp hp' with hp' | hp'
          · exact Or.inr ⟨p', hp', hs.trans (hnew.symm.trans hb.symm), hx⟩
          · simp at hp'; subst hp'; exact Or.inl hx
      · rw [h.look q hqm x]
        constructor
        · rintro ⟨p', hp', hs, hx⟩; exact ⟨p', by simp [hp'], hs, hx⟩
        · rintro ⟨p', hp', hs, hx⟩
          rcases List.mem_append.mp hp' with hp' | hp'
          · exact ⟨p', hp', hs, hx⟩
          · simp at hp'; subst hp'
            exact absurd (h.unique q hqm key hk (hs.symm.trans hb.symm)) hqk
    · intro hset q hq
      rcases (hmem q).mp hq with rfl | ⟨hqm, hqk⟩
      · exact OSet.sorted_extend (hset p (by simp))
      · exact h.looks (fun p' hp' => hset p' (by simp [hp'])) q hqm
  | none =>
    have hn : ∀ q ∈ m, ¬ SameBody q p := by
      intro q hq hs
      have := List.find?_eq_none.mp hf q hq
      exact this (bodyEq_iff.mpr hs)
    simp only
    refine ⟨OSet.sorted_insert h.sorted, ?_, ?_, ?_, ?_, ?_⟩
    · intro q hq
      rcases OSet.mem_insert.mp hq with rfl | hqm
      · exact ⟨q, by simp, .refl _⟩
      · obtain ⟨p', hp', hs⟩ := h.body q hqm
        exact ⟨p', by simp [hp'], hs⟩
    · intro p' hp'
      rcases List.mem_append.mp hp' with hp' | hp'
      · obtain ⟨q, hq, hs⟩ := h.cover p' hp'
        exact ⟨q, OSet.mem_insert.mpr (Or.inr hq), hs⟩
      · simp at hp'; subst hp'
        exact ⟨p', OSet.mem_insert.mpr (Or.inl rfl), .refl _⟩
    · intro q hq q' hq' hs
      rcases OSet.mem_insert.mp hq with rfl | hqm <;> rcases OSet.mem_insert.mp hq' with rfl | hq'
      · rfl
      · exact absurd hs.symm (hn q' hq')
      · exact absurd hs (hn q hqm)
      · exact h.unique q hqm q' hq' hs
    · intro q hq x
      rcases OSet.mem_insert.mp hq with rfl | hqm
      · constructor
        · intro hx; exact ⟨q, by simp, .refl _, hx⟩
        · rintro ⟨p', hp', hs, hx⟩
          rcases List.mem_append.mp hp' with hp' | hp'
          · obtain ⟨q', hq', hs'⟩ := h.cover p' hp'
            exact absurd (hs'.symm.trans hs) (hn q' hq')
          · simp at hp'; subst hp'; exact hx
      · rw [h.look q hqm x]
        constructor
        · rintro ⟨p', hp', hs, hx⟩; exact ⟨p', by simp [hp'], hs, hx⟩
        · rintro ⟨p', hp', hs, hx⟩
          rcases List.mem_append.mp hp' with hp' | hp'
          · exact ⟨p', hp', hs, hx⟩
          · simp at hp'; subst hp'
            exact absurd hs.symm (hn q hqm)
    · intro hset q hq
      rcases OSet.mem_insert.mp hq with rfl | hqm
      · exact hset q (by simp)
      · exact h.looks (fun p' hp' => hset p' (by simp [hp'])) q hqm

theorem merged_spec (s : List (Position T)) : MergedOf s (merged s) := by
  unfold merged
  have : MergedOf ([] : List (Position T)) ([] : State T) :=
    ⟨OSet.sorted_nil, by simp, by simp, by simp, by simp, by simp⟩
  exact foldl_inv' (P := fun pre m => MergedOf pre m) this
    (fun pre p m _ _ h => mergeOne_spec h p)

/-- The merged form is determined by the bodies and lookaheads. -/
theorem MergedOf.eq {s s' : List (Position T)} {m m' : State T} (h : MergedOf s m)
    (h' : MergedOf s' m') (hs : ∀ p ∈ s, IsSet p.look) (hs' : ∀ p ∈ s', IsSet p.look)
    (hb : ∀ p ∈ s, ∃ q ∈ s', SameBody p q) (hb' : ∀ p ∈ s', ∃ q ∈ s, SameBody p q)
    (hl : ∀ p ∈ s, ∀ x ∈ p.look, ∃ q ∈ s', SameBody p q ∧ x ∈ q.look)
    (hl' : ∀ p ∈ s', ∀ x ∈ p.look, ∃ q ∈ s, SameBody p q ∧ x ∈ q.look) : m = m' := by
  have key : ∀ {s s' : List (Position T)} {m m' : State T}, MergedOf s m → MergedOf s' m' →
      (∀ p ∈ s, IsSet p.look) → (∀ p ∈ s', IsSet p.look) →
      (∀ p ∈ s, ∃ q ∈ s', SameBody p q) →
      (∀ p ∈ s, ∀ x ∈ p.look, ∃ q ∈ s', SameBody p q ∧ x ∈ q.look) →
      (∀ p ∈ s', ∀ x ∈ p.look, ∃ q ∈ s, SameBody p q ∧ x ∈ q.look) → ∀ q ∈ m, q ∈ m' := by
    intro s s' m m' h h' hs hs' hb hl hl' q hq
    obtain ⟨p, hp, h1⟩ := h.body q hq
    obtain ⟨p', hp', h2⟩ := hb p hp
    obtain ⟨q', hq', h3⟩ := h'.cover p' hp'
    have hqq : SameBody q q' := h1.symm.trans (h2.trans h3)
    have hlook : q.look = q'.look := by
      refine OSet.ext (h.looks hs q hq) (h'.looks hs' q' hq') (fun x => ?_)
      rw [h.look q hq, h'.look q' hq']
      constructor
      · rintro ⟨r, hr, hrb, hx⟩
        obtain ⟨r', hr', hrb', hx'⟩ := hl r hr x hx
        exact ⟨r', hr', hrb'.symm.trans (hrb.trans hqq), hx'⟩
      · rintro ⟨r, hr, hrb, hx⟩
        obtain ⟨r', hr', hrb', hx'⟩ := hl' r hr x hx
        exact ⟨r', hr', hrb'.symm.trans (hrb.trans hqq.symm), hx'⟩
    have : q = q' := by
      obtain ⟨a, b, c, d⟩ := q
      obtain ⟨a', b', c', d'⟩ := q'
      obtain ⟨e1, e2, e3⟩ := hqq
      simp only at e1 e2 e3 hlook
      subst e1; subst e2; subst e3; subst hlook; rfl
    rw [this]; exact hq'
  exact OSet.ext h.sorted h'.sorted (fun q => ⟨key h h' hs hs' hb hl hl' q, key h' h hs' hs hb' hl' hl q⟩)

/-! ### Cores -/

theorem noLook_eq {p q : Position T} : p.noLook = q.noLook ↔ SameBody p q := by
  unfold Position.noLook SameBody
  simp

theorem noLook_same (p : Position T) : SameBody p.noLook p := ⟨rfl, rfl, rfl⟩

theorem mem_core {s : State T} {c : Position T} :
    c ∈ Lalr.withoutLook s ↔ ∃ p ∈ s, p.noLook = c := by
  unfold Lalr.withoutLook
  rw [OSet.mem_ofList, List.mem_map]

theorem sorted_core (s : State T) : OSet.Sorted (Lalr.withoutLook s) := OSet.sorted_ofList _

theorem core_nil : Lalr.withoutLook ([] : State T) = [] := rfl

theorem core_ne_nil {s : State T} (h : s ≠ []) : Lalr.withoutLook s ≠ [] := by
  obtain ⟨p, hp⟩ := List.exists_mem_of_ne_nil _ h
  intro e
  have : p.noLook ∈ Lalr.withoutLook s := mem_core.mpr ⟨p, hp, rfl⟩
  rw [e] at this; simp at this

theorem core_ext {s s' : State T} (h : ∀ p ∈ s, ∃ q ∈ s', SameBody p q)
    (h' : ∀ p ∈ s', ∃ q ∈ s, SameBody p q) : Lalr.withoutLook s = Lalr.withoutLook s' := by
  refine OSet.ext (sorted_core s) (sorted_core s') (fun c => ?_)
  rw [mem_core, mem_core]
  constructor
  · rintro ⟨p, hp, rfl⟩
    obtain ⟨q, hq, hb⟩ := h p hp
    exact ⟨q, hq, noLook_eq.mpr hb.symm⟩
  · rintro ⟨p, hp, rfl⟩
    obtain ⟨q, hq, hb⟩ := h' p hp
    exact ⟨q, hq, noLook_eq.mpr hb.symm⟩

theorem same_of_core {s s' : State T} (h : Lalr.withoutLook s = Lalr.withoutLook s') {p : Position T}
    (hp : p ∈ s) : ∃ q ∈ s', SameBody p q := by
  have : p.noLook ∈ Lalr.withoutLook s' := by rw [← h]; exact mem_core.mpr ⟨p, hp, rfl⟩
  obtain ⟨q, hq, hb⟩ := mem_core.mp this
  exact ⟨q, hq, noLook_eq.mp hb.symm⟩

theorem core_merged (s : State T) : Lalr.withoutLook (merged s) = Lalr.withoutLook s := by
  have h := merged_spec s
  refine core_ext ?_ ?_
  · intro q hq
    obtain ⟨p, hp, hb⟩ := h.body q hq
    exact ⟨p, hp, hb.symm⟩
  · intro p hp
    obtain ⟨q, hq, hb⟩ := h.cover p hp
    exact ⟨q, hq, hb⟩

theorem core_union {a b : State T} (h : Lalr.withoutLook a = Lalr.withoutLook b) :
    Lalr.withoutLook (OSet.ofList (a ++ b)) = Lalr.withoutLook b := by
  refine core_ext ?_ ?_
  · intro p hp
    rw [OSet.mem_ofList] at hp
    rcases List.mem_append.mp hp with hp | hp
    · exact same_of_core h hp
    · exact ⟨p, hp, .refl _⟩
  · intro p hp
    exact ⟨p, by simp [hp], .refl _⟩

theorem core_symFilter (s : State T) (X : T) :
    Lalr.withoutLook (Tabler.symFilter s X) = Tabler.symFilter (Lalr.withoutLook s) X := by
  refine OSet.ext (sorted_core _) (sorted_symFilter _ _) (fun c => ?_)
  rw [mem_core, mem_symFilter]
  constructor
  · rintro ⟨q, hq, rfl⟩
    obtain ⟨p, hp, ht, rfl⟩ := mem_symFilter.mp hq
    exact ⟨p.noLook, mem_core.mpr ⟨p, hp, rfl⟩, ht, rfl⟩
  · rintro ⟨p', hp', ht, rfl⟩
    obtain ⟨p, hp, rfl⟩ := mem_core.mp hp'
    exact ⟨p.adv, mem_symFilter.mpr ⟨p, hp, ht, rfl⟩, rfl⟩

/-- The closure of the core is the core of the closure. -/
theorem core_clo {rules : RuleMap T} {lk : Position T → OSet T} {K s : State T}
    (h : IsClo rules lk K s) : IsClo rules (fun _ => []) (Lalr.withoutLook K) (Lalr.withoutLook s) := by
  refine ⟨sorted_core s, fun c => ?_⟩
  rw [mem_core]
  constructor
  · rintro ⟨p, hp, rfl⟩
    have := (h.mem p).mp hp
    clear hp
    induction this with
    | base hb => exact .base (mem_core.mpr ⟨_, hb, rfl⟩)
    | step _ ha ih =>
      obtain ⟨A, r, prod, h1, h2, h3, rfl⟩ := ha
      exact .step ih ⟨A, r, prod, h1, h2, h3, rfl⟩
  · intro hc
    induction hc with
    | base hb =>
      obtain ⟨p, hp, rfl⟩ := mem_core.mp hb
      exact ⟨p, (h.mem p).mpr (.base hp), rfl⟩
    | step _ ha ih =>
      obtain ⟨p, hp, rfl⟩ := ih
      obtain ⟨A, r, prod, h1, h2, h3, rfl⟩ := ha
      refine ⟨{ rule := A, seq := prod, point := 0, look := lk p }, ?_, rfl⟩
      exact (h.mem _).mpr (.step ((h.mem p).mp hp) ⟨A, r, prod, h1, h2, h3, rfl⟩)

end Lrp
