import Verif.Proofs.LalrAuto

/-! The table of `Lalr` against the specification in Spec/Lr.lean. -/

set_option linter.unusedSectionVars false

namespace Lrp
open Spec
variable {T : Type} [LinOrd T] [DecidableEq T]

local notation "core" => Lalr.withoutLook

section
variable {l : Lalr T} {D : Decls T} {S eof : T} {t0 : Tabler T} {G : Position T → Prop}

theorem adds_noLk_iff (h : t0.Of D S eof) {p q : Position T} :
    Adds t0.grammar.rules noLk p q ↔ Expands0 D p q := by
  constructor
  · intro ha
    obtain ⟨h1, h2, h3, h4⟩ := adds_prod h.grammar ha
    exact ⟨h1, h2, h3, h4⟩
  · rintro ⟨h1, h2, h3, h4⟩
    have := adds_of_prod h.grammar (lk := noLk) h1 h2
    obtain ⟨r, ⟨b, k⟩, pt, l⟩ := q
    simp only at h3 h4; subst h3; subst h4
    exact this

theorem hasCore_iff {s : State T} {P : Position T → Prop} :
    HasCore s P ↔ ∀ q, P q ↔ q ∈ core s := by
  unfold HasCore
  refine forall_congr' fun q => ?_
  rw [mem_core]; rfl

theorem clo_coreNext (h : t0.Of D S eof) {s : State T} {x : T} {q : Position T} :
    Clo t0.grammar.rules noLk (Tabler.symFilter (core s) x) q ↔ CoreNext D s x q := by
  constructor
  · intro hq
    induction hq with
    | base hq =>
      obtain ⟨c, hc, ht, rfl⟩ := mem_symFilter.mp hq
      obtain ⟨p, hp, rfl⟩ := mem_core.mp hc
      exact .adv hp ht
    | step _ ha ih => exact .expand ih ((adds_noLk_iff h).mp ha)
  · intro hq
    induction hq with
    | @adv p hp ha =>
      exact .base (mem_symFilter.mpr ⟨p.noLook, mem_core.mpr ⟨p, hp, rfl⟩, ha, rfl⟩)
    | expand _ ha ih => exact .step ih ((adds_noLk_iff h).mpr ha)

theorem clo_coreStart (h : t0.Of D S eof) {b0 : List T} (hb : IsProd D S 0 b0) {q : Position T} :
    Clo t0.grammar.rules noLk [t0.basisPos.noLook] q ↔ CoreStart D S b0 q := by
  have hbase : t0.basisPos.noLook = { rule := S, seq := (b0, 0), point := 0, look := [] } := by
    obtain ⟨b, hb', he⟩ := h.grammar.basis
    have he' : t0.basisPos = _ := he
    rw [he', hb'.unique hb]; rfl
  rw [hbase]
  constructor
  · intro hq
    induction hq with
    | base hq => simp at hq; subst hq; exact .basis
    | step _ ha ih => exact .expand ih ((adds_noLk_iff h).mp ha)
  · intro hq
    induction hq with
    | basis => exact .base (by simp)
    | expand _ ha ih => exact .step ih ((adds_noLk_iff h).mpr ha)

/-- The kernel of a core closure is its positions with a positive point. -/
theorem clo_kernel (h : t0.Of D S eof) {s c : State T} {x : T}
    (hc : IsClo t0.grammar.rules noLk (Tabler.symFilter s x) c) (q : Position T) :
    q ∈ Tabler.symFilter s x ↔ q ∈ c ∧ 0 < q.point := by
  constructor
  · intro hq
    refine ⟨(hc.mem q).mpr (.base hq), ?_⟩
    obtain ⟨p, _, _, rfl⟩ := mem_symFilter.mp hq
    exact Nat.succ_pos _
  · rintro ⟨hq, hpos⟩
    refine ((hc.mem q).mp hq).closed_sub (P := fun q => 0 < q.point → q ∈ Tabler.symFilter s x)
      (fun p hp _ => hp) ?_ hpos
    intro p q _ ha h0
    have := (adds_prod h.grammar ha).2.2.1
    omega

/-- Different states have different cores. -/
theorem LBuilt.core_inj (h : LBuilt l D S eof t0 G) {i j : Nat} {s s' : State T}
    (hs : l.table.states[i]? = some s) (hs' : l.table.states[j]? = some s')
    (he : core s = core s') : i = j := by
  obtain ⟨b0, hb0, _⟩ := h.of.grammar.basis
  have hauto := h.auto hb0
  obtain ⟨l0, h0, e1, e2, e3⟩ := h.coll
  rw [← e2] at hs hs'
  have hpos : ∀ {i : Nat} {s : State T}, l0.table.states[i]? = some s → i ≠ 0 →
      ∃ K, l0.table.kernels.get? K = some i ∧ l0.raws.get? (core K) = some K ∧
        (∃ q, q ∈ core K) ∧ ∀ q, q ∈ core K ↔ q ∈ core s ∧ 0 < q.point := by
    intro i s hs hi
    obtain ⟨K, hK⟩ := h0.inv.surj i (List.getElem?_eq_some_iff.mp hs).1
    obtain ⟨k1, ⟨s1, h1, h2⟩, j, sj, X, h3, h4, h5, h6⟩ := h0.inv.kern K i hK hi
    rw [hs] at h1; cases h1
    refine ⟨K, hK, k1, ?_, ?_⟩
    · have hne : K ≠ [] := by
        rintro rfl
        rw [h0.inv.zero] at hK; cases hK; exact hi rfl
      exact List.exists_mem_of_ne_nil _ (core_ne_nil hne)
    · rw [h6] at h2 ⊢
      exact clo_kernel h.of h2
  have hzero : ∀ {s : State T}, l0.table.states[0]? = some s → ∀ q ∈ core s, q.point = 0 := by
    intro s hs q hq
    obtain ⟨p, hp, rfl⟩ := mem_core.mp hq
    rw [e2] at hs
    have : p.point = 0 := hauto.zero hs hp
    exact this
  by_cases hi : i = 0
  · by_cases hj : j = 0
    · rw [hi, hj]
    · exfalso
      subst hi
      obtain ⟨K, _, _, ⟨q, hq⟩, hk⟩ := hpos hs' hj
      have := (hk q).mp hq
      rw [← he] at this
      have h3 := hzero hs q this.1
      omega
  · obtain ⟨K, hK, hr, ⟨q, hq⟩, hk⟩ := hpos hs hi
    by_cases hj : j = 0
    · exfalso
      subst hj
      have := (hk q).mp hq
      rw [he] at this
      have h3 := hzero hs' q this.1
      omega
    · obtain ⟨K', hK', hr', _, hk'⟩ := hpos hs' hj
      have hcc : core K = core K' :=
        OSet.ext (sorted_core K) (sorted_core K') (fun q => by rw [hk, hk', he])
      rw [hcc, hr'] at hr
      cases hr
      rw [hK] at hK'; cases hK'; rfl

theorem LBuilt.next_iff (h : LBuilt l D S eof t0 G) {i j : Nat} {s s' : State T} {p : Position T}
    {x : T} (hs : l.table.states[i]? = some s) (hp : p ∈ s) (ht : p.top = some x)
    (hs' : l.table.states[j]? = some s') :
    l.stateFromKernel (Tabler.symFilter s x) = some j ↔ HasCore s' (CoreNext D s x) := by
  obtain ⟨j0, s0, h1, h2, h3, h4⟩ := h.edge hs hp ht
  have hc : HasCore s0 (CoreNext D s x) := by
    rw [hasCore_iff]; intro q; rw [h4.mem, clo_coreNext h.of]
  constructor
  · intro hj
    rw [hj] at h1; cases h1
    rw [hs'] at h3; cases h3
    exact hc
  · intro hc'
    rw [hasCore_iff] at hc hc'
    have he : core s' = core s0 :=
      OSet.ext (sorted_core _) (sorted_core _) (fun q => by rw [← hc, ← hc'])
    rw [h.core_inj hs' h3 he]; exact h1

theorem LBuilt.decision (h : LBuilt l D S eof t0 G) {i : Nat} {s : State T}
    (hs : l.table.states[i]? = some s) (x : T) (a : Action T) :
    Dec D S (fun x => l.stateFromKernel (Tabler.symFilter s x)) (fun p x => x ∈ p.look) s x a ↔
      DecisionLalr D S l.table.states s x a := by
  unfold Dec DecisionLalr
  refine or_congr ⟨?_, ?_⟩ ⟨?_, ?_⟩
  · rintro ⟨p, hp, ht, j, hj, hc⟩
    obtain ⟨j0, s0, h1, h2, h3, h4⟩ := h.edge hs hp ht
    have hj' : j = j0 := by
      have := hj.symm.trans h1; simpa using this
    subst hj'
    exact ⟨p, hp, ht, j, s0, h3, (h.next_iff hs hp ht h3).mp h1, hc⟩
  · rintro ⟨p, hp, ht, j, s', hs', hl, hc⟩
    exact ⟨p, hp, ht, j, (h.next_iff hs hp ht hs').mpr hl, hc⟩
  · rintro ⟨p, hp, ht, hr, hc⟩
    exact ⟨p, hp, (complete_iff (h.prod hs hp).2).mp ht, hr, hc⟩
  · rintro ⟨p, hp, ht, hr, hc⟩
    exact ⟨p, hp, (complete_iff (h.prod hs hp).2).mpr ht, hr, hc⟩

/-- State 0, the other states, and the successors, by their cores. -/
theorem LBuilt.core_states (h : LBuilt l D S eof t0 G) {b0 : List T} (hb : IsProd D S 0 b0) :
    (∃ s, l.table.states[0]? = some s ∧ HasCore s (CoreStart D S b0)) ∧
    (∀ (j : Nat) s', l.table.states[j]? = some s' → j ≠ 0 → ∃ i s x, i < j ∧
      l.table.states[i]? = some s ∧ (∃ p ∈ s, After p x) ∧ HasCore s' (CoreNext D s x)) ∧
    (∀ (i : Nat) s x, l.table.states[i]? = some s → (∃ p ∈ s, After p x) → ∃ (j : Nat) (s' : State T),
      l.table.states[j]? = some s' ∧ HasCore s' (CoreNext D s x)) := by
  refine ⟨?_, ?_, ?_⟩
  · obtain ⟨s, hs, hclo⟩ := h.start
    refine ⟨s, hs, ?_⟩
    rw [hasCore_iff]
    intro q
    rw [(core_clo hclo).mem]
    exact (clo_coreStart h.of hb).symm
  · intro j s' hs' hj
    obtain ⟨l0, h0, e1, e2, e3⟩ := h.coll
    rw [← e2] at hs' ⊢
    obtain ⟨K, hK⟩ := h0.inv.surj j (List.getElem?_eq_some_iff.mp hs').1
    obtain ⟨_, ⟨s1, h1, h2⟩, i, s, X, h3, h4, h5, h6⟩ := h0.inv.kern K j hK hj
    rw [hs'] at h1; cases h1
    have hne : K ≠ [] := by
      rintro rfl
      rw [h0.inv.zero] at hK; cases hK; exact hj rfl
    obtain ⟨q, hq⟩ := List.exists_mem_of_ne_nil _ (core_ne_nil hne)
    rw [h6] at hq h2
    obtain ⟨c, hc, ht, _⟩ := mem_symFilter.mp hq
    obtain ⟨p, hp, rfl⟩ := mem_core.mp hc
    refine ⟨i, s, X, h3, h4, ⟨p, hp, ht⟩, ?_⟩
    rw [hasCore_iff]
    intro q
    rw [h2.mem, clo_coreNext h.of]
  · rintro i s x hs ⟨p, hp, ht⟩
    obtain ⟨j0, s0, h1, h2, h3, h4⟩ := h.edge hs hp ht
    exact ⟨j0, s0, h3, (h.next_iff hs hp ht h3).mp h1⟩

end

end Lrp
