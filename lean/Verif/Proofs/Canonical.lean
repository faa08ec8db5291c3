import Verif.Proofs.Auto

/-! The tables of `Slr` and `Clr` against the specification in Spec/Lr.lean. -/

set_option linter.unusedSectionVars false

namespace Lrp
open Spec
variable {T : Type} [LinOrd T] [DecidableEq T]

/-- The FIRST table as a relation. -/
abbrev firstRel (t : Tabler T) (Z x : T) : Prop := ∃ F, t.first.get? Z = some F ∧ x ∈ F

/-- The closure rule `R` is the one implemented by the lookahead function `lk`. -/
def Implements (rules : RuleMap T) (lk : Position T → OSet T) (R : Position T → Position T → Prop) :
    Prop :=
  (∀ p, IsSet p.look → ∀ q, Adds rules lk p q ↔ R p q) ∧ ∀ p q, R p q → IsSet q.look

theorem implements0 {g : Grammar T} {D : Decls T} {S eof : T} (h : g.Of D S eof) (first : Table T) :
    Implements g.rules (slrLook first) (Expands0 D) := by
  refine ⟨fun p _ q => ⟨fun ha => ?_, ?_⟩, ?_⟩
  · obtain ⟨h1, h2, h3, h4⟩ := adds_prod h ha
    exact ⟨h1, h2, h3, h4⟩
  · rintro ⟨h1, h2, h3, h4⟩
    have := adds_of_prod h (lk := slrLook first) h1 h2
    obtain ⟨r, ⟨b, k⟩, pt, l⟩ := q
    simp only at h3 h4; subst h3; subst h4
    exact this
  · rintro p q ⟨_, _, _, h4⟩
    rw [h4]; exact List.Pairwise.nil

theorem mem_clrLook {t : Tabler T} {D : Decls T} {S eof : T} (h : t.Of D S eof) (p : Position T)
    (x : T) : x ∈ clrLook t.first p ↔ Ahead D (firstRel t) p x := by
  unfold Ahead
  cases hn : p.next with
  | none =>
    have hn' : p.seq.1[p.point + 1]? = none := hn
    rw [clrLook_none hn, hn']; simp
  | some Z =>
    have hn' : p.seq.1[p.point + 1]? = some Z := hn
    rw [clrLook_some hn, hn']
    simp only [reduceCtorEq, false_and, Option.some.injEq, exists_eq_left', false_or]
    unfold symLook
    cases hf : t.first.get? Z with
    | none =>
      have hT : Terminal D Z := by
        by_cases hT : Terminal D Z
        · exact hT
        · obtain ⟨F, hF⟩ := (h.firstT.keys Z).mpr (not_terminal_iff.mp hT)
          rw [hf] at hF; cases hF
      simp [hT, firstRel, hf]
    | some F =>
      have hN := (h.firstT.keys Z).mp ⟨F, hf⟩
      have hT := not_terminal_iff.mpr hN
      simp [hT, hN, firstRel, hf, OSet.mem_extend]

theorem isSet_clrLook {first : Table T} {p : Position T} (h : IsSet p.look) :
    IsSet (clrLook first p) := by
  cases hn : p.next with
  | none => rw [clrLook_none hn]; exact h
  | some Z =>
    rw [clrLook_some hn]
    unfold symLook
    cases first.get? Z with
    | none => exact List.pairwise_singleton _ _
    | some f => exact OSet.sorted_extend OSet.sorted_nil

theorem implements1 {t : Tabler T} {D : Decls T} {S eof : T} (h : t.Of D S eof) :
    Implements t.grammar.rules (clrLook t.first) (Expands1 D (firstRel t)) := by
  refine ⟨fun p hp q => ⟨fun ha => ?_, ?_⟩, ?_⟩
  · obtain ⟨h1, h2, h3, h4⟩ := adds_prod h.grammar ha
    refine ⟨h1, h2, h3, ?_, ?_⟩
    · rw [h4]; exact isSet_clrLook hp
    · intro x; rw [h4]; exact mem_clrLook h p x
  · rintro ⟨h1, h2, h3, h4, h5⟩
    have := adds_of_prod h.grammar (lk := clrLook t.first) h1 h2
    have hl : q.look = clrLook t.first p :=
      OSet.ext h4 (isSet_clrLook hp) (fun x => by rw [h5, mem_clrLook h])
    obtain ⟨r, ⟨b, k⟩, pt, l⟩ := q
    simp only at h3 hl; subst h3; subst hl
    exact this
  · rintro p q ⟨_, _, _, h4, _⟩
    exact h4

section
variable {rules : RuleMap T} {lk : Position T → OSet T} {R : Position T → Position T → Prop}

theorem Clo.isSet (hR : Implements rules lk R) {seed : State T}
    (hs : ∀ p ∈ seed, IsSet p.look) {q : Position T} (h : Clo rules lk seed q) : IsSet q.look :=
  h.closed_sub hs (fun p q hp ha => hR.2 p q ((hR.1 p hp q).mp ha))

theorem IsClo.leastClosed (hR : Implements rules lk R) {seed s : State T}
    (hs : ∀ p ∈ seed, IsSet p.look) (h : IsClo rules lk seed s) {P : Position T → Prop}
    (hP : ∀ p, P p ↔ p ∈ seed) : LeastClosed R P s := by
  refine ⟨fun p hp => (h.mem p).mpr (.base ((hP p).mp hp)), ?_, ?_⟩
  · intro p q hp hr
    have hp' := (h.mem p).mp hp
    exact (h.mem q).mpr (.step hp' ((hR.1 p (hp'.isSet hR hs) q).mpr hr))
  · intro s' h0 hc p hp
    refine (((h.mem p).mp hp).closed_sub (P := fun p => s' p ∧ IsSet p.look)
      (fun p hp => ⟨h0 p ((hP p).mpr hp), hs p hp⟩) ?_).1
    rintro p q ⟨h1, h2⟩ ha
    have := (hR.1 p h2 q).mp ha
    exact ⟨hc p q h1 this, hR.2 p q this⟩

end

theorem Spec.LeastClosed.mem_eq {R : Position T → Position T → Prop} {P : Position T → Prop}
    {s s' : State T} (h : LeastClosed R P s) (h' : LeastClosed R P s') (p : Position T) :
    p ∈ s ↔ p ∈ s' :=
  ⟨h.least _ h'.incl h'.closed p, h'.least _ h.incl h.closed p⟩

theorem advance_iff {s : State T} {X : T} {q : Position T} :
    Advance s X q ↔ q ∈ Tabler.symFilter s X := by
  rw [mem_symFilter]; rfl

section
variable {t : Tabler T} {D : Decls T} {S eof : T} {lk : Table T → Position T → OSet T}
  {red : Position T → T → Prop} {R : Position T → Position T → Prop}

theorem Built.isSet (h : Built t D S eof lk red) (hR : Implements t.grammar.rules (lk t.first) R)
    {i : Nat} {s : State T} {p : Position T} (hs : t.states[i]? = some s) (hp : p ∈ s) :
    IsSet p.look := by
  refine h.coll.all (P := fun p => IsSet p.look) ?_ ?_ ?_ i s hs p hp
  · obtain ⟨b, _, he⟩ := h.basis_eq
    rw [he]; exact List.pairwise_singleton _ _
  · intro p q hp ha; exact hR.2 p q ((hR.1 p hp q).mp ha)
  · intro p X hp _; exact hp

theorem Built.sorted (h : Built t D S eof lk red) {i : Nat} {s : State T}
    (hs : t.states[i]? = some s) : OSet.Sorted s := by
  rcases h.coll.seed hs with ⟨_, hclo⟩ | ⟨_, K, _, hclo, _⟩ <;> exact hclo.sorted

theorem Built.least_zero (h : Built t D S eof lk red)
    (hR : Implements t.grammar.rules (lk t.first) R) :
    ∃ s b0, t.states[0]? = some s ∧ IsProd D S 0 b0 ∧ LeastClosed R
      (· = { rule := S, seq := (b0, 0), point := 0, look := [eof] }) s := by
  obtain ⟨b0, hb, he⟩ := h.basis_eq
  obtain ⟨s, hs, hclo⟩ := h.coll.start
  refine ⟨s, b0, hs, hb, ?_⟩
  rw [he] at hclo
  refine hclo.leastClosed hR ?_ (by simp)
  intro p hp; simp at hp; subst hp; exact List.pairwise_singleton _ _

theorem symFilter_isSet {s : State T} {X : T} (h : ∀ p ∈ s, IsSet p.look) :
    ∀ p ∈ Tabler.symFilter s X, IsSet p.look := by
  intro p hp
  obtain ⟨q, hq, _, rfl⟩ := mem_symFilter.mp hp
  exact h q hq

/-- Each kernel has one state and conversely. -/
theorem Built.nodup (h : Built t D S eof lk red) : t.states.Nodup := by
  rw [List.nodup_iff_pairwise_ne, List.pairwise_iff_getElem]
  intro i j hi hj hij e
  have hsi : t.states[i]? = some t.states[i] := List.getElem?_eq_getElem hi
  have hsj : t.states[j]? = some t.states[j] := List.getElem?_eq_getElem hj
  have hj0 : j ≠ 0 := by omega
  obtain ⟨b0, hb, hbe⟩ := h.basis_eq
  -- the kernel of a state is its positions with a positive point
  have hker : ∀ {i : Nat} {s : State T} {K}, t.states[i]? = some s → i ≠ 0 →
      t.kernels.get? K = some i → ∀ q, q ∈ K ↔ q ∈ s ∧ 0 < q.point := by
    intro i s K hs hi hK q
    obtain ⟨_, ⟨s', h1, h2⟩, _, sj, X, _, _, _, hKe⟩ := h.coll.kern K i hK hi
    rw [hs] at h1; cases h1
    constructor
    · intro hq
      refine ⟨(h2.mem q).mpr (.base hq), ?_⟩
      rw [hKe] at hq
      obtain ⟨p, _, _, rfl⟩ := mem_symFilter.mp hq
      exact Nat.succ_pos _
    · rintro ⟨hq, hpos⟩
      refine ((h2.mem q).mp hq).closed_sub (P := fun q => 0 < q.point → q ∈ K)
        (fun p hp _ => hp) ?_ hpos
      intro p q _ ha h0
      have := (adds_prod h.of.grammar ha).2.2.1
      omega
  obtain ⟨Kj, hKj⟩ := h.coll.surj j hj
  have hne : ∃ q ∈ t.states[j], 0 < q.point := by
    -- a kernel other than `[]` is not empty
    have : Kj ≠ [] := by
      rintro rfl
      rw [h.coll.zero] at hKj; cases hKj; exact hj0 rfl
    obtain ⟨q, hq⟩ := List.exists_mem_of_ne_nil _ this
    exact ⟨q, (hker hsj hj0 hKj q).mp hq⟩
  by_cases hi0 : i = 0
  · subst hi0
    obtain ⟨q, hq, hpos⟩ := hne
    rw [← e] at hq
    have := (h.auto hb).zero hsi hq
    omega
  · obtain ⟨Ki, hKi⟩ := h.coll.surj i hi
    have hK : Ki = Kj := by
      refine OSet.ext (h.coll.kern Ki i hKi hi0).1 (h.coll.kern Kj j hKj hj0).1 (fun q => ?_)
      rw [hker hsi hi0 hKi, hker hsj hj0 hKj, e]
    subst hK
    rw [hKi] at hKj; cases hKj
    omega

theorem Built.least_next (h : Built t D S eof lk red)
    (hR : Implements t.grammar.rules (lk t.first) R) {i j : Nat} {s s' : State T} {p : Position T}
    {x : T} (hs : t.states[i]? = some s) (hp : p ∈ s) (ht : p.top = some x)
    (hs' : t.states[j]? = some s') :
    t.kernels.get? (Tabler.symFilter s x) = some j ↔ LeastClosed R (Advance s x) s' := by
  obtain ⟨j0, s0, h1, h2, h3, h4⟩ := h.coll.edge hs hp ht (h.doneAt hs hp ht)
  have hl : LeastClosed R (Advance s x) s0 := h4.leastClosed hR
    (symFilter_isSet (fun p hp => h.isSet hR hs hp)) (fun q => advance_iff)
  constructor
  · intro hj
    rw [hj] at h1; cases h1
    rw [hs'] at h3; cases h3
    exact hl
  · intro hl'
    have he : s' = s0 := OSet.ext (h.sorted hs') h4.sorted (fun q => hl'.mem_eq hl q)
    subst he
    have := h.nodup
    have hj : j = j0 := (List.getElem?_inj (List.getElem?_eq_some_iff.mp hs').1 this).mp
      (hs'.trans h3.symm)
    rw [hj]; exact h1

theorem complete_iff {p : Position T} (h : p.point ≤ p.seq.1.length) :
    p.top = none ↔ Complete p := by
  unfold Complete
  constructor
  · intro ht; have := top_none ht; omega
  · intro hc; exact List.getElem?_eq_none (by simp [hc])

theorem Built.decision (h : Built t D S eof lk red)
    (hR : Implements t.grammar.rules (lk t.first) R) {i : Nat} {s : State T}
    (hs : t.states[i]? = some s) (x : T) (a : Action T) :
    Dec D S (fun x => t.kernels.get? (Tabler.symFilter s x)) red s x a ↔
      Decision D S t.states R red s x a := by
  unfold Dec Decision
  refine or_congr ⟨?_, ?_⟩ ⟨?_, ?_⟩
  · rintro ⟨p, hp, ht, j, hj, hc⟩
    obtain ⟨j0, s0, h1, h2, h3, h4⟩ := h.coll.edge hs hp ht (h.doneAt hs hp ht)
    have hj' : j = j0 := by
      have := hj.symm.trans h1; simpa using this
    subst hj'
    exact ⟨p, hp, ht, j, s0, h3, (h.least_next hR hs hp ht h3).mp h1, hc⟩
  · rintro ⟨p, hp, ht, j, s', hs', hl, hc⟩
    exact ⟨p, hp, ht, j, (h.least_next hR hs hp ht hs').mpr hl, hc⟩
  · rintro ⟨p, hp, ht, hr, hc⟩
    exact ⟨p, hp, (complete_iff (h.prod hs hp).2).mp ht, hr, hc⟩
  · rintro ⟨p, hp, ht, hr, hc⟩
    exact ⟨p, hp, (complete_iff (h.prod hs hp).2).mpr ht, hr, hc⟩

end

/-- `conflicts()` lists exactly the conflict cells. -/
theorem conflicts_eq_nil {t : Tabler T} (hs : ∀ row ∈ t.actions, OMap.Sorted row) :
    t.conflicts = [] ↔ ∀ (i : Nat) row x a b, t.actions[i]? = some row → row.get? x ≠ some (.conflict a b) := by
  unfold Tabler.conflicts
  rw [List.filter_eq_nil_iff]
  constructor
  · intro h i row x a b hr hx
    have hm := List.mem_of_getElem? hr
    have := h (.conflict a b) (List.mem_flatMap.mpr ⟨row, hm, (OMap.mem_values (hs row hm)).mpr ⟨x, hx⟩⟩)
    simp at this
  · intro h c hc
    obtain ⟨row, hm, hv⟩ := List.mem_flatMap.mp hc
    obtain ⟨x, hx⟩ := (OMap.mem_values (hs row hm)).mp hv
    obtain ⟨i, hi, he⟩ := List.getElem_of_mem hm
    cases c with
    | conflict a b => exact absurd hx (h i row x a b (List.getElem?_eq_some_iff.mpr ⟨hi, he⟩))
    | _ => simp

end Lrp
