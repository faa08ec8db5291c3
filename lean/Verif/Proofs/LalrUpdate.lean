import Verif.Proofs.Merge

/-! `Lalr::update_state` and `Lalr::update_closures`: they return, keep the invariant of the
collection, and only add information. -/

set_option linter.unusedSectionVars false

namespace Lrp
open Spec
variable {T : Type} [LinOrd T] [DecidableEq T]

local notation "core" => Lalr.withoutLook

/-- Lookahead-free closure steps. -/
abbrev noLk : Position T → OSet T := fun _ => []

/-- What is asked of a predicate on positions. -/
structure GoodPred (t0 : Tabler T) (V : List (Position T)) (G : Position T → Prop) : Prop where
  mem : ∀ {p}, G p → p ∈ V
  vadds : ∀ p ∈ V, ∀ q, Adds t0.grammar.rules (clrLook t0.first) p q → q ∈ V
  adds : ∀ {p q}, G p → Adds t0.grammar.rules (clrLook t0.first) p q → G q
  adv : ∀ {p X}, G p → p.top = some X → G p.adv
  set : ∀ {p}, G p → IsSet p.look
  merge : ∀ {s : List (Position T)} {m : State T}, MergedOf s m → (∀ p ∈ s, G p) → ∀ q ∈ m, G q

/-- A state is closed, up to merging of lookaheads. -/
def LClosed (rules : RuleMap T) (lk : Position T → OSet T) (s : State T) : Prop :=
  ∀ p ∈ s, ∀ q, Adds rules lk p q → ∃ q' ∈ s, SameBody q q' ∧ ∀ x ∈ q.look, x ∈ q'.look

structure LInv (t0 : Tabler T) (G : Position T → Prop) (l : Lalr T) : Prop where
  grammar : l.table.grammar = t0.grammar
  first : l.table.first = t0.first
  follow : l.table.follow = t0.follow
  actions : l.table.actions = t0.actions
  zero : l.table.kernels.get? [] = some 0
  zero_only : ∀ K, l.table.kernels.get? K = some 0 → K = []
  start : ∃ s, l.table.states[0]? = some s ∧ IsClo t0.grammar.rules (clrLook t0.first) [t0.basisPos] s
  raw : ∀ C K, C ≠ [] → l.raws.get? C = some K → core K = C ∧ OSet.Sorted K ∧ (∀ p ∈ K, G p) ∧
    ∃ i, l.table.kernels.get? K = some i
  kern : ∀ K i, l.table.kernels.get? K = some i → i ≠ 0 → l.raws.get? (core K) = some K ∧
    (∃ s, l.table.states[i]? = some s ∧ IsClo t0.grammar.rules noLk (core K) (core s)) ∧
    ∃ j s X, j < i ∧ l.table.states[j]? = some s ∧ X ∈ t0.grammar.symbols ∧
      core K = Tabler.symFilter (core s) X
  inj : ∀ K K' i, l.table.kernels.get? K = some i → l.table.kernels.get? K' = some i → K = K'
  surj : ∀ i, i < l.table.states.length → ∃ K, l.table.kernels.get? K = some i
  good : ∀ (i : Nat) s, l.table.states[i]? = some s → ∀ p ∈ s, G p
  closed : ∀ (i : Nat) s, l.table.states[i]? = some s →
    LClosed t0.grammar.rules (clrLook t0.first) s

/-- What has been found out so far. -/
inductive Mark (T : Type) where
  | look (C : State T) (c : Position T) (x : T)
  | uniq (C : State T)
  | exist (C : State T)

def Mark.Sat (l : Lalr T) : Mark T → Prop
  | .look C c x => ∃ K, l.raws.get? C = some K ∧ ∃ p ∈ K, p.noLook = c ∧ x ∈ p.look
  | .uniq C => ∃ K, l.raws.get? C = some K ∧ ∀ p ∈ K, ∀ q ∈ K, SameBody p q → p = q
  | .exist C => ∃ K, l.raws.get? C = some K

/-- `l'` knows more than `l`. -/
structure LExt (l l' : Lalr T) : Prop where
  len : l.table.states.length ≤ l'.table.states.length
  ids : ∀ C K i, C ≠ [] → l.raws.get? C = some K → l.table.kernels.get? K = some i →
    ∃ K', l'.raws.get? C = some K' ∧ l'.table.kernels.get? K' = some i
  cores : ∀ (i : Nat) s, l.table.states[i]? = some s →
    ∃ s', l'.table.states[i]? = some s' ∧ core s' = core s
  marks : ∀ m : Mark T, m.Sat l → m.Sat l'

theorem LExt.refl (l : Lalr T) : LExt l l :=
  ⟨Nat.le_refl _, fun _ K _ _ h h' => ⟨K, h, h'⟩, fun _ s h => ⟨s, h, rfl⟩, fun _ h => h⟩

theorem LExt.trans {l l' l'' : Lalr T} (h : LExt l l') (h' : LExt l' l'') : LExt l l'' := by
  refine ⟨Nat.le_trans h.len h'.len, ?_, ?_, fun m hm => h'.marks m (h.marks m hm)⟩
  · intro C K i h0 h1 h2
    obtain ⟨K', h3, h4⟩ := h.ids C K i h0 h1 h2
    exact h'.ids C K' i h0 h3 h4
  · intro i s h1
    obtain ⟨s', h2, h3⟩ := h.cores i s h1
    obtain ⟨s'', h4, h5⟩ := h'.cores i s' h2
    exact ⟨s'', h4, h5.trans h3⟩

/-- Marks live in a finite list. -/
def marksOf (V : List (Position T)) : List (Mark T) :=
  (subs (OSet.ofList (V.map Position.noLook))).flatMap (fun C =>
    [.uniq C, .exist C] ++ (V.map Position.noLook).flatMap (fun c =>
      (V.flatMap Position.look).map (fun x => .look C c x)))

/-- Something new is known. -/
def Gains (V : List (Position T)) (l l' : Lalr T) : Prop :=
  ∃ m ∈ marksOf V, ¬ Mark.Sat l m ∧ Mark.Sat l' m

theorem mem_subs_core {V : List (Position T)} {K : State T} (h : ∀ p ∈ K, p ∈ V) :
    core K ∈ subs (OSet.ofList (V.map Position.noLook)) := by
  refine sorted_mem_subs (sorted_core K) (fun c hc => ?_)
  obtain ⟨p, hp, rfl⟩ := mem_core.mp hc
  exact List.mem_map.mpr ⟨p, h p hp, rfl⟩

theorem mark_uniq_mem {V : List (Position T)} {K : State T} (h : ∀ p ∈ K, p ∈ V) :
    Mark.uniq (core K) ∈ marksOf V :=
  List.mem_flatMap.mpr ⟨_, mem_subs_core h, by simp⟩

theorem mark_exist_mem {V : List (Position T)} {K : State T} (h : ∀ p ∈ K, p ∈ V) :
    Mark.exist (core K) ∈ marksOf V :=
  List.mem_flatMap.mpr ⟨_, mem_subs_core h, by simp⟩

theorem mark_look_mem {V : List (Position T)} {K : State T} (h : ∀ p ∈ K, p ∈ V) {p : Position T}
    (hp : p ∈ V) {x : T} (hx : x ∈ p.look) : Mark.look (core K) p.noLook x ∈ marksOf V := by
  refine List.mem_flatMap.mpr ⟨_, mem_subs_core h, List.mem_append_right _ ?_⟩
  refine List.mem_flatMap.mpr ⟨p.noLook, List.mem_map.mpr ⟨p, hp, rfl⟩, ?_⟩
  exact List.mem_map.mpr ⟨x, List.mem_flatMap.mpr ⟨p, hp, hx⟩, rfl⟩

section
variable {t0 : Tabler T} {V : List (Position T)} {G : Position T → Prop}

theorem LInv.ne_nil {l : Lalr T} (h : LInv t0 G l) {K : State T} {i : Nat}
    (hk : l.table.kernels.get? K = some i) (hi : i ≠ 0) : K ≠ [] := by
  rintro rfl
  rw [h.zero] at hk; cases hk; exact hi rfl

theorem LInv.id_ne {l : Lalr T} (h : LInv t0 G l) {K : State T} {i : Nat}
    (hk : l.table.kernels.get? K = some i) (hK : K ≠ []) : i ≠ 0 := by
  rintro rfl; exact hK (h.zero_only K hk)

theorem LInv.raw_ne {l : Lalr T} (h : LInv t0 G l) {C K : State T} (hC : C ≠ [])
    (hr : l.raws.get? C = some K) : K ≠ [] := by
  rintro rfl
  have := (h.raw C [] hC hr).1
  exact hC (this.symm.trans core_nil)

theorem IsClo.lclosed {rules : RuleMap T} {lk : Position T → OSet T} {K s : State T}
    (h : IsClo rules lk K s) : LClosed rules lk s := fun p hp q ha =>
  ⟨q, (h.mem q).mpr (.step ((h.mem p).mp hp) ha), .refl q, fun _ hx => hx⟩

theorem mem_clrLook_merge {first : Table T} {s : List (Position T)} {m : State T} (h : MergedOf s m)
    {p : Position T} (hp : p ∈ m) {x : T} (hx : x ∈ clrLook first p) :
    ∃ p' ∈ s, SameBody p' p ∧ x ∈ clrLook first p' := by
  cases hn : p.next with
  | none =>
    rw [clrLook_none hn, h.look p hp] at hx
    obtain ⟨p', hp', hb, hx⟩ := hx
    exact ⟨p', hp', hb, by rw [clrLook_none (hb.next.trans hn)]; exact hx⟩
  | some Z =>
    rw [clrLook_some hn] at hx
    obtain ⟨p', hp', hb⟩ := h.body p hp
    exact ⟨p', hp', hb, by rw [clrLook_some (hb.next.trans hn)]; exact hx⟩

theorem LClosed.merge {rules : RuleMap T} {first : Table T} {a b : List (Position T)} {m : State T}
    (h : MergedOf (OSet.ofList (a ++ b)) m) (ha : LClosed rules (clrLook first) a)
    (hb : LClosed rules (clrLook first) b) : LClosed rules (clrLook first) m := by
  have key : ∀ p' ∈ OSet.ofList (a ++ b), ∀ q, Adds rules (clrLook first) p' q →
      ∃ q' ∈ OSet.ofList (a ++ b), SameBody q q' ∧ ∀ x ∈ q.look, x ∈ q'.look := by
    intro p' hp' q hq
    rw [OSet.mem_ofList] at hp'
    rcases List.mem_append.mp hp' with hp' | hp'
    · obtain ⟨q', h1, h2⟩ := ha p' hp' q hq
      exact ⟨q', by simp [h1], h2⟩
    · obtain ⟨q', h1, h2⟩ := hb p' hp' q hq
      exact ⟨q', by simp [h1], h2⟩
  rintro p hp q ⟨A, r, prod, h1, h2, h3, rfl⟩
  obtain ⟨p0, hp0, hb0⟩ := h.body p hp
  obtain ⟨q0, hq0, hqb, _⟩ := key p0 hp0 _ ⟨A, r, prod, hb0.top.trans h1, h2, h3, rfl⟩
  obtain ⟨q1, hq1, hb1⟩ := h.cover q0 hq0
  have hq : SameBody { rule := A, seq := prod, point := 0, look := clrLook first p } q1 :=
    SameBody.trans (q := { rule := A, seq := prod, point := 0, look := clrLook first p0 })
      ⟨rfl, rfl, rfl⟩ (hqb.trans hb1)
  refine ⟨q1, hq1, hq, ?_⟩
  intro x hx
  obtain ⟨p', hp', hb', hx'⟩ := mem_clrLook_merge h hp hx
  obtain ⟨q2, hq2, hqb2, hl⟩ := key p' hp' _ ⟨A, r, prod, hb'.top.trans h1, h2, h3, rfl⟩
  rw [h.look q1 hq1]
  exact ⟨q2, hq2, hqb2.symm.trans (SameBody.trans
    (q := { rule := A, seq := prod, point := 0, look := clrLook first p }) ⟨rfl, rfl, rfl⟩ hq),
    hl x hx'⟩

/-- `goto`, under the invariant. -/
theorem LInv.goto {l : Lalr T} (h : LInv t0 G l) (hG : GoodPred t0 V G) {cfuel : Nat}
    (hf : V.length < cfuel) {K : State T} (hK : ∀ p ∈ K, G p) (X : T) :
    (goto Clr.closure cfuel l.table K X = .ok none ∧
      ∃ i, l.table.kernels.get? (Tabler.symFilter K X) = some i) ∨
    (∃ v, goto Clr.closure cfuel l.table K X = .ok (some (Tabler.symFilter K X, v)) ∧
      l.table.kernels.get? (Tabler.symFilter K X) = none ∧ Tabler.symFilter K X ≠ [] ∧
      (∀ p ∈ Tabler.symFilter K X, G p) ∧
      IsClo t0.grammar.rules (clrLook t0.first) (Tabler.symFilter K X) v) := by
  unfold Lrp.goto
  simp only
  cases hk : l.table.kernels.contains (Tabler.symFilter K X) with
  | true => exact Or.inl ⟨by simp, OMap.contains_iff.mp hk⟩
  | false =>
    right
    have hk' := OMap.contains_eq_false_iff.mp hk
    have hKG : ∀ p ∈ Tabler.symFilter K X, G p := by
      intro q hq
      obtain ⟨p, hp, ht, rfl⟩ := mem_symFilter.mp hq
      exact hG.adv (hK p hp) ht
    have hKe : Tabler.symFilter K X ≠ [] := by
      intro e; rw [e, h.zero] at hk'; cases hk'
    have hKs := sorted_symFilter K X
    generalize Tabler.symFilter K X = K' at *
    obtain ⟨v, hv⟩ := propClosure_total Clr.isClosureFn (t := l.table) (U := V) hKs
      (fun p hp => hG.mem (hKG p hp)) (by rw [h.grammar, h.first]; exact hG.vadds) hf
    have hclo := propClosure_spec Clr.isClosureFn hKs hv
    rw [h.grammar, h.first] at hclo
    have hve : v ≠ [] := by
      obtain ⟨p, hp⟩ := List.exists_mem_of_ne_nil _ hKe
      have : p ∈ v := (hclo.mem p).mpr (.base hp)
      rintro rfl
      simp at this
    exact ⟨v, by simp [hv, hve], hk', hKe, hKG, hclo⟩

theorem GoodPred.clo (hG : GoodPred t0 V G) {K v : State T} (hK : ∀ p ∈ K, G p)
    (h : IsClo t0.grammar.rules (clrLook t0.first) K v) : ∀ p ∈ v, G p := fun p hp =>
  ((h.mem p).mp hp).closed_sub (P := G) hK (fun _ _ hp ha => hG.adds hp ha)

/-- `update_state`, for an incoming kernel whose core is already present. -/
theorem LInv.updateState {l : Lalr T} (h : LInv t0 G l) (hG : GoodPred t0 V G) {dbg : Bool}
    {K inc v : State T} {i : Nat} (hinc : inc ≠ []) (hK : l.raws.get? (core inc) = some K)
    (hi : l.table.kernels.get? K = some i)
    (hincG : ∀ p ∈ inc, G p) (hv : IsClo t0.grammar.rules (clrLook t0.first) inc v) :
    (l.updateState dbg K inc v = .ok (l, none)) ∨
    (∃ l' nk, l.updateState dbg K inc v = .ok (l', some nk) ∧ LInv t0 G l' ∧ LExt l l' ∧
      Gains V l l' ∧ core nk = core inc ∧ l'.raws.get? (core inc) = some nk ∧
      l'.table.kernels.get? nk = some i ∧
      ∀ C, C ≠ core inc → l'.raws.get? C = l.raws.get? C) := by
  have hC : core inc ≠ [] := core_ne_nil hinc
  obtain ⟨hKC, hKs, hKG, _⟩ := h.raw _ K hC hK
  have hKne := h.raw_ne hC hK
  have hi0 := h.id_ne hi hKne
  obtain ⟨_, ⟨s, hs, hsclo⟩, j, sj, X, hj, hsj, hX, hKX⟩ := h.kern K i hi hi0
  unfold Lalr.updateState
  simp only [hi]
  by_cases hnk : merged (OSet.ofList (inc ++ K)) = K
  · left; simp [hnk]
  · right
    rw [if_neg hnk]
    have hm := merged_spec (OSet.ofList (inc ++ K))
    have hcm : core (merged (OSet.ofList (inc ++ K))) = core inc := by
      rw [core_merged, core_union hKC.symm, hKC]
    generalize hnkd : merged (OSet.ofList (inc ++ K)) = nk at *
    have hms := merged_spec (OSet.ofList (s ++ v))
    have hvG := hG.clo hincG hv
    have hcs : core (merged (OSet.ofList (s ++ v))) = core s := by
      have h1 := core_clo hv
      rw [← hKC] at h1
      have h2 : core v = core s := h1.unique hsclo
      rw [core_merged, core_union h2.symm, h2]
    generalize hsd : merged (OSet.ofList (s ++ v)) = ns at *
    have hilt := (List.getElem?_eq_some_iff.mp hs).1
    have hnkne : nk ≠ [] := by
      rintro rfl; rw [core_nil] at hcm; exact hC hcm.symm
    have hnk0 : l.table.kernels.get? nk = none := by
      cases hg : l.table.kernels.get? nk with
      | none => rfl
      | some i' =>
        have := (h.kern nk i' hg (h.id_ne hg hnkne)).1
        rw [hcm, hK] at this
        exact absurd (Option.some.inj this).symm hnk
    have hkc : (OMap.remove K l.table.kernels).contains nk = false := by
      rw [OMap.contains_eq_false_iff, OMap.get?_remove]
      split
      · rfl
      · exact hnk0
    have hget : ∀ K', (OMap.insert nk i (OMap.remove K l.table.kernels)).get? K' =
        if K' = nk then some i else if K' = K then none else l.table.kernels.get? K' := by
      intro K'; rw [OMap.get?_insert, OMap.get?_remove]
    have hst : ∀ k, (l.table.states.set i ns)[k]? = if k = i then some ns else l.table.states[k]? := by
      intro k
      rw [List.getElem?_set]
      by_cases hki : i = k
      · subst hki; simp [hilt]
      · rw [if_neg hki, if_neg (fun e => hki e.symm)]
    have hcoreOf : ∀ (k : Nat) sk, l.table.states[k]? = some sk →
        ∃ s', (l.table.states.set i ns)[k]? = some s' ∧ core s' = core sk := by
      intro k sk hk
      rw [hst]
      by_cases hki : k = i
      · subst hki
        rw [hs] at hk; cases hk
        exact ⟨ns, by simp, hcs⟩
      · exact ⟨sk, by simp [hki, hk], rfl⟩
    let l' : Lalr T :=
      { table := { l.table with kernels := OMap.insert nk i (OMap.remove K l.table.kernels),
                                states := l.table.states.set i ns },
        raws := OMap.insert (core nk) nk l.raws }
    have hraw : ∀ C, l'.raws.get? C = if C = core inc then some nk else l.raws.get? C := by
      intro C
      show (OMap.insert (core nk) nk l.raws).get? C = _
      rw [OMap.get?_insert, hcm]
    have hget' : ∀ K', l'.table.kernels.get? K' =
        if K' = nk then some i else if K' = K then none else l.table.kernels.get? K' := hget
    have hst' : ∀ k : Nat, l'.table.states[k]? = if k = i then some ns else l.table.states[k]? := hst
    refine ⟨l', nk, ?_, ?_, ?_, ?_, hcm, ?_, ?_, ?_⟩
    · simp only [hs, Out.ofOption_some, Out.ok_bind, hkc, hsd]
      simp only [Bool.not_false, Bool.or_true, Out.assert_true, Out.ok_bind, Out.pure_eq]
      rfl
    · refine ⟨h.grammar, h.first, h.follow, h.actions, ?_, ?_, ?_, ?_, ?_, ?_, ?_, ?_, ?_⟩
      · rw [hget', if_neg hnkne.symm, if_neg hKne.symm]; exact h.zero
      · intro K' hK'
        rw [hget'] at hK'
        split at hK'
        · exact absurd (Option.some.inj hK') hi0
        · split at hK'
          · cases hK'
          · exact h.zero_only K' hK'
      · obtain ⟨s0, h1, h2⟩ := h.start
        exact ⟨s0, by rw [hst', if_neg (Ne.symm hi0)]; exact h1, h2⟩
      · intro C K' hCne hr
        rw [hraw] at hr
        by_cases hCi : C = core inc
        · rw [if_pos hCi] at hr
          cases hr
          refine ⟨hcm.trans hCi.symm, ?_, ?_, i, by rw [hget', if_pos rfl]⟩
          · exact hm.sorted
          · refine hG.merge hm (fun p hp => ?_)
            rw [OSet.mem_ofList] at hp
            rcases List.mem_append.mp hp with hp | hp
            · exact hincG p hp
            · exact hKG p hp
        · rw [if_neg hCi] at hr
          obtain ⟨e1, e2, e3, i', e4⟩ := h.raw C K' hCne hr
          refine ⟨e1, e2, e3, i', ?_⟩
          have n1 : K' ≠ nk := by rintro rfl; exact hCi (e1.symm.trans hcm)
          have n2 : K' ≠ K := by rintro rfl; exact hCi (e1.symm.trans hKC)
          rw [hget', if_neg n1, if_neg n2]; exact e4
      · intro K' i' hk' hi'
        rw [hget'] at hk'
        by_cases hKn : K' = nk
        · subst hKn
          rw [if_pos rfl] at hk'
          cases hk'
          refine ⟨by rw [hraw, if_pos hcm], ⟨ns, by rw [hst', if_pos rfl], ?_⟩, ?_⟩
          · rw [hcs, hcm, ← hKC]; exact hsclo
          · obtain ⟨sj', k1, k2⟩ := hcoreOf j sj hsj
            exact ⟨j, sj', X, hj, k1, hX, by rw [hcm, ← hKC, k2]; exact hKX⟩
        · rw [if_neg hKn] at hk'
          by_cases hKK : K' = K
          · rw [if_pos hKK] at hk'; cases hk'
          · rw [if_neg hKK] at hk'
            obtain ⟨e1, ⟨s', e2, e3⟩, j', sj', X', e4, e5, e6, e7⟩ := h.kern K' i' hk' hi'
            have n1 : core K' ≠ core inc := by
              intro e; rw [e, hK] at e1; exact hKK (Option.some.inj e1).symm
            obtain ⟨s'', f1, f2⟩ := hcoreOf i' s' e2
            obtain ⟨sj'', f3, f4⟩ := hcoreOf j' sj' e5
            exact ⟨by rw [hraw, if_neg n1]; exact e1, ⟨s'', f1, by rw [f2]; exact e3⟩,
              j', sj'', X', e4, f3, e6, by rw [f4]; exact e7⟩
      · intro K1 K2 i' h1 h2
        rw [hget'] at h1 h2
        have aux : ∀ K', (if K' = K then none else l.table.kernels.get? K') = some i → False := by
          intro K' h'
          split at h'
          · cases h'
          · rename_i hne
            exact hne (h.inj K' K i h' hi)
        by_cases n1 : K1 = nk
        · rw [if_pos n1] at h1
          by_cases n2 : K2 = nk
          · rw [n1, n2]
          · rw [if_neg n2] at h2
            cases h1
            exact absurd h2 (aux K2)
        · rw [if_neg n1] at h1
          by_cases n2 : K2 = nk
          · rw [if_pos n2] at h2
            cases h2
            exact absurd h1 (aux K1)
          · rw [if_neg n2] at h2
            split at h1
            · cases h1
            · split at h2
              · cases h2
              · exact h.inj K1 K2 i' h1 h2
      · intro k hk
        have hk2 : k < l.table.states.length := by
          have : l'.table.states.length = l.table.states.length := List.length_set
          omega
        by_cases hki : k = i
        · exact ⟨nk, by rw [hget', if_pos rfl, hki]⟩
        · obtain ⟨K', hK'⟩ := h.surj k hk2
          have n1 : K' ≠ nk := by rintro rfl; rw [hnk0] at hK'; cases hK'
          have n2 : K' ≠ K := by
            rintro rfl; rw [hi] at hK'; exact hki (Option.some.inj hK').symm
          exact ⟨K', by rw [hget', if_neg n1, if_neg n2]; exact hK'⟩
      · intro k sk hk p hp
        rw [hst'] at hk
        split at hk
        · cases hk
          refine hG.merge hms (fun p hp => ?_) p hp
          rw [OSet.mem_ofList] at hp
          rcases List.mem_append.mp hp with hp | hp
          · exact h.good i s hs p hp
          · exact hvG p hp
        · exact h.good k sk hk p hp
      · intro k sk hk
        rw [hst'] at hk
        split at hk
        · cases hk
          exact LClosed.merge hms (h.closed i s hs) hv.lclosed
        · exact h.closed k sk hk
    · refine ⟨Nat.le_of_eq List.length_set.symm, ?_, hcoreOf, ?_⟩
      · intro C K' i' hC0 hr hk'
        by_cases hCi : C = core inc
        · subst hCi
          rw [hK] at hr; cases hr
          rw [hi] at hk'; cases hk'
          exact ⟨nk, by rw [hraw, if_pos rfl], by rw [hget', if_pos rfl]⟩
        · refine ⟨K', by rw [hraw, if_neg hCi]; exact hr, ?_⟩
          have e1 := (h.raw C K' hC0 hr).1
          have n1 : K' ≠ nk := by rintro rfl; exact hCi (e1.symm.trans hcm)
          have n2 : K' ≠ K := by rintro rfl; exact hCi (e1.symm.trans hKC)
          rw [hget', if_neg n1, if_neg n2]; exact hk'
      · intro m hm'
        cases m with
        | look C c x =>
          obtain ⟨K', h1, p, hp, h2, h3⟩ := hm'
          by_cases hCi : C = core inc
          · subst hCi
            rw [hK] at h1; cases h1
            obtain ⟨q, hq, hb⟩ := hm.cover p (by simp [hp])
            refine ⟨nk, by rw [hraw, if_pos rfl], q, hq, (noLook_eq.mpr hb.symm).trans h2, ?_⟩
            rw [hm.look q hq]
            exact ⟨p, by simp [hp], hb, h3⟩
          · exact ⟨K', by rw [hraw, if_neg hCi]; exact h1, p, hp, h2, h3⟩
        | uniq C =>
          obtain ⟨K', h1, h2⟩ := hm'
          by_cases hCi : C = core inc
          · exact ⟨nk, by rw [hraw, if_pos hCi], hm.unique⟩
          · exact ⟨K', by rw [hraw, if_neg hCi]; exact h1, h2⟩
        | exist C =>
          obtain ⟨K', h1⟩ := hm'
          by_cases hCi : C = core inc
          · exact ⟨nk, by rw [hraw, if_pos hCi]⟩
          · exact ⟨K', by rw [hraw, if_neg hCi]; exact h1⟩
    · by_cases hu : ∀ p ∈ K, ∀ q ∈ K, SameBody p q → p = q
      · refine Classical.byContradiction (fun hno => hnk ?_)
        have hlook : ∀ p ∈ inc, ∀ x ∈ p.look, ∃ q ∈ K, SameBody p q ∧ x ∈ q.look := by
          intro p hp x hx
          refine Classical.byContradiction (fun hn => hno ?_)
          refine ⟨_, mark_look_mem (K := inc) (fun p hp => hG.mem (hincG p hp))
            (hG.mem (hincG p hp)) hx, ?_, ?_⟩
          · rintro ⟨K', h1, q, hq, h2, h3⟩
            rw [hK] at h1; cases h1
            exact hn ⟨q, hq, (noLook_eq.mp h2).symm, h3⟩
          · obtain ⟨q, hq, hb⟩ := hm.cover p (by simp [hp])
            refine ⟨nk, by rw [hraw, if_pos rfl], q, hq, noLook_eq.mpr hb.symm, ?_⟩
            rw [hm.look q hq]
            exact ⟨p, by simp [hp], hb, hx⟩
        have hKm : MergedOf K K := by
          refine ⟨hKs, fun q hq => ⟨q, hq, .refl q⟩, fun q hq => ⟨q, hq, .refl q⟩, hu, ?_,
            fun hs => hs⟩
          intro q hq x
          constructor
          · intro hx; exact ⟨q, hq, .refl q, hx⟩
          · rintro ⟨p, hp, hb, hx⟩
            rw [← hu p hp q hq hb]; exact hx
        refine hm.eq hKm ?_ (fun p hp => hG.set (hKG p hp)) ?_ ?_ ?_ ?_
        · intro p hp
          rw [OSet.mem_ofList] at hp
          rcases List.mem_append.mp hp with hp | hp
          · exact hG.set (hincG p hp)
          · exact hG.set (hKG p hp)
        · intro p hp
          rw [OSet.mem_ofList] at hp
          rcases List.mem_append.mp hp with hp | hp
          · exact same_of_core hKC.symm hp
          · exact ⟨p, hp, .refl p⟩
        · intro p hp; exact ⟨p, by simp [hp], .refl p⟩
        · intro p hp x hx
          rw [OSet.mem_ofList] at hp
          rcases List.mem_append.mp hp with hp | hp
          · exact hlook p hp x hx
          · exact ⟨p, hp, .refl p, hx⟩
        · intro p hp x hx; exact ⟨p, by simp [hp], .refl p, hx⟩
      · refine ⟨_, mark_uniq_mem (K := inc) (fun p hp => hG.mem (hincG p hp)), ?_, ?_⟩
        · rintro ⟨K', h1, h2⟩
          rw [hK] at h1; cases h1
          exact hu h2
        · exact ⟨nk, by rw [hraw, if_pos rfl], hm.unique⟩
    · rw [hraw, if_pos rfl]
    · rw [hget', if_pos rfl]
    · intro C hne; rw [hraw, if_neg hne]

/-! ### `update_closures` -/

/-- Cores with a point below `m` are untouched. -/
def Below (m : Nat) (l l' : Lalr T) : Prop :=
  ∀ C : State T, (∃ p ∈ C, p.point < m) → l'.raws.get? C = l.raws.get? C

theorem Below.refl (m : Nat) (l : Lalr T) : Below m l l := fun _ _ => rfl
theorem Below.trans {m : Nat} {l l' l'' : Lalr T} (h : Below m l l') (h' : Below m l' l'') :
    Below m l l'' := fun C hC => (h' C hC).trans (h C hC)
theorem Below.mono {m m' : Nat} (hm : m ≤ m') {l l' : Lalr T} (h : Below m' l l') :
    Below m l l' := fun C ⟨p, hp, hlt⟩ => h C ⟨p, hp, by omega⟩

theorem exists_min_point {s : State T} (hs : s ≠ []) :
    ∃ p ∈ s, ∀ q ∈ s, p.point ≤ q.point := by
  induction s with
  | nil => exact absurd rfl hs
  | cons a s ih =>
    by_cases h : s = []
    · subst h; exact ⟨a, by simp, by simp⟩
    · obtain ⟨p, hp, hmin⟩ := ih h
      by_cases hap : a.point ≤ p.point
      · refine ⟨a, by simp, fun q hq => ?_⟩
        rcases List.mem_cons.mp hq with rfl | hq
        · exact Nat.le_refl _
        · exact Nat.le_trans hap (hmin q hq)
      · refine ⟨p, by simp [hp], fun q hq => ?_⟩
        rcases List.mem_cons.mp hq with rfl | hq
        · omega
        · exact hmin q hq

/-- Fuel for `update_closures` at distance `d` from the longest body. -/
def updFuel (n : Nat) : Nat → Nat
  | 0 => 0
  | d + 1 => n + 2 + updFuel n d

/-- The outcome of `update_closures`. -/
structure UpdOk (t0 : Tabler T) (V : List (Position T)) (G : Position T → Prop) (m i : Nat)
    (C : State T) (l l' : Lalr T) (r : Option (State T)) : Prop where
  inv : LInv t0 G l'
  ext : LExt l l'
  below : Below m l l'
  none : r = none → l' = l
  some : ∀ nk, r = some nk → Gains V l l' ∧ l'.raws.get? C = some nk ∧
    l'.table.kernels.get? nk = some i

theorem Gains.ext {l l' l'' : Lalr T} (h : Gains V l l') (h' : LExt l' l'') : Gains V l l'' := by
  obtain ⟨m, h1, h2, h3⟩ := h
  exact ⟨m, h1, h2, h'.marks m h3⟩

theorem LInv.update (hG : GoodPred t0 V G) {dbg : Bool} {cfuel : Nat} (hf : V.length < cfuel)
    {B : Nat} (hB : ∀ p ∈ V, p.point ≤ B) (d : Nat) :
    ∀ (m : Nat), B + 1 ≤ m + d → ∀ (l : Lalr T) (n i : Nat) (K inc v : State T), LInv t0 G l →
      updFuel t0.grammar.symbols.length d ≤ n →
      inc ≠ [] → l.raws.get? (core inc) = some K → l.table.kernels.get? K = some i →
      (∀ p ∈ inc, G p) → (∀ p ∈ inc, m ≤ p.point) →
      IsClo t0.grammar.rules (clrLook t0.first) inc v →
      ∃ l' r, Lalr.update dbg cfuel n l (.enter K inc v) = .ok (l', r) ∧
        UpdOk t0 V G m i (core inc) l l' r := by
  induction d with
  | zero =>
    intro m hm l n i K inc v _ _ hne _ _ hincG hmin _
    obtain ⟨p, hp⟩ := List.exists_mem_of_ne_nil _ hne
    have h1 := hB p (hG.mem (hincG p hp))
    have h2 := hmin p hp
    omega
  | succ d ih =>
    intro m hm l n i K inc v h hn hne hK hi hincG hmin hv
    have hC : core inc ≠ [] := core_ne_nil hne
    cases n with
    | zero => simp [updFuel] at hn
    | succ n =>
    simp only [updFuel] at hn
    unfold Lalr.update
    rcases h.updateState hG (dbg := dbg) hne hK hi hincG hv with hu | ⟨l1, nk, hu, h1, hext, hgain, hcore, hraw, hki, hother⟩
    · refine ⟨l, none, by rw [hu]; rfl, h, .refl l, .refl m l, fun _ => rfl, fun nk e => by cases e⟩
    · rw [hu]
      simp only [Out.ok_bind, hki, Out.ofOption_some]
      obtain ⟨p0, hp0, hp0min⟩ := exists_min_point hC
      obtain ⟨p0', hp0', rfl⟩ := mem_core.mp hp0
      have hm0 : m ≤ p0'.point := hmin p0' hp0'
      -- the `for` loop
      have hloop : ∀ (ss : List T) (n : Nat) (l2 : Lalr T), (∀ X ∈ ss, X ∈ t0.grammar.symbols) →
          LInv t0 G l2 → l2.raws.get? (core inc) = some nk → l2.table.kernels.get? nk = some i →
          ss.length + 1 + updFuel t0.grammar.symbols.length d ≤ n →
          ∃ l', Lalr.update dbg cfuel n l2 (.loop i nk ss) = .ok (l', some nk) ∧ LInv t0 G l' ∧
            LExt l2 l' ∧ Below (p0'.point + 1) l2 l' ∧ l'.raws.get? (core inc) = some nk ∧
            l'.table.kernels.get? nk = some i := by
        intro ss
        induction ss with
        | nil =>
          intro n l2 _ h2 hr2 hk2 hn2
          cases n with
          | zero => simp at hn2
          | succ n => exact ⟨l2, rfl, h2, .refl l2, .refl _ l2, hr2, hk2⟩
        | cons X ss ihs =>
          intro n l2 hsub h2 hr2 hk2 hn2
          simp only [List.length_cons] at hn2
          cases n with
          | zero => omega
          | succ n =>
          have hsub' : ∀ X ∈ ss, X ∈ t0.grammar.symbols := fun Y hY => hsub Y (by simp [hY])
          obtain ⟨_, _, hnkG, _⟩ := h2.raw _ nk hC hr2
          unfold Lalr.update
          rcases h2.goto hG hf hnkG X with ⟨hgo, _⟩ | ⟨v', hgo, hnone, hne', hG', hclo'⟩
          · rw [hgo]
            simp only [Out.ok_bind]
            exact ihs n l2 hsub' h2 hr2 hk2 (by omega)
          · rw [hgo]
            simp only [Out.ok_bind]
            cases hr' : l2.raws.get? (core (Tabler.symFilter nk X)) with
            | none =>
              simp only
              exact ihs n l2 hsub' h2 hr2 hk2 (by omega)
            | some K' =>
              simp only
              obtain ⟨_, _, _, i', hi'⟩ := h2.raw _ K' (core_ne_nil hne') hr'
              have hlow : ∀ p ∈ Tabler.symFilter nk X, p0'.point + 1 ≤ p.point := by
                intro q hq
                obtain ⟨p, hp, _, rfl⟩ := mem_symFilter.mp hq
                have hpc : p.noLook ∈ core inc := by
                  rw [← hcore]; exact mem_core.mpr ⟨p, hp, rfl⟩
                have := hp0min _ hpc
                exact Nat.succ_le_succ this
              obtain ⟨l3, r, hup, hok⟩ := ih (p0'.point + 1) (by omega) l2 n i' K'
                (Tabler.symFilter nk X) v' h2 (by omega) hne' hr' hi' hG' hlow hclo'
              rw [hup]
              simp only [Out.ok_bind]
              have hr3 : l3.raws.get? (core inc) = some nk := by
                rw [hok.below (core inc) ⟨p0'.noLook, hp0, Nat.lt_succ_self _⟩]; exact hr2
              have hk3 : l3.table.kernels.get? nk = some i := by
                obtain ⟨K3, e1, e2⟩ := hok.ext.ids _ nk i hC hr2 hk2
                rw [hr3] at e1; cases e1
                exact e2
              obtain ⟨l', g1, g2, g3, g4, g5, g6⟩ := ihs n l3 hsub' hok.inv hr3 hk3 (by omega)
              have hres : ∃ l', Lalr.update dbg cfuel n l3 (.loop i nk ss) = .ok (l', some nk) ∧
                  LInv t0 G l' ∧ LExt l2 l' ∧ Below (p0'.point + 1) l2 l' ∧
                  l'.raws.get? (core inc) = some nk ∧ l'.table.kernels.get? nk = some i :=
                ⟨l', g1, g2, hok.ext.trans g3, hok.below.trans g4, g5, g6⟩
              cases r with
              | none => simp only; exact hres
              | some nk' =>
                obtain ⟨_, _, hk'⟩ := hok.some nk' rfl
                simp only [hk', Out.ofOption_some, Out.ok_bind]
                rw [if_neg]
                · exact hres
                · rintro ⟨e, hne2⟩
                  subst e
                  exact hne2 (hok.inv.inj _ _ _ hk' hk3)
      obtain ⟨l', g1, g2, g3, g4, g5, g6⟩ := hloop t0.grammar.symbols n l1 (fun _ h => h) h1 hraw hki
        (by omega)
      refine ⟨l', some nk, ?_, g2, hext.trans g3, ?_, fun e => (by cases e), ?_⟩
      · rw [h1.grammar]; exact g1
      · intro C hCb
        have hCne : C ≠ core inc := by
          rintro rfl
          obtain ⟨p, hp, hlt⟩ := hCb
          obtain ⟨p', hp', rfl⟩ := mem_core.mp hp
          have : m ≤ p'.point := hmin p' hp'
          have : p'.noLook.point = p'.point := rfl
          omega
        rw [(g4.mono (by omega)) C hCb, hother C hCne]
      · intro nk' e
        cases e
        exact ⟨hgain.ext g3, g5, g6⟩

end

end Lrp
