import Verif.Proofs.Lalr1

/-! If no two states of the Clr table have the same core, Lalr builds the same table. -/

set_option linter.unusedSectionVars false

namespace Lrp
open Spec
variable {T : Type} [LinOrd T] [DecidableEq T]

local notation "core" => Lalr.withoutLook

theorem goto_some {cl : ClosureFn T} {n : Nat} {t : Tabler T} {row : State T} {X : T} {K v : State T}
    (h : goto cl n t row X = .ok (some (K, v))) : t.kernels.contains K = false ∧ K = Tabler.symFilter row X := by
  unfold goto at h
  simp only at h
  split at h
  · cases h
  · rename_i hk
    obtain ⟨new, _, h⟩ := Out.bind_eq_ok.mp h
    have h : (if new.isEmpty then none else some (Tabler.symFilter row X, new)) = some (K, v) := by
      injection h
    split at h
    · cases h
    · injection h with h; injection h with h1 h2
      subst h1
      exact ⟨by simpa using hk, rfl⟩

theorem procSym_ok {cl : ClosureFn T} {dbg : Bool} {n idx : Nat} {t t' : Tabler T} {X : T}
    (h : procSym cl dbg n idx t X = .ok t') :
    ∃ r, goto cl n t (t.states[idx]?.getD []) X = .ok r ∧
      ((r = none ∧ t' = t) ∨ ∃ K v, r = some (K, v) ∧
        t' = { t with kernels := OMap.insert K t.states.length t.kernels, states := t.states ++ [v] }) := by
  unfold procSym at h
  obtain ⟨r, h1, h⟩ := Out.bind_eq_ok.mp h
  refine ⟨r, h1, ?_⟩
  cases r with
  | none => left; exact ⟨rfl, by injection h with h; exact h.symm⟩
  | some e =>
    obtain ⟨K, v⟩ := e
    right
    obtain ⟨_, _, h⟩ := Out.bind_eq_ok.mp h
    exact ⟨K, v, rfl, by injection h with h; exact h.symm⟩

theorem procSym_ext {cl : ClosureFn T} {dbg : Bool} {n idx : Nat} {t t' : Tabler T} {X : T}
    (h : procSym cl dbg n idx t X = .ok t') : Ext t t' := by
  obtain ⟨r, h1, h2⟩ := procSym_ok h
  rcases h2 with ⟨_, rfl⟩ | ⟨K, v, rfl, rfl⟩
  · exact .refl _
  · have hk := OMap.contains_eq_false_iff.mp (goto_some h1).1
    refine ⟨rfl, rfl, rfl, rfl, ?_, ?_⟩
    · intro i s' h
      have := (List.getElem?_eq_some_iff.mp h).1
      simp only [List.getElem?_append_left this]
      exact h
    · intro K' i h5
      have hne : K' ≠ K := by rintro rfl; rw [hk] at h5; cases h5
      simp only [OMap.get?_insert_ne _ _ hne]
      exact h5

theorem procSyms_ext {cl : ClosureFn T} {dbg : Bool} {n idx : Nat} (ss : List T) : ∀ {t t' : Tabler T},
    ss.foldlM (procSym cl dbg n idx) t = .ok t' → Ext t t' := by
  induction ss with
  | nil => intro t t' h; injection h with h; subst h; exact .refl _
  | cons s ss ih =>
    intro t t' h
    rw [List.foldlM_cons] at h
    obtain ⟨t1, h1, h2⟩ := Out.bind_eq_ok.mp h
    exact (procSym_ext h1).trans (ih h2)

theorem procLoop_ext {cl : ClosureFn T} {dbg : Bool} {c : Nat} (n : Nat) : ∀ {idx : Nat} {t t' : Tabler T},
    procLoop cl dbg c n idx t = .ok t' → Ext t t' := by
  induction n with
  | zero => intro idx t t' h; cases h
  | succ n ih =>
    intro idx t t' h
    unfold procLoop at h
    split at h
    · obtain ⟨t1, h1, h2⟩ := Out.bind_eq_ok.mp h
      exact (procSyms_ext _ h1).trans (ih h2)
    · injection h with h; subst h; exact .refl _

/-- `raws` leads from the core of each kernel to the kernel. -/
structure RawInv (l : Lalr T) : Prop where
  nil : ∃ i, l.table.kernels.get? [] = some i
  raw : ∀ K i, l.table.kernels.get? K = some i → K ≠ [] → l.raws.get? (core K) = some K
  back : ∀ c K, l.raws.get? c = some K → c ≠ [] → core K = c ∧ ∃ i, l.table.kernels.get? K = some i

/-- As long as no two kernels have the same core, the loop of Lalr does what that of Clr does. -/
theorem Lalr.gen_clr {dbg : Bool} {c u : Nat} {tF : Tabler T}
    (hF : ∀ K K' i j, tF.kernels.get? K = some i → tF.kernels.get? K' = some j → core K = core K' → K = K')
    (n : Nat) : ∀ (idx : Nat) (row : State T) (ss : List T) (l : Lalr T) {lF : Lalr T},
      Lalr.gen dbg c u n idx row ss l = .ok lF → l.table.states[idx]? = some row → RawInv l →
      (∃ k c', (do let t ← ss.foldlM (procSym Clr.closure dbg c' idx) l.table
                   procLoop Clr.closure dbg c' k (idx + 1) t) = .ok tF) →
      lF.table = tF ∧ RawInv lF := by
  induction n with
  | zero => intro idx row ss l lF h; cases h
  | succ n ih =>
    intro idx row ss l lF h hrow hr hclr
    obtain ⟨k, c', hclr⟩ := hclr
    cases ss with
    | nil =>
      unfold Lalr.gen at h
      have hclr : procLoop Clr.closure dbg c' k (idx + 1) l.table = .ok tF := hclr
      cases k with
      | zero => cases hclr
      | succ k =>
        unfold procLoop at hclr
        cases hn : l.table.states[idx + 1]? with
        | none =>
          rw [hn] at h
          injection h with h; subst h
          rw [if_neg (by have := List.getElem?_eq_none_iff.mp hn; omega)] at hclr
          injection hclr with hclr
          exact ⟨hclr, hr⟩
        | some row' =>
          rw [hn] at h
          rw [if_pos (List.getElem?_eq_some_iff.mp hn).1] at hclr
          exact ih (idx + 1) row' _ l h hn hr ⟨k, c', hclr⟩
    | cons s ss =>
      unfold Lalr.gen at h
      rw [List.foldlM_cons] at hclr
      obtain ⟨t2, h2, hclr⟩ := Out.bind_eq_ok.mp hclr
      obtain ⟨t1, h1, h2⟩ := Out.bind_eq_ok.mp h2
      obtain ⟨r', g1, g2⟩ := procSym_ok h1
      rw [hrow, Option.getD_some] at g1
      obtain ⟨r, k1, h⟩ := Out.bind_eq_ok.mp h
      have e : r = r' := Out.Le.agree (f := fun n => goto Clr.closure n l.table row s)
        (fun h => goto_le h _ _ _) k1 g1
      subst e
      rcases g2 with ⟨rfl, rfl⟩ | ⟨K, v, rfl, rfl⟩
      · exact ih idx row ss l h hrow hr ⟨k, c', by rw [h2, Out.ok_bind]; exact hclr⟩
      · obtain ⟨hk, hKrow⟩ := goto_some k1
        have hk' := OMap.contains_eq_false_iff.mp hk
        have hK0 : K ≠ [] := by
          rintro rfl
          obtain ⟨i, hi⟩ := hr.nil
          rw [hk'] at hi; cases hi
        have hext : Ext _ tF := (procSyms_ext _ h2).trans (procLoop_ext _ hclr)
        have hmono := procSym_ext h1
        cases hraw : l.raws.get? (core K) with
        | some M =>
          exfalso
          obtain ⟨hc, i, hi⟩ := hr.back _ _ hraw (core_ne_nil hK0)
          have h3 := hext.kernels _ _ (hmono.kernels _ _ hi)
          have h4 := hext.kernels K l.table.states.length (by simp)
          have := hF _ _ _ _ h3 h4 hc
          subst this
          rw [hk'] at hi; cases hi
        | none =>
          simp only [hraw] at h
          obtain ⟨_, _, h⟩ := Out.bind_eq_ok.mp h
          have elen : (l.table.states ++ [v]).length - 1 = l.table.states.length := by simp
          rw [elen] at h
          refine ih idx row ss _ h ?_ ?_ ⟨k, c', by rw [h2, Out.ok_bind]; exact hclr⟩
          · exact hmono.states _ _ hrow
          · refine ⟨?_, ?_, ?_⟩
            · obtain ⟨i, hi⟩ := hr.nil
              exact ⟨i, hmono.kernels _ _ hi⟩
            · intro K' i hK' hne
              simp only [OMap.get?_insert] at hK' ⊢
              split at hK'
              · rename_i e; subst e; simp
              · rename_i hKK
                have h3 := hr.raw _ _ hK' hne
                rw [if_neg]
                · exact h3
                · intro e
                  rw [e, hraw] at h3; cases h3
            · intro cc K' hK' hne
              simp only [OMap.get?_insert] at hK' ⊢
              split at hK'
              · rename_i e; subst e
                injection hK' with e; subst e
                exact ⟨rfl, _, by rw [if_pos rfl]⟩
              · obtain ⟨h3, i, h4⟩ := hr.back _ _ hK' hne
                exact ⟨h3, i, hmono.kernels _ _ h4 ▸ (by simp [OMap.get?_insert])⟩

theorem foldlM_congr_mem {α β : Type} {f g : β → α → Out β} (l : List α)
    (h : ∀ a ∈ l, ∀ b, f b a = g b a) (b : β) : l.foldlM f b = l.foldlM g b := by
  induction l generalizing b with
  | nil => rfl
  | cons a l ih =>
    rw [List.foldlM_cons, List.foldlM_cons, h a (by simp) b]
    congr 1
    funext c
    exact ih (fun a ha => h a (List.mem_cons_of_mem _ ha)) c

theorem mapM_congr_mem {α β : Type} {f g : α → Out β} (l : List α) (h : ∀ a ∈ l, f a = g a) :
    l.mapM f = l.mapM g := by
  induction l with
  | nil => rfl
  | cons a l ih =>
    rw [List.mapM_cons, List.mapM_cons, h a (by simp), ih (fun a ha => h a (List.mem_cons_of_mem _ ha))]

/-- If no two states of the Clr table have the same core, the Lalr table is the Clr table. -/
theorem Lalr.eq_clr {dbg : Bool} {n m : Nat} {g : Grammar T} {D : Decls T} {S eof : T} {t : Tabler T}
    {l : Lalr T} (hg : g.Of D S eof) (hc : Clr.new dbg n g = .ok t) (hl : Lalr.new dbg m g = .ok l)
    (hd : ∀ (i j : Nat) s s', t.states[i]? = some s → t.states[j]? = some s' → core s = core s' → i = j) :
    l.table = t := by
  have hb := Clr.built hg hc
  obtain ⟨b0, hb0, _⟩ := hb.of.grammar.basis
  have ha := hb.auto hb0
  unfold Clr.new at hc
  unfold Lalr.new at hl
  obtain ⟨t0, h1, hc⟩ := Out.bind_eq_ok.mp hc
  obtain ⟨t0', h1', hl⟩ := Out.bind_eq_ok.mp hl
  have e : t0 = t0' := Out.Le.agree (f := fun n => Tabler.new dbg n g) (fun h => Tabler.new_le h) h1 h1'
  subst e
  obtain ⟨_, _, _, _, _, _, _, e1, e2, e3⟩ := Tabler.new_ok h1
  unfold Clr.withTable at hc
  unfold Lalr.withTable at hl
  obtain ⟨tc, h2, hc⟩ := Out.bind_eq_ok.mp hc
  obtain ⟨lc, h2', hl⟩ := Out.bind_eq_ok.mp hl
  obtain ⟨tl, h3', hl⟩ := Out.bind_eq_ok.mp hl
  injection hl with hl
  unfold procRows at hc
  obtain ⟨rows, h3, hc⟩ := Out.bind_eq_ok.mp hc
  injection hc with hc
  have es : t.states = tc.states := by rw [← hc]
  have ek : t.kernels = tc.kernels := by rw [← hc]
  -- kernels with the same core are equal
  have hF : ∀ K K' i j, tc.kernels.get? K = some i → tc.kernels.get? K' = some j →
      core K = core K' → K = K' := by
    intro K K' i j hK hK' hcc
    rw [← ek] at hK hK'
    by_cases hi : i = 0
    · subst hi
      obtain rfl := hb.coll.zero_only K hK
      by_cases hK0 : K' = []
      · exact hK0.symm
      · exact absurd hcc.symm (core_ne_nil hK0)
    · by_cases hj : j = 0
      · subst hj
        obtain rfl := hb.coll.zero_only K' hK'
        by_cases hK0 : K = []
        · exact hK0
        · exact absurd hcc (core_ne_nil hK0)
      · obtain ⟨_, ⟨s, g1, g2⟩, _⟩ := hb.coll.kern K i hK hi
        obtain ⟨_, ⟨s', g1', g2'⟩, _⟩ := hb.coll.kern K' j hK' hj
        have : core s = core s' := by
          refine OSet.ext (sorted_core _) (sorted_core _) (fun q => ?_)
          rw [(core_clo g2).mem, (core_clo g2').mem, hcc]
        have := hd i j s s' g1 g1' this
        subst this
        exact hb.coll.inj _ _ _ hK hK'
  -- the loops
  unfold Lrp.procClosures procClosuresFirstRow at h2
  obtain ⟨t1, h4, h5⟩ := Out.bind_eq_ok.mp h2
  obtain ⟨v, h4, h6⟩ := Out.bind_eq_ok.mp h4
  injection h6 with h6
  unfold Lalr.procClosures Lalr.firstRow at h2'
  obtain ⟨l1, h4', h5'⟩ := Out.bind_eq_ok.mp h2'
  obtain ⟨v', h4', h6'⟩ := Out.bind_eq_ok.mp h4'
  injection h6' with h6'
  have ev : v = v' := Out.Le.agree (f := fun n => propClosure Clr.closure n t0 (OSet.ofList [t0.basisPos]))
    (fun h => transitive_le h _) h4 h4'
  subst ev
  have el : l1.table = t1 := by rw [← h6', ← h6]
  have est : t1.states = [v] := by rw [← h6]; show t0.states ++ [v] = _; rw [e2]; rfl
  have ekt : t1.kernels = [([], 0)] := by rw [← h6]; show OMap.insert [] 0 t0.kernels = _; rw [e3]; rfl
  have hget : ∀ K, t1.kernels.get? K = if K = [] then some 0 else none := by
    intro K; rw [ekt, OMap.get?_cons]; rfl
  have hraws : ∀ c, l1.raws.get? c = if c = [] then some v else none := by
    intro c; rw [← h6']; show (OMap.insert [] v []).get? c = _
    rw [OMap.get?_insert]; rfl
  have hr1 : RawInv l1 := by
    refine ⟨⟨0, by rw [el, hget]; rfl⟩, ?_, ?_⟩
    · intro K i hK hne
      rw [el, hget, if_neg hne] at hK; cases hK
    · intro c K hK hne
      rw [hraws, if_neg hne] at hK; cases hK
  have hrow : l1.table.states[0]? = some v := by rw [el, est]; rfl
  rw [hrow] at h5'
  have key : lc.table = tc ∧ RawInv lc := by
    cases hn : n with
    | zero => rw [hn] at h5; cases h5
    | succ k =>
      rw [hn] at h5
      unfold procLoop at h5
      rw [if_pos (by rw [est]; simp)] at h5
      refine Lalr.gen_clr hF _ 0 v _ l1 h5' hrow hr1 ⟨k, k + 1, ?_⟩
      rw [el]
      exact h5
  obtain ⟨ek1, hr⟩ := key
  -- the actions
  unfold procRows at h3'
  obtain ⟨rows', h7, h8⟩ := Out.bind_eq_ok.mp h3'
  injection h8 with h8
  have erows : rows' = rows := by
    have hsame : tc.states.mapM (rowActions (fun pos row => Clr.decision tc tc.basisPos.rule pos row)) =
        lc.table.states.mapM (rowActions (fun pos row => Lalr.decision lc lc.table.basisPos.rule pos row)) := by
      rw [ek1]
      refine mapM_congr_mem _ (fun s hs => ?_)
      obtain ⟨i, hi, hs⟩ := List.getElem_of_mem hs
      have hs : t.states[i]? = some s := by rw [es]; exact List.getElem?_eq_some_iff.mpr ⟨hi, hs⟩
      refine foldlM_congr_mem _ (fun p hp b => ?_) _
      congr 1
      show Clr.decision tc tc.basisPos.rule p s = Lalr.decision lc tc.basisPos.rule p s
      unfold Clr.decision Lalr.decision
      cases ht : p.top with
      | none => rfl
      | some x =>
        obtain ⟨j, _, hj, hj0, _⟩ := ha.edge hs hp ht
        have hj : tc.kernels.get? (Tabler.symFilter s x) = some j := by rw [← ek]; exact hj
        have hne : Tabler.symFilter s x ≠ [] := by
          intro e
          have : p.adv ∈ Tabler.symFilter s x := mem_symFilter.mpr ⟨p, hp, ht, rfl⟩
          rw [e] at this; simp at this
        have e5 : lc.stateFromKernel (Tabler.symFilter s x) = some j := by
          unfold Lalr.stateFromKernel Lalr.finalKernel
          rw [hr.raw _ j (by rw [ek1]; exact hj) hne, ek1]
          exact hj
        have e6 : Lrp.stateFromKernel tc (Tabler.symFilter s x) = some j := hj
        show shiftDecision tc (Lrp.stateFromKernel tc) s x = shiftDecision lc.table lc.stateFromKernel s x
        unfold shiftDecision
        rw [e5, e6, ek1]
    rw [h3, h7] at hsame
    injection hsame with hsame
    exact hsame.symm
  rw [← hl, ← hc]
  show tl = _
  rw [← h8, ek1, erows]

/-! ### Counting states -/

theorem core_eq_of_same {s s' : State T} (h : Covered s' s) (h' : Covered s s') : core s = core s' := by
  have key : ∀ {s s' : State T}, Covered s' s → ∀ c, c ∈ core s' → c ∈ core s := by
    intro s s' h c hc
    obtain ⟨p', hp', rfl⟩ := mem_core.mp hc
    obtain ⟨p, hp, h1, h2, h3⟩ := h p' hp'
    refine mem_core.mpr ⟨p, hp, ?_⟩
    unfold Position.noLook
    rw [h1, h2, h3]
  exact OSet.ext (sorted_core _) (sorted_core _) (fun c => ⟨key h' c, key h c⟩)

variable {D : Decls T} {S eof : T} {b0 : List T} {states states' : List (State T)} {acts acts' : ActTable T}
  {next next' : State T → T → Option Nat} {red red' : Position T → T → Prop}

/-- Two automata of one grammar have the same cores. -/
theorem Auto.same_cores (h : Auto D S b0 states acts next red) (h' : Auto D S b0 states' acts' next' red')
    (hr : Reaches states next) {i : Nat} {s : State T} (hs : states[i]? = some s) :
    ∃ (i' : Nat) (s' : State T), states'[i']? = some s' ∧ core s = core s' := by
  obtain ⟨st, syms, hp⟩ := hr i s hs
  obtain ⟨i', st', s', hp', hs', hc⟩ := h'.follow_path h hp rfl hs
  obtain ⟨i2, st2, s2, hp2, hs2, hc2⟩ := h.follow_path h' hp' rfl hs'
  obtain ⟨rfl, rfl⟩ := List.cons.inj (hp2.unique hp)
  rw [hs] at hs2; cases hs2
  exact ⟨i', s', hs', core_eq_of_same hc2 hc⟩

/-- No two states have the same core. -/
def CoreInj (states : List (State T)) : Prop :=
  ∀ (i j : Nat) (s s' : State T), states[i]? = some s → states[j]? = some s' → core s = core s' → i = j

theorem core_nodup {states : List (State T)} (h : CoreInj states) : (states.map Lalr.withoutLook).Nodup := by
  rw [List.nodup_iff_pairwise_ne, List.pairwise_map, List.pairwise_iff_getElem]
  intro i j hi hj hij he
  have := h i j _ _ (List.getElem?_eq_getElem hi) (List.getElem?_eq_getElem hj) he
  omega

/-- An automaton with different cores has at most as many states as any other. -/
theorem Auto.count_le (h : Auto D S b0 states acts next red) (h' : Auto D S b0 states' acts' next' red')
    (hr : Reaches states next) (hi : CoreInj states) : states.length ≤ states'.length := by
  have := (core_nodup hi).length_le_of_subset (l₂ := states'.map Lalr.withoutLook) (by
    intro c hc
    obtain ⟨s, hs, rfl⟩ := List.mem_map.mp hc
    obtain ⟨i, hi, hs⟩ := List.getElem_of_mem hs
    obtain ⟨i', s', hs', e⟩ := h.same_cores h' hr (List.getElem?_eq_some_iff.mpr ⟨hi, hs⟩)
    exact List.mem_map.mpr ⟨s', List.mem_of_getElem? hs', e.symm⟩)
  simpa using this

/-- If it has as many, the other one has different cores as well. -/
theorem Auto.inj_of_count (h : Auto D S b0 states acts next red) (h' : Auto D S b0 states' acts' next' red')
    (hr : Reaches states next) (hi : CoreInj states) (hn : states'.length ≤ states.length) :
    CoreInj states' := by
  intro a b sa sb ha hb he
  refine Classical.byContradiction (fun hne => ?_)
  -- the cores of the states except `a`
  have hsub := (core_nodup hi).length_le_of_subset (l₂ := (states'.eraseIdx a).map Lalr.withoutLook) (by
    intro c hc
    obtain ⟨s, hs, rfl⟩ := List.mem_map.mp hc
    obtain ⟨i, hi, hs⟩ := List.getElem_of_mem hs
    obtain ⟨i', s', hs', e⟩ := h.same_cores h' hr (List.getElem?_eq_some_iff.mpr ⟨hi, hs⟩)
    have key : ∀ (k : Nat) (sk : State T), k ≠ a → states'[k]? = some sk → sk ∈ states'.eraseIdx a := by
      intro k sk hk hsk
      exact List.mem_eraseIdx_iff_getElem?.mpr ⟨k, hk, hsk⟩
    by_cases hia : i' = a
    · subst hia
      rw [hs'] at ha; cases ha
      exact List.mem_map.mpr ⟨sb, key b sb (fun e => hne e.symm) hb, (e.trans he).symm⟩
    · exact List.mem_map.mpr ⟨s', key i' s' hia hs', e.symm⟩)
  have hla : a < states'.length := (List.getElem?_eq_some_iff.mp ha).1
  rw [List.length_map, List.length_map, List.length_eraseIdx_of_lt hla] at hsub
  omega

/-- Different Slr states have different cores, unless the starting rule occurs in a body. -/
theorem Slr.core_inj {t : Tabler T} {red : Position T → T → Prop} (h : Built t D S eof slrLook red)
    (hS : InNoBody D S) : CoreInj t.states := by
  have hlook : ∀ (i : Nat) s, t.states[i]? = some s → ∀ p ∈ s,
      IsProd D p.rule p.seq.2 p.seq.1 ∧ ((p.rule = S ∧ p.look = [eof]) ∨ (p.rule ≠ S ∧ p.look = [])) := by
    refine h.coll.all (P := fun p => IsProd D p.rule p.seq.2 p.seq.1 ∧
      ((p.rule = S ∧ p.look = [eof]) ∨ (p.rule ≠ S ∧ p.look = []))) ?_ ?_ ?_
    · obtain ⟨b, hb, he⟩ := h.basis_eq
      rw [he]
      exact ⟨hb, Or.inl ⟨rfl, rfl⟩⟩
    · intro p q hp ha
      obtain ⟨_, h2, h3, _⟩ := adds_prod h.of.grammar ha
      refine ⟨h2, ?_⟩
      obtain ⟨A, r, prod, ht, _, _, rfl⟩ := ha
      refine Or.inr ⟨?_, rfl⟩
      rintro rfl
      exact hS _ _ _ hp.1 (List.mem_of_getElem? (show p.seq.1[p.point]? = some _ from ht))
    · intro p X hp _; exact hp
  intro i j s s' hs hs' he
  have hsub : ∀ (i j : Nat) (s s' : State T), t.states[i]? = some s → t.states[j]? = some s' →
      core s = core s' → ∀ p, p ∈ s → p ∈ s' := by
    intro i j s s' hs hs' he p hp
    have hc : p.noLook ∈ core s := mem_core.mpr ⟨p, hp, rfl⟩
    rw [he] at hc
    obtain ⟨q, hq, hqp⟩ := mem_core.mp hc
    have h1 := (hlook i s hs p hp).2
    have h2 := (hlook j s' hs' q hq).2
    have hr : q.rule = p.rule := by have := congrArg (fun c : Position T => c.rule) hqp; exact this
    have : q = p := by
      have hl : q.look = p.look := by
        rw [hr] at h2
        rcases h1 with ⟨a1, b1⟩ | ⟨a1, b1⟩ <;> rcases h2 with ⟨a2, b2⟩ | ⟨a2, b2⟩
        · rw [b1, b2]
        · exact absurd a1 a2
        · exact absurd a2 a1
        · rw [b1, b2]
      have h3 : q.seq = p.seq := by have := congrArg (fun c : Position T => c.seq) hqp; exact this
      have h4 : q.point = p.point := by have := congrArg (fun c : Position T => c.point) hqp; exact this
      cases p; cases q
      simp_all
    rw [← this]; exact hq
  have hss : s = s' := OSet.ext (h.sorted hs) (h.sorted hs')
    (fun p => ⟨hsub i j s s' hs hs' he p, hsub j i s' s hs' hs he.symm p⟩)
  subst hss
  exact (List.getElem?_inj (List.getElem?_eq_some_iff.mp hs).1 h.nodup).mp (hs.trans hs'.symm)

end Lrp
