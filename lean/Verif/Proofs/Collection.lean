import Verif.Proofs.Closure

/-! The enumeration of states shared by `Slr` and `Clr`. -/

set_option linter.unusedSectionVars false

namespace Lrp
open Spec
variable {T : Type} [LinOrd T] [DecidableEq T]

/-! ### Finitely many subsets -/

/-- All sublists. -/
def subs {α : Type} : List α → List (List α)
  | [] => [[]]
  | x :: xs => subs xs ++ (subs xs).map (x :: ·)

theorem filter_mem_subs {α : Type} (p : α → Bool) (l : List α) : l.filter p ∈ subs l := by
  induction l with
  | nil => simp [subs]
  | cons x xs ih =>
    rw [List.filter_cons, subs, List.mem_append, List.mem_map]
    split
    · exact Or.inr ⟨_, ih, rfl⟩
    · exact Or.inl ih

theorem sorted_mem_subs {α : Type} [LinOrd α] [DecidableEq α] {U : List α} {s : OSet α}
    (hs : OSet.Sorted s) (h : ∀ x ∈ s, x ∈ U) : s ∈ subs (OSet.ofList U) := by
  have : s = (OSet.ofList U).filter (fun x => decide (x ∈ s)) := by
    refine OSet.ext hs (List.Pairwise.filter _ (OSet.sorted_ofList U)) (fun x => ?_)
    simp only [List.mem_filter, OSet.mem_ofList, decide_eq_true_eq]
    exact ⟨fun hx => ⟨h x hx, hx⟩, fun hx => hx.2⟩
  rw [this]
  exact filter_mem_subs _ _

/-! ### sym_filter -/

theorem mem_symFilter {s : State T} {X : T} {q : Position T} :
    q ∈ Tabler.symFilter s X ↔ ∃ p ∈ s, p.top = some X ∧ q = p.adv := by
  unfold Tabler.symFilter
  rw [OSet.mem_ofList, List.mem_filterMap]
  refine exists_congr (fun p => and_congr Iff.rfl ?_)
  by_cases h : p.top = some X
  · have hf : p.finished = false := by
      have : p.point < p.seq.1.length := by
        have := (List.getElem?_eq_some_iff.mp h).1
        simpa using this
      simp [Position.finished]; omega
    simp [h, Position.cloneNext, hf, eq_comm]
  · simp [h]

theorem sorted_symFilter (s : State T) (X : T) : OSet.Sorted (Tabler.symFilter s X) :=
  OSet.sorted_ofList _

/-! ### The collection -/

/-- What the kernel map and the list of states satisfy during the enumeration. -/
structure Coll (rules : RuleMap T) (lk : Position T → OSet T) (basis : Position T) (syms : List T)
    (t : Tabler T) : Prop where
  ksorted : OMap.Sorted t.kernels
  zero : t.kernels.get? [] = some 0
  start : ∃ s, t.states[0]? = some s ∧ IsClo rules lk [basis] s
  zero_only : ∀ K, t.kernels.get? K = some 0 → K = []
  kern : ∀ K i, t.kernels.get? K = some i → i ≠ 0 → OSet.Sorted K ∧
    (∃ s, t.states[i]? = some s ∧ IsClo rules lk K s) ∧
    ∃ j s X, j < i ∧ t.states[j]? = some s ∧ X ∈ syms ∧ K = Tabler.symFilter s X
  surj : ∀ i, i < t.states.length → ∃ K, t.kernels.get? K = some i
  inj : ∀ K K' i, t.kernels.get? K = some i → t.kernels.get? K' = some i → K = K'
  len : t.kernels.length = t.states.length

/-- Row `i` has been processed for `X`. -/
def Done (t : Tabler T) (i : Nat) (X : T) : Prop :=
  ∀ s, t.states[i]? = some s → ∃ j, t.kernels.get? (Tabler.symFilter s X) = some j

/-- `t'` extends `t`. -/
structure Ext (t t' : Tabler T) : Prop where
  grammar : t'.grammar = t.grammar
  first : t'.first = t.first
  follow : t'.follow = t.follow
  actions : t'.actions = t.actions
  states : ∀ (i : Nat) s, t.states[i]? = some s → t'.states[i]? = some s
  kernels : ∀ K i, t.kernels.get? K = some i → t'.kernels.get? K = some i

theorem Ext.refl (t : Tabler T) : Ext t t := ⟨rfl, rfl, rfl, rfl, fun _ _ h => h, fun _ _ h => h⟩

theorem Ext.trans {t t' t'' : Tabler T} (h : Ext t t') (h' : Ext t' t'') : Ext t t'' :=
  ⟨h'.grammar.trans h.grammar, h'.first.trans h.first, h'.follow.trans h.follow,
   h'.actions.trans h.actions, fun i s hs => h'.states i s (h.states i s hs),
   fun K i hk => h'.kernels K i (h.kernels K i hk)⟩

theorem Ext.len {t t' : Tabler T} (h : Ext t t') : t.states.length ≤ t'.states.length := by
  by_cases h0 : t.states.length = 0
  · omega
  · have hl : t.states.length - 1 < t.states.length := by omega
    have := h.states _ _ (List.getElem?_eq_getElem hl)
    have := (List.getElem?_eq_some_iff.mp this).1
    omega

theorem Done.ext {t t' : Tabler T} (he : Ext t t') {i : Nat} {X : T} (hi : i < t.states.length)
    (h : Done t i X) : Done t' i X := by
  intro s hs
  have h1 := List.getElem?_eq_getElem hi
  have h2 := he.states i _ h1
  rw [hs] at h2; injection h2 with h2; subst h2
  obtain ⟨j, hj⟩ := h _ h1
  exact ⟨j, he.kernels _ _ hj⟩

theorem Coll.bound {rules : RuleMap T} {lk : Position T → OSet T} {basis : Position T}
    {syms : List T} {t : Tabler T} (h : Coll rules lk basis syms t) {K : State T} {i : Nat}
    (hk : t.kernels.get? K = some i) : i < t.states.length := by
  by_cases hi : i = 0
  · subst hi
    obtain ⟨s, hs, _⟩ := h.start
    exact (List.getElem?_eq_some_iff.mp hs).1
  · obtain ⟨_, ⟨s, hs, _⟩, _⟩ := h.kern K i hk hi
    exact (List.getElem?_eq_some_iff.mp hs).1

theorem OMap.length_insert_new {κ ν : Type} [LinOrd κ] [DecidableEq κ] {m : OMap κ ν} {k : κ} {v : ν}
    (h : m.get? k = none) : (OMap.insert k v m).length = m.length + 1 := by
  induction m with
  | nil => rfl
  | cons e rest ih =>
    obtain ⟨k', v'⟩ := e
    rw [OMap.get?_cons] at h
    split at h
    · cases h
    · rename_i hne
      unfold OMap.insert
      cases hc : cmp k k' with
      | lt => rfl
      | eq => exact absurd (LinOrd.cmp_eq.mp hc) hne
      | gt => simp [ih h]

section
variable {cl : ClosureFn T} {lk : Table T → Position T → OSet T} (hcl : IsClosureFn cl lk)
variable {basis : Position T} {syms : List T}

/-- The positions of all states stay in `U`. -/
def Within (U : List (Position T)) (t : Tabler T) : Prop :=
  ∀ (i : Nat) s, t.states[i]? = some s → ∀ p ∈ s, p ∈ U

/-- `U` is closed under closure steps and advancing. -/
structure UClosed (rules : RuleMap T) (lk : Position T → OSet T) (U : List (Position T)) : Prop where
  adds : ∀ p ∈ U, ∀ q, Adds rules lk p q → q ∈ U
  adv : ∀ p ∈ U, ∀ X, p.top = some X → p.adv ∈ U

theorem Clo.within {rules : RuleMap T} {lk : Position T → OSet T} {U : List (Position T)}
    (hU : UClosed rules lk U) {seed : State T} (h0 : ∀ p ∈ seed, p ∈ U) {q : Position T}
    (h : Clo rules lk seed q) : q ∈ U :=
  h.closed_sub h0 (fun p q hp ha => hU.adds p hp q ha)

include hcl in
theorem procSym_total {t : Tabler T} {U : List (Position T)} {dbg : Bool} {cfuel idx : Nat} {X : T}
    (hc : Coll t.grammar.rules (lk t.first) basis syms t) (hw : Within U t)
    (hU : UClosed t.grammar.rules (lk t.first) U) (hf : U.length < cfuel)
    (hi : idx < t.states.length) (hX : X ∈ syms) :
    ∃ t', procSym cl dbg cfuel idx t X = .ok t' ∧ Ext t t' ∧
      Coll t.grammar.rules (lk t.first) basis syms t' ∧ Within U t' ∧ Done t' idx X := by
  obtain ⟨s, hs⟩ : ∃ s, t.states[idx]? = some s := ⟨_, List.getElem?_eq_getElem hi⟩
  unfold procSym goto
  simp only [hs, Option.getD_some]
  cases hk : t.kernels.contains (Tabler.symFilter s X) with
  | true =>
    obtain ⟨j, hj⟩ := OMap.contains_iff.mp hk
    refine ⟨t, by simp, .refl t, hc, hw, ?_⟩
    intro s' hs'
    rw [hs] at hs'; injection hs' with hs'; subst hs'
    exact ⟨j, hj⟩
  | false =>
    have hk' := OMap.contains_eq_false_iff.mp hk
    have hKU : ∀ p ∈ Tabler.symFilter s X, p ∈ U := by
      intro q hq
      obtain ⟨p, hp, ht, rfl⟩ := mem_symFilter.mp hq
      exact hU.adv p (hw idx s hs p hp) X ht
    have hKs : OSet.Sorted (Tabler.symFilter s X) := sorted_symFilter s X
    have hKe : Tabler.symFilter s X ≠ [] := by
      intro h; rw [h, hc.zero] at hk'; cases hk'
    generalize hK : Tabler.symFilter s X = K at *
    obtain ⟨v, hv⟩ := propClosure_total hcl (t := t) hKs hKU hU.adds hf
    have hclo := propClosure_spec hcl hKs hv
    have hve : v ≠ [] := by
      cases K with
      | nil => exact absurd rfl hKe
      | cons p ps =>
        have : p ∈ v := (hclo.mem p).mpr (.base (by simp))
        rintro rfl
        simp at this
    refine ⟨{ t with kernels := OMap.insert K t.states.length t.kernels,
                     states := t.states ++ [v] }, ?_, ?_, ?_, ?_, ?_⟩
    · simp [hv, hve, hk, Out.assert]
    · refine ⟨rfl, rfl, rfl, rfl, ?_, ?_⟩
      · intro i s' h
        have := (List.getElem?_eq_some_iff.mp h).1
        simp only [List.getElem?_append_left this]
        exact h
      · intro K' i h
        have hne : K' ≠ K := by rintro rfl; rw [hk'] at h; cases h
        simp only [OMap.get?_insert_ne _ _ hne]
        exact h
    · have hlen : 0 < t.states.length := by omega
      refine ⟨OMap.sorted_insert hc.ksorted _ _, ?_, ?_, ?_, ?_, ?_, ?_, ?_⟩
      · simp only [OMap.get?_insert_ne _ _ hKe.symm]; exact hc.zero
      · obtain ⟨s0, h0, h1⟩ := hc.start
        exact ⟨s0, by simp only [List.getElem?_append_left hlen]; exact h0, h1⟩
      · intro K' h
        simp only [OMap.get?_insert] at h
        split at h
        · injection h with h; omega
        · exact hc.zero_only K' h
      · intro K' i h hi0
        simp only [OMap.get?_insert] at h
        split at h
        · rename_i heq
          subst heq
          injection h with h; subst h
          refine ⟨hKs, ⟨v, by simp, hclo⟩, idx, s, X, hi, ?_, hX, hK.symm⟩
          simp only [List.getElem?_append_left hi]; exact hs
        · obtain ⟨h1, ⟨s', h2, h3⟩, j, s'', X', h4, h5, h6, h7⟩ := hc.kern K' i h hi0
          have b1 := (List.getElem?_eq_some_iff.mp h2).1
          have b2 := (List.getElem?_eq_some_iff.mp h5).1
          refine ⟨h1, ⟨s', by simp only [List.getElem?_append_left b1]; exact h2, h3⟩,
            j, s'', X', h4, by simp only [List.getElem?_append_left b2]; exact h5, h6, h7⟩
      · intro i hi'
        simp only [List.length_append, List.length_cons, List.length_nil] at hi'
        by_cases h : i = t.states.length
        · subst h; exact ⟨K, by simp⟩
        · obtain ⟨K', hK'⟩ := hc.surj i (by omega)
          have hne : K' ≠ K := by rintro rfl; rw [hk'] at hK'; cases hK'
          exact ⟨K', by simp only [OMap.get?_insert_ne _ _ hne]; exact hK'⟩
      · intro K1 K2 i h1 h2
        simp only [OMap.get?_insert] at h1 h2
        split at h1
        · split at h2
          · simp_all
          · injection h1 with h1; subst h1
            have := hc.bound h2; omega
        · split at h2
          · injection h2 with h2; subst h2
            have := hc.bound h1; omega
          · exact hc.inj K1 K2 i h1 h2
      · simp only [List.length_append, List.length_cons, List.length_nil]
        rw [OMap.length_insert_new hk', hc.len]
    · intro i s' h p hp
      by_cases hi' : i < t.states.length
      · simp only [List.getElem?_append_left hi'] at h
        exact hw i s' h p hp
      · have : s' = v := by
          have hle : t.states.length ≤ i := by omega
          simp only [List.getElem?_append_right hle] at h
          cases hh : i - t.states.length with
          | zero => rw [hh] at h; simpa using h.symm
          | succ m => rw [hh] at h; simp at h
        subst this
        exact Clo.within hU hKU ((hclo.mem p).mp hp)
    · intro s' hs'
      simp only [List.getElem?_append_left hi] at hs'
      rw [hs] at hs'; injection hs' with hs'; subst hs'
      exact ⟨t.states.length, by simp [hK]⟩

include hcl in
theorem procRow_total {t : Tabler T} {U : List (Position T)} {dbg : Bool} {cfuel idx : Nat}
    (hc : Coll t.grammar.rules (lk t.first) basis syms t) (hw : Within U t)
    (hU : UClosed t.grammar.rules (lk t.first) U) (hf : U.length < cfuel)
    (hi : idx < t.states.length) (l : List T) (hl : ∀ X ∈ l, X ∈ syms) :
    ∃ t', l.foldlM (procSym cl dbg cfuel idx) t = .ok t' ∧ Ext t t' ∧
      Coll t.grammar.rules (lk t.first) basis syms t' ∧ Within U t' ∧ ∀ X ∈ l, Done t' idx X := by
  induction l generalizing t with
  | nil => exact ⟨t, rfl, .refl t, hc, hw, by simp⟩
  | cons X l ih =>
    obtain ⟨t1, h1, h2, h3, h4, h5⟩ := procSym_total hcl (dbg := dbg) hc hw hU hf hi (hl X (by simp))
    have hi1 : idx < t1.states.length := Nat.lt_of_lt_of_le hi h2.len
    obtain ⟨t2, k1, k2, k3, k4, k5⟩ := ih (t := t1) (by rw [h2.grammar, h2.first]; exact h3) h4
      (by rw [h2.grammar, h2.first]; exact hU) hi1 (fun X hX => hl X (by simp [hX]))
    refine ⟨t2, ?_, h2.trans k2, ?_, k4, ?_⟩
    · rw [List.foldlM_cons, h1]; exact k1
    · rw [h2.grammar, h2.first] at k3; exact k3
    · intro Y hY
      rcases List.mem_cons.mp hY with rfl | hY
      · exact h5.ext k2 hi1
      · exact k5 Y hY

theorem kernels_bound {t : Tabler T} {rules : RuleMap T} {lk : Position T → OSet T}
    {U : List (Position T)} (hc : Coll rules lk basis syms t) (hw : Within U t)
    (hU : UClosed rules lk U) : t.states.length ≤ (subs (OSet.ofList U)).length := by
  rw [← hc.len]
  have hn : (t.kernels.map Prod.fst).Nodup := by
    rw [List.nodup_iff_pairwise_ne, List.pairwise_map]
    exact hc.ksorted.imp (fun h => LinOrd.cmp_ne_of_lt h)
  have := List.Nodup.length_le_of_subset hn (l₂ := subs (OSet.ofList U)) (by
    intro K hK
    obtain ⟨⟨K', i⟩, he, rfl⟩ := List.mem_map.mp hK
    have hg := OMap.get?_of_mem hc.ksorted he
    by_cases hi : i = 0
    · subst hi
      rw [hc.zero_only _ hg]
      exact sorted_mem_subs OSet.sorted_nil (by simp)
    · obtain ⟨h1, _, j, s, X, _, h3, _, h4⟩ := hc.kern _ i hg hi
      refine sorted_mem_subs h1 (fun p hp => ?_)
      subst h4
      obtain ⟨q, hq, ht, rfl⟩ := mem_symFilter.mp hp
      exact hU.adv q (hw j s h3 q hq) X ht)
  simpa using this

include hcl in
theorem procLoop_total {U : List (Position T)} {dbg : Bool} {cfuel : Nat} (m : Nat) :
    ∀ (idx : Nat) (t : Tabler T), Coll t.grammar.rules (lk t.first) basis t.grammar.symbols t →
      Within U t → UClosed t.grammar.rules (lk t.first) U → U.length < cfuel →
      (∀ j, j < idx → ∀ X ∈ t.grammar.symbols, Done t j X) →
      idx ≤ t.states.length → (subs (OSet.ofList U)).length < m + idx →
    ∃ t', procLoop cl dbg cfuel m idx t = .ok t' ∧ Ext t t' ∧
      Coll t.grammar.rules (lk t.first) basis t.grammar.symbols t' ∧ Within U t' ∧
      ∀ j, j < t'.states.length → ∀ X ∈ t.grammar.symbols, Done t' j X := by
  induction m with
  | zero =>
    intro idx t hc hw hU _ _ hle hm
    have := kernels_bound hc hw hU
    omega
  | succ m ih =>
    intro idx t hc hw hU hf hd hle hm
    unfold procLoop
    by_cases hi : idx < t.states.length
    · rw [if_pos hi]
      obtain ⟨t1, h1, h2, h3, h4, h5⟩ := procRow_total hcl (dbg := dbg) hc hw hU hf hi
        t.grammar.symbols (fun X hX => hX)
      have hlen := h2.len
      obtain ⟨t2, k1, k2, k3, k4, k5⟩ := ih (idx + 1) t1
        (by rw [h2.grammar, h2.first]; exact h3) h4 (by rw [h2.grammar, h2.first]; exact hU) hf
        (by
          rw [h2.grammar]
          intro j hj X hX
          by_cases h : j = idx
          · subst h; exact h5 X hX
          · exact (hd j (by omega) X hX).ext h2 (by omega))
        (by omega) (by omega)
      refine ⟨t2, ?_, h2.trans k2, ?_, k4, ?_⟩
      · rw [h1, Out.ok_bind]; exact k1
      · rw [h2.grammar, h2.first] at k3; exact k3
      · rw [h2.grammar] at k5; exact k5
    · rw [if_neg hi]
      have : idx = t.states.length := by omega
      subst this
      exact ⟨t, rfl, .refl t, hc, hw, hd⟩

include hcl in
/-- `proc_closures` returns a complete collection. -/
theorem procClosures_total {U : List (Position T)} {dbg : Bool} {t : Tabler T}
    (hs : t.states = []) (hk : t.kernels = []) (hb : t.basisPos ∈ U)
    (hU : UClosed t.grammar.rules (lk t.first) U) :
    ∃ n t', procClosures cl dbg n t = .ok t' ∧ t'.grammar = t.grammar ∧ t'.first = t.first ∧
      t'.follow = t.follow ∧ t'.actions = t.actions ∧
      Coll t.grammar.rules (lk t.first) t.basisPos t.grammar.symbols t' ∧ Within U t' ∧
      ∀ j, j < t'.states.length → ∀ X ∈ t.grammar.symbols, Done t' j X := by
  let n := U.length + (subs (OSet.ofList U)).length + 1
  obtain ⟨v, hv⟩ := propClosure_total hcl (t := t) (seed := [t.basisPos])
    (OSet.sorted_ofList [t.basisPos]) (U := U) (by simpa using hb) hU.adds (n := n)
    (by show U.length < _; omega)
  have hclo := propClosure_spec hcl (OSet.sorted_ofList [t.basisPos]) hv
  let t1 : Tabler T := { t with kernels := OMap.insert [] 0 t.kernels, states := t.states ++ [v] }
  have e1 : t1.states = [v] := by show t.states ++ [v] = _; rw [hs]; rfl
  have e2 : t1.kernels = [([], 0)] := by show OMap.insert [] 0 t.kernels = _; rw [hk]; rfl
  have hc : Coll t1.grammar.rules (lk t1.first) t.basisPos t1.grammar.symbols t1 := by
    have hget : ∀ K, t1.kernels.get? K = if K = [] then some 0 else none := by
      intro K; rw [e2, OMap.get?_cons]; rfl
    refine ⟨by rw [e2]; simp [OMap.Sorted], by rw [hget]; rfl, ⟨v, by rw [e1]; rfl, hclo⟩, ?_, ?_,
      ?_, ?_, by rw [e1, e2]; rfl⟩
    · intro K h
      rw [hget] at h
      split at h
      · assumption
      · cases h
    · intro K i h hi
      rw [hget] at h
      split at h
      · injection h with h; omega
      · cases h
    · intro i hi
      rw [e1] at hi
      have : i = 0 := by simpa using hi
      exact ⟨[], by rw [hget, this]; rfl⟩
    · intro K K' i h h'
      rw [hget] at h h'
      split at h
      · split at h'
        · simp_all
        · cases h'
      · cases h
  have hw : Within U t1 := by
    intro i s h p hp
    rw [e1] at h
    have : s = v := by
      cases i with
      | zero => simpa using h.symm
      | succ => simp at h
    subst this
    exact Clo.within hU (by simpa using hb) ((hclo.mem p).mp hp)
  obtain ⟨t2, k1, k2, k3, k4, k5⟩ := procLoop_total hcl (U := U) (dbg := dbg) (cfuel := n) n 0 t1 hc
    hw hU (by show U.length < U.length + _ + 1; omega) (by intro j hj; omega) (by omega)
    (by show _ < U.length + (subs (OSet.ofList U)).length + 1 + 0; omega)
  refine ⟨n, t2, ?_, k2.grammar, k2.first, k2.follow, k2.actions, k3, k4, k5⟩
  unfold procClosures procClosuresFirstRow
  have hv' : propClosure cl n t (OSet.ofList [t.basisPos]) = .ok v := hv
  rw [hv']
  exact k1

end

/-! ### More fuel does not change the outcome -/

theorem goto_le {cl : ClosureFn T} {n m : Nat} (h : n ≤ m) (t : Tabler T) (K : State T) (X : T) :
    Out.Le (goto cl n t K X) (goto cl m t K X) := by
  unfold goto
  simp only
  split
  · exact .refl _
  · exact Out.Le.bind (transitive_le h _) (fun _ => .refl _)

theorem procSym_le {cl : ClosureFn T} {dbg : Bool} {n m : Nat} (h : n ≤ m) (idx : Nat)
    (t : Tabler T) (X : T) : Out.Le (procSym cl dbg n idx t X) (procSym cl dbg m idx t X) := by
  unfold procSym
  exact Out.Le.bind (goto_le h _ _ _) (fun _ => .refl _)

theorem procLoop_le {cl : ClosureFn T} {dbg : Bool} {c c' n m : Nat} (hc : c ≤ c') (h : n ≤ m)
    (idx : Nat) (t : Tabler T) :
    Out.Le (procLoop cl dbg c n idx t) (procLoop cl dbg c' m idx t) := by
  induction n generalizing m idx t with
  | zero => exact Or.inl rfl
  | succ n ih =>
    cases m with
    | zero => omega
    | succ m =>
      unfold procLoop
      split
      · exact Out.Le.bind (Out.Le.foldlM (fun t X => procSym_le hc idx t X) _ _)
          (fun t => ih (by omega) _ _)
      · exact .refl _

theorem procClosures_le {cl : ClosureFn T} {dbg : Bool} {n m : Nat} (h : n ≤ m) (t : Tabler T) :
    Out.Le (procClosures cl dbg n t) (procClosures cl dbg m t) := by
  unfold procClosures procClosuresFirstRow
  refine Out.Le.bind (Out.Le.bind (transitive_le h _) (fun _ => .refl _)) (fun t => ?_)
  exact procLoop_le h h 0 t

/-- Two fuels that both suffice give the same value. -/
theorem Out.Le.agree {α : Type} {f : Nat → Out α} (hf : ∀ {n m}, n ≤ m → Out.Le (f n) (f m))
    {n m : Nat} {a b : α} (h1 : f n = .ok a) (h2 : f m = .ok b) : a = b := by
  have e1 := (hf (Nat.le_add_right n m)).ok h1
  have e2 := (hf (Nat.le_add_left m n)).ok h2
  rw [e1] at e2; injection e2

end Lrp
