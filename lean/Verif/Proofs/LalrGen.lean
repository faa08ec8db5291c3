import Verif.Proofs.LalrUpdate

/-! `Lalr::proc_closures`: the state enumeration stops and is complete. -/

set_option linter.unusedSectionVars false

namespace Lrp
open Spec
variable {T : Type} [LinOrd T] [DecidableEq T]

local notation "core" => Lalr.withoutLook

theorem countP_lt {α : Type} {P Q : α → Bool} {l : List α} (h : ∀ a ∈ l, P a = true → Q a = true)
    (h' : ∃ a ∈ l, P a = false ∧ Q a = true) : l.countP P < l.countP Q := by
  induction l with
  | nil => obtain ⟨a, ha, _⟩ := h'; simp at ha
  | cons b l ih =>
    have hl : ∀ a ∈ l, P a = true → Q a = true := fun a ha => h a (by simp [ha])
    have hmono : l.countP P ≤ l.countP Q := List.countP_mono_left hl
    rw [List.countP_cons, List.countP_cons]
    obtain ⟨a, ha, h1, h2⟩ := h'
    rcases List.mem_cons.mp ha with rfl | ha
    · simp [h1, h2]; omega
    · have := ih hl ⟨a, ha, h1, h2⟩
      by_cases hb : P b = true
      · simp [hb, h b (by simp) hb]; omega
      · simp [hb]
        split <;> omega

open Classical in
/-- How much is still unknown. -/
noncomputable def unknown (V : List (Position T)) (l : Lalr T) : Nat :=
  (marksOf V).length - (marksOf V).countP (fun m => decide (m.Sat l))

open Classical in
theorem Gains.lt {V : List (Position T)} {l l' : Lalr T} (h : Gains V l l') (he : LExt l l') :
    unknown V l' < unknown V l := by
  have := countP_lt (P := fun m => decide (Mark.Sat l m)) (Q := fun m => decide (Mark.Sat l' m))
    (l := marksOf V) (fun m _ hm => by simpa using he.marks m (by simpa using hm)) (by
      obtain ⟨m, h1, h2, h3⟩ := h
      exact ⟨m, h1, by simpa using h2, by simpa using h3⟩)
  have hle := List.countP_le_length (p := fun m => decide (Mark.Sat l' m)) (l := marksOf V)
  unfold unknown
  omega

/-- Row `i` has been processed for `X`. -/
def DoneL (l : Lalr T) (i : Nat) (X : T) : Prop :=
  ∀ s, l.table.states[i]? = some s → Tabler.symFilter (core s) X = [] ∨
    ∃ K, l.raws.get? (Tabler.symFilter (core s) X) = some K

theorem DoneL.ext {l l' : Lalr T} (he : LExt l l') {i : Nat} {X : T}
    (hi : i < l.table.states.length) (h : DoneL l i X) : DoneL l' i X := by
  intro s hs
  obtain ⟨s', h1, h2⟩ := he.cores i _ (List.getElem?_eq_getElem hi)
  rw [hs] at h1; cases h1
  rw [h2]
  rcases h _ (List.getElem?_eq_getElem hi) with h3 | ⟨K, hK⟩
  · exact Or.inl h3
  · exact Or.inr (he.marks (.exist _) ⟨K, hK⟩)

section
variable {t0 : Tabler T} {V : List (Position T)} {G : Position T → Prop}

theorem LInv.bound {l : Lalr T} (h : LInv t0 G l) {K : State T} {i : Nat}
    (hk : l.table.kernels.get? K = some i) : i < l.table.states.length := by
  by_cases hi : i = 0
  · subst hi
    obtain ⟨s, hs, _⟩ := h.start
    exact (List.getElem?_eq_some_iff.mp hs).1
  · obtain ⟨_, ⟨s, hs, _⟩, _⟩ := h.kern K i hk hi
    exact (List.getElem?_eq_some_iff.mp hs).1

/-- Adding a state. -/
theorem LInv.push {l : Lalr T} (h : LInv t0 G l) (hG : GoodPred t0 V G) {K v s : State T}
    {idx : Nat} {X : T} (hX : X ∈ t0.grammar.symbols) (hK : K ≠ []) (hKs : OSet.Sorted K)
    (hk : l.table.kernels.get? K = none) (hr : l.raws.get? (core K) = none)
    (hKG : ∀ p ∈ K, G p) (hv : IsClo t0.grammar.rules (clrLook t0.first) K v)
    (hs : l.table.states[idx]? = some s) (hcore : core K = Tabler.symFilter (core s) X) (l' : Lalr T)
    (hl' : l' =
        { table := { l.table with states := l.table.states ++ [v],
                                  kernels := OMap.insert K l.table.states.length l.table.kernels },
          raws := OMap.insert (core K) K l.raws }) :
    LInv t0 G l' ∧ LExt l l' ∧ Gains V l l' ∧ l'.raws.get? (core K) = some K := by
  have hlen : 0 < l.table.states.length := by
    have := h.bound h.zero; omega
  have hidx := (List.getElem?_eq_some_iff.mp hs).1
  have hC : core K ≠ [] := core_ne_nil hK
  have hget : ∀ K', l'.table.kernels.get? K' =
      if K' = K then some l.table.states.length else l.table.kernels.get? K' := by
    intro K'; rw [hl']; exact OMap.get?_insert _ _ _ _
  have hraw : ∀ C, l'.raws.get? C = if C = core K then some K else l.raws.get? C := by
    intro C; rw [hl']; exact OMap.get?_insert _ _ _ _
  have hst : ∀ (k : Nat) sk, l.table.states[k]? = some sk → l'.table.states[k]? = some sk := by
    intro k sk hk
    rw [hl']
    simp only [List.getElem?_append_left (List.getElem?_eq_some_iff.mp hk).1]
    exact hk
  have hnew : l'.table.states[l.table.states.length]? = some v := by rw [hl']; simp
  have hst' : ∀ (k : Nat) sk, l'.table.states[k]? = some sk →
      l.table.states[k]? = some sk ∨ sk = v := by
    intro k sk hk
    by_cases hlt : k < l.table.states.length
    · left
      have := hst k _ (List.getElem?_eq_getElem hlt)
      rw [hk] at this; cases this
      exact List.getElem?_eq_getElem hlt
    · right
      rw [hl'] at hk
      have hle : l.table.states.length ≤ k := by omega
      simp only [List.getElem?_append_right hle] at hk
      cases hh : k - l.table.states.length with
      | zero => rw [hh] at hk; simpa using hk.symm
      | succ m => rw [hh] at hk; simp at hk
  have hlen' : l'.table.states.length = l.table.states.length + 1 := by rw [hl']; simp
  have hdif : ∀ {K' i'}, l.table.kernels.get? K' = some i' → K' ≠ K := by
    rintro K' i' h' rfl; rw [hk] at h'; cases h'
  have hdifC : ∀ {C K'}, l.raws.get? C = some K' → C ≠ core K := by
    rintro C K' h' rfl; rw [hr] at h'; cases h'
  refine ⟨⟨?_, ?_, ?_, ?_, ?_, ?_, ?_, ?_, ?_, ?_, ?_, ?_, ?_⟩, ⟨by omega, ?_, ?_, ?_⟩, ?_,
    by rw [hraw, if_pos rfl]⟩
  · rw [hl']; exact h.grammar
  · rw [hl']; exact h.first
  · rw [hl']; exact h.follow
  · rw [hl']; exact h.actions
  · rw [hget, if_neg hK.symm]; exact h.zero
  · intro K' h'
    rw [hget] at h'
    split at h'
    · have := Option.some.inj h'; omega
    · exact h.zero_only K' h'
  · obtain ⟨s0, h1, h2⟩ := h.start
    exact ⟨s0, hst 0 s0 h1, h2⟩
  · intro C K' hCne h'
    rw [hraw] at h'
    by_cases hCK : C = core K
    · rw [if_pos hCK] at h'
      cases h'
      exact ⟨hCK.symm, hKs, hKG, _, by rw [hget, if_pos rfl]⟩
    · rw [if_neg hCK] at h'
      obtain ⟨e1, e2, e3, i', e4⟩ := h.raw C K' hCne h'
      exact ⟨e1, e2, e3, i', by rw [hget, if_neg (hdif e4)]; exact e4⟩
  · intro K' i' h' hi'
    rw [hget] at h'
    by_cases hKK : K' = K
    · subst hKK
      rw [if_pos rfl] at h'
      cases h'
      exact ⟨by rw [hraw, if_pos rfl], ⟨v, hnew, core_clo hv⟩,
        idx, s, X, hidx, hst idx s hs, hX, hcore⟩
    · rw [if_neg hKK] at h'
      obtain ⟨e1, ⟨s', e2, e3⟩, j', sj', X', e4, e5, e6, e7⟩ := h.kern K' i' h' hi'
      exact ⟨by rw [hraw, if_neg (hdifC e1)]; exact e1, ⟨s', hst i' s' e2, e3⟩,
        j', sj', X', e4, hst j' sj' e5, e6, e7⟩
  · intro K1 K2 i' h1 h2
    rw [hget] at h1 h2
    split at h1
    · split at h2
      · simp_all
      · have e := Option.some.inj h1; subst e
        have := h.bound h2; omega
    · split at h2
      · have e := Option.some.inj h2; subst e
        have := h.bound h1; omega
      · exact h.inj K1 K2 i' h1 h2
  · intro k hk'
    by_cases hlt : k < l.table.states.length
    · obtain ⟨K', h'⟩ := h.surj k hlt
      exact ⟨K', by rw [hget, if_neg (hdif h')]; exact h'⟩
    · have : k = l.table.states.length := by omega
      exact ⟨K, by rw [hget, if_pos rfl, this]⟩
  · intro k sk hk' p hp
    rcases hst' k sk hk' with h' | rfl
    · exact h.good k sk h' p hp
    · exact hG.clo hKG hv p hp
  · intro k sk hk'
    rcases hst' k sk hk' with h' | rfl
    · exact h.closed k sk h'
    · exact hv.lclosed
  · intro C K' i' hC0 h1 h2
    exact ⟨K', by rw [hraw, if_neg (hdifC h1)]; exact h1, by rw [hget, if_neg (hdif h2)]; exact h2⟩
  · intro k sk hk'
    exact ⟨sk, hst k sk hk', rfl⟩
  · intro m hm
    have hkeep : ∀ {C K'}, l.raws.get? C = some K' → l'.raws.get? C = some K' := by
      intro C K' h'; rw [hraw, if_neg (hdifC h')]; exact h'
    cases m with
    | look C c x =>
      obtain ⟨K', h1, h2⟩ := hm
      exact ⟨K', hkeep h1, h2⟩
    | uniq C =>
      obtain ⟨K', h1, h2⟩ := hm
      exact ⟨K', hkeep h1, h2⟩
    | exist C =>
      obtain ⟨K', h1⟩ := hm
      exact ⟨K', hkeep h1⟩
  · refine ⟨_, mark_exist_mem (K := K) (fun p hp => hG.mem (hKG p hp)), ?_, ?_⟩
    · rintro ⟨K', h'⟩; rw [hr] at h'; cases h'
    · exact ⟨K, by rw [hraw, if_pos rfl]⟩

/-- The complete collection. -/
structure LDone (t0 : Tabler T) (G : Position T → Prop) (l : Lalr T) : Prop where
  inv : LInv t0 G l
  done : ∀ j, j < l.table.states.length → ∀ X ∈ t0.grammar.symbols, DoneL l j X

theorem LInv.gen (hG : GoodPred t0 V G) {dbg : Bool} {cfuel ufuel : Nat} (hf : V.length < cfuel)
    {B : Nat} (hB : ∀ p ∈ V, p.point ≤ B) (hu : updFuel t0.grammar.symbols.length (B + 1) ≤ ufuel)
    (a : Nat) : ∀ (b : Nat) (ss : List T) (l : Lalr T) (idx : Nat) (row s : State T),
      LInv t0 G l → unknown V l = a → l.table.states.length - idx = b →
      l.table.states[idx]? = some s → core row = core s → (∀ p ∈ row, G p) →
      (∀ X ∈ ss, X ∈ t0.grammar.symbols) →
      (∀ j, j < idx → ∀ X ∈ t0.grammar.symbols, DoneL l j X) →
      (∀ X ∈ t0.grammar.symbols, X ∈ ss ∨ DoneL l idx X) →
      ∃ n l', Lalr.gen dbg cfuel ufuel n idx row ss l = .ok l' ∧ LDone t0 G l' := by
  induction a using Nat.strongRecOn with
  | _ a iha =>
  intro b
  induction b using Nat.strongRecOn with
  | _ b ihb =>
  intro ss
  induction ss with
  | nil =>
    intro l idx row s h ha hb hs hrow hrowG hsub hd1 hd2
    have hd : ∀ j, j < idx + 1 → ∀ X ∈ t0.grammar.symbols, DoneL l j X := by
      intro j hj X hX
      by_cases e : j = idx
      · subst e
        rcases hd2 X hX with h' | h'
        · simp at h'
        · exact h'
      · exact hd1 j (by omega) X hX
    have hidx := (List.getElem?_eq_some_iff.mp hs).1
    cases hn : l.table.states[idx + 1]? with
    | none =>
      refine ⟨1, l, by simp [Lalr.gen, hn], h, ?_⟩
      intro j hj
      have := List.getElem?_eq_none_iff.mp hn
      exact hd j (by omega)
    | some row' =>
      obtain ⟨n, l', h1, h2⟩ := ihb (l.table.states.length - (idx + 1)) (by omega)
        t0.grammar.symbols l (idx + 1) row' row' h ha rfl hn rfl (h.good _ _ hn) (fun _ h => h) hd
        (fun X hX => Or.inl hX)
      refine ⟨n + 1, l', ?_, h2⟩
      simp only [Lalr.gen, hn]
      rw [h.grammar]; exact h1
  | cons X ss ihs =>
    intro l idx row s h ha hb hs hrow hrowG hsub hd1 hd2
    have hidx := (List.getElem?_eq_some_iff.mp hs).1
    have hsub' : ∀ Y ∈ ss, Y ∈ t0.grammar.symbols := fun Y hY => hsub Y (by simp [hY])
    have hcf : core (Tabler.symFilter row X) = Tabler.symFilter (core s) X := by
      rw [core_symFilter, hrow]
    -- continue with the next symbol, nothing having been learnt
    have hsame : DoneL l idx X → ∃ n l', Lalr.gen dbg cfuel ufuel n idx row ss l = .ok l' ∧
        LDone t0 G l' := by
      intro hX
      refine ihs l idx row s h ha hb hs hrow hrowG hsub' hd1 ?_
      intro Y hY
      rcases hd2 Y hY with h' | h'
      · rcases List.mem_cons.mp h' with rfl | h'
        · exact Or.inr hX
        · exact Or.inl h'
      · exact Or.inr h'
    -- continue with the next symbol in a richer collection
    have hmore : ∀ l', LInv t0 G l' → LExt l l' → Gains V l l' → DoneL l' idx X →
        ∃ n l'', Lalr.gen dbg cfuel ufuel n idx row ss l' = .ok l'' ∧ LDone t0 G l'' := by
      intro l' h' he hg hX
      obtain ⟨s', hs', hc'⟩ := he.cores idx s hs
      refine iha (unknown V l') (by have := hg.lt he; omega) _ ss l' idx row s' h' rfl rfl hs'
        (hrow.trans hc'.symm) hrowG hsub' (fun j hj Y hY => (hd1 j hj Y hY).ext he (by omega)) ?_
      intro Y hY
      rcases hd2 Y hY with h1 | h1
      · rcases List.mem_cons.mp h1 with rfl | h1
        · exact Or.inr hX
        · exact Or.inl h1
      · exact Or.inr (h1.ext he hidx)
    rcases h.goto hG hf hrowG X with ⟨hgo, i, hi⟩ | ⟨v, hgo, hnone, hne, hKG, hclo⟩
    · have hX : DoneL l idx X := by
        intro s' hs'
        rw [hs] at hs'; cases hs'
        by_cases hK : Tabler.symFilter row X = []
        · left; rw [← hcf, hK]; rfl
        · right; rw [← hcf]
          exact ⟨_, (h.kern _ i hi (h.id_ne hi hK)).1⟩
      obtain ⟨n, l', h1, h2⟩ := hsame hX
      refine ⟨n + 1, l', ?_, h2⟩
      simp only [Lalr.gen, hgo, Out.ok_bind]
      exact h1
    · cases hr : l.raws.get? (core (Tabler.symFilter row X)) with
      | none =>
        have hpush := h.push hG (hsub X (by simp)) hne (sorted_symFilter row X) hnone hr hKG hclo hs
          hcf _ rfl
        obtain ⟨p1, p2, p3, p4⟩ := hpush
        refine Exists.elim (hmore _ p1 p2 p3 ?_) ?_
        · intro s' hs'
          obtain ⟨s'', e1, e2⟩ := p2.cores idx s hs
          rw [hs'] at e1; cases e1
          right; rw [e2, ← hcf]
          exact ⟨_, p4⟩
        rintro n ⟨l', h1, h2⟩
        refine ⟨n + 1, l', ?_, h2⟩
        have hc : l.table.kernels.contains (Tabler.symFilter row X) = false :=
          OMap.contains_eq_false_iff.mpr hnone
        simp only [Lalr.gen, hgo, Out.ok_bind, hr, hc, Bool.not_false, Bool.or_true, Out.assert_true,
          List.length_append, List.length_cons, List.length_nil, Nat.zero_add, Nat.add_sub_cancel]
        exact h1
      | some K =>
        obtain ⟨_, _, _, i, hi⟩ := h.raw _ K (core_ne_nil hne) hr
        obtain ⟨l1, r, hup, hok⟩ := LInv.update hG (dbg := dbg) hf hB (B + 1) 0 (by omega) l ufuel i K
          (Tabler.symFilter row X) v h hu hne hr hi hKG (fun _ _ => Nat.zero_le _) hclo
        have hX : DoneL l1 idx X := by
          intro s' hs'
          obtain ⟨s'', e1, e2⟩ := hok.ext.cores idx s hs
          rw [hs'] at e1; cases e1
          right; rw [e2, ← hcf]
          exact hok.ext.marks (.exist _) ⟨K, hr⟩
        cases r with
        | none =>
          have e := hok.none rfl
          subst e
          obtain ⟨n, l', h1, h2⟩ := hsame hX
          refine ⟨n + 1, l', ?_, h2⟩
          simp only [Lalr.gen, hgo, Out.ok_bind, hr, Lalr.updateClosures, hup]
          exact h1
        | some nk =>
          obtain ⟨g1, g2, g3⟩ := hok.some nk rfl
          by_cases hcond : i = idx ∧ nk ≠ row
          · obtain ⟨s', hs', hc'⟩ := hok.ext.cores idx s hs
            obtain ⟨n, l', h1, h2⟩ := iha (unknown V l1) (by have := g1.lt hok.ext; omega) _
              t0.grammar.symbols l1 idx s' s' hok.inv rfl rfl hs' rfl (hok.inv.good _ _ hs')
              (fun _ h => h) (fun j hj Y hY => (hd1 j hj Y hY).ext hok.ext (by omega))
              (fun Y hY => Or.inl hY)
            refine ⟨n + 1, l', ?_, h2⟩
            simp only [Lalr.gen, hgo, Out.ok_bind, hr, Lalr.updateClosures, hup, g3, Out.ofOption_some]
            rw [if_pos hcond, hs']
            simp only
            rw [hok.inv.grammar]; exact h1
          · obtain ⟨n, l', h1, h2⟩ := hmore l1 hok.inv hok.ext g1 hX
            refine ⟨n + 1, l', ?_, h2⟩
            simp only [Lalr.gen, hgo, Out.ok_bind, hr, Lalr.updateClosures, hup, g3, Out.ofOption_some]
            rw [if_neg hcond]; exact h1

/-! ### More fuel does not change the outcome -/

theorem Lalr.update_le {dbg : Bool} {c c' n m : Nat} (hc : c ≤ c') (hn : n ≤ m) (l : Lalr T)
    (call : Lalr.Call T) :
    Out.Le (Lalr.update dbg c n l call) (Lalr.update dbg c' m l call) := by
  induction n generalizing m l call with
  | zero => exact Or.inl rfl
  | succ n ih =>
    cases m with
    | zero => omega
    | succ m =>
      have hnm : n ≤ m := by omega
      cases call with
      | enter main inc closures =>
        unfold Lalr.update
        refine Out.Le.bind (.refl _) ?_
        rintro ⟨l1, r⟩
        cases r with
        | none => exact .refl _
        | some nk => exact Out.Le.bind (.refl _) (fun id => ih hnm _ _)
      | loop id nk ss =>
        cases ss with
        | nil => exact .refl _
        | cons s ss =>
          unfold Lalr.update
          refine Out.Le.bind (goto_le hc _ _ _) ?_
          intro r
          cases r with
          | none => exact ih hnm _ _
          | some kv =>
            obtain ⟨kernel, closures⟩ := kv
            simp only
            cases l.raws.get? (core kernel) with
            | none => exact ih hnm _ _
            | some mk =>
              refine Out.Le.bind (ih hnm _ _) ?_
              rintro ⟨l1, r⟩
              cases r with
              | none => exact ih hnm _ _
              | some nk' =>
                refine Out.Le.bind (.refl _) (fun u => ?_)
                split
                · exact ih hnm _ _
                · exact ih hnm _ _

theorem Lalr.gen_le {dbg : Bool} {c c' u u' n m : Nat} (hc : c ≤ c') (hu : u ≤ u') (hn : n ≤ m)
    (idx : Nat) (row : State T) (ss : List T) (l : Lalr T) :
    Out.Le (Lalr.gen dbg c u n idx row ss l) (Lalr.gen dbg c' u' m idx row ss l) := by
  induction n generalizing m idx row ss l with
  | zero => exact Or.inl rfl
  | succ n ih =>
    cases m with
    | zero => omega
    | succ m =>
      have hnm : n ≤ m := by omega
      cases ss with
      | nil =>
        unfold Lalr.gen
        cases l.table.states[idx + 1]? with
        | none => exact .refl _
        | some row => exact ih hnm _ _ _ _
      | cons s ss =>
        unfold Lalr.gen
        refine Out.Le.bind (goto_le hc _ _ _) ?_
        intro r
        cases r with
        | none => exact ih hnm _ _ _ _
        | some kv =>
          obtain ⟨kernel, closures⟩ := kv
          simp only
          cases l.raws.get? (core kernel) with
          | none => exact Out.Le.bind (.refl _) (fun _ => ih hnm _ _ _ _)
          | some mk =>
            refine Out.Le.bind (Lalr.update_le hc hu _ _) ?_
            rintro ⟨l1, r⟩
            cases r with
            | none => exact ih hnm _ _ _ _
            | some nk' =>
              refine Out.Le.bind (.refl _) (fun u => ?_)
              split
              · cases l1.table.states[idx]? with
                | none => exact .refl _
                | some row => exact ih hnm _ _ _ _
              · exact ih hnm _ _ _ _

theorem Lalr.procClosures_le {dbg : Bool} {n m : Nat} (h : n ≤ m) (l : Lalr T) :
    Out.Le (Lalr.procClosures dbg n l) (Lalr.procClosures dbg m l) := by
  unfold Lalr.procClosures Lalr.firstRow
  refine Out.Le.bind (Out.Le.bind (transitive_le h _) (fun _ => .refl _)) (fun l1 => ?_)
  cases l1.table.states[0]? with
  | none => exact .refl _
  | some row => exact Lalr.gen_le h h h _ _ _ _

theorem Lalr.withTable_le {dbg : Bool} {n m : Nat} (h : n ≤ m) (t : Tabler T) :
    Out.Le (Lalr.withTable dbg n t) (Lalr.withTable dbg m t) := by
  unfold Lalr.withTable
  exact Out.Le.bind (Lalr.procClosures_le h _) (fun _ => .refl _)

theorem Lalr.new_le {dbg : Bool} {n m : Nat} (h : n ≤ m) (g : Grammar T) :
    Out.Le (Lalr.new dbg n g) (Lalr.new dbg m g) := by
  unfold Lalr.new
  exact Out.Le.bind (Tabler.new_le h) (fun t => Lalr.withTable_le h t)

/-! ### `proc_closures` -/

/-- The collection after the first row. -/
theorem LInv.first_row (hG : GoodPred t0 V G) (hb : G t0.basisPos) (hs : t0.states = [])
    (hk : t0.kernels = []) {v : State T}
    (hclo : IsClo t0.grammar.rules (clrLook t0.first) [t0.basisPos] v) {l1 : Lalr T}
    (hl1 : l1 = Lalr.mk
      { t0 with kernels := OMap.insert [] 0 t0.kernels, states := t0.states ++ [v] }
      (OMap.insert [] v [])) :
    LInv t0 G l1 ∧ l1.table.states = [v] ∧
      (∀ K, l1.table.kernels.get? K = if K = [] then some 0 else none) ∧ ∀ p ∈ v, G p := by
  have e1 : l1.table.states = [v] := by rw [hl1]; show t0.states ++ [v] = _; rw [hs]; rfl
  have e2 : ∀ K, l1.table.kernels.get? K = if K = [] then some 0 else none := by
    intro K
    have : l1.table.kernels = [([], 0)] := by
      rw [hl1]; show OMap.insert [] 0 t0.kernels = _; rw [hk]; rfl
    rw [this, OMap.get?_cons]; rfl
  have e3 : ∀ C, C ≠ [] → l1.raws.get? C = none := by
    intro C hC
    have : l1.raws = [([], v)] := by rw [hl1]; rfl
    rw [this, OMap.get?_cons, if_neg hC]; rfl
  have hst : ∀ (i : Nat) s, l1.table.states[i]? = some s → s = v := by
    intro i s h
    rw [e1] at h
    cases i with
    | zero => simpa using h.symm
    | succ => simp at h
  have hvG : ∀ p ∈ v, G p := hG.clo (by simpa using hb) hclo
  refine ⟨?_, e1, e2, hvG⟩
  · refine ⟨by rw [hl1], by rw [hl1], by rw [hl1], by rw [hl1], by rw [e2]; rfl, ?_,
      ⟨v, by rw [e1]; rfl, hclo⟩, ?_, ?_, ?_, ?_, ?_, ?_⟩
    · intro K h
      rw [e2] at h
      split at h
      · assumption
      · cases h
    · intro C K hC h
      rw [e3 C hC] at h; cases h
    · intro K i h hi
      rw [e2] at h
      split at h
      · exact absurd (Option.some.inj h).symm hi
      · cases h
    · intro K K' i h h'
      rw [e2] at h h'
      split at h
      · split at h'
        · simp_all
        · cases h'
      · cases h
    · intro i hi
      rw [e1] at hi
      have : i = 0 := by simpa using hi
      exact ⟨[], by rw [e2, this]; rfl⟩
    · intro i s h p hp
      rw [hst i s h] at hp; exact hvG p hp
    · intro i s h
      rw [hst i s h]; exact hclo.lclosed

theorem Lalr.procClosures_total (hG : GoodPred t0 V G) (dbg : Bool) (hb : G t0.basisPos)
    (hs : t0.states = []) (hk : t0.kernels = []) :
    ∃ n l, Lalr.procClosures dbg n { table := t0, raws := [] } = .ok l ∧ LDone t0 G l := by
  obtain ⟨B, hB⟩ : ∃ B, ∀ p ∈ V, p.point ≤ B := by
    clear hG
    induction V with
    | nil => exact ⟨0, by simp⟩
    | cons p V ih =>
      obtain ⟨B, hB⟩ := ih
      refine ⟨max p.point B, fun q hq => ?_⟩
      rcases List.mem_cons.mp hq with rfl | hq
      · omega
      · have := hB q hq; omega
  obtain ⟨v, hv⟩ := propClosure_total Clr.isClosureFn (t := t0) (seed := [t0.basisPos])
    (OSet.sorted_ofList [t0.basisPos]) (U := V) (by simpa using hG.mem hb) hG.vadds
    (n := V.length + 1) (by omega)
  have hclo := propClosure_spec Clr.isClosureFn (OSet.sorted_ofList [t0.basisPos]) hv
  obtain ⟨l1, hl1⟩ : ∃ l1 : Lalr T, l1 = Lalr.mk
      { t0 with kernels := OMap.insert [] 0 t0.kernels, states := t0.states ++ [v] }
      (OMap.insert [] v []) := ⟨_, rfl⟩
  obtain ⟨hinv, e1, e2, hvG⟩ := LInv.first_row hG hb hs hk hclo hl1
  have hrow : l1.table.states[0]? = some v := by rw [e1]; rfl
  let c := V.length + 1
  let u := updFuel t0.grammar.symbols.length (B + 1)
  obtain ⟨n, l', h1, h2⟩ := LInv.gen hG (dbg := dbg) (cfuel := c) (ufuel := u) (Nat.lt_succ_self _)
    hB (Nat.le_refl _) _ _ t0.grammar.symbols l1 0 v v hinv rfl rfl hrow rfl hvG (fun _ h => h)
    (by intro j hj; omega) (fun X hX => Or.inl hX)
  refine ⟨n + c + u, l', ?_, h2⟩
  have hv' : propClosure Clr.closure (n + c + u) t0 (OSet.ofList [t0.basisPos]) = .ok v :=
    (propClosure_le Clr.isClosureFn (by show V.length + 1 ≤ n + (V.length + 1) + u; omega) _ _).ok hv
  have h1' := (Lalr.gen_le (dbg := dbg) (c := c) (c' := n + c + u) (u := u) (u' := n + c + u) (n := n)
    (m := n + c + u) (by omega) (by omega) (by omega) 0 v t0.grammar.symbols l1).ok h1
  unfold Lalr.procClosures Lalr.firstRow
  simp only [hv', Out.ok_bind, Out.pure_eq]
  rw [← hl1, hs]
  exact h1'

end

end Lrp
