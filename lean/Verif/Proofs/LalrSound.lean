import Verif.Proofs.Lalr1

/-! The lookaheads of `Lalr`, if no state is mistaken for a successor, are lookaheads of valid items. -/

set_option linter.unusedSectionVars false

namespace Lrp
open Spec
variable {T : Type} [LinOrd T] [DecidableEq T]

local notation "core" => Lalr.withoutLook

/-- The path relation of a built parser. -/
abbrev LPath (F : Lalr T) : List Nat → List T → Prop :=
  Path F.table.states (fun s x => F.stateFromKernel (Tabler.symFilter s x))

/-- `C` is the core of a state that can be reached. -/
def Attained (F : Lalr T) (C : State T) : Prop :=
  ∃ i s st syms, F.table.states[i]? = some s ∧ core s = C ∧ LPath F (i :: st) syms

/-- Every terminal `x` begins with can follow, in the state with core `C`, what `p` describes. -/
def Backed (F : Lalr T) (D : Decls T) (S eof : T) (C : State T) (p : Position T) (x : T) : Prop :=
  ∀ y, Terminal D y → InFirst D x y → ∃ i s st syms w, F.table.states[i]? = some s ∧ core s = C ∧
    LPath F (i :: st) syms ∧ Terminals D w ∧ (w ++ [eof]).head? = some y ∧
    RDerives D [S] ((syms.drop p.point).reverse ++ p.rule :: w)

/-- All lookaheads of some positions are backed. -/
def AllBacked (F : Lalr T) (D : Decls T) (S eof : T) (C : State T) (K : List (Position T)) : Prop :=
  ∀ p ∈ K, ∀ x ∈ p.look, Backed F D S eof C p x

structure JInv (F : Lalr T) (D : Decls T) (S eof : T) (l : Lalr T) : Prop where
  states : ∀ (i : Nat) s, l.table.states[i]? = some s →
    Attained F (core s) ∧ AllBacked F D S eof (core s) s
  kernels : ∀ K i s, l.table.kernels.get? K = some i → l.table.states[i]? = some s →
    AllBacked F D S eof (core s) K

section
variable {F : Lalr T} {D : Decls T} {S eof : T} {t0 : Tabler T} {V : List (Position T)}
  {G : Position T → Prop}

theorem Backed.congr {C : State T} {p q : Position T} {x : T} (hb : SameBody p q)
    (h : Backed F D S eof C p x) : Backed F D S eof C q x := by
  intro y hy hxy
  obtain ⟨i, s, st, syms, w, h1, h2, h3, h4, h5, h6⟩ := h y hy hxy
  exact ⟨i, s, st, syms, w, h1, h2, h3, h4, h5, by rw [← hb.1, ← hb.2.2]; exact h6⟩

theorem AllBacked.merge {C : State T} {s : List (Position T)} {m : State T} (hm : MergedOf s m)
    (h : AllBacked F D S eof C s) : AllBacked F D S eof C m := by
  intro q hq x hx
  obtain ⟨p, hp, hb, hx⟩ := (hm.look q hq x).mp hx
  exact (h p hp x hx).congr hb

theorem AllBacked.union {C : State T} {a b : List (Position T)} (ha : AllBacked F D S eof C a)
    (hb : AllBacked F D S eof C b) : AllBacked F D S eof C (OSet.ofList (a ++ b)) := by
  intro p hp
  rw [OSet.mem_ofList] at hp
  rcases List.mem_append.mp hp with hp | hp
  · exact ha p hp
  · exact hb p hp

/-- Closures of backed positions are backed. -/
theorem LBuilt.backed_clo (hF : LBuilt F D S eof t0 G) (hpr : AllProductive D) {K v : State T}
    (hv : IsClo t0.grammar.rules (clrLook t0.first) K v) (hr : Attained F (core v))
    (hK : AllBacked F D S eof (core v) K) : AllBacked F D S eof (core v) v := by
  obtain ⟨b0, hb0, _⟩ := hF.of.grammar.basis
  have hA := hF.auto hb0
  have inst : ∀ {i : Nat} {s : State T} {p : Position T}, F.table.states[i]? = some s →
      core s = core v → p ∈ v → ∃ p' ∈ s, SameBody p' p := by
    intro i s p _ hc hp
    have : p.noLook ∈ core s := by rw [hc]; exact mem_core.mpr ⟨p, hp, rfl⟩
    obtain ⟨p', h1, h2⟩ := mem_core.mp this
    exact ⟨p', h1, noLook_eq.mp h2⟩
  intro p hp
  have hclo := (hv.mem p).mp hp
  clear hp
  induction hclo with
  | base hp => exact hK _ hp
  | @step p q hp ha ih =>
    have hpv := (hv.mem p).mpr hp
    obtain ⟨h1, h2, h3, h4⟩ := adds_prod hF.of.grammar ha
    intro x hx y hy hxy
    rw [h4] at hx
    cases hn : p.next with
    | none =>
      rw [clrLook_none hn] at hx
      obtain ⟨i, s, st, syms, w, g1, g2, g3, g4, g5, g6⟩ := ih x hx y hy hxy
      obtain ⟨p', hp', hb⟩ := inst g1 g2 hpv
      have hd := rderives_closure (q := p') (X := q.rule) (by rw [← hb.1, ← hb.2.2] at g6; exact g6) g4
        (hA.prod g1 hp').1 (hb.top.trans h1) (v := [])
        (by rw [next_drop_none (hb.next.trans hn)]; exact .refl _) (by simp [Terminals])
      rw [← hA.split_syms g3 g1 hp'] at hd
      exact ⟨i, s, st, syms, w, g1, g2, g3, g4, g5, by rw [h3]; simpa using hd⟩
    | some Z =>
      rw [clrLook_some hn] at hx
      obtain ⟨i, s, st, syms, g1, g2, g3⟩ := hr
      obtain ⟨p', hp', hb⟩ := inst g1 g2 hpv
      obtain ⟨w, hw, hd⟩ := hA.rviable hpr g3 rfl g1 hp'
      have hZy : InFirst D Z y := by
        rcases of_mem_symLook hF.of hx with rfl | hZ
        · exact hxy
        · exact InFirst.trans hZ hxy
      obtain ⟨v1, hv1⟩ := hZy
      obtain ⟨v2, hv2, hv2t⟩ := productive_list hpr (v1 ++ p'.seq.1.drop (p'.point + 2))
      have hv : Derives D (p'.seq.1.drop (p'.point + 1)) (y :: v2) := by
        rw [next_drop (hb.next.trans hn)]
        have g1 : Derives D (Z :: p'.seq.1.drop (p'.point + 2)) ((y :: v1) ++ p'.seq.1.drop (p'.point + 2)) :=
          hv1.cons (.refl _)
        exact g1.trans ((Derives.refl (D := D) [y]).append hv2)
      have hvt : Terminals D (y :: v2) := terminals_cons.mpr ⟨hy, hv2t⟩
      have := rderives_closure hd hw (hA.prod g1 hp').1 (hb.top.trans h1) hv hvt
      rw [← hA.split_syms g3 g1 hp'] at this
      exact ⟨i, s, st, syms, y :: v2 ++ w, g1, g2, g3, terminals_append.mpr ⟨hvt, hw⟩, by simp,
        by rw [h3]; simpa using this⟩

/-- Successors of backed positions are backed. -/
theorem LBuilt.backed_next (hF : LBuilt F D S eof t0 G) (hpr : AllProductive D) {C row v : State T} {X : T}
    (hC : Attained F C) (hrow : Tabler.symFilter (core row) X = Tabler.symFilter C X)
    (hne : Tabler.symFilter row X ≠ [])
    (hb : AllBacked F D S eof C row)
    (hv : IsClo t0.grammar.rules (clrLook t0.first) (Tabler.symFilter row X) v) :
    Attained F (core v) ∧ AllBacked F D S eof (core v) (Tabler.symFilter row X) ∧
      AllBacked F D S eof (core v) v := by
  -- the successor of a state with this core has the core of `v`
  have succ : ∀ {i : Nat} {s : State T} {st : List Nat} {syms : List T}, F.table.states[i]? = some s →
      core s = C → LPath F (i :: st) syms → ∃ j s', F.table.states[j]? = some s' ∧ core s' = core v ∧
        LPath F (j :: i :: st) (X :: syms) := by
    intro i s st syms hs hc hp
    obtain ⟨q, hq⟩ := List.exists_mem_of_ne_nil _ hne
    have : q.noLook ∈ Tabler.symFilter C X := by
      rw [← hrow, ← core_symFilter]; exact mem_core.mpr ⟨q, hq, rfl⟩
    obtain ⟨c, h1, h2, _⟩ := mem_symFilter.mp this
    rw [← hc] at h1
    obtain ⟨p, hp', rfl⟩ := mem_core.mp h1
    obtain ⟨j, s', g1, _, g3, g4⟩ := hF.edge hs hp' h2
    refine ⟨j, s', g3, ?_, .cons hp hs hp' h2 g1⟩
    have h5 := core_clo hv
    rw [core_symFilter, hrow, ← hc] at h5
    exact g4.unique h5
  have hatt : Attained F (core v) := by
    obtain ⟨i, s, st, syms, g1, g2, g3⟩ := hC
    obtain ⟨j, s', k1, k2, k3⟩ := succ g1 g2 g3
    exact ⟨j, s', _, _, k1, k2, k3⟩
  have hk : AllBacked F D S eof (core v) (Tabler.symFilter row X) := by
    intro q hq x hx y hy hxy
    obtain ⟨p, hp, ht, rfl⟩ := mem_symFilter.mp hq
    obtain ⟨i, s, st, syms, w, g1, g2, g3, g4, g5, g6⟩ := hb p hp x hx y hy hxy
    obtain ⟨j, s', k1, k2, k3⟩ := succ g1 g2 g3
    exact ⟨j, s', _, _, w, k1, k2, k3, g4, g5, g6⟩
  exact ⟨hatt, hk, hF.backed_clo hpr hv hatt hk⟩

/-- `update_state` keeps everything backed. -/
theorem JInv.updateState {l l' : Lalr T} (hj : JInv F D S eof l) (h : LInv t0 G l) {dbg : Bool}
    {K inc v : State T} {r : Option (State T)} (hinc : inc ≠ [])
    (hK : l.raws.get? (core inc) = some K)
    (hv : IsClo t0.grammar.rules (clrLook t0.first) inc v)
    (hi : AllBacked F D S eof (core v) inc) (hvb : AllBacked F D S eof (core v) v)
    (hu : l.updateState dbg K inc v = .ok (l', r)) : JInv F D S eof l' := by
  have hC : core inc ≠ [] := core_ne_nil hinc
  obtain ⟨hKC, _, _, i, hki⟩ := h.raw _ K hC hK
  have hi0 := h.id_ne hki (h.raw_ne hC hK)
  obtain ⟨_, ⟨s, hs, hsclo⟩, _⟩ := h.kern K i hki hi0
  have hcs : core v = core s := by
    have h1 := core_clo hv
    rw [← hKC] at h1
    exact h1.unique hsclo
  unfold Lalr.updateState at hu
  simp only [hki] at hu
  split at hu
  · cases hu; exact hj
  · obtain ⟨old, ho, hu⟩ := Out.bind_eq_ok.mp hu
    rw [hs] at ho; cases ho
    obtain ⟨_, _, hu⟩ := Out.bind_eq_ok.mp hu
    cases hu
    have hm := merged_spec (OSet.ofList (inc ++ K))
    have hms := merged_spec (OSet.ofList (s ++ v))
    have hcm : core (merged (OSet.ofList (s ++ v))) = core s := by
      rw [core_merged, core_union hcs.symm, hcs]
    have hilt := (List.getElem?_eq_some_iff.mp hs).1
    have hst : ∀ k, (l.table.states.set i (merged (OSet.ofList (s ++ v))))[k]? =
        if k = i then some (merged (OSet.ofList (s ++ v))) else l.table.states[k]? := by
      intro k
      rw [List.getElem?_set]
      by_cases hki : i = k
      · subst hki; simp [hilt]
      · rw [if_neg hki, if_neg (fun e => hki e.symm)]
    rw [hcs] at hi hvb
    obtain ⟨j1, j2⟩ := hj.states i s hs
    have hnew : AllBacked F D S eof (core s) (merged (OSet.ofList (s ++ v))) :=
      (AllBacked.union j2 hvb).merge hms
    constructor
    · intro k sk hk
      rw [hst] at hk
      split at hk
      · cases hk
        rw [hcm]; exact ⟨j1, hnew⟩
      · exact hj.states k sk hk
    · intro K' k sk hk hsk
      rw [hst] at hsk
      simp only [OMap.get?_insert, OMap.get?_remove] at hk
      split at hk
      · rename_i e
        subst e
        cases hk
        rw [if_pos rfl] at hsk
        cases hsk
        rw [hcm]
        exact (AllBacked.union hi (hj.kernels K i s hki hs)).merge hm
      · split at hk
        · cases hk
        · split at hsk
          · rename_i e
            subst e
            cases hsk
            rw [hcm]
            exact hj.kernels K' _ s hk hs
          · exact hj.kernels K' k sk hk hsk

/-- What `update_closures` works on: the kernel of a state. -/
structure KernelOf (F : Lalr T) (D : Decls T) (S eof : T) (G : Position T → Prop) (C K : State T) :
    Prop where
  att : Attained F C
  good : ∀ p ∈ K, G p
  back : AllBacked F D S eof C K
  kern : ∀ c, c ∈ core K ↔ c ∈ C ∧ 0 < c.point

theorem LInv.kernelOf (hof : t0.Of D S eof) {l : Lalr T} (h : LInv t0 G l) (hj : JInv F D S eof l)
    {K : State T} {i : Nat} (hk : l.table.kernels.get? K = some i) (hi : i ≠ 0) :
    ∃ s, l.table.states[i]? = some s ∧ KernelOf F D S eof G (core s) K := by
  obtain ⟨h1, ⟨s, hs, hclo⟩, j, sj, X, _, _, _, hX⟩ := h.kern K i hk hi
  have hne := h.ne_nil hk hi
  refine ⟨s, hs, (hj.states i s hs).1, (h.raw _ K (core_ne_nil hne) h1).2.2.1, hj.kernels K i s hk hs, ?_⟩
  rw [hX] at hclo ⊢
  exact clo_kernel hof hclo

theorem LInv.update_ok (hG : GoodPred t0 V G) {dbg : Bool} {c n : Nat} (hf : V.length < c) {l l' : Lalr T}
    {i : Nat} {K inc v : State T} {r : Option (State T)} (h : LInv t0 G l) (hne : inc ≠ [])
    (hK : l.raws.get? (core inc) = some K) (hi : l.table.kernels.get? K = some i)
    (hincG : ∀ p ∈ inc, G p) (hv : IsClo t0.grammar.rules (clrLook t0.first) inc v)
    (hu : Lalr.update dbg c n l (.enter K inc v) = .ok (l', r)) :
    UpdOk t0 V G 0 i (core inc) l l' r := by
  obtain ⟨B, hB⟩ : ∃ B, ∀ p ∈ V, p.point ≤ B := by
    clear hG hf
    induction V with
    | nil => exact ⟨0, by simp⟩
    | cons p V ih =>
      obtain ⟨B, hB⟩ := ih
      refine ⟨max p.point B, fun q hq => ?_⟩
      rcases List.mem_cons.mp hq with rfl | hq
      · omega
      · have := hB q hq; omega
  obtain ⟨l'', r', h1, h2⟩ := LInv.update hG (dbg := dbg) hf hB (B + 1) 0 (by omega) l
    (updFuel t0.grammar.symbols.length (B + 1)) i K inc v h (Nat.le_refl _) hne hK hi hincG
    (fun _ _ => Nat.zero_le _) hv
  have := Out.Le.agree (f := fun n => Lalr.update dbg c n l (.enter K inc v))
    (fun h => Lalr.update_le (Nat.le_refl _) h _ _) hu h1
  cases this
  exact h2

/-- No mix-up between the kernels of states. -/
theorem KernelOf.unmixed {C K : State T} (hun : Unmixed F.table)
    (hk : KernelOf F D S eof G C K) {C' K' : State T} (hk' : KernelOf F D S eof G C' K') {X : T}
    (hne : Tabler.symFilter K X ≠ []) (he : core K' = core (Tabler.symFilter K X)) :
    Tabler.symFilter (core K) X = Tabler.symFilter C X := by
  obtain ⟨i, s, _, _, h1, h2, _⟩ := hk.att
  obtain ⟨j, s', _, _, h1', h2', _⟩ := hk'.att
  have key := hun i j s s' X h1 h1' ?_ ?_
  · refine OSet.ext (sorted_symFilter _ _) (sorted_symFilter _ _) (fun c => ?_)
    rw [mem_symFilter, mem_symFilter]
    constructor
    · rintro ⟨p, hp, ht, rfl⟩
      exact ⟨p, ((hk.kern p).mp hp).1, ht, rfl⟩
    · rintro ⟨p, hp, ht, rfl⟩
      refine ⟨p, (hk.kern p).mpr ⟨hp, ?_⟩, ht, rfl⟩
      rw [← h2] at hp
      obtain ⟨p', hp', rfl⟩ := mem_core.mp hp
      exact key p' hp' ht
  · obtain ⟨q, hq⟩ := List.exists_mem_of_ne_nil _ hne
    obtain ⟨p, hp, ht, _⟩ := mem_symFilter.mp hq
    obtain ⟨g1, g2⟩ := (hk.kern p.noLook).mp (mem_core.mpr ⟨p, hp, rfl⟩)
    rw [← h2] at g1
    obtain ⟨p', hp', e⟩ := mem_core.mp g1
    have hb := noLook_eq.mp e
    refine ⟨p', hp', ?_, hb.top.trans ht⟩
    have : p'.point = p.point := hb.2.2
    rw [this]; exact g2
  · intro c
    rw [core_symFilter] at he
    have e1 : (∃ q ∈ s', 0 < q.point ∧ bare q = c) ↔ c ∈ core K' := by
      rw [hk'.kern, ← h2', mem_core]
      constructor
      · rintro ⟨q, hq, h0, rfl⟩; exact ⟨⟨q, hq, rfl⟩, h0⟩
      · rintro ⟨⟨q, hq, rfl⟩, h0⟩; exact ⟨q, hq, h0, rfl⟩
    rw [e1, he, mem_symFilter]
    constructor
    · rintro ⟨p, hp, ht, rfl⟩
      obtain ⟨g1, g2⟩ := (hk.kern p).mp hp
      rw [← h2] at g1
      obtain ⟨p', hp', rfl⟩ := mem_core.mp g1
      exact ⟨p', hp', g2, ht, rfl⟩
    · rintro ⟨p, hp, h0, ht, rfl⟩
      refine ⟨p.noLook, (hk.kern _).mpr ⟨?_, h0⟩, ht, rfl⟩
      rw [← h2]; exact mem_core.mpr ⟨p, hp, rfl⟩

/-- `update_closures` keeps everything backed. -/
theorem JInv.update (hF : LBuilt F D S eof t0 G) (hG : GoodPred t0 V G) (hpr : AllProductive D)
    (hun : Unmixed F.table) {dbg : Bool} {c : Nat} (hf : V.length < c) (n : Nat) :
    ∀ (l l' : Lalr T) (r : Option (State T)), LInv t0 G l → JInv F D S eof l →
      (∀ K inc v, inc ≠ [] → l.raws.get? (core inc) = some K → (∀ p ∈ inc, G p) →
        IsClo t0.grammar.rules (clrLook t0.first) inc v → AllBacked F D S eof (core v) inc →
        AllBacked F D S eof (core v) v →
        Lalr.update dbg c n l (.enter K inc v) = .ok (l', r) → JInv F D S eof l') ∧
      (∀ id K C ss, id ≠ 0 → KernelOf F D S eof G C K →
        Lalr.update dbg c n l (.loop id K ss) = .ok (l', r) → JInv F D S eof l') := by
  induction n with
  | zero =>
    intro l l' r _ _
    exact ⟨fun _ _ _ _ _ _ _ _ _ h => by simp [Lalr.update] at h, fun _ _ _ _ _ _ h => by simp [Lalr.update] at h⟩
  | succ n ih =>
    intro l l' r h hj
    constructor
    · intro K inc v hne hK hincG hv hb1 hb2 hu
      have hC : core inc ≠ [] := core_ne_nil hne
      obtain ⟨_, _, _, i, hi⟩ := h.raw _ K hC hK
      unfold Lalr.update at hu
      obtain ⟨⟨l1, r1⟩, hu1, hu⟩ := Out.bind_eq_ok.mp hu
      have hj1 := hj.updateState h hne hK hv hb1 hb2 hu1
      cases r1 with
      | none => cases hu; exact hj1
      | some nk =>
        simp only at hu
        obtain ⟨id, hid, hu⟩ := Out.bind_eq_ok.mp hu
        rcases h.updateState hG (dbg := dbg) hne hK hi hincG hv with e | ⟨l2, nk2, e, h1, _, _, _, _, hki, _⟩
        · rw [e] at hu1; cases hu1
        · rw [e] at hu1; cases hu1
          rw [hki] at hid; cases hid
          have hi0 := h.id_ne hi (h.raw_ne hC hK)
          obtain ⟨s, hs, hko⟩ := h1.kernelOf hF.of hj1 hki hi0
          exact (ih _ _ _ h1 hj1).2 i nk _ _ hi0 hko hu
    · intro id K C ss hid hko hu
      cases ss with
      | nil => simp only [Lalr.update] at hu; cases hu; exact hj
      | cons X ss =>
        unfold Lalr.update at hu
        rcases h.goto hG hf hko.good X with ⟨hgo, _⟩ | ⟨v, hgo, hnone, hne, hKG, hclo⟩
        · rw [hgo] at hu
          simp only [Out.ok_bind] at hu
          exact (ih _ _ _ h hj).2 id K C ss hid hko hu
        · rw [hgo] at hu
          simp only [Out.ok_bind] at hu
          cases hr : l.raws.get? (core (Tabler.symFilter K X)) with
          | none =>
            rw [hr] at hu
            exact (ih _ _ _ h hj).2 id K C ss hid hko hu
          | some K' =>
            rw [hr] at hu
            simp only at hu
            obtain ⟨hKc, _, _, i', hi'⟩ := h.raw _ K' (core_ne_nil hne) hr
            obtain ⟨s', _, hko'⟩ := h.kernelOf hF.of hj hi' (h.id_ne hi' (h.raw_ne (core_ne_nil hne) hr))
            have hX := hko.unmixed hun hko' hne hKc
            obtain ⟨_, hb1, hb2⟩ := hF.backed_next hpr hko.att hX hne hko.back hclo
            obtain ⟨⟨l1, r1⟩, hu1, hu⟩ := Out.bind_eq_ok.mp hu
            have hj1 := (ih _ _ _ h hj).1 K' _ v hne hr hKG hclo hb1 hb2 hu1
            have hok := h.update_ok hG hf hne hr hi' hKG hclo hu1
            cases r1 with
            | none => exact (ih _ _ _ hok.inv hj1).2 id K C ss hid hko hu
            | some nk =>
              simp only at hu
              obtain ⟨u, hu2, hu⟩ := Out.bind_eq_ok.mp hu
              obtain ⟨_, _, hk'⟩ := hok.some nk rfl
              rw [hk'] at hu2; cases hu2
              split at hu
              · rename_i hcond
                obtain ⟨s, hs, hko2⟩ := hok.inv.kernelOf hF.of hj1 hk' (by rw [hcond.1]; exact hid)
                exact (ih _ _ _ hok.inv hj1).2 id nk _ _ hid hko2 hu
              · exact (ih _ _ _ hok.inv hj1).2 id K C ss hid hko hu

/-- `proc_closures` keeps everything backed. -/
theorem JInv.gen (hF : LBuilt F D S eof t0 G) (hG : GoodPred t0 V G) (hpr : AllProductive D)
    (hun : Unmixed F.table) {dbg : Bool} {c u : Nat} (hf : V.length < c) (n : Nat) :
    ∀ (ss : List T) (l l' : Lalr T) (idx : Nat) (row s : State T), LInv t0 G l → JInv F D S eof l →
      l.table.states[idx]? = some s → core row = core s → (∀ p ∈ row, G p) →
      AllBacked F D S eof (core s) row → (∀ X ∈ ss, X ∈ t0.grammar.symbols) →
      Lalr.gen dbg c u n idx row ss l = .ok l' → JInv F D S eof l' := by
  induction n with
  | zero => intro ss l l' idx row s _ _ _ _ _ _ _ h; simp [Lalr.gen] at h
  | succ n ih =>
    intro ss l l' idx row s h hj hs hrow hrowG hb hsub hg
    cases ss with
    | nil =>
      unfold Lalr.gen at hg
      cases hn : l.table.states[idx + 1]? with
      | none => rw [hn] at hg; cases hg; exact hj
      | some row' =>
        rw [hn] at hg
        simp only at hg
        rw [h.grammar] at hg
        exact ih _ l l' (idx + 1) row' row' h hj hn rfl (h.good _ _ hn) (hj.states _ _ hn).2
          (fun _ h => h) hg
    | cons X ss =>
      have hsub' : ∀ Y ∈ ss, Y ∈ t0.grammar.symbols := fun Y hY => hsub Y (by simp [hY])
      have hcf : core (Tabler.symFilter row X) = Tabler.symFilter (core s) X := by
        rw [core_symFilter, hrow]
      unfold Lalr.gen at hg
      rcases h.goto hG hf hrowG X with ⟨hgo, _⟩ | ⟨v, hgo, hnone, hne, hKG, hclo⟩
      · rw [hgo] at hg
        simp only [Out.ok_bind] at hg
        exact ih ss l l' idx row s h hj hs hrow hrowG hb hsub' hg
      · rw [hgo] at hg
        simp only [Out.ok_bind] at hg
        obtain ⟨ha, hb1, hb2⟩ := hF.backed_next hpr (hj.states idx s hs).1 (by rw [hrow]) hne hb hclo
        cases hr : l.raws.get? (core (Tabler.symFilter row X)) with
        | none =>
          rw [hr] at hg
          simp only at hg
          obtain ⟨_, _, hg⟩ := Out.bind_eq_ok.mp hg
          simp only [List.length_append, List.length_cons, List.length_nil, Nat.zero_add,
            Nat.add_sub_cancel] at hg
          obtain ⟨p1, p2, _, _⟩ := h.push hG (hsub X (by simp)) hne (sorted_symFilter row X) hnone hr hKG
            hclo hs hcf _ rfl
          obtain ⟨s', hs', hc'⟩ := p2.cores idx s hs
          refine ih ss _ l' idx row s' p1 ?_ hs' (hrow.trans hc'.symm) hrowG (by rw [hc']; exact hb) hsub' hg
          have hst : ∀ (k : Nat) sk, (l.table.states ++ [v])[k]? = some sk →
              (k < l.table.states.length ∧ l.table.states[k]? = some sk) ∨
              (k = l.table.states.length ∧ sk = v) := by
            intro k sk hk
            by_cases hlt : k < l.table.states.length
            · left; rw [List.getElem?_append_left hlt] at hk; exact ⟨hlt, hk⟩
            · right
              have hle : l.table.states.length ≤ k := by omega
              rw [List.getElem?_append_right hle] at hk
              cases hh : k - l.table.states.length with
              | zero => rw [hh] at hk; exact ⟨by omega, by simpa using hk.symm⟩
              | succ m => rw [hh] at hk; simp at hk
          constructor
          · intro k sk hk
            rcases hst k sk hk with ⟨_, hk⟩ | ⟨_, rfl⟩
            · exact hj.states k sk hk
            · exact ⟨ha, hb2⟩
          · intro K k sk hk hsk
            simp only [OMap.get?_insert] at hk
            split at hk
            · rename_i e
              subst e
              cases hk
              rcases hst _ sk hsk with ⟨h1, _⟩ | ⟨_, rfl⟩
              · omega
              · exact hb1
            · rcases hst k sk hsk with ⟨_, h1⟩ | ⟨e, _⟩
              · exact hj.kernels K k sk hk h1
              · have := h.bound hk; omega
        | some K =>
          rw [hr] at hg
          simp only at hg
          obtain ⟨_, _, _, i, hi⟩ := h.raw _ K (core_ne_nil hne) hr
          obtain ⟨⟨l1, r1⟩, hu1, hg⟩ := Out.bind_eq_ok.mp hg
          have hok := h.update_ok hG hf hne hr hi hKG hclo hu1
          have hj1 := (JInv.update hF hG hpr hun hf u l l1 r1 h hj).1 K _ v hne hr hKG hclo hb1 hb2 hu1
          obtain ⟨s', hs', hc'⟩ := hok.ext.cores idx s hs
          have hcont : Lalr.gen dbg c u n idx row ss l1 = .ok l' → JInv F D S eof l' := fun hg =>
            ih ss l1 l' idx row s' hok.inv hj1 hs' (hrow.trans hc'.symm) hrowG (by rw [hc']; exact hb) hsub' hg
          cases r1 with
          | none => exact hcont hg
          | some nk =>
            simp only at hg
            obtain ⟨up, _, hg⟩ := Out.bind_eq_ok.mp hg
            split at hg
            · rw [hs'] at hg
              simp only at hg
              rw [hok.inv.grammar] at hg
              exact ih _ l1 l' idx s' s' hok.inv hj1 hs' rfl (hok.inv.good _ _ hs')
                (hj1.states _ _ hs').2 (fun _ h => h) hg
            · exact hcont hg

/-- All lookaheads of a table of `Lalr` without mix-ups are backed. -/
theorem Lalr.backed {dbg : Bool} {n : Nat} {g : Grammar T} (hg : g.Of D S eof) {l : Lalr T}
    (h : Lalr.new dbg n g = .ok l) (hpr : AllProductive D) (he : Terminal D eof)
    (hun : Unmixed l.table) {i : Nat} {s : State T} (hs : l.table.states[i]? = some s) :
    AllBacked l D S eof (core s) s := by
  obtain ⟨t0, ht0, hF, _⟩ := Lalr.built hg h
  have hof := hF.of
  have hG := goodPred hof (lookRel_any hof)
  -- as much fuel as wanted
  obtain ⟨m, hm, hmn⟩ : ∃ m, (lookPositions t0).length < m ∧ n ≤ m :=
    ⟨(lookPositions t0).length + 1 + n, by omega, by omega⟩
  have h' := (Lalr.new_le (dbg := dbg) hmn g).ok h
  unfold Lalr.new at h'
  obtain ⟨t1, ht1, h'⟩ := Out.bind_eq_ok.mp h'
  have := Out.Le.agree (f := fun n => Tabler.new dbg n g) (fun h => Tabler.new_le h) ht0 ht1
  subst this
  obtain ⟨_, _, _, _, _, _, _, e1, e2, e3⟩ := Tabler.new_ok ht0
  unfold Lalr.withTable at h'
  obtain ⟨l1, hl1, h'⟩ := Out.bind_eq_ok.mp h'
  obtain ⟨tb, htb, h'⟩ := Out.bind_eq_ok.mp h'
  cases h'
  have hst : tb.states = l1.table.states := by
    unfold procRows at htb
    obtain ⟨rows, _, htb⟩ := Out.bind_eq_ok.mp htb
    cases htb
    rfl
  unfold Lalr.procClosures at hl1
  obtain ⟨l0, hl0, hl1⟩ := Out.bind_eq_ok.mp hl1
  unfold Lalr.firstRow at hl0
  obtain ⟨v, hv, hl0⟩ := Out.bind_eq_ok.mp hl0
  have hclo := propClosure_spec Clr.isClosureFn (OSet.sorted_ofList [t0.basisPos]) hv
  have heof : GoodPos D (fun _ x => x ∈ lookSyms t0) t0.basisPos := by
    refine goodPos_basis hof (List.mem_append_left _ ?_)
    obtain ⟨b, _, e⟩ := hof.grammar.basis
    have e' : t0.basisPos = _ := e
    rw [e']; simp
  obtain ⟨hinv, f1, f2, hvG⟩ := LInv.first_row hG heof e2 e3 hclo (l1 := l0) (by cases hl0; rfl)
  have hr : l0.table.states[0]? = some v := by rw [f1]; rfl
  rw [hr] at hl1
  simp only at hl1
  -- the first row
  obtain ⟨b0, hb0, hbas⟩ := hof.grammar.basis
  have hbas' : t0.basisPos = _ := hbas
  obtain ⟨s0, hs0, hs0c⟩ := hF.start
  obtain rfl := hclo.unique hs0c
  have hatt : Attained _ (core v) := ⟨0, v, [], [], hs0, rfl, .base⟩
  have hback := hF.backed_clo hpr hclo hatt (by
    intro p hp x hx y hy hxy
    simp at hp
    subst hp
    rw [hbas'] at hx ⊢
    simp at hx
    subst hx
    rw [InFirst.terminal hxy he]
    exact ⟨0, v, [], [], [], hs0, rfl, .base, by simp [Terminals], rfl, .refl⟩)
  have hj0 : JInv { l1 with table := tb } D S eof l0 := by
    constructor
    · intro i s hs
      rw [f1] at hs
      cases i with
      | zero => cases hs; exact ⟨hatt, hback⟩
      | succ i => simp at hs
    · intro K i s hk _ p hp
      rw [f2] at hk
      split at hk
      · rename_i e; subst e; simp at hp
      · cases hk
  rw [hinv.grammar] at hl1
  have hj := JInv.gen hF hG hpr hun hm m t0.grammar.symbols l0 l1 0 v v hinv hj0 hr rfl hvG hback
    (fun _ h => h) hl1
  have hs' : l1.table.states[i]? = some s := by rw [← hst]; exact hs
  exact (hj.states i s hs').2

end

end Lrp
