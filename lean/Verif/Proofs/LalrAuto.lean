import Verif.Proofs.LalrGen
import Verif.Proofs.Canonical

/-! Whatever `Lalr::new` returns is an LR automaton with its action table. -/

set_option linter.unusedSectionVars false

namespace Lrp
open Spec
variable {T : Type} [LinOrd T] [DecidableEq T]

local notation "core" => Lalr.withoutLook

/-- Positions of the grammar whose lookaheads are sets of symbols related to the rule. -/
structure GoodPos (D : Decls T) (R : T → T → Prop) (p : Position T) : Prop where
  prod : IsProd D p.rule p.seq.2 p.seq.1
  le : p.point ≤ p.seq.1.length
  set : IsSet p.look
  look : ∀ x ∈ p.look, R p.rule x

/-- All symbols a lookahead can contain. -/
def lookSyms (t : Tabler T) : List T :=
  t.basisPos.look ++ (bodySymbols t.grammar.rules).flatMap (symLook t.first)

/-- All positions of the grammar with lookaheads made of these. -/
def lookPositions (t : Tabler T) : List (Position T) :=
  univ t.grammar.rules (subs (OSet.ofList (lookSyms t)))

theorem mem_of_mem_subs {α : Type} {l s : List α} (h : s ∈ subs l) : ∀ x ∈ s, x ∈ l := by
  induction l generalizing s with
  | nil => simp [subs] at h; subst h; simp
  | cons a l ih =>
    intro x hx
    simp only [subs, List.mem_append, List.mem_map] at h
    rcases h with h | ⟨s', h, rfl⟩
    · exact List.mem_cons_of_mem _ (ih h x hx)
    · rcases List.mem_cons.mp hx with rfl | hx
      · exact List.mem_cons_self
      · exact List.mem_cons_of_mem _ (ih h x hx)

theorem isSet_symLook (first : Table T) (x : T) : IsSet (symLook first x) := by
  unfold symLook
  split
  · exact OSet.sorted_extend OSet.sorted_nil
  · exact OSet.sorted_ofList [x]

/-- A relation between rules and lookaheads that closure steps preserve. -/
structure LookRel (t : Tabler T) (D : Decls T) (R : T → T → Prop) : Prop where
  fin : ∀ A x, R A x → x ∈ lookSyms t
  next : ∀ p : Position T, IsProd D p.rule p.seq.2 p.seq.1 → ∀ A, p.top = some A → Nonterminal D A →
    ∀ Z, p.next = some Z → ∀ x ∈ symLook t.first Z, R A x
  last : ∀ p : Position T, IsProd D p.rule p.seq.2 p.seq.1 → ∀ A, p.top = some A → Nonterminal D A →
    p.next = none → ∀ x, R p.rule x → R A x

theorem goodPred {t : Tabler T} {D : Decls T} {S eof : T} (h : t.Of D S eof) {R : T → T → Prop}
    (hR : LookRel t D R) : GoodPred t (lookPositions t) (GoodPos D R) := by
  refine ⟨?_, ?_, ?_, ?_, fun hp => hp.set, ?_⟩
  · intro p hp
    obtain ⟨r, h1, h2⟩ := h.grammar.of_isProd hp.prod
    exact mem_univ.mpr ⟨r, OMap.mem_of_get? h1, h2, hp.le,
      sorted_mem_subs hp.set (fun x hx => hR.fin _ x (hp.look x hx))⟩
  · rintro p hp q ⟨A, r, prod, h1, h2, h3, rfl⟩
    obtain ⟨r', k1, k2, k3, k4⟩ := mem_univ.mp hp
    refine mem_univ.mpr ⟨r, OMap.mem_of_get? h2, h3, Nat.zero_le _, ?_⟩
    show clrLook t.first p ∈ _
    cases hn : p.next with
    | none => rw [clrLook_none hn]; exact k4
    | some Z =>
      rw [clrLook_some hn]
      refine sorted_mem_subs (isSet_symLook _ _) (fun x hx => ?_)
      refine List.mem_append_right _ (List.mem_flatMap.mpr ⟨Z, ?_, hx⟩)
      exact mem_bodySymbols.mpr ⟨_, k1, p.seq, k2, List.mem_of_getElem? hn⟩
  · intro p q hp ha
    obtain ⟨h1, h2, h3, h4⟩ := adds_prod h.grammar ha
    refine ⟨h2, by omega, ?_, ?_⟩
    · rw [h4]
      cases hn : p.next with
      | none => rw [clrLook_none hn]; exact hp.set
      | some Z => rw [clrLook_some hn]; exact isSet_symLook _ _
    · rw [h4]
      cases hn : p.next with
      | none =>
        rw [clrLook_none hn]
        intro x hx
        exact hR.last p hp.prod _ h1 h2.nonterminal hn x (hp.look x hx)
      | some Z =>
        rw [clrLook_some hn]
        intro x hx
        exact hR.next p hp.prod _ h1 h2.nonterminal Z hn x hx
  · intro p X hp ht
    exact ⟨hp.prod, top_lt ht, hp.set, hp.look⟩
  · intro s m hm hs q hq
    obtain ⟨p, hp, hb⟩ := hm.body q hq
    have hg := hs p hp
    refine ⟨?_, ?_, hm.looks (fun p hp => (hs p hp).set) q hq, ?_⟩
    · rw [← hb.1, ← hb.2.1]; exact hg.prod
    · rw [← hb.2.1, ← hb.2.2]; exact hg.le
    · intro x hx
      obtain ⟨p', hp', hb', hx'⟩ := (hm.look q hq x).mp hx
      rw [← hb'.1]; exact (hs p' hp').look x hx'

theorem goodPos_basis {t : Tabler T} {D : Decls T} {S eof : T} (h : t.Of D S eof)
    {R : T → T → Prop} (hR : R S eof) : GoodPos D R t.basisPos := by
  obtain ⟨b, hb, he⟩ := h.grammar.basis
  have he' : t.basisPos = _ := he
  rw [he']
  refine ⟨hb, Nat.zero_le _, OSet.sorted_ofList [eof], ?_⟩
  intro x hx
  simp at hx; subst hx; exact hR

/-- The trivial relation. -/
theorem lookRel_any {t : Tabler T} {D : Decls T} {S eof : T} (h : t.Of D S eof) :
    LookRel t D (fun _ x => x ∈ lookSyms t) := by
  refine ⟨fun _ _ h => h, ?_, fun _ _ _ _ _ _ _ h => h⟩
  intro p hp A _ _ Z hn x hx
  obtain ⟨r, h1, h2⟩ := h.grammar.of_isProd hp
  refine List.mem_append_right _ (List.mem_flatMap.mpr ⟨Z, ?_, hx⟩)
  exact mem_bodySymbols.mpr ⟨_, OMap.mem_of_get? h1, _, h2, List.mem_of_getElem? hn⟩

theorem Lalr.isDecision (l : Lalr T) (start : T) :
    IsDecision (fun p s => Lalr.decision l start p s) l.table.grammar start (Lalr.stateFromKernel l)
      (fun p x => x ∈ p.look) (fun _ => True) := by
  refine ⟨?_, fun _ _ _ h => absurd trivial h, ?_⟩
  · intro p s hp _
    exact ⟨p.look, by simp only [Lalr.decision, hp], fun x => Iff.rfl⟩
  · intro p s x hp
    simp only [Lalr.decision, hp]
    exact shiftDecision_eq l.table _ s x

/-- A built `Lalr` parser. -/
structure LBuilt (l : Lalr T) (D : Decls T) (S eof : T) (t0 : Tabler T) (G : Position T → Prop) :
    Prop where
  of : t0.Of D S eof
  good : ∀ {p}, G p → IsProd D p.rule p.seq.2 p.seq.1 ∧ p.point ≤ p.seq.1.length
  coll : ∃ l0, LDone t0 G l0 ∧ l0.raws = l.raws ∧ l0.table.states = l.table.states ∧
    l0.table.kernels = l.table.kernels
  grammar : l.table.grammar = t0.grammar
  first : l.table.first = t0.first
  follow : l.table.follow = t0.follow
  rows : l.table.actions.length = l.table.states.length
  cell : ∀ (i : Nat) s row, l.table.states[i]? = some s → l.table.actions[i]? = some row →
    OMap.Sorted row ∧ ∀ x, CellOK (row.get? x)
      (Decides t0.grammar S (fun x => l.stateFromKernel (Tabler.symFilter s x))
        (fun p x => x ∈ p.look) s x)

theorem LDone.edge {t0 : Tabler T} {G : Position T → Prop} {l : Lalr T} (h : LDone t0 G l) {i : Nat}
    {s : State T} {p : Position T} {x : T} (hx : x ∈ t0.grammar.symbols)
    (hs : l.table.states[i]? = some s) (hp : p ∈ s) (ht : p.top = some x) :
    ∃ K j s', l.stateFromKernel (Tabler.symFilter s x) = some j ∧ j ≠ 0 ∧
      l.table.states[j]? = some s' ∧ l.table.kernels.get? K = some j ∧
      core K = Tabler.symFilter (core s) x ∧
      IsClo t0.grammar.rules noLk (Tabler.symFilter (core s) x) (core s') := by
  have hmem : p.noLook.adv ∈ Tabler.symFilter (core s) x :=
    mem_symFilter.mpr ⟨p.noLook, mem_core.mpr ⟨p, hp, rfl⟩, ht, rfl⟩
  have hne : Tabler.symFilter (core s) x ≠ [] := by
    intro e; rw [e] at hmem; simp at hmem
  rcases h.done i (List.getElem?_eq_some_iff.mp hs).1 x hx s hs with h1 | ⟨K, hK⟩
  · exact absurd h1 hne
  · obtain ⟨hc, _, _, j, hj⟩ := h.inv.raw _ K hne hK
    have hj0 := h.inv.id_ne hj (h.inv.raw_ne hne hK)
    obtain ⟨_, ⟨s', hs', hclo⟩, _⟩ := h.inv.kern K j hj hj0
    refine ⟨K, j, s', ?_, hj0, hs', hj, hc, by rw [← hc]; exact hclo⟩
    unfold Lalr.stateFromKernel Lalr.finalKernel
    rw [core_symFilter, hK]
    exact hj

/-- `Lalr::with_table` returns a built parser, all of whose positions are good. -/
theorem Lalr.withTable_good {t : Tabler T} {D : Decls T} {S eof : T} (dbg : Bool)
    (hof : t.Of D S eof) (hs : t.states = []) (hk : t.kernels = []) (ha : t.actions = [])
    {V : List (Position T)} {G : Position T → Prop} (hG : GoodPred t V G) (hG0 : G t.basisPos)
    (hGp : ∀ {p}, G p → IsProd D p.rule p.seq.2 p.seq.1 ∧ p.point ≤ p.seq.1.length) :
    ∃ n l, Lalr.withTable dbg n t = .ok l ∧ LBuilt l D S eof t G := by
  obtain ⟨n, l, h1, h2⟩ := Lalr.procClosures_total hG dbg hG0 hs hk
  have hbr : l.table.basisPos.rule = S := by
    have : l.table.basisPos = t.basisPos := by unfold Tabler.basisPos; rw [h2.inv.grammar]
    rw [this]; exact basis_rule hof
  have hdec := Lalr.isDecision l S
  rw [h2.inv.grammar] at hdec
  obtain ⟨rows, hrows⟩ := mapM_total (f := rowActions (fun p s => Lalr.decision l S p s))
    (l := l.table.states) (by
      intro s hs
      obtain ⟨i, hi, hi'⟩ := List.getElem_of_mem hs
      have hs' : l.table.states[i]? = some s := List.getElem?_eq_some_iff.mpr ⟨hi, hi'⟩
      refine hdec.row_total ?_ (fun _ _ _ => trivial)
      intro p hp x ht
      have hg := h2.inv.good i s hs' p hp
      obtain ⟨K, j, s', h3, _⟩ := h2.edge (hof.grammar.mem_symbols (hGp hg).1 (top_mem ht)) hs' hp ht
      exact ⟨j, h3⟩)
  obtain ⟨h3, h4⟩ := mapM_ok hrows
  refine ⟨n, { l with table := { l.table with actions := l.table.actions ++ rows } }, ?_, ?_⟩
  · unfold Lalr.withTable
    rw [h1, Out.ok_bind, hbr]
    unfold procRows
    rw [hrows]; rfl
  · refine ⟨hof, hGp, ⟨l, h2, rfl, rfl, rfl⟩, h2.inv.grammar, h2.inv.first,
      h2.inv.follow, ?_, ?_⟩
    · simp [h2.inv.actions, ha, h3]
    · intro i s row hs hr
      simp only [h2.inv.actions, ha, List.nil_append] at hr
      obtain ⟨s', hs', hrow⟩ := h4 i row hr
      have hs2 : l.table.states[i]? = some s := hs
      rw [hs2] at hs'; cases hs'
      exact hdec.row_spec hrow (fun _ _ _ => trivial)

/-- `Lalr::with_table` returns a built parser. -/
theorem Lalr.withTable_total {t : Tabler T} {D : Decls T} {S eof : T} (dbg : Bool)
    (hof : t.Of D S eof) (hs : t.states = []) (hk : t.kernels = []) (ha : t.actions = [])
    {R : T → T → Prop} (hR : LookRel t D R) (hR0 : R S eof) :
    ∃ n l, Lalr.withTable dbg n t = .ok l ∧ LBuilt l D S eof t (GoodPos D R) :=
  Lalr.withTable_good dbg hof hs hk ha (goodPred hof hR) (goodPos_basis hof hR0) (fun hg => ⟨hg.prod, hg.le⟩)

section
variable {l : Lalr T} {D : Decls T} {S eof : T} {t0 : Tabler T} {G : Position T → Prop}

theorem LBuilt.start (h : LBuilt l D S eof t0 G) : ∃ s, l.table.states[0]? = some s ∧
    IsClo t0.grammar.rules (clrLook t0.first) [t0.basisPos] s := by
  obtain ⟨l0, h0, _, e2, _⟩ := h.coll
  rw [← e2]; exact h0.inv.start

theorem LBuilt.goodAt (h : LBuilt l D S eof t0 G) {i : Nat} {s : State T} {p : Position T}
    (hs : l.table.states[i]? = some s) (hp : p ∈ s) : G p := by
  obtain ⟨l0, h0, _, e2, _⟩ := h.coll
  rw [← e2] at hs; exact h0.inv.good i s hs p hp

theorem LBuilt.closed (h : LBuilt l D S eof t0 G) {i : Nat} {s : State T}
    (hs : l.table.states[i]? = some s) : LClosed t0.grammar.rules (clrLook t0.first) s := by
  obtain ⟨l0, h0, _, e2, _⟩ := h.coll
  rw [← e2] at hs; exact h0.inv.closed i s hs

theorem LBuilt.prod (h : LBuilt l D S eof t0 G) {i : Nat} {s : State T} {p : Position T}
    (hs : l.table.states[i]? = some s) (hp : p ∈ s) :
    IsProd D p.rule p.seq.2 p.seq.1 ∧ p.point ≤ p.seq.1.length := h.good (h.goodAt hs hp)

theorem LBuilt.edge (h : LBuilt l D S eof t0 G) {i : Nat} {s : State T} {p : Position T} {x : T}
    (hs : l.table.states[i]? = some s) (hp : p ∈ s) (ht : p.top = some x) :
    ∃ j s', l.stateFromKernel (Tabler.symFilter s x) = some j ∧ j ≠ 0 ∧
      l.table.states[j]? = some s' ∧
      IsClo t0.grammar.rules noLk (Tabler.symFilter (core s) x) (core s') := by
  obtain ⟨l0, h0, e1, e2, e3⟩ := h.coll
  have hx := h.of.grammar.mem_symbols (h.prod hs hp).1 (top_mem ht)
  rw [← e2] at hs
  obtain ⟨K, j, s', h1, h2, h3, _, _, h4⟩ := h0.edge hx hs hp ht
  refine ⟨j, s', ?_, h2, by rw [← e2]; exact h3, h4⟩
  rw [← h1]
  unfold Lalr.stateFromKernel Lalr.finalKernel
  rw [e1, e3]

/-- Every state's core is the closure of a core. -/
theorem LBuilt.seed (h : LBuilt l D S eof t0 G) {i : Nat} {s : State T}
    (hs : l.table.states[i]? = some s) :
    (i = 0 ∧ IsClo t0.grammar.rules noLk [t0.basisPos.noLook] (core s)) ∨
    (i ≠ 0 ∧ ∃ j sj X, j < i ∧ l.table.states[j]? = some sj ∧ X ∈ t0.grammar.symbols ∧
      IsClo t0.grammar.rules noLk (Tabler.symFilter (core sj) X) (core s)) := by
  obtain ⟨l0, h0, e1, e2, e3⟩ := h.coll
  by_cases hi : i = 0
  · left
    obtain ⟨s0, h1, h2⟩ := h.start
    subst hi
    rw [hs] at h1; cases h1
    exact ⟨rfl, core_clo h2⟩
  · right
    refine ⟨hi, ?_⟩
    rw [← e2] at hs ⊢
    obtain ⟨K, hK⟩ := h0.inv.surj i (List.getElem?_eq_some_iff.mp hs).1
    obtain ⟨_, ⟨s', h1, h2⟩, j, sj, X, h3, h4, h5, h6⟩ := h0.inv.kern K i hK hi
    rw [hs] at h1; cases h1
    exact ⟨j, sj, X, h3, h4, h5, by rw [← h6]; exact h2⟩

theorem LBuilt.auto (h : LBuilt l D S eof t0 G) {b0 : List T} (hb : IsProd D S 0 b0) :
    Auto D S b0 l.table.states l.table.actions
      (fun s x => l.stateFromKernel (Tabler.symFilter s x)) (fun p x => x ∈ p.look) := by
  have hbase : t0.basisPos = { rule := S, seq := (b0, 0), point := 0, look := [eof] } := by
    obtain ⟨b, hb', he⟩ := h.of.grammar.basis
    have he' : t0.basisPos = _ := he
    rw [he', hb'.unique hb]
  refine ⟨h.of.noEmpty, hb, h.rows, ?_, h.prod, ?_, ?_, ?_, ?_, ?_, ?_⟩
  · obtain ⟨s, hs, _⟩ := h.start
    exact (List.getElem?_eq_some_iff.mp hs).1
  · intro i s row hs hr
    obtain ⟨h1, h2⟩ := h.cell i s row hs hr
    exact ⟨h1, fun x => (h2 x).congr (fun a => Decides.iff_dec h.of.grammar)⟩
  · intro s p hs hp
    rcases h.seed hs with ⟨_, hclo⟩ | ⟨h0, _⟩
    · have : (p.noLook).point = 0 := by
        refine ((hclo.mem _).mp (mem_core.mpr ⟨p, hp, rfl⟩)).closed_sub
          (P := fun p => p.point = 0) ?_ ?_
        · intro q hq; simp at hq; subst hq; rw [hbase]; rfl
        · intro p q _ ha; exact (adds_prod h.of.grammar ha).2.2.1
      exact this
    · exact absurd rfl h0
  · obtain ⟨s, hs, hclo⟩ := h.start
    refine ⟨s, t0.basisPos, hs, (hclo.mem _).mpr (.base (by simp)), ?_, ?_, ?_⟩ <;> rw [hbase]
  · intro i s p hs hp
    have key : ∀ c, c ∈ core s → (∀ K : State T, IsClo t0.grammar.rules noLk K (core s) →
        (∀ q ∈ K, ∀ p ∈ s, p.noLook = q → Prov S b0 i s p) →
        Clo t0.grammar.rules noLk K c → ∀ p ∈ s, p.noLook = c → Prov S b0 i s p) := by
      intro c hc K hclo hK hall
      clear hc
      induction hall with
      | base hq => exact hK _ hq
      | @step q c hq ha ih =>
        intro p hp hpc
        obtain ⟨q', hq', e⟩ := mem_core.mp ((hclo.mem q).mpr hq)
        obtain ⟨h1, _, h3, _⟩ := adds_prod h.of.grammar ha
        have hr : p.rule = c.rule := by rw [← hpc]; rfl
        have hpt : p.point = c.point := by rw [← hpc]; rfl
        refine .step (ih q' hq' e) ?_ hp (by omega)
        rw [hr, ← h1, ← e]; rfl
    rcases h.seed hs with ⟨h0, hclo⟩ | ⟨h0, j, sj, X, _, _, _, hclo⟩
    · have hc := mem_core.mpr ⟨p, hp, rfl⟩
      refine key p.noLook hc _ hclo ?_ ((hclo.mem _).mp hc) p hp rfl
      intro q hq p' hp' e
      simp at hq; subst hq
      rw [hbase] at e
      have e1 : p'.noLook.rule = S := by rw [e]; rfl
      have e2 : p'.noLook.seq = (b0, 0) := by rw [e]; rfl
      have e3 : p'.noLook.point = 0 := by rw [e]; rfl
      exact .basis h0 hp' e1 e2 e3
    · have hc := mem_core.mpr ⟨p, hp, rfl⟩
      refine key p.noLook hc _ hclo ?_ ((hclo.mem _).mp hc) p hp rfl
      intro q hq p' hp' e
      obtain ⟨q', _, _, rfl⟩ := mem_symFilter.mp hq
      refine .kernel hp' ?_
      have : p'.noLook.point = q'.point + 1 := by rw [e]; rfl
      have e' : p'.point = q'.point + 1 := this
      omega
  · intro i s p x hs hp ht
    obtain ⟨j, s', h1, h2, h3, h4⟩ := h.edge hs hp ht
    refine ⟨j, s', h1, h2, h3, ?_, ?_⟩
    · intro q hq h0
      have hc := (h4.mem _).mp (mem_core.mpr ⟨q, hq, rfl⟩)
      have : 0 < q.noLook.point → ∃ c ∈ core s, c.top = some x ∧ SameBody q.noLook c.adv := by
        refine hc.closed_sub (P := fun q => 0 < q.point →
          ∃ p ∈ core s, p.top = some x ∧ SameBody q p.adv) ?_ ?_
        · intro q hq _
          obtain ⟨p', hp', ht', rfl⟩ := mem_symFilter.mp hq
          exact ⟨p', hp', ht', .refl _⟩
        · intro p q _ ha h0
          have := (adds_prod h.of.grammar ha).2.2.1
          omega
      obtain ⟨c, hcs, hct, hcb⟩ := this h0
      obtain ⟨p', hp', rfl⟩ := mem_core.mp hcs
      exact ⟨p', hp', hct, (noLook_same q).symm.trans (hcb.trans (noLook_same p').adv)⟩
    · intro p' hp' ht'
      have hm : p'.noLook.adv ∈ core s' :=
        (h4.mem _).mpr (.base (mem_symFilter.mpr ⟨p'.noLook, mem_core.mpr ⟨p', hp', rfl⟩, ht', rfl⟩))
      obtain ⟨q, hq, e⟩ := mem_core.mp hm
      refine ⟨q, hq, ?_⟩
      have hb1 : SameBody q p'.noLook.adv := by rw [← e]; exact (noLook_same q).symm
      exact hb1.trans (noLook_same p').adv
  · intro i s p A k b hs hp ht hprod
    obtain ⟨q, h1, h2, _⟩ := h.closed hs p hp _ (adds_of_prod h.of.grammar ht hprod)
    exact ⟨q, h1, h2.1.symm, h2.2.1.symm, h2.2.2.symm⟩

end

/-- Whatever `Lalr::new` returns is a built parser; lookaheads respect every relation that closure
steps preserve. -/
theorem Lalr.built {dbg : Bool} {n : Nat} {g : Grammar T} {D : Decls T} {S eof : T}
    (hg : g.Of D S eof) {l : Lalr T} (h : Lalr.new dbg n g = .ok l) :
    ∃ t0, Tabler.new dbg n g = .ok t0 ∧
      LBuilt l D S eof t0 (GoodPos D (fun _ x => x ∈ lookSyms t0)) ∧
      ∀ R : T → T → Prop, LookRel t0 D R → R S eof → LBuilt l D S eof t0 (GoodPos D R) := by
  unfold Lalr.new at h
  obtain ⟨t0, h1, h2⟩ := Out.bind_eq_ok.mp h
  obtain ⟨_, _, _, _, _, _, _, e1, e2, e3⟩ := Tabler.new_ok h1
  have hof := Tabler.of_new hg h1
  have key : ∀ R : T → T → Prop, LookRel t0 D R → R S eof → LBuilt l D S eof t0 (GoodPos D R) := by
    intro R hR hR0
    obtain ⟨m, l', h3, h4⟩ := Lalr.withTable_total dbg hof e2 e3 e1 hR hR0
    have := Out.Le.agree (f := fun n => Lalr.withTable dbg n t0) (fun h => Lalr.withTable_le h t0) h2 h3
    rw [this]; exact h4
  refine ⟨t0, h1, key _ (lookRel_any hof) ?_, key⟩
  obtain ⟨b, hb, he⟩ := hof.grammar.basis
  have he' : t0.basisPos = _ := he
  refine List.mem_append_left _ ?_
  rw [he']; simp

/-- The positions of what `Lalr::new` returns have every property that closures, moving on and merging keep. -/
theorem Lalr.built_good {dbg : Bool} {n : Nat} {g : Grammar T} {D : Decls T} {S eof : T}
    (hg : g.Of D S eof) {l : Lalr T} (h : Lalr.new dbg n g = .ok l) {G : Tabler T → Position T → Prop}
    (hG : ∀ t0 : Tabler T, t0.Of D S eof → GoodPred t0 (lookPositions t0) (G t0) ∧ G t0 t0.basisPos ∧
      ∀ {p}, G t0 p → IsProd D p.rule p.seq.2 p.seq.1 ∧ p.point ≤ p.seq.1.length) :
    ∃ t0, LBuilt l D S eof t0 (G t0) := by
  unfold Lalr.new at h
  obtain ⟨t0, h1, h2⟩ := Out.bind_eq_ok.mp h
  obtain ⟨_, _, _, _, _, _, _, e1, e2, e3⟩ := Tabler.new_ok h1
  have hof := Tabler.of_new hg h1
  obtain ⟨g1, g2, g3⟩ := hG t0 hof
  obtain ⟨m, l', h3, h4⟩ := Lalr.withTable_good dbg hof e2 e3 e1 g1 g2 g3
  have := Out.Le.agree (f := fun n => Lalr.withTable dbg n t0) (fun h => Lalr.withTable_le h t0) h2 h3
  exact ⟨t0, by rw [this]; exact h4⟩

end Lrp
