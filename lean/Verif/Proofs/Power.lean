import Verif.Proofs.Halt

/-! Comparing automata of the same grammar: every state of one is, position by position, contained in
the state of the other reached along the same path. -/

set_option linter.unusedSectionVars false

namespace Lrp
open Spec
variable {T : Type} [LinOrd T] [DecidableEq T] {M : Type}

/-- The FIRST and FOLLOW tables of a built parser are those of `Tabler::new`. -/
theorem Spec.Makes.tabler {k : Method} {dbg : Bool} {D : Decls T} {S eof : T} {t : Tabler T}
    (h : Makes k dbg D S eof t) : ∃ g n t0, Grammar.new dbg S (grammarMap D) eof = .ok g ∧
      Tabler.new dbg n g = .ok t0 ∧ t.grammar = t0.grammar ∧ t.first = t0.first ∧
      t.follow = t0.follow := by
  obtain ⟨g, hg, n, hb⟩ := h
  have hof := Grammar.of_new hg
  cases k with
  | slr =>
    obtain ⟨t0, h1, h2⟩ := Out.bind_eq_ok.mp hb
    obtain ⟨_, _, _, _, _, _, _, e1, e2, e3⟩ := Tabler.new_ok h1
    obtain ⟨m, t', h3, h4, h5, h6, h7⟩ := Slr.withTable_total dbg (Tabler.of_new hof h1) e2 e3 e1
    have := Out.Le.agree (f := fun n => Slr.withTable dbg n t0) (fun h => Slr.withTable_le h t0) h2 h3
    subst this
    exact ⟨g, n, t0, hg, h1, h5, h6, h7⟩
  | clr =>
    obtain ⟨t0, h1, h2⟩ := Out.bind_eq_ok.mp hb
    obtain ⟨_, _, _, _, _, _, _, e1, e2, e3⟩ := Tabler.new_ok h1
    obtain ⟨m, t', h3, h4, h5, h6, h7⟩ := Clr.withTable_total dbg (Tabler.of_new hof h1) e2 e3 e1
    have := Out.Le.agree (f := fun n => Clr.withTable dbg n t0) (fun h => Clr.withTable_le h t0) h2 h3
    subst this
    exact ⟨g, n, t0, hg, h1, h5, h6, h7⟩
  | lalr =>
    obtain ⟨l, hl, e⟩ := Out.bind_eq_ok.mp hb
    cases e
    obtain ⟨t0, h1, h2, _⟩ := Lalr.built hof hl
    exact ⟨g, n, t0, hg, h1, h2.grammar, h2.first, h2.follow⟩

section
variable {D : Decls T} {S eof : T} {b0 : List T}

/-- Every state lies on a path. -/
def Reaches (states : List (State T)) (next : State T → T → Option Nat) : Prop :=
  ∀ (i : Nat) s, states[i]? = some s → ∃ st syms, Path states next (i :: st) syms

theorem reaches_of {states : List (State T)} {next : State T → T → Option Nat}
    (h : ∀ (i : Nat) s, states[i]? = some s → i ≠ 0 → ∃ j s' X p, j < i ∧ states[j]? = some s' ∧
      p ∈ s' ∧ p.top = some X ∧ next s' X = some i) : Reaches states next := by
  intro i
  induction i using Nat.strongRecOn with
  | _ i ih =>
    intro s hs
    by_cases hi : i = 0
    · subst hi; exact ⟨[], [], .base⟩
    · obtain ⟨j, s', X, p, h1, h2, h3, h4, h5⟩ := h i s hs hi
      obtain ⟨st, syms, hp⟩ := ih j h1 s' h2
      exact ⟨_, _, .cons hp h2 h3 h4 h5⟩

theorem Built.reaches {t : Tabler T} {lk : Table T → Position T → OSet T}
    {red : Position T → T → Prop} (h : Built t D S eof lk red) :
    Reaches t.states (fun s x => t.kernels.get? (Tabler.symFilter s x)) := by
  refine reaches_of (fun i s hs hi => ?_)
  obtain ⟨K, hK⟩ := h.coll.surj i (List.getElem?_eq_some_iff.mp hs).1
  obtain ⟨_, _, j, sj, X, h3, h4, _, rfl⟩ := h.coll.kern K i hK hi
  have hne : Tabler.symFilter sj X ≠ [] := by
    intro e
    rw [e, h.coll.zero] at hK; cases hK; exact hi rfl
  obtain ⟨q, hq⟩ := List.exists_mem_of_ne_nil _ hne
  obtain ⟨p, hp, ht, _⟩ := mem_symFilter.mp hq
  exact ⟨j, sj, X, p, h3, h4, hp, ht, hK⟩

theorem LBuilt.reaches {l : Lalr T} {t0 : Tabler T} {G : Position T → Prop}
    (h : LBuilt l D S eof t0 G) :
    Reaches l.table.states (fun s x => l.stateFromKernel (Tabler.symFilter s x)) := by
  refine reaches_of (fun i s hs hi => ?_)
  obtain ⟨l0, h0, e1, e2, e3⟩ := h.coll
  rw [← e2] at hs ⊢
  obtain ⟨K, hK⟩ := h0.inv.surj i (List.getElem?_eq_some_iff.mp hs).1
  obtain ⟨hraw, _, j, sj, X, h3, h4, _, h6⟩ := h0.inv.kern K i hK hi
  have hne : K ≠ [] := by
    rintro rfl
    rw [h0.inv.zero] at hK; cases hK; exact hi rfl
  obtain ⟨q, hq⟩ := List.exists_mem_of_ne_nil _ (core_ne_nil hne)
  rw [h6] at hq
  obtain ⟨c, hc, ht, _⟩ := mem_symFilter.mp hq
  obtain ⟨p, hp, rfl⟩ := mem_core.mp hc
  refine ⟨j, sj, X, p, h3, h4, hp, ht, ?_⟩
  unfold Lalr.stateFromKernel Lalr.finalKernel
  rw [core_symFilter, ← h6, ← e1, hraw, ← e3]
  exact hK

variable {states states' : List (State T)} {acts acts' : ActTable T}
  {next next' : State T → T → Option Nat} {red red' : Position T → T → Prop}

/-- A path is determined by its symbols. -/
theorem Path.unique {st : List Nat} {syms : List T} (h : Path states next st syms) :
    ∀ {st' : List Nat}, Path states next st' syms → st = st' := by
  induction h with
  | base => intro st' h'; cases h'; rfl
  | cons _ h2 _ _ h5 ih =>
    intro st' h'
    cases h' with
    | cons k1 k2 _ _ k5 =>
      obtain ⟨rfl, rfl⟩ := List.cons.inj (ih k1)
      rw [h2] at k2; cases k2
      rw [h5] at k5; cases k5
      rfl

/-- Every position of `s'` has a position with the same body in `s`. -/
def Covered (s' s : State T) : Prop := ∀ p' ∈ s', ∃ p ∈ s, SameBody p p'

/-- Following the same path in both automata. -/
theorem Auto.follow_path (h : Auto D S b0 states acts next red)
    (h' : Auto D S b0 states' acts' next' red') {sts : List Nat} {syms : List T}
    (hp : Path states' next' sts syms) :
    ∀ {i' : Nat} {st' : List Nat} {s' : State T}, sts = i' :: st' → states'[i']? = some s' →
      ∃ i st s, Path states next (i :: st) syms ∧ states[i]? = some s ∧ Covered s' s := by
  have inner : ∀ {i i' : Nat} {s s' : State T}, states[i]? = some s → states'[i']? = some s' →
      (i' = 0 → i = 0) → (∀ p' ∈ s', 0 < p'.point → ∃ p ∈ s, SameBody p p') → Covered s' s := by
    intro i i' s s' hs hs' h0 hk p' hp'
    have hpr := h'.prov hs' hp'
    clear hp'
    induction hpr with
    | kernel h1 h2 => exact hk _ h1 h2
    | @basis p' g0 g1 g2 g3 g4 =>
      have := h0 g0
      subst this
      obtain ⟨s0, p, k1, k2, k3, k4, k5⟩ := h.basis
      rw [hs] at k1; cases k1
      exact ⟨p, k2, k3.trans g2.symm, k4.trans g3.symm, k5.trans g4.symm⟩
    | @step p' q' g1 g2 g3 g4 ih =>
      obtain ⟨q, q1, q2⟩ := ih
      obtain ⟨r, r1, r2, r3, r4⟩ := h.close hs q1 (q2.top.trans g2) (h'.prod hs' g3).1
      exact ⟨r, r1, r2, r3, r4.trans g4.symm⟩
  induction hp with
  | base =>
    intro i' st' s' e hs'
    cases e
    obtain ⟨s, _, hs, _⟩ := h.basis
    refine ⟨0, [], s, .base, hs, inner hs hs' (fun _ => rfl) (fun p' hp' h0 => ?_)⟩
    have := h'.zero hs' hp'
    omega
  | @cons i0 j st syms s0 p0 X g1 g2 g3 g4 g5 ih =>
    intro i' st' s' e hs'
    cases e
    obtain ⟨i, st1, s, k1, k2, k3⟩ := ih rfl g2
    obtain ⟨p, hp, hb⟩ := k3 p0 g3
    have ht : p.top = some X := hb.top.trans g4
    obtain ⟨j1, s1, e1, e2, e3, _, e5⟩ := h.edge k2 hp ht
    obtain ⟨j', s'', f1, f2, f3, f4, _⟩ := h'.edge g2 g3 g4
    rw [g5] at f1; cases f1
    rw [hs'] at f3; cases f3
    refine ⟨j1, i :: st1, s1, .cons k1 k2 hp ht e1, e3, inner e3 hs' (fun e => absurd e f2) ?_⟩
    intro p' hp' h0
    obtain ⟨q', q1, q2, q3⟩ := f4 p' hp' h0
    obtain ⟨q, r1, r2⟩ := k3 q' q1
    obtain ⟨w, w1, w2⟩ := e5 q r1 (r2.top.trans q2)
    exact ⟨w, w1, w2.trans (r2.adv.trans q3.symm)⟩

/-- Every position of `s'` has a position with the same body in `s`, and the terminals under which it is
reduced are among those under which some such position is.  A nonterminal counts for the terminals it
begins with. -/
def CoveredL (D : Decls T) (red red' : Position T → T → Prop) (s' s : State T) : Prop :=
  Covered s' s ∧ ∀ p' ∈ s', ∀ x, red' p' x → ∀ y, Terminal D y → InFirst D x y →
    ∃ p ∈ s, SameBody p p' ∧ red p y

/-- If all states are covered by states of another automaton, and that has no conflicts, then there
are no conflicts. -/
theorem Auto.no_conflict_of (h : Auto D S b0 states acts next red)
    (h' : Auto D S b0 states' acts' next' red')
    (hcov : ∀ (i' : Nat) s', states'[i']? = some s' →
      ∃ (i : Nat) (s : State T), states[i]? = some s ∧ CoveredL D red red' s' s)
    (hsome : ∀ (i' : Nat) s' p' x, states'[i']? = some s' → p' ∈ s' → red' p' x →
      ∃ y, Terminal D y ∧ InFirst D x y)
    (hno : ∀ i x a b, cellAt acts i x ≠ some (.conflict a b)) :
    ∀ i x a b, cellAt acts' i x ≠ some (.conflict a b) := by
  intro i' x a b hc
  obtain ⟨row, hrow, hc⟩ := Option.bind_eq_some_iff.mp (show acts'[i']?.bind _ = _ from hc)
  have hi' : i' < states'.length := by rw [← h'.len]; exact (List.getElem?_eq_some_iff.mp hrow).1
  have hs' : states'[i']? = some states'[i'] := List.getElem?_eq_getElem hi'
  generalize states'[i'] = s' at hs'
  obtain ⟨i, s, hs, hbel, hred⟩ := hcov i' s' hs'
  obtain ⟨a1, a2, d1, d2, hne⟩ := (((h'.cell hs' hrow).2 x).conflict _ hc).mp ⟨a, b, rfl⟩
  -- a decision to shift or go is the only one of its kind
  have hgo : ∀ {a : Action T}, Dec D S (next' s') red' s' x a →
      (∃ j, next' s' x = some j ∧ (Terminal D x ∧ a = .shift j ∨ Nonterminal D x ∧ a = .goto j) ∧
        ∃ p' ∈ s', p'.top = some x) ∨
      (∃ p' ∈ s', p'.top = none ∧ red' p' x ∧ (a = .acc ∨ ∃ A p, a = .reduce A p) ∧
        ∀ y, Terminal D y → InFirst D x y → Dec D S (next s) red s y a) := by
    rintro a (⟨p', hp', ht, j, hj, hk⟩ | ⟨p', hp', ht, hr, hk⟩)
    · exact Or.inl ⟨j, hj, hk, p', hp', ht⟩
    · refine Or.inr ⟨p', hp', ht, hr, ?_, fun y hy hxy => ?_⟩
      · rcases hk with ⟨_, rfl⟩ | ⟨_, rfl⟩
        · exact Or.inl rfl
        · exact Or.inr ⟨_, _, rfl⟩
      · obtain ⟨p, hp, hb, hr1⟩ := hred p' hp' x hr y hy hxy
        rcases hk with ⟨hS, rfl⟩ | ⟨hS, rfl⟩
        · exact Or.inr ⟨p, hp, hb.top.trans ht, hr1, Or.inl ⟨hb.1.trans hS, rfl⟩⟩
        · refine Or.inr ⟨p, hp, hb.top.trans ht, hr1, Or.inr ⟨?_, ?_⟩⟩
          · rw [hb.1]; exact hS
          · rw [hb.1, hb.2.1]
  have one : ∀ {y : T} {a a' : Action T}, Dec D S (next s) red s y a → Dec D S (next s) red s y a' →
      a = a' := by
    intro y a a' g1 g2
    rcases h.dec_cell hs g1 with e1 | ⟨u, v, e1⟩
    · rcases h.dec_cell hs g2 with e2 | ⟨u, v, e2⟩
      · rw [e1] at e2; cases e2; rfl
      · exact absurd e2 (hno _ _ _ _)
    · exact absurd e1 (hno _ _ _ _)
  -- a shift is seen at every terminal the symbol begins with
  have hsh : (∃ p' ∈ s', p'.top = some x) → ∀ y, Terminal D y → InFirst D x y →
      ∃ j, Dec D S (next s) red s y (.shift j) := by
    rintro ⟨p', hp', ht⟩ y hy hxy
    obtain ⟨p, hp, hb⟩ := hbel p' hp'
    obtain ⟨q, hq, hqt⟩ := h.first_top' hs (Or.inr hxy) ⟨p, hp, hb.top.trans ht⟩
    obtain ⟨j, _, hj, _⟩ := h.edge hs hq hqt
    exact ⟨j, Or.inl ⟨q, hq, hqt, j, hj, Or.inl ⟨hy, rfl⟩⟩⟩
  have mixed : ∀ {a : Action T}, (∃ p' ∈ s', p'.top = some x) → (∃ p' ∈ s', p'.top = none ∧ red' p' x ∧
      (a = .acc ∨ ∃ A p, a = .reduce A p) ∧
      ∀ y, Terminal D y → InFirst D x y → Dec D S (next s) red s y a) → False := by
    rintro a hp ⟨p', hp', _, hr, hk, hd⟩
    obtain ⟨y, hy, hxy⟩ := hsome i' s' p' x hs' hp' hr
    obtain ⟨j, hj⟩ := hsh hp y hy hxy
    have := one hj (hd y hy hxy)
    subst this
    simp at hk
  rcases hgo d1 with ⟨j, g1, g2, g3⟩ | g <;> rcases hgo d2 with ⟨m, k1, k2, k3⟩ | k
  · rw [g1] at k1; cases k1
    rcases g2 with ⟨g2, rfl⟩ | ⟨g2, rfl⟩ <;> rcases k2 with ⟨k2, rfl⟩ | ⟨k2, rfl⟩
    · exact hne rfl
    · exact absurd g2 (not_terminal_iff.mpr k2)
    · exact absurd k2 (not_terminal_iff.mpr g2)
    · exact hne rfl
  · exact mixed g3 k
  · exact mixed k3 g
  · obtain ⟨p', hp', _, hr, _, hd⟩ := g
    obtain ⟨y, hy, hxy⟩ := hsome i' s' p' x hs' hp' hr
    obtain ⟨_, _, _, _, _, hd'⟩ := k
    exact hne (one (hd y hy hxy) (hd' y hy hxy))

theorem InFirst.refl {x : T} : InFirst D x x := ⟨[], .refl _⟩

theorem InFirst.trans {x y z : T} (h1 : InFirst D x y) (h2 : InFirst D y z) : InFirst D x z := by
  obtain ⟨v, hv⟩ := h1
  obtain ⟨w, hw⟩ := h2
  exact ⟨w ++ v, hv.trans (by simpa using hw.append (.refl v))⟩

theorem InFirst.terminal {x y : T} (h : InFirst D x y) (hx : Terminal D x) : y = x := by
  obtain ⟨v, hv⟩ := h
  have := derives_terminal hx hv
  injection this

/-- When reduction symbols depend on the rule only, following paths suffices. -/
theorem Auto.cover_of_path (h : Auto D S b0 states acts next red)
    (h' : Auto D S b0 states' acts' next' red') (hr' : Reaches states' next')
    (hred : ∀ (i' : Nat) s' p' p x y, states'[i']? = some s' → p' ∈ s' → SameBody p p' → red' p' x →
      Terminal D y → InFirst D x y → red p y) :
    ∀ (i' : Nat) s', states'[i']? = some s' →
      ∃ (i : Nat) (s : State T), states[i]? = some s ∧ CoveredL D red red' s' s := by
  intro i' s' hs'
  obtain ⟨st', syms, hp'⟩ := hr' i' s' hs'
  obtain ⟨i, st, s, _, hs, hbel⟩ := h.follow_path h' hp' rfl hs'
  refine ⟨i, s, hs, hbel, fun p' hp' x hx y hy hxy => ?_⟩
  obtain ⟨p, hp, hb⟩ := hbel p' hp'
  exact ⟨p, hp, hb, hred i' s' p' p x y hs' hp' hb hx hy hxy⟩

/-- Small lookaheads are found again along the same path in an automaton whose lookaheads are large
enough. -/
theorem Exact.cover (h : Auto D S b0 states acts next red) (hl : Looks D S eof b0 states next red)
    (h' : Auto D S b0 states' acts' next' red') (hx : Exact D S eof b0 states' next' red')
    (he : Terminal D eof) {sts : List Nat} {syms : List T} (hp : Path states' next' sts syms) :
    ∀ {i' : Nat} {st' : List Nat} {s' : State T}, sts = i' :: st' → states'[i']? = some s' →
      ∃ i st s, Path states next (i :: st) syms ∧ states[i]? = some s ∧ CoveredL D red red' s' s := by
  have inner : ∀ {i i' : Nat} {s s' : State T}, states[i]? = some s → states'[i']? = some s' →
      (i' = 0 → i = 0) → Covered s' s → (∀ p' ∈ s', 0 < p'.point → ∀ x, red' p' x → ∀ y, Terminal D y →
        InFirst D x y → ∃ p ∈ s, SameBody p p' ∧ red p y) → CoveredL D red red' s' s := by
    intro i i' s s' hs hs' h0 hc hk
    refine ⟨hc, fun p' hp' x hx1 => ?_⟩
    have hpr := hx.prov hs' hp' hx1
    clear hp' hx1
    induction hpr with
    | kernel h1 h2 h3 => exact hk _ h1 h2 _ h3
    | @basis p' g0 g1 g2 g3 g4 =>
      intro y hy hxy
      have := h0 g0
      subst this
      obtain ⟨s0, p, k1, k2, k3, k4, k5, k6⟩ := hl.basis
      rw [hs] at k1; cases k1
      rw [InFirst.terminal hxy he]
      exact ⟨p, k2, ⟨k3.trans g2.symm, k4.trans g3.symm, k5.trans g4.symm⟩, k6⟩
    | @last p' q' x g1 g2 g3 g4 g5 ih =>
      intro y hy hxy
      obtain ⟨q, q1, q2, q3⟩ := ih y hy hxy
      obtain ⟨r, r1, r2, r3, r4, r5⟩ := hl.close hs q1 (q2.top.trans g2) (h'.prod hs' g4).1 hy
        (fun _ => q3) (fun Z hZ => by rw [q2.next, g3] at hZ; cases hZ)
      exact ⟨r, r1, ⟨r2, r3, r4.trans g5.symm⟩, r5⟩
    | @next p' q' x Z g1 g2 g3 g4 g5 g6 =>
      intro y hy hxy
      obtain ⟨q, q1, q2⟩ := hc q' g1
      obtain ⟨r, r1, r2, r3, r4, r5⟩ := hl.close hs q1 (q2.top.trans g2) (h'.prod hs' g5).1 hy
        (fun hn => by rw [q2.next, g3] at hn; cases hn)
        (fun Z' hZ => by
          rw [q2.next, g3] at hZ; cases hZ
          rcases g4 with rfl | g4
          · exact Or.inr hxy
          · exact Or.inr (InFirst.trans g4 hxy))
      exact ⟨r, r1, ⟨r2, r3, r4.trans g6.symm⟩, r5⟩
  induction hp with
  | base =>
    intro i' st' s' e hs'
    cases e
    obtain ⟨i, st, s, hpth, hs, hc⟩ := h.follow_path h' .base rfl hs'
    cases hpth
    refine ⟨0, [], s, .base, hs, inner hs hs' (fun _ => rfl) hc (fun p' hp' h0 => ?_)⟩
    have := h'.zero hs' hp'
    omega
  | @cons i0 j st syms s0 p0 X g1 g2 g3 g4 g5 ih =>
    intro i' st' s' e hs'
    cases e
    obtain ⟨i, st1, s, k1, k2, k3⟩ := ih rfl g2
    obtain ⟨p, hp, hb⟩ := k3.1 p0 g3
    have ht : p.top = some X := hb.top.trans g4
    obtain ⟨j1, s1, e1, e2, e3, _, e5⟩ := h.edge k2 hp ht
    obtain ⟨j', s'', f1, f2, f3, f4, _⟩ := h'.edge g2 g3 g4
    rw [g5] at f1; cases f1
    rw [hs'] at f3; cases f3
    have hpth : Path states next (j1 :: i :: st1) (X :: syms) := .cons k1 k2 hp ht e1
    refine ⟨j1, i :: st1, s1, hpth, e3, inner e3 hs' (fun e => absurd e f2) ?_ ?_⟩
    · obtain ⟨i2, st2, s2, hp2, hs2, hc⟩ := h.follow_path h' (.cons g1 g2 g3 g4 g5) rfl hs'
      obtain ⟨rfl, rfl⟩ := List.cons.inj (hp2.unique hpth)
      rw [e3] at hs2; cases hs2
      exact hc
    · intro p' hp' h0 x hx1 y hy hxy
      obtain ⟨q', q1, q2, q3, q4⟩ := hx.edge g2 g3 g4 g5 hs' p' hp' h0 x hx1
      obtain ⟨q, r1, r2, r3⟩ := k3.2 q' q1 x q4 y hy hxy
      obtain ⟨w, w1, w2, w3⟩ := hl.adv k2 r1 (r2.top.trans q2) e1 e3
      exact ⟨w, w1, w2.trans (r2.adv.trans q3.symm), w3 y hy r3⟩

/-- Lookaheads in Clr states are in FOLLOW. -/
theorem Built.look_rel {t : Tabler T} (h : Built t D S eof clrLook (fun p x => x ∈ p.look))
    {R : T → T → Prop} (hR : LookRel t D R) (hR0 : R S eof) :
    ∀ (i : Nat) s, t.states[i]? = some s → ∀ p ∈ s, ∀ x ∈ p.look, R p.rule x := by
  obtain ⟨b0, hb, he⟩ := h.basis_eq
  have := Coll.all h.coll (P := fun p => IsProd D p.rule p.seq.2 p.seq.1 ∧ ∀ x ∈ p.look, R p.rule x)
    (by rw [he]; exact ⟨hb, by simpa using hR0⟩)
    (by
      rintro p q ⟨hp1, hp2⟩ ha
      obtain ⟨h1, h2, h3, h4⟩ := adds_prod h.of.grammar ha
      refine ⟨h2, fun x hx => ?_⟩
      rw [h4] at hx
      cases hn : p.next with
      | none => rw [clrLook_none hn] at hx; exact hR.last p hp1 _ h1 h2.nonterminal hn x (hp2 x hx)
      | some Z => rw [clrLook_some hn] at hx; exact hR.next p hp1 _ h1 h2.nonterminal Z hn x hx)
    (fun p X hp _ => hp)
  intro i s hs p hp
  exact (this i s hs p hp).2

/-- FOLLOW of an Slr table of the same grammar is such a relation. -/
theorem lookRel_follow {t t0 : Tabler T} (h : t.Of D S eof) (h0 : t0.Of D S eof)
    (hF : ∀ A x, Tabler.Has t0.first A x → ∃ y, Terminal D y ∧ InFirst D x y) :
    LookRel t0 D (fun A x => x ∈ lookSyms t0 ∧ (∃ y, Terminal D y ∧ InFirst D x y) ∧
      ∀ y, Terminal D y → InFirst D x y → Tabler.Has t.follow A y) := by
  have hany := lookRel_any h0
  refine ⟨fun _ _ h => h.1, ?_, ?_⟩
  · intro p hp A ht hA Z hn x hx
    have hx1 := of_mem_symLook h0 hx
    have hT : ∃ y, Terminal D y ∧ InFirst D x y := by
      unfold symLook at hx
      cases hf : t0.first.get? Z with
      | none =>
        rw [hf] at hx
        simp only [List.mem_singleton] at hx
        subst hx
        refine ⟨x, ?_, InFirst.refl⟩
        intro d hd e
        obtain ⟨F, hF'⟩ := (h0.firstT.keys x).mpr ⟨d, hd, e⟩
        rw [hf] at hF'; cases hF'
      | some f =>
        rw [hf] at hx
        simp only [OSet.mem_extend, List.not_mem_nil, false_or] at hx
        exact hF Z x ⟨f, hf, hx⟩
    refine ⟨hany.next p hp A ht hA Z hn x hx, hT, fun y hy hxy => follow_next h hp ht hA hy
      (fun hn' => by rw [hn] at hn'; cases hn') (fun Z' hZ' => ?_)⟩
    rw [hn] at hZ'; cases hZ'
    rcases hx1 with rfl | hx1
    · exact Or.inr hxy
    · exact Or.inr (InFirst.trans hx1 hxy)
  · rintro p hp A ht hA hn x ⟨h1, h2, h3⟩
    exact ⟨h1, h2, fun y hy hxy => follow_next h hp ht hA hy (fun _ => h3 y hy hxy)
      (fun Z' hZ' => by rw [hn] at hZ'; cases hZ')⟩

/-- Without conflicts in the Slr table there are none in the tables with lookaheads. -/
theorem Spec.Makes.power {k : Method} {dbg dbg' : Bool} {t t' : Tabler T} (h : Makes .slr dbg D S eof t)
    (hk : k ≠ .slr) (h' : Makes k dbg' D S eof t') (he : Terminal D eof)
    (hF : ∀ A x, Tabler.Has t'.first A x → ∃ y, Terminal D y ∧ InFirst D x y)
    (hno : ∀ i x a b, cellAt t.actions i x ≠ some (.conflict a b)) :
    ∀ i x a b, cellAt t'.actions i x ≠ some (.conflict a b) := by
  obtain ⟨g, hg, n, hb⟩ := h
  have hb := Slr.built (Grammar.of_new hg) hb
  obtain ⟨b0, hb0, _⟩ := hb.basis_eq
  have ha := hb.auto hb0
  have hfe : ∀ y, Terminal D y → InFirst D eof y → Tabler.Has t.follow S y := by
    intro y _ h
    rw [InFirst.terminal h he]
    exact (hb.of.follow S eof he).mpr (.base (Or.inl ⟨rfl, rfl⟩))
  have hee : ∃ y, Terminal D y ∧ InFirst D eof y := ⟨eof, he, InFirst.refl⟩
  obtain ⟨g', hg', n', hb'⟩ := h'
  have hof' := Grammar.of_new hg'
  cases k with
  | slr => exact absurd rfl hk
  | clr =>
    have hb' := Clr.built hof' hb'
    have hR := lookRel_follow hb.of hb'.of hF
    have hl0 : eof ∈ lookSyms t' := by
      refine List.mem_append_left _ ?_
      obtain ⟨b, _, e⟩ := hb'.basis_eq
      rw [e]; simp
    have := hb'.look_rel hR ⟨hl0, hee, hfe⟩
    refine ha.no_conflict_of (hb'.auto hb0) (ha.cover_of_path (hb'.auto hb0) hb'.reaches ?_)
      (fun i' s' p' x hs' hp' hx => (this i' s' hs' p' hp' x hx).2.1) hno
    intro i' s' p' p x y hs' hp' hsb hx hy hxy
    show Tabler.Has t.follow p.rule y
    rw [hsb.1]; exact (this i' s' hs' p' hp' x hx).2.2 y hy hxy
  | lalr =>
    obtain ⟨l, hl, e⟩ := Out.bind_eq_ok.mp hb'
    cases e
    obtain ⟨t0, _, hb1, hb2⟩ := Lalr.built hof' hl
    have hR := lookRel_follow hb.of hb1.of (by rw [← hb1.first]; exact hF)
    have hl0 : eof ∈ lookSyms t0 := by
      refine List.mem_append_left _ ?_
      obtain ⟨b, _, e⟩ := hb1.of.grammar.basis
      have e' : t0.basisPos = _ := e
      rw [e']; simp
    obtain ⟨l0, h0, e1, e2, e3⟩ := (hb2 _ hR ⟨hl0, hee, hfe⟩).coll
    have := fun i s hs p hp => (h0.inv.good i s hs p hp).look
    rw [e2] at this
    refine ha.no_conflict_of (hb1.auto hb0) (ha.cover_of_path (hb1.auto hb0) hb1.reaches ?_)
      (fun i' s' p' x hs' hp' hx => (this i' s' hs' p' hp' x hx).2.1) hno
    intro i' s' p' p x y hs' hp' hsb hx hy hxy
    show Tabler.Has t.follow p.rule y
    rw [hsb.1]
    exact (this i' s' hs' p' hp' x hx).2.2 y hy hxy

/-- Without conflicts in a table with lookaheads large enough there are none in the Clr table. -/
theorem Spec.Makes.power_clr {k : Method} {dbg dbg' : Bool} {t t' : Tabler T}
    (h : Makes k dbg D S eof t) (hk : k = .lalr → Propagated t) (h' : Makes .clr dbg' D S eof t')
    (he : Terminal D eof)
    (hF : ∀ A x, Tabler.Has t'.first A x → ∃ y, Terminal D y ∧ InFirst D x y)
    (hno : ∀ i x a b, cellAt t.actions i x ≠ some (.conflict a b)) :
    ∀ i x a b, cellAt t'.actions i x ≠ some (.conflict a b) := by
  obtain ⟨b0, next, red, ha, hl⟩ := h.looks hk he
  obtain ⟨g', hg', n', hb'⟩ := h'
  have hb' := Clr.built (Grammar.of_new hg') hb'
  have hb0 : IsProd D S 0 b0 := by
    obtain ⟨s, p, hs, hp, e1, e2, _⟩ := ha.basis
    have := (ha.prod hs hp).1
    rw [e1, e2] at this; exact this
  have ha' := hb'.auto hb0
  have hany := lookRel_any hb'.of
  have hsome : ∀ (i : Nat) s, t'.states[i]? = some s → ∀ p ∈ s, ∀ x ∈ p.look,
      x ∈ lookSyms t' ∧ ∃ y, Terminal D y ∧ InFirst D x y := by
    refine hb'.look_rel (R := fun _ x => x ∈ lookSyms t' ∧ ∃ y, Terminal D y ∧ InFirst D x y)
      ⟨fun _ _ h => h.1, ?_, fun p hp A ht hA hn x hx => hx⟩ ?_
    · intro p hp A ht hA Z hn x hx
      refine ⟨hany.next p hp A ht hA Z hn x hx, ?_⟩
      unfold symLook at hx
      cases hf : t'.first.get? Z with
      | none =>
        rw [hf] at hx
        simp only [List.mem_singleton] at hx
        subst hx
        refine ⟨x, ?_, InFirst.refl⟩
        intro d hd e
        obtain ⟨F, hF'⟩ := (hb'.of.firstT.keys x).mpr ⟨d, hd, e⟩
        rw [hf] at hF'; cases hF'
      | some f =>
        rw [hf] at hx
        simp only [OSet.mem_extend, List.not_mem_nil, false_or] at hx
        exact hF Z x ⟨f, hf, hx⟩
    · refine ⟨List.mem_append_left _ ?_, eof, he, InFirst.refl⟩
      obtain ⟨b, _, e⟩ := hb'.basis_eq
      rw [e]; simp
  refine ha.no_conflict_of ha' ?_ (fun i' s' p' x hs' hp' hx => (hsome i' s' hs' p' hp' x hx).2) hno
  intro i' s' hs'
  obtain ⟨st', syms, hp'⟩ := hb'.reaches i' s' hs'
  obtain ⟨i, _, s, _, h1, h2⟩ := Exact.cover ha hl ha' (hb'.exact_clr hb0) he hp' rfl hs'
  exact ⟨i, s, h1, h2⟩

end

end Lrp
