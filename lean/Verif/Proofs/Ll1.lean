import Verif.Proofs.Lalr1

/-! LL(1) grammars: every state has a single kernel position. -/

set_option linter.unusedSectionVars false

namespace Lrp
open Spec
variable {T : Type} [LinOrd T] [DecidableEq T]

section
variable {D : Decls T} {S eof : T}

/-- A body of `A` begins with `B`, and `B` derives something beginning with `y`. -/
def LStep (D : Decls T) (y A B : T) : Prop := InFirst D B y ∧ ∃ i b, IsProd D A i (B :: b)

/-- A number of such steps. -/
inductive LSteps (D : Decls T) (y : T) : Nat → T → T → Prop
  | zero {A : T} : LSteps D y 0 A A
  | succ {n : Nat} {A B C : T} : LStep D y A B → LSteps D y n B C → LSteps D y (n + 1) A C

theorem LSteps.snoc {y A B C : T} {n : Nat} (h : LSteps D y n A B) (s : LStep D y B C) :
    LSteps D y (n + 1) A C := by
  induction h with
  | zero => exact .succ s .zero
  | succ s' _ ih => exact .succ s' (ih s)

theorem lsteps_of_derives (hne : NoEmpty D) {a c : List T} (h : Derives D a c) {y : T} {v : List T}
    (hc : c = y :: v) : ∀ {Z : T} {w : List T}, a = Z :: w → InFirst D Z y ∧ ∃ n, LSteps D y n Z y := by
  induction h with
  | refl =>
    intro Z w ha
    rw [hc] at ha; injection ha with e _; subst e
    exact ⟨InFirst.refl, 0, .zero⟩
  | head s _ ih =>
    intro Z w ha
    cases s with
    | @mk p q B i body hp =>
      cases p with
      | cons x xs =>
        simp at ha
        obtain ⟨rfl, _⟩ := ha
        exact ih hc (w := xs ++ (body ++ q)) (by simp)
      | nil =>
        simp at ha
        obtain ⟨rfl, _⟩ := ha
        cases body with
        | nil => exact absurd rfl (hne _ _ _ hp)
        | cons b bs =>
          obtain ⟨h1, n, h2⟩ := ih hc (Z := b) (w := bs ++ q) (by simp)
          refine ⟨?_, n + 1, .succ ⟨h1, i, bs, hp⟩ h2⟩
          exact InFirst.trans ⟨bs, Derives.of_prod hp⟩ h1

theorem InFirst.lsteps (hne : NoEmpty D) {A y : T} (h : InFirst D A y) : ∃ n, LSteps D y n A y := by
  obtain ⟨v, hv⟩ := h
  exact (lsteps_of_derives hne hv rfl rfl).2

theorem productive_first (hne : NoEmpty D) (hpr : AllProductive D) (x : T) :
    ∃ y, Terminal D y ∧ InFirst D x y := by
  obtain ⟨w, hw, ht⟩ := productive_list hpr [x]
  cases w with
  | nil => exact absurd rfl (derives_ne_nil hne hw (by simp))
  | cons y v => exact ⟨y, ht y (by simp), v, hw⟩

theorem Reachable.left {A B : T} {i : Nat} {b : List T} (h : Reachable D S A)
    (hp : IsProd D A i (B :: b)) : Reachable D S B := by
  obtain ⟨u, v, h⟩ := h
  refine ⟨u, b ++ v, h.trans ?_⟩
  simpa using Derives.ctx (Derives.of_prod hp) u v

/-- Alternatives of a reachable nonterminal are told apart by how they begin. -/
theorem Spec.LL1.first (h : LL1 D S eof) (hpr : AllProductive D) {A X Y y : T} {i j : Nat} {b c : List T}
    (hA : Reachable D S A) (hy : Terminal D y) (hb : IsProd D A i (X :: b)) (hc : IsProd D A j (Y :: c))
    (hX : InFirst D X y) (hY : InFirst D Y y) : i = j := by
  obtain ⟨u, α, hu⟩ := hA
  obtain ⟨w, hw, hwt⟩ := productive_list hpr u
  have h1 : Derives D [S] (w ++ A :: α) := hu.trans (hw.append (.refl _))
  have ext : ∀ {X : T} {b : List T}, InFirst D X y → ∃ x, Derives D (X :: b ++ α) (y :: x) ∧
      Terminals D (y :: x) := by
    rintro X b ⟨v, hv⟩
    obtain ⟨x, hx, hxt⟩ := productive_list hpr (v ++ (b ++ α))
    refine ⟨x, ?_, ?_⟩
    · have h2 : Derives D (X :: b ++ α) (y :: (v ++ (b ++ α))) := by
        simpa using hv.append (.refl (b ++ α))
      exact h2.trans (Derives.append (.refl [y]) hx)
    · intro t ht
      rcases List.mem_cons.mp ht with rfl | ht
      · exact hy
      · exact hxt t ht
  obtain ⟨x, hx, hxt⟩ := ext (b := b) hX
  obtain ⟨x', hx', hxt'⟩ := ext (b := c) hY
  exact h w α _ _ _ _ A i j h1 hwt hb hc hx hxt hx' hxt' rfl

theorem LStep.unique (h : LL1 D S eof) (hpr : AllProductive D) {A B C y : T} (hA : Reachable D S A)
    (hy : Terminal D y) (hb : LStep D y A B) (hc : LStep D y A C) : B = C := by
  obtain ⟨hb, i, b, hpb⟩ := hb
  obtain ⟨hc, j, c, hpc⟩ := hc
  have := h.first hpr hA hy hpb hpc hb hc
  subst this
  have := hpb.unique hpc
  injection this

/-- What is reached on the way to `y` lies on the way to `y`. -/
theorem LSteps.rest (h : LL1 D S eof) (hpr : AllProductive D) {y : T} (hy : Terminal D y) {m : Nat}
    {A B : T} (hm : LSteps D y m A B) : ∀ {n : Nat}, Reachable D S A → LSteps D y n A y →
      m ≤ n ∧ LSteps D y (n - m) B y := by
  induction hm with
  | zero => intro n _ hn; exact ⟨by omega, hn⟩
  | succ s _ ih =>
    intro n hA hn
    cases hn with
    | zero => obtain ⟨_, i, b, hp⟩ := s; exact absurd hy hp.not_terminal
    | @succ n _ C _ s' hn =>
      obtain rfl := LStep.unique h hpr hA hy s s'
      obtain ⟨_, i, b, hp⟩ := s
      obtain ⟨h1, h2⟩ := ih (Reachable.left hA hp) hn
      refine ⟨by omega, ?_⟩
      rw [Nat.add_sub_add_right]; exact h2

theorem LSteps.stuck {y : T} (hy : Terminal D y) {n : Nat} {C : T} (h : LSteps D y n y C) : n = 0 := by
  cases h with
  | zero => rfl
  | succ s _ => obtain ⟨_, i, b, hp⟩ := s; exact absurd hy hp.not_terminal

theorem LSteps.length (h : LL1 D S eof) (hpr : AllProductive D) (hne : NoEmpty D) {y : T}
    (hy : Terminal D y) {m n : Nat} {A B : T} (hA : Reachable D S A) (hB : InFirst D B y)
    (hm : LSteps D y m A B) (hn : LSteps D y n A B) : m = n := by
  have app : ∀ {k l : Nat} {A B C : T}, LSteps D y k A B → LSteps D y l B C → LSteps D y (k + l) A C := by
    intro k l A B C h1 h2
    induction h1 with
    | zero => rw [Nat.zero_add]; exact h2
    | succ s _ ih => rw [Nat.add_right_comm]; exact .succ s (ih h2)
  obtain ⟨k, hk⟩ := InFirst.lsteps hne hB
  have h1 := app hm hk
  have h2 := app hn hk
  obtain ⟨h3, h4⟩ := h1.rest h hpr hy hA h2
  obtain ⟨h5, h6⟩ := h2.rest h hpr hy hA h1
  omega

end

section
variable {D : Decls T} {S eof : T} {b0 : List T} {states : List (State T)} {acts : ActTable T}
  {next : State T → T → Option Nat} {red : Position T → T → Prop}

/-- How far a position is from the root of its state. -/
inductive Lev (D : Decls T) (r : Position T) (s : State T) : Nat → Position T → Prop
  | root {p : Position T} : p ∈ s → SameBody p r → Lev D r s 0 p
  | step {k : Nat} {p q : Position T} : Lev D r s k q → q.top = some p.rule → p ∈ s → p.point = 0 →
      Lev D r s (k + 1) p

/-- The positions of a state from which the others come are the same up to lookahead. -/
def Lone (S : T) (b0 : List T) (i : Nat) (s : State T) (r : Position T) : Prop :=
  ∀ p ∈ s, (0 < p.point ∨ i = 0 ∧ p.rule = S ∧ p.seq = (b0, 0) ∧ p.point = 0) → SameBody p r

theorem Lone.lev {i : Nat} {s : State T} {r p : Position T} (h : Lone S b0 i s r)
    (hp : Prov S b0 i s p) : ∃ k, Lev D r s k p := by
  induction hp with
  | kernel hp h0 => exact ⟨0, .root hp (h _ hp (Or.inl h0))⟩
  | basis hi hp h1 h2 h3 => exact ⟨0, .root hp (h _ hp (Or.inr ⟨hi, h1, h2, h3⟩))⟩
  | step _ ht hp h0 ih =>
    obtain ⟨k, hk⟩ := ih
    exact ⟨k + 1, .step hk ht hp h0⟩

theorem Lev.mem {k : Nat} {s : State T} {r p : Position T} (h : Lev D r s k p) : p ∈ s := by
  cases h <;> assumption

theorem top_zero {p : Position T} {x : T} (h0 : p.point = 0) (ht : p.top = some x) :
    ∃ b, p.seq.1 = x :: b := by
  have : p.seq.1[p.point]? = some x := ht
  rw [h0] at this
  cases he : p.seq.1 with
  | nil => rw [he] at this; simp at this
  | cons a b => rw [he] at this; simp at this; exact ⟨b, by rw [this]⟩

theorem Auto.reachable (h : Auto D S b0 states acts next red) (hpr : AllProductive D) {i : Nat}
    {st : List Nat} {syms : List T} (hp : Path states next (i :: st) syms) {s : State T}
    (hs : states[i]? = some s) {p : Position T} (hps : p ∈ s) :
    Reachable D S p.rule ∧ ∀ x, p.top = some x → Reachable D S x := by
  obtain ⟨w, _, hd⟩ := h.rviable hpr hp rfl hs hps
  have h1 := hd.derives
  refine ⟨⟨_, _, h1⟩, fun x hx => ?_⟩
  exact ⟨_, _, derives_closure (p := { p with rule := x }) h1 (h.prod hs hps).1 hx⟩

theorem Lev.first (h : Auto D S b0 states acts next red) {i : Nat} {s : State T}
    (hs : states[i]? = some s) {r p : Position T} {k : Nat} {y : T}
    (hl : Lev D r s k p) : ∀ {x : T}, p.top = some x → InFirst D x y →
      ∃ X, r.top = some X ∧ InFirst D X y ∧ LSteps D y k X x := by
  induction hl with
  | root _ hb => intro x hx hy; exact ⟨x, by rw [← hb.top]; exact hx, hy, .zero⟩
  | @step k p q _ ht hp h0 ih =>
    intro x hx hy
    obtain ⟨b, hb⟩ := top_zero h0 hx
    have hprod := (h.prod hs hp).1
    rw [hb] at hprod
    obtain ⟨X, h1, h2, h3⟩ := ih ht (InFirst.trans ⟨b, Derives.of_prod hprod⟩ hy)
    exact ⟨X, h1, h2, h3.snoc ⟨hy, _, b, hprod⟩⟩

theorem Lev.same (h : Auto D S b0 states acts next red) (hll : LL1 D S eof) (hpr : AllProductive D)
    {i : Nat} {st : List Nat} {syms : List T} (hpath : Path states next (i :: st) syms) {s : State T}
    (hs : states[i]? = some s) {r p : Position T} {k : Nat} {y : T} (hy : Terminal D y)
    (hl : Lev D r s k p) : ∀ {q : Position T} {x x' : T}, Lev D r s k q → p.top = some x →
      q.top = some x' → InFirst D x y → InFirst D x' y → SameBody p q := by
  induction hl with
  | root _ hb =>
    intro q x x' hq _ _ _ _
    cases hq with
    | root _ hb' => exact hb.trans hb'.symm
  | @step k p p' hl ht hp h0 ih =>
    intro q x x' hq hx hx' hxy hxy'
    cases hq with
    | @step _ _ q' hl' ht' hq h0' =>
      obtain ⟨b, hb⟩ := top_zero h0 hx
      obtain ⟨c, hc⟩ := top_zero h0' hx'
      have hpp := (h.prod hs hp).1
      have hpq := (h.prod hs hq).1
      rw [hb] at hpp
      rw [hc] at hpq
      have hsb := ih hl' ht ht' (InFirst.trans ⟨b, Derives.of_prod hpp⟩ hxy)
        (InFirst.trans ⟨c, Derives.of_prod hpq⟩ hxy')
      have e : p.rule = q.rule := by
        have := hsb.top
        rw [ht, ht'] at this
        exact Option.some.inj this
      have e2 : p.seq.2 = q.seq.2 :=
        hll.first hpr (h.reachable hpr hpath hs hp).1 hy hpp (by rw [e]; exact hpq) hxy hxy'
      refine ⟨e, Prod.ext ?_ e2, h0.trans h0'.symm⟩
      have := (h.prod hs hp).1
      rw [e, e2] at this
      exact this.unique (h.prod hs hq).1

/-- In a state with one root, only one position stands before each symbol. -/
theorem Lone.top_unique (h : Auto D S b0 states acts next red) (hll : LL1 D S eof)
    (hpr : AllProductive D) {i : Nat} {st : List Nat} {syms : List T}
    (hpath : Path states next (i :: st) syms) {s : State T} (hs : states[i]? = some s) {r : Position T}
    (hr : Lone S b0 i s r) {p q : Position T} {x : T} (hp : p ∈ s) (hq : q ∈ s)
    (hpx : p.top = some x) (hqx : q.top = some x) : SameBody p q := by
  obtain ⟨y, hy, hxy⟩ := productive_first h.noEmpty hpr x
  obtain ⟨k, hk⟩ := hr.lev (D := D) (h.prov hs hp)
  obtain ⟨m, hm⟩ := hr.lev (D := D) (h.prov hs hq)
  obtain ⟨X, h1, h2, h3⟩ := hk.first h hs hpx hxy
  obtain ⟨X', h1', _, h3'⟩ := hm.first h hs hqx hxy
  have e : X = X' := by rw [h1] at h1'; exact Option.some.inj h1'
  subst e
  have hX : Reachable D S X := by
    have root : ∀ {k : Nat} {p : Position T}, Lev D r s k p → ∃ p ∈ s, SameBody p r := by
      intro k p hl
      induction hl with
      | root hp hb => exact ⟨_, hp, hb⟩
      | step _ _ _ _ ih => exact ih
    obtain ⟨r', hr', hb⟩ := root hk
    exact (h.reachable hpr hpath hs hr').2 X (by rw [hb.top]; exact h1)
  have := h3.length hll hpr h.noEmpty hy hX hxy h3'
  subst this
  exact hk.same h hll hpr hpath hs hy hm hpx hqx hxy hxy

/-- Every state has one root. -/
theorem Auto.lone (h : Auto D S b0 states acts next red) (hll : LL1 D S eof) (hpr : AllProductive D)
    {st : List Nat} {syms : List T} (hp : Path states next st syms) :
    ∀ {i : Nat} {st' : List Nat} {s : State T}, st = i :: st' → states[i]? = some s →
      ∃ r, Lone S b0 i s r := by
  induction hp with
  | base =>
    intro i st' s e hs
    injection e with e _; subst e
    obtain ⟨s', p, h1, h2, h3, h4, h5⟩ := h.basis
    refine ⟨p, fun q hq hc => ?_⟩
    rcases hc with hc | ⟨_, k1, k2, k3⟩
    · have := h.zero hs hq; omega
    · exact ⟨k1.trans h3.symm, k2.trans h4.symm, k3.trans h5.symm⟩
  | @cons i j st syms s p X hpath hs hps hX hj ih =>
    intro i' st' s' e hs'
    injection e with e _; subst e
    obtain ⟨r, hr⟩ := ih rfl hs
    obtain ⟨j', s'', g1, g2, g3, g4, _⟩ := h.edge hs hps hX
    rw [hj] at g1; cases g1
    rw [hs'] at g3; cases g3
    refine ⟨p.adv, fun q hq hc => ?_⟩
    rcases hc with hc | ⟨hc, _⟩
    · obtain ⟨p', h1, h2, h3⟩ := g4 q hq hc
      exact h3.trans (Lone.top_unique h hll hpr hpath hs hr h1 hps h2 hX).adv
    · exact absurd hc g2

/-- An LL(1) grammar gives no conflicts, whatever the lookaheads. -/
theorem Auto.ll1_no_conflict (h : Auto D S b0 states acts next red) (hreach : Reaches states next)
    (hll : LL1 D S eof) (hpr : AllProductive D) :
    ∀ i x a b, cellAt acts i x ≠ some (.conflict a b) := by
  intro i x a b hc
  obtain ⟨row, hrow, hc⟩ := Option.bind_eq_some_iff.mp (show acts[i]?.bind _ = _ from hc)
  have hi : i < states.length := by rw [← h.len]; exact (List.getElem?_eq_some_iff.mp hrow).1
  have hs : states[i]? = some states[i] := List.getElem?_eq_getElem hi
  generalize states[i] = s at hs
  obtain ⟨a1, a2, d1, d2, hne⟩ := (((h.cell hs hrow).2 x).conflict _ hc).mp ⟨a, b, rfl⟩
  obtain ⟨st, syms, hpath⟩ := hreach i s hs
  obtain ⟨r, hr⟩ := h.lone hll hpr hpath rfl hs
  -- a complete position is alone
  have alone : ∀ {p : Position T}, p ∈ s → p.top = none → ∀ q ∈ s, SameBody q p := by
    intro p hp ht q hq
    have h0 : 0 < p.point := by
      have h1 := top_none ht
      have h2 := h.noEmpty _ _ _ (h.prod hs hp).1
      have := List.length_pos_iff.mpr h2
      omega
    have hpr' := hr p hp (Or.inl h0)
    obtain ⟨k, hk⟩ := hr.lev (D := D) (h.prov hs hq)
    have : ∀ {k : Nat} {q : Position T}, Lev D r s k q → SameBody q r := by
      intro k q hl
      induction hl with
      | root _ hb => exact hb
      | step _ ht' _ _ ih =>
        rw [ih.top, ← hpr'.top, ht] at ht'
        cases ht'
    exact (this hk).trans hpr'.symm
  rcases d1 with ⟨p, hp, ht, j, hj, hk⟩ | ⟨p, hp, ht, _, hk⟩ <;>
    rcases d2 with ⟨q, hq, ht', j', hj', hk'⟩ | ⟨q, hq, ht', _, hk'⟩
  · rw [hj] at hj'; cases hj'
    rcases hk with ⟨k1, rfl⟩ | ⟨k1, rfl⟩ <;> rcases hk' with ⟨k2, rfl⟩ | ⟨k2, rfl⟩
    · exact hne rfl
    · exact absurd k1 (not_terminal_iff.mpr k2)
    · exact absurd k2 (not_terminal_iff.mpr k1)
    · exact hne rfl
  · have := (alone hq ht' p hp).top; rw [ht, ht'] at this; cases this
  · have := (alone hp ht q hq).top; rw [ht, ht'] at this; cases this
  · have e := alone hp ht q hq
    rcases hk with ⟨k1, rfl⟩ | ⟨k1, rfl⟩ <;> rcases hk' with ⟨k2, rfl⟩ | ⟨k2, rfl⟩
    · exact hne rfl
    · exact k2 (e.1.trans k1)
    · exact k1 (e.1.symm.trans k2)
    · exact hne (by rw [e.1, e.2.1])

end

end Lrp
