import Verif.Proofs.Rows

/-!
What the run-time theorems need to know about a table, abstractly: `Auto` (states, edges and cells)
and `Looks` (lookaheads are large enough).  `Slr` and `Clr` provide both.
-/

set_option linter.unusedSectionVars false

namespace Lrp
open Spec
variable {T : Type} [LinOrd T] [DecidableEq T]

/-- Equal up to lookahead. -/
def SameBody (p q : Position T) : Prop := p.rule = q.rule ∧ p.seq = q.seq ∧ p.point = q.point

theorem SameBody.refl (p : Position T) : SameBody p p := ⟨rfl, rfl, rfl⟩
theorem SameBody.symm {p q : Position T} (h : SameBody p q) : SameBody q p :=
  ⟨h.1.symm, h.2.1.symm, h.2.2.symm⟩
theorem SameBody.trans {p q r : Position T} (h : SameBody p q) (h' : SameBody q r) : SameBody p r :=
  ⟨h.1.trans h'.1, h.2.1.trans h'.2.1, h.2.2.trans h'.2.2⟩
theorem SameBody.top {p q : Position T} (h : SameBody p q) : p.top = q.top := by
  unfold Position.top Position.peek; rw [h.2.1, h.2.2]
theorem SameBody.next {p q : Position T} (h : SameBody p q) : p.next = q.next := by
  unfold Position.next Position.peek; rw [h.2.1, h.2.2]
theorem SameBody.adv {p q : Position T} (h : SameBody p q) : SameBody p.adv q.adv :=
  ⟨h.1, h.2.1, congrArg (· + 1) h.2.2⟩

theorem top_lt {p : Position T} {x : T} (h : p.top = some x) : p.point < p.seq.1.length := by
  have := (List.getElem?_eq_some_iff.mp h).1
  simpa using this

theorem top_mem {p : Position T} {x : T} (h : p.top = some x) : x ∈ p.seq.1 :=
  List.mem_of_getElem? h

theorem top_none {p : Position T} (h : p.top = none) : p.seq.1.length ≤ p.point := by
  have := List.getElem?_eq_none_iff.mp h
  simpa using this

/-- Where the positions of a state come from: kernel positions, the basis in state 0, and
positions added because of another one. -/
inductive Prov (S : T) (b0 : List T) (i : Nat) (s : State T) : Position T → Prop
  | kernel {p : Position T} : p ∈ s → 0 < p.point → Prov S b0 i s p
  | basis {p : Position T} : i = 0 → p ∈ s → p.rule = S → p.seq = (b0, 0) → p.point = 0 →
      Prov S b0 i s p
  | step {p q : Position T} : Prov S b0 i s q → q.top = some p.rule → p ∈ s → p.point = 0 →
      Prov S b0 i s p

theorem Prov.mem {S : T} {b0 : List T} {i : Nat} {s : State T} {p : Position T}
    (h : Prov S b0 i s p) : p ∈ s := by cases h <;> assumption

/-- The decisions of a state. -/
def Dec (D : Decls T) (S : T) (next : T → Option Nat) (red : Position T → T → Prop) (s : State T)
    (x : T) (a : Action T) : Prop :=
  (∃ p ∈ s, p.top = some x ∧ ∃ j, next x = some j ∧
    ((Terminal D x ∧ a = .shift j) ∨ (Nonterminal D x ∧ a = .goto j))) ∨
  (∃ p ∈ s, p.top = none ∧ red p x ∧
    ((p.rule = S ∧ a = .acc) ∨ (p.rule ≠ S ∧ a = .reduce p.rule p.seq)))

/-- An LR automaton with its action table. -/
structure Auto (D : Decls T) (S : T) (b0 : List T) (states : List (State T)) (acts : ActTable T)
    (next : State T → T → Option Nat) (red : Position T → T → Prop) : Prop where
  noEmpty : NoEmpty D
  start : IsProd D S 0 b0
  len : acts.length = states.length
  nonempty : 0 < states.length
  prod : ∀ {i : Nat} {s p}, states[i]? = some s → p ∈ s →
    IsProd D p.rule p.seq.2 p.seq.1 ∧ p.point ≤ p.seq.1.length
  cell : ∀ {i : Nat} {s row}, states[i]? = some s → acts[i]? = some row →
    OMap.Sorted row ∧ ∀ x, CellOK (row.get? x) (Dec D S (next s) red s x)
  zero : ∀ {s p}, states[0]? = some s → p ∈ s → p.point = 0
  basis : ∃ s p, states[0]? = some s ∧ p ∈ s ∧ p.rule = S ∧ p.seq = (b0, 0) ∧ p.point = 0
  prov : ∀ {i : Nat} {s p}, states[i]? = some s → p ∈ s → Prov S b0 i s p
  edge : ∀ {i : Nat} {s p x}, states[i]? = some s → p ∈ s → p.top = some x →
    ∃ j s', next s x = some j ∧ j ≠ 0 ∧ states[j]? = some s' ∧
      (∀ q ∈ s', 0 < q.point → ∃ p ∈ s, p.top = some x ∧ SameBody q p.adv) ∧
      (∀ p ∈ s, p.top = some x → ∃ q ∈ s', SameBody q p.adv)
  close : ∀ {i : Nat} {s p A k b}, states[i]? = some s → p ∈ s → p.top = some A → IsProd D A k b →
    ∃ q ∈ s, q.rule = A ∧ q.seq = (b, k) ∧ q.point = 0

/-- Lookaheads are large enough: what completeness needs. -/
structure Looks (D : Decls T) (S eof : T) (b0 : List T) (states : List (State T))
    (next : State T → T → Option Nat) (red : Position T → T → Prop) : Prop where
  basis : ∃ s p, states[0]? = some s ∧ p ∈ s ∧ p.rule = S ∧ p.seq = (b0, 0) ∧ p.point = 0 ∧ red p eof
  adv : ∀ {i j : Nat} {s s' p x}, states[i]? = some s → p ∈ s → p.top = some x →
    next s x = some j → states[j]? = some s' →
    ∃ q ∈ s', SameBody q p.adv ∧ ∀ y, Terminal D y → red p y → red q y
  close : ∀ {i : Nat} {s p A k b y}, states[i]? = some s → p ∈ s → p.top = some A → IsProd D A k b →
    Terminal D y → (p.next = none → red p y) →
    (∀ Z, p.next = some Z → Z = y ∨ InFirst D Z y) →
    ∃ q ∈ s, q.rule = A ∧ q.seq = (b, k) ∧ q.point = 0 ∧ red q y

/-! ### From a complete collection -/

section
variable {rules : RuleMap T} {lk : Position T → OSet T} {basis : Position T} {syms : List T}
  {t : Tabler T}

/-- Induction over all positions of all states. -/
theorem Coll.all (hc : Coll rules lk basis syms t) {P : Position T → Prop} (h0 : P basis)
    (hadd : ∀ p q, P p → Adds rules lk p q → P q)
    (hadv : ∀ p X, P p → p.top = some X → P p.adv) :
    ∀ (i : Nat) s, t.states[i]? = some s → ∀ p ∈ s, P p := by
  intro i
  induction i using Nat.strongRecOn with
  | _ i ih =>
    intro s hs p hp
    by_cases hi : i = 0
    · subst hi
      obtain ⟨s0, h1, h2⟩ := hc.start
      rw [hs] at h1; cases h1
      refine ((h2.mem p).mp hp).closed_sub (P := P) ?_ hadd
      intro q hq; simp at hq; subst hq; exact h0
    · obtain ⟨K, hK⟩ := hc.surj i (List.getElem?_eq_some_iff.mp hs).1
      obtain ⟨_, ⟨s', h1, h2⟩, j, sj, X, h3, h4, _, rfl⟩ := hc.kern K i hK hi
      rw [hs] at h1; cases h1
      refine ((h2.mem p).mp hp).closed_sub (P := P) ?_ hadd
      intro q hq
      obtain ⟨q', hq', ht, rfl⟩ := mem_symFilter.mp hq
      exact hadv q' X (ih j h3 sj h4 q' hq') ht

/-- Every state is the closure of a seed. -/
theorem Coll.seed (hc : Coll rules lk basis syms t) {i : Nat} {s : State T}
    (hs : t.states[i]? = some s) :
    (i = 0 ∧ IsClo rules lk [basis] s) ∨
    (i ≠ 0 ∧ ∃ K, t.kernels.get? K = some i ∧ IsClo rules lk K s ∧
      ∀ p ∈ K, ∃ p', ∃ X, p'.top = some X ∧ p = Position.adv p') := by
  by_cases hi : i = 0
  · subst hi
    obtain ⟨s0, h1, h2⟩ := hc.start
    rw [hs] at h1; cases h1
    exact Or.inl ⟨rfl, h2⟩
  · obtain ⟨K, hK⟩ := hc.surj i (List.getElem?_eq_some_iff.mp hs).1
    obtain ⟨_, ⟨s', h1, h2⟩, j, sj, X, h3, h4, _, rfl⟩ := hc.kern K i hK hi
    rw [hs] at h1; cases h1
    refine Or.inr ⟨hi, _, hK, h2, fun p hp => ?_⟩
    obtain ⟨q', hq', ht, rfl⟩ := mem_symFilter.mp hp
    exact ⟨q', X, ht, rfl⟩

/-- Following an edge. -/
theorem Coll.edge (hc : Coll rules lk basis syms t) {i : Nat} {s : State T} {X : T} {p : Position T}
    (hs : t.states[i]? = some s) (hp : p ∈ s) (ht : p.top = some X) (hX : Done t i X) :
    ∃ j s', t.kernels.get? (Tabler.symFilter s X) = some j ∧ j ≠ 0 ∧ t.states[j]? = some s' ∧
      IsClo rules lk (Tabler.symFilter s X) s' := by
  obtain ⟨j, hj⟩ := hX s hs
  have hj0 : j ≠ 0 := by
    rintro rfl
    have := hc.zero_only _ hj
    have hm : p.adv ∈ Tabler.symFilter s X := mem_symFilter.mpr ⟨p, hp, ht, rfl⟩
    rw [this] at hm; simp at hm
  obtain ⟨_, ⟨s', h1, h2⟩, _⟩ := hc.kern _ j hj hj0
  exact ⟨j, s', hj, hj0, h1, h2⟩

end

/-- A table with its action rows. -/
structure Built (t : Tabler T) (D : Decls T) (S eof : T) (lk : Table T → Position T → OSet T)
    (red : Position T → T → Prop) : Prop where
  of : t.Of D S eof
  coll : Coll t.grammar.rules (lk t.first) t.basisPos t.grammar.symbols t
  done : ∀ j, j < t.states.length → ∀ X ∈ t.grammar.symbols, Done t j X
  rows : t.actions.length = t.states.length
  cell : ∀ (i : Nat) s row, t.states[i]? = some s → t.actions[i]? = some row →
    OMap.Sorted row ∧ ∀ x, CellOK (row.get? x)
      (Decides t.grammar S (fun x => t.kernels.get? (Tabler.symFilter s x)) red s x)

theorem Decides.iff_dec {g : Grammar T} {D : Decls T} {S eof : T} (hg : g.Of D S eof)
    {next : T → Option Nat} {red : Position T → T → Prop} {s : State T} {x : T} {a : Action T} :
    Decides g S next red s x a ↔ Dec D S next red s x a := by
  unfold Decides Dec
  refine or_congr (exists_congr fun p => and_congr Iff.rfl (and_congr Iff.rfl
    (exists_congr fun j => and_congr Iff.rfl ?_)))
    (exists_congr fun p => and_congr Iff.rfl (and_congr Iff.rfl (and_congr Iff.rfl ?_)))
  · cases h : g.isTerminal x with
    | true =>
      have h1 := (hg.isTerminal x).mp h
      have h2 : ¬ Nonterminal D x := fun h => not_terminal_iff.mpr h h1
      simp [h1, h2]
    | false =>
      have h2 := (hg.isTerminal_false x).mp h
      have h1 : ¬ Terminal D x := not_terminal_iff.mpr h2
      simp [h1, h2]
  · by_cases h : p.rule = S <;> simp [h]

theorem adds_prod {g : Grammar T} {D : Decls T} {S eof : T} (hg : g.Of D S eof)
    {lk : Position T → OSet T} {p q : Position T} (h : Adds g.rules lk p q) :
    p.top = some q.rule ∧ IsProd D q.rule q.seq.2 q.seq.1 ∧ q.point = 0 ∧ q.look = lk p := by
  obtain ⟨A, r, prod, h1, h2, h3, rfl⟩ := h
  exact ⟨h1, (hg.prods h2 prod).mp h3, rfl, rfl⟩

theorem adds_of_prod {g : Grammar T} {D : Decls T} {S eof : T} (hg : g.Of D S eof)
    {lk : Position T → OSet T} {p : Position T} {A : T} {k : Nat} {b : List T}
    (ht : p.top = some A) (hp : IsProd D A k b) :
    Adds g.rules lk p { rule := A, seq := (b, k), point := 0, look := lk p } := by
  obtain ⟨r, h1, h2⟩ := hg.of_isProd hp
  exact ⟨A, r, (b, k), ht, h1, h2, rfl⟩

section
variable {t : Tabler T} {D : Decls T} {S eof : T} {lk : Table T → Position T → OSet T}
  {red : Position T → T → Prop}

theorem Built.basis_eq (h : Built t D S eof lk red) :
    ∃ b0, IsProd D S 0 b0 ∧ t.basisPos = { rule := S, seq := (b0, 0), point := 0, look := [eof] } :=
  h.of.grammar.basis

theorem Built.prod (h : Built t D S eof lk red) {i : Nat} {s : State T} {p : Position T}
    (hs : t.states[i]? = some s) (hp : p ∈ s) :
    IsProd D p.rule p.seq.2 p.seq.1 ∧ p.point ≤ p.seq.1.length := by
  obtain ⟨b0, hb, he⟩ := h.basis_eq
  refine h.coll.all (P := fun p => IsProd D p.rule p.seq.2 p.seq.1 ∧ p.point ≤ p.seq.1.length)
    ?_ ?_ ?_ i s hs p hp
  · rw [he]; exact ⟨hb, Nat.zero_le _⟩
  · intro p q _ ha
    obtain ⟨_, h2, h3, _⟩ := adds_prod h.of.grammar ha
    exact ⟨h2, by omega⟩
  · intro p X hP ht
    have := top_lt ht
    exact ⟨hP.1, this⟩

theorem Built.doneAt (h : Built t D S eof lk red) {i : Nat} {s : State T} {p : Position T} {x : T}
    (hs : t.states[i]? = some s) (hp : p ∈ s) (ht : p.top = some x) : Done t i x :=
  h.done i (List.getElem?_eq_some_iff.mp hs).1 x
    (h.of.grammar.mem_symbols (h.prod hs hp).1 (top_mem ht))

theorem Built.auto (h : Built t D S eof lk red) {b0 : List T} (hb : IsProd D S 0 b0) :
    Auto D S b0 t.states t.actions (fun s x => t.kernels.get? (Tabler.symFilter s x)) red := by
  have hbase : t.basisPos = { rule := S, seq := (b0, 0), point := 0, look := [eof] } := by
    obtain ⟨b, hb', he⟩ := h.basis_eq
    rw [he, hb'.unique hb]
  refine ⟨h.of.noEmpty, hb, h.rows, ?_, h.prod, ?_, ?_, ?_, ?_, ?_, ?_⟩
  · obtain ⟨s, hs, _⟩ := h.coll.start
    exact (List.getElem?_eq_some_iff.mp hs).1
  · intro i s row hs hr
    obtain ⟨h1, h2⟩ := h.cell i s row hs hr
    exact ⟨h1, fun x => (h2 x).congr (fun a => Decides.iff_dec h.of.grammar)⟩
  · intro s p hs hp
    rcases h.coll.seed hs with ⟨_, hclo⟩ | ⟨h0, _⟩
    · refine ((hclo.mem p).mp hp).closed_sub (P := fun p => p.point = 0) ?_ ?_
      · intro q hq; simp at hq; subst hq; rw [hbase]
      · intro p q _ ha; exact (adds_prod h.of.grammar ha).2.2.1
    · exact absurd rfl h0
  · obtain ⟨s, hs, hclo⟩ := h.coll.start
    refine ⟨s, t.basisPos, hs, (hclo.mem _).mpr (.base (by simp)), ?_, ?_, ?_⟩ <;> rw [hbase]
  · intro i s p hs hp
    rcases h.coll.seed hs with ⟨h0, hclo⟩ | ⟨h0, K, _, hclo, hK⟩
    · have hall := (hclo.mem p).mp hp
      clear hp
      induction hall with
      | base hq =>
        simp at hq; subst hq
        refine .basis h0 ((hclo.mem _).mpr (.base (by simp))) ?_ ?_ ?_ <;> rw [hbase]
      | step hq ha ih =>
        obtain ⟨h1, _, h3, _⟩ := adds_prod h.of.grammar ha
        exact .step ih h1 ((hclo.mem _).mpr (.step hq ha)) h3
    · have hall := (hclo.mem p).mp hp
      clear hp
      induction hall with
      | base hq =>
        obtain ⟨p', X, _, rfl⟩ := hK _ hq
        exact .kernel ((hclo.mem _).mpr (.base hq)) (Nat.succ_pos _)
      | step hq ha ih =>
        obtain ⟨h1, _, h3, _⟩ := adds_prod h.of.grammar ha
        exact .step ih h1 ((hclo.mem _).mpr (.step hq ha)) h3
  · intro i s p x hs hp ht
    obtain ⟨j, s', h1, h2, h3, h4⟩ := h.coll.edge hs hp ht (h.doneAt hs hp ht)
    refine ⟨j, s', h1, h2, h3, ?_, ?_⟩
    · intro q hq
      refine ((h4.mem q).mp hq).closed_sub (P := fun q => 0 < q.point →
        ∃ p ∈ s, p.top = some x ∧ SameBody q p.adv) ?_ ?_
      · intro q hq _
        obtain ⟨p', hp', ht', rfl⟩ := mem_symFilter.mp hq
        exact ⟨p', hp', ht', .refl _⟩
      · intro p q _ ha h0
        have := (adds_prod h.of.grammar ha).2.2.1
        omega
    · intro p' hp' ht'
      exact ⟨p'.adv, (h4.mem _).mpr (.base (mem_symFilter.mpr ⟨p', hp', ht', rfl⟩)), .refl _⟩
  · intro i s p A k b hs hp ht hprod
    have ha := adds_of_prod h.of.grammar (lk := lk t.first) ht hprod
    refine ⟨{ rule := A, seq := (b, k), point := 0, look := lk t.first p }, ?_, rfl, rfl, rfl⟩
    · rcases h.coll.seed hs with ⟨_, hclo⟩ | ⟨_, K, _, hclo, _⟩
      · exact (hclo.mem _).mpr (.step ((hclo.mem p).mp hp) ha)
      · exact (hclo.mem _).mpr (.step ((hclo.mem p).mp hp) ha)

/-- The successor state and its kernel. -/
theorem Built.next_clo (h : Built t D S eof lk red) {i j : Nat} {s s' : State T} {p : Position T}
    {x : T} (hs : t.states[i]? = some s) (hp : p ∈ s) (ht : p.top = some x)
    (hj : t.kernels.get? (Tabler.symFilter s x) = some j) (hs' : t.states[j]? = some s') :
    IsClo t.grammar.rules (lk t.first) (Tabler.symFilter s x) s' := by
  obtain ⟨j', s'', h1, h2, h3, h4⟩ := h.coll.edge hs hp ht (h.doneAt hs hp ht)
  rw [hj] at h1; cases h1
  rw [hs'] at h3; cases h3
  exact h4

theorem Built.closed (h : Built t D S eof lk red) {i : Nat} {s : State T} {p q : Position T}
    (hs : t.states[i]? = some s) (hp : p ∈ s) (ha : Adds t.grammar.rules (lk t.first) p q) : q ∈ s := by
  rcases h.coll.seed hs with ⟨_, hclo⟩ | ⟨_, K, _, hclo, _⟩
  · exact (hclo.mem _).mpr (.step ((hclo.mem p).mp hp) ha)
  · exact (hclo.mem _).mpr (.step ((hclo.mem p).mp hp) ha)

/-- No terminal derives anything but itself. -/
theorem derives_terminal {Z : T} {w : List T} (hZ : Terminal D Z) (h : Derives D [Z] w) : w = [Z] := by
  cases h with
  | refl => rfl
  | head s _ =>
    generalize hα : [Z] = α at s
    cases s with
    | @mk u v A i body hp =>
      have : A = Z := by
        have : A ∈ [Z] := by rw [hα]; simp
        simpa using this
      subst this
      exact absurd hZ hp.not_terminal

theorem mem_symLook (h : t.Of D S eof) {Z y : T} (hy : Terminal D y) (hZ : Z = y ∨ InFirst D Z y) :
    y ∈ symLook t.first Z := by
  unfold symLook
  by_cases hT : Terminal D Z
  · have : t.first.get? Z = none := by
      cases hf : t.first.get? Z with
      | none => rfl
      | some f => exact absurd hT (not_terminal_iff.mpr ((h.firstT.keys Z).mp ⟨f, hf⟩))
    rw [this]
    rcases hZ with rfl | ⟨v, hv⟩
    · simp
    · have := derives_terminal hT hv
      injection this with h1 _; subst h1; simp
  · have hN := not_terminal_iff.mp hT
    obtain ⟨F, hF⟩ := (h.firstT.keys Z).mpr hN
    rw [hF]
    simp only [OSet.mem_extend, List.not_mem_nil, false_or]
    rcases hZ with rfl | hi
    · exact absurd hy hT
    · obtain ⟨F', h1, h2⟩ := (h.first Z y hN hy).mpr hi
      rw [hF] at h1; cases h1
      exact h2

theorem of_mem_symLook (h : t.Of D S eof) {Z y : T} (hy : y ∈ symLook t.first Z) :
    Z = y ∨ InFirst D Z y := by
  unfold symLook at hy
  cases hf : t.first.get? Z with
  | none => rw [hf] at hy; simp at hy; exact Or.inl hy.symm
  | some f =>
    rw [hf] at hy
    simp only [OSet.mem_extend, List.not_mem_nil, false_or] at hy
    exact Or.inr (h.firstAny Z y ⟨f, hf, hy⟩)

theorem Built.looks_clr (h : Built t D S eof clrLook (fun p x => x ∈ p.look)) {b0 : List T}
    (hb : IsProd D S 0 b0) :
    Looks D S eof b0 t.states (fun s x => t.kernels.get? (Tabler.symFilter s x))
      (fun p x => x ∈ p.look) := by
  have hbase : t.basisPos = { rule := S, seq := (b0, 0), point := 0, look := [eof] } := by
    obtain ⟨b, hb', he⟩ := h.basis_eq
    rw [he, hb'.unique hb]
  refine ⟨?_, ?_, ?_⟩
  · obtain ⟨s, hs, hclo⟩ := h.coll.start
    refine ⟨s, t.basisPos, hs, (hclo.mem _).mpr (.base (by simp)), ?_, ?_, ?_, ?_⟩ <;> rw [hbase]
    simp
  · intro i j s s' p x hs hp ht hj hs'
    have hclo := h.next_clo hs hp ht hj hs'
    exact ⟨p.adv, (hclo.mem _).mpr (.base (mem_symFilter.mpr ⟨p, hp, ht, rfl⟩)), .refl _,
      fun y _ hy => hy⟩
  · intro i s p A k b y hs hp ht hprod hy hn hf
    have ha := adds_of_prod h.of.grammar (lk := clrLook t.first) ht hprod
    refine ⟨_, h.closed hs hp ha, rfl, rfl, rfl, ?_⟩
    show y ∈ clrLook t.first p
    cases hnx : p.next with
    | none => rw [clrLook_none hnx]; exact hn hnx
    | some Z => rw [clrLook_some hnx]; exact mem_symLook h.of hy (hf Z hnx)

theorem next_eq {p : Position T} : p.next = p.seq.1[p.point + 1]? := rfl

/-- Adjacent symbols of a body. -/
theorem adj_of_next {p : Position T} {A Z : T} (ht : p.top = some A) (hn : p.next = some Z) :
    Adj p.seq.1 A Z := by
  refine ⟨p.seq.1.take p.point, p.seq.1.drop (p.point + 2), ?_⟩
  obtain ⟨h1, h2⟩ := List.getElem?_eq_some_iff.mp hn
  have h3 := top_lt ht
  have e1 : p.seq.1.drop p.point = A :: p.seq.1.drop (p.point + 1) := by
    rw [List.drop_eq_getElem_cons h3]
    congr 1
    have := List.getElem?_eq_some_iff.mp ht
    obtain ⟨_, h⟩ := this
    simpa using h
  have e2 : p.seq.1.drop (p.point + 1) = Z :: p.seq.1.drop (p.point + 2) := by
    rw [List.drop_eq_getElem_cons h1, h2]
  rw [← e2, ← e1, List.take_append_drop]

theorem last_of_next {p : Position T} {A : T} (ht : p.top = some A) (hn : p.next = none) :
    p.seq.1.getLast? = some A := by
  have h1 := List.getElem?_eq_none_iff.mp hn
  have h3 := top_lt ht
  rw [List.getLast?_eq_getElem?]
  have : p.seq.1.length - 1 = p.point + 0 := by omega
  rw [this]; exact ht

theorem follow_next (h : t.Of D S eof) {p : Position T} {A y : T}
    (hp : IsProd D p.rule p.seq.2 p.seq.1) (ht : p.top = some A) (hA : Nonterminal D A)
    (hy : Terminal D y) (hn : p.next = none → Tabler.Has t.follow p.rule y)
    (hf : ∀ Z, p.next = some Z → Z = y ∨ InFirst D Z y) : Tabler.Has t.follow A y := by
  rw [h.follow A y hy]
  cases hnx : p.next with
  | none =>
    have h1 := (h.follow p.rule y hy).mp (hn hnx)
    by_cases hAB : A = p.rule
    · rw [hAB]; exact h1
    · refine .cons (B := p.rule) (Or.inr ⟨p.rule, p.seq.2, p.seq.1, hp, Or.inr
        ⟨last_of_next ht hnx, hA, hAB, rfl⟩⟩) hp.not_terminal h1
  | some Z =>
    refine .base (Or.inr ⟨p.rule, p.seq.2, p.seq.1, hp, Or.inl ⟨Z, adj_of_next ht hnx, hA, ?_⟩⟩)
    by_cases hZ : Terminal D Z
    · left
      refine ⟨hZ, ?_⟩
      rcases hf Z hnx with rfl | ⟨v, hv⟩
      · rfl
      · have := derives_terminal hZ hv
        injection this with h1 _
    · have hN := not_terminal_iff.mp hZ
      right
      refine ⟨hN, (h.first Z y hN hy).mpr ?_⟩
      rcases hf Z hnx with rfl | hi
      · exact absurd hy hZ
      · exact hi

theorem Built.looks_slr {t : Tabler T}
    (h : Built t D S eof slrLook (fun p x => Tabler.Has t.follow p.rule x)) {b0 : List T}
    (hb : IsProd D S 0 b0) (he : Terminal D eof) :
    Looks D S eof b0 t.states (fun s x => t.kernels.get? (Tabler.symFilter s x))
      (fun p x => Tabler.Has t.follow p.rule x) := by
  have hbase : t.basisPos = { rule := S, seq := (b0, 0), point := 0, look := [eof] } := by
    obtain ⟨b, hb', he⟩ := h.basis_eq
    rw [he, hb'.unique hb]
  refine ⟨?_, ?_, ?_⟩
  · obtain ⟨s, hs, hclo⟩ := h.coll.start
    refine ⟨s, t.basisPos, hs, (hclo.mem _).mpr (.base (by simp)), ?_, ?_, ?_, ?_⟩ <;> rw [hbase]
    exact (h.of.follow S eof he).mpr (.base (Or.inl ⟨rfl, rfl⟩))
  · intro i j s s' p x hs hp ht hj hs'
    have hclo := h.next_clo hs hp ht hj hs'
    exact ⟨p.adv, (hclo.mem _).mpr (.base (mem_symFilter.mpr ⟨p, hp, ht, rfl⟩)), .refl _,
      fun y _ hy => hy⟩
  · intro i s p A k b y hs hp ht hprod hy hn hf
    have ha := adds_of_prod h.of.grammar (lk := slrLook t.first) ht hprod
    exact ⟨_, h.closed hs hp ha, rfl, rfl, rfl,
      follow_next h.of (h.prod hs hp).1 ht hprod.nonterminal hy hn hf⟩

end

/-! ### `Slr` and `Clr` tables are built -/

theorem of_ext {t t' : Tabler T} {D : Decls T} {S eof : T} (h : t.Of D S eof)
    (hg : t'.grammar = t.grammar) (h1 : t'.first = t.first) (h2 : t'.follow = t.follow) :
    t'.Of D S eof := by
  refine ⟨?_, h.noEmpty, ?_, ?_, ?_, ?_, ?_, ?_, ?_⟩
  · rw [hg]; exact h.grammar
  · rw [h1]; exact h.firstT
  · rw [h1]; exact h.first
  · rw [h1]; exact h.firstAny
  · rw [h2]; exact h.followT
  · rw [h2]; exact h.followKey
  · rw [h1, h2]; exact h.follow
  · rw [h1, h2]; exact h.followAny

/-- The universe of positions of a grammar. -/
def allPositions (t : Tabler T) : List (Position T) :=
  univ t.grammar.rules (looks t.first t.grammar.rules [t.basisPos.look])

theorem positions_closed {lk : Table T → Position T → OSet T} (hlk : LookFn lk) (t : Tabler T) :
    UClosed t.grammar.rules (lk t.first) (allPositions t) := by
  refine ⟨fun p hp q ha => adds_univ hlk hp ha, ?_⟩
  intro p hp X ht
  obtain ⟨r, h1, h2, h3, h4⟩ := mem_univ.mp hp
  exact mem_univ.mpr ⟨r, h1, h2, top_lt ht, h4⟩

theorem basis_mem_positions {t : Tabler T} {D : Decls T} {S eof : T} (h : t.Of D S eof) :
    t.basisPos ∈ allPositions t := by
  obtain ⟨b, hb, he⟩ := h.grammar.basis
  obtain ⟨r, h1, h2⟩ := h.grammar.of_isProd hb
  have he' : t.basisPos = _ := he
  refine mem_univ.mpr ⟨r, ?_, ?_, ?_, ?_⟩
  · rw [he']; exact OMap.mem_of_get? h1
  · rw [he']; exact h2
  · rw [he']; exact Nat.zero_le _
  · exact List.mem_cons_of_mem _ (by simp)

/-- Rows for a complete collection, and back. -/
theorem procRows_spec {t t' : Tabler T} {D : Decls T} {S eof : T}
    {lk : Table T → Position T → OSet T} {red : Position T → T → Prop}
    {decision : Position T → State T → Out (OMap T (Action T))} {defined : Position T → Prop}
    (hof : t.Of D S eof)
    (hc : Coll t.grammar.rules (lk t.first) t.basisPos t.grammar.symbols t)
    (hd : ∀ j, j < t.states.length → ∀ X ∈ t.grammar.symbols, Done t j X)
    (ha : t.actions = [])
    (hdec : IsDecision decision t.grammar S (fun K => t.kernels.get? K) red defined)
    (hdef : ∀ (i : Nat) s p, t.states[i]? = some s → p ∈ s → p.top = none → defined p)
    (h : procRows decision t = .ok t') :
    Built t' D S eof lk red ∧ t'.states = t.states ∧ t'.kernels = t.kernels ∧
      t'.follow = t.follow ∧ t'.first = t.first ∧ t'.grammar = t.grammar := by
  unfold procRows at h
  obtain ⟨rows, h1, h2⟩ := Out.bind_eq_ok.mp h
  cases h2
  obtain ⟨h3, h4⟩ := mapM_ok h1
  refine ⟨⟨of_ext hof rfl rfl rfl, ?_, ?_, ?_, ?_⟩, rfl, rfl, rfl, rfl, rfl⟩
  · exact ⟨hc.ksorted, hc.zero, hc.start, hc.zero_only, hc.kern, hc.surj, hc.inj, hc.len⟩
  · exact hd
  · simp [ha, h3]
  · intro i s row hs hr
    simp only [ha, List.nil_append] at hr
    obtain ⟨s', hs', hrow⟩ := h4 i row hr
    rw [hs] at hs'; cases hs'
    exact hdec.row_spec hrow (fun p hp ht => hdef i s p hs hp ht)

theorem procRows_total {t : Tabler T} {D : Decls T} {S eof : T}
    {lk : Table T → Position T → OSet T} {red : Position T → T → Prop}
    {decision : Position T → State T → Out (OMap T (Action T))} {defined : Position T → Prop}
    (hof : t.Of D S eof)
    (hc : Coll t.grammar.rules (lk t.first) t.basisPos t.grammar.symbols t)
    (hd : ∀ j, j < t.states.length → ∀ X ∈ t.grammar.symbols, Done t j X)
    (hdec : IsDecision decision t.grammar S (fun K => t.kernels.get? K) red defined)
    (hdef : ∀ (i : Nat) s p, t.states[i]? = some s → p ∈ s → p.top = none → defined p) :
    ∃ t', procRows decision t = .ok t' := by
  have hprod : ∀ (i : Nat) s, t.states[i]? = some s → ∀ p ∈ s, IsProd D p.rule p.seq.2 p.seq.1 := by
    refine hc.all ?_ ?_ ?_
    · obtain ⟨b, hb, he⟩ := hof.grammar.basis
      have he' : t.basisPos = _ := he
      rw [he']; exact hb
    · intro p q _ ha; exact (adds_prod hof.grammar ha).2.1
    · intro p X hP _; exact hP
  obtain ⟨rows, hrows⟩ := mapM_total (f := rowActions decision) (l := t.states) (by
    intro s hs
    obtain ⟨i, hi, hi'⟩ := List.getElem_of_mem hs
    have hs' : t.states[i]? = some s := List.getElem?_eq_some_iff.mpr ⟨hi, hi'⟩
    refine hdec.row_total ?_ (fun p hp ht => hdef i s p hs' hp ht)
    intro p hp x ht
    exact hd i hi x (hof.grammar.mem_symbols (hprod i s hs' p hp) (top_mem ht)) s hs')
  exact ⟨_, by unfold procRows; rw [hrows]; rfl⟩

theorem follow_defined {t : Tabler T} {D : Decls T} {S eof : T}
    {lk : Table T → Position T → OSet T} (hof : t.Of D S eof)
    (hc : Coll t.grammar.rules (lk t.first) t.basisPos t.grammar.symbols t) (i : Nat) (s : State T)
    (p : Position T) (hs : t.states[i]? = some s) (hp : p ∈ s) : Tabler.Key t.follow p.rule := by
  obtain ⟨b, hb, he⟩ := hof.grammar.basis
  have he' : t.basisPos = _ := he
  refine (hc.all (P := fun p => IsProd D p.rule p.seq.2 p.seq.1 ∧ Tabler.Key t.follow p.rule)
    ?_ ?_ ?_ i s hs p hp).2
  · rw [he']; exact ⟨hb, (hof.followKey S).mpr (Or.inl rfl)⟩
  · rintro p q ⟨hP, hK⟩ ha
    obtain ⟨h1, h2, _⟩ := adds_prod hof.grammar ha
    refine ⟨h2, (hof.followKey _).mpr ?_⟩
    have hN := h2.nonterminal
    cases hn : p.next with
    | none =>
      by_cases hqp : q.rule = p.rule
      · rw [hqp]; exact (hof.followKey _).mp hK
      · exact Or.inr ⟨p.rule, p.seq.2, p.seq.1, hP, Or.inr ⟨last_of_next h1 hn, hN, hqp⟩⟩
    | some Z =>
      exact Or.inr ⟨p.rule, p.seq.2, p.seq.1, hP, Or.inl ⟨Z, adj_of_next h1 hn, hN⟩⟩
  · intro p X hP _; exact hP

theorem basis_rule {t : Tabler T} {D : Decls T} {S eof : T} (h : t.Of D S eof) :
    t.basisPos.rule = S := by
  obtain ⟨b, hb, he⟩ := h.grammar.basis
  have he' : t.basisPos = _ := he
  rw [he']

theorem procRows_le (t : Tabler T) (decision : Position T → State T → Out (OMap T (Action T))) :
    Out.Le (procRows decision t) (procRows decision t) := .refl _

theorem Slr.withTable_le {dbg : Bool} {n m : Nat} (h : n ≤ m) (t : Tabler T) :
    Out.Le (Slr.withTable dbg n t) (Slr.withTable dbg m t) := by
  unfold Slr.withTable
  exact Out.Le.bind (procClosures_le h t) (fun _ => .refl _)

theorem Clr.withTable_le {dbg : Bool} {n m : Nat} (h : n ≤ m) (t : Tabler T) :
    Out.Le (Clr.withTable dbg n t) (Clr.withTable dbg m t) := by
  unfold Clr.withTable
  exact Out.Le.bind (procClosures_le h t) (fun _ => .refl _)

theorem Slr.withTable_total {t : Tabler T} {D : Decls T} {S eof : T} (dbg : Bool)
    (hof : t.Of D S eof) (hs : t.states = []) (hk : t.kernels = []) (ha : t.actions = []) :
    ∃ n t', Slr.withTable dbg n t = .ok t' ∧
      Built t' D S eof slrLook (fun p x => Tabler.Has t'.follow p.rule x) ∧
      t'.grammar = t.grammar ∧ t'.first = t.first ∧ t'.follow = t.follow := by
  obtain ⟨n, t1, h1, h2, h3, h4, h5, h6, _, h7⟩ := procClosures_total Slr.isClosureFn (dbg := dbg)
    hs hk (basis_mem_positions hof) (positions_closed (Or.inl rfl) t)
  have hof1 := of_ext hof h2 h3 h4
  have hc : Coll t1.grammar.rules (slrLook t1.first) t1.basisPos t1.grammar.symbols t1 := by
    have hb : t1.basisPos = t.basisPos := by unfold Tabler.basisPos; rw [h2]
    rw [h2, h3, hb]; exact h6
  have hd : ∀ j, j < t1.states.length → ∀ X ∈ t1.grammar.symbols, Done t1 j X := by
    rw [h2]; exact h7
  have hdec := Slr.isDecision t1 t1.basisPos.rule
  rw [basis_rule hof1] at hdec
  have hdef : ∀ (i : Nat) s p, t1.states[i]? = some s → p ∈ s → p.top = none →
      Tabler.Key t1.follow p.rule := fun i s p hs hp _ => follow_defined hof1 hc i s p hs hp
  obtain ⟨t2, h8⟩ := procRows_total (lk := slrLook) hof1 hc hd hdec hdef
  obtain ⟨k1, k2, k3, k4, k5, k6⟩ := procRows_spec (lk := slrLook) hof1 hc hd (by rw [h5, ha]) hdec hdef h8
  refine ⟨n, t2, ?_, ?_, k6.trans h2, k5.trans h3, k4.trans h4⟩
  · unfold Slr.withTable
    rw [h1, Out.ok_bind, basis_rule hof1]; exact h8
  · rw [k4]; exact k1

theorem Clr.withTable_total {t : Tabler T} {D : Decls T} {S eof : T} (dbg : Bool)
    (hof : t.Of D S eof) (hs : t.states = []) (hk : t.kernels = []) (ha : t.actions = []) :
    ∃ n t', Clr.withTable dbg n t = .ok t' ∧ Built t' D S eof clrLook (fun p x => x ∈ p.look) ∧
      t'.grammar = t.grammar ∧ t'.first = t.first ∧ t'.follow = t.follow := by
  obtain ⟨n, t1, h1, h2, h3, h4, h5, h6, _, h7⟩ := procClosures_total Clr.isClosureFn (dbg := dbg)
    hs hk (basis_mem_positions hof) (positions_closed (Or.inr rfl) t)
  have hof1 := of_ext hof h2 h3 h4
  have hc : Coll t1.grammar.rules (clrLook t1.first) t1.basisPos t1.grammar.symbols t1 := by
    have hb : t1.basisPos = t.basisPos := by unfold Tabler.basisPos; rw [h2]
    rw [h2, h3, hb]; exact h6
  have hd : ∀ j, j < t1.states.length → ∀ X ∈ t1.grammar.symbols, Done t1 j X := by
    rw [h2]; exact h7
  have hdec := Clr.isDecision t1 t1.basisPos.rule
  rw [basis_rule hof1] at hdec
  have hdef : ∀ (i : Nat) s p, t1.states[i]? = some s → p ∈ s → p.top = none → True :=
    fun _ _ _ _ _ _ => trivial
  obtain ⟨t2, h8⟩ := procRows_total (lk := clrLook) hof1 hc hd hdec hdef
  obtain ⟨k1, k2, k3, k4, k5, k6⟩ := procRows_spec (lk := clrLook) hof1 hc hd (by rw [h5, ha]) hdec hdef h8
  refine ⟨n, t2, ?_, k1, k6.trans h2, k5.trans h3, k4.trans h4⟩
  unfold Clr.withTable
  rw [h1, Out.ok_bind, basis_rule hof1]; exact h8

theorem Slr.new_le {dbg : Bool} {n m : Nat} (h : n ≤ m) (g : Grammar T) :
    Out.Le (Slr.new dbg n g) (Slr.new dbg m g) := by
  unfold Slr.new
  exact Out.Le.bind (Tabler.new_le h) (fun t => Slr.withTable_le h t)

theorem Clr.new_le {dbg : Bool} {n m : Nat} (h : n ≤ m) (g : Grammar T) :
    Out.Le (Clr.new dbg n g) (Clr.new dbg m g) := by
  unfold Clr.new
  exact Out.Le.bind (Tabler.new_le h) (fun t => Clr.withTable_le h t)

/-- Whatever `Slr::new` returns is a built table. -/
theorem Slr.built {dbg : Bool} {n : Nat} {g : Grammar T} {D : Decls T} {S eof : T}
    (hg : g.Of D S eof) {t : Tabler T} (h : Slr.new dbg n g = .ok t) :
    Built t D S eof slrLook (fun p x => Tabler.Has t.follow p.rule x) := by
  unfold Slr.new at h
  obtain ⟨t0, h1, h2⟩ := Out.bind_eq_ok.mp h
  obtain ⟨_, _, _, _, _, _, _, e1, e2, e3⟩ := Tabler.new_ok h1
  obtain ⟨m, t', h3, h4, _⟩ := Slr.withTable_total dbg (Tabler.of_new hg h1) e2 e3 e1
  have := Out.Le.agree (f := fun n => Slr.withTable dbg n t0) (fun h => Slr.withTable_le h t0) h2 h3
  rw [this]; exact h4

/-- Whatever `Clr::new` returns is a built table. -/
theorem Clr.built {dbg : Bool} {n : Nat} {g : Grammar T} {D : Decls T} {S eof : T}
    (hg : g.Of D S eof) {t : Tabler T} (h : Clr.new dbg n g = .ok t) :
    Built t D S eof clrLook (fun p x => x ∈ p.look) := by
  unfold Clr.new at h
  obtain ⟨t0, h1, h2⟩ := Out.bind_eq_ok.mp h
  obtain ⟨_, _, _, _, _, _, _, e1, e2, e3⟩ := Tabler.new_ok h1
  obtain ⟨m, t', h3, h4, _⟩ := Clr.withTable_total dbg (Tabler.of_new hg h1) e2 e3 e1
  have := Out.Le.agree (f := fun n => Clr.withTable dbg n t0) (fun h => Clr.withTable_le h t0) h2 h3
  rw [this]; exact h4

end Lrp
