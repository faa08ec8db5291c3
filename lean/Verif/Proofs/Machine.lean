import Verif.Proofs.Auto
import Verif.Model.Dfa

/-!
The parser at run time.  `Cfg` is the configuration of the automaton with a parse tree for every
item of the stack; `Move` is one iteration of the loop of `Dfa::trace`.  `travel_cases` says that
`Dfa::travel` does exactly that.
-/

set_option linter.unusedSectionVars false

namespace Lrp
open Spec
variable {T : Type} [LinOrd T] [DecidableEq T]

/-- State stack and tree stack (both top first), and the remaining input. -/
structure Conf (M T : Type) where
  states : List Nat
  trees : List (Tree M T)
  buf : List (Token M T)

/-- The symbol the parser looks at. -/
def lookSym {M : Type} (eof : T) (buf : List (Token M T)) : T :=
  match buf with
  | [] => eof
  | t :: _ => t.ty

/-- The cell of the table at a state and a symbol. -/
def cellAt (acts : ActTable T) (i : Nat) (x : T) : Option (Action T) :=
  (acts[i]?).bind (fun row => row.get? x)

/-- One iteration of `Dfa::trace` that neither stops nor accepts. -/
inductive Move {M : Type} (acts : ActTable T) (eof : T) : Conf M T → Conf M T → Prop
  | shift {i j : Nat} {st : List Nat} {trs : List (Tree M T)} {tok : Token M T}
      {rest : List (Token M T)} :
      cellAt acts i tok.ty = some (.shift j) →
      Move acts eof ⟨i :: st, trs, tok :: rest⟩ ⟨j :: i :: st, .leaf tok :: trs, rest⟩
  | reduce {i i' j k : Nat} {st : List Nat} {trs : List (Tree M T)} {buf : List (Token M T)} {A : T}
      {b : List T} :
      cellAt acts i (lookSym eof buf) = some (.reduce A (b, k)) →
      b.length ≤ trs.length → (i :: st)[b.length]? = some i' →
      cellAt acts i' A = some (.goto j) →
      Move acts eof ⟨i :: st, trs, buf⟩
        ⟨j :: (i :: st).drop b.length, .node A k (trs.take b.length).reverse :: trs.drop b.length, buf⟩

/-- The run accepts here. -/
def Accepts {M : Type} (acts : ActTable T) (eof : T) (c : Conf M T) : Prop :=
  ∃ i st, c.states = i :: st ∧ cellAt acts i eof = some .acc ∧ c.buf = []

/-- The run stops here with an error. -/
inductive Fails {M : Type} (acts : ActTable T) (eof : T) : Conf M T → Error T → Prop
  | noAction {i : Nat} {st : List Nat} {trs : List (Tree M T)} {buf : List (Token M T)}
      {row : OMap T (Action T)} :
      acts[i]? = some row → row.get? (lookSym eof buf) = none →
      Fails acts eof ⟨i :: st, trs, buf⟩ (.unexpectedToken (lookSym eof buf) row.keys)
  | eof {i j : Nat} {st : List Nat} {trs : List (Tree M T)} :
      cellAt acts i eof = some (.shift j) → Fails acts eof ⟨i :: st, trs, []⟩ .unexpectedEof
  | conflict {i : Nat} {st : List Nat} {trs : List (Tree M T)} {buf : List (Token M T)}
      {a b : Action T} :
      cellAt acts i (lookSym eof buf) = some (.conflict a b) →
      Fails acts eof ⟨i :: st, trs, buf⟩ (.conflict a b)
  | incomplete {i : Nat} {st : List Nat} {trs : List (Tree M T)} {buf : List (Token M T)} :
      cellAt acts i (lookSym eof buf) = some .acc → buf ≠ [] →
      Fails acts eof ⟨i :: st, trs, buf⟩ .incompleteExec
  | conflict' {i i' k : Nat} {st : List Nat} {trs : List (Tree M T)} {buf : List (Token M T)} {A : T}
      {b : List T} {a c : Action T} :
      cellAt acts i (lookSym eof buf) = some (.reduce A (b, k)) →
      b.length ≤ trs.length → (i :: st)[b.length]? = some i' →
      cellAt acts i' A = some (.conflict a c) →
      Fails acts eof ⟨i :: st, trs, buf⟩ (.conflict a c)

/-- Any number of moves. -/
inductive Moves {M : Type} (acts : ActTable T) (eof : T) : Conf M T → Conf M T → Prop
  | refl (c : Conf M T) : Moves acts eof c c
  | head {c d e : Conf M T} : Move acts eof c d → Moves acts eof d e → Moves acts eof c e

section
variable {M : Type} {acts : ActTable T} {eof : T}

theorem Moves.trans {c d e : Conf M T} (h : Moves acts eof c d) (h' : Moves acts eof d e) :
    Moves acts eof c e := by
  induction h with
  | refl => exact h'
  | head m _ ih => exact .head m (ih h')

theorem Moves.tail {c d e : Conf M T} (h : Moves acts eof c d) (m : Move acts eof d e) :
    Moves acts eof c e := h.trans (.head m (.refl _))

theorem Move.det {c d d' : Conf M T} (h : Move acts eof c d) (h' : Move acts eof c d') : d = d' := by
  cases h with
  | shift h1 =>
    cases h' with
    | shift h2 => rw [h1] at h2; cases h2; rfl
    | reduce h2 _ _ _ => simp only [lookSym] at h2; rw [h1] at h2; cases h2
  | reduce h1 h2 h3 h4 =>
    cases h' with
    | shift k1 => simp only [lookSym] at h1; rw [k1] at h1; cases h1
    | reduce k1 k2 k3 k4 =>
      rw [k1] at h1; cases h1
      rw [k3] at h3; cases h3
      rw [k4] at h4; cases h4
      rfl

theorem Accepts.no_move {c d : Conf M T} (h : Accepts acts eof c) (m : Move acts eof c d) : False := by
  obtain ⟨i, st, h1, h2, h3⟩ := h
  cases m with
  | shift m1 => simp at h3
  | reduce m1 m2 m3 m4 =>
    simp only at h1 h3; cases h1; subst h3
    simp only [lookSym] at m1; rw [m1] at h2; cases h2

theorem Fails.no_move {c d : Conf M T} {e : Error T} (h : Fails acts eof c e)
    (m : Move acts eof c d) : False := by
  cases h with
  | noAction h1 h2 =>
    cases m with
    | shift m1 =>
      simp only [cellAt, lookSym] at *; rw [h1] at m1; simp only [Option.bind_some] at m1
      rw [h2] at m1; cases m1
    | reduce m1 _ _ _ =>
      simp only [cellAt] at *; rw [h1] at m1; simp only [Option.bind_some] at m1
      rw [h2] at m1; cases m1
  | eof h1 =>
    cases m with
    | reduce m1 _ _ _ => simp only [lookSym] at m1; rw [h1] at m1; cases m1
  | conflict h1 =>
    cases m with
    | shift m1 => simp only [lookSym] at h1; rw [h1] at m1; cases m1
    | reduce m1 _ _ _ => rw [h1] at m1; cases m1
  | incomplete h1 _ =>
    cases m with
    | shift m1 => simp only [lookSym] at h1; rw [h1] at m1; cases m1
    | reduce m1 _ _ _ => rw [h1] at m1; cases m1
  | conflict' h1 h2 h3 h4 =>
    cases m with
    | shift m1 => simp only [lookSym] at h1; rw [h1] at m1; cases m1
    | reduce m1 m2 m3 m4 =>
      rw [h1] at m1; cases m1
      rw [h3] at m3; cases m3
      rw [h4] at m4; cases m4

/-- Runs are linear: two configurations reached from the same one are comparable. -/
theorem Moves.linear {c d e : Conf M T} (h : Moves acts eof c d) (h' : Moves acts eof c e) :
    Moves acts eof d e ∨ Moves acts eof e d := by
  induction h with
  | refl => exact Or.inl h'
  | head m hm ih =>
    cases h' with
    | refl => exact Or.inr (.head m hm)
    | head m' hm' =>
      have := m.det m'; subst this
      exact ih hm'

end

/-! ### Paths -/

/-- The state stack follows the edges of the automaton, spelling the given symbols. -/
inductive Path (states : List (State T)) (next : State T → T → Option Nat) :
    List Nat → List T → Prop
  | base : Path states next [0] []
  | cons {i j : Nat} {st : List Nat} {syms : List T} {s : State T} {p : Position T} {X : T} :
      Path states next (i :: st) syms → states[i]? = some s → p ∈ s → p.top = some X →
      next s X = some j → Path states next (j :: i :: st) (X :: syms)

section
variable {D : Decls T} {S : T} {b0 : List T} {states : List (State T)} {acts : ActTable T}
  {next : State T → T → Option Nat} {red : Position T → T → Prop}

theorem Path.length {st : List Nat} {syms : List T} (h : Path states next st syms) :
    st.length = syms.length + 1 := by
  induction h with
  | base => rfl
  | cons _ _ _ _ _ ih => simp [ih]

theorem Path.drop {st : List Nat} {syms : List T} (h : Path states next st syms) (k : Nat)
    (hk : k ≤ syms.length) : Path states next (st.drop k) (syms.drop k) := by
  induction h generalizing k with
  | base => simp at hk; subst hk; exact .base
  | cons h1 h2 h3 h4 h5 ih =>
    cases k with
    | zero => exact .cons h1 h2 h3 h4 h5
    | succ k => exact ih k (by simpa using hk)

/-- Every state on a path exists. -/
theorem Auto.path_state (h : Auto D S b0 states acts next red) {st : List Nat} {syms : List T}
    (hp : Path states next st syms) : ∃ i st' s, st = i :: st' ∧ states[i]? = some s := by
  cases hp with
  | base => exact ⟨0, [], _, rfl, List.getElem?_eq_getElem h.nonempty⟩
  | cons h1 h2 h3 h4 h5 =>
    obtain ⟨j, s', e1, _, e2, _⟩ := h.edge h2 h3 h4
    rw [h5] at e1; cases e1
    exact ⟨_, _, s', rfl, e2⟩

/-- Only the bottom of the stack is state 0. -/
theorem Auto.path_zero (h : Auto D S b0 states acts next red) {st : List Nat} {syms : List T}
    (hp : Path states next (0 :: st) syms) : syms = [] := by
  cases hp with
  | base => rfl
  | cons h1 h2 h3 h4 h5 =>
    obtain ⟨j, s', e1, e0, e2, _⟩ := h.edge h2 h3 h4
    rw [h5] at e1; cases e1
    exact absurd rfl e0

/-- The positions of the top state have their prefix on the stack, and stand at point 0 in the
state below it. -/
theorem Auto.path_items (h : Auto D S b0 states acts next red) {i : Nat} {st : List Nat}
    {syms : List T} (hp : Path states next (i :: st) syms) {s : State T} (hs : states[i]? = some s)
    {p : Position T} (hps : p ∈ s) :
    p.point ≤ syms.length ∧ (syms.take p.point).reverse = p.seq.1.take p.point ∧
      ∃ i' s' q, (i :: st)[p.point]? = some i' ∧ states[i']? = some s' ∧ q ∈ s' ∧
        q.rule = p.rule ∧ q.seq = p.seq ∧ q.point = 0 := by
  generalize hk : p.point = k
  induction k generalizing i st syms s p with
  | zero => exact ⟨Nat.zero_le _, by simp, i, s, p, by simp, hs, hps, rfl, rfl, hk⟩
  | succ k ih =>
    have hi : i ≠ 0 := by
      rintro rfl
      have := h.zero hs hps
      omega
    cases hp with
    | base => exact absurd rfl hi
    | @cons i0 _ st0 syms0 s0 p0 X h1 h2 h3 h4 h5 =>
      obtain ⟨j, s', e1, e0, e2, e3, _⟩ := h.edge h2 h3 h4
      rw [h5] at e1; cases e1
      rw [hs] at e2; cases e2
      obtain ⟨q, hq, hqt, hqb⟩ := e3 p hps (by omega)
      have hqp : q.point = k := by
        have := hqb.2.2
        rw [hk] at this
        have : k + 1 = q.point + 1 := this
        omega
      obtain ⟨r1, r2, i', s'', q', r3, r4, r5, r6, r7, r8⟩ := ih h1 h2 hq hqp
      refine ⟨by simpa using r1, ?_, i', s'', q', by simpa using r3, r4, r5, ?_, ?_, r8⟩
      · have e : p.seq = q.seq := hqb.2.1
        rw [e]
        have hlt := top_lt hqt
        have hx : q.seq.1[k]? = some X := by
          have : q.seq.1[q.point + 0]? = some X := hqt
          rw [hqp] at this; exact this
        rw [List.take_succ_cons, List.reverse_cons, r2, List.take_add_one, hx]
        rfl
      · exact r6.trans hqb.1.symm
      · exact r7.trans hqb.2.1.symm

/-- A position at point 0 that is not the basis was added for the symbol of its rule. -/
theorem Auto.pred (h : Auto D S b0 states acts next red) {i : Nat} {s : State T}
    (hs : states[i]? = some s) {p : Position T} (hp : p ∈ s) (h0 : p.point = 0) :
    (i = 0 ∧ p.rule = S ∧ p.seq = (b0, 0)) ∨ ∃ q ∈ s, q.top = some p.rule := by
  cases h.prov hs hp with
  | kernel _ hk => omega
  | basis hi _ h1 h2 _ => exact Or.inl ⟨hi, h1, h2⟩
  | step hq ht _ _ => exact Or.inr ⟨_, hq.mem, ht⟩

/-- A plain cell holds its only decision. -/
theorem Auto.cell_dec (h : Auto D S b0 states acts next red) {i : Nat} {s : State T}
    (hs : states[i]? = some s) {x : T} {a : Action T} (hc : cellAt acts i x = some a)
    (hp : Plain a) : Dec D S (next s) red s x a := by
  unfold cellAt at hc
  obtain ⟨row, hr, hc⟩ := Option.bind_eq_some_iff.mp hc
  exact (((h.cell hs hr).2 x).among a hc a).mp (.here hp)

theorem among_eq {a c : Action T} (h : Among a c) : a = c ∨ ∃ x y, c = .conflict x y := by
  cases h with
  | here _ => exact Or.inl rfl
  | left _ => exact Or.inr ⟨_, _, rfl⟩
  | right _ => exact Or.inr ⟨_, _, rfl⟩

/-- A decision is in its cell, unless there is a conflict. -/
theorem Auto.dec_cell (h : Auto D S b0 states acts next red) {i : Nat} {s : State T}
    (hs : states[i]? = some s) {x : T} {a : Action T} (hd : Dec D S (next s) red s x a) :
    cellAt acts i x = some a ∨ ∃ b c, cellAt acts i x = some (.conflict b c) := by
  have hi : i < acts.length := by rw [h.len]; exact (List.getElem?_eq_some_iff.mp hs).1
  have hr : acts[i]? = some acts[i] := List.getElem?_eq_getElem hi
  have hc := (h.cell hs hr).2 x
  unfold cellAt
  rw [hr, Option.bind_some]
  cases hg : (acts[i]).get? x with
  | none => exact absurd hd (hc.empty.mp hg a)
  | some c =>
    rcases among_eq ((hc.among c hg a).mpr hd) with rfl | ⟨y, z, rfl⟩
    · exact Or.inl rfl
    · exact Or.inr ⟨y, z, rfl⟩

/-- The invariant of runs. -/
structure InvC {M : Type} (D : Decls T) (states : List (State T)) (next : State T → T → Option Nat)
    (c : Conf M T) : Prop where
  path : Path states next c.states (c.trees.map Tree.root)
  valid : ∀ t ∈ c.trees, Tree.Valid D t

/-- What a reduction finds on the stack. -/
theorem Auto.reduce_stack {M : Type} (h : Auto D S b0 states acts next red) {eof : T} {i k : Nat}
    {st : List Nat} {trs : List (Tree M T)} {buf : List (Token M T)} {A : T} {b : List T}
    (hi : InvC D states next ⟨i :: st, trs, buf⟩)
    (hc : cellAt acts i (lookSym eof buf) = some (.reduce A (b, k))) :
    IsProd D A k b ∧ A ≠ S ∧ b.length ≤ trs.length ∧
      ((trs.take b.length).reverse).map Tree.root = b ∧
      ∃ i' s' q j, (i :: st)[b.length]? = some i' ∧ states[i']? = some s' ∧ q ∈ s' ∧
        q.top = some A ∧ next s' A = some j ∧
        (cellAt acts i' A = some (.goto j) ∨ ∃ a c, cellAt acts i' A = some (.conflict a c)) := by
  obtain ⟨i0, st0, s, e, hs⟩ := h.path_state hi.path
  cases e
  have hd := h.cell_dec hs hc (by intro x y; simp)
  rcases hd with ⟨p, _, _, j, _, hk⟩ | ⟨p, hp, ht, _, hk⟩
  · rcases hk with ⟨_, hk⟩ | ⟨_, hk⟩ <;> cases hk
  · rcases hk with ⟨_, hk⟩ | ⟨hne, hk⟩
    · cases hk
    · have hA : A = p.rule := by injection hk
      have hseq : (b, k) = p.seq := by injection hk
      have hprod := h.prod hs hp
      have hpt : p.point = b.length := by
        have := top_none ht
        have := hprod.2
        rw [← hseq] at *
        simp only at *
        omega
      obtain ⟨r1, r2, i', s', q, r3, r4, r5, r6, r7, r8⟩ := h.path_items hi.path hs hp
      rw [hpt] at r1 r2 r3
      have hb : p.seq.1 = b := by rw [← hseq]
      have hk' : p.seq.2 = k := by rw [← hseq]
      rw [hb, List.take_length] at r2
      simp only [List.length_map] at r1
      rw [hA, ← hk', ← hb]
      refine ⟨hprod.1, hne, by rw [hb]; exact r1, ?_, i', s', ?_⟩
      · rw [hb, List.map_reverse, List.map_take]; exact r2
      · rcases h.pred r4 r5 r8 with ⟨_, hS, _⟩ | ⟨q', hq', ht'⟩
        · exact absurd (r6.symm.trans hS) hne
        · rw [r6] at ht'
          obtain ⟨j, s'', e1, _, _, _⟩ := h.edge r4 hq' ht'
          refine ⟨q', j, by rw [hb]; exact r3, r4, hq', ht', e1, ?_⟩
          exact h.dec_cell r4 (Or.inl ⟨q', hq', ht', j, e1, Or.inr ⟨hprod.1.nonterminal, rfl⟩⟩)

theorem Auto.inv_move {M : Type} (h : Auto D S b0 states acts next red) {eof : T} {c c' : Conf M T}
    (hi : InvC D states next c) (hm : Move acts eof c c') : InvC D states next c' := by
  cases hm with
  | @shift i j st trs tok rest hc =>
    obtain ⟨i0, st0, s, e, hs⟩ := h.path_state hi.path
    cases e
    rcases h.cell_dec hs hc (by intro x y; simp) with ⟨p, hp, ht, j', hj, hk⟩ | ⟨p, _, _, _, hk⟩
    · rcases hk with ⟨hT, hk⟩ | ⟨_, hk⟩
      · cases hk
        refine ⟨.cons hi.path hs hp ht hj, ?_⟩
        intro t ht
        rcases List.mem_cons.mp ht with rfl | ht
        · exact .leaf hT
        · exact hi.valid t ht
      · cases hk
    · rcases hk with ⟨_, hk⟩ | ⟨_, hk⟩ <;> cases hk
  | @reduce i i' j k st trs buf A b hc h1 h2 h3 =>
    obtain ⟨r1, r2, r3, r4, i'', s', q, j', r5, r6, r7, r8, r9, r10⟩ := h.reduce_stack hi hc
    rw [h2] at r5; cases r5
    have hj : j' = j := by
      rcases r10 with r | ⟨a, c, r⟩
      · rw [h3] at r; cases r; rfl
      · rw [h3] at r; cases r
    subst hj
    have hdrop : (i :: st).drop b.length = i' :: (i :: st).drop (b.length + 1) := by
      obtain ⟨hlt, he⟩ := List.getElem?_eq_some_iff.mp h2
      rw [List.drop_eq_getElem_cons hlt, he]
    have hpath := hi.path.drop b.length (by simpa using r3)
    refine ⟨?_, ?_⟩
    · show Path states next (j' :: (i :: st).drop b.length) (List.map Tree.root (_ :: trs.drop b.length))
      rw [List.map_cons, List.map_drop, hdrop]
      simp only [hdrop] at hpath
      exact .cons hpath r6 r7 r8 r9
    · intro t ht
      rcases List.mem_cons.mp ht with rfl | ht
      · refine .node (by rw [r4]; exact r1) (fun c hc => hi.valid c ?_)
        exact List.mem_of_mem_take (List.mem_reverse.mp hc)
      · exact hi.valid t (List.mem_of_mem_drop ht)

theorem Auto.inv_moves {M : Type} (h : Auto D S b0 states acts next red) {eof : T} {c c' : Conf M T}
    (hi : InvC D states next c) (hm : Moves acts eof c c') : InvC D states next c' := by
  induction hm with
  | refl => exact hi
  | head m _ ih => exact ih (h.inv_move hi m)

theorem inv_init {M : Type} (D : Decls T) (states : List (State T)) (next : State T → T → Option Nat)
    (buf : List (Token M T)) : InvC D states next ⟨[0], [], buf⟩ :=
  ⟨.base, by simp⟩

/-- Moves keep the leaves followed by the rest of the input. -/
theorem Move.yields {M : Type} {eof : T} {c c' : Conf M T} (hm : Move acts eof c c') :
    Tree.yields c'.trees.reverse ++ c'.buf = Tree.yields c.trees.reverse ++ c.buf := by
  cases hm with
  | shift h1 => simp [Tree.yields_singleton]
  | @reduce i i' j k st trs buf A b h1 h2 h3 h4 =>
    simp only [List.reverse_cons, Tree.yields_append, Tree.yields_singleton, Tree.yield_node]
    rw [← Tree.yields_append, ← List.reverse_append, List.take_append_drop]

theorem Moves.yields {M : Type} {eof : T} {c c' : Conf M T} (hm : Moves acts eof c c') :
    Tree.yields c'.trees.reverse ++ c'.buf = Tree.yields c.trees.reverse ++ c.buf := by
  induction hm with
  | refl => rfl
  | head m _ ih => rw [ih, m.yields]

/-- An accepting configuration holds exactly the children of a parse tree for the start symbol. -/
theorem Auto.accepts {M : Type} (h : Auto D S b0 states acts next red) {eof : T} {c : Conf M T}
    (hS : InNoBody D S) (hi : InvC D states next c) (ha : Accepts acts eof c) :
    Tree.Valid D (.node S 0 c.trees.reverse) ∧ c.trees.length = b0.length := by
  obtain ⟨i, st, e, hc, _⟩ := ha
  obtain ⟨sts, trs, buf⟩ := c
  simp only at e; subst e
  obtain ⟨i0, st0, s, e, hs⟩ := h.path_state hi.path
  cases e
  rcases h.cell_dec hs hc (by intro x y; simp) with ⟨p, _, _, j, _, hk⟩ | ⟨p, hp, ht, _, hk⟩
  · rcases hk with ⟨_, hk⟩ | ⟨_, hk⟩ <;> cases hk
  · rcases hk with ⟨hpS, _⟩ | ⟨_, hk⟩
    · have hprod := h.prod hs hp
      have hpt : p.point = p.seq.1.length := Nat.le_antisymm hprod.2 (top_none ht)
      obtain ⟨r1, r2, i', s', q, r3, r4, r5, r6, r7, r8⟩ := h.path_items hi.path hs hp
      rcases h.pred r4 r5 r8 with ⟨rfl, _, h2⟩ | ⟨q', hq', ht'⟩
      · rw [r7] at h2
        rw [hpt, h2] at r1 r2 r3
        simp only at r1 r2 r3
        have hpath := hi.path.drop b0.length r1
        have hdrop : (i :: st).drop b0.length = 0 :: (i :: st).drop (b0.length + 1) := by
          obtain ⟨hlt, he⟩ := List.getElem?_eq_some_iff.mp r3
          rw [List.drop_eq_getElem_cons hlt, he]
        simp only [hdrop] at hpath
        have hnil := h.path_zero hpath
        simp only [List.drop_eq_nil_iff, List.length_map] at hnil r1
        have hlen : trs.length = b0.length := Nat.le_antisymm hnil r1
        refine ⟨.node ?_ ?_, hlen⟩
        · rw [List.take_length] at r2
          rw [List.map_reverse]
          rw [← hlen, ← List.length_map (f := Tree.root), List.take_length] at r2
          rw [r2]; exact h.start
        · intro c hc; exact hi.valid c (List.mem_reverse.mp hc)
      · rw [r6, hpS] at ht'
        exact absurd (top_mem ht') (hS _ _ _ (h.prod r4 hq').1)
    · cases hk

end

end Lrp
