import Verif.Proofs.Machine
import Verif.Spec.Run

/-! The run of `Dfa` (src/dfa.rs) follows the moves of Proofs/Machine.lean. -/

set_option linter.unusedSectionVars false

namespace Lrp
open Spec
variable {T : Type} [LinOrd T] [DecidableEq T] {M : Type}

/-- The value of a tree with the symbol of its root. -/
def valTok (red : T → Nat → List (Token M T) → Option M) (t : Tree M T) : Option (Token M T) :=
  (t.eval red).map (fun v => ⟨v, t.root⟩)

theorem evals_iff {red : T → Nat → List (Token M T) → Option M} {cs : List (Tree M T)}
    {its : List (Token M T)} : Tree.evals red cs = some its ↔ cs.map (valTok red) = its.map some := by
  induction cs generalizing its with
  | nil => cases its <;> simp [Tree.evals]
  | cons c cs ih =>
    unfold Tree.evals
    cases hc : c.eval red with
    | none => cases its <;> simp [valTok, hc]
    | some v =>
      cases hcs : Tree.evals red cs with
      | none =>
        cases its with
        | nil => simp
        | cons it its =>
          simp only [reduceCtorEq, List.map_cons, List.cons.injEq, false_iff, not_and]
          intro _ h
          rw [← ih, hcs] at h; cases h
      | some vs =>
        cases its with
        | nil => simp
        | cons it its =>
          simp only [Option.some.injEq, List.cons.injEq, List.map_cons, valTok, hc, Option.map_some]
          rw [← ih, hcs, Option.some.injEq]

/-- The `Dfa` and the configuration agree. -/
structure Sim (acts : ActTable T) (eof : T) (maps : ReductMap M T) (d : Dfa M T) (c : Conf M T) :
    Prop where
  buffer : d.buffer = c.buf
  states : d.states = c.states
  top : c.states.head? = some d.top
  table : d.table = acts
  eof : d.eof = eof
  reductors : d.reductors = maps
  finished : d.finished = false
  items : c.trees.map (valTok (redOf maps)) = d.items.map some

theorem Sim.symbol {acts : ActTable T} {eof : T} {maps : ReductMap M T} {d : Dfa M T} {c : Conf M T}
    (h : Sim acts eof maps d c) : d.symbol = lookSym eof c.buf := by
  unfold Dfa.symbol lookSym
  rw [h.buffer, h.eof]
  cases c.buf <;> rfl

theorem Sim.tys {acts : ActTable T} {eof : T} {maps : ReductMap M T} {d : Dfa M T} {c : Conf M T}
    (h : Sim acts eof maps d c) : d.items.map Token.ty = c.trees.map Tree.root := by
  have h := h.items
  generalize c.trees = trs at h
  generalize d.items = its at h
  induction trs generalizing its with
  | nil => cases its <;> simp at h ⊢
  | cons t ts ih =>
    cases its with
    | nil => simp at h
    | cons it its =>
      simp only [List.map_cons, List.cons.injEq] at h ⊢
      refine ⟨?_, ih its h.2⟩
      have h1 := h.1
      unfold valTok at h1
      obtain ⟨v, _, h3⟩ := Option.map_eq_some_iff.mp h1
      rw [← h3]

theorem sim_init (acts : ActTable T) (eof : T) (maps : ReductMap M T) (buf : List (Token M T)) :
    Sim acts eof maps (Dfa.new buf acts maps eof) ⟨[0], [], buf⟩ :=
  ⟨rfl, rfl, rfl, rfl, rfl, rfl, rfl, rfl⟩

/-! ### Fuel -/

theorem Dfa.travel_le {n m : Nat} (h : n ≤ m) (d : Dfa M T) (x : T) :
    Out.Le (Dfa.travel n d x) (Dfa.travel m d x) := by
  induction n generalizing m d x with
  | zero => exact .fuel _
  | succ n ih =>
    obtain ⟨m, rfl⟩ : ∃ k, m = k + 1 := ⟨m - 1, by omega⟩
    unfold Dfa.travel
    split
    · exact .refl _
    · split
      · exact .refl _
      · exact .refl _
      · exact .refl _
      · exact Out.Le.bind (.refl _) (fun d => ih (by omega) d _)
      · exact .refl _
      · exact .refl _

theorem Dfa.trace_le {f : Dfa M T → Dfa M T} {tn tm n m : Nat} (ht : tn ≤ tm) (h : n ≤ m)
    (d : Dfa M T) : Out.Le (Dfa.trace f tn n d) (Dfa.trace f tm m d) := by
  induction n generalizing m d with
  | zero => exact .fuel _
  | succ n ih =>
    obtain ⟨m, rfl⟩ : ∃ k, m = k + 1 := ⟨m - 1, by omega⟩
    unfold Dfa.trace
    split
    · exact .refl _
    · refine Out.Le.bind (Dfa.travel_le ht _ _) (fun r => ?_)
      obtain ⟨d', e | u⟩ := r
      · exact .refl _
      · exact ih (by omega) d'

theorem Dfa.start_le {n m : Nat} (h : n ≤ m) (d : Dfa M T) :
    Out.Le (Dfa.start n d) (Dfa.start m d) := Dfa.trace_le h h d

/-! ### One iteration -/

section
variable {D : Decls T} {S : T} {b0 : List T} {states : List (State T)} {acts : ActTable T}
  {next : State T → T → Option Nat} {red : Position T → T → Prop} {eof : T} {maps : ReductMap M T}

theorem cellAt_none {i : Nat} {x : T} {row : OMap T (Action T)} (hr : acts[i]? = some row) :
    cellAt acts i x = row.get? x := by
  unfold cellAt; rw [hr]; rfl

/-- The rows of states on a path exist. -/
theorem Auto.row (h : Auto D S b0 states acts next red) {i : Nat} {s : State T}
    (hs : states[i]? = some s) : ∃ row, acts[i]? = some row := by
  have hi : i < acts.length := by rw [h.len]; exact (List.getElem?_eq_some_iff.mp hs).1
  exact ⟨_, List.getElem?_eq_getElem hi⟩

/-- A reductor is missing, or panics on the values of the children of a parse tree of a piece of the
input. -/
def RedFails (D : Decls T) (maps : ReductMap M T) (w : List (Token M T)) (p : Panic) : Prop :=
  (p = .missingReductor ∨ p = .reductorPanic) ∧
  ∃ A k cs its, Tree.Valid D (.node A k cs) ∧ Tree.yields cs <:+: w ∧
    Tree.evals (redOf maps) cs = some its ∧ its.map Token.ty = cs.map Tree.root ∧
    redOf maps A k its = none

/-- The run is about to reduce, and the reductor fails on the values of the trees on the stack. -/
def RedAt (acts : ActTable T) (eof : T) (maps : ReductMap M T) (c : Conf M T) : Prop :=
  ∃ i st A b k its, c.states = i :: st ∧
    cellAt acts i (lookSym eof c.buf) = some (.reduce A (b, k)) ∧
    Tree.evals (redOf maps) (c.trees.take b.length).reverse = some its ∧ redOf maps A k its = none

/-- All the input of a configuration: what the trees on the stack cover, and the rest. -/
def Conf.all (c : Conf M T) : List (Token M T) := Tree.yields c.trees.reverse ++ c.buf

/-- `reduceStacks` does the reduction of `Move.reduce`. -/
theorem Auto.reduceStacks_cases (h : Auto D S b0 states acts next red) {d : Dfa M T} {i k : Nat}
    {st : List Nat} {trs : List (Tree M T)} {buf : List (Token M T)} {A : T} {b : List T}
    (hi : InvC D states next ⟨i :: st, trs, buf⟩) (hd : Sim acts eof maps d ⟨i :: st, trs, buf⟩)
    (hc : cellAt acts i (lookSym eof buf) = some (.reduce A (b, k))) :
    (∃ p, d.reduceStacks A (b, k) = .panic p ∧
      RedFails D maps (Conf.all ⟨i :: st, trs, buf⟩) p ∧ RedAt acts eof maps ⟨i :: st, trs, buf⟩) ∨
    ∃ d' i' v, d.reduceStacks A (b, k) = .ok d' ∧ (i :: st)[b.length]? = some i' ∧ d'.top = i' ∧
      d'.states = (i :: st).drop b.length ∧
      d' = { d with items := ⟨v, A⟩ :: d.items.drop b.length, top := i',
                    states := (i :: st).drop b.length } ∧
      valTok (redOf maps) (.node A k (trs.take b.length).reverse) = some ⟨v, A⟩ := by
  obtain ⟨r1, r2, r3, r4, i', s', q, j, r5, r6, _, _, _, _⟩ := h.reduce_stack hi hc
  have hlen : trs.length = d.items.length := by
    have := congrArg List.length hd.items; simpa using this
  have hits : (trs.take b.length).reverse.map (valTok (redOf maps)) =
      ((d.items.take b.length).reverse).map some := by
    rw [List.map_reverse, List.map_reverse, List.map_take, List.map_take, hd.items]
  have hty : ((d.items.take b.length).reverse).map Token.ty = b := by
    rw [List.map_reverse, List.map_take, hd.tys, ← List.map_take, ← List.map_reverse, r4]
  have hev := evals_iff.mpr hits
  have hfail : redOf maps A k (d.items.take b.length).reverse = none →
      ∃ A k cs its, Tree.Valid D (.node A k cs) ∧
        Tree.yields cs <:+: Conf.all ⟨i :: st, trs, buf⟩ ∧
        Tree.evals (redOf maps) cs = some its ∧ its.map Token.ty = cs.map Tree.root ∧
        redOf maps A k its = none := by
    intro hn
    refine ⟨A, k, (trs.take b.length).reverse, _, .node (by rw [r4]; exact r1) ?_, ?_, hev, ?_, hn⟩
    · intro t ht
      exact hi.valid t (List.mem_of_mem_take (List.mem_reverse.mp ht))
    · refine ⟨Tree.yields (trs.drop b.length).reverse, buf, ?_⟩
      rw [← Tree.yields_append, ← List.reverse_append, List.take_append_drop]
      rfl
    · rw [hty, r4]
  have hat : redOf maps A k (d.items.take b.length).reverse = none →
      RedAt acts eof maps ⟨i :: st, trs, buf⟩ := fun hn => ⟨i, st, A, b, k, _, rfl, hc, hev, hn⟩
  have hasrt : Out.assert .itemsUnderflow (decide (b.length ≤ d.items.length)) = .ok () := by
    rw [← hlen]; simp [r3]
  unfold Dfa.reduceStacks
  simp only [hasrt, Out.ok_bind]
  have hst : d.states = i :: st := hd.states
  cases hm : d.reductors.get? A with
  | none =>
    left
    have hn : redOf maps A k (d.items.take b.length).reverse = none := by
      unfold redOf; rw [← hd.reductors, hm]; rfl
    exact ⟨.missingReductor, by simp, ⟨Or.inl rfl, hfail hn⟩, hat hn⟩
  | some fs =>
    simp only [Out.ofOption_some, Out.ok_bind]
    cases hf : fs[k]? with
    | none =>
      left
      have hn : redOf maps A k (d.items.take b.length).reverse = none := by
        unfold redOf; rw [← hd.reductors, hm]; simp [hf]
      exact ⟨.missingReductor, by simp, ⟨Or.inl rfl, hfail hn⟩, hat hn⟩
    | some f =>
      simp only [Out.ofOption_some, Out.ok_bind]
      cases hv : f (d.items.take b.length).reverse with
      | none =>
        left
        have hn : redOf maps A k (d.items.take b.length).reverse = none := by
          unfold redOf; rw [← hd.reductors, hm]; simp [hf, hv]
        exact ⟨.reductorPanic, by simp, ⟨Or.inr rfl, hfail hn⟩, hat hn⟩
      | some v =>
        right
        simp only [Out.ofOption_some, Out.ok_bind, hst, r5]
        refine ⟨_, i', v, rfl, rfl, rfl, rfl, rfl, ?_⟩
        unfold valTok
        rw [Tree.eval, hev]
        simp only [Option.bind_some, redOf, ← hd.reductors, hm, hf, hv, Option.map_some]
        rfl

/-- One iteration of the loop of `Dfa::trace` from a configuration whose next symbol is a terminal. -/
theorem Auto.travel_cases (h : Auto D S b0 states acts next red) {d : Dfa M T} {c : Conf M T}
    (hi : InvC D states next c) (hd : Sim acts eof maps d c) (hT : Terminal D (lookSym eof c.buf))
    {n : Nat} (hn : 2 ≤ n) :
    (∃ c' d', Move acts eof c c' ∧ Sim acts eof maps d' c' ∧
      Dfa.travel n d d.symbol = .ok (d', .ok ())) ∨
    (Accepts acts eof c ∧ Dfa.travel n d d.symbol = .ok ({ d with finished := true }, .ok ())) ∨
    (∃ d' e, Fails acts eof c e ∧ Dfa.travel n d d.symbol = .ok (d', .error e)) ∨
    (∃ p, (RedFails D maps c.all p ∧ RedAt acts eof maps c) ∧
      Dfa.travel n d d.symbol = .panic p) := by
  obtain ⟨n, rfl⟩ : ∃ k, n = k + 2 := ⟨n - 2, by omega⟩
  obtain ⟨sts, trs, buf⟩ := c
  obtain ⟨i, st, s, e, hs⟩ := h.path_state hi.path
  simp only at e; subst e
  obtain ⟨row, hr⟩ := h.row hs
  have htop : d.top = i := by have := hd.top; simp at this; exact this.symm
  have htab : d.table[d.top]? = some row := by rw [hd.table, htop]; exact hr
  rw [hd.symbol]
  unfold Dfa.travel
  rw [htab]
  simp only
  have hcell : ∀ x, cellAt acts i x = row.get? x := fun x => cellAt_none hr
  cases hg : row.get? (lookSym eof buf) with
  | none =>
    right; right; left
    exact ⟨d, _, .noAction hr hg, rfl⟩
  | some a =>
    have hc : cellAt acts i (lookSym eof buf) = some a := by rw [hcell]; exact hg
    cases a with
    | shift j =>
      cases hb : buf with
      | nil =>
        right; right; left
        subst hb
        refine ⟨d, .unexpectedEof, .eof hc, ?_⟩
        have : d.buffer = [] := hd.buffer
        simp [Dfa.shift, this]
      | cons tok rest =>
        left
        subst hb
        have : d.buffer = tok :: rest := hd.buffer
        refine ⟨_, (d.shift j).1, .shift hc, ?_, by simp [Dfa.shift, this]⟩
        simp only [Dfa.shift, this]
        refine ⟨rfl, by simp [hd.states], rfl, hd.table, hd.eof, hd.reductors, hd.finished, ?_⟩
        simp [hd.items, valTok, Tree.eval, Tree.root]
    | goto j =>
      exfalso
      rcases h.cell_dec hs hc (by intro x y; simp) with ⟨p, _, _, j, _, hk⟩ | ⟨p, _, _, _, hk⟩
      · rcases hk with ⟨_, hk⟩ | ⟨hN, _⟩
        · cases hk
        · exact not_terminal_iff.mpr hN hT
      · rcases hk with ⟨_, hk⟩ | ⟨_, hk⟩ <;> cases hk
    | acc =>
      cases hb : buf with
      | nil =>
        right; left
        subst hb
        have : d.buffer = [] := hd.buffer
        refine ⟨⟨i, st, rfl, hc, rfl⟩, ?_⟩
        simp [Dfa.accept, this]
      | cons tok rest =>
        right; right; left
        have hb' : d.buffer = tok :: rest := hd.buffer.trans hb
        refine ⟨{ d with finished := true }, .incompleteExec, .incomplete (hb ▸ hc) (by simp), ?_⟩
        simp [Dfa.accept, hb']
    | conflict a b =>
      right; right; left
      exact ⟨d, _, .conflict hc, rfl⟩
    | reduce A prod =>
      obtain ⟨b, k⟩ := prod
      simp only
      rcases h.reduceStacks_cases hi hd hc with ⟨p, hp, hf⟩ | ⟨d', i', v, hp, h1, h2, h3, h4, h5⟩
      · right; right; right
        exact ⟨p, hf, by rw [hp]; rfl⟩
      · obtain ⟨r1, r2, r3, r4, i'', s', q, j, r5, r6, r7, r8, r9, r10⟩ := h.reduce_stack hi hc
        rw [h1] at r5; cases r5
        obtain ⟨row', hr'⟩ := h.row r6
        have htab' : d'.table[d'.top]? = some row' := by
          rw [h4]; simp only [hd.table]; exact hr'
        rw [hp]
        simp only [Out.ok_bind]
        unfold Dfa.travel
        rw [htab']
        simp only
        have hcell' : cellAt acts i' A = row'.get? A := cellAt_none hr'
        rcases r10 with r10 | ⟨x, y, r10⟩
        · left
          rw [← hcell', r10]
          refine ⟨_, _, .reduce hc r3 h1 r10, ?_, rfl⟩
          refine ⟨?_, ?_, rfl, ?_, ?_, ?_, ?_, ?_⟩
          · rw [h4]; exact hd.buffer
          · simp [h3]
          · rw [h4]; exact hd.table
          · rw [h4]; exact hd.eof
          · rw [h4]; exact hd.reductors
          · rw [h4]; exact hd.finished
          · rw [h4]
            simp only [List.map_cons, List.map_drop, hd.items, h5]
        · right; right; left
          rw [← hcell', r10]
          exact ⟨_, _, .conflict' hc r3 h1 r10, rfl⟩

/-! ### Whole runs -/

/-- The result of a run of `Dfa::start`. -/
inductive Ran (D : Decls T) (acts : ActTable T) (eof : T) (maps : ReductMap M T) (c : Conf M T) :
    Out (DfaRes M T Unit) → Prop
  | ok {c' : Conf M T} {d' : Dfa M T} : Moves acts eof c c' → Accepts acts eof c' →
      Sim acts eof maps d' c' → Ran D acts eof maps c (.ok ({ d' with finished := true }, .ok ()))
  | error {c' : Conf M T} {d' : Dfa M T} {e : Error T} : Moves acts eof c c' → Fails acts eof c' e →
      Ran D acts eof maps c (.ok (d', .error e))
  | panic {c' : Conf M T} {p : Panic} : RedFails D maps c.all p → Moves acts eof c c' →
      RedAt acts eof maps c' → Ran D acts eof maps c (.panic p)
  | fuel : Ran D acts eof maps c .fuel

theorem Ran.head {c c' : Conf M T} {r : Out (DfaRes M T Unit)} (m : Move acts eof c c')
    (h : Ran D acts eof maps c' r) : Ran D acts eof maps c r := by
  cases h with
  | ok h1 h2 h3 => exact .ok (.head m h1) h2 h3
  | error h1 h2 => exact .error (.head m h1) h2
  | panic h1 h2 h3 =>
    refine .panic ?_ (.head m h2) h3
    unfold Conf.all at h1 ⊢
    rw [← m.yields]
    exact h1
  | fuel => exact .fuel

theorem Move.buf_suffix {c c' : Conf M T} (m : Move acts eof c c') :
    ∀ t ∈ c'.buf, t ∈ c.buf := by
  cases m with
  | shift _ => intro t ht; exact List.mem_cons_of_mem _ ht
  | reduce _ _ _ _ => intro t ht; exact ht

theorem Moves.buf_suffix {c c' : Conf M T} (m : Moves acts eof c c') :
    ∀ t ∈ c'.buf, t ∈ c.buf := by
  induction m with
  | refl => exact fun t ht => ht
  | head m _ ih => exact fun t ht => m.buf_suffix t (ih t ht)

theorem terminal_lookSym (he : Terminal D eof) {buf : List (Token M T)}
    (hb : ∀ t ∈ buf, Terminal D t.ty) : Terminal D (lookSym eof buf) := by
  cases buf with
  | nil => exact he
  | cons t ts => exact hb t (by simp)

/-- Every run on terminals follows the moves. -/
theorem Auto.ran (h : Auto D S b0 states acts next red) (he : Terminal D eof) (tf : Nat) :
    ∀ (n : Nat) {d : Dfa M T} {c : Conf M T}, InvC D states next c → Sim acts eof maps d c →
      (∀ t ∈ c.buf, Terminal D t.ty) → Ran D acts eof maps c (Dfa.trace id tf n d) := by
  intro n
  induction n with
  | zero => intro d c _ _ _; exact .fuel
  | succ n ih =>
    intro d c hi hd hb
    unfold Dfa.trace
    rw [hd.finished]
    simp only [Bool.false_eq_true, if_false, id]
    rcases Dfa.travel_le (Nat.le_add_right tf 2) d d.symbol with hf | hf
    · rw [hf]; exact .fuel
    · rw [hf]
      rcases h.travel_cases hi hd (terminal_lookSym he hb) (n := tf + 2) (by omega) with
        ⟨c', d', m, hs, e⟩ | ⟨ha, e⟩ | ⟨d', er, hfl, e⟩ | ⟨p, hp, e⟩
      · rw [e]
        simp only [Out.ok_bind]
        exact (ih (h.inv_move hi m) hs (fun t ht => hb t (m.buf_suffix t ht))).head m
      · rw [e]
        simp only [Out.ok_bind]
        cases n with
        | zero => exact .fuel
        | succ n =>
          unfold Dfa.trace
          simp only [if_true]
          exact .ok (.refl _) ha hd
      · rw [e]
        simp only [Out.ok_bind]
        exact .error (.refl _) hfl
      · rw [e]; exact .panic hp.1 (.refl _) hp.2

/-- Enough fuel for a given run: if `k` moves lead to a configuration in which the run stops, it
does not run out of fuel. -/
theorem Auto.ran_stop (h : Auto D S b0 states acts next red) (he : Terminal D eof)
    {c c' : Conf M T} (hm : Moves acts eof c c')
    (hstop : Accepts acts eof c' ∨ ∃ e, Fails acts eof c' e) :
    ∀ {d : Dfa M T}, InvC D states next c → Sim acts eof maps d c →
      (∀ t ∈ c.buf, Terminal D t.ty) → ∃ n, ∀ tf, 2 ≤ tf → Dfa.trace id tf n d ≠ .fuel := by
  induction hm with
  | refl c =>
    intro d hi hd hb
    refine ⟨2, fun tf htf => ?_⟩
    unfold Dfa.trace
    rw [hd.finished]
    simp only [Bool.false_eq_true, if_false, id]
    rcases h.travel_cases hi hd (terminal_lookSym he hb) htf with
      ⟨c', d', m, hs, e⟩ | ⟨ha, e⟩ | ⟨d', er, hfl, e⟩ | ⟨p, hp, e⟩
    · exfalso
      rcases hstop with ha | ⟨e, hf⟩
      · exact ha.no_move m
      · exact hf.no_move m
    · rw [e]; simp [Dfa.trace]
    · rw [e]; simp
    · rw [e]; simp
  | head m _ ih =>
    intro d hi hd hb
    rcases h.travel_cases hi hd (terminal_lookSym he hb) (n := 2) (by omega) with
      ⟨c', d', m', hs, e⟩ | ⟨ha, e⟩ | ⟨d', er, hfl, e⟩ | ⟨p, hp, e⟩
    · have := m.det m'; subst this
      obtain ⟨n, hn⟩ := ih hstop (h.inv_move hi m) hs (fun t ht => hb t (m.buf_suffix t ht))
      refine ⟨n + 1, fun tf htf => ?_⟩
      unfold Dfa.trace
      rw [hd.finished]
      simp only [Bool.false_eq_true, if_false, id]
      rw [(Dfa.travel_le htf d d.symbol).ok e]
      simp only [Out.ok_bind]
      exact hn tf htf
    · exact absurd m (fun m => ha.no_move m)
    · exact absurd m (fun m => hfl.no_move m)
    · refine ⟨1, fun tf htf => ?_⟩
      unfold Dfa.trace
      rw [hd.finished]
      simp only [Bool.false_eq_true, if_false, id]
      rw [(Dfa.travel_le htf d d.symbol).panic e]
      simp

/-! ### Inputs with a token that is not a terminal are never accepted -/

/-- A reduction does not touch the buffer, the table or the flag. -/
theorem reduceStacks_frame {d d' : Dfa M T} {A : T} {prod : Production T}
    (h : d.reduceStacks A prod = .ok d') :
    d'.buffer = d.buffer ∧ d'.table = d.table ∧ d'.finished = d.finished ∧ d'.eof = d.eof ∧
      d'.reductors = d.reductors := by
  unfold Dfa.reduceStacks at h
  obtain ⟨_, _, h⟩ := Out.bind_eq_ok.mp h
  obtain ⟨fs, _, h⟩ := Out.bind_eq_ok.mp h
  obtain ⟨f, _, h⟩ := Out.bind_eq_ok.mp h
  obtain ⟨v, _, h⟩ := Out.bind_eq_ok.mp h
  obtain ⟨t, _, h⟩ := Out.bind_eq_ok.mp h
  cases h
  exact ⟨rfl, rfl, rfl, rfl, rfl⟩

/-- Under a nonterminal no cell shifts; under any symbol a reduction names a nonterminal. -/
theorem Auto.row_at (h : Auto D S b0 states acts next red) {i : Nat} {row : OMap T (Action T)}
    (hr : acts[i]? = some row) {x : T} {a : Action T} (ha : row.get? x = some a) :
    (∀ j, a = .shift j → Terminal D x) ∧ (∀ A p, a = .reduce A p → Nonterminal D A) := by
  have hi : i < states.length := by rw [← h.len]; exact (List.getElem?_eq_some_iff.mp hr).1
  have hs : states[i]? = some states[i] := List.getElem?_eq_getElem hi
  have hc : cellAt acts i x = some a := by rw [cellAt_none hr]; exact ha
  constructor
  · rintro j rfl
    rcases h.cell_dec hs hc (by intro x y; simp) with ⟨p, _, _, j, _, hk⟩ | ⟨p, _, _, _, hk⟩
    · rcases hk with ⟨hT, _⟩ | ⟨_, hk⟩
      · exact hT
      · cases hk
    · rcases hk with ⟨_, hk⟩ | ⟨_, hk⟩ <;> cases hk
  · rintro A p rfl
    rcases h.cell_dec hs hc (by intro x y; simp) with ⟨q, _, _, j, _, hk⟩ | ⟨q, hq, _, _, hk⟩
    · rcases hk with ⟨_, hk⟩ | ⟨_, hk⟩ <;> cases hk
    · rcases hk with ⟨_, hk⟩ | ⟨_, hk⟩
      · cases hk
      · cases hk; exact (h.prod hs hq).1.nonterminal

theorem Auto.travel_stuck (h : Auto D S b0 states acts next red) {x : T} (hx : Nonterminal D x)
    {tok : Token M T} {rest : List (Token M T)} :
    ∀ (n : Nat) {d d' : Dfa M T} {u : Unit}, d.table = acts → d.buffer = tok :: rest →
      d.finished = false → Dfa.travel n d x = .ok (d', .ok u) →
      d'.table = acts ∧ d'.buffer = tok :: rest ∧ d'.finished = false := by
  intro n
  induction n generalizing x with
  | zero => intro d d' u _ _ _ h; cases h
  | succ n ih =>
    intro d d' u htab hbuf hfin hrun
    unfold Dfa.travel at hrun
    rw [htab] at hrun
    cases hr : acts[d.top]? with
    | none => rw [hr] at hrun; simp at hrun
    | some row =>
      rw [hr] at hrun
      simp only at hrun
      cases hg : row.get? x with
      | none => rw [hg] at hrun; simp at hrun
      | some a =>
        rw [hg] at hrun
        obtain ⟨k1, k2⟩ := h.row_at hr hg
        cases a with
        | shift j => exact absurd (k1 j rfl) (not_terminal_iff.mpr hx)
        | goto j =>
          simp only [Dfa.goto, Out.ok.injEq, Prod.mk.injEq] at hrun
          obtain ⟨rfl, _⟩ := hrun
          exact ⟨htab, hbuf, hfin⟩
        | acc => simp [Dfa.accept, hbuf] at hrun
        | conflict a b => simp at hrun
        | reduce A prod =>
          simp only at hrun
          obtain ⟨d1, h1, h2⟩ := Out.bind_eq_ok.mp hrun
          obtain ⟨f1, f2, f3, _, _⟩ := reduceStacks_frame h1
          exact ih (k2 A prod rfl) (f2.trans htab) (f1.trans hbuf) (f3.trans hfin) h2

theorem Auto.trace_stuck (h : Auto D S b0 states acts next red) {tok : Token M T}
    {rest : List (Token M T)} (hx : Nonterminal D tok.ty) (tf : Nat) :
    ∀ (n : Nat) {d d' : Dfa M T} {u : Unit}, d.table = acts → d.buffer = tok :: rest →
      d.finished = false → Dfa.trace id tf n d ≠ .ok (d', .ok u) := by
  intro n
  induction n with
  | zero => intro d d' u _ _ _ h; cases h
  | succ n ih =>
    intro d d' u htab hbuf hfin hrun
    unfold Dfa.trace at hrun
    rw [hfin] at hrun
    simp only [Bool.false_eq_true, if_false, id] at hrun
    obtain ⟨⟨d1, r⟩, h1, h2⟩ := Out.bind_eq_ok.mp hrun
    have hsym : d.symbol = tok.ty := by unfold Dfa.symbol; rw [hbuf]
    rw [hsym] at h1
    cases r with
    | error e => simp at h2
    | ok u' =>
      obtain ⟨k1, k2, k3⟩ := h.travel_stuck hx tf htab hbuf hfin h1
      exact ih k1 k2 k3 h2

/-- A successful run, on any input. -/
theorem Auto.ran_ok (h : Auto D S b0 states acts next red) (he : Terminal D eof) (tf : Nat) :
    ∀ (n : Nat) {d d' : Dfa M T} {u : Unit} {c : Conf M T}, InvC D states next c →
      Sim acts eof maps d c → Dfa.trace id tf n d = .ok (d', .ok u) →
      ∃ c' d1, Moves acts eof c c' ∧ Accepts acts eof c' ∧ Sim acts eof maps d1 c' ∧
        d' = { d1 with finished := true } := by
  intro n
  induction n with
  | zero => intro d d' u c _ _ h; cases h
  | succ n ih =>
    intro d d' u c hi hd hrun
    by_cases hT : Terminal D (lookSym eof c.buf)
    · have hrun0 := hrun
      unfold Dfa.trace at hrun
      rw [hd.finished] at hrun
      simp only [Bool.false_eq_true, if_false, id] at hrun
      rcases Dfa.travel_le (Nat.le_add_right tf 2) d d.symbol with hf | hf
      · rw [hf] at hrun; cases hrun
      · rw [hf] at hrun
        rcases h.travel_cases hi hd hT (n := tf + 2) (by omega) with
          ⟨c', d2, m, hs, e⟩ | ⟨ha, e⟩ | ⟨d2, er, hfl, e⟩ | ⟨p, hp, e⟩
        · rw [e] at hrun
          simp only [Out.ok_bind] at hrun
          obtain ⟨c1, d1, k1, k2, k3, k4⟩ := ih (h.inv_move hi m) hs hrun
          exact ⟨c1, d1, .head m k1, k2, k3, k4⟩
        · rw [e] at hrun
          simp only [Out.ok_bind] at hrun
          cases n with
          | zero => cases hrun
          | succ n =>
            unfold Dfa.trace at hrun
            simp only [if_true] at hrun
            cases hrun
            exact ⟨c, d, .refl _, ha, hd, rfl⟩
        · rw [e] at hrun; simp at hrun
        · rw [e] at hrun; simp at hrun
    · have hN := not_terminal_iff.mp hT
      cases hb : c.buf with
      | nil => rw [hb] at hT; exact absurd he hT
      | cons tok rest =>
        rw [hb] at hN
        exact absurd hrun (h.trace_stuck hN tf (n + 1) hd.table (hd.buffer.trans hb) hd.finished)

end

end Lrp
