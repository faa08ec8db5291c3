import Verif.Proofs.Runs
import Verif.Spec.Effects

/-! The run of the parser with side effects (Model/Effects.lean) follows the moves of
Proofs/Machine.lean, and calls the reductors in the order of the trees. -/

set_option linter.unusedSectionVars false

namespace Lrp
open Spec
variable {T : Type} [LinOrd T] [DecidableEq T] {σ M : Type}

namespace Spec.Tree
variable {f : T → Nat → List (Token M T) → σ → Option (M × σ)}

theorem runs_append (a b : List (Tree M T)) (s : σ) : runs f (a ++ b) s =
    (runs f a s).bind (fun r => (runs f b r.2).map (fun r' => (r.1 ++ r'.1, r'.2))) := by
  induction a generalizing s with
  | nil => simp [runs]
  | cons c cs ih =>
    simp only [List.cons_append, runs]
    cases run f c s with
    | none => rfl
    | some r =>
      simp only [Option.bind_some, ih]
      cases runs f cs r.2 with
      | none => rfl
      | some r' =>
        simp only [Option.bind_some, Option.map_some]
        cases runs f b r'.2 <;> rfl

theorem runs_singleton (c : Tree M T) (s : σ) : runs f [c] s =
    (run f c s).map (fun r => ([⟨r.1, c.root⟩], r.2)) := by
  simp only [runs]
  cases run f c s <;> rfl

theorem runs_tys : ∀ {cs : List (Tree M T)} {s s' : σ} {its : List (Token M T)},
    runs f cs s = some (its, s') → its.map Token.ty = cs.map root
  | [], _, _, _, h => by simp only [runs, Option.some.injEq, Prod.mk.injEq] at h; simp [← h.1]
  | c :: cs, _, _, _, h => by
    simp only [runs] at h
    obtain ⟨r, _, h⟩ := Option.bind_eq_some_iff.mp h
    obtain ⟨r', h1, h2⟩ := Option.map_eq_some_iff.mp h
    cases h2
    simp [runs_tys h1]

end Spec.Tree

/-- The `Dfa` and the configuration agree, and what is around is what the evaluation of the trees leaves. -/
structure SimE (acts : ActTable T) (eof : T) (maps : ReductMapE σ M T) (s0 s : σ) (d : Dfa M T)
    (c : Conf M T) : Prop where
  buffer : d.buffer = c.buf
  states : d.states = c.states
  top : c.states.head? = some d.top
  table : d.table = acts
  eof : d.eof = eof
  finished : d.finished = false
  items : Tree.runs (redOfE maps) c.trees.reverse s0 = some (d.items.reverse, s)

section
variable {D : Decls T} {S : T} {b0 : List T} {states : List (State T)} {acts : ActTable T}
  {next : State T → T → Option Nat} {red : Position T → T → Prop} {eof : T} {maps : ReductMapE σ M T}
  {s0 s : σ}

theorem SimE.symbol {d : Dfa M T} {c : Conf M T} (h : SimE acts eof maps s0 s d c) :
    d.symbol = lookSym eof c.buf := by
  unfold Dfa.symbol lookSym
  rw [h.buffer, h.eof]
  cases c.buf <;> rfl

theorem SimE.length {d : Dfa M T} {c : Conf M T} (h : SimE acts eof maps s0 s d c) :
    d.items.length = c.trees.length := by
  have := congrArg List.length (Tree.runs_tys h.items)
  simpa using this

theorem simE_init (acts : ActTable T) (eof : T) (maps : ReductMapE σ M T) (buf : List (Token M T))
    (s0 : σ) : SimE acts eof maps s0 s0 (Dfa.new buf acts [] eof) ⟨[0], [], buf⟩ :=
  ⟨rfl, rfl, rfl, rfl, rfl, rfl, by simp [Tree.runs, Dfa.new]⟩

/-! ### Fuel -/

theorem Dfa.travelE_le {n m : Nat} (h : n ≤ m) (s : σ) (d : Dfa M T) (x : T) :
    Out.Le (Dfa.travelE maps n s d x) (Dfa.travelE maps m s d x) := by
  induction n generalizing m s d x with
  | zero => exact .fuel _
  | succ n ih =>
    obtain ⟨m, rfl⟩ : ∃ k, m = k + 1 := ⟨m - 1, by omega⟩
    unfold Dfa.travelE
    split
    · exact .refl _
    · split
      · exact .refl _
      · exact .refl _
      · exact .refl _
      · exact Out.Le.bind (.refl _) (fun r => ih (by omega) r.1 r.2 _)
      · exact .refl _
      · exact .refl _

theorem Dfa.traceE_le {tn tm n m : Nat} (ht : tn ≤ tm) (h : n ≤ m) (s : σ)
    (d : Dfa M T) : Out.Le (Dfa.traceE maps tn n s d) (Dfa.traceE maps tm m s d) := by
  induction n generalizing m s d with
  | zero => exact .fuel _
  | succ n ih =>
    obtain ⟨m, rfl⟩ : ∃ k, m = k + 1 := ⟨m - 1, by omega⟩
    unfold Dfa.traceE
    split
    · exact .refl _
    · refine Out.Le.bind (Dfa.travelE_le ht _ _ _) (fun r => ?_)
      obtain ⟨s', d', e | u⟩ := r
      · exact .refl _
      · exact ih (by omega) s' d'

theorem Parser.parseE_le {n m : Nat} (h : n ≤ m) (t : Tabler T) (toks : List (Token M T))
    (s : σ) : Out.Le (Parser.parseE t n toks maps s) (Parser.parseE t m toks maps s) :=
  Out.Le.bind (.refl _) (fun d => Out.Le.bind (Dfa.traceE_le h h s d) (fun _ => .refl _))

theorem Spec.ParsesE.unique {t : Tabler T} {toks : List (Token M T)} {s' s'' : σ}
    {r r' : Except (Error T) M} (h : ParsesE t maps toks s s' r) (h' : ParsesE t maps toks s s'' r') :
    s' = s'' ∧ r = r' := by
  obtain ⟨n, h⟩ := h
  obtain ⟨m, h'⟩ := h'
  have := Out.Le.agree (f := fun n => Parser.parseE t n toks maps s)
    (fun h => Parser.parseE_le h t toks s) h h'
  cases this
  exact ⟨rfl, rfl⟩

/-! ### One iteration -/

/-- The run is about to reduce, and the reductor fails on the values of the trees on the stack. -/
def RedAtE (acts : ActTable T) (eof : T) (maps : ReductMapE σ M T) (s0 : σ) (c : Conf M T) : Prop :=
  ∃ i st A b k, c.states = i :: st ∧ cellAt acts i (lookSym eof c.buf) = some (.reduce A (b, k)) ∧
    Tree.runs (redOfE maps)
      (.node A k (c.trees.take b.length).reverse :: c.trees.drop b.length).reverse s0 = none

/-- Splitting the stack of trees. -/
theorem runs_stack {trs : List (Tree M T)} {its : List (Token M T)}
    (h : Tree.runs (redOfE maps) trs.reverse s0 = some (its.reverse, s)) (k : Nat)
    (hk : k ≤ trs.length) : ∃ s1, Tree.runs (redOfE maps) (trs.drop k).reverse s0 =
        some ((its.drop k).reverse, s1) ∧
      Tree.runs (redOfE maps) (trs.take k).reverse s1 = some ((its.take k).reverse, s) := by
  have hl : its.length = trs.length := by simpa using congrArg List.length (Tree.runs_tys h)
  rw [← List.take_append_drop k trs, List.reverse_append, Tree.runs_append] at h
  obtain ⟨⟨a, s1⟩, h1, h2⟩ := Option.bind_eq_some_iff.mp h
  obtain ⟨⟨b, s2⟩, h3, h4⟩ := Option.map_eq_some_iff.mp h2
  simp only [Prod.mk.injEq] at h4
  obtain ⟨h4, rfl⟩ := h4
  have la : a.length = trs.length - k := by
    simpa using congrArg List.length (Tree.runs_tys h1)
  have h5 : its.reverse = (its.drop k).reverse ++ (its.take k).reverse := by
    rw [← List.reverse_append, List.take_append_drop]
  rw [h5] at h4
  obtain ⟨e1, e2⟩ := List.append_inj h4 (by simp [la, hl])
  exact ⟨s1, by rw [h1, e1], by rw [← e2]; exact h3⟩

/-- `reduceStacksE` does the reduction of `Move.reduce`. -/
theorem Auto.reduceStacksE_cases (h : Auto D S b0 states acts next red) {d : Dfa M T} {i k : Nat}
    {st : List Nat} {trs : List (Tree M T)} {buf : List (Token M T)} {A : T} {b : List T}
    (hi : InvC D states next ⟨i :: st, trs, buf⟩)
    (hd : SimE acts eof maps s0 s d ⟨i :: st, trs, buf⟩)
    (hc : cellAt acts i (lookSym eof buf) = some (.reduce A (b, k))) :
    (∃ p, d.reduceStacksE maps s A (b, k) = .panic p ∧ RedAtE acts eof maps s0 ⟨i :: st, trs, buf⟩) ∨
    ∃ s' d' i' v, d.reduceStacksE maps s A (b, k) = .ok (s', d') ∧ (i :: st)[b.length]? = some i' ∧
      d' = { d with items := ⟨v, A⟩ :: d.items.drop b.length, top := i',
                    states := (i :: st).drop b.length } ∧
      Tree.runs (redOfE maps) (.node A k (trs.take b.length).reverse :: trs.drop b.length).reverse s0 =
        some (d'.items.reverse, s') := by
  obtain ⟨r1, r2, r3, r4, i', s', q, j, r5, r6, _, _, _, _⟩ := h.reduce_stack hi hc
  have hlen := hd.length
  simp only at hlen r3
  obtain ⟨s1, q1, q2⟩ := runs_stack hd.items b.length r3
  have hrun : Tree.runs (redOfE maps)
      (.node A k (trs.take b.length).reverse :: trs.drop b.length).reverse s0 =
      (redOfE maps A k (d.items.take b.length).reverse s).map
        (fun r => ((⟨r.1, A⟩ :: d.items.drop b.length).reverse, r.2)) := by
    rw [List.reverse_cons, Tree.runs_append, q1, Option.bind_some, Tree.runs_singleton]
    simp only [Tree.run, q2, Option.bind_some, Tree.root]
    cases redOfE maps A k (d.items.take b.length).reverse s <;> simp
  have hat : redOfE maps A k (d.items.take b.length).reverse s = none →
      RedAtE acts eof maps s0 ⟨i :: st, trs, buf⟩ :=
    fun hn => ⟨i, st, A, b, k, rfl, hc, by rw [hrun, hn]; rfl⟩
  have hasrt : Out.assert .itemsUnderflow (decide (b.length ≤ d.items.length)) = .ok () := by
    rw [hlen]; simp [r3]
  unfold Dfa.reduceStacksE
  simp only [hasrt, Out.ok_bind]
  have hst : d.states = i :: st := hd.states
  cases hm : maps.get? A with
  | none =>
    left
    exact ⟨.missingReductor, by simp, hat (by unfold redOfE; rw [hm]; rfl)⟩
  | some fs =>
    simp only [Out.ofOption_some, Out.ok_bind]
    cases hf : fs[k]? with
    | none =>
      left
      exact ⟨.missingReductor, by simp, hat (by unfold redOfE; rw [hm]; simp [hf])⟩
    | some f =>
      simp only [Out.ofOption_some, Out.ok_bind]
      cases hv : f (d.items.take b.length).reverse s with
      | none =>
        left
        exact ⟨.reductorPanic, by simp, hat (by unfold redOfE; rw [hm]; simp [hf, hv])⟩
      | some r =>
        right
        obtain ⟨v, s2⟩ := r
        simp only [Out.ofOption_some, Out.ok_bind, hst, r5]
        refine ⟨s2, _, i', v, rfl, rfl, rfl, ?_⟩
        rw [hrun]
        unfold redOfE
        simp only [hm, hf, hv, Option.bind_some, Option.map_some]

/-- One iteration of the loop of `Dfa::trace` from a configuration whose next symbol is a terminal. -/
theorem Auto.travelE_cases (h : Auto D S b0 states acts next red) {d : Dfa M T} {c : Conf M T}
    (hi : InvC D states next c) (hd : SimE acts eof maps s0 s d c)
    (hT : Terminal D (lookSym eof c.buf)) {n : Nat} (hn : 2 ≤ n) :
    (∃ c' d' s', Move acts eof c c' ∧ SimE acts eof maps s0 s' d' c' ∧
      Dfa.travelE maps n s d d.symbol = .ok (s', d', .ok ())) ∨
    (Accepts acts eof c ∧
      Dfa.travelE maps n s d d.symbol = .ok (s, { d with finished := true }, .ok ())) ∨
    (∃ d' s' e cs its, Fails acts eof c e ∧
      Dfa.travelE maps n s d d.symbol = .ok (s', d', .error e) ∧
      (∀ tr ∈ cs, Tree.Valid D tr) ∧ Tree.yields cs = Tree.yields c.trees.reverse ∧
      Tree.runs (redOfE maps) cs s0 = some (its, s')) ∨
    (∃ p, RedAtE acts eof maps s0 c ∧ Dfa.travelE maps n s d d.symbol = .panic p) := by
  obtain ⟨n, rfl⟩ : ∃ k, n = k + 2 := ⟨n - 2, by omega⟩
  obtain ⟨sts, trs, buf⟩ := c
  obtain ⟨i, st, s1, e, hs⟩ := h.path_state hi.path
  simp only at e; subst e
  obtain ⟨row, hr⟩ := h.row hs
  have htop : d.top = i := by have := hd.top; simp at this; exact this.symm
  have htab : d.table[d.top]? = some row := by rw [hd.table, htop]; exact hr
  have hval : ∀ tr ∈ trs.reverse, Tree.Valid D tr := fun tr ht => hi.valid tr (List.mem_reverse.mp ht)
  rw [hd.symbol]
  unfold Dfa.travelE
  rw [htab]
  simp only
  have hcell : ∀ x, cellAt acts i x = row.get? x := fun x => cellAt_none hr
  cases hg : row.get? (lookSym eof buf) with
  | none =>
    right; right; left
    exact ⟨d, s, _, trs.reverse, _, .noAction hr hg, rfl, hval, rfl, hd.items⟩
  | some a =>
    have hc : cellAt acts i (lookSym eof buf) = some a := by rw [hcell]; exact hg
    cases a with
    | shift j =>
      cases hb : buf with
      | nil =>
        right; right; left
        subst hb
        have : d.buffer = [] := hd.buffer
        refine ⟨d, s, .unexpectedEof, trs.reverse, _, .eof hc, ?_, hval, rfl, hd.items⟩
        simp [Dfa.shift, this]
      | cons tok rest =>
        left
        subst hb
        have : d.buffer = tok :: rest := hd.buffer
        refine ⟨_, (d.shift j).1, s, .shift hc, ?_, by simp [Dfa.shift, this]⟩
        simp only [Dfa.shift, this]
        refine ⟨rfl, by simp [hd.states], rfl, hd.table, hd.eof, hd.finished, ?_⟩
        have hit := hd.items
        simp only at hit ⊢
        rw [List.reverse_cons, Tree.runs_append, hit]
        simp [Tree.runs, Tree.run, Tree.root]
    | goto j =>
      exfalso
      rcases h.cell_dec hs hc (by intro x y; simp) with ⟨p, _, _, j, _, hk⟩ | ⟨p, _, _, _, hk⟩
      · rcases hk with ⟨_, hk⟩ | ⟨hN, _⟩
        · cases hk
        · exact not_terminal_iff.mpr hN hT
      · rcases hk with ⟨_, hk⟩ | ⟨_, hk⟩ <;> cases hk
    | acc =>
      cases hb : buf with
      | nil =>
        right; left
        subst hb
        have : d.buffer = [] := hd.buffer
        refine ⟨⟨i, st, rfl, hc, rfl⟩, ?_⟩
        simp [Dfa.accept, this]
      | cons tok rest =>
        right; right; left
        have hb' : d.buffer = tok :: rest := hd.buffer.trans hb
        refine ⟨{ d with finished := true }, s, .incompleteExec, trs.reverse, _,
          .incomplete (hb ▸ hc) (by simp), ?_, hval, rfl, hd.items⟩
        simp [Dfa.accept, hb']
    | conflict a b =>
      right; right; left
      exact ⟨d, s, _, trs.reverse, _, .conflict hc, rfl, hval, rfl, hd.items⟩
    | reduce A prod =>
      obtain ⟨b, k⟩ := prod
      simp only
      rcases h.reduceStacksE_cases hi hd hc with ⟨p, hp, hf⟩ | ⟨s', d', i', v, hp, h1, h4, h5⟩
      · right; right; right
        exact ⟨p, hf, by rw [hp]; rfl⟩
      · obtain ⟨r1, r2, r3, r4, i'', s'', q, j, r5, r6, r7, r8, r9, r10⟩ := h.reduce_stack hi hc
        rw [h1] at r5; cases r5
        obtain ⟨row', hr'⟩ := h.row r6
        have htab' : d'.table[d'.top]? = some row' := by
          rw [h4]; simp only [hd.table]; exact hr'
        rw [hp]
        simp only [Out.ok_bind]
        unfold Dfa.travelE
        rw [htab']
        simp only
        have hcell' : cellAt acts i' A = row'.get? A := cellAt_none hr'
        rcases r10 with r10 | ⟨x, y, r10⟩
        · left
          rw [← hcell', r10]
          refine ⟨_, _, _, .reduce hc r3 h1 r10, ?_, rfl⟩
          refine ⟨?_, ?_, rfl, ?_, ?_, ?_, h5⟩
          · rw [h4]; exact hd.buffer
          · rw [h4]
          · rw [h4]; exact hd.table
          · rw [h4]; exact hd.eof
          · rw [h4]; exact hd.finished
        · right; right; left
          rw [← hcell', r10]
          refine ⟨_, _, _, _, _, .conflict' hc r3 h1 r10, rfl, ?_, ?_, h5⟩
          · intro tr ht
            rcases List.mem_cons.mp (List.mem_reverse.mp ht) with rfl | ht
            · refine .node (by rw [r4]; exact r1) (fun t ht => ?_)
              exact hi.valid t (List.mem_of_mem_take (List.mem_reverse.mp ht))
            · exact hi.valid tr (List.mem_of_mem_drop ht)
          · simp only [List.reverse_cons, Tree.yields_append, Tree.yields_singleton, Tree.yield_node]
            rw [← Tree.yields_append, ← List.reverse_append, List.take_append_drop]

/-! ### Whole runs -/

/-- The result of a run of `Dfa::start`. -/
inductive RanE (D : Decls T) (acts : ActTable T) (eof : T) (maps : ReductMapE σ M T) (s0 : σ)
    (c : Conf M T) : Out (σ × DfaRes M T Unit) → Prop
  | ok {c' : Conf M T} {d' : Dfa M T} {s : σ} : Moves acts eof c c' → Accepts acts eof c' →
      SimE acts eof maps s0 s d' c' →
      RanE D acts eof maps s0 c (.ok (s, { d' with finished := true }, .ok ()))
  | error {c' : Conf M T} {d' : Dfa M T} {e : Error T} {s : σ} {cs : List (Tree M T)}
      {its : List (Token M T)} : Moves acts eof c c' → Fails acts eof c' e →
      (∀ tr ∈ cs, Tree.Valid D tr) → Tree.yields cs = Tree.yields c'.trees.reverse →
      Tree.runs (redOfE maps) cs s0 = some (its, s) →
      RanE D acts eof maps s0 c (.ok (s, d', .error e))
  | panic {c' : Conf M T} {p : Panic} : Moves acts eof c c' →
      RedAtE acts eof maps s0 c' → RanE D acts eof maps s0 c (.panic p)
  | fuel : RanE D acts eof maps s0 c .fuel

theorem RanE.head {c c' : Conf M T} {r : Out (σ × DfaRes M T Unit)} (m : Move acts eof c c')
    (h : RanE D acts eof maps s0 c' r) : RanE D acts eof maps s0 c r := by
  cases h with
  | ok h1 h2 h3 => exact .ok (.head m h1) h2 h3
  | error h1 h2 h3 h4 h5 => exact .error (.head m h1) h2 h3 h4 h5
  | panic h1 h2 => exact .panic (.head m h1) h2
  | fuel => exact .fuel

/-- Every run on terminals follows the moves. -/
theorem Auto.ranE (h : Auto D S b0 states acts next red) (he : Terminal D eof) (tf : Nat) :
    ∀ (n : Nat) {s : σ} {d : Dfa M T} {c : Conf M T}, InvC D states next c →
      SimE acts eof maps s0 s d c → (∀ t ∈ c.buf, Terminal D t.ty) →
      RanE D acts eof maps s0 c (Dfa.traceE maps tf n s d) := by
  intro n
  induction n with
  | zero => intro s d c _ _ _; exact .fuel
  | succ n ih =>
    intro s d c hi hd hb
    unfold Dfa.traceE
    rw [hd.finished]
    simp only [Bool.false_eq_true, if_false]
    rcases Dfa.travelE_le (maps := maps) (Nat.le_add_right tf 2) s d d.symbol with hf | hf
    · rw [hf]; exact .fuel
    · rw [hf]
      rcases h.travelE_cases hi hd (terminal_lookSym he hb) (n := tf + 2) (by omega) with
        ⟨c', d', s', m, hs, e⟩ | ⟨ha, e⟩ | ⟨d', s', er, cs, its, hfl, e, k1, k2, k3⟩ | ⟨p, hp, e⟩
      · rw [e]
        simp only [Out.ok_bind]
        exact (ih (h.inv_move hi m) hs (fun t ht => hb t (m.buf_suffix t ht))).head m
      · rw [e]
        simp only [Out.ok_bind]
        cases n with
        | zero => exact .fuel
        | succ n =>
          unfold Dfa.traceE
          simp only [if_true]
          exact .ok (.refl _) ha hd
      · rw [e]
        simp only [Out.ok_bind]
        exact .error (.refl _) hfl k1 k2 k3
      · rw [e]; exact .panic (.refl _) hp

/-- Enough fuel for a run that stops. -/
theorem Auto.ranE_stop (h : Auto D S b0 states acts next red) (he : Terminal D eof)
    {c c' : Conf M T} (hm : Moves acts eof c c')
    (hstop : Accepts acts eof c' ∨ ∃ e, Fails acts eof c' e) :
    ∀ {s : σ} {d : Dfa M T}, InvC D states next c → SimE acts eof maps s0 s d c →
      (∀ t ∈ c.buf, Terminal D t.ty) →
      ∃ n, ∀ tf, 2 ≤ tf → Dfa.traceE maps tf n s d ≠ .fuel := by
  induction hm with
  | refl c =>
    intro s d hi hd hb
    refine ⟨2, fun tf htf => ?_⟩
    unfold Dfa.traceE
    rw [hd.finished]
    simp only [Bool.false_eq_true, if_false]
    rcases h.travelE_cases hi hd (terminal_lookSym he hb) htf with
      ⟨c', d', s', m, hs, e⟩ | ⟨ha, e⟩ | ⟨d', s', er, cs, its, hfl, e, _⟩ | ⟨p, hp, e⟩
    · exfalso
      rcases hstop with ha | ⟨e, hf⟩
      · exact ha.no_move m
      · exact hf.no_move m
    · rw [e]; simp [Dfa.traceE]
    · rw [e]; simp
    · rw [e]; simp
  | head m _ ih =>
    intro s d hi hd hb
    rcases h.travelE_cases hi hd (terminal_lookSym he hb) (n := 2) (by omega) with
      ⟨c', d', s', m', hs, e⟩ | ⟨ha, e⟩ | ⟨d', s', er, cs, its, hfl, e, _⟩ | ⟨p, hp, e⟩
    · have := m.det m'; subst this
      obtain ⟨n, hn⟩ := ih hstop (h.inv_move hi m) hs (fun t ht => hb t (m.buf_suffix t ht))
      refine ⟨n + 1, fun tf htf => ?_⟩
      unfold Dfa.traceE
      rw [hd.finished]
      simp only [Bool.false_eq_true, if_false]
      rw [(Dfa.travelE_le htf s d d.symbol).ok e]
      simp only [Out.ok_bind]
      exact hn tf htf
    · exact absurd m (fun m => ha.no_move m)
    · exact absurd m (fun m => hfl.no_move m)
    · refine ⟨1, fun tf htf => ?_⟩
      unfold Dfa.traceE
      rw [hd.finished]
      simp only [Bool.false_eq_true, if_false]
      rw [(Dfa.travelE_le htf s d d.symbol).panic e]
      simp

/-! ### Inputs with a token that is not a terminal are never accepted -/

theorem reduceStacksE_frame {s s' : σ} {d d' : Dfa M T} {A : T} {prod : Production T}
    (h : d.reduceStacksE maps s A prod = .ok (s', d')) :
    d'.buffer = d.buffer ∧ d'.table = d.table ∧ d'.finished = d.finished := by
  unfold Dfa.reduceStacksE at h
  obtain ⟨_, _, h⟩ := Out.bind_eq_ok.mp h
  obtain ⟨fs, _, h⟩ := Out.bind_eq_ok.mp h
  obtain ⟨f, _, h⟩ := Out.bind_eq_ok.mp h
  obtain ⟨⟨v, s1⟩, _, h⟩ := Out.bind_eq_ok.mp h
  obtain ⟨t, _, h⟩ := Out.bind_eq_ok.mp h
  cases h
  exact ⟨rfl, rfl, rfl⟩

theorem Auto.travelE_stuck (h : Auto D S b0 states acts next red) {x : T} (hx : Nonterminal D x)
    {tok : Token M T} {rest : List (Token M T)} :
    ∀ (n : Nat) {s s' : σ} {d d' : Dfa M T} {u : Unit}, d.table = acts → d.buffer = tok :: rest →
      d.finished = false → Dfa.travelE maps n s d x = .ok (s', d', .ok u) →
      d'.table = acts ∧ d'.buffer = tok :: rest ∧ d'.finished = false := by
  intro n
  induction n generalizing x with
  | zero => intro s s' d d' u _ _ _ h; cases h
  | succ n ih =>
    intro s s' d d' u htab hbuf hfin hrun
    unfold Dfa.travelE at hrun
    rw [htab] at hrun
    cases hr : acts[d.top]? with
    | none => rw [hr] at hrun; simp at hrun
    | some row =>
      rw [hr] at hrun
      simp only at hrun
      cases hg : row.get? x with
      | none => rw [hg] at hrun; simp at hrun
      | some a =>
        rw [hg] at hrun
        obtain ⟨k1, k2⟩ := h.row_at hr hg
        cases a with
        | shift j => exact absurd (k1 j rfl) (not_terminal_iff.mpr hx)
        | goto j =>
          simp only [Dfa.goto, Out.ok.injEq, Prod.mk.injEq] at hrun
          obtain ⟨_, rfl, _⟩ := hrun
          exact ⟨htab, hbuf, hfin⟩
        | acc => simp [Dfa.accept, hbuf] at hrun
        | conflict a b => simp at hrun
        | reduce A prod =>
          simp only at hrun
          obtain ⟨⟨s1, d1⟩, h1, h2⟩ := Out.bind_eq_ok.mp hrun
          obtain ⟨f1, f2, f3⟩ := reduceStacksE_frame h1
          exact ih (k2 A prod rfl) (f2.trans htab) (f1.trans hbuf) (f3.trans hfin) h2

theorem Auto.traceE_stuck (h : Auto D S b0 states acts next red) {tok : Token M T}
    {rest : List (Token M T)} (hx : Nonterminal D tok.ty) (tf : Nat) :
    ∀ (n : Nat) {s s' : σ} {d d' : Dfa M T} {u : Unit}, d.table = acts → d.buffer = tok :: rest →
      d.finished = false → Dfa.traceE maps tf n s d ≠ .ok (s', d', .ok u) := by
  intro n
  induction n with
  | zero => intro s s' d d' u _ _ _ h; cases h
  | succ n ih =>
    intro s s' d d' u htab hbuf hfin hrun
    unfold Dfa.traceE at hrun
    rw [hfin] at hrun
    simp only [Bool.false_eq_true, if_false] at hrun
    obtain ⟨⟨s1, d1, r⟩, h1, h2⟩ := Out.bind_eq_ok.mp hrun
    have hsym : d.symbol = tok.ty := by unfold Dfa.symbol; rw [hbuf]
    rw [hsym] at h1
    cases r with
    | error e => simp at h2
    | ok u' =>
      obtain ⟨k1, k2, k3⟩ := h.travelE_stuck hx tf htab hbuf hfin h1
      exact ih k1 k2 k3 h2

/-- A successful run, on any input. -/
theorem Auto.ranE_ok (h : Auto D S b0 states acts next red) (he : Terminal D eof) (tf : Nat) :
    ∀ (n : Nat) {s s' : σ} {d d' : Dfa M T} {u : Unit} {c : Conf M T}, InvC D states next c →
      SimE acts eof maps s0 s d c → Dfa.traceE maps tf n s d = .ok (s', d', .ok u) →
      ∃ c' d1, Moves acts eof c c' ∧ Accepts acts eof c' ∧ SimE acts eof maps s0 s' d1 c' ∧
        d' = { d1 with finished := true } := by
  intro n
  induction n with
  | zero => intro s s' d d' u c _ _ h; cases h
  | succ n ih =>
    intro s s' d d' u c hi hd hrun
    by_cases hT : Terminal D (lookSym eof c.buf)
    · unfold Dfa.traceE at hrun
      rw [hd.finished] at hrun
      simp only [Bool.false_eq_true, if_false] at hrun
      rcases Dfa.travelE_le (maps := maps) (Nat.le_add_right tf 2) s d d.symbol with hf | hf
      · rw [hf] at hrun; cases hrun
      · rw [hf] at hrun
        rcases h.travelE_cases hi hd hT (n := tf + 2) (by omega) with
          ⟨c', d2, s2, m, hs, e⟩ | ⟨ha, e⟩ | ⟨d2, s2, er, cs, its, hfl, e, _⟩ | ⟨p, hp, e⟩
        · rw [e] at hrun
          simp only [Out.ok_bind] at hrun
          obtain ⟨c1, d1, k1, k2, k3, k4⟩ := ih (h.inv_move hi m) hs hrun
          exact ⟨c1, d1, .head m k1, k2, k3, k4⟩
        · rw [e] at hrun
          simp only [Out.ok_bind] at hrun
          cases n with
          | zero => cases hrun
          | succ n =>
            unfold Dfa.traceE at hrun
            simp only [if_true] at hrun
            cases hrun
            exact ⟨c, d, .refl _, ha, hd, rfl⟩
        · rw [e] at hrun; simp at hrun
        · rw [e] at hrun; simp at hrun
    · have hN := not_terminal_iff.mp hT
      cases hb : c.buf with
      | nil => rw [hb] at hT; exact absurd he hT
      | cons tok rest =>
        rw [hb] at hN
        exact absurd hrun (h.traceE_stuck hN tf (n + 1) hd.table (hd.buffer.trans hb) hd.finished)

/-- What `parseE` can return. -/
inductive ParseEndE (D : Decls T) (acts : ActTable T) (eof : T) (maps : ReductMapE σ M T) (s0 : σ)
    (toks : List (Token M T)) : Out (σ × Except (Error T) M) → Prop
  | ok {c : Conf M T} {its : List (Token M T)} {it : Token M T} {s : σ} :
      Moves acts eof ⟨[0], [], toks⟩ c → Accepts acts eof c →
      Tree.runs (redOfE maps) c.trees.reverse s0 = some (its ++ [it], s) →
      ParseEndE D acts eof maps s0 toks (.ok (s, .ok it.item))
  | error {c : Conf M T} {e : Error T} {s : σ} {cs : List (Tree M T)} {its : List (Token M T)} :
      Moves acts eof ⟨[0], [], toks⟩ c → Fails acts eof c e →
      (∀ tr ∈ cs, Tree.Valid D tr) → Tree.yields cs = Tree.yields c.trees.reverse →
      Tree.runs (redOfE maps) cs s0 = some (its, s) →
      ParseEndE D acts eof maps s0 toks (.ok (s, .error e))
  | panic {c : Conf M T} {p : Panic} : Moves acts eof ⟨[0], [], toks⟩ c →
      RedAtE acts eof maps s0 c → ParseEndE D acts eof maps s0 toks (.panic p)
  | fuel : ParseEndE D acts eof maps s0 toks .fuel

variable {t : Tabler T}

theorem Auto.parseE_end (h : Auto D S b0 t.states t.actions next red)
    (hdfa : t.grammar.basis.look.head? = some eof) (he : Terminal D eof)
    {toks : List (Token M T)} (hT : TerminalToks D toks) (s0 : σ) (n : Nat) :
    ParseEndE D t.actions eof maps s0 toks (Parser.parseE t n toks maps s0) := by
  unfold Parser.parseE Parser.dfa
  rw [hdfa]
  simp only [Out.ofOption_some, Out.ok_bind, Out.pure_eq]
  have hi := inv_init (M := M) D t.states next toks
  have hr := h.ranE (maps := maps) he n n hi (simE_init t.actions eof maps toks s0) hT
  generalize Dfa.traceE maps n n s0 (Dfa.new toks t.actions [] eof) = r at hr ⊢
  cases hr with
  | @ok c' d' s h1 h2 h3 =>
    obtain ⟨tr, rest, hc⟩ := h.accepts_cons (h.inv_moves hi h1) h2
    have hl := h3.length
    rw [hc] at hl
    cases e1 : d'.items with
    | nil => rw [e1] at hl; simp at hl
    | cons it its =>
      simp only [Out.ok_bind, e1]
      have := h3.items
      rw [e1, List.reverse_cons] at this
      exact .ok h1 h2 this
  | error h1 h2 h3 h4 h5 => exact .error h1 h2 h3 h4 h5
  | panic h1 h2 => exact .panic h1 h2
  | fuel => exact .fuel

/-- A successful parse, on any input. -/
theorem Auto.parseE_ok (h : Auto D S b0 t.states t.actions next red)
    (hdfa : t.grammar.basis.look.head? = some eof) (he : Terminal D eof)
    {toks : List (Token M T)} {v : M} {s' : σ} (hr : ParsesE t maps toks s0 s' (.ok v)) :
    ∃ c its it, Moves t.actions eof ⟨[0], [], toks⟩ c ∧ Accepts t.actions eof c ∧
      Tree.runs (redOfE maps) c.trees.reverse s0 = some (its ++ [it], s') ∧ v = it.item := by
  obtain ⟨n, hr⟩ := hr
  unfold Parser.parseE Parser.dfa at hr
  simp only [hdfa, Out.ofOption_some, Out.ok_bind, Out.pure_eq] at hr
  obtain ⟨⟨s1, d', r⟩, h1, h2⟩ := Out.bind_eq_ok.mp hr
  cases r with
  | error e => simp at h2
  | ok u =>
    have hi := inv_init (M := M) D t.states next toks
    obtain ⟨c, d1, k1, k2, k3, k4⟩ := h.ranE_ok (maps := maps) he n n hi
      (simE_init t.actions eof maps toks s0) h1
    obtain ⟨tr, rest, hc⟩ := h.accepts_cons (h.inv_moves hi k1) k2
    have hl := k3.length
    rw [hc] at hl
    subst k4
    cases e1 : d1.items with
    | nil => rw [e1] at hl; simp at hl
    | cons it its =>
      have := k3.items
      rw [e1, List.reverse_cons] at this
      simp only [e1, Out.ok.injEq, Prod.mk.injEq, Except.ok.injEq] at h2
      obtain ⟨rfl, rfl⟩ := h2
      exact ⟨c, its.reverse, it, k1, k2, this, rfl⟩

theorem Auto.parseE_stop (h : Auto D S b0 t.states t.actions next red)
    (hdfa : t.grammar.basis.look.head? = some eof) (he : Terminal D eof)
    {toks : List (Token M T)} (hT : TerminalToks D toks) (s0 : σ) {c : Conf M T}
    (hm : Moves t.actions eof ⟨[0], [], toks⟩ c)
    (hstop : Accepts t.actions eof c ∨ ∃ e, Fails t.actions eof c e) :
    ∃ n, Parser.parseE t n toks maps s0 ≠ .fuel := by
  obtain ⟨n, hn⟩ := h.ranE_stop (maps := maps) he hm hstop (inv_init (M := M) D t.states next toks)
    (simE_init t.actions eof maps toks s0) hT
  refine ⟨max n 2, ?_⟩
  unfold Parser.parseE Parser.dfa
  simp only [hdfa, Out.ofOption_some, Out.ok_bind, Out.pure_eq]
  have h1 := hn (max n 2) (Nat.le_max_right _ _)
  have h2 : Dfa.traceE maps (max n 2) (max n 2) s0 (Dfa.new toks t.actions [] eof) ≠ .fuel := by
    rcases Dfa.traceE_le (maps := maps) (Nat.le_refl (max n 2)) (Nat.le_max_left n 2) s0
      (Dfa.new toks t.actions [] eof) with hf | hf
    · exact absurd hf h1
    · intro h3
      rw [h3] at hf
      exact h1 hf
  cases hd : Dfa.traceE maps (max n 2) (max n 2) s0 (Dfa.new toks t.actions [] eof) with
  | fuel => exact absurd hd h2
  | panic p => simp
  | ok r =>
    obtain ⟨s', d', e | u⟩ := r
    · simp
    · simp only [Out.ok_bind]
      split <;> simp

/-- If the trees can be evaluated in the end, so can the trees before a move. -/
theorem Moves.runs {acts : ActTable T} {c d : Conf M T} (h : Moves acts eof c d)
    (hd : Tree.runs (redOfE maps) d.trees.reverse s0 ≠ none) :
    Tree.runs (redOfE maps) c.trees.reverse s0 ≠ none := by
  induction h with
  | refl => exact hd
  | head m _ ih =>
    have ih := ih hd
    intro hn
    apply ih
    cases m with
    | shift _ =>
      simp only at hn
      simp only [List.reverse_cons, Tree.runs_append, hn, Option.bind_none]
    | @reduce _ _ _ _ _ trs _ _ b _ _ _ _ =>
      simp only at hn
      simp only [List.reverse_cons]
      rw [← List.take_append_drop b.length trs, List.reverse_append, Tree.runs_append] at hn
      rw [Tree.runs_append]
      cases h1 : Tree.runs (redOfE maps) (trs.drop b.length).reverse s0 with
      | none => rfl
      | some r =>
        rw [h1] at hn
        simp only [Option.bind_some, Option.map_eq_none_iff] at hn
        simp only [Option.bind_some, Tree.runs_singleton, Tree.run, hn, Option.bind_none,
          Option.map_none]

/-- A run whose final trees can be evaluated met no reductor that fails. -/
theorem RedAtE.false {acts : ActTable T} {c d : Conf M T} (h : RedAtE acts eof maps s0 c)
    (hm : Moves acts eof c d) (ha : Accepts acts eof d)
    (hd : Tree.runs (redOfE maps) d.trees.reverse s0 ≠ none) : False := by
  obtain ⟨i, st, A, b, k, e1, e2, e3⟩ := h
  cases hm with
  | refl =>
    obtain ⟨i', st', k1, k2, k3⟩ := ha
    rw [e1] at k1
    cases k1
    rw [k3, lookSym, k2] at e2
    cases e2
  | head m hm =>
    have := hm.runs hd
    cases m with
    | shift h1 => cases e1; simp only [lookSym] at e2; rw [h1] at e2; cases e2
    | reduce h1 _ _ _ =>
      cases e1
      simp only at e2 e3
      rw [h1] at e2
      cases e2
      exact this e3

/-- A run that accepts: `parseE` returns if the trees can be evaluated, and panics otherwise. -/
theorem Auto.parseE_accept_iff (h : Auto D S b0 t.states t.actions next red)
    (hdfa : t.grammar.basis.look.head? = some eof) (he : Terminal D eof)
    {toks : List (Token M T)} (hT : TerminalToks D toks) (s0 : σ) {c : Conf M T}
    (hm : Moves t.actions eof ⟨[0], [], toks⟩ c) (ha : Accepts t.actions eof c) :
    (∃ its it s, Tree.runs (redOfE maps) c.trees.reverse s0 = some (its ++ [it], s) ∧
      ParsesE t maps toks s0 s (.ok it.item)) ∨
    (Tree.runs (redOfE maps) c.trees.reverse s0 = none ∧
      ∃ p, Panics (fun n => Parser.parseE t n toks maps s0) p) := by
  obtain ⟨n, hn⟩ := h.parseE_stop (maps := maps) hdfa he hT s0 hm (Or.inl ha)
  have he := h.parseE_end (maps := maps) hdfa he hT s0 n
  generalize hp : Parser.parseE t n toks maps s0 = r at hn he
  cases he with
  | @ok c' its it s k1 k2 k3 =>
    have := dead_unique hm k1 (fun _ => ha.no_move) (fun _ => k2.no_move)
    subst this
    exact .inl ⟨its, it, s, k3, n, hp⟩
  | @error c' e _ _ _ k1 k2 =>
    have := dead_unique hm k1 (fun _ => ha.no_move) k2.dead
    subst this
    exact absurd k2 (fun k2 => ha.not_fails k2)
  | @panic c' p k1 k2 =>
    refine .inr ⟨?_, p, n, hp⟩
    apply Classical.byContradiction
    intro hne
    refine k2.false ?_ ha hne
    rcases k1.linear hm with h1 | h1
    · exact h1
    · have := h1.dead (fun _ => ha.no_move)
      subst this
      exact .refl _
  | fuel => exact absurd rfl hn

/-! ### Reductors without side effects -/

theorem OMap.get?_mapVal {κ ν μ : Type} [LinOrd κ] [DecidableEq κ] (m : OMap κ ν) (g : κ → ν → μ)
    (k : κ) : OMap.get? (m.map (fun e => (e.1, g e.1 e.2)) : OMap κ μ) k = (OMap.get? m k).map (g k) := by
  induction m with
  | nil => rfl
  | cons e m ih =>
    obtain ⟨k', v⟩ := e
    simp only [List.map_cons, OMap.get?]
    by_cases hk : LinOrd.cmp k k' = .eq
    · have := LinOrd.cmp_eq.mp hk
      subst this
      simp [hk]
    · simp only [hk, if_false]
      exact ih

theorem Dfa.reduceStacksE_still (maps : ReductMap M T) (s : σ) (d : Dfa M T) (A : T)
    (prod : Production T) (hd : d.reductors = maps) (d1 : Dfa M T)
    (h1 : d1 = { d with reductors := [] }) :
    d1.reduceStacksE (still maps) s A prod =
      (do let d ← d.reduceStacks A prod; return (s, { d with reductors := [] })) := by
  subst h1 hd
  unfold Dfa.reduceStacksE Dfa.reduceStacks
  simp only [still, OMap.get?_mapVal d.reductors
    (fun _ fs => fs.map (fun (f : ReductFn M T) its (s : σ) => (f its).map (fun v => (v, s)))) A]
  cases Out.assert .itemsUnderflow (decide (prod.1.length ≤ d.items.length)) with
  | panic p => rfl
  | fuel => rfl
  | ok u =>
    simp only [Out.ok_bind]
    cases hm : d.reductors.get? A with
    | none => rfl
    | some fs =>
      simp only [Option.map_some, Out.ofOption_some, Out.ok_bind, List.getElem?_map]
      cases hf : fs[prod.2]? with
      | none => rfl
      | some f =>
        simp only [Option.map_some, Out.ofOption_some, Out.ok_bind]
        cases hv : f (d.items.take prod.1.length).reverse with
        | none => rfl
        | some v =>
          simp only [Option.map_some, Out.ofOption_some, Out.ok_bind]
          cases d.states[prod.1.length]? <;> rfl

/-- Forget the reductors of the `Dfa` in a result. -/
def bare' (r : DfaRes M T Unit) : DfaRes M T Unit := ({ r.1 with reductors := [] }, r.2)

theorem Dfa.reduceStacks_reductors {d d' : Dfa M T} {A : T} {prod : Production T}
    (h : d.reduceStacks A prod = .ok d') : d'.reductors = d.reductors :=
  (reduceStacks_frame h).2.2.2.2

theorem Dfa.travelE_still (maps : ReductMap M T) (n : Nat) (s : σ) (d : Dfa M T) (x : T)
    (hd : d.reductors = maps) :
    Dfa.travelE (still maps) n s { d with reductors := [] } x =
      (do let r ← Dfa.travel n d x; return (s, bare' r)) := by
  induction n generalizing d x with
  | zero => rfl
  | succ n ih =>
    unfold Dfa.travelE Dfa.travel
    simp only
    cases d.table[d.top]? with
    | none => rfl
    | some row =>
      simp only
      cases row.get? x with
      | none => rfl
      | some a =>
        cases a with
        | shift j =>
          obtain ⟨buf, _, _, _, _, _, _, _⟩ := d
          cases buf <;> rfl
        | goto j => rfl
        | acc =>
          obtain ⟨buf, _, _, _, _, _, _, _⟩ := d
          cases buf <;> rfl
        | conflict a b => rfl
        | reduce A prod =>
          simp only
          rw [Dfa.reduceStacksE_still maps s d A prod hd _ rfl]
          cases hr : d.reduceStacks A prod with
          | panic p => rfl
          | fuel => rfl
          | ok d' =>
            simp only [Out.ok_bind, Out.pure_eq]
            exact ih d' A ((Dfa.reduceStacks_reductors hr).trans hd)

theorem Dfa.travel_reductors {n : Nat} {d d' : Dfa M T} {x : T} {r : Except (Error T) Unit}
    (h : Dfa.travel n d x = .ok (d', r)) : d'.reductors = d.reductors := by
  induction n generalizing d x with
  | zero => cases h
  | succ n ih =>
    unfold Dfa.travel at h
    split at h
    · cases h; rfl
    · split at h
      · cases h; rfl
      · simp only [Dfa.shift] at h
        split at h <;> (cases h; rfl)
      · cases h; rfl
      · obtain ⟨d1, h1, h2⟩ := Out.bind_eq_ok.mp h
        exact (ih h2).trans (Dfa.reduceStacks_reductors h1)
      · simp only [Dfa.accept] at h
        split at h <;> (cases h; rfl)
      · cases h; rfl

theorem Dfa.traceE_still (maps : ReductMap M T) (tf n : Nat) (s : σ) (d : Dfa M T)
    (hd : d.reductors = maps) :
    Dfa.traceE (still maps) tf n s { d with reductors := [] } =
      (do let r ← Dfa.trace id tf n d; return (s, bare' r)) := by
  induction n generalizing d with
  | zero => rfl
  | succ n ih =>
    unfold Dfa.traceE Dfa.trace
    simp only [id]
    cases hf : d.finished with
    | true =>
      simp only [if_true, Out.ok_bind, Out.pure_eq, bare', hf]
    | false =>
      simp only [Bool.false_eq_true, if_false]
      have hsym : ({ d with reductors := [] } : Dfa M T).symbol = d.symbol := rfl
      have htr := Dfa.travelE_still maps tf s d d.symbol hd
      simp only [hf] at hsym htr
      rw [hsym, htr]
      cases hr : Dfa.travel tf d d.symbol with
      | panic p => rfl
      | fuel => rfl
      | ok r =>
        obtain ⟨d', e | u⟩ := r
        · rfl
        · simp only [Out.ok_bind, Out.pure_eq, bare']
          exact ih d' ((Dfa.travel_reductors hr).trans hd)

theorem Parser.parseE_still (t : Tabler T) (n : Nat) (toks : List (Token M T)) (maps : ReductMap M T)
    (s : σ) : Parser.parseE t n toks (still maps) s =
      (do let r ← Parser.parse t n toks maps; return (s, r)) := by
  unfold Parser.parseE Parser.parse Parser.dfa Dfa.start
  cases t.grammar.basis.look.head? with
  | none => rfl
  | some eof =>
    simp only [Out.ofOption_some, Out.ok_bind, Out.pure_eq]
    have := Dfa.traceE_still maps n n s (Dfa.new toks t.actions maps eof) rfl
    have e : ({ Dfa.new toks t.actions maps eof with reductors := [] } : Dfa M T) =
      Dfa.new toks t.actions [] eof := rfl
    rw [e] at this
    rw [this]
    cases Dfa.trace id n n (Dfa.new toks t.actions maps eof) with
    | panic p => rfl
    | fuel => rfl
    | ok r =>
      obtain ⟨d', e | u⟩ := r
      · rfl
      · simp only [Out.ok_bind, Out.pure_eq, bare']
        cases d'.items <;> rfl

/-! ### Counting the calls -/

theorem redOfE_noting (maps : ReductMap M T) (A : T) (k : Nat) (its : List (Token M T))
    (s : List (T × Nat)) : redOfE (noting maps) A k its s =
      (redOf maps A k its).map (fun v => (v, s ++ [(A, k)])) := by
  unfold redOfE redOf
  simp only [noting, OMap.get?_mapVal maps (fun A fs => fs.zipIdx.map
    (fun (f : ReductFn M T × Nat) its (s : List (T × Nat)) =>
      (f.1 its).map (fun v => (v, s ++ [(A, f.2)])))) A]
  cases maps.get? A with
  | none => rfl
  | some fs =>
    simp only [Option.map_some, Option.bind_some, List.getElem?_map, List.getElem?_zipIdx]
    cases fs[k]? with
    | none => rfl
    | some f => simp

mutual
theorem run_noting (maps : ReductMap M T) : ∀ (tr : Tree M T) (s : List (T × Nat)),
    tr.run (redOfE (noting maps)) s = (tr.eval (redOf maps)).map (fun v => (v, s ++ tr.nodes))
  | .leaf tok, s => by simp [Tree.run, Tree.eval, Tree.nodes]
  | .node A i cs, s => by
    simp only [Tree.run, Tree.eval, Tree.nodes, runs_noting maps cs s]
    cases Tree.evals (redOf maps) cs with
    | none => rfl
    | some its =>
      simp only [Option.map_some, Option.bind_some, redOfE_noting, List.append_assoc]
theorem runs_noting (maps : ReductMap M T) : ∀ (cs : List (Tree M T)) (s : List (T × Nat)),
    Tree.runs (redOfE (noting maps)) cs s =
      (Tree.evals (redOf maps) cs).map (fun v => (v, s ++ Tree.nodesOf cs))
  | [], s => by simp [Tree.runs, Tree.evals, Tree.nodesOf]
  | c :: cs, s => by
    simp only [Tree.runs, Tree.evals, Tree.nodesOf, run_noting maps c s]
    cases c.eval (redOf maps) with
    | none => rfl
    | some v =>
      simp only [Option.map_some, Option.bind_some, runs_noting maps cs]
      cases Tree.evals (redOf maps) cs with
      | none => rfl
      | some vs => simp
end

end

end Lrp
