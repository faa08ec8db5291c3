import Verif.Spec.Again
import Verif.Proofs.Again
import Verif.Proofs.Prefix
import Verif.Proofs.Unread

/-! What a run has done so far does not depend on what it has not read: another rest can be put in its place. -/

set_option linter.unusedSectionVars false

namespace Lrp
open Spec
variable {M T : Type} [LinOrd T] [DecidableEq T]

/-! ### Going on from a moment of a run -/

/-- An iteration of the loop changes nothing about how the call ends. -/
theorem start_travel {d d' : Dfa M T} {n : Nat} (hf : d.finished = false)
    (h : Dfa.travel n d d.symbol = .ok (d', .ok ())) {o : Out (DfaRes M T Unit)} (ho : o ≠ .fuel) :
    (∃ m, d.start m = o) ↔ ∃ m, d'.start m = o := by
  have step : ∀ N k, n ≤ N → Dfa.trace id N (k + 1) d = Dfa.trace id N k d' := fun N k hN => by
    have h' := (Dfa.travel_le hN d d.symbol).ok h
    rw [Dfa.trace]
    rw [hf]
    simp only [Bool.false_eq_true, if_false, id]
    rw [h']
    rfl
  have up : ∀ {N m : Nat} {k l : Nat} {e : Dfa M T}, N ≤ m → k ≤ l → Dfa.trace id N k e = o → Dfa.trace id m l e = o := by
    intro N m k l e h1 h2 h3
    have hle := Dfa.trace_le (f := id) h1 h2 e
    rw [h3] at hle
    rcases hle with hle | hle
    · exact absurd hle ho
    · exact hle.symm
  constructor
  · rintro ⟨m, hm⟩
    refine ⟨m + n + 1, ?_⟩
    have h1 := up (m := m + n + 1) (l := m + 1) (by omega) (by omega) hm
    rw [step _ _ (by omega)] at h1
    exact up (Nat.le_refl _) (by omega) h1
  · rintro ⟨m, hm⟩
    refine ⟨m + n + 1, ?_⟩
    show Dfa.trace id (m + n + 1) (m + n + 1) d = o
    rw [step _ _ (by omega)]
    exact up (by omega) (by omega) hm

/-- Started at any moment of a run, `start` ends as it does from the beginning. -/
theorem Spec.Reached.start {t : Tabler T} {maps : ReductMap M T} {toks : List (Token M T)} {d : Dfa M T}
    (h : Reached t maps toks d) {o : Out (DfaRes M T Unit)} (ho : o ≠ .fuel) :
    ∃ d0, Parser.dfa t toks maps = .ok d0 ∧ ((∃ m, d0.start m = o) ↔ ∃ m, d.start m = o) := by
  induction h with
  | init h => exact ⟨_, h, Iff.rfl⟩
  | step _ hf hrun ih =>
    obtain ⟨d0, h1, h2⟩ := ih
    exact ⟨d0, h1, h2.trans (start_travel hf hrun ho)⟩

/-! ### The rest -/

/-- `Parser.dfa` does with the input nothing but store it. -/
theorem dfa_buffer {t : Tabler T} {maps : ReductMap M T} {toks : List (Token M T)} {d : Dfa M T}
    (h : Parser.dfa t toks maps = .ok d) : d.buffer = toks ∧ d.finished = false ∧
      ∀ v, Parser.dfa t v maps = .ok { d with buffer := v } := by
  unfold Parser.dfa at h ⊢
  cases he : t.grammar.basis.look.head? with
  | none => rw [he] at h; cases h
  | some eof =>
    rw [he] at h
    cases h
    exact ⟨rfl, rfl, fun v => rfl⟩

/-- A moment of a run and the rest of its input.  `d1` is the moment after the last token was taken. -/
theorem Spec.Reached.kept {t : Tabler T} {maps : ReductMap M T} {toks : List (Token M T)} {d : Dfa M T}
    (h : Reached t maps toks d) : ∃ u, toks = u ++ d.buffer ∧
      (∀ tok b v, d.buffer = tok :: b ++ v → ∀ v', Reached t maps (u ++ (tok :: b ++ v')) { d with buffer := tok :: b ++ v' }) ∧
      ∃ d1 : Dfa M T, d1.buffer = d.buffer ∧ (∀ v', Reached t maps (u ++ v') { d1 with buffer := v' }) ∧
        (d = d1 ∨ d1.finished = false ∧ ∃ n d2, Dfa.travel n d1 d1.symbol = .ok (d2, .ok ()) ∧
          d2.buffer = d1.buffer) := by
  induction h with
  | @init d h =>
    obtain ⟨h1, h2, h3⟩ := dfa_buffer h
    refine ⟨[], h1.symm, fun tok b v _ v' => .init (h3 _), d, rfl, fun v' => .init (h3 _), Or.inl rfl⟩
  | @step d d' n hr hf hrun ih =>
    obtain ⟨u, e, h1, d1, h2, h3, h4⟩ := ih
    obtain ⟨b, hb⟩ := (travel_buffer n d d' _ _ hrun).2.1
    -- the same call with another rest
    have other : ∀ tok b v v', d.buffer = tok :: b ++ v → d'.buffer.length ≥ v.length →
        ∃ b', d'.buffer = b' ++ v ∧
        Reached t maps (u ++ (tok :: b ++ v')) { d' with buffer := b' ++ v' } := by
      intro tok b v v' hd _
      have hrel := (travel_rest (v' := v') n d b d.symbol hd).of_ok hrun
      obtain ⟨⟨e1, r1⟩, k1, k2, b', k3, k4⟩ := hrel
      simp only at k2 k3 k4
      subst k2 k4
      refine ⟨b', k3, .step (h1 tok b v hd v') hf (n := n) ?_⟩
      rw [← k1]
      congr 1
      unfold Dfa.symbol
      rw [hd]
      rfl
    cases b with
    | nil =>
      simp only [List.nil_append] at hb
      refine ⟨u, by rw [← hb]; exact e, ?_, d1, h2.trans hb, h3, Or.inr ?_⟩
      · intro tok b v hd v'
        obtain ⟨b', k1, k2⟩ := other tok b v v' (hb.trans hd) (by rw [hd]; simp; omega)
        rw [hd] at k1
        obtain rfl := List.append_cancel_right k1
        exact k2
      · rcases h4 with rfl | h4
        · exact ⟨hf, n, d', hrun, hb.symm⟩
        · exact h4
    | cons tok b =>
      have shifted : ∀ v', Reached t maps (u ++ (tok :: b ++ v')) { d' with buffer := v' } := by
        intro v'
        obtain ⟨b', k1, k2⟩ := other tok b d'.buffer v' hb (Nat.le_refl _)
        have : b' = [] := by
          have := congrArg List.length k1
          simp only [List.length_append] at this
          exact List.eq_nil_of_length_eq_zero (by omega)
        subst this
        exact k2
      refine ⟨u ++ (tok :: b), by rw [List.append_assoc, ← hb]; exact e, ?_, d', rfl, ?_, Or.inl rfl⟩
      · intro tok' b' v hd v'
        rw [List.append_assoc]
        exact shifted _
      · intro v'
        rw [List.append_assoc]
        exact shifted _

/-- Right after a token was taken, another rest may be put in the place of the rest. -/
theorem Spec.Reached.taken {t : Tabler T} {maps : ReductMap M T} {toks : List (Token M T)} {d d' : Dfa M T} {n : Nat}
    (h : Reached t maps toks d) (hf : d.finished = false) (hrun : Dfa.travel n d d.symbol = .ok (d', .ok ()))
    (hne : d'.buffer ≠ d.buffer) :
    ∃ u, toks = u ++ d'.buffer ∧ ∀ v, Reached t maps (u ++ v) { d' with buffer := v } := by
  obtain ⟨u0, e0, h1, _⟩ := h.kept
  obtain ⟨b, hb⟩ := (travel_buffer n d d' _ _ hrun).2.1
  cases b with
  | nil => exact absurd hb.symm hne
  | cons tok b =>
    refine ⟨u0 ++ tok :: b, by rw [List.append_assoc, ← hb]; exact e0, fun v => ?_⟩
    obtain ⟨⟨e1, r1⟩, j1, j2, b', j3, j4⟩ := (travel_rest (v' := v) n d b d.symbol hb).of_ok hrun
    simp only at j2 j3 j4
    have : b' = [] := by
      have := congrArg List.length j3
      simp only [List.length_append] at this
      exact List.eq_nil_of_length_eq_zero (by omega)
    subst j2 j4 this
    rw [List.append_assoc]
    refine .step (h1 tok b _ hb v) hf (n := n) ?_
    refine Eq.trans ?_ j1
    congr 1
    unfold Dfa.symbol
    rw [hb]
    rfl

/-! ### With the automaton -/

section
variable {D : Decls T} {S : T} {b0 : List T} {t : Tabler T}
  {next : State T → T → Option Nat} {red : Position T → T → Prop} {eof : T} {maps : ReductMap M T}

theorem Sim.replace {acts : ActTable T} {d : Dfa M T} {c : Conf M T} (h : Sim acts eof maps d c)
    (v : List (Token M T)) : Sim acts eof maps { d with buffer := v } { c with buf := v } :=
  ⟨rfl, h.states, h.top, h.table, h.eof, h.reductors, h.finished, h.items⟩

theorem InvC.replace {states : List (State T)} {c : Conf M T} (h : InvC D states next c)
    (v : List (Token M T)) : InvC D states next { c with buf := v } := ⟨h.path, h.valid⟩

/-- What stands under the next symbol of an exact table may follow. -/
theorem Exact.hasCell_mayFollow {states : List (State T)} {acts : ActTable T}
    (h : Auto D S b0 states acts next red) (hx : Exact D S eof b0 states next red) (hpr : AllProductive D)
    (he : Terminal D eof) {c : Conf M T} (hi : InvC D states next c) {y : T} (hyT : Terminal D y)
    (hc : HasCell acts eof c y) : MayFollow D S eof c.consumed y := by
  obtain ⟨i, st, a, e1, e2⟩ := hc
  obtain ⟨i0, st0, s, e3, hs⟩ := h.path_state hi.path
  rw [e1] at e3; cases e3
  obtain ⟨row, hr⟩ : ∃ row, acts[i]? = some row := by
    have hlt : i < acts.length := by rw [h.len]; exact (List.getElem?_eq_some_iff.mp hs).1
    exact ⟨_, List.getElem?_eq_getElem hlt⟩
  have hc := (h.cell hs hr).2 y
  have hg : row.get? y = some a := by unfold cellAt at e2; rw [hr] at e2; exact e2
  have : ∃ b, Dec D S (next s) red s y b := by
    by_cases hex : ∃ b, Dec D S (next s) red s y b
    · exact hex
    · have := hc.empty.mpr (fun b hb => hex ⟨b, hb⟩)
      rw [hg] at this; cases this
  obtain ⟨b, ⟨p, hp, ht, _⟩ | ⟨p, hp, ht, hr, _⟩⟩ := this
  · exact h.mayFollow_shift hpr he hi e1 hs hp ht hyT
  · exact hx.mayFollow_reduce h hpr he hi e1 hs hp ht hr hyT

/-- A call without an error has found something under the symbol. -/
theorem Sim.hasCell {acts : ActTable T} {d d' : Dfa M T} {c : Conf M T} (h : Sim acts eof maps d c) {n : Nat}
    (hrun : Dfa.travel n d d.symbol = .ok (d', .ok ())) : HasCell acts eof c (lookSym eof c.buf) := by
  cases n with
  | zero => cases hrun
  | succ n =>
    rw [h.symbol] at hrun
    simp only [Dfa.travel] at hrun
    obtain ⟨st, hst⟩ : ∃ st, c.states = d.top :: st := by
      have := h.top
      cases hc : c.states with
      | nil => rw [hc] at this; cases this
      | cons i st => rw [hc] at this; simp only [List.head?_cons, Option.some.injEq] at this; exact ⟨st, by rw [this]⟩
    cases hrow : d.table[d.top]? with
    | none => rw [hrow] at hrun; cases hrun
    | some row =>
      rw [hrow] at hrun
      cases hg : OMap.get? row (lookSym eof c.buf) with
      | none => simp only [hg] at hrun; cases hrun
      | some a =>
        refine ⟨d.top, st, a, hst, ?_⟩
        unfold cellAt
        rw [← h.table, hrow]
        exact hg

/-- How a run on terminals ends with an unexpected token. -/
theorem Auto.unexpected (ha : Auto D S b0 t.states t.actions next red)
    (hdfa : t.grammar.basis.look.head? = some eof) (he : Terminal D eof) {toks : List (Token M T)}
    (hT : TerminalToks D toks) {d d' : Dfa M T} (hd : Reached t maps toks d) {x : T} {exp : List T}
    (h : Starts d d' (.error (.unexpectedToken x exp))) : Reached t maps toks d' ∧ d'.finished = false ∧
      ∃ c, Moves t.actions eof ⟨[0], [], toks⟩ c ∧ Sim t.actions eof maps d' c ∧
        Fails t.actions eof c (.unexpectedToken x exp) := by
  obtain ⟨n, h⟩ := h
  obtain ⟨c, hm, hs | ⟨d0, _, _, e⟩⟩ := ha.reached hdfa he hT hd
  · rcases ha.trace_again he n n (Or.inr (fun a b => by simp))
      (ha.inv_moves (inv_init D t.states next toks) hm) hs
      (fun tk htk => hT tk (hm.buf_suffix tk htk)) hd h with ⟨h1, _⟩ | h1 | ⟨e, h0, h1, h2, ⟨c', k1, k2, k3⟩, _⟩
    · cases h1
    · cases h1
    · cases h0
      exact ⟨h1, h2, c', hm.trans k1, k2, k3⟩
  · have hf : d.finished = true := by rw [e]
    cases n with
    | zero => cases h
    | succ n =>
      unfold Dfa.start Dfa.trace at h
      rw [hf] at h
      simp only [if_true] at h
      cases h

/-- After an unexpected token in a run with an exact table, another rest may be put in its place. -/
theorem Auto.mend [Nonempty M] (ha : Auto D S b0 t.states t.actions next red)
    (hl : Looks D S eof b0 t.states next red) (hx : Exact D S eof b0 t.states next red)
    (hpr : AllProductive D) (hS : InNoBody D S) (h1 : SingleStart D S)
    (hdfa : t.grammar.basis.look.head? = some eof) (he : Terminal D eof) {toks : List (Token M T)}
    (hT : TerminalToks D toks) {d d' : Dfa M T} (hd : Reached t maps toks d) {x : T} {exp : List T}
    (h : Starts d d' (.error (.unexpectedToken x exp))) :
    ∃ u, toks = u ++ d'.buffer ∧ ∀ v, Reached t maps (u ++ v) { d' with buffer := v } := by
  obtain ⟨hd', hf', c, hm, hs, hfl⟩ := ha.unexpected hdfa he hT hd h
  obtain ⟨u, e, _, d1, k1, k2, k3⟩ := hd'.kept
  refine ⟨u, e, ?_⟩
  rcases k3 with rfl | ⟨hf1, n, d2, k4, k5⟩
  · exact k2
  · exfalso
    have hr1 : Reached t maps toks d1 := by
      have := k2 d1.buffer
      rw [k1, ← e] at this
      rw [← k1] at this
      exact this
    obtain ⟨c1, hm1, hs1 | ⟨d0, _, _, e0⟩⟩ := ha.reached hdfa he hT hr1
    · have hcell := hs1.hasCell k4
      have hbuf : c1.buf = c.buf := by rw [← hs1.buffer, ← hs.buffer, k1]
      have hcon : c1.consumed = c.consumed := by
        have y1 := hm1.yields
        have y2 := hm.yields
        rw [← y2, hbuf] at y1
        unfold Conf.consumed
        rw [List.append_cancel_right y1]
      have hT1 : ∀ tk ∈ c1.buf, Terminal D tk.ty := fun tk htk => hT tk (hm1.buf_suffix tk htk)
      have hmf := Exact.hasCell_mayFollow ha hx hpr he (ha.inv_moves (inv_init D t.states next toks) hm1)
        (terminal_lookSym he hT1) hcell
      rw [hbuf, hcon] at hmf
      refine Looks.error_token ha hl hS h1 he hm hfl.dead ?_ hmf
      cases hfl with
      | noAction g1 g2 =>
        rintro ⟨i, st, a, e1, e2⟩
        simp only [List.cons.injEq] at e1
        obtain ⟨rfl, _⟩ := e1
        unfold cellAt at e2
        rw [g1] at e2
        simp only [Option.bind_some] at e2
        rw [g2] at e2
        cases e2
    · rw [e0] at hf1; cases hf1

end

end Lrp
