import Verif.Proofs.Reach

/-! Proofs for `Dfa::parse` (C32): if the body of the start rule begins with a terminal, the stack of states
that lacks its bottom is never exhausted. -/

set_option linter.unusedSectionVars false

namespace Lrp
open Spec

variable {M T : Type} [LinOrd T] [DecidableEq T]
variable {D : Decls T} {S : T} {b0 : List T} {t : Tabler T}
  {next : State T → T → Option Nat} {red : Position T → T → Prop} {eof : T} {maps : ReductMap M T}

theorem reduceStacks_underflow {d : Dfa M T} {A : T} {prod : Production T}
    (h : d.reduceStacks A prod = .panic .statesUnderflow) : d.states.length ≤ prod.1.length := by
  unfold Dfa.reduceStacks at h
  have of : ∀ {α : Type} {p : Panic} {o : Option α}, Out.ofOption p o = .panic .statesUnderflow →
      p = .statesUnderflow ∧ o = none := by
    intro α p o h
    cases o with
    | none => exact ⟨by injection h, rfl⟩
    | some a => cases h
  rcases Out.bind_eq_panic.mp h with h | ⟨_, _, h⟩
  · unfold Out.assert at h; split at h <;> cases h
  rcases Out.bind_eq_panic.mp h with h | ⟨_, _, h⟩
  · cases (of h).1
  rcases Out.bind_eq_panic.mp h with h | ⟨_, _, h⟩
  · cases (of h).1
  rcases Out.bind_eq_panic.mp h with h | ⟨_, _, h⟩
  · cases (of h).1
  rcases Out.bind_eq_panic.mp h with h | ⟨_, _, h⟩
  · exact List.getElem?_eq_none_iff.mp (of h).2
  · cases h

theorem reduceStacks_ok {d e : Dfa M T} {A : T} {prod : Production T}
    (h : d.reduceStacks A prod = .ok e) : e.table = d.table ∧ d.states[prod.1.length]? = some e.top := by
  unfold Dfa.reduceStacks at h
  obtain ⟨_, _, h⟩ := Out.bind_eq_ok.mp h
  obtain ⟨_, _, h⟩ := Out.bind_eq_ok.mp h
  obtain ⟨_, _, h⟩ := Out.bind_eq_ok.mp h
  obtain ⟨_, _, h⟩ := Out.bind_eq_ok.mp h
  obtain ⟨i, h1, h⟩ := Out.bind_eq_ok.mp h
  cases h
  refine ⟨rfl, ?_⟩
  cases hs : d.states[prod.1.length]? with
  | none => rw [hs] at h1; cases h1
  | some j => rw [hs] at h1; cases h1; rfl

/-- If the body of the start rule begins with a terminal, no reduction takes the first item of the stack. -/
theorem Auto.keeps_first (h : Auto D S b0 t.states t.actions next red) {X : T} (hX : b0.head? = some X)
    (hXt : Terminal D X) {i k : Nat} {st : List Nat} {trs : List (Tree M T)} {buf : List (Token M T)} {A : T}
    {b : List T} (hi : InvC D t.states next ⟨i :: st, trs, buf⟩)
    (hc : cellAt t.actions i (lookSym eof buf) = some (.reduce A (b, k))) : b.length < trs.length := by
  obtain ⟨hp, _, hl, _, i', s', q, j, h1, h2, h3, h4, _⟩ := h.reduce_stack hi hc
  rcases Nat.lt_or_ge b.length trs.length with hlt | hge
  · exact hlt
  exfalso
  have only : ∀ {s p}, t.states[0]? = some s → Prov S b0 0 s p → p.rule = S ∧ p.seq = (b0, 0) ∧ p.point = 0 := by
    intro s p hs hpr
    induction hpr with
    | kernel hm hpt => have := h.zero hs hm; omega
    | basis _ _ h1 h2 h3 => exact ⟨h1, h2, h3⟩
    | @step p q hq htop hm hpt ih =>
      obtain ⟨_, e2, e3⟩ := ih
      have : q.top = some X := by
        unfold Position.top Position.peek
        rw [e2, e3, ← hX]
        exact List.head?_eq_getElem?.symm
      rw [this] at htop
      injection htop with htop
      obtain ⟨bs, ⟨pre, post, e, _⟩, _⟩ := (h.prod hs hm).1
      exact absurd htop.symm (hXt (p.rule, bs) (by rw [e]; simp))
  have hb : i' = 0 := by
    have hlen := hi.path.length
    have hlast : ∀ {st : List Nat} {syms : List T}, Path t.states next st syms → st.getLast? = some 0 := by
      intro st syms hp
      induction hp with
      | base => rfl
      | cons _ _ _ _ _ ih => rw [List.getLast?_cons_cons]; exact ih
    have h5 := hlast hi.path
    rw [List.getLast?_eq_getElem?] at h5
    simp only [List.length_cons, List.length_map] at hlen h5
    have : b.length = st.length := by omega
    rw [this] at h1
    simp only [Nat.add_one_sub_one] at h5
    rw [h5] at h1
    injection h1 with h1
    exact h1.symm
  subst hb
  obtain ⟨_, e2, e3⟩ := only h2 (h.prov h2 h3)
  have : q.top = some X := by
    unfold Position.top Position.peek
    rw [e2, e3, ← hX]
    exact List.head?_eq_getElem?.symm
  rw [h4] at this
  injection this with this
  subst this
  obtain ⟨bs, ⟨pre, post, e, _⟩, _⟩ := hp
  exact hXt (A, bs) (by rw [e]; simp) rfl

theorem Auto.no_underflow (h : Auto D S b0 t.states t.actions next red) {X : T} (hX : b0.head? = some X)
    (hXt : Terminal D X) (he : Terminal D eof) {toks : List (Token M T)} (hT : TerminalToks D toks)
    (tf n : Nat) : ∀ {d d' : Dfa M T} {c : Conf M T}, Moves t.actions eof ⟨[0], [], toks⟩ c →
      Sim t.actions eof maps d c → NoBottom d d' → Dfa.trace id tf n d' ≠ .panic .statesUnderflow := by
  induction n with
  | zero => intro d d' c _ _ _ h; cases h
  | succ n ih =>
    intro d d' c hm hs hb hrun
    have hinv := h.inv_moves (inv_init (M := M) D t.states next toks) hm
    have hT' := terminal_lookSym he (fun tk ht => hT tk (hm.buf_suffix tk ht))
    unfold Dfa.trace at hrun
    rw [hb.finished, hs.finished] at hrun
    simp only [Bool.false_eq_true, if_false, id] at hrun
    have hsym : d'.symbol = d.symbol := by unfold Dfa.symbol; rw [hb.buffer, hb.eof]
    rw [hsym] at hrun
    have hno : Dfa.travel tf d' d.symbol ≠ .panic .statesUnderflow := by
      intro hu
      obtain ⟨sts, trs, buf⟩ := c
      obtain ⟨i, st, s, e, hst⟩ := h.path_state hinv.path
      simp only at e; subst e
      obtain ⟨row, hr⟩ := h.row hst
      have htop : d.top = i := by have := hs.top; simp at this; exact this.symm
      cases tf with
      | zero => cases hu
      | succ tf =>
        unfold Dfa.travel at hu
        rw [hb.table, hs.table, hb.top, htop, hr, hs.symbol] at hu
        simp only at hu
        cases hg : row.get? (lookSym eof buf) with
        | none => simp [hg] at hu
        | some a =>
          rw [hg] at hu
          cases a with
          | shift j => cases hu
          | goto j => cases hu
          | acc => cases hu
          | conflict a b => cases hu
          | reduce A prod =>
            obtain ⟨b, k⟩ := prod
            have hc : cellAt t.actions i (lookSym eof buf) = some (.reduce A (b, k)) := by
              unfold cellAt; rw [hr]; exact hg
            have hlt := h.keeps_first hX hXt hinv hc
            have l1 := hinv.path.length
            have l2 := congrArg List.length hb.states
            rw [hs.states] at l2
            simp only [List.length_cons, List.length_map, List.length_append, List.length_nil] at l1 l2
            rcases Out.bind_eq_panic.mp hu with hu | ⟨e, he1, hu⟩
            · have := reduceStacks_underflow hu
              simp only at this
              omega
            · obtain ⟨k1, k2⟩ := reduceStacks_ok he1
              obtain ⟨_, _, _, _, i', s', q, j, r1, _, _, _, _, r2⟩ := h.reduce_stack hinv hc
              have k3 : (i :: st)[b.length]? = some e.top := by
                have : d.states[b.length]? = some e.top := by
                  rw [hb.states, List.getElem?_append_left (by omega)]
                  exact k2
                rw [hs.states] at this
                exact this
              rw [r1] at k3
              injection k3 with k3
              cases tf with
              | zero => cases hu
              | succ tf =>
                unfold Dfa.travel at hu
                rw [k1, hb.table, hs.table, ← k3] at hu
                unfold cellAt at r2
                cases hr' : t.actions[i']? with
                | none => rw [hr'] at r2; simp at r2
                | some row' =>
                  rw [hr'] at r2 hu
                  simp only [Option.bind_some] at r2
                  simp only at hu
                  rcases r2 with r2 | ⟨a, c, r2⟩
                  · rw [r2] at hu; cases hu
                  · rw [r2] at hu; cases hu
    rcases hb.travel tf d.symbol with h1 | ⟨p, h1, h2⟩ | ⟨h1, h2⟩ | ⟨e, e', r, h1, h2, h3⟩
    · exact hno h1
    · rw [h2] at hrun
      have : p = .statesUnderflow := by injection hrun
      rw [this] at h2
      exact hno h2
    · rw [h2] at hrun; cases hrun
    · rw [h2] at hrun
      have h1' := (Dfa.travel_le (Nat.le_add_right tf 2) d d.symbol).ok h1
      rcases h.travel_cases hinv hs hT' (n := tf + 2) (by omega) with
        ⟨c', d2, m, hs', e2⟩ | ⟨ha, e2⟩ | ⟨d2, er, hfl, e2⟩ | ⟨p, hp, e2⟩
      · rw [e2] at h1'; cases h1'
        exact ih (hm.tail m) hs' h3 hrun
      · rw [e2] at h1'; cases h1'
        have hrun' : Dfa.trace id tf n e' = .panic .statesUnderflow := hrun
        have : e'.finished = true := h3.finished
        cases n with
        | zero => cases hrun'
        | succ n => unfold Dfa.trace at hrun'; rw [this] at hrun'; cases hrun'
      · rw [e2] at h1'; cases h1'
        cases hrun
      · rw [e2] at h1'; cases h1'

end Lrp
