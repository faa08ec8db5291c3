import Verif.Proofs.Runs

/-! The states of a `Dfa` during a run; `Dfa::parse` against `Parser::parse`. -/

set_option linter.unusedSectionVars false

namespace Lrp
open Spec
variable {T : Type} [LinOrd T] [DecidableEq T] {M : Type}

/-! ### Any table -/

/-- Trees for the items: their leaves followed by the buffer are the input. -/
def Holds (maps : ReductMap M T) (toks : List (Token M T)) (d : Dfa M T) : Prop :=
  d.reductors = maps ∧ ∃ trs : List (Tree M T), Tree.yields trs.reverse ++ d.buffer = toks ∧
    trs.map (valTok (redOf maps)) = d.items.map some

theorem Holds.reduce {maps : ReductMap M T} {toks : List (Token M T)} {d d' : Dfa M T} {A : T}
    {prod : Production T} (h : Holds maps toks d) (hr : d.reduceStacks A prod = .ok d') :
    Holds maps toks d' := by
  obtain ⟨b, k⟩ := prod
  obtain ⟨hm, trs, h1, h2⟩ := h
  unfold Dfa.reduceStacks at hr
  obtain ⟨_, ha, hr⟩ := Out.bind_eq_ok.mp hr
  obtain ⟨fs, hfs, hr⟩ := Out.bind_eq_ok.mp hr
  obtain ⟨f, hf, hr⟩ := Out.bind_eq_ok.mp hr
  obtain ⟨v, hv, hr⟩ := Out.bind_eq_ok.mp hr
  obtain ⟨tp, _, hr⟩ := Out.bind_eq_ok.mp hr
  cases hr
  simp only at ha hfs hf hv
  have hfs' : d.reductors.get? A = some fs := by
    cases hg : d.reductors.get? A with
    | none => rw [hg] at hfs; cases hfs
    | some y => rw [hg] at hfs; cases hfs; rfl
  have hf' : fs[k]? = some f := by
    cases hg : fs[k]? with
    | none => rw [hg] at hf; cases hf
    | some y => rw [hg] at hf; cases hf; rfl
  have hv' : f (d.items.take b.length).reverse = some v := by
    cases hg : f (d.items.take b.length).reverse with
    | none => rw [hg] at hv; cases hv
    | some y => rw [hg] at hv; cases hv; rfl
  refine ⟨hm, .node A k (trs.take b.length).reverse :: trs.drop b.length, ?_, ?_⟩
  · simp only [List.reverse_cons, Tree.yields_append, Tree.yields_singleton, Tree.yield_node]
    rw [← Tree.yields_append, ← List.reverse_append, List.take_append_drop]
    exact h1
  · have hits : (trs.take b.length).reverse.map (valTok (redOf maps)) =
        ((d.items.take b.length).reverse).map some := by
      rw [List.map_reverse, List.map_reverse, List.map_take, List.map_take, h2]
    have hev := evals_iff.mpr hits
    simp only [List.map_cons, List.map_drop, h2, List.cons.injEq, and_true]
    unfold valTok
    rw [Tree.eval, hev]
    simp only [Option.bind_some, redOf, ← hm, hfs', hf', hv', Option.map_some]
    rfl

theorem Holds.travel {maps : ReductMap M T} {toks : List (Token M T)} (n : Nat) :
    ∀ {d d' : Dfa M T} {x : T} {r : Except (Error T) Unit}, Holds maps toks d →
      Dfa.travel n d x = .ok (d', r) → Holds maps toks d' := by
  induction n with
  | zero => intro d d' x r _ h; cases h
  | succ n ih =>
    intro d d' x r hh hrun
    unfold Dfa.travel at hrun
    cases hr : d.table[d.top]? with
    | none => rw [hr] at hrun; cases hrun; exact hh
    | some row =>
      rw [hr] at hrun
      simp only at hrun
      cases hg : row.get? x with
      | none => rw [hg] at hrun; cases hrun; exact hh
      | some a =>
        rw [hg] at hrun
        cases a with
        | shift j =>
          simp only [Dfa.shift] at hrun
          cases hb : d.buffer with
          | nil => rw [hb] at hrun; cases hrun; exact hh
          | cons tok rest =>
            rw [hb] at hrun
            cases hrun
            obtain ⟨hm, trs, h1, h2⟩ := hh
            refine ⟨hm, .leaf tok :: trs, ?_, ?_⟩
            · rw [hb] at h1
              simpa [Tree.yields_singleton] using h1
            · simp [h2, valTok, Tree.eval, Tree.root]
        | goto j => cases hrun; exact hh
        | acc =>
          simp only [Dfa.accept] at hrun
          cases hb : d.buffer with
          | nil => rw [hb] at hrun; cases hrun; unfold Holds at hh; rw [hb] at hh; exact hh
          | cons tok rest => rw [hb] at hrun; cases hrun; unfold Holds at hh; rw [hb] at hh; exact hh
        | conflict a b => cases hrun; exact hh
        | reduce A prod =>
          simp only at hrun
          obtain ⟨d1, h1, h2⟩ := Out.bind_eq_ok.mp hrun
          exact ih (hh.reduce h1) h2

theorem Spec.Reached.holds {t : Tabler T} {maps : ReductMap M T} {toks : List (Token M T)}
    {d : Dfa M T} (h : Reached t maps toks d) : Holds maps toks d := by
  induction h with
  | init h =>
    unfold Parser.dfa at h
    obtain ⟨e, _, h⟩ := Out.bind_eq_ok.mp h
    cases h
    exact ⟨rfl, [], rfl, rfl⟩
  | step _ _ h ih => exact ih.travel _ h

/-- The `Dfa` with which a run ends was reached, or one more iteration leads to the error. -/
theorem trace_reached {t : Tabler T} {maps : ReductMap M T} {toks : List (Token M T)} (tf : Nat) :
    ∀ (n : Nat) {d d' : Dfa M T} {r : Except (Error T) Unit}, Reached t maps toks d →
      Dfa.trace id tf n d = .ok (d', r) →
      (r = .ok () ∧ Reached t maps toks d' ∧ d'.finished = true) ∨
      ∃ e d0, r = .error e ∧ Reached t maps toks d0 ∧ d0.finished = false ∧
        Dfa.travel tf d0 d0.symbol = .ok (d', .error e) := by
  intro n
  induction n with
  | zero => intro d d' r _ h; cases h
  | succ n ih =>
    intro d d' r hd hrun
    unfold Dfa.trace at hrun
    cases hf : d.finished with
    | true =>
      rw [hf] at hrun
      simp only [if_true] at hrun
      cases hrun
      exact Or.inl ⟨rfl, hd, hf⟩
    | false =>
      rw [hf] at hrun
      simp only [Bool.false_eq_true, if_false, id] at hrun
      obtain ⟨⟨d1, r1⟩, h1, h2⟩ := Out.bind_eq_ok.mp hrun
      cases r1 with
      | error e =>
        cases h2
        exact Or.inr ⟨e, d, rfl, hd, hf, h1⟩
      | ok u => exact ih (.step hd hf h1) h2

theorem parse_reached {t : Tabler T} {maps : ReductMap M T} {toks : List (Token M T)} {v : M}
    (h : Parses t maps toks (.ok v)) :
    ∃ d it its, Reached t maps toks d ∧ d.finished = true ∧ d.items = it :: its ∧ it.item = v := by
  obtain ⟨n, h⟩ := h
  unfold Parser.parse at h
  obtain ⟨d, h1, h⟩ := Out.bind_eq_ok.mp h
  obtain ⟨⟨d', r⟩, h2, h⟩ := Out.bind_eq_ok.mp h
  rcases trace_reached n n (.init h1) h2 with ⟨rfl, h3, h4⟩ | ⟨e, d0, rfl, _⟩
  · simp only at h
    cases hi : d'.items with
    | nil => rw [hi] at h; cases h
    | cons it its =>
      rw [hi] at h
      cases h
      exact ⟨d', it, its, h3, h4, hi, rfl⟩
  · cases h

/-- Finishing empties the buffer. -/
theorem travel_finished (n : Nat) : ∀ {d d' : Dfa M T} {x : T}, d.finished = false →
    Dfa.travel n d x = .ok (d', .ok ()) → d'.finished = true → d'.buffer = [] := by
  induction n with
  | zero => intro d d' x _ h; cases h
  | succ n ih =>
    intro d d' x hf hrun hf'
    unfold Dfa.travel at hrun
    cases hr : d.table[d.top]? with
    | none => rw [hr] at hrun; cases hrun
    | some row =>
      rw [hr] at hrun
      simp only at hrun
      cases hg : row.get? x with
      | none => rw [hg] at hrun; cases hrun
      | some a =>
        rw [hg] at hrun
        cases a with
        | shift j =>
          simp only [Dfa.shift] at hrun
          cases hb : d.buffer with
          | nil => rw [hb] at hrun; cases hrun
          | cons tok rest =>
            rw [hb] at hrun; cases hrun
            rw [hf] at hf'; cases hf'
        | goto j => cases hrun; rw [hf] at hf'; cases hf'
        | acc =>
          simp only [Dfa.accept] at hrun
          cases hb : d.buffer with
          | nil => rw [hb] at hrun; cases hrun; rfl
          | cons tok rest => rw [hb] at hrun; cases hrun
        | conflict a b => cases hrun
        | reduce A prod =>
          simp only at hrun
          obtain ⟨d1, h1, h2⟩ := Out.bind_eq_ok.mp hrun
          exact ih ((reduceStacks_frame h1).2.2.1.trans hf) h2 hf'

theorem Spec.Reached.finished {t : Tabler T} {maps : ReductMap M T} {toks : List (Token M T)}
    {d : Dfa M T} (h : Reached t maps toks d) (hf : d.finished = true) : d.buffer = [] := by
  cases h with
  | init h =>
    unfold Parser.dfa at h
    obtain ⟨e, _, h⟩ := Out.bind_eq_ok.mp h
    cases h
    cases hf
  | step _ h1 h2 => exact travel_finished _ h1 h2 hf

/-! ### Built tables -/

section
variable {D : Decls T} {S : T} {b0 : List T} {t : Tabler T}
  {next : State T → T → Option Nat} {red : Position T → T → Prop} {eof : T} {maps : ReductMap M T}

/-- A reached `Dfa` agrees with a configuration reached by moves; or it has accepted. -/
theorem Auto.reached (h : Auto D S b0 t.states t.actions next red)
    (hdfa : t.grammar.basis.look.head? = some eof) (he : Terminal D eof)
    {toks : List (Token M T)} (hT : TerminalToks D toks) {d : Dfa M T}
    (hd : Reached t maps toks d) : ∃ c, Moves t.actions eof ⟨[0], [], toks⟩ c ∧
      (Sim t.actions eof maps d c ∨
        ∃ d0, Sim t.actions eof maps d0 c ∧ Accepts t.actions eof c ∧
          d = { d0 with finished := true }) := by
  induction hd with
  | init hi =>
    unfold Parser.dfa at hi
    rw [hdfa] at hi
    cases hi
    exact ⟨_, .refl _, Or.inl (sim_init t.actions eof maps toks)⟩
  | @step d d' n hr hf hrun ih =>
    obtain ⟨c, hm, hs | ⟨d0, _, _, e⟩⟩ := ih
    · have hinv := h.inv_moves (inv_init (M := M) D t.states next toks) hm
      have hT' := terminal_lookSym he (fun tk ht => hT tk (hm.buf_suffix tk ht))
      have hrun' := (Dfa.travel_le (Nat.le_add_right n 2) d d.symbol).ok hrun
      rcases h.travel_cases hinv hs hT' (n := n + 2) (by omega) with
        ⟨c', d2, m, hs', e⟩ | ⟨ha, e⟩ | ⟨d2, er, hfl, e⟩ | ⟨p, hp, e⟩
      · rw [e] at hrun'; cases hrun'
        exact ⟨c', hm.tail m, Or.inl hs'⟩
      · rw [e] at hrun'; cases hrun'
        exact ⟨c, hm, Or.inr ⟨d, hs, ha, rfl⟩⟩
      · rw [e] at hrun'; cases hrun'
      · rw [e] at hrun'; cases hrun'
    · rw [e] at hf; cases hf

end

/-! ### `Dfa::parse` -/

/-- The same except that the bottom of the state stack is missing. -/
structure NoBottom (d d' : Dfa M T) : Prop where
  buffer : d'.buffer = d.buffer
  items : d'.items = d.items
  table : d'.table = d.table
  top : d'.top = d.top
  finished : d'.finished = d.finished
  reductors : d'.reductors = d.reductors
  eof : d'.eof = d.eof
  states : d.states = d'.states ++ [0]

theorem NoBottom.reduce {d d' : Dfa M T} (h : NoBottom d d') (A : T) (prod : Production T) :
    d'.reduceStacks A prod = .panic .statesUnderflow ∨
    (∃ p, d.reduceStacks A prod = .panic p ∧ d'.reduceStacks A prod = .panic p) ∨
    ∃ e e', d.reduceStacks A prod = .ok e ∧ d'.reduceStacks A prod = .ok e' ∧ NoBottom e e' := by
  unfold Dfa.reduceStacks
  rw [h.items, h.reductors]
  simp only
  cases h1 : Out.assert Panic.itemsUnderflow (decide (prod.1.length ≤ d.items.length)) with
  | panic p => right; left; exact ⟨p, rfl, rfl⟩
  | fuel => unfold Out.assert at h1; split at h1 <;> cases h1
  | ok u =>
    simp only [Out.ok_bind]
    cases h2 : d.reductors.get? A with
    | none => right; left; exact ⟨_, rfl, rfl⟩
    | some fs =>
      simp only [Out.ofOption_some, Out.ok_bind]
      cases h3 : fs[prod.2]? with
      | none => right; left; exact ⟨_, rfl, rfl⟩
      | some f =>
        simp only [Out.ofOption_some, Out.ok_bind]
        cases h4 : f (d.items.take prod.1.length).reverse with
        | none => right; left; exact ⟨_, rfl, rfl⟩
        | some v =>
          simp only [Out.ofOption_some, Out.ok_bind]
          cases h5 : d'.states[prod.1.length]? with
          | none => left; rfl
          | some i =>
            right; right
            obtain ⟨hlt, hi⟩ := List.getElem?_eq_some_iff.mp h5
            have h6 : d.states[prod.1.length]? = some i := by
              rw [h.states, List.getElem?_append_left hlt]; exact h5
            rw [h6]
            refine ⟨_, _, rfl, rfl, ?_⟩
            refine ⟨h.buffer, rfl, h.table, rfl, h.finished, rfl, h.eof, ?_⟩
            simp only
            rw [h.states, List.drop_append_of_le_length (by omega)]

theorem NoBottom.travel (n : Nat) : ∀ {d d' : Dfa M T}, NoBottom d d' → ∀ x : T,
    Dfa.travel n d' x = .panic .statesUnderflow ∨
    (∃ p, Dfa.travel n d x = .panic p ∧ Dfa.travel n d' x = .panic p) ∨
    (Dfa.travel n d x = .fuel ∧ Dfa.travel n d' x = .fuel) ∨
    ∃ e e' r, Dfa.travel n d x = .ok (e, r) ∧ Dfa.travel n d' x = .ok (e', r) ∧ NoBottom e e' := by
  induction n with
  | zero => intro d d' _ x; exact Or.inr (Or.inr (Or.inl ⟨rfl, rfl⟩))
  | succ n ih =>
    intro d d' h x
    unfold Dfa.travel
    rw [h.table, h.top]
    cases hr : d.table[d.top]? with
    | none => right; right; right; exact ⟨d, d', _, rfl, rfl, h⟩
    | some row =>
      simp only
      cases hg : row.get? x with
      | none => right; right; right; exact ⟨d, d', _, rfl, rfl, h⟩
      | some a =>
        cases a with
        | shift j =>
          right; right; right
          simp only [Dfa.shift, h.buffer]
          cases hb : d.buffer with
          | nil => exact ⟨d, d', _, rfl, rfl, h⟩
          | cons tok rest =>
            exact ⟨_, _, _, rfl, rfl, ⟨rfl, by simp [h.items], h.table, rfl, h.finished, h.reductors,
              h.eof, by simp [h.states]⟩⟩
        | goto j =>
          right; right; right
          exact ⟨_, _, _, rfl, rfl, ⟨h.buffer, h.items, h.table, rfl, h.finished, h.reductors, h.eof,
            by simp [h.states]⟩⟩
        | acc =>
          right; right; right
          simp only [Dfa.accept, h.buffer]
          cases hb : d.buffer with
          | nil =>
            refine ⟨_, _, _, rfl, rfl, ?_⟩
            exact ⟨rfl, h.items, h.table, h.top, rfl, h.reductors, h.eof, h.states⟩
          | cons tok rest =>
            refine ⟨_, _, _, rfl, rfl, ?_⟩
            exact ⟨rfl, h.items, h.table, h.top, rfl, h.reductors, h.eof, h.states⟩
        | conflict a b => right; right; right; exact ⟨d, d', _, rfl, rfl, h⟩
        | reduce A prod =>
          simp only
          rcases h.reduce A prod with h1 | ⟨p, h1, h2⟩ | ⟨e, e', h1, h2, h3⟩
          · left; rw [h1]; rfl
          · right; left; rw [h1, h2]; exact ⟨p, rfl, rfl⟩
          · rw [h1, h2]
            exact ih h3 A

theorem NoBottom.trace (tf n : Nat) : ∀ {d d' : Dfa M T}, NoBottom d d' →
    Dfa.trace id tf n d' = .panic .statesUnderflow ∨
    (∃ p, Dfa.trace id tf n d = .panic p ∧ Dfa.trace id tf n d' = .panic p) ∨
    (Dfa.trace id tf n d = .fuel ∧ Dfa.trace id tf n d' = .fuel) ∨
    ∃ e e' r, Dfa.trace id tf n d = .ok (e, r) ∧ Dfa.trace id tf n d' = .ok (e', r) ∧
      NoBottom e e' := by
  induction n with
  | zero => intro d d' _; exact Or.inr (Or.inr (Or.inl ⟨rfl, rfl⟩))
  | succ n ih =>
    intro d d' h
    unfold Dfa.trace
    rw [h.finished]
    cases d.finished with
    | true =>
      simp only [if_true]
      right; right; right; exact ⟨d, d', _, rfl, rfl, h⟩
    | false =>
      simp only [Bool.false_eq_true, if_false, id]
      have hsym : d'.symbol = d.symbol := by unfold Dfa.symbol; rw [h.buffer, h.eof]
      rw [hsym]
      rcases h.travel tf d.symbol with h1 | ⟨p, h1, h2⟩ | ⟨h1, h2⟩ | ⟨e, e', r, h1, h2, h3⟩
      · left; rw [h1]; rfl
      · right; left; rw [h1, h2]; exact ⟨p, rfl, rfl⟩
      · right; right; left; rw [h1, h2]; exact ⟨rfl, rfl⟩
      · rw [h1, h2]
        cases r with
        | error er => right; right; right; exact ⟨e, e', _, rfl, rfl, h3⟩
        | ok u => exact ih h3

/-! ### Without its bottom state the stack never loses its first item -/

section
variable {D : Decls T} {S : T} {b0 : List T} {t : Tabler T}
  {next : State T → T → Option Nat} {red : Position T → T → Prop} {eof : T} {maps : ReductMap M T}

/-- The first tree, at the bottom of the stack, is a leaf. -/
def BottomLeaf (c : Conf M T) : Prop := ∀ tr, c.trees.getLast? = some tr → ∃ tok, tr = .leaf tok

theorem reduce_all_panics {d : Dfa M T} {A : T} {prod : Production T}
    (h : d.states.length ≤ prod.1.length) : ∀ e, d.reduceStacks A prod ≠ .ok e := by
  intro e he
  unfold Dfa.reduceStacks at he
  obtain ⟨_, _, he⟩ := Out.bind_eq_ok.mp he
  obtain ⟨_, _, he⟩ := Out.bind_eq_ok.mp he
  obtain ⟨_, _, he⟩ := Out.bind_eq_ok.mp he
  obtain ⟨_, _, he⟩ := Out.bind_eq_ok.mp he
  obtain ⟨_, h1, _⟩ := Out.bind_eq_ok.mp he
  rw [List.getElem?_eq_none h] at h1
  cases h1

theorem Auto.bottom_trace (h : Auto D S b0 t.states t.actions next red)
    (he : Terminal D eof) {toks : List (Token M T)} (hT : TerminalToks D toks) (tf n : Nat) :
    ∀ {d d' e' : Dfa M T} {c : Conf M T}, Moves t.actions eof ⟨[0], [], toks⟩ c →
      Sim t.actions eof maps d c → NoBottom d d' → BottomLeaf c →
      Dfa.trace id tf n d' = .ok (e', .ok ()) →
      ∃ c', Moves t.actions eof ⟨[0], [], toks⟩ c' ∧ Accepts t.actions eof c' ∧ BottomLeaf c' := by
  induction n with
  | zero => intro d d' e' c _ _ _ _ h; cases h
  | succ n ih =>
    intro d d' e' c hm hs hb hq hrun
    have hinv := h.inv_moves (inv_init (M := M) D t.states next toks) hm
    have hT' := terminal_lookSym he (fun tk ht => hT tk (hm.buf_suffix tk ht))
    unfold Dfa.trace at hrun
    rw [hb.finished, hs.finished] at hrun
    simp only [Bool.false_eq_true, if_false, id] at hrun
    have hsym : d'.symbol = d.symbol := by unfold Dfa.symbol; rw [hb.buffer, hb.eof]
    rw [hsym] at hrun
    rcases hb.travel tf d.symbol with h1 | ⟨p, h1, h2⟩ | ⟨h1, h2⟩ | ⟨e, e1', r, h1, h2, h3⟩
    · rw [h1] at hrun; cases hrun
    · rw [h2] at hrun; cases hrun
    · rw [h2] at hrun; cases hrun
    · have hrun' := (Dfa.travel_le (Nat.le_add_right tf 2) d d.symbol).ok h1
      rw [h2] at hrun
      rcases h.travel_cases hinv hs hT' (n := tf + 2) (by omega) with
        ⟨c', d2, m, hs', e2⟩ | ⟨ha, e2⟩ | ⟨d2, er, hfl, e2⟩ | ⟨p, hp, e2⟩
      · rw [e2] at hrun'; cases hrun'
        refine ih (hm.tail m) hs' h3 ?_ hrun
        cases m with
        | @shift i j st trs tok rest hc =>
          intro tr htr
          cases trs with
          | nil => simp at htr; exact ⟨tok, htr.symm⟩
          | cons a l =>
            refine hq tr ?_
            simp only at htr ⊢
            rw [List.getLast?_cons_cons] at htr
            exact htr
        | @reduce i i' j k st trs buf A b hc hl hi' hg =>
          rcases Nat.lt_or_ge b.length trs.length with hlt | hge
          · intro tr htr
            refine hq tr ?_
            simp only at htr ⊢
            have hne : trs.drop b.length ≠ [] := by
              intro e; have := congrArg List.length e; simp at this; omega
            obtain ⟨a, l, el⟩ := List.exists_cons_of_ne_nil hne
            rw [el, List.getLast?_cons_cons, ← el, List.getLast?_drop] at htr
            rw [if_neg (by omega)] at htr
            exact htr
          · exfalso
            cases tf with
            | zero => cases h2
            | succ tf =>
              unfold Dfa.travel at h2
              have htop : d.top = i := by have := hs.top; simp at this; exact this.symm
              unfold cellAt at hc
              obtain ⟨row, hr, hc⟩ := Option.bind_eq_some_iff.mp hc
              rw [hb.table, hs.table, hb.top, htop, hr, hs.symbol] at h2
              simp only [hc] at h2
              obtain ⟨x, hx, _⟩ := Out.bind_eq_ok.mp h2
              refine reduce_all_panics ?_ x hx
              have l1 := hinv.path.length
              have l2 := congrArg List.length hb.states
              rw [hs.states] at l2
              simp at l1 l2
              simp; omega
      · exact ⟨c, hm, ha, hq⟩
      · rw [e2] at hrun'; cases hrun'
        cases hrun
      · rw [e2] at hrun'; cases hrun'

end

end Lrp
