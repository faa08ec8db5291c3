import Verif.Spec.Hang
import Verif.Proofs.Again
import Verif.Proofs.Lalr1
import Verif.Proofs.Halt
import Verif.Proofs.Reach

/-! Runs that meet a token of a nonterminal type. -/

set_option linter.unusedSectionVars false

namespace Lrp
open Spec
variable {T : Type} [LinOrd T] [DecidableEq T] {M : Type}

/-! ### Runs from a reached `Dfa` and runs from the start -/

theorem trace_step {d d' : Dfa M T} {k : Nat} (hf : d.finished = false)
    (h : Dfa.travel k d d.symbol = .ok (d', .ok ())) {tf n : Nat} {r : DfaRes M T Unit}
    (hr : Dfa.trace id tf n d' = .ok r) : Dfa.trace id (k + tf) (n + 1) d = .ok r := by
  unfold Dfa.trace
  rw [hf]
  simp only [Bool.false_eq_true, if_false, id]
  rw [(Dfa.travel_le (Nat.le_add_right k tf) d d.symbol).ok h]
  simp only [Out.ok_bind]
  exact (Dfa.trace_le (Nat.le_add_left tf k) (Nat.le_refl n) d').ok hr

theorem trace_step_fuel {d d' : Dfa M T} {k : Nat} (hf : d.finished = false)
    (h : Dfa.travel k d d.symbol = .ok (d', .ok ())) (hr : ∀ tf n, Dfa.trace id tf n d' = .fuel) (tf n : Nat) :
    Dfa.trace id tf n d = .fuel := by
  cases n with
  | zero => rfl
  | succ n =>
    unfold Dfa.trace
    rw [hf]
    simp only [Bool.false_eq_true, if_false, id]
    rcases Dfa.travel_le (Nat.le_add_right tf k) d d.symbol with h1 | h1
    · rw [h1]; rfl
    · rw [h1, (Dfa.travel_le (Nat.le_add_left k tf) d d.symbol).ok h]
      simp only [Out.ok_bind]
      exact hr tf n

section
variable {t : Tabler T} {maps : ReductMap M T} {toks : List (Token M T)}

theorem reached_error {d d' : Dfa M T} {e : Error T} (hd : Reached t maps toks d) :
    (∃ tf n, Dfa.trace id tf n d = .ok (d', .error e)) → Parses t maps toks (.error e) := by
  induction hd with
  | @init d hi =>
    rintro ⟨tf, n, h⟩
    refine ⟨tf + n, ?_⟩
    unfold Parser.parse
    simp only [hi, Out.ok_bind]
    unfold Dfa.start
    rw [(Dfa.trace_le (Nat.le_add_right tf n) (Nat.le_add_left n tf) d).ok h]
    rfl
  | step _ hf hrun ih =>
    rintro ⟨tf, n, h⟩
    exact ih ⟨_, _, trace_step hf hrun h⟩

theorem reached_fuel {d : Dfa M T} (hd : Reached t maps toks d) :
    (∀ tf n, Dfa.trace id tf n d = .fuel) → Diverges (fun n => Parser.parse t n toks maps) := by
  induction hd with
  | @init d hi =>
    intro h n
    unfold Parser.parse
    simp only [hi, Out.ok_bind]
    unfold Dfa.start
    rw [h]
    rfl
  | step _ hf hrun ih => exact fun h => ih (trace_step_fuel hf hrun h)

end

/-! ### In front of a token of a nonterminal type -/

section
variable {D : Decls T} {S : T} {b0 : List T} {states : List (State T)} {acts : ActTable T}
  {next : State T → T → Option Nat} {red : Position T → T → Prop} {eof : T} {maps : ReductMap M T}

/-- `GotoColumns`, of a table of actions. -/
def GotoCols (D : Decls T) (acts : ActTable T) : Prop :=
  ∀ (i : Nat) A c, Nonterminal D A → cellAt acts i A = some c → ∃ j, c = .goto j

theorem Spec.GotoColumns.cols {t : Tabler T} (h : GotoColumns D t) : GotoCols D t.actions := by
  intro i A c hA hc
  obtain ⟨row, h1, h2⟩ := Option.bind_eq_some_iff.mp hc
  exact h i row A c h1 hA h2

/-- The states on a path are not empty. -/
theorem Auto.path_item (h : Auto D S b0 states acts next red) {i : Nat} {st : List Nat} {syms : List T}
    (hp : Path states next (i :: st) syms) : ∃ s q, states[i]? = some s ∧ q ∈ s := by
  cases hp with
  | base =>
    obtain ⟨s, p, h1, h2, _⟩ := h.basis
    exact ⟨s, p, h1, h2⟩
  | cons h1 h2 h3 h4 h5 =>
    obtain ⟨j, s', e1, _, e2, _, e3⟩ := h.edge h2 h3 h4
    rw [h5] at e1; cases e1
    obtain ⟨q, hq, _⟩ := e3 _ h3 h4
    exact ⟨s', q, e2, hq⟩

/-- Something is valid for what a path spells. -/
theorem Auto.path_valid (h : Auto D S b0 states acts next red) (he : Terminal D eof) (hS : SingleStart D S)
    (hpr : AllProductive D) {i : Nat} {st : List Nat} {γ : List T} (hp : Path states next (i :: st) γ.reverse) :
    ∃ B k β₁ β₂, ValidItem D S γ B k β₁ β₂ := by
  obtain ⟨s, q, hs, hq⟩ := h.path_item hp
  have hl := (h.prod hs hq).2
  exact ⟨q.rule, q.seq.2, q.seq.1.take q.point, q.seq.1.drop q.point,
    (h.valid_iff he hS hpr hp hs _ _ _ _).mpr ⟨q, hq, rfl, by simp, by simp [hl]⟩⟩

/-- A goto goes on with the path. -/
theorem Auto.goto_path (h : Auto D S b0 states acts next red) {i j : Nat} {st : List Nat} {γ : List T} {A : T}
    (hp : Path states next (i :: st) γ.reverse) (hc : cellAt acts i A = some (.goto j)) :
    Path states next (j :: i :: st) (γ ++ [A]).reverse := by
  obtain ⟨i0, st0, s, e, hs⟩ := h.path_state hp
  cases e
  rw [List.reverse_append]
  rcases h.cell_dec hs hc (by intro x y; simp) with ⟨p, h1, h2, j', h3, hk⟩ | ⟨p, _, _, _, hk⟩
  · rcases hk with ⟨_, hk⟩ | ⟨_, hk⟩
    · cases hk
    · cases hk
      exact .cons hp hs h1 h2 h3
  · rcases hk with ⟨_, hk⟩ | ⟨_, hk⟩ <;> cases hk

/-- And a path that goes on with a nonterminal has a goto. -/
theorem Auto.valid_goto (h : Auto D S b0 states acts next red) (hg : GotoCols D acts) (he : Terminal D eof)
    (hS : SingleStart D S) {i : Nat} {st : List Nat} {γ : List T} {A : T} (hA : Nonterminal D A)
    (hp : Path states next (i :: st) γ.reverse) {B : T} {k : Nat} {β₁ β₂ : List T}
    (hv : ValidItem D S (γ ++ [A]) B k β₁ β₂) : ∃ j, cellAt acts i A = some (.goto j) := by
  obtain ⟨j, st', s', q, g1, _⟩ := Looks.valid h (h.looks_any (eof := eof)) he hS hv
  rw [List.reverse_append] at g1
  cases g1 with
  | @cons i0 _ st0 _ s p X h1 h2 h3 h4 h5 =>
    have e := hp.unique h1
    cases e
    rcases h.dec_cell h2 (x := A) (a := .goto j) (Or.inl ⟨p, h3, h4, j, h5, Or.inr ⟨hA, rfl⟩⟩) with hc | ⟨a, b, hc⟩
    · exact ⟨j, hc⟩
    · obtain ⟨j, e⟩ := hg i A _ hA hc
      cases e

theorem Spec.Repeats.again {γ : List T} {A : T} (h : Repeats D S γ A) : Repeats D S (γ ++ [A]) A := by
  intro n
  have := h (n + 1)
  rwa [List.replicate_succ, List.append_cons] at this

/-- The step in front of the token: a goto, or the error. -/
theorem stuck_step {d : Dfa M T} {tok : Token M T} {rest : List (Token M T)} {row : OMap T (Action T)}
    (hr : d.table[d.top]? = some row) (hb : d.buffer = tok :: rest) (n : Nat) :
    (row.get? tok.ty = none → Dfa.travel (n + 1) d d.symbol = .ok (d, .error (.unexpectedToken tok.ty row.keys))) ∧
    (∀ j, row.get? tok.ty = some (.goto j) → Dfa.travel (n + 1) d d.symbol = .ok (d.goto j)) := by
  have hsym : d.symbol = tok.ty := by unfold Dfa.symbol; rw [hb]
  rw [hsym]
  unfold Dfa.travel
  rw [hr]
  simp only
  exact ⟨fun h => by rw [h], fun j h => by rw [h]⟩

/-- Gotos without end. -/
theorem Auto.repeats_fuel (h : Auto D S b0 states acts next red) (hg : GotoCols D acts) (he : Terminal D eof)
    (hS : SingleStart D S) {tok : Token M T} {rest : List (Token M T)} (hA : Nonterminal D tok.ty) (tf : Nat) :
    ∀ (n : Nat) {d : Dfa M T} {st : List Nat} {γ : List T}, d.table = acts → d.buffer = tok :: rest →
      d.finished = false → Path states next (d.top :: st) γ.reverse → Repeats D S γ tok.ty →
      Dfa.trace id tf n d = .fuel := by
  intro n
  induction n with
  | zero => intros; rfl
  | succ n ih =>
    intro d st γ htab hbuf hfin hp hrep
    obtain ⟨B, k, β₁, β₂, hv⟩ := hrep 1
    obtain ⟨j, hc⟩ := h.valid_goto hg he hS hA hp hv
    have hp' := h.goto_path hp hc
    obtain ⟨row, h1, h2⟩ := Option.bind_eq_some_iff.mp hc
    unfold Dfa.trace
    rw [hfin]
    simp only [Bool.false_eq_true, if_false, id]
    cases tf with
    | zero => rfl
    | succ tf =>
      rw [(stuck_step (by rw [htab]; exact h1) hbuf tf).2 j h2]
      simp only [Out.ok_bind, Dfa.goto]
      exact ih (d := { d with states := j :: d.states, top := j }) htab hbuf hfin hp' hrep.again

/-- If the error is not reported, there are gotos without end. -/
theorem Auto.stuck_error (h : Auto D S b0 states acts next red) (hg : GotoCols D acts) (he : Terminal D eof)
    (hS : SingleStart D S) (hpr : AllProductive D) {tok : Token M T} {rest : List (Token M T)}
    (hA : Nonterminal D tok.ty) :
    ∀ (n : Nat) {d : Dfa M T} {st : List Nat} {γ : List T}, d.table = acts → d.buffer = tok :: rest →
      d.finished = false → Path states next (d.top :: st) γ.reverse →
      (¬ ∃ tf m d' es, Dfa.trace id tf m d = .ok (d', .error (.unexpectedToken tok.ty es))) →
      ∃ B k β₁ β₂, ValidItem D S (γ ++ List.replicate n tok.ty) B k β₁ β₂ := by
  intro n
  induction n with
  | zero =>
    intro d st γ _ _ _ hp _
    simpa using h.path_valid he hS hpr hp
  | succ n ih =>
    intro d st γ htab hbuf hfin hp hno
    obtain ⟨i0, st0, s, e, hs⟩ := h.path_state hp
    cases e
    obtain ⟨row, hr⟩ := h.row hs
    have hr' : d.table[d.top]? = some row := by rw [htab]; exact hr
    cases hc : row.get? tok.ty with
    | none =>
      refine absurd ⟨1, 1, d, row.keys, ?_⟩ hno
      unfold Dfa.trace
      rw [hfin]
      simp only [Bool.false_eq_true, if_false, id]
      rw [(stuck_step hr' hbuf 0).1 hc]
      rfl
    | some c =>
      have hcell : cellAt acts d.top tok.ty = some c := by rw [cellAt_none hr]; exact hc
      obtain ⟨j, rfl⟩ := hg _ _ _ hA hcell
      have := ih (d := { d with states := j :: d.states, top := j }) htab hbuf hfin (h.goto_path hp hcell)
        (fun ⟨tf, m, d', es, hk⟩ => hno ⟨1 + tf, m + 1, d', es,
          trace_step hfin ((stuck_step hr' hbuf 0).2 j hc) hk⟩)
      rwa [List.append_assoc, List.singleton_append, ← List.replicate_succ] at this

/-- Moves are made in front of terminals only. -/
theorem GotoCols.move (hg : GotoCols D acts) {c c' : Conf M T}
    (m : Move acts eof c c') : Terminal D (lookSym eof c.buf) := by
  refine Classical.byContradiction fun hn => ?_
  have hn := not_terminal_iff.mp hn
  cases m with
  | shift h1 =>
    obtain ⟨j, e⟩ := hg _ _ _ hn h1
    cases e
  | reduce h1 _ _ _ =>
    obtain ⟨j, e⟩ := hg _ _ _ hn h1
    cases e

end

/-! ### Reached `Dfa`s, for any tokens -/

section
variable {D : Decls T} {S : T} {b0 : List T} {t : Tabler T}
  {next : State T → T → Option Nat} {red : Position T → T → Prop} {eof : T} {maps : ReductMap M T}

/-- A reached `Dfa` that has not accepted agrees with a configuration, or stands in front of a token of a
nonterminal type with more states than items allow. -/
theorem Auto.reached_any (h : Auto D S b0 t.states t.actions next red) (hg : GotoCols D t.actions)
    (hdfa : t.grammar.basis.look.head? = some eof) (he : Terminal D eof)
    {toks : List (Token M T)} {d : Dfa M T} (hd : Reached t maps toks d) :
    (∃ c, InvC D t.states next c ∧ Sim t.actions eof maps d c) ∨ (d.finished = true ∧ d.buffer = []) ∨
      (d.items.length + 1 < d.states.length ∧ d.table = t.actions ∧ d.finished = false ∧
        ∃ tok rest, d.buffer = tok :: rest ∧ Nonterminal D tok.ty) := by
  induction hd with
  | init hi =>
    unfold Parser.dfa at hi
    rw [hdfa] at hi
    cases hi
    exact Or.inl ⟨_, inv_init D t.states next toks, sim_init t.actions eof maps toks⟩
  | @step d d' n hr hf hrun ih =>
    -- in front of a nonterminal
    have stuck : ∀ tok rest, d.buffer = tok :: rest → Nonterminal D tok.ty → d.table = t.actions →
        d.items.length + 1 ≤ d.states.length → d'.items.length + 1 < d'.states.length ∧ d'.table = t.actions ∧
          d'.finished = false ∧ ∃ tok rest, d'.buffer = tok :: rest ∧ Nonterminal D tok.ty := by
      intro tok rest hb hA htab hle
      cases n with
      | zero => cases hrun
      | succ n =>
        cases hrow : d.table[d.top]? with
        | none => unfold Dfa.travel at hrun; rw [hrow] at hrun; cases hrun
        | some row =>
          have hrow' : t.actions[d.top]? = some row := by rw [← htab]; exact hrow
          cases hc : row.get? tok.ty with
          | none => rw [(stuck_step hrow hb n).1 hc] at hrun; cases hrun
          | some c =>
            obtain ⟨j, rfl⟩ := hg d.top tok.ty c hA (by rw [cellAt_none hrow']; exact hc)
            rw [(stuck_step hrow hb n).2 j hc] at hrun
            cases hrun
            exact ⟨by simp only [List.length_cons]; omega, htab, hf, tok, rest, hb, hA⟩
    rcases ih with ⟨c, hi, hs⟩ | ⟨h1, _⟩ | ⟨h1, h2, _, tok, rest, h4, h5⟩
    · by_cases hT : Terminal D (lookSym eof c.buf)
      · have hrun' := (Dfa.travel_le (Nat.le_add_right n 2) d d.symbol).ok hrun
        rcases h.travel_cases hi hs hT (n := n + 2) (by omega) with
          ⟨c', d2, m, hs', e⟩ | ⟨ha, e⟩ | ⟨d2, er, hfl, e⟩ | ⟨p, hp, e⟩
        · rw [e] at hrun'; cases hrun'
          exact Or.inl ⟨c', h.inv_move hi m, hs'⟩
        · rw [e] at hrun'; cases hrun'
          obtain ⟨_, _, _, _, hb⟩ := ha
          exact Or.inr (Or.inl ⟨rfl, hs.buffer.trans hb⟩)
        · rw [e] at hrun'; cases hrun'
        · rw [e] at hrun'; cases hrun'
      · have hN := not_terminal_iff.mp hT
        cases hb : c.buf with
        | nil => rw [hb] at hT; exact absurd he hT
        | cons tok rest =>
          rw [hb] at hN
          refine Or.inr (Or.inr (stuck tok rest (hs.buffer.trans hb) hN hs.table ?_))
          have h1 := hi.path.length
          have h2 := congrArg List.length hs.items
          simp only [List.length_map] at h1 h2
          rw [hs.states]
          omega
    · rw [hf] at h1; cases h1
    · exact Or.inr (Or.inr (stuck tok rest h4 h5 h2 (by omega)))

/-- The path of a `Dfa` with as many states as items allow. -/
theorem Auto.reached_path (h : Auto D S b0 t.states t.actions next red) (hg : GotoCols D t.actions)
    (hdfa : t.grammar.basis.look.head? = some eof) (he : Terminal D eof)
    {toks : List (Token M T)} {d : Dfa M T} (hd : Reached t maps toks d) {tok : Token M T}
    {rest : List (Token M T)} (hb : d.buffer = tok :: rest) (hbal : d.states.length = d.items.length + 1) :
    d.table = t.actions ∧ d.finished = false ∧ ∃ st, Path t.states next (d.top :: st) (stackSyms d).reverse := by
  rcases h.reached_any hg hdfa he hd with ⟨c, hi, hs⟩ | ⟨_, h1⟩ | ⟨h1, _⟩
  · refine ⟨hs.table, hs.finished, ?_⟩
    have hp := hi.path
    rw [← hs.tys] at hp
    have htop := hs.top
    cases hst : c.states with
    | nil => rw [hst] at htop; cases htop
    | cons i st =>
      rw [hst] at htop hp
      cases htop
      exact ⟨st, by unfold stackSyms; rw [← List.map_reverse, List.reverse_reverse]; exact hp⟩
  · rw [hb] at h1; cases h1
  · omega

/-! ### Runs that come to an end -/

/-- The configuration with more tokens behind the input. -/
def Conf.more (c : Conf M T) (ts : List (Token M T)) : Conf M T := ⟨c.states, c.trees, c.buf ++ ts⟩

theorem lookSym_more {buf ts : List (Token M T)} (h : buf ≠ []) :
    lookSym eof (buf ++ ts) = lookSym eof buf := by
  cases buf with
  | nil => exact absurd rfl h
  | cons _ _ => rfl

theorem Move.more {acts : ActTable T} {c c' : Conf M T} (m : Move acts eof c c') (hb : c.buf ≠ [])
    (ts : List (Token M T)) : Move acts eof (c.more ts) (c'.more ts) := by
  cases m with
  | shift h1 => exact .shift h1
  | reduce h1 h2 h3 h4 => exact .reduce (by rw [lookSym_more hb]; exact h1) h2 h3 h4

theorem Moves.more {acts : ActTable T} {c c' : Conf M T} (hm : Moves acts eof c c') (ts : List (Token M T)) :
    ∃ e, Moves acts eof c e ∧ Moves acts eof (c.more ts) (e.more ts) ∧ (e = c' ∨ e.buf = []) := by
  induction hm with
  | refl c => exact ⟨c, .refl _, .refl _, Or.inl rfl⟩
  | @head c d e m _ ih =>
    by_cases hb : c.buf = []
    · exact ⟨c, .refl _, .refl _, Or.inr hb⟩
    · obtain ⟨e', h1, h2, h3⟩ := ih
      exact ⟨e', .head m h1, .head (m.more hb ts) h2, h3⟩

theorem Fails.more {acts : ActTable T} {c : Conf M T} {e : Error T} (hf : Fails acts eof c e) (hb : c.buf ≠ [])
    (ts : List (Token M T)) : ∃ e, Fails acts eof (c.more ts) e := by
  cases hf with
  | noAction h1 h2 => exact ⟨_, .noAction h1 (by rw [lookSym_more hb]; exact h2)⟩
  | eof h1 => exact absurd rfl hb
  | conflict h1 => exact ⟨_, .conflict (by rw [lookSym_more hb]; exact h1)⟩
  | incomplete h1 h2 => exact ⟨_, .incomplete (by rw [lookSym_more hb]; exact h1) (by simp only; simp_all)⟩
  | conflict' h1 h2 h3 h4 => exact ⟨_, .conflict' (by rw [lookSym_more hb]; exact h1) h2 h3 h4⟩

/-- A run that gets to a `Dfa` from which it returns, returns. -/
theorem Auto.returns_moves {states : List (State T)} {acts : ActTable T}
    (h : Auto D S b0 states acts next red) (hg : GotoCols D acts)
    (hred : Reductors D maps) {c c' : Conf M T} (hm : Moves acts eof c c')
    (hend : ∀ d, Sim acts eof maps d c' → ∃ tf n r, Dfa.trace id tf n d = .ok r) :
    ∀ {d : Dfa M T}, InvC D states next c → Sim acts eof maps d c → ∃ tf n r, Dfa.trace id tf n d = .ok r := by
  induction hm with
  | refl c => exact fun _ hs => hend _ hs
  | head m _ ih =>
    intro d hi hs
    rcases h.travel_cases hi hs (hg.move m) (n := 2) (by omega) with
      ⟨c', d', m', hs', e⟩ | ⟨ha, _⟩ | ⟨d', er, hfl, _⟩ | ⟨p, hp, _⟩
    · have := m.det m'; subst this
      obtain ⟨tf, n, r, hr⟩ := ih hend (h.inv_move hi m) hs'
      exact ⟨_, _, r, trace_step hs.finished e hr⟩
    · exact (ha.no_move m).elim
    · exact (hfl.no_move m).elim
    · exact (hp.1.false (hred.evaluates _)).elim

/-- A run that stops in front of a terminal returns. -/
theorem Auto.returns_fails {states : List (State T)} {acts : ActTable T}
    (h : Auto D S b0 states acts next red)
    (hred : Reductors D maps) {c : Conf M T} {e : Error T} (hf : Fails acts eof c e)
    (hT : Terminal D (lookSym eof c.buf)) {d : Dfa M T} (hi : InvC D states next c) (hs : Sim acts eof maps d c) :
    ∃ tf n r, Dfa.trace id tf n d = .ok r := by
  rcases h.travel_cases hi hs hT (n := 2) (by omega) with
    ⟨c', d', m', hs', _⟩ | ⟨ha, _⟩ | ⟨d', er, hfl, e⟩ | ⟨p, hp, _⟩
  · exact (hf.no_move m').elim
  · exact absurd hf (fun hf => ha.not_fails hf)
  · refine ⟨2, 1, (d', .error er), ?_⟩
    unfold Dfa.trace
    rw [hs.finished]
    simp only [Bool.false_eq_true, if_false, id]
    rw [e]
    rfl
  · exact (hp.1.false (hred.evaluates _)).elim

end

end Lrp
