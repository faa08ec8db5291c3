import Verif.Model.Debug
import Verif.Proofs.Again
import Verif.Proofs.AgainLook
import Verif.Proofs.Power
import Verif.Props.Tables
import Verif.Props.Automaton
import Verif.Props.Views

/-! C85: starting a `Dfa` again.  C86: the columns of nonterminals.  C55 once more: `stack_debug`. -/

set_option linter.unusedSectionVars false

namespace Lrp.Props
open Spec
set_option maxRecDepth 100000

variable {T : Type} [LinOrd T] [DecidableEq T] {M : Type}

/-! ### C86 -/

/-- C86, as claimed. -/
def C86_statement : Prop :=
  ∀ (k : Method) (dbg : Bool) (D : Decls Nat) (S eof : Nat) (t : Tabler Nat), Makes k dbg D S eof t →
    Terminal D eof → GotoColumns D t

/-- C86, proved part: in debug builds, and in every build if the two graphs of C06 fold away, a cell under a
nonterminal holds a goto.  Missing: release builds of other grammars, where it is false. -/
theorem C86_columns_partial {k : Method} {dbg : Bool} {D : Decls T} {S eof : T} {t : Tabler T}
    (ht : Makes k dbg D S eof t) (he : Terminal D eof)
    (h : dbg = true ∨ (FoldsAway (Loopless (LeftGraph D)) ∧ FoldsAway (Loopless (RightGraph D)))) :
    GotoColumns D t := by
  obtain ⟨g, n, t0, hg, h0, _, e1, e2⟩ := ht.tabler
  have hc := C08_only_terminals_partial hg h0 (h.imp id (fun h => ⟨he, h.1, h.2⟩))
  refine ht.gotoColumns he (fun A x hx => ?_) (fun A x hx => ?_)
  · rw [e1] at hx
    obtain ⟨F, h1, h2⟩ := hx
    exact hc.1 A F h1 x h2
  · rw [e2] at hx
    obtain ⟨F, h1, h2⟩ := hx
    exact hc.2 A F h1 x h2

/-- C86: in every build, a goto stands under a nonterminal and a shift under a terminal, also inside
conflicts. -/
theorem C86_kinds {k : Method} {dbg : Bool} {D : Decls T} {S eof : T} {t : Tabler T}
    (ht : Makes k dbg D S eof t) {i : Nat} {x : T} {c : Action T} (hc : Cell t.actions i x c) :
    (∀ j, Among (.goto j) c → Nonterminal D x) ∧ (∀ j, Among (.shift j) c → Terminal D x) := by
  obtain ⟨b0, next, red, ha, _⟩ := ht.auto
  obtain ⟨row, hr, hx⟩ := hc
  exact ⟨fun j hj => ((auto_good ha).2 i row x c _ hr hx hj).1, fun j hj => ((auto_good ha).2 i row x c _ hr hx hj).1⟩

/-- Not vacuous: the table of the expressions has a cell under a nonterminal. -/
example : ∃ t, Makes .slr true Samples.expr 0 99 t ∧ ∃ j, Cell t.actions 0 1 (.goto j) := by
  have hg : Grammar.new true 0 (grammarMap Samples.expr) 99 = .ok (Samples.grammar Samples.expr) := by
    decide +kernel
  have h : ∃ t, Slr.new true 50 (Samples.grammar Samples.expr) = .ok t ∧
      ∃ row, t.actions[0]? = some row ∧ ∃ j, row.get? 1 = some (.goto j) := by
    refine ⟨_, rfl, _, rfl, ?_⟩
    exact ⟨_, rfl⟩
  obtain ⟨t, h1, row, h2, j, h3⟩ := h
  exact ⟨t, ⟨_, hg, 50, h1⟩, j, row, h2, h3⟩

/-! ### Three nonterminals that end each other's bodies, release build -/

namespace AgainSamples

/-- `S = P`, `P = A | ( b A ) | ( B`, `A = c B | d C | a`, `B = e A | f C | b`, `C = g A | h B | i`. -/
def rightClique : Decls Nat :=
  [(0, [[4]]), (4, [[1], [40, 13, 1, 41], [40, 2]]), (1, [[10, 2], [12, 3], [11]]), (2, [[20, 1], [22, 3], [13]]),
    (3, [[30, 1], [32, 2], [15]])]

/-- The Slr table of the release build. -/
def slr : Tabler Nat :=
  match Slr.new false 50 (Samples.grammar rightClique) with
  | .ok t => t
  | _ => ⟨Samples.grammar rightClique, [], [], [], [], []⟩

theorem slr_grammar : Grammar.new false 0 (grammarMap rightClique) 99 = .ok (Samples.grammar rightClique) := by
  decide +kernel

theorem slr_new : Slr.new false 50 (Samples.grammar rightClique) = .ok slr := by decide +kernel

theorem slr_makes : Makes .slr false rightClique 0 99 slr := ⟨_, slr_grammar, 50, slr_new⟩

theorem slr_terminal : Terminal rightClique 99 := by
  intro d hd e
  revert e
  revert d
  decide

/-- The `Dfa` for `( b a )`. -/
def dfa : Dfa Unit Nat := Dfa.new (Samples.toks [40, 13, 11, 41]) slr.actions (Parser.empty slr) 99

theorem dfa_is : Parser.dfa slr (Samples.toks [40, 13, 11, 41]) (Parser.empty slr) = .ok dfa := slr_makes.dfa _ _

/-- Starting twice: a conflict, in the cell of state 16 under the nonterminal 1, and then another error. -/
def twice : Bool :=
  match dfa.start 50 with
  | .ok (d, .error e) => match d.start 50 with
    | .ok (_, .error e') =>
      decide (e = .conflict (.reduce 2 ([13], 2)) (.goto 21)) && decide (e' = .unexpectedToken 41 [99]) &&
        decide (((slr.actions[16]?).bind (fun row => row.get? 1)) = some (.conflict (.reduce 2 ([13], 2)) (.goto 21)))
    | _ => false
  | _ => false

theorem twice_run : twice = true := by decide +kernel

theorem slr_conflict : Cell slr.actions 16 1 (.conflict (.reduce 2 ([13], 2)) (.goto 21)) ∧ ∃ d d',
    Starts dfa d (.error (.conflict (.reduce 2 ([13], 2)) (.goto 21))) ∧
    Starts d d' (.error (.unexpectedToken 41 [99])) := by
  have h := twice_run
  unfold twice at h
  cases h1 : dfa.start 50 with
  | fuel => rw [h1] at h; cases h
  | panic p => rw [h1] at h; cases h
  | ok o =>
    obtain ⟨d, r⟩ := o
    rw [h1] at h
    cases r with
    | ok _ => cases h
    | error e =>
      simp only at h
      cases h2 : d.start 50 with
      | fuel => rw [h2] at h; cases h
      | panic p => rw [h2] at h; cases h
      | ok o =>
        obtain ⟨d', r⟩ := o
        rw [h2] at h
        cases r with
        | ok _ => cases h
        | error e' =>
          simp only [Bool.and_eq_true, decide_eq_true_eq] at h
          obtain ⟨⟨rfl, rfl⟩, h3⟩ := h
          obtain ⟨row, h4, h5⟩ := Option.bind_eq_some_iff.mp h3
          exact ⟨⟨row, h4, h5⟩, d, d', ⟨50, h1⟩, 50, h2⟩

end AgainSamples

/-- C86 is false in release builds. -/
theorem C86_false : ¬ C86_statement := by
  intro h
  obtain ⟨row, h1, h2⟩ := AgainSamples.slr_conflict.1
  obtain ⟨j, e⟩ := h _ _ _ _ _ _ AgainSamples.slr_makes AgainSamples.slr_terminal 16 row 1 _ h1
    ⟨_, (by decide : (1, [[10, 2], [12, 3], [11]]) ∈ AgainSamples.rightClique), rfl⟩ h2
  cases e

/-- C86: for Clr and Lalr, also in release builds, a conflict that is reported stands under the terminal that comes
next: runs meet no conflicts under nonterminals. -/
theorem C86_met {k : Method} {dbg : Bool} {D : Decls T} {S eof : T} {t : Tabler T}
    (ht : Makes k dbg D S eof t) (hk : k ≠ .slr) (he : Terminal D eof) {maps : ReductMap M T}
    {toks : List (Token M T)} (hT : TerminalToks D toks) {d d' : Dfa M T} (hd : Reached t maps toks d)
    {a b : Action T} (h : Starts d d' (.error (.conflict a b))) :
    Cell t.actions d'.top (nextSym eof d'.buffer) (.conflict a b) := by
  obtain ⟨n, h⟩ := h
  obtain ⟨b0, next, red, ha, hfull⟩ := ht.fullReds hk he
  have h0 := inv_init (M := M) D t.states next toks
  have hno : ∀ c', Moves t.actions eof ⟨[0], [], toks⟩ c' → NoInner t.actions eof c' := fun c' hm =>
    ha.noInner_full hfull (ha.inv_moves h0 hm) (ha.shifted hm h0 (shifted_init toks))
  obtain ⟨c, hm, hs | ⟨d0, _, _, e⟩⟩ := ha.reached ht.eofHead he hT hd
  · rcases ha.trace_again he n n (.inl (fun c' hm' => hno c' (hm.trans hm'))) (ha.inv_moves h0 hm) hs
      (fun tk htk => hT tk (hm.buf_suffix tk htk)) hd h with ⟨h1, _⟩ | h1 | ⟨e, h1, _, _, ⟨c', h5, h2, h3⟩, _⟩
    · cases h1
    · cases h1
    · cases h1
      cases h3 with
      | @conflict i st trs buf a b hc =>
        have htop : d'.top = i := by have := h2.top; simp at this; exact this.symm
        obtain ⟨row, r1, r2⟩ := Option.bind_eq_some_iff.mp hc
        refine ⟨row, by rw [htop]; exact r1, ?_⟩
        rw [show d'.buffer = buf from h2.buffer]
        cases buf <;> exact r2
      | conflict' g1 _ g3 g4 => exact absurd g4 (hno _ (hm.trans h5) rfl g1 g3 _ _)
  · have hf : d.finished = true := by rw [e]
    cases n with
    | zero => cases h
    | succ n =>
      unfold Dfa.start Dfa.trace at h
      rw [hf] at h
      cases h

/-! ### C85 -/

/-- C85, as claimed: a run that has ended ends the same way again, and changes nothing. -/
def C85_statement : Prop :=
  ∀ (k : Method) (dbg : Bool) (D : Decls Nat) (S eof : Nat) (t : Tabler Nat) (maps : ReductMap Unit Nat)
    (toks : List (Token Unit Nat)) (d d' : Dfa Unit Nat) (r : Except (Error Nat) Unit),
    Makes k dbg D S eof t → Terminal D eof → TerminalToks D toks → Parser.dfa t toks maps = .ok d →
    Starts d d' r → Starts d' d' r

/-- C85: for every `Dfa` whatsoever, starting again after a success is a success that changes nothing. -/
theorem C85_success {d d' : Dfa M T} (h : Starts d d' (.ok ())) : Starts d' d' (.ok ()) := by
  obtain ⟨n, h⟩ := h
  have := Dfa.trace_finished id n n h (Or.inl rfl)
  exact ⟨1, by unfold Dfa.start Dfa.trace; rw [this]; rfl⟩

/-- C85, where it is false, for every `Dfa` whatsoever: an input that goes on after the end marker is reported
once, and starting again is a success. -/
theorem C85_forgets {d d' : Dfa M T} (h : Starts d d' (.error .incompleteExec)) : Starts d' d' (.ok ()) := by
  obtain ⟨n, h⟩ := h
  have := Dfa.trace_finished id n n h (Or.inr rfl)
  exact ⟨1, by unfold Dfa.start Dfa.trace; rw [this]; rfl⟩

/-- C85, proved part: started at any moment of a run on terminals, `start` gives the same result again and
leaves the `Dfa` as it is, and what is left after an error is a moment of the same run.
Missing: the error `IncompleteExec`, and conflicts found under a nonterminal by release builds of Slr, where it
is false. -/
theorem C85_again_partial {k : Method} {dbg : Bool} {D : Decls T} {S eof : T} {t : Tabler T}
    (ht : Makes k dbg D S eof t) (he : Terminal D eof) {maps : ReductMap M T} {toks : List (Token M T)}
    (hT : TerminalToks D toks) {d d' : Dfa M T} (hd : Reached t maps toks d) {r : Except (Error T) Unit}
    (h : Starts d d' r) (hr : r ≠ .error .incompleteExec)
    (hc : k ≠ .slr ∨ dbg = true ∨ (FoldsAway (Loopless (LeftGraph D)) ∧ FoldsAway (Loopless (RightGraph D))) ∨
      t.conflicts = [] ∨ ∀ a b, r ≠ .error (.conflict a b)) :
    Starts d' d' r ∧ Reached t maps toks d' ∧ (d'.finished = true ↔ r = .ok ()) := by
  obtain ⟨n, h⟩ := h
  have key : ∃ b0 next red, Auto D S b0 t.states t.actions next red ∧
      ((∀ c', Moves t.actions eof ⟨[0], [], toks⟩ c' → NoInner t.actions eof c') ∨
        ∀ a b, r ≠ .error (.conflict a b)) := by
    have hplain : PlainColumns D t.actions → ∃ b0 next red, Auto D S b0 t.states t.actions next red ∧
        ((∀ c', Moves t.actions eof ⟨[0], [], toks⟩ c' → NoInner t.actions eof c') ∨
          ∀ a b, r ≠ .error (.conflict a b)) := fun hp => by
      obtain ⟨b0, next, red, ha, _⟩ := ht.auto
      exact ⟨b0, next, red, ha, Or.inl (fun c' hm => ha.noInner hp (ha.inv_moves (inv_init D t.states next toks) hm))⟩
    rcases hc with hc | hc | hc | hc | hc
    · obtain ⟨b0, next, red, ha, hfull⟩ := ht.fullReds hc he
      have h0 := inv_init (M := M) D t.states next toks
      exact ⟨b0, next, red, ha, Or.inl (fun c' hm => ha.noInner_full hfull (ha.inv_moves h0 hm)
        (ha.shifted hm h0 (shifted_init toks)))⟩
    · exact hplain (C86_columns_partial ht he (Or.inl hc)).plain
    · exact hplain (C86_columns_partial ht he (Or.inr hc)).plain
    · refine hplain ?_
      rintro i A a b _ ⟨row, h1, h2⟩
      exact ht.no_conflict.mp hc i A a b (Option.bind_eq_some_iff.mpr ⟨row, h1, h2⟩)
    · obtain ⟨b0, next, red, ha, _⟩ := ht.auto
      exact ⟨b0, next, red, ha, Or.inr hc⟩
  obtain ⟨b0, next, red, ha, hp⟩ := key
  have hdone : ∀ {d0 : Dfa M T}, d0.finished = true → Starts d0 d0 (.ok ()) := fun hf =>
    ⟨1, by unfold Dfa.start Dfa.trace; rw [hf]; rfl⟩
  obtain ⟨c, hm, hs | ⟨d0, _, _, e⟩⟩ := ha.reached ht.eofHead he hT hd
  · rcases ha.trace_again he n n (hp.imp (fun hp c' hm' => hp c' (hm.trans hm')) id) (ha.inv_moves (inv_init D t.states next toks) hm) hs
      (fun tk htk => hT tk (hm.buf_suffix tk htk)) hd h with ⟨rfl, h1⟩ | h1 | ⟨e, rfl, h1, h2, _, h3⟩
    · have hf := Dfa.trace_finished id n n h (Or.inl rfl)
      exact ⟨hdone hf, h1, by simp [hf]⟩
    · exact absurd h1 hr
    · refine ⟨⟨1, ?_⟩, h1, by simp [h2]⟩
      unfold Dfa.start Dfa.trace
      rw [h2]
      simp only [Bool.false_eq_true, if_false, id]
      rw [h3 0]
      rfl
  · have hf : d.finished = true := by rw [e]
    cases n with
    | zero => cases h
    | succ n =>
      unfold Dfa.start Dfa.trace at h
      rw [hf] at h
      simp only [if_true] at h
      cases h
      exact ⟨hdone hf, hd, by simp [hf]⟩

/-- C85: an error that stays names the token that is still at the front of the input. -/
theorem C85_front {k : Method} {dbg : Bool} {D : Decls T} {S eof : T} {t : Tabler T}
    (ht : Makes k dbg D S eof t) (he : Terminal D eof) {maps : ReductMap M T} {toks : List (Token M T)}
    (hT : TerminalToks D toks) {d d' : Dfa M T} (hd : Reached t maps toks d) {x : T} {es : List T}
    (h : Starts d d' (.error (.unexpectedToken x es))) : nextSym eof d'.buffer = x := by
  obtain ⟨n, h⟩ := h
  obtain ⟨b0, next, red, ha, _⟩ := ht.auto
  obtain ⟨c, hm, hs | ⟨d0, _, _, e⟩⟩ := ha.reached ht.eofHead he hT hd
  · rcases ha.trace_again he n n (.inr (by simp)) (ha.inv_moves (inv_init D t.states next toks) hm) hs
      (fun tk htk => hT tk (hm.buf_suffix tk htk)) hd h with ⟨h1, _⟩ | h1 | ⟨e, h1, _, _, ⟨c', h5, h2, h3⟩, _⟩
    · cases h1
    · cases h1
    · cases h1
      cases h3 with
      | @noAction i st trs buf row =>
        rw [show d'.buffer = buf from h2.buffer]
        cases buf <;> rfl
  · have hf : d.finished = true := by rw [e]
    cases n with
    | zero => cases h
    | succ n =>
      unfold Dfa.start Dfa.trace at h
      rw [hf] at h
      cases h

/-- C85 is false: a conflict under a nonterminal in a release build. -/
theorem C85_false : ¬ C85_statement := by
  intro h
  obtain ⟨_, d, d', h1, h2⟩ := AgainSamples.slr_conflict
  have hT : TerminalToks AgainSamples.rightClique (Samples.toks [40, 13, 11, 41]) := by
    unfold TerminalToks Terminal
    decide
  obtain ⟨n, h3⟩ := h _ _ _ _ _ _ _ _ _ _ _ AgainSamples.slr_makes AgainSamples.slr_terminal hT AgainSamples.dfa_is h1
  obtain ⟨m, h2⟩ := h2
  have e1 := (Dfa.start_le (Nat.le_max_left n m) d).ok h3
  have e2 := (Dfa.start_le (Nat.le_max_right n m) d).ok h2
  rw [e1] at e2
  cases e2

theorem starts_of {d : Dfa M T} {e : Error T}
    (h : (match d.start 50 with | .ok (_, .error e') => decide (e' = e) | _ => false) = true) :
    ∃ d', Starts d d' (.error e) := by
  cases h1 : d.start 50 with
  | fuel => rw [h1] at h; cases h
  | panic p => rw [h1] at h; cases h
  | ok o =>
    obtain ⟨d', r⟩ := o
    rw [h1] at h
    cases r with
    | ok _ => cases h
    | error e' =>
      simp only [decide_eq_true_eq] at h
      exact ⟨d', 50, h ▸ h1⟩

/-- C85 is false in debug builds too: on `id $ id`, with the end marker in the middle, the parser of expressions
reports that the input goes on, and when started again reports success. -/
theorem C85_false_debug : Makes .slr true Samples.expr 0 99 exprSlr ∧ ∃ d d',
    Parser.dfa exprSlr (Samples.toks [14, 99, 14]) (Parser.empty exprSlr) = .ok d ∧
    Starts d d' (.error .incompleteExec) ∧ Starts d' d' (.ok ()) ∧ d'.buffer ≠ [] := by
  have h : ∃ d', Starts (Dfa.new (Samples.toks [14, 99, 14]) exprSlr.actions (Parser.empty exprSlr) 99) d'
      (.error .incompleteExec) := starts_of (by decide +kernel)
  obtain ⟨d', h⟩ := h
  refine ⟨makes_exprSlr, _, d', makes_exprSlr.dfa _ _, h, C85_forgets h, fun hb => ?_⟩
  obtain ⟨n, h⟩ := h
  have h2 : (match (Dfa.new (Samples.toks [14, 99, 14]) exprSlr.actions (Parser.empty exprSlr) 99).start 50 with
    | .ok (d, .error .incompleteExec) => decide (d.buffer ≠ []) | _ => false) = true := by decide +kernel
  cases h3 : (Dfa.new (Samples.toks [14, 99, 14]) exprSlr.actions (Parser.empty exprSlr) 99).start 50 with
  | fuel => rw [h3] at h2; cases h2
  | panic p => rw [h3] at h2; cases h2
  | ok o =>
    have e1 := (Dfa.start_le (Nat.le_max_left n 50) _).ok h
    have e2 := (Dfa.start_le (Nat.le_max_right n 50) _).ok h3
    rw [e1] at e2
    cases e2
    rw [h3] at h2
    simp [hb] at h2

/-- Not vacuous: on `id id` the parser of expressions stops at the second token; started again it does the
same. -/
example : ∃ d d' es, Reached exprSlr (Parser.empty exprSlr) (Samples.toks [14, 14]) d ∧
    Starts d d' (.error (.unexpectedToken 14 es)) ∧ Starts d' d' (.error (.unexpectedToken 14 es)) ∧
    nextSym 99 d'.buffer = 14 := by
  have h : ∃ d', Starts (Dfa.new (Samples.toks [14, 14]) exprSlr.actions (Parser.empty exprSlr) 99) d'
      (.error (.unexpectedToken 14 [10, 11, 13, 99])) := starts_of (by decide +kernel)
  obtain ⟨d', h⟩ := h
  have hT : TerminalToks Samples.expr (Samples.toks [14, 14]) := by
    unfold TerminalToks Terminal
    decide
  have hd := Reached.init (makes_exprSlr.dfa (Samples.toks [14, 14]) (Parser.empty exprSlr))
  exact ⟨_, d', _, hd, h, (C85_again_partial makes_exprSlr expr_eof hT hd h (by simp) (.inr (.inl rfl))).1,
    C85_front makes_exprSlr expr_eof hT hd h⟩

/-! ### C55: `stack_debug` -/

theorem debugPieces_eq (fs : Nat → String) (fi : M → String) (ft : T → String) (i : Nat) (sts : List Nat)
    (its : List (Token M T)) (h : its.length = sts.length) :
    Dfa.debugPieces fs fi ft (i :: sts) its =
      fs i :: (its.zip sts).flatMap (fun e => [e.1.debug fi ft, fs e.2]) := by
  induction sts generalizing i its with
  | nil =>
    cases its with
    | nil => rfl
    | cons _ _ => simp at h
  | cons s sts ih =>
    cases its with
    | nil => simp at h
    | cons it its =>
      have := ih s its (by simpa using h)
      simp only [Dfa.debugPieces, this, List.zip_cons_cons, List.flatMap_cons, List.cons_append, List.nil_append]

/-- C55: at every moment of a run on terminals, `stack_debug` writes, from the bottom to the top, state 0 and then
the values of parse trees, which together with the remaining input make up the input, each with the symbol of its tree and
followed by the state the table leads to. -/
theorem C55_debug {k : Method} {dbg : Bool} {D : Decls T} {S eof : T} {t : Tabler T}
    (ht : Makes k dbg D S eof t) (he : Terminal D eof) {maps : ReductMap M T}
    {toks : List (Token M T)} (hT : TerminalToks D toks) {d : Dfa M T} (hd : Reached t maps toks d)
    (fs : Nat → String) (fi : M → String) (ft : T → String) :
    ∃ (trs : List (Tree M T)) (vals : List (Token M T)) (sts : List Nat),
      Tree.yields trs ++ d.buffer = toks ∧ (∀ tr ∈ trs, Tree.Valid D tr) ∧
      Tree.evals (redOf maps) trs = some vals ∧ Chain t 0 ((trs.map Tree.root).zip sts) ∧
      vals.length = sts.length ∧
      d.stackDebug fs fi ft =
        " ".intercalate (fs 0 :: (vals.zip sts).flatMap (fun e =>
          ["Token { item: " ++ fi e.1.item ++ ", ty: " ++ ft e.1.ty ++ " }", fs e.2])) := by
  obtain ⟨rest, h1, h2, h3, _⟩ := C55_stack ht he hT hd fs ft
  obtain ⟨trs, h4, h5, h6⟩ := C38_parse_trees ht he hT hd
  have hlen : d.items.reverse.length = (rest.map Prod.snd).length := by
    have := congrArg List.length h2
    simpa using this
  have hroots : trs.map Tree.root = rest.map Prod.fst := by
    rw [← h2, item_types (evals_iff.mp h5)]
  refine ⟨trs, d.items.reverse, rest.map Prod.snd, h4, h6, h5, ?_, hlen, ?_⟩
  · rw [hroots, ← List.zip_of_prod (xs := rest) rfl rfl]; exact h1
  · unfold Dfa.stackDebug
    rw [h3, debugPieces_eq fs fi ft 0 _ _ hlen]
    rfl

/-- Not vacuous: the debug text of the stack of the expression parser after the first token. -/
example : (match Dfa.travel 1 (Dfa.new (Samples.toks [14, 10]) exprSlr.actions (Parser.empty exprSlr) 99) 14 with
    | .ok (d, .ok ()) => decide (d.stackDebug (fun n => if n = 0 then "0" else "s") (fun _ => "()")
        (fun x => if x = 14 then "id" else "?") = "0 Token { item: (), ty: id } s")
    | _ => false) = true := by decide +kernel

end Lrp.Props
