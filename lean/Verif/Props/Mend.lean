import Verif.Proofs.Mend
import Verif.Props.Errors
import Verif.Props.Expected

/-! C108: going on after an error with another rest of the input. -/

set_option linter.unusedSectionVars false

namespace Lrp.Props
open Spec
set_option maxRecDepth 100000

variable {T : Type} [LinOrd T] [DecidableEq T] {M : Type}

/-! ### Any table -/

/-- C108, for every table whatsoever: started at any moment of the run on `toks`, `start` ends as the run does
from the beginning: with the same result and the same `Dfa`, the same panic, or not at all. -/
theorem C108_anytime {t : Tabler T} {maps : ReductMap M T} {toks : List (Token M T)} {d : Dfa M T}
    (h : Reached t maps toks d) : ∃ d0, Parser.dfa t toks maps = .ok d0 ∧
      (∀ e r, Starts d e r ↔ Starts d0 e r) ∧
      (∀ p, Panics (fun n => d.start n) p ↔ Panics (fun n => d0.start n) p) ∧
      (Diverges (fun n => d.start n) ↔ Diverges (fun n => d0.start n)) := by
  obtain ⟨d0, hd0⟩ : ∃ d0, Parser.dfa t toks maps = .ok d0 := by
    obtain ⟨d0, h0, _⟩ := h.start (o := .panic .statesUnderflow) (by simp)
    exact ⟨d0, h0⟩
  have key : ∀ {o : Out (DfaRes M T Unit)}, o ≠ .fuel → ((∃ m, d0.start m = o) ↔ ∃ m, d.start m = o) := fun ho => by
    obtain ⟨d1, h1, h2⟩ := h.start ho
    rw [hd0] at h1
    cases h1
    exact h2
  refine ⟨d0, hd0, fun e r => (key (by simp)).symm, fun p => (key (by simp)).symm, ?_⟩
  constructor
  · intro hd n
    have := key (o := d0.start n)
    cases hn : d0.start n with
    | fuel => exact hn
    | ok a => rw [hn] at this; obtain ⟨m, hm⟩ := (this (by simp)).mp ⟨n, hn⟩; exact absurd ((hd m).symm.trans hm) (by simp)
    | panic a => rw [hn] at this; obtain ⟨m, hm⟩ := (this (by simp)).mp ⟨n, hn⟩; exact absurd ((hd m).symm.trans hm) (by simp)
  · intro hd n
    have := key (o := d.start n)
    cases hn : d.start n with
    | fuel => exact hn
    | ok a => rw [hn] at this; obtain ⟨m, hm⟩ := (this (by simp)).mpr ⟨n, hn⟩; exact absurd ((hd m).symm.trans hm) (by simp)
    | panic a => rw [hn] at this; obtain ⟨m, hm⟩ := (this (by simp)).mpr ⟨n, hn⟩; exact absurd ((hd m).symm.trans hm) (by simp)

/-- C108, for every table whatsoever: right after an iteration that takes a token, the rest of the input can be
replaced: the `Dfa` is then at a moment of the run on the tokens taken and the new rest. -/
theorem C108_taken {t : Tabler T} {maps : ReductMap M T} {toks : List (Token M T)} {d d' : Dfa M T} {n : Nat}
    (h : Reached t maps toks d) (hf : d.finished = false) (hrun : Dfa.travel n d d.symbol = .ok (d', .ok ()))
    (hne : d'.buffer ≠ d.buffer) :
    ∃ u, toks = u ++ d'.buffer ∧ ∀ rest, Reached t maps (u ++ rest) { d' with buffer := rest } :=
  h.taken hf hrun hne

/-! ### Clr -/

/-- C108, Clr: started at any moment of a run, after an unexpected token (or an unexpected end of the input, reported as the end marker) the rest
of the input, beginning with this token, can be replaced: the `Dfa` is then at a moment of the run on the
tokens taken and the new rest. -/
theorem C108_mend [Nonempty M] {dbg : Bool} {D : Decls T} {S eof : T} {t : Tabler T}
    (ht : Makes .clr dbg D S eof t) (hS : InNoBody D S) (h1 : SingleStart D S) (he : Terminal D eof)
    (hpr : AllProductive D) {maps : ReductMap M T} {toks : List (Token M T)} (hT : TerminalToks D toks)
    {d d' : Dfa M T} (hd : Reached t maps toks d) {x : T} {exp : List T}
    (h : Starts d d' (.error (.unexpectedToken x exp))) :
    ∃ u, toks = u ++ d'.buffer ∧ ∀ rest, Reached t maps (u ++ rest) { d' with buffer := rest } := by
  obtain ⟨b0, next, red, ha, hl, hx⟩ := ht.exact
  exact ha.mend hl hx hpr hS h1 ht.eofHead he hT hd h

/-- C108, Clr: so starting again with the new rest ends as the run on the tokens taken and the new rest: with the
same result, the same items, the same panic, or not at all. -/
theorem C108_resume [Nonempty M] {dbg : Bool} {D : Decls T} {S eof : T} {t : Tabler T}
    (ht : Makes .clr dbg D S eof t) (hS : InNoBody D S) (h1 : SingleStart D S) (he : Terminal D eof)
    (hpr : AllProductive D) {maps : ReductMap M T} {toks : List (Token M T)} (hT : TerminalToks D toks)
    {d d' : Dfa M T} (hd : Reached t maps toks d) {x : T} {exp : List T}
    (h : Starts d d' (.error (.unexpectedToken x exp))) :
    ∃ u, toks = u ++ d'.buffer ∧ ∀ rest, ∃ d0, Parser.dfa t (u ++ rest) maps = .ok d0 ∧
      (∀ e r, Starts { d' with buffer := rest } e r ↔ Starts d0 e r) ∧
      (∀ p, Panics (fun n => Dfa.start n { d' with buffer := rest }) p ↔ Panics (fun n => d0.start n) p) ∧
      (Diverges (fun n => Dfa.start n { d' with buffer := rest }) ↔ Diverges (fun n => d0.start n)) := by
  obtain ⟨u, e, hr⟩ := C108_mend ht hS h1 he hpr hT hd h
  exact ⟨u, e, fun rest => C108_anytime (hr rest)⟩

/-- C108, Clr: if the new rest begins with one of the terminals of the list in the error, a further unexpected
token comes later: mending by what the list offers makes headway. -/
theorem C108_headway [Nonempty M] {dbg : Bool} {D : Decls T} {S eof : T} {t : Tabler T}
    (ht : Makes .clr dbg D S eof t) (hS : InNoBody D S) (h1 : SingleStart D S) (he : Terminal D eof)
    (hpr : AllProductive D) {maps : ReductMap M T} {toks : List (Token M T)} (hT : TerminalToks D toks)
    {d d' : Dfa M T} (hd : Reached t maps toks d) {x : T} {exp : List T}
    (h : Starts d d' (.error (.unexpectedToken x exp))) {tok : Token M T} {rest : List (Token M T)}
    (hk : tok.ty ∈ exp) (hT' : TerminalToks D (tok :: rest)) {e : Dfa M T} {z : T} {exp' : List T}
    (h' : Starts { d' with buffer := tok :: rest } e (.error (.unexpectedToken z exp'))) :
    ∃ w, rest = w ++ e.buffer := by
  obtain ⟨b0, next, red, ha, hl, hx⟩ := ht.exact
  obtain ⟨_, _, c, hm, hs, hfl⟩ := ha.unexpected ht.eofHead he hT hd h
  obtain ⟨u, e1, hr⟩ := ha.mend hl hx hpr hS h1 ht.eofHead he hT hd h
  have hy := hm.yields
  simp only [List.reverse_nil, Tree.yields_nil, List.nil_append] at hy
  have hu : u = Tree.yields c.trees.reverse := by
    rw [e1, hs.buffer] at hy
    exact (List.append_cancel_right hy).symm
  -- the tokens taken can be followed by the new one
  have hmf : MayFollow D S eof (u.map Token.ty) tok.ty := by
    cases hfl with
    | @noAction i st trs buf row h2 h3 =>
      have hn : ¬ HasCell t.actions eof (⟨i :: st, trs, buf⟩ : Conf M T) (lookSym eof buf) := by
        rintro ⟨i', st', a, e1, e2⟩
        cases e1
        unfold cellAt at e2; rw [h2] at e2; simp [h3] at e2
      have := (Exact.error_row ha hl hx hpr hS h1 he hT hm (Fails.noAction h2 h3).dead hn
        (hT' tok List.mem_cons_self)).mp (by
          obtain ⟨a, hg⟩ := OMap.mem_keys.mp hk
          exact ⟨i, st, a, rfl, by unfold cellAt; rw [h2]; exact hg⟩)
      rw [hu]
      exact this
  -- the second run
  have hT2 : TerminalToks D (u ++ tok :: rest) := fun tk htk => by
    rcases List.mem_append.mp htk with htk | htk
    · exact hT tk (by rw [e1]; exact List.mem_append_left _ htk)
    · exact hT' tk htk
  obtain ⟨_, _, c2, hm2, hs2, hfl2⟩ := ha.unexpected ht.eofHead he hT2 (hr (tok :: rest)) h'
  have hy2 := hm2.yields
  simp only [List.reverse_nil, Tree.yields_nil, List.nil_append] at hy2
  have hno : ¬ MayFollow D S eof c2.consumed (lookSym eof c2.buf) := by
    refine Looks.error_token ha hl hS h1 he hm2 hfl2.dead ?_
    cases hfl2 with
    | noAction g1 g2 =>
      rintro ⟨i', st', a, e1, e2⟩
      cases e1
      unfold cellAt at e2; rw [g1] at e2; simp [g2] at e2
  have early : ∀ a, u = Tree.yields c2.trees.reverse ++ a → c2.buf = a ++ tok :: rest → False := by
    intro a q1 q2
    refine hno ?_
    obtain ⟨w, v, hw, ew⟩ := hmf
    rw [q1] at ew
    unfold Conf.consumed
    rw [q2]
    cases a with
    | nil => exact ⟨w, v, hw, by simpa [lookSym] using ew⟩
    | cons b a => exact ⟨w, a.map Token.ty ++ tok.ty :: v, hw, by simpa [lookSym] using ew⟩
  rw [hs2.buffer]
  rcases List.append_eq_append_iff.mp hy2 with ⟨a, q1, q2⟩ | ⟨a, q1, q2⟩
  · exact absurd q2 (fun q2 => early a q1 q2)
  · cases a with
    | nil => exact absurd q2 (fun q2 => early [] (by simpa using q1.symm) (by simpa using q2.symm))
    | cons b a =>
      simp only [List.cons_append, List.cons.injEq] at q2
      exact ⟨a, q2.2⟩

/-! ### What is accepted -/

/-- C108, every method: whatever rest is put in the place of the rest of the input at whatever moment before the
end, if starting again succeeds then the tokens taken and the new rest are a sentence. -/
theorem C108_sound {k : Method} {dbg : Bool} {D : Decls T} {S eof : T} {t : Tabler T}
    (ht : Makes k dbg D S eof t) (hS : InNoBody D S) (he : Terminal D eof) {maps : ReductMap M T}
    {toks : List (Token M T)} (hT : TerminalToks D toks) {d : Dfa M T} (hd : Reached t maps toks d)
    (hf : d.finished = false) {rest : List (Token M T)} {e : Dfa M T}
    (h : Starts { d with buffer := rest } e (.ok ())) :
    ∃ u, toks = u ++ d.buffer ∧ Sentence D S ((u ++ rest).map Token.ty) := by
  obtain ⟨b0, next, red, ha, _⟩ := ht.auto
  obtain ⟨c, hm, hs | ⟨d0, _, _, e0⟩⟩ := ha.reached ht.eofHead he hT hd
  · have hi := ha.inv_moves (inv_init D t.states next toks) hm
    have hy := hm.yields
    simp only [List.reverse_nil, Tree.yields_nil, List.nil_append] at hy
    obtain ⟨n, h⟩ := h
    obtain ⟨c', d1, k1, k2, _, _⟩ := ha.ran_ok he n n (hi.replace rest) (hs.replace rest) h
    obtain ⟨hv, _⟩ := ha.accepts hS (ha.inv_moves (hi.replace rest) k1) k2
    have hy' := k1.yields
    obtain ⟨_, _, _, _, hb⟩ := k2
    rw [hb] at hy'
    simp only [List.append_nil] at hy'
    refine ⟨Tree.yields c.trees.reverse, by rw [hs.buffer, hy], ?_⟩
    have hd' := hv.derives
    simp only [Tree.root, Tree.yield_node, hy'] at hd'
    refine ⟨hd', ?_⟩
    intro x hx
    obtain ⟨tok, k1, rfl⟩ := List.mem_map.mp hx
    exact hv.terminals tok (by simpa [hy'] using k1)
  · rw [e0] at hf; cases hf

/-! ### Samples -/

/-- Run on `toks`, put `rest` in the place of what is left, and go on: the first error with what was left, and
the second result. -/
def goOn (t : Tabler Nat) (toks rest : List (Token Unit Nat)) :
    Option (Error Nat × List Nat × Option (Error Nat)) :=
  match Parser.dfa t toks (Parser.empty t) with
  | .ok d =>
    match d.start 50 with
    | .ok (d', .error e) =>
      match Dfa.start 50 { d' with buffer := rest } with
      | .ok (_, .ok ()) => some (e, d'.buffer.map Token.ty, none)
      | .ok (_, .error e') => some (e, d'.buffer.map Token.ty, some e')
      | _ => none
    | _ => none
  | _ => none

theorem goOn_eq {t : Tabler Nat} {toks rest : List (Token Unit Nat)} {e : Error Nat} {b : List Nat}
    {o : Option (Error Nat)} (h : goOn t toks rest = some (e, b, o)) : ∃ d d' d2,
      Parser.dfa t toks (Parser.empty t) = .ok d ∧ Starts d d' (.error e) ∧ d'.buffer.map Token.ty = b ∧
      Starts { d' with buffer := rest } d2 (match o with | none => .ok () | some e' => .error e') := by
  unfold goOn at h
  split at h
  · next d hd =>
    split at h
    · next d' e0 h1 =>
      split at h
      · next d2 h2 => cases h; exact ⟨d, d', d2, hd, ⟨50, h1⟩, rfl, 50, h2⟩
      · next d2 e' h2 => cases h; exact ⟨d, d', d2, hd, ⟨50, h1⟩, rfl, 50, h2⟩
      · cases h
    · cases h
  · cases h

/-- Not vacuous: after `id + )` the Clr parser of the expression grammar stops at the bracket; with `id` in its
place it goes on and accepts. -/
example : ∃ d d' d2, Parser.dfa exprClr (Samples.toks [14, 10, 13]) (Parser.empty exprClr) = .ok d ∧
    Starts d d' (.error (.unexpectedToken 13 [2, 3, 12, 14])) ∧ d'.buffer.map Token.ty = [13] ∧
    Starts { d' with buffer := Samples.toks [14] } d2 (.ok ()) ∧
    ∃ u, Samples.toks [14, 10, 13] = u ++ d'.buffer ∧
      ∀ rest, Reached exprClr (Parser.empty exprClr) (u ++ rest) { d' with buffer := rest } := by
  obtain ⟨d, d', d2, h1, h2, h3, h4⟩ := goOn_eq (t := exprClr) (toks := Samples.toks [14, 10, 13])
    (rest := Samples.toks [14]) (e := .unexpectedToken 13 [2, 3, 12, 14]) (b := [13]) (o := none)
    (by decide +kernel)
  exact ⟨d, d', d2, h1, h2, h3, h4, C108_mend makes_exprClr expr_start expr_single (by unfold Terminal; decide)
    expr_productive (by unfold TerminalToks Terminal Samples.toks; decide) (.init h1) h2⟩

/-- Not vacuous: `id` is offered after `id + )`, and with `id )` in the place of the bracket the next error is
at the second bracket, after the `id`. -/
example : ∃ d d' d2, Parser.dfa exprClr (Samples.toks [14, 10, 13]) (Parser.empty exprClr) = .ok d ∧
    Starts d d' (.error (.unexpectedToken 13 [2, 3, 12, 14])) ∧
    Starts { d' with buffer := Samples.toks [14, 13] } d2 (.error (.unexpectedToken 13 [10, 11, 99])) ∧
    ∃ w, Samples.toks [13] = w ++ d2.buffer := by
  obtain ⟨d, d', d2, h1, h2, h3, h4⟩ := goOn_eq (t := exprClr) (toks := Samples.toks [14, 10, 13])
    (rest := Samples.toks [14, 13]) (e := .unexpectedToken 13 [2, 3, 12, 14]) (b := [13])
    (o := some (.unexpectedToken 13 [10, 11, 99])) (by decide +kernel)
  exact ⟨d, d', d2, h1, h2, h4, C108_headway makes_exprClr expr_start expr_single (by unfold Terminal; decide)
    expr_productive (by unfold TerminalToks Terminal Samples.toks; decide) (.init h1) h2 (by decide)
    (by unfold TerminalToks Terminal Samples.toks; decide) h4⟩

/-- Where it is false, Slr: for `S → a A d | b A c`, `A → x | x y` the parser without conflicts stops at the last
token of `a x c`, and rejects the rest `y d` although `a x y d` is a sentence: `c` has made it reduce. -/
theorem C108_false_slr : ∃ t, Makes .slr true Samples.contexts 0 99 t ∧ t.conflicts = [] ∧
    Sentence Samples.contexts 0 [10, 14, 15, 13] ∧ ∃ d d' d2,
      Parser.dfa t (Samples.toks [10, 14, 12]) (Parser.empty t) = .ok d ∧
      Starts d d' (.error (.unexpectedToken 12 [13])) ∧ d'.buffer.map Token.ty = [12] ∧
      Starts { d' with buffer := Samples.toks [15, 13] } d2 (.error (.unexpectedToken 15 [13])) := by
  have hg : Grammar.new true 0 (grammarMap Samples.contexts) 99 =
    .ok (Samples.grammar Samples.contexts) := by decide +kernel
  have h : ∃ t, Slr.new true 50 (Samples.grammar Samples.contexts) = .ok t ∧ t.conflicts = [] ∧
      goOn t (Samples.toks [10, 14, 12]) (Samples.toks [15, 13]) =
        some (.unexpectedToken 12 [13], [12], some (.unexpectedToken 15 [13])) := by
    refine ⟨_, rfl, ?_⟩
    decide +kernel
  obtain ⟨t, h1, h2, h3⟩ := h
  exact ⟨t, ⟨_, hg, 50, h1⟩, h2, contexts_sentence, goOn_eq h3⟩

/-- Where it is false, Lalr, also when all lookaheads have been passed on: the same grammar and input. -/
theorem C108_false_lalr : ∃ t, Makes .lalr true Samples.contexts 0 99 t ∧ t.conflicts = [] ∧ Propagated t ∧
    Sentence Samples.contexts 0 [10, 14, 15, 13] ∧ ∃ d d' d2,
      Parser.dfa t (Samples.toks [10, 14, 12]) (Parser.empty t) = .ok d ∧
      Starts d d' (.error (.unexpectedToken 12 [13])) ∧ d'.buffer.map Token.ty = [12] ∧
      Starts { d' with buffer := Samples.toks [15, 13] } d2 (.error (.unexpectedToken 15 [13])) := by
  have hg : Grammar.new true 0 (grammarMap Samples.contexts) 99 =
    .ok (Samples.grammar Samples.contexts) := by decide +kernel
  have h : ∃ l, Lalr.new true 500 (Samples.grammar Samples.contexts) = .ok l ∧
      l.table.conflicts = [] ∧ propagatedB l.table = true ∧
      goOn l.table (Samples.toks [10, 14, 12]) (Samples.toks [15, 13]) =
        some (.unexpectedToken 12 [13], [12], some (.unexpectedToken 15 [13])) := by
    refine ⟨_, rfl, ?_⟩
    decide +kernel
  obtain ⟨l, h1, h2, h4, h3⟩ := h
  refine ⟨l.table, ⟨_, hg, 500, ?_⟩, h2, propagated_of_check h4, contexts_sentence, goOn_eq h3⟩
  show (do let l ← Lalr.new true 500 (Samples.grammar Samples.contexts); return l.table) = _
  rw [h1]; rfl

end Lrp.Props
