import Verif.Proofs.Finish
import Verif.Props.Mend

/-! C109: a parser without conflicts is never lost. -/

set_option linter.unusedSectionVars false

namespace Lrp.Props
open Spec
set_option maxRecDepth 100000

variable {T : Type} [LinOrd T] [DecidableEq T] {M : Type}

/-- C109: at every moment of a run before its end, whatever is still to come in the input, there is a rest with
which the parser goes on to accept; the tokens taken and this rest are a sentence. -/
theorem C109_completable [hM : Nonempty M] {k : Method} {dbg : Bool} {D : Decls T} {S eof : T} {t : Tabler T}
    (ht : Makes k dbg D S eof t) (hk : k = .lalr → Propagated t) (hc : t.conflicts = []) (hS : InNoBody D S)
    (he : Terminal D eof) (hpr : AllProductive D) {maps : ReductMap M T} (hred : Reductors D maps)
    {toks : List (Token M T)} (hT : TerminalToks D toks) {d : Dfa M T} (hd : Reached t maps toks d)
    (hf : d.finished = false) :
    ∃ u rest e, toks = u ++ d.buffer ∧ Starts { d with buffer := rest } e (.ok ()) ∧
      Sentence D S ((u ++ rest).map Token.ty) := by
  obtain ⟨m⟩ := hM
  obtain ⟨b0, next, red, ha, hl⟩ := ht.looks hk he
  obtain ⟨c, hm, hs | ⟨d0, _, _, e0⟩⟩ := ha.reached ht.eofHead he hT hd
  · have hi := ha.inv_moves (inv_init D t.states next toks) hm
    obtain ⟨rest, h1, h2⟩ := Looks.finishes ha hl hS he hpr m (fun i x a b => ht.no_conflict.mp hc i x a b) hi
    obtain ⟨e, h3⟩ := ha.starts_ok he (hi.replace rest) (hs.replace rest) h1 (hred.evaluates _) h2
    obtain ⟨u, h4, h5⟩ := C108_sound ht hS he hT hd hf h3
    exact ⟨u, rest, e, h4, h3, h5⟩
  · rw [e0] at hf; cases hf

/-- C109: so also after an unexpected token. -/
theorem C109_after_error [Nonempty M] {k : Method} {dbg : Bool} {D : Decls T} {S eof : T} {t : Tabler T}
    (ht : Makes k dbg D S eof t) (hk : k = .lalr → Propagated t) (hc : t.conflicts = []) (hS : InNoBody D S)
    (he : Terminal D eof) (hpr : AllProductive D) {maps : ReductMap M T} (hred : Reductors D maps)
    {toks : List (Token M T)} (hT : TerminalToks D toks) {d d' : Dfa M T} (hd : Reached t maps toks d) {x : T}
    {exp : List T} (h : Starts d d' (.error (.unexpectedToken x exp))) :
    ∃ u rest e, toks = u ++ d'.buffer ∧ Starts { d' with buffer := rest } e (.ok ()) ∧
      Sentence D S ((u ++ rest).map Token.ty) := by
  obtain ⟨b0, next, red, ha, _⟩ := ht.auto
  obtain ⟨h1, h2, _⟩ := ha.unexpected ht.eofHead he hT hd h
  exact C109_completable ht hk hc hS he hpr hred hT h1 h2

/-- C109: the list in the error contains the next symbol of every rest with which the parser would go on to
accept, for every method and also with conflicts in the table. -/
theorem C109_listed {k : Method} {dbg : Bool} {D : Decls T} {S eof : T} {t : Tabler T}
    (ht : Makes k dbg D S eof t) (he : Terminal D eof) {maps : ReductMap M T}
    {toks : List (Token M T)} (hT : TerminalToks D toks) {d d' : Dfa M T} (hd : Reached t maps toks d) {x : T}
    {exp : List T} (h : Starts d d' (.error (.unexpectedToken x exp))) {rest : List (Token M T)} {e : Dfa M T}
    (hok : Starts { d' with buffer := rest } e (.ok ())) : nextSym eof rest ∈ exp := by
  obtain ⟨b0, next, red, ha, _⟩ := ht.auto
  obtain ⟨_, _, c, hm, hs, hfl⟩ := ha.unexpected ht.eofHead he hT hd h
  have hi := ha.inv_moves (inv_init D t.states next toks) hm
  obtain ⟨n, hok⟩ := hok
  obtain ⟨c', d1, k1, k2, _, _⟩ := ha.ran_ok he n n (hi.replace rest) (hs.replace rest) hok
  obtain ⟨i, st, a, e1, e2⟩ := first_cell (Or.inr ⟨c', k1, k2⟩)
  have hsym : nextSym eof rest = lookSym eof rest := by cases rest <;> rfl
  rw [hsym]
  cases hfl with
  | noAction g1 g2 =>
    simp only [List.cons.injEq] at e1
    obtain ⟨rfl, _⟩ := e1
    unfold cellAt at e2
    rw [g1] at e2
    exact OMap.mem_keys.mpr ⟨a, e2⟩

/-- C109, Clr: the terminals in the list are exactly the next symbols of the rests with which the parser goes on
to accept. -/
theorem C109_clr_list [hM : Nonempty M] {dbg : Bool} {D : Decls T} {S eof : T} {t : Tabler T}
    (ht : Makes .clr dbg D S eof t) (hc : t.conflicts = []) (hS : InNoBody D S) (h1 : SingleStart D S)
    (he : Terminal D eof) (hpr : AllProductive D) {maps : ReductMap M T} (hred : Reductors D maps)
    {toks : List (Token M T)} (hT : TerminalToks D toks) {d d' : Dfa M T} (hd : Reached t maps toks d) {x : T}
    {exp : List T} (h : Starts d d' (.error (.unexpectedToken x exp))) {y : T} (hy : Terminal D y) :
    y ∈ exp ↔ ∃ rest e, Starts { d' with buffer := rest } e (.ok ()) ∧ nextSym eof rest = y := by
  constructor
  · intro hmem
    obtain ⟨b0, next, red, ha, hl, hx⟩ := ht.exact
    obtain ⟨_, _, c, hm, hs, hfl⟩ := ha.unexpected ht.eofHead he hT hd h
    obtain ⟨u, e1, hr⟩ := C108_resume ht hS h1 he hpr hT hd h
    have hyl := hm.yields
    simp only [List.reverse_nil, Tree.yields_nil, List.nil_append] at hyl
    have hu : u = Tree.yields c.trees.reverse := by
      rw [e1, hs.buffer] at hyl
      exact (List.append_cancel_right hyl).symm
    have hmf : MayFollow D S eof (u.map Token.ty) y := by
      cases hfl with
      | @noAction i st trs buf row h2 h3 =>
        have hn : ¬ HasCell t.actions eof (⟨i :: st, trs, buf⟩ : Conf M T) (lookSym eof buf) := by
          rintro ⟨i', st', a, e1, e2⟩
          cases e1
          unfold cellAt at e2; rw [h2] at e2; simp [h3] at e2
        have := (Exact.error_row ha hl hx hpr hS h1 he hT hm (Fails.noAction h2 h3).dead hn hy).mp (by
            obtain ⟨a, hg⟩ := OMap.mem_keys.mp hmem
            exact ⟨i, st, a, rfl, by unfold cellAt; rw [h2]; exact hg⟩)
        rw [hu]
        exact this
    obtain ⟨cs, more, k1, k2, k3⟩ := mayFollow_tree ht.start h1 hmf
    have hsent : Sentence D S ((u ++ more).map Token.ty) := by
      have hd' := k1.derives
      simp only [Tree.root, Tree.yield_node, k2] at hd'
      refine ⟨hd', ?_⟩
      intro z hz
      obtain ⟨tok, j1, rfl⟩ := List.mem_map.mp hz
      exact k1.terminals tok (by simpa [k2] using j1)
    obtain ⟨d0, j1, j2, _⟩ := hr more
    rcases complete ht (by simp) hS h1 he (hred.evaluates _) hsent with ⟨val, hp⟩ | ⟨a, b, hp⟩
    · obtain ⟨n, hp⟩ := hp
      unfold Parser.parse at hp
      rw [j1] at hp
      simp only [Out.ok_bind] at hp
      obtain ⟨⟨e, r⟩, q1, q2⟩ := Out.bind_eq_ok.mp hp
      cases r with
      | error er => simp at q2
      | ok w =>
        refine ⟨more, e, (j2 e (.ok ())).mpr ⟨n, q1⟩, ?_⟩
        rw [← k3]
        cases more <;> rfl
    · exact absurd hp (not_conflict ht hc he (terminalToks_of_sentence hsent))
  · rintro ⟨rest, e, hok, rfl⟩
    exact C109_listed ht he hT hd h hok

/-- Not vacuous: where C108 is false, for `S → a A d | b A c`, `A → x | x y` and `a x c`, the parser can still be
brought to accept: with the rest `d`. -/
example : ∃ t, Makes .slr true Samples.contexts 0 99 t ∧ ∃ d d' d2,
      Parser.dfa t (Samples.toks [10, 14, 12]) (Parser.empty t) = .ok d ∧
      Starts d d' (.error (.unexpectedToken 12 [13])) ∧
      Starts { d' with buffer := Samples.toks [13] } d2 (.ok ()) ∧
      ∃ u rest e, Samples.toks [10, 14, 12] = u ++ d'.buffer ∧ Starts { d' with buffer := rest } e (.ok ()) ∧
        Sentence Samples.contexts 0 ((u ++ rest).map Token.ty) := by
  have hg : Grammar.new true 0 (grammarMap Samples.contexts) 99 =
    .ok (Samples.grammar Samples.contexts) := by decide +kernel
  have h : ∃ t, Slr.new true 50 (Samples.grammar Samples.contexts) = .ok t ∧ t.conflicts = [] ∧
      goOn t (Samples.toks [10, 14, 12]) (Samples.toks [13]) =
        some (.unexpectedToken 12 [13], [12], none) := by
    refine ⟨_, rfl, ?_⟩
    decide +kernel
  obtain ⟨t, h1, h2, h3⟩ := h
  have ht : Makes .slr true Samples.contexts 0 99 t := ⟨_, hg, 50, h1⟩
  obtain ⟨d, d', d2, k1, k2, _, k4⟩ := goOn_eq h3
  exact ⟨t, ht, d, d', d2, k1, k2, k4, C109_after_error ht (by simp) h2 (Samples.inNoBody (by decide))
    (by unfold Terminal; decide) contexts_productive (reductors_empty ht.grammar)
    (by unfold TerminalToks Terminal Samples.toks; decide) (.init k1) k2⟩

/-- Not vacuous: after `id + )` the Clr parser of the expression grammar lists `(` and `id` among the terminals,
and so there is a rest beginning with `(` that it accepts. -/
example : ∃ d d', Parser.dfa exprClr (Samples.toks [14, 10, 13]) (Parser.empty exprClr) = .ok d ∧
    Starts d d' (.error (.unexpectedToken 13 [2, 3, 12, 14])) ∧
    ∃ rest e, Starts { d' with buffer := rest } e (.ok ()) ∧ nextSym 99 rest = 12 := by
  obtain ⟨d, d', d2, h1, h2, _, _⟩ := goOn_eq (t := exprClr) (toks := Samples.toks [14, 10, 13])
    (rest := Samples.toks [14]) (e := .unexpectedToken 13 [2, 3, 12, 14]) (b := [13]) (o := none)
    (by decide +kernel)
  exact ⟨d, d', h1, h2, (C109_clr_list makes_exprClr exprClr_ok.2.2 expr_start expr_single
    (by unfold Terminal; decide) expr_productive (reductors_empty makes_exprClr.grammar)
    (by unfold TerminalToks Terminal Samples.toks; decide) (.init h1) h2 (by unfold Terminal; decide)).mp (by decide)⟩

end Lrp.Props
