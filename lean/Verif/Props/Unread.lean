import Verif.Proofs.Unread
import Verif.Proofs.Moved
import Verif.Props.Errors

/-! C105: what a parse has not read does not matter. -/

set_option linter.unusedSectionVars false

namespace Lrp.Props
open Spec
set_option maxRecDepth 100000

variable {M T : Type} [LinOrd T] [DecidableEq T]

/-- How `parse` ends when its run does not end well. -/
theorem parse_of_trace {t : Tabler T} {maps : ReductMap M T} {toks : List (Token M T)} {n : Nat} {d : Dfa M T}
    (hd : Parser.dfa t toks maps = .ok d) :
    (∀ e, Out.mapOk Prod.snd (Dfa.trace id n n d) = .ok (.error e) → Parser.parse t n toks maps = .ok (.error e)) ∧
    (∀ p, Out.mapOk Prod.snd (Dfa.trace id n n d) = .panic p → Parser.parse t n toks maps = .panic p) := by
  unfold Parser.parse Dfa.start
  rw [hd]
  simp only [Out.ok_bind]
  cases h : Dfa.trace id n n d with
  | fuel => exact ⟨fun e h => (by cases h), fun p h => by cases h⟩
  | panic p => exact ⟨fun e h => (by cases h), fun q h => by cases h; rfl⟩
  | ok r =>
    obtain ⟨d', r⟩ := r
    cases r with
    | error e => exact ⟨fun e' h => (by cases h; rfl), fun p h => by cases h⟩
    | ok u => exact ⟨fun e' h => (by cases h), fun p h => by cases h⟩

theorem dfa_buffer {t : Tabler T} {maps : ReductMap M T} {toks : List (Token M T)} {d : Dfa M T}
    (hd : Parser.dfa t toks maps = .ok d) (b : List (Token M T)) :
    d.buffer = toks ∧ d.finished = false ∧ Parser.dfa t b maps = .ok { d with buffer := b } := by
  unfold Parser.dfa at hd ⊢
  cases he : t.grammar.basis.look.head? with
  | none => rw [he] at hd; cases hd
  | some eof => rw [he] at hd; cases hd; exact ⟨rfl, rfl, rfl⟩

/-- The end of a parse that fails, with the symbol it reports. -/
theorem error_stops {t : Tabler T} {maps : ReductMap M T} {toks : List (Token M T)} {e : Error T}
    (h : Parses t maps toks (.error e)) :
    (∃ d, Reached t maps toks d ∧ d.buffer = [] ∧
      ∀ x exp, e = .unexpectedToken x exp → x = d.eof ∨ ReducesTo t.actions x) ∨
    ∃ d u tok rest, Reached t maps toks d ∧ d.buffer = tok :: rest ∧ toks = u ++ tok :: rest ∧
      (∀ v, Parses t maps (u ++ tok :: v) (.error e)) ∧
      ∀ x exp, e = .unexpectedToken x exp → x = tok.ty ∨ ReducesTo t.actions x := by
  obtain ⟨n, h⟩ := h
  simp only at h
  have h0 := h
  unfold Parser.parse at h0
  obtain ⟨d, hd, h0⟩ := Out.bind_eq_ok.mp h0
  obtain ⟨⟨d', r⟩, h2, h0⟩ := Out.bind_eq_ok.mp h0
  obtain ⟨k1, k2, _⟩ := dfa_buffer hd []
  cases r with
  | ok u =>
    rcases trace_reached n n (.init hd) h2 with ⟨_, h3, h4⟩ | ⟨e', d0, h3, _⟩
    · refine .inl ⟨d', h3, h3.finished h4, fun x exp e1 => ?_⟩
      subst e1
      simp only at h0
      cases hi : d'.items with
      | nil => rw [hi] at h0; cases h0
      | cons it its => rw [hi] at h0; cases h0
    · cases h3
  | error e' =>
    cases h0
    have h2' : Dfa.trace id n n d = .ok (d', .error e) := h2
    cases trace_stops n n d (.init hd) k2 (.ok (.error e)) (by simp) (by simp) (by rw [h2']; rfl) with
    | @atEnd d1 e1 e2 e3 =>
      rw [e1.const.1] at e3
      exact .inl ⟨d1, e1, e2, fun x exp ex => e3 x exp (by rw [ex])⟩
    | @before d1 u rest tok e1 e2 e3 e4 e5 =>
      rw [e1.const.1] at e4
      refine .inr ⟨d1, u, tok, rest, e1, e2, k1 ▸ e3, fun v => ⟨n, ?_⟩, fun x exp ex => e4 x exp (by rw [ex])⟩
      exact (parse_of_trace (dfa_buffer hd (u ++ tok :: v)).2.2).1 e (e5 v)

/-- C105: if `parse` reports an error, its run has come to the end of the input; or it stopped in front of a
token, and then it reports the same error whatever comes after that token. -/
theorem C105_unread {t : Tabler T} {maps : ReductMap M T} {toks : List (Token M T)} {e : Error T}
    (h : Parses t maps toks (.error e)) :
    (∃ d, Reached t maps toks d ∧ d.buffer = []) ∨
    ∃ d u tok rest, Reached t maps toks d ∧ d.buffer = tok :: rest ∧ toks = u ++ tok :: rest ∧
      ∀ v, Parses t maps (u ++ tok :: v) (.error e) := by
  rcases error_stops h with ⟨d, h1, h2, _⟩ | ⟨d, u, tok, rest, h1, h2, h3, h4, _⟩
  · exact .inl ⟨d, h1, h2⟩
  · exact .inr ⟨d, u, tok, rest, h1, h2, h3, h4⟩

/-- C105: the same of panics. -/
theorem C105_panic {t : Tabler T} {maps : ReductMap M T} {toks : List (Token M T)} {d0 : Dfa M T}
    (hd : Parser.dfa t toks maps = .ok d0) {p : Panic} (h : Panics (fun n => Parser.parse t n toks maps) p) :
    (∃ d, Reached t maps toks d ∧ d.buffer = []) ∨
    ∃ d u tok rest, Reached t maps toks d ∧ d.buffer = tok :: rest ∧ toks = u ++ tok :: rest ∧
      ∀ v, Panics (fun n => Parser.parse t n (u ++ tok :: v) maps) p := by
  obtain ⟨n, h⟩ := h
  simp only at h
  obtain ⟨k1, k2, _⟩ := dfa_buffer hd []
  have h2 : Out.mapOk Prod.snd (Dfa.trace id n n d0) = .panic p := by
    unfold Parser.parse Dfa.start at h
    rw [hd] at h
    simp only [Out.ok_bind] at h
    cases ht : Dfa.trace id n n d0 with
    | fuel => rw [ht] at h; cases h
    | panic q => rw [ht] at h; cases h; rfl
    | ok r =>
      obtain ⟨d', r⟩ := r
      rw [ht] at h
      cases r with
      | error e => cases h
      | ok u =>
        simp only [Out.ok_bind] at h
        cases hi : d'.items <;> rw [hi] at h <;> cases h
  cases trace_stops n n d0 (.init hd) k2 (.panic p) (by simp) (by simp) h2 with
  | @atEnd d1 e1 e2 e3 => exact .inl ⟨d1, e1, e2⟩
  | @before d1 u rest tok e1 e2 e3 e4 e5 =>
    refine .inr ⟨d1, u, tok, rest, e1, e2, k1 ▸ e3, fun v => ⟨n, ?_⟩⟩
    exact (parse_of_trace (dfa_buffer hd (u ++ tok :: v)).2.2).2 p (e5 v)

/-- C105 for built tables: an unexpected token other than the end marker is a token of the input, and the error
is the same whatever comes after it. -/
theorem C105_reported {k : Method} {dbg : Bool} {D : Decls T} {S eof : T} {t : Tabler T}
    (ht : Makes k dbg D S eof t) (he : Terminal D eof) {maps : ReductMap M T} {toks : List (Token M T)}
    (hT : TerminalToks D toks) {x : T} {exp : List T} (hx : x ≠ eof)
    (h : Parses t maps toks (.error (.unexpectedToken x exp))) :
    ∃ u tok rest, toks = u ++ tok :: rest ∧ tok.ty = x ∧
      ∀ v, Parses t maps (u ++ tok :: v) (.error (.unexpectedToken x exp)) := by
  have hterm : Terminal D x := by
    obtain ⟨b0, next, red, ha, _⟩ := ht.auto
    obtain ⟨n, hn⟩ := h
    have hend := ha.parse_end (maps := maps) ht.eofHead he hT n
    simp only at hn
    rw [hn] at hend
    cases hend with
    | @error c _ hm hf =>
      have hy := hm.yields
      cases hf with
      | @noAction i st trs buf row f1 f2 =>
        refine terminal_lookSym he (fun tok htok => hT tok ?_)
        simp only [List.reverse_nil, Tree.yields_nil, List.nil_append] at hy
        rw [← hy]
        exact List.mem_append.mpr (.inr htok)
  have hno : ¬ ReducesTo t.actions x := by
    rintro ⟨row, hr, y, p, hp⟩
    have := (ht.redProds row hr y x p hp).nonterminal
    obtain ⟨d, h1, h2⟩ := this
    exact hterm d h1 h2
  rcases error_stops h with ⟨d, h1, _, h2⟩ | ⟨d, u, tok, rest, _, _, h3, h4, h5⟩
  · rcases h2 x exp rfl with h2 | h2
    · have := h1.const.2
      rw [ht.eofHead] at this
      cases this
      exact absurd h2 hx
    · exact absurd h2 hno
  · rcases h5 x exp rfl with h5 | h5
    · exact ⟨u, tok, rest, h3, h5.symm, h4⟩
    · exact absurd h5 hno

/-- C105: an input that is wrong at one of its tokens stays wrong, in the same way, however it goes on. -/
theorem C105_stays {k : Method} {dbg : Bool} {D : Decls T} {S eof : T} {t : Tabler T}
    (ht : Makes k dbg D S eof t) (he : Terminal D eof) {maps : ReductMap M T} {toks : List (Token M T)}
    (hT : TerminalToks D toks) {x : T} {exp : List T} (hx : x ≠ eof)
    (h : Parses t maps toks (.error (.unexpectedToken x exp))) (more : List (Token M T)) :
    Parses t maps (toks ++ more) (.error (.unexpectedToken x exp)) := by
  obtain ⟨u, tok, rest, h1, _, h2⟩ := C105_reported ht he hT hx h
  have := h2 (rest ++ more)
  rw [h1, List.append_assoc]
  exact this

/-- Not vacuous: `id id` is wrong at its second token, and stays wrong however it goes on. -/
example (more : List (Token Nat Nat)) : ∃ exp,
    Parses exprClr exprReds ([⟨2, 14⟩, ⟨3, 14⟩] ++ more) (.error (.unexpectedToken 14 exp)) := by
  have h : ∃ exp, Parser.parse exprClr 100 [⟨2, 14⟩, ⟨3, 14⟩] exprReds = .ok (.error (.unexpectedToken 14 exp)) := by
    have hb : (match Parser.parse exprClr 100 [⟨2, 14⟩, ⟨3, 14⟩] exprReds with
      | .ok (.error (.unexpectedToken x _)) => x == 14
      | _ => false) = true := by decide +kernel
    revert hb
    cases Parser.parse exprClr 100 [⟨2, 14⟩, ⟨3, 14⟩] exprReds with
    | fuel => intro hb; cases hb
    | panic p => intro hb; cases hb
    | ok r =>
      cases r with
      | ok v => intro hb; cases hb
      | error e =>
        cases e with
        | unexpectedToken x exp => intro hb; exact ⟨exp, by rw [show x = 14 from by simpa using hb]⟩
        | _ => intro hb; cases hb
  obtain ⟨exp, h⟩ := h
  exact ⟨exp, C105_stays makes_exprClr expr_eof (by unfold TerminalToks Terminal; decide) (by decide) ⟨100, h⟩ more⟩

end Lrp.Props
