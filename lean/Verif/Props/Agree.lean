import Verif.Spec.Agree
import Verif.Proofs.Agree
import Verif.Props.Halt
import Verif.Props.Errors

/-!
C87 — parsers of the same grammar agree.
-/

set_option linter.unusedSectionVars false

namespace Lrp.Props
open Spec
set_option maxRecDepth 100000

variable {T : Type} [LinOrd T] [DecidableEq T] {M : Type}

/-- C87: `IncompleteExec` is reported only at a token of the type eof, and the tokens before it are a sentence. -/
theorem C87_incomplete {k : Method} {dbg : Bool} {D : Decls T} {S eof : T} {t : Tabler T}
    (ht : Makes k dbg D S eof t) (hS : InNoBody D S) (he : Terminal D eof) {maps : ReductMap M T}
    {toks : List (Token M T)} (hT : TerminalToks D toks) (h : Parses t maps toks (.error .incompleteExec)) :
    ∃ u tok rest, toks = u ++ tok :: rest ∧ tok.ty = eof ∧ Sentence D S (u.map Token.ty) := by
  obtain ⟨n, h⟩ := h
  obtain ⟨b0, next, red, ha, _⟩ := ht.auto
  have hend := ha.parse_end (maps := maps) ht.eofHead he hT n
  simp only at h
  rw [h] at hend
  cases hend with
  | @error c _ hm hf =>
    have hi := ha.inv_moves (inv_init D t.states next toks) hm
    have hy := hm.yields
    simp only [List.reverse_nil, Tree.yields_nil, List.nil_append] at hy
    cases hf with
    | @incomplete i st trs buf hc hne =>
      cases buf with
      | nil => exact absurd rfl hne
      | cons tok rest =>
        have hty : tok.ty = eof := ht.acc_eof hS he hc
        rw [show lookSym eof (tok :: rest) = eof from hty] at hc
        have hv := (ha.accepts (c := ⟨i :: st, trs, []⟩) hS ⟨hi.path, hi.valid⟩ ⟨i, st, rfl, hc, rfl⟩).1
        refine ⟨Tree.yields trs.reverse, tok, rest, hy.symm, hty, ?_, ?_⟩
        · have := hv.derives
          simpa only [Tree.root, Tree.yield_node] using this
        · intro x hx
          obtain ⟨tk, h1, rfl⟩ := List.mem_map.mp hx
          exact hv.terminals tk (by simpa using h1)

theorem sentence_of_ok {k : Method} {dbg : Bool} {D : Decls T} {S eof : T} {t : Tabler T}
    (ht : Makes k dbg D S eof t) (hS : InNoBody D S) (he : Terminal D eof) {maps : ReductMap M T}
    {toks : List (Token M T)} {v : M} (h : Parses t maps toks (.ok v)) : Sentence D S (toks.map Token.ty) := by
  obtain ⟨cs, last, hv, rfl, _⟩ := C24_value ht hS he h
  refine ⟨by have := hv.derives; simpa only [Tree.root, Tree.yield_node] using this, ?_⟩
  intro x hx
  obtain ⟨tk, h1, rfl⟩ := List.mem_map.mp hx
  exact hv.terminals tk (by simpa using h1)

/-- A symbol of a derived string is there from the beginning or comes from a body. -/
theorem derives_mem {D : Decls T} {a b : List T} (h : Derives D a b) {x : T} (hb : InNoBody D x) (hx : x ∈ b) :
    x ∈ a := by
  induction h with
  | refl => exact hx
  | head s _ ih =>
    have := ih hx
    cases s with
    | mk _ _ hp =>
      simp only [List.mem_append, List.mem_cons] at this ⊢
      rcases this with (h | h) | h
      · exact Or.inl h
      · exact absurd h (hb _ _ _ hp)
      · exact Or.inr (Or.inr h)

theorem sentence_no_eof {D : Decls T} {S eof : T} (hS : Nonterminal D S) (he : Terminal D eof) (hb : InNoBody D eof)
    {w : List T} (h : Sentence D S w) : eof ∉ w := by
  intro hm
  have := derives_mem h.1 hb hm
  simp only [List.mem_singleton] at this
  exact not_terminal_iff.mpr hS (this ▸ he)

/-- No token is wrong in a sentence. -/
theorem firstWrong_sentence {D : Decls T} {S eof : T} {toks u : List (Token M T)} {x : T}
    (h : FirstWrong D S eof toks u x) (hs : Sentence D S (toks.map Token.ty)) : False := by
  obtain ⟨rest, rfl, _, rfl, hn⟩ := h
  cases rest with
  | nil => exact hn ⟨_, [], hs, by simp [nextSym]⟩
  | cons a r => exact hn ⟨_, r.map Token.ty ++ [eof], hs, by simp [nextSym]⟩

/-- No token is wrong up to a token of the type eof after a sentence. -/
theorem firstWrong_incomplete {D : Decls T} {S eof : T} (hS : Nonterminal D S) (he : Terminal D eof)
    (hb : InNoBody D eof) {toks u : List (Token M T)} {x : T} (h : FirstWrong D S eof toks u x)
    {w rest : List (Token M T)} {tok : Token M T} (e : toks = w ++ tok :: rest) (ht : tok.ty = eof)
    (hs : Sentence D S (w.map Token.ty)) : False := by
  obtain ⟨r, e', ⟨v, hv⟩, rfl, hn⟩ := h
  rcases List.append_eq_append_iff.mp (e'.symm.trans e) with ⟨m, h1, h2⟩ | ⟨m, h1, h2⟩
  · subst h1 h2
    cases m with
    | nil => exact hn ⟨_, [], hs, by simp [nextSym, ht]⟩
    | cons a m => exact hn ⟨_, m.map Token.ty ++ [eof], hs, by simp [nextSym]⟩
  · cases m with
    | nil =>
      simp only [List.append_nil, List.nil_append] at h1 h2
      subst h1
      subst h2
      exact hn ⟨_, [], hs, by simp [nextSym, ht]⟩
    | cons a m =>
      simp only [List.cons_append, List.cons.injEq] at h2
      refine sentence_no_eof hS he hb hv ?_
      subst h1
      simp [← h2.1, ht]

/-- C87: two conflict-free parsers of the same grammar, whatever built them, return the same result on every
input of terminals; only the lists of expected tokens may differ. -/
theorem C87_agree [Nonempty M] {k k' : Method} {dbg dbg' : Bool} {D : Decls T} {S eof : T} {t t' : Tabler T}
    (ht : Makes k dbg D S eof t) (ht' : Makes k' dbg' D S eof t') (hk : k = .lalr → Propagated t)
    (hk' : k' = .lalr → Propagated t') (hc : t.conflicts = []) (hc' : t'.conflicts = [])
    (hS : InNoBody D S) (h1 : SingleStart D S) (he : Terminal D eof) (hb : InNoBody D eof) (hpr : AllProductive D)
    {maps : ReductMap M T} {toks : List (Token M T)} (hT : TerminalToks D toks) (hred : Evaluates D maps toks) :
    ∃ r r', Parses t maps toks r ∧ Parses t' maps toks r' ∧ SameResult r r' := by
  obtain ⟨r, hr⟩ := (C27_conflict_free_returns ht hk hc he hpr hT).2 hred
  obtain ⟨r', hr'⟩ := (C27_conflict_free_returns ht' hk' hc' he hpr hT).2 hred
  refine ⟨r, r', hr, hr', ?_⟩
  have key : ∀ {k : Method} {dbg : Bool} {t : Tabler T}, Makes k dbg D S eof t → (k = .lalr → Propagated t) →
      t.conflicts = [] → ∀ {r}, Parses t maps toks r →
      (∃ v, r = .ok v) ∨ (∃ x e, r = .error (.unexpectedToken x e)) ∨ r = .error .incompleteExec := by
    intro k dbg t ht hk hc r hr
    match r, hr with
    | .ok v, _ => exact Or.inl ⟨v, rfl⟩
    | .error (.unexpectedToken x e), _ => exact Or.inr (Or.inl ⟨x, e, rfl⟩)
    | .error .incompleteExec, _ => exact Or.inr (Or.inr rfl)
    | .error .unexpectedEof, h => exact absurd h (C29_unexpected_eof ht he hb hT)
    | .error (.conflict a b), h => exact absurd h (not_conflict ht hc he hT)
    | .error .missingPreviousState, h => exact absurd h (C26_no_panic ht he hred hT).2.1
    | .error .stateNotSpecified, h => exact absurd h (C26_no_panic ht he hred hT).2.2
  rcases key ht hk hc hr with ⟨v, rfl⟩ | ⟨x, e, rfl⟩ | rfl <;>
    rcases key ht' hk' hc' hr' with ⟨v', rfl⟩ | ⟨x', e', rfl⟩ | rfl
  · obtain ⟨cs, last, a1, a2, a3⟩ := C24_value ht hS he hr
    obtain ⟨cs', last', b1, b2, b3⟩ := C24_value ht' hS he hr'
    have := C25_unambiguous ht hk hc hS h1 he a1 b1 rfl rfl (by simp [a2, b2])
    simp only [Tree.node.injEq, true_and] at this
    have hl := (List.append_inj' this rfl).2
    simp only [List.cons.injEq, and_true] at hl
    subst hl
    rw [a3] at b3
    exact Option.some.inj b3
  · obtain ⟨u, hu⟩ := C30_first_wrong ht' hk' hS h1 he hpr hT hr'
    exact (firstWrong_sentence hu (sentence_of_ok ht hS he hr)).elim
  · obtain ⟨u, tok, rest, e, h2, _⟩ := C87_incomplete ht' hS he hT hr'
    exact absurd hr (C29_eof_token ht hS he hb (by rw [e]; simp) h2 v)
  · obtain ⟨u, hu⟩ := C30_first_wrong ht hk hS h1 he hpr hT hr
    exact (firstWrong_sentence hu (sentence_of_ok ht' hS he hr')).elim
  · obtain ⟨u, hu⟩ := C30_first_wrong ht hk hS h1 he hpr hT hr
    obtain ⟨u', hu'⟩ := C30_first_wrong ht' hk' hS h1 he hpr hT hr'
    exact (firstWrong_unique hu hu').2
  · obtain ⟨u, hu⟩ := C30_first_wrong ht hk hS h1 he hpr hT hr
    obtain ⟨w, tok, rest, e, h2, h3⟩ := C87_incomplete ht' hS he hT hr'
    exact (firstWrong_incomplete ht.start he hb hu e h2 h3).elim
  · obtain ⟨u, tok, rest, e, h2, _⟩ := C87_incomplete ht hS he hT hr
    exact absurd hr' (C29_eof_token ht' hS he hb (by rw [e]; simp) h2 v')
  · obtain ⟨u, hu⟩ := C30_first_wrong ht' hk' hS h1 he hpr hT hr'
    obtain ⟨w, tok, rest, e, h2, h3⟩ := C87_incomplete ht hS he hT hr
    exact (firstWrong_incomplete ht.start he hb hu e h2 h3).elim
  · rfl

theorem expr_eof_nowhere : InNoBody Samples.expr 99 := Samples.inNoBody (by decide)

/-- Not vacuous: the three parsers of the expression grammar, on every input of terminals. -/
example (toks : List (Token Unit Nat)) (hT : TerminalToks Samples.expr toks) :
    (∃ r r', Parses exprSlr (Parser.empty exprSlr) toks r ∧ Parses exprClr (Parser.empty exprSlr) toks r' ∧
      SameResult r r') ∧
    ∃ r r', Parses exprLalr.table (Parser.empty exprSlr) toks r ∧ Parses exprClr (Parser.empty exprSlr) toks r' ∧
      SameResult r r' :=
  have hred := (reductors_empty makes_exprSlr.grammar).evaluates toks
  ⟨C87_agree makes_exprSlr makes_exprClr (by simp) (by simp) exprSlr_ok.2.2 exprClr_ok.2.2 expr_start expr_single
    expr_eof expr_eof_nowhere expr_productive hT hred,
   C87_agree makes_exprLalr makes_exprClr (fun _ => exprLalr_propagated) (by simp) exprLalr_ok.2.2 exprClr_ok.2.2
    expr_start expr_single expr_eof expr_eof_nowhere expr_productive hT hred⟩

/-- Not vacuous: `id eof` is an incomplete run. -/
example : Parses exprSlr (Parser.empty exprSlr) (Samples.toks [14, 99]) (.error .incompleteExec) :=
  ⟨50, errOf_eq (by decide +kernel)⟩

/-- The lists of expected tokens do differ: after `a x` the Slr parser expects `d`, the Clr parser also `y`. -/
example : ∃ t t', Makes .slr true Samples.contexts 0 99 t ∧ Makes .clr true Samples.contexts 0 99 t' ∧
    t.conflicts = [] ∧ t'.conflicts = [] ∧
    Parses t (Parser.empty t) (Samples.toks [10, 14, 12]) (.error (.unexpectedToken 12 [13])) ∧
    Parses t' (Parser.empty t') (Samples.toks [10, 14, 12]) (.error (.unexpectedToken 12 [13, 15])) := by
  have hg : Grammar.new true 0 (grammarMap Samples.contexts) 99 =
    .ok (Samples.grammar Samples.contexts) := by decide +kernel
  have h : ∃ t, Clr.new true 50 (Samples.grammar Samples.contexts) = .ok t ∧ t.conflicts = [] ∧
      errOf (Parser.parse t 50 (Samples.toks [10, 14, 12]) (Parser.empty t)) =
        some (.unexpectedToken 12 [13, 15]) := by
    refine ⟨_, rfl, ?_⟩
    decide +kernel
  obtain ⟨t', h1, h2, h3⟩ := h
  obtain ⟨t, h, hc, hp, _⟩ := C31_false_slr
  exact ⟨t, t', h, ⟨_, hg, 50, h1⟩, hc, h2, hp, ⟨50, errOf_eq h3⟩⟩

/-- The lookaheads must have been passed on: this Lalr parser reports an error on a sentence, which the Clr
parser accepts. -/
theorem C87_needs_propagated : ∃ t t', Makes .lalr true Samples.lalrGap 0 99 t ∧
    Makes .clr true Samples.lalrGap 0 99 t' ∧ t.conflicts = [] ∧ t'.conflicts = [] ∧
    ∃ toks e v, Parses t (Parser.empty t) toks (.error e) ∧ Parses t' (Parser.empty t') toks (.ok v) := by
  obtain ⟨t, h1, h2, _, _, _, _, h3⟩ := C23_false
  have hg : Grammar.new true 0 (grammarMap Samples.lalrGap) 99 =
    .ok (Samples.grammar Samples.lalrGap) := by decide +kernel
  have h : ∃ t', Clr.new true 50 (Samples.grammar Samples.lalrGap) = .ok t' ∧ t'.conflicts = [] ∧
      Parser.validate t' 50 (Samples.toks [13, 11, 14, 15, 12]) = .ok true := by
    refine ⟨_, rfl, ?_⟩
    decide +kernel
  obtain ⟨t', k1, k2, k3⟩ := h
  obtain ⟨e, he⟩ := validates_false.mp h3
  exact ⟨t, t', h1, ⟨_, hg, 50, k1⟩, h2, k2, _, e, (), he, validates_true.mp ⟨50, k3⟩⟩

end Lrp.Props
