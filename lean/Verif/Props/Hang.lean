import Verif.Proofs.Hang
import Verif.Props.Again
import Verif.Props.Halt
import Verif.Props.Lalr1

/-! C28: for which inputs with a token of a nonterminal type the parser returns. -/

set_option linter.unusedSectionVars false

namespace Lrp.Props
open Spec
set_option maxRecDepth 100000

variable {T : Type} [LinOrd T] [DecidableEq T] {M : Type}

/-- C28, exactly: when the parser comes to a token of a nonterminal type `A`, with the symbols `γ` on its stack, it
goes on forever if `A` may be repeated after `γ` without end, and reports the token otherwise.  For tables whose
columns of nonterminals hold gotos only; by `C86_columns_partial` those are all tables of debug builds. -/
theorem C28_hangs_iff {k : Method} {dbg : Bool} {D : Decls T} {S eof : T} {t : Tabler T}
    (ht : Makes k dbg D S eof t) (he : Terminal D eof) (hS : SingleStart D S) (hpr : AllProductive D)
    (hg : GotoColumns D t) {maps : ReductMap M T} {toks : List (Token M T)} {d : Dfa M T}
    (hd : Reached t maps toks d) {tok : Token M T} {rest : List (Token M T)} (hb : d.buffer = tok :: rest)
    (hA : Nonterminal D tok.ty) (hbal : d.states.length = d.items.length + 1) :
    (Diverges (fun n => Parser.parse t n toks maps) ↔ Repeats D S (stackSyms d) tok.ty) ∧
    (¬ Repeats D S (stackSyms d) tok.ty → ∃ es, Parses t maps toks (.error (.unexpectedToken tok.ty es))) := by
  obtain ⟨b0, next, red, ha, _⟩ := ht.auto
  obtain ⟨h1, h2, st, h3⟩ := ha.reached_path hg.cols ht.eofHead he hd hb hbal
  have key : ¬ Repeats D S (stackSyms d) tok.ty → ∃ es, Parses t maps toks (.error (.unexpectedToken tok.ty es)) := by
    intro hn
    refine Classical.byContradiction fun hno => hn fun n => ?_
    exact ha.stuck_error hg.cols he hS hpr hA n h1 hb h2 h3
      (fun ⟨tf, m, d', es, hk⟩ => hno ⟨es, reached_error hd ⟨tf, m, hk⟩⟩)
  refine ⟨⟨fun hdiv => Classical.byContradiction fun hn => ?_, fun hrep => ?_⟩, key⟩
  · obtain ⟨es, n, hp⟩ := key hn
    have := hdiv n
    simp only at this hp
    rw [this] at hp
    cases hp
  · exact reached_fuel hd (fun tf n => ha.repeats_fuel hg.cols he hS hA tf n h1 hb h2 h3 hrep)

/-- C28, proved part: if no nonterminal may be repeated without end, `validate` answers false on every input with a
token of a nonterminal type.  For tables without conflicts whose columns of nonterminals hold gotos only (all debug
builds) and, for Lalr, in which lookaheads have been passed on.  Missing: grammars in which a nonterminal may be
repeated; there it is false, see `C28_false` and `C28_hangs_iff`. -/
theorem C28_returns_partial {k : Method} {dbg : Bool} {D : Decls T} {S eof : T} {t : Tabler T}
    (ht : Makes k dbg D S eof t) (hk : k = .lalr → Propagated t) (hc : t.conflicts = []) (he : Terminal D eof)
    (hb : InNoBody D S) (hS : SingleStart D S) (hpr : AllProductive D) (hg : GotoColumns D t)
    (hr : ∀ γ A, Nonterminal D A → ¬ Repeats D S γ A) {toks : List (Token Unit T)} {tok : Token Unit T}
    (hm : tok ∈ toks) (hn : Nonterminal D tok.ty) : Validates t toks false := by
  obtain ⟨b0, next, red, ha, hl⟩ := ht.looks hk he
  have hred := reductors_empty ht.grammar
  -- the first such token
  obtain ⟨pre, tok, post, rfl, hpre, hA⟩ : ∃ pre tok post, toks = pre ++ tok :: post ∧ TerminalToks D pre ∧
      Nonterminal D tok.ty := by
    clear hc
    induction toks with
    | nil => cases hm
    | cons x xs ih =>
      by_cases hx : Terminal D x.ty
      · rcases List.mem_cons.mp hm with rfl | hm
        · exact absurd hx (not_terminal_iff.mpr hn)
        · obtain ⟨pre, tok, post, rfl, h1, h2⟩ := ih hm
          exact ⟨x :: pre, tok, post, rfl, fun y hy => by
            rcases List.mem_cons.mp hy with rfl | hy
            · exact hx
            · exact h1 y hy, h2⟩
      · exact ⟨[], x, xs, rfl, fun _ h => (List.not_mem_nil h).elim, not_terminal_iff.mp hx⟩
  obtain ⟨c, hmv, hstop⟩ := ha.halts he
    (fun i st syms y X hp _ => Looks.no_loop ha hl he hpr (ht.no_conflict.mp hc) hp X) _ _ _ rfl rfl
    (inv_init D t.states next pre) hpre
  obtain ⟨e, g1, g2, g3⟩ := hmv.more (tok :: post)
  have hinv := ha.inv_moves (inv_init D t.states next (pre ++ tok :: post)) g2
  -- in front of the token
  have hstuck : e.buf = [] → ∀ d, Sim t.actions eof (Parser.empty t) d (e.more (tok :: post)) →
      ∃ tf n r, Dfa.trace id tf n d = .ok r := by
    intro he0 d hs
    have hbuf : d.buffer = tok :: post := by rw [hs.buffer]; simp [Conf.more, he0]
    have hp := hinv.path
    have htop := hs.top
    cases hst : (e.more (tok :: post)).states with
    | nil => rw [hst] at htop; cases htop
    | cons i st =>
      rw [hst] at htop hp
      cases htop
      refine Classical.byContradiction fun hno => ?_
      refine hr ((e.more (tok :: post)).trees.map Tree.root).reverse tok.ty hA (fun n => ?_)
      exact ha.stuck_error hg.cols he hS hpr hA n hs.table hbuf hs.finished
        (by rw [List.reverse_reverse]; exact hp) (fun ⟨tf, m, d', es, h⟩ => hno ⟨tf, m, _, h⟩)
  have hend : ∀ d, Sim t.actions eof (Parser.empty t) d (e.more (tok :: post)) →
      ∃ tf n r, Dfa.trace id tf n d = .ok r := by
    by_cases he0 : e.buf = []
    · exact hstuck he0
    · intro d hs
      rcases g3 with rfl | g3
      · rcases hstop with ⟨_, _, _, _, h0⟩ | ⟨er, hf⟩
        · exact absurd h0 he0
        · obtain ⟨er, hf⟩ := hf.more he0 (tok :: post)
          refine ha.returns_fails hred hf ?_ hinv hs
          show Terminal D (lookSym eof (e.buf ++ tok :: post))
          rw [lookSym_more he0]
          exact terminal_lookSym he (fun x hx => hpre x (g1.buf_suffix x hx))
      · exact absurd g3 he0
  obtain ⟨tf, n, ⟨d', r⟩, htr⟩ := ha.returns_moves hg.cols hred g2 hend
    (inv_init D t.states next (pre ++ tok :: post)) (sim_init t.actions eof (Parser.empty t) (pre ++ tok :: post))
  have hdfa : Parser.dfa t (pre ++ tok :: post) (Parser.empty t) =
      .ok (Dfa.new (pre ++ tok :: post) t.actions (Parser.empty t) eof) := by
    unfold Parser.dfa; rw [ht.eofHead]; rfl
  cases r with
  | error er => exact validates_false.mpr ⟨er, reached_error (.init hdfa) ⟨tf, n, htr⟩⟩
  | ok u =>
    obtain ⟨c', d1, k1, k2, k3, _⟩ := ha.ran_ok he tf n (inv_init D t.states next (pre ++ tok :: post))
      (sim_init t.actions eof (Parser.empty t) _) htr
    -- the token would have been consumed
    exfalso
    have hbuf : ∀ {c c' : Conf Unit T}, Moves t.actions eof c c' → tok ∈ c.buf → tok ∈ c'.buf := by
      intro c c' hm
      induction hm with
      | refl => exact id
      | head m _ ih =>
        intro hin
        refine ih ?_
        have hT := hg.cols.move m
        cases m with
        | shift h1 =>
          rcases List.mem_cons.mp hin with rfl | h
          · exact absurd hT (not_terminal_iff.mpr hA)
          · exact h
        | reduce _ _ _ _ => exact hin
    obtain ⟨_, _, _, _, h0⟩ := k2
    have := hbuf k1 (by simp)
    rw [h0] at this
    cases this

/-- A table in which no goto leads to a goto under the same symbol: nothing may be repeated. -/
theorem not_repeats {k : Method} {dbg : Bool} {D : Decls T} {S eof : T} {t : Tabler T}
    (ht : Makes k dbg D S eof t) (he : Terminal D eof) (hS : SingleStart D S) (hg : GotoColumns D t)
    (hno : ∀ (i j j' : Nat) A, Cell t.actions i A (.goto j) → ¬ Cell t.actions j A (.goto j'))
    (γ : List T) {A : T} (hA : Nonterminal D A) : ¬ Repeats D S γ A := by
  intro hrep
  obtain ⟨b0, next, red, ha, _⟩ := ht.auto
  obtain ⟨B, i, β₁, β₂, hv⟩ := hrep 0
  obtain ⟨i0, st, _, _, hp, _⟩ := Looks.valid ha (ha.looks_any (eof := eof)) he hS hv
  simp only [List.replicate_zero, List.append_nil] at hp
  obtain ⟨_, _, _, _, hv⟩ := hrep 1
  obtain ⟨j, hc⟩ := ha.valid_goto hg.cols he hS hA hp hv
  obtain ⟨_, _, _, _, hv⟩ := hrep.again 1
  obtain ⟨j', hc'⟩ := ha.valid_goto hg.cols he hS hA (ha.goto_path hp hc) hv
  exact hno _ _ _ _ (Option.bind_eq_some_iff.mp hc) (Option.bind_eq_some_iff.mp hc')

/-! ### Examples -/

/-- In the table of the expressions no goto leads to a goto under the same symbol. -/
theorem exprSlr_no_repeat : exprSlr.actions.all (fun row => row.all fun c =>
    match c.2 with
    | .goto j => (exprSlr.actions[j]?.bind (fun row' => row'.get? c.1)).isNone
    | _ => true) = true := by decide +kernel

theorem expr_no_repeats (γ : List Nat) {A : Nat} (hA : Nonterminal Samples.expr A) : ¬ Repeats Samples.expr 0 γ A := by
  refine not_repeats makes_exprSlr expr_eof expr_single (C86_columns_partial makes_exprSlr expr_eof (Or.inl rfl)) ?_ γ hA
  rintro i j j' A ⟨row, h1, h2⟩ ⟨row', h3, h4⟩
  have h := List.all_eq_true.mp (List.all_eq_true.mp exprSlr_no_repeat row (List.mem_of_getElem? h1)) (A, .goto j)
    (OMap.mem_of_get? h2)
  simp only [h3, Option.bind_some, h4, Option.isNone_some] at h
  cases h

/-- Not vacuous: for the grammar of expressions `validate` answers false on all inputs with a nonterminal. -/
example {toks : List (Token Unit Nat)} {tok : Token Unit Nat} (hm : tok ∈ toks) (hn : Nonterminal Samples.expr tok.ty) :
    Validates exprSlr toks false :=
  C28_returns_partial makes_exprSlr (by simp) exprSlr_ok.2.2 expr_eof expr_start expr_single expr_productive
    (C86_columns_partial makes_exprSlr expr_eof (Or.inl rfl)) (fun γ _ hA => expr_no_repeats γ hA) hm hn

theorem lists_derives (n : Nat) : RDerives Samples.lists [0] (List.replicate n 2 ++ [1]) := by
  induction n with
  | zero =>
    have := RStep.mk (D := Samples.lists) [] []
      (isProd_of_mem (A := 0) (i := 0) (by decide) (bs := [[1]]) (by decide) rfl) (by simp [Terminals])
    exact .tail .refl this
  | succ n ih =>
    have := RStep.mk (D := Samples.lists) (List.replicate n 2) []
      (isProd_of_mem (A := 1) (i := 0) (by decide) (bs := [[2, 1], [10]]) (by decide) rfl) (by simp [Terminals])
    refine .tail ih ?_
    simpa [List.replicate_succ'] using this

/-- In the grammar `S → C S | d`, `C → c` the symbol `C` may be repeated without end. -/
theorem lists_repeats : Repeats Samples.lists 0 [] 2 := fun n =>
  ⟨1, 0, [], [2, 1], isProd_of_mem (by decide) (bs := [[2, 1], [10]]) (by decide) rfl, List.replicate n 2, [], by simp,
    by simp [Terminals], lists_derives n⟩

/-- Not vacuous: no parser for it returns on the token `C`, in debug builds and whatever the reductors. -/
example {k : Method} {t : Tabler Nat} (ht : Makes k true Samples.lists 0 99 t) {maps : ReductMap Unit Nat} :
    Diverges (fun n => Parser.parse t n (Samples.toks [2]) maps) := by
  have he : Terminal Samples.lists 99 := by unfold Terminal; decide
  have hd : Parser.dfa t (Samples.toks [2]) maps = .ok (Dfa.new (Samples.toks [2]) t.actions maps 99) := by
    unfold Parser.dfa; rw [ht.eofHead]; rfl
  exact (C28_hangs_iff ht he (Samples.singleStart (by decide))
    (allProductive [(2, 0), (1, 1), (0, 0)] (by decide) (by decide +kernel) (by decide))
    (C86_columns_partial ht he (Or.inl rfl)) (.init hd) (tok := ⟨(), 2⟩) (rest := []) rfl
    (by unfold Nonterminal; decide) rfl).1.mpr lists_repeats

end Lrp.Props
