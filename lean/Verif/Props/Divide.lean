import Verif.Proofs.Divide
import Verif.Props.Choice

/-!
C114 — a text of one grammar and a text of another one with a token between them.
-/

set_option linter.unusedSectionVars false

namespace Lrp.Props
open Spec
set_option maxRecDepth 100000

variable {T : Type} [LinOrd T] [DecidableEq T] {M : Type}

theorem _root_.Lrp.Spec.NewDivider.ok {D E : Decls T} {Z C m S R eof : T} (hN : NewDivider D E Z C m eof)
    (hap : Separate D E) (hS : Nonterminal D S) (hR : Nonterminal E R) : DivOk D E C S m R :=
  { apart := hap, cD := hN.choiceFirst, cE := hN.choiceSecond, mD := hN.first, mE := hN.second, ne := hN.notRule,
    S := hS, R := hR }

theorem fresh_divided {D E : Decls T} {C S m R x : T} (q : DivOk D E C S m R) (hD : Fresh D x) (hE : Fresh E x)
    (hC : x ≠ C) (hm : x ≠ m) : Fresh (Divided D E C S m R) x := by
  refine ⟨DivOk.terminal.mpr ⟨hC, hD.1, hE.1⟩, fun X i b hp => ?_⟩
  rcases q.isProd.mp hp with ⟨_, _, rfl⟩ | hp | hp
  · intro h
    simp only [List.mem_cons, List.not_mem_nil, or_false] at h
    rcases h with rfl | rfl | rfl
    · exact not_terminal_iff.mpr q.S hD.1
    · exact hm rfl
    · exact not_terminal_iff.mpr q.R hE.1
  · exact hD.2 X i b hp
  · exact hE.2 X i b hp

theorem _root_.Lrp.Spec.NewDivider.fresh {D E : Decls T} {Z C m S R eof : T} (hN : NewDivider D E Z C m eof)
    (hap : Separate D E) (hS : Nonterminal D S) (hR : Nonterminal E R) : Fresh (Divided D E C S m R) Z :=
  fresh_divided (hN.ok hap hS hR) hN.startFirst hN.startSecond hN.different hN.notStart.symm

/-- C114: in debug builds a table can be made exactly if no production of the two grammars is empty and folding leaves
nothing of their graphs. -/
theorem C114_makes (k : Method) {D E : Decls T} {Z C m S R eof : T} (hap : Separate D E) (hN : NewDivider D E Z C m eof)
    (hS : Nonterminal D S) (hR : Nonterminal E R) :
    (∃ t, Makes k true (Wrapped (Divided D E C S m R) Z C) Z eof t) ↔
      (NoEmpty D ∧ FoldsAway (Loopless (LeftGraph D)) ∧ FoldsAway (Loopless (RightGraph D))) ∧
      NoEmpty E ∧ FoldsAway (Loopless (LeftGraph E)) ∧ FoldsAway (Loopless (RightGraph E)) := by
  have q := hN.ok hap hS hR
  rw [C94_makes k (hN.fresh hap hS hR) hN.different (DivOk.terminal.mpr ⟨hN.endChoice, hN.endFirst.1, hN.endSecond.1⟩)
    hN.endStart, q.noEmpty, q.foldsLeft, q.foldsRight]
  constructor
  · rintro ⟨⟨a, b⟩, ⟨c, d⟩, e, f⟩
    exact ⟨⟨a, c, e⟩, b, d, f⟩
  · rintro ⟨⟨a, c, e⟩, b, d, f⟩
    exact ⟨⟨a, b⟩, ⟨c, d⟩, e, f⟩

/-- C114: the two grammars one after the other are LR(1) if both are. -/
theorem C114_lr1 {D E : Decls T} {Z C m S R eof : T} (hap : Separate D E) (hN : NewDivider D E Z C m eof)
    (hem : eof ≠ m) (hS : Nonterminal D S) (hR : Nonterminal E R) (hb : InNoBody D S) (hbR : InNoBody E R)
    (hn : NoEmpty D) (hnE : NoEmpty E) (hD : LR1 D S eof) (hE : LR1 E R eof) :
    LR1 (Wrapped (Divided D E C S m R) Z C) Z eof := by
  have q := hN.ok hap hS hR
  exact (lr1_wrapped (hN.fresh hap hS hR) hN.different (q.noEmpty.mpr ⟨hn, hnE⟩)
    (fresh_divided q hN.endFirst hN.endSecond hN.endChoice hem).2 hN.endChoice).mpr
    ⟨q.lr1 hb hbR hn hnE hD hE, q.not_self⟩

/-- C114: if the three tables have no conflicts, the parser of the whole accepts exactly a text of the first parser, the
token and a text of the second one. -/
theorem C114_exact {k k' k'' : Method} {dbg dbg' dbg'' : Bool} {D E : Decls T} {Z C m S R eof : T}
    {t tE t' : Tabler T} (ht : Makes k dbg D S eof t) (hk : k = .lalr → Propagated t) (hno : t.conflicts = [])
    (htE : Makes k' dbg' E R eof tE) (hk' : k' = .lalr → Propagated tE) (hnoE : tE.conflicts = [])
    (ht' : Makes k'' dbg'' (Wrapped (Divided D E C S m R) Z C) Z eof t') (hk'' : k'' = .lalr → Propagated t')
    (hno' : t'.conflicts = []) (hap : Separate D E) (hN : NewDivider D E Z C m eof) (hb : InNoBody D S)
    (h1 : SingleStart D S) (hbR : InNoBody E R) (h1R : SingleStart E R) {toks : List (Token Unit T)} :
    Validates t' toks true ↔
      ∃ u v : List (Token Unit T), toks = u ++ ⟨(), m⟩ :: v ∧ Validates t u true ∧ Validates tE v true := by
  have hS := ht.start
  have hR := htE.start
  have a1 : ∀ {u : List (Token Unit T)}, Validates t u true ↔ Sentence D S (u.map Token.ty) :=
    ⟨fun h => sound_sentence ht hb hN.endFirst.1 (validates_true.mp h), complete_validates ht hk hno hb h1 hN.endFirst.1⟩
  have a2 : ∀ {u : List (Token Unit T)}, Validates tE u true ↔ Sentence E R (u.map Token.ty) :=
    ⟨fun h => sound_sentence htE hbR hN.endSecond.1 (validates_true.mp h),
      complete_validates htE hk' hnoE hbR h1R hN.endSecond.1⟩
  rw [C94_exact ht' hk'' hno' (hN.fresh hap hS hR) hN.different
    (DivOk.terminal.mpr ⟨hN.endChoice, hN.endFirst.1, hN.endSecond.1⟩) hN.endStart, (hN.ok hap hS hR).sentence]
  constructor
  · rintro ⟨u, v, e, h2, h3⟩
    obtain ⟨u', w', rfl, rfl, e2⟩ := List.map_eq_append_iff.mp e
    obtain ⟨c, v', rfl, rfl, rfl⟩ := List.map_eq_cons_iff.mp e2
    exact ⟨u', v', rfl, a1.mpr h2, a2.mpr h3⟩
  · rintro ⟨u, v, rfl, h2, h3⟩
    exact ⟨u.map Token.ty, v.map Token.ty, by simp, a1.mp h2, a2.mp h3⟩

/-- C114: so two parsers without conflicts give a parser without conflicts for a text of the first, the token and a text
of the second. -/
theorem C114_parses {k k' : Method} {D E : Decls T} {Z C m S R eof : T} {t tE : Tabler T}
    (ht : Makes k true D S eof t) (hk : k = .lalr → Propagated t) (hno : t.conflicts = [])
    (htE : Makes k' true E R eof tE) (hk' : k' = .lalr → Propagated tE) (hnoE : tE.conflicts = [])
    (hap : Separate D E) (hN : NewDivider D E Z C m eof) (hem : eof ≠ m) (hb : InNoBody D S) (hbR : InNoBody E R)
    (hpr : AllProductive D) (hprE : AllProductive E) :
    ∃ t', Makes .clr true (Wrapped (Divided D E C S m R) Z C) Z eof t' ∧ t'.conflicts = [] ∧
      ∀ toks : List (Token Unit T), Validates t' toks true ↔
        ∃ u v : List (Token Unit T), toks = u ++ ⟨(), m⟩ :: v ∧ Validates t u true ∧ Validates tE v true := by
  have hS := ht.start
  have hR := htE.start
  have he := hN.endFirst.1
  have heE := hN.endSecond.1
  have h1 : SingleStart D S := by
    obtain ⟨g, hg, _⟩ := id ht
    exact single_start_debug hg
  have h1R : SingleStart E R := by
    obtain ⟨g, hg, _⟩ := id htE
    exact single_start_debug hg
  have q := hN.ok hap hS hR
  have hfe := fresh_divided q hN.endFirst hN.endSecond hN.endChoice hem
  obtain ⟨t', ht'⟩ := (C114_makes .clr hap hN hS hR).mpr
    ⟨((makes_iff_folds k he).mp ⟨t, ht⟩).2, ((makes_iff_folds k' heE).mp ⟨tE, htE⟩).2⟩
  have hno' := (C94_clr ht' (hN.fresh hap hS hR) hN.different hfe.1 hN.endStart hfe.2
    (DivOk.nonterminal.mpr (.inl rfl)) (q.allProductive hpr hprE)).mpr
    ⟨q.lr1 hb hbR ht.noEmpty htE.noEmpty (C63_lr1 ht hk he h1 hno) (C63_lr1 htE hk' heE h1R hnoE), q.not_self⟩
  exact ⟨t', ht', hno', fun _ => C114_exact ht hk hno htE hk' hnoE ht' (by simp) hno' hap hN hb h1 hbR h1R⟩

theorem allProductive_wrapped {D : Decls T} {Z C : T} (hf : Fresh D Z) (hC : Nonterminal D C) (hpr : AllProductive D) :
    AllProductive (Wrapped D Z C) := by
  have key : ∀ A, Nonterminal D A → Productive (Wrapped D Z C) A := by
    intro A hA
    obtain ⟨w, h1, h2⟩ := hpr A hA
    refine ⟨w, derives_wrapped hf h1, fun x hx => terminal_wrapped.mpr ⟨?_, h2 x hx⟩⟩
    rintro rfl
    exact hf.absent (by rintro rfl; exact not_terminal_iff.mpr hA hf.1) h1 hx
  intro A hA
  rcases nonterminal_wrapped.mp hA with rfl | hA
  · obtain ⟨w, h1, h2⟩ := key C hC
    exact ⟨w, .head (Step.mk [] [] ((isProd_wrapped hf).mpr (.inl ⟨rfl, rfl, rfl⟩))) h1, h2⟩
  · exact key A hA

/-- C114: the same for SLR(1). -/
theorem C114_slr1 {D E : Decls T} {Z C m S R eof : T} (hap : Separate D E) (hN : NewDivider D E Z C m eof)
    (hem : eof ≠ m) (hS : Nonterminal D S) (hR : Nonterminal E R) (hb : InNoBody D S) (hbR : InNoBody E R)
    (hn : NoEmpty D) (hnE : NoEmpty E) (hD : SLR1 D S eof) (hE : SLR1 E R eof) :
    SLR1 (Wrapped (Divided D E C S m R) Z C) Z eof := by
  have q := hN.ok hap hS hR
  exact slr1_wrapped (hN.fresh hap hS hR) hN.different (DivOk.nonterminal.mpr (.inl rfl)) q.inNoBody
    (q.noEmpty.mpr ⟨hn, hnE⟩) (fresh_divided q hN.endFirst hN.endSecond hN.endChoice hem) hN.endStart
    (q.slr1 hN.endFirst hN.endSecond hN.endChoice hb hbR hn hnE hD hE)

/-- C114 for Slr: if the Slr tables of both grammars have no conflicts and in both all rules can be reached, the Slr
table of the whole has none. -/
theorem C114_slr {D E : Decls T} {Z C m S R eof : T} {t tE : Tabler T}
    (ht : Makes .slr true D S eof t) (hno : t.conflicts = []) (htE : Makes .slr true E R eof tE)
    (hnoE : tE.conflicts = []) (hap : Separate D E) (hN : NewDivider D E Z C m eof) (hem : eof ≠ m) (hb : InNoBody D S)
    (hbR : InNoBody E R) (hpr : AllProductive D) (hprE : AllProductive E)
    (hall : ∀ X, Nonterminal D X → Reachable D S X) (hallE : ∀ X, Nonterminal E X → Reachable E R X) :
    ∃ t', Makes .slr true (Wrapped (Divided D E C S m R) Z C) Z eof t' ∧ t'.conflicts = [] := by
  have hS := ht.start
  have hR := htE.start
  have he := hN.endFirst.1
  have heE := hN.endSecond.1
  have h1 : SingleStart D S := by
    obtain ⟨g, hg, _⟩ := id ht
    exact single_start_debug hg
  have h1R : SingleStart E R := by
    obtain ⟨g, hg, _⟩ := id htE
    exact single_start_debug hg
  have q := hN.ok hap hS hR
  have hf := hN.fresh hap hS hR
  obtain ⟨t', ht'⟩ := (C114_makes .slr hap hN hS hR).mpr
    ⟨((makes_iff_folds .slr he).mp ⟨t, ht⟩).2, ((makes_iff_folds .slr heE).mp ⟨tE, htE⟩).2⟩
  have top : Derives (Wrapped (Divided D E C S m R) Z C) [Z] [C] :=
    .head (Step.mk [] [] ((isProd_wrapped hf).mpr (.inl ⟨rfl, rfl, rfl⟩))) (.refl _)
  have hprW := allProductive_wrapped hf (DivOk.nonterminal.mpr (.inl rfl)) (q.allProductive hpr hprE)
  have hfe := fresh_divided q hN.endFirst hN.endSecond hN.endChoice hem
  refine ⟨t', ht', C64_no_conflicts ht' (terminal_wrapped.mpr ⟨hN.endStart, hfe.1⟩) hprW ?_ (.inl rfl)
    (C114_slr1 hap hN hem hS hR hb hbR ht.noEmpty htE.noEmpty (C64_slr1 ht he h1 hno) (C64_slr1 htE heE h1R hnoE))⟩
  intro X hX
  rcases nonterminal_wrapped.mp hX with rfl | hX
  · exact ⟨[], [], .refl _⟩
  · have body : Derives (Divided D E C S m R) [C] [S, m, R] :=
      .head (Step.mk [] [] (q.isProd.mpr (.inl ⟨rfl, rfl, rfl⟩))) (.refl _)
    rcases DivOk.nonterminal.mp hX with rfl | hX | hX
    · exact ⟨[], [], top⟩
    · obtain ⟨u, v, h⟩ := hall X hX
      have h' := (q.upD h).ctx [] [m, R]
      exact ⟨u, v ++ [m, R], top.trans (derives_wrapped hf (body.trans (by simpa using h')))⟩
    · obtain ⟨u, v, h⟩ := hallE X hX
      have h' := (q.upE h).ctx [S, m] []
      exact ⟨S :: m :: u, v, top.trans (derives_wrapped hf (body.trans (by simpa using h')))⟩

/-- C114 for Lalr: then so has its Lalr table. -/
theorem C114_lalr {D E : Decls T} {Z C m S R eof : T} {t tE : Tabler T}
    (ht : Makes .slr true D S eof t) (hno : t.conflicts = []) (htE : Makes .slr true E R eof tE)
    (hnoE : tE.conflicts = []) (hap : Separate D E) (hN : NewDivider D E Z C m eof) (hem : eof ≠ m) (hb : InNoBody D S)
    (hbR : InNoBody E R) (hpr : AllProductive D) (hprE : AllProductive E)
    (hall : ∀ X, Nonterminal D X → Reachable D S X) (hallE : ∀ X, Nonterminal E X → Reachable E R X) :
    ∃ t', Makes .lalr true (Wrapped (Divided D E C S m R) Z C) Z eof t' ∧ t'.conflicts = [] := by
  obtain ⟨t1, h1, h2⟩ := C114_slr ht hno htE hnoE hap hN hem hb hbR hpr hprE hall hallE
  have he : Terminal (Wrapped (Divided D E C S m R) Z C) eof :=
    terminal_wrapped.mpr ⟨hN.endStart, DivOk.terminal.mpr ⟨hN.endChoice, hN.endFirst.1, hN.endSecond.1⟩⟩
  obtain ⟨t2, h3⟩ := (makes_iff_folds .lalr he).mpr ((makes_iff_folds .slr he).mp ⟨t1, h1⟩)
  exact ⟨t2, h3, C36_slr_weakest h1 h3 (.inr rfl) he (.inl rfl) h2⟩

/-- C114: and for LALR(1), if the second grammar derives something. -/
theorem C114_lalr1 {D E : Decls T} {Z C m S R eof : T} (hap : Separate D E) (hN : NewDivider D E Z C m eof)
    (hem : eof ≠ m) (hS : Nonterminal D S) (hR : Nonterminal E R) (hb : InNoBody D S) (hbR : InNoBody E R)
    (hn : NoEmpty D) (hnE : NoEmpty E) (hpr : Productive E R) (hD : LALR1 D S eof) (hE : LALR1 E R eof) :
    LALR1 (Wrapped (Divided D E C S m R) Z C) Z eof := by
  have q := hN.ok hap hS hR
  exact lalr1_wrapped (hN.fresh hap hS hR) hN.different (DivOk.nonterminal.mpr (.inl rfl)) q.inNoBody
    (q.noEmpty.mpr ⟨hn, hnE⟩) (fresh_divided q hN.endFirst hN.endSecond hN.endChoice hem)
    (q.lalr1 hN.endFirst hN.endSecond hpr hb hbR hn hnE hD hE)

/-- C114 for Lalr: if lookaheads are passed on in the Lalr tables of both grammars and these have no conflicts, then a
Lalr table of the whole has none in which no state can be mistaken for a successor of another one. -/
theorem C114_unmixed {dbg : Bool} {D E : Decls T} {Z C m S R eof : T} {t tE t' : Tabler T}
    (ht : Makes .lalr true D S eof t) (hp : Propagated t) (hno : t.conflicts = []) (htE : Makes .lalr true E R eof tE)
    (hpE : Propagated tE) (hnoE : tE.conflicts = [])
    (ht' : Makes .lalr dbg (Wrapped (Divided D E C S m R) Z C) Z eof t') (hu : Unmixed t') (hap : Separate D E)
    (hN : NewDivider D E Z C m eof) (hem : eof ≠ m) (hb : InNoBody D S) (hbR : InNoBody E R) (hpr : AllProductive D)
    (hprE : AllProductive E) : t'.conflicts = [] := by
  have hS := ht.start
  have hR := htE.start
  have he := hN.endFirst.1
  have heE := hN.endSecond.1
  have h1 : SingleStart D S := by
    obtain ⟨g, hg, _⟩ := id ht
    exact single_start_debug hg
  have h1R : SingleStart E R := by
    obtain ⟨g, hg, _⟩ := id htE
    exact single_start_debug hg
  have q := hN.ok hap hS hR
  exact C69_no_conflicts_partial ht' hu
    (terminal_wrapped.mpr ⟨hN.endStart, DivOk.terminal.mpr ⟨hN.endChoice, he, heE⟩⟩)
    (singleStart_wrapped (hN.fresh hap hS hR))
    (allProductive_wrapped (hN.fresh hap hS hR) (DivOk.nonterminal.mpr (.inl rfl)) (q.allProductive hpr hprE))
    (C114_lalr1 hap hN hem hS hR hb hbR ht.noEmpty htE.noEmpty (hprE R hR) (C69_lalr1_partial ht hp he h1 hpr hno)
      (C69_lalr1_partial htE hpE heE h1R hprE hnoE))

/-- C114: the value is what the reductor of `C → S m R` makes of the values of a parse tree of each grammar and the
token. -/
theorem C114_value {k : Method} {dbg : Bool} {D E : Decls T} {Z C m S R eof : T} {t : Tabler T}
    (ht : Makes k dbg (Wrapped (Divided D E C S m R) Z C) Z eof t) (hap : Separate D E) (hN : NewDivider D E Z C m eof)
    (hS : Nonterminal D S) (hR : Nonterminal E R) {maps : ReductMap M T} {toks : List (Token M T)} {v : M}
    (h : Parses t maps toks (.ok v)) :
    ∃ (c d : Tree M T) (tok : Token M T) (a b : M), Tree.Valid D c ∧ c.root = S ∧ c.eval (redOf maps) = some a ∧
      Tree.Valid E d ∧ d.root = R ∧ d.eval (redOf maps) = some b ∧ tok.ty = m ∧ toks = c.yield ++ tok :: d.yield ∧
      redOf maps C 0 [⟨a, S⟩, tok, ⟨b, R⟩] = some v := by
  have q := hN.ok hap hS hR
  obtain ⟨tr, h1, h2, h3, h4⟩ := C94_value ht (hN.fresh hap hS hR) hN.different
    (DivOk.terminal.mpr ⟨hN.endChoice, hN.endFirst.1, hN.endSecond.1⟩) hN.endStart h
  cases h1 with
  | leaf hl =>
    simp only [Tree.root] at h2
    exact absurd h2 (DivOk.terminal.mp hl).1
  | @node A i cs hp hc =>
    simp only [Tree.root] at h2
    subst h2
    rcases q.isProd.mp hp with ⟨_, rfl, e⟩ | hp | hp
    · match cs, e, hc with
      | [c, l, d], e, hc =>
        simp only [List.map_cons, List.map_nil, List.cons.injEq, and_true] at e
        obtain ⟨e1, e2, e3⟩ := e
        cases hc l (by simp) with
        | @leaf tok _ =>
          simp only [Tree.root] at e2
          simp only [Tree.eval, Tree.evals] at h4
          cases ec : c.eval (redOf maps) with
          | none => simp [ec] at h4
          | some a =>
            cases ed : d.eval (redOf maps) with
            | none => simp [ec, ed] at h4
            | some b =>
              simp only [ec, ed, Option.bind_some, e1, e3] at h4
              refine ⟨c, d, tok, a, b, ?_, e1, ec, ?_, e3, ed, e2, ?_, h4⟩
              · exact valid_within q.subD (fun x hx => (DivOk.terminal.mp hx).2.1) (hc c (by simp)) (e1 ▸ q.mineS)
              · exact valid_within q.subE (fun x hx => (DivOk.terminal.mp hx).2.2) (hc d (by simp)) (e3 ▸ q.mineR)
              · rw [← h3]
                simp [Tree.yield, Tree.yields]
        | node hq _ =>
          simp only [Tree.root] at e2
          exact absurd q.mT (e2 ▸ hq.not_terminal)
    · exact absurd q.cD.1 hp.not_terminal
    · exact absurd q.cE.1 hp.not_terminal

/-! ### Examples -/

/-- The token 12, which assignments use as a name, for a divider. -/
theorem divider_sums : NewDivider unbracketed pointersInner 50 51 12 99 :=
  { choice_sums with
    first := fresh_of (by decide) (by decide)
    second := by unfold Terminal; decide
    notStart := by decide
    notRule := by decide }

/-- Not vacuous: a sum of products, the token 12 and an assignment `L = R`. Both grammars use the tokens 10 and 11, the
second one uses 12 too. -/
theorem sums_divided : ∃ t tE t', Makes .slr true unbracketed 0 99 t ∧ Makes .clr true pointersInner 40 99 tE ∧
    Makes .clr true (Wrapped (Divided unbracketed pointersInner 51 0 12 40) 50 51) 50 99 t' ∧ t'.conflicts = [] ∧
    ∀ toks : List (Token Unit Nat), Validates t' toks true ↔
      ∃ u v : List (Token Unit Nat), toks = u ++ ⟨(), 12⟩ :: v ∧ Validates t u true ∧ Validates tE v true := by
  have hg : Grammar.new true 0 (grammarMap unbracketed) 99 = .ok (Samples.grammar unbracketed) := by decide +kernel
  have hg' : Grammar.new true 40 (grammarMap pointersInner) 99 = .ok pointersInnerGrammar := by decide +kernel
  have h : ∃ t, Slr.new true 500 (Samples.grammar unbracketed) = .ok t ∧ t.conflicts = [] := by
    refine ⟨_, rfl, ?_⟩
    decide +kernel
  have h' : ∃ t, Clr.new true 500 pointersInnerGrammar = .ok t ∧ t.conflicts = [] := by
    refine ⟨_, rfl, ?_⟩
    decide +kernel
  obtain ⟨t, h1, h2⟩ := h
  obtain ⟨tE, h3, h4⟩ := h'
  obtain ⟨t', k1, k2, k3⟩ := C114_parses (k := .slr) (k' := .clr) (C := 51) ⟨_, hg, 500, h1⟩ (by simp) h2
    ⟨_, hg', 500, h3⟩ (by simp) h4 separate_sums divider_sums (by decide) (Samples.inNoBody (by decide))
    (Samples.inNoBody (by decide))
    (allProductive [(3, 0), (2, 1), (1, 1), (0, 0)] (by decide) (by decide +kernel) (by decide))
    (allProductive [(42, 1), (43, 0), (41, 1), (40, 0)] (by decide) (by decide +kernel) (by decide))
  exact ⟨t, tE, t', ⟨_, hg, 500, h1⟩, ⟨_, hg', 500, h3⟩, k1, k2, k3⟩

/-- Not vacuous for Slr: a sum of products, the token 15 and a sum of tokens 15. -/
example : ∃ t', Makes .slr true (Wrapped (Divided unbracketed otherInner 51 0 15 40) 50 51) 50 99 t' ∧
    t'.conflicts = [] := by
  have hg : Grammar.new true 0 (grammarMap unbracketed) 99 = .ok (Samples.grammar unbracketed) := by decide +kernel
  have hg' : Grammar.new true 40 (grammarMap otherInner) 99 = .ok otherInnerGrammar := by decide +kernel
  have h : ∃ t, Slr.new true 500 (Samples.grammar unbracketed) = .ok t ∧ t.conflicts = [] := by
    refine ⟨_, rfl, ?_⟩
    decide +kernel
  have h' : ∃ t, Slr.new true 500 otherInnerGrammar = .ok t ∧ t.conflicts = [] := by
    refine ⟨_, rfl, ?_⟩
    decide +kernel
  obtain ⟨t, h1, h2⟩ := h
  obtain ⟨tE, h3, h4⟩ := h'
  have m1 : Makes .slr true unbracketed 0 99 t := ⟨_, hg, 500, h1⟩
  have m2 : Makes .slr true otherInner 40 99 tE := ⟨_, hg', 500, h3⟩
  have b1 : InNoBody unbracketed 0 := Samples.inNoBody (by decide)
  have b2 : InNoBody otherInner 40 := Samples.inNoBody (by decide)
  have r1 : Derives unbracketed [0] [1] :=
    .head (Step.mk [] [] (A := 0) (i := 0) (body := [1]) ⟨_, ⟨[], _, rfl, by decide⟩, rfl⟩) (.refl _)
  have r2 : Derives unbracketed [0] [2] := r1.trans
    (.head (Step.mk [] [] (A := 1) (i := 1) (body := [2]) ⟨_, ⟨[(0, [[1]])], _, rfl, by decide⟩, rfl⟩) (.refl _))
  have r3 : Derives unbracketed [0] [3] := r2.trans
    (.head (Step.mk [] [] (A := 2) (i := 1) (body := [3])
      ⟨_, ⟨[(0, [[1]]), (1, [[1, 10, 2], [2]])], _, rfl, by decide⟩, rfl⟩) (.refl _))
  refine C114_slr m1 h2 m2 h4 ⟨?_, ?_⟩
    ⟨⟨fresh_of (by decide) (by decide), fresh_of (by decide) (by decide), fresh_of (by decide) (by decide),
      fresh_of (by decide) (by decide), by decide, fresh_of (by decide) (by decide), fresh_of (by decide) (by decide),
      by decide, by decide⟩, fresh_of (by decide) (by decide), by unfold Terminal; decide, by decide, by decide⟩
    (by decide) b1 b2
    (allProductive [(3, 0), (2, 1), (1, 1), (0, 0)] (by decide) (by decide +kernel) (by decide))
    (allProductive [(41, 1), (40, 0)] (by decide) (by decide +kernel) (by decide)) ?_ ?_
  · rintro A ⟨d, hd, rfl⟩
    simp only [otherInner, List.mem_cons, List.not_mem_nil, or_false] at hd
    rcases hd with rfl | rfl <;> exact fresh_of (by decide) (by decide)
  · rintro A ⟨d, hd, rfl⟩
    simp only [unbracketed, List.mem_cons, List.not_mem_nil, or_false] at hd
    rcases hd with rfl | rfl | rfl | rfl <;> exact fresh_of (by decide) (by decide)
  · rintro X ⟨d, hd, rfl⟩
    simp only [unbracketed, List.mem_cons, List.not_mem_nil, or_false] at hd
    rcases hd with rfl | rfl | rfl | rfl
    · exact ⟨[], [], .refl _⟩
    · exact ⟨[], [], r1⟩
    · exact ⟨[], [], r2⟩
    · exact ⟨[], [], r3⟩
  · rintro X ⟨d, hd, rfl⟩
    simp only [otherInner, List.mem_cons, List.not_mem_nil, or_false] at hd
    rcases hd with rfl | rfl
    · exact ⟨[], [], .refl _⟩
    · exact ⟨[], [], .head (Step.mk [] [] (A := 40) (i := 0) (body := [41]) ⟨_, ⟨[], _, rfl, by decide⟩, rfl⟩) (.refl _)⟩

/-- The grammar of a sum of products, the token 12 and an assignment. -/
def sumsDividedGrammar : Grammar Nat :=
  match Grammar.new true 50 (grammarMap (Wrapped (Divided unbracketed pointersInner 51 0 12 40) 50 51)) 99 with
  | .ok g => g
  | _ => Samples.grammar []

/-- Not vacuous for Lalr: the same grammars, of which the second has a conflict in its Slr table. -/
example : ∃ t', Makes .lalr true (Wrapped (Divided unbracketed pointersInner 51 0 12 40) 50 51) 50 99 t' ∧
    t'.conflicts = [] := by
  have hg : Grammar.new true 0 (grammarMap unbracketed) 99 = .ok (Samples.grammar unbracketed) := by decide +kernel
  have hg' : Grammar.new true 40 (grammarMap pointersInner) 99 = .ok pointersInnerGrammar := by decide +kernel
  have hg'' : Grammar.new true 50 (grammarMap (Wrapped (Divided unbracketed pointersInner 51 0 12 40) 50 51)) 99 =
    .ok sumsDividedGrammar := by decide +kernel
  have h : ∃ l, Lalr.new true 500 (Samples.grammar unbracketed) = .ok l ∧ l.table.conflicts = [] ∧
      propagatedB l.table = true := by
    refine ⟨_, rfl, ?_⟩
    decide +kernel
  have h' : ∃ l, Lalr.new true 500 pointersInnerGrammar = .ok l ∧ l.table.conflicts = [] ∧ propagatedB l.table = true := by
    refine ⟨_, rfl, ?_⟩
    decide +kernel
  have h'' : ∃ l, Lalr.new true 500 sumsDividedGrammar = .ok l ∧ unmixedB l.table = true := by
    refine ⟨_, rfl, ?_⟩
    decide +kernel
  obtain ⟨l1, h1, c1, p1⟩ := h
  obtain ⟨l2, h2, c2, p2⟩ := h'
  obtain ⟨l3, h3, u3⟩ := h''
  have m1 : Makes .lalr true unbracketed 0 99 l1.table := ⟨_, hg, 500, by
    show (do let l ← Lalr.new true 500 (Samples.grammar unbracketed); return l.table) = _
    rw [h1]; rfl⟩
  have m2 : Makes .lalr true pointersInner 40 99 l2.table := ⟨_, hg', 500, by
    show (do let l ← Lalr.new true 500 pointersInnerGrammar; return l.table) = _
    rw [h2]; rfl⟩
  have m3 : Makes .lalr true (Wrapped (Divided unbracketed pointersInner 51 0 12 40) 50 51) 50 99 l3.table :=
    ⟨_, hg'', 500, by
      show (do let l ← Lalr.new true 500 sumsDividedGrammar; return l.table) = _
      rw [h3]; rfl⟩
  have b1 : InNoBody unbracketed 0 := Samples.inNoBody (by decide)
  have b2 : InNoBody pointersInner 40 := Samples.inNoBody (by decide)
  refine ⟨_, m3, C114_unmixed m1 (propagated_of_check p1) c1 m2 (propagated_of_check p2) c2 m3 (unmixed_of_check u3)
    separate_sums divider_sums (by decide) b1 b2
    (allProductive [(3, 0), (2, 1), (1, 1), (0, 0)] (by decide) (by decide +kernel) (by decide))
    (allProductive [(42, 1), (43, 0), (41, 1), (40, 0)] (by decide) (by decide +kernel) (by decide))⟩

/-- Lists: S → L, L → L , n | n. -/
def listsFirst : Decls Nat := [(0, [[1]]), (1, [[1, 15, 14], [14]])]

/-- Its grammar with `, n` after a list. -/
def listsDivided : Grammar Nat :=
  match Grammar.new true 50 (grammarMap (Wrapped (Divided listsFirst [(40, [[14]])] 51 0 15 40) 50 51)) 99 with
  | .ok g => g
  | _ => Samples.grammar []

/-- That the first grammar does not use the token is needed: after a list `n , n , …` with `, n` as the rest the parser
cannot know which comma is the last one. -/
theorem C114_needs_first : (∃ t, Makes .slr true listsFirst 0 99 t ∧ t.conflicts = []) ∧
    ∃ t, Makes .clr true (Wrapped (Divided listsFirst [(40, [[14]])] 51 0 15 40) 50 51) 50 99 t ∧ t.conflicts ≠ [] := by
  have h : ∃ t, Slr.new true 500 (Samples.grammar listsFirst) = .ok t ∧ t.conflicts = [] := by
    refine ⟨_, rfl, ?_⟩
    decide +kernel
  have h' : ∃ t, Clr.new true 500 listsDivided = .ok t ∧ t.conflicts ≠ [] := by
    refine ⟨_, rfl, ?_⟩
    decide +kernel
  obtain ⟨t, h1, h2⟩ := h
  obtain ⟨t', h3, h4⟩ := h'
  exact ⟨⟨t, ⟨_, by decide +kernel, 500, h1⟩, h2⟩, t', ⟨_, by decide +kernel, 500, h3⟩, h4⟩

end Lrp.Props
