import Verif.Proofs.Choice
import Verif.Props.Host
import Verif.Props.Lalr1

/-!
C112 — two grammars with different rule names whose texts begin with different tokens, as the two alternatives of a
rule.
-/

set_option linter.unusedSectionVars false

namespace Lrp.Props
open Spec
set_option maxRecDepth 100000

variable {T : Type} [LinOrd T] [DecidableEq T] {M : Type}

theorem _root_.Lrp.Spec.NewChoice.ok {D E : Decls T} {Z C S R eof : T} (hN : NewChoice D E Z C eof) (hap : Separate D E)
    (hS : Nonterminal D S) (hR : Nonterminal E R) : JoinOk D E C S R :=
  { apart := hap, cD := hN.choiceFirst, cE := hN.choiceSecond, S := hS, R := hR }

theorem _root_.Lrp.Spec.NewChoice.fresh {D E : Decls T} {Z C S R eof : T} (hN : NewChoice D E Z C eof) (hap : Separate D E)
    (hS : Nonterminal D S) (hR : Nonterminal E R) : Fresh (Joined D E C S R) Z := by
  refine ⟨JoinOk.terminal.mpr ⟨hN.different, hN.startFirst.1, hN.startSecond.1⟩, fun X i b hp => ?_⟩
  rcases (hN.ok hap hS hR).isProd.mp hp with ⟨_, ⟨_, rfl⟩ | ⟨_, rfl⟩⟩ | hp | hp
  · intro h
    exact not_terminal_iff.mpr hS (List.mem_singleton.mp h ▸ hN.startFirst.1)
  · intro h
    exact not_terminal_iff.mpr hR (List.mem_singleton.mp h ▸ hN.startSecond.1)
  · exact hN.startFirst.2 X i b hp
  · exact hN.startSecond.2 X i b hp

theorem _root_.Lrp.Spec.NewChoice.eof {D E : Decls T} {Z C S R eof : T} (hN : NewChoice D E Z C eof) (hap : Separate D E)
    (hS : Nonterminal D S) (hR : Nonterminal E R) : Fresh (Joined D E C S R) eof := by
  refine ⟨JoinOk.terminal.mpr ⟨hN.endChoice, hN.endFirst.1, hN.endSecond.1⟩, fun X i b hp => ?_⟩
  rcases (hN.ok hap hS hR).isProd.mp hp with ⟨_, ⟨_, rfl⟩ | ⟨_, rfl⟩⟩ | hp | hp
  · intro h
    exact not_terminal_iff.mpr hS (List.mem_singleton.mp h ▸ hN.endFirst.1)
  · intro h
    exact not_terminal_iff.mpr hR (List.mem_singleton.mp h ▸ hN.endSecond.1)
  · exact hN.endFirst.2 X i b hp
  · exact hN.endSecond.2 X i b hp

/-- C112: in debug builds a table can be made exactly if no production of the two grammars is empty and folding leaves
nothing of their graphs. -/
theorem C112_makes (k : Method) {D E : Decls T} {Z C S R eof : T} (hap : Separate D E) (hN : NewChoice D E Z C eof)
    (hS : Nonterminal D S) (hR : Nonterminal E R) :
    (∃ t, Makes k true (Wrapped (Joined D E C S R) Z C) Z eof t) ↔
      (NoEmpty D ∧ FoldsAway (Loopless (LeftGraph D)) ∧ FoldsAway (Loopless (RightGraph D))) ∧
      NoEmpty E ∧ FoldsAway (Loopless (LeftGraph E)) ∧ FoldsAway (Loopless (RightGraph E)) := by
  have q := hN.ok hap hS hR
  rw [C94_makes k (hN.fresh hap hS hR) hN.different (hN.eof hap hS hR).1 hN.endStart, q.noEmpty, q.foldsLeft, q.foldsRight]
  constructor
  · rintro ⟨⟨a, b⟩, ⟨c, d⟩, e, f⟩
    exact ⟨⟨a, c, e⟩, b, d, f⟩
  · rintro ⟨⟨a, c, e⟩, b, d, f⟩
    exact ⟨⟨a, b⟩, ⟨c, d⟩, e, f⟩

/-- C112: the two grammars as alternatives are LR(1) if both are and their texts begin with different tokens. -/
theorem C112_lr1 {D E : Decls T} {Z C S R eof : T} (hap : Separate D E) (hN : NewChoice D E Z C eof)
    (hS : Nonterminal D S) (hR : Nonterminal E R) (hB : BeginApart D E S R) (hb : InNoBody D S) (hbR : InNoBody E R)
    (hn : NoEmpty D) (hnE : NoEmpty E) (hD : LR1 D S eof) (hE : LR1 E R eof) :
    LR1 (Wrapped (Joined D E C S R) Z C) Z eof := by
  have q := hN.ok hap hS hR
  exact (lr1_wrapped (hN.fresh hap hS hR) hN.different (q.noEmpty.mpr ⟨hn, hnE⟩) (hN.eof hap hS hR).2 hN.endChoice).mpr
    ⟨q.lr1 hB hb hbR hn hnE hD hE, q.not_self⟩

/-- C112: and SLR(1) if both are. -/
theorem C112_slr1 {D E : Decls T} {Z C S R eof : T} (hap : Separate D E) (hN : NewChoice D E Z C eof)
    (hS : Nonterminal D S) (hR : Nonterminal E R) (hB : BeginApart D E S R) (hb : InNoBody D S) (hbR : InNoBody E R)
    (hn : NoEmpty D) (hnE : NoEmpty E) (hD : SLR1 D S eof) (hE : SLR1 E R eof) :
    SLR1 (Wrapped (Joined D E C S R) Z C) Z eof := by
  have q := hN.ok hap hS hR
  exact slr1_wrapped (hN.fresh hap hS hR) hN.different (JoinOk.nonterminal.mpr (.inl rfl)) q.inNoBody
    (q.noEmpty.mpr ⟨hn, hnE⟩) (hN.eof hap hS hR) hN.endStart
    (q.slr1 hB hN.endFirst hN.endSecond hN.endChoice hb hbR hn hnE hD hE)

/-- C112: if the three tables have no conflicts, the parser of the whole accepts exactly what one of the two parsers
accepts. -/
theorem C112_exact {m m' m'' : Method} {dbg dbg' dbg'' : Bool} {D E : Decls T} {Z C S R eof : T}
    {t tE t' : Tabler T} (ht : Makes m dbg D S eof t) (hm : m = .lalr → Propagated t) (hno : t.conflicts = [])
    (htE : Makes m' dbg' E R eof tE) (hm' : m' = .lalr → Propagated tE) (hnoE : tE.conflicts = [])
    (ht' : Makes m'' dbg'' (Wrapped (Joined D E C S R) Z C) Z eof t') (hm'' : m'' = .lalr → Propagated t')
    (hno' : t'.conflicts = []) (hap : Separate D E) (hN : NewChoice D E Z C eof) (hb : InNoBody D S)
    (h1 : SingleStart D S) (hbR : InNoBody E R) (h1R : SingleStart E R) {toks : List (Token Unit T)} :
    Validates t' toks true ↔ Validates t toks true ∨ Validates tE toks true := by
  have hS := ht.start
  have hR := htE.start
  rw [C94_exact ht' hm'' hno' (hN.fresh hap hS hR) hN.different (hN.eof hap hS hR).1 hN.endStart,
    (hN.ok hap hS hR).sentence]
  refine or_congr ?_ ?_
  · exact ⟨complete_validates ht hm hno hb h1 hN.endFirst.1,
      fun h => sound_sentence ht hb hN.endFirst.1 (validates_true.mp h)⟩
  · exact ⟨complete_validates htE hm' hnoE hbR h1R hN.endSecond.1,
      fun h => sound_sentence htE hbR hN.endSecond.1 (validates_true.mp h)⟩

/-- If no token begins a text of each parser, none begins a text derived from each start symbol. -/
theorem beginApart_of {m m' : Method} {D E : Decls T} {S R eof : T} {t tE : Tabler T}
    (ht : Makes m true D S eof t) (hm : m = .lalr → Propagated t) (hno : t.conflicts = [])
    (htE : Makes m' true E R eof tE) (hm' : m' = .lalr → Propagated tE) (hnoE : tE.conflicts = [])
    (he : Terminal D eof) (heE : Terminal E eof) (hb : InNoBody D S) (hbR : InNoBody E R) (hpr : AllProductive D)
    (hprE : AllProductive E)
    (hB : ∀ (x : Token Unit T) (u v), Validates t (x :: u) true → ¬ Validates tE (x :: v) true) : BeginApart D E S R := by
  have h1 : SingleStart D S := by
    obtain ⟨g, hg, _⟩ := id ht
    exact single_start_debug hg
  have h1R : SingleStart E R := by
    obtain ⟨g, hg, _⟩ := id htE
    exact single_start_debug hg
  have id2 : ∀ {p : List T}, (p.map fun x => (⟨(), x⟩ : Token Unit T)).map Token.ty = p := by
    intro p
    rw [List.map_map]
    exact (List.map_congr_left fun a _ => rfl).trans (List.map_id p)
  intro x u v hx hx' hd hd'
  obtain ⟨w, h2, h3⟩ := productive_list hpr u
  obtain ⟨w', h2', h3'⟩ := productive_list hprE v
  have s1 : Sentence D S (x :: w) := by
    refine ⟨hd.trans (by simpa using h2.ctx [x] []), fun y hy => ?_⟩
    rcases List.mem_cons.mp hy with rfl | hy
    · exact hx
    · exact h3 y hy
  have s2 : Sentence E R (x :: w') := by
    refine ⟨hd'.trans (by simpa using h2'.ctx [x] []), fun y hy => ?_⟩
    rcases List.mem_cons.mp hy with rfl | hy
    · exact hx'
    · exact h3' y hy
  refine hB ⟨(), x⟩ (w.map fun x => ⟨(), x⟩) (w'.map fun x => ⟨(), x⟩) ?_ ?_
  · exact complete_validates ht hm hno hb h1 he (by rw [List.map_cons, id2]; exact s1)
  · exact complete_validates htE hm' hnoE hbR h1R heE (by rw [List.map_cons, id2]; exact s2)

/-- C112: so two parsers without conflicts, such that no token begins a text of both, give a parser without conflicts
that accepts exactly what one of them accepts. -/
theorem C112_parses {m m' : Method} {D E : Decls T} {Z C S R eof : T} {t tE : Tabler T}
    (ht : Makes m true D S eof t) (hm : m = .lalr → Propagated t) (hno : t.conflicts = [])
    (htE : Makes m' true E R eof tE) (hm' : m' = .lalr → Propagated tE) (hnoE : tE.conflicts = [])
    (hap : Separate D E) (hN : NewChoice D E Z C eof) (hb : InNoBody D S) (hbR : InNoBody E R) (hpr : AllProductive D)
    (hprE : AllProductive E)
    (hB : ∀ (x : Token Unit T) (u v), Validates t (x :: u) true → ¬ Validates tE (x :: v) true) :
    ∃ t', Makes .clr true (Wrapped (Joined D E C S R) Z C) Z eof t' ∧ t'.conflicts = [] ∧
      ∀ toks : List (Token Unit T), Validates t' toks true ↔ Validates t toks true ∨ Validates tE toks true := by
  have hS := ht.start
  have hR := htE.start
  have he := hN.endFirst.1
  have heE := hN.endSecond.1
  have h1 : SingleStart D S := by
    obtain ⟨g, hg, _⟩ := id ht
    exact single_start_debug hg
  have h1R : SingleStart E R := by
    obtain ⟨g, hg, _⟩ := id htE
    exact single_start_debug hg
  have q := hN.ok hap hS hR
  obtain ⟨t', ht'⟩ := (C112_makes .clr hap hN hS hR).mpr
    ⟨((makes_iff_folds m he).mp ⟨t, ht⟩).2, ((makes_iff_folds m' heE).mp ⟨tE, htE⟩).2⟩
  have hno' := (C94_clr ht' (hN.fresh hap hS hR) hN.different (hN.eof hap hS hR).1 hN.endStart (hN.eof hap hS hR).2
    (JoinOk.nonterminal.mpr (.inl rfl)) (q.allProductive hpr hprE)).mpr
    ⟨q.lr1 (beginApart_of ht hm hno htE hm' hnoE he heE hb hbR hpr hprE hB) hb hbR ht.noEmpty htE.noEmpty
      (C63_lr1 ht hm he h1 hno) (C63_lr1 htE hm' heE h1R hnoE), q.not_self⟩
  exact ⟨t', ht', hno', fun _ => C112_exact ht hm hno htE hm' hnoE ht' (by simp) hno' hap hN hb h1 hbR h1R⟩

theorem allProductive_choice {D E : Decls T} {Z C S R eof : T} (hap : Separate D E) (hN : NewChoice D E Z C eof)
    (hS : Nonterminal D S) (hR : Nonterminal E R) (hpr : AllProductive D) (hprE : AllProductive E) :
    AllProductive (Wrapped (Joined D E C S R) Z C) := by
  have hf := hN.fresh hap hS hR
  have hprJ := (hN.ok hap hS hR).allProductive hpr hprE
  have key : ∀ A, Nonterminal (Joined D E C S R) A → Productive (Wrapped (Joined D E C S R) Z C) A := by
    intro A hA
    obtain ⟨w, h1, h2⟩ := hprJ A hA
    refine ⟨w, derives_wrapped hf h1, fun x hx => terminal_wrapped.mpr ⟨?_, h2 x hx⟩⟩
    rintro rfl
    exact hf.absent (by rintro rfl; exact not_terminal_iff.mpr hA hf.1) h1 hx
  intro A hA
  rcases nonterminal_wrapped.mp hA with rfl | hA
  · obtain ⟨w, h1, h2⟩ := key C (JoinOk.nonterminal.mpr (.inl rfl))
    exact ⟨w, .head (Step.mk [] [] ((isProd_wrapped hf).mpr (.inl ⟨rfl, rfl, rfl⟩))) h1, h2⟩
  · exact key A hA

/-- C112: and LALR(1) if both are. -/
theorem C112_lalr1 {D E : Decls T} {Z C S R eof : T} (hap : Separate D E) (hN : NewChoice D E Z C eof)
    (hS : Nonterminal D S) (hR : Nonterminal E R) (hB : BeginApart D E S R) (hb : InNoBody D S) (hbR : InNoBody E R)
    (hn : NoEmpty D) (hnE : NoEmpty E) (hD : LALR1 D S eof) (hE : LALR1 E R eof) :
    LALR1 (Wrapped (Joined D E C S R) Z C) Z eof := by
  have q := hN.ok hap hS hR
  exact lalr1_wrapped (hN.fresh hap hS hR) hN.different (JoinOk.nonterminal.mpr (.inl rfl)) q.inNoBody
    (q.noEmpty.mpr ⟨hn, hnE⟩) (hN.eof hap hS hR) (q.lalr1 hB hN.endFirst hN.endSecond hb hbR hn hnE hD hE)

/-- C112 for Lalr: if lookaheads are passed on in the Lalr tables of both grammars and these have no conflicts, then a
Lalr table of the whole has none in which no state can be mistaken for a successor of another one. -/
theorem C112_unmixed {dbg : Bool} {D E : Decls T} {Z C S R eof : T} {t tE t' : Tabler T}
    (ht : Makes .lalr true D S eof t) (hp : Propagated t) (hno : t.conflicts = []) (htE : Makes .lalr true E R eof tE)
    (hpE : Propagated tE) (hnoE : tE.conflicts = []) (ht' : Makes .lalr dbg (Wrapped (Joined D E C S R) Z C) Z eof t')
    (hu : Unmixed t') (hap : Separate D E) (hN : NewChoice D E Z C eof) (hb : InNoBody D S)
    (hbR : InNoBody E R) (hpr : AllProductive D) (hprE : AllProductive E)
    (hB : ∀ (x : Token Unit T) (u v), Validates t (x :: u) true → ¬ Validates tE (x :: v) true) : t'.conflicts = [] := by
  have hS := ht.start
  have hR := htE.start
  have he := hN.endFirst.1
  have heE := hN.endSecond.1
  have h1 : SingleStart D S := by
    obtain ⟨g, hg, _⟩ := id ht
    exact single_start_debug hg
  have h1R : SingleStart E R := by
    obtain ⟨g, hg, _⟩ := id htE
    exact single_start_debug hg
  exact C69_no_conflicts_partial ht' hu (terminal_wrapped.mpr ⟨hN.endStart, (hN.eof hap hS hR).1⟩)
    (singleStart_wrapped (hN.fresh hap hS hR)) (allProductive_choice hap hN hS hR hpr hprE)
    (C112_lalr1 hap hN hS hR (beginApart_of ht (fun _ => hp) hno htE (fun _ => hpE) hnoE he heE hb hbR hpr hprE hB) hb hbR
      ht.noEmpty htE.noEmpty (C69_lalr1_partial ht hp he h1 hpr hno) (C69_lalr1_partial htE hpE heE h1R hprE hnoE))

/-- C112 for Slr: if the Slr tables of both grammars have no conflicts and in both all rules can be reached, the Slr
table of the whole has none. -/
theorem C112_slr {D E : Decls T} {Z C S R eof : T} {t tE : Tabler T}
    (ht : Makes .slr true D S eof t) (hno : t.conflicts = []) (htE : Makes .slr true E R eof tE)
    (hnoE : tE.conflicts = []) (hap : Separate D E) (hN : NewChoice D E Z C eof) (hb : InNoBody D S)
    (hbR : InNoBody E R) (hpr : AllProductive D) (hprE : AllProductive E)
    (hall : ∀ X, Nonterminal D X → Reachable D S X) (hallE : ∀ X, Nonterminal E X → Reachable E R X)
    (hB : ∀ (x : Token Unit T) (u v), Validates t (x :: u) true → ¬ Validates tE (x :: v) true) :
    ∃ t', Makes .slr true (Wrapped (Joined D E C S R) Z C) Z eof t' ∧ t'.conflicts = [] := by
  have hS := ht.start
  have hR := htE.start
  have he := hN.endFirst.1
  have heE := hN.endSecond.1
  have h1 : SingleStart D S := by
    obtain ⟨g, hg, _⟩ := id ht
    exact single_start_debug hg
  have h1R : SingleStart E R := by
    obtain ⟨g, hg, _⟩ := id htE
    exact single_start_debug hg
  have q := hN.ok hap hS hR
  have hf := hN.fresh hap hS hR
  obtain ⟨t', ht'⟩ := (C112_makes .slr hap hN hS hR).mpr
    ⟨((makes_iff_folds .slr he).mp ⟨t, ht⟩).2, ((makes_iff_folds .slr heE).mp ⟨tE, htE⟩).2⟩
  have top : Derives (Wrapped (Joined D E C S R) Z C) [Z] [C] :=
    .head (Step.mk [] [] ((isProd_wrapped hf).mpr (.inl ⟨rfl, rfl, rfl⟩))) (.refl _)
  have hprW := allProductive_choice hap hN hS hR hpr hprE
  refine ⟨t', ht', C64_no_conflicts ht' (terminal_wrapped.mpr ⟨hN.endStart, (hN.eof hap hS hR).1⟩) hprW ?_ (.inl rfl)
    (C112_slr1 hap hN hS hR (beginApart_of ht (by simp) hno htE (by simp) hnoE he heE hb hbR hpr hprE hB) hb hbR
      ht.noEmpty htE.noEmpty (C64_slr1 ht he h1 hno) (C64_slr1 htE heE h1R hnoE))⟩
  intro X hX
  rcases nonterminal_wrapped.mp hX with rfl | hX
  · exact ⟨[], [], .refl _⟩
  · rcases JoinOk.nonterminal.mp hX with rfl | hX | hX
    · exact ⟨[], [], top⟩
    · obtain ⟨u, v, h⟩ := hall X hX
      exact ⟨u, v, top.trans (derives_wrapped hf (q.toS.trans (q.upD h)))⟩
    · obtain ⟨u, v, h⟩ := hallE X hX
      exact ⟨u, v, top.trans (derives_wrapped hf (q.toR.trans (q.upE h)))⟩

/-- C112 for Lalr: then so has its Lalr table. -/
theorem C112_lalr {D E : Decls T} {Z C S R eof : T} {t tE : Tabler T}
    (ht : Makes .slr true D S eof t) (hno : t.conflicts = []) (htE : Makes .slr true E R eof tE)
    (hnoE : tE.conflicts = []) (hap : Separate D E) (hN : NewChoice D E Z C eof) (hb : InNoBody D S)
    (hbR : InNoBody E R) (hpr : AllProductive D) (hprE : AllProductive E)
    (hall : ∀ X, Nonterminal D X → Reachable D S X) (hallE : ∀ X, Nonterminal E X → Reachable E R X)
    (hB : ∀ (x : Token Unit T) (u v), Validates t (x :: u) true → ¬ Validates tE (x :: v) true) :
    ∃ t', Makes .lalr true (Wrapped (Joined D E C S R) Z C) Z eof t' ∧ t'.conflicts = [] := by
  obtain ⟨t1, h1, h2⟩ := C112_slr ht hno htE hnoE hap hN hb hbR hpr hprE hall hallE hB
  have he : Terminal (Wrapped (Joined D E C S R) Z C) eof :=
    terminal_wrapped.mpr ⟨hN.endStart, (hN.eof hap ht.start htE.start).1⟩
  obtain ⟨t2, h3⟩ := (makes_iff_folds .lalr he).mpr ((makes_iff_folds .slr he).mp ⟨t1, h1⟩)
  exact ⟨t2, h3, C36_slr_weakest h1 h3 (.inr rfl) he (.inl rfl) h2⟩

/-- The productions of `G` for symbols with `P` are those of `D`, and lead to symbols with `P`. -/
theorem valid_within {G D : Decls T} {P : T → Prop} (hG : ∀ A i b, P A → IsProd G A i b → IsProd D A i b ∧ ∀ x ∈ b, P x)
    (hT : ∀ x, Terminal G x → Terminal D x) {tr : Tree M T} (h : Tree.Valid G tr) (hr : P tr.root) : Tree.Valid D tr := by
  induction h with
  | leaf ht => exact .leaf (hT _ ht)
  | @node A k cs hp _ ih =>
    obtain ⟨hp', hx⟩ := hG A k _ hr hp
    exact .node hp' fun c hc => ih c hc (hx _ (List.mem_map.mpr ⟨c, hc, rfl⟩))

/-- C112: the value is what the reductor of `C → S` makes of the value of a parse tree of the first grammar, or the
reductor of `C → R` of one of the second. -/
theorem C112_value {k : Method} {dbg : Bool} {D E : Decls T} {Z C S R eof : T} {t : Tabler T}
    (ht : Makes k dbg (Wrapped (Joined D E C S R) Z C) Z eof t) (hap : Separate D E) (hN : NewChoice D E Z C eof)
    (hS : Nonterminal D S) (hR : Nonterminal E R) {maps : ReductMap M T} {toks : List (Token M T)} {v : M}
    (h : Parses t maps toks (.ok v)) :
    ∃ (tr : Tree M T) (u : M), tr.yield = toks ∧ tr.eval (redOf maps) = some u ∧
      ((Tree.Valid D tr ∧ tr.root = S ∧ redOf maps C 0 [⟨u, S⟩] = some v) ∨
       (Tree.Valid E tr ∧ tr.root = R ∧ redOf maps C 1 [⟨u, R⟩] = some v)) := by
  have q := hN.ok hap hS hR
  obtain ⟨tr, h1, h2, h3, h4⟩ := C94_value ht (hN.fresh hap hS hR) hN.different (hN.eof hap hS hR).1 hN.endStart h
  cases h1 with
  | leaf hl =>
    simp only [Tree.root] at h2
    exact absurd rfl (h2 ▸ (JoinOk.terminal.mp hl).1)
  | @node A i cs hp hc =>
    simp only [Tree.root] at h2
    subst h2
    have one : ∀ {X : T}, cs.map Tree.root = [X] → ∃ c, cs = [c] ∧ c.root = X := by
      intro X e
      cases cs with
      | nil => simp at e
      | cons c cs =>
        cases cs with
        | nil => simp at e; exact ⟨c, rfl, e⟩
        | cons d cs => simp at e
    have finish : ∀ {c : Tree M T} {X : T}, cs = [c] → c.root = X → ∃ u, c.yield = toks ∧ c.eval (redOf maps) = some u ∧
        redOf maps A i [⟨u, X⟩] = some v := by
      rintro c X rfl rfl
      simp only [Tree.eval, Tree.evals] at h4
      cases e : c.eval (redOf maps) with
      | none => simp [e] at h4
      | some u =>
        simp only [e, Option.bind_some] at h4
        exact ⟨u, by simpa [Tree.yield, Tree.yields] using h3, rfl, h4⟩
    rcases q.isProd.mp hp with ⟨_, ⟨rfl, e⟩ | ⟨rfl, e⟩⟩ | hp | hp
    · obtain ⟨c, e1, e2⟩ := one e
      obtain ⟨u, k1, k2, k3⟩ := finish e1 e2
      refine ⟨c, u, k1, k2, .inl ⟨valid_within q.subD (fun x hx => (JoinOk.terminal.mp hx).2.1) (hc c (by simp [e1]))
        (e2 ▸ q.mineS), e2, k3⟩⟩
    · obtain ⟨c, e1, e2⟩ := one e
      obtain ⟨u, k1, k2, k3⟩ := finish e1 e2
      refine ⟨c, u, k1, k2, .inr ⟨valid_within q.subE (fun x hx => (JoinOk.terminal.mp hx).2.2) (hc c (by simp [e1]))
        (e2 ▸ q.mineR), e2, k3⟩⟩
    · exact absurd q.cD.1 hp.not_terminal
    · exact absurd q.cE.1 hp.not_terminal

/-! ### Examples -/

/-- If every production of a symbol with `P` begins with one, so does everything derived from it. -/
theorem derives_begins {D : Decls T} {P : T → Prop} (hP : ∀ A i b, P A → IsProd D A i b → ∃ y r, b = y :: r ∧ P y)
    {a w : List T} (h : Derives D a w) : ∀ {x u}, a = x :: u → P x → ∃ y r, w = y :: r ∧ P y := by
  induction h with
  | refl => intro x u e hx; exact ⟨x, u, e, hx⟩
  | head s _ ih =>
    intro x u e hx
    obtain @⟨p, q, A, i, b, hp⟩ := s
    cases p with
    | nil =>
      simp at e
      obtain ⟨rfl, rfl⟩ := e
      obtain ⟨y, r, rfl, hy⟩ := hP _ _ _ hx hp
      exact ih (u := r ++ q) (by simp) hy
    | cons z p =>
      simp at e
      obtain ⟨rfl, _⟩ := e
      exact ih (u := p ++ b ++ q) (by simp) hx

theorem begins_of {D : Decls Nat} {l : List Nat} (h : ∀ d ∈ D, d.1 ∈ l → ∀ b ∈ d.2, ∃ y ∈ b.head?, y ∈ l) {S : Nat}
    (hS : S ∈ l) {x : Nat} {u : List Nat} (hd : Derives D [S] (x :: u)) : x ∈ l := by
  obtain ⟨y, r, e, hy⟩ := derives_begins (P := (· ∈ l)) (by
    intro A i b hA hp
    obtain ⟨d, h1, h2, h3⟩ := Samples.mem_of_isProd hp
    obtain ⟨y, hy, hl⟩ := h d h1 (h2 ▸ hA) b (List.mem_of_getElem? h3)
    cases b with
    | nil => simp at hy
    | cons z b => simp at hy; exact ⟨z, b, rfl, hy ▸ hl⟩) hd rfl hS
  simp at e
  exact e.1 ▸ hy

/-- Sums of products begin with a number (14). -/
theorem sums_begin {x : Nat} {u : List Nat} (h : Sentence unbracketed 0 (x :: u)) : x = 14 := by
  have h1 : x ∈ [0, 1, 2, 3, 14] := begins_of (by decide) (by decide) h.1
  have h2 := h.2 x (by simp)
  simp only [List.mem_cons, List.not_mem_nil, or_false] at h1
  rcases h1 with rfl | rfl | rfl | rfl | rfl
  · exact absurd rfl (h2 (0, [[1]]) (by decide))
  · exact absurd rfl (h2 (1, [[1, 10, 2], [2]]) (by decide))
  · exact absurd rfl (h2 (2, [[2, 11, 3], [3]]) (by decide))
  · exact absurd rfl (h2 (3, [[14]]) (by decide))
  · rfl

/-- The names 50 and 51. -/
theorem choice_sums : NewChoice unbracketed pointersInner 50 51 99 :=
  ⟨fresh_of (by decide) (by decide), fresh_of (by decide) (by decide), fresh_of (by decide) (by decide),
    fresh_of (by decide) (by decide), by decide, fresh_of (by decide) (by decide), fresh_of (by decide) (by decide),
    by decide, by decide⟩

/-- Not vacuous: sums of products begin with a number, assignments with `*` (11) or a name (12); the token 11 is used in
both. -/
theorem sums_choice : ∃ t tE t', Makes .slr true unbracketed 0 99 t ∧ Makes .clr true pointersInner 40 99 tE ∧
    Makes .clr true (Wrapped (Joined unbracketed pointersInner 51 0 40) 50 51) 50 99 t' ∧ t'.conflicts = [] ∧
    ∀ toks : List (Token Unit Nat), Validates t' toks true ↔ Validates t toks true ∨ Validates tE toks true := by
  have hg : Grammar.new true 0 (grammarMap unbracketed) 99 = .ok (Samples.grammar unbracketed) := by decide +kernel
  have hg' : Grammar.new true 40 (grammarMap pointersInner) 99 = .ok pointersInnerGrammar := by decide +kernel
  have h : ∃ t, Slr.new true 500 (Samples.grammar unbracketed) = .ok t ∧ t.conflicts = [] := by
    refine ⟨_, rfl, ?_⟩
    decide +kernel
  have h' : ∃ t, Clr.new true 500 pointersInnerGrammar = .ok t ∧ t.conflicts = [] := by
    refine ⟨_, rfl, ?_⟩
    decide +kernel
  obtain ⟨t, h1, h2⟩ := h
  obtain ⟨tE, h3, h4⟩ := h'
  have m1 : Makes .slr true unbracketed 0 99 t := ⟨_, hg, 500, h1⟩
  have m2 : Makes .clr true pointersInner 40 99 tE := ⟨_, hg', 500, h3⟩
  have b1 : InNoBody unbracketed 0 := Samples.inNoBody (by decide)
  have b2 : InNoBody pointersInner 40 := Samples.inNoBody (by decide)
  obtain ⟨t', k1, k2, k3⟩ := C112_parses m1 (by simp) h2 m2 (by simp) h4 separate_sums choice_sums b1 b2
    (allProductive [(3, 0), (2, 1), (1, 1), (0, 0)] (by decide) (by decide +kernel) (by decide))
    (allProductive [(42, 1), (43, 0), (41, 1), (40, 0)] (by decide) (by decide +kernel) (by decide)) (by
      intro x u v hu hv
      have e := sums_begin (sound_sentence m1 b1 choice_sums.endFirst.1 (validates_true.mp hu))
      have s2 := sound_sentence m2 b2 choice_sums.endSecond.1 (validates_true.mp hv)
      have : x.ty ∈ [40, 41, 42, 43, 11, 12] := begins_of (D := pointersInner) (by decide) (by decide) s2.1
      rw [e] at this
      exact absurd this (by decide))
  exact ⟨t, tE, t', m1, m2, k1, k2, k3⟩

/-- The grammar of sums or assignments. -/
def sumsChoiceGrammar : Grammar Nat :=
  match Grammar.new true 50 (grammarMap (Wrapped (Joined unbracketed pointersInner 51 0 40) 50 51)) 99 with
  | .ok g => g
  | _ => Samples.grammar []

/-- Not vacuous for Lalr: the same grammars, of which the second has a conflict in its Slr table. -/
example : ∃ t', Makes .lalr true (Wrapped (Joined unbracketed pointersInner 51 0 40) 50 51) 50 99 t' ∧ t'.conflicts = [] := by
  have hg : Grammar.new true 0 (grammarMap unbracketed) 99 = .ok (Samples.grammar unbracketed) := by decide +kernel
  have hg' : Grammar.new true 40 (grammarMap pointersInner) 99 = .ok pointersInnerGrammar := by decide +kernel
  have hg'' : Grammar.new true 50 (grammarMap (Wrapped (Joined unbracketed pointersInner 51 0 40) 50 51)) 99 =
    .ok sumsChoiceGrammar := by decide +kernel
  have h : ∃ l, Lalr.new true 500 (Samples.grammar unbracketed) = .ok l ∧ l.table.conflicts = [] ∧
      propagatedB l.table = true := by
    refine ⟨_, rfl, ?_⟩
    decide +kernel
  have h' : ∃ l, Lalr.new true 500 pointersInnerGrammar = .ok l ∧ l.table.conflicts = [] ∧ propagatedB l.table = true := by
    refine ⟨_, rfl, ?_⟩
    decide +kernel
  have h'' : ∃ l, Lalr.new true 500 sumsChoiceGrammar = .ok l ∧ unmixedB l.table = true := by
    refine ⟨_, rfl, ?_⟩
    decide +kernel
  obtain ⟨l1, h1, c1, p1⟩ := h
  obtain ⟨l2, h2, c2, p2⟩ := h'
  obtain ⟨l3, h3, u3⟩ := h''
  have m1 : Makes .lalr true unbracketed 0 99 l1.table := ⟨_, hg, 500, by
    show (do let l ← Lalr.new true 500 (Samples.grammar unbracketed); return l.table) = _
    rw [h1]; rfl⟩
  have m2 : Makes .lalr true pointersInner 40 99 l2.table := ⟨_, hg', 500, by
    show (do let l ← Lalr.new true 500 pointersInnerGrammar; return l.table) = _
    rw [h2]; rfl⟩
  have m3 : Makes .lalr true (Wrapped (Joined unbracketed pointersInner 51 0 40) 50 51) 50 99 l3.table := ⟨_, hg'', 500, by
    show (do let l ← Lalr.new true 500 sumsChoiceGrammar; return l.table) = _
    rw [h3]; rfl⟩
  have b1 : InNoBody unbracketed 0 := Samples.inNoBody (by decide)
  have b2 : InNoBody pointersInner 40 := Samples.inNoBody (by decide)
  refine ⟨_, m3, C112_unmixed m1 (propagated_of_check p1) c1 m2 (propagated_of_check p2) c2 m3 (unmixed_of_check u3)
    separate_sums choice_sums b1 b2
    (allProductive [(3, 0), (2, 1), (1, 1), (0, 0)] (by decide) (by decide +kernel) (by decide))
    (allProductive [(42, 1), (43, 0), (41, 1), (40, 0)] (by decide) (by decide +kernel) (by decide)) ?_⟩
  intro x u v hu hv
  have e := sums_begin (sound_sentence m1 b1 choice_sums.endFirst.1 (validates_true.mp hu))
  have s2 := sound_sentence m2 b2 choice_sums.endSecond.1 (validates_true.mp hv)
  have : x.ty ∈ [40, 41, 42, 43, 11, 12] := begins_of (D := pointersInner) (by decide) (by decide) s2.1
  rw [e] at this
  exact absurd this (by decide)

/-- Lists of another token: R → L, L → L + y | y. -/
def otherInner : Decls Nat := [(40, [[41]]), (41, [[41, 10, 15], [15]])]

/-- Its grammar. -/
def otherInnerGrammar : Grammar Nat :=
  match Grammar.new true 40 (grammarMap otherInner) 99 with
  | .ok g => g
  | _ => Samples.grammar []

/-- Not vacuous for Slr: sums of products, or sums of another token. -/
example : ∃ t', Makes .slr true (Wrapped (Joined unbracketed otherInner 51 0 40) 50 51) 50 99 t' ∧ t'.conflicts = [] := by
  have hg : Grammar.new true 0 (grammarMap unbracketed) 99 = .ok (Samples.grammar unbracketed) := by decide +kernel
  have hg' : Grammar.new true 40 (grammarMap otherInner) 99 = .ok otherInnerGrammar := by decide +kernel
  have h : ∃ t, Slr.new true 500 (Samples.grammar unbracketed) = .ok t ∧ t.conflicts = [] := by
    refine ⟨_, rfl, ?_⟩
    decide +kernel
  have h' : ∃ t, Slr.new true 500 otherInnerGrammar = .ok t ∧ t.conflicts = [] := by
    refine ⟨_, rfl, ?_⟩
    decide +kernel
  obtain ⟨t, h1, h2⟩ := h
  obtain ⟨tE, h3, h4⟩ := h'
  have m1 : Makes .slr true unbracketed 0 99 t := ⟨_, hg, 500, h1⟩
  have m2 : Makes .slr true otherInner 40 99 tE := ⟨_, hg', 500, h3⟩
  have b1 : InNoBody unbracketed 0 := Samples.inNoBody (by decide)
  have b2 : InNoBody otherInner 40 := Samples.inNoBody (by decide)
  have r1 : Derives unbracketed [0] [1] :=
    .head (Step.mk [] [] (A := 0) (i := 0) (body := [1]) ⟨_, ⟨[], _, rfl, by decide⟩, rfl⟩) (.refl _)
  have r2 : Derives unbracketed [0] [2] := r1.trans
    (.head (Step.mk [] [] (A := 1) (i := 1) (body := [2]) ⟨_, ⟨[(0, [[1]])], _, rfl, by decide⟩, rfl⟩) (.refl _))
  have r3 : Derives unbracketed [0] [3] := r2.trans
    (.head (Step.mk [] [] (A := 2) (i := 1) (body := [3])
      ⟨_, ⟨[(0, [[1]]), (1, [[1, 10, 2], [2]])], _, rfl, by decide⟩, rfl⟩) (.refl _))
  refine C112_slr m1 h2 m2 h4 ⟨?_, ?_⟩
    ⟨fresh_of (by decide) (by decide), fresh_of (by decide) (by decide), fresh_of (by decide) (by decide),
      fresh_of (by decide) (by decide), by decide, fresh_of (by decide) (by decide), fresh_of (by decide) (by decide),
      by decide, by decide⟩ b1 b2
    (allProductive [(3, 0), (2, 1), (1, 1), (0, 0)] (by decide) (by decide +kernel) (by decide))
    (allProductive [(41, 1), (40, 0)] (by decide) (by decide +kernel) (by decide)) ?_ ?_ ?_
  · rintro A ⟨d, hd, rfl⟩
    simp only [otherInner, List.mem_cons, List.not_mem_nil, or_false] at hd
    rcases hd with rfl | rfl <;> exact fresh_of (by decide) (by decide)
  · rintro A ⟨d, hd, rfl⟩
    simp only [unbracketed, List.mem_cons, List.not_mem_nil, or_false] at hd
    rcases hd with rfl | rfl | rfl | rfl <;> exact fresh_of (by decide) (by decide)
  · rintro X ⟨d, hd, rfl⟩
    simp only [unbracketed, List.mem_cons, List.not_mem_nil, or_false] at hd
    rcases hd with rfl | rfl | rfl | rfl
    · exact ⟨[], [], .refl _⟩
    · exact ⟨[], [], r1⟩
    · exact ⟨[], [], r2⟩
    · exact ⟨[], [], r3⟩
  · rintro X ⟨d, hd, rfl⟩
    simp only [otherInner, List.mem_cons, List.not_mem_nil, or_false] at hd
    rcases hd with rfl | rfl
    · exact ⟨[], [], .refl _⟩
    · exact ⟨[], [], .head (Step.mk [] [] (A := 40) (i := 0) (body := [41]) ⟨_, ⟨[], _, rfl, by decide⟩, rfl⟩) (.refl _)⟩
  · intro x u v hu hv
    have e := sums_begin (sound_sentence m1 b1 choice_sums.endFirst.1 (validates_true.mp hu))
    have s2 := sound_sentence m2 b2 (fresh_of (by decide) (by decide) : Fresh otherInner 99).1 (validates_true.mp hv)
    have : x.ty ∈ [40, 41, 15] := begins_of (D := otherInner) (by decide) (by decide) s2.1
    rw [e] at this
    exact absurd this (by decide)

/-- The grammar of sums or lists of numbers. -/
def alikeGrammar : Grammar Nat :=
  match Grammar.new true 50 (grammarMap (Wrapped (Joined unbracketed listsInner 51 0 40) 50 51)) 99 with
  | .ok g => g
  | _ => Samples.grammar []

/-- The texts have to begin with different tokens: sums and lists of numbers both begin with a number, neither table has
conflicts, but that of the whole has. -/
theorem C112_needs_apart : ∃ t tE t', Makes .clr true unbracketed 0 99 t ∧ t.conflicts = [] ∧
    Makes .clr true listsInner 40 99 tE ∧ tE.conflicts = [] ∧
    Makes .clr true (Wrapped (Joined unbracketed listsInner 51 0 40) 50 51) 50 99 t' ∧ t'.conflicts ≠ [] := by
  have hg : Grammar.new true 0 (grammarMap unbracketed) 99 = .ok (Samples.grammar unbracketed) := by decide +kernel
  have hg' : Grammar.new true 40 (grammarMap listsInner) 99 = .ok listsInnerGrammar := by decide +kernel
  have hg'' : Grammar.new true 50 (grammarMap (Wrapped (Joined unbracketed listsInner 51 0 40) 50 51)) 99 =
    .ok alikeGrammar := by decide +kernel
  have h : ∃ t, Clr.new true 500 (Samples.grammar unbracketed) = .ok t ∧ t.conflicts = [] := by
    refine ⟨_, rfl, ?_⟩
    decide +kernel
  have h' : ∃ t, Clr.new true 500 listsInnerGrammar = .ok t ∧ t.conflicts = [] := by
    refine ⟨_, rfl, ?_⟩
    decide +kernel
  have h'' : ∃ t, Clr.new true 500 alikeGrammar = .ok t ∧ t.conflicts ≠ [] := by
    refine ⟨_, rfl, ?_⟩
    decide +kernel
  obtain ⟨t, h1, h2⟩ := h
  obtain ⟨tE, h3, h4⟩ := h'
  obtain ⟨t', h5, h6⟩ := h''
  exact ⟨t, tE, t', ⟨_, hg, 500, h1⟩, h2, ⟨_, hg', 500, h3⟩, h4, ⟨_, hg'', 500, h5⟩, h6⟩

end Lrp.Props
