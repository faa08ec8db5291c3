import Verif.Proofs.Knuth
import Verif.Props.Power

/-! C63: the canonical builder finds no conflicts exactly in LR(1) grammars. -/

namespace Lrp.Props
open Spec
set_option maxRecDepth 100000

variable {T : Type} [LinOrd T] [DecidableEq T]

/-- C63: if a table has no conflicts, the grammar is LR(1) by Knuth's definition — for Slr and Clr, and
for Lalr if lookaheads have been passed on along all shifts and gotos. -/
theorem C63_lr1 {k : Method} {dbg : Bool} {D : Decls T} {S eof : T} {t : Tabler T}
    (h : Makes k dbg D S eof t) (hk : k = .lalr → Propagated t) (he : Terminal D eof)
    (hS : SingleStart D S) (hno : t.conflicts = []) : LR1 D S eof := by
  obtain ⟨b0, next, red, ha, hl⟩ := h.looks hk he
  exact Looks.lr1 ha hl he hS (h.no_conflict.mp hno)

/-- C63: the Clr table of an LR(1) grammar all of whose nonterminals derive terminal strings has no
conflicts. -/
theorem C63_no_conflicts {dbg : Bool} {D : Decls T} {S eof : T} {t : Tabler T}
    (h : Makes .clr dbg D S eof t) (he : Terminal D eof) (hpr : AllProductive D)
    (hlr : LR1 D S eof) : t.conflicts = [] := by
  refine h.no_conflict.mpr ?_
  obtain ⟨g, hg, n, hb⟩ := id h
  have hb := Clr.built (Grammar.of_new hg) hb
  obtain ⟨b0, hb0, _⟩ := hb.of.grammar.basis
  have ha := hb.auto hb0
  refine Exact.no_conflict ha (hb.exact_clr hb0) hpr he hb.reaches ?_ hlr
  intro i s p x hs hp hx
  by_cases hT : Terminal D x
  · exact ⟨x, hT, InFirst.refl⟩
  · obtain ⟨w, hw, ht⟩ := hpr x (not_terminal_iff.mp hT)
    cases w with
    | nil => exact absurd rfl (derives_ne_nil ha.noEmpty hw (by simp))
    | cons y v => exact ⟨y, ht y (by simp), v, hw⟩

/-- C63: a grammar without useless nonterminals is LR(1) iff its Clr table has no conflicts. -/
theorem C63_clr_iff {dbg : Bool} {D : Decls T} {S eof : T} {t : Tabler T}
    (h : Makes .clr dbg D S eof t) (he : Terminal D eof) (hS : SingleStart D S)
    (hpr : AllProductive D) : t.conflicts = [] ↔ LR1 D S eof :=
  ⟨C63_lr1 h (by simp) he hS, C63_no_conflicts h he hpr⟩

/-- C63: so for every LR(1) grammar the parser built by Clr accepts exactly the sentences. -/
theorem C63_parses {dbg : Bool} {D : Decls T} {S eof : T} {t : Tabler T}
    (h : Makes .clr dbg D S eof t) (hlr : LR1 D S eof) (hpr : AllProductive D) (hb : InNoBody D S)
    (hS : SingleStart D S) (he : Terminal D eof) {toks : List (Token Unit T)} :
    Validates t toks true ↔ Sentence D S (toks.map Token.ty) :=
  C22_clr_complete h (C63_no_conflicts h he hpr hlr) hb hS he

theorem pointers_eof : Terminal Samples.pointers 99 := by unfold Terminal; decide

theorem pointers_single : SingleStart Samples.pointers 0 := by
  have hg : Grammar.new true 0 (grammarMap Samples.pointers) 99 =
    .ok (Samples.grammar Samples.pointers) := by decide +kernel
  exact single_start_debug hg

/-- Not vacuous: `S → L = R | R`, `L → * R | id`, `R → L` is LR(1), although its Slr table has a
conflict. -/
theorem pointers_lr1 : LR1 Samples.pointers 0 99 := by
  obtain ⟨_, t', _, _, h, _, _, h', _⟩ := C36_strict
  exact C63_lr1 h (by simp) pointers_eof pointers_single h'

/-- Not vacuous: ambiguous expressions are not LR(1): after `E + E`, before `+`. -/
theorem ambiguous_not_lr1 : ¬ LR1 Samples.ambiguous 0 99 := by
  intro h
  have p0 : IsProd Samples.ambiguous 0 0 [1] :=
    ⟨[[1]], ⟨[], _, rfl, by decide⟩, rfl⟩
  have p1 : IsProd Samples.ambiguous 1 0 [1, 10, 1] :=
    ⟨[[1, 10, 1], [1, 11, 1], [14]], ⟨[(0, [[1]])], [], rfl, by decide⟩, rfl⟩
  have p2 : IsProd Samples.ambiguous 1 2 [14] :=
    ⟨[[1, 10, 1], [1, 11, 1], [14]], ⟨[(0, [[1]])], [], rfl, by decide⟩, rfl⟩
  have t10 : Terminal Samples.ambiguous 10 := by unfold Terminal; decide
  have t14 : Terminal Samples.ambiguous 14 := by unfold Terminal; decide
  have nil : Terminals Samples.ambiguous [] := by simp [Terminals]
  have w1 : Terminals Samples.ambiguous [10, 14] := by
    intro t ht
    simp at ht
    rcases ht with rfl | rfl
    · exact t10
    · exact t14
  have s1 : RDerives Samples.ambiguous [0] [1] := .tail .refl (RStep.mk [] [] p0 nil)
  have s2 : RDerives Samples.ambiguous [0] [1, 10, 1] := .tail s1 (RStep.mk [] [] p1 nil)
  have s3 : RDerives Samples.ambiguous [0] [1, 10, 14] := .tail s2 (RStep.mk [1, 10] [] p2 nil)
  -- E + id from the right, where E is replaced by E + E
  have s4 : RDerives Samples.ambiguous [0] [1, 10, 1, 10, 1] := .tail s2 (RStep.mk [1, 10] [] p1 nil)
  have s5 : RDerives Samples.ambiguous [0] [1, 10, 1, 10, 14] :=
    .tail s4 (RStep.mk [1, 10, 1, 10] [] p2 nil)
  have := h [] [1, 10, 1] [10, 14] [1, 10, 1, 10] [14] [] [10, 14] 1 1 0 2 s3 w1 p1 s4 nil p2 rfl w1 rfl
  exact absurd this.1 (by decide)

/-- So its Clr table has conflicts, in every build. -/
example {dbg : Bool} {t : Tabler Nat} (h : Makes .clr dbg Samples.ambiguous 0 99 t) : t.conflicts ≠ [] := by
  intro hno
  refine ambiguous_not_lr1 (C63_lr1 h (by simp) (by unfold Terminal; decide) ?_ hno)
  have hg : Grammar.new true 0 (grammarMap Samples.ambiguous) 99 =
    .ok (Samples.grammar Samples.ambiguous) := by decide +kernel
  exact single_start_debug hg

/-- C63 needs useless nonterminals to be absent, in release builds: a grammar that is LR(1) but whose
Clr table has a conflict. -/
theorem C63_needs_productive : ∃ t, Makes .clr false Samples.hollowClique 0 99 t ∧
    LR1 Samples.hollowClique 0 99 ∧ t.conflicts ≠ [] := by
  obtain ⟨t, t', _, h, h', _, he, hno, hc, _⟩ := C36_needs_first
  refine ⟨t', h', C63_lr1 h (by simp) he ?_ hno, hc⟩
  have hg : Grammar.new true 0 (grammarMap Samples.hollowClique) 99 =
    .ok (Samples.grammar Samples.hollowClique) := by decide +kernel
  exact single_start_debug hg

/-! ### C64 -/

/-- C64: if the Slr table has no conflicts, the grammar is SLR(1). -/
theorem C64_slr1 {dbg : Bool} {D : Decls T} {S eof : T} {t : Tabler T}
    (h : Makes .slr dbg D S eof t) (he : Terminal D eof) (hS : SingleStart D S)
    (hno : t.conflicts = []) : SLR1 D S eof := by
  obtain ⟨g, hg, n, hb⟩ := id h
  have hof := Grammar.of_new hg
  obtain ⟨g', n', t0, hg', ht0, _, _, e⟩ := h.tabler
  have hb := Slr.built hof hb
  obtain ⟨b0, hb0, _⟩ := hb.of.grammar.basis
  refine Looks.slr1 (hb.auto hb0) (hb.looks_slr hb0 he) he hS ?_ (h.no_conflict.mp hno)
  intro i s p x hs hp hx hf
  obtain ⟨F, h1, h2⟩ := C07_follow_complete hg' ht0 he p.rule x
    ((hb.auto hb0).prod hs hp).1.nonterminal hx hf
  exact ⟨F, by rw [e]; exact h1, h2⟩

/-- C64: the Slr table of an SLR(1) grammar without useless nonterminals has no conflicts — in debug
builds, and in release builds when the graphs of leftmost and of last nonterminals fold away. -/
theorem C64_no_conflicts {dbg : Bool} {D : Decls T} {S eof : T} {t : Tabler T}
    (h : Makes .slr dbg D S eof t) (he : Terminal D eof)
    (hpr : AllProductive D) (hre : ∀ A, Nonterminal D A → Reachable D S A)
    (hf : dbg = true ∨ (FoldsAway (Loopless (LeftGraph D)) ∧ FoldsAway (Loopless (RightGraph D))))
    (hlr : SLR1 D S eof) : t.conflicts = [] := by
  refine h.no_conflict.mpr ?_
  obtain ⟨g, hg, n, hb⟩ := id h
  have hof := Grammar.of_new hg
  obtain ⟨g', n', t0, hg', ht0, _, _, e⟩ := h.tabler
  have hb := Slr.built hof hb
  obtain ⟨b0, hb0, _⟩ := hb.of.grammar.basis
  have hT := C08_only_terminals_partial hg' ht0 (hf.imp id (fun h => ⟨he, h.1, h.2⟩))
  refine (hb.auto hb0).slr_no_conflict hpr hb.reaches ?_ hlr
  rintro i s p x hs hp ⟨F, h1, h2⟩
  rw [e] at h1
  have hx := hT.2 _ F h1 x h2
  exact ⟨hx, C07_follow_sound_partial hg' ht0 he hre (Or.inr hT.1) p.rule x F h1 h2 hx⟩

/-- C64: a grammar without useless nonterminals is SLR(1) iff its Slr table has no conflicts. -/
theorem C64_slr_iff {dbg : Bool} {D : Decls T} {S eof : T} {t : Tabler T}
    (h : Makes .slr dbg D S eof t) (he : Terminal D eof) (hS : SingleStart D S)
    (hpr : AllProductive D) (hre : ∀ A, Nonterminal D A → Reachable D S A)
    (hf : dbg = true ∨ (FoldsAway (Loopless (LeftGraph D)) ∧ FoldsAway (Loopless (RightGraph D)))) :
    t.conflicts = [] ↔ SLR1 D S eof :=
  ⟨C64_slr1 h he hS, C64_no_conflicts h he hpr hre hf⟩

theorem pointers_productive : AllProductive Samples.pointers :=
  allProductive [(2, 1), (3, 0), (1, 1), (0, 0)] (by decide) (by decide +kernel) (by decide)

theorem pointers_reachable :
    ∀ A, Nonterminal Samples.pointers A → Reachable Samples.pointers 0 A := by
  have p0 : IsProd Samples.pointers 0 0 [1] := isProd_of_mem (by decide) (bs := [[1]]) (by decide) rfl
  have p1 : IsProd Samples.pointers 1 0 [2, 10, 3] :=
    isProd_of_mem (by decide) (bs := [[2, 10, 3], [3]]) (by decide) rfl
  have d1 : Derives Samples.pointers [0] [1] := .of_prod p0
  have d2 : Derives Samples.pointers [0] [2, 10, 3] := d1.trans (.of_prod p1)
  rintro A ⟨d, hd, rfl⟩
  simp only [Samples.pointers, List.mem_cons, List.not_mem_nil, or_false] at hd
  rcases hd with rfl | rfl | rfl | rfl
  · exact ⟨[], [], .refl _⟩
  · exact ⟨[], [], d1⟩
  · exact ⟨[], [10, 3], d2⟩
  · exact ⟨[2, 10], [], d2⟩

/-- Not vacuous: this grammar, although LR(1), is not SLR(1). -/
theorem pointers_not_slr1 : ¬ SLR1 Samples.pointers 0 99 := by
  obtain ⟨t, _, _, h, _, _, hc, _⟩ := C36_strict
  exact fun hs => hc (C64_no_conflicts h pointers_eof pointers_productive pointers_reachable (.inl rfl) hs)

/-- Not vacuous: arithmetic expressions are SLR(1). -/
theorem expr_slr1 : SLR1 Samples.expr 0 99 := by
  have hg : Grammar.new true 0 (grammarMap Samples.expr) 99 = .ok (Samples.grammar Samples.expr) := by
    decide +kernel
  have h : ∃ t, Slr.new true 500 (Samples.grammar Samples.expr) = .ok t ∧ t.conflicts = [] := by
    refine ⟨_, rfl, ?_⟩; decide +kernel
  obtain ⟨t, h1, h2⟩ := h
  exact C64_slr1 (t := t) (dbg := true) ⟨_, hg, 500, h1⟩ (by unfold Terminal; decide) (single_start_debug hg) h2

end Lrp.Props
