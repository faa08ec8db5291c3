import Verif.Proofs.BracketsSlr
import Verif.Props.Fewer
import Verif.Props.Wrap

/-!
C96 — an alternative between brackets nothing else uses brings no conflicts; with it, for C94, that every rule
below the start can be made the start.
-/

set_option linter.unusedSectionVars false

namespace Lrp.Props
open Spec
set_option maxRecDepth 100000

variable {T : Type} [LinOrd T] [DecidableEq T] {M : Type}

/-- C96: an LR(1) grammar given the further alternative `A → o B c`, where `o` and `c` are used nowhere else and
`B` can be reached, is LR(1). -/
theorem C96_lr1 {D : Decls T} {S eof A B o c : T} (hlr : LR1 D S eof) (hn : NoEmpty D) (hpr : AllProductive D)
    (hS : Nonterminal D S) (hb : InNoBody D S) (hA : Nonterminal D A) (hB : Nonterminal D B) (hre : Reachable D S B)
    (ho : Fresh D o) (hc : Fresh D c) (hne : o ≠ c) (he : eof ≠ o) : LR1 (WithAlt D A [o, B, c]) S eof :=
  lr1_brackets ⟨ho, hc, hne, hA, hB, hn⟩ hS hb hpr hre he hlr

/-- C96: so is one given a symbol used nowhere else as a further alternative. -/
theorem C96_lr1_symbol {D : Decls T} {S eof A o : T} (hlr : LR1 D S eof) (hn : NoEmpty D) (hS : Nonterminal D S)
    (hA : Nonterminal D A) (hpr : Productive D A) (ho : Fresh D o) (he : eof ≠ o) : LR1 (WithAlt D A [o]) S eof :=
  lr1_fresh hn ho (by rintro rfl; exact not_terminal_iff.mpr hS ho.1) he hA hpr hlr

/-- C96: in debug builds a parser can be made with the alternative exactly if one can be made without it. -/
theorem C96_makes (k : Method) {D : Decls T} {S eof A B o c : T} (he : Terminal D eof)
    (hAS : A ≠ S) (ho : Terminal D o) (hc : Terminal D c) :
    (∃ t, Makes k true (WithAlt D A [o, B, c]) S eof t) ↔ ∃ t, Makes k true D S eof t := by
  have hl : Loopless (LeftGraph (WithAlt D A [o, B, c])) = Loopless (LeftGraph D) := by
    funext X Y; unfold Loopless; rw [leftGraph_withAlt ho]
  have hr : Loopless (RightGraph (WithAlt D A [o, B, c])) = Loopless (RightGraph D) := by
    funext X Y; unfold Loopless; rw [show [o, B, c] = [o, B] ++ [c] from rfl, rightGraph_withAlt hc]
  have key : ∀ {D : Decls T}, Terminal D eof → ((∃ t, Makes k true D S eof t) ↔
      ((∃ b, IsProd D S 0 b) ∧ SingleStart D S) ∧ NoEmpty D ∧ FoldsAway (Loopless (LeftGraph D)) ∧
        FoldsAway (Loopless (RightGraph D))) := by
    intro D he
    constructor
    · rintro ⟨t, ht⟩
      have hn := ht.noEmpty
      obtain ⟨g, hg, n, hb⟩ := ht
      obtain ⟨b, h1, h2⟩ := grammar_new_iff.mp ⟨g, hg⟩
      exact ⟨⟨⟨b, h1⟩, h2 rfl⟩, hn, (C79_debug_iff hg hn he).mp ((build_returns_iff hg).mp ⟨t, n, hb⟩)⟩
    · rintro ⟨⟨⟨b, h1⟩, h2⟩, hn, h⟩
      obtain ⟨g, hg⟩ := (grammar_new_iff (dbg := true) (D := D) (S := S) (eof := eof)).mpr ⟨b, h1, fun _ => h2⟩
      obtain ⟨t, ht⟩ := (build_returns_iff (k := k) hg).mpr ((C79_debug_iff hg hn he).mpr h)
      exact ⟨t, g, hg, ht⟩
  rw [key (terminal_withAlt.mpr he), key he, hl, hr, singleStart_withAlt hAS, noEmpty_withAlt (by simp)]
  refine and_congr_left fun _ => and_congr_left fun _ => ⟨?_, ?_⟩
  · rintro ⟨b, hp⟩
    rcases isProd_withAlt.mp hp with hp | ⟨e, _⟩
    · exact ⟨b, hp⟩
    · exact absurd e.symm hAS
  · rintro ⟨b, hp⟩
    exact ⟨b, isProd_withAlt.mpr (.inl hp)⟩

/-- C96: if some table of the grammar has no conflicts, neither has the Clr table with the alternative. -/
theorem C96_clr {k : Method} {dbg dbg' : Bool} {D : Decls T} {S eof A B o c : T} {t t' : Tabler T}
    (ht : Makes k dbg D S eof t) (hk : k = .lalr → Propagated t) (hno : t.conflicts = [])
    (ht' : Makes .clr dbg' (WithAlt D A [o, B, c]) S eof t') (h1 : SingleStart D S) (hb : InNoBody D S)
    (he : Terminal D eof) (hpr : AllProductive D) (hA : Nonterminal D A) (hB : Nonterminal D B)
    (hre : Reachable D S B) (ho : Fresh D o) (hc : Fresh D c) (hne : o ≠ c) (heo : eof ≠ o) : t'.conflicts = [] :=
  C63_no_conflicts ht' (terminal_withAlt.mpr he) (allProductive_withAlt hpr)
    (C96_lr1 (C63_lr1 ht hk he h1 hno) ht.noEmpty hpr ht.start hb hA hB hre ho hc hne heo)

/-- C96: in debug builds such a table can be made, and where `B` is not the start its parser accepts exactly the
sentences of the grammar with the alternative. -/
theorem C96_parses {k : Method} {D : Decls T} {S eof A B o c : T} {t : Tabler T}
    (ht : Makes k true D S eof t) (hk : k = .lalr → Propagated t) (hno : t.conflicts = []) (hb : InNoBody D S)
    (he : Terminal D eof) (hpr : AllProductive D) (hA : Nonterminal D A) (hAS : A ≠ S) (hB : Nonterminal D B)
    (hBS : B ≠ S) (hre : Reachable D S B) (ho : Fresh D o) (hc : Fresh D c) (hne : o ≠ c) (heo : eof ≠ o) :
    ∃ t', Makes .clr true (WithAlt D A [o, B, c]) S eof t' ∧ t'.conflicts = [] ∧
      ∀ toks : List (Token Unit T), Validates t' toks true ↔ Sentence (WithAlt D A [o, B, c]) S (toks.map Token.ty) := by
  have h1 : SingleStart D S := by
    obtain ⟨g, hg, _⟩ := id ht
    exact single_start_debug hg
  have hany : ∃ t, Makes .clr true D S eof t := by
    obtain ⟨g, hg, n, h⟩ := id ht
    obtain ⟨t, h⟩ := (build_returns_iff (k := .clr) hg).mpr ((build_returns_iff hg).mp ⟨t, n, h⟩)
    exact ⟨t, g, hg, h⟩
  obtain ⟨t', ht'⟩ := (C96_makes .clr he hAS ho.1 hc.1 (B := B)).mpr hany
  have hno' := C96_clr ht hk hno ht' h1 hb he hpr hA hB hre ho hc hne heo
  have hSt := not_terminal_iff.mpr ht.start
  refine ⟨t', ht', hno', fun toks => C22_clr_complete ht' hno' ?_ ((singleStart_withAlt hAS).mpr h1)
    (terminal_withAlt.mpr he)⟩
  intro X i b hp
  rcases isProd_withAlt.mp hp with hp | ⟨_, rfl, _⟩
  · exact hb X i b hp
  · intro hx
    simp only [List.mem_cons, List.not_mem_nil, or_false] at hx
    rcases hx with rfl | rfl | rfl
    · exact hSt ho.1
    · exact hBS rfl
    · exact hSt hc.1

theorem reachable_withAlt {D : Decls T} {S A X : T} {body : List T} (hpr : AllProductive D) (h : Reachable D S X) :
    Reachable (WithAlt D A body) S X := by
  obtain ⟨μ, ν, hd, _⟩ := rderives_reachable hpr h
  exact ⟨μ, ν, (rderives_withAlt hd).derives⟩

/-- C96: an SLR(1) grammar that is LR(1) (as it is if a table of it has no conflicts) stays SLR(1). -/
theorem C96_slr1 {D : Decls T} {S eof A B o c : T} (hs : SLR1 D S eof) (hlr : LR1 D S eof) (hn : NoEmpty D)
    (hpr : AllProductive D) (hS : Nonterminal D S) (hb : InNoBody D S) (he : Terminal D eof) (hA : Nonterminal D A)
    (hB : Nonterminal D B) (hre : Reachable D S B) (ho : Fresh D o) (hc : Fresh D c) (hne : o ≠ c) (heo : eof ≠ o)
    (hec : eof ≠ c) : SLR1 (WithAlt D A [o, B, c]) S eof :=
  slr1_brackets ⟨ho, hc, hne, hA, hB, hn⟩ hS hb hpr hre he heo hec hlr hs

/-- C96 for Slr: if the Slr table of the grammar has no conflicts, then in debug builds the Slr table with the
alternative can be made, has no conflicts, and where `B` is not the start its parser accepts exactly the sentences
of the grammar with the alternative. -/
theorem C96_slr {D : Decls T} {S eof A B o c : T} {t : Tabler T} (ht : Makes .slr true D S eof t)
    (hno : t.conflicts = []) (hb : InNoBody D S) (he : Terminal D eof) (hpr : AllProductive D)
    (hall : ∀ X, Nonterminal D X → Reachable D S X) (hA : Nonterminal D A) (hAS : A ≠ S) (hB : Nonterminal D B)
    (ho : Fresh D o) (hc : Fresh D c) (hne : o ≠ c) (heo : eof ≠ o) (hec : eof ≠ c) :
    ∃ t', Makes .slr true (WithAlt D A [o, B, c]) S eof t' ∧ t'.conflicts = [] ∧
      (B ≠ S → ∀ toks : List (Token Unit T),
        Validates t' toks true ↔ Sentence (WithAlt D A [o, B, c]) S (toks.map Token.ty)) := by
  have h1 : SingleStart D S := by
    obtain ⟨g, hg, _⟩ := id ht
    exact single_start_debug hg
  obtain ⟨t', ht'⟩ := (C96_makes .slr he hAS ho.1 hc.1 (B := B)).mpr ⟨t, ht⟩
  have hno' := C64_no_conflicts ht' (terminal_withAlt.mpr he) (allProductive_withAlt hpr)
    (fun X hX => reachable_withAlt hpr (hall X (nonterminal_withAlt.mp hX))) (.inl rfl)
    (C96_slr1 (C64_slr1 ht he h1 hno) (C63_lr1 ht (by simp) he h1 hno) ht.noEmpty hpr ht.start hb he hA hB
      (hall B hB) ho hc hne heo hec)
  have hSt := not_terminal_iff.mpr ht.start
  refine ⟨t', ht', hno', fun hBS toks => ?_⟩
  have hb' : InNoBody (WithAlt D A [o, B, c]) S := by
    intro X i b hp
    rcases isProd_withAlt.mp hp with hp | ⟨_, rfl, _⟩
    · exact hb X i b hp
    · intro hx
      simp only [List.mem_cons, List.not_mem_nil, or_false] at hx
      rcases hx with rfl | rfl | rfl
      · exact hSt ho.1
      · exact hBS rfl
      · exact hSt hc.1
  exact ⟨fun h => sound_sentence ht' hb' (terminal_withAlt.mpr he) (validates_true.mp h),
    complete_validates ht' (by simp) hno' hb' ((singleStart_withAlt hAS).mpr h1) (terminal_withAlt.mpr he)⟩

/-! ### Rules below the start -/

/-- C94: if some table of a grammar has no conflicts, then every rule that can be reached can be made the start by
wrapping it: in debug builds the Clr table can be made, has no conflicts, and its parser accepts exactly what the
rule derives. -/
theorem C94_below {k : Method} {D : Decls T} {S S' B eof : T} {t : Tabler T} (ht : Makes k true D S eof t)
    (hk : k = .lalr → Propagated t) (hno : t.conflicts = []) (hb : InNoBody D S) (he : Terminal D eof)
    (heb : InNoBody D eof) (hpr : AllProductive D) (hB : Nonterminal D B) (hre : Reachable D S B) (hf : Fresh D S')
    (he' : eof ≠ S') : ∃ t', Makes .clr true (Wrapped D S' B) S' eof t' ∧ t'.conflicts = [] ∧
      ∀ toks : List (Token Unit T), Validates t' toks true ↔ Sentence D B (toks.map Token.ty) := by
  obtain ⟨g, hg, n, h⟩ := id ht
  have hBt := not_terminal_iff.mpr hB
  have hne : S' ≠ B := by rintro rfl; exact hBt hf.1
  obtain ⟨t', ht'⟩ := (C94_makes .clr hf hne he he').mpr
    ⟨ht.noEmpty, (C79_debug_iff hg ht.noEmpty he).mp ((build_returns_iff hg).mp ⟨t, n, h⟩)⟩
  obtain ⟨μ, ν, hd, hν⟩ := rderives_reachable hpr hre
  have hlr := C63_lr1 ht hk he (single_start_debug hg) hno
  have hno' := (C94_clr ht' hf hne he he' heb hB hpr).mpr
    ⟨lr1_below hlr hd hν heb (by rintro rfl; exact hBt he), lr1_not_self hlr ht.noEmpty hb hd hν⟩
  exact ⟨t', ht', hno', fun _ => C94_exact ht' (by simp) hno' hf hne he he'⟩

/-- Not vacuous: the factors of the expression grammar. -/
example : ∃ t', Makes .clr true (Wrapped Samples.expr 50 3) 50 99 t' ∧ t'.conflicts = [] ∧
    ∀ toks : List (Token Unit Nat), Validates t' toks true ↔ Sentence Samples.expr 3 (toks.map Token.ty) := by
  refine C94_below makes_exprSlr (by simp) exprSlr_ok.2.2 (Samples.inNoBody (by decide)) expr_eof
    (Samples.inNoBody (by decide)) (allProductive [(3, 1), (2, 1), (1, 1), (0, 0)] (by decide) (by decide +kernel) (by decide))
    ⟨(3, [[12, 1, 13], [14]]), by decide, rfl⟩ ?_ ⟨by unfold Terminal; decide, Samples.inNoBody (by decide)⟩ (by decide)
  refine ⟨[], [], .head (Step.mk [] [] (A := 0) (i := 0) (body := [1]) ⟨_, ⟨[], _, rfl, by decide⟩, rfl⟩)
    (.head (Step.mk [] [] (A := 1) (i := 1) (body := [2]) ⟨_, ⟨[(0, [[1]])], _, rfl, by decide⟩, rfl⟩)
      (.head (Step.mk [] [] (A := 2) (i := 1) (body := [3])
        ⟨_, ⟨[(0, [[1]]), (1, [[1, 10, 2], [2]])], _, rfl, by decide⟩, rfl⟩) (.refl _)))⟩

/-! ### Examples -/

/-- Sums of products without brackets: E → E + T | T, T → T * F | F, F → id. -/
def unbracketed : Decls Nat := [(0, [[1]]), (1, [[1, 10, 2], [2]]), (2, [[2, 11, 3], [3]]), (3, [[14]])]

theorem fresh_of {D : Decls Nat} {x : Nat} (h1 : ∀ d ∈ D, d.1 ≠ x) (h2 : ∀ d ∈ D, ∀ b ∈ d.2, x ∉ b) : Fresh D x := by
  refine ⟨h1, fun A i b hp => ?_⟩
  obtain ⟨d, k1, _, k3⟩ := Samples.mem_of_isProd hp
  exact h2 d k1 b (List.mem_of_getElem? k3)

/-- Not vacuous: with brackets for factors, of whose contents the grammar was asked nothing. -/
theorem unbracketed_parses : ∃ t', Makes .clr true (WithAlt unbracketed 3 [12, 1, 13]) 0 99 t' ∧ t'.conflicts = [] ∧
    ∀ toks : List (Token Unit Nat),
      Validates t' toks true ↔ Sentence (WithAlt unbracketed 3 [12, 1, 13]) 0 (toks.map Token.ty) := by
  have hg : Grammar.new true 0 (grammarMap unbracketed) 99 = .ok (Samples.grammar unbracketed) := by decide +kernel
  have h : ∃ t, Slr.new true 500 (Samples.grammar unbracketed) = .ok t ∧ t.conflicts = [] := by
    refine ⟨_, rfl, ?_⟩
    decide +kernel
  obtain ⟨t, h1, h2⟩ := h
  refine C96_parses (k := .slr) ⟨_, hg, 500, h1⟩ (by simp) h2 (Samples.inNoBody (by decide))
    (by unfold Terminal; decide)
    (allProductive [(3, 0), (2, 1), (1, 1), (0, 0)] (by decide) (by decide +kernel) (by decide))
    ⟨(3, [[14]]), by decide, rfl⟩ (by decide) ⟨(1, [[1, 10, 2], [2]]), by decide, rfl⟩ (by decide) ?_
    (fresh_of (by decide) (by decide)) (fresh_of (by decide) (by decide)) (by decide) (by decide)
  exact ⟨[], [], .head (Step.mk [] [] (A := 0) (i := 0) (body := [1]) ⟨_, ⟨[], _, rfl, by decide⟩, rfl⟩) (.refl _)⟩

/-- The same with Slr. -/
example : ∃ t', Makes .slr true (WithAlt unbracketed 3 [12, 1, 13]) 0 99 t' ∧ t'.conflicts = [] := by
  have hg : Grammar.new true 0 (grammarMap unbracketed) 99 = .ok (Samples.grammar unbracketed) := by decide +kernel
  have h : ∃ t, Slr.new true 500 (Samples.grammar unbracketed) = .ok t ∧ t.conflicts = [] := by
    refine ⟨_, rfl, ?_⟩
    decide +kernel
  obtain ⟨t, h1, h2⟩ := h
  have r1 : Derives unbracketed [0] [1] :=
    .head (Step.mk [] [] (A := 0) (i := 0) (body := [1]) ⟨_, ⟨[], _, rfl, by decide⟩, rfl⟩) (.refl _)
  have r2 : Derives unbracketed [0] [2] := r1.trans
    (.head (Step.mk [] [] (A := 1) (i := 1) (body := [2]) ⟨_, ⟨[(0, [[1]])], _, rfl, by decide⟩, rfl⟩) (.refl _))
  have r3 : Derives unbracketed [0] [3] := r2.trans
    (.head (Step.mk [] [] (A := 2) (i := 1) (body := [3])
      ⟨_, ⟨[(0, [[1]]), (1, [[1, 10, 2], [2]])], _, rfl, by decide⟩, rfl⟩) (.refl _))
  have hall : ∀ X, Nonterminal unbracketed X → Reachable unbracketed 0 X := by
    rintro X ⟨d, hd, rfl⟩
    simp only [unbracketed, List.mem_cons, List.not_mem_nil, or_false] at hd
    rcases hd with rfl | rfl | rfl | rfl
    · exact ⟨[], [], .refl _⟩
    · exact ⟨[], [], r1⟩
    · exact ⟨[], [], r2⟩
    · exact ⟨[], [], r3⟩
  obtain ⟨t', h3, h4, _⟩ := C96_slr ⟨_, hg, 500, h1⟩ h2 (Samples.inNoBody (by decide)) (by unfold Terminal; decide)
    (allProductive [(3, 0), (2, 1), (1, 1), (0, 0)] (by decide) (by decide +kernel) (by decide)) hall
    (A := 3) (B := 1) (o := 12) (c := 13) ⟨(3, [[14]]), by decide, rfl⟩ (by decide)
    ⟨(1, [[1, 10, 2], [2]]), by decide, rfl⟩ (fresh_of (by decide) (by decide)) (fresh_of (by decide) (by decide))
    (by decide) (by decide) (by decide)
  exact ⟨t', h3, h4⟩

/-- And that grammar is the expression grammar, up to the order of the alternatives of F. -/
example : WithAlt unbracketed 3 [12, 1, 13] =
    [(0, [[1]]), (1, [[1, 10, 2], [2]]), (2, [[2, 11, 3], [3]]), (3, [[14], [12, 1, 13]])] := by decide +kernel

/-- S → N | a C, N → a A a | b A b | a B b | b B a, A → e, B → e, C → e q. -/
def nested : Decls Nat :=
  [(0, [[1]]), (1, [[5], [10, 4]]), (2, [[12]]), (3, [[12]]), (4, [[12, 13]]),
   (5, [[10, 2, 10], [11, 2, 11], [10, 3, 11], [11, 3, 10]])]

/-- C96 is false of Lalr: the Lalr table of `nested` has no conflicts, with the alternative S → o N c it has,
since between the brackets two states are merged that the alternative a C keeps apart outside. -/
theorem C96_false_lalr : Fresh nested 20 ∧ Fresh nested 21 ∧
    ∃ t t', Makes .lalr true nested 0 99 t ∧ Makes .lalr true (WithAlt nested 1 [20, 5, 21]) 0 99 t' ∧
      Propagated t ∧ Propagated t' ∧ t.conflicts = [] ∧ t'.conflicts ≠ [] := by
  refine ⟨fresh_of (by decide) (by decide), fresh_of (by decide) (by decide), ?_⟩
  have hg : Grammar.new true 0 (grammarMap nested) 99 = .ok (Samples.grammar nested) := by decide +kernel
  have hg' : Grammar.new true 0 (grammarMap (WithAlt nested 1 [20, 5, 21])) 99 =
    .ok (Samples.grammar (WithAlt nested 1 [20, 5, 21])) := by decide +kernel
  have h : ∃ l, Lalr.new true 500 (Samples.grammar nested) = .ok l ∧ l.table.conflicts = [] ∧
      propagatedB l.table = true := by
    refine ⟨_, rfl, ?_⟩
    decide +kernel
  have h' : ∃ l, Lalr.new true 500 (Samples.grammar (WithAlt nested 1 [20, 5, 21])) = .ok l ∧
      l.table.conflicts ≠ [] ∧ propagatedB l.table = true := by
    refine ⟨_, rfl, ?_⟩
    decide +kernel
  obtain ⟨l, h1, h2, h3⟩ := h
  obtain ⟨l', h1', h2', h3'⟩ := h'
  refine ⟨l.table, l'.table, ⟨_, hg, 500, ?_⟩, ⟨_, hg', 500, ?_⟩, propagated_of_check h3, propagated_of_check h3', h2, h2'⟩
  · show (do let l ← Lalr.new true 500 (Samples.grammar nested); return l.table) = _
    rw [h1]; rfl
  · show (do let l ← Lalr.new true 500 (Samples.grammar (WithAlt nested 1 [20, 5, 21])); return l.table) = _
    rw [h1']; rfl

/-- S → ( A ) | x, A → x. -/
def taken : Decls Nat := [(0, [[1]]), (1, [[12, 2, 13], [14]]), (2, [[14]])]

/-- Brackets the grammar already uses can bring conflicts: `taken` with S → ( S ). -/
theorem C96_needs_fresh : ∃ t t', Makes .clr true taken 0 99 t ∧ Makes .clr true (WithAlt taken 1 [12, 1, 13]) 0 99 t' ∧
    t.conflicts = [] ∧ t'.conflicts ≠ [] := by
  have hg : Grammar.new true 0 (grammarMap taken) 99 = .ok (Samples.grammar taken) := by decide +kernel
  have hg' : Grammar.new true 0 (grammarMap (WithAlt taken 1 [12, 1, 13])) 99 =
    .ok (Samples.grammar (WithAlt taken 1 [12, 1, 13])) := by decide +kernel
  have h : ∃ t, Clr.new true 500 (Samples.grammar taken) = .ok t ∧ t.conflicts = [] := by
    refine ⟨_, rfl, ?_⟩
    decide +kernel
  have h' : ∃ t, Clr.new true 500 (Samples.grammar (WithAlt taken 1 [12, 1, 13])) = .ok t ∧ t.conflicts ≠ [] := by
    refine ⟨_, rfl, ?_⟩
    decide +kernel
  obtain ⟨t, h1, h2⟩ := h
  obtain ⟨t', h1', h2'⟩ := h'
  exact ⟨t, t', ⟨_, hg, 500, h1⟩, ⟨_, hg', 500, h1'⟩, h2, h2'⟩

/-- S → x, and a rule that cannot be reached and has two parses of `y`: U → A | B, A → y, B → y. -/
def hidden : Decls Nat := [(0, [[1]]), (1, [[10]]), (2, [[3], [4]]), (3, [[11]]), (4, [[11]])]

/-- What is put between the brackets has to be reachable before: `hidden` with S → o U c. -/
theorem C96_needs_reachable : Fresh hidden 20 ∧ Fresh hidden 21 ∧
    ∃ t t', Makes .clr true hidden 0 99 t ∧ Makes .clr true (WithAlt hidden 1 [20, 2, 21]) 0 99 t' ∧
      t.conflicts = [] ∧ t'.conflicts ≠ [] := by
  refine ⟨fresh_of (by decide) (by decide), fresh_of (by decide) (by decide), ?_⟩
  have hg : Grammar.new true 0 (grammarMap hidden) 99 = .ok (Samples.grammar hidden) := by decide +kernel
  have hg' : Grammar.new true 0 (grammarMap (WithAlt hidden 1 [20, 2, 21])) 99 =
    .ok (Samples.grammar (WithAlt hidden 1 [20, 2, 21])) := by decide +kernel
  have h : ∃ t, Clr.new true 500 (Samples.grammar hidden) = .ok t ∧ t.conflicts = [] := by
    refine ⟨_, rfl, ?_⟩
    decide +kernel
  have h' : ∃ t, Clr.new true 500 (Samples.grammar (WithAlt hidden 1 [20, 2, 21])) = .ok t ∧ t.conflicts ≠ [] := by
    refine ⟨_, rfl, ?_⟩
    decide +kernel
  obtain ⟨t, h1, h2⟩ := h
  obtain ⟨t', h1', h2'⟩ := h'
  exact ⟨t, t', ⟨_, hg, 500, h1⟩, ⟨_, hg', 500, h1'⟩, h2, h2'⟩

end Lrp.Props
