import Verif.Proofs.Reorder
import Verif.Props.Agree
import Verif.Props.Loose
import Verif.Props.Lalr1
import Verif.Props.Knuth
import Verif.Props.WopBuild
import Verif.Props.Folding

/-! C100: the order of the alternatives of a rule does not matter. -/

set_option linter.unusedSectionVars false

namespace Lrp.Props
open Spec
set_option maxRecDepth 100000

variable {T : Type} [LinOrd T] [DecidableEq T] {M : Type}

/-- C100: however the alternatives of the rules are ordered, each has its place. -/
theorem C100_places {D D' : Decls T} (h : Shuffled D D') : ∃ π, Reordered π D D' := shuffled_reordered h

theorem reordered_makes {k : Method} {dbg : Bool} {D D' : Decls T} {S eof : T} {π : T → Nat → Nat}
    (h : Reordered π D D') (hS : SingleStart D S) {t : Tabler T} (ht : Makes k dbg D S eof t) :
    ∃ t', Makes k dbg D' S eof t' := by
  have hne := ht.noEmpty
  obtain ⟨g, hg, n, hb⟩ := id ht
  have hg' : ∃ g', Grammar.new dbg S (grammarMap D') eof = .ok g' := by
    obtain ⟨b, h1, _⟩ := grammar_new_iff.mp ⟨g, hg⟩
    exact grammar_new_iff.mpr ⟨b, (h.start hS b).mpr h1, fun _ => h.single hS⟩
  obtain ⟨g', hg'⟩ := hg'
  have h1 := (C79_returns_iff hg hne).mp ((build_returns_iff hg).mp ⟨t, n, hb⟩)
  rw [← h.leftGraph] at h1
  simp only [← h.afterGraph] at h1
  obtain ⟨t', n', hb'⟩ := (build_returns_iff (k := k) hg').mpr
    ((C79_returns_iff hg' (h.noEmpty.mpr hne)).mpr h1)
  exact ⟨t', g', hg', n', hb'⟩

/-- C100: a table can be made of the one grammar iff it can be made of the other. -/
theorem C100_makes {k : Method} {dbg : Bool} {D D' : Decls T} {S eof : T} (h : Shuffled D D')
    (hS : SingleStart D S) : (∃ t, Makes k dbg D S eof t) ↔ ∃ t, Makes k dbg D' S eof t := by
  obtain ⟨π, h⟩ := shuffled_reordered h
  obtain ⟨ρ, h'⟩ := h.symm
  exact ⟨fun ⟨_, ht⟩ => reordered_makes h hS ht, fun ⟨_, ht⟩ => reordered_makes h' (h.single hS) ht⟩

/-- C100 for Clr: conflicts. -/
theorem C100_clr {dbg dbg' : Bool} {D D' : Decls T} {S eof : T} {t t' : Tabler T} (h : Shuffled D D')
    (ht : Makes .clr dbg D S eof t) (ht' : Makes .clr dbg' D' S eof t') (he : Terminal D eof)
    (hS : SingleStart D S) (hpr : AllProductive D) : t.conflicts = [] ↔ t'.conflicts = [] := by
  obtain ⟨π, h⟩ := shuffled_reordered h
  rw [C63_clr_iff ht he hS hpr, C63_clr_iff ht' ((h.terminal _).mpr he) (h.single hS) (h.allProductive.mpr hpr),
    h.lr1]

/-- C100 for Slr: conflicts. -/
theorem C100_slr {dbg dbg' : Bool} {D D' : Decls T} {S eof : T} {t t' : Tabler T} (h : Shuffled D D')
    (ht : Makes .slr dbg D S eof t) (ht' : Makes .slr dbg' D' S eof t') (he : Terminal D eof)
    (hS : SingleStart D S) (hpr : AllProductive D) (hre : ∀ A, Nonterminal D A → Reachable D S A) :
    t.conflicts = [] ↔ t'.conflicts = [] := by
  obtain ⟨π, h⟩ := shuffled_reordered h
  rw [C64_slr_all_builds ht he hS hpr hre, C64_slr_all_builds ht' ((h.terminal _).mpr he) (h.single hS)
    (h.allProductive.mpr hpr) (fun A hA => (h.reachable A).mpr (hre A ((h.names A).mp hA))), h.followed,
    h.slr1For]

/-- C100 for Lalr: conflicts, where lookaheads are passed on and no state is mistaken for another. -/
theorem C100_lalr {dbg dbg' : Bool} {D D' : Decls T} {S eof : T} {t t' : Tabler T} (h : Shuffled D D')
    (ht : Makes .lalr dbg D S eof t) (ht' : Makes .lalr dbg' D' S eof t') (hp : Propagated t)
    (hp' : Propagated t') (hu : Unmixed t) (hu' : Unmixed t') (he : Terminal D eof)
    (hS : SingleStart D S) (hpr : AllProductive D) : t.conflicts = [] ↔ t'.conflicts = [] := by
  obtain ⟨π, h⟩ := shuffled_reordered h
  rw [C69_iff_partial ht hp hu he hS hpr, C69_iff_partial ht' hp' hu' ((h.terminal _).mpr he) (h.single hS)
    (h.allProductive.mpr hpr), h.lalr1]

/-- C100: if the reductors move along with their alternatives, parsers without conflicts return the same
result on every input of terminals; only the lists of expected tokens may differ. -/
theorem C100_agree [Nonempty M] {k k' : Method} {dbg dbg' : Bool} {D D' : Decls T} {S eof : T}
    {t t' : Tabler T} {π : T → Nat → Nat} (h : Reordered π D D')
    (ht : Makes k dbg D S eof t) (ht' : Makes k' dbg' D' S eof t') (hk : k = .lalr → Propagated t)
    (hk' : k' = .lalr → Propagated t') (hc : t.conflicts = []) (hc' : t'.conflicts = [])
    (hS : InNoBody D S) (h1 : SingleStart D S) (he : Terminal D eof) (hb : InNoBody D eof)
    (hpr : AllProductive D) {maps maps' : ReductMap M T}
    (hm : ∀ A i b, IsProd D A i b → redOf maps' A (π A i) = redOf maps A i)
    {toks : List (Token M T)} (hT : TerminalToks D toks) (hred : Evaluates D maps toks) :
    ∃ r r', Parses t maps toks r ∧ Parses t' maps' toks r' ∧ SameResult r r' := by
  have hS' := (h.inNoBody S).mpr hS
  have h1' := h.single h1
  have he' := (h.terminal eof).mpr he
  have hb' := (h.inNoBody eof).mpr hb
  have hpr' := h.allProductive.mpr hpr
  have hT' : TerminalToks D' toks := fun tk hm => (h.terminal _).mpr (hT tk hm)
  have hred' := h.evaluates hm hred
  have hsen : ∀ w, Sentence D' S w → Sentence D S w := fun w => (h.sentence w).mp
  have hfw : ∀ {u x}, FirstWrong D' S eof toks u x → FirstWrong D S eof toks u x := by
    intro u x hw
    simpa only [FirstWrong, ViablePrefix, MayFollow, h.sentence] using hw
  obtain ⟨r, hr⟩ := (C27_conflict_free_returns ht hk hc he hpr hT).2 hred
  obtain ⟨r', hr'⟩ := (C27_conflict_free_returns ht' hk' hc' he' hpr' hT').2 hred'
  refine ⟨r, r', hr, hr', ?_⟩
  have key : ∀ {k : Method} {dbg : Bool} {D : Decls T} {t : Tabler T} {maps : ReductMap M T},
      Makes k dbg D S eof t → t.conflicts = [] → Terminal D eof → InNoBody D eof → TerminalToks D toks →
      Evaluates D maps toks → ∀ {r}, Parses t maps toks r →
      (∃ v, r = .ok v) ∨ (∃ x e, r = .error (.unexpectedToken x e)) ∨ r = .error .incompleteExec := by
    intro k dbg D t maps ht hc he hb hT hred r hr
    match r, hr with
    | .ok v, _ => exact Or.inl ⟨v, rfl⟩
    | .error (.unexpectedToken x e), _ => exact Or.inr (Or.inl ⟨x, e, rfl⟩)
    | .error .incompleteExec, _ => exact Or.inr (Or.inr rfl)
    | .error .unexpectedEof, h => exact absurd h (C29_unexpected_eof ht he hb hT)
    | .error (.conflict a b), h => exact absurd h (not_conflict ht hc he hT)
    | .error .missingPreviousState, h => exact absurd h (C26_no_panic ht he hred hT).2.1
    | .error .stateNotSpecified, h => exact absurd h (C26_no_panic ht he hred hT).2.2
  rcases key ht hc he hb hT hred hr with ⟨v, rfl⟩ | ⟨x, e, rfl⟩ | rfl <;>
    rcases key ht' hc' he' hb' hT' hred' hr' with ⟨v', rfl⟩ | ⟨x', e', rfl⟩ | rfl
  · obtain ⟨cs, last, a1, a2, a3⟩ := C24_value ht hS he hr
    obtain ⟨cs', last', b1, b2, b3⟩ := C24_value ht' hS' he' hr'
    have a1' := h.valid a1
    have := C25_unambiguous ht' hk' hc' hS' h1' he' a1' b1 (by rw [Reordered.root_reorder]; rfl) rfl
      (by rw [Reordered.yield_reorder]; simp [a2, b2])
    rw [Tree.reorder, Reordered.reorders_eq] at this
    simp only [Tree.node.injEq, true_and, List.map_append, List.map_cons, List.map_nil] at this
    have hl := (List.append_inj' this.2 rfl).2
    simp only [List.cons.injEq, and_true] at hl
    subst hl
    cases a1 with
    | node _ hv =>
      rw [Reordered.eval_reorder hm (hv last (by simp)), a3] at b3
      exact Option.some.inj b3
  · obtain ⟨u, hu⟩ := C30_first_wrong ht' hk' hS' h1' he' hpr' hT' hr'
    exact (firstWrong_sentence (hfw hu) (sentence_of_ok ht hS he hr)).elim
  · obtain ⟨u, tok, rest, e, h2, _⟩ := C87_incomplete ht' hS' he' hT' hr'
    exact absurd hr (C29_eof_token ht hS he hb (by rw [e]; simp) h2 v)
  · obtain ⟨u, hu⟩ := C30_first_wrong ht hk hS h1 he hpr hT hr
    exact (firstWrong_sentence hu (hsen _ (sentence_of_ok ht' hS' he' hr'))).elim
  · obtain ⟨u, hu⟩ := C30_first_wrong ht hk hS h1 he hpr hT hr
    obtain ⟨u', hu'⟩ := C30_first_wrong ht' hk' hS' h1' he' hpr' hT' hr'
    exact (firstWrong_unique hu (hfw hu')).2
  · obtain ⟨u, hu⟩ := C30_first_wrong ht hk hS h1 he hpr hT hr
    obtain ⟨w, tok, rest, e, h2, h3⟩ := C87_incomplete ht' hS' he' hT' hr'
    exact (firstWrong_incomplete ht.start he hb hu e h2 (hsen _ h3)).elim
  · obtain ⟨u, tok, rest, e, h2, _⟩ := C87_incomplete ht hS he hT hr
    exact absurd hr' (C29_eof_token ht' hS' he' hb' (by rw [e]; simp) h2 v')
  · obtain ⟨u, hu⟩ := C30_first_wrong ht' hk' hS' h1' he' hpr' hT' hr'
    obtain ⟨w, tok, rest, e, h2, h3⟩ := C87_incomplete ht hS he hT hr
    exact (firstWrong_incomplete ht.start he hb (hfw hu) e h2 h3).elim
  · rfl

/-- The expression grammar with the alternatives of each rule, and the rules, the other way round. -/
def exprBack : Decls Nat :=
  [(3, [[14], [12, 1, 13]]), (2, [[3], [2, 11, 3]]), (1, [[2], [1, 10, 2]]), (0, [[1]])]

/-- Where the alternatives are then. -/
def backwards (A i : Nat) : Nat := if A = 0 then i else 1 - i

theorem exprBack_reordered : Reordered backwards Samples.expr exprBack := by
  have nd : (exprBack.map Prod.fst).Nodup := by decide
  have nd' : (Samples.expr.map Prod.fst).Nodup := by decide
  refine ⟨?_, ?_, ?_⟩
  · intro A
    constructor
    · rintro ⟨d, hd, rfl⟩
      revert d
      unfold Nonterminal
      decide
    · rintro ⟨d, hd, rfl⟩
      revert d
      unfold Nonterminal
      decide
  · intro A j b
    constructor
    · intro hp
      obtain ⟨d, h1, rfl, h3⟩ := Samples.mem_of_isProd hp
      have hj := (List.getElem?_eq_some_iff.mp h3).1
      simp only [exprBack, List.mem_cons, List.not_mem_nil, or_false] at h1
      rcases h1 with rfl | rfl | rfl | rfl <;> simp only [List.length_cons, List.length_nil] at hj
      · obtain rfl | rfl : j = 0 ∨ j = 1 := by omega
        · exact ⟨1, rfl, isProd_of_mem nd' (bs := [[12, 1, 13], [14]]) (by decide) h3⟩
        · exact ⟨0, rfl, isProd_of_mem nd' (bs := [[12, 1, 13], [14]]) (by decide) h3⟩
      · obtain rfl | rfl : j = 0 ∨ j = 1 := by omega
        · exact ⟨1, rfl, isProd_of_mem nd' (bs := [[2, 11, 3], [3]]) (by decide) h3⟩
        · exact ⟨0, rfl, isProd_of_mem nd' (bs := [[2, 11, 3], [3]]) (by decide) h3⟩
      · obtain rfl | rfl : j = 0 ∨ j = 1 := by omega
        · exact ⟨1, rfl, isProd_of_mem nd' (bs := [[1, 10, 2], [2]]) (by decide) h3⟩
        · exact ⟨0, rfl, isProd_of_mem nd' (bs := [[1, 10, 2], [2]]) (by decide) h3⟩
      · obtain rfl : j = 0 := by omega
        exact ⟨0, rfl, isProd_of_mem nd' (bs := [[1]]) (by decide) h3⟩
    · rintro ⟨i, rfl, hp⟩
      obtain ⟨d, h1, rfl, h3⟩ := Samples.mem_of_isProd hp
      have hj := (List.getElem?_eq_some_iff.mp h3).1
      simp only [Samples.expr, List.mem_cons, List.not_mem_nil, or_false] at h1
      rcases h1 with rfl | rfl | rfl | rfl <;> simp only [List.length_cons, List.length_nil] at hj
      · obtain rfl : i = 0 := by omega
        exact isProd_of_mem nd (bs := [[1]]) (by decide) h3
      · obtain rfl | rfl : i = 0 ∨ i = 1 := by omega
        · exact isProd_of_mem nd (bs := [[2], [1, 10, 2]]) (by decide) h3
        · exact isProd_of_mem nd (bs := [[2], [1, 10, 2]]) (by decide) h3
      · obtain rfl | rfl : i = 0 ∨ i = 1 := by omega
        · exact isProd_of_mem nd (bs := [[3], [2, 11, 3]]) (by decide) h3
        · exact isProd_of_mem nd (bs := [[3], [2, 11, 3]]) (by decide) h3
      · obtain rfl | rfl : i = 0 ∨ i = 1 := by omega
        · exact isProd_of_mem nd (bs := [[14], [12, 1, 13]]) (by decide) h3
        · exact isProd_of_mem nd (bs := [[14], [12, 1, 13]]) (by decide) h3
  · intro A i j b c hi hj e
    obtain ⟨d, h1, rfl, h3⟩ := Samples.mem_of_isProd hi
    obtain ⟨d', h1', h2', h3'⟩ := Samples.mem_of_isProd hj
    have hi' := (List.getElem?_eq_some_iff.mp h3).1
    have hj' := (List.getElem?_eq_some_iff.mp h3').1
    have hl : ∀ d ∈ Samples.expr, d.2.length ≤ 2 := by decide
    have := hl d h1
    have := hl d' h1'
    unfold backwards at e
    split at e <;> omega

theorem exprBack_shuffled : Shuffled Samples.expr exprBack := by
  refine ⟨?_, fun A => (exprBack_reordered.names A).mp⟩
  rintro A bs ⟨pre, post, e, hn⟩
  have hm : (A, bs) ∈ Samples.expr := by rw [e]; simp
  simp only [Samples.expr, List.mem_cons, List.not_mem_nil, or_false, Prod.mk.injEq] at hm
  rcases hm with ⟨rfl, rfl⟩ | ⟨rfl, rfl⟩ | ⟨rfl, rfl⟩ | ⟨rfl, rfl⟩
  · exact ⟨[[1]], ⟨exprBack.take 3, [], rfl, by simp⟩, .refl _⟩
  · exact ⟨[[2], [1, 10, 2]], ⟨exprBack.take 2, [(0, [[1]])], rfl, by simp⟩, .swap _ _ _⟩
  · exact ⟨[[3], [2, 11, 3]], ⟨exprBack.take 1, [(1, [[2], [1, 10, 2]]), (0, [[1]])], rfl, by simp⟩, .swap _ _ _⟩
  · exact ⟨[[14], [12, 1, 13]], ⟨[], _, rfl, by simp⟩, .swap _ _ _⟩

/-- The reductors that evaluate expressions, moved along. -/
def exprBackReds : ReductMap Nat Nat := exprReds.map (fun e => (e.1, e.2.reverse))

theorem exprBackReds_moved (A i : Nat) (b : List Nat) (hp : IsProd Samples.expr A i b) :
    redOf exprBackReds A (backwards A i) = redOf exprReds A i := by
  obtain ⟨d, h1, rfl, h3⟩ := Samples.mem_of_isProd hp
  have hj := (List.getElem?_eq_some_iff.mp h3).1
  simp only [Samples.expr, List.mem_cons, List.not_mem_nil, or_false] at h1
  rcases h1 with rfl | rfl | rfl | rfl <;> simp only [List.length_cons, List.length_nil] at hj
  · obtain rfl : i = 0 := by omega
    rfl
  all_goals
    obtain rfl | rfl : i = 0 ∨ i = 1 := by omega
    · rfl
    · rfl

/-- Not vacuous: the Slr parser of the expression grammar and the Clr parser of the grammar written the other
way round, on every input of terminals, evaluating it. -/
example : ∃ t', Makes .clr true exprBack 0 99 t' ∧ ∀ toks : List (Token Nat Nat), TerminalToks Samples.expr toks →
    ∃ r r', Parses exprSlr exprReds toks r ∧ Parses t' exprBackReds toks r' ∧ SameResult r r' := by
  obtain ⟨t', ht'⟩ := (C100_makes (k := .clr) exprBack_shuffled expr_single).mp ⟨_, makes_exprClr⟩
  have hc' := (C100_clr exprBack_shuffled makes_exprClr ht' expr_eof expr_single expr_productive).mp exprClr_ok.2.2
  exact ⟨t', ht', fun toks hT => C100_agree exprBack_reordered makes_exprSlr ht' (by simp) (by simp)
    exprSlr_ok.2.2 hc' expr_start expr_single expr_eof expr_eof_nowhere expr_productive exprBackReds_moved hT
    (exprReds_reductors.evaluates toks)⟩

end Lrp.Props
