import Verif.Proofs.Wrap
import Verif.Props.Folding
import Verif.Props.Knuth
import Verif.Props.WopBuild

/-!
C94 — any rule can be made the start: give the grammar one more rule `S' → S`.
-/

set_option linter.unusedSectionVars false

namespace Lrp.Props
open Spec
set_option maxRecDepth 100000

variable {T : Type} [LinOrd T] [DecidableEq T] {M : Type}

/-- C94: after wrapping, a parser can be made in debug builds exactly if no production is empty and folding
leaves nothing of the two graphs of C79; how many alternatives `S` has and where it occurs does not matter. -/
theorem C94_makes (k : Method) {D : Decls T} {S' S eof : T} (hf : Fresh D S') (hne : S' ≠ S) (he : Terminal D eof)
    (he' : eof ≠ S') :
    (∃ t, Makes k true (Wrapped D S' S) S' eof t) ↔
      NoEmpty D ∧ FoldsAway (Loopless (LeftGraph D)) ∧ FoldsAway (Loopless (RightGraph D)) := by
  obtain ⟨g, hg⟩ := (grammar_new_iff (dbg := true) (D := Wrapped D S' S) (S := S') (eof := eof)).mpr
    ⟨[S], (isProd_wrapped hf).mpr (Or.inl ⟨rfl, rfl, rfl⟩), fun _ => singleStart_wrapped hf⟩
  have heW : Terminal (Wrapped D S' S) eof := terminal_wrapped.mpr ⟨he', he⟩
  rw [← noEmpty_wrapped (S := S) hf, ← leftGraph_wrapped hf hne, ← rightGraph_wrapped hf hne]
  constructor
  · rintro ⟨t, ht⟩
    have hn := ht.noEmpty
    obtain ⟨g', hg', n, hb⟩ := ht
    cases hg.symm.trans hg'
    exact ⟨hn, (C79_debug_iff hg hn heW).mp ((build_returns_iff hg).mp ⟨t, n, hb⟩)⟩
  · rintro ⟨hn, h⟩
    obtain ⟨t, ht⟩ := (build_returns_iff (k := k) hg).mpr ((C79_debug_iff hg hn heW).mpr h)
    exact ⟨t, g, hg, ht⟩

/-- C94: in release builds the same suffices. -/
theorem C94_makes_release (k : Method) {D : Decls T} {S' S eof : T} (hf : Fresh D S') (hne : S' ≠ S)
    (he : Terminal D eof) (he' : eof ≠ S') (hn : NoEmpty D) (hl : FoldsAway (Loopless (LeftGraph D)))
    (hr : FoldsAway (Loopless (RightGraph D))) : ∃ t, Makes k false (Wrapped D S' S) S' eof t := by
  obtain ⟨g, hg⟩ := (grammar_new_iff (dbg := false) (D := Wrapped D S' S) (S := S') (eof := eof)).mpr
    ⟨[S], (isProd_wrapped hf).mpr (Or.inl ⟨rfl, rfl, rfl⟩), fun _ => singleStart_wrapped hf⟩
  have heW : Terminal (Wrapped D S' S) eof := terminal_wrapped.mpr ⟨he', he⟩
  obtain ⟨t, ht⟩ := (build_returns_iff (k := k) hg).mpr (C06_terminates_partial false hg
    ((noEmpty_wrapped hf).mpr hn) heW ((leftGraph_wrapped hf hne).mpr hl) ((rightGraph_wrapped hf hne).mpr hr))
  exact ⟨t, g, hg, ht⟩

/-- C94: whatever a parser of the wrapped grammar accepts is a sentence of the old one. -/
theorem C94_sound {k : Method} {dbg : Bool} {D : Decls T} {S' S eof : T} {t : Tabler T}
    (ht : Makes k dbg (Wrapped D S' S) S' eof t) (hf : Fresh D S') (hne : S' ≠ S) (he : Terminal D eof)
    (he' : eof ≠ S') {toks : List (Token Unit T)} (h : Validates t toks true) :
    Sentence D S (toks.map Token.ty) :=
  (sentence_wrapped hf hne).mp
    (sound_sentence ht (inNoBody_wrapped hf hne) (terminal_wrapped.mpr ⟨he', he⟩) (validates_true.mp h))

/-- C94: without conflicts it accepts exactly the sentences of the old one. -/
theorem C94_exact {k : Method} {dbg : Bool} {D : Decls T} {S' S eof : T} {t : Tabler T}
    (ht : Makes k dbg (Wrapped D S' S) S' eof t) (hk : k = .lalr → Propagated t) (hc : t.conflicts = [])
    (hf : Fresh D S') (hne : S' ≠ S) (he : Terminal D eof) (he' : eof ≠ S') {toks : List (Token Unit T)} :
    Validates t toks true ↔ Sentence D S (toks.map Token.ty) :=
  ⟨C94_sound ht hf hne he he', fun h => complete_validates ht hk hc (inNoBody_wrapped hf hne)
    (singleStart_wrapped hf) (terminal_wrapped.mpr ⟨he', he⟩) ((sentence_wrapped hf hne).mpr h)⟩

theorem valid_unwrapped {D : Decls T} {S' S : T} (hf : Fresh D S') {tr : Tree M T}
    (h : Tree.Valid (Wrapped D S' S) tr) (hr : tr.root ≠ S') : Tree.Valid D tr := by
  induction h with
  | leaf ht => exact .leaf (terminal_wrapped.mp ht).2
  | @node A k cs hp _ ih =>
    have hp := ((isProd_wrapped hf).mp hp).resolve_left (fun h => hr h.1)
    refine .node hp fun c hc => ih c hc fun e => ?_
    exact hf.2 _ _ _ hp (List.mem_map.mpr ⟨c, hc, e⟩)

/-- C94: the parsed value is the value of a parse tree of the old grammar with root `S`; no reductor of the
new rule is called. -/
theorem C94_value {k : Method} {dbg : Bool} {D : Decls T} {S' S eof : T} {t : Tabler T}
    (ht : Makes k dbg (Wrapped D S' S) S' eof t) (hf : Fresh D S') (hne : S' ≠ S) (he : Terminal D eof)
    (he' : eof ≠ S') {maps : ReductMap M T} {toks : List (Token M T)} {v : M} (h : Parses t maps toks (.ok v)) :
    ∃ tr, Tree.Valid D tr ∧ tr.root = S ∧ tr.yield = toks ∧ tr.eval (redOf maps) = some v := by
  obtain ⟨tr, h1, h2, h3, h4⟩ := C24_value_single ht (inNoBody_wrapped hf hne) (terminal_wrapped.mpr ⟨he', he⟩)
    ((isProd_wrapped hf).mpr (Or.inl ⟨rfl, rfl, rfl⟩)) h
  exact ⟨tr, valid_unwrapped hf h1 (by rw [h2]; exact hne.symm), h2, h3, h4⟩

/-- C94: the Clr table of the wrapped grammar has no conflicts exactly if the old grammar is LR(1) and its
start symbol does not derive itself. -/
theorem C94_clr {dbg : Bool} {D : Decls T} {S' S eof : T} {t : Tabler T}
    (ht : Makes .clr dbg (Wrapped D S' S) S' eof t) (hf : Fresh D S') (hne : S' ≠ S) (he : Terminal D eof)
    (he' : eof ≠ S') (heb : InNoBody D eof) (hS : Nonterminal D S) (hpr : AllProductive D) :
    t.conflicts = [] ↔ LR1 D S eof ∧ ¬ SelfDeriving D S := by
  have hprW : AllProductive (Wrapped D S' S) := by
    have key : ∀ A, Nonterminal D A → Productive (Wrapped D S' S) A := by
      intro A hA
      obtain ⟨w, h1, h2⟩ := hpr A hA
      refine ⟨w, derives_wrapped hf h1, fun x hx => terminal_wrapped.mpr ⟨?_, h2 x hx⟩⟩
      rintro rfl
      rcases derives_from h1 hx with h | ⟨B, i, b, hp, h⟩
      · obtain ⟨d, hd, e⟩ := hA
        exact hf.1 d hd (e.trans (List.mem_singleton.mp h).symm)
      · exact hf.2 B i b hp h
    intro A hA
    rcases nonterminal_wrapped.mp hA with rfl | hA
    · obtain ⟨w, h1, h2⟩ := key S hS
      exact ⟨w, .head (Step.mk [] [] ((isProd_wrapped hf).mpr (Or.inl ⟨rfl, rfl, rfl⟩))) h1, h2⟩
    · exact key A hA
  have heS : eof ≠ S := by
    rintro rfl
    exact not_terminal_iff.mpr hS he
  rw [C63_clr_iff ht (terminal_wrapped.mpr ⟨he', he⟩) (singleStart_wrapped hf) hprW,
    lr1_wrapped hf hne ((noEmpty_wrapped hf).mp ht.noEmpty) heb heS]

/-! ### Examples -/

/-- One rule, with three alternatives, in which it occurs itself: S → S x | y | z S w. -/
def alone : Decls Nat := [(5, [[5, 10], [11], [12, 5, 13]])]

theorem alone_fresh : Fresh alone 0 := by
  refine ⟨by unfold Terminal; decide, ?_⟩
  intro A i b hp
  obtain ⟨d, h1, h2, h3⟩ := Samples.mem_of_isProd hp
  have : ∀ d ∈ alone, ∀ b ∈ d.2, 0 ∉ b := by decide
  exact this d h1 b (List.mem_of_getElem? h3)

/-- In debug builds `alone` cannot be given to `Grammar::new` as it is. -/
example : Grammar.new true 5 (grammarMap alone) 99 = .panic .dbgManyEntries := by decide +kernel

/-- Wrapped, its Slr table has no conflicts; the parser rejects `z y` and accepts `z y x w`. -/
theorem alone_wrapped : ∃ t, Makes .slr true (Wrapped alone 0 5) 0 99 t ∧ t.conflicts = [] ∧
    Validates t (Samples.toks [12, 11]) false ∧ Validates t (Samples.toks [12, 11, 10, 13]) true := by
  have hg : Grammar.new true 0 (grammarMap (Wrapped alone 0 5)) 99 =
    .ok (Samples.grammar (Wrapped alone 0 5)) := by decide +kernel
  have h : ∃ t, Slr.new true 500 (Samples.grammar (Wrapped alone 0 5)) = .ok t ∧ t.conflicts = [] ∧
      Parser.validate t 50 (Samples.toks [12, 11]) = .ok false ∧
      Parser.validate t 50 (Samples.toks [12, 11, 10, 13]) = .ok true := by
    refine ⟨_, rfl, ?_⟩
    decide +kernel
  obtain ⟨t, h1, h2, h3, h4⟩ := h
  exact ⟨t, ⟨_, hg, 500, h1⟩, h2, ⟨50, h3⟩, ⟨50, h4⟩⟩

/-- So `C94_exact` applies: `z y x w` is a sentence of `alone`. -/
example : Sentence alone 5 [12, 11, 10, 13] := by
  obtain ⟨t, ht, hc, _, h⟩ := alone_wrapped
  exact (C94_exact ht (by simp) hc alone_fresh (by decide) (by unfold Terminal; decide) (by decide)).mp h

/-- And `C94_makes`: what it asks for holds of `alone`. -/
example : NoEmpty alone ∧ FoldsAway (Loopless (LeftGraph alone)) ∧ FoldsAway (Loopless (RightGraph alone)) := by
  obtain ⟨t, ht, _⟩ := alone_wrapped
  exact (C94_makes .slr alone_fresh (by decide) (by unfold Terminal; decide) (by decide)).mp ⟨t, ht⟩

/-- The grammar `alone` with its rule as the start, in release builds. -/
def aloneGrammar : Grammar Nat :=
  match Grammar.new false 5 (grammarMap alone) 99 with
  | .ok g => g
  | _ => Samples.grammar alone

/-- Without wrapping, release builds take the rule as the start, and neither the Slr nor the Clr table has
conflicts; but the Slr parser accepts `z y`, which is no sentence, and the Clr parser rejects `y`, which is. -/
theorem C94_needs_wrapping :
    (∃ t, Makes .slr false alone 5 99 t ∧ t.conflicts = [] ∧ Validates t (Samples.toks [12, 11]) true) ∧
    ¬ Sentence alone 5 [12, 11] ∧
    (∃ t, Makes .clr false alone 5 99 t ∧ t.conflicts = [] ∧ Validates t (Samples.toks [11]) false) ∧
    Sentence alone 5 [11] := by
  have hg : Grammar.new false 5 (grammarMap alone) 99 = .ok aloneGrammar := by decide +kernel
  have h1 : ∃ t, Slr.new false 500 aloneGrammar = .ok t ∧ t.conflicts = [] ∧
      Parser.validate t 50 (Samples.toks [12, 11]) = .ok true := by
    refine ⟨_, rfl, ?_⟩
    decide +kernel
  have h2 : ∃ t, Clr.new false 500 aloneGrammar = .ok t ∧ t.conflicts = [] ∧
      Parser.validate t 50 (Samples.toks [11]) = .ok false := by
    refine ⟨_, rfl, ?_⟩
    decide +kernel
  obtain ⟨t1, a1, b1, c1⟩ := h1
  obtain ⟨t2, a2, b2, c2⟩ := h2
  obtain ⟨t, ht, hc, k1, k2⟩ := alone_wrapped
  have hex : ∀ {toks : List (Token Unit Nat)}, Validates t toks true ↔ Sentence alone 5 (toks.map Token.ty) :=
    C94_exact ht (by simp) hc alone_fresh (by decide) (by unfold Terminal; decide) (by decide)
  refine ⟨⟨t1, ⟨_, hg, 500, a1⟩, b1, 50, c1⟩, fun hs => ?_, ⟨t2, ⟨_, hg, 500, a2⟩, b2, 50, c2⟩, ?_, ?_⟩
  · have h := hex (toks := Samples.toks [12, 11]).mpr hs
    cases k1.unique h
  · exact .head (Step.mk [] [] (i := 1) (body := [11]) ⟨_, ⟨[], [], rfl, by simp⟩, rfl⟩) (.refl [11])
  · unfold Terminal; decide

end Lrp.Props
