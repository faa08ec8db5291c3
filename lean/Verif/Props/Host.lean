import Verif.Proofs.HostLang
import Verif.Proofs.HostSlr
import Verif.Props.Sequence

/-!
C111 — one language inside another: two grammars with different rule names, the inner one between brackets used in
neither as a further alternative of a rule of the outer one.
-/

set_option linter.unusedSectionVars false

namespace Lrp.Props
open Spec
set_option maxRecDepth 100000

variable {T : Type} [LinOrd T] [DecidableEq T] {M : Type}

/-- C111: the outer grammar with the inner one between the brackets is LR(1) if both are. -/
theorem C111_lr1 {D E : Decls T} {S A o R c eof : T} (hap : Separate D E) (hN : NewBrackets D E o c eof)
    (hS : Nonterminal D S) (hA : Nonterminal D A) (hR : Nonterminal E R) (hb : InNoBody D S) (hbR : InNoBody E R)
    (hn : NoEmpty D) (hnE : NoEmpty E) (hpr : AllProductive D) (hprE : AllProductive E) (hD : LR1 D S eof)
    (hE : LR1 E R eof) : LR1 (Hosting D E A o R c) S eof :=
  lr1_hosting
    { apart := hap, bD := hb, bE := hbR, nD := hn, nE := hnE, prD := hpr, prE := hprE, oD := hN.openOuter
      oE := hN.openInner, cD := hN.closeOuter, cE := hN.closeInner, ne := hN.different, eD := hN.endOuter
      eE := hN.endInner, eo := hN.endOpen, ec := hN.endClose, S := hS, A := hA, R := hR } hD hE

theorem makes_iff_folds (k : Method) {D : Decls T} {S eof : T} (he : Terminal D eof) :
    (∃ t, Makes k true D S eof t) ↔
      ((∃ b, IsProd D S 0 b) ∧ SingleStart D S) ∧ NoEmpty D ∧ FoldsAway (Loopless (LeftGraph D)) ∧
        FoldsAway (Loopless (RightGraph D)) := by
  constructor
  · rintro ⟨t, ht⟩
    have hn := ht.noEmpty
    obtain ⟨g, hg, n, hb⟩ := ht
    obtain ⟨b, h1, h2⟩ := grammar_new_iff.mp ⟨g, hg⟩
    exact ⟨⟨⟨b, h1⟩, h2 rfl⟩, hn, (C79_debug_iff hg hn he).mp ((build_returns_iff hg).mp ⟨t, n, hb⟩)⟩
  · rintro ⟨⟨⟨b, h1⟩, h2⟩, hn, h⟩
    obtain ⟨g, hg⟩ := (grammar_new_iff (dbg := true) (D := D) (S := S) (eof := eof)).mpr ⟨b, h1, fun _ => h2⟩
    obtain ⟨t, ht⟩ := (build_returns_iff (k := k) hg).mpr ((C79_debug_iff hg hn he).mpr h)
    exact ⟨t, g, hg, ht⟩

theorem single_both {D E : Decls T} {S : T} (hap : Separate D E) (hS : Nonterminal D S) :
    SingleStart (D ++ E) S ↔ SingleStart D S := by
  have key : ∀ {i : Nat} {b : List T}, IsProd (D ++ E) S i b ↔ IsProd D S i b := by
    intro i b
    rw [isProd_both hap]
    exact ⟨fun h => h.resolve_right fun h => not_terminal_iff.mpr hS (hap.1 S h.nonterminal).1, .inl⟩
  unfold SingleStart
  simp only [key]

/-- C111: in debug builds a parser can be made exactly if one can be made for the outer grammar, no production of the
inner one is empty and folding leaves nothing of its two graphs (C79). -/
theorem C111_makes (k : Method) {D E : Decls T} {S A o R c eof : T} (hap : Separate D E)
    (hN : NewBrackets D E o c eof) (hS : Nonterminal D S) (hAS : A ≠ S) :
    (∃ t, Makes k true (Hosting D E A o R c) S eof t) ↔ (∃ t, Makes k true D S eof t) ∧
      NoEmpty E ∧ FoldsAway (Loopless (LeftGraph E)) ∧ FoldsAway (Loopless (RightGraph E)) := by
  have h0 : ∀ {b : List T}, IsProd (D ++ E) S 0 b ↔ IsProd D S 0 b := by
    intro b
    rw [isProd_both hap]
    exact ⟨fun h => h.resolve_right fun h => not_terminal_iff.mpr hS (hap.1 S h.nonterminal).1, .inl⟩
  unfold Hosting
  rw [C96_makes k (terminal_both.mpr ⟨hN.endOuter.1, hN.endInner.1⟩) hAS
      (terminal_both.mpr ⟨hN.openOuter.1, hN.openInner.1⟩) (terminal_both.mpr ⟨hN.closeOuter.1, hN.closeInner.1⟩),
    makes_iff_folds k (terminal_both.mpr ⟨hN.endOuter.1, hN.endInner.1⟩), makes_iff_folds k hN.endOuter.1,
    noEmpty_both hap, foldsAway_left hap, foldsAway_right hap, single_both hap hS]
  simp only [h0]
  constructor
  · rintro ⟨h1, ⟨h2, h3⟩, ⟨h4, h5⟩, h6, h7⟩; exact ⟨⟨h1, h2, h4, h6⟩, h3, h5, h7⟩
  · rintro ⟨⟨h1, h2, h4, h6⟩, h3, h5, h7⟩; exact ⟨h1, ⟨h2, h3⟩, ⟨h4, h5⟩, h6, h7⟩

theorem inNoBody_hosting {D E : Decls T} {S A o R c eof : T} (hap : Separate D E) (hN : NewBrackets D E o c eof)
    (hS : Nonterminal D S) (hR : Nonterminal E R) (hb : InNoBody D S) : InNoBody (Hosting D E A o R c) S := by
  have hSE := hap.2 S hS
  intro X i b hp
  rcases isProd_withAlt.mp hp with hp | ⟨_, rfl, _⟩
  · rcases (isProd_both hap).mp hp with hp | hp
    · exact hb X i b hp
    · exact hSE.2 X i b hp
  · have h1 : S ≠ o := by rintro rfl; exact not_terminal_iff.mpr hS hN.openOuter.1
    have h2 : S ≠ c := by rintro rfl; exact not_terminal_iff.mpr hS hN.closeOuter.1
    have h3 : S ≠ R := by rintro rfl; exact not_terminal_iff.mpr hR hSE.1
    simp [h1, h2, h3]

/-- C111: whichever methods made the tables, if they have no conflicts then the parser of the whole accepts exactly
the texts that come from one accepted by the parser of the outer grammar with the alternative `A → k` by putting a
text accepted by the inner parser, between the brackets, for each `k`. -/
theorem C111_exact {m m' m'' : Method} {dbg dbg' dbg'' : Bool} {D E : Decls T} {S A o R c k eof : T}
    {t tE t' : Tabler T} (ht : Makes m dbg (WithAlt D A [k]) S eof t) (hm : m = .lalr → Propagated t)
    (hno : t.conflicts = []) (htE : Makes m' dbg' E R eof tE) (hm' : m' = .lalr → Propagated tE)
    (hnoE : tE.conflicts = []) (ht' : Makes m'' dbg'' (Hosting D E A o R c) S eof t')
    (hm'' : m'' = .lalr → Propagated t') (hno' : t'.conflicts = []) (hap : Separate D E)
    (hN : NewBrackets D E o c eof) (hk : Fresh D k) (hA : Nonterminal D A) (hAS : A ≠ S) (hb : InNoBody D S)
    (h1 : SingleStart D S) (hbR : InNoBody E R) (h1R : SingleStart E R) {toks : List (Token Unit T)} :
    Validates t' toks true ↔ ∃ u : List (Token Unit T), Validates t u true ∧
      Filled (fun v => Validates tE v true) ⟨(), k⟩ ⟨(), o⟩ ⟨(), c⟩ u toks := by
  have hS : Nonterminal D S := nonterminal_withAlt.mp ht.start
  have hR := htE.start
  have hSk : S ≠ k := by rintro rfl; exact not_terminal_iff.mpr hS hk.1
  have q : HostLang D E S A o R c k :=
    { apart := hap, kD := hk, oD := hN.openOuter.1, oE := hN.openInner.1, cD := hN.closeOuter.1
      cE := hN.closeInner.1, S := hS, A := hA, R := hR }
  have hbk : InNoBody (WithAlt D A [k]) S := by
    intro X i b hp
    rcases isProd_withAlt.mp hp with hp | ⟨_, rfl, _⟩
    · exact hb X i b hp
    · simpa using hSk
  have hbH := inNoBody_hosting (A := A) hap hN hS hR hb
  have h1H : SingleStart (Hosting D E A o R c) S := (singleStart_withAlt hAS).mpr ((single_both hap hS).mpr h1)
  have heH : Terminal (Hosting D E A o R c) eof :=
    terminal_withAlt.mpr (terminal_both.mpr ⟨hN.endOuter.1, hN.endInner.1⟩)
  have hek : Terminal (WithAlt D A [k]) eof := terminal_withAlt.mpr hN.endOuter.1
  have v1 : ∀ {p : List (Token Unit T)}, Validates t p true ↔ Sentence (WithAlt D A [k]) S (p.map Token.ty) := fun {p} =>
    ⟨fun h => sound_sentence ht hbk hek (validates_true.mp h),
      complete_validates ht hm hno hbk ((singleStart_withAlt hAS).mpr h1) hek⟩
  have v2 : ∀ {p : List (Token Unit T)}, Validates tE p true ↔ Sentence E R (p.map Token.ty) := fun {p} =>
    ⟨fun h => sound_sentence htE hbR hN.endInner.1 (validates_true.mp h),
      complete_validates htE hm' hnoE hbR h1R hN.endInner.1⟩
  have v3 : ∀ {p : List (Token Unit T)}, Validates t' p true ↔ Sentence (Hosting D E A o R c) S (p.map Token.ty) :=
    fun {p} => ⟨fun h => sound_sentence ht' hbH heH (validates_true.mp h), complete_validates ht' hm'' hno' hbH h1H heH⟩
  have id1 : ∀ {p : List (Token Unit T)}, (p.map Token.ty).map (fun x => (⟨(), x⟩ : Token Unit T)) = p := by
    intro p
    rw [List.map_map]
    exact (List.map_congr_left fun a _ => rfl).trans (List.map_id p)
  have id2 : ∀ {p : List T}, (p.map fun x => (⟨(), x⟩ : Token Unit T)).map Token.ty = p := by
    intro p
    rw [List.map_map]
    exact (List.map_congr_left fun a _ => rfl).trans (List.map_id p)
  rw [v3, q.sentence]
  constructor
  · rintro ⟨u, h2, h3⟩
    refine ⟨u.map fun x => ⟨(), x⟩, v1.mpr (by rw [id2]; exact h2), ?_⟩
    have := Filled.map (f := fun x => (⟨(), x⟩ : Token Unit T)) (fun a b e => (Token.mk.inj e).2)
      (inner' := fun v => Validates tE v true) (fun v hv => v2.mpr (by rw [id2]; exact hv)) h3
    rwa [id1] at this
  · rintro ⟨u, h2, h3⟩
    refine ⟨u.map Token.ty, v1.mp h2, ?_⟩
    exact Filled.map (f := fun x : Token Unit T => x.ty) (fun a b e => by cases a; cases b; simpa using e)
      (inner' := Sentence E R) (fun v hv => v2.mp hv) h3

theorem allProductive_both {D E : Decls T} (hap : Separate D E) (hpr : AllProductive D) (hprE : AllProductive E) :
    AllProductive (D ++ E) := by
  intro X hX
  rcases nonterminal_both.mp hX with hX | hX
  · obtain ⟨w, h2, h3⟩ := hpr X hX
    refine ⟨w, fewer_derives (f := fun _ i => i) (fun _ _ _ hp => (isProd_both hap).mpr (.inl hp)) h2, fun x hx =>
      terminal_both.mpr ⟨h3 x hx, Classical.byContradiction fun hn => ?_⟩⟩
    have hf := hap.1 x (not_terminal_iff.mp hn)
    rcases derives_from h2 hx with h | ⟨B, i, b, hp, h⟩
    · exact not_terminal_iff.mpr hX (List.mem_singleton.mp h ▸ hf.1)
    · exact hf.2 B i b hp h
  · obtain ⟨w, h2, h3⟩ := hprE X hX
    refine ⟨w, fewer_derives (f := fun _ i => i) (fun _ _ _ hp => (isProd_both hap).mpr (.inr hp)) h2, fun x hx =>
      terminal_both.mpr ⟨Classical.byContradiction fun hn => ?_, h3 x hx⟩⟩
    have hf := hap.2 x (not_terminal_iff.mp hn)
    rcases derives_from h2 hx with h | ⟨B, i, b, hp, h⟩
    · exact not_terminal_iff.mpr hX (List.mem_singleton.mp h ▸ hf.1)
    · exact hf.2 B i b hp h

/-- C111: in debug builds, if some table of each grammar has no conflicts, then the Clr table of the whole can be
made and has none; so can the one of the outer grammar with `A → k`; and the parser of the whole accepts exactly the
texts of the latter with texts accepted by the inner parser, between the brackets, for each `k`. -/
theorem C111_parses {m m' : Method} {D E : Decls T} {S A o R c k eof : T} {t tE : Tabler T}
    (ht : Makes m true D S eof t) (hm : m = .lalr → Propagated t) (hno : t.conflicts = [])
    (htE : Makes m' true E R eof tE) (hm' : m' = .lalr → Propagated tE) (hnoE : tE.conflicts = [])
    (hap : Separate D E) (hN : NewBrackets D E o c eof) (hk : Fresh D k) (hek : eof ≠ k) (hA : Nonterminal D A)
    (hAS : A ≠ S) (hb : InNoBody D S) (hbR : InNoBody E R) (hpr : AllProductive D) (hprE : AllProductive E) :
    ∃ tk t', Makes .clr true (WithAlt D A [k]) S eof tk ∧ tk.conflicts = [] ∧
      Makes .clr true (Hosting D E A o R c) S eof t' ∧ t'.conflicts = [] ∧
      ∀ toks : List (Token Unit T), Validates t' toks true ↔ ∃ u : List (Token Unit T), Validates tk u true ∧
        Filled (fun v => Validates tE v true) ⟨(), k⟩ ⟨(), o⟩ ⟨(), c⟩ u toks := by
  have hS := ht.start
  have hR := htE.start
  have hn := ht.noEmpty
  have hnE := htE.noEmpty
  have hSk : S ≠ k := by rintro rfl; exact not_terminal_iff.mpr hS hk.1
  have h1 : SingleStart D S := by
    obtain ⟨g, hg, _⟩ := id ht
    exact single_start_debug hg
  have h1R : SingleStart E R := by
    obtain ⟨g, hg, _⟩ := id htE
    exact single_start_debug hg
  have hlr := C63_lr1 ht hm hN.endOuter.1 h1 hno
  have hlrE := C63_lr1 htE hm' hN.endInner.1 h1R hnoE
  have mD := (makes_iff_folds m hN.endOuter.1).mp ⟨t, ht⟩
  have mE := (makes_iff_folds m' hN.endInner.1).mp ⟨tE, htE⟩
  obtain ⟨t', ht'⟩ := (C111_makes .clr (A := A) (R := R) hap hN hS hAS).mpr
    ⟨(makes_iff_folds .clr hN.endOuter.1).mpr mD, mE.2⟩
  have hl : Loopless (LeftGraph (WithAlt D A [k])) = Loopless (LeftGraph D) := by
    funext X Y; unfold Loopless; rw [leftGraph_withAlt hk.1]
  have hr : Loopless (RightGraph (WithAlt D A [k])) = Loopless (RightGraph D) := by
    funext X Y; unfold Loopless; rw [show [k] = [] ++ [k] from rfl, rightGraph_withAlt hk.1]
  obtain ⟨tk, htk⟩ := (makes_iff_folds .clr (D := WithAlt D A [k]) (S := S) (terminal_withAlt.mpr hN.endOuter.1)).mpr (by
    rw [hl, hr, singleStart_withAlt hAS, noEmpty_withAlt (by simp)]
    obtain ⟨⟨⟨b, h2⟩, h3⟩, h4⟩ := mD
    exact ⟨⟨⟨b, isProd_withAlt.mpr (.inl h2)⟩, h3⟩, h4⟩)
  have hck : tk.conflicts = [] := C63_no_conflicts htk (terminal_withAlt.mpr hN.endOuter.1) (allProductive_withAlt hpr)
    (lr1_fresh hn hk hSk hek hA (hpr A hA) hlr)
  have hprB := allProductive_both hap hpr hprE
  have hc' : t'.conflicts = [] := C63_no_conflicts ht'
    (terminal_withAlt.mpr (terminal_both.mpr ⟨hN.endOuter.1, hN.endInner.1⟩)) (allProductive_withAlt hprB)
    (C111_lr1 hap hN hS hA hR hb hbR hn hnE hpr hprE hlr hlrE)
  exact ⟨tk, t', htk, hck, ht', hc', fun _ => C111_exact htk (by simp) hck htE hm' hnoE ht' (by simp) hc' hap hN hk hA hAS
    hb h1 hbR h1R⟩

/-- C111: the outer grammar with the inner one between the brackets is SLR(1) if both are, and LR(1) (as they are if a
table of them has no conflicts). -/
theorem C111_slr1 {D E : Decls T} {S A o R c eof : T} (hap : Separate D E) (hN : NewBrackets D E o c eof)
    (hS : Nonterminal D S) (hA : Nonterminal D A) (hR : Nonterminal E R) (hb : InNoBody D S) (hbR : InNoBody E R)
    (hn : NoEmpty D) (hnE : NoEmpty E) (hpr : AllProductive D) (hprE : AllProductive E) (hD : LR1 D S eof)
    (hE : LR1 E R eof) (sD : SLR1 D S eof) (sE : SLR1 E R eof) : SLR1 (Hosting D E A o R c) S eof :=
  slr1_hosting
    { apart := hap, bD := hb, bE := hbR, nD := hn, nE := hnE, prD := hpr, prE := hprE, oD := hN.openOuter
      oE := hN.openInner, cD := hN.closeOuter, cE := hN.closeInner, ne := hN.different, eD := hN.endOuter
      eE := hN.endInner, eo := hN.endOpen, ec := hN.endClose, S := hS, A := hA, R := hR } hD hE sD sE

/-- C111 for Slr: if the Slr tables of both grammars have no conflicts and in both all rules can be reached, then in
debug builds the Slr table of the whole can be made and has none. -/
theorem C111_slr {D E : Decls T} {S A o R c eof : T} {t tE : Tabler T} (ht : Makes .slr true D S eof t)
    (hno : t.conflicts = []) (htE : Makes .slr true E R eof tE) (hnoE : tE.conflicts = []) (hap : Separate D E)
    (hN : NewBrackets D E o c eof) (hA : Nonterminal D A) (hAS : A ≠ S) (hb : InNoBody D S) (hbR : InNoBody E R)
    (hpr : AllProductive D) (hprE : AllProductive E) (hall : ∀ X, Nonterminal D X → Reachable D S X)
    (hallE : ∀ X, Nonterminal E X → Reachable E R X) :
    ∃ t', Makes .slr true (Hosting D E A o R c) S eof t' ∧ t'.conflicts = [] := by
  have hS := ht.start
  have hR := htE.start
  have h1 : SingleStart D S := by
    obtain ⟨g, hg, _⟩ := id ht
    exact single_start_debug hg
  have h1R : SingleStart E R := by
    obtain ⟨g, hg, _⟩ := id htE
    exact single_start_debug hg
  have heD := hN.endOuter.1
  have heE := hN.endInner.1
  obtain ⟨t', ht'⟩ := (C111_makes .slr (A := A) (R := R) hap hN hS hAS).mpr
    ⟨⟨t, ht⟩, ((makes_iff_folds .slr heE).mp ⟨tE, htE⟩).2⟩
  have upD : ∀ {a b : List T}, Derives D a b → Derives (Hosting D E A o R c) a b := fun h =>
    fewer_derives (f := fun _ i => i) (fun _ _ _ hp => isProd_withAlt.mpr (.inl ((isProd_both hap).mpr (.inl hp)))) h
  have upE : ∀ {a b : List T}, Derives E a b → Derives (Hosting D E A o R c) a b := fun h =>
    fewer_derives (f := fun _ i => i) (fun _ _ _ hp => isProd_withAlt.mpr (.inl ((isProd_both hap).mpr (.inr hp)))) h
  refine ⟨t', ht', C64_no_conflicts ht' (terminal_withAlt.mpr (terminal_both.mpr ⟨heD, heE⟩))
    (allProductive_withAlt (allProductive_both hap hpr hprE)) ?_ (.inl rfl)
    (C111_slr1 hap hN hS hA hR hb hbR ht.noEmpty htE.noEmpty hpr hprE (C63_lr1 ht (by simp) heD h1 hno)
      (C63_lr1 htE (by simp) heE h1R hnoE) (C64_slr1 ht heD h1 hno) (C64_slr1 htE heE h1R hnoE))⟩
  intro X hX
  rcases nonterminal_both.mp (nonterminal_withAlt.mp hX) with hX | hX
  · obtain ⟨u, v, h⟩ := hall X hX
    exact ⟨u, v, upD h⟩
  · obtain ⟨u, v, h⟩ := hall A hA
    obtain ⟨u', v', h'⟩ := hallE X hX
    have q : HostLang D E S A o R c o :=
      { apart := hap, kD := hN.openOuter, oD := hN.openOuter.1, oE := hN.openInner.1, cD := hN.closeOuter.1
        cE := hN.closeInner.1, S := hS, A := hA, R := hR }
    obtain ⟨j, hj⟩ := q.newProd
    refine ⟨u ++ [o] ++ u', v' ++ [c] ++ v, (upD h).trans (.head (Step.mk u v hj) ?_)⟩
    have := (upE h').ctx (u ++ [o]) ([c] ++ v)
    simpa using this

/-- C111 for Lalr: then so has its Lalr table. -/
theorem C111_lalr {D E : Decls T} {S A o R c eof : T} {t tE : Tabler T} (ht : Makes .slr true D S eof t)
    (hno : t.conflicts = []) (htE : Makes .slr true E R eof tE) (hnoE : tE.conflicts = []) (hap : Separate D E)
    (hN : NewBrackets D E o c eof) (hA : Nonterminal D A) (hAS : A ≠ S) (hb : InNoBody D S) (hbR : InNoBody E R)
    (hpr : AllProductive D) (hprE : AllProductive E) (hall : ∀ X, Nonterminal D X → Reachable D S X)
    (hallE : ∀ X, Nonterminal E X → Reachable E R X) :
    ∃ t', Makes .lalr true (Hosting D E A o R c) S eof t' ∧ t'.conflicts = [] := by
  obtain ⟨t1, h1, h2⟩ := C111_slr ht hno htE hnoE hap hN hA hAS hb hbR hpr hprE hall hallE
  have he : Terminal (Hosting D E A o R c) eof :=
    terminal_withAlt.mpr (terminal_both.mpr ⟨hN.endOuter.1, hN.endInner.1⟩)
  obtain ⟨t2, h3⟩ := (makes_iff_folds .lalr he).mpr ((makes_iff_folds .slr he).mp ⟨t1, h1⟩)
  exact ⟨t2, h3, C36_slr_weakest h1 h3 (.inr rfl) he (.inl rfl) h2⟩

/-! ### Examples -/

/-- `pointers` with other rule names: S → L = R | R, L → * R | id, R → L. -/
def pointersInner : Decls Nat := [(40, [[41]]), (41, [[42, 10, 43], [43]]), (42, [[11, 43], [12]]), (43, [[42]])]

theorem separate_sums : Separate unbracketed pointersInner := by
  constructor
  · rintro A ⟨d, hd, rfl⟩
    simp only [pointersInner, List.mem_cons, List.not_mem_nil, or_false] at hd
    rcases hd with rfl | rfl | rfl | rfl <;> exact fresh_of (by decide) (by decide)
  · rintro A ⟨d, hd, rfl⟩
    simp only [unbracketed, List.mem_cons, List.not_mem_nil, or_false] at hd
    rcases hd with rfl | rfl | rfl | rfl <;> exact fresh_of (by decide) (by decide)

theorem brackets_sums : NewBrackets unbracketed pointersInner 60 61 99 :=
  ⟨fresh_of (by decide) (by decide), fresh_of (by decide) (by decide), fresh_of (by decide) (by decide),
    fresh_of (by decide) (by decide), by decide, fresh_of (by decide) (by decide), fresh_of (by decide) (by decide),
    by decide, by decide⟩

/-- The inner grammar. -/
def pointersInnerGrammar : Grammar Nat :=
  match Grammar.new true 40 (grammarMap pointersInner) 99 with
  | .ok g => g
  | _ => Samples.grammar []

/-- Not vacuous: sums of products of numbers with assignments `L = R` between brackets (60, 61) as factors. Both
grammars use the tokens 10 and 11, as `+` and `*` outside and as `=` and `*` inside. The open bracket itself marks the
holes. -/
theorem sums_host : ∃ tE tk t', Makes .clr true pointersInner 40 99 tE ∧
    Makes .clr true (WithAlt unbracketed 3 [60]) 0 99 tk ∧
    Makes .clr true (Hosting unbracketed pointersInner 3 60 40 61) 0 99 t' ∧ t'.conflicts = [] ∧
    ∀ toks : List (Token Unit Nat), Validates t' toks true ↔ ∃ u : List (Token Unit Nat), Validates tk u true ∧
      Filled (fun v => Validates tE v true) ⟨(), 60⟩ ⟨(), 60⟩ ⟨(), 61⟩ u toks := by
  have hg : Grammar.new true 0 (grammarMap unbracketed) 99 = .ok (Samples.grammar unbracketed) := by decide +kernel
  have hg' : Grammar.new true 40 (grammarMap pointersInner) 99 = .ok pointersInnerGrammar := by decide +kernel
  have h : ∃ t, Slr.new true 500 (Samples.grammar unbracketed) = .ok t ∧ t.conflicts = [] := by
    refine ⟨_, rfl, ?_⟩
    decide +kernel
  have h' : ∃ t, Clr.new true 500 pointersInnerGrammar = .ok t ∧ t.conflicts = [] := by
    refine ⟨_, rfl, ?_⟩
    decide +kernel
  obtain ⟨t, h1, h2⟩ := h
  obtain ⟨tE, h3, h4⟩ := h'
  obtain ⟨tk, t', k1, _, k3, k4, k5⟩ := C111_parses (m := .slr) (m' := .clr) (A := 3) (k := 60) ⟨_, hg, 500, h1⟩ (by simp) h2
    ⟨_, hg', 500, h3⟩ (by simp) h4 separate_sums brackets_sums brackets_sums.openOuter (by decide)
    ⟨(3, [[14]]), by decide, rfl⟩ (by decide) (Samples.inNoBody (by decide)) (Samples.inNoBody (by decide))
    (allProductive [(3, 0), (2, 1), (1, 1), (0, 0)] (by decide) (by decide +kernel) (by decide))
    (allProductive [(42, 1), (43, 0), (41, 1), (40, 0)] (by decide) (by decide +kernel) (by decide))
  exact ⟨tE, tk, t', ⟨_, hg', 500, h3⟩, k1, k3, k4, k5⟩

/-- Lists: R → L, L → L , n | n. -/
def listsInner : Decls Nat := [(40, [[41]]), (41, [[41, 15, 14], [14]])]

/-- Its grammar. -/
def listsInnerGrammar : Grammar Nat :=
  match Grammar.new true 40 (grammarMap listsInner) 99 with
  | .ok g => g
  | _ => Samples.grammar []

/-- Not vacuous for Slr: lists between brackets as factors. -/
example : ∃ t', Makes .slr true (Hosting unbracketed listsInner 3 60 40 61) 0 99 t' ∧ t'.conflicts = [] := by
  have hg : Grammar.new true 0 (grammarMap unbracketed) 99 = .ok (Samples.grammar unbracketed) := by decide +kernel
  have hg' : Grammar.new true 40 (grammarMap listsInner) 99 = .ok listsInnerGrammar := by decide +kernel
  have h : ∃ t, Slr.new true 500 (Samples.grammar unbracketed) = .ok t ∧ t.conflicts = [] := by
    refine ⟨_, rfl, ?_⟩
    decide +kernel
  have h' : ∃ t, Slr.new true 500 listsInnerGrammar = .ok t ∧ t.conflicts = [] := by
    refine ⟨_, rfl, ?_⟩
    decide +kernel
  obtain ⟨t, h1, h2⟩ := h
  obtain ⟨tE, h3, h4⟩ := h'
  have r1 : Derives unbracketed [0] [1] :=
    .head (Step.mk [] [] (A := 0) (i := 0) (body := [1]) ⟨_, ⟨[], _, rfl, by decide⟩, rfl⟩) (.refl _)
  have r2 : Derives unbracketed [0] [2] := r1.trans
    (.head (Step.mk [] [] (A := 1) (i := 1) (body := [2]) ⟨_, ⟨[(0, [[1]])], _, rfl, by decide⟩, rfl⟩) (.refl _))
  have r3 : Derives unbracketed [0] [3] := r2.trans
    (.head (Step.mk [] [] (A := 2) (i := 1) (body := [3])
      ⟨_, ⟨[(0, [[1]]), (1, [[1, 10, 2], [2]])], _, rfl, by decide⟩, rfl⟩) (.refl _))
  refine C111_slr (A := 3) (o := 60) (R := 40) (c := 61) ⟨_, hg, 500, h1⟩ h2 ⟨_, hg', 500, h3⟩ h4 ⟨?_, ?_⟩
    ⟨fresh_of (by decide) (by decide), fresh_of (by decide) (by decide), fresh_of (by decide) (by decide),
      fresh_of (by decide) (by decide), by decide, fresh_of (by decide) (by decide), fresh_of (by decide) (by decide),
      by decide, by decide⟩ ⟨(3, [[14]]), by decide, rfl⟩ (by decide) (Samples.inNoBody (by decide))
    (Samples.inNoBody (by decide))
    (allProductive [(3, 0), (2, 1), (1, 1), (0, 0)] (by decide) (by decide +kernel) (by decide))
    (allProductive [(41, 1), (40, 0)] (by decide) (by decide +kernel) (by decide)) ?_ ?_
  · rintro A ⟨d, hd, rfl⟩
    simp only [listsInner, List.mem_cons, List.not_mem_nil, or_false] at hd
    rcases hd with rfl | rfl <;> exact fresh_of (by decide) (by decide)
  · rintro A ⟨d, hd, rfl⟩
    simp only [unbracketed, List.mem_cons, List.not_mem_nil, or_false] at hd
    rcases hd with rfl | rfl | rfl | rfl <;> exact fresh_of (by decide) (by decide)
  · rintro X ⟨d, hd, rfl⟩
    simp only [unbracketed, List.mem_cons, List.not_mem_nil, or_false] at hd
    rcases hd with rfl | rfl | rfl | rfl
    · exact ⟨[], [], .refl _⟩
    · exact ⟨[], [], r1⟩
    · exact ⟨[], [], r2⟩
    · exact ⟨[], [], r3⟩
  · rintro X ⟨d, hd, rfl⟩
    simp only [listsInner, List.mem_cons, List.not_mem_nil, or_false] at hd
    rcases hd with rfl | rfl
    · exact ⟨[], [], .refl _⟩
    · exact ⟨[], [], .head (Step.mk [] [] (A := 40) (i := 0) (body := [41]) ⟨_, ⟨[], _, rfl, by decide⟩, rfl⟩) (.refl _)⟩

/-- And a text: `n + [* id = id] * n`. -/
example : Filled (fun v => v = [11, 12, 10, 12]) 60 60 61 [14, 10, 60, 11, 14]
    [14, 10, 60, 11, 12, 10, 12, 61, 11, 14] :=
  .keep (by decide) (.keep (by decide) (.hole (v := [11, 12, 10, 12]) rfl (.keep (by decide) (.keep (by decide) .nil))))

/-- S → x | p x z. -/
def usedOuter : Decls Nat := [(0, [[1]]), (1, [[14], [60, 14, 61]])]

/-- S → x. -/
def plainInner : Decls Nat := [(40, [[41]]), (41, [[14]])]

/-- The brackets have to be used in neither grammar: with S → p R z, where R derives x, there are two parses of
`p x z`. -/
theorem C111_needs_new : ∃ t t', Separate usedOuter plainInner ∧ Makes .clr true usedOuter 0 99 t ∧ t.conflicts = [] ∧
    Makes .clr true (Hosting usedOuter plainInner 1 60 40 61) 0 99 t' ∧ t'.conflicts ≠ [] := by
  have hg : Grammar.new true 0 (grammarMap usedOuter) 99 = .ok (Samples.grammar usedOuter) := by decide +kernel
  have hg' : Grammar.new true 0 (grammarMap (Hosting usedOuter plainInner 1 60 40 61)) 99 =
    .ok (Samples.grammar (Hosting usedOuter plainInner 1 60 40 61)) := by decide +kernel
  have h : ∃ t, Clr.new true 500 (Samples.grammar usedOuter) = .ok t ∧ t.conflicts = [] := by
    refine ⟨_, rfl, ?_⟩
    decide +kernel
  have h' : ∃ t, Clr.new true 500 (Samples.grammar (Hosting usedOuter plainInner 1 60 40 61)) = .ok t ∧
      t.conflicts ≠ [] := by
    refine ⟨_, rfl, ?_⟩
    decide +kernel
  obtain ⟨t, h1, h2⟩ := h
  obtain ⟨t', h3, h4⟩ := h'
  refine ⟨t, t', ⟨?_, ?_⟩, ⟨_, hg, 500, h1⟩, h2, ⟨_, hg', 500, h3⟩, h4⟩
  · rintro A ⟨d, hd, rfl⟩
    simp only [plainInner, List.mem_cons, List.not_mem_nil, or_false] at hd
    rcases hd with rfl | rfl <;> exact fresh_of (by decide) (by decide)
  · rintro A ⟨d, hd, rfl⟩
    simp only [usedOuter, List.mem_cons, List.not_mem_nil, or_false] at hd
    rcases hd with rfl | rfl <;> exact fresh_of (by decide) (by decide)

end Lrp.Props
