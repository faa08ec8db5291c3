import Verif.Proofs.Refine
import Verif.Props.Choice

/-!
C113 — a token of a grammar split into several.
-/

set_option linter.unusedSectionVars false

namespace Lrp.Props
open Spec
set_option maxRecDepth 100000

variable {T : Type} [LinOrd T] [DecidableEq T] {M : Type}

/-- C113: in debug builds a table can be made exactly if one can be made of the old grammar. -/
theorem C113_makes (k : Method) {D : Decls T} {x S eof : T} {ys : List T} (hN : NewTokens D x ys)
    (hS : Nonterminal D S) (he : Terminal D eof) (hx : eof ≠ x) :
    (∃ t, Makes k true (Refined D x ys) S eof t) ↔ ∃ t, Makes k true D S eof t := by
  rw [makes_iff_folds k he, makes_iff_folds k (NewTokens.terminal.mpr ⟨hx, he⟩), hN.singleStart hS, hN.noEmpty,
    hN.foldsLeft, hN.foldsRight]
  refine and_congr_left fun _ => and_congr_left fun _ => exists_congr fun b => ?_
  rw [hN.isProd]
  exact or_iff_right fun h => not_terminal_iff.mpr hS (h.1 ▸ hN.token)

/-- C113: splitting a token keeps a grammar LR(1). -/
theorem C113_lr1 {D : Decls T} {x S eof : T} {ys : List T} (hN : NewTokens D x ys) (hS : Nonterminal D S)
    (he : eof ∉ ys) (hD : LR1 D S eof) : LR1 (Refined D x ys) S eof := hN.lr1 hS he hD

/-- C113: if the two tables have no conflicts, the new parser accepts a text exactly if the old one accepts it with
`x` for each of the new tokens, and the text does not contain `x`. -/
theorem C113_exact {m m' : Method} {dbg dbg' : Bool} {D : Decls T} {x S eof : T} {ys : List T} {t t' : Tabler T}
    (ht : Makes m dbg D S eof t) (hm : m = .lalr → Propagated t) (hno : t.conflicts = [])
    (ht' : Makes m' dbg' (Refined D x ys) S eof t') (hm' : m' = .lalr → Propagated t') (hno' : t'.conflicts = [])
    (hN : NewTokens D x ys) (he : Terminal D eof) (hx : eof ≠ x) (hb : InNoBody D S) (h1 : SingleStart D S)
    {toks : List (Token Unit T)} :
    Validates t' toks true ↔ (∀ tok ∈ toks, tok.ty ≠ x) ∧ Validates t (toks.map (coarseTok x ys)) true := by
  have hS := ht.start
  have he' : Terminal (Refined D x ys) eof := NewTokens.terminal.mpr ⟨hx, he⟩
  have e : (toks.map (coarseTok x ys)).map Token.ty = (toks.map Token.ty).map (coarse x ys) := by
    simp [coarseTok]
  have e2 : x ∉ toks.map Token.ty ↔ ∀ tok ∈ toks, tok.ty ≠ x := by
    simp only [List.mem_map, not_exists, not_and]
  have a1 : Validates t' toks true ↔ Sentence (Refined D x ys) S (toks.map Token.ty) :=
    ⟨fun h => sound_sentence ht' (hN.inNoBody hS hb) he' (validates_true.mp h),
      complete_validates ht' hm' hno' (hN.inNoBody hS hb) ((hN.singleStart hS).mpr h1) he'⟩
  have a2 : Validates t (toks.map (coarseTok x ys)) true ↔ Sentence D S ((toks.map Token.ty).map (coarse x ys)) := by
    rw [← e]
    exact ⟨fun h => sound_sentence ht hb he (validates_true.mp h), complete_validates ht hm hno hb h1 he⟩
  rw [a1, a2, hN.sentence hS, e2]

/-- C113: so a parser without conflicts stays one when a token is split. -/
theorem C113_parses {m : Method} {D : Decls T} {x S eof : T} {ys : List T} {t : Tabler T}
    (ht : Makes m true D S eof t) (hm : m = .lalr → Propagated t) (hno : t.conflicts = []) (hN : NewTokens D x ys)
    (hne : ys ≠ []) (he : Terminal D eof) (hx : eof ≠ x) (hy : eof ∉ ys) (hb : InNoBody D S) (hpr : AllProductive D) :
    ∃ t', Makes .clr true (Refined D x ys) S eof t' ∧ t'.conflicts = [] ∧
      ∀ toks : List (Token Unit T), Validates t' toks true ↔
        (∀ tok ∈ toks, tok.ty ≠ x) ∧ Validates t (toks.map (coarseTok x ys)) true := by
  have hS := ht.start
  have h1 : SingleStart D S := by
    obtain ⟨g, hg, _⟩ := id ht
    exact single_start_debug hg
  obtain ⟨t1, ht1⟩ := (makes_iff_folds .clr he).mpr ((makes_iff_folds m he).mp ⟨t, ht⟩)
  obtain ⟨t', ht'⟩ := (C113_makes .clr hN hS he hx).mpr ⟨t1, ht1⟩
  have hno' := C63_no_conflicts ht' (NewTokens.terminal.mpr ⟨hx, he⟩) (hN.allProductive hne hpr)
    (hN.lr1 hS hy (C63_lr1 ht hm he h1 hno))
  exact ⟨t', ht', hno', fun _ => C113_exact ht hm hno ht' (by simp) hno' hN he hx hb h1⟩

/-- C113: splitting a token keeps a grammar SLR(1). -/
theorem C113_slr1 {D : Decls T} {x S eof : T} {ys : List T} (hN : NewTokens D x ys) (hS : Nonterminal D S)
    (he : eof ∉ ys) (hD : SLR1 D S eof) : SLR1 (Refined D x ys) S eof := hN.slr1 hS he hD

/-- C113 for Slr: if the Slr table has no conflicts and all rules and the token can be reached, the Slr table has none
after splitting. -/
theorem C113_slr {D : Decls T} {x S eof : T} {ys : List T} {t : Tabler T}
    (ht : Makes .slr true D S eof t) (hno : t.conflicts = []) (hN : NewTokens D x ys) (hne : ys ≠ []) (he : Terminal D eof)
    (hx : eof ≠ x) (hy : eof ∉ ys) (hpr : AllProductive D) (hall : ∀ X, Nonterminal D X → Reachable D S X)
    (hxr : Reachable D S x) : ∃ t', Makes .slr true (Refined D x ys) S eof t' ∧ t'.conflicts = [] := by
  have hS := ht.start
  have h1 : SingleStart D S := by
    obtain ⟨g, hg, _⟩ := id ht
    exact single_start_debug hg
  obtain ⟨t', ht'⟩ := (C113_makes .slr hN hS he hx).mpr ⟨t, ht⟩
  refine ⟨t', ht', C64_no_conflicts ht' (NewTokens.terminal.mpr ⟨hx, he⟩) (hN.allProductive hne hpr) ?_ (.inl rfl)
    (hN.slr1 hS hy (C64_slr1 ht he h1 hno))⟩
  intro X hX
  rcases NewTokens.nonterminal.mp hX with rfl | hX
  · obtain ⟨u, v, h⟩ := hxr
    exact ⟨u, v, hN.up h⟩
  · obtain ⟨u, v, h⟩ := hall X hX
    exact ⟨u, v, hN.up h⟩

/-- C113 for Lalr: then so has the Lalr table. -/
theorem C113_lalr {D : Decls T} {x S eof : T} {ys : List T} {t : Tabler T}
    (ht : Makes .slr true D S eof t) (hno : t.conflicts = []) (hN : NewTokens D x ys) (hne : ys ≠ []) (he : Terminal D eof)
    (hx : eof ≠ x) (hy : eof ∉ ys) (hpr : AllProductive D) (hall : ∀ X, Nonterminal D X → Reachable D S X)
    (hxr : Reachable D S x) : ∃ t', Makes .lalr true (Refined D x ys) S eof t' ∧ t'.conflicts = [] := by
  obtain ⟨t1, h1, h2⟩ := C113_slr ht hno hN hne he hx hy hpr hall hxr
  have he' : Terminal (Refined D x ys) eof := NewTokens.terminal.mpr ⟨hx, he⟩
  obtain ⟨t2, h3⟩ := (makes_iff_folds .lalr he').mpr ((makes_iff_folds .slr he').mp ⟨t1, h1⟩)
  exact ⟨t2, h3, C36_slr_weakest h1 h3 (.inr rfl) he' (.inl rfl) h2⟩

/-- C113: splitting a token keeps a grammar LALR(1). -/
theorem C113_lalr1 {D : Decls T} {x S eof : T} {ys : List T} (hN : NewTokens D x ys) (hS : Nonterminal D S)
    (hne : ys ≠ []) (he : eof ∉ ys) (hD : LALR1 D S eof) : LALR1 (Refined D x ys) S eof := hN.lalr1 hS hne he hD

/-- C113 for Lalr: if lookaheads are passed on in the Lalr table and it has no conflicts, then a Lalr table made after
splitting has none in which no state can be mistaken for a successor of another one. -/
theorem C113_unmixed {dbg : Bool} {D : Decls T} {x S eof : T} {ys : List T} {t t' : Tabler T}
    (ht : Makes .lalr true D S eof t) (hp : Propagated t) (hno : t.conflicts = [])
    (ht' : Makes .lalr dbg (Refined D x ys) S eof t') (hu : Unmixed t') (hN : NewTokens D x ys) (hne : ys ≠ [])
    (he : Terminal D eof) (hx : eof ≠ x) (hy : eof ∉ ys) (hpr : AllProductive D) : t'.conflicts = [] := by
  have hS := ht.start
  have h1 : SingleStart D S := by
    obtain ⟨g, hg, _⟩ := id ht
    exact single_start_debug hg
  exact C69_no_conflicts_partial ht' hu (NewTokens.terminal.mpr ⟨hx, he⟩) ((hN.singleStart hS).mpr h1)
    (hN.allProductive hne hpr) (hN.lalr1 hS hne hy (C69_lalr1_partial ht hp he h1 hpr hno))

theorem parses_not_panics {t : Tabler T} {maps : ReductMap M T} {toks : List (Token M T)} {r : Except (Error T) M}
    {p : Panic} (h : Parses t maps toks r) (hp : Panics (fun n => Parser.parse t n toks maps) p) : False := by
  obtain ⟨n, h⟩ := h
  obtain ⟨k, hp⟩ := hp
  simp only at h hp
  rcases Nat.le_total n k with hl | hl
  · have := Parser.parse_le hl t toks maps
    rw [h, hp] at this
    rcases this with h | h <;> cases h
  · have := Parser.parse_le hl t toks maps
    rw [h, hp] at this
    rcases this with h | h <;> cases h

/-- C113: if the reductors of `x` pass their item on, the new parser gives a value exactly if the old one gives it to
the text with `x` for each of the new tokens. -/
theorem C113_value {m m' : Method} {dbg dbg' : Bool} {D : Decls T} {x S eof : T} {ys : List T} {t t' : Tabler T}
    (ht : Makes m dbg D S eof t) (hm : m = .lalr → Propagated t) (hno : t.conflicts = [])
    (ht' : Makes m' dbg' (Refined D x ys) S eof t') (hm' : m' = .lalr → Propagated t') (hno' : t'.conflicts = [])
    (hN : NewTokens D x ys) (he : Terminal D eof) (hx : eof ≠ x) (hb : InNoBody D S) (h1 : SingleStart D S)
    {maps : ReductMap M T} (hr : ∀ i y v, ys[i]? = some y → redOf maps x i [⟨v, y⟩] = some v)
    {toks : List (Token M T)} {v : M} :
    Parses t' maps toks (.ok v) ↔ (∀ tok ∈ toks, tok.ty ≠ x) ∧ Parses t maps (toks.map (coarseTok x ys)) (.ok v) := by
  have hS := ht.start
  have he' : Terminal (Refined D x ys) eof := NewTokens.terminal.mpr ⟨hx, he⟩
  have hb' := hN.inNoBody hS hb
  have key : ∀ {cs : List (Tree M T)} {last}, Tree.Valid (Refined D x ys) (.node S 0 (cs ++ [last])) →
      Tree.yields (cs ++ [last]) = toks → ∃ cs' last', Tree.Valid D (.node S 0 (cs' ++ [last'])) ∧
        Tree.yields (cs' ++ [last']) = toks.map (coarseTok x ys) ∧
        (cs' ++ [last']).map (Tree.eval (redOf maps)) = (cs ++ [last]).map (Tree.eval (redOf maps)) ∧
        last'.eval (redOf maps) = last.eval (redOf maps) := by
    intro cs last hv hy
    obtain ⟨ds, k1, k2⟩ := hN.coarser_root hS hr hv
    obtain ⟨_, k3, k4, _, k5⟩ := k2.facts
    have hne : ds ≠ [] := by rintro rfl; simp at k3
    obtain ⟨cs', last', rfl⟩ : ∃ cs' last', ds = cs' ++ [last'] := ⟨_, _, (List.dropLast_concat_getLast hne).symm⟩
    refine ⟨cs', last', k1, by rw [k4, hy], k5, ?_⟩
    simp only [List.map_append, List.map_cons, List.map_nil] at k5
    simpa using (List.append_inj' k5 rfl).2
  have none_iff : ∀ {cs cs' : List (Tree M T)}, cs'.map (Tree.eval (redOf maps)) = cs.map (Tree.eval (redOf maps)) →
      (∃ tr ∈ cs', tr.eval (redOf maps) = none) → ∃ tr ∈ cs, tr.eval (redOf maps) = none := by
    rintro cs cs' e ⟨tr, h2, h3⟩
    have : none ∈ cs'.map (Tree.eval (redOf maps)) := List.mem_map.mpr ⟨tr, h2, h3⟩
    rw [e] at this
    exact List.mem_map.mp this
  constructor
  · intro h
    refine ⟨fun tok ht e => ?_, ?_⟩
    · exact (NewTokens.terminal.mp ((sound_sentence ht' hb' he' h).2 _ (List.mem_map.mpr ⟨tok, ht, rfl⟩))).1 e
    · obtain ⟨cs, last, k1, k2, k3⟩ := sound ht' hb' he' h
      obtain ⟨cs', last', l1, l2, l3, l4⟩ := key k1 k2
      rcases accepts_tree (maps := maps) ht hm hno hb he l1 with ⟨_, v', h2, h3⟩ | ⟨h2, _⟩
      · rw [l4, k3] at h2
        rw [l2, ← Option.some.inj h2] at h3
        exact h3
      · obtain ⟨p, hp⟩ := C25_panics ht' hm' hno' hb' he' (none_iff l3 h2) k1
        rw [k2] at hp
        exact (parses_not_panics h hp).elim
  · rintro ⟨hn, h⟩
    have hs : Sentence (Refined D x ys) S (toks.map Token.ty) := by
      refine (hN.sentence hS).mpr ⟨?_, ?_⟩
      · intro h
        obtain ⟨tok, h2, h3⟩ := List.mem_map.mp h
        exact hn tok h2 h3
      · have := sound_sentence ht hb he h
        rw [List.map_map] at this ⊢
        exact this
    obtain ⟨ds, k1, k2⟩ := sentence_tree (NewTokens.nonterminal.mpr (.inr hS)) ((hN.singleStart hS).mpr h1) hs
    have hne : ds ≠ [] := by
      rintro rfl
      cases k1 with
      | node hp _ => exact hN.noEmpty.mpr ht.noEmpty _ _ _ hp rfl
    obtain ⟨cs, last, rfl⟩ : ∃ cs' last', ds = cs' ++ [last'] := ⟨_, _, (List.dropLast_concat_getLast hne).symm⟩
    obtain ⟨cs', last', l1, l2, l3, l4⟩ := key k1 k2
    obtain ⟨es, last'', m1, m2, m3⟩ := sound ht hb he h
    have e := C25_unambiguous ht hm hno hb h1 he m1 l1 rfl rfl (by simp [Tree.yield_node, m2, l2])
    simp only [Tree.node.injEq, true_and] at e
    have el := (List.append_inj' e rfl).2
    simp only [List.cons.injEq, and_true] at el
    rcases accepts_tree (maps := maps) ht' hm' hno' hb' he' k1 with ⟨_, v', h2, h3⟩ | ⟨h2, _⟩
    · rw [← l4, ← el, m3] at h2
      rw [k2, ← Option.some.inj h2] at h3
      exact h3
    · obtain ⟨p, hp⟩ := C25_panics ht hm hno hb he (none_iff l3.symm h2) l1
      rw [l2] at hp
      exact (parses_not_panics h hp).elim

/-! ### Examples -/

/-- The number token 14 split into whole numbers 70 and decimals 71. -/
theorem newTokens_sums : NewTokens unbracketed 14 [70, 71] where
  token := by unfold Terminal; decide
  fresh := by
    intro y hy
    simp at hy
    rcases hy with rfl | rfl
    · exact ⟨by unfold Terminal; decide, Samples.inNoBody (by decide)⟩
    · exact ⟨by unfold Terminal; decide, Samples.inNoBody (by decide)⟩
  apart := by decide
  nodup := by decide

/-- Not vacuous: sums of products of numbers of two kinds. -/
theorem sums_refined : ∃ t t', Makes .slr true unbracketed 0 99 t ∧
    Makes .clr true (Refined unbracketed 14 [70, 71]) 0 99 t' ∧ t'.conflicts = [] ∧
    Validates t' (Samples.toks [70, 10, 71, 11, 70]) true ∧ ¬ Validates t' (Samples.toks [70, 10, 14]) true := by
  have hg : Grammar.new true 0 (grammarMap unbracketed) 99 = .ok (Samples.grammar unbracketed) := by decide +kernel
  have h : ∃ t, Slr.new true 500 (Samples.grammar unbracketed) = .ok t ∧ t.conflicts = [] ∧
      Parser.validate t 500 (Samples.toks [14, 10, 14, 11, 14]) = .ok true := by
    refine ⟨_, rfl, ?_⟩
    decide +kernel
  obtain ⟨t, h1, h2, h3⟩ := h
  obtain ⟨t', k1, k2, k3⟩ := C113_parses (m := .slr) ⟨_, hg, 500, h1⟩ (by simp) h2 newTokens_sums (by decide)
    (by unfold Terminal; decide) (by decide) (by decide) (Samples.inNoBody (by decide))
    (allProductive [(3, 0), (2, 1), (1, 1), (0, 0)] (by decide) (by decide +kernel) (by decide))
  refine ⟨t, t', ⟨_, hg, 500, h1⟩, k1, k2, (k3 _).mpr ⟨by decide, 500, h3⟩, fun h => ?_⟩
  exact ((k3 _).mp h).1 ⟨(), 14⟩ (by decide) rfl

/-- Not vacuous for Slr and Lalr. -/
example : (∃ t', Makes .slr true (Refined unbracketed 14 [70, 71]) 0 99 t' ∧ t'.conflicts = []) ∧
    ∃ t', Makes .lalr true (Refined unbracketed 14 [70, 71]) 0 99 t' ∧ t'.conflicts = [] := by
  have hg : Grammar.new true 0 (grammarMap unbracketed) 99 = .ok (Samples.grammar unbracketed) := by decide +kernel
  have h : ∃ t, Slr.new true 500 (Samples.grammar unbracketed) = .ok t ∧ t.conflicts = [] := by
    refine ⟨_, rfl, ?_⟩
    decide +kernel
  obtain ⟨t, h1, h2⟩ := h
  have r1 : Derives unbracketed [0] [1] :=
    .head (Step.mk [] [] (A := 0) (i := 0) (body := [1]) ⟨_, ⟨[], _, rfl, by decide⟩, rfl⟩) (.refl _)
  have r2 : Derives unbracketed [0] [2] := r1.trans
    (.head (Step.mk [] [] (A := 1) (i := 1) (body := [2]) ⟨_, ⟨[(0, [[1]])], _, rfl, by decide⟩, rfl⟩) (.refl _))
  have r3 : Derives unbracketed [0] [3] := r2.trans
    (.head (Step.mk [] [] (A := 2) (i := 1) (body := [3])
      ⟨_, ⟨[(0, [[1]]), (1, [[1, 10, 2], [2]])], _, rfl, by decide⟩, rfl⟩) (.refl _))
  have r4 : Derives unbracketed [0] [14] := r3.trans
    (.head (Step.mk [] [] (A := 3) (i := 0) (body := [14])
      ⟨_, ⟨[(0, [[1]]), (1, [[1, 10, 2], [2]]), (2, [[2, 11, 3], [3]])], _, rfl, by decide⟩, rfl⟩) (.refl _))
  have hall : ∀ X, Nonterminal unbracketed X → Reachable unbracketed 0 X := by
    rintro X ⟨d, hd, rfl⟩
    simp only [unbracketed, List.mem_cons, List.not_mem_nil, or_false] at hd
    rcases hd with rfl | rfl | rfl | rfl
    · exact ⟨[], [], .refl _⟩
    · exact ⟨[], [], r1⟩
    · exact ⟨[], [], r2⟩
    · exact ⟨[], [], r3⟩
  have hpr : AllProductive unbracketed :=
    allProductive [(3, 0), (2, 1), (1, 1), (0, 0)] (by decide) (by decide +kernel) (by decide)
  exact ⟨C113_slr ⟨_, hg, 500, h1⟩ h2 newTokens_sums (by decide) (by unfold Terminal; decide) (by decide) (by decide) hpr
    hall ⟨[], [], r4⟩, C113_lalr ⟨_, hg, 500, h1⟩ h2 newTokens_sums (by decide) (by unfold Terminal; decide) (by decide)
    (by decide) hpr hall ⟨[], [], r4⟩⟩

/-- Not vacuous: reductors of the token that pass its item on. -/
example : ∀ i y v, ([70, 71] : List Nat)[i]? = some y →
    redOf (M := Nat) [(14, [fun its => its.head?.map Token.item, fun its => its.head?.map Token.item])] 14 i [⟨v, y⟩] =
      some v := by
  intro i y v h
  match i, h with
  | 0, _ => rfl
  | 1, _ => rfl
  | i + 2, h => simp at h

/-- That the new tokens differ is needed: for `x → y | y` the table has conflicts. -/
theorem C113_needs_nodup : ∃ t t', Makes .clr true unbracketed 0 99 t ∧ t.conflicts = [] ∧
    Makes .clr true (Refined unbracketed 14 [70, 70]) 0 99 t' ∧ t'.conflicts ≠ [] := by
  have h : ∃ t, Clr.new true 500 (Samples.grammar unbracketed) = .ok t ∧ t.conflicts = [] := by
    refine ⟨_, rfl, ?_⟩
    decide +kernel
  have h' : ∃ t, Clr.new true 500 (Samples.grammar (Refined unbracketed 14 [70, 70])) = .ok t ∧ t.conflicts ≠ [] := by
    refine ⟨_, rfl, ?_⟩
    decide +kernel
  obtain ⟨t, h1, h2⟩ := h
  obtain ⟨t', h3, h4⟩ := h'
  exact ⟨t, t', ⟨_, by decide +kernel, 500, h1⟩, h2, ⟨_, by decide +kernel, 500, h3⟩, h4⟩

/-- That the grammar does not use the new tokens is needed: for `E → a c | x c` with a rule `x → a` there are two
ways to read `a c`. -/
theorem C113_needs_fresh : ∃ t t', Makes .clr true [(0, [[1]]), (1, [[10, 12], [11, 12]])] 0 99 t ∧ t.conflicts = [] ∧
    Makes .clr true (Refined [(0, [[1]]), (1, [[10, 12], [11, 12]])] 11 [10]) 0 99 t' ∧ t'.conflicts ≠ [] := by
  have h : ∃ t, Clr.new true 500 (Samples.grammar [(0, [[1]]), (1, [[10, 12], [11, 12]])]) = .ok t ∧
      t.conflicts = [] := by
    refine ⟨_, rfl, ?_⟩
    decide +kernel
  have h' : ∃ t, Clr.new true 500 (Samples.grammar (Refined [(0, [[1]]), (1, [[10, 12], [11, 12]])] 11 [10])) = .ok t ∧
      t.conflicts ≠ [] := by
    refine ⟨_, rfl, ?_⟩
    decide +kernel
  obtain ⟨t, h1, h2⟩ := h
  obtain ⟨t', h3, h4⟩ := h'
  exact ⟨t, t', ⟨_, by decide +kernel, 500, h1⟩, h2, ⟨_, by decide +kernel, 500, h3⟩, h4⟩

end Lrp.Props
