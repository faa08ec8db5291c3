import Verif.Proofs.SequenceSlr
import Verif.Props.Brackets

/-!
C110 — a grammar for one text can be made into one for a sequence of texts: with a symbol used nowhere else as the
mark at the end of each text, the rules `S' → L` and `L → S m | L S m` bring no conflict.
-/

set_option linter.unusedSectionVars false

namespace Lrp.Props
open Spec
set_option maxRecDepth 100000

variable {T : Type} [LinOrd T] [DecidableEq T] {M : Type}

/-- What is asked of the three new names: they are not used in the grammar and differ from each other. -/
structure NewNames (D : Decls T) (S' L m : T) : Prop where
  start : Fresh D S'
  list : Fresh D L
  mark : Fresh D m
  startList : S' ≠ L
  startMark : S' ≠ m
  markList : m ≠ L

theorem NewNames.freshStart {D : Decls T} {S' L S m : T} (h : NewNames D S' L m) (hS : Nonterminal D S) :
    Fresh (Listed D L S m) S' := by
  refine ⟨terminal_listed.mpr ⟨h.startList, h.start.1⟩, fun A i b hp => ?_⟩
  have hne : S' ≠ S := by rintro rfl; exact not_terminal_iff.mpr hS h.start.1
  rcases (isProd_listed h.list).mp hp with ⟨_, ⟨_, rfl⟩ | ⟨_, rfl⟩⟩ | hp
  · simp [hne, h.startMark]
  · simp [hne, h.startMark, h.startList]
  · exact h.start.2 A i b hp

/-- C110: the grammar of sequences is LR(1) if that of the pieces is and its start symbol is in no body. -/
theorem C110_lr1 {D : Decls T} {S' L S m eof : T} (hN : NewNames D S' L m) (hS : Nonterminal D S)
    (hb : InNoBody D S) (hn : NoEmpty D) (heb : InNoBody D eof) (heS : eof ≠ S) (heL : eof ≠ L) (hem : eof ≠ m)
    (hlr : LR1 D S eof) : LR1 (Sequenced D S' L S m) S' eof := by
  refine (lr1_wrapped (hN.freshStart hS) hN.startList ((noEmpty_listed hN.list).mpr hn) ?_ heL).mpr
    ⟨lr1_listed hN.list hS hN.mark hN.markList hb hn hlr, selfDeriving_listed hN.list hn⟩
  intro A i b hp
  rcases (isProd_listed hN.list).mp hp with ⟨_, ⟨_, rfl⟩ | ⟨_, rfl⟩⟩ | hp
  · simp [heS, hem]
  · simp [heS, hem, heL]
  · exact heb A i b hp

/-- C110: in debug builds a parser of sequences can be made exactly if no production is empty and folding leaves
nothing of the two graphs of C79. -/
theorem C110_makes (k : Method) {D : Decls T} {S' L S m eof : T} (hN : NewNames D S' L m) (hS : Nonterminal D S)
    (he : Terminal D eof) (heS' : eof ≠ S') (heL : eof ≠ L) :
    (∃ t, Makes k true (Sequenced D S' L S m) S' eof t) ↔
      NoEmpty D ∧ FoldsAway (Loopless (LeftGraph D)) ∧ FoldsAway (Loopless (RightGraph D)) := by
  unfold Sequenced
  rw [C94_makes k (hN.freshStart hS) hN.startList (terminal_listed.mpr ⟨heL, he⟩) heS',
    noEmpty_listed hN.list, leftGraph_listed hN.list hS, rightGraph_listed hN.list hN.mark.1 hN.markList]

/-- C110: whichever method made the two tables, if they have no conflicts then the parser of sequences accepts
exactly the texts that consist of one piece or more, each accepted by the parser of the pieces and followed by a
mark. -/
theorem C110_exact {k k' : Method} {dbg dbg' : Bool} {D : Decls T} {S' L S m eof : T} {t t' : Tabler T}
    (ht : Makes k dbg D S eof t) (hk : k = .lalr → Propagated t) (hc : t.conflicts = []) (h1 : SingleStart D S)
    (hb : InNoBody D S) (ht' : Makes k' dbg' (Sequenced D S' L S m) S' eof t') (hk' : k' = .lalr → Propagated t')
    (hc' : t'.conflicts = []) (hN : NewNames D S' L m) (he : Terminal D eof) (heS' : eof ≠ S') (heL : eof ≠ L)
    {toks : List (Token Unit T)} :
    Validates t' toks true ↔
      ∃ ps, ps ≠ [] ∧ (∀ p ∈ ps, Validates t p true) ∧ toks = Marked ⟨(), m⟩ ps := by
  have hS := ht.start
  have hval : ∀ {p : List (Token Unit T)}, Validates t p true ↔ Sentence D S (p.map Token.ty) := fun {p} =>
    ⟨fun h => sound_sentence ht hb he (validates_true.mp h), complete_validates ht hk hc hb h1 he⟩
  rw [C94_exact ht' hk' hc' (hN.freshStart hS) hN.startList (terminal_listed.mpr ⟨heL, he⟩) heS',
    sentence_listed hN.list hS hN.mark hN.markList]
  have htok : ∀ {p : List (Token Unit T)}, (p.map Token.ty).map (fun x => (⟨(), x⟩ : Token Unit T)) = p := by
    intro p
    rw [List.map_map]
    exact (List.map_congr_left fun a _ => rfl).trans (List.map_id p)
  constructor
  · rintro ⟨ps, h1, h2, h3⟩
    refine ⟨ps.map (List.map (fun x => ⟨(), x⟩)), by simpa using h1, ?_, ?_⟩
    · intro p hp
      obtain ⟨q, hq, rfl⟩ := List.mem_map.mp hp
      refine hval.mpr ?_
      rw [List.map_map]
      have : q.map (Token.ty ∘ fun x => (⟨(), x⟩ : Token Unit T)) = q :=
        (List.map_congr_left fun a _ => rfl).trans (List.map_id q)
      rw [this]
      exact h2 q hq
    · rw [← htok (p := toks), h3]
      simp only [Marked, List.map_flatMap, List.flatMap_map, List.map_append, List.map_cons, List.map_nil]
  · rintro ⟨ps, h1, h2, rfl⟩
    refine ⟨ps.map (List.map Token.ty), by simpa using h1, ?_, ?_⟩
    · intro p hp
      obtain ⟨q, hq, rfl⟩ := List.mem_map.mp hp
      exact hval.mp (h2 q hq)
    · simp only [Marked, List.map_flatMap, List.flatMap_map, List.map_append, List.map_cons, List.map_nil]

/-- C110: in debug builds, if any table of the grammar has no conflicts, then the Clr table of the grammar of
sequences can be made and has none, and its parser accepts exactly the marked sequences of accepted pieces. -/
theorem C110_parses {k : Method} {D : Decls T} {S' L S m eof : T} {t : Tabler T}
    (ht : Makes k true D S eof t) (hk : k = .lalr → Propagated t) (hc : t.conflicts = []) (hb : InNoBody D S)
    (hpr : AllProductive D) (hN : NewNames D S' L m) (he : Terminal D eof) (heb : InNoBody D eof) (heS' : eof ≠ S')
    (heL : eof ≠ L) (hem : eof ≠ m) :
    ∃ t', Makes .clr true (Sequenced D S' L S m) S' eof t' ∧ t'.conflicts = [] ∧
      ∀ toks : List (Token Unit T), Validates t' toks true ↔
        ∃ ps, ps ≠ [] ∧ (∀ p ∈ ps, Validates t p true) ∧ toks = Marked ⟨(), m⟩ ps := by
  have hS := ht.start
  have hn := ht.noEmpty
  have h1 : SingleStart D S := by
    obtain ⟨g, hg, _⟩ := id ht
    exact single_start_debug hg
  have heS : eof ≠ S := by rintro rfl; exact not_terminal_iff.mpr hS he
  obtain ⟨t', ht'⟩ := (C110_makes .clr (S := S) hN hS he heS' heL).mpr (by
    obtain ⟨g, hg, n, h⟩ := id ht
    exact ⟨hn, (C79_debug_iff hg hn he).mp ((build_returns_iff hg).mp ⟨t, n, h⟩)⟩)
  have heb' : InNoBody (Listed D L S m) eof := by
    intro A i b hp
    rcases (isProd_listed hN.list).mp hp with ⟨_, ⟨_, rfl⟩ | ⟨_, rfl⟩⟩ | hp
    · simp [heS, hem]
    · simp [heS, hem, heL]
    · exact heb A i b hp
  have hc' : t'.conflicts = [] :=
    (C94_clr ht' (hN.freshStart hS) hN.startList (terminal_listed.mpr ⟨heL, he⟩) heS' heb'
      (nonterminal_listed.mpr (Or.inl rfl)) (allProductive_listed hN.list hS hN.mark hN.markList hpr)).mpr
      ⟨lr1_listed hN.list hS hN.mark hN.markList hb hn (C63_lr1 ht hk he h1 hc), selfDeriving_listed hN.list hn⟩
  exact ⟨t', ht', hc', fun _ => C110_exact ht hk hc h1 hb ht' (by simp) hc' hN he heS' heL⟩

/-- C110: the grammar of sequences is SLR(1) if that of the pieces is and its start symbol is in no body. -/
theorem C110_slr1 {D : Decls T} {S' L S m eof : T} (hN : NewNames D S' L m) (hS : Nonterminal D S)
    (hb : InNoBody D S) (hn : NoEmpty D) (he : Terminal D eof) (heb : InNoBody D eof) (heS' : eof ≠ S')
    (heL : eof ≠ L) (hs : SLR1 D S eof) : SLR1 (Sequenced D S' L S m) S' eof :=
  slr1_sequenced (hN.freshStart hS) hN.list hS hN.mark hN.markList hN.startList hN.startMark he heb heS' heL hb hn hs

/-- C110 for Slr: if the Slr table of a grammar has no conflicts and all rules can be reached, then in debug builds
the Slr table of the grammar of sequences can be made and has none, and its parser accepts exactly the marked
sequences of accepted pieces. -/
theorem C110_slr {D : Decls T} {S' L S m eof : T} {t : Tabler T} (ht : Makes .slr true D S eof t)
    (hc : t.conflicts = []) (hb : InNoBody D S) (hpr : AllProductive D)
    (hall : ∀ X, Nonterminal D X → Reachable D S X) (hN : NewNames D S' L m) (he : Terminal D eof)
    (heb : InNoBody D eof) (heS' : eof ≠ S') (heL : eof ≠ L) :
    ∃ t', Makes .slr true (Sequenced D S' L S m) S' eof t' ∧ t'.conflicts = [] ∧
      ∀ toks : List (Token Unit T), Validates t' toks true ↔
        ∃ ps, ps ≠ [] ∧ (∀ p ∈ ps, Validates t p true) ∧ toks = Marked ⟨(), m⟩ ps := by
  have hS := ht.start
  have hn := ht.noEmpty
  have h1 : SingleStart D S := by
    obtain ⟨g, hg, _⟩ := id ht
    exact single_start_debug hg
  obtain ⟨t', ht'⟩ := (C110_makes .slr (S := S) hN hS he heS' heL).mpr (by
    obtain ⟨g, hg, n, h⟩ := id ht
    exact ⟨hn, (C79_debug_iff hg hn he).mp ((build_returns_iff hg).mp ⟨t, n, h⟩)⟩)
  have hf := hN.freshStart hS
  have hS0 : Derives (Sequenced D S' L S m) [S'] [L] := .of_prod ((isProd_sequenced hf hN.list).mpr (Or.inl ⟨rfl, rfl, rfl⟩))
  have hL0 : Derives (Sequenced D S' L S m) [L] [S, m] :=
    .of_prod ((isProd_sequenced hf hN.list).mpr (Or.inr (Or.inl ⟨rfl, Or.inl ⟨rfl, rfl⟩⟩)))
  have up : ∀ {a b : List T}, Derives D a b → Derives (Sequenced D S' L S m) a b := fun h =>
    derives_wrapped hf (derives_listed hN.list h)
  have hprL := allProductive_listed hN.list hS hN.mark hN.markList hpr
  have low : ∀ {X : T}, Nonterminal (Listed D L S m) X → Productive (Sequenced D S' L S m) X := by
    intro X hX
    obtain ⟨w, h1, h2⟩ := hprL X hX
    refine ⟨w, derives_wrapped hf h1, fun x hx => terminal_wrapped.mpr ⟨?_, h2 x hx⟩⟩
    rintro rfl
    rcases derives_from h1 hx with h | ⟨B, i, b, hp, h⟩
    · exact not_terminal_iff.mpr hX (List.mem_singleton.mp h ▸ hf.1)
    · exact hf.2 B i b hp h
  have hpr' : AllProductive (Sequenced D S' L S m) := by
    intro X hX
    rcases nonterminal_wrapped.mp hX with rfl | hX
    · obtain ⟨w, h1, h2⟩ := low (nonterminal_listed.mpr (Or.inl rfl))
      exact ⟨w, hS0.trans h1, h2⟩
    · exact low hX
  have hall' : ∀ X, Nonterminal (Sequenced D S' L S m) X → Reachable (Sequenced D S' L S m) S' X := by
    intro X hX
    rcases nonterminal_wrapped.mp hX with rfl | hX
    · exact ⟨[], [], .refl _⟩
    · rcases nonterminal_listed.mp hX with rfl | hX
      · exact ⟨[], [], hS0⟩
      · obtain ⟨u, v, h⟩ := hall X hX
        refine ⟨u, v ++ [m], hS0.trans (hL0.trans ?_)⟩
        have := (up h).ctx [] [m]
        simpa using this
  have hc' : t'.conflicts = [] := C64_no_conflicts ht' (terminal_wrapped.mpr ⟨heS', terminal_listed.mpr ⟨heL, he⟩⟩)
    hpr' hall' (.inl rfl) (C110_slr1 hN hS hb hn he heb heS' heL (C64_slr1 ht he h1 hc))
  exact ⟨t', ht', hc', fun _ => C110_exact ht (by simp) hc h1 hb ht' (by simp) hc' hN he heS' heL⟩

/-- C110 for Lalr: then so has its Lalr table. -/
theorem C110_lalr {D : Decls T} {S' L S m eof : T} {t : Tabler T} (ht : Makes .slr true D S eof t)
    (hc : t.conflicts = []) (hb : InNoBody D S) (hpr : AllProductive D)
    (hall : ∀ X, Nonterminal D X → Reachable D S X) (hN : NewNames D S' L m) (he : Terminal D eof)
    (heb : InNoBody D eof) (heS' : eof ≠ S') (heL : eof ≠ L) :
    ∃ t', Makes .lalr true (Sequenced D S' L S m) S' eof t' ∧ t'.conflicts = [] := by
  obtain ⟨t1, h1, h2, _⟩ := C110_slr ht hc hb hpr hall hN he heb heS' heL
  obtain ⟨t2, h3⟩ := (C110_makes .lalr hN ht.start he heS' heL).mpr ((C110_makes .slr hN ht.start he heS' heL).mp ⟨t1, h1⟩)
  exact ⟨t2, h3, C36_slr_weakest h1 h3 (.inr rfl) (terminal_wrapped.mpr ⟨heS', terminal_listed.mpr ⟨heL, he⟩⟩)
    (.inl rfl) h2⟩

/-- C110: the value of a sequence is made from the values of parse trees of the pieces, from left to right: the
reductor of `L → S m` is called for the first piece and that of `L → L S m` for each further one. -/
theorem C110_value {k : Method} {dbg : Bool} {D : Decls T} {S' L S m eof : T} {t : Tabler T}
    (ht : Makes k dbg (Sequenced D S' L S m) S' eof t) (hN : NewNames D S' L m) (hS : Nonterminal D S)
    (he : Terminal D eof) (heS' : eof ≠ S') (heL : eof ≠ L) {maps : ReductMap M T} {toks : List (Token M T)} {v : M}
    (h : Parses t maps toks (.ok v)) :
    ∃ ps, (∀ p ∈ ps, Tree.Valid D p.1 ∧ p.1.root = S ∧ p.2.ty = m) ∧
      toks = ps.flatMap (fun p => p.1.yield ++ [p.2]) ∧ SeqValue (redOf maps) L S ps v := by
  obtain ⟨tr, h1, h2, rfl, h4⟩ := C94_value ht (hN.freshStart hS) hN.startList (terminal_listed.mpr ⟨heL, he⟩) heS' h
  exact seq_value hN.list hS hN.mark hN.markList h1 h2 h4

/-! ### Examples -/

theorem pointers_names : NewNames Samples.pointers 50 51 60 :=
  ⟨fresh_of (by decide) (by decide), fresh_of (by decide) (by decide), fresh_of (by decide) (by decide),
    by decide, by decide, by decide⟩

/-- Not vacuous: statements `L = R` and `R`, each with a semicolon (60) after it; the Slr table of one statement has
a conflict, its Clr table has none (C36). -/
theorem pointers_sequence : ∃ t t', Makes .clr true Samples.pointers 0 99 t ∧
    Makes .clr true (Sequenced Samples.pointers 50 51 0 60) 50 99 t' ∧ t'.conflicts = [] ∧
    ∀ toks : List (Token Unit Nat), Validates t' toks true ↔
      ∃ ps, ps ≠ [] ∧ (∀ p ∈ ps, Validates t p true) ∧ toks = Marked ⟨(), 60⟩ ps := by
  obtain ⟨_, t, _, _, h, _, _, hc, _⟩ := C36_strict
  obtain ⟨t', h1, h2, h3⟩ := C110_parses h (by simp) hc (Samples.inNoBody (by decide))
    (allProductive [(2, 1), (3, 0), (1, 1), (0, 0)] (by decide) (by decide +kernel) (by decide)) pointers_names
    pointers_eof (Samples.inNoBody (by decide)) (by decide) (by decide) (by decide)
  exact ⟨t, t', h, h1, h2, h3⟩

/-- Not vacuous for Slr: sums of products, each with a semicolon after it. -/
example : ∃ t', Makes .slr true (Sequenced unbracketed 50 51 0 60) 50 99 t' ∧ t'.conflicts = [] := by
  have hg : Grammar.new true 0 (grammarMap unbracketed) 99 = .ok (Samples.grammar unbracketed) := by decide +kernel
  have h : ∃ t, Slr.new true 500 (Samples.grammar unbracketed) = .ok t ∧ t.conflicts = [] := by
    refine ⟨_, rfl, ?_⟩
    decide +kernel
  obtain ⟨t, h1, h2⟩ := h
  have r1 : Derives unbracketed [0] [1] :=
    .head (Step.mk [] [] (A := 0) (i := 0) (body := [1]) ⟨_, ⟨[], _, rfl, by decide⟩, rfl⟩) (.refl _)
  have r2 : Derives unbracketed [0] [2] := r1.trans
    (.head (Step.mk [] [] (A := 1) (i := 1) (body := [2]) ⟨_, ⟨[(0, [[1]])], _, rfl, by decide⟩, rfl⟩) (.refl _))
  have r3 : Derives unbracketed [0] [3] := r2.trans
    (.head (Step.mk [] [] (A := 2) (i := 1) (body := [3])
      ⟨_, ⟨[(0, [[1]]), (1, [[1, 10, 2], [2]])], _, rfl, by decide⟩, rfl⟩) (.refl _))
  have hall : ∀ X, Nonterminal unbracketed X → Reachable unbracketed 0 X := by
    rintro X ⟨d, hd, rfl⟩
    simp only [unbracketed, List.mem_cons, List.not_mem_nil, or_false] at hd
    rcases hd with rfl | rfl | rfl | rfl
    · exact ⟨[], [], .refl _⟩
    · exact ⟨[], [], r1⟩
    · exact ⟨[], [], r2⟩
    · exact ⟨[], [], r3⟩
  obtain ⟨t', h3, h4, _⟩ := C110_slr ⟨_, hg, 500, h1⟩ h2 (Samples.inNoBody (by decide))
    (allProductive [(3, 0), (2, 1), (1, 1), (0, 0)] (by decide) (by decide +kernel) (by decide)) hall
    (S' := 50) (L := 51) (m := 60) ⟨fresh_of (by decide) (by decide), fresh_of (by decide) (by decide),
      fresh_of (by decide) (by decide), by decide, by decide, by decide⟩
    (by unfold Terminal; decide) (Samples.inNoBody (by decide)) (by decide) (by decide)
  exact ⟨t', h3, h4⟩

/-- The grammar of sequences of `pointers`. -/
def pointersSeq : Grammar Nat :=
  match Grammar.new true 50 (grammarMap (Sequenced Samples.pointers 50 51 0 60)) 99 with
  | .ok g => g
  | _ => Samples.grammar []

/-- Every rule joins the values of its symbols; a list counts the tokens of each statement. -/
def pointersReds : ReductMap (List Nat) Nat :=
  let join : List (Token (List Nat) Nat) → Option (List Nat) := fun its => some (its.flatMap Token.item)
  [(0, [join]), (1, [join, join]), (2, [join, join]), (3, [join]),
   (51, [fun its => its.head?.map fun x => [x.item.length],
     fun its => match its with
       | [acc, x, _] => some (acc.item ++ [x.item.length])
       | _ => none])]

/-- And a value: `id ; * id = id ;` are a statement of one token and one of four; without the last mark the text
is rejected. -/
example : ∃ t, Makes .clr true (Sequenced Samples.pointers 50 51 0 60) 50 99 t ∧ t.conflicts = [] ∧
    Parses t pointersReds ([12, 60, 11, 12, 10, 12, 60].map fun x => ⟨[x], x⟩) (.ok [1, 4]) ∧
    Validates t (Samples.toks [12, 60, 12]) false := by
  have hg : Grammar.new true 50 (grammarMap (Sequenced Samples.pointers 50 51 0 60)) 99 = .ok pointersSeq := by
    decide +kernel
  have h : ∃ t, Clr.new true 500 pointersSeq = .ok t ∧ t.conflicts = [] ∧
      (∃ r, Parser.parse t 80 ([12, 60, 11, 12, 10, 12, 60].map fun x => ⟨[x], x⟩) pointersReds = .ok r ∧
        (match r with | .ok v => v = [1, 4] | .error _ => False)) ∧
      Parser.validate t 80 (Samples.toks [12, 60, 12]) = .ok false := by
    refine ⟨_, rfl, by decide +kernel, ⟨_, rfl, ?_⟩, ?_⟩
    · decide +kernel
    · decide +kernel
  obtain ⟨t, h1, h2, ⟨r, h3, h5⟩, h4⟩ := h
  refine ⟨t, ⟨_, hg, 500, h1⟩, h2, ⟨80, ?_⟩, ⟨80, h4⟩⟩
  cases r with
  | ok v => subst h5; exact h3
  | error e => exact h5.elim

/-- A → a | a m a. -/
def marksInside : Decls Nat := [(0, [[1]]), (1, [[10], [10, 60, 10]])]

/-- The grammar of sequences of it. -/
def marksInsideSeq : Grammar Nat :=
  match Grammar.new true 50 (grammarMap (Sequenced marksInside 50 51 0 60)) 99 with
  | .ok g => g
  | _ => Samples.grammar []

/-- The mark has to be used nowhere else: `a m a m` would be one piece or two. -/
theorem C110_needs_mark : ∃ t t', Makes .clr true marksInside 0 99 t ∧ t.conflicts = [] ∧
    Makes .clr true (Sequenced marksInside 50 51 0 60) 50 99 t' ∧ t'.conflicts ≠ [] := by
  have hg : Grammar.new true 0 (grammarMap marksInside) 99 = .ok (Samples.grammar marksInside) := by decide +kernel
  have hg' : Grammar.new true 50 (grammarMap (Sequenced marksInside 50 51 0 60)) 99 = .ok marksInsideSeq := by
    decide +kernel
  have h : ∃ t, Clr.new true 500 (Samples.grammar marksInside) = .ok t ∧ t.conflicts = [] := by
    refine ⟨_, rfl, ?_⟩
    decide +kernel
  have h' : ∃ t, Clr.new true 500 marksInsideSeq = .ok t ∧ t.conflicts ≠ [] := by
    refine ⟨_, rfl, ?_⟩
    decide +kernel
  obtain ⟨t, h1, h2⟩ := h
  obtain ⟨t', h3, h4⟩ := h'
  exact ⟨t, t', ⟨_, hg, 500, h1⟩, h2, ⟨_, hg', 500, h3⟩, h4⟩

end Lrp.Props
