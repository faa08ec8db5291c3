import Verif.Props.Tables

/-! C79: exactly which grammars `Tabler::new` returns for. -/

set_option linter.unusedSectionVars false
set_option maxRecDepth 100000

namespace Lrp.Props
open Spec
variable {T : Type} [LinOrd T] [DecidableEq T]

/-- C79: `Tabler::new` returns exactly when folding the graph of leftmost nonterminals settles, folding
the graph of what follows settles, and, in debug builds, neither leaves an edge. -/
theorem C79_returns_iff {dbg : Bool} {D : Decls T} {S eof : T} {g : Grammar T}
    (hg : Grammar.new dbg S (grammarMap D) eof = .ok g) (hne : NoEmpty D) :
    (∃ t, Returns (fun n => Tabler.new dbg n g) t) ↔
      ∃ L R, SettlesTo (Loopless (LeftGraph D)) L ∧ SettlesTo (AfterGraph D S eof L) R ∧
        (dbg = true → ∀ A B, ¬ L A B ∧ ¬ R A B) := by
  have hof := Grammar.of_new hg
  constructor
  · rintro ⟨t, n, h⟩
    obtain ⟨h1, h2⟩ := Tabler.new_settles hof h
    refine ⟨_, _, h1, h2, ?_⟩
    rintro rfl A B
    obtain ⟨h3, h4⟩ := Tabler.new_dbg hof h
    exact ⟨fun h => h.2 (h3 A B h.1), fun h => h.2 (h4 A B h.1)⟩
  · rintro ⟨L, R, hL, hR, hd⟩
    obtain ⟨n, t, h⟩ := Tabler.new_returns hof hne hL hR (fun h =>
      ⟨fold_congr (fun A B => iff_false_intro (hd h A B).1),
       fold_congr (fun A B => iff_false_intro (hd h A B).2)⟩)
    exact ⟨t, n, h⟩

/-- C79 in debug builds: `Tabler::new` returns exactly when folding leaves no edge of the graph "starts
a body of", nor of the graph "ends a body of". -/
theorem C79_debug_iff {D : Decls T} {S eof : T} {g : Grammar T}
    (hg : Grammar.new true S (grammarMap D) eof = .ok g) (hne : NoEmpty D) (he : Terminal D eof) :
    (∃ t, Returns (fun n => Tabler.new true n g) t) ↔
      FoldsAway (Loopless (LeftGraph D)) ∧ FoldsAway (Loopless (RightGraph D)) := by
  constructor
  · rintro ⟨t, n, h⟩
    exact (C08_only_terminals_iff hg h he).mp (C08_only_terminals_partial hg h (Or.inl rfl))
  · rintro ⟨h1, h2⟩
    exact C06_terminates_partial true hg hne he h1 h2

/-- C79: the panics of `Tabler::new`, for grammars without empty productions: only in debug builds,
when FIRST, or else FOLLOW, settles with nonterminals left over. -/
theorem C79_panics_iff {dbg : Bool} {D : Decls T} {S eof : T} {g : Grammar T}
    (hg : Grammar.new dbg S (grammarMap D) eof = .ok g) (hne : NoEmpty D) (he : Terminal D eof)
    (p : Panic) :
    Panics (fun n => Tabler.new dbg n g) p ↔ dbg = true ∧
      ((p = .dbgFirstNotTerminal ∧
          ∃ L, SettlesTo (Loopless (LeftGraph D)) L ∧ ∃ A B, L A B) ∨
       (p = .dbgFollowNotTerminal ∧ FoldsAway (Loopless (LeftGraph D)) ∧
          ∃ R, SettlesTo (Loopless (RightGraph D)) R ∧ ∃ A B, R A B)) := by
  have hof := Grammar.of_new hg
  have hne' : ∀ L : T → T → Prop, (L ≠ fun _ _ => False) ↔ ∃ A B, L A B := by
    intro L
    constructor
    · intro h
      refine Classical.byContradiction (fun h' => h (fold_congr fun A B => iff_false_intro ?_))
      exact fun h2 => h' ⟨A, B, h2⟩
    · rintro ⟨A, B, h⟩ rfl; exact h
  rw [← Tabler.afterGraph_empty (S := S) he]
  constructor
  · rintro ⟨n, h⟩
    obtain ⟨h1, h2⟩ := Tabler.new_panic_settles hof hne h
    refine ⟨h1, h2.imp (fun ⟨h3, L, h4, h5⟩ => ⟨h3, L, h4, (hne' L).mp h5⟩) ?_⟩
    exact fun ⟨h3, h6, L, h4, h5⟩ => ⟨h3, h6, L, h4, (hne' L).mp h5⟩
  · rintro ⟨rfl, ⟨rfl, L, h4, h5⟩ | ⟨rfl, h6, R, h4, h5⟩⟩
    · exact Tabler.new_panics_first hof hne h4 ((hne' L).mpr h5)
    · exact Tabler.new_panics_follow hof hne h6 h4 ((hne' R).mpr h5)

/-- C79: `Tabler::new` runs forever exactly when one of the two foldings never settles. -/
theorem C79_diverges_iff {dbg : Bool} {D : Decls T} {S eof : T} {g : Grammar T}
    (hg : Grammar.new dbg S (grammarMap D) eof = .ok g) (hne : NoEmpty D) (he : Terminal D eof) :
    Diverges (fun n => Tabler.new dbg n g) ↔
      ((¬ ∃ L, SettlesTo (Loopless (LeftGraph D)) L) ∨
       ∃ L, SettlesTo (Loopless (LeftGraph D)) L ∧ (dbg = true → ∀ A B, ¬ L A B) ∧
        ¬ ∃ R, SettlesTo (AfterGraph D S eof L) R) := by
  have hdiv : Diverges (fun n => Tabler.new dbg n g) ↔
      (¬ ∃ t, Returns (fun n => Tabler.new dbg n g) t) ∧
      ¬ ∃ p, Panics (fun n => Tabler.new dbg n g) p := by
    constructor
    · intro h
      refine ⟨?_, ?_⟩
      · rintro ⟨t, n, h'⟩; rw [h n] at h'; cases h'
      · rintro ⟨p, n, h'⟩; rw [h n] at h'; cases h'
    · rintro ⟨h1, h2⟩ n
      show Tabler.new dbg n g = .fuel
      cases h : Tabler.new dbg n g with
      | ok t => exact absurd ⟨t, n, h⟩ h1
      | panic p => exact absurd ⟨p, n, h⟩ h2
      | fuel => rfl
  rw [hdiv, C79_returns_iff hg hne]
  constructor
  · rintro ⟨h1, h2⟩
    refine Classical.byContradiction (fun hn => ?_)
    have hn1 : ∃ L, SettlesTo (Loopless (LeftGraph D)) L :=
      Classical.byContradiction (fun h => hn (Or.inl h))
    obtain ⟨L, hL⟩ := hn1
    have hd : dbg = true → ∀ A B, ¬ L A B := fun hd A B hAB =>
      h2 ⟨_, (C79_panics_iff hg hne he _).mpr ⟨hd, Or.inl ⟨rfl, L, hL, A, B, hAB⟩⟩⟩
    have hn2 : ∃ R, SettlesTo (AfterGraph D S eof L) R :=
      Classical.byContradiction (fun h => hn (Or.inr ⟨L, hL, hd, h⟩))
    obtain ⟨R, hR⟩ := hn2
    refine h1 ⟨L, R, hL, hR, fun hdb A B => ⟨hd hdb A B, fun hRAB => h2 ⟨.dbgFollowNotTerminal, ?_⟩⟩⟩
    have e : L = fun _ _ => False := fold_congr (fun A B => iff_false_intro (hd hdb A B))
    rw [e] at hL hR
    rw [Tabler.afterGraph_empty he] at hR
    exact (C79_panics_iff hg hne he _).mpr
      ⟨hdb, Or.inr ⟨rfl, foldsAway_iff.mpr hL, R, hR, A, B, hRAB⟩⟩
  · intro h
    refine ⟨?_, ?_⟩
    · rintro ⟨L, R, hL, hR, hd⟩
      rcases h with h | ⟨L', hL', _, h⟩
      · exact h ⟨L, hL⟩
      · cases settlesTo_unique hL hL'
        exact h ⟨R, hR⟩
    · rintro ⟨p, hp⟩
      obtain ⟨hdb, hp⟩ := (C79_panics_iff hg hne he p).mp hp
      rcases h with h | ⟨L', hL', hd, h⟩
      · rcases hp with ⟨_, L, hL, _⟩ | ⟨_, hL, _⟩
        · exact h ⟨L, hL⟩
        · exact h ⟨_, foldsAway_iff.mp hL⟩
      · rcases hp with ⟨_, L, hL, A, B, hAB⟩ | ⟨_, hL, R, hR, _⟩
        · cases settlesTo_unique hL hL'
          exact hd hdb A B hAB
        · have e := settlesTo_unique hL' (foldsAway_iff.mp hL)
          subst e
          rw [← Tabler.afterGraph_empty (S := S) he] at hR
          exact h ⟨R, hR⟩

/-! ### concrete grammars -/

/-- A list of edges folded once. -/
def Samples.foldList (l : List (Nat × Nat)) : List (Nat × Nat) :=
  (l.flatMap (fun e => (l.filter (fun f => f.1 = e.2 ∧ f.2 ≠ e.1)).map (fun f => (e.1, f.2)))).eraseDups

theorem Samples.mem_foldList {l : List (Nat × Nat)} {A B : Nat} :
    (A, B) ∈ Samples.foldList l ↔ A ≠ B ∧ ∃ C, (A, C) ∈ l ∧ (C, B) ∈ l := by
  unfold Samples.foldList
  rw [List.mem_eraseDups, List.mem_flatMap]
  constructor
  · rintro ⟨⟨a, c⟩, h1, h2⟩
    obtain ⟨⟨c', b⟩, h3, h4⟩ := List.mem_map.mp h2
    rw [List.mem_filter] at h3
    simp only [decide_eq_true_eq] at h3
    obtain ⟨h5, rfl, h6⟩ := h3
    cases h4
    exact ⟨Ne.symm h6, _, h1, h5⟩
  · rintro ⟨h, C, h1, h2⟩
    exact ⟨_, h1, List.mem_map.mpr ⟨_, List.mem_filter.mpr ⟨h2, by simp [Ne.symm h]⟩, rfl⟩⟩

/-- The list folded `n` times. -/
def Samples.foldTimes : Nat → List (Nat × Nat) → List (Nat × Nat)
  | 0, l => l
  | n + 1, l => Samples.foldList (Samples.foldTimes n l)

theorem Samples.fold_iff {E : Nat → Nat → Prop} {l : List (Nat × Nat)}
    (h : ∀ A B, E A B ↔ (A, B) ∈ l) (n : Nat) (A B : Nat) :
    Fold E n A B ↔ (A, B) ∈ Samples.foldTimes n l := by
  induction n generalizing A B with
  | zero => exact h A B
  | succ n ih =>
    show (A ≠ B ∧ ∃ C, Fold E n A C ∧ Fold E n C B) ↔ (A, B) ∈ Samples.foldList _
    rw [Samples.mem_foldList]
    simp only [ih]

/-- The graph of leftmost nonterminals of a concrete grammar, without loops. -/
def Samples.leftEdges (D : Decls Nat) : List (Nat × Nat) :=
  D.flatMap (fun d => (d.2.filterMap List.head?).filterMap
    (fun x => if x ≠ d.1 ∧ x ∈ D.map (·.1) then some (d.1, x) else none))

/-- The graph of last nonterminals of a concrete grammar, without loops. -/
def Samples.rightEdges (D : Decls Nat) : List (Nat × Nat) :=
  D.flatMap (fun d => (d.2.filterMap List.getLast?).filterMap
    (fun x => if x ≠ d.1 ∧ x ∈ D.map (·.1) then some (x, d.1) else none))

theorem Samples.isProd_of_nodup {D : Decls Nat} (hnd : (D.map (·.1)).Nodup) {d : Nat × List (List Nat)}
    (hd : d ∈ D) {b : List Nat} (hb : b ∈ d.2) : ∃ i, IsProd D d.1 i b := by
  obtain ⟨i, hi⟩ := List.getElem?_of_mem hb
  obtain ⟨p, q, rfl⟩ := List.append_of_mem hd
  refine ⟨i, d.2, ⟨p, q, rfl, ?_⟩, hi⟩
  simp only [List.map_append, List.map_cons, List.nodup_append, List.nodup_cons] at hnd
  intro e he h
  exact hnd.2.1.1 (List.mem_map.mpr ⟨e, he, h⟩)

theorem Samples.mem_leftEdges {D : Decls Nat} (hnd : (D.map (·.1)).Nodup) (A B : Nat) :
    Loopless (LeftGraph D) A B ↔ (A, B) ∈ Samples.leftEdges D := by
  unfold Samples.leftEdges Loopless LeftGraph
  simp only [List.mem_flatMap, List.mem_filterMap]
  constructor
  · rintro ⟨h, hB, i, b, hp⟩
    obtain ⟨d, hd, rfl, hb⟩ := Samples.isProd_mem hp
    obtain ⟨e, he, rfl⟩ := hB
    exact ⟨d, hd, e.1, ⟨_, hb, rfl⟩, by
      rw [if_pos ⟨Ne.symm h, List.mem_map.mpr ⟨e, he, rfl⟩⟩]⟩
  · rintro ⟨d, hd, x, ⟨b, hb, hx⟩, h⟩
    split at h
    · rename_i hc
      cases h
      cases b with
      | nil => cases hx
      | cons y b =>
        cases hx
        obtain ⟨e, he, h1⟩ := List.mem_map.mp hc.2
        obtain ⟨i, hp⟩ := Samples.isProd_of_nodup hnd hd hb
        exact ⟨Ne.symm hc.1, ⟨e, he, h1⟩, i, b, hp⟩
    · cases h

theorem Samples.mem_rightEdges {D : Decls Nat} (hnd : (D.map (·.1)).Nodup) (A B : Nat) :
    Loopless (RightGraph D) A B ↔ (A, B) ∈ Samples.rightEdges D := by
  unfold Samples.rightEdges Loopless RightGraph
  simp only [List.mem_flatMap, List.mem_filterMap]
  constructor
  · rintro ⟨h, hA, i, b, hp⟩
    obtain ⟨d, hd, rfl, hb⟩ := Samples.isProd_mem hp
    obtain ⟨e, he, rfl⟩ := hA
    exact ⟨d, hd, e.1, ⟨_, hb, by simp⟩, by
      rw [if_pos ⟨h, List.mem_map.mpr ⟨e, he, rfl⟩⟩]⟩
  · rintro ⟨d, hd, x, ⟨b, hb, hx⟩, h⟩
    split at h
    · rename_i hc
      cases h
      obtain ⟨ys, rfl⟩ := List.getLast?_eq_some_iff.mp hx
      obtain ⟨e, he, h1⟩ := List.mem_map.mp hc.2
      obtain ⟨i, hp⟩ := Samples.isProd_of_nodup hnd hd hb
      exact ⟨hc.1, ⟨e, he, h1⟩, i, ys, hp⟩
    · cases h

/-- Leftmost nonterminals on a cycle of four: A → B p | a, B → C q | b, C → D r | c, D → A s | d. -/
def Samples.fourCycle : Decls Nat :=
  [(0, [[1]]), (1, [[2, 10], [11]]), (2, [[3, 12], [13]]), (3, [[4, 14], [15]]), (4, [[1, 16], [17]])]

theorem fourCycle_folds : FoldsAway (Loopless (LeftGraph Samples.fourCycle)) :=
  ⟨3, fun A B h => by
    rw [Samples.fold_iff (Samples.mem_leftEdges (by decide))] at h
    rw [show Samples.foldTimes 3 (Samples.leftEdges Samples.fourCycle) = [] by decide +kernel] at h
    cases h⟩

/-- A cycle of four nonterminals, unlike one of three, does no harm. -/
example : ∃ t, Returns (fun n => Tabler.new true n (Samples.grammar Samples.fourCycle)) t :=
  (C79_debug_iff (D := Samples.fourCycle) (S := 0) (eof := 99) (by decide +kernel)
    (Samples.noEmpty_of (by decide)) (by intro d hd; revert d; decide)).mpr
    ⟨fourCycle_folds, 2, fun A B h => by
      rw [Samples.fold_iff (Samples.mem_rightEdges (by decide))] at h
      rw [show Samples.foldTimes 2 (Samples.rightEdges Samples.fourCycle) = [] by decide +kernel] at h
      cases h⟩

/-- C06 asked for no three nonterminals on a cycle; four on a cycle are not covered by that. -/
example : ¬ NoLongCycle (LeftGraph Samples.fourCycle) := by
  rintro ⟨rank, h1, h2⟩
  have e : ∀ A B, (A, B) ∈ Samples.leftEdges Samples.fourCycle → LeftGraph Samples.fourCycle A B :=
    fun A B h => ((Samples.mem_leftEdges (by decide) A B).mpr h).2
  have a := h2 1 2 3 (e 1 2 (by decide)) (e 2 3 (by decide)) (by decide) (by decide) (by decide)
  have b := h2 3 4 1 (e 3 4 (by decide)) (e 4 1 (by decide)) (by decide) (by decide) (by decide)
  omega

/-- Three nonterminals starting each other's bodies: the folding settles with edges left over, so debug
builds panic. -/
theorem leftClique_settles : ∃ L, SettlesTo (Loopless (LeftGraph Samples.leftClique)) L ∧ L 1 2 := by
  refine ⟨fun A B => (A, B) ∈ Samples.foldTimes 2 (Samples.leftEdges Samples.leftClique),
    ⟨2, fun A B => ⟨?_, ?_⟩⟩, by decide +kernel⟩
  · rw [Samples.fold_iff (Samples.mem_leftEdges (by decide))]
  · rw [Samples.fold_iff (Samples.mem_leftEdges (by decide))]
    have h1 : ∀ e ∈ Samples.foldTimes 3 (Samples.leftEdges Samples.leftClique),
        e ∈ Samples.foldTimes 2 (Samples.leftEdges Samples.leftClique) := by decide +kernel
    have h2 : ∀ e ∈ Samples.foldTimes 2 (Samples.leftEdges Samples.leftClique),
        e ∈ Samples.foldTimes 3 (Samples.leftEdges Samples.leftClique) := by decide +kernel
    exact ⟨h1 _, h2 _⟩

example : Panics (fun n => Tabler.new true n (Samples.grammar Samples.leftClique)) .dbgFirstNotTerminal :=
  (C79_panics_iff (D := Samples.leftClique) (S := 0) (eof := 99) (by decide +kernel)
    (Samples.noEmpty_of (by decide)) (by intro d hd; revert d; decide) _).mpr
    ⟨rfl, Or.inl ⟨rfl, let ⟨L, h, h'⟩ := leftClique_settles; ⟨L, h, 1, 2, h'⟩⟩⟩

/-- Three nonterminals on a cycle: the folding goes back and forth between two graphs. -/
theorem leftCycle_unsettled : ¬ ∃ L, SettlesTo (Loopless (LeftGraph Samples.leftCycle)) L := by
  rintro ⟨L, n, h⟩
  let l := Samples.leftEdges Samples.leftCycle
  have hper : ∀ m, Samples.foldTimes (2 * m) l = l ∧
      Samples.foldTimes (2 * m + 1) l = Samples.foldList l := by
    intro m
    induction m with
    | zero => exact ⟨rfl, rfl⟩
    | succ m ih =>
      have h1 : Samples.foldTimes (2 * (m + 1)) l = l := by
        show Samples.foldList (Samples.foldTimes (2 * m + 1) l) = l
        rw [ih.2]; decide +kernel
      refine ⟨h1, ?_⟩
      show Samples.foldList (Samples.foldTimes (2 * (m + 1)) l) = _
      rw [h1]
  have hiff : ∀ k A B, Fold (Loopless (LeftGraph Samples.leftCycle)) k A B ↔
      (A, B) ∈ Samples.foldTimes k l := Samples.fold_iff (Samples.mem_leftEdges (by decide))
  have h0 := fold_stays h n 1 2
  have h1 := fold_stays h (n + 1) 1 2
  rw [hiff, show n + n = 2 * n by omega, (hper n).1] at h0
  rw [hiff, show n + (n + 1) = 2 * n + 1 by omega, (hper n).2] at h1
  have a : (1, 2) ∈ l := by decide
  have b : (1, 2) ∉ Samples.foldList l := by decide +kernel
  exact b (h1.mpr (h0.mp a))

example (dbg : Bool) : Diverges (fun n => Tabler.new dbg n (Samples.grammar Samples.leftCycle)) :=
  (C79_diverges_iff (D := Samples.leftCycle) (S := 0) (eof := 99) (by cases dbg <;> decide +kernel)
    (Samples.noEmpty_of (by decide)) (by intro d hd; revert d; decide)).mpr (Or.inl leftCycle_unsettled)

end Lrp.Props
