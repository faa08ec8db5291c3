import Verif.Proofs.Fewer
import Verif.Props.Knuth

/-!
C88 — taking alternatives away introduces no conflicts.  C89 — rules that cannot be used introduce none.
-/

set_option linter.unusedSectionVars false

namespace Lrp.Props
open Spec
set_option maxRecDepth 100000

variable {T : Type} [LinOrd T] [DecidableEq T] {M : Type}

/-- Checks `Fewer`. -/
theorem fewer_of {D' D : Decls T} (hD : (D.map Prod.fst).Nodup) (hb : ∀ d ∈ D', d.2.Nodup)
    (h : ∀ d' ∈ D', ∃ d ∈ D, d.1 = d'.1 ∧ ∀ b ∈ d'.2, b ∈ d.2)
    (hc : ∀ d' ∈ D', ∀ b ∈ d'.2, ∀ x ∈ b, (∃ d ∈ D, d.1 = x) → ∃ d ∈ D', d.1 = x) : Fewer D' D := by
  have key : ∀ A i b, IsProd D' A i b → ∃ j, IsProd D A j b := by
    intro A i b hp
    obtain ⟨d', h1, rfl, h3⟩ := Samples.mem_of_isProd hp
    obtain ⟨d, k1, k2, k3⟩ := h d' h1
    obtain ⟨j, hj, e⟩ := List.getElem_of_mem (k3 b (List.mem_of_getElem? h3))
    exact ⟨j, isProd_of_mem hD (k2 ▸ k1 : (d'.1, d.2) ∈ D) (by rw [List.getElem?_eq_getElem hj, e])⟩
  have hex : ∀ A i, ∃ j, ∀ b, IsProd D' A i b → IsProd D A j b := by
    intro A i
    by_cases h : ∃ b, IsProd D' A i b
    · obtain ⟨b, hp⟩ := h
      obtain ⟨j, hj⟩ := key A i b hp
      exact ⟨j, fun b' hp' => hp.unique hp' ▸ hj⟩
    · exact ⟨0, fun b hp => absurd ⟨b, hp⟩ h⟩
  refine ⟨fun A i => (hex A i).choose, fun A i => (hex A i).choose_spec, ?_, ?_⟩
  · intro A i b j c hp hq e
    have h1 := (hex A i).choose_spec b hp
    have h2 := (hex A j).choose_spec c hq
    simp only at e
    rw [e] at h1
    have hbc := h1.unique h2
    subst hbc
    obtain ⟨bs, hd, k3⟩ := hp
    obtain ⟨bs', hd', k4⟩ := hq
    cases hd.unique hd'
    obtain ⟨pre, post, k1, _⟩ := hd
    have hn := hb (A, bs) (by rw [k1]; simp)
    exact (List.getElem?_inj (List.getElem?_eq_some_iff.mp k3).1 hn).mp (k3.trans k4.symm)
  · intro A i b hp x hx hn
    obtain ⟨d', h1, rfl, h3⟩ := Samples.mem_of_isProd hp
    exact hc d' h1 b (List.mem_of_getElem? h3) x hx hn

/-! ### C88 -/

/-- C88 for Clr: if some table of the grammar has no conflicts, the Clr table of the grammar without some of
its productions has none. -/
theorem C88_clr {k : Method} {dbg dbg' : Bool} {D D' : Decls T} {S eof : T} {t t' : Tabler T}
    (h : Makes k dbg D S eof t) (h' : Makes .clr dbg' D' S eof t') (hk : k = .lalr → Propagated t)
    (he : Terminal D eof) (he' : Terminal D' eof) (hS : SingleStart D S) (hpr : AllProductive D')
    (hf : Fewer D' D) (hno : t.conflicts = []) : t'.conflicts = [] :=
  C63_no_conflicts h' he' hpr (hf.lr1 h'.start (C63_lr1 h hk he hS hno))

/-- C88 for Slr. -/
theorem C88_slr {dbg dbg' : Bool} {D D' : Decls T} {S eof : T} {t t' : Tabler T}
    (h : Makes .slr dbg D S eof t) (h' : Makes .slr dbg' D' S eof t')
    (he : Terminal D eof) (he' : Terminal D' eof) (hS : SingleStart D S) (hpr : AllProductive D')
    (hre : ∀ A, Nonterminal D' A → Reachable D' S A)
    (hg : dbg' = true ∨ (FoldsAway (Loopless (LeftGraph D')) ∧ FoldsAway (Loopless (RightGraph D'))))
    (hf : Fewer D' D) (hno : t.conflicts = []) : t'.conflicts = [] :=
  C64_no_conflicts h' he' hpr hre hg (hf.slr1 h'.start he (C64_slr1 h he hS hno))

/-- Expressions without `*`. -/
def sums : Decls Nat := [(0, [[1]]), (1, [[1, 10, 2], [2]]), (2, [[3]]), (3, [[12, 1, 13], [14]])]

/-- Not vacuous: the expressions without `*`. -/
example : Fewer sums Samples.expr ∧ AllProductive sums ∧ Terminal sums 99 ∧
    ∃ t', Makes .clr true sums 0 99 t' ∧ t'.conflicts = [] := by
  have hf : Fewer sums Samples.expr := fewer_of (by decide) (by decide) (by decide) (by decide)
  have hpr : AllProductive sums := allProductive [(3, 1), (2, 0), (1, 1), (0, 0)] (by decide) (by decide +kernel) (by decide)
  have he : Terminal sums 99 := by unfold Terminal; decide
  have hg : Grammar.new true 0 (grammarMap sums) 99 = .ok (Samples.grammar sums) := by decide +kernel
  have h : ∃ t, Clr.new true 500 (Samples.grammar sums) = .ok t := ⟨_, rfl⟩
  obtain ⟨t, h1⟩ := h
  have ht : Makes .clr true sums 0 99 t := ⟨_, hg, 500, h1⟩
  exact ⟨hf, hpr, he, t, ht,
    C88_clr makes_exprSlr ht (by simp) expr_eof he expr_single hpr hf exprSlr_ok.2.2⟩

/-- S → a A a | b A b | a B b | b B a | a C, A → e, B → e, C → e q. -/
def wide : Decls Nat :=
  [(0, [[1]]), (1, [[10, 2, 10], [11, 2, 11], [10, 3, 11], [11, 3, 10], [10, 4]]), (2, [[12]]), (3, [[12]]),
   (4, [[12, 13]])]

/-- The same without the alternative a C. -/
def narrow : Decls Nat :=
  [(0, [[1]]), (1, [[10, 2, 10], [11, 2, 11], [10, 3, 11], [11, 3, 10]]), (2, [[12]]), (3, [[12]]),
   (4, [[12, 13]])]

/-- C88 is false of Lalr: the Lalr table of `wide` has no conflicts (and its lookaheads have been passed on),
that of `narrow` has: without the alternative two states are merged. -/
theorem C88_false_lalr : Fewer narrow wide ∧ AllProductive narrow ∧
    ∃ t t', Makes .lalr true wide 0 99 t ∧ Makes .lalr true narrow 0 99 t' ∧ Propagated t ∧ Propagated t' ∧
      t.conflicts = [] ∧ t'.conflicts ≠ [] := by
  refine ⟨fewer_of (by decide) (by decide) (by decide) (by decide),
    allProductive [(2, 0), (3, 0), (4, 0), (1, 0), (0, 0)] (by decide) (by decide +kernel) (by decide), ?_⟩
  have hg : Grammar.new true 0 (grammarMap wide) 99 = .ok (Samples.grammar wide) := by decide +kernel
  have hg' : Grammar.new true 0 (grammarMap narrow) 99 = .ok (Samples.grammar narrow) := by decide +kernel
  have h : ∃ l, Lalr.new true 500 (Samples.grammar wide) = .ok l ∧ l.table.conflicts = [] ∧
      propagatedB l.table = true := by
    refine ⟨_, rfl, ?_⟩
    decide +kernel
  have h' : ∃ l, Lalr.new true 500 (Samples.grammar narrow) = .ok l ∧ l.table.conflicts ≠ [] ∧
      propagatedB l.table = true := by
    refine ⟨_, rfl, ?_⟩
    decide +kernel
  obtain ⟨l, h1, h2, h3⟩ := h
  obtain ⟨l', h1', h2', h3'⟩ := h'
  refine ⟨l.table, l'.table, ⟨_, hg, 500, ?_⟩, ⟨_, hg', 500, ?_⟩, propagated_of_check h3, propagated_of_check h3', h2, h2'⟩
  · show (do let l ← Lalr.new true 500 (Samples.grammar wide); return l.table) = _
    rw [h1]; rfl
  · show (do let l ← Lalr.new true 500 (Samples.grammar narrow); return l.table) = _
    rw [h1']; rfl

/-! ### C89 -/

/-- C89 for Clr: rules that cannot be used do not matter. -/
theorem C89_clr {dbg dbg' : Bool} {D D' : Decls T} {S eof : T} {t t' : Tabler T}
    (h : Makes .clr dbg D S eof t) (h' : Makes .clr dbg' D' S eof t')
    (he : Terminal D eof) (he' : Terminal D' eof) (hS : SingleStart D S) (hpr : AllProductive D)
    (hpr' : AllProductive D') (hsame : SameReachable D' D S) : t'.conflicts = [] ↔ t.conflicts = [] := by
  have hS' : SingleStart D' S := fun i b hp => hS i b (((hsame S ⟨[], [], .refl _⟩).2 i b).mp hp)
  rw [C63_clr_iff h he hS hpr, C63_clr_iff h' he' hS' hpr', hsame.lr1]

/-- S → A x | B y, A → z, B → z. -/
def used : Decls Nat := [(0, [[1]]), (1, [[2, 10], [3, 11]]), (2, [[12]]), (3, [[12]])]

/-- The same and a rule that cannot be used: U → A y. -/
def usedMore : Decls Nat := [(0, [[1]]), (1, [[2, 10], [3, 11]]), (2, [[12]]), (3, [[12]]), (4, [[2, 11]])]

theorem usedMore_reachable {A : Nat} (h : Reachable usedMore 0 A) : A ≠ 4 := by
  rintro rfl
  obtain ⟨u, v, h⟩ := h
  rcases derives_from h (x := 4) (by simp) with h | ⟨A, i, b, h1, h2⟩
  · simp at h
  · have : InNoBody usedMore 4 := Samples.inNoBody (by decide)
    exact this A i b h1 h2

theorem used_same : SameReachable used usedMore 0 := by
  intro A hA
  have h4 := usedMore_reachable hA
  have e : usedMore = used ++ [(4, [[2, 11]])] := rfl
  constructor
  · unfold Nonterminal
    rw [e]
    simp only [List.mem_append, List.mem_singleton]
    constructor
    · rintro ⟨d, h1, h2⟩; exact ⟨d, .inl h1, h2⟩
    · rintro ⟨d, h1 | rfl, h2⟩
      · exact ⟨d, h1, h2⟩
      · exact absurd h2.symm h4
  · intro i b
    constructor
    · intro hp
      obtain ⟨d, h1, rfl, h3⟩ := Samples.mem_of_isProd hp
      exact isProd_of_mem (by decide) (bs := d.2) (by rw [e]; exact List.mem_append_left _ h1) h3
    · intro hp
      obtain ⟨d, h1, rfl, h3⟩ := Samples.mem_of_isProd hp
      rw [e] at h1
      rcases List.mem_append.mp h1 with h1 | h1
      · exact isProd_of_mem (by decide) (bs := d.2) h1 h3
      · rw [List.mem_singleton.mp h1] at h4
        exact absurd rfl h4

/-- C89 is false of Slr, and not vacuous for Clr: with the rule, `y` is in FOLLOW(A), although no sentential
form has it after A. -/
theorem C89_false_slr : SameReachable used usedMore 0 ∧
    (∃ t t', Makes .slr true used 0 99 t ∧ Makes .slr true usedMore 0 99 t' ∧ t.conflicts = [] ∧ t'.conflicts ≠ []) ∧
    ∃ t t', Makes .clr true used 0 99 t ∧ Makes .clr true usedMore 0 99 t' ∧ t.conflicts = [] ∧ t'.conflicts = [] := by
  have hg : Grammar.new true 0 (grammarMap used) 99 = .ok (Samples.grammar used) := by decide +kernel
  have hg' : Grammar.new true 0 (grammarMap usedMore) 99 = .ok (Samples.grammar usedMore) := by decide +kernel
  have h1 : ∃ t, Slr.new true 500 (Samples.grammar used) = .ok t ∧ t.conflicts = [] := by
    refine ⟨_, rfl, ?_⟩; decide +kernel
  have h2 : ∃ t, Slr.new true 500 (Samples.grammar usedMore) = .ok t ∧ t.conflicts ≠ [] := by
    refine ⟨_, rfl, ?_⟩; decide +kernel
  have h3 : ∃ t, Clr.new true 500 (Samples.grammar used) = .ok t ∧ t.conflicts = [] := by
    refine ⟨_, rfl, ?_⟩; decide +kernel
  have h4 : ∃ t, Clr.new true 500 (Samples.grammar usedMore) = .ok t := ⟨_, rfl⟩
  obtain ⟨t1, a1, b1⟩ := h1
  obtain ⟨t2, a2, b2⟩ := h2
  obtain ⟨t3, a3, b3⟩ := h3
  obtain ⟨t4, a4⟩ := h4
  have m3 : Makes .clr true used 0 99 t3 := ⟨_, hg, 500, a3⟩
  have m4 : Makes .clr true usedMore 0 99 t4 := ⟨_, hg', 500, a4⟩
  refine ⟨used_same, ⟨t1, t2, ⟨_, hg, 500, a1⟩, ⟨_, hg', 500, a2⟩, b1, b2⟩, t3, t4, m3, m4, b3, ?_⟩
  exact (C89_clr m4 m3 (by unfold Terminal; decide) (by unfold Terminal; decide) (single_start_debug hg')
    (allProductive [(2, 0), (3, 0), (1, 0), (4, 0), (0, 0)] (by decide) (by decide +kernel) (by decide))
    (allProductive [(2, 0), (3, 0), (1, 0), (0, 0)] (by decide) (by decide +kernel) (by decide)) used_same).mp b3

end Lrp.Props
