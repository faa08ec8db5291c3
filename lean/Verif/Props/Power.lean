import Verif.Proofs.Power
import Verif.Props.Halt

/-! C36, C52: which builder finds conflicts where. -/

namespace Lrp.Props
open Spec
set_option maxRecDepth 100000

variable {T : Type} [LinOrd T] [DecidableEq T]

/-- What C36 needs of the FIRST sets: built in debug mode, or built with the two graphs of C06 folding
away, or every nonterminal begins with some terminal. -/
def FirstUsable (dbg : Bool) (D : Decls T) : Prop :=
  dbg = true ∨ (FoldsAway (Loopless (LeftGraph D)) ∧ FoldsAway (Loopless (RightGraph D))) ∨
    ∀ A, Nonterminal D A → ∃ y, Terminal D y ∧ InFirst D A y

theorem FirstUsable.of_productive {dbg : Bool} {D : Decls T} (hne : NoEmpty D) (h : AllProductive D) :
    FirstUsable dbg D := by
  refine Or.inr (Or.inr fun A hA => ?_)
  obtain ⟨w, hw, ht⟩ := h A hA
  cases w with
  | nil => exact absurd rfl (derives_ne_nil hne hw (by simp))
  | cons y v => exact ⟨y, ht y (by simp), v, hw⟩

theorem FirstUsable.first {k : Method} {dbg : Bool} {D : Decls T} {S eof : T} {t : Tabler T}
    (h : FirstUsable dbg D) (ht : Makes k dbg D S eof t) (he : Terminal D eof) :
    ∀ A x, Tabler.Has t.first A x → ∃ y, Terminal D y ∧ InFirst D x y := by
  obtain ⟨g, n, t0, hg, ht0, _, e, _⟩ := ht.tabler
  intro A x hx
  rw [e] at hx
  have key : (dbg = true ∨
      (Terminal D eof ∧ FoldsAway (Loopless (LeftGraph D)) ∧ FoldsAway (Loopless (RightGraph D)))) →
      ∃ y, Terminal D y ∧ InFirst D x y := by
    intro h
    obtain ⟨F, h1, h2⟩ := hx
    exact ⟨x, (C08_only_terminals_partial hg ht0 h).1 A F h1 x h2, InFirst.refl⟩
  rcases h with h | ⟨h1, h2⟩ | h
  · exact key (Or.inl h)
  · exact key (Or.inr ⟨he, h1, h2⟩)
  · by_cases hT : Terminal D x
    · exact ⟨x, hT, InFirst.refl⟩
    · exact h x (not_terminal_iff.mp hT)

/-- C36: if the Slr table has no conflicts, neither have the Clr and the Lalr table. -/
theorem C36_slr_weakest {k : Method} {dbg dbg' : Bool} {D : Decls T} {S eof : T} {t t' : Tabler T}
    (h : Makes .slr dbg D S eof t) (h' : Makes k dbg' D S eof t') (hk : k = .clr ∨ k = .lalr)
    (he : Terminal D eof) (hf : FirstUsable dbg' D) (hno : t.conflicts = []) : t'.conflicts = [] :=
  h'.no_conflict.mpr (h.power (by rcases hk with rfl | rfl <;> simp) h' he (hf.first h' he)
    (h.no_conflict.mp hno))

/-- C36 for grammars without useless nonterminals, in every build. -/
theorem C36_productive {k : Method} {dbg dbg' : Bool} {D : Decls T} {S eof : T} {t t' : Tabler T}
    (h : Makes .slr dbg D S eof t) (h' : Makes k dbg' D S eof t') (hk : k = .clr ∨ k = .lalr)
    (he : Terminal D eof) (hpr : AllProductive D) (hno : t.conflicts = []) : t'.conflicts = [] := by
  obtain ⟨_, _, _, ha, _⟩ := h'.auto
  exact C36_slr_weakest h h' hk he (.of_productive ha.noEmpty hpr) hno

/-- Not vacuous: the expression grammar. -/
example {t : Tabler Nat} (h : Makes .lalr false Samples.expr 0 99 t) : t.conflicts = [] :=
  C36_productive makes_exprSlr h (Or.inr rfl) expr_eof expr_productive exprSlr_ok.2.2

/-- The converse fails: for `S → L = R | R`, `L → * R | id`, `R → L` only the Slr table has a conflict. -/
theorem C36_strict : ∃ t t' t'', Makes .slr true Samples.pointers 0 99 t ∧
    Makes .clr true Samples.pointers 0 99 t' ∧ Makes .lalr true Samples.pointers 0 99 t'' ∧
    t.conflicts ≠ [] ∧ t'.conflicts = [] ∧ t''.conflicts = [] := by
  have hg : Grammar.new true 0 (grammarMap Samples.pointers) 99 =
    .ok (Samples.grammar Samples.pointers) := by decide +kernel
  have h : ∃ t, Slr.new true 500 (Samples.grammar Samples.pointers) = .ok t ∧ t.conflicts ≠ [] := by
    refine ⟨_, rfl, ?_⟩; decide +kernel
  obtain ⟨t, h1, h2⟩ := h
  have h : ∃ t, Clr.new true 500 (Samples.grammar Samples.pointers) = .ok t ∧ t.conflicts = [] := by
    refine ⟨_, rfl, ?_⟩; decide +kernel
  obtain ⟨t', h3, h4⟩ := h
  have h : ∃ l, Lalr.new true 500 (Samples.grammar Samples.pointers) = .ok l ∧
      l.table.conflicts = [] := by
    refine ⟨_, rfl, ?_⟩; decide +kernel
  obtain ⟨l, h5, h6⟩ := h
  refine ⟨t, t', l.table, ⟨_, hg, 500, h1⟩, ⟨_, hg, 500, h3⟩, ⟨_, hg, 500, ?_⟩, h2, h4, h6⟩
  show (do let l ← Lalr.new true 500 (Samples.grammar Samples.pointers); return l.table) = _
  rw [h5]; rfl

/-- C36 needs the hypothesis on FIRST: in release builds nonterminals that begin with each other and
with no terminal stay in FIRST sets, and then stand in lookaheads of Clr and Lalr, not in FOLLOW. -/
theorem C36_needs_first : ∃ t t' t'', Makes .slr false Samples.hollowClique 0 99 t ∧
    Makes .clr false Samples.hollowClique 0 99 t' ∧ Makes .lalr false Samples.hollowClique 0 99 t'' ∧
    Terminal Samples.hollowClique 99 ∧
    t.conflicts = [] ∧ t'.conflicts ≠ [] ∧ t''.conflicts ≠ [] := by
  have hg : Grammar.new false 0 (grammarMap Samples.hollowClique) 99 =
    .ok (Samples.grammar Samples.hollowClique) := by decide +kernel
  have h : ∃ t, Slr.new false 500 (Samples.grammar Samples.hollowClique) = .ok t ∧
      t.conflicts = [] := by
    refine ⟨_, rfl, ?_⟩; decide +kernel
  obtain ⟨t, h1, h2⟩ := h
  have h : ∃ t, Clr.new false 500 (Samples.grammar Samples.hollowClique) = .ok t ∧
      t.conflicts ≠ [] := by
    refine ⟨_, rfl, ?_⟩; decide +kernel
  obtain ⟨t', h3, h4⟩ := h
  have h : ∃ l, Lalr.new false 500 (Samples.grammar Samples.hollowClique) = .ok l ∧
      l.table.conflicts ≠ [] := by
    refine ⟨_, rfl, ?_⟩; decide +kernel
  obtain ⟨l, h5, h6⟩ := h
  refine ⟨t, t', l.table, ⟨_, hg, 500, h1⟩, ⟨_, hg, 500, h3⟩, ⟨_, hg, 500, ?_⟩, ?_, h2, h4, h6⟩
  · show (do let l ← Lalr.new false 500 (Samples.grammar Samples.hollowClique); return l.table) = _
    rw [h5]; rfl
  · unfold Terminal; decide

/-! ### C52: a Lalr table without conflicts -/

/-- C52 in full: if the Lalr table has no conflicts, the grammar is LR(1): the Clr table has none. -/
def C52_statement : Prop :=
  ∀ (D : Decls Nat) (S eof : Nat) (t t' : Tabler Nat), Makes .lalr true D S eof t →
    Makes .clr true D S eof t' → Terminal D eof → t.conflicts = [] → t'.conflicts = []

/-- C52, the part that holds: lookaheads have been passed on along all shifts and gotos. -/
theorem C52_partial {dbg dbg' : Bool} {D : Decls T} {S eof : T} {t t' : Tabler T}
    (h : Makes .lalr dbg D S eof t) (hpr : Propagated t) (h' : Makes .clr dbg' D S eof t')
    (he : Terminal D eof) (hf : FirstUsable dbg' D) (hno : t.conflicts = []) : t'.conflicts = [] :=
  h'.no_conflict.mpr (h.power_clr (fun _ => hpr) h' he (hf.first h' he) (h.no_conflict.mp hno))

/-- Not vacuous: the expression grammar. -/
example {t : Tabler Nat} (h : Makes .clr false Samples.expr 0 99 t) : t.conflicts = [] := by
  obtain ⟨_, _, _, ha, _⟩ := h.auto
  exact C52_partial makes_exprLalr exprLalr_propagated h expr_eof
    (.of_productive ha.noEmpty expr_productive) exprLalr_ok.2.2

/-- C52 is false in general: the conflict of `S → A x | z A y`, `A → c B`, `B → d e | d e y` shows only
under a lookahead that `Lalr` loses. -/
theorem C52_false : ¬ C52_statement := by
  intro hst
  have hg : Grammar.new true 0 (grammarMap Samples.hiddenConflict) 99 =
    .ok (Samples.grammar Samples.hiddenConflict) := by decide +kernel
  have h : ∃ l, Lalr.new true 500 (Samples.grammar Samples.hiddenConflict) = .ok l ∧
      l.table.conflicts = [] := by
    refine ⟨_, rfl, ?_⟩; decide +kernel
  obtain ⟨l, h1, h2⟩ := h
  have h : ∃ t, Clr.new true 500 (Samples.grammar Samples.hiddenConflict) = .ok t ∧
      t.conflicts ≠ [] := by
    refine ⟨_, rfl, ?_⟩; decide +kernel
  obtain ⟨t', h3, h4⟩ := h
  refine h4 (hst Samples.hiddenConflict 0 99 l.table t' ⟨_, hg, 500, ?_⟩ ⟨_, hg, 500, h3⟩ ?_ h2)
  · show (do let l ← Lalr.new true 500 (Samples.grammar Samples.hiddenConflict); return l.table) = _
    rw [h1]; rfl
  · unfold Terminal; decide

end Lrp.Props
