import Verif.Proofs.Same
import Verif.Props.Fewer

/-!
C89 — rules that cannot be used change nothing in a Clr or Lalr parser.
-/

set_option linter.unusedSectionVars false

namespace Lrp.Props
open Spec
set_option maxRecDepth 100000

variable {T : Type} [LinOrd T] [DecidableEq T] {M : Type}

/-- C89: rules that cannot be used do not change the Clr or the Lalr table: the same states in the same order,
the same kernels, the same actions. -/
theorem C89_same {k : Method} (hk : k ≠ .slr) {dbg dbg' : Bool} {D D' : Decls T} {S eof : T} {t t' : Tabler T}
    (h : Makes k dbg D S eof t) (h' : Makes k dbg' D' S eof t') (hsame : SameReachable D' D S) :
    t'.states = t.states ∧ t'.kernels = t.kernels ∧ t'.actions = t.actions ∧ t'.conflicts = t.conflicts := by
  obtain ⟨h1, h2, h3, _⟩ := hsame.makes hk h h'
  exact ⟨h1, h2, h3, by unfold Tabler.conflicts; rw [h3]⟩

/-- C89: so the two parsers answer alike, on all inputs, with all reductors. -/
theorem C89_parses {k : Method} (hk : k ≠ .slr) {dbg dbg' : Bool} {D D' : Decls T} {S eof : T} {t t' : Tabler T}
    (h : Makes k dbg D S eof t) (h' : Makes k dbg' D' S eof t') (hsame : SameReachable D' D S)
    (toks : List (Token M T)) (maps : ReductMap M T) :
    Parser.dfa t' toks maps = Parser.dfa t toks maps ∧
    ∀ n, Parser.parse t' n toks maps = Parser.parse t n toks maps := by
  obtain ⟨_, _, h3, h4⟩ := hsame.makes hk h h'
  have : Parser.dfa t' toks maps = Parser.dfa t toks maps := by unfold Parser.dfa; rw [h3, h4]
  exact ⟨this, fun n => by unfold Parser.parse; rw [this]⟩

/-- `used` and a rule that cannot be used and derives nothing: U → U y A. -/
def usedHollow : Decls Nat := [(0, [[1]]), (1, [[2, 10], [3, 11]]), (2, [[12]]), (3, [[12]]), (4, [[4, 11, 2]])]

theorem used_hollow : SameReachable used usedHollow 0 := by
  have hr : ∀ {A}, Reachable usedHollow 0 A → A ≠ 4 := by
    intro A hA
    obtain ⟨u, v, h⟩ := hA
    have key : ∀ {a c : List Nat}, Derives usedHollow a c → 4 ∉ a → 4 ∉ c := by
      intro a c hd
      induction hd with
      | refl => exact id
      | head s _ ih =>
        intro ha
        refine ih ?_
        cases s with
        | @mk u v A i b hp =>
          obtain ⟨d, h1, rfl, h3⟩ := Samples.mem_of_isProd hp
          have h4 : d.1 ≠ 4 := fun e => ha (by simp [e])
          have : ∀ d ∈ usedHollow, d.1 ≠ 4 → ∀ b ∈ d.2, 4 ∉ b := by decide
          have := this d h1 h4 b (List.mem_of_getElem? h3)
          simp only [List.mem_append, List.mem_cons, not_or] at ha ⊢
          exact ⟨⟨ha.1, this⟩, ha.2.2⟩
    rintro rfl
    exact key h (by decide) (by simp)
  intro A hA
  have h4 := hr hA
  have e : usedHollow = used ++ [(4, [[4, 11, 2]])] := rfl
  constructor
  · unfold Nonterminal
    rw [e]
    simp only [List.mem_append, List.mem_singleton]
    constructor
    · rintro ⟨d, h1, h2⟩; exact ⟨d, .inl h1, h2⟩
    · rintro ⟨d, h1 | rfl, h2⟩
      · exact ⟨d, h1, h2⟩
      · exact absurd h2.symm h4
  · intro i b
    constructor
    · intro hp
      obtain ⟨d, h1, rfl, h3⟩ := Samples.mem_of_isProd hp
      exact isProd_of_mem (by decide) (bs := d.2) (by rw [e]; exact List.mem_append_left _ h1) h3
    · intro hp
      obtain ⟨d, h1, rfl, h3⟩ := Samples.mem_of_isProd hp
      rw [e] at h1
      rcases List.mem_append.mp h1 with h1 | h1
      · exact isProd_of_mem (by decide) (bs := d.2) h1 h3
      · rw [List.mem_singleton.mp h1] at h4
        exact absurd rfl h4

/-- Not vacuous: the Lalr tables (made by a debug and by a release build) with and without a rule that cannot be
used and derives nothing; and the tables of FOLLOW sets are different. -/
example : ∃ t t', Makes .lalr true usedHollow 0 99 t ∧ Makes .lalr false used 0 99 t' ∧
    SameReachable used usedHollow 0 ∧ t'.states = t.states ∧ t'.actions = t.actions ∧ t.states.length = 7 ∧
      t'.follow.get? 2 ≠ t.follow.get? 2 := by
  have hg : Grammar.new true 0 (grammarMap usedHollow) 99 = .ok (Samples.grammar usedHollow) := by decide +kernel
  have hg' : Grammar.new false 0 (grammarMap used) 99 = .ok (Samples.grammar used) := by decide +kernel
  have h : ∃ l, Lalr.new true 500 (Samples.grammar usedHollow) = .ok l ∧ l.table.states.length = 7 ∧
      l.table.follow.get? 2 = some [10, 11] := by
    refine ⟨_, rfl, ?_⟩
    decide +kernel
  have h' : ∃ l, Lalr.new false 500 (Samples.grammar used) = .ok l ∧ l.table.follow.get? 2 = some [10] := by
    refine ⟨_, rfl, ?_⟩
    decide +kernel
  obtain ⟨l, h1, h2, h3⟩ := h
  obtain ⟨l', h1', h2'⟩ := h'
  have m : Makes .lalr true usedHollow 0 99 l.table := ⟨_, hg, 500, by
    show (do let l ← Lalr.new true 500 (Samples.grammar usedHollow); return l.table) = _
    rw [h1]; rfl⟩
  have m' : Makes .lalr false used 0 99 l'.table := ⟨_, hg', 500, by
    show (do let l ← Lalr.new false 500 (Samples.grammar used); return l.table) = _
    rw [h1']; rfl⟩
  obtain ⟨k1, _, k2, _⟩ := C89_same (by decide) m m' used_hollow
  exact ⟨l.table, l'.table, m, m', used_hollow, k1, k2, h2, by rw [h3, h2']; decide⟩

end Lrp.Props
