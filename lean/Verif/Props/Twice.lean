import Verif.Proofs.Twice
import Verif.Props.Meets
import Verif.Props.Ambiguous

/-! C106: ambiguity shows. -/

set_option linter.unusedSectionVars false

namespace Lrp.Props
open Spec
set_option maxRecDepth 100000

variable {M T : Type} [LinOrd T] [DecidableEq T]

/-- A run that comes to a conflict is a parse that reports one. -/
theorem clash_parses {k : Method} {dbg : Bool} {D : Decls T} {S eof : T} {t : Tabler T}
    (ht : Makes k dbg D S eof t) (he : Terminal D eof) {maps : ReductMap M T} {toks : List (Token M T)}
    (hred : Evaluates D maps toks) (hT : TerminalToks D toks)
    (h : Clash t.actions eof (⟨[0], [], toks⟩ : Conf M T)) :
    ∃ a b, Parses t maps toks (.error (.conflict a b)) := by
  obtain ⟨b0, next, red, ha, _⟩ := ht.auto
  obtain ⟨c, a, b, hm, hf⟩ := h
  obtain ⟨e, k1, k2⟩ := ha.parse_fail ht.eofHead he hred hT hm hf
  cases hf with
  | conflict h1 =>
    cases k1 with
    | noAction h2 h3 => unfold cellAt at h1; rw [h2] at h1; simp [h3] at h1
    | eof h2 => cases h2.symm.trans h1
    | conflict h2 => exact ⟨_, _, k2⟩
    | incomplete h2 _ => rw [h2] at h1; cases h1
    | conflict' h2 _ _ _ => rw [h2] at h1; cases h1
  | conflict' h1 h1a h1b h1c =>
    cases k1 with
    | noAction h2 h3 => unfold cellAt at h1; rw [h2] at h1; simp [h3] at h1
    | eof h2 => cases h2.symm.trans h1
    | conflict h2 => rw [h2] at h1; cases h1
    | incomplete h2 _ => rw [h2] at h1; cases h1
    | conflict' h2 _ _ _ => exact ⟨_, _, k2⟩

/-- C106: an input with two parse trees is answered with `Conflict`, by every Slr and Clr parser (and every Lalr
parser whose lookaheads have been passed on), whatever other conflicts the table has. -/
theorem C106_sentence {k : Method} {dbg : Bool} {D : Decls T} {S eof : T} {t : Tabler T}
    (ht : Makes k dbg D S eof t) (hk : k = .lalr → Propagated t) (hS : InNoBody D S) (h1 : SingleStart D S)
    (he : Terminal D eof) {t1 t2 : Tree M T} (hv1 : Tree.Valid D t1) (hv2 : Tree.Valid D t2) (hr1 : t1.root = S)
    (hr2 : t2.root = S) (hy : t1.yield = t2.yield) (hne : t1 ≠ t2) {maps : ReductMap M T}
    (hred : Evaluates D maps t1.yield) : ∃ a b, Parses t maps t1.yield (.error (.conflict a b)) := by
  obtain ⟨b0, next, red, ha, hl⟩ := ht.looks hk he
  have hT : TerminalToks D t1.yield := fun tok htok => hv1.terminals tok htok
  have key : ∀ {tr : Tree M T}, Tree.Valid D tr → tr.root = S →
      Clash t.actions eof (⟨[0], [], tr.yield⟩ : Conf M T) ∨ ∃ cs c, tr = .node S 0 cs ∧
        Moves t.actions eof ⟨[0], [], tr.yield⟩ c ∧ Accepts t.actions eof c ∧ c.trees = cs.reverse := by
    intro tr hv hr
    cases hv with
    | leaf h =>
      simp only [Tree.root] at hr
      rw [hr] at h
      exact absurd h (not_terminal_iff.mpr ht.start)
    | @node A i cs hp hcs =>
      simp only [Tree.root] at hr
      subst hr
      have := h1 i _ hp
      subst this
      rcases Looks.complete ha hl hS he (.node hp hcs) with hcl | ⟨c, k1, k2, k3⟩
      · exact .inl (by simpa using hcl)
      · exact .inr ⟨cs, c, rfl, by simpa using k1, k2, k3⟩
  rcases key hv1 hr1 with hcl | ⟨cs1, c1, e1, m1, a1, u1⟩
  · exact clash_parses ht he hred hT hcl
  · rcases key hv2 hr2 with hcl | ⟨cs2, c2, e2, m2, a2, u2⟩
    · exact clash_parses ht he hred hT (hy ▸ hcl)
    · exfalso
      rw [hy] at m1
      have := dead_unique m1 m2 (fun _ => a1.no_move) (fun _ => a2.no_move)
      subst this
      rw [u1] at u2
      have := List.reverse_inj.mp u2
      exact hne (by rw [e1, e2, this])

/-- C106: success means one tree. If `parse` returns a value, with any reductors and whatever conflicts the table
has, the input has exactly one parse tree from the start rule. -/
theorem C106_unique {k : Method} {dbg : Bool} {D : Decls T} {S eof : T} {t : Tabler T}
    (ht : Makes k dbg D S eof t) (hk : k = .lalr → Propagated t) (hS : InNoBody D S) (h1 : SingleStart D S)
    (he : Terminal D eof) {maps : ReductMap M T} {toks : List (Token M T)} {v : M}
    (h : Parses t maps toks (.ok v)) :
    ∃ tr, (Tree.Valid D tr ∧ tr.root = S ∧ tr.yield = toks) ∧
      ∀ tr', Tree.Valid D tr' → tr'.root = S → tr'.yield = toks → tr' = tr := by
  obtain ⟨cs, last, v1, v2, _⟩ := C24_value ht hS he h
  obtain ⟨b0, next, red, ha, hl⟩ := ht.looks hk he
  have hT : TerminalToks D toks := fun tok htok => v1.terminals tok (by simpa [v2] using htok)
  obtain ⟨n, h⟩ := h
  have hend := ha.parse_end (maps := maps) ht.eofHead he hT n
  simp only at h
  rw [h] at hend
  cases hend with
  | @ok c _ _ _ hm hacc _ _ _ =>
    have key : ∀ {tr : Tree M T}, Tree.Valid D tr → tr.root = S → tr.yield = toks →
        tr = .node S 0 c.trees.reverse := by
      intro tr hv hr hy
      cases hv with
      | leaf h =>
        simp only [Tree.root] at hr
        rw [hr] at h
        exact absurd h (not_terminal_iff.mpr ht.start)
      | @node A i cs hp hcs =>
        simp only [Tree.root] at hr
        subst hr
        have := h1 i _ hp
        subst this
        rw [Tree.yield_node] at hy
        rcases Looks.complete ha hl hS he (.node hp hcs) with ⟨d, a, b, k1, k2⟩ | ⟨d, k1, k2, k3⟩
        · rw [hy] at k1
          have := dead_unique hm k1 (fun _ => hacc.no_move) (fun _ => k2.no_move)
          subst this
          exact (hacc.not_fails k2).elim
        · rw [hy] at k1
          have := dead_unique hm k1 (fun _ => hacc.no_move) (fun _ => k2.no_move)
          subst this
          rw [k3, List.reverse_reverse]
    refine ⟨_, ⟨v1, rfl, by simpa using v2⟩, fun tr' w1 w2 w3 => ?_⟩
    rw [key w1 w2 w3, key v1 rfl (by simpa using v2)]

/-- C106: if some tokens have two parse trees at a rule that can be reached, then there is a sentence that is
answered with `Conflict`, and so the table has conflicts. -/
theorem C106_rule {k : Method} {dbg : Bool} {D : Decls T} {S eof A : T} {t : Tabler T}
    (ht : Makes k dbg D S eof t) (hk : k = .lalr → Propagated t) (hS : InNoBody D S) (h1 : SingleStart D S)
    (he : Terminal D eof) (hpr : AllProductive D) (hr : Reachable D S A) (ha : Ambiguous D A) :
    t.conflicts ≠ [] ∧ ∃ toks : List (Token Unit T), Sentence D S (toks.map Token.ty) ∧
      ∃ a b, Parses t (Parser.empty t) toks (.error (.conflict a b)) := by
  obtain ⟨t1, t2, v1, v2, r1, r2, hy, hne⟩ := ha.up hpr hr
  have h := C106_sentence ht hk hS h1 he v1 v2 r1 r2 hy hne ((reductors_empty ht.grammar).evaluates t1.yield)
  have hs : Sentence D S (t1.yield.map Token.ty) := ⟨r1 ▸ v1.derives, fun x hx => by
    obtain ⟨tok, h1, rfl⟩ := List.mem_map.mp hx
    exact v1.terminals tok h1⟩
  refine ⟨fun hc => ?_, t1.yield, hs, h⟩
  obtain ⟨a, b, h⟩ := h
  exact not_conflict ht hc he (terminalToks_of_sentence hs) h

/-- What `C106_rule` concludes. -/
def Shows (D : Decls T) (S : T) (t : Tabler T) : Prop :=
  t.conflicts ≠ [] ∧ ∃ toks : List (Token Unit T), Sentence D S (toks.map Token.ty) ∧
    ∃ a b, Parses t (Parser.empty t) toks (.error (.conflict a b))

section
variable {k : Method} {dbg : Bool} {D : Decls T} {S eof A : T} {t : Tabler T}
  (ht : Makes k dbg D S eof t) (hk : k = .lalr → Propagated t) (hS : InNoBody D S) (h1 : SingleStart D S)
  (he : Terminal D eof) (hpr : AllProductive D) (hr : Reachable D S A)
include ht hk hS h1 he hpr hr

/-- C106: writing the same alternative twice shows as a conflict. -/
theorem C106_same {i j : Nat} {b : List T} (hi : IsProd D A i b) (hj : IsProd D A j b) (hij : i ≠ j) :
    Shows D S t :=
  C106_rule ht hk hS h1 he hpr hr (ambiguous_same hpr hi hj hij)

/-- C106: so does a rule that comes back to itself. -/
theorem C106_loop {b : List T} (hs : Step D [A] b) (hd : Derives D b [A]) : Shows D S t :=
  C106_rule ht hk hS h1 he hpr hr (ambiguous_loop hpr hs hd)

/-- C106: so does a rule that derives something with itself at both ends. -/
theorem C106_ends {b : List T} (hd : Derives D [A] (A :: b ++ [A])) : Shows D S t :=
  C106_rule ht hk hS h1 he hpr hr (ambiguous_ends hpr hd)

/-- C106: so does a rule with a left recursive and a right recursive alternative. -/
theorem C106_both {i j : Nat} {a b : List T} (hi : IsProd D A i (A :: a)) (hj : IsProd D A j (b ++ [A])) :
    Shows D S t :=
  C106_rule ht hk hS h1 he hpr hr (ambiguous_both hpr hi hj)

/-- C106: so does the dangling else: `A → b A` and `A → b A c`. -/
theorem C106_dangling {i j : Nat} {b c : List T} (hi : IsProd D A i (b ++ [A])) (hj : IsProd D A j (b ++ A :: c))
    (hij : i ≠ j) : Shows D S t :=
  C106_rule ht hk hS h1 he hpr hr (ambiguous_dangling hpr hi hj hij)

end

/-- Statements with a dangling else: `S → i S | i S e S | x`. -/
def dangling : Decls Nat := [(0, [[1]]), (1, [[10, 1], [10, 1, 11, 1], [12]])]

theorem dangling_productive : AllProductive dangling :=
  allProductive [(1, 2), (0, 0)] (by decide) (by decide +kernel) (by decide)

/-- Not vacuous: every Slr or Clr table of the dangling else. -/
example {k : Method} {t : Tabler Nat} (hk : k ≠ .lalr) (h : Makes k true dangling 0 99 t) :
    t.conflicts ≠ [] ∧ ∃ toks : List (Token Unit Nat), Sentence dangling 0 (toks.map Token.ty) ∧
      ∃ a b, Parses t (Parser.empty t) toks (.error (.conflict a b)) :=
  C106_dangling h (fun e => absurd e hk) (Samples.inNoBody (by decide)) (by obtain ⟨g, hg, _⟩ := h; exact single_start_debug hg)
    (by unfold Terminal; decide) dangling_productive
    ⟨[], [], .head (by simpa using Step.mk [] [] (isProd_of_mem (D := dangling) (by decide) (bs := [[1]]) (by decide) rfl :
      IsProd dangling 0 0 [1])) (.refl _)⟩ (b := [10])
    (isProd_of_mem (by decide) (bs := [[10, 1], [10, 1, 11, 1], [12]]) (by decide) rfl)
    (isProd_of_mem (by decide) (bs := [[10, 1], [10, 1, 11, 1], [12]]) (by decide) rfl) (by decide : 0 ≠ 1)

/-- Not vacuous: such a table is made, and where the conflict is not met parsing succeeds (`i x`), so that
`C106_unique` applies. -/
example : ∃ t, Makes .slr true dangling 0 99 t ∧ Parses t (Parser.empty t) (Samples.toks [10, 12]) (.ok ()) := by
  have h : ∃ t, Slr.new true 50 (Samples.grammar dangling) = .ok t ∧
      Parser.parse t 50 (Samples.toks [10, 12]) (Parser.empty t) = .ok (.ok ()) := by
    exact ⟨_, rfl, rfl⟩
  obtain ⟨t, h1, h2⟩ := h
  exact ⟨t, ⟨_, by decide +kernel, 50, h1⟩, 50, h2⟩

/-- Of all Lalr tables C106 is not true: this one has no conflicts although the grammar is ambiguous. -/
theorem C106_false_lalr : ∃ t, Makes .lalr true hiddenTwo 0 99 t ∧ t.conflicts = [] ∧ InNoBody hiddenTwo 0 ∧
    SingleStart hiddenTwo 0 ∧ Terminal hiddenTwo 99 ∧ Ambiguous hiddenTwo 0 := by
  obtain ⟨t, h1, h2, h3, h4, h5, t1, t2, h6⟩ := C25_false_lalr
  exact ⟨t, h1, h2, h3, h4, h5, t1, t2, h6⟩

end Lrp.Props
