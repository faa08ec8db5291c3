import Verif.Props.Again
import Verif.Props.Knuth
import Verif.Props.Lalr1
import Verif.Proofs.Meets

/-!
Property C90: conflicts in the table are met by inputs.
-/

set_option linter.unusedSectionVars false
set_option maxRecDepth 100000

namespace Lrp.Props
open Spec
variable {T : Type} [LinOrd T] [DecidableEq T] {M : Type}

/-- A run that stops at a conflict makes `parse` report a conflict. -/
theorem parses_conflict {k : Method} {dbg : Bool} {D : Decls T} {S eof : T} {t : Tabler T}
    (ht : Makes k dbg D S eof t) (he : Terminal D eof) {maps : ReductMap M T} {toks : List (Token M T)}
    (hred : Evaluates D maps toks) (hT : TerminalToks D toks)
    (h : Clash t.actions eof (⟨[0], [], toks⟩ : Conf M T)) :
    ∃ a b, Parses t maps toks (.error (.conflict a b)) := by
  obtain ⟨b0, next, red, ha, _⟩ := ht.auto
  obtain ⟨c, a, b, hm, hf⟩ := h
  obtain ⟨e, k1, k2⟩ := ha.parse_fail ht.eofHead he hred hT hm hf
  cases hf with
  | conflict h1 =>
    cases k1 with
    | noAction h2 h3 => unfold cellAt at h1; rw [h2] at h1; simp [h3] at h1
    | eof h2 => cases h2.symm.trans h1
    | conflict h2 => exact ⟨_, _, k2⟩
    | incomplete h2 _ => rw [h2] at h1; cases h1
    | conflict' h2 _ _ _ => rw [h2] at h1; cases h1
  | conflict' h1 h1a h1b h1c =>
    cases k1 with
    | noAction h2 h3 => unfold cellAt at h1; rw [h2] at h1; simp [h3] at h1
    | eof h2 => cases h2.symm.trans h1
    | conflict h2 => rw [h2] at h1; cases h1
    | incomplete h2 _ => rw [h2] at h1; cases h1
    | conflict' h2 _ _ _ => exact ⟨_, _, k2⟩

/-- What is asked of the tables of Lalr. -/
def Sharp (k : Method) (D : Decls T) (S : T) (t : Tabler T) : Prop :=
  k = .lalr → Propagated t ∧ Unmixed t ∧ SingleStart D S

/-- C90: if there is a conflict under a terminal in the table, there is an input on which `parse` reports a
conflict. -/
theorem C90_met {k : Method} {dbg : Bool} {D : Decls T} {S eof : T} {t : Tabler T} (ht : Makes k dbg D S eof t)
    (hk : Sharp k D S t) (hpr : AllProductive D) (hS : InNoBody D S) (he : Terminal D eof)
    {maps : ReductMap M T} (hred : Reductors D maps) (m : M) {i : Nat} {x : T} {a b : Action T}
    (hx : Terminal D x) (hc : Cell t.actions i x (.conflict a b)) :
    ∃ toks, TerminalToks D toks ∧ ∃ a' b', Parses t maps toks (.error (.conflict a' b')) := by
  obtain ⟨b0, next, red, ha, hl, hca⟩ := ht.carried hk hpr he
  obtain ⟨row, h1, h2⟩ := hc
  obtain ⟨toks, hT, hcl⟩ := Looks.meets ha hl hca hS hpr he m hx (i := i) (a := a) (b := b) (by
    unfold cellAt; rw [h1]; exact h2)
  exact ⟨toks, hT, parses_conflict ht he (hred.evaluates toks) hT hcl⟩

/-- C90: a table has no conflicts iff no input is answered with `Conflict`. For Slr in debug builds, or when the
graphs of first and last nonterminals fold away. -/
theorem C90_iff {k : Method} {dbg : Bool} {D : Decls T} {S eof : T} {t : Tabler T} (ht : Makes k dbg D S eof t)
    (hk : Sharp k D S t)
    (hs : k = .slr → dbg = true ∨ (FoldsAway (Loopless (LeftGraph D)) ∧ FoldsAway (Loopless (RightGraph D))))
    (hpr : AllProductive D) (hS : InNoBody D S) (he : Terminal D eof)
    {maps : ReductMap M T} (hred : Reductors D maps) (m : M) :
    t.conflicts = [] ↔ ∀ toks, TerminalToks D toks → ∀ a b, ¬ Parses t maps toks (.error (.conflict a b)) := by
  constructor
  · intro hc toks hT a b
    exact not_conflict ht hc he hT
  · intro hno
    refine ht.no_conflict.mpr ?_
    intro i x a b hc
    have key : ∃ y a' b', Terminal D y ∧ cellAt t.actions i y = some (.conflict a' b') := by
      by_cases hsk : k = .slr
      · by_cases hx : Terminal D x
        · exact ⟨x, a, b, hx, hc⟩
        · obtain ⟨row, h1, h2⟩ := Option.bind_eq_some_iff.mp (show t.actions[i]?.bind _ = _ from hc)
          obtain ⟨j, e⟩ := C86_columns_partial ht he (hs hsk) i row x _ h1 (not_terminal_iff.mp hx) h2
          cases e
      · obtain ⟨b0, next, red, ha, hf⟩ := ht.fullReds hsk he
        exact ha.conflict_terminal hf hpr hc
    obtain ⟨y, a', b', hy, hc'⟩ := key
    obtain ⟨row, h1, h2⟩ := Option.bind_eq_some_iff.mp (show t.actions[i]?.bind _ = _ from hc')
    obtain ⟨toks, hT, a'', b'', hp⟩ := C90_met ht hk hpr hS he hred m hy ⟨row, h1, h2⟩
    exact hno toks hT a'' b'' hp

/-- C90, with C63: a grammar is LR(1) iff its Clr parser answers no input with `Conflict`. -/
theorem C90_lr1 {dbg : Bool} {D : Decls T} {S eof : T} {t : Tabler T} (ht : Makes .clr dbg D S eof t)
    (hpr : AllProductive D) (hS : InNoBody D S) (h1 : SingleStart D S) (he : Terminal D eof) :
    LR1 D S eof ↔ ∀ toks : List (Token Unit T), TerminalToks D toks →
      ∀ a b, ¬ Parses t (Parser.empty t) toks (.error (.conflict a b)) :=
  (C63_clr_iff ht he h1 hpr).symm.trans
    (C90_iff ht (fun h => by cases h) (fun h => by cases h) hpr hS he (reductors_empty ht.grammar) ())

theorem ambiguous_productive : AllProductive Samples.ambiguous :=
  allProductive [(1, 2), (0, 0)] (by decide) (by decide +kernel) (by decide)

/-- Not vacuous: the ambiguous expressions, for every Clr table. -/
example {dbg : Bool} {t : Tabler Nat} (h : Makes .clr dbg Samples.ambiguous 0 99 t) :
    ∃ toks : List (Token Unit Nat), TerminalToks Samples.ambiguous toks ∧
      ∃ a b, Parses t (Parser.empty t) toks (.error (.conflict a b)) := by
  have hg : Grammar.new true 0 (grammarMap Samples.ambiguous) 99 =
    .ok (Samples.grammar Samples.ambiguous) := by decide +kernel
  refine Classical.byContradiction (fun hn => ambiguous_not_lr1 ((C90_lr1 h ambiguous_productive
    (Samples.inNoBody (by decide)) (single_start_debug hg) (by unfold Terminal; decide)).mpr ?_))
  intro toks hT a b hp
  exact hn ⟨toks, hT, a, b, hp⟩

/-! ### Rules that derive nothing -/

/-- No run meets a conflict in a state that lies behind a symbol that derives nothing. -/
theorem behind {D : Decls T} {S eof : T} {b0 : List T} {states : List (State T)} {acts : ActTable T}
    {next : State T → T → Option Nat} {red : Position T → T → Prop} (h : Auto D S b0 states acts next red)
    (hb : ∀ (i : Nat) row x a b, acts[i]? = some row → row.get? x = some (.conflict a b) →
      ∃ s p X, states[i]? = some s ∧ p ∈ s ∧ X ∈ p.seq.1.take p.point ∧
        ∀ w, Derives D [X] w → ¬ ∀ t ∈ w, Terminal D t) (toks : List (Token M T)) :
    ¬ Clash acts eof (⟨[0], [], toks⟩ : Conf M T) := by
  have key : ∀ {c : Conf M T} {i : Nat} {st : List Nat} {x : T} {a b : Action T}, InvC D states next c →
      c.states = i :: st → cellAt acts i x = some (.conflict a b) → False := by
    intro c i st x a b hi e hc
    obtain ⟨row, h1, h2⟩ := Option.bind_eq_some_iff.mp (show acts[i]?.bind _ = _ from hc)
    obtain ⟨s, p, X, hs, hp, hX, hno⟩ := hb i row x a b h1 h2
    have hpath := hi.path
    rw [e] at hpath
    rw [← (h.path_items hpath hs hp).2.1] at hX
    obtain ⟨tr, htr, rfl⟩ := List.mem_map.mp (List.mem_of_mem_take (List.mem_reverse.mp hX))
    have hv := hi.valid tr htr
    refine hno _ hv.derives ?_
    intro t ht
    obtain ⟨tok, h1, rfl⟩ := List.mem_map.mp ht
    exact hv.terminals tok h1
  rintro ⟨c, a, b, hm, hf⟩
  have hi := h.inv_moves (inv_init D states next toks) hm
  cases hf with
  | conflict h1 => exact key hi rfl h1
  | @conflict' i i' k st trs buf A b a c h1 h2 h3 h4 =>
    obtain ⟨hlt, e⟩ := List.getElem?_eq_some_iff.mp h3
    have hd : (i :: st).drop b.length = i' :: (i :: st).drop (b.length + 1) := by
      rw [List.drop_eq_getElem_cons hlt, e]
    refine key (c := ⟨(i :: st).drop b.length, trs.drop b.length, buf⟩) ⟨?_, ?_⟩ hd h4
    · have := hi.path.drop b.length (by simpa using h2)
      rw [← List.map_drop] at this
      exact this
    · intro t ht
      exact hi.valid t (List.mem_of_mem_drop ht)

/-- S → id | U a | U a, U → U b: the conflict lies behind `U`, which derives nothing. -/
def idle : Decls Nat := [(0, [[1]]), (1, [[14], [2, 10], [2, 10]]), (2, [[2, 12]])]

theorem idle_unproductive {u w : List Nat} (h : Derives idle u w) : 2 ∈ u → 2 ∈ w := by
  induction h with
  | refl => exact id
  | head hs _ ih =>
    intro h2
    refine ih ?_
    cases hs with
    | @mk u v A k b hp =>
      simp only [List.mem_append, List.mem_cons] at h2 ⊢
      rcases h2 with h2 | h2 | h2
      · exact Or.inl (Or.inl h2)
      · subst h2
        obtain ⟨bs, ⟨pre, post, e, _⟩, hb⟩ := hp
        have : bs = [[2, 12]] := by
          have hm : ((2 : Nat), bs) ∈ idle := by rw [e]; simp
          unfold idle at hm
          simp at hm
          exact hm
        subst this
        refine Or.inl (Or.inr ?_)
        cases k with
        | zero => cases hb; simp
        | succ k => simp at hb
      · exact Or.inr h2

/-- Whether there is a conflict in a cell. -/
def clashes : Action Nat → Bool
  | .conflict _ _ => true
  | _ => false

/-- C90 needs all rules to derive strings of terminals: here the table has a conflict that no input meets. -/
theorem C90_needs_productive : ∃ t, Makes .clr true idle 0 99 t ∧ t.conflicts ≠ [] ∧ InNoBody idle 0 ∧
    Terminal idle 99 ∧ ∀ toks : List (Token Unit Nat), TerminalToks idle toks →
      ∀ a b, ¬ Parses t (Parser.empty t) toks (.error (.conflict a b)) := by
  have hg : Grammar.new true 0 (grammarMap idle) 99 = .ok (Samples.grammar idle) := by decide +kernel
  have h : ∃ t, Clr.new true 50 (Samples.grammar idle) = .ok t ∧ t.conflicts ≠ [] ∧
      ∀ r ∈ t.actions.zip t.states, ∀ e ∈ r.1, clashes e.2 = true →
        ∃ p ∈ r.2, 2 ∈ p.seq.1.take p.point := by
    refine ⟨_, rfl, ?_⟩; decide +kernel
  obtain ⟨t, h1, h2, h3⟩ := h
  have ht : Makes .clr true idle 0 99 t := ⟨_, hg, 50, h1⟩
  have he : Terminal idle 99 := by unfold Terminal; decide
  refine ⟨t, ht, h2, Samples.inNoBody (by decide), he, ?_⟩
  intro toks hT a b hp
  obtain ⟨b0, next, red, ha, _⟩ := ht.auto
  obtain ⟨n, hp⟩ := hp
  have hend := ha.parse_end (maps := Parser.empty t) ht.eofHead he hT n
  simp only at hp
  rw [hp] at hend
  cases hend with
  | error hm hf =>
    refine behind ha ?_ toks ⟨_, _, _, hm, hf⟩
    intro i row x a b h4 h5
    have hi : i < t.states.length := by rw [← ha.len]; exact (List.getElem?_eq_some_iff.mp h4).1
    have hs : t.states[i]? = some t.states[i] := List.getElem?_eq_getElem hi
    obtain ⟨p, hp1, hp2⟩ := h3 (row, t.states[i]) (List.mem_of_getElem? (i := i) (by
      rw [List.getElem?_zip_eq_some]; exact ⟨h4, hs⟩)) (x, .conflict a b) (OMap.mem_of_get? h5) rfl
    refine ⟨_, p, 2, hs, hp1, hp2, fun w hw hT => ?_⟩
    exact absurd (hT 2 (idle_unproductive hw (by simp))) (by unfold Terminal; decide)

end Lrp.Props
