import Verif.Proofs.Equals
import Verif.Props.Errors

/-! C34, C35: `reduce_equals`. -/

set_option linter.unusedSectionVars false

namespace Lrp.Props
open Spec
set_option maxRecDepth 100000

variable {T : Type} [LinOrd T] [DecidableEq T] {M : Type}

theorem numbers_zero {rows : ActTable T} {f : Nat → Nat} {k : Nat} (h : Numbers rows f k)
    (h0 : 0 < rows.length) : f 0 = 0 := by
  have hk : 0 < k := Nat.lt_of_le_of_lt (Nat.zero_le _) (h.below 0 h0)
  obtain ⟨i, hi, e⟩ := h.onto 0 hk
  rcases Nat.eq_zero_or_pos (f 0) with h1 | h1
  · exact h1
  · obtain ⟨i', g, _⟩ := (h.order i hi 0 h0 (fun i' hi' => absurd hi' (Nat.not_lt_zero _))).mp
      (by rw [e]; exact h1)
    exact absurd g (Nat.not_lt_zero _)

/-- C35 for arbitrary tables: if all targets are rows of the table, `reduce_equals` succeeds and leaves
one row per different row, in order of first occurrence, with states renumbered accordingly. -/
theorem C35_closed_tables {dbg : Bool} {t : Tabler T} (hc : ClosedTable t.actions)
    (hd : dbg = true → t.actions.length ≤ t.states.length) :
    ∃ t' f, Tabler.reduceEquals dbg t = .ok t' ∧
      Numbers t.actions f t'.actions.length ∧
      (∀ (i : Nat) row, t.actions[i]? = some row →
        t'.actions[f i]? = some (row.map (fun e => (e.1, rename f e.2)))) ∧
      t'.actions.length ≤ t.actions.length ∧ ClosedTable t'.actions ∧
      t'.grammar = t.grammar ∧ t'.first = t.first ∧ t'.follow = t.follow ∧
      t'.states = t.states ∧ t'.kernels = t.kernels := by
  obtain ⟨t', f, h1, h2, h3⟩ := Tabler.reduceEquals_ok hc hd
  refine ⟨t', f, h1, h2.numbers, h2.rows, h3, ?_, h2.grammar, h2.first, h2.follow, h2.states, h2.kernels⟩
  intro row' hrow' e he
  obtain ⟨j, hj, rfl⟩ := List.mem_iff_getElem.mp hrow'
  obtain ⟨i, hi, rfl⟩ := h2.numbers.onto j hj
  have hr := h2.rows i _ (List.getElem?_eq_getElem hi)
  rw [List.getElem?_eq_getElem hj] at hr
  have hr := Option.some.inj hr
  rw [hr] at he
  obtain ⟨e0, he0, rfl⟩ := List.mem_map.mp he
  have ht := hc _ (List.getElem_mem hi) e0 he0
  have key : ∀ a : Action T, Targets t.actions.length a → Targets t'.actions.length (rename f a) := by
    intro a
    induction a with
    | shift j => intro h; exact h2.numbers.below j h
    | goto j => intro h; exact h2.numbers.below j h
    | acc => intro _; trivial
    | reduce _ _ => intro _; trivial
    | conflict a b iha ihb => intro h; exact ⟨iha h.1, ihb h.2⟩
  exact key _ ht

/-- C35: on a built table `reduce_equals` succeeds, in debug and release builds. -/
theorem C35_built_tables {k : Method} {dbg dbg' : Bool} {D : Decls T} {S eof : T} {t : Tabler T}
    (ht : Makes k dbg D S eof t) :
    ∃ t' f, Tabler.reduceEquals dbg' t = .ok t' ∧ f 0 = 0 ∧
      Numbers t.actions f t'.actions.length ∧
      (∀ (i : Nat) row, t.actions[i]? = some row →
        t'.actions[f i]? = some (row.map (fun e => (e.1, rename f e.2)))) ∧
      t'.actions.length ≤ t.actions.length ∧
      t'.grammar = t.grammar ∧ t'.first = t.first ∧ t'.follow = t.follow ∧
      t'.states = t.states ∧ t'.kernels = t.kernels := by
  obtain ⟨hc, h0, hl⟩ := ht.closedTable
  obtain ⟨t', f, h1, h2, h3, h4, _, h5⟩ := C35_closed_tables (dbg := dbg') hc (fun _ => Nat.le_of_eq hl)
  exact ⟨t', f, h1, numbers_zero h2 h0, h2, h3, h4, h5⟩

/-- Merging one round of equal rows can make further rows equal: `reduce_equals` is not idempotent.  The
Clr table of `S → p A B | q A x | q A y`, `A → c a`, `B → x | y` has 15 rows, then 14, then 13. -/
theorem C35_not_idempotent : ∃ t t' t'', Makes .clr true Samples.splitLooks 0 99 t ∧
    Tabler.reduceEquals true t = .ok t' ∧ Tabler.reduceEquals true t' = .ok t'' ∧
    t.actions.length = 15 ∧ t'.actions.length = 14 ∧ t''.actions.length = 13 := by
  have hg : Grammar.new true 0 (grammarMap Samples.splitLooks) 99 =
    .ok (Samples.grammar Samples.splitLooks) := by decide +kernel
  have h : ∃ t, Clr.new true 100 (Samples.grammar Samples.splitLooks) = .ok t ∧
      ∃ t', Tabler.reduceEquals true t = .ok t' ∧ ∃ t'', Tabler.reduceEquals true t' = .ok t'' ∧
        t.actions.length = 15 ∧ t'.actions.length = 14 ∧ t''.actions.length = 13 := by
    refine ⟨_, rfl, _, rfl, _, rfl, ?_⟩
    decide +kernel
  obtain ⟨t, h1, t', h2, t'', h3, h4⟩ := h
  exact ⟨t, t', t'', ⟨_, hg, 100, h1⟩, h2, h3, h4⟩

/-- The outcomes of a parse whose runs are those of another one with the states renumbered. -/
theorem runs_of_key {t t' : Tabler T} {f : Nat → Nat} {maps : ReductMap M T} {toks : List (Token M T)}
    (key : ∀ n, Parser.parse t' n toks maps = (Parser.parse t n toks maps).mapOk (renameRes f)) :
      (∀ r, Parses t' maps toks r ↔ ∃ r0, Parses t maps toks r0 ∧ r = renameRes f r0) ∧
      (∀ p, Panics (fun n => Parser.parse t' n toks maps) p ↔
        Panics (fun n => Parser.parse t n toks maps) p) ∧
      (Diverges (fun n => Parser.parse t' n toks maps) ↔
        Diverges (fun n => Parser.parse t n toks maps)) := by
  refine ⟨fun r => ?_, fun p => ?_, ?_⟩
  · constructor
    · rintro ⟨n, hn⟩
      simp only [key] at hn
      cases hp : Parser.parse t n toks maps with
      | ok r0 => rw [hp] at hn; cases hn; exact ⟨r0, ⟨n, hp⟩, rfl⟩
      | panic p => rw [hp] at hn; cases hn
      | fuel => rw [hp] at hn; cases hn
    · rintro ⟨r0, ⟨n, hn⟩, rfl⟩
      refine ⟨n, ?_⟩
      simp only [key] at hn ⊢
      rw [hn]; rfl
  · constructor
    · rintro ⟨n, hn⟩
      simp only [key] at hn
      refine ⟨n, ?_⟩
      show Parser.parse t n toks maps = _
      cases hp : Parser.parse t n toks maps with
      | ok r0 => rw [hp] at hn; cases hn
      | panic p => rw [hp] at hn; cases hn; rfl
      | fuel => rw [hp] at hn; cases hn
    · rintro ⟨n, hn⟩
      refine ⟨n, ?_⟩
      simp only [key] at hn ⊢
      rw [hn]; rfl
  · constructor
    · intro h n
      have hn := h n
      simp only [key] at hn
      show Parser.parse t n toks maps = _
      cases hp : Parser.parse t n toks maps with
      | ok r0 => rw [hp] at hn; cases hn
      | panic p => rw [hp] at hn; cases hn
      | fuel => rfl
    · intro h n
      have hn := h n
      simp only [key] at hn ⊢
      rw [hn]; rfl

/-- The same, with the outcomes told apart. -/
theorem outcome_of_key {t t' : Tabler T} {f : Nat → Nat} {maps : ReductMap M T} {toks : List (Token M T)}
    (key : ∀ n, Parser.parse t' n toks maps = (Parser.parse t n toks maps).mapOk (renameRes f)) :
    (∀ v, Parses t' maps toks (.ok v) ↔ Parses t maps toks (.ok v)) ∧
    (∀ e, (∀ a b, e ≠ .conflict a b) →
      (Parses t' maps toks (.error e) ↔ Parses t maps toks (.error e))) ∧
    ((∃ a b, Parses t' maps toks (.error (.conflict a b))) ↔
      ∃ a b, Parses t maps toks (.error (.conflict a b))) ∧
    (∀ p, Panics (fun n => Parser.parse t' n toks maps) p ↔
      Panics (fun n => Parser.parse t n toks maps) p) ∧
    (Diverges (fun n => Parser.parse t' n toks maps) ↔
      Diverges (fun n => Parser.parse t n toks maps)) := by
  obtain ⟨h1, h2, h3⟩ := runs_of_key key
  refine ⟨fun v => ?_, fun e he => ?_, ?_, h2, h3⟩
  · rw [h1]
    constructor
    · rintro ⟨r0, hr, e⟩
      cases r0 with
      | ok w => cases e; exact hr
      | error _ => cases e
    · intro h; exact ⟨_, h, rfl⟩
  · rw [h1]
    constructor
    · rintro ⟨r0, hr, e1⟩
      cases r0 with
      | ok w => cases e1
      | error e0 =>
        cases e0 <;> (simp only [renameRes, renameErr, Except.error.injEq] at e1; subst e1) <;>
          first | exact hr | exact absurd rfl (he _ _)
    · intro h
      refine ⟨_, h, ?_⟩
      cases e <;> first | rfl | exact absurd rfl (he _ _)
  · constructor
    · rintro ⟨a, b, h⟩
      obtain ⟨r0, hr, e1⟩ := (h1 _).mp h
      cases r0 with
      | ok w => cases e1
      | error e0 =>
        cases e0 <;> simp only [renameRes, renameErr, Except.error.injEq] at e1 <;> cases e1
        exact ⟨_, _, hr⟩
    · rintro ⟨a, b, h⟩
      exact ⟨_, _, (h1 _).mpr ⟨_, h, rfl⟩⟩

/-- C34 for arbitrary tables, whatever way the run ends: it returns the same value or the same error,
panics the same way, or goes on for ever, with states renumbered in conflict errors. -/
theorem C34_same_run {dbg : Bool} {t t' : Tabler T} (hc : ClosedTable t.actions)
    (h0 : 0 < t.actions.length) (hd : dbg = true → t.actions.length ≤ t.states.length)
    (ht' : Tabler.reduceEquals dbg t = .ok t') :
    ∃ f : Nat → Nat, ∀ (M : Type) (maps : ReductMap M T) (toks : List (Token M T)),
      (∀ r, Parses t' maps toks r ↔ ∃ r0, Parses t maps toks r0 ∧ r = renameRes f r0) ∧
      (∀ p, Panics (fun n => Parser.parse t' n toks maps) p ↔
        Panics (fun n => Parser.parse t n toks maps) p) ∧
      (Diverges (fun n => Parser.parse t' n toks maps) ↔
        Diverges (fun n => Parser.parse t n toks maps)) := by
  obtain ⟨t'', f, h1, h2, h3⟩ := Tabler.reduceEquals_ok hc hd
  rw [ht'] at h1; cases h1
  refine ⟨f, fun M maps toks => ?_⟩
  exact runs_of_key fun n => parse_merged hc h0 h2 (numbers_zero h2.numbers h0) n toks maps

/-- C34: after `reduce_equals` on a built table every parse has the same outcome: the same value; the
same error, where a conflict error names the renumbered states. -/
theorem C34_same_outcome {k : Method} {dbg dbg' : Bool} {D : Decls T} {S eof : T} {t t' : Tabler T}
    (ht : Makes k dbg D S eof t) (ht' : Tabler.reduceEquals dbg' t = .ok t') (M : Type)
    (maps : ReductMap M T) (toks : List (Token M T)) :
    (∀ v, Parses t' maps toks (.ok v) ↔ Parses t maps toks (.ok v)) ∧
    (∀ e, (∀ a b, e ≠ .conflict a b) →
      (Parses t' maps toks (.error e) ↔ Parses t maps toks (.error e))) ∧
    ((∃ a b, Parses t' maps toks (.error (.conflict a b))) ↔
      ∃ a b, Parses t maps toks (.error (.conflict a b))) ∧
    (∀ p, Panics (fun n => Parser.parse t' n toks maps) p ↔
      Panics (fun n => Parser.parse t n toks maps) p) ∧
    (Diverges (fun n => Parser.parse t' n toks maps) ↔
      Diverges (fun n => Parser.parse t n toks maps)) := by
  obtain ⟨hc, h0, hl⟩ := ht.closedTable
  obtain ⟨t'', f, h1, h2, h3⟩ := Tabler.reduceEquals_ok (dbg := dbg') hc (fun _ => Nat.le_of_eq hl)
  rw [ht'] at h1; cases h1
  exact outcome_of_key fun n => parse_merged hc h0 h2 (numbers_zero h2.numbers h0) n toks maps

/-- C34: the accepted language is the same. -/
theorem C34_same_language {k : Method} {dbg dbg' : Bool} {D : Decls T} {S eof : T} {t t' : Tabler T}
    (ht : Makes k dbg D S eof t) (ht' : Tabler.reduceEquals dbg' t = .ok t')
    (toks : List (Token Unit T)) (b : Bool) : Validates t' toks b ↔ Validates t toks b := by
  have hg : t'.grammar = t.grammar := by
    obtain ⟨t'', _, h1, _, _, _, _, h2, _⟩ := C35_built_tables (dbg' := dbg') ht
    rw [ht'] at h1; cases h1; exact h2
  have hmap : Parser.empty t' = Parser.empty t := by
    unfold Parser.empty Dfa.transparent; rw [hg]
  obtain ⟨h1, h2, h3, _⟩ := C34_same_outcome ht ht' Unit (Parser.empty t) toks
  cases b with
  | true => rw [validates_true, validates_true, hmap]; exact h1 ()
  | false =>
    rw [validates_false, validates_false, hmap]
    constructor
    · rintro ⟨e, he⟩
      by_cases hcf : ∃ a b, e = .conflict a b
      · obtain ⟨a, b, rfl⟩ := hcf
        obtain ⟨a', b', h⟩ := h3.mp ⟨a, b, he⟩
        exact ⟨_, h⟩
      · exact ⟨e, (h2 e (fun a b h => hcf ⟨a, b, h⟩)).mp he⟩
    · rintro ⟨e, he⟩
      by_cases hcf : ∃ a b, e = .conflict a b
      · obtain ⟨a, b, rfl⟩ := hcf
        obtain ⟨a', b', h⟩ := h3.mpr ⟨a, b, he⟩
        exact ⟨_, h⟩
      · exact ⟨e, (h2 e (fun a b h => hcf ⟨a, b, h⟩)).mpr he⟩

/-- C34: the conflicts are the same up to renumbering. -/
theorem C34_conflicts {k : Method} {dbg dbg' : Bool} {D : Decls T} {S eof : T} {t t' : Tabler T}
    (ht : Makes k dbg D S eof t) (ht' : Tabler.reduceEquals dbg' t = .ok t') :
    ∃ f, Numbers t.actions f t'.actions.length ∧
      ∀ c, c ∈ t'.conflicts ↔ ∃ c0 ∈ t.conflicts, c = rename f c0 := by
  obtain ⟨t'', f, h1, _, h2, h3, _⟩ := C35_built_tables (dbg' := dbg') ht
  rw [ht'] at h1; cases h1
  have hc : ∀ (t : Tabler T) c, c ∈ t.conflicts ↔
      (∃ row ∈ t.actions, ∃ e ∈ row, e.2 = c) ∧ ∃ a b, c = .conflict a b := by
    intro t c
    unfold Tabler.conflicts
    rw [List.mem_filter, List.mem_flatMap]
    refine and_congr ?_ ?_
    · unfold OMap.values
      simp only [List.mem_map]
    · cases c <;> simp
  refine ⟨f, h2, fun c => ?_⟩
  rw [hc]
  constructor
  · rintro ⟨⟨row', hrow', e, he, rfl⟩, a, b, hab⟩
    obtain ⟨j, hj, rfl⟩ := List.mem_iff_getElem.mp hrow'
    obtain ⟨i, hi, rfl⟩ := h2.onto j hj
    have hr := h3 i _ (List.getElem?_eq_getElem hi)
    rw [List.getElem?_eq_getElem hj] at hr
    rw [Option.some.inj hr] at he
    obtain ⟨e0, he0, rfl⟩ := List.mem_map.mp he
    refine ⟨e0.2, (hc t _).mpr ⟨⟨_, List.getElem_mem hi, e0, he0, rfl⟩, ?_⟩, rfl⟩
    cases h : e0.2 with
    | conflict a b => exact ⟨a, b, rfl⟩
    | _ => simp [h, rename] at hab
  · rintro ⟨c0, h0, rfl⟩
    obtain ⟨⟨row, hrow, e, he, rfl⟩, a, b, hab⟩ := (hc t _).mp h0
    obtain ⟨i, hi, rfl⟩ := List.mem_iff_getElem.mp hrow
    refine ⟨⟨_, List.mem_of_getElem? (h3 i _ (List.getElem?_eq_getElem hi)),
      (e.1, rename f e.2), List.mem_map_of_mem he, rfl⟩, ?_⟩
    rw [hab]; exact ⟨_, _, rfl⟩

/-- Not vacuous: a built table in which rows are merged. -/
example : ∃ t t', Makes .clr true Samples.splitLooks 0 99 t ∧ Tabler.reduceEquals true t = .ok t' ∧
    t'.actions ≠ t.actions ∧ ∀ toks, Validates t' toks true ↔ Validates t toks true := by
  obtain ⟨t, t', _, h1, h2, _, h3, h4, _⟩ := C35_not_idempotent
  refine ⟨t, t', h1, h2, ?_, fun toks => C34_same_language h1 h2 toks true⟩
  intro e
  rw [e, h3] at h4
  exact absurd h4 (by decide)

end Lrp.Props
