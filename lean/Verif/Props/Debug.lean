import Verif.Proofs.Debug
import Verif.Props.Lalr
import Verif.Props.Equals
import Verif.Props.Runs
import Verif.Props.Power

/-!
C97 — debug assertions stop a construction or change nothing.
-/

set_option linter.unusedSectionVars false

namespace Lrp.Props
open Spec
set_option maxRecDepth 100000

variable {T : Type} [LinOrd T] [DecidableEq T]

theorem makes_once {k : Method} {dbg : Bool} {D : Decls T} {S eof : T} {t t' : Tabler T}
    (h : Makes k dbg D S eof t) (h' : Makes k dbg D S eof t') : t' = t := by
  obtain ⟨g, hg, n, h⟩ := h
  obtain ⟨g', hg', n', h'⟩ := h'
  rw [hg] at hg'
  cases hg'
  refine Out.Le.agree (f := fun n => k.build dbg n g) (fun hnm => ?_) h' h
  cases k with
  | slr => exact Slr.new_le hnm g
  | clr => exact Clr.new_le hnm g
  | lalr => exact Out.Le.bind (Lalr.new_le hnm g) (fun _ => .refl _)

/-- C97: what a debug build makes, a release build makes. -/
theorem C97_release {k : Method} {dbg : Bool} {D : Decls T} {S eof : T} {t : Tabler T}
    (h : Makes k dbg D S eof t) : Makes k false D S eof t := by
  obtain ⟨g, hg, n, h⟩ := h
  exact ⟨g, Grammar.new_tame dbg S _ eof g hg, n, k.build_tame dbg n g t h⟩

/-- C97: the two builds make the same parser: grammar, FIRST, FOLLOW, states, kernels and actions. -/
theorem C97_same {k : Method} {dbg dbg' : Bool} {D : Decls T} {S eof : T} {t t' : Tabler T}
    (h : Makes k dbg D S eof t) (h' : Makes k dbg' D S eof t') : t' = t :=
  makes_once (C97_release h) (C97_release h')

/-- What the debug build insists on: one alternative for the start symbol, and only terminals in the FIRST and
FOLLOW sets. -/
def Tidy (D : Decls T) (S : T) (t : Tabler T) : Prop :=
  SingleStart D S ∧ ∀ A F x, t.first.get? A = some F ∨ t.follow.get? A = some F → x ∈ F → Terminal D x

theorem grammar_debug {D : Decls T} {S eof : T} {g : Grammar T}
    (h : Grammar.new false S (grammarMap D) eof = .ok g) :
    (SingleStart D S ∧ Grammar.new true S (grammarMap D) eof = .ok g) ∨
    (¬ SingleStart D S ∧ Grammar.new true S (grammarMap D) eof = .panic .dbgManyEntries) := by
  have ho := Grammar.of_new h
  rw [Grammar.new_eq] at h ⊢
  cases hr : (grammarMap D).get? S with
  | none => rw [hr] at h; cases h
  | some r =>
    simp only [hr] at h ⊢
    obtain ⟨bs, h1, rfl⟩ := (grammarMap_get? D S r).mp hr
    by_cases hl : (Rule.new S bs).prods.length = 1
    · left
      simp only [hl, ne_eq, not_true_eq_false, and_false, if_false] at h ⊢
      refine ⟨?_, h⟩
      rintro i b ⟨bs', h1', h2⟩
      cases h1.unique h1'
      have : bs.length = 1 := by simpa [Rule.new] using hl
      have := (List.getElem?_eq_some_iff.mp h2).1
      omega
    · right
      refine ⟨fun hs => ?_, by simp [hl]⟩
      obtain ⟨b, hb, _⟩ := ho.basis
      obtain ⟨bs', h1', h2⟩ := hb
      cases h1.unique h1'
      have hlen : bs.length ≠ 1 := by simpa [Rule.new] using hl
      have h0 := (List.getElem?_eq_some_iff.mp h2).1
      have := hs 1 bs[1] ⟨bs, h1, List.getElem?_eq_getElem (by omega)⟩
      omega

theorem tabler_debug {D : Decls T} {S eof : T} {g : Grammar T} {n : Nat} {t : Tabler T} (hg : g.Of D S eof)
    (h : Tabler.new false n g = .ok t) :
    ((∀ A F x, t.first.get? A = some F ∨ t.follow.get? A = some F → x ∈ F → Terminal D x) ∧
      Tabler.new true n g = .ok t) ∨
    ((¬ ∀ A F x, t.first.get? A = some F ∨ t.follow.get? A = some F → x ∈ F → Terminal D x) ∧
      ∃ p, (p = .dbgFirstNotTerminal ∨ p = .dbgFollowNotTerminal) ∧ Tabler.new true n g = .panic p) := by
  have ho := Tabler.of_new hg h
  obtain ⟨X, Z, h1, h2, h3, h4, e0, e1, e2, e3⟩ := Tabler.new_ok h
  have k1 := Tabler.allTerminal_iff hg ho.firstT.sorted
  have k2 := Tabler.allTerminal_iff hg ho.followT.sorted
  have f1 := (Tabler.procFirst_fix h2).1
  have f2 := (Tabler.procFollow_fix h4).1
  have ht : t = { grammar := g, first := t.first, follow := t.follow, actions := [], states := [], kernels := [] } := by
    cases t; simp only at e0 e1 e2 e3; rw [e0, e1, e2, e3]
  have key : Tabler.new true n g = (do
      Out.assert .dbgFirstNotTerminal (Tabler.allTerminal g t.first)
      Out.assert .dbgFollowNotTerminal (Tabler.allTerminal g t.follow)
      return t) := by
    unfold Tabler.new Tabler.procFirst Tabler.procFollow
    simp only [h1, Out.ok_bind, f1, Bool.not_true, Bool.false_or]
    cases Tabler.allTerminal g t.first with
    | false => rfl
    | true =>
      simp only [Out.assert_true, Out.ok_bind, Out.pure_eq, h3, f2]
      cases Tabler.allTerminal g t.follow with
      | false => rfl
      | true => simp only [Out.assert_true, Out.ok_bind]; rw [← ht]
  have both : (∀ A F x, t.first.get? A = some F ∨ t.follow.get? A = some F → x ∈ F → Terminal D x) ↔
      Tabler.allTerminal g t.first = true ∧ Tabler.allTerminal g t.follow = true := by
    rw [k1, k2]
    constructor
    · intro h
      exact ⟨fun A x ⟨F, h1, h2⟩ => h A F x (.inl h1) h2, fun A x ⟨F, h1, h2⟩ => h A F x (.inr h1) h2⟩
    · rintro ⟨h1, h2⟩ A F x (h | h) hx
      · exact h1 A x ⟨F, h, hx⟩
      · exact h2 A x ⟨F, h, hx⟩
  rw [key, both]
  cases Tabler.allTerminal g t.first with
  | false => exact .inr ⟨by simp, _, .inl rfl, rfl⟩
  | true =>
    cases Tabler.allTerminal g t.follow with
    | false => exact .inr ⟨by simp, _, .inr rfl, rfl⟩
    | true => exact .inl ⟨by simp, rfl⟩

/-- C97: for a grammar that the release build can handle, the debug build makes the parser exactly when the start
symbol has one alternative and all FIRST and FOLLOW sets have only terminals. -/
theorem C97_debug_iff {k : Method} {D : Decls T} {S eof : T} {t : Tabler T} (h : Makes k false D S eof t) :
    Makes k true D S eof t ↔ Tidy D S t := by
  obtain ⟨g, n, t0, hg, h0, _, e1, e2⟩ := h.tabler
  unfold Tidy
  rw [e1, e2]
  constructor
  · rintro ⟨g', hg', n', hb⟩
    refine ⟨single_start_debug hg', ?_⟩
    have : g' = g := by
      rw [Grammar.new_tame true S _ eof g' hg'] at hg; cases hg; rfl
    subst this
    rcases tabler_debug (Grammar.of_new hg) h0 with ⟨h1, _⟩ | ⟨_, p, _, h1⟩
    · exact h1
    · exfalso
      have hle := Tabler.new_le (dbg := true) (g := g') (Nat.le_max_left n n')
      have hp := hle.panic h1
      have : ∃ t1, Tabler.new true n' g' = .ok t1 := by
        cases k with
        | slr => obtain ⟨t1, h1, _⟩ := Out.bind_eq_ok.mp hb; exact ⟨t1, h1⟩
        | clr => obtain ⟨t1, h1, _⟩ := Out.bind_eq_ok.mp hb; exact ⟨t1, h1⟩
        | lalr =>
          obtain ⟨l, h1, _⟩ := Out.bind_eq_ok.mp hb
          obtain ⟨t1, h1, _⟩ := Out.bind_eq_ok.mp h1
          exact ⟨t1, h1⟩
      obtain ⟨t1, h1⟩ := this
      rw [(Tabler.new_le (Nat.le_max_right n n')).ok h1] at hp
      cases hp
  · rintro ⟨hs, ht⟩
    rcases grammar_debug hg with ⟨_, hg'⟩ | ⟨hs', _⟩
    · rcases tabler_debug (Grammar.of_new hg) h0 with ⟨_, h1⟩ | ⟨h1, _⟩
      · have : ∃ t', Makes k true D S eof t' := by
          cases k with
          | slr =>
            obtain ⟨t', m, h2⟩ := (C12_slr_new hg').mp ⟨t0, n, h1⟩
            exact ⟨t', g, hg', m, h2⟩
          | clr =>
            obtain ⟨t', m, h2⟩ := (C13_clr_new hg').mp ⟨t0, n, h1⟩
            exact ⟨t', g, hg', m, h2⟩
          | lalr =>
            obtain ⟨l, m, h2⟩ := (C14_lalr_new hg').mp ⟨t0, n, h1⟩
            refine ⟨l.table, g, hg', m, ?_⟩
            show (do let l ← Lalr.new true m g; return l.table) = _
            rw [show Lalr.new true m g = .ok l from h2]; rfl
        obtain ⟨t', h2⟩ := this
        cases C97_same h h2
        exact h2
      · exact absurd ht h1
    · exact absurd hs hs'

/-- C97: otherwise the debug build panics: in `Grammar::new` if the start symbol has several alternatives, else
with a nonterminal in a FIRST or FOLLOW set. -/
theorem C97_panics {k : Method} {D : Decls T} {S eof : T} {t : Tabler T} (h : Makes k false D S eof t)
    (hn : ¬ Tidy D S t) :
    (¬ SingleStart D S ∧ Grammar.new true S (grammarMap D) eof = .panic .dbgManyEntries) ∨
    ∃ g p, Grammar.new true S (grammarMap D) eof = .ok g ∧ (p = .dbgFirstNotTerminal ∨ p = .dbgFollowNotTerminal) ∧
      Panics (fun n => k.build true n g) p := by
  obtain ⟨g, n, t0, hg, h0, _, e1, e2⟩ := h.tabler
  unfold Tidy at hn
  rw [e1, e2] at hn
  rcases grammar_debug hg with ⟨hs, hg'⟩ | hs
  · right
    rcases tabler_debug (Grammar.of_new hg) h0 with ⟨h1, _⟩ | ⟨_, p, hp, h1⟩
    · exact absurd ⟨hs, h1⟩ hn
    · refine ⟨g, p, hg', hp, n, ?_⟩
      cases k with
      | slr => exact Out.bind_eq_panic.mpr (.inl h1)
      | clr => exact Out.bind_eq_panic.mpr (.inl h1)
      | lalr => exact Out.bind_eq_panic.mpr (.inl (Out.bind_eq_panic.mpr (.inl h1)))
  · exact .inl hs

/-- C97: `reduce_equals` does the same in both builds. -/
theorem C97_reduce {k : Method} {dbg : Bool} {D : Decls T} {S eof : T} {t : Tabler T} (h : Makes k dbg D S eof t) :
    t.reduceEquals true = t.reduceEquals false := by
  obtain ⟨t', _, h1, _⟩ := C35_built_tables (dbg' := true) h
  rw [h1, t.reduceEquals_tame true t' h1]

/-- Not vacuous: the Slr table of expressions is tidy; both builds make it. -/
example : ∃ t, Makes .slr true Samples.expr 0 99 t ∧ Makes .slr false Samples.expr 0 99 t ∧ Tidy Samples.expr 0 t :=
  ⟨_, makes_exprSlr, C97_release makes_exprSlr, (C97_debug_iff (C97_release makes_exprSlr)).mp makes_exprSlr⟩

/-- Not vacuous: the release build makes a Lalr parser for `leftClique`, with nonterminals in FIRST sets; the debug
build panics. -/
example : ∃ t, Makes .lalr false Samples.leftClique 0 99 t ∧ ¬ Makes .lalr true Samples.leftClique 0 99 t ∧
    ∃ g, Grammar.new true 0 (grammarMap Samples.leftClique) 99 = .ok g ∧
      Panics (fun n => Method.lalr.build true n g) .dbgFirstNotTerminal := by
  have hg : Grammar.new false 0 (grammarMap Samples.leftClique) 99 = .ok (Samples.grammar Samples.leftClique) := by
    decide +kernel
  have hg' : Grammar.new true 0 (grammarMap Samples.leftClique) 99 = .ok (Samples.grammar Samples.leftClique) := by
    decide +kernel
  have h : ∃ l, Lalr.new false 500 (Samples.grammar Samples.leftClique) = .ok l ∧
      ∃ F ∈ l.table.first.get? 1, 2 ∈ F := by
    refine ⟨_, rfl, ?_⟩
    decide +kernel
  have hp : Tabler.new true 500 (Samples.grammar Samples.leftClique) = .panic .dbgFirstNotTerminal := by
    decide +kernel
  obtain ⟨l, h1, F, hF, h2⟩ := h
  have m : Makes .lalr false Samples.leftClique 0 99 l.table := ⟨_, hg, 500, by
    show (do let l ← Lalr.new false 500 (Samples.grammar Samples.leftClique); return l.table) = _
    rw [h1]; rfl⟩
  refine ⟨l.table, m, fun hm => ?_, _, hg', 500, Out.bind_eq_panic.mpr (.inl (Out.bind_eq_panic.mpr (.inl hp)))⟩
  have := ((C97_debug_iff m).mp hm).2 1 F 2 (.inl hF) h2
  revert this
  unfold Terminal
  decide

/-- Not vacuous: a start symbol with two alternatives; only the release build makes a parser (and it ignores the
second alternative, see C94). -/
example : ∃ t, Makes .clr false [(0, [[10], [11]])] 0 99 t ∧ ¬ Tidy [(0, [[10], [11]])] 0 t ∧
    Grammar.new true 0 (grammarMap [(0, [[10], [11]])]) 99 = .panic .dbgManyEntries := by
  have h : ∃ g, Grammar.new false 0 (grammarMap [(0, [[10], [11]])]) 99 = .ok g ∧ ∃ t, Clr.new false 500 g = .ok t :=
    ⟨_, rfl, _, rfl⟩
  obtain ⟨g, hg, t, h⟩ := h
  have m : Makes .clr false [(0, [[10], [11]])] 0 99 t := ⟨g, hg, 500, h⟩
  have hp : Grammar.new true 0 (grammarMap [(0, [[10], [11]])]) 99 = .panic .dbgManyEntries := by decide +kernel
  refine ⟨t, m, fun ht => ?_, hp⟩
  obtain ⟨g, hg', _⟩ := (C97_debug_iff m).mpr ht
  rw [hp] at hg'
  cases hg'

end Lrp.Props
