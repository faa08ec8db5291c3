import Verif.Proofs.Demo
import Verif.Props.Trace
import Verif.Props.Halt
import Verif.Props.Views

/-! C81: the demonstration program src/main.rs. -/

set_option linter.unusedSectionVars false

namespace Lrp.Props
open Spec Demo
set_option maxRecDepth 100000

/-- The parser of the demonstration program. -/
def demoLalr : Lalr Str :=
  match Demo.parser true 200 with
  | .ok l => l
  | _ => { table := { grammar := ⟨[], [], [], ⟨[], ([], 0), 0, []⟩⟩, first := [], follow := [], kernels := [],
                      states := [], actions := [] }, raws := [] }

theorem demo_ok : Demo.parser true 200 = .ok demoLalr ∧ Demo.parser false 200 = .ok demoLalr ∧
    demoLalr.table.conflicts = [] ∧ propagatedB demoLalr.table = true ∧
    (match Main.statesTable demoLalr.finalKernel demoLalr.stateFromKernel demoLalr.table with
      | .ok _ => true
      | _ => false) = true := by decide +kernel

theorem demo_parser (dbg : Bool) : Demo.parser dbg 200 = .ok demoLalr := by
  cases dbg
  · exact demo_ok.2.1
  · exact demo_ok.1

theorem demo_makes (dbg : Bool) : Makes .lalr dbg rules ['\'', 'S'] ['$'] demoLalr.table := by
  have h := demo_parser dbg
  unfold Demo.parser at h
  obtain ⟨g, h1, h2⟩ := Out.bind_eq_ok.mp h
  refine ⟨g, h1, 200, ?_⟩
  simp only [Method.build, h2]
  rfl

theorem demo_start : InNoBody rules ['\'', 'S'] := Samples.inNoBody (by decide)

theorem demo_single : SingleStart rules ['\'', 'S'] := Samples.singleStart (by decide)

theorem demo_eof : Terminal rules ['$'] := by unfold Terminal; decide

theorem demo_productive : AllProductive rules :=
  allProductive [(['S'], 0), (['\'', 'S'], 0)] (by decide) (by decide +kernel) (by decide)

theorem demo_propagated : Propagated demoLalr.table := propagated_of_check demo_ok.2.2.2.1

theorem answer_le {t : Tabler Str} {fs : Nat → String} {ft : Str → String} {n m : Nat} (h : n ≤ m)
    (line : List Char) : Out.Le (answer t fs ft n line) (answer t fs ft m line) := by
  unfold answer
  exact Out.Le.bind (.refl _) (fun _ => Out.Le.bind (.refl _) (fun d => Main.procDfa_le h d))

theorem parser_le {dbg : Bool} {n m : Nat} (h : n ≤ m) : Out.Le (Demo.parser dbg n) (Demo.parser dbg m) := by
  unfold Demo.parser
  exact Out.Le.bind (.refl _) (fun g => Lalr.new_le h g)

/-- The answer to a line is the trace of its word. -/
theorem answer_traces {fs : Nat → String} {ft : Str → String} {line w : List Char} (h : Entered line w)
    {rows : List (Main.TraceRow Str)} {res : Except (Error Str) Unit} :
    Returns (fun n => answer demoLalr.table fs ft n line) (rows, res) ↔
      Traces demoLalr.table (Parser.empty demoLalr.table) fs ft (toks w) rows res := by
  rcases mapM_token w with ⟨_, e⟩ | ⟨hn, _⟩
  · unfold Traces Returns answer
    simp only [entered_trim h, e, Out.ok_bind]
    rfl
  · exact absurd h.1 hn

/-- What the answer is. -/
theorem demo_answer {fs : Nat → String} {ft : Str → String} {line w : List Char} (h : Entered line w) :
    (∃ rows res, Returns (fun n => answer demoLalr.table fs ft n line) (rows, res)) ∧
    ∀ rows res, Returns (fun n => answer demoLalr.table fs ft n line) (rows, res) →
      (res = .ok () ↔ Nested w) := by
  have ht := demo_makes true
  have hT := terminals_of h.1
  have hk : Method.lalr = .lalr → Propagated demoLalr.table := fun _ => demo_propagated
  have ex : ∀ {r}, Parses demoLalr.table (Parser.empty demoLalr.table) (toks w) r →
      ∃ rows res, Returns (fun n => answer demoLalr.table fs ft n line) (rows, res) ∧
        (∀ v, r = .ok v → res = .ok ()) := by
    rintro r ⟨n, hr⟩
    simp only [Parser.parse] at hr
    obtain ⟨d, h1, h2⟩ := Out.bind_eq_ok.mp hr
    obtain ⟨⟨d', res⟩, h3, h4⟩ := Out.bind_eq_ok.mp h2
    obtain ⟨rows, h5⟩ := (C80_result demoLalr.table (Parser.empty demoLalr.table) fs ft (toks w) res).mpr
      ⟨d', n, by simp only [h1, Out.ok_bind, h3]⟩
    refine ⟨rows, res, (answer_traces h).mpr h5, ?_⟩
    rintro v rfl
    cases res with
    | ok u => rfl
    | error e => cases h4
  constructor
  · obtain ⟨r, hr⟩ := (C27_conflict_free_returns ht hk demo_ok.2.2.1 demo_eof demo_productive
      (maps := Parser.empty demoLalr.table) hT).2 ((reductors_empty ht.grammar).evaluates _)
    obtain ⟨rows, res, h1, _⟩ := ex hr
    exact ⟨rows, res, h1⟩
  · intro rows res hres
    constructor
    · rintro rfl
      rw [answer_traces h] at hres
      have hd := (C80_derivation ht demo_start demo_eof hres).1.derives
      refine (sentence_iff h.1).mp ⟨hd, fun x hx => ?_⟩
      obtain ⟨tok, htok, rfl⟩ := List.mem_map.mp hx
      exact hT tok htok
    · intro hn
      have hv := complete_validates ht hk demo_ok.2.2.1 demo_start demo_single demo_eof
        ((sentence_iff h.1).mpr hn)
      have hp := validates_true.mp hv
      obtain ⟨rows', res', ⟨n, h1⟩, h2⟩ := ex hp
      obtain ⟨m, h3⟩ := hres
      have := Out.Le.agree (f := fun n => answer demoLalr.table fs ft n line)
        (fun h => answer_le h line) h1 h3
      rw [Prod.mk.injEq] at this
      rw [← this.2]
      exact h2 () rfl

theorem demo_refused {t : Tabler Str} {fs : Nat → String} {ft : Str → String} {line : List Char}
    (h : ¬ ∃ w, Entered line w) (n : Nat) : answer t fs ft n line = .panic .mainUnwrap := by
  rcases mapM_token (trim line) with ⟨h1, _⟩ | ⟨_, e⟩
  · obtain ⟨a, b, h2, h3, h4⟩ := trim_split line
    exact absurd ⟨trim line, h1, a, b, h2, h3, h4⟩ h
  · unfold answer
    rw [e]
    rfl

/-- C81: the demonstration program answers every line that consists of brackets, `c` and `d`, with white
space around them; the answer is `ok` exactly if the line is one pair of brackets in another one, and so on.
On any other line it panics. -/
theorem C81_answer (dbg : Bool) : ∃ l, Returns (Demo.parser dbg) l ∧
    ∀ (fs : Nat → String) (ft : Str → String) (line : List Char),
      (∀ w, Entered line w →
        (∃ rows res, Returns (fun n => answer l.table fs ft n line) (rows, res)) ∧
        ∀ rows res, Returns (fun n => answer l.table fs ft n line) (rows, res) →
          (res = .ok () ↔ Nested w)) ∧
      ((¬ ∃ w, Entered line w) → Panics (fun n => answer l.table fs ft n line) .mainUnwrap) :=
  ⟨demoLalr, ⟨200, demo_parser dbg⟩, fun _ _ _ => ⟨fun _ h => demo_answer h, fun h => ⟨0, demo_refused h 0⟩⟩⟩

theorem loop_runs {fs : Nat → String} {ft : Str → String} {lines : Nat → List Char}
    (h : ∀ i, ∃ w, Entered (lines i) w) (f n i : Nat) :
    loop demoLalr.table fs ft f n i lines = .fuel := by
  induction n generalizing i with
  | zero => rfl
  | succ n ih =>
    unfold loop
    obtain ⟨w, hw⟩ := h i
    obtain ⟨⟨rows, res, m, hm⟩, _⟩ := demo_answer (fs := fs) (ft := ft) hw
    cases ha : answer demoLalr.table fs ft f (lines i) with
    | fuel => rfl
    | ok r => rw [Out.ok_bind]; exact ih _
    | panic p =>
      have e1 := (answer_le (t := demoLalr.table) (fs := fs) (ft := ft) (Nat.le_add_right f m) (lines i)).panic ha
      have e2 := (answer_le (t := demoLalr.table) (fs := fs) (ft := ft) (Nat.le_add_left m f) (lines i)).ok hm
      rw [e1] at e2
      cases e2

theorem loop_panics {fs : Nat → String} {ft : Str → String} {lines : Nat → List Char} (k i : Nat)
    (h : ∀ j, i ≤ j → j < i + k → ∃ w, Entered (lines j) w) (hk : ¬ ∃ w, Entered (lines (i + k)) w) :
    ∃ f0, ∀ f n, f0 ≤ f → k < n → loop demoLalr.table fs ft f n i lines = .panic .mainUnwrap := by
  induction k generalizing i with
  | zero =>
    refine ⟨0, fun f n _ hn => ?_⟩
    obtain ⟨n, rfl⟩ : ∃ m, n = m + 1 := ⟨n - 1, by omega⟩
    unfold loop
    rw [demo_refused (by simpa using hk)]
    rfl
  | succ k ih =>
    obtain ⟨f1, h1⟩ := ih (i + 1) (fun j h1 h2 => h j (by omega) (by omega))
      (by rwa [Nat.add_assoc, Nat.add_comm 1 k])
    obtain ⟨w, hw⟩ := h i (by omega) (by omega)
    obtain ⟨⟨rows, res, m, hm⟩, _⟩ := demo_answer (fs := fs) (ft := ft) hw
    refine ⟨f1 + m, fun f n hf hn => ?_⟩
    obtain ⟨n, rfl⟩ : ∃ m, n = m + 1 := ⟨n - 1, by omega⟩
    unfold loop
    rw [(answer_le (t := demoLalr.table) (fs := fs) (ft := ft) (show m ≤ f by omega) (lines i)).ok hm,
      Out.ok_bind]
    exact h1 f n (by omega) (by omega)

/-- C81: the demonstration program never returns, whatever it is given to read: it goes on for ever exactly if
every line is of the right characters (at the end of the input it reads empty lines, again and again); else
the first other line makes it panic. -/
theorem C81_main (dbg : Bool) (fs : Nat → String) (ft : Str → String) (lines : Nat → List Char) :
    ((∀ i, ∃ w, Entered (lines i) w) → Diverges (fun n => Demo.main dbg fs ft n lines)) ∧
    ((∃ i, ¬ ∃ w, Entered (lines i) w) → Panics (fun n => Demo.main dbg fs ft n lines) .mainUnwrap) := by
  obtain ⟨rows, hrows⟩ : ∃ rows, Main.statesTable demoLalr.finalKernel demoLalr.stateFromKernel
      demoLalr.table = .ok rows := by
    have := demo_ok.2.2.2.2
    split at this
    · exact ⟨_, by assumption⟩
    · cases this
  constructor
  · intro h n
    have : Demo.parser dbg n = .fuel ∨ Demo.parser dbg n = .ok demoLalr := by
      rcases parser_le (dbg := dbg) (Nat.le_add_right n 200) with h1 | h1
      · exact Or.inl h1
      · right
        rw [h1]
        exact (parser_le (Nat.le_add_left 200 n)).ok (demo_parser dbg)
    simp only [Demo.main]
    rcases this with e | e
    · rw [e]; rfl
    · rw [e, Out.ok_bind, hrows, Out.ok_bind]
      exact loop_runs h n n 0
  · rintro ⟨i, hi⟩
    have least : ∀ i, (¬ ∃ w, Entered (lines i) w) →
        ∃ k, (∀ j < k, ∃ w, Entered (lines j) w) ∧ ¬ ∃ w, Entered (lines k) w := by
      intro i
      induction i using Nat.strongRecOn with
      | ind i ih =>
        intro hi
        by_cases hj : ∃ j, j < i ∧ ¬ ∃ w, Entered (lines j) w
        · obtain ⟨j, h1, h2⟩ := hj
          exact ih j h1 h2
        · exact ⟨i, fun j h1 => Classical.byContradiction (fun h2 => hj ⟨j, h1, h2⟩), hi⟩
    obtain ⟨k, h1, h2⟩ := least i hi
    obtain ⟨f0, h3⟩ := loop_panics (fs := fs) (ft := ft) k 0 (fun j _ hj => h1 j (by omega)) (by simpa using h2)
    refine ⟨200 + f0 + k + 1, ?_⟩
    simp only [Demo.main]
    rw [(parser_le (by omega)).ok (demo_parser dbg), Out.ok_bind, hrows, Out.ok_bind]
    exact h3 _ _ (by omega) (by omega)

/-- Not vacuous: a line that is answered with `ok`, one that is answered with an error, and one that makes the
program panic. -/
example : Entered [' ', '(', '[', ']', ')', '\n'] ['(', '[', ']', ')'] ∧ Nested ['(', '[', ']', ')'] ∧
    Entered ['\n'] [] ∧ ¬ Nested [] ∧ ¬ ∃ w, Entered ['(', ' ', ')'] w := by
  refine ⟨⟨by decide, [' '], ['\n'], rfl, by unfold White; decide, by unfold White; decide⟩,
    Nested.inRound .square, ⟨by simp, [], ['\n'], rfl, by simp, by unfold White; decide⟩, ?_, ?_⟩
  · intro h; cases h
  · rintro ⟨w, h⟩
    have h1 := entered_trim h
    have h2 : trim ['(', ' ', ')'] = ['(', ' ', ')'] := by decide
    rw [h2] at h1
    have := h.1 ' ' (by rw [← h1]; simp)
    revert this
    decide

end Lrp.Props
