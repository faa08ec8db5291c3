import Verif.Proofs.Forever
import Verif.Props.Linear

/-! C99: a parser that has not answered after linearly many rounds never will, and which grammars are safe
from that. -/

set_option linter.unusedSectionVars false

namespace Lrp.Props
open Spec
set_option maxRecDepth 100000

variable {T : Type} [LinOrd T] [DecidableEq T] {M : Type}

section
variable {k : Method} {dbg : Bool} {D : Decls T} {S eof : T} {t : Tabler T}

/-- From a bounded number of moves to `parse`. -/
theorem endsWithin_steps (ht : Makes k dbg D S eof t) {b0 : List T} {next : State T → T → Option Nat}
    {red : Position T → T → Prop} (ha : Auto D S b0 t.states t.actions next red) (he : Terminal D eof)
    (maps : ReductMap M T) {toks : List (Token M T)} (hT : TerminalToks D toks) {m N : Nat} {c : Conf M T}
    (hm : Steps t.actions eof m ⟨[0], [], toks⟩ c) (hs : Stop t.actions eof c) (hN : m ≤ N) :
    EndsWithin t eof maps toks (N + 1) := by
  have key : ∀ n tf, N + 1 < n → 2 ≤ tf →
      (∃ p, Dfa.traceWith counting tf n 0 (Dfa.new toks t.actions maps eof) = .panic p) ∨
      ∃ calls r, Dfa.traceWith counting tf n 0 (Dfa.new toks t.actions maps eof) = .ok (calls, r) ∧
        calls ≤ N + 1 := by
    intro n tf hn htf
    rcases ha.ran_steps he (maps := maps) hm hs (fun (s : Nat) _ => s + 1) id (fun s d => Nat.le_refl _)
      (inv_init D t.states next toks) (sim_init t.actions eof maps toks) hT tf n htf (by omega) 0 with
      h | ⟨s, r, h, h'⟩
    · exact .inl h
    · exact .inr ⟨s, r, h, by simp only [id] at h'; omega⟩
  refine ⟨fun n hn => key n 2 hn (Nat.le_refl 2), fun n hn => ?_⟩
  have h1 : Dfa.start n (Dfa.new toks t.actions maps eof) ≠ .fuel := by
    unfold Dfa.start
    rw [← Dfa.traceWith_look (σ := Nat) (fun s _ => s + 1) n n 0]
    rcases key n n hn (by omega) with ⟨p, h⟩ | ⟨s, r, h, _⟩
    · unfold counting at h
      rw [h]; simp
    · unfold counting at h
      rw [h]; simp
  unfold Parser.parse Parser.dfa
  simp only [ht.eofHead, Out.ofOption_some, Out.ok_bind, Out.pure_eq]
  cases hd : Dfa.start n (Dfa.new toks t.actions maps eof) with
  | fuel => exact absurd hd h1
  | panic p => simp
  | ok r =>
    obtain ⟨d', e | u⟩ := r
    · simp
    · simp only [Out.ok_bind]
      split <;> simp

/-- If `parse` answers, the run stops. -/
theorem halts_of_parses (ht : Makes k dbg D S eof t) {b0 : List T} {next : State T → T → Option Nat}
    {red : Position T → T → Prop} (ha : Auto D S b0 t.states t.actions next red) (he : Terminal D eof)
    {maps : ReductMap M T} {toks : List (Token M T)} (hT : TerminalToks D toks)
    {r : Except (Error T) M} (h : Parses t maps toks r) : Halts t.actions eof ⟨[0], [], toks⟩ := by
  obtain ⟨n, hn⟩ := h
  have hend := ha.parse_end (maps := maps) ht.eofHead he hT n
  simp only at hn
  rw [hn] at hend
  cases hend with
  | ok h1 h2 _ _ => exact ⟨_, h1, .inl h2⟩
  | error h1 h2 => exact ⟨_, h1, .inr ⟨_, h2⟩⟩

/-- C99: with any table, with or without conflicts, `parse` answers within a number of rounds that is linear
in the length of the input, if it answers at all. -/
theorem C99_within (ht : Makes k dbg D S eof t) (he : Terminal D eof) {maps : ReductMap M T}
    {toks : List (Token M T)} (hT : TerminalToks D toks) {r : Except (Error T) M}
    (h : Parses t maps toks r) : EndsWithin t eof maps toks (2 * toks.length * (D.length + 1) + 1) := by
  obtain ⟨b0, next, red, ha, _⟩ := ht.auto
  rcases ha.linear_or he (2 * toks.length) ⟨[0], [], toks⟩ (by simp [Conf.size])
    (inv_init D t.states next toks) hT with ⟨m, c, h1, h2, h3⟩ | ⟨h1, _⟩
  · exact endsWithin_steps ht ha he maps hT h2 h3 h1
  · exact absurd (halts_of_parses ht ha he hT h) h1

/-- C99: so, if no reductor panics, one can tell after so many rounds that it never will. -/
theorem C99_decides (ht : Makes k dbg D S eof t) (he : Terminal D eof) {maps : ReductMap M T}
    {toks : List (Token M T)} (hT : TerminalToks D toks) (hev : Evaluates D maps toks) {n : Nat}
    (hn : 2 * toks.length * (D.length + 1) + 1 < n) :
    Parser.parse t n toks maps = .fuel ↔ Diverges (fun n => Parser.parse t n toks maps) := by
  refine ⟨fun hf m => ?_, fun h => h n⟩
  obtain ⟨b0, next, red, ha, _⟩ := ht.auto
  show Parser.parse t m toks maps = .fuel
  cases hp : Parser.parse t m toks maps with
  | fuel => rfl
  | ok r => exact absurd hf ((C99_within ht he hT ⟨m, hp⟩).2 n hn)
  | panic p =>
    have hend := ha.parse_end (maps := maps) ht.eofHead he hT m
    rw [hp] at hend
    cases hend with
    | panic hp _ _ => exact (hp.false hev).elim

/-- C99: a parser can go on forever only if some symbol becomes itself by productions of one symbol: for all
other grammars, every table, with or without conflicts, ends every parse within linearly many rounds. -/
theorem C99_acyclic (ht : Makes k dbg D S eof t) (he : Terminal D eof) (hD : Acyclic D)
    (maps : ReductMap M T) {toks : List (Token M T)} (hT : TerminalToks D toks) :
    EndsWithin t eof maps toks (2 * toks.length * (D.length + 1) + 1) := by
  obtain ⟨b0, next, red, ha, _⟩ := ht.auto
  rcases ha.linear_or he (2 * toks.length) ⟨[0], [], toks⟩ (by simp [Conf.size])
    (inv_init D t.states next toks) hT with ⟨m, c, h1, h2, h3⟩ | ⟨_, A, h1⟩
  · exact endsWithin_steps ht ha he maps hT h2 h3 h1
  · exact absurd h1 (hD A)

/-- C99: in particular `validate` with such a grammar always returns, and needs no more rounds than that. -/
theorem C99_validate (ht : Makes k dbg D S eof t) (he : Terminal D eof) (hD : Acyclic D)
    {toks : List (Token Unit T)} (hT : TerminalToks D toks) :
    ∃ b, ∀ n, 2 * toks.length * (D.length + 1) + 1 < n → Parser.validate t n toks = .ok b := by
  obtain ⟨b0, next, red, ha, _⟩ := ht.auto
  have hw := C99_acyclic ht he hD (Parser.empty t) hT
  have key : ∀ n, 2 * toks.length * (D.length + 1) + 1 < n → ∃ b, Parser.validate t n toks = .ok b := by
    intro n hn
    have hend := ha.parse_end (maps := Parser.empty t) ht.eofHead he hT n
    have hf := hw.2 n hn
    unfold Parser.validate
    generalize Parser.parse t n toks (Parser.empty t) = r at hend hf
    cases hend with
    | ok _ _ _ _ => exact ⟨_, rfl⟩
    | error _ _ => exact ⟨_, rfl⟩
    | panic hp _ _ => exact (hp.false ((reductors_empty ht.grammar).evaluates toks)).elim
    | fuel => exact absurd rfl hf
  obtain ⟨b, hb⟩ := key _ (Nat.lt_succ_self _)
  exact ⟨b, fun n hn => (Parser.validate_le (Nat.succ_le_of_lt hn) t toks).ok hb⟩

end

/-! ### Examples -/

/-- A ranking that shows that no symbol becomes itself. -/
theorem acyclic_of {D : Decls T} (rank : T → Nat)
    (h : ∀ d ∈ D, ∀ b ∈ d.2, ∀ x, b = [x] → rank x < rank d.1) : Acyclic D := by
  have key : ∀ {A B : T}, Renames D A B → rank B < rank A := by
    have one : ∀ {A B : T} {i : Nat}, IsProd D A i [B] → rank B < rank A := by
      rintro A B i ⟨bs, ⟨pre, post, e, _⟩, hb⟩
      exact h (A, bs) (by rw [e]; simp) _ (List.mem_of_getElem? hb) B rfl
    intro A B hr
    induction hr with
    | one p => exact one p
    | more p _ ih => exact Nat.lt_trans ih (one p)
  intro A hA
  exact Nat.lt_irrefl _ (key hA)

/-- `E → E + E | n`, which is ambiguous. -/
def plusTwice : Decls Nat := [(0, [[1]]), (1, [[1, 11, 1], [14]])]

/-- The table has a conflict, and yet every parse ends. -/
theorem plusTwice_ends : ∃ t, Makes .slr true plusTwice 0 99 t ∧ t.conflicts ≠ [] ∧
    ∀ toks : List (Token Unit Nat), TerminalToks plusTwice toks →
      EndsWithin t 99 (Parser.empty t) toks (2 * toks.length * 3 + 1) := by
  have hg : Grammar.new true 0 (grammarMap plusTwice) 99 = .ok (Samples.grammar plusTwice) := by decide +kernel
  have h : ∃ t, Method.slr.build true 500 (Samples.grammar plusTwice) = .ok t ∧ t.conflicts ≠ [] := by
    refine ⟨_, rfl, ?_⟩; decide +kernel
  obtain ⟨t, h1, h2⟩ := h
  refine ⟨t, ⟨_, hg, 500, h1⟩, h2, fun toks hT => ?_⟩
  refine C99_acyclic (D := plusTwice) ⟨_, hg, 500, h1⟩ (by unfold Terminal; decide) ?_ _ hT
  exact acyclic_of (fun x => if x = 0 then 2 else if x = 1 then 1 else 0) (by
    intro d hd b hb x hx
    simp only [plusTwice, List.mem_cons, List.not_mem_nil, or_false] at hd
    rcases hd with rfl | rfl
    · simp only [List.mem_cons, List.not_mem_nil, or_false] at hb
      subst hb; cases hx; decide
    · simp only [List.mem_cons, List.not_mem_nil, or_false] at hb
      rcases hb with rfl | rfl
      · cases hx
      · cases hx; decide)

/-- A parse that goes on forever, found by running it for 33 rounds. -/
theorem cycle_found : ∃ t, Makes .slr true Samples.unitCycle 0 99 t ∧
    Diverges (fun n => Parser.parse t n (Samples.toks [10, 14, 13]) (Parser.empty t)) := by
  have hg : Grammar.new true 0 (grammarMap Samples.unitCycle) 99 = .ok (Samples.grammar Samples.unitCycle) := by decide +kernel
  have h : ∃ t, Method.slr.build true 500 (Samples.grammar Samples.unitCycle) = .ok t ∧
      Parser.parse t 50 (Samples.toks [10, 14, 13]) (Parser.empty t) = .fuel := by
    refine ⟨_, rfl, ?_⟩
    rfl
  obtain ⟨t, h1, h2⟩ := h
  have ht : Makes .slr true Samples.unitCycle 0 99 t := ⟨_, hg, 500, h1⟩
  refine ⟨t, ht, (C99_decides ht (by unfold Terminal; decide) ?_ ?_ ?_).mp h2⟩
  · unfold TerminalToks Terminal; decide
  · exact (reductors_empty ht.grammar).evaluates _
  · decide

end Lrp.Props
