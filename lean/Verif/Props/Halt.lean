import Verif.Proofs.Halt
import Verif.Props.Errors

/-! C27: parsing ends. -/

set_option linter.unusedSectionVars false

namespace Lrp.Props
open Spec
set_option maxRecDepth 100000

variable {T : Type} [LinOrd T] [DecidableEq T] {M : Type}

/-- From runs that end to `parse`. -/
theorem returns_of_halts {k : Method} {dbg : Bool} {D : Decls T} {S eof : T} {t : Tabler T}
    (ht : Makes k dbg D S eof t) (he : Terminal D eof) {maps : ReductMap M T}
    {toks : List (Token M T)} (hT : TerminalToks D toks)
    (hh : Halts t.actions eof ⟨[0], [], toks⟩) :
    ¬ Diverges (fun n => Parser.parse t n toks maps) ∧
    (Evaluates D maps toks → ∃ r, Parses t maps toks r) := by
  obtain ⟨b0, next, red, ha, _⟩ := ht.auto
  obtain ⟨c, hm, hs⟩ := hh
  obtain ⟨n, hn⟩ := ha.parse_stop (maps := maps) ht.eofHead he hT hm hs
  refine ⟨fun hd => hn (hd n), fun hred => ?_⟩
  have hend := ha.parse_end (maps := maps) ht.eofHead he hT n
  cases hp : Parser.parse t n toks maps with
  | ok r => exact ⟨r, n, hp⟩
  | panic p =>
    rw [hp] at hend
    cases hend with
    | panic hp _ _ => exact (hp.false hred).elim
  | fuel => exact absurd hp hn

/-- C27 for `Clr`: with or without conflicts, `parse` ends on every input of terminals; it returns if
no reductor panics. -/
theorem C27_clr_returns {dbg : Bool} {D : Decls T} {S eof : T} {t : Tabler T}
    (ht : Makes .clr dbg D S eof t) (he : Terminal D eof) {maps : ReductMap M T}
    {toks : List (Token M T)} (hT : TerminalToks D toks) :
    ¬ Diverges (fun n => Parser.parse t n toks maps) ∧
    (Evaluates D maps toks → ∃ r, Parses t maps toks r) := by
  obtain ⟨b0, next, red, ha, hl, hx⟩ := ht.exact
  exact returns_of_halts ht he hT (ha.halts he
    (fun i st syms y X _ hy => Exact.no_loop ha hl hx hy X) _ _ _ rfl rfl
    (inv_init D t.states next toks) hT)

/-- C27 for conflict-free tables, when every nonterminal derives some terminal string: `Slr`, `Clr`, and
`Lalr` tables whose lookaheads have been passed on. -/
theorem C27_conflict_free_returns {k : Method} {dbg : Bool} {D : Decls T} {S eof : T} {t : Tabler T}
    (ht : Makes k dbg D S eof t) (hk : k = .lalr → Propagated t) (hc : t.conflicts = [])
    (he : Terminal D eof) (hpr : AllProductive D) {maps : ReductMap M T}
    {toks : List (Token M T)} (hT : TerminalToks D toks) :
    ¬ Diverges (fun n => Parser.parse t n toks maps) ∧
    (Evaluates D maps toks → ∃ r, Parses t maps toks r) := by
  obtain ⟨b0, next, red, ha, hl⟩ := ht.looks hk he
  exact returns_of_halts ht he hT (ha.halts he
    (fun i st syms y X hp _ => Looks.no_loop ha hl he hpr (ht.no_conflict.mp hc) hp X) _ _ _ rfl rfl
    (inv_init D t.states next toks) hT)

/-- So `validate` decides membership: for a conflict-free Slr (or Clr) table of a productive grammar it
answers on every input of terminals. -/
theorem C27_validate_answers {k : Method} {dbg : Bool} {D : Decls T} {S eof : T} {t : Tabler T}
    (ht : Makes k dbg D S eof t) (hk : k = .lalr → Propagated t) (hc : t.conflicts = [])
    (he : Terminal D eof) (hpr : AllProductive D) {toks : List (Token Unit T)}
    (hT : TerminalToks D toks) : ∃ b, Validates t toks b := by
  obtain ⟨r, hr⟩ := (C27_conflict_free_returns (maps := Parser.empty t) ht hk hc he hpr hT).2
    ((reductors_empty ht.grammar).evaluates toks)
  cases r with
  | ok v => exact ⟨true, validates_true.mpr hr⟩
  | error e => exact ⟨false, validates_false.mpr ⟨e, hr⟩⟩

/-- Not vacuous: the expression grammar satisfies all the hypotheses. -/
example (toks : List (Token Unit Nat)) (hT : TerminalToks Samples.expr toks) :
    ∃ b, Validates exprSlr toks b :=
  C27_validate_answers makes_exprSlr (by simp) exprSlr_ok.2.2 expr_eof expr_productive hT

/-! ### Why conflicts matter for Slr and Lalr -/

theorem isProd_of_mem {D : Decls T} {A : T} {i : Nat} {bs : List (List T)} {b : List T}
    (hD : (D.map Prod.fst).Nodup) (h : (A, bs) ∈ D) (hb : bs[i]? = some b) : IsProd D A i b := by
  obtain ⟨pre, post, e⟩ := List.append_of_mem h
  refine ⟨bs, ⟨pre, post, e, ?_⟩, hb⟩
  intro d hd he
  rw [e] at hD
  simp only [List.map_append, List.map_cons, List.nodup_append, List.nodup_cons] at hD
  exact hD.2.1.1 (he ▸ List.mem_map_of_mem hd)

/-- Lists production numbers of bodies made of terminals and of names listed before. -/
def Derivable (D : Decls T) : List T → List (T × Nat) → Prop
  | _, [] => True
  | seen, (A, i) :: rest => (∃ d ∈ D, d.1 = A ∧ ∃ b ∈ d.2[i]?, ∀ x ∈ b, x ∈ seen ∨ ∀ d ∈ D, d.1 ≠ x) ∧
      Derivable D (A :: seen) rest

/-- Decides `Derivable`. -/
def derivable (D : Decls T) : (seen : List T) → (l : List (T × Nat)) → Decidable (Derivable D seen l)
  | _, [] => .isTrue trivial
  | seen, (A, i) :: rest =>
    have := derivable D (A :: seen) rest
    inferInstanceAs (Decidable ((∃ d ∈ D, d.1 = A ∧ ∃ b ∈ d.2[i]?, ∀ x ∈ b, x ∈ seen ∨
      ∀ d ∈ D, d.1 ≠ x) ∧ Derivable D (A :: seen) rest))

instance {D : Decls T} (seen : List T) (l : List (T × Nat)) : Decidable (Derivable D seen l) :=
  derivable D seen l

theorem Derivable.productive {D : Decls T} (hD : (D.map Prod.fst).Nodup) :
    ∀ {l : List (T × Nat)} {seen : List T}, Derivable D seen l → (∀ A ∈ seen, Productive D A) →
      ∀ A ∈ l.map Prod.fst, Productive D A := by
  intro l
  induction l with
  | nil => intro _ _ _ A hA; simp at hA
  | cons e rest ih =>
    obtain ⟨B, i⟩ := e
    rintro seen ⟨⟨d, hd, rfl, b, hb, hx⟩, h2⟩ hs A hA
    have hB : Productive D d.1 := by
      have hp : IsProd D d.1 i b := isProd_of_mem hD (bs := d.2) hd hb
      have : ∃ w, Derives D b w ∧ ∀ t ∈ w, Terminal D t := by
        clear hb hp
        induction b with
        | nil => exact ⟨[], .refl _, by simp⟩
        | cons x b ihb =>
          obtain ⟨w, w1, w2⟩ := ihb (fun y hy => hx y (List.mem_cons_of_mem _ hy))
          obtain ⟨v, v1, v2⟩ : ∃ v, Derives D [x] v ∧ ∀ t ∈ v, Terminal D t := by
            rcases hx x (List.mem_cons_self ..) with h | h
            · exact hs x h
            · exact ⟨[x], .refl _, fun t ht => by rw [List.mem_singleton.mp ht]; exact h⟩
          refine ⟨v ++ w, v1.cons w1, ?_⟩
          intro t ht
          rcases List.mem_append.mp ht with ht | ht
          · exact v2 t ht
          · exact w2 t ht
      obtain ⟨w, w1, w2⟩ := this
      exact ⟨w, (Derives.of_prod hp).trans w1, w2⟩
    rw [List.map_cons, List.mem_cons] at hA
    rcases hA with rfl | hA
    · exact hB
    · refine ih h2 ?_ A hA
      intro C hC
      rcases List.mem_cons.mp hC with rfl | hC
      · exact hB
      · exact hs C hC

/-- Checks `AllProductive`. -/
theorem allProductive {D : Decls T} (l : List (T × Nat)) (hD : (D.map Prod.fst).Nodup)
    (h : Derivable D [] l) (hl : ∀ d ∈ D, d.1 ∈ l.map Prod.fst) : AllProductive D := by
  rintro A ⟨d, hd, rfl⟩
  exact h.productive hD (by simp) _ (hl d hd)

/-- A set of configurations that runs do not leave, nor stop in. -/
theorem no_halt {acts : ActTable T} {eof : T} (I : Conf M T → Prop)
    (hI : ∀ c, I c → ∃ c', Move acts eof c c' ∧ I c') {c0 c : Conf M T}
    (hm : Moves acts eof c0 c) (hc : I c) : ¬ Halts acts eof c0 := by
  rintro ⟨d, hd, hs⟩
  have hdead : ∀ e, ¬ Move acts eof d e := by
    intro e he
    rcases hs with h | ⟨_, h⟩
    · exact h.no_move he
    · exact h.no_move he
  have hin : ∀ {c d : Conf M T}, Moves acts eof c d → I c → I d := by
    intro c d h
    induction h with
    | refl => exact id
    | head m _ ih =>
      intro hc
      obtain ⟨c', m', h'⟩ := hI _ hc
      exact ih (m.det m' ▸ h')
  have : Moves acts eof c d := by
    rcases Moves.linear hm hd with h | h
    · exact h
    · cases h with
      | refl => exact .refl _
      | head m _ => exact absurd m (hdead _)
  obtain ⟨e, m, _⟩ := hI _ (hin this hc)
  exact hdead e m

theorem diverges_of_no_halt {k : Method} {dbg : Bool} {D : Decls T} {S eof : T} {t : Tabler T}
    (ht : Makes k dbg D S eof t) (he : Terminal D eof) {toks : List (Token Unit T)}
    (hT : TerminalToks D toks) (hh : ¬ Halts t.actions eof ⟨[0], [], toks⟩) :
    Diverges (fun n => Parser.validate t n toks) := by
  obtain ⟨b0, next, red, ha, _⟩ := ht.auto
  intro n
  have hend := ha.parse_end (maps := Parser.empty t) ht.eofHead he hT n
  show Parser.validate t n toks = .fuel
  unfold Parser.validate
  generalize Parser.parse t n toks (Parser.empty t) = r at hend
  cases hend with
  | ok h1 h2 _ _ _ => exact absurd ⟨_, h1, Or.inl h2⟩ hh
  | error h1 h2 => exact absurd ⟨_, h1, Or.inr ⟨_, h2⟩⟩ hh
  | panic hp _ _ => exact (hp.false ((reductors_empty ht.grammar).evaluates toks)).elim
  | fuel => rfl

/-- Two unit reductions that undo each other. -/
theorem two_cycle {acts : ActTable T} {eof : T} {i i1 i2 k k1 k2 j : Nat} {A B n : T}
    {a b : Token M T} {rest : List (Token M T)}
    (h0 : cellAt acts 0 a.ty = some (.shift i)) (h1 : cellAt acts i b.ty = some (.shift j))
    (h2 : cellAt acts j (lookSym eof rest) = some (.reduce A ([n], k)))
    (h3 : cellAt acts i A = some (.goto i1))
    (h4 : cellAt acts i1 (lookSym eof rest) = some (.reduce B ([A], k1)))
    (h5 : cellAt acts i B = some (.goto i2))
    (h6 : cellAt acts i2 (lookSym eof rest) = some (.reduce A ([B], k2))) :
    ¬ Halts acts eof ⟨[0], [], a :: b :: rest⟩ := by
  refine no_halt (fun c => ∃ tr x, (c = ⟨[i1, i, 0], [tr, x], rest⟩ ∨ c = ⟨[i2, i, 0], [tr, x], rest⟩))
    ?_ (.head (.shift h0) (.head (.shift h1) (.head (.reduce h2 (by simp) rfl h3) (.refl _))))
    ⟨_, _, Or.inl rfl⟩
  rintro c ⟨tr, x, rfl | rfl⟩
  · exact ⟨_, .reduce h4 (by simp) rfl h5, _, _, Or.inr rfl⟩
  · exact ⟨_, .reduce h6 (by simp) rfl h3, _, _, Or.inl rfl⟩

/-- C27 needs the table to be conflict-free for `Slr`: for `S → p A x | q A y`, `A → B | n`, `B → A` the
run on `p n y` reduces `A → B`, `B → A` forever. -/
theorem C27_slr_needs_conflict_free : ∃ t, Makes .slr true Samples.unitCycle 0 99 t ∧
    Terminal Samples.unitCycle 99 ∧ AllProductive Samples.unitCycle ∧
    TerminalToks Samples.unitCycle (Samples.toks [10, 14, 13]) ∧
    Diverges (fun n => Parser.validate t n (Samples.toks [10, 14, 13])) := by
  have hg : Grammar.new true 0 (grammarMap Samples.unitCycle) 99 =
    .ok (Samples.grammar Samples.unitCycle) := by decide +kernel
  have h : ∃ t, Method.slr.build true 500 (Samples.grammar Samples.unitCycle) = .ok t ∧
      cellAt t.actions 0 10 = some (.shift 2) ∧ cellAt t.actions 2 14 = some (.shift 6) ∧
      cellAt t.actions 6 13 = some (.reduce 2 ([14], 1)) ∧ cellAt t.actions 2 2 = some (.goto 4) ∧
      cellAt t.actions 4 13 = some (.reduce 3 ([2], 0)) ∧ cellAt t.actions 2 3 = some (.goto 5) ∧
      cellAt t.actions 5 13 = some (.reduce 2 ([3], 0)) := by
    refine ⟨_, rfl, ?_⟩; decide +kernel
  obtain ⟨t, ht, h0, h1, h2, h3, h4, h5, h6⟩ := h
  have hm : Makes .slr true Samples.unitCycle 0 99 t := ⟨_, hg, 500, ht⟩
  have he : Terminal Samples.unitCycle 99 := by unfold Terminal; decide
  have hT : TerminalToks Samples.unitCycle (Samples.toks [10, 14, 13]) := by
    unfold TerminalToks Terminal; decide
  refine ⟨t, hm, he, allProductive [(2, 1), (3, 0), (1, 0), (0, 0)] (by decide) (by decide) (by decide),
    hT, diverges_of_no_halt hm he hT ?_⟩
  exact two_cycle (rest := Samples.toks [13]) (a := ⟨(), 10⟩) (b := ⟨(), 14⟩) h0 h1 h2 h3 h4 h5 h6

/-- C27 needs the table to be conflict-free for `Lalr`: merging brings the lookaheads of the cycle
together. -/
theorem C27_lalr_needs_conflict_free : ∃ t, Makes .lalr true Samples.mergedCycle 0 99 t ∧
    Terminal Samples.mergedCycle 99 ∧ AllProductive Samples.mergedCycle ∧
    TerminalToks Samples.mergedCycle (Samples.toks [10, 15, 14]) ∧
    Diverges (fun n => Parser.validate t n (Samples.toks [10, 15, 14])) := by
  have hg : Grammar.new true 0 (grammarMap Samples.mergedCycle) 99 =
    .ok (Samples.grammar Samples.mergedCycle) := by decide +kernel
  have h : ∃ t, Method.lalr.build true 500 (Samples.grammar Samples.mergedCycle) = .ok t ∧
      cellAt t.actions 0 10 = some (.shift 2) ∧ cellAt t.actions 2 15 = some (.shift 8) ∧
      cellAt t.actions 8 14 = some (.reduce 5 ([15], 1)) ∧ cellAt t.actions 2 5 = some (.goto 6) ∧
      cellAt t.actions 6 14 = some (.reduce 6 ([5], 0)) ∧ cellAt t.actions 2 6 = some (.goto 7) ∧
      cellAt t.actions 7 14 = some (.reduce 5 ([6], 0)) := by
    refine ⟨_, rfl, ?_⟩; decide +kernel
  obtain ⟨t, ht, h0, h1, h2, h3, h4, h5, h6⟩ := h
  have hm : Makes .lalr true Samples.mergedCycle 0 99 t := ⟨_, hg, 500, ht⟩
  have he : Terminal Samples.mergedCycle 99 := by unfold Terminal; decide
  have hT : TerminalToks Samples.mergedCycle (Samples.toks [10, 15, 14]) := by
    unfold TerminalToks Terminal; decide
  refine ⟨t, hm, he, allProductive [(5, 1), (6, 0), (2, 0), (3, 0), (4, 0), (1, 0), (0, 0)]
    (by decide) (by decide) (by decide), hT, diverges_of_no_halt hm he hT ?_⟩
  exact two_cycle (rest := Samples.toks [14]) (a := ⟨(), 10⟩) (b := ⟨(), 15⟩) h0 h1 h2 h3 h4 h5 h6

end Lrp.Props
