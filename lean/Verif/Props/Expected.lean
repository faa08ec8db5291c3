import Verif.Proofs.Expected
import Verif.Props.Errors
import Verif.Props.Halt

/-! C31: the list of expected tokens is never useless. -/

namespace Lrp.Props
open Spec
set_option maxRecDepth 100000

variable {T : Type} [LinOrd T] [DecidableEq T] {M : Type}

/-- C31 for all methods: the list contains at least one terminal (perhaps `eof`) that may come next
instead of the wrong token.  For Lalr, if lookaheads have been passed on.  Missing for Slr and Lalr:
that it contains all of them, which is false (`C31_false_slr`, `C31_false_lalr`). -/
theorem C31_some_partial {k : Method} {dbg : Bool} {D : Decls T} {S eof : T} {t : Tabler T}
    (ht : Makes k dbg D S eof t) (hk : k = .lalr → Propagated t) (h1 : SingleStart D S)
    (he : Terminal D eof) (hpr : AllProductive D) {maps : ReductMap M T}
    {toks : List (Token M T)} (hT : TerminalToks D toks) {x : T} {exp : List T}
    (h : Parses t maps toks (.error (.unexpectedToken x exp))) :
    ∃ u v y, toks = u ++ v ∧ x = (v.map Token.ty).headD eof ∧ Terminal D y ∧ y ≠ x ∧ y ∈ exp ∧
      MayFollow D S eof (u.map Token.ty) y := by
  obtain ⟨b0, next, red, ha, hl⟩ := ht.looks hk he
  obtain ⟨n, h⟩ := id h
  have hend := ha.parse_end (maps := maps) ht.eofHead he hT n
  simp only at h
  rw [h] at hend
  cases hend with
  | @error c _ hm hf =>
    have hi := ha.inv_moves (inv_init D t.states next toks) hm
    have hy := hm.yields
    simp only [List.reverse_nil, Tree.yields_nil, List.nil_append] at hy
    cases hf with
    | @noAction i st trs buf row h2 h3 =>
      obtain ⟨y, y1, ⟨i', st', a, e1, e2⟩, y3⟩ := Looks.some_expected ha hl he h1 hpr hi
      cases e1
      unfold cellAt at e2; rw [h2] at e2
      refine ⟨Tree.yields trs.reverse, buf, y, hy.symm, ?_, y1, ?_, OMap.mem_keys.mpr ⟨a, e2⟩, y3⟩
      · cases buf <;> rfl
      · rintro rfl
        rw [Option.bind_some, h3] at e2; cases e2

/-- Not vacuous: the tables of `C31_false_slr` and `C31_false_lalr`. -/
theorem contexts_productive : AllProductive Samples.contexts :=
  allProductive [(2, 0), (1, 0), (0, 0)] (by decide) (by decide +kernel) (by decide)

example : ∃ (t : Tabler Nat) (u v : List (Token Unit Nat)), Makes .slr true Samples.contexts 0 99 t ∧
    Samples.toks [10, 14, 12] = u ++ v ∧ MayFollow Samples.contexts 0 99 (u.map Token.ty) 13 := by
  obtain ⟨t, h1, _, h3, _⟩ := C31_false_slr
  obtain ⟨u, v, y, e, _, _, _, h4, h5⟩ := C31_some_partial h1 (fun h => by cases h)
    (Samples.singleStart (by decide)) (by unfold Terminal; decide) contexts_productive
    (by unfold TerminalToks Terminal; decide) h3
  simp at h4; subst h4
  exact ⟨t, u, v, h1, e, h5⟩

end Lrp.Props
