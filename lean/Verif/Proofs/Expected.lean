import Verif.Proofs.Lalr1
import Verif.Proofs.Prefix
import Verif.Proofs.Power
import Verif.Proofs.Halt

/-! In every configuration some terminal that has an action may come next. -/

set_option linter.unusedSectionVars false

namespace Lrp
open Spec
variable {T : Type} [LinOrd T] [DecidableEq T] {M : Type}
variable {D : Decls T} {S eof : T} {b0 : List T} {states : List (State T)} {acts : ActTable T}
  {next : State T → T → Option Nat} {red : Position T → T → Prop}

theorem Looks.some_expected (h : Auto D S b0 states acts next red)
    (hl : Looks D S eof b0 states next red) (he : Terminal D eof) (hS : SingleStart D S)
    (hpr : AllProductive D) {c : Conf M T} (hi : InvC D states next c) :
    ∃ y, Terminal D y ∧ HasCell acts eof c y ∧ MayFollow D S eof c.consumed y := by
  obtain ⟨i, st, s, e, hs⟩ := h.path_state hi.path
  have hpath := hi.path
  rw [e] at hpath
  obtain ⟨p, hp⟩ := h.path_position hpath hs
  cases ht : p.top with
  | some X =>
    -- something can be shifted
    obtain ⟨y, hy, hX⟩ : ∃ y, Terminal D y ∧ (X = y ∨ InFirst D X y) := by
      obtain ⟨w, w1, w2⟩ := productive_list hpr [X]
      cases w with
      | nil => exact absurd rfl (derives_ne_nil h.noEmpty w1 (by simp))
      | cons z w => exact ⟨z, w2 z (by simp), Or.inr ⟨w, w1⟩⟩
    obtain ⟨q, hq, hqt⟩ := h.first_top' hs hX ⟨p, hp, ht⟩
    obtain ⟨j, s', e1, _⟩ := h.edge hs hq hqt
    refine ⟨y, hy, ?_, h.mayFollow_shift hpr he hi e hs hq hqt hy⟩
    rcases h.dec_cell hs (Or.inl ⟨q, hq, hqt, j, e1, Or.inl ⟨hy, rfl⟩⟩) with hc | ⟨_, _, hc⟩
    · exact ⟨i, st, _, e, hc⟩
    · exact ⟨i, st, _, e, hc⟩
  | none =>
    -- the position is complete: reduce under what follows in a sentence
    obtain ⟨w, hw, hd⟩ := h.rviable hpr hpath rfl hs hp
    obtain ⟨y, r, hy⟩ := head_append_eof (eof := eof) w
    have hprod := h.prod hs hp
    obtain ⟨i', st', s', q, k1, k2, k3, k4, k5, k6, k7⟩ := Looks.handle h hl he hS hd hw hprod.1
      (y := y) (by rw [hy]; rfl)
    have hpt : p.point = p.seq.1.length := Nat.le_antisymm hprod.2 (top_none ht)
    have e2 : p.seq.1.take p.point = p.seq.1 := by rw [hpt, List.take_length]
    have e3 := h.split_syms hpath hs hp
    rw [e2] at e3
    rw [← e3, List.reverse_reverse] at k1
    have e4 := hpath.unique k1
    cases e4
    rw [hs] at k2; cases k2
    have hyT : Terminal D y := by
      have : y ∈ w ++ [eof] := by rw [hy]; simp
      rcases List.mem_append.mp this with h | h
      · exact hw y h
      · rw [List.mem_singleton] at h; rw [h]; exact he
    refine ⟨y, hyT, ?_, ?_⟩
    · by_cases hqS : q.rule = S
      · rcases h.dec_cell hs (Or.inr ⟨q, k3, k6, k7, Or.inl ⟨hqS, rfl⟩⟩) with hc | ⟨_, _, hc⟩
        · exact ⟨i, st, _, e, hc⟩
        · exact ⟨i, st, _, e, hc⟩
      · rcases h.dec_cell hs (Or.inr ⟨q, k3, k6, k7, Or.inr ⟨hqS, rfl⟩⟩) with hc | ⟨_, _, hc⟩
        · exact ⟨i, st, _, e, hc⟩
        · exact ⟨i, st, _, e, hc⟩
    · refine mayFollow_of_form (z := r) hpr he hi hyT ?_
      rw [e3]
      have h1 := (hd.derives.trans (by
        simpa using Derives.ctx (Derives.of_prod hprod.1) ((List.map Tree.root c.trees).drop p.point).reverse w)).append (Derives.refl (D := D) [eof])
      simpa [← hy] using h1

end Lrp
