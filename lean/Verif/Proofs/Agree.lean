import Verif.Proofs.Again
import Verif.Proofs.Power

/-! The start symbol is followed by the end marker only, so tables accept under the end marker only. -/

set_option linter.unusedSectionVars false

namespace Lrp
open Spec
variable {T : Type} [LinOrd T] [DecidableEq T] {M : Type}

section
variable {k : Method} {dbg : Bool} {D : Decls T} {S eof : T} {t : Tabler T}

theorem PairEdge.mem {first : Lrp.Table T} {body : List T} {A x : T} (h : Tabler.PairEdge D first body A x) :
    A ∈ body := by
  obtain ⟨b, ⟨u, v, rfl⟩, _⟩ := h
  simp

theorem follow_start (h : t.Of D S eof) (hS : InNoBody D S) (he : Terminal D eof) {x : T}
    (hx : Tabler.Has t.follow S x) : x = eof := by
  have key : ∀ {x}, Tabler.FollowEdge D S eof t.first S x → x = eof := by
    rintro x (⟨_, h⟩ | ⟨B, i, body, hp, h | h⟩)
    · exact h
    · exact absurd (PairEdge.mem h) (hS _ _ _ hp)
    · exact absurd (List.mem_of_getLast? h.1) (hS _ _ _ hp)
  cases h.followAny S x hx with
  | base h => exact key h
  | cons h hn _ => exact absurd he (key h ▸ hn)

theorem lookRel_start (h : t.Of D S eof) (hS : InNoBody D S) :
    LookRel t D (fun A x => x ∈ lookSyms t ∧ (A = S → x = eof)) := by
  have ha := lookRel_any h
  refine ⟨fun _ _ h => h.1, ?_, ?_⟩
  · intro p hp A ht hA Z hn x hx
    exact ⟨ha.next p hp A ht hA Z hn x hx, fun e => absurd (e ▸ top_mem ht) (hS _ _ _ hp)⟩
  · intro p hp A ht hA hn x hx
    exact ⟨hx.1, fun e => absurd (e ▸ top_mem ht) (hS _ _ _ hp)⟩

theorem Spec.Makes.startReds (h : Makes k dbg D S eof t) (hS : InNoBody D S) (he : Terminal D eof) :
    ∃ b0 next red, Auto D S b0 t.states t.actions next red ∧
      ∀ (i : Nat) s p x, t.states[i]? = some s → p ∈ s → p.rule = S → red p x → x = eof := by
  have hof := h.of
  have hl0 : ∀ {t : Tabler T}, t.Of D S eof → eof ∈ lookSyms t := by
    intro t h
    refine List.mem_append_left _ ?_
    obtain ⟨b, _, e⟩ := h.grammar.basis
    have e' : t.basisPos = _ := e
    rw [e']; simp
  obtain ⟨g, hg, n, hb⟩ := h
  cases k with
  | slr =>
    have hb := Slr.built (Grammar.of_new hg) hb
    obtain ⟨b0, hb0, _⟩ := hb.basis_eq
    exact ⟨b0, _, _, hb.auto hb0, fun i s p x hs hp e hrd => follow_start hof hS he (e ▸ hrd)⟩
  | clr =>
    have hb := Clr.built (Grammar.of_new hg) hb
    obtain ⟨b0, hb0, _⟩ := hb.basis_eq
    refine ⟨b0, _, _, hb.auto hb0, fun i s p x hs hp e hrd => ?_⟩
    exact (hb.look_rel (lookRel_start hb.of hS) ⟨hl0 hb.of, fun _ => rfl⟩ i s hs p hp x hrd).2 e
  | lalr =>
    obtain ⟨l, hlr, e⟩ := Out.bind_eq_ok.mp hb
    cases e
    obtain ⟨t0, _, hb1, hR⟩ := Lalr.built (Grammar.of_new hg) hlr
    obtain ⟨b0, hb0, _⟩ := hb1.of.grammar.basis
    have hb2 := hR _ (lookRel_start hb1.of hS) ⟨hl0 hb1.of, fun _ => rfl⟩
    exact ⟨b0, _, _, hb1.auto hb0, fun i s p x hs hp e hrd => ((hb2.goodAt hs hp).look x hrd).2 e⟩

/-- Tables accept under the end marker only. -/
theorem Spec.Makes.acc_eof (h : Makes k dbg D S eof t) (hS : InNoBody D S) (he : Terminal D eof) {i : Nat} {x : T}
    (hc : cellAt t.actions i x = some .acc) : x = eof := by
  obtain ⟨b0, next, red, ha, hr⟩ := h.startReds hS he
  have hi : i < t.states.length := by
    rw [← ha.len]
    obtain ⟨row, h1, _⟩ := Option.bind_eq_some_iff.mp hc
    exact (List.getElem?_eq_some_iff.mp h1).1
  have hs := List.getElem?_eq_getElem hi
  rcases ha.cell_dec hs hc (by intro x y; simp) with ⟨p, _, _, j, _, hk⟩ | ⟨p, hp, ht, hrd, hk⟩
  · rcases hk with ⟨_, hk⟩ | ⟨_, hk⟩ <;> cases hk
  · rcases hk with ⟨hpS, _⟩ | ⟨_, hk⟩
    · exact hr _ _ _ _ hs hp hpS hrd
    · cases hk

end

end Lrp
