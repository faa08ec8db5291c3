import Verif.Spec.Fewer
import Verif.Spec.Knuth
import Verif.Proofs.Cfg
import Verif.Proofs.Lalr1

/-! Grammars with fewer productions. -/

set_option linter.unusedSectionVars false

namespace Lrp
open Spec
variable {T : Type} [LinOrd T] [DecidableEq T]

/-- Where the symbols of a derived text come from. -/
theorem derives_from {D : Decls T} {a b : List T} (h : Derives D a b) {x : T} (hx : x ∈ b) :
    x ∈ a ∨ ∃ A i b, IsProd D A i b ∧ x ∈ b := by
  induction h with
  | refl => exact Or.inl hx
  | head s _ ih =>
    rcases ih hx with this | h
    · cases s with
      | mk _ _ hp =>
        simp only [List.mem_append, List.mem_cons] at this ⊢
        rcases this with (h | h) | h
        · exact Or.inl (Or.inl h)
        · exact Or.inr ⟨_, _, _, hp, h⟩
        · exact Or.inl (Or.inr (Or.inr h))
    · exact Or.inr h

section
variable {D' D : Decls T} {f : T → Nat → Nat}
    (hp : ∀ A i b, IsProd D' A i b → IsProd D A (f A i) b)
    (hcl : ∀ A i b, IsProd D' A i b → ∀ x ∈ b, Nonterminal D x → Nonterminal D' x)
include hp

theorem fewer_derives {a b : List T} (h : Derives D' a b) : Derives D a b := by
  induction h with
  | refl => exact .refl _
  | head s _ ih =>
    cases s with
    | mk u v h => exact .head (.mk u v (hp _ _ _ h)) ih

include hcl

/-- The terminals of a text derived from terminals of both and the start symbol are terminals of both. -/
theorem fewer_terminal {a b : List T} (ha : ∀ x ∈ a, Terminal D' x → Terminal D x) (h : Derives D' a b) {x : T}
    (hx : x ∈ b) (ht : Terminal D' x) : Terminal D x := by
  rcases derives_from h hx with h | ⟨A, i, c, h1, h2⟩
  · exact ha x h ht
  · refine Classical.byContradiction (fun hn => ?_)
    exact not_terminal_iff.mpr (hcl A i c h1 x h2 (not_terminal_iff.mp hn)) ht

theorem fewer_rderives {a b : List T} (ha : ∀ x ∈ a, Terminal D' x → Terminal D x) (h : RDerives D' a b) :
    RDerives D a b := by
  induction h with
  | refl => exact .refl
  | tail h s ih =>
    have hd := h.derives
    cases s with
    | mk u v h1 h2 =>
      refine .tail ih (.mk u v (hp _ _ _ h1) (fun x hx => ?_))
      exact fewer_terminal hp hcl ha hd (by simp [hx]) (h2 x hx)

end

/-- A grammar with fewer productions than an LR(1) grammar is an LR(1) grammar. -/
theorem Spec.Fewer.lr1 {D' D : Decls T} {S eof : T} (h : Fewer D' D) (hS : Nonterminal D' S) (hlr : LR1 D S eof) :
    LR1 D' S eof := by
  obtain ⟨f, hp, hi, hcl⟩ := h
  have ha : ∀ x ∈ [S], Terminal D' x → Terminal D x := by
    intro x hx ht
    rw [List.mem_singleton.mp hx] at ht
    exact absurd ht (not_terminal_iff.mpr hS)
  have hT : ∀ {w v : List T} {u : List T}, RDerives D' [S] (u ++ w ++ v) → Terminals D' w → Terminals D w := by
    intro w v u hr hw x hx
    exact fewer_terminal hp hcl ha hr.derives (by simp [hx]) (hw x hx)
  intro α β w γ δ x y A B i j h1 h2 h3 h4 h5 h6 h7 h8 h9
  obtain ⟨e1, e2, e3, e4⟩ := hlr α β w γ δ x y A B (f A i) (f B j) (fewer_rderives hp hcl ha h1)
    (hT (u := α ++ [A]) (v := []) (by simpa using h1) h2) (hp _ _ _ h3) (fewer_rderives hp hcl ha h4)
    (hT (u := γ ++ [B]) (v := []) (by simpa using h4) h5) (hp _ _ _ h6) h7
    (hT (u := α ++ β) (v := []) (by
      rw [← h7, List.append_nil]
      exact .tail h4 (.mk γ x h6 h5)) h8) h9
  subst e2
  exact ⟨e1, rfl, hi _ _ _ _ _ h6 h3 e3, e4⟩

/-- The same for SLR(1). -/
theorem Spec.Fewer.slr1 {D' D : Decls T} {S eof : T} (h : Fewer D' D) (hS : Nonterminal D' S) (he : Terminal D eof)
    (hlr : SLR1 D S eof) : SLR1 D' S eof := by
  obtain ⟨f, hp, hi, hcl⟩ := h
  have ha : ∀ x ∈ [S], Terminal D' x → Terminal D x := by
    intro x hx ht
    rw [List.mem_singleton.mp hx] at ht
    exact absurd ht (not_terminal_iff.mpr hS)
  have ha2 : ∀ x ∈ [S, eof], Terminal D' x → Terminal D x := by
    intro x hx ht
    simp only [List.mem_cons, List.not_mem_nil, or_false] at hx
    rcases hx with rfl | rfl
    · exact absurd ht (not_terminal_iff.mpr hS)
    · exact he
  have hv : ∀ {γ A i β₁ β₂}, ValidItem D' S γ A i β₁ β₂ → ValidItem D S γ A (f A i) β₁ β₂ := by
    rintro γ A i β₁ β₂ ⟨h1, α, w, h2, h3, h4⟩
    refine ⟨hp _ _ _ h1, α, w, h2, fun x hx => ?_, fewer_rderives hp hcl ha h4⟩
    exact fewer_terminal hp hcl ha h4.derives (by simp [hx]) (h3 x hx)
  have hf : ∀ {A x}, InFollow D' S eof A x → InFollow D S eof A x := by
    rintro A x ⟨u, v, h⟩
    exact ⟨u, v, fewer_derives hp h⟩
  refine ⟨?_, ?_⟩
  · intro γ A i β B j δ x h1 h2 h3 h4 h5
    have hx : Terminal D x := by
      obtain ⟨u, v, h⟩ := h4
      exact fewer_terminal hp hcl ha2 h (by simp) h3
    obtain ⟨e1, e2⟩ := hlr.1 γ A (f A i) β B (f B j) δ x (hv h1) (hv h2) hx (hf h4) (hf h5)
    subst e1
    exact ⟨rfl, hi _ _ _ _ _ h1.1 h2.1 e2⟩
  · intro γ A i β B j δ₁ a δ₂ h1 h2 h3 h4
    have hx : Terminal D a := by
      refine Classical.byContradiction (fun hn => ?_)
      exact not_terminal_iff.mpr (hcl _ _ _ h2.1 a (by simp) (not_terminal_iff.mp hn)) h3
    exact hlr.2 γ A (f A i) β B (f B j) δ₁ a δ₂ (hv h1) (hv h2) hx (hf h4)

/-! ### Productions that cannot be used -/

section
variable {D' D : Decls T} {S : T} (h : SameReachable D' D S)
include h

theorem reachable_terminal {x : T} (hx : Reachable D S x) : Terminal D' x ↔ Terminal D x := by
  have := (h x hx).1
  constructor
  · intro h1
    exact Classical.byContradiction (fun hn => not_terminal_iff.mpr (this.mpr (not_terminal_iff.mp hn)) h1)
  · intro h1
    exact Classical.byContradiction (fun hn => not_terminal_iff.mpr (this.mp (not_terminal_iff.mp hn)) h1)

theorem reachable_rderives {b : List T} : RDerives D' [S] b ↔ RDerives D [S] b := by
  have hr : ∀ {b : List T}, RDerives D [S] b → ∀ x ∈ b, Reachable D S x := by
    intro b hb x hx
    obtain ⟨u, v, rfl⟩ := List.append_of_mem hx
    exact ⟨u, v, hb.derives⟩
  constructor
  · intro hd
    induction hd with
    | refl => exact .refl
    | tail _ s ih =>
      cases s with
      | @mk u v A i body h1 h2 =>
        have hA := hr ih A (by simp)
        exact .tail ih (.mk u v (((h A hA).2 i body).mp h1)
          (fun x hx => (reachable_terminal h (hr ih x (by simp [hx]))).mp (h2 x hx)))
  · intro hd
    induction hd with
    | refl => exact .refl
    | tail hd s ih =>
      cases s with
      | @mk u v A i body h1 h2 =>
        have hA := hr hd A (by simp)
        exact .tail ih (.mk u v (((h A hA).2 i body).mpr h1)
          (fun x hx => (reachable_terminal h (hr hd x (by simp [hx]))).mpr (h2 x hx)))

/-- Only what can be used matters for LR(1). -/
theorem Spec.SameReachable.lr1 {eof : T} : LR1 D' S eof ↔ LR1 D S eof := by
  have hr : ∀ {u v : List T}, RDerives D [S] (u ++ v) → ∀ x ∈ v, Reachable D S x := by
    intro u b hb x hx
    obtain ⟨p, q, rfl⟩ := List.append_of_mem hx
    exact ⟨u ++ p, q, by simpa using hb.derives⟩
  have hT : ∀ {u v : List T}, RDerives D [S] (u ++ v) → (Terminals D' v ↔ Terminals D v) := by
    intro u v hb
    exact ⟨fun hv x hx => (reachable_terminal h (hr hb x hx)).mp (hv x hx),
      fun hv x hx => (reachable_terminal h (hr hb x hx)).mpr (hv x hx)⟩
  have hT' : ∀ {u v : List T} {A : T}, RDerives D [S] (u ++ A :: v) → (Terminals D' v ↔ Terminals D v) := by
    intro u v A hb
    exact hT (u := u ++ [A]) (by simpa using hb)
  constructor
  · intro hlr α β w γ δ x y A B i j h1 h2 h3 h4 h5 h6 h7 h8 h9
    have hy : RDerives D [S] (α ++ β ++ y) := h7 ▸ .tail h4 (.mk γ x h6 h5)
    exact hlr α β w γ δ x y A B i j ((reachable_rderives h).mpr h1) ((hT' h1).mpr h2)
      (((h A (hr h1 A (by simp))).2 i β).mpr h3) ((reachable_rderives h).mpr h4) ((hT' h4).mpr h5)
      (((h B (hr h4 B (by simp))).2 j δ).mpr h6) h7 ((hT hy).mpr h8) h9
  · intro hlr α β w γ δ x y A B i j h1 h2 h3 h4 h5 h6 h7 h8 h9
    have h1' := (reachable_rderives h).mp h1
    have h4' := (reachable_rderives h).mp h4
    have h3' := ((h A (hr h1' A (by simp))).2 i β).mp h3
    have h6' := ((h B (hr h4' B (by simp))).2 j δ).mp h6
    have hy : RDerives D [S] (α ++ β ++ y) := h7 ▸ .tail h4' (.mk γ x h6' ((hT' h4').mp h5))
    exact hlr α β w γ δ x y A B i j h1' ((hT' h1').mp h2) h3' h4' ((hT' h4').mp h5) h6' h7 ((hT hy).mp h8) h9

end

end Lrp
