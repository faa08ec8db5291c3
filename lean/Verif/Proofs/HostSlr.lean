import Verif.Proofs.Host
import Verif.Proofs.BracketsSlr

/-! One grammar inside another, between brackets, for SLR(1). -/

set_option linter.unusedSectionVars false

namespace Lrp
open Spec

section
variable {T : Type} [LinOrd T] [DecidableEq T] {D E : Decls T} {Z S h R eof : T}

theorem derives_inside {G D : Decls T} {P : T → Prop}
    (hsub : ∀ A i b, P A → IsProd G A i b → IsProd D A i b ∧ ∀ x ∈ b, P x) {a b : List T} (h : Derives G a b)
    (ha : ∀ x ∈ a, P x) : Derives D a b ∧ ∀ x ∈ b, P x := by
  induction h with
  | refl => exact ⟨.refl _, ha⟩
  | head s _ ih =>
    obtain @⟨u, v, A, i, body, hp⟩ := s
    obtain ⟨h3, h4⟩ := hsub A i body (ha A (by simp)) hp
    obtain ⟨h5, h6⟩ := ih (by
      intro x hx
      simp only [List.mem_append] at hx
      rcases hx with (hx | hx) | hx
      · exact ha x (by simp [hx])
      · exact h4 x hx
      · exact ha x (by simp [hx]))
    exact ⟨.head (Step.mk u v h3) h5, h6⟩

theorem derives_terminal_cons {G : Decls T} {z : T} (hz : Terminal G z) {a b : List T} (hd : Derives G (z :: a) b) :
    ∃ ψ, b = z :: ψ ∧ Derives G a ψ := by
  generalize e : z :: a = c at hd
  induction hd generalizing a with
  | refl => exact ⟨a, e.symm, .refl _⟩
  | head s _ ih =>
    obtain @⟨u, v, A, i, body, hp⟩ := s
    cases u with
    | nil =>
      simp only [List.nil_append, List.cons.injEq] at e
      exact absurd hz (e.1 ▸ hp.not_terminal)
    | cons y u =>
      simp only [List.cons_append, List.cons.injEq] at e
      obtain ⟨rfl, rfl⟩ := e
      obtain ⟨ψ, rfl, hd⟩ := ih (a := u ++ body ++ v) (by simp)
      exact ⟨ψ, rfl, .head (Step.mk u v hp) hd⟩

/-- What follows in either grammar. -/
theorem EitherOk.follow (k : EitherOk D E Z S h R) (eD : Fresh D eof) (eE : Fresh E eof) (eZ : eof ≠ Z) (eh : eof ≠ h)
    {A x : T} (hf : InFollow (Either' D E Z S h R) Z eof A x) :
    (A = Z ∧ x = eof) ∨ (Terminal E A ∧ InFollow D S eof A x) ∨ (A = h) ∨ (Terminal D A ∧ InFollow E R eof A x) := by
  have hth : Terminal (Either' D E Z S h R) h := EitherOk.terminal.mpr ⟨k.ne.symm, k.hD.1, k.hE.1⟩
  have hte : Terminal (Either' D E Z S h R) eof := EitherOk.terminal.mpr ⟨eZ, eD.1, eE.1⟩
  have fD : EitherOk.first E Z h eof := ⟨eE.1, eZ, eh⟩
  have fE : EitherOk.first D Z h eof := ⟨eD.1, eZ, eh⟩
  obtain ⟨u, v, hd⟩ := hf
  generalize e : [Z, eof] = a at hd
  generalize e' : u ++ A :: x :: v = b at hd
  cases hd with
  | refl =>
    subst e
    cases u with
    | nil => simp at e'; exact .inl ⟨e'.1, e'.2.1⟩
    | cons y u => cases u <;> simp at e'
  | head s hd =>
    obtain @⟨p, q, X, i, body, hp⟩ := s
    have hl : p = [] ∧ X = Z ∧ q = [eof] := by
      cases p with
      | nil => simp at e; exact ⟨rfl, e.1.symm, e.2.symm⟩
      | cons y p =>
        cases p with
        | nil =>
          simp at e
          exact absurd hte (e.2.1 ▸ hp.not_terminal)
        | cons z p => simp at e
    obtain ⟨rfl, rfl, rfl⟩ := hl
    rcases k.isProd.mp hp with ⟨_, ⟨_, rfl⟩ | ⟨_, rfl⟩⟩ | hp | hp
    · obtain ⟨r1, r2⟩ := derives_inside (D := D) k.subD hd (by
        intro y hy
        simp at hy
        rcases hy with rfl | rfl
        · exact k.firstS
        · exact fD)
      subst e'
      exact .inr (.inl ⟨(r2 A (by simp)).1, u, v, r1⟩)
    · obtain ⟨ψ, rfl, hd'⟩ := derives_terminal_cons hth (a := [R, eof]) hd
      obtain ⟨r1, r2⟩ := derives_inside (D := E) k.subE hd' (by
        intro y hy
        simp at hy
        rcases hy with rfl | rfl
        · exact k.firstR
        · exact fE)
      cases u with
      | nil => simp at e'; exact .inr (.inr (.inl e'.1))
      | cons y u =>
        simp only [List.cons_append, List.cons.injEq] at e'
        obtain ⟨_, rfl⟩ := e'
        exact .inr (.inr (.inr ⟨(r2 A (by simp)).1, u, v, r1⟩))
    · exact absurd k.zD.1 hp.not_terminal
    · exact absurd k.zE.1 hp.not_terminal

/-- The items of either grammar. -/
theorem EitherOk.item (k : EitherOk D E Z S h R) {γ β₁ β₂ : List T} {A : T} {i : Nat}
    (hv : ValidItem (Either' D E Z S h R) Z γ A i β₁ β₂) :
    (A = Z ∧ γ = β₁ ∧ ((i = 0 ∧ β₁ ++ β₂ = [S]) ∨ (i = 1 ∧ β₁ ++ β₂ = [h, R]))) ∨
    (ValidItem D S γ A i β₁ β₂ ∧ Terminal E A ∧ h ∉ γ) ∨
    (∃ γ', γ = h :: γ' ∧ ValidItem E R γ' A i β₁ β₂ ∧ Terminal D A) := by
  obtain ⟨hp, α, w, rfl, hw, hd⟩ := hv
  cases k.form hp hd with
  | start =>
    rcases k.isProd.mp hp with ⟨_, h'⟩ | hp | hp
    · exact .inl ⟨rfl, rfl, h'⟩
    · exact absurd k.zD.1 hp.not_terminal
    · exact absurd k.zE.1 hp.not_terminal
  | first r1 r2 =>
    obtain ⟨hp', hb⟩ := k.subD _ _ _ (r2 A (by simp)) hp
    refine .inr (.inl ⟨⟨hp', α, w, rfl, fun x hx => (EitherOk.terminal.mp (hw x hx)).2.1, r1⟩, (r2 A (by simp)).1, ?_⟩)
    intro hm
    rcases List.mem_append.mp hm with hm | hm
    · exact (r2 h (by simp [hm])).2.2 rfl
    · exact (hb h (by simp [hm])).2.2 rfl
  | @second α _ _ r1 r2 =>
    obtain ⟨hp', _⟩ := k.subE _ _ _ (r2 A (by simp)) hp
    exact .inr (.inr ⟨α ++ β₁, rfl, ⟨hp', α, w, rfl, fun x hx => (EitherOk.terminal.mp (hw x hx)).2.2, r1⟩,
      (r2 A (by simp)).1⟩)

/-- No complete item is valid for the start symbol alone. -/
theorem no_item_start {D : Decls T} {S : T} (hb : InNoBody D S) (hn : NoEmpty D) {A : T} {i : Nat} {β : List T}
    (hv : ValidItem D S [S] A i β []) : False := by
  obtain ⟨hp, α, w, e, _, hd⟩ := hv
  rw [List.append_nil] at hp
  obtain ⟨z, r, e', hz⟩ := not_start_first hb hn hd hp
  rw [e'] at e
  exact hz (List.cons.inj e).1.symm

theorem item_ne_nil {D : Decls T} {S : T} (hn : NoEmpty D) {γ β : List T} {A : T} {i : Nat}
    (hv : ValidItem D S γ A i β []) : γ ≠ [] := by
  obtain ⟨hp, α, w, rfl, _, _⟩ := hv
  rw [List.append_nil] at hp
  intro e
  exact hn _ _ _ hp (List.append_eq_nil_iff.mp e).2

theorem EitherOk.slr1 (k : EitherOk D E Z S h R) (eD : Fresh D eof) (eE : Fresh E eof) (eZ : eof ≠ Z) (eh : eof ≠ h)
    (hbD : InNoBody D S) (hbE : InNoBody E R) (hnD : NoEmpty D) (hnE : NoEmpty E) (hD : SLR1 D S eof)
    (hE : SLR1 E R eof) : SLR1 (Either' D E Z S h R) Z eof := by
  have hSh : S ≠ h := k.firstS.2.2
  have pD : ∀ {γ β₁ β₂ : List T} {A : T} {i : Nat}, ValidItem D S γ A i β₁ β₂ → ¬ Terminal D A := fun hv => hv.1.not_terminal
  have pE : ∀ {γ β₁ β₂ : List T} {A : T} {i : Nat}, ValidItem E R γ A i β₁ β₂ → ¬ Terminal E A := fun hv => hv.1.not_terminal
  have folD : ∀ {A x : T}, ¬ Terminal D A → InFollow (Either' D E Z S h R) Z eof A x → InFollow D S eof A x := by
    intro A x hA hf
    rcases k.follow eD eE eZ eh hf with ⟨rfl, _⟩ | ⟨_, h'⟩ | rfl | ⟨h', _⟩
    · exact absurd k.zD.1 hA
    · exact h'
    · exact absurd k.hD.1 hA
    · exact absurd h' hA
  have folE : ∀ {A x : T}, ¬ Terminal E A → InFollow (Either' D E Z S h R) Z eof A x → InFollow E R eof A x := by
    intro A x hA hf
    rcases k.follow eD eE eZ eh hf with ⟨rfl, _⟩ | ⟨h', _⟩ | rfl | ⟨_, h'⟩
    · exact absurd k.zE.1 hA
    · exact absurd h' hA
    · exact absurd k.hE.1 hA
    · exact h'
  have folZ : ∀ {x : T}, InFollow (Either' D E Z S h R) Z eof Z x → x = eof := by
    intro x hf
    rcases k.follow eD eE eZ eh hf with ⟨_, h'⟩ | ⟨_, u, v, h'⟩ | e | ⟨_, u, v, h'⟩
    · exact h'
    · rcases derives_from h' (x := Z) (by simp) with h' | ⟨B, i, b, hp, hb⟩
      · simp at h'
        rcases h' with h' | h'
        · exact absurd h'.symm k.firstS.2.1
        · exact absurd h'.symm eZ
      · exact absurd hb (k.zD.2 B i b hp)
    · exact absurd e k.ne
    · rcases derives_from h' (x := Z) (by simp) with h' | ⟨B, i, b, hp, hb⟩
      · simp at h'
        rcases h' with h' | h'
        · exact absurd h'.symm k.firstR.2.1
        · exact absurd h'.symm eZ
      · exact absurd hb (k.zE.2 B i b hp)
  -- the start is complete where nothing else is
  have lone : ∀ {γ β δ : List T} {i j : Nat} {B : T}, γ = β → (i = 0 ∧ β ++ [] = [S]) ∨ (i = 1 ∧ β ++ [] = [h, R]) →
      ValidItem (Either' D E Z S h R) Z γ B j δ [] → B = Z ∧ i = j := by
    intro γ β δ i j B e1 hZ hv
    subst e1
    simp only [List.append_nil] at hZ
    rcases k.item hv with ⟨rfl, e2, h2⟩ | ⟨h2, _, h3⟩ | ⟨γ', e2, h2, _⟩
    · simp only [List.append_nil] at h2
      subst e2
      refine ⟨rfl, ?_⟩
      rcases hZ with ⟨rfl, e⟩ | ⟨rfl, e⟩ <;> rcases h2 with ⟨rfl, e'⟩ | ⟨rfl, e'⟩
      · rfl
      · rw [e] at e'; simp at e'
      · rw [e] at e'; simp at e'
      · rfl
    · rcases hZ with ⟨_, rfl⟩ | ⟨_, rfl⟩
      · exact (no_item_start hbD hnD h2).elim
      · simp at h3
    · rcases hZ with ⟨_, rfl⟩ | ⟨_, rfl⟩
      · simp at e2; exact absurd e2.1 hSh
      · simp at e2
        subst e2
        exact (no_item_start hbE hnE h2).elim
  constructor
  · intro γ A i β B j δ x hA hB hx fA fB
    rcases k.item hA with ⟨rfl, e1, h1⟩ | ⟨h1, hA1, hA2⟩ | ⟨γ', rfl, h1, hA1⟩
    · obtain ⟨rfl, rfl⟩ := lone e1 h1 hB
      exact ⟨rfl, rfl⟩
    · rcases k.item hB with ⟨rfl, e2, h2⟩ | ⟨h2, hB1, _⟩ | ⟨γ', rfl, h2, hB1⟩
      · obtain ⟨rfl, rfl⟩ := lone e2 h2 hA
        exact ⟨rfl, rfl⟩
      · exact hD.1 γ A i β B j δ x h1 h2 (EitherOk.terminal.mp hx).2.1 (folD (pD h1) fA) (folD (pD h2) fB)
      · exact absurd (by simp) hA2
    · rcases k.item hB with ⟨rfl, e2, h2⟩ | ⟨h2, hB1, hB2⟩ | ⟨γ'', e2, h2, hB1⟩
      · obtain ⟨rfl, rfl⟩ := lone e2 h2 hA
        exact ⟨rfl, rfl⟩
      · exact absurd (by simp) hB2
      · obtain ⟨_, rfl⟩ := List.cons.inj e2
        exact hE.1 γ' A i β B j δ x h1 h2 (EitherOk.terminal.mp hx).2.2 (folE (pE h1) fA) (folE (pE h2) fB)
  · intro γ A i β B j δ₁ a δ₂ hA hB ha fA
    have haR : a ≠ R := by rintro rfl; exact not_terminal_iff.mpr k.R (EitherOk.terminal.mp ha).2.2
    have haS : a ≠ S := by rintro rfl; exact not_terminal_iff.mpr k.S (EitherOk.terminal.mp ha).2.1
    -- the start goes on with a terminal only at the beginning
    have startB : ∀ {γ : List T}, γ = δ₁ → (j = 0 ∧ δ₁ ++ a :: δ₂ = [S]) ∨ (j = 1 ∧ δ₁ ++ a :: δ₂ = [h, R]) → γ = [] := by
      intro γ e0 hj
      rw [e0]
      cases hδ : δ₁ with
      | nil => rfl
      | cons y δ' =>
        rw [hδ] at hj
        rcases hj with ⟨_, e⟩ | ⟨_, e⟩
        · simp at e
        · cases δ' with
          | nil => simp at e; exact absurd e.2.1 haR
          | cons z δ' => simp at e
    rcases k.item hA with ⟨rfl, e1, h1⟩ | ⟨h1, hA1, hA2⟩ | ⟨γ', rfl, h1, hA1⟩
    · have hae := folZ fA
      subst hae
      rcases k.isProd.mp hB.1 with ⟨_, ⟨_, e⟩ | ⟨_, e⟩⟩ | hp | hp
      · have : a ∈ [S] := e ▸ by simp
        exact haS (List.mem_singleton.mp this)
      · have : a ∈ [h, R] := e ▸ by simp
        simp at this
        exact this.elim eh haR
      · exact eD.2 _ _ _ hp (by simp)
      · exact eE.2 _ _ _ hp (by simp)
    · rcases k.item hB with ⟨rfl, e2, h2⟩ | ⟨h2, hB1, _⟩ | ⟨γ', rfl, h2, hB1⟩
      · exact item_ne_nil hnD h1 (startB e2 h2)
      · exact hD.2 γ A i β B j δ₁ a δ₂ h1 h2 (EitherOk.terminal.mp ha).2.1 (folD (pD h1) fA)
      · exact absurd (by simp) hA2
    · rcases k.item hB with ⟨rfl, e2, h2⟩ | ⟨h2, hB1, hB2⟩ | ⟨γ'', e2, h2, hB1⟩
      · have := startB e2 h2
        simp at this
      · exact absurd (by simp) hB2
      · obtain ⟨_, rfl⟩ := List.cons.inj e2
        exact hE.2 γ' A i β B j δ₁ a δ₂ h1 h2 (EitherOk.terminal.mp ha).2.2 (folE (pE h1) fA)

/-! ### Between brackets -/

variable {A o c : T}

theorem slr1_hosting_aux (q : HostOk D E S A o R c eof) (k : EitherOk D E Z S h R) (hZ : Z ≠ o ∧ Z ≠ c ∧ Z ≠ eof)
    (hh : h ≠ o ∧ h ≠ c ∧ h ≠ eof) (hD : LR1 D S eof) (hE : LR1 E R eof) (sD : SLR1 D S eof) (sE : SLR1 E R eof) :
    SLR1 (Hosting D E A o R c) S eof := by
  have hn : NoEmpty (Either' D E Z S h R) := by
    intro X i b hp
    rcases k.isProd.mp hp with ⟨_, ⟨_, rfl⟩ | ⟨_, rfl⟩⟩ | hp | hp
    · simp
    · simp
    · exact q.nD X i b hp
    · exact q.nE X i b hp
  have hA : Nonterminal (Either' D E Z S h R) A := EitherOk.nonterminal.mpr (.inr (.inl q.A))
  have hR : Nonterminal (Either' D E Z S h R) R := EitherOk.nonterminal.mpr (.inr (.inr q.R))
  have hZS : Z ≠ S := k.firstS.2.1.symm
  have hZR : Z ≠ R := k.firstR.2.1.symm
  have hbZ : InNoBody (Either' D E Z S h R) Z := by
    intro X i b hp
    rcases k.isProd.mp hp with ⟨_, ⟨_, rfl⟩ | ⟨_, rfl⟩⟩ | hp | hp
    · simpa using hZS
    · simp [k.ne, hZR]
    · exact k.zD.2 X i b hp
    · exact k.zE.2 X i b hp
  have hre : Reachable (Either' D E Z S h R) Z R :=
    ⟨[h], [], .head (Step.mk [] [] (k.isProd.mpr (.inl ⟨rfl, .inr ⟨rfl, rfl⟩⟩))) (.refl _)⟩
  have hfo := fresh_either k q.oD q.oE hZ.1.symm hh.1.symm
  have hfc := fresh_either k q.cD q.cE hZ.2.1.symm hh.2.1.symm
  have hfe := fresh_either k q.eD q.eE hZ.2.2.symm hh.2.2.symm
  have h1 : SLR1 (WithAlt (Either' D E Z S h R) A [o, R, c]) Z eof :=
    slr1_brackets ⟨hfo, hfc, q.ne, hA, hR, hn⟩ (EitherOk.nonterminal.mpr (.inl rfl)) hbZ
      (allProductive_either k q.prD q.prE) hre hfe.1 q.eo q.ec (k.lr1 q.bD q.bE q.nD q.nE hD hE)
      (k.slr1 q.eD q.eE hZ.2.2.symm hh.2.2.symm q.bD q.bE q.nD q.nE sD sE)
  have hZS0 : IsProd (WithAlt (Either' D E Z S h R) A [o, R, c]) Z 0 [S] :=
    isProd_withAlt.mpr (.inl (k.isProd.mpr (.inl ⟨rfl, .inl ⟨rfl, rfl⟩⟩)))
  have up : ∀ {γ β₁ β₂ : List T} {X : T} {i : Nat}, ValidItem (WithAlt (Either' D E Z S h R) A [o, R, c]) S γ X i β₁ β₂ →
      ValidItem (WithAlt (Either' D E Z S h R) A [o, R, c]) Z γ X i β₁ β₂ := by
    rintro γ β₁ β₂ X i ⟨hp, α, w, e, hw, hd⟩
    exact ⟨hp, α, w, e, hw, RDerives.trans (.tail .refl (RStep.mk [] [] hZS0 (by intro x hx; cases hx))) hd⟩
  have upF : ∀ {X x : T}, InFollow (WithAlt (Either' D E Z S h R) A [o, R, c]) S eof X x →
      InFollow (WithAlt (Either' D E Z S h R) A [o, R, c]) Z eof X x := by
    rintro X x ⟨u, v, hd⟩
    exact ⟨u, v, .head (Step.mk [] [eof] hZS0) hd⟩
  have h2 : SLR1 (WithAlt (Either' D E Z S h R) A [o, R, c]) S eof :=
    ⟨fun γ A' i β B j δ x a b t f1 f2 => h1.1 γ A' i β B j δ x (up a) (up b) t (upF f1) (upF f2),
      fun γ A' i β B j δ₁ a δ₂ a' b t f => h1.2 γ A' i β B j δ₁ a δ₂ (up a') (up b) t (upF f)⟩
  exact Fewer.slr1 (fewer_hosting q k hZ) (nonterminal_withAlt.mpr (nonterminal_both.mpr (.inl q.S)))
    (terminal_withAlt.mpr hfe.1) h2

end

section
variable {T : Type} [LinOrd T] [DecidableEq T] {D E : Decls T} {S A o R c eof : T}

/-- The two grammars together, the inner one between fresh brackets, are SLR(1) if both are. -/
theorem slr1_hosting (q : HostOk D E S A o R c eof) (hD : LR1 D S eof) (hE : LR1 E R eof) (sD : SLR1 D S eof)
    (sE : SLR1 E R eof) : SLR1 (Hosting D E A o R c) S eof := by
  let f : T → T × Nat := fun t => (t, 0)
  have hf : Injective f := fun a b e => (Prod.mk.inj e).1
  rw [← slr1_rename hf, hosting_rename hf]
  obtain ⟨q', k', n1, n2⟩ := hosting_free q
  exact slr1_hosting_aux q' k' n1 n2 ((lr1_rename hf).mpr hD) ((lr1_rename hf).mpr hE) ((slr1_rename hf).mpr sD)
    ((slr1_rename hf).mpr sE)

end
end Lrp
