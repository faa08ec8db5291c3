import Verif.Proofs.HostSlr
import Verif.Proofs.Choice

/-! One LALR(1) grammar inside another, between brackets. -/

set_option linter.unusedSectionVars false

namespace Lrp
open Spec
variable {T : Type} [LinOrd T] [DecidableEq T]

section
variable {D E : Decls T} {S A o R c eof : T}

/-- The second text is the first with `z` for each text between the brackets. -/
inductive Thin (z : List T) (o c : T) : List T → List T → Prop
  | nil : Thin z o c [] []
  | keep {x : T} {w u : List T} : x ≠ o → Thin z o c w u → Thin z o c (x :: w) (x :: u)
  | hole {v w u : List T} : Thin z o c w u → Thin z o c (o :: (v ++ c :: w)) (z ++ u)

theorem Thin.append {z p w u : List T} (hp : o ∉ p) (h : Thin z o c w u) : Thin z o c (p ++ w) (p ++ u) := by
  induction p with
  | nil => exact h
  | cons x p ih =>
    exact .keep (fun e => hp (by simp [e])) (ih fun h => hp (by simp [h]))

theorem Thin.terminals {D : Decls T} {z w u : List T} (hz : Terminals D z) (h : Thin z o c w u) (hw : Terminals D w) :
    Terminals D u := by
  induction h with
  | nil => exact hw
  | keep _ _ ih =>
    intro y hy
    rcases List.mem_cons.mp hy with rfl | hy
    · exact hw _ (by simp)
    · exact ih (fun x hx => hw x (by simp [hx])) y hy
  | hole _ ih =>
    intro y hy
    rcases List.mem_append.mp hy with hy | hy
    · exact hz y hy
    · exact ih (fun x hx => hw x (by simp [hx])) y hy

/-- The next symbol. -/
theorem Thin.head {z' w u : List T} {y x : T} (h : Thin (y :: z') o c w u) (hx : (w ++ [eof]).head? = some x)
    (he : eof ≠ o) : (x ≠ o ∧ (u ++ [eof]).head? = some x) ∨ (x = o ∧ (u ++ [eof]).head? = some y) := by
  cases h with
  | nil => simp at hx; exact .inl ⟨hx ▸ he, by simpa using hx⟩
  | keep h1 _ => simp at hx; exact .inl ⟨hx ▸ h1, by simpa using hx⟩
  | hole _ => simp at hx; exact .inr ⟨hx.symm, by simp⟩

theorem HostOk.isProd (q : HostOk D E S A o R c eof) {X : T} {i : Nat} {b : List T} :
    IsProd (Hosting D E A o R c) X i b ↔ IsProd D X i b ∨ IsProd E X i b ∨
      (X = A ∧ b = [o, R, c] ∧ ∃ bs, Declared (D ++ E) A bs ∧ i = bs.length) := by
  unfold Hosting
  rw [isProd_withAlt, isProd_both q.apart, or_assoc]

theorem HostOk.terminal {x : T} : Terminal (Hosting D E A o R c) x ↔ Terminal D x ∧ Terminal E x := by
  unfold Hosting
  rw [terminal_withAlt, terminal_both]

/-- A form of the outer grammar has no rule names of the inner one and no brackets. -/
theorem HostOk.fromD (q : HostOk D E S A o R c eof) {w : List T} (h : Derives D [S] w) :
    ∀ x ∈ w, Terminal E x ∧ x ≠ o ∧ x ≠ c := by
  intro x hx
  rcases derives_from h hx with h | ⟨B, i, b, hp, hb⟩
  · rw [List.mem_singleton.mp h]
    refine ⟨(q.apart.2 S q.S).1, ?_, ?_⟩
    · intro e; exact not_terminal_iff.mpr q.S (e ▸ q.oD.1)
    · intro e; exact not_terminal_iff.mpr q.S (e ▸ q.cD.1)
  · refine ⟨Classical.byContradiction fun hn => (q.apart.1 x (not_terminal_iff.mp hn)).2 _ _ _ hp hb, ?_, ?_⟩
    · rintro rfl; exact q.oD.2 _ _ _ hp hb
    · rintro rfl; exact q.cD.2 _ _ _ hp hb

theorem HostOk.fromE (q : HostOk D E S A o R c eof) {w : List T} (h : Derives E [R] w) :
    ∀ x ∈ w, Terminal D x ∧ x ≠ o ∧ x ≠ c := by
  intro x hx
  rcases derives_from h hx with h | ⟨B, i, b, hp, hb⟩
  · rw [List.mem_singleton.mp h]
    refine ⟨(q.apart.1 R q.R).1, ?_, ?_⟩
    · intro e; exact not_terminal_iff.mpr q.R (e ▸ q.oE.1)
    · intro e; exact not_terminal_iff.mpr q.R (e ▸ q.cE.1)
  · refine ⟨Classical.byContradiction fun hn => (q.apart.2 x (not_terminal_iff.mp hn)).2 _ _ _ hp hb, ?_, ?_⟩
    · rintro rfl; exact q.oE.2 _ _ _ hp hb
    · rintro rfl; exact q.cE.2 _ _ _ hp hb

/-- The rightmost forms with the place of a nonterminal. -/
inductive HostForm (D E : Decls T) (S A o R c : T) (z : List T) : List T → T → List T → Prop
  | outer {α w u : List T} {X : T} : Thin z o c w u → RDerives D [S] (α ++ X :: u) → HostForm D E S A o R c z α X w
  | inner {α β v w u : List T} {X : T} : Thin z o c w u → RDerives D [S] (α ++ A :: u) → Terminals D u →
      RDerives E [R] (β ++ X :: v) → HostForm D E S A o R c z (α ++ o :: β) X (v ++ c :: w)

/-- The rightmost forms. -/
def HostForms (D E : Decls T) (S A o R c : T) (z : List T) (φ : List T) : Prop :=
  (∃ p w u, φ = p ++ w ∧ Terminals (Hosting D E A o R c) w ∧ Thin z o c w u ∧ RDerives D [S] (p ++ u)) ∨
  ∃ p ψ w u, φ = p ++ o :: (ψ ++ c :: w) ∧ Terminals (Hosting D E A o R c) w ∧ Thin z o c w u ∧
    RDerives D [S] (p ++ A :: u) ∧ RDerives E [R] ψ

theorem HostOk.place (q : HostOk D E S A o R c eof) {z : List T} (hz : RDerives D [A] z) (tz : Terminals D z)
    {α w : List T} {X : T} (hX : Nonterminal (Hosting D E A o R c) X) (hw : Terminals (Hosting D E A o R c) w)
    (h : HostForms D E S A o R c z (α ++ X :: w)) : HostForm D E S A o R c z α X w := by
  have tH : ∀ {w : List T}, Terminals (Hosting D E A o R c) w → Terminals D w :=
    fun h x hx => (HostOk.terminal.mp (h x hx)).1
  have hoX : X ≠ o := by
    rintro rfl
    exact not_terminal_iff.mpr hX (HostOk.terminal.mpr ⟨q.oD.1, q.oE.1⟩)
  have first : ∀ {p w' u : List T}, p ++ w' = α ++ X :: w → Terminals (Hosting D E A o R c) w' → Thin z o c w' u →
      RDerives D [S] (p ++ u) → HostForm D E S A o R c z α X w := by
    intro p w' u e h1 h2 h3
    obtain ⟨v₁, rfl, rfl⟩ := split_at_terminals hX h1 e
    refine .outer (u := v₁ ++ u) (h2.append fun h => ?_) (by simpa using h3)
    exact (q.fromD h3.derives o (by simp [h])).2.1 rfl
  rcases h with ⟨p, w', u, e, h1, h2, h3⟩ | ⟨p, ψ, w', u, e, h1, h2, h3, h4⟩
  · exact first e.symm h1 h2 h3
  · have e' : (p ++ o :: ψ) ++ c :: w' = α ++ X :: w := by simpa using e.symm
    have hcw : Terminals (Hosting D E A o R c) (c :: w') := by
      intro x hx
      rcases List.mem_cons.mp hx with rfl | hx
      · exact HostOk.terminal.mpr ⟨q.cD.1, q.cE.1⟩
      · exact h1 x hx
    have tu := h2.terminals tz (tH h1)
    obtain ⟨v₁, e1, rfl⟩ := split_at_terminals hX hcw e'
    rcases List.append_eq_append_iff.mp e1 with ⟨d, k1, k2⟩ | ⟨d, k1, k2⟩
    · cases d with
      | nil => simp at k2; exact absurd k2.1.symm hoX
      | cons y d =>
        simp only [List.cons_append, List.cons.injEq] at k2
        obtain ⟨rfl, rfl⟩ := k2
        subst k1
        exact .inner h2 h3 tu h4
    · cases d with
      | nil => simp at k2; exact absurd k2.1 hoX
      | cons y d =>
        simp only [List.cons_append, List.cons.injEq] at k2
        obtain ⟨rfl, rfl⟩ := k2
        subst k1
        refine first (p := α ++ X :: d) (w' := o :: (ψ ++ c :: w')) (u := z ++ u) (by simp) (fun x hx => ?_) (.hole h2) ?_
        · rcases List.mem_cons.mp hx with rfl | hx
          · exact HostOk.terminal.mpr ⟨q.oD.1, q.oE.1⟩
          · exact hw x (by simp at hx ⊢; rcases hx with hx | hx | hx <;> simp [hx])
        · refine h3.trans ?_
          simpa using hz.ctx (α ++ X :: d) tu

theorem HostOk.forms (q : HostOk D E S A o R c eof) {z : List T} (hz : RDerives D [A] z) (tz : Terminals D z)
    {φ : List T} (h : RDerives (Hosting D E A o R c) [S] φ) : HostForms D E S A o R c z φ := by
  have tH : ∀ {w : List T}, Terminals (Hosting D E A o R c) w → Terminals D w :=
    fun h x hx => (HostOk.terminal.mp (h x hx)).1
  induction h with
  | refl => exact .inl ⟨[S], [], [], rfl, by simp [Terminals], .nil, .refl⟩
  | tail _ s ih =>
    obtain @⟨α, w, X, i, b, hp, hw⟩ := s
    cases q.place hz tz hp.nonterminal hw ih with
    | @outer _ _ u _ h1 h2 =>
      have tu := h1.terminals tz (tH hw)
      rcases q.isProd.mp hp with hp | hp | ⟨rfl, rfl, _⟩
      · exact .inl ⟨α ++ b, w, u, by simp, hw, h1, .tail h2 (RStep.mk α u hp tu)⟩
      · exact absurd (q.fromD h2.derives X (by simp)).1 hp.not_terminal
      · exact .inr ⟨α, [R], w, u, by simp, hw, h1, h2, .refl⟩
    | @inner α β v w u _ h1 h2 h3 h4 =>
      have hX := q.fromE h4.derives X (by simp)
      rcases q.isProd.mp hp with hp | hp | ⟨rfl, _⟩
      · exact absurd hX.1 hp.not_terminal
      · refine .inr ⟨α, β ++ b ++ v, w, u, by simp, fun x hx => hw x (by simp [hx]), h1, h2,
          .tail h4 (RStep.mk β v hp fun x hx => (HostOk.terminal.mp (hw x (by simp [hx]))).2)⟩
      · exact absurd hX.1 (not_terminal_iff.mpr q.A)

/-- The items valid for a prefix. -/
inductive HostItem (D E : Decls T) (S A o R c eof y : T) (γ : List T) (X : T) (i : Nat) (β₁ β₂ : List T) (x : T) : Prop
  | outer : o ∉ γ → ((x ≠ o ∧ ValidItem1 D S eof γ X i β₁ β₂ x) ∨ (x = o ∧ ValidItem1 D S eof γ X i β₁ β₂ y)) →
      HostItem D E S A o R c eof y γ X i β₁ β₂ x
  | new {α u : List T} : γ = α ++ β₁ → X = A → β₁ ++ β₂ = [o, R, c] → o ∉ α → RDerives D [S] (α ++ A :: u) →
      Terminals D u → (∃ bs, Declared (D ++ E) A bs ∧ i = bs.length) → HostItem D E S A o R c eof y γ X i β₁ β₂ x
  | inner {α u β : List T} : γ = α ++ o :: β → o ∉ α → o ∉ β → c ∉ β → RDerives D [S] (α ++ A :: u) → Terminals D u →
      ((x ≠ c ∧ ValidItem1 E R eof β X i β₁ β₂ x) ∨ (x = c ∧ ValidItem1 E R eof β X i β₁ β₂ eof)) →
      HostItem D E S A o R c eof y γ X i β₁ β₂ x

theorem HostOk.item1 (q : HostOk D E S A o R c eof) {y : T} {z : List T} (hz : RDerives D [A] (y :: z))
    (tz : Terminals D (y :: z)) {γ β₁ β₂ : List T} {X x : T} {i : Nat}
    (hv : ValidItem1 (Hosting D E A o R c) S eof γ X i β₁ β₂ x) : HostItem D E S A o R c eof y γ X i β₁ β₂ x := by
  have tH : ∀ {w : List T}, Terminals (Hosting D E A o R c) w → Terminals D w :=
    fun h x hx => (HostOk.terminal.mp (h x hx)).1
  obtain ⟨hp, α, w, rfl, hw, hh, hd⟩ := hv
  cases q.place hz tz hp.nonterminal hw (q.forms hz tz hd) with
  | @outer _ _ u _ h1 h2 =>
    have tu := h1.terminals tz (tH hw)
    have hoα : o ∉ α := fun h => (q.fromD h2.derives o (by simp [h])).2.1 rfl
    rcases q.isProd.mp hp with hp | hp | ⟨rfl, e, hi⟩
    · refine .outer ?_ ?_
      · intro h
        rcases List.mem_append.mp h with h | h
        · exact hoα h
        · exact q.oD.2 _ _ _ hp (by simp [h])
      · rcases h1.head hh q.eo with ⟨n, k⟩ | ⟨n, k⟩
        · exact .inl ⟨n, hp, α, u, rfl, tu, k, h2⟩
        · exact .inr ⟨n, hp, α, u, rfl, tu, k, h2⟩
    · exact absurd (q.fromD h2.derives X (by simp)).1 hp.not_terminal
    · exact .new rfl rfl e hoα h2 tu hi
  | @inner α β v w u _ h1 h2 h3 h4 =>
    have hX := q.fromE h4.derives X (by simp)
    rcases q.isProd.mp hp with hp | hp | ⟨rfl, _⟩
    · exact absurd hX.1 hp.not_terminal
    · have hb : ∀ x ∈ β ++ β₁, x ≠ o ∧ x ≠ c := by
        intro x hx
        rcases List.mem_append.mp hx with hx | hx
        · exact (q.fromE h4.derives x (by simp [hx])).2
        · exact ⟨fun e => q.oE.2 _ _ _ hp (by simp [← e, hx]), fun e => q.cE.2 _ _ _ hp (by simp [← e, hx])⟩
      have tv : Terminals E v := fun x hx => (HostOk.terminal.mp (hw x (by simp [hx]))).2
      refine .inner (α := α) (u := u) (β := β ++ β₁) (by simp) (fun h => (q.fromD h2.derives o (by simp [h])).2.1 rfl)
        (fun h => (hb o h).1 rfl) (fun h => (hb c h).2 rfl) h2 h3 ?_
      cases v with
      | nil =>
        simp at hh
        exact .inr ⟨hh.symm, hp, β, [], rfl, tv, rfl, h4⟩
      | cons d v =>
        simp at hh
        subst hh
        exact .inl ⟨(q.fromE h4.derives d (by simp)).2.2, hp, β, d :: v, rfl, tv, rfl, h4⟩
    · exact absurd hX.1 (not_terminal_iff.mpr q.A)

/-- An item of the outer grammar is valid in the whole. -/
theorem HostOk.upD (q : HostOk D E S A o R c eof) {w : List T} (h : RDerives D [S] w) :
    RDerives (Hosting D E A o R c) [S] w := by
  induction h with
  | refl => exact .refl
  | tail h s ih =>
    obtain @⟨p, r, X, k, b, hp, hr⟩ := s
    exact .tail ih (RStep.mk p r (q.isProd.mpr (.inl hp)) fun x hx =>
      HostOk.terminal.mpr ⟨hr x hx, (q.fromD h.derives x (by simp [hx])).1⟩)

theorem HostOk.itemD (q : HostOk D E S A o R c eof) {γ β₁ β₂ : List T} {X : T} {i : Nat}
    (h : ValidItem D S γ X i β₁ β₂) : ValidItem (Hosting D E A o R c) S γ X i β₁ β₂ := by
  obtain ⟨hp, α, w, rfl, hw, hd⟩ := h
  exact ⟨q.isProd.mpr (.inl hp), α, w, rfl, fun x hx =>
    HostOk.terminal.mpr ⟨hw x hx, (q.fromD hd.derives x (by simp [hx])).1⟩, q.upD hd⟩

/-- An item of the inner grammar is valid after an opening bracket. -/
theorem HostOk.itemE (q : HostOk D E S A o R c eof) {α u γ β₁ β₂ : List T} {X : T} {i : Nat}
    (hd : RDerives D [S] (α ++ A :: u)) (hu : Terminals D u) (h : ValidItem E R γ X i β₁ β₂) :
    ValidItem (Hosting D E A o R c) S (α ++ o :: γ) X i β₁ β₂ := by
  have tu : Terminals (Hosting D E A o R c) u := fun x hx =>
    HostOk.terminal.mpr ⟨hu x hx, (q.fromD hd.derives x (by simp [hx])).1⟩
  have tv : ∀ {p v : List T} {X : T}, RDerives E [R] (p ++ X :: v) → Terminals E v →
      Terminals (Hosting D E A o R c) (v ++ c :: u) := by
    intro p v X h hv x hx
    rcases List.mem_append.mp hx with hx | hx
    · exact HostOk.terminal.mpr ⟨(q.fromE h.derives x (by simp [hx])).1, hv x hx⟩
    · rcases List.mem_cons.mp hx with rfl | hx
      · exact HostOk.terminal.mpr ⟨q.cD.1, q.cE.1⟩
      · exact tu x hx
  obtain ⟨bs, hbs⟩ := declared_of_nonterminal (D := D ++ E) (A := A) (by
    obtain ⟨d, h1, h2⟩ := q.A
    exact ⟨d, by simp [h1], h2⟩)
  have up : ∀ {w : List T}, RDerives E [R] w → RDerives (Hosting D E A o R c) [S] (α ++ o :: (w ++ c :: u)) := by
    intro w h
    induction h with
    | refl =>
      have := RDerives.tail (q.upD hd) (RStep.mk α u (q.isProd.mpr (.inr (.inr ⟨rfl, rfl, bs, hbs, rfl⟩))) tu)
      simpa using this
    | tail h s ih =>
      obtain @⟨p, r, X, k, b, hp, hr⟩ := s
      have := RDerives.tail (b := (α ++ o :: p) ++ X :: (r ++ c :: u)) (by simpa using ih)
        (RStep.mk (α ++ o :: p) (r ++ c :: u) (q.isProd.mpr (.inr (.inl hp))) (tv h hr))
      simpa using this
  obtain ⟨hp, p, w, rfl, hw, hd'⟩ := h
  exact ⟨q.isProd.mpr (.inr (.inl hp)), α ++ o :: p, w ++ c :: u, by simp, tv hd' hw, by simpa using up hd'⟩

theorem split_at_first {o : T} {α β α' β' : List T} (h : o ∉ α) (h' : o ∉ α') (e : α ++ o :: β = α' ++ o :: β') :
    α = α' ∧ β = β' := by
  induction α generalizing α' with
  | nil =>
    cases α' with
    | nil => simp at e; exact ⟨rfl, e⟩
    | cons x α' => simp at e; simp [e.1] at h'
  | cons x α ih =>
    cases α' with
    | nil => simp at e; simp [e.1] at h
    | cons x' α' =>
      simp only [List.cons_append, List.cons.injEq] at e
      obtain ⟨rfl, e⟩ := e
      obtain ⟨rfl, rfl⟩ := ih (fun h1 => h (by simp [h1])) (fun h1 => h' (by simp [h1])) e
      exact ⟨rfl, rfl⟩

/-- The whole grammar is LALR(1) if both parts are. -/
theorem lalr1_hosting (q : HostOk D E S A o R c eof) (hD : LALR1 D S eof) (hE : LALR1 E R eof) :
    LALR1 (Hosting D E A o R c) S eof := by
  obtain ⟨zz, dz, tz⟩ := q.prD A q.A
  obtain ⟨y, z, rfl⟩ : ∃ y z, zz = y :: z := by
    cases zz with
    | nil => exact absurd rfl (derives_ne_nil q.nD dz (by simp))
    | cons y z => exact ⟨y, z, rfl⟩
  have hz := RDerives.of_derives dz tz
  have cls := fun {γ β₁ β₂ : List T} {X x : T} {i : Nat}
    (h : ValidItem1 (Hosting D E A o R c) S eof γ X i β₁ β₂ x) => q.item1 hz tz h
  have cls0 : ∀ {γ β₁ β₂ : List T} {X : T} {i : Nat}, ValidItem (Hosting D E A o R c) S γ X i β₁ β₂ →
      ∃ x, HostItem D E S A o R c eof y γ X i β₁ β₂ x := by
    rintro γ β₁ β₂ X i ⟨hp, α, w, e, hw, hd⟩
    cases w with
    | nil => exact ⟨eof, cls ⟨hp, α, [], e, hw, rfl, hd⟩⟩
    | cons x w => exact ⟨x, cls ⟨hp, α, x :: w, e, hw, rfl, hd⟩⟩
  have notDE : ∀ {X i j : _} {b b' : List T}, IsProd D X i b → IsProd E X j b' → False := fun h h' =>
    h'.not_terminal (q.apart.2 _ h.nonterminal).1
  have notDN : ∀ {X : T} {i : Nat} {b : List T}, IsProd D X i b → b ≠ [o, R, c] := fun h e =>
    q.oD.2 _ _ _ h (by simp [e])
  have kindD : ∀ {γ β₁ β₂ : List T} {X : T} {i : Nat}, ValidItem (Hosting D E A o R c) S γ X i β₁ β₂ →
      IsProd D X i (β₁ ++ β₂) → o ∉ γ ∧ ValidItem D S γ X i β₁ β₂ := by
    intro γ β₁ β₂ X i h hp
    obtain ⟨x, h⟩ := cls0 h
    cases h with
    | outer h1 h2 => exact ⟨h1, h2.elim (fun h => h.2.item) (fun h => h.2.item)⟩
    | new _ _ e => exact absurd e (notDN hp)
    | inner _ _ _ _ _ _ h => exact (notDE hp (h.elim (fun h => h.2.1) (fun h => h.2.1))).elim
  have kindE : ∀ {γ β₁ β₂ : List T} {X : T} {i : Nat}, ValidItem (Hosting D E A o R c) S γ X i β₁ β₂ →
      IsProd E X i (β₁ ++ β₂) → ∃ α β, γ = α ++ o :: β ∧ o ∉ α ∧ c ∉ β ∧ ValidItem E R β X i β₁ β₂ := by
    intro γ β₁ β₂ X i h hp
    obtain ⟨x, h⟩ := cls0 h
    cases h with
    | outer h1 h2 => exact (notDE (h2.elim (fun h => h.2.1) (fun h => h.2.1)) hp).elim
    | new _ e => subst e; exact absurd (q.apart.2 _ q.A).1 hp.not_terminal
    | @inner α u β h1 h2 h3 h4 _ _ h => exact ⟨α, β, h1, h2, h4, h.elim (fun h => h.2.item) (fun h => h.2.item)⟩
  have kindN : ∀ {γ β₁ β₂ : List T} {i : Nat}, ValidItem (Hosting D E A o R c) S γ A i β₁ β₂ →
      β₁ ++ β₂ = [o, R, c] → ∃ α, γ = α ++ β₁ ∧ o ∉ α := by
    intro γ β₁ β₂ i h e
    obtain ⟨x, h⟩ := cls0 h
    cases h with
    | outer h1 h2 => exact absurd e (notDN (h2.elim (fun h => h.2.1) (fun h => h.2.1)))
    | @new α _ h1 _ _ h2 => exact ⟨α, h1, h2⟩
    | inner _ _ _ _ _ _ h =>
      exact absurd (q.apart.2 _ q.A).1 (IsProd.not_terminal (h.elim (fun h => h.2.1) (fun h => h.2.1)))
  have sameD : ∀ {γ γ' : List T}, SameItems (Hosting D E A o R c) S γ γ' → SameItems D S γ γ' := fun hs X i β₁ β₂ =>
    ⟨fun h => (kindD ((hs _ _ _ _).mp (q.itemD h)) h.1).2, fun h => (kindD ((hs _ _ _ _).mpr (q.itemD h)) h.1).2⟩
  have sameE : ∀ {α α' u u' β β' : List T}, o ∉ α → o ∉ α' → RDerives D [S] (α ++ A :: u) → Terminals D u →
      RDerives D [S] (α' ++ A :: u') → Terminals D u' →
      SameItems (Hosting D E A o R c) S (α ++ o :: β) (α' ++ o :: β') → SameItems E R β β' := by
    intro α α' u u' β β' h1 h2 d t d' t' hs X i β₁ β₂
    constructor
    · intro h
      obtain ⟨a, b, e, h3, _, h4⟩ := kindE ((hs _ _ _ _).mp (q.itemE d t h)) h.1
      exact (split_at_first h2 h3 e).2 ▸ h4
    · intro h
      obtain ⟨a, b, e, h3, _, h4⟩ := kindE ((hs _ _ _ _).mpr (q.itemE d' t' h)) h.1
      exact (split_at_first h1 h3 e).2 ▸ h4
  constructor
  · intro γ γ' X i β Y j δ x hs hA hB
    have sA := (hs _ _ _ _).mp hA.item
    have sB := (hs _ _ _ _).mpr hB.item
    cases cls hA with
    | outer n1 v1 =>
      have p1 := v1.elim (fun h => h.2.1) (fun h => h.2.1)
      have n2 := (kindD sA p1).1
      cases cls hB with
      | outer _ v2 =>
        rcases v1 with ⟨m1, g1⟩ | ⟨m1, g1⟩ <;> rcases v2 with ⟨m2, g2⟩ | ⟨m2, g2⟩
        · exact hD.1 γ γ' X i β Y j δ x (sameD hs) g1 g2
        · exact absurd m2 m1
        · exact absurd m1 m2
        · exact hD.1 γ γ' X i β Y j δ y (sameD hs) g1 g2
      | new e1 _ e2 =>
        rw [List.append_nil] at e2
        exact absurd (by rw [e1, e2]; simp) n2
      | inner e1 => exact absurd (by rw [e1]; simp) n2
    | new e1 e0 e2 k1 d1 t1 b1 =>
      cases cls hB with
      | outer _ v2 =>
        have n := (kindD sB (v2.elim (fun h => h.2.1) (fun h => h.2.1))).1
        rw [List.append_nil] at e2
        exact absurd (by rw [e1, e2]; simp) n
      | new _ e0' _ _ _ _ b2 =>
        obtain ⟨bs, h1, h2⟩ := b1
        obtain ⟨bs', h3, h4⟩ := b2
        exact ⟨by rw [e0, e0'], by rw [h2, h4, h1.unique h3]⟩
      | inner _ _ _ _ _ _ v2 =>
        obtain ⟨a, b, e3, k3, k4, _⟩ := kindE sB (v2.elim (fun h => h.2.1) (fun h => h.2.1))
        rw [List.append_nil] at e2
        rw [e1, e2] at e3
        exact absurd (by rw [← (split_at_first k1 k3 e3).2]; simp) k4
    | inner e1 k1 k2 k3 d1 t1 v1 =>
      have p1 := v1.elim (fun h => h.2.1) (fun h => h.2.1)
      cases cls hB with
      | outer _ v2 =>
        have n := (kindD sB (v2.elim (fun h => h.2.1) (fun h => h.2.1))).1
        exact absurd (by rw [e1]; simp) n
      | new e3 _ e2 k4 =>
        obtain ⟨a, b, e4, k5, k6, _⟩ := kindE sA p1
        rw [List.append_nil] at e2
        rw [e3, e2] at e4
        exact absurd (by rw [← (split_at_first k4 k5 e4).2]; simp) k6
      | inner e2 k4 _ _ d2 t2 v2 =>
        subst e1
        subst e2
        have hs' := sameE k1 k4 d1 t1 d2 t2 hs
        rcases v1 with ⟨m1, g1⟩ | ⟨m1, g1⟩ <;> rcases v2 with ⟨m2, g2⟩ | ⟨m2, g2⟩
        · exact hE.1 _ _ X i β Y j δ x hs' g1 g2
        · exact absurd m2 m1
        · exact absurd m1 m2
        · exact hE.1 _ _ X i β Y j δ eof hs' g1 g2
  · intro γ γ' X i β Y j δ₁ a δ₂ hs hA hB ha
    have sA := (hs _ _ _ _).mp hA.item
    have sB := (hs _ _ _ _).mpr hB
    have ta := HostOk.terminal.mp ha
    obtain ⟨b, cB⟩ := cls0 hB
    cases cB with
    | outer n2 v2 =>
      have i2 := v2.elim (fun h => h.2.item) (fun h => h.2.item)
      have n1 := (kindD sB i2.1).1
      cases cls hA with
      | outer _ v1 =>
        rcases v1 with ⟨_, g1⟩ | ⟨rfl, _⟩
        · exact hD.2 γ γ' X i β Y j δ₁ a δ₂ (sameD hs) g1 i2 ta.1
        · exact q.oD.2 _ _ _ i2.1 (by simp)
      | new e1 _ e2 =>
        rw [List.append_nil] at e2
        exact n1 (by rw [e1, e2]; simp)
      | inner e1 => exact n1 (by rw [e1]; simp)
    | new e1 e0 e2 k1 d1 t1 b1 =>
      subst e0
      match δ₁, e1, e2, sB with
      | [], e1, e2, sB =>
        simp at e2
        obtain ⟨rfl, _⟩ := e2
        rw [List.append_nil] at e1
        subst e1
        have n1 : a ∉ γ := by
          obtain ⟨α, h1, h2⟩ := kindN sB (by simpa using ‹_›)
          rw [List.append_nil] at h1
          exact h1 ▸ h2
        cases cls hA with
        | outer _ v1 =>
          rcases v1 with ⟨m1, _⟩ | ⟨_, g1⟩
          · exact m1 rfl
          · have hU := rderives_under d1 rfl (not_terminal_iff.mpr q.A)
            rcases first_terminal q.nD dz rfl rfl (tz y (by simp)) with h | ⟨Z, k, r, h1, h2⟩
            · exact not_terminal_iff.mpr q.A (h ▸ tz y (by simp))
            · obtain ⟨ν, h3, h4⟩ := under_rderives q.prD (hU.trans h1)
              rw [List.append_nil] at h3
              exact hD.2 γ _ X i β Z k [] y r (sameD hs) g1 ⟨h2, _, ν, by simp, h4, h3⟩ (tz y (by simp))
        | new e3 _ e4 =>
          rw [List.append_nil] at e4
          exact n1 (by rw [e3, e4]; simp)
        | inner e3 => exact n1 (by rw [e3]; simp)
      | [d], e1, e2, _ =>
        simp at e2
        exact not_terminal_iff.mpr q.R (e2.2.1 ▸ ta.2)
      | [d, d'], e1, e2, _ =>
        simp at e2
        obtain ⟨rfl, rfl, rfl, _⟩ := e2
        cases cls hA with
        | outer _ v1 =>
          have n := (kindD sA (v1.elim (fun h => h.2.1) (fun h => h.2.1))).1
          exact n (by rw [e1]; simp)
        | new _ e0 e4 =>
          subst e0
          obtain ⟨α, h1, h2⟩ := kindN sA e4
          rw [List.append_nil] at e4
          rw [e1, e4] at h1
          have := (split_at_first k1 h2 h1).2
          simp at this
        | inner _ _ _ _ _ _ v1 =>
          obtain ⟨a', b', e3, k3, k4, h⟩ := kindE sA (v1.elim (fun h => h.2.1) (fun h => h.2.1))
          rw [e1] at e3
          exact no_item_start q.bE q.nE ((split_at_first k1 k3 e3).2 ▸ h)
      | d :: d' :: d'' :: r, e1, e2, _ => have := congrArg List.length e2; simp at this
    | inner e1 k1 k2 k3 d1 t1 v2 =>
      have i2 := v2.elim (fun h => h.2.item) (fun h => h.2.item)
      cases cls hA with
      | outer _ v1 =>
        have n := (kindD sA (v1.elim (fun h => h.2.1) (fun h => h.2.1))).1
        exact n (by rw [e1]; simp)
      | new e3 _ e2 k4 =>
        obtain ⟨a', b', e4, k5, k6, _⟩ := kindE sB i2.1
        rw [List.append_nil] at e2
        rw [e3, e2] at e4
        exact k6 (by rw [← (split_at_first k4 k5 e4).2]; simp)
      | inner e2 k4 _ _ d2 t2 v1 =>
        subst e1
        subst e2
        rcases v1 with ⟨_, g1⟩ | ⟨rfl, _⟩
        · exact hE.2 _ _ X i β Y j δ₁ a δ₂ (sameE k4 k1 d2 t2 d1 t1 hs) g1 i2 ta.2
        · exact q.cE.2 _ _ _ i2.1 (by simp)

end
end Lrp
