import Verif.Spec.Rename
import Verif.Proofs.Cfg

/-! Derivations do not depend on the names of symbols. -/

namespace Lrp.Spec
variable {T T' : Type} {f : T → T'} {D : Decls T}

theorem map_append_inv {l : List T} {u v : List T'} (h : l.map f = u ++ v) :
    ∃ a b, l = a ++ b ∧ a.map f = u ∧ b.map f = v := by
  obtain ⟨a, b, h1, h2, h3⟩ := List.map_eq_append_iff.mp h
  exact ⟨a, b, h1, h2, h3⟩

theorem map_inj (hf : Injective f) {u v : List T} (h : u.map f = v.map f) : u = v :=
  (List.map_inj_right (fun {x y} h => hf x y h)).mp h

theorem terminal_rename (hf : Injective f) {a : T} : Terminal (renamed f D) (f a) ↔ Terminal D a := by
  unfold Terminal renamed
  constructor
  · intro h d hd e
    exact h _ (List.mem_map.mpr ⟨d, hd, rfl⟩) (congrArg f e)
  · intro h d hd e
    obtain ⟨d', h1, rfl⟩ := List.mem_map.mp hd
    exact h d' h1 (hf _ _ e)

theorem terminals_rename (hf : Injective f) {w : List T} :
    Terminals (renamed f D) (w.map f) ↔ Terminals D w := by
  unfold Terminals
  constructor
  · intro h t ht
    exact (terminal_rename hf).mp (h (f t) (List.mem_map.mpr ⟨t, ht, rfl⟩))
  · intro h t ht
    obtain ⟨t', h1, rfl⟩ := List.mem_map.mp ht
    exact (terminal_rename hf).mpr (h t' h1)

theorem nonterminal_rename {A' : T'} (h : Nonterminal (renamed f D) A') :
    ∃ A, A' = f A ∧ Nonterminal D A := by
  obtain ⟨d, h1, rfl⟩ := h
  obtain ⟨d', h2, rfl⟩ := List.mem_map.mp h1
  exact ⟨d'.1, rfl, d', h2, rfl⟩

theorem isProd_rename (hf : Injective f) {A : T} {i : Nat} {b : List T} (h : IsProd D A i b) :
    IsProd (renamed f D) (f A) i (b.map f) := by
  obtain ⟨bs, ⟨pre, post, rfl, h2⟩, h3⟩ := h
  refine ⟨bs.map (List.map f), ⟨renamed f pre, renamed f post, by simp [renamed], ?_⟩, by simp [h3]⟩
  intro d hd e
  obtain ⟨d', h4, rfl⟩ := List.mem_map.mp hd
  exact h2 d' h4 (hf _ _ e)

theorem isProd_rename_inv {A' : T'} {i : Nat} {b' : List T'} (h : IsProd (renamed f D) A' i b') :
    ∃ A b, A' = f A ∧ b' = b.map f ∧ IsProd D A i b := by
  obtain ⟨bs', ⟨pre', post', h1, h2⟩, h3⟩ := h
  obtain ⟨pre, rest, rfl, rfl, h5⟩ := List.map_eq_append_iff.mp h1
  obtain ⟨d, post, rfl, h6, rfl⟩ := List.map_eq_cons_iff.mp h5
  cases h6
  rw [List.getElem?_map] at h3
  obtain ⟨b, h7, rfl⟩ := Option.map_eq_some_iff.mp h3
  refine ⟨d.1, b, rfl, rfl, d.2, ⟨pre, post, rfl, ?_⟩, h7⟩
  intro d' hd e
  exact h2 (f d'.1, d'.2.map (List.map f)) (List.mem_map.mpr ⟨d', hd, rfl⟩) (congrArg f e)

theorem isProd_rename_iff (hf : Injective f) {A : T} {i : Nat} {b : List T} :
    IsProd (renamed f D) (f A) i (b.map f) ↔ IsProd D A i b := by
  refine ⟨fun h => ?_, isProd_rename hf⟩
  obtain ⟨A', b', h1, h2, h3⟩ := isProd_rename_inv h
  rw [hf _ _ h1, map_inj hf h2]
  exact h3

theorem derives_rename (hf : Injective f) {a b : List T} (h : Derives D a b) :
    Derives (renamed f D) (a.map f) (b.map f) := by
  induction h with
  | refl => exact .refl _
  | head s _ ih =>
    refine .head ?_ ih
    cases s with
    | mk u v hp =>
      have := Step.mk (u.map f) (v.map f) (isProd_rename hf hp)
      simpa using this

theorem derives_rename_inv (hf : Injective f) {a : List T} {b' : List T'}
    (h : Derives (renamed f D) (a.map f) b') : ∃ b, b' = b.map f ∧ Derives D a b := by
  generalize ha : a.map f = a' at h
  induction h generalizing a with
  | refl => exact ⟨a, ha.symm, .refl _⟩
  | head s _ ih =>
    cases s with
    | @mk u v A i body hp =>
      obtain ⟨u0, r, rfl, rfl, h1⟩ := map_append_inv ha
      obtain ⟨A0, v0, rfl, rfl, rfl⟩ := List.map_eq_cons_iff.mp h1
      obtain ⟨A1, b1, h2, rfl, h3⟩ := isProd_rename_inv hp
      have := hf _ _ h2
      subst this
      obtain ⟨b, rfl, h4⟩ := ih (a := u0 ++ b1 ++ v0) (by simp)
      exact ⟨b, rfl, .head (.mk u0 v0 h3) h4⟩

theorem rderives_rename (hf : Injective f) {a b : List T} (h : RDerives D a b) :
    RDerives (renamed f D) (a.map f) (b.map f) := by
  induction h with
  | refl => exact .refl
  | tail _ s ih =>
    refine .tail ih ?_
    cases s with
    | mk u v hp hv =>
      have := RStep.mk (u.map f) (v.map f) (isProd_rename hf hp) ((terminals_rename hf).mpr hv)
      simpa using this

theorem rderives_rename_inv (hf : Injective f) {a : List T} {b' : List T'}
    (h : RDerives (renamed f D) (a.map f) b') : ∃ b, b' = b.map f ∧ RDerives D a b := by
  induction h with
  | refl => exact ⟨a, rfl, .refl⟩
  | tail _ s ih =>
    obtain ⟨b, rfl, h1⟩ := ih
    generalize hb : b.map f = b' at s
    cases s with
    | @mk u v A i body hp hv =>
      obtain ⟨u0, r, rfl, rfl, h2⟩ := map_append_inv hb
      obtain ⟨A0, v0, rfl, rfl, rfl⟩ := List.map_eq_cons_iff.mp h2
      obtain ⟨A1, b1, h3, rfl, h4⟩ := isProd_rename_inv hp
      have := hf _ _ h3
      subst this
      exact ⟨u0 ++ b1 ++ v0, by simp, .tail h1 (.mk u0 v0 h4 ((terminals_rename hf).mp hv))⟩

theorem rderives_rename_split (hf : Injective f) {S : T} {α w : List T'} {A : T'}
    (h : RDerives (renamed f D) [f S] (α ++ A :: w)) :
    ∃ α₀ A₀ w₀, α = α₀.map f ∧ A = f A₀ ∧ w = w₀.map f ∧ RDerives D [S] (α₀ ++ A₀ :: w₀) := by
  obtain ⟨b, h1, h2⟩ := rderives_rename_inv hf (a := [S]) h
  obtain ⟨u0, r, rfl, rfl, h3⟩ := map_append_inv h1.symm
  obtain ⟨A0, v0, rfl, rfl, rfl⟩ := List.map_eq_cons_iff.mp h3
  exact ⟨u0, A0, v0, rfl, rfl, rfl, h2⟩

theorem head_map (w : List T) (eof : T) :
    (w.map f ++ [f eof]).head? = ((w ++ [eof]).head?).map f := by
  cases w <;> rfl

theorem head_eof_inj (hf : Injective f) {w y : List T} {eof : T} :
    (w.map f ++ [f eof]).head? = (y.map f ++ [f eof]).head? ↔
      (w ++ [eof]).head? = (y ++ [eof]).head? := by
  rw [head_map, head_map]
  refine ⟨fun h => ?_, fun h => by rw [h]⟩
  cases h1 : (w ++ [eof]).head? <;> cases h2 : (y ++ [eof]).head? <;> rw [h1, h2] at h <;> simp at h
  rw [hf _ _ h]

/-- Being LR(1) does not depend on the names of symbols. -/
theorem lr1_rename (hf : Injective f) {S eof : T} :
    LR1 (renamed f D) (f S) (f eof) ↔ LR1 D S eof := by
  constructor
  · intro h α β w γ δ x y A B i j hA hw pA hB hx pB e hy hh
    have := h (α.map f) (β.map f) (w.map f) (γ.map f) (δ.map f) (x.map f) (y.map f) (f A) (f B) i j
      (by simpa using rderives_rename hf hA) ((terminals_rename hf).mpr hw) (isProd_rename hf pA)
      (by simpa using rderives_rename hf hB) ((terminals_rename hf).mpr hx) (isProd_rename hf pB)
      (by rw [← List.map_append, ← List.map_append, e]; simp) ((terminals_rename hf).mpr hy)
      ((head_eof_inj hf).mpr hh)
    exact ⟨map_inj hf this.1, hf _ _ this.2.1, this.2.2.1, map_inj hf this.2.2.2⟩
  · intro h α β w γ δ x y A B i j hA hw pA hB hx pB e hy hh
    obtain ⟨α, A, w, rfl, rfl, rfl, gA⟩ := rderives_rename_split hf hA
    obtain ⟨γ, B, x, rfl, rfl, rfl, gB⟩ := rderives_rename_split hf hB
    obtain ⟨A', β, e1, rfl, qA⟩ := isProd_rename_inv pA
    obtain rfl := hf _ _ e1
    obtain ⟨B', δ, e1, rfl, qB⟩ := isProd_rename_inv pB
    obtain rfl := hf _ _ e1
    rw [← List.map_append, ← List.map_append, ← List.map_append] at e
    obtain ⟨u, y, e1, e2, rfl⟩ := map_append_inv e
    obtain rfl := map_inj hf e2
    obtain ⟨r1, r2, r3, r4⟩ := h α β w γ δ x y A B i j gA ((terminals_rename hf).mp hw) qA gB
      ((terminals_rename hf).mp hx) qB e1 ((terminals_rename hf).mp hy) ((head_eof_inj hf).mp hh)
    exact ⟨by rw [r1], by rw [r2], r3, by rw [r4]⟩

theorem validItem_rename (hf : Injective f) {S A : T} {γ β₁ β₂ : List T} {i : Nat}
    (h : ValidItem D S γ A i β₁ β₂) :
    ValidItem (renamed f D) (f S) (γ.map f) (f A) i (β₁.map f) (β₂.map f) := by
  obtain ⟨h1, α, w, rfl, h2, h3⟩ := h
  refine ⟨by rw [← List.map_append]; exact isProd_rename hf h1, α.map f, w.map f, by simp,
    (terminals_rename hf).mpr h2, by simpa using rderives_rename hf h3⟩

theorem validItem_rename_inv (hf : Injective f) {S : T} {A' : T'} {γ' β₁' β₂' : List T'} {i : Nat}
    (h : ValidItem (renamed f D) (f S) γ' A' i β₁' β₂') :
    ∃ γ A β₁ β₂, γ' = γ.map f ∧ A' = f A ∧ β₁' = β₁.map f ∧ β₂' = β₂.map f ∧
      ValidItem D S γ A i β₁ β₂ := by
  obtain ⟨h1, α, w, rfl, h2, h3⟩ := h
  obtain ⟨α, A, w, rfl, rfl, rfl, hA⟩ := rderives_rename_split hf h3
  obtain ⟨A', β, e1, e2, pA⟩ := isProd_rename_inv h1
  obtain rfl := hf _ _ e1
  obtain ⟨β₁, β₂, rfl, rfl, rfl⟩ := map_append_inv e2.symm
  exact ⟨α ++ β₁, A, β₁, β₂, by simp, rfl, rfl, rfl, pA, α, w, rfl, (terminals_rename hf).mp h2, hA⟩

theorem inFollow_rename (hf : Injective f) {S eof A x : T} :
    InFollow (renamed f D) (f S) (f eof) (f A) (f x) ↔ InFollow D S eof A x := by
  constructor
  · rintro ⟨u, v, h⟩
    obtain ⟨b, h1, h2⟩ := derives_rename_inv hf (a := [S, eof]) h
    obtain ⟨u, r, rfl, rfl, h3⟩ := map_append_inv h1.symm
    obtain ⟨A', r, rfl, h4, h5⟩ := List.map_eq_cons_iff.mp h3
    obtain ⟨x', v, rfl, h6, rfl⟩ := List.map_eq_cons_iff.mp h5
    rw [← hf _ _ h4, ← hf _ _ h6]
    exact ⟨u, v, h2⟩
  · rintro ⟨u, v, h⟩
    exact ⟨u.map f, v.map f, by simpa using derives_rename hf h⟩

theorem inFollow_rename_inv (hf : Injective f) {S eof A : T} {x' : T'}
    (h : InFollow (renamed f D) (f S) (f eof) (f A) x') : ∃ x, x' = f x := by
  obtain ⟨u, v, h⟩ := h
  obtain ⟨b, h1, h2⟩ := derives_rename_inv hf (a := [S, eof]) h
  have : x' ∈ b.map f := by rw [← h1]; simp
  obtain ⟨x, _, rfl⟩ := List.mem_map.mp this
  exact ⟨x, rfl⟩

/-- Being SLR(1) does not depend on the names of symbols. -/
theorem slr1_rename (hf : Injective f) {S eof : T} :
    SLR1 (renamed f D) (f S) (f eof) ↔ SLR1 D S eof := by
  constructor
  · rintro ⟨h1, h2⟩
    constructor
    · intro γ A i β B j δ x hA hB hx fA fB
      have := h1 (γ.map f) (f A) i (β.map f) (f B) j (δ.map f) (f x) (validItem_rename hf hA)
        (validItem_rename hf hB) ((terminal_rename hf).mpr hx) ((inFollow_rename hf).mpr fA)
        ((inFollow_rename hf).mpr fB)
      exact ⟨hf _ _ this.1, this.2⟩
    · intro γ A i β B j δ₁ a δ₂ hA hB ha fA
      exact h2 (γ.map f) (f A) i (β.map f) (f B) j (δ₁.map f) (f a) (δ₂.map f) (validItem_rename hf hA)
        (validItem_rename hf hB) ((terminal_rename hf).mpr ha) ((inFollow_rename hf).mpr fA)
  · rintro ⟨h1, h2⟩
    constructor
    · intro γ A i β B j δ x hA hB hx fA fB
      obtain ⟨γ, A, β, e0, rfl, rfl, rfl, e1, gA⟩ := validItem_rename_inv hf hA
      obtain ⟨γ', B, δ, e0', e2, rfl, rfl, e3, gB⟩ := validItem_rename_inv hf hB
      obtain rfl := map_inj hf e2
      obtain ⟨x, rfl⟩ := inFollow_rename_inv hf fA
      have e1 : e0 = [] := by simpa using e1.symm
      have e3 : e0' = [] := by simpa using e3.symm
      subst e1; subst e3
      obtain ⟨r1, r2⟩ := h1 γ A i β B j δ x gA gB ((terminal_rename hf).mp hx) ((inFollow_rename hf).mp fA)
        ((inFollow_rename hf).mp fB)
      exact ⟨by rw [r1], r2⟩
    · intro γ A i β B j δ₁ a δ₂ hA hB ha fA
      obtain ⟨γ, A, β, e0, rfl, rfl, rfl, e1, gA⟩ := validItem_rename_inv hf hA
      obtain ⟨γ', B, δ, e0', e2, rfl, rfl, e3, gB⟩ := validItem_rename_inv hf hB
      obtain rfl := map_inj hf e2
      obtain ⟨a, δ₂, rfl, rfl, rfl⟩ := List.map_eq_cons_iff.mp e3.symm
      have e1 : e0 = [] := by simpa using e1.symm
      subst e1
      exact h2 γ A i β B j δ a δ₂ gA gB ((terminal_rename hf).mp ha) ((inFollow_rename hf).mp fA)

/-! ### Side conditions -/

theorem allProductive_rename (hf : Injective f) (h : AllProductive D) : AllProductive (renamed f D) := by
  intro A hA
  obtain ⟨A, rfl, gA⟩ := nonterminal_rename hA
  obtain ⟨w, h1, h2⟩ := h A gA
  exact ⟨w.map f, by simpa using derives_rename hf h1, (terminals_rename hf).mpr h2⟩

theorem reachable_rename (hf : Injective f) {S : T} (h : ∀ A, Nonterminal D A → Reachable D S A) :
    ∀ A, Nonterminal (renamed f D) A → Reachable (renamed f D) (f S) A := by
  intro A hA
  obtain ⟨A, rfl, gA⟩ := nonterminal_rename hA
  obtain ⟨u, v, h1⟩ := h A gA
  exact ⟨u.map f, v.map f, by simpa using derives_rename hf h1⟩

theorem singleStart_rename (hf : Injective f) {S : T} (h : SingleStart D S) :
    SingleStart (renamed f D) (f S) := by
  intro i b hp
  obtain ⟨A, b, e, rfl, gp⟩ := isProd_rename_inv hp
  obtain rfl := hf _ _ e
  exact h i b gp

theorem inNoBody_rename (hf : Injective f) {S : T} (h : InNoBody D S) :
    InNoBody (renamed f D) (f S) := by
  intro A i b hp hm
  obtain ⟨A, b, rfl, rfl, gp⟩ := isProd_rename_inv hp
  obtain ⟨s, h1, h2⟩ := List.mem_map.mp hm
  exact h A i b gp (hf _ _ h2 ▸ h1)

theorem sentence_rename (hf : Injective f) {S : T} {w : List T} :
    Sentence (renamed f D) (f S) (w.map f) ↔ Sentence D S w := by
  constructor
  · rintro ⟨h1, h2⟩
    obtain ⟨b, h3, h4⟩ := derives_rename_inv hf (a := [S]) h1
    obtain rfl := map_inj hf h3
    exact ⟨h4, (terminals_rename hf).mp h2⟩
  · rintro ⟨h1, h2⟩
    exact ⟨by simpa using derives_rename hf h1, (terminals_rename hf).mpr h2⟩

end Lrp.Spec
