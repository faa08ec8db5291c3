import Verif.Spec.Brackets
import Verif.Proofs.Stack
import Verif.Proofs.Wrap

/-! An alternative between brackets the grammar does not use keeps a grammar LR(1). -/

set_option linter.unusedSectionVars false

namespace Lrp
open Spec
variable {T : Type} [LinOrd T] [DecidableEq T]

/-! ### The rules below the start -/

/-- A reachable symbol stands in a rightmost sentential form with terminals to the right of it. -/
theorem rderives_reachable {D : Decls T} (hpr : AllProductive D) {S B : T} (h : Reachable D S B) :
    ∃ μ ν, RDerives D [S] (μ ++ B :: ν) ∧ Terminals D ν := by
  obtain ⟨u, v, hd⟩ := h
  obtain ⟨u0, hu, hx⟩ := Reachable.under hd
  clear hx hd
  induction hu with
  | refl => exact ⟨[], [], .refl, by intro x hx; cases hx⟩
  | @snoc u B C i x y _ hp ih =>
    obtain ⟨μ, ν, h1, h2⟩ := ih
    obtain ⟨y', h3, h4⟩ := productive_list hpr y
    have h5 := (RDerives.of_derives h3 h4).ctx (μ ++ x ++ [C]) h2
    refine ⟨μ ++ x, y' ++ ν, (RDerives.tail h1 (.mk μ ν hp h2)).trans ?_, terminals_append.mpr ⟨h4, h2⟩⟩
    simpa using h5

theorem derives_fresh {D : Decls T} {X e : T} (hf : Fresh D e) (hne : X ≠ e) {w : List T} (h : Derives D [X] w) :
    e ∉ w := by
  intro hx
  rcases derives_from h hx with h | ⟨A, i, b, hp, h⟩
  · exact hne (List.mem_singleton.mp h).symm
  · exact hf.2 A i b hp h

/-- What is below the start of an LR(1) grammar is an LR(1) grammar. -/
theorem lr1_below {D : Decls T} {S eof B e : T} (hlr : LR1 D S eof) {μ ν : List T}
    (hd : RDerives D [S] (μ ++ B :: ν)) (hν : Terminals D ν) (he : InNoBody D e) (hne : B ≠ e) : LR1 D B e := by
  have hfr : ∀ {w : List T}, Derives D [B] w → e ∉ w := by
    intro w h hx
    rcases derives_from h hx with h | ⟨A, i, b, hp, h⟩
    · exact hne (List.mem_singleton.mp h).symm
    · exact he A i b hp h
  intro α β w γ δ x y A C i j h1 h2 h3 h4 h5 h6 h7 h8 h9
  have up : ∀ {φ : List T}, RDerives D [B] φ → RDerives D [S] (μ ++ φ ++ ν) := by
    intro φ h
    refine hd.trans ?_
    simpa using h.ctx μ hν
  have hy : e ∉ y := by
    have := hfr (RDerives.tail h4 (.mk γ x h6 h5)).derives
    rw [h7] at this
    exact fun h => this (by simp [h])
  have hw : e ∉ w := fun h => hfr h1.derives (by simp [h])
  have hhead : ((w ++ ν) ++ [eof]).head? = ((y ++ ν) ++ [eof]).head? := by
    cases w with
    | nil =>
      cases y with
      | nil => rfl
      | cons c y => simp at h9; exact absurd (by simp [h9]) hy
    | cons c w =>
      cases y with
      | nil => simp at h9; exact absurd (by simp [h9]) hw
      | cons c' y => simpa using h9
  obtain ⟨k1, k2, k3, k4⟩ := hlr (μ ++ α) β (w ++ ν) (μ ++ γ) δ (x ++ ν) (y ++ ν) A C i j
    (by simpa using up h1) (terminals_append.mpr ⟨h2, hν⟩) h3 (by simpa using up h4)
    (terminals_append.mpr ⟨h5, hν⟩) h6 (by simpa using congrArg (fun l => μ ++ l ++ ν) h7)
    (terminals_append.mpr ⟨h8, hν⟩) hhead
  exact ⟨List.append_cancel_left k1, k2, k3, List.append_cancel_right k4⟩

/-- Nothing below the start of an LR(1) grammar derives itself. -/
theorem lr1_not_self {D : Decls T} {S eof B : T} (hlr : LR1 D S eof) (hn : NoEmpty D) (hS : InNoBody D S)
    {μ ν : List T} (hd : RDerives D [S] (μ ++ B :: ν)) (hν : Terminals D ν) : ¬ SelfDeriving D B := by
  have key : ∀ {c : List T}, RDerives D [S] c → ∀ Z, c = μ ++ Z :: ν → ¬ SelfDeriving D Z := by
    intro c h
    induction h with
    | refl =>
      rintro Z e ⟨a, s, hz⟩
      have : Z = S := by
        cases μ with
        | nil => simp at e; exact e.1.symm
        | cons m μ => simp at e
      subst this
      obtain ⟨Y, j, _, hp⟩ := rderives_single hn s hz rfl
      exact hS _ _ _ hp (by simp)
    | tail h s ih =>
      rintro Z rfl ⟨a, s', hd⟩
      obtain ⟨Y, j, h1, hp⟩ := rderives_single hn s' hd rfl
      have hY : RDerives D [S] (μ ++ Y :: ν) := by
        refine (RDerives.tail h s).trans ?_
        simpa using h1.ctx μ hν
      generalize e : μ ++ Z :: ν = c at s
      cases s with
      | @mk u v X i body hq hv =>
        obtain ⟨k1, k2, k3, k4⟩ := hlr u body v μ [Z] ν v X Y i j h hv hq hY hν hp (by simpa using e) hv rfl
        subst k1 k2 k4
        refine ih Y rfl ⟨[Z], ?_, h1.derives⟩
        simpa using Step.mk [] [] hp
  exact key hd B rfl

/-! ### One more alternative -/

section
variable {D : Decls T} {A : T} {body : List T}

theorem declared_withAlt {X : T} {bs' : List (List T)} :
    Declared (WithAlt D A body) X bs' ↔ ∃ bs, Declared D X bs ∧ bs' = if X = A then bs ++ [body] else bs := by
  constructor
  · rintro ⟨pre, post, e, h⟩
    obtain ⟨l1, l2, e1, e2, e3⟩ := List.map_eq_append_iff.mp e
    obtain ⟨d, l3, e4, e5, e6⟩ := List.map_eq_cons_iff.mp e3
    have hd : ∀ d : T × List (List T), (if d.1 = A then (d.1, d.2 ++ [body]) else d).1 = d.1 := by
      intro d; split <;> rfl
    have hX : d.1 = X := by rw [← hd d, e5]
    refine ⟨d.2, ⟨l1, l3, by rw [e1, e4, ← hX], fun d' hd' => ?_⟩, ?_⟩
    · have := h _ (e6 ▸ List.mem_map.mpr ⟨d', hd', rfl⟩)
      rwa [hd] at this
    · rw [hX] at e5
      split at e5
      · next hh => rw [if_pos hh]; exact (congrArg Prod.snd e5).symm
      · next hh => rw [if_neg hh, e5]
  · rintro ⟨bs, ⟨pre, post, e, h⟩, rfl⟩
    refine ⟨pre.map (fun d => if d.1 = A then (d.1, d.2 ++ [body]) else d),
      post.map (fun d => if d.1 = A then (d.1, d.2 ++ [body]) else d), ?_, ?_⟩
    · unfold WithAlt
      rw [e, List.map_append, List.map_cons]
      congr 2
      simp only
      split <;> rfl
    · intro d hd
      obtain ⟨d', hd', rfl⟩ := List.mem_map.mp hd
      have := h d' hd'
      split <;> exact this

theorem isProd_withAlt {X : T} {i : Nat} {b : List T} :
    IsProd (WithAlt D A body) X i b ↔
      IsProd D X i b ∨ (X = A ∧ b = body ∧ ∃ bs, Declared D A bs ∧ i = bs.length) := by
  constructor
  · rintro ⟨bs', h, hi⟩
    obtain ⟨bs, hb, rfl⟩ := declared_withAlt.mp h
    split at hi
    · next e =>
      subst e
      by_cases hl : i < bs.length
      · rw [List.getElem?_append_left hl] at hi
        exact .inl ⟨bs, hb, hi⟩
      · rw [List.getElem?_append_right (by omega)] at hi
        have h0 : i - bs.length = 0 := by
          have := (List.getElem?_eq_some_iff.mp hi).1
          simp at this
          omega
        rw [h0] at hi
        simp at hi
        exact .inr ⟨rfl, hi.symm, bs, hb, by omega⟩
    · exact .inl ⟨bs, hb, hi⟩
  · rintro (⟨bs, hb, hi⟩ | ⟨rfl, rfl, bs, hb, rfl⟩)
    · refine ⟨_, declared_withAlt.mpr ⟨bs, hb, rfl⟩, ?_⟩
      split
      · rw [List.getElem?_append_left (List.getElem?_eq_some_iff.mp hi).1]
        exact hi
      · exact hi
    · exact ⟨_, declared_withAlt.mpr ⟨bs, hb, rfl⟩, by simp⟩

theorem nonterminal_withAlt {X : T} : Nonterminal (WithAlt D A body) X ↔ Nonterminal D X := by
  unfold Nonterminal WithAlt
  constructor
  · rintro ⟨d, hd, rfl⟩
    obtain ⟨d', hd', rfl⟩ := List.mem_map.mp hd
    refine ⟨d', hd', ?_⟩
    split <;> rfl
  · rintro ⟨d, hd, rfl⟩
    refine ⟨_, List.mem_map.mpr ⟨d, hd, rfl⟩, ?_⟩
    split <;> rfl

theorem terminal_withAlt {X : T} : Terminal (WithAlt D A body) X ↔ Terminal D X := by
  constructor
  · intro h
    exact Classical.byContradiction fun hn =>
      not_terminal_iff.mpr (nonterminal_withAlt.mpr (not_terminal_iff.mp hn)) h
  · intro h
    exact Classical.byContradiction fun hn =>
      not_terminal_iff.mpr (nonterminal_withAlt.mp (not_terminal_iff.mp hn)) h

theorem terminals_withAlt {w : List T} : Terminals (WithAlt D A body) w ↔ Terminals D w :=
  ⟨fun h x hx => terminal_withAlt.mp (h x hx), fun h x hx => terminal_withAlt.mpr (h x hx)⟩

theorem rderives_withAlt {a b : List T} (h : RDerives D a b) : RDerives (WithAlt D A body) a b := by
  induction h with
  | refl => exact .refl
  | tail _ s ih =>
    cases s with
    | mk u v hp hv => exact .tail ih (.mk u v (isProd_withAlt.mpr (.inl hp)) (terminals_withAlt.mpr hv))

end

/-! ### Lists -/

theorem first_eq {k : T} : ∀ {a c b d : List T}, k ∉ a → k ∉ c → a ++ k :: b = c ++ k :: d → a = c ∧ b = d
  | [], [], _, _, _, _, h => ⟨rfl, (List.cons.inj h).2⟩
  | [], _ :: _, _, _, _, hc, h => absurd (by simp [(List.cons.inj h).1]) hc
  | _ :: _, [], _, _, ha, _, h => absurd (by simp [(List.cons.inj h).1]) ha
  | x :: a, y :: c, _, _, ha, hc, h => by
    obtain ⟨h1, h2⟩ := List.cons.inj h
    obtain ⟨h3, h4⟩ := first_eq (fun hx => ha (by simp [hx])) (fun hx => hc (by simp [hx])) h2
    exact ⟨by rw [h1, h3], h4⟩

theorem first_split {k : T} {l : List T} (h : k ∈ l) : ∃ a b, l = a ++ k :: b ∧ k ∉ a := by
  induction l with
  | nil => cases h
  | cons c l ih =>
    by_cases hc : k = c
    · exact ⟨[], l, by rw [hc]; rfl, by simp⟩
    · obtain ⟨a, b, e, ha⟩ := ih ((List.mem_cons.mp h).resolve_left hc)
      exact ⟨c :: a, b, by rw [e]; rfl, by simp [hc, ha]⟩

theorem last_split {D : Decls T} {Z : T} (hZ : ¬ Terminal D Z) : ∀ {α p w v : List T}, Terminals D v →
    α ++ Z :: w = p ++ v → ∃ w₁, w = w₁ ++ v ∧ p = α ++ Z :: w₁ := by
  intro α p w v hv h
  rcases List.append_eq_append_iff.mp h with ⟨a, h1, h2⟩ | ⟨a, h1, h2⟩
  · cases a with
    | nil =>
      simp at h1 h2
      exact absurd (hv Z (by rw [← h2]; simp)) hZ
    | cons c a =>
      obtain ⟨h3, h4⟩ := List.cons.inj h2
      exact ⟨a, h4, by rw [h1, h3]⟩
  · exact absurd (hv Z (by rw [h2]; simp)) hZ

/-- Where every body has its nonterminals before `c`, so has every rightmost sentential form. -/
theorem left_of_nonterminal {D : Decls T} {c X : T}
    (hb : ∀ Y i b, IsProd D Y i b → ∀ s Z r, b = s ++ Z :: r → ¬ Terminal D Z → c ∉ s)
    {φ : List T} (h : RDerives D [X] φ) : ∀ s Z r, φ = s ++ Z :: r → ¬ Terminal D Z → c ∉ s := by
  induction h with
  | refl =>
    intro s Z r h _
    cases s with
    | nil => simp
    | cons x s => simp at h
  | tail _ st ih =>
    cases st with
    | @mk u v Y i b hp hv =>
      intro s Z r h hZ
      have hu := ih u Y v rfl hp.not_terminal
      obtain ⟨r₁, h1, h2⟩ := last_split hZ hv h.symm
      rcases List.append_eq_append_iff.mp h2 with ⟨a, h3, h4⟩ | ⟨a, h3, h4⟩
      · rw [h3]
        have := hb Y i b hp a Z r₁ h4 hZ
        simp [hu, this]
      · intro hc
        exact hu (by rw [h3]; simp [hc])

/-! ### A fresh symbol as an alternative -/

/-- `z` for every `k`. -/
def putFor (k : T) (z : List T) (l : List T) : List T := l.flatMap fun c => if c = k then z else [c]

theorem putFor_append (k : T) (z a b : List T) : putFor k z (a ++ b) = putFor k z a ++ putFor k z b := by
  simp [putFor]

theorem putFor_plain {k : T} {z a : List T} (h : k ∉ a) : putFor k z a = a := by
  induction a with
  | nil => rfl
  | cons c a ih =>
    have hc : c ≠ k := fun e => h (by simp [e])
    simp only [putFor, List.flatMap_cons, if_neg hc] at ih ⊢
    rw [ih fun hx => h (by simp [hx])]
    rfl

theorem putFor_self (k : T) (z : List T) : putFor k z [k] = z := by simp [putFor]

theorem putFor_head {k : T} {z : List T} (hz : z ≠ []) : ∀ {a b : List T}, a.head? = b.head? →
    (putFor k z a).head? = (putFor k z b).head?
  | [], [], _ => rfl
  | [], _ :: _, h => by simp at h
  | _ :: _, [], h => by simp at h
  | x :: a, y :: b, h => by
    simp at h
    subst h
    simp only [putFor, List.flatMap_cons]
    split
    · cases z with
      | nil => exact absurd rfl hz
      | cons c z => rfl
    · rfl

section
variable {D : Decls T} {A k : T}

theorem putFor_terminals {z w : List T} (hz : Terminals D z) (hw : Terminals D w) : Terminals D (putFor k z w) := by
  intro x hx
  obtain ⟨c, h1, h2⟩ := List.mem_flatMap.mp hx
  split at h2
  · exact hz x h2
  · rw [List.mem_singleton.mp h2]; exact hw c h1

theorem rderives_putFor (hk : Fresh D k) {z : List T} (hz : RDerives D [A] z) (hzt : Terminals D z) {X : T}
    (hX : X ≠ k) {φ : List T} (h : RDerives (WithAlt D A [k]) [X] φ) : RDerives D [X] (putFor k z φ) := by
  induction h with
  | refl => rw [putFor_plain (by simp [hX.symm])]; exact .refl
  | tail _ st ih =>
    cases st with
    | @mk u v Y i b hp hv =>
      have hYk : Y ≠ k := by
        rintro rfl
        exact hp.not_terminal (terminal_withAlt.mpr hk.1)
      have hv' := putFor_terminals (k := k) hzt (terminals_withAlt.mp hv)
      have e1 : putFor k z (u ++ Y :: v) = putFor k z u ++ Y :: putFor k z v := by
        have := putFor_append k z u ([Y] ++ v)
        rw [putFor_append k z [Y] v, putFor_plain (a := [Y]) (by simp [hYk.symm])] at this
        exact this
      rw [e1] at ih
      rw [putFor_append, putFor_append]
      rcases isProd_withAlt.mp hp with hp | ⟨rfl, rfl, _⟩
      · rw [putFor_plain (a := b) (hk.2 _ _ _ hp)]
        exact .tail ih (.mk _ _ hp hv')
      · rw [putFor_self]
        refine ih.trans ?_
        simpa using hz.ctx (putFor k z u) hv'

/-- A fresh symbol as a further alternative keeps a grammar LR(1). -/
theorem lr1_fresh {S eof : T} (hn : NoEmpty D) (hk : Fresh D k) (hSk : S ≠ k) (hek : eof ≠ k)
    (hA : Nonterminal D A) (hp : Productive D A) (hlr : LR1 D S eof) : LR1 (WithAlt D A [k]) S eof := by
  obtain ⟨z, hzd, hzt⟩ := hp
  have hz := RDerives.of_derives hzd hzt
  have hzA : ¬ Terminal D A := not_terminal_iff.mpr hA
  -- the last step to `z`
  obtain ⟨p, Y, q, m, b, hz0, hq, hm, hzz⟩ : ∃ p Y q m b, RDerives D [A] (p ++ Y :: q) ∧ Terminals D q ∧
      IsProd D Y m b ∧ z = p ++ b ++ q := by
    cases hz with
    | refl => exact absurd (hzt A (by simp)) hzA
    | tail h st =>
      cases st with
      | mk u v hp hv => exact ⟨u, _, v, _, _, h, hv, hp, rfl⟩
  have hb : b ≠ [] := hn _ _ _ hm
  have hzne : z ≠ [] := by
    rw [hzz]
    simp [hb]
  have hinv : ∀ Y i b, IsProd (WithAlt D A [k]) Y i b →
      ∀ s Z r, b = s ++ Z :: r → ¬ Terminal (WithAlt D A [k]) Z → k ∉ s := by
    intro Y i b hp s Z r hb hZ
    rcases isProd_withAlt.mp hp with hp | ⟨_, rfl, _⟩
    · intro hx
      exact hk.2 _ _ _ hp (by rw [hb]; simp [hx])
    · cases s with
      | nil => simp
      | cons c s => simp at hb
  have form : ∀ {α w : List T} {Z : T}, RDerives (WithAlt D A [k]) [S] (α ++ Z :: w) → ¬ Terminal D Z →
      k ∉ α ∧ RDerives D [S] (α ++ Z :: putFor k z w) := by
    intro α w Z h hZ
    have h1 := left_of_nonterminal hinv h α Z w rfl (fun h => hZ (terminal_withAlt.mp h))
    refine ⟨h1, ?_⟩
    have h2 := rderives_putFor hk hz hzt hSk h
    have hZk : Z ≠ k := by rintro rfl; exact hZ hk.1
    have e1 : putFor k z (α ++ Z :: w) = α ++ Z :: putFor k z w := by
      have := putFor_append k z α ([Z] ++ w)
      rw [putFor_append k z [Z] w, putFor_plain (a := [Z]) (by simp [hZk.symm]), putFor_plain h1] at this
      exact this
    rwa [e1] at h2
  have hend : ∀ {w y : List T}, (w ++ [eof]).head? = (y ++ [eof]).head? →
      (putFor k z w ++ [eof]).head? = (putFor k z y ++ [eof]).head? := by
    intro w y h
    have := putFor_head (k := k) hzne h
    rwa [putFor_append, putFor_append, putFor_plain (a := [eof]) (by simp [hek.symm])] at this
  intro α β w γ δ x y A1 A2 i j H1 H2 H3 H4 H5 H6 h7 H8 h9
  have h2 := terminals_withAlt.mp H2
  have h5 := terminals_withAlt.mp H5
  have h8 := terminals_withAlt.mp H8
  obtain ⟨ha, h1⟩ := form H1 (fun h => H3.not_terminal (terminal_withAlt.mpr h))
  obtain ⟨hc, h4⟩ := form H4 (fun h => H6.not_terminal (terminal_withAlt.mpr h))
  clear H1 H2 H4 H5 H8
  have hw' := putFor_terminals (k := k) hzt h2
  have hx' := putFor_terminals (k := k) hzt h5
  have hy' := putFor_terminals (k := k) hzt h8
  have h9' := hend h9
  rcases isProd_withAlt.mp H3 with h3 | ⟨rfl, rfl, bs, hbs, rfl⟩ <;>
    rcases isProd_withAlt.mp H6 with h6 | ⟨rfl, rfl, bs', hbs', rfl⟩
  · have h7' := congrArg (putFor k z) h7
    simp only [putFor_append] at h7'
    rw [putFor_plain hc, putFor_plain ha, putFor_plain (hk.2 _ _ _ h3), putFor_plain (hk.2 _ _ _ h6)] at h7'
    obtain ⟨rfl, rfl, rfl, _⟩ := hlr _ _ _ _ _ _ _ _ _ _ _ h1 hw' h3 h4 hx' h6 h7' hy' h9'
    obtain rfl := h3.unique h6
    exact ⟨rfl, rfl, rfl, List.append_cancel_left h7⟩
  · -- `k` appears in `y`
    exfalso
    have hαβ : k ∉ α ++ β := by simp [ha, hk.2 _ _ _ h3]
    have hky : k ∈ y := by
      have : k ∈ α ++ β ++ y := by rw [← h7]; simp
      exact (List.mem_append.mp this).resolve_left hαβ
    obtain ⟨y0, y1, rfl, hy0⟩ := first_split hky
    obtain ⟨e1, rfl⟩ := first_eq (a := γ) (b := x) (c := α ++ β ++ y0) (d := y1) hc
      (by simp only [List.mem_append, not_or] at hαβ ⊢; exact ⟨hαβ, hy0⟩) (by simpa using h7)
    have h10 : RDerives D [S] ((γ ++ p) ++ Y :: (q ++ putFor k z x)) := by
      refine h4.trans ?_
      simpa using hz0.ctx γ hx'
    have ey : putFor k z (y0 ++ k :: x) = y0 ++ z ++ putFor k z x := by
      have := putFor_append k z (y0 ++ [k]) x
      rw [putFor_append k z y0 [k], putFor_self, putFor_plain hy0] at this
      simpa using this
    rw [ey] at hy' h9'
    obtain ⟨e2, _⟩ := hlr _ _ _ _ _ _ _ _ _ _ _ h1 hw' h3 h10 (terminals_append.mpr ⟨hq, hx'⟩) hm
      (by rw [e1, hzz]; simp) hy' h9'
    have := congrArg List.length e2
    rw [e1] at this
    simp only [List.length_append] at this
    exact hn _ _ _ h3 (List.eq_nil_of_length_eq_zero (by omega))
  · exfalso
    have hγδ : k ∉ γ ++ δ := by simp [hc, hk.2 _ _ _ h6]
    have hkx : k ∈ x := by
      have : k ∈ γ ++ δ ++ x := by rw [h7]; simp
      exact (List.mem_append.mp this).resolve_left hγδ
    obtain ⟨x0, x1, rfl, hx0⟩ := first_split hkx
    obtain ⟨e1, rfl⟩ := first_eq (a := α) (b := y) (c := γ ++ δ ++ x0) (d := x1) ha
      (by simp only [List.mem_append, not_or] at hγδ ⊢; exact ⟨hγδ, hx0⟩) (by simpa using h7.symm)
    have h10 : RDerives D [S] ((α ++ p) ++ Y :: (q ++ putFor k z w)) := by
      refine h1.trans ?_
      simpa using hz0.ctx α hw'
    have ex : putFor k z (x0 ++ k :: y) = x0 ++ z ++ putFor k z y := by
      have := putFor_append k z (x0 ++ [k]) y
      rw [putFor_append k z x0 [k], putFor_self, putFor_plain hx0] at this
      simpa using this
    rw [ex] at hx' h4
    obtain ⟨hx1, _⟩ := terminals_append.mp hx'
    obtain ⟨_, _, _, e2⟩ := hlr _ _ _ _ _ _ (x0 ++ z ++ putFor k z w) _ _ _ _ h4 hx' h6 h10
      (terminals_append.mpr ⟨hq, hw'⟩) hm
      (by rw [e1, hzz]; simp) (terminals_append.mpr ⟨hx1, hw'⟩)
      (by
        have : x0 ++ z ≠ [] := by simp [hzne]
        cases h : x0 ++ z with
        | nil => exact absurd h this
        | cons c l => rfl)
    have := congrArg List.length e2
    rw [hzz] at this
    have hb := List.length_pos_iff.mpr hb
    simp only [List.length_append] at this
    omega
  · obtain ⟨e1, e2⟩ := first_eq (a := γ) (c := α) (b := x) (d := y) hc ha (by simpa using h7)
    exact ⟨e1, rfl, by rw [hbs.unique hbs'], e2⟩

end

/-! ### Contracting brackets -/

/-- The text with every outermost bracket, closed or not, contracted to `k`, read at depth `n`. -/
def contract (k e : T) : Nat → List T → List T
  | _, [] => []
  | 0, c :: r => c :: contract k e (if c = k then 1 else 0) r
  | n + 1, c :: r => contract k e (if c = k then n + 2 else if c = e then n else n + 1) r

/-- The depth after the text, if it closes nothing that is not open. -/
def depth (k e : T) : Nat → List T → Option Nat
  | n, [] => some n
  | n, c :: r =>
    if c = k then depth k e (n + 1) r
    else if c = e then match n with
      | 0 => none
      | n + 1 => depth k e n r
    else depth k e n r

theorem depth_append (k e : T) : ∀ (a b : List T) (n : Nat),
    depth k e n (a ++ b) = (depth k e n a).bind fun m => depth k e m b
  | [], b, n => rfl
  | c :: a, b, n => by
    simp only [List.cons_append, depth]
    split
    · exact depth_append k e a b _
    · split
      · cases n with
        | zero => rfl
        | succ n => exact depth_append k e a b _
      · exact depth_append k e a b _

theorem depth_plain {k e : T} : ∀ {a : List T} {n : Nat}, k ∉ a → e ∉ a → depth k e n a = some n
  | [], _, _, _ => rfl
  | c :: a, n, hk, he => by
    have h1 : c ≠ k := fun h => hk (by simp [h])
    have h2 : c ≠ e := fun h => he (by simp [h])
    simp only [depth, if_neg h1, if_neg h2]
    exact depth_plain (fun h => hk (by simp [h])) (fun h => he (by simp [h]))

/-- Without a closing bracket, depth stays the same only if none is opened. -/
theorem depth_open {k e : T} : ∀ {a : List T} {n m : Nat}, e ∉ a → depth k e n a = some m → n ≤ m ∧ (k ∈ a → n < m)
  | [], n, m, _, h => by
    cases h
    simp
  | c :: a, n, m, he, h => by
    have h2 : c ≠ e := fun h => he (by simp [h])
    have he' : e ∉ a := fun h => he (by simp [h])
    simp only [depth, if_neg h2] at h
    split at h
    · have := (depth_open he' h).1
      exact ⟨by omega, fun _ => by omega⟩
    · next hc =>
      have := depth_open he' h
      refine ⟨this.1, fun hk => this.2 ((List.mem_cons.mp hk).resolve_left fun h => hc h.symm)⟩

theorem contract_append {k e : T} : ∀ {a : List T} (b : List T) {n m : Nat}, depth k e n a = some m →
    contract k e n (a ++ b) = contract k e n a ++ contract k e m b
  | [], b, n, m, h => by
    cases h
    cases n <;> rfl
  | c :: a, b, 0, m, h => by
    simp only [depth] at h
    simp only [List.cons_append, contract]
    split at h
    · next hc => rw [if_pos hc, contract_append b h]
    · next hc =>
      split at h
      · cases h
      · rw [if_neg hc, contract_append b h]
  | c :: a, b, n + 1, m, h => by
    simp only [depth] at h
    simp only [List.cons_append, contract]
    split at h
    · next hc => rw [if_pos hc, contract_append b h]
    · next hc =>
      split at h
      · next hc' => rw [if_neg hc, if_pos hc', contract_append b h]
      · next hc' => rw [if_neg hc, if_neg hc', contract_append b h]

theorem contract_plain {k e : T} : ∀ {a : List T}, k ∉ a → contract k e 0 a = a
  | [], _ => rfl
  | c :: a, hk => by
    have h1 : c ≠ k := fun h => hk (by simp [h])
    simp only [contract, if_neg h1]
    rw [contract_plain fun h => hk (by simp [h])]

theorem contract_inside {k e : T} : ∀ {a : List T} {n : Nat}, k ∉ a → e ∉ a → contract k e (n + 1) a = []
  | [], _, _, _ => rfl
  | c :: a, n, hk, he => by
    have h1 : c ≠ k := fun h => hk (by simp [h])
    have h2 : c ≠ e := fun h => he (by simp [h])
    simp only [contract, if_neg h1, if_neg h2]
    exact contract_inside (fun h => hk (by simp [h])) (fun h => he (by simp [h]))

theorem contract_mem {k e : T} : ∀ {a : List T} {n : Nat} {x : T}, x ∈ contract k e n a → x ∈ a
  | [], n, x, h => by cases n <;> cases h
  | c :: a, 0, x, h => by
    simp only [contract, List.mem_cons] at h ⊢
    exact h.imp id fun h => contract_mem h
  | c :: a, n + 1, x, h => by
    simp only [contract] at h
    exact List.mem_cons_of_mem _ (contract_mem h)

theorem contract_head {k e end' : T} : ∀ {w y : List T}, (w ++ [end']).head? = (y ++ [end']).head? →
    (contract k e 0 w ++ [end']).head? = (contract k e 0 y ++ [end']).head?
  | [], [], _ => rfl
  | [], _ :: _, h => by simpa [contract] using h
  | _ :: _, [], h => by simpa [contract] using h
  | _ :: _, _ :: _, h => by simpa [contract] using h

theorem depth_deeper {k e : T} : ∀ {a : List T} {n m : Nat}, depth k e n a = some m →
    depth k e (n + 1) a = some (m + 1)
  | [], n, m, h => by cases h; rfl
  | c :: a, n, m, h => by
    simp only [depth] at h ⊢
    split at h
    · next hc => rw [if_pos hc]; exact depth_deeper h
    · next hc =>
      rw [if_neg hc]
      split at h
      · next hc' =>
        rw [if_pos hc']
        cases n with
        | zero => cases h
        | succ n => exact depth_deeper h
      · next hc' => rw [if_neg hc']; exact depth_deeper h

theorem contract_inside_form {k e : T} : ∀ {a : List T} {n m : Nat}, depth k e n a = some m →
    contract k e (n + 1) a = []
  | [], n, m, h => rfl
  | c :: a, n, m, h => by
    simp only [depth] at h
    simp only [contract]
    split at h
    · next hc => rw [if_pos hc]; exact contract_inside_form h
    · next hc =>
      rw [if_neg hc]
      split at h
      · next hc' =>
        rw [if_pos hc']
        cases n with
        | zero => cases h
        | succ n => exact contract_inside_form h
      · next hc' => rw [if_neg hc']; exact contract_inside_form h

section
variable {D : Decls T} {A B k e : T}

/-- What is asked of the brackets. -/
structure Brackets (D : Decls T) (A B k e : T) : Prop where
  hk : Fresh D k
  he : Fresh D e
  ne : k ≠ e
  hA : Nonterminal D A
  hB : Nonterminal D B
  noEmpty : NoEmpty D

theorem Brackets.ne_k (h : Brackets D A B k e) {X : T} (hX : ¬ Terminal D X) : X ≠ k := by
  rintro rfl; exact hX h.hk.1

theorem Brackets.ne_e (h : Brackets D A B k e) {X : T} (hX : ¬ Terminal D X) : X ≠ e := by
  rintro rfl; exact hX h.he.1

theorem Brackets.B' (h : Brackets D A B k e) : ¬ Terminal D B := not_terminal_iff.mpr h.hB

theorem Brackets.depth_body (h : Brackets D A B k e) {Y : T} {i : Nat} {b : List T}
    (hp : IsProd (WithAlt D A [k, B, e]) Y i b) (n : Nat) : depth k e n b = some n := by
  rcases isProd_withAlt.mp hp with hp | ⟨_, rfl, _⟩
  · exact depth_plain (h.hk.2 _ _ _ hp) (h.he.2 _ _ _ hp)
  · simp [depth, h.ne_k h.B', h.ne_e h.B', h.ne.symm]

theorem Brackets.depth_one (h : Brackets D A B k e) {X : T} (hX : ¬ Terminal D X) (n : Nat) :
    depth k e n [X] = some n :=
  depth_plain (by simp [(h.ne_k hX).symm]) (by simp [(h.ne_e hX).symm])

/-- Brackets are balanced in every sentential form. -/
theorem Brackets.depth_form (h : Brackets D A B k e) {X : T} (hX : ¬ Terminal D X) {φ : List T}
    (hd : RDerives (WithAlt D A [k, B, e]) [X] φ) : depth k e 0 φ = some 0 := by
  induction hd with
  | refl => exact h.depth_one hX 0
  | tail _ st ih =>
    cases st with
    | @mk u v Y i b hp hv =>
      have hY : ¬ Terminal D Y := fun h => hp.not_terminal (terminal_withAlt.mpr h)
      rw [show u ++ Y :: v = u ++ [Y] ++ v by simp] at ih
      rw [depth_append, depth_append] at ih ⊢
      rw [← ih]
      congr 1
      cases depth k e 0 u with
      | none => rfl
      | some m =>
        show depth k e m b = depth k e m [Y]
        rw [h.depth_body hp, h.depth_one hY]

/-- No bracket is closed before the last nonterminal. -/
theorem Brackets.not_closed (h : Brackets D A B k e) {X : T} {α w : List T} {Z : T}
    (hd : RDerives (WithAlt D A [k, B, e]) [X] (α ++ Z :: w)) (hZ : ¬ Terminal D Z) : e ∉ α := by
  refine left_of_nonterminal ?_ hd α Z w rfl fun h => hZ (terminal_withAlt.mp h)
  intro Y i b hp s Z r hb hZ hs
  have hZ : ¬ Terminal D Z := fun h => hZ (terminal_withAlt.mpr h)
  rcases isProd_withAlt.mp hp with hp | ⟨_, rfl, _⟩
  · exact h.he.2 _ _ _ hp (by rw [hb]; simp [hs])
  · match s, hb, hs with
    | [c], hb, hs => simp at hb hs; exact h.ne (hb.1.trans hs.symm)
    | [c, d], hb, hs =>
      simp at hb
      exact h.ne_e hZ hb.2.2.1.symm
    | c :: d :: d' :: s, hb, hs => simp at hb

theorem contract_terminals {n : Nat} {w : List T} (h : Terminals D w) : Terminals D (contract k e n w) :=
  fun x hx => h x (contract_mem hx)

/-- The contracted form is a form of the grammar with `k` as the alternative. -/
theorem Brackets.form (h : Brackets D A B k e) {X : T} (hX : ¬ Terminal D X) {φ : List T}
    (hd : RDerives (WithAlt D A [k, B, e]) [X] φ) : RDerives (WithAlt D A [k]) [X] (contract k e 0 φ) := by
  induction hd with
  | refl => rw [contract_plain (by simp [(h.ne_k hX).symm])]; exact .refl
  | tail hd st ih =>
    cases st with
    | @mk u v Y i b hp hv =>
      have hY : ¬ Terminal D Y := fun h => hp.not_terminal (terminal_withAlt.mpr h)
      have hdep := h.depth_form hX hd
      rw [depth_append] at hdep
      rw [show u ++ Y :: v = u ++ ([Y] ++ v) by simp] at ih
      rw [show u ++ b ++ v = u ++ (b ++ v) by simp]
      cases hu : depth k e 0 u with
      | none => rw [hu] at hdep; cases hdep
      | some m =>
        rw [contract_append _ hu, contract_append _ (h.depth_one hY m)] at ih
        rw [contract_append _ hu, contract_append _ (h.depth_body hp m)]
        cases m with
        | zero =>
          rw [contract_plain (a := [Y]) (by simp [(h.ne_k hY).symm])] at ih
          have hv' : Terminals (WithAlt D A [k]) (contract k e 0 v) :=
            terminals_withAlt.mpr (contract_terminals (terminals_withAlt.mp hv))
          rcases isProd_withAlt.mp hp with hp | ⟨rfl, rfl, hbs⟩
          · rw [contract_plain (a := b) (h.hk.2 _ _ _ hp)]
            simpa using RDerives.tail ih (.mk _ _ (isProd_withAlt.mpr (.inl hp)) hv')
          · have : contract k e 0 [k, B, e] = [k] := by
              simp [contract, h.ne_k h.B', h.ne_e h.B']
            rw [this]
            simpa using RDerives.tail ih (.mk _ _ (isProd_withAlt.mpr (.inr ⟨rfl, rfl, hbs⟩)) hv')
        | succ m =>
          rw [contract_inside (a := [Y]) (by simp [(h.ne_k hY).symm]) (by simp [(h.ne_e hY).symm])] at ih
          have : contract k e (m + 1) b = [] := by
            rcases isProd_withAlt.mp hp with hp | ⟨_, rfl, _⟩
            · exact contract_inside (h.hk.2 _ _ _ hp) (h.he.2 _ _ _ hp)
            · simp [contract, h.ne_k h.B', h.ne_e h.B']
          rw [this]
          exact ih

/-- A form whose last nonterminal is between brackets. -/
theorem Brackets.opened (h : Brackets D A B k e) {X : T} (hX : ¬ Terminal D X) {φ : List T}
    (hd : RDerives (WithAlt D A [k, B, e]) [X] φ) : ∀ {α w : List T} {Z : T}, φ = α ++ Z :: w → ¬ Terminal D Z →
    k ∈ α → ∃ α₀ α₁ w₁ v, α = α₀ ++ k :: α₁ ∧ w = w₁ ++ e :: v ∧ k ∉ α₀ ∧ Terminals D v ∧
      RDerives (WithAlt D A [k, B, e]) [B] (α₁ ++ Z :: w₁) ∧
      RDerives (WithAlt D A [k]) [X] (α₀ ++ A :: contract k e 0 v) := by
  induction hd with
  | refl =>
    intro α w Z he _ hk
    cases α with
    | nil => cases hk
    | cons c α => simp at he
  | tail hd st ih =>
    cases st with
    | @mk u v Y i b hp hv =>
      intro α w Z he hZ hk
      have hY : ¬ Terminal D Y := fun h => hp.not_terminal (terminal_withAlt.mpr h)
      have hv0 := terminals_withAlt.mp hv
      by_cases hku : k ∈ u
      · obtain ⟨u0, u1, v1, v2, rfl, rfl, hu0, hv2, hB, hf⟩ := ih rfl hY hku
        obtain ⟨α0, α1, rfl, hα0⟩ := first_split hk
        obtain ⟨rfl, e2⟩ := first_eq (a := u0) (c := α0) (b := u1 ++ b ++ (v1 ++ e :: v2)) (d := α1 ++ Z :: w)
          hu0 hα0 (by simpa using he)
        have hev : Terminals D (e :: v2) := terminals_cons.mpr ⟨h.he.1, hv2⟩
        obtain ⟨w1, e3, e4⟩ := last_split hZ hev (p := u1 ++ b ++ v1) (by rw [← e2]; simp)
        refine ⟨u0, α1, w1, v2, rfl, e3, hu0, hv2, ?_, hf⟩
        rw [← e4]
        exact .tail hB (.mk _ _ hp (terminals_append.mp hv).1)
      · obtain ⟨w1, e3, e4⟩ := last_split hZ hv0 he.symm
        rcases isProd_withAlt.mp hp with hp' | ⟨rfl, rfl, _⟩
        · exfalso
          have : k ∈ u ++ b := by rw [e4]; simp [hk]
          simp [hku, h.hk.2 _ _ _ hp'] at this
        · obtain ⟨α0, α1, rfl, hα0⟩ := first_split hk
          obtain ⟨rfl, e5⟩ := first_eq (a := u) (c := α0) (b := [B, e]) (d := α1 ++ Z :: w1) hku hα0
            (by simpa using e4)
          have hZe := h.ne_e hZ
          obtain ⟨rfl, rfl, rfl⟩ : α1 = [] ∧ Z = B ∧ w1 = [e] := by
            match α1, e5 with
            | [], e5 => simp at e5; exact ⟨rfl, e5.1.symm, e5.2.symm⟩
            | [c], e5 => simp at e5; exact absurd e5.2.1.symm hZe
            | c :: d :: l, e5 => simp at e5
          refine ⟨u, [], [], v, rfl, by rw [e3]; rfl, hku, hv0, .refl, ?_⟩
          have hf := h.form hX hd
          have hpl : depth k e 0 u = some 0 :=
            depth_plain hku (h.not_closed hd hY)
          rw [show u ++ Y :: v = u ++ ([Y] ++ v) by simp, contract_append _ hpl,
            contract_append _ (h.depth_one hY 0), contract_plain hku,
            contract_plain (a := [Y]) (by simp [(h.ne_k hY).symm])] at hf
          exact hf

theorem Brackets.noEmpty' (h : Brackets D A B k e) : NoEmpty (WithAlt D A [k, B, e]) := by
  intro Y i b hp
  rcases isProd_withAlt.mp hp with hp | ⟨_, rfl, _⟩
  · exact h.noEmpty _ _ _ hp
  · simp

/-- A derivation that puts no bracket is one of the old grammar. -/
theorem Brackets.derives_plain (h : Brackets D A B k e) {a b : List T}
    (hd : Derives (WithAlt D A [k, B, e]) a b) : k ∉ b → k ∉ a ∧ Derives D a b := by
  induction hd with
  | refl => exact fun hb => ⟨hb, .refl _⟩
  | head st _ ih =>
    intro hb
    obtain ⟨h1, h2⟩ := ih hb
    cases st with
    | @mk u v Y i b hp =>
      simp only [List.mem_append, not_or] at h1
      rcases isProd_withAlt.mp hp with hq | ⟨_, rfl, _⟩
      · have hY : Y ≠ k := h.ne_k hq.not_terminal
        exact ⟨by simp [h1.1.1, h1.2, hY.symm], .head (Step.mk u v hq) h2⟩
      · exact absurd (by simp) h1.1.2

theorem Brackets.no_cycle (h : Brackets D A B k e) (hs : ¬ SelfDeriving D B) {Y : T} {j : Nat}
    (hd : RDerives (WithAlt D A [k, B, e]) [B] [Y]) (hp : IsProd (WithAlt D A [k, B, e]) Y j [B]) : False := by
  have hBk := h.ne_k h.B'
  have hq : IsProd D Y j [B] := by
    rcases isProd_withAlt.mp hp with hp | ⟨_, hb, _⟩
    · exact hp
    · simp at hb
  have hYk : Y ≠ k := h.ne_k hq.not_terminal
  have hd := (h.derives_plain hd.derives (by simp [hYk.symm])).2
  refine hs ?_
  have st : Step D [Y] [B] := by simpa using Step.mk [] [] hq
  cases hd with
  | refl => exact ⟨_, st, .refl _⟩
  | head s0 hd => exact ⟨_, s0, hd.trans (.head st (.refl _))⟩

theorem head_before {e e' : T} {w v y v' : List T}
    (h : (w ++ e :: v ++ [e']).head? = (y ++ e :: v' ++ [e']).head?) : (w ++ [e]).head? = (y ++ [e]).head? := by
  cases w <;> cases y <;> simp at h ⊢ <;> exact h

/-- An alternative between fresh brackets keeps a grammar LR(1). -/
theorem Brackets.lr1 (h : Brackets D A B k e) (hs : ¬ SelfDeriving D B) (hB : LR1 (WithAlt D A [k]) B e) :
    ∀ (n : Nat) {X end' : T}, ¬ Terminal D X → LR1 (WithAlt D A [k]) X end' →
    ∀ (α β w γ δ x y : List T) (Z Z' : T) (i j : Nat), α.length ≤ n →
      RDerives (WithAlt D A [k, B, e]) [X] (α ++ Z :: w) → Terminals D w → IsProd (WithAlt D A [k, B, e]) Z i β →
      RDerives (WithAlt D A [k, B, e]) [X] (γ ++ Z' :: x) → Terminals D x → IsProd (WithAlt D A [k, B, e]) Z' j δ →
      γ ++ δ ++ x = α ++ β ++ y → Terminals D y → (w ++ [end']).head? = (y ++ [end']).head? →
      γ = α ∧ Z' = Z ∧ j = i ∧ x = y := by
  intro n
  induction n using Nat.strongRecOn with
  | _ n ih =>
  intro X end' hX hlr α β w γ δ x y Z Z' i j hlen h1 h2 h3 h4 h5 h6 h7 h8 h9
  have hZ : ¬ Terminal D Z := fun h => h3.not_terminal (terminal_withAlt.mpr h)
  have hZ' : ¬ Terminal D Z' := fun h => h6.not_terminal (terminal_withAlt.mpr h)
  -- images of the steps
  have img : ∀ {Y : T} {i : Nat} {b : List T}, IsProd (WithAlt D A [k, B, e]) Y i b →
      IsProd (WithAlt D A [k]) Y i (contract k e 0 b) := by
    intro Y i b hp
    rcases isProd_withAlt.mp hp with hp | ⟨rfl, rfl, hb⟩
    · rw [contract_plain (h.hk.2 _ _ _ hp)]
      exact isProd_withAlt.mpr (.inl hp)
    · refine isProd_withAlt.mpr (.inr ⟨rfl, ?_, hb⟩)
      simp [contract, h.ne_k h.B', h.ne_e h.B']
  have form : ∀ {α w : List T} {Z : T}, RDerives (WithAlt D A [k, B, e]) [X] (α ++ Z :: w) → ¬ Terminal D Z →
      k ∉ α → depth k e 0 α = some 0 ∧ RDerives (WithAlt D A [k]) [X] (α ++ Z :: contract k e 0 w) := by
    intro α w Z hd hZ hk
    have hpl : depth k e 0 α = some 0 := depth_plain hk (h.not_closed hd hZ)
    have hf := h.form hX hd
    rw [show α ++ Z :: w = α ++ ([Z] ++ w) by simp, contract_append _ hpl, contract_append _ (h.depth_one hZ 0),
      contract_plain hk, contract_plain (a := [Z]) (by simp [(h.ne_k hZ).symm])] at hf
    exact ⟨hpl, hf⟩
  have term : ∀ {w : List T}, Terminals D w → Terminals (WithAlt D A [k]) (contract k e 0 w) :=
    fun h => terminals_withAlt.mpr (contract_terminals h)
  have hZZ : ∀ {Y : T} {i : Nat} {b : List T}, IsProd (WithAlt D A [k, B, e]) Y i b → b ≠ [] :=
    fun hp => h.noEmpty' _ _ _ hp
  obtain ⟨bs, hbs⟩ : ∃ bs, Declared D A bs := declared_of_nonterminal h.hA
  have hkp : IsProd (WithAlt D A [k]) A bs.length [k] := isProd_withAlt.mpr (.inr ⟨rfl, rfl, bs, hbs, rfl⟩)
  have hkp' : IsProd (WithAlt D A [k, B, e]) A bs.length [k, B, e] :=
    isProd_withAlt.mpr (.inr ⟨rfl, rfl, bs, hbs, rfl⟩)
  by_cases hk1 : k ∈ α
  · obtain ⟨α0, α1, w1, v, rfl, rfl, hα0, hv, hin, hout⟩ := h.opened hX h1 rfl hZ hk1
    by_cases hk2 : k ∈ γ
    · -- both inside
      obtain ⟨γ0, γ1, x1, v', rfl, rfl, hγ0, hv', hin', hout'⟩ := h.opened hX h4 rfl hZ' hk2
      obtain ⟨rfl, e1⟩ := first_eq (a := γ0) (c := α0) (b := γ1 ++ δ ++ (x1 ++ e :: v')) (d := α1 ++ β ++ y)
        hγ0 hα0 (by simpa using h7)
      have d1 := h.depth_form h.B' (RDerives.tail hin (.mk _ _ h3 (terminals_withAlt.mpr (terminals_append.mp h2).1)))
      have d2 := h.depth_form h.B'
        (RDerives.tail hin' (.mk _ _ h6 (terminals_withAlt.mpr (terminals_append.mp h5).1)))
      obtain ⟨y1, rfl, e2⟩ : ∃ y1, y = y1 ++ e :: v' ∧ γ1 ++ δ ++ x1 = α1 ++ β ++ y1 := by
        rcases List.append_eq_append_iff.mp
          (show (γ1 ++ δ ++ x1) ++ e :: v' = (α1 ++ β) ++ y by rw [← e1]; simp) with ⟨a, k1, k2⟩ | ⟨a, k1, k2⟩
        · cases a with
          | nil => exact ⟨[], by simpa using k2.symm, by simpa using k1.symm⟩
          | cons c a =>
            exfalso
            obtain ⟨rfl, -⟩ := List.cons.inj k2
            rw [k1, show (γ1 ++ δ ++ x1) ++ e :: a ++ w1 = (γ1 ++ δ ++ x1) ++ (e :: (a ++ w1)) by simp,
              depth_append, d2] at d1
            simp [depth, h.ne.symm] at d1
        · exact ⟨a, k2, by rw [k1]⟩
      obtain ⟨rfl, rfl, rfl, rfl⟩ := ih α1.length (by simp at hlen; omega) h.B' hB α1 β w1 γ1 δ x1 y1 Z Z' i j
        (Nat.le_refl _) hin (terminals_append.mp h2).1 h3 hin' (terminals_append.mp h5).1 h6 e2
        (terminals_append.mp h8).1 (head_before h9)
      exact ⟨rfl, rfl, rfl, rfl⟩
    · -- the first inside, the second not
      exfalso
      obtain ⟨hd, h4'⟩ := form h4 hZ' hk2
      rcases isProd_withAlt.mp h6 with h6' | ⟨rfl, rfl, _⟩
      · have hkx : k ∉ γ ++ δ := by simp [hk2, h.hk.2 _ _ _ h6']
        have : k ∈ x := by
          have : k ∈ γ ++ δ ++ x := by rw [h7]; simp
          exact (List.mem_append.mp this).resolve_left hkx
        obtain ⟨x0, x2, rfl, hx0⟩ := first_split this
        obtain ⟨e1, e2⟩ := first_eq (a := γ ++ δ ++ x0) (c := α0) (b := x2) (d := α1 ++ β ++ y)
          (by simp only [List.mem_append, not_or] at hkx ⊢; exact ⟨hkx, hx0⟩) hα0 (by simpa using h7)
        have hx := term h5
        have hx' : ∃ r, contract k e 0 (x0 ++ k :: x2) = x0 ++ k :: r := by
          have hex : e ∉ x0 := by
            have := h.not_closed (X := X) h1 hZ
            rw [← e1] at this
            exact fun hx => this (by simp [hx])
          refine ⟨contract k e 1 x2, ?_⟩
          rw [contract_append _ (depth_plain hx0 hex), contract_plain hx0]
          simp [contract]
        obtain ⟨r, hr⟩ := hx'
        rw [hr] at h4' hx
        obtain ⟨_, _, _, e3⟩ := hlr γ δ (x0 ++ k :: r) α0 [k] (contract k e 0 v) (x0 ++ k :: contract k e 0 v) Z' A j
          bs.length h4' hx (isProd_withAlt.mpr (.inl h6')) hout (term hv) hkp (by rw [← e1]; simp)
          (terminals_append.mpr ⟨(terminals_append.mp hx).1,
            terminals_cons.mpr ⟨terminal_withAlt.mpr h.hk.1, term hv⟩⟩)
          (by cases x0 <;> rfl)
        have := congrArg List.length e3
        simp at this
        omega
      · obtain ⟨rfl, e1⟩ := first_eq (a := γ) (c := α0) (b := B :: e :: x) (d := α1 ++ β ++ y) hk2 hα0
          (by simpa using h7)
        have hee : e ∉ γ ++ k :: α1 := h.not_closed h1 hZ
        have hbe : ∀ l, β ≠ e :: l := by
          rintro l rfl
          rcases isProd_withAlt.mp h3 with h3' | ⟨_, hb, _⟩
          · exact h.he.2 _ _ _ h3' (by simp)
          · exact h.ne (List.cons.inj hb).1.symm
        have hb2 : β ≠ [] := hZZ h3
        match α1, e1 with
        | [], e1 =>
          match β, hb2, e1 with
          | [b], _, e1 =>
            simp at e1
            obtain ⟨rfl, rfl⟩ := e1
            have d1 := h.depth_form h.B'
              (RDerives.tail hin (.mk _ _ h3 (terminals_withAlt.mpr (terminals_append.mp h2).1)))
            cases w1 with
            | nil => exact h.no_cycle hs hin h3
            | cons c w1 =>
              simp at h9
              subst h9
              simp [depth, h.ne_k h.B', h.ne_e h.B', h.ne.symm] at d1
          | b :: c :: l, _, e1 =>
            simp at e1
            obtain ⟨rfl, rfl, _⟩ := e1
            rcases isProd_withAlt.mp h3 with h3' | ⟨_, hb, _⟩
            · exact h.he.2 _ _ _ h3' (by simp)
            · exact h.ne_k h.B' (List.cons.inj hb).1
        | [a], e1 =>
          match β, hb2, e1 with
          | b :: l, _, e1 =>
            simp at e1
            exact hbe l (by rw [e1.2.1])
        | a :: a' :: l, e1 =>
          simp at e1
          exact hee (by simp [e1.2.1])
  · by_cases hk2 : k ∈ γ
    · -- the second inside, the first not
      exfalso
      obtain ⟨γ0, γ1, x1, v', rfl, rfl, hγ0, hv', hin', hout'⟩ := h.opened hX h4 rfl hZ' hk2
      obtain ⟨hd, h1'⟩ := form h1 hZ hk1
      have d2 := h.depth_form h.B'
        (RDerives.tail hin' (.mk _ _ h6 (terminals_withAlt.mpr (terminals_append.mp h5).1)))
      have hγe : e ∉ γ0 := fun hx => h.not_closed h4 hZ' (by simp [hx])
      have e1 : contract k e 0 (α ++ β ++ y) = α ++ contract k e 0 β ++ contract k e 0 y := by
        rw [List.append_assoc, contract_append _ hd, contract_append _ (h.depth_body h3 0), contract_plain hk1]
        simp
      have e2 : contract k e 0 (γ0 ++ k :: γ1 ++ δ ++ (x1 ++ e :: v')) = γ0 ++ [k] ++ contract k e 0 v' := by
        rw [show γ0 ++ k :: γ1 ++ δ ++ (x1 ++ e :: v') = γ0 ++ (k :: ((γ1 ++ δ ++ x1) ++ e :: v')) by simp,
          contract_append _ (depth_plain hγ0 hγe), contract_plain hγ0]
        have := contract_inside_form d2
        show γ0 ++ k :: contract k e (if k = k then 1 else 0) ((γ1 ++ δ ++ x1) ++ e :: v') = _
        rw [if_pos rfl, contract_append _ (depth_deeper d2), this]
        simp [contract, h.ne.symm]
      have e3 := h7 ▸ e2
      rw [e1] at e3
      obtain ⟨rfl, rfl, hji, _⟩ := hlr α _ _ γ0 [k] _ _ Z A i bs.length h1' (term h2) (img h3) hout' (term hv') hkp
        e3.symm (term h8) (contract_head h9)
      subst hji
      obtain rfl := h3.unique hkp'
      have e4 : γ1 ++ δ ++ x1 ++ e :: v' = B :: e :: y := by simpa using h7
      match hc : γ1 ++ δ ++ x1, e4 with
      | [], e4 => simp at hc; exact hZZ h6 hc.2.1
      | [b], e4 =>
        simp at e4
        obtain ⟨rfl, _⟩ := e4
        have hl := congrArg List.length hc
        have hl' := List.length_pos_iff.mpr (hZZ h6)
        simp only [List.length_append, List.length_singleton] at hl
        obtain rfl := List.eq_nil_of_length_eq_zero (show γ1.length = 0 by omega)
        obtain rfl := List.eq_nil_of_length_eq_zero (show x1.length = 0 by omega)
        simp at hc
        subst hc
        exact h.no_cycle hs hin' h6
      | b :: c :: l, e4 =>
        simp at e4
        obtain ⟨rfl, rfl, _⟩ := e4
        rw [hc] at d2
        simp [depth, h.ne_k h.B', h.ne_e h.B', h.ne.symm] at d2
    · -- both outside
      obtain ⟨hd1, h1'⟩ := form h1 hZ hk1
      obtain ⟨hd2, h4'⟩ := form h4 hZ' hk2
      have h7' := congrArg (contract k e 0) h7
      rw [List.append_assoc, List.append_assoc, contract_append _ hd1, contract_append _ (h.depth_body h3 0),
        contract_append _ hd2, contract_append _ (h.depth_body h6 0), contract_plain hk1, contract_plain hk2] at h7'
      obtain ⟨rfl, rfl, rfl, _⟩ := hlr α _ _ γ _ _ _ Z Z' i j h1' (term h2) (img h3) h4' (term h5) (img h6)
        (by simpa using h7') (term h8) (contract_head h9)
      obtain rfl := h3.unique h6
      exact ⟨rfl, rfl, rfl, List.append_cancel_left h7⟩

end

section
variable {D : Decls T} {A B S eof k e : T}

/-- The same said of the start. -/
theorem lr1_brackets (h : Brackets D A B k e) (hS : Nonterminal D S) (hS' : InNoBody D S) (hpr : AllProductive D)
    (hB : Reachable D S B) (hek : eof ≠ k) (hlr : LR1 D S eof) : LR1 (WithAlt D A [k, B, e]) S eof := by
  have hSt := not_terminal_iff.mpr hS
  obtain ⟨μ, ν, hd, hν⟩ := rderives_reachable hpr hB
  have h1 := lr1_fresh h.noEmpty h.hk (h.ne_k hSt) hek h.hA (hpr A h.hA) hlr
  have h2 := lr1_fresh h.noEmpty h.hk (h.ne_k h.B') h.ne.symm h.hA (hpr A h.hA)
    (lr1_below hlr hd hν h.he.2 (h.ne_e h.B'))
  have hs := lr1_not_self hlr h.noEmpty hS' hd hν
  intro α β w γ δ x y Z Z' i j k1 k2 k3 k4 k5 k6 k7 k8 k9
  exact h.lr1 hs h2 α.length hSt h1 α β w γ δ x y Z Z' i j (Nat.le_refl _) k1 (terminals_withAlt.mp k2) k3 k4
    (terminals_withAlt.mp k5) k6 k7 (terminals_withAlt.mp k8) k9

/-- Between terminals nothing is added to the graphs. -/
theorem leftGraph_withAlt {c : T} {r : List T} (hc : Terminal D c) {X Y : T} :
    LeftGraph (WithAlt D A (c :: r)) X Y ↔ LeftGraph D X Y := by
  unfold LeftGraph
  rw [nonterminal_withAlt]
  refine and_congr_right fun hY => ⟨?_, ?_⟩
  · rintro ⟨i, b, hp⟩
    rcases isProd_withAlt.mp hp with hp | ⟨_, hb, _⟩
    · exact ⟨i, b, hp⟩
    · obtain ⟨rfl, _⟩ := List.cons.inj hb
      exact absurd hc (not_terminal_iff.mpr hY)
  · rintro ⟨i, b, hp⟩
    exact ⟨i, b, isProd_withAlt.mpr (.inl hp)⟩

theorem rightGraph_withAlt {c : T} {r : List T} (hc : Terminal D c) {X Y : T} :
    RightGraph (WithAlt D A (r ++ [c])) X Y ↔ RightGraph D X Y := by
  unfold RightGraph
  rw [nonterminal_withAlt]
  refine and_congr_right fun hX => ⟨?_, ?_⟩
  · rintro ⟨i, b, hp⟩
    rcases isProd_withAlt.mp hp with hp | ⟨_, hb, _⟩
    · exact ⟨i, b, hp⟩
    · obtain ⟨_, h⟩ := List.append_inj' hb rfl
      obtain ⟨rfl, _⟩ := List.cons.inj h
      exact absurd hc (not_terminal_iff.mpr hX)
  · rintro ⟨i, b, hp⟩
    exact ⟨i, b, isProd_withAlt.mpr (.inl hp)⟩

theorem noEmpty_withAlt {body : List T} (hb : body ≠ []) :
    NoEmpty (WithAlt D A body) ↔ NoEmpty D := by
  constructor
  · intro h Y i b hp
    exact h Y i b (isProd_withAlt.mpr (.inl hp))
  · intro h Y i b hp
    rcases isProd_withAlt.mp hp with hp | ⟨_, rfl, _⟩
    · exact h Y i b hp
    · exact hb

theorem singleStart_withAlt {body : List T} (hA : A ≠ S) :
    SingleStart (WithAlt D A body) S ↔ SingleStart D S := by
  constructor
  · intro h i b hp
    exact h i b (isProd_withAlt.mpr (.inl hp))
  · intro h i b hp
    rcases isProd_withAlt.mp hp with hp | ⟨e, _⟩
    · exact h i b hp
    · exact absurd e.symm hA

theorem allProductive_withAlt {body : List T} (h : AllProductive D) : AllProductive (WithAlt D A body) := by
  intro X hX
  obtain ⟨w, h1, h2⟩ := h X (nonterminal_withAlt.mp hX)
  exact ⟨w, (rderives_withAlt (RDerives.of_derives h1 h2)).derives, terminals_withAlt.mpr h2⟩

end

end Lrp
