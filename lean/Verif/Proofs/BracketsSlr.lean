import Verif.Proofs.Brackets

/-! An alternative between brackets the grammar does not use keeps a grammar SLR(1). -/

set_option linter.unusedSectionVars false

namespace Lrp
open Spec
variable {T : Type} [LinOrd T] [DecidableEq T]

/-! ### Ways down -/

theorem under_rderives {D : Decls T} (hpr : AllProductive D) {S B : T} {u : List T} (h : Under D S u B) :
    ∃ ν, RDerives D [S] (u ++ B :: ν) ∧ Terminals D ν := by
  induction h with
  | refl => exact ⟨[], .refl, by intro x hx; cases hx⟩
  | @snoc u B C i x y _ hp ih =>
    obtain ⟨ν, h1, h2⟩ := ih
    obtain ⟨y', h3, h4⟩ := productive_list hpr y
    have h5 := (RDerives.of_derives h3 h4).ctx (u ++ x ++ [C]) h2
    refine ⟨y' ++ ν, (RDerives.tail h1 (.mk u ν hp h2)).trans ?_, terminals_append.mpr ⟨h4, h2⟩⟩
    simpa using h5

theorem rderives_under {D : Decls T} {S : T} {φ : List T} (h : RDerives D [S] φ) :
    ∀ {α w : List T} {Y : T}, φ = α ++ Y :: w → ¬ Terminal D Y → Under D S α Y := by
  induction h with
  | refl =>
    intro α w Y e _
    cases α with
    | nil => simp at e; rw [← e.1]; exact .refl
    | cons c α => simp at e
  | tail _ st ih =>
    cases st with
    | @mk u v Z i b hp hv =>
      intro α w Y e hY
      obtain ⟨w1, e1, e2⟩ := last_split hY hv e.symm
      rcases List.append_eq_append_iff.mp e2 with ⟨a, e3, e4⟩ | ⟨a, e3, e4⟩
      · rw [e3]
        refine (ih rfl hp.not_terminal).snoc (y := w1) (i := i) ?_
        rw [← e4]; exact hp
      · cases a with
        | nil =>
          simp at e3 e4
          rw [← e3]
          have := (ih rfl hp.not_terminal).snoc (x := []) (C := Y) (y := w1) (i := i) (by rw [← e4] at hp; exact hp)
          simpa using this
        | cons c a =>
          obtain ⟨rfl, _⟩ := List.cons.inj e4
          exact ih (α := α) (w := a ++ Z :: v) (by rw [e3]; simp) hY

/-- The first terminal of a productive rule. -/
theorem first_terminal {D : Decls T} (hn : NoEmpty D) {a b : List T} (h : Derives D a b) :
    ∀ {a0 : T} {as : List T} {c : T} {v : List T}, a = a0 :: as → b = c :: v → Terminal D c →
    a0 = c ∨ ∃ Y j r, Under D a0 [] Y ∧ IsProd D Y j (c :: r) := by
  induction h with
  | refl =>
    intro a0 as c v e1 e2 _
    rw [e1] at e2
    exact .inl (List.cons.inj e2).1
  | head st _ ih =>
    cases st with
    | @mk p q Y i body hp =>
      intro a0 as c v e1 e2 hc
      cases p with
      | cons d p =>
        obtain ⟨rfl, _⟩ := List.cons.inj e1
        exact ih (a0 := d) rfl e2 hc
      | nil =>
        obtain ⟨rfl, _⟩ := List.cons.inj e1
        cases body with
        | nil => exact absurd rfl (hn _ _ _ hp)
        | cons b0 body =>
          have hu : Under D Y [] b0 := by
            have := (Under.refl (D := D) (A := Y)).snoc (x := []) (C := b0) (y := body) (i := i) hp
            simpa using this
          rcases ih (a0 := b0) rfl e2 hc with rfl | ⟨Z, j, r, h1, h2⟩
          · exact .inr ⟨Y, i, body, .refl, hp⟩
          · exact .inr ⟨Z, j, r, by simpa using hu.trans h1, h2⟩

/-- In an LR(1) grammar, what a rule can both begin and end with does not lead back to the rule. -/
theorem lr1_no_ends {D : Decls T} {S eof B X : T} (hlr : LR1 D S eof) (hn : NoEmpty D) (hS : InNoBody D S)
    {μ ν u w : List T} (hd : RDerives D [S] (μ ++ B :: ν)) (hν : Terminals D ν) {j : Nat} (hp : IsProd D X j [B])
    (h1 : RDerives D [B] (X :: w)) (hw : Terminals D w) (h2 : RDerives D [B] (u ++ [X])) : False := by
  have hst : Step D [X] [B] := by simpa using Step.mk [] [] hp
  have hself := lr1_not_self hlr hn hS hd hν
  by_cases hwn : w = []
  · subst hwn
    exact hself (h1.derives.first_step hst)
  by_cases hun : u = []
  · subst hun
    exact hself (h2.derives.first_step hst)
  have f1 : RDerives D [S] (μ ++ u ++ B :: ν) := by
    have := hd.trans (by simpa using h2.ctx μ hν : RDerives D (μ ++ B :: ν) (μ ++ u ++ X :: ν))
    simpa using RDerives.tail this (.mk (μ ++ u) ν hp hν)
  have f2 : RDerives D [S] (μ ++ B :: (w ++ ν)) := by
    have := hd.trans (by simpa using h1.ctx μ hν : RDerives D (μ ++ B :: ν) (μ ++ X :: (w ++ ν)))
    simpa using RDerives.tail this (.mk μ (w ++ ν) hp (terminals_append.mpr ⟨hw, hν⟩))
  have hwν : Terminals D (w ++ ν) := terminals_append.mpr ⟨hw, hν⟩
  have key : ∀ {φ : List T}, RDerives D [B] φ → ∀ Z, φ = Z :: w → ¬ Terminal D Z → RDerives D [B] (u ++ [Z]) → False := by
    intro φ h
    induction h with
    | refl =>
      intro Z e _ _
      exact hwn (List.cons.inj e).2.symm
    | tail h st ih =>
      cases st with
      | @mk p q Y i b hb hq =>
        intro Z e hZ g2
        generalize e2 : u ++ [Z] = ψ at g2
        cases g2 with
        | refl =>
          have := congrArg List.length e2
          simp at this
          exact hun this
        | tail g2 st2 =>
          cases st2 with
          | @mk p2 q2 Y2 i2 b2 hb2 hq2 =>
            obtain ⟨w1, e3, e4⟩ := last_split hZ hq2 (α := u) (w := []) e2
            obtain ⟨rfl, rfl⟩ : w1 = [] ∧ q2 = [] := by simpa using e3.symm
            have k1 : RDerives D [S] ((μ ++ p2) ++ Y2 :: (w ++ ν)) := by
              refine f2.trans ?_
              simpa using g2.ctx μ hwν
            have k2 : RDerives D [S] ((μ ++ u ++ p) ++ Y :: (q ++ ν)) := by
              refine f1.trans ?_
              simpa using h.ctx (μ ++ u) hν
            obtain ⟨r1, rfl, rfl, r4⟩ := hlr _ _ _ _ _ _ (w ++ ν) _ _ _ _ k1 hwν hb2 k2
              (terminals_append.mpr ⟨hq, hν⟩) hb
              (by
                have : μ ++ u ++ (p ++ b ++ q) ++ ν = μ ++ (p2 ++ b2) ++ (w ++ ν) := by rw [e, e4]; simp
                simpa using this) hwν rfl
            obtain rfl := List.append_cancel_right r4
            have e5 : p ++ b = [Z] := List.append_cancel_right (show (p ++ b) ++ q = [Z] ++ q from e)
            have hbl := List.length_pos_iff.mpr (hn _ _ _ hb)
            have hl := congrArg List.length e5
            simp only [List.length_append, List.length_singleton] at hl
            obtain rfl := List.eq_nil_of_length_eq_zero (show p.length = 0 by omega)
            refine ih Y (by simp) hb.not_terminal ?_
            have : p2 = u := by
              have := List.append_cancel_left (show μ ++ (u ++ []) = μ ++ p2 by simpa using r1)
              simpa using this.symm
            subst this
            exact g2
  exact key h1 X rfl hp.not_terminal h2

/-! ### Neighbours -/

/-- Any two neighbours are related. -/
def Neighbours (R : T → T → Prop) : List T → Prop
  | [] => True
  | [_] => True
  | a :: b :: l => R a b ∧ Neighbours R (b :: l)

theorem neighbours_append {R : T → T → Prop} : ∀ {l m : List T},
    Neighbours R (l ++ m) ↔ Neighbours R l ∧ Neighbours R m ∧ ∀ x ∈ l.getLast?, ∀ y ∈ m.head?, R x y
  | [], m => by simp [Neighbours]
  | [a], [] => by simp [Neighbours]
  | [a], b :: m => by simp [Neighbours, and_comm]
  | a :: b :: l, m => by
    have := neighbours_append (R := R) (l := b :: l) (m := m)
    simp only [List.cons_append, Neighbours, List.getLast?_cons_cons] at this ⊢
    rw [this, and_assoc]

theorem neighbours_at {R : T → T → Prop} {u v : List T} {a b : T} (h : Neighbours R (u ++ a :: b :: v)) : R a b :=
  (neighbours_append.mp h).2.1.1

section
variable {D : Decls T} {A B S eof k e : T}

/-- A way down in the larger grammar is one in the old, from the start or from the last bracket. -/
theorem Brackets.under (h : Brackets D A B k e) {α : List T} {Y : T} (hu : Under (WithAlt D A [k, B, e]) S α Y)
    (hY : ¬ Terminal D Y) :
    e ∉ α ∧ ((k ∉ α ∧ Under D S α Y) ∨ ∃ α₀ α₁, α = α₀ ++ k :: α₁ ∧ k ∉ α₁ ∧ Under D B α₁ Y) := by
  induction hu with
  | refl => exact ⟨by simp, .inl ⟨by simp, .refl⟩⟩
  | @snoc u Z C i x y _ hp ih =>
    obtain ⟨he, ih⟩ := ih fun h => hp.not_terminal (terminal_withAlt.mpr h)
    rcases isProd_withAlt.mp hp with hq | ⟨rfl, hb, _⟩
    · have hkx : k ∉ x := fun hx => h.hk.2 _ _ _ hq (by simp [hx])
      have hex : e ∉ x := fun hx => h.he.2 _ _ _ hq (by simp [hx])
      refine ⟨by simp [he, hex], ?_⟩
      rcases ih with ⟨h1, h2⟩ | ⟨α0, α1, rfl, h1, h2⟩
      · exact .inl ⟨by simp [h1, hkx], h2.snoc hq⟩
      · exact .inr ⟨α0, α1 ++ x, by simp, by simp [h1, hkx], h2.snoc hq⟩
    · match x, hb with
      | [], hb => exact absurd (List.cons.inj hb).1 (h.ne_k hY)
      | [c], hb =>
        simp at hb
        obtain ⟨rfl, rfl, _⟩ := hb
        exact ⟨by simp [he, h.ne.symm], .inr ⟨u, [], rfl, by simp, .refl⟩⟩
      | [c, d], hb =>
        simp at hb
        exact absurd hb.2.2.1 (h.ne_e hY)
      | c :: d :: d' :: l, hb => simp at hb

theorem derives_put {a u v : List T} {Y : T} {i : Nat} {b : List T} (h : Derives D a (u ++ Y :: v))
    (hp : IsProd D Y i b) : Derives D a (u ++ b ++ v) :=
  h.trans (.head (Step.mk u v hp) (.refl _))

/-- What follows in the larger grammar. -/
def After' (D : Decls T) (A B S eof k e X x : T) : Prop :=
  ¬ Terminal D X → (x ≠ k → x ≠ e → InFollow D S eof X x) ∧ (x = k → InFollow D S eof X A) ∧
    (x = e → ∃ u, RDerives D [B] (u ++ [X]))

theorem Brackets.neighbours (h : Brackets D A B k e) (hB : Reachable D S B) {a b : List T}
    (hd : Derives (WithAlt D A [k, B, e]) a b) :
    (∀ X ∈ a, ¬ Terminal D X → Reachable D S X) ∧ Neighbours (After' D A B S eof k e) a →
    (∀ X ∈ b, ¬ Terminal D X → Reachable D S X) ∧ Neighbours (After' D A B S eof k e) b := by
  induction hd with
  | refl => exact id
  | head st _ ih =>
    refine fun ha => ih ?_
    clear ih
    obtain ⟨hr, hn⟩ := ha
    cases st with
    | @mk p q Y i body hp =>
      have hY : ¬ Terminal D Y := fun h => hp.not_terminal (terminal_withAlt.mpr h)
      obtain ⟨u, v, hry⟩ := hr Y (by simp) hY
      rw [show p ++ Y :: q = p ++ ([Y] ++ q) by simp, neighbours_append, neighbours_append] at hn
      obtain ⟨n1, ⟨_, n2, n3⟩, n4⟩ := hn
      have n3 : ∀ y ∈ q.head?, After' D A B S eof k e Y y := fun y hy => n3 Y (by simp) y hy
      have n4 : ∀ x ∈ p.getLast?, After' D A B S eof k e x Y := fun x hx => n4 x hx Y (by simp)
      have hYk := h.ne_k hY
      have hYe := h.ne_e hY
      rcases isProd_withAlt.mp hp with hq | ⟨rfl, rfl, _⟩
      · have hne : body ≠ [] := h.noEmpty _ _ _ hq
        have hkb : ∀ {x}, x ∈ body → x ≠ k := by rintro x hx rfl; exact h.hk.2 _ _ _ hq hx
        have heb : ∀ {x}, x ∈ body → x ≠ e := by rintro x hx rfl; exact h.he.2 _ _ _ hq hx
        refine ⟨?_, ?_⟩
        · intro X hX hXt
          simp only [List.mem_append] at hX
          rcases hX with (hX | hX) | hX
          · exact hr X (by simp [hX]) hXt
          · obtain ⟨b1, b2, rfl⟩ := List.append_of_mem hX
            exact ⟨u ++ b1, b2 ++ v, by simpa using derives_put hry hq⟩
          · exact hr X (by simp [hX]) hXt
        · rw [List.append_assoc, neighbours_append, neighbours_append]
          refine ⟨n1, ⟨?_, n2, ?_⟩, ?_⟩
          · -- within the body
            have : ∀ b1 b2, body = b1 ++ b2 → Neighbours (After' D A B S eof k e) b2 := by
              intro b1 b2
              induction b2 generalizing b1 with
              | nil => intro _; exact trivial
              | cons c b2 ih =>
                intro e1
                cases b2 with
                | nil => exact trivial
                | cons d b2 =>
                  refine ⟨fun _ => ⟨fun _ _ => ⟨u ++ b1, b2 ++ v ++ [eof], ?_⟩, ?_, ?_⟩, ih (b1 ++ [c]) (by simp [e1])⟩
                  · have h1 := derives_put hry hq
                    rw [e1] at h1
                    have := h1.append (.refl [eof])
                    simpa using this
                  · exact fun hd => absurd hd (hkb (by simp [e1]))
                  · exact fun hd => absurd hd (heb (by simp [e1]))
            exact this [] body rfl
          · -- its end
            intro x hx y hy _
            obtain ⟨b', rfl⟩ := List.getLast?_eq_some_iff.mp hx
            obtain ⟨m1, m2, m3⟩ := n3 y hy hY
            refine ⟨fun e1 e2 => ?_, fun e1 => ?_, fun e1 => ?_⟩
            · obtain ⟨u', v', h1⟩ := m1 e1 e2
              exact ⟨u' ++ b', v', by simpa using derives_put h1 hq⟩
            · obtain ⟨u', v', h1⟩ := m2 e1
              exact ⟨u' ++ b', v', by simpa using derives_put h1 hq⟩
            · obtain ⟨u', h1⟩ := m3 e1
              refine ⟨u' ++ b', ?_⟩
              simpa using RDerives.tail h1 (.mk u' [] hq (by intro x hx; cases hx))
          · -- its beginning
            intro x hx y hy hxt
            have hyb : y ∈ body.head? := by
              cases body with
              | nil => exact absurd rfl hne
              | cons c body => simpa using hy
            obtain ⟨b', rfl⟩ := List.head?_eq_some_iff.mp hyb
            obtain ⟨m1, _, _⟩ := n4 x hx hxt
            obtain ⟨u', v', h1⟩ := m1 hYk hYe
            refine ⟨fun _ _ => ⟨u', b' ++ v', ?_⟩, fun e1 => absurd e1 (hkb (by simp)),
              fun e1 => absurd e1 (heb (by simp))⟩
            have := derives_put (u := u' ++ [x]) (v := v') (by simpa using h1) hq
            simpa using this
      · refine ⟨?_, ?_⟩
        · intro X hX hXt
          simp only [List.mem_append, List.mem_cons, List.not_mem_nil, or_false] at hX
          rcases hX with (hX | rfl | rfl | rfl) | hX
          · exact hr X (by simp [hX]) hXt
          · exact absurd h.hk.1 hXt
          · exact hB
          · exact absurd h.he.1 hXt
          · exact hr X (by simp [hX]) hXt
        · rw [List.append_assoc, neighbours_append, neighbours_append]
          refine ⟨n1, ⟨⟨fun hk => absurd h.hk.1 hk, fun _ => ⟨fun _ h => absurd rfl h, fun e1 => absurd e1 h.ne.symm,
            fun _ => ⟨[], .refl⟩⟩, trivial⟩, n2, ?_⟩, ?_⟩
          · intro x hx y hy hxt
            simp at hx
            subst hx
            exact absurd h.he.1 hxt
          · intro x hx y hy hxt
            simp at hy
            subst hy
            obtain ⟨m1, _, _⟩ := n4 x hx hxt
            exact ⟨fun h => absurd rfl h, fun _ => m1 hYk hYe, fun e1 => absurd e1 h.ne⟩

theorem Brackets.follow (h : Brackets D A B k e) (hS : Nonterminal D S) (he : Terminal D eof) (hek : eof ≠ k)
    (hee : eof ≠ e) (hB : Reachable D S B) {X x : T} (hX : ¬ Terminal D X)
    (hf : InFollow (WithAlt D A [k, B, e]) S eof X x) :
    (x ≠ k → x ≠ e → InFollow D S eof X x) ∧ (x = k → InFollow D S eof X A) ∧
      (x = e → ∃ u, RDerives D [B] (u ++ [X])) := by
  obtain ⟨u, v, hd⟩ := hf
  refine neighbours_at (h.neighbours (S := S) (eof := eof) hB hd ⟨?_, ?_⟩).2 hX
  · intro X hX hXt
    simp only [List.mem_cons, List.not_mem_nil, or_false] at hX
    rcases hX with rfl | rfl
    · exact ⟨[], [], .refl _⟩
    · exact absurd he hXt
  · exact ⟨fun _ => ⟨fun _ _ => ⟨[], [], .refl _⟩, fun e1 => absurd e1 hek, fun e1 => absurd e1 hee⟩, trivial⟩

/-- The text read in the old grammar: after a bracket, begin with `μ`. -/
def reread (k : T) (μ : List T) (γ : List T) : List T := γ.foldl (fun acc c => if c = k then μ else acc ++ [c]) []

theorem reread_append {μ γ x : List T} (hx : k ∉ x) : reread k μ (γ ++ x) = reread k μ γ ++ x := by
  unfold reread
  rw [List.foldl_append]
  generalize List.foldl _ [] γ = acc
  induction x generalizing acc with
  | nil => simp
  | cons c x ih =>
    have hc : c ≠ k := fun h => hx (by simp [h])
    simp only [List.foldl_cons, if_neg hc]
    rw [ih fun h => hx (by simp [h])]
    simp

theorem reread_bracket {μ γ : List T} : reread k μ (γ ++ [k]) = μ := by
  simp [reread]

theorem Brackets.reread (h : Brackets D A B k e) {μ : List T} (hμ : Under D S μ B) {α : List T} {Y : T}
    (hu : Under (WithAlt D A [k, B, e]) S α Y) (hY : ¬ Terminal D Y) : Under D S (reread k μ α) Y := by
  rcases (h.under hu hY).2 with ⟨h1, h2⟩ | ⟨α0, α1, rfl, h1, h2⟩
  · have := reread_append (k := k) (μ := μ) (γ := []) h1
    simp [Lrp.reread] at this
    unfold Lrp.reread
    rw [this]; exact h2
  · rw [show α0 ++ k :: α1 = (α0 ++ [k]) ++ α1 by simp, reread_append h1, reread_bracket]
    exact hμ.trans h2

/-- An alternative between fresh brackets keeps a grammar SLR(1). -/
theorem slr1_brackets (h : Brackets D A B k e) (hS : Nonterminal D S) (hS' : InNoBody D S) (hpr : AllProductive D)
    (hB : Reachable D S B) (he : Terminal D eof) (hek : eof ≠ k) (hee : eof ≠ e) (hlr : LR1 D S eof)
    (hs : SLR1 D S eof) : SLR1 (WithAlt D A [k, B, e]) S eof := by
  obtain ⟨μ, hμ⟩ : ∃ μ, Under D S μ B := by
    obtain ⟨u, v, hd⟩ := hB
    obtain ⟨u0, hu, _⟩ := Reachable.under hd
    exact ⟨u0, hu⟩
  obtain ⟨ν, hd, hν⟩ := under_rderives hpr hμ
  -- something follows `B`
  obtain ⟨y, hyt, u0, v0, hy⟩ : ∃ y, Terminal D y ∧ InFollow D S eof B y := by
    have h1 := hd.derives.append (.refl [eof])
    cases ν with
    | nil => exact ⟨eof, he, μ, [], by simpa using h1⟩
    | cons c ν => exact ⟨c, hν c (by simp), μ, ν ++ [eof], by simpa using h1⟩
  have ends : ∀ {X : T}, (∃ u, RDerives D [B] (u ++ [X])) → InFollow D S eof X y := by
    rintro X ⟨u, h1⟩
    have h2 := Derives.append (.refl u0) (h1.derives.append (.refl (y :: v0)))
    refine ⟨u0 ++ u, v0, hy.trans ?_⟩
    simpa using h2
  -- something `A` begins with
  obtain ⟨c, hc, C, m, r, hCu, hCp⟩ : ∃ c, Terminal D c ∧ ∃ C m r, Under D A [] C ∧ IsProd D C m (c :: r) := by
    obtain ⟨z, h1, h2⟩ := hpr A h.hA
    cases z with
    | nil => exact absurd rfl (derives_ne_nil h.noEmpty h1 (by simp))
    | cons c z =>
      have hc := h2 c (by simp)
      rcases first_terminal h.noEmpty h1 rfl rfl hc with rfl | h3
      · exact absurd hc (not_terminal_iff.mpr h.hA)
      · exact ⟨c, hc, h3⟩
  have begins : ∀ {X : T}, InFollow D S eof X A → InFollow D S eof X c := by
    rintro X ⟨u, v, h1⟩
    obtain ⟨v', h2⟩ := hCu.derives
    have h3 := Derives.append (.refl (u ++ [X])) ((derives_put h2 hCp).append (.refl v))
    refine ⟨u, r ++ v' ++ v, h1.trans ?_⟩
    simpa using h3
  -- valid items
  have valid : ∀ {γ β₁ β₂ : List T} {Y : T} {i : Nat}, ValidItem (WithAlt D A [k, B, e]) S γ Y i β₁ β₂ →
      ¬ Terminal D Y ∧ ∃ α, γ = α ++ β₁ ∧ Under (WithAlt D A [k, B, e]) S α Y ∧ e ∉ α := by
    rintro γ β₁ β₂ Y i ⟨hp, α, w, e1, _, h1⟩
    have hY : ¬ Terminal D Y := fun h => hp.not_terminal (terminal_withAlt.mpr h)
    have hu := rderives_under h1 rfl fun h => hY (terminal_withAlt.mp h)
    exact ⟨hY, α, e1, hu, (h.under hu hY).1⟩
  have old : ∀ {γ β₁ β₂ : List T} {Y : T} {i : Nat}, ValidItem (WithAlt D A [k, B, e]) S γ Y i β₁ β₂ →
      IsProd D Y i (β₁ ++ β₂) → ValidItem D S (reread k μ γ) Y i β₁ β₂ := by
    intro γ β₁ β₂ Y i hv hp
    obtain ⟨hY, α, rfl, hu, _⟩ := valid hv
    obtain ⟨w, h1, h2⟩ := under_rderives hpr (h.reread hμ hu hY)
    refine ⟨hp, reread k μ α, w, reread_append fun hx => h.hk.2 _ _ _ hp (by simp [hx]), h2, h1⟩
  have fol : ∀ {X x : T}, ¬ Terminal D X → InFollow (WithAlt D A [k, B, e]) S eof X x → _ :=
    fun hX hf => h.follow hS he hek hee hB hX hf
  -- after the closing bracket only one item is valid
  have closed : ∀ {γ β₁ β₂ α : List T} {Y : T} {i : Nat}, ValidItem (WithAlt D A [k, B, e]) S γ Y i β₁ β₂ →
      γ = α ++ [k, B, e] → Y = A ∧ β₁ = [k, B, e] ∧ β₂ = [] ∧ ∃ bs, Declared D A bs ∧ i = bs.length := by
    intro γ β₁ β₂ α Y i hv e1
    obtain ⟨hY, α', e2, hu, hα'⟩ := valid hv
    have hβ : e ∈ β₁ := by
      rcases List.eq_nil_or_concat β₁ with rfl | ⟨l, d, rfl⟩
      · exfalso
        rw [e1] at e2
        simp at e2
        exact hα' (by rw [← e2]; simp)
      · rw [e1] at e2
        have : (α ++ [k, B]) ++ [e] = (α' ++ l) ++ [d] := by simpa using e2
        obtain ⟨_, h2⟩ := List.append_inj' this rfl
        obtain ⟨rfl, _⟩ := List.cons.inj h2
        simp
    rcases isProd_withAlt.mp hv.1 with hp | ⟨rfl, hb, hbs⟩
    · exact absurd (by simp [hβ]) (h.he.2 _ _ _ hp)
    · match β₁, hb with
      | [], _ => cases hβ
      | [a], hb => simp at hb hβ; exact absurd (hβ.trans hb.1).symm h.ne
      | [a, b], hb =>
        simp at hb hβ
        rcases hβ with rfl | rfl
        · exact absurd hb.1.symm h.ne
        · exact absurd hb.2.1.symm (h.ne_e h.B')
      | [a, b, d], hb =>
        simp at hb
        obtain ⟨rfl, rfl, rfl, rfl⟩ := hb
        exact ⟨rfl, rfl, rfl, hbs⟩
      | a :: b :: d :: d' :: l, hb => simp at hb
  refine ⟨?_, ?_⟩
  · intro γ X i β Y j δ x h1 h2 hx f1 f2
    have hx := terminal_withAlt.mp hx
    obtain ⟨hX, -⟩ := valid h1
    obtain ⟨hY, -⟩ := valid h2
    rcases isProd_withAlt.mp h1.1 with hp1 | ⟨rfl, hb, bs, hbs, rfl⟩
    · rcases isProd_withAlt.mp h2.1 with hp2 | ⟨rfl, hb, bs, hbs, rfl⟩
      · obtain ⟨a1, a2, a3⟩ := fol hX f1
        obtain ⟨b1, b2, b3⟩ := fol hY f2
        have v1 := old h1 hp1
        have v2 := old h2 hp2
        by_cases hxk : x = k
        · exact hs.1 _ _ _ _ _ _ _ c v1 v2 hc (begins (a2 hxk)) (begins (b2 hxk))
        by_cases hxe : x = e
        · exact hs.1 _ _ _ _ _ _ _ y v1 v2 hyt (ends (a3 hxe)) (ends (b3 hxe))
        exact hs.1 _ _ _ _ _ _ _ x v1 v2 hx (a1 hxk hxe) (b1 hxk hxe)
      · obtain ⟨_, α, e1, _⟩ := valid h2
        simp at hb
        obtain ⟨rfl, _, _, bs', hbs', rfl⟩ := closed h1 (by rw [e1, hb])
        exact ⟨rfl, by rw [hbs.unique hbs']⟩
    · obtain ⟨_, α, e1, _⟩ := valid h1
      simp at hb
      obtain ⟨rfl, _, _, bs', hbs', rfl⟩ := closed h2 (by rw [e1, hb])
      exact ⟨rfl, by rw [hbs.unique hbs']⟩
  · intro γ X i β Y j δ₁ a δ₂ h1 h2 ha f1
    have ha' := terminal_withAlt.mp ha
    obtain ⟨hX, α, e1, hu1, hα⟩ := valid h1
    obtain ⟨hY, α', e2, hu2, hα'⟩ := valid h2
    rcases isProd_withAlt.mp h1.1 with hp1 | ⟨rfl, hb, bs, hbs, rfl⟩
    · obtain ⟨a1, a2, a3⟩ := fol hX f1
      have v1 := old h1 hp1
      rcases isProd_withAlt.mp h2.1 with hp2 | ⟨rfl, hb, _⟩
      · have hak : a ≠ k := by rintro rfl; exact h.hk.2 _ _ _ hp2 (by simp)
        have hae : a ≠ e := by rintro rfl; exact h.he.2 _ _ _ hp2 (by simp)
        exact hs.2 _ _ _ _ _ _ _ _ _ v1 (old h2 hp2) ha' (a1 hak hae)
      · match δ₁, hb with
        | [], hb =>
          simp at hb e2
          subst e2
          -- a bracket opens where `A` begins
          have hC := (h.reread hμ hu2 hY).trans hCu
          obtain ⟨w, g1, g2⟩ := under_rderives hpr hC
          rw [List.append_nil] at g1
          exact hs.2 _ _ _ _ C m [] c r v1 ⟨hCp, reread k μ γ, w, by simp, g2, g1⟩ hc (begins (a2 hb.1))
        | [d], hb =>
          simp at hb
          rw [hb.2.1] at ha'
          exact h.B' ha'
        | [d, d'], hb =>
          simp at hb
          obtain ⟨rfl, rfl, rfl, _⟩ := hb
          -- a bracket closes
          obtain ⟨u, g1⟩ := a3 rfl
          have hkβ : d ∉ β := fun hx => h.hk.2 _ _ _ hp1 (by simp [hx])
          have hβ : β = [d'] ∧ α = α' ++ [d] := by
            have hne : β ≠ [] := by simpa using h.noEmpty _ _ _ hp1
            obtain ⟨l, z, rfl⟩ := (List.eq_nil_or_concat β).resolve_left hne
            have e3 : (α' ++ [d]) ++ [d'] = (α ++ l) ++ [z] := by rw [e1] at e2; simpa using e2.symm
            obtain ⟨e4, e5⟩ := List.append_inj' e3 rfl
            obtain ⟨rfl, _⟩ := List.cons.inj e5
            rcases List.eq_nil_or_concat l with rfl | ⟨l', z', rfl⟩
            · exact ⟨rfl, by simpa using e4.symm⟩
            · exfalso
              obtain ⟨_, e6⟩ := List.append_inj' (show α' ++ [d] = (α ++ l') ++ [z'] by simpa using e4) rfl
              obtain ⟨rfl, _⟩ := List.cons.inj e6
              exact hkβ (by simp)
          obtain ⟨rfl, rfl⟩ := hβ
          rcases (h.under hu1 hX).2 with ⟨g2, _⟩ | ⟨α0, α1, g2, g3, g4⟩
          · exact g2 (by simp)
          · have : α1 = [] := by
              rcases List.eq_nil_or_concat α1 with rfl | ⟨l, z, rfl⟩
              · rfl
              · exfalso
                obtain ⟨_, e6⟩ := List.append_inj' (show α' ++ [d] = (α0 ++ d :: l) ++ [z] by simpa using g2) rfl
                obtain ⟨rfl, _⟩ := List.cons.inj e6
                exact g3 (by simp)
            subst this
            obtain ⟨w, g5, g6⟩ := under_rderives hpr g4
            exact lr1_no_ends hlr h.noEmpty hS' hd hν (by simpa using hp1) g5 g6 g1
        | a :: b :: d :: l, hb => simp at hb
    · simp at hb
      obtain ⟨_, _, h3, _⟩ := closed h2 (by rw [e1, hb])
      cases h3

end

end Lrp
