import Verif.Spec.Sequence
import Verif.Proofs.Wrap

/-! Making a grammar for one text into one for a sequence of texts. -/

set_option linter.unusedSectionVars false

namespace Lrp
open Spec
variable {T : Type} [LinOrd T] [DecidableEq T]

section
variable {D : Decls T} {L S m : T}

theorem isProd_listed (hf : Fresh D L) {A : T} {i : Nat} {b : List T} :
    IsProd (Listed D L S m) A i b ↔
      (A = L ∧ ((i = 0 ∧ b = [S, m]) ∨ (i = 1 ∧ b = [L, S, m]))) ∨ IsProd D A i b := by
  constructor
  · rintro ⟨bs, ⟨pre, post, e, h⟩, hi⟩
    cases pre with
    | nil =>
      simp only [Listed, List.nil_append, List.cons.injEq, Prod.mk.injEq] at e
      obtain ⟨⟨rfl, rfl⟩, rfl⟩ := e
      left
      match i, hi with
      | 0, hi => exact ⟨rfl, Or.inl ⟨rfl, by simpa using hi.symm⟩⟩
      | 1, hi => exact ⟨rfl, Or.inr ⟨rfl, by simpa using hi.symm⟩⟩
      | i + 2, hi => simp at hi
    | cons d pre =>
      simp only [Listed, List.cons_append, List.cons.injEq] at e
      exact Or.inr ⟨bs, ⟨pre, post, e.2, h⟩, hi⟩
  · rintro (⟨rfl, h⟩ | ⟨bs, ⟨pre, post, e, h⟩, hi⟩)
    · refine ⟨[[S, m], [A, S, m]], ⟨[], D, rfl, hf.1⟩, ?_⟩
      rcases h with ⟨rfl, rfl⟩ | ⟨rfl, rfl⟩ <;> rfl
    · exact ⟨bs, ⟨(L, [[S, m], [L, S, m]]) :: pre, post, by rw [Listed, e]; rfl, h⟩, hi⟩

theorem terminal_listed {x : T} : Terminal (Listed D L S m) x ↔ x ≠ L ∧ Terminal D x := by
  unfold Terminal Listed
  simp only [List.forall_mem_cons]
  exact and_congr_left fun _ => ⟨Ne.symm, Ne.symm⟩

theorem nonterminal_listed {x : T} : Nonterminal (Listed D L S m) x ↔ x = L ∨ Nonterminal D x := by
  unfold Nonterminal Listed
  simp only [List.mem_cons, exists_eq_or_imp]
  exact or_congr_left ⟨Eq.symm, Eq.symm⟩

theorem terminals_listed {w : List T} (h : Terminals (Listed D L S m) w) : Terminals D w :=
  fun x hx => (terminal_listed.mp (h x hx)).2

theorem noEmpty_listed (hf : Fresh D L) : NoEmpty (Listed D L S m) ↔ NoEmpty D := by
  constructor
  · exact fun h A i b hp => h A i b ((isProd_listed hf).mpr (Or.inr hp))
  · intro h A i b hp
    rcases (isProd_listed hf).mp hp with ⟨_, ⟨_, rfl⟩ | ⟨_, rfl⟩⟩ | hp
    · simp
    · simp
    · exact h A i b hp

theorem derives_listed (hf : Fresh D L) {a b : List T} (h : Derives D a b) : Derives (Listed D L S m) a b :=
  fewer_derives (f := fun _ i => i) (fun _ _ _ hp => (isProd_listed hf).mpr (Or.inr hp)) h

theorem leftGraph_listed (hf : Fresh D L) (hS : Nonterminal D S) :
    FoldsAway (Loopless (LeftGraph (Listed D L S m))) ↔ FoldsAway (Loopless (LeftGraph D)) := by
  have hne : S ≠ L := by rintro rfl; exact not_terminal_iff.mpr hS hf.1
  refine foldsAway_source (X := L) ?_ ?_ ?_
  · rintro A B ⟨h, _, i, b, hp⟩ rfl
    rcases (isProd_listed hf).mp hp with ⟨rfl, _⟩ | hp
    · exact h rfl
    · exact hf.2 A i _ hp (by simp)
  · rintro A B ⟨_, _, i, b, hp⟩
    exact hf.ne hp
  · intro A B hA
    refine and_congr_right fun _ => ?_
    constructor
    · rintro ⟨h1, i, b, hp⟩
      rcases (isProd_listed hf).mp hp with ⟨h, _⟩ | hp
      · exact absurd h hA
      · refine ⟨(nonterminal_listed.mp h1).resolve_left (fun e => ?_), i, b, hp⟩
        exact hf.2 A i _ hp (by simp [e])
    · rintro ⟨h1, i, b, hp⟩
      exact ⟨nonterminal_listed.mpr (Or.inr h1), i, b, (isProd_listed hf).mpr (Or.inr hp)⟩

theorem rightGraph_listed (hf : Fresh D L) (hm : Terminal D m) (hmL : m ≠ L) :
    RightGraph (Listed D L S m) = RightGraph D := by
  funext A B
  refine propext ⟨?_, ?_⟩
  · rintro ⟨h1, i, b, hp⟩
    rcases (isProd_listed hf).mp hp with ⟨rfl, ⟨_, e⟩ | ⟨_, e⟩⟩ | hp
    · rw [show [S, m] = [S] ++ [m] from rfl] at e
      have := (List.append_inj' e rfl).2
      simp only [List.cons.injEq, and_true] at this
      subst this
      exact absurd (terminal_listed.mpr ⟨hmL, hm⟩) (not_terminal_iff.mpr h1)
    · rw [show [B, S, m] = [B, S] ++ [m] from rfl] at e
      have := (List.append_inj' e rfl).2
      simp only [List.cons.injEq, and_true] at this
      subst this
      exact absurd (terminal_listed.mpr ⟨hmL, hm⟩) (not_terminal_iff.mpr h1)
    · refine ⟨(nonterminal_listed.mp h1).resolve_left (fun e => ?_), i, b, hp⟩
      exact hf.2 B i _ hp (by simp [e])
  · rintro ⟨h1, i, b, hp⟩
    exact ⟨nonterminal_listed.mpr (Or.inr h1), i, b, (isProd_listed hf).mpr (Or.inr hp)⟩

/-! ### Rightmost derivations -/

theorem split_at_terminals {E : Decls T} {u v p q : List T} {A : T} (hA : Nonterminal E A) (hq : Terminals E q)
    (e : p ++ q = u ++ A :: v) : ∃ v₁, p = u ++ A :: v₁ ∧ v = v₁ ++ q := by
  rcases List.append_eq_append_iff.mp e with ⟨c, rfl, h⟩ | ⟨c, rfl, h⟩
  · exact absurd (hq A (by rw [h]; simp)) (not_terminal_iff.mpr hA)
  · cases c with
    | nil =>
      simp only [List.nil_append] at h
      exact absurd (hq A (by rw [← h]; simp)) (not_terminal_iff.mpr hA)
    | cons z c =>
      simp only [List.cons_append, List.cons.injEq] at h
      obtain ⟨rfl, rfl⟩ := h
      exact ⟨c, rfl, rfl⟩

/-- Where the last nonterminal of a rightmost sentential form stands. -/
inductive SeqForm (D : Decls T) (L S m : T) : List T → T → List T → Prop
  | list (w : List T) : SeqForm D L S m [] L w
  | item (pre σ₁ σ₂ w : List T) (A : T) (hpre : pre = [] ∨ pre = [L]) (h : RDerives D [S] (σ₁ ++ A :: σ₂)) :
      SeqForm D L S m (pre ++ σ₁) A (σ₂ ++ m :: w)

/-- The rightmost sentential forms: a list and the rest, or perhaps a list, a form of `S`, a mark, and the rest. -/
theorem rderives_listed (hf : Fresh D L) (hS : Nonterminal D S) (hm : Fresh D m) (hmL : m ≠ L) {φ : List T}
    (h : RDerives (Listed D L S m) [L] φ) :
    (∃ w, φ = L :: w ∧ Terminals (Listed D L S m) w) ∨
    (∃ pre σ w, (pre = [] ∨ pre = [L]) ∧ φ = pre ++ σ ++ m :: w ∧ RDerives D [S] σ ∧
      Terminals (Listed D L S m) w) := by
  have hne : L ≠ S := by rintro rfl; exact not_terminal_iff.mpr hS hf.1
  have hmT : Terminal (Listed D L S m) m := terminal_listed.mpr ⟨hmL, hm.1⟩
  have step : ∀ {i : Nat} {b v : List T}, IsProd (Listed D L S m) L i b → Terminals (Listed D L S m) v →
      ∃ pre σ w, (pre = [] ∨ pre = [L]) ∧ b ++ v = pre ++ σ ++ m :: w ∧ RDerives D [S] σ ∧
        Terminals (Listed D L S m) w := by
    intro i b v hp hv
    rcases (isProd_listed hf).mp hp with ⟨_, ⟨_, rfl⟩ | ⟨_, rfl⟩⟩ | hp
    · exact ⟨[], [S], v, Or.inl rfl, rfl, .refl, hv⟩
    · exact ⟨[L], [S], v, Or.inr rfl, rfl, .refl, hv⟩
    · exact absurd rfl (hf.ne hp)
  induction h with
  | refl => exact Or.inl ⟨[], rfl, by intro x hx; cases hx⟩
  | @tail b c h s ih =>
    right
    cases s with
    | @mk u v A i body hp hv =>
      have hA : Nonterminal (Listed D L S m) A := IsProd.nonterminal hp
      rcases ih with ⟨w, e, hw⟩ | ⟨pre, σ, w, hpre, e, hσ, hw⟩
      · obtain ⟨v₁, h1, rfl⟩ := split_at_terminals (p := [L]) hA hw e.symm
        have hl : u = [] ∧ A = L ∧ v₁ = [] := by
          cases u with
          | nil => simp at h1; exact ⟨rfl, h1.1.symm, h1.2⟩
          | cons x u => simp at h1
        obtain ⟨rfl, rfl, rfl⟩ := hl
        exact step hp hv
      · have hq : Terminals (Listed D L S m) (m :: w) := by
          intro x hx
          rcases List.mem_cons.mp hx with rfl | hx
          · exact hmT
          · exact hw x hx
        obtain ⟨v₁, h1, rfl⟩ := split_at_terminals hA hq e.symm
        have hLσ := hf.absent hne hσ.derives
        have hv₁ : Terminals (Listed D L S m) v₁ := fun x hx => hv x (by simp [hx])
        rcases List.append_eq_append_iff.mp h1 with ⟨c, rfl, h2⟩ | ⟨c, h2, h3⟩
        · have hAL : A ≠ L := by
            rintro rfl
            exact hLσ (by rw [h2]; simp)
          have hp' := ((isProd_listed hf).mp hp).resolve_left fun h => hAL h.1
          subst h2
          exact ⟨pre, c ++ body ++ v₁, w, hpre, by simp, .tail hσ (.mk c v₁ hp' (terminals_listed hv₁)), hw⟩
        · rcases hpre with rfl | rfl
          · have h4 := (List.append_eq_nil_iff.mp h2.symm)
            obtain ⟨rfl, rfl⟩ := h4
            have hAL : A ≠ L := by
              rintro rfl
              exact hLσ (by simp at h3; rw [← h3]; simp)
            have hp' := ((isProd_listed hf).mp hp).resolve_left fun h => hAL h.1
            simp only [List.nil_append] at h3
            rw [← h3] at hσ
            exact ⟨[], body ++ v₁, w, Or.inl rfl, by simp,
              .tail hσ (by simpa using RStep.mk [] v₁ hp' (terminals_listed hv₁)), hw⟩
          · cases u with
            | nil =>
              simp only [List.nil_append] at h2
              subst h2
              simp only [List.cons_append, List.nil_append, List.cons.injEq] at h3
              obtain ⟨rfl, rfl⟩ := h3
              exact step hp hv
            | cons z u =>
              simp only [List.cons_append, List.cons.injEq] at h2
              obtain ⟨h4, h5⟩ := h2
              obtain ⟨rfl, rfl⟩ := List.append_eq_nil_iff.mp h5.symm
              simp only [List.nil_append] at h3
              have hAL : A ≠ L := by
                rintro rfl
                exact hLσ (by rw [← h3]; simp)
              have hp' := ((isProd_listed hf).mp hp).resolve_left fun h => hAL h.1
              rw [← h3] at hσ
              exact ⟨[z], body ++ v₁, w, Or.inr (by rw [h4]), by simp,
                .tail hσ (by simpa using RStep.mk [] v₁ hp' (terminals_listed hv₁)), hw⟩

theorem seqForm (hf : Fresh D L) (hS : Nonterminal D S) (hm : Fresh D m) (hmL : m ≠ L) {α w : List T} {A : T}
    (hA : Nonterminal (Listed D L S m) A)
    (h : RDerives (Listed D L S m) [L] (α ++ A :: w)) : SeqForm D L S m α A w := by
  have hne : L ≠ S := by rintro rfl; exact not_terminal_iff.mpr hS hf.1
  have hmT : Terminal (Listed D L S m) m := terminal_listed.mpr ⟨hmL, hm.1⟩
  rcases rderives_listed hf hS hm hmL h with ⟨v, e, hv⟩ | ⟨pre, σ, v, hpre, e, hσ, hv⟩
  · obtain ⟨v₁, h1, rfl⟩ := split_at_terminals (p := [L]) hA hv e.symm
    have hl : α = [] ∧ A = L ∧ v₁ = [] := by
      cases α with
      | nil => simp at h1; exact ⟨rfl, h1.1.symm, h1.2⟩
      | cons x u => simp at h1
    obtain ⟨rfl, rfl, rfl⟩ := hl
    exact .list _
  · have hq : Terminals (Listed D L S m) (m :: v) := by
      intro x hx
      rcases List.mem_cons.mp hx with rfl | hx
      · exact hmT
      · exact hv x hx
    obtain ⟨v₁, h1, rfl⟩ := split_at_terminals hA hq e.symm
    rcases List.append_eq_append_iff.mp h1 with ⟨c, rfl, h2⟩ | ⟨c, h2, h3⟩
    · subst h2
      exact .item pre c v₁ v A hpre hσ
    · rcases hpre with rfl | rfl
      · obtain ⟨rfl, rfl⟩ := List.append_eq_nil_iff.mp h2.symm
        simp only [List.nil_append] at h3
        rw [← h3] at hσ
        exact .item [] [] v₁ v A (Or.inl rfl) hσ
      · cases α with
        | nil =>
          simp only [List.nil_append] at h2
          subst h2
          simp only [List.cons_append, List.nil_append, List.cons.injEq] at h3
          obtain ⟨rfl, rfl⟩ := h3
          exact .list _
        | cons z u =>
          simp only [List.cons_append, List.cons.injEq] at h2
          obtain ⟨h4, h5⟩ := h2
          obtain ⟨rfl, rfl⟩ := List.append_eq_nil_iff.mp h5.symm
          simp only [List.nil_append] at h3
          rw [← h3] at hσ
          have := SeqForm.item (D := D) (L := L) (S := S) (m := m) [z] [] v₁ v A (Or.inr (by rw [h4])) hσ
          simpa using this

/-! ### LR(1) -/

/-- A form of `S` with an occurrence of `S` is `S` itself. -/
theorem form_start (hb : InNoBody D S) {φ : List T} (h : RDerives D [S] φ) (hx : S ∈ φ) : φ = [S] := by
  have key : φ = [S] ∨ S ∉ φ := by
    clear hx
    induction h with
    | refl => exact Or.inl rfl
    | @tail b c h s ih =>
      right
      cases s with
      | @mk u v A i body hp hv =>
        rcases ih with e | ih
        · have hl : u = [] ∧ v = [] := by
            cases u with
            | nil => simp at e; exact ⟨rfl, e.2⟩
            | cons x u => simp at e
          obtain ⟨rfl, rfl⟩ := hl
          simpa using hb _ _ _ hp
        · simp only [List.mem_append, List.mem_cons, not_or] at ih ⊢
          exact ⟨⟨ih.1, hb _ _ _ hp⟩, ih.2.2⟩
  exact key.resolve_right fun h => h hx

/-- What stands before the mark, when the text before it has no mark. -/
theorem split_mark {p q y x : List T} {m : T} (hp : m ∉ p) (hq : m ∉ q) (e : p ++ m :: x = q ++ y) :
    ∃ y₁, p = q ++ y₁ ∧ y = y₁ ++ m :: x := by
  rcases List.append_eq_append_iff.mp e with ⟨c, rfl, h⟩ | ⟨c, rfl, h⟩
  · cases c with
    | nil => exact ⟨[], by simp, by simpa using h.symm⟩
    | cons z c =>
      simp only [List.cons_append, List.cons.injEq] at h
      exact absurd (by simp [h.1]) hq
  · exact ⟨c, rfl, h⟩

/-- The grammar of sequences is LR(1) if that of the pieces is. -/
theorem lr1_listed {eof : T} (hf : Fresh D L) (hS : Nonterminal D S) (hm : Fresh D m) (hmL : m ≠ L)
    (hb : InNoBody D S) (hn : NoEmpty D) (hlr : LR1 D S eof) : LR1 (Listed D L S m) L eof := by
  have hne : L ≠ S := by rintro rfl; exact not_terminal_iff.mpr hS hf.1
  have hmS : m ≠ S := by rintro rfl; exact not_terminal_iff.mpr hS hm.1
  have hpL : ∀ {i : Nat} {b : List T}, IsProd (Listed D L S m) L i b →
      (i = 0 ∧ b = [S, m]) ∨ (i = 1 ∧ b = [L, S, m]) := by
    intro i b hp
    rcases (isProd_listed hf).mp hp with ⟨_, h⟩ | hp
    · exact h
    · exact absurd rfl (hf.ne hp)
  have hpD : ∀ {A : T} {i : Nat} {b σ₁ σ₂ : List T}, RDerives D [S] (σ₁ ++ A :: σ₂) →
      IsProd (Listed D L S m) A i b → IsProd D A i b := by
    intro A i b σ₁ σ₂ h hp
    refine ((isProd_listed hf).mp hp).resolve_left fun e => ?_
    exact hf.absent hne h.derives (by simp [e.1])
  have hLb : ∀ {A : T} {i : Nat} {b σ₁ σ₂ : List T}, RDerives D [S] (σ₁ ++ A :: σ₂) → IsProd D A i b →
      L ∉ σ₁ ++ b ∧ m ∉ σ₁ ++ b := by
    intro A i b σ₁ σ₂ h hp
    have h1 := hf.absent hne h.derives
    have h2 := hm.absent hmS h.derives
    simp only [List.mem_append, List.mem_cons, not_or] at h1 h2 ⊢
    exact ⟨⟨h1.1, hf.2 _ _ _ hp⟩, ⟨h2.1, hm.2 _ _ _ hp⟩⟩
  -- a text with a step inside a piece does not begin as one made from the list
  have hno : ∀ {A : T} {i : Nat} {b pre σ₁ σ₂ q : List T} {j : Nat} {d x : List T}, (pre = [] ∨ pre = [L]) →
      RDerives D [S] (σ₁ ++ A :: σ₂) → IsProd D A i b → IsProd (Listed D L S m) L j d →
      d ++ x ≠ pre ++ ((σ₁ ++ b) ++ q) := by
    intro A i b pre σ₁ σ₂ q j d x hpre h hp hd e
    have hL := (hLb h hp).1
    have hbe : σ₁ ++ b ≠ [] := fun e => hn _ _ _ hp (List.append_eq_nil_iff.mp e).2
    have hSb : ∀ r, σ₁ ++ b ≠ S :: r := by
      intro r e
      cases σ₁ with
      | nil => exact hb _ _ _ hp (by simp only [List.nil_append] at e; rw [e]; simp)
      | cons z σ₁ =>
        simp only [List.cons_append, List.cons.injEq] at e
        have := form_start hb h (by simp [e.1])
        simp at this
    generalize σ₁ ++ b = s at hL hbe hSb e
    cases s with
    | nil => exact hbe rfl
    | cons z s =>
      rcases hpL hd with ⟨_, rfl⟩ | ⟨_, rfl⟩ <;> rcases hpre with rfl | rfl
      · simp only [List.cons_append, List.nil_append, List.cons.injEq] at e
        exact hSb s (by rw [e.1])
      · simp only [List.cons_append, List.nil_append, List.cons.injEq] at e
        exact hne e.1.symm
      · simp only [List.cons_append, List.nil_append, List.cons.injEq] at e
        exact hL (by simp [e.1])
      · simp only [List.cons_append, List.nil_append, List.cons.injEq] at e
        exact hSb s (by rw [e.2.1])
  intro α β w γ δ x y A B i j h1 hw hp1 h2 hx hp2 e hy hh
  have hA : Nonterminal (Listed D L S m) A := IsProd.nonterminal hp1
  have hB : Nonterminal (Listed D L S m) B := IsProd.nonterminal hp2
  cases seqForm hf hS hm hmL hA h1 with
  | list =>
    cases seqForm hf hS hm hmL hB h2 with
    | list =>
      simp only [List.nil_append] at e
      rcases hpL hp1 with ⟨rfl, rfl⟩ | ⟨rfl, rfl⟩ <;> rcases hpL hp2 with ⟨rfl, rfl⟩ | ⟨rfl, rfl⟩
      · simp at e; exact ⟨rfl, rfl, rfl, e⟩
      · simp at e; exact absurd e.1 hne
      · simp at e; exact absurd e.1.symm hne
      · simp at e; exact ⟨rfl, rfl, rfl, e⟩
    | item pre τ₁ τ₂ x' _ hpre ht =>
      refine absurd ?_ (hno (q := τ₂ ++ m :: x') hpre ht (hpD ht hp2) hp1 (x := y))
      simpa using e.symm
  | item pre σ₁ σ₂ w' _ hpre hs =>
    have hp1' := hpD hs hp1
    cases seqForm hf hS hm hmL hB h2 with
    | list =>
      refine absurd ?_ (hno (q := y) hpre hs hp1' hp2 (x := x))
      simpa using e
    | item pre' τ₁ τ₂ x' _ hpre' ht =>
      have hp2' := hpD ht hp2
      have k1 := hLb hs hp1'
      have k2 := hLb ht hp2'
      have hbe : σ₁ ++ β ≠ [] := fun e => hn _ _ _ hp1' (List.append_eq_nil_iff.mp e).2
      have hbe' : τ₁ ++ δ ≠ [] := fun e => hn _ _ _ hp2' (List.append_eq_nil_iff.mp e).2
      have e' : pre' ++ ((τ₁ ++ δ) ++ (τ₂ ++ m :: x')) = pre ++ ((σ₁ ++ β) ++ y) := by simpa using e
      have hpp : pre' = pre ∧ (τ₁ ++ δ) ++ (τ₂ ++ m :: x') = (σ₁ ++ β) ++ y := by
        rcases hpre with rfl | rfl <;> rcases hpre' with rfl | rfl
        · exact ⟨rfl, e'⟩
        · generalize σ₁ ++ β = s at *
          cases s with
          | nil => exact absurd rfl hbe
          | cons z s =>
            simp only [List.cons_append, List.nil_append, List.cons.injEq] at e'
            exact absurd (by simp [e'.1]) k1.1
        · generalize τ₁ ++ δ = s at *
          cases s with
          | nil => exact absurd rfl hbe'
          | cons z s =>
            simp only [List.cons_append, List.nil_append, List.cons.injEq] at e'
            exact absurd (by simp [e'.1]) k2.1
        · simp only [List.cons_append, List.nil_append, List.cons.injEq, true_and] at e'
          exact ⟨rfl, e'⟩
      obtain ⟨rfl, e2⟩ := hpp
      have hmτ : m ∉ τ₁ ++ δ ++ τ₂ := by
        have h3 := hm.absent hmS ht.derives
        have h4 := k2.2
        simp only [List.mem_append, List.mem_cons, not_or] at h3 h4 ⊢
        exact ⟨h4, h3.2.2⟩
      obtain ⟨y₁, e3, rfl⟩ := split_mark hmτ k1.2 (x := x') (y := y) (by simpa using e2)
      have hm1 : m ∉ y₁ := fun h => hmτ (by rw [e3]; simp [h])
      have hm2 : m ∉ σ₂ := by
        have h3 := hm.absent hmS hs.derives
        simp only [List.mem_append, List.mem_cons, not_or] at h3
        exact h3.2.2
      obtain ⟨r1, r2, r3, r4⟩ := hlr σ₁ β σ₂ τ₁ δ τ₂ y₁ A B i j hs
        (terminals_listed fun z hz => hw z (by simp [hz])) hp1' ht
        (terminals_listed fun z hz => hx z (by simp [hz])) hp2' e3
        (terminals_listed fun z hz => hy z (by simp [hz])) (by
          cases σ₂ with
          | nil =>
            cases y₁ with
            | nil => rfl
            | cons z y₁ => simp at hh; simp [hh] at hm1
          | cons z σ₂ =>
            cases y₁ with
            | nil => simp at hh; simp [hh] at hm2
            | cons z' y₁ => simp at hh; simp [hh])
      subst r1 r2 r3 r4
      exact ⟨rfl, rfl, rfl, rfl⟩

theorem selfDeriving_listed (hf : Fresh D L) (hn : NoEmpty D) : ¬ SelfDeriving (Listed D L S m) L := by
  rintro ⟨a, s, h⟩
  obtain ⟨A, i, h1, hp⟩ := step_single ((noEmpty_listed hf).mpr hn) s (by
    have h1 := derives_length ((noEmpty_listed hf).mpr hn) h
    have h2 := derives_length ((noEmpty_listed hf).mpr hn) (.head s (.refl _))
    simp at h1 h2
    omega)
  simp only [List.cons.injEq, and_true] at h1
  subst h1
  rcases (isProd_listed hf).mp hp with ⟨_, ⟨_, rfl⟩ | ⟨_, rfl⟩⟩ | hp
  · have := derives_length ((noEmpty_listed hf).mpr hn) h
    simp at this
  · have := derives_length ((noEmpty_listed hf).mpr hn) h
    simp at this
  · exact hf.ne hp rfl

/-! ### Sentences -/

theorem derives_unlisted (hf : Fresh D L) {a b : List T} (ha : L ∉ a)
    (h : Derives (Listed D L S m) a b) : Derives D a b := by
  induction h with
  | refl => exact .refl _
  | head s _ ih =>
    cases s with
    | mk u v hp =>
      rcases (isProd_listed hf).mp hp with ⟨rfl, _⟩ | hp
      · simp at ha
      · refine .head (.mk u v hp) (ih ?_)
        simp only [List.mem_append, List.mem_cons, not_or] at ha ⊢
        exact ⟨⟨ha.1, hf.2 _ _ _ hp⟩, ha.2.2⟩

theorem derives_listed_inv (hf : Fresh D L) (hS : Nonterminal D S) (hm : Fresh D m) (hmL : m ≠ L) {w : List T}
    (h : Derives (Listed D L S m) [L] w) (hw : Terminals (Listed D L S m) w) :
    ∃ ps, ps ≠ [] ∧ (∀ p ∈ ps, Sentence D S p) ∧ w = Marked m ps := by
  have hne : L ≠ S := by rintro rfl; exact not_terminal_iff.mpr hS hf.1
  have hmT : Terminal (Listed D L S m) m := terminal_listed.mpr ⟨hmL, hm.1⟩
  have piece : ∀ {w : List T}, Derives (Listed D L S m) [S, m] w → Terminals (Listed D L S m) w →
      ∃ p, Sentence D S p ∧ w = p ++ [m] := by
    intro w h hw
    obtain ⟨u, v, rfl, h1, h2⟩ := Derives.split (a := [S]) (b := [m]) h
    cases derives_terminals (by simpa [Terminals] using hmT) h2
    exact ⟨u, ⟨derives_unlisted hf (by simpa using hne) h1,
      terminals_listed fun x hx => hw x (by simp [hx])⟩, rfl⟩
  generalize hl : w.length = n
  induction n using Nat.strongRecOn generalizing w with
  | ind n ih =>
    cases h with
    | refl => exact absurd (terminal_listed.mp (hw L (by simp))).1 (by simp)
    | head s h =>
      generalize e : [L] = x at s
      cases s with
      | @mk u v A i b hp =>
        have hl : u = [] ∧ A = L ∧ v = [] := by
          cases u with
          | nil => simp at e; exact ⟨rfl, e.1.symm, e.2⟩
          | cons x u => simp at e
        obtain ⟨rfl, rfl, rfl⟩ := hl
        simp only [List.nil_append, List.append_nil] at h
        rcases (isProd_listed hf).mp hp with ⟨_, ⟨_, rfl⟩ | ⟨_, rfl⟩⟩ | hp
        · obtain ⟨p, h1, rfl⟩ := piece h hw
          exact ⟨[p], by simp, by simpa using h1, by simp [Marked]⟩
        · obtain ⟨u, v, rfl, h1, h2⟩ := Derives.split (a := [A]) (b := [S, m]) h
          obtain ⟨p, h3, rfl⟩ := piece h2 fun x hx => hw x (by simp [hx])
          obtain ⟨ps, h4, h5, h6⟩ := ih u.length (by rw [← hl]; simp) h1
            (fun x hx => hw x (by simp [hx])) rfl
          refine ⟨ps ++ [p], by simp, ?_, by simp [Marked, h6]⟩
          intro q hq
          rcases List.mem_append.mp hq with hq | hq
          · exact h5 q hq
          · rw [List.mem_singleton.mp hq]; exact h3
        · exact absurd rfl (hf.ne hp)

theorem derives_marked (hf : Fresh D L) {p : List T} {ps : List (List T)}
    (hp : Sentence D S p) (h : ∀ q ∈ ps, Sentence D S q) :
    Derives (Listed D L S m) [L] (Marked m (p :: ps)) := by
  have key : ∀ (ps : List (List T)) (w : List T), (∀ q ∈ ps, Sentence D S q) →
      Derives (Listed D L S m) [L] w → Derives (Listed D L S m) [L] (w ++ Marked m ps) := by
    intro ps
    induction ps with
    | nil => intro w _ h; simpa [Marked] using h
    | cons q ps ih =>
      intro w hq h
      have h2 : Derives (Listed D L S m) [L] (w ++ (q ++ [m])) := by
        refine .trans (.of_prod ((isProd_listed hf).mpr (Or.inl ⟨rfl, Or.inr ⟨rfl, rfl⟩⟩))) ?_
        exact Derives.append (a := [L]) (c := [S, m]) h
          (Derives.append (a := [S]) (c := [m]) (derives_listed hf (hq q (by simp)).1) (.refl _))
      have h3 := ih _ (fun r hr => hq r (by simp [hr])) h2
      simpa [Marked] using h3
  have h1 : Derives (Listed D L S m) [L] (p ++ [m]) := by
    refine .trans (.of_prod ((isProd_listed hf).mpr (Or.inl ⟨rfl, Or.inl ⟨rfl, rfl⟩⟩))) ?_
    exact Derives.append (a := [S]) (c := [m]) (derives_listed hf hp.1) (.refl _)
  simpa [Marked] using key ps _ h h1

/-- The sentences of the grammar of sequences: one sentence or more, each with a mark after it. -/
theorem sentence_listed (hf : Fresh D L) (hS : Nonterminal D S) (hm : Fresh D m) (hmL : m ≠ L) {w : List T} :
    Sentence (Listed D L S m) L w ↔ ∃ ps, ps ≠ [] ∧ (∀ p ∈ ps, Sentence D S p) ∧ w = Marked m ps := by
  have hne : L ≠ S := by rintro rfl; exact not_terminal_iff.mpr hS hf.1
  constructor
  · exact fun h => derives_listed_inv hf hS hm hmL h.1 h.2
  · rintro ⟨ps, h1, h2, rfl⟩
    cases ps with
    | nil => exact absurd rfl h1
    | cons p ps =>
      refine ⟨derives_marked hf (h2 p (by simp)) fun q hq => h2 q (by simp [hq]), ?_⟩
      intro x hx
      obtain ⟨q, hq, hx⟩ := List.mem_flatMap.mp hx
      rcases List.mem_append.mp hx with hx | hx
      · refine terminal_listed.mpr ⟨?_, (h2 q hq).2 x hx⟩
        rintro rfl
        exact hf.absent hne (h2 q hq).1 hx
      · rw [List.mem_singleton.mp hx]
        exact terminal_listed.mpr ⟨hmL, hm.1⟩

theorem allProductive_listed (hf : Fresh D L) (hS : Nonterminal D S) (hm : Fresh D m) (hmL : m ≠ L)
    (hpr : AllProductive D) : AllProductive (Listed D L S m) := by
  intro A hA
  rcases nonterminal_listed.mp hA with rfl | hA'
  · obtain ⟨w, h1, h2⟩ := hpr S hS
    obtain ⟨h3, h4⟩ := (sentence_listed hf hS hm hmL).mpr ⟨[w], by simp, by simpa using ⟨h1, h2⟩, rfl⟩
    exact ⟨_, h3, h4⟩
  · obtain ⟨w, h1, h2⟩ := hpr A hA'
    refine ⟨w, derives_listed hf h1, fun x hx => terminal_listed.mpr ⟨?_, h2 x hx⟩⟩
    rintro rfl
    rcases derives_from h1 hx with h | ⟨B, i, b, hp, h⟩
    · exact not_terminal_iff.mpr hA' (List.mem_singleton.mp h ▸ hf.1)
    · exact hf.2 B i b hp h

/-! ### Trees -/

variable {M : Type}

theorem valid_unlisted (hf : Fresh D L) {tr : Tree M T} (h : Tree.Valid (Listed D L S m) tr) (hr : tr.root ≠ L) :
    Tree.Valid D tr := by
  induction h with
  | leaf ht => exact .leaf (terminal_listed.mp ht).2
  | @node A k cs hp _ ih =>
    have hp := ((isProd_listed hf).mp hp).resolve_left (fun h => hr h.1)
    refine .node hp fun c hc => ih c hc fun e => ?_
    exact hf.2 _ _ _ hp (List.mem_map.mpr ⟨c, hc, e⟩)

theorem seq_value (hf : Fresh D L) (hS : Nonterminal D S) (hm : Fresh D m) (hmL : m ≠ L)
    {red : T → Nat → List (Token M T) → Option M} {tr : Tree M T} {v : M}
    (h : Tree.Valid (Listed D L S m) tr) (hr : tr.root = L) (hv : tr.eval red = some v) :
    ∃ ps, (∀ p ∈ ps, Tree.Valid D p.1 ∧ p.1.root = S ∧ p.2.ty = m) ∧
      tr.yield = ps.flatMap (fun p => p.1.yield ++ [p.2]) ∧ SeqValue red L S ps v := by
  have hne : S ≠ L := by rintro rfl; exact not_terminal_iff.mpr hS hf.1
  have hmT : Terminal (Listed D L S m) m := terminal_listed.mpr ⟨hmL, hm.1⟩
  have leaf : ∀ {c : Tree M T}, Tree.Valid (Listed D L S m) c → c.root = m → ∃ k : Token M T, c = .leaf k ∧ k.ty = m := by
    intro c hc e
    cases hc with
    | @leaf k _ => exact ⟨k, rfl, e⟩
    | node hp _ => cases e; exact absurd hmT hp.not_terminal
  induction h generalizing v with
  | leaf ht => exact absurd hr (terminal_listed.mp ht).1
  | @node A k cs hp hc ih =>
    cases hr
    rcases (isProd_listed hf).mp hp with ⟨_, ⟨rfl, e⟩ | ⟨rfl, e⟩⟩ | hp
    · match cs, e with
      | [c, d], e =>
        simp only [List.map_cons, List.map_nil, List.cons.injEq, and_true] at e
        obtain ⟨k, rfl, hk⟩ := leaf (hc d (by simp)) e.2
        have hcv := valid_unlisted hf (hc c (by simp)) (by rw [e.1]; exact hne)
        simp only [Tree.eval, Tree.evals] at hv
        cases ha : c.eval red with
        | none => simp [ha] at hv
        | some a =>
          simp only [ha, Option.bind_some] at hv
          rw [e.1] at hv
          refine ⟨[(c, k)], by simpa using ⟨hcv, e.1, hk⟩, by simp [Tree.yield, Tree.yields], .one ha hv⟩
    · match cs, e with
      | [l, c, d], e =>
        simp only [List.map_cons, List.map_nil, List.cons.injEq, and_true] at e
        obtain ⟨k, rfl, hk⟩ := leaf (hc d (by simp)) e.2.2
        have hcv := valid_unlisted hf (hc c (by simp)) (by rw [e.2.1]; exact hne)
        simp only [Tree.eval, Tree.evals] at hv
        cases hl : l.eval red with
        | none => simp [hl] at hv
        | some acc =>
          cases ha : c.eval red with
          | none => simp [ha] at hv
          | some a =>
            simp only [hl, ha, Option.bind_some] at hv
            rw [e.1, e.2.1] at hv
            obtain ⟨ps, h1, h2, h3⟩ := ih l (by simp) e.1 hl
            refine ⟨ps ++ [(c, k)], ?_, by simp [Tree.yield, Tree.yields, h2], .more h3 ha hv⟩
            intro p hp
            rcases List.mem_append.mp hp with hp | hp
            · exact h1 p hp
            · rw [List.mem_singleton.mp hp]; exact ⟨hcv, e.2.1, hk⟩
    · exact absurd rfl (hf.ne hp)

end
end Lrp
