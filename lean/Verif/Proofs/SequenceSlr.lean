import Verif.Proofs.Sequence

/-! SLR(1) grammars of sequences. -/

set_option linter.unusedSectionVars false

namespace Lrp
open Spec
variable {T : Type} [LinOrd T] [DecidableEq T]

section
variable {D : Decls T} {S' L S m : T}

theorem marked_cons {α : Type} (m : α) (p : List α) (ps : List (List α)) :
    Marked m (p :: ps) = p ++ m :: Marked m ps := by simp [Marked]

/-- Where a symbol that is not the mark stands. -/
theorem split_marked {m A : T} {ps : List (List T)} {e u v : List T} (hA : A ≠ m)
    (h : Marked m ps ++ e = u ++ A :: v) (he : A ∉ e) :
    ∃ ps₁ p₁ p₂ ps₂, ps = ps₁ ++ (p₁ ++ A :: p₂) :: ps₂ ∧ u = Marked m ps₁ ++ p₁ ∧
      v = p₂ ++ m :: (Marked m ps₂ ++ e) := by
  induction ps generalizing u with
  | nil =>
    simp only [Marked, List.flatMap_nil, List.nil_append] at h
    exact absurd (by rw [h]; simp) he
  | cons p ps ih =>
    rw [marked_cons, List.append_assoc, List.cons_append] at h
    rcases List.append_eq_append_iff.mp h with ⟨c, rfl, h1⟩ | ⟨c, rfl, h1⟩
    · cases c with
      | nil =>
        simp only [List.nil_append, List.cons.injEq] at h1
        exact absurd h1.1.symm hA
      | cons z c =>
        simp only [List.cons_append, List.cons.injEq] at h1
        obtain ⟨rfl, h1⟩ := h1
        obtain ⟨ps₁, p₁, p₂, ps₂, rfl, rfl, rfl⟩ := ih h1
        exact ⟨p :: ps₁, p₁, p₂, ps₂, by simp, by simp [marked_cons], rfl⟩
    · cases c with
      | nil =>
        simp only [List.nil_append, List.cons.injEq] at h1
        exact absurd h1.1 hA
      | cons z c =>
        simp only [List.cons_append, List.cons.injEq] at h1
        obtain ⟨rfl, rfl⟩ := h1
        exact ⟨[], u, c, ps, rfl, by simp [Marked], rfl⟩

/-- The sentential forms of a sequence and `eof`. -/
def SeqForms (D : Decls T) (S' L S m eof : T) (φ : List T) : Prop :=
  φ = [S', eof] ∨ ∃ pre ps, (pre = [] ∨ pre = [L]) ∧ (∀ p ∈ ps, Derives D [S] p) ∧ φ = pre ++ (Marked m ps ++ [eof])

theorem isProd_sequenced (hf : Fresh (Listed D L S m) S') (hL : Fresh D L) {A : T} {i : Nat} {b : List T} :
    IsProd (Sequenced D S' L S m) A i b ↔ (A = S' ∧ i = 0 ∧ b = [L]) ∨
      (A = L ∧ ((i = 0 ∧ b = [S, m]) ∨ (i = 1 ∧ b = [L, S, m]))) ∨ IsProd D A i b := by
  unfold Sequenced
  rw [isProd_wrapped hf, isProd_listed hL]

theorem seqForms_step {eof : T} (hf : Fresh (Listed D L S m) S') (hL : Fresh D L) (hS : Nonterminal D S)
    (hm : Fresh D m) (hmL : m ≠ L) (hSL : S' ≠ L) (hSm : S' ≠ m) (heof : Terminal D eof) (heS : eof ≠ S')
    (heL : eof ≠ L) {φ ψ : List T} (h : SeqForms D S' L S m eof φ) (s : Step (Sequenced D S' L S m) φ ψ) :
    SeqForms D S' L S m eof ψ := by
  have hne : L ≠ S := by rintro rfl; exact not_terminal_iff.mpr hS hL.1
  have hneS : S' ≠ S := by
    rintro rfl
    exact not_terminal_iff.mpr hS (terminal_listed.mp hf.1).2
  have hfD : Fresh D S' :=
    ⟨(terminal_listed.mp hf.1).2, fun A i b hp => hf.2 A i b ((isProd_listed hL).mpr (Or.inr hp))⟩
  have hte : ∀ {i : Nat} {b : List T}, ¬ IsProd (Sequenced D S' L S m) eof i b := by
    intro i b hp
    rcases (isProd_sequenced hf hL).mp hp with ⟨e, _⟩ | ⟨e, _⟩ | hp
    · exact heS e
    · exact heL e
    · exact hp.not_terminal heof
  have htm : ∀ {i : Nat} {b : List T}, ¬ IsProd (Sequenced D S' L S m) m i b := by
    intro i b hp
    rcases (isProd_sequenced hf hL).mp hp with ⟨e, _⟩ | ⟨e, _⟩ | hp
    · exact hSm e.symm
    · exact hmL e
    · exact hp.not_terminal hm.1
  cases s with
  | @mk u v A i b hp =>
    have hAe : A ≠ eof := by rintro rfl; exact hte hp
    have hAm : A ≠ m := by rintro rfl; exact htm hp
    -- a step inside a piece
    have inside : ∀ {pre u : List T} {ps : List (List T)}, (pre = [] ∨ pre = [L]) → (∀ p ∈ ps, Derives D [S] p) →
        Marked m ps ++ [eof] = u ++ A :: v → SeqForms D S' L S m eof (pre ++ (u ++ b ++ v)) := by
      intro pre u ps hpre hps e
      obtain ⟨ps₁, p₁, p₂, ps₂, rfl, rfl, rfl⟩ := split_marked hAm e (by simpa using hAe)
      have hd := hps (p₁ ++ A :: p₂) (by simp)
      have hp' : IsProd D A i b := by
        rcases (isProd_sequenced hf hL).mp hp with ⟨rfl, _⟩ | ⟨rfl, _⟩ | hp
        · exact absurd (by simp) (hfD.absent hneS hd)
        · exact absurd (by simp) (hL.absent hne hd)
        · exact hp
      refine Or.inr ⟨pre, ps₁ ++ (p₁ ++ b ++ p₂) :: ps₂, hpre, ?_, by simp [Marked]⟩
      intro p hp
      simp only [List.mem_append, List.mem_cons] at hp
      rcases hp with hp | rfl | hp
      · exact hps p (by simp [hp])
      · exact hd.trans (.single (.mk p₁ p₂ hp'))
      · exact hps p (by simp [hp])
    rcases h with e | ⟨pre, ps, hpre, hps, e⟩
    · have hl : u = [] ∧ A = S' ∧ v = [eof] := by
        cases u with
        | nil => simp at e; exact ⟨rfl, e⟩
        | cons x u =>
          cases u with
          | nil => simp at e; exact absurd e.2.1 hAe
          | cons y u => simp at e
      obtain ⟨rfl, rfl, rfl⟩ := hl
      rcases (isProd_sequenced hf hL).mp hp with ⟨_, _, rfl⟩ | ⟨e, _⟩ | hp
      · exact Or.inr ⟨[L], [], Or.inr rfl, by simp, by simp [Marked]⟩
      · exact absurd e hSL
      · exact absurd hfD.1 hp.not_terminal
    · rcases hpre with rfl | rfl
      · exact inside (pre := []) (Or.inl rfl) hps e.symm
      · cases u with
        | nil =>
          simp only [List.nil_append, List.cons_append, List.cons.injEq] at e
          obtain ⟨rfl, rfl⟩ := e
          have hall : ∀ p ∈ [S] :: ps, Derives D [S] p := by
            intro p hp
            rcases List.mem_cons.mp hp with rfl | hp
            · exact .refl _
            · exact hps p hp
          rcases (isProd_sequenced hf hL).mp hp with ⟨e, _⟩ | ⟨_, ⟨_, rfl⟩ | ⟨_, rfl⟩⟩ | hp
          · exact absurd e.symm hSL
          · exact Or.inr ⟨[], [S] :: ps, Or.inl rfl, hall, by simp [marked_cons]⟩
          · exact Or.inr ⟨[A], [S] :: ps, Or.inr rfl, hall, by simp [marked_cons]⟩
          · exact absurd hL.1 hp.not_terminal
        | cons z u =>
          simp only [List.nil_append, List.cons_append, List.cons.injEq] at e
          obtain ⟨rfl, e⟩ := e
          have := inside (pre := [z]) (Or.inr rfl) hps e.symm
          simpa using this

/-- What follows a rule of the pieces. -/
theorem seq_follow {eof : T} (hf : Fresh (Listed D L S m) S') (hL : Fresh D L) (hS : Nonterminal D S)
    (hm : Fresh D m) (hmL : m ≠ L) (hSL : S' ≠ L) (hSm : S' ≠ m) (heof : Terminal D eof) (heS : eof ≠ S')
    (heL : eof ≠ L) {A x : T} (h : InFollow (Sequenced D S' L S m) S' eof A x) :
    (A = S' → x = eof) ∧
      (Nonterminal D A → (x ≠ m ∧ InFollow D S eof A x) ∨ (x = m ∧ InFollow D S eof A eof)) := by
  obtain ⟨u, v, hd⟩ := h
  have key : ∀ {a b : List T}, Derives (Sequenced D S' L S m) a b → SeqForms D S' L S m eof a →
      SeqForms D S' L S m eof b := by
    intro a b h
    induction h with
    | refl => exact id
    | head s _ ih => exact fun hf' => ih (seqForms_step hf hL hS hm hmL hSL hSm heof heS heL hf' s)
  have hne : L ≠ S := by rintro rfl; exact not_terminal_iff.mpr hS hL.1
  have hmS : m ≠ S := by rintro rfl; exact not_terminal_iff.mpr hS hm.1
  have hneS : S' ≠ S := by
    rintro rfl
    exact not_terminal_iff.mpr hS (terminal_listed.mp hf.1).2
  have hfD : Fresh D S' :=
    ⟨(terminal_listed.mp hf.1).2, fun A i b hp => hf.2 A i b ((isProd_listed hL).mpr (Or.inr hp))⟩
  rcases key hd (Or.inl rfl) with e | ⟨pre, ps, hpre, hps, e⟩
  · have hl : A = S' ∧ x = eof := by
      cases u with
      | nil => simp at e; exact ⟨e.1, e.2.1⟩
      | cons z u =>
        have := congrArg List.length e
        simp at this
        omega
    obtain ⟨rfl, rfl⟩ := hl
    exact ⟨fun _ => rfl, fun hA => absurd hfD.1 (not_terminal_iff.mpr hA)⟩
  · have cases' : A ≠ L → A ≠ m → A ≠ eof → ∃ u, Marked m ps ++ [eof] = u ++ A :: x :: v := by
      intro h1 h2 h3
      rcases hpre with rfl | rfl
      · exact ⟨u, e.symm⟩
      · cases u with
        | nil =>
          simp only [List.nil_append, List.cons_append, List.cons.injEq] at e
          exact absurd e.1 h1
        | cons z u =>
          simp only [List.cons_append, List.nil_append, List.cons.injEq] at e
          exact ⟨u, e.2.symm⟩
    have main : A ≠ L → A ≠ m → A ≠ eof → ∃ p₁ p₂ r, Derives D [S] (p₁ ++ A :: p₂) ∧ x :: v = p₂ ++ m :: r := by
      intro h1 h2 h3
      obtain ⟨u, e⟩ := cases' h1 h2 h3
      obtain ⟨ps₁, p₁, p₂, ps₂, rfl, _, h5⟩ := split_marked h2 e (by simpa using h3)
      exact ⟨p₁, p₂, _, hps _ (by simp), h5⟩
    constructor
    · rintro rfl
      obtain ⟨p₁, p₂, _, h, _⟩ := main hSL hSm heS.symm
      exact absurd (by simp) (hfD.absent hneS h)
    · intro hA
      have ht : ∀ {y : T}, Terminal D y → A ≠ y := by
        rintro y hy rfl
        exact not_terminal_iff.mpr hA hy
      obtain ⟨p₁, p₂, r, h, h5⟩ := main (ht hL.1) (ht hm.1) (ht heof)
      have hx := hm.absent hmS h
      cases p₂ with
      | nil =>
        simp only [List.nil_append, List.cons.injEq] at h5
        refine Or.inr ⟨h5.1, p₁, [], ?_⟩
        have := h.ctx [] [eof]
        simpa using this
      | cons z p₂ =>
        simp only [List.cons_append, List.cons.injEq] at h5
        obtain ⟨rfl, _⟩ := h5
        refine Or.inl ⟨fun e => hx (by simp [e]), p₁, p₂ ++ [eof], ?_⟩
        have := h.ctx [] [eof]
        simpa using this

/-- The items valid for a prefix. -/
theorem seq_items (hf : Fresh (Listed D L S m) S') (hL : Fresh D L) (hS : Nonterminal D S)
    (hm : Fresh D m) (hmL : m ≠ L) (hSL : S' ≠ L) {γ β₁ β₂ : List T} {A : T} {i : Nat}
    (h : ValidItem (Sequenced D S' L S m) S' γ A i β₁ β₂) :
    (A = S' ∧ i = 0 ∧ β₁ ++ β₂ = [L] ∧ γ = β₁) ∨
    (A = L ∧ ((i = 0 ∧ β₁ ++ β₂ = [S, m]) ∨ (i = 1 ∧ β₁ ++ β₂ = [L, S, m])) ∧ γ = β₁) ∨
    (∃ pre γ', (pre = [] ∨ pre = [L]) ∧ γ = pre ++ γ' ∧ ValidItem D S γ' A i β₁ β₂ ∧ Nonterminal D A) := by
  have hne : L ≠ S := by rintro rfl; exact not_terminal_iff.mpr hS hL.1
  have hneS : S' ≠ S := by
    rintro rfl
    exact not_terminal_iff.mpr hS (terminal_listed.mp hf.1).2
  have hfD : Fresh D S' :=
    ⟨(terminal_listed.mp hf.1).2, fun A i b hp => hf.2 A i b ((isProd_listed hL).mpr (Or.inr hp))⟩
  obtain ⟨hp, α, w, rfl, hw, hd⟩ := h
  rcases (rderives_wrapped hf hSL).mp hd with e | hd'
  · left
    have hl : α = [] ∧ A = S' := by
      cases α with
      | nil => simp at e; exact ⟨rfl, e.1⟩
      | cons x u => simp at e
    obtain ⟨rfl, rfl⟩ := hl
    rcases (isProd_sequenced hf hL).mp hp with ⟨_, h1, h2⟩ | ⟨e, _⟩ | hp
    · exact ⟨rfl, h1, h2, rfl⟩
    · exact absurd e hSL
    · exact absurd hfD.1 hp.not_terminal
  · right
    have hAS : A ≠ S' := by
      rintro rfl
      have hx := hf.absent hSL hd'.derives
      exact hx (by simp)
    have hp' := ((isProd_wrapped hf).mp hp).resolve_left fun h => hAS h.1
    have hform := seqForm hL hS hm hmL hp'.nonterminal hd'
    generalize hww : w = w0 at hform hw
    cases hform with
    | list =>
      left
      rcases (isProd_listed hL).mp hp' with ⟨_, h⟩ | hp
      · exact ⟨rfl, h, by simp⟩
      · exact absurd hL.1 hp.not_terminal
    | item pre σ₁ σ₂ w' _ hpre hs =>
      right
      have hp2 : IsProd D A i (β₁ ++ β₂) := by
        refine ((isProd_listed hL).mp hp').resolve_left fun h => ?_
        exact hL.absent hne hs.derives (by simp [h.1])
      refine ⟨pre, σ₁ ++ β₁, hpre, by simp, ⟨hp2, σ₁, σ₂, rfl, ?_, hs⟩, hp2.nonterminal⟩
      exact terminals_listed fun x hx => (terminal_wrapped.mp (hw x (by simp [hx]))).2

/-- The grammar of sequences is SLR(1) if that of the pieces is. -/
theorem slr1_sequenced {eof : T} (hf : Fresh (Listed D L S m) S') (hL : Fresh D L) (hS : Nonterminal D S)
    (hm : Fresh D m) (hmL : m ≠ L) (hSL : S' ≠ L) (hSm : S' ≠ m) (heof : Terminal D eof) (heb : InNoBody D eof)
    (heS : eof ≠ S') (heL : eof ≠ L) (hb : InNoBody D S) (hn : NoEmpty D) (hs : SLR1 D S eof) :
    SLR1 (Sequenced D S' L S m) S' eof := by
  have hne : L ≠ S := by rintro rfl; exact not_terminal_iff.mpr hS hL.1
  have hmS : m ≠ S := by rintro rfl; exact not_terminal_iff.mpr hS hm.1
  have fol := fun {A x : T} (h : InFollow (Sequenced D S' L S m) S' eof A x) =>
    seq_follow hf hL hS hm hmL hSL hSm heof heS heL h
  have cls := fun {γ β₁ β₂ : List T} {A : T} {i : Nat}
    (h : ValidItem (Sequenced D S' L S m) S' γ A i β₁ β₂) => seq_items hf hL hS hm hmL hSL h
  -- the prefixes inside a piece
  have bare : ∀ {γ β₁ β₂ : List T} {A : T} {i : Nat}, ValidItem D S γ A i β₁ β₂ → L ∉ γ ∧ m ∉ γ := by
    rintro γ β₁ β₂ A i ⟨hp, α, w, rfl, _, hd⟩
    have h1 := hL.absent hne hd.derives
    have h2 := hm.absent hmS hd.derives
    have h3 := hL.2 _ _ _ hp
    have h4 := hm.2 _ _ _ hp
    simp only [List.mem_append, List.mem_cons, not_or] at h1 h2 h3 h4 ⊢
    exact ⟨⟨h1.1, h3.1⟩, h2.1, h4.1⟩
  have full : ∀ {γ β : List T} {A : T} {i : Nat}, ValidItem D S γ A i β [] → γ ≠ [] ∧ ∀ r, γ ≠ S :: r := by
    rintro γ β A i ⟨hp, α, w, rfl, _, hd⟩
    rw [List.append_nil] at hp
    refine ⟨fun e => hn _ _ _ hp (List.append_eq_nil_iff.mp e).2, fun r e => ?_⟩
    cases α with
    | nil => exact hb _ _ _ hp (by simp only [List.nil_append] at e; rw [e]; simp)
    | cons z α =>
      simp only [List.cons_append, List.cons.injEq] at e
      have := form_start hb hd (by simp [e.1])
      simp at this
  have same : ∀ {pre pre' γ γ' : List T}, (pre = [] ∨ pre = [L]) → (pre' = [] ∨ pre' = [L]) → L ∉ γ → L ∉ γ' →
      pre ++ γ = pre' ++ γ' → γ = γ' := by
    intro pre pre' γ γ' h1 h2 h3 h4 e
    rcases h1 with rfl | rfl <;> rcases h2 with rfl | rfl
    · exact e
    · exact absurd (by rw [show γ = [L] ++ γ' from e]; simp) h3
    · exact absurd (by rw [← show [L] ++ γ = γ' from e]; simp) h4
    · simpa using e
  have notL : ∀ {pre γ : List T}, (pre = [] ∨ pre = [L]) → L ∉ γ → γ ≠ [] → pre ++ γ ≠ [L] := by
    intro pre γ h1 h2 h3 e
    rcases h1 with rfl | rfl
    · simp only [List.nil_append] at e; simp [e] at h2
    · simp at e; exact h3 e
  have notm : ∀ {pre γ : List T}, (pre = [] ∨ pre = [L]) → m ∉ γ → m ∉ pre ++ γ := by
    intro pre γ h1 h2 h
    rcases h1 with rfl | rfl
    · exact h2 h
    · simp only [List.cons_append, List.nil_append, List.mem_cons] at h
      exact h.elim hmL h2
  constructor
  · intro γ A i β B j δ x hA hB hx fA fB
    rcases cls hA with ⟨rfl, rfl, eA, rfl⟩ | ⟨rfl, hiA, rfl⟩ | ⟨pre, γ₁, hpre, rfl, vA, nA⟩
    · rw [List.append_nil] at eA
      rcases cls hB with ⟨rfl, rfl, _, _⟩ | ⟨rfl, hiB, eB⟩ | ⟨pre, γ₁, hpre, eB, vB, nB⟩
      · exact ⟨rfl, rfl⟩
      · simp only [List.append_nil] at hiB
        rw [eA] at eB
        rw [← eB] at hiB
        simp at hiB
      · rw [eA] at eB
        exact absurd eB.symm (notL hpre (bare vB).1 (full vB).1)
    · simp only [List.append_nil] at hiA
      rcases cls hB with ⟨rfl, rfl, eB, rfl⟩ | ⟨rfl, hiB, rfl⟩ | ⟨pre, γ₁, hpre, eB, vB, nB⟩
      · rw [List.append_nil] at eB
        rw [eB] at hiA
        simp at hiA
      · simp only [List.append_nil] at hiB
        refine ⟨rfl, ?_⟩
        rcases hiA with ⟨rfl, e⟩ | ⟨rfl, e⟩ <;> rcases hiB with ⟨rfl, e'⟩ | ⟨rfl, e'⟩
        · rfl
        · rw [e] at e'; simp at e'
        · rw [e] at e'; simp at e'
        · rfl
      · refine absurd ?_ (notm hpre (bare vB).2)
        rw [← eB]
        rcases hiA with ⟨_, e⟩ | ⟨_, e⟩ <;> simp [e]
    · rcases cls hB with ⟨rfl, rfl, eB, e⟩ | ⟨rfl, hiB, e⟩ | ⟨pre', γ₂, hpre', eB, vB, nB⟩
      · rw [List.append_nil] at eB
        rw [eB] at e
        exact absurd e (notL hpre (bare vA).1 (full vA).1)
      · simp only [List.append_nil] at hiB
        refine absurd ?_ (notm hpre (bare vA).2)
        rw [e]
        rcases hiB with ⟨_, e⟩ | ⟨_, e⟩ <;> simp [e]
      · cases same hpre hpre' (bare vA).1 (bare vB).1 eB
        have hxD : Terminal D x := (terminal_listed.mp (terminal_wrapped.mp hx).2).2
        rcases (fol fA).2 nA with ⟨_, f1⟩ | ⟨e1, f1⟩ <;> rcases (fol fB).2 nB with ⟨e2, f2⟩ | ⟨e2, f2⟩
        · exact hs.1 _ _ _ _ _ _ _ _ vA vB hxD f1 f2
        · contradiction
        · contradiction
        · exact hs.1 _ _ _ _ _ _ _ _ vA vB heof f1 f2
  · intro γ A i β B j δ₁ a δ₂ hA hB ha fA
    have haD : Terminal D a := (terminal_listed.mp (terminal_wrapped.mp ha).2).2
    have haS : a ≠ S := by rintro rfl; exact not_terminal_iff.mpr hS haD
    have haL : a ≠ L := (terminal_listed.mp (terminal_wrapped.mp ha).2).1
    rcases cls hB with ⟨rfl, rfl, eB, rfl⟩ | ⟨rfl, hiB, rfl⟩ | ⟨pre', γ₂, hpre', rfl, vB, nB⟩
    · have : γ = [] ∧ a = L := by
        cases γ with
        | nil => simp at eB; exact ⟨rfl, eB.1⟩
        | cons z u => simp at eB
      exact haL this.2
    · -- the point stands before a mark
      have hg : γ = [S] ∨ γ = [B, S] := by
        rcases hiB with ⟨_, e⟩ | ⟨_, e⟩
        · match γ, e with
          | [], e => simp at e; exact absurd e.1 haS
          | [z], e => simp at e; exact Or.inl (by rw [e.1])
          | z :: z' :: r, e => have := congrArg List.length e; simp at this
        · match γ, e with
          | [], e => simp at e; exact absurd e.1 haL
          | [z], e => simp at e; exact absurd e.2.1 haS
          | [z, z'], e => simp at e; exact Or.inr (by rw [e.1, e.2.1])
          | z :: z' :: z'' :: r, e => have := congrArg List.length e; simp at this
      rcases cls hA with ⟨rfl, rfl, eA, e⟩ | ⟨rfl, hiA, e⟩ | ⟨pre, γ₁, hpre, e, vA, nA⟩
      · rw [List.append_nil] at eA
        rw [e, eA] at hg
        simp [hne] at hg
      · simp only [List.append_nil] at hiA
        rw [e] at hg
        rcases hg with hg | hg <;> rw [hg] at hiA <;> simp at hiA
        exact hne hiA.2.1
      · have h1 := (bare vA).1
        have h2 := (full vA).2
        have h3 := (full vA).1
        rcases hpre with rfl | rfl
        · simp only [List.nil_append] at e
          subst e
          rcases hg with rfl | rfl
          · exact h2 [] rfl
          · simp at h1
        · rcases hg with rfl | rfl
          · simp only [List.cons_append, List.nil_append, List.cons.injEq] at e
            exact hne e.1.symm
          · simp only [List.cons_append, List.nil_append, List.cons.injEq, true_and] at e
            exact h2 [] e.symm
    · have ham : a ≠ m := by
        rintro rfl
        exact hm.2 _ _ _ vB.1 (by simp)
      have hae : a ≠ eof := by
        rintro rfl
        exact heb _ _ _ vB.1 (by simp)
      rcases cls hA with ⟨rfl, rfl, eA, e⟩ | ⟨rfl, hiA, e⟩ | ⟨pre, γ₁, hpre, e, vA, nA⟩
      · exact hae ((fol fA).1 rfl)
      · simp only [List.append_nil] at hiA
        refine notm hpre' (bare vB).2 ?_
        rw [e]
        rcases hiA with ⟨_, e⟩ | ⟨_, e⟩ <;> simp [e]
      · cases same hpre' hpre (bare vB).1 (bare vA).1 e
        rcases (fol fA).2 nA with ⟨_, f1⟩ | ⟨e1, _⟩
        · exact hs.2 _ _ _ _ _ _ _ _ _ vA vB haD f1
        · exact ham e1

end
end Lrp
