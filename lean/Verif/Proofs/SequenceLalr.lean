import Verif.Proofs.SequenceSlr
import Verif.Proofs.Choice

/-! LALR(1) grammars of sequences. -/

set_option linter.unusedSectionVars false

namespace Lrp
open Spec
variable {T : Type} [LinOrd T] [DecidableEq T]

section
variable {D : Decls T} {S' L S m : T}

/-- Two complete items valid for the same text are the same or items of the pieces. -/
theorem seq_pair (hf : Fresh (Listed D L S m) S') (hL : Fresh D L) (hS : Nonterminal D S)
    (hm : Fresh D m) (hmL : m ≠ L) (hSL : S' ≠ L) (hb : InNoBody D S) (hn : NoEmpty D) {γ β δ : List T} {A B : T} {i j : Nat}
    (hA : ValidItem (Sequenced D S' L S m) S' γ A i β []) (hB : ValidItem (Sequenced D S' L S m) S' γ B j δ []) :
    (A = B ∧ i = j) ∨ (Nonterminal D A ∧ Nonterminal D B) := by
  have hne : L ≠ S := by rintro rfl; exact not_terminal_iff.mpr hS hL.1
  have hmS : m ≠ S := by rintro rfl; exact not_terminal_iff.mpr hS hm.1
  have cls := fun {γ β₁ β₂ : List T} {A : T} {i : Nat}
    (h : ValidItem (Sequenced D S' L S m) S' γ A i β₁ β₂) => seq_items hf hL hS hm hmL hSL h
  have bare : ∀ {γ β₁ β₂ : List T} {A : T} {i : Nat}, ValidItem D S γ A i β₁ β₂ → L ∉ γ ∧ m ∉ γ := by
    rintro γ β₁ β₂ A i ⟨hp, α, w, rfl, _, hd⟩
    have h1 := hL.absent hne hd.derives
    have h2 := hm.absent hmS hd.derives
    have h3 := hL.2 _ _ _ hp
    have h4 := hm.2 _ _ _ hp
    simp only [List.mem_append, List.mem_cons, not_or] at h1 h2 h3 h4 ⊢
    exact ⟨⟨h1.1, h3.1⟩, h2.1, h4.1⟩
  have full : ∀ {γ β : List T} {A : T} {i : Nat}, ValidItem D S γ A i β [] → γ ≠ [] ∧ ∀ r, γ ≠ S :: r := by
    rintro γ β A i ⟨hp, α, w, rfl, _, hd⟩
    rw [List.append_nil] at hp
    refine ⟨fun e => hn _ _ _ hp (List.append_eq_nil_iff.mp e).2, fun r e => ?_⟩
    cases α with
    | nil => exact hb _ _ _ hp (by simp only [List.nil_append] at e; rw [e]; simp)
    | cons z α =>
      simp only [List.cons_append, List.cons.injEq] at e
      have := form_start hb hd (by simp [e.1])
      simp at this
  have notL : ∀ {pre γ : List T}, (pre = [] ∨ pre = [L]) → L ∉ γ → γ ≠ [] → pre ++ γ ≠ [L] := by
    intro pre γ h1 h2 h3 e
    rcases h1 with rfl | rfl
    · simp only [List.nil_append] at e; simp [e] at h2
    · simp at e; exact h3 e
  have notm : ∀ {pre γ : List T}, (pre = [] ∨ pre = [L]) → m ∉ γ → m ∉ pre ++ γ := by
    intro pre γ h1 h2 h
    rcases h1 with rfl | rfl
    · exact h2 h
    · simp only [List.cons_append, List.nil_append, List.mem_cons] at h
      exact h.elim hmL h2
  rcases cls hA with ⟨rfl, rfl, eA, rfl⟩ | ⟨rfl, hiA, rfl⟩ | ⟨pre, γ₁, hpre, rfl, vA, nA⟩
  · rw [List.append_nil] at eA
    rcases cls hB with ⟨rfl, rfl, _, _⟩ | ⟨rfl, hiB, eB⟩ | ⟨pre, γ₁, hpre, eB, vB, nB⟩
    · exact .inl ⟨rfl, rfl⟩
    · simp only [List.append_nil] at hiB
      rw [eA] at eB
      rw [← eB] at hiB
      simp at hiB
    · rw [eA] at eB
      exact absurd eB.symm (notL hpre (bare vB).1 (full vB).1)
  · simp only [List.append_nil] at hiA
    rcases cls hB with ⟨rfl, rfl, eB, rfl⟩ | ⟨rfl, hiB, rfl⟩ | ⟨pre, γ₁, hpre, eB, vB, nB⟩
    · rw [List.append_nil] at eB
      rw [eB] at hiA
      simp at hiA
    · simp only [List.append_nil] at hiB
      refine .inl ⟨rfl, ?_⟩
      rcases hiA with ⟨rfl, e⟩ | ⟨rfl, e⟩ <;> rcases hiB with ⟨rfl, e'⟩ | ⟨rfl, e'⟩
      · rfl
      · rw [e] at e'; simp at e'
      · rw [e] at e'; simp at e'
      · rfl
    · refine absurd ?_ (notm hpre (bare vB).2)
      rw [← eB]
      rcases hiA with ⟨_, e⟩ | ⟨_, e⟩ <;> simp [e]
  · rcases cls hB with ⟨rfl, rfl, eB, e⟩ | ⟨rfl, hiB, e⟩ | ⟨pre', γ₂, hpre', eB, vB, nB⟩
    · rw [List.append_nil] at eB
      rw [eB] at e
      exact absurd e (notL hpre (bare vA).1 (full vA).1)
    · simp only [List.append_nil] at hiB
      refine absurd ?_ (notm hpre (bare vA).2)
      rw [e]
      rcases hiB with ⟨_, e⟩ | ⟨_, e⟩ <;> simp [e]
    · exact .inr ⟨nA, nB⟩

/-- With a complete item of the sequences no item of them is valid that has a token after the point. -/
theorem seq_shift (hf : Fresh (Listed D L S m) S') (hL : Fresh D L) (hS : Nonterminal D S)
    (hm : Fresh D m) (hmL : m ≠ L) (hSL : S' ≠ L) (hb : InNoBody D S) (hn : NoEmpty D) {γ β δ₁ δ₂ : List T} {A B a : T} {i j : Nat}
    (hA : ValidItem (Sequenced D S' L S m) S' γ A i β [])
    (hB : ValidItem (Sequenced D S' L S m) S' γ B j δ₁ (a :: δ₂)) (ha : Terminal (Sequenced D S' L S m) a) :
    Nonterminal D B ∧ (A = S' ∨ Nonterminal D A) := by
  have hne : L ≠ S := by rintro rfl; exact not_terminal_iff.mpr hS hL.1
  have hmS : m ≠ S := by rintro rfl; exact not_terminal_iff.mpr hS hm.1
  have cls := fun {γ β₁ β₂ : List T} {A : T} {i : Nat}
    (h : ValidItem (Sequenced D S' L S m) S' γ A i β₁ β₂) => seq_items hf hL hS hm hmL hSL h
  have bare : ∀ {γ β₁ β₂ : List T} {A : T} {i : Nat}, ValidItem D S γ A i β₁ β₂ → L ∉ γ ∧ m ∉ γ := by
    rintro γ β₁ β₂ A i ⟨hp, α, w, rfl, _, hd⟩
    have h1 := hL.absent hne hd.derives
    have h2 := hm.absent hmS hd.derives
    have h3 := hL.2 _ _ _ hp
    have h4 := hm.2 _ _ _ hp
    simp only [List.mem_append, List.mem_cons, not_or] at h1 h2 h3 h4 ⊢
    exact ⟨⟨h1.1, h3.1⟩, h2.1, h4.1⟩
  have full : ∀ {γ β : List T} {A : T} {i : Nat}, ValidItem D S γ A i β [] → γ ≠ [] ∧ ∀ r, γ ≠ S :: r := by
    rintro γ β A i ⟨hp, α, w, rfl, _, hd⟩
    rw [List.append_nil] at hp
    refine ⟨fun e => hn _ _ _ hp (List.append_eq_nil_iff.mp e).2, fun r e => ?_⟩
    cases α with
    | nil => exact hb _ _ _ hp (by simp only [List.nil_append] at e; rw [e]; simp)
    | cons z α =>
      simp only [List.cons_append, List.cons.injEq] at e
      have := form_start hb hd (by simp [e.1])
      simp at this
  have notL : ∀ {pre γ : List T}, (pre = [] ∨ pre = [L]) → L ∉ γ → γ ≠ [] → pre ++ γ ≠ [L] := by
    intro pre γ h1 h2 h3 e
    rcases h1 with rfl | rfl
    · simp only [List.nil_append] at e; simp [e] at h2
    · simp at e; exact h3 e
  have notm : ∀ {pre γ : List T}, (pre = [] ∨ pre = [L]) → m ∉ γ → m ∉ pre ++ γ := by
    intro pre γ h1 h2 h
    rcases h1 with rfl | rfl
    · exact h2 h
    · simp only [List.cons_append, List.nil_append, List.mem_cons] at h
      exact h.elim hmL h2
  have haD : Terminal D a := (terminal_listed.mp (terminal_wrapped.mp ha).2).2
  have haS : a ≠ S := by rintro rfl; exact not_terminal_iff.mpr hS haD
  have haL : a ≠ L := (terminal_listed.mp (terminal_wrapped.mp ha).2).1
  rcases cls hB with ⟨rfl, rfl, eB, rfl⟩ | ⟨rfl, hiB, rfl⟩ | ⟨pre', γ₂, hpre', rfl, vB, nB⟩
  · have : γ = [] ∧ a = L := by
      cases γ with
      | nil => simp at eB; exact ⟨rfl, eB.1⟩
      | cons z u => simp at eB
    exact absurd this.2 haL
  · -- the point stands before a mark
    have hg : γ = [S] ∨ γ = [B, S] := by
      rcases hiB with ⟨_, e⟩ | ⟨_, e⟩
      · match γ, e with
        | [], e => simp at e; exact absurd e.1 haS
        | [z], e => simp at e; exact Or.inl (by rw [e.1])
        | z :: z' :: r, e => have := congrArg List.length e; simp at this
      · match γ, e with
        | [], e => simp at e; exact absurd e.1 haL
        | [z], e => simp at e; exact absurd e.2.1 haS
        | [z, z'], e => simp at e; exact Or.inr (by rw [e.1, e.2.1])
        | z :: z' :: z'' :: r, e => have := congrArg List.length e; simp at this
    rcases cls hA with ⟨rfl, rfl, eA, e⟩ | ⟨rfl, hiA, e⟩ | ⟨pre, γ₁, hpre, e, vA, nA⟩
    · rw [List.append_nil] at eA
      rw [e, eA] at hg
      simp [hne] at hg
    · simp only [List.append_nil] at hiA
      rw [e] at hg
      rcases hg with hg | hg <;> rw [hg] at hiA <;> simp at hiA
      exact (hne hiA.2.1).elim
    · have h1 := (bare vA).1
      have h2 := (full vA).2
      have h3 := (full vA).1
      rcases hpre with rfl | rfl
      · simp only [List.nil_append] at e
        subst e
        rcases hg with rfl | rfl
        · exact (h2 [] rfl).elim
        · simp at h1
      · rcases hg with rfl | rfl
        · simp only [List.cons_append, List.nil_append, List.cons.injEq] at e
          exact (hne e.1.symm).elim
        · simp only [List.cons_append, List.nil_append, List.cons.injEq, true_and] at e
          exact (h2 [] e.symm).elim
  · rcases cls hA with ⟨rfl, rfl, eA, e⟩ | ⟨rfl, hiA, e⟩ | ⟨pre, γ₁, hpre, e, vA, nA⟩
    · exact ⟨nB, .inl rfl⟩
    · simp only [List.append_nil] at hiA
      refine absurd ?_ (notm hpre' (bare vB).2)
      rw [e]
      rcases hiA with ⟨_, e⟩ | ⟨_, e⟩ <;> simp [e]
    · exact ⟨nB, .inr nA⟩

/-- The LR(1) items valid for a prefix. -/
theorem seq_items1 {eof : T} (hf : Fresh (Listed D L S m) S') (hL : Fresh D L) (hS : Nonterminal D S)
    (hm : Fresh D m) (hmL : m ≠ L) (hSL : S' ≠ L) {γ β₁ β₂ : List T} {A x : T} {i : Nat}
    (h : ValidItem1 (Sequenced D S' L S m) S' eof γ A i β₁ β₂ x) :
    (A = S' ∧ x = eof) ∨ A = L ∨
    (∃ pre γ', (pre = [] ∨ pre = [L]) ∧ γ = pre ++ γ' ∧
      ((x ≠ m ∧ ValidItem1 D S eof γ' A i β₁ β₂ x) ∨ (x = m ∧ ValidItem1 D S eof γ' A i β₁ β₂ eof))) := by
  have hne : L ≠ S := by rintro rfl; exact not_terminal_iff.mpr hS hL.1
  have hmS : m ≠ S := by rintro rfl; exact not_terminal_iff.mpr hS hm.1
  obtain ⟨hp, α, w, rfl, hw, hh, hd⟩ := h
  rcases (rderives_wrapped hf hSL).mp hd with e | hd'
  · left
    have hl : α = [] ∧ A = S' ∧ w = [] := by
      cases α with
      | nil => simp at e; exact ⟨rfl, e⟩
      | cons x u => simp at e
    obtain ⟨rfl, rfl, rfl⟩ := hl
    exact ⟨rfl, by simpa using hh.symm⟩
  · right
    have hAS : A ≠ S' := by
      rintro rfl
      have hx := hf.absent hSL hd'.derives
      exact hx (by simp)
    have hp' := ((isProd_wrapped hf).mp hp).resolve_left fun h => hAS h.1
    have hform := seqForm hL hS hm hmL hp'.nonterminal hd'
    generalize hww : w = w0 at hform hw
    cases hform with
    | list => exact .inl rfl
    | item pre σ₁ σ₂ w' _ hpre hs =>
      right
      have hp2 : IsProd D A i (β₁ ++ β₂) := by
        refine ((isProd_listed hL).mp hp').resolve_left fun h => ?_
        exact hL.absent hne hs.derives (by simp [h.1])
      have ht : Terminals D σ₂ := terminals_listed fun x hx => (terminal_wrapped.mp (hw x (by simp [hx]))).2
      have hmσ := hm.absent hmS hs.derives
      refine ⟨pre, σ₁ ++ β₁, hpre, by simp, ?_⟩
      subst hww
      cases σ₂ with
      | nil =>
        simp at hh
        exact .inr ⟨hh.symm, hp2, σ₁, [], rfl, ht, rfl, hs⟩
      | cons y σ₂ =>
        simp at hh
        subst hh
        exact .inl ⟨fun e => hmσ (by simp [e]), hp2, σ₁, y :: σ₂, rfl, ht, rfl, hs⟩

/-- An item of the pieces is valid in a sequence. -/
theorem seq_item_up (hf : Fresh (Listed D L S m) S') (hL : Fresh D L) (hS : Nonterminal D S)
    (hm : Fresh D m) (hmL : m ≠ L) (hSL : S' ≠ L) (hSm : S' ≠ m) {pre γ β₁ β₂ : List T} {A : T} {i : Nat} (hpre : pre = [] ∨ pre = [L])
    (h : ValidItem D S γ A i β₁ β₂) : ValidItem (Sequenced D S' L S m) S' (pre ++ γ) A i β₁ β₂ := by
  have hne : L ≠ S := by rintro rfl; exact not_terminal_iff.mpr hS hL.1
  have hneS : S' ≠ S := by
    rintro rfl
    exact not_terminal_iff.mpr hS (terminal_listed.mp hf.1).2
  have hfD : Fresh D S' :=
    ⟨(terminal_listed.mp hf.1).2, fun A i b hp => hf.2 A i b ((isProd_listed hL).mpr (Or.inr hp))⟩
  have hmT : Terminal (Sequenced D S' L S m) m := terminal_wrapped.mpr ⟨hSm.symm, terminal_listed.mpr ⟨hmL, hm.1⟩⟩
  have tms : ∀ {p r : List T} {X : T}, Derives D [S] (p ++ X :: r) → Terminals D r →
      Terminals (Sequenced D S' L S m) (r ++ [m]) := by
    intro p r X hd hr x hx
    rcases List.mem_append.mp hx with hx | hx
    · refine terminal_wrapped.mpr ⟨?_, terminal_listed.mpr ⟨?_, hr x hx⟩⟩
      · rintro rfl
        exact hfD.absent hneS hd (by simp [hx])
      · rintro rfl
        exact hL.absent hne hd (by simp [hx])
    · rw [List.mem_singleton.mp hx]
      exact hmT
  have top : RDerives (Sequenced D S' L S m) [S'] [L] :=
    .tail .refl (RStep.mk [] [] ((isProd_sequenced hf hL).mpr (.inl ⟨rfl, rfl, rfl⟩)) (by simp [Terminals]))
  have base : RDerives (Sequenced D S' L S m) [S'] (pre ++ ([S] ++ [m])) := by
    rcases hpre with rfl | rfl
    · exact .tail top (RStep.mk [] [] ((isProd_sequenced hf hL).mpr (.inr (.inl ⟨rfl, .inl ⟨rfl, rfl⟩⟩)))
        (by simp [Terminals]))
    · exact .tail top (RStep.mk [] [] ((isProd_sequenced hf hL).mpr (.inr (.inl ⟨rfl, .inr ⟨rfl, rfl⟩⟩)))
        (by simp [Terminals]))
  have up : ∀ {w : List T}, RDerives D [S] w → RDerives (Sequenced D S' L S m) [S'] (pre ++ (w ++ [m])) := by
    intro w h
    induction h with
    | refl => exact base
    | tail h s ih =>
      obtain @⟨p, r, X, k, b, hp, hr⟩ := s
      have := RDerives.tail (b := pre ++ p ++ X :: (r ++ [m])) (by simpa using ih)
        (RStep.mk (pre ++ p) (r ++ [m]) ((isProd_sequenced hf hL).mpr (.inr (.inr hp))) (tms h.derives hr))
      simpa using this
  obtain ⟨hp, α, w, rfl, hw, hd⟩ := h
  exact ⟨(isProd_sequenced hf hL).mpr (.inr (.inr hp)), pre ++ α, w ++ [m], by simp, tms hd.derives hw,
    by simpa using up hd⟩

/-- The grammar of sequences is LALR(1) if that of the pieces is. -/
theorem lalr1_sequenced {eof : T} (hf : Fresh (Listed D L S m) S') (hL : Fresh D L) (hS : Nonterminal D S)
    (hm : Fresh D m) (hmL : m ≠ L) (hSL : S' ≠ L) (hSm : S' ≠ m) (heb : InNoBody D eof) (hb : InNoBody D S) (hn : NoEmpty D)
    (hD : LALR1 D S eof) : LALR1 (Sequenced D S' L S m) S' eof := by
  have hne : L ≠ S := by rintro rfl; exact not_terminal_iff.mpr hS hL.1
  have hmS : m ≠ S := by rintro rfl; exact not_terminal_iff.mpr hS hm.1
  have hfD : Terminal D S' := (terminal_listed.mp hf.1).2
  have bare : ∀ {γ β₁ β₂ : List T} {A : T} {i : Nat}, ValidItem D S γ A i β₁ β₂ → L ∉ γ ∧ m ∉ γ := by
    rintro γ β₁ β₂ A i ⟨hp, α, w, rfl, _, hd⟩
    have h1 := hL.absent hne hd.derives
    have h2 := hm.absent hmS hd.derives
    have h3 := hL.2 _ _ _ hp
    have h4 := hm.2 _ _ _ hp
    simp only [List.mem_append, List.mem_cons, not_or] at h1 h2 h3 h4 ⊢
    exact ⟨⟨h1.1, h3.1⟩, h2.1, h4.1⟩
  have same : ∀ {pre pre' γ γ' : List T}, (pre = [] ∨ pre = [L]) → (pre' = [] ∨ pre' = [L]) → L ∉ γ → L ∉ γ' →
      pre ++ γ = pre' ++ γ' → γ = γ' := by
    intro pre pre' γ γ' h1 h2 h3 h4 e
    rcases h1 with rfl | rfl <;> rcases h2 with rfl | rfl
    · exact e
    · exact absurd (by rw [show γ = [L] ++ γ' from e]; simp) h3
    · exact absurd (by rw [← show [L] ++ γ = γ' from e]; simp) h4
    · simpa using e
  have key : ∀ {pre pre' γ γ' : List T}, (pre = [] ∨ pre = [L]) → (pre' = [] ∨ pre' = [L]) → L ∉ γ' →
      SameItems (Sequenced D S' L S m) S' (pre ++ γ) (pre' ++ γ') → ∀ A i β₁ β₂, ValidItem D S γ A i β₁ β₂ →
      ValidItem D S γ' A i β₁ β₂ := by
    intro pre pre' γ γ' h1 h2 hL' hs A i β₁ β₂ hv
    rcases seq_items hf hL hS hm hmL hSL ((hs _ _ _ _).mp (seq_item_up hf hL hS hm hmL hSL hSm h1 hv)) with
      ⟨rfl, _⟩ | ⟨rfl, _⟩ | ⟨p, γ₁, hp, e, v, _⟩
    · exact absurd hfD hv.1.not_terminal
    · exact absurd hL.1 hv.1.not_terminal
    · exact same hp h2 (bare v).1 hL' e.symm ▸ v
  have sames : ∀ {pre pre' γ γ' : List T}, (pre = [] ∨ pre = [L]) → (pre' = [] ∨ pre' = [L]) → L ∉ γ → L ∉ γ' →
      SameItems (Sequenced D S' L S m) S' (pre ++ γ) (pre' ++ γ') → SameItems D S γ γ' :=
    fun h1 h2 h3 h4 hs A i β₁ β₂ =>
      ⟨key h1 h2 h4 hs A i β₁ β₂, key h2 h1 h3 (fun A i β₁ β₂ => (hs A i β₁ β₂).symm) A i β₁ β₂⟩
  have itemD : ∀ {γ β₁ β₂ : List T} {A x : T} {i : Nat}, ValidItem1 (Sequenced D S' L S m) S' eof γ A i β₁ β₂ x →
      Nonterminal D A → ∃ pre γ', (pre = [] ∨ pre = [L]) ∧ γ = pre ++ γ' ∧ L ∉ γ' ∧
        ((x ≠ m ∧ ValidItem1 D S eof γ' A i β₁ β₂ x) ∨ (x = m ∧ ValidItem1 D S eof γ' A i β₁ β₂ eof)) := by
    intro γ β₁ β₂ A x i h hA
    rcases seq_items1 hf hL hS hm hmL hSL h with ⟨rfl, _⟩ | rfl | ⟨pre, γ', h1, h2, h3⟩
    · exact absurd hfD (not_terminal_iff.mpr hA)
    · exact absurd hL.1 (not_terminal_iff.mpr hA)
    · exact ⟨pre, γ', h1, h2, h3.elim (fun h => (bare h.2.item).1) (fun h => (bare h.2.item).1), h3⟩
  constructor
  · intro γ γ' A i β B j δ x hs hA hB
    rcases seq_pair hf hL hS hm hmL hSL hb hn hA.item ((hs _ _ _ _).mpr hB.item) with h | ⟨nA, nB⟩
    · exact h
    · obtain ⟨p, γ₁, h1, rfl, l1, i1⟩ := itemD hA nA
      obtain ⟨p', γ₂, h2, rfl, l2, i2⟩ := itemD hB nB
      have hs' := sames h1 h2 l1 l2 hs
      rcases i1 with ⟨n1, g1⟩ | ⟨e1, g1⟩ <;> rcases i2 with ⟨n2, g2⟩ | ⟨e2, g2⟩
      · exact hD.1 γ₁ γ₂ A i β B j δ x hs' g1 g2
      · exact absurd e2 n1
      · exact absurd e1 n2
      · exact hD.1 γ₁ γ₂ A i β B j δ eof hs' g1 g2
  · intro γ γ' A i β B j δ₁ a δ₂ hs hA hB ha
    obtain ⟨nB, h⟩ := seq_shift hf hL hS hm hmL hSL hb hn hA.item ((hs _ _ _ _).mpr hB) ha
    rcases seq_items hf hL hS hm hmL hSL hB with ⟨rfl, _⟩ | ⟨rfl, _⟩ | ⟨p', γ₂, h2, rfl, v2, _⟩
    · exact absurd hfD (not_terminal_iff.mpr nB)
    · exact absurd hL.1 (not_terminal_iff.mpr nB)
    · rcases h with rfl | nA
      · rcases seq_items1 hf hL hS hm hmL hSL hA with ⟨_, rfl⟩ | e | ⟨_, _, _, _, h3⟩
        · exact heb _ _ _ v2.1 (by simp)
        · exact hSL e
        · exact h3.elim (fun h => h.2.1.not_terminal hfD) (fun h => h.2.1.not_terminal hfD)
      · obtain ⟨p, γ₁, h1, rfl, l1, i1⟩ := itemD hA nA
        rcases i1 with ⟨_, g1⟩ | ⟨rfl, _⟩
        · exact hD.2 γ₁ γ₂ A i β B j δ₁ a δ₂ (sames h1 h2 l1 (bare v2).1 hs) g1 v2
            (terminal_listed.mp (terminal_wrapped.mp ha).2).2
        · exact hm.2 _ _ _ v2.1 (by simp)

end
end Lrp
