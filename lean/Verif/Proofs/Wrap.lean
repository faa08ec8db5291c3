import Verif.Spec.Wrap
import Verif.Proofs.Fewer
import Verif.Proofs.Folding

/-! Giving a grammar a new start rule. -/

set_option linter.unusedSectionVars false

namespace Lrp
open Spec
variable {T : Type} [LinOrd T] [DecidableEq T]

/-! ### Folding -/

/-- An edge from a vertex nothing leads to does not matter. -/
theorem foldsAway_source {E E' : T → T → Prop} {X : T} (hin : ∀ A B, E' A B → B ≠ X)
    (hout : ∀ A B, E A B → A ≠ X) (h : ∀ A B, A ≠ X → (E' A B ↔ E A B)) : FoldsAway E' ↔ FoldsAway E := by
  have h1 : ∀ n A B, Fold E' n A B → B ≠ X := by
    intro n
    induction n with
    | zero => exact hin
    | succ n ih =>
      rintro A B ⟨_, C, _, h2⟩
      exact ih C B h2
  have h2 : ∀ n A B, Fold E n A B → A ≠ X := by
    intro n
    induction n with
    | zero => exact hout
    | succ n ih =>
      rintro A B ⟨_, C, h2, _⟩
      exact ih A C h2
  have h3 : ∀ n A B, A ≠ X → (Fold E' n A B ↔ Fold E n A B) := by
    intro n
    induction n with
    | zero => exact h
    | succ n ih =>
      intro A B hA
      refine and_congr_right fun _ => ⟨?_, ?_⟩
      · rintro ⟨C, k1, k2⟩
        exact ⟨C, (ih A C hA).mp k1, (ih C B (h1 n A C k1)).mp k2⟩
      · rintro ⟨C, k1, k2⟩
        exact ⟨C, (ih A C hA).mpr k1, (ih C B (h2 n C B k2)).mpr k2⟩
  constructor
  · rintro ⟨n, hn⟩
    exact ⟨n, fun A B hf => hn A B ((h3 n A B (h2 n A B hf)).mpr hf)⟩
  · rintro ⟨n, hn⟩
    refine ⟨n + 1, ?_⟩
    rintro A B ⟨_, C, k1, k2⟩
    exact hn C B ((h3 n C B (h1 n A C k1)).mp k2)

theorem fold_flip {E : T → T → Prop} (n : Nat) (A B : T) : Fold (fun a b => E b a) n A B ↔ Fold E n B A := by
  induction n generalizing A B with
  | zero => exact Iff.rfl
  | succ n ih =>
    show (A ≠ B ∧ ∃ C, _ ∧ _) ↔ (B ≠ A ∧ ∃ C, _ ∧ _)
    simp only [ih]
    exact and_congr ⟨Ne.symm, Ne.symm⟩ (exists_congr fun C => And.comm)

theorem foldsAway_flip {E : T → T → Prop} : FoldsAway (fun a b => E b a) ↔ FoldsAway E := by
  unfold FoldsAway
  simp only [fold_flip]
  exact exists_congr fun n => ⟨fun h A B => h B A, fun h A B => h B A⟩

/-! ### The productions -/

section
variable {D : Decls T} {S' S : T}

theorem isProd_wrapped (hf : Fresh D S') {A : T} {i : Nat} {b : List T} :
    IsProd (Wrapped D S' S) A i b ↔ (A = S' ∧ i = 0 ∧ b = [S]) ∨ IsProd D A i b := by
  constructor
  · rintro ⟨bs, ⟨pre, post, e, h⟩, hi⟩
    cases pre with
    | nil =>
      simp only [Wrapped, List.nil_append, List.cons.injEq, Prod.mk.injEq] at e
      obtain ⟨⟨rfl, rfl⟩, rfl⟩ := e
      left
      cases i with
      | zero => exact ⟨rfl, rfl, by simpa using hi.symm⟩
      | succ i => simp at hi
    | cons d pre =>
      simp only [Wrapped, List.cons_append, List.cons.injEq] at e
      exact Or.inr ⟨bs, ⟨pre, post, e.2, h⟩, hi⟩
  · rintro (⟨rfl, rfl, rfl⟩ | ⟨bs, ⟨pre, post, e, h⟩, hi⟩)
    · exact ⟨[[S]], ⟨[], D, rfl, hf.1⟩, rfl⟩
    · exact ⟨bs, ⟨(S', [[S]]) :: pre, post, by rw [Wrapped, e]; rfl, h⟩, hi⟩

theorem terminal_wrapped {x : T} : Terminal (Wrapped D S' S) x ↔ x ≠ S' ∧ Terminal D x := by
  unfold Terminal Wrapped
  simp only [List.forall_mem_cons]
  exact and_congr_left fun _ => ⟨Ne.symm, Ne.symm⟩

theorem nonterminal_wrapped {x : T} : Nonterminal (Wrapped D S' S) x ↔ x = S' ∨ Nonterminal D x := by
  unfold Nonterminal Wrapped
  simp only [List.mem_cons, exists_eq_or_imp]
  exact or_congr_left ⟨Eq.symm, Eq.symm⟩

theorem Spec.Fresh.ne (hf : Fresh D S') {A : T} {i : Nat} {b : List T} (hp : IsProd D A i b) : A ≠ S' := by
  rintro rfl
  obtain ⟨bs, ⟨pre, post, e, _⟩, _⟩ := hp
  exact hf.1 (A, bs) (by rw [e]; simp) rfl

theorem inNoBody_wrapped (hf : Fresh D S') (hne : S' ≠ S) : InNoBody (Wrapped D S' S) S' := by
  intro A i b hp
  rcases (isProd_wrapped hf).mp hp with ⟨_, _, rfl⟩ | hp
  · simpa using hne
  · exact hf.2 A i b hp

theorem singleStart_wrapped (hf : Fresh D S') : SingleStart (Wrapped D S' S) S' := by
  intro i b hp
  rcases (isProd_wrapped hf).mp hp with ⟨_, h, _⟩ | hp
  · exact h
  · exact absurd rfl (hf.ne hp)

theorem noEmpty_wrapped (hf : Fresh D S') : NoEmpty (Wrapped D S' S) ↔ NoEmpty D := by
  constructor
  · exact fun h A i b hp => h A i b ((isProd_wrapped hf).mpr (Or.inr hp))
  · intro h A i b hp
    rcases (isProd_wrapped hf).mp hp with ⟨_, _, rfl⟩ | hp
    · simp
    · exact h A i b hp

theorem leftGraph_wrapped (hf : Fresh D S') (hne : S' ≠ S) :
    FoldsAway (Loopless (LeftGraph (Wrapped D S' S))) ↔ FoldsAway (Loopless (LeftGraph D)) := by
  refine foldsAway_source (X := S') ?_ ?_ ?_
  · rintro A B ⟨_, _, i, b, hp⟩ rfl
    exact inNoBody_wrapped hf hne A i _ hp (by simp)
  · rintro A B ⟨_, _, i, b, hp⟩
    exact hf.ne hp
  · intro A B hA
    refine and_congr_right fun _ => ?_
    constructor
    · rintro ⟨h1, i, b, hp⟩
      rcases (isProd_wrapped hf).mp hp with ⟨h, _, _⟩ | hp
      · exact absurd h hA
      · refine ⟨(nonterminal_wrapped.mp h1).resolve_left (fun e => ?_), i, b, hp⟩
        exact hf.2 A i _ hp (by simp [e])
    · rintro ⟨h1, i, b, hp⟩
      exact ⟨nonterminal_wrapped.mpr (Or.inr h1), i, b, (isProd_wrapped hf).mpr (Or.inr hp)⟩

theorem rightGraph_wrapped (hf : Fresh D S') (hne : S' ≠ S) :
    FoldsAway (Loopless (RightGraph (Wrapped D S' S))) ↔ FoldsAway (Loopless (RightGraph D)) := by
  rw [← foldsAway_flip, ← foldsAway_flip (E := Loopless (RightGraph D))]
  refine foldsAway_source (X := S') ?_ ?_ ?_
  · rintro A B ⟨_, _, i, b, hp⟩ rfl
    exact inNoBody_wrapped hf hne A i _ hp (by simp)
  · rintro A B ⟨_, _, i, b, hp⟩
    exact hf.ne hp
  · intro A B hA
    refine and_congr_right fun _ => ?_
    constructor
    · rintro ⟨h1, i, b, hp⟩
      rcases (isProd_wrapped hf).mp hp with ⟨h, _, _⟩ | hp
      · exact absurd h hA
      · refine ⟨(nonterminal_wrapped.mp h1).resolve_left (fun e => ?_), i, b, hp⟩
        exact hf.2 A i _ hp (by simp [e])
    · rintro ⟨h1, i, b, hp⟩
      exact ⟨nonterminal_wrapped.mpr (Or.inr h1), i, b, (isProd_wrapped hf).mpr (Or.inr hp)⟩

/-! ### Derivations -/

theorem derives_wrapped (hf : Fresh D S') {a b : List T} (h : Derives D a b) : Derives (Wrapped D S' S) a b :=
  fewer_derives (f := fun _ i => i) (fun _ _ _ hp => (isProd_wrapped hf).mpr (Or.inr hp)) h

/-- What is derived in the old grammar from the old start symbol does not contain the new one. -/
theorem Spec.Fresh.absent (hf : Fresh D S') (hne : S' ≠ S) {w : List T} (h : Derives D [S] w) : S' ∉ w := by
  intro hx
  rcases derives_from h hx with h | ⟨A, i, b, hp, h⟩
  · exact hne (List.mem_singleton.mp h)
  · exact hf.2 A i b hp h

theorem derives_unwrapped (hf : Fresh D S') {a b : List T} (ha : S' ∉ a)
    (h : Derives (Wrapped D S' S) a b) : Derives D a b := by
  induction h with
  | refl => exact .refl _
  | head s _ ih =>
    cases s with
    | mk u v hp =>
      rcases (isProd_wrapped hf).mp hp with ⟨rfl, _, _⟩ | hp
      · simp at ha
      · refine .head (.mk u v hp) (ih ?_)
        simp only [List.mem_append, List.mem_cons, not_or] at ha ⊢
        exact ⟨⟨ha.1, hf.2 _ _ _ hp⟩, ha.2.2⟩

theorem sentence_wrapped (hf : Fresh D S') (hne : S' ≠ S) {w : List T} :
    Sentence (Wrapped D S' S) S' w ↔ Sentence D S w := by
  constructor
  · rintro ⟨h, ht⟩
    refine ⟨?_, fun x hx => (terminal_wrapped.mp (ht x hx)).2⟩
    generalize e : [S'] = a at h
    cases h with
    | refl =>
      subst e
      exact absurd rfl (terminal_wrapped.mp (ht S' (by simp))).1
    | head s h =>
      cases s with
      | @mk u v A i body hp =>
        have hl : u = [] ∧ A = S' ∧ v = [] := by
          cases u with
          | nil => simp at e; exact ⟨rfl, e.1.symm, e.2⟩
          | cons x u => simp at e
        obtain ⟨rfl, rfl, rfl⟩ := hl
        rcases (isProd_wrapped hf).mp hp with ⟨_, _, rfl⟩ | hp
        · exact derives_unwrapped hf (by simpa using hne) (by simpa using h)
        · exact absurd rfl (hf.ne hp)
  · rintro ⟨h, ht⟩
    refine ⟨.head (b := [S]) ?_ (derives_wrapped hf h), fun x hx => terminal_wrapped.mpr ⟨?_, ht x hx⟩⟩
    · exact Step.mk [] [] ((isProd_wrapped hf).mpr (Or.inl ⟨rfl, rfl, rfl⟩))
    · rintro rfl
      exact hf.absent hne h hx

theorem terminals_wrapped {w : List T} : Terminals (Wrapped D S' S) w ↔ S' ∉ w ∧ Terminals D w := by
  constructor
  · exact fun h => ⟨fun hx => (terminal_wrapped.mp (h _ hx)).1 rfl, fun x hx => (terminal_wrapped.mp (h x hx)).2⟩
  · exact fun h x hx => terminal_wrapped.mpr ⟨fun e => h.1 (e ▸ hx), h.2 x hx⟩

theorem rderives_wrapped (hf : Fresh D S') (hne : S' ≠ S) {b : List T} :
    RDerives (Wrapped D S' S) [S'] b ↔ b = [S'] ∨ RDerives D [S] b := by
  constructor
  · intro h
    induction h with
    | refl => exact Or.inl rfl
    | @tail b c h s ih =>
      right
      cases s with
      | @mk u v A i body hp hv =>
        rcases ih with e | ih
        · have hl : u = [] ∧ A = S' ∧ v = [] := by
            cases u with
            | nil => simp at e; exact ⟨rfl, e⟩
            | cons x u => simp at e
          obtain ⟨rfl, rfl, rfl⟩ := hl
          rcases (isProd_wrapped hf).mp hp with ⟨_, _, rfl⟩ | hp
          · exact .refl
          · exact absurd rfl (hf.ne hp)
        · rcases (isProd_wrapped hf).mp hp with ⟨rfl, _, _⟩ | hp
          · exact absurd (by simp) (hf.absent hne ih.derives)
          · exact .tail ih (.mk u v hp (terminals_wrapped.mp hv).2)
  · rintro (rfl | h)
    · exact .refl
    · induction h with
      | refl =>
        exact .tail .refl (RStep.mk [] [] ((isProd_wrapped hf).mpr (Or.inl ⟨rfl, rfl, rfl⟩)) (by intro x hx; cases hx))
      | @tail b c h s ih =>
        have ha := hf.absent hne h.derives
        cases s with
        | mk u v hp hv =>
          refine .tail ih (.mk u v ((isProd_wrapped hf).mpr (Or.inr hp)) (terminals_wrapped.mpr ⟨?_, hv⟩))
          exact fun hx => ha (by simp [hx])

theorem Spec.Derives.first_step {a b c : List T} (h : Derives D a b) (s : Step D b c) :
    ∃ a', Step D a a' ∧ Derives D a' c := by
  cases h with
  | refl => exact ⟨c, s, .refl _⟩
  | head s' h =>
    refine ⟨_, s', ?_⟩
    clear s'
    induction h with
    | refl => exact .head s (.refl _)
    | head s'' _ ih => exact .head s'' (ih s)

theorem derives_length (hn : NoEmpty D) {a b : List T} (h : Derives D a b) : a.length ≤ b.length := by
  induction h with
  | refl => exact Nat.le_refl _
  | head s _ ih =>
    cases s with
    | mk u v hp =>
      have := List.length_pos_iff.mpr (hn _ _ _ hp)
      simp only [List.length_append, List.length_cons] at ih ⊢
      omega

theorem step_single (hn : NoEmpty D) {a b : List T} (s : Step D a b) (hb : b.length = 1) :
    ∃ A i, a = [A] ∧ IsProd D A i b := by
  cases s with
  | @mk u v A i body hp =>
    have hp' := List.length_pos_iff.mpr (hn _ _ _ hp)
    simp only [List.length_append] at hb
    have hu : u = [] := List.length_eq_zero_iff.mp (by omega)
    have hv : v = [] := List.length_eq_zero_iff.mp (by omega)
    subst hu hv
    exact ⟨A, i, rfl, by simpa using hp⟩

/-- Derivations from one symbol to one symbol are rightmost. -/
theorem rderives_single (hn : NoEmpty D) {a a' c : List T} (s : Step D a a') (h : Derives D a' c)
    (hc : c.length = 1) : ∃ B j, RDerives D a [B] ∧ IsProd D B j c := by
  induction h generalizing a with
  | refl =>
    obtain ⟨A, i, rfl, hp⟩ := step_single hn s hc
    exact ⟨A, i, .refl, hp⟩
  | head s' h ih =>
    obtain ⟨B, j, h1, h2⟩ := ih s' hc
    have h3 := derives_length hn (.head s' h)
    have h0 : ∀ {x y : List T}, Step D x y → 0 < x.length := by
      intro x y s; cases s with | mk u v hp => simp; omega
    have h4 := h0 s'
    obtain ⟨A, i, rfl, hp⟩ := step_single hn s (by omega)
    refine ⟨B, j, RDerives.trans (.tail .refl ?_) h1, h2⟩
    simpa using RStep.mk [] [] hp (by intro x hx; cases hx)

/-- The new grammar is LR(1) exactly if the old one is and its start symbol does not derive itself. -/
theorem lr1_wrapped {eof : T} (hf : Fresh D S') (hne : S' ≠ S) (hn : NoEmpty D) (he : InNoBody D eof)
    (heS : eof ≠ S) :
    LR1 (Wrapped D S' S) S' eof ↔ LR1 D S eof ∧ ¬ SelfDeriving D S := by
  have heof : ∀ {w : List T}, Derives D [S] w → eof ∉ w := by
    intro w h hx
    rcases derives_from h hx with h | ⟨A, i, b, hp, h⟩
    · exact heS (List.mem_singleton.mp h)
    · exact he A i b hp h
  have hnil : ∀ {y : List T}, eof ∉ y → some eof = (y ++ [eof]).head? → y = [] := by
    intro y hy h
    cases y with
    | nil => rfl
    | cons z y => simp at h; simp [h] at hy
  have hform : ∀ {u v : List T} {A : T}, RDerives (Wrapped D S' S) [S'] (u ++ A :: v) →
      (u = [] ∧ A = S' ∧ v = []) ∨ (RDerives D [S] (u ++ A :: v) ∧ A ≠ S') := by
    intro u v A h
    rcases (rderives_wrapped hf hne).mp h with e | h
    · left
      cases u with
      | nil => simp at e; exact ⟨rfl, e⟩
      | cons x u => simp at e
    · exact Or.inr ⟨h, fun e => hf.absent hne h.derives (by simp [e])⟩
  have hprod : ∀ {A : T} {i : Nat} {b : List T}, A ≠ S' → IsProd (Wrapped D S' S) A i b → IsProd D A i b :=
    fun hA hp => ((isProd_wrapped hf).mp hp).resolve_left (fun h => hA h.1)
  have hnew : ∀ {i : Nat} {b : List T}, IsProd (Wrapped D S' S) S' i b → i = 0 ∧ b = [S] := by
    intro i b hp
    rcases (isProd_wrapped hf).mp hp with h | hp
    · exact h.2
    · exact absurd rfl (hf.ne hp)
  constructor
  · intro h
    constructor
    · intro α β w γ δ x y A B i j h1 h2 h3 h4 h5 h6 h7 h8 h9
      have a1 := hf.absent hne h1.derives
      have a4 := hf.absent hne h4.derives
      have a7 := hf.absent hne (RDerives.tail h4 (.mk γ x h6 h5)).derives
      refine h α β w γ δ x y A B i j ((rderives_wrapped hf hne).mpr (Or.inr h1))
        (terminals_wrapped.mpr ⟨fun hx => a1 (by simp [hx]), h2⟩) ((isProd_wrapped hf).mpr (Or.inr h3))
        ((rderives_wrapped hf hne).mpr (Or.inr h4))
        (terminals_wrapped.mpr ⟨fun hx => a4 (by simp [hx]), h5⟩) ((isProd_wrapped hf).mpr (Or.inr h6)) h7
        (terminals_wrapped.mpr ⟨fun hx => a7 (by rw [h7]; simp [hx]), h8⟩) h9
    · rintro ⟨a, s, hd⟩
      obtain ⟨B, j, h1, h2⟩ := rderives_single hn s hd rfl
      have := (h [] [S] [] [] [S] [] [] S' B 0 j .refl (by intro x hx; cases hx)
        ((isProd_wrapped hf).mpr (Or.inl ⟨rfl, rfl, rfl⟩)) ((rderives_wrapped hf hne).mpr (Or.inr h1))
        (by intro x hx; cases hx) ((isProd_wrapped hf).mpr (Or.inr h2)) rfl (by intro x hx; cases hx) rfl).2.1
      exact hf.ne h2 this
  · rintro ⟨hlr, hself⟩
    intro α β w γ δ x y A B i j h1 h2 h3 h4 h5 h6 h7 h8 h9
    rcases hform h1 with ⟨rfl, rfl, rfl⟩ | ⟨h1', hA⟩
    · obtain ⟨rfl, rfl⟩ := hnew h3
      rcases hform h4 with ⟨rfl, rfl, rfl⟩ | ⟨h4, hB⟩
      · obtain ⟨rfl, rfl⟩ := hnew h6
        refine ⟨rfl, rfl, rfl, ?_⟩
        simpa using h7
      · exfalso
        have hp := hprod hB h6
        have hd := (RDerives.tail h4 (.mk γ x hp (terminals_wrapped.mp h5).2)).derives
        have hy : y = [] := hnil (fun hy => heof hd (by rw [h7]; simp [hy])) h9
        subst hy
        obtain ⟨a', s, hd'⟩ := h4.derives.first_step (.mk γ x hp)
        rw [h7] at hd'
        exact hself ⟨a', s, hd'⟩
    · have hp := hprod hA h3
      rcases hform h4 with ⟨rfl, rfl, rfl⟩ | ⟨h4, hB⟩
      · exfalso
        obtain ⟨rfl, rfl⟩ := hnew h6
        have hp' := List.length_pos_iff.mpr (hn _ _ _ hp)
        have hl := congrArg List.length h7
        simp only [List.length_append, List.length_cons, List.length_nil] at hl
        have hα : α = [] := List.length_eq_zero_iff.mp (by omega)
        have hy : y = [] := List.length_eq_zero_iff.mp (by omega)
        subst hα hy
        have hw : w = [] := hnil (fun hw => heof h1'.derives (by simp [hw])) h9.symm
        subst hw
        simp only [List.nil_append, List.append_nil] at h7
        subst h7
        obtain ⟨a', s, hd'⟩ := h1'.derives.first_step (.mk [] [] hp)
        exact hself ⟨a', s, hd'⟩
      · exact hlr α β w γ δ x y A B i j h1' (terminals_wrapped.mp h2).2 hp h4 (terminals_wrapped.mp h5).2
          (hprod hB h6) h7 (terminals_wrapped.mp h8).2 h9

end

end Lrp
