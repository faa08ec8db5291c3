import Verif.Spec.Choice
import Verif.Proofs.HostLang
import Verif.Proofs.HostSlr

/-! Two grammars as the two alternatives of a rule. -/

set_option linter.unusedSectionVars false

namespace Lrp
open Spec

section
variable {T : Type} [LinOrd T] [DecidableEq T] {D E : Decls T} {C S R : T}

structure JoinOk (D E : Decls T) (C S R : T) : Prop where
  apart : Separate D E
  cD : Fresh D C
  cE : Fresh E C
  S : Nonterminal D S
  R : Nonterminal E R

theorem JoinOk.isProd (k : JoinOk D E C S R) {A : T} {i : Nat} {b : List T} :
    IsProd (Joined D E C S R) A i b ↔
      (A = C ∧ ((i = 0 ∧ b = [S]) ∨ (i = 1 ∧ b = [R]))) ∨ IsProd D A i b ∨ IsProd E A i b := by
  rw [← isProd_both k.apart]
  constructor
  · rintro ⟨bs, ⟨pre, post, e, h⟩, hi⟩
    cases pre with
    | nil =>
      simp only [Joined, List.nil_append, List.cons.injEq, Prod.mk.injEq] at e
      obtain ⟨⟨rfl, rfl⟩, rfl⟩ := e
      left
      match i, hi with
      | 0, hi => exact ⟨rfl, .inl ⟨rfl, by simpa using hi.symm⟩⟩
      | 1, hi => exact ⟨rfl, .inr ⟨rfl, by simpa using hi.symm⟩⟩
      | i + 2, hi => simp at hi
    | cons d pre =>
      simp only [Joined, List.cons_append, List.cons.injEq] at e
      exact .inr ⟨bs, ⟨pre, post, e.2, h⟩, hi⟩
  · rintro (⟨rfl, h'⟩ | ⟨bs, ⟨pre, post, e, h'⟩, hi⟩)
    · refine ⟨[[S], [R]], ⟨[], D ++ E, rfl, terminal_both.mpr ⟨k.cD.1, k.cE.1⟩⟩, ?_⟩
      rcases h' with ⟨rfl, rfl⟩ | ⟨rfl, rfl⟩ <;> rfl
    · exact ⟨bs, ⟨(C, [[S], [R]]) :: pre, post, by rw [Joined, e]; rfl, h'⟩, hi⟩

theorem JoinOk.terminal {x : T} : Terminal (Joined D E C S R) x ↔ x ≠ C ∧ Terminal D x ∧ Terminal E x := by
  rw [← terminal_both]
  unfold Terminal Joined
  simp only [List.forall_mem_cons]
  exact and_congr_left fun _ => ⟨Ne.symm, Ne.symm⟩

theorem JoinOk.nonterminal {x : T} :
    Nonterminal (Joined D E C S R) x ↔ x = C ∨ Nonterminal D x ∨ Nonterminal E x := by
  rw [← nonterminal_both]
  unfold Nonterminal Joined
  simp only [List.mem_cons, exists_eq_or_imp]
  exact or_congr_left ⟨Eq.symm, Eq.symm⟩

/-- The symbols of one grammar, the other one being `E`. -/
def JoinOk.mine (E : Decls T) (C : T) (x : T) : Prop := Terminal E x ∧ x ≠ C

theorem JoinOk.subD (k : JoinOk D E C S R) (A : T) (i : Nat) (b : List T) (hA : JoinOk.mine E C A)
    (hp : IsProd (Joined D E C S R) A i b) : IsProd D A i b ∧ ∀ x ∈ b, JoinOk.mine E C x := by
  rcases k.isProd.mp hp with ⟨e, _⟩ | hp' | hp'
  · exact absurd e hA.2
  · refine ⟨hp', fun x hx => ⟨?_, ?_⟩⟩
    · exact Classical.byContradiction fun hn => (k.apart.1 x (not_terminal_iff.mp hn)).2 _ _ _ hp' hx
    · rintro rfl; exact k.cD.2 _ _ _ hp' hx
  · exact absurd hA.1 hp'.not_terminal

theorem JoinOk.subE (k : JoinOk D E C S R) (A : T) (i : Nat) (b : List T) (hA : JoinOk.mine D C A)
    (hp : IsProd (Joined D E C S R) A i b) : IsProd E A i b ∧ ∀ x ∈ b, JoinOk.mine D C x := by
  rcases k.isProd.mp hp with ⟨e, _⟩ | hp' | hp'
  · exact absurd e hA.2
  · exact absurd hA.1 hp'.not_terminal
  · refine ⟨hp', fun x hx => ⟨?_, ?_⟩⟩
    · exact Classical.byContradiction fun hn => (k.apart.2 x (not_terminal_iff.mp hn)).2 _ _ _ hp' hx
    · rintro rfl; exact k.cE.2 _ _ _ hp' hx

theorem JoinOk.mineS (k : JoinOk D E C S R) : JoinOk.mine E C S :=
  ⟨(k.apart.2 S k.S).1, by rintro rfl; exact not_terminal_iff.mpr k.S k.cD.1⟩

theorem JoinOk.mineR (k : JoinOk D E C S R) : JoinOk.mine D C R :=
  ⟨(k.apart.1 R k.R).1, by rintro rfl; exact not_terminal_iff.mpr k.R k.cE.1⟩

/-- The forms of the rule, each of one of the grammars. -/
theorem JoinOk.forms (k : JoinOk D E C S R) {φ : List T} (hd : RDerives (Joined D E C S R) [C] φ) :
    φ = [C] ∨ (RDerives D [S] φ ∧ ∀ x ∈ φ, JoinOk.mine E C x) ∨ (RDerives E [R] φ ∧ ∀ x ∈ φ, JoinOk.mine D C x) := by
  have tD : ∀ x, Terminal (Joined D E C S R) x → Terminal D x := fun x hx => (JoinOk.terminal.mp hx).2.1
  have tE : ∀ x, Terminal (Joined D E C S R) x → Terminal E x := fun x hx => (JoinOk.terminal.mp hx).2.2
  induction hd with
  | refl => exact .inl rfl
  | tail _ s ih =>
    right
    rcases ih with rfl | ⟨h1, h2⟩ | ⟨h1, h2⟩
    · generalize e : [C] = z at s
      cases s with
      | @mk u v A i body hp hv =>
        have hl : u = [] ∧ A = C ∧ v = [] := by
          cases u with
          | nil => simp at e; exact ⟨rfl, e.1.symm, e.2⟩
          | cons x u => simp at e
        obtain ⟨rfl, rfl, rfl⟩ := hl
        rcases k.isProd.mp hp with ⟨_, ⟨_, rfl⟩ | ⟨_, rfl⟩⟩ | hp | hp
        · exact .inl ⟨.refl, by simpa using k.mineS⟩
        · exact .inr ⟨.refl, by simpa using k.mineR⟩
        · exact absurd k.cD.1 hp.not_terminal
        · exact absurd k.cE.1 hp.not_terminal
    · obtain ⟨r1, r2⟩ := rderives_inside (D := D) (k.subD) tD (.tail .refl s) h2
      exact .inl ⟨h1.trans r1, r2⟩
    · obtain ⟨r1, r2⟩ := rderives_inside (D := E) (k.subE) tE (.tail .refl s) h2
      exact .inr ⟨h1.trans r1, r2⟩

/-- A form with the place of a step, and what it begins with after the step. -/
theorem JoinOk.step (k : JoinOk D E C S R) (hbD : InNoBody D S) (hbE : InNoBody E R) (hnD : NoEmpty D) (hnE : NoEmpty E)
    {α w b : List T} {A : T} {i : Nat} (hp : IsProd (Joined D E C S R) A i b)
    (hd : RDerives (Joined D E C S R) [C] (α ++ A :: w)) :
    (α = [] ∧ A = C ∧ w = [] ∧ ((i = 0 ∧ b = [S]) ∨ (i = 1 ∧ b = [R]))) ∨
    (RDerives D [S] (α ++ A :: w) ∧ IsProd D A i b ∧
      ∃ z r, α ++ b = z :: r ∧ z ≠ S ∧ Terminal E z ∧ Derives D [S] (z :: (r ++ w))) ∨
    (RDerives E [R] (α ++ A :: w) ∧ IsProd E A i b ∧
      ∃ z r, α ++ b = z :: r ∧ z ≠ R ∧ Terminal D z ∧ Derives E [R] (z :: (r ++ w))) := by
  rcases k.forms hd with e | ⟨h1, h2⟩ | ⟨h1, h2⟩
  · have hl : α = [] ∧ A = C ∧ w = [] := by
      cases α with
      | nil => simp at e; exact ⟨rfl, e⟩
      | cons x u => simp at e
    obtain ⟨rfl, rfl, rfl⟩ := hl
    rcases k.isProd.mp hp with ⟨_, h'⟩ | hp | hp
    · exact .inl ⟨rfl, rfl, rfl, h'⟩
    · exact absurd k.cD.1 hp.not_terminal
    · exact absurd k.cE.1 hp.not_terminal
  · obtain ⟨hp', hb⟩ := k.subD A i b (h2 A (by simp)) hp
    obtain ⟨z, r, e, hz⟩ := not_start_first hbD hnD h1 hp'
    refine .inr (.inl ⟨h1, hp', z, r, e, hz, ?_, ?_⟩)
    · have : z ∈ α ++ b := by rw [e]; simp
      rcases List.mem_append.mp this with hm | hm
      · exact (h2 z (by simp [hm])).1
      · exact (hb z hm).1
    · have := h1.derives.trans (.head (Step.mk α w hp') (.refl _))
      rwa [e] at this
  · obtain ⟨hp', hb⟩ := k.subE A i b (h2 A (by simp)) hp
    obtain ⟨z, r, e, hz⟩ := not_start_first hbE hnE h1 hp'
    refine .inr (.inr ⟨h1, hp', z, r, e, hz, ?_, ?_⟩)
    · have : z ∈ α ++ b := by rw [e]; simp
      rcases List.mem_append.mp this with hm | hm
      · exact (h2 z (by simp [hm])).1
      · exact (hb z hm).1
    · have := h1.derives.trans (.head (Step.mk α w hp') (.refl _))
      rwa [e] at this

theorem JoinOk.lr1 {eof : T} (k : JoinOk D E C S R) (hap : BeginApart D E S R) (hbD : InNoBody D S) (hbE : InNoBody E R)
    (hnD : NoEmpty D) (hnE : NoEmpty E) (hD : LR1 D S eof) (hE : LR1 E R eof) : LR1 (Joined D E C S R) C eof := by
  have tD : ∀ {w : List T}, Terminals (Joined D E C S R) w → Terminals D w := fun hx x hw => (JoinOk.terminal.mp (hx x hw)).2.1
  have tE : ∀ {w : List T}, Terminals (Joined D E C S R) w → Terminals E w := fun hx x hw => (JoinOk.terminal.mp (hx x hw)).2.2
  have hSt : ¬ Terminal D S := not_terminal_iff.mpr k.S
  have hRt : ¬ Terminal E R := not_terminal_iff.mpr k.R
  have hSR : S ≠ R := by rintro rfl; exact hSt k.mineR.1
  intro α β w γ δ x y A B i j h1 hw hp1 h2 hx hp2 e hy hh
  rcases k.step hbD hbE hnD hnE hp1 h1 with ⟨rfl, rfl, rfl, s⟩ | ⟨d1, p1, z, r, e1, n1, t1, f1⟩ | ⟨d1, p1, z, r, e1, n1, t1, f1⟩ <;>
  rcases k.step hbD hbE hnD hnE hp2 h2 with ⟨rfl, rfl, rfl, s'⟩ | ⟨d2, p2, z', r', e2, n2, t2, f2⟩ | ⟨d2, p2, z', r', e2, n2, t2, f2⟩
  · simp only [List.nil_append] at e
    rcases s with ⟨rfl, rfl⟩ | ⟨rfl, rfl⟩ <;> rcases s' with ⟨rfl, rfl⟩ | ⟨rfl, rfl⟩
    · exact ⟨rfl, rfl, rfl, (List.cons.inj e).2⟩
    · exact absurd (List.cons.inj e).1.symm hSR
    · exact absurd (List.cons.inj e).1 hSR
    · exact ⟨rfl, rfl, rfl, (List.cons.inj e).2⟩
  · rw [e2] at e
    rcases s with ⟨rfl, rfl⟩ | ⟨rfl, rfl⟩
    · exact absurd (List.cons.inj e).1 n2
    · exact absurd t2 ((List.cons.inj e).1 ▸ hRt)
  · rw [e2] at e
    rcases s with ⟨rfl, rfl⟩ | ⟨rfl, rfl⟩
    · exact absurd t2 ((List.cons.inj e).1 ▸ hSt)
    · exact absurd (List.cons.inj e).1 n2
  · rw [e1] at e
    rcases s' with ⟨rfl, rfl⟩ | ⟨rfl, rfl⟩
    · exact absurd (List.cons.inj e).1.symm n1
    · exact absurd t1 ((List.cons.inj e).1.symm ▸ hRt)
  · exact hD α β w γ δ x y A B i j d1 (tD hw) p1 d2 (tD hx) p2 e (tD hy) hh
  · rw [e1, e2] at e
    obtain ⟨rfl, _⟩ := List.cons.inj e
    exact absurd f2 (hap _ _ _ t2 t1 f1)
  · rw [e1] at e
    rcases s' with ⟨rfl, rfl⟩ | ⟨rfl, rfl⟩
    · exact absurd t1 ((List.cons.inj e).1.symm ▸ hSt)
    · exact absurd (List.cons.inj e).1.symm n1
  · rw [e1, e2] at e
    obtain ⟨rfl, _⟩ := List.cons.inj e
    exact absurd f1 (hap _ _ _ t1 t2 f2)
  · exact hE α β w γ δ x y A B i j d1 (tE hw) p1 d2 (tE hx) p2 e (tE hy) hh

theorem JoinOk.inNoBody (k : JoinOk D E C S R) : InNoBody (Joined D E C S R) C := by
  intro X i b hp
  rcases k.isProd.mp hp with ⟨_, ⟨_, rfl⟩ | ⟨_, rfl⟩⟩ | hp | hp
  · simpa using k.mineS.2.symm
  · simpa using k.mineR.2.symm
  · exact k.cD.2 X i b hp
  · exact k.cE.2 X i b hp

theorem JoinOk.noEmpty (k : JoinOk D E C S R) : NoEmpty (Joined D E C S R) ↔ NoEmpty D ∧ NoEmpty E := by
  constructor
  · intro h
    exact ⟨fun X i b hp => h X i b (k.isProd.mpr (.inr (.inl hp))), fun X i b hp => h X i b (k.isProd.mpr (.inr (.inr hp)))⟩
  · rintro ⟨h1, h2⟩ X i b hp
    rcases k.isProd.mp hp with ⟨_, ⟨_, rfl⟩ | ⟨_, rfl⟩⟩ | hp | hp
    · simp
    · simp
    · exact h1 X i b hp
    · exact h2 X i b hp

theorem JoinOk.not_self (k : JoinOk D E C S R) : ¬ SelfDeriving (Joined D E C S R) C := by
  rintro ⟨a, s, h⟩
  have ha : C ∈ a := by
    rcases derives_from h (x := C) (by simp) with h | ⟨B, i, b, hp, hb⟩
    · exact h
    · exact absurd hb (k.inNoBody B i b hp)
  generalize e : [C] = z at s
  obtain @⟨u, v, A, i, body, hp⟩ := s
  have hl : u = [] ∧ A = C ∧ v = [] := by
    cases u with
    | nil => simp at e; exact ⟨rfl, e.1.symm, e.2⟩
    | cons x u => simp at e
  obtain ⟨rfl, rfl, rfl⟩ := hl
  exact k.inNoBody _ _ _ hp (by simpa using ha)

theorem JoinOk.foldsLeft (k : JoinOk D E C S R) : FoldsAway (Loopless (LeftGraph (Joined D E C S R))) ↔
    FoldsAway (Loopless (LeftGraph D)) ∧ FoldsAway (Loopless (LeftGraph E)) := by
  rw [← foldsAway_left k.apart]
  refine foldsAway_source (X := C) ?_ ?_ ?_
  · rintro A B ⟨_, _, i, b, hp⟩ rfl
    exact k.inNoBody A i _ hp (by simp)
  · rintro A B ⟨_, _, i, b, hp⟩ rfl
    exact hp.not_terminal (terminal_both.mpr ⟨k.cD.1, k.cE.1⟩)
  · intro A B hA
    refine and_congr_right fun _ => ?_
    constructor
    · rintro ⟨h1, i, b, hp⟩
      have hp' := (k.isProd.mp hp).resolve_left fun h => hA h.1
      refine ⟨nonterminal_both.mpr ((JoinOk.nonterminal.mp h1).resolve_left fun e => ?_), i, b, (isProd_both k.apart).mpr hp'⟩
      exact k.inNoBody A i _ hp (by simp [e])
    · rintro ⟨h1, i, b, hp⟩
      exact ⟨JoinOk.nonterminal.mpr (.inr (nonterminal_both.mp h1)), i, b,
        k.isProd.mpr (.inr ((isProd_both k.apart).mp hp))⟩

theorem JoinOk.foldsRight (k : JoinOk D E C S R) : FoldsAway (Loopless (RightGraph (Joined D E C S R))) ↔
    FoldsAway (Loopless (RightGraph D)) ∧ FoldsAway (Loopless (RightGraph E)) := by
  rw [← foldsAway_right k.apart, ← foldsAway_flip, ← foldsAway_flip (E := Loopless (RightGraph (D ++ E)))]
  refine foldsAway_source (X := C) ?_ ?_ ?_
  · rintro A B ⟨_, _, i, b, hp⟩ rfl
    exact k.inNoBody A i _ hp (by simp)
  · rintro A B ⟨_, _, i, b, hp⟩ rfl
    exact hp.not_terminal (terminal_both.mpr ⟨k.cD.1, k.cE.1⟩)
  · intro A B hA
    refine and_congr_right fun _ => ?_
    constructor
    · rintro ⟨h1, i, b, hp⟩
      have hp' := (k.isProd.mp hp).resolve_left fun h => hA h.1
      refine ⟨nonterminal_both.mpr ((JoinOk.nonterminal.mp h1).resolve_left fun e => ?_), i, b, (isProd_both k.apart).mpr hp'⟩
      exact k.inNoBody A i _ hp (by simp [e])
    · rintro ⟨h1, i, b, hp⟩
      exact ⟨JoinOk.nonterminal.mpr (.inr (nonterminal_both.mp h1)), i, b,
        k.isProd.mpr (.inr ((isProd_both k.apart).mp hp))⟩

theorem JoinOk.upD (k : JoinOk D E C S R) {a b : List T} (h : Derives D a b) : Derives (Joined D E C S R) a b :=
  fewer_derives (f := fun _ i => i) (fun _ _ _ hp => k.isProd.mpr (.inr (.inl hp))) h

theorem JoinOk.upE (k : JoinOk D E C S R) {a b : List T} (h : Derives E a b) : Derives (Joined D E C S R) a b :=
  fewer_derives (f := fun _ i => i) (fun _ _ _ hp => k.isProd.mpr (.inr (.inr hp))) h

theorem JoinOk.toS (k : JoinOk D E C S R) : Derives (Joined D E C S R) [C] [S] :=
  .head (Step.mk [] [] (k.isProd.mpr (.inl ⟨rfl, .inl ⟨rfl, rfl⟩⟩))) (.refl _)

theorem JoinOk.toR (k : JoinOk D E C S R) : Derives (Joined D E C S R) [C] [R] :=
  .head (Step.mk [] [] (k.isProd.mpr (.inl ⟨rfl, .inr ⟨rfl, rfl⟩⟩))) (.refl _)

/-- What a rule of the first grammar derives has only symbols of it. -/
theorem JoinOk.fromD (k : JoinOk D E C S R) {X : T} (hX : Nonterminal D X) {w : List T} (h : Derives D [X] w) :
    ∀ x ∈ w, JoinOk.mine E C x := by
  intro x hx
  rcases derives_from h hx with h | ⟨B, i, b, hp, hb⟩
  · rw [List.mem_singleton.mp h]
    exact ⟨(k.apart.2 X hX).1, by rintro rfl; exact not_terminal_iff.mpr hX k.cD.1⟩
  · exact ⟨Classical.byContradiction fun hn => (k.apart.1 x (not_terminal_iff.mp hn)).2 _ _ _ hp hb, by
      rintro rfl; exact k.cD.2 _ _ _ hp hb⟩

theorem JoinOk.fromE (k : JoinOk D E C S R) {X : T} (hX : Nonterminal E X) {w : List T} (h : Derives E [X] w) :
    ∀ x ∈ w, JoinOk.mine D C x := by
  intro x hx
  rcases derives_from h hx with h | ⟨B, i, b, hp, hb⟩
  · rw [List.mem_singleton.mp h]
    exact ⟨(k.apart.1 X hX).1, by rintro rfl; exact not_terminal_iff.mpr hX k.cE.1⟩
  · exact ⟨Classical.byContradiction fun hn => (k.apart.2 x (not_terminal_iff.mp hn)).2 _ _ _ hp hb, by
      rintro rfl; exact k.cE.2 _ _ _ hp hb⟩

theorem JoinOk.sentence (k : JoinOk D E C S R) {w : List T} :
    Sentence (Joined D E C S R) C w ↔ Sentence D S w ∨ Sentence E R w := by
  constructor
  · rintro ⟨h, ht⟩
    have hd := RDerives.of_derives h ht
    have tD : ∀ x ∈ w, Terminal D x := fun x hx => (JoinOk.terminal.mp (ht x hx)).2.1
    have tE : ∀ x ∈ w, Terminal E x := fun x hx => (JoinOk.terminal.mp (ht x hx)).2.2
    rcases k.forms hd with rfl | ⟨h1, _⟩ | ⟨h1, _⟩
    · exact absurd (JoinOk.terminal.mp (ht C (by simp))).1 (by simp)
    · exact .inl ⟨h1.derives, tD⟩
    · exact .inr ⟨h1.derives, tE⟩
  · rintro (⟨h, ht⟩ | ⟨h, ht⟩)
    · exact ⟨k.toS.trans (k.upD h), fun x hx =>
        JoinOk.terminal.mpr ⟨(k.fromD k.S h x hx).2, ht x hx, (k.fromD k.S h x hx).1⟩⟩
    · exact ⟨k.toR.trans (k.upE h), fun x hx =>
        JoinOk.terminal.mpr ⟨(k.fromE k.R h x hx).2, (k.fromE k.R h x hx).1, ht x hx⟩⟩

theorem JoinOk.allProductive (k : JoinOk D E C S R) (hD : AllProductive D) (hE : AllProductive E) :
    AllProductive (Joined D E C S R) := by
  have low : ∀ X, Nonterminal D X ∨ Nonterminal E X → Productive (Joined D E C S R) X := by
    rintro X (hX | hX)
    · obtain ⟨w, h1, h2⟩ := hD X hX
      exact ⟨w, k.upD h1, fun x hx => JoinOk.terminal.mpr ⟨(k.fromD hX h1 x hx).2, h2 x hx, (k.fromD hX h1 x hx).1⟩⟩
    · obtain ⟨w, h1, h2⟩ := hE X hX
      exact ⟨w, k.upE h1, fun x hx => JoinOk.terminal.mpr ⟨(k.fromE hX h1 x hx).2, (k.fromE hX h1 x hx).1, h2 x hx⟩⟩
  intro X hX
  rcases JoinOk.nonterminal.mp hX with rfl | hX
  · obtain ⟨w, h1, h2⟩ := low S (.inl k.S)
    exact ⟨w, k.toS.trans h1, h2⟩
  · exact low X hX

/-! ### SLR(1) -/

theorem JoinOk.item (k : JoinOk D E C S R) {γ β₁ β₂ : List T} {A : T} {i : Nat}
    (hv : ValidItem (Joined D E C S R) C γ A i β₁ β₂) :
    (A = C ∧ γ = β₁ ∧ ((i = 0 ∧ β₁ ++ β₂ = [S]) ∨ (i = 1 ∧ β₁ ++ β₂ = [R]))) ∨
    (ValidItem D S γ A i β₁ β₂ ∧ ∀ z r, γ = z :: r → Terminal E z ∧ ∃ u, Derives D [S] (z :: u)) ∨
    (ValidItem E R γ A i β₁ β₂ ∧ ∀ z r, γ = z :: r → Terminal D z ∧ ∃ u, Derives E [R] (z :: u)) := by
  obtain ⟨hp, α, w, rfl, hw, hd⟩ := hv
  rcases k.forms hd with e | ⟨h1, h2⟩ | ⟨h1, h2⟩
  · have hl : α = [] ∧ A = C ∧ w = [] := by
      cases α with
      | nil => simp at e; exact ⟨rfl, e⟩
      | cons x u => simp at e
    obtain ⟨rfl, rfl, rfl⟩ := hl
    rcases k.isProd.mp hp with ⟨_, h'⟩ | hp | hp
    · exact .inl ⟨rfl, rfl, h'⟩
    · exact absurd k.cD.1 hp.not_terminal
    · exact absurd k.cE.1 hp.not_terminal
  · obtain ⟨hp', hb⟩ := k.subD A i _ (h2 A (by simp)) hp
    refine .inr (.inl ⟨⟨hp', α, w, rfl, fun x hx => (JoinOk.terminal.mp (hw x hx)).2.1, h1⟩, fun z r e => ?_⟩)
    have hd' := h1.derives.trans (.head (Step.mk α w hp') (.refl _))
    rw [← List.append_assoc, e] at hd'
    refine ⟨?_, _, hd'⟩
    have : z ∈ α ++ β₁ := by rw [e]; simp
    rcases List.mem_append.mp this with hm | hm
    · exact (h2 z (by simp [hm])).1
    · exact (hb z (by simp [hm])).1
  · obtain ⟨hp', hb⟩ := k.subE A i _ (h2 A (by simp)) hp
    refine .inr (.inr ⟨⟨hp', α, w, rfl, fun x hx => (JoinOk.terminal.mp (hw x hx)).2.2, h1⟩, fun z r e => ?_⟩)
    have hd' := h1.derives.trans (.head (Step.mk α w hp') (.refl _))
    rw [← List.append_assoc, e] at hd'
    refine ⟨?_, _, hd'⟩
    have : z ∈ α ++ β₁ := by rw [e]; simp
    rcases List.mem_append.mp this with hm | hm
    · exact (h2 z (by simp [hm])).1
    · exact (hb z (by simp [hm])).1

variable {eof : T}

theorem JoinOk.follow (k : JoinOk D E C S R) (eD : Fresh D eof) (eE : Fresh E eof) (eC : eof ≠ C)
    {A x : T} (hf : InFollow (Joined D E C S R) C eof A x) :
    (A = C ∧ x = eof) ∨ (JoinOk.mine E C A ∧ InFollow D S eof A x) ∨ (JoinOk.mine D C A ∧ InFollow E R eof A x) := by
  have hte : Terminal (Joined D E C S R) eof := JoinOk.terminal.mpr ⟨eC, eD.1, eE.1⟩
  obtain ⟨u, v, hd⟩ := hf
  generalize e : [C, eof] = a at hd
  generalize e' : u ++ A :: x :: v = b at hd
  cases hd with
  | refl =>
    subst e
    cases u with
    | nil => simp at e'; exact .inl ⟨e'.1, e'.2.1⟩
    | cons y u => cases u <;> simp at e'
  | head s hd =>
    obtain @⟨p, q, X, i, body, hp⟩ := s
    have hl : p = [] ∧ X = C ∧ q = [eof] := by
      cases p with
      | nil => simp at e; exact ⟨rfl, e.1.symm, e.2.symm⟩
      | cons y p =>
        cases p with
        | nil =>
          simp at e
          exact absurd hte (e.2.1 ▸ hp.not_terminal)
        | cons z p => simp at e
    obtain ⟨rfl, rfl, rfl⟩ := hl
    subst e'
    rcases k.isProd.mp hp with ⟨_, ⟨_, rfl⟩ | ⟨_, rfl⟩⟩ | hp | hp
    · obtain ⟨r1, r2⟩ := derives_inside (D := D) k.subD hd (by
        intro y hy
        simp at hy
        rcases hy with rfl | rfl
        · exact k.mineS
        · exact ⟨eE.1, eC⟩)
      exact .inr (.inl ⟨r2 A (by simp), u, v, r1⟩)
    · obtain ⟨r1, r2⟩ := derives_inside (D := E) k.subE hd (by
        intro y hy
        simp at hy
        rcases hy with rfl | rfl
        · exact k.mineR
        · exact ⟨eD.1, eC⟩)
      exact .inr (.inr ⟨r2 A (by simp), u, v, r1⟩)
    · exact absurd k.cD.1 hp.not_terminal
    · exact absurd k.cE.1 hp.not_terminal

theorem JoinOk.slr1 (k : JoinOk D E C S R) (hap : BeginApart D E S R) (eD : Fresh D eof) (eE : Fresh E eof) (eC : eof ≠ C)
    (hbD : InNoBody D S) (hbE : InNoBody E R) (hnD : NoEmpty D) (hnE : NoEmpty E) (hD : SLR1 D S eof)
    (hE : SLR1 E R eof) : SLR1 (Joined D E C S R) C eof := by
  have hSt : ¬ Terminal D S := not_terminal_iff.mpr k.S
  have hRt : ¬ Terminal E R := not_terminal_iff.mpr k.R
  have hSR : S ≠ R := by rintro rfl; exact hSt k.mineR.1
  have folD : ∀ {A x : T}, ¬ Terminal D A → InFollow (Joined D E C S R) C eof A x → InFollow D S eof A x := by
    intro A x hA hf
    rcases k.follow eD eE eC hf with ⟨rfl, _⟩ | ⟨_, h'⟩ | ⟨h', _⟩
    · exact absurd k.cD.1 hA
    · exact h'
    · exact absurd h'.1 hA
  have folE : ∀ {A x : T}, ¬ Terminal E A → InFollow (Joined D E C S R) C eof A x → InFollow E R eof A x := by
    intro A x hA hf
    rcases k.follow eD eE eC hf with ⟨rfl, _⟩ | ⟨h', _⟩ | ⟨_, h'⟩
    · exact absurd k.cE.1 hA
    · exact absurd h'.1 hA
    · exact h'
  have folC : ∀ {x : T}, InFollow (Joined D E C S R) C eof C x → x = eof := by
    intro x hf
    rcases k.follow eD eE eC hf with ⟨_, h'⟩ | ⟨h', _⟩ | ⟨h', _⟩
    · exact h'
    · exact absurd rfl h'.2
    · exact absurd rfl h'.2
  -- an item of each grammar is not valid for the same text
  have never : ∀ {γ β₁ β₂ δ₁ δ₂ : List T} {A B : T} {i j : Nat}, γ ≠ [] → ValidItem D S γ A i β₁ β₂ →
      (∀ z r, γ = z :: r → Terminal E z ∧ ∃ u, Derives D [S] (z :: u)) → ValidItem E R γ B j δ₁ δ₂ →
      (∀ z r, γ = z :: r → Terminal D z ∧ ∃ u, Derives E [R] (z :: u)) → False := by
    intro γ _ _ _ _ _ _ _ _ hγ _ h1 _ h2
    cases γ with
    | nil => exact hγ rfl
    | cons z r =>
      obtain ⟨t1, u, f1⟩ := h1 z r rfl
      obtain ⟨t2, v, f2⟩ := h2 z r rfl
      exact hap z u v t2 t1 f1 f2
  have lone : ∀ {γ β δ : List T} {i j : Nat} {B : T}, γ = β → (i = 0 ∧ β ++ [] = [S]) ∨ (i = 1 ∧ β ++ [] = [R]) →
      ValidItem (Joined D E C S R) C γ B j δ [] → B = C ∧ i = j := by
    intro γ β δ i j B e1 hZ hv
    subst e1
    simp only [List.append_nil] at hZ
    rcases k.item hv with ⟨rfl, e2, h2⟩ | ⟨h2, h3⟩ | ⟨h2, h3⟩
    · simp only [List.append_nil] at h2
      subst e2
      refine ⟨rfl, ?_⟩
      rcases hZ with ⟨rfl, e⟩ | ⟨rfl, e⟩ <;> rcases h2 with ⟨rfl, e'⟩ | ⟨rfl, e'⟩
      · rfl
      · rw [e] at e'; simp at e'; exact absurd e' hSR
      · rw [e] at e'; simp at e'; exact absurd e'.symm hSR
      · rfl
    · rcases hZ with ⟨_, rfl⟩ | ⟨_, rfl⟩
      · exact (no_item_start hbD hnD h2).elim
      · exact absurd (h3 _ _ rfl).1 hRt
    · rcases hZ with ⟨_, rfl⟩ | ⟨_, rfl⟩
      · exact absurd (h3 _ _ rfl).1 hSt
      · exact (no_item_start hbE hnE h2).elim
  constructor
  · intro γ A i β B j δ x hA hB hx fA fB
    rcases k.item hA with ⟨rfl, e1, h1⟩ | ⟨h1, hA1⟩ | ⟨h1, hA1⟩
    · obtain ⟨rfl, rfl⟩ := lone e1 h1 hB
      exact ⟨rfl, rfl⟩
    · rcases k.item hB with ⟨rfl, e2, h2⟩ | ⟨h2, hB1⟩ | ⟨h2, hB1⟩
      · obtain ⟨rfl, rfl⟩ := lone e2 h2 hA
        exact ⟨rfl, rfl⟩
      · exact hD.1 γ A i β B j δ x h1 h2 (JoinOk.terminal.mp hx).2.1 (folD h1.1.not_terminal fA)
          (folD h2.1.not_terminal fB)
      · exact (never (item_ne_nil hnD h1) h1 hA1 h2 hB1).elim
    · rcases k.item hB with ⟨rfl, e2, h2⟩ | ⟨h2, hB1⟩ | ⟨h2, hB1⟩
      · obtain ⟨rfl, rfl⟩ := lone e2 h2 hA
        exact ⟨rfl, rfl⟩
      · exact (never (item_ne_nil hnE h1) h2 hB1 h1 hA1).elim
      · exact hE.1 γ A i β B j δ x h1 h2 (JoinOk.terminal.mp hx).2.2 (folE h1.1.not_terminal fA)
          (folE h2.1.not_terminal fB)
  · intro γ A i β B j δ₁ a δ₂ hA hB ha fA
    have haR : a ≠ R := by rintro rfl; exact hRt (JoinOk.terminal.mp ha).2.2
    have haS : a ≠ S := by rintro rfl; exact hSt (JoinOk.terminal.mp ha).2.1
    have startB : (j = 0 ∧ δ₁ ++ a :: δ₂ = [S]) ∨ (j = 1 ∧ δ₁ ++ a :: δ₂ = [R]) → False := by
      rintro (⟨_, e⟩ | ⟨_, e⟩)
      · have : a ∈ [S] := e ▸ by simp
        exact haS (List.mem_singleton.mp this)
      · have : a ∈ [R] := e ▸ by simp
        exact haR (List.mem_singleton.mp this)
    rcases k.item hA with ⟨rfl, e1, h1⟩ | ⟨h1, hA1⟩ | ⟨h1, hA1⟩
    · have hae := folC fA
      subst hae
      rcases k.isProd.mp hB.1 with ⟨_, h'⟩ | hp | hp
      · exact startB h'
      · exact eD.2 _ _ _ hp (by simp)
      · exact eE.2 _ _ _ hp (by simp)
    · rcases k.item hB with ⟨rfl, e2, h2⟩ | ⟨h2, hB1⟩ | ⟨h2, hB1⟩
      · exact startB h2
      · exact hD.2 γ A i β B j δ₁ a δ₂ h1 h2 (JoinOk.terminal.mp ha).2.1 (folD h1.1.not_terminal fA)
      · exact never (item_ne_nil hnD h1) h1 hA1 h2 hB1
    · rcases k.item hB with ⟨rfl, e2, h2⟩ | ⟨h2, hB1⟩ | ⟨h2, hB1⟩
      · exact startB h2
      · exact never (item_ne_nil hnE h1) h2 hB1 h1 hA1
      · exact hE.2 γ A i β B j δ₁ a δ₂ h1 h2 (JoinOk.terminal.mp ha).2.2 (folE h1.1.not_terminal fA)

/-- A new start rule keeps a grammar SLR(1) whose start symbol is in no body. -/
theorem slr1_wrapped {S' : T} (hf : Fresh D S') (hne : S' ≠ S) (hS : Nonterminal D S) (hb : InNoBody D S) (hn : NoEmpty D)
    (he : Fresh D eof) (heS' : eof ≠ S') (hD : SLR1 D S eof) : SLR1 (Wrapped D S' S) S' eof := by
  have hSt : ¬ Terminal D S := not_terminal_iff.mpr hS
  have tD : ∀ {x : T}, Terminal (Wrapped D S' S) x → Terminal D x := fun h => (terminal_wrapped.mp h).2
  have item : ∀ {γ β₁ β₂ : List T} {A : T} {i : Nat}, ValidItem (Wrapped D S' S) S' γ A i β₁ β₂ →
      (A = S' ∧ γ = β₁ ∧ i = 0 ∧ β₁ ++ β₂ = [S]) ∨ ValidItem D S γ A i β₁ β₂ := by
    rintro γ β₁ β₂ A i ⟨hp, α, w, rfl, hw, hd⟩
    rcases (rderives_wrapped hf hne).mp hd with e | h1
    · have hl : α = [] ∧ A = S' ∧ w = [] := by
        cases α with
        | nil => simp at e; exact ⟨rfl, e⟩
        | cons x u => simp at e
      obtain ⟨rfl, rfl, rfl⟩ := hl
      rcases (isProd_wrapped hf).mp hp with ⟨_, h'⟩ | hp
      · exact .inl ⟨rfl, rfl, h'⟩
      · exact absurd rfl (hf.ne hp)
    · rcases (isProd_wrapped hf).mp hp with ⟨rfl, _⟩ | hp
      · exact absurd (by simp) (hf.absent hne h1.derives)
      · exact .inr ⟨hp, α, w, rfl, fun x hx => tD (hw x hx), h1⟩
  have fol : ∀ {A x : T}, InFollow (Wrapped D S' S) S' eof A x → (A = S' ∧ x = eof) ∨ (A ≠ S' ∧ InFollow D S eof A x) := by
    rintro A x ⟨u, v, hd⟩
    generalize e : [S', eof] = a at hd
    generalize e' : u ++ A :: x :: v = b at hd
    cases hd with
    | refl =>
      subst e
      cases u with
      | nil => simp at e'; exact .inl ⟨e'.1, e'.2.1⟩
      | cons y u => cases u <;> simp at e'
    | head s hd =>
      obtain @⟨p, q, X, i, body, hp⟩ := s
      have hl : p = [] ∧ X = S' ∧ q = [eof] := by
        cases p with
        | nil => simp at e; exact ⟨rfl, e.1.symm, e.2.symm⟩
        | cons y p =>
          cases p with
          | nil =>
            simp at e
            exact absurd (terminal_wrapped.mpr ⟨heS', he.1⟩) (e.2.1 ▸ hp.not_terminal)
          | cons z p => simp at e
      obtain ⟨rfl, rfl, rfl⟩ := hl
      subst e'
      rcases (isProd_wrapped hf).mp hp with ⟨_, _, rfl⟩ | hp
      · obtain ⟨r1, r2⟩ := derives_inside (G := Wrapped D X S) (D := D) (P := fun y => y ≠ X) (by
          intro A' i' b' hA' hp'
          rcases (isProd_wrapped hf).mp hp' with ⟨e, _⟩ | hp'
          · exact absurd e hA'
          · exact ⟨hp', fun y hy e => hf.2 _ _ _ hp' (e ▸ hy)⟩) hd (by
          intro y hy
          simp at hy
          rcases hy with rfl | rfl
          · exact hne.symm
          · exact heS')
        exact .inr ⟨r2 A (by simp), u, v, r1⟩
      · exact absurd rfl (hf.ne hp)
  have folD : ∀ {γ β₁ β₂ : List T} {A x : T} {i : Nat}, ValidItem D S γ A i β₁ β₂ →
      InFollow (Wrapped D S' S) S' eof A x → InFollow D S eof A x := by
    intro γ β₁ β₂ A x i hv hf'
    rcases fol hf' with ⟨rfl, _⟩ | ⟨_, h⟩
    · exact absurd rfl (hf.ne hv.1)
    · exact h
  constructor
  · intro γ A i β B j δ x hA hB hx fA fB
    rcases item hA with ⟨rfl, rfl, rfl, e1⟩ | h1 <;> rcases item hB with ⟨rfl, rfl, rfl, e2⟩ | h2
    · exact ⟨rfl, rfl⟩
    · rw [List.append_nil] at e1
      subst e1
      exact (no_item_start hb hn h2).elim
    · rw [List.append_nil] at e2
      subst e2
      exact (no_item_start hb hn h1).elim
    · exact hD.1 γ A i β B j δ x h1 h2 (tD hx) (folD h1 fA) (folD h2 fB)
  · intro γ A i β B j δ₁ a δ₂ hA hB ha fA
    rcases item hA with ⟨rfl, rfl, rfl, e1⟩ | h1
    · have hae : a = eof := by
        rcases fol fA with ⟨_, h⟩ | ⟨h, _⟩
        · exact h
        · exact absurd rfl h
      subst hae
      rcases (isProd_wrapped hf).mp hB.1 with ⟨_, _, e⟩ | hp
      · have : a ∈ [S] := e ▸ by simp
        exact hSt (List.mem_singleton.mp this ▸ tD ha)
      · exact he.2 _ _ _ hp (by simp)
    · rcases item hB with ⟨rfl, _, _, e2⟩ | h2
      · have : a ∈ [S] := e2 ▸ by simp
        exact hSt (List.mem_singleton.mp this ▸ tD ha)
      · exact hD.2 γ A i β B j δ₁ a δ₂ h1 h2 (tD ha) (folD h1 fA)

/-! ### LALR(1) -/

theorem Spec.ValidItem1.item {γ β₁ β₂ : List T} {A x : T} {i : Nat} (h : ValidItem1 D S eof γ A i β₁ β₂ x) :
    ValidItem D S γ A i β₁ β₂ := by
  obtain ⟨hp, α, w, e, hw, _, hd⟩ := h
  exact ⟨hp, α, w, e, hw, hd⟩

theorem JoinOk.rupD (k : JoinOk D E C S R) {w : List T} (h : RDerives D [S] w) : RDerives (Joined D E C S R) [C] w := by
  induction h with
  | refl => exact RDerives.tail .refl (RStep.mk [] [] (k.isProd.mpr (.inl ⟨rfl, .inl ⟨rfl, rfl⟩⟩)) (by simp [Terminals]))
  | tail h s ih =>
    obtain @⟨p, r, X, i, b, hp, hr⟩ := s
    refine .tail ih (RStep.mk p r (k.isProd.mpr (.inr (.inl hp))) fun x hx => ?_)
    have := k.fromD k.S h.derives x (by simp [hx])
    exact JoinOk.terminal.mpr ⟨this.2, hr x hx, this.1⟩

theorem JoinOk.rupE (k : JoinOk D E C S R) {w : List T} (h : RDerives E [R] w) : RDerives (Joined D E C S R) [C] w := by
  induction h with
  | refl => exact RDerives.tail .refl (RStep.mk [] [] (k.isProd.mpr (.inl ⟨rfl, .inr ⟨rfl, rfl⟩⟩)) (by simp [Terminals]))
  | tail h s ih =>
    obtain @⟨p, r, X, i, b, hp, hr⟩ := s
    refine .tail ih (RStep.mk p r (k.isProd.mpr (.inr (.inr hp))) fun x hx => ?_)
    have := k.fromE k.R h.derives x (by simp [hx])
    exact JoinOk.terminal.mpr ⟨this.2, this.1, hr x hx⟩

theorem JoinOk.sameD (k : JoinOk D E C S R) {γ γ' : List T} (h : SameItems (Joined D E C S R) C γ γ') :
    SameItems D S γ γ' := by
  have key : ∀ {γ γ' : List T}, SameItems (Joined D E C S R) C γ γ' → ∀ A i β₁ β₂, ValidItem D S γ A i β₁ β₂ →
      ValidItem D S γ' A i β₁ β₂ := by
    intro γ γ' h A i β₁ β₂ hv
    have hA := hv.1.nonterminal
    have hJ : ValidItem (Joined D E C S R) C γ A i β₁ β₂ := by
      obtain ⟨hp, α, w, e, hw, hd⟩ := hv
      refine ⟨k.isProd.mpr (.inr (.inl hp)), α, w, e, fun x hx => ?_, k.rupD hd⟩
      have := k.fromD k.S hd.derives x (by simp [hx])
      exact JoinOk.terminal.mpr ⟨this.2, hw x hx, this.1⟩
    rcases k.item ((h A i β₁ β₂).mp hJ) with ⟨rfl, _⟩ | ⟨h', _⟩ | ⟨h', _⟩
    · exact absurd k.cD.1 (not_terminal_iff.mpr hA)
    · exact h'
    · exact absurd (k.apart.2 A hA).1 (not_terminal_iff.mpr h'.1.nonterminal)
  exact fun A i β₁ β₂ => ⟨key h A i β₁ β₂, key (fun A i β₁ β₂ => (h A i β₁ β₂).symm) A i β₁ β₂⟩

theorem JoinOk.sameE (k : JoinOk D E C S R) {γ γ' : List T} (h : SameItems (Joined D E C S R) C γ γ') :
    SameItems E R γ γ' := by
  have key : ∀ {γ γ' : List T}, SameItems (Joined D E C S R) C γ γ' → ∀ A i β₁ β₂, ValidItem E R γ A i β₁ β₂ →
      ValidItem E R γ' A i β₁ β₂ := by
    intro γ γ' h A i β₁ β₂ hv
    have hA := hv.1.nonterminal
    have hJ : ValidItem (Joined D E C S R) C γ A i β₁ β₂ := by
      obtain ⟨hp, α, w, e, hw, hd⟩ := hv
      refine ⟨k.isProd.mpr (.inr (.inr hp)), α, w, e, fun x hx => ?_, k.rupE hd⟩
      have := k.fromE k.R hd.derives x (by simp [hx])
      exact JoinOk.terminal.mpr ⟨this.2, this.1, hw x hx⟩
    rcases k.item ((h A i β₁ β₂).mp hJ) with ⟨rfl, _⟩ | ⟨h', _⟩ | ⟨h', _⟩
    · exact absurd k.cE.1 (not_terminal_iff.mpr hA)
    · exact absurd (k.apart.1 A hA).1 (not_terminal_iff.mpr h'.1.nonterminal)
    · exact h'
  exact fun A i β₁ β₂ => ⟨key h A i β₁ β₂, key (fun A i β₁ β₂ => (h A i β₁ β₂).symm) A i β₁ β₂⟩

theorem JoinOk.item1 (k : JoinOk D E C S R) {γ β₁ β₂ : List T} {A x : T} {i : Nat}
    (hv : ValidItem1 (Joined D E C S R) C eof γ A i β₁ β₂ x) :
    (A = C ∧ x = eof) ∨ ValidItem1 D S eof γ A i β₁ β₂ x ∨ ValidItem1 E R eof γ A i β₁ β₂ x := by
  obtain ⟨hp, α, w, rfl, hw, hh, hd⟩ := hv
  rcases k.forms hd with e | ⟨h1, h2⟩ | ⟨h1, h2⟩
  · have hl : α = [] ∧ A = C ∧ w = [] := by
      cases α with
      | nil => simp at e; exact ⟨rfl, e⟩
      | cons x u => simp at e
    obtain ⟨rfl, rfl, rfl⟩ := hl
    exact .inl ⟨rfl, by simpa using hh.symm⟩
  · obtain ⟨hp', _⟩ := k.subD A i _ (h2 A (by simp)) hp
    exact .inr (.inl ⟨hp', α, w, rfl, fun x hx => (JoinOk.terminal.mp (hw x hx)).2.1, hh, h1⟩)
  · obtain ⟨hp', _⟩ := k.subE A i _ (h2 A (by simp)) hp
    exact .inr (.inr ⟨hp', α, w, rfl, fun x hx => (JoinOk.terminal.mp (hw x hx)).2.2, hh, h1⟩)

theorem JoinOk.never (k : JoinOk D E C S R) (hap : BeginApart D E S R) {γ β₁ β₂ δ₁ δ₂ : List T} {A B : T} {i j : Nat}
    (hγ : γ ≠ []) (hA : ValidItem (Joined D E C S R) C γ A i β₁ β₂) (tA : Nonterminal D A)
    (hB : ValidItem (Joined D E C S R) C γ B j δ₁ δ₂) (tB : Nonterminal E B) : False := by
  rcases k.item hA with ⟨rfl, _⟩ | ⟨_, h1⟩ | ⟨h1, _⟩
  · exact not_terminal_iff.mpr tA k.cD.1
  · rcases k.item hB with ⟨rfl, _⟩ | ⟨h2, _⟩ | ⟨_, h2⟩
    · exact not_terminal_iff.mpr tB k.cE.1
    · exact not_terminal_iff.mpr h2.1.nonterminal (k.apart.1 B tB).1
    · cases γ with
      | nil => exact hγ rfl
      | cons z r =>
        obtain ⟨t1, u, f1⟩ := h1 z r rfl
        obtain ⟨t2, v, f2⟩ := h2 z r rfl
        exact hap z u v t2 t1 f1 f2
  · exact not_terminal_iff.mpr h1.1.nonterminal (k.apart.2 A tA).1

theorem JoinOk.lone (k : JoinOk D E C S R) (hbD : InNoBody D S) (hbE : InNoBody E R) (hnD : NoEmpty D) (hnE : NoEmpty E)
    {γ β δ : List T} {i j : Nat} {B : T} (hC : ValidItem (Joined D E C S R) C γ C i β [])
    (hv : ValidItem (Joined D E C S R) C γ B j δ []) : B = C ∧ i = j := by
  have hSt : ¬ Terminal D S := not_terminal_iff.mpr k.S
  have hRt : ¬ Terminal E R := not_terminal_iff.mpr k.R
  have hSR : S ≠ R := by rintro rfl; exact hSt k.mineR.1
  rcases k.item hC with ⟨_, rfl, hZ⟩ | ⟨h1, _⟩ | ⟨h1, _⟩
  · simp only [List.append_nil] at hZ
    rcases k.item hv with ⟨rfl, e2, h2⟩ | ⟨h2, h3⟩ | ⟨h2, h3⟩
    · simp only [List.append_nil] at h2
      subst e2
      refine ⟨rfl, ?_⟩
      rcases hZ with ⟨rfl, e⟩ | ⟨rfl, e⟩ <;> rcases h2 with ⟨rfl, e'⟩ | ⟨rfl, e'⟩
      · rfl
      · rw [e] at e'; simp at e'; exact absurd e' hSR
      · rw [e] at e'; simp at e'; exact absurd e'.symm hSR
      · rfl
    · rcases hZ with ⟨_, rfl⟩ | ⟨_, rfl⟩
      · exact (no_item_start hbD hnD h2).elim
      · exact absurd (h3 _ _ rfl).1 hRt
    · rcases hZ with ⟨_, rfl⟩ | ⟨_, rfl⟩
      · exact absurd (h3 _ _ rfl).1 hSt
      · exact (no_item_start hbE hnE h2).elim
  · exact absurd k.cD.1 h1.1.not_terminal
  · exact absurd k.cE.1 h1.1.not_terminal

theorem JoinOk.lalr1 (k : JoinOk D E C S R) (hap : BeginApart D E S R) (eD : Fresh D eof) (eE : Fresh E eof)
    (hbD : InNoBody D S) (hbE : InNoBody E R) (hnD : NoEmpty D) (hnE : NoEmpty E) (hD : LALR1 D S eof)
    (hE : LALR1 E R eof) : LALR1 (Joined D E C S R) C eof := by
  constructor
  · intro γ γ' A i β B j δ x hs hA hB
    have hA' := (hs _ _ _ _).mp hA.item
    have hB' := (hs _ _ _ _).mpr hB.item
    rcases k.item1 hA with ⟨rfl, _⟩ | h1 | h1
    · obtain ⟨rfl, rfl⟩ := k.lone hbD hbE hnD hnE hA.item hB'
      exact ⟨rfl, rfl⟩
    · rcases k.item1 hB with ⟨rfl, _⟩ | h2 | h2
      · obtain ⟨rfl, rfl⟩ := k.lone hbD hbE hnD hnE hB.item hA'
        exact ⟨rfl, rfl⟩
      · exact hD.1 γ γ' A i β B j δ x (k.sameD hs) h1 h2
      · exact (k.never hap (item_ne_nil hnD h1.item) hA.item h1.1.nonterminal hB' h2.1.nonterminal).elim
    · rcases k.item1 hB with ⟨rfl, _⟩ | h2 | h2
      · obtain ⟨rfl, rfl⟩ := k.lone hbD hbE hnD hnE hB.item hA'
        exact ⟨rfl, rfl⟩
      · exact (k.never hap (item_ne_nil hnE h1.item) hB' h2.1.nonterminal hA.item h1.1.nonterminal).elim
      · exact hE.1 γ γ' A i β B j δ x (k.sameE hs) h1 h2
  · intro γ γ' A i β B j δ₁ a δ₂ hs hA hB ha
    have hB' := (hs _ _ _ _).mpr hB
    have startB : (j = 0 ∧ δ₁ ++ a :: δ₂ = [S]) ∨ (j = 1 ∧ δ₁ ++ a :: δ₂ = [R]) → False := by
      rintro (⟨_, e⟩ | ⟨_, e⟩)
      · have : a ∈ [S] := e ▸ by simp
        exact not_terminal_iff.mpr k.S (List.mem_singleton.mp this ▸ (JoinOk.terminal.mp ha).2.1)
      · have : a ∈ [R] := e ▸ by simp
        exact not_terminal_iff.mpr k.R (List.mem_singleton.mp this ▸ (JoinOk.terminal.mp ha).2.2)
    rcases k.item1 hA with ⟨rfl, rfl⟩ | h1 | h1
    · rcases k.isProd.mp hB.1 with ⟨_, h'⟩ | hp | hp
      · exact startB h'
      · exact eD.2 _ _ _ hp (by simp)
      · exact eE.2 _ _ _ hp (by simp)
    · rcases k.item hB with ⟨_, _, h2⟩ | ⟨h2, _⟩ | ⟨h2, _⟩
      · exact startB h2
      · exact hD.2 γ γ' A i β B j δ₁ a δ₂ (k.sameD hs) h1 h2 (JoinOk.terminal.mp ha).2.1
      · exact k.never hap (item_ne_nil hnD h1.item) hA.item h1.1.nonterminal hB' h2.1.nonterminal
    · rcases k.item hB with ⟨_, _, h2⟩ | ⟨h2, _⟩ | ⟨h2, _⟩
      · exact startB h2
      · exact k.never hap (item_ne_nil hnE h1.item) hB' h2.1.nonterminal hA.item h1.1.nonterminal
      · exact hE.2 γ γ' A i β B j δ₁ a δ₂ (k.sameE hs) h1 h2 (JoinOk.terminal.mp ha).2.2

/-- A new start rule keeps a grammar LALR(1) whose start symbol is in no body. -/
theorem lalr1_wrapped {S' : T} (hf : Fresh D S') (hne : S' ≠ S) (hS : Nonterminal D S) (hb : InNoBody D S) (hn : NoEmpty D)
    (he : Fresh D eof) (hD : LALR1 D S eof) : LALR1 (Wrapped D S' S) S' eof := by
  have hSt : ¬ Terminal D S := not_terminal_iff.mpr hS
  have tD : ∀ {x : T}, Terminal (Wrapped D S' S) x → Terminal D x := fun h => (terminal_wrapped.mp h).2
  have item1 : ∀ {γ β₁ β₂ : List T} {A x : T} {i : Nat}, ValidItem1 (Wrapped D S' S) S' eof γ A i β₁ β₂ x →
      (A = S' ∧ γ = β₁ ∧ i = 0 ∧ β₁ ++ β₂ = [S] ∧ x = eof) ∨ ValidItem1 D S eof γ A i β₁ β₂ x := by
    rintro γ β₁ β₂ A x i ⟨hp, α, w, rfl, hw, hh, hd⟩
    rcases (rderives_wrapped hf hne).mp hd with e | h1
    · have hl : α = [] ∧ A = S' ∧ w = [] := by
        cases α with
        | nil => simp at e; exact ⟨rfl, e⟩
        | cons x u => simp at e
      obtain ⟨rfl, rfl, rfl⟩ := hl
      rcases (isProd_wrapped hf).mp hp with ⟨_, h', h''⟩ | hp
      · exact .inl ⟨rfl, rfl, h', h'', by simpa using hh.symm⟩
      · exact absurd rfl (hf.ne hp)
    · rcases (isProd_wrapped hf).mp hp with ⟨rfl, _⟩ | hp
      · exact absurd (by simp) (hf.absent hne h1.derives)
      · exact .inr ⟨hp, α, w, rfl, fun x hx => tD (hw x hx), hh, h1⟩
  have item : ∀ {γ β₁ β₂ : List T} {A : T} {i : Nat}, ValidItem (Wrapped D S' S) S' γ A i β₁ β₂ →
      (A = S' ∧ γ = β₁ ∧ i = 0 ∧ β₁ ++ β₂ = [S]) ∨ ValidItem D S γ A i β₁ β₂ := by
    rintro γ β₁ β₂ A i ⟨hp, α, w, e, hw, hd⟩
    have hx : ∃ x, (w ++ [eof]).head? = some x := by cases w <;> simp
    obtain ⟨x, hx⟩ := hx
    rcases item1 ⟨hp, α, w, e, hw, hx, hd⟩ with ⟨h1, h2, h3, h4, _⟩ | h
    · exact .inl ⟨h1, h2, h3, h4⟩
    · exact .inr h.item
  have key : ∀ {γ γ' : List T}, SameItems (Wrapped D S' S) S' γ γ' → ∀ A i β₁ β₂, ValidItem D S γ A i β₁ β₂ →
      ValidItem D S γ' A i β₁ β₂ := by
    intro γ γ' h A i β₁ β₂ hv
    have hW : ValidItem (Wrapped D S' S) S' γ A i β₁ β₂ := by
      obtain ⟨hp, α, w, e, hw, hd⟩ := id hv
      refine ⟨(isProd_wrapped hf).mpr (.inr hp), α, w, e, fun x hx => terminal_wrapped.mpr ⟨?_, hw x hx⟩,
        (rderives_wrapped hf hne).mpr (.inr hd)⟩
      rintro rfl
      exact hf.absent hne hd.derives (by simp [hx])
    rcases item ((h A i β₁ β₂).mp hW) with ⟨rfl, _⟩ | h'
    · exact absurd rfl (hf.ne hv.1)
    · exact h'
  have same : ∀ {γ γ' : List T}, SameItems (Wrapped D S' S) S' γ γ' → SameItems D S γ γ' := fun h A i β₁ β₂ =>
    ⟨key h A i β₁ β₂, key (fun A i β₁ β₂ => (h A i β₁ β₂).symm) A i β₁ β₂⟩
  constructor
  · intro γ γ' A i β B j δ x hs hA hB
    have hA' := (hs _ _ _ _).mp hA.item
    have hB' := (hs _ _ _ _).mpr hB.item
    rcases item1 hA with ⟨rfl, rfl, rfl, e1, _⟩ | h1
    · rw [List.append_nil] at e1
      subst e1
      rcases item hB' with ⟨rfl, _, rfl, _⟩ | h2
      · exact ⟨rfl, rfl⟩
      · exact (no_item_start hb hn h2).elim
    · rcases item1 hB with ⟨rfl, rfl, rfl, e2, _⟩ | h2
      · rw [List.append_nil] at e2
        subst e2
        rcases item hA' with ⟨rfl, _, rfl, _⟩ | h2
        · exact ⟨rfl, rfl⟩
        · exact (no_item_start hb hn h2).elim
      · exact hD.1 γ γ' A i β B j δ x (same hs) h1 h2
  · intro γ γ' A i β B j δ₁ a δ₂ hs hA hB ha
    rcases item hB with ⟨rfl, _, _, e2⟩ | h2
    · have : a ∈ [S] := e2 ▸ by simp
      exact hSt (List.mem_singleton.mp this ▸ tD ha)
    · rcases item1 hA with ⟨rfl, _, _, _, rfl⟩ | h1
      · exact he.2 _ _ _ h2.1 (by simp)
      · exact hD.2 γ γ' A i β B j δ₁ a δ₂ (same hs) h1 h2 (tD ha)

end
end Lrp
