import Verif.Spec.Divide
import Verif.Proofs.Choice

/-! A text of one grammar and a text of another one with a token between them. -/

set_option linter.unusedSectionVars false

namespace Lrp
open Spec

section
variable {T : Type} [LinOrd T] [DecidableEq T] {D E : Decls T} {C S m R : T}

structure DivOk (D E : Decls T) (C S m R : T) : Prop where
  apart : Separate D E
  cD : Fresh D C
  cE : Fresh E C
  mD : Fresh D m
  mE : Terminal E m
  ne : m ≠ C
  S : Nonterminal D S
  R : Nonterminal E R

theorem DivOk.isProd (k : DivOk D E C S m R) {A : T} {i : Nat} {b : List T} :
    IsProd (Divided D E C S m R) A i b ↔
      (A = C ∧ i = 0 ∧ b = [S, m, R]) ∨ IsProd D A i b ∨ IsProd E A i b := by
  rw [← isProd_both k.apart]
  constructor
  · rintro ⟨bs, ⟨pre, post, e, h⟩, hi⟩
    cases pre with
    | nil =>
      simp only [Divided, List.nil_append, List.cons.injEq, Prod.mk.injEq] at e
      obtain ⟨⟨rfl, rfl⟩, rfl⟩ := e
      left
      match i, hi with
      | 0, hi => exact ⟨rfl, rfl, by simpa using hi.symm⟩
      | i + 1, hi => simp at hi
    | cons d pre =>
      simp only [Divided, List.cons_append, List.cons.injEq] at e
      exact .inr ⟨bs, ⟨pre, post, e.2, h⟩, hi⟩
  · rintro (⟨rfl, rfl, rfl⟩ | ⟨bs, ⟨pre, post, e, h'⟩, hi⟩)
    · exact ⟨[[S, m, R]], ⟨[], D ++ E, rfl, terminal_both.mpr ⟨k.cD.1, k.cE.1⟩⟩, rfl⟩
    · exact ⟨bs, ⟨(C, [[S, m, R]]) :: pre, post, by rw [Divided, e]; rfl, h'⟩, hi⟩

theorem DivOk.terminal {x : T} : Terminal (Divided D E C S m R) x ↔ x ≠ C ∧ Terminal D x ∧ Terminal E x := by
  rw [← terminal_both]
  unfold Terminal Divided
  simp only [List.forall_mem_cons]
  exact and_congr_left fun _ => ⟨Ne.symm, Ne.symm⟩

theorem DivOk.nonterminal {x : T} :
    Nonterminal (Divided D E C S m R) x ↔ x = C ∨ Nonterminal D x ∨ Nonterminal E x := by
  rw [← nonterminal_both]
  unfold Nonterminal Divided
  simp only [List.mem_cons, exists_eq_or_imp]
  exact or_congr_left ⟨Eq.symm, Eq.symm⟩

theorem DivOk.mT (k : DivOk D E C S m R) : Terminal (Divided D E C S m R) m := DivOk.terminal.mpr ⟨k.ne, k.mD.1, k.mE⟩

/-- The symbols of one grammar, the other one being `E`. -/
def DivOk.mine (E : Decls T) (C m : T) (x : T) : Prop := Terminal E x ∧ x ≠ C ∧ x ≠ m

theorem DivOk.subD (k : DivOk D E C S m R) (A : T) (i : Nat) (b : List T) (hA : DivOk.mine E C m A)
    (hp : IsProd (Divided D E C S m R) A i b) : IsProd D A i b ∧ ∀ x ∈ b, DivOk.mine E C m x := by
  rcases k.isProd.mp hp with ⟨e, _⟩ | hp' | hp'
  · exact absurd e hA.2.1
  · refine ⟨hp', fun x hx => ⟨?_, ?_, ?_⟩⟩
    · exact Classical.byContradiction fun hn => (k.apart.1 x (not_terminal_iff.mp hn)).2 _ _ _ hp' hx
    · rintro rfl; exact k.cD.2 _ _ _ hp' hx
    · rintro rfl; exact k.mD.2 _ _ _ hp' hx
  · exact absurd hA.1 hp'.not_terminal

theorem DivOk.subE (k : DivOk D E C S m R) (A : T) (i : Nat) (b : List T) (hA : JoinOk.mine D C A)
    (hp : IsProd (Divided D E C S m R) A i b) : IsProd E A i b ∧ ∀ x ∈ b, JoinOk.mine D C x := by
  rcases k.isProd.mp hp with ⟨e, _⟩ | hp' | hp'
  · exact absurd e hA.2
  · exact absurd hA.1 hp'.not_terminal
  · refine ⟨hp', fun x hx => ⟨?_, ?_⟩⟩
    · exact Classical.byContradiction fun hn => (k.apart.2 x (not_terminal_iff.mp hn)).2 _ _ _ hp' hx
    · rintro rfl; exact k.cE.2 _ _ _ hp' hx

theorem DivOk.mineS (k : DivOk D E C S m R) : DivOk.mine E C m S :=
  ⟨(k.apart.2 S k.S).1, by rintro rfl; exact not_terminal_iff.mpr k.S k.cD.1, by
    rintro rfl; exact not_terminal_iff.mpr k.S k.mD.1⟩

theorem DivOk.mineR (k : DivOk D E C S m R) : JoinOk.mine D C R :=
  ⟨(k.apart.1 R k.R).1, by rintro rfl; exact not_terminal_iff.mpr k.R k.cE.1⟩

/-- The forms of the rule. -/
theorem DivOk.forms (k : DivOk D E C S m R) {φ : List T} (hd : RDerives (Divided D E C S m R) [C] φ) :
    φ = [C] ∨ (∃ ψ, φ = S :: m :: ψ ∧ RDerives E [R] ψ ∧ ∀ x ∈ ψ, JoinOk.mine D C x) ∨
    (∃ σ v, φ = σ ++ m :: v ∧ Terminals (Divided D E C S m R) v ∧ Derives E [R] v ∧ RDerives D [S] σ ∧
      ∀ x ∈ σ, DivOk.mine E C m x) := by
  have tD : ∀ x, Terminal (Divided D E C S m R) x → Terminal D x := fun x hx => (DivOk.terminal.mp hx).2.1
  have tE : ∀ x, Terminal (Divided D E C S m R) x → Terminal E x := fun x hx => (DivOk.terminal.mp hx).2.2
  induction hd with
  | refl => exact .inl rfl
  | tail _ s ih =>
    right
    obtain @⟨u, w, A, i, b, hp, hw⟩ := s
    rcases ih with e | ⟨ψ, e, h1, h2⟩ | ⟨σ, v, e, hv, h0, h1, h2⟩
    · have hl : u = [] ∧ A = C ∧ w = [] := by
        cases u with
        | nil => simp at e; exact ⟨rfl, e⟩
        | cons x u => simp at e
      obtain ⟨rfl, rfl, rfl⟩ := hl
      rcases k.isProd.mp hp with ⟨_, _, rfl⟩ | hp | hp
      · exact .inl ⟨[R], by simp, .refl, by simpa using k.mineR⟩
      · exact absurd k.cD.1 hp.not_terminal
      · exact absurd k.cE.1 hp.not_terminal
    · match u, e with
      | [], e =>
        simp at e
        obtain ⟨rfl, rfl⟩ := e
        obtain ⟨hp', hb⟩ := k.subD A i b k.mineS hp
        exact .inr ⟨b, ψ, by simp, fun x hx => hw x (by simp [hx]), h1.derives,
          .tail .refl (by simpa using RStep.mk [] [] hp' (by simp [Terminals])), hb⟩
      | [c], e =>
        simp at e
        exact absurd k.mT (e.2.1 ▸ hp.not_terminal)
      | c :: d :: u, e =>
        simp at e
        obtain ⟨rfl, rfl, rfl⟩ := e
        obtain ⟨r1, r2⟩ := rderives_inside (D := E) (k.subE) tE (.tail .refl (RStep.mk u w hp hw)) h2
        exact .inl ⟨u ++ b ++ w, by simp, h1.trans r1, r2⟩
    · obtain ⟨v₁, rfl, rfl⟩ := split_at_terminals (q := m :: v) hp.nonterminal (fun x hx => by
        rcases List.mem_cons.mp hx with rfl | hx
        · exact k.mT
        · exact hv x hx) e.symm
      obtain ⟨r1, r2⟩ := rderives_inside (D := D) (k.subD) tD
        (.tail .refl (RStep.mk u v₁ hp (fun x hx => hw x (by simp [hx])))) h2
      exact .inr ⟨u ++ b ++ v₁, v, by simp, hv, h0, h1.trans r1, r2⟩

/-- A form with the place of a step. -/
theorem DivOk.step (k : DivOk D E C S m R) {α w b : List T} {A : T} {i : Nat}
    (hp : IsProd (Divided D E C S m R) A i b) (hw : Terminals (Divided D E C S m R) w)
    (hd : RDerives (Divided D E C S m R) [C] (α ++ A :: w)) :
    (α = [] ∧ A = C ∧ w = [] ∧ i = 0 ∧ b = [S, m, R]) ∨
    (∃ α', α = S :: m :: α' ∧ RDerives E [R] (α' ++ A :: w) ∧ IsProd E A i b) ∨
    (∃ w₁ v, w = w₁ ++ m :: v ∧ Derives E [R] v ∧ RDerives D [S] (α ++ A :: w₁) ∧ IsProd D A i b ∧ m ∉ α ++ b ∧
      m ∉ w₁) := by
  rcases k.forms hd with e | ⟨ψ, e, h1, h2⟩ | ⟨σ, v, e, hv, h0, h1, h2⟩
  · have hl : α = [] ∧ A = C ∧ w = [] := by
      cases α with
      | nil => simp at e; exact ⟨rfl, e⟩
      | cons x u => simp at e
    obtain ⟨rfl, rfl, rfl⟩ := hl
    rcases k.isProd.mp hp with ⟨_, h'⟩ | hp | hp
    · exact .inl ⟨rfl, rfl, rfl, h'⟩
    · exact absurd k.cD.1 hp.not_terminal
    · exact absurd k.cE.1 hp.not_terminal
  · match α, e with
    | [], e =>
      simp at e
      obtain ⟨rfl, rfl⟩ := e
      obtain ⟨hp', hb⟩ := k.subD A i b k.mineS hp
      exact .inr (.inr ⟨[], ψ, rfl, h1.derives, .refl, hp', fun h => (hb m (by simpa using h)).2.2 rfl, by simp⟩)
    | [c], e =>
      simp at e
      exact absurd k.mT (e.2.1 ▸ hp.not_terminal)
    | c :: d :: u, e =>
      simp at e
      obtain ⟨rfl, rfl, rfl⟩ := e
      exact .inr (.inl ⟨u, rfl, h1, (k.subE A i b (h2 A (by simp)) hp).1⟩)
  · obtain ⟨v₁, rfl, rfl⟩ := split_at_terminals (q := m :: v) hp.nonterminal (fun x hx => by
      rcases List.mem_cons.mp hx with rfl | hx
      · exact k.mT
      · exact hv x hx) e.symm
    obtain ⟨hp', hb⟩ := k.subD A i b (h2 A (by simp)) hp
    refine .inr (.inr ⟨v₁, v, rfl, h0, h1, hp', ?_, fun h => (h2 m (by simp [h])).2.2 rfl⟩)
    intro h
    rcases List.mem_append.mp h with h | h
    · exact (h2 m (by simp [h])).2.2 rfl
    · exact (hb m h).2.2 rfl

theorem head_mark {w y v v' : List T} {eof : T} (hw : m ∉ w) (hy : m ∉ y)
    (h : (w ++ m :: v ++ [eof]).head? = (y ++ m :: v' ++ [eof]).head?) : (w ++ [eof]).head? = (y ++ [eof]).head? := by
  cases w with
  | nil =>
    cases y with
    | nil => rfl
    | cons c y => simp at h; simp [h] at hy
  | cons c w =>
    cases y with
    | nil => simp at h; simp [h] at hw
    | cons d y => simpa using h

theorem DivOk.lr1 {eof : T} (k : DivOk D E C S m R) (hbD : InNoBody D S) (hbE : InNoBody E R)
    (hnD : NoEmpty D) (hnE : NoEmpty E) (hD : LR1 D S eof) (hE : LR1 E R eof) : LR1 (Divided D E C S m R) C eof := by
  have tD : ∀ {w : List T}, Terminals (Divided D E C S m R) w → Terminals D w := fun hx x hw => (DivOk.terminal.mp (hx x hw)).2.1
  have tE : ∀ {w : List T}, Terminals (Divided D E C S m R) w → Terminals E w := fun hx x hw => (DivOk.terminal.mp (hx x hw)).2.2
  intro α β w γ δ x y A B i j h1 hw hp1 h2 hx hp2 e hy hh
  rcases k.step hp1 hw h1 with ⟨rfl, rfl, rfl, rfl, rfl⟩ | ⟨α, rfl, d1, p1⟩ | ⟨w, v, rfl, g1, d1, p1, m1, n1⟩ <;>
  rcases k.step hp2 hx h2 with ⟨rfl, rfl, rfl, rfl, rfl⟩ | ⟨γ, rfl, d2, p2⟩ | ⟨x, v', rfl, g2, d2, p2, m2, n2⟩
  · simp at e
    exact ⟨rfl, rfl, rfl, e.symm⟩
  · obtain ⟨z, r, e2, hz⟩ := not_start_first hbE hnE d2 p2
    simp at e
    rw [← List.append_assoc, e2] at e
    exact absurd (List.cons.inj e).1 hz
  · obtain ⟨z, r, e2, hz⟩ := not_start_first hbD hnD d2 p2
    rw [e2] at e
    exact absurd (List.cons.inj e).1 hz
  · obtain ⟨z, r, e2, hz⟩ := not_start_first hbE hnE d1 p1
    simp at e
    rw [← List.append_assoc, e2] at e
    exact absurd (List.cons.inj e).1.symm hz
  · simp at e
    obtain ⟨rfl, h3, h4, h5⟩ := hE α β w γ δ x y A B i j d1 (tE hw) p1 d2 (tE hx) p2 (by simpa using e) (tE hy) hh
    exact ⟨rfl, h3, h4, h5⟩
  · obtain ⟨z, r, e2, hz⟩ := not_start_first hbD hnD d2 p2
    rw [e2] at e
    exact absurd (List.cons.inj e).1 hz
  · obtain ⟨z, r, e2, hz⟩ := not_start_first hbD hnD d1 p1
    rw [e2] at e
    exact absurd (List.cons.inj e).1.symm hz
  · obtain ⟨z, r, e2, hz⟩ := not_start_first hbD hnD d1 p1
    rw [e2] at e
    exact absurd (List.cons.inj e).1.symm hz
  · obtain ⟨y₁, e1, rfl⟩ := split_mark (p := γ ++ δ ++ x) (q := α ++ β) (m := m) (x := v') (y := y)
      (fun h => (List.mem_append.mp h).elim m2 n2) m1 (by simpa using e)
    have hy1 : m ∉ y₁ := by
      intro h
      have : m ∈ γ ++ δ ++ x := by rw [e1]; simp [h]
      exact (List.mem_append.mp this).elim m2 n2
    obtain ⟨h3, h4, h5, rfl⟩ := hD α β w γ δ x y₁ A B i j d1 (tD fun x hx => hw x (by simp [hx])) p1 d2
      (tD fun z hz => hx z (by simp [hz])) p2 e1 (tD fun x hx => hy x (by simp [hx])) (head_mark n1 hy1 hh)
    exact ⟨h3, h4, h5, rfl⟩

theorem DivOk.inNoBody (k : DivOk D E C S m R) : InNoBody (Divided D E C S m R) C := by
  intro X i b hp
  rcases k.isProd.mp hp with ⟨_, _, rfl⟩ | hp | hp
  · simpa using ⟨k.mineS.2.1.symm, k.ne.symm, k.mineR.2.symm⟩
  · exact k.cD.2 X i b hp
  · exact k.cE.2 X i b hp

theorem DivOk.noEmpty (k : DivOk D E C S m R) : NoEmpty (Divided D E C S m R) ↔ NoEmpty D ∧ NoEmpty E := by
  constructor
  · intro h
    exact ⟨fun X i b hp => h X i b (k.isProd.mpr (.inr (.inl hp))), fun X i b hp => h X i b (k.isProd.mpr (.inr (.inr hp)))⟩
  · rintro ⟨h1, h2⟩ X i b hp
    rcases k.isProd.mp hp with ⟨_, _, rfl⟩ | hp | hp
    · simp
    · exact h1 X i b hp
    · exact h2 X i b hp

theorem DivOk.not_self (k : DivOk D E C S m R) : ¬ SelfDeriving (Divided D E C S m R) C := by
  rintro ⟨a, s, h⟩
  have ha : C ∈ a := by
    rcases derives_from h (x := C) (by simp) with h | ⟨B, i, b, hp, hb⟩
    · exact h
    · exact absurd hb (k.inNoBody B i b hp)
  generalize e : [C] = z at s
  obtain @⟨u, v, A, i, body, hp⟩ := s
  have hl : u = [] ∧ A = C ∧ v = [] := by
    cases u with
    | nil => simp at e; exact ⟨rfl, e.1.symm, e.2⟩
    | cons x u => simp at e
  obtain ⟨rfl, rfl, rfl⟩ := hl
  exact k.inNoBody _ _ _ hp (by simpa using ha)

theorem DivOk.foldsLeft (k : DivOk D E C S m R) : FoldsAway (Loopless (LeftGraph (Divided D E C S m R))) ↔
    FoldsAway (Loopless (LeftGraph D)) ∧ FoldsAway (Loopless (LeftGraph E)) := by
  rw [← foldsAway_left k.apart]
  refine foldsAway_source (X := C) ?_ ?_ ?_
  · rintro A B ⟨_, _, i, b, hp⟩ rfl
    exact k.inNoBody A i _ hp (by simp)
  · rintro A B ⟨_, _, i, b, hp⟩ rfl
    exact hp.not_terminal (terminal_both.mpr ⟨k.cD.1, k.cE.1⟩)
  · intro A B hA
    refine and_congr_right fun _ => ?_
    constructor
    · rintro ⟨h1, i, b, hp⟩
      have hp' := (k.isProd.mp hp).resolve_left fun h => hA h.1
      refine ⟨nonterminal_both.mpr ((DivOk.nonterminal.mp h1).resolve_left fun e => ?_), i, b, (isProd_both k.apart).mpr hp'⟩
      exact k.inNoBody A i _ hp (by simp [e])
    · rintro ⟨h1, i, b, hp⟩
      exact ⟨DivOk.nonterminal.mpr (.inr (nonterminal_both.mp h1)), i, b,
        k.isProd.mpr (.inr ((isProd_both k.apart).mp hp))⟩

theorem DivOk.foldsRight (k : DivOk D E C S m R) : FoldsAway (Loopless (RightGraph (Divided D E C S m R))) ↔
    FoldsAway (Loopless (RightGraph D)) ∧ FoldsAway (Loopless (RightGraph E)) := by
  rw [← foldsAway_right k.apart, ← foldsAway_flip, ← foldsAway_flip (E := Loopless (RightGraph (D ++ E)))]
  refine foldsAway_source (X := C) ?_ ?_ ?_
  · rintro A B ⟨_, _, i, b, hp⟩ rfl
    exact k.inNoBody A i _ hp (by simp)
  · rintro A B ⟨_, _, i, b, hp⟩ rfl
    exact hp.not_terminal (terminal_both.mpr ⟨k.cD.1, k.cE.1⟩)
  · intro A B hA
    refine and_congr_right fun _ => ?_
    constructor
    · rintro ⟨h1, i, b, hp⟩
      have hp' := (k.isProd.mp hp).resolve_left fun h => hA h.1
      refine ⟨nonterminal_both.mpr ((DivOk.nonterminal.mp h1).resolve_left fun e => ?_), i, b, (isProd_both k.apart).mpr hp'⟩
      exact k.inNoBody A i _ hp (by simp [e])
    · rintro ⟨h1, i, b, hp⟩
      exact ⟨DivOk.nonterminal.mpr (.inr (nonterminal_both.mp h1)), i, b,
        k.isProd.mpr (.inr ((isProd_both k.apart).mp hp))⟩

theorem DivOk.upD (k : DivOk D E C S m R) {a b : List T} (h : Derives D a b) : Derives (Divided D E C S m R) a b :=
  fewer_derives (f := fun _ i => i) (fun _ _ _ hp => k.isProd.mpr (.inr (.inl hp))) h

theorem DivOk.upE (k : DivOk D E C S m R) {a b : List T} (h : Derives E a b) : Derives (Divided D E C S m R) a b :=
  fewer_derives (f := fun _ i => i) (fun _ _ _ hp => k.isProd.mpr (.inr (.inr hp))) h

theorem DivOk.top (k : DivOk D E C S m R) : Derives (Divided D E C S m R) [C] [S, m, R] :=
  .head (Step.mk [] [] (k.isProd.mpr (.inl ⟨rfl, rfl, rfl⟩))) (.refl _)

/-- What a rule of the first grammar derives has only symbols of it. -/
theorem DivOk.fromD (k : DivOk D E C S m R) {X : T} (hX : Nonterminal D X) {w : List T} (h : Derives D [X] w) :
    ∀ x ∈ w, Terminal E x ∧ x ≠ C := by
  intro x hx
  rcases derives_from h hx with h | ⟨B, i, b, hp, hb⟩
  · rw [List.mem_singleton.mp h]
    exact ⟨(k.apart.2 X hX).1, by rintro rfl; exact not_terminal_iff.mpr hX k.cD.1⟩
  · exact ⟨Classical.byContradiction fun hn => (k.apart.1 x (not_terminal_iff.mp hn)).2 _ _ _ hp hb, by
      rintro rfl; exact k.cD.2 _ _ _ hp hb⟩

theorem DivOk.fromE (k : DivOk D E C S m R) {X : T} (hX : Nonterminal E X) {w : List T} (h : Derives E [X] w) :
    ∀ x ∈ w, Terminal D x ∧ x ≠ C := by
  intro x hx
  rcases derives_from h hx with h | ⟨B, i, b, hp, hb⟩
  · rw [List.mem_singleton.mp h]
    exact ⟨(k.apart.1 X hX).1, by rintro rfl; exact not_terminal_iff.mpr hX k.cE.1⟩
  · exact ⟨Classical.byContradiction fun hn => (k.apart.2 x (not_terminal_iff.mp hn)).2 _ _ _ hp hb, by
      rintro rfl; exact k.cE.2 _ _ _ hp hb⟩

theorem DivOk.sentence (k : DivOk D E C S m R) {w : List T} :
    Sentence (Divided D E C S m R) C w ↔ ∃ u v, w = u ++ m :: v ∧ Sentence D S u ∧ Sentence E R v := by
  constructor
  · rintro ⟨h, ht⟩
    rcases k.forms (RDerives.of_derives h ht) with rfl | ⟨ψ, rfl, _⟩ | ⟨σ, v, rfl, hv, h0, h1, _⟩
    · exact absurd (DivOk.terminal.mp (ht C (by simp))).1 (by simp)
    · exact absurd (DivOk.terminal.mp (ht S (by simp))).2.1 (not_terminal_iff.mpr k.S)
    · exact ⟨σ, v, rfl, ⟨h1.derives, fun x hx => (DivOk.terminal.mp (ht x (by simp [hx]))).2.1⟩, h0,
        fun x hx => (DivOk.terminal.mp (ht x (by simp [hx]))).2.2⟩
  · rintro ⟨u, v, rfl, ⟨h1, t1⟩, h2, t2⟩
    refine ⟨k.top.trans ?_, ?_⟩
    · have a1 := (k.upD h1).ctx [] [m, R]
      have a2 := (k.upE h2).ctx (u ++ [m]) []
      exact (show Derives _ [S, m, R] (u ++ [m, R]) by simpa using a1).trans (by simpa using a2)
    · intro x hx
      rcases List.mem_append.mp hx with hx | hx
      · exact DivOk.terminal.mpr ⟨(k.fromD k.S h1 x hx).2, t1 x hx, (k.fromD k.S h1 x hx).1⟩
      · rcases List.mem_cons.mp hx with rfl | hx
        · exact k.mT
        · exact DivOk.terminal.mpr ⟨(k.fromE k.R h2 x hx).2, (k.fromE k.R h2 x hx).1, t2 x hx⟩

theorem DivOk.allProductive (k : DivOk D E C S m R) (hD : AllProductive D) (hE : AllProductive E) :
    AllProductive (Divided D E C S m R) := by
  intro X hX
  rcases DivOk.nonterminal.mp hX with rfl | hX | hX
  · obtain ⟨u, h1⟩ := hD S k.S
    obtain ⟨v, h2⟩ := hE R k.R
    obtain ⟨h3, h4⟩ := k.sentence.mpr ⟨u, v, rfl, h1, h2⟩
    exact ⟨u ++ m :: v, h3, h4⟩
  · obtain ⟨w, h1, h2⟩ := hD X hX
    exact ⟨w, k.upD h1, fun x hx => DivOk.terminal.mpr ⟨(k.fromD hX h1 x hx).2, h2 x hx, (k.fromD hX h1 x hx).1⟩⟩
  · obtain ⟨w, h1, h2⟩ := hE X hX
    exact ⟨w, k.upE h1, fun x hx => DivOk.terminal.mpr ⟨(k.fromE hX h1 x hx).2, (k.fromE hX h1 x hx).1, h2 x hx⟩⟩

/-! ### SLR(1) -/

theorem DivOk.item (k : DivOk D E C S m R) {γ β₁ β₂ : List T} {A : T} {i : Nat}
    (hv : ValidItem (Divided D E C S m R) C γ A i β₁ β₂) :
    (A = C ∧ i = 0 ∧ γ = β₁ ∧ β₁ ++ β₂ = [S, m, R]) ∨
    (∃ γ', γ = S :: m :: γ' ∧ ValidItem E R γ' A i β₁ β₂) ∨
    (ValidItem D S γ A i β₁ β₂ ∧ m ∉ γ) := by
  obtain ⟨hp, α, w, rfl, hw, hd⟩ := hv
  have tD : ∀ x, Terminal (Divided D E C S m R) x → Terminal D x := fun x hx => (DivOk.terminal.mp hx).2.1
  have tE : ∀ x, Terminal (Divided D E C S m R) x → Terminal E x := fun x hx => (DivOk.terminal.mp hx).2.2
  rcases k.step hp hw hd with ⟨rfl, rfl, _, rfl, e⟩ | ⟨α', rfl, h1, hp'⟩ | ⟨w₁, v, rfl, _, h1, hp', h2, _⟩
  · exact .inl ⟨rfl, rfl, rfl, e⟩
  · exact .inr (.inl ⟨α' ++ β₁, by simp, hp', α', w, rfl, fun x hx => tE x (hw x hx), h1⟩)
  · refine .inr (.inr ⟨⟨hp', α, w₁, rfl, fun x hx => tD x (hw x (by simp [hx])), h1⟩, fun h => h2 ?_⟩)
    rcases List.mem_append.mp h with h | h
    · exact List.mem_append_left _ h
    · exact List.mem_append_right _ (by simp [h])

variable {eof : T}

theorem DivOk.derives (k : DivOk D E C S m R) (he : Terminal (Divided D E C S m R) eof) {a b : List T}
    (h : Derives (Divided D E C S m R) a b) : ∀ {σ ψ}, a = σ ++ m :: (ψ ++ [eof]) →
      (∀ x ∈ σ, DivOk.mine E C m x) → (∀ x ∈ ψ, JoinOk.mine D C x) →
      ∃ σ' ψ', b = σ' ++ m :: (ψ' ++ [eof]) ∧ Derives D σ σ' ∧ Derives E ψ ψ' ∧ (∀ x ∈ σ', DivOk.mine E C m x) ∧
        ∀ x ∈ ψ', JoinOk.mine D C x := by
  induction h with
  | refl => exact fun e h1 h2 => ⟨_, _, e, .refl _, .refl _, h1, h2⟩
  | head s _ ih =>
    intro σ ψ e h1 h2
    obtain @⟨u, v, X, i, b, hp⟩ := s
    rcases List.append_eq_append_iff.mp e with ⟨c, k1, k2⟩ | ⟨c, k1, k2⟩
    · have key : ∃ d, σ = u ++ X :: d ∧ v = d ++ m :: (ψ ++ [eof]) := by
        cases c with
        | nil =>
          simp at k2
          exact absurd k.mT (k2.1 ▸ hp.not_terminal)
        | cons d c =>
          simp at k2
          obtain ⟨rfl, rfl⟩ := k2
          exact ⟨c, k1, rfl⟩
      obtain ⟨d, rfl, rfl⟩ := key
      obtain ⟨hp', hb⟩ := k.subD X i b (h1 X (by simp)) hp
      obtain ⟨σ', ψ', g1, g2, g3, g4, g5⟩ := ih (σ := u ++ b ++ d) (ψ := ψ) (by simp) (by
        intro x hx
        rcases List.mem_append.mp hx with hx | hx
        · rcases List.mem_append.mp hx with hx | hx
          · exact h1 x (by simp [hx])
          · exact hb x hx
        · exact h1 x (by simp [hx])) h2
      exact ⟨σ', ψ', g1, .head (Step.mk u d hp') g2, g3, g4, g5⟩
    · cases c with
      | nil =>
        simp at k2
        exact absurd k.mT (k2.1 ▸ hp.not_terminal)
      | cons d c =>
        simp at k2
        obtain ⟨rfl, k2⟩ := k2
        subst k1
        obtain ⟨d', rfl, rfl⟩ := split_at_terminals (q := [eof]) hp.nonterminal (by simpa [Terminals] using he) k2
        obtain ⟨hp', hb⟩ := k.subE X i b (h2 X (by simp)) hp
        obtain ⟨σ', ψ', g1, g2, g3, g4, g5⟩ := ih (σ := σ) (ψ := c ++ b ++ d') (by simp) h1 (by
          intro x hx
          rcases List.mem_append.mp hx with hx | hx
          · rcases List.mem_append.mp hx with hx | hx
            · exact h2 x (by simp [hx])
            · exact hb x hx
          · exact h2 x (by simp [hx]))
        exact ⟨σ', ψ', g1, g2, .head (Step.mk c d' hp') g3, g4, g5⟩

theorem DivOk.follow (k : DivOk D E C S m R) (eD : Fresh D eof) (eE : Fresh E eof) (eC : eof ≠ C) {A x : T}
    (hA : Nonterminal (Divided D E C S m R) A) (hf : InFollow (Divided D E C S m R) C eof A x) :
    (A = C ∧ x = eof) ∨ (JoinOk.mine D C A ∧ InFollow E R eof A x) ∨
    (DivOk.mine E C m A ∧ ((x = m ∧ InFollow D S eof A eof) ∨ (x ≠ m ∧ InFollow D S eof A x))) := by
  have hte : Terminal (Divided D E C S m R) eof := DivOk.terminal.mpr ⟨eC, eD.1, eE.1⟩
  obtain ⟨u, v, hd⟩ := hf
  generalize e : [C, eof] = a at hd
  generalize e' : u ++ A :: x :: v = b at hd
  cases hd with
  | refl =>
    subst e
    cases u with
    | nil => simp at e'; exact .inl ⟨e'.1, e'.2.1⟩
    | cons y u => cases u <;> simp at e'
  | head s hd =>
    obtain @⟨p, q, X, i, body, hp⟩ := s
    have hl : p = [] ∧ X = C ∧ q = [eof] := by
      cases p with
      | nil => simp at e; exact ⟨rfl, e.1.symm, e.2.symm⟩
      | cons y p =>
        cases p with
        | nil =>
          simp at e
          exact absurd hte (e.2.1 ▸ hp.not_terminal)
        | cons z p => simp at e
    obtain ⟨rfl, rfl, rfl⟩ := hl
    rcases k.isProd.mp hp with ⟨_, _, rfl⟩ | hp | hp
    · obtain ⟨σ, ψ, g1, g2, g3, g4, g5⟩ := k.derives hte hd (σ := [S]) (ψ := [R]) (by simp) (by simpa using k.mineS)
        (by simpa using k.mineR)
      rw [← e'] at g1
      rcases List.append_eq_append_iff.mp g1 with ⟨c, k1, k2⟩ | ⟨c, k1, k2⟩
      · cases c with
        | nil =>
          simp at k2
          obtain ⟨rfl, _⟩ := k2
          exact absurd k.mT (not_terminal_iff.mpr hA)
        | cons d c =>
          simp at k2
          obtain ⟨rfl, k2⟩ := k2
          subst k1
          have hd := g2.ctx [] [eof]
          refine .inr (.inr ⟨g4 A (by simp), ?_⟩)
          cases c with
          | nil =>
            simp at k2
            exact .inl ⟨k2.1, u, [], by simpa using hd⟩
          | cons d c =>
            simp at k2
            obtain ⟨rfl, _⟩ := k2
            exact .inr ⟨(g4 x (by simp)).2.2, u, c ++ [eof], by simpa using hd⟩
      · cases c with
        | nil =>
          simp at k2
          obtain ⟨rfl, _⟩ := k2
          exact absurd k.mT (not_terminal_iff.mpr hA)
        | cons d c =>
          simp at k2
          obtain ⟨rfl, k2⟩ := k2
          obtain ⟨d', rfl, e3⟩ := split_at_terminals (q := [eof]) hA (by simpa [Terminals] using hte) k2
          have hd := g3.ctx [] [eof]
          refine .inr (.inl ⟨g5 A (by simp), c, v, ?_⟩)
          rw [e3]
          simpa using hd
    · exact absurd k.cD.1 hp.not_terminal
    · exact absurd k.cE.1 hp.not_terminal

theorem DivOk.slr1 (k : DivOk D E C S m R) (eD : Fresh D eof) (eE : Fresh E eof) (eC : eof ≠ C)
    (hbD : InNoBody D S) (hbE : InNoBody E R) (hnD : NoEmpty D) (hnE : NoEmpty E) (hD : SLR1 D S eof)
    (hE : SLR1 E R eof) : SLR1 (Divided D E C S m R) C eof := by
  have folE : ∀ {A x : T}, Nonterminal E A → InFollow (Divided D E C S m R) C eof A x → InFollow E R eof A x := by
    intro A x hA hf
    rcases k.follow eD eE eC (DivOk.nonterminal.mpr (.inr (.inr hA))) hf with ⟨rfl, _⟩ | ⟨_, h'⟩ | ⟨h', _⟩
    · exact absurd k.cE.1 (not_terminal_iff.mpr hA)
    · exact h'
    · exact absurd h'.1 (not_terminal_iff.mpr hA)
  have folD : ∀ {A x : T}, Nonterminal D A → InFollow (Divided D E C S m R) C eof A x →
      (x = m ∧ InFollow D S eof A eof) ∨ (x ≠ m ∧ InFollow D S eof A x) := by
    intro A x hA hf
    rcases k.follow eD eE eC (DivOk.nonterminal.mpr (.inr (.inl hA))) hf with ⟨rfl, _⟩ | ⟨h', _⟩ | ⟨_, h'⟩
    · exact absurd k.cD.1 (not_terminal_iff.mpr hA)
    · exact absurd h'.1 (not_terminal_iff.mpr hA)
    · exact h'
  have folC : ∀ {x : T}, InFollow (Divided D E C S m R) C eof C x → x = eof := by
    intro x hf
    rcases k.follow eD eE eC (DivOk.nonterminal.mpr (.inl rfl)) hf with ⟨_, h⟩ | ⟨h', _⟩ | ⟨h', _⟩
    · exact h
    · exact absurd rfl h'.2
    · exact absurd rfl h'.2.1
  constructor
  · intro γ A i β B j δ x h1 h2 hx f1 f2
    rcases k.item h1 with ⟨rfl, rfl, rfl, e⟩ | ⟨γ', rfl, i1⟩ | ⟨i1, c1⟩
    · rcases k.item h2 with ⟨rfl, rfl, rfl, _⟩ | ⟨γ', rfl, i2⟩ | ⟨i2, c2⟩
      · exact ⟨rfl, rfl⟩
      · simp at e
        subst e
        exact (no_item_start hbE hnE i2).elim
      · simp at e
        exact absurd (by simp [e]) c2
    · rcases k.item h2 with ⟨rfl, rfl, rfl, e⟩ | ⟨γ'', e, i2⟩ | ⟨i2, c2⟩
      · simp at e
        subst e
        exact (no_item_start hbE hnE i1).elim
      · simp at e
        subst e
        exact hE.1 γ' A i β B j δ x i1 i2 (DivOk.terminal.mp hx).2.2 (folE i1.1.nonterminal f1) (folE i2.1.nonterminal f2)
      · exact absurd (by simp) c2
    · rcases k.item h2 with ⟨rfl, rfl, rfl, e⟩ | ⟨γ'', rfl, i2⟩ | ⟨i2, c2⟩
      · simp at e
        exact absurd (by simp [e]) c1
      · exact absurd (by simp) c1
      · rcases folD i1.1.nonterminal f1 with ⟨rfl, g1⟩ | ⟨n1, g1⟩ <;>
        rcases folD i2.1.nonterminal f2 with ⟨e, g2⟩ | ⟨n2, g2⟩
        · exact hD.1 γ A i β B j δ eof i1 i2 eD.1 g1 g2
        · exact absurd rfl n2
        · exact absurd e n1
        · exact hD.1 γ A i β B j δ x i1 i2 (DivOk.terminal.mp hx).2.1 g1 g2
  · intro γ A i β B j δ₁ a δ₂ h1 h2 ha f1
    rcases k.item h1 with ⟨rfl, rfl, rfl, e⟩ | ⟨γ', rfl, i1⟩ | ⟨i1, c1⟩
    · rcases k.item h2 with ⟨rfl, rfl, rfl, e2⟩ | ⟨γ', rfl, i2⟩ | ⟨i2, c2⟩
      · simp at e
        simp [e] at e2
      · exact eE.2 _ _ _ i2.1 (by simp [folC f1])
      · simp at e
        exact absurd (by simp [e]) c2
    · rcases k.item h2 with ⟨rfl, rfl, rfl, e⟩ | ⟨γ'', e, i2⟩ | ⟨i2, c2⟩
      · have hne := item_ne_nil hnE i1
        cases γ' with
        | nil => exact hne rfl
        | cons d γ' =>
          have := congrArg List.length e
          simp at this
      · simp at e
        subst e
        exact hE.2 γ' A i β B j δ₁ a δ₂ i1 i2 (DivOk.terminal.mp ha).2.2 (folE i1.1.nonterminal f1)
      · exact absurd (by simp) c2
    · rcases k.item h2 with ⟨rfl, rfl, rfl, e⟩ | ⟨γ'', rfl, i2⟩ | ⟨i2, c2⟩
      · have hne := item_ne_nil hnD i1
        match γ, e with
        | [], _ => exact hne rfl
        | [d], e =>
          simp at e
          obtain ⟨rfl, _⟩ := e
          exact no_item_start hbD hnD i1
        | c :: d :: γ, e =>
          simp at e
          exact c1 (by simp [e])
      · exact absurd (by simp) c1
      · rcases folD i1.1.nonterminal f1 with ⟨rfl, g1⟩ | ⟨n1, g1⟩
        · exact k.mD.2 _ _ _ i2.1 (by simp)
        · exact hD.2 γ A i β B j δ₁ a δ₂ i1 i2 (DivOk.terminal.mp ha).2.1 g1

/-! ### LALR(1) -/

theorem DivOk.mark (k : DivOk D E C S m R) {w : List T} (h : Derives D [S] w) : m ∉ w := by
  intro hx
  rcases derives_from h hx with h | ⟨_, _, _, hp, hb⟩
  · exact not_terminal_iff.mpr k.S (List.mem_singleton.mp h ▸ k.mD.1)
  · exact k.mD.2 _ _ _ hp hb

theorem DivOk.rtop (k : DivOk D E C S m R) : RDerives (Divided D E C S m R) [C] [S, m, R] :=
  .tail .refl (RStep.mk [] [] (k.isProd.mpr (.inl ⟨rfl, rfl, rfl⟩)) (by simp [Terminals]))

theorem DivOk.rupE (k : DivOk D E C S m R) {w : List T} (h : RDerives E [R] w) :
    RDerives (Divided D E C S m R) [C] (S :: m :: w) := by
  induction h with
  | refl => exact k.rtop
  | tail h s ih =>
    obtain @⟨p, r, X, i, b, hp, hr⟩ := s
    have := RDerives.tail (b := S :: m :: (p ++ X :: r)) ih
      (RStep.mk (S :: m :: p) r (k.isProd.mpr (.inr (.inr hp))) fun x hx => ?_)
    · simpa using this
    · have := k.fromE k.R h.derives x (by simp [hx])
      exact DivOk.terminal.mpr ⟨this.2, this.1, hr x hx⟩

theorem DivOk.rupD (k : DivOk D E C S m R) {v : List T} (hv : RDerives E [R] v) (tv : Terminals E v) {w : List T}
    (h : RDerives D [S] w) : RDerives (Divided D E C S m R) [C] (w ++ m :: v) := by
  induction h with
  | refl => exact k.rupE hv
  | tail h s ih =>
    obtain @⟨p, r, X, i, b, hp, hr⟩ := s
    have := RDerives.tail (b := p ++ X :: (r ++ m :: v)) (by simpa using ih)
      (RStep.mk p (r ++ m :: v) (k.isProd.mpr (.inr (.inl hp))) fun x hx => ?_)
    · simpa using this
    · rcases List.mem_append.mp hx with hx | hx
      · have := k.fromD k.S h.derives x (by simp [hx])
        exact DivOk.terminal.mpr ⟨this.2, hr x hx, this.1⟩
      · rcases List.mem_cons.mp hx with rfl | hx
        · exact k.mT
        · have := k.fromE k.R hv.derives x hx
          exact DivOk.terminal.mpr ⟨this.2, this.1, tv x hx⟩

theorem DivOk.sameD (k : DivOk D E C S m R) (hR : Productive E R) {γ γ' : List T}
    (h : SameItems (Divided D E C S m R) C γ γ') : SameItems D S γ γ' := by
  obtain ⟨v, h1, h2⟩ := hR
  have hv := RDerives.of_derives h1 h2
  have key : ∀ {γ γ' : List T}, SameItems (Divided D E C S m R) C γ γ' → ∀ A i β₁ β₂, ValidItem D S γ A i β₁ β₂ →
      ValidItem D S γ' A i β₁ β₂ := by
    intro γ γ' h A i β₁ β₂ hi
    have hA := hi.1.nonterminal
    have hJ : ValidItem (Divided D E C S m R) C γ A i β₁ β₂ := by
      obtain ⟨hp, α, w, e, hw, hd⟩ := hi
      refine ⟨k.isProd.mpr (.inr (.inl hp)), α, w ++ m :: v, e, fun x hx => ?_, by simpa using k.rupD hv h2 hd⟩
      rcases List.mem_append.mp hx with hx | hx
      · have := k.fromD k.S hd.derives x (by simp [hx])
        exact DivOk.terminal.mpr ⟨this.2, hw x hx, this.1⟩
      · rcases List.mem_cons.mp hx with rfl | hx
        · exact k.mT
        · have := k.fromE k.R h1 x hx
          exact DivOk.terminal.mpr ⟨this.2, this.1, h2 x hx⟩
    rcases k.item ((h A i β₁ β₂).mp hJ) with ⟨rfl, _⟩ | ⟨_, _, h'⟩ | ⟨h', _⟩
    · exact absurd k.cD.1 (not_terminal_iff.mpr hA)
    · exact absurd (k.apart.2 A hA).1 (not_terminal_iff.mpr h'.1.nonterminal)
    · exact h'
  exact fun A i β₁ β₂ => ⟨key h A i β₁ β₂, key (fun A i β₁ β₂ => (h A i β₁ β₂).symm) A i β₁ β₂⟩

theorem DivOk.sameE (k : DivOk D E C S m R) {γ γ' : List T}
    (h : SameItems (Divided D E C S m R) C (S :: m :: γ) (S :: m :: γ')) : SameItems E R γ γ' := by
  have key : ∀ {γ γ' : List T}, SameItems (Divided D E C S m R) C (S :: m :: γ) (S :: m :: γ') →
      ∀ A i β₁ β₂, ValidItem E R γ A i β₁ β₂ → ValidItem E R γ' A i β₁ β₂ := by
    intro γ γ' h A i β₁ β₂ hi
    have hA := hi.1.nonterminal
    have hJ : ValidItem (Divided D E C S m R) C (S :: m :: γ) A i β₁ β₂ := by
      obtain ⟨hp, α, w, e, hw, hd⟩ := hi
      refine ⟨k.isProd.mpr (.inr (.inr hp)), S :: m :: α, w, by simp [e], fun x hx => ?_, by simpa using k.rupE hd⟩
      have := k.fromE k.R hd.derives x (by simp [hx])
      exact DivOk.terminal.mpr ⟨this.2, this.1, hw x hx⟩
    rcases k.item ((h A i β₁ β₂).mp hJ) with ⟨rfl, _⟩ | ⟨_, e, h'⟩ | ⟨_, h'⟩
    · exact absurd k.cE.1 (not_terminal_iff.mpr hA)
    · simp at e
      exact e ▸ h'
    · exact absurd (by simp) h'
  exact fun A i β₁ β₂ => ⟨key h A i β₁ β₂, key (fun A i β₁ β₂ => (h A i β₁ β₂).symm) A i β₁ β₂⟩

theorem DivOk.item1 (k : DivOk D E C S m R) {γ β₁ β₂ : List T} {A x : T} {i : Nat}
    (hv : ValidItem1 (Divided D E C S m R) C eof γ A i β₁ β₂ x) :
    (A = C ∧ i = 0 ∧ γ = β₁ ∧ β₁ ++ β₂ = [S, m, R] ∧ x = eof) ∨
    (∃ γ', γ = S :: m :: γ' ∧ ValidItem1 E R eof γ' A i β₁ β₂ x) ∨
    (m ∉ γ ∧ ((x = m ∧ ValidItem1 D S eof γ A i β₁ β₂ eof) ∨ (x ≠ m ∧ ValidItem1 D S eof γ A i β₁ β₂ x))) := by
  obtain ⟨hp, α, w, rfl, hw, hh, hd⟩ := hv
  have tD : ∀ x, Terminal (Divided D E C S m R) x → Terminal D x := fun x hx => (DivOk.terminal.mp hx).2.1
  have tE : ∀ x, Terminal (Divided D E C S m R) x → Terminal E x := fun x hx => (DivOk.terminal.mp hx).2.2
  rcases k.step hp hw hd with ⟨rfl, rfl, rfl, rfl, e⟩ | ⟨α', rfl, h1, hp'⟩ | ⟨w₁, v, rfl, _, h1, hp', h2, h3⟩
  · exact .inl ⟨rfl, rfl, rfl, e, by simpa using hh.symm⟩
  · exact .inr (.inl ⟨α' ++ β₁, by simp, hp', α', w, rfl, fun x hx => tE x (hw x hx), hh, h1⟩)
  · refine .inr (.inr ⟨fun h => h2 ?_, ?_⟩)
    · rcases List.mem_append.mp h with h | h
      · exact List.mem_append_left _ h
      · exact List.mem_append_right _ (by simp [h])
    · have hw1 : Terminals D w₁ := fun x hx => tD x (hw x (by simp [hx]))
      cases w₁ with
      | nil =>
        simp at hh
        exact .inl ⟨hh.symm, hp', α, [], rfl, hw1, rfl, h1⟩
      | cons y w₁ =>
        simp at hh
        subst hh
        exact .inr ⟨fun e => h3 (by simp [e]), hp', α, y :: w₁, rfl, hw1, rfl, h1⟩

theorem DivOk.lalr1 (k : DivOk D E C S m R) (eD : Fresh D eof) (eE : Fresh E eof) (hR : Productive E R)
    (hbD : InNoBody D S) (hbE : InNoBody E R) (hnD : NoEmpty D) (hnE : NoEmpty E) (hD : LALR1 D S eof)
    (hE : LALR1 E R eof) : LALR1 (Divided D E C S m R) C eof := by
  have lone : ∀ {B : T} {j : Nat} {δ : List T}, ValidItem (Divided D E C S m R) C [S, m, R] B j δ [] →
      B = C ∧ j = 0 := by
    intro B j δ h
    rcases k.item h with ⟨h1, h2, _⟩ | ⟨γ', e, i2⟩ | ⟨_, c2⟩
    · exact ⟨h1, h2⟩
    · simp at e
      subst e
      exact (no_item_start hbE hnE i2).elim
    · exact absurd (by simp) c2
  have onE : ∀ {γ δ₁ δ₂ : List T} {B : T} {j : Nat}, ValidItem (Divided D E C S m R) C γ B j δ₁ δ₂ → Nonterminal E B →
      m ∈ γ := by
    intro γ δ₁ δ₂ B j h hB
    rcases k.item h with ⟨rfl, _⟩ | ⟨γ', rfl, _⟩ | ⟨h', _⟩
    · exact absurd k.cE.1 (not_terminal_iff.mpr hB)
    · simp
    · exact absurd (k.apart.1 B hB).1 (not_terminal_iff.mpr h'.1.nonterminal)
  constructor
  · intro γ γ' A i β B j δ x hs hA hB
    have hA' := (hs _ _ _ _).mp hA.item
    have hB' := (hs _ _ _ _).mpr hB.item
    rcases k.item1 hA with ⟨rfl, rfl, rfl, e, _⟩ | ⟨γ₁, rfl, i1⟩ | ⟨c1, i1⟩
    · rw [List.append_nil] at e
      subst e
      obtain ⟨rfl, rfl⟩ := lone hB'
      exact ⟨rfl, rfl⟩
    · rcases k.item1 hB with ⟨rfl, rfl, rfl, e, _⟩ | ⟨γ₂, rfl, i2⟩ | ⟨c2, i2⟩
      · rw [List.append_nil] at e
        subst e
        obtain ⟨rfl, rfl⟩ := lone hA'
        exact ⟨rfl, rfl⟩
      · exact hE.1 γ₁ γ₂ A i β B j δ x (k.sameE hs) i1 i2
      · exact absurd (onE hA' i1.1.nonterminal) c2
    · rcases k.item1 hB with ⟨rfl, rfl, rfl, e, _⟩ | ⟨γ₂, rfl, i2⟩ | ⟨c2, i2⟩
      · rw [List.append_nil] at e
        subst e
        obtain ⟨rfl, rfl⟩ := lone hA'
        exact ⟨rfl, rfl⟩
      · exact absurd (onE hB' i2.1.nonterminal) c1
      · rcases i1 with ⟨rfl, g1⟩ | ⟨n1, g1⟩ <;> rcases i2 with ⟨e, g2⟩ | ⟨n2, g2⟩
        · exact hD.1 γ γ' A i β B j δ eof (k.sameD hR hs) g1 g2
        · exact absurd rfl n2
        · exact absurd e n1
        · exact hD.1 γ γ' A i β B j δ x (k.sameD hR hs) g1 g2
  · intro γ γ' A i β B j δ₁ a δ₂ hs hA hB ha
    have hA' := (hs _ _ _ _).mp hA.item
    have hB' := (hs _ _ _ _).mpr hB
    rcases k.item1 hA with ⟨rfl, rfl, rfl, e, rfl⟩ | ⟨γ₁, rfl, i1⟩ | ⟨c1, i1⟩
    · rw [List.append_nil] at e
      subst e
      rcases k.item hB' with ⟨_, _, rfl, e⟩ | ⟨_, _, h'⟩ | ⟨h', _⟩
      · simp at e
      · exact eE.2 _ _ _ h'.1 (by simp)
      · exact eD.2 _ _ _ h'.1 (by simp)
    · rcases k.item hB with ⟨rfl, _⟩ | ⟨γ₂, rfl, i2⟩ | ⟨i2, c2⟩
      · rcases k.item hB' with ⟨_, _, rfl, e⟩ | ⟨_, _, h'⟩ | ⟨h', _⟩
        · cases γ₁ with
          | nil => exact item_ne_nil hnE i1.item rfl
          | cons d γ₁ =>
            have := congrArg List.length e
            simp at this
        · exact k.cE.ne h'.1 rfl
        · exact k.cD.ne h'.1 rfl
      · exact hE.2 γ₁ γ₂ A i β B j δ₁ a δ₂ (k.sameE hs) i1 i2 (DivOk.terminal.mp ha).2.2
      · exact c2 (onE hA' i1.1.nonterminal)
    · have i0 : ValidItem D S γ A i β [] := i1.elim (fun h => h.2.item) fun h => h.2.item
      rcases k.item hB with ⟨rfl, _⟩ | ⟨γ₂, rfl, i2⟩ | ⟨i2, c2⟩
      · rcases k.item hB' with ⟨_, _, rfl, e⟩ | ⟨_, _, h'⟩ | ⟨h', _⟩
        · match γ, e with
          | [], _ => exact item_ne_nil hnD i0 rfl
          | [d], e =>
            simp at e
            obtain ⟨rfl, _⟩ := e
            exact no_item_start hbD hnD i0
          | c :: d :: γ, e =>
            simp at e
            exact c1 (by simp [e])
        · exact k.cE.ne h'.1 rfl
        · exact k.cD.ne h'.1 rfl
      · exact c1 (onE hB' i2.1.nonterminal)
      · rcases i1 with ⟨rfl, g1⟩ | ⟨n1, g1⟩
        · exact k.mD.2 _ _ _ i2.1 (by simp)
        · exact hD.2 γ γ' A i β B j δ₁ a δ₂ (k.sameD hR hs) g1 i2 (DivOk.terminal.mp ha).2.1

end
end Lrp
