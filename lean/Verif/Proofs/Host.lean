import Verif.Spec.Host
import Verif.Proofs.Rename
import Verif.Proofs.Sequence
import Verif.Proofs.Brackets

/-! One grammar inside another, between brackets. -/

set_option linter.unusedSectionVars false

namespace Lrp
open Spec
variable {T : Type} [LinOrd T] [DecidableEq T]

section
variable {D E : Decls T}

theorem terminal_both {x : T} : Terminal (D ++ E) x ↔ Terminal D x ∧ Terminal E x := by
  unfold Terminal
  simp only [List.mem_append]
  exact ⟨fun h => ⟨fun d hd => h d (.inl hd), fun d hd => h d (.inr hd)⟩, fun h d hd => hd.elim (h.1 d) (h.2 d)⟩

theorem nonterminal_both {x : T} : Nonterminal (D ++ E) x ↔ Nonterminal D x ∨ Nonterminal E x := by
  unfold Nonterminal
  simp only [List.mem_append]
  constructor
  · rintro ⟨d, h | h, e⟩
    · exact .inl ⟨d, h, e⟩
    · exact .inr ⟨d, h, e⟩
  · rintro (⟨d, h, e⟩ | ⟨d, h, e⟩)
    · exact ⟨d, .inl h, e⟩
    · exact ⟨d, .inr h, e⟩

theorem isProd_both (hap : Separate D E) {A : T} {i : Nat} {b : List T} :
    IsProd (D ++ E) A i b ↔ IsProd D A i b ∨ IsProd E A i b := by
  constructor
  · rintro ⟨bs, ⟨pre, post, e, h⟩, hi⟩
    rcases List.append_eq_append_iff.mp e with ⟨c, rfl, h1⟩ | ⟨c, h1, h2⟩
    · exact .inr ⟨bs, ⟨c, post, h1, h⟩, hi⟩
    · cases c with
      | nil => exact .inr ⟨bs, ⟨[], post, h2.symm, h⟩, hi⟩
      | cons d c =>
        simp only [List.cons_append, List.cons.injEq] at h2
        obtain ⟨rfl, rfl⟩ := h2
        exact .inl ⟨bs, ⟨pre, c, h1, fun d hd => h d (by simp [hd])⟩, hi⟩
  · rintro (hp | hp)
    · have hA := (hap.2 A hp.nonterminal).1
      obtain ⟨bs, ⟨pre, post, e, h⟩, hi⟩ := hp
      refine ⟨bs, ⟨pre, post ++ E, by rw [e]; simp, ?_⟩, hi⟩
      intro d hd
      rcases List.mem_append.mp hd with hd | hd
      · exact h d hd
      · exact hA d hd
    · obtain ⟨bs, ⟨pre, post, e, h⟩, hi⟩ := hp
      exact ⟨bs, ⟨D ++ pre, post, by rw [e]; simp, h⟩, hi⟩

/-- Derivations inside a closed set of symbols. -/
theorem rderives_inside {G D : Decls T} {P : T → Prop}
    (hsub : ∀ A i b, P A → IsProd G A i b → IsProd D A i b ∧ ∀ x ∈ b, P x)
    (ht : ∀ x, Terminal G x → Terminal D x) {a b : List T} (h : RDerives G a b) (ha : ∀ x ∈ a, P x) :
    RDerives D a b ∧ ∀ x ∈ b, P x := by
  induction h with
  | refl => exact ⟨.refl, ha⟩
  | tail _ s ih =>
    obtain ⟨h1, h2⟩ := ih
    cases s with
    | @mk u v A i body hp hv =>
      obtain ⟨h3, h4⟩ := hsub A i body (h2 A (by simp)) hp
      refine ⟨.tail h1 (.mk u v h3 fun x hx => ht x (hv x hx)), ?_⟩
      intro x hx
      simp only [List.mem_append] at hx
      rcases hx with (hx | hx) | hx
      · exact h2 x (by simp [hx])
      · exact h4 x hx
      · exact h2 x (by simp [hx])

/-- Either grammar, the second after a keyword. -/
def Either' (D E : Decls T) (Z S h R : T) : Decls T := (Z, [[S], [h, R]]) :: (D ++ E)

structure EitherOk (D E : Decls T) (Z S h R : T) : Prop where
  apart : Separate D E
  zD : Fresh D Z
  zE : Fresh E Z
  hD : Fresh D h
  hE : Fresh E h
  ne : Z ≠ h
  S : Nonterminal D S
  R : Nonterminal E R

variable {Z S h R : T}

theorem EitherOk.isProd (k : EitherOk D E Z S h R) {A : T} {i : Nat} {b : List T} :
    IsProd (Either' D E Z S h R) A i b ↔
      (A = Z ∧ ((i = 0 ∧ b = [S]) ∨ (i = 1 ∧ b = [h, R]))) ∨ IsProd D A i b ∨ IsProd E A i b := by
  rw [← isProd_both k.apart]
  constructor
  · rintro ⟨bs, ⟨pre, post, e, h⟩, hi⟩
    cases pre with
    | nil =>
      simp only [Either', List.nil_append, List.cons.injEq, Prod.mk.injEq] at e
      obtain ⟨⟨rfl, rfl⟩, rfl⟩ := e
      left
      match i, hi with
      | 0, hi => exact ⟨rfl, .inl ⟨rfl, by simpa using hi.symm⟩⟩
      | 1, hi => exact ⟨rfl, .inr ⟨rfl, by simpa using hi.symm⟩⟩
      | i + 2, hi => simp at hi
    | cons d pre =>
      simp only [Either', List.cons_append, List.cons.injEq] at e
      exact .inr ⟨bs, ⟨pre, post, e.2, h⟩, hi⟩
  · rintro (⟨rfl, h'⟩ | ⟨bs, ⟨pre, post, e, h'⟩, hi⟩)
    · refine ⟨[[S], [h, R]], ⟨[], D ++ E, rfl, terminal_both.mpr ⟨k.zD.1, k.zE.1⟩⟩, ?_⟩
      rcases h' with ⟨rfl, rfl⟩ | ⟨rfl, rfl⟩ <;> rfl
    · exact ⟨bs, ⟨(Z, [[S], [h, R]]) :: pre, post, by rw [Either', e]; rfl, h'⟩, hi⟩

theorem EitherOk.terminal {x : T} : Terminal (Either' D E Z S h R) x ↔ x ≠ Z ∧ Terminal D x ∧ Terminal E x := by
  rw [← terminal_both]
  unfold Terminal Either'
  simp only [List.forall_mem_cons]
  exact and_congr_left fun _ => ⟨Ne.symm, Ne.symm⟩

theorem EitherOk.nonterminal {x : T} :
    Nonterminal (Either' D E Z S h R) x ↔ x = Z ∨ Nonterminal D x ∨ Nonterminal E x := by
  rw [← nonterminal_both]
  unfold Nonterminal Either'
  simp only [List.mem_cons, exists_eq_or_imp]
  exact or_congr_left ⟨Eq.symm, Eq.symm⟩

/-- The symbols of the first grammar. -/
def EitherOk.first (E : Decls T) (Z h : T) (x : T) : Prop := Terminal E x ∧ x ≠ Z ∧ x ≠ h

theorem EitherOk.subD (k : EitherOk D E Z S h R) (A : T) (i : Nat) (b : List T) (hA : EitherOk.first E Z h A)
    (hp : IsProd (Either' D E Z S h R) A i b) : IsProd D A i b ∧ ∀ x ∈ b, EitherOk.first E Z h x := by
  rcases k.isProd.mp hp with ⟨e, _⟩ | hp' | hp'
  · exact absurd e hA.2.1
  · refine ⟨hp', fun x hx => ⟨?_, ?_, ?_⟩⟩
    · exact Classical.byContradiction fun hn => (k.apart.1 x (not_terminal_iff.mp hn)).2 _ _ _ hp' hx
    · rintro rfl; exact k.zD.2 _ _ _ hp' hx
    · rintro rfl; exact k.hD.2 _ _ _ hp' hx
  · exact absurd hA.1 hp'.not_terminal

theorem EitherOk.subE (k : EitherOk D E Z S h R) (A : T) (i : Nat) (b : List T) (hA : EitherOk.first D Z h A)
    (hp : IsProd (Either' D E Z S h R) A i b) : IsProd E A i b ∧ ∀ x ∈ b, EitherOk.first D Z h x := by
  rcases k.isProd.mp hp with ⟨e, _⟩ | hp' | hp'
  · exact absurd e hA.2.1
  · exact absurd hA.1 hp'.not_terminal
  · refine ⟨hp', fun x hx => ⟨?_, ?_, ?_⟩⟩
    · exact Classical.byContradiction fun hn => (k.apart.2 x (not_terminal_iff.mp hn)).2 _ _ _ hp' hx
    · rintro rfl; exact k.zE.2 _ _ _ hp' hx
    · rintro rfl; exact k.hE.2 _ _ _ hp' hx

theorem EitherOk.firstS (k : EitherOk D E Z S h R) : EitherOk.first E Z h S := by
  refine ⟨(k.apart.2 S k.S).1, ?_, ?_⟩
  · rintro rfl; exact not_terminal_iff.mpr k.S k.zD.1
  · rintro rfl; exact not_terminal_iff.mpr k.S k.hD.1

theorem EitherOk.firstR (k : EitherOk D E Z S h R) : EitherOk.first D Z h R := by
  refine ⟨(k.apart.1 R k.R).1, ?_, ?_⟩
  · rintro rfl; exact not_terminal_iff.mpr k.R k.zE.1
  · rintro rfl; exact not_terminal_iff.mpr k.R k.hE.1

/-- The rightmost forms with the place of a nonterminal. -/
inductive EitherForm (D E : Decls T) (Z S h R : T) : List T → T → List T → Prop
  | start : EitherForm D E Z S h R [] Z []
  | first {α w : List T} {A : T} : RDerives D [S] (α ++ A :: w) → (∀ x ∈ α ++ A :: w, EitherOk.first E Z h x) →
      EitherForm D E Z S h R α A w
  | second {α w : List T} {A : T} : RDerives E [R] (α ++ A :: w) → (∀ x ∈ α ++ A :: w, EitherOk.first D Z h x) →
      EitherForm D E Z S h R (h :: α) A w

theorem EitherOk.forms (k : EitherOk D E Z S h R) {φ : List T} (hd : RDerives (Either' D E Z S h R) [Z] φ) :
    φ = [Z] ∨ (RDerives D [S] φ ∧ ∀ x ∈ φ, EitherOk.first E Z h x) ∨
      ∃ ψ, φ = h :: ψ ∧ RDerives E [R] ψ ∧ ∀ x ∈ ψ, EitherOk.first D Z h x := by
  have tD : ∀ x, Terminal (Either' D E Z S h R) x → Terminal D x := fun x hx => (EitherOk.terminal.mp hx).2.1
  have tE : ∀ x, Terminal (Either' D E Z S h R) x → Terminal E x := fun x hx => (EitherOk.terminal.mp hx).2.2
  have hth : Terminal (Either' D E Z S h R) h := EitherOk.terminal.mpr ⟨k.ne.symm, k.hD.1, k.hE.1⟩
  induction hd with
  | refl => exact .inl rfl
  | tail _ s ih =>
    right
    rcases ih with rfl | ⟨h1, h2⟩ | ⟨ψ, rfl, h1, h2⟩
    · generalize e : [Z] = z at s
      cases s with
      | @mk u v A i body hp hv =>
        have hl : u = [] ∧ A = Z ∧ v = [] := by
          cases u with
          | nil => simp at e; exact ⟨rfl, e.1.symm, e.2⟩
          | cons x u => simp at e
        obtain ⟨rfl, rfl, rfl⟩ := hl
        rcases k.isProd.mp hp with ⟨_, ⟨_, rfl⟩ | ⟨_, rfl⟩⟩ | hp | hp
        · exact .inl ⟨.refl, by simpa using k.firstS⟩
        · exact .inr ⟨[R], rfl, .refl, by simpa using k.firstR⟩
        · exact absurd k.zD.1 hp.not_terminal
        · exact absurd k.zE.1 hp.not_terminal
    · obtain ⟨r1, r2⟩ := rderives_inside (D := D) (k.subD) tD (.tail .refl s) h2
      exact .inl ⟨h1.trans r1, r2⟩
    · right
      generalize e : h :: ψ = z at s
      cases s with
      | @mk u v A i body hp hv =>
        cases u with
        | nil =>
          simp only [List.nil_append, List.cons.injEq] at e
          obtain ⟨rfl, rfl⟩ := e
          exact absurd hth hp.not_terminal
        | cons z u =>
          simp only [List.cons_append, List.cons.injEq] at e
          obtain ⟨rfl, rfl⟩ := e
          obtain ⟨r1, r2⟩ := rderives_inside (D := E) (k.subE) tE (.tail .refl (.mk u v hp hv)) h2
          exact ⟨u ++ body ++ v, by simp, h1.trans r1, r2⟩

theorem EitherOk.form (k : EitherOk D E Z S h R) {α w : List T} {A : T} {i : Nat} {b : List T}
    (hp : IsProd (Either' D E Z S h R) A i b)
    (hd : RDerives (Either' D E Z S h R) [Z] (α ++ A :: w)) : EitherForm D E Z S h R α A w := by
  rcases k.forms hd with e | ⟨h1, h2⟩ | ⟨ψ, e, h1, h2⟩
  · have hl : α = [] ∧ A = Z ∧ w = [] := by
      cases α with
      | nil => simp at e; exact ⟨rfl, e⟩
      | cons x u => simp at e
    obtain ⟨rfl, rfl, rfl⟩ := hl
    exact .start
  · exact .first h1 h2
  · cases α with
    | nil =>
      simp only [List.nil_append, List.cons.injEq] at e
      obtain ⟨rfl, rfl⟩ := e
      exact absurd (EitherOk.terminal.mpr ⟨k.ne.symm, k.hD.1, k.hE.1⟩) hp.not_terminal
    | cons z α =>
      simp only [List.cons_append, List.cons.injEq] at e
      obtain ⟨rfl, rfl⟩ := e
      exact .second h1 h2

/-- A text with a step in it does not begin with the start symbol. -/
theorem not_start_first {D : Decls T} {S : T} (hb : InNoBody D S) (hn : NoEmpty D) {α w b : List T} {A : T} {i : Nat}
    (hd : RDerives D [S] (α ++ A :: w)) (hp : IsProd D A i b) : ∃ z r, α ++ b = z :: r ∧ z ≠ S := by
  cases α with
  | nil =>
    cases b with
    | nil => exact absurd rfl (hn _ _ _ hp)
    | cons z r => exact ⟨z, r, rfl, fun e => hb _ _ _ hp (by simp [e])⟩
  | cons z α =>
    refine ⟨z, α ++ b, rfl, fun e => ?_⟩
    have := form_start hb hd (by simp [e])
    simp at this

theorem EitherOk.lr1 {eof : T} (k : EitherOk D E Z S h R) (hbD : InNoBody D S) (hbE : InNoBody E R) (hnD : NoEmpty D)
    (hnE : NoEmpty E) (hD : LR1 D S eof) (hE : LR1 E R eof) : LR1 (Either' D E Z S h R) Z eof := by
  have tD : ∀ {w : List T}, Terminals (Either' D E Z S h R) w → Terminals D w :=
    fun hx x hw => (EitherOk.terminal.mp (hx x hw)).2.1
  have tE : ∀ {w : List T}, Terminals (Either' D E Z S h R) w → Terminals E w :=
    fun hx x hw => (EitherOk.terminal.mp (hx x hw)).2.2
  have pZ : ∀ {i : Nat} {b : List T}, IsProd (Either' D E Z S h R) Z i b → (i = 0 ∧ b = [S]) ∨ (i = 1 ∧ b = [h, R]) := by
    intro i b hp
    rcases k.isProd.mp hp with ⟨_, h'⟩ | hp | hp
    · exact h'
    · exact absurd k.zD.1 hp.not_terminal
    · exact absurd k.zE.1 hp.not_terminal
  have hSh : S ≠ h := k.firstS.2.2
  -- what a step in the first grammar begins with
  have bD : ∀ {α w b : List T} {A : T} {i : Nat}, RDerives D [S] (α ++ A :: w) →
      (∀ x ∈ α ++ A :: w, EitherOk.first E Z h x) → IsProd (Either' D E Z S h R) A i b →
      ∃ z r, α ++ b = z :: r ∧ z ≠ S ∧ z ≠ h := by
    intro α w b A i hd hx hp
    obtain ⟨hp', hb'⟩ := k.subD A i b (hx A (by simp)) hp
    obtain ⟨z, r, e, hz⟩ := not_start_first hbD hnD hd hp'
    have hz' : z ∈ α ++ b := by rw [e]; simp
    rcases List.mem_append.mp hz' with hm | hm
    · exact ⟨z, r, e, hz, (hx z (by simp [hm])).2.2⟩
    · exact ⟨z, r, e, hz, (hb' z hm).2.2⟩
  have bE : ∀ {α w b : List T} {A : T} {i : Nat}, RDerives E [R] (α ++ A :: w) →
      (∀ x ∈ α ++ A :: w, EitherOk.first D Z h x) → IsProd (Either' D E Z S h R) A i b →
      ∃ z r, α ++ b = z :: r ∧ z ≠ R := by
    intro α w b A i hd hx hp
    exact not_start_first hbE hnE hd (k.subE A i b (hx A (by simp)) hp).1
  -- the two bodies of the start against a step
  have nD : ∀ {α w b q d x : List T} {A : T} {i j : Nat}, RDerives D [S] (α ++ A :: w) →
      (∀ x ∈ α ++ A :: w, EitherOk.first E Z h x) → IsProd (Either' D E Z S h R) A i b →
      IsProd (Either' D E Z S h R) Z j d → d ++ x ≠ α ++ b ++ q := by
    intro α w b q d x A i j hd hx hp hj e
    obtain ⟨z, r, e', h1, h2⟩ := bD hd hx hp
    rw [e'] at e
    rcases pZ hj with ⟨_, rfl⟩ | ⟨_, rfl⟩
    · simp at e; exact h1 e.1.symm
    · simp at e; exact h2 e.1.symm
  have nE : ∀ {α w b q d x : List T} {A : T} {i j : Nat}, RDerives E [R] (α ++ A :: w) →
      (∀ x ∈ α ++ A :: w, EitherOk.first D Z h x) → IsProd (Either' D E Z S h R) A i b →
      IsProd (Either' D E Z S h R) Z j d → d ++ x ≠ h :: α ++ b ++ q := by
    intro α w b q d x A i j hd hx hp hj e
    obtain ⟨z, r, e', h1⟩ := bE hd hx hp
    rw [List.cons_append, e'] at e
    rcases pZ hj with ⟨_, rfl⟩ | ⟨_, rfl⟩
    · simp at e; exact hSh e.1
    · simp at e; exact h1 e.1.symm
  intro α β w γ δ x y A B i j h1 hw hp1 h2 hx hp2 e hy hh
  cases k.form hp1 h1 with
  | start =>
    cases k.form hp2 h2 with
    | start =>
      simp only [List.nil_append] at e
      rcases pZ hp1 with ⟨rfl, rfl⟩ | ⟨rfl, rfl⟩ <;> rcases pZ hp2 with ⟨rfl, rfl⟩ | ⟨rfl, rfl⟩
      · exact ⟨rfl, rfl, rfl, (List.cons.inj e).2⟩
      · exact absurd (List.cons.inj e).1.symm hSh
      · exact absurd (List.cons.inj e).1 hSh
      · exact ⟨rfl, rfl, rfl, (List.cons.inj (List.cons.inj e).2).2⟩
    | first r1 r2 => exact absurd e.symm (nD r1 r2 hp2 hp1)
    | second r1 r2 => exact absurd e.symm (nE r1 r2 hp2 hp1)
  | first s1 s2 =>
    cases k.form hp2 h2 with
    | start => exact absurd e (nD s1 s2 hp1 hp2)
    | first r1 r2 =>
      exact hD α β w γ δ x y A B i j s1 (tD hw) (k.subD A i β (s2 A (by simp)) hp1).1 r1 (tD hx)
        (k.subD B j δ (r2 B (by simp)) hp2).1 e (tD hy) hh
    | second r1 r2 =>
      obtain ⟨z, r, e', _, h3⟩ := bD s1 s2 hp1
      rw [e'] at e
      simp at e
      exact absurd e.1.symm h3
  | @second α _ _ s1 s2 =>
    cases k.form hp2 h2 with
    | start => exact absurd e (nE s1 s2 hp1 hp2)
    | first r1 r2 =>
      obtain ⟨z, r, e', _, h3⟩ := bD r1 r2 hp2
      rw [e'] at e
      simp at e
      exact absurd e.1 h3
    | @second γ _ _ r1 r2 =>
      simp only [List.cons_append, List.cons.injEq, true_and] at e
      obtain ⟨q1, q2⟩ := hE α β w γ δ x y A B i j s1 (tE hw) (k.subE A i β (s2 A (by simp)) hp1).1 r1 (tE hx)
        (k.subE B j δ (r2 B (by simp)) hp2).1 e (tE hy) hh
      exact ⟨by rw [q1], q2⟩

/-! ### The inner grammar between brackets -/

/-- What is asked of the two grammars and the symbols between which the inner one stands. -/
structure HostOk (D E : Decls T) (S A o R c eof : T) : Prop where
  apart : Separate D E
  bD : InNoBody D S
  bE : InNoBody E R
  nD : NoEmpty D
  nE : NoEmpty E
  prD : AllProductive D
  prE : AllProductive E
  oD : Fresh D o
  oE : Fresh E o
  cD : Fresh D c
  cE : Fresh E c
  ne : o ≠ c
  eD : Fresh D eof
  eE : Fresh E eof
  eo : eof ≠ o
  ec : eof ≠ c
  S : Nonterminal D S
  A : Nonterminal D A
  R : Nonterminal E R

variable {A o c eof : T}

theorem allProductive_either (k : EitherOk D E Z S h R) (hD : AllProductive D) (hE : AllProductive E) :
    AllProductive (Either' D E Z S h R) := by
  have low : ∀ X, Nonterminal D X ∨ Nonterminal E X → Productive (Either' D E Z S h R) X := by
    rintro X (hX | hX)
    · obtain ⟨w, h1, h2⟩ := hD X hX
      refine ⟨w, fewer_derives (f := fun _ i => i) (fun _ _ _ hp => k.isProd.mpr (.inr (.inl hp))) h1, fun x hx => ?_⟩
      have hb : x = X ∨ ∃ B i b, IsProd D B i b ∧ x ∈ b := by
        rcases derives_from h1 hx with h | h
        · exact .inl (List.mem_singleton.mp h)
        · exact .inr h
      refine EitherOk.terminal.mpr ⟨?_, h2 x hx, ?_⟩
      · rintro rfl
        rcases hb with rfl | ⟨B, i, b, hp, h⟩
        · exact not_terminal_iff.mpr hX k.zD.1
        · exact k.zD.2 B i b hp h
      · refine Classical.byContradiction fun hn => ?_
        have hf := k.apart.1 x (not_terminal_iff.mp hn)
        rcases hb with rfl | ⟨B, i, b, hp, h⟩
        · exact not_terminal_iff.mpr hX hf.1
        · exact hf.2 B i b hp h
    · obtain ⟨w, h1, h2⟩ := hE X hX
      refine ⟨w, fewer_derives (f := fun _ i => i) (fun _ _ _ hp => k.isProd.mpr (.inr (.inr hp))) h1, fun x hx => ?_⟩
      have hb : x = X ∨ ∃ B i b, IsProd E B i b ∧ x ∈ b := by
        rcases derives_from h1 hx with h | h
        · exact .inl (List.mem_singleton.mp h)
        · exact .inr h
      refine EitherOk.terminal.mpr ⟨?_, ?_, h2 x hx⟩
      · rintro rfl
        rcases hb with rfl | ⟨B, i, b, hp, h⟩
        · exact not_terminal_iff.mpr hX k.zE.1
        · exact k.zE.2 B i b hp h
      · refine Classical.byContradiction fun hn => ?_
        have hf := k.apart.2 x (not_terminal_iff.mp hn)
        rcases hb with rfl | ⟨B, i, b, hp, h⟩
        · exact not_terminal_iff.mpr hX hf.1
        · exact hf.2 B i b hp h
  intro X hX
  rcases EitherOk.nonterminal.mp hX with rfl | hX
  · obtain ⟨w, h1, h2⟩ := low S (.inl k.S)
    exact ⟨w, .head (Step.mk [] [] (k.isProd.mpr (.inl ⟨rfl, .inl ⟨rfl, rfl⟩⟩))) h1, h2⟩
  · exact low X hX

theorem fresh_either (k : EitherOk D E Z S h R) {x : T} (hD : Fresh D x) (hE : Fresh E x) (hZ : x ≠ Z) (hh : x ≠ h) :
    Fresh (Either' D E Z S h R) x := by
  refine ⟨EitherOk.terminal.mpr ⟨hZ, hD.1, hE.1⟩, fun X i b hp => ?_⟩
  have hxS : x ≠ S := by rintro rfl; exact not_terminal_iff.mpr k.S hD.1
  have hxR : x ≠ R := by rintro rfl; exact not_terminal_iff.mpr k.R hE.1
  rcases k.isProd.mp hp with ⟨_, ⟨_, rfl⟩ | ⟨_, rfl⟩⟩ | hp | hp
  · simpa using hxS
  · simp [hh, hxR]
  · exact hD.2 X i b hp
  · exact hE.2 X i b hp

theorem fewer_hosting (q : HostOk D E S A o R c eof) (k : EitherOk D E Z S h R) (hZ : Z ≠ o ∧ Z ≠ c ∧ Z ≠ eof) :
    Fewer (Hosting D E A o R c) (WithAlt (Either' D E Z S h R) A [o, R, c]) := by
  have hZR : Z ≠ R := k.firstR.2.1.symm
  refine ⟨fun _ i => i, ?_, fun _ _ _ _ _ _ _ e => e, ?_⟩
  · intro X i b hp
    refine isProd_withAlt.mpr ?_
    rcases isProd_withAlt.mp hp with hp | ⟨rfl, rfl, bs, ⟨pre, post, e, hpost⟩, hi⟩
    · rcases (isProd_both k.apart).mp hp with hp | hp
      · exact .inl (k.isProd.mpr (.inr (.inl hp)))
      · exact .inl (k.isProd.mpr (.inr (.inr hp)))
    · exact .inr ⟨rfl, rfl, bs, ⟨(Z, [[S], [h, R]]) :: pre, post, by rw [Either', e]; rfl, hpost⟩, hi⟩
  · intro X i b hp x hx hnt
    refine nonterminal_withAlt.mpr (nonterminal_both.mpr ?_)
    refine (EitherOk.nonterminal.mp (nonterminal_withAlt.mp hnt)).resolve_left ?_
    rintro rfl
    rcases isProd_withAlt.mp hp with hp | ⟨_, rfl, _⟩
    · rcases (isProd_both k.apart).mp hp with hp | hp
      · exact k.zD.2 _ _ _ hp hx
      · exact k.zE.2 _ _ _ hp hx
    · simp [hZ.1, hZ.2.1, hZR] at hx

theorem lr1_hosting_aux (q : HostOk D E S A o R c eof) (k : EitherOk D E Z S h R) (hZ : Z ≠ o ∧ Z ≠ c ∧ Z ≠ eof)
    (hh : h ≠ o ∧ h ≠ c ∧ h ≠ eof) (hD : LR1 D S eof) (hE : LR1 E R eof) : LR1 (Hosting D E A o R c) S eof := by
  have hn : NoEmpty (Either' D E Z S h R) := by
    intro X i b hp
    rcases k.isProd.mp hp with ⟨_, ⟨_, rfl⟩ | ⟨_, rfl⟩⟩ | hp | hp
    · simp
    · simp
    · exact q.nD X i b hp
    · exact q.nE X i b hp
  have hA : Nonterminal (Either' D E Z S h R) A := EitherOk.nonterminal.mpr (.inr (.inl q.A))
  have hR : Nonterminal (Either' D E Z S h R) R := EitherOk.nonterminal.mpr (.inr (.inr q.R))
  have hAZ : A ≠ Z := by rintro rfl; exact not_terminal_iff.mpr q.A k.zD.1
  have hZS : Z ≠ S := by rintro rfl; exact not_terminal_iff.mpr k.S k.zD.1
  have hZR : Z ≠ R := by rintro rfl; exact not_terminal_iff.mpr k.R k.zE.1
  have hbZ : InNoBody (Either' D E Z S h R) Z := by
    intro X i b hp
    rcases k.isProd.mp hp with ⟨_, ⟨_, rfl⟩ | ⟨_, rfl⟩⟩ | hp | hp
    · simpa using hZS
    · simp [k.ne, hZR]
    · exact k.zD.2 X i b hp
    · exact k.zE.2 X i b hp
  have hre : Reachable (Either' D E Z S h R) Z R :=
    ⟨[h], [], .head (Step.mk [] [] (k.isProd.mpr (.inl ⟨rfl, .inr ⟨rfl, rfl⟩⟩))) (.refl _)⟩
  have hfo := fresh_either k q.oD q.oE hZ.1.symm hh.1.symm
  have hfc := fresh_either k q.cD q.cE hZ.2.1.symm hh.2.1.symm
  have hfe := fresh_either k q.eD q.eE hZ.2.2.symm hh.2.2.symm
  have h1 : LR1 (WithAlt (Either' D E Z S h R) A [o, R, c]) Z eof :=
    lr1_brackets ⟨hfo, hfc, q.ne, hA, hR, hn⟩ (EitherOk.nonterminal.mpr (.inl rfl)) hbZ
      (allProductive_either k q.prD q.prE) hre q.eo (k.lr1 q.bD q.bE q.nD q.nE hD hE)
  have hSe : S ≠ eof := by rintro rfl; exact not_terminal_iff.mpr q.S q.eD.1
  have hRe : R ≠ eof := by rintro rfl; exact not_terminal_iff.mpr q.R q.eE.1
  have h2 : LR1 (WithAlt (Either' D E Z S h R) A [o, R, c]) S eof := by
    refine lr1_below (μ := []) (ν := []) h1 ?_ (by intro x hx; cases hx) ?_ hSe
    · exact .tail .refl (RStep.mk [] [] (isProd_withAlt.mpr (.inl (k.isProd.mpr (.inl ⟨rfl, .inl ⟨rfl, rfl⟩⟩))))
        (by intro x hx; cases hx))
    · intro X i b hp
      rcases isProd_withAlt.mp hp with hp | ⟨_, rfl, _⟩
      · exact hfe.2 X i b hp
      · simp [q.eo, q.ec, hRe.symm]
  exact Fewer.lr1 (fewer_hosting q k hZ) (nonterminal_withAlt.mpr (nonterminal_both.mpr (.inl q.S))) h2

end

/-! ### Names that are free -/

section
variable {T : Type} [LinOrd T] [DecidableEq T] {D E : Decls T} {S A o R c eof : T}

theorem fresh_rename {T' : Type} {f : T → T'} (hf : Injective f) {x : T} (h : Fresh D x) :
    Fresh (renamed f D) (f x) := ⟨(terminal_rename hf).mpr h.1, inNoBody_rename hf h.2⟩

theorem noEmpty_rename {T' : Type} {f : T → T'} (h : NoEmpty D) : NoEmpty (renamed f D) := by
  intro X i b hp
  obtain ⟨X, b, rfl, rfl, hp'⟩ := isProd_rename_inv hp
  simpa using h X i b hp'

theorem nonterminal_rename_of {T' : Type} {f : T → T'} {X : T} (h : Nonterminal D X) :
    Nonterminal (renamed f D) (f X) := by
  obtain ⟨d, hd, rfl⟩ := h
  exact ⟨_, List.mem_map.mpr ⟨d, hd, rfl⟩, rfl⟩

theorem separate_rename {T' : Type} {f : T → T'} (hf : Injective f) (h : Separate D E) :
    Separate (renamed f D) (renamed f E) := by
  constructor
  · intro X hX
    obtain ⟨X, rfl, hX'⟩ := nonterminal_rename hX
    exact fresh_rename hf (h.1 X hX')
  · intro X hX
    obtain ⟨X, rfl, hX'⟩ := nonterminal_rename hX
    exact fresh_rename hf (h.2 X hX')

theorem hosting_rename {T' : Type} [DecidableEq T'] {f : T → T'} (hf : Injective f) :
    renamed f (Hosting D E A o R c) = Hosting (renamed f D) (renamed f E) (f A) (f o) (f R) (f c) := by
  unfold Hosting WithAlt renamed
  rw [← List.map_append, List.map_map, List.map_map]
  refine List.map_congr_left fun d _ => ?_
  simp only [Function.comp_apply]
  by_cases e : d.1 = A
  · rw [if_pos e, if_pos (congrArg f e)]
    simp
  · rw [if_neg e, if_neg fun e' => e (hf _ _ e')]

/-- With pairs of a symbol and a number for symbols there are names that are free. -/
theorem hosting_free (q : HostOk D E S A o R c eof) :
    let f : T → T × Nat := fun t => (t, 0)
    HostOk (renamed f D) (renamed f E) (f S) (f A) (f o) (f R) (f c) (f eof) ∧
      EitherOk (renamed f D) (renamed f E) (S, 1) (f S) (S, 2) (f R) ∧
      ((S, 1) ≠ f o ∧ (S, 1) ≠ f c ∧ (S, 1) ≠ f eof) ∧ ((S, 2) ≠ f o ∧ (S, 2) ≠ f c ∧ (S, 2) ≠ f eof) := by
  intro f
  have hf : Injective f := fun a b e => (Prod.mk.inj e).1
  have new : ∀ {D : Decls T} {n : Nat}, n ≠ 0 → Fresh (renamed f D) (S, n) := by
    intro D n hn
    constructor
    · intro d hd e
      obtain ⟨d', _, rfl⟩ := List.mem_map.mp hd
      exact hn (Prod.mk.inj e).2.symm
    · intro X i b hp hx
      obtain ⟨X, b, rfl, rfl, _⟩ := isProd_rename_inv hp
      obtain ⟨y, _, e⟩ := List.mem_map.mp hx
      exact hn (Prod.mk.inj e).2.symm
  have ne : ∀ {x : T} {n : Nat}, n ≠ 0 → (S, n) ≠ f x := fun hn e => hn (Prod.mk.inj e).2
  refine ⟨?_, ?_, ⟨ne (by decide), ne (by decide), ne (by decide)⟩, ⟨ne (by decide), ne (by decide), ne (by decide)⟩⟩
  · exact
      { apart := separate_rename hf q.apart, S := nonterminal_rename_of q.S, A := nonterminal_rename_of q.A
        R := nonterminal_rename_of q.R, bD := inNoBody_rename hf q.bD, bE := inNoBody_rename hf q.bE
        nD := noEmpty_rename q.nD, nE := noEmpty_rename q.nE, prD := allProductive_rename hf q.prD
        prE := allProductive_rename hf q.prE, oD := fresh_rename hf q.oD, oE := fresh_rename hf q.oE
        cD := fresh_rename hf q.cD, cE := fresh_rename hf q.cE, ne := fun e => q.ne (hf _ _ e)
        eD := fresh_rename hf q.eD, eE := fresh_rename hf q.eE, eo := fun e => q.eo (hf _ _ e)
        ec := fun e => q.ec (hf _ _ e) }
  · exact
      { apart := separate_rename hf q.apart, zD := new (by decide), zE := new (by decide), hD := new (by decide)
        hE := new (by decide), ne := fun e => by simpa using (Prod.mk.inj e).2, S := nonterminal_rename_of q.S
        R := nonterminal_rename_of q.R }

/-- The two grammars together, the inner one between fresh brackets, are LR(1) if both are. -/
theorem lr1_hosting (q : HostOk D E S A o R c eof) (hD : LR1 D S eof) (hE : LR1 E R eof) :
    LR1 (Hosting D E A o R c) S eof := by
  let f : T → T × Nat := fun t => (t, 0)
  have hf : Injective f := fun a b e => (Prod.mk.inj e).1
  rw [← lr1_rename hf, hosting_rename hf]
  obtain ⟨q', k', n1, n2⟩ := hosting_free q
  exact lr1_hosting_aux q' k' n1 n2 ((lr1_rename hf).mpr hD) ((lr1_rename hf).mpr hE)

end
end Lrp
