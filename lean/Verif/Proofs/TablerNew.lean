import Verif.Proofs.Follow

/-! `Tabler::new`. -/

set_option linter.unusedSectionVars false

namespace Lrp
open Spec
variable {T : Type} [LinOrd T] [DecidableEq T]

namespace Tabler
variable {g : Grammar T} {D : Decls T} {S eof : T}

/-- What every later construction relies on: the tables of a `Tabler` of the grammar `D`. -/
structure Of (t : Tabler T) (D : Decls T) (S eof : T) : Prop where
  grammar : t.grammar.Of D S eof
  noEmpty : NoEmpty D
  firstT : FirstTable D t.first
  first : ∀ A x, Nonterminal D A → Terminal D x → (Has t.first A x ↔ InFirst D A x)
  firstAny : ∀ A x, Has t.first A x → InFirst D A x
  followT : FollowTable D t.follow
  followKey : ∀ A, Key t.follow A ↔ FollowKey D S A
  follow : ∀ A x, Terminal D x →
    (Has t.follow A x ↔ Doubling.Reach (Terminal D) (FollowEdge D S eof t.first) A x)
  followAny : ∀ A x, Has t.follow A x → Doubling.Reach (Terminal D) (FollowEdge D S eof t.first) A x

theorem new_ok {dbg : Bool} {n : Nat} {t : Tabler T} (h : new dbg n g = .ok t) :
    ∃ X Z, genFirst g = .ok X ∧ procFirst dbg n g X = .ok t.first ∧
      genFollow g t.first = .ok Z ∧ procFollow dbg n g Z = .ok t.follow ∧
      t.grammar = g ∧ t.actions = [] ∧ t.states = [] ∧ t.kernels = [] := by
  unfold new at h
  simp only [Out.bind_eq_ok] at h
  obtain ⟨X, h1, F, h2, Z, h3, W, h4, h5⟩ := h
  cases h5
  exact ⟨X, Z, h1, h2, h3, h4, rfl, rfl, rfl, rfl⟩

theorem of_new (hg : g.Of D S eof) {dbg : Bool} {n : Nat} {t : Tabler T} (h : new dbg n g = .ok t) :
    t.Of D S eof := by
  obtain ⟨X, Z, h1, h2, h3, h4, rfl, _⟩ := new_ok h
  have hne := noEmpty_of_genFirst hg h1
  obtain ⟨a1, a2⟩ := first_exact hg h1 h2
  obtain ⟨Z', b1, b2, b3, b4⟩ := genFollow_spec hg hne a1
  rw [h3] at b1; cases b1
  obtain ⟨c1, c2, c3, c4⟩ := follow_fix hg b2 (procFollow_fix h4).1
  have e : Has Z = FollowEdge D S eof t.first := by
    funext A x; exact propext (b3 A x)
  refine ⟨hg, hne, a1, a2, fun A x hx => first_sound_any hg h1 h2 hx, c1,
    fun A => (c2 A).trans (b4 A), ?_, ?_⟩
  · intro A x hx; rw [c3 A x hx, e]
  · intro A x hx; have := c4 A x hx; rwa [e] at this

theorem new_dbg (hg : g.Of D S eof) {n : Nat} {t : Tabler T} (h : new true n g = .ok t) :
    (∀ A x, Has t.first A x → Terminal D x) ∧ (∀ A x, Has t.follow A x → Terminal D x) := by
  have ho := of_new hg h
  obtain ⟨X, Z, h1, h2, h3, h4, rfl, _⟩ := new_ok h
  exact ⟨(allTerminal_iff hg ho.firstT.sorted).mp ((procFirst_fix h2).2 rfl),
    (allTerminal_iff hg ho.followT.sorted).mp ((procFollow_fix h4).2 rfl)⟩

theorem procFirst_le {dbg : Bool} {n m : Nat} (h : n ≤ m) (X : Table T) :
    Out.Le (procFirst dbg n g X) (procFirst dbg m g X) := by
  unfold procFirst
  exact Out.Le.bind (transitive_le h X) (fun _ => .refl _)

theorem procFollow_le {dbg : Bool} {n m : Nat} (h : n ≤ m) (X : Table T) :
    Out.Le (procFollow dbg n g X) (procFollow dbg m g X) := by
  unfold procFollow
  exact Out.Le.bind (transitive_le h X) (fun _ => .refl _)

theorem new_le {dbg : Bool} {n m : Nat} (h : n ≤ m) : Out.Le (new dbg n g) (new dbg m g) := by
  unfold new
  refine Out.Le.bind (.refl _) (fun X => Out.Le.bind (procFirst_le h X) (fun F => ?_))
  refine Out.Le.bind (.refl _) (fun Z => Out.Le.bind (procFollow_le h Z) (fun _ => .refl _))

/-- The only panics of `Tabler::new`. -/
theorem new_panic (hg : g.Of D S eof) {dbg : Bool} {n : Nat} {p : Panic}
    (h : new dbg n g = .panic p) :
    (p = .emptyProduction ∧ ¬ NoEmpty D) ∨
    (dbg = true ∧ NoEmpty D ∧ (p = .dbgFirstNotTerminal ∨ p = .dbgFollowNotTerminal)) := by
  by_cases hne : NoEmpty D
  · right
    obtain ⟨X, h1⟩ := genFirst_ok hg hne
    have hXT := (genFirst_spec hg h1).1
    have hnp : ∀ m Y, FirstTable D Y → ∀ q, transitive (firstStep g) m Y ≠ .panic q := by
      intro m
      induction m with
      | zero => intro Y _ q h; cases h
      | succ m ih =>
        intro Y hY q
        obtain ⟨Z, h2, h3, _⟩ := firstStep_spec hg hY
        rw [transitive_succ, h2, Out.ok_bind]
        split
        · simp
        · exact ih Z h3 q
    have hnp2 : ∀ m Y q, transitive (fun t => .ok (followStep g t)) m Y ≠ .panic q := by
      intro m
      induction m with
      | zero => intro Y q h; cases h
      | succ m ih =>
        intro Y q
        rw [transitive_succ, Out.ok_bind]
        split
        · simp
        · exact ih _ q
    unfold new at h
    rw [h1, Out.ok_bind, Out.bind_eq_panic] at h
    rcases h with h | ⟨F, h2, h⟩
    · unfold procFirst at h
      rw [Out.bind_eq_panic] at h
      rcases h with h | ⟨F, _, h⟩
      · exact absurd h (hnp _ _ hXT _)
      · rw [Out.bind_eq_panic] at h
        rcases h with h | ⟨_, _, h⟩
        · rw [Out.assert_eq_panic] at h
          cases dbg
          · simp at h
          · exact ⟨rfl, hne, Or.inl h.2.symm⟩
        · cases h
    · obtain ⟨hFT, _⟩ := first_exact hg h1 h2
      obtain ⟨Z, b1, _⟩ := genFollow_spec hg hne hFT
      rw [b1, Out.ok_bind, Out.bind_eq_panic] at h
      rcases h with h | ⟨_, _, h⟩
      · unfold procFollow at h
        rw [Out.bind_eq_panic] at h
        rcases h with h | ⟨W, _, h⟩
        · exact absurd h (hnp2 _ _ _)
        · rw [Out.bind_eq_panic] at h
          rcases h with h | ⟨_, _, h⟩
          · rw [Out.assert_eq_panic] at h
            cases dbg
            · simp at h
            · exact ⟨rfl, hne, Or.inr h.2.symm⟩
          · cases h
      · cases h
  · left
    unfold new at h
    rw [genFirst_panic hg hne] at h
    cases h
    exact ⟨rfl, hne⟩

end Tabler

end Lrp
