import Verif.Proofs.TablerNew
import Verif.Proofs.Iterate
import Verif.Spec.Folding

/-! When the FIRST and FOLLOW iterations stop, exactly: in terms of folding the graphs of leftmost and
of last nonterminals. -/

set_option linter.unusedSectionVars false

namespace Lrp
open Spec

/-! ### graphs -/

section graphs
variable {T : Type} {E L : T → T → Prop}

theorem fold_congr {E' : T → T → Prop} (h : ∀ A B, E A B ↔ E' A B) : E = E' := by
  funext A B; exact propext (h A B)

/-- Once two consecutive foldings agree, all later ones do. -/
theorem fold_stays {n : Nat} (h : ∀ A B, (Fold E n A B ↔ L A B) ∧ (Fold E (n + 1) A B ↔ L A B))
    (k : Nat) : ∀ A B, Fold E (n + k) A B ↔ L A B := by
  have e1 : Fold E n = L := fold_congr (fun A B => (h A B).1)
  have e2 : ∀ A B, (A ≠ B ∧ ∃ C, L A C ∧ L C B) ↔ L A B := by
    intro A B
    rw [← (h A B).2]
    show _ ↔ (A ≠ B ∧ ∃ C, Fold E n A C ∧ Fold E n C B)
    rw [e1]
  induction k with
  | zero => exact fun A B => (h A B).1
  | succ k ih =>
    intro A B
    have e3 : Fold E (n + k) = L := fold_congr ih
    show (A ≠ B ∧ ∃ C, Fold E (n + k) A C ∧ Fold E (n + k) C B) ↔ _
    rw [e3]; exact e2 A B

theorem settlesTo_unique {L' : T → T → Prop} (h : SettlesTo E L) (h' : SettlesTo E L') : L = L' := by
  obtain ⟨n, h⟩ := h
  obtain ⟨m, h'⟩ := h'
  refine fold_congr (fun A B => ?_)
  rw [← fold_stays h m A B, ← fold_stays h' n A B, Nat.add_comm]

theorem foldsAway_iff : FoldsAway E ↔ SettlesTo E (fun _ _ => False) := by
  constructor
  · rintro ⟨n, h⟩
    exact ⟨n, fun A B => ⟨iff_false_intro (h A B), iff_false_intro (fun ⟨_, _, h1, _⟩ => h _ _ h1)⟩⟩
  · rintro ⟨n, h⟩
    exact ⟨n, fun A B h1 => (h A B).1.mp h1⟩

/-- Graphs without long cycles fold away. -/
theorem NoLongCycle.foldsAway (h : NoLongCycle E) (l : List T) (hl : ∀ A B, E A B → A ∈ l) :
    FoldsAway (Loopless E) := by
  obtain ⟨rank, h1, h2⟩ := h
  have hsrc : ∀ n A B, Fold (Loopless E) n A B → A ∈ l := by
    intro n
    induction n with
    | zero => exact fun A B h => hl A B h.2
    | succ n ih => rintro A B ⟨_, C, h, _⟩; exact ih A C h
  have hr : ∀ n A B, Fold (Loopless E) (n + 1) A B → rank B + (n + 1) ≤ rank A := by
    intro n
    induction n with
    | zero =>
      rintro A B ⟨h, C, h3, h4⟩
      have := h2 A C B h3.2 h4.2 h3.1 h4.1 (Ne.symm h)
      omega
    | succ n ih =>
      rintro A B ⟨_, C, h3, h4⟩
      have := ih _ _ h3; have := ih _ _ h4
      omega
  refine ⟨(l.map rank).sum + 1, fun A B h => ?_⟩
  have h3 := hr _ _ _ h
  have h4 : rank A ≤ (l.map rank).sum := by
    have := hsrc _ _ _ h
    clear h3 h hr hsrc hl
    induction l with
    | nil => simp at this
    | cons x l ih =>
      simp only [List.map_cons, List.sum_cons]
      rcases List.mem_cons.mp this with rfl | h
      · omega
      · have := ih h; omega
  omega

end graphs

/-! ### the iteration -/

section iteration
variable {α : Type} [DecidableEq α] {f : α → Out α}

/-- Reaching a fixpoint makes the iteration stop there. -/
theorem transitive_of_orbit {k : Nat} {a b : α} (h : Orbit f a k b) (hb : f b = .ok b) :
    transitive f (k + 1) a = .ok b := by
  induction k generalizing a with
  | zero => cases h; rw [transitive_succ, hb]; simp
  | succ k ih =>
    obtain ⟨c, h1, h2⟩ := orbit_uncons h
    rw [transitive_succ, h1, Out.ok_bind]
    by_cases hca : c = a
    · subst hca
      have hc : ∀ j d, Orbit f c j d → d = c := by
        intro j d hd
        induction hd with
        | zero => rfl
        | succ _ h4 ih => rw [ih, h1] at h4; cases h4; rfl
      rw [hc _ _ h]; simp
    · rw [if_neg hca]; exact ih h2

end iteration

/-- From finitely many thresholds, a common one. -/
theorem exists_common {β : Type} {R : β → Prop} {Q : Nat → β → Prop}
    (hmono : ∀ k b, Q k b → Q (k + 1) b) (l : List β) (h : ∀ b ∈ l, R b → ∃ k, Q k b) :
    ∃ K, ∀ b ∈ l, R b → Q K b := by
  have hm : ∀ k j b, Q k b → Q (k + j) b := by
    intro k j b hb
    induction j with
    | zero => exact hb
    | succ j ih => exact hmono _ _ ih
  induction l with
  | nil => exact ⟨0, by simp⟩
  | cons x l ih =>
    obtain ⟨K, hK⟩ := ih (fun b hb => h b (List.mem_cons_of_mem _ hb))
    by_cases hx : R x
    · obtain ⟨k, hk⟩ := h x (by simp) hx
      refine ⟨K + k, fun b hb hR => ?_⟩
      rcases List.mem_cons.mp hb with rfl | hb
      · rw [Nat.add_comm]; exact hm _ _ _ hk
      · exact hm _ _ _ (hK b hb hR)
    · refine ⟨K, fun b hb hR => ?_⟩
      rcases List.mem_cons.mp hb with rfl | hb
      · exact absurd hR hx
      · exact hK b hb hR

namespace Doubling
variable {T : Type} {term : T → Prop} {X : T → T → Prop}

/-- On nonterminals the iteration is folding. -/
theorem iter_fold (k : Nat) (A B : T) :
    (iter term X k A B ∧ ¬ term B) ↔ Fold (fun A B => X A B ∧ ¬ term B) k A B := by
  induction k generalizing A B with
  | zero => exact Iff.rfl
  | succ k ih =>
    constructor
    · rintro ⟨⟨h, y, h1, h2⟩, hB⟩
      rcases h2 with ⟨h2, rfl⟩ | ⟨h2, h3⟩
      · exact absurd h2 hB
      · exact ⟨Ne.symm h, y, (ih A y).mp ⟨h1, h2⟩, (ih y B).mp ⟨h3, hB⟩⟩
    · rintro ⟨h, C, h1, h2⟩
      obtain ⟨h3, h4⟩ := (ih A C).mpr h1
      obtain ⟨h5, h6⟩ := (ih C B).mpr h2
      exact ⟨⟨Ne.symm h, C, h3, Or.inr ⟨h4, h5⟩⟩, h6⟩

theorem iter_mono (hk : ∀ A x, X A x → ¬ term A) {k : Nat} {A t : T} (ht : term t)
    (h : iter term X k A t) : iter term X (k + 1) A t := by
  refine ⟨?_, t, h, Or.inl ⟨ht, rfl⟩⟩
  rintro rfl
  have hr := iter_sound h
  cases hr with
  | base h => exact hk _ _ h ht
  | cons h => exact hk _ _ h ht

end Doubling

variable {T : Type} [LinOrd T] [DecidableEq T]

namespace Tabler
variable {g : Grammar T} {D : Decls T} {S eof : T}

/-- The nonterminals of a table. -/
def Rest (D : Decls T) (X : Table T) (A B : T) : Prop := Has X A B ∧ ¬ Terminal D B

/-- The pairs of a table. -/
theorem reach_mem {X : Table T} {A x : T} (h : Doubling.Reach (Terminal D) (Has X) A x) :
    A ∈ X.map (·.1) ∧ x ∈ (X.map (·.2)).flatten := by
  have hb : ∀ {A x}, Has X A x → A ∈ X.map (·.1) ∧ x ∈ (X.map (·.2)).flatten := by
    rintro A x ⟨s, hs, hx⟩
    have hm := OMap.mem_of_get? hs
    exact ⟨List.mem_map.mpr ⟨_, hm, rfl⟩, List.mem_flatten.mpr ⟨s, List.mem_map.mpr ⟨_, hm, rfl⟩, hx⟩⟩
  induction h with
  | base h => exact hb h
  | cons h _ _ ih => exact ⟨(hb h).1, ih.2⟩

variable {P : Table T → Prop} {f : Table T → Out (Table T)} {X : Table T}

theorem orbit_iter (hP : P X) (hstep : ∀ X, P X → ∃ Y, f X = .ok Y ∧ P Y ∧
      ∀ A x, Has Y A x ↔ Doubling.step (Terminal D) (Has X) A x) {k : Nat} {Y : Table T}
    (h : Orbit f X k Y) : P Y ∧ Has Y = Doubling.iter (Terminal D) (Has X) k := by
  induction h with
  | zero => exact ⟨hP, rfl⟩
  | @succ k b c _ h2 ih =>
    obtain ⟨Y, h3, h4, h5⟩ := hstep b ih.1
    rw [h3] at h2; cases h2
    refine ⟨h4, ?_⟩
    funext A x
    rw [ih.2] at h5
    exact propext (h5 A x)

/-- What the iteration returns is where the folding settles. -/
theorem doubling_settles (hP : P X) (hstep : ∀ X, P X → ∃ Y, f X = .ok Y ∧ P Y ∧
      ∀ A x, Has Y A x ↔ Doubling.step (Terminal D) (Has X) A x)
    {n : Nat} {Y : Table T} (h : transitive f n X = .ok Y) : SettlesTo (Rest D X) (Rest D Y) := by
  obtain ⟨k, _, _, h1, h2⟩ := transitive_ok_iff.mp h
  obtain ⟨_, h4⟩ := orbit_iter hP hstep h1
  obtain ⟨_, h6⟩ := orbit_iter hP hstep (.succ h1 h2)
  refine ⟨k, fun A B => ⟨?_, ?_⟩⟩
  · rw [← show (_ ↔ Fold (Rest D X) k A B) from Doubling.iter_fold k A B, ← h4]; exact Iff.rfl
  · rw [← show (_ ↔ Fold (Rest D X) (k + 1) A B) from Doubling.iter_fold (k + 1) A B, ← h6]
    exact Iff.rfl

/-- When the folding settles, the iteration returns. -/
theorem doubling_returns (hP : P X) (hstep : ∀ X, P X → ∃ Y, f X = .ok Y ∧ P Y ∧
      ∀ A x, Has Y A x ↔ Doubling.step (Terminal D) (Has X) A x)
    (hext : ∀ X Y, P X → P Y → (∀ A x, Has X A x ↔ Has Y A x) → X = Y)
    (hnt : ∀ X, P X → ∀ A x, Has X A x → ¬ Terminal D A) {L : T → T → Prop}
    (h : SettlesTo (Rest D X) L) : ∃ n Y, transitive f n X = .ok Y := by
  obtain ⟨n, hn⟩ := h
  -- the terminals are complete from some point on
  obtain ⟨K, hK⟩ : ∃ K, ∀ p ∈ (X.map (·.1)).flatMap (fun A => ((X.map (·.2)).flatten).map (A, ·)),
      (Terminal D p.2 ∧ Doubling.Reach (Terminal D) (Has X) p.1 p.2) →
      (Terminal D p.2 ∧ Doubling.iter (Terminal D) (Has X) K p.1 p.2) := by
    refine exists_common (Q := fun k (p : T × T) => Terminal D p.2 ∧ Doubling.iter (Terminal D) (Has X) k p.1 p.2)
      (fun k p hp => ⟨hp.1, Doubling.iter_mono (hnt X hP) hp.1 hp.2⟩) _ ?_
    rintro p _ ⟨h1, h2⟩
    obtain ⟨m, hm⟩ := h2.dist
    obtain ⟨L, hL⟩ := hm.min
    exact ⟨L, h1, (Doubling.iter_min (hnt X hP) h1 L hL).1 (Doubling.lt_two_pow L)⟩
  have hT : ∀ j A t, Terminal D t → (Doubling.iter (Terminal D) (Has X) (K + j) A t ↔
      Doubling.Reach (Terminal D) (Has X) A t) := by
    intro j A t ht
    refine ⟨Doubling.iter_sound, fun hr => ?_⟩
    obtain ⟨h1, h2⟩ := reach_mem hr
    have := (hK (A, t) (List.mem_flatMap.mpr ⟨A, h1, List.mem_map.mpr ⟨t, h2, rfl⟩⟩) ⟨ht, hr⟩).2
    clear h1 h2
    induction j with
    | zero => exact this
    | succ j ih => exact Doubling.iter_mono (hnt X hP) ht ih
  -- the iterates exist
  have hex : ∀ k, ∃ Y, Orbit f X k Y := by
    intro k
    induction k with
    | zero => exact ⟨X, .zero⟩
    | succ k ih =>
      obtain ⟨Y, hY⟩ := ih
      obtain ⟨Z, h1, _⟩ := hstep Y (orbit_iter hP hstep hY).1
      exact ⟨Z, .succ hY h1⟩
  obtain ⟨Y, hY⟩ := hex (K + n)
  obtain ⟨hPY, hHY⟩ := orbit_iter hP hstep hY
  obtain ⟨Z, h1, hPZ, _⟩ := hstep Y hPY
  obtain ⟨_, hHZ⟩ := orbit_iter hP hstep (.succ hY h1)
  have : Z = Y := by
    refine hext Z Y hPZ hPY (fun A x => ?_)
    rw [hHZ, hHY]
    by_cases hx : Terminal D x
    · rw [hT n A x hx, Nat.add_assoc, hT (n + 1) A x hx]
    · have e1 := fold_stays hn K A x
      have e2 := fold_stays hn (K + 1) A x
      rw [Nat.add_comm n K] at e1
      rw [show n + (K + 1) = K + n + 1 by omega] at e2
      have i1 : (_ ↔ Fold (Rest D X) (K + n) A x) := Doubling.iter_fold (K + n) A x
      have i2 : (_ ↔ Fold (Rest D X) (K + n + 1) A x) := Doubling.iter_fold (K + n + 1) A x
      simp only [hx, not_false_eq_true, and_true] at i1 i2
      rw [i1, i2, e1, e2]
  subst this
  exact ⟨_, _, transitive_of_orbit hY h1⟩

/-! ### FIRST -/

theorem genFirst_rest (hg : g.Of D S eof) {X : Table T} (hX : genFirst g = .ok X) :
    Rest D X = Loopless (LeftGraph D) := by
  obtain ⟨_, h2⟩ := genFirst_spec hg hX
  refine fold_congr (fun A B => ?_)
  unfold Rest Loopless LeftGraph
  rw [h2 A B, not_terminal_iff]
  constructor
  · rintro ⟨⟨h, i, b, hp⟩, hB⟩; exact ⟨Ne.symm h, hB, i, b, hp⟩
  · rintro ⟨h, hB, i, b, hp⟩; exact ⟨⟨Ne.symm h, i, b, hp⟩, hB⟩

theorem first_settles (hg : g.Of D S eof) {X Y : Table T} (hX : genFirst g = .ok X) {n : Nat}
    (h : transitive (firstStep g) n X = .ok Y) : SettlesTo (Loopless (LeftGraph D)) (Rest D Y) := by
  rw [← genFirst_rest hg hX]
  exact doubling_settles (genFirst_spec hg hX).1 (fun X hX => firstStep_spec hg hX) h

theorem first_returns (hg : g.Of D S eof) {X : Table T} (hX : genFirst g = .ok X) {L : T → T → Prop}
    (h : SettlesTo (Loopless (LeftGraph D)) L) :
    ∃ n Y, transitive (firstStep g) n X = .ok Y := by
  rw [← genFirst_rest hg hX] at h
  exact doubling_returns (genFirst_spec hg hX).1 (fun X hX => firstStep_spec hg hX)
    (fun X Y hX hY h => firstTable_ext hX hY h) (fun X hX A x hx => hX.has_nonterminal hx) h

/-! ### FOLLOW -/

theorem genFollow_rest {first X : Table T}
    (hXe : ∀ A x, Has X A x ↔ FollowEdge D S eof first A x) :
    Rest D X = AfterGraph D S eof (Rest D first) := by
  refine fold_congr (fun A B => ?_)
  unfold Rest AfterGraph
  rw [hXe A B, not_terminal_iff]
  constructor
  · rintro ⟨h, hB⟩
    refine ⟨hB, ?_⟩
    rcases h with h | ⟨C, i, body, hp, h | h⟩
    · exact Or.inl h
    · obtain ⟨b, ⟨u, v, rfl⟩, hA, h⟩ := h
      rcases h with ⟨h, rfl⟩ | ⟨h1, h2⟩
      · exact absurd h (not_terminal_iff.mpr hB)
      · exact Or.inr (Or.inr ⟨C, i, u, b, v, hp, hA, h1, h2, not_terminal_iff.mpr hB⟩)
    · obtain ⟨h1, h2, h5, rfl⟩ := h
      obtain ⟨ys, rfl⟩ := List.getLast?_eq_some_iff.mp h1
      exact Or.inr (Or.inl ⟨h5, h2, i, ys, hp⟩)
  · rintro ⟨hB, h⟩
    refine ⟨?_, hB⟩
    rcases h with h | ⟨h5, h2, i, ys, hp⟩ | ⟨C, i, u, b, v, hp, hA, hb, h2, _⟩
    · exact Or.inl h
    · exact Or.inr ⟨B, i, _, hp, Or.inr ⟨by simp, h2, h5, rfl⟩⟩
    · exact Or.inr ⟨C, i, _, hp, Or.inl ⟨b, ⟨u, v, rfl⟩, hA, Or.inr ⟨hb, h2⟩⟩⟩

theorem follow_settles (hg : g.Of D S eof) {first X Y : Table T} (hX : FollowTable D X)
    (hXe : ∀ A x, Has X A x ↔ FollowEdge D S eof first A x) {n : Nat}
    (h : transitive (fun t => .ok (followStep g t)) n X = .ok Y) :
    SettlesTo (AfterGraph D S eof (Rest D first)) (Rest D Y) := by
  rw [← genFollow_rest hXe]
  refine doubling_settles (P := FollowTable D) hX (fun Z hZ => ?_) h
  obtain ⟨h1, h2, _⟩ := followStep_spec hg hZ
  exact ⟨_, rfl, h1, h2⟩

theorem follow_returns (hg : g.Of D S eof) {first X : Table T} (hX : FollowTable D X)
    (hXe : ∀ A x, Has X A x ↔ FollowEdge D S eof first A x) {R : T → T → Prop}
    (h : SettlesTo (AfterGraph D S eof (Rest D first)) R) :
    ∃ n Y, transitive (fun t => .ok (followStep g t)) n X = .ok Y := by
  rw [← genFollow_rest hXe] at h
  exact doubling_returns (P := fun Y => FollowTable D Y ∧ ∀ A, Key Y A ↔ Key X A)
    (f := fun t => .ok (followStep g t)) ⟨hX, fun _ => Iff.rfl⟩
    (fun Z hZ => by
      obtain ⟨h1, h2, h3⟩ := followStep_spec hg hZ.1
      exact ⟨_, rfl, ⟨h1, fun A => (h3 A).trans (hZ.2 A)⟩, h2⟩)
    (fun Y Z hY hZ h => followTable_ext hY.1 hZ.1 (fun A => (hY.2 A).trans (hZ.2 A).symm) h)
    (fun Y hY A x hx => hY.1.has_nonterminal hx) h

/-! ### `Tabler::new` -/

/-- Where FIRST and FOLLOW settle. -/
theorem new_settles (hg : g.Of D S eof) {dbg : Bool} {n : Nat} {t : Tabler T}
    (h : new dbg n g = .ok t) :
    SettlesTo (Loopless (LeftGraph D)) (Rest D t.first) ∧
    SettlesTo (AfterGraph D S eof (Rest D t.first)) (Rest D t.follow) := by
  obtain ⟨X, Z, h1, h2, h3, h4, rfl, _⟩ := new_ok h
  have hne := noEmpty_of_genFirst hg h1
  obtain ⟨a1, a2⟩ := first_exact hg h1 h2
  obtain ⟨Z', b1, b2, b3, b4⟩ := genFollow_spec hg hne a1
  rw [h3] at b1; cases b1
  exact ⟨first_settles hg h1 (procFirst_fix h2).1, follow_settles hg b2 b3 (procFollow_fix h4).1⟩

/-- The three outcomes of the first phase. -/
theorem new_first (hg : g.Of D S eof) (hne : NoEmpty D) {L : T → T → Prop}
    (hL : SettlesTo (Loopless (LeftGraph D)) L) :
    ∃ n X F, genFirst g = .ok X ∧ transitive (firstStep g) n X = .ok F ∧ FirstTable D F ∧
      Rest D F = L := by
  obtain ⟨X, h1⟩ := genFirst_ok hg hne
  obtain ⟨n, F, h2⟩ := first_returns hg h1 hL
  exact ⟨n, X, F, h1, h2, (first_fix hg (genFirst_spec hg h1).1 h2).1,
    settlesTo_unique (first_settles hg h1 h2) hL⟩

theorem allTerminal_rest (hg : g.Of D S eof) {X : Table T} (hs : OMap.Sorted X) :
    allTerminal g X = true ↔ Rest D X = fun _ _ => False := by
  rw [allTerminal_iff hg hs]
  constructor
  · intro h
    refine fold_congr (fun A B => iff_false_intro (fun hr => hr.2 (h A B hr.1)))
  · intro h A x hx
    refine Classical.byContradiction (fun hn => ?_)
    have : Rest D X A x := ⟨hx, hn⟩
    rw [h] at this; exact this

/-- The iterations settle, and pass the assertions of debug builds: `new` returns. -/
theorem new_returns (hg : g.Of D S eof) (hne : NoEmpty D) {dbg : Bool} {L R : T → T → Prop}
    (hL : SettlesTo (Loopless (LeftGraph D)) L) (hR : SettlesTo (AfterGraph D S eof L) R)
    (hd : dbg = true → L = (fun _ _ => False) ∧ R = fun _ _ => False) :
    ∃ n t, new dbg n g = .ok t := by
  obtain ⟨n1, X, F, h1, h2, hFT, rfl⟩ := new_first hg hne hL
  obtain ⟨Z, b1, b2, b3, _⟩ := genFollow_spec hg hne hFT
  obtain ⟨n2, W, h4⟩ := follow_returns hg b2 b3 hR
  have hWT : FollowTable D W := (follow_fix hg b2 h4).1
  have hW := settlesTo_unique (follow_settles hg b2 b3 h4) hR
  have e1 : transitive (firstStep g) (n1 + n2) X = .ok F :=
    (transitive_le (by omega) X).ok h2
  have e2 : transitive (fun t => .ok (followStep g t)) (n1 + n2) Z = .ok W :=
    (transitive_le (by omega) Z).ok h4
  refine ⟨n1 + n2, ⟨g, F, W, [], [], []⟩, ?_⟩
  cases dbg with
  | false =>
    simp only [new, h1, procFirst, e1, procFollow, e2, b1, Out.ok_bind, Bool.not_false, Bool.true_or,
      Out.assert_true, Out.pure_eq]
  | true =>
    obtain ⟨d1, d2⟩ := hd rfl
    have t1 := (allTerminal_rest hg hFT.sorted).mpr d1
    have t2 := (allTerminal_rest hg hWT.sorted).mpr (hW.trans d2)
    simp only [new, h1, procFirst, e1, procFollow, e2, b1, Out.ok_bind, t1, t2, Bool.or_true,
      Out.assert_true, Out.pure_eq]

/-- FIRST settles with nonterminals left over: debug builds panic. -/
theorem new_panics_first (hg : g.Of D S eof) (hne : NoEmpty D) {L : T → T → Prop}
    (hL : SettlesTo (Loopless (LeftGraph D)) L) (h : L ≠ fun _ _ => False) :
    ∃ n, new true n g = .panic .dbgFirstNotTerminal := by
  obtain ⟨n, X, F, h1, h2, hFT, rfl⟩ := new_first hg hne hL
  have t1 : allTerminal g F = false :=
    Bool.eq_false_iff.mpr (fun h' => h ((allTerminal_rest hg hFT.sorted).mp h'))
  refine ⟨n, ?_⟩
  simp only [new, h1, procFirst, h2, Out.ok_bind, t1, Bool.not_true, Bool.or_false]
  rfl

/-- FIRST settles with terminals only, FOLLOW does not: debug builds panic. -/
theorem new_panics_follow (hg : g.Of D S eof) (hne : NoEmpty D) {R : T → T → Prop}
    (hL : FoldsAway (Loopless (LeftGraph D))) (hR : SettlesTo (AfterGraph D S eof fun _ _ => False) R)
    (h : R ≠ fun _ _ => False) : ∃ n, new true n g = .panic .dbgFollowNotTerminal := by
  obtain ⟨n1, X, F, h1, h2, hFT, hF⟩ := new_first hg hne (foldsAway_iff.mp hL)
  obtain ⟨Z, b1, b2, b3, _⟩ := genFollow_spec hg hne hFT
  rw [← hF] at hR
  obtain ⟨n2, W, h4⟩ := follow_returns hg b2 b3 hR
  have hWT : FollowTable D W := (follow_fix hg b2 h4).1
  have hW := settlesTo_unique (follow_settles hg b2 b3 h4) hR
  have e1 : transitive (firstStep g) (n1 + n2) X = .ok F :=
    (transitive_le (by omega) X).ok h2
  have e2 : transitive (fun t => .ok (followStep g t)) (n1 + n2) Z = .ok W :=
    (transitive_le (by omega) Z).ok h4
  have t1 := (allTerminal_rest hg hFT.sorted).mpr hF
  have t2 : allTerminal g W = false :=
    Bool.eq_false_iff.mpr (fun h' => h (hW.symm.trans ((allTerminal_rest hg hWT.sorted).mp h')))
  refine ⟨n1 + n2, ?_⟩
  simp only [new, h1, procFirst, e1, procFollow, e2, b1, Out.ok_bind, t1, t2, Bool.not_true,
    Bool.or_false, Bool.false_or, Out.assert_true, Out.pure_eq]
  rfl

/-- When `new` panics, this is why. -/
theorem new_panic_settles (hg : g.Of D S eof) (hne : NoEmpty D) {dbg : Bool} {n : Nat} {p : Panic}
    (h : new dbg n g = .panic p) :
    dbg = true ∧
    ((p = .dbgFirstNotTerminal ∧ ∃ L, SettlesTo (Loopless (LeftGraph D)) L ∧ L ≠ fun _ _ => False) ∨
     (p = .dbgFollowNotTerminal ∧ FoldsAway (Loopless (LeftGraph D)) ∧
        ∃ R, SettlesTo (AfterGraph D S eof fun _ _ => False) R ∧ R ≠ fun _ _ => False)) := by
  rcases new_panic hg h with ⟨_, h'⟩ | ⟨rfl, _, hp⟩
  · exact absurd hne h'
  refine ⟨rfl, ?_⟩
  obtain ⟨X, h1⟩ := genFirst_ok hg hne
  have hXT := (genFirst_spec hg h1).1
  unfold new at h
  rw [h1, Out.ok_bind, Out.bind_eq_panic] at h
  rcases h with h | ⟨F, h2, h⟩
  · unfold procFirst at h
    rw [Out.bind_eq_panic] at h
    rcases h with h | ⟨F, hF, h⟩
    · exfalso
      obtain ⟨k, v, _, _, h3, h4⟩ := transitive_panic_iff.mp h
      obtain ⟨h5, _⟩ := orbit_iter hXT (fun X hX => firstStep_spec hg hX) h3
      obtain ⟨Z, h6, _⟩ := firstStep_spec hg h5
      rw [h4] at h6; cases h6
    · rw [Out.bind_eq_panic] at h
      rcases h with h | ⟨_, _, h⟩
      · rw [Out.assert_eq_panic] at h
        refine Or.inl ⟨h.2.symm, _, first_settles hg h1 hF, fun he => ?_⟩
        have := (allTerminal_rest hg (first_fix hg hXT hF).1.sorted).mpr he
        simp [this] at h
      · cases h
  · obtain ⟨hFT, _⟩ := first_exact hg h1 h2
    obtain ⟨h2a, h2b⟩ := procFirst_fix h2
    have hF := (allTerminal_rest hg hFT.sorted).mp (h2b rfl)
    obtain ⟨Z, b1, b2, b3, _⟩ := genFollow_spec hg hne hFT
    rw [b1, Out.ok_bind, Out.bind_eq_panic] at h
    rcases h with h | ⟨_, _, h⟩
    · unfold procFollow at h
      rw [Out.bind_eq_panic] at h
      rcases h with h | ⟨W, hW, h⟩
      · obtain ⟨k, v, _, _, h3, h4⟩ := transitive_panic_iff.mp h
        cases h4
      · rw [Out.bind_eq_panic] at h
        rcases h with h | ⟨_, _, h⟩
        · rw [Out.assert_eq_panic] at h
          have hs := follow_settles hg b2 b3 hW
          rw [hF] at hs
          refine Or.inr ⟨h.2.symm, ?_, _, hs, fun he => ?_⟩
          · have := first_settles hg h1 h2a
            rw [hF] at this
            exact foldsAway_iff.mpr this
          · have := (allTerminal_rest hg (follow_fix hg b2 hW).1.sorted).mpr he
            simp [this] at h
        · cases h
    · cases h

/-- With a terminal `eof` and no nonterminal left over in FIRST, FOLLOW depends on last nonterminals
only. -/
theorem afterGraph_empty (he : Terminal D eof) :
    AfterGraph D S eof (fun _ _ => False) = Loopless (RightGraph D) := by
  refine fold_congr (fun A B => ?_)
  unfold AfterGraph
  constructor
  · rintro ⟨hB, ⟨_, rfl⟩ | h | ⟨_, _, _, _, _, _, _, _, h⟩⟩
    · exact absurd he (not_terminal_iff.mpr hB)
    · exact h
    · exact h.elim
  · intro h
    obtain ⟨_, _, i, b, hp⟩ := id h
    exact ⟨hp.nonterminal, Or.inr (Or.inl h)⟩

theorem leftGraph_source {A B : T} (h : LeftGraph D A B) : A ∈ D.map (·.1) := by
  obtain ⟨_, i, b, hp⟩ := h
  obtain ⟨d, hd, rfl⟩ := hp.nonterminal
  exact List.mem_map.mpr ⟨d, hd, rfl⟩

theorem rightGraph_source {A B : T} (h : RightGraph D A B) : A ∈ D.map (·.1) := by
  obtain ⟨⟨d, hd, rfl⟩, _⟩ := h
  exact List.mem_map.mpr ⟨d, hd, rfl⟩

end Tabler

end Lrp
