import Verif.Spec.Reorder
import Verif.Spec.Loose
import Verif.Spec.Run
import Verif.Proofs.Cfg
import Verif.Proofs.Grammar

/-! The same rules with their alternatives in another order. -/

set_option linter.unusedSectionVars false

namespace Lrp
open Spec

variable {T : Type} {M : Type}

/-- Where the elements of a list go when it is permuted. -/
theorem perm_index {α : Type} {l l' : List α} (h : l.Perm l') :
    ∃ f : Nat → Nat, (∀ j b, l'[j]? = some b ↔ ∃ i, j = f i ∧ l[i]? = some b) ∧
      ∀ i j b c, l[i]? = some b → l[j]? = some c → f i = f j → i = j := by
  induction h with
  | nil => exact ⟨id, by simp, by simp⟩
  | @cons x l l' _ ih =>
    obtain ⟨f, h1, h2⟩ := ih
    refine ⟨fun | 0 => 0 | i + 1 => f i + 1, ?_, ?_⟩
    · intro j b
      cases j with
      | zero =>
        constructor
        · intro h
          exact ⟨0, rfl, by simpa using h⟩
        · rintro ⟨i, e, h⟩
          cases i with
          | zero => simpa using h
          | succ i => simp at e
      | succ j =>
        simp only [List.getElem?_cons_succ, h1]
        constructor
        · rintro ⟨i, rfl, h⟩
          exact ⟨i + 1, rfl, by simpa using h⟩
        · rintro ⟨i, e, h⟩
          cases i with
          | zero => simp at e
          | succ i => exact ⟨i, by simpa using e, by simpa using h⟩
    · intro i j b c hi hj e
      cases i <;> cases j <;> simp_all
      exact h2 _ _ _ _ hi hj e
  | swap x y l =>
    refine ⟨fun | 0 => 1 | 1 => 0 | i + 2 => i + 2, ?_, ?_⟩
    · intro j b
      constructor
      · intro h
        match j, h with
        | 0, h => exact ⟨1, rfl, by simpa using h⟩
        | 1, h => exact ⟨0, rfl, by simpa using h⟩
        | j + 2, h => exact ⟨j + 2, rfl, by simpa using h⟩
      · rintro ⟨i, rfl, h⟩
        match i, h with
        | 0, h => simpa using h
        | 1, h => simpa using h
        | i + 2, h => simpa using h
    · intro i j b c _ _ e
      match i, j, e with
      | 0, 0, _ => rfl
      | 1, 1, _ => rfl
      | 0, 1, e => simp at e
      | 1, 0, e => simp at e
      | 0, j + 2, e => simp at e
      | 1, j + 2, e => simp at e
      | i + 2, 0, e => simp at e
      | i + 2, 1, e => simp at e
      | i + 2, j + 2, e => simpa using e
  | trans _ _ ih1 ih2 =>
    obtain ⟨f, h1, h2⟩ := ih1
    obtain ⟨g, h3, h4⟩ := ih2
    refine ⟨fun i => g (f i), ?_, ?_⟩
    · intro j b
      rw [h3]
      constructor
      · rintro ⟨i, rfl, h⟩
        obtain ⟨i', rfl, h'⟩ := (h1 i b).mp h
        exact ⟨i', rfl, h'⟩
      · rintro ⟨i, rfl, h⟩
        exact ⟨f i, rfl, (h1 _ b).mpr ⟨i, rfl, h⟩⟩
    · intro i j b c hi hj e
      exact h2 i j b c hi hj (h4 _ _ b c ((h1 _ b).mpr ⟨i, rfl, hi⟩) ((h1 _ c).mpr ⟨j, rfl, hj⟩) e)

theorem shuffled_nonterminal {D D' : Decls T} [LinOrd T] [DecidableEq T] (h : Shuffled D D') (A : T) :
    Nonterminal D' A ↔ Nonterminal D A := by
  refine ⟨h.2 A, fun hA => ?_⟩
  obtain ⟨bs, hb⟩ := declared_of_nonterminal hA
  obtain ⟨bs', ⟨p, q, rfl, _⟩, _⟩ := h.1 A bs hb
  exact ⟨(A, bs'), by simp, rfl⟩

/-- Each alternative can be found again where the alternatives are in another order. -/
theorem shuffled_reordered {D D' : Decls T} [LinOrd T] [DecidableEq T] (h : Shuffled D D') : ∃ π, Reordered π D D' := by
  have key : ∀ A, ∃ f : Nat → Nat, (∀ j b, IsProd D' A j b ↔ ∃ i, j = f i ∧ IsProd D A i b) ∧
      ∀ i j b c, IsProd D A i b → IsProd D A j c → f i = f j → i = j := by
    intro A
    by_cases hA : Nonterminal D A
    · obtain ⟨bs, hb⟩ := declared_of_nonterminal hA
      obtain ⟨bs', hb', hp⟩ := h.1 A bs hb
      obtain ⟨f, h1, h2⟩ := perm_index hp
      have e : ∀ i b, IsProd D A i b ↔ bs[i]? = some b :=
        fun i b => ⟨fun ⟨_, d, h⟩ => d.unique hb ▸ h, fun h => ⟨_, hb, h⟩⟩
      have e' : ∀ i b, IsProd D' A i b ↔ bs'[i]? = some b :=
        fun i b => ⟨fun ⟨_, d, h⟩ => d.unique hb' ▸ h, fun h => ⟨_, hb', h⟩⟩
      exact ⟨f, fun j b => by simp only [e, e', h1], fun i j b c => by rw [e, e]; exact h2 i j b c⟩
    · have n : ∀ i b, ¬ IsProd D A i b := fun i b hp => hA hp.nonterminal
      have n' : ∀ i b, ¬ IsProd D' A i b := fun i b hp => hA (h.2 A hp.nonterminal)
      exact ⟨id, fun j b => by simp [n, n'], fun i j b c hi => absurd hi (n i b)⟩
  exact ⟨fun A => (key A).choose, shuffled_nonterminal h, fun A => (key A).choose_spec.1,
    fun A => (key A).choose_spec.2⟩

namespace Spec.Reordered
variable {π : T → Nat → Nat} {D D' : Decls T} (h : Reordered π D D') {S eof : T}
include h

theorem prod {A : T} {i : Nat} {b : List T} (hp : IsProd D A i b) : IsProd D' A (π A i) b :=
  (h.prods A _ b).mpr ⟨i, rfl, hp⟩

theorem prod_iff {A : T} {i : Nat} {b c : List T} (hc : IsProd D A i c) :
    IsProd D' A (π A i) b ↔ IsProd D A i b := by
  refine ⟨fun hp => ?_, h.prod⟩
  obtain ⟨j, e, hj⟩ := (h.prods A _ b).mp hp
  exact h.inj A i j c b hc hj e ▸ hj

/-- Back again. -/
theorem symm : ∃ ρ, Reordered ρ D' D := by
  classical
  have key : ∀ A j, ∃ i, (∃ b, IsProd D' A j b) → j = π A i ∧ ∃ b, IsProd D A i b := by
    intro A j
    by_cases hj : ∃ b, IsProd D' A j b
    · obtain ⟨b, hb⟩ := hj
      obtain ⟨i, e, hi⟩ := (h.prods A j b).mp hb
      exact ⟨i, fun _ => ⟨e, b, hi⟩⟩
    · exact ⟨0, fun hb => absurd hb hj⟩
  have spec := fun A j => (key A j).choose_spec
  refine ⟨fun A j => (key A j).choose, fun A => (h.names A).symm, ?_, ?_⟩
  · intro A i b
    constructor
    · intro hp
      refine ⟨π A i, ?_, h.prod hp⟩
      obtain ⟨e, c, hc⟩ := spec A (π A i) ⟨b, h.prod hp⟩
      exact h.inj A _ _ _ _ hp hc e
    · rintro ⟨j, rfl, hp⟩
      obtain ⟨i, rfl, hi⟩ := (h.prods A j b).mp hp
      obtain ⟨e, c, hc⟩ := spec A (π A i) ⟨b, hp⟩
      exact h.inj A _ _ _ _ hi hc e ▸ hi
  · intro A i j b c hi hj e
    rw [(spec A i ⟨b, hi⟩).1, (spec A j ⟨c, hj⟩).1]
    exact congrArg (π A) e

theorem terminal (A : T) : Terminal D' A ↔ Terminal D A := by
  have := h.names A
  rw [← not_terminal_iff, ← not_terminal_iff] at this
  have n : ∀ p q : Prop, (¬ p ↔ ¬ q) → (p ↔ q) := fun p q e =>
    ⟨fun a => Classical.byContradiction (fun b => e.mpr b a), fun a => Classical.byContradiction (fun b => e.mp b a)⟩
  exact n _ _ this

theorem terminals (w : List T) : Terminals D' w ↔ Terminals D w := by
  simp only [Terminals, h.terminal]

theorem derives_of {a b : List T} (hd : Derives D a b) : Derives D' a b := by
  induction hd with
  | refl => exact .refl _
  | head s _ ih =>
    cases s with
    | mk u v hp => exact .head (.mk u v (h.prod hp)) ih

theorem derives (a b : List T) : Derives D' a b ↔ Derives D a b := by
  obtain ⟨ρ, h'⟩ := h.symm
  exact ⟨h'.derives_of, h.derives_of⟩

theorem rderives_of {a b : List T} (hd : RDerives D a b) : RDerives D' a b := by
  induction hd with
  | refl => exact .refl
  | tail _ s ih =>
    cases s with
    | mk u v hp ht => exact .tail ih (.mk u v (h.prod hp) ((h.terminals v).mpr ht))

theorem rderives (a b : List T) : RDerives D' a b ↔ RDerives D a b := by
  obtain ⟨ρ, h'⟩ := h.symm
  exact ⟨h'.rderives_of, h.rderives_of⟩

theorem sentence (w : List T) : Sentence D' S w ↔ Sentence D S w := by
  simp only [Sentence, h.derives, h.terminal]

theorem someProd (A : T) (b : List T) : (∃ i, IsProd D' A i b) ↔ ∃ i, IsProd D A i b := by
  constructor
  · rintro ⟨j, hj⟩
    obtain ⟨i, _, hi⟩ := (h.prods A j b).mp hj
    exact ⟨i, hi⟩
  · rintro ⟨i, hi⟩
    exact ⟨_, h.prod hi⟩

theorem noEmpty : NoEmpty D' ↔ NoEmpty D := by
  constructor
  · intro hn A i b hp
    exact hn A _ b (h.prod hp)
  · intro hn A j b hp
    obtain ⟨i, _, hi⟩ := (h.prods A j b).mp hp
    exact hn A i b hi

theorem inNoBody (X : T) : InNoBody D' X ↔ InNoBody D X := by
  constructor
  · intro hn A i b hp
    exact hn A _ b (h.prod hp)
  · intro hn A j b hp
    obtain ⟨i, _, hi⟩ := (h.prods A j b).mp hp
    exact hn A i b hi

theorem allProductive : AllProductive D' ↔ AllProductive D := by
  simp only [AllProductive, Productive, h.names, h.derives, h.terminal]

theorem reachable (A : T) : Reachable D' S A ↔ Reachable D S A := by
  simp only [Reachable, h.derives]

theorem leftGraph : LeftGraph D' = LeftGraph D := by
  funext A B
  apply propext
  simp only [LeftGraph, h.names]
  constructor
  · rintro ⟨hB, j, b, hp⟩
    obtain ⟨i, hp⟩ := (h.someProd A _).mp ⟨j, hp⟩
    exact ⟨hB, i, b, hp⟩
  · rintro ⟨hB, i, b, hp⟩
    exact ⟨hB, _, b, h.prod hp⟩

theorem rightGraph : RightGraph D' = RightGraph D := by
  funext A B
  apply propext
  simp only [RightGraph, h.names]
  constructor
  · rintro ⟨hB, j, b, hp⟩
    obtain ⟨i, hp⟩ := (h.someProd B _).mp ⟨j, hp⟩
    exact ⟨hB, i, b, hp⟩
  · rintro ⟨hB, i, b, hp⟩
    exact ⟨hB, _, b, h.prod hp⟩

theorem afterGraph (L : T → T → Prop) : AfterGraph D' S eof L = AfterGraph D S eof L := by
  funext A B
  apply propext
  simp only [AfterGraph, h.names, h.rightGraph]
  refine and_congr_right (fun _ => or_congr_right (or_congr_right ?_))
  constructor
  · rintro ⟨C, j, u, b, v, hp, r⟩
    obtain ⟨i, hp⟩ := (h.someProd C _).mp ⟨j, hp⟩
    exact ⟨C, i, u, b, v, hp, r⟩
  · rintro ⟨C, j, u, b, v, hp, r⟩
    exact ⟨C, _, u, b, v, h.prod hp, r⟩

theorem inFollow (A x : T) : InFollow D' S eof A x ↔ InFollow D S eof A x := by
  simp only [InFollow, h.derives]

theorem loosely_of {L : T → T → Prop} {A x : T} (hl : LooselyFollows D S eof L A x) :
    LooselyFollows D' S eof L A x := by
  induction hl with
  | follow hf => exact .follow ((h.inFollow _ _).mpr hf)
  | after hf _ ih => exact .after (h.afterGraph (S := S) (eof := eof) _ ▸ hf) ih

theorem loosely (L : T → T → Prop) (A x : T) : LooselyFollows D' S eof L A x ↔ LooselyFollows D S eof L A x := by
  obtain ⟨ρ, h'⟩ := h.symm
  exact ⟨h'.loosely_of, h.loosely_of⟩

theorem followed : Followed D' S eof = Followed D S eof := by
  funext A x
  simp only [Followed, h.leftGraph, h.afterGraph, h.terminal, h.loosely]

theorem lr1_of (hl : LR1 D S eof) : LR1 D' S eof := by
  intro α β w γ δ x y A B i j h1 h2 h3 h4 h5 h6 h7 h8 h9
  obtain ⟨i, rfl, h3'⟩ := (h.prods A i β).mp h3
  obtain ⟨j, rfl, h6'⟩ := (h.prods B j δ).mp h6
  obtain ⟨e1, e2, e3, e4⟩ := hl α β w γ δ x y A B i j ((h.rderives _ _).mp h1) ((h.terminals _).mp h2) h3'
    ((h.rderives _ _).mp h4) ((h.terminals _).mp h5) h6' h7 ((h.terminals _).mp h8) h9
  subst e2 e3
  exact ⟨e1, rfl, rfl, e4⟩

theorem lr1 : LR1 D' S eof ↔ LR1 D S eof := by
  obtain ⟨ρ, h'⟩ := h.symm
  exact ⟨h'.lr1_of, h.lr1_of⟩

theorem validItem_inv {γ : List T} {A : T} {j : Nat} {β₁ β₂ : List T} (hv : ValidItem D' S γ A j β₁ β₂) :
    ∃ i, j = π A i ∧ ValidItem D S γ A i β₁ β₂ := by
  obtain ⟨hp, α, w, e, ht, hd⟩ := hv
  obtain ⟨i, rfl, hq⟩ := (h.prods A j _).mp hp
  exact ⟨i, rfl, hq, α, w, e, (h.terminals w).mp ht, (h.rderives _ _).mp hd⟩

theorem validItem {γ : List T} {A : T} {i : Nat} {β₁ β₂ : List T} (hv : ValidItem D S γ A i β₁ β₂) :
    ValidItem D' S γ A (π A i) β₁ β₂ := by
  obtain ⟨hp, α, w, e, ht, hd⟩ := hv
  exact ⟨h.prod hp, α, w, e, (h.terminals w).mpr ht, (h.rderives _ _).mpr hd⟩

theorem validItem1_inv {γ : List T} {A : T} {j : Nat} {β₁ β₂ : List T} {x : T}
    (hv : ValidItem1 D' S eof γ A j β₁ β₂ x) : ∃ i, j = π A i ∧ ValidItem1 D S eof γ A i β₁ β₂ x := by
  obtain ⟨hp, α, w, e, ht, hx, hd⟩ := hv
  obtain ⟨i, rfl, hq⟩ := (h.prods A j _).mp hp
  exact ⟨i, rfl, hq, α, w, e, (h.terminals w).mp ht, hx, (h.rderives _ _).mp hd⟩

theorem sameItems {γ γ' : List T} (hs : SameItems D' S γ γ') : SameItems D S γ γ' := by
  have key : ∀ {γ γ' : List T}, SameItems D' S γ γ' → ∀ A i β₁ β₂, ValidItem D S γ A i β₁ β₂ →
      ValidItem D S γ' A i β₁ β₂ := by
    intro γ γ' hs A i β₁ β₂ hv
    obtain ⟨j, e, hj⟩ := h.validItem_inv ((hs A (π A i) β₁ β₂).mp (h.validItem hv))
    exact h.inj A i j _ _ hv.1 hj.1 e ▸ hj
  exact fun A i β₁ β₂ => ⟨key hs A i β₁ β₂, key (fun A i β₁ β₂ => (hs A i β₁ β₂).symm) A i β₁ β₂⟩

theorem lalr1_of (hl : LALR1 D S eof) : LALR1 D' S eof := by
  refine ⟨?_, ?_⟩
  · intro γ γ' A i β B j δ x hs h1 h2
    obtain ⟨i, rfl, k1⟩ := h.validItem1_inv h1
    obtain ⟨j, rfl, k2⟩ := h.validItem1_inv h2
    obtain ⟨rfl, rfl⟩ := hl.1 γ γ' A i β B j δ x (h.sameItems hs) k1 k2
    exact ⟨rfl, rfl⟩
  · intro γ γ' A i β B j δ₁ a δ₂ hs h1 h2
    obtain ⟨i, rfl, k1⟩ := h.validItem1_inv h1
    obtain ⟨j, rfl, k2⟩ := h.validItem_inv h2
    rw [h.terminal]
    exact hl.2 γ γ' A i β B j δ₁ a δ₂ (h.sameItems hs) k1 k2

theorem lalr1 : LALR1 D' S eof ↔ LALR1 D S eof := by
  obtain ⟨ρ, h'⟩ := h.symm
  exact ⟨h'.lalr1_of, h.lalr1_of⟩

theorem slr1For_of {F : T → T → Prop} (hl : SLR1For D S F) : SLR1For D' S F := by
  refine ⟨?_, ?_⟩
  · intro γ A i β B j δ x h1 h2
    obtain ⟨i, rfl, k1⟩ := h.validItem_inv h1
    obtain ⟨j, rfl, k2⟩ := h.validItem_inv h2
    intro f1 f2
    obtain ⟨rfl, rfl⟩ := hl.1 γ A i β B j δ x k1 k2 f1 f2
    exact ⟨rfl, rfl⟩
  · intro γ A i β B j δ₁ a δ₂ h1 h2
    obtain ⟨i, rfl, k1⟩ := h.validItem_inv h1
    obtain ⟨j, rfl, k2⟩ := h.validItem_inv h2
    exact hl.2 γ A i β B j δ₁ a δ₂ k1 k2

theorem slr1For (F : T → T → Prop) : SLR1For D' S F ↔ SLR1For D S F := by
  obtain ⟨ρ, h'⟩ := h.symm
  exact ⟨h'.slr1For_of, h.slr1For_of⟩

/-- If the start rule has a single alternative, it has the number 0 in both. -/
theorem single [LinOrd T] (h1 : SingleStart D S) : SingleStart D' S := by
  intro j b hp
  obtain ⟨bs, hb, hj⟩ := id hp
  cases j with
  | zero => rfl
  | succ j =>
    have hlt := (List.getElem?_eq_some_iff.mp hj).1
    have h0 : IsProd D' S 0 bs[0] := ⟨bs, hb, by simp⟩
    obtain ⟨i, e, hi⟩ := (h.prods S _ _).mp h0
    obtain ⟨i', e', hi'⟩ := (h.prods S _ _).mp hp
    rw [h1 _ _ hi] at e
    rw [h1 _ _ hi'] at e'
    omega

theorem start [LinOrd T] (h1 : SingleStart D S) (b : List T) : IsProd D' S 0 b ↔ IsProd D S 0 b := by
  constructor
  · intro hp
    obtain ⟨i, _, hi⟩ := (h.prods S 0 b).mp hp
    exact h1 _ _ hi ▸ hi
  · intro hp
    have := h.prod hp
    exact h.single h1 _ _ this ▸ this

/-! ### Trees -/

omit h in
theorem reorders_eq (cs : List (Tree M T)) : Tree.reorders π cs = cs.map (Tree.reorder π) := by
  induction cs with
  | nil => simp [Tree.reorders]
  | cons c cs ih => simp [Tree.reorders, ih]

omit h in
theorem root_reorder (tr : Tree M T) : (tr.reorder π).root = tr.root := by
  cases tr <;> simp [Tree.reorder, Tree.root]

omit h in
theorem yield_reorder (tr : Tree M T) : (tr.reorder π).yield = tr.yield := by
  induction tr using Tree.ind with
  | leaf tok => simp [Tree.reorder]
  | node A i cs ih =>
    simp only [Tree.reorder, Tree.yield_node]
    induction cs with
    | nil => simp [Tree.reorders]
    | cons c cs ihc =>
      rw [Tree.reorders, Tree.yields_cons, Tree.yields_cons, ih c (by simp),
        ihc (fun c hc => ih c (List.mem_cons_of_mem _ hc))]

/-- A parse tree, with its productions renumbered. -/
theorem valid {tr : Tree M T} (hv : tr.Valid D) : (tr.reorder π).Valid D' := by
  induction tr using Tree.ind with
  | leaf tok => cases hv with | leaf ht => rw [Tree.reorder]; exact .leaf ((h.terminal _).mpr ht)
  | node A i cs ih =>
    cases hv with
    | node hp hc =>
      rw [Tree.reorder, reorders_eq]
      refine .node ?_ ?_
      · have e : (cs.map (Tree.reorder π)).map Tree.root = cs.map Tree.root := by
          simp [root_reorder]
        rw [e]
        exact h.prod hp
      · intro c hc'
        obtain ⟨c, hm, rfl⟩ := List.mem_map.mp hc'
        exact ih c hm (hc c hm)

/-- Every parse tree of the other grammar is one. -/
theorem valid_inv {tr : Tree M T} (hv : tr.Valid D') : ∃ tr0 : Tree M T, tr0.Valid D ∧ tr = tr0.reorder π := by
  induction tr using Tree.ind with
  | leaf tok =>
    cases hv with
    | leaf ht => exact ⟨.leaf tok, .leaf ((h.terminal _).mp ht), by rw [Tree.reorder]⟩
  | node A j cs ih =>
    cases hv with
    | node hp hc =>
      have : ∃ cs0 : List (Tree M T), (∀ c ∈ cs0, c.Valid D) ∧ cs = Tree.reorders π cs0 := by
        clear hp
        induction cs with
        | nil => exact ⟨[], by simp, by simp [Tree.reorders]⟩
        | cons c cs ihc =>
          obtain ⟨c0, v0, e0⟩ := ih c (by simp) (hc c (by simp))
          obtain ⟨cs0, v1, e1⟩ := ihc (fun c hm => ih c (List.mem_cons_of_mem _ hm))
            (fun c hm => hc c (List.mem_cons_of_mem _ hm))
          exact ⟨c0 :: cs0, by simpa using ⟨v0, v1⟩, by rw [Tree.reorders, e0, e1]⟩
      obtain ⟨cs0, v0, rfl⟩ := this
      obtain ⟨i, rfl, hq⟩ := (h.prods A j _).mp hp
      refine ⟨.node A i cs0, .node ?_ v0, by rw [Tree.reorder]⟩
      have e : (Tree.reorders π cs0).map Tree.root = cs0.map Tree.root := by
        simp [reorders_eq, root_reorder]
      rwa [e] at hq

variable {red red' : T → Nat → List (Token M T) → Option M}

omit h in
/-- The value is the same if the reductors are those of the renumbered productions. -/
theorem eval_reorder (hr : ∀ A i b, IsProd D A i b → red' A (π A i) = red A i) {tr : Tree M T}
    (hv : tr.Valid D) : (tr.reorder π).eval red' = tr.eval red := by
  induction tr using Tree.ind with
  | leaf tok => simp [Tree.reorder, Tree.eval]
  | node A i cs ih =>
    cases hv with
    | node hp hc =>
      have e : Tree.evals red' (Tree.reorders π cs) = Tree.evals red cs := by
        clear hp
        induction cs with
        | nil => simp [Tree.reorders, Tree.evals]
        | cons c cs ihc =>
          rw [Tree.reorders, Tree.evals, Tree.evals, ih c (by simp) (hc c (by simp)),
            ihc (fun c hm => ih c (List.mem_cons_of_mem _ hm)) (fun c hm => hc c (List.mem_cons_of_mem _ hm)),
            root_reorder]
      rw [Tree.reorder, Tree.eval, Tree.eval, e, hr A i _ hp]

theorem evaluates {maps maps' : ReductMap M T} [LinOrd T]
    (hr : ∀ A i b, IsProd D A i b → redOf maps' A (π A i) = redOf maps A i) {toks : List (Token M T)}
    (he : Evaluates D maps toks) : Evaluates D' maps' toks := by
  intro tr hv hy
  obtain ⟨tr, hv', rfl⟩ := h.valid_inv hv
  rw [yield_reorder] at hy
  rw [eval_reorder hr hv']
  exact he tr hv' hy

end Spec.Reordered

end Lrp
