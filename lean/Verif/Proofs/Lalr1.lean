import Verif.Proofs.Knuth
import Verif.Proofs.LalrSpec
import Verif.Proofs.Rename

/-! LALR(1) grammars and automata that tell states apart by their LR(0) items. -/

set_option linter.unusedSectionVars false

namespace Lrp
open Spec
variable {T : Type} [LinOrd T] [DecidableEq T]

section
variable {D : Decls T} {S eof : T} {b0 : List T} {states : List (State T)} {acts : ActTable T}
  {next : State T → T → Option Nat} {red : Position T → T → Prop}

/-- If lookaheads are no matter they are large enough. -/
theorem Auto.looks_any (h : Auto D S b0 states acts next red) :
    Looks D S eof b0 states next (fun _ _ => True) := by
  refine ⟨?_, ?_, ?_⟩
  · obtain ⟨s, p, h1, h2, h3, h4, h5⟩ := h.basis
    exact ⟨s, p, h1, h2, h3, h4, h5, trivial⟩
  · intro i j s s' p x hs hp ht hj hs'
    obtain ⟨j', s'', g1, _, g3, _, g5⟩ := h.edge hs hp ht
    rw [hj] at g1; cases g1
    rw [hs'] at g3; cases g3
    obtain ⟨q, hq, hb⟩ := g5 p hp ht
    exact ⟨q, hq, hb, fun _ _ _ => trivial⟩
  · intro i s p A k b y hs hp ht hprod _ _ _
    obtain ⟨q, h1, h2, h3, h4⟩ := h.close hs hp ht hprod
    exact ⟨q, h1, h2, h3, h4, trivial⟩

/-- The positions of the state a text leads to are the items valid for the text. -/
theorem Auto.valid_iff (h : Auto D S b0 states acts next red) (he : Terminal D eof)
    (hS : SingleStart D S) (hpr : AllProductive D) {i : Nat} {st : List Nat} {γ : List T} {s : State T}
    (hp : Path states next (i :: st) γ.reverse) (hs : states[i]? = some s) (A : T) (k : Nat)
    (β₁ β₂ : List T) :
    ValidItem D S γ A k β₁ β₂ ↔
      ∃ q ∈ s, q.rule = A ∧ q.seq = (β₁ ++ β₂, k) ∧ q.point = β₁.length := by
  constructor
  · intro hv
    obtain ⟨i', st', s', q, g1, g2, g3, g4, g5, g6⟩ :=
      Looks.valid h (h.looks_any (eof := eof)) he hS hv
    have e := g1.unique hp
    injection e with e _
    subst e
    rw [hs] at g2; cases g2
    exact ⟨q, g3, g4, g5, g6⟩
  · rintro ⟨q, hq, rfl, h2, h3⟩
    obtain ⟨w, hw, hd⟩ := h.rviable hpr hp rfl hs hq
    have h4 := h.split_syms hp hs hq
    have h5 := (h.prod hs hq).1
    rw [h2] at h4 h5
    rw [h3, List.reverse_reverse] at h4
    simp only [List.take_left'] at h4
    exact ⟨h5, _, w, h4, hw, by rw [h3] at hd; exact hd⟩

/-- Texts with the same valid items lead to states with the same bare positions. -/
theorem Auto.same_items (h : Auto D S b0 states acts next red) (he : Terminal D eof)
    (hS : SingleStart D S) (hpr : AllProductive D) {i i' : Nat} {st st' : List Nat} {γ γ' : List T}
    {s s' : State T} (hp : Path states next (i :: st) γ.reverse) (hs : states[i]? = some s)
    (hp' : Path states next (i' :: st') γ'.reverse) (hs' : states[i']? = some s') :
    SameItems D S γ γ' ↔ ∀ q, (∃ p ∈ s, bare p = q) ↔ ∃ p ∈ s', bare p = q := by
  have key : ∀ {i : Nat} {s : State T}, states[i]? = some s → ∀ q : Position T, q.look = [] →
      q.point ≤ q.seq.1.length → ((∃ p ∈ s, bare p = q) ↔ ∃ p ∈ s, p.rule = q.rule ∧
        p.seq = (q.seq.1.take q.point ++ q.seq.1.drop q.point, q.seq.2) ∧
        p.point = (q.seq.1.take q.point).length) := by
    intro i s _ q hl hle
    have e : (q.seq.1.take q.point).length = q.point := by simp; omega
    rw [List.take_append_drop, e]
    constructor
    · rintro ⟨p, hp, rfl⟩
      exact ⟨p, hp, rfl, rfl, rfl⟩
    · rintro ⟨p, hp, h1, h2, h3⟩
      refine ⟨p, hp, ?_⟩
      obtain ⟨r, sq, pt, lk⟩ := q
      obtain ⟨r', sq', pt', lk'⟩ := p
      simp only at h1 h2 h3 hl
      subst h1; subst h2; subst h3; subst hl
      rfl
  constructor
  · intro hsame q
    have imp : ∀ {i i' : Nat} {st st' : List Nat} {γ γ' : List T} {s s' : State T},
        Path states next (i :: st) γ.reverse → states[i]? = some s →
        Path states next (i' :: st') γ'.reverse → states[i']? = some s' → SameItems D S γ γ' →
        (∃ p ∈ s, bare p = q) → ∃ p ∈ s', bare p = q := by
      intro i i' st st' γ γ' s s' hp hs hp' hs' hsame hx
      obtain ⟨p, hps, rfl⟩ := id hx
      have hle : (bare p).point ≤ (bare p).seq.1.length := (h.prod hs hps).2
      have h1 := (key hs (bare p) rfl hle).mp hx
      exact (key hs' (bare p) rfl hle).mpr ((h.valid_iff he hS hpr hp' hs' _ _ _ _).mp
        ((hsame _ _ _ _).mp ((h.valid_iff he hS hpr hp hs _ _ _ _).mpr h1)))
    exact ⟨imp hp hs hp' hs' hsame, imp hp' hs' hp hs (fun A i b c => (hsame A i b c).symm)⟩
  · intro hc A k β₁ β₂
    rw [h.valid_iff he hS hpr hp hs, h.valid_iff he hS hpr hp' hs']
    have h1 := hc { rule := A, seq := (β₁ ++ β₂, k), point := β₁.length, look := [] }
    have hle : β₁.length ≤ (β₁ ++ β₂).length := by simp
    rw [key hs _ rfl hle, key hs' _ rfl hle] at h1
    simpa using h1

/-- No conflicts, lookaheads large enough, and states told apart by their bare positions: the grammar is
LALR(1). -/
theorem Looks.lalr1 (h : Auto D S b0 states acts next red) (hl : Looks D S eof b0 states next red)
    (he : Terminal D eof) (hS : SingleStart D S) (hpr : AllProductive D)
    (hinj : ∀ {i i' : Nat} {s s' : State T}, states[i]? = some s → states[i']? = some s' →
      (∀ q, (∃ p ∈ s, bare p = q) ↔ ∃ p ∈ s', bare p = q) → i = i')
    (hno : ∀ i x a b, cellAt acts i x ≠ some (.conflict a b)) : LALR1 D S eof := by
  have hand : ∀ {γ : List T} {A : T} {k : Nat} {β : List T} {x : T},
      ValidItem1 D S eof γ A k β [] x → ∃ i st s q, Path states next (i :: st) γ.reverse ∧
        states[i]? = some s ∧ q ∈ s ∧ q.rule = A ∧ q.seq = (β, k) ∧ q.top = none ∧ red q x := by
    rintro γ A k β x ⟨hp, α, w, rfl, hw, hx, hd⟩
    rw [List.append_nil] at hp
    exact Looks.handle h hl he hS hd hw hp hx
  constructor
  · intro γ γ' A i β B j δ x hsame hA hB
    obtain ⟨i1, st1, s1, p, g1, g2, g3, g4, g5, g6, g7⟩ := hand hA
    obtain ⟨i2, st2, s2, q, k1, k2, k3, k4, k5, k6, k7⟩ := hand hB
    have e := hinj g2 k2 ((h.same_items he hS hpr g1 g2 k1 k2).mp hsame)
    subst e
    rw [g2] at k2; cases k2
    have := h.dec_unique hno g2 (dec_of_complete g3 g6 g7) (dec_of_complete k3 k6 k7)
    rw [g4, g5, k4, k5] at this
    by_cases hAS : A = S <;> by_cases hBS : B = S <;> simp [hAS, hBS] at this
    · subst hAS; subst hBS
      exact ⟨rfl, (hS i _ hA.1).trans (hS j _ hB.1).symm⟩
    · exact ⟨this.1, this.2.2⟩
  · intro γ γ' A i β B j δ₁ a δ₂ hsame hA hB ha
    obtain ⟨i1, st1, s1, p, g1, g2, g3, g4, g5, g6, g7⟩ := hand hA
    obtain ⟨i2, st2, s2, q, k1, k2, k3, k4, k5, k6⟩ :=
      Looks.valid h (h.looks_any (eof := eof)) he hS hB
    have e := hinj g2 k2 ((h.same_items he hS hpr g1 g2 k1 k2).mp hsame)
    subst e
    rw [g2] at k2; cases k2
    have tq : q.top = some a := by show q.seq.1[q.point]? = some a; rw [k5, k6]; simp
    obtain ⟨m, _, hm, _⟩ := h.edge g2 k3 tq
    have d1 : Dec D S (next s1) red s1 a (.shift m) := Or.inl ⟨q, k3, tq, m, hm, Or.inl ⟨ha, rfl⟩⟩
    have := h.dec_unique hno g2 d1 (dec_of_complete g3 g6 g7)
    split at this <;> simp at this

/-- An LALR(1) grammar gives no conflicts where every lookahead belongs to an item valid for some text
that leads to the state. -/
theorem Auto.lalr_no_conflict (h : Auto D S b0 states acts next red) (he : Terminal D eof)
    (hS : SingleStart D S) (hpr : AllProductive D)
    (hb : ∀ {i : Nat} {s : State T} {p : Position T} {x : T}, states[i]? = some s → p ∈ s → red p x →
      ∀ y, Terminal D y → InFirst D x y → ∃ st syms w, Path states next (i :: st) syms ∧ Terminals D w ∧
        (w ++ [eof]).head? = some y ∧ RDerives D [S] ((syms.drop p.point).reverse ++ p.rule :: w))
    (hlr : LALR1 D S eof) : ∀ i x a b, cellAt acts i x ≠ some (.conflict a b) := by
  intro i x a b hc
  obtain ⟨row, hrow, hc⟩ := Option.bind_eq_some_iff.mp (show acts[i]?.bind _ = _ from hc)
  have hi : i < states.length := by rw [← h.len]; exact (List.getElem?_eq_some_iff.mp hrow).1
  have hs : states[i]? = some states[i] := List.getElem?_eq_getElem hi
  generalize states[i] = s at hs
  obtain ⟨a1, a2, d1, d2, hne⟩ := (((h.cell hs hrow).2 x).conflict _ hc).mp ⟨a, b, rfl⟩
  obtain ⟨y, hy, hxy⟩ : ∃ y, Terminal D y ∧ InFirst D x y := by
    by_cases hT : Terminal D x
    · exact ⟨x, hT, InFirst.refl⟩
    · obtain ⟨w, hw, ht⟩ := hpr x (not_terminal_iff.mp hT)
      cases w with
      | nil => exact absurd rfl (derives_ne_nil h.noEmpty hw (by simp))
      | cons y v => exact ⟨y, ht y (by simp), v, hw⟩
  have comp : ∀ {p : Position T}, p ∈ s → p.top = none → red p x → ∃ st γ,
      Path states next (i :: st) γ.reverse ∧ ValidItem1 D S eof γ p.rule p.seq.2 p.seq.1 [] y := by
    intro p hps ht hrd
    obtain ⟨st, syms, w, g1, g2, g3, g4⟩ := hb hs hps hrd y hy hxy
    have h4 := h.split_syms g1 hs hps
    rw [List.take_of_length_le (top_none ht)] at h4
    refine ⟨st, syms.reverse, by simpa using g1, by rw [List.append_nil]; exact (h.prod hs hps).1, _, w,
      h4, g2, g3, g4⟩
  have mixed : (∃ p ∈ s, p.top = some x) → (∃ p ∈ s, p.top = none ∧ red p x) → False := by
    rintro hq ⟨p, hps, ht, hrd⟩
    obtain ⟨q, hq, hqt⟩ := h.first_top' hs (Or.inr hxy) hq
    obtain ⟨st, γ, g1, g2⟩ := comp hps ht hrd
    have e : q.seq.1.drop q.point = y :: q.seq.1.drop (q.point + 1) := by
      rw [List.drop_eq_getElem_cons (top_lt hqt)]
      congr 1
      have : q.seq.1[q.point]? = some y := hqt
      rw [List.getElem?_eq_getElem (top_lt hqt)] at this
      exact Option.some.inj this
    have hv : ValidItem D S γ q.rule q.seq.2 (q.seq.1.take q.point) (y :: q.seq.1.drop (q.point + 1)) := by
      rw [← e, h.valid_iff he hS hpr g1 hs]
      refine ⟨q, hq, rfl, by rw [List.take_append_drop], ?_⟩
      have := (h.prod hs hq).2
      simp; omega
    exact hlr.2 γ γ _ _ _ _ _ _ _ _ (fun _ _ _ _ => Iff.rfl) g2 hv hy
  have hgo : ∀ {a : Action T}, Dec D S (next s) red s x a →
      (∃ j, next s x = some j ∧ (Terminal D x ∧ a = .shift j ∨ Nonterminal D x ∧ a = .goto j) ∧
        ∃ p ∈ s, p.top = some x) ∨
      (∃ p ∈ s, p.top = none ∧ red p x ∧ a = if p.rule = S then .acc else .reduce p.rule p.seq) := by
    rintro a (⟨p, hp, ht, j, hj, hk⟩ | ⟨p, hp, ht, hr, hk⟩)
    · exact Or.inl ⟨j, hj, hk, p, hp, ht⟩
    · refine Or.inr ⟨p, hp, ht, hr, ?_⟩
      rcases hk with ⟨e, rfl⟩ | ⟨e, rfl⟩
      · rw [if_pos e]
      · rw [if_neg e]
  rcases hgo d1 with ⟨j, g1, g2, g3⟩ | ⟨p, hp1, ht1, hr1, e1⟩ <;>
    rcases hgo d2 with ⟨m, k1, k2, k3⟩ | ⟨q, hp2, ht2, hr2, e2⟩
  · rw [g1] at k1; cases k1
    rcases g2 with ⟨g2, rfl⟩ | ⟨g2, rfl⟩ <;> rcases k2 with ⟨k2, rfl⟩ | ⟨k2, rfl⟩
    · exact hne rfl
    · exact absurd g2 (not_terminal_iff.mpr k2)
    · exact absurd k2 (not_terminal_iff.mpr g2)
    · exact hne rfl
  · exact mixed g3 ⟨q, hp2, ht2, hr2⟩
  · exact mixed k3 ⟨p, hp1, ht1, hr1⟩
  · obtain ⟨st, γ, f1, f2⟩ := comp hp1 ht1 hr1
    obtain ⟨st', γ', k1, k2⟩ := comp hp2 ht2 hr2
    have hsame := (h.same_items he hS hpr f1 hs k1 hs).mpr (fun _ => Iff.rfl)
    obtain ⟨r1, r2⟩ := hlr.1 γ γ' _ _ _ _ _ _ y hsame f2 k2
    apply hne
    have : p.seq = q.seq := by
      refine Prod.ext ?_ r2
      have k5 := (h.prod hs hp1).1
      rw [r1, r2] at k5
      exact k5.unique (h.prod hs hp2).1
    rw [e1, e2, r1, this]

end

/-- Rightmost derivations are derivations. -/
theorem Spec.RDerives.derives {D : Decls T} {a b : List T} (h : RDerives D a b) : Derives D a b := by
  induction h with
  | refl => exact .refl _
  | tail _ s ih =>
    refine ih.trans ?_
    cases s with
    | mk u v hp _ => exact .head (.mk u v hp) (.refl _)

theorem validItem1_follow {D : Decls T} {S eof : T} {γ : List T} {A : T} {i : Nat} {β₁ β₂ : List T} {x : T}
    (he : Terminal D eof) (h : ValidItem1 D S eof γ A i β₁ β₂ x) :
    ValidItem D S γ A i β₁ β₂ ∧ InFollow D S eof A x ∧ Terminal D x := by
  obtain ⟨h1, α, w, h2, h3, h4, h5⟩ := h
  refine ⟨⟨h1, α, w, h2, h3, h5⟩, ?_, ?_⟩
  · have hd : Derives D [S, eof] (α ++ A :: (w ++ [eof])) := by
      have := Derives.ctx h5.derives [] [eof]
      simpa using this
    cases w with
    | nil => simp at h4; subst h4; exact ⟨α, [], hd⟩
    | cons a w => simp at h4; subst h4; exact ⟨α, w ++ [eof], by simpa using hd⟩
  · have : Terminals D (w ++ [eof]) := terminals_append.mpr ⟨h3, by simpa [Terminals] using he⟩
    exact this x (List.mem_of_head? h4)

/-- SLR(1) grammars are LALR(1). -/
theorem Spec.SLR1.lalr1 {D : Decls T} {S eof : T} (he : Terminal D eof) (h : SLR1 D S eof) :
    LALR1 D S eof := by
  constructor
  · intro γ γ' A i β B j δ x hsame hA hB
    obtain ⟨vA, fA, hx⟩ := validItem1_follow he hA
    obtain ⟨vB, fB, _⟩ := validItem1_follow he hB
    exact h.1 γ A i β B j δ x vA ((hsame _ _ _ _).mpr vB) hx fA fB
  · intro γ γ' A i β B j δ₁ a δ₂ hsame hA hB ha
    obtain ⟨vA, fA, _⟩ := validItem1_follow he hA
    exact h.2 γ A i β B j δ₁ a δ₂ vA ((hsame _ _ _ _).mpr hB) ha fA

/-! ### Renaming -/

section
variable {T' : Type} [LinOrd T'] [DecidableEq T'] {f : T → T'} {D : Decls T}

theorem validItem1_rename (hf : Injective f) {S eof A x : T} {γ β₁ β₂ : List T} {i : Nat}
    (h : ValidItem1 D S eof γ A i β₁ β₂ x) :
    ValidItem1 (renamed f D) (f S) (f eof) (γ.map f) (f A) i (β₁.map f) (β₂.map f) (f x) := by
  obtain ⟨h1, α, w, rfl, h2, h3, h4⟩ := h
  exact ⟨by rw [← List.map_append]; exact isProd_rename hf h1, α.map f, w.map f, by simp,
    (terminals_rename hf).mpr h2, by rw [head_map, h3]; rfl, by simpa using rderives_rename hf h4⟩

theorem validItem1_rename_inv (hf : Injective f) {S eof : T} {A' x' : T'} {γ' β₁' β₂' : List T'} {i : Nat}
    (h : ValidItem1 (renamed f D) (f S) (f eof) γ' A' i β₁' β₂' x') :
    ∃ γ A β₁ β₂ x, γ' = γ.map f ∧ A' = f A ∧ β₁' = β₁.map f ∧ β₂' = β₂.map f ∧ x' = f x ∧
      ValidItem1 D S eof γ A i β₁ β₂ x := by
  obtain ⟨h1, α, w, rfl, h2, h3, h4⟩ := h
  obtain ⟨α, A, w, rfl, rfl, rfl, hA⟩ := rderives_rename_split hf h4
  obtain ⟨A', β, e1, e2, pA⟩ := isProd_rename_inv h1
  obtain rfl := hf _ _ e1
  obtain ⟨β₁, β₂, rfl, rfl, rfl⟩ := map_append_inv e2.symm
  rw [head_map] at h3
  obtain ⟨x, h5, rfl⟩ := Option.map_eq_some_iff.mp h3
  exact ⟨α ++ β₁, A, β₁, β₂, x, by simp, rfl, rfl, rfl, rfl, pA, α, w, rfl, (terminals_rename hf).mp h2,
    h5, hA⟩

theorem validItem_rename_iff (hf : Injective f) {S A : T} {γ β₁ β₂ : List T} {i : Nat} :
    ValidItem (renamed f D) (f S) (γ.map f) (f A) i (β₁.map f) (β₂.map f) ↔
      ValidItem D S γ A i β₁ β₂ := by
  refine ⟨fun h => ?_, validItem_rename hf⟩
  obtain ⟨γ', A', b1, b2, e1, e2, e3, e4, h⟩ := validItem_rename_inv hf h
  rw [map_inj hf e1, hf _ _ e2, map_inj hf e3, map_inj hf e4]
  exact h

theorem sameItems_rename (hf : Injective f) {S : T} {γ γ' : List T} :
    SameItems (renamed f D) (f S) (γ.map f) (γ'.map f) ↔ SameItems D S γ γ' := by
  constructor
  · intro h A i b c
    rw [← validItem_rename_iff hf, h, validItem_rename_iff hf]
  · intro h A i b c
    constructor
    · intro hv
      obtain ⟨γ₀, A, b, c, e, rfl, rfl, rfl, hv⟩ := validItem_rename_inv hf hv
      obtain rfl := map_inj hf e
      exact validItem_rename hf ((h _ _ _ _).mp hv)
    · intro hv
      obtain ⟨γ₀, A, b, c, e, rfl, rfl, rfl, hv⟩ := validItem_rename_inv hf hv
      obtain rfl := map_inj hf e
      exact validItem_rename hf ((h _ _ _ _).mpr hv)

/-- Being LALR(1) does not depend on the names of symbols. -/
theorem lalr1_rename (hf : Injective f) {S eof : T} :
    LALR1 (renamed f D) (f S) (f eof) ↔ LALR1 D S eof := by
  constructor
  · rintro ⟨h1, h2⟩
    constructor
    · intro γ γ' A i β B j δ x hs hA hB
      obtain ⟨r1, r2⟩ := h1 _ _ _ _ _ _ _ _ _ ((sameItems_rename hf).mpr hs) (validItem1_rename hf hA)
        (validItem1_rename hf hB)
      exact ⟨hf _ _ r1, r2⟩
    · intro γ γ' A i β B j δ₁ a δ₂ hs hA hB ha
      exact h2 _ _ _ _ _ _ _ _ _ _ ((sameItems_rename hf).mpr hs) (validItem1_rename hf hA)
        (validItem_rename hf hB) ((terminal_rename hf).mpr ha)
  · rintro ⟨h1, h2⟩
    constructor
    · intro γ γ' A i β B j δ x hs hA hB
      obtain ⟨γ, A, β, e0, x, rfl, rfl, rfl, e1, rfl, gA⟩ := validItem1_rename_inv hf hA
      obtain ⟨γ', B, δ, e0', x', rfl, rfl, rfl, e3, e4, gB⟩ := validItem1_rename_inv hf hB
      obtain rfl := hf _ _ e4
      have e1 : e0 = [] := by simpa using e1.symm
      have e3 : e0' = [] := by simpa using e3.symm
      subst e1; subst e3
      obtain ⟨r1, r2⟩ := h1 γ γ' A i β B j δ x ((sameItems_rename hf).mp hs) gA gB
      exact ⟨by rw [r1], r2⟩
    · intro γ γ' A i β B j δ₁ a δ₂ hs hA hB ha
      obtain ⟨γ, A, β, e0, x, rfl, rfl, rfl, e1, rfl, gA⟩ := validItem1_rename_inv hf hA
      obtain ⟨γ', B, δ, e0', rfl, rfl, rfl, e3, gB⟩ := validItem_rename_inv hf hB
      obtain ⟨a, δ₂, rfl, e4, rfl⟩ := List.map_eq_cons_iff.mp e3.symm
      obtain rfl := hf _ _ e4
      have e1 : e0 = [] := by simpa using e1.symm
      subst e1
      exact h2 γ γ' A i β B j δ _ _ ((sameItems_rename hf).mp hs) gA gB ((terminal_rename hf).mp ha)

end

end Lrp
