import Verif.Spec.Refine
import Verif.Proofs.HostLang
import Verif.Proofs.HostSlr
import Verif.Proofs.Choice

/-! A token of a grammar split into several. -/

set_option linter.unusedSectionVars false

namespace Lrp
open Spec

section
variable {T : Type} [LinOrd T] [DecidableEq T] {D : Decls T} {x S : T} {ys : List T}

namespace Spec.NewTokens

theorem isProd (k : NewTokens D x ys) {A : T} {i : Nat} {b : List T} :
    IsProd (Refined D x ys) A i b ↔ (A = x ∧ ∃ y, ys[i]? = some y ∧ b = [y]) ∨ IsProd D A i b := by
  constructor
  · rintro ⟨bs, ⟨pre, post, e, h⟩, hi⟩
    cases pre with
    | nil =>
      simp only [Refined, List.nil_append, List.cons.injEq, Prod.mk.injEq] at e
      obtain ⟨⟨rfl, rfl⟩, rfl⟩ := e
      rw [List.getElem?_map] at hi
      cases e : ys[i]? with
      | none => simp [e] at hi
      | some y =>
        simp [e] at hi
        exact .inl ⟨rfl, y, rfl, hi.symm⟩
    | cons d pre =>
      simp only [Refined, List.cons_append, List.cons.injEq] at e
      exact .inr ⟨bs, ⟨pre, post, e.2, h⟩, hi⟩
  · rintro (⟨rfl, y, e, rfl⟩ | ⟨bs, ⟨pre, post, e, h⟩, hi⟩)
    · exact ⟨_, ⟨[], D, rfl, k.token⟩, by rw [List.getElem?_map, e]; rfl⟩
    · exact ⟨bs, ⟨(x, ys.map fun y => [y]) :: pre, post, by rw [Refined, e]; rfl, h⟩, hi⟩

theorem terminal {a : T} : Terminal (Refined D x ys) a ↔ a ≠ x ∧ Terminal D a := by
  unfold Terminal Refined
  simp only [List.forall_mem_cons]
  exact and_congr_left fun _ => ⟨Ne.symm, Ne.symm⟩

theorem nonterminal {a : T} : Nonterminal (Refined D x ys) a ↔ a = x ∨ Nonterminal D a := by
  unfold Nonterminal Refined
  simp only [List.mem_cons, exists_eq_or_imp]
  exact or_congr_left ⟨Eq.symm, Eq.symm⟩

theorem noEmpty (k : NewTokens D x ys) : NoEmpty (Refined D x ys) ↔ NoEmpty D := by
  constructor
  · exact fun h X i b hp => h X i b (k.isProd.mpr (.inr hp))
  · intro h X i b hp
    rcases k.isProd.mp hp with ⟨_, y, _, rfl⟩ | hp
    · simp
    · exact h X i b hp

end Spec.NewTokens

theorem coarse_mem {a : T} (h : a ∈ ys) : coarse x ys a = x := by simp [coarse, h]

theorem coarse_not {a : T} (h : a ∉ ys) : coarse x ys a = a := by simp [coarse, h]

theorem coarse_map_not {w : List T} (h : ∀ a ∈ w, a ∉ ys) : w.map (coarse x ys) = w := by
  rw [List.map_congr_left fun a ha => coarse_not (h a ha), List.map_id']

namespace Spec.NewTokens

theorem coarse_terminals (k : NewTokens D x ys) {w : List T} (h : Terminals (Refined D x ys) w) :
    Terminals D (w.map (coarse x ys)) := by
  intro a ha
  obtain ⟨b, hb, rfl⟩ := List.mem_map.mp ha
  by_cases hy : b ∈ ys
  · rw [coarse_mem hy]; exact k.token
  · rw [coarse_not hy]; exact (terminal.mp (h b hb)).2

/-- No new token in a body. -/
theorem body (k : NewTokens D x ys) {A : T} {i : Nat} {b : List T} (hp : IsProd D A i b) : ∀ a ∈ b, a ∉ ys :=
  fun a ha hy => (k.fresh a hy).2 A i b hp ha

/-- A rightmost sentential form of the refined grammar: that of the old one made last, in which the tokens from some
place in the body used last on are made finer. -/
def Form (D : Decls T) (x : T) (ys : List T) (S : T) (φ : List T) : Prop :=
  ∃ γ B i δ z p q v, RDerives D [S] (γ ++ B :: z) ∧ Terminals D z ∧ IsProd D B i δ ∧ φ = p ++ v ∧ p ++ q = γ ++ δ ∧
    Terminals (Refined D x ys) v ∧ v.map (coarse x ys) = q ++ z ∧ ∀ a ∈ p, a ∉ ys

theorem Form.old {φ : List T} (h : Form D x ys S φ) : RDerives D [S] (φ.map (coarse x ys)) := by
  obtain ⟨γ, B, i, δ, z, p, q, v, h1, h2, h3, rfl, h5, h6, h7, h8⟩ := h
  rw [List.map_append, h7, coarse_map_not h8, ← List.append_assoc, h5]
  exact h1.tail (RStep.mk γ z h3 h2)

theorem forms (k : NewTokens D x ys) (hS : Nonterminal D S) {φ : List T} (h : RDerives (Refined D x ys) [S] φ) :
    φ = [S] ∨ Form D x ys S φ := by
  have hSy : S ∉ ys := fun hy => not_terminal_iff.mpr hS (k.fresh S hy).1
  induction h with
  | refl => exact .inl rfl
  | tail _ s ih =>
    obtain @⟨u, w, A, i, b, hp, hw⟩ := s
    have hw' := k.coarse_terminals hw
    rcases ih with ih | ih
    · have hl : u = [] ∧ A = S ∧ w = [] := by
        cases u with
        | nil => simp at ih; exact ⟨rfl, ih⟩
        | cons y u => simp at ih
      obtain ⟨rfl, rfl, rfl⟩ := hl
      rcases k.isProd.mp hp with ⟨rfl, _⟩ | hp
      · exact absurd k.token (not_terminal_iff.mpr hS)
      · refine .inr ⟨[], A, i, b, [], b, [], [], .refl, by simp [Terminals], hp, by simp, by simp, by simp [Terminals], by simp,
          k.body hp⟩
    · have hold := ih.old
      obtain ⟨γ, B, j, δ, z, p, q, v, h1, h2, h3, h4, h5, h6, h7, h8⟩ := ih
      have hA : Nonterminal (Refined D x ys) A := hp.nonterminal
      obtain ⟨v₁, rfl, rfl⟩ := split_at_terminals hA h6 h4.symm
      have hu : ∀ a ∈ u, a ∉ ys := fun a ha => h8 a (by simp [ha])
      have hAy : A ∉ ys := h8 A (by simp)
      rcases k.isProd.mp hp with ⟨rfl, y, hy, rfl⟩ | hp
      · refine .inr ⟨γ, B, j, δ, z, u, A :: v₁ ++ q, y :: (v₁ ++ v), h1, h2, h3, by simp, by rw [← h5]; simp, ?_, ?_, hu⟩
        · intro a ha
          rcases List.mem_cons.mp ha with rfl | ha
          · have hm := List.mem_of_getElem? hy
            exact terminal.mpr ⟨fun e => k.apart (e ▸ hm), (k.fresh a hm).1⟩
          · exact hw a ha
        · have hv₁ : ∀ a ∈ v₁, a ∉ ys := fun a ha => h8 a (by simp [ha])
          rw [List.map_cons, coarse_mem (List.mem_of_getElem? hy), List.map_append, coarse_map_not hv₁, h7]
          simp
      · refine .inr ⟨u, A, i, b, (v₁ ++ v).map (coarse x ys), u ++ b, [], v₁ ++ v, ?_, hw', hp, by simp, by simp, hw, by simp, ?_⟩
        · simpa [coarse_map_not hu, coarse_not hAy] using hold
        · intro a ha
          rcases List.mem_append.mp ha with ha | ha
          · exact hu a ha
          · exact k.body hp a ha

/-- What stands before a nonterminal. -/
theorem before (k : NewTokens D x ys) (hS : Nonterminal D S) {α w : List T} {A : T} (hA : Nonterminal (Refined D x ys) A)
    (h : RDerives (Refined D x ys) [S] (α ++ A :: w)) : (∀ a ∈ α, a ∉ ys) ∧ A ∉ ys := by
  rcases k.forms hS h with e | ⟨γ, B, j, δ, z, p, q, v, h1, h2, h3, h4, h5, h6, h7, h8⟩
  · have hl : α = [] ∧ A = S ∧ w = [] := by
      cases α with
      | nil => simp at e; exact ⟨rfl, e⟩
      | cons y u => simp at e
    obtain ⟨rfl, rfl, rfl⟩ := hl
    exact ⟨by simp, fun hy => not_terminal_iff.mpr hS (k.fresh A hy).1⟩
  · obtain ⟨v₁, rfl, rfl⟩ := split_at_terminals hA h6 h4.symm
    exact ⟨fun a ha => h8 a (by simp [ha]), h8 A (by simp)⟩

/-- If a rule of the old grammar is the last nonterminal. -/
theorem old (k : NewTokens D x ys) (hS : Nonterminal D S) {α w : List T} {A : T} (hA : Nonterminal D A)
    (h : RDerives (Refined D x ys) [S] (α ++ A :: w)) : RDerives D [S] (α ++ A :: w.map (coarse x ys)) := by
  obtain ⟨h1, h2⟩ := k.before hS (nonterminal.mpr (.inr hA)) h
  rcases k.forms hS h with e | hf
  · have hl : α = [] ∧ A = S ∧ w = [] := by
      cases α with
      | nil => simp at e; exact ⟨rfl, e⟩
      | cons y u => simp at e
    obtain ⟨rfl, rfl, rfl⟩ := hl
    exact .refl
  · simpa [coarse_map_not h1, coarse_not h2] using hf.old

/-- If the token is the last nonterminal, it stands in what the last step of the old grammar made or before. -/
theorem last (k : NewTokens D x ys) (hS : Nonterminal D S) {α w : List T}
    (h : RDerives (Refined D x ys) [S] (α ++ x :: w)) :
    ∃ γ B i δ z q, RDerives D [S] (γ ++ B :: z) ∧ Terminals D z ∧ IsProd D B i δ ∧ α ++ x :: q = γ ++ δ ∧
      w.map (coarse x ys) = q ++ z := by
  rcases k.forms hS h with e | ⟨γ, B, j, δ, z, p, q, v, h1, h2, h3, h4, h5, h6, h7, h8⟩
  · have hl : α = [] ∧ x = S ∧ w = [] := by
      cases α with
      | nil => simp at e; exact ⟨rfl, e⟩
      | cons y u => simp at e
    exact absurd k.token (not_terminal_iff.mpr (hl.2.1 ▸ hS))
  · obtain ⟨v₁, rfl, rfl⟩ := split_at_terminals (nonterminal.mpr (.inl rfl)) h6 h4.symm
    refine ⟨γ, B, j, δ, z, v₁ ++ q, h1, h2, h3, by rw [← h5]; simp, ?_⟩
    rw [List.map_append, h7, coarse_map_not fun a ha => h8 a (by simp [ha])]
    simp

theorem split_new {p q s r : List T} {y : T} (hy : y ∈ ys) (hp : ∀ a ∈ p, a ∉ ys) (e : p ++ q = s ++ y :: r) :
    ∃ t, s = p ++ t ∧ q = t ++ y :: r := by
  rcases List.append_eq_append_iff.mp e with ⟨c, h1, h2⟩ | ⟨c, h1, h2⟩
  · exact ⟨c, h1, h2⟩
  · cases c with
    | nil => simp at h1 h2; exact ⟨[], by simp [h1], by simp [h2]⟩
    | cons d c =>
      simp at h2
      exact absurd hy (hp y (by rw [h1, h2.1]; simp))

theorem coarse_head {eof : T} (he : eof ∉ ys) {w y : List T} (hh : (w ++ [eof]).head? = (y ++ [eof]).head?) :
    (w.map (coarse x ys) ++ [eof]).head? = (y.map (coarse x ys) ++ [eof]).head? := by
  have : ∀ l : List T, (l.map (coarse x ys) ++ [eof]).head? = (l ++ [eof]).head?.map (coarse x ys) := by
    intro l
    cases l with
    | nil => simp [coarse_not he]
    | cons a l => simp
  rw [this, this, hh]

theorem lr1 {eof : T} (k : NewTokens D x ys) (hS : Nonterminal D S) (he : eof ∉ ys) (hD : LR1 D S eof) :
    LR1 (Refined D x ys) S eof := by
  intro α β w γ δ z y A B i j h1 hw hp1 h2 hz hp2 e hy hh
  have b1 := k.before hS hp1.nonterminal h1
  have b2 := k.before hS hp2.nonterminal h2
  rcases k.isProd.mp hp1 with ⟨rfl, y₁, e₁, rfl⟩ | hq1 <;> rcases k.isProd.mp hp2 with ⟨rfl, y₂, e₂, rfl⟩ | hq2
  · have m₁ := List.mem_of_getElem? e₁
    have m₂ := List.mem_of_getElem? e₂
    obtain ⟨t, rfl, e'⟩ := split_new (p := γ) (q := y₂ :: z) (s := α) (r := y) m₁ b2.1 (by simpa using e)
    cases t with
    | nil =>
      simp at e'
      obtain ⟨rfl, rfl⟩ := e'
      refine ⟨by simp, rfl, ?_, rfl⟩
      obtain ⟨l1, g1⟩ := List.getElem?_eq_some_iff.mp e₁
      obtain ⟨l2, g2⟩ := List.getElem?_eq_some_iff.mp e₂
      exact (List.getElem_inj k.nodup).mp (g2.trans g1.symm)
    | cons d t =>
      simp at e'
      exact absurd m₂ (e'.1 ▸ b1.1 d (by simp))
  · have m₁ := List.mem_of_getElem? e₁
    have hb : ∀ a ∈ γ ++ δ, a ∉ ys := by
      intro a ha
      rcases List.mem_append.mp ha with ha | ha
      · exact b2.1 a ha
      · exact k.body hq2 a ha
    obtain ⟨t, rfl, e'⟩ := split_new (p := γ ++ δ) (q := z) (s := α) (r := y) m₁ hb (by simpa using e)
    obtain ⟨γ', B', i', δ', z', q, g1, g2, g3, g4, g5⟩ := k.last hS h1
    have ht : ∀ a ∈ t, a ∉ ys := fun a ha => b1.1 a (by simp [ha])
    have hz' := k.coarse_terminals hz
    have hd2 := k.old hS hq2.nonterminal h2
    have hm : z.map (coarse A ys) = t ++ A :: y.map (coarse A ys) := by
      rw [e', List.map_append, coarse_map_not ht, List.map_cons, coarse_mem m₁]
    have htw : Terminals D (t ++ A :: w.map (coarse A ys)) := by
      intro a ha
      rcases List.mem_append.mp ha with ha | ha
      · exact hz' a (by rw [hm]; simp [ha])
      · rcases List.mem_cons.mp ha with rfl | ha
        · exact k.token
        · exact k.coarse_terminals hw a ha
    obtain ⟨r1, r2, r3, r4⟩ := hD γ δ (z.map (coarse A ys)) γ' δ' z' (t ++ A :: w.map (coarse A ys)) B B' j i' hd2 hz' hq2 g1 g2 g3
      (by rw [← g4, g5]; simp) htw (by rw [hm]; cases t <;> simp)
    subst r1 r2 r3
    obtain rfl := g3.unique hq2
    have := congrArg List.length g4
    simp at this <;> omega
  · have m₂ := List.mem_of_getElem? e₂
    have hb : ∀ a ∈ α ++ β, a ∉ ys := by
      intro a ha
      rcases List.mem_append.mp ha with ha | ha
      · exact b1.1 a ha
      · exact k.body hq1 a ha
    obtain ⟨t, rfl, e'⟩ := split_new (p := α ++ β) (q := y) (s := γ) (r := z) m₂ hb (by simpa using e.symm)
    obtain ⟨γ', B', i', δ', z', q, g1, g2, g3, g4, g5⟩ := k.last hS h2
    have ht : ∀ a ∈ t, a ∉ ys := fun a ha => b2.1 a (by simp [ha])
    have hd1 := k.old hS hq1.nonterminal h1
    have hm : y.map (coarse B ys) = t ++ B :: z.map (coarse B ys) := by
      rw [e', List.map_append, coarse_map_not ht, List.map_cons, coarse_mem m₂]
    obtain ⟨r1, r2, r3, r4⟩ := hD α β (w.map (coarse B ys)) γ' δ' z' (y.map (coarse B ys)) A B' i i' hd1
      (k.coarse_terminals hw) hq1 g1 g2 g3 (by rw [← g4, hm, g5]; simp) (k.coarse_terminals hy) (coarse_head he hh)
    subst r1 r2 r3
    obtain rfl := g3.unique hq1
    have := congrArg List.length g4
    simp at this <;> omega
  · have hd1 := k.old hS hq1.nonterminal h1
    have hd2 := k.old hS hq2.nonterminal h2
    have e' := congrArg (List.map (coarse x ys)) e
    simp only [List.map_append, coarse_map_not b1.1, coarse_map_not b2.1, coarse_map_not (k.body hq1),
      coarse_map_not (k.body hq2)] at e'
    obtain ⟨rfl, rfl, rfl, _⟩ := hD α β (w.map (coarse x ys)) γ δ (z.map (coarse x ys)) (y.map (coarse x ys)) A B i j hd1
      (k.coarse_terminals hw) hq1 hd2 (k.coarse_terminals hz) hq2 e' (k.coarse_terminals hy) (coarse_head he hh)
    obtain rfl := hq1.unique hq2
    exact ⟨rfl, rfl, rfl, List.append_cancel_left e⟩

theorem up (k : NewTokens D x ys) {a b : List T} (h : Derives D a b) : Derives (Refined D x ys) a b :=
  fewer_derives (f := fun _ i => i) (fun _ _ _ hp => k.isProd.mpr (.inr hp)) h

theorem finer (k : NewTokens D x ys) : ∀ w : List T, Derives (Refined D x ys) (w.map (coarse x ys)) w
  | [] => .refl _
  | a :: w => by
    have h1 : Derives (Refined D x ys) [coarse x ys a] [a] := by
      by_cases hy : a ∈ ys
      · rw [coarse_mem hy]
        obtain ⟨i, hi⟩ := List.getElem?_of_mem hy
        exact .head (Step.mk [] [] (k.isProd.mpr (.inl ⟨rfl, a, hi, rfl⟩))) (.refl _)
      · rw [coarse_not hy]; exact .refl _
    have h2 := (k.finer w).ctx [coarse x ys a] []
    have h3 := h1.ctx [] w
    simpa using h2.trans (by simpa using h3)

/-- Finer tokens. -/
theorem terminals_of_coarse (k : NewTokens D x ys) {w : List T} (hx : x ∉ w) (h : Terminals D (w.map (coarse x ys))) :
    Terminals (Refined D x ys) w := by
  intro a ha
  refine terminal.mpr ⟨fun e => hx (e ▸ ha), ?_⟩
  by_cases hy : a ∈ ys
  · exact (k.fresh a hy).1
  · have := h _ (List.mem_map.mpr ⟨a, ha, rfl⟩)
    rwa [coarse_not hy] at this

theorem sentence (k : NewTokens D x ys) (hS : Nonterminal D S) {w : List T} :
    Sentence (Refined D x ys) S w ↔ x ∉ w ∧ Sentence D S (w.map (coarse x ys)) := by
  constructor
  · rintro ⟨h, ht⟩
    refine ⟨fun hx => (terminal.mp (ht x hx)).1 rfl, ?_, k.coarse_terminals ht⟩
    rcases k.forms hS (RDerives.of_derives h ht) with rfl | hf
    · exact absurd (terminal.mp (ht S (by simp))).2 (not_terminal_iff.mpr hS)
    · exact hf.old.derives
  · rintro ⟨hx, h, ht⟩
    exact ⟨(k.up h).trans (k.finer w), k.terminals_of_coarse hx ht⟩

theorem inNoBody (k : NewTokens D x ys) (hS : Nonterminal D S) (hb : InNoBody D S) : InNoBody (Refined D x ys) S := by
  intro X i b hp
  rcases k.isProd.mp hp with ⟨_, y, hy, rfl⟩ | hp
  · intro h
    exact not_terminal_iff.mpr hS (List.mem_singleton.mp h ▸ (k.fresh y (List.mem_of_getElem? hy)).1)
  · exact hb X i b hp

theorem singleStart (k : NewTokens D x ys) (hS : Nonterminal D S) : SingleStart (Refined D x ys) S ↔ SingleStart D S := by
  have hx : S ≠ x := by rintro rfl; exact not_terminal_iff.mpr hS k.token
  unfold SingleStart
  constructor
  · exact fun h i b hp => h i b (k.isProd.mpr (.inr hp))
  · exact fun h i b hp => h i b ((k.isProd.mp hp).resolve_left fun h => hx h.1)

theorem allProductive (k : NewTokens D x ys) (hne : ys ≠ []) (h : AllProductive D) : AllProductive (Refined D x ys) := by
  obtain ⟨y, hy⟩ := List.exists_mem_of_ne_nil ys hne
  intro A hA
  rcases nonterminal.mp hA with rfl | hA
  · obtain ⟨i, hi⟩ := List.getElem?_of_mem hy
    refine ⟨[y], .head (Step.mk [] [] (k.isProd.mpr (.inl ⟨rfl, y, hi, rfl⟩))) (.refl _), ?_⟩
    intro a ha
    rw [List.mem_singleton.mp ha]
    exact terminal.mpr ⟨fun e => k.apart (e ▸ hy), (k.fresh y hy).1⟩
  · obtain ⟨w, h1, h2⟩ := h A hA
    have hw : ∀ a ∈ w, a ∉ ys := by
      intro a ha hy'
      rcases derives_from h1 ha with e | ⟨B, i, b, hp, hb⟩
      · exact not_terminal_iff.mpr hA (List.mem_singleton.mp e ▸ (k.fresh a hy').1)
      · exact k.body hp a hb hy'
    have e : (w.map fun a => if a = x then y else a).map (coarse x ys) = w := by
      rw [List.map_map]
      conv => rhs; rw [← List.map_id w]
      refine List.map_congr_left fun a ha => ?_
      simp only [Function.comp, id]
      split
      · next e => rw [coarse_mem hy, e]
      · exact coarse_not (hw a ha)
    refine ⟨w.map fun a => if a = x then y else a, ?_, k.terminals_of_coarse ?_ (by rw [e]; exact h2)⟩
    · have := k.finer (w.map fun a => if a = x then y else a)
      rw [e] at this
      exact (k.up h1).trans this
    · intro hx
      obtain ⟨a, _, e'⟩ := List.mem_map.mp hx
      split at e'
      · exact k.apart (e' ▸ hy)
      · next hn => exact hn e'

theorem foldsLeft (k : NewTokens D x ys) :
    FoldsAway (Loopless (LeftGraph (Refined D x ys))) ↔ FoldsAway (Loopless (LeftGraph D)) := by
  have hx : ∀ {i b}, ¬ IsProd D x i b := fun hp => hp.not_terminal k.token
  have hy : ∀ {B : T}, B ∈ ys → ¬ Nonterminal (Refined D x ys) B := fun {B} hB h =>
    not_terminal_iff.mpr h (terminal.mpr ⟨fun e => k.apart (e ▸ hB), (k.fresh B hB).1⟩)
  rw [← foldsAway_flip, ← foldsAway_flip (E := Loopless (LeftGraph D))]
  refine foldsAway_source (X := x) ?_ ?_ ?_
  · rintro B A ⟨_, hB, i, b, hp⟩ rfl
    rcases k.isProd.mp hp with ⟨_, y, hi, e⟩ | hp
    · simp at e
      exact hy (List.mem_of_getElem? hi) (e.1 ▸ hB)
    · exact hx hp
  · rintro B A ⟨_, hB, _⟩ rfl
    exact not_terminal_iff.mpr hB k.token
  · intro B A hB
    refine and_congr_right fun _ => ?_
    constructor
    · rintro ⟨h1, i, b, hp⟩
      rcases k.isProd.mp hp with ⟨_, y, hi, e⟩ | hp
      · simp at e
        exact absurd (e.1 ▸ h1) (hy (List.mem_of_getElem? hi))
      · exact ⟨(nonterminal.mp h1).resolve_left hB, i, b, hp⟩
    · rintro ⟨h1, i, b, hp⟩
      exact ⟨nonterminal.mpr (.inr h1), i, b, k.isProd.mpr (.inr hp)⟩

theorem foldsRight (k : NewTokens D x ys) :
    FoldsAway (Loopless (RightGraph (Refined D x ys))) ↔ FoldsAway (Loopless (RightGraph D)) := by
  have hx : ∀ {i b}, ¬ IsProd D x i b := fun hp => hp.not_terminal k.token
  have hy : ∀ {B : T}, B ∈ ys → ¬ Nonterminal (Refined D x ys) B := fun {B} hB h =>
    not_terminal_iff.mpr h (terminal.mpr ⟨fun e => k.apart (e ▸ hB), (k.fresh B hB).1⟩)
  have single : ∀ {b : List T} {A y : T}, b ++ [A] = [y] → A = y := by
    intro b A y e
    cases b with
    | nil => simpa using e
    | cons d b => simp at e
  refine foldsAway_source (X := x) ?_ ?_ ?_
  · rintro A B ⟨_, hA, i, b, hp⟩ rfl
    rcases k.isProd.mp hp with ⟨_, y, hi, e⟩ | hp
    · exact hy (List.mem_of_getElem? hi) (single e ▸ hA)
    · exact hx hp
  · rintro A B ⟨_, hA, _⟩ rfl
    exact not_terminal_iff.mpr hA k.token
  · intro A B hA
    refine and_congr_right fun _ => ?_
    constructor
    · rintro ⟨h1, i, b, hp⟩
      rcases k.isProd.mp hp with ⟨_, y, hi, e⟩ | hp
      · exact absurd (single e ▸ h1) (hy (List.mem_of_getElem? hi))
      · exact ⟨(nonterminal.mp h1).resolve_left hA, i, b, hp⟩
    · rintro ⟨h1, i, b, hp⟩
      exact ⟨nonterminal.mpr (.inr h1), i, b, k.isProd.mpr (.inr hp)⟩

/-! ### Trees -/

/-- `c'` is the tree `c` with the nodes of `x` as leaves. -/
def Coarser (D : Decls T) (x : T) (ys : List T) (red : T → Nat → List (Token M T) → Option M) (c c' : Tree M T) : Prop :=
  Tree.Valid D c' ∧ c'.root = c.root ∧ c'.yield = c.yield.map (coarseTok x ys) ∧ c'.eval red = c.eval red

/-- `cs'` are the trees `cs` with the nodes of `x` as leaves. -/
inductive Coarsers (D : Decls T) (x : T) (ys : List T) (red : T → Nat → List (Token M T) → Option M) :
    List (Tree M T) → List (Tree M T) → Prop
  | nil : Coarsers D x ys red [] []
  | cons {c c' cs cs'} : Coarser D x ys red c c' → Coarsers D x ys red cs cs' → Coarsers D x ys red (c :: cs) (c' :: cs')

theorem Coarsers.facts {red : T → Nat → List (Token M T) → Option M} {cs cs' : List (Tree M T)}
    (h : Coarsers D x ys red cs cs') : (∀ c ∈ cs', Tree.Valid D c) ∧ cs'.map Tree.root = cs.map Tree.root ∧
      Tree.yields cs' = (Tree.yields cs).map (coarseTok x ys) ∧ Tree.evals red cs' = Tree.evals red cs ∧
      cs'.map (Tree.eval red) = cs.map (Tree.eval red) := by
  induction h with
  | nil => simp [Tree.yields]
  | cons h _ ih =>
    obtain ⟨h1, h2, h3, h4⟩ := h
    obtain ⟨k1, k2, k3, k4, k5⟩ := ih
    refine ⟨?_, by simp [h2, k2], by simp [Tree.yields, h3, k3], by simp only [Tree.evals, h4, k4, h2], by simp [h4, k5]⟩
    intro c hc
    rcases List.mem_cons.mp hc with rfl | hc
    · exact h1
    · exact k1 c hc

theorem Coarsers.of {red : T → Nat → List (Token M T) → Option M} {cs : List (Tree M T)}
    (h : ∀ c ∈ cs, ∃ c', Coarser D x ys red c c') : ∃ cs', Coarsers D x ys red cs cs' := by
  induction cs with
  | nil => exact ⟨[], .nil⟩
  | cons c cs ih =>
    obtain ⟨c', h1⟩ := h c (by simp)
    obtain ⟨cs', h2⟩ := ih fun c hc => h c (List.mem_cons_of_mem _ hc)
    exact ⟨c' :: cs', .cons h1 h2⟩

theorem coarser (k : NewTokens D x ys) {red : T → Nat → List (Token M T) → Option M}
    (hm : ∀ i y m, ys[i]? = some y → red x i [⟨m, y⟩] = some m) {tr : Tree M T} (h : Tree.Valid (Refined D x ys) tr) :
    tr.root ∉ ys → ∃ tr', Coarser D x ys red tr tr' := by
  induction h with
  | @leaf tok ht =>
    intro hr
    refine ⟨.leaf tok, .leaf (terminal.mp ht).2, rfl, ?_, rfl⟩
    have hr : tok.ty ∉ ys := hr
    have e : coarseTok x ys tok = tok := by
      unfold coarseTok
      rw [coarse_not hr]
    simp [Tree.yield, e]
  | @node A i cs hp hc ih =>
    intro _
    rcases k.isProd.mp hp with ⟨rfl, y, hi, e⟩ | hp
    · obtain ⟨c, rfl, hr⟩ := List.map_eq_singleton_iff.mp e
      have hy := List.mem_of_getElem? hi
      cases hc c (by simp) with
      | @leaf tok ht =>
        simp only [Tree.root] at hr
        refine ⟨.leaf ⟨tok.item, A⟩, .leaf k.token, rfl, ?_, ?_⟩
        · simp [Tree.yield, Tree.yields, coarseTok, coarse_mem (hr ▸ hy)]
        · have := hm i y tok.item hi
          simp [Tree.eval, Tree.evals, Tree.root, hr, this]
      | @node B j ds hq _ =>
        simp only [Tree.root] at hr
        subst hr
        exact absurd (terminal.mpr ⟨by rintro rfl; exact k.apart hy, (k.fresh B hy).1⟩) hq.not_terminal
    · obtain ⟨cs', h⟩ := Coarsers.of fun c hm =>
        ih c hm (k.body hp _ (List.mem_map.mpr ⟨c, hm, rfl⟩))
      obtain ⟨k1, k2, k3, k4, _⟩ := h.facts
      exact ⟨.node A i cs', .node (by rw [k2]; exact hp) k1, rfl, by simp [Tree.yield, k3], by simp only [Tree.eval, k4]⟩

/-- The children of the root. -/
theorem coarser_root (k : NewTokens D x ys) (hS : Nonterminal D S) {red : T → Nat → List (Token M T) → Option M}
    (hm : ∀ i y m, ys[i]? = some y → red x i [⟨m, y⟩] = some m) {cs : List (Tree M T)}
    (h : Tree.Valid (Refined D x ys) (.node S 0 cs)) :
    ∃ cs', Tree.Valid D (.node S 0 cs') ∧ Coarsers D x ys red cs cs' := by
  cases h with
  | node hp hc =>
    have hp := (k.isProd.mp hp).resolve_left fun h => not_terminal_iff.mpr hS (h.1 ▸ k.token)
    obtain ⟨cs', h⟩ := Coarsers.of fun c hm' =>
      k.coarser hm (hc c hm') (k.body hp _ (List.mem_map.mpr ⟨c, hm', rfl⟩))
    obtain ⟨k1, k2, _⟩ := h.facts
    exact ⟨cs', .node (by rw [k2]; exact hp) k1, h⟩

/-! ### SLR(1) -/

/-- Each symbol before a nonterminal stands after the point of an item. -/
theorem item_at {γ c z : List T} {a B : T} (hB : Nonterminal D B) (h : RDerives D [S] (γ ++ a :: (c ++ B :: z))) :
    ∃ A i δ₁ δ₂, ValidItem D S γ A i δ₁ (a :: δ₂) := by
  generalize e : γ ++ a :: (c ++ B :: z) = φ at h
  induction h generalizing γ c z B with
  | refl =>
    have := congrArg List.length e
    simp at this
    omega
  | tail h s ih =>
    obtain @⟨u, w, A, i, b, hp, hw⟩ := s
    obtain ⟨v₁, e', _⟩ := split_at_terminals hB hw (show (u ++ b) ++ w = (γ ++ a :: c) ++ B :: z by simp [e])
    rcases List.append_eq_append_iff.mp (show u ++ b = γ ++ a :: (c ++ B :: v₁) by rw [e']; simp) with
      ⟨d, k1, k2⟩ | ⟨d, k1, k2⟩
    · exact ⟨A, i, d, c ++ B :: v₁, k2 ▸ hp, u, w, k1, hw, h⟩
    · cases d with
      | nil =>
        simp at k1 k2
        exact ⟨A, i, [], c ++ B :: v₁, by simpa [← k2] using hp, u, w, by simp [k1], hw, h⟩
      | cons d d' =>
        simp at k2
        obtain ⟨rfl, k2⟩ := k2
        exact ih (c := d') (z := w) hp.nonterminal (by rw [k1]; simp)

theorem coarse_nonterminal (k : NewTokens D x ys) {A : T} (hA : Nonterminal (Refined D x ys) A) : A ∉ ys := by
  intro hy
  exact not_terminal_iff.mpr hA (terminal.mpr ⟨fun e => k.apart (e ▸ hy), (k.fresh A hy).1⟩)

theorem coarse_derives (k : NewTokens D x ys) {a b : List T} (h : Derives (Refined D x ys) a b) :
    Derives D (a.map (coarse x ys)) (b.map (coarse x ys)) := by
  induction h with
  | refl => exact .refl _
  | head s _ ih =>
    obtain @⟨u, v, A, i, b, hp⟩ := s
    have hA := k.coarse_nonterminal hp.nonterminal
    rcases k.isProd.mp hp with ⟨rfl, y, hy, rfl⟩ | hp
    · simpa [coarse_not hA, coarse_mem (List.mem_of_getElem? hy)] using ih
    · refine .head (b := (u ++ b ++ v).map (coarse x ys)) ?_ ih
      simp only [List.map_append, List.map_cons, coarse_not hA, coarse_map_not (k.body hp)]
      simpa using Step.mk (u.map (coarse x ys)) (v.map (coarse x ys)) hp

theorem follow (k : NewTokens D x ys) (hS : Nonterminal D S) {eof : T} (he : eof ∉ ys) {A a : T}
    (hA : Nonterminal (Refined D x ys) A) (h : InFollow (Refined D x ys) S eof A a) :
    InFollow D S eof A (coarse x ys a) := by
  obtain ⟨u, v, h⟩ := h
  have := k.coarse_derives h
  refine ⟨u.map (coarse x ys), v.map (coarse x ys), ?_⟩
  simpa [coarse_not he, coarse_not (k.coarse_nonterminal hA),
    coarse_not (k.coarse_nonterminal (nonterminal.mpr (.inr hS)))] using this

/-- The items of the refined grammar. -/
theorem item (k : NewTokens D x ys) (hS : Nonterminal D S) {γ β₁ β₂ : List T} {A : T} {i : Nat}
    (h : ValidItem (Refined D x ys) S γ A i β₁ β₂) :
    (ValidItem D S γ A i β₁ β₂ ∧ ∀ a ∈ γ, a ∉ ys) ∨
    (A = x ∧ ∃ y, ys[i]? = some y ∧ ((β₁ = [y] ∧ β₂ = [] ∧ ∃ α, γ = α ++ [y]) ∨
      (β₁ = [] ∧ β₂ = [y] ∧ (∀ a ∈ γ, a ∉ ys) ∧ ∃ B j δ₁ δ₂, ValidItem D S γ B j δ₁ (x :: δ₂)))) := by
  obtain ⟨hp, α, w, rfl, hw, hd⟩ := h
  have hb := k.before hS hp.nonterminal hd
  rcases k.isProd.mp hp with ⟨rfl, y, hy, e⟩ | hq
  · refine .inr ⟨rfl, y, hy, ?_⟩
    cases β₁ with
    | nil =>
      refine .inr ⟨rfl, by simpa using e, by simpa using hb.1, ?_⟩
      obtain ⟨γ', B, j, δ, z, q, g1, g2, g3, g4, _⟩ := k.last hS hd
      rw [List.append_nil]
      rcases List.append_eq_append_iff.mp g4.symm with ⟨d, k1, k2⟩ | ⟨d, k1, k2⟩
      · exact ⟨B, j, d, q, k2 ▸ g3, γ', z, k1, g2, g1⟩
      · cases d with
        | nil =>
          simp at k1 k2
          exact ⟨B, j, [], q, by simpa [← k2] using g3, γ', z, by simp [k1], g2, g1⟩
        | cons d d' =>
          simp at k2
          obtain ⟨rfl, _⟩ := k2
          exact item_at (c := d') (z := z) g3.nonterminal (by simpa [k1] using g1)
    | cons d β₁ =>
      simp at e
      obtain ⟨rfl, rfl, rfl⟩ := e
      exact .inl ⟨rfl, rfl, α, rfl⟩
  · refine .inl ⟨⟨hq, α, _, rfl, k.coarse_terminals hw, k.old hS hq.nonterminal hd⟩, ?_⟩
    intro a ha
    rcases List.mem_append.mp ha with ha | ha
    · exact hb.1 a ha
    · exact k.body hq a (by simp [ha])

theorem slr1 (k : NewTokens D x ys) (hS : Nonterminal D S) {eof : T} (he : eof ∉ ys) (hD : SLR1 D S eof) :
    SLR1 (Refined D x ys) S eof := by
  constructor
  · intro γ A i β B j δ a h1 h2 ha f1 f2
    have g1 := k.follow hS he h1.1.nonterminal f1
    have g2 := k.follow hS he h2.1.nonterminal f2
    have ha' := k.coarse_terminals (w := [a]) (by simpa [Terminals] using ha) (coarse x ys a) (by simp)
    rcases k.item hS h1 with ⟨i1, c1⟩ | ⟨rfl, y, y1, ⟨rfl, _, α, rfl⟩ | ⟨_, h, _⟩⟩
    · rcases k.item hS h2 with ⟨i2, c2⟩ | ⟨rfl, z, z1, ⟨rfl, _, α, rfl⟩ | ⟨_, h, _⟩⟩
      · exact hD.1 γ A i β B j δ _ i1 i2 ha' g1 g2
      · exact absurd (List.mem_of_getElem? z1) (c1 z (by simp))
      · simp at h
    · rcases k.item hS h2 with ⟨i2, c2⟩ | ⟨rfl, z, z1, ⟨rfl, _, α', e⟩ | ⟨_, h, _⟩⟩
      · exact absurd (List.mem_of_getElem? y1) (c2 y (by simp))
      · have := (List.append_inj' e rfl).2
        simp at this
        subst this
        refine ⟨rfl, ?_⟩
        obtain ⟨l1, g1⟩ := List.getElem?_eq_some_iff.mp y1
        obtain ⟨l2, g2⟩ := List.getElem?_eq_some_iff.mp z1
        exact (List.getElem_inj k.nodup).mp (g1.trans g2.symm)
      · simp at h
    · simp at h
  · intro γ A i β B j δ₁ a δ₂ h1 h2 ha f1
    have g1 := k.follow hS he h1.1.nonterminal f1
    rcases k.item hS h1 with ⟨i1, c1⟩ | ⟨rfl, y, y1, ⟨rfl, _, α, rfl⟩ | ⟨_, h, _⟩⟩
    · rcases k.item hS h2 with ⟨i2, c2⟩ | ⟨rfl, z, z1, ⟨_, h, _⟩ | ⟨rfl, e, _, B', j', ε₁, ε₂, i2⟩⟩
      · rw [coarse_not (k.body i2.1 a (by simp))] at g1
        exact hD.2 γ A i β B j δ₁ a δ₂ i1 i2 (terminal.mp ha).2 g1
      · simp at h
      · simp at e
        rw [e.1, coarse_mem (List.mem_of_getElem? z1)] at g1
        exact hD.2 γ A i β B' j' ε₁ B ε₂ i1 i2 k.token g1
    · rcases k.item hS h2 with ⟨i2, c2⟩ | ⟨rfl, z, z1, ⟨_, h, _⟩ | ⟨_, _, c2, _⟩⟩
      · exact absurd (List.mem_of_getElem? y1) (c2 y (by simp))
      · simp at h
      · exact absurd (List.mem_of_getElem? y1) (c2 y (by simp))
    · simp at h

/-! ### LALR(1) -/

theorem refine_last (k : NewTokens D x ys) {y : T} (hy : y ∈ ys) {w : List T} (hw : Terminals (Refined D x ys) w)
    {a : List T} : ∀ (v p : List T), Terminals D v → RDerives (Refined D x ys) a (p ++ v ++ w) →
      Terminals (Refined D x ys) (v.map fun c => if c = x then y else c) ∧
        RDerives (Refined D x ys) a (p ++ (v.map fun c => if c = x then y else c) ++ w)
  | [], p, _, h => ⟨by simp [Terminals], by simpa using h⟩
  | c :: v, p, hv, h => by
    obtain ⟨h1, h2⟩ := k.refine_last hy hw v (p ++ [c]) (fun d hd => hv d (by simp [hd])) (by simpa using h)
    have hyt : Terminal (Refined D x ys) y := terminal.mpr ⟨fun e => k.apart (e ▸ hy), (k.fresh y hy).1⟩
    by_cases hc : c = x
    · subst hc
      obtain ⟨i, hi⟩ := List.getElem?_of_mem hy
      refine ⟨?_, ?_⟩
      · intro d hd
        rw [List.map_cons, if_pos rfl] at hd
        rcases List.mem_cons.mp hd with rfl | hd
        · exact hyt
        · exact h1 d hd
      · have := h2.tail (b := p ++ [c] ++ _ ++ w) (c := p ++ [y] ++ ((v.map fun d => if d = c then y else d) ++ w)) (by
          have s := RStep.mk p ((v.map fun d => if d = c then y else d) ++ w) (k.isProd.mpr (.inl ⟨rfl, y, hi, rfl⟩))
            (terminals_append.mpr ⟨h1, hw⟩)
          simpa using s)
        simpa using this
    · refine ⟨?_, by simpa [hc] using h2⟩
      intro d hd
      rw [List.map_cons, if_neg hc] at hd
      rcases List.mem_cons.mp hd with rfl | hd
      · exact terminal.mpr ⟨hc, hv d (by simp)⟩
      · exact h1 d hd

theorem refined (k : NewTokens D x ys) {y : T} (hy : y ∈ ys) {p q : List T} {A : T} (hA : Nonterminal D A)
    (hq : Terminals D q) (h : RDerives D [S] (p ++ A :: q)) :
    Terminals (Refined D x ys) (q.map fun c => if c = x then y else c) ∧
      RDerives (Refined D x ys) [S] (p ++ A :: q.map fun c => if c = x then y else c) := by
  generalize e : p ++ A :: q = φ at h
  induction h generalizing p q A with
  | refl =>
    have hl : p = [] ∧ A = S ∧ q = [] := by
      cases p with
      | nil => simp at e; exact ⟨rfl, e⟩
      | cons y u => simp at e
    obtain ⟨rfl, rfl, rfl⟩ := hl
    exact ⟨by simp [Terminals], .refl⟩
  | tail h s ih =>
    obtain @⟨u, w, B, i, b, hp, hw⟩ := s
    obtain ⟨v₁, e', rfl⟩ := split_at_terminals hA hw (show (u ++ b) ++ w = p ++ A :: q by simp [e])
    obtain ⟨h1, h2⟩ := ih hp.nonterminal hw rfl
    have h3 := h2.tail (RStep.mk u _ (k.isProd.mpr (.inr hp)) h1)
    rw [e'] at h3
    obtain ⟨h4, h5⟩ := k.refine_last hy h1 v₁ (p ++ [A]) (fun d hd => hq d (by simp [hd])) (by simpa using h3)
    rw [List.map_append]
    exact ⟨terminals_append.mpr ⟨h4, h1⟩, by simpa using h5⟩

theorem sameItems (k : NewTokens D x ys) (hS : Nonterminal D S) (hne : ys ≠ []) {γ γ' : List T}
    (h : SameItems (Refined D x ys) S γ γ') : SameItems D S γ γ' := by
  obtain ⟨y, hy⟩ := List.exists_mem_of_ne_nil ys hne
  have up : ∀ {γ A i β₁ β₂}, ValidItem D S γ A i β₁ β₂ → ValidItem (Refined D x ys) S γ A i β₁ β₂ := by
    rintro γ A i β₁ β₂ ⟨hp, α, w, rfl, hw, hd⟩
    obtain ⟨h1, h2⟩ := k.refined hy hp.nonterminal hw hd
    exact ⟨k.isProd.mpr (.inr hp), α, _, rfl, h1, h2⟩
  have down : ∀ {γ A i β₁ β₂}, IsProd D A i (β₁ ++ β₂) → ValidItem (Refined D x ys) S γ A i β₁ β₂ →
      ValidItem D S γ A i β₁ β₂ := by
    intro γ A i β₁ β₂ hp hv
    rcases k.item hS hv with ⟨h, _⟩ | ⟨rfl, _⟩
    · exact h
    · exact absurd k.token hp.not_terminal
  intro A i β₁ β₂
  exact ⟨fun hv => down hv.1 ((h A i β₁ β₂).mp (up hv)), fun hv => down hv.1 ((h A i β₁ β₂).mpr (up hv))⟩

theorem item1 (k : NewTokens D x ys) (hS : Nonterminal D S) {eof : T} (he : eof ∉ ys) {γ β₁ β₂ : List T} {A a : T}
    {i : Nat} (hp : IsProd D A i (β₁ ++ β₂)) (h : ValidItem1 (Refined D x ys) S eof γ A i β₁ β₂ a) :
    ValidItem1 D S eof γ A i β₁ β₂ (coarse x ys a) := by
  obtain ⟨_, α, w, rfl, hw, hh, hd⟩ := h
  refine ⟨hp, α, _, rfl, k.coarse_terminals hw, ?_, k.old hS hp.nonterminal hd⟩
  cases w with
  | nil =>
    simp at hh
    subst hh
    simp [coarse_not he]
  | cons c w => simp at hh; simp [hh]

theorem lalr1 (k : NewTokens D x ys) (hS : Nonterminal D S) (hne : ys ≠ []) {eof : T} (he : eof ∉ ys)
    (hD : LALR1 D S eof) : LALR1 (Refined D x ys) S eof := by
  constructor
  · intro γ γ' A i β B j δ a hs h1 h2
    rcases k.item hS h1.item with ⟨i1, c1⟩ | ⟨rfl, y, y1, ⟨rfl, _, α, rfl⟩ | ⟨_, h, _⟩⟩
    · rcases k.item hS h2.item with ⟨i2, c2⟩ | ⟨rfl, z, z1, ⟨rfl, _, α, rfl⟩ | ⟨_, h, _⟩⟩
      · exact hD.1 γ γ' A i β B j δ _ (k.sameItems hS hne hs) (k.item1 hS he i1.1 h1) (k.item1 hS he i2.1 h2)
      · rcases k.item hS ((hs _ _ _ _).mp h1.item) with ⟨_, c⟩ | ⟨rfl, _⟩
        · exact absurd (List.mem_of_getElem? z1) (c z (by simp))
        · exact absurd k.token i1.1.not_terminal
      · simp at h
    · rcases k.item hS h2.item with ⟨i2, c2⟩ | ⟨rfl, z, z1, ⟨rfl, _, α', rfl⟩ | ⟨_, h, _⟩⟩
      · rcases k.item hS ((hs _ _ _ _).mpr h2.item) with ⟨_, c⟩ | ⟨rfl, _⟩
        · exact absurd (List.mem_of_getElem? y1) (c y (by simp))
        · exact absurd k.token i2.1.not_terminal
      · rcases k.item hS ((hs _ _ _ _).mp h1.item) with ⟨_, c⟩ | ⟨_, y', y2, ⟨e1, _, α'', e⟩ | ⟨_, h, _⟩⟩
        · exact absurd (List.mem_of_getElem? z1) (c z (by simp))
        · simp at e1
          subst e1
          have := (List.append_inj' e rfl).2
          simp at this
          subst this
          refine ⟨rfl, ?_⟩
          obtain ⟨l1, g1⟩ := List.getElem?_eq_some_iff.mp y1
          obtain ⟨l2, g2⟩ := List.getElem?_eq_some_iff.mp z1
          exact (List.getElem_inj k.nodup).mp (g1.trans g2.symm)
        · simp at h
      · simp at h
    · simp at h
  · intro γ γ' A i β B j δ₁ a δ₂ hs h1 h2 ha
    rcases k.item hS h1.item with ⟨i1, c1⟩ | ⟨rfl, y, y1, ⟨rfl, _, α, rfl⟩ | ⟨_, h, _⟩⟩
    · have g1 := k.item1 hS he i1.1 h1
      rcases k.item hS h2 with ⟨i2, c2⟩ | ⟨rfl, z, z1, ⟨_, h, _⟩ | ⟨rfl, e, _, B', j', ε₁, ε₂, i2⟩⟩
      · rw [coarse_not (k.body i2.1 a (by simp))] at g1
        exact hD.2 γ γ' A i β B j δ₁ a δ₂ (k.sameItems hS hne hs) g1 i2 (terminal.mp ha).2
      · simp at h
      · simp at e
        rw [e.1, coarse_mem (List.mem_of_getElem? z1)] at g1
        exact hD.2 γ γ' A i β B' j' ε₁ B ε₂ (k.sameItems hS hne hs) g1 i2 k.token
    · rcases k.item hS ((hs _ _ _ _).mpr h2) with ⟨i2, c2⟩ | ⟨rfl, z, z1, ⟨_, h, _⟩ | ⟨_, _, c2, _⟩⟩
      · exact absurd (List.mem_of_getElem? y1) (c2 y (by simp))
      · simp at h
      · exact absurd (List.mem_of_getElem? y1) (c2 y (by simp))
    · simp at h

end Spec.NewTokens
end
end Lrp
