import Verif.Proofs.WopProgram

/-! The values of the aliases of a production. -/

set_option linter.unusedSectionVars false

namespace Lrp.Wop
open Spec

/-! ### Expansions -/

mutual

theorem item_induct {P : Item → Prop} {Q : List Item → Prop}
    (hsym : ∀ sp o al c, P (.sym sp o al c))
    (hgroup : ∀ alts o al c, (∀ A ∈ alts, Q A) → P (.group alts o al c))
    (hnil : Q []) (hcons : ∀ i is, P i → Q is → Q (i :: is)) : ∀ i, P i
  | .sym sp o al c => hsym sp o al c
  | .group alts o al c => hgroup alts o al c (alts_induct hsym hgroup hnil hcons alts)

theorem items_induct {P : Item → Prop} {Q : List Item → Prop}
    (hsym : ∀ sp o al c, P (.sym sp o al c))
    (hgroup : ∀ alts o al c, (∀ A ∈ alts, Q A) → P (.group alts o al c))
    (hnil : Q []) (hcons : ∀ i is, P i → Q is → Q (i :: is)) : ∀ is, Q is
  | [] => hnil
  | i :: is => hcons i is (item_induct hsym hgroup hnil hcons i)
      (items_induct hsym hgroup hnil hcons is)

theorem alts_induct {P : Item → Prop} {Q : List Item → Prop}
    (hsym : ∀ sp o al c, P (.sym sp o al c))
    (hgroup : ∀ alts o al c, (∀ A ∈ alts, Q A) → P (.group alts o al c))
    (hnil : Q []) (hcons : ∀ i is, P i → Q is → Q (i :: is)) : ∀ alts : List (List Item), ∀ A ∈ alts, Q A
  | [] => by intro A h; cases h
  | a :: as => List.forall_mem_cons.mpr ⟨items_induct hsym hgroup hnil hcons a,
      alts_induct hsym hgroup hnil hcons as⟩

end

/-- The expansion of a group by the expansion `e` of its alternative `A`. -/
def grouped (al : Option Span) (c : Bool) (A : List Item) (e : Expansion) : Expansion :=
  { word := e.word
    places := al.toList.map (fun n => (n, ⟨0, e.word.length, some A.length, c⟩)) ++ e.places
    entered := al.toList ++ names A }

theorem mem_expandAlts {al : Option Span} {c : Bool} {x : Expansion} : ∀ {alts : List (List Item)},
    x ∈ expandAlts al c alts ↔ ∃ A ∈ alts, ∃ e ∈ expand A, x = grouped al c A e
  | [] => by simp [expandAlts]
  | A :: as => by
    rw [expandAlts, List.mem_append, mem_expandAlts (alts := as)]
    constructor
    · rintro (h | ⟨B, hB, e, he, rfl⟩)
      · obtain ⟨e, he, rfl⟩ := List.mem_map.mp h
        exact ⟨A, List.mem_cons_self .., e, he, rfl⟩
      · exact ⟨B, List.mem_cons_of_mem _ hB, e, he, rfl⟩
    · rintro ⟨B, hB, e, he, rfl⟩
      rcases List.mem_cons.mp hB with rfl | hB
      · exact .inl (List.mem_map.mpr ⟨e, he, rfl⟩)
      · exact .inr ⟨B, hB, e, he, rfl⟩

theorem mem_expand_group {al : Option Span} {o c : Bool} {x : Expansion} {alts : List (List Item)} :
    x ∈ (Item.group alts o al c).expand ↔
      (∃ A ∈ alts, ∃ e ∈ expand A, x = grouped al c A e) ∨ (o = true ∧ x = Expansion.empty) := by
  rw [Item.expand, List.mem_append, mem_expandAlts]
  cases o <;> simp

theorem mem_expand_sym {sp : Span} {al : Option Span} {o c : Bool} {x : Expansion} :
    x ∈ (Item.sym sp o al c).expand ↔
      x = ⟨[sp], al.toList.map (fun a => (a, ⟨0, 1, none, c⟩)), al.toList⟩ ∨
        (o = true ∧ x = Expansion.empty) := by
  rw [Item.expand, List.mem_cons]
  cases o <;> simp

theorem mem_expand_cons {i : Item} {is : List Item} {x : Expansion} :
    x ∈ expand (i :: is) ↔ ∃ e ∈ i.expand, ∃ r ∈ expand is, x = e.append r := by
  rw [expand, List.mem_flatMap]
  constructor
  · rintro ⟨e, he, h⟩
    obtain ⟨r, hr, rfl⟩ := List.mem_map.mp h
    exact ⟨e, he, r, hr, rfl⟩
  · rintro ⟨e, he, r, hr, rfl⟩
    exact ⟨e, he, List.mem_map.mpr ⟨r, hr, rfl⟩⟩

theorem mem_expand_nil {x : Expansion} : x ∈ expand [] ↔ x = Expansion.empty := by
  rw [expand, List.mem_singleton]

theorem mem_append_places {e r : Expansion} {a : Span} {pl : Place} :
    (a, pl) ∈ (e.append r).places ↔ (a, pl) ∈ e.places ∨
      ∃ pl', (a, pl') ∈ r.places ∧
        pl = { pl' with start := pl'.start + e.word.length, stop := pl'.stop + e.word.length } := by
  simp only [Expansion.append, List.mem_append, List.mem_map, Expansion.shift, Prod.mk.injEq]
  constructor
  · rintro (h | ⟨⟨b, pl'⟩, h, rfl, rfl⟩)
    · exact .inl h
    · exact .inr ⟨pl', h, rfl⟩
  · rintro (h | ⟨pl', h, rfl⟩)
    · exact .inl h
    · exact .inr ⟨(a, pl'), h, rfl, rfl⟩

theorem places_names : ∀ (is : List Item) (x : Expansion), x ∈ expand is →
    ∀ a pl, (a, pl) ∈ x.places → a ∈ names is := by
  refine items_induct (P := fun i => ∀ x ∈ i.expand, ∀ a pl, (a, pl) ∈ x.places → a ∈ i.names)
    ?_ ?_ ?_ ?_
  · intro sp o al c x hx a pl h
    rcases mem_expand_sym.mp hx with rfl | ⟨_, rfl⟩
    · obtain ⟨b, hb, e⟩ := List.mem_map.mp h
      cases e
      exact hb
    · cases h
  · intro alts o al c ih x hx a pl h
    rw [Item.names]
    rcases mem_expand_group.mp hx with ⟨A, hA, e, he, rfl⟩ | ⟨_, rfl⟩
    · rcases List.mem_append.mp h with h | h
      · obtain ⟨b, hb, e⟩ := List.mem_map.mp h
        cases e
        exact List.mem_append_left _ hb
      · exact List.mem_append_right _ (mem_altNames.mpr ⟨A, hA, ih A hA e he a pl h⟩)
    · cases h
  · intro x hx a pl h
    rw [mem_expand_nil.mp hx] at h
    cases h
  · intro i is hi his x hx a pl h
    obtain ⟨e, he, r, hr, rfl⟩ := mem_expand_cons.mp hx
    rw [names]
    rcases mem_append_places.mp h with h | ⟨pl', h, _⟩
    · exact List.mem_append_left _ (hi e he a pl h)
    · exact List.mem_append_right _ (his r hr a pl' h)

theorem places_entered : ∀ (is : List Item) (x : Expansion), x ∈ expand is →
    ∀ a pl, (a, pl) ∈ x.places → a ∈ x.entered := by
  refine items_induct (P := fun i => ∀ x ∈ i.expand, ∀ a pl, (a, pl) ∈ x.places → a ∈ x.entered)
    ?_ ?_ ?_ ?_
  · intro sp o al c x hx a pl h
    rcases mem_expand_sym.mp hx with rfl | ⟨_, rfl⟩
    · obtain ⟨b, hb, e⟩ := List.mem_map.mp h
      cases e
      exact hb
    · cases h
  · intro alts o al c ih x hx a pl h
    rcases mem_expand_group.mp hx with ⟨A, hA, e, he, rfl⟩ | ⟨_, rfl⟩
    · rcases List.mem_append.mp h with h | h
      · obtain ⟨b, hb, e⟩ := List.mem_map.mp h
        cases e
        exact List.mem_append_left _ hb
      · exact List.mem_append_right _ (places_names A e he a pl h)
    · cases h
  · intro x hx a pl h
    rw [mem_expand_nil.mp hx] at h
    cases h
  · intro i is hi his x hx a pl h
    obtain ⟨e, he, r, hr, rfl⟩ := mem_expand_cons.mp hx
    rcases mem_append_places.mp h with h | ⟨pl', h, _⟩
    · exact List.mem_append_left _ (hi e he a pl h)
    · exact List.mem_append_right _ (his r hr a pl' h)

theorem places_bounds : ∀ (is : List Item) (x : Expansion), x ∈ expand is →
    ∀ a pl, (a, pl) ∈ x.places → pl.start ≤ pl.stop ∧ pl.stop ≤ x.word.length ∧
      (pl.items = none → pl.stop = pl.start + 1) := by
  refine items_induct (P := fun i => ∀ x ∈ i.expand, ∀ a pl, (a, pl) ∈ x.places →
      pl.start ≤ pl.stop ∧ pl.stop ≤ x.word.length ∧ (pl.items = none → pl.stop = pl.start + 1))
    ?_ ?_ ?_ ?_
  · intro sp o al c x hx a pl h
    rcases mem_expand_sym.mp hx with rfl | ⟨_, rfl⟩
    · obtain ⟨b, hb, e⟩ := List.mem_map.mp h
      cases e
      exact ⟨by simp, by simp, fun _ => rfl⟩
    · cases h
  · intro alts o al c ih x hx a pl h
    rcases mem_expand_group.mp hx with ⟨A, hA, e, he, rfl⟩ | ⟨_, rfl⟩
    · rcases List.mem_append.mp h with h | h
      · obtain ⟨b, hb, e⟩ := List.mem_map.mp h
        cases e
        exact ⟨by simp, by simp [grouped], fun h => by cases h⟩
      · exact ih A hA e he a pl h
    · cases h
  · intro x hx a pl h
    rw [mem_expand_nil.mp hx] at h
    cases h
  · intro i is hi his x hx a pl h
    obtain ⟨e, he, r, hr, rfl⟩ := mem_expand_cons.mp hx
    have hl : (e.append r).word.length = e.word.length + r.word.length := by simp [Expansion.append]
    rcases mem_append_places.mp h with h | ⟨pl', h', rfl⟩
    · obtain ⟨h1, h2, h3⟩ := hi e he a pl h
      exact ⟨h1, by omega, h3⟩
    · obtain ⟨h1, h2, h3⟩ := his r hr a pl' h'
      refine ⟨?_, ?_, fun h => ?_⟩
      · simp only; omega
      · simp only; omega
      · have := h3 h
        simp only; omega

theorem mem_altMarked {p : Span × Span} : ∀ {alts : List (List Item)},
    p ∈ altMarked alts ↔ ∃ A ∈ alts, p ∈ marked A
  | [] => by simp [altMarked]
  | A :: as => by
    rw [altMarked, List.mem_append, mem_altMarked (alts := as)]
    simp

theorem mem_altGroups {p : Span × List (List Item)} : ∀ {alts : List (List Item)},
    p ∈ altGroups alts ↔ ∃ A ∈ alts, p ∈ groups A
  | [] => by simp [altGroups]
  | A :: as => by
    rw [altGroups, List.mem_append, mem_altGroups (alts := as)]
    simp

/-- The place of a plain item holds its symbol. -/
theorem places_marked : ∀ (is : List Item) (x : Expansion), x ∈ expand is →
    ∀ a pl, (a, pl) ∈ x.places → pl.items = none →
      ∃ sp, (a, sp) ∈ marked is ∧ x.word[pl.start]? = some sp := by
  refine items_induct (P := fun i => ∀ x ∈ i.expand, ∀ a pl, (a, pl) ∈ x.places → pl.items = none →
      ∃ sp, (a, sp) ∈ i.marked ∧ x.word[pl.start]? = some sp)
    ?_ ?_ ?_ ?_
  · intro sp o al c x hx a pl h hn
    rcases mem_expand_sym.mp hx with rfl | ⟨_, rfl⟩
    · obtain ⟨b, hb, e⟩ := List.mem_map.mp h
      cases e
      exact ⟨sp, List.mem_map.mpr ⟨a, hb, rfl⟩, rfl⟩
    · cases h
  · intro alts o al c ih x hx a pl h hn
    rcases mem_expand_group.mp hx with ⟨A, hA, e, he, rfl⟩ | ⟨_, rfl⟩
    · rcases List.mem_append.mp h with h | h
      · obtain ⟨b, hb, e⟩ := List.mem_map.mp h
        cases e
        cases hn
      · obtain ⟨sp, h1, h2⟩ := ih A hA e he a pl h hn
        exact ⟨sp, by rw [Item.marked]; exact mem_altMarked.mpr ⟨A, hA, h1⟩, h2⟩
    · cases h
  · intro x hx a pl h
    rw [mem_expand_nil.mp hx] at h
    cases h
  · intro i is hi his x hx a pl h hn
    obtain ⟨e, he, r, hr, rfl⟩ := mem_expand_cons.mp hx
    rw [marked]
    rcases mem_append_places.mp h with h | ⟨pl', h', rfl⟩
    · obtain ⟨sp, h1, h2⟩ := hi e he a pl h hn
      refine ⟨sp, List.mem_append_left _ h1, ?_⟩
      have hlt := (List.getElem?_eq_some_iff.mp h2).1
      simp only [Expansion.append]
      rw [List.getElem?_append_left hlt]
      exact h2
    · obtain ⟨sp, h1, h2⟩ := his r hr a pl' h' hn
      refine ⟨sp, List.mem_append_right _ h1, ?_⟩
      simp only [Expansion.append]
      rw [List.getElem?_append_right (by omega)]
      have : pl'.start + e.word.length - e.word.length = pl'.start := by omega
      rw [this]
      exact h2

/-- The place of a group is where one of its alternatives is expanded. -/
theorem places_groups : ∀ (is : List Item) (x : Expansion), x ∈ expand is →
    ∀ a pl k, (a, pl) ∈ x.places → pl.items = some k →
      ∃ alts, (a, alts) ∈ groups is ∧ ∃ A ∈ alts, ∃ e ∈ expand A, k = A.length ∧
        pl.stop = pl.start + e.word.length ∧
        (x.word.drop pl.start).take (pl.stop - pl.start) = e.word := by
  refine items_induct (P := fun i => ∀ x ∈ i.expand, ∀ a pl k, (a, pl) ∈ x.places →
      pl.items = some k → ∃ alts, (a, alts) ∈ i.groups ∧ ∃ A ∈ alts, ∃ e ∈ expand A, k = A.length ∧
        pl.stop = pl.start + e.word.length ∧
        (x.word.drop pl.start).take (pl.stop - pl.start) = e.word)
    ?_ ?_ ?_ ?_
  · intro sp o al c x hx a pl k h hk
    rcases mem_expand_sym.mp hx with rfl | ⟨_, rfl⟩
    · obtain ⟨b, hb, e⟩ := List.mem_map.mp h
      cases e
      cases hk
    · cases h
  · intro alts o al c ih x hx a pl k h hk
    rw [Item.groups]
    rcases mem_expand_group.mp hx with ⟨A, hA, e, he, rfl⟩ | ⟨_, rfl⟩
    · rcases List.mem_append.mp h with h | h
      · obtain ⟨b, hb, e'⟩ := List.mem_map.mp h
        cases e'
        cases hk
        refine ⟨alts, List.mem_append_left _ (List.mem_map.mpr ⟨a, hb, rfl⟩), A, hA, e, he, rfl,
          by simp, by simp [grouped]⟩
      · obtain ⟨alts', h1, h2⟩ := ih A hA e he a pl k h hk
        exact ⟨alts', List.mem_append_right _ (mem_altGroups.mpr ⟨A, hA, h1⟩), h2⟩
    · cases h
  · intro x hx a pl k h
    rw [mem_expand_nil.mp hx] at h
    cases h
  · intro i is hi his x hx a pl k h hk
    obtain ⟨e, he, r, hr, rfl⟩ := mem_expand_cons.mp hx
    rw [groups]
    rcases mem_append_places.mp h with h | ⟨pl', h', rfl⟩
    · obtain ⟨alts, h1, A, hA, f, hf, h2, h3, h4⟩ := hi e he a pl k h hk
      refine ⟨alts, List.mem_append_left _ h1, A, hA, f, hf, h2, h3, ?_⟩
      obtain ⟨b1, b2, _⟩ : pl.start ≤ pl.stop ∧ pl.stop ≤ e.word.length ∧ True := by
        have : e ∈ expand [i] := mem_expand_cons.mpr
          ⟨e, he, Expansion.empty, mem_expand_nil.mpr rfl, by
            simp [Expansion.append, Expansion.empty]⟩
        obtain ⟨h1, h2, _⟩ := places_bounds [i] e this a pl h
        exact ⟨h1, h2, trivial⟩
      simp only [Expansion.append]
      rw [List.drop_append_of_le_length (by omega), List.take_append_of_le_length (by simp; omega)]
      exact h4
    · obtain ⟨alts, h1, A, hA, f, hf, h2, h3, h4⟩ := his r hr a pl' k h' hk
      refine ⟨alts, List.mem_append_right _ h1, A, hA, f, hf, h2, ?_, ?_⟩
      · simp only; omega
      · simp only [Expansion.append]
        have e1 : pl'.start + e.word.length = e.word.length + pl'.start := by omega
        have e2 : pl'.stop + e.word.length - (e.word.length + pl'.start) = pl'.stop - pl'.start := by
          omega
        rw [e1, e2, ← List.drop_drop, List.drop_left]
        exact h4

theorem word_symbols : ∀ (is : List Item) (x : Expansion), x ∈ expand is →
    ∀ sp ∈ x.word, sp ∈ symbols is := by
  have alt : ∀ {alts : List (List Item)} {A : List Item} {sp : Span}, A ∈ alts → sp ∈ symbols A →
      sp ∈ altSymbols alts := by
    intro alts A sp hA h
    induction alts with
    | nil => cases hA
    | cons B alts ih =>
      rw [altSymbols]
      rcases List.mem_cons.mp hA with rfl | hA
      · exact List.mem_append_left _ h
      · exact List.mem_append_right _ (ih hA)
  refine items_induct (P := fun i => ∀ x ∈ i.expand, ∀ sp ∈ x.word, sp ∈ i.symbols) ?_ ?_ ?_ ?_
  · intro sp o al c x hx s h
    rcases mem_expand_sym.mp hx with rfl | ⟨_, rfl⟩
    · exact h
    · cases h
  · intro alts o al c ih x hx s h
    rcases mem_expand_group.mp hx with ⟨A, hA, e, he, rfl⟩ | ⟨_, rfl⟩
    · rw [Item.symbols]
      exact alt hA (ih A hA e he s h)
    · cases h
  · intro x hx s h
    rw [mem_expand_nil.mp hx] at h
    cases h
  · intro i is hi his x hx s h
    obtain ⟨e, he, r, hr, rfl⟩ := mem_expand_cons.mp hx
    rw [symbols]
    rcases List.mem_append.mp h with h | h
    · exact List.mem_append_left _ (hi e he s h)
    · exact List.mem_append_right _ (his r hr s h)

theorem solid_length : ∀ (A : List Item), (∀ i ∈ A, i.Solid) → ∀ e ∈ expand A, e.word.length = A.length
  | [], _, e, he => by rw [mem_expand_nil.mp he]; rfl
  | i :: is, h, e, he => by
    obtain ⟨hi, his⟩ := List.forall_mem_cons.mp h
    obtain ⟨f, hf, r, hr, rfl⟩ := mem_expand_cons.mp he
    have := solid_length is his r hr
    cases i with
    | group => exact absurd hi (by simp [Item.Solid])
    | sym sp o al c =>
      have ho : o = false := hi
      rcases mem_expand_sym.mp hf with rfl | ⟨h, _⟩
      · simp [Expansion.append, this]
      · rw [ho] at h; cases h

theorem expand_ne_nil : ∀ (is : List Item), (∀ p ∈ is, p.expand ≠ []) → expand is ≠ []
  | [], _ => by simp [expand]
  | i :: is, h => by
    obtain ⟨hi, his⟩ := List.forall_mem_cons.mp h
    obtain ⟨e, he⟩ := List.exists_mem_of_ne_nil _ hi
    obtain ⟨r, hr⟩ := List.exists_mem_of_ne_nil _ (expand_ne_nil is his)
    exact List.ne_nil_of_mem (mem_expand_cons.mpr ⟨e, he, r, hr, rfl⟩)

/-! ### Aliases that are bound when their item is taken -/

theorem takesName_iff {src : Text} {x : Expansion} {t : Text} :
    x.TakesName src t ↔ ∃ n pl, (n, pl) ∈ x.places ∧ textOf src n = t := by
  unfold Expansion.TakesName
  rw [List.mem_map]
  constructor
  · rintro ⟨⟨n, pl⟩, h, e⟩
    exact ⟨n, pl, h, e⟩
  · rintro ⟨n, pl, h, e⟩
    exact ⟨(n, pl), h, e⟩

theorem takesName_append {src : Text} {e r : Expansion} {t : Text} :
    (e.append r).TakesName src t ↔ e.TakesName src t ∨ r.TakesName src t := by
  simp only [takesName_iff, mem_append_places]
  constructor
  · rintro ⟨n, pl, h | ⟨pl', h, _⟩, e⟩
    · exact .inl ⟨n, pl, h, e⟩
    · exact .inr ⟨n, pl', h, e⟩
  · rintro (⟨n, pl, h, e⟩ | ⟨n, pl, h, e⟩)
    · exact ⟨n, pl, .inl h, e⟩
    · exact ⟨n, _, .inr ⟨pl, h, rfl⟩, e⟩

theorem takesName_grouped {src : Text} {al : Option Span} {c : Bool} {A : List Item} {e : Expansion}
    {t : Text} :
    (grouped al c A e).TakesName src t ↔ t ∈ al.toList.map (textOf src) ∨ e.TakesName src t := by
  unfold Expansion.TakesName grouped
  rw [List.map_append, List.mem_append, List.map_map]
  exact Iff.rfl

theorem takesName_names {src : Text} {is : List Item} {x : Expansion} (hx : x ∈ expand is) {t : Text}
    (h : x.TakesName src t) : t ∈ (names is).map (textOf src) := by
  obtain ⟨n, pl, hp, rfl⟩ := takesName_iff.mp h
  exact List.mem_map_of_mem (places_names is x hx n pl hp)

theorem expand_single {i : Item} {e : Expansion} (h : e ∈ i.expand) : e ∈ expand [i] :=
  mem_expand_cons.mpr ⟨e, h, Expansion.empty, mem_expand_nil.mpr rfl, by
    simp [Expansion.append, Expansion.empty]⟩

theorem names_single (i : Item) : names [i] = i.names := by rw [names, names, List.append_nil]

theorem bare_takes : ∀ (is : List Item) (x : Expansion), x ∈ expand is → ∀ a ∈ bare is,
    ∃ pl, (a, pl) ∈ x.places
  | [], _, _, _, h => by cases h
  | i :: is, x, hx, a, h => by
    obtain ⟨e, he, r, hr, rfl⟩ := mem_expand_cons.mp hx
    unfold bare at h
    rw [List.flatMap_cons] at h
    rcases List.mem_append.mp h with h | h
    · cases i with
      | sym sp o al c =>
        rw [Item.bare] at h
        cases o with
        | true => cases h
        | false =>
          rcases mem_expand_sym.mp he with rfl | ⟨h', _⟩
          · exact ⟨_, mem_append_places.mpr (.inl (List.mem_map.mpr ⟨a, h, rfl⟩))⟩
          · cases h'
      | group alts o al c =>
        rw [Item.bare] at h
        cases o with
        | true => cases h
        | false =>
          rcases mem_expand_group.mp he with ⟨A, hA, f, hf, rfl⟩ | ⟨h', _⟩
          · exact ⟨_, mem_append_places.mpr (.inl (List.mem_append_left _
              (List.mem_map.mpr ⟨a, h, rfl⟩)))⟩
          · cases h'
    · obtain ⟨pl, h⟩ := bare_takes is r hr a h
      exact ⟨_, mem_append_places.mpr (.inr ⟨pl, h, rfl⟩)⟩

theorem item_bare_names (i : Item) : ∀ a ∈ i.bare, a ∈ i.names := by
  intro a ha
  cases i with
  | sym sp o al c =>
    rw [Item.bare] at ha
    split at ha
    · cases ha
    · exact ha
  | group alts o al c =>
    rw [Item.bare] at ha
    rw [Item.names]
    split at ha
    · cases ha
    · exact List.mem_append_left _ ha

theorem bare_names : ∀ (is : List Item), ∀ a ∈ bare is, a ∈ names is
  | [], a, h => by cases h
  | i :: is, a, h => by
    unfold bare at h
    rw [List.flatMap_cons] at h
    rw [names]
    rcases List.mem_append.mp h with h | h
    · exact List.mem_append_left _ (item_bare_names i a h)
    · exact List.mem_append_right _ (bare_names is a h)

/-- No other alias has the name of one that is bound in any case. -/
theorem bare_eq {src : Text} : ∀ (is : List Item), WellNamed src is → ∀ n ∈ names is, ∀ b ∈ bare is,
    textOf src n = textOf src b → n = b
  | [], _, n, hn, _, _, _ => by rw [names] at hn; cases hn
  | i :: is, hw, n, hn, b, hb, e => by
    rw [WellNamed] at hw
    obtain ⟨h1, h2, h3⟩ := hw
    rw [names] at hn
    unfold bare at hb
    rw [List.flatMap_cons] at hb
    rcases List.mem_append.mp hn with hn | hn <;> rcases List.mem_append.mp hb with hb | hb
    · cases i with
      | sym sp o al c =>
        rw [Item.names] at hn
        rw [Item.bare] at hb
        split at hb
        · cases hb
        · rw [Option.mem_toList] at hn hb
          rw [hn] at hb
          exact Option.some.inj hb
      | group alts o al c =>
        rw [Item.names] at hn
        rw [Item.bare] at hb
        rw [Item.WellNamed] at h1
        split at hb
        · cases hb
        · rcases List.mem_append.mp hn with hn | hn
          · rw [Option.mem_toList] at hn hb
            rw [hn] at hb
            exact Option.some.inj hb
          · exact absurd e.symm (h1.1 b hb n hn)
    · exact absurd e (h3 n hn b (bare_names is b hb))
    · exact absurd e.symm (h3 b (item_bare_names i b hb) n hn)
    · exact bare_eq is h2 n hn b hb e

/-- Distinct names are a special case. -/
theorem distinct_wellNamed {src : Text} : ∀ (is : List Item), DistinctNames src is → WellNamed src is := by
  have apart : ∀ {as bs : List Span}, ((as ++ bs).map (textOf src)).Nodup → Apart src as bs := by
    intro as bs h a ha b hb
    rw [List.map_append] at h
    exact (List.nodup_append.mp h).2.2 _ (List.mem_map_of_mem ha) _ (List.mem_map_of_mem hb)
  have left : ∀ {as bs : List Span}, ((as ++ bs).map (textOf src)).Nodup → (as.map (textOf src)).Nodup := by
    intro as bs h
    rw [List.map_append] at h
    exact (List.nodup_append.mp h).1
  have right : ∀ {as bs : List Span}, ((as ++ bs).map (textOf src)).Nodup → (bs.map (textOf src)).Nodup := by
    intro as bs h
    rw [List.map_append] at h
    exact (List.nodup_append.mp h).2.1
  refine items_induct (P := fun i => (i.names.map (textOf src)).Nodup → i.WellNamed src) ?_ ?_ ?_ ?_
  · intro sp o al c _
    rw [Item.WellNamed]; trivial
  · intro alts o al c ih h
    rw [Item.names] at h
    rw [Item.WellNamed]
    refine ⟨apart h, fun a ha b hb e => .inl (inj_of_nodup_map (right h) ha hb e), ?_⟩
    have hA := right h
    clear h
    induction alts with
    | nil => rw [AltsWellNamed]; trivial
    | cons A alts iha =>
      rw [altNames] at hA
      rw [AltsWellNamed]
      exact ⟨ih A (List.mem_cons_self ..) (left hA),
        iha (fun B hB => ih B (List.mem_cons_of_mem _ hB)) (right hA)⟩
  · intro _
    rw [WellNamed]; trivial
  · intro i is hi his h
    unfold DistinctNames at h
    rw [names] at h
    rw [WellNamed]
    exact ⟨hi (left h), his (right h), apart h⟩

theorem entered_names : ∀ (is : List Item) (x : Expansion), x ∈ expand is →
    ∀ a ∈ x.entered, a ∈ names is
  | [], x, hx, a, ha => by rw [mem_expand_nil.mp hx] at ha; cases ha
  | i :: is, x, hx, a, ha => by
    obtain ⟨e, he, r, hr, rfl⟩ := mem_expand_cons.mp hx
    rw [names]
    rcases List.mem_append.mp ha with ha | ha
    · refine List.mem_append_left _ ?_
      cases i with
      | sym sp o al c =>
        rcases mem_expand_sym.mp he with rfl | ⟨_, rfl⟩
        · exact ha
        · cases ha
      | group alts o al c =>
        rcases mem_expand_group.mp he with ⟨A, hA, f, hf, rfl⟩ | ⟨_, rfl⟩
        · rw [Item.names]
          rcases List.mem_append.mp ha with ha | ha
          · exact List.mem_append_left _ ha
          · exact List.mem_append_right _ (mem_altNames.mpr ⟨A, hA, ha⟩)
        · cases ha
    · exact List.mem_append_right _ (entered_names is r hr a ha)

/-- A sure name is taken when it is entered. -/
theorem sure_takes {src : Text} {t : Text} : ∀ (is : List Item), Sure src is t → ∀ x ∈ expand is,
    t ∈ x.entered.map (textOf src) → x.TakesName src t
  | [], _, x, hx, h => by rw [mem_expand_nil.mp hx] at h; cases h
  | i :: is, hs, x, hx, h => by
    obtain ⟨e, he, r, hr, rfl⟩ := mem_expand_cons.mp hx
    rw [takesName_append]
    simp only [Expansion.append] at h
    rw [List.map_append] at h
    rcases List.mem_append.mp h with h | h
    · refine .inl ?_
      cases i with
      | sym sp o al c =>
        rcases mem_expand_sym.mp he with rfl | ⟨_, rfl⟩
        · obtain ⟨a, ha, rfl⟩ := List.mem_map.mp h
          exact takesName_iff.mpr ⟨a, _, List.mem_map.mpr ⟨a, ha, rfl⟩, rfl⟩
        · cases h
      | group alts o al c =>
        rcases mem_expand_group.mp he with ⟨A, hA, f, hf, rfl⟩ | ⟨_, rfl⟩
        · refine takesName_grouped.mpr ?_
          simp only [grouped] at h
          rw [List.map_append] at h
          rcases List.mem_append.mp h with h | h
          · exact .inl h
          · exact .inr (hs _ (List.mem_cons_self ..) A hA h f hf)
        · cases h
    · exact .inr (sure_takes is (fun j hj => hs j (List.mem_cons_of_mem _ hj)) r hr h)

mutual

/-- Every group has an alternative. -/
def ItemFull : Item → Prop
  | .sym _ _ _ _ => True
  | .group alts _ _ _ => alts ≠ [] ∧ AltsFull alts

/-- Every group has an alternative. -/
def Full : List Item → Prop
  | [] => True
  | i :: is => ItemFull i ∧ Full is

/-- Every group has an alternative. -/
def AltsFull : List (List Item) → Prop
  | [] => True
  | a :: as => Full a ∧ AltsFull as

end

theorem altsFull_mem : ∀ {alts : List (List Item)}, AltsFull alts → ∀ A ∈ alts, Full A
  | [], _, _, h => by cases h
  | a :: as, h, A, hA => by
    rw [AltsFull] at h
    rcases List.mem_cons.mp hA with rfl | hA
    · exact h.1
    · exact altsFull_mem h.2 A hA

theorem full_expand : ∀ (is : List Item), Full is → ∃ x, x ∈ expand is := by
  refine items_induct (P := fun i => ItemFull i → ∃ x, x ∈ i.expand) ?_ ?_ ?_ ?_
  · intro sp o al c _
    exact ⟨_, mem_expand_sym.mpr (.inl rfl)⟩
  · intro alts o al c ih h
    rw [ItemFull] at h
    obtain ⟨A, hA⟩ := List.exists_mem_of_ne_nil _ h.1
    obtain ⟨e, he⟩ := ih A hA (altsFull_mem h.2 A hA)
    exact ⟨_, mem_expand_group.mpr (.inl ⟨A, hA, e, he, rfl⟩)⟩
  · intro _
    exact ⟨_, mem_expand_nil.mpr rfl⟩
  · intro i is hi his h
    rw [Full] at h
    obtain ⟨e, he⟩ := hi h.1
    obtain ⟨r, hr⟩ := his h.2
    exact ⟨_, mem_expand_cons.mpr ⟨e, he, r, hr, rfl⟩⟩

theorem itemsOf_full : ∀ k : Nat,
    (∀ (pipe : List Gramem) (items : List Item), sizeOf pipe ≤ k → itemsOf pipe = some items →
      Full items) ∧
    (∀ (vs : List RulePipe) (alts : List (List Item)), sizeOf vs ≤ k → altsOf vs = some alts →
      AltsFull alts ∧ (vs ≠ [] → alts ≠ [])) := by
  intro k
  induction k with
  | zero =>
    constructor
    · intro pipe items hk
      cases pipe <;> simp at hk <;> omega
    · intro vs alts hk
      cases vs <;> simp at hk <;> omega
  | succ k ih =>
    obtain ⟨ihs, ihv⟩ := ih
    constructor
    · intro pipe items hk hi
      cases pipe with
      | nil =>
        rw [itemsOf] at hi
        cases hi
        rw [Full]; trivial
      | cons g rest =>
        rcases itemsOf_cons hi with
          ⟨inner, sp, ty, opt, al, clone, gsp, gty, is, rfl, hty, his, rfl⟩ |
          ⟨v, vs, sp, opt, al, clone, gsp, gty, alts, is, rfl, halts, his, rfl⟩
        · rw [Full]
          refine ⟨by rw [ItemFull]; trivial, ihs rest is (by simp at hk; omega) his⟩
        · rw [Full, ItemFull]
          obtain ⟨h1, h2⟩ := ihv (v :: vs) alts (by simp at hk ⊢; omega) halts
          exact ⟨⟨h2 (by simp), h1⟩, ihs rest is (by simp at hk; omega) his⟩
    · intro vs alts hk ha
      cases vs with
      | nil =>
        rw [altsOf] at ha
        cases ha
        exact ⟨by rw [AltsFull]; trivial, fun h => absurd rfl h⟩
      | cons v vs =>
        obtain ⟨variant, block⟩ := v
        rw [altsOf] at ha
        split at ha
        · rename_i is as his has
          cases ha
          rw [AltsFull]
          exact ⟨⟨ihs variant is (by simp at hk; omega) his, (ihv vs as (by simp at hk; omega) has).1⟩,
            by simp⟩
        · cases ha

theorem ruleOf_full : ∀ {rule : List RulePipe} {alts : List Alt}, ruleOf rule = some alts →
    ∀ a ∈ alts, Full a.items
  | [], alts, h, a, ha => by
    rw [ruleOf] at h
    cases h
    cases ha
  | (pipe, block) :: rest, alts, h, a, ha => by
    rw [ruleOf] at h
    split at h
    · rename_i items as hi has
      cases h
      rcases List.mem_cons.mp ha with rfl | ha
      · exact (itemsOf_full (sizeOf pipe)).1 pipe items (Nat.le_refl _) hi
      · exact ruleOf_full has a ha
    · cases h

theorem declsOf_full : ∀ {gs : List Gramem} {ds : List Decl}, declsOf gs = some ds →
    ∀ {ident ty : Span} {alts : List Alt}, Decl.rule ident ty alts ∈ ds → ∀ a ∈ alts, Full a.items
  | [], ds, h, _, _, _, hm => by
    rw [declsOf] at h
    cases h
    cases hm
  | g :: gs, ds, h, ident, ty, alts, hm => by
    rw [declsOf] at h
    split at h
    · cases h
    · rename_i ds' hds'
      split at h
      · split at h
        · rename_i as has
          cases h
          rcases List.mem_cons.mp hm with e | hm
          · cases e
            exact ruleOf_full has
          · exact declsOf_full hds' hm
        · cases h
      · cases h
        rcases List.mem_cons.mp hm with e | hm
        · cases e
        · exact declsOf_full hds' hm
      · cases h
        rcases List.mem_cons.mp hm with e | hm
        · cases e
        · exact declsOf_full hds' hm
      · cases h

/-- A name that is not sure is entered somewhere although it is not taken. -/
theorem unsure {src : Text} {t : Text} : ∀ (is : List Item), Full is → WellNamed src is →
    ¬ Sure src is t → ∃ x ∈ expand is, t ∈ x.entered.map (textOf src) ∧ ¬ x.TakesName src t
  | [], _, _, h => absurd (fun j hj => by cases hj) h
  | i :: is, hf, hw, h => by
    rw [Full] at hf
    rw [WellNamed] at hw
    obtain ⟨w1, w2, w3⟩ := hw
    by_cases hs : Sure src is t
    · have : ∃ A ∈ i.alts, t ∈ (names A).map (textOf src) ∧ ∃ f ∈ expand A, ¬ f.TakesName src t := by
        refine Classical.byContradiction (fun hc => h ?_)
        intro j hj A hA ht f hfA
        rcases List.mem_cons.mp hj with rfl | hj
        · exact Classical.byContradiction (fun hn => hc ⟨A, hA, ht, f, hfA, hn⟩)
        · exact hs j hj A hA ht f hfA
      obtain ⟨A, hA, ht, f, hfA, hnt⟩ := this
      cases i with
      | sym sp o al c => rw [Item.alts] at hA; cases hA
      | group alts o al c =>
        rw [Item.alts] at hA
        rw [Item.WellNamed] at w1
        obtain ⟨n, hn, rfl⟩ := List.mem_map.mp ht
        have hnA : n ∈ altNames alts := mem_altNames.mpr ⟨A, hA, hn⟩
        obtain ⟨r, hr⟩ := full_expand is hf.2
        refine ⟨_, mem_expand_cons.mpr ⟨_, mem_expand_group.mpr (.inl ⟨A, hA, f, hfA, rfl⟩), r, hr, rfl⟩,
          ?_, ?_⟩
        · simp only [Expansion.append, grouped]
          rw [List.map_append, List.map_append]
          exact List.mem_append_left _ (List.mem_append_right _ ht)
        · rw [takesName_append, takesName_grouped]
          rintro ((h | h) | h)
          · obtain ⟨b, hb, e⟩ := List.mem_map.mp h
            exact w1.1 b hb n hnA e
          · exact hnt h
          · obtain ⟨b, hb, e⟩ := List.mem_map.mp (takesName_names hr h)
            exact w3 n (by rw [Item.names]; exact List.mem_append_right _ hnA) b hb e.symm
    · obtain ⟨r, hr, h1, h2⟩ := unsure is hf.2 w2 hs
      obtain ⟨x, hx⟩ := full_expand [i] (by rw [Full]; exact ⟨hf.1, by rw [Full]; trivial⟩)
      obtain ⟨e, he, _, _, _⟩ := mem_expand_cons.mp hx
      refine ⟨_, mem_expand_cons.mpr ⟨e, he, r, hr, rfl⟩, ?_, ?_⟩
      · simp only [Expansion.append]
        rw [List.map_append]
        exact List.mem_append_right _ h1
      · rw [takesName_append]
        rintro (h | h)
        · obtain ⟨a, ha, ea⟩ := List.mem_map.mp (takesName_names (expand_single he) h)
          rw [names_single] at ha
          obtain ⟨b, hb, eb⟩ := List.mem_map.mp h1
          exact w3 a ha b (entered_names is r hr b hb) (ea.trans eb.symm)
        · exact h2 h

/-! ### Values -/

/-- The alias of a production evaluates to the piece at its place. -/
theorem value_taken {τ : Type} {src : Text} {bs : List Span} {x : Expansion} {a : ItemAlias} {pl : Place}
    (h : EntryOk src 0 bs x a) (hpl : (a.alias, pl) ∈ x.places) (hent : a.alias ∈ x.entered)
    (toks : List τ) :
    a.value toks = (do
      let v ← piece toks pl.start (pl.items.map (fun k => pl.start + k))
      return wrap (decide (textOf src a.alias ∈ bs.map (textOf src))) v) := by
  obtain ⟨_, h1, h2, _⟩ := h.place _ pl hpl rfl
  have h3 := h.status
  have e2 : a.finalIndex = pl.items.map (fun k => pl.start + k) := by rw [h2]; simp
  have e1 : a.index = pl.start := by omega
  have hent : textOf src a.alias ∈ x.entered.map (textOf src) := List.mem_map_of_mem hent
  unfold ItemAlias.value
  rw [h3, e1, e2]
  by_cases hb : textOf src a.alias ∈ bs.map (textOf src)
  · simp only [hb, decide_true, wrap, if_true]
  · simp only [hb, hent, decide_true, decide_false, wrap, Bool.false_eq_true, if_false]

theorem value_skipped {τ : Type} {src : Text} {bs : List Span} {x : Expansion} {a : ItemAlias}
    (h : EntryOk src 0 bs x a) (hb : textOf src a.alias ∉ bs.map (textOf src))
    (hent : textOf src a.alias ∉ x.entered.map (textOf src))
    {toks : List τ} (ht : toks ≠ []) : a.value toks = .ok .none := by
  have h3 := h.status
  simp only [if_neg hb, hent, decide_false] at h3
  unfold ItemAlias.value
  rw [h3]
  cases toks with
  | nil => exact absurd rfl ht
  | cons t ts => rfl

theorem value_entered {τ : Type} {src : Text} {bs : List Span} {x : Expansion} {a : ItemAlias}
    (h : EntryOk src 0 bs x a) (hent : textOf src a.alias ∈ x.entered.map (textOf src))
    (toks : List τ) : a.value toks ≠ .ok .none := by
  have h3 := h.status
  unfold ItemAlias.value
  by_cases hb : textOf src a.alias ∈ bs.map (textOf src)
  · simp only [if_pos hb] at h3
    rw [h3]
    simp only
    cases piece toks a.index a.finalIndex <;> intro h <;> cases h
  · simp only [if_neg hb, hent, decide_true] at h3
    rw [h3]
    simp only
    cases piece toks a.index a.finalIndex <;> intro h <;> cases h

theorem piece_covers {τ : Type} {pl : Place} {toks : List τ} (h1 : pl.start ≤ pl.stop)
    (h2 : pl.stop ≤ toks.length) (h3 : pl.items = none → pl.stop = pl.start + 1)
    (h4 : ∀ k, pl.items = some k → k = pl.stop - pl.start) :
    ∃ v, pl.covers toks = some v ∧
      piece toks pl.start (pl.items.map (fun k => pl.start + k)) = .ok v := by
  unfold Place.covers piece
  cases hi : pl.items with
  | none =>
    have := h3 hi
    have hlt : pl.start < toks.length := by omega
    simp only [Option.map_none]
    rw [List.getElem?_eq_getElem hlt]
    exact ⟨_, rfl, rfl⟩
  | some k =>
    have hk := h4 k hi
    simp only [Option.map_some]
    refine ⟨_, rfl, ?_⟩
    unfold Span.fromSource
    have hc : (Span.new pl.start (pl.start + k)).start ≤ (Span.new pl.start (pl.start + k)).stop ∧
        (Span.new pl.start (pl.start + k)).stop ≤ toks.length := by
      simp only [Span.new]
      omega
    rw [if_pos hc]
    simp only [Span.new]
    have : pl.start + k - pl.start = pl.stop - pl.start := by omega
    rw [this]
    rfl

theorem runLets_ok {τ : Type} {src : Text} {toks : List τ} (f : ItemAlias → Value τ) :
    ∀ {as : List ItemAlias}, (∀ a ∈ as, InSrc src a.alias ∧ a.value toks = .ok (f a)) →
      runLets src toks as = .ok (as.map (fun a => (textOf src a.alias, f a)))
  | [], _ => rfl
  | a :: as, h => by
    obtain ⟨⟨h1, h2⟩, h3⟩ := List.forall_mem_cons.mp h
    rw [runLets, slice_ok h1]
    simp only [Out.ok_bind]
    rw [h2]
    simp only [Out.ok_bind]
    rw [runLets_ok f h3]
    rfl

theorem lookup_of_nodup {ν : Type} {t : Text} {v : ν} : ∀ {l : List (Text × ν)},
    (l.map (·.1)).Nodup → (t, v) ∈ l → l.lookup t = some v
  | [], _, h => by cases h
  | (k, w) :: l, hn, h => by
    rw [List.map_cons, List.nodup_cons] at hn
    rw [List.lookup_cons]
    rcases List.mem_cons.mp h with e | h'
    · cases e
      simp
    · have hne : t ≠ k := by
        intro e
        subst e
        exact hn.1 (List.mem_map_of_mem (f := (·.1)) h')
      have : (t == k) = false := by simpa using hne
      rw [this]
      exact lookup_of_nodup hn.2 h'

theorem valueOf_map {τ : Type} {src : Text} (f : ItemAlias → Value τ) {as : List ItemAlias}
    (hn : (as.map (fun a => textOf src a.alias)).Nodup) {a : ItemAlias} (ha : a ∈ as) :
    valueOf (as.map (fun a => (textOf src a.alias, f a))) (textOf src a.alias) = some (f a) := by
  unfold valueOf
  refine lookup_of_nodup ?_ ?_
  · rw [List.map_reverse, List.map_map]
    exact (List.reverse_perm _).nodup_iff.mpr hn
  · rw [List.mem_reverse]
    exact List.mem_map.mpr ⟨a, ha, rfl⟩

/-! ### Flat alternatives -/

theorem solid_takes {src : Text} : ∀ (A : List Item), (∀ i ∈ A, i.Solid) → ∀ x ∈ expand A,
    ∀ t ∈ (names A).map (textOf src), x.TakesName src t
  | [], _, x, _, t, h => by rw [names] at h; cases h
  | i :: is, hs, x, hx, t, h => by
    obtain ⟨h1, h2⟩ := List.forall_mem_cons.mp hs
    obtain ⟨e, he, r, hr, rfl⟩ := mem_expand_cons.mp hx
    rw [names, List.map_append] at h
    rw [takesName_append]
    rcases List.mem_append.mp h with h | h
    · refine .inl ?_
      cases i with
      | group => exact absurd h1 (by simp [Item.Solid])
      | sym sp o al c =>
        have : o = false := h1
        subst this
        rcases mem_expand_sym.mp he with rfl | ⟨h', _⟩
        · obtain ⟨a, ha, rfl⟩ := List.mem_map.mp h
          exact takesName_iff.mpr ⟨a, _, List.mem_map.mpr ⟨a, ha, rfl⟩, rfl⟩
        · cases h'
    · exact .inr (solid_takes is h2 r hr t h)

theorem solid_groups : ∀ (A : List Item), (∀ i ∈ A, i.Solid) → groups A = []
  | [], _ => by rw [groups]
  | i :: is, hs => by
    obtain ⟨h1, h2⟩ := List.forall_mem_cons.mp hs
    rw [groups, solid_groups is h2]
    cases i with
    | group => exact absurd h1 (by simp [Item.Solid])
    | sym sp o al c => rw [Item.groups]; rfl

theorem flat_groups : ∀ (is : List Item), Flat is → ∀ p ∈ groups is, ∀ A ∈ p.2, ∀ j ∈ A, j.Solid
  | [], _, p, h => by rw [groups] at h; cases h
  | i :: is, hf, p, h => by
    rw [groups] at h
    rcases List.mem_append.mp h with h | h
    · cases i with
      | sym sp o al c => rw [Item.groups] at h; cases h
      | group alts o al c =>
        have hs : ∀ A ∈ alts, ∀ j ∈ A, j.Solid := hf _ (List.mem_cons_self ..)
        rw [Item.groups] at h
        rcases List.mem_append.mp h with h | h
        · obtain ⟨b, _, e⟩ := List.mem_map.mp h
          subst e
          exact hs
        · obtain ⟨A, hA, ha⟩ := mem_altGroups.mp h
          rw [solid_groups A (hs A hA)] at ha
          cases ha
    · exact flat_groups is (fun i hi => hf i (List.mem_cons_of_mem _ hi)) p h

/-- Flat alternatives are a special case. -/
theorem flat_tidy {src : Text} {is : List Item} (h : Flat is) : Tidy src is :=
  ⟨fun _ _ i hi A hA ht x hx => solid_takes A (h i hi A hA) x hx _ ht,
    fun p hp A hA x hx => solid_length A (flat_groups is h p hp A hA) x hx⟩

/-! ### The written rules -/

theorem texts_ok {src : Text} : ∀ {l : List Span}, (∀ s ∈ l, InSrc src s) →
    texts src l = .ok (l.map (textOf src))
  | [], _ => rfl
  | s :: l, h => by
    obtain ⟨h1, h2⟩ := List.forall_mem_cons.mp h
    rw [texts, slice_ok h1]
    simp only [Out.ok_bind]
    rw [texts_ok h2]
    rfl

theorem stripBlock_ok (body : Text) : stripBlock (45 :: 62 :: (body ++ [37])) = .ok body := by
  unfold stripBlock
  simp only [List.reverse_append, List.reverse_cons, List.reverse_nil, List.nil_append,
    List.cons_append, List.reverse_reverse]

theorem writeRule_ok {src : Text} : ∀ {ps : RuleBuild},
    (∀ p ∈ ps, ∀ s ∈ p.production, InSrc src s) →
    writeRule src ps = .ok (ps.map (fun p => p.production.map (textOf src)))
  | [], _ => rfl
  | p :: ps, h => by
    obtain ⟨h1, h2⟩ := List.forall_mem_cons.mp h
    rw [writeRule, texts_ok h1]
    simp only [Out.ok_bind]
    rw [writeRule_ok h2]
    rfl

theorem writeReductors_ok {src ty : Text} (f : ProductionBuild → Text) : ∀ {ps : RuleBuild},
    (∀ p ∈ ps, (∀ s ∈ p.spans, InSrc src s) ∧ InSrc src p.codeblock ∧
      textOf src p.codeblock = 45 :: 62 :: (f p ++ [37])) →
    writeReductors src ty ps = .ok (ps.map (fun p => { ty := ty, lets := p.aliases, code := f p }))
  | [], _ => rfl
  | p :: ps, h => by
    obtain ⟨⟨h1, h2, h3⟩, h4⟩ := List.forall_mem_cons.mp h
    have h1' : ∀ s ∈ p.aliases.map (·.alias), InSrc src s := h1
    rw [writeReductors, texts_ok h1', slice_ok h2]
    simp only [Out.ok_bind]
    rw [h3, stripBlock_ok]
    simp only [Out.ok_bind]
    rw [writeReductors_ok f h4]
    rfl

theorem mem_of_lookup {ν : Type} {t : Text} {v : ν} : ∀ {l : List (Text × ν)},
    l.lookup t = some v → (t, v) ∈ l
  | [], h => by cases h
  | (k, w) :: l, h => by
    rw [List.lookup_cons] at h
    by_cases hk : t = k
    · subst hk
      simp only [BEq.rfl] at h
      cases h
      exact List.mem_cons_self ..
    · have : (t == k) = false := by simpa using hk
      rw [this] at h
      exact List.mem_cons_of_mem _ (mem_of_lookup h)

theorem resolve_inSrc {src : Text} {A : List (Text × Span)} (hA : ∀ p ∈ A, InSrc src p.2) {sp : Span}
    (h : InSrc src sp) : InSrc src (resolve src A sp) := by
  unfold resolve
  cases hl : A.lookup (textOf src sp) with
  | none => exact h
  | some t => exact hA _ (mem_of_lookup hl)

theorem tokens_inSrc {src : Text} : ∀ {ds : List Decl}, (∀ d ∈ ds, d.Readable src) →
    ∀ p ∈ tokens src ds, InSrc src p.2
  | [], _, _, h => by cases h
  | d :: ds, hr, p, h => by
    obtain ⟨h1, h2⟩ := List.forall_mem_cons.mp hr
    cases d with
    | rule i t as => exact tokens_inSrc h2 p h
    | use u => exact tokens_inSrc h2 p h
    | token n g =>
      rcases List.mem_cons.mp h with rfl | h
      · exact h1.2
      · exact tokens_inSrc h2 p h

end Lrp.Wop
