import Verif.Proofs.Wop

/-! The productions generated for an alternative are its expansions. -/

set_option linter.unusedSectionVars false

namespace Lrp.Wop
open Spec

/-- The names of the aliases of a production. -/
def ProductionBuild.spans (p : ProductionBuild) : List Span := p.aliases.map (·.alias)

/-- What is known about an alias of a production made from the expansion `x`, when `L` symbols come
before the expansion and `bs` are the aliases bound in any case. -/
structure EntryOk (src : Text) (L : Nat) (bs : List Span) (x : Expansion) (a : ItemAlias) : Prop where
  place : ∀ n pl, (n, pl) ∈ x.places → textOf src n = textOf src a.alias → a.alias = n ∧
    a.index = L + pl.start ∧
    a.finalIndex = pl.items.map (fun k => L + pl.start + k) ∧ a.clone = pl.clone
  status : a.optional = if textOf src a.alias ∈ bs.map (textOf src) then none
    else some (decide (textOf src a.alias ∈ x.entered.map (textOf src)))

/-- If the alias has this text, then it stands for a range or not (`g`), and is copied or not (`c`); one for
a range is not `None`. -/
def KindOk (src : Text) (t : Text) (g c : Bool) (e : ItemAlias) : Prop :=
  textOf src e.alias = t → e.finalIndex.isSome = g ∧ e.clone = c ∧ (g = true → e.optional ≠ some false)

mutual

/-- All aliases of this text made for the item are of one kind. -/
def Spec.Item.Uniform (src : Text) (t : Text) (g c : Bool) : Item → Prop
  | .sym _ _ alias clone => ∀ a ∈ alias.toList, textOf src a = t → g = false ∧ clone = c
  | .group alts opt alias clone =>
    (∀ a ∈ alias.toList, textOf src a = t → g = true ∧ clone = c ∧ opt = false) ∧
    (t ∈ (altNames alts).map (textOf src) → (opt = true → g = false ∧ clone = c) ∧
      ((g = false ∧ c = false) ∨ ∀ A ∈ alts, t ∈ (names A).map (textOf src))) ∧
    AltsUniform src t g c alts

/-- The same for lists of items. -/
def Uniform (src : Text) (t : Text) (g c : Bool) : List Item → Prop
  | [] => True
  | i :: is => i.Uniform src t g c ∧ Uniform src t g c is

/-- The same for alternatives. -/
def AltsUniform (src : Text) (t : Text) (g c : Bool) : List (List Item) → Prop
  | [] => True
  | a :: as => Uniform src t g c a ∧ AltsUniform src t g c as

end

theorem altsUniform_mem {src t : Text} {g c : Bool} : ∀ {alts : List (List Item)},
    AltsUniform src t g c alts → ∀ A ∈ alts, Uniform src t g c A
  | [], _, _, h => by cases h
  | a :: as, h, A, hA => by
    rw [AltsUniform] at h
    rcases List.mem_cons.mp hA with rfl | hA
    · exact h.1
    · exact altsUniform_mem h.2 A hA

/-- The production `q` is `p` continued by the expansion `x` of items with the alias names `ns`; `W`
says that the names are used as they should be, and `U` of which kind the aliases of a name are. -/
structure Rel (E : Env) (p : ProductionBuild) (ns bs : List Span) (W : Prop) (U : Text → Bool → Bool → Prop)
    (x : Expansion) (q : ProductionBuild) : Prop where
  word : q.production = p.production ++ x.word.map (resolve E.src E.aliases)
  block : q.codeblock = p.codeblock
  ty : q.ty = p.ty
  spans : ∀ s ∈ q.spans, s ∈ p.spans ∨ s ∈ ns
  texts : ∀ t, t ∈ aliasTexts E.src q.aliases ↔
    t ∈ aliasTexts E.src p.aliases ∨ t ∈ ns.map (textOf E.src)
  places : ∀ a pl, (a, pl) ∈ x.places → a ∈ ns
  entered : ∀ a ∈ x.entered, a ∈ ns
  bare : ∀ a ∈ bs, a ∈ ns
  aliases : W → Apart E.src p.spans ns → ∃ news, q.aliases = p.aliases ++ news ∧
    (aliasTexts E.src news).Nodup ∧ (∀ a ∈ news, a.alias ∈ ns) ∧
    (∀ n ∈ ns, textOf E.src n ∈ aliasTexts E.src news) ∧
    ∀ a ∈ news, EntryOk E.src p.production.length bs x a
  kinds : ∀ t g c, U t g c → (∀ e ∈ p.aliases, KindOk E.src t g c e) → ∀ e ∈ q.aliases, KindOk E.src t g c e

theorem Rel.refl (E : Env) (p : ProductionBuild) (W : Prop) (U : Text → Bool → Bool → Prop) :
    Rel E p [] [] W U Expansion.empty p where
  word := by simp [Expansion.empty]
  block := rfl
  ty := rfl
  spans s h := .inl h
  texts t := by simp
  places a pl h := by cases h
  entered a h := h
  bare a h := h
  aliases _ _ := ⟨[], by simp, List.nodup_nil, by simp, by simp, by simp⟩
  kinds _ _ _ _ h := h

theorem Rel.append {E : Env} {p q r : ProductionBuild} {ns₁ ns₂ bs₁ bs₂ : List Span} {W₁ W₂ : Prop}
    {U₁ U₂ : Text → Bool → Bool → Prop}
    {e x : Expansion} (h₁ : Rel E p ns₁ bs₁ W₁ U₁ e q) (h₂ : Rel E q ns₂ bs₂ W₂ U₂ x r) :
    Rel E p (ns₁ ++ ns₂) (bs₁ ++ bs₂) (W₁ ∧ W₂ ∧ Apart E.src ns₁ ns₂) (fun t g c => U₁ t g c ∧ U₂ t g c)
      (e.append x) r where
  kinds t g c hu hp := h₂.kinds t g c hu.2 (h₁.kinds t g c hu.1 hp)
  word := by rw [h₂.word, h₁.word]; simp [Expansion.append]
  block := h₂.block.trans h₁.block
  ty := h₂.ty.trans h₁.ty
  spans s h := by
    rcases h₂.spans s h with h | h
    · rcases h₁.spans s h with h | h
      · exact .inl h
      · exact .inr (List.mem_append_left _ h)
    · exact .inr (List.mem_append_right _ h)
  texts t := by rw [h₂.texts, h₁.texts, List.map_append, List.mem_append, or_assoc]
  places a pl h := by
    rcases List.mem_append.mp h with h | h
    · exact List.mem_append_left _ (h₁.places a pl h)
    · obtain ⟨⟨b, pl'⟩, hb, e⟩ := List.mem_map.mp h
      simp only [Expansion.shift, Prod.mk.injEq] at e
      exact List.mem_append_right _ (e.1 ▸ h₂.places b pl' hb)
  entered a h := by
    rcases List.mem_append.mp h with h | h
    · exact List.mem_append_left _ (h₁.entered a h)
    · exact List.mem_append_right _ (h₂.entered a h)
  bare a h := by
    rcases List.mem_append.mp h with h | h
    · exact List.mem_append_left _ (h₁.bare a h)
    · exact List.mem_append_right _ (h₂.bare a h)
  aliases hW hd := by
    obtain ⟨w₁, w₂, hap⟩ := hW
    obtain ⟨n₁, ea₁, nd₁, in₁, cov₁, hn₁⟩ := h₁.aliases w₁
      (fun s hs n hn => hd s hs n (List.mem_append_left _ hn))
    have hq : Apart E.src q.spans ns₂ := by
      intro s hs n hn
      unfold ProductionBuild.spans at hs
      rw [ea₁, List.map_append] at hs
      rcases List.mem_append.mp hs with hs | hs
      · exact hd s hs n (List.mem_append_right _ hn)
      · obtain ⟨a, ha, rfl⟩ := List.mem_map.mp hs
        exact hap _ (in₁ a ha) n hn
    obtain ⟨n₂, ea₂, nd₂, in₂, cov₂, hn₂⟩ := h₂.aliases w₂ hq
    -- a text of the first names is none of the second
    have other : ∀ {s : Span} {l : List Span}, s ∈ ns₁ → (∀ b ∈ l, b ∈ ns₂) →
        textOf E.src s ∉ l.map (textOf E.src) := by
      intro s l hs hl h
      obtain ⟨b, hb, e⟩ := List.mem_map.mp h
      exact hap s hs b (hl b hb) e.symm
    have other' : ∀ {s : Span} {l : List Span}, s ∈ ns₂ → (∀ b ∈ l, b ∈ ns₁) →
        textOf E.src s ∉ l.map (textOf E.src) := by
      intro s l hs hl h
      obtain ⟨b, hb, e⟩ := List.mem_map.mp h
      exact hap b (hl b hb) s hs e
    refine ⟨n₁ ++ n₂, by rw [ea₂, ea₁, List.append_assoc], ?_, ?_, ?_, ?_⟩
    · unfold aliasTexts at nd₁ nd₂ ⊢
      rw [List.map_append]
      refine List.nodup_append.mpr ⟨nd₁, nd₂, ?_⟩
      intro t ht u hu e
      obtain ⟨a, ha, rfl⟩ := List.mem_map.mp ht
      obtain ⟨b, hb, rfl⟩ := List.mem_map.mp hu
      exact hap _ (in₁ a ha) _ (in₂ b hb) e
    · intro a ha
      rcases List.mem_append.mp ha with ha | ha
      · exact List.mem_append_left _ (in₁ a ha)
      · exact List.mem_append_right _ (in₂ a ha)
    · intro n hn
      unfold aliasTexts at cov₁ cov₂ ⊢
      rw [List.map_append]
      rcases List.mem_append.mp hn with hn | hn
      · exact List.mem_append_left _ (cov₁ n hn)
      · exact List.mem_append_right _ (cov₂ n hn)
    · intro a ha
      rcases List.mem_append.mp ha with ha | ha
      · have hm := in₁ a ha
        refine ⟨fun n pl hpl en => ?_, ?_⟩
        · rcases List.mem_append.mp hpl with h | h
          · exact (hn₁ a ha).place n pl h en
          · obtain ⟨⟨b, pl'⟩, hb, e⟩ := List.mem_map.mp h
            simp only [Expansion.shift, Prod.mk.injEq] at e
            obtain ⟨rfl, rfl⟩ := e
            exact absurd en.symm (hap _ hm _ (h₂.places b pl' hb))
        · rw [(hn₁ a ha).status]
          have hb : textOf E.src a.alias ∈ (bs₁ ++ bs₂).map (textOf E.src) ↔
              textOf E.src a.alias ∈ bs₁.map (textOf E.src) := by
            rw [List.map_append, List.mem_append]
            exact ⟨fun h => h.resolve_right (other hm h₂.bare), .inl⟩
          have he : textOf E.src a.alias ∈ (e.append x).entered.map (textOf E.src) ↔
              textOf E.src a.alias ∈ e.entered.map (textOf E.src) := by
            simp only [Expansion.append]
            rw [List.map_append, List.mem_append]
            exact ⟨fun h => h.resolve_right (other hm h₂.entered), .inl⟩
          simp only [hb, he]
      · have hm := in₂ a ha
        refine ⟨fun n pl hpl en => ?_, ?_⟩
        · rcases List.mem_append.mp hpl with h | h
          · exact absurd en (hap _ (h₁.places _ _ h) _ hm)
          · obtain ⟨⟨b, pl'⟩, hb, e⟩ := List.mem_map.mp h
            simp only [Expansion.shift, Prod.mk.injEq] at e
            obtain ⟨rfl, rfl⟩ := e
            obtain ⟨i0, i1, i2, i3⟩ := (hn₂ a ha).place _ pl' hb en
            have hl : q.production.length = p.production.length + e.word.length := by
              rw [h₁.word]; simp
            refine ⟨i0, ?_, ?_, i3⟩
            · simp only; omega
            · rw [i2]
              cases pl'.items with
              | none => rfl
              | some k => simp only [Option.map_some, Option.some.injEq]; omega
        · rw [(hn₂ a ha).status]
          have hb : textOf E.src a.alias ∈ (bs₁ ++ bs₂).map (textOf E.src) ↔
              textOf E.src a.alias ∈ bs₂.map (textOf E.src) := by
            rw [List.map_append, List.mem_append]
            exact ⟨fun h => h.resolve_left (other' hm h₁.bare), .inr⟩
          have he : textOf E.src a.alias ∈ (e.append x).entered.map (textOf E.src) ↔
              textOf E.src a.alias ∈ x.entered.map (textOf E.src) := by
            simp only [Expansion.append]
            rw [List.map_append, List.mem_append]
            exact ⟨fun h => h.resolve_left (other' hm h₁.entered), .inr⟩
          simp only [hb, he]

/-! ### The start of a group -/

/-- The alias of an item, recorded after `L` symbols. -/
def itemAlias (L : Nat) (opt : Option Bool) (clone : Bool) (f : Option Nat) (a : Span) : ItemAlias :=
  { alias := a, optional := opt, index := L, finalIndex := f, clone := clone }

/-- `p` with the alias of an item recorded. -/
def baseOf (p : ProductionBuild) (al : Option Span) (opt : Option Bool) (clone : Bool)
    (f : Option Nat) : ProductionBuild :=
  { p with aliases := p.aliases ++ al.toList.map (itemAlias p.production.length opt clone f) }

theorem withAlias_eq (p : ProductionBuild) (opt : Bool) (al : Option Span) (clone : Bool) :
    withAlias p opt al clone = baseOf p al (if opt then some true else none) clone none := by
  cases al with
  | none => simp [withAlias, baseOf]
  | some a => simp [withAlias, baseOf, ProductionBuild.pushAlias, itemAlias]

theorem baseOf_none (p : ProductionBuild) (opt : Option Bool) (clone : Bool) (f : Option Nat) :
    baseOf p none opt clone f = p := by simp [baseOf]

theorem baseOf_modify (p : ProductionBuild) (a : Span) (opt : Option Bool) (clone : Bool)
    (f : Option Nat) (g : ItemAlias → ItemAlias) (opt' : Option Bool) (f' : Option Nat)
    (hg : g (itemAlias p.production.length opt clone f a) =
      itemAlias p.production.length opt' clone f' a) :
    (baseOf p (some a) opt clone f).modifyLast g = .ok (baseOf p (some a) opt' clone f') := by
  unfold ProductionBuild.modifyLast baseOf
  simp only [Option.toList_some, List.map_cons, List.map_nil]
  rw [modifyLast_append, hg]
  rfl

theorem skipAlias_eq (p : ProductionBuild) (al : Option Span) (opt : Option Bool) (clone : Bool)
    (f : Option Nat) :
    skipAlias (baseOf p al opt clone f) al = .ok (baseOf p al (some false) clone f) := by
  cases al with
  | none => simp [skipAlias, baseOf_none]
  | some a =>
    unfold skipAlias
    simp only [Option.isSome_some, if_true]
    exact baseOf_modify p a opt clone f _ _ _ rfl

theorem baseOf_spans (p : ProductionBuild) (al : Option Span) (opt : Option Bool) (clone : Bool)
    (f : Option Nat) : (baseOf p al opt clone f).spans = p.spans ++ al.toList := by
  simp [baseOf, ProductionBuild.spans, itemAlias, Function.comp_def]

theorem aliasTexts_eq (src : Text) (p : ProductionBuild) :
    aliasTexts src p.aliases = p.spans.map (textOf src) := by
  simp [aliasTexts, ProductionBuild.spans, Function.comp_def]

/-- One symbol. -/
theorem rel_sym (E : Env) (p : ProductionBuild) (sp : Span) (opt : Bool) (al : Option Span)
    (clone : Bool) :
    Rel E p (Item.sym sp opt al clone).names (Item.sym sp opt al clone).bare
      ((Item.sym sp opt al clone).WellNamed E.src) (fun t g c => (Item.sym sp opt al clone).Uniform E.src t g c)
      { word := [sp], places := al.toList.map (fun a => (a, ⟨0, 1, none, clone⟩)),
        entered := al.toList }
      { baseOf p al (if opt then some true else none) clone none with
        production := p.production ++ [resolve E.src E.aliases sp] } where
  kinds t g c hu hp e he := by
    rw [Item.Uniform] at hu
    rcases List.mem_append.mp he with he | he
    · exact hp e he
    · obtain ⟨b, hb, rfl⟩ := List.mem_map.mp he
      intro ht
      obtain ⟨rfl, h2⟩ := hu b hb ht
      exact ⟨rfl, h2, fun h => by cases h⟩
  word := rfl
  block := rfl
  ty := rfl
  spans s h := by
    have : s ∈ (baseOf p al (if opt then some true else none) clone none).spans := h
    rw [baseOf_spans] at this
    simpa [Item.names] using this
  texts t := by
    have := aliasTexts_eq E.src (baseOf p al (if opt then some true else none) clone none)
    simp only [] at this ⊢
    rw [this, baseOf_spans, aliasTexts_eq, List.map_append, List.mem_append, Item.names]
  places a pl h := by
    simp only [List.mem_map, Prod.mk.injEq] at h
    obtain ⟨b, hb, rfl, _⟩ := h
    simpa [Item.names] using hb
  entered a h := by simpa [Item.names] using h
  bare a h := by
    simp only [Item.bare] at h
    split at h
    · cases h
    · simpa [Item.names] using h
  aliases _ _ := by
    refine ⟨al.toList.map (itemAlias p.production.length (if opt then some true else none) clone none),
      rfl, ?_, ?_, ?_, ?_⟩
    · cases al <;> simp [aliasTexts]
    · intro a ha
      obtain ⟨b, hb, rfl⟩ := List.mem_map.mp ha
      rw [Item.names]
      exact hb
    · intro n hn
      rw [Item.names] at hn
      exact List.mem_map.mpr ⟨_, List.mem_map.mpr ⟨n, hn, rfl⟩, rfl⟩
    · intro a ha
      obtain ⟨b, hb, rfl⟩ := List.mem_map.mp ha
      have hb' : al = some b := by simpa using hb
      subst hb'
      refine ⟨fun n pl hpl _ => ?_, ?_⟩
      · simp at hpl
        obtain ⟨rfl, rfl⟩ := hpl
        simp [itemAlias]
      · cases opt <;> simp [itemAlias, Item.bare]

/-- A symbol that is skipped. -/
theorem rel_sym_skip (E : Env) (p : ProductionBuild) (sp : Span) (al : Option Span) (clone : Bool) :
    Rel E p (Item.sym sp true al clone).names (Item.sym sp true al clone).bare
      ((Item.sym sp true al clone).WellNamed E.src)
      (fun t g c => (Item.sym sp true al clone).Uniform E.src t g c) Expansion.empty
      (baseOf p al (some false) clone none) where
  kinds t g c hu hp e he := by
    rw [Item.Uniform] at hu
    rcases List.mem_append.mp he with he | he
    · exact hp e he
    · obtain ⟨b, hb, rfl⟩ := List.mem_map.mp he
      intro ht
      obtain ⟨rfl, h2⟩ := hu b hb ht
      exact ⟨rfl, h2, fun h => by cases h⟩
  word := by simp [Expansion.empty, baseOf]
  block := rfl
  ty := rfl
  spans s h := by
    rw [baseOf_spans] at h
    simpa [Item.names] using h
  texts t := by
    rw [aliasTexts_eq, baseOf_spans, aliasTexts_eq, List.map_append, List.mem_append, Item.names]
  places a pl h := by cases h
  entered a h := by cases h
  bare a h := by cases h
  aliases _ _ := by
    refine ⟨al.toList.map (itemAlias p.production.length (some false) clone none), rfl, ?_, ?_, ?_, ?_⟩
    · cases al <;> simp [aliasTexts]
    · intro a ha
      obtain ⟨b, hb, rfl⟩ := List.mem_map.mp ha
      rw [Item.names]
      exact hb
    · intro n hn
      rw [Item.names] at hn
      exact List.mem_map.mpr ⟨_, List.mem_map.mpr ⟨n, hn, rfl⟩, rfl⟩
    · intro a ha
      obtain ⟨b, hb, rfl⟩ := List.mem_map.mp ha
      refine ⟨fun n pl hpl => (by cases hpl), ?_⟩
      simp [itemAlias, Item.bare, Expansion.empty]

/-! ### Groups -/

/-- `q` was made from an alternative of the group by the expansion `x`. -/
def VRel (E : Env) (p : ProductionBuild) (alts : List (List Item)) (al : Option Span) (opt : Bool)
    (clone : Bool) (x : Expansion) (q : ProductionBuild) : Prop :=
  ∃ alt ∈ alts, ∃ x₀, Rel E (baseOf p al (if opt then some true else none) clone
      (some (p.production.length + alt.length))) (names alt) (bare alt) (WellNamed E.src alt)
      (fun t g c => Uniform E.src t g c alt) x₀ q ∧
    x = { word := x₀.word
          places := al.toList.map (fun n => (n, ⟨0, x₀.word.length, some alt.length, clone⟩)) ++ x₀.places
          entered := al.toList ++ names alt }

theorem mem_altNames {s : Span} : ∀ {alts : List (List Item)},
    s ∈ altNames alts ↔ ∃ alt ∈ alts, s ∈ names alt
  | [] => by simp [altNames]
  | a :: as => by simp [altNames, mem_altNames (alts := as)]

theorem altsWellNamed_mem {src : Text} : ∀ {alts : List (List Item)}, AltsWellNamed src alts →
    ∀ A ∈ alts, WellNamed src A
  | [], _, _, h => by cases h
  | a :: as, h, A, hA => by
    rw [AltsWellNamed] at h
    rcases List.mem_cons.mp hA with rfl | hA
    · exact h.1
    · exact altsWellNamed_mem h.2 A hA

theorem mark_kind {src t : Text} {g c : Bool} {name : Span} : ∀ {as : List ItemAlias},
    (∀ e ∈ as, KindOk src t g c e) →
    (textOf src name = t → (g = false ∧ c = false) ∨ t ∈ aliasTexts src as) →
    ∀ e ∈ mark src name as, KindOk src t g c e
  | [], _, h, e, he => by
    rw [mark, List.mem_singleton] at he
    subst he
    intro ht
    rcases h ht with ⟨rfl, rfl⟩ | h
    · exact ⟨rfl, rfl, fun h => by cases h⟩
    · cases h
  | a :: as, ha, h, e, he => by
    obtain ⟨h1, h2⟩ := List.forall_mem_cons.mp ha
    unfold mark at he
    split at he
    · rcases List.mem_cons.mp he with rfl | he
      · intro ht
        obtain ⟨k1, k2, k3⟩ := h1 ht
        exact ⟨k1, k2, fun _ => by simp⟩
      · exact h2 e he
    · rename_i hne
      rcases List.mem_cons.mp he with rfl | he
      · exact h1
      · refine mark_kind h2 (fun ht => ?_) e he
        rcases h ht with h | h
        · exact .inl h
        · refine .inr ?_
          simp only [aliasTexts, List.map_cons, List.mem_cons] at h ⊢
          exact h.resolve_left (fun h => hne (h.symm.trans ht.symm))

theorem markAll_kind {src t : Text} {g c : Bool} : ∀ {ns : List Span} {as : List ItemAlias},
    (∀ e ∈ as, KindOk src t g c e) →
    (t ∈ ns.map (textOf src) → (g = false ∧ c = false) ∨ t ∈ aliasTexts src as) →
    ∀ e ∈ markAll src ns as, KindOk src t g c e
  | [], as, ha, _, e, he => ha e he
  | n :: ns, as, ha, h, e, he => by
    have e1 : markAll src (n :: ns) as = markAll src ns (mark src n as) := rfl
    rw [e1] at he
    refine markAll_kind (mark_kind ha (fun ht => h ?_)) (fun ht => ?_) e he
    · rw [← ht]
      exact List.mem_cons_self ..
    · rcases h (List.mem_cons_of_mem _ ht) with h | h
      · exact .inl h
      · exact .inr (mark_texts.mpr (.inl h))

/-- The productions of a group after `set_sub_aliases`. -/
theorem VRel.marked {E : Env} {p : ProductionBuild} {alts : List (List Item)} {al : Option Span}
    {opt clone : Bool} {x : Expansion} {q : ProductionBuild} {ns : List Span}
    (h : VRel E p alts al opt clone x q)
    (hns : ns.Nodup) (hbase : ∀ s ∈ ns, s ∉ p.spans ++ al.toList)
    (hin : ∀ s ∈ ns, s ∈ altNames alts)
    (hall : ∀ s ∈ altNames alts,
      textOf E.src s ∈ (p.spans ++ al.toList).map (textOf E.src) ∨
      textOf E.src s ∈ ns.map (textOf E.src)) :
    Rel E p (Item.group alts opt al clone).names (Item.group alts opt al clone).bare
      ((Item.group alts opt al clone).WellNamed E.src)
      (fun t g c => (Item.group alts opt al clone).Uniform E.src t g c) x
      { q with aliases := markAll E.src ns q.aliases } := by
  obtain ⟨alt, halt, x₀, hr, rfl⟩ := h
  have hsub : ∀ s ∈ names alt, s ∈ altNames alts := fun s hs => mem_altNames.mpr ⟨alt, halt, hs⟩
  refine ⟨hr.word, hr.block, hr.ty, ?_, ?_, ?_, ?_, ?_, ?_, ?kinds⟩
  case kinds =>
    intro t g c hu hp
    rw [Item.Uniform] at hu
    obtain ⟨u1, u2, u3⟩ := hu
    refine markAll_kind (hr.kinds t g c (altsUniform_mem u3 alt halt) ?_) ?_
    · intro e he
      rcases List.mem_append.mp he with he | he
      · exact hp e he
      · obtain ⟨b, hb, rfl⟩ := List.mem_map.mp he
        intro ht
        obtain ⟨rfl, h2, rfl⟩ := u1 b hb ht
        exact ⟨rfl, h2, fun _ => by simp [itemAlias]⟩
    · intro ht
      obtain ⟨n, hn, e⟩ := List.mem_map.mp ht
      rcases (u2 (e ▸ List.mem_map_of_mem (hin n hn))).2 with h | h
      · exact .inl h
      · exact .inr ((hr.texts t).mpr (.inr (h alt halt)))
  · intro s hs
    simp only [Item.names]
    obtain ⟨a, ha, rfl⟩ := List.mem_map.mp hs
    rcases markAll_spans ha with h | h
    · rcases hr.spans _ h with h | h
      · rw [baseOf_spans] at h
        rcases List.mem_append.mp h with h | h
        · exact .inl h
        · exact .inr (List.mem_append_left _ h)
      · exact .inr (List.mem_append_right _ (hsub _ h))
    · exact .inr (List.mem_append_right _ (hin _ h))
  · intro t
    simp only [Item.names]
    rw [markAll_texts, hr.texts, aliasTexts_eq, baseOf_spans, aliasTexts_eq]
    simp only [List.map_append, List.mem_append] at hall ⊢
    constructor
    · rintro (((h | h) | h) | h)
      · exact .inl h
      · exact .inr (.inl h)
      · obtain ⟨s, hs, rfl⟩ := List.mem_map.mp h
        exact .inr (.inr (List.mem_map_of_mem (hsub s hs)))
      · obtain ⟨s, hs, rfl⟩ := List.mem_map.mp h
        exact .inr (.inr (List.mem_map_of_mem (hin s hs)))
    · rintro (h | h | h)
      · exact .inl (.inl (.inl h))
      · exact .inl (.inl (.inr h))
      · obtain ⟨s, hs, rfl⟩ := List.mem_map.mp h
        rcases hall s hs with (h | h) | h
        · exact .inl (.inl (.inl h))
        · exact .inl (.inl (.inr h))
        · exact .inr h
  · intro a pl h
    simp only [Item.names]
    rcases List.mem_append.mp h with h | h
    · simp only [List.mem_map, Prod.mk.injEq] at h
      obtain ⟨b, hb, rfl, _⟩ := h
      exact List.mem_append_left _ hb
    · exact List.mem_append_right _ (hsub _ (hr.places a pl h))
  · intro a h
    simp only [Item.names]
    rcases List.mem_append.mp h with h | h
    · exact List.mem_append_left _ h
    · exact List.mem_append_right _ (hsub _ h)
  · intro a h
    simp only [Item.bare] at h
    split at h
    · cases h
    · exact List.mem_append_left _ h
  · intro hW hd
    rw [Item.WellNamed] at hW
    obtain ⟨hap, hbal, hwn⟩ := hW
    rw [Item.names] at hd ⊢
    -- the names inside are none of those before
    have hbaseA : Apart E.src (p.spans ++ al.toList) (altNames alts) := by
      intro s hs n hn
      rcases List.mem_append.mp hs with hs | hs
      · exact hd s hs n (List.mem_append_right _ hn)
      · exact hap s hs n hn
    have hbs := baseOf_spans p al (if opt then some true else none) clone
      (some (p.production.length + alt.length))
    obtain ⟨news, hq, hnd, hnin, hcov, hn⟩ := hr.aliases (altsWellNamed_mem hwn alt halt) (by
      rw [hbs]
      exact fun s hs n hn => hbaseA s hs n (hsub n hn))
    have hpreA : ∀ a ∈ (baseOf p al (if opt then some true else none) clone
        (some (p.production.length + alt.length))).aliases, ∀ n ∈ altNames alts,
        textOf E.src a.alias ≠ textOf E.src n := by
      intro a ha n hn
      refine hbaseA _ ?_ n hn
      rw [← hbs]
      exact List.mem_map_of_mem ha
    have hmk := markAll_pre (src := E.src) hns hnd
      (fun a ha n hn => hpreA a ha n (hin n hn)) (fun n hn m hm e => by
        rcases hbal n (hin n hn) m (hin m hm) e with h | h
        · exact .inl h
        · obtain ⟨s, hs, e'⟩ := List.mem_map.mp (h alt halt)
          exact .inr (e' ▸ hcov s hs))
    have hall' : ∀ s ∈ altNames alts, textOf E.src s ∈ ns.map (textOf E.src) := by
      intro s hs
      refine (hall s hs).resolve_left (fun h => ?_)
      obtain ⟨b, hb, e⟩ := List.mem_map.mp h
      exact hbaseA b hb s hs e
    have halt' : ∀ {s : Span}, s ∈ altNames alts → textOf E.src s ∉ al.toList.map (textOf E.src) := by
      intro s hs h
      obtain ⟨b, hb, e⟩ := List.mem_map.mp h
      exact hap b hb s hs e
    have hbare : ∀ {s : Span}, s ∈ altNames alts →
        textOf E.src s ∉ (Item.group alts opt al clone).bare.map (textOf E.src) := by
      intro s hs h
      rw [Item.bare] at h
      split at h
      · cases h
      · exact halt' hs h
    let ga := al.toList.map (itemAlias p.production.length (if opt then some true else none) clone
      (some (p.production.length + alt.length)))
    let missing := ns.filter (fun n => textOf E.src n ∉ aliasTexts E.src news)
    have hmiss : ∀ n ∈ missing, n ∈ ns ∧ textOf E.src n ∉ aliasTexts E.src news := by
      intro n hn
      obtain ⟨h1, h2⟩ := List.mem_filter.mp hn
      exact ⟨h1, by simpa using h2⟩
    have e1 : aliasTexts E.src ga = al.toList.map (textOf E.src) := by
      simp [ga, itemAlias, aliasTexts, Function.comp_def]
    have e3 : aliasTexts E.src (missing.map (absent false)) = missing.map (textOf E.src) := by
      simp only [aliasTexts, List.map_map]
      exact List.map_congr_left (fun a _ => rfl)
    have eA : ∀ l l' : List ItemAlias, aliasTexts E.src (l ++ l') =
        aliasTexts E.src l ++ aliasTexts E.src l' := by simp [aliasTexts]
    have hnewsA : ∀ a ∈ news, a.alias ∈ altNames alts := fun a ha => hsub _ (hnin a ha)
    refine ⟨ga ++ (news.map (setText E.src ns) ++ missing.map (absent false)), ?_, ?_, ?_, ?_, ?_⟩
    · simp only
      rw [hq, hmk]
      simp only [baseOf, List.append_assoc, ga, missing]
    · rw [eA, eA, setText_texts, e1, e3]
      refine List.nodup_append.mpr ⟨by cases al <;> simp, List.nodup_append.mpr ⟨hnd, ?_, ?_⟩, ?_⟩
      · refine nodup_map_of_inj (hns.filter _) (fun n hn m hm e => ?_)
        obtain ⟨h1, h2⟩ := hmiss n hn
        obtain ⟨h3, h4⟩ := hmiss m hm
        rcases hbal n (hin n h1) m (hin m h3) e with h | h
        · exact h
        · obtain ⟨s, hs, e'⟩ := List.mem_map.mp (h alt halt)
          exact absurd (e' ▸ hcov s hs) h2
      · intro t ht u hu e
        obtain ⟨m, hm, rfl⟩ := List.mem_map.mp hu
        exact (hmiss m hm).2 (e ▸ ht)
      · intro t ht u hu e
        subst e
        rcases List.mem_append.mp hu with hu | hu
        · obtain ⟨a, ha, rfl⟩ := List.mem_map.mp hu
          exact halt' (hnewsA a ha) ht
        · obtain ⟨m, hm, rfl⟩ := List.mem_map.mp hu
          exact halt' (hin m (hmiss m hm).1) ht
    · intro a ha
      rcases List.mem_append.mp ha with ha | ha
      · obtain ⟨b, hb, rfl⟩ := List.mem_map.mp ha
        exact List.mem_append_left _ hb
      · refine List.mem_append_right _ ?_
        rcases List.mem_append.mp ha with ha | ha
        · obtain ⟨b, hb, rfl⟩ := List.mem_map.mp ha
          rw [setText_alias]
          exact hnewsA b hb
        · obtain ⟨b, hb, rfl⟩ := List.mem_map.mp ha
          exact hin b (hmiss b hb).1
    · intro n hn
      rw [eA, eA, setText_texts, e1, e3]
      rcases List.mem_append.mp hn with hn | hn
      · exact List.mem_append_left _ (List.mem_map_of_mem hn)
      · refine List.mem_append_right _ ?_
        obtain ⟨m, hm, e⟩ := List.mem_map.mp (hall' n hn)
        rw [← e]
        by_cases h : textOf E.src m ∈ aliasTexts E.src news
        · exact List.mem_append_left _ h
        · exact List.mem_append_right _ (List.mem_map_of_mem
            (List.mem_filter.mpr ⟨hm, by simpa using h⟩))
    · intro a ha
      rcases List.mem_append.mp ha with ha | ha
      · obtain ⟨b, hb, rfl⟩ := List.mem_map.mp ha
        have hb' : al = some b := by simpa using hb
        refine ⟨fun n pl hpl en => ?_, ?_⟩
        · rcases List.mem_append.mp hpl with h | h
          · subst hb'
            simp at h
            obtain ⟨rfl, rfl⟩ := h
            simp [itemAlias]
          · exact absurd en.symm (hap b hb n (hsub _ (hr.places _ _ h)))
        · subst hb'
          cases opt <;> simp [itemAlias, Item.bare]
      · rcases List.mem_append.mp ha with ha | ha
        · obtain ⟨b, hb, rfl⟩ := List.mem_map.mp ha
          have hbn := hnin b hb
          have hbA := hsub _ hbn
          have hst : setText E.src ns b = { b with optional := some true } := by
            unfold setText
            rw [if_pos (hall' _ hbA)]
          rw [hst]
          refine ⟨fun n pl hpl en => ?_, ?_⟩
          · rcases List.mem_append.mp hpl with h | h
            · simp only [List.mem_map, Prod.mk.injEq] at h
              obtain ⟨c, hc, e, _⟩ := h
              exact absurd (e ▸ en) (hap c hc _ hbA)
            · exact (hn b hb).place n pl h en
          · simp only
            rw [if_neg (hbare hbA), decide_eq_true]
            rw [List.map_append]
            exact List.mem_append_right _ (List.mem_map_of_mem hbn)
        · obtain ⟨b, hb, rfl⟩ := List.mem_map.mp ha
          obtain ⟨hbns, hbq⟩ := hmiss b hb
          have hbA := hin _ hbns
          have hbn : textOf E.src b ∉ (names alt).map (textOf E.src) := by
            intro h
            obtain ⟨s, hs, e⟩ := List.mem_map.mp h
            exact hbq (e ▸ hcov s hs)
          refine ⟨fun n pl hpl en => ?_, ?_⟩
          · rcases List.mem_append.mp hpl with h | h
            · simp only [List.mem_map, Prod.mk.injEq] at h
              obtain ⟨c, hc, e, _⟩ := h
              exact absurd (e ▸ en) (hap c hc _ hbA)
            · exact absurd (en ▸ List.mem_map_of_mem (hr.places _ _ h)) hbn
          · have hno : textOf E.src b ∉ (al.toList ++ names alt).map (textOf E.src) := by
              rw [List.map_append, List.mem_append]
              rintro (h | h)
              · exact halt' hbA h
              · exact hbn h
            simp only [absent, hbare hbA, if_false, hno, decide_false]

/-- The production that skips an optional group. -/
theorem rel_group_skip {E : Env} {p first : ProductionBuild} {alts : List (List Item)}
    {al : Option Span} {clone : Bool} {f : Option Nat}
    {x : Expansion} (hf : Rel E p (Item.group alts true al clone).names
      (Item.group alts true al clone).bare ((Item.group alts true al clone).WellNamed E.src)
      (fun t g c => (Item.group alts true al clone).Uniform E.src t g c) x first) :
    Rel E p (Item.group alts true al clone).names (Item.group alts true al clone).bare
      ((Item.group alts true al clone).WellNamed E.src)
      (fun t g c => (Item.group alts true al clone).Uniform E.src t g c) Expansion.empty
      { baseOf p al (some false) clone f with
        aliases := addIgnored clone first.aliases (baseOf p al (some false) clone f).aliases } := by
  obtain ⟨extra, he, hend, hmem⟩ := addIgnored_spec clone first.aliases
    (baseOf p al (some false) clone f).aliases
  have hb := baseOf_spans p al (some false) clone f
  unfold ProductionBuild.spans at hb
  rw [hb] at hmem
  have hspans : (addIgnored clone first.aliases (baseOf p al (some false) clone f).aliases).map
      (·.alias) = (p.spans ++ al.toList) ++ extra := by
    rw [he, List.map_append, hb, List.map_map]
    congr 1
    exact (List.map_congr_left (g := id) (fun a _ => rfl)).trans (List.map_id _)
  refine ⟨by simp [Expansion.empty, baseOf], rfl, rfl, ?_, ?_, ?_, ?_, ?_, ?_, ?kinds⟩
  case kinds =>
    intro t g c hu hp e he'
    rw [Item.Uniform] at hu
    obtain ⟨u1, u2, u3⟩ := hu
    simp only [he] at he'
    rcases List.mem_append.mp he' with h | h
    · rcases List.mem_append.mp h with h | h
      · exact hp e h
      · obtain ⟨b, hb', rfl⟩ := List.mem_map.mp h
        intro ht
        obtain ⟨_, _, h3⟩ := u1 b hb' ht
        cases h3
    · obtain ⟨s, hs, rfl⟩ := List.mem_map.mp h
      obtain ⟨h1, h2⟩ := (hmem s).mp hs
      rw [List.mem_append, not_or] at h2
      have hsp := (hf.spans s h1).resolve_left h2.1
      rw [Item.names] at hsp
      have hsa := (List.mem_append.mp hsp).resolve_left h2.2
      intro ht
      have ht : textOf E.src s = t := ht
      obtain ⟨rfl, h4⟩ := (u2 (ht ▸ List.mem_map_of_mem hsa)).1 rfl
      exact ⟨rfl, h4, fun h => by cases h⟩
  · intro s hs
    unfold ProductionBuild.spans at hs
    simp only [hspans] at hs
    simp only [Item.names]
    rcases List.mem_append.mp hs with h | h
    · rcases List.mem_append.mp h with h | h
      · exact .inl h
      · exact .inr (List.mem_append_left _ h)
    · exact hf.spans s ((hmem s).mp h).1
  · intro t
    have : aliasTexts E.src (addIgnored clone first.aliases
        (baseOf p al (some false) clone f).aliases) =
        ((p.spans ++ al.toList) ++ extra).map (textOf E.src) := by
      rw [← hspans]; simp [aliasTexts, Function.comp_def]
    simp only [this]
    have hft := hf.texts t
    rw [aliasTexts_eq, aliasTexts_eq] at hft
    rw [aliasTexts_eq]
    simp only [Item.names, List.map_append, List.mem_append] at hft ⊢
    constructor
    · rintro ((h | h) | h)
      · exact .inl h
      · exact .inr (.inl h)
      · obtain ⟨s, hs, rfl⟩ := List.mem_map.mp h
        exact hft.mp (List.mem_map_of_mem ((hmem s).mp hs).1)
    · intro h
      obtain ⟨s, hs, rfl⟩ := List.mem_map.mp (hft.mpr h)
      by_cases hc : s ∈ p.spans ++ al.toList
      · rcases List.mem_append.mp hc with h | h
        · exact .inl (.inl (List.mem_map_of_mem h))
        · exact .inl (.inr (List.mem_map_of_mem h))
      · exact .inr (List.mem_map_of_mem ((hmem s).mpr ⟨hs, hc⟩))
  · intro a pl h; cases h
  · intro a h; cases h
  · intro a h; cases h
  · intro hW hd
    obtain ⟨news, hn1, hnd, hnin, hcov, -⟩ := hf.aliases hW hd
    rw [Item.WellNamed] at hW
    obtain ⟨hap, -, -⟩ := hW
    rw [Item.names] at hd hnin hcov ⊢
    have hfs : first.aliases.map (·.alias) = p.spans ++ news.map (·.alias) := by
      rw [hn1, List.map_append]; rfl
    have hex : ∀ s ∈ extra, (∃ a ∈ news, a.alias = s) ∧ s ∈ altNames alts := by
      intro s hs
      obtain ⟨h1, h2⟩ := (hmem s).mp hs
      rw [hfs] at h1
      rw [List.mem_append, not_or] at h2
      obtain ⟨a, ha, e⟩ := List.mem_map.mp ((List.mem_append.mp h1).resolve_left h2.1)
      refine ⟨⟨a, ha, e⟩, (List.mem_append.mp (e ▸ hnin a ha)).resolve_left h2.2⟩
    have e1 : aliasTexts E.src (al.toList.map (itemAlias p.production.length (some false) clone f)) =
        al.toList.map (textOf E.src) := by simp [itemAlias, aliasTexts, Function.comp_def]
    have e3 : aliasTexts E.src (extra.map (absent clone)) = extra.map (textOf E.src) := by
      simp only [aliasTexts, List.map_map]
      exact List.map_congr_left (fun a _ => rfl)
    have eA : ∀ l l' : List ItemAlias, aliasTexts E.src (l ++ l') =
        aliasTexts E.src l ++ aliasTexts E.src l' := by simp [aliasTexts]
    refine ⟨al.toList.map (itemAlias p.production.length (some false) clone f) ++
      extra.map (absent clone), ?_, ?_, ?_, ?_, ?_⟩
    · simp only [he]
      simp [baseOf]
    · rw [eA, e1, e3]
      refine List.nodup_append.mpr ⟨by cases al <;> simp, ?_, ?_⟩
      · refine nodup_map_of_inj hend (fun s hs t ht e => ?_)
        obtain ⟨⟨a, ha, rfl⟩, _⟩ := hex s hs
        obtain ⟨⟨b, hb, rfl⟩, _⟩ := hex t ht
        rw [inj_of_nodup_map hnd ha hb e]
      · intro t ht u hu e
        obtain ⟨b, hb, rfl⟩ := List.mem_map.mp ht
        obtain ⟨s, hs, rfl⟩ := List.mem_map.mp hu
        exact hap b hb s (hex s hs).2 e
    · intro a ha
      rcases List.mem_append.mp ha with ha | ha
      · obtain ⟨b, hb, rfl⟩ := List.mem_map.mp ha
        exact List.mem_append_left _ hb
      · obtain ⟨b, hb, rfl⟩ := List.mem_map.mp ha
        exact List.mem_append_right _ (hex b hb).2
    · intro n hn
      rw [eA, e1, e3]
      rcases List.mem_append.mp hn with hn' | hn'
      · exact List.mem_append_left _ (List.mem_map_of_mem hn')
      · refine List.mem_append_right _ ?_
        obtain ⟨a, ha, e⟩ := List.mem_map.mp (hcov n hn)
        rw [← e]
        refine List.mem_map_of_mem ((hmem _).mpr ⟨?_, ?_⟩)
        · rw [hfs]
          exact List.mem_append_right _ (List.mem_map_of_mem ha)
        · rw [List.mem_append]
          rintro (h | h)
          · exact hd _ h _ (hnin a ha) rfl
          · exact hap _ h n hn' e
    · intro a ha
      have hopt : a.optional = some false := by
        rcases List.mem_append.mp ha with ha | ha
        · obtain ⟨b, _, rfl⟩ := List.mem_map.mp ha
          rfl
        · obtain ⟨b, _, rfl⟩ := List.mem_map.mp ha
          rfl
      refine ⟨fun n pl hpl => (by cases hpl), ?_⟩
      rw [hopt]
      simp [Item.bare, Expansion.empty]

end Lrp.Wop
