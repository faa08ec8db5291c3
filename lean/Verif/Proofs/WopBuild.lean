import Verif.Spec.WopBuild
import Verif.Proofs.WopGen

/-! Proofs about what can be read off a `wop` program. -/

namespace Lrp.Wop
open _root_.Lrp.Spec _root_.Lrp.Wop.Spec
set_option linter.unusedSectionVars false

variable {T : Type}

/-! ### Programs that are read have no empty groups -/

theorem altsFull_of_mem : ∀ {alts : List (List Item)}, (∀ A ∈ alts, Full A) → AltsFull alts
  | [], _ => by rw [AltsFull]; trivial
  | a :: as, h => by
    rw [AltsFull]
    exact ⟨h a (by simp), altsFull_of_mem (fun A hA => h A (by simp [hA]))⟩

theorem full_append : ∀ {is js : List Item}, Full is → Full js → Full (is ++ js)
  | [], js, _, h => h
  | i :: is, js, h, h' => by
    rw [Full] at h
    rw [List.cons_append, Full]
    exact ⟨h.1, full_append h.2 h'⟩

theorem full_singleton {i : Item} (h : ItemFull i) : Full [i] := by
  rw [Full, Full]
  exact ⟨h, trivial⟩

mutual

theorem ReadsItem.full {toks : List Gramem} {i : Item} {bs : List Span} (h : ReadsItem toks i bs) :
    ItemFull i := by
  match h with
  | .path .. => rw [ItemFull]; trivial
  | .lit .. => rw [ItemFull]; trivial
  | .group _ hr _ _ _ =>
    obtain ⟨h1, h2⟩ := ReadsRule.full hr
    rw [ItemFull]
    refine ⟨by simpa using h1, altsFull_of_mem ?_⟩
    intro A hA
    obtain ⟨a, ha, rfl⟩ := List.mem_map.mp hA
    exact h2 a ha

theorem ReadsItems.full {toks : List Gramem} {is : List Item} {bs : List Span} (h : ReadsItems toks is bs) :
    Full is := by
  match h with
  | .one h1 => exact full_singleton (ReadsItem.full h1)
  | .more h1 h2 => exact full_append (ReadsItems.full h1) (full_singleton (ReadsItem.full h2))

theorem ReadsRule.full {toks : List Gramem} {alts : List Alt} (h : ReadsRule toks alts) :
    alts ≠ [] ∧ ∀ a ∈ alts, Full a.items := by
  match h with
  | .one h1 _ =>
    refine ⟨by simp, fun a ha => ?_⟩
    cases List.mem_singleton.mp ha
    exact ReadsItems.full h1
  | .more h1 _ h2 _ =>
    refine ⟨by simp, fun a ha => ?_⟩
    rcases List.mem_append.mp ha with ha | ha
    · exact (ReadsRule.full h1).2 a ha
    · cases List.mem_singleton.mp ha
      exact ReadsItems.full h2

end

theorem ReadsDecl.full {toks : List Gramem} {ident ty : Span} {alts : List Alt}
    (h : ReadsDecl toks (.rule ident ty alts)) : alts ≠ [] ∧ ∀ a ∈ alts, Full a.items := by
  cases h with
  | rule _ _ _ _ h => exact ReadsRule.full h

theorem ReadsProgram.full {toks : List Gramem} {ds : List Decl} (h : ReadsProgram toks ds)
    {pre : List Decl} {ident : Span} {alts : List Alt} (hd : HasRule ds pre ident alts) :
    alts ≠ [] ∧ ∀ a ∈ alts, Full a.items := by
  obtain ⟨ty, post, e⟩ := hd
  have hm : Decl.rule ident ty alts ∈ ds := by rw [e]; simp
  clear e
  induction h with
  | one h _ =>
    cases List.mem_singleton.mp hm
    exact ReadsDecl.full h
  | more _ h _ ih =>
    rcases List.mem_append.mp hm with hm | hm
    · exact ih hm
    · cases List.mem_singleton.mp hm
      exact ReadsDecl.full h

/-! ### Items that can be left out -/

theorem skips_iff_both : ∀ is : List Item, (∃ x ∈ Spec.expand is, x.word = []) ↔ ∀ i ∈ is, Skips i := by
  refine items_induct (P := fun i => (∃ x ∈ i.expand, x.word = []) ↔ Skips i) ?_ ?_ ?_ ?_
  · intro sp o al c
    constructor
    · rintro ⟨x, hx, hw⟩
      rcases mem_expand_sym.mp hx with rfl | ⟨rfl, rfl⟩
      · simp at hw
      · exact .sym
    · intro h
      cases h
      exact ⟨_, mem_expand_sym.mpr (.inr ⟨rfl, rfl⟩), rfl⟩
  · intro alts o al c ih
    constructor
    · rintro ⟨x, hx, hw⟩
      rcases mem_expand_group.mp hx with ⟨A, hA, e, he, rfl⟩ | ⟨rfl, rfl⟩
      · exact .inside hA ((ih A hA).mp ⟨e, he, hw⟩)
      · exact .group
    · intro h
      cases h with
      | group => exact ⟨_, mem_expand_group.mpr (.inr ⟨rfl, rfl⟩), rfl⟩
      | inside hA h =>
        obtain ⟨e, he, hw⟩ := (ih _ hA).mpr h
        exact ⟨_, mem_expand_group.mpr (.inl ⟨_, hA, e, he, rfl⟩), hw⟩
  · exact ⟨by simp, fun _ => ⟨_, mem_expand_nil.mpr rfl, rfl⟩⟩
  · intro i is hi his
    rw [List.forall_mem_cons, ← hi, ← his]
    constructor
    · rintro ⟨x, hx, hw⟩
      obtain ⟨e, he, r, hr, rfl⟩ := mem_expand_cons.mp hx
      obtain ⟨h1, h2⟩ := List.append_eq_nil_iff.mp hw
      exact ⟨⟨e, he, h1⟩, ⟨r, hr, h2⟩⟩
    · rintro ⟨⟨e, he, h1⟩, ⟨r, hr, h2⟩⟩
      exact ⟨_, mem_expand_cons.mpr ⟨e, he, r, hr, rfl⟩, by simp [Expansion.append, h1, h2]⟩

theorem skips_iff {i : Item} : (∃ x ∈ i.expand, x.word = []) ↔ Skips i := by
  have := skips_iff_both [i]
  simp only [List.mem_singleton, forall_eq] at this
  rw [← this]
  constructor
  · rintro ⟨x, hx, hw⟩
    exact ⟨_, mem_expand_cons.mpr ⟨x, hx, _, mem_expand_nil.mpr rfl, rfl⟩, by
      simp [Expansion.append, hw, Expansion.empty]⟩
  · rintro ⟨x, hx, hw⟩
    obtain ⟨e, he, r, hr, rfl⟩ := mem_expand_cons.mp hx
    exact ⟨e, he, (List.append_eq_nil_iff.mp hw).1⟩

/-! ### Beginnings and ends -/

section
variable {src : Text} {sym : Text → T} {pre : List Decl}

theorem opens_iff_both {B : T} : ∀ is : List Item, Full is →
    ((∃ x ∈ Spec.expand is, ∃ sp w, x.word = sp :: w ∧ denotes src sym pre sp = B) ↔
      Opens src sym pre is B) := by
  refine items_induct (P := fun i => ItemFull i →
    ((∃ x ∈ i.expand, ∃ sp w, x.word = sp :: w ∧ denotes src sym pre sp = B) ↔
      ItemOpens src sym pre i B)) ?_ ?_ ?_ ?_
  · intro sp o al c _
    constructor
    · rintro ⟨x, hx, sp', w, hw, rfl⟩
      rcases mem_expand_sym.mp hx with rfl | ⟨rfl, rfl⟩
      · cases hw
        exact .sym
      · cases hw
    · intro h
      cases h
      exact ⟨_, mem_expand_sym.mpr (.inl rfl), _, _, rfl, rfl⟩
  · intro alts o al c ih hf
    rw [ItemFull] at hf
    constructor
    · rintro ⟨x, hx, sp', w, hw, e1⟩
      rcases mem_expand_group.mp hx with ⟨A, hA, e, he, rfl⟩ | ⟨rfl, rfl⟩
      · exact .group hA ((ih A hA (altsFull_mem hf.2 A hA)).mp ⟨e, he, sp', w, hw, e1⟩)
      · cases hw
    · intro h
      cases h with
      | group hA h =>
        obtain ⟨e, he, sp', w, hw, e1⟩ := (ih _ hA (altsFull_mem hf.2 _ hA)).mpr h
        exact ⟨_, mem_expand_group.mpr (.inl ⟨_, hA, e, he, rfl⟩), sp', w, hw, e1⟩
  · intro _
    constructor
    · rintro ⟨x, hx, sp', w, hw, e1⟩
      cases mem_expand_nil.mp hx
      cases hw
    · intro h
      cases h
  · intro i is hi his hf
    rw [Full] at hf
    constructor
    · rintro ⟨x, hx, sp', w, hw, e1⟩
      obtain ⟨e, he, r, hr, rfl⟩ := mem_expand_cons.mp hx
      simp only [Expansion.append] at hw
      rcases List.append_eq_cons_iff.mp hw with ⟨h1, h2⟩ | ⟨w', h1, _⟩
      · exact .later (skips_iff.mp ⟨e, he, h1⟩) ((his hf.2).mp ⟨r, hr, sp', w, h2, e1⟩)
      · exact .here ((hi hf.1).mp ⟨e, he, sp', w', h1, e1⟩)
    · intro h
      cases h with
      | here h =>
        obtain ⟨e, he, sp', w, hw, e1⟩ := (hi hf.1).mpr h
        obtain ⟨r, hr⟩ := full_expand is hf.2
        exact ⟨_, mem_expand_cons.mpr ⟨e, he, r, hr, rfl⟩, sp', w ++ r.word, by
          simp [Expansion.append, hw], e1⟩
      | later h h' =>
        obtain ⟨e, he, hw⟩ := skips_iff.mpr h
        obtain ⟨r, hr, sp', w, hw', e1⟩ := (his hf.2).mpr h'
        exact ⟨_, mem_expand_cons.mpr ⟨e, he, r, hr, rfl⟩, sp', w, by
          simp [Expansion.append, hw, hw'], e1⟩

theorem closes_iff_both {B : T} : ∀ is : List Item, Full is →
    ((∃ x ∈ Spec.expand is, ∃ sp w, x.word = w ++ [sp] ∧ denotes src sym pre sp = B) ↔
      Closes src sym pre is B) := by
  refine items_induct (P := fun i => ItemFull i →
    ((∃ x ∈ i.expand, ∃ sp w, x.word = w ++ [sp] ∧ denotes src sym pre sp = B) ↔
      ItemCloses src sym pre i B)) ?_ ?_ ?_ ?_
  · intro sp o al c _
    constructor
    · rintro ⟨x, hx, sp', w, hw, rfl⟩
      rcases mem_expand_sym.mp hx with rfl | ⟨rfl, rfl⟩
      · obtain ⟨_, h2⟩ := List.append_inj' (s₁ := []) (t₁ := [sp]) hw rfl
        cases h2
        exact .sym
      · simp [Expansion.empty] at hw
    · intro h
      cases h
      exact ⟨_, mem_expand_sym.mpr (.inl rfl), _, [], rfl, rfl⟩
  · intro alts o al c ih hf
    rw [ItemFull] at hf
    constructor
    · rintro ⟨x, hx, sp', w, hw, e1⟩
      rcases mem_expand_group.mp hx with ⟨A, hA, e, he, rfl⟩ | ⟨rfl, rfl⟩
      · exact .group hA ((ih A hA (altsFull_mem hf.2 A hA)).mp ⟨e, he, sp', w, hw, e1⟩)
      · simp [Expansion.empty] at hw
    · intro h
      cases h with
      | group hA h =>
        obtain ⟨e, he, sp', w, hw, e1⟩ := (ih _ hA (altsFull_mem hf.2 _ hA)).mpr h
        exact ⟨_, mem_expand_group.mpr (.inl ⟨_, hA, e, he, rfl⟩), sp', w, hw, e1⟩
  · intro _
    constructor
    · rintro ⟨x, hx, sp', w, hw, e1⟩
      cases mem_expand_nil.mp hx
      simp [Expansion.empty] at hw
    · intro h
      cases h
  · intro i is hi his hf
    rw [Full] at hf
    constructor
    · rintro ⟨x, hx, sp', w, hw, e1⟩
      obtain ⟨e, he, r, hr, rfl⟩ := mem_expand_cons.mp hx
      simp only [Expansion.append] at hw
      rcases List.eq_nil_or_concat r.word with h1 | ⟨w', s, h1⟩
      · rw [h1, List.append_nil] at hw
        exact .here ((hi hf.1).mp ⟨e, he, sp', w, hw, e1⟩) ((skips_iff_both is).mp ⟨r, hr, h1⟩)
      · rw [List.concat_eq_append] at h1
        rw [h1, ← List.append_assoc] at hw
        obtain ⟨_, h2⟩ := List.append_inj' hw rfl
        cases h2
        exact .later ((his hf.2).mp ⟨r, hr, sp', w', h1, e1⟩)
    · intro h
      cases h with
      | here h h' =>
        obtain ⟨e, he, sp', w, hw, e1⟩ := (hi hf.1).mpr h
        obtain ⟨r, hr, hw'⟩ := (skips_iff_both is).mpr h'
        exact ⟨_, mem_expand_cons.mpr ⟨e, he, r, hr, rfl⟩, sp', w, by
          simp [Expansion.append, hw, hw'], e1⟩
      | later h =>
        obtain ⟨e, he⟩ := full_expand [i] (full_singleton hf.1)
        obtain ⟨e, he, _⟩ := mem_expand_cons.mp he
        obtain ⟨r, hr, sp', w, hw, e1⟩ := (his hf.2).mpr h
        exact ⟨_, mem_expand_cons.mpr ⟨e, he, r, hr, rfl⟩, sp', e.word ++ w, by
          simp [Expansion.append, hw], e1⟩

theorem itemCloses_iff {B : T} {i : Item} (hf : ItemFull i) :
    (∃ x ∈ i.expand, ∃ sp w, x.word = w ++ [sp] ∧ denotes src sym pre sp = B) ↔
      ItemCloses src sym pre i B := by
  have := closes_iff_both (src := src) (sym := sym) (pre := pre) (B := B) [i] (full_singleton hf)
  constructor
  · rintro ⟨x, hx, sp, w, hw, e⟩
    have := this.mp ⟨_, mem_expand_cons.mpr ⟨x, hx, _, mem_expand_nil.mpr rfl, rfl⟩, sp, w, by
      simp [Expansion.append, hw, Expansion.empty], e⟩
    cases this with
    | here h _ => exact h
    | later h => cases h
  · intro h
    obtain ⟨x, hx, sp, w, hw, e1⟩ := this.mpr (.here h (by simp))
    obtain ⟨e, he, r, hr, rfl⟩ := mem_expand_cons.mp hx
    cases mem_expand_nil.mp hr
    exact ⟨e, he, sp, w, by simpa [Expansion.append, Expansion.empty] using hw, e1⟩

theorem append_pair {α : Type} {xs ys u v : List α} {a b : α} (h : xs ++ ys = u ++ a :: b :: v) :
    (∃ v', xs = u ++ a :: b :: v') ∨ (∃ w w', xs = w ++ [a] ∧ ys = b :: w') ∨
      ∃ u', ys = u' ++ a :: b :: v := by
  rcases List.append_eq_append_iff.mp h with ⟨c, h1, h2⟩ | ⟨c, h1, h2⟩
  · exact .inr (.inr ⟨c, h2⟩)
  · match c, h2 with
    | [], h2 => exact .inr (.inr ⟨[], by simpa using h2.symm⟩)
    | [x], h2 =>
      cases h2
      exact .inr (.inl ⟨u, v, h1, rfl⟩)
    | x :: y :: c, h2 =>
      cases h2
      exact .inl ⟨c, h1⟩

theorem beside_iff_both {A B : T} : ∀ is : List Item, Full is →
    ((∃ x ∈ Spec.expand is, ∃ u a b v, x.word = u ++ a :: b :: v ∧ denotes src sym pre a = A ∧
        denotes src sym pre b = B) ↔ Beside src sym pre is A B) := by
  refine items_induct (P := fun i => ItemFull i →
    ((∃ x ∈ i.expand, ∃ u a b v, x.word = u ++ a :: b :: v ∧ denotes src sym pre a = A ∧
        denotes src sym pre b = B) ↔ ItemBeside src sym pre i A B)) ?_ ?_ ?_ ?_
  · intro sp o al c _
    constructor
    · rintro ⟨x, hx, u, a, b, v, hw, _⟩
      have hl := congrArg List.length hw
      rcases mem_expand_sym.mp hx with rfl | ⟨rfl, rfl⟩
      · simp at hl
        omega
      · simp [Expansion.empty] at hw
    · intro h
      cases h
  · intro alts o al c ih hf
    rw [ItemFull] at hf
    constructor
    · rintro ⟨x, hx, u, a, b, v, hw, e1⟩
      rcases mem_expand_group.mp hx with ⟨A, hA, e, he, rfl⟩ | ⟨rfl, rfl⟩
      · exact .group hA ((ih A hA (altsFull_mem hf.2 A hA)).mp ⟨e, he, u, a, b, v, hw, e1⟩)
      · simp [Expansion.empty] at hw
    · intro h
      cases h with
      | group hA h =>
        obtain ⟨e, he, u, a, b, v, hw, e1⟩ := (ih _ hA (altsFull_mem hf.2 _ hA)).mpr h
        exact ⟨_, mem_expand_group.mpr (.inl ⟨_, hA, e, he, rfl⟩), u, a, b, v, hw, e1⟩
  · intro _
    constructor
    · rintro ⟨x, hx, u, a, b, v, hw, e1⟩
      cases mem_expand_nil.mp hx
      simp [Expansion.empty] at hw
    · intro h
      cases h
  · intro i is hi his hf
    rw [Full] at hf
    constructor
    · rintro ⟨x, hx, u, a, b, v, hw, e1, e2⟩
      obtain ⟨e, he, r, hr, rfl⟩ := mem_expand_cons.mp hx
      simp only [Expansion.append] at hw
      rcases append_pair hw with ⟨v', h⟩ | ⟨w, w', h1, h2⟩ | ⟨u', h⟩
      · exact .inside ((hi hf.1).mp ⟨e, he, u, a, b, v', h, e1, e2⟩)
      · exact .across ((itemCloses_iff hf.1).mp ⟨e, he, a, w, h1, e1⟩)
          ((opens_iff_both is hf.2).mp ⟨r, hr, b, w', h2, e2⟩)
      · exact .later ((his hf.2).mp ⟨r, hr, u', a, b, v, h, e1, e2⟩)
    · intro h
      cases h with
      | inside h =>
        obtain ⟨e, he, u, a, b, v, hw, e1⟩ := (hi hf.1).mpr h
        obtain ⟨r, hr⟩ := full_expand is hf.2
        exact ⟨_, mem_expand_cons.mpr ⟨e, he, r, hr, rfl⟩, u, a, b, v ++ r.word, by
          simp [Expansion.append, hw], e1⟩
      | across h1 h2 =>
        obtain ⟨e, he, a, w, hw, e1⟩ := (itemCloses_iff hf.1).mpr h1
        obtain ⟨r, hr, b, w', hw', e2⟩ := (opens_iff_both is hf.2).mpr h2
        exact ⟨_, mem_expand_cons.mpr ⟨e, he, r, hr, rfl⟩, w, a, b, w', by
          simp [Expansion.append, hw, hw'], e1, e2⟩
      | later h =>
        obtain ⟨e, he⟩ := full_expand [i] (full_singleton hf.1)
        obtain ⟨e, he, _⟩ := mem_expand_cons.mp he
        obtain ⟨r, hr, u, a, b, v, hw, e1⟩ := (his hf.2).mpr h
        exact ⟨_, mem_expand_cons.mpr ⟨e, he, r, hr, rfl⟩, e.word ++ u, a, b, v, by
          simp [Expansion.append, hw], e1⟩

end

/-! ### Items that leave no choice -/

theorem length_pos_of_full {is : List Item} (h : Full is) : 0 < (Spec.expand is).length := by
  obtain ⟨x, hx⟩ := full_expand is h
  exact List.length_pos_of_mem hx

theorem expand_cons_length {i : Item} {is : List Item} :
    (Spec.expand (i :: is)).length = i.expand.length * (Spec.expand is).length := by
  rw [Spec.expand, List.length_flatMap]
  simp [List.map_const', List.sum_replicate_nat]

theorem expandAlts_length {al : Option Span} {c : Bool} : ∀ {alts : List (List Item)},
    (expandAlts al c alts).length = (alts.map (fun A => (Spec.expand A).length)).sum
  | [] => rfl
  | A :: as => by
    rw [expandAlts, List.length_append, List.length_map, expandAlts_length, List.map_cons, List.sum_cons]

theorem mul_one_iff {a b : Nat} : a * b = 1 ↔ a = 1 ∧ b = 1 := by
  constructor
  · intro h
    have h1 : a ∣ 1 := ⟨b, h.symm⟩
    have h2 : b ∣ 1 := ⟨a, by rw [Nat.mul_comm]; exact h.symm⟩
    exact ⟨Nat.dvd_one.mp h1, Nat.dvd_one.mp h2⟩
  · rintro ⟨rfl, rfl⟩
    rfl

theorem rigid_iff_both : ∀ is : List Item, Full is →
    ((Spec.expand is).length = 1 ↔ ∀ i ∈ is, Rigid i) := by
  refine items_induct (P := fun i => ItemFull i → (i.expand.length = 1 ↔ Rigid i)) ?_ ?_ ?_ ?_
  · intro sp o al c _
    rw [Item.expand]
    cases o
    · exact ⟨fun _ => .sym, fun _ => rfl⟩
    · refine ⟨fun h => by simp at h, fun h => by cases h⟩
  · intro alts o al c ih hf
    rw [ItemFull] at hf
    rw [Item.expand, List.length_append, expandAlts_length]
    match alts, hf with
    | [], hf => exact absurd rfl hf.1
    | [A], hf =>
      have hA := ih A (by simp) (altsFull_mem hf.2 A (by simp))
      have hp := length_pos_of_full (altsFull_mem hf.2 A (by simp))
      simp only [List.map_cons, List.map_nil, List.sum_cons, List.sum_nil, Nat.add_zero]
      constructor
      · intro h
        cases o
        · refine .group (hA.mp ?_)
          simpa using h
        · simp at h
          rw [h] at hp
          simp at hp
      · intro h
        cases h with
        | group h => simpa using hA.mpr h
    | A :: A' :: as, hf =>
      have hp := length_pos_of_full (altsFull_mem hf.2 A (by simp))
      have hp' := length_pos_of_full (altsFull_mem hf.2 A' (by simp))
      simp only [List.map_cons, List.sum_cons]
      constructor
      · intro h
        omega
      · intro h
        cases h
  · intro _
    simp [Spec.expand]
  · intro i is hi his hf
    rw [Full] at hf
    rw [expand_cons_length, mul_one_iff, List.forall_mem_cons, hi hf.1, his hf.2]

theorem expansions_length {alts : List Alt} :
    (expansions alts).length = (alts.map (fun a => (Spec.expand a.items).length)).sum := by
  unfold expansions
  rw [List.length_flatMap]
  simp

theorem one_expansion {alts : List Alt} (hf : ∀ a ∈ alts, Full a.items) :
    (expansions alts).length = 1 ↔ ∃ a, alts = [a] ∧ ∀ i ∈ a.items, Rigid i := by
  rw [expansions_length]
  match alts, hf with
  | [], _ => simp
  | [a], hf =>
    simp only [List.map_cons, List.map_nil, List.sum_cons, List.sum_nil, Nat.add_zero]
    rw [rigid_iff_both _ (hf a (by simp))]
    constructor
    · intro h
      exact ⟨a, rfl, h⟩
    · rintro ⟨a', e, h⟩
      cases e
      exact h
  | a :: a' :: as, hf =>
    have hp := length_pos_of_full (hf a (by simp))
    have hp' := length_pos_of_full (hf a' (by simp))
    simp only [List.map_cons, List.sum_cons]
    constructor
    · intro h
      omega
    · rintro ⟨_, e, _⟩
      cases e

end Lrp.Wop
