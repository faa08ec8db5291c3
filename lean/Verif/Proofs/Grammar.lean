import Verif.Proofs.Collections
import Verif.Proofs.Out
import Verif.Proofs.Cfg

/-! What `grammar_map!` and `Grammar::new` build, in terms of the declarations. -/

set_option linter.unusedSectionVars false

namespace Lrp
open Spec
variable {T : Type} [LinOrd T] [DecidableEq T]

/-- Membership in a set built by a fold, each step of which adds the elements satisfying `Q`. -/
theorem mem_foldl {α β : Type} {f : OSet α → β → OSet α} {Q : β → α → Prop}
    (h : ∀ acc b x, x ∈ f acc b ↔ x ∈ acc ∨ Q b x) (l : List β) (acc : OSet α) (x : α) :
    x ∈ l.foldl f acc ↔ x ∈ acc ∨ ∃ b ∈ l, Q b x := by
  induction l generalizing acc with
  | nil => simp
  | cons b l ih =>
    rw [List.foldl_cons, ih, h]
    simp only [List.mem_cons, exists_eq_or_imp, or_assoc]

theorem Rule.new_prods {A : T} {bs : List (List T)} {p : Production T} :
    p ∈ (Rule.new A bs).prods ↔ bs[p.2]? = some p.1 := by
  obtain ⟨b, i⟩ := p
  simp only [Rule.new]
  rw [List.mem_zipIdx_iff_getElem?]

theorem grammarMap_sorted (D : Decls T) : OMap.Sorted (grammarMap D) := by
  unfold grammarMap
  exact foldl_inv (P := fun m => OMap.Sorted m) OMap.sorted_nil
    (fun m d _ h => OMap.sorted_insert h _ _)

theorem grammarMap_get? (D : Decls T) (A : T) (r : Rule T) :
    (grammarMap D).get? A = some r ↔ ∃ bs, Declared D A bs ∧ r = Rule.new A bs := by
  unfold grammarMap
  refine foldl_inv' (P := fun pre m => OMap.get? m A = some r ↔
    ∃ bs, Declared pre A bs ∧ r = Rule.new A bs) ?_ ?_
  · simp [Declared]
  · intro pre d post m _ ih
    rw [OMap.get?_insert]
    by_cases h : A = d.1
    · rw [if_pos h]
      subst h
      constructor
      · intro e; cases e
        exact ⟨d.2, ⟨pre, [], by simp, by simp⟩, rfl⟩
      · rintro ⟨bs, hd, rfl⟩
        have : Declared (pre ++ [d]) d.1 d.2 := ⟨pre, [], by simp, by simp⟩
        rw [hd.unique this]
    · rw [if_neg h, ih]
      constructor
      · rintro ⟨bs, ⟨p, q, e, hq⟩, rfl⟩
        refine ⟨bs, ⟨p, q ++ [d], by simp [e], ?_⟩, rfl⟩
        intro x hx
        rcases List.mem_append.mp hx with hx | hx
        · exact hq x hx
        · simp at hx; subst hx; exact fun e => h e.symm
      · rintro ⟨bs, ⟨p, q, e, hq⟩, rfl⟩
        refine ⟨bs, ?_, rfl⟩
        rcases List.eq_nil_or_concat q with rfl | ⟨q', y, rfl⟩
        · have := List.append_inj_right' e (by simp)
          simp at this
          exact absurd (by rw [this]) h
        · have e' : pre ++ [d] = (p ++ (A, bs) :: q') ++ [y] := by simp [e]
          have e1 := List.append_inj_left' e' (by simp)
          exact ⟨p, q', e1, fun x hx => hq x (by simp [hx])⟩

theorem grammarMap_none (D : Decls T) (A : T) :
    (grammarMap D).get? A = none ↔ Terminal D A := by
  unfold grammarMap
  refine foldl_inv' (P := fun pre m => OMap.get? m A = none ↔ Terminal pre A) ?_ ?_
  · simp [Terminal]
  · intro pre d post m _ ih
    rw [OMap.get?_insert]
    by_cases h : A = d.1
    · rw [if_pos h]
      simp only [reduceCtorEq, false_iff]
      intro ht
      exact ht d (by simp) h.symm
    · rw [if_neg h, ih]
      unfold Terminal
      constructor
      · intro h1 x hx
        rcases List.mem_append.mp hx with hx | hx
        · exact h1 x hx
        · simp at hx; subst hx; exact fun e => h e.symm
      · intro h1 x hx; exact h1 x (by simp [hx])

theorem declared_of_nonterminal {D : Decls T} {A : T} (h : Nonterminal D A) :
    ∃ bs, Declared D A bs := by
  cases hg : (grammarMap D).get? A with
  | none => exact absurd ((grammarMap_none D A).mp hg) (not_terminal_iff.mpr h)
  | some r =>
    obtain ⟨bs, h1, _⟩ := (grammarMap_get? D A r).mp hg
    exact ⟨bs, h1⟩

namespace Grammar

theorem mem_collectTerminals (rules : RuleMap T) (x : T) :
    x ∈ collectTerminals rules ↔
      rules.get? x = none ∧ ∃ r ∈ rules.values, ∃ p ∈ r.prods, x ∈ p.1 := by
  unfold collectTerminals
  rw [mem_foldl (Q := fun (r : Rule T) x => ∃ p ∈ r.prods, x ∈ p.1 ∧ rules.get? x = none)]
  · simp only [List.not_mem_nil, false_or]
    constructor
    · rintro ⟨r, h1, p, h2, h3, h4⟩; exact ⟨h4, r, h1, p, h2, h3⟩
    · rintro ⟨h4, r, h1, p, h2, h3⟩; exact ⟨r, h1, p, h2, h3, h4⟩
  · intro acc r x
    rw [mem_foldl (Q := fun (p : Production T) x => x ∈ p.1 ∧ rules.get? x = none)]
    intro acc p x
    rw [mem_foldl (Q := fun (s : T) x => x = s ∧ rules.get? x = none)]
    · constructor
      · rintro (h | ⟨b, h1, rfl, h2⟩)
        · exact Or.inl h
        · exact Or.inr ⟨h1, h2⟩
      · rintro (h | ⟨h1, h2⟩)
        · exact Or.inl h
        · exact Or.inr ⟨x, h1, rfl, h2⟩
    · intro acc s x
      cases hc : rules.contains s
      · rw [OMap.contains_eq_false_iff] at hc
        simp only [Bool.not_false, if_true]
        rw [OSet.mem_insert]
        constructor
        · rintro (rfl | h)
          · exact Or.inr ⟨rfl, hc⟩
          · exact Or.inl h
        · rintro (h | ⟨rfl, _⟩)
          · exact Or.inr h
          · exact Or.inl rfl
      · obtain ⟨v, hv⟩ := OMap.contains_iff.mp hc
        simp only [Bool.not_true, Bool.false_eq_true, if_false]
        constructor
        · exact Or.inl
        · rintro (h | ⟨rfl, h⟩)
          · exact h
          · rw [hv] at h; cases h

theorem isTerminal_iff {g : Grammar T} {x : T} : g.isTerminal x = true ↔ g.rules.get? x = none := by
  unfold isTerminal
  cases h : g.rules.get? x <;> simp [OMap.contains, h]

/-- A grammar built by `Grammar::new` from a `grammar_map!`, in terms of the declarations. -/
structure Of (g : Grammar T) (D : Decls T) (S eof : T) : Prop where
  rules : g.rules = grammarMap D
  terminals : ∀ x, x ∈ g.terminals ↔
    x = eof ∨ (Terminal D x ∧ ∃ A i b, IsProd D A i b ∧ x ∈ b)
  symbols : ∀ x, x ∈ g.symbols ↔ Nonterminal D x ∨ x ∈ g.terminals
  basis : ∃ b, IsProd D S 0 b ∧ g.basis = { rule := S, seq := (b, 0), point := 0, look := [eof] }

/-- `Grammar::new` in full. -/
theorem new_eq (dbg : Bool) (start : T) (rules : RuleMap T) (eof : T) :
    new dbg start rules eof =
      match rules.get? start with
      | none => .panic .missingStart
      | some r =>
        if dbg = true ∧ r.prods.length ≠ 1 then .panic .dbgManyEntries
        else match r.prods[0]? with
          | none => .panic .noEntry
          | some p => .ok {
              rules := rules
              terminals := OSet.insert eof (collectTerminals rules)
              symbols := OSet.ofList (rules.keys ++ OSet.insert eof (collectTerminals rules))
              basis := { rule := start, seq := p, point := 0, look := [eof] } } := by
  unfold new
  cases rules.get? start with
  | none => rfl
  | some r =>
    simp only [Out.ofOption_some, Out.ok_bind]
    cases dbg
    · simp only [Bool.not_false, Bool.true_or, Out.assert_true, Out.ok_bind]
      cases r.prods[0]? <;> simp [OSet.ofList, OSet.extend, OSet.insert]
    · by_cases h : r.prods.length = 1
      · simp only [h, Bool.not_true, decide_true, Bool.or_true, Out.assert_true, Out.ok_bind]
        cases r.prods[0]? <;> simp [OSet.ofList, OSet.extend, OSet.insert]
      · simp [h]

theorem of_new {dbg : Bool} {S eof : T} {D : Decls T} {g : Grammar T}
    (h : new dbg S (grammarMap D) eof = .ok g) : g.Of D S eof := by
  rw [new_eq] at h
  cases hS : (grammarMap D).get? S with
  | none => rw [hS] at h; cases h
  | some r =>
    rw [hS] at h
    simp only at h
    split at h
    · cases h
    · cases hp : r.prods[0]? with
      | none => rw [hp] at h; cases h
      | some p =>
        rw [hp] at h
        simp only [Out.ok.injEq] at h
        subst h
        have ht : ∀ x, x ∈ OSet.insert eof (collectTerminals (grammarMap D)) ↔
            x = eof ∨ (Terminal D x ∧ ∃ A i b, IsProd D A i b ∧ x ∈ b) := by
          intro x
          rw [OSet.mem_insert, mem_collectTerminals, grammarMap_none]
          refine or_congr Iff.rfl (and_congr Iff.rfl ?_)
          constructor
          · rintro ⟨r, h1, p, h2, h3⟩
            obtain ⟨A, h1⟩ := (OMap.mem_values (grammarMap_sorted D)).mp h1
            obtain ⟨bs, h4, rfl⟩ := (grammarMap_get? D A r).mp h1
            exact ⟨A, p.2, p.1, ⟨bs, h4, Rule.new_prods.mp h2⟩, h3⟩
          · rintro ⟨A, i, b, ⟨bs, h1, h2⟩, h3⟩
            exact ⟨Rule.new A bs,
              OMap.mem_values_of_get? ((grammarMap_get? D A _).mpr ⟨bs, h1, rfl⟩),
              (b, i), Rule.new_prods.mpr h2, h3⟩
        refine ⟨rfl, ht, ?_, ?_⟩
        · intro x
          rw [OSet.mem_ofList, List.mem_append, OMap.mem_keys]
          refine or_congr ?_ Iff.rfl
          rw [← not_terminal_iff, ← grammarMap_none]
          cases (grammarMap D).get? x <;> simp
        · obtain ⟨bs, h1, rfl⟩ := (grammarMap_get? D S r).mp hS
          refine ⟨p.1, ⟨bs, h1, ?_⟩, ?_⟩
          · have : p = (p.1, 0) := by
              simp only [Rule.new, List.getElem?_zipIdx] at hp
              cases hb : bs[0]? with
              | none => rw [hb] at hp; cases hp
              | some b => rw [hb] at hp; simp at hp; rw [← hp]
            have hm := List.mem_of_getElem? hp
            rw [this] at hm
            exact Rule.new_prods.mp hm
          · have : p = (p.1, 0) := by
              simp only [Rule.new, List.getElem?_zipIdx] at hp
              cases hb : bs[0]? with
              | none => rw [hb] at hp; cases hp
              | some b => rw [hb] at hp; simp at hp; rw [← hp]
            rw [← this]

namespace Of
variable {g : Grammar T} {D : Decls T} {S eof : T}

theorem sorted (h : g.Of D S eof) : OMap.Sorted g.rules := h.rules ▸ grammarMap_sorted D

theorem get? (h : g.Of D S eof) (A : T) (r : Rule T) :
    g.rules.get? A = some r ↔ ∃ bs, Declared D A bs ∧ r = Rule.new A bs := by
  rw [h.rules]; exact grammarMap_get? D A r

theorem get?_none (h : g.Of D S eof) (A : T) : g.rules.get? A = none ↔ Terminal D A := by
  rw [h.rules]; exact grammarMap_none D A

theorem isTerminal (h : g.Of D S eof) (A : T) : g.isTerminal A = true ↔ Terminal D A := by
  rw [isTerminal_iff, h.get?_none]

theorem isTerminal_false (h : g.Of D S eof) (A : T) : g.isTerminal A = false ↔ Nonterminal D A := by
  rw [← not_terminal_iff, ← h.isTerminal, Bool.not_eq_true]

/-- The productions of a rule found in the map. -/
theorem prods (h : g.Of D S eof) {A : T} {r : Rule T} (hr : g.rules.get? A = some r)
    (p : Production T) : p ∈ r.prods ↔ IsProd D A p.2 p.1 := by
  obtain ⟨bs, h1, rfl⟩ := (h.get? A r).mp hr
  rw [Rule.new_prods]
  constructor
  · intro h2; exact ⟨bs, h1, h2⟩
  · rintro ⟨bs', h1', h2⟩; rw [h1.unique h1']; exact h2

theorem name (h : g.Of D S eof) {A : T} {r : Rule T} (hr : g.rules.get? A = some r) :
    r.name = A := by
  obtain ⟨bs, h1, rfl⟩ := (h.get? A r).mp hr; rfl

theorem exists_rule (h : g.Of D S eof) {A : T} (hA : Nonterminal D A) :
    ∃ r, g.rules.get? A = some r := by
  cases hg : g.rules.get? A with
  | none => exact absurd ((h.get?_none A).mp hg) (not_terminal_iff.mpr hA)
  | some r => exact ⟨r, rfl⟩

theorem of_isProd (h : g.Of D S eof) {A : T} {i : Nat} {b : List T} (hp : IsProd D A i b) :
    ∃ r, g.rules.get? A = some r ∧ (b, i) ∈ r.prods := by
  obtain ⟨r, hr⟩ := h.exists_rule hp.nonterminal
  exact ⟨r, hr, (h.prods hr (b, i)).mpr hp⟩

theorem mem_values (h : g.Of D S eof) (r : Rule T) :
    r ∈ g.rules.values ↔ ∃ A bs, Declared D A bs ∧ r = Rule.new A bs := by
  rw [OMap.mem_values h.sorted]
  exact exists_congr (fun A => h.get? A r)

/-- A symbol of a body is a grammar symbol. -/
theorem mem_symbols (h : g.Of D S eof) {A x : T} {i : Nat} {b : List T} (hp : IsProd D A i b)
    (hx : x ∈ b) : x ∈ g.symbols := by
  rw [h.symbols, h.terminals]
  by_cases ht : Terminal D x
  · exact Or.inr (Or.inr ⟨ht, A, i, b, hp, hx⟩)
  · exact Or.inl (not_terminal_iff.mp ht)

end Of
end Grammar

end Lrp
