import Verif.Proofs.FirstSpec

/-! FOLLOW: `gen_follow`, `follow_step`, `proc_follow`. -/

set_option linter.unusedSectionVars false

namespace Lrp
open Spec

/-- `b` stands immediately after `a` in `l`. -/
def Adj {α : Type} (l : List α) (a b : α) : Prop := ∃ u v, l = u ++ a :: b :: v

section Adj
variable {α : Type}

theorem adj_nil {a b : α} : ¬ Adj [] a b := by
  rintro ⟨u, v, h⟩; cases u <;> simp at h

theorem adj_cons {x a b : α} {l : List α} :
    Adj (x :: l) a b ↔ (x = a ∧ l.head? = some b) ∨ Adj l a b := by
  constructor
  · rintro ⟨u, v, h⟩
    cases u with
    | nil => simp at h; exact Or.inl ⟨h.1, by rw [h.2]; rfl⟩
    | cons y u => simp at h; exact Or.inr ⟨u, v, h.2⟩
  · rintro (⟨rfl, h⟩ | ⟨u, v, rfl⟩)
    · cases l with
      | nil => cases h
      | cons y l => cases h; exact ⟨[], l, rfl⟩
    · exact ⟨x :: u, v, rfl⟩

theorem adj_append {a b : α} {l m : List α} :
    Adj (l ++ m) a b ↔
      Adj l a b ∨ (l.getLast? = some a ∧ m.head? = some b) ∨ Adj m a b := by
  induction l with
  | nil => simp [adj_nil]
  | cons x l ih =>
    rw [List.cons_append, adj_cons, adj_cons, ih]
    cases l with
    | nil => simp [adj_nil]
    | cons y l => simp [List.getLast?_cons_cons, or_assoc]

theorem mem_zip_tail {a b : α} {l : List α} : (a, b) ∈ l.zip l.tail ↔ Adj l a b := by
  induction l with
  | nil => simp [adj_nil]
  | cons x l ih =>
    rw [adj_cons, List.tail_cons]
    cases l with
    | nil => simp [adj_nil]
    | cons y l =>
      rw [List.zip_cons_cons, List.mem_cons]
      rw [List.tail_cons] at ih
      rw [ih]
      simp only [Prod.mk.injEq, List.head?_cons, Option.some.injEq]
      exact or_congr ⟨fun h => ⟨h.1.symm, h.2.symm⟩, fun h => ⟨h.1.symm, h.2.symm⟩⟩ Iff.rfl

end Adj

variable {T : Type} [LinOrd T] [DecidableEq T]

namespace Tabler
variable {g : Grammar T} {D : Decls T} {S eof : T}

/-- The shape kept by FOLLOW tables: sorted, with sorted sets, keys among the nonterminals. -/
structure FollowTable (D : Decls T) (X : Table T) : Prop where
  sorted : OMap.Sorted X
  sets : ∀ A s, X.get? A = some s → OSet.Sorted s
  keys : ∀ A s, X.get? A = some s → Nonterminal D A

theorem FollowTable.has_nonterminal {X : Table T} (h : FollowTable D X) {A x : T} (hx : Has X A x) :
    ¬ Terminal D A := by
  obtain ⟨s, hs, _⟩ := hx
  exact not_terminal_iff.mpr (h.keys A s hs)

theorem updateEntry_get? (X : Table T) (k : T) (f : OSet T → OSet T) (A : T) :
    (updateEntry X k f).get? A = if A = k then some (f ((X.get? k).getD [])) else X.get? A := by
  unfold updateEntry; rw [OMap.get?_insert]

theorem updateEntry_has {X : Table T} {k : T} {f : OSet T → OSet T} {Q : T → Prop}
    (hf : ∀ s x, x ∈ f s ↔ x ∈ s ∨ Q x) (A x : T) :
    Has (updateEntry X k f) A x ↔ Has X A x ∨ (A = k ∧ Q x) := by
  unfold Has
  rw [updateEntry_get?]
  by_cases h : A = k
  · subst h
    simp only [if_true, Option.some.injEq, exists_eq_left', hf, true_and]
    cases hX : X.get? A <;> simp
  · simp [h]

theorem updateEntry_table {X : Table T} (hX : FollowTable D X) {k : T} (hk : Nonterminal D k)
    {f : OSet T → OSet T} (hf : ∀ s, OSet.Sorted s → OSet.Sorted (f s)) :
    FollowTable D (updateEntry X k f) := by
  refine ⟨OMap.sorted_insert hX.sorted _ _, ?_, ?_⟩
  · intro A s h
    rw [updateEntry_get?] at h
    split at h
    · cases h
      apply hf
      cases hX' : X.get? k with
      | none => exact OSet.sorted_nil
      | some s => exact hX.sets k s hX'
    · exact hX.sets A s h
  · intro A s h
    rw [updateEntry_get?] at h
    split at h
    · rename_i e; subst e; exact hk
    · exact hX.keys A s h

/-- `A` has an entry. -/
def Key (X : Table T) (A : T) : Prop := ∃ s, X.get? A = some s

theorem updateEntry_key {X : Table T} {k : T} {f : OSet T → OSet T} (A : T) :
    Key (updateEntry X k f) A ↔ Key X A ∨ A = k := by
  unfold Key
  rw [updateEntry_get?]
  by_cases h : A = k <;> simp [h]

/-- What one adjacent pair of a body contributes. -/
def PairEdge (D : Decls T) (first : Table T) (body : List T) (A x : T) : Prop :=
  ∃ b, Adj body A b ∧ Nonterminal D A ∧
    ((Terminal D b ∧ x = b) ∨ (Nonterminal D b ∧ Has first b x))

/-- A nonterminal that is followed by something in the body. -/
def PairKey (D : Decls T) (body : List T) (A : T) : Prop := ∃ b, Adj body A b ∧ Nonterminal D A

theorem followPairs_spec (hg : g.Of D S eof) {first : Table T} (hF : FirstTable D first)
    {X : Table T} (hX : FollowTable D X) (body : List T) :
    ∃ Y, followPairs g first X body = .ok Y ∧ FollowTable D Y ∧
      (∀ A x, Has Y A x ↔ Has X A x ∨ PairEdge D first body A x) ∧
      (∀ A, Key Y A ↔ Key X A ∨ PairKey D body A) := by
  have key : ∀ (l : List (T × T)) (X : Table T), FollowTable D X →
      ∃ Y, (l.foldlM (fun table ab =>
        if g.isTerminal ab.1 then return table
        else if g.isTerminal ab.2 then return updateEntry table ab.1 (OSet.insert ab.2)
        else do
          let fs ← Out.ofOption .missingFirst (first.get? ab.2)
          return updateEntry table ab.1 (fun s => OSet.extend s fs)) X : Out (Table T)) = .ok Y ∧
      FollowTable D Y ∧
      (∀ A x, Has Y A x ↔ Has X A x ∨ ∃ b, (A, b) ∈ l ∧ Nonterminal D A ∧
        ((Terminal D b ∧ x = b) ∨ (Nonterminal D b ∧ Has first b x))) ∧
      (∀ A, Key Y A ↔ Key X A ∨ ∃ b, (A, b) ∈ l ∧ Nonterminal D A) := by
    intro l
    induction l with
    | nil => intro X hX; exact ⟨X, rfl, hX, by simp, by simp⟩
    | cons ab l ih =>
      intro X hX
      obtain ⟨a, b⟩ := ab
      rw [List.foldlM_cons]
      by_cases ha : Terminal D a
      · simp only [(hg.isTerminal a).mpr ha, if_true, Out.pure_eq, Out.ok_bind]
        obtain ⟨Y, h1, h2, h3, h4⟩ := ih X hX
        have hn : ¬ Nonterminal D a := fun h => not_terminal_iff.mpr h ha
        refine ⟨Y, h1, h2, fun A x => ?_, fun A => ?_⟩
        · rw [h3]
          refine or_congr Iff.rfl (exists_congr (fun c => ?_))
          simp only [List.mem_cons, Prod.mk.injEq]
          constructor
          · rintro ⟨h5, h6⟩; exact ⟨Or.inr h5, h6⟩
          · rintro ⟨⟨rfl, rfl⟩ | h5, h6, h7⟩
            · exact absurd h6 hn
            · exact ⟨h5, h6, h7⟩
        · rw [h4]
          refine or_congr Iff.rfl (exists_congr (fun c => ?_))
          simp only [List.mem_cons, Prod.mk.injEq]
          constructor
          · rintro ⟨h5, h6⟩; exact ⟨Or.inr h5, h6⟩
          · rintro ⟨⟨rfl, rfl⟩ | h5, h6⟩
            · exact absurd h6 hn
            · exact ⟨h5, h6⟩
      · have han := not_terminal_iff.mp ha
        have haf : g.isTerminal a = false := (hg.isTerminal_false a).mpr han
        -- both remaining cases update the entry of `a` with the set `Q`
        have fin : ∀ (f : OSet T → OSet T) (Q : T → Prop), (∀ s x, x ∈ f s ↔ x ∈ s ∨ Q x) →
            (∀ s, OSet.Sorted s → OSet.Sorted (f s)) →
            (∀ x, Q x ↔ (Terminal D b ∧ x = b) ∨ (Nonterminal D b ∧ Has first b x)) →
            ∃ Y, (l.foldlM (fun table ab =>
              if g.isTerminal ab.1 then return table
              else if g.isTerminal ab.2 then return updateEntry table ab.1 (OSet.insert ab.2)
              else do
                let fs ← Out.ofOption .missingFirst (first.get? ab.2)
                return updateEntry table ab.1 (fun s => OSet.extend s fs)) (updateEntry X a f) :
                Out (Table T)) = .ok Y ∧
            FollowTable D Y ∧
            (∀ A x, Has Y A x ↔ Has X A x ∨ ∃ b', (A, b') ∈ (a, b) :: l ∧ Nonterminal D A ∧
              ((Terminal D b' ∧ x = b') ∨ (Nonterminal D b' ∧ Has first b' x))) ∧
            (∀ A, Key Y A ↔ Key X A ∨ ∃ b', (A, b') ∈ (a, b) :: l ∧ Nonterminal D A) := by
          intro f Q hf hfs hQ
          obtain ⟨Y, h1, h2, h3, h4⟩ := ih (updateEntry X a f) (updateEntry_table hX han hfs)
          refine ⟨Y, h1, h2, fun A x => ?_, fun A => ?_⟩
          · rw [h3, updateEntry_has hf, or_assoc]
            refine or_congr Iff.rfl ?_
            constructor
            · rintro (⟨rfl, h5⟩ | ⟨c, h5, h6⟩)
              · exact ⟨b, by simp, han, (hQ x).mp h5⟩
              · exact ⟨c, List.mem_cons_of_mem _ h5, h6⟩
            · rintro ⟨c, h5, h6, h7⟩
              rcases List.mem_cons.mp h5 with h5 | h5
              · cases h5; exact Or.inl ⟨rfl, (hQ x).mpr h7⟩
              · exact Or.inr ⟨c, h5, h6, h7⟩
          · rw [h4, updateEntry_key, or_assoc]
            refine or_congr Iff.rfl ?_
            constructor
            · rintro (rfl | ⟨c, h5, h6⟩)
              · exact ⟨b, by simp, han⟩
              · exact ⟨c, List.mem_cons_of_mem _ h5, h6⟩
            · rintro ⟨c, h5, h6⟩
              rcases List.mem_cons.mp h5 with h5 | h5
              · cases h5; exact Or.inl rfl
              · exact Or.inr ⟨c, h5, h6⟩
        by_cases hb : Terminal D b
        · simp only [haf, Bool.false_eq_true, if_false, (hg.isTerminal b).mpr hb, if_true,
            Out.pure_eq, Out.ok_bind]
          refine fin (OSet.insert b) (fun x => x = b) (fun s x => ?_)
            (fun s hs => OSet.sorted_insert hs) (fun x => ?_)
          · rw [OSet.mem_insert]; exact or_comm
          · have : ¬ Nonterminal D b := fun h => not_terminal_iff.mpr h hb
            simp [hb, this]
        · have hbn := not_terminal_iff.mp hb
          have hbf : g.isTerminal b = false := (hg.isTerminal_false b).mpr hbn
          obtain ⟨fs, hfs⟩ := (hF.keys b).mpr hbn
          simp only [haf, Bool.false_eq_true, if_false, hbf, hfs, Out.ofOption_some,
            Out.pure_eq, Out.ok_bind]
          refine fin (fun s => OSet.extend s fs) (fun x => x ∈ fs) (fun s x => OSet.mem_extend)
            (fun s hs => OSet.sorted_extend hs) (fun x => ?_)
          simp [hb, hbn, Has, hfs]
  obtain ⟨Y, h1, h2, h3, h4⟩ := key (body.zip body.tail) X hX
  refine ⟨Y, h1, h2, fun A x => ?_, fun A => ?_⟩
  · rw [h3]; unfold PairEdge; simp only [mem_zip_tail]
  · rw [h4]; unfold PairKey; simp only [mem_zip_tail]

/-- What the last symbol of a body of `B` contributes. -/
def LastEdge (D : Decls T) (B : T) (body : List T) (A x : T) : Prop :=
  body.getLast? = some A ∧ Nonterminal D A ∧ A ≠ B ∧ x = B

theorem followLast_spec (hg : g.Of D S eof) {X : Table T} (hX : FollowTable D X) (B : T)
    {body : List T} (hb : body ≠ []) :
    ∃ Y, followLast g B X body = .ok Y ∧ FollowTable D Y ∧
      (∀ A x, Has Y A x ↔ Has X A x ∨ LastEdge D B body A x) ∧
      (∀ A, Key Y A ↔ Key X A ∨ (body.getLast? = some A ∧ Nonterminal D A ∧ A ≠ B)) := by
  unfold followLast
  obtain ⟨last, hl⟩ : ∃ last, body.getLast? = some last := by
    cases h : body.getLast? with
    | none => rw [List.getLast?_eq_none_iff] at h; exact absurd h hb
    | some l => exact ⟨l, rfl⟩
  simp only [hl, Out.ofOption_some, Out.ok_bind]
  by_cases hc : Nonterminal D last ∧ last ≠ B
  · have : (!g.isTerminal last && decide (last ≠ B)) = true := by
      rw [(hg.isTerminal_false last).mpr hc.1]; simp [hc.2]
    simp only [this, if_true, Out.pure_eq]
    refine ⟨_, rfl, updateEntry_table hX hc.1 (fun s hs => OSet.sorted_insert hs),
      fun A x => ?_, fun A => ?_⟩
    · rw [updateEntry_has (Q := fun x => x = B) (fun s x => by rw [OSet.mem_insert]; exact or_comm)]
      unfold LastEdge
      rw [hl]
      refine or_congr Iff.rfl ?_
      constructor
      · rintro ⟨rfl, rfl⟩; exact ⟨rfl, hc.1, hc.2, rfl⟩
      · rintro ⟨h1, _, _, rfl⟩; cases h1; exact ⟨rfl, rfl⟩
    · rw [updateEntry_key]
      refine or_congr Iff.rfl ?_
      constructor
      · rintro rfl; exact ⟨rfl, hc.1, hc.2⟩
      · rintro ⟨h1, _⟩; cases h1; rfl
  · have : (!g.isTerminal last && decide (last ≠ B)) = false := by
      by_cases h1 : Nonterminal D last
      · have : last = B := Classical.byContradiction (fun h => hc ⟨h1, h⟩)
        simp [this]
      · have : Terminal D last := Classical.byContradiction (fun h => h1 (not_terminal_iff.mp h))
        rw [(hg.isTerminal last).mpr this]; rfl
    simp only [this, Bool.false_eq_true, if_false, Out.pure_eq]
    refine ⟨X, rfl, hX, fun A x => ?_, fun A => ?_⟩
    · unfold LastEdge
      rw [hl]
      constructor
      · exact Or.inl
      · rintro (h | ⟨h1, h2, h3, _⟩)
        · exact h
        · cases h1; exact absurd ⟨h2, h3⟩ hc
    · constructor
      · exact Or.inl
      · rintro (h | ⟨h1, h2, h3⟩)
        · exact h
        · cases h1; exact absurd ⟨h2, h3⟩ hc

/-- The edges of the graph FOLLOW starts from. -/
def FollowEdge (D : Decls T) (S eof : T) (first : Table T) (A x : T) : Prop :=
  (A = S ∧ x = eof) ∨ ∃ B i body, IsProd D B i body ∧
    (PairEdge D first body A x ∨ LastEdge D B body A x)

/-- The nonterminals with a FOLLOW entry. -/
def FollowKey (D : Decls T) (S : T) (A : T) : Prop :=
  A = S ∨ ∃ B i body, IsProd D B i body ∧
    (PairKey D body A ∨ (body.getLast? = some A ∧ Nonterminal D A ∧ A ≠ B))

theorem genFollow_spec (hg : g.Of D S eof) (hne : NoEmpty D) {first : Table T}
    (hF : FirstTable D first) :
    ∃ Y, genFollow g first = .ok Y ∧ FollowTable D Y ∧
      (∀ A x, Has Y A x ↔ FollowEdge D S eof first A x) ∧
      (∀ A, Key Y A ↔ FollowKey D S A) := by
  -- the productions of one rule
  have inner : ∀ (B : T) (ps : List (Production T)) (X : Table T), (∀ p ∈ ps, p.1 ≠ []) →
      FollowTable D X →
      ∃ Y, (ps.foldlM (fun table prod => do
        let table ← followPairs g first table prod.1
        followLast g B table prod.1) X : Out (Table T)) = .ok Y ∧ FollowTable D Y ∧
      (∀ A x, Has Y A x ↔ Has X A x ∨ ∃ p ∈ ps, PairEdge D first p.1 A x ∨ LastEdge D B p.1 A x) ∧
      (∀ A, Key Y A ↔ Key X A ∨ ∃ p ∈ ps, PairKey D p.1 A ∨
        (p.1.getLast? = some A ∧ Nonterminal D A ∧ A ≠ B)) := by
    intro B ps
    induction ps with
    | nil => intro X _ hX; exact ⟨X, rfl, hX, by simp, by simp⟩
    | cons p ps ih =>
      intro X hp hX
      rw [List.foldlM_cons]
      obtain ⟨Y1, a1, a2, a3, a4⟩ := followPairs_spec hg hF hX p.1
      obtain ⟨Y2, b1, b2, b3, b4⟩ := followLast_spec hg a2 B (hp p (by simp))
      obtain ⟨Y3, c1, c2, c3, c4⟩ := ih Y2 (fun p h => hp p (List.mem_cons_of_mem _ h)) b2
      simp only [a1, Out.ok_bind, b1]
      refine ⟨Y3, c1, c2, fun A x => ?_, fun A => ?_⟩
      · rw [c3, b3, a3]
        simp only [List.mem_cons, exists_eq_or_imp, or_assoc]
      · rw [c4, b4, a4]
        simp only [List.mem_cons, exists_eq_or_imp, or_assoc]
  obtain ⟨b0, hb0, hbasis⟩ := hg.basis
  have hS : Nonterminal D S := hb0.nonterminal
  -- all rules
  have outer : ∀ (rs : List (Rule T)) (X : Table T),
      (∀ r ∈ rs, ∃ A bs, Declared D A bs ∧ r = Rule.new A bs) → FollowTable D X →
      ∃ Y, (rs.foldlM (fun table rule =>
        rule.prods.foldlM (fun table prod => do
          let table ← followPairs g first table prod.1
          followLast g rule.name table prod.1) table) X : Out (Table T)) = .ok Y ∧
      FollowTable D Y ∧
      (∀ A x, Has Y A x ↔ Has X A x ∨ ∃ r ∈ rs, ∃ p ∈ r.prods,
        PairEdge D first p.1 A x ∨ LastEdge D r.name p.1 A x) ∧
      (∀ A, Key Y A ↔ Key X A ∨ ∃ r ∈ rs, ∃ p ∈ r.prods, PairKey D p.1 A ∨
        (p.1.getLast? = some A ∧ Nonterminal D A ∧ A ≠ r.name)) := by
    intro rs
    induction rs with
    | nil => intro X _ hX; exact ⟨X, rfl, hX, by simp, by simp⟩
    | cons r rs ih =>
      intro X hr hX
      rw [List.foldlM_cons]
      obtain ⟨B, bs, hB, hrB⟩ := hr r (by simp)
      have hpne : ∀ p ∈ r.prods, p.1 ≠ [] := by
        intro p hp
        rw [hrB] at hp
        exact hne B p.2 p.1 ⟨bs, hB, Rule.new_prods.mp hp⟩
      obtain ⟨Y1, a1, a2, a3, a4⟩ := inner r.name r.prods X hpne hX
      obtain ⟨Y3, c1, c2, c3, c4⟩ := ih Y1 (fun r h => hr r (List.mem_cons_of_mem _ h)) a2
      rw [a1, Out.ok_bind]
      refine ⟨Y3, c1, c2, fun A x => ?_, fun A => ?_⟩
      · rw [c3, a3]
        simp only [List.mem_cons, exists_eq_or_imp, or_assoc]
      · rw [c4, a4]
        simp only [List.mem_cons, exists_eq_or_imp, or_assoc]
  have h0 : FollowTable D ([(g.basis.rule, g.basis.look)] : Table T) := by
    rw [hbasis]
    refine ⟨by simp [OMap.Sorted], ?_, ?_⟩
    · intro A s h
      rw [OMap.get?_cons] at h
      split at h
      · cases h; simp [OSet.Sorted]
      · cases h
    · intro A s h
      rw [OMap.get?_cons] at h
      split at h
      · rename_i e; subst e; exact hS
      · cases h
  obtain ⟨Y, h1, h2, h3, h4⟩ := outer g.rules.values _ (fun r hr => (hg.mem_values r).mp hr) h0
  have hprods : ∀ (Q : T → List T → Prop),
      (∃ r ∈ g.rules.values, ∃ p ∈ r.prods, Q r.name p.1) ↔
        ∃ B i body, IsProd D B i body ∧ Q B body := by
    intro Q
    constructor
    · rintro ⟨r, hr, p, hp, hq⟩
      obtain ⟨B, bs, hB, rfl⟩ := (hg.mem_values r).mp hr
      exact ⟨B, p.2, p.1, ⟨bs, hB, Rule.new_prods.mp hp⟩, hq⟩
    · rintro ⟨B, i, body, ⟨bs, hB, hi⟩, hq⟩
      exact ⟨Rule.new B bs, (hg.mem_values _).mpr ⟨B, bs, hB, rfl⟩, (body, i),
        Rule.new_prods.mpr hi, hq⟩
  refine ⟨Y, h1, h2, fun A x => ?_, fun A => ?_⟩
  · rw [h3, hprods (fun B body => PairEdge D first body A x ∨ LastEdge D B body A x)]
    refine or_congr ?_ Iff.rfl
    rw [hbasis]
    simp only [Has, OMap.get?_cons, OMap.get?_nil]
    by_cases h : A = S <;> simp [h]
  · rw [h4, hprods (fun B body => PairKey D body A ∨ (body.getLast? = some A ∧ Nonterminal D A ∧ A ≠ B))]
    refine or_congr ?_ Iff.rfl
    rw [hbasis]
    simp only [Key, OMap.get?_cons, OMap.get?_nil]
    by_cases h : A = S <;> simp [h]

/-! ### one step -/

theorem followStepSet_spec (hg : g.Of D S eof) (X : Table T) (s : OSet T) :
    OSet.Sorted (followStepSet g X s) ∧
      ∀ x, x ∈ followStepSet g X s ↔
        ∃ y ∈ s, (Terminal D y ∧ x = y) ∨ (¬ Terminal D y ∧ Has X y x) := by
  constructor
  · unfold followStepSet
    refine foldl_inv (P := fun s => OSet.Sorted s) OSet.sorted_nil ?_
    intro acc y _ ha
    split
    · exact OSet.sorted_insert ha
    · split
      · exact OSet.sorted_extend ha
      · exact ha
  · intro x
    unfold followStepSet
    rw [mem_foldl (Q := fun y x => (Terminal D y ∧ x = y) ∨ (¬ Terminal D y ∧ Has X y x))]
    · simp
    · intro acc y x
      by_cases hy : Terminal D y
      · simp only [(hg.isTerminal y).mpr hy, if_true, OSet.mem_insert, hy, true_and,
          not_true_eq_false, false_and, or_false]
        exact or_comm
      · have hf : g.isTerminal y = false := (hg.isTerminal_false y).mpr (not_terminal_iff.mp hy)
        simp only [hf, Bool.false_eq_true, if_false, hy, false_and, not_false_eq_true, true_and,
          false_or]
        cases hX : X.get? y with
        | none => simp [Has, hX]
        | some s' => simp [Has, hX]

theorem followStep_eq (g : Grammar T) (X : Table T) :
    X.foldlM (fun table e =>
      (.ok (OMap.insert e.1 (OSet.remove e.1 (followStepSet g X e.2)) table) : Out (Table T))) [] =
      .ok (followStep g X) := by
  unfold followStep
  have : ∀ (l : List (T × OSet T)) (acc : Table T), l.foldlM (fun table e =>
      (.ok (OMap.insert e.1 (OSet.remove e.1 (followStepSet g X e.2)) table) : Out (Table T))) acc =
      .ok (l.foldl (fun table e =>
        OMap.insert e.1 (OSet.remove e.1 (followStepSet g X e.2)) table) acc) := by
    intro l
    induction l with
    | nil => intro acc; rfl
    | cons e l ih => intro acc; rw [List.foldlM_cons, Out.ok_bind, ih]; rfl
  exact this X []

theorem followStep_spec (hg : g.Of D S eof) {X : Table T} (hX : FollowTable D X) :
    FollowTable D (followStep g X) ∧
      (∀ A x, Has (followStep g X) A x ↔ Doubling.step (Terminal D) (Has X) A x) ∧
      (∀ A, Key (followStep g X) A ↔ Key X A) := by
  have key := foldlM_insert (F := fun e => .ok (OSet.remove e.1 (followStepSet g X e.2)))
    hX.sorted (fun tab e _ => rfl) (followStep_eq g X)
  have key2 : ∀ A s', (followStep g X).get? A = some s' ↔
      ∃ s, X.get? A = some s ∧ s' = OSet.remove A (followStepSet g X s) := by
    intro A s'
    rw [key.2]
    simp only [Out.ok.injEq, eq_comm]
  refine ⟨⟨key.1, ?_, ?_⟩, ?_, ?_⟩
  · intro A s' h
    obtain ⟨s, _, rfl⟩ := (key2 A s').mp h
    exact OSet.sorted_remove (followStepSet_spec hg X s).1
  · intro A s' h
    obtain ⟨s, h1, _⟩ := (key2 A s').mp h
    exact hX.keys A s h1
  · intro A x
    constructor
    · rintro ⟨s', hs', hx⟩
      obtain ⟨s, h1, rfl⟩ := (key2 A s').mp hs'
      rw [OSet.mem_remove] at hx
      obtain ⟨y, hy, h6⟩ := ((followStepSet_spec hg X s).2 x).mp hx.1
      exact ⟨hx.2, y, ⟨s, h1, hy⟩, h6⟩
    · rintro ⟨hx, y, ⟨s, h1, hy⟩, h6⟩
      exact ⟨_, (key2 A _).mpr ⟨s, h1, rfl⟩,
        OSet.mem_remove.mpr ⟨((followStepSet_spec hg X s).2 x).mpr ⟨y, hy, h6⟩, hx⟩⟩
  · intro A
    unfold Key
    constructor
    · rintro ⟨s', h⟩; obtain ⟨s, h1, _⟩ := (key2 A s').mp h; exact ⟨s, h1⟩
    · rintro ⟨s, h⟩; exact ⟨_, (key2 A _).mpr ⟨s, h, rfl⟩⟩

theorem procFollow_fix {dbg : Bool} {n : Nat} {X Y : Table T} (h : procFollow dbg n g X = .ok Y) :
    transitive (fun t => .ok (followStep g t)) n X = .ok Y ∧
      (dbg = true → allTerminal g Y = true) := by
  unfold procFollow at h
  simp only [Out.bind_eq_ok, Out.assert_eq_ok] at h
  obtain ⟨Z, h1, _, h2, h3⟩ := h
  cases h3
  exact ⟨h1, fun hd => by simpa [hd] using h2⟩

/-- What a returning FOLLOW computation returns. -/
theorem follow_fix (hg : g.Of D S eof) {X Y : Table T} {n : Nat} (hX : FollowTable D X)
    (h : transitive (fun t => .ok (followStep g t)) n X = .ok Y) :
    FollowTable D Y ∧ (∀ A, Key Y A ↔ Key X A) ∧
      (∀ A t, Terminal D t → (Has Y A t ↔ Doubling.Reach (Terminal D) (Has X) A t)) ∧
      (∀ A x, Has Y A x → Doubling.Reach (Terminal D) (Has X) A x) := by
  have key := transitive_inv (P := fun Y => FollowTable D Y ∧ (∀ A, Key Y A ↔ Key X A) ∧
    ∃ k, Has Y = Doubling.iter (Terminal D) (Has X) k) h ⟨hX, fun _ => Iff.rfl, 0, rfl⟩ (by
    rintro Z Z' ⟨h1, h1', k, h2⟩ h3
    cases h3
    obtain ⟨h5, h6, h7⟩ := followStep_spec hg h1
    refine ⟨h5, fun A => (h7 A).trans (h1' A), k + 1, ?_⟩
    funext A x
    rw [h2] at h6
    exact propext (h6 A x))
  obtain ⟨⟨h1, h1', k, h2⟩, h3⟩ := key
  simp only [Out.ok.injEq] at h3
  refine ⟨h1, h1', fun A t ht => ?_, fun A x hx => ?_⟩
  · obtain ⟨h5, h6, _⟩ := followStep_spec hg h1
    rw [h3] at h6
    rw [h2]
    refine Doubling.fix_exact (fun A x hx => hX.has_nonterminal hx) ?_ ht
    rw [← h2]
    funext A x
    exact propext (h6 A x).symm
  · rw [h2] at hx; exact Doubling.iter_sound hx

/-! ### against derivations -/

/-- Every pair of neighbours in a sentential form is in FOLLOW. -/
theorem follow_complete (hne : NoEmpty D) (he : Terminal D eof) {first : Table T}
    (hF : ∀ A t, Nonterminal D A → Terminal D t → InFirst D A t → Has first A t)
    {A t : T} (hA : Nonterminal D A) (ht : Terminal D t) (h : InFollow D S eof A t) :
    Doubling.Reach (Terminal D) (FollowEdge D S eof first) A t := by
  -- the invariant of sentential forms
  let P : List T → Prop := fun γ => ∀ A y t, Adj γ A y → Nonterminal D A → Terminal D t →
    InFirst D y t → Doubling.Reach (Terminal D) (FollowEdge D S eof first) A t
  have hterm : ∀ {y t : T}, Terminal D y → InFirst D y t → y = t := by
    rintro y t hy ⟨v, hv⟩
    generalize hα : [y] = α at hv
    cases hv with
    | refl => simp at hα; exact hα.1
    | head s _ =>
      cases s with
      | @mk p q B i body hp =>
        cases p with
        | nil => simp at hα; exact absurd hy (hα.1 ▸ hp.not_terminal)
        | cons x xs => simp at hα
  have hstep : ∀ γ δ, P γ → Step D γ δ → P δ := by
    intro γ δ hγ hs
    cases hs with
    | @mk p q B i body hp =>
      have hbne := hne _ _ _ hp
      intro A y t hadj hA ht hy
      have hold : ∀ A y, Adj (p ++ B :: q) A y ↔
          Adj p A y ∨ (p.getLast? = some A ∧ y = B) ∨ (B = A ∧ q.head? = some y) ∨ Adj q A y := by
        intro A y
        rw [adj_append, adj_cons]
        simp [eq_comm]
      rw [List.append_assoc, adj_append, adj_append] at hadj
      rcases hadj with h | ⟨h1, h2⟩ | h | ⟨h1, h2⟩ | h
      · exact hγ A y t ((hold A y).mpr (Or.inl h)) hA ht hy
      · -- the body starts after A
        cases body with
        | nil => exact absurd rfl hbne
        | cons z zs =>
          simp at h2; subst h2
          refine hγ A B t ((hold A B).mpr (Or.inr (Or.inl ⟨h1, rfl⟩))) hA ht ?_
          obtain ⟨v, hv⟩ := hy
          exact ⟨v ++ zs, (Derives.of_prod hp).trans (by simpa using hv.cons (.refl zs))⟩
      · -- inside the body
        refine .base (Or.inr ⟨B, i, body, hp, Or.inl ⟨y, h, hA, ?_⟩⟩)
        by_cases hyt : Terminal D y
        · exact Or.inl ⟨hyt, (hterm hyt hy).symm⟩
        · exact Or.inr ⟨not_terminal_iff.mp hyt, hF y t (not_terminal_iff.mp hyt) ht hy⟩
      · -- the body ends with A
        have hr := hγ B y t ((hold B y).mpr (Or.inr (Or.inr (Or.inl ⟨rfl, h2⟩))))
          hp.nonterminal ht hy
        by_cases hAB : A = B
        · subst hAB; exact hr
        · exact .cons (Or.inr ⟨B, i, body, hp, Or.inr ⟨h1, hA, hAB, rfl⟩⟩) hp.not_terminal hr
      · exact hγ A y t ((hold A y).mpr (Or.inr (Or.inr (Or.inr h)))) hA ht hy
  have hall : ∀ γ δ, Derives D γ δ → P γ → P δ := by
    intro γ δ hd
    induction hd with
    | refl => exact id
    | head s _ ih => exact fun h => ih (hstep _ _ h s)
  have hbase : P [S, eof] := by
    intro A y t hadj hA ht hy
    rw [adj_cons] at hadj
    rcases hadj with ⟨rfl, h⟩ | h
    · simp at h; subst h
      have := hterm he hy
      subst this
      exact .base (Or.inl ⟨rfl, rfl⟩)
    · rw [adj_cons] at h
      rcases h with ⟨_, h⟩ | h
      · cases h
      · exact absurd h adj_nil
  obtain ⟨u, v, hd⟩ := h
  exact hall _ _ hd hbase A t t ⟨u, v, rfl⟩ hA ht ⟨[], .refl _⟩

/-- Conversely, when FIRST has only terminals and everything is reachable. -/
theorem follow_sound (he : Terminal D eof) {first : Table T}
    (hF : ∀ A t, Has first A t → Terminal D t ∧ InFirst D A t)
    (hreach : ∀ A, Nonterminal D A → Reachable D S A)
    {A t : T} (ht : Terminal D t)
    (h : Doubling.Reach (Terminal D) (FollowEdge D S eof first) A t) : InFollow D S eof A t := by
  have ctx : ∀ {B}, Nonterminal D B → ∃ p q, Derives D [S, eof] (p ++ B :: q) := by
    intro B hB
    obtain ⟨p, q, hd⟩ := hreach B hB
    exact ⟨p, q ++ [eof], by simpa using hd.ctx [] [eof]⟩
  induction h with
  | @base A x h =>
    rcases h with ⟨rfl, rfl⟩ | ⟨B, i, body, hp, h | h⟩
    · exact ⟨[], [], .refl _⟩
    · obtain ⟨b, ⟨u, v, rfl⟩, _, h⟩ := h
      obtain ⟨p, q, hd⟩ := ctx hp.nonterminal
      have hd2 := hd.trans (.single (.mk p q hp))
      rcases h with ⟨_, rfl⟩ | ⟨_, h⟩
      · exact ⟨p ++ u, v ++ q, by simpa using hd2⟩
      · obtain ⟨_, w, hw⟩ := hF _ _ h
        have := hw.ctx (p ++ u ++ [A]) (v ++ q)
        refine ⟨p ++ u, w ++ v ++ q, ?_⟩
        simp only [List.append_assoc, List.cons_append, List.nil_append] at hd2 this ⊢
        exact hd2.trans this
    · obtain ⟨_, _, _, rfl⟩ := h
      exact absurd ht hp.not_terminal
  | @cons A B x h hB _ ih =>
    obtain ⟨u, v, hd⟩ := ih ht
    rcases h with ⟨_, rfl⟩ | ⟨C, i, body, hp, h | h⟩
    · exact absurd he hB
    · obtain ⟨b, _, _, h⟩ := h
      rcases h with ⟨h, rfl⟩ | ⟨_, h⟩
      · exact absurd h hB
      · exact absurd (hF _ _ h).1 hB
    · obtain ⟨h1, _, _, rfl⟩ := h
      obtain ⟨ys, rfl⟩ := List.getLast?_eq_some_iff.mp h1
      have := Step.mk (D := D) u (x :: v) hp
      exact ⟨u ++ ys, v, hd.trans (.single (by simpa using this))⟩

theorem followTable_ext {X Y : Table T} (hX : FollowTable D X) (hY : FollowTable D Y)
    (hk : ∀ A, Key X A ↔ Key Y A) (h : ∀ A x, Has X A x ↔ Has Y A x) : X = Y := by
  refine OMap.ext hX.sorted hY.sorted (fun A => ?_)
  cases hs : X.get? A with
  | some s =>
    obtain ⟨t, ht⟩ := (hk A).mp ⟨s, hs⟩
    rw [ht]
    congr 1
    refine OSet.ext (hX.sets A s hs) (hY.sets A t ht) (fun x => ?_)
    have := h A x
    simpa [Has, hs, ht] using this
  | none =>
    cases ht : Y.get? A with
    | some t => obtain ⟨s, hs'⟩ := (hk A).mpr ⟨t, ht⟩; rw [hs] at hs'; cases hs'
    | none => rfl

end Tabler

end Lrp
