import Verif.Proofs.EmbedTable
import Verif.Proofs.EmbedLalr
import Verif.Spec.Moved
import Verif.Spec.Refill

/-! Grammars and FIRST and FOLLOW of a grammar whose symbols are renamed. -/

set_option linter.unusedSectionVars false

namespace Lrp
open Spec
variable {T U : Type} [LinOrd T] [DecidableEq T] [LinOrd U] [DecidableEq U] {f : T → U}

theorem foldl_map_comm {α β γ δ : Type} {v : α → β} {w : γ → δ} {k : α → γ → α} {l : β → δ → β} {xs : List γ}
    (h : ∀ a, ∀ x ∈ xs, l (v a) (w x) = v (k a x)) (a : α) : (xs.map w).foldl l (v a) = v (xs.foldl k a) := by
  induction xs generalizing a with
  | nil => rfl
  | cons x xs ih =>
    simp only [List.map_cons, List.foldl_cons]
    rw [h a x (by simp), ih (fun a x hx => h a x (List.mem_cons_of_mem _ hx))]

/-- No renumbering. -/
abbrev noShift (T : Type) : T → List T → Nat := fun _ _ => 0

/-- A rule with its symbols renamed. -/
def ruleMap (f : T → U) (r : Rule T) : Rule U :=
  { name := f r.name, prods := r.prods.map (Prod.map (List.map f) id) }

/-- The rules of a grammar with its symbols renamed. -/
abbrev rulesMap (f : T → U) (rules : RuleMap T) : RuleMap U := rules.map (Prod.map f (ruleMap f))

theorem ruleMap_new (A : T) (bs : List (List T)) : ruleMap f (Rule.new A bs) = Rule.new (f A) (bs.map (List.map f)) := by
  unfold ruleMap Rule.new
  simp only [Rule.mk.injEq, true_and]
  rw [List.zipIdx_map]

theorem grammarMap_map (hf : KeepsOrder f) (D : Decls T) : grammarMap (renamed f D) = rulesMap f (grammarMap D) := by
  unfold grammarMap renamed
  refine foldl_map_comm (v := rulesMap f) (fun m d _ => ?_) []
  simp only [rulesMap]
  rw [hf.insertM, ruleMap_new]

theorem values_map (m : OMap T (Rule T)) : OMap.values (rulesMap f m) = m.values.map (ruleMap f) := by
  simp [OMap.values, rulesMap, Function.comp_def]

theorem collectTerminals_map (hf : KeepsOrder f) (rules : RuleMap T) :
    Grammar.collectTerminals (rulesMap f rules) = (Grammar.collectTerminals rules).map f := by
  unfold Grammar.collectTerminals
  rw [values_map]
  refine foldl_map_comm (v := List.map f) (fun a r _ => ?_) []
  simp only [ruleMap]
  refine foldl_map_comm (v := List.map f) (fun a p _ => ?_) a
  simp only [Prod.map]
  refine foldl_map_comm (v := List.map f) (fun a x _ => ?_) a
  rw [hf.contains]
  split
  · rw [hf.insert]
  · rfl

/-- A grammar with its symbols renamed. -/
def gramMap (f : T → U) (g : Grammar T) : Grammar U :=
  { rules := rulesMap f g.rules, terminals := g.terminals.map f, symbols := g.symbols.map f,
    basis := posMap f (noShift T) g.basis }

theorem Grammar.new_map (hf : KeepsOrder f) (dbg : Bool) (S : T) (rules : RuleMap T) (eof : T) :
    OutRel (fun g g' => g' = gramMap f g) (Grammar.new dbg S rules eof)
      (Grammar.new dbg (f S) (rulesMap f rules) (f eof)) := by
  unfold Grammar.new
  refine (OutRel.ofOption (v := ruleMap f) _ (hf.get? _ _ _)).bind (fun r r' e => ?_)
  subst e
  refine (OutRel.assert _ (by simp [ruleMap])).bind (fun _ _ _ => ?_)
  refine (OutRel.ofOption (v := Prod.map (List.map f) id) _ (by simp [ruleMap])).bind (fun p p' e => ?_)
  subst e
  refine .ok ?_
  simp only [gramMap, collectTerminals_map hf, Grammar.mk.injEq, true_and]
  refine ⟨(hf.insert _ _).symm, ?_, rfl⟩
  rw [hf.ofList, List.map_append, hf.insert]
  simp [OMap.keys, Function.comp_def]

theorem gramMap_rel (hf : KeepsOrder f) (g : Grammar T) : GramRel f (noShift T) g (gramMap f g) where
  keeps := hf
  symbols := rfl
  basis := rfl
  none := by
    intro x hx
    show OMap.get? (rulesMap f g.rules) (f x) = _
    rw [rulesMap, hf.get?, hx]
    rfl
  some := by
    intro x r hx
    refine ⟨ruleMap f r, ?_, fun q => ?_⟩
    · show OMap.get? (rulesMap f g.rules) (f x) = _
      rw [rulesMap, hf.get?, hx]
      rfl
    · simp only [ruleMap, List.mem_map]
      constructor
      · rintro ⟨p, hp, rfl⟩; exact ⟨p, hp, rfl⟩
      · rintro ⟨p, hp, rfl⟩; exact ⟨p, hp, rfl⟩

namespace Tabler

theorem ruleFirsts_map (hf : KeepsOrder f) (r : Rule T) (ps : List (Production T)) :
    OutRel (fun a b => b = a.map f) (ruleFirsts r ps)
      (ruleFirsts (ruleMap f r) (ps.map (Prod.map (List.map f) id))) := by
  induction ps with
  | nil => exact .ok rfl
  | cons p ps ih =>
    obtain ⟨b, i⟩ := p
    cases b with
    | nil => exact .panic _
    | cons x b =>
      simp only [ruleFirsts, List.map_cons, Prod.map]
      refine ih.bind (fun a a' e => ?_)
      subst e
      refine .ok ?_
      simp only [ruleMap, hf.eq_iff]
      split
      · rfl
      · exact (hf.insert _ _).symm

variable {g : Grammar T}

theorem genFirst_map (hf : KeepsOrder f) :
    OutRel (fun a b => b = tabMap f a) (genFirst g) (genFirst (gramMap f g)) := by
  unfold genFirst
  simp only [gramMap]
  rw [values_map]
  refine OutRel.foldlM (fun a b e r _ => ?_) rfl
  subst e
  refine (ruleFirsts_map hf r r.prods).bind (fun s s' e => ?_)
  subst e
  exact .ok (hf.insertM _ _ _ _).symm

theorem isTerminal_map (hf : KeepsOrder f) (x : T) : (gramMap f g).isTerminal (f x) = g.isTerminal x :=
  (gramMap_rel hf g).isTerminal x

theorem firstStep_map (hf : KeepsOrder f) (X : Table T) :
    OutRel (fun a b => b = tabMap f a) (firstStep g X) (firstStep (gramMap f g) (tabMap f X)) := by
  unfold firstStep
  refine OutRel.foldlM (fun a b e p _ => ?_) rfl
  subst e
  refine OutRel.bind (R := fun a b => b = a.map f) ?_ (fun s s' e => ?_)
  · unfold firstStepSet
    simp only [Prod.map]
    refine OutRel.foldlM (fun a b e x _ => ?_) rfl
    subst e
    rw [isTerminal_map hf]
    split
    · exact .ok (hf.insert _ _).symm
    · refine (OutRel.ofOption (v := List.map f) _ (hf.get? _ _ _)).bind (fun s s' e => ?_)
      subst e
      exact .ok (hf.extend _ _).symm
  · subst e
    refine .ok ?_
    simp only [Prod.map, tabMap]
    rw [hf.insertM, hf.remove]

theorem followStep_map (hf : KeepsOrder f) (X : Table T) :
    followStep (gramMap f g) (tabMap f X) = tabMap f (followStep g X) := by
  unfold followStep
  refine foldl_map_comm (v := tabMap f) (fun a p _ => ?_) []
  simp only [Prod.map, tabMap]
  rw [hf.insertM, hf.remove]
  congr 2
  unfold followStepSet
  refine foldl_map_comm (v := List.map f) (fun a x _ => ?_) []
  rw [isTerminal_map hf, hf.get?]
  split
  · exact (hf.insert _ _).symm
  · cases X.get? x with
    | none => rfl
    | some s => exact (hf.extend _ _).symm

theorem updateEntry_map (hf : KeepsOrder f) (X : Table T) (k : T) {h : OSet T → OSet T} {h' : OSet U → OSet U}
    (hh : ∀ s, h' (s.map f) = (h s).map f) :
    updateEntry (tabMap f X) (f k) h' = tabMap f (updateEntry X k h) := by
  unfold updateEntry
  simp only [tabMap]
  rw [hf.insertM, hf.get?, ← hh]
  cases X.get? k <;> rfl

theorem genFollow_map (hf : KeepsOrder f) (F : Table T) :
    OutRel (fun a b => b = tabMap f a) (genFollow g F) (genFollow (gramMap f g) (tabMap f F)) := by
  unfold genFollow
  rw [show OMap.values (gramMap f g).rules = g.rules.values.map (ruleMap f) from values_map _]
  refine OutRel.foldlM (fun a b e r _ => ?_) rfl
  simp only [ruleMap]
  refine OutRel.foldlM (fun a b e p _ => ?_) e
  subst e
  refine OutRel.bind (R := fun a b => b = tabMap f a) ?_ (fun a b e => ?_)
  · unfold followPairs
    simp only [Prod.map]
    rw [← List.map_tail, List.zip_map]
    refine OutRel.foldlM (fun a b e x _ => ?_) rfl
    subst e
    simp only [Prod.map]
    rw [isTerminal_map hf, isTerminal_map hf]
    split
    · exact .ok rfl
    · split
      · exact .ok (updateEntry_map hf _ _ (fun s => (hf.insert _ _).symm))
      · refine (OutRel.ofOption (v := List.map f) _ (hf.get? _ _ _)).bind (fun s s' e => ?_)
        subst e
        exact .ok (updateEntry_map hf _ _ (fun s => (hf.extend _ _).symm))
  · subst e
    unfold followLast
    refine (OutRel.ofOption (v := f) _ (by simp [Prod.map])).bind (fun x x' e => ?_)
    subst e
    simp only [isTerminal_map hf, ne_eq, hf.eq_iff]
    split
    · exact .ok (updateEntry_map hf _ _ (fun s => (hf.insert _ _).symm))
    · exact .ok rfl

theorem allTerminal_map (hf : KeepsOrder f) (X : Table T) : allTerminal (gramMap f g) (tabMap f X) = allTerminal g X := by
  unfold allTerminal
  have : (OMap.values (tabMap f X)).flatten = X.values.flatten.map f := by
    simp [OMap.values, tabMap, List.map_flatten, Function.comp_def]
  rw [this, List.all_map]
  congr 1
  funext x
  exact isTerminal_map hf x

theorem tabMap_inj (hf : KeepsOrder f) {X Y : Table T} (e : tabMap f X = tabMap f Y) : X = Y := by
  refine (List.map_inj_right (fun a b e => ?_)).mp e
  obtain ⟨a, s⟩ := a
  obtain ⟨b, s'⟩ := b
  simp only [Prod.map, Prod.mk.injEq] at e
  rw [hf.inj e.1, hf.list.inj e.2]

theorem new_map (hf : KeepsOrder f) (dbg : Bool) (n : Nat) (g : Grammar T) :
    OutRel (TabRel f (noShift T)) (new dbg n g) (new dbg n (gramMap f g)) := by
  unfold new
  refine (genFirst_map hf).bind (fun X X' e => ?_)
  subst e
  refine OutRel.bind (R := fun a b => b = tabMap f a) ?_ (fun X X' e => ?_)
  · unfold procFirst
    refine (OutRel.transitive (fun a b => tabMap_inj hf) (fun a => firstStep_map hf a) n X).bind (fun Y Y' e => ?_)
    subst e
    exact (OutRel.assert _ (by rw [allTerminal_map hf])).bind (fun _ _ _ => .ok rfl)
  subst e
  refine (genFollow_map hf X).bind (fun Y Y' e => ?_)
  subst e
  refine OutRel.bind (R := fun a b => b = tabMap f a) ?_ (fun Y Y' e => ?_)
  · unfold procFollow
    refine (OutRel.transitive (l := fun t => .ok (followStep (gramMap f g) t)) (fun a b => tabMap_inj hf)
      (fun a => .ok (followStep_map hf a)) n Y).bind (fun Y Y' e => ?_)
    subst e
    exact (OutRel.assert _ (by rw [allTerminal_map hf])).bind (fun _ _ _ => .ok rfl)
  subst e
  exact .ok ⟨gramMap_rel hf g, rfl, rfl, rfl, rfl, rfl⟩

end Tabler

theorem build_eq (k : Method) (dbg : Bool) (n : Nat) (g : Grammar T) :
    k.build dbg n g = Tabler.new dbg n g >>= k.fill dbg n := by
  cases k with
  | slr => rfl
  | clr => rfl
  | lalr =>
    simp only [Method.build, Lalr.new]
    cases Tabler.new dbg n g <;> rfl

theorem TabRel.fill {c : T → List T → Nat} {t : Tabler T} {t' : Tabler U} (h : TabRel f c t t') (k : Method)
    (dbg : Bool) (n : Nat) : OutRel (TabRel f c) (k.fill dbg n t) (k.fill dbg n t') := by
  cases k with
  | slr => exact h.slr dbg n
  | clr => exact h.clr dbg n
  | lalr => exact (h.lalr dbg n).bind (fun a b h => .ok h.table)

theorem build_map (hf : KeepsOrder f) (k : Method) (dbg : Bool) (n : Nat) (g : Grammar T) :
    OutRel (TabRel f (noShift T)) (k.build dbg n g) (k.build dbg n (gramMap f g)) := by
  rw [build_eq, build_eq]
  exact (Tabler.new_map hf dbg n g).bind (fun a b h => h.fill k dbg n)

end Lrp
