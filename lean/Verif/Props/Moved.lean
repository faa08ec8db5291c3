import Verif.Proofs.Moved
import Verif.Props.Reorder
import Verif.Props.Rename

/-! C101: alternatives in another order only get other numbers.  C102: of names only their order matters. -/

set_option linter.unusedSectionVars false

namespace Lrp.Props
open Spec
set_option maxRecDepth 100000

variable {T U M : Type} [LinOrd T] [DecidableEq T] [LinOrd U] [DecidableEq U]

/-- `parse` ends in the same way with two tables: with the same value, or the same error up to names and
numbers, or the same panic, or never. -/
def SameEnds (f : T → U) (π : T → Nat → Nat) (t : Tabler T) (t' : Tabler U) (maps : ReductMap M T)
    (maps' : ReductMap M U) (toks : List (Token M T)) : Prop :=
  (∀ r, Parses t maps toks r → Parses t' maps' (renameToks f toks) (movedRes f π r)) ∧
  (∀ p, Panics (fun n => Parser.parse t n toks maps) p →
    Panics (fun n => Parser.parse t' n (renameToks f toks) maps') p) ∧
  (Diverges (fun n => Parser.parse t n toks maps) →
    Diverges (fun n => Parser.parse t' n (renameToks f toks) maps'))

theorem sameEnds {f : T → U} {π : T → Nat → Nat} {D : Decls T} (hf : OrderKeeping f) {t : Tabler T} {t' : Tabler U}
    (ht : MovedTable f π t t') (he : t'.grammar.basis.look = t.grammar.basis.look.map f)
    (hp : RedProds D t.actions) {maps : ReductMap M T} {maps' : ReductMap M U} (hm : MovedReds f π D maps maps')
    (toks : List (Token M T)) : SameEnds f π t t' maps maps' toks := by
  have key := fun n => parse_moved hf ht he hp hm n toks
  refine ⟨?_, ?_, ?_⟩
  · rintro r ⟨n, h⟩
    obtain ⟨r', h', rfl⟩ := (key n).of_ok h
    exact ⟨n, h'⟩
  · rintro p ⟨n, h⟩
    exact ⟨n, ((key n).panic_iff p).mpr h⟩
  · intro h n
    exact (key n).fuel_iff.mpr (h n)

/-- C101: if no rule has the same alternative twice, the table of the grammar with its alternatives in another
order is the same table with the alternatives renumbered, conflicts and all; and if the reductors are moved along,
`parse` does the same on every input. -/
theorem C101_same {k : Method} {dbg : Bool} {D D' : Decls T} {S eof : T} {π : T → Nat → Nat} {t : Tabler T}
    (h : Reordered π D D') (hd : ∀ A i j b, IsProd D A i b → IsProd D A j b → i = j) (hS : SingleStart D S)
    (ht : Makes k dbg D S eof t) :
    ∃ t', Makes k dbg D' S eof t' ∧ MovedTable id π t t' ∧
      ∀ (maps maps' : ReductMap M T), MovedReds id π D maps maps' → ∀ toks : List (Token M T),
        SameEnds id π t t' maps maps' toks := by
  obtain ⟨_, g', hg', _⟩ := reordered_makes h hS ht
  obtain ⟨g, hg, n, hb⟩ := id ht
  obtain ⟨t', hb', t0, h1, h2⟩ := (build_reordered h hd hS hg hg' k n).of_ok hb
  have ht' : Makes k dbg D' S eof t' := ⟨g', hg', n, hb'⟩
  have hm := moved_reordered h hd ht ht' h1 h2
  refine ⟨t', ht', hm, fun maps maps' hr toks => sameEnds (fun _ _ => rfl) hm ?_ ht.redProds hr toks⟩
  obtain ⟨_, _, _, _, ho⟩ := ht.auto
  obtain ⟨_, _, _, _, ho'⟩ := ht'.auto
  obtain ⟨_, _, e⟩ := ho.basis
  obtain ⟨_, _, e'⟩ := ho'.basis
  rw [e, e']
  rfl

/-- C101: and if no table can be made of the one grammar, none can be made of the other, for the same reason. -/
theorem C101_fails {k : Method} {dbg : Bool} {D D' : Decls T} {S eof : T} {π : T → Nat → Nat}
    (h : Reordered π D D') (hd : ∀ A i j b, IsProd D A i b → IsProd D A j b → i = j) (hS : SingleStart D S) :
    (∀ p, Grammar.new dbg S (grammarMap D') eof = .panic p ↔ Grammar.new dbg S (grammarMap D) eof = .panic p) ∧
    ∀ g g', Grammar.new dbg S (grammarMap D) eof = .ok g → Grammar.new dbg S (grammarMap D') eof = .ok g' →
      (∀ p, Panics (fun n => k.build dbg n g') p ↔ Panics (fun n => k.build dbg n g) p) ∧
      (Diverges (fun n => k.build dbg n g') ↔ Diverges (fun n => k.build dbg n g)) := by
  refine ⟨fun p => (new_reordered h hS dbg).panic_iff p, fun g g' hg hg' => ?_⟩
  have key := fun n => build_reordered h hd hS hg hg' k n
  exact ⟨fun p => exists_congr (fun n => (key n).panic_iff p), forall_congr' (fun n => (key n).fuel_iff)⟩

/-- C102: with other names in the same order the table is the same table with the symbols renamed, conflicts and
all, for all three methods; and if the reductors do not mind the names, `parse` does the same on every input. -/
theorem C102_same {k : Method} {dbg : Bool} {D : Decls T} {S eof : T} {f : T → U} {t : Tabler T}
    (hf : OrderKeeping f) (ht : Makes k dbg D S eof t) :
    ∃ t', Makes k dbg (renamed f D) (f S) (f eof) t' ∧ MovedTable f (fun _ i => i) t t' ∧
      ∀ (maps : ReductMap M T) (maps' : ReductMap M U), MovedReds f (fun _ i => i) D maps maps' →
        ∀ toks : List (Token M T), SameEnds f (fun _ i => i) t t' maps maps' toks := by
  obtain ⟨t', ht', hr⟩ := makes_renamed hf ht
  exact ⟨t', ht', hr.moved, fun maps maps' hm toks =>
    sameEnds hf hr.moved (by rw [hr.gram.basis]; rfl) ht.redProds hm toks⟩

/-- C102: and if no table can be made of the grammar, none can be made of the renamed one, for the same reason. -/
theorem C102_fails {k : Method} {dbg : Bool} {D : Decls T} {S eof : T} {f : T → U} (hf : OrderKeeping f) :
    (∀ p, Grammar.new dbg (f S) (grammarMap (renamed f D)) (f eof) = .panic p ↔
      Grammar.new dbg S (grammarMap D) eof = .panic p) ∧
    ∀ g g', Grammar.new dbg S (grammarMap D) eof = .ok g →
      Grammar.new dbg (f S) (grammarMap (renamed f D)) (f eof) = .ok g' →
      (∀ p, Panics (fun n => k.build dbg n g') p ↔ Panics (fun n => k.build dbg n g) p) ∧
      (Diverges (fun n => k.build dbg n g') ↔ Diverges (fun n => k.build dbg n g)) := by
  have hn := new_ordered hf dbg D S eof
  refine ⟨fun p => hn.panic_iff p, fun g g' hg hg' => ?_⟩
  obtain ⟨g'', e, rfl⟩ := hn.of_ok hg
  rw [hg'] at e
  cases e
  have key := fun n => build_map hf k dbg n g
  exact ⟨fun p => exists_congr (fun n => (key n).panic_iff p), forall_congr' (fun n => (key n).fuel_iff)⟩

/-! ### Samples -/

theorem expr_distinct : ∀ A i j b, IsProd Samples.expr A i b → IsProd Samples.expr A j b → i = j := by
  intro A i j b hi hj
  obtain ⟨d, h1, rfl, h3⟩ := Samples.mem_of_isProd hi
  obtain ⟨d', h1', h2', h3'⟩ := Samples.mem_of_isProd hj
  have nd : ∀ d ∈ Samples.expr, ∀ d' ∈ Samples.expr, d'.1 = d.1 → d' = d := by decide
  have := nd d h1 d' h1' h2'
  subst this
  have hl : ∀ d ∈ Samples.expr, d.2.length ≤ 2 := by decide
  have hn : ∀ d ∈ Samples.expr, ∀ i j : Fin 2, d.2[i.1]? = d.2[j.1]? → d.2[i.1]? = none ∨ i = j := by decide
  have hi := (List.getElem?_eq_some_iff.mp h3).1
  have hj := (List.getElem?_eq_some_iff.mp h3').1
  have := hl _ h1
  rcases hn _ h1 ⟨i, by omega⟩ ⟨j, by omega⟩ (h3.trans h3'.symm) with h | h
  · rw [h3] at h; cases h
  · exact congrArg Fin.val h

/-- Not vacuous: the Lalr table of the expression grammar and of the grammar written the other way round. -/
example : ∃ t', Makes .lalr true exprBack 0 99 t' ∧ MovedTable id backwards exprLalr.table t' ∧
    ∀ toks : List (Token Nat Nat), SameEnds id backwards exprLalr.table t' exprReds exprBackReds toks := by
  obtain ⟨t', h1, h2, h3⟩ := C101_same (M := Nat) exprBack_reordered expr_distinct expr_single makes_exprLalr
  refine ⟨t', h1, h2, h3 _ _ ?_⟩
  intro A i b hp
  obtain ⟨d, h1, rfl, h3⟩ := Samples.mem_of_isProd hp
  have hj := (List.getElem?_eq_some_iff.mp h3).1
  simp only [Samples.expr, List.mem_cons, List.not_mem_nil, or_false] at h1
  have hid : ∀ its : List (Token Nat Nat), renameToks id its = its := fun its => by simp [renameToks]
  rcases h1 with rfl | rfl | rfl | rfl <;> simp only [List.length_cons, List.length_nil] at hj
  · obtain rfl : i = 0 := by omega
    exact fun its => by rw [hid]
  all_goals
    obtain rfl | rfl : i = 0 ∨ i = 1 := by omega
    · exact fun its => by rw [hid]
    · exact fun its => by rw [hid]

/-- Every symbol one up. -/
def oneUp (x : Nat) : Nat := x + 1

theorem oneUp_keeps : OrderKeeping oneUp := by
  intro a b
  show natCmp _ _ = natCmp _ _
  unfold natCmp oneUp
  by_cases h1 : a < b
  · rw [if_pos h1, if_pos (by omega)]
  · rw [if_neg h1, if_neg (by omega)]
    by_cases h2 : a = b
    · rw [if_pos h2, if_pos (by omega)]
    · rw [if_neg h2, if_neg (by omega)]

/-- Not vacuous: a conflict that Lalr misses is missed under all names in this order (`C65_lalr_conflicts` has
the names in another one). -/
example : ∃ t t', Makes .lalr true Samples.hiddenConflict 0 99 t ∧
    Makes .lalr true (renamed oneUp Samples.hiddenConflict) 1 100 t' ∧ MovedTable oneUp (fun _ i => i) t t' := by
  obtain ⟨t, _, h, _⟩ := C65_lalr_conflicts
  obtain ⟨t', h', hm, _⟩ := C102_same (M := Unit) oneUp_keeps h
  exact ⟨t, t', h, h', hm⟩

end Lrp.Props
