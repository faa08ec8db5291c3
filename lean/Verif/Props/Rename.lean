import Verif.Proofs.Rename
import Verif.Props.Loose

/-! C65: names of symbols, and so their order, do not matter — except for Lalr. -/

namespace Lrp.Props
open Spec
set_option maxRecDepth 100000

variable {T T' : Type} [LinOrd T] [DecidableEq T] [LinOrd T'] [DecidableEq T'] {f : T → T'}

/-- C65 in full: in a grammar with its symbols renamed there are conflicts iff there were, and without
conflicts exactly the renamed inputs are accepted. -/
def C65_statement (k : Method) : Prop :=
  ∀ (dbg dbg' : Bool) (f : Nat → Nat) (D : Decls Nat) (S eof : Nat) (t t' : Tabler Nat), Injective f →
    Makes k dbg D S eof t → Makes k dbg' (renamed f D) (f S) (f eof) t' →
    Terminal D eof → InNoBody D S → SingleStart D S → AllProductive D → (∀ A, Nonterminal D A → Reachable D S A) →
    (t.conflicts = [] ↔ t'.conflicts = []) ∧
    (t.conflicts = [] → ∀ toks : List (Token Unit Nat),
      Validates t toks true ↔ Validates t' (renameToks f toks) true)

/-- C65 for Clr: conflicts. -/
theorem C65_clr_conflicts {dbg dbg' : Bool} {D : Decls T} {S eof : T} {t : Tabler T} {t' : Tabler T'}
    (hf : Injective f) (h : Makes .clr dbg D S eof t)
    (h' : Makes .clr dbg' (renamed f D) (f S) (f eof) t') (he : Terminal D eof) (hS : SingleStart D S)
    (hpr : AllProductive D) : t.conflicts = [] ↔ t'.conflicts = [] := by
  rw [C63_clr_iff h he hS hpr, C63_clr_iff h' ((terminal_rename hf).mpr he) (singleStart_rename hf hS)
    (allProductive_rename hf hpr), lr1_rename hf]

/-- C65 for Slr: conflicts. -/
theorem C65_slr_conflicts {dbg dbg' : Bool} {D : Decls T} {S eof : T} {t : Tabler T} {t' : Tabler T'}
    (hf : Injective f) (h : Makes .slr dbg D S eof t)
    (h' : Makes .slr dbg' (renamed f D) (f S) (f eof) t') (he : Terminal D eof) (hS : SingleStart D S)
    (hpr : AllProductive D) (hre : ∀ A, Nonterminal D A → Reachable D S A) :
    t.conflicts = [] ↔ t'.conflicts = [] := by
  rw [C64_slr_all_builds h he hS hpr hre, C64_slr_all_builds h' ((terminal_rename hf).mpr he)
    (singleStart_rename hf hS) (allProductive_rename hf hpr) (reachable_rename hf hre),
    slr1For_rename hf (fun A x' => followed_rename hf)]

/-- C65: tables without conflicts, by any two methods and orders of the symbols, accept the same inputs
up to renaming. -/
theorem C65_accepts {k k' : Method} {dbg dbg' : Bool} {D : Decls T} {S eof : T} {t : Tabler T}
    {t' : Tabler T'} (hf : Injective f) (h : Makes k dbg D S eof t)
    (h' : Makes k' dbg' (renamed f D) (f S) (f eof) t')
    (hk : k = .lalr → Propagated t) (hk' : k' = .lalr → Propagated t') (hc : t.conflicts = [])
    (hc' : t'.conflicts = []) (he : Terminal D eof) (hb : InNoBody D S) (hS : SingleStart D S)
    (toks : List (Token Unit T)) :
    Validates t toks true ↔ Validates t' (renameToks f toks) true := by
  have he' := (terminal_rename (D := D) hf).mpr he
  have hb' := inNoBody_rename hf hb
  have hS' := singleStart_rename hf hS
  have key : ∀ {U : Type} [LinOrd U] [DecidableEq U] {k : Method} {dbg : Bool} {D : Decls U} {S eof : U}
      {t : Tabler U} (_ : Makes k dbg D S eof t) (_ : k = .lalr → Propagated t) (_ : t.conflicts = [])
      (_ : Terminal D eof) (_ : InNoBody D S) (_ : SingleStart D S) (toks : List (Token Unit U)),
      Validates t toks true ↔ Sentence D S (toks.map Token.ty) := by
    intro U _ _ k dbg D S eof t h hk hc he hb hS toks
    refine ⟨?_, complete_validates h hk hc hb hS he⟩
    cases k with
    | slr => exact C18_slr_sound h hb he
    | clr => exact C19_clr_sound h hb he
    | lalr => exact C20_lalr_sound h hb he
  rw [key h hk hc he hb hS, key h' hk' hc' he' hb' hS']
  have : (renameToks f toks).map Token.ty = (toks.map Token.ty).map f := by
    simp [renameToks, List.map_map, Function.comp_def]
  rw [this, sentence_rename hf]

/-- C65, the part that holds: Slr and Clr. -/
theorem C65_partial {k : Method} (hk : k ≠ .lalr) : C65_statement k := by
  intro dbg dbg' f D S eof t t' hf h h' he hb hS hpr hre
  have hcc : t.conflicts = [] ↔ t'.conflicts = [] := by
    cases k with
    | slr => exact C65_slr_conflicts hf h h' he hS hpr hre
    | clr => exact C65_clr_conflicts hf h h' he hS hpr
    | lalr => exact absurd rfl hk
  exact ⟨hcc, fun hc toks => C65_accepts hf h h' (fun e => absurd e hk) (fun e => absurd e hk) hc
    (hcc.mp hc) he hb hS toks⟩

/-- Swaps `10` and `13`. -/
def swapXZ (x : Nat) : Nat := if x = 10 then 13 else if x = 13 then 10 else x

theorem swapXZ_inj : Injective swapXZ := by
  intro a b h
  unfold swapXZ at h
  split at h <;> split at h <;> (try split at h) <;> (try split at h) <;> omega

/-- Not vacuous: the grammar of pointers has a Clr table without conflicts, and so has it with `=`
ordered after `id`; the table accepts `* id = id`. -/
example {t : Tabler Nat} (h : Makes .clr true (renamed swapXZ Samples.pointers) 0 99 t) :
    t.conflicts = [] ∧ Validates t (Samples.toks [11, 12, 13, 12]) true := by
  have hg : Grammar.new true 0 (grammarMap Samples.pointers) 99 =
    .ok (Samples.grammar Samples.pointers) := by decide +kernel
  have k : ∃ t, Clr.new true 500 (Samples.grammar Samples.pointers) = .ok t ∧ t.conflicts = [] ∧
      Parser.validate t 50 (Samples.toks [11, 12, 10, 12]) = .ok true := by
    refine ⟨_, rfl, ?_⟩; decide +kernel
  obtain ⟨t', k1, hc, k2⟩ := k
  have := C65_partial (k := .clr) (by decide) true true swapXZ Samples.pointers 0 99 t' t swapXZ_inj
    ⟨_, hg, 500, k1⟩ h pointers_eof (Samples.inNoBody (by decide))
    (single_start_debug hg) pointers_productive pointers_reachable
  exact ⟨this.1.mp hc, (this.2 hc (Samples.toks [11, 12, 10, 12])).mp ⟨50, k2⟩⟩

theorem lalrGap_productive : AllProductive Samples.lalrGap :=
  allProductive [(3, 0), (2, 0), (1, 0), (0, 0)] (by decide) (by decide +kernel) (by decide)

theorem lalrGap_reachable : ∀ A, Nonterminal Samples.lalrGap A → Reachable Samples.lalrGap 0 A := by
  have p0 : IsProd Samples.lalrGap 0 0 [1] := isProd_of_mem (by decide) (bs := [[1]]) (by decide) rfl
  have p1 : IsProd Samples.lalrGap 1 0 [2, 10] :=
    isProd_of_mem (by decide) (bs := [[2, 10], [13, 2, 12]]) (by decide) rfl
  have p2 : IsProd Samples.lalrGap 2 0 [11, 3] := isProd_of_mem (by decide) (bs := [[11, 3]]) (by decide) rfl
  have d1 : Derives Samples.lalrGap [0] [1] := .of_prod p0
  have d2 : Derives Samples.lalrGap [0] [2, 10] := d1.trans (.of_prod p1)
  have d3 : Derives Samples.lalrGap [0] [11, 3, 10] := d2.trans (Derives.ctx (.of_prod p2) [] [10])
  rintro A ⟨d, hd, rfl⟩
  simp only [Samples.lalrGap, List.mem_cons, List.not_mem_nil, or_false] at hd
  rcases hd with rfl | rfl | rfl | rfl
  · exact ⟨[], [], .refl _⟩
  · exact ⟨[], [], d1⟩
  · exact ⟨[], [10], d2⟩
  · exact ⟨[11], [10], d3⟩

/-- C65 is false of Lalr: for `S → A x | z A y`, `A → c B`, `B → d e` the sentence `z c d e y` is rejected
when `x < z`, and accepted when the symbols are ordered so that `z < x`. -/
theorem C65_false : ¬ C65_statement .lalr := by
  intro hst
  have hg : Grammar.new true 0 (grammarMap Samples.lalrGap) 99 =
    .ok (Samples.grammar Samples.lalrGap) := by decide +kernel
  have hg' : Grammar.new true 0 (grammarMap (renamed swapXZ Samples.lalrGap)) 99 =
    .ok (Samples.grammar (renamed swapXZ Samples.lalrGap)) := by decide +kernel
  have h : ∃ l, Lalr.new true 500 (Samples.grammar Samples.lalrGap) = .ok l ∧
      l.table.conflicts = [] ∧
      Parser.validate l.table 50 (Samples.toks [13, 11, 14, 15, 12]) = .ok false := by
    refine ⟨_, rfl, ?_⟩
    decide +kernel
  obtain ⟨l, k1, k2, k3⟩ := h
  have h : ∃ l, Lalr.new true 500 (Samples.grammar (renamed swapXZ Samples.lalrGap)) = .ok l ∧
      Parser.validate l.table 50 (renameToks swapXZ (Samples.toks [13, 11, 14, 15, 12])) = .ok true := by
    refine ⟨_, rfl, ?_⟩
    decide +kernel
  obtain ⟨l', k1', k3'⟩ := h
  have m : Makes .lalr true Samples.lalrGap 0 99 l.table := by
    refine ⟨_, hg, 500, ?_⟩
    show (do let l ← Lalr.new true 500 (Samples.grammar Samples.lalrGap); return l.table) = _
    rw [k1]; rfl
  have m' : Makes .lalr true (renamed swapXZ Samples.lalrGap) (swapXZ 0) (swapXZ 99) l'.table := by
    refine ⟨_, hg', 500, ?_⟩
    show (do let l ← Lalr.new true 500 (Samples.grammar (renamed swapXZ Samples.lalrGap)); return l.table) = _
    rw [k1']; rfl
  have := (hst true true swapXZ Samples.lalrGap 0 99 l.table l'.table swapXZ_inj m m' (by unfold Terminal; decide)
    (Samples.inNoBody (by decide)) (single_start_debug hg) lalrGap_productive lalrGap_reachable).2 k2
    (Samples.toks [13, 11, 14, 15, 12])
  exact absurd (Validates.unique (this.mpr ⟨50, k3'⟩) ⟨50, k3⟩) (by decide)

/-- Nor are conflicts found by Lalr independent of the names: `S → A x | z A y`, `A → c B`,
`B → d e | d e y` has none when `x < z`, and one when `z < x`. -/
theorem C65_lalr_conflicts : ∃ t t', Makes .lalr true Samples.hiddenConflict 0 99 t ∧
    Makes .lalr true (renamed swapXZ Samples.hiddenConflict) (swapXZ 0) (swapXZ 99) t' ∧
    t.conflicts.length = 0 ∧ t'.conflicts.length = 1 := by
  have hg : Grammar.new true 0 (grammarMap Samples.hiddenConflict) 99 =
    .ok (Samples.grammar Samples.hiddenConflict) := by decide +kernel
  have hg' : Grammar.new true 0 (grammarMap (renamed swapXZ Samples.hiddenConflict)) 99 =
    .ok (Samples.grammar (renamed swapXZ Samples.hiddenConflict)) := by decide +kernel
  have h : ∃ l, Lalr.new true 500 (Samples.grammar Samples.hiddenConflict) = .ok l ∧
      l.table.conflicts.length = 0 := by
    refine ⟨_, rfl, ?_⟩
    decide +kernel
  obtain ⟨l, k1, k2⟩ := h
  have h : ∃ l, Lalr.new true 500 (Samples.grammar (renamed swapXZ Samples.hiddenConflict)) = .ok l ∧
      l.table.conflicts.length = 1 := by
    refine ⟨_, rfl, ?_⟩
    decide +kernel
  obtain ⟨l', k1', k2'⟩ := h
  refine ⟨l.table, l'.table, ⟨_, hg, 500, ?_⟩, ⟨_, hg', 500, ?_⟩, k2, k2'⟩
  · show (do let l ← Lalr.new true 500 (Samples.grammar Samples.hiddenConflict); return l.table) = _
    rw [k1]; rfl
  · show (do let l ← Lalr.new true 500 (Samples.grammar (renamed swapXZ Samples.hiddenConflict)); return l.table) = _
    rw [k1']; rfl

end Lrp.Props
