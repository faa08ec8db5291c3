import Verif.Props.Samples
import Verif.Proofs.Iterate
import Verif.Proofs.TablerNew
import Verif.Proofs.Folding

/-!
Properties C01–C09, C37, C39, C40: iteration, grammars, FIRST and FOLLOW, spans, positions.
-/

set_option linter.unusedSectionVars false
set_option maxRecDepth 100000

namespace Lrp.Props
open Spec
variable {T : Type} [LinOrd T] [DecidableEq T]

/-! ### C01 -/

section C01
variable {α : Type} [DecidableEq α]

/-- C01: `transitive` returns `v` exactly when `v` is the first fixpoint of the orbit of the seed. -/
theorem C01_returns_iff (f : α → Out α) (seed v : α) :
    Returns (fun n => transitive f n seed) v ↔
      ∃ k, Orbit f seed k v ∧ f v = .ok v ∧
        ∀ j, j < k → ∃ u w, Orbit f seed j u ∧ f u = .ok w ∧ w ≠ u := by
  unfold Returns
  constructor
  · rintro ⟨n, h⟩
    obtain ⟨k, _, h2, h3, h4⟩ := transitive_ok_iff.mp h
    exact ⟨k, h3, h4, h2⟩
  · rintro ⟨k, h3, h4, h2⟩
    exact ⟨k + 1, transitive_ok_iff.mpr ⟨k, by omega, h2, h3, h4⟩⟩

/-- C01: it panics exactly when the step panics on the orbit before any fixpoint. -/
theorem C01_panics_iff (f : α → Out α) (seed : α) (p : Panic) :
    Panics (fun n => transitive f n seed) p ↔
      ∃ k u, Orbit f seed k u ∧ f u = .panic p ∧
        ∀ j, j < k → ∃ u w, Orbit f seed j u ∧ f u = .ok w ∧ w ≠ u := by
  unfold Panics
  constructor
  · rintro ⟨n, h⟩
    obtain ⟨k, v, _, h2, h3, h4⟩ := transitive_panic_iff.mp h
    exact ⟨k, v, h3, h4, h2⟩
  · rintro ⟨k, v, h3, h4, h2⟩
    exact ⟨k + 1, transitive_panic_iff.mpr ⟨k, v, by omega, h2, h3, h4⟩⟩

/-- C01: it never returns exactly when every iterate exists and none is a fixpoint (for a step
function that itself always returns or panics). -/
theorem C01_diverges_iff (f : α → Out α) (hf : ∀ a, f a ≠ .fuel) (seed : α) :
    Diverges (fun n => transitive f n seed) ↔
      ∀ j, ∃ u w, Orbit f seed j u ∧ f u = .ok w ∧ w ≠ u := by
  unfold Diverges
  constructor
  · intro h j; exact transitive_fuel_iff hf |>.mp (h (j + 1)) j (by omega)
  · intro h n; exact (transitive_fuel_iff hf).mpr (fun j _ => h j)

/-- Not vacuous: halving from 12 stops at 0 after four steps; incrementing never stops. -/
example : Returns (fun n => transitive (fun x : Nat => .ok (x / 2)) n 12) 0 :=
  (C01_returns_iff _ _ _).mpr ⟨4, .succ (.succ (.succ (.succ .zero rfl) rfl) rfl) rfl, rfl, by
    intro j hj
    match j, hj with
    | 0, _ => exact ⟨12, 6, .zero, rfl, by decide⟩
    | 1, _ => exact ⟨6, 3, .succ .zero rfl, rfl, by decide⟩
    | 2, _ => exact ⟨3, 1, .succ (.succ .zero rfl) rfl, rfl, by decide⟩
    | 3, _ => exact ⟨1, 0, .succ (.succ (.succ .zero rfl) rfl) rfl, rfl, by decide⟩⟩

example : Diverges (fun n => transitive (fun x : Nat => .ok (x + 1)) n 0) :=
  (C01_diverges_iff _ (by simp) _).mpr (fun j => ⟨j, j + 1, by
    induction j with
    | zero => exact .zero
    | succ j ih => exact .succ ih rfl, rfl, by omega⟩)

end C01

/-! ### C02 -/

/-- C02: production number `i` of the rule is the `i`-th body, and there is no other one. -/
theorem C02_numbering (name : T) (bodies : List (List T)) :
    (Rule.new name bodies).name = name ∧
    (Rule.new name bodies).prods.length = bodies.length ∧
    (∀ (i : Nat) (b : List T), bodies[i]? = some b → (Rule.new name bodies).prods[i]? = some (b, i)) ∧
    (∀ p ∈ (Rule.new name bodies).prods, bodies[p.2]? = some p.1) := by
  refine ⟨rfl, by simp [Rule.new], ?_, fun p hp => Rule.new_prods.mp hp⟩
  intro i b h
  simp [Rule.new, List.getElem?_zipIdx, h]

/-- C02: no two productions of a rule are equal, even when the same body is declared twice. -/
theorem C02_distinct (name : T) (bodies : List (List T)) : (Rule.new name bodies).prods.Nodup := by
  have h : ((Rule.new name bodies).prods.map Prod.snd).Nodup := by
    simp only [Rule.new, List.zipIdx_map_snd]
    exact List.nodup_range'
  exact List.Pairwise.of_map Prod.snd (fun _ _ h e => h (congrArg Prod.snd e)) h

/-- C02: `Rule::single` declares one production, with number 0. -/
theorem C02_single (name : T) (body : List T) (p : Production T) :
    p ∈ (Rule.single name body).prods ↔ p.1 = body ∧ p.2 = 0 := by
  constructor
  · intro h
    have h := (C02_numbering name [body]).2.2.2 p h
    cases hp : p.2 with
    | zero => rw [hp] at h; simpa using h.symm
    | succ n => rw [hp] at h; simp at h
  · rintro ⟨rfl, h⟩
    have := (C02_numbering name [p.1]).2.2.1 0 p.1 rfl
    rw [← h] at this
    exact List.mem_of_getElem? this

/-! ### C03 -/

/-- C03: what `Grammar::new` computes, for any rule map. -/
theorem C03_classification {dbg : Bool} {start eof : T} {rules : RuleMap T}
    (hs : OMap.Sorted rules) {g : Grammar T} (h : Grammar.new dbg start rules eof = .ok g) :
    g.rules = rules ∧
    (∀ x, g.isTerminal x = true ↔ ∀ r, (x, r) ∉ rules) ∧
    (∀ x, x ∈ g.terminals ↔ x = eof ∨
      ((∀ r, (x, r) ∉ rules) ∧ ∃ e ∈ rules, ∃ p ∈ e.2.prods, x ∈ p.1)) ∧
    (∀ x, x ∈ g.symbols ↔ (∃ r, (x, r) ∈ rules) ∨ x ∈ g.terminals) ∧
    (∃ r p, (start, r) ∈ rules ∧ r.prods.head? = some p ∧
      g.basis = { rule := start, seq := p, point := 0, look := [eof] }) := by
  have hnone : ∀ x, rules.get? x = none ↔ ∀ r, (x, r) ∉ rules := by
    intro x
    constructor
    · intro h r hr; rw [OMap.get?_of_mem hs hr] at h; cases h
    · intro h
      cases hx : rules.get? x with
      | none => rfl
      | some r => exact absurd (OMap.mem_of_get? hx) (h r)
  rw [Grammar.new_eq] at h
  cases hS : rules.get? start with
  | none => rw [hS] at h; cases h
  | some r =>
    rw [hS] at h
    simp only at h
    split at h
    · cases h
    · cases hp : r.prods[0]? with
      | none => rw [hp] at h; cases h
      | some p =>
        rw [hp] at h
        simp only [Out.ok.injEq] at h
        subst h
        refine ⟨rfl, ?_, ?_, ?_, ?_⟩
        · intro x; rw [Grammar.isTerminal_iff]; exact hnone x
        · intro x
          rw [OSet.mem_insert, Grammar.mem_collectTerminals, hnone]
          refine or_congr Iff.rfl (and_congr Iff.rfl ?_)
          constructor
          · rintro ⟨r, hr, p, hp, hx⟩
            obtain ⟨k, hk⟩ := (OMap.mem_values hs).mp hr
            exact ⟨(k, r), OMap.mem_of_get? hk, p, hp, hx⟩
          · rintro ⟨e, he, p, hp, hx⟩
            exact ⟨e.2, (OMap.mem_values hs).mpr ⟨e.1, OMap.get?_of_mem hs he⟩, p, hp, hx⟩
        · intro x
          rw [OSet.mem_ofList, List.mem_append, OMap.mem_keys]
          exact or_congr (exists_congr fun r =>
            ⟨fun h => OMap.mem_of_get? h, fun h => OMap.get?_of_mem hs h⟩) Iff.rfl
        · exact ⟨r, p, OMap.mem_of_get? hS, by rw [List.head?_eq_getElem?]; exact hp, rfl⟩

/-- C03: when `Grammar::new` returns, and with which message it panics otherwise. -/
theorem C03_panics (dbg : Bool) (start eof : T) (rules : RuleMap T) (hs : OMap.Sorted rules) :
    ((∃ g, Grammar.new dbg start rules eof = .ok g) ↔
      ∃ r, (start, r) ∈ rules ∧ r.prods ≠ [] ∧ (dbg = true → r.prods.length = 1)) ∧
    (Grammar.new dbg start rules eof = .panic .missingStart ↔ ∀ r, (start, r) ∉ rules) ∧
    (Grammar.new dbg start rules eof = .panic .noEntry ↔
      dbg = false ∧ ∃ r, (start, r) ∈ rules ∧ r.prods = []) ∧
    (Grammar.new dbg start rules eof = .panic .dbgManyEntries ↔
      dbg = true ∧ ∃ r, (start, r) ∈ rules ∧ r.prods.length ≠ 1) := by
  have hmem : ∀ r, (start, r) ∈ rules ↔ rules.get? start = some r := fun r => OMap.mem_iff_get? hs
  simp only [hmem]
  rw [Grammar.new_eq]
  cases hS : rules.get? start with
  | none => simp
  | some r =>
    obtain ⟨name, prods⟩ := r
    cases prods with
    | nil => cases dbg <;> simp
    | cons p ps =>
      cases dbg
      · simp
      · cases ps <;> simp

/-- Not vacuous: the expression grammar. -/
example : ∃ g, Grammar.new true Samples.S (grammarMap Samples.expr) Samples.eof = .ok g :=
  ⟨Samples.grammar Samples.expr, by decide +kernel⟩

/-! ### C04 -/

/-- C04: lookups in a `grammar_map!` give the last declaration of the name. -/
theorem C04_lookup (D : Decls T) (A : T) (r : Rule T) :
    (grammarMap D).get? A = some r ↔ ∃ bs, Declared D A bs ∧ r = Rule.new A bs :=
  grammarMap_get? D A r

/-- C04: a name has a rule iff it is declared. -/
theorem C04_declared (D : Decls T) (A : T) :
    (grammarMap D).get? A ≠ none ↔ ∃ d ∈ D, d.1 = A := by
  rw [ne_eq, grammarMap_none, not_terminal_iff]; rfl

/-- C04: only the last declaration of each name matters. -/
theorem C04_ext (D E : Decls T) (h : ∀ A bs, Declared D A bs ↔ Declared E A bs) :
    grammarMap D = grammarMap E := by
  refine OMap.ext (grammarMap_sorted D) (grammarMap_sorted E) (fun A => ?_)
  cases hD : (grammarMap D).get? A with
  | some r =>
    obtain ⟨bs, h1, rfl⟩ := (grammarMap_get? D A r).mp hD
    exact ((grammarMap_get? E A _).mpr ⟨bs, (h A bs).mp h1, rfl⟩).symm
  | none =>
    cases hE : (grammarMap E).get? A with
    | none => rfl
    | some r =>
      obtain ⟨bs, h1, rfl⟩ := (grammarMap_get? E A r).mp hE
      have := (grammarMap_get? D A _).mpr ⟨bs, (h A bs).mpr h1, rfl⟩
      rw [hD] at this; cases this

theorem declared_of_nodup {F : Decls T} (hF : (F.map Prod.fst).Nodup) (A : T) (bs : List (List T)) :
    Declared F A bs ↔ (A, bs) ∈ F := by
  constructor
  · rintro ⟨p, q, rfl, _⟩; simp
  · intro h
    obtain ⟨p, q, rfl⟩ := List.append_of_mem h
    refine ⟨p, q, rfl, ?_⟩
    intro d hd e
    rw [List.map_append, List.map_cons, List.nodup_append, List.nodup_cons] at hF
    exact hF.2.1.1 (List.mem_map.mpr ⟨d, hd, e⟩)

/-- C04: the order of declarations of different names is irrelevant. -/
theorem C04_perm (D E : Decls T) (hp : D.Perm E) (hn : (D.map Prod.fst).Nodup) :
    grammarMap D = grammarMap E := by
  refine C04_ext D E (fun A bs => ?_)
  rw [declared_of_nodup hn, declared_of_nodup ((hp.map Prod.fst).nodup_iff.mp hn)]
  exact hp.mem_iff

/-- C04: every map in which each rule was made by `Rule::new` and stands under its own name, however it was filled, is
the `grammar_map!` of some declarations. -/
theorem C04_every (m : RuleMap T) (hs : OMap.Sorted m)
    (hm : ∀ A r, m.get? A = some r → ∃ bs, r = Rule.new A bs) : ∃ D, m = grammarMap D := by
  refine ⟨m.map (fun e => (e.1, e.2.prods.map Prod.fst)), ?_⟩
  have hbodies : ∀ (A : T) bs, (Rule.new A bs).prods.map Prod.fst = bs := by
    intro A bs
    refine List.ext_getElem? (fun i => ?_)
    simp [Rule.new]
  have hn : ((m.map (fun e => (e.1, e.2.prods.map Prod.fst))).map Prod.fst).Nodup := by
    rw [List.map_map, List.nodup_iff_pairwise_ne, List.pairwise_map]
    exact hs.imp (fun h => LinOrd.cmp_ne_of_lt h)
  have key : ∀ A r, m.get? A = some r ↔
      (grammarMap (m.map (fun e => (e.1, e.2.prods.map Prod.fst)))).get? A = some r := by
    intro A r
    rw [C04_lookup]
    constructor
    · intro h
      obtain ⟨bs, rfl⟩ := hm A r h
      refine ⟨bs, (declared_of_nodup hn A bs).mpr ?_, rfl⟩
      exact List.mem_map.mpr ⟨(A, Rule.new A bs), OMap.mem_of_get? h, by rw [hbodies]⟩
    · rintro ⟨bs, h, rfl⟩
      obtain ⟨⟨A', r⟩, h1, h2⟩ := List.mem_map.mp ((declared_of_nodup hn A bs).mp h)
      injection h2 with h2 h3
      subst h2
      have h4 := OMap.get?_of_mem hs h1
      obtain ⟨bs', rfl⟩ := hm _ r h4
      rw [hbodies] at h3
      subst h3
      exact h4
  refine OMap.ext hs (grammarMap_sorted _) (fun A => ?_)
  cases h : m.get? A with
  | some r => exact ((key A r).mp h).symm
  | none =>
    cases h' : (grammarMap (m.map (fun e => (e.1, e.2.prods.map Prod.fst)))).get? A with
    | none => rfl
    | some r => rw [(key A r).mpr h'] at h; cases h

/-- Not vacuous: rules inserted one by one, in another order. -/
example : ∃ D, OMap.insert 1 (Rule.new 1 [[10, 2]]) (OMap.insert 2 (Rule.single 2 [11]) []) = grammarMap D := by
  refine C04_every _ (OMap.sorted_insert (OMap.sorted_insert OMap.sorted_nil _ _) _ _) ?_
  intro A r h
  rw [OMap.get?_insert, OMap.get?_insert] at h
  split at h
  · rename_i e; subst e; exact ⟨_, (Option.some.inj h).symm⟩
  · split at h
    · rename_i e; subst e; exact ⟨_, (Option.some.inj h).symm⟩
    · cases h

/-- Not vacuous: a repeated name, and two orders. -/
example : (grammarMap [(1, [[10]]), (2, [[11]]), (1, [[12]])] : RuleMap Nat) =
    grammarMap [(2, [[11]]), (1, [[12]])] := by decide
example : (grammarMap [(1, [[10]]), (2, [[11]])] : RuleMap Nat) =
    grammarMap [(2, [[11]]), (1, [[10]])] :=
  C04_perm _ _ (List.Perm.swap _ _ _) (by decide)

/-! ### C05 -/

/-- C05: the terminals of FIRST are exactly those that start a derived sentential form. -/
theorem C05_first_exact {dbg : Bool} {n : Nat} {D : Decls T} {S eof : T} {g : Grammar T}
    {t : Tabler T} (hg : Grammar.new dbg S (grammarMap D) eof = .ok g)
    (ht : Tabler.new dbg n g = .ok t) (A : T) (hA : Nonterminal D A) :
    ∃ F, t.first.get? A = some F ∧
      ∀ x, Terminal D x → (x ∈ F ↔ ∃ v, Derives D [A] (x :: v)) := by
  have h := Tabler.of_new (Grammar.of_new hg) ht
  obtain ⟨F, hF⟩ := (h.firstT.keys A).mpr hA
  refine ⟨F, hF, fun x hx => ?_⟩
  have := h.first A x hA hx
  simp only [Tabler.Has, hF, Option.some.injEq, exists_eq_left'] at this
  exact this

/-- C05: whatever else is in a FIRST set (see C08) also starts a derived sentential form. -/
theorem C05_first_sound {dbg : Bool} {n : Nat} {D : Decls T} {S eof : T} {g : Grammar T}
    {t : Tabler T} (hg : Grammar.new dbg S (grammarMap D) eof = .ok g)
    (ht : Tabler.new dbg n g = .ok t) (A x : T) (F : OSet T) (hF : t.first.get? A = some F)
    (hx : x ∈ F) : ∃ v, Derives D [A] (x :: v) :=
  (Tabler.of_new (Grammar.of_new hg) ht).firstAny A x ⟨F, hF, hx⟩

/-- Not vacuous: FIRST(E) of the expression grammar is `( id`. -/
example : ∃ t, Tabler.new true 10 (Samples.grammar Samples.expr) = .ok t ∧
    t.first.get? 1 = some [12, 14] := by
  refine ⟨(match Tabler.new true 10 (Samples.grammar Samples.expr) with
    | .ok t => t
    | _ => ⟨Samples.grammar Samples.expr, [], [], [], [], []⟩), ?_⟩
  decide +kernel

/-! ### C06 -/

/-- C06, full statement: `Tabler::new` returns for every grammar without empty productions.  It is
false (see `C06_false_first`, `C06_false_follow`). -/
def C06_statement : Prop :=
  ∀ (D : Decls Nat) (S eof : Nat) (g : Grammar Nat) (dbg : Bool), NoEmpty D →
    Grammar.new dbg S (grammarMap D) eof = .ok g → ∃ t, Returns (fun n => Tabler.new dbg n g) t

/-- C06, proved part: it returns when folding leaves no edge of the graph "starts a body of", nor of
the graph "ends a body of".  Missing: the other grammars, for some of which the code does not return;
see C79 for exactly which. -/
theorem C06_terminates_partial {D : Decls T} {S eof : T} {g : Grammar T} (dbg : Bool)
    (hg : Grammar.new dbg S (grammarMap D) eof = .ok g) (hne : NoEmpty D) (he : Terminal D eof)
    (hl : FoldsAway (Loopless (LeftGraph D))) (hr : FoldsAway (Loopless (RightGraph D))) :
    ∃ t, Returns (fun n => Tabler.new dbg n g) t := by
  rw [← Tabler.afterGraph_empty (S := S) he] at hr
  obtain ⟨n, t, h⟩ := Tabler.new_returns (Grammar.of_new hg) hne (dbg := dbg) (foldsAway_iff.mp hl)
    (foldsAway_iff.mp hr) (fun _ => ⟨rfl, rfl⟩)
  exact ⟨t, n, h⟩

/-- In particular when no three nonterminals lie on a common cycle of either graph (cycles of length
one and two are fine). -/
theorem C06_no_long_cycle_partial {D : Decls T} {S eof : T} {g : Grammar T} (dbg : Bool)
    (hg : Grammar.new dbg S (grammarMap D) eof = .ok g) (hne : NoEmpty D) (he : Terminal D eof)
    (hl : NoLongCycle (LeftGraph D)) (hr : NoLongCycle (RightGraph D)) :
    ∃ t, Returns (fun n => Tabler.new dbg n g) t :=
  C06_terminates_partial dbg hg hne he
    (NoLongCycle.foldsAway hl _ (fun _ _ => Tabler.leftGraph_source))
    (NoLongCycle.foldsAway hr _ (fun _ _ => Tabler.rightGraph_source))

theorem Samples.noEmpty_of {D : Decls Nat} (h : D.all (fun d => d.2.all (fun b => !b.isEmpty)) = true) :
    NoEmpty D := by
  rintro A i body ⟨bs, ⟨p, q, e, _⟩, hi⟩
  rw [List.all_eq_true] at h
  have := h (A, bs) (by rw [e]; simp)
  rw [List.all_eq_true] at this
  have := this body (List.mem_of_getElem? hi)
  rintro rfl
  simp at this

/-- The productions of a concrete grammar, as a list. -/
theorem Samples.isProd_mem {D : Decls Nat} {A i : Nat} {b : List Nat} (h : IsProd D A i b) :
    ∃ d ∈ D, d.1 = A ∧ b ∈ d.2 := by
  obtain ⟨bs, ⟨p, q, e, _⟩, hi⟩ := h
  exact ⟨(A, bs), by rw [e]; simp, rfl, List.mem_of_getElem? hi⟩

/-- A decidable sufficient condition for `NoLongCycle (LeftGraph D)`. -/
theorem Samples.noLongCycle_left {D : Decls Nat} (rank : Nat → Nat)
    (h : ∀ d ∈ D, ∀ b ∈ d.2, ∀ x ∈ b.head?, (∃ d' ∈ D, d'.1 = x) → x = d.1 ∨ rank x < rank d.1) :
    NoLongCycle (LeftGraph D) := by
  have h' : ∀ A B, LeftGraph D A B → B = A ∨ rank B < rank A := by
    rintro A B ⟨hB, i, b, hp⟩
    obtain ⟨d, hd, rfl, hb⟩ := Samples.isProd_mem hp
    exact h d hd _ hb B rfl hB
  refine ⟨rank, ?_, ?_⟩
  · intro A B hAB
    rcases h' A B hAB with rfl | hlt <;> omega
  · intro A B C hAB hBC h1 h2 h3
    rcases h' A B hAB with rfl | hlt
    · exact absurd rfl h1
    · rcases h' B C hBC with rfl | hlt'
      · exact absurd rfl h2
      · omega

/-- A decidable sufficient condition for `NoLongCycle (RightGraph D)`. -/
theorem Samples.noLongCycle_right {D : Decls Nat} (rank : Nat → Nat)
    (h : ∀ d ∈ D, ∀ b ∈ d.2, ∀ x ∈ b.getLast?, (∃ d' ∈ D, d'.1 = x) → x = d.1 ∨ rank d.1 < rank x) :
    NoLongCycle (RightGraph D) := by
  have h' : ∀ A B, RightGraph D A B → A = B ∨ rank B < rank A := by
    rintro A B ⟨hB, i, b, hp⟩
    obtain ⟨d, hd, rfl, hb⟩ := Samples.isProd_mem hp
    exact h d hd _ hb A (by simp) hB
  refine ⟨rank, ?_, ?_⟩
  · intro A B hAB
    rcases h' A B hAB with rfl | hlt <;> omega
  · intro A B C hAB hBC h1 h2 h3
    rcases h' A B hAB with rfl | hlt
    · exact absurd rfl h1
    · rcases h' B C hBC with rfl | hlt'
      · exact absurd rfl h2
      · omega

/-- Not vacuous: the expression grammar meets every hypothesis. -/
example : ∃ t, Returns (fun n => Tabler.new true n (Samples.grammar Samples.expr)) t :=
  C06_no_long_cycle_partial (D := Samples.expr) (S := Samples.S) (eof := Samples.eof) true
    (by decide +kernel) (Samples.noEmpty_of (by decide)) (by intro d hd; revert d; decide)
    (Samples.noLongCycle_left (fun x => 4 - x) (by decide))
    (Samples.noLongCycle_right id (by decide))

/-- C06 is false: leftmost nonterminals on a cycle of three make FIRST oscillate forever. -/
theorem C06_false_first (dbg : Bool) :
    NoEmpty Samples.leftCycle ∧
    Grammar.new dbg Samples.S (grammarMap Samples.leftCycle) Samples.eof =
      .ok (Samples.grammar Samples.leftCycle) ∧
    Diverges (fun n => Tabler.new dbg n (Samples.grammar Samples.leftCycle)) := by
  refine ⟨Samples.noEmpty_of (by decide), by cases dbg <;> decide +kernel, ?_⟩
  intro n
  have hX : ∃ X, Tabler.genFirst (Samples.grammar Samples.leftCycle) = .ok X ∧
      ∀ n, transitive (Tabler.firstStep (Samples.grammar Samples.leftCycle)) n X = .fuel := by
    refine ⟨[(0, [1]), (1, [2, 11]), (2, [3, 13]), (3, [1, 15])], by decide +kernel, fun n => ?_⟩
    have hg : (Samples.grammar Samples.leftCycle).Of Samples.leftCycle Samples.S Samples.eof :=
      Grammar.of_new (dbg := true) (by decide +kernel)
    -- the iterates 1 and 3 are equal
    let X0 : Table Nat := [(0, [1]), (1, [2, 11]), (2, [3, 13]), (3, [1, 15])]
    let X1 : Table Nat := [(0, [2, 11]), (1, [3, 11, 13]), (2, [1, 13, 15]), (3, [2, 11, 15])]
    let X2 : Table Nat := [(0, [1, 11, 13, 15]), (1, [2, 11, 13, 15]), (2, [3, 11, 13, 15]),
      (3, [1, 11, 13, 15])]
    let X3 : Table Nat := [(0, [2, 11, 13, 15]), (1, [3, 11, 13, 15]), (2, [1, 11, 13, 15]),
      (3, [2, 11, 13, 15])]
    let f := Tabler.firstStep (Samples.grammar Samples.leftCycle)
    have e0 : f X0 = .ok X1 := by decide +kernel
    have e1 : f X1 = .ok X2 := by decide +kernel
    have e2 : f X2 = .ok X3 := by decide +kernel
    have e3 : f X3 = .ok X2 := by decide +kernel
    have o1 : Orbit f X0 1 X1 := .succ .zero e0
    have o2 : Orbit f X0 2 X2 := .succ o1 e1
    have o3 : Orbit f X0 3 X3 := .succ o2 e2
    have hm : Moving f X0 (2 + 2) := by
      intro j hj
      match j, hj with
      | 0, _ => exact ⟨X0, X1, .zero, e0, by decide⟩
      | 1, _ => exact ⟨X1, X2, o1, e1, by decide⟩
      | 2, _ => exact ⟨X2, X3, o2, e2, by decide⟩
      | 3, _ => exact ⟨X3, X2, o3, e3, by decide⟩
    have hmov : Moving f X0 n := moving_of_cycle (by omega) o2 (.succ (.succ .zero e2) e3) hm n
    -- every iterate is an iterate of the cycle, hence the loop never stops
    clear hm
    suffices ∀ n a, Moving f a n → transitive f n a = .fuel from this n X0 hmov
    intro n
    induction n with
    | zero => intro a _; rfl
    | succ n ih =>
      intro a ha
      obtain ⟨u, v, h1, h2, h3⟩ := ha 0 (by omega)
      cases h1
      rw [transitive_succ, h2, Out.ok_bind, if_neg h3]
      refine ih v (fun j hj => ?_)
      obtain ⟨u', w, h4, h5⟩ := ha (j + 1) (by omega)
      obtain ⟨b, h6, h7⟩ := orbit_uncons h4
      rw [h2] at h6; cases h6
      exact ⟨u', w, h7, h5⟩
  obtain ⟨X, h1, h2⟩ := hX
  simp only [Tabler.new, h1, Out.ok_bind, Tabler.procFirst, h2, Out.fuel_bind]

/-- C06 is false: last nonterminals on a cycle of three make FOLLOW oscillate forever. -/
theorem C06_false_follow (dbg : Bool) :
    NoEmpty Samples.rightCycle ∧
    Grammar.new dbg Samples.S (grammarMap Samples.rightCycle) Samples.eof =
      .ok (Samples.grammar Samples.rightCycle) ∧
    Diverges (fun n => Tabler.new dbg n (Samples.grammar Samples.rightCycle)) := by
  refine ⟨Samples.noEmpty_of (by decide), by cases dbg <;> decide +kernel, ?_⟩
  suffices hbig : ∀ n, 10 ≤ n → Tabler.new dbg n (Samples.grammar Samples.rightCycle) = .fuel by
    intro n
    rcases Tabler.new_le (dbg := dbg) (g := Samples.grammar Samples.rightCycle)
      (Nat.le_add_right n 10) with h | h
    · exact h
    · exact h.trans (hbig _ (by omega))
  intro n hn
  let g := Samples.grammar Samples.rightCycle
  let F : Table Nat := [(0, [10, 13]), (1, [10, 13]), (2, [11]), (3, [12])]
  let X0 : Table Nat := [(0, [99]), (1, [0, 3]), (2, [1]), (3, [2])]
  let X1 : Table Nat := [(0, [99]), (1, [2, 99]), (2, [0, 3]), (3, [1])]
  let X2 : Table Nat := [(0, [99]), (1, [0, 3, 99]), (2, [1, 99]), (3, [2, 99])]
  let X3 : Table Nat := [(0, [99]), (1, [2, 99]), (2, [0, 3, 99]), (3, [1, 99])]
  let f : Table Nat → Out (Table Nat) := fun t => .ok (Tabler.followStep g t)
  have hF : Tabler.genFirst g >>= Tabler.procFirst dbg 10 g = .ok F := by
    cases dbg <;> decide +kernel
  obtain ⟨X, hX1, hX2⟩ := Out.bind_eq_ok.mp hF
  have hF' : Tabler.procFirst dbg n g X = .ok F := (Tabler.procFirst_le hn X).ok hX2
  have hZ : Tabler.genFollow g F = .ok X0 := by decide +kernel
  have e0 : f X0 = .ok X1 := by decide +kernel
  have e1 : f X1 = .ok X2 := by decide +kernel
  have e2 : f X2 = .ok X3 := by decide +kernel
  have e3 : f X3 = .ok X2 := by decide +kernel
  have o1 : Orbit f X0 1 X1 := .succ .zero e0
  have o2 : Orbit f X0 2 X2 := .succ o1 e1
  have o3 : Orbit f X0 3 X3 := .succ o2 e2
  have hm : Moving f X0 (2 + 2) := by
    intro j hj
    match j, hj with
    | 0, _ => exact ⟨X0, X1, .zero, e0, by decide⟩
    | 1, _ => exact ⟨X1, X2, o1, e1, by decide⟩
    | 2, _ => exact ⟨X2, X3, o2, e2, by decide⟩
    | 3, _ => exact ⟨X3, X2, o3, e3, by decide⟩
  have hmov : Moving f X0 n := moving_of_cycle (by omega) o2 (.succ (.succ .zero e2) e3) hm n
  have hfuel : transitive f n X0 = .fuel :=
    (transitive_fuel_iff (fun a h => by cases h)).mpr hmov
  have hfuel' : transitive (fun t => (.ok (Tabler.followStep g t) : Out (Table Nat))) n X0 = .fuel :=
    hfuel
  show Tabler.new dbg n g = .fuel
  unfold Tabler.new
  rw [hX1, Out.ok_bind, hF', Out.ok_bind, hZ, Out.ok_bind]
  unfold Tabler.procFollow
  rw [hfuel', Out.fuel_bind, Out.fuel_bind]

/-- C06, the full statement is refuted. -/
theorem C06_refuted : ¬ C06_statement := by
  intro h
  obtain ⟨h1, h2, h3⟩ := C06_false_first true
  obtain ⟨t, n, ht⟩ := h _ _ _ _ true h1 h2
  rw [h3 n] at ht; cases ht

/-! ### C07 -/

/-- C07: every terminal that can follow `A` in a sentential form of `S eof` is in FOLLOW(A). -/
theorem C07_follow_complete {dbg : Bool} {n : Nat} {D : Decls T} {S eof : T} {g : Grammar T}
    {t : Tabler T} (hg : Grammar.new dbg S (grammarMap D) eof = .ok g)
    (ht : Tabler.new dbg n g = .ok t) (he : Terminal D eof) (A x : T) (hA : Nonterminal D A)
    (hx : Terminal D x) (h : ∃ u v, Derives D [S, eof] (u ++ A :: x :: v)) :
    ∃ F, t.follow.get? A = some F ∧ x ∈ F := by
  have ho := Tabler.of_new (Grammar.of_new hg) ht
  exact (ho.follow A x hx).mpr (Tabler.follow_complete ho.noEmpty he
    (fun A t hA ht h => (ho.first A t hA ht).mpr h) hA hx h)

/-- C07, proved part of the converse: when every nonterminal is reachable and FIRST has only
terminals (always the case in a debug build, see C08), FOLLOW(A) contains nothing else.  Missing:
release builds in which nonterminals are left in FIRST; there the converse is false, see
`C07_false_release`. -/
theorem C07_follow_sound_partial {dbg : Bool} {n : Nat} {D : Decls T} {S eof : T} {g : Grammar T}
    {t : Tabler T} (hg : Grammar.new dbg S (grammarMap D) eof = .ok g)
    (ht : Tabler.new dbg n g = .ok t) (he : Terminal D eof)
    (hreach : ∀ A, Nonterminal D A → ∃ u v, Derives D [S] (u ++ A :: v))
    (hfirst : dbg = true ∨ ∀ A F, t.first.get? A = some F → ∀ x ∈ F, Terminal D x)
    (A x : T) (F : OSet T) (hF : t.follow.get? A = some F) (hxF : x ∈ F) (hx : Terminal D x) :
    ∃ u v, Derives D [S, eof] (u ++ A :: x :: v) := by
  have ho := Tabler.of_new (Grammar.of_new hg) ht
  have hT : ∀ A x, Tabler.Has t.first A x → Terminal D x := by
    rcases hfirst with rfl | h
    · exact (Tabler.new_dbg (Grammar.of_new hg) ht).1
    · rintro A x ⟨F, h1, h2⟩; exact h A F h1 x h2
  exact Tabler.follow_sound he (fun A x h => ⟨hT A x h, ho.firstAny A x h⟩) hreach hx
    ((ho.follow A x hx).mp ⟨F, hF, hxF⟩)

/-- Not vacuous: FOLLOW(E) of the expression grammar is `+ ) eof`. -/
example : ∃ t, Tabler.new true 10 (Samples.grammar Samples.expr) = .ok t ∧
    t.follow.get? 1 = some [10, 13, 99] := by
  refine ⟨(match Tabler.new true 10 (Samples.grammar Samples.expr) with
    | .ok t => t
    | _ => ⟨Samples.grammar Samples.expr, [], [], [], [], []⟩), ?_⟩
  decide +kernel

/-- The converse of C07 is false in release builds: `10` is in FOLLOW(6) although every sentential
form has one of `1 2 3 11 13 15` after `6`. -/
theorem C07_false_release :
    (∃ t, Tabler.new false 20 (Samples.grammar Samples.cliqueAfter) = .ok t ∧
      ∃ F, t.follow.get? 6 = some F ∧ 10 ∈ F) ∧
    Terminal Samples.cliqueAfter 10 ∧ Terminal Samples.cliqueAfter 99 ∧
    (∀ A, Nonterminal Samples.cliqueAfter A → Reachable Samples.cliqueAfter 0 A) ∧
    ¬ ∃ u v, Derives Samples.cliqueAfter [0, 99] (u ++ 6 :: 10 :: v) := by
  refine ⟨⟨(match Tabler.new false 20 (Samples.grammar Samples.cliqueAfter) with
    | .ok t => t
    | _ => ⟨Samples.grammar Samples.leftClique, [], [], [], [], []⟩), by decide +kernel,
    [10, 11, 12, 13, 14, 15], by decide +kernel, by decide⟩, ?_, ?_, ?_, ?_⟩
  · intro d hd; revert d; decide
  · intro d hd; revert d; decide
  · have p0 : IsProd Samples.cliqueAfter 0 0 [5] :=
      ⟨[[5]], ⟨[], _, rfl, by decide⟩, rfl⟩
    have p5 : IsProd Samples.cliqueAfter 5 0 [6, 1] :=
      ⟨[[6, 1]], ⟨Samples.cliqueAfter.take 4, [(6, [[20]])], rfl, by decide⟩, rfl⟩
    have p1 : IsProd Samples.cliqueAfter 1 0 [2, 10] :=
      ⟨[[2, 10], [3, 10], [11]], ⟨Samples.cliqueAfter.take 1, Samples.cliqueAfter.drop 2, rfl,
        by decide⟩, rfl⟩
    have p1' : IsProd Samples.cliqueAfter 1 1 [3, 10] :=
      ⟨[[2, 10], [3, 10], [11]], ⟨Samples.cliqueAfter.take 1, Samples.cliqueAfter.drop 2, rfl,
        by decide⟩, rfl⟩
    have d1 : Derives Samples.cliqueAfter [0] [6, 1] :=
      (Derives.of_prod p0).trans (Derives.of_prod p5)
    intro A hA
    have hA' : A = 0 ∨ A = 1 ∨ A = 2 ∨ A = 3 ∨ A = 5 ∨ A = 6 := by
      obtain ⟨d, hd, rfl⟩ := hA
      revert d; decide
    rcases hA' with rfl | rfl | rfl | rfl | rfl | rfl
    · exact ⟨[], [], .refl _⟩
    · exact ⟨[6], [], d1⟩
    · exact ⟨[6], [10], d1.trans (.single (.mk [6] [] p1))⟩
    · exact ⟨[6], [10], d1.trans (.single (.mk [6] [] p1'))⟩
    · exact ⟨[], [], Derives.of_prod p0⟩
    · exact ⟨[], [1], d1⟩
  · let Inv : List Nat → Prop := fun α => α = [0, 99] ∨ α = [5, 99] ∨
      ∃ h y rest, α = h :: y :: rest ∧ (h = 6 ∨ h = 20) ∧ y ∈ [1, 2, 3, 11, 13, 15] ∧
        ∀ x ∈ rest, x ∉ [0, 5, 6]
    have K : ∀ d ∈ Samples.cliqueAfter, ∀ b ∈ d.2, d.1 ≠ 99 ∧ d.1 ≠ 20 ∧ (d.1 = 0 → b = [5]) ∧
        (d.1 = 5 → b = [6, 1]) ∧ (d.1 = 6 → b = [20]) ∧
        (d.1 ∈ [1, 2, 3, 11, 13, 15] →
          b ∈ [[2, 10], [3, 10], [11], [1, 12], [3, 12], [13], [1, 14], [2, 14], [15]]) ∧
        (d.1 ∉ [0, 5, 6] → ∀ x ∈ b, x ∉ [0, 5, 6]) := by decide
    have hstep : ∀ α β, Inv α → Step Samples.cliqueAfter α β → Inv β := by
      rintro α β hα ⟨u, v, hp⟩
      rename_i A i b
      obtain ⟨d, hd, rfl, hb⟩ := Samples.isProd_mem hp
      obtain ⟨e99, e20, k0, k5, k6, k1, kr⟩ := K d hd b hb
      rcases hα with h | h | ⟨h, y, rest, e, hh, hy, hr⟩
      · rcases u with _ | ⟨a, _ | ⟨a', u⟩⟩
        · injection h with h1 h2
          have : b = [5] := k0 h1
          subst this; subst h2
          exact Or.inr (Or.inl rfl)
        · injection h with h1 h2; injection h2 with h2 h3
          exact absurd h2 e99
        · simp at h
      · rcases u with _ | ⟨a, _ | ⟨a', u⟩⟩
        · injection h with h1 h2
          have : b = [6, 1] := k5 h1
          subst this; subst h2
          exact Or.inr (Or.inr ⟨6, 1, [99], rfl, Or.inl rfl, by decide, by decide⟩)
        · injection h with h1 h2; injection h2 with h2 h3
          exact absurd h2 e99
        · simp at h
      · rcases u with _ | ⟨a, _ | ⟨a', u⟩⟩
        · injection e with h1 h2
          rcases hh with rfl | rfl
          · have : b = [20] := k6 h1
            subst this; subst h2
            exact Or.inr (Or.inr ⟨20, y, rest, rfl, Or.inr rfl, hy, hr⟩)
          · exact absurd h1 e20
        · injection e with h1 h2; injection h2 with h2 h3
          subst h1; subst h3
          have : ∃ y' r', b = y' :: r' ∧ y' ∈ [1, 2, 3, 11, 13, 15] ∧ ∀ x ∈ r', x ∉ [0, 5, 6] := by
            have hcases := k1 (h2 ▸ hy)
            simp only [List.mem_cons, List.not_mem_nil, or_false] at hcases
            rcases hcases with rfl | rfl | rfl | rfl | rfl | rfl | rfl | rfl | rfl <;>
              exact ⟨_, _, rfl, by decide, by decide⟩
          obtain ⟨y', r', rfl, h4, h5⟩ := this
          refine Or.inr (Or.inr ⟨a, y', r' ++ v, by simp, hh, h4, ?_⟩)
          intro x hx
          rcases List.mem_append.mp hx with hx | hx
          · exact h5 x hx
          · exact hr x hx
        · injection e with h1 h2; injection h2 with h2 h3
          subst h1; subst h2; subst h3
          have hd' : d.1 ∉ [0, 5, 6] := hr d.1 (by simp)
          have hb' : ∀ x ∈ b, x ∉ [0, 5, 6] := kr hd'
          refine Or.inr (Or.inr ⟨a, a', u ++ (b ++ v), by simp, hh, hy, ?_⟩)
          intro x hx
          simp only [List.mem_append] at hx
          rcases hx with hx | hx | hx
          · exact hr x (by simp [hx])
          · exact hb' x hx
          · exact hr x (by simp [hx])
    have hall : ∀ α β, Derives Samples.cliqueAfter α β → Inv α → Inv β := by
      intro α β h
      induction h with
      | refl => exact id
      | head s _ ih => exact fun hi => ih (hstep _ _ hi s)
    rintro ⟨u, v, h⟩
    rcases hall _ _ h (Or.inl rfl) with h | h | ⟨h, y, rest, e, hh, hy, hr⟩
    · rcases u with _ | ⟨a, _ | ⟨a', u⟩⟩ <;> simp at h
    · rcases u with _ | ⟨a, _ | ⟨a', u⟩⟩ <;> simp at h
    · rcases u with _ | ⟨a, _ | ⟨a', u⟩⟩
      · injection e with h1 h2; injection h2 with h2 h3
        subst h2; revert hy; decide
      · injection e with h1 h2; injection h2 with h2 h3
        subst h2; revert hy; decide
      · injection e with h1 h2; injection h2 with h2 h3
        subst h3
        exact hr 6 (by simp) (by decide)

/-! ### C08 -/

/-- C08, full statement (every build). False for release builds, see `C08_false_release`. -/
def C08_statement : Prop :=
  ∀ (D : Decls Nat) (S eof : Nat) (g : Grammar Nat) (t : Tabler Nat) (dbg : Bool) (n : Nat),
    Grammar.new dbg S (grammarMap D) eof = .ok g → Tabler.new dbg n g = .ok t →
    (∀ A F, t.first.get? A = some F → ∀ x ∈ F, Terminal D x) ∧
    (∀ A F, t.follow.get? A = some F → ∀ x ∈ F, Terminal D x)

/-- C08, exactly when: the FIRST and FOLLOW sets contain only terminals iff folding leaves no edge
of the graphs "starts a body of" and "ends a body of". -/
theorem C08_only_terminals_iff {dbg : Bool} {n : Nat} {D : Decls T} {S eof : T} {g : Grammar T}
    {t : Tabler T} (hg : Grammar.new dbg S (grammarMap D) eof = .ok g)
    (ht : Tabler.new dbg n g = .ok t) (he : Terminal D eof) :
    ((∀ A F, t.first.get? A = some F → ∀ x ∈ F, Terminal D x) ∧
     (∀ A F, t.follow.get? A = some F → ∀ x ∈ F, Terminal D x)) ↔
    (FoldsAway (Loopless (LeftGraph D)) ∧ FoldsAway (Loopless (RightGraph D))) := by
  have hof := Grammar.of_new hg
  obtain ⟨h1, h2⟩ := Tabler.new_settles hof ht
  have hall : ∀ X : Lrp.Table T, (∀ A F, X.get? A = some F → ∀ x ∈ F, Terminal D x) ↔
      Tabler.Rest D X = fun _ _ => False := by
    intro X
    constructor
    · intro h
      refine fold_congr (fun A B => iff_false_intro ?_)
      rintro ⟨⟨F, h3, h4⟩, h5⟩
      exact h5 (h A F h3 B h4)
    · intro h A F h3 x h4
      refine Classical.byContradiction (fun h5 => ?_)
      have : Tabler.Rest D X A x := ⟨⟨F, h3, h4⟩, h5⟩
      rw [h] at this; exact this
  rw [hall, hall, ← Tabler.afterGraph_empty (S := S) he]
  constructor
  · rintro ⟨h3, h4⟩
    rw [h3] at h1 h2
    rw [h4] at h2
    exact ⟨foldsAway_iff.mpr h1, foldsAway_iff.mpr h2⟩
  · rintro ⟨h3, h4⟩
    have e := settlesTo_unique h1 (foldsAway_iff.mp h3)
    rw [e] at h2
    exact ⟨e, settlesTo_unique h2 (foldsAway_iff.mp h4)⟩

/-- C08, proved part: in every build, when the two graphs of C06 fold away, all FIRST and FOLLOW sets
contain only terminals; in debug builds always.  Missing: release builds of other grammars, where it
is false. -/
theorem C08_only_terminals_partial {dbg : Bool} {n : Nat} {D : Decls T} {S eof : T} {g : Grammar T}
    {t : Tabler T} (hg : Grammar.new dbg S (grammarMap D) eof = .ok g)
    (ht : Tabler.new dbg n g = .ok t)
    (h : dbg = true ∨
      (Terminal D eof ∧ FoldsAway (Loopless (LeftGraph D)) ∧ FoldsAway (Loopless (RightGraph D)))) :
    (∀ A F, t.first.get? A = some F → ∀ x ∈ F, Terminal D x) ∧
    (∀ A F, t.follow.get? A = some F → ∀ x ∈ F, Terminal D x) := by
  rcases h with rfl | ⟨he, hl, hr⟩
  · have key := Tabler.new_dbg (Grammar.of_new hg) ht
    exact ⟨fun A F h1 x h2 => key.1 A x ⟨F, h1, h2⟩, fun A F h1 x h2 => key.2 A x ⟨F, h1, h2⟩⟩
  · exact (C08_only_terminals_iff hg ht he).mpr ⟨hl, hr⟩

/-- C08 is false in release builds: three nonterminals starting each other's bodies; the debug
build panics on the same grammar. -/
theorem C08_false_release :
    (∃ t, Tabler.new false 10 (Samples.grammar Samples.leftClique) = .ok t ∧
      ∃ F, t.first.get? 1 = some F ∧ 2 ∈ F ∧ ¬ Terminal Samples.leftClique 2) ∧
    Tabler.new true 10 (Samples.grammar Samples.leftClique) = .panic .dbgFirstNotTerminal := by
  refine ⟨⟨(match Tabler.new false 10 (Samples.grammar Samples.leftClique) with
    | .ok t => t
    | _ => ⟨Samples.grammar Samples.leftClique, [], [], [], [], []⟩), by decide +kernel,
    [2, 3, 11, 13, 15], by decide +kernel, by decide, ?_⟩, by decide +kernel⟩
  intro h
  exact h (2, [[1, 12], [3, 12], [13]]) (by decide) rfl

theorem C08_refuted : ¬ C08_statement := by
  intro h
  obtain ⟨⟨t, h1, F, h2, h3, h4⟩, _⟩ := C08_false_release
  exact h4 ((h Samples.leftClique Samples.S Samples.eof _ t false 10 (by decide +kernel) h1).1 1 F h2 2 h3)

/-! ### C09 -/

/-- C09: the message about empty productions appears exactly for grammars having one. -/
theorem C09_empty_rejected {dbg : Bool} {D : Decls T} {S eof : T} {g : Grammar T}
    (hg : Grammar.new dbg S (grammarMap D) eof = .ok g) :
    Panics (fun n => Tabler.new dbg n g) .emptyProduction ↔ ∃ A i, IsProd D A i [] := by
  have hof := Grammar.of_new hg
  constructor
  · rintro ⟨n, h⟩
    rcases Tabler.new_panic hof h with ⟨_, h2⟩ | ⟨_, _, h2⟩
    · unfold NoEmpty at h2
      simp only [Classical.not_forall, ne_eq, Classical.not_not] at h2
      obtain ⟨A, i, b, hp, hb⟩ := h2
      subst hb
      exact ⟨A, i, hp⟩
    · rcases h2 with h2 | h2 <;> cases h2
  · rintro ⟨A, i, hp⟩
    refine ⟨0, ?_⟩
    have hne : ¬ NoEmpty D := fun h => h A i [] hp rfl
    show Tabler.new dbg 0 g = _
    unfold Tabler.new
    rw [Tabler.genFirst_panic hof hne]; rfl

/-- C09: a grammar with an empty production always panics, whatever the build. -/
theorem C09_empty_always {dbg : Bool} {D : Decls T} {S eof : T} {g : Grammar T}
    (hg : Grammar.new dbg S (grammarMap D) eof = .ok g) {A : T} {i : Nat} (h : IsProd D A i [])
    (n : Nat) : Tabler.new dbg n g = .panic .emptyProduction := by
  have hne : ¬ NoEmpty D := fun hn => hn A i [] h rfl
  unfold Tabler.new
  rw [Tabler.genFirst_panic (Grammar.of_new hg) hne]; rfl

/-- C09: in a release build there is no other panic. -/
theorem C09_no_other_panic {D : Decls T} {S eof : T} {g : Grammar T}
    (hg : Grammar.new false S (grammarMap D) eof = .ok g) (p : Panic)
    (h : Panics (fun n => Tabler.new false n g) p) : p = .emptyProduction := by
  obtain ⟨n, h⟩ := h
  rcases Tabler.new_panic (Grammar.of_new hg) h with ⟨h1, _⟩ | ⟨h1, _⟩
  · exact h1
  · cases h1

/-- Not vacuous: S → A; A → a | ε. -/
example : Grammar.new true 0 (grammarMap [(0, [[1]]), (1, [[10], []])]) 99 =
      .ok (Samples.grammar [(0, [[1]]), (1, [[10], []])]) ∧
    IsProd [(0, [[1]]), (1, [[10], []])] 1 1 [] :=
  ⟨by decide +kernel, [[10], []], ⟨[(0, [[1]])], [], rfl, by simp⟩, rfl⟩

/-! ### C37 -/

/-- C37: slicing by a span returns the elements from `start` up to but excluding `end`, for exactly
the ranges inside the slice. -/
theorem C37_span {α : Type} (a b : Nat) (src r : List α) :
    (Span.new a b).fromSource src = .ok r ↔
      a ≤ b ∧ b ≤ src.length ∧ r.length = b - a ∧ ∀ i, i < b - a → r[i]? = src[a + i]? := by
  show (if a ≤ b ∧ b ≤ src.length then Out.ok ((src.drop a).take (b - a))
    else Out.panic Panic.indexRange) = _ ↔ _
  constructor
  · intro h
    split at h
    · rename_i hab
      cases h
      refine ⟨hab.1, hab.2, by simp; omega, fun i hi => ?_⟩
      rw [List.getElem?_take_of_lt hi, List.getElem?_drop]
    · cases h
  · rintro ⟨h1, h2, h3, h4⟩
    rw [if_pos ⟨h1, h2⟩]
    congr 1
    refine List.ext_getElem? (fun i => ?_)
    by_cases hi : i < b - a
    · rw [List.getElem?_take_of_lt hi, List.getElem?_drop, h4 i hi]
    · rw [List.getElem?_eq_none (by simp; omega), List.getElem?_eq_none (by omega)]

/-- C37: and panics otherwise. -/
theorem C37_span_panics {α : Type} (a b : Nat) (src : List α) :
    (Span.new a b).fromSource src = .panic .indexRange ↔ b < a ∨ src.length < b := by
  show (if a ≤ b ∧ b ≤ src.length then Out.ok ((src.drop a).take (b - a))
    else Out.panic Panic.indexRange) = _ ↔ _
  split
  · simp; omega
  · simp; omega

/-- C37: a span made from a pair cuts out what lies between the two numbers of the pair. -/
theorem C37_conversions {α : Type} (pre mid post : List α) :
    (Span.ofPair (pre.length, pre.length + mid.length)).fromSource (pre ++ mid ++ post) = .ok mid := by
  refine (C37_span pre.length (pre.length + mid.length) _ mid).mpr ⟨by omega, by simp, by omega, ?_⟩
  intro i hi
  rw [List.append_assoc, List.getElem?_append_right (by omega), Nat.add_sub_cancel_left,
    List.getElem?_append_left (by omega)]

example : (Span.new 0 2).fromSource [0, 1, 2, 3, 4] = .ok [0, 1] := rfl

/-! ### C39 -/

/-- C39: the three readers: the symbol after the point, the one after that, and the `k`-th after the point. -/
theorem C39_readers (p : Position T) (k : Nat) (X : T) :
    (p.top = some X ↔ ∃ pre post, p.seq.1 = pre ++ X :: post ∧ pre.length = p.point) ∧
    (p.next = some X ↔ ∃ pre Y post, p.seq.1 = pre ++ Y :: X :: post ∧ pre.length = p.point) ∧
    (p.peek k = some X ↔ ∃ pre mid post, p.seq.1 = pre ++ mid ++ X :: post ∧ pre.length = p.point ∧
      mid.length = k) := by
  have split : ∀ (l : List T) n, l[n]? = some X ↔ ∃ pre post, l = pre ++ X :: post ∧ pre.length = n := by
    intro l n
    constructor
    · intro h
      obtain ⟨hn, e⟩ := List.getElem?_eq_some_iff.mp h
      refine ⟨l.take n, l.drop (n + 1), ?_, by simp; omega⟩
      rw [← e, ← List.drop_eq_getElem_cons hn, List.take_append_drop]
    · rintro ⟨pre, post, rfl, rfl⟩
      simp
  have peek : ∀ k, p.peek k = some X ↔ ∃ pre mid post, p.seq.1 = pre ++ mid ++ X :: post ∧
      pre.length = p.point ∧ mid.length = k := by
    intro k
    refine (split p.seq.1 (p.point + k)).trans ⟨?_, ?_⟩
    · rintro ⟨pre, post, e, hl⟩
      exact ⟨pre.take p.point, pre.drop p.point, post, by rw [List.take_append_drop]; exact e, by simp; omega,
        by simp; omega⟩
    · rintro ⟨pre, mid, post, e, h1, h2⟩
      exact ⟨pre ++ mid, post, e, by simp; omega⟩
  refine ⟨split p.seq.1 p.point, (peek 1).trans ⟨?_, ?_⟩, peek k⟩
  · rintro ⟨pre, mid, post, e, h1, h2⟩
    obtain ⟨Y, rfl⟩ := List.length_eq_one_iff.mp h2
    exact ⟨pre, Y, post, by simpa using e, h1⟩
  · rintro ⟨pre, Y, post, e, h1⟩
    exact ⟨pre, [Y], post, by simpa using e, h1, rfl⟩

/-- C39: `finished` iff nothing is left. -/
theorem C39_finished (p : Position T) : p.finished = true ↔ p.top = none := by
  simp [Position.finished, Position.top, Position.peek]

/-- C39: `clone_next` advances by one exactly on unfinished positions, keeping everything else. -/
theorem C39_clone_next (p q : Position T) :
    p.cloneNext = some q ↔
      p.point < p.seq.1.length ∧ q.point = p.point + 1 ∧ q.rule = p.rule ∧ q.seq = p.seq ∧
        q.look = p.look := by
  unfold Position.cloneNext Position.finished Position.adv
  by_cases h : p.point < p.seq.1.length
  · simp [h]
    constructor
    · rintro rfl; simp
    · rintro ⟨h1, h2, h3, h4⟩; cases q; simp_all
  · simp [h]

/-- C39: `body_eq` is equality up to lookahead. -/
theorem C39_body_eq (p q : Position T) :
    p.bodyEq q = true ↔ ∃ l, q = { p with look := l } := by
  unfold Position.bodyEq
  cases p; cases q
  simp only [Bool.and_eq_true, decide_eq_true_eq, Position.mk.injEq]
  constructor
  · rintro ⟨⟨rfl, rfl⟩, rfl⟩; simp
  · rintro ⟨l, rfl, rfl, rfl, _⟩; simp

/-- `k` advances. -/
def advances (p : Position T) : Nat → Option (Position T)
  | 0 => some p
  | k + 1 => (advances p k).bind Position.cloneNext

/-- C39: from point 0 exactly the length of the body many advances are possible, and the last one
is the only finished position met. -/
theorem C39_run (p : Position T) (hp : p.point = 0) (k : Nat) :
    (k ≤ p.seq.1.length → ∃ q, advances p k = some q ∧ q.point = k ∧ q.seq = p.seq ∧
      q.rule = p.rule ∧ q.look = p.look ∧ (q.finished = true ↔ k = p.seq.1.length)) ∧
    (p.seq.1.length < k → advances p k = none) := by
  induction k with
  | zero =>
    refine ⟨fun _ => ⟨p, rfl, hp, rfl, rfl, rfl, ?_⟩, fun h => by omega⟩
    rw [Position.finished, hp, decide_eq_true_eq]
    omega
  | succ k ih =>
    refine ⟨fun h => ?_, fun h => ?_⟩
    · obtain ⟨q, h1, h2, h3, h4, h5, _⟩ := ih.1 (by omega)
      have hq : q.finished = false := by simp [Position.finished, h2, h3]; omega
      refine ⟨q.adv, ?_, ?_, ?_, ?_, ?_, ?_⟩
      · simp [advances, h1, Position.cloneNext, hq]
      · simp [Position.adv, h2]
      · simp [Position.adv, h3]
      · simp [Position.adv, h4]
      · simp [Position.adv, h5]
      · simp [Position.finished, Position.adv, h2, h3]; omega
    · by_cases hk : p.seq.1.length < k
      · simp [advances, ih.2 hk]
      · obtain ⟨q, h1, h2, h3, _, _, h6⟩ := ih.1 (by omega)
        have : q.finished = true := h6.mpr (by omega)
        simp [advances, h1, Position.cloneNext, this]

example : (advances ({ rule := 0, seq := ([1, 2, 3], 0), point := 0, look := [] } : Position Nat) 3).isSome
    = true := rfl

/-! ### C40 -/

/-- C40: `sym_filter` selects exactly the positions standing before `X`, advanced by one. -/
theorem C40_sym_filter (s : State T) (X : T) (q : Position T) :
    q ∈ Tabler.symFilter s X ↔
      ∃ p ∈ s, p.seq.1[p.point]? = some X ∧ q = { p with point := p.point + 1 } := by
  unfold Tabler.symFilter
  rw [OSet.mem_ofList, List.mem_filterMap]
  refine exists_congr (fun p => and_congr Iff.rfl ?_)
  by_cases h : p.top = some X
  · have hf : p.finished = false := by
      cases hf : p.finished with
      | false => rfl
      | true => rw [C39_finished] at hf; rw [hf] at h; cases h
    rw [if_pos h]
    simp only [Position.cloneNext, hf, Bool.false_eq_true, if_false, Option.some.injEq]
    have h' : p.seq.1[p.point]? = some X := h
    simp [h', Position.adv, eq_comm]
  · rw [if_neg h]
    have h' : ¬ p.seq.1[p.point]? = some X := h
    simp [h']

/-- C40: the result is a set in the representation (strictly increasing). -/
theorem C40_sorted (s : State T) (X : T) : OSet.Sorted (Tabler.symFilter s X) :=
  OSet.sorted_ofList _

end Lrp.Props
