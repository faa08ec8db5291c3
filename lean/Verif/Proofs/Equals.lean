import Verif.Proofs.Runs
import Verif.Spec.Equals

/-! `reduce_equals`: merging equal rows, and runs on the merged table. -/

set_option linter.unusedSectionVars false

namespace Lrp
open Spec
variable {T : Type} [LinOrd T] [DecidableEq T] {M : Type}

/-! ### The numbering -/

/-- What the loop of `reduced_actions` maintains after the rows `pre`. -/
structure RedInv (r : Tabler.Reduced T) (pre : ActTable T) : Prop where
  find : ∀ row (j : Nat), r.find row = some j ↔ r.actions[j]? = some row
  nodup : r.actions.Nodup
  travel : ∀ (i : Nat) row, pre[i]? = some row →
    ∃ j, r.travelIdx.get? i = some j ∧ r.actions[j]? = some row
  first : ∀ (j : Nat) row, r.actions[j]? = some row → ∃ i : Nat, pre[i]? = some row ∧
    (∀ i' < i, pre[i']? ≠ some row) ∧
    ∀ (m : Nat) row', r.actions[m]? = some row' → (m < j ↔ ∃ i' < i, pre[i']? = some row')

theorem RedInv.nil : RedInv (T := T) { actionsMap := [], travelIdx := [], actions := [] } [] := by
  constructor <;> simp [Tabler.Reduced.find]

theorem getElem?_snoc {α : Type} {l : List α} {a b : α} {i : Nat} :
    (l ++ [a])[i]? = some b ↔ l[i]? = some b ∨ (i = l.length ∧ a = b) := by
  by_cases h : i < l.length
  · rw [List.getElem?_append_left h]
    constructor
    · exact Or.inl
    · rintro (h1 | ⟨h1, _⟩)
      · exact h1
      · omega
  · rw [List.getElem?_append_right (by omega)]
    by_cases h2 : i = l.length
    · subst h2
      simp
    · have : (l : List α)[i]? = none := List.getElem?_eq_none (by omega)
      rw [this, List.getElem?_eq_none (by simp; omega)]
      simp [h2]

theorem RedInv.step {r : Tabler.Reduced T} {pre : ActTable T} (h : RedInv r pre)
    (row : OMap T (Action T)) : RedInv (Tabler.reducedStep r (row, pre.length)) (pre ++ [row]) := by
  have hlt : ∀ {i : Nat} {x}, pre[i]? = some x → i < pre.length :=
    fun h => (List.getElem?_eq_some_iff.mp h).1
  unfold Tabler.reducedStep
  cases hf : r.find row with
  | some j =>
    have hj := (h.find row j).mp hf
    refine ⟨h.find, h.nodup, ?_, ?_⟩
    · intro i row' hi
      show ∃ j', OMap.get? (OMap.insert pre.length j r.travelIdx) i = some j' ∧ _
      rw [OMap.get?_insert]
      rcases getElem?_snoc.mp hi with hi | ⟨rfl, rfl⟩
      · have := hlt hi
        rw [if_neg (by omega)]
        exact h.travel i row' hi
      · rw [if_pos rfl]; exact ⟨j, rfl, hj⟩
    · intro j' row' hj'
      obtain ⟨i, h1, h2, h3⟩ := h.first j' row' hj'
      have := hlt h1
      refine ⟨i, getElem?_snoc.mpr (Or.inl h1), ?_, ?_⟩
      · intro i' hi' hc
        rcases getElem?_snoc.mp hc with hc | ⟨rfl, _⟩
        · exact h2 i' hi' hc
        · omega
      · intro m row'' hm
        rw [h3 m row'' hm]
        constructor
        · rintro ⟨i', g1, g2⟩; exact ⟨i', g1, getElem?_snoc.mpr (Or.inl g2)⟩
        · rintro ⟨i', g1, g2⟩
          rcases getElem?_snoc.mp g2 with g2 | ⟨rfl, _⟩
          · exact ⟨i', g1, g2⟩
          · omega
  | none =>
    have hnew : ∀ j : Nat, r.actions[j]? ≠ some row := by
      intro j hj
      rw [(h.find row j).mpr hj] at hf; cases hf
    have hpre : ∀ i : Nat, pre[i]? ≠ some row := by
      intro i hi
      obtain ⟨j, _, hj⟩ := h.travel i row hi
      exact hnew j hj
    refine ⟨?_, ?_, ?_, ?_⟩
    · intro row' j
      show ((((row, r.actions.length) :: r.actionsMap).find? _).map Prod.snd = some j) ↔
        (r.actions ++ [row])[j]? = some row'
      rw [getElem?_snoc, List.find?_cons]
      by_cases he : row = row'
      · subst he
        simp only [decide_true, Option.map_some, Option.some.injEq, and_true]
        constructor
        · intro e; exact Or.inr e.symm
        · rintro (e | e)
          · exact absurd e (hnew j)
          · exact e.symm
      · simp only [he, decide_false, and_false, or_false]
        exact h.find row' j
    · show (r.actions ++ [row]).Nodup
      rw [List.nodup_append]
      refine ⟨h.nodup, by simp, ?_⟩
      intro a ha b hb e
      simp only [List.mem_singleton] at hb
      subst hb; subst e
      obtain ⟨j, hj, e⟩ := List.mem_iff_getElem.mp ha
      exact hnew j (List.getElem?_eq_some_iff.mpr ⟨hj, e⟩)
    · intro i row' hi
      show ∃ j', OMap.get? (OMap.insert pre.length r.actions.length r.travelIdx) i = some j' ∧
        (r.actions ++ [row])[j']? = some row'
      rw [OMap.get?_insert]
      rcases getElem?_snoc.mp hi with hi | ⟨rfl, rfl⟩
      · have := hlt hi
        rw [if_neg (by omega)]
        obtain ⟨j, h1, h2⟩ := h.travel i row' hi
        exact ⟨j, h1, getElem?_snoc.mpr (Or.inl h2)⟩
      · rw [if_pos rfl]; exact ⟨_, rfl, getElem?_snoc.mpr (Or.inr ⟨rfl, rfl⟩)⟩
    · intro j row' hj
      rcases getElem?_snoc.mp (show (r.actions ++ [row])[j]? = _ from hj) with hj | ⟨rfl, rfl⟩
      · obtain ⟨i, h1, h2, h3⟩ := h.first j row' hj
        have := hlt h1
        refine ⟨i, getElem?_snoc.mpr (Or.inl h1), ?_, ?_⟩
        · intro i' hi' hc
          rcases getElem?_snoc.mp hc with hc | ⟨rfl, _⟩
          · exact h2 i' hi' hc
          · omega
        · intro m row'' hm
          rcases getElem?_snoc.mp (show (r.actions ++ [row])[m]? = _ from hm) with hm | ⟨rfl, rfl⟩
          · rw [h3 m row'' hm]
            constructor
            · rintro ⟨i', g1, g2⟩; exact ⟨i', g1, getElem?_snoc.mpr (Or.inl g2)⟩
            · rintro ⟨i', g1, g2⟩
              rcases getElem?_snoc.mp g2 with g2 | ⟨rfl, _⟩
              · exact ⟨i', g1, g2⟩
              · omega
          · have hj1 := (List.getElem?_eq_some_iff.mp hj).1
            constructor
            · intro; omega
            · rintro ⟨i', g1, g2⟩
              rcases getElem?_snoc.mp g2 with g2 | ⟨rfl, _⟩
              · exact absurd g2 (hpre i')
              · omega
      · refine ⟨pre.length, getElem?_snoc.mpr (Or.inr ⟨rfl, rfl⟩), ?_, ?_⟩
        · intro i' hi' hc
          rcases getElem?_snoc.mp hc with hc | ⟨rfl, _⟩
          · exact hpre i' hc
          · omega
        · intro m row'' hm
          rcases getElem?_snoc.mp (show (r.actions ++ [row])[m]? = _ from hm) with hm | ⟨rfl, rfl⟩
          · have hm1 := (List.getElem?_eq_some_iff.mp hm).1
            obtain ⟨i, k1, _, _⟩ := h.first m row'' hm
            have := hlt k1
            constructor
            · intro _; exact ⟨i, this, getElem?_snoc.mpr (Or.inl k1)⟩
            · intro _; exact hm1
          · constructor
            · intro; omega
            · rintro ⟨i', g1, g2⟩
              rcases getElem?_snoc.mp g2 with g2 | ⟨rfl, _⟩
              · exact absurd g2 (hpre i')
              · omega

theorem RedInv.fold : ∀ (rows pre : ActTable T) (r : Tabler.Reduced T), RedInv r pre →
    RedInv ((rows.zipIdx pre.length).foldl Tabler.reducedStep r) (pre ++ rows) := by
  intro rows
  induction rows with
  | nil => intro pre r h; simpa using h
  | cons row rows ih =>
    intro pre r h
    have := ih (pre ++ [row]) _ (h.step row)
    rw [List.append_assoc] at this
    simpa using this

/-- The numbering computed by `reduced_actions`. -/
theorem RedInv.numbers {r : Tabler.Reduced T} {rows : ActTable T} (h : RedInv r rows) :
    Numbers rows (fun i => (r.travelIdx.get? i).getD 0) r.actions.length ∧
    (∀ i < rows.length, ∃ j, r.travelIdx.get? i = some j) ∧
    (∀ (i : Nat) row, rows[i]? = some row → r.actions[(r.travelIdx.get? i).getD 0]? = some row) := by
  have key : ∀ (i : Nat) row, rows[i]? = some row → r.actions[(r.travelIdx.get? i).getD 0]? = some row := by
    intro i row hi
    obtain ⟨j, h1, h2⟩ := h.travel i row hi
    rw [h1]; exact h2
  have hget : ∀ i < rows.length, ∃ row, rows[i]? = some row :=
    fun i hi => ⟨_, List.getElem?_eq_getElem hi⟩
  have hinj : ∀ {a b : Nat} {x}, r.actions[a]? = some x → r.actions[b]? = some x → a = b := by
    intro a b x ha hb
    exact ((h.find x a).mpr ha ▸ (h.find x b).mpr hb : some a = some b) |> Option.some.inj
  refine ⟨⟨?_, ?_, ?_, ?_⟩, ?_, key⟩
  · intro i hi
    obtain ⟨row, hr⟩ := hget i hi
    exact (List.getElem?_eq_some_iff.mp (key i row hr)).1
  · intro m hm
    obtain ⟨i, h1, _⟩ := h.first m _ (List.getElem?_eq_getElem hm)
    exact ⟨i, (List.getElem?_eq_some_iff.mp h1).1, hinj (key i _ h1) (List.getElem?_eq_getElem hm)⟩
  · intro i hi j hj
    obtain ⟨x, hx⟩ := hget i hi
    obtain ⟨y, hy⟩ := hget j hj
    have k1 := key i x hx
    have k2 := key j y hy
    rw [hx, hy]
    constructor
    · intro e
      rw [← k1, ← k2]; exact congrArg (r.actions[·]?) e
    · intro e
      cases e
      exact hinj k1 k2
  · intro i hi j hj hfirst
    obtain ⟨x, hx⟩ := hget i hi
    obtain ⟨y, hy⟩ := hget j hj
    obtain ⟨j', g1, g2, g3⟩ := h.first _ y (key j y hy)
    have : j' = j := by
      rcases Nat.lt_trichotomy j' j with hlt | e | hlt
      · exact absurd (g1.trans hy.symm) (hfirst j' hlt)
      · exact e
      · exact absurd hy (g2 j hlt)
    subst this
    rw [hx]
    exact g3 _ x (key i x hx)
  · intro i hi
    obtain ⟨row, hr⟩ := hget i hi
    obtain ⟨j, h1, _⟩ := h.travel i row hr
    exact ⟨j, h1⟩

/-! ### The new table -/

theorem updateAction_ok {travel : OMap Nat Nat} {n : Nat}
    (ht : ∀ i < n, ∃ j, travel.get? i = some j) : ∀ a : Action T, Targets n a →
      Tabler.updateAction travel a = .ok (rename (fun i => (travel.get? i).getD 0) a) := by
  intro a
  induction a with
  | shift j =>
    intro h
    obtain ⟨m, hm⟩ := ht j h
    simp only [Tabler.updateAction, rename, hm]; rfl
  | goto j =>
    intro h
    obtain ⟨m, hm⟩ := ht j h
    simp only [Tabler.updateAction, rename, hm]; rfl
  | acc => intro _; rfl
  | reduce _ _ => intro _; rfl
  | conflict a b iha ihb =>
    intro h
    simp only [Tabler.updateAction, iha h.1, ihb h.2]; rfl

/-- A row with its cells renumbered. -/
def renameRow (f : Nat → Nat) (row : OMap T (Action T)) : OMap T (Action T) :=
  row.map (fun e => (e.1, rename f e.2))

theorem mapM_map {α β : Type} {g : α → Out β} {f : α → β} : ∀ {l : List α},
    (∀ a ∈ l, g a = .ok (f a)) → l.mapM g = .ok (l.map f) := by
  intro l
  induction l with
  | nil => intro _; rfl
  | cons a l ih =>
    intro h
    rw [List.mapM_cons, h a (by simp), ih (fun b hb => h b (by simp [hb]))]
    rfl

theorem get?_renameRow (f : Nat → Nat) (row : OMap T (Action T)) (x : T) :
    OMap.get? (renameRow f row) x = (OMap.get? row x).map (rename f) := by
  induction row with
  | nil => rfl
  | cons e row ih =>
    show OMap.get? ((e.1, rename f e.2) :: renameRow f row) x = (OMap.get? ((e.1, e.2) :: row) x).map _
    rw [OMap.get?_cons, OMap.get?_cons, ih]
    split <;> rfl

theorem keys_renameRow (f : Nat → Nat) (row : OMap T (Action T)) :
    OMap.keys (renameRow f row) = OMap.keys row := by
  unfold OMap.keys renameRow
  rw [List.map_map]; rfl

/-- `t'` is `t` with equal rows merged, numbered by `f`. -/
structure MergedRows (t t' : Tabler T) (f : Nat → Nat) : Prop where
  grammar : t'.grammar = t.grammar
  first : t'.first = t.first
  follow : t'.follow = t.follow
  states : t'.states = t.states
  kernels : t'.kernels = t.kernels
  numbers : Numbers t.actions f t'.actions.length
  rows : ∀ (i : Nat) row, t.actions[i]? = some row → t'.actions[f i]? = some (renameRow f row)

theorem Tabler.reduceEquals_ok {dbg : Bool} {t : Tabler T} (hc : ClosedTable t.actions)
    (hd : dbg = true → t.actions.length ≤ t.states.length) :
    ∃ t' f, Tabler.reduceEquals dbg t = .ok t' ∧ MergedRows t t' f ∧
      t'.actions.length ≤ t.actions.length := by
  have hinv := RedInv.fold t.actions [] _ RedInv.nil
  simp only [List.length_nil, List.nil_append] at hinv
  generalize hr : t.actions.zipIdx.foldl Tabler.reducedStep _ = r at hinv
  obtain ⟨hn, htr, hrows⟩ := hinv.numbers
  -- not more rows than before: the first occurrences are different
  have hle : r.actions.length ≤ t.actions.length := by
    have hsub : r.actions ⊆ t.actions := by
      intro row hrow
      obtain ⟨j, hj, e⟩ := List.mem_iff_getElem.mp hrow
      obtain ⟨i, h1, _⟩ := hinv.first j row (List.getElem?_eq_some_iff.mpr ⟨hj, e⟩)
      exact List.mem_of_getElem? h1
    exact hinv.nodup.length_le_of_subset hsub
  have hmem : ∀ row ∈ r.actions, row ∈ t.actions := by
    intro row hrow
    obtain ⟨j, hj, e⟩ := List.mem_iff_getElem.mp hrow
    obtain ⟨i, h1, _⟩ := hinv.first j row (List.getElem?_eq_some_iff.mpr ⟨hj, e⟩)
    exact List.mem_of_getElem? h1
  let f := fun i => (r.travelIdx.get? i).getD 0
  have hup : r.actions.mapM (Tabler.updateRow r.travelIdx) = .ok (r.actions.map (renameRow f)) := by
    refine mapM_map (fun row hrow => ?_)
    unfold Tabler.updateRow
    refine mapM_map (f := fun e : T × Action T => (e.1, rename f e.2)) (fun e he => ?_)
    rw [updateAction_ok htr e.2 (hc row (hmem row hrow) e he)]
    rfl
  refine ⟨{ t with actions := r.actions.map (renameRow f) }, f, ?_, ⟨rfl, rfl, rfl, rfl, rfl, ?_, ?_⟩, ?_⟩
  · unfold Tabler.reduceEquals Tabler.reducedActions
    rw [hr]
    have : (!dbg || decide (r.actions.length ≤ t.states.length)) = true := by
      cases dbg with
      | false => rfl
      | true => simp; exact Nat.le_trans hle (hd rfl)
    simp only [this]
    show (do let actions ← r.actions.mapM (Tabler.updateRow r.travelIdx); return _ : Out (Tabler T)) = _
    rw [hup]; rfl
  · show Numbers t.actions f (r.actions.map (renameRow f)).length
    rw [List.length_map]; exact hn
  · intro i row hi
    show (r.actions.map (renameRow f))[f i]? = _
    rw [List.getElem?_map, hrows i row hi]; rfl
  · show (r.actions.map (renameRow f)).length ≤ _
    rw [List.length_map]; exact hle

/-! ### Runs on the merged table -/

/-- The state of the automaton on the merged table. -/
def Dfa.ren (f : Nat → Nat) (tab : ActTable T) (d : Dfa M T) : Dfa M T :=
  { d with table := tab, states := d.states.map f, top := f d.top }

/-- The outcome of a step on the merged table. -/
def renStep {A : Type} (f : Nat → Nat) (tab : ActTable T) (r : DfaRes M T A) : DfaRes M T A :=
  (r.1.ren f tab, match r.2 with | .ok a => .ok a | .error e => .error (renameErr f e))

/-- All states are rows of the table. -/
structure Dfa.Inside (d : Dfa M T) (rows : ActTable T) : Prop where
  table : d.table = rows
  top : d.top < rows.length
  states : ∀ s ∈ d.states, s < rows.length

/-- Mapping an outcome. -/
def Out.mapOk {α β : Type} (g : α → β) : Out α → Out β
  | .ok a => .ok (g a)
  | .panic p => .panic p
  | .fuel => .fuel

section
variable {rows rows' : ActTable T} {f : Nat → Nat}

theorem Dfa.reduceStacks_ren {d : Dfa M T} (A : T) (p : Production T) :
    Dfa.reduceStacks (d.ren f rows') A p = (Dfa.reduceStacks d A p).mapOk (Dfa.ren f rows') := by
  unfold Dfa.reduceStacks Dfa.ren
  simp only [List.getElem?_map]
  by_cases h : p.1.length ≤ d.items.length
  · simp only [h, decide_true]
    show (do
      let fs ← Out.ofOption .missingReductor (d.reductors.get? A); _ : Out (Dfa M T)) = _
    cases h1 : d.reductors.get? A with
    | none => rfl
    | some fs =>
      cases h2 : fs[p.2]? with
      | none => simp [h2, Out.ofOption, Bind.bind, Out.bind, Out.mapOk, Out.assert]
      | some g =>
        cases h3 : g (d.items.take p.1.length).reverse with
        | none => simp [h2, h3, Out.ofOption, Bind.bind, Out.bind, Out.mapOk, Out.assert]
        | some v =>
          cases h4 : d.states[p.1.length]? with
          | none => simp [h2, h3, Out.ofOption, Bind.bind, Out.bind, Out.mapOk, Out.assert]
          | some q =>
            simp [h2, h3, Out.ofOption, Bind.bind, Out.bind, Out.mapOk, Out.assert, Pure.pure, List.map_drop]
  · simp only [h, decide_false]
    rfl

theorem Dfa.reduceStacks_inside {d d' : Dfa M T} {A : T} {p : Production T} (h : d.Inside rows)
    (hd : Dfa.reduceStacks d A p = .ok d') : d'.Inside rows := by
  unfold Dfa.reduceStacks at hd
  obtain ⟨_, _, hd⟩ := Out.bind_eq_ok.mp hd
  obtain ⟨_, _, hd⟩ := Out.bind_eq_ok.mp hd
  obtain ⟨_, _, hd⟩ := Out.bind_eq_ok.mp hd
  obtain ⟨_, _, hd⟩ := Out.bind_eq_ok.mp hd
  obtain ⟨q, hq, hd⟩ := Out.bind_eq_ok.mp hd
  cases hd
  have hq : d.states[p.1.length]? = some q := by
    cases hh : d.states[p.1.length]? with
    | none => rw [hh] at hq; cases hq
    | some x => rw [hh] at hq; cases hq; rfl
  exact ⟨h.table, h.states q (List.mem_of_getElem? hq), fun s hs => h.states s (List.mem_of_mem_drop hs)⟩

theorem Dfa.travel_ren (hc : ClosedTable rows)
    (hr : ∀ (i : Nat) row, rows[i]? = some row → rows'[f i]? = some (renameRow f row)) :
    ∀ (n : Nat) (d : Dfa M T) (x : T), d.Inside rows →
      Dfa.travel n (d.ren f rows') x = (Dfa.travel n d x).mapOk (renStep f rows') ∧
      ∀ r, Dfa.travel n d x = .ok r → r.1.Inside rows := by
  intro n
  induction n with
  | zero => intro d x _; exact ⟨rfl, by intro r h; cases h⟩
  | succ n ih =>
    intro d x hd
    have hrow : d.table[d.top]? = some (rows[d.top]'hd.top) := by
      rw [hd.table]; exact List.getElem?_eq_getElem hd.top
    have hrow' := hr d.top _ (List.getElem?_eq_getElem hd.top)
    have hmem : rows[d.top]'hd.top ∈ rows := List.getElem_mem hd.top
    generalize rows[d.top]'hd.top = row at hrow hrow' hmem
    have htgt : ∀ c, row.get? x = some c → Targets rows.length c :=
      fun c h => hc row hmem _ (OMap.mem_of_get? h)
    unfold Dfa.travel
    rw [hrow]
    have : (d.ren f rows').table[(d.ren f rows').top]? = some (renameRow f row) := hrow'
    rw [this]
    simp only
    rw [get?_renameRow]
    cases hcell : row.get? x with
    | none =>
      simp only [Option.map_none]
      rw [keys_renameRow]
      refine ⟨rfl, ?_⟩
      intro r h; cases h; exact hd
    | some c =>
      have ht := htgt c hcell
      simp only [Option.map_some]
      cases c with
      | shift j =>
        simp only [rename]
        unfold Dfa.shift
        cases hb : d.buffer with
        | nil =>
          have : (d.ren f rows').buffer = [] := hb
          rw [this]
          refine ⟨rfl, ?_⟩
          intro r h; cases h; exact hd
        | cons tok rest =>
          have : (d.ren f rows').buffer = tok :: rest := hb
          rw [this]
          refine ⟨rfl, ?_⟩
          intro r h; cases h
          refine ⟨hd.table, ht, ?_⟩
          intro s hs
          rcases List.mem_cons.mp hs with rfl | hs
          · exact ht
          · exact hd.states s hs
      | goto j =>
        simp only [rename]
        refine ⟨rfl, ?_⟩
        intro r h; cases h
        refine ⟨hd.table, ht, ?_⟩
        intro s hs
        rcases List.mem_cons.mp hs with rfl | hs
        · exact ht
        · exact hd.states s hs
      | acc =>
        simp only [rename]
        unfold Dfa.accept
        cases hb : d.buffer with
        | nil =>
          have : (d.ren f rows').buffer = [] := hb
          simp only [this]
          refine ⟨rfl, ?_⟩
          intro r h; cases h; exact ⟨hd.table, hd.top, hd.states⟩
        | cons tok rest =>
          have : (d.ren f rows').buffer = tok :: rest := hb
          simp only [this]
          refine ⟨rfl, ?_⟩
          intro r h; cases h; exact ⟨hd.table, hd.top, hd.states⟩
      | conflict a b =>
        simp only [rename]
        refine ⟨rfl, ?_⟩
        intro r h; cases h; exact hd
      | reduce A p =>
        simp only [rename]
        rw [Dfa.reduceStacks_ren]
        cases hs : Dfa.reduceStacks d A p with
        | panic e => exact ⟨rfl, by intro r h; cases h⟩
        | fuel => exact ⟨rfl, by intro r h; cases h⟩
        | ok d' =>
          have := ih d' A (Dfa.reduceStacks_inside hd hs)
          exact this

theorem Dfa.trace_ren (hc : ClosedTable rows)
    (hr : ∀ (i : Nat) row, rows[i]? = some row → rows'[f i]? = some (renameRow f row)) (m : Nat) :
    ∀ (n : Nat) (d : Dfa M T), d.Inside rows →
      Dfa.trace id m n (d.ren f rows') = (Dfa.trace id m n d).mapOk (renStep f rows') := by
  intro n
  induction n with
  | zero => intro d _; rfl
  | succ n ih =>
    intro d hd
    unfold Dfa.trace
    have hfin : (d.ren f rows').finished = d.finished := rfl
    rw [hfin]
    cases hf : d.finished with
    | true => rfl
    | false =>
      simp only [id, Bool.false_eq_true, if_false]
      have hsym : (d.ren f rows').symbol = d.symbol := rfl
      obtain ⟨h1, h2⟩ := Dfa.travel_ren hc hr m d d.symbol hd
      rw [hsym, h1]
      cases ht : Dfa.travel m d d.symbol with
      | panic e => rfl
      | fuel => rfl
      | ok r =>
        obtain ⟨d', r'⟩ := r
        cases r' with
        | error e => rfl
        | ok u => exact ih d' (h2 _ ht)

/-- Parsing on a table that has the renumbered rows of another one. -/
theorem parse_rows {t t' : Tabler T} (hc : ClosedTable t.actions) (h0 : 0 < t.actions.length)
    (hg : t'.grammar = t.grammar)
    (hr : ∀ (i : Nat) row, t.actions[i]? = some row → t'.actions[f i]? = some (renameRow f row))
    (hf : f 0 = 0) (n : Nat) (toks : List (Token M T)) (maps : ReductMap M T) :
    Parser.parse t' n toks maps = (Parser.parse t n toks maps).mapOk (renameRes f) := by
  unfold Parser.parse Parser.dfa
  rw [hg]
  cases he : t.grammar.basis.look.head? with
  | none => rfl
  | some eof =>
    have hin : (Dfa.new toks t.actions maps eof).Inside t.actions :=
      ⟨rfl, h0, fun s hs => by rw [List.mem_singleton.mp hs]; exact h0⟩
    have := Dfa.trace_ren hc hr n n _ hin
    have hren : (Dfa.new toks t.actions maps eof).ren f t'.actions = Dfa.new toks t'.actions maps eof := by
      unfold Dfa.ren Dfa.new
      simp [hf]
    rw [hren] at this
    show (do
      let r ← Dfa.start n (Dfa.new toks t'.actions maps eof); _ : Out (Except (Error T) M)) =
      Out.mapOk (renameRes f) (do
        let r ← Dfa.start n (Dfa.new toks t.actions maps eof); _)
    unfold Dfa.start
    rw [this]
    cases Dfa.trace id n n (Dfa.new toks t.actions maps eof) with
    | panic e => rfl
    | fuel => rfl
    | ok r =>
      obtain ⟨d', r'⟩ := r
      cases r' with
      | error e => rfl
      | ok u =>
        obtain ⟨bf, st, items, tab, top, fin, rd, ef⟩ := d'
        cases items <;> rfl

/-- Parsing on the merged table. -/
theorem parse_merged {t t' : Tabler T} (hc : ClosedTable t.actions) (h0 : 0 < t.actions.length)
    (h : MergedRows t t' f) (hf : f 0 = 0) (n : Nat) (toks : List (Token M T)) (maps : ReductMap M T) :
    Parser.parse t' n toks maps = (Parser.parse t n toks maps).mapOk (renameRes f) :=
  parse_rows hc h0 h.grammar h.rows hf n toks maps

end

/-! ### Built tables -/

theorem targets_of_among {n : Nat} : ∀ {c : Action T},
    (∀ j, Among (.shift j) c ∨ Among (.goto j) c → j < n) → Targets n c := by
  intro c
  induction c with
  | shift j => intro h; exact h j (Or.inl (.here (by intro _ _ h; cases h)))
  | goto j => intro h; exact h j (Or.inr (.here (by intro _ _ h; cases h)))
  | acc => intro _; trivial
  | reduce _ _ => intro _; trivial
  | conflict a b iha ihb =>
    intro h
    exact ⟨iha (fun j hj => h j (hj.imp .left .left)), ihb (fun j hj => h j (hj.imp .right .right))⟩

theorem Spec.Makes.closedTable {k : Method} {dbg : Bool} {D : Decls T} {S eof : T} {t : Tabler T}
    (h : Makes k dbg D S eof t) :
    ClosedTable t.actions ∧ 0 < t.actions.length ∧ t.actions.length = t.states.length := by
  obtain ⟨b0, next, red, ha, _⟩ := h.auto
  refine ⟨?_, ?_, ha.len⟩
  · intro row hrow e he
    obtain ⟨i, hi, e1⟩ := List.mem_iff_getElem.mp hrow
    have hrow' : t.actions[i]? = some row := List.getElem?_eq_some_iff.mpr ⟨hi, e1⟩
    have hi' : i < t.states.length := by rw [← ha.len]; exact hi
    have hs : t.states[i]? = some t.states[i] := List.getElem?_eq_getElem hi'
    obtain ⟨hsort, hcell⟩ := ha.cell hs hrow'
    have hget : row.get? e.1 = some e.2 := OMap.get?_of_mem hsort he
    refine targets_of_among (fun j hj => ?_)
    have key : ∃ p ∈ t.states[i], p.top = some e.1 ∧ next t.states[i] e.1 = some j := by
      rcases hj with hj | hj
      · rcases ((hcell e.1).among _ hget _).mp hj with ⟨p, hp, ht, j', hj', hk⟩ | ⟨p, hp, ht, hr, hk⟩
        · rcases hk with ⟨_, e⟩ | ⟨_, e⟩ <;> cases e
          exact ⟨p, hp, ht, hj'⟩
        · rcases hk with ⟨_, e⟩ | ⟨_, e⟩ <;> cases e
      · rcases ((hcell e.1).among _ hget _).mp hj with ⟨p, hp, ht, j', hj', hk⟩ | ⟨p, hp, ht, hr, hk⟩
        · rcases hk with ⟨_, e⟩ | ⟨_, e⟩ <;> cases e
          exact ⟨p, hp, ht, hj'⟩
        · rcases hk with ⟨_, e⟩ | ⟨_, e⟩ <;> cases e
    obtain ⟨p, hp, ht, hj'⟩ := key
    obtain ⟨j'', s', g1, _, g3, _⟩ := ha.edge hs hp ht
    rw [hj'] at g1; cases g1
    rw [ha.len]
    exact (List.getElem?_eq_some_iff.mp g3).1
  · obtain ⟨s, _, hs, _⟩ := ha.basis
    rw [ha.len]; exact (List.getElem?_eq_some_iff.mp hs).1

end Lrp
