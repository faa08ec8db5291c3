import Verif.Spec.Shrink
import Verif.Props.Equals

/-! C103: calling `reduce_equals` until nothing changes. -/

set_option linter.unusedSectionVars false

namespace Lrp.Props
open Spec
set_option maxRecDepth 100000

variable {T : Type} [LinOrd T] [DecidableEq T] {M : Type}

/-! ### What one call does -/

/-- If there are as many different rows as rows, no two are the same. -/
theorem Numbers.noTwins {rows : ActTable T} {f : Nat → Nat} (h : Numbers rows f rows.length) :
    NoTwins rows := by
  intro i hi j hj hij
  refine Decidable.byContradiction fun hne => ?_
  have hsub : List.range rows.length ⊆ (((List.range rows.length).erase j).map f) := by
    intro m hm
    obtain ⟨i', hi', rfl⟩ := h.onto m (List.mem_range.mp hm)
    by_cases e : i' = j
    · refine List.mem_map.mpr ⟨i, ?_, ?_⟩
      · exact (List.mem_erase_of_ne hne).mpr (List.mem_range.mpr hi)
      · rw [e]; exact (h.same i hi j hj).mpr hij
    · exact List.mem_map.mpr ⟨i', (List.mem_erase_of_ne e).mpr (List.mem_range.mpr hi'), rfl⟩
  have := List.nodup_range.length_le_of_subset hsub
  rw [List.length_map, List.length_erase_of_mem (List.mem_range.mpr hj), List.length_range] at this
  omega

/-- Without twins nothing is renumbered. -/
theorem Numbers.id {rows : ActTable T} {f : Nat → Nat} {k : Nat} (h : Numbers rows f k)
    (hd : NoTwins rows) : ∀ i < rows.length, f i = i := by
  have hlt : ∀ i < rows.length, ∀ j < rows.length, (f i < f j ↔ i < j) := by
    intro i hi j hj
    rw [h.order i hi j hj (fun i' hi' e => by have := hd i' (by omega) j hj e; omega)]
    constructor
    · rintro ⟨i', h1, h2⟩
      have := hd i' (by omega) i hi h2
      omega
    · intro g; exact ⟨i, g, rfl⟩
  have hge : ∀ i < rows.length, i ≤ f i := by
    intro i
    induction i with
    | zero => intro _; exact Nat.zero_le _
    | succ i ih =>
      intro hi
      have h1 := ih (by omega)
      have h2 := (hlt i (by omega) (i + 1) hi).mpr (by omega)
      omega
  intro i
  induction i using Nat.strongRecOn with
  | _ i ih =>
    intro hi
    obtain ⟨i', hi', e⟩ := h.onto i (Nat.lt_of_le_of_lt (hge i hi) (h.below i hi))
    have h1 := hge i' hi'
    rcases Nat.lt_or_ge i' i with g | g
    · have := ih i' g hi'; omega
    · have : i' = i := by omega
      rw [this] at e; exact e

theorem rename_below : ∀ (a : Action T) {n : Nat} {f : Nat → Nat}, (∀ i < n, f i = i) → Targets n a →
    rename f a = a
  | .shift j, _, _, h, ht => by simp only [rename]; rw [h j ht]
  | .goto j, _, _, h, ht => by simp only [rename]; rw [h j ht]
  | .acc, _, _, _, _ => rfl
  | .reduce _ _, _, _, _, _ => rfl
  | .conflict a b, _, _, h, ht => by
    simp only [rename]; rw [rename_below a h ht.1, rename_below b h ht.2]

theorem rename_rename (f g : Nat → Nat) : ∀ (a : Action T), rename g (rename f a) = rename (g ∘ f) a
  | .shift _ => rfl
  | .goto _ => rfl
  | .acc => rfl
  | .reduce _ _ => rfl
  | .conflict a b => by simp only [rename]; rw [rename_rename f g a, rename_rename f g b]

theorem renameRow_renameRow (f g : Nat → Nat) (row : OMap T (Action T)) :
    renameRow g (renameRow f row) = renameRow (g ∘ f) row := by
  unfold renameRow
  rw [List.map_map]
  refine List.map_congr_left fun e _ => ?_
  show (e.1, rename g (rename f e.2)) = _
  rw [rename_rename]

/-- C103: a call changes nothing at all exactly if no two rows are the same. -/
theorem C103_fixed_iff {dbg : Bool} {t : Tabler T} (hc : ClosedTable t.actions)
    (hd : dbg = true → t.actions.length ≤ t.states.length) :
    Tabler.reduceEquals dbg t = .ok t ↔ NoTwins t.actions := by
  obtain ⟨t', f, h1, h2, h3⟩ := Tabler.reduceEquals_ok hc hd
  constructor
  · intro h
    rw [h] at h1; cases h1
    exact Numbers.noTwins h2.numbers
  · intro hn
    have hid := Numbers.id h2.numbers hn
    have hlen : t'.actions.length = t.actions.length := by
      refine Nat.le_antisymm h3 ?_
      rcases Nat.eq_zero_or_pos t.actions.length with g | g
      · omega
      · have := h2.numbers.below (t.actions.length - 1) (by omega)
        rw [hid _ (by omega)] at this
        omega
    have hact : t'.actions = t.actions := by
      refine List.ext_getElem hlen fun i hi hi' => ?_
      have hr := h2.rows i _ (List.getElem?_eq_getElem hi')
      rw [hid i hi', List.getElem?_eq_getElem hi] at hr
      rw [Option.some.inj hr]
      unfold renameRow
      conv => rhs; rw [← List.map_id t.actions[i]]
      refine List.map_congr_left fun e he => ?_
      rw [rename_below e.2 hid (hc _ (List.getElem_mem hi') e he)]; rfl
    rw [h1]
    obtain ⟨g1, g2, g3, g4, g5, g6⟩ := t'
    have a1 := h2.grammar; have a2 := h2.first; have a3 := h2.follow
    have a4 := h2.states; have a5 := h2.kernels
    cases t
    simp only at a1 a2 a3 a4 a5 hact
    subst a1; subst a2; subst a3; subst a4; subst a5; subst hact
    rfl

/-- C103: a call that leaves as many rows as before has changed nothing. -/
theorem C103_same_count {dbg : Bool} {t t' : Tabler T} (hc : ClosedTable t.actions)
    (hd : dbg = true → t.actions.length ≤ t.states.length)
    (h : Tabler.reduceEquals dbg t = .ok t') (hl : t'.actions.length = t.actions.length) : t' = t := by
  obtain ⟨t'', f, h1, h2, _⟩ := Tabler.reduceEquals_ok hc hd
  rw [h] at h1; cases h1
  have hn := h2.numbers
  rw [hl] at hn
  have := (C103_fixed_iff hc hd).mpr (Numbers.noTwins hn)
  rw [h] at this
  cases this; rfl

/-! ### What many calls do -/

/-- `t'` is `t` with rows merged, the rows renumbered by `f`. -/
structure Shrunk (t t' : Tabler T) (f : Nat → Nat) : Prop where
  closed : ClosedTable t'.actions
  fewer : t'.actions.length ≤ t.actions.length
  pos : 0 < t.actions.length → 0 < t'.actions.length
  zero : 0 < t.actions.length → f 0 = 0
  onto : ∀ m < t'.actions.length, ∃ i < t.actions.length, f i = m
  rows : ∀ (i : Nat) row, t.actions[i]? = some row → t'.actions[f i]? = some (renameRow f row)
  grammar : t'.grammar = t.grammar
  first : t'.first = t.first
  follow : t'.follow = t.follow
  states : t'.states = t.states
  kernels : t'.kernels = t.kernels

theorem Shrunk.refl {t : Tabler T} (hc : ClosedTable t.actions) : Shrunk t t id := by
  refine ⟨hc, Nat.le_refl _, fun h => h, fun _ => rfl, fun m h => ⟨m, h, rfl⟩, fun i row h => ?_,
    rfl, rfl, rfl, rfl, rfl⟩
  have : renameRow id row = row := by
    unfold renameRow
    conv => rhs; rw [← List.map_id row]
    refine List.map_congr_left fun e he => ?_
    rw [rename_below (f := id) e.2 (fun _ _ => rfl) (hc _ (List.mem_of_getElem? h) e he)]; rfl
  rw [this]; exact h

theorem Shrunk.trans {t s u : Tabler T} {f g : Nat → Nat} (h1 : Shrunk t s f) (h2 : Shrunk s u g) :
    Shrunk t u (g ∘ f) where
  closed := h2.closed
  fewer := Nat.le_trans h2.fewer h1.fewer
  pos h := h2.pos (h1.pos h)
  zero h := by show g (f 0) = 0; rw [h1.zero h, h2.zero (h1.pos h)]
  onto m hm := by
    obtain ⟨i, hi, e⟩ := h2.onto m hm
    obtain ⟨j, hj, e'⟩ := h1.onto i hi
    exact ⟨j, hj, by show g (f j) = m; rw [e', e]⟩
  rows i row h := by
    rw [← renameRow_renameRow]; exact h2.rows _ _ (h1.rows i row h)
  grammar := h2.grammar.trans h1.grammar
  first := h2.first.trans h1.first
  follow := h2.follow.trans h1.follow
  states := h2.states.trans h1.states
  kernels := h2.kernels.trans h1.kernels

theorem shrunk_once {dbg : Bool} {t : Tabler T} (hc : ClosedTable t.actions)
    (hd : dbg = true → t.actions.length ≤ t.states.length) :
    ∃ t' f, Tabler.reduceEquals dbg t = .ok t' ∧ Shrunk t t' f := by
  obtain ⟨t', f, h1, h2, h3, h4, h5, h6, h7, h8, h9, h10⟩ := C35_closed_tables hc hd
  refine ⟨t', f, h1, h5, h4, fun h => ?_, fun h => numbers_zero h2 h, h2.onto, h3, h6, h7, h8, h9, h10⟩
  exact Nat.lt_of_le_of_lt (Nat.zero_le _) (h2.below 0 h)

theorem shrunk_calls {dbg : Bool} : ∀ (n : Nat) {t : Tabler T}, ClosedTable t.actions →
    (dbg = true → t.actions.length ≤ t.states.length) →
    ∃ t' f, Calls dbg n t t' ∧ Shrunk t t' f
  | 0, t, hc, _ => ⟨t, id, rfl, Shrunk.refl hc⟩
  | n + 1, t, hc, hd => by
    obtain ⟨s, f, h1, h2⟩ := shrunk_once hc hd
    obtain ⟨u, g, h3, h4⟩ := shrunk_calls n h2.closed
      (fun e => by rw [h2.states]; exact Nat.le_trans h2.fewer (hd e))
    exact ⟨u, g ∘ f, ⟨s, h1, h3⟩, h2.trans h4⟩

theorem calls_unique {dbg : Bool} : ∀ {n : Nat} {t u v : Tabler T}, Calls dbg n t u → Calls dbg n t v → u = v
  | 0, _, _, _, h1, h2 => by rw [show _ = _ from h1, show _ = _ from h2]
  | n + 1, _, _, _, ⟨s, h1, h2⟩, ⟨s', h3, h4⟩ => by
    rw [h1] at h3; cases h3; exact calls_unique h2 h4

theorem calls_fixed {dbg : Bool} {t : Tabler T} (h : Tabler.reduceEquals dbg t = .ok t) :
    ∀ n, Calls dbg n t t
  | 0 => rfl
  | n + 1 => ⟨t, h, calls_fixed h n⟩

theorem calls_add {dbg : Bool} : ∀ {n m : Nat} {t s u : Tabler T}, Calls dbg n t s → Calls dbg m s u →
    Calls dbg (n + m) t u
  | 0, m, t, s, u, h1, h2 => by
    rw [Nat.zero_add, ← show s = t from h1]; exact h2
  | n + 1, m, t, s, u, ⟨r, h1, h2⟩, h3 => by
    rw [Nat.succ_add]; exact ⟨r, h1, calls_add h2 h3⟩

/-- C103: calling `reduce_equals` again and again never panics and stops merging: fewer than `k` calls,
`k` the number of rows, lead to a table that no further call changes, and that table has no two equal
rows. -/
theorem C103_stops {dbg : Bool} {t : Tabler T} (hc : ClosedTable t.actions)
    (h0 : 0 < t.actions.length) (hd : dbg = true → t.actions.length ≤ t.states.length) :
    ∃ n < t.actions.length, ∃ t', NoTwins t'.actions ∧ ∀ m, n ≤ m → ∀ u, Calls dbg m t u ↔ u = t' := by
  suffices h : ∀ (k : Nat) (t : Tabler T), t.actions.length = k → 0 < k → ClosedTable t.actions →
      (dbg = true → t.actions.length ≤ t.states.length) →
      ∃ n < k, ∃ t', Calls dbg n t t' ∧ Tabler.reduceEquals dbg t' = .ok t' ∧ NoTwins t'.actions by
    obtain ⟨n, hn, t', h1, h2, h3⟩ := h _ t rfl h0 hc hd
    refine ⟨n, hn, t', h3, fun m hm u => ?_⟩
    have hm' : Calls dbg m t t' := by
      have := calls_add h1 (calls_fixed h2 (m - n))
      rwa [Nat.add_sub_cancel' hm] at this
    exact ⟨fun hu => calls_unique hu hm', fun e => e ▸ hm'⟩
  intro k
  induction k using Nat.strongRecOn with
  | _ k ih =>
    intro t hk h0 hc hd
    obtain ⟨s, f, h1, h2⟩ := shrunk_once hc hd
    by_cases hl : s.actions.length = t.actions.length
    · have e := C103_same_count hc hd h1 hl
      subst e
      exact ⟨0, h0, s, rfl, h1, (C103_fixed_iff hc hd).mp h1⟩
    · have hlt : s.actions.length < k := by have := h2.fewer; omega
      obtain ⟨n, hn, t', h3, h4⟩ := ih _ hlt s rfl (h2.pos (hk ▸ h0)) h2.closed
        (fun e => by rw [h2.states]; exact Nat.le_trans h2.fewer (hd e))
      exact ⟨n + 1, by omega, t', ⟨s, h1, h3⟩, h4⟩

/-- C103 for built tables: any number of calls is possible, and leaves everything but the rows alone. -/
theorem C103_built {k : Method} {dbg dbg' : Bool} {D : Decls T} {S eof : T} {t : Tabler T}
    (ht : Makes k dbg D S eof t) :
    (∀ n, ∃ t', Calls dbg' n t t' ∧ t'.actions.length ≤ t.actions.length ∧ t'.grammar = t.grammar ∧
      t'.first = t.first ∧ t'.follow = t.follow ∧ t'.states = t.states ∧ t'.kernels = t.kernels) ∧
    ∃ n < t.actions.length, ∃ t', NoTwins t'.actions ∧ ∀ m, n ≤ m → ∀ u, Calls dbg' m t u ↔ u = t' := by
  obtain ⟨hc, h0, hl⟩ := ht.closedTable
  refine ⟨fun n => ?_, C103_stops hc h0 (fun _ => Nat.le_of_eq hl)⟩
  obtain ⟨t', f, h1, h2⟩ := shrunk_calls (dbg := dbg') n hc (fun _ => Nat.le_of_eq hl)
  exact ⟨t', h1, h2.fewer, h2.grammar, h2.first, h2.follow, h2.states, h2.kernels⟩

/-- C103: however often it is called, every parse ends as before. -/
theorem C103_same_outcome {k : Method} {dbg dbg' : Bool} {D : Decls T} {S eof : T} {t t' : Tabler T}
    (ht : Makes k dbg D S eof t) {n : Nat} (ht' : Calls dbg' n t t') (M : Type)
    (maps : ReductMap M T) (toks : List (Token M T)) :
    (∀ v, Parses t' maps toks (.ok v) ↔ Parses t maps toks (.ok v)) ∧
    (∀ e, (∀ a b, e ≠ .conflict a b) →
      (Parses t' maps toks (.error e) ↔ Parses t maps toks (.error e))) ∧
    ((∃ a b, Parses t' maps toks (.error (.conflict a b))) ↔
      ∃ a b, Parses t maps toks (.error (.conflict a b))) ∧
    (∀ p, Panics (fun n => Parser.parse t' n toks maps) p ↔
      Panics (fun n => Parser.parse t n toks maps) p) ∧
    (Diverges (fun n => Parser.parse t' n toks maps) ↔
      Diverges (fun n => Parser.parse t n toks maps)) := by
  obtain ⟨hc, h0, hl⟩ := ht.closedTable
  obtain ⟨u, f, h1, h2⟩ := shrunk_calls (dbg := dbg') n hc (fun _ => Nat.le_of_eq hl)
  obtain rfl := calls_unique ht' h1
  exact outcome_of_key fun n => parse_rows hc h0 h2.grammar h2.rows (h2.zero h0) n toks maps

/-- C103: the table left at the end has conflicts only if the table had. -/
theorem C103_conflicts {k : Method} {dbg dbg' : Bool} {D : Decls T} {S eof : T} {t t' : Tabler T}
    (ht : Makes k dbg D S eof t) {n : Nat} (ht' : Calls dbg' n t t') :
    t'.conflicts = [] ↔ t.conflicts = [] := by
  obtain ⟨hc, h0, hl⟩ := ht.closedTable
  obtain ⟨u, f, h1, h2⟩ := shrunk_calls (dbg := dbg') n hc (fun _ => Nat.le_of_eq hl)
  obtain rfl := calls_unique ht' h1
  have hcf : ∀ (t : Tabler T), t.conflicts = [] ↔
      ∀ row ∈ t.actions, ∀ e ∈ row, ∀ a b, e.2 ≠ .conflict a b := by
    intro t
    unfold Tabler.conflicts OMap.values
    rw [List.filter_eq_nil_iff]
    constructor
    · intro h row hrow e he a b hab
      exact h e.2 (List.mem_flatMap.mpr ⟨row, hrow, List.mem_map_of_mem he⟩) (by rw [hab])
    · intro h c hcm
      obtain ⟨row, hrow, hm⟩ := List.mem_flatMap.mp hcm
      obtain ⟨e, he, rfl⟩ := List.mem_map.mp hm
      have := h row hrow e he
      cases hx : e.2 with
      | conflict a b => exact absurd hx (this a b)
      | _ => simp
  rw [hcf, hcf]
  constructor
  · intro h row hrow e he a b hab
    obtain ⟨i, hi, rfl⟩ := List.mem_iff_getElem.mp hrow
    refine h _ (List.mem_of_getElem? (h2.rows i _ (List.getElem?_eq_getElem hi)))
      (e.1, rename f e.2) (List.mem_map_of_mem he) (rename f a) (rename f b) ?_
    show rename f e.2 = _
    rw [hab]; rfl
  · intro h row' hrow' e he a b hab
    obtain ⟨j, hj, rfl⟩ := List.mem_iff_getElem.mp hrow'
    obtain ⟨i, hi, rfl⟩ := h2.onto j hj
    have hr := h2.rows i _ (List.getElem?_eq_getElem hi)
    rw [List.getElem?_eq_getElem hj] at hr
    rw [Option.some.inj hr] at he
    obtain ⟨e0, he0, rfl⟩ := List.mem_map.mp he
    have := h _ (List.getElem_mem hi) e0 he0
    simp only at hab
    cases hx : e0.2 with
    | conflict a b => exact this a b hx
    | _ => rw [hx] at hab; cases hab

/-- Not vacuous: a table of 15 rows that one call brings to 14 rows, two calls to 13, and further calls no
further. -/
theorem C103_example : ∃ t t', Makes .clr true Samples.splitLooks 0 99 t ∧ t.actions.length = 15 ∧
    Calls true 2 t t' ∧ t'.actions.length = 13 ∧ NoTwins t'.actions ∧
    (∀ n, 2 ≤ n → ∀ u, Calls true n t u ↔ u = t') ∧ t'.conflicts = [] := by
  have hg : Grammar.new true 0 (grammarMap Samples.splitLooks) 99 =
    .ok (Samples.grammar Samples.splitLooks) := by decide +kernel
  have h : ∃ t, Clr.new true 100 (Samples.grammar Samples.splitLooks) = .ok t ∧
      ∃ t', Tabler.reduceEquals true t = .ok t' ∧ ∃ t'', Tabler.reduceEquals true t' = .ok t'' ∧
        ∃ u, Tabler.reduceEquals true t'' = .ok u ∧
        t.actions.length = 15 ∧ t''.actions.length = 13 ∧ u.actions.length = 13 ∧ t.conflicts = [] := by
    refine ⟨_, rfl, _, rfl, _, rfl, _, rfl, ?_⟩
    decide +kernel
  obtain ⟨t, h1, t', h2, t'', h3, u, h4, h5, h6, h7, h8⟩ := h
  have ht : Makes .clr true Samples.splitLooks 0 99 t := ⟨_, hg, 100, h1⟩
  have h9 : Calls true 2 t t'' := ⟨t', h2, t'', h3, rfl⟩
  obtain ⟨hc, h0, hl⟩ := ht.closedTable
  obtain ⟨v, f, g1, g2⟩ := shrunk_calls (dbg := true) 2 hc (fun _ => Nat.le_of_eq hl)
  obtain rfl := calls_unique h9 g1
  have hd : true = true → t''.actions.length ≤ t''.states.length := fun _ => by
    rw [g2.states]; exact Nat.le_trans g2.fewer (Nat.le_of_eq hl)
  have e := C103_same_count g2.closed hd h4 (h7.trans h6.symm)
  subst e
  refine ⟨t, u, ht, h5, h9, h6, (C103_fixed_iff g2.closed hd).mp h4, fun n hn w => ?_,
    (C103_conflicts ht h9).mpr h8⟩
  have hn' : Calls true n t u := by
    have := calls_add h9 (calls_fixed h4 (n - 2))
    rwa [Nat.add_sub_cancel' hn] at this
  exact ⟨fun hw => calls_unique hw hn', fun e => e ▸ hn'⟩

end Lrp.Props
