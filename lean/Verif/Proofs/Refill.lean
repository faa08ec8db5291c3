import Verif.Proofs.NoMerge
import Verif.Proofs.Equals
import Verif.Spec.Refill

/-! `with_table` on a table whose states and actions have been computed already. -/

set_option linter.unusedSectionVars false

namespace Lrp
open Spec
variable {T : Type} [LinOrd T] [DecidableEq T] {M : Type}

/-! ### What is kept -/

/-- The grammar and the rows of actions are the same. -/
structure Kept (t t' : Tabler T) : Prop where
  grammar : t'.grammar = t.grammar
  actions : t'.actions = t.actions

theorem Kept.refl (t : Tabler T) : Kept t t := ⟨rfl, rfl⟩

theorem Kept.trans {t t' t'' : Tabler T} (h : Kept t t') (h' : Kept t' t'') : Kept t t'' :=
  ⟨h'.grammar.trans h.grammar, h'.actions.trans h.actions⟩

theorem procClosures_kept {cl : ClosureFn T} {dbg : Bool} {n : Nat} {t t' : Tabler T}
    (h : procClosures cl dbg n t = .ok t') : Kept t t' := by
  unfold procClosures procClosuresFirstRow at h
  obtain ⟨t1, h1, h2⟩ := Out.bind_eq_ok.mp h
  obtain ⟨s, _, h3⟩ := Out.bind_eq_ok.mp h1
  injection h3 with h3
  have := procLoop_ext n h2
  subst h3
  exact ⟨this.grammar, this.actions⟩

theorem Lalr.updateState_kept {dbg : Bool} {l : Lalr T} {a b c : State T} {r : Lalr T × Option (State T)}
    (h : Lalr.updateState dbg l a b c = .ok r) : Kept l.table r.1.table := by
  unfold Lalr.updateState at h
  split at h
  · injection h with h; subst h; exact .refl _
  · simp only at h
    split at h
    · injection h with h; subst h; exact .refl _
    · obtain ⟨_, _, h⟩ := Out.bind_eq_ok.mp h
      obtain ⟨_, _, h⟩ := Out.bind_eq_ok.mp h
      injection h with h; subst h; exact ⟨rfl, rfl⟩

theorem Lalr.update_kept {dbg : Bool} {c : Nat} (n : Nat) : ∀ {l : Lalr T} {k : Lalr.Call T}
    {r : Lalr T × Option (State T)}, Lalr.update dbg c n l k = .ok r → Kept l.table r.1.table := by
  induction n with
  | zero => intro l k r h; cases h
  | succ n ih =>
    intro l k r h
    cases k with
    | enter a b d =>
      unfold Lalr.update at h
      obtain ⟨⟨l1, o⟩, h1, h2⟩ := Out.bind_eq_ok.mp h
      have k1 := Lalr.updateState_kept h1
      cases o with
      | none => injection h2 with h2; subst h2; exact k1
      | some nk =>
        obtain ⟨_, _, h2⟩ := Out.bind_eq_ok.mp h2
        exact k1.trans (ih h2)
    | loop id nk ss =>
      cases ss with
      | nil =>
        unfold Lalr.update at h
        injection h with h; subst h; exact .refl _
      | cons s ss =>
        unfold Lalr.update at h
        obtain ⟨o, h1, h2⟩ := Out.bind_eq_ok.mp h
        cases o with
        | none => exact ih h2
        | some e =>
          obtain ⟨K, v⟩ := e
          simp only at h2
          split at h2
          · exact ih h2
          · obtain ⟨⟨l1, o⟩, h3, h4⟩ := Out.bind_eq_ok.mp h2
            have k1 := ih h3
            cases o with
            | none => exact k1.trans (ih h4)
            | some nk' =>
              obtain ⟨_, _, h4⟩ := Out.bind_eq_ok.mp h4
              split at h4
              · exact k1.trans (ih h4)
              · exact k1.trans (ih h4)

theorem Lalr.gen_kept {dbg : Bool} {c u : Nat} (n : Nat) : ∀ {idx : Nat} {row : State T} {ss : List T}
    {l l' : Lalr T}, Lalr.gen dbg c u n idx row ss l = .ok l' → Kept l.table l'.table := by
  induction n with
  | zero => intro idx row ss l l' h; cases h
  | succ n ih =>
    intro idx row ss l l' h
    cases ss with
    | nil =>
      unfold Lalr.gen at h
      split at h
      · injection h with h; subst h; exact .refl _
      · exact ih h
    | cons s ss =>
      unfold Lalr.gen at h
      obtain ⟨o, h1, h2⟩ := Out.bind_eq_ok.mp h
      cases o with
      | none => exact ih h2
      | some e =>
        obtain ⟨K, v⟩ := e
        simp only at h2
        split at h2
        · obtain ⟨⟨l1, o⟩, h3, h4⟩ := Out.bind_eq_ok.mp h2
          have k1 : Kept l.table l1.table := Lalr.update_kept u h3
          cases o with
          | none => exact k1.trans (ih h4)
          | some nk =>
            obtain ⟨_, _, h4⟩ := Out.bind_eq_ok.mp h4
            split at h4
            · split at h4
              · injection h4 with h4; subst h4; exact k1
              · exact k1.trans (ih h4)
            · exact k1.trans (ih h4)
        · obtain ⟨_, _, h2⟩ := Out.bind_eq_ok.mp h2
          have := ih h2
          exact ⟨this.grammar, this.actions⟩

theorem Lalr.procClosures_kept {dbg : Bool} {n : Nat} {l l' : Lalr T}
    (h : Lalr.procClosures dbg n l = .ok l') : Kept l.table l'.table := by
  unfold Lalr.procClosures Lalr.firstRow at h
  obtain ⟨l1, h1, h2⟩ := Out.bind_eq_ok.mp h
  obtain ⟨s, _, h3⟩ := Out.bind_eq_ok.mp h1
  injection h3 with h3
  have k1 : Kept l.table l1.table := by subst h3; exact ⟨rfl, rfl⟩
  split at h2
  · injection h2 with h2; subst h2; exact k1
  · exact k1.trans (Lalr.gen_kept n h2)

theorem procRows_kept {d : Position T → State T → Out (OMap T (Action T))} {t t' : Tabler T}
    (h : procRows d t = .ok t') : t'.grammar = t.grammar ∧ ∃ rows, t'.actions = t.actions ++ rows := by
  unfold procRows at h
  obtain ⟨rows, _, h2⟩ := Out.bind_eq_ok.mp h
  injection h2 with h2; subst h2
  exact ⟨rfl, rows, rfl⟩

/-- `with_table` of any of the three: the rows that are there stay, further ones follow. -/
theorem withTable_kept {k : Method} {dbg : Bool} {n : Nat} {t t' : Tabler T}
    (h : k.fill dbg n t = .ok t') : t'.grammar = t.grammar ∧ ∃ rows, t'.actions = t.actions ++ rows := by
  cases k with
  | slr =>
    obtain ⟨t1, h1, h2⟩ := Out.bind_eq_ok.mp h
    obtain ⟨e1, rows, e2⟩ := procRows_kept h2
    have k1 := procClosures_kept h1
    exact ⟨e1.trans k1.grammar, rows, by rw [e2, k1.actions]⟩
  | clr =>
    obtain ⟨t1, h1, h2⟩ := Out.bind_eq_ok.mp h
    obtain ⟨e1, rows, e2⟩ := procRows_kept h2
    have k1 := procClosures_kept h1
    exact ⟨e1.trans k1.grammar, rows, by rw [e2, k1.actions]⟩
  | lalr =>
    have h : (do let l ← Lalr.withTable dbg n t; return l.table) = Out.ok t' := h
    obtain ⟨l, h', e⟩ := Out.bind_eq_ok.mp h
    injection e with e; subst e
    unfold Lalr.withTable at h'
    obtain ⟨l1, h1, h2⟩ := Out.bind_eq_ok.mp h'
    obtain ⟨t2, h3, h4⟩ := Out.bind_eq_ok.mp h2
    injection h4 with h4; subst h4
    obtain ⟨e1, rows, e2⟩ := procRows_kept h3
    have k1 := Lalr.procClosures_kept h1
    exact ⟨e1.trans k1.grammar, rows, by rw [e2, k1.actions]⟩

/-! ### Parsing with more rows -/

theorem rename_id : ∀ a : Action T, rename id a = a
  | .shift _ => rfl
  | .goto _ => rfl
  | .acc => rfl
  | .reduce _ _ => rfl
  | .conflict a b => by unfold rename; rw [rename_id a, rename_id b]

theorem renameRow_id (row : OMap T (Action T)) : renameRow id row = row := by
  unfold renameRow
  have : (fun e : T × Action T => (e.1, rename id e.2)) = id := by
    funext e; simp [rename_id]
  rw [this]; exact List.map_id row

theorem renameRes_id (r : Except (Error T) M) : renameRes id r = r := by
  cases r with
  | ok v => rfl
  | error e =>
    show Except.error _ = _
    cases e <;> simp [renameErr, rename_id]

/-- Rows that no action leads to make no difference. -/
theorem parse_more_rows {t t' : Tabler T} (hc : ClosedTable t.actions) (h0 : 0 < t.actions.length)
    (hg : t'.grammar = t.grammar) {rows : ActTable T} (ha : t'.actions = t.actions ++ rows) (n : Nat)
    (toks : List (Token M T)) (maps : ReductMap M T) :
    Parser.parse t' n toks maps = Parser.parse t n toks maps := by
  have hr : ∀ (i : Nat) row, t.actions[i]? = some row → t'.actions[id i]? = some (renameRow id row) := by
    intro i row h
    have := (List.getElem?_eq_some_iff.mp h).1
    rw [ha, renameRow_id]
    show (t.actions ++ rows)[i]? = _
    rw [List.getElem?_append_left this]; exact h
  rw [parse_rows hc h0 hg hr rfl]
  cases Parser.parse t n toks maps with
  | ok r => show Out.ok _ = _; rw [renameRes_id]
  | panic e => rfl
  | fuel => rfl

/-! ### The same method again -/

theorem OMap.insert_known {κ ν : Type} [LinOrd κ] [DecidableEq κ] {m : OMap κ ν} {k : κ} {v : ν}
    (hs : OMap.Sorted m) (h : m.get? k = some v) : OMap.insert k v m = m := by
  refine OMap.ext (OMap.sorted_insert hs _ _) hs (fun k' => ?_)
  rw [OMap.get?_insert]
  split
  · rename_i e; rw [e, h]
  · rfl

theorem mapM_snoc {α β : Type} {g : α → Out β} {l : List α} {r : List β} {a : α} {b : β}
    (h : l.mapM g = .ok r) (ha : g a = .ok b) : (l ++ [a]).mapM g = .ok (r ++ [b]) := by
  rw [List.mapM_append, h]
  show (do let ys ← [a].mapM g; _ : Out _) = _
  rw [List.mapM_cons, ha]
  rfl

section
variable {t : Tabler T} {D : Decls T} {S eof : T} {lk : Table T → Position T → OSet T}
  {red : Position T → T → Prop} {cl : ClosureFn T}

/-- The table with its first state once more at the end. -/
def Tabler.twiceFirst (t : Tabler T) (s0 : State T) : Tabler T := { t with states := t.states ++ [s0] }

theorem Built.mem_twice (h : Built t D S eof lk red) {s0 s : State T} (hs0 : t.states[0]? = some s0)
    {i : Nat} (hs : (t.twiceFirst s0).states[i]? = some s) {X : T} (hX : X ∈ t.grammar.symbols) :
    t.kernels.contains (Tabler.symFilter s X) = true := by
  rw [OMap.contains_iff]
  unfold Tabler.twiceFirst at hs
  simp only at hs
  by_cases hi : i < t.states.length
  · rw [List.getElem?_append_left hi] at hs
    exact h.done i hi X hX s hs
  · rw [List.getElem?_append_right (by omega)] at hs
    have : s = s0 := by
      cases hh : i - t.states.length with
      | zero => rw [hh] at hs; simpa using hs.symm
      | succ m => rw [hh] at hs; simp at hs
    subst this
    exact h.done 0 (List.getElem?_eq_some_iff.mp hs0).1 X hX s hs0

theorem goto_known {n : Nat} {row : State T} {X : T}
    (h : t.kernels.contains (Tabler.symFilter row X) = true) : goto cl n t row X = .ok none := by
  unfold goto
  simp only [h, if_true]

theorem procSyms_known {dbg : Bool} {n idx : Nat} (ss : List T)
    (h : ∀ X ∈ ss, t.kernels.contains (Tabler.symFilter (t.states[idx]?.getD []) X) = true) :
    ss.foldlM (procSym cl dbg n idx) t = .ok t := by
  induction ss with
  | nil => rfl
  | cons X ss ih =>
    rw [List.foldlM_cons]
    have : procSym cl dbg n idx t X = .ok t := by
      unfold procSym
      rw [goto_known (h X (by simp))]; rfl
    rw [this]
    exact ih (fun Y hY => h Y (by simp [hY]))

theorem procLoop_known {dbg : Bool} {c : Nat}
    (h : ∀ (i : Nat) s, t.states[i]? = some s → ∀ X ∈ t.grammar.symbols,
      t.kernels.contains (Tabler.symFilter s X) = true) (n : Nat) :
    ∀ idx, t.states.length < n + idx → idx ≤ t.states.length → procLoop cl dbg c n idx t = .ok t := by
  induction n with
  | zero => intro idx h1 h2; omega
  | succ n ih =>
    intro idx h1 h2
    unfold procLoop
    by_cases hi : idx < t.states.length
    · rw [if_pos hi, procSyms_known]
      · exact ih (idx + 1) (by omega) (by omega)
      · intro X hX
        rw [List.getElem?_eq_getElem hi]
        exact h idx _ (List.getElem?_eq_getElem hi) X hX
    · rw [if_neg hi]

theorem Built.start_closure (h : Built t D S eof lk red) (hcl : IsClosureFn cl lk) (hlk : LookFn lk)
    {s0 : State T} (hs0 : t.states[0]? = some s0) :
    ∃ n, ∀ m, n ≤ m → propClosure cl m t (OSet.ofList [t.basisPos]) = .ok s0 := by
  obtain ⟨n, v, hv⟩ := propClosure_returns hcl hlk t (OSet.sorted_ofList [t.basisPos])
  have hclo := propClosure_spec hcl (OSet.sorted_ofList [t.basisPos]) hv
  obtain ⟨s, e, hs⟩ := h.coll.start
  rw [hs0] at e; cases e
  have : v = s0 := OSet.ext hclo.sorted hs.sorted (fun q => by
    rw [hclo.mem, hs.mem]; exact Iff.rfl)
  subst this
  exact ⟨n, fun m hm => (propClosure_le hcl hm _ _).ok hv⟩

theorem Built.firstRow_again (h : Built t D S eof lk red) (hcl : IsClosureFn cl lk) (hlk : LookFn lk)
    {s0 : State T} (hs0 : t.states[0]? = some s0) :
    ∃ n, ∀ m, n ≤ m → procClosuresFirstRow cl m t = .ok (t.twiceFirst s0) := by
  obtain ⟨n, hn⟩ := h.start_closure hcl hlk hs0
  refine ⟨n, fun m hm => ?_⟩
  unfold procClosuresFirstRow
  rw [hn m hm]
  show Out.ok _ = _
  rw [OMap.insert_known h.coll.ksorted h.coll.zero]
  rfl

theorem Built.procClosures_again (h : Built t D S eof lk red) (hcl : IsClosureFn cl lk)
    (hlk : LookFn lk) (dbg : Bool) {s0 : State T} (hs0 : t.states[0]? = some s0) :
    ∃ n, ∀ m, n ≤ m → procClosures cl dbg m t = .ok (t.twiceFirst s0) := by
  obtain ⟨n, hn⟩ := h.firstRow_again hcl hlk hs0
  refine ⟨n + (t.twiceFirst s0).states.length + 1, fun m hm => ?_⟩
  unfold procClosures
  rw [hn m (by omega)]
  show procLoop cl dbg m m 0 (t.twiceFirst s0) = _
  refine procLoop_known (fun i s hs X hX => h.mem_twice hs0 hs hX) m 0 (by omega) (Nat.zero_le _)

/-- The rows are computed once more. -/
theorem procRows_again {d d' : Position T → State T → Out (OMap T (Action T))} {tc : Tabler T}
    (h : procRows d tc = .ok t) (ha : tc.actions = []) {s0 : State T} (hs0 : t.states[0]? = some s0)
    (hd : d' = d) : ∃ row0, t.actions[0]? = some row0 ∧
      procRows d' (t.twiceFirst s0) =
        .ok { t with states := t.states ++ [s0], actions := t.actions ++ t.actions ++ [row0] } := by
  subst hd
  unfold procRows at h
  obtain ⟨rows, h1, h2⟩ := Out.bind_eq_ok.mp h
  injection h2 with h2
  subst h2
  simp only [ha, List.nil_append] at hs0 ⊢
  obtain ⟨hl, hm⟩ := mapM_ok h1
  have hlen : 0 < rows.length := by rw [hl]; exact (List.getElem?_eq_some_iff.mp hs0).1
  have hr := List.getElem?_eq_getElem hlen
  refine ⟨rows[0], hr, ?_⟩
  obtain ⟨a, ha', hb⟩ := hm 0 _ hr
  rw [hs0] at ha'; cases ha'
  unfold procRows Tabler.twiceFirst
  simp only
  rw [mapM_snoc h1 hb]
  show Out.ok _ = _
  rw [List.append_assoc]

end

theorem Spec.Makes.slr_again {dbg : Bool} {D : Decls T} {S eof : T} {t : Tabler T}
    (h : Makes .slr dbg D S eof t) (dbg' : Bool) : ∃ s0 row0, t.states[0]? = some s0 ∧
      t.actions[0]? = some row0 ∧ Returns (fun n => Slr.withTable dbg' n t)
        { t with states := t.states ++ [s0], actions := t.actions ++ t.actions ++ [row0] } := by
  obtain ⟨g, hg, n, hb⟩ := h
  have hof := Grammar.of_new hg
  have hB := Slr.built hof hb
  obtain ⟨s0, hs0, _⟩ := hB.coll.start
  have hb : Slr.new dbg n g = .ok t := hb
  unfold Slr.new Slr.withTable at hb
  obtain ⟨t0, h1, h2⟩ := Out.bind_eq_ok.mp hb
  obtain ⟨_, _, _, _, _, _, _, e1, e2, e3⟩ := Tabler.new_ok h1
  obtain ⟨tc, h3, h4⟩ := Out.bind_eq_ok.mp h2
  have hk := procClosures_kept h3
  obtain ⟨m, hm⟩ := hB.procClosures_again Slr.isClosureFn (Or.inl rfl) dbg' hs0
  obtain ⟨row0, hr, hrows⟩ := procRows_again
    (d' := fun pos row => Slr.decision (t.twiceFirst s0) (t.twiceFirst s0).basisPos.rule pos row) h4
    (by rw [hk.actions, e1]) hs0 (by
      unfold procRows at h4
      obtain ⟨rows, _, h5⟩ := Out.bind_eq_ok.mp h4
      injection h5 with h5; subst h5; rfl)
  refine ⟨s0, row0, hs0, hr, m, ?_⟩
  show Slr.withTable dbg' m t = _
  unfold Slr.withTable
  rw [hm m (Nat.le_refl _)]
  exact hrows

theorem Spec.Makes.clr_again {dbg : Bool} {D : Decls T} {S eof : T} {t : Tabler T}
    (h : Makes .clr dbg D S eof t) (dbg' : Bool) : ∃ s0 row0, t.states[0]? = some s0 ∧
      t.actions[0]? = some row0 ∧ Returns (fun n => Clr.withTable dbg' n t)
        { t with states := t.states ++ [s0], actions := t.actions ++ t.actions ++ [row0] } := by
  obtain ⟨g, hg, n, hb⟩ := h
  have hof := Grammar.of_new hg
  have hB := Clr.built hof hb
  obtain ⟨s0, hs0, _⟩ := hB.coll.start
  have hb : Clr.new dbg n g = .ok t := hb
  unfold Clr.new Clr.withTable at hb
  obtain ⟨t0, h1, h2⟩ := Out.bind_eq_ok.mp hb
  obtain ⟨_, _, _, _, _, _, _, e1, e2, e3⟩ := Tabler.new_ok h1
  obtain ⟨tc, h3, h4⟩ := Out.bind_eq_ok.mp h2
  have hk := procClosures_kept h3
  obtain ⟨m, hm⟩ := hB.procClosures_again Clr.isClosureFn (Or.inr rfl) dbg' hs0
  obtain ⟨row0, hr, hrows⟩ := procRows_again
    (d' := fun pos row => Clr.decision (t.twiceFirst s0) (t.twiceFirst s0).basisPos.rule pos row) h4
    (by rw [hk.actions, e1]) hs0 (by
      unfold procRows at h4
      obtain ⟨rows, _, h5⟩ := Out.bind_eq_ok.mp h4
      injection h5 with h5; subst h5; rfl)
  refine ⟨s0, row0, hs0, hr, m, ?_⟩
  show Clr.withTable dbg' m t = _
  unfold Clr.withTable
  rw [hm m (Nat.le_refl _)]
  exact hrows

/-! ### Lalr on a Clr table -/

theorem Lalr.gen_known {dbg : Bool} {c u : Nat} {l : Lalr T}
    (h : ∀ (i : Nat) s, l.table.states[i]? = some s → ∀ X ∈ l.table.grammar.symbols,
      l.table.kernels.contains (Tabler.symFilter s X) = true) (m : Nat) :
    ∀ (idx : Nat) (s : State T), l.table.states[idx]? = some s → l.table.states.length ≤ m + idx →
      ∃ n, Lalr.gen dbg c u n idx s l.table.grammar.symbols l = .ok l := by
  induction m with
  | zero =>
    intro idx s hs hm
    have := (List.getElem?_eq_some_iff.mp hs).1
    omega
  | succ m ih =>
    intro idx s hs hm
    have key : ∀ ss : List T, (∀ X ∈ ss, X ∈ l.table.grammar.symbols) →
        ∃ n, Lalr.gen dbg c u n idx s ss l = .ok l := by
      intro ss
      induction ss with
      | nil =>
        intro _
        cases hn : l.table.states[idx + 1]? with
        | none => exact ⟨1, by unfold Lalr.gen; rw [hn]⟩
        | some s' =>
          obtain ⟨n, hn'⟩ := ih (idx + 1) s' hn (by omega)
          exact ⟨n + 1, by unfold Lalr.gen; rw [hn]; exact hn'⟩
      | cons X ss ihs =>
        intro hX
        obtain ⟨n, hn⟩ := ihs (fun Y hY => hX Y (by simp [hY]))
        refine ⟨n + 1, ?_⟩
        unfold Lalr.gen
        rw [goto_known (h idx s hs X (hX X (by simp)))]
        exact hn
    exact key _ (fun X hX => hX)

theorem Spec.Makes.lalr_on_clr {dbg : Bool} {D : Decls T} {S eof : T} {t : Tabler T}
    (h : Makes .clr dbg D S eof t) (dbg' : Bool) :
    Panics (fun n => Lalr.withTable dbg' n t) .incompleteKernels := by
  obtain ⟨g, hg, n, hb⟩ := h
  have hof := Grammar.of_new hg
  have hB := Clr.built hof hb
  obtain ⟨s0, hs0, hclo⟩ := hB.coll.start
  obtain ⟨m, hm⟩ := hB.start_closure Clr.isClosureFn (Or.inr rfl) hs0
  let l : Lalr T := { table := t.twiceFirst s0, raws := OMap.insert [] s0 [] }
  have hl0 : l.table.states[0]? = some s0 := by
    show (t.states ++ [s0])[0]? = _
    rw [List.getElem?_append_left (List.getElem?_eq_some_iff.mp hs0).1]; exact hs0
  have hfirst : ∀ k, m ≤ k → Lalr.firstRow k { table := t, raws := [] } = .ok l := by
    intro k hk
    unfold Lalr.firstRow
    simp only
    rw [hm k hk]
    show Out.ok _ = _
    rw [OMap.insert_known hB.coll.ksorted hB.coll.zero]
    rfl
  obtain ⟨j, hj⟩ := Lalr.gen_known (dbg := dbg') (c := m) (u := m) (l := l)
    (fun i s hs X hX => hB.mem_twice hs0 hs hX) l.table.states.length 0 s0 hl0 (by omega)
  -- the first item of the first row
  obtain ⟨p, ps, e⟩ : ∃ p ps, s0 = p :: ps := by
    cases s0 with
    | nil => exact absurd ((hclo.mem _).mpr (.base (List.mem_singleton.mpr rfl))) (by simp)
    | cons p ps => exact ⟨p, ps, rfl⟩
  have hp : p ∈ s0 := by rw [e]; simp
  obtain ⟨b0, hb0, _⟩ := hB.basis_eq
  have hpt : ∃ X, p.top = some X := by
    have h0 := (hB.auto hb0).zero hs0 hp
    have h1 := (hB.prod hs0 hp).1
    have h2 := hB.of.noEmpty _ _ _ h1
    cases hseq : p.seq.1 with
    | nil => exact absurd hseq h2
    | cons X xs => exact ⟨X, by show p.seq.1[p.point]? = _; rw [h0, hseq]; rfl⟩
  obtain ⟨X, hX⟩ := hpt
  have hrow : rowActions (fun pos row => Lalr.decision l l.table.basisPos.rule pos row) s0 =
      .panic .incompleteKernels := by
    unfold rowActions
    have hd : Lalr.decision l l.table.basisPos.rule p s0 = .panic .incompleteKernels := by
      unfold Lalr.decision
      rw [hX]
      unfold shiftDecision Lalr.stateFromKernel Lalr.finalKernel
      have : l.raws.get? (Lalr.withoutLook (Tabler.symFilter s0 X)) = none := by
        show (OMap.insert [] s0 []).get? _ = none
        rw [OMap.get?_insert, if_neg]
        · rfl
        · intro hn
          have : p.adv.noLook ∈ Lalr.withoutLook (Tabler.symFilter s0 X) := by
            unfold Lalr.withoutLook
            rw [OSet.mem_ofList]
            exact List.mem_map.mpr ⟨_, mem_symFilter.mpr ⟨p, hp, hX, rfl⟩, rfl⟩
          rw [hn] at this
          cases this
      simp [this, Out.ofOption]
    rw [e, List.foldlM_cons, ← e]
    simp only [hd]
    rfl
  refine ⟨m + j, ?_⟩
  show Lalr.withTable dbg' (m + j) t = _
  unfold Lalr.withTable Lalr.procClosures
  rw [hfirst _ (by omega)]
  show (do
    let l' ← (match l.table.states[0]? with
      | none => (pure l : Out (Lalr T))
      | some row => Lalr.gen dbg' (m + j) (m + j) (m + j) 0 row l.table.grammar.symbols l)
    _ : Out (Lalr T)) = _
  rw [hl0]
  simp only
  rw [(Lalr.gen_le (by omega) (by omega) (by omega) _ _ _ _).ok hj]
  show (do
    let table ← procRows (fun pos row => Lalr.decision l l.table.basisPos.rule pos row) l.table
    _ : Out (Lalr T)) = _
  have : procRows (fun pos row => Lalr.decision l l.table.basisPos.rule pos row) l.table =
      .panic .incompleteKernels := by
    unfold procRows
    have hst : l.table.states = s0 :: (l.table.states.drop 1) := by
      cases hh : l.table.states with
      | nil => rw [hh] at hl0; cases hl0
      | cons a as => rw [hh] at hl0; simp at hl0; rw [hl0]; rfl
    rw [hst, List.mapM_cons, hrow]
    rfl
  rw [this]
  rfl

/-! ### Another method: Slr and Clr return -/

theorem filter_decreases {α : Type} {p p' : α → Bool} (hp : ∀ a, p' a = true → p a = true) {K : α}
    (h1 : p K = true) (h2 : p' K = false) : ∀ {l : List α}, K ∈ l →
      (l.filter p').length + 1 ≤ (l.filter p).length := by
  have hle : ∀ l : List α, (l.filter p').length ≤ (l.filter p).length := by
    intro l
    induction l with
    | nil => simp
    | cons a l ih =>
      rw [List.filter_cons, List.filter_cons]
      cases h : p' a with
      | true => simp [hp a h]; exact ih
      | false =>
        cases p a with
        | true => simp; omega
        | false => simpa using ih
  intro l
  induction l with
  | nil => intro h; cases h
  | cons a l ih =>
    intro h
    rw [List.filter_cons, List.filter_cons]
    rcases List.mem_cons.mp h with rfl | h
    · simp [h1, h2]; exact hle l
    · have := ih h
      cases h' : p' a with
      | true => simp [hp a h']; exact this
      | false =>
        cases p a with
        | true => simp; omega
        | false => simpa using this

/-- The kernels made of positions of `U` that are not there. -/
def missing (U : List (Position T)) (t : Tabler T) : Nat :=
  ((subs (OSet.ofList U)).filter (fun K => !t.kernels.contains K)).length

section
variable {cl : ClosureFn T} {lk : Table T → Position T → OSet T} (hcl : IsClosureFn cl lk)

/-- What holds of all positions of the states. -/
def AllIn (W : Position T → Prop) (t : Tabler T) : Prop :=
  ∀ (i : Nat) s, t.states[i]? = some s → ∀ p ∈ s, W p

/-- `Q` is kept by closure steps and by advancing. -/
structure QClosed (rules : RuleMap T) (lk : Position T → OSet T) (Q : Position T → Prop) : Prop where
  adds : ∀ p q, Q p → Adds rules lk p q → Q q
  adv : ∀ p X, Q p → p.top = some X → Q p.adv

variable {U : List (Position T)} {Q : Position T → Prop}

/-- What is kept while states are added. -/
structure Filling (lk : Table T → Position T → OSet T) (U : List (Position T)) (Q : Position T → Prop)
    (t : Tabler T) : Prop where
  uc : UClosed t.grammar.rules (lk t.first) U
  qc : QClosed t.grammar.rules (lk t.first) Q
  inU : AllIn (· ∈ U) t
  inQ : AllIn Q t
  nil : t.kernels.contains [] = true

include hcl in
theorem procSym_filling {t : Tabler T} {dbg : Bool} {c idx : Nat} {X : T} (h : Filling lk U Q t)
    (hc : U.length < c) (hi : idx < t.states.length) :
    ∃ t', procSym cl dbg c idx t X = .ok t' ∧ Filling lk U Q t' ∧ Done t' idx X ∧
      t'.states.length + missing U t' ≤ t.states.length + missing U t := by
  obtain ⟨s, hs⟩ : ∃ s, t.states[idx]? = some s := ⟨_, List.getElem?_eq_getElem hi⟩
  unfold procSym goto
  simp only [hs, Option.getD_some]
  cases hk : t.kernels.contains (Tabler.symFilter s X) with
  | true =>
    obtain ⟨j, hj⟩ := OMap.contains_iff.mp hk
    refine ⟨t, by simp, h, ?_, Nat.le_refl _⟩
    intro s' hs'
    rw [hs] at hs'; injection hs' with hs'; subst hs'
    exact ⟨j, hj⟩
  | false =>
    have hKU : ∀ p ∈ Tabler.symFilter s X, p ∈ U := by
      intro q hq
      obtain ⟨p, hp, ht, rfl⟩ := mem_symFilter.mp hq
      exact h.uc.adv p (h.inU idx s hs p hp) X ht
    have hKQ : ∀ p ∈ Tabler.symFilter s X, Q p := by
      intro q hq
      obtain ⟨p, hp, ht, rfl⟩ := mem_symFilter.mp hq
      exact h.qc.adv p X (h.inQ idx s hs p hp) ht
    have hKs : OSet.Sorted (Tabler.symFilter s X) := sorted_symFilter s X
    have hKe : Tabler.symFilter s X ≠ [] := by
      intro e; rw [e, h.nil] at hk; cases hk
    generalize hK : Tabler.symFilter s X = K at *
    obtain ⟨v, hv⟩ := propClosure_total hcl (t := t) hKs hKU h.uc.adds hc
    have hclo := propClosure_spec hcl hKs hv
    have hve : v ≠ [] := by
      cases K with
      | nil => exact absurd rfl hKe
      | cons p ps =>
        have : p ∈ v := (hclo.mem p).mpr (.base (by simp))
        rintro rfl
        simp at this
    have last : ∀ {P : Position T → Prop}, AllIn P t → (∀ p ∈ v, P p) →
        AllIn P { t with kernels := OMap.insert K t.states.length t.kernels, states := t.states ++ [v] } := by
      intro P h1 h2 i s' e p hp
      by_cases hi' : i < t.states.length
      · simp only [List.getElem?_append_left hi'] at e
        exact h1 i s' e p hp
      · have : s' = v := by
          have hle : t.states.length ≤ i := by omega
          simp only [List.getElem?_append_right hle] at e
          cases hh : i - t.states.length with
          | zero => rw [hh] at e; simpa using e.symm
          | succ m => rw [hh] at e; simp at e
        subst this
        exact h2 p hp
    refine ⟨{ t with kernels := OMap.insert K t.states.length t.kernels,
                     states := t.states ++ [v] }, ?_, ⟨h.uc, h.qc, ?_, ?_, ?_⟩, ?_, ?_⟩
    · simp [hv, hve, hk, Out.assert]
    · exact last h.inU (fun p hp => Clo.within h.uc hKU ((hclo.mem p).mp hp))
    · exact last h.inQ (fun p hp => ((hclo.mem p).mp hp).closed_sub hKQ h.qc.adds)
    · rw [OMap.contains_iff]
      simp only [OMap.get?_insert_ne _ _ hKe.symm]
      exact OMap.contains_iff.mp h.nil
    · intro s' hs'
      simp only [List.getElem?_append_left hi] at hs'
      rw [hs] at hs'; injection hs' with hs'; subst hs'
      exact ⟨t.states.length, by simp [hK]⟩
    · have hmem : K ∈ subs (OSet.ofList U) :=
        sorted_mem_subs hKs hKU
      have hdec := filter_decreases (p := fun K' => !t.kernels.contains K')
        (p' := fun K' => !(OMap.insert K t.states.length t.kernels).contains K')
        (by
          intro K' hK'
          cases hc' : t.kernels.contains K' with
          | false => rfl
          | true =>
            obtain ⟨j, hj⟩ := OMap.contains_iff.mp hc'
            have : (OMap.insert K t.states.length t.kernels).contains K' = true := by
              rw [OMap.contains_iff, OMap.get?_insert]
              split
              · exact ⟨_, rfl⟩
              · exact ⟨j, hj⟩
            simp [this] at hK')
        (K := K) (by simp [hk]) (by
          have : (OMap.insert K t.states.length t.kernels).contains K = true := by
            rw [OMap.contains_iff, OMap.get?_insert, if_pos rfl]
            exact ⟨_, rfl⟩
          simp [this]) hmem
      unfold missing
      simp only [List.length_append, List.length_cons, List.length_nil]
      omega

include hcl in
theorem procSyms_filling {dbg : Bool} {c idx : Nat} (hc : U.length < c) (ss : List T) :
    ∀ {t : Tabler T}, Filling lk U Q t → idx < t.states.length →
    ∃ t', ss.foldlM (procSym cl dbg c idx) t = .ok t' ∧ Filling lk U Q t' ∧ (∀ X ∈ ss, Done t' idx X) ∧
      t'.states.length + missing U t' ≤ t.states.length + missing U t := by
  induction ss with
  | nil => intro t h _; exact ⟨t, rfl, h, by simp, Nat.le_refl _⟩
  | cons X ss ih =>
    intro t h hi
    obtain ⟨t1, h1, h2, h3, h4⟩ := procSym_filling hcl (dbg := dbg) (X := X) h hc hi
    have e1 := procSym_ext h1
    have hi1 : idx < t1.states.length := Nat.lt_of_lt_of_le hi e1.len
    obtain ⟨t2, k1, k2, k3, k4⟩ := ih h2 hi1
    refine ⟨t2, by rw [List.foldlM_cons, h1]; exact k1, k2, ?_, Nat.le_trans k4 h4⟩
    intro Y hY
    rcases List.mem_cons.mp hY with rfl | hY
    · exact h3.ext (procSyms_ext _ k1) hi1
    · exact k3 Y hY

include hcl in
theorem procLoop_filling {dbg : Bool} {c : Nat} (hc : U.length < c) (m : Nat) :
    ∀ (idx : Nat) {t : Tabler T}, Filling lk U Q t →
      (∀ j, j < idx → ∀ X ∈ t.grammar.symbols, Done t j X) → idx ≤ t.states.length →
      t.states.length + missing U t < m + idx →
    ∃ t', procLoop cl dbg c m idx t = .ok t' ∧ Filling lk U Q t' ∧
      ∀ j, j < t'.states.length → ∀ X ∈ t.grammar.symbols, Done t' j X := by
  induction m with
  | zero => intro idx t _ _ h1 h2; omega
  | succ m ih =>
    intro idx t h hd hle hm
    unfold procLoop
    by_cases hi : idx < t.states.length
    · rw [if_pos hi]
      obtain ⟨t1, h1, h2, h3, h4⟩ := procSyms_filling hcl (dbg := dbg) hc t.grammar.symbols h hi
      have e1 := procSyms_ext _ h1
      have hl := e1.len
      obtain ⟨t2, k1, k2, k3⟩ := ih (idx + 1) h2 (by
          rw [e1.grammar]
          intro j hj X hX
          by_cases e : j = idx
          · subst e; exact h3 X hX
          · exact (hd j (by omega) X hX).ext e1 (by omega)) (by omega) (by omega)
      refine ⟨t2, by rw [h1]; exact k1, k2, ?_⟩
      rw [e1.grammar] at k3; exact k3
    · rw [if_neg hi]
      exact ⟨t, rfl, h, fun j hj => hd j (by omega)⟩

end

/-- What is known of the positions of the states of a table. -/
structure Usable (D : Decls T) (S : T) (p : Position T) : Prop where
  prod : IsProd D p.rule p.seq.2 p.seq.1
  le : p.point ≤ p.seq.1.length
  key : Tabler.FollowKey D S p.rule

section
variable {t : Tabler T} {D : Decls T} {S eof : T} {lk : Table T → Position T → OSet T}

theorem usable_closed (hof : t.Of D S eof) : QClosed t.grammar.rules (lk t.first) (Usable D S) := by
  refine ⟨?_, ?_⟩
  · intro p q hp ha
    obtain ⟨h1, h2, h3, _⟩ := adds_prod hof.grammar ha
    refine ⟨h2, by omega, ?_⟩
    have hN := h2.nonterminal
    cases hn : p.next with
    | none =>
      by_cases hqp : q.rule = p.rule
      · rw [hqp]; exact hp.key
      · exact Or.inr ⟨p.rule, p.seq.2, p.seq.1, hp.prod, Or.inr ⟨last_of_next h1 hn, hN, hqp⟩⟩
    | some Z =>
      exact Or.inr ⟨p.rule, p.seq.2, p.seq.1, hp.prod, Or.inl ⟨Z, adj_of_next h1 hn, hN⟩⟩
  · intro p X hp ht
    exact ⟨hp.prod, top_lt ht, hp.key⟩

theorem usable_basis (hof : t.Of D S eof) : Usable D S t.basisPos := by
  obtain ⟨b, hb, he⟩ := hof.grammar.basis
  have he' : t.basisPos = _ := he
  rw [he']
  exact ⟨hb, Nat.zero_le _, Or.inl rfl⟩

/-- The lookaheads of the states. -/
def stateLooks (t : Tabler T) : List (OSet T) := t.states.flatMap (fun s => s.map Position.look)

/-- All positions with lookaheads that can come up. -/
def refillPositions (t : Tabler T) : List (Position T) :=
  univ t.grammar.rules (looks t.first t.grammar.rules (t.basisPos.look :: stateLooks t))

theorem refill_closed (hlk : LookFn lk) (t : Tabler T) :
    UClosed t.grammar.rules (lk t.first) (refillPositions t) := by
  refine ⟨fun p hp q ha => adds_univ hlk hp ha, ?_⟩
  intro p hp X ht
  obtain ⟨r, h1, h2, h3, h4⟩ := mem_univ.mp hp
  exact mem_univ.mpr ⟨r, h1, h2, top_lt ht, h4⟩

theorem usable_mem (hof : t.Of D S eof) {p : Position T} (hp : Usable D S p)
    (hl : p.look = t.basisPos.look ∨ p.look ∈ stateLooks t) : p ∈ refillPositions t := by
  obtain ⟨r, h1, h2⟩ := hof.grammar.of_isProd hp.prod
  refine mem_univ.mpr ⟨r, OMap.mem_of_get? h1, h2, hp.le, ?_⟩
  refine List.mem_cons_of_mem _ (List.mem_append_left _ ?_)
  rcases hl with h | h
  · rw [h]; exact List.mem_cons_self
  · exact List.mem_cons_of_mem _ h

/-- `proc_closures` on a table that has states already returns. -/
theorem procClosures_filling {cl : ClosureFn T} (hcl : IsClosureFn cl lk) (hlk : LookFn lk) (dbg : Bool)
    (hof : t.Of D S eof) (hst : AllIn (Usable D S) t) :
    ∃ n t', procClosures cl dbg n t = .ok t' ∧ t'.Of D S eof ∧ AllIn (Usable D S) t' ∧
      ∀ j, j < t'.states.length → ∀ X ∈ t'.grammar.symbols, Done t' j X := by
  obtain ⟨n, v, hv⟩ := propClosure_returns hcl hlk t (OSet.sorted_ofList [t.basisPos])
  have hclo := propClosure_spec hcl (OSet.sorted_ofList [t.basisPos]) hv
  let t1 : Tabler T := { t with kernels := OMap.insert [] 0 t.kernels, states := t.states ++ [v] }
  have last : ∀ {P : Position T → Prop}, AllIn P t → (∀ p ∈ v, P p) → AllIn P t1 := by
    intro P h1 h2 i s' e p hp
    have e : (t.states ++ [v])[i]? = some s' := e
    by_cases hi' : i < t.states.length
    · rw [List.getElem?_append_left hi'] at e
      exact h1 i s' e p hp
    · have : s' = v := by
        have hle : t.states.length ≤ i := by omega
        rw [List.getElem?_append_right hle] at e
        cases hh : i - t.states.length with
        | zero => rw [hh] at e; simpa using e.symm
        | succ m => rw [hh] at e; simp at e
      subst this
      exact h2 p hp
  have hseed : ∀ {p}, p ∈ OSet.ofList [t.basisPos] → p = t.basisPos := by
    intro p hp
    exact List.mem_singleton.mp (OSet.mem_ofList.mp hp)
  have hfill : Filling lk (refillPositions t) (Usable D S) t1 := by
    refine ⟨refill_closed hlk t, usable_closed (t := t) hof, ?_, ?_, ?_⟩
    · refine last (fun i s hs p hp => usable_mem hof (hst i s hs p hp) (Or.inr ?_)) ?_
      · exact List.mem_flatMap.mpr ⟨s, List.mem_of_getElem? hs, List.mem_map.mpr ⟨p, hp, rfl⟩⟩
      · intro p hp
        refine Clo.within (refill_closed hlk t) (fun q hq => ?_) ((hclo.mem p).mp hp)
        rw [hseed hq]
        exact usable_mem hof (usable_basis hof) (Or.inl rfl)
    · refine last hst (fun p hp => ((hclo.mem p).mp hp).closed_sub (fun q hq => ?_) (usable_closed hof).adds)
      rw [hseed hq]; exact usable_basis hof
    · show (OMap.insert [] 0 t.kernels).contains [] = true
      rw [OMap.contains_iff, OMap.get?_insert, if_pos rfl]
      exact ⟨_, rfl⟩
  let m := n + (refillPositions t).length + 1 + (t1.states.length + missing (refillPositions t) t1)
  obtain ⟨t2, k1, k2, k3⟩ := procLoop_filling hcl (dbg := dbg) (U := refillPositions t) (c := m)
    (by omega) m 0 hfill (fun j hj => absurd hj (Nat.not_lt_zero _)) (Nat.zero_le _) (by omega)
  have e := procLoop_ext m k1
  have hof2 : t2.Of D S eof := of_ext hof e.grammar e.first e.follow
  refine ⟨m, t2, ?_, hof2, k2.inQ, ?_⟩
  · unfold procClosures procClosuresFirstRow
    rw [(propClosure_le hcl (by omega) _ _).ok hv]
    exact k1
  · rw [e.grammar]; exact k3

/-- The rows can be computed. -/
theorem procRows_filling {red : Position T → T → Prop}
    {decision : Position T → State T → Out (OMap T (Action T))} {defined : Position T → Prop}
    (hof : t.Of D S eof) (hst : AllIn (Usable D S) t)
    (hd : ∀ j, j < t.states.length → ∀ X ∈ t.grammar.symbols, Done t j X)
    (hdec : IsDecision decision t.grammar S (fun K => t.kernels.get? K) red defined)
    (hdef : ∀ (i : Nat) s p, t.states[i]? = some s → p ∈ s → p.top = none → defined p) :
    ∃ t', procRows decision t = .ok t' := by
  obtain ⟨rows, hrows⟩ := mapM_total (f := rowActions decision) (l := t.states) (by
    intro s hs
    obtain ⟨i, hi, hi'⟩ := List.getElem_of_mem hs
    have hs' : t.states[i]? = some s := List.getElem?_eq_some_iff.mpr ⟨hi, hi'⟩
    refine hdec.row_total ?_ (fun p hp ht => hdef i s p hs' hp ht)
    intro p hp x ht
    exact hd i hi x (hof.grammar.mem_symbols (hst i s hs' p hp).prod (top_mem ht)) s hs')
  exact ⟨_, by unfold procRows; rw [hrows]; rfl⟩

theorem Slr.refill (dbg : Bool) (hof : t.Of D S eof) (hst : AllIn (Usable D S) t) :
    ∃ t', Returns (fun n => Slr.withTable dbg n t) t' := by
  obtain ⟨n, t1, h1, h2, h3, h4⟩ := procClosures_filling Slr.isClosureFn (Or.inl rfl) dbg hof hst
  have hdec := Slr.isDecision t1 t1.basisPos.rule
  rw [basis_rule h2] at hdec
  obtain ⟨t2, h5⟩ := procRows_filling h2 h3 h4 hdec (fun i s p hs hp _ =>
    (h2.followKey _).mpr (h3 i s hs p hp).key)
  refine ⟨t2, n, ?_⟩
  show Slr.withTable dbg n t = _
  unfold Slr.withTable
  rw [h1]
  show procRows (fun pos row => Slr.decision t1 t1.basisPos.rule pos row) t1 = _
  rw [basis_rule h2]; exact h5

theorem Clr.refill (dbg : Bool) (hof : t.Of D S eof) (hst : AllIn (Usable D S) t) :
    ∃ t', Returns (fun n => Clr.withTable dbg n t) t' := by
  obtain ⟨n, t1, h1, h2, h3, h4⟩ := procClosures_filling Clr.isClosureFn (Or.inr rfl) dbg hof hst
  have hdec := Clr.isDecision t1 t1.basisPos.rule
  rw [basis_rule h2] at hdec
  obtain ⟨t2, h5⟩ := procRows_filling h2 h3 h4 hdec (fun i s p hs hp _ => trivial)
  refine ⟨t2, n, ?_⟩
  show Clr.withTable dbg n t = _
  unfold Clr.withTable
  rw [h1]
  show procRows (fun pos row => Clr.decision t1 t1.basisPos.rule pos row) t1 = _
  rw [basis_rule h2]; exact h5

theorem Built.usable {red : Position T → T → Prop} (h : Built t D S eof lk red) :
    AllIn (Usable D S) t := by
  intro i s hs p hp
  exact h.coll.all (P := Usable D S) (usable_basis h.of) (fun p q hP ha => (usable_closed h.of).adds p q hP ha)
    (fun p X hP ht => (usable_closed (lk := lk) h.of).adv p X hP ht) i s hs p hp

theorem Lalr.usable {dbg : Bool} {n : Nat} {g : Grammar T} (hg : g.Of D S eof) {l : Lalr T}
    (h : Lalr.new dbg n g = .ok l) : l.table.Of D S eof ∧ AllIn (Usable D S) l.table := by
  obtain ⟨t0, hb⟩ := Lalr.built_good hg h
    (G := fun t0 p => GoodPos D (fun _ x => x ∈ lookSyms t0) p ∧ Usable D S p) (by
      intro t0 hof
      have hG := goodPred hof (lookRel_any hof)
      have hQ := usable_closed (lk := clrLook) hof
      refine ⟨⟨fun hp => hG.mem hp.1, hG.vadds, fun hp ha => ⟨hG.adds hp.1 ha, hQ.adds _ _ hp.2 ha⟩,
        fun hp ht => ⟨hG.adv hp.1 ht, hQ.adv _ _ hp.2 ht⟩, fun hp => hG.set hp.1, ?_⟩,
        ⟨goodPos_basis hof ?_, usable_basis hof⟩, fun hp => ⟨hp.2.prod, hp.2.le⟩⟩
      · intro s m hm hs q hq
        refine ⟨hG.merge hm (fun p hp => (hs p hp).1) q hq, ?_⟩
        obtain ⟨p, hp, hb⟩ := hm.body q hq
        have hu := (hs p hp).2
        refine ⟨?_, ?_, ?_⟩
        · rw [← hb.1, ← hb.2.1]; exact hu.prod
        · rw [← hb.2.1, ← hb.2.2]; exact hu.le
        · rw [← hb.1]; exact hu.key
      · obtain ⟨b, _, he⟩ := hof.grammar.basis
        have he' : t0.basisPos = _ := he
        refine List.mem_append_left _ ?_
        rw [he']; simp)
  refine ⟨of_ext hb.of hb.grammar hb.first hb.follow, ?_⟩
  obtain ⟨l0, h1, _, h2, _⟩ := hb.coll
  intro i s hs p hp
  rw [← h2] at hs
  exact (h1.inv.good i s hs p hp).2

end

theorem Spec.Makes.usable {k : Method} {dbg : Bool} {D : Decls T} {S eof : T} {t : Tabler T}
    (h : Makes k dbg D S eof t) : t.Of D S eof ∧ AllIn (Usable D S) t := by
  obtain ⟨g, hg, n, hb⟩ := h
  have hof := Grammar.of_new hg
  cases k with
  | slr => exact ⟨(Slr.built hof hb).of, (Slr.built hof hb).usable⟩
  | clr => exact ⟨(Clr.built hof hb).of, (Clr.built hof hb).usable⟩
  | lalr =>
    obtain ⟨l, hl, e⟩ := Out.bind_eq_ok.mp hb
    cases e
    exact Lalr.usable hof hl

end Lrp
