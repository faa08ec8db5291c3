import Verif.Spec.Trace
import Verif.Proofs.Views
import Verif.Proofs.Linear

/-! The table printed by `print_proc_dfa`. -/

set_option linter.unusedSectionVars false

namespace Lrp
open Spec Main

section
variable {M T : Type} [LinOrd T] [DecidableEq T] {D : Decls T} {S eof : T} {b0 : List T} {t : Tabler T}
  {next : State T → T → Option Nat} {red : Position T → T → Prop} {maps : ReductMap M T}
  {fs : Nat → String} {ft : T → String}

/-- The rows that a run adds to the rows so far. -/
inductive Logs (t : Tabler T) (eof : T) (maps : ReductMap M T) (fs : Nat → String) (ft : T → String) :
    List (TraceRow T) → Conf M T → List (TraceRow T) → Except (Error T) Unit → Prop
  | accept {rows : List (TraceRow T)} {c : Conf M T} {d : Dfa M T} : Sim t.actions eof maps d c →
      Accepts t.actions eof c → Logs t eof maps fs ft rows c (rows ++ [traceRow fs ft rows d]) (.ok ())
  | fail {rows : List (TraceRow T)} {c : Conf M T} {d : Dfa M T} {e : Error T} : Sim t.actions eof maps d c →
      Fails t.actions eof c e →
      Logs t eof maps fs ft rows c (rows ++ [traceRow fs ft rows d]) (.error e)
  | move {rows rows' : List (TraceRow T)} {c c' : Conf M T} {d : Dfa M T} {r : Except (Error T) Unit} :
      Sim t.actions eof maps d c → Move t.actions eof c c' →
      Logs t eof maps fs ft (rows ++ [traceRow fs ft rows d]) c' rows' r →
      Logs t eof maps fs ft rows c rows' r

theorem Auto.logs (h : Auto D S b0 t.states t.actions next red) (he : Terminal D eof) (tf : Nat) :
    ∀ (n : Nat) {d d' : Dfa M T} {c : Conf M T} {rows rows' : List (TraceRow T)}
      {r : Except (Error T) Unit}, InvC D t.states next c → Sim t.actions eof maps d c →
      (∀ t ∈ c.buf, Terminal D t.ty) →
      Dfa.traceWith (fun rows d => (rows ++ [traceRow fs ft rows d], d)) tf n rows d = .ok (rows', d', r) →
      Logs t eof maps fs ft rows c rows' r := by
  intro n
  induction n with
  | zero => intro d d' c rows rows' r _ _ _ h; cases h
  | succ n ih =>
    intro d d' c rows rows' r hi hd hb hrun
    unfold Dfa.traceWith at hrun
    rw [hd.finished] at hrun
    simp only [Bool.false_eq_true, if_false] at hrun
    rcases Dfa.travel_le (Nat.le_add_right tf 2) d d.symbol with hf | hf
    · rw [hf] at hrun; cases hrun
    · rw [hf] at hrun
      rcases h.travel_cases hi hd (terminal_lookSym he hb) (n := tf + 2) (by omega) with
        ⟨c', d2, m, hs, e⟩ | ⟨ha, e⟩ | ⟨d2, er, hfl, e⟩ | ⟨p, hp, e⟩
      · rw [e] at hrun
        simp only [Out.ok_bind] at hrun
        exact .move hd m (ih (h.inv_move hi m) hs (fun t ht => hb t (m.buf_suffix t ht)) hrun)
      · rw [e] at hrun
        simp only [Out.ok_bind] at hrun
        cases n with
        | zero => cases hrun
        | succ n =>
          unfold Dfa.traceWith at hrun
          simp only [if_true] at hrun
          cases hrun
          exact .accept hd ha
      · rw [e] at hrun
        simp only [Out.ok_bind] at hrun
        cases hrun
        exact .fail hd hfl
      · rw [e] at hrun; cases hrun

/-- The symbols of a configuration: the stack, and what is left of the input. -/
def Conf.form (c : Conf M T) : List T := (c.trees.map Tree.root).reverse ++ c.buf.map Token.ty

theorem reductions_snoc (rows : List (TraceRow T)) (row : TraceRow T) :
    reductions (rows ++ [row]) = reductions rows ++ (reduction row).toList := by
  unfold reductions
  rw [List.filterMap_append]
  cases hr : reduction row <;> simp [List.filterMap, hr]

theorem traceRow_action {c : Conf M T} {d : Dfa M T} (hd : Sim t.actions eof maps d c)
    (rows : List (TraceRow T)) :
    (traceRow fs ft rows d).action = cellAt t.actions d.top (lookSym eof c.buf) := by
  unfold traceRow cellAt
  simp only [hd.table, hd.symbol]

/-- A move continues the derivation. -/
theorem Auto.move_form (h : Auto D S b0 t.states t.actions next red) {c c' : Conf M T} {d : Dfa M T}
    (hi : InvC D t.states next c) (hd : Sim t.actions eof maps d c) (hb : ∀ t ∈ c.buf, Terminal D t.ty)
    (m : Move t.actions eof c c') {rows : List (TraceRow T)} {input : List T}
    (hr : Rightmost D c.form (reductions rows).reverse input) :
    Rightmost D c'.form (reductions (rows ++ [traceRow fs ft rows d])).reverse input ∧
      Proceeds (traceRow fs ft rows d) ∧
      c'.buf.length + (rows ++ [traceRow fs ft rows d]).length =
        c.buf.length + rows.length + (reduction (traceRow fs ft rows d)).toList.length := by
  have hact := traceRow_action (fs := fs) (ft := ft) hd rows
  have htop := hd.top
  cases m with
  | @shift i j st trs tok rest hc =>
    simp only [List.head?_cons, Option.some.injEq] at htop
    subst htop
    simp only [lookSym] at hact
    rw [hc] at hact
    have hred : reduction (traceRow fs ft rows d) = none := by unfold reduction; rw [hact]
    refine ⟨?_, .inl ⟨j, hact⟩, ?_⟩
    · rw [reductions_snoc, hred]
      simpa [Conf.form, Tree.root] using hr
    · rw [hred]; simp; omega
  | @reduce i i' j k st trs buf A b hc h1 h2 h3 =>
    obtain ⟨r1, r2, r3, r4, _⟩ := h.reduce_stack hi hc
    simp only [List.head?_cons, Option.some.injEq] at htop
    subst htop
    rw [hc] at hact
    have hred : reduction (traceRow fs ft rows d) = some (A, k) := by unfold reduction; rw [hact]
    refine ⟨?_, .inr ⟨A, _, hact⟩, ?_⟩
    · rw [reductions_snoc, hred]
      simp only [Option.toList_some, List.reverse_append, List.reverse_singleton, List.singleton_append]
      have e : Conf.form (⟨j :: (d.top :: st).drop b.length,
          .node A k (trs.take b.length).reverse :: trs.drop b.length, buf⟩ : Conf M T) =
          ((trs.drop b.length).map Tree.root).reverse ++ A :: buf.map Token.ty := by
        simp [Conf.form, Tree.root]
      rw [e]
      refine .head _ _ r1 ?_ ?_
      · intro x hx
        obtain ⟨tok, htok, rfl⟩ := List.mem_map.mp hx
        exact hb tok htok
      · have e2 : Conf.form (⟨d.top :: st, trs, buf⟩ : Conf M T) =
            ((trs.drop b.length).map Tree.root).reverse ++ b ++ buf.map Token.ty := by
          unfold Conf.form
          simp only
          conv => lhs; rw [← List.take_append_drop b.length trs]
          rw [List.map_append, List.reverse_append]
          rw [List.map_reverse] at r4
          rw [r4]
        rw [← e2]
        exact hr
    · rw [hred]; simp; omega

/-- What a row shows. -/
theorem Auto.row_shows (h : Auto D S b0 t.states t.actions next red) {c : Conf M T} {d : Dfa M T}
    (hi : InvC D t.states next c) (hd : Sim t.actions eof maps d c) {rows : List (TraceRow T)}
    {input : List T} (hr : Rightmost D c.form (reductions rows).reverse input)
    (hs : c.buf.map Token.ty <:+ input) :
    ∃ path, RowShows D eof t fs ft input rows (traceRow fs ft rows d) path (c.buf.map Token.ty) := by
  obtain ⟨rest, h1, h2, h3⟩ := h.chain hi.path
  have h5 : d.items.reverse.map Token.ty = rest.map Prod.fst := by
    rw [List.map_reverse, item_types hd.items, h3]
  have h6 : d.states.reverse = 0 :: rest.map Prod.snd := by rw [hd.states, h2]
  refine ⟨rest, rfl, h1, ?_, ?_, hs, ?_, ?_, rfl |>.trans ?_, ?_⟩
  · show d.stackFmt fs ft = _
    unfold Dfa.stackFmt
    rw [h6, stackPieces_eq fs ft 0 rest _ h5]
  · show d.buffer.map Token.ty ++ [d.eof] = _
    rw [hd.buffer, hd.eof]
  · show _ = some d.top
    rw [← h6, List.getLast?_reverse, hd.states, hd.top]
  · show (d.buffer.map Token.ty ++ [d.eof]).head? = some d.symbol
    unfold Dfa.symbol
    cases d.buffer <;> simp
  · show _ = (t.actions[d.top]?).bind (fun r => r.get? d.symbol)
    rw [← hd.table]
    rfl
  · rw [← h3]
    exact hr

/-- All rows and the end of a run. -/
theorem Auto.logs_show (h : Auto D S b0 t.states t.actions next red) {rows rows' : List (TraceRow T)}
    {c : Conf M T} {r : Except (Error T) Unit} (hl : Logs t eof maps fs ft rows c rows' r) :
    ∀ {input : List T}, InvC D t.states next c → (∀ t ∈ c.buf, Terminal D t.ty) →
      Rightmost D c.form (reductions rows).reverse input → c.buf.map Token.ty <:+ input →
      (∀ row ∈ rows, Proceeds row) → input.length + (reductions rows).length = c.buf.length + rows.length →
      (∀ before row after, rows = before ++ row :: after → ∃ path left,
        RowShows D eof t fs ft input before row path left) →
      (∀ before row after, rows' = before ++ row :: after → ∃ path left,
        RowShows D eof t fs ft input before row path left) ∧
      ∃ before row left, rows' = before ++ [row] ∧ (∀ row ∈ before, Proceeds row) ∧
        (∃ path, RowShows D eof t fs ft input before row path left) ∧ EndsWith t row left r ∧
        input.length + (reductions before).length = left.length + before.length ∧
        (r = .ok () → ∃ c' : Conf M T, InvC D t.states next c' ∧ Accepts t.actions eof c' ∧
          Rightmost D c'.form (reductions before).reverse input) := by
  have snoc : ∀ {rows : List (TraceRow T)} {row : TraceRow T} {P : List (TraceRow T) → TraceRow T → Prop},
      (∀ before r after, rows = before ++ r :: after → P before r) → P rows row →
      ∀ before r after, rows ++ [row] = before ++ r :: after → P before r := by
    intro rows row P h1 h2 before r after e
    rcases List.eq_nil_or_concat after with rfl | ⟨after', x, rfl⟩
    · obtain ⟨e1, e2⟩ := List.append_inj' e rfl
      cases e2; subst e1; exact h2
    · have : rows ++ [row] = (before ++ r :: after') ++ [x] := by rw [e]; simp
      obtain ⟨e1, _⟩ := List.append_inj' this rfl
      exact h1 _ _ _ e1
  induction hl with
  | @accept rows c d hd ha =>
    intro input hi hb hr hsuf hp hcount hsh
    obtain ⟨path, hrow⟩ := h.row_shows (fs := fs) (ft := ft) hi hd hr hsuf
    refine ⟨snoc hsh ⟨path, _, hrow⟩, rows, _, _, rfl, hp, ⟨path, hrow⟩, ?_, by simpa using hcount,
      fun _ => ⟨c, hi, ha, hr⟩⟩
    obtain ⟨i, st, e1, e2, e3⟩ := ha
    have htop := hd.top
    rw [e1] at htop
    simp only [List.head?_cons, Option.some.injEq] at htop
    refine ⟨?_, by rw [e3]; rfl⟩
    rw [traceRow_action hd, e3, ← htop]
    exact e2
  | @fail rows c d e hd hf =>
    intro input hi hb hr hsuf hp hcount hsh
    obtain ⟨path, hrow⟩ := h.row_shows (fs := fs) (ft := ft) hi hd hr hsuf
    refine ⟨snoc hsh ⟨path, _, hrow⟩, rows, _, _, rfl, hp, ⟨path, hrow⟩, ?_, by simpa using hcount,
      fun hr => by cases hr⟩
    have hact := traceRow_action (fs := fs) (ft := ft) hd rows
    have htop := hd.top
    have hsym : (traceRow fs ft rows d).symbol = lookSym eof c.buf := hd.symbol
    cases hf with
    | noAction h1 h2 =>
      simp only [List.head?_cons, Option.some.injEq] at htop
      subst htop
      refine ⟨?_, hsym.symm, _, h1, rfl⟩
      rw [hact, cellAt_none h1]
      exact h2
    | eof h1 =>
      simp only [List.head?_cons, Option.some.injEq] at htop
      subst htop
      exact ⟨⟨_, hact.trans h1⟩, rfl⟩
    | conflict h1 =>
      simp only [List.head?_cons, Option.some.injEq] at htop
      subst htop
      exact .inl (hact.trans h1)
    | incomplete h1 h2 =>
      simp only [List.head?_cons, Option.some.injEq] at htop
      subst htop
      exact ⟨hact.trans h1, by simpa using h2⟩
    | @conflict' i i' k st trs buf A b a c' h1 h2 h3 h4 =>
      simp only [List.head?_cons, Option.some.injEq] at htop
      subst htop
      refine .inr ⟨_, _, hact.trans h1, i', ?_⟩
      unfold cellAt at h4
      cases hr' : t.actions[i']? with
      | none => rw [hr'] at h4; cases h4
      | some row => rw [hr'] at h4; exact ⟨row, rfl, h4⟩
  | @move rows rows' c c' d r hd m hl ih =>
    intro input hi hb hr hsuf hp hcount hsh
    obtain ⟨path, hrow⟩ := h.row_shows (fs := fs) (ft := ft) hi hd hr hsuf
    obtain ⟨hr', hpr, hlen⟩ := h.move_form (fs := fs) (ft := ft) hi hd hb m hr
    refine ih (h.inv_move hi m) (fun t ht => hb t (m.buf_suffix t ht)) hr' ?_ ?_ ?_
      (snoc hsh ⟨path, _, hrow⟩)
    · refine List.IsSuffix.trans ?_ hsuf
      cases m with
      | shift _ => simp
      | reduce _ _ _ _ => exact List.suffix_refl _
    · intro row hrow
      rcases List.mem_append.mp hrow with h1 | h1
      · exact hp row h1
      · rw [List.mem_singleton.mp h1]; exact hpr
    · rw [reductions_snoc, List.length_append]
      omega

/-- The table printed for an input of terminals. -/
theorem Spec.Traces.show {k : Method} {dbg : Bool} {toks : List (Token M T)} {rows : List (TraceRow T)}
    {res : Except (Error T) Unit} (ht : Makes k dbg D S eof t) (he : Terminal D eof)
    (hT : TerminalToks D toks) (h : Traces t maps fs ft toks rows res) :
    (∀ before row after, rows = before ++ row :: after → ∃ path left,
      RowShows D eof t fs ft (toks.map Token.ty) before row path left) ∧
    ∃ before row left, rows = before ++ [row] ∧ (∀ row ∈ before, Proceeds row) ∧
      (∃ path, RowShows D eof t fs ft (toks.map Token.ty) before row path left) ∧ EndsWith t row left res ∧
      toks.length + (reductions before).length = left.length + before.length ∧
      (res = .ok () → InNoBody D S →
        Rightmost D [S] ((S, 0) :: (reductions before).reverse) (toks.map Token.ty)) := by
  obtain ⟨b0, next, red, ha, _⟩ := ht.auto
  obtain ⟨n, h⟩ := h
  simp only [ht.dfa, Out.ok_bind] at h
  unfold procDfa at h
  obtain ⟨⟨rows', d', r⟩, h1, h2⟩ := Out.bind_eq_ok.mp h
  cases h2
  have hl := ha.logs he n n (inv_init D t.states next toks) (sim_init t.actions eof maps toks) hT h1
  obtain ⟨k1, before, row, left, k2, k3, k4, k5, k6, k7⟩ := ha.logs_show hl
    (input := toks.map Token.ty) (inv_init D t.states next toks) hT
    (by simpa [Conf.form, reductions] using Rightmost.refl _) (List.suffix_refl _) (by simp)
    (by simp [reductions]) (by intro b r a e; simp at e)
  refine ⟨k1, before, row, left, k2, k3, k4, k5, by simpa using k6, ?_⟩
  intro hok hS
  obtain ⟨c', hi, hacc, hform⟩ := k7 hok
  obtain ⟨hv, _⟩ := ha.accepts hS hi hacc
  obtain ⟨i, st, _, _, hbuf⟩ := hacc
  cases hv with
  | node hp _ =>
    refine Rightmost.head [] [] hp (by intro x hx; cases hx) ?_
    simpa [Conf.form, hbuf] using hform

end

end Lrp
