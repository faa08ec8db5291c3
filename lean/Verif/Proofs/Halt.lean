import Verif.Proofs.Runs

/-! Runs on terminals end: unit reductions cannot go on forever in Clr tables, nor in conflict-free
tables of productive grammars. -/

set_option linter.unusedSectionVars false

namespace Lrp
open Spec
variable {T : Type} [LinOrd T] [DecidableEq T] {M : Type}

/-- An infinite sequence in a list repeats. -/
theorem exists_repeat {α : Type} (l : List α) : ∀ (X : Nat → α), (∀ m, X m ∈ l) →
    ∃ a b, a < b ∧ X a = X b := by
  induction l with
  | nil => intro X h; simpa using h 0
  | cons c l ih =>
    intro X h
    by_cases h1 : ∃ a, X a = c
    · obtain ⟨a, ha⟩ := h1
      by_cases h2 : ∃ m, X (a + 1 + m) = c
      · obtain ⟨m, hm⟩ := h2
        exact ⟨a, a + 1 + m, by omega, ha.trans hm.symm⟩
      · obtain ⟨x, y, hxy, e⟩ := ih (fun m => X (a + 1 + m)) (fun m => by
          rcases List.mem_cons.mp (h (a + 1 + m)) with h' | h'
          · exact absurd ⟨m, h'⟩ h2
          · exact h')
        exact ⟨a + 1 + x, a + 1 + y, by omega, e⟩
    · exact ih X (fun m => by
        rcases List.mem_cons.mp (h m) with h' | h'
        · exact absurd ⟨m, h'⟩ h1
        · exact h')

section
variable {D : Decls T} {S : T} {b0 : List T} {states : List (State T)} {acts : ActTable T}
  {next : State T → T → Option Nat} {red : Position T → T → Prop} {eof : T}

/-- A stop of a run. -/
def Stop (acts : ActTable T) (eof : T) (c : Conf M T) : Prop :=
  Accepts acts eof c ∨ ∃ e, Fails acts eof c e

/-- The run from here ends. -/
def Halts (acts : ActTable T) (eof : T) (c : Conf M T) : Prop :=
  ∃ d, Moves acts eof c d ∧ Stop acts eof d

theorem Halts.head {c d : Conf M T} (m : Move acts eof c d) (h : Halts acts eof d) :
    Halts acts eof c := by
  obtain ⟨e, h1, h2⟩ := h
  exact ⟨e, .head m h1, h2⟩

/-- Under the lookahead `y`, unit reductions go on forever over state `i`. -/
def UnitLoop (states : List (State T)) (acts : ActTable T) (next : State T → T → Option Nat)
    (i : Nat) (y : T) (X : Nat → T) : Prop :=
  ∃ s, states[i]? = some s ∧ ∀ m, ∃ j k, next s (X m) = some j ∧ (∃ p ∈ s, p.top = some (X m)) ∧
    cellAt acts j y = some (.reduce (X (m + 1)) ([X m], k))

/-- What a configuration does next. -/
theorem Auto.progress (h : Auto D S b0 states acts next red) (he : Terminal D eof) {i : Nat}
    {st : List Nat} {trs : List (Tree M T)} {buf : List (Token M T)}
    (hi : InvC D states next ⟨i :: st, trs, buf⟩) (hT : TerminalToks D buf) :
    Stop acts eof ⟨i :: st, trs, buf⟩ ∨
    (∃ j tok rest, buf = tok :: rest ∧
      Move acts eof ⟨i :: st, trs, buf⟩ ⟨j :: i :: st, .leaf tok :: trs, rest⟩) ∨
    (∃ A b k j i', cellAt acts i (lookSym eof buf) = some (.reduce A (b, k)) ∧
      (i :: st)[b.length]? = some i' ∧ cellAt acts i' A = some (.goto j) ∧ b ≠ [] ∧
      (trs.take b.length).reverse.map Tree.root = b ∧
      Move acts eof ⟨i :: st, trs, buf⟩ ⟨j :: (i :: st).drop b.length,
        .node A k (trs.take b.length).reverse :: trs.drop b.length, buf⟩) := by
  obtain ⟨i0, st0, s, e, hs⟩ := h.path_state hi.path
  cases e
  obtain ⟨row, hr⟩ := h.row hs
  have hy : Terminal D (lookSym eof buf) := terminal_lookSym he hT
  cases hc : cellAt acts i (lookSym eof buf) with
  | none =>
    have hc' : row.get? (lookSym eof buf) = none := by
      unfold cellAt at hc; rw [hr] at hc; exact hc
    exact Or.inl (Or.inr ⟨_, .noAction hr hc'⟩)
  | some a =>
    cases a with
    | shift j =>
      cases buf with
      | nil => exact Or.inl (Or.inr ⟨_, .eof hc⟩)
      | cons tok rest => exact Or.inr (Or.inl ⟨j, tok, rest, rfl, .shift hc⟩)
    | goto j =>
      rcases h.cell_dec hs hc (by intro x y; simp) with ⟨p, hp, ht, j', hj, hk⟩ | ⟨p, _, _, _, hk⟩
      · rcases hk with ⟨_, hk⟩ | ⟨hn, hk⟩
        · cases hk
        · exact absurd hy (not_terminal_iff.mpr hn)
      · rcases hk with ⟨_, hk⟩ | ⟨_, hk⟩ <;> cases hk
    | acc =>
      cases buf with
      | nil => exact Or.inl (Or.inl ⟨i, st, rfl, hc, rfl⟩)
      | cons tok rest => exact Or.inl (Or.inr ⟨_, .incomplete hc (by simp)⟩)
    | conflict a b => exact Or.inl (Or.inr ⟨_, .conflict hc⟩)
    | reduce A prod =>
      obtain ⟨b, k⟩ := prod
      obtain ⟨r1, r2, r3, r4, i', s', q, j, r5, r6, r7, r8, r9, r10⟩ := h.reduce_stack hi hc
      rcases r10 with r | ⟨a, c, r⟩
      · exact Or.inr (Or.inr ⟨A, b, k, j, i', rfl, r5, r, h.noEmpty _ _ _ r1, r4,
          .reduce hc r3 r5 r⟩)
      · exact Or.inl (Or.inr ⟨_, .conflict' hc r3 r5 r⟩)

/-- If no unit reductions go on forever, runs end. -/
theorem Auto.halts (h : Auto D S b0 states acts next red) (he : Terminal D eof)
    (hU : ∀ i st syms y X, Path states next (i :: st) syms → Terminal D y →
      ¬ UnitLoop states acts next i y X) :
    ∀ (n m : Nat) (c : Conf M T), c.buf.length = n → c.states.length = m → InvC D states next c →
      TerminalToks D c.buf → Halts acts eof c := by
  intro n
  induction n using Nat.strongRecOn with
  | _ n ihn =>
  intro m
  induction m using Nat.strongRecOn with
  | _ m ihm =>
  -- after a move that shortens the buffer or the stack
  have small : ∀ {c d : Conf M T}, Move acts eof c d → c.buf.length = n → InvC D states next c →
      TerminalToks D c.buf → (d.buf.length < n ∨ (d.buf.length = n ∧ d.states.length < m)) →
      Halts acts eof d := by
    intro c d hm hn hi hT hlt
    have hi' := h.inv_move hi hm
    have hT' : TerminalToks D d.buf := fun tok htok => hT tok (hm.buf_suffix tok htok)
    rcases hlt with hlt | ⟨h1, h2⟩
    · exact ihn _ hlt _ d rfl rfl hi' hT'
    · exact ihm _ h2 d h1 rfl hi' hT'
  intro c hn hm hi hT
  obtain ⟨i0, st0, s0, e0, hs0⟩ := h.path_state hi.path
  obtain ⟨sts, trs0, buf⟩ := c
  simp only at e0 hn hm hT; subst e0
  -- unit reductions at this height
  have unit : ∀ {j : Nat} {st : List Nat} {tr : Tree M T} {trs : List (Tree M T)},
      (j :: st).length = m → InvC D states next ⟨j :: st, tr :: trs, buf⟩ →
      ¬ Halts acts eof ⟨j :: st, tr :: trs, buf⟩ →
      ∃ i st' s k j' A, st = i :: st' ∧ states[i]? = some s ∧ next s tr.root = some j ∧
        (∃ p ∈ s, p.top = some tr.root) ∧
        cellAt acts j (lookSym eof buf) = some (.reduce A ([tr.root], k)) ∧
        InvC D states next ⟨j' :: st, .node A k [tr] :: trs, buf⟩ ∧
        ¬ Halts acts eof ⟨j' :: st, .node A k [tr] :: trs, buf⟩ := by
    intro j st tr trs hlen hi hno
    have hi' := hi
    obtain ⟨hpath, _⟩ := hi
    cases hpath with
    | @cons i j st' syms s p X h1 h2 h3 h4 h5 =>
      rcases h.progress he hi' hT with hs | ⟨j', tok, rest, e, hmv⟩ | ⟨A, b, k, j', i', hc, h6, h7, hb, h8, hmv⟩
      · exact absurd ⟨_, .refl _, hs⟩ hno
      · refine absurd (Halts.head hmv (small hmv hn hi' hT (Or.inl ?_))) hno
        rw [← hn, e]; simp
      · have hb1 : 1 ≤ b.length := by
          cases b with
          | nil => exact absurd rfl hb
          | cons _ _ => simp
        by_cases hb2 : 2 ≤ b.length
        · refine absurd (Halts.head hmv (small hmv hn hi' hT (Or.inr ⟨hn, ?_⟩))) hno
          rw [← hlen]
          have := (List.getElem?_eq_some_iff.mp h6).1
          simp only [List.length_cons, List.length_drop] at this ⊢
          omega
        · have hb3 : b.length = 1 := by omega
          have hb4 : b = [tr.root] := by
            rw [hb3] at h8; simpa using h8.symm
          rw [hb3] at hmv
          simp only [List.drop_succ_cons, List.drop_zero, List.take_succ_cons, List.take_zero,
            List.reverse_singleton] at hmv
          refine ⟨i, st', s, k, j', A, rfl, h2, h5, ⟨p, h3, h4⟩, by rw [← hb4]; exact hc,
            h.inv_move hi' hmv, fun hh => hno (Halts.head hmv hh)⟩
  apply Classical.byContradiction
  intro hno
  cases trs0 with
  | nil =>
    -- nothing on the stack: no reduction is possible
    rcases h.progress he hi hT with hs | ⟨j', tok, rest, e, hmv⟩ | ⟨A, b, k, j', i', hc, h6, h7, hb, h8, hmv⟩
    · exact hno ⟨_, .refl _, hs⟩
    · refine hno (Halts.head hmv (small hmv hn hi hT (Or.inl ?_)))
      rw [← hn, e]; simp
    · simp at h8; exact hb h8
  | cons tr0 trs =>
    -- all the stages, over the same rest of the stack
    have stages : ∃ f : Nat → { q : Nat × Tree M T //
        InvC D states next ⟨q.1 :: st0, q.2 :: trs, buf⟩ ∧
        ¬ Halts acts eof ⟨q.1 :: st0, q.2 :: trs, buf⟩ },
        ∀ n, ∃ i st' s k, st0 = i :: st' ∧ states[i]? = some s ∧
          next s (f n).1.2.root = some (f n).1.1 ∧ (∃ p ∈ s, p.top = some (f n).1.2.root) ∧
          cellAt acts (f n).1.1 (lookSym eof buf) =
            some (.reduce (f (n + 1)).1.2.root ([(f n).1.2.root], k)) := by
      have step : ∀ q : { q : Nat × Tree M T //
          InvC D states next ⟨q.1 :: st0, q.2 :: trs, buf⟩ ∧
          ¬ Halts acts eof ⟨q.1 :: st0, q.2 :: trs, buf⟩ },
          ∃ q' : { q : Nat × Tree M T //
            InvC D states next ⟨q.1 :: st0, q.2 :: trs, buf⟩ ∧
            ¬ Halts acts eof ⟨q.1 :: st0, q.2 :: trs, buf⟩ },
          ∃ i st' s k, st0 = i :: st' ∧ states[i]? = some s ∧
            next s q.1.2.root = some q.1.1 ∧ (∃ p ∈ s, p.top = some q.1.2.root) ∧
            cellAt acts q.1.1 (lookSym eof buf) = some (.reduce q'.1.2.root ([q.1.2.root], k)) := by
        rintro ⟨⟨j, tr⟩, hq1, hq2⟩
        obtain ⟨i, st', s, k, j', A, e, h1, h2, h3, h4, h5, h6⟩ := unit (by simpa using hm) hq1 hq2
        exact ⟨⟨⟨j', .node A k [tr]⟩, h5, h6⟩, i, st', s, k, e, h1, h2, h3, h4⟩
      refine ⟨fun n => Nat.rec ⟨⟨i0, tr0⟩, hi, hno⟩ (fun _ q => Classical.choose (step q)) n, ?_⟩
      intro n
      exact Classical.choose_spec (step _)
    obtain ⟨f, hf⟩ := stages
    obtain ⟨i, st', s, k, e, hs, _⟩ := hf 0
    have hpath : Path states next (i :: st') (trs.map Tree.root) := by
      have := hi.path.drop 1 (by simp)
      simpa [e] using this
    refine hU i st' _ (lookSym eof buf) (fun n => (f n).1.2.root) hpath (terminal_lookSym he hT)
      ⟨s, hs, fun n => ?_⟩
    obtain ⟨i2, st2, s2, k2, e2, hs2, g1, g2, g3⟩ := hf n
    rw [e] at e2; cases e2
    rw [hs] at hs2; cases hs2
    exact ⟨_, k2, g1, g2, g3⟩

/-! ### No infinite unit reductions -/

theorem derives_ne_nil (hne : NoEmpty D) {a w : List T} (h : Derives D a w) (ha : a ≠ []) :
    w ≠ [] := by
  induction h with
  | refl => exact ha
  | head st _ ih =>
    cases st with
    | @mk u v A k body hp =>
      have := hne _ _ _ hp
      exact ih (by simp [this])

/-- If `y` begins something derived from the symbol at the point, then some position of the state has
`y` at the point. -/
theorem Auto.first_top (h : Auto D S b0 states acts next red) {i : Nat} {s : State T}
    (hs : states[i]? = some s) {a c : List T} (hd : Derives D a c) :
    ∀ {Z : T} {w : List T} {y : T} {v : List T}, a = Z :: w → c = y :: v →
      (∃ p ∈ s, p.top = some Z) → ∃ p ∈ s, p.top = some y := by
  induction hd with
  | refl =>
    intro Z w y v e1 e2 hp
    rw [e1] at e2; cases e2; exact hp
  | head st _ ih =>
    intro Z w y v e1 e2 hp
    cases st with
    | @mk u v' A k body hprod =>
      cases u with
      | nil =>
        simp only [List.nil_append, List.cons.injEq] at e1
        obtain ⟨rfl, rfl⟩ := e1
        cases body with
        | nil => exact absurd rfl (h.noEmpty _ _ _ hprod)
        | cons Z' b =>
          obtain ⟨p, hp, ht⟩ := hp
          obtain ⟨q, hq, q1, q2, q3⟩ := h.close hs hp ht hprod
          refine ih (by simp; exact ⟨rfl, rfl⟩) e2 ⟨q, hq, ?_⟩
          show q.seq.1[q.point + 0]? = _
          rw [q2, q3]; rfl
      | cons Z' u =>
        simp only [List.cons_append, List.cons.injEq] at e1
        obtain ⟨rfl, rfl⟩ := e1
        exact ih (by simp; rfl) e2 hp

theorem Auto.first_top' (h : Auto D S b0 states acts next red) {i : Nat} {s : State T}
    (hs : states[i]? = some s) {Z y : T} (hZ : Z = y ∨ InFirst D Z y)
    (hp : ∃ p ∈ s, p.top = some Z) : ∃ p ∈ s, p.top = some y := by
  rcases hZ with rfl | ⟨v, hv⟩
  · exact hp
  · exact h.first_top hs hv rfl rfl hp

theorem next_adv (p : Position T) : p.adv.top = p.next := rfl

/-- A plain reduce cell excludes every other decision. -/
theorem Auto.only_reduce (h : Auto D S b0 states acts next red) {i : Nat} {s : State T}
    (hs : states[i]? = some s) {y A : T} {prod : Production T}
    (hc : cellAt acts i y = some (.reduce A prod)) {a : Action T}
    (hd : Dec D S (next s) red s y a) : a = .reduce A prod := by
  rcases h.dec_cell hs hd with e | ⟨b, c, e⟩
  · rw [hc] at e; cases e; rfl
  · rw [hc] at e; cases e

/-- A plain reduce cell: the symbol cannot be shifted. -/
theorem Auto.no_shift (h : Auto D S b0 states acts next red) {i : Nat} {s : State T}
    (hs : states[i]? = some s) {y A : T} {prod : Production T} (hy : Terminal D y)
    (hc : cellAt acts i y = some (.reduce A prod)) : ¬ ∃ p ∈ s, p.top = some y := by
  rintro ⟨p, hp, ht⟩
  obtain ⟨j, _, hj, _⟩ := h.edge hs hp ht
  have := h.only_reduce hs hc (Or.inl ⟨p, hp, ht, j, hj, Or.inl ⟨hy, rfl⟩⟩)
  cases this

/-- What one unit reduction of a loop says about the state below. -/
theorem Auto.unit_item (h : Auto D S b0 states acts next red) {i j k : Nat} {s : State T} {X A y : T}
    (hs : states[i]? = some s) (hj : next s X = some j) (hX : ∃ p ∈ s, p.top = some X)
    (hc : cellAt acts j y = some (.reduce A ([X], k))) :
    A ≠ S ∧ IsProd D A k [X] ∧ ∃ s' q, states[j]? = some s' ∧ q ∈ s' ∧ q.rule = A ∧
      q.seq = ([X], k) ∧ q.point = 1 ∧ red q y := by
  obtain ⟨p, hp, ht⟩ := hX
  obtain ⟨j', s', e1, _, e2, e3, e4⟩ := h.edge hs hp ht
  rw [hj] at e1; cases e1
  rcases h.cell_dec e2 hc (by intro x y; simp) with ⟨p, _, _, j, _, hk⟩ | ⟨q, hq, hqt, hr, hk⟩
  · rcases hk with ⟨_, hk⟩ | ⟨_, hk⟩ <;> cases hk
  · rcases hk with ⟨_, hk⟩ | ⟨hne, hk⟩
    · cases hk
    · injection hk with k1 k2
      subst k1
      have hprod := h.prod e2 hq
      rw [← k2] at hprod
      refine ⟨hne, hprod.1, s', q, e2, hq, rfl, k2.symm, ?_, hr⟩
      have h1 := top_none hqt
      have h2 := hprod.2
      rw [← k2] at h1
      simp at h1 h2
      omega

/-- In a Clr table every lookahead has a reason, which the reductions come back to. -/
theorem Exact.no_loop (h : Auto D S b0 states acts next red)
    (hl : Looks D S eof b0 states next red) (hx : Exact D S eof b0 states next red) {i : Nat} {y : T}
    (hy : Terminal D y) (X : Nat → T) : ¬ UnitLoop states acts next i y X := by
  rintro ⟨s, hs, hX⟩
  -- a reason is a reduction symbol of a position with the same body
  have hred : ∀ {p : Position T} {x : T}, ProvL D S eof b0 red i s p x → x = y →
      ∃ p' ∈ s, SameBody p' p ∧ red p' x := by
    intro p x hp
    induction hp with
    | kernel h1 h2 h3 => intro _; exact ⟨_, h1, .refl _, h3⟩
    | @basis p h0 h1 h2 h3 h4 =>
      intro _
      obtain ⟨s0, p0, k1, k2, k3, k4, k5, k6⟩ := hl.basis
      subst h0
      rw [hs] at k1; cases k1
      exact ⟨p0, k2, ⟨k3.trans h2.symm, k4.trans h3.symm, k5.trans h4.symm⟩, k6⟩
    | @last p q x h1 h2 h3 h4 h5 ih =>
      intro e
      obtain ⟨q', g1, g2, g3⟩ := ih e
      obtain ⟨r, r1, r2, r3, r4, r5⟩ := hl.close hs g1 (g2.top.trans h2) (h.prod hs h4).1 (e ▸ hy)
        (fun _ => g3) (fun Z hZ => by rw [g2.next, h3] at hZ; cases hZ)
      exact ⟨r, r1, ⟨r2, r3, r4.trans h5.symm⟩, r5⟩
    | @next p q x Z h1 h2 h3 h4 h5 h6 =>
      intro e
      obtain ⟨r, r1, r2, r3, r4, r5⟩ := hl.close hs h1 h2 (h.prod hs h5).1 (e ▸ hy)
        (fun hn => by rw [h3] at hn; cases hn) (fun Z' hZ => by rw [h3] at hZ; cases hZ; exact h4)
      exact ⟨r, r1, ⟨r2, r3, r4.trans h6.symm⟩, r5⟩
  have key : ∀ {p : Position T} {x : T}, ProvL D S eof b0 red i s p x → x = y → ∀ m k,
      p.rule = X (m + 1) → p.seq = ([X m], k) → p.point = 0 → False := by
    intro p x hp
    induction hp with
    | kernel h1 h2 h3 => intro _ m k _ _ h0; omega
    | @basis p h0 h1 h2 h3 h4 =>
      intro e m k e1 _ _
      obtain ⟨j, k', g1, g2, g3⟩ := hX m
      exact (h.unit_item hs g1 g2 g3).1 (e1.symm.trans h2)
    | @last p q x h1 h2 h3 h4 h5 ih =>
      intro e m k e1 e2 _
      subst e
      obtain ⟨j, k', g1, g2, g3⟩ := hX (m + 1)
      obtain ⟨_, _, s', _, hs', _⟩ := h.unit_item hs g1 g2 g3
      obtain ⟨q', r1, r2, r3⟩ := hred h1 rfl
      have ht : q'.top = some (X (m + 1)) := by rw [r2.top, h2, e1]
      obtain ⟨q'', w1, w2, w3⟩ := hl.adv hs r1 ht g1 hs'
      have hq''t : q''.top = none := by rw [w2.top, next_adv, r2.next, h3]
      have hq''r : q''.rule = q.rule := w2.1.trans r2.1
      have hq''s : q''.seq = q.seq := w2.2.1.trans r2.2.1
      by_cases hS : q''.rule = S
      · have := h.only_reduce hs' g3 (Or.inr ⟨q'', w1, hq''t, w3 _ hy r3, Or.inl ⟨hS, rfl⟩⟩)
        cases this
      · have := h.only_reduce hs' g3 (Or.inr ⟨q'', w1, hq''t, w3 _ hy r3, Or.inr ⟨hS, rfl⟩⟩)
        injection this with t1 t2
        have hseq : q.seq = ([X (m + 1)], k') := hq''s.symm.trans t2
        refine ih rfl (m + 1) k' (hq''r.symm.trans t1) hseq ?_
        have := top_lt h2
        rw [hseq] at this
        simpa using this
    | @next p q x Z h1 h2 h3 h4 h5 h6 =>
      intro e m k e1 e2 _
      subst e
      obtain ⟨j, k', g1, g2, g3⟩ := hX (m + 1)
      obtain ⟨_, _, s', _, hs', _⟩ := h.unit_item hs g1 g2 g3
      have ht : q.top = some (X (m + 1)) := by rw [h2, e1]
      obtain ⟨q'', w1, w2, _⟩ := hl.adv hs h1 ht g1 hs'
      refine h.no_shift hs' hy g3 (h.first_top' hs' h4 ⟨q'', w1, ?_⟩)
      rw [w2.top, next_adv, h3]
  obtain ⟨j, k, g1, g2, g3⟩ := hX 0
  obtain ⟨hne, hprod, s', q, hs', hq, q1, q2, q3, q4⟩ := h.unit_item hs g1 g2 g3
  obtain ⟨p0, hp0, ht0⟩ := g2
  obtain ⟨p, hp, ht, hb, hr⟩ := hx.edge hs hp0 ht0 g1 hs' q hq (by omega) y q4
  refine key (hx.prov hs hp hr) rfl 0 k (hb.1.symm.trans q1) (hb.2.1.symm.trans q2) ?_
  have := hb.2.2
  rw [q3] at this
  simp only [Position.adv] at this
  omega

/-- Along a path every position of a productive grammar has a terminal to reduce under. -/
theorem Looks.nonempty (h : Auto D S b0 states acts next red)
    (hl : Looks D S eof b0 states next red) (he : Terminal D eof) (hpr : AllProductive D)
    {sts : List Nat} {syms : List T} (hp : Path states next sts syms) :
    ∀ {i : Nat} {st : List Nat} {s : State T}, sts = i :: st → states[i]? = some s → ∀ p ∈ s,
      ∃ p' ∈ s, SameBody p' p ∧ ∃ y, Terminal D y ∧ red p' y := by
  -- inside one state
  have inner : ∀ {i : Nat} {s : State T}, states[i]? = some s →
      (∀ p ∈ s, 0 < p.point → ∃ p' ∈ s, SameBody p' p ∧ ∃ y, Terminal D y ∧ red p' y) →
      ∀ {p : Position T}, Prov S b0 i s p → ∃ p' ∈ s, SameBody p' p ∧ ∃ y, Terminal D y ∧ red p' y := by
    intro i s hs hk p hp
    induction hp with
    | kernel h1 h2 => exact hk _ h1 h2
    | @basis p h0 h1 h2 h3 h4 =>
      obtain ⟨s0, p0, k1, k2, k3, k4, k5, k6⟩ := hl.basis
      subst h0
      rw [hs] at k1; cases k1
      exact ⟨p0, k2, ⟨k3.trans h2.symm, k4.trans h3.symm, k5.trans h4.symm⟩, eof, he, k6⟩
    | @step p q h1 h2 h3 h4 ih =>
      obtain ⟨q', g1, g2, y, g3, g4⟩ := ih
      cases hn : q'.next with
      | none =>
        obtain ⟨r, r1, r2, r3, r4, r5⟩ := hl.close hs g1 (g2.top.trans h2) (h.prod hs h3).1 g3
          (fun _ => g4) (fun Z hZ => by rw [hn] at hZ; cases hZ)
        exact ⟨r, r1, ⟨r2, r3, r4.trans h4.symm⟩, y, g3, r5⟩
      | some Z =>
        obtain ⟨z, hz, hZ⟩ : ∃ z, Terminal D z ∧ (Z = z ∨ InFirst D Z z) := by
          obtain ⟨w, w1, w2⟩ := productive_list hpr [Z]
          cases w with
          | nil => exact absurd rfl (derives_ne_nil h.noEmpty w1 (by simp))
          | cons z w => exact ⟨z, w2 z (by simp), Or.inr ⟨w, w1⟩⟩
        obtain ⟨r, r1, r2, r3, r4, r5⟩ := hl.close hs g1 (g2.top.trans h2) (h.prod hs h3).1 hz
          (fun hn' => by rw [hn] at hn'; cases hn')
          (fun Z' hZ' => by rw [hn] at hZ'; cases hZ'; exact hZ)
        exact ⟨r, r1, ⟨r2, r3, r4.trans h4.symm⟩, z, hz, r5⟩
  induction hp with
  | base =>
    intro i st s e hs p hp
    cases e
    refine inner hs (fun p hp h0 => ?_) (h.prov hs hp)
    have := h.zero hs hp
    omega
  | @cons i0 j st syms s0 p0 X h1 h2 h3 h4 h5 ih =>
    intro i st' s e hs p hp
    cases e
    refine inner hs (fun p hp h0 => ?_) (h.prov hs hp)
    obtain ⟨j', s', e1, _, e2, e3, _⟩ := h.edge h2 h3 h4
    rw [h5] at e1; cases e1
    rw [hs] at e2; cases e2
    obtain ⟨q, hq, hqt, hb⟩ := e3 p hp h0
    obtain ⟨q', g1, g2, y, g3, g4⟩ := ih rfl h2 q hq
    obtain ⟨r, r1, r2, r3⟩ := hl.adv h2 g1 (g2.top.trans hqt) h5 hs
    exact ⟨r, r1, r2.trans (g2.adv.trans hb.symm), y, g3, r3 y g3 g4⟩

/-- Without conflicts unit reductions do not go on forever. -/
theorem Looks.no_loop (h : Auto D S b0 states acts next red)
    (hl : Looks D S eof b0 states next red) (he : Terminal D eof) (hpr : AllProductive D)
    (hno : ∀ i x a b, cellAt acts i x ≠ some (.conflict a b))
    {i : Nat} {st : List Nat} {syms : List T} (hp : Path states next (i :: st) syms) {y : T}
    (X : Nat → T) : ¬ UnitLoop states acts next i y X := by
  rintro ⟨s, hs, hX⟩
  -- the symbols repeat
  have hfun : ∀ a b, X a = X b → X (a + 1) = X (b + 1) := by
    intro a b e
    obtain ⟨j, k, g1, g2, g3⟩ := hX a
    obtain ⟨j', k', g1', g2', g3'⟩ := hX b
    rw [e] at g1
    rw [g1] at g1'; cases g1'
    rw [g3] at g3'
    injection g3' with g3'
    injection g3'
  obtain ⟨a, b, hab, e⟩ := exists_repeat (D.map Prod.fst) (fun m => X (m + 1)) (fun m => by
    obtain ⟨j, k, g1, g2, g3⟩ := hX m
    obtain ⟨d, hd, e⟩ := (h.unit_item hs g1 g2 g3).2.1.nonterminal
    exact List.mem_map.mpr ⟨d, hd, e⟩)
  have per : ∀ m, X (a + 1 + m) = X (b + 1 + m) := by
    intro m
    induction m with
    | zero => exact e
    | succ m ih => exact hfun _ _ ih
  -- from now on, periodic with period n > 0
  obtain ⟨n, hn0, Y, hY, hper⟩ : ∃ n, 0 < n ∧ ∃ Y : Nat → T,
      (∀ m, ∃ j k, next s (Y m) = some j ∧ (∃ p ∈ s, p.top = some (Y m)) ∧
        cellAt acts j y = some (.reduce (Y (m + 1)) ([Y m], k))) ∧ ∀ m, Y (m + n) = Y m := by
    refine ⟨b - a, by omega, fun m => X (a + 1 + m), fun m => hX (a + 1 + m), fun m => ?_⟩
    have := per m
    show X (a + 1 + (m + (b - a))) = X (a + 1 + m)
    rw [show a + 1 + (m + (b - a)) = b + 1 + m by omega]
    exact this.symm
  -- the production used by the m-th reduction
  have prodAt : ∀ m, ∃ j k, next s (Y m) = some j ∧ (∃ p ∈ s, p.top = some (Y m)) ∧
      cellAt acts j y = some (.reduce (Y (m + 1)) ([Y m], k)) ∧ IsProd D (Y (m + 1)) k [Y m] ∧
      Y (m + 1) ≠ S := by
    intro m
    obtain ⟨j, k, g1, g2, g3⟩ := hY m
    obtain ⟨u1, u2, _⟩ := h.unit_item hs g1 g2 g3
    exact ⟨j, k, g1, g2, g3, u2, u1⟩
  -- reduction symbols are handed down along the loop
  let Item (m : Nat) (z : T) : Prop := ∃ q ∈ s, q.rule = Y (m + 1) ∧ q.point = 0 ∧ red q z ∧
    ∃ j k, next s (Y m) = some j ∧ cellAt acts j y = some (.reduce (Y (m + 1)) ([Y m], k)) ∧
      q.seq = ([Y m], k)
  have enter : ∀ {q : Position T} {m : Nat} {z : T}, q ∈ s → q.top = some (Y (m + 1)) →
      Terminal D z → (q.next = none → red q z) → (∀ Z, q.next = some Z → Z = z ∨ InFirst D Z z) →
      Item m z := by
    intro q m z hq ht hz h1 h2
    obtain ⟨j, k, g1, g2, g3, g4, _⟩ := prodAt m
    obtain ⟨r, r1, r2, r3, r4, r5⟩ := hl.close hs hq ht g4 hz h1 h2
    exact ⟨r, r1, r2, r4, r5, j, k, g1, g3, r3⟩
  have down : ∀ {m : Nat} {z : T}, Terminal D z → Item (m + 1) z → Item m z := by
    rintro m z hz ⟨q, q1, q2, q3, q4, j, k, q5, q6, q7⟩
    refine enter q1 ?_ hz (fun _ => q4) (fun Z hZ => ?_)
    · show q.seq.1[q.point + 0]? = _; rw [q7, q3]; rfl
    · rw [next_eq, q7, q3] at hZ; simp at hZ
  have downs : ∀ (d m : Nat) {z : T}, Terminal D z → Item (m + d) z → Item m z := by
    intro d
    induction d with
    | zero => intro m z _ hi; exact hi
    | succ d ih => intro m z hz hi; exact ih m hz (down hz hi)
  have round : ∀ (m : Nat) {z : T}, Item m z → Item (m + n) z := by
    rintro m z ⟨q, q1, q2, q3, q4, j, k, q5, q6, q7⟩
    have e1 : Y (m + n + 1) = Y (m + 1) := by rw [show m + n + 1 = m + 1 + n by omega]; exact hper _
    exact ⟨q, q1, by rw [e1]; exact q2, q3, q4, j, k, by rw [hper]; exact q5,
      by rw [e1, hper]; exact q6, by rw [hper]; exact q7⟩
  -- so a position at which the loop was entered is in conflict with the next reduction
  have clash : ∀ {q : Position T} {m : Nat} {z : T}, q ∈ s → q.top = some (Y (m + 1)) →
      Terminal D z → (q.next = none → red q z) → (∀ Z, q.next = some Z → Z = z ∨ InFirst D Z z) →
      ∃ k, q.rule = Y (m + 2) ∧ q.seq = ([Y (m + 1)], k) := by
    intro q m z hq ht hz h1 h2
    have hit : Item (m + 1) z := by
      have := round m (enter hq ht hz h1 h2)
      refine downs (n - 1) (m + 1) hz ?_
      rw [show m + 1 + (n - 1) = m + n by omega]; exact this
    obtain ⟨r, r1, r2, r3, r4, j, k, r5, r6, r7⟩ := hit
    obtain ⟨j', k', g1, g2, g3, g4, g5⟩ := prodAt (m + 1)
    rw [r5] at g1; cases g1
    rw [r6] at g3; cases g3
    obtain ⟨_, _, s', _, hs', _⟩ := h.unit_item hs r5 g2 r6
    have rt : r.top = some (Y (m + 1)) := by show r.seq.1[r.point + 0]? = _; rw [r7, r3]; rfl
    have rn : r.next = none := by rw [next_eq, r7, r3]; rfl
    obtain ⟨r', w1, w2, w3⟩ := hl.adv hs r1 rt r5 hs'
    have hdr : Dec D S (next s') red s' z (.reduce r.rule r.seq) := by
      refine Or.inr ⟨r', w1, by rw [w2.top, next_adv, rn], w3 z hz r4, Or.inr ⟨?_, ?_⟩⟩
      · rw [w2.1]; show r.rule ≠ S; rw [r2]; exact g5
      · rw [w2.1, w2.2.1]; rfl
    have hcell : cellAt acts j z = some (.reduce r.rule r.seq) := by
      rcases h.dec_cell hs' hdr with e | ⟨u, v, e⟩
      · exact e
      · exact absurd e (hno _ _ _ _)
    obtain ⟨q', v1, v2, v3⟩ := hl.adv hs hq ht r5 hs'
    cases hn : q.next with
    | none =>
      have qt : q'.top = none := by rw [v2.top, next_adv, hn]
      have hqS : q'.rule ≠ S := by
        intro hS
        have := h.only_reduce hs' hcell (Or.inr ⟨q', v1, qt, v3 z hz (h1 hn), Or.inl ⟨hS, rfl⟩⟩)
        cases this
      have := h.only_reduce hs' hcell (Or.inr ⟨q', v1, qt, v3 z hz (h1 hn), Or.inr ⟨hqS, rfl⟩⟩)
      injection this with t1 t2
      have u1 : q'.rule = q.rule := v2.1
      have u2 : q'.seq = q.seq := v2.2.1
      exact ⟨k, u1.symm.trans (t1.trans r2), u2.symm.trans (t2.trans r7)⟩
    | some Z =>
      refine absurd (h.first_top' hs' (h2 Z hn) ⟨q', v1, ?_⟩) (h.no_shift hs' hz hcell)
      rw [v2.top, next_adv, hn]
  -- and the loop must have been entered
  have key : ∀ {p : Position T}, Prov S b0 i s p → ∀ m k, p.rule = Y (m + 1) → p.seq = ([Y m], k) →
      p.point = 0 → False := by
    intro p hp
    induction hp with
    | kernel _ h2 => intro m k _ _ h0; omega
    | basis _ _ h2 _ _ =>
      intro m k e1 _ _
      obtain ⟨_, _, _, _, _, _, h5⟩ := prodAt m
      exact h5 (e1.symm.trans h2)
    | @step p q h1 h2 h3 h4 ih =>
      intro m k e1 e2 _
      obtain ⟨q', g1, g2, z, g3, g4⟩ := Looks.nonempty h hl he hpr hp rfl hs q h1.mem
      have ht : q'.top = some (Y (m + 1)) := by rw [g2.top, h2, e1]
      have hz : ∃ k, q'.rule = Y (m + 2) ∧ q'.seq = ([Y (m + 1)], k) := by
        cases hn : q'.next with
        | none => exact clash g1 ht g3 (fun _ => g4) (fun Z hZ => by rw [hn] at hZ; cases hZ)
        | some Z =>
          obtain ⟨w, w1, w2⟩ := productive_list hpr [Z]
          cases w with
          | nil => exact absurd rfl (derives_ne_nil h.noEmpty w1 (by simp))
          | cons z' w =>
            exact clash g1 ht (w2 z' (by simp)) (fun hn' => by rw [hn] at hn'; cases hn')
              (fun Z' hZ' => by rw [hn] at hZ'; cases hZ'; exact Or.inr ⟨w, w1⟩)
      obtain ⟨k', z1, z2⟩ := hz
      have hseq : q.seq = ([Y (m + 1)], k') := g2.2.1.symm.trans z2
      refine ih (m + 1) k' (g2.1.symm.trans z1) hseq ?_
      have := top_lt h2
      rw [hseq] at this
      simpa using this
  obtain ⟨j, k, g1, g2, g3, _, _⟩ := prodAt 0
  obtain ⟨hne, hprod, s', q, hs', hq, q1, q2, q3, q4⟩ := h.unit_item hs g1 g2 g3
  obtain ⟨p0, hp0, ht0⟩ := g2
  obtain ⟨j', s'', e1, _, e2, e3, _⟩ := h.edge hs hp0 ht0
  rw [g1] at e1; cases e1
  rw [hs'] at e2; cases e2
  obtain ⟨p, hp', ht, hb⟩ := e3 q hq (by omega)
  refine key (h.prov hs hp') 0 k (hb.1.symm.trans q1) (hb.2.1.symm.trans q2) ?_
  have := hb.2.2
  rw [q3] at this
  simp only [Position.adv] at this
  omega

end

end Lrp
