import Verif.Proofs.Linear
import Verif.Proofs.Runs
import Verif.Spec.Unit

/-! Runs of tables with or without conflicts: they end after a number of moves that is linear in the length
of the input, or never. -/

set_option linter.unusedSectionVars false

namespace Lrp
open Spec
variable {T : Type} [LinOrd T] [DecidableEq T] {M : Type}

/-! ### Configurations that go on alike -/

/-- Two configurations with the same states, the same rest of the input and equally many trees. -/
structure Conf.Alike (c d : Conf M T) : Prop where
  states : c.states = d.states
  trees : c.trees.length = d.trees.length
  buf : c.buf = d.buf

section
variable {D : Decls T} {S : T} {b0 : List T} {states : List (State T)} {acts : ActTable T}
  {next : State T → T → Option Nat} {red : Position T → T → Prop} {eof : T}

theorem Conf.Alike.symm {c d : Conf M T} (h : c.Alike d) : d.Alike c :=
  ⟨h.states.symm, h.trees.symm, h.buf.symm⟩

theorem Conf.Alike.move {c c' d : Conf M T} (h : c.Alike c') (m : Move acts eof c d) :
    ∃ d', Move acts eof c' d' ∧ d.Alike d' := by
  obtain ⟨st', trs', buf'⟩ := c'
  obtain ⟨h1, h2, h3⟩ := h
  cases m with
  | shift hc =>
    simp only at h1 h2 h3
    subst h1 h3
    exact ⟨_, .shift hc, rfl, by simp [h2], rfl⟩
  | reduce hc k1 k2 k3 =>
    simp only at h1 h2 h3
    subst h1 h3
    exact ⟨_, .reduce hc (by omega) k2 k3, rfl, by simp [h2], rfl⟩

theorem Conf.Alike.steps {n : Nat} {c d : Conf M T} (m : Steps acts eof n c d) :
    ∀ {c' : Conf M T}, c.Alike c' → ∃ d', Steps acts eof n c' d' ∧ d.Alike d' := by
  induction m with
  | refl => intro c' h; exact ⟨c', .refl _, h⟩
  | head mv _ ih =>
    intro c' h
    obtain ⟨e, m1, h1⟩ := h.move mv
    obtain ⟨d', m2, h2⟩ := ih h1
    exact ⟨d', .head m1 m2, h2⟩

theorem Conf.Alike.stop {c d : Conf M T} (h : c.Alike d) (hs : Stop acts eof c) : Stop acts eof d := by
  obtain ⟨st', trs', buf'⟩ := d
  obtain ⟨h1, h2, h3⟩ := h
  rcases hs with ⟨i, st, e1, e2, e3⟩ | ⟨e, hf⟩
  · exact .inl ⟨i, st, h1 ▸ e1, e2, h3 ▸ e3⟩
  · refine .inr ?_
    cases hf with
    | noAction k1 k2 => simp only at h1 h3; subst h1 h3; exact ⟨_, .noAction k1 k2⟩
    | eof k1 => simp only at h1 h3; subst h1 h3; exact ⟨_, .eof k1⟩
    | conflict k1 => simp only at h1 h3; subst h1 h3; exact ⟨_, .conflict k1⟩
    | incomplete k1 k2 => simp only at h1 h3; subst h1 h3; exact ⟨_, .incomplete k1 k2⟩
    | conflict' k1 k2 k3 k4 =>
      simp only at h1 h2 h3
      subst h1 h3
      exact ⟨_, .conflict' k1 (by omega) k3 k4⟩

theorem Stop.no_move {c d : Conf M T} (h : Stop acts eof c) (m : Move acts eof c d) : False := by
  rcases h with h | ⟨e, h⟩
  · exact h.no_move m
  · exact h.no_move m

theorem Moves.steps {c d : Conf M T} (h : Moves acts eof c d) : ∃ n, Steps acts eof n c d := by
  induction h with
  | refl => exact ⟨0, .refl _⟩
  | head m _ ih =>
    obtain ⟨n, h⟩ := ih
    exact ⟨n + 1, .head m h⟩

/-- On the way to a stop. -/
theorem Steps.rest {m : Nat} {c d : Conf M T} (h : Steps acts eof m c d) : ∀ {n : Nat} {e : Conf M T},
    Steps acts eof n c e → Stop acts eof e → ∃ k, n = m + k ∧ Steps acts eof k d e := by
  induction h with
  | refl => intro n e h' _; exact ⟨n, by omega, h'⟩
  | head mv _ ih =>
    intro n e h' hs
    cases h' with
    | refl => exact (hs.no_move mv).elim
    | head mv' h' =>
      have := mv.det mv'
      subst this
      obtain ⟨k, h1, h2⟩ := ih h' hs
      exact ⟨k, by omega, h2⟩

/-- A run that comes back to where it was does not end. -/
theorem Conf.Alike.forever {m : Nat} {c d : Conf M T} (h : Steps acts eof (m + 1) c d) (hl : d.Alike c) :
    ¬ Halts acts eof c := by
  suffices ∀ (n : Nat) (e : Conf M T), Steps acts eof n c e → ¬ Stop acts eof e by
    rintro ⟨e, h1, h2⟩
    obtain ⟨n, h3⟩ := h1.steps
    exact this n e h3 h2
  intro n
  induction n using Nat.strongRecOn with
  | _ n ih =>
    intro e h1 h2
    obtain ⟨k, h3, h4⟩ := h.rest h1 h2
    obtain ⟨e', h5, h6⟩ := hl.steps h4
    exact ih k (by omega) e' h5 (h6.stop h2)

/-! ### Unit reductions -/

/-- Reductions of one symbol, to the given names. -/
inductive Units (acts : ActTable T) (eof : T) : List T → Conf M T → Conf M T → Prop
  | nil (c : Conf M T) : Units acts eof [] c c
  | cons {i i' j k : Nat} {st : List Nat} {tr : Tree M T} {trs : List (Tree M T)} {buf : List (Token M T)}
      {A : T} {l : List T} {d : Conf M T} :
      cellAt acts i (lookSym eof buf) = some (.reduce A ([tr.root], k)) →
      cellAt acts i' A = some (.goto j) →
      Units acts eof l ⟨j :: i' :: st, .node A k [tr] :: trs, buf⟩ d →
      Units acts eof (A :: l) ⟨i :: i' :: st, tr :: trs, buf⟩ d

theorem unit_move {i i' j k : Nat} {st : List Nat} {tr : Tree M T} {trs : List (Tree M T)}
    {buf : List (Token M T)} {A : T}
    (h1 : cellAt acts i (lookSym eof buf) = some (.reduce A ([tr.root], k)))
    (h2 : cellAt acts i' A = some (.goto j)) :
    Move acts eof ⟨i :: i' :: st, tr :: trs, buf⟩ ⟨j :: i' :: st, .node A k [tr] :: trs, buf⟩ :=
  Move.reduce (trs := tr :: trs) (st := i' :: st) h1 (by simp) rfl h2

theorem Units.steps {l : List T} {c d : Conf M T} (h : Units acts eof l c d) :
    Steps acts eof l.length c d := by
  induction h with
  | nil => exact .refl _
  | cons h1 h2 _ ih => exact .head (unit_move h1 h2) ih

theorem Units.split {l l' : List T} : ∀ {c e : Conf M T}, Units acts eof (l ++ l') c e →
    ∃ d, Units acts eof l c d ∧ Units acts eof l' d e := by
  induction l with
  | nil => intro c e h; exact ⟨c, .nil _, h⟩
  | cons A l ih =>
    intro c e h
    cases h with
    | cons h1 h2 h3 =>
      obtain ⟨d, h4, h5⟩ := ih h3
      exact ⟨d, .cons h1 h2 h4, h5⟩

/-- Where unit reductions lead depends on the last of them only. -/
theorem Units.last {l : List T} {A : T} : ∀ {c d : Conf M T}, Units acts eof (l ++ [A]) c d →
    ∃ i i' j st, c.states = i :: i' :: st ∧ d.states = j :: i' :: st ∧ cellAt acts i' A = some (.goto j) ∧
      d.trees.length = c.trees.length ∧ d.buf = c.buf ∧ ∃ tr trs, d.trees = tr :: trs ∧ tr.root = A := by
  induction l with
  | nil =>
    intro c d h
    cases h with
    | cons h1 h2 h3 =>
      cases h3
      exact ⟨_, _, _, _, rfl, rfl, h2, rfl, rfl, _, _, rfl, rfl⟩
  | cons B l ih =>
    intro c d h
    cases h with
    | cons h1 h2 h3 =>
      obtain ⟨i, i', j, st, e1, e2, e3, e4, e5, e6⟩ := ih h3
      simp only [List.cons.injEq] at e1
      obtain ⟨_, rfl, rfl⟩ := e1
      exact ⟨_, _, j, _, rfl, e2, e3, by simpa using e4, e5, e6⟩

/-- They follow productions of one symbol. -/
theorem Auto.units_renames (h : Auto D S b0 states acts next red) {l : List T} {A : T} :
    ∀ {c d : Conf M T}, InvC D states next c → Units acts eof (l ++ [A]) c d → ∀ tr trs, c.trees = tr :: trs →
      Renames D A tr.root := by
  induction l generalizing A with
  | nil =>
    intro c d hi hu tr trs e
    cases hu with
    | cons h1 h2 h3 =>
      cases e
      exact .one (h.reduce_stack hi h1).1
  | cons B l ih =>
    intro c d hi hu tr trs e
    cases hu with
    | cons h1 h2 h3 =>
      cases e
      have h4 := (h.reduce_stack hi h1).1
      have h5 := ih (h.inv_move hi (unit_move h1 h2)) h3 _ _ rfl
      have trans : ∀ {x y : T}, Renames D x y → ∀ {z i}, IsProd D y i [z] → Renames D x z := by
        intro x y hxy
        induction hxy with
        | one p => intro z i q; exact .more p (.one q)
        | more p _ ih => intro z i q; exact .more p (ih q)
      exact trans h5 h4

theorem Auto.units_names (h : Auto D S b0 states acts next red) {l : List T} :
    ∀ {c d : Conf M T}, InvC D states next c → Units acts eof l c d → ∀ A ∈ l, A ∈ D.map Prod.fst := by
  induction l with
  | nil => intro c d _ _ A hA; cases hA
  | cons B l ih =>
    intro c d hi hu A hA
    cases hu with
    | cons h1 h2 h3 =>
      rcases List.mem_cons.mp hA with rfl | hA
      · have hn := (h.reduce_stack hi h1).1.nonterminal
        apply Classical.byContradiction
        intro hne
        refine not_terminal_iff.mpr hn ?_
        intro d hd e
        exact hne (e ▸ List.mem_map_of_mem hd)
      · exact ih (h.inv_move hi (unit_move h1 h2)) h3 A hA

theorem not_nodup_split : ∀ {l : List T}, ¬ l.Nodup → ∃ A p q r, l = p ++ [A] ++ (q ++ [A]) ++ r
  | [], h => absurd List.nodup_nil h
  | x :: l, h => by
    by_cases hx : x ∈ l
    · obtain ⟨q, r, rfl⟩ := List.append_of_mem hx
      exact ⟨x, [], q, r, by simp⟩
    · rw [List.nodup_cons] at h
      obtain ⟨A, p, q, r, e⟩ := not_nodup_split (fun hn => h ⟨hx, hn⟩)
      exact ⟨A, x :: p, q, r, by rw [e]; simp⟩

/-- More unit reductions than there are rules: the run does not end, and some symbol becomes itself. -/
theorem Auto.units_forever (h : Auto D S b0 states acts next red) {l : List T} {c d : Conf M T}
    (hi : InvC D states next c) (hu : Units acts eof l c d) (hlen : D.length < l.length) :
    ¬ Halts acts eof c ∧ ∃ A, Renames D A A := by
  have hnot : ¬ l.Nodup := by
    intro hn
    have := List.Nodup.length_le_of_subset hn (l₂ := D.map Prod.fst) (fun A hA => h.units_names hi hu A hA)
    rw [List.length_map] at this
    omega
  obtain ⟨A, p, q, r, rfl⟩ := not_nodup_split hnot
  obtain ⟨c2, hu2, _⟩ := hu.split
  obtain ⟨c1, hu1, hu2⟩ := hu2.split
  obtain ⟨i1, i1', j1, st1, e1, e2, e3, e4, e5, tr, trs, e6, e7⟩ := hu1.last
  obtain ⟨i2, i2', j2, st2, g1, g2, g3, g4, g5, _⟩ := hu2.last
  rw [e2] at g1
  simp only [List.cons.injEq] at g1
  obtain ⟨rfl, rfl, rfl⟩ := g1
  rw [e3] at g3
  cases g3
  have hal : c2.Alike c1 := ⟨by rw [g2, e2], g4, g5⟩
  constructor
  · rintro ⟨e, hm, hs⟩
    obtain ⟨n, hm⟩ := hm.steps
    obtain ⟨k, _, hk⟩ := hu1.steps.rest hm hs
    have := hu2.steps
    rw [List.length_append, List.length_singleton] at this
    exact hal.forever this ⟨e, hk.moves, hs⟩
  · have hi1 := h.inv_moves hi hu1.steps.moves
    have := h.units_renames hi1 hu2 tr trs e6
    rw [e7] at this
    exact ⟨A, this⟩

/-- After at most `m` unit reductions the configuration shrinks, or there are `m` of them. -/
theorem Auto.units_or (h : Auto D S b0 states acts next red) (he : Terminal D eof) :
    ∀ (m : Nat) (c : Conf M T), InvC D states next c → TerminalToks D c.buf →
      (∃ k d, k < m ∧ Steps acts eof k c d ∧ Shrinks acts eof c.size d) ∨
      ∃ l d, l.length = m ∧ Units acts eof l c d := by
  intro m
  induction m with
  | zero => intro c _ _; exact .inr ⟨[], c, rfl, .nil _⟩
  | succ m ih =>
    intro c hi hT
    obtain ⟨i0, st0, s0, e0, hs0⟩ := h.path_state hi.path
    obtain ⟨sts, trs, buf⟩ := c
    simp only at e0 hT; subst e0
    rcases h.progress he hi hT with hs | ⟨j', tok, rest, e, hmv⟩ | ⟨A, b, k, j', i', hc, h6, h7, hb, h8, hmv⟩
    · exact .inl ⟨0, _, Nat.succ_pos _, .refl _, .inl hs⟩
    · refine .inl ⟨0, _, Nat.succ_pos _, .refl _, .inr ⟨_, hmv, ?_⟩⟩
      subst e
      simp only [Conf.size, List.length_cons]
      omega
    · have hb1 : 1 ≤ b.length := by
        cases b with
        | nil => exact absurd rfl hb
        | cons _ _ => simp
      have hlen : b.length ≤ trs.length := by
        have := congrArg List.length h8
        simp only [List.length_map, List.length_reverse, List.length_take] at this
        omega
      by_cases hb2 : 2 ≤ b.length
      · refine .inl ⟨0, _, Nat.succ_pos _, .refl _, .inr ⟨_, hmv, ?_⟩⟩
        simp only [Conf.size, List.length_cons, List.length_drop]
        omega
      · have hb3 : b.length = 1 := by omega
        cases trs with
        | nil => simp only [List.length_nil] at hlen; omega
        | cons tr trs =>
        have hb4 : b = [tr.root] := by
          rw [hb3] at h8; simpa using h8.symm
        subst hb4
        cases st0 with
        | nil => simp at h6
        | cons i1 st1 =>
        have h6' : i1 = i' := by simpa using h6
        subst h6'
        have hi' := h.inv_move hi hmv
        simp only [List.length_singleton, List.drop_succ_cons, List.drop_zero, List.take_succ_cons,
          List.take_zero, List.reverse_singleton] at hmv hi'
        rcases ih _ hi' hT with ⟨k', d, g1, g2, g3⟩ | ⟨l, d, g1, g2⟩
        · exact .inl ⟨k' + 1, d, by omega, .head hmv g2, by simpa [Conf.size] using g3⟩
        · exact .inr ⟨A :: l, d, by simp [g1], .cons hc h7 g2⟩

/-- A run ends after linearly many moves, or it does not end; then some symbol becomes itself. -/
theorem Auto.linear_or (h : Auto D S b0 states acts next red) (he : Terminal D eof) :
    ∀ (N : Nat) (c : Conf M T), c.size = N → InvC D states next c → TerminalToks D c.buf →
      (∃ k d, k ≤ N * (D.length + 1) ∧ Steps acts eof k c d ∧ Stop acts eof d) ∨
      (¬ Halts acts eof c ∧ ∃ A, Renames D A A) := by
  intro N
  induction N using Nat.strongRecOn with
  | _ N ih =>
  intro c hN hi hT
  rcases h.units_or he (D.length + 1) c hi hT with ⟨k, e, hk, hst, hsh⟩ | ⟨l, d, g1, g2⟩
  · rw [hN] at hsh
    rcases hsh with hs | ⟨d, hmv, hlt⟩
    · refine .inl ⟨k, e, ?_, hst, hs⟩
      by_cases h0 : N = 0
      · -- nothing is on the stacks and nothing is left
        have hz : c.trees = [] := by
          cases hc : c.trees with
          | nil => rfl
          | cons _ _ => simp only [Conf.size, hc, List.length_cons] at hN; omega
        cases hst with
        | refl => exact Nat.zero_le _
        | head m _ =>
          exfalso
          cases m with
          | shift _ => simp only [Conf.size, List.length_cons] at hN; omega
          | reduce hc h1 _ _ =>
            simp only at hz
            subst hz
            have := h.noEmpty _ _ _ (h.reduce_stack hi hc).1
            simp at h1
            exact this h1
      · have : 1 * (D.length + 1) ≤ N * (D.length + 1) := Nat.mul_le_mul_right _ (by omega)
        omega
    · have hs' := hst.trans (.head hmv (.refl _))
      have hm : Moves acts eof c d := hs'.moves
      rcases ih d.size hlt d rfl (h.inv_moves hi hm)
        (fun tok htok => hT tok (hm.buf_suffix tok htok)) with ⟨k', d', g1, g2, g3⟩ | ⟨g1, g2⟩
      · refine .inl ⟨k + 1 + k', d', ?_, hs'.trans g2, g3⟩
        have : (d.size + 1) * (D.length + 1) ≤ N * (D.length + 1) := Nat.mul_le_mul_right _ hlt
        rw [Nat.add_mul] at this
        omega
      · refine .inr ⟨?_, g2⟩
        rintro ⟨e', hm', hs⟩
        obtain ⟨n, hm'⟩ := hm'.steps
        obtain ⟨r, _, hr⟩ := hs'.rest hm' hs
        exact g1 ⟨e', hr.moves, hs⟩
  · exact .inr (h.units_forever hi g2 (by omega))

end

end Lrp
