import Verif.Proofs.Halt

/-! Runs without infinite unit reductions are linear in the length of the input. -/

set_option linter.unusedSectionVars false

namespace Lrp
open Spec
variable {T : Type} [LinOrd T] [DecidableEq T] {M : Type}

/-- So many moves. -/
inductive Steps {M : Type} (acts : ActTable T) (eof : T) : Nat → Conf M T → Conf M T → Prop
  | refl (c : Conf M T) : Steps acts eof 0 c c
  | head {n : Nat} {c d e : Conf M T} : Move acts eof c d → Steps acts eof n d e →
      Steps acts eof (n + 1) c e

theorem Steps.moves {acts : ActTable T} {eof : T} {n : Nat} {c d : Conf M T} (h : Steps acts eof n c d) :
    Moves acts eof c d := by
  induction h with
  | refl => exact .refl _
  | head m _ ih => exact .head m ih

section
variable {D : Decls T} {S : T} {b0 : List T} {states : List (State T)} {acts : ActTable T}
  {next : State T → T → Option Nat} {red : Position T → T → Prop} {eof : T}

/-- A unit reduction over state `i` under the lookahead `y`. -/
def UnitLink (states : List (State T)) (acts : ActTable T) (next : State T → T → Option Nat)
    (i : Nat) (y x x' : T) : Prop :=
  ∃ s, states[i]? = some s ∧ ∃ j k, next s x = some j ∧ (∃ p ∈ s, p.top = some x) ∧
    cellAt acts j y = some (.reduce x' ([x], k))

/-- What the moves still to come are counted with. -/
def Conf.size (c : Conf M T) : Nat := 2 * c.buf.length + c.trees.length

/-- The run stops, or makes a move after which the configuration is smaller. -/
def Shrinks (acts : ActTable T) (eof : T) (N : Nat) (c : Conf M T) : Prop :=
  Stop acts eof c ∨ ∃ d, Move acts eof c d ∧ d.size < N

/-- After at most `m` unit reductions the configuration shrinks, or there are `m` of them. -/
theorem Auto.units (h : Auto D S b0 states acts next red) (he : Terminal D eof) {i : Nat}
    {st : List Nat} {trs : List (Tree M T)} {buf : List (Token M T)} (hT : TerminalToks D buf) :
    ∀ (m j : Nat) (tr : Tree M T), InvC D states next ⟨j :: i :: st, tr :: trs, buf⟩ →
      (∃ k c, k ≤ m ∧ Steps acts eof k ⟨j :: i :: st, tr :: trs, buf⟩ c ∧
        Shrinks acts eof (Conf.size (⟨j :: i :: st, tr :: trs, buf⟩ : Conf M T)) c) ∨
      ∃ X : Nat → T, X 0 = tr.root ∧ ∀ l ≤ m, UnitLink states acts next i (lookSym eof buf) (X l) (X (l + 1)) := by
  intro m
  induction m with
  | zero =>
    intro j tr hi
    have hi' := hi
    obtain ⟨hpath, _⟩ := hi
    cases hpath with
    | @cons _ _ _ syms s p X h1 h2 h3 h4 h5 =>
      rcases h.progress he hi' hT with hs | ⟨j', tok, rest, e, hmv⟩ | ⟨A, b, k, j', i', hc, h6, h7, hb, h8, hmv⟩
      · exact .inl ⟨0, _, Nat.le_refl _, .refl _, .inl hs⟩
      · refine .inl ⟨0, _, Nat.le_refl _, .refl _, .inr ⟨_, hmv, ?_⟩⟩
        subst e
        simp only [Conf.size, List.length_cons]
        omega
      · have hb1 : 1 ≤ b.length := by
          cases b with
          | nil => exact absurd rfl hb
          | cons _ _ => simp
        have hlen : b.length ≤ (tr :: trs).length := by
          have := congrArg List.length h8
          simp only [List.length_map, List.length_reverse, List.length_take] at this
          omega
        by_cases hb2 : 2 ≤ b.length
        · refine .inl ⟨0, _, Nat.le_refl _, .refl _, .inr ⟨_, hmv, ?_⟩⟩
          simp only [Conf.size, List.length_cons, List.length_drop] at hlen ⊢
          omega
        · have hb3 : b.length = 1 := by omega
          have hb4 : b = [tr.root] := by
            rw [hb3] at h8; simpa using h8.symm
          refine .inr ⟨fun l => if l = 0 then tr.root else A, rfl, ?_⟩
          intro l hl
          have : l = 0 := by omega
          subst this
          exact ⟨s, h2, j, k, h5, ⟨p, h3, h4⟩, by simp only [if_true]; rw [← hb4]; exact hc⟩
  | succ m ih =>
    intro j tr hi
    have hi' := hi
    obtain ⟨hpath, _⟩ := hi
    cases hpath with
    | @cons _ _ _ syms s p X h1 h2 h3 h4 h5 =>
      rcases h.progress he hi' hT with hs | ⟨j', tok, rest, e, hmv⟩ | ⟨A, b, k, j', i', hc, h6, h7, hb, h8, hmv⟩
      · exact .inl ⟨0, _, Nat.zero_le _, .refl _, .inl hs⟩
      · refine .inl ⟨0, _, Nat.zero_le _, .refl _, .inr ⟨_, hmv, ?_⟩⟩
        subst e
        simp only [Conf.size, List.length_cons]
        omega
      · have hb1 : 1 ≤ b.length := by
          cases b with
          | nil => exact absurd rfl hb
          | cons _ _ => simp
        have hlen : b.length ≤ (tr :: trs).length := by
          have := congrArg List.length h8
          simp only [List.length_map, List.length_reverse, List.length_take] at this
          omega
        by_cases hb2 : 2 ≤ b.length
        · refine .inl ⟨0, _, Nat.zero_le _, .refl _, .inr ⟨_, hmv, ?_⟩⟩
          simp only [Conf.size, List.length_cons, List.length_drop] at hlen ⊢
          omega
        · have hb3 : b.length = 1 := by omega
          have hb4 : b = [tr.root] := by
            rw [hb3] at h8; simpa using h8.symm
          rw [hb3] at hmv
          simp only [List.drop_succ_cons, List.drop_zero, List.take_succ_cons, List.take_zero,
            List.reverse_singleton] at hmv
          have hlink : UnitLink states acts next i (lookSym eof buf) tr.root A :=
            ⟨s, h2, j, k, h5, ⟨p, h3, h4⟩, by rw [← hb4]; exact hc⟩
          rcases ih j' (.node A k [tr]) (h.inv_move hi' hmv) with ⟨k', c, k1, k2, k3⟩ | ⟨X, k1, k2⟩
          · exact .inl ⟨k' + 1, c, by omega, .head hmv k2, k3⟩
          · refine .inr ⟨fun l => if l = 0 then tr.root else X (l - 1), rfl, ?_⟩
            intro l hl
            cases l with
            | zero =>
              simp only [if_true, Nat.zero_add, Nat.succ_ne_zero, if_false, Nat.sub_self]
              rw [k1]
              exact hlink
            | succ l =>
              simp only [Nat.succ_ne_zero, if_false, Nat.add_sub_cancel]
              exact k2 l (by omega)

/-- More unit reductions than nonterminals: they may go on forever. -/
theorem Auto.loop_of_links (h : Auto D S b0 states acts next red) {i : Nat} {y : T} {X : Nat → T}
    (hX : ∀ l ≤ D.length, UnitLink states acts next i y (X l) (X (l + 1))) :
    ∃ X', UnitLoop states acts next i y X' := by
  have hmem : ∀ l ≤ D.length, X (l + 1) ∈ D.map Prod.fst := by
    intro l hl
    obtain ⟨s, hs, j, k, _, _, hc⟩ := hX l hl
    have hn : Nonterminal D (X (l + 1)) := by
      unfold cellAt at hc
      cases hr : acts[j]? with
      | none => rw [hr] at hc; cases hc
      | some row =>
        rw [hr] at hc
        exact (h.row_at hr hc).2 _ _ rfl
    apply Classical.byContradiction
    intro hne
    refine not_terminal_iff.mpr hn ?_
    intro d hd e
    exact hne (e ▸ List.mem_map_of_mem hd)
  have hnot : ¬ ((List.range (D.length + 1)).map (fun l => X (l + 1))).Nodup := by
    intro hn
    have := List.Nodup.length_le_of_subset hn (l₂ := D.map Prod.fst) (by
      intro x hx
      obtain ⟨l, hl, rfl⟩ := List.mem_map.mp hx
      rw [List.mem_range] at hl
      exact hmem l (by omega))
    simp only [List.length_map, List.length_range] at this
    omega
  have hrep : ∃ a b, a < b ∧ b ≤ D.length ∧ X (a + 1) = X (b + 1) := by
    apply Classical.byContradiction
    intro hne
    apply hnot
    refine List.pairwise_map.mpr ?_
    refine List.Pairwise.imp_of_mem ?_ (List.pairwise_lt_range (n := D.length + 1))
    intro a b _ hb hlt e
    rw [List.mem_range] at hb
    exact hne ⟨a, b, hlt, by omega, e⟩
  obtain ⟨a, b, hlt, hle, e⟩ := hrep
  obtain ⟨s, hs, _⟩ := hX 0 (Nat.zero_le _)
  refine ⟨fun m => X (a + 1 + m % (b - a)), s, hs, ?_⟩
  intro m
  have hp : 0 < b - a := by omega
  have hm : m % (b - a) < b - a := Nat.mod_lt _ hp
  obtain ⟨s', hs', j, k, k1, k2, k3⟩ := hX (a + 1 + m % (b - a)) (by omega)
  rw [hs] at hs'
  cases hs'
  refine ⟨j, k, k1, k2, ?_⟩
  rw [k3]
  congr 2
  by_cases hend : m % (b - a) + 1 = b - a
  · have e1 : (m + 1) % (b - a) = 0 := by
      rw [Nat.add_mod, ← Nat.mod_mod m, Nat.mod_mod, ← Nat.add_mod]
      have := Nat.div_add_mod m (b - a)
      have : m + 1 = (b - a) * (m / (b - a)) + (b - a) := by omega
      rw [this, Nat.add_mod_right, Nat.mul_mod_right]
    show X _ = X (a + 1 + (m + 1) % (b - a))
    rw [e1, show a + 1 + m % (b - a) + 1 = b + 1 by omega, ← e]
  · have e1 : (m + 1) % (b - a) = m % (b - a) + 1 := by
      have := Nat.div_add_mod m (b - a)
      have : m + 1 = (b - a) * (m / (b - a)) + (m % (b - a) + 1) := by omega
      rw [this, Nat.mul_add_mod, Nat.mod_eq_of_lt (by omega)]
    show X _ = X (a + 1 + (m + 1) % (b - a))
    rw [e1]
    rfl

theorem Steps.trans {m n : Nat} {c d e : Conf M T} (h : Steps acts eof m c d)
    (h' : Steps acts eof n d e) : Steps acts eof (m + n) c e := by
  induction h with
  | refl => simpa using h'
  | head mv _ ih =>
    have := Steps.head mv (ih h')
    rwa [show ∀ a b : Nat, a + 1 + b = a + b + 1 by intros; omega]

/-- The number of moves of a run without infinite unit reductions. -/
theorem Auto.linear (h : Auto D S b0 states acts next red) (he : Terminal D eof)
    (hU : ∀ i st syms y X, Path states next (i :: st) syms → Terminal D y →
      ¬ UnitLoop states acts next i y X) :
    ∀ (N : Nat) (c : Conf M T), c.size = N → InvC D states next c → TerminalToks D c.buf →
      ∃ k d, k ≤ N * (D.length + 1) ∧ Steps acts eof k c d ∧ Stop acts eof d := by
  intro N
  induction N using Nat.strongRecOn with
  | _ N ih =>
  intro c hN hi hT
  -- after some unit reductions
  have shrink : ∀ {k : Nat} {e : Conf M T}, k ≤ D.length → Steps acts eof k c e →
      Shrinks acts eof N e → (k = 0 ∨ 0 < N) →
      ∃ k d, k ≤ N * (D.length + 1) ∧ Steps acts eof k c d ∧ Stop acts eof d := by
    intro k e hk hst hsh h0
    rcases hsh with hs | ⟨d, hmv, hlt⟩
    · refine ⟨k, e, ?_, hst, hs⟩
      rcases h0 with h0 | h0
      · omega
      · have : 1 * (D.length + 1) ≤ N * (D.length + 1) := Nat.mul_le_mul_right _ h0
        omega
    · have hm : Moves acts eof c d := (hst.trans (.head hmv (.refl _))).moves
      obtain ⟨k', d', g1, g2, g3⟩ := ih d.size hlt d rfl (h.inv_moves hi hm)
        (fun tok htok => hT tok (hm.buf_suffix tok htok))
      refine ⟨k + (k' + 1), d', ?_, hst.trans (.head hmv g2), g3⟩
      have : (d.size + 1) * (D.length + 1) ≤ N * (D.length + 1) := Nat.mul_le_mul_right _ hlt
      rw [Nat.add_mul] at this
      omega
  obtain ⟨i0, st0, s0, e0, hs0⟩ := h.path_state hi.path
  obtain ⟨sts, trs, buf⟩ := c
  simp only at e0 hT; subst e0
  cases trs with
  | nil =>
    rcases h.progress he hi hT with hs | ⟨j', tok, rest, e, hmv⟩ | ⟨A, b, k, j', i', hc, h6, h7, hb, h8, hmv⟩
    · exact shrink (Nat.zero_le _) (.refl _) (.inl hs) (.inl rfl)
    · refine shrink (Nat.zero_le _) (.refl _) (.inr ⟨_, hmv, ?_⟩) (.inl rfl)
      rw [← hN, e]
      simp only [Conf.size, List.length_cons]
      omega
    · simp at h8; exact absurd h8 hb
  | cons tr trs =>
    have hpath := hi.path
    cases hpath with
    | @cons i _ st' syms s p X h1 h2 h3 h4 h5 =>
      rcases h.units he hT D.length _ tr hi with ⟨k, e, g1, g2, g3⟩ | ⟨X, _, g2⟩
      · rw [hN] at g3
        refine shrink g1 g2 g3 (.inr ?_)
        rw [← hN]
        simp only [Conf.size, List.length_cons]
        omega
      · exfalso
        obtain ⟨X', hX'⟩ := h.loop_of_links g2
        exact hU i st' _ _ X' h1 (terminal_lookSym he hT) hX'

/-- A run of so many moves, and the calls of the observer. -/
theorem Auto.ran_steps (h : Auto D S b0 states acts next red) (he : Terminal D eof)
    {maps : ReductMap M T} {k : Nat} {c c' : Conf M T} (hm : Steps acts eof k c c')
    (hstop : Stop acts eof c') {σ : Type} (g : σ → Dfa M T → σ) (μ : σ → Nat)
    (hμ : ∀ s d, μ (g s d) ≤ μ s + 1) :
    ∀ {d : Dfa M T}, InvC D states next c → Sim acts eof maps d c →
      TerminalToks D c.buf → ∀ tf n, 2 ≤ tf → k + 2 ≤ n → ∀ s,
        (∃ p, Dfa.traceWith (fun s d => (g s d, d)) tf n s d = .panic p) ∨
        ∃ s' r, Dfa.traceWith (fun s d => (g s d, d)) tf n s d = .ok (s', r) ∧ μ s' ≤ μ s + (k + 1) := by
  induction hm with
  | refl c =>
    intro d hi hd hb tf n htf hn s
    obtain ⟨n, rfl⟩ : ∃ m, n = m + 2 := ⟨n - 2, by omega⟩
    unfold Dfa.traceWith
    rw [hd.finished]
    simp only [Bool.false_eq_true, if_false]
    have := hμ s d
    rcases h.travel_cases hi hd (terminal_lookSym he hb) htf with
      ⟨c', d', m, hs, e⟩ | ⟨ha, e⟩ | ⟨d', er, hfl, e⟩ | ⟨p, hp, e⟩
    · exfalso
      rcases hstop with ha | ⟨e, hf⟩
      · exact ha.no_move m
      · exact hf.no_move m
    · rw [e]; right; exact ⟨g s d, _, by simp [Dfa.traceWith]; rfl, by omega⟩
    · rw [e]; right; exact ⟨g s d, _, rfl, by omega⟩
    · rw [e]; left; exact ⟨p, rfl⟩
  | @head k c1 c2 c3 m _ ih =>
    intro d hi hd hb tf n htf hn s
    obtain ⟨n, rfl⟩ : ∃ m, n = m + 1 := ⟨n - 1, by omega⟩
    unfold Dfa.traceWith
    rw [hd.finished]
    simp only [Bool.false_eq_true, if_false]
    have := hμ s d
    rcases h.travel_cases hi hd (terminal_lookSym he hb) htf with
      ⟨c', d', m', hs, e⟩ | ⟨ha, e⟩ | ⟨d', er, hfl, e⟩ | ⟨p, hp, e⟩
    · have := m.det m'; subst this
      rw [e]
      simp only [Out.ok_bind]
      rcases ih hstop (h.inv_move hi m) hs (fun t ht => hb t (m.buf_suffix t ht)) tf n htf (by omega)
        (g s d) with h1 | ⟨s', r, h1, h2⟩
      · exact .inl h1
      · exact .inr ⟨s', r, h1, by omega⟩
    · exact absurd m (fun m => ha.no_move m)
    · exact absurd m (fun m => hfl.no_move m)
    · rw [e]; left; exact ⟨p, rfl⟩

/-- An observer that leaves the automaton alone does not change the outcome. -/
theorem Dfa.traceWith_look {σ : Type} (g : σ → Dfa M T → σ) (tf : Nat) : ∀ (n : Nat) (s : σ) (d : Dfa M T),
    (do let r ← Dfa.traceWith (fun s d => (g s d, d)) tf n s d; return r.2) = Dfa.trace id tf n d := by
  intro n
  induction n with
  | zero => intro s d; rfl
  | succ n ih =>
    intro s d
    unfold Dfa.traceWith Dfa.trace
    split
    · rfl
    · simp only [id]
      cases Dfa.travel tf d d.symbol with
      | fuel => rfl
      | panic p => rfl
      | ok r =>
        obtain ⟨d', e | u⟩ := r
        · rfl
        · exact ih _ _

/-- The rounds of the loop of `Dfa::trace` over an input. -/
theorem Auto.rounds (h : Auto D S b0 states acts next red) (he : Terminal D eof)
    (hU : ∀ i st syms y X, Path states next (i :: st) syms → Terminal D y →
      ¬ UnitLoop states acts next i y X)
    (maps : ReductMap M T) {toks : List (Token M T)} (hT : TerminalToks D toks) {n tf : Nat}
    (hn : 2 * toks.length * (D.length + 1) + 2 ≤ n) (htf : 2 ≤ tf)
    {σ : Type} (g : σ → Dfa M T → σ) (μ : σ → Nat) (hμ : ∀ s d, μ (g s d) ≤ μ s + 1) (s : σ) :
    (∃ p, Dfa.traceWith (fun s d => (g s d, d)) tf n s (Dfa.new toks acts maps eof) = .panic p) ∨
    ∃ s' r, Dfa.traceWith (fun s d => (g s d, d)) tf n s (Dfa.new toks acts maps eof) = .ok (s', r) ∧
      μ s' ≤ μ s + (2 * toks.length * (D.length + 1) + 1) := by
  obtain ⟨k, d, h1, h2, h3⟩ := h.linear he hU (2 * toks.length) ⟨[0], [], toks⟩ (by simp [Conf.size])
    (inv_init D states next toks) hT
  rcases h.ran_steps he (maps := maps) h2 h3 g μ hμ (inv_init D states next toks)
    (sim_init acts eof maps toks) hT tf n htf (by omega) s with h4 | ⟨s', r, h4, h5⟩
  · exact .inl h4
  · exact .inr ⟨s', r, h4, by omega⟩

end

end Lrp
