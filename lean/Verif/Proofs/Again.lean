import Verif.Spec.Again
import Verif.Proofs.Runs
import Verif.Proofs.Views

/-! What a run leaves behind: a `Dfa` that gives the same result again. -/

set_option linter.unusedSectionVars false

namespace Lrp
open Spec
variable {T : Type} [LinOrd T] [DecidableEq T] {M : Type}

/-! ### Columns of nonterminals -/

section
variable {k : Method} {dbg : Bool} {D : Decls T} {S eof : T} {t : Tabler T}

theorem lookSyms_terminal (h : t.Of D S eof) (he : Terminal D eof)
    (hf : ∀ A x, Tabler.Has t.first A x → Terminal D x) {x : T} (hx : x ∈ lookSyms t) : Terminal D x := by
  rcases List.mem_append.mp hx with hx | hx
  · obtain ⟨b, _, e⟩ := h.grammar.basis
    have e' : t.basisPos = _ := e
    rw [e'] at hx
    simp only [List.mem_singleton] at hx
    exact hx ▸ he
  · obtain ⟨Z, hZ, hx⟩ := List.mem_flatMap.mp hx
    unfold symLook at hx
    cases hg : t.first.get? Z with
    | none =>
      rw [hg] at hx
      simp only [List.mem_singleton] at hx
      subst hx
      refine Classical.byContradiction (fun hn => ?_)
      obtain ⟨s, hs⟩ := (h.firstT.keys x).mpr (not_terminal_iff.mp hn)
      rw [hg] at hs; cases hs
    | some f =>
      rw [hg] at hx
      simp only [OSet.mem_extend, List.not_mem_nil, false_or] at hx
      exact hf Z x ⟨f, hg, hx⟩

/-- Lookaheads of reductions are terminals if FIRST and FOLLOW hold only terminals. -/
theorem Spec.Makes.looksTerminal (h : Makes k dbg D S eof t) (he : Terminal D eof)
    (hf : ∀ A x, Tabler.Has t.first A x → Terminal D x)
    (hl : ∀ A x, Tabler.Has t.follow A x → Terminal D x) : ∃ b0 next red,
    Auto D S b0 t.states t.actions next red ∧
      ∀ (i : Nat) s p x, t.states[i]? = some s → p ∈ s → red p x → Terminal D x := by
  have hof := h.of
  obtain ⟨g, hg, n, hb⟩ := h
  cases k with
  | slr =>
    have hb := Slr.built (Grammar.of_new hg) hb
    obtain ⟨b0, hb0, _⟩ := hb.basis_eq
    exact ⟨b0, _, _, hb.auto hb0, fun i s p x hs hp hrd => hl _ _ hrd⟩
  | clr =>
    have hb := Clr.built (Grammar.of_new hg) hb
    obtain ⟨b0, hb0, _⟩ := hb.basis_eq
    refine ⟨b0, _, _, hb.auto hb0, fun i s p x hs hp hrd => ?_⟩
    have hl0 : eof ∈ lookSyms t := by
      refine List.mem_append_left _ ?_
      obtain ⟨b, _, e⟩ := hb.basis_eq
      rw [e]; simp
    exact lookSyms_terminal hof he hf (hb.look_rel (lookRel_any hb.of) hl0 i s hs p hp x hrd)
  | lalr =>
    obtain ⟨l, hlr, e⟩ := Out.bind_eq_ok.mp hb
    cases e
    obtain ⟨t0, _, hb1, _⟩ := Lalr.built (Grammar.of_new hg) hlr
    obtain ⟨b0, hb0, _⟩ := hb1.of.grammar.basis
    refine ⟨b0, _, _, hb1.auto hb0, fun i s p x hs hp hrd => ?_⟩
    obtain ⟨l0, h0, e1, e2, e3⟩ := hb1.coll
    refine lookSyms_terminal hb1.of he (fun A x hx => hf A x ?_)
      ((h0.inv.good i s (by rw [e2]; exact hs) p hp).look x hrd)
    rw [hb1.first]; exact hx

theorem Spec.GotoColumns.plain (h : GotoColumns D t) : PlainColumns D t.actions := by
  rintro i A a b hA ⟨row, hr, hc⟩
  obtain ⟨j, e⟩ := h i row A _ hr hA hc
  cases e

theorem Spec.Makes.gotoColumns (h : Makes k dbg D S eof t) (he : Terminal D eof)
    (hf : ∀ A x, Tabler.Has t.first A x → Terminal D x)
    (hl : ∀ A x, Tabler.Has t.follow A x → Terminal D x) : GotoColumns D t := by
  obtain ⟨b0, next, red, ha, hred⟩ := h.looksTerminal he hf hl
  intro i row A c hr hA hc
  have hi : i < t.states.length := by
    rw [← ha.len]; exact (List.getElem?_eq_some_iff.mp hr).1
  have hs := List.getElem?_eq_getElem hi
  obtain ⟨_, hcell⟩ := ha.cell hs hr
  have hdec : ∀ a, Dec D S (next t.states[i]) red t.states[i] A a → ∃ j, next t.states[i] A = some j ∧ a = .goto j := by
    rintro a (⟨p, hp, ht, j, hj, ⟨hT, _⟩ | ⟨_, rfl⟩⟩ | ⟨p, hp, _, hrd, _⟩)
    · exact absurd hT (not_terminal_iff.mpr hA)
    · exact ⟨j, hj, rfl⟩
    · exact absurd (hred _ _ _ _ hs hp hrd) (not_terminal_iff.mpr hA)
  by_cases hcf : ∃ x y, c = .conflict x y
  · exfalso
    obtain ⟨a, a', h1, h2, hne⟩ := ((hcell A).conflict c hc).mp hcf
    obtain ⟨j, e1, rfl⟩ := hdec a h1
    obtain ⟨j', e2, rfl⟩ := hdec a' h2
    rw [e1] at e2; cases e2
    exact hne rfl
  · obtain ⟨a, haa⟩ := among_exists c
    obtain ⟨j, _, rfl⟩ := hdec a (((hcell A).among c hc a).mp haa)
    rcases among_eq haa with rfl | hx
    · exact ⟨j, rfl⟩
    · exact absurd hx hcf

end

/-! ### The end of a run -/

section
variable {D : Decls T} {S eof : T} {b0 : List T} {states : List (State T)} {acts : ActTable T}
  {next : State T → T → Option Nat} {red : Position T → T → Prop} {maps : ReductMap M T}

/-- The reduction due at `c`, if any, meets no conflict under its nonterminal. -/
def NoInner (acts : ActTable T) (eof : T) (c : Conf M T) : Prop :=
  ∀ {i st A b k i'}, c.states = i :: st → cellAt acts i (lookSym eof c.buf) = some (.reduce A (b, k)) →
    (i :: st)[b.length]? = some i' → ∀ x y, cellAt acts i' A ≠ some (.conflict x y)

theorem Auto.noInner (h : Auto D S b0 states acts next red) (hp : PlainColumns D acts) {c : Conf M T}
    (hi : InvC D states next c) : NoInner acts eof c := by
  intro i st A b k i' e h1 _ x y h4
  obtain ⟨i0, st0, s, e0, hs⟩ := h.path_state hi.path
  rw [e] at e0
  simp only [List.cons.injEq] at e0
  obtain ⟨rfl, rfl⟩ := e0
  rcases h.cell_dec hs h1 (by intro x y; simp) with ⟨_, _, _, _, _, ⟨_, hk⟩ | ⟨_, hk⟩⟩ | ⟨p, hps, _, _, ⟨_, hk⟩ | ⟨_, hk⟩⟩
  · cases hk
  · cases hk
  · cases hk
  · injection hk with hA _
    obtain ⟨row, h5, h6⟩ := Option.bind_eq_some_iff.mp h4
    exact absurd ⟨row, h5, h6⟩ (hp _ _ _ _ (hA ▸ (h.prod hs hps).1.nonterminal))

/-- A failing lookup changes nothing, except that `finished` is set if the input goes on after the end. -/
theorem Auto.fails_travel (h : Auto D S b0 states acts next red) {d : Dfa M T}
    {c : Conf M T} (hi : InvC D states next c) (hd : Sim acts eof maps d c) {e : Error T}
    (hp : NoInner acts eof c ∨ ∀ a b, e ≠ .conflict a b) (hf : Fails acts eof c e) (n : Nat) :
    (e ≠ .incompleteExec ∧ Dfa.travel (n + 1) d d.symbol = .ok (d, .error e)) ∨
    (e = .incompleteExec ∧ Dfa.travel (n + 1) d d.symbol = .ok ({ d with finished := true }, .error e)) := by
  rw [hd.symbol]
  have htop : ∀ {i st}, c.states = i :: st → d.top = i := by
    intro i st e
    have := hd.top
    rw [e] at this; simpa using this.symm
  have hrow : ∀ {i st x a}, c.states = i :: st → cellAt acts i x = some a →
      ∃ row, d.table[d.top]? = some row ∧ row.get? x = some a := by
    intro i st x a e1 e2
    obtain ⟨row, hr, hc⟩ := Option.bind_eq_some_iff.mp e2
    exact ⟨row, by rw [hd.table, htop e1]; exact hr, hc⟩
  cases hf with
  | noAction hr hg =>
    refine Or.inl ⟨by simp, ?_⟩
    unfold Dfa.travel
    rw [hd.table, htop rfl, hr]
    simp only [hg]
  | eof hc =>
    obtain ⟨row, h1, h2⟩ := hrow rfl hc
    refine Or.inl ⟨by simp, ?_⟩
    have hb : d.buffer = [] := hd.buffer
    unfold Dfa.travel
    rw [h1]
    simp only [lookSym, h2, Dfa.shift, hb]
  | conflict hc =>
    obtain ⟨row, h1, h2⟩ := hrow rfl hc
    refine Or.inl ⟨by simp, ?_⟩
    unfold Dfa.travel
    rw [h1]
    simp only [h2]
  | incomplete hc hne =>
    obtain ⟨row, h1, h2⟩ := hrow rfl hc
    refine Or.inr ⟨rfl, ?_⟩
    unfold Dfa.travel
    rw [h1]
    simp only [h2, Dfa.accept]
    cases hb : d.buffer with
    | nil => exact absurd (hd.buffer.symm.trans hb) hne
    | cons _ _ => rfl
  | @conflict' i i' k st trs buf A b a c' h1 h2 h3 h4 =>
    rcases hp with hp | hp
    · exact absurd h4 (hp rfl h1 h3 _ _)
    · exact absurd rfl (hp _ _)

/-- How a run ends. -/
theorem Auto.trace_again {t : Tabler T} {toks : List (Token M T)}
    (h : Auto D S b0 t.states t.actions next red) (he : Terminal D eof)
    (tf : Nat) : ∀ (n : Nat) {d d' : Dfa M T} {c : Conf M T} {r : Except (Error T) Unit},
      (∀ c', Moves t.actions eof c c' → NoInner t.actions eof c') ∨ (∀ a b, r ≠ .error (.conflict a b)) →
      InvC D t.states next c → Sim t.actions eof maps d c → (∀ t ∈ c.buf, Terminal D t.ty) →
      Reached t maps toks d → Dfa.trace id tf n d = .ok (d', r) →
      (r = .ok () ∧ Reached t maps toks d') ∨
      (r = .error .incompleteExec) ∨
      ∃ e, r = .error e ∧ Reached t maps toks d' ∧ d'.finished = false ∧
        (∃ c', Moves t.actions eof c c' ∧ Sim t.actions eof maps d' c' ∧ Fails t.actions eof c' e) ∧
        ∀ m, Dfa.travel (m + 1) d' d'.symbol = .ok (d', .error e) := by
  intro n
  induction n with
  | zero => intro d d' c r _ _ _ _ _ hrun; cases hrun
  | succ n ih =>
    intro d d' c r hp hi hd hb hre hrun
    unfold Dfa.trace at hrun
    rw [hd.finished] at hrun
    simp only [Bool.false_eq_true, if_false, id] at hrun
    obtain ⟨⟨d1, r1⟩, h1, h2⟩ := Out.bind_eq_ok.mp hrun
    have h1' := (Dfa.travel_le (Nat.le_add_right tf 2) d d.symbol).ok h1
    rcases h.travel_cases hi hd (terminal_lookSym he hb) (n := tf + 2) (by omega) with
      ⟨c', d2, m, hs, e⟩ | ⟨ha, e⟩ | ⟨d2, er, hfl, e⟩ | ⟨p, hp', e⟩
    · rw [e] at h1'; cases h1'
      rcases ih (hp.imp (fun hp c' hm => hp c' (.head m hm)) id) (h.inv_move hi m) hs
        (fun t ht => hb t (m.buf_suffix t ht)) (.step hre hd.finished h1) h2 with
        h3 | h3 | ⟨e, h3, h4, h5, ⟨c', h6, h7⟩, h8⟩
      · exact Or.inl h3
      · exact Or.inr (Or.inl h3)
      · exact Or.inr (Or.inr ⟨e, h3, h4, h5, ⟨c', .head m h6, h7⟩, h8⟩)
    · rw [e] at h1'; cases h1'
      simp only at h2
      cases n with
      | zero => cases h2
      | succ n =>
        unfold Dfa.trace at h2
        simp only [if_true] at h2
        cases h2
        exact Or.inl ⟨rfl, .step hre hd.finished h1⟩
    · rw [e] at h1'; cases h1'
      cases h2
      have hp : NoInner t.actions eof c ∨ ∀ a b, er ≠ .conflict a b :=
        hp.imp (fun hp => hp c (.refl c)) (fun hp a b e => hp a b (e ▸ rfl))
      rcases h.fails_travel hi hd hp hfl (tf + 1) with ⟨hne, e'⟩ | ⟨rfl, e'⟩
      · have := e'.symm.trans e
        cases this
        refine Or.inr (Or.inr ⟨er, rfl, hre, hd.finished, ⟨c, .refl c, hd, hfl⟩, fun m => ?_⟩)
        rcases h.fails_travel hi hd hp hfl m with ⟨_, e2⟩ | ⟨h3, _⟩
        · exact e2
        · exact absurd h3 hne
      · exact Or.inr (Or.inl rfl)
    · rw [e] at h1'; cases h1'

end

/-- `IncompleteExec` is reported by `accept` only. -/
theorem Dfa.travel_incomplete : ∀ (n : Nat) {d d' : Dfa M T} {x : T},
    Dfa.travel n d x = .ok (d', .error .incompleteExec) → d'.finished = true := by
  intro n
  induction n with
  | zero => intro d d' x h; cases h
  | succ n ih =>
    intro d d' x h
    unfold Dfa.travel at h
    split at h
    · cases h
    · split at h
      · cases h
      · simp only [Dfa.shift] at h; split at h <;> cases h
      · cases h
      · obtain ⟨d1, _, h2⟩ := Out.bind_eq_ok.mp h
        exact ih h2
      · simp only [Dfa.accept] at h; split at h <;> cases h; rfl
      · cases h

theorem Dfa.trace_finished (f : Dfa M T → Dfa M T) (tf : Nat) : ∀ (n : Nat) {d d' : Dfa M T}
    {r : Except (Error T) Unit}, Dfa.trace f tf n d = .ok (d', r) →
    r = .ok () ∨ r = .error .incompleteExec → d'.finished = true := by
  intro n
  induction n with
  | zero => intro d d' r h; cases h
  | succ n ih =>
    intro d d' r h hr
    unfold Dfa.trace at h
    split at h
    · cases h; assumption
    · obtain ⟨⟨d1, r1⟩, h1, h2⟩ := Out.bind_eq_ok.mp h
      cases r1 with
      | error e =>
        cases h2
        rcases hr with hr | hr
        · cases hr
        · cases hr; exact Dfa.travel_incomplete _ h1
      | ok _ => exact ih h2 hr

end Lrp
