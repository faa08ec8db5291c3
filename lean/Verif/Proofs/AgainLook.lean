import Verif.Proofs.Again
import Verif.Proofs.Power

/-! In Clr and Lalr tables a lookahead that is a nonterminal comes with the terminals it begins with. So no
conflict is ever met under a nonterminal: it has been met before, under the terminal. -/

set_option linter.unusedSectionVars false

namespace Lrp
open Spec
variable {T : Type} [LinOrd T] [DecidableEq T] {M : Type}

/-- With a nonterminal, the terminals that it can begin with. -/
def FullLook (D : Decls T) (l : List T) : Prop :=
  ∀ A x, A ∈ l → Nonterminal D A → Terminal D x → InFirst D A x → x ∈ l

/-- The same for the lookaheads under which a table reduces. -/
def FullReds (D : Decls T) (states : List (State T)) (red : Position T → T → Prop) : Prop :=
  ∀ (i : Nat) s p A x, states[i]? = some s → p ∈ s → red p A → Nonterminal D A → Terminal D x →
    InFirst D A x → red p x

section
variable {k : Method} {dbg : Bool} {D : Decls T} {S eof : T} {t : Tabler T}

theorem fullLook_symLook (h : t.Of D S eof) (Z : T) : FullLook D (symLook t.first Z) := by
  intro A x hA hN hx hf
  unfold symLook at hA ⊢
  cases hg : t.first.get? Z with
  | none =>
    rw [hg] at hA
    simp only [List.mem_singleton] at hA
    subst hA
    obtain ⟨s, hs⟩ := (h.firstT.keys A).mpr hN
    rw [hg] at hs; cases hs
  | some f =>
    rw [hg] at hA
    simp only [OSet.mem_extend, List.not_mem_nil, false_or] at hA ⊢
    obtain ⟨v, hv⟩ := h.firstAny Z A ⟨f, hg, hA⟩
    obtain ⟨w, hw⟩ := hf
    have : InFirst D Z x := ⟨w ++ v, hv.trans (hw.append (.refl v))⟩
    obtain ⟨f', h1, h2⟩ := (h.first Z x ((h.firstT.keys Z).mp ⟨f, hg⟩) hx).mpr this
    rw [hg] at h1; cases h1
    exact h2

theorem fullLook_adds (h : t.Of D S eof) {p q : Position T} (ha : Adds t.grammar.rules (clrLook t.first) p q)
    (hp : FullLook D p.look) : FullLook D q.look := by
  obtain ⟨_, _, _, h4⟩ := adds_prod h.grammar ha
  rw [h4]
  cases hn : p.next with
  | none => rw [clrLook_none hn]; exact hp
  | some Z => rw [clrLook_some hn]; exact fullLook_symLook h Z

theorem fullLook_basis (h : t.Of D S eof) (he : Terminal D eof) : FullLook D t.basisPos.look := by
  obtain ⟨b, _, e⟩ := h.grammar.basis
  have e' : t.basisPos = _ := e
  rw [e']
  intro A x hA hN
  simp only [List.mem_singleton] at hA
  subst hA
  exact absurd he (not_terminal_iff.mpr hN)

theorem fullGood (h : t.Of D S eof) :
    GoodPred t (lookPositions t) (fun p => GoodPos D (fun _ x => x ∈ lookSyms t) p ∧ FullLook D p.look) := by
  have hg := goodPred h (lookRel_any h)
  refine ⟨fun hp => hg.mem hp.1, hg.vadds, ?_, ?_, fun hp => hg.set hp.1, ?_⟩
  · intro p q hp ha
    exact ⟨hg.adds hp.1 ha, fullLook_adds h ha hp.2⟩
  · intro p X hp ht
    exact ⟨hg.adv hp.1 ht, hp.2⟩
  · intro s m hm hs q hq
    refine ⟨hg.merge hm (fun p hp => (hs p hp).1) q hq, ?_⟩
    intro A x hA hN hx hf
    obtain ⟨p, h1, h2, h3⟩ := (hm.look q hq A).mp hA
    exact (hm.look q hq x).mpr ⟨p, h1, h2, (hs p h1).2 A x h3 hN hx hf⟩

/-- The lookaheads of Clr and Lalr tables. -/
theorem Spec.Makes.fullReds (h : Makes k dbg D S eof t) (hk : k ≠ .slr) (he : Terminal D eof) : ∃ b0 next red,
    Auto D S b0 t.states t.actions next red ∧ FullReds D t.states red := by
  obtain ⟨g, hg, n, hb⟩ := h
  cases k with
  | slr => exact absurd rfl hk
  | clr =>
    have hb := Clr.built (Grammar.of_new hg) hb
    obtain ⟨b0, hb0, _⟩ := hb.basis_eq
    refine ⟨b0, _, _, hb.auto hb0, ?_⟩
    have := Coll.all hb.coll (P := fun p => FullLook D p.look) (fullLook_basis hb.of he)
      (fun p q hp ha => fullLook_adds hb.of ha hp) (fun p X hp _ => hp)
    intro i s p A x hs hp hr hN hx hf
    exact this i s hs p hp A x hr hN hx hf
  | lalr =>
    obtain ⟨l, hlr, e⟩ := Out.bind_eq_ok.mp hb
    cases e
    obtain ⟨t0, hb1⟩ := Lalr.built_good (Grammar.of_new hg) hlr
      (G := fun t p => GoodPos D (fun _ x => x ∈ lookSyms t) p ∧ FullLook D p.look)
      (fun t0 hof => ⟨fullGood hof, ⟨goodPos_basis hof (by
        refine List.mem_append_left _ ?_
        obtain ⟨b, _, e⟩ := hof.grammar.basis
        have e' : t0.basisPos = _ := e
        rw [e']; simp), fullLook_basis hof he⟩, fun hp => ⟨hp.1.prod, hp.1.le⟩⟩)
    obtain ⟨b0, hb0, _⟩ := hb1.of.grammar.basis
    refine ⟨b0, _, _, hb1.auto hb0, ?_⟩
    intro i s p A x hs hp hr hN hx hf
    exact (hb1.goodAt hs hp).2 A x hr hN hx hf

end

/-! ### Below every tree on the stack there is a state that shifted its first token -/

section
variable {D : Decls T} {S eof : T} {b0 : List T} {states : List (State T)} {acts : ActTable T}
  {next : State T → T → Option Nat} {red : Position T → T → Prop} {maps : ReductMap M T}

/-- Under every tree there is the state that shifted the first token of the tree. -/
def Shifted (acts : ActTable T) (eof : T) (c : Conf M T) : Prop :=
  ∀ n, 0 < n → n ≤ c.trees.length → ∃ i j, c.states[n]? = some i ∧
    cellAt acts i (lookSym eof (Tree.yields (c.trees.take n).reverse ++ c.buf)) = some (.shift j)

theorem Shifted.move {c c' : Conf M T} (h : Shifted acts eof c) (hm : Move acts eof c c')
    (hb : ∀ {i st A b k}, c.states = i :: st → cellAt acts i (lookSym eof c.buf) = some (.reduce A (b, k)) → b ≠ []) :
    Shifted acts eof c' := by
  cases hm with
  | @shift i j st trs tok rest h1 =>
    intro n h0 hn
    obtain ⟨n, rfl⟩ : ∃ m, n = m + 1 := ⟨n - 1, by omega⟩
    by_cases hn0 : n = 0
    · subst hn0
      refine ⟨i, j, rfl, ?_⟩
      simpa [Tree.yields_singleton, lookSym] using h1
    · obtain ⟨i', j', h2, h3⟩ := h n (by omega) (by simpa using hn)
      refine ⟨i', j', by simpa using h2, ?_⟩
      simpa [Tree.yields_append, Tree.yields_singleton] using h3
  | @reduce i i' j k st trs buf A b h1 h2 h3 h4 =>
    intro n h0 hn
    obtain ⟨n, rfl⟩ : ∃ m, n = m + 1 := ⟨n - 1, by omega⟩
    have hbl : 0 < b.length := List.length_pos_iff.mpr (hb rfl h1)
    simp only [List.length_cons, List.length_drop] at hn
    obtain ⟨i2, j2, h5, h6⟩ := h (b.length + n) (by omega) (by simp only; omega)
    refine ⟨i2, j2, ?_, ?_⟩
    · simpa [List.getElem?_drop] using h5
    · have e : List.take (b.length + n) trs = trs.take b.length ++ (trs.drop b.length).take n := by
        rw [List.take_add]
      simp only at h6
      rw [e] at h6
      simpa [Tree.yields_append, Tree.yields_singleton, Tree.yield_node] using h6

theorem shifted_init (toks : List (Token M T)) : Shifted acts eof (⟨[0], [], toks⟩ : Conf M T) := by
  intro n h0 hn
  simp only [List.length_nil] at hn
  omega

theorem Auto.shifted (h : Auto D S b0 states acts next red) {c c' : Conf M T} (hm : Moves acts eof c c')
    (hi : InvC D states next c) (hs : Shifted acts eof c) : Shifted acts eof c' := by
  induction hm with
  | refl => exact hs
  | @head c d e m _ ih =>
    refine ih (h.inv_move hi m) (hs.move m ?_)
    intro i st A b k e1 hc
    obtain ⟨sts, trs, buf⟩ := c
    simp only at e1; subst e1
    exact h.noEmpty _ _ _ (h.reduce_stack hi hc).1

/-- A conflict under a nonterminal would have been met before. -/
theorem Auto.noInner_full (h : Auto D S b0 states acts next red) (hr : FullReds D states red) {c : Conf M T}
    (hi : InvC D states next c) (hsh : Shifted acts eof c) : NoInner acts eof c := by
  obtain ⟨sts, trs, buf⟩ := c
  intro i st A b k i' e h1 h3 x y h4
  simp only at e; subst e
  obtain ⟨hp, hne, hlen, hroots, i2, s', q, j, e2, hs', _⟩ := h.reduce_stack hi h1
  rw [h3] at e2; cases e2
  have hb : 0 < b.length := List.length_pos_iff.mpr (h.noEmpty _ _ _ hp)
  obtain ⟨i3, j3, e3, hc3⟩ := hsh b.length hb hlen
  have e3' : (i :: st)[b.length]? = some i3 := e3
  rw [h3] at e3'; cases e3'
  have hval : Tree.Valid D (.node A k (trs.take b.length).reverse) :=
    .node (by rw [hroots]; exact hp) (fun t ht => hi.valid t (List.mem_of_mem_take (List.mem_reverse.mp ht)))
  obtain ⟨tok, rest, hy, hf⟩ := Tree.valid_yield h.noEmpty hval
  rw [Tree.yield_node] at hy
  simp only at hc3
  rw [hy] at hc3
  have hc3 : cellAt acts i' tok.ty = some (.shift j3) := hc3
  have hT : Terminal D tok.ty := by
    rcases h.cell_dec hs' hc3 (by intro x y; simp) with ⟨_, _, _, _, _, ⟨hT, _⟩ | ⟨_, hk⟩⟩ | ⟨_, _, _, _, ⟨_, hk⟩ | ⟨_, hk⟩⟩
    · exact hT
    · cases hk
    · cases hk
    · cases hk
  have hN : Nonterminal D A := hp.nonterminal
  obtain ⟨row, hrow, hcell⟩ := Option.bind_eq_some_iff.mp h4
  obtain ⟨a, a', d1, d2, hd⟩ := (((h.cell hs' hrow).2 A).conflict _ hcell).mp ⟨_, _, rfl⟩
  have key : ∀ a, Dec D S (next s') red s' A a → ∃ j, next s' A = some j ∧ a = .goto j := by
    rintro a (⟨p, hp, ht, j, hj, ⟨hT, _⟩ | ⟨_, rfl⟩⟩ | ⟨p, hps, htop, hrd, hk⟩)
    · exact absurd hT (not_terminal_iff.mpr hN)
    · exact ⟨j, hj, rfl⟩
    · exfalso
      have : Dec D S (next s') red s' tok.ty a := Or.inr ⟨p, hps, htop, hr _ _ _ _ _ hs' hps hrd hN hT hf, hk⟩
      rcases h.dec_cell hs' this with h5 | ⟨_, _, h5⟩
      · rw [hc3] at h5
        rcases hk with ⟨_, rfl⟩ | ⟨_, rfl⟩ <;> cases h5
      · rw [hc3] at h5; cases h5
  obtain ⟨j1, g1, rfl⟩ := key a d1
  obtain ⟨j2, g2, rfl⟩ := key a' d2
  rw [g1] at g2; cases g2
  exact hd rfl

end
end Lrp
