import Verif.Proofs.Complete
import Verif.Proofs.Prefix
import Verif.Proofs.Knuth
import Verif.Proofs.Power
import Verif.Proofs.LalrSound
import Verif.Proofs.AgainLook

/-!
Every conflict under a terminal is met by a run: there is an input that leads to the state of a conflict with
its terminal next, unless another conflict is met on the way.
-/

set_option linter.unusedSectionVars false

namespace Lrp
open Spec
variable {T : Type} [LinOrd T] [DecidableEq T] {M : Type}

section
variable {D : Decls T} {S eof : T} {b0 : List T} {states : List (State T)} {acts : ActTable T}
  {next : State T → T → Option Nat} {red : Position T → T → Prop}

/-- A parse tree of every symbol. -/
theorem productive_tree (hpr : AllProductive D) (m : M) (X : T) : ∃ t : Tree M T, t.root = X ∧ Tree.Valid D t := by
  obtain ⟨w, h1, h2⟩ := productive_list hpr [X]
  have e : w = (w.map (fun t => (⟨m, t⟩ : Token M T))).map Token.ty := by simp [Function.comp_def]
  rw [e] at h1
  obtain ⟨t, k1, k2, _⟩ := Tree.of_derives h1 (by
    intro tok ht
    obtain ⟨t, ht', rfl⟩ := List.mem_map.mp ht
    exact h2 t ht')
  exact ⟨t, k1, k2⟩

/-- The state on top of a path is reached with anything next that one of its positions expects. -/
theorem Looks.arrive (h : Auto D S b0 states acts next red) (hl : Looks D S eof b0 states next red)
    (hS : InNoBody D S) (hpr : AllProductive D) (m : M) {is : List Nat} {syms : List T} (hpath : Path states next is syms) :
    ∀ {i : Nat} {st : List Nat} {s : State T} {p : Position T} {X : T}, is = i :: st → states[i]? = some s →
      p ∈ s → p.top = some X → ∃ u : List (Token M T), TerminalToks D u ∧
        Derives D syms.reverse (u.map Token.ty) ∧
        ∀ rest : List (Token M T), Terminal D (lookSym eof rest) →
          (X = lookSym eof rest ∨ InFirst D X (lookSym eof rest)) →
          Clash acts eof (⟨[0], [], u ++ rest⟩ : Conf M T) ∨
          ∃ trs, Moves acts eof (⟨[0], [], u ++ rest⟩ : Conf M T) ⟨i :: st, trs, rest⟩ := by
  induction hpath with
  | base =>
    intro i st s p X e hs hp ht
    cases e
    exact ⟨[], fun _ h => (List.not_mem_nil h).elim, .refl _, fun rest _ _ => Or.inr ⟨[], .refl _⟩⟩
  | @cons i0 j st0 syms0 s0 p0 X0 h1 h2 h3 h4 h5 ih =>
    intro i st s p X e hs hps ht
    cases e
    have hprov := h.prov hs hps
    clear hps
    induction hprov generalizing X with
    | @kernel p hp h0 =>
      obtain ⟨j', s', f1, _, f3, f4, _⟩ := h.edge h2 h3 h4
      rw [h5] at f1; cases f1
      rw [hs] at f3; cases f3
      obtain ⟨q, hq, hqt, hqb⟩ := f4 p hp h0
      obtain ⟨u, hu, hder, hrun⟩ := ih rfl h2 hq hqt
      obtain ⟨tr, hroot, hv⟩ := productive_tree hpr m X0
      refine ⟨u ++ tr.yield, ?_, ?_, ?_⟩
      · intro tok htok
        rcases List.mem_append.mp htok with h | h
        · exact hu tok h
        · exact hv.terminals tok h
      · have := hv.derives
        rw [hroot] at this
        rw [List.reverse_cons, List.map_append]
        exact hder.append this
      · intro rest hT hX
        obtain ⟨tok, r, hy, hf⟩ := Tree.valid_yield h.noEmpty hv
        have hn : q.next = some X := by
          rw [← ht, hqb.top]
          unfold Position.next Position.top Position.peek Position.adv
          rfl
        rcases hrun (tr.yield ++ rest) (by
            rw [hy]
            exact hv.terminals tok (by rw [hy]; simp)) (by
            rw [hy, ← hroot]
            exact Or.inr hf) with hc | ⟨trs, hm⟩
        · exact Or.inl (by rw [List.append_assoc]; exact hc)
        · rw [List.append_assoc]
          rcases Looks.follows h hl hS hv i0 st0 s0 q trs rest h2 hq (by rw [hroot]; exact hqt) hT
            (fun e => by rw [hn] at e; cases e) (fun Z e => by rw [hn] at e; cases e; exact hX) with hc | ⟨j', hj', hm'⟩
          · exact Or.inl (hc.of_moves hm)
          · rw [hroot, h5] at hj'; cases hj'
            exact Or.inr ⟨_, hm.trans hm'⟩
    | @basis p hi hp _ _ _ =>
      subst hi
      obtain ⟨j', s', f1, f2, _⟩ := h.edge h2 h3 h4
      rw [h5] at f1; cases f1
      exact absurd rfl f2
    | @step p q hq hqt hp h0 ih2 =>
      obtain ⟨u, hu, hder, hrun⟩ := ih2 hqt
      refine ⟨u, hu, hder, fun rest hT hX => hrun rest hT (Or.inr ?_)⟩
      obtain ⟨hprod, _⟩ := h.prod hs hp
      have hb : ∃ r, p.seq.1 = X :: r := by
        have : p.seq.1[0]? = some X := by simpa [Position.top, Position.peek, h0] using ht
        cases hb : p.seq.1 with
        | nil => rw [hb] at this; cases this
        | cons a r => rw [hb] at this; cases this; exact ⟨r, rfl⟩
      obtain ⟨r, hb⟩ := hb
      have hstep : Derives D [p.rule] (X :: r) := by rw [← hb]; exact .head (by simpa using Step.mk [] [] hprod) (.refl _)
      rcases hX with hX | ⟨v, hv⟩
      · exact ⟨r, hX ▸ hstep⟩
      · exact ⟨v ++ r, hstep.trans (by simpa using hv.append (.refl r))⟩

/-- Where the lookaheads of complete positions come from. -/
def Carried (D : Decls T) (states : List (State T)) (next : State T → T → Option Nat)
    (red : Position T → T → Prop) : Prop :=
  ∀ (i : Nat) s p x, states[i]? = some s → p ∈ s → p.top = none → Terminal D x → red p x →
    ∃ j st syms s' q X, Path states next (j :: st) syms ∧ states[j]? = some s' ∧ q ∈ s' ∧ q.top = some X ∧
      q.next = none ∧ red q x ∧ next s' X = some i

theorem Auto.complete_pos (h : Auto D S b0 states acts next red) {i : Nat} {s : State T} {p : Position T}
    (hs : states[i]? = some s) (hp : p ∈ s) (ht : p.top = none) :
    0 < p.point ∧ p.point = p.seq.1.length := by
  obtain ⟨h1, h2⟩ := h.prod hs hp
  have h3 := top_none ht
  have h4 : 0 < p.seq.1.length := List.length_pos_iff.mpr (h.noEmpty _ _ _ h1)
  omega

theorem next_none_of {p q : Position T} (hb : SameBody p q.adv) (ht : p.top = none) : q.next = none := by
  rw [← ht, hb.top]
  unfold Position.next Position.top Position.peek Position.adv
  rfl

theorem Auto.carried_of (h : Auto D S b0 states acts next red) (hr : Reaches states next)
    (hx : ∀ {i j : Nat} {s s' p X}, states[i]? = some s → p ∈ s → p.top = some X →
      next s X = some j → states[j]? = some s' →
      ∀ q ∈ s', 0 < q.point → ∀ x, red q x → ∃ p ∈ s, p.top = some X ∧ SameBody q p.adv ∧ red p x) :
    Carried D states next red := by
  intro i s p x hs hp ht _ hred
  obtain ⟨h0, _⟩ := h.complete_pos hs hp ht
  obtain ⟨st, syms, hpath⟩ := hr i s hs
  cases hpath with
  | base => have := h.zero hs hp; omega
  | @cons j _ st' syms' s' p' X h1 h2 h3 h4 h5 =>
    obtain ⟨q, hq, hqt, hqb, hqr⟩ := hx h2 h3 h4 h5 hs p hp h0 x hred
    exact ⟨j, st', syms', s', q, X, h1, h2, hq, hqt, next_none_of hqb ht, hqr, h5⟩

/-- A conflict under a terminal is met, unless another one is met before. -/
theorem Looks.meets (h : Auto D S b0 states acts next red) (hl : Looks D S eof b0 states next red)
    (hc : Carried D states next red) (hS : InNoBody D S) (hpr : AllProductive D) (he : Terminal D eof) (m : M) {i : Nat} {x : T}
    (hx : Terminal D x) {a b : Action T} (hcell : cellAt acts i x = some (.conflict a b)) :
    ∃ toks : List (Token M T), TerminalToks D toks ∧ Clash acts eof (⟨[0], [], toks⟩ : Conf M T) := by
  obtain ⟨row, hrow, hc'⟩ := Option.bind_eq_some_iff.mp (show acts[i]?.bind _ = _ from hcell)
  have hi : i < states.length := by rw [← h.len]; exact (List.getElem?_eq_some_iff.mp hrow).1
  have hs : states[i]? = some states[i] := List.getElem?_eq_getElem hi
  generalize states[i] = s at hs
  obtain ⟨a1, a2, d1, d2, hne⟩ := (((h.cell hs hrow).2 x).conflict _ hc').mp ⟨a, b, rfl⟩
  have hcomp : ∃ p ∈ s, p.top = none ∧ red p x := by
    rcases d1 with ⟨p, hp, ht, j, hj, hk⟩ | ⟨p, hp, ht, hr, _⟩
    · rcases d2 with ⟨p', hp', ht', j', hj', hk'⟩ | ⟨p', hp', ht', hr', _⟩
      · rw [hj] at hj'; cases hj'
        rcases hk with ⟨_, rfl⟩ | ⟨hN, _⟩
        · rcases hk' with ⟨_, rfl⟩ | ⟨hN, _⟩
          · exact absurd rfl hne
          · exact absurd hx (not_terminal_iff.mpr hN)
        · exact absurd hx (not_terminal_iff.mpr hN)
      · exact ⟨p', hp', ht', hr'⟩
    · exact ⟨p, hp, ht, hr⟩
  obtain ⟨p, hp, ht, hr⟩ := hcomp
  obtain ⟨j, st, syms, s', q, X, hpath, hs', hq, hqt, hqn, hqr, hnext⟩ := hc i s p x hs hp ht hx hr
  obtain ⟨u, hu, _, hrun⟩ := Looks.arrive h hl hS hpr m hpath rfl hs' hq hqt
  obtain ⟨tr, hroot, hv⟩ := productive_tree hpr m X
  obtain ⟨tok, r, hy, hf⟩ := Tree.valid_yield h.noEmpty hv
  refine ⟨u ++ (tr.yield ++ [⟨m, x⟩]), ?_, ?_⟩
  · intro tok htok
    rcases List.mem_append.mp htok with h | h
    · exact hu tok h
    · rcases List.mem_append.mp h with h | h
      · exact hv.terminals tok h
      · simp only [List.mem_singleton] at h
        subst h; exact hx
  · rcases hrun (tr.yield ++ [⟨m, x⟩]) (by
        rw [hy]
        exact hv.terminals tok (by rw [hy]; simp)) (by
        rw [hy, ← hroot]
        exact Or.inr hf) with hcl | ⟨trs, hm⟩
    · exact hcl
    · rcases Looks.follows h hl hS hv j st s' q trs [⟨m, x⟩] hs' hq (by rw [hroot]; exact hqt) hx
        (fun _ => hqr) (fun Z e => by rw [hqn] at e; cases e) with hcl | ⟨j', hj', hm'⟩
      · exact hcl.of_moves hm
      · rw [hroot, hnext] at hj'; cases hj'
        exact Clash.of_moves (hm.trans hm') (Clash.here ⟨a, b, hcell⟩)

/-- Conflicts under nonterminals come with conflicts under terminals. -/
theorem Auto.conflict_terminal (h : Auto D S b0 states acts next red) (hf : FullReds D states red)
    (hpr : AllProductive D) {i : Nat} {x : T} {a b : Action T} (hcell : cellAt acts i x = some (.conflict a b)) :
    ∃ y a' b', Terminal D y ∧ cellAt acts i y = some (.conflict a' b') := by
  by_cases hx : Terminal D x
  · exact ⟨x, a, b, hx, hcell⟩
  have hN := not_terminal_iff.mp hx
  obtain ⟨w, hw, ht⟩ := hpr x hN
  cases w with
  | nil => exact absurd rfl (derives_ne_nil h.noEmpty hw (by simp))
  | cons y w =>
    have hy : Terminal D y := ht y (by simp)
    have hxy : InFirst D x y := ⟨w, hw⟩
    obtain ⟨row, hrow, hc'⟩ := Option.bind_eq_some_iff.mp (show acts[i]?.bind _ = _ from hcell)
    have hi : i < states.length := by rw [← h.len]; exact (List.getElem?_eq_some_iff.mp hrow).1
    have hs : states[i]? = some states[i] := List.getElem?_eq_getElem hi
    generalize states[i] = s at hs
    obtain ⟨a1, a2, d1, d2, hne⟩ := (((h.cell hs hrow).2 x).conflict _ hc').mp ⟨a, b, rfl⟩
    have key : ∃ c1 c2, Dec D S (next s) red s y c1 ∧ Dec D S (next s) red s y c2 ∧ c1 ≠ c2 := by
      have hsh : ∀ {p : Position T}, p ∈ s → p.top = some x → ∃ j, Dec D S (next s) red s y (.shift j) := by
        intro p hp ht
        obtain ⟨q, hq, hqt⟩ := h.first_top' hs (Or.inr hxy) ⟨p, hp, ht⟩
        obtain ⟨j, _, hj, _⟩ := h.edge hs hq hqt
        exact ⟨j, Or.inl ⟨q, hq, hqt, j, hj, Or.inl ⟨hy, rfl⟩⟩⟩
      have hrd : ∀ {p : Position T} {a : Action T}, p ∈ s → p.top = none → red p x →
          (p.rule = S ∧ a = .acc ∨ p.rule ≠ S ∧ a = .reduce p.rule p.seq) → Dec D S (next s) red s y a := by
        intro p a hp ht hr hk
        exact Or.inr ⟨p, hp, ht, hf i s p x y hs hp hr hN hy hxy, hk⟩
      rcases d1 with ⟨p, hp, ht, j, hj, hk⟩ | ⟨p, hp, ht, hr, hk⟩
      · rcases d2 with ⟨p', hp', ht', j', hj', hk'⟩ | ⟨p', hp', ht', hr', hk'⟩
        · rw [hj] at hj'; cases hj'
          rcases hk with ⟨hT, _⟩ | ⟨_, rfl⟩
          · exact absurd hT hx
          · rcases hk' with ⟨hT, _⟩ | ⟨_, rfl⟩
            · exact absurd hT hx
            · exact absurd rfl hne
        · obtain ⟨j', hj'⟩ := hsh hp ht
          refine ⟨_, _, hj', hrd hp' ht' hr' hk', ?_⟩
          rcases hk' with ⟨_, rfl⟩ | ⟨_, rfl⟩ <;> intro e <;> cases e
      · rcases d2 with ⟨p', hp', ht', j', hj', hk'⟩ | ⟨p', hp', ht', hr', hk'⟩
        · obtain ⟨j', hj'⟩ := hsh hp' ht'
          refine ⟨_, _, hj', hrd hp ht hr hk, ?_⟩
          rcases hk with ⟨_, rfl⟩ | ⟨_, rfl⟩ <;> intro e <;> cases e
        · exact ⟨_, _, hrd hp ht hr hk, hrd hp' ht' hr' hk', hne⟩
    have hcy := (h.cell hs hrow).2 y
    cases hg : row.get? y with
    | none =>
      obtain ⟨c1, _, k1, _⟩ := key
      exact absurd k1 (hcy.empty.mp hg c1)
    | some c =>
      obtain ⟨a', b', rfl⟩ := (hcy.conflict _ hg).mpr key
      refine ⟨y, a', b', hy, ?_⟩
      unfold cellAt; rw [hrow]; exact hg

/-- With backed lookaheads, as Lalr has without mix-ups. -/
theorem Auto.carried_backed (h : Auto D S b0 states acts next red) (hl : Looks D S eof b0 states next red)
    (he : Terminal D eof) (hS : SingleStart D S)
    (hb : ∀ (i : Nat) s p x, states[i]? = some s → p ∈ s → red p x → Terminal D x →
      ∃ st syms w, Path states next (i :: st) syms ∧ Terminals D w ∧ (w ++ [eof]).head? = some x ∧
        RDerives D [S] ((syms.drop p.point).reverse ++ p.rule :: w)) : Carried D states next red := by
  intro i s p x hs hp ht hx hred
  obtain ⟨h0, hlen⟩ := h.complete_pos hs hp ht
  obtain ⟨st, syms, w, hpath, hw, hh, hd⟩ := hb i s p x hs hp hred hx
  obtain ⟨hprod, _⟩ := h.prod hs hp
  obtain ⟨i1, st1, s1, q1, g1, g2, g3, g4, g5, g6, g7⟩ :=
    Looks.before h hl he hS hd rfl hprod hx hh (Or.inl rfl)
  have hne := h.noEmpty _ _ _ hprod
  have hsplit := List.dropLast_concat_getLast hne
  obtain ⟨j, st2, s2, q2, k1, k2, k3, k4, k5, k6, k7⟩ :=
    Looks.read h hl hx p.seq.1.dropLast [p.seq.1.getLast hne] g1 g2 g3 (by rw [g5, g6]; simp [hsplit]) g7
  have hpt : q2.point = p.seq.1.length - 1 := by rw [k6, g6]; simp
  have hseq : q2.seq.1 = p.seq.1 := by rw [k5, g5]
  have hpos : 0 < p.seq.1.length := by omega
  have htop : q2.top = some (p.seq.1.getLast hne) := by
    unfold Position.top Position.peek
    rw [hpt, hseq, List.getLast_eq_getElem]
    simp [hpos]
  have hnone : q2.next = none := by
    unfold Position.next Position.peek
    rw [hpt, hseq]
    exact List.getElem?_eq_none (by omega)
  obtain ⟨i', s', e1, _⟩ := h.edge k2 k3 htop
  have hp' := Path.cons k1 k2 k3 htop e1
  have e : p.seq.1.getLast hne :: (p.seq.1.dropLast.reverse ++ ((syms.drop p.point).reverse).reverse) = syms := by
    have h1 := h.split_syms hpath hs hp
    have h2 : p.seq.1.take p.point = p.seq.1 := List.take_of_length_le (by omega)
    have h3 := congrArg List.reverse h1
    rw [List.reverse_reverse, h2] at h3
    have h4 : p.seq.1.reverse = p.seq.1.getLast hne :: p.seq.1.dropLast.reverse := by
      conv => lhs; rw [← hsplit]
      simp
    rw [List.reverse_append, List.reverse_reverse, h4] at h3
    rw [List.reverse_reverse]
    exact h3.symm
  rw [e] at hp'
  have := hp'.unique hpath
  cases this
  exact ⟨j, st2, _, s2, q2, _, k1, k2, k3, htop, hnone, k7, e1⟩

/-- What the tables have. -/
theorem Spec.Makes.carried {k : Method} {dbg : Bool} {t : Tabler T} (h : Makes k dbg D S eof t)
    (hk : k = .lalr → Propagated t ∧ Unmixed t ∧ SingleStart D S) (hpr : AllProductive D) (he : Terminal D eof) :
    ∃ b0 next red, Auto D S b0 t.states t.actions next red ∧ Looks D S eof b0 t.states next red ∧
      Carried D t.states next red := by
  obtain ⟨g, hg, n, hb⟩ := h
  have hof := Grammar.of_new hg
  cases k with
  | slr =>
    have hb := Slr.built hof hb
    obtain ⟨b0, h0, _⟩ := hb.of.grammar.basis
    have ha := hb.auto h0
    refine ⟨b0, _, _, ha, hb.looks_slr h0 he, ha.carried_of hb.reaches ?_⟩
    intro i j s s' p X hs hp ht hj hs' q hq hq0 x hx
    obtain ⟨j', s'', f1, _, f3, f4, _⟩ := ha.edge hs hp ht
    rw [hj] at f1; cases f1
    rw [hs'] at f3; cases f3
    obtain ⟨p', hp', ht', hb'⟩ := f4 q hq hq0
    refine ⟨p', hp', ht', hb', ?_⟩
    have e : q.rule = p'.rule := hb'.1
    rw [← e]; exact hx
  | clr =>
    have hb := Clr.built hof hb
    obtain ⟨b0, h0, _⟩ := hb.of.grammar.basis
    have ha := hb.auto h0
    have hx := hb.exact_clr h0
    exact ⟨b0, _, _, ha, hb.looks_clr h0, ha.carried_of hb.reaches hx.edge⟩
  | lalr =>
    obtain ⟨h1, h2, h3⟩ := hk rfl
    obtain ⟨l, hl, e⟩ := Out.bind_eq_ok.mp hb
    cases e
    obtain ⟨t0, _, hF, _⟩ := Lalr.built hof hl
    obtain ⟨b0, h0, _⟩ := hF.of.grammar.basis
    have ha := hF.auto h0
    refine ⟨b0, _, _, ha, hF.looks h0 h1, ha.carried_backed (hF.looks h0 h1) he h3 ?_⟩
    intro i s p x hs hp hx hT
    obtain ⟨i', s', st, syms, w, g1, g2, g3, g4, g5, g6⟩ :=
      Lalr.backed hof hl hpr he h2 hs p hp x hx x hT InFirst.refl
    obtain rfl := hF.core_inj g1 hs g2
    exact ⟨st, syms, w, g3, g4, g5, g6⟩

end

end Lrp
