import Verif.Proofs.Meets
import Verif.Proofs.Runs

/-! From every stack that a run can have, some rest of the input leads to acceptance, if there are no conflicts. -/

set_option linter.unusedSectionVars false

namespace Lrp
open Spec
variable {T : Type} [LinOrd T] [DecidableEq T] {M : Type}

/-- The run goes on to accept. -/
def Finishes (acts : ActTable T) (eof : T) (c : Conf M T) : Prop :=
  ∃ c', Moves acts eof c c' ∧ Accepts acts eof c'

theorem Finishes.of_moves {acts : ActTable T} {eof : T} {c d : Conf M T} (h : Finishes acts eof c)
    (hm : Moves acts eof c d) : Finishes acts eof d := by
  obtain ⟨c', h1, h2⟩ := h
  rcases h1.linear hm with hl | hl
  · cases hl with
    | refl => exact ⟨_, .refl _, h2⟩
    | head m _ => exact absurd m (fun m => h2.no_move m)
  · exact ⟨c', hl, h2⟩

section
variable {D : Decls T} {S eof : T} {b0 : List T} {states : List (State T)} {acts : ActTable T}
  {next : State T → T → Option Nat} {red : Position T → T → Prop}

theorem drop_of_get {l : List T} {n : Nat} {x : T} (h : l[n]? = some x) : l.drop n = x :: l.drop (n + 1) := by
  obtain ⟨hn, e⟩ := List.getElem?_eq_some_iff.mp h
  rw [List.drop_eq_getElem_cons hn, e]

/-- Parse trees of all symbols of a list. -/
theorem productive_forest (hpr : AllProductive D) (m : M) (l : List T) :
    ∃ cs : List (Tree M T), cs.map Tree.root = l ∧ ∀ c ∈ cs, Tree.Valid D c := by
  induction l with
  | nil => exact ⟨[], rfl, by simp⟩
  | cons X l ih =>
    obtain ⟨cs, h1, h2⟩ := ih
    obtain ⟨t, h3, h4⟩ := productive_tree hpr m X
    exact ⟨t :: cs, by simp [h1, h3], by simpa using ⟨h4, h2⟩⟩

/-- A rest for a position of the state on top: whatever trees are on the stack, and whatever trees are read for
what comes after the point. -/
def Ends (D : Decls T) (acts : ActTable T) (eof : T) (red : Position T → T → Prop) (st : List Nat) (syms : List T)
    (s : State T) (p : Position T) (rest : List (Token M T)) : Prop :=
  TerminalToks D rest ∧ (∃ p' ∈ s, SameBody p' p ∧ red p' (lookSym eof rest)) ∧
  ∀ trs : List (Tree M T), trs.map Tree.root = syms → (∀ t ∈ trs, Tree.Valid D t) →
    ∀ cs : List (Tree M T), cs.map Tree.root = p.seq.1.drop p.point → (∀ c ∈ cs, Tree.Valid D c) →
      Finishes acts eof ⟨st, trs, Tree.yields cs ++ rest⟩

/-- What comes after a position and trees for the symbols behind the one at its point. -/
theorem next_forest (h : Auto D S b0 states acts next red) (he : Terminal D eof) {q : Position T}
    {cs : List (Tree M T)} {rest : List (Token M T)} (hcs : cs.map Tree.root = q.seq.1.drop (q.point + 1))
    (hv : ∀ c ∈ cs, Tree.Valid D c) (hT : TerminalToks D rest) (hr : red q (lookSym eof rest)) :
    Terminal D (lookSym eof (Tree.yields cs ++ rest)) ∧
    (q.next = none → red q (lookSym eof (Tree.yields cs ++ rest))) ∧
    ∀ Z, q.next = some Z → Z = lookSym eof (Tree.yields cs ++ rest) ∨
      InFirst D Z (lookSym eof (Tree.yields cs ++ rest)) := by
  have hnext : q.next = (cs.map Tree.root)[0]? := by
    rw [hcs]
    simp [Position.next, Position.peek]
  rw [hnext]
  cases cs with
  | nil => exact ⟨by simpa using terminal_lookSym he hT, fun _ => by simpa using hr, fun Z e => by cases e⟩
  | cons c cs =>
    obtain ⟨tok, r, e, hf⟩ := Tree.valid_yield h.noEmpty (hv c List.mem_cons_self)
    have ht := (hv c List.mem_cons_self).terminals tok (by rw [e]; simp)
    rw [Tree.yields_cons, e]
    refine ⟨ht, (fun e => by cases e), fun Z e => ?_⟩
    simp only [List.map_cons, List.getElem?_cons_zero, Option.some.injEq] at e
    subst e
    exact Or.inr hf

theorem Looks.ends (h : Auto D S b0 states acts next red) (hl : Looks D S eof b0 states next red)
    (hS : InNoBody D S) (he : Terminal D eof) (hpr : AllProductive D) (m : M)
    (hno : ∀ i x a b, cellAt acts i x ≠ some (.conflict a b)) {st : List Nat} {syms : List T}
    (hpath : Path states next st syms) :
    ∀ {i : Nat} {st' : List Nat} {s : State T} {p : Position T}, st = i :: st' → states[i]? = some s → p ∈ s →
      ∃ rest : List (Token M T), Ends D acts eof red st syms s p rest := by
  have clo : ∀ {i : Nat} {st' : List Nat} {syms : List T} {s : State T},
      Path states next (i :: st') syms → states[i]? = some s →
      (∀ p ∈ s, 0 < p.point → ∃ rest : List (Token M T), Ends D acts eof red (i :: st') syms s p rest) →
      ∀ p, Prov S b0 i s p → ∃ rest : List (Token M T), Ends D acts eof red (i :: st') syms s p rest := by
    intro i st' syms s hpath hs hk p hprov
    induction hprov with
    | kernel hp h0 => exact hk _ hp h0
    | @basis p hi hp h1 h2 h3 =>
      subst hi
      obtain ⟨s0, p0, q1, q2, q3, q4, q5, q6⟩ := hl.basis
      rw [hs] at q1; cases q1
      refine ⟨[], by simp [TerminalToks], ⟨p0, q2, ⟨q3.trans h1.symm, q4.trans h2.symm, q5.trans h3.symm⟩, q6⟩, ?_⟩
      intro trs htrs hv cs hcs hcv
      have hst : st' = [] ∧ trs = [] := by
        have hsy := h.path_zero hpath
        subst hsy
        refine ⟨?_, List.map_eq_nil_iff.mp htrs⟩
        cases hpath with
        | base => rfl
      obtain ⟨rfl, rfl⟩ := hst
      rw [h2, h3] at hcs
      have hvS : Tree.Valid D (.node S 0 cs) := .node (by rw [hcs]; exact h.start) hcv
      rcases Looks.complete h hl hS he hvS with hcl | ⟨c, k1, k2, _⟩
      · exact (hcl.false hno).elim
      · exact ⟨c, by simpa using k1, k2⟩
    | @step p q hq ht hp h0 ih =>
      obtain ⟨rest, hr1, ⟨q', g1, g2, g3⟩, hr3⟩ := ih
      obtain ⟨cs', e1, e2⟩ := productive_forest (M := M) hpr m (q.seq.1.drop (q.point + 1))
      have e1' : cs'.map Tree.root = q'.seq.1.drop (q'.point + 1) := by rw [g2.2.1, g2.2.2]; exact e1
      obtain ⟨n1, n2, n3⟩ := next_forest h he e1' e2 hr1 g3
      have hprod := (h.prod hs hp).1
      obtain ⟨q2, f1, f2, f3, f4, f5⟩ := hl.close hs g1 (by rw [g2.top]; exact ht) hprod n1 n2 n3
      refine ⟨Tree.yields cs' ++ rest, ?_, ⟨q2, f1, ⟨f2, f3, f4.trans h0.symm⟩, f5⟩, ?_⟩
      · intro tk htk
        rcases List.mem_append.mp htk with htk | htk
        · exact Tree.forest_terminals e2 tk htk
        · exact hr1 tk htk
      · intro trs htrs hv cs hcs hcv
        rw [h0, List.drop_zero] at hcs
        have := hr3 trs htrs hv (.node p.rule p.seq.2 cs :: cs') (by
          rw [List.map_cons, e1]
          have htop : q.seq.1[q.point]? = some p.rule := by simpa [Position.top, Position.peek] using ht
          exact (drop_of_get htop).symm) (by
          intro c hc
          rcases List.mem_cons.mp hc with rfl | hc
          · exact .node (by rw [hcs]; exact hprod) hcv
          · exact e2 c hc)
        rw [Tree.yields_cons, Tree.yield_node, List.append_assoc] at this
        exact this
  induction hpath with
  | base =>
    intro i st' s p e hs hps
    cases e
    refine clo .base hs ?_ p (h.prov hs hps)
    intro p hp h0
    have := h.zero hs hp
    omega
  | @cons i0 j st0 syms0 s0 p0 X h1 h2 h3 h4 h5 ih =>
    intro i st' s p e hs hps
    cases e
    refine clo (.cons h1 h2 h3 h4 h5) hs ?_ p (h.prov hs hps)
    intro p hp h0
    obtain ⟨j', s', f1, _, f3, f4, _⟩ := h.edge h2 h3 h4
    rw [h5] at f1; cases f1
    rw [hs] at f3; cases f3
    obtain ⟨q, hq, hqt, hqb⟩ := f4 p hp h0
    obtain ⟨rest, hr1, ⟨q', g1, g2, g3⟩, hr3⟩ := ih rfl h2 hq
    have hT := terminal_lookSym he hr1
    have hq't : q'.top = some X := by rw [g2.top]; exact hqt
    obtain ⟨q2, k1, k2, k3⟩ := hl.adv h2 g1 hq't h5 hs
    refine ⟨rest, hr1, ⟨q2, k1, k2.trans (g2.adv.trans hqb.symm), k3 _ hT g3⟩, ?_⟩
    intro trs htrs hv cs hcs hcv
    cases trs with
    | nil => cases htrs
    | cons t trs =>
      simp only [List.map_cons, List.cons.injEq] at htrs
      obtain ⟨hroot, htrs⟩ := htrs
      have hvt := hv t List.mem_cons_self
      have hcs' : cs.map Tree.root = q.seq.1.drop (q.point + 1) := by
        rw [hcs, hqb.2.1, hqb.2.2]; rfl
      have hfin := hr3 trs htrs (fun c hc => hv c (List.mem_cons_of_mem _ hc)) (t :: cs) (by
          rw [List.map_cons, hcs', hroot]
          have htop : q.seq.1[q.point]? = some X := by simpa [Position.top, Position.peek] using hqt
          exact (drop_of_get htop).symm) (by
          intro c hc
          rcases List.mem_cons.mp hc with rfl | hc
          · exact hvt
          · exact hcv c hc)
      rw [Tree.yields_cons, List.append_assoc] at hfin
      have hcs2 : cs.map Tree.root = q'.seq.1.drop (q'.point + 1) := by rw [g2.2.1, g2.2.2]; exact hcs'
      obtain ⟨n1, n2, n3⟩ := next_forest h he hcs2 hcv hr1 g3
      rcases Looks.follows h hl hS hvt i0 st0 s0 q' trs (Tree.yields cs ++ rest) h2 g1
        (by rw [hroot]; exact hq't) n1 n2 n3 with hcl | ⟨j', hj', hm⟩
      · exact (hcl.false hno).elim
      · rw [hroot, h5] at hj'; cases hj'
        exact hfin.of_moves hm

/-- From every configuration of a run some rest leads to acceptance. -/
theorem Looks.finishes (h : Auto D S b0 states acts next red) (hl : Looks D S eof b0 states next red)
    (hS : InNoBody D S) (he : Terminal D eof) (hpr : AllProductive D) (m : M)
    (hno : ∀ i x a b, cellAt acts i x ≠ some (.conflict a b)) {c : Conf M T} (hi : InvC D states next c) :
    ∃ rest, TerminalToks D rest ∧ Finishes acts eof ⟨c.states, c.trees, rest⟩ := by
  obtain ⟨i, st, s, e, hs⟩ := h.path_state hi.path
  have hpath := hi.path
  rw [e] at hpath
  obtain ⟨p, hp⟩ := h.path_position hpath hs
  obtain ⟨rest, hr1, _, hr3⟩ := Looks.ends h hl hS he hpr m hno hpath rfl hs hp
  obtain ⟨cs, e1, e2⟩ := productive_forest (M := M) hpr m (p.seq.1.drop p.point)
  refine ⟨Tree.yields cs ++ rest, ?_, by rw [e]; exact hr3 c.trees rfl hi.valid cs e1 e2⟩
  intro tk htk
  rcases List.mem_append.mp htk with htk | htk
  · exact Tree.forest_terminals e2 tk htk
  · exact hr1 tk htk

/-- A run that goes on to accept makes `start` succeed, if the reductors give values. -/
theorem Auto.starts_ok (h : Auto D S b0 states acts next red) (he : Terminal D eof) {maps : ReductMap M T}
    {d : Dfa M T} {c : Conf M T} (hi : InvC D states next c) (hs : Sim acts eof maps d c)
    (hT : TerminalToks D c.buf) (hev : Evaluates D maps c.all) (hf : Finishes acts eof c) :
    ∃ e n, d.start n = .ok (e, .ok ()) := by
  obtain ⟨c', hm, hacc⟩ := hf
  obtain ⟨n, hn⟩ := h.ran_stop he hm (Or.inl hacc) hi hs hT
  have hne := hn (n + 2) (by omega)
  have hran := h.ran he (n + 2) (n + 2) hi hs hT
  have hle := Dfa.trace_le (f := id) (Nat.le_refl (n + 2)) (Nat.le_add_right n 2) d
  rcases hle with hle | hle
  · exact absurd hle hne
  · rw [hle] at hne
    generalize hr : Dfa.trace id (n + 2) (n + 2) d = r at hran hne
    cases hran with
    | ok _ _ _ => exact ⟨_, n + 2, hr⟩
    | error k1 k2 =>
      have := dead_unique hm k1 (fun _ => hacc.no_move) (fun _ => k2.no_move)
      subst this
      exact (hacc.not_fails k2).elim
    | panic k1 _ _ => exact (k1.false hev).elim
    | fuel => exact absurd rfl hne

end

end Lrp
