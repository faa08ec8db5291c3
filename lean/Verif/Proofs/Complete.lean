import Verif.Proofs.Machine
import Verif.Proofs.Cfg

/-!
The run on the yield of a parse tree follows the tree, or stops at a conflict.
-/

set_option linter.unusedSectionVars false

namespace Lrp
open Spec
variable {T : Type} [LinOrd T] [DecidableEq T] {M : Type}

/-- The run stops at a conflict. -/
def Clash (acts : ActTable T) (eof : T) (c : Conf M T) : Prop :=
  ∃ c' a b, Moves acts eof c c' ∧ Fails acts eof c' (.conflict a b)

section
variable {acts : ActTable T} {eof : T}

theorem Clash.of_moves {c d : Conf M T} (h : Moves acts eof c d) (hd : Clash acts eof d) :
    Clash acts eof c := by
  obtain ⟨c', a, b, h1, h2⟩ := hd
  exact ⟨c', a, b, h.trans h1, h2⟩

theorem Clash.here {i : Nat} {st : List Nat} {trs : List (Tree M T)} {buf : List (Token M T)}
    (h : ∃ a b, cellAt acts i (lookSym eof buf) = some (.conflict a b)) :
    Clash acts eof ⟨i :: st, trs, buf⟩ := by
  obtain ⟨a, b, h⟩ := h
  exact ⟨_, a, b, .refl _, .conflict h⟩

/-- With no conflict cell there is no clash. -/
theorem Clash.false (hn : ∀ i x a b, cellAt acts i x ≠ some (.conflict a b)) {c : Conf M T}
    (h : Clash acts eof c) : False := by
  obtain ⟨c', a, b, _, hf⟩ := h
  cases hf with
  | conflict h => exact hn _ _ _ _ h
  | conflict' _ _ _ h => exact hn _ _ _ _ h

end

/-- The first symbol of the yield of a parse tree. -/
theorem Tree.valid_yield {D : Decls T} (hne : NoEmpty D) {t : Tree M T} (h : Tree.Valid D t) :
    ∃ tok rest, t.yield = tok :: rest ∧ InFirst D t.root tok.ty := by
  have hd := h.derives
  have : t.yield ≠ [] := by
    clear hd
    induction t using Tree.ind with
    | leaf tok => simp
    | node A i cs ih =>
      cases h with
      | node hp hc =>
        cases cs with
        | nil => exact absurd rfl (hne _ _ _ hp)
        | cons c cs =>
          simp only [Tree.yield_node, Tree.yields_cons]
          have := ih c (by simp) (hc c (by simp))
          simp [this]
  cases hy : t.yield with
  | nil => exact absurd hy this
  | cons tok rest =>
    refine ⟨tok, rest, rfl, (rest.map Token.ty), ?_⟩
    rw [hy] at hd
    simpa using hd

section
variable {D : Decls T} {S : T} {b0 : List T} {states : List (State T)} {acts : ActTable T}
  {next : State T → T → Option Nat} {red : Position T → T → Prop} {eof : T}

/-- What the run does on the yield of a tree. -/
def Follows (D : Decls T) (states : List (State T)) (acts : ActTable T)
    (next : State T → T → Option Nat) (red : Position T → T → Prop) (eof : T) (t : Tree M T) : Prop :=
  ∀ (i : Nat) (st : List Nat) (s : State T) (p : Position T) (trs : List (Tree M T))
    (rest : List (Token M T)), states[i]? = some s → p ∈ s → p.top = some t.root →
    Terminal D (lookSym eof rest) →
    (p.next = none → red p (lookSym eof rest)) →
    (∀ Z, p.next = some Z → Z = lookSym eof rest ∨ InFirst D Z (lookSym eof rest)) →
    Clash acts eof ⟨i :: st, trs, t.yield ++ rest⟩ ∨
    ∃ j, next s t.root = some j ∧
      Moves acts eof ⟨i :: st, trs, t.yield ++ rest⟩ ⟨j :: i :: st, t :: trs, rest⟩

/-- What the run does on the yield of the rest of a body. -/
theorem Looks.forest (h : Auto D S b0 states acts next red)
    (hl : Looks D S eof b0 states next red) {cs : List (Tree M T)}
    (hc : ∀ c ∈ cs, Follows D states acts next red eof c) (hv : ∀ c ∈ cs, Tree.Valid D c) :
    ∀ (i : Nat) (st : List Nat) (s : State T) (p : Position T) (trs : List (Tree M T))
      (rest : List (Token M T)), states[i]? = some s → p ∈ s →
      p.seq.1.drop p.point = cs.map Tree.root →
      Terminal D (lookSym eof rest) → red p (lookSym eof rest) →
      Clash acts eof ⟨i :: st, trs, Tree.yields cs ++ rest⟩ ∨
      ∃ i' st' s' q, states[i']? = some s' ∧ q ∈ s' ∧ q.rule = p.rule ∧ q.seq = p.seq ∧
        q.top = none ∧ red q (lookSym eof rest) ∧ (i' :: st').drop cs.length = i :: st ∧
        Moves acts eof ⟨i :: st, trs, Tree.yields cs ++ rest⟩ ⟨i' :: st', cs.reverse ++ trs, rest⟩ := by
  induction cs with
  | nil =>
    intro i st s p trs rest hs hp hd hT hr
    right
    refine ⟨i, st, s, p, hs, hp, rfl, rfl, ?_, hr, rfl, .refl _⟩
    have : p.seq.1.length ≤ p.point := by simpa using hd
    exact List.getElem?_eq_none (by simpa using this)
  | cons c cs ih =>
    intro i st s p trs rest hs hp hd hT hr
    have htop : p.top = some c.root := by
      have := congrArg (·[0]?) hd
      simpa [Position.top, Position.peek] using this
    have hnext : p.next = (cs.map Tree.root)[0]? := by
      have := congrArg (·[1]?) hd
      simpa [Position.next, Position.peek] using this
    rw [Tree.yields_cons, List.append_assoc]
    have hT' : Terminal D (lookSym eof (Tree.yields cs ++ rest)) := by
      cases hy : Tree.yields cs with
      | nil => simpa using hT
      | cons tok r =>
        exact Tree.forest_terminals (fun c h => hv c (List.mem_cons_of_mem _ h)) tok (by rw [hy]; simp)
    have hstep := hc c (by simp) i st s p trs (Tree.yields cs ++ rest) hs hp htop hT' (by
        intro hn
        rw [hnext] at hn
        have : cs = [] := by
          cases cs with
          | nil => rfl
          | cons c cs => simp at hn
        subst this
        simpa using hr) (by
        intro Z hn
        rw [hnext] at hn
        cases cs with
        | nil => simp at hn
        | cons c2 cs =>
          simp at hn; subst hn
          obtain ⟨tok, r, e, hf⟩ := Tree.valid_yield h.noEmpty (hv c2 (by simp))
          right
          rw [Tree.yields_cons, e]
          exact hf)
    rcases hstep with hcl | ⟨j, hj, hm⟩
    · exact Or.inl hcl
    · obtain ⟨j', s', e1, _, e2, _, _⟩ := h.edge hs hp htop
      rw [hj] at e1; cases e1
      obtain ⟨q, hq, hb, hred⟩ := hl.adv hs hp htop hj e2
      have hq1 : q.rule = p.rule := hb.1
      have hq2 : q.seq = p.seq := hb.2.1
      have hq3 : q.point = p.point + 1 := hb.2.2
      rcases ih (fun c h => hc c (List.mem_cons_of_mem _ h))
        (fun c h => hv c (List.mem_cons_of_mem _ h)) j (i :: st) s' q (c :: trs) rest e2 hq (by
          rw [hq2, hq3, ← List.drop_drop, hd]; simp) hT (hred _ hT hr) with
        hcl | ⟨i', st', s'', q', r1, r2, r3, r4, r5, r6, r7, r8⟩
      · exact Or.inl (hcl.of_moves hm)
      · right
        refine ⟨i', st', s'', q', r1, r2, r3.trans hq1, r4.trans hq2, r5, r6, ?_, ?_⟩
        · rw [List.length_cons, ← List.drop_drop, r7]; rfl
        · have := hm.trans r8
          simpa using this

theorem Looks.follows (h : Auto D S b0 states acts next red)
    (hl : Looks D S eof b0 states next red) (hS : InNoBody D S) {t : Tree M T}
    (hv : Tree.Valid D t) : Follows D states acts next red eof t := by
  induction t using Tree.ind with
  | leaf tok =>
    intro i st s p trs rest hs hp ht hT hr hf
    cases hv with
    | leaf htok =>
      obtain ⟨j, s', e1, _, e2, _, _⟩ := h.edge hs hp ht
      simp only [Tree.root] at ht e1 ⊢
      rcases h.dec_cell hs (Or.inl ⟨p, hp, ht, j, e1, Or.inl ⟨htok, rfl⟩⟩) with hc | hc
      · right
        exact ⟨j, e1, by simpa using Moves.head (.shift hc) (.refl _)⟩
      · left
        exact Clash.here (by simpa [lookSym] using hc)
  | node A k cs ih =>
    intro i st s p trs rest hs hp ht hT hr hf
    cases hv with
    | node hprod hcs =>
      simp only [Tree.root, Tree.yield_node] at ht ⊢
      obtain ⟨q0, k1, k2, k3, k4, k5⟩ := hl.close hs hp ht hprod hT hr hf
      rcases Looks.forest h hl (fun c hc => ih c hc (hcs c hc)) hcs i st s q0 trs rest hs k1
        (by rw [k3, k4]; simp) hT k5 with hcl | ⟨i', st', s', q, r1, r2, r3, r4, r5, r6, r7, r8⟩
      · exact Or.inl hcl
      · have hA : A ≠ S := by
          rintro rfl
          exact hS _ _ _ (h.prod hs hp).1 (top_mem ht)
        have hq1 : q.rule = A := r3.trans k2
        have hq2 : q.seq = (cs.map Tree.root, k) := r4.trans k3
        obtain ⟨j, s2, e1, _, e2, _, _⟩ := h.edge hs hp ht
        rcases h.dec_cell r1 (Or.inr ⟨q, r2, r5, r6, Or.inr ⟨by rw [hq1]; exact hA, rfl⟩⟩)
          with hcell | hcell
        · rw [hq1, hq2] at hcell
          have hlen : (cs.map Tree.root).length = cs.length := by simp
          have hget : (i' :: st')[(cs.map Tree.root).length]? = some i := by
            rw [hlen]
            have := congrArg (·[0]?) r7
            simpa using this
          have hle : (cs.map Tree.root).length ≤ (cs.reverse ++ trs).length := by simp
          rcases h.dec_cell hs (Or.inl ⟨p, hp, ht, j, e1, Or.inr ⟨hprod.nonterminal, rfl⟩⟩)
            with hg | ⟨a, b, hg⟩
          · right
            refine ⟨j, e1, r8.tail ?_⟩
            have := Move.reduce hcell hle hget hg
            rw [hlen, r7] at this
            simpa using this
          · left
            exact ⟨_, a, b, r8, .conflict' hcell hle hget hg⟩
        · left
          exact (Clash.here hcell).of_moves r8

/-- The run on a sentence accepts with the children of its tree on the stack, or stops at a
conflict. -/
theorem Looks.complete (h : Auto D S b0 states acts next red)
    (hl : Looks D S eof b0 states next red) (hS : InNoBody D S) (he : Terminal D eof)
    {cs : List (Tree M T)} (hv : Tree.Valid D (.node S 0 cs)) :
    Clash acts eof ⟨[0], [], Tree.yields cs⟩ ∨
    ∃ c, Moves acts eof ⟨[0], [], Tree.yields cs⟩ c ∧ Accepts acts eof c ∧ c.trees = cs.reverse := by
  cases hv with
  | node hprod hcs =>
    obtain ⟨s, p, h1, h2, h3, h4, h5, h6⟩ := hl.basis
    have hb := hprod.unique h.start
    rcases Looks.forest h hl (fun c hc => Looks.follows h hl hS (hcs c hc)) hcs 0 [] s p [] [] h1 h2
      (by rw [h4, h5]; exact hb.symm) he h6 with hcl | ⟨i', st', s', q, r1, r2, r3, r4, r5, r6, r7, r8⟩
    · left; simpa using hcl
    · rcases h.dec_cell r1 (Or.inr ⟨q, r2, r5, r6, Or.inl ⟨r3.trans h3, rfl⟩⟩) with hcell | hcell
      · right
        exact ⟨_, by simpa using r8, ⟨i', st', rfl, hcell, rfl⟩, by simp⟩
      · left
        have := (Clash.here (st := st') (trs := cs.reverse) (buf := ([] : List (Token M T)))
          (eof := eof) hcell).of_moves (by simpa using r8)
        exact this

end

/-! ### Moves look at one token only -/

section
variable {acts : ActTable T} {eof : T}

/-- A move made before a given part of the input is reached does not depend on it. -/
theorem Move.swap {c c' : Conf M T} (hm : Move acts eof c c') {u x : List (Token M T)}
    (hb : c.buf = u ++ x) (hu : u ≠ []) :
    ∃ u2, c'.buf = u2 ++ x ∧
      ∀ x', Move acts eof ⟨c.states, c.trees, u ++ x'⟩ ⟨c'.states, c'.trees, u2 ++ x'⟩ := by
  obtain ⟨tok, u1, rfl⟩ := List.exists_cons_of_ne_nil hu
  cases hm with
  | shift h1 =>
    simp only [List.cons_append, List.cons.injEq] at hb
    obtain ⟨rfl, rfl⟩ := hb
    exact ⟨u1, rfl, fun x' => .shift h1⟩
  | reduce h1 h2 h3 h4 =>
    simp only at hb
    subst hb
    exact ⟨tok :: u1, rfl, fun x' => .reduce h1 h2 h3 h4⟩

theorem Moves.swap {c c' : Conf M T} (hm : Moves acts eof c c') :
    ∀ {u x : List (Token M T)}, c.buf = u ++ x →
    (∃ u2, u2 ≠ [] ∧ c'.buf = u2 ++ x ∧
      ∀ x', Moves acts eof ⟨c.states, c.trees, u ++ x'⟩ ⟨c'.states, c'.trees, u2 ++ x'⟩) ∨
    ∃ c1, c1.buf = x ∧ Moves acts eof c c1 ∧ Moves acts eof c1 c' ∧
      ∀ x', Moves acts eof ⟨c.states, c.trees, u ++ x'⟩ ⟨c1.states, c1.trees, x'⟩ := by
  induction hm with
  | refl c =>
    intro u x hb
    cases u with
    | nil => right; exact ⟨c, hb, .refl _, .refl _, fun x' => .refl _⟩
    | cons tok u => left; exact ⟨tok :: u, by simp, hb, fun x' => .refl _⟩
  | @head c d e m ms ih =>
    intro u x hb
    cases u with
    | nil => right; exact ⟨c, hb, .refl _, .head m ms, fun x' => .refl _⟩
    | cons tok u =>
      obtain ⟨u2, h1, h2⟩ := m.swap hb (by simp)
      rcases ih h1 with ⟨u3, k1, k2, k3⟩ | ⟨c1, k1, k2, k3, k4⟩
      · left
        exact ⟨u3, k1, k2, fun x' => .head (h2 x') (k3 x')⟩
      · right
        exact ⟨c1, k1, .head m k2, k3, fun x' => .head (h2 x') (k4 x')⟩

theorem Fails.conflict_swap {c : Conf M T} {a b : Action T} (h : Fails acts eof c (.conflict a b))
    {u x : List (Token M T)} (hb : c.buf = u ++ x) (hu : u ≠ []) (x' : List (Token M T)) :
    Fails acts eof ⟨c.states, c.trees, u ++ x'⟩ (.conflict a b) := by
  obtain ⟨tok, u1, rfl⟩ := List.exists_cons_of_ne_nil hu
  cases h with
  | conflict h1 => simp only at hb; subst hb; exact .conflict h1
  | conflict' h1 h2 h3 h4 => simp only at hb; subst hb; exact .conflict' h1 h2 h3 h4

end

section
variable {D : Decls T} {S : T} {b0 : List T} {states : List (State T)} {acts : ActTable T}
  {next : State T → T → Option Nat} {red : Position T → T → Prop} {eof : T}

/-- A viable prefix is consumed, whatever comes after it, unless the run stops at a conflict. -/
theorem Looks.consumes (h : Auto D S b0 states acts next red)
    (hl : Looks D S eof b0 states next red) (hS : InNoBody D S) (he : Terminal D eof)
    {cs : List (Tree M T)} (hv : Tree.Valid D (.node S 0 cs)) {u more : List (Token M T)}
    (hu : Tree.yields cs = u ++ more) (x : List (Token M T)) :
    Clash acts eof ⟨[0], [], u ++ x⟩ ∨
    ∃ st trs, Moves acts eof ⟨[0], [], u ++ x⟩ ⟨st, trs, x⟩ ∧
      (Clash acts eof ⟨st, trs, more⟩ ∨
       ∃ c, Moves acts eof ⟨st, trs, more⟩ c ∧ Accepts acts eof c ∧ c.trees = cs.reverse) := by
  rcases Looks.complete h hl hS he hv with ⟨c', a, b, hm, hf⟩ | ⟨c, hm, ha, ht⟩
  · rcases hm.swap (u := u) (x := more) hu with ⟨u2, k1, k2, k3⟩ | ⟨c1, k1, k2, k3, k4⟩
    · left
      exact ⟨_, a, b, k3 x, hf.conflict_swap k2 k1 x⟩
    · right
      subst k1
      exact ⟨c1.states, c1.trees, k4 x, Or.inl ⟨c', a, b, k3, hf⟩⟩
  · rcases hm.swap (u := u) (x := more) hu with ⟨u2, k1, k2, k3⟩ | ⟨c1, k1, k2, k3, k4⟩
    · exfalso
      obtain ⟨i, st, _, _, h3⟩ := ha
      rw [h3] at k2
      cases u2 with
      | nil => exact k1 rfl
      | cons _ _ => cases k2
    · right
      subst k1
      exact ⟨c1.states, c1.trees, k4 x, Or.inr ⟨c, k3, ha, ht⟩⟩

end

end Lrp
