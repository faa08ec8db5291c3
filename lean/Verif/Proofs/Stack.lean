import Verif.Spec.Stack
import Verif.Proofs.Meets
import Verif.Proofs.Reach
import Verif.Proofs.Runs

/-!
How high the stack gets.  `Under D A u B`: there is a way down from `A` to `B` in a parse tree, with the symbols
`u` to the left of it.  The symbols on the stack are such a `u`, with the beginning of a body of `B`.
-/

set_option linter.unusedSectionVars false

namespace Lrp
open Spec
variable {T : Type} [LinOrd T] [DecidableEq T] {M : Type}

/-- A way down from `A` to `B` with `u` to the left of it. -/
inductive Under (D : Decls T) (A : T) : List T → T → Prop
  | refl : Under D A [] A
  | snoc {u : List T} {B C : T} {i : Nat} {x y : List T} : Under D A u B → IsProd D B i (x ++ C :: y) →
      Under D A (u ++ x) C

theorem Under.trans {D : Decls T} {A B C : T} {u w : List T} (h : Under D A u B) (h' : Under D B w C) :
    Under D A (u ++ w) C := by
  induction h' with
  | refl => simpa using h
  | snoc _ hp ih => rw [← List.append_assoc]; exact ih.snoc hp

theorem Under.derives {D : Decls T} {A B : T} {u : List T} (h : Under D A u B) :
    ∃ v, Derives D [A] (u ++ B :: v) := by
  induction h with
  | refl => exact ⟨[], .refl _⟩
  | @snoc u B C i x y _ hp ih =>
    obtain ⟨v, hv⟩ := ih
    refine ⟨y ++ v, hv.trans (.head (Step.mk u v hp) ?_)⟩
    have : u ++ (x ++ C :: y) ++ v = u ++ x ++ C :: (y ++ v) := by simp
    rw [this]
    exact .refl _

/-- An occurrence in a sentential form is found by going down. -/
theorem under_of_derives {D : Decls T} {A : T} {a b : List T} (h : Derives D a b) :
    (∀ u B v, a = u ++ B :: v → ∃ u0, Under D A u0 B ∧ Derives D u0 u) →
    ∀ u B v, b = u ++ B :: v → ∃ u0, Under D A u0 B ∧ Derives D u0 u := by
  induction h with
  | refl => exact id
  | head hs _ ih =>
    intro ha
    refine ih ?_
    cases hs with
    | @mk x y C i body hp =>
      intro u B v e
      rw [List.append_assoc] at e
      rcases List.append_eq_append_iff.mp e with ⟨z, e1, e2⟩ | ⟨z, e1, e2⟩
      · -- the occurrence is not in `x`
        rcases List.append_eq_append_iff.mp e2 with ⟨z', e3, e4⟩ | ⟨z', e3, e4⟩
        · -- it is in `y`
          obtain ⟨u0, k1, k2⟩ := ha (x ++ C :: z') B v (by rw [e4]; simp)
          refine ⟨u0, k1, k2.trans (.head (Step.mk x z' hp) ?_)⟩
          rw [e1, e3, List.append_assoc]
          exact .refl _
        · cases z' with
          | nil =>
            simp only [List.nil_append] at e4
            obtain ⟨u0, k1, k2⟩ := ha (x ++ [C]) B v (by rw [← e4]; simp)
            refine ⟨u0, k1, k2.trans (.head (Step.mk x [] hp) ?_)⟩
            simp only [List.append_nil] at e3 ⊢
            rw [e1, ← e3]
            exact .refl _
          | cons c z' =>
            simp only [List.cons_append, List.cons.injEq] at e4
            obtain ⟨rfl, e4⟩ := e4
            obtain ⟨u0, k1, k2⟩ := ha x C y rfl
            exact ⟨u0 ++ z, k1.snoc (by rw [← e3]; exact hp), by rw [e1]; exact k2.append (.refl z)⟩
      · cases z with
        | nil =>
          simp only [List.nil_append, List.append_nil] at e1 e2
          subst e1
          cases body with
          | nil =>
            simp only [List.nil_append] at e2
            obtain ⟨u0, k1, k2⟩ := ha (x ++ [C]) B v (by rw [← e2]; simp)
            refine ⟨u0, k1, k2.trans (.head (Step.mk x [] hp) ?_)⟩
            simp only [List.append_nil]
            exact .refl _
          | cons c body =>
            simp only [List.cons_append, List.cons.injEq] at e2
            obtain ⟨rfl, e2⟩ := e2
            obtain ⟨u0, k1, k2⟩ := ha x C y rfl
            have := k1.snoc (x := []) (C := B) (by simpa using hp)
            exact ⟨u0 ++ [], this, by simpa using k2⟩
        | cons c z =>
          simp only [List.cons_append, List.cons.injEq] at e2
          obtain ⟨rfl, e2⟩ := e2
          exact ha u B (z ++ C :: y) (by rw [e1]; simp)

theorem Spec.Reachable.under {D : Decls T} {A B : T} {u v : List T} (h : Derives D [A] (u ++ B :: v)) :
    ∃ u0, Under D A u0 B ∧ Derives D u0 u := by
  refine under_of_derives h ?_ u B v rfl
  intro u B v e
  cases u with
  | nil => simp only [List.nil_append, List.cons.injEq] at e; rw [← e.1]; exact ⟨[], .refl, .refl _⟩
  | cons a u => simp at e

theorem derives_from_nil {D : Decls T} {u v : List T} (h : Derives D u v) : u = [] → v = [] := by
  induction h with
  | refl => exact id
  | head hs _ ih =>
    intro e
    cases hs with
    | mk u v _ => simp at e

theorem nests_iff {D : Decls T} {A : T} : Nests D A ↔ ∃ u, u ≠ [] ∧ Under D A u A := by
  constructor
  · rintro ⟨u, v, hu, hd⟩
    obtain ⟨u0, h1, h2⟩ := Reachable.under hd
    exact ⟨u0, fun e => hu (derives_from_nil h2 e), h1⟩
  · rintro ⟨u, hu, h⟩
    obtain ⟨v, hv⟩ := h.derives
    exact ⟨u, v, hu, hv⟩

theorem Under.reachable {D : Decls T} {S B : T} {u : List T} (h : Under D S u B) : Reachable D S B := by
  obtain ⟨v, hv⟩ := h.derives
  exact ⟨u, v, hv⟩

/-! ### Without nesting, the way down has few symbols to the left of it -/

theorem isProd_name {D : Decls T} {A : T} {i : Nat} {b : List T} (h : IsProd D A i b) : A ∈ D.map Prod.fst := by
  obtain ⟨bs, ⟨pre, post, e, _⟩, _⟩ := h
  rw [e]
  simp

theorem nodup_length_le {l m : List T} (hn : l.Nodup) (hs : ∀ x ∈ l, x ∈ m) : l.length ≤ m.length := by
  induction l generalizing m with
  | nil => simp
  | cons a l ih =>
    have ha := hs a (by simp)
    have := ih (m := m.erase a) (List.nodup_cons.mp hn).2 (by
      intro x hx
      have hne : x ≠ a := by
        rintro rfl
        exact (List.nodup_cons.mp hn).1 hx
      exact (List.mem_erase_of_ne hne).mpr (hs x (by simp [hx])))
    rw [List.length_erase_of_mem ha] at this
    have := List.length_pos_of_mem ha
    simp only [List.length_cons]
    omega

theorem Under.short {D : Decls T} {S B : T} {u : List T} {m : Nat} (hm : BodiesWithin D m)
    (hn : ∀ A, Reachable D S A → ¬ Nests D A) (h : Under D S u B) :
    ∃ L : List T, L.Nodup ∧ (∀ C ∈ L, C ∈ D.map Prod.fst ∧ ∃ x, x ≠ [] ∧ Under D C x B) ∧
      u.length ≤ L.length * m := by
  induction h with
  | refl => exact ⟨[], List.nodup_nil, by simp, by simp⟩
  | @snoc u B C i x y hu hp ih =>
    obtain ⟨L, h1, h2, h3⟩ := ih
    have hB : B ∉ L := by
      intro hB
      obtain ⟨_, w, hw, hw'⟩ := h2 B hB
      exact hn B hu.reachable (nests_iff.mpr ⟨w, hw, hw'⟩)
    have hkeep : ∀ C' ∈ L, C' ∈ D.map Prod.fst ∧ ∃ w, w ≠ [] ∧ Under D C' w C := by
      intro C' hC'
      obtain ⟨k1, w, hw, hw'⟩ := h2 C' hC'
      exact ⟨k1, w ++ x, by simp [hw], hw'.snoc hp⟩
    by_cases hx : x = []
    · subst hx
      exact ⟨L, h1, hkeep, by simpa using h3⟩
    · refine ⟨B :: L, List.nodup_cons.mpr ⟨hB, h1⟩, ?_, ?_⟩
      · intro C' hC'
        rcases List.mem_cons.mp hC' with rfl | hC'
        · refine ⟨isProd_name hp, [] ++ x, by simpa using hx, Under.refl.snoc hp⟩
        · exact hkeep C' hC'
      · have := hm _ _ _ hp
        simp only [List.length_append, List.length_cons, Nat.add_mul, Nat.one_mul] at this ⊢
        omega

section
variable {D : Decls T} {S eof : T} {b0 : List T} {states : List (State T)} {acts : ActTable T}
  {next : State T → T → Option Nat} {red : Position T → T → Prop}

/-- What is on the stack, seen from a position of the top state. -/
theorem Auto.under (h : Auto D S b0 states acts next red) {is : List Nat} {syms : List T}
    (hpath : Path states next is syms) :
    ∀ {i : Nat} {st : List Nat} {s : State T} {p : Position T}, is = i :: st → states[i]? = some s → p ∈ s →
      ∃ u, Under D S u p.rule ∧ syms.reverse = u ++ p.seq.1.take p.point := by
  induction hpath with
  | base =>
    intro i st s p e hs hp
    cases e
    have hprov := h.prov hs hp
    clear hp
    induction hprov with
    | @kernel p hp h0 => exact absurd (h.zero hs hp) (by omega)
    | @basis p _ hp h1 h2 h3 => exact ⟨[], by rw [h1]; exact .refl, by simp [h3]⟩
    | @step p q hq hqt hp h0 ih =>
      obtain ⟨u, k1, k2⟩ := ih
      obtain ⟨hprod, _⟩ := h.prod hs hq.mem
      have hz := h.zero hs hq.mem
      have hsplit : ∃ r, q.seq.1 = p.rule :: r := by
        have : q.seq.1[0]? = some p.rule := by simpa [Position.top, Position.peek, hz] using hqt
        cases hb : q.seq.1 with
        | nil => rw [hb] at this; cases this
        | cons a r => rw [hb] at this; cases this; exact ⟨r, rfl⟩
      obtain ⟨r, hr⟩ := hsplit
      have := k1.snoc (x := []) (C := p.rule) (by simpa [hr] using hprod)
      exact ⟨u ++ [], this, by simpa [h0, hz] using k2⟩
  | @cons i0 j st0 syms0 s0 p0 X0 h1 h2 h3 h4 h5 ih =>
    intro i st s p e hs hp
    cases e
    have hprov := h.prov hs hp
    clear hp
    obtain ⟨j', s', f1, f2, f3, f4, _⟩ := h.edge h2 h3 h4
    rw [h5] at f1; cases f1
    rw [hs] at f3; cases f3
    induction hprov with
    | @kernel p hp h0 =>
      obtain ⟨q, hq, hqt, hqb⟩ := f4 p hp h0
      obtain ⟨u, k1, k2⟩ := ih rfl h2 hq
      refine ⟨u, by rw [hqb.1]; exact k1, ?_⟩
      have e1 : p.seq = q.seq := hqb.2.1
      have e2 : p.point = q.point + 1 := hqb.2.2
      have hq' : q.seq.1[q.point]? = some X0 := by simpa [Position.top, Position.peek] using hqt
      rw [List.reverse_cons, k2, e1, e2, List.take_succ, hq']
      simp
    | basis hi => exact absurd hi f2
    | @step p q hq hqt hp h0 ih2 =>
      obtain ⟨u, k1, k2⟩ := ih2
      obtain ⟨hprod, _⟩ := h.prod hs hq.mem
      have hq' : q.seq.1[q.point]? = some p.rule := by simpa [Position.top, Position.peek] using hqt
      obtain ⟨hlt, hget⟩ := List.getElem?_eq_some_iff.mp hq'
      have hsplit : q.seq.1 = q.seq.1.take q.point ++ p.rule :: q.seq.1.drop (q.point + 1) := by
        rw [← hget, List.getElem_cons_drop, List.take_append_drop]
      exact ⟨u ++ q.seq.1.take q.point, k1.snoc (by rw [← hsplit]; exact hprod), by rw [k2, h0]; simp⟩

/-- The stack is not high if nothing nests. -/
theorem Auto.stack_bound (h : Auto D S b0 states acts next red) {m : Nat} (hm : BodiesWithin D m)
    (hn : ∀ A, Reachable D S A → ¬ Nests D A) {is : List Nat} {syms : List T}
    (hpath : Path states next is syms) : syms.length ≤ (D.length + 1) * m := by
  have key : ∃ i st s p, is = i :: st ∧ states[i]? = some s ∧ p ∈ s := by
    cases hpath with
    | base =>
      obtain ⟨s, p, h1, h2, _⟩ := h.basis
      exact ⟨0, [], s, p, rfl, h1, h2⟩
    | @cons i0 j st0 syms0 s0 p0 X0 h1 h2 h3 h4 h5 =>
      obtain ⟨j', s', f1, _, f3, _, f5⟩ := h.edge h2 h3 h4
      rw [h5] at f1; cases f1
      obtain ⟨q, hq, _⟩ := f5 p0 h3 h4
      exact ⟨_, _, s', q, rfl, f3, hq⟩
  obtain ⟨i, st, s, p, e, hs, hp⟩ := key
  obtain ⟨u, k1, k2⟩ := h.under hpath e hs hp
  obtain ⟨L, l1, l2, l3⟩ := k1.short hm hn
  have hL : L.length ≤ D.length := by
    have := nodup_length_le l1 (m := D.map Prod.fst) (fun x hx => (l2 x hx).1)
    simpa using this
  have hb := hm _ _ _ (h.prod hs hp).1
  have hlen := congrArg List.length k2
  have hmul := Nat.mul_le_mul_right m hL
  simp only [List.length_reverse, List.length_append, List.length_take] at hlen
  rw [Nat.add_mul, Nat.one_mul]
  omega

/-! ### With nesting, it grows without bound -/

/-- Reading a piece of a body. -/
theorem Auto.read_body (h : Auto D S b0 states acts next red) : ∀ (x y : List T) {i : Nat} {st : List Nat}
    {syms : List T} {s : State T} {p : Position T}, Path states next (i :: st) syms → states[i]? = some s →
    p ∈ s → p.seq.1.drop p.point = x ++ y →
    ∃ i' st' s' q, Path states next (i' :: st') (x.reverse ++ syms) ∧ states[i']? = some s' ∧ q ∈ s' ∧
      q.rule = p.rule ∧ q.seq = p.seq ∧ q.seq.1.drop q.point = y := by
  intro x
  induction x with
  | nil => intro y i st syms s p hpath hs hp e; exact ⟨i, st, s, p, by simpa using hpath, hs, hp, rfl, rfl, e⟩
  | cons X x ih =>
    intro y i st syms s p hpath hs hp e
    have hget : p.seq.1[p.point]? = some X := by
      have := congrArg (fun l => l[0]?) e
      simpa using this
    have htop : p.top = some X := by simpa [Position.top, Position.peek] using hget
    obtain ⟨j, s', f1, _, f3, _, f5⟩ := h.edge hs hp htop
    obtain ⟨q, hq, hb⟩ := f5 p hp htop
    have hd : q.seq.1.drop q.point = x ++ y := by
      have e1 : q.seq = p.seq := hb.2.1
      have e2 : q.point = p.point + 1 := hb.2.2
      rw [e1, e2, ← List.drop_drop, e]
      simp
    obtain ⟨i', st', s'', q', g1, g2, g3, g4, g5, g6⟩ := ih y (hpath.cons hs hp htop f1) f3 hq hd
    exact ⟨i', st', s'', q', by simpa using g1, g2, g3, g4.trans hb.1, g5.trans hb.2.1, g6⟩

/-- A way down is a path of the automaton. -/
theorem Auto.path_of_under (h : Auto D S b0 states acts next red) (h1 : SingleStart D S) {u : List T} {B : T}
    (hu : Under D S u B) : ∀ {k : Nat} {b : List T}, IsProd D B k b →
    ∃ i st s q, Path states next (i :: st) u.reverse ∧ states[i]? = some s ∧ q ∈ s ∧ q.rule = B ∧
      q.seq = (b, k) ∧ q.point = 0 := by
  induction hu with
  | refl =>
    intro k b hp
    obtain ⟨s, p, e1, e2, e3, e4, e5⟩ := h.basis
    obtain rfl := h1 k b hp
    obtain rfl := hp.unique h.start
    exact ⟨0, [], s, p, .base, e1, e2, e3, e4, e5⟩
  | @snoc u B C i x y _ hp ih =>
    intro k b hC
    obtain ⟨j, st, s, q, g1, g2, g3, g4, g5, g6⟩ := ih hp
    obtain ⟨j', st', s', q', r1, r2, r3, r4, r5, r6⟩ := h.read_body x (C :: y) g1 g2 g3 (by rw [g5, g6]; rfl)
    have htop : q'.top = some C := by
      have := congrArg (fun l => l[0]?) r6
      simpa [Position.top, Position.peek] using this
    obtain ⟨q2, k1, k2, k3, k4⟩ := h.close r2 r3 htop hC
    exact ⟨j', st', s', q2, by simpa using r1, r2, k1, k2, k3, k4⟩

/-- Going round: arbitrarily many symbols to the left. -/
theorem Under.rounds {A : T} {w : List T} (hw : w ≠ []) (h : Under D A w A) {u : List T}
    (h0 : Under D S u A) : ∀ n : Nat, ∃ u', n ≤ u'.length ∧ Under D S u' A
  | 0 => ⟨u, by omega, h0⟩
  | n + 1 => by
    obtain ⟨u', k1, k2⟩ := Under.rounds hw h h0 n
    have : 0 < w.length := List.length_pos_iff.mpr hw
    exact ⟨u' ++ w, by simp only [List.length_append]; omega, k2.trans h⟩

/-- There are sentences on which the run has a high stack, or stops at a conflict. -/
theorem Looks.high (h : Auto D S b0 states acts next red) (hl : Looks D S eof b0 states next red)
    (hS : InNoBody D S) (h1 : SingleStart D S) (hpr : AllProductive D) {A : T} (hr : Reachable D S A)
    (hN : Nests D A) (m : M) (n : Nat) :
    ∃ toks : List (Token M T), Sentence D S (toks.map Token.ty) ∧
      (Clash acts eof (⟨[0], [], toks⟩ : Conf M T) ∨
       ∃ c : Conf M T, Moves acts eof ⟨[0], [], toks⟩ c ∧ n < c.states.length) := by
  obtain ⟨u, v, hd⟩ := hr
  obtain ⟨u0, g1, _⟩ := Reachable.under hd
  obtain ⟨w, hw, hw'⟩ := nests_iff.mp hN
  obtain ⟨u', hn, hu'⟩ := Under.rounds hw hw' g1 n
  obtain ⟨v', hv'⟩ := hu'.derives
  have hprod : ∃ k b, IsProd D A k b := by
    cases hw' with
    | refl => exact absurd rfl hw
    | @snoc u B C i x y hB hp =>
      have : ∀ {u B}, Under D A u B → (∃ k b, IsProd D B k b) → ∃ k b, IsProd D A k b := by
        intro u B hu
        induction hu with
        | refl => exact id
        | snoc _ hp ih => exact fun _ => ih ⟨_, _, hp⟩
      exact this hB ⟨i, _, hp⟩
  obtain ⟨k, b, hb⟩ := hprod
  obtain ⟨i, st, s, q, p1, p2, p3, p4, p5, p6⟩ := h.path_of_under h1 hu' hb
  obtain ⟨X, r, rfl⟩ := List.exists_cons_of_ne_nil (h.noEmpty _ _ _ hb)
  have htop : q.top = some X := by simp [Position.top, Position.peek, p5, p6]
  obtain ⟨tk, t1, t2, t3⟩ := Looks.arrive h hl hS hpr m p1 rfl p2 p3 htop
  rw [List.reverse_reverse] at t2
  obtain ⟨tr, hroot, hv⟩ := productive_tree hpr m X
  obtain ⟨w2, k1, k2⟩ := productive_list hpr (r ++ v')
  have hw2 : (w2.map (fun t => (⟨m, t⟩ : Token M T))).map Token.ty = w2 := by simp [Function.comp_def]
  refine ⟨tk ++ (tr.yield ++ w2.map (fun t => ⟨m, t⟩)), ⟨?_, ?_⟩, ?_⟩
  · refine hv'.trans ((Derives.head (Step.mk u' v' hb) ?_))
    have e : u' ++ X :: r ++ v' = u' ++ ([X] ++ (r ++ v')) := by simp
    rw [e, List.map_append, List.map_append, hw2]
    have hx := hv.derives
    rw [hroot] at hx
    exact t2.append (hx.append k1)
  · intro x hx
    rw [List.map_append, List.map_append, hw2] at hx
    rcases List.mem_append.mp hx with hx | hx
    · obtain ⟨tok, htok, rfl⟩ := List.mem_map.mp hx
      exact t1 tok htok
    · rcases List.mem_append.mp hx with hx | hx
      · obtain ⟨tok, htok, rfl⟩ := List.mem_map.mp hx
        exact hv.terminals tok htok
      · exact k2 x hx
  · obtain ⟨tok, r', hy, hf⟩ := Tree.valid_yield h.noEmpty hv
    rcases t3 (tr.yield ++ w2.map (fun t => ⟨m, t⟩)) (by
        rw [hy]
        exact hv.terminals tok (by rw [hy]; simp)) (by
        rw [hy, ← hroot]
        exact Or.inr hf) with hc | ⟨trs, hm⟩
    · exact Or.inl hc
    · refine Or.inr ⟨_, hm, ?_⟩
      have hlen : ∀ {is syms}, Path states next is syms → is.length = syms.length + 1 := by
        intro is syms hp
        induction hp with
        | base => rfl
        | cons _ _ _ _ _ ih => simp only [List.length_cons] at ih ⊢; omega
      have := hlen p1
      simp only [List.length_reverse] at this
      show n < (i :: st).length
      omega

end

/-- What moves reach, the `Dfa` reaches, if the reductors give values. -/
theorem Auto.reached_moves {D : Decls T} {S : T} {b0 : List T} {t : Tabler T} {next : State T → T → Option Nat}
    {red : Position T → T → Prop} {eof : T} {maps : ReductMap M T} (h : Auto D S b0 t.states t.actions next red)
    (he : Terminal D eof) {toks : List (Token M T)} (hev : Evaluates D maps toks) {c c' : Conf M T}
    (hm : Moves t.actions eof c c') : ∀ {d : Dfa M T}, Reached t maps toks d → InvC D t.states next c →
      Sim t.actions eof maps d c → (∀ tk ∈ c.buf, Terminal D tk.ty) → c.all = toks →
      ∃ d', Reached t maps toks d' ∧ Sim t.actions eof maps d' c' := by
  induction hm with
  | refl => intro d hr _ hs _ _; exact ⟨d, hr, hs⟩
  | head m _ ih =>
    intro d hr hi hs hb hall
    rcases h.travel_cases hi hs (terminal_lookSym he hb) (n := 2) (by omega) with
      ⟨c', d', m', hs', e⟩ | ⟨ha, e⟩ | ⟨d', er, hfl, e⟩ | ⟨p, hp, e⟩
    · have := m.det m'; subst this
      exact ih (hr.step hs.finished e) (h.inv_move hi m) hs' (fun t ht => hb t (m.buf_suffix t ht)) ((Moves.yields (.head m (.refl _))).trans hall)
    · exact absurd m (fun m => ha.no_move m)
    · exact absurd m (fun m => hfl.no_move m)
    · rw [hall] at hp
      exact (hp.1.false hev).elim

end Lrp
