import Verif.Proofs.Effects
import Verif.Proofs.Linear
import Verif.Spec.Stream

/-! The run of the parser on an iterator (Model/Stream.lean) follows the moves of Proofs/Machine.lean, and
asks for the tokens and calls the reductors in the order of the trees. -/

set_option linter.unusedSectionVars false

namespace Lrp
open Spec
variable {T : Type} [LinOrd T] [DecidableEq T] {σ M : Type}

namespace Spec.Walk
variable {nx : NextFn σ M T} {f : T → Nat → List (Token M T) → σ → Option (M × σ)}

theorem append {a b : List (Tree M T)} {st st1 st2 : Option (Token M T) × σ} {its its' : List (Token M T)}
    (h : Walk nx f a st its st1) (h' : Walk nx f b st1 its' st2) :
    Walk nx f (a ++ b) st (its ++ its') st2 := by
  induction h with
  | nil => exact h'
  | leaf _ ih => exact .leaf (ih h')
  | node h1 h2 _ _ ih => exact .node h1 h2 (ih h')

theorem split : ∀ {a b : List (Tree M T)} {st st2 : Option (Token M T) × σ} {its : List (Token M T)},
    Walk nx f (a ++ b) st its st2 →
    ∃ its1 its2 st1, its = its1 ++ its2 ∧ Walk nx f a st its1 st1 ∧ Walk nx f b st1 its2 st2
  | [], _, st, _, its, h => ⟨[], its, st, rfl, .nil, h⟩
  | _ :: a, _, _, _, _, h => by
    cases h with
    | leaf h =>
      obtain ⟨i1, i2, st1, rfl, h1, h2⟩ := split h
      exact ⟨_ :: i1, i2, st1, rfl, .leaf h1, h2⟩
    | node h1 h2 h3 =>
      obtain ⟨i1, i2, st1, rfl, h4, h5⟩ := split h3
      exact ⟨_ :: i1, i2, st1, rfl, .node h1 h2 h4, h5⟩

theorem tys {cs : List (Tree M T)} {st st' : Option (Token M T) × σ} {its : List (Token M T)}
    (h : Walk nx f cs st its st') : its.map Token.ty = cs.map Tree.root := by
  induction h with
  | nil => rfl
  | leaf _ ih => simp [ih, Tree.root]
  | node _ _ _ _ ih => simp [ih, Tree.root]

theorem length {cs : List (Tree M T)} {st st' : Option (Token M T) × σ} {its : List (Token M T)}
    (h : Walk nx f cs st its st') : its.length = cs.length := by
  simpa using congrArg List.length h.tys

theorem unique {cs : List (Tree M T)} {st st' st'' : Option (Token M T) × σ} {its its' : List (Token M T)}
    (h : Walk nx f cs st its st') (h' : Walk nx f cs st its' st'') : its = its' ∧ st' = st'' := by
  induction h generalizing its' st'' with
  | nil => cases h'; exact ⟨rfl, rfl⟩
  | leaf _ ih =>
    cases h' with
    | leaf h' =>
      obtain ⟨rfl, rfl⟩ := ih h'
      exact ⟨rfl, rfl⟩
  | node _ h2 _ ih1 ih2 =>
    cases h' with
    | node h1' h2' h3' =>
      obtain ⟨rfl, e⟩ := ih1 h1'
      cases e
      rw [h2] at h2'
      cases h2'
      obtain ⟨rfl, rfl⟩ := ih2 h3'
      exact ⟨rfl, rfl⟩

/-- Splitting the stack of trees. -/
theorem stack {trs : List (Tree M T)} {its : List (Token M T)} {st st' : Option (Token M T) × σ}
    (h : Walk nx f trs.reverse st its.reverse st') (k : Nat) (hk : k ≤ trs.length) :
    ∃ st1, Walk nx f (trs.drop k).reverse st (its.drop k).reverse st1 ∧
      Walk nx f (trs.take k).reverse st1 (its.take k).reverse st' := by
  have hl : its.length = trs.length := by simpa using h.length
  rw [← List.take_append_drop k trs, List.reverse_append] at h
  obtain ⟨a, b, st1, e, h1, h2⟩ := split h
  have la : a.length = trs.length - k := by simpa using h1.length
  have h5 : its.reverse = (its.drop k).reverse ++ (its.take k).reverse := by
    rw [← List.reverse_append, List.take_append_drop]
  rw [h5] at e
  obtain ⟨e1, e2⟩ := List.append_inj e (by simp [la, hl])
  exact ⟨st1, by rw [e1]; exact h1, by rw [e2]; exact h2⟩

end Spec.Walk

/-- The next token, and what is around after it was asked for. -/
def viewS (nx : NextFn σ M T) (s : σ) (slot : Slot M T) : Option (Token M T) × σ :=
  match slot with
  | some v => (v, s)
  | none => nx s

theorem peekS_eq (nx : NextFn σ M T) (s : σ) (slot : Slot M T) :
    Dfa.peekS nx s slot = ((viewS nx s slot).1, (viewS nx s slot).2, some (viewS nx s slot).1) := by
  cases slot <;> rfl

/-- The `Dfa` and the stacks agree, and what is around is what going through the trees leaves. -/
structure SimS (acts : ActTable T) (eof : T) (maps : ReductMapE σ M T) (nx : NextFn σ M T) (s0 : σ)
    (st : Option (Token M T) × σ) (d : Dfa M T) (sts : List Nat) (trs : List (Tree M T)) : Prop where
  states : d.states = sts
  top : sts.head? = some d.top
  table : d.table = acts
  eof : d.eof = eof
  finished : d.finished = false
  items : Walk nx (redOfE maps) trs.reverse (nx s0) d.items.reverse st

section
variable {D : Decls T} {S : T} {b0 : List T} {states : List (State T)} {acts : ActTable T}
  {next : State T → T → Option Nat} {red : Position T → T → Prop} {eof : T} {maps : ReductMapE σ M T}
  {nx : NextFn σ M T} {s0 s : σ} {la : Option (Token M T)}

theorem lookSym_head {buf : List (Token M T)} (h : buf.head? = la) : lookSym eof buf = lookSym eof la.toList := by
  subst h
  cases buf <;> rfl

theorem lookSym_toList : lookSym eof la.toList = (match la with | none => eof | some t => t.ty) := by
  cases la <;> rfl

/-! ### Fuel -/

theorem Dfa.travelS_le {n m : Nat} (h : n ≤ m) (s : σ) (slot : Slot M T) (d : Dfa M T) (x : T) :
    Out.Le (Dfa.travelS nx maps n s slot d x) (Dfa.travelS nx maps m s slot d x) := by
  induction n generalizing m s slot d x with
  | zero => exact .fuel _
  | succ n ih =>
    obtain ⟨m, rfl⟩ : ∃ k, m = k + 1 := ⟨m - 1, by omega⟩
    unfold Dfa.travelS
    split
    · exact .refl _
    · split
      · exact .refl _
      · exact .refl _
      · exact .refl _
      · exact Out.Le.bind (.refl _) (fun r => ih (by omega) r.1 slot r.2 _)
      · exact .refl _
      · exact .refl _

theorem Dfa.traceS_le {tn tm n m : Nat} (ht : tn ≤ tm) (h : n ≤ m) (s : σ) (slot : Slot M T)
    (d : Dfa M T) : Out.Le (Dfa.traceS nx maps tn n s slot d) (Dfa.traceS nx maps tm m s slot d) := by
  induction n generalizing m s slot d with
  | zero => exact .fuel _
  | succ n ih =>
    obtain ⟨m, rfl⟩ : ∃ k, m = k + 1 := ⟨m - 1, by omega⟩
    unfold Dfa.traceS
    split
    · exact .refl _
    · refine Out.Le.bind (Dfa.travelS_le ht _ _ _ _) (fun r => ?_)
      obtain ⟨s', slot', d', e | u⟩ := r
      · exact .refl _
      · exact ih (by omega) s' slot' d'

theorem Parser.parseS_le {n m : Nat} (h : n ≤ m) (t : Tabler T) (s : σ) :
    Out.Le (Parser.parseS t n nx maps s) (Parser.parseS t m nx maps s) :=
  Out.Le.bind (.refl _) (fun d => Out.Le.bind (Dfa.traceS_le h h s none d) (fun _ => .refl _))

theorem Spec.ParsesS.unique {t : Tabler T} {s' s'' : σ} {r r' : Except (Error T) M}
    (h : ParsesS t nx maps s s' r) (h' : ParsesS t nx maps s s'' r') : s' = s'' ∧ r = r' := by
  obtain ⟨n, h⟩ := h
  obtain ⟨m, h'⟩ := h'
  have := Out.Le.agree (f := fun n => Parser.parseS t n nx maps s)
    (fun h => Parser.parseS_le h t s) h h'
  cases this
  exact ⟨rfl, rfl⟩

/-! ### One iteration -/

/-- `reduceStacksE` does the reduction of `Move.reduce`. -/
theorem Auto.reduceStacksS_cases (h : Auto D S b0 states acts next red) {d : Dfa M T} {i k : Nat}
    {st : List Nat} {trs : List (Tree M T)} {A : T} {b : List T}
    (hi : InvC D states next ⟨i :: st, trs, la.toList⟩)
    (hd : SimS acts eof maps nx s0 (la, s) d (i :: st) trs)
    (hc : cellAt acts i (lookSym eof la.toList) = some (.reduce A (b, k))) :
    (∃ p st1 its1 its2, d.reduceStacksE maps s A (b, k) = .panic p ∧
      Walk nx (redOfE maps) (trs.drop b.length).reverse (nx s0) its1 st1 ∧
      Walk nx (redOfE maps) (trs.take b.length).reverse st1 its2 (la, s) ∧
      redOfE maps A k its2 s = none) ∨
    ∃ s' d' i' v, d.reduceStacksE maps s A (b, k) = .ok (s', d') ∧ (i :: st)[b.length]? = some i' ∧
      d' = { d with items := ⟨v, A⟩ :: d.items.drop b.length, top := i',
                    states := (i :: st).drop b.length } ∧
      Walk nx (redOfE maps) (.node A k (trs.take b.length).reverse :: trs.drop b.length).reverse (nx s0)
        d'.items.reverse (la, s') := by
  obtain ⟨r1, r2, r3, r4, i', s', q, j, r5, r6, _, _, _, _⟩ := h.reduce_stack hi hc
  have hlen : d.items.length = trs.length := by simpa using hd.items.length
  obtain ⟨s1, q1, q2⟩ := hd.items.stack b.length r3
  have hasrt : Out.assert .itemsUnderflow (decide (b.length ≤ d.items.length)) = .ok () := by
    rw [hlen]; simp [r3]
  unfold Dfa.reduceStacksE
  simp only [hasrt, Out.ok_bind]
  have hst : d.states = i :: st := hd.states
  cases hm : maps.get? A with
  | none =>
    left
    exact ⟨.missingReductor, s1, _, _, by simp, q1, q2, by unfold redOfE; rw [hm]; rfl⟩
  | some fs =>
    simp only [Out.ofOption_some, Out.ok_bind]
    cases hf : fs[k]? with
    | none =>
      left
      exact ⟨.missingReductor, s1, _, _, by simp, q1, q2, by unfold redOfE; rw [hm]; simp [hf]⟩
    | some f =>
      simp only [Out.ofOption_some, Out.ok_bind]
      cases hv : f (d.items.take b.length).reverse s with
      | none =>
        left
        exact ⟨.reductorPanic, s1, _, _, by simp, q1, q2, by unfold redOfE; rw [hm]; simp [hf, hv]⟩
      | some r =>
        right
        obtain ⟨v, s2⟩ := r
        simp only [Out.ofOption_some, Out.ok_bind, hst, r5]
        refine ⟨s2, _, i', v, rfl, rfl, rfl, ?_⟩
        have hred : redOfE maps A k (d.items.take b.length).reverse s = some (v, s2) := by
          unfold redOfE
          simp only [hm, hf, hv, Option.bind_some]
        rw [List.reverse_cons]
        simp only [List.reverse_cons]
        exact q1.append (.node q2 hred .nil)

/-- What one iteration of the loop of `Dfa::trace` does, with the token `la` peeked at. -/
inductive StepS (D : Decls T) (acts : ActTable T) (eof : T) (maps : ReductMapE σ M T) (nx : NextFn σ M T)
    (s0 : σ) (la : Option (Token M T)) (s : σ) (d : Dfa M T) (sts : List Nat) (trs : List (Tree M T)) :
    Out (σ × Slot M T × DfaRes M T Unit) → Prop
  | shift {tok : Token M T} {sts' : List Nat} {trs' : List (Tree M T)} {d' : Dfa M T} : la = some tok →
      (∀ rest, Move acts eof ⟨sts, trs, tok :: rest⟩ ⟨sts', trs', rest⟩) →
      SimS acts eof maps nx s0 (nx s) d' sts' trs' →
      StepS D acts eof maps nx s0 la s d sts trs (.ok (s, none, d', .ok ()))
  | reduce {s' : σ} {sts' : List Nat} {trs' : List (Tree M T)} {d' : Dfa M T} :
      (∀ buf, buf.head? = la → Move acts eof ⟨sts, trs, buf⟩ ⟨sts', trs', buf⟩) →
      SimS acts eof maps nx s0 (la, s') d' sts' trs' →
      StepS D acts eof maps nx s0 la s d sts trs (.ok (s', some la, d', .ok ()))
  | accept : la = none → Accepts acts eof ⟨sts, trs, []⟩ →
      StepS D acts eof maps nx s0 la s d sts trs (.ok (s, some la, { d with finished := true }, .ok ()))
  | fail {s' : σ} {slot : Slot M T} {d' : Dfa M T} {e : Error T} {cs : List (Tree M T)}
      {its : List (Token M T)} : (∀ buf, buf.head? = la → Fails acts eof ⟨sts, trs, buf⟩ e) →
      (∀ tr ∈ cs, Tree.Valid D tr) → Tree.yields cs = Tree.yields trs.reverse →
      Walk nx (redOfE maps) cs (nx s0) its (la, s') →
      StepS D acts eof maps nx s0 la s d sts trs (.ok (s', slot, d', .error e))
  | panic {p : Panic} {A : T} {k : Nat} {cs ds : List (Tree M T)} {its1 its2 : List (Token M T)}
      {st1 : Option (Token M T) × σ} : trs.reverse = cs ++ ds → Tree.Valid D (.node A k ds) →
      (∀ tr ∈ cs, Tree.Valid D tr) →
      Walk nx (redOfE maps) cs (nx s0) its1 st1 → Walk nx (redOfE maps) ds st1 its2 (la, s) →
      redOfE maps A k its2 s = none →
      (∀ buf, buf.head? = la →
        (∃ c, Move acts eof ⟨sts, trs, buf⟩ c ∧ c.trees.reverse = cs ++ [.node A k ds]) ∨
        ∃ e, Fails acts eof ⟨sts, trs, buf⟩ e) →
      StepS D acts eof maps nx s0 la s d sts trs (.panic p)

/-- One iteration of the loop of `Dfa::trace` from a configuration whose next symbol is a terminal. -/
theorem Auto.travelS_cases (h : Auto D S b0 states acts next red) {d : Dfa M T} {sts : List Nat}
    {trs : List (Tree M T)} (hi : InvC D states next ⟨sts, trs, la.toList⟩)
    (hd : SimS acts eof maps nx s0 (la, s) d sts trs)
    (hT : Terminal D (lookSym eof la.toList)) {n : Nat} (hn : 2 ≤ n) :
    StepS D acts eof maps nx s0 la s d sts trs
      (Dfa.travelS nx maps n s (some la) d (lookSym eof la.toList)) := by
  obtain ⟨n, rfl⟩ : ∃ k, n = k + 2 := ⟨n - 2, by omega⟩
  obtain ⟨i, st, s1, e, hs⟩ := h.path_state hi.path
  simp only at e; subst e
  obtain ⟨row, hr⟩ := h.row hs
  have htop : d.top = i := by have := hd.top; simp at this; exact this.symm
  have htab : d.table[d.top]? = some row := by rw [hd.table, htop]; exact hr
  have hval : ∀ tr ∈ trs.reverse, Tree.Valid D tr := fun tr ht => hi.valid tr (List.mem_reverse.mp ht)
  unfold Dfa.travelS
  rw [htab]
  simp only
  have hcell : ∀ x, cellAt acts i x = row.get? x := fun x => cellAt_none hr
  cases hg : row.get? (lookSym eof la.toList) with
  | none =>
    refine .fail (fun buf hb => ?_) hval rfl hd.items
    rw [← lookSym_head hb] at hg ⊢
    exact .noAction hr hg
  | some a =>
    have hc : cellAt acts i (lookSym eof la.toList) = some a := by rw [hcell]; exact hg
    cases a with
    | shift j =>
      simp only
      cases la with
      | none =>
        refine .fail (fun buf hb => ?_) hval rfl hd.items
        rw [List.head?_eq_none_iff] at hb
        subst hb
        exact .eof hc
      | some tok =>
        refine .shift rfl (fun rest => .shift hc) ?_
        refine ⟨by rw [hd.states], rfl, hd.table, hd.eof, hd.finished, ?_⟩
        simp only [List.reverse_cons]
        exact hd.items.append (.leaf .nil)
    | goto j =>
      exfalso
      rcases h.cell_dec hs hc (by intro x y; simp) with ⟨p, _, _, j, _, hk⟩ | ⟨p, _, _, _, hk⟩
      · rcases hk with ⟨_, hk⟩ | ⟨hN, _⟩
        · cases hk
        · exact not_terminal_iff.mpr hN hT
      · rcases hk with ⟨_, hk⟩ | ⟨_, hk⟩ <;> cases hk
    | acc =>
      simp only
      cases la with
      | none => exact .accept rfl ⟨i, st, rfl, hc, rfl⟩
      | some tok =>
        refine .fail (fun buf hb => ?_) hval rfl hd.items
        refine .incomplete (by rw [lookSym_head hb]; exact hc) ?_
        rintro rfl
        cases hb
    | conflict a b =>
      refine .fail (fun buf hb => ?_) hval rfl hd.items
      rw [← lookSym_head hb] at hc
      exact .conflict hc
    | reduce A prod =>
      obtain ⟨b, k⟩ := prod
      simp only
      obtain ⟨r1, r2, r3, r4, i'', s'', q, j, r5, r6, r7, r8, r9, r10⟩ := h.reduce_stack hi hc
      have hnode : Tree.Valid D (.node A k (trs.take b.length).reverse) := by
        refine .node (by rw [r4]; exact r1) (fun t ht => ?_)
        exact hi.valid t (List.mem_of_mem_take (List.mem_reverse.mp ht))
      rcases h.reduceStacksS_cases hi hd hc with
        ⟨p, st1, its1, its2, hp, w1, w2, hf⟩ | ⟨s', d', i', v, hp, h1, h4, h5⟩
      · rw [hp]
        refine .panic (by rw [← List.reverse_append, List.take_append_drop]) hnode
          (fun tr ht => hi.valid tr (List.mem_of_mem_drop (List.mem_reverse.mp ht))) w1 w2 hf
          (fun buf hb => ?_)
        rw [← lookSym_head hb] at hc
        rcases r10 with r10 | ⟨x, y, r10⟩
        · exact .inl ⟨_, .reduce hc r3 r5 r10, by simp⟩
        · exact .inr ⟨_, .conflict' hc r3 r5 r10⟩
      · obtain rfl : i'' = i' := Option.some.inj (r5.symm.trans h1)
        obtain ⟨row', hr'⟩ := h.row r6
        have htab' : d'.table[d'.top]? = some row' := by
          rw [h4]; simp only [hd.table]; exact hr'
        rw [hp]
        simp only [Out.ok_bind]
        unfold Dfa.travelS
        rw [htab']
        simp only
        have hcell' : cellAt acts i'' A = row'.get? A := cellAt_none hr'
        rcases r10 with r10 | ⟨x, y, r10⟩
        · rw [← hcell', r10]
          refine .reduce (fun buf hb => ?_) ?_ (sts' := j :: (i :: st).drop b.length)
            (trs' := .node A k (trs.take b.length).reverse :: trs.drop b.length)
          · rw [← lookSym_head hb] at hc
            exact .reduce hc r3 h1 r10
          · refine ⟨?_, rfl, ?_, ?_, ?_, h5⟩
            · rw [h4]
            · rw [h4]; exact hd.table
            · rw [h4]; exact hd.eof
            · rw [h4]; exact hd.finished
        · rw [← hcell', r10]
          refine .fail (fun buf hb => ?_) ?_ ?_ h5
          · rw [← lookSym_head hb] at hc
            exact .conflict' hc r3 h1 r10
          · intro tr ht
            rcases List.mem_cons.mp (List.mem_reverse.mp ht) with rfl | ht
            · exact hnode
            · exact hi.valid tr (List.mem_of_mem_drop ht)
          · simp only [List.reverse_cons, Tree.yields_append, Tree.yields_singleton, Tree.yield_node]
            rw [← Tree.yields_append, ← List.reverse_append, List.take_append_drop]

/-! ### The whole run -/

/-- What `traceS` can return from the stacks `sts` and `trs` with the token `la` to be looked at. -/
inductive RanS (D : Decls T) (acts : ActTable T) (eof : T) (maps : ReductMapE σ M T) (nx : NextFn σ M T)
    (s0 : σ) (la : Option (Token M T)) (sts : List Nat) (trs : List (Tree M T)) :
    Out (σ × Slot M T × DfaRes M T Unit) → Prop
  | ok {w : List (Token M T)} {sts' : List Nat} {trs' : List (Tree M T)} {d' : Dfa M T} {s' : σ}
      {slot : Slot M T} : w.head? = la → Moves acts eof ⟨sts, trs, w⟩ ⟨sts', trs', []⟩ →
      Accepts acts eof ⟨sts', trs', []⟩ → SimS acts eof maps nx s0 (none, s') d' sts' trs' →
      RanS D acts eof maps nx s0 la sts trs (.ok (s', slot, { d' with finished := true }, .ok ()))
  | error {w : List (Token M T)} {c : Conf M T} {d' : Dfa M T} {s' : σ} {e : Error T} {slot : Slot M T}
      {cs : List (Tree M T)} {its : List (Token M T)} : w.head? = la → Moves acts eof ⟨sts, trs, w⟩ c →
      Fails acts eof c e → (∀ tr ∈ cs, Tree.Valid D tr) → Tree.yields cs = Tree.yields c.trees.reverse →
      Walk nx (redOfE maps) cs (nx s0) its (c.buf.head?, s') →
      RanS D acts eof maps nx s0 la sts trs (.ok (s', slot, d', .error e))
  | panic {p : Panic} {A : T} {k : Nat} {cs ds : List (Tree M T)} {its1 its2 : List (Token M T)}
      {st1 : Option (Token M T) × σ} {la' : Option (Token M T)} {s' : σ} : Tree.Valid D (.node A k ds) →
      (∀ tr ∈ cs, Tree.Valid D tr) →
      Walk nx (redOfE maps) cs (nx s0) its1 st1 → Walk nx (redOfE maps) ds st1 its2 (la', s') →
      redOfE maps A k its2 s' = none → RanS D acts eof maps nx s0 la sts trs (.panic p)
  | fuel : RanS D acts eof maps nx s0 la sts trs .fuel

theorem RanS.shift {tok : Token M T} {la' : Option (Token M T)} {sts sts' : List Nat}
    {trs trs' : List (Tree M T)} {r : Out (σ × Slot M T × DfaRes M T Unit)}
    (m : ∀ rest, Move acts eof ⟨sts, trs, tok :: rest⟩ ⟨sts', trs', rest⟩)
    (h : RanS D acts eof maps nx s0 la' sts' trs' r) : RanS D acts eof maps nx s0 (some tok) sts trs r := by
  cases h with
  | ok h1 h2 h3 h4 => exact .ok (w := tok :: _) rfl (.head (m _) h2) h3 h4
  | error h1 h2 h3 h4 h5 h6 => exact .error (w := tok :: _) rfl (.head (m _) h2) h3 h4 h5 h6
  | panic h1 h2 h3 h4 h5 => exact .panic h1 h2 h3 h4 h5
  | fuel => exact .fuel

theorem RanS.reduce {sts sts' : List Nat} {trs trs' : List (Tree M T)}
    {r : Out (σ × Slot M T × DfaRes M T Unit)}
    (m : ∀ buf, buf.head? = la → Move acts eof ⟨sts, trs, buf⟩ ⟨sts', trs', buf⟩)
    (h : RanS D acts eof maps nx s0 la sts' trs' r) : RanS D acts eof maps nx s0 la sts trs r := by
  cases h with
  | ok h1 h2 h3 h4 => exact .ok h1 (.head (m _ h1) h2) h3 h4
  | error h1 h2 h3 h4 h5 h6 => exact .error h1 (.head (m _ h1) h2) h3 h4 h5 h6
  | panic h1 h2 h3 h4 h5 => exact .panic h1 h2 h3 h4 h5
  | fuel => exact .fuel

theorem InvC.rebuf {sts : List Nat} {trs : List (Tree M T)} {buf buf' : List (Token M T)}
    (h : InvC D states next ⟨sts, trs, buf⟩) : InvC D states next ⟨sts, trs, buf'⟩ :=
  ⟨h.path, h.valid⟩

/-- One round of the loop. -/
theorem Dfa.traceS_succ (tf n : Nat) {s : σ} {slot : Slot M T} {d : Dfa M T} (hf : d.finished = false)
    (he : d.eof = eof) : Dfa.traceS nx maps tf (n + 1) s slot d =
      (Dfa.travelS nx maps tf (viewS nx s slot).2 (some (viewS nx s slot).1) d
        (lookSym eof (viewS nx s slot).1.toList)) >>= (fun r => match r with
          | (s, slot, d, .error e) => .ok (s, slot, d, .error e)
          | (s, slot, d, .ok ()) => Dfa.traceS nx maps tf n s slot d) := by
  rw [Dfa.traceS]
  simp only [hf, Bool.false_eq_true, if_false, peekS_eq, he, lookSym_toList]
  congr 1
  · cases (viewS nx s slot).1 <;> rfl
  · funext r
    obtain ⟨_, _, _, e | u⟩ := r <;> rfl

/-- Every run on terminals follows the moves. -/
theorem Auto.ranS (h : Auto D S b0 states acts next red) (he : Terminal D eof)
    (hT : ∀ s tok s', nx s = (some tok, s') → Terminal D tok.ty) (tf : Nat) :
    ∀ (n : Nat) {s : σ} {slot : Slot M T} {d : Dfa M T} {sts : List Nat} {trs : List (Tree M T)},
      InvC D states next ⟨sts, trs, []⟩ → SimS acts eof maps nx s0 (viewS nx s slot) d sts trs →
      Terminal D (lookSym eof (viewS nx s slot).1.toList) →
      RanS D acts eof maps nx s0 (viewS nx s slot).1 sts trs (Dfa.traceS nx maps tf n s slot d) := by
  intro n
  induction n with
  | zero => intro s slot d sts trs _ _ _; exact .fuel
  | succ n ih =>
    intro s slot d sts trs hi hd hb
    rw [Dfa.traceS_succ tf n hd.finished hd.eof]
    generalize hv : viewS nx s slot = st at hd hb ⊢
    obtain ⟨la, s1⟩ := st
    simp only at hb ⊢
    rcases Dfa.travelS_le (nx := nx) (maps := maps) (Nat.le_add_right tf 2) s1 (some la) d
      (lookSym eof la.toList) with hf | hf
    · rw [hf]; exact .fuel
    · rw [hf]
      have hc := h.travelS_cases hi.rebuf hd hb (n := tf + 2) (by omega)
      generalize Dfa.travelS nx maps (tf + 2) s1 (some la) d (lookSym eof la.toList) = r at hc
      cases hc with
      | @shift tok sts' trs' d' e m hs =>
        subst e
        refine .shift m (ih (slot := none) (h.inv_move (hi.rebuf (buf' := [tok])) (m [])) hs ?_)
        simp only [viewS]
        cases hn : nx s1 with
        | mk a s2 =>
          cases a with
          | none => exact he
          | some tok => exact hT _ _ _ hn
      | @reduce s' sts' trs' d' m hs =>
        exact .reduce m (ih (slot := some la)
          ((h.inv_move (hi.rebuf (buf' := la.toList)) (m la.toList (by cases la <;> rfl))).rebuf) hs hb)
      | accept e ha =>
        subst e
        cases n with
        | zero => exact .fuel
        | succ n =>
          simp only [Out.ok_bind]
          unfold Dfa.traceS
          simp only [if_true]
          exact .ok (w := []) rfl (.refl _) ha hd
      | @fail s' slot d' e cs its hfl k1 k2 k3 =>
        have hl : la.toList.head? = la := by cases la <;> rfl
        refine .error (its := its) hl (.refl _) (hfl _ hl) k1 k2 ?_
        simp only [hl]
        exact k3
      | panic _ h1 h2 h3 h4 h5 _ => exact .panic h1 h2 h3 h4 h5

/-- A successful run, on any iterator. -/
theorem Auto.travelS_stuck (h : Auto D S b0 states acts next red) {x : T} (hx : Nonterminal D x)
    {tok : Token M T} :
    ∀ (n : Nat) {s s' : σ} {d d' : Dfa M T} {u : Unit} {slot : Slot M T}, d.table = acts →
      d.finished = false → Dfa.travelS nx maps n s (some (some tok)) d x = .ok (s', slot, d', .ok u) →
      d'.table = acts ∧ slot = some (some tok) ∧ d'.finished = false := by
  intro n
  induction n generalizing x with
  | zero => intro s s' d d' u slot _ _ h; cases h
  | succ n ih =>
    intro s s' d d' u slot htab hfin hrun
    unfold Dfa.travelS at hrun
    rw [htab] at hrun
    cases hr : acts[d.top]? with
    | none => rw [hr] at hrun; simp at hrun
    | some row =>
      rw [hr] at hrun
      simp only at hrun
      cases hg : row.get? x with
      | none => rw [hg] at hrun; simp at hrun
      | some a =>
        rw [hg] at hrun
        obtain ⟨k1, k2⟩ := h.row_at hr hg
        cases a with
        | shift j => exact absurd (k1 j rfl) (not_terminal_iff.mpr hx)
        | goto j =>
          simp only [Dfa.goto, Out.ok.injEq, Prod.mk.injEq] at hrun
          obtain ⟨_, rfl, rfl, _⟩ := hrun
          exact ⟨htab, rfl, hfin⟩
        | acc => simp [Dfa.acceptS, Dfa.peekS] at hrun
        | conflict a b => simp at hrun
        | reduce A prod =>
          simp only at hrun
          obtain ⟨⟨s1, d1⟩, h1, h2⟩ := Out.bind_eq_ok.mp hrun
          obtain ⟨f1, f2, f3⟩ := reduceStacksE_frame h1
          exact ih (k2 A prod rfl) (f2.trans htab) (f3.trans hfin) h2

theorem Auto.traceS_stuck (h : Auto D S b0 states acts next red) {tok : Token M T}
    (hx : Nonterminal D tok.ty) (tf : Nat) :
    ∀ (n : Nat) {s s' : σ} {d d' : Dfa M T} {u : Unit} {slot slot' : Slot M T}, d.table = acts →
      (viewS nx s slot).1 = some tok → d.finished = false →
      Dfa.traceS nx maps tf n s slot d ≠ .ok (s', slot', d', .ok u) := by
  intro n
  induction n with
  | zero => intro s s' d d' u slot slot' _ _ _ h; cases h
  | succ n ih =>
    intro s s' d d' u slot slot' htab hbuf hfin hrun
    rw [Dfa.traceS_succ tf n hfin rfl] at hrun
    obtain ⟨⟨s1, slot1, d1, r⟩, h1, h2⟩ := Out.bind_eq_ok.mp hrun
    rw [hbuf] at h1
    cases r with
    | error e => simp at h2
    | ok u' =>
      obtain ⟨k1, rfl, k3⟩ := h.travelS_stuck hx tf htab hfin h1
      exact ih (slot := some (some tok)) k1 rfl k3 h2

/-- A successful run, on any iterator. -/
theorem Auto.ranS_ok (h : Auto D S b0 states acts next red) (he : Terminal D eof) (tf : Nat) :
    ∀ (n : Nat) {s s' : σ} {d d' : Dfa M T} {slot slot' : Slot M T} {u : Unit} {sts : List Nat}
      {trs : List (Tree M T)},
      InvC D states next ⟨sts, trs, []⟩ → SimS acts eof maps nx s0 (viewS nx s slot) d sts trs →
      Dfa.traceS nx maps tf n s slot d = .ok (s', slot', d', .ok u) →
      ∃ w sts' trs' d1, w.head? = (viewS nx s slot).1 ∧
        Moves acts eof ⟨sts, trs, w⟩ ⟨sts', trs', []⟩ ∧ Accepts acts eof ⟨sts', trs', []⟩ ∧
        SimS acts eof maps nx s0 (none, s') d1 sts' trs' ∧ d' = { d1 with finished := true } := by
  intro n
  induction n with
  | zero => intro s s' d d' slot slot' u sts trs _ _ h; cases h
  | succ n ih =>
    intro s s' d d' slot slot' u sts trs hi hd hrun
    by_cases hb : Terminal D (lookSym eof (viewS nx s slot).1.toList)
    · rw [Dfa.traceS_succ tf n hd.finished hd.eof] at hrun
      generalize hv : viewS nx s slot = st at hd hb hrun ⊢
      obtain ⟨la, s1⟩ := st
      simp only at hb hrun ⊢
      rcases Dfa.travelS_le (nx := nx) (maps := maps) (Nat.le_add_right tf 2) s1 (some la) d
        (lookSym eof la.toList) with hf | hf
      · rw [hf] at hrun; cases hrun
      · rw [hf] at hrun
        have hc := h.travelS_cases hi.rebuf hd hb (n := tf + 2) (by omega)
        generalize Dfa.travelS nx maps (tf + 2) s1 (some la) d (lookSym eof la.toList) = r at hc hrun
        cases hc with
        | @shift tok sts' trs' d2 e m hs =>
          subst e
          obtain ⟨w, sts2, trs2, d1, k1, k2, k3, k4, k5⟩ :=
            ih (slot := none) (h.inv_move (hi.rebuf (buf' := [tok])) (m [])) hs hrun
          exact ⟨tok :: w, sts2, trs2, d1, rfl, .head (m _) k2, k3, k4, k5⟩
        | @reduce s2 sts' trs' d2 m hs =>
          obtain ⟨w, sts2, trs2, d1, k1, k2, k3, k4, k5⟩ := ih (slot := some la)
            ((h.inv_move (hi.rebuf (buf' := la.toList)) (m la.toList (by cases la <;> rfl))).rebuf) hs hrun
          exact ⟨w, sts2, trs2, d1, k1, .head (m _ k1) k2, k3, k4, k5⟩
        | accept e ha =>
          subst e
          cases n with
          | zero => cases hrun
          | succ n =>
            simp only [Out.ok_bind] at hrun
            unfold Dfa.traceS at hrun
            simp only [if_true] at hrun
            cases hrun
            exact ⟨[], sts, trs, d, rfl, .refl _, ha, hd, rfl⟩
        | fail _ _ _ _ => cases hrun
        | panic _ _ _ _ _ _ _ => cases hrun
    · have hN := not_terminal_iff.mp hb
      cases hv : (viewS nx s slot).1 with
      | none => rw [hv] at hb; exact absurd he hb
      | some tok =>
        rw [hv] at hN
        exact absurd hrun (h.traceS_stuck hN tf (n + 1) hd.table hv hd.finished)

/-- If the final trees can be gone through, so can the trees before a move. -/
theorem Move.walk {c d : Conf M T} (h : Move acts eof c d) {its : List (Token M T)} {s' : σ}
    (hd : Walk nx (redOfE maps) d.trees.reverse (nx s0) its (d.buf.head?, s')) :
    ∃ its1 s1, Walk nx (redOfE maps) c.trees.reverse (nx s0) its1 (c.buf.head?, s1) := by
  cases h with
  | shift _ =>
    simp only [List.reverse_cons] at hd
    obtain ⟨i1, i2, st1, _, w1, w2⟩ := hd.split
    cases w2 with
    | leaf w2 => exact ⟨i1, _, w1⟩
  | @reduce _ _ _ _ _ trs _ _ b _ _ _ _ =>
    simp only [List.reverse_cons] at hd
    obtain ⟨i1, i2, st1, _, w1, w2⟩ := hd.split
    cases w2 with
    | node w2 w3 w4 =>
      cases w4
      have := w1.append w2
      rw [← List.reverse_append, List.take_append_drop] at this
      exact ⟨_, _, this⟩

theorem Moves.walk {c d : Conf M T} (h : Moves acts eof c d) {its : List (Token M T)} {s' : σ}
    (hd : Walk nx (redOfE maps) d.trees.reverse (nx s0) its (d.buf.head?, s')) :
    ∃ its1 s1, Walk nx (redOfE maps) c.trees.reverse (nx s0) its1 (c.buf.head?, s1) := by
  induction h with
  | refl => exact ⟨_, _, hd⟩
  | head m _ ih =>
    obtain ⟨i1, s1, w⟩ := ih hd
    exact m.walk w

/-- The moves are followed by the run if what they end in can be gone through. -/
theorem Auto.traceS_follows (h : Auto D S b0 states acts next red) (he : Terminal D eof)
    {c c' : Conf M T} (hm : Moves acts eof c c') (ha : Accepts acts eof c') {its : List (Token M T)} {s' : σ}
    (hw : Walk nx (redOfE maps) c'.trees.reverse (nx s0) its (none, s')) :
    ∀ {s : σ} {slot : Slot M T} {d : Dfa M T}, InvC D states next c →
      SimS acts eof maps nx s0 (viewS nx s slot) d c.states c.trees →
      (∀ t ∈ c.buf, Terminal D t.ty) →
      ∃ n slot' d', Dfa.traceS nx maps 2 n s slot d = .ok (s', slot', d', .ok ()) ∧
        d'.items.reverse = its := by
  induction hm with
  | refl c =>
    intro s slot d hi hd hb
    refine ⟨2, ?_⟩
    rw [Dfa.traceS_succ 2 1 hd.finished hd.eof]
    obtain ⟨i, st, e1, e2, e3⟩ := ha
    generalize hv : viewS nx s slot = sv at hd ⊢
    obtain ⟨la, s1⟩ := sv
    obtain ⟨hits, e⟩ := hd.items.unique hw
    cases e
    have htop : d.top = i := by have := hd.top; rw [e1] at this; simpa using this.symm
    obtain ⟨j, st', s2, k1, k2⟩ := h.path_state hi.path
    rw [e1] at k1; cases k1
    obtain ⟨row, hr⟩ := h.row k2
    have hcell : row.get? eof = some .acc := by rw [← cellAt_none hr]; exact e2
    refine ⟨some none, { d with finished := true }, ?_, hits⟩
    simp only [Dfa.travelS, hd.table, htop, hr, Option.toList, lookSym, hcell, Dfa.acceptS, Dfa.peekS, Out.ok_bind]
    simp [Dfa.traceS]
  | @head c c1 c2 m hm' ih =>
    intro s slot d hi hd hb
    obtain ⟨buf0, hbuf⟩ : ∃ b, b = c2.buf := ⟨_, rfl⟩
    have hb2 : c2.buf = [] := by obtain ⟨_, _, _, _, e⟩ := ha; exact e
    obtain ⟨i1, s1, w1⟩ := hm'.walk (nx := nx) (maps := maps) (s0 := s0) (its := its) (s' := s')
      (by rw [hb2]; exact hw)
    obtain ⟨i2, s2, w2⟩ := m.walk w1
    generalize hv : viewS nx s slot = sv at hd
    obtain ⟨la, s3⟩ := sv
    obtain ⟨hits, e⟩ := hd.items.unique w2
    cases e
    have hlook : lookSym eof c.buf = lookSym eof c.buf.head?.toList := lookSym_head rfl
    have hT : Terminal D (lookSym eof c.buf.head?.toList) := by
      rw [← hlook]
      exact terminal_lookSym he hb
    have hc := h.travelS_cases (hi.rebuf (sts := c.states) (trs := c.trees)) hd hT (Nat.le_refl 2)
    generalize hr : Dfa.travelS nx maps 2 s2 (some c.buf.head?) d (lookSym eof c.buf.head?.toList) = r at hc
    have hgo : ∀ {s4 slot4 d4}, r = .ok (s4, slot4, d4, .ok ()) →
        (∃ n slot' d', Dfa.traceS nx maps 2 n s4 slot4 d4 = .ok (s', slot', d', .ok ()) ∧
          d'.items.reverse = its) →
        ∃ n slot' d', Dfa.traceS nx maps 2 n s slot d = .ok (s', slot', d', .ok ()) ∧
          d'.items.reverse = its := by
      rintro s4 slot4 d4 rfl ⟨n, slot', d', h1, h2⟩
      refine ⟨n + 1, slot', d', ?_, h2⟩
      rw [Dfa.traceS_succ 2 n hd.finished hd.eof, hv]
      simp only [hr, Out.ok_bind]
      exact h1
    cases hc with
    | @shift tok sts' trs' d' e m' hs =>
      obtain ⟨rest, hbuf'⟩ : ∃ rest, c.buf = tok :: rest := by
        cases hcb : c.buf with
        | nil => rw [hcb] at e; cases e
        | cons a b => rw [hcb] at e; cases e; exact ⟨_, rfl⟩
      have m2 := m' rest
      rw [← hbuf'] at m2
      have := m.det m2
      subst this
      exact hgo rfl (ih ha hw (h.inv_move hi m) hs (fun t ht => hb t (m.buf_suffix t ht)))
    | @reduce s4 sts' trs' d' m' hs =>
      have m2 := m' c.buf rfl
      have := m.det m2
      subst this
      exact hgo rfl (ih ha hw (h.inv_move hi m) (slot := some c.buf.head?) hs
        (fun t ht => hb t (m.buf_suffix t ht)))
    | accept e ha' =>
      rw [List.head?_eq_none_iff] at e
      rw [← e] at ha'
      exact absurd m (fun m => ha'.no_move m)
    | fail hfl _ _ _ => exact absurd m (fun m => (hfl _ rfl).no_move m)
    | panic _ _ _ q1 q2 q3 hp =>
      rcases hp c.buf rfl with ⟨c3, m3, e3⟩ | ⟨e, hf⟩
      · have := m.det m3
        subst this
        rw [e3] at w1
        obtain ⟨_, _, st1, _, g1, g2⟩ := w1.split
        obtain ⟨_, rfl⟩ := q1.unique g1
        cases g2 with
        | node g3 g4 _ =>
          obtain ⟨rfl, e⟩ := q2.unique g3
          cases e
          rw [q3] at g4
          cases g4
      · exact absurd m (fun m => hf.no_move m)

/-- A run that does not stop has made a move in each round. -/
theorem Auto.fuelS (h : Auto D S b0 states acts next red) (he : Terminal D eof)
    (hT : ∀ s tok s', nx s = (some tok, s') → Terminal D tok.ty) {tf : Nat} (htf : 2 ≤ tf) :
    ∀ (n : Nat) {s : σ} {slot : Slot M T} {d : Dfa M T} {sts : List Nat} {trs : List (Tree M T)},
      InvC D states next ⟨sts, trs, []⟩ → SimS acts eof maps nx s0 (viewS nx s slot) d sts trs →
      Terminal D (lookSym eof (viewS nx s slot).1.toList) → Dfa.traceS nx maps tf n s slot d = .fuel →
      ∃ k w c its s', n ≤ k + 1 ∧ w.head? = (viewS nx s slot).1 ∧ TerminalToks D w ∧
        Steps acts eof k ⟨sts, trs, w⟩ c ∧ c.buf.length ≤ 1 ∧
        Walk nx (redOfE maps) c.trees.reverse (nx s0) its (c.buf.head?, s') := by
  intro n
  induction n with
  | zero =>
    intro s slot d sts trs hi hd hb _
    have hl : (viewS nx s slot).1.toList.head? = (viewS nx s slot).1 := by
      cases (viewS nx s slot).1 <;> rfl
    refine ⟨0, _, _, d.items.reverse, (viewS nx s slot).2, by omega, hl, ?_, .refl _, ?_, ?_⟩
    · intro tok ht
      cases hv : (viewS nx s slot).1 with
      | none => rw [hv] at ht; cases ht
      | some tok' =>
        rw [hv] at ht hb
        simp only [Option.toList, List.mem_singleton] at ht
        subst ht
        exact hb
    · cases (viewS nx s slot).1 <;> simp
    · simp only [hl]
      exact hd.items
  | succ n ih =>
    intro s slot d sts trs hi hd hb hrun
    rw [Dfa.traceS_succ tf n hd.finished hd.eof] at hrun
    generalize hv : viewS nx s slot = st at hd hb hrun ⊢
    obtain ⟨la, s1⟩ := st
    simp only at hb hrun ⊢
    have hc := h.travelS_cases hi.rebuf hd hb (n := tf) htf
    generalize Dfa.travelS nx maps tf s1 (some la) d (lookSym eof la.toList) = r at hc hrun
    cases hc with
    | @shift tok sts' trs' d' e m hs =>
      subst e
      have hb' : Terminal D (lookSym eof (viewS nx s1 none).1.toList) := by
        simp only [viewS]
        cases hn : nx s1 with
        | mk a s2 =>
          cases a with
          | none => exact he
          | some tok => exact hT _ _ _ hn
      obtain ⟨k, w, c, its, s', k1, k2, k3, k4, k5, k6⟩ := ih (slot := none)
        (h.inv_move (hi.rebuf (buf' := [tok])) (m [])) hs hb' hrun
      refine ⟨k + 1, tok :: w, c, its, s', by omega, rfl, ?_, .head (m _) k4, k5, k6⟩
      intro tok' ht
      rcases List.mem_cons.mp ht with rfl | ht
      · exact hb
      · exact k3 _ ht
    | @reduce s' sts' trs' d' m hs =>
      obtain ⟨k, w, c, its, s', k1, k2, k3, k4, k5, k6⟩ := ih (slot := some la)
          ((h.inv_move (hi.rebuf (buf' := la.toList)) (m la.toList (by cases la <;> rfl))).rebuf) hs hb hrun
      exact ⟨k + 1, w, c, its, s', by omega, k2, k3, .head (m _ k2) k4, k5, k6⟩
    | accept e ha =>
      subst e
      cases n with
      | zero =>
        exact ⟨0, [], _, _, s1, by omega, rfl, (by intro t ht; cases ht), .refl _, by simp, hd.items⟩
      | succ n =>
        simp only [Out.ok_bind] at hrun
        unfold Dfa.traceS at hrun
        simp at hrun
    | fail _ _ _ _ => cases hrun
    | panic _ _ _ _ _ _ _ => cases hrun

theorem Steps.le_stop {k l : Nat} {c d e : Conf M T} (h : Steps acts eof k c d) (h' : Steps acts eof l c e)
    (hs : Stop acts eof e) : k ≤ l := by
  induction h' generalizing k with
  | refl c =>
    cases h with
    | refl => exact Nat.le_refl _
    | head m _ =>
      exfalso
      rcases hs with ha | ⟨e, hf⟩
      · exact ha.no_move m
      · exact hf.no_move m
  | head m _ ih =>
    cases h with
    | refl => exact Nat.zero_le _
    | head m' h =>
      have := m.det m'
      subst this
      exact Nat.succ_le_succ (ih h hs)

variable {t : Tabler T}

theorem simS_init (acts : ActTable T) (eof : T) (maps : ReductMapE σ M T) (nx : NextFn σ M T) (s0 : σ) :
    SimS acts eof maps nx s0 (viewS nx s0 none) (Dfa.new [] acts [] eof) [0] ([] : List (Tree M T)) :=
  ⟨rfl, rfl, rfl, rfl, rfl, .nil⟩

/-- A successful parse, on any iterator. -/
theorem Auto.parseS_ok (h : Auto D S b0 t.states t.actions next red)
    (hdfa : t.grammar.basis.look.head? = some eof) (he : Terminal D eof)
    {v : M} {s' : σ} (hr : ParsesS t nx maps s0 s' (.ok v)) :
    ∃ w sts trs its it, Moves t.actions eof ⟨[0], [], w⟩ ⟨sts, trs, []⟩ ∧
      Accepts t.actions eof ⟨sts, trs, []⟩ ∧
      Walk nx (redOfE maps) trs.reverse (nx s0) (its ++ [it]) (none, s') ∧ v = it.item := by
  obtain ⟨n, hr⟩ := hr
  unfold Parser.parseS Parser.dfa at hr
  simp only [hdfa, Out.ofOption_some, Out.ok_bind, Out.pure_eq] at hr
  obtain ⟨⟨s1, slot, d', r⟩, h1, h2⟩ := Out.bind_eq_ok.mp hr
  cases r with
  | error e => simp at h2
  | ok u =>
    have hi := inv_init (M := M) D t.states next []
    obtain ⟨w, sts, trs, d1, _, k1, k2, k3, k4⟩ := h.ranS_ok (maps := maps) he n n hi
      (simS_init t.actions eof maps nx s0) h1
    obtain ⟨tr, rest, hc⟩ := h.accepts_cons (h.inv_moves (hi.rebuf (buf' := w)) k1) k2
    have hl : d1.items.length = trs.length := by simpa using k3.items.length
    simp only at hc
    rw [hc] at hl
    subst k4
    cases e1 : d1.items with
    | nil => rw [e1] at hl; simp at hl
    | cons it its =>
      have := k3.items
      rw [e1, List.reverse_cons] at this
      simp only [e1, Out.ok.injEq, Prod.mk.injEq, Except.ok.injEq] at h2
      obtain ⟨rfl, rfl⟩ := h2
      exact ⟨w, sts, trs, its.reverse, it, k1, k2, this, rfl⟩

/-- A parse that ends in an error. -/
theorem Auto.parseS_error (h : Auto D S b0 t.states t.actions next red)
    (hdfa : t.grammar.basis.look.head? = some eof) (he : Terminal D eof)
    (hT : ∀ s tok s', nx s = (some tok, s') → Terminal D tok.ty)
    {e : Error T} {s' : σ} (hr : ParsesS t nx maps s0 s' (.error e)) :
    ∃ w c cs its, Moves t.actions eof ⟨[0], [], w⟩ c ∧ Fails t.actions eof c e ∧
      (∀ tr ∈ cs, Tree.Valid D tr) ∧ Tree.yields cs = Tree.yields c.trees.reverse ∧
      Walk nx (redOfE maps) cs (nx s0) its (c.buf.head?, s') := by
  obtain ⟨n, hr⟩ := hr
  unfold Parser.parseS Parser.dfa at hr
  simp only [hdfa, Out.ofOption_some, Out.ok_bind, Out.pure_eq] at hr
  obtain ⟨⟨s1, slot, d', r⟩, h1, h2⟩ := Out.bind_eq_ok.mp hr
  have hi := inv_init (M := M) D t.states next []
  have hT0 : Terminal D (lookSym eof (viewS nx s0 none).1.toList) := by
    simp only [viewS]
    cases hn : nx s0 with
    | mk a s2 =>
      cases a with
      | none => exact he
      | some tok => exact hT _ _ _ hn
  have hran := h.ranS (maps := maps) he hT n n hi (simS_init t.actions eof maps nx s0) hT0
  rw [h1] at hran
  cases hran with
  | @ok w sts trs d1 _ _ _ k1 k2 k3 =>
    exfalso
    obtain ⟨tr, rest, hc⟩ := h.accepts_cons (h.inv_moves (hi.rebuf (buf' := w)) k1) k2
    have hl : d1.items.length = trs.length := by simpa using k3.items.length
    simp only at hc
    rw [hc] at hl
    cases e1 : d1.items with
    | nil => rw [e1] at hl; simp at hl
    | cons it its => simp [e1] at h2
  | error _ k2 k3 k4 k5 k6 =>
    simp only [Out.ok.injEq, Prod.mk.injEq, Except.error.injEq] at h2
    obtain ⟨rfl, rfl⟩ := h2
    exact ⟨_, _, _, _, k2, k3, k4, k5, k6⟩

/-- The moves to an accepting configuration are followed if the trees can be gone through. -/
theorem Auto.parseS_follows (h : Auto D S b0 t.states t.actions next red)
    (hdfa : t.grammar.basis.look.head? = some eof) (he : Terminal D eof)
    {toks : List (Token M T)} (hT : TerminalToks D toks) {c : Conf M T}
    (hm : Moves t.actions eof ⟨[0], [], toks⟩ c) (ha : Accepts t.actions eof c)
    {its : List (Token M T)} {it : Token M T} {s' : σ}
    (hw : Walk nx (redOfE maps) c.trees.reverse (nx s0) (its ++ [it]) (none, s')) :
    ParsesS t nx maps s0 s' (.ok it.item) := by
  obtain ⟨n, slot, d', h1, h2⟩ := h.traceS_follows he hm ha hw (slot := none)
    (inv_init (M := M) D t.states next toks) (simS_init t.actions eof maps nx s0) hT
  refine ⟨max n 2, ?_⟩
  unfold Parser.parseS Parser.dfa
  simp only [hdfa, Out.ofOption_some, Out.ok_bind, Out.pure_eq]
  have h3 := (Dfa.traceS_le (nx := nx) (maps := maps) (Nat.le_max_right n 2) (Nat.le_max_left n 2) s0 none
    (Dfa.new [] t.actions [] eof)).ok h1
  rw [h3]
  have h4 : d'.items = it :: its.reverse := by
    have := congrArg List.reverse h2
    simpa using this
  simp [h4]

/-- A parse that panics. -/
theorem Auto.parseS_panic (h : Auto D S b0 t.states t.actions next red)
    (hdfa : t.grammar.basis.look.head? = some eof) (he : Terminal D eof)
    (hT : ∀ s tok s', nx s = (some tok, s') → Terminal D tok.ty)
    {p : Panic} (hr : Panics (fun n => Parser.parseS t n nx maps s0) p) :
    ∃ A k cs ds its1 its2 st1 la' s', Tree.Valid D (.node A k ds) ∧ (∀ tr ∈ cs, Tree.Valid D tr) ∧
      Walk nx (redOfE maps) cs (nx s0) its1 st1 ∧ Walk nx (redOfE maps) ds st1 its2 (la', s') ∧
      redOfE maps A k its2 s' = none := by
  obtain ⟨n, hr⟩ := hr
  have hi := inv_init (M := M) D t.states next []
  have hT0 : Terminal D (lookSym eof (viewS nx s0 none).1.toList) := by
    simp only [viewS]
    cases hn : nx s0 with
    | mk a s2 =>
      cases a with
      | none => exact he
      | some tok => exact hT _ _ _ hn
  have hran := h.ranS (maps := maps) he hT n n hi (simS_init t.actions eof maps nx s0) hT0
  simp only [Parser.parseS, Parser.dfa, hdfa, Out.ofOption_some, Out.ok_bind, Out.pure_eq] at hr
  cases hd : Dfa.traceS nx maps n n s0 none (Dfa.new [] t.actions [] eof) with
  | fuel => rw [hd] at hr; cases hr
  | ok r =>
    rw [hd] at hr
    obtain ⟨_, _, d', e | u⟩ := r
    · cases hr
    · simp only [Out.ok_bind] at hr
      split at hr <;> cases hr
  | panic p' =>
    rw [hd] at hran
    cases hran with
    | panic h1 h2 h3 h4 h5 => exact ⟨_, _, _, _, _, _, _, _, _, h1, h2, h3, h4, h5⟩

/-- A parse that does not end reads more and more tokens. -/
theorem Auto.parseS_live (h : Auto D S b0 t.states t.actions next red)
    (hdfa : t.grammar.basis.look.head? = some eof) (he : Terminal D eof)
    (hU : ∀ i st syms y X, Path t.states next (i :: st) syms → Terminal D y →
      ¬ UnitLoop t.states t.actions next i y X)
    (hT : ∀ s tok s', nx s = (some tok, s') → Terminal D tok.ty)
    {n N : Nat} (hN : 2 * (N + 1) * (D.length + 1) + 2 ≤ n)
    (hr : Parser.parseS t n nx maps s0 = .fuel) :
    ∃ cs its la' s', (∀ tr ∈ cs, Tree.Valid D tr) ∧ N ≤ (Tree.yields cs).length ∧
      Walk nx (redOfE maps) cs (nx s0) its (la', s') := by
  have hi := inv_init (M := M) D t.states next []
  have hT0 : Terminal D (lookSym eof (viewS nx s0 none).1.toList) := by
    simp only [viewS]
    cases hn : nx s0 with
    | mk a s2 =>
      cases a with
      | none => exact he
      | some tok => exact hT _ _ _ hn
  simp only [Parser.parseS, Parser.dfa, hdfa, Out.ofOption_some, Out.ok_bind, Out.pure_eq] at hr
  cases hd : Dfa.traceS nx maps n n s0 none (Dfa.new [] t.actions [] eof) with
  | panic p => rw [hd] at hr; cases hr
  | ok r =>
    rw [hd] at hr
    obtain ⟨_, _, d', e | u⟩ := r
    · cases hr
    · simp only [Out.ok_bind] at hr
      split at hr <;> cases hr
  | fuel =>
    obtain ⟨k, w, c, its, s', k1, k2, k3, k4, k5, k6⟩ := h.fuelS (maps := maps) he hT (tf := n) (by omega) n hi
      (simS_init t.actions eof maps nx s0) hT0 hd
    have hiw := inv_init (M := M) D t.states next w
    obtain ⟨l, e, l1, l2, l3⟩ := h.linear he hU (2 * w.length) ⟨[0], [], w⟩ (by simp [Conf.size]) hiw k3
    have hkl := k4.le_stop l2 l3
    refine ⟨c.trees.reverse, its, _, s', ?_, ?_, k6⟩
    · intro tr ht
      exact (h.inv_moves hiw k4.moves).valid tr (List.mem_reverse.mp ht)
    · have hy := congrArg List.length k4.moves.yields
      simp only [List.reverse_nil, Tree.yields_nil, List.nil_append, List.length_append] at hy
      have : N + 1 ≤ w.length := by
        apply Classical.byContradiction
        intro hlt
        have h1 : 2 * w.length ≤ 2 * (N + 1) := by omega
        have h2 := Nat.mul_le_mul_right (D.length + 1) h1
        omega
      omega

/-! ### Lists -/

theorem redOfE_apart (maps : ReductMapE σ M T) (A : T) :
    OMap.get? (apart maps) A = (OMap.get? maps A).map (fun fs => fs.map
      (fun f its (s : List (Token M T) × σ) => (f its s.2).map (fun r => (r.1, (s.1, r.2))))) :=
  OMap.get?_mapVal (ν := List (ReductFnE σ M T)) (μ := List (ReductFnE (List (Token M T) × σ) M T)) maps
    (fun _ fs => fs.map (fun (f : ReductFnE σ M T) its (s : List (Token M T) × σ) =>
      (f its s.2).map (fun (r : M × σ) => (r.1, (s.1, r.2))))) A

theorem Dfa.reduceStacksE_apart (maps : ReductMapE σ M T) (l : List (Token M T)) (s : σ) (d : Dfa M T) (A : T)
    (prod : Production T) (buf : List (Token M T)) :
    Dfa.reduceStacksE (apart maps) (l, s) { d with buffer := buf } A prod =
      (do let r ← Dfa.reduceStacksE maps s d A prod; return ((l, r.1), { r.2 with buffer := buf })) := by
  unfold Dfa.reduceStacksE
  rw [redOfE_apart]
  simp only
  cases Out.assert .itemsUnderflow (decide (prod.1.length ≤ d.items.length)) with
  | panic p => rfl
  | fuel => rfl
  | ok u =>
    simp only [Out.ok_bind]
    cases hm : maps.get? A with
    | none => rfl
    | some fs =>
      simp only [Option.map_some, Out.ofOption_some, Out.ok_bind, List.getElem?_map]
      cases hf : fs[prod.2]? with
      | none => rfl
      | some f =>
        simp only [Option.map_some, Out.ofOption_some, Out.ok_bind]
        cases hv : f (d.items.take prod.1.length).reverse s with
        | none => rfl
        | some r =>
          simp only [Option.map_some, Out.ofOption_some, Out.ok_bind]
          cases d.states[prod.1.length]? <;> rfl

/-- The list and the slot hold the buffer of the `Dfa`. -/
def HoldsS (l : List (Token M T)) (slot : Slot M T) (buf : List (Token M T)) : Prop :=
  match slot with
  | none => buf = l
  | some none => buf = [] ∧ l = []
  | some (some tok) => buf = tok :: l

/-- The run on a list that is kept around, and the run on a buffer. -/
inductive SameS : Out ((List (Token M T) × σ) × Slot M T × DfaRes M T Unit) → Out (σ × DfaRes M T Unit) → Prop
  | panic {p : Panic} : SameS (.panic p) (.panic p)
  | fuel : SameS .fuel .fuel
  | ok {l : List (Token M T)} {s : σ} {slot : Slot M T} {d : Dfa M T} {r : Except (Error T) Unit} :
      ((∃ u, r = .ok u) → HoldsS l slot d.buffer) →
      SameS (.ok ((l, s), slot, { d with buffer := [] }, r)) (.ok (s, d, r))

theorem Dfa.travelS_list (maps : ReductMapE σ M T) (n : Nat) : ∀ (l : List (Token M T)) (s : σ)
    (v : Option (Token M T)) (d : Dfa M T) (x : T), HoldsS l (some v) d.buffer →
    SameS (Dfa.travelS listNext (apart maps) n (l, s) (some v) { d with buffer := [] } x)
      (Dfa.travelE maps n s d x) := by
  induction n with
  | zero => intro l s v d x _; exact .fuel
  | succ n ih =>
    intro l s v d x hh
    unfold Dfa.travelS Dfa.travelE
    simp only
    cases d.table[d.top]? with
    | none => refine .ok ?_; rintro ⟨_, h⟩; cases h
    | some row =>
      simp only
      cases row.get? x with
      | none => refine .ok ?_; rintro ⟨_, h⟩; cases h
      | some a =>
        cases a with
        | shift to =>
          cases v with
          | none =>
            obtain ⟨h1, h2⟩ := hh
            simp only [Dfa.shiftS, Dfa.pullS, Dfa.shift, h1]
            refine .ok ?_; rintro ⟨_, h⟩; cases h
          | some tok =>
            simp only [HoldsS] at hh
            simp only [Dfa.shiftS, Dfa.pullS, Dfa.shift, hh]
            refine .ok (d := { d with items := tok :: d.items, top := to, states := to :: d.states,
                                      buffer := l }) ?_
            exact fun _ => rfl
        | goto to =>
          refine .ok (d := { d with top := to, states := to :: d.states }) ?_
          exact fun _ => hh
        | reduce A prod =>
          simp only
          rw [Dfa.reduceStacksE_apart]
          cases hr : Dfa.reduceStacksE maps s d A prod with
          | panic p => exact .panic
          | fuel => exact .fuel
          | ok r =>
            simp only [Out.ok_bind, Out.pure_eq]
            refine ih l r.1 v r.2 _ ?_
            rw [(reduceStacksE_frame hr).1]
            exact hh
        | acc =>
          cases v with
          | none =>
            obtain ⟨h1, h2⟩ := hh
            simp only [Dfa.acceptS, Dfa.peekS, Dfa.accept, h1]
            refine .ok (d := { d with finished := true, buffer := [] }) ?_
            exact fun _ => ⟨rfl, h2⟩
          | some tok =>
            simp only [HoldsS] at hh
            simp only [Dfa.acceptS, Dfa.peekS, Dfa.accept, hh]
            refine .ok (d := { d with finished := true, buffer := tok :: l }) ?_; rintro ⟨_, h⟩; cases h
        | conflict a b => refine .ok ?_; rintro ⟨_, h⟩; cases h

theorem Dfa.traceS_list (maps : ReductMapE σ M T) (tf n : Nat) : ∀ (l : List (Token M T)) (s : σ)
    (slot : Slot M T) (d : Dfa M T), HoldsS l slot d.buffer →
    SameS (Dfa.traceS listNext (apart maps) tf n (l, s) slot { d with buffer := [] })
      (Dfa.traceE maps tf n s d) := by
  induction n with
  | zero => intro l s slot d _; exact .fuel
  | succ n ih =>
    intro l s slot d hh
    by_cases hf : d.finished = true
    · have hf' : ({ d with buffer := [] } : Dfa M T).finished = true := hf
      unfold Dfa.traceS Dfa.traceE
      rw [if_pos hf', if_pos hf]
      exact .ok (fun _ => hh)
    · rw [Dfa.traceS_succ (d := { d with buffer := [] }) (eof := d.eof) tf n (by simpa using hf) rfl]
      unfold Dfa.traceE
      rw [if_neg hf]
      obtain ⟨l', v, hv, hh', hx⟩ : ∃ l' v, viewS listNext (l, s) slot = (v, (l', s)) ∧
          HoldsS l' (some v) d.buffer ∧ lookSym d.eof v.toList = d.symbol := by
        cases slot with
        | some v =>
          refine ⟨l, v, rfl, hh, ?_⟩
          cases v with
          | none => simp only [Dfa.symbol, hh.1]; rfl
          | some tok => simp only [HoldsS] at hh; simp only [Dfa.symbol, hh]; rfl
        | none =>
          simp only [HoldsS] at hh
          cases l with
          | nil => exact ⟨[], none, rfl, ⟨hh, rfl⟩, by simp only [Dfa.symbol, hh]; rfl⟩
          | cons tok l => exact ⟨l, some tok, rfl, hh, by simp only [Dfa.symbol, hh]; rfl⟩
      rw [hv]
      simp only [hx]
      have := Dfa.travelS_list maps tf l' s v d d.symbol hh'
      generalize Dfa.travelS listNext (apart maps) tf (l', s) (some v) { d with buffer := [] } d.symbol = r1 at this
      generalize Dfa.travelE maps tf s d d.symbol = r2 at this
      cases this with
      | panic => exact .panic
      | fuel => exact .fuel
      | @ok l s slot d r h =>
        cases r with
        | error e => refine .ok ?_; rintro ⟨_, h⟩; cases h
        | ok u => exact ih l s slot d (h ⟨_, rfl⟩)

theorem Parser.parseS_list (t : Tabler T) (n : Nat) (toks : List (Token M T)) (maps : ReductMapE σ M T) (s : σ) :
    (do let r ← Parser.parseS t n listNext (apart maps) (toks, s); return (r.1.2, r.2)) =
      Parser.parseE t n toks maps s := by
  unfold Parser.parseS Parser.parseE Parser.dfa
  cases t.grammar.basis.look.head? with
  | none => rfl
  | some eof =>
    simp only [Out.ofOption_some, Out.ok_bind, Out.pure_eq]
    have := Dfa.traceS_list maps n n toks s none (Dfa.new toks t.actions [] eof) rfl
    have e : { Dfa.new toks t.actions ([] : ReductMap M T) eof with buffer := [] } =
      Dfa.new [] t.actions [] eof := rfl
    rw [e] at this
    generalize Dfa.traceS listNext (apart maps) n n (toks, s) none (Dfa.new [] t.actions [] eof) = r1 at this
    generalize Dfa.traceE maps n n s (Dfa.new toks t.actions [] eof) = r2 at this
    cases this with
    | panic => rfl
    | fuel => rfl
    | @ok l s slot d r h =>
      cases r with
      | error e => rfl
      | ok u =>
        simp only [Out.ok_bind]
        cases d.items <;> rfl

end

end Lrp
