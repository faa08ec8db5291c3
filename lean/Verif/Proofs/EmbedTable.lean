import Verif.Proofs.Embed

/-! The construction of tables commutes with maps that keep the order. -/

set_option linter.unusedSectionVars false

namespace Lrp
variable {T U : Type} [LinOrd T] [DecidableEq T] [LinOrd U] [DecidableEq U]

/-- The grammar `g'` is `g` with its symbols renamed, its productions renumbered, and the alternatives of a
rule in any order. -/
structure GramRel (f : T → U) (c : T → List T → Nat) (g : Grammar T) (g' : Grammar U) : Prop where
  keeps : KeepsOrder f
  symbols : g'.symbols = g.symbols.map f
  basis : g'.basis = posMap f c g.basis
  none : ∀ x, g.rules.get? x = none → g'.rules.get? (f x) = none
  some : ∀ x r, g.rules.get? x = some r → ∃ r', g'.rules.get? (f x) = some r' ∧
    ∀ q, q ∈ r'.prods ↔ ∃ p ∈ r.prods, q = seqMap f c x p

theorem GramRel.isTerminal {f : T → U} {c : T → List T → Nat} {g : Grammar T} {g' : Grammar U}
    (h : GramRel f c g g') (x : T) : g'.isTerminal (f x) = g.isTerminal x := by
  unfold Grammar.isTerminal OMap.contains
  cases hx : g.rules.get? x with
  | none => rw [h.none x hx]; rfl
  | some r =>
    obtain ⟨r', e, _⟩ := h.some x r hx
    rw [e]; rfl

/-- A table of symbols with its symbols renamed. -/
abbrev tabMap (f : T → U) (t : Table T) : Table U := t.map (Prod.map f (List.map f))

/-- The states of a table. -/
abbrev stMap (f : T → U) (c : T → List T → Nat) (s : State T) : State U := s.map (posMap f c)

/-- The rows of a table. -/
abbrev rowMap (f : T → U) (c : T → List T → Nat) (r : OMap T (Action T)) : OMap U (Action U) :=
  r.map (Prod.map f (actMap f c))

/-- The table `t'` is `t` with its symbols renamed and its productions renumbered. -/
structure TabRel (f : T → U) (c : T → List T → Nat) (t : Tabler T) (t' : Tabler U) : Prop where
  gram : GramRel f c t.grammar t'.grammar
  first : t'.first = tabMap f t.first
  follow : t'.follow = tabMap f t.follow
  states : t'.states = t.states.map (stMap f c)
  kernels : t'.kernels = t.kernels.map (Prod.map (stMap f c) id)
  actions : t'.actions = t.actions.map (rowMap f c)

section
variable {f : T → U} {c : T → List T → Nat} {t : Tabler T} {t' : Tabler U}

theorem KeepsOrder.st (hf : KeepsOrder f) : KeepsOrder (stMap f c) := (hf.pos c).list

theorem closureWith_map {rules : RuleMap T} {rules' : RuleMap U} (hf : KeepsOrder f)
    (hnone : ∀ x, rules.get? x = none → rules'.get? (f x) = none)
    (hsome : ∀ x r, rules.get? x = some r → ∃ r', rules'.get? (f x) = some r' ∧
      ∀ q, q ∈ r'.prods ↔ ∃ p ∈ r.prods, q = seqMap f c x p)
    {lk : Position T → OSet T} {lk' : Position U → OSet U} (hlk : ∀ p, lk' (posMap f c p) = (lk p).map f)
    (s : State T) : closureWith rules' lk' (stMap f c s) = stMap f c (closureWith rules lk s) := by
  refine OSet.ext (sorted_closureWith _) ((hf.pos c).sorted (sorted_closureWith _)) (fun q => ?_)
  rw [mem_closureWith]
  have hm : q ∈ stMap f c (closureWith rules lk s) ↔ ∃ p ∈ closureWith rules lk s, posMap f c p = q := List.mem_map
  rw [hm]
  constructor
  · rintro (hq | ⟨p', hp', A', r', b', e1, e2, e3, rfl⟩)
    · obtain ⟨p, hp, rfl⟩ := List.mem_map.mp hq
      exact ⟨p, mem_closureWith.mpr (Or.inl hp), rfl⟩
    · obtain ⟨p, hp, rfl⟩ := List.mem_map.mp hp'
      rw [posMap_top] at e1
      obtain ⟨A, e0, rfl⟩ := Option.map_eq_some_iff.mp e1
      cases hr : rules.get? A with
      | none => rw [hnone A hr] at e2; cases e2
      | some r =>
        obtain ⟨r'', e4, e5⟩ := hsome A r hr
        rw [e4, Option.some.injEq] at e2
        subst e2
        obtain ⟨b, hb, rfl⟩ := (e5 b').mp e3
        refine ⟨{ rule := A, seq := b, point := 0, look := lk p },
          mem_closureWith.mpr (Or.inr ⟨p, hp, A, r, b, e0, hr, hb, rfl⟩), ?_⟩
        simp only [posMap, ← hlk]
  · rintro ⟨p, hp, rfl⟩
    rcases mem_closureWith.mp hp with hp | ⟨p0, hp0, A, r, b, e1, e2, e3, rfl⟩
    · exact Or.inl (List.mem_map_of_mem hp)
    · right
      obtain ⟨r', e4, e5⟩ := hsome A r e2
      refine ⟨_, List.mem_map_of_mem hp0, f A, r', seqMap f c A b, by rw [posMap_top, e1]; rfl, e4,
        (e5 _).mpr ⟨b, e3, rfl⟩, ?_⟩
      simp only [posMap, ← hlk]

theorem clrLook_map (hf : KeepsOrder f) (first : Table T) (p : Position T) :
    clrLook (tabMap f first) (posMap f c p) = (clrLook first p).map f := by
  unfold clrLook
  rw [posMap_next]
  cases p.next with
  | none => rfl
  | some x =>
    simp only [Option.map_some]
    rw [hf.get?]
    cases first.get? x with
    | none => rfl
    | some s => exact (hf.extend s []).symm

/-- A closure step that does the same to renamed states. -/
def SameStep (f : T → U) (c : T → List T → Nat) (cl : ClosureFn T) (cl' : ClosureFn U) : Prop :=
  ∀ t t', TabRel f c t t' → ∀ s, cl' t' (stMap f c s) = stMap f c (cl t s)

theorem slr_sameStep : SameStep f c (Slr.closure (T := T)) (Slr.closure (T := U)) := by
  intro t t' h s
  rw [Slr.closure_eq, Slr.closure_eq]
  exact closureWith_map h.gram.keeps h.gram.none h.gram.some (fun _ => rfl) s

theorem clr_sameStep : SameStep f c (Clr.closure (T := T)) (Clr.closure (T := U)) := by
  intro t t' h s
  rw [Clr.closure_eq, Clr.closure_eq, closureLook_eq, closureLook_eq, h.first]
  exact closureWith_map h.gram.keeps h.gram.none h.gram.some (clrLook_map h.gram.keeps t.first) s

variable {cl : ClosureFn T} {cl' : ClosureFn U}

theorem TabRel.propClosure (h : TabRel f c t t') (hcl : SameStep f c cl cl') (n : Nat) (s : State T) :
    OutRel (fun a b => b = stMap f c a) (Lrp.propClosure cl n t s) (Lrp.propClosure cl' n t' (stMap f c s)) := by
  unfold Lrp.propClosure
  exact OutRel.transitive (v := stMap f c) (k := fun s => .ok (cl t s)) (l := fun s => .ok (cl' t' s))
    (fun a b e => h.gram.keeps.st.inj e) (fun a => .ok (hcl t t' h a)) n s

theorem TabRel.goto (h : TabRel f c t t') (hcl : SameStep f c cl cl') (n : Nat) (s : State T) (x : T) :
    OutRel (fun a b => b = a.map (Prod.map (stMap f c) (stMap f c))) (Lrp.goto cl n t s x)
      (Lrp.goto cl' n t' (stMap f c s) (f x)) := by
  have hf := h.gram.keeps
  simp only [Lrp.goto]
  rw [symFilter_map hf, h.kernels, hf.st.contains]
  split
  · exact .ok rfl
  · refine (h.propClosure hcl n _).bind (fun a b e => ?_)
    subst e
    refine .ok ?_
    cases a <;> rfl

theorem TabRel.row (h : TabRel f c t t') (i : Nat) : t'.states[i]?.getD [] = stMap f c (t.states[i]?.getD []) := by
  rw [h.states, List.getElem?_map]
  cases t.states[i]? <;> rfl

theorem TabRel.more (h : TabRel f c t t') (k s : State T) :
    TabRel f c { t with kernels := OMap.insert k t.states.length t.kernels, states := t.states ++ [s] }
      { t' with kernels := OMap.insert (stMap f c k) t'.states.length t'.kernels, states := t'.states ++ [stMap f c s] } where
  gram := h.gram
  first := h.first
  follow := h.follow
  states := by simp [h.states]
  kernels := by
    simp only
    rw [h.gram.keeps.st.insertM, h.kernels, h.states, List.length_map]
    rfl
  actions := h.actions

theorem TabRel.procSym (h : TabRel f c t t') (hcl : SameStep f c cl cl') (dbg : Bool) (n i : Nat) (x : T) :
    OutRel (TabRel f c) (Lrp.procSym cl dbg n i t x) (Lrp.procSym cl' dbg n i t' (f x)) := by
  unfold Lrp.procSym
  rw [h.row]
  refine (h.goto hcl n _ x).bind (fun a b e => ?_)
  subst e
  cases a with
  | none => exact .ok h
  | some a =>
    obtain ⟨k, s⟩ := a
    simp only [Option.map_some, Prod.map]
    refine (OutRel.assert _ ?_).bind (fun _ _ _ => .ok (h.more k s))
    rw [h.kernels, h.gram.keeps.st.contains]

theorem TabRel.procLoop (hcl : SameStep f c cl cl') (dbg : Bool) (m n : Nat) : ∀ {t : Tabler T} {t' : Tabler U} (i : Nat),
    TabRel f c t t' → OutRel (TabRel f c) (Lrp.procLoop cl dbg m n i t) (Lrp.procLoop cl' dbg m n i t') := by
  induction n with
  | zero => intro t t' i h; exact .fuel
  | succ n ih =>
    intro t t' i h
    unfold Lrp.procLoop
    have e : t'.states.length = t.states.length := by rw [h.states, List.length_map]
    rw [e]
    split
    · rw [h.gram.symbols]
      refine OutRel.bind (R := TabRel f c) (OutRel.foldlM (fun a b hab x _ => hab.procSym hcl dbg m i x) h) ?_
      exact fun a b hab => ih (i + 1) hab
    · exact .ok h

theorem TabRel.procClosures (h : TabRel f c t t') (hcl : SameStep f c cl cl') (dbg : Bool) (n : Nat) :
    OutRel (TabRel f c) (Lrp.procClosures cl dbg n t) (Lrp.procClosures cl' dbg n t') := by
  unfold Lrp.procClosures procClosuresFirstRow Tabler.basisPos
  have e : OSet.ofList [t'.grammar.basis] = stMap f c (OSet.ofList [t.grammar.basis]) := by
    rw [h.gram.basis]; rfl
  rw [e]
  refine OutRel.bind (R := TabRel f c) ((h.propClosure hcl n _).bind (fun a b e => ?_)) ?_
  · subst e
    refine .ok { gram := h.gram, first := h.first, follow := h.follow, states := by simp [h.states],
                 kernels := ?_, actions := h.actions }
    simp only
    rw [h.gram.keeps.st.insertM, h.kernels]
    rfl
  · exact fun a b hab => TabRel.procLoop hcl dbg n n 0 hab

/-! ### Actions -/

theorem reduceDecision_map (hf : KeepsOrder f) (S : T) (p : Position T) (s : OSet T) :
    reduceDecision (f S) (posMap f c p) (s.map f) = rowMap f c (reduceDecision S p s) := by
  unfold reduceDecision rowMap
  rw [hf.ofListM, List.map_map, List.map_map]
  congr 1
  refine List.map_congr_left (fun x _ => ?_)
  simp only [Function.comp_apply, Prod.map]
  by_cases h : p.rule = S
  · subst h
    simp [posMap, actMap]
  · have : f p.rule ≠ f S := fun e => h (hf.inj e)
    simp [posMap, actMap, h, this]

theorem TabRel.shiftDecision (h : TabRel f c t t') {k : State T → Option Nat} {k' : State U → Option Nat}
    (hk : ∀ s, k' (stMap f c s) = k s) (row : State T) (x : T) :
    OutRel (fun a b => b = rowMap f c a) (Lrp.shiftDecision t k row x)
      (Lrp.shiftDecision t' k' (stMap f c row) (f x)) := by
  unfold Lrp.shiftDecision
  rw [symFilter_map h.gram.keeps, hk]
  refine (OutRel.ofOption (v := id) _ (by simp)).bind (fun a b e => ?_)
  simp only [id_eq] at e
  subst e
  rw [h.gram.isTerminal]
  refine .ok ?_
  split <;> rfl

theorem addAction_map (hf : KeepsOrder f) (m : OMap T (Action T)) (e : T × Action T) :
    addAction (rowMap f c m) (Prod.map f (actMap f c) e) = rowMap f c (addAction m e) := by
  unfold addAction rowMap
  simp only [Prod.map_fst, Prod.map_snd]
  rw [hf.get?]
  cases m.get? e.1 with
  | none =>
    rw [hf.insertM]
    rfl
  | some old =>
    simp only [Option.map_some]
    by_cases h : old = e.2
    · subst h
      simp only [ne_eq, not_true_eq_false, ↓reduceIte]
      rw [hf.insertM]
    · rw [if_pos h, if_pos (fun e' => h (actMap_inj hf e')), hf.insertM]
      rfl

theorem addActions_map (hf : KeepsOrder f) (ds m : OMap T (Action T)) :
    (rowMap f c ds).foldl addAction (rowMap f c m) = rowMap f c (ds.foldl addAction m) := by
  induction ds generalizing m with
  | nil => rfl
  | cons d ds ih =>
    simp only [List.map_cons, List.foldl_cons]
    rw [addAction_map hf, ih]

theorem TabRel.procRows (h : TabRel f c t t') {d : Position T → State T → Out (OMap T (Action T))}
    {d' : Position U → State U → Out (OMap U (Action U))}
    (hd : ∀ p s, OutRel (fun a b => b = rowMap f c a) (d p s) (d' (posMap f c p) (stMap f c s))) :
    OutRel (TabRel f c) (Lrp.procRows d t) (Lrp.procRows d' t') := by
  unfold Lrp.procRows
  rw [h.states]
  refine OutRel.bind (R := fun a b => b = a.map (rowMap f c)) (OutRel.mapM (fun s _ => ?_)) ?_
  · unfold rowActions
    exact OutRel.foldlM (fun a b e p _ => (hd p s).bind (fun a' b' e' => by
      subst e e'
      exact .ok (addActions_map h.gram.keeps a' a))) (a := []) (b := []) rfl
  · intro a b e
    subst e
    exact .ok { gram := h.gram, first := h.first, follow := h.follow, states := by simp,
                kernels := h.kernels, actions := by simp [h.actions] }

theorem TabRel.stateFromKernel (h : TabRel f c t t') (s : State T) :
    Lrp.stateFromKernel t' (stMap f c s) = Lrp.stateFromKernel t s := by
  unfold Lrp.stateFromKernel
  rw [h.kernels, h.gram.keeps.st.get?]
  simp

theorem TabRel.start (h : TabRel f c t t') : t'.basisPos.rule = f t.basisPos.rule := by
  unfold Tabler.basisPos
  rw [h.gram.basis]
  rfl

theorem TabRel.slr (h : TabRel f c t t') (dbg : Bool) (n : Nat) :
    OutRel (TabRel f c) (Slr.withTable dbg n t) (Slr.withTable dbg n t') := by
  unfold Slr.withTable
  refine (h.procClosures slr_sameStep dbg n).bind (fun a b h => h.procRows (fun p s => ?_))
  unfold Slr.decision
  rw [posMap_top]
  cases p.top with
  | none =>
    simp only [Option.map_none]
    refine (OutRel.ofOption (v := List.map f) _ ?_).bind (fun fs fs' e => ?_)
    · rw [h.follow]
      exact h.gram.keeps.get? _ _ _
    · subst e
      refine .ok ?_
      rw [h.start]
      exact reduceDecision_map h.gram.keeps _ _ _
  | some x => exact h.shiftDecision h.stateFromKernel s x

theorem TabRel.clr (h : TabRel f c t t') (dbg : Bool) (n : Nat) :
    OutRel (TabRel f c) (Clr.withTable dbg n t) (Clr.withTable dbg n t') := by
  unfold Clr.withTable
  refine (h.procClosures clr_sameStep dbg n).bind (fun a b h => h.procRows (fun p s => ?_))
  unfold Clr.decision
  rw [posMap_top]
  cases p.top with
  | none =>
    simp only [Option.map_none]
    refine .ok ?_
    rw [h.start]
    exact reduceDecision_map h.gram.keeps _ _ _
  | some x => exact h.shiftDecision h.stateFromKernel s x

end

end Lrp
