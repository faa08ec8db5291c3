import Verif.Proofs.EmbedTable

/-! The construction of Lalr tables commutes with maps that keep the order. -/

set_option linter.unusedSectionVars false

namespace Lrp
variable {T U : Type} [LinOrd T] [DecidableEq T] [LinOrd U] [DecidableEq U]

/-- `l'` is `l` with its symbols renamed and its productions renumbered. -/
structure LalrRel (f : T → U) (c : T → List T → Nat) (l : Lalr T) (l' : Lalr U) : Prop where
  table : TabRel f c l.table l'.table
  raws : l'.raws = l.raws.map (Prod.map (stMap f c) (stMap f c))

/-- The same call with renamed arguments. -/
def callMap (f : T → U) (c : T → List T → Nat) : Lalr.Call T → Lalr.Call U
  | .enter main inc clo => .enter (stMap f c main) (stMap f c inc) (stMap f c clo)
  | .loop id k syms => .loop id (stMap f c k) (syms.map f)

/-- The results of `update_closures`. -/
def UpRel (f : T → U) (c : T → List T → Nat) (a : Lalr T × Option (State T)) (b : Lalr U × Option (State U)) : Prop :=
  LalrRel f c a.1 b.1 ∧ b.2 = a.2.map (stMap f c)

section
variable {f : T → U} {c : T → List T → Nat} {l : Lalr T} {l' : Lalr U}

theorem LalrRel.kernel (h : LalrRel f c l l') (k : State T) :
    l'.table.kernels.get? (stMap f c k) = l.table.kernels.get? k := by
  rw [h.table.kernels, h.table.gram.keeps.st.get?]
  simp

theorem LalrRel.raw (h : LalrRel f c l l') (k : State T) :
    l'.raws.get? (Lalr.withoutLook (stMap f c k)) = (l.raws.get? (Lalr.withoutLook k)).map (stMap f c) := by
  rw [h.raws, withoutLook_map h.table.gram.keeps]
  exact h.table.gram.keeps.st.get? _ _ _

theorem LalrRel.updateState (h : LalrRel f c l l') (dbg : Bool) (main inc clo : State T) :
    OutRel (UpRel f c) (Lalr.updateState dbg l main inc clo)
      (Lalr.updateState dbg l' (stMap f c main) (stMap f c inc) (stMap f c clo)) := by
  have hf := h.table.gram.keeps
  unfold Lalr.updateState
  rw [h.kernel]
  cases l.table.kernels.get? main with
  | none => exact .ok ⟨h, rfl⟩
  | some id =>
    simp only
    have e : merged (OSet.ofList (stMap f c inc ++ stMap f c main)) =
        stMap f c (merged (OSet.ofList (inc ++ main))) := by
      unfold stMap
      rw [← merged_map hf, (hf.pos c).ofList, List.map_append]
    rw [e]
    by_cases hn : merged (OSet.ofList (inc ++ main)) = main
    · rw [if_pos hn, if_pos (congrArg _ hn)]
      exact .ok ⟨h, rfl⟩
    · rw [if_neg hn, if_neg (fun e => hn (hf.st.inj e))]
      refine (OutRel.ofOption (v := stMap f c) _ ?_).bind (fun old old' e => ?_)
      · rw [h.table.states, List.getElem?_map]
      · subst e
        refine (OutRel.assert _ ?_).bind (fun _ _ _ => .ok ⟨⟨?_, ?_⟩, rfl⟩)
        · rw [h.table.kernels, ← hf.st.removeM, hf.st.contains]
        · exact { gram := h.table.gram, first := h.table.first, follow := h.table.follow,
                  actions := h.table.actions,
                  states := by
                    simp only
                    rw [List.map_set, h.table.states]
                    congr 1
                    rw [← List.map_append, ← (hf.pos c).ofList]
                    exact merged_map hf _
                  kernels := by
                    simp only
                    rw [hf.st.insertM, hf.st.removeM, h.table.kernels]
                    rfl }
        · simp only
          rw [hf.st.insertM, h.raws, withoutLook_map hf]

theorem LalrRel.goto (h : LalrRel f c l l') (n : Nat) (s : State T) (x : T) :
    OutRel (fun a b => b = a.map (Prod.map (stMap f c) (stMap f c))) (Lrp.goto Clr.closure n l.table s x)
      (Lrp.goto Clr.closure n l'.table (stMap f c s) (f x)) := h.table.goto clr_sameStep n s x

theorem LalrRel.update (dbg : Bool) (m n : Nat) : ∀ {l : Lalr T} {l' : Lalr U} (a : Lalr.Call T),
    LalrRel f c l l' → OutRel (UpRel f c) (Lalr.update dbg m n l a) (Lalr.update dbg m n l' (callMap f c a)) := by
  induction n with
  | zero => intro l l' a h; exact .fuel
  | succ n ih =>
    intro l l' a h
    have hf := h.table.gram.keeps
    match a with
    | .enter main inc clo =>
      simp only [callMap, Lalr.update]
      refine (h.updateState dbg main inc clo).bind ?_
      rintro ⟨l, o⟩ ⟨l', o'⟩ ⟨h, e⟩
      simp only at h e
      subst e
      cases o with
      | none => exact .ok ⟨h, rfl⟩
      | some nk =>
        simp only [Option.map_some]
        refine (OutRel.ofOption (v := id) _ (by rw [h.kernel]; simp)).bind (fun i i' e => ?_)
        simp only [id_eq] at e
        subst e
        rw [h.table.gram.symbols]
        exact ih (.loop i' nk l.table.grammar.symbols) h
    | .loop id nk [] =>
      simp only [callMap, List.map_nil, Lalr.update]
      exact .ok ⟨h, rfl⟩
    | .loop id nk (x :: xs) =>
      simp only [callMap, List.map_cons, Lalr.update]
      refine (h.goto m nk x).bind (fun o o' e => ?_)
      subst e
      cases o with
      | none => exact ih (.loop id nk xs) h
      | some o =>
        obtain ⟨k, s⟩ := o
        simp only [Option.map_some, Prod.map]
        rw [h.raw]
        cases l.raws.get? (Lalr.withoutLook k) with
        | none => exact ih (.loop id nk xs) h
        | some mk =>
          simp only [Option.map_some]
          refine (ih (.enter mk k s) h).bind ?_
          rintro ⟨l, o⟩ ⟨l', o'⟩ ⟨h, e⟩
          simp only at h e
          subst e
          cases o with
          | none => exact ih (.loop id nk xs) h
          | some nk' =>
            simp only [Option.map_some]
            refine (OutRel.ofOption (v := fun x => x) _ (by rw [h.kernel]; simp)).bind (fun i i' e => ?_)
            subst e
            by_cases hc : i' = id ∧ nk' ≠ nk
            · rw [if_pos hc, if_pos ⟨hc.1, fun e => hc.2 (hf.st.inj e)⟩, h.table.gram.symbols]
              exact ih (.loop id nk' l.table.grammar.symbols) h
            · rw [if_neg hc, if_neg (fun e => hc ⟨e.1, fun e' => e.2 (congrArg _ e')⟩)]
              exact ih (.loop id nk xs) h

theorem LalrRel.gen (dbg : Bool) (m u n : Nat) : ∀ {l : Lalr T} {l' : Lalr U} (i : Nat) (row : State T) (xs : List T),
    LalrRel f c l l' →
    OutRel (LalrRel f c) (Lalr.gen dbg m u n i row xs l) (Lalr.gen dbg m u n i (stMap f c row) (xs.map f) l') := by
  induction n with
  | zero => intro l l' i row xs h; exact .fuel
  | succ n ih =>
    intro l l' i row xs h
    have hf := h.table.gram.keeps
    match xs with
    | [] =>
      simp only [List.map_nil, Lalr.gen]
      rw [h.table.states, List.getElem?_map]
      cases l.table.states[i + 1]? with
      | none => exact .ok h
      | some row' =>
        simp only [Option.map_some]
        rw [h.table.gram.symbols]
        exact ih (i + 1) row' _ h
    | x :: xs =>
      simp only [List.map_cons, Lalr.gen]
      refine (h.goto m row x).bind (fun o o' e => ?_)
      subst e
      cases o with
      | none => exact ih i row xs h
      | some o =>
        obtain ⟨k, s⟩ := o
        simp only [Option.map_some, Prod.map]
        rw [h.raw]
        cases l.raws.get? (Lalr.withoutLook k) with
        | some mk =>
          simp only [Option.map_some]
          refine (LalrRel.update dbg m u (.enter mk k s) h).bind ?_
          rintro ⟨l, o⟩ ⟨l', o'⟩ ⟨h, e⟩
          simp only at h e
          subst e
          cases o with
          | none => exact ih i row xs h
          | some nk =>
            simp only [Option.map_some]
            refine (OutRel.ofOption (v := fun x => x) _ (by rw [h.kernel]; simp)).bind (fun j j' e => ?_)
            subst e
            by_cases hc : j' = i ∧ nk ≠ row
            · rw [if_pos hc, if_pos ⟨hc.1, fun e => hc.2 (hf.st.inj e)⟩, h.table.states, List.getElem?_map]
              cases l.table.states[i]? with
              | none => exact .ok h
              | some row' =>
                simp only [Option.map_some]
                rw [h.table.gram.symbols]
                exact ih i row' _ h
            · rw [if_neg hc, if_neg (fun e => hc ⟨e.1, fun e' => e.2 (congrArg _ e')⟩)]
              exact ih i row xs h
        | none =>
          simp only [Option.map_none]
          refine (OutRel.assert _ ?_).bind (fun _ _ _ => ih i row xs ?_)
          · rw [h.table.kernels, hf.st.contains]
          · refine ⟨?_, ?_⟩
            · exact { gram := h.table.gram, first := h.table.first, follow := h.table.follow,
                      actions := h.table.actions,
                      states := by simp [h.table.states]
                      kernels := by
                        simp only
                        rw [hf.st.insertM, h.table.kernels]
                        simp [h.table.states] }
            · simp only
              rw [hf.st.insertM, h.raws, withoutLook_map hf]

theorem TabRel.lalr {t : Tabler T} {t' : Tabler U} (h : TabRel f c t t') (dbg : Bool) (n : Nat) :
    OutRel (LalrRel f c) (Lalr.withTable dbg n t) (Lalr.withTable dbg n t') := by
  have hf := h.gram.keeps
  unfold Lalr.withTable
  refine OutRel.bind (R := LalrRel f c) ?_ ?_
  · unfold Lalr.procClosures Lalr.firstRow
    refine OutRel.bind (R := LalrRel f c) ?_ ?_
    · simp only [Tabler.basisPos]
      have e : OSet.ofList [t'.grammar.basis] = stMap f c (OSet.ofList [t.grammar.basis]) := by
        rw [h.gram.basis]; rfl
      rw [e]
      refine (h.propClosure clr_sameStep n _).bind (fun a b e => ?_)
      subst e
      refine .ok ⟨{ gram := h.gram, first := h.first, follow := h.follow, states := by simp [h.states],
                    kernels := ?_, actions := h.actions }, ?_⟩
      · simp only
        rw [hf.st.insertM, h.kernels]
        rfl
      · rfl
    · intro l l' h
      rw [h.table.states, List.getElem?_map]
      cases l.table.states[0]? with
      | none => exact .ok h
      | some row =>
        simp only [Option.map_some]
        rw [h.table.gram.symbols]
        exact LalrRel.gen dbg n n n 0 row _ h
  · intro l l' h
    refine OutRel.bind (R := TabRel f c) (h.table.procRows (fun p s => ?_)) (fun a b hab => .ok ⟨hab, h.raws⟩)
    unfold Lalr.decision
    rw [posMap_top]
    cases p.top with
    | none =>
      simp only [Option.map_none]
      refine .ok ?_
      rw [h.table.start]
      exact reduceDecision_map hf _ _ _
    | some x =>
      refine h.table.shiftDecision (fun s => ?_) s x
      unfold Lalr.stateFromKernel Lalr.finalKernel
      rw [h.raw]
      cases l.raws.get? (Lalr.withoutLook s) with
      | none => rfl
      | some fk => exact h.kernel fk

end

end Lrp
