import Verif.Spec.Run
import Verif.Proofs.Power
import Verif.Proofs.Equals

/-! Debug assertions stop the construction or do nothing. -/

set_option linter.unusedSectionVars false

namespace Lrp
open Spec

/-- `x` is `y`, except where an assertion stops it. -/
def Out.Tame {α : Type} (x y : Out α) : Prop := ∀ a, x = .ok a → y = .ok a

namespace Out.Tame
variable {α β : Type}

theorem refl (x : Out α) : Tame x x := fun _ h => h

theorem bind {x y : Out α} {f g : α → Out β} (h : Tame x y) (hf : ∀ a, Tame (f a) (g a)) : Tame (x >>= f) (y >>= g) := by
  intro b hb
  obtain ⟨a, h1, h2⟩ := Out.bind_eq_ok.mp hb
  exact Out.bind_eq_ok.mpr ⟨a, h a h1, hf a b h2⟩

theorem assert {p : Panic} {dbg b : Bool} : Tame (Out.assert p (!dbg || b)) (Out.assert p (!false || b)) := by
  intro a _
  simp

theorem foldlM {f g : β → α → Out β} (h : ∀ b a, Tame (f b a) (g b a)) (l : List α) (b : β) :
    Tame (l.foldlM f b) (l.foldlM g b) := by
  induction l generalizing b with
  | nil => exact refl _
  | cons a l ih =>
    rw [List.foldlM_cons, List.foldlM_cons]
    exact bind (h b a) (fun b => ih b)

end Out.Tame

variable {T : Type} [LinOrd T] [DecidableEq T]

open Out (Tame)

theorem Grammar.new_tame (dbg : Bool) (S : T) (rules : RuleMap T) (eof : T) :
    Tame (Grammar.new dbg S rules eof) (Grammar.new false S rules eof) := by
  unfold Grammar.new
  exact .bind (.refl _) (fun r => .bind .assert (fun _ => .refl _))

theorem Tabler.new_tame (dbg : Bool) (n : Nat) (g : Grammar T) : Tame (Tabler.new dbg n g) (Tabler.new false n g) := by
  unfold Tabler.new procFirst procFollow
  refine .bind (.refl _) (fun _ => .bind (.bind (.refl _) fun _ => .bind .assert fun _ => .refl _) fun _ => ?_)
  exact .bind (.refl _) (fun _ => .bind (.bind (.refl _) fun _ => .bind .assert fun _ => .refl _) fun _ => .refl _)

theorem procSym_tame (cl : ClosureFn T) (dbg : Bool) (n i : Nat) (t : Tabler T) (x : T) :
    Tame (procSym cl dbg n i t x) (procSym cl false n i t x) := by
  unfold procSym
  refine .bind (.refl _) (fun o => ?_)
  cases o with
  | none => exact .refl _
  | some kc => exact .bind .assert (fun _ => .refl _)

theorem procLoop_tame (cl : ClosureFn T) (dbg : Bool) (c n i : Nat) (t : Tabler T) :
    Tame (procLoop cl dbg c n i t) (procLoop cl false c n i t) := by
  induction n generalizing i t with
  | zero => exact .refl _
  | succ n ih =>
    unfold procLoop
    split
    · exact .bind (.foldlM (fun t x => procSym_tame cl dbg c i t x) _ _) (fun t => ih _ t)
    · exact .refl _

theorem procClosures_tame (cl : ClosureFn T) (dbg : Bool) (n : Nat) (t : Tabler T) :
    Tame (procClosures cl dbg n t) (procClosures cl false n t) :=
  .bind (.refl _) (fun _ => procLoop_tame _ _ _ _ _ _)

theorem Lalr.updateState_tame (dbg : Bool) (l : Lalr T) (main inc clo : State T) :
    Tame (l.updateState dbg main inc clo) (l.updateState false main inc clo) := by
  unfold Lalr.updateState
  cases l.table.kernels.get? main with
  | none => exact .refl _
  | some id =>
    simp only
    split
    · exact .refl _
    · exact .bind (.refl _) (fun _ => .bind .assert fun _ => .refl _)

theorem Lalr.update_tame (dbg : Bool) (c n : Nat) (l : Lalr T) (a : Lalr.Call T) :
    Tame (Lalr.update dbg c n l a) (Lalr.update false c n l a) := by
  induction n generalizing l a with
  | zero => exact .refl _
  | succ n ih =>
    cases a with
    | enter main inc clo =>
      unfold Lalr.update
      refine .bind (Lalr.updateState_tame _ _ _ _ _) ?_
      rintro ⟨l1, o⟩
      cases o with
      | none => exact .refl _
      | some nk => exact .bind (.refl _) (fun _ => ih _ _)
    | loop id nk ss =>
      cases ss with
      | nil => exact .refl _
      | cons s ss =>
        unfold Lalr.update
        refine .bind (.refl _) (fun o => ?_)
        cases o with
        | none => exact ih _ _
        | some kv =>
          obtain ⟨kernel, clo⟩ := kv
          simp only
          cases l.raws.get? (Lalr.withoutLook kernel) with
          | none => exact ih _ _
          | some mk =>
            refine .bind (ih _ _) ?_
            rintro ⟨l1, o⟩
            cases o with
            | none => exact ih _ _
            | some nk' =>
              refine .bind (.refl _) (fun u => ?_)
              split
              · exact ih _ _
              · exact ih _ _

theorem Lalr.gen_tame (dbg : Bool) (c u n i : Nat) (row : State T) (ss : List T) (l : Lalr T) :
    Tame (Lalr.gen dbg c u n i row ss l) (Lalr.gen false c u n i row ss l) := by
  induction n generalizing i row ss l with
  | zero => exact .refl _
  | succ n ih =>
    cases ss with
    | nil =>
      unfold Lalr.gen
      cases l.table.states[i + 1]? with
      | none => exact .refl _
      | some row => exact ih _ _ _ _
    | cons s ss =>
      unfold Lalr.gen
      refine .bind (.refl _) (fun o => ?_)
      cases o with
      | none => exact ih _ _ _ _
      | some kv =>
        obtain ⟨kernel, clo⟩ := kv
        simp only
        cases l.raws.get? (Lalr.withoutLook kernel) with
        | none => exact .bind .assert (fun _ => ih _ _ _ _)
        | some mk =>
          refine .bind (Lalr.update_tame _ _ _ _ _) ?_
          rintro ⟨l1, o⟩
          cases o with
          | none => exact ih _ _ _ _
          | some nk' =>
            refine .bind (.refl _) (fun u => ?_)
            split
            · cases l1.table.states[i]? with
              | none => exact .refl _
              | some row => exact ih _ _ _ _
            · exact ih _ _ _ _

theorem Lalr.withTable_tame (dbg : Bool) (n : Nat) (t : Tabler T) :
    Tame (Lalr.withTable dbg n t) (Lalr.withTable false n t) := by
  unfold Lalr.withTable Lalr.procClosures
  refine .bind (.bind (.refl _) fun l => ?_) (fun _ => .refl _)
  cases l.table.states[0]? with
  | none => exact .refl _
  | some row => exact Lalr.gen_tame _ _ _ _ _ _ _ _

theorem Spec.Method.build_tame (k : Method) (dbg : Bool) (n : Nat) (g : Grammar T) :
    Tame (k.build dbg n g) (k.build false n g) := by
  cases k with
  | slr => exact .bind (Tabler.new_tame _ _ _) (fun t => .bind (procClosures_tame _ _ _ _) fun _ => .refl _)
  | clr => exact .bind (Tabler.new_tame _ _ _) (fun t => .bind (procClosures_tame _ _ _ _) fun _ => .refl _)
  | lalr =>
    exact .bind (.bind (Tabler.new_tame _ _ _) (fun t => Lalr.withTable_tame _ _ t)) (fun _ => .refl _)

theorem Tabler.reduceEquals_tame (dbg : Bool) (t : Tabler T) :
    Tame (t.reduceEquals dbg) (t.reduceEquals false) := by
  unfold Tabler.reduceEquals Tabler.reducedActions
  exact .bind (.bind .assert fun _ => .refl _) (fun _ => .refl _)

end Lrp
