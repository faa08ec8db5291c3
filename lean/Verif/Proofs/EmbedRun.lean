import Verif.Proofs.EmbedNew
import Verif.Model.Dfa

/-! Parsing with a table whose symbols are renamed and whose alternatives are renumbered. -/

set_option linter.unusedSectionVars false

namespace Lrp
open Spec
variable {T U M : Type} [LinOrd T] [DecidableEq T] [LinOrd U] [DecidableEq U] {f : T → U} {π : T → Nat → Nat}
  {D : Decls T}

/-- The rows reduce productions only. -/
def RedProds (D : Decls T) (acts : ActTable T) : Prop :=
  ∀ row ∈ acts, ∀ x A p, OMap.get? row x = some (.reduce A p) → IsProd D A p.2 p.1

/-- The same moment of two runs. -/
structure RunRel (f : T → U) (π : T → Nat → Nat) (D : Decls T) (d : Dfa M T) (d' : Dfa M U) : Prop where
  buffer : d'.buffer = renameToks f d.buffer
  states : d'.states = d.states
  items : d'.items = renameToks f d.items
  table : d'.table = d.table.map (List.map (Prod.map f (movedAct f π)))
  top : d'.top = d.top
  finished : d'.finished = d.finished
  reds : MovedReds f π D d.reductors d'.reductors
  eof : d'.eof = f d.eof
  prods : RedProds D d.table

/-- The same end of two calls. -/
def ResRel (f : T → U) (π : T → Nat → Nat) (D : Decls T) (r : DfaRes M T Unit) (r' : DfaRes M U Unit) : Prop :=
  RunRel f π D r.1 r'.1 ∧ r'.2 = movedRes f π r.2

theorem RunRel.symbol {d : Dfa M T} {d' : Dfa M U} (h : RunRel f π D d d') : d'.symbol = f d.symbol := by
  unfold Dfa.symbol
  rw [h.buffer, h.eof]
  cases d.buffer <;> rfl

theorem RunRel.shift {d : Dfa M T} {d' : Dfa M U} (h : RunRel f π D d d') (to : Nat) :
    ResRel f π D (d.shift to) (d'.shift to) := by
  unfold Dfa.shift
  rw [h.buffer]
  cases hb : d.buffer with
  | nil => exact ⟨h, rfl⟩
  | cons x b =>
    refine ⟨{ buffer := rfl, states := congrArg (to :: ·) h.states,
              items := by show _ :: d'.items = _ :: renameToks f d.items; rw [h.items]
              table := h.table, top := rfl, finished := h.finished, reds := h.reds, eof := h.eof,
              prods := h.prods }, rfl⟩

theorem RunRel.goto {d : Dfa M T} {d' : Dfa M U} (h : RunRel f π D d d') (to : Nat) :
    ResRel f π D (d.goto to) (d'.goto to) :=
  ⟨{ h with states := by simp [Dfa.goto, h.states], top := rfl }, rfl⟩

theorem RunRel.accept {d : Dfa M T} {d' : Dfa M U} (h : RunRel f π D d d') :
    ResRel f π D d.accept d'.accept := by
  obtain ⟨h1, h2, h3, h4, h5, h6, h7, h8, h9⟩ := h
  cases d
  cases d'
  simp only at h1 h2 h3 h4 h5 h6 h7 h8 h9
  subst h1 h2 h3 h4 h5 h6 h8
  rename_i b _ _ _ _ _ _ _ _
  cases b with
  | nil => exact ⟨⟨rfl, rfl, rfl, rfl, rfl, rfl, h7, rfl, h9⟩, rfl⟩
  | cons x b => exact ⟨⟨rfl, rfl, rfl, rfl, rfl, rfl, h7, rfl, h9⟩, rfl⟩

theorem RunRel.reduceStacks {d : Dfa M T} {d' : Dfa M U} (h : RunRel f π D d d') {A : T} {p : Production T}
    (hp : IsProd D A p.2 p.1) :
    OutRel (RunRel f π D) (d.reduceStacks A p) (d'.reduceStacks (f A) (p.1.map f, π A p.2)) := by
  unfold Dfa.reduceStacks
  simp only [List.length_map]
  refine (OutRel.assert _ (by rw [h.items]; simp [renameToks])).bind (fun _ _ _ => ?_)
  have hr := h.reds A p.2 p.1 hp
  have hits : (d'.items.take p.1.length).reverse = renameToks f (d.items.take p.1.length).reverse := by
    rw [h.items]
    simp [renameToks, List.map_take]
  cases h1 : OMap.get? d.reductors A with
  | none =>
    rw [h1] at hr
    cases h2 : OMap.get? d'.reductors (f A) with
    | none => exact .panic _
    | some fs' =>
      rw [h2] at hr
      simp only [Option.bind_none, Option.bind_some] at hr
      simp only [Out.ofOption_none, Out.ofOption_some, Out.ok_bind]
      cases h4 : fs'[π A p.2]? with
      | none => exact .panic _
      | some r' => rw [h4] at hr; exact hr.elim
  | some fs =>
    rw [h1] at hr
    simp only [Out.ofOption_some, Out.ok_bind, Option.bind_some] at hr ⊢
    cases h3 : fs[p.2]? with
    | none =>
      rw [h3] at hr
      cases h2 : OMap.get? d'.reductors (f A) with
      | none => exact .panic _
      | some fs' =>
        rw [h2] at hr
        simp only [Option.bind_some] at hr
        simp only [Out.ofOption_some, Out.ok_bind]
        cases h4 : fs'[π A p.2]? with
        | none => exact .panic _
        | some r' => rw [h4] at hr; exact hr.elim
    | some r =>
      rw [h3] at hr
      cases h2 : OMap.get? d'.reductors (f A) with
      | none => rw [h2] at hr; exact hr.elim
      | some fs' =>
        rw [h2] at hr
        simp only [Option.bind_some] at hr
        simp only [Out.ofOption_some, Out.ok_bind]
        cases h4 : fs'[π A p.2]? with
        | none => rw [h4] at hr; exact hr.elim
        | some r' =>
          rw [h4] at hr
          simp only at hr
          simp only [Out.ofOption_some, Out.ok_bind]
          rw [hits, hr, h.states]
          cases r (d.items.take p.1.length).reverse with
          | none => exact .panic _
          | some v =>
            simp only [Out.ofOption_some, Out.ok_bind]
            cases d.states[p.1.length]? with
            | none => exact .panic _
            | some top =>
              simp only [Out.ofOption_some, Out.ok_bind]
              refine .ok { buffer := h.buffer, states := rfl, items := ?_, table := h.table, top := rfl,
                           finished := h.finished, reds := h.reds, eof := h.eof, prods := h.prods }
              simp [h.items, renameToks, List.map_drop]

theorem RunRel.travel (hf : KeepsOrder f) (n : Nat) : ∀ {d : Dfa M T} {d' : Dfa M U} (x : T),
    RunRel f π D d d' → OutRel (ResRel f π D) (Dfa.travel n d x) (Dfa.travel n d' (f x)) := by
  induction n with
  | zero => intro d d' x _; exact .fuel
  | succ n ih =>
    intro d d' x h
    simp only [Dfa.travel]
    rw [h.table, h.top, List.getElem?_map]
    cases hrow : d.table[d.top]? with
    | none => exact .ok ⟨h, rfl⟩
    | some row =>
      simp only [Option.map_some]
      rw [hf.get?]
      cases hx : OMap.get? row x with
      | none =>
        refine .ok ⟨h, ?_⟩
        simp [movedRes, movedErr, OMap.keys, Function.comp_def]
      | some a =>
        cases a with
        | shift to => exact .ok (h.shift to)
        | goto to => exact .ok (h.goto to)
        | reduce A p =>
          exact (h.reduceStacks (h.prods row (List.mem_of_getElem? hrow) x A p hx)).bind
            (fun d d' h => ih A h)
        | acc => exact .ok h.accept
        | conflict a b => exact .ok ⟨h, rfl⟩

theorem RunRel.trace (hf : KeepsOrder f) (m n : Nat) : ∀ {d : Dfa M T} {d' : Dfa M U},
    RunRel f π D d d' → OutRel (ResRel f π D) (Dfa.trace id m n d) (Dfa.trace id m n d') := by
  induction n with
  | zero => intro d d' _; exact .fuel
  | succ n ih =>
    intro d d' h
    simp only [Dfa.trace, id]
    rw [h.finished]
    split
    · exact .ok ⟨h, rfl⟩
    · rw [h.symbol]
      refine (RunRel.travel hf m d.symbol h).bind (fun r r' hr => ?_)
      obtain ⟨d, r⟩ := r
      obtain ⟨d', r'⟩ := r'
      obtain ⟨h1, h2⟩ := hr
      simp only at h1 h2
      subst h2
      cases r with
      | error e => exact .ok ⟨h1, rfl⟩
      | ok u => exact ih h1

/-- The same end of two parses: the same value, or the same error under the new names and numbers, or the same
panic. -/
theorem parse_moved (hf : KeepsOrder f) {t : Tabler T} {t' : Tabler U} (ht : MovedTable f π t t')
    (he : t'.grammar.basis.look = t.grammar.basis.look.map f) (hp : RedProds D t.actions)
    {maps : ReductMap M T} {maps' : ReductMap M U} (hm : MovedReds f π D maps maps') (n : Nat)
    (toks : List (Token M T)) :
    OutRel (fun r r' => r' = movedRes f π r) (Parser.parse t n toks maps)
      (Parser.parse t' n (renameToks f toks) maps') := by
  unfold Parser.parse
  refine OutRel.bind (R := RunRel f π D) ?_ (fun d d' h => ?_)
  · unfold Parser.dfa
    refine (OutRel.ofOption (v := f) _ (by rw [he, List.head?_map])).bind (fun e e' h => ?_)
    subst h
    exact .ok { buffer := rfl, states := rfl, items := rfl, table := ht.actions, top := rfl, finished := rfl,
                reds := hm, eof := rfl, prods := hp }
  · refine (RunRel.trace hf n n h).bind (fun r r' hr => ?_)
    obtain ⟨d, r⟩ := r
    obtain ⟨d', r'⟩ := r'
    obtain ⟨h1, h2⟩ := hr
    simp only at h1 h2
    subst h2
    cases r with
    | error e => exact .ok rfl
    | ok u =>
      simp only [movedRes]
      rw [h1.items]
      cases d.items with
      | nil => exact .ok rfl
      | cons x xs => exact .ok rfl

end Lrp
