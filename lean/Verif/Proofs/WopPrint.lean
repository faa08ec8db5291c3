import Verif.Model.WopPrint
import Verif.Proofs.WopMain

/-! What `print_nested` slices: every span in the value of a tree of lexed tokens lies in the source and
cuts no character in two. -/

set_option linter.unusedSectionVars false

namespace Lrp.Wop
open Lrp.Wop.Spec Lrp.Spec

/-- All spans of the tree lie in the source. -/
inductive Shown (src : Text) : Gramem → Prop
  | token {s ty : Sym} {sp : Span} : InSrc src sp → Shown src ⟨⟨.token s, sp⟩, ty⟩
  | entryPoint {g : Gramem} {ty : Sym} {sp : Span} : InSrc src sp → Shown src g →
      Shown src ⟨⟨.entryPoint g, sp⟩, ty⟩
  | program {gs : List Gramem} {ty : Sym} {sp : Span} : InSrc src sp → (∀ g ∈ gs, Shown src g) →
      Shown src ⟨⟨.program gs, sp⟩, ty⟩
  | ruleDecl {ident t : Span} {rule : List RulePipe} {ty : Sym} {sp : Span} : InSrc src sp →
      InSrc src ident → InSrc src t → (∀ p ∈ rule, InSrc src p.2) → (∀ p ∈ rule, ∀ g ∈ p.1, Shown src g) →
      Shown src ⟨⟨.ruleDecl ident t rule, sp⟩, ty⟩
  | rule {rule : List RulePipe} {ty : Sym} {sp : Span} : InSrc src sp →
      (∀ p ∈ rule, InSrc src p.2) → (∀ p ∈ rule, ∀ g ∈ p.1, Shown src g) →
      Shown src ⟨⟨.rule rule, sp⟩, ty⟩
  | rulePipe {gs : List Gramem} {ty : Sym} {sp : Span} : InSrc src sp → (∀ g ∈ gs, Shown src g) →
      Shown src ⟨⟨.rulePipe gs, sp⟩, ty⟩
  | ruleItem {g : Gramem} {o c : Bool} {al : Option Span} {ty : Sym} {sp : Span} : InSrc src sp →
      Shown src g → (∀ s, al = some s → InSrc src s) → Shown src ⟨⟨.ruleItem g o al c, sp⟩, ty⟩
  | import_ {d : Span} {ty : Sym} {sp : Span} : InSrc src sp → InSrc src d →
      Shown src ⟨⟨.import_ d, sp⟩, ty⟩
  | alias {a b : Span} {ty : Sym} {sp : Span} : InSrc src sp → InSrc src a → InSrc src b →
      Shown src ⟨⟨.alias a b, sp⟩, ty⟩
  | identPath {d : Span} {ty : Sym} {sp : Span} : InSrc src sp → InSrc src d →
      Shown src ⟨⟨.identPath d, sp⟩, ty⟩

theorem Shown.span {src : Text} {g : Gramem} (h : Shown src g) : InSrc src g.item.span := by
  cases h <;> assumption

section
variable {src : Text} (quote : Text → Text)

theorem printAll_ok (lvl : Nat) : ∀ {gs : List Gramem},
    (∀ g ∈ gs, ∀ pre lvl, ∃ t, printNested quote src g pre lvl = .ok t) →
    ∃ t, printAll quote src lvl gs = .ok t
  | [], _ => ⟨_, by rw [printAll]⟩
  | g :: gs, h => by
    obtain ⟨t, ht⟩ := h g (by simp) (ascii "- ") lvl
    obtain ⟨u, hu⟩ := printAll_ok lvl (fun g hg => h g (List.mem_cons_of_mem _ hg))
    exact ⟨t ++ u, by rw [printAll, ht, hu]; rfl⟩

theorem printPipes_ok (lvl : Nat) : ∀ {ps : List RulePipe} (i : Nat), (∀ p ∈ ps, InSrc src p.2) →
    (∀ p ∈ ps, ∀ g ∈ p.1, ∀ pre lvl, ∃ t, printNested quote src g pre lvl = .ok t) →
    ∃ t, printPipes quote src lvl i ps = .ok t
  | [], _, _, _ => ⟨_, by rw [printPipes]⟩
  | (gs, b) :: ps, i, hb, h => by
    obtain ⟨t, ht⟩ := printAll_ok quote (lvl + 1) (h (gs, b) (by simp))
    obtain ⟨u, hu⟩ := printPipes_ok lvl (i + 1) (fun p hp => hb p (List.mem_cons_of_mem _ hp))
      (fun p hp => h p (List.mem_cons_of_mem _ hp))
    refine ⟨?_, ?_⟩
    rotate_left
    · rw [printPipes, ht, slice_ok (hb (gs, b) (by simp)), hu]
      rfl

/-- Such a tree is printed without a panic. -/
theorem Shown.printed {g : Gramem} (h : Shown src g) : ∀ pre lvl, ∃ t, printNested quote src g pre lvl = .ok t := by
  induction h with
  | token hs => intro pre lvl; refine ⟨?_, ?_⟩; rotate_left; rw [printNested, slice_ok hs, printAst]; rfl
  | entryPoint hs _ ih =>
    intro pre lvl
    obtain ⟨t, ht⟩ := ih [] (lvl + 1)
    refine ⟨?_, ?_⟩; rotate_left; rw [printNested, slice_ok hs, printAst, ht]; rfl
  | program hs _ ih =>
    intro pre lvl
    obtain ⟨t, ht⟩ := printAll_ok quote (lvl + 1) ih
    refine ⟨?_, ?_⟩; rotate_left; rw [printNested, slice_ok hs, printAst, ht]; rfl
  | ruleDecl hs h1 h2 h3 _ ih =>
    intro pre lvl
    obtain ⟨t, ht⟩ := printPipes_ok quote (lvl + 1) 0 h3 ih
    refine ⟨?_, ?_⟩; rotate_left; rw [printNested, slice_ok hs, printAst, slice_ok h1, slice_ok h2, ht]; rfl
  | rule hs h3 _ ih =>
    intro pre lvl
    obtain ⟨t, ht⟩ := printPipes_ok quote (lvl + 1) 0 h3 ih
    refine ⟨?_, ?_⟩; rotate_left; rw [printNested, slice_ok hs, printAst, ht]; rfl
  | rulePipe hs _ ih =>
    intro pre lvl
    obtain ⟨t, ht⟩ := printAll_ok quote (lvl + 1) ih
    refine ⟨?_, ?_⟩; rotate_left; rw [printNested, slice_ok hs, printAst, ht]; rfl
  | @ruleItem g o c al ty sp hs _ ha ih =>
    intro pre lvl
    obtain ⟨t, ht⟩ := ih [] (lvl + 1)
    cases al with
    | none => refine ⟨?_, ?_⟩; rotate_left; rw [printNested, slice_ok hs, printAst, ht]; rfl
    | some a =>
      refine ⟨?_, ?_⟩; rotate_left; rw [printNested, slice_ok hs, printAst, ht, Out.ok_bind, Out.ok_bind]
      simp only [slice_ok (ha a rfl), Out.ok_bind]
      rfl
  | import_ hs h1 => intro pre lvl; refine ⟨?_, ?_⟩; rotate_left; rw [printNested, slice_ok hs, printAst, slice_ok h1]; rfl
  | alias hs h1 h2 =>
    intro pre lvl; refine ⟨?_, ?_⟩; rotate_left
    rw [printNested, slice_ok hs, printAst, slice_ok h1, slice_ok h2]; rfl
  | identPath hs h1 => intro pre lvl; refine ⟨?_, ?_⟩; rotate_left; rw [printNested, slice_ok hs, printAst, slice_ok h1]; rfl

end

/-! ### The reductors keep spans in the source -/

theorem cover_le {src : Text} {x y : List Gramem} {s s' : Span} (hl : Lexed src (x ++ y))
    (hx : cover x = some s) (hy : cover y = some s') : s.stop ≤ s'.start := by
  unfold cover at hx hy
  split at hx
  · rename_i a b ha hb
    split at hy
    · rename_i a' b' ha' hb'
      cases hx
      cases hy
      exact (List.pairwise_append.mp hl.ordered).2.2 b (List.mem_of_getLast? hb) a' (List.mem_of_head? ha')
    · cases hy
  · cases hx

/-- What is known about the values of the children of a node. -/
structure Children (src : Text) (its : List Gramem) : Prop where
  shown : ∀ g ∈ its, Shown src g
  ordered : its.Pairwise (fun a b => a.item.span.stop ≤ b.item.span.start)

theorem Children.between {src : Text} {its : List Gramem} (h : Children src its) {i j : Nat} (hij : i ≤ j)
    {a b : Gramem} (ha : its[i]? = some a) (hb : its[j]? = some b) :
    InSrc src (Span.new a.item.span.start b.item.span.stop) := by
  have h1 := (h.shown a (List.mem_of_getElem? ha)).span
  have h2 := (h.shown b (List.mem_of_getElem? hb)).span
  refine ⟨?_, h2.len, h1.first, h2.last⟩
  simp only [Span.new]
  rcases Nat.lt_or_eq_of_le hij with hlt | rfl
  · obtain ⟨hi, ea⟩ := List.getElem?_eq_some_iff.mp ha
    obtain ⟨hj, eb⟩ := List.getElem?_eq_some_iff.mp hb
    have := List.pairwise_iff_getElem.mp h.ordered i j hi hj hlt
    rw [ea, eb] at this
    have := h1.le
    have := h2.le
    omega
  · rw [ha] at hb
    cases hb
    exact h1.le

theorem Children.get {src : Text} {its : List Gramem} (h : Children src its) {i : Nat} {a : Gramem}
    (ha : its[i]? = some a) : Shown src a := h.shown a (List.mem_of_getElem? ha)

/-- The reductor keeps spans in the source. -/
def Keeps (src : Text) (f : List Gramem → Option Ast) : Prop :=
  ∀ its ast sp ty, Children src its → f its = some ast → InSrc src sp → Shown src ⟨⟨ast, sp⟩, ty⟩

section
variable {src : Text}

theorem optLet_shown {its : List Gramem} (h : Children src its) {o : Option Nat} {r : Option Gramem}
    (ho : optLet its o = some r) : ∀ g, r = some g → Shown src g := by
  rintro g rfl
  cases o with
  | none =>
    unfold optLet at ho
    cases h0 : its[0]? <;> rw [h0] at ho <;> cases ho
  | some i =>
    simp only [optLet] at ho
    cases h0 : its[i]? with
    | none => rw [h0] at ho; cases ho
    | some a =>
      rw [h0] at ho
      cases ho
      exact h.get h0

theorem block_shown {its : List Gramem} (h : Children src its) {o : Option Nat} {r : Option Gramem}
    (ho : optLet its o = some r) : InSrc src (blockSpan r) := by
  cases r with
  | none => exact ⟨Nat.le_refl _, Nat.zero_le _, .inl rfl, .inl rfl⟩
  | some g => exact (optLet_shown h ho g rfl).span

theorem shown_rule {g : Gramem} (h : Shown src g) {v : List RulePipe} (hv : g.item.item.asRule = some v) :
    (∀ p ∈ v, InSrc src p.2) ∧ ∀ p ∈ v, ∀ g ∈ p.1, Shown src g := by
  cases h <;> cases hv
  exact ⟨by assumption, by assumption⟩

theorem shown_rulePipe {g : Gramem} (h : Shown src g) {v : List Gramem} (hv : g.item.item.asRulePipe = some v) :
    ∀ g ∈ v, Shown src g := by
  cases h <;> cases hv
  assumption

theorem shown_program {g : Gramem} (h : Shown src g) {v : List Gramem} (hv : g.item.item.asProgram = some v) :
    ∀ g ∈ v, Shown src g := by
  cases h <;> cases hv
  assumption

theorem shown_srcRef {g : Gramem} (h : Shown src g) {v : Span} (hv : g.item.item.srcRef = some v) :
    InSrc src v := by
  cases h <;> cases hv
  assumption

theorem shown_snoc {gs : List Gramem} {g : Gramem} (h : ∀ g ∈ gs, Shown src g) (hg : Shown src g) :
    ∀ x ∈ gs ++ [g], Shown src x := by
  intro x hx
  rcases List.mem_append.mp hx with hx | hx
  · exact h x hx
  · rw [List.mem_singleton.mp hx]
    exact hg

theorem keeps_ruleItem (i : Nat) (o c d : Option Nat) : Keeps src (outRuleItem i o c d) := by
  intro its ast sp ty hc h hs
  simp only [outRuleItem, Option.bind_eq_bind, Option.bind_eq_some_iff] at h
  obtain ⟨it, h1, o', h2, c', h3, d', h4, h⟩ := h
  cases h
  refine .ruleItem hs (hc.get h1) ?_
  intro s e
  obtain ⟨g, rfl, rfl⟩ := Option.map_eq_some_iff.mp e
  exact (optLet_shown hc h4 g rfl).span

theorem keeps_others : Keeps src outIdentPath0 ∧ Keeps src outIdentPath1 ∧ Keeps src outEntryPoint ∧
    (∀ o, Keeps src (outRuleMore o)) ∧ (∀ o, Keeps src (outRuleOne o)) ∧ Keeps src outRulePipe0 ∧
    Keeps src outRulePipe1 ∧ Keeps src outImport ∧ Keeps src outAlias ∧ Keeps src outProgramMore ∧
    Keeps src outProgramOne ∧ Keeps src outRuleDecl := by
  refine ⟨?_, ?_, ?_, ?_, ?_, ?_, ?_, ?_, ?_, ?_, ?_, ?_⟩
  · intro its ast sp ty hc h hs
    simp only [outIdentPath0, Option.bind_eq_bind, Option.bind_eq_some_iff] at h
    obtain ⟨a, h1, b, h2, h⟩ := h
    cases h
    exact .identPath hs (hc.between (by omega) h1 h2)
  · intro its ast sp ty hc h hs
    simp only [outIdentPath1, Option.bind_eq_bind, Option.bind_eq_some_iff] at h
    obtain ⟨a, h1, h⟩ := h
    cases h
    exact .identPath hs (hc.get h1).span
  · intro its ast sp ty hc h hs
    simp only [outEntryPoint, Option.bind_eq_bind, Option.bind_eq_some_iff] at h
    obtain ⟨a, h1, h⟩ := h
    cases h
    exact .entryPoint hs (hc.get h1)
  · intro o its ast sp ty hc h hs
    simp only [outRuleMore, Option.bind_eq_bind, Option.bind_eq_some_iff] at h
    obtain ⟨cb, h1, a, h2, vec, h3, b, h4, v, h5, h⟩ := h
    cases h
    obtain ⟨k1, k2⟩ := shown_rule (hc.get h2) h3
    refine .rule hs ?_ ?_
    · intro p hp
      rcases List.mem_append.mp hp with hp | hp
      · exact k1 p hp
      · rw [List.mem_singleton.mp hp]
        exact block_shown hc h1
    · intro p hp
      rcases List.mem_append.mp hp with hp | hp
      · exact k2 p hp
      · rw [List.mem_singleton.mp hp]
        exact shown_rulePipe (hc.get h4) h5
  · intro o its ast sp ty hc h hs
    simp only [outRuleOne, Option.bind_eq_bind, Option.bind_eq_some_iff] at h
    obtain ⟨cb, h1, a, h2, v, h3, h⟩ := h
    cases h
    refine .rule hs ?_ ?_
    · intro p hp
      rw [List.mem_singleton.mp hp]
      exact block_shown hc h1
    · intro p hp
      rw [List.mem_singleton.mp hp]
      exact shown_rulePipe (hc.get h2) h3
  · intro its ast sp ty hc h hs
    simp only [outRulePipe0, Option.bind_eq_bind, Option.bind_eq_some_iff] at h
    obtain ⟨a, h1, b, h2, v, h3, h⟩ := h
    cases h
    exact .rulePipe hs (shown_snoc (shown_rulePipe (hc.get h2) h3) (hc.get h1))
  · intro its ast sp ty hc h hs
    unfold outRulePipe1 at h
    split at h
    · cases h
      exact .rulePipe hs (fun g hg => hc.shown g (List.mem_of_mem_take hg))
    · cases h
  · intro its ast sp ty hc h hs
    simp only [outImport, Option.bind_eq_bind, Option.bind_eq_some_iff] at h
    obtain ⟨a, h1, b, h2, h⟩ := h
    cases h
    rw [List.getLast?_eq_getElem?] at h2
    have := (List.getElem?_eq_some_iff.mp h1).1
    exact .import_ hs (hc.between (by omega) h1 h2)
  · intro its ast sp ty hc h hs
    simp only [outAlias, Option.bind_eq_bind, Option.bind_eq_some_iff] at h
    obtain ⟨a, h1, b, h2, h⟩ := h
    cases h
    exact .alias hs (hc.get h1).span (hc.get h2).span
  · intro its ast sp ty hc h hs
    simp only [outProgramMore, Option.bind_eq_bind, Option.bind_eq_some_iff] at h
    obtain ⟨a, h1, b, h2, v, h3, h⟩ := h
    cases h
    exact .program hs (shown_snoc (shown_program (hc.get h2) h3) (hc.get h1))
  · intro its ast sp ty hc h hs
    unfold outProgramOne at h
    split at h
    · cases h
      exact .program hs (fun g hg => hc.shown g (List.mem_of_mem_take hg))
    · cases h
  · intro its ast sp ty hc h hs
    simp only [outRuleDecl, Option.bind_eq_bind, Option.bind_eq_some_iff] at h
    obtain ⟨a, h1, i, h2, b, h3, t, h4, c, h5, v, h6, h⟩ := h
    cases h
    obtain ⟨k1, k2⟩ := shown_rule (hc.get h5) h6
    exact .ruleDecl hs (shown_srcRef (hc.get h1) h2) (shown_srcRef (hc.get h3) h4) k1 k2

/-- All reductors of wop are framed, and keep spans in the source. -/
theorem red_keeps {A : Sym} {fs : List (List Gramem → Option (Meta Ast))}
    (h : outReducts.get? A = some fs) : ∀ f ∈ fs, ∃ g, f = framed g ∧ Keeps src g := by
  obtain ⟨s1, s2, s3, s4, s5, s6, s7, s8, s9, s10, s11, s12⟩ := keeps_others (src := src)
  cases A with
  | program =>
    rw [reducts_program] at h; cases h
    simp only [List.mem_cons, List.not_mem_nil, or_false]
    rintro f (rfl | rfl | rfl | rfl | rfl | rfl) <;> exact ⟨_, rfl, by first | exact s10 | exact s11⟩
  | ruleItem =>
    rw [reducts_ruleItem] at h; cases h
    simp only [List.mem_cons, List.not_mem_nil, or_false]
    intro f hf
    rcases hf with rfl | rfl | rfl | rfl | rfl | rfl | rfl | rfl | rfl | rfl | rfl | rfl | rfl | rfl | rfl | rfl | rfl | rfl <;>
      exact ⟨_, rfl, keeps_ruleItem _ _ _ _⟩
  | identPath =>
    rw [reducts_identPath] at h; cases h
    simp only [List.mem_cons, List.not_mem_nil, or_false]
    rintro f (rfl | rfl) <;> exact ⟨_, rfl, by first | exact s1 | exact s2⟩
  | entryPoint =>
    rw [reducts_entryPoint] at h; cases h
    simp only [List.mem_cons, List.not_mem_nil, or_false]
    rintro f rfl; exact ⟨_, rfl, s3⟩
  | rule =>
    rw [reducts_rule] at h; cases h
    simp only [List.mem_cons, List.not_mem_nil, or_false]
    rintro f (rfl | rfl | rfl | rfl) <;> exact ⟨_, rfl, by first | exact s4 _ | exact s5 _⟩
  | rulePipe =>
    rw [reducts_rulePipe] at h; cases h
    simp only [List.mem_cons, List.not_mem_nil, or_false]
    rintro f (rfl | rfl) <;> exact ⟨_, rfl, by first | exact s6 | exact s7⟩
  | import_ =>
    rw [reducts_import] at h; cases h
    simp only [List.mem_cons, List.not_mem_nil, or_false]
    rintro f (rfl | rfl) <;> exact ⟨_, rfl, s8⟩
  | alias =>
    rw [reducts_alias] at h; cases h
    simp only [List.mem_cons, List.not_mem_nil, or_false]
    rintro f (rfl | rfl) <;> exact ⟨_, rfl, s9⟩
  | ruleDecl =>
    rw [reducts_ruleDecl] at h; cases h
    simp only [List.mem_cons, List.not_mem_nil, or_false]
    rintro f rfl; exact ⟨_, rfl, s12⟩
  | _ =>
    have h' : (none : Option (List (List Gramem → Option (Meta Ast)))) = some fs := h
    cases h'

/-- The children of a node, if the claim holds for each. -/
theorem children {cs : List PTree} {its : List Gramem} (hl : Lexed src (Tree.yields cs))
    (h : Tree.evals red cs = some its)
    (ih : ∀ c ∈ cs, Lexed src c.yield → ∀ v, c.eval red = some v →
      cover c.yield = some v.span ∧ Shown src ⟨v, c.root⟩) :
    Children src its ∧ ∀ g ∈ its, ∃ ys, cover ys = some g.item.span ∧ ys.Sublist (Tree.yields cs) := by
  induction cs generalizing its with
  | nil =>
    rw [Tree.evals] at h
    cases h
    exact ⟨⟨by simp, .nil⟩, by simp⟩
  | cons c cs ihs =>
    rw [Tree.evals] at h
    rw [Tree.yields] at hl ⊢
    cases h1 : c.eval red with
    | none => rw [h1] at h; cases h
    | some v =>
      cases h2 : Tree.evals red cs with
      | none => rw [h1, h2] at h; cases h
      | some rest =>
        rw [h1, h2] at h
        cases h
        obtain ⟨k1, k2⟩ := ih c (by simp) hl.left v h1
        obtain ⟨hc, hy⟩ := ihs hl.right h2 (fun c' hc' => ih c' (List.mem_cons_of_mem _ hc'))
        refine ⟨⟨?_, ?_⟩, ?_⟩
        · intro g hg
          rcases List.mem_cons.mp hg with rfl | hg
          · exact k2
          · exact hc.shown g hg
        · refine List.pairwise_cons.mpr ⟨?_, hc.ordered⟩
          intro g hg
          obtain ⟨ys, e1, e2⟩ := hy g hg
          exact cover_le (hl.sublist (List.Sublist.append_left e2 _)) k1 e1
        · intro g hg
          rcases List.mem_cons.mp hg with rfl | hg
          · exact ⟨_, k1, List.sublist_append_left ..⟩
          · obtain ⟨ys, e1, e2⟩ := hy g hg
            exact ⟨ys, e1, e2.trans (List.sublist_append_right ..)⟩

theorem yield_sublist {cs : List PTree} {c : PTree} (hc : c ∈ cs) : c.yield.Sublist (Tree.yields cs) := by
  induction cs with
  | nil => cases hc
  | cons d cs ihs =>
    rw [Tree.yields]
    rcases List.mem_cons.mp hc with rfl | hc
    · exact List.sublist_append_left ..
    · exact (ihs hc).trans (List.sublist_append_right ..)

theorem evals_each {cs : List PTree} {its : List Gramem} (h : Tree.evals red cs = some its) :
    ∀ c ∈ cs, ∃ v, c.eval red = some v := by
  induction cs generalizing its with
  | nil => intro c hc; cases hc
  | cons d cs ihs =>
    rw [Tree.evals] at h
    cases e1 : d.eval red with
    | none => rw [e1] at h; cases h
    | some v =>
      cases e2 : Tree.evals red cs with
      | none => rw [e1, e2] at h; cases h
      | some rest =>
        intro c hc
        rcases List.mem_cons.mp hc with rfl | hc
        · exact ⟨v, e1⟩
        · exact ihs e2 c hc

/-- All spans in the value of a tree of lexed tokens lie in the source. -/
theorem shown_value {tr : PTree} (hv : Tree.Valid outRules tr) (hl : Lexed src tr.yield) {v : Meta Ast}
    (h : tr.eval red = some v) : cover tr.yield = some v.span ∧ Shown src ⟨v, tr.root⟩ := by
  induction hv generalizing v with
  | @leaf tok _ =>
    rw [Tree.eval] at h
    cases h
    rw [Tree.yield] at hl ⊢
    refine ⟨rfl, ?_⟩
    have h1 := (hl.plain tok (by simp)).1
    have h2 := hl.tok (t := tok) (by simp)
    obtain ⟨⟨ast, sp⟩, ty⟩ := tok
    simp only at h1
    subst h1
    exact .token h2
  | @node A i cs hp hcs ih =>
    rw [Tree.eval] at h
    obtain ⟨its, h1, h⟩ := Option.bind_eq_some_iff.mp h
    rw [Tree.yield] at hl ⊢
    have hlc : ∀ c ∈ cs, Lexed src c.yield := by
      intro c hc
      exact hl.sublist (yield_sublist hc)
    have hch := (children hl h1 (fun c hc hlc v hv => ih c hc hlc hv)).1
    unfold red redOf at h
    obtain ⟨fs, k1, h⟩ := Option.bind_eq_some_iff.mp h
    obtain ⟨f, k2, h⟩ := Option.bind_eq_some_iff.mp h
    obtain ⟨g, rfl, hk⟩ := red_keeps (src := src) k1 f (List.mem_of_getElem? k2)
    simp only [framed, Option.bind_eq_bind, Option.bind_eq_some_iff] at h
    obtain ⟨ast, m1, a, m2, b, m3, h⟩ := h
    cases h
    have hne : cs ≠ [] := by
      rintro rfl
      rw [Tree.evals] at h1
      cases h1
      cases m2
    have htight : ∀ c ∈ cs, Tight c := by
      intro c hc
      obtain ⟨v, hv⟩ := evals_each h1 c hc
      exact ⟨v, hv, (ih c hc (hlc c hc) hv).1⟩
    obtain ⟨a', b', n1, n2, n3⟩ := cover_children htight h1 hne
    rw [n1] at m2
    cases m2
    rw [n2] at m3
    cases m3
    exact ⟨n3, hk its ast _ A hch m1 (hl.cover n3)⟩

end

end Lrp.Wop
