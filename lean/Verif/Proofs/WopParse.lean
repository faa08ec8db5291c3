import Verif.Model.WopOut
import Verif.Proofs.Runs
import Verif.Proofs.WopSingle
import Verif.Spec.WopSyntax

/-! The trees of the grammar of wop (wop/src/out.rs): what they read and what their value is. -/

set_option linter.unusedSectionVars false

namespace Lrp.Wop
open Lrp.Wop.Spec Lrp.Spec

/-- Trees over the tokens of wop. -/
abbrev PTree := Tree (Meta Ast) Sym

/-- The value of a tree. -/
abbrev red : Sym → Nat → List Gramem → Option (Meta Ast) := redOf outReducts

/-! ### Productions -/

theorem isProd_out {A : Sym} {i : Nat} {b : List Sym} :
    IsProd outRules A i b ↔ ∃ bs, (A, bs) ∈ outRules ∧ bs[i]? = some b := by
  constructor
  · rintro ⟨bs, ⟨pre, post, e, _⟩, h⟩
    exact ⟨bs, by rw [e]; simp, h⟩
  · rintro ⟨bs, h, hb⟩
    have hn : (outRules.map Prod.fst).Nodup := by decide
    obtain ⟨pre, post, e⟩ := List.append_of_mem h
    refine ⟨bs, ⟨pre, post, e, ?_⟩, hb⟩
    intro d hd he
    rw [e] at hn
    simp only [List.map_append, List.map_cons, List.nodup_append, List.nodup_cons] at hn
    exact hn.2.1.1 (he ▸ List.mem_map_of_mem hd)

/-- The productions of a nonterminal. -/
def prodsOf (A : Sym) : List (List Sym) := (outRules.lookup A).getD []

theorem isProd_get {A : Sym} {i : Nat} {b : List Sym} :
    IsProd outRules A i b ↔ (prodsOf A)[i]? = some b := by
  have key : ∀ (D : List (Sym × List (List Sym))), (D.map Prod.fst).Nodup → ∀ A bs,
      (A, bs) ∈ D ↔ D.lookup A = some bs := by
    intro D
    induction D with
    | nil => simp
    | cons d D ih =>
      obtain ⟨B, cs⟩ := d
      intro hn A bs
      simp only [List.map_cons, List.nodup_cons] at hn
      rw [List.lookup_cons]
      by_cases e : A = B
      · subst e
        simp only [beq_self_eq_true, List.mem_cons, Prod.mk.injEq, true_and, Option.some.injEq]
        constructor
        · rintro (h | h)
          · exact h.symm
          · exact absurd (List.mem_map_of_mem (f := Prod.fst) h) hn.1
        · intro h
          exact .inl h.symm
      · have : (A == B) = false := by simp [e]
        rw [this]
        simp only [List.mem_cons, Prod.mk.injEq, e, false_and, false_or]
        exact ih hn.2 A bs
  rw [isProd_out]
  unfold prodsOf
  constructor
  · rintro ⟨bs, h1, h2⟩
    rw [(key _ (by decide) A bs).mp h1]
    exact h2
  · intro h
    cases hl : outRules.lookup A with
    | none => rw [hl] at h; simp at h
    | some bs =>
      rw [hl] at h
      exact ⟨bs, (key _ (by decide) A bs).mpr hl, h⟩

theorem leaf_of_terminal {tr : PTree} (hv : Tree.Valid outRules tr) (hT : Terminal outRules tr.root) :
    ∃ tok, tr = .leaf tok := by
  cases hv with
  | leaf _ => exact ⟨_, rfl⟩
  | @node A i cs hp _ =>
    obtain ⟨bs, h, _⟩ := isProd_out.mp hp
    exact absurd rfl (hT _ h)

/-! ### Values and spans -/

theorem cover_singleton (t : Gramem) : cover [t] = some t.item.span := rfl

theorem cover_append {a b : List Gramem} {s s' : Span} (ha : cover a = some s)
    (hb : cover b = some s') : cover (a ++ b) = some (Span.new s.start s'.stop) := by
  unfold cover at *
  cases a with
  | nil => simp at ha
  | cons x a =>
    cases hl : b.getLast? with
    | none => rw [hl] at hb; cases hh : b.head? <;> rw [hh] at hb <;> cases hb
    | some y =>
      have hbn : b ≠ [] := by intro e; subst e; cases hl
      obtain ⟨z, hz⟩ : ∃ z, b.head? = some z := by
        cases b with
        | nil => exact absurd rfl hbn
        | cons z _ => exact ⟨z, rfl⟩
      rw [hl, hz] at hb
      simp only [List.head?_cons, Option.some.injEq] at ha hb ⊢
      obtain ⟨w, hw⟩ : ∃ w, (x :: a).getLast? = some w := by
        cases h : (x :: a).getLast? with
        | none => simp at h
        | some w => exact ⟨w, rfl⟩
      rw [hw] at ha
      simp only [Option.some.injEq] at ha
      rw [List.getLast?_append, hl]
      simp only [List.cons_append, List.head?_cons, Option.some_or, Option.some.injEq]
      rw [← ha, ← hb]
      rfl

/-- The tree has a value, whose span is that of its tokens. -/
def Tight (tr : PTree) : Prop := ∃ v, tr.eval red = some v ∧ cover tr.yield = some v.span

theorem tight_leaf (t : Gramem) : Tight (.leaf t) := ⟨t.item, by rw [Tree.eval], by rw [Tree.yield]; rfl⟩

theorem evals_cons {c : PTree} {cs : List PTree} {v : Meta Ast} {its : List Gramem}
    (h : c.eval red = some v) (hs : Tree.evals red cs = some its) :
    Tree.evals red (c :: cs) = some (⟨v, c.root⟩ :: its) := by
  rw [Tree.evals, h, hs]

theorem evals_nil : Tree.evals red ([] : List PTree) = some [] := by rw [Tree.evals]

theorem eval_leaf (t : Gramem) : (Tree.leaf t : PTree).eval red = some t.item := by rw [Tree.eval]

/-- The span of the items a production is reduced from. -/
theorem cover_children {cs : List PTree} {its : List Gramem} (hc : ∀ c ∈ cs, Tight c)
    (h : Tree.evals red cs = some its) (hne : cs ≠ []) :
    ∃ a b, its[0]? = some a ∧ its.getLast? = some b ∧
      cover (Tree.yields cs) = some (Span.new a.item.span.start b.item.span.stop) := by
  induction cs generalizing its with
  | nil => exact absurd rfl hne
  | cons c cs ih =>
    obtain ⟨v, h1, h2⟩ := hc c (by simp)
    rw [Tree.evals, h1] at h
    cases hs : Tree.evals red cs with
    | none => rw [hs] at h; cases h
    | some rest =>
      rw [hs] at h
      simp only [Option.some.injEq] at h
      subst h
      cases cs with
      | nil =>
        rw [Tree.evals] at hs
        cases hs
        refine ⟨_, _, rfl, rfl, ?_⟩
        rw [Tree.yields_singleton]
        exact h2
      | cons c' cs =>
        obtain ⟨a, b, k1, k2, k3⟩ := ih (fun c hc' => hc c (List.mem_cons_of_mem _ hc')) hs (by simp)
        refine ⟨_, b, rfl, ?_, ?_⟩
        · cases rest with
          | nil => cases k1
          | cons r rest => rw [List.getLast?_cons_cons]; exact k2
        · rw [Tree.yields]
          exact (cover_append h2 k3 :)

/-- A node whose reductor is framed. -/
theorem eval_node {A : Sym} {i : Nat} {cs : List PTree} {its : List Gramem}
    {f : List Gramem → Option Ast} {ast : Ast} (hc : ∀ c ∈ cs, Tight c)
    (h : Tree.evals red cs = some its) (hne : cs ≠ [])
    (hr : red A i = framed f) (hf : f its = some ast) :
    ∃ sp, (Tree.node A i cs).eval red = some ⟨ast, sp⟩ ∧
      cover (Tree.node A i cs : PTree).yield = some sp := by
  obtain ⟨a, b, h1, h2, h3⟩ := cover_children hc h hne
  refine ⟨Span.new a.item.span.start b.item.span.stop, ?_, ?_⟩
  · rw [Tree.eval, h, Option.bind_some, hr, framed, hf]
    simp only [Option.bind_eq_bind, Option.bind_some, h1, h2]
    rfl
  · rw [Tree.yield]
    exact h3

/-! ### Reductors of the productions -/

theorem red_eq {A : Sym} {fs : List (List Gramem → Option (Meta Ast))}
    (h : outReducts.get? A = some fs) {i : Nat} {f : List Gramem → Option (Meta Ast)}
    (hf : fs[i]? = some f) : red A i = f := by
  funext its
  unfold red redOf
  rw [h, Option.bind_some, hf]
  rfl

/-! ### Shapes of the syntax trees -/

theorem itemsOf_nil : itemsOf [] = some [] := by rw [itemsOf]

theorem itemsOf_append {a b : List Gramem} {is js : List Item} (ha : itemsOf a = some is)
    (hb : itemsOf b = some js) : itemsOf (a ++ b) = some (is ++ js) := by
  induction a generalizing is with
  | nil =>
    rw [itemsOf_nil] at ha
    cases ha
    exact hb
  | cons g a ih =>
    rcases itemsOf_cons ha with ⟨inner, sp, ty, opt, al, clone, gsp, gty, is', rfl, hty, his, rfl⟩ |
      ⟨v, vs, sp, opt, al, clone, gsp, gty, alts, is', rfl, halts, his, rfl⟩
    · have := ih his
      rw [List.cons_append]
      cases inner with
      | rule vs =>
        cases vs with
        | nil => rw [itemsOf, if_pos hty, this] <;> simp
        | cons v vs => rw [itemsOf, if_pos hty, this]; simp
      | _ => rw [itemsOf, if_pos hty, this] <;> simp
    · have := ih his
      rw [List.cons_append, itemsOf, if_neg (by decide), if_pos rfl, halts, this]
      rfl

theorem blocksOf_append (a b : List Gramem) : blocksOf (a ++ b) = blocksOf a ++ blocksOf b := by
  induction a with
  | nil => rw [List.nil_append, blocksOf, List.nil_append]
  | cons g a ih =>
    by_cases h : ∃ vs sp opt al clone gsp gty,
        g = ⟨⟨.ruleItem ⟨⟨.rule vs, sp⟩, .rule⟩ opt al clone, gsp⟩, gty⟩
    · obtain ⟨vs, sp, opt, al, clone, gsp, gty, rfl⟩ := h
      rw [List.cons_append, blocksOf_group, blocksOf_group, ih, List.append_assoc]
    · have hn : ∀ vs sp opt al clone gsp gty,
          g = ⟨⟨.ruleItem ⟨⟨.rule vs, sp⟩, .rule⟩ opt al clone, gsp⟩, gty⟩ → False :=
        fun _ _ _ _ _ _ _ e => h ⟨_, _, _, _, _, _, _, e⟩
      rw [List.cons_append, blocksOf, blocksOf, ih]
      · exact hn
      · exact hn

theorem ruleOf_append {a b : List RulePipe} {as bs : List Alt} (ha : ruleOf a = some as)
    (hb : ruleOf b = some bs) : ruleOf (a ++ b) = some (as ++ bs) := by
  induction a generalizing as with
  | nil => cases ha; exact hb
  | cons p a ih =>
    obtain ⟨pipe, block⟩ := p
    rw [ruleOf] at ha
    split at ha
    · rename_i items alts h1 h2
      cases ha
      rw [List.cons_append, ruleOf, h1, ih h2]
      rfl
    · cases ha

theorem ruleOf_alts : ∀ {rule : List RulePipe} {alts : List Alt}, ruleOf rule = some alts →
    altsOf rule = some (alts.map Alt.items) ∧
      altBlocks rule = alts.flatMap (fun a => a.block :: a.inner)
  | [], alts, h => by
    cases h
    rw [altsOf, altBlocks]
    exact ⟨rfl, rfl⟩
  | (pipe, block) :: rest, alts, h => by
    rw [ruleOf] at h
    split at h
    · rename_i items alts' h1 h2
      cases h
      obtain ⟨k1, k2⟩ := ruleOf_alts h2
      rw [altsOf, altBlocks, h1, k1, k2]
      simp
    · cases h

theorem declsOf_append {a b : List Gramem} {ds es : List Decl} (ha : declsOf a = some ds)
    (hb : declsOf b = some es) : declsOf (a ++ b) = some (ds ++ es) := by
  induction a generalizing ds with
  | nil => cases ha; exact hb
  | cons g a ih =>
    rw [declsOf] at ha
    cases hr : declsOf a with
    | none => rw [hr] at ha; cases ha
    | some rs =>
      rw [hr] at ha
      simp only at ha
      rw [List.cons_append, declsOf, ih hr]
      simp only
      cases hg : g.item.item with
      | ruleDecl ident ty rule =>
        rw [hg] at ha
        simp only at ha
        cases hru : ruleOf rule with
        | none => rw [hru] at ha; cases ha
        | some alts =>
          rw [hru] at ha
          simp only at ha ⊢
          cases ha
          rw [hru]
          rfl
      | import_ p => rw [hg] at ha; simp only at ha ⊢; cases ha; rfl
      | alias p q => rw [hg] at ha; simp only at ha ⊢; cases ha; rfl
      | _ => rw [hg] at ha; simp at ha

theorem cloning_append (a b : List Item) : cloning (a ++ b) = cloning a ++ cloning b := by
  induction a with
  | nil => rw [List.nil_append, cloning, List.nil_append]
  | cons i a ih => rw [List.cons_append, cloning, cloning, ih, List.cons_append]

theorem altCloning_map (alts : List (List Item)) : altCloning alts = alts.map cloning := by
  induction alts with
  | nil => rw [altCloning]; rfl
  | cons a as ih => rw [altCloning, ih]; rfl

/-! ### Trees and what they read -/

structure GoodPath (tr : PTree) (sp : Span) : Prop where
  valid : Tree.Valid outRules tr
  root : tr.root = .identPath
  reads : ReadsPath tr.yield sp
  value : tr.eval red = some ⟨.identPath sp, sp⟩
  cover : cover tr.yield = some sp

structure GoodItem (tr : PTree) (it : Item) (bs : List Span) : Prop where
  valid : Tree.Valid outRules tr
  root : tr.root = .ruleItem
  reads : ReadsItem tr.yield it bs
  value : ∃ v, tr.eval red = some v ∧ cover tr.yield = some v.span ∧
    itemsOf [⟨v, .ruleItem⟩] = some [it.cloning] ∧ blocksOf [⟨v, .ruleItem⟩] = bs

structure GoodItems (tr : PTree) (is : List Item) (bs : List Span) : Prop where
  valid : Tree.Valid outRules tr
  root : tr.root = .rulePipe
  reads : ReadsItems tr.yield is bs
  value : ∃ gs sp, tr.eval red = some ⟨.rulePipe gs, sp⟩ ∧ cover tr.yield = some sp ∧
    itemsOf gs = some (cloning is) ∧ blocksOf gs = bs

structure GoodRule (tr : PTree) (alts : List Alt) : Prop where
  valid : Tree.Valid outRules tr
  root : tr.root = .rule
  reads : ReadsRule tr.yield alts
  value : ∃ pipes sp, tr.eval red = some ⟨.rule pipes, sp⟩ ∧ cover tr.yield = some sp ∧
    ruleOf pipes = some (alts.map Alt.cloning) ∧ pipes ≠ []

structure GoodDecl (tr : PTree) (d : Decl) : Prop where
  valid : Tree.Valid outRules tr
  root : tr.root = .ruleDecl ∨ tr.root = .import_ ∨ tr.root = .alias
  reads : ReadsDecl tr.yield d
  value : ∃ v, tr.eval red = some v ∧ cover tr.yield = some v.span ∧
    declsOf [⟨v, tr.root⟩] = some [d.cloning]

structure GoodProgram (tr : PTree) (ds : List Decl) : Prop where
  valid : Tree.Valid outRules tr
  root : tr.root = .program
  reads : ReadsProgram tr.yield ds
  value : ∃ gs sp, tr.eval red = some ⟨.program gs, sp⟩ ∧ cover tr.yield = some sp ∧
    declsOf gs = some (ds.map Decl.cloning)

theorem GoodPath.tight {tr : PTree} {sp : Span} (h : GoodPath tr sp) : Tight tr :=
  ⟨_, h.value, h.cover⟩

theorem GoodItem.tight {tr : PTree} {i : Item} {bs : List Span} (h : GoodItem tr i bs) : Tight tr := by
  obtain ⟨v, h1, h2, _⟩ := h.value
  exact ⟨v, h1, h2⟩

theorem GoodItems.tight {tr : PTree} {i : List Item} {bs : List Span} (h : GoodItems tr i bs) :
    Tight tr := by
  obtain ⟨v, sp, h1, h2, _⟩ := h.value
  exact ⟨_, h1, h2⟩

theorem GoodRule.tight {tr : PTree} {alts : List Alt} (h : GoodRule tr alts) : Tight tr := by
  obtain ⟨v, sp, h1, h2, _⟩ := h.value
  exact ⟨_, h1, h2⟩

theorem GoodDecl.tight {tr : PTree} {d : Decl} (h : GoodDecl tr d) : Tight tr := by
  obtain ⟨v, h1, h2, _⟩ := h.value
  exact ⟨_, h1, h2⟩

theorem GoodProgram.tight {tr : PTree} {ds : List Decl} (h : GoodProgram tr ds) : Tight tr := by
  obtain ⟨v, sp, h1, h2, _⟩ := h.value
  exact ⟨_, h1, h2⟩

/-- A leaf of the given symbol. -/
structure Leaf (tr : PTree) (t : Gramem) (s : Sym) : Prop where
  eq : tr = .leaf t
  ty : t.ty = s

theorem valid_leaf {t : Gramem} {s : Sym} (h : t.ty = s) (hs : Terminal outRules s) :
    Tree.Valid outRules (.leaf t : PTree) := .leaf (h ▸ hs)

theorem valid_node {A : Sym} {i : Nat} {cs : List PTree} (hp : (prodsOf A)[i]? = some (cs.map Tree.root))
    (hc : ∀ c ∈ cs, Tree.Valid outRules c) : Tree.Valid outRules (.node A i cs) :=
  .node (isProd_get.mpr hp) hc

theorem reducts_identPath : outReducts.get? .identPath =
    some [framed outIdentPath0, framed outIdentPath1] := rfl

/-! Paths. -/

theorem root_leaf (t : Gramem) : (Tree.leaf t : PTree).root = t.ty := rfl

theorem tights_cons {a : PTree} {cs : List PTree} (ha : Tight a) (hs : ∀ c ∈ cs, Tight c) :
    ∀ c ∈ a :: cs, Tight c := by
  intro c hc
  rcases List.mem_cons.mp hc with rfl | hc
  · exact ha
  · exact hs c hc

theorem valids_nil : ∀ c ∈ ([] : List PTree), Tree.Valid outRules c := by simp

theorem tights_nil : ∀ c ∈ ([] : List PTree), Tight c := by simp

theorem valids_cons {a : PTree} {cs : List PTree} (ha : Tree.Valid outRules a)
    (hs : ∀ c ∈ cs, Tree.Valid outRules c) : ∀ c ∈ a :: cs, Tree.Valid outRules c := by
  intro c hc
  rcases List.mem_cons.mp hc with rfl | hc
  · exact ha
  · exact hs c hc

theorem goodPath_one {t : Gramem} (h : t.ty = .ident) :
    GoodPath (.node .identPath 1 [.leaf t]) t.item.span := by
  obtain ⟨sp, h1, h2⟩ := eval_node (A := .identPath) (i := 1) (cs := [.leaf t])
    (f := outIdentPath1) (tights_cons (tight_leaf t) tights_nil)
    (evals_cons (eval_leaf t) evals_nil) (by simp) (red_eq reducts_identPath rfl) rfl
  have hsp : sp = t.item.span := by
    rw [Tree.yield, Tree.yields_singleton, Tree.yield, cover_singleton] at h2
    exact (Option.some.inj h2).symm
  subst hsp
  refine ⟨valid_node (by simp [root_leaf, h]; rfl)
    (valids_cons (valid_leaf h (by unfold Terminal; decide)) valids_nil), rfl, ?_, h1, h2⟩
  rw [Tree.yield, Tree.yields_singleton, Tree.yield]
  exact .one h

theorem goodPath_more {p : PTree} {sp : Span} {c i : Gramem} (hp : GoodPath p sp)
    (hc : c.ty = .pathAccess) (hi : i.ty = .ident) :
    GoodPath (.node .identPath 0 [p, .leaf c, .leaf i]) (Span.new sp.start i.item.span.stop) := by
  obtain ⟨sp', h1, h2⟩ := eval_node (A := .identPath) (i := 0) (cs := [p, .leaf c, .leaf i])
    (f := outIdentPath0)
    (tights_cons hp.tight (tights_cons (tight_leaf c) (tights_cons (tight_leaf i) tights_nil)))
    (evals_cons hp.value (evals_cons (eval_leaf c) (evals_cons (eval_leaf i) evals_nil))) (by simp)
    (red_eq reducts_identPath rfl) rfl
  have hy : (Tree.node .identPath 0 [p, .leaf c, .leaf i] : PTree).yield = p.yield ++ [c, i] := by
    simp [Tree.yield, Tree.yields]
  have hsp : sp' = Span.new sp.start i.item.span.stop := by
    rw [hy, cover_append hp.cover (s' := Span.new c.item.span.start i.item.span.stop) rfl] at h2
    exact (Option.some.inj h2).symm
  subst hsp
  refine ⟨valid_node (by simp [root_leaf, hp.root, hc, hi]; rfl)
    (valids_cons hp.valid (valids_cons (valid_leaf hc (by unfold Terminal; decide))
      (valids_cons (valid_leaf hi (by unfold Terminal; decide)) valids_nil))), rfl, ?_, h1, h2⟩
  rw [hy]
  exact .more hp.reads hc hi

/-! Items. -/

theorem reducts_ruleItem : outReducts.get? .ruleItem =
    some [framed (outRuleItem 0 (some 1) (some 3) (some 4)),
        framed (outRuleItem 0 (some 1) (some 3) (some 3)),
        framed (outRuleItem 0 (some 1) none none),
        framed (outRuleItem 0 none (some 2) (some 3)),
        framed (outRuleItem 0 none (some 2) (some 2)),
        framed (outRuleItem 0 none none none),
        framed (outRuleItem 0 (some 1) (some 3) (some 4)),
        framed (outRuleItem 0 (some 1) (some 3) (some 3)),
        framed (outRuleItem 0 (some 1) none none),
        framed (outRuleItem 0 none (some 2) (some 3)),
        framed (outRuleItem 0 none (some 2) (some 2)),
        framed (outRuleItem 0 none none none),
        framed (outRuleItem 1 (some 3) (some 5) (some 6)),
        framed (outRuleItem 1 (some 3) (some 5) (some 5)),
        framed (outRuleItem 1 (some 3) none none),
        framed (outRuleItem 1 none (some 4) (some 5)),
        framed (outRuleItem 1 none (some 4) (some 4)),
        framed (outRuleItem 1 none none none)] := rfl

/-- The number of the production of an item with the given marks. -/
def itemIdx (base : Nat) (opt : Bool) (alias : Option Span) (clone : Bool) : Nat :=
  base + (if opt then 0 else 3) + (if clone then 0 else if alias.isSome then 1 else 2)

theorem goodItem_of {cs : List PTree} {its : List Gramem} {i : Nat} {f : List Gramem → Option Ast}
    {inner : Gramem} {opt : Bool} {alias : Option Span} {it : Item} {bs : List Span}
    (hc : ∀ c ∈ cs, Tight c) (hv : ∀ c ∈ cs, Tree.Valid outRules c)
    (hp : (prodsOf .ruleItem)[i]? = some (cs.map Tree.root)) (hne : cs ≠ [])
    (hev : Tree.evals red cs = some its) (hr : red .ruleItem i = framed f)
    (hf : f its = some (.ruleItem inner opt alias alias.isSome)) (hrd : ReadsItem (Tree.yields cs) it bs)
    (hit : ∀ sp, itemsOf [⟨⟨.ruleItem inner opt alias alias.isSome, sp⟩, .ruleItem⟩] =
      some [it.cloning] ∧
      blocksOf [⟨⟨.ruleItem inner opt alias alias.isSome, sp⟩, .ruleItem⟩] = bs) :
    GoodItem (.node .ruleItem i cs) it bs := by
  obtain ⟨sp, h1, h2⟩ := eval_node hc hev hne hr hf
  exact ⟨valid_node hp hv, rfl, by rw [Tree.yield]; exact hrd,
    ⟨_, h1, h2, (hit sp).1, (hit sp).2⟩⟩

theorem itemsOf_plain (inner : Ast) (isp : Span) {ty : Sym} (opt : Bool) (al : Option Span)
    (hty : ty = .strLit ∨ ty = .identPath) (clone : Bool) (sp : Span) :
    itemsOf [⟨⟨.ruleItem ⟨⟨inner, isp⟩, ty⟩ opt al al.isSome, sp⟩, .ruleItem⟩] =
      some [(Item.sym isp opt al clone).cloning] ∧
    blocksOf [⟨⟨.ruleItem ⟨⟨inner, isp⟩, ty⟩ opt al al.isSome, sp⟩, .ruleItem⟩] = [] := by
  refine ⟨?_, ?_⟩
  · rw [Item.cloning]
    cases inner with
    | rule vs =>
      cases vs with
      | nil => rw [itemsOf, if_pos hty, itemsOf_nil]; simp
      | cons v vs => rw [itemsOf, if_pos hty, itemsOf_nil]
    | _ => rw [itemsOf, if_pos hty, itemsOf_nil]; simp
  · rw [blocksOf_plain _ _ _ _ _ _ _ _ hty, blocksOf]

theorem itemsOf_group {pipes : List RulePipe} {alts : List Alt}
    (h : ruleOf pipes = some (alts.map Alt.cloning)) (hne : pipes ≠ []) (isp : Span) (opt : Bool)
    (al : Option Span) (clone : Bool) (sp : Span) :
    itemsOf [⟨⟨.ruleItem ⟨⟨.rule pipes, isp⟩, .rule⟩ opt al al.isSome, sp⟩, .ruleItem⟩] =
      some [(Item.group (alts.map Alt.items) opt al clone).cloning] ∧
    blocksOf [⟨⟨.ruleItem ⟨⟨.rule pipes, isp⟩, .rule⟩ opt al al.isSome, sp⟩, .ruleItem⟩] =
      alts.flatMap (fun a => a.block :: a.inner) := by
  obtain ⟨h1, h2⟩ := ruleOf_alts h
  refine ⟨?_, ?_⟩
  · rw [Item.cloning, altCloning_map]
    cases pipes with
    | nil => exact absurd rfl hne
    | cons v vs =>
      rw [itemsOf, if_neg (by decide), if_pos rfl, itemsOf_nil, h1]
      simp [Alt.cloning, Function.comp_def]
  · rw [blocksOf_group, blocksOf, h2, List.append_nil]
    simp [List.flatMap_map, Alt.cloning]

/-- The marks of an item as leaves. -/
def leaves (ts : List Gramem) : List PTree := ts.map Tree.leaf

theorem leaves_tight (ts : List Gramem) : ∀ c ∈ leaves ts, Tight c := by
  intro c hc
  obtain ⟨t, _, rfl⟩ := List.mem_map.mp hc
  exact tight_leaf t

theorem leaves_evals (ts : List Gramem) : Tree.evals red (leaves ts) = some ts := by
  induction ts with
  | nil => exact evals_nil
  | cons t ts ih => exact evals_cons (eval_leaf t) ih

theorem leaves_yields (ts : List Gramem) : Tree.yields (leaves ts) = ts := by
  induction ts with
  | nil => rw [leaves, List.map_nil, Tree.yields]
  | cons t ts ih => rw [leaves, List.map_cons, Tree.yields, Tree.yield, ← leaves, ih]; rfl

theorem leaves_root (ts : List Gramem) : (leaves ts).map Tree.root = ts.map Token.ty := by
  simp [leaves, Function.comp_def, root_leaf]

theorem leaves_valid {ts : List Gramem} (h : ∀ t ∈ ts, Terminal outRules t.ty) :
    ∀ c ∈ leaves ts, Tree.Valid outRules c := by
  intro c hc
  obtain ⟨t, ht, rfl⟩ := List.mem_map.mp hc
  exact .leaf (h t ht)

theorem opt_terminal {os : List Gramem} {opt : Bool} (h : ReadsOpt os opt) :
    ∀ t ∈ os, Terminal outRules t.ty := by
  cases h with
  | no => simp
  | yes h => 
    intro t ht
    rw [List.mem_singleton.mp ht, h]
    unfold Terminal
    decide

theorem alias_terminal {as : List Gramem} {al : Option Span} {cl : Bool} (h : ReadsAlias as al cl) :
    ∀ t ∈ as, Terminal outRules t.ty := by
  have key : ∀ s, s = Sym.twoDots ∨ s = .ident ∨ s = .clone → Terminal outRules s := by
    rintro s (rfl | rfl | rfl) <;> unfold Terminal <;> decide
  cases h with
  | none => simp
  | ref h1 h2 =>
    intro t ht
    simp only [List.mem_cons, List.not_mem_nil, or_false] at ht
    rcases ht with rfl | rfl <;> exact key _ (by simp [*])
  | clone h1 h2 h3 =>
    intro t ht
    simp only [List.mem_cons, List.not_mem_nil, or_false] at ht
    rcases ht with rfl | rfl | rfl <;> exact key _ (by simp [*])

theorem marks_valid {os as : List Gramem} {opt clone : Bool} {alias : Option Span}
    (ho : ReadsOpt os opt) (ha : ReadsAlias as alias clone) :
    ∀ c ∈ leaves (os ++ as), Tree.Valid outRules c :=
  leaves_valid (fun t ht => (List.mem_append.mp ht).elim (opt_terminal ho t) (alias_terminal ha t))

theorem goodItem_path {p : PTree} {sp : Span} {os as : List Gramem} {opt clone : Bool}
    {alias : Option Span} (hp : GoodPath p sp) (ho : ReadsOpt os opt)
    (ha : ReadsAlias as alias clone) :
    GoodItem (.node .ruleItem (itemIdx 0 opt alias clone) (p :: leaves (os ++ as)))
      (.sym sp opt alias clone) [] := by
  have hrd := ReadsItem.path hp.reads ho ha
  have hit := itemsOf_plain (.identPath sp) sp opt alias (.inr rfl) clone
  have hvs := marks_valid ho ha
  have hy : Tree.yields (p :: leaves (os ++ as)) = p.yield ++ os ++ as := by
    rw [Tree.yields, leaves_yields, List.append_assoc]
  rw [← hy] at hrd
  cases ho <;> cases ha <;>
    exact goodItem_of (inner := ⟨⟨.identPath sp, sp⟩, .identPath⟩)
      (tights_cons hp.tight (leaves_tight _)) (valids_cons hp.valid hvs)
      (by rw [List.map_cons, leaves_root]; simp [*, hp.root]; rfl) (by simp)
      (evals_cons hp.value (leaves_evals _))
      (red_eq reducts_ruleItem rfl) (by rw [hp.root]; rfl) hrd hit

theorem goodItem_lit {t : Gramem} {os as : List Gramem} {opt clone : Bool}
    {alias : Option Span} (ht : t.ty = .strLit) (ho : ReadsOpt os opt)
    (ha : ReadsAlias as alias clone) :
    GoodItem (.node .ruleItem (itemIdx 6 opt alias clone) (.leaf t :: leaves (os ++ as)))
      (.sym t.item.span opt alias clone) [] := by
  have hrd := ReadsItem.lit ht ho ha
  have hit := itemsOf_plain t.item.item t.item.span opt alias (.inl ht) clone
  have hvs := marks_valid ho ha
  have hy : Tree.yields (.leaf t :: leaves (os ++ as)) = [t] ++ os ++ as := by
    rw [Tree.yields, leaves_yields, List.append_assoc, Tree.yield]
  rw [← hy] at hrd
  cases ho <;> cases ha <;>
    exact goodItem_of (inner := t)
      (tights_cons (tight_leaf t) (leaves_tight _))
      (valids_cons (valid_leaf ht (by unfold Terminal; decide)) hvs)
      (by rw [List.map_cons, leaves_root]; simp [*, root_leaf]; rfl) (by simp)
      (evals_cons (eval_leaf t) (leaves_evals _))
      (red_eq reducts_ruleItem rfl) rfl hrd hit

theorem goodItem_group {r : PTree} {alts : List Alt} {o c : Gramem} {os as : List Gramem}
    {opt clone : Bool} {alias : Option Span} (h1 : o.ty = .openParen) (hr : GoodRule r alts)
    (h2 : c.ty = .closeParen) (ho : ReadsOpt os opt) (ha : ReadsAlias as alias clone) :
    GoodItem (.node .ruleItem (itemIdx 12 opt alias clone)
      (.leaf o :: r :: .leaf c :: leaves (os ++ as)))
      (.group (alts.map Alt.items) opt alias clone)
      (alts.flatMap (fun a => a.block :: a.inner)) := by
  have hrd := ReadsItem.group h1 hr.reads h2 ho ha
  obtain ⟨pipes, sp, e1, e2, e3, e4⟩ := hr.value
  have hit := itemsOf_group e3 e4 sp opt alias clone
  have hvs := marks_valid ho ha
  have hy : Tree.yields (.leaf o :: r :: .leaf c :: leaves (os ++ as)) =
      (o :: r.yield ++ [c]) ++ os ++ as := by
    simp [Tree.yields, leaves_yields, Tree.yield]
  rw [← hy] at hrd
  cases ho <;> cases ha <;>
    exact goodItem_of (inner := ⟨⟨.rule pipes, sp⟩, .rule⟩)
      (tights_cons (tight_leaf o) (tights_cons hr.tight (tights_cons (tight_leaf c) (leaves_tight _))))
      (valids_cons (valid_leaf h1 (by unfold Terminal; decide)) (valids_cons hr.valid
        (valids_cons (valid_leaf h2 (by unfold Terminal; decide)) hvs)))
      (by simp only [List.map_cons, leaves_root]; simp [*, root_leaf, hr.root]; rfl) (by simp)
      (evals_cons (eval_leaf o) (evals_cons e1 (evals_cons (eval_leaf c) (leaves_evals _))))
      (red_eq reducts_ruleItem rfl) (by rw [hr.root]; rfl) hrd hit

/-! Lists of items. -/

theorem reducts_rulePipe : outReducts.get? .rulePipe =
    some [framed outRulePipe0, framed outRulePipe1] := rfl

theorem goodItems_one {i : PTree} {it : Item} {bs : List Span} (hi : GoodItem i it bs) :
    GoodItems (.node .rulePipe 1 [i]) [it] bs := by
  obtain ⟨v, h1, h2, h3, h4⟩ := hi.value
  obtain ⟨sp, k1, k2⟩ := eval_node (A := .rulePipe) (i := 1) (cs := [i]) (f := outRulePipe1)
    (tights_cons hi.tight tights_nil) (evals_cons h1 evals_nil) (by simp)
    (red_eq reducts_rulePipe rfl) rfl
  refine ⟨valid_node (by simp [hi.root]; rfl) (valids_cons hi.valid valids_nil), rfl, ?_,
    _, sp, k1, k2, ?_, ?_⟩
  · rw [Tree.yield, Tree.yields_singleton]
    exact .one hi.reads
  · rw [hi.root]
    rw [cloning, cloning]
    exact h3
  · rw [hi.root]
    exact h4

theorem goodItems_more {p i : PTree} {is : List Item} {it : Item} {bs cs : List Span}
    (hp : GoodItems p is bs) (hi : GoodItem i it cs) :
    GoodItems (.node .rulePipe 0 [p, i]) (is ++ [it]) (bs ++ cs) := by
  obtain ⟨v, h1, h2, h3, h4⟩ := hi.value
  obtain ⟨gs, psp, p1, p2, p3, p4⟩ := hp.value
  obtain ⟨sp, k1, k2⟩ := eval_node (A := .rulePipe) (i := 0) (cs := [p, i]) (f := outRulePipe0)
    (tights_cons hp.tight (tights_cons hi.tight tights_nil))
    (evals_cons p1 (evals_cons h1 evals_nil)) (by simp) (red_eq reducts_rulePipe rfl) rfl
  refine ⟨valid_node (by simp [hi.root, hp.root]; rfl)
    (valids_cons hp.valid (valids_cons hi.valid valids_nil)), rfl, ?_, _, sp, k1, k2, ?_, ?_⟩
  · simp only [Tree.yield, Tree.yields, List.append_nil]
    exact .more hp.reads hi.reads
  · rw [cloning_append, hi.root]
    refine itemsOf_append p3 ?_
    rw [cloning, cloning]
    exact h3
  · rw [blocksOf_append, p4, hi.root, h4]

/-! Alternatives. -/

theorem reducts_rule : outReducts.get? .rule =
    some [framed (outRuleMore (some 3)), framed (outRuleMore none),
        framed (outRuleOne (some 1)), framed (outRuleOne none)] := rfl

theorem goodRule_one {p : PTree} {is : List Item} {bs : List Span} {us : List Gramem} {b : Span}
    (hp : GoodItems p is bs) (hb : ReadsBlock us b) :
    GoodRule (.node .rule (if us = [] then 3 else 2) (p :: leaves us)) [⟨is, b, bs⟩] := by
  obtain ⟨gs, psp, p1, p2, p3, p4⟩ := hp.value
  have hrd := ReadsRule.one hp.reads hb
  have hy : Tree.yields (p :: leaves us) = p.yield ++ us := by rw [Tree.yields, leaves_yields]
  have hru : ruleOf [(gs, b)] = some (([⟨is, b, bs⟩] : List Alt).map Alt.cloning) := by
    simp only [ruleOf, p3, p4]
    rfl
  cases hb with
  | none =>
    obtain ⟨sp, k1, k2⟩ := eval_node (A := .rule) (i := 3) (cs := [p]) (f := outRuleOne none)
      (tights_cons hp.tight tights_nil) (evals_cons p1 evals_nil) (by simp)
      (red_eq reducts_rule rfl) rfl
    exact ⟨valid_node (by simp [hp.root, leaves]; rfl) (valids_cons hp.valid valids_nil), rfl,
      by rw [Tree.yield, hy]; exact hrd, _, sp, k1, k2, hru, by simp⟩
  | @some t ht =>
    obtain ⟨sp, k1, k2⟩ := eval_node (A := .rule) (i := 2) (cs := [p, .leaf t])
      (f := outRuleOne (some 1)) (tights_cons hp.tight (tights_cons (tight_leaf t) tights_nil))
      (evals_cons p1 (evals_cons (eval_leaf t) evals_nil)) (by simp) (red_eq reducts_rule rfl) rfl
    exact ⟨valid_node (by simp [hp.root, leaves, root_leaf, ht]; rfl)
      (valids_cons hp.valid (valids_cons (valid_leaf ht (by unfold Terminal; decide)) valids_nil)), rfl,
      by rw [Tree.yield, hy]; exact hrd, _, sp, k1, k2, hru, by simp⟩

theorem goodRule_more {r p : PTree} {alts : List Alt} {is : List Item} {bs : List Span} {q : Gramem}
    {us : List Gramem} {b : Span} (hr : GoodRule r alts) (hq : q.ty = .pipe)
    (hp : GoodItems p is bs) (hb : ReadsBlock us b) :
    GoodRule (.node .rule (if us = [] then 1 else 0) (r :: .leaf q :: p :: leaves us))
      (alts ++ [⟨is, b, bs⟩]) := by
  obtain ⟨gs, psp, p1, p2, p3, p4⟩ := hp.value
  obtain ⟨pipes, rsp, r1, r2, r3, r4⟩ := hr.value
  have hrd := ReadsRule.more hr.reads hq hp.reads hb
  have hy : Tree.yields (r :: .leaf q :: p :: leaves us) = r.yield ++ (q :: p.yield) ++ us := by
    simp [Tree.yields, leaves_yields, Tree.yield]
  have hru : ruleOf (pipes ++ [(gs, b)]) = some ((alts ++ ([⟨is, b, bs⟩] : List Alt)).map Alt.cloning) := by
    rw [List.map_append]
    refine ruleOf_append r3 ?_
    simp only [ruleOf, p3, p4]
    rfl
  cases hb with
  | none =>
    obtain ⟨sp, k1, k2⟩ := eval_node (A := .rule) (i := 1) (cs := [r, .leaf q, p])
      (f := outRuleMore none)
      (tights_cons hr.tight (tights_cons (tight_leaf q) (tights_cons hp.tight tights_nil)))
      (evals_cons r1 (evals_cons (eval_leaf q) (evals_cons p1 evals_nil))) (by simp)
      (red_eq reducts_rule rfl) rfl
    exact ⟨valid_node (by simp [hp.root, hr.root, root_leaf, hq, leaves]; rfl)
      (valids_cons hr.valid (valids_cons (valid_leaf hq (by unfold Terminal; decide))
        (valids_cons hp.valid valids_nil))), rfl,
      by rw [Tree.yield, hy]; exact hrd, _, sp, k1, k2, hru, by simp⟩
  | @some t ht =>
    obtain ⟨sp, k1, k2⟩ := eval_node (A := .rule) (i := 0) (cs := [r, .leaf q, p, .leaf t])
      (f := outRuleMore (some 3))
      (tights_cons hr.tight (tights_cons (tight_leaf q) (tights_cons hp.tight
        (tights_cons (tight_leaf t) tights_nil))))
      (evals_cons r1 (evals_cons (eval_leaf q) (evals_cons p1 (evals_cons (eval_leaf t) evals_nil))))
      (by simp) (red_eq reducts_rule rfl) rfl
    exact ⟨valid_node (by simp [hp.root, hr.root, root_leaf, hq, ht, leaves]; rfl)
      (valids_cons hr.valid (valids_cons (valid_leaf hq (by unfold Terminal; decide))
        (valids_cons hp.valid (valids_cons (valid_leaf ht (by unfold Terminal; decide)) valids_nil)))),
      rfl, by rw [Tree.yield, hy]; exact hrd, _, sp, k1, k2, hru, by simp⟩

/-! Declarations. -/

theorem reducts_import : outReducts.get? .import_ = some [framed outImport, framed outImport] := rfl

theorem reducts_alias : outReducts.get? .alias = some [framed outAlias, framed outAlias] := rfl

theorem reducts_ruleDecl : outReducts.get? .ruleDecl = some [framed outRuleDecl] := rfl

theorem goodDecl_rule {i t r : PTree} {ident ty : Span} {alts : List Alt} {c e : Gramem}
    (hi : GoodPath i ident) (hc : c.ty = .twoDots) (ht : GoodPath t ty) (he : e.ty = .assign)
    (hr : GoodRule r alts) :
    GoodDecl (.node .ruleDecl 0 [i, .leaf c, t, .leaf e, r]) (.rule ident ty alts) := by
  obtain ⟨pipes, rsp, r1, r2, r3, r4⟩ := hr.value
  obtain ⟨sp, k1, k2⟩ := eval_node (A := .ruleDecl) (i := 0) (cs := [i, .leaf c, t, .leaf e, r])
    (f := outRuleDecl)
    (tights_cons hi.tight (tights_cons (tight_leaf c) (tights_cons ht.tight (tights_cons (tight_leaf e)
      (tights_cons hr.tight tights_nil)))))
    (evals_cons hi.value (evals_cons (eval_leaf c) (evals_cons ht.value (evals_cons (eval_leaf e)
      (evals_cons r1 evals_nil))))) (by simp) (red_eq reducts_ruleDecl rfl) rfl
  refine ⟨valid_node (by simp [hi.root, ht.root, hr.root, root_leaf, hc, he]; rfl)
    (valids_cons hi.valid (valids_cons (valid_leaf hc (by unfold Terminal; decide))
      (valids_cons ht.valid (valids_cons (valid_leaf he (by unfold Terminal; decide))
        (valids_cons hr.valid valids_nil))))), .inl rfl, ?_, _, k1, k2, ?_⟩
  · have := ReadsDecl.rule hi.reads hc ht.reads he hr.reads
    simpa [Tree.yield, Tree.yields] using this
  · simp only [declsOf, r3]
    rfl

theorem goodDecl_use {t : PTree} {u : Gramem} {psp : Span} (hu : u.ty = .useWord)
    (ht : GoodPath t psp) : GoodDecl (.node .import_ 1 [.leaf u, t]) (.use psp) := by
  obtain ⟨sp, k1, k2⟩ := eval_node (A := .import_) (i := 1) (cs := [.leaf u, t]) (f := outImport)
    (tights_cons (tight_leaf u) (tights_cons ht.tight tights_nil))
    (evals_cons (eval_leaf u) (evals_cons ht.value evals_nil)) (by simp)
    (red_eq reducts_import rfl) rfl
  refine ⟨valid_node (by simp [ht.root, root_leaf, hu]; rfl)
    (valids_cons (valid_leaf hu (by unfold Terminal; decide)) (valids_cons ht.valid valids_nil)),
    .inr (.inl rfl), ?_, _, k1, k2, ?_⟩
  · have := ReadsDecl.use hu ht.reads
    simpa [Tree.yield, Tree.yields] using this
  · rfl

theorem goodDecl_useAll {t : PTree} {u c g : Gramem} {psp : Span} (hu : u.ty = .useWord)
    (ht : GoodPath t psp) (hc : c.ty = .pathAccess) (hg : g.ty = .glob) :
    GoodDecl (.node .import_ 0 [.leaf u, t, .leaf c, .leaf g])
      (.use (Span.new psp.start g.item.span.stop)) := by
  obtain ⟨sp, k1, k2⟩ := eval_node (A := .import_) (i := 0) (cs := [.leaf u, t, .leaf c, .leaf g])
    (f := outImport)
    (tights_cons (tight_leaf u) (tights_cons ht.tight (tights_cons (tight_leaf c)
      (tights_cons (tight_leaf g) tights_nil))))
    (evals_cons (eval_leaf u) (evals_cons ht.value (evals_cons (eval_leaf c)
      (evals_cons (eval_leaf g) evals_nil)))) (by simp)
    (red_eq reducts_import rfl) rfl
  refine ⟨valid_node (by simp [ht.root, root_leaf, hu, hc, hg]; rfl)
    (valids_cons (valid_leaf hu (by unfold Terminal; decide)) (valids_cons ht.valid
      (valids_cons (valid_leaf hc (by unfold Terminal; decide))
        (valids_cons (valid_leaf hg (by unfold Terminal; decide)) valids_nil)))),
    .inr (.inl rfl), ?_, _, k1, k2, ?_⟩
  · have := ReadsDecl.useAll hu ht.reads hc hg
    simpa [Tree.yield, Tree.yields] using this
  · rfl

theorem goodDecl_token {t : PTree} {a n : Gramem} {psp : Span} (ha : a.ty = .aliasWord)
    (hn : n.ty = .ident ∨ n.ty = .strLit) (ht : GoodPath t psp) :
    GoodDecl (.node .alias (if n.ty = .ident then 0 else 1) [.leaf a, .leaf n, t])
      (.token n.item.span psp) := by
  have key : ∀ k, (prodsOf .alias)[k]? = some [a.ty, n.ty, t.root] →
      red .alias k = framed outAlias →
      GoodDecl (.node .alias k [.leaf a, .leaf n, t]) (.token n.item.span psp) := by
    intro k hk hr
    obtain ⟨sp, k1, k2⟩ := eval_node (A := .alias) (i := k) (cs := [.leaf a, .leaf n, t]) (f := outAlias)
      (tights_cons (tight_leaf a) (tights_cons (tight_leaf n) (tights_cons ht.tight tights_nil)))
      (evals_cons (eval_leaf a) (evals_cons (eval_leaf n) (evals_cons ht.value evals_nil))) (by simp)
      hr rfl
    have hnt : Terminal outRules n.ty := by
      rcases hn with hn | hn <;> rw [hn] <;> unfold Terminal <;> decide
    refine ⟨valid_node hk
      (valids_cons (valid_leaf ha (by unfold Terminal; decide)) (valids_cons (valid_leaf rfl hnt)
        (valids_cons ht.valid valids_nil))), .inr (.inr rfl), ?_, _, k1, k2, ?_⟩
    · have := ReadsDecl.token ha hn ht.reads
      simpa [Tree.yield, Tree.yields] using this
    · rfl
  rcases hn with hn | hn
  · rw [if_pos hn]
    exact key 0 (by rw [ha, hn, ht.root]; rfl) (red_eq reducts_alias rfl)
  · rw [if_neg (by rw [hn]; decide)]
    exact key 1 (by rw [ha, hn, ht.root]; rfl) (red_eq reducts_alias rfl)

/-! Programs. -/

theorem reducts_program : outReducts.get? .program =
    some [framed outProgramMore, framed outProgramMore, framed outProgramMore,
        framed outProgramOne, framed outProgramOne, framed outProgramOne] := rfl

/-- The production of `program` for a declaration. -/
def progIdx : Sym → Nat × Nat
  | .import_ => (0, 4)
  | .alias => (1, 3)
  | _ => (2, 5)

theorem goodProgram_one {d : PTree} {dc : Decl} {s : Gramem} (hd : GoodDecl d dc) (hs : s.ty = .sc) :
    GoodProgram (.node .program (progIdx d.root).2 [d, .leaf s]) [dc] := by
  obtain ⟨v, h1, h2, h3⟩ := hd.value
  have hr : red .program (progIdx d.root).2 = framed outProgramOne := by
    rcases hd.root with h | h | h <;> rw [h] <;> exact red_eq reducts_program rfl
  obtain ⟨sp, k1, k2⟩ := eval_node (A := .program) (cs := [d, .leaf s]) (f := outProgramOne)
    (tights_cons hd.tight (tights_cons (tight_leaf s) tights_nil))
    (evals_cons h1 (evals_cons (eval_leaf s) evals_nil)) (by simp) hr rfl
  refine ⟨valid_node ?_ (valids_cons hd.valid (valids_cons (valid_leaf hs (by unfold Terminal; decide))
    valids_nil)), rfl, ?_, _, sp, k1, k2, h3⟩
  · simp only [List.map_cons, List.map_nil, root_leaf, hs]
    rcases hd.root with h | h | h <;> rw [h] <;> rfl
  · have := ReadsProgram.one hd.reads hs
    simpa [Tree.yield, Tree.yields] using this

theorem goodProgram_more {p d : PTree} {ds : List Decl} {dc : Decl} {s : Gramem}
    (hp : GoodProgram p ds) (hd : GoodDecl d dc) (hs : s.ty = .sc) :
    GoodProgram (.node .program (progIdx d.root).1 [p, d, .leaf s]) (ds ++ [dc]) := by
  obtain ⟨v, h1, h2, h3⟩ := hd.value
  obtain ⟨gs, psp, p1, p2, p3⟩ := hp.value
  have hr : red .program (progIdx d.root).1 = framed outProgramMore := by
    rcases hd.root with h | h | h <;> rw [h] <;> exact red_eq reducts_program rfl
  obtain ⟨sp, k1, k2⟩ := eval_node (A := .program) (cs := [p, d, .leaf s]) (f := outProgramMore)
    (tights_cons hp.tight (tights_cons hd.tight (tights_cons (tight_leaf s) tights_nil)))
    (evals_cons p1 (evals_cons h1 (evals_cons (eval_leaf s) evals_nil))) (by simp) hr rfl
  refine ⟨valid_node ?_ (valids_cons hp.valid (valids_cons hd.valid
    (valids_cons (valid_leaf hs (by unfold Terminal; decide)) valids_nil))), rfl, ?_, _, sp, k1, k2, ?_⟩
  · simp only [List.map_cons, List.map_nil, root_leaf, hs, hp.root]
    rcases hd.root with h | h | h <;> rw [h] <;> rfl
  · have := ReadsProgram.more hp.reads hd.reads hs
    simpa [Tree.yield, Tree.yields] using this
  · rw [List.map_append]
    exact declsOf_append p3 h3

/-! ### Every tree reads something -/

/-- What a tree reads, by the symbol at its root. -/
structure Reading (tr : PTree) : Prop where
  leaf : Terminal outRules tr.root → ∃ t, tr = .leaf t
  path : tr.root = .identPath → ∃ sp, GoodPath tr sp
  item : tr.root = .ruleItem → ∃ it bs, GoodItem tr it bs
  items : tr.root = .rulePipe → ∃ is bs, GoodItems tr is bs
  rule : tr.root = .rule → ∃ alts, GoodRule tr alts
  decl : tr.root = .ruleDecl ∨ tr.root = .import_ ∨ tr.root = .alias → ∃ d, GoodDecl tr d
  program : tr.root = .program → ∃ ds, GoodProgram tr ds
  entry : tr.root = .entryPoint → ∃ p, tr = .node .entryPoint 0 [p] ∧ ∃ ds, GoodProgram p ds

theorem map1 {cs : List PTree} {a : Sym} (h : cs.map Tree.root = [a]) :
    ∃ c, cs = [c] ∧ c.root = a := by
  match cs, h with
  | [c], h => exact ⟨c, rfl, by simpa using h⟩

theorem map_cons' {cs : List PTree} {a : Sym} {b : List Sym} (h : cs.map Tree.root = a :: b) :
    ∃ c cs', cs = c :: cs' ∧ c.root = a ∧ cs'.map Tree.root = b := by
  match cs, h with
  | c :: cs', h =>
    simp only [List.map_cons, List.cons.injEq] at h
    exact ⟨c, cs', rfl, h.1, h.2⟩

theorem map_nil' {cs : List PTree} (h : cs.map Tree.root = []) : cs = [] := by
  simpa using h

theorem leaf_root {tr : PTree} {s : Sym} (h : Reading tr) (hr : tr.root = s)
    (hs : Terminal outRules s) : ∃ t, tr = .leaf t ∧ t.ty = s := by
  obtain ⟨t, rfl⟩ := h.leaf (hr ▸ hs)
  exact ⟨t, rfl, hr⟩

/-- The productions of items, by their marks. -/
theorem item_prod {i : Nat} {b : List Sym} (h : (prodsOf .ruleItem)[i]? = some b) :
    ∃ base head, (base, head) ∈ [(0, [Sym.identPath]), (6, [.strLit]),
      (12, [.openParen, .rule, .closeParen])] ∧ 
      ∃ opt os, (opt, os) ∈ [(false, []), (true, [Sym.optional])] ∧
      ∃ ic as, (ic, as) ∈ [((true, true), [Sym.twoDots, .clone, .ident]),
        ((true, false), [.twoDots, .ident]), ((false, false), [])] ∧
      b = head ++ os ++ as ∧
      i = base + (if opt then 0 else 3) + (if ic.2 then 0 else if ic.1 then 1 else 2) := by
  have hi : i < 18 := by
    have := (List.getElem?_eq_some_iff.mp h).1
    exact this
  have key : ∀ i < 18, ∃ base head, (base, head) ∈ [(0, [Sym.identPath]), (6, [.strLit]),
      (12, [.openParen, .rule, .closeParen])] ∧ 
      ∃ opt os, (opt, os) ∈ [(false, []), (true, [Sym.optional])] ∧
      ∃ ic as, (ic, as) ∈ [((true, true), [Sym.twoDots, .clone, .ident]),
        ((true, false), [.twoDots, .ident]), ((false, false), [])] ∧
      (prodsOf .ruleItem)[i]? = some (head ++ os ++ as) ∧
      i = base + (if opt then 0 else 3) + (if ic.2 then 0 else if ic.1 then 1 else 2) := by
    intro i hi
    have : ∃ x ∈ [(0, [Sym.identPath]), (6, [.strLit]), (12, [.openParen, .rule, .closeParen])],
      ∃ y ∈ [(false, []), (true, [Sym.optional])],
      ∃ z ∈ [((true, true), [Sym.twoDots, .clone, .ident]),
        ((true, false), [.twoDots, .ident]), ((false, false), [])],
      (prodsOf .ruleItem)[i]? = some (x.2 ++ y.2 ++ z.2) ∧
      i = x.1 + (if y.1 then 0 else 3) + (if z.1.2 then 0 else if z.1.1 then 1 else 2) := by
      revert i
      decide
    obtain ⟨x, hx, y, hy, z, hz, h⟩ := this
    exact ⟨x.1, x.2, hx, y.1, y.2, hy, z.1, z.2, hz, h⟩
  obtain ⟨base, head, h1, opt, os, h2, ic, as, h3, h4, h5⟩ := key i hi
  exact ⟨base, head, h1, opt, os, h2, ic, as, h3, by rw [h] at h4; exact Option.some.inj h4, h5⟩

theorem read_opt {cs : List PTree} {opt : Bool} {os : List Sym} (hc : ∀ c ∈ cs, Reading c)
    (h : (opt, os) ∈ [(false, []), (true, [Sym.optional])]) (hm : cs.map Tree.root = os) :
    ∃ ts, cs = leaves ts ∧ ReadsOpt ts opt := by
  simp only [List.mem_cons, Prod.mk.injEq, List.not_mem_nil, or_false] at h
  rcases h with ⟨rfl, rfl⟩ | ⟨rfl, rfl⟩
  · exact ⟨[], map_nil' hm, .no⟩
  · obtain ⟨c, rfl, hr⟩ := map1 hm
    obtain ⟨t, rfl, ht⟩ := leaf_root (hc c (by simp)) hr (by unfold Terminal; decide)
    exact ⟨[t], rfl, .yes ht⟩

theorem read_alias {cs : List PTree} {ic : Bool × Bool} {as : List Sym} (hc : ∀ c ∈ cs, Reading c)
    (h : (ic, as) ∈ [((true, true), [Sym.twoDots, .clone, .ident]),
      ((true, false), [.twoDots, .ident]), ((false, false), [])]) (hm : cs.map Tree.root = as) :
    ∃ ts al, cs = leaves ts ∧ ReadsAlias ts al ic.2 ∧ al.isSome = ic.1 := by
  simp only [List.mem_cons, Prod.mk.injEq, List.not_mem_nil, or_false] at h
  rcases h with ⟨rfl, rfl⟩ | ⟨rfl, rfl⟩ | ⟨rfl, rfl⟩
  · obtain ⟨c1, cs, rfl, r1, hm⟩ := map_cons' hm
    obtain ⟨c2, cs, rfl, r2, hm⟩ := map_cons' hm
    obtain ⟨c3, rfl, r3⟩ := map1 hm
    obtain ⟨t1, rfl, h1⟩ := leaf_root (hc c1 (by simp)) r1 (by unfold Terminal; decide)
    obtain ⟨t2, rfl, h2⟩ := leaf_root (hc c2 (by simp)) r2 (by unfold Terminal; decide)
    obtain ⟨t3, rfl, h3⟩ := leaf_root (hc c3 (by simp)) r3 (by unfold Terminal; decide)
    exact ⟨[t1, t2, t3], _, rfl, .clone h1 h2 h3, rfl⟩
  · obtain ⟨c1, cs, rfl, r1, hm⟩ := map_cons' hm
    obtain ⟨c3, rfl, r3⟩ := map1 hm
    obtain ⟨t1, rfl, h1⟩ := leaf_root (hc c1 (by simp)) r1 (by unfold Terminal; decide)
    obtain ⟨t3, rfl, h3⟩ := leaf_root (hc c3 (by simp)) r3 (by unfold Terminal; decide)
    exact ⟨[t1, t3], _, rfl, .ref h1 h3, rfl⟩
  · exact ⟨[], _, map_nil' hm, .none, rfl⟩

theorem read_item {i : Nat} {cs : List PTree} (hc : ∀ c ∈ cs, Reading c)
    (hp : (prodsOf .ruleItem)[i]? = some (cs.map Tree.root)) :
    ∃ it bs, GoodItem (.node .ruleItem i cs) it bs := by
  obtain ⟨base, head, h1, opt, os, h2, ic, as, h3, h4, h5⟩ := item_prod hp
  obtain ⟨c12, ca, rfl, e1, e2⟩ := List.map_eq_append_iff.mp h4
  obtain ⟨ch, co, rfl, e3, e4⟩ := List.map_eq_append_iff.mp e1
  obtain ⟨to, rfl, ho⟩ := read_opt (fun c h => hc c (by simp [h])) h2 e4
  obtain ⟨ta, al, rfl, ha, hal⟩ := read_alias (fun c h => hc c (by simp [h])) h3 e2
  have hidx : i = itemIdx base opt al ic.2 := by
    rw [h5, itemIdx, hal]
  subst hidx
  have hl : ch ++ leaves to ++ leaves ta = ch ++ leaves (to ++ ta) := by
    rw [List.append_assoc]
    simp [leaves]
  rw [hl]
  simp only [List.mem_cons, Prod.mk.injEq, List.not_mem_nil, or_false] at h1
  rcases h1 with ⟨rfl, rfl⟩ | ⟨rfl, rfl⟩ | ⟨rfl, rfl⟩
  · obtain ⟨c, rfl, hr⟩ := map1 e3
    obtain ⟨sp, hg⟩ := (hc c (by simp)).path hr
    exact ⟨_, _, goodItem_path hg ho ha⟩
  · obtain ⟨c, rfl, hr⟩ := map1 e3
    obtain ⟨t, rfl, ht⟩ := leaf_root (hc c (by simp)) hr (by unfold Terminal; decide)
    exact ⟨_, _, goodItem_lit ht ho ha⟩
  · obtain ⟨c1, cs, rfl, r1, e3⟩ := map_cons' e3
    obtain ⟨c2, cs, rfl, r2, e3⟩ := map_cons' e3
    obtain ⟨c3, rfl, r3⟩ := map1 e3
    obtain ⟨t1, rfl, k1⟩ := leaf_root (hc c1 (by simp)) r1 (by unfold Terminal; decide)
    obtain ⟨t3, rfl, k3⟩ := leaf_root (hc c3 (by simp)) r3 (by unfold Terminal; decide)
    obtain ⟨alts, hg⟩ := (hc c2 (by simp)).rule r2
    exact ⟨_, _, goodItem_group k1 hg k3 ho ha⟩

theorem read_path {i : Nat} {cs : List PTree} (hc : ∀ c ∈ cs, Reading c)
    (hp : (prodsOf .identPath)[i]? = some (cs.map Tree.root)) :
    ∃ sp, GoodPath (.node .identPath i cs) sp := by
  match i, hp with
  | 0, hp =>
    obtain ⟨c1, cs, rfl, r1, hp⟩ := map_cons' (Option.some.inj hp).symm
    obtain ⟨c2, cs, rfl, r2, hp⟩ := map_cons' hp
    obtain ⟨c3, rfl, r3⟩ := map1 hp
    obtain ⟨sp, hg⟩ := (hc c1 (by simp)).path r1
    obtain ⟨t2, rfl, k2⟩ := leaf_root (hc c2 (by simp)) r2 (by unfold Terminal; decide)
    obtain ⟨t3, rfl, k3⟩ := leaf_root (hc c3 (by simp)) r3 (by unfold Terminal; decide)
    exact ⟨_, goodPath_more hg k2 k3⟩
  | 1, hp =>
    obtain ⟨c, rfl, r⟩ := map1 (Option.some.inj hp).symm
    obtain ⟨t, rfl, k⟩ := leaf_root (hc c (by simp)) r (by unfold Terminal; decide)
    exact ⟨_, goodPath_one k⟩

theorem read_items {i : Nat} {cs : List PTree} (hc : ∀ c ∈ cs, Reading c)
    (hp : (prodsOf .rulePipe)[i]? = some (cs.map Tree.root)) :
    ∃ is bs, GoodItems (.node .rulePipe i cs) is bs := by
  match i, hp with
  | 0, hp =>
    obtain ⟨c1, cs, rfl, r1, hp⟩ := map_cons' (Option.some.inj hp).symm
    obtain ⟨c2, rfl, r2⟩ := map1 hp
    obtain ⟨is, bs, hg⟩ := (hc c1 (by simp)).items r1
    obtain ⟨it, bs', hg'⟩ := (hc c2 (by simp)).item r2
    exact ⟨_, _, goodItems_more hg hg'⟩
  | 1, hp =>
    obtain ⟨c, rfl, r⟩ := map1 (Option.some.inj hp).symm
    obtain ⟨it, bs', hg'⟩ := (hc c (by simp)).item r
    exact ⟨_, _, goodItems_one hg'⟩

theorem read_rule {i : Nat} {cs : List PTree} (hc : ∀ c ∈ cs, Reading c)
    (hp : (prodsOf .rule)[i]? = some (cs.map Tree.root)) :
    ∃ alts, GoodRule (.node .rule i cs) alts := by
  match i, hp with
  | 0, hp =>
    obtain ⟨c1, cs, rfl, r1, hp⟩ := map_cons' (Option.some.inj hp).symm
    obtain ⟨c2, cs, rfl, r2, hp⟩ := map_cons' hp
    obtain ⟨c3, cs, rfl, r3, hp⟩ := map_cons' hp
    obtain ⟨c4, rfl, r4⟩ := map1 hp
    obtain ⟨alts, hr⟩ := (hc c1 (by simp)).rule r1
    obtain ⟨t2, rfl, k2⟩ := leaf_root (hc c2 (by simp)) r2 (by unfold Terminal; decide)
    obtain ⟨is, bs, hg⟩ := (hc c3 (by simp)).items r3
    obtain ⟨t4, rfl, k4⟩ := leaf_root (hc c4 (by simp)) r4 (by unfold Terminal; decide)
    exact ⟨_, goodRule_more hr k2 hg (.some k4)⟩
  | 1, hp =>
    obtain ⟨c1, cs, rfl, r1, hp⟩ := map_cons' (Option.some.inj hp).symm
    obtain ⟨c2, cs, rfl, r2, hp⟩ := map_cons' hp
    obtain ⟨c3, rfl, r3⟩ := map1 hp
    obtain ⟨alts, hr⟩ := (hc c1 (by simp)).rule r1
    obtain ⟨t2, rfl, k2⟩ := leaf_root (hc c2 (by simp)) r2 (by unfold Terminal; decide)
    obtain ⟨is, bs, hg⟩ := (hc c3 (by simp)).items r3
    exact ⟨_, goodRule_more hr k2 hg .none⟩
  | 2, hp =>
    obtain ⟨c1, cs, rfl, r1, hp⟩ := map_cons' (Option.some.inj hp).symm
    obtain ⟨c4, rfl, r4⟩ := map1 hp
    obtain ⟨is, bs, hg⟩ := (hc c1 (by simp)).items r1
    obtain ⟨t4, rfl, k4⟩ := leaf_root (hc c4 (by simp)) r4 (by unfold Terminal; decide)
    exact ⟨_, goodRule_one hg (.some k4)⟩
  | 3, hp =>
    obtain ⟨c, rfl, r⟩ := map1 (Option.some.inj hp).symm
    obtain ⟨is, bs, hg⟩ := (hc c (by simp)).items r
    exact ⟨_, goodRule_one hg .none⟩

theorem read_ruleDecl {i : Nat} {cs : List PTree} (hc : ∀ c ∈ cs, Reading c)
    (hp : (prodsOf .ruleDecl)[i]? = some (cs.map Tree.root)) :
    ∃ d, GoodDecl (.node .ruleDecl i cs) d := by
  match i, hp with
  | 0, hp =>
    obtain ⟨c1, cs, rfl, r1, hp⟩ := map_cons' (Option.some.inj hp).symm
    obtain ⟨c2, cs, rfl, r2, hp⟩ := map_cons' hp
    obtain ⟨c3, cs, rfl, r3, hp⟩ := map_cons' hp
    obtain ⟨c4, cs, rfl, r4, hp⟩ := map_cons' hp
    obtain ⟨c5, rfl, r5⟩ := map1 hp
    obtain ⟨s1, k1⟩ := (hc c1 (by simp)).path r1
    obtain ⟨t2, rfl, k2⟩ := leaf_root (hc c2 (by simp)) r2 (by unfold Terminal; decide)
    obtain ⟨s3, k3⟩ := (hc c3 (by simp)).path r3
    obtain ⟨t4, rfl, k4⟩ := leaf_root (hc c4 (by simp)) r4 (by unfold Terminal; decide)
    obtain ⟨alts, hr⟩ := (hc c5 (by simp)).rule r5
    exact ⟨_, goodDecl_rule k1 k2 k3 k4 hr⟩

theorem read_import {i : Nat} {cs : List PTree} (hc : ∀ c ∈ cs, Reading c)
    (hp : (prodsOf .import_)[i]? = some (cs.map Tree.root)) :
    ∃ d, GoodDecl (.node .import_ i cs) d := by
  match i, hp with
  | 0, hp =>
    obtain ⟨c1, cs, rfl, r1, hp⟩ := map_cons' (Option.some.inj hp).symm
    obtain ⟨c2, cs, rfl, r2, hp⟩ := map_cons' hp
    obtain ⟨c3, cs, rfl, r3, hp⟩ := map_cons' hp
    obtain ⟨c4, rfl, r4⟩ := map1 hp
    obtain ⟨t1, rfl, k1⟩ := leaf_root (hc c1 (by simp)) r1 (by unfold Terminal; decide)
    obtain ⟨s2, k2⟩ := (hc c2 (by simp)).path r2
    obtain ⟨t3, rfl, k3⟩ := leaf_root (hc c3 (by simp)) r3 (by unfold Terminal; decide)
    obtain ⟨t4, rfl, k4⟩ := leaf_root (hc c4 (by simp)) r4 (by unfold Terminal; decide)
    exact ⟨_, goodDecl_useAll k1 k2 k3 k4⟩
  | 1, hp =>
    obtain ⟨c1, cs, rfl, r1, hp⟩ := map_cons' (Option.some.inj hp).symm
    obtain ⟨c2, rfl, r2⟩ := map1 hp
    obtain ⟨t1, rfl, k1⟩ := leaf_root (hc c1 (by simp)) r1 (by unfold Terminal; decide)
    obtain ⟨s2, k2⟩ := (hc c2 (by simp)).path r2
    exact ⟨_, goodDecl_use k1 k2⟩

theorem read_alias' {i : Nat} {cs : List PTree} (hc : ∀ c ∈ cs, Reading c)
    (hp : (prodsOf .alias)[i]? = some (cs.map Tree.root)) :
    ∃ d, GoodDecl (.node .alias i cs) d := by
  match i, hp with
  | 0, hp =>
    obtain ⟨c1, cs, rfl, r1, hp⟩ := map_cons' (Option.some.inj hp).symm
    obtain ⟨c2, cs, rfl, r2, hp⟩ := map_cons' hp
    obtain ⟨c3, rfl, r3⟩ := map1 hp
    obtain ⟨t1, rfl, k1⟩ := leaf_root (hc c1 (by simp)) r1 (by unfold Terminal; decide)
    obtain ⟨t2, rfl, k2⟩ := leaf_root (hc c2 (by simp)) r2 (by unfold Terminal; decide)
    obtain ⟨s3, k3⟩ := (hc c3 (by simp)).path r3
    have := goodDecl_token k1 (.inl k2) k3
    rw [if_pos k2] at this
    exact ⟨_, this⟩
  | 1, hp =>
    obtain ⟨c1, cs, rfl, r1, hp⟩ := map_cons' (Option.some.inj hp).symm
    obtain ⟨c2, cs, rfl, r2, hp⟩ := map_cons' hp
    obtain ⟨c3, rfl, r3⟩ := map1 hp
    obtain ⟨t1, rfl, k1⟩ := leaf_root (hc c1 (by simp)) r1 (by unfold Terminal; decide)
    obtain ⟨t2, rfl, k2⟩ := leaf_root (hc c2 (by simp)) r2 (by unfold Terminal; decide)
    obtain ⟨s3, k3⟩ := (hc c3 (by simp)).path r3
    have := goodDecl_token k1 (.inr k2) k3
    rw [if_neg (by rw [k2]; decide)] at this
    exact ⟨_, this⟩

theorem read_program {i : Nat} {cs : List PTree} (hc : ∀ c ∈ cs, Reading c)
    (hp : (prodsOf .program)[i]? = some (cs.map Tree.root)) :
    ∃ ds, GoodProgram (.node .program i cs) ds := by
  have more : ∀ s, (s = Sym.ruleDecl ∨ s = .import_ ∨ s = .alias) → 
      cs.map Tree.root = [.program, s, .sc] →
      ∃ ds, GoodProgram (.node .program (progIdx s).1 cs) ds := by
    intro s hs hp
    obtain ⟨c1, cs, rfl, r1, hp⟩ := map_cons' hp
    obtain ⟨c2, cs, rfl, r2, hp⟩ := map_cons' hp
    obtain ⟨c3, rfl, r3⟩ := map1 hp
    obtain ⟨ds, k1⟩ := (hc c1 (by simp)).program r1
    obtain ⟨d, k2⟩ := (hc c2 (by simp)).decl (by rw [r2]; exact hs)
    obtain ⟨t3, rfl, k3⟩ := leaf_root (hc c3 (by simp)) r3 (by unfold Terminal; decide)
    exact ⟨_, r2 ▸ goodProgram_more k1 k2 k3⟩
  have one : ∀ s, (s = Sym.ruleDecl ∨ s = .import_ ∨ s = .alias) → 
      cs.map Tree.root = [s, .sc] →
      ∃ ds, GoodProgram (.node .program (progIdx s).2 cs) ds := by
    intro s hs hp
    obtain ⟨c2, cs, rfl, r2, hp⟩ := map_cons' hp
    obtain ⟨c3, rfl, r3⟩ := map1 hp
    obtain ⟨d, k2⟩ := (hc c2 (by simp)).decl (by rw [r2]; exact hs)
    obtain ⟨t3, rfl, k3⟩ := leaf_root (hc c3 (by simp)) r3 (by unfold Terminal; decide)
    exact ⟨_, r2 ▸ goodProgram_one k2 k3⟩
  match i, hp with
  | 0, hp => exact more .import_ (by simp) (Option.some.inj hp).symm
  | 1, hp => exact more .alias (by simp) (Option.some.inj hp).symm
  | 2, hp => exact more .ruleDecl (by simp) (Option.some.inj hp).symm
  | 3, hp => exact one .alias (by simp) (Option.some.inj hp).symm
  | 4, hp => exact one .import_ (by simp) (Option.some.inj hp).symm
  | 5, hp => exact one .ruleDecl (by simp) (Option.some.inj hp).symm

theorem reading {tr : PTree} (hv : Tree.Valid outRules tr) : Reading tr := by
  induction hv with
  | @leaf tok h =>
    have no : ∀ {s : Sym} {P : Prop}, s ∈ outRules.map Prod.fst → (Tree.leaf tok : PTree).root = s → P := by
      intro s P hs e
      obtain ⟨d, hd, rfl⟩ := List.mem_map.mp hs
      exact absurd e.symm (h d hd)
    refine ⟨fun _ => ⟨tok, rfl⟩, no (by decide), no (by decide), no (by decide), no (by decide), ?_,
      no (by decide), no (by decide)⟩
    rintro (e | e | e)
    · exact no (by decide) e
    · exact no (by decide) e
    · exact no (by decide) e
  | @node A i cs hp hcs ih =>
    have hv := Tree.Valid.node hp hcs
    rw [isProd_get] at hp
    refine ⟨leaf_of_terminal hv, ?_, ?_, ?_, ?_, ?_, ?_, ?_⟩
    · intro e; cases e; exact read_path ih hp
    · intro e; cases e; exact read_item ih hp
    · intro e; cases e; exact read_items ih hp
    · intro e; cases e; exact read_rule ih hp
    · rintro (e | e | e)
      · cases e; exact read_ruleDecl ih hp
      · cases e; exact read_import ih hp
      · cases e; exact read_alias' ih hp
    · intro e; cases e; exact read_program ih hp
    · intro e
      cases e
      match i, hp with
      | 0, hp =>
        obtain ⟨c, rfl, r⟩ := map1 (Option.some.inj hp).symm
        exact ⟨c, rfl, (ih c (by simp)).program r⟩

theorem reducts_entryPoint : outReducts.get? .entryPoint = some [framed outEntryPoint] := rfl

/-- Every parse tree has a value, with the span of its tokens. -/
theorem tight_of_valid {tr : PTree} (hv : Tree.Valid outRules tr) : Tight tr := by
  have hr := reading hv
  cases hv with
  | leaf _ => exact tight_leaf _
  | @node A i cs hp hcs =>
    obtain ⟨bs, hA, _⟩ := isProd_out.mp hp
    have : A ∈ outRules.map Prod.fst := List.mem_map.mpr ⟨_, hA, rfl⟩
    have hl : outRules.map Prod.fst = [.ruleItem, .identPath, .entryPoint, .rule, .rulePipe, .import_,
      .alias, .program, .ruleDecl] := rfl
    rw [hl] at this
    simp only [List.mem_cons, List.not_mem_nil, or_false] at this
    rcases this with rfl | rfl | rfl | rfl | rfl | rfl | rfl | rfl | rfl
    · obtain ⟨_, _, h⟩ := hr.item rfl; exact h.tight
    · obtain ⟨_, h⟩ := hr.path rfl; exact h.tight
    · obtain ⟨p, e, ds, h⟩ := hr.entry rfl
      obtain ⟨v, sp, k1, k2, k3⟩ := h.value
      obtain ⟨sp', e1, e2⟩ := eval_node (A := .entryPoint) (i := 0) (cs := [p]) (f := outEntryPoint)
        (tights_cons h.tight tights_nil) (evals_cons k1 evals_nil) (by simp)
        (red_eq reducts_entryPoint rfl) rfl
      rw [e]
      exact ⟨_, e1, e2⟩
    · obtain ⟨_, h⟩ := hr.rule rfl; exact h.tight
    · obtain ⟨_, _, h⟩ := hr.items rfl; exact h.tight
    · obtain ⟨_, h⟩ := hr.decl (.inr (.inl rfl)); exact h.tight
    · obtain ⟨_, h⟩ := hr.decl (.inr (.inr rfl)); exact h.tight
    · obtain ⟨_, h⟩ := hr.program rfl; exact h.tight
    · obtain ⟨_, h⟩ := hr.decl (.inl rfl); exact h.tight

/-! ### Everything that can be read has a tree -/

theorem tree_path {ts : List Gramem} {sp : Span} (h : ReadsPath ts sp) :
    ∃ tr, tr.yield = ts ∧ GoodPath tr sp := by
  induction h with
  | one h => exact ⟨_, by simp [Tree.yield, Tree.yields], goodPath_one h⟩
  | more _ hc hi ih =>
    obtain ⟨tr, rfl, hg⟩ := ih
    exact ⟨_, by simp [Tree.yield, Tree.yields], goodPath_more hg hc hi⟩

mutual

theorem tree_item {ts : List Gramem} {it : Item} {bs : List Span} (h : ReadsItem ts it bs) :
    ∃ tr, tr.yield = ts ∧ GoodItem tr it bs := by
  match h with
  | .path hp ho ha =>
    obtain ⟨tr, rfl, hg⟩ := tree_path hp
    exact ⟨_, by rw [Tree.yield, Tree.yields, leaves_yields, List.append_assoc], goodItem_path hg ho ha⟩
  | .lit ht ho ha =>
    exact ⟨_, by rw [Tree.yield, Tree.yields, leaves_yields, List.append_assoc, Tree.yield],
      goodItem_lit ht ho ha⟩
  | .group h1 hr h2 ho ha =>
    obtain ⟨tr, rfl, hg⟩ := tree_rule hr
    exact ⟨_, by simp [Tree.yield, Tree.yields, leaves_yields], goodItem_group h1 hg h2 ho ha⟩

theorem tree_items {ts : List Gramem} {is : List Item} {bs : List Span} (h : ReadsItems ts is bs) :
    ∃ tr, tr.yield = ts ∧ GoodItems tr is bs := by
  match h with
  | .one hi =>
    obtain ⟨tr, rfl, hg⟩ := tree_item hi
    exact ⟨_, by simp [Tree.yield, Tree.yields], goodItems_one hg⟩
  | .more hp hi =>
    obtain ⟨p, rfl, hg⟩ := tree_items hp
    obtain ⟨tr, rfl, hg'⟩ := tree_item hi
    exact ⟨_, by simp [Tree.yield, Tree.yields], goodItems_more hg hg'⟩

theorem tree_rule {ts : List Gramem} {alts : List Alt} (h : ReadsRule ts alts) :
    ∃ tr, tr.yield = ts ∧ GoodRule tr alts := by
  match h with
  | .one hp hb =>
    obtain ⟨p, rfl, hg⟩ := tree_items hp
    exact ⟨_, by rw [Tree.yield, Tree.yields, leaves_yields], goodRule_one hg hb⟩
  | .more hr hq hp hb =>
    obtain ⟨r, rfl, hgr⟩ := tree_rule hr
    obtain ⟨p, rfl, hg⟩ := tree_items hp
    exact ⟨_, by simp [Tree.yield, Tree.yields, leaves_yields], goodRule_more hgr hq hg hb⟩

end

theorem tree_decl {ts : List Gramem} {d : Decl} (h : ReadsDecl ts d) :
    ∃ tr, tr.yield = ts ∧ GoodDecl tr d := by
  cases h with
  | rule hi hc ht he hr =>
    obtain ⟨i, rfl, gi⟩ := tree_path hi
    obtain ⟨t, rfl, gt⟩ := tree_path ht
    obtain ⟨r, rfl, gr⟩ := tree_rule hr
    exact ⟨_, by simp [Tree.yield, Tree.yields], goodDecl_rule gi hc gt he gr⟩
  | use hu ht =>
    obtain ⟨t, rfl, gt⟩ := tree_path ht
    exact ⟨_, by simp [Tree.yield, Tree.yields], goodDecl_use hu gt⟩
  | useAll hu ht hc hg =>
    obtain ⟨t, rfl, gt⟩ := tree_path ht
    exact ⟨_, by simp [Tree.yield, Tree.yields], goodDecl_useAll hu gt hc hg⟩
  | token ha hn ht =>
    obtain ⟨t, rfl, gt⟩ := tree_path ht
    exact ⟨_, by simp [Tree.yield, Tree.yields], goodDecl_token ha hn gt⟩

theorem tree_program {ts : List Gramem} {ds : List Decl} (h : ReadsProgram ts ds) :
    ∃ tr, tr.yield = ts ∧ GoodProgram tr ds := by
  induction h with
  | one hd hs =>
    obtain ⟨d, rfl, gd⟩ := tree_decl hd
    exact ⟨_, by simp [Tree.yield, Tree.yields], goodProgram_one gd hs⟩
  | more _ hd hs ih =>
    obtain ⟨p, rfl, gp⟩ := ih
    obtain ⟨d, rfl, gd⟩ := tree_decl hd
    exact ⟨_, by simp [Tree.yield, Tree.yields], goodProgram_more gp gd hs⟩

/-! ### Spans -/

theorem _root_.Lrp.Wop.Spec.Lexed.sublist {src : Text} {a b : List Gramem} (h : Lexed src b)
    (hs : a.Sublist b) : Lexed src a :=
  ⟨fun t ht => h.plain t (hs.subset ht), fun t ht => h.inside t (hs.subset ht), fun t ht => h.whole t (hs.subset ht),
    h.ordered.sublist hs⟩

theorem _root_.Lrp.Wop.Spec.Lexed.left {src : Text} {a b : List Gramem} (h : Lexed src (a ++ b)) :
    Lexed src a := h.sublist (List.sublist_append_left a b)

theorem _root_.Lrp.Wop.Spec.Lexed.right {src : Text} {a b : List Gramem} (h : Lexed src (a ++ b)) :
    Lexed src b := h.sublist (List.sublist_append_right a b)

theorem _root_.Lrp.Wop.Spec.Lexed.tail {src : Text} {a : Gramem} {b : List Gramem}
    (h : Lexed src (a :: b)) : Lexed src b := h.sublist (List.sublist_cons_self a b)

theorem _root_.Lrp.Wop.Spec.Lexed.tok {src : Text} {a : List Gramem} (h : Lexed src a) {t : Gramem}
    (ht : t ∈ a) : InSrc src t.item.span :=
  ⟨Nat.le_of_lt (h.inside t ht).1, (h.inside t ht).2, (h.whole t ht).1, (h.whole t ht).2⟩

theorem _root_.Lrp.Wop.Spec.Lexed.cover {src : Text} {a : List Gramem} (h : Lexed src a) {sp : Span}
    (hc : cover a = some sp) : InSrc src sp := by
  cases a with
  | nil => simp [Spec.cover] at hc
  | cons x a =>
    unfold Spec.cover at hc
    cases hl : (x :: a).getLast? with
    | none => simp at hl
    | some y =>
      rw [hl] at hc
      simp only [List.head?_cons, Option.some.injEq] at hc
      subst hc
      have hy : y ∈ x :: a := List.mem_of_getLast? hl
      have hx := h.inside x (by simp)
      have hyi := h.inside y hy
      refine ⟨?_, hyi.2, (h.whole x (by simp)).1, (h.whole y hy).2⟩
      simp only [Span.new]
      rcases List.mem_cons.mp hy with e | hy
      · subst e
        omega
      · have := (List.pairwise_cons.mp h.ordered).1 y hy
        omega

theorem path_inSrc {src : Text} {ts : List Gramem} {sp : Span} (h : ReadsPath ts sp)
    (hl : Lexed src ts) : InSrc src sp := by
  obtain ⟨tr, rfl, hg⟩ := tree_path h
  exact hl.cover hg.cover

theorem alias_inSrc {src : Text} {ts : List Gramem} {al : Option Span} {cl : Bool}
    (h : ReadsAlias ts al cl) (hl : Lexed src ts) : ∀ sp ∈ al.toList, InSrc src sp := by
  cases h with
  | none => simp
  | ref _ _ =>
    intro sp hsp
    simp only [Option.toList_some, List.mem_singleton] at hsp
    subst hsp
    exact hl.tok (by simp)
  | clone _ _ _ =>
    intro sp hsp
    simp only [Option.toList_some, List.mem_singleton] at hsp
    subst hsp
    exact hl.tok (by simp)

theorem block_inSrc {src : Text} {ts : List Gramem} {b : Span} (h : ReadsBlock ts b)
    (hl : Lexed src ts) : InSrc src b := by
  cases h with
  | none => exact ⟨Nat.le_refl _, Nat.zero_le _, .inl rfl, .inl rfl⟩
  | some _ => exact hl.tok (by simp)

theorem altSymbols_flat (alts : List (List Item)) : altSymbols alts = alts.flatMap symbols := by
  induction alts with
  | nil => rw [altSymbols]; rfl
  | cons a as ih => rw [altSymbols, ih]; rfl

theorem altNames_flat (alts : List (List Item)) : altNames alts = alts.flatMap names := by
  induction alts with
  | nil => rw [altNames]; rfl
  | cons a as ih => rw [altNames, ih]; rfl

theorem symbols_append (a b : List Item) : symbols (a ++ b) = symbols a ++ symbols b := by
  induction a with
  | nil => rw [symbols]; rfl
  | cons i a ih => rw [List.cons_append, symbols, ih, symbols, List.append_assoc]

theorem names_append' (a b : List Item) : names (a ++ b) = names a ++ names b := by
  induction a with
  | nil => rw [names]; rfl
  | cons i a ih => rw [List.cons_append, names, ih, names, List.append_assoc]

theorem readable_one {src : Text} {i : Item} (h1 : ∀ sp ∈ i.symbols, InSrc src sp)
    (h2 : ∀ sp ∈ i.names, InSrc src sp) : Readable src [i] := by
  intro sp hsp
  rw [symbols, symbols, names, names, List.append_nil, List.append_nil] at hsp
  exact (List.mem_append.mp hsp).elim (h1 sp) (h2 sp)

theorem readable_append {src : Text} {a b : List Item} (ha : Readable src a) (hb : Readable src b) :
    Readable src (a ++ b) := by
  intro sp hsp
  rw [symbols_append, names_append'] at hsp
  simp only [List.mem_append] at hsp
  rcases hsp with (h | h) | (h | h)
  · exact ha sp (by simp [h])
  · exact hb sp (by simp [h])
  · exact ha sp (by simp [h])
  · exact hb sp (by simp [h])

theorem Readable.symbols {src : Text} {a : List Item} (h : Readable src a) :
    ∀ sp ∈ Spec.symbols a, InSrc src sp := fun sp hs => h sp (by simp [hs])

theorem Readable.names {src : Text} {a : List Item} (h : Readable src a) :
    ∀ sp ∈ Spec.names a, InSrc src sp := fun sp hs => h sp (by simp [hs])

mutual

theorem item_readable {src : Text} {ts : List Gramem} {it : Item} {bs : List Span}
    (h : ReadsItem ts it bs) (hl : Lexed src ts) : Readable src [it] := by
  match h with
  | .path hp ho ha =>
    have h1 := path_inSrc hp hl.left.left
    have h2 := alias_inSrc ha hl.right
    refine readable_one ?_ (by rw [Item.names]; exact h2)
    rw [Item.symbols]
    intro sp hsp
    exact List.mem_singleton.mp hsp ▸ h1
  | .lit ht ho ha =>
    have h1 := hl.left.left.tok (List.mem_singleton.mpr rfl)
    have h2 := alias_inSrc ha hl.right
    refine readable_one ?_ (by rw [Item.names]; exact h2)
    rw [Item.symbols]
    intro sp hsp
    exact List.mem_singleton.mp hsp ▸ h1
  | .group h1 hr h2 ho ha =>
    have hr' := rule_readable hr hl.left.left.left.tail
    have h2 := alias_inSrc ha hl.right
    refine readable_one ?_ ?_
    · rw [Item.symbols, altSymbols_flat]
      intro sp hsp
      simp only [List.flatMap_map, List.mem_flatMap] at hsp
      obtain ⟨a, ha, hsp⟩ := hsp
      exact Readable.symbols (hr' a ha).2 sp hsp
    · rw [Item.names, altNames_flat]
      intro sp hsp
      rcases List.mem_append.mp hsp with hsp | hsp
      · exact h2 sp hsp
      · simp only [List.flatMap_map, List.mem_flatMap] at hsp
        obtain ⟨a, ha, hsp⟩ := hsp
        exact Readable.names (hr' a ha).2 sp hsp

theorem items_readable {src : Text} {ts : List Gramem} {is : List Item} {bs : List Span}
    (h : ReadsItems ts is bs) (hl : Lexed src ts) : Readable src is := by
  match h with
  | .one hi => exact item_readable hi hl
  | .more hp hi => exact readable_append (items_readable hp hl.left) (item_readable hi hl.right)

theorem rule_readable {src : Text} {ts : List Gramem} {alts : List Alt} (h : ReadsRule ts alts)
    (hl : Lexed src ts) : ∀ a ∈ alts, a.Readable src := by
  match h with
  | .one hp hb =>
    intro a ha
    rw [List.mem_singleton.mp ha]
    exact ⟨block_inSrc hb hl.right, items_readable hp hl.left⟩
  | .more hr hq hp hb =>
    intro a ha
    rcases List.mem_append.mp ha with ha | ha
    · exact rule_readable hr hl.left.left a ha
    · rw [List.mem_singleton.mp ha]
      exact ⟨block_inSrc hb hl.right, items_readable hp hl.left.right.tail⟩

end

theorem decl_readable {src : Text} {ts : List Gramem} {d : Decl} (h : ReadsDecl ts d)
    (hl : Lexed src ts) : d.Readable src := by
  cases h with
  | rule hi hc ht he hr =>
    exact ⟨path_inSrc hi hl.left.left, path_inSrc ht hl.left.right.tail,
      rule_readable hr hl.right.tail⟩
  | use hu ht => exact path_inSrc ht hl.tail
  | @useAll u c g ts sp hu ht hc hg =>
    obtain ⟨tr, rfl, gt⟩ := tree_path ht
    have hl' : Lexed src (tr.yield ++ [c, g]) := hl.tail
    exact hl'.cover (cover_append gt.cover (s' := Span.new c.item.span.start g.item.span.stop) rfl)
  | token ha hn ht => exact ⟨hl.tok (by simp), path_inSrc ht hl.tail.tail⟩

theorem program_readable {src : Text} {ts : List Gramem} {ds : List Decl} (h : ReadsProgram ts ds)
    (hl : Lexed src ts) : ∀ d ∈ ds, d.Readable src := by
  induction h with
  | one hd hs =>
    intro d' hd'
    rw [List.mem_singleton.mp hd']
    exact decl_readable hd hl.left
  | more _ hd hs ih =>
    intro d' hd'
    rcases List.mem_append.mp hd' with hd' | hd'
    · exact ih hl.left.left d' hd'
    · rw [List.mem_singleton.mp hd']
      exact decl_readable hd hl.left.right

mutual

theorem item_cloning_spans (i : Item) :
    i.cloning.symbols = i.symbols ∧ i.cloning.names = i.names := by
  cases i with
  | sym sp opt al cl =>
    rw [Item.cloning, Item.symbols, Item.symbols, Item.names, Item.names]
    exact ⟨rfl, rfl⟩
  | group alts opt al cl =>
    obtain ⟨h1, h2⟩ := altCloning_spans alts
    rw [Item.cloning, Item.symbols, Item.symbols, Item.names, Item.names, h1, h2]
    exact ⟨rfl, rfl⟩

theorem cloning_spans (is : List Item) :
    symbols (cloning is) = symbols is ∧ names (cloning is) = names is := by
  cases is with
  | nil => rw [cloning]; exact ⟨rfl, rfl⟩
  | cons i is =>
    obtain ⟨h1, h2⟩ := item_cloning_spans i
    obtain ⟨h3, h4⟩ := cloning_spans is
    rw [cloning, symbols, symbols, names, names, h1, h2, h3, h4]
    exact ⟨rfl, rfl⟩

theorem altCloning_spans (as : List (List Item)) :
    altSymbols (altCloning as) = altSymbols as ∧ altNames (altCloning as) = altNames as := by
  cases as with
  | nil => rw [altCloning]; exact ⟨rfl, rfl⟩
  | cons a as =>
    obtain ⟨h1, h2⟩ := cloning_spans a
    obtain ⟨h3, h4⟩ := altCloning_spans as
    rw [altCloning, altSymbols, altSymbols, altNames, altNames, h1, h2, h3, h4]
    exact ⟨rfl, rfl⟩

end

mutual

theorem item_wellNamed_cloning {src : Text} (i : Item) (h : i.WellNamed src) : i.cloning.WellNamed src := by
  cases i with
  | sym sp opt al cl => rw [Item.cloning, Item.WellNamed]; trivial
  | group alts opt al cl =>
    rw [Item.WellNamed] at h
    rw [Item.cloning, Item.WellNamed]
    refine ⟨?_, ?_, altsWellNamed_cloning alts h.2.2⟩
    · rw [(altCloning_spans alts).2]
      exact h.1
    · unfold Balanced
      rw [(altCloning_spans alts).2]
      intro a ha b hb e
      refine (h.2.1 a ha b hb e).imp id (fun hA A hm => ?_)
      rw [altCloning_map] at hm
      obtain ⟨A', hA', rfl⟩ := List.mem_map.mp hm
      rw [(cloning_spans A').2]
      exact hA A' hA'

theorem wellNamed_cloning {src : Text} (is : List Item) (h : WellNamed src is) :
    WellNamed src (cloning is) := by
  cases is with
  | nil => rw [cloning, WellNamed]; trivial
  | cons i is =>
    rw [WellNamed] at h
    rw [cloning, WellNamed, (item_cloning_spans i).2, (cloning_spans is).2]
    exact ⟨item_wellNamed_cloning i h.1, wellNamed_cloning is h.2.1, h.2.2⟩

theorem altsWellNamed_cloning {src : Text} (as : List (List Item)) (h : AltsWellNamed src as) :
    AltsWellNamed src (altCloning as) := by
  cases as with
  | nil => rw [altCloning, AltsWellNamed]; trivial
  | cons a as =>
    rw [AltsWellNamed] at h
    rw [altCloning, AltsWellNamed]
    exact ⟨wellNamed_cloning a h.1, altsWellNamed_cloning as h.2⟩

end

theorem decl_cloning_readable {src : Text} {d : Decl} (h : d.Readable src) :
    d.cloning.Readable src := by
  cases d with
  | rule ident ty alts =>
    refine ⟨h.1, h.2.1, ?_⟩
    intro a ha
    obtain ⟨a, ha', rfl⟩ := List.mem_map.mp ha
    obtain ⟨h1, h2⟩ := h.2.2 a ha'
    refine ⟨h1, ?_⟩
    unfold Spec.Readable at h2 ⊢
    unfold Alt.cloning
    obtain ⟨e1, e2⟩ := cloning_spans a.items
    rw [e1, e2]
    exact h2
  | use p => exact h
  | token n t => exact h

/-- The value of the tree of a program. -/
theorem program_value {src : Text} {tr : PTree} {ds : List Decl} (h : GoodProgram tr ds)
    (hl : Lexed src tr.yield) : ∃ v, tr.eval red = some v ∧
      ∀ ty, IsProgram src ⟨v, ty⟩ (ds.map Decl.cloning) := by
  obtain ⟨gs, sp, h1, _, h2⟩ := h.value
  refine ⟨_, h1, fun ty => ⟨⟨gs, rfl, h2⟩, ?_⟩⟩
  intro d hd
  obtain ⟨d, hd', rfl⟩ := List.mem_map.mp hd
  exact decl_cloning_readable (program_readable h.reads hl d hd')

end Lrp.Wop

namespace Lrp.Wop
open Lrp.Wop.Spec Lrp.Spec

/-! ### Declarations with all aliases marked -/

theorem ruleNames_cloning (src : Text) (ds : List Decl) :
    ruleNames src (ds.map Decl.cloning) = ruleNames src ds := by
  induction ds with
  | nil => rfl
  | cons d ds ih => cases d <;> simp [ruleNames, Decl.cloning, ih]

theorem tokens_cloning (src : Text) (ds : List Decl) :
    tokens src (ds.map Decl.cloning) = tokens src ds := by
  induction ds with
  | nil => rfl
  | cons d ds ih => cases d <;> simp [tokens, Decl.cloning, ih]

theorem uses_cloning (ds : List Decl) : uses (ds.map Decl.cloning) = uses ds := by
  induction ds with
  | nil => rfl
  | cons d ds ih => cases d <;> simp [uses, Decl.cloning, ih]

theorem placed_cloning {src : Text} {ds : List Decl} :
    Placed src (ds.map Decl.cloning) ↔ Placed src ds := by
  constructor
  · intro h ident ty alts hd a ha
    exact h ident ty (alts.map Alt.cloning) (List.mem_map.mpr ⟨_, hd, rfl⟩) a.cloning
      (List.mem_map_of_mem ha)
  · intro h ident ty alts hd a ha
    obtain ⟨d, hd', e⟩ := List.mem_map.mp hd
    cases d with
    | rule ident' ty' alts' =>
      simp only [Decl.cloning, Decl.rule.injEq] at e
      obtain ⟨rfl, rfl, rfl⟩ := e
      obtain ⟨a, ha', rfl⟩ := List.mem_map.mp ha
      exact h _ _ _ hd' a ha'
    | use p => cases e
    | token n t => cases e

theorem proper_cloning {src : Text} {ds : List Decl} :
    Proper src (ds.map Decl.cloning) ↔ Proper src ds := by
  constructor
  · rintro ⟨h1, h2, h3⟩
    rw [ruleNames_cloning] at h1
    rw [tokens_cloning] at h2
    exact ⟨h1, h2, placed_cloning.mp h3⟩
  · rintro ⟨h1, h2, h3⟩
    refine ⟨?_, ?_, placed_cloning.mpr h3⟩
    · rw [ruleNames_cloning]; exact h1
    · rw [tokens_cloning]; exact h2

theorem addable_empty {src : Text} {ds : List Decl} : Addable src Builder.empty ds ↔ Proper src ds :=
  ⟨fun h => h.1, fun h => ⟨h, by simp [Builder.empty], by simp [Builder.empty]⟩⟩

/-- The expansion with the flag `&` on every alias. -/
def _root_.Lrp.Wop.Spec.Expansion.cloning (x : Expansion) : Expansion :=
  { x with places := x.places.map (fun p => (p.1, { p.2 with clone := true })) }

theorem append_cloning (e r : Expansion) : (e.append r).cloning = e.cloning.append r.cloning := by
  simp [Expansion.append, Expansion.cloning, Expansion.shift, Function.comp_def]

theorem cloning_length (is : List Item) : (cloning is).length = is.length := by
  induction is with
  | nil => rw [cloning]
  | cons i is ih => rw [cloning, List.length_cons, List.length_cons, ih]

mutual

theorem item_expand_cloning (i : Item) : i.cloning.expand = i.expand.map Expansion.cloning := by
  cases i with
  | sym sp opt al cl =>
    rw [Item.cloning, Item.expand, Item.expand]
    cases al <;> cases opt <;> simp [Expansion.cloning, Expansion.empty]
  | group alts opt al cl =>
    rw [Item.cloning, Item.expand, Item.expand, List.map_append, expandAlts_cloning al cl alts]
    cases opt <;> simp [Expansion.cloning, Expansion.empty]

theorem expand_cloning (is : List Item) : expand (cloning is) = (expand is).map Expansion.cloning := by
  cases is with
  | nil => rw [cloning, expand]; simp [Expansion.cloning, Expansion.empty]
  | cons i is =>
    rw [cloning, expand, expand, item_expand_cloning, expand_cloning]
    simp only [List.flatMap_map, List.map_flatMap, List.map_map]
    congr 1
    funext e
    simp only [Function.comp_def, append_cloning]

theorem expandAlts_cloning (al : Option Span) (cl : Bool) (alts : List (List Item)) :
    expandAlts al al.isSome (altCloning alts) = (expandAlts al cl alts).map Expansion.cloning := by
  cases alts with
  | nil => rw [altCloning, expandAlts, expandAlts]; rfl
  | cons a as =>
    rw [altCloning, expandAlts, expandAlts, List.map_append, expand_cloning, expandAlts_cloning al cl as]
    congr 1
    rw [List.map_map, List.map_map]
    congr 1
    funext e
    have hn := (cloning_spans a).2
    cases al <;> simp [Expansion.cloning, hn, cloning_length]

end

theorem expansions_cloning (alts : List Alt) :
    expansions (alts.map Alt.cloning) =
      (expansions alts).map (fun ax => (ax.1.cloning, ax.2.cloning)) := by
  unfold expansions
  simp only [List.flatMap_map, List.map_flatMap, List.map_map]
  congr 1
  funext a
  simp [Alt.cloning, expand_cloning, Function.comp_def]

end Lrp.Wop
