import Verif.Spec.WopLang
import Verif.Props.WopLex
import Verif.Proofs.Cfg

/-! Proofs about the code generated by wop. -/

namespace Lrp.Wop
open _root_.Lrp.Spec _root_.Lrp.Wop.Spec
set_option linter.unusedSectionVars false

variable {X T : Type}

/-! ### Items and expansions -/

section
variable {src : Text} {sym : Text → T} {ds : List Decl}

/-- What symbols one after the other describe. -/
inductive SymsWord (src : Text) (sym : Text → T) (ds : List Decl) : List T → List T → Prop
  | nil : SymsWord src sym ds [] []
  | cons {x : T} {xs u v : List T} : SymWord src sym ds x u → SymsWord src sym ds xs v →
      SymsWord src sym ds (x :: xs) (u ++ v)

theorem SymsWord.append {xs ys u v : List T} (h : SymsWord src sym ds xs u)
    (h' : SymsWord src sym ds ys v) : SymsWord src sym ds (xs ++ ys) (u ++ v) := by
  induction h with
  | nil => exact h'
  | cons h1 _ ih => rw [List.append_assoc]; exact .cons h1 ih

theorem SymsWord.split : ∀ {xs ys w : List T}, SymsWord src sym ds (xs ++ ys) w →
    ∃ u v, w = u ++ v ∧ SymsWord src sym ds xs u ∧ SymsWord src sym ds ys v
  | [], ys, w, h => ⟨[], w, rfl, .nil, h⟩
  | x :: xs, ys, w, h => by
    cases h with
    | cons h1 h2 =>
      obtain ⟨u, v, rfl, h3, h4⟩ := SymsWord.split h2
      exact ⟨_, v, by rw [List.append_assoc], .cons h1 h3, h4⟩

mutual

theorem ItemWord.expand {pre : List Decl} {i : Item} {w : List T} (h : ItemWord src sym ds pre i w) :
    ∃ x ∈ i.expand, SymsWord src sym ds (x.word.map (denotes src sym pre)) w := by
  match h with
  | .sym h1 =>
    refine ⟨_, mem_expand_sym.mpr (.inl rfl), ?_⟩
    simpa using SymsWord.cons h1 .nil
  | .skip => exact ⟨_, mem_expand_sym.mpr (.inr ⟨rfl, rfl⟩), .nil⟩
  | .group h1 h2 =>
    obtain ⟨x, hx, h3⟩ := ItemsWord.expand h2
    exact ⟨_, mem_expand_group.mpr (.inl ⟨_, h1, x, hx, rfl⟩), h3⟩
  | .skipGroup => exact ⟨_, mem_expand_group.mpr (.inr ⟨rfl, rfl⟩), .nil⟩

theorem ItemsWord.expand {pre : List Decl} {is : List Item} {w : List T}
    (h : ItemsWord src sym ds pre is w) :
    ∃ x ∈ Spec.expand is, SymsWord src sym ds (x.word.map (denotes src sym pre)) w := by
  match h with
  | .nil => exact ⟨_, mem_expand_nil.mpr rfl, .nil⟩
  | .cons h1 h2 =>
    obtain ⟨x, hx, h3⟩ := ItemWord.expand h1
    obtain ⟨y, hy, h4⟩ := ItemsWord.expand h2
    refine ⟨_, mem_expand_cons.mpr ⟨x, hx, y, hy, rfl⟩, ?_⟩
    simp only [Expansion.append, List.map_append]
    exact h3.append h4

end

theorem itemsWord_of_expand (pre : List Decl) (is : List Item) : ∀ x ∈ Spec.expand is, ∀ w,
    SymsWord src sym ds (x.word.map (denotes src sym pre)) w → ItemsWord src sym ds pre is w := by
  refine items_induct (P := fun i => ∀ x ∈ i.expand, ∀ w,
    SymsWord src sym ds (x.word.map (denotes src sym pre)) w → ItemWord src sym ds pre i w)
    (Q := fun is => ∀ x ∈ Spec.expand is, ∀ w,
    SymsWord src sym ds (x.word.map (denotes src sym pre)) w → ItemsWord src sym ds pre is w) ?_ ?_ ?_ ?_ is
  · intro sp o al c x hx w h
    rcases mem_expand_sym.mp hx with rfl | ⟨rfl, rfl⟩
    · cases h with
      | cons h1 h2 =>
        cases h2
        rw [List.append_nil]
        exact .sym h1
    · cases h
      exact .skip
  · intro alts o al c ih x hx w h
    rcases mem_expand_group.mp hx with ⟨A, hA, e, he, rfl⟩ | ⟨rfl, rfl⟩
    · exact .group hA (ih A hA e he w h)
    · cases h
      exact .skipGroup
  · intro x hx w h
    cases mem_expand_nil.mp hx
    cases h
    exact .nil
  · intro i is ih1 ih2 x hx w h
    obtain ⟨e, he, r, hr, rfl⟩ := mem_expand_cons.mp hx
    simp only [Expansion.append, List.map_append] at h
    obtain ⟨u, v, rfl, h1, h2⟩ := h.split
    exact .cons (ih1 e he u h1) (ih2 r hr v h2)

theorem itemsWord_iff {pre : List Decl} {is : List Item} {w : List T} :
    ItemsWord src sym ds pre is w ↔
      ∃ x ∈ Spec.expand is, SymsWord src sym ds (x.word.map (denotes src sym pre)) w :=
  ⟨ItemsWord.expand, fun ⟨x, hx, h⟩ => itemsWord_of_expand pre is x hx w h⟩

theorem mem_expansions {alts : List Alt} {a : Alt} {x : Expansion} :
    (a, x) ∈ expansions alts ↔ a ∈ alts ∧ x ∈ Spec.expand a.items := by
  unfold expansions
  rw [List.mem_flatMap]
  constructor
  · rintro ⟨a', ha, h⟩
    obtain ⟨x', hx, e⟩ := List.mem_map.mp h
    cases e
    exact ⟨ha, hx⟩
  · rintro ⟨ha, hx⟩
    exact ⟨a, ha, List.mem_map.mpr ⟨x, hx, rfl⟩⟩

/-! ### The generated grammar -/

/-- The grammar has, for every rule, the expansions of its alternatives as productions. -/
structure GrammarOf (src : Text) (sym : Text → T) (ds : List Decl) (D : Decls T) : Prop where
  prods : ∀ A i body, IsProd D A i body ↔ ∃ pre ident alts a x, HasRule ds pre ident alts ∧
    sym (textOf src ident) = A ∧ (expansions alts)[i]? = some (a, x) ∧
    body = x.word.map (denotes src sym pre)
  tokens : ∀ x, Terminal D x ↔ IsToken src sym ds x

variable {D : Decls T}

mutual

theorem SymWord.derives (hD : GrammarOf src sym ds D) {x : T} {w : List T}
    (h : SymWord src sym ds x w) : Derives D [x] w ∧ ∀ t ∈ w, Terminal D t := by
  match h with
  | .token h1 =>
    refine ⟨.refl _, ?_⟩
    intro t ht
    cases List.mem_singleton.mp ht
    exact (hD.tokens _).mpr h1
  | .rule (pre := pre) (a := a) h1 h2 h3 =>
    obtain ⟨x, hx, h4, h5⟩ := ItemsWord.derives hD h3
    obtain ⟨i, hi⟩ := List.getElem?_of_mem (mem_expansions.mpr ⟨h2, hx⟩)
    refine ⟨(Derives.of_prod ((hD.prods _ i _).mpr ⟨pre, _, _, a, x, h1, rfl, hi, rfl⟩)).trans h4, h5⟩

theorem ItemWord.derives (hD : GrammarOf src sym ds D) {pre : List Decl} {i : Item} {w : List T}
    (h : ItemWord src sym ds pre i w) : ∃ x ∈ i.expand,
      Derives D (x.word.map (denotes src sym pre)) w ∧ ∀ t ∈ w, Terminal D t := by
  match h with
  | .sym h1 => exact ⟨_, mem_expand_sym.mpr (.inl rfl), SymWord.derives hD h1⟩
  | .skip => exact ⟨_, mem_expand_sym.mpr (.inr ⟨rfl, rfl⟩), .refl _, by simp⟩
  | .group h1 h2 =>
    obtain ⟨x, hx, h3⟩ := ItemsWord.derives hD h2
    exact ⟨_, mem_expand_group.mpr (.inl ⟨_, h1, x, hx, rfl⟩), h3⟩
  | .skipGroup => exact ⟨_, mem_expand_group.mpr (.inr ⟨rfl, rfl⟩), .refl _, by simp⟩

theorem ItemsWord.derives (hD : GrammarOf src sym ds D) {pre : List Decl} {is : List Item} {w : List T}
    (h : ItemsWord src sym ds pre is w) : ∃ x ∈ Spec.expand is,
      Derives D (x.word.map (denotes src sym pre)) w ∧ ∀ t ∈ w, Terminal D t := by
  match h with
  | .nil => exact ⟨_, mem_expand_nil.mpr rfl, .refl _, by simp⟩
  | .cons h1 h2 =>
    obtain ⟨x, hx, h3, h4⟩ := ItemWord.derives hD h1
    obtain ⟨y, hy, h5, h6⟩ := ItemsWord.derives hD h2
    refine ⟨_, mem_expand_cons.mpr ⟨x, hx, y, hy, rfl⟩, ?_, ?_⟩
    · simp only [Expansion.append, List.map_append]
      exact h3.append h5
    · intro t ht
      rcases List.mem_append.mp ht with ht | ht
      · exact h4 t ht
      · exact h6 t ht

end

theorem symWord_of_tree (hD : GrammarOf src sym ds D) {M : Type} (tr : Tree M T)
    (hv : Tree.Valid D tr) : SymWord src sym ds tr.root (tr.yield.map Token.ty) := by
  induction tr using Tree.ind with
  | leaf tok =>
    cases hv with
    | leaf h => simpa [Tree.root] using SymWord.token ((hD.tokens _).mp h)
  | node A i cs ih =>
    cases hv with
    | node hp hc =>
      obtain ⟨pre, ident, alts, a, x, h1, rfl, h3, h4⟩ := (hD.prods _ _ _).mp hp
      obtain ⟨h5, h6⟩ := mem_expansions.mp (List.mem_of_getElem? h3)
      refine SymWord.rule h1 h5 (itemsWord_of_expand pre a.items x h6 _ ?_)
      rw [← h4, Tree.yield_node]
      clear h4 hp
      induction cs with
      | nil => simpa using SymsWord.nil
      | cons c cs ihc =>
        rw [Tree.yields_cons, List.map_append, List.map_cons]
        exact .cons (ih c (by simp) (hc c (by simp)))
          (ihc (fun c h => ih c (List.mem_cons_of_mem _ h)) (fun c h => hc c (List.mem_cons_of_mem _ h)))

theorem sentence_iff_word (hD : GrammarOf src sym ds D) {x : T} {w : List T} :
    Sentence D x w ↔ SymWord src sym ds x w := by
  constructor
  · rintro ⟨h1, h2⟩
    have e : w = (w.map (fun t => (⟨(), t⟩ : Token Unit T))).map Token.ty := by simp [Function.comp_def]
    rw [e] at h1
    obtain ⟨tr, k1, k2, k3⟩ := Tree.of_derives h1 (by
      intro tok ht
      obtain ⟨t, ht', rfl⟩ := List.mem_map.mp ht
      exact h2 t ht')
    have := symWord_of_tree hD tr k2
    rw [k1, k3, ← e] at this
    exact this
  · exact SymWord.derives hD

end

/-! ### The generated reductors -/

theorem Binds.unique {τ : Type} {src : Text} {a : Alt} {x : Expansion} (hx : x ∈ Spec.expand a.items)
    {toks : List τ}
    {vars vars' : Text → Option (Value τ)} (h : Binds src a x toks vars) (h' : Binds src a x toks vars') :
    vars = vars' := by
  funext name
  by_cases hn : ∃ n ∈ names a.items, textOf src n = name
  · obtain ⟨n, hn, rfl⟩ := hn
    by_cases ht : x.TakesName src (textOf src n)
    · obtain ⟨m, pl, hpl, et⟩ := takesName_iff.mp ht
      have hm := places_names _ x hx m pl hpl
      obtain ⟨v, e1, e2⟩ := (h.2 m hm).2 pl hpl
      obtain ⟨v', e1', e2'⟩ := (h'.2 m hm).2 pl hpl
      rw [e1] at e1'
      cases e1'
      rw [← et, e2, e2']
    · rw [(h.2 n hn).1 ht, (h'.2 n hn).1 ht]
  · have hn : ∀ n ∈ names a.items, textOf src n ≠ name := fun n h e => hn ⟨n, h, e⟩
    rw [h.1 name hn, h'.1 name hn]

/-- The reductor map has a function for every expansion of every rule, whose `let`s bind its aliases. -/
def ReductorsOf [LinOrd T] (src : Text) (R : Rust X T) (ds : List Decl)
    (maps : ReductMap (Meta X) T) : Prop :=
  ∀ pre ident alts i a x, HasRule ds pre ident alts → (expansions alts)[i]? = some (a, x) →
    ∃ f : Reductor, (∀ its, redOf maps (R.sym (textOf src ident)) i its = R.call src f its) ∧
      textOf src a.block = 45 :: 62 :: (f.code ++ [37]) ∧
      ∀ its : List (Token (Meta X) T), its.length = x.word.length → its ≠ [] →
        ∃ lets, runLets src its f.lets = .ok lets ∧ Binds src a x its (valueOf lets)

section
variable [LinOrd T] {src : Text} {R : Rust X T} {ds : List Decl} {D : Decls T}
  {maps : ReductMap (Meta X) T}

theorem SymsValue.length {xs : List T} {toks vals : List (Token (Meta X) T)}
    (h : SymsValue src R ds xs toks vals) : vals.length = xs.length := by
  match h with
  | .nil => rfl
  | .cons _ h2 => rw [List.length_cons, List.length_cons, SymsValue.length h2]

mutual

theorem SymValue.tree (hD : GrammarOf src R.sym ds D) (hm : ReductorsOf src R ds maps) {x : T}
    {toks : List (Token (Meta X) T)} {v : Meta X} (h : SymValue src R ds x toks v) :
    ∃ tr, Tree.Valid D tr ∧ tr.root = x ∧ tr.yield = toks ∧ tr.eval (redOf maps) = some v := by
  match h with
  | .token h1 =>
    refine ⟨.leaf ⟨v, x⟩, .leaf ((hD.tokens _).mpr h1), rfl, by simp, by rw [Tree.eval]⟩
  | .rule (pre := pre) (ident := ident) (a := a) (x := y) (vals := vals) (code := code) h1 h2 h3 h4 h5 h6 h7 h8 h9 =>
    obtain ⟨cs, k1, k2, k3, k4⟩ := SymsValue.trees hD hm h4
    obtain ⟨i, hi⟩ := List.getElem?_of_mem (mem_expansions.mpr ⟨h2, h3⟩)
    have hne : vals ≠ [] := by rintro rfl; cases h8
    obtain ⟨f, g1, g2, g3⟩ := hm pre ident _ i a y h1 hi
    obtain ⟨lets, g4, g5⟩ := g3 vals (by rw [SymsValue.length h4, List.length_map]) hne
    refine ⟨.node _ i cs, .node ((hD.prods _ i _).mpr ⟨pre, ident, _, a, y, h1, rfl, hi, k2⟩) k1,
      rfl, by rw [Tree.yield_node, k3], ?_⟩
    rw [Tree.eval, k4, Option.bind_some, g1]
    unfold Rust.call
    rw [g4]
    simp only
    rw [Binds.unique h3 g5 h6]
    rw [g2] at h5
    have e : f.code = code := by simpa using h5
    rw [List.head?_eq_getElem?] at h8
    rw [e, h7, h8, h9]
    rfl

theorem SymsValue.trees (hD : GrammarOf src R.sym ds D) (hm : ReductorsOf src R ds maps) {xs : List T}
    {toks vals : List (Token (Meta X) T)} (h : SymsValue src R ds xs toks vals) :
    ∃ cs : List (Tree (Meta X) T), (∀ c ∈ cs, Tree.Valid D c) ∧ cs.map Tree.root = xs ∧
      Tree.yields cs = toks ∧ Tree.evals (redOf maps) cs = some vals := by
  match h with
  | .nil => exact ⟨[], by simp, rfl, by simp, by rw [Tree.evals]⟩
  | .cons h1 h2 =>
    obtain ⟨tr, k1, k2, k3, k4⟩ := SymValue.tree hD hm h1
    obtain ⟨cs, g1, g2, g3, g4⟩ := SymsValue.trees hD hm h2
    refine ⟨tr :: cs, List.forall_mem_cons.mpr ⟨k1, g1⟩, by rw [List.map_cons, k2, g2],
      by rw [Tree.yields_cons, k3, g3], ?_⟩
    rw [Tree.evals, k4, g4, k2]

end

theorem symValue_of_tree (hD : GrammarOf src R.sym ds D) (hm : ReductorsOf src R ds maps)
    (tr : Tree (Meta X) T) (hv : Tree.Valid D tr) : ∀ v, tr.eval (redOf maps) = some v →
    SymValue src R ds tr.root tr.yield v := by
  induction tr using Tree.ind with
  | leaf tok =>
    intro v h
    rw [Tree.eval] at h
    cases h
    cases hv with
    | leaf h => simpa [Tree.root] using SymValue.token (v := tok.item) ((hD.tokens _).mp h)
  | node A i cs ih =>
    intro v h
    cases hv with
    | node hp hc =>
      rw [Tree.eval] at h
      obtain ⟨vals, hvals, hred⟩ := Option.bind_eq_some_iff.mp h
      obtain ⟨pre, ident, alts, a, x, h1, rfl, h3, h4⟩ := (hD.prods _ _ _).mp hp
      obtain ⟨h5, h6⟩ := mem_expansions.mp (List.mem_of_getElem? h3)
      obtain ⟨f, g1, g2, g3⟩ := hm pre ident alts i a x h1 h3
      have hs : SymsValue src R ds (x.word.map (denotes src R.sym pre)) (Tree.yields cs) vals := by
        rw [← h4]
        clear h4 hp hred h
        induction cs generalizing vals with
        | nil =>
          rw [Tree.evals] at hvals
          cases hvals
          simpa using SymsValue.nil
        | cons c cs ihc =>
          rw [Tree.evals] at hvals
          split at hvals
          · rename_i v' vs' e1 e2
            cases hvals
            rw [Tree.yields_cons, List.map_cons]
            exact .cons (ih c (by simp) (hc c (by simp)) _ e1)
              (ihc (fun c h => ih c (List.mem_cons_of_mem _ h))
                (fun c h => hc c (List.mem_cons_of_mem _ h)) _ e2)
          · cases hvals
      have hlen := SymsValue.length hs
      rw [List.length_map] at hlen
      rw [g1] at hred
      have hne : vals ≠ [] := by
        rintro rfl
        unfold Rust.call at hred
        split at hred
        · simp at hred
        · cases hred
      obtain ⟨lets, g4, g5⟩ := g3 vals hlen hne
      unfold Rust.call at hred
      rw [g4] at hred
      simp only at hred
      obtain ⟨r, e1, hred⟩ := Option.bind_eq_some_iff.mp hred
      obtain ⟨first, e2, hred⟩ := Option.bind_eq_some_iff.mp hred
      obtain ⟨last, e3, hred⟩ := Option.bind_eq_some_iff.mp hred
      cases hred
      rw [Tree.yield_node]
      exact .rule h1 h5 h6 hs g2 g5 e1 (by rw [List.head?_eq_getElem?]; exact e2) e3

end

/-! ### What `from_str` builds -/

theorem takesName_cloning {src : Text} {x : Expansion} {t : Text} :
    x.cloning.TakesName src t ↔ x.TakesName src t := by
  unfold Expansion.TakesName Expansion.cloning
  rw [List.map_map]
  exact Iff.rfl

theorem runLets_names {τ : Type} {src : Text} {toks : List τ} : ∀ {as : List ItemAlias}
    {lets : List (Text × Value τ)}, runLets src toks as = .ok lets → (∀ a ∈ as, InSrc src a.alias) →
    lets.map (·.1) = as.map (fun a => textOf src a.alias)
  | [], lets, h, _ => by cases h; rfl
  | a :: as, lets, h, hin => by
    rw [runLets, slice_ok (hin a (List.mem_cons_self ..))] at h
    simp only [Out.ok_bind] at h
    obtain ⟨v, _, h⟩ := Out.bind_eq_ok.mp h
    obtain ⟨r, hr, h⟩ := Out.bind_eq_ok.mp h
    cases h
    rw [List.map_cons, List.map_cons, runLets_names hr (fun b hb => hin b (List.mem_cons_of_mem _ hb))]

theorem lookup_none {ν : Type} {t : Text} : ∀ {l : List (Text × ν)}, (∀ p ∈ l, p.1 ≠ t) → l.lookup t = none
  | [], _ => rfl
  | (k, v) :: l, h => by
    rw [List.lookup_cons]
    have : (t == k) = false := by
      have := h (k, v) (List.mem_cons_self ..)
      simp only [beq_eq_false_iff_ne, ne_eq]
      exact fun e => this e.symm
    rw [this]
    exact lookup_none (fun p hp => h p (List.mem_cons_of_mem _ hp))

theorem cloning_map (is : List Item) : cloning is = is.map Item.cloning := by
  induction is with
  | nil => rw [cloning]; rfl
  | cons i is ih => rw [cloning, ih]; rfl

theorem bare_cloning (is : List Item) : Spec.bare (cloning is) = Spec.bare is := by
  unfold Spec.bare
  rw [cloning_map, List.flatMap_map]
  congr 1
  funext i
  cases i <;> simp [Item.cloning, Item.bare]

mutual

theorem item_groups_cloning (i : Item) :
    i.cloning.groups = i.groups.map (fun p => (p.1, altCloning p.2)) := by
  cases i with
  | sym sp opt al cl => rw [Item.cloning, Item.groups, Item.groups]; rfl
  | group alts opt al cl =>
    rw [Item.cloning, Item.groups, Item.groups, altGroups_cloning alts, List.map_append, List.map_map]
    rfl

theorem groups_cloning (is : List Item) :
    groups (cloning is) = (groups is).map (fun p => (p.1, altCloning p.2)) := by
  cases is with
  | nil => rw [cloning, groups]; rfl
  | cons i is =>
    rw [cloning, groups, groups, item_groups_cloning i, groups_cloning is, List.map_append]

theorem altGroups_cloning (as : List (List Item)) :
    altGroups (altCloning as) = (altGroups as).map (fun p => (p.1, altCloning p.2)) := by
  cases as with
  | nil => rw [altCloning, altGroups]; rfl
  | cons a as =>
    rw [altCloning, altGroups, altGroups, groups_cloning a, altGroups_cloning as, List.map_append]

end

theorem item_alts_cloning (i : Item) : i.cloning.alts = i.alts.map cloning := by
  cases i with
  | sym sp opt al cl => rw [Item.cloning, Item.alts, Item.alts]; rfl
  | group alts opt al cl => rw [Item.cloning, Item.alts, Item.alts, altCloning_map]

theorem tidy_cloning {src : Text} {is : List Item} (h : Tidy src is) : Tidy src (cloning is) := by
  constructor
  · intro n hn i hi A hA ht x hx
    rw [(cloning_spans is).2] at hn
    rw [cloning_map] at hi
    obtain ⟨i', hi', rfl⟩ := List.mem_map.mp hi
    rw [item_alts_cloning] at hA
    obtain ⟨A', hA', rfl⟩ := List.mem_map.mp hA
    rw [(cloning_spans A').2] at ht
    rw [expand_cloning] at hx
    obtain ⟨x', hx', rfl⟩ := List.mem_map.mp hx
    exact takesName_cloning.mpr (h.1 n hn i' hi' A' hA' ht x' hx')
  · intro p hp A hA x hx
    rw [groups_cloning] at hp
    obtain ⟨p', hp', rfl⟩ := List.mem_map.mp hp
    simp only [altCloning_map] at hA
    obtain ⟨A', hA', rfl⟩ := List.mem_map.mp hA
    rw [expand_cloning] at hx
    obtain ⟨x', hx', rfl⟩ := List.mem_map.mp hx
    rw [cloning_length]
    exact h.2 p' hp' A' hA' x' hx'

/-- The `let`s of a generated reductor bind the aliases as written. -/
theorem generated_binds {order : Nat → List Span → List Span} (hord : Orders order) {src : Text} {a : Alt}
    {x : Expansion} {q : ProductionBuild} (h : Props.Generated order src a.cloning x.cloning q)
    (hd : WellNamed src a.items) (htidy : Tidy src a.items) {τ : Type} {toks : List τ}
    (ht : toks.length = x.word.length) (hne : toks ≠ []) :
    ∃ lets, runLets src toks q.aliases = .ok lets ∧ Binds src a x toks (valueOf lets) := by
  have hnames : names a.cloning.items = names a.items := (cloning_spans a.items).2
  have hd' : WellNamed src a.cloning.items := wellNamed_cloning a.items hd
  obtain ⟨_, hread, _, E, p, rfl, hp1, hp2, hr⟩ := h.rel hord
  obtain ⟨k1, _⟩ := h.entries hord hd'
  have hlen : toks.length = q.production.length := by
    rw [ht, hr.word, hp1]
    simp [Expansion.cloning]
  obtain ⟨lets, g1, g2⟩ := Props.C58_lets hord h hd' (tidy_cloning htidy) hlen hne
  refine ⟨lets, g1, ?_, ?_⟩
  · intro name hn
    unfold valueOf
    refine lookup_none ?_
    intro p hp e
    rw [List.mem_reverse] at hp
    have hm : p.1 ∈ lets.map (·.1) := List.mem_map_of_mem hp
    have hin : ∀ b ∈ q.aliases, b.alias ∈ names a.items := by
      intro b hb
      rw [← hnames]
      exact k1 b hb
    rw [runLets_names g1 (by
      intro b hb
      refine hread _ (List.mem_append_right _ ?_)
      rw [hnames]
      exact hin b hb)] at hm
    obtain ⟨b, hb, e'⟩ := List.mem_map.mp hm
    exact hn b.alias (hin b hb) (e'.trans e)
  · intro n hn
    obtain ⟨g3, g4⟩ := g2 n (by rw [hnames]; exact hn)
    refine ⟨fun hs => g3 (fun h => hs (takesName_cloning.mp h)), ?_⟩
    intro pl hpl
    obtain ⟨v, e1, e2⟩ := g4 { pl with clone := true } (List.mem_map.mpr ⟨_, hpl, rfl⟩)
    refine ⟨v, e1, ?_⟩
    rw [e2]
    have : Spec.bare a.cloning.items = Spec.bare a.items := bare_cloning a.items
    rw [this]

theorem uses_inSrc {src : Text} : ∀ {ds : List Decl}, (∀ d ∈ ds, d.Readable src) → ∀ sp ∈ uses ds,
    InSrc src sp
  | [], _, sp, h => by cases h
  | .use path :: ds, hd, sp, h => by
    rw [uses] at h
    rcases List.mem_cons.mp h with rfl | h
    · exact hd _ (List.mem_cons_self ..)
    · exact uses_inSrc (fun d hd' => hd d (List.mem_cons_of_mem _ hd')) sp h
  | .rule _ _ _ :: ds, hd, sp, h => by
    simp only [uses] at h
    exact uses_inSrc (fun d hd' => hd d (List.mem_cons_of_mem _ hd')) sp h
  | .token _ _ :: ds, hd, sp, h => by
    simp only [uses] at h
    exact uses_inSrc (fun d hd' => hd d (List.mem_cons_of_mem _ hd')) sp h

/-- The rules `from_str` makes of a program, and what is written of them. -/
theorem fromStr_rules {dbg : Bool} {order : Nat → List Span → List Span} (hord : Orders order) {L : LexEnv}
    {src : Text} {ds : List Decl} (hu : Utf8 src) (hr : ReadsProgram (lex L src) ds) {b : Builder}
    (hb : Returns (fun n => Builder.fromStr dbg order n src (lex L src)) (.ok b)) :
    Proper src ds ∧ b.rules.map (·.1) = ruleNames src ds ∧ (∀ sp ∈ b.imports, InSrc src sp) ∧
    ∀ r ∈ b.rules, ∃ (pre : List Decl) (ident ty : Span) (alts : List Alt) (post : List Decl)
        (ws : List (List Text)) (rs : List Reductor),
      ds = pre ++ .rule ident ty alts :: post ∧ r.1 = textOf src ident ∧
      writeRule src r.2 = .ok ws ∧ writeReduction src r.2 = .ok rs ∧
      ws.length = (expansions alts).length ∧ rs.length = (expansions alts).length ∧
      ∀ (i : Nat) (a : Alt) (x : Expansion), (expansions alts)[i]? = some (a, x) →
        ws[i]? = some (x.word.map (fun sp => textOf src (resolve src (tokens src pre) sp))) ∧
        ∃ (q : ProductionBuild) (f : Reductor), rs[i]? = some f ∧ f.lets = q.aliases ∧
          textOf src a.block = 45 :: 62 :: (f.code ++ [37]) ∧
          Props.Generated order src a.cloning x.cloning q := by
  have hl := lex_lexed L hu
  obtain ⟨ast, N, hprog, hfrom⟩ := Props.C50_program dbg order hl hr
  have hproc := Props.fromStr_process hfrom hb
  have hp : Proper src ds := by
    apply Classical.byContradiction
    intro hp
    obtain ⟨w, hw⟩ := (Props.C47_rejects hord hprog Builder.empty).mpr
      (fun h => hp (proper_cloning.mp (addable_empty.mp h)))
    rw [hproc] at hw
    cases hw
  obtain ⟨b', hb', himp, _, hnames, _⟩ := Props.C59_builds dbg hord hl hr hp
  have hproc' := Props.fromStr_process hfrom hb'
  rw [hproc] at hproc'
  cases hproc'
  refine ⟨hp, hnames, ?_, ?_⟩
  · intro sp hsp
    rw [himp, ← uses_cloning] at hsp
    exact uses_inSrc hprog.inside sp hsp
  intro r hrm
  have hm : r.1 ∈ ruleNames src ds := hnames ▸ List.mem_map_of_mem hrm
  obtain ⟨pre, ident, ty, alts, post, rfl, e⟩ := Props.rule_of_name hm
  obtain ⟨hne, hbl⟩ := reads_blocks hr (ident := ident) (ty := ty) (alts := alts) (by simp)
  have hlook : b.rules.lookup (textOf src ident) = some r.2 := by
    rw [← e]
    exact lookup_of_nodup (hnames ▸ hp.rules) hrm
  rw [List.map_append, List.map_cons, Decl.cloning] at hprog
  obtain ⟨prods, ws, rs, g1, g2, g3, g4, g5, g6⟩ := Props.C46_reductors hord hprog
    (by simpa using hne) (by simp [Builder.empty]) hproc (by
      intro a ha
      obtain ⟨a', ha', rfl⟩ := List.mem_map.mp ha
      obtain ⟨body, hbody⟩ := block_code (.refl _) ⟨hne, hbl⟩ ha'
        (hp.blocks ident ty alts (by simp) a' ha')
      exact ⟨body ++ [125], by
        show textOf src a'.block = _
        rw [hbody]
        simp⟩)
  rw [hlook] at g1
  cases g1
  have hlen : (expansions (alts.map Alt.cloning)).length = (expansions alts).length := by
    rw [expansions_cloning, List.length_map]
  refine ⟨pre, ident, ty, alts, post, ws, rs, rfl, e, g2, g3, by rw [g4, hlen], by rw [g5, hlen], ?_⟩
  intro i a x hx
  have hx' : (expansions (alts.map Alt.cloning))[i]? = some (a.cloning, x.cloning) := by
    rw [expansions_cloning, List.getElem?_map, hx]
    rfl
  obtain ⟨k1, q, f, k2, k3, k4, k5, k6⟩ := g6 i a.cloning x.cloning hx'
  rw [tokens_cloning] at k1
  exact ⟨k1, q, f, k3, k4, k6, ⟨⟨ast, _, _, ident, ty, _, Builder.empty, b, r.2, i, hprog, hproc, hlook,
    hx', k2⟩⟩⟩

theorem ruleNames_append (src : Text) : ∀ (a b : List Decl),
    ruleNames src (a ++ b) = ruleNames src a ++ ruleNames src b
  | [], b => rfl
  | .rule i t as :: a, b => by
    simp only [List.cons_append, ruleNames, ruleNames_append src a b]
  | .use p :: a, b => by simp only [List.cons_append, ruleNames, ruleNames_append src a b]
  | .token n t :: a, b => by simp only [List.cons_append, ruleNames, ruleNames_append src a b]

/-- A rule is found by its name. -/
theorem rule_unique {src : Text} : ∀ {pre pre' post post' : List Decl} {ident ident' ty ty' : Span}
    {alts alts' : List Alt}, (ruleNames src (pre ++ .rule ident ty alts :: post)).Nodup →
    pre ++ .rule ident ty alts :: post = pre' ++ .rule ident' ty' alts' :: post' →
    textOf src ident = textOf src ident' → pre = pre' ∧ ident = ident' ∧ alts = alts'
  | [], [], _, _, _, _, _, _, _, _, _, h, _ => by
    simp only [List.nil_append, List.cons.injEq, Decl.rule.injEq] at h
    exact ⟨rfl, h.1.1, h.1.2.2⟩
  | [], d :: pre', post, post', ident, ident', _, _, _, _, hn, h, e => by
    simp only [List.nil_append, List.cons_append, List.cons.injEq] at h
    obtain ⟨rfl, rfl⟩ := h
    simp only [List.nil_append, ruleNames, ruleNames_append, List.nodup_cons, List.mem_append,
      List.mem_cons] at hn
    exact absurd (.inr (.inl e)) hn.1
  | d :: pre, [], post, post', ident, ident', _, _, _, _, hn, h, e => by
    simp only [List.nil_append, List.cons_append, List.cons.injEq] at h
    obtain ⟨rfl, rfl⟩ := h
    simp only [List.cons_append, ruleNames, ruleNames_append, List.nodup_cons, List.mem_append,
      List.mem_cons] at hn
    exact absurd (.inr (.inl e.symm)) hn.1
  | d :: pre, d' :: pre', post, post', ident, ident', ty, _, alts, _, hn, h, e => by
    simp only [List.cons_append, List.cons.injEq] at h
    obtain ⟨rfl, h⟩ := h
    have hn' : (ruleNames src (pre ++ .rule ident ty alts :: post)).Nodup := by
      cases d <;> simp only [List.cons_append, ruleNames, List.nodup_cons] at hn
      · exact hn.2
      · exact hn
      · exact hn
    obtain ⟨rfl, h1⟩ := rule_unique hn' h e
    exact ⟨rfl, h1⟩

section
variable {src : Text} {R : Rust X T}

theorem rules_ok : ∀ {rules : List (Text × RuleBuild)}, (∀ r ∈ rules, ∃ d, R.rule src r = .ok d) →
    ∃ D, R.rules src rules = .ok D
  | [], _ => ⟨[], rfl⟩
  | r :: rules, h => by
    obtain ⟨h1, h2⟩ := List.forall_mem_cons.mp h
    obtain ⟨d, hd⟩ := h1
    obtain ⟨D, hD⟩ := rules_ok h2
    exact ⟨d :: D, by rw [Rust.rules, hd, hD]; rfl⟩

theorem reductions_ok : ∀ {rules : List (Text × RuleBuild)}, (∀ r ∈ rules, ∃ d, R.reduction src r = .ok d) →
    ∃ D, R.reductions src rules = .ok D
  | [], _ => ⟨[], rfl⟩
  | r :: rules, h => by
    obtain ⟨h1, h2⟩ := List.forall_mem_cons.mp h
    obtain ⟨d, hd⟩ := h1
    obtain ⟨D, hD⟩ := reductions_ok h2
    exact ⟨d :: D, by rw [Rust.reductions, hd, hD]; rfl⟩

theorem rules_mem : ∀ {rules : List (Text × RuleBuild)} {D : Decls T}, R.rules src rules = .ok D →
    D.map Prod.fst = (rules.map (·.1)).map R.sym ∧ ∀ d, d ∈ D ↔ ∃ r ∈ rules, R.rule src r = .ok d
  | [], D, h => by cases h; simp
  | r :: rules, D, h => by
    rw [Rust.rules] at h
    obtain ⟨d, hd, h⟩ := Out.bind_eq_ok.mp h
    obtain ⟨D', hD, h⟩ := Out.bind_eq_ok.mp h
    cases h
    obtain ⟨h1, h2⟩ := rules_mem hD
    constructor
    · have : d.1 = R.sym r.1 := by
        unfold Rust.rule at hd
        obtain ⟨ws, _, e⟩ := Out.bind_eq_ok.mp hd
        cases e
        rfl
      rw [List.map_cons, List.map_cons, List.map_cons, h1, this]
    · intro d'
      simp only [List.mem_cons, h2, exists_eq_or_imp, hd, Out.ok.injEq]
      constructor
      · rintro (rfl | h)
        · exact .inl rfl
        · exact .inr h
      · rintro (rfl | h)
        · exact .inl rfl
        · exact .inr h

theorem reductions_mem : ∀ {rules : List (Text × RuleBuild)} {D : List (T × List (ReductFn (Meta X) T))},
    R.reductions src rules = .ok D →
    D.map Prod.fst = (rules.map (·.1)).map R.sym ∧ ∀ r ∈ rules, ∃ d ∈ D, R.reduction src r = .ok d
  | [], D, h => by cases h; simp
  | r :: rules, D, h => by
    rw [Rust.reductions] at h
    obtain ⟨d, hd, h⟩ := Out.bind_eq_ok.mp h
    obtain ⟨D', hD, h⟩ := Out.bind_eq_ok.mp h
    cases h
    obtain ⟨h1, h2⟩ := reductions_mem hD
    constructor
    · have : d.1 = R.sym r.1 := by
        unfold Rust.reduction at hd
        obtain ⟨ws, _, e⟩ := Out.bind_eq_ok.mp hd
        cases e
        rfl
      rw [List.map_cons, List.map_cons, List.map_cons, h1, this]
    · intro r' hr'
      rcases List.mem_cons.mp hr' with rfl | hr'
      · exact ⟨d, List.mem_cons_self .., hd⟩
      · obtain ⟨d', k1, k2⟩ := h2 r' hr'
        exact ⟨d', List.mem_cons_of_mem _ k1, k2⟩

theorem foldl_insert_get? [LinOrd T] [DecidableEq T] {ν : Type} {A : T} {v : ν} : ∀ {l : List (T × ν)} {m : OMap T ν},
    (l.map Prod.fst).Nodup → (A, v) ∈ l →
    OMap.get? (l.foldl (fun m d => OMap.insert d.1 d.2 m) m) A = some v := by
  have skip : ∀ (l : List (T × ν)) (m : OMap T ν), A ∉ l.map Prod.fst →
      OMap.get? (l.foldl (fun m d => OMap.insert d.1 d.2 m) m) A = OMap.get? m A := by
    intro l
    induction l with
    | nil => intro m _; rfl
    | cons d l ih =>
      intro m h
      rw [List.map_cons, List.mem_cons] at h
      rw [List.foldl_cons, ih _ (fun h' => h (.inr h')), OMap.get?_insert_ne _ _ (fun e => h (.inl e))]
  intro l
  induction l with
  | nil => intro m _ h; cases h
  | cons d l ih =>
    intro m hn h
    rw [List.map_cons, List.nodup_cons] at hn
    rw [List.foldl_cons]
    rcases List.mem_cons.mp h with rfl | h
    · rw [skip _ _ hn.1, OMap.get?_insert_self]
    · exact ih hn.2 h

end

/-! ### The code generated for a source -/

/-- The hypotheses of a run of the generator. -/
structure Dumped (dbg : Bool) (order : Nat → List Span → List Span) (L : LexEnv) (src : Text)
    (R : Rust X T) (ds : List Decl) (b : Builder) (rules : List (Text × RuleBuild)) : Prop where
  orders : Orders order
  utf8 : Utf8 src
  reads : ReadsProgram (lex L src) ds
  built : Returns (fun n => Builder.fromStr dbg order n src (lex L src)) (.ok b)
  perm : rules.Perm b.rules

section
variable {dbg : Bool} {order : Nat → List Span → List Span} {L : LexEnv} {src : Text} {R : Rust X T}
  {ds : List Decl} {b : Builder} {rules : List (Text × RuleBuild)}

theorem Dumped.dumps (h : Dumped dbg order L src R ds b rules) :
    ∃ D, R.dumpGrammar src b.imports rules = .ok D := by
  obtain ⟨hp, hn, himp, hrules⟩ := fromStr_rules h.orders h.utf8 h.reads h.built
  unfold Rust.dumpGrammar
  rw [texts_ok himp]
  simp only [Out.ok_bind]
  refine rules_ok ?_
  intro r hr
  obtain ⟨pre, ident, ty, alts, post, ws, rs, _, _, e, _⟩ := hrules r (h.perm.mem_iff.mp hr)
  exact ⟨_, by unfold Rust.rule; rw [e]; rfl⟩

theorem Dumped.reduces [LinOrd T] (h : Dumped dbg order L src R ds b rules) {entry : Text} (he : entry ≠ []) :
    ∃ maps, R.dumpReductor entry src b.imports rules = .ok maps := by
  obtain ⟨hp, hn, himp, hrules⟩ := fromStr_rules h.orders h.utf8 h.reads h.built
  unfold Rust.dumpReductor
  rw [if_neg he, texts_ok himp]
  simp only [Out.ok_bind]
  obtain ⟨D, hD⟩ := reductions_ok (R := R) (src := src) (rules := rules) (by
    intro r hr
    obtain ⟨pre, ident, ty, alts, post, ws, rs, _, _, _, e, _⟩ := hrules r (h.perm.mem_iff.mp hr)
    exact ⟨_, by unfold Rust.reduction; rw [e]; rfl⟩)
  rw [hD]
  exact ⟨_, rfl⟩

theorem Dumped.keys (h : Dumped dbg order L src R ds b rules)
    (hinj : ((ruleNames src ds).map R.sym).Nodup) : ((rules.map (·.1)).map R.sym).Nodup := by
  obtain ⟨hp, hn, himp, hrules⟩ := fromStr_rules h.orders h.utf8 h.reads h.built
  rw [← hn] at hinj
  exact ((h.perm.map _).map _).nodup_iff.mpr hinj

/-- Every declared rule is among the rules of the builder. -/
theorem Dumped.find (h : Dumped dbg order L src R ds b rules) {pre : List Decl} {ident : Span}
    {alts : List Alt} (hd : HasRule ds pre ident alts) : ∃ r ∈ rules, r.1 = textOf src ident := by
  obtain ⟨hp, hn, himp, hrules⟩ := fromStr_rules h.orders h.utf8 h.reads h.built
  obtain ⟨ty, post, rfl⟩ := hd
  have : textOf src ident ∈ b.rules.map (·.1) := by
    rw [hn, ruleNames_append]
    simp [ruleNames]
  obtain ⟨r, hr, e⟩ := List.mem_map.mp this
  exact ⟨r, h.perm.mem_iff.mpr hr, e⟩

theorem Dumped.grammarOf [LinOrd T] [DecidableEq T] (h : Dumped dbg order L src R ds b rules)
    (hinj : ((ruleNames src ds).map R.sym).Nodup) {D : Decls T}
    (hD : R.dumpGrammar src b.imports rules = .ok D) : GrammarOf src R.sym ds D := by
  obtain ⟨hp, hn, himp, hrules⟩ := fromStr_rules h.orders h.utf8 h.reads h.built
  unfold Rust.dumpGrammar at hD
  rw [texts_ok himp] at hD
  simp only [Out.ok_bind] at hD
  obtain ⟨hk, hm⟩ := rules_mem hD
  have hnd : (D.map Prod.fst).Nodup := by rw [hk]; exact h.keys hinj
  constructor
  · intro A i body
    constructor
    · rintro ⟨bs, ⟨p1, p2, e, _⟩, hb⟩
      obtain ⟨r, hr, e2⟩ := (hm (A, bs)).mp (by rw [e]; simp)
      obtain ⟨pre, ident, ty, alts, post, ws, rs, d1, d2, d3, d4, d5, d6, d7⟩ :=
        hrules r (h.perm.mem_iff.mp hr)
      unfold Rust.rule at e2
      rw [d3] at e2
      cases e2
      rw [List.getElem?_map] at hb
      obtain ⟨wd, hwd, rfl⟩ := Option.map_eq_some_iff.mp hb
      have hlt : i < (expansions alts).length := by
        rw [← d5]
        exact (List.getElem?_eq_some_iff.mp hwd).1
      obtain ⟨ax, hax⟩ : ∃ ax, (expansions alts)[i]? = some ax := ⟨_, List.getElem?_eq_getElem hlt⟩
      obtain ⟨k1, _⟩ := d7 i ax.1 ax.2 hax
      rw [hwd] at k1
      cases k1
      refine ⟨pre, ident, alts, ax.1, ax.2, ⟨ty, post, d1⟩, by rw [d2], hax, ?_⟩
      rw [List.map_map]
      rfl
    · rintro ⟨pre, ident, alts, a, x, hd, rfl, hx, rfl⟩
      obtain ⟨r, hr, e⟩ := h.find hd
      obtain ⟨pre', ident', ty', alts', post', ws, rs, d1, d2, d3, d4, d5, d6, d7⟩ :=
        hrules r (h.perm.mem_iff.mp hr)
      obtain ⟨ty, post, rfl⟩ := hd
      obtain ⟨rfl, rfl, rfl⟩ := rule_unique hp.rules d1 (by rw [← e, d2])
      obtain ⟨k1, _⟩ := d7 i a x hx
      refine Props.isProd_of_mem hnd ((hm (R.sym (textOf src ident), ws.map (List.map R.sym))).mpr ⟨r, hr, ?_⟩) ?_
      · unfold Rust.rule
        rw [d3, ← e]
        rfl
      · rw [List.getElem?_map, k1, Option.map_some, List.map_map]
        rfl
  · intro x
    constructor
    · intro ht pre ident alts hd e
      obtain ⟨r, hr, e2⟩ := h.find hd
      have : x ∈ D.map Prod.fst := by
        rw [hk, ← e, ← e2]
        exact List.mem_map_of_mem (List.mem_map_of_mem hr)
      obtain ⟨d, hd, e3⟩ := List.mem_map.mp this
      exact ht d hd e3
    · intro ht d hd e
      have : d.1 ∈ D.map Prod.fst := List.mem_map_of_mem hd
      rw [hk] at this
      obtain ⟨t, ht1, e1⟩ := List.mem_map.mp this
      obtain ⟨r, hr, rfl⟩ := List.mem_map.mp ht1
      obtain ⟨pre, ident, ty, alts, post, ws, rs, d1, d2, _⟩ := hrules r (h.perm.mem_iff.mp hr)
      exact ht pre ident alts ⟨ty, post, d1⟩ (by rw [← d2, e1, e])

theorem Dumped.reductorsOf [LinOrd T] [DecidableEq T] (h : Dumped dbg order L src R ds b rules)
    (hinj : ((ruleNames src ds).map R.sym).Nodup) (hplain : Plain src ds) {entry : Text}
    {maps : ReductMap (Meta X) T} (hM : R.dumpReductor entry src b.imports rules = .ok maps) :
    ReductorsOf src R ds maps := by
  obtain ⟨hp, hn, himp, hrules⟩ := fromStr_rules h.orders h.utf8 h.reads h.built
  unfold Rust.dumpReductor at hM
  split at hM
  · cases hM
  rw [texts_ok himp] at hM
  simp only [Out.ok_bind] at hM
  obtain ⟨D, hD, hM⟩ := Out.bind_eq_ok.mp hM
  cases hM
  obtain ⟨hk, hm⟩ := reductions_mem hD
  have hnd : (D.map Prod.fst).Nodup := by rw [hk]; exact h.keys hinj
  intro pre ident alts i a x hd hx
  obtain ⟨r, hr, e⟩ := h.find hd
  obtain ⟨pre', ident', ty', alts', post', ws, rs, d1, d2, d3, d4, d5, d6, d7⟩ :=
    hrules r (h.perm.mem_iff.mp hr)
  have hpl := hplain pre ident alts hd a (mem_expansions.mp (List.mem_of_getElem? hx)).1
  obtain ⟨ty, post, rfl⟩ := hd
  obtain ⟨rfl, rfl, rfl⟩ := rule_unique hp.rules d1 (by rw [← e, d2])
  obtain ⟨_, q, f, k1, k2, k3, k4⟩ := d7 i a x hx
  obtain ⟨d, hdm, hdr⟩ := hm r hr
  unfold Rust.reduction at hdr
  rw [d4] at hdr
  cases hdr
  refine ⟨f, ?_, k3, ?_⟩
  · intro its
    unfold redOf
    rw [← e, foldl_insert_get? hnd hdm]
    simp only [Option.bind_some, List.getElem?_map, k1, Option.map_some]
  · intro its hlen hne
    rw [k2]
    exact generated_binds h.orders k4 hpl.1 hpl.2 hlen hne

end

end Lrp.Wop
