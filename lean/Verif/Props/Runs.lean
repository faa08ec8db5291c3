import Verif.Props.Lalr
import Verif.Proofs.Reach

/-!
Properties of parsing: C18 to C26, C29, C30, C31, C38, C51.
-/

set_option linter.unusedSectionVars false
set_option maxRecDepth 100000

namespace Lrp.Props
open Spec
variable {T : Type} [LinOrd T] [DecidableEq T] {M : Type}

/-! ### The parsers of the expression grammar -/

theorem grammar_expr : Grammar.new true 0 (grammarMap Samples.expr) 99 =
    .ok (Samples.grammar Samples.expr) := by decide +kernel

theorem makes_exprSlr : Makes .slr true Samples.expr 0 99 exprSlr :=
  ⟨_, grammar_expr, 50, exprSlr_ok.1⟩

theorem makes_exprClr : Makes .clr true Samples.expr 0 99 exprClr :=
  ⟨_, grammar_expr, 50, exprClr_ok.1⟩

theorem makes_exprLalr : Makes .lalr true Samples.expr 0 99 exprLalr.table := by
  refine ⟨_, grammar_expr, 500, ?_⟩
  show (do let l ← Lalr.new true 500 (Samples.grammar Samples.expr); return l.table) = _
  rw [exprLalr_ok.1]; rfl

theorem expr_start : InNoBody Samples.expr 0 := Samples.inNoBody (by decide)
theorem expr_single : SingleStart Samples.expr 0 := Samples.singleStart (by decide)
theorem expr_eof : Terminal Samples.expr 99 := by unfold Terminal; decide
theorem expr_eof_body : InNoBody Samples.expr 99 := Samples.inNoBody (by decide)

/-! ### C18, C19, C20: soundness -/

/-- A successful parse of any built parser. -/
theorem sound {k : Method} {dbg : Bool} {D : Decls T} {S eof : T} {t : Tabler T}
    (ht : Makes k dbg D S eof t) (hS : InNoBody D S) (he : Terminal D eof)
    {maps : ReductMap M T} {toks : List (Token M T)} {v : M} (h : Parses t maps toks (.ok v)) :
    ∃ cs last, Tree.Valid D (.node S 0 (cs ++ [last])) ∧ Tree.yields (cs ++ [last]) = toks ∧
      last.eval (redOf maps) = some v := by
  obtain ⟨b0, next, red, ha, _⟩ := ht.auto
  obtain ⟨c, tr, rest, k1, k2, k3, k4⟩ := ha.parse_ok ht.eofHead he h
  obtain ⟨hv, _⟩ := ha.accepts hS (ha.inv_moves (inv_init D t.states next toks) k1) k2
  have hy := k1.yields
  obtain ⟨_, _, _, _, hb⟩ := k2
  rw [hb] at hy
  rw [k3] at hv hy
  simp only [List.reverse_cons] at hv hy
  refine ⟨rest.reverse, tr, hv, ?_, k4⟩
  simpa using hy

theorem sound_sentence {k : Method} {dbg : Bool} {D : Decls T} {S eof : T} {t : Tabler T}
    (ht : Makes k dbg D S eof t) (hS : InNoBody D S) (he : Terminal D eof)
    {maps : ReductMap M T} {toks : List (Token M T)} {v : M} (h : Parses t maps toks (.ok v)) :
    Sentence D S (toks.map Token.ty) := by
  obtain ⟨cs, last, h1, h2, _⟩ := sound ht hS he h
  have hd := h1.derives
  simp only [Tree.root, Tree.yield_node, h2] at hd
  refine ⟨hd, ?_⟩
  intro x hx
  obtain ⟨tok, k1, rfl⟩ := List.mem_map.mp hx
  exact h1.terminals tok (by simpa [h2] using k1)

/-- C18: what an Slr parser accepts is a sentence, with or without conflicts in the table. -/
theorem C18_slr_sound {dbg : Bool} {D : Decls T} {S eof : T} {t : Tabler T}
    (ht : Makes .slr dbg D S eof t) (hS : InNoBody D S) (he : Terminal D eof)
    {toks : List (Token Unit T)} (h : Validates t toks true) :
    Sentence D S (toks.map Token.ty) := sound_sentence ht hS he (validates_true.mp h)

/-- C19: what a Clr parser accepts is a sentence, with or without conflicts in the table. -/
theorem C19_clr_sound {dbg : Bool} {D : Decls T} {S eof : T} {t : Tabler T}
    (ht : Makes .clr dbg D S eof t) (hS : InNoBody D S) (he : Terminal D eof)
    {toks : List (Token Unit T)} (h : Validates t toks true) :
    Sentence D S (toks.map Token.ty) := sound_sentence ht hS he (validates_true.mp h)

/-- C20: what an Lalr parser accepts is a sentence, with or without conflicts in the table. -/
theorem C20_lalr_sound {dbg : Bool} {D : Decls T} {S eof : T} {t : Tabler T}
    (ht : Makes .lalr dbg D S eof t) (hS : InNoBody D S) (he : Terminal D eof)
    {toks : List (Token Unit T)} (h : Validates t toks true) :
    Sentence D S (toks.map Token.ty) := sound_sentence ht hS he (validates_true.mp h)

/-- Not vacuous: the three parsers of the expression grammar accept `id + id * ( id )`. -/
theorem expr_accepts : Validates exprSlr (Samples.toks [14, 10, 14, 11, 12, 14, 13]) true ∧
    Validates exprClr (Samples.toks [14, 10, 14, 11, 12, 14, 13]) true ∧
    Validates exprLalr.table (Samples.toks [14, 10, 14, 11, 12, 14, 13]) true :=
  ⟨⟨100, by decide +kernel⟩, ⟨100, by decide +kernel⟩, ⟨100, by decide +kernel⟩⟩

/-- Not vacuous, with conflicts: the ambiguous expression grammar has conflicts, and its Slr parser
accepts `id + id`. -/
example : ∃ t, Makes .slr true Samples.ambiguous 0 99 t ∧ t.conflicts ≠ [] ∧
    Validates t (Samples.toks [14, 10, 14]) true ∧ InNoBody Samples.ambiguous 0 ∧
    Terminal Samples.ambiguous 99 := by
  have h : ∃ t, Slr.new true 50 (Samples.grammar Samples.ambiguous) = .ok t ∧ t.conflicts ≠ [] ∧
      Parser.validate t 50 (Samples.toks [14, 10, 14]) = .ok true := by
    refine ⟨_, rfl, ?_⟩
    decide +kernel
  obtain ⟨t, h1, h2, h3⟩ := h
  exact ⟨t, ⟨_, by decide +kernel, 50, h1⟩, h2, ⟨50, h3⟩, Samples.inNoBody (by decide),
    by unfold Terminal; decide⟩

/-- As many `12` as `13`. -/
theorem recStart_balanced {a b : List Nat} (h : Derives Samples.recStart a b) :
    a.count 12 = a.count 13 → b.count 12 = b.count 13 := by
  induction h with
  | refl => exact id
  | head s _ ih =>
    intro hc
    refine ih ?_
    cases s with
    | @mk u v A i body hp =>
      obtain ⟨d, h1, h2, h3⟩ := Samples.mem_of_isProd hp
      have hb : ∀ d ∈ Samples.recStart, d.1 ≠ 12 ∧ d.1 ≠ 13 ∧
          ∀ b ∈ d.2, b.count 12 = b.count 13 := by decide
      obtain ⟨k1, k2, k3⟩ := hb d h1
      rw [h2] at k1 k2
      have k3 := k3 body (List.mem_of_getElem? h3)
      simp only [List.count_append, List.count_cons_of_ne k1, List.count_cons_of_ne k2] at hc ⊢
      omega

/-- The condition on the start symbol is needed: for `S → A`, `A → S x | y | z S w` the Slr table has
no conflicts and its parser accepts `z y`, which is not a sentence. -/
theorem C18_needs_start : ∃ t, Makes .slr true Samples.recStart 0 99 t ∧ t.conflicts = [] ∧
    Terminal Samples.recStart 99 ∧ Validates t (Samples.toks [12, 11]) true ∧
    ¬ Sentence Samples.recStart 0 [12, 11] := by
  have h : ∃ t, Slr.new true 50 (Samples.grammar Samples.recStart) = .ok t ∧ t.conflicts = [] ∧
      Parser.validate t 50 (Samples.toks [12, 11]) = .ok true := by
    refine ⟨_, rfl, ?_⟩
    decide +kernel
  obtain ⟨t, h1, h2, h3⟩ := h
  refine ⟨t, ⟨_, by decide +kernel, 50, h1⟩, h2, by unfold Terminal; decide, ⟨50, h3⟩, ?_⟩
  intro hs
  have := recStart_balanced hs.1 (by decide)
  revert this; decide

/-! ### C24: the value -/

/-- C24: a successful parse returns the value of the last child of the root of a parse tree of the
input, each node valued by the reductor of its production. -/
theorem C24_value {k : Method} {dbg : Bool} {D : Decls T} {S eof : T} {t : Tabler T}
    (ht : Makes k dbg D S eof t) (hS : InNoBody D S) (he : Terminal D eof)
    {maps : ReductMap M T} {toks : List (Token M T)} {v : M} (h : Parses t maps toks (.ok v)) :
    ∃ cs last, Tree.Valid D (.node S 0 (cs ++ [last])) ∧ Tree.yields (cs ++ [last]) = toks ∧
      last.eval (redOf maps) = some v := sound ht hS he h

/-- C24 for a start production with one symbol: the value of the tree of that symbol. -/
theorem C24_value_single {k : Method} {dbg : Bool} {D : Decls T} {S eof X : T} {t : Tabler T}
    (ht : Makes k dbg D S eof t) (hS : InNoBody D S) (he : Terminal D eof) (hX : IsProd D S 0 [X])
    {maps : ReductMap M T} {toks : List (Token M T)} {v : M} (h : Parses t maps toks (.ok v)) :
    ∃ tr, Tree.Valid D tr ∧ tr.root = X ∧ tr.yield = toks ∧ tr.eval (redOf maps) = some v := by
  obtain ⟨cs, last, h1, h2, h3⟩ := sound ht hS he h
  cases h1 with
  | node hp hc =>
    have := hp.unique hX
    cases cs with
    | nil =>
      simp only [List.nil_append, List.map_cons, List.map_nil, List.cons.injEq, and_true] at this
      refine ⟨last, hc last (by simp), this, ?_, h3⟩
      simpa [Tree.yields_singleton] using h2
    | cons c cs => simp at this

/-- Reductors for the expression grammar that evaluate it. -/
def exprReds : ReductMap Nat Nat :=
  [(0, [fun _ => some 0]),
   (1, [fun l => match l with | [a, _, b] => some (a.item + b.item) | _ => none,
        fun l => match l with | [a] => some a.item | _ => none]),
   (2, [fun l => match l with | [a, _, b] => some (a.item * b.item) | _ => none,
        fun l => match l with | [a] => some a.item | _ => none]),
   (3, [fun l => match l with | [_, a, _] => some a.item | _ => none,
        fun l => match l with | [a] => some a.item | _ => none])]

/-- Not vacuous: `2 + 3 * ( 4 )` is 14. -/
example : Parses exprClr exprReds
    [⟨2, 14⟩, ⟨0, 10⟩, ⟨3, 14⟩, ⟨0, 11⟩, ⟨0, 12⟩, ⟨4, 14⟩, ⟨0, 13⟩] (.ok 14) :=
  ⟨100, by
    have : ∃ r, Parser.parse exprClr 100
        [⟨2, 14⟩, ⟨0, 10⟩, ⟨3, 14⟩, ⟨0, 11⟩, ⟨0, 12⟩, ⟨4, 14⟩, ⟨0, 13⟩] exprReds = .ok r ∧
        (match r with | .ok v => v = 14 | .error _ => False) := by
      refine ⟨_, rfl, ?_⟩
      decide +kernel
    obtain ⟨r, h1, h2⟩ := this
    cases r with
    | ok v => subst h2; exact h1
    | error e => exact h2.elim⟩

/-! ### C21, C22: completeness -/

theorem terminalToks_of_sentence {D : Decls T} {S : T} {toks : List (Token M T)}
    (h : Sentence D S (toks.map Token.ty)) : TerminalToks D toks :=
  fun tok ht => h.2 _ (List.mem_map.mpr ⟨tok, ht, rfl⟩)

/-- Parse trees are followed, or a conflict is met. -/
theorem follow_tree {k : Method} {dbg : Bool} {D : Decls T} {S eof : T} {t : Tabler T}
    (ht : Makes k dbg D S eof t) (hk : k = .lalr → Propagated t) (hS : InNoBody D S) (he : Terminal D eof)
    {maps : ReductMap M T} {cs : List (Tree M T)} {last : Tree M T}
    (hred : Evaluates D maps (Tree.yields (cs ++ [last])))
    (hv : Tree.Valid D (.node S 0 (cs ++ [last]))) :
    (∃ v, last.eval (redOf maps) = some v ∧
      Parses t maps (Tree.yields (cs ++ [last])) (.ok v)) ∨
    ∃ a b, Parses t maps (Tree.yields (cs ++ [last])) (.error (.conflict a b)) := by
  obtain ⟨b0, next, red, ha, hl⟩ := ht.looks hk he
  have hT : TerminalToks D (Tree.yields (cs ++ [last])) := by
    intro tok htok
    exact hv.terminals tok (by simpa using htok)
  rcases Looks.complete ha hl hS he hv with ⟨c, a, b, hm, hf⟩ | ⟨c, hm, hacc, hc⟩
  · right
    obtain ⟨e, k1, k2⟩ := ha.parse_fail ht.eofHead he hred hT hm hf
    cases hf with
    | conflict h1 =>
      cases k1 with
      | noAction h2 h3 => unfold cellAt at h1; rw [h2] at h1; simp [h3] at h1
      | eof h2 => cases h2.symm.trans h1
      | conflict h2 => exact ⟨_, _, k2⟩
      | incomplete h2 _ => rw [h2] at h1; cases h1
      | conflict' h2 _ _ _ => rw [h2] at h1; cases h1
    | conflict' h1 h1a h1b h1c =>
      cases k1 with
      | noAction h2 h3 => unfold cellAt at h1; rw [h2] at h1; simp [h3] at h1
      | eof h2 => cases h2.symm.trans h1
      | conflict h2 => rw [h2] at h1; cases h1
      | incomplete h2 _ => rw [h2] at h1; cases h1
      | conflict' h2 _ _ _ => exact ⟨_, _, k2⟩
  · left
    obtain ⟨tr, rest, v, k1, k2, k3⟩ := ha.parse_accept ht.eofHead he hred hT hm hacc
    rw [hc] at k1
    simp only [List.reverse_append, List.reverse_cons, List.reverse_nil, List.nil_append,
      List.singleton_append, List.cons.injEq] at k1
    exact ⟨v, k1.1 ▸ k2, k3⟩

theorem split_last {D : Decls T} (hne : NoEmpty D) {S : T} {cs : List (Tree M T)}
    (hv : Tree.Valid D (.node S 0 cs)) : ∃ cs' last, cs = cs' ++ [last] := by
  cases hv with
  | node hp _ =>
    have := hne _ _ _ hp
    have hcs : cs ≠ [] := fun e => this (by rw [e]; rfl)
    exact ⟨cs.dropLast, cs.getLast hcs, (List.dropLast_concat_getLast hcs).symm⟩

theorem complete {k : Method} {dbg : Bool} {D : Decls T} {S eof : T} {t : Tabler T}
    (ht : Makes k dbg D S eof t) (hk : k = .lalr → Propagated t) (hS : InNoBody D S) (h1 : SingleStart D S)
    (he : Terminal D eof) {maps : ReductMap M T} {toks : List (Token M T)}
    (hred : Evaluates D maps toks) (hs : Sentence D S (toks.map Token.ty)) :
    (∃ v, Parses t maps toks (.ok v)) ∨ ∃ a b, Parses t maps toks (.error (.conflict a b)) := by
  obtain ⟨cs, hv, rfl⟩ := sentence_tree ht.start h1 hs
  obtain ⟨cs, last, rfl⟩ := split_last ht.noEmpty hv
  rcases follow_tree ht hk hS he hred hv with ⟨v, _, h⟩ | h
  · exact Or.inl ⟨v, h⟩
  · exact Or.inr h

theorem not_conflict {k : Method} {dbg : Bool} {D : Decls T} {S eof : T} {t : Tabler T}
    (ht : Makes k dbg D S eof t) (hc : t.conflicts = []) (he : Terminal D eof)
    {maps : ReductMap M T} {toks : List (Token M T)} (hT : TerminalToks D toks) {a b : Action T} :
    ¬ Parses t maps toks (.error (.conflict a b)) := by
  rintro ⟨n, h⟩
  obtain ⟨b0, next, red, ha, _⟩ := ht.auto
  have hend := ha.parse_end (maps := maps) ht.eofHead he hT n
  simp only at h
  rw [h] at hend
  cases hend with
  | error hm hf => exact Clash.false (ht.no_conflict.mp hc) ⟨_, _, _, hm, hf⟩

theorem complete_validates {k : Method} {dbg : Bool} {D : Decls T} {S eof : T} {t : Tabler T}
    (ht : Makes k dbg D S eof t) (hk : k = .lalr → Propagated t) (hc : t.conflicts = []) (hS : InNoBody D S)
    (h1 : SingleStart D S) (he : Terminal D eof) {toks : List (Token Unit T)}
    (hs : Sentence D S (toks.map Token.ty)) : Validates t toks true := by
  rcases complete ht hk hS h1 he ((reductors_empty ht.grammar).evaluates toks) hs with ⟨_, h⟩ | ⟨a, b, h⟩
  · exact validates_true.mpr h
  · exact absurd h (not_conflict ht hc he (terminalToks_of_sentence hs))

/-- C21: a conflict-free Slr parser accepts every sentence; with C18, exactly the sentences. -/
theorem C21_slr_complete {dbg : Bool} {D : Decls T} {S eof : T} {t : Tabler T}
    (ht : Makes .slr dbg D S eof t) (hc : t.conflicts = []) (hS : InNoBody D S)
    (h1 : SingleStart D S) (he : Terminal D eof) {toks : List (Token Unit T)} :
    Validates t toks true ↔ Sentence D S (toks.map Token.ty) :=
  ⟨C18_slr_sound ht hS he, complete_validates ht (by simp) hc hS h1 he⟩

/-- C22: a conflict-free Clr parser accepts every sentence; with C19, exactly the sentences. -/
theorem C22_clr_complete {dbg : Bool} {D : Decls T} {S eof : T} {t : Tabler T}
    (ht : Makes .clr dbg D S eof t) (hc : t.conflicts = []) (hS : InNoBody D S)
    (h1 : SingleStart D S) (he : Terminal D eof) {toks : List (Token Unit T)} :
    Validates t toks true ↔ Sentence D S (toks.map Token.ty) :=
  ⟨C19_clr_sound ht hS he, complete_validates ht (by simp) hc hS h1 he⟩

/-- In debug builds the start symbol has a single production. -/
theorem single_start_debug {D : Decls T} {S eof : T} {g : Grammar T}
    (h : Grammar.new true S (grammarMap D) eof = .ok g) : SingleStart D S := by
  intro i b hp
  rw [Grammar.new_eq] at h
  obtain ⟨bs, h1, h2⟩ := hp
  have hr := (grammarMap_get? D S _).mpr ⟨bs, h1, rfl⟩
  rw [hr] at h
  by_cases hl : (Rule.new S bs).prods.length = 1
  · have : bs.length = 1 := by simpa [Rule.new] using hl
    have := (List.getElem?_eq_some_iff.mp h2).1
    omega
  · simp [hl] at h

/-- Not vacuous: the hypotheses hold for the expression grammar, so its Slr and Clr parsers accept
exactly its sentences. -/
example {toks : List (Token Unit Nat)} :
    (Validates exprSlr toks true ↔ Sentence Samples.expr 0 (toks.map Token.ty)) ∧
    (Validates exprClr toks true ↔ Sentence Samples.expr 0 (toks.map Token.ty)) :=
  ⟨C21_slr_complete makes_exprSlr exprSlr_ok.2.2 expr_start expr_single expr_eof,
   C22_clr_complete makes_exprClr exprClr_ok.2.2 expr_start expr_single expr_eof⟩

/-- C51: on a sentence, Slr and Clr parsers (and Lalr parsers whose lookaheads have been passed on) —
with any conflicts — either succeed or report a
conflict: they always return and never report another error. -/
theorem C51_sentence {k : Method} {dbg : Bool} {D : Decls T} {S eof : T} {t : Tabler T}
    (ht : Makes k dbg D S eof t) (hk : k = .lalr → Propagated t) (hS : InNoBody D S) (h1 : SingleStart D S)
    (he : Terminal D eof) {maps : ReductMap M T} {toks : List (Token M T)}
    (hred : Evaluates D maps toks) (hs : Sentence D S (toks.map Token.ty)) :
    (∃ v, Parses t maps toks (.ok v)) ∨ ∃ a b, Parses t maps toks (.error (.conflict a b)) :=
  complete ht hk hS h1 he hred hs

/-- Not vacuous: the ambiguous grammar reports a conflict on `id + id + id`. -/
example : ∃ t, Makes .slr true Samples.ambiguous 0 99 t ∧
    ∃ a b, Parses t (Parser.empty t) (Samples.toks [14, 10, 14, 10, 14]) (.error (.conflict a b)) := by
  have h : ∃ t r, Slr.new true 50 (Samples.grammar Samples.ambiguous) = .ok t ∧
      Parser.parse t 50 (Samples.toks [14, 10, 14, 10, 14]) (Parser.empty t) = .ok r ∧
      (match r with | .error (.conflict _ _) => True | _ => False) := by
    refine ⟨_, _, rfl, rfl, ?_⟩
    decide +kernel
  obtain ⟨t, r, h1, h2, h3⟩ := h
  refine ⟨t, ⟨_, by decide +kernel, 50, h1⟩, ?_⟩
  match r, h3 with
  | .error (.conflict a b), _ => exact ⟨a, b, 50, h2⟩

/-! ### C25: unambiguous grammars -/

/-- C25: a conflict-free Slr or Clr table (or Lalr table whose lookaheads have been passed on) certifies that every input has at most one parse tree from
the start symbol. -/
theorem C25_unambiguous {k : Method} {dbg : Bool} {D : Decls T} {S eof : T} {t : Tabler T}
    (ht : Makes k dbg D S eof t) (hk : k = .lalr → Propagated t) (hc : t.conflicts = []) (hS : InNoBody D S)
    (h1 : SingleStart D S) (he : Terminal D eof) {t1 t2 : Tree M T} (hv1 : Tree.Valid D t1)
    (hv2 : Tree.Valid D t2) (hr1 : t1.root = S) (hr2 : t2.root = S) (hy : t1.yield = t2.yield) :
    t1 = t2 := by
  obtain ⟨b0, next, red, ha, hl⟩ := ht.looks hk he
  have hno := ht.no_conflict.mp hc
  have key : ∀ {tr : Tree M T}, Tree.Valid D tr → tr.root = S →
      ∃ cs c, tr = .node S 0 cs ∧ Tree.Valid D (.node S 0 cs) ∧
        Moves t.actions eof ⟨[0], [], tr.yield⟩ c ∧ Accepts t.actions eof c ∧
        c.trees = cs.reverse := by
    intro tr hv hr
    cases hv with
    | leaf h =>
      simp only [Tree.root] at hr
      rw [hr] at h
      exact absurd h (not_terminal_iff.mpr ht.start)
    | @node A i cs hp hcs =>
      simp only [Tree.root] at hr
      subst hr
      have := h1 i _ hp
      subst this
      rcases Looks.complete ha hl hS he (.node hp hcs) with hcl | ⟨c, k1, k2, k3⟩
      · exact (hcl.false hno).elim
      · exact ⟨cs, c, rfl, .node hp hcs, by simpa using k1, k2, k3⟩
  obtain ⟨cs1, c1, e1, v1, m1, a1, t1'⟩ := key hv1 hr1
  obtain ⟨cs2, c2, e2, v2, m2, a2, t2'⟩ := key hv2 hr2
  rw [hy] at m1
  have := dead_unique m1 m2 (fun _ => a1.no_move) (fun _ => a2.no_move)
  subst this
  rw [t1'] at t2'
  have := List.reverse_inj.mp t2'
  rw [e1, e2, this]

theorem accepts_tree {k : Method} {dbg : Bool} {D : Decls T} {S eof : T} {t : Tabler T}
    (ht : Makes k dbg D S eof t) (hk : k = .lalr → Propagated t) (hc : t.conflicts = []) (hS : InNoBody D S)
    (he : Terminal D eof) {maps : ReductMap M T} {cs : List (Tree M T)} {last : Tree M T}
    (hv : Tree.Valid D (.node S 0 (cs ++ [last]))) :
    ((∀ tr ∈ cs ++ [last], ∃ v, tr.eval (redOf maps) = some v) ∧
      ∃ v, last.eval (redOf maps) = some v ∧
        Parses t maps (Tree.yields (cs ++ [last])) (.ok v)) ∨
    ((∃ tr ∈ cs ++ [last], tr.eval (redOf maps) = none) ∧
      ∃ p, Panics (fun n => Parser.parse t n (Tree.yields (cs ++ [last])) maps) p) := by
  obtain ⟨b0, next, red, ha, hl⟩ := ht.looks hk he
  have hT : TerminalToks D (Tree.yields (cs ++ [last])) := by
    intro tok htok
    exact hv.terminals tok (by simpa using htok)
  rcases Looks.complete ha hl hS he hv with ⟨c, a, b, hm, hf⟩ | ⟨c, hm, hacc, hcs⟩
  · exact (Clash.false (ht.no_conflict.mp hc) ⟨_, _, _, hm, hf⟩).elim
  · have hmem : ∀ tr, tr ∈ c.trees ↔ tr ∈ cs ++ [last] := by intro tr; rw [hcs, List.mem_reverse]
    rcases ha.parse_accept_iff (maps := maps) ht.eofHead he hT hm hacc with
      ⟨h1, tr, rest, v, k1, k2, k3⟩ | ⟨⟨tr, h1, h2⟩, h3⟩
    · left
      rw [hcs] at k1
      simp only [List.reverse_append, List.reverse_cons, List.reverse_nil, List.nil_append,
        List.singleton_append, List.cons.injEq] at k1
      exact ⟨fun tr h => h1 tr ((hmem tr).mpr h), v, k1.1 ▸ k2, k3⟩
    · exact .inr ⟨⟨tr, (hmem tr).mp h1, h2⟩, h3⟩

/-- C25: the reductions of a conflict-free parser follow the parse tree: if the reductors give values to
the children of its root, the parser returns the value of the last one. -/
theorem C25_follows {k : Method} {dbg : Bool} {D : Decls T} {S eof : T} {t : Tabler T}
    (ht : Makes k dbg D S eof t) (hk : k = .lalr → Propagated t) (hc : t.conflicts = []) (hS : InNoBody D S)
    (he : Terminal D eof) {maps : ReductMap M T} {cs : List (Tree M T)} {last : Tree M T}
    (hred : ∀ tr ∈ cs ++ [last], ∃ v, tr.eval (redOf maps) = some v)
    (hv : Tree.Valid D (.node S 0 (cs ++ [last]))) :
    ∃ v, last.eval (redOf maps) = some v ∧
      Parses t maps (Tree.yields (cs ++ [last])) (.ok v) := by
  rcases accepts_tree (maps := maps) ht hk hc hS he hv with h | ⟨⟨tr, h1, h2⟩, _⟩
  · exact h.2
  · obtain ⟨v, hv⟩ := hred tr h1
    rw [h2] at hv
    cases hv

/-- C25: and if one of these children has no value, because a reductor it needs is missing or panics, the
parser panics. -/
theorem C25_panics {k : Method} {dbg : Bool} {D : Decls T} {S eof : T} {t : Tabler T}
    (ht : Makes k dbg D S eof t) (hk : k = .lalr → Propagated t) (hc : t.conflicts = []) (hS : InNoBody D S)
    (he : Terminal D eof) {maps : ReductMap M T} {cs : List (Tree M T)} {last : Tree M T}
    (hred : ∃ tr ∈ cs ++ [last], tr.eval (redOf maps) = none)
    (hv : Tree.Valid D (.node S 0 (cs ++ [last]))) :
    ∃ p, Panics (fun n => Parser.parse t n (Tree.yields (cs ++ [last])) maps) p := by
  rcases accepts_tree (maps := maps) ht hk hc hS he hv with ⟨h, _⟩ | h
  · obtain ⟨tr, h1, h2⟩ := hred
    obtain ⟨v, hv⟩ := h tr h1
    rw [h2] at hv
    cases hv
  · exact h.2

/-- Not vacuous: the hypotheses hold for the expression grammar. -/
example {t1 t2 : Tree Nat Nat} (hv1 : Tree.Valid Samples.expr t1)
    (hv2 : Tree.Valid Samples.expr t2) (hr1 : t1.root = 0) (hr2 : t2.root = 0)
    (hy : t1.yield = t2.yield) : t1 = t2 :=
  C25_unambiguous makes_exprSlr (by simp) exprSlr_ok.2.2 expr_start expr_single expr_eof
    hv1 hv2 hr1 hr2 hy

/-! ### C26: no panics, no internal errors -/

/-- C26: running a built parser on terminals, with reductors that give a value to every parse tree of a
piece of the input, never panics and never reports `MissingPreviousState` or `StateNotSpecified`. -/
theorem C26_no_panic {k : Method} {dbg : Bool} {D : Decls T} {S eof : T} {t : Tabler T}
    (ht : Makes k dbg D S eof t) (he : Terminal D eof) {maps : ReductMap M T}
    {toks : List (Token M T)} (hred : Evaluates D maps toks) (hT : TerminalToks D toks) :
    (∀ p, ¬ Panics (fun n => Parser.parse t n toks maps) p) ∧
    ¬ Parses t maps toks (.error .missingPreviousState) ∧
    ¬ Parses t maps toks (.error .stateNotSpecified) := by
  obtain ⟨b0, next, red, ha, _⟩ := ht.auto
  have hend := fun n => ha.parse_end (maps := maps) ht.eofHead he hT n
  refine ⟨?_, ?_, ?_⟩
  · rintro p ⟨n, h⟩
    simp only at h
    have := hend n
    rw [h] at this
    cases this with
    | panic hp _ _ => exact hp.false hred
  · rintro ⟨n, h⟩
    simp only at h
    have := hend n
    rw [h] at this
    cases this with
    | error _ hf => cases hf
  · rintro ⟨n, h⟩
    simp only at h
    have := hend n
    rw [h] at this
    cases this with
    | error _ hf => cases hf

/-- C26: in general a run on terminals panics only if a reductor is missing or panics, on the values of
the children of a parse tree of a piece of the input; these have the types of the production. -/
theorem C26_panics {k : Method} {dbg : Bool} {D : Decls T} {S eof : T} {t : Tabler T}
    (ht : Makes k dbg D S eof t) (he : Terminal D eof) {maps : ReductMap M T}
    {toks : List (Token M T)} (hT : TerminalToks D toks) {p : Panic}
    (h : Panics (fun n => Parser.parse t n toks maps) p) :
    (p = .missingReductor ∨ p = .reductorPanic) ∧
    ∃ A k cs its, Tree.Valid D (.node A k cs) ∧ Tree.yields cs <:+: toks ∧
      Tree.evals (redOf maps) cs = some its ∧ IsProd D A k (its.map Token.ty) ∧
      redOf maps A k its = none := by
  obtain ⟨b0, next, red, ha, _⟩ := ht.auto
  obtain ⟨n, h⟩ := h
  simp only at h
  have := ha.parse_end (maps := maps) ht.eofHead he hT n
  rw [h] at this
  cases this with
  | panic hp _ _ =>
    obtain ⟨h0, A, k, cs, its, h1, h2, h3, h4, h5⟩ := hp
    refine ⟨h0, A, k, cs, its, h1, h2, h3, ?_, h5⟩
    cases h1 with
    | node hp _ => rw [h4]; exact hp

/-- Reductors that never panic meet the hypothesis of C25, C26, C27 and C51. -/
theorem evaluates_of_reductors {D : Decls T} {maps : ReductMap M T} (h : Reductors D maps)
    (toks : List (Token M T)) : Evaluates D maps toks := h.evaluates toks

/-- Not vacuous: the reductors of `validate` are always present and never panic; so are those used
above to evaluate expressions. -/
theorem C26_validate {k : Method} {dbg : Bool} {D : Decls T} {S eof : T} {t : Tabler T}
    (ht : Makes k dbg D S eof t) : Reductors D (Parser.empty t) := reductors_empty ht.grammar

theorem exprReds_reductors : Reductors Samples.expr exprReds := by
  intro A k its hp
  obtain ⟨d, h1, h2, h3⟩ := Samples.mem_of_isProd hp
  simp only [Samples.expr, List.mem_cons, List.not_mem_nil, or_false] at h1
  have hk := (List.getElem?_eq_some_iff.mp h3).1
  have hlen : ∀ {l : List Nat}, its.map Token.ty = l → its.length = l.length := by
    intro l e; rw [← e]; simp
  rcases h1 with rfl | rfl | rfl | rfl <;> simp only at h2 h3 hk <;> subst h2
  · obtain rfl : k = 0 := by simpa using hk
    exact ⟨0, rfl⟩
  all_goals
    obtain rfl | rfl : k = 0 ∨ k = 1 := by simp at hk; omega
    · simp only [List.getElem?_cons_zero, Option.some.injEq] at h3
      have := hlen h3.symm
      match its, this with
      | [a, b, c], _ => exact ⟨_, rfl⟩
    · simp only [List.getElem?_cons_succ, List.getElem?_cons_zero, Option.some.injEq] at h3
      have := hlen h3.symm
      match its, this with
      | [a], _ => exact ⟨_, rfl⟩

end Lrp.Props
