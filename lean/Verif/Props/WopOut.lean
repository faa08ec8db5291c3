import Verif.Proofs.WopParse
import Verif.Props.Halt
import Verif.Props.Wop

/-! C49, C50, C59, C60: the parser of wop programs, and its builder run on the tokens of a program. -/

namespace Lrp.Props
open Spec Wop Wop.Spec
set_option maxRecDepth 100000

/-! ### C49: the table -/

/-- `Slr::new` of `grammar()` (wop/src/lib.rs:130-134). -/
def outBuilt (dbg : Bool) : Out (Tabler Sym) := do
  let g ← outGrammar dbg
  Slr.new dbg 100 g

/-- Both results are the same table, without conflicts. -/
def sameTable (a b : Out (Tabler Sym)) : Bool :=
  match a, b with
  | .ok t, .ok t' => decide (t = t' ∧ t.conflicts = [])
  | _, _ => false

theorem sameTable_eq {a b : Out (Tabler Sym)} (h : sameTable a b = true) :
    ∃ t, a = .ok t ∧ b = .ok t ∧ t.conflicts = [] := by
  match a, b, h with
  | .ok t, .ok t', h =>
    obtain ⟨e, hc⟩ := of_decide_eq_true (show decide (t = t' ∧ t.conflicts = []) = true from h)
    exact ⟨t, rfl, by rw [e], hc⟩

theorem out_check : sameTable (outBuilt true) (outBuilt false) = true := by decide +kernel

theorem out_built : ∃ t, (∀ dbg, outBuilt dbg = .ok t) ∧ t.conflicts = [] := by
  obtain ⟨t, h1, h2, hc⟩ := sameTable_eq out_check
  refine ⟨t, ?_, hc⟩
  intro dbg
  cases dbg
  · exact h2
  · exact h1

/-- C49: the Slr table of the grammar of wop is built, in debug and release builds, and has no
conflicts. -/
theorem C49_table : ∃ t, (∀ dbg, Makes .slr dbg outRules .entryPoint .eof t) ∧ t.conflicts = [] := by
  obtain ⟨t, h, hc⟩ := out_built
  refine ⟨t, fun dbg => ?_, hc⟩
  obtain ⟨g, h1, h2⟩ := Out.bind_eq_ok.mp (h dbg)
  exact ⟨g, h1, 100, h2⟩

theorem makes_unique {dbg : Bool} {t t' : Tabler Sym}
    (h : Makes .slr dbg outRules .entryPoint .eof t)
    (h' : Makes .slr dbg outRules .entryPoint .eof t') : t = t' := by
  obtain ⟨g, h1, n, h2⟩ := h
  obtain ⟨g', h1', n', h2'⟩ := h'
  rw [h1] at h1'
  cases h1'
  exact Out.Le.agree (f := fun n => Slr.new dbg n g) (fun h => Slr.new_le h g) h2 h2'

theorem out_conflicts {dbg : Bool} {t : Tabler Sym}
    (h : Makes .slr dbg outRules .entryPoint .eof t) : t.conflicts = [] := by
  obtain ⟨t', h', hc⟩ := C49_table
  rw [makes_unique h (h' dbg)]
  exact hc

theorem out_start : InNoBody outRules .entryPoint := Samples.inNoBody (by decide)

theorem out_single : SingleStart outRules .entryPoint := Samples.singleStart (by decide)

theorem out_eof : Terminal outRules .eof := by unfold Terminal; decide

theorem out_productive : AllProductive outRules :=
  allProductive [(.identPath, 1), (.ruleItem, 5), (.rulePipe, 1), (.rule, 3), (.ruleDecl, 0),
    (.import_, 1), (.alias, 0), (.program, 3), (.entryPoint, 0)] (by decide) (by decide) (by decide)

/-- C49: the parser accepts exactly the sentences of the grammar. -/
theorem C49_exact {dbg : Bool} {t : Tabler Sym} (ht : Makes .slr dbg outRules .entryPoint .eof t)
    {toks : List (Token Unit Sym)} :
    Validates t toks true ↔ Sentence outRules .entryPoint (toks.map Token.ty) :=
  C21_slr_complete ht (out_conflicts ht) out_start out_single out_eof

/-- C49: every sentence has one parse tree. -/
theorem C49_unambiguous {M : Type} {t1 t2 : Tree M Sym} (hv1 : Tree.Valid outRules t1)
    (hv2 : Tree.Valid outRules t2) (hr1 : t1.root = .entryPoint) (hr2 : t2.root = .entryPoint)
    (hy : t1.yield = t2.yield) : t1 = t2 := by
  obtain ⟨t, ht, hc⟩ := C49_table
  exact C25_unambiguous (ht true) (by simp) hc out_start out_single out_eof hv1 hv2 hr1 hr2 hy

/-- C49: the parser answers on all inputs of terminals. -/
theorem C49_answers {dbg : Bool} {t : Tabler Sym} (ht : Makes .slr dbg outRules .entryPoint .eof t)
    {toks : List (Token Unit Sym)} (hT : TerminalToks outRules toks) : ∃ b, Validates t toks b :=
  C27_validate_answers ht (by simp) (out_conflicts ht) out_eof out_productive hT

theorem entry_valid {tr : PTree} (h : Tree.Valid outRules tr) (hr : tr.root = .program) :
    Tree.Valid outRules (.node .entryPoint 0 [tr]) :=
  valid_node (by simp [hr]; rfl) (valids_cons h valids_nil)

theorem entry_yield (tr : PTree) : (Tree.node .entryPoint 0 [tr] : PTree).yield = tr.yield := by
  rw [Tree.yield, Tree.yields_singleton]

/-- C49: the sentences of the grammar are the token sequences that can be read as declarations. -/
theorem C49_syntax {toks : List Gramem} :
    Sentence outRules .entryPoint (toks.map Token.ty) ↔ ∃ ds, ReadsProgram toks ds := by
  constructor
  · intro hs
    obtain ⟨t, ht, _⟩ := C49_table
    obtain ⟨cs, hv, rfl⟩ := sentence_tree (ht true).start out_single hs
    obtain ⟨p, e, ds, hg⟩ := (reading hv).entry rfl
    cases e
    refine ⟨ds, ?_⟩
    rw [Tree.yields_singleton]
    exact hg.reads
  · rintro ⟨ds, hr⟩
    obtain ⟨tr, rfl, hg⟩ := tree_program hr
    have hv := entry_valid hg.valid hg.root
    have hd := hv.derives
    rw [entry_yield] at hd
    refine ⟨hd, ?_⟩
    intro x hx
    obtain ⟨tok, k1, rfl⟩ := List.mem_map.mp hx
    exact hv.terminals tok (by rw [entry_yield]; exact k1)

/-! ### C50: the syntax trees -/

/-- C50: every parse tree of wop tokens has a value: no reductor panics. -/
theorem C50_evaluates (toks : List Gramem) : Evaluates outRules outReducts toks := by
  intro tr hv _
  obtain ⟨v, h, _⟩ := tight_of_valid hv
  exact ⟨v, h⟩

/-- C50: the span of the value of a parse tree goes from the start of its first token to the end of its
last. -/
theorem C50_spans {tr : PTree} (hv : Tree.Valid outRules tr) :
    ∃ v a b, tr.eval (redOf outReducts) = some v ∧ tr.yield.head? = some a ∧
      tr.yield.getLast? = some b ∧ v.span = Span.new a.item.span.start b.item.span.stop := by
  obtain ⟨v, h, hc⟩ := tight_of_valid hv
  unfold cover at hc
  cases h1 : tr.yield.head? with
  | none => rw [h1] at hc; cases hc
  | some a =>
    cases h2 : tr.yield.getLast? with
    | none => rw [h1, h2] at hc; cases hc
    | some b =>
      rw [h1, h2] at hc
      exact ⟨v, a, b, h, rfl, rfl, (Option.some.inj hc).symm⟩

theorem lexed_terminals {src : Text} {toks : List Gramem} (hl : Lexed src toks) :
    TerminalToks outRules toks := by
  intro t ht
  have : ∀ s ∈ lexSyms, Terminal outRules s := by unfold Terminal; decide
  exact this _ (hl.plain t ht).2

/-- The two ways `Builder::from_str` can go. -/
theorem fromStr_cases (dbg : Bool) (order : Nat → List Span → List Span) {src : Text}
    {toks : List Gramem} (hl : Lexed src toks) :
    (∃ tr ds ast N, tr.yield = toks ∧ GoodProgram tr ds ∧
      (IsProgram src ast (ds.map Decl.cloning) ∧ tr.eval (redOf outReducts) = some ast.item) ∧
      ∀ n, N ≤ n → Builder.fromStr dbg order n src toks =
        (do let b ← Builder.process order src Builder.empty ast
            return .ok b)) ∨
    ((¬ ∃ ds, ReadsProgram toks ds) ∧ ∃ e N, ∀ n, N ≤ n →
      Builder.fromStr dbg order n src toks = .ok (.error e)) := by
  obtain ⟨t, hb, hc⟩ := out_built
  obtain ⟨g, hg, htab⟩ := Out.bind_eq_ok.mp (hb dbg)
  have ht : Makes .slr dbg outRules .entryPoint .eof t := ⟨g, hg, 100, htab⟩
  have hT := lexed_terminals hl
  obtain ⟨r, n, hr⟩ := (C27_conflict_free_returns (maps := outReducts) ht (by simp) hc out_eof
    out_productive hT).2 (C50_evaluates toks)
  have hpar : Parses t outReducts toks r := ⟨n, hr⟩
  have hdfa : Parser.dfa t toks outReducts = .ok (Dfa.new toks t.actions outReducts .eof) := by
    unfold Parser.dfa
    rw [ht.eofHead]
    rfl
  have hstep : ∀ m, 100 ≤ m → Builder.fromStr dbg order m src toks =
      ((Dfa.new toks t.actions outReducts .eof).start m >>= fun x =>
        match x with
        | (_, .error e) => return .error e
        | (dfa, .ok ()) =>
          match dfa.items.getLast? with
          | none => .panic .indexRange
          | some ast => do
            let b ← Builder.process order src Builder.empty ast
            return .ok b) := by
    intro m hm
    unfold Builder.fromStr buildParser
    rw [show outGrammar dbg = .ok g from hg]
    simp only [Out.ok_bind, (Slr.new_le hm g).ok htab, hdfa]
    rfl
  unfold Parser.parse at hr
  rw [hdfa] at hr
  simp only [Out.ok_bind] at hr
  obtain ⟨⟨d', res⟩, hs, hr⟩ := Out.bind_eq_ok.mp hr
  have hs' : ∀ m, n ≤ m → (Dfa.new toks t.actions outReducts .eof).start m = .ok (d', res) :=
    fun m hm => (Dfa.start_le hm _).ok hs
  cases res with
  | error e =>
    right
    refine ⟨?_, e, max 100 n, fun m hm => ?_⟩
    · intro hds
      have hsen := C49_syntax.mpr hds
      simp only [Out.pure_eq, Out.ok.injEq] at hr
      subst hr
      rcases complete ht (by simp) out_start out_single out_eof (C50_evaluates toks) hsen with
        ⟨v, h⟩ | ⟨a, b, h⟩
      · cases h.unique hpar
      · exact not_conflict ht hc out_eof hT h
    · rw [hstep m (by omega), hs' m (by omega)]
      rfl
  | ok u =>
    left
    obtain ⟨b0, next, red', ha, _⟩ := ht.auto
    have hi := inv_init (M := Meta Ast) outRules t.states next toks
    have hran := ha.ran (maps := outReducts) out_eof n n hi (sim_init t.actions .eof outReducts toks) hT
    rw [show Dfa.trace id n n (Dfa.new toks t.actions outReducts .eof) = .ok (d', .ok u) from hs] at hran
    cases hran with
    | @ok c d h1 h2 h3 =>
      obtain ⟨hv, _⟩ := ha.accepts out_start (ha.inv_moves hi h1) h2
      obtain ⟨p, e, ds, hg⟩ := (reading hv).entry rfl
      have htr : c.trees = [p] := by
        simp only [Tree.node.injEq, true_and] at e
        rw [← List.reverse_reverse c.trees, e]
        rfl
      have hy := h1.yields
      obtain ⟨_, _, _, _, hbuf⟩ := h2
      rw [hbuf, htr] at hy
      have hy : p.yield = toks := by simpa [Tree.yields] using hy
      have hit := h3.items
      rw [htr] at hit
      obtain ⟨it, hit⟩ : ∃ it, d.items = [it] := by
        match hd : d.items with
        | [] => rw [hd] at hit; simp at hit
        | [it] => exact ⟨it, rfl⟩
        | _ :: _ :: _ => rw [hd] at hit; simp at hit
      obtain ⟨it', its, k1, k2⟩ := h3.last htr
      rw [hit] at k1
      cases k1
      obtain ⟨v, k3, k4⟩ := program_value hg (by rw [hy]; exact hl)
      have hv : v = it.item := Option.some.inj ((show p.eval (redOf outReducts) = some v from k3).symm.trans k2)
      refine ⟨p, ds, it, max 100 n, hy, hg, ?_, fun m hm => ?_⟩
      · have := k4 it.ty
        rw [hv] at this
        exact ⟨this, k2⟩
      · rw [hstep m (by omega), hs' m (by omega)]
        simp only [Out.ok_bind, hit, List.getLast?_singleton]

/-- C50: on tokens of a program `Builder::from_str` gets the syntax tree of the declarations that were
written — except that every alias is taken to be marked with `&`. -/
theorem C50_program (dbg : Bool) (order : Nat → List Span → List Span) {src : Text}
    {toks : List Gramem} (hl : Lexed src toks) {ds : List Decl} (hr : ReadsProgram toks ds) :
    ∃ ast N, IsProgram src ast (ds.map Decl.cloning) ∧ ∀ n, N ≤ n →
      Builder.fromStr dbg order n src toks =
        (do let b ← Builder.process order src Builder.empty ast
            return .ok b) := by
  rcases fromStr_cases dbg order hl with ⟨tr, ds', ast, N, h1, h2, ⟨h3, _⟩, h4⟩ | ⟨h1, _⟩
  · refine ⟨ast, N, ?_, h4⟩
    obtain ⟨tr', h1', h2'⟩ := tree_program hr
    have := C49_unambiguous (entry_valid h2.valid h2.root) (entry_valid h2'.valid h2'.root) rfl rfl
      (by rw [entry_yield, entry_yield, h1, h1'])
    simp only [Tree.node.injEq, true_and, List.cons.injEq, and_true] at this
    subst this
    obtain ⟨gs, sp, e1, _, e2⟩ := h2.value
    obtain ⟨gs', sp', e1', _, e2'⟩ := h2'.value
    rw [e1] at e1'
    cases e1'
    rw [e2] at e2'
    rw [← Option.some.inj e2']
    exact h3
  · exact absurd ⟨ds, hr⟩ h1

/-- C50: on other tokens `Builder::from_str` returns an error. -/
theorem C50_error (dbg : Bool) (order : Nat → List Span → List Span) {src : Text}
    {toks : List Gramem} (hl : Lexed src toks) (hr : ¬ ∃ ds, ReadsProgram toks ds) :
    ∃ e N, ∀ n, N ≤ n → Builder.fromStr dbg order n src toks = .ok (.error e) := by
  rcases fromStr_cases dbg order hl with ⟨tr, ds, ast, N, rfl, h2, _⟩ | ⟨_, h⟩
  · exact absurd ⟨ds, h2.reads⟩ hr
  · exact h

/-! ### C59: from the tokens to the rules -/

/-- C59: on tokens that read as declarations without repeated names and misplaced code blocks,
`Builder::from_str` returns a builder that holds exactly these declarations; the productions of every
rule are the symbol sequences its alternatives describe. -/
theorem C59_builds (dbg : Bool) {order : Nat → List Span → List Span} (hord : Orders order) {src : Text}
    {toks : List Gramem} (hl : Lexed src toks) {ds : List Decl} (hr : ReadsProgram toks ds)
    (hp : Proper src ds) :
    ∃ b, Returns (fun n => Builder.fromStr dbg order n src toks) (.ok b) ∧ b.imports = uses ds ∧
      b.aliases = tokens src ds ∧ b.rules.map (·.1) = ruleNames src ds ∧
      ∀ pre ident ty alts post, ds = pre ++ .rule ident ty alts :: post →
        ∃ prods, b.rules.lookup (textOf src ident) = some prods ∧
          prods.map (·.production) = (expansions alts).map
            (fun ax => ax.2.word.map (resolve src (tokens src pre))) := by
  obtain ⟨ast, N, hprog, hfrom⟩ := C50_program dbg order hl hr
  obtain ⟨b, hb, h1, h2, rs, h3, h4⟩ :=
    C47_records hord hprog (b := Builder.empty) (addable_empty.mpr (proper_cloning.mpr hp))
  refine ⟨b, ⟨N, by simp only [hfrom N (Nat.le_refl _), hb]; rfl⟩, ?_, ?_, ?_, ?_⟩
  · rw [h1, uses_cloning]; rfl
  · rw [h2, tokens_cloning]; rfl
  · rw [h3, ← ruleNames_cloning, ← h4]; rfl
  · rintro pre ident ty alts post rfl
    rw [List.map_append, List.map_cons, Decl.cloning] at hprog
    obtain ⟨prods, h5, h6⟩ := C41_expansions hord hprog hb
    refine ⟨prods, h5, ?_⟩
    rw [h6, expansions_cloning, List.map_map, tokens_cloning]
    rfl

/-- C59: on tokens that read as other declarations it panics. -/
theorem C59_rejects (dbg : Bool) {order : Nat → List Span → List Span} (hord : Orders order) {src : Text}
    {toks : List Gramem} (hl : Lexed src toks) {ds : List Decl} (hr : ReadsProgram toks ds)
    (hp : ¬ Proper src ds) :
    ∃ w, Panics (fun n => Builder.fromStr dbg order n src toks) w := by
  obtain ⟨ast, N, hprog, hfrom⟩ := C50_program dbg order hl hr
  obtain ⟨w, hw⟩ := (C47_rejects hord hprog Builder.empty).mpr
    (fun h => hp (proper_cloning.mp (addable_empty.mp h)))
  exact ⟨w, N, by simp only [hfrom N (Nat.le_refl _), hw]; rfl⟩

/-! ### C60: copies and references -/

theorem fromStr_le {n m : Nat} (h : n ≤ m) (dbg : Bool) (order : Nat → List Span → List Span)
    (src : Text) (toks : List Gramem) :
    Out.Le (Builder.fromStr dbg order n src toks) (Builder.fromStr dbg order m src toks) := by
  unfold Builder.fromStr buildParser
  refine Out.Le.bind (Out.Le.bind (.refl _) (fun g => Out.Le.bind (Slr.new_le h g) (fun t => .refl _)))
    (fun d => Out.Le.bind (Dfa.start_le h d) (fun r => .refl _))

/-- The result is that of processing the syntax tree. -/
theorem fromStr_process {dbg : Bool} {order : Nat → List Span → List Span} {src : Text}
    {toks : List Gramem} {ast : Gramem} {N : Nat}
    (hfrom : ∀ n, N ≤ n → Builder.fromStr dbg order n src toks =
        (do let b ← Builder.process order src Builder.empty ast
            return .ok b)) {b : Builder}
    (hb : Returns (fun n => Builder.fromStr dbg order n src toks) (.ok b)) :
    Builder.process order src Builder.empty ast = .ok b := by
  obtain ⟨n, hn⟩ := hb
  have := (fromStr_le (Nat.le_max_left n N) dbg order src toks).ok hn
  rw [hfrom _ (Nat.le_max_right n N)] at this
  obtain ⟨b', h, e⟩ := Out.bind_eq_ok.mp this
  cases e
  exact h

/-- What is proved of C60: the line generated for an alias whose item was taken copies the item.  So
`:&name` works as documented; `:name` does not (`C60_false`). -/
theorem C60_partial (dbg : Bool) {order : Nat → List Span → List Span} (hord : Orders order)
    {src : Text} {toks : List Gramem} (hl : Lexed src toks) {pre post : List Decl} {ident ty : Span}
    {alts : List Alt} (hr : ReadsProgram toks (pre ++ .rule ident ty alts :: post)) {b : Builder}
    (hb : Returns (fun n => Builder.fromStr dbg order n src toks) (.ok b)) :
    ∃ prods : RuleBuild, b.rules.lookup (textOf src ident) = some prods ∧
      ∀ (i : Nat) (a : Alt) (x : Expansion), (expansions alts)[i]? = some (a, x) →
        WellNamed src a.items → ∃ q : ProductionBuild, prods[i]? = some q ∧
          ∀ n pl, (n, pl) ∈ x.places → (∃ e ∈ q.aliases, e.alias = n) ∧
            ∀ e ∈ q.aliases, e.alias = n → e.clone = true := by
  obtain ⟨ast, N, hprog, hfrom⟩ := C50_program dbg order hl hr
  have hproc := fromStr_process hfrom hb
  rw [List.map_append, List.map_cons, Decl.cloning] at hprog
  obtain ⟨prods, h1, h2⟩ := rule_productions hord hprog hproc
  refine ⟨prods, h1, fun i a x hx hd => ?_⟩
  have hx' : (expansions (alts.map Alt.cloning))[i]? = some (a.cloning, x.cloning) := by
    rw [expansions_cloning, List.getElem?_map, hx]
    rfl
  have hlt : i < prods.length := by
    rw [← h2.length]
    exact (List.getElem?_eq_some_iff.mp hx').1
  obtain ⟨q, hq⟩ : ∃ q, prods[i]? = some q := ⟨_, List.getElem?_eq_getElem hlt⟩
  refine ⟨q, hq, fun n pl hn => ?_⟩
  have hg : Generated order src a.cloning x.cloning q :=
    ⟨ast, _, _, _, _, _, _, _, _, i, hprog, hproc, h1, hx', hq⟩
  have hd' : WellNamed src a.cloning.items := wellNamed_cloning a.items hd
  obtain ⟨_, _, e2, _⟩ := hg.entries hord hd'
  have hn' : (n, { pl with clone := true }) ∈ x.cloning.places :=
    List.mem_map.mpr ⟨_, hn, rfl⟩
  obtain ⟨e, he, en, _⟩ := hg.taken hord hd' hn'
  refine ⟨⟨e, he, en⟩, ?_⟩
  rintro e he rfl
  exact ((e2 e he).place _ _ hn' rfl).2.2.2

/-- C60 in full: an alias written `:name` is bound to a reference, and one written `:&name` to a
copy. -/
def C60_claim : Prop :=
  ∀ (dbg : Bool) (order : Nat → List Span → List Span) (src : Text) (toks : List Gramem)
    (pre post : List Decl) (ident ty : Span) (alts : List Alt) (b : Builder), Orders order →
    Lexed src toks → ReadsProgram toks (pre ++ .rule ident ty alts :: post) →
    Returns (fun n => Builder.fromStr dbg order n src toks) (.ok b) →
    ∃ prods : RuleBuild, b.rules.lookup (textOf src ident) = some prods ∧
      ∀ (i : Nat) (a : Alt) (x : Expansion), (expansions alts)[i]? = some (a, x) →
        WellNamed src a.items → ∃ q : ProductionBuild, prods[i]? = some q ∧
          ∀ n pl, (n, pl) ∈ x.places → (∃ e ∈ q.aliases, e.alias = n) ∧
            ∀ e ∈ q.aliases, e.alias = n → e.clone = pl.clone

namespace WopSamples

/-- A token. -/
def tk (s : Sym) (a b : Nat) : Gramem := ⟨⟨.token s, ⟨a, b⟩⟩, s⟩

/-- A source. -/
def bytes (s : String) : Text := s.toUTF8.toList.map (·.toNat)

/-- The tokens could come from the lexer. -/
def isLexed (src : Text) : List Gramem → Bool
  | [] => true
  | t :: ts => (match t.item.item with | .token s => decide (s = t.ty) | _ => false) &&
      decide (t.ty ∈ lexSyms ∧ t.item.span.start < t.item.span.stop ∧ t.item.span.stop ≤ src.length ∧
        ∀ u ∈ ts, t.item.span.stop ≤ u.item.span.start) &&
      boundary src t.item.span.start && boundary src t.item.span.stop && isLexed src ts

theorem lexed_of {src : Text} : ∀ {toks : List Gramem}, isLexed src toks = true → Lexed src toks
  | [], _ => ⟨by simp, by simp, by simp, .nil⟩
  | t :: ts, h => by
    simp only [isLexed, Bool.and_eq_true, decide_eq_true_eq] at h
    obtain ⟨⟨⟨⟨h1, h2, h3, h4, h5⟩, h7⟩, h8⟩, h6⟩ := h
    have ih := lexed_of h6
    have h1 : t.item.item = .token t.ty := by
      cases e : t.item.item <;> rw [e] at h1 <;> simp at h1
      rw [h1]
    constructor
    · intro u hu
      rcases List.mem_cons.mp hu with rfl | hu
      · exact ⟨h1, h2⟩
      · exact ih.plain u hu
    · intro u hu
      rcases List.mem_cons.mp hu with rfl | hu
      · exact ⟨h3, h4⟩
      · exact ih.inside u hu
    · intro u hu
      rcases List.mem_cons.mp hu with rfl | hu
      · exact ⟨boundary_iff.mp h7, boundary_iff.mp h8⟩
      · exact ih.whole u hu
    · exact .cons h5 ih.ordered

/-- The program `A:T=(B|C?):x->{}%;`. -/
def progSrc : Text := bytes "A:T=(B|C?):x->{}%;"

def progToks : List Gramem :=
  [tk .ident 0 1, tk .twoDots 1 2, tk .ident 2 3, tk .assign 3 4, tk .openParen 4 5, tk .ident 5 6,
   tk .pipe 6 7, tk .ident 7 8, tk .optional 8 9, tk .closeParen 9 10, tk .twoDots 10 11,
   tk .ident 11 12, tk .codeBlock 12 17, tk .sc 17 18]

def progAlt : Alt :=
  ⟨[.group [[.sym ⟨5, 6⟩ false none false], [.sym ⟨7, 8⟩ true none false]] false (some ⟨11, 12⟩) false],
    ⟨12, 17⟩, [Span.new 0 0, Span.new 0 0]⟩

def progDecls : List Decl := [.rule ⟨0, 1⟩ ⟨2, 3⟩ [progAlt]]

theorem progReads : ReadsProgram progToks progDecls := by
  have b : ReadsItem [tk .ident 5 6] (.sym ⟨5, 6⟩ false none false) [] :=
    .path (ts := [tk .ident 5 6]) (.one rfl) .no .none
  have c : ReadsItem [tk .ident 7 8, tk .optional 8 9] (.sym ⟨7, 8⟩ true none false) [] :=
    .path (ts := [tk .ident 7 8]) (os := [tk .optional 8 9]) (.one rfl) (.yes rfl) .none
  have r : ReadsRule [tk .ident 5 6, tk .pipe 6 7, tk .ident 7 8, tk .optional 8 9]
      [⟨[.sym ⟨5, 6⟩ false none false], Span.new 0 0, []⟩,
       ⟨[.sym ⟨7, 8⟩ true none false], Span.new 0 0, []⟩] :=
    .more (rs := [tk .ident 5 6]) (p := tk .pipe 6 7) (.one (.one b) .none) rfl (.one c) .none
  have g := ReadsItem.group (o := tk .openParen 4 5) (c := tk .closeParen 9 10)
    (os := []) (as := [tk .twoDots 10 11, tk .ident 11 12]) rfl r rfl .no (.ref rfl rfl)
  have a : ReadsRule _ [progAlt] := .one (us := [tk .codeBlock 12 17]) (.one g) (.some rfl)
  exact .one (ts := progToks.take 13) (s := tk .sc 17 18)
    (.rule (is := [tk .ident 0 1]) (ts := [tk .ident 2 3]) (.one rfl) rfl (.one rfl) rfl a) rfl

/-- The hypotheses of `C50_program` and `C59_builds` are met by a program with a group. -/
example : Lexed progSrc progToks ∧ ReadsProgram progToks progDecls ∧ Proper progSrc progDecls :=
  ⟨lexed_of (by decide +kernel), progReads,
   by decide +kernel, by simp [progDecls, tokens], by
    intro ident ty alts hd a ha
    simp only [progDecls, List.mem_singleton, Decl.rule.injEq] at hd
    obtain ⟨rfl, rfl, rfl⟩ := hd
    simp only [List.mem_singleton] at ha
    subst ha
    exact ⟨by decide +kernel, by decide⟩⟩

/-- The program `A:T=B:x->{}%;`. -/
def refSrc : Text := bytes "A:T=B:x->{}%;"

def refToks : List Gramem :=
  [tk .ident 0 1, tk .twoDots 1 2, tk .ident 2 3, tk .assign 3 4, tk .ident 4 5, tk .twoDots 5 6,
   tk .ident 6 7, tk .codeBlock 7 12, tk .sc 12 13]

def refAlt : Alt := ⟨[.sym ⟨4, 5⟩ false (some ⟨6, 7⟩) false], ⟨7, 12⟩, []⟩

theorem refReads : ReadsProgram refToks ([] ++ .rule ⟨0, 1⟩ ⟨2, 3⟩ [refAlt] :: []) := by
  have b : ReadsItem [tk .ident 4 5, tk .twoDots 5 6, tk .ident 6 7]
      (.sym ⟨4, 5⟩ false (some ⟨6, 7⟩) false) [] :=
    .path (ts := [tk .ident 4 5]) (as := [tk .twoDots 5 6, tk .ident 6 7]) (.one rfl) .no
      (.ref rfl rfl)
  have a : ReadsRule _ [refAlt] := .one (us := [tk .codeBlock 7 12]) (.one b) (.some rfl)
  exact .one (ts := refToks.take 8) (s := tk .sc 12 13)
    (.rule (is := [tk .ident 0 1]) (ts := [tk .ident 2 3]) (.one rfl) rfl (.one rfl) rfl a) rfl

theorem refProper : Proper refSrc [.rule ⟨0, 1⟩ ⟨2, 3⟩ [refAlt]] :=
  ⟨by decide +kernel, by simp [tokens], by
    intro ident ty alts hd a ha
    simp only [List.mem_singleton, Decl.rule.injEq] at hd
    obtain ⟨rfl, rfl, rfl⟩ := hd
    simp only [List.mem_singleton] at ha
    subst ha
    exact ⟨by decide +kernel, by decide⟩⟩

end WopSamples

/-- C60 is false: in `A:T=B:x->{}%;` the alias `x` is written without `&`, but bound to a copy. -/
theorem C60_false : ¬ C60_claim := by
  intro h
  have hl : Lexed WopSamples.refSrc WopSamples.refToks := WopSamples.lexed_of (by decide +kernel)
  obtain ⟨b, hb, _⟩ := C59_builds false WopSamples.orders hl WopSamples.refReads WopSamples.refProper
  obtain ⟨prods, h1, h2⟩ :=
    h false _ _ _ _ _ _ _ _ b WopSamples.orders hl WopSamples.refReads hb
  obtain ⟨prods', h1', h2'⟩ := C60_partial false WopSamples.orders hl WopSamples.refReads hb
  rw [h1] at h1'
  cases h1'
  have hx : (expansions [WopSamples.refAlt])[0]? = some (WopSamples.refAlt,
      ⟨[⟨4, 5⟩], [(⟨6, 7⟩, ⟨0, 1, none, false⟩)], [⟨6, 7⟩]⟩) := by
    simp [expansions, WopSamples.refAlt, expand, Item.expand, Expansion.append, Expansion.empty]
  have hd : WellNamed WopSamples.refSrc WopSamples.refAlt.items := by
    simp [WellNamed, Item.WellNamed, Apart, WopSamples.refAlt, names]
  obtain ⟨q, hq, h3⟩ := h2 0 _ _ hx hd
  obtain ⟨q', hq', h3'⟩ := h2' 0 _ _ hx hd
  rw [hq] at hq'
  cases hq'
  obtain ⟨⟨e, he, e1⟩, e2⟩ := h3 ⟨6, 7⟩ _ (List.mem_singleton.mpr rfl)
  have e3 := (h3' ⟨6, 7⟩ _ (List.mem_singleton.mpr rfl)).2 e he e1
  rw [e2 e he e1] at e3
  cases e3

/-- `alias N = N;`, as in the README, is an error: the grammar has no `=` there. -/
theorem readme_alias : ∃ e, Builder.fromStr false WopSamples.order 100 (WopSamples.bytes "alias N = N;")
    [WopSamples.tk .aliasWord 0 5, WopSamples.tk .ident 6 7, WopSamples.tk .assign 8 9,
     WopSamples.tk .ident 10 11, WopSamples.tk .sc 11 12] = .ok (.error e) := by
  have h : ∀ {o : Out (Except (Error Sym) Builder)},
      (match o with | .ok (.error _) => true | _ => false) = true → ∃ e, o = .ok (.error e) := by
    intro o h
    split at h
    · exact ⟨_, rfl⟩
    · cases h
  exact h (by decide +kernel)

end Lrp.Props
