import Verif.Proofs.WopDump
import Verif.Props.WopGen

/-! C74 to C76: the texts that `dump_grammar` and `dump_reductor` write, read as Rust. -/

namespace Lrp.Props
open Spec Wop Wop.Spec
set_option maxRecDepth 100000
set_option linter.unusedSectionVars false

section
variable {dbg : Bool} {order : Nat → List Span → List Span} {L : LexEnv} {src : Text} {ds : List Decl}
  {b : Builder} {rules : List (Text × RuleBuild)}

/-! ### C74: the text of `dump_grammar` -/

/-- C74: for every source that `Builder::from_str` takes, and every order in which the rules are written:
`dump_grammar` does not panic, and its text, read as Rust, imports exactly the paths the source imports, in
order, and inserts into the map exactly one rule for every rule declared, with the productions its
alternatives describe, in order. -/
theorem C74_reads (hord : Orders order) (hu : Utf8 src) (hr : ReadsProgram (lex L src) ds)
    (hb : Returns (fun n => Builder.fromStr dbg order n src (lex L src)) (.ok b))
    (hp : rules.Perm b.rules) (hleg : GrammarLegible src ds) :
    ∃ t gs, grammarText src b.imports rules = .ok t ∧
      readGrammar t = some ((uses ds).map (fun sp => toksOf (textOf src sp)), gs) ∧
      (gs.map (·.1)).Perm ((ruleNames src ds).map toksOf) ∧
      ∀ pre ident alts, HasRule ds pre ident alts →
        (toksOf (textOf src ident), (expansions alts).map (fun ax =>
          ax.2.word.map (fun sp => toksOf (textOf src (resolve src (tokens src pre) sp))))) ∈ gs := by
  obtain ⟨t, gs, h1, _, h2⟩ := source_grammar hord hu hr hb hp hleg
  exact ⟨t, gs, h1, h2⟩

/-! ### C75: the functions of `dump_reductor` -/

/-- C75: for every source that `Builder::from_str` takes, with rules named by single words, any type of
the items, and every order in which the rules are written: `dump_reductor` does not panic, and its text,
read as Rust, declares functions of different names, each of which is inserted exactly once; every rule
declared gets as many functions as it has expansions, in their order, and the body of a function is a
sequence of `let`s, followed by the code block of the alternative. -/
theorem C75_partial (hord : Orders order) (hu : Utf8 src) (hr : ReadsProgram (lex L src) ds)
    (hb : Returns (fun n => Builder.fromStr dbg order n src (lex L src)) (.ok b))
    (hp : rules.Perm b.rules) {entry : Text} (h0 : entry ≠ []) (hleg : ReductorLegible entry src ds) :
    ∃ t acts, reductorText entry src b.imports rules = .ok t ∧
      readReductor t = some ((uses ds).map (fun sp => toksOf (textOf src sp)), acts) ∧
      ((defined acts).map Fn.name).Nodup ∧
      (inserted acts).flatMap (·.2) = (defined acts).map Fn.name ∧
      ((inserted acts).map (·.1)).Perm ((ruleNames src ds).map toksOf) ∧
      ∀ pre post ident ty alts, ds = pre ++ .rule ident ty alts :: post →
        ∃ fns, (toksOf (textOf src ident), fns) ∈ inserted acts ∧ fns.length = (expansions alts).length ∧
          ∀ (i : Nat) (a : Alt) (x : Expansion), (expansions alts)[i]? = some (a, x) →
            ∃ f ∈ defined acts, fns[i]? = some f.name ∧ f.entry = toksOf entry ∧
              f.ty = toksOf (textOf src ty) ∧
              ∃ lets code, textOf src a.block = 45 :: 62 :: (code ++ [37]) ∧
                readLets lets.length f.body = some (lets, toksOf code) ∧
                ∀ t, t ∈ lets.map Let.name ↔ t ∈ (names a.items).map (textOf src) := by
  obtain ⟨t, acts, h1, _, h2, h3, h4, h5, h6⟩ := source_reductor hord hu hr hb hp h0 hleg
  refine ⟨t, acts, h1, h2, h3, h4, h5, ?_⟩
  intro pre post ident ty alts hd
  obtain ⟨fns, k1, k2, k3⟩ := h6 pre post ident ty alts hd
  refine ⟨fns, k1, k2, ?_⟩
  intro i a x hx
  obtain ⟨f, q, code, g1, g2, g3, g4, g5, g6, g7, g8⟩ := k3 i a x hx
  refine ⟨f, g1, g2, g3, g4, _, code, g5, g6, ?_⟩
  intro t
  have hn := C45_names hord g8 t
  have hnames' : names a.cloning.items = names a.items := (cloning_spans a.items).2
  rw [hnames'] at hn
  simp only [letsOf, List.map_map, List.mem_map, Function.comp_def]
  exact hn

/-- The claim of C75 for all sources, also with rules named by paths. -/
def C75_claim : Prop :=
  ∀ (dbg : Bool) (order : Nat → List Span → List Span) (L : LexEnv) (src : Text) (ds : List Decl) (b : Builder)
    (rules : List (Text × RuleBuild)) (entry : Text), Orders order → Utf8 src → ReadsProgram (lex L src) ds →
    Returns (fun n => Builder.fromStr dbg order n src (lex L src)) (.ok b) → rules.Perm b.rules → entry ≠ [] →
    ∃ t acts, reductorText entry src b.imports rules = .ok t ∧ readReductor t = some acts

/-! ### C76: the values of the `let`s -/

/-- C76: in addition, if the names of the aliases are used well in every alternative, groups with marks are
as in C58, and no alias is named `toks`: the `let`s, as they stand in the text, run on the items of the
production without panicking, and bind exactly the aliases of the alternative: to the items they stand for,
inside `Some` unless they are bound in any case, or to `None`. -/
theorem C76_values (hord : Orders order) (hu : Utf8 src) (hr : ReadsProgram (lex L src) ds)
    (hb : Returns (fun n => Builder.fromStr dbg order n src (lex L src)) (.ok b))
    (hp : rules.Perm b.rules) {entry : Text} (h0 : entry ≠ []) (hleg : ReductorLegible entry src ds)
    (hplain : Plain src ds)
    (htoks : ∀ pre ident alts, HasRule ds pre ident alts → ∀ a ∈ alts, ∀ n ∈ names a.items,
      textOf src n ≠ ascii "toks") :
    ∃ t us acts, reductorText entry src b.imports rules = .ok t ∧ readReductor t = some (us, acts) ∧
      ∀ pre post ident ty alts, ds = pre ++ .rule ident ty alts :: post →
        ∃ fns, (toksOf (textOf src ident), fns) ∈ inserted acts ∧
          ∀ (i : Nat) (a : Alt) (x : Expansion), (expansions alts)[i]? = some (a, x) →
            ∃ f ∈ defined acts, fns[i]? = some f.name ∧
              ∃ lets code, textOf src a.block = 45 :: 62 :: (code ++ [37]) ∧
                readLets lets.length f.body = some (lets, toksOf code) ∧
                ∀ {τ : Type} (toks : List τ), toks.length = x.word.length → toks ≠ [] →
                  ∃ vars, evalLets toks lets = some vars ∧ Binds src a x toks (valueOf vars) := by
  obtain ⟨t, acts, h1, _, h2, h3, h4, h5, h6⟩ := source_reductor hord hu hr hb hp h0 hleg
  refine ⟨t, _, acts, h1, h2, ?_⟩
  intro pre post ident ty alts hd
  obtain ⟨fns, k1, k2, k3⟩ := h6 pre post ident ty alts hd
  refine ⟨fns, k1, ?_⟩
  intro i a x hx
  obtain ⟨f, q, code, g1, g2, g3, g4, g5, g6, g7, g8⟩ := k3 i a x hx
  refine ⟨f, g1, g2, _, code, g5, g6, ?_⟩
  intro τ toks hlen hne
  have hrule : HasRule ds pre ident alts := ⟨ty, post, hd⟩
  have ha := (mem_expansions.mp (List.mem_of_getElem? hx)).1
  have hpl := hplain pre ident alts hrule a ha
  obtain ⟨vars, e1, e2⟩ := generated_binds hord g8 hpl.1 hpl.2 hlen hne
  exact ⟨vars, evalLets_runLets (fun e he => (g7 e he).1)
    (fun e he => htoks pre ident alts hrule a ha _ (g7 e he).2) e1, e2⟩

end

/-! ### Examples -/

namespace WopSamples

theorem closed_of {t : Text} (h : (match (scan .idle t).1 with | .str _ _ => false | _ => true) = true) :
    Closed t := by
  intro w e hs
  rw [hs] at h
  cases h

theorem without_of {cs : List Nat} {t : Text}
    (h : ((match (scan .idle t).1 with | .str _ _ => false | _ => true) &&
      cs.all (fun c => decide (Tok.char c ∉ toksOf t))) = true) : Without cs t := by
  rw [Bool.and_eq_true] at h
  refine ⟨closed_of h.1, fun c hc => ?_⟩
  exact of_decide_eq_true (List.all_eq_true.mp h.2 c hc)

theorem code_eq {t c c' : Text} (h : t = 45 :: 62 :: (c ++ [37])) (h' : t = 45 :: 62 :: (c' ++ [37])) :
    c' = c := by
  rw [h] at h'
  simpa using h'.symm

theorem sum_uses : uses sumDecls = [] := rfl

theorem sum_pre {pre : List Decl} {ident : Span} {alts : List Alt} (h : HasRule sumDecls pre ident alts) :
    (alts = [sumStart] ∧ pre = sumDecls.take 1 ∧ ident = ⟨10, 11⟩) ∨
      (alts = [sumAlt] ∧ pre = sumDecls.take 2 ∧ ident = ⟨24, 25⟩) := by
  obtain ⟨ty, post, e⟩ := h
  match pre, e with
  | [], e => simp [sumDecls] at e
  | [d], e =>
    simp only [sumDecls, List.cons_append, List.nil_append, List.cons.injEq, Decl.rule.injEq] at e
    obtain ⟨rfl, ⟨rfl, _, rfl⟩, _⟩ := e
    exact .inl ⟨rfl, rfl, rfl⟩
  | [d, d'], e =>
    simp only [sumDecls, List.cons_append, List.nil_append, List.cons.injEq, Decl.rule.injEq] at e
    obtain ⟨rfl, rfl, ⟨rfl, _, rfl⟩, _⟩ := e
    exact .inr ⟨rfl, rfl, rfl⟩
  | d :: d' :: d'' :: pre, e =>
    simp only [sumDecls, List.cons_append, List.cons.injEq] at e
    obtain ⟨_, _, _, e⟩ := e
    simp at e

theorem sum_grammarLegible : GrammarLegible sumSrc sumDecls where
  uses := by simp [sum_uses]
  rules := by
    intro pre ident alts h
    rcases sum_pre h with ⟨_, _, rfl⟩ | ⟨_, _, rfl⟩ <;> exact without_of (by decide +kernel)
  symbols := by
    intro pre ident alts h a ha sp hsp
    rcases sum_pre h with ⟨rfl, rfl, rfl⟩ | ⟨rfl, rfl, rfl⟩ <;> rw [List.mem_singleton] at ha <;> subst ha
    · have : sp = ⟨14, 15⟩ := by simpa [sumStart, symbols, Item.symbols] using hsp
      subst this
      exact without_of (by decide +kernel)
    · have : sp = ⟨28, 29⟩ ∨ sp = ⟨32, 33⟩ ∨ sp = ⟨34, 35⟩ := by
        simpa [sumAlt, symbols, Item.symbols, altSymbols] using hsp
      rcases this with rfl | rfl | rfl <;> exact without_of (by decide +kernel)

theorem sum_mem {ident ty : Span} {alts : List Alt} (h : Decl.rule ident ty alts ∈ sumDecls) :
    (ident = ⟨10, 11⟩ ∧ ty = ⟨12, 13⟩ ∧ alts = [sumStart]) ∨
      (ident = ⟨24, 25⟩ ∧ ty = ⟨26, 27⟩ ∧ alts = [sumAlt]) := by
  simpa [sumDecls] using h

theorem sum_reductorLegible : ReductorLegible (bytes "Token") sumSrc sumDecls where
  entry := without_of (by decide +kernel)
  uses := by simp [sum_uses]
  rules := by
    intro ident ty alts h
    rcases sum_mem h with ⟨rfl, rfl, _⟩ | ⟨rfl, rfl, _⟩ <;>
      exact ⟨isWord_of (by decide +kernel), without_of (by decide +kernel)⟩
  names := by
    intro ident ty alts h a ha n hn
    rcases sum_mem h with ⟨_, _, rfl⟩ | ⟨_, _, rfl⟩ <;> rw [List.mem_singleton] at ha <;> subst ha
    · have : n = ⟨16, 17⟩ := by simpa [sumStart, names, Item.names] using hn
      subst this
      exact ⟨isWord_of (by decide +kernel), by decide +kernel⟩
    · have : n = ⟨30, 31⟩ ∨ n = ⟨36, 37⟩ := by simpa [sumAlt, names, Item.names, altNames] using hn
      rcases this with rfl | rfl <;> exact ⟨isWord_of (by decide +kernel), by decide +kernel⟩
  code := by
    intro ident ty alts h a ha code hc
    rcases sum_mem h with ⟨_, _, rfl⟩ | ⟨_, _, rfl⟩ <;> rw [List.mem_singleton] at ha <;> subst ha
    · have e : textOf sumSrc sumStart.block = 45 :: 62 :: (bytes "{v}" ++ [37]) := by decide +kernel
      rw [code_eq e hc]
      exact ⟨closed_of (by decide +kernel), by decide +kernel⟩
    · have e : textOf sumSrc sumAlt.block = 45 :: 62 :: (bytes "{s}" ++ [37]) := by decide +kernel
      rw [code_eq e hc]
      exact ⟨closed_of (by decide +kernel), by decide +kernel⟩

/-- The texts written for the sums, byte by byte. -/
def sumTexts : Bool :=
  match Builder.fromStr false order 100 sumSrc (lex lexer sumSrc) with
  | .ok (.ok b) =>
    decide (grammarText sumSrc b.imports b.rules = .ok ([
      "{\n\tlet mut map = lrp::RuleMap::new();\n",
      "\tmap.insert(S, lrp::grammar::Rule::new(S, vec![\n\t\tvec![E, ],\n\n\t]));\n",
      "\tmap.insert(E, lrp::grammar::Rule::new(E, vec![\n\t\tvec![N, P, E, ],\n\t\tvec![N, ],\n\n\t]));\n",
      "\n\tmap\n}"].flatMap ascii)) &&
    decide (reductorText (bytes "Token") sumSrc b.imports b.rules = .ok ([
      "{\n\tlet mut map = lrp::ReductMap::new();\n\n",
      "\tfn lrp_wop_S_0(toks: &[Token]) -> lrp::Meta<T> {\n",
      "\t\tlrp::Meta::new({ let v = toks[0].clone();\n {v}}, ",
      "lrp::Span::new(toks[0].item.span.start, toks.last().unwrap().item.span.end))\n\t}\n",
      "\tmap.insert(S, vec![lrp_wop_S_0, \t]);\n\n",
      "\tfn lrp_wop_E_0(toks: &[Token]) -> lrp::Meta<T> {\n",
      "\t\tlrp::Meta::new({ let a = toks[0].clone();\nlet b = Some(toks[2].clone());\n {s}}, ",
      "lrp::Span::new(toks[0].item.span.start, toks.last().unwrap().item.span.end))\n\t}\n",
      "\tfn lrp_wop_E_1(toks: &[Token]) -> lrp::Meta<T> {\n",
      "\t\tlrp::Meta::new({ let a = toks[0].clone();\nlet mut b = Some(&toks[0]); b = None; let b = b;\n {s}}, ",
      "lrp::Span::new(toks[0].item.span.start, toks.last().unwrap().item.span.end))\n\t}\n",
      "\tmap.insert(E, vec![lrp_wop_E_0, lrp_wop_E_1, \t]);\n\n",
      "\tmap\n}"].flatMap ascii))
  | _ => false

theorem sum_texts : sumTexts = true := by decide +kernel

theorem sum_toks (pre : List Decl) (ident : Span) (alts : List Alt) (h : HasRule sumDecls pre ident alts) :
    ∀ a ∈ alts, ∀ n ∈ names a.items, textOf sumSrc n ≠ ascii "toks" := by
  intro a ha n hn
  rcases sum_pre h with ⟨rfl, _, _⟩ | ⟨rfl, _, _⟩ <;> rw [List.mem_singleton] at ha <;> subst ha
  · have : n = ⟨16, 17⟩ := by simpa [sumStart, names, Item.names] using hn
    subst this
    decide +kernel
  · have : n = ⟨30, 31⟩ ∨ n = ⟨36, 37⟩ := by simpa [sumAlt, names, Item.names, altNames] using hn
    rcases this with rfl | rfl <;> decide +kernel

/-- C74 to C76 apply to the sums, with the rules written in reverse. -/
example : ∃ b : Builder, (∃ t gs, grammarText sumSrc b.imports b.rules.reverse = .ok t ∧
      readGrammar t = some ([], gs) ∧ gs.length = 2) ∧
    ∃ t us acts, reductorText (bytes "Token") sumSrc b.imports b.rules.reverse = .ok t ∧
      readReductor t = some (us, acts) ∧
      ∀ pre post ident ty alts, sumDecls = pre ++ .rule ident ty alts :: post →
        ∃ fns, (toksOf (textOf sumSrc ident), fns) ∈ inserted acts ∧
          ∀ (i : Nat) (a : Alt) (x : Expansion), (expansions alts)[i]? = some (a, x) →
            ∃ f ∈ defined acts, fns[i]? = some f.name ∧
              ∃ lets code, textOf sumSrc a.block = 45 :: 62 :: (code ++ [37]) ∧
                readLets lets.length f.body = some (lets, toksOf code) ∧
                ∀ {τ : Type} (toks : List τ), toks.length = x.word.length → toks ≠ [] →
                  ∃ vars, evalLets toks lets = some vars ∧ Binds sumSrc a x toks (valueOf vars) := by
  obtain ⟨b, _, _, _, hb, _⟩ := sum_built
  refine ⟨b, ?_, ?_⟩
  · obtain ⟨t, gs, h1, h2, h3, _⟩ := C74_reads orders sum_utf8 sum_reads ⟨100, hb⟩ (List.reverse_perm _) sum_grammarLegible
    refine ⟨t, gs, h1, h2, ?_⟩
    have := h3.length_eq
    rw [List.length_map, List.length_map] at this
    exact this
  · exact C76_values orders sum_utf8 sum_reads ⟨100, hb⟩ (List.reverse_perm _) (by decide +kernel) sum_reductorLegible
      sum_plain sum_toks

/-- `A::B:T=x->{v}%;`: a rule named by a path. -/
def pathSrc : Text := bytes "A::B:T=x->{v}%;"

def pathDecls : List Decl :=
  [.rule ⟨0, 4⟩ ⟨5, 6⟩ [⟨[.sym ⟨7, 8⟩ false none false], ⟨8, 14⟩, []⟩]]

theorem path_lex : lex lexer pathSrc =
    [tk .ident 0 1, tk .pathAccess 1 3, tk .ident 3 4, tk .twoDots 4 5, tk .ident 5 6, tk .assign 6 7,
     tk .ident 7 8, tk .codeBlock 8 14, tk .sc 14 15] := by with_unfolding_all rfl

theorem path_reads : ReadsProgram (lex lexer pathSrc) pathDecls := by
  rw [path_lex]
  have i : ReadsItem [tk .ident 7 8] (.sym ⟨7, 8⟩ false none false) [] :=
    .path (ts := [tk .ident 7 8]) (.one rfl) .no .none
  have r : ReadsRule _ [⟨[.sym ⟨7, 8⟩ false none false], ⟨8, 14⟩, []⟩] :=
    .one (us := [tk .codeBlock 8 14]) (.one i) (.some rfl)
  have pth : ReadsPath [tk .ident 0 1, tk .pathAccess 1 3, tk .ident 3 4] ⟨0, 4⟩ :=
    .more (ts := [tk .ident 0 1]) (.one rfl) rfl rfl
  exact .one (s := tk .sc 14 15)
    (.rule (ts := [tk .ident 5 6]) (c := tk .twoDots 4 5) (e := tk .assign 6 7) pth rfl (.one rfl) rfl r) rfl

/-- `dump_reductor` writes `fn lrp_wop_A::B_0(…)`, which is no function; `dump_grammar` is fine. -/
def pathRun : Bool :=
  match Builder.fromStr false order 100 pathSrc (lex lexer pathSrc) with
  | .ok (.ok b) =>
    (match reductorText (bytes "Token") pathSrc b.imports b.rules with
    | .ok t => decide (readReductor t = none) && decide ((ascii "\tfn lrp_wop_A::B_0(") <:+: t)
    | _ => false) &&
    match grammarText pathSrc b.imports b.rules with
    | .ok t => decide (readGrammar t = some ([],
        [(toksOf (bytes "A::B"), [[toksOf (bytes "x")]])]))
    | _ => false
  | _ => false

theorem path_run : pathRun = true := by decide +kernel

/-- The same path written in two ways: the builder sees two rules, the program has one key. -/
def twiceSrc : Text := bytes "A::B:T=x->{v}%;A ::B:T=y->{w}%;"

def twiceRun : Bool :=
  match Builder.fromStr false order 100 twiceSrc (lex lexer twiceSrc) with
  | .ok (.ok b) =>
    match grammarText twiceSrc b.imports b.rules with
    | .ok t => decide (readGrammar t = some ([],
        [(toksOf (bytes "A::B"), [[toksOf (bytes "x")]]), (toksOf (bytes "A::B"), [[toksOf (bytes "y")]])]))
    | _ => false
  | _ => false

/-- Two rules may be inserted under the same key: the names are compared as texts, and `A::B` and `A ::B`
are different texts. -/
theorem twice_run : twiceRun = true := by decide +kernel

/-- An alias named `toks` hides the argument from the `let`s after it. -/
def toksSrc : Text := bytes "S:T=x:toks y:b->{v}%;"

def toksRun : Bool :=
  match Builder.fromStr false order 100 toksSrc (lex lexer toksSrc) with
  | .ok (.ok b) =>
    match reductorText (bytes "Token") toksSrc b.imports b.rules with
    | .ok t =>
      match readReductor t with
      | some (_, .define f :: _) =>
        match readLets 2 f.body with
        | some (lets, _) => decide (lets.map Let.name = [bytes "toks", bytes "b"]) &&
            decide (evalLets [1, 2] lets = none)
        | none => false
      | _ => false
    | _ => false
  | _ => false

/-- So the generated function panics on the items of its own production. -/
theorem toks_run : toksRun = true := by decide +kernel

end WopSamples

/-- The claim of C75 fails for rules named by paths. -/
theorem C75_false : ¬ C75_claim := by
  intro h
  have hr := WopSamples.path_run
  unfold WopSamples.pathRun at hr
  split at hr
  · rename_i b hb
    rw [Bool.and_eq_true] at hr
    obtain ⟨h1, _⟩ := hr
    split at h1
    · rename_i t ht
      rw [Bool.and_eq_true] at h1
      obtain ⟨t', acts, e1, e2⟩ := h false _ _ _ _ b b.rules (WopSamples.bytes "Token") WopSamples.orders
        (utf8_ascii (by decide +kernel)) WopSamples.path_reads ⟨100, hb⟩ (.refl _) (by decide +kernel)
      rw [ht] at e1
      cases e1
      rw [of_decide_eq_true h1.1] at e2
      cases e2
    · cases h1
  · cases hr

end Lrp.Props
