import Verif.Proofs.WopTypes
import Verif.Props.WopText

/-! C77: the types of the aliases in generated functions. -/

namespace Lrp.Props
open Spec Wop Wop.Spec
set_option maxRecDepth 100000
set_option linter.unusedSectionVars false

/-- What the text says about the functions of a program: `P a f lets` for every function `f`, generated for
an expansion of the alternative `a`, and its `let`s. -/
def Functions (src : Text) (ds : List Decl) (acts : List Stmt) (P : Alt → Fn → List Let → Prop) : Prop :=
  ∀ pre post ident ty alts, ds = pre ++ .rule ident ty alts :: post →
    ∃ fns, (toksOf (textOf src ident), fns) ∈ inserted acts ∧
      ∀ (i : Nat) (a : Alt) (x : Expansion), (expansions alts)[i]? = some (a, x) →
        ∃ f ∈ defined acts, fns[i]? = some f.name ∧
          ∃ lets code, textOf src a.block = 45 :: 62 :: (code ++ [37]) ∧
            readLets lets.length f.body = some (lets, toksOf code) ∧ P a f lets

/-- C77: if the names of the aliases are used well in every alternative, no group with aliases on it or inside
is optional, and alternatives of a group have the same aliases: in all functions generated for an
alternative, the variable of an alias has the same type, as the text shows it: a copy of the item, a vector of
the items of a group, or an `Option` of these, if the alias is not bound in any case. -/
theorem C77_partial {dbg : Bool} {order : Nat → List Span → List Span} {L : LexEnv} {src : Text}
    {ds : List Decl} {b : Builder} {rules : List (Text × RuleBuild)} (hord : Orders order)
    (hu : Utf8 src) (hr : ReadsProgram (lex L src) ds)
    (hb : Returns (fun n => Builder.fromStr dbg order n src (lex L src)) (.ok b))
    (hp : rules.Perm b.rules) {entry : Text} (h0 : entry ≠ []) (hleg : ReductorLegible entry src ds)
    (hs : ∀ pre ident alts, HasRule ds pre ident alts → ∀ a ∈ alts, WellNamed src a.items ∧ Steady src a.items) :
    ∃ t us acts, reductorText entry src b.imports rules = .ok t ∧ readReductor t = some (us, acts) ∧
      Functions src ds acts (fun a _ lets => ∀ l ∈ lets, l.ty = some (aliasTy src a.items l.name)) := by
  obtain ⟨t, acts, h1, _, h2, h3, h4, h5, h6⟩ := source_reductor hord hu hr hb hp h0 hleg
  refine ⟨t, _, acts, h1, h2, ?_⟩
  intro pre post ident ty alts hd
  obtain ⟨fns, k1, k2, k3⟩ := h6 pre post ident ty alts hd
  refine ⟨fns, k1, ?_⟩
  intro i a x hx
  obtain ⟨f, q, code, g1, g2, g3, g4, g5, g6, g7, g8⟩ := k3 i a x hx
  have ha := (mem_expansions.mp (List.mem_of_getElem? hx)).1
  have hpl := hs pre ident alts ⟨ty, post, hd⟩ a ha
  exact ⟨f, g1, g2, _, code, g5, g6, generated_types hord g8 hpl.1 hpl.2⟩

/-- The claim of C77 for all sources with the values that the source describes (C76): an alias has one type in
all functions generated for an alternative. -/
def C77_claim : Prop :=
  ∀ (dbg : Bool) (order : Nat → List Span → List Span) (L : LexEnv) (src : Text) (ds : List Decl) (b : Builder)
    (rules : List (Text × RuleBuild)) (entry : Text), Orders order → Utf8 src → ReadsProgram (lex L src) ds →
    Returns (fun n => Builder.fromStr dbg order n src (lex L src)) (.ok b) → rules.Perm b.rules → entry ≠ [] →
    ReductorLegible entry src ds → Plain src ds →
    ∃ t us acts, reductorText entry src b.imports rules = .ok t ∧ readReductor t = some (us, acts) ∧
      ∃ T : Alt → Text → Ty, Functions src ds acts (fun a _ lets => ∀ l ∈ lets, l.ty = some (T a l.name))

namespace WopSamples

/-- The functions for the sums, as the text shows them, and the types of `b` in the two functions of `E`. -/
def sumTypes : Bool :=
  match Builder.fromStr false order 100 sumSrc (lex lexer sumSrc) with
  | .ok (.ok b) =>
    match reductorText (bytes "Token") sumSrc b.imports b.rules with
    | .ok t =>
      match readReductor t with
      | some (_, [.define r, .insert s _, .define f, .define g, .insert e es]) =>
        decide (s ≠ toksOf (bytes "E")) && decide (e = toksOf (bytes "E")) &&
        decide (es = [f.name, g.name]) && decide (f.name ≠ g.name) &&
        decide (f.name ≠ r.name) && decide (g.name ≠ r.name) &&
        match readLets 2 f.body, readLets 2 g.body with
        | some ([a, b], c), some ([a', b'], c') =>
          decide (c = toksOf (bytes "{s}")) && decide (c' = toksOf (bytes "{s}")) &&
          decide (a.ty = some .own) && decide (a'.ty = some .own) &&
          decide (b.name = b'.name) && decide (b.ty = some (.option .own)) && decide (b'.ty = some (.option .ref))
        | _, _ => false
      | _ => false
    | _ => false
  | _ => false

theorem sum_types : sumTypes = true := by decide +kernel

theorem sum_expansions : ∃ x y, (expansions [sumAlt])[0]? = some (sumAlt, x) ∧
    (expansions [sumAlt])[1]? = some (sumAlt, y) := by
  simp [expansions, sumAlt, expand, Item.expand, expandAlts]

end WopSamples

/-- C77 is false: in `E:T=N:a(p E:b)?->{s}%;` the variable `b` is an `Option` of a copy in the first function,
and an `Option` of a reference in the second. -/
theorem C77_false : ¬ C77_claim := by
  intro h
  have hs := WopSamples.sum_types
  unfold WopSamples.sumTypes at hs
  split at hs
  · rename_i b hb
    obtain ⟨t, us, acts, h1, h2, T, h3⟩ := h false _ _ _ _ b b.rules (WopSamples.bytes "Token") WopSamples.orders
      WopSamples.sum_utf8 WopSamples.sum_reads ⟨100, hb⟩ (.refl _) (by decide +kernel) WopSamples.sum_reductorLegible
      WopSamples.sum_plain
    rw [h1] at hs
    dsimp only at hs
    rw [h2] at hs
    split at hs
    · rename_i us' f0 s s' f g e es heq
      cases heq
      simp only [Bool.and_eq_true, decide_eq_true_eq] at hs
      obtain ⟨⟨⟨⟨⟨⟨hs1, hs2⟩, rfl⟩, hs4⟩, hs5⟩, hs6⟩, hs7⟩ := hs
      split at hs7
      · rename_i a b c a' b' c' e1 e2
        simp only [Bool.and_eq_true, decide_eq_true_eq] at hs7
        obtain ⟨⟨⟨⟨⟨⟨rfl, rfl⟩, j1⟩, j2⟩, j3⟩, j4⟩, j5⟩ := hs7
        obtain ⟨fns, k1, k2⟩ := h3 (WopSamples.sumDecls.take 2) [] _ _ _ rfl
        have hE : toksOf (textOf WopSamples.sumSrc ⟨24, 25⟩) = toksOf (WopSamples.bytes "E") := by decide +kernel
        rw [hE] at k1
        simp only [inserted, List.mem_cons, Prod.mk.injEq, List.not_mem_nil, or_false] at k1
        rcases k1 with ⟨k1, _⟩ | ⟨_, rfl⟩
        · exact absurd k1.symm hs1
        obtain ⟨x, y, hx, hy⟩ := WopSamples.sum_expansions
        obtain ⟨f', m1, m2, ls, code, m3, m4, m5⟩ := k2 0 _ _ hx
        obtain ⟨g', n1, n2, ls', code', n3, n4, n5⟩ := k2 1 _ _ hy
        have hc : textOf WopSamples.sumSrc WopSamples.sumAlt.block =
            45 :: 62 :: (WopSamples.bytes "{s}" ++ [37]) := by decide +kernel
        rw [WopSamples.code_eq hc m3] at m4
        rw [WopSamples.code_eq hc n3] at n4
        have hf : f' = f := by
          replace m2 := (Option.some.inj m2 : f.name = f'.name)
          simp only [defined, List.mem_cons, List.not_mem_nil, or_false] at m1
          rcases m1 with rfl | rfl | rfl
          · exact absurd m2 hs5
          · rfl
          · exact absurd m2 hs4
        have hg : g' = g := by
          replace n2 := (Option.some.inj n2 : g.name = g'.name)
          simp only [defined, List.mem_cons, List.not_mem_nil, or_false] at n1
          rcases n1 with rfl | rfl | rfl
          · exact absurd n2 hs6
          · exact absurd n2.symm hs4
          · rfl
        subst hf hg
        have u1 := readLets_unique m4 e1
        have u2 := readLets_unique n4 e2
        subst u1 u2
        have v1 := m5 b (by simp)
        have v2 := n5 b' (by simp)
        rw [j4] at v1
        rw [j5, ← j3] at v2
        rw [← v1] at v2
        cases v2
      · cases hs7
    · cases hs
  · cases hs

namespace WopSamples

/-- A name in both alternatives of a group, an alias on the group, and one on an optional item. -/
def steadySrc : Text := bytes "S:T=(A:x B|C:x B):&y D?:z->{v}%;"

def steadyToks : List Gramem :=
  [tk .ident 0 1, tk .twoDots 1 2, tk .ident 2 3, tk .assign 3 4, tk .openParen 4 5, tk .ident 5 6,
   tk .twoDots 6 7, tk .ident 7 8, tk .ident 9 10, tk .pipe 10 11, tk .ident 11 12, tk .twoDots 12 13,
   tk .ident 13 14, tk .ident 15 16, tk .closeParen 16 17, tk .twoDots 17 18, tk .clone 18 19, tk .ident 19 20,
   tk .ident 21 22, tk .optional 22 23, tk .twoDots 23 24, tk .ident 24 25, tk .codeBlock 25 31, tk .sc 31 32]

theorem steady_lex : lex lexer steadySrc = steadyToks := by with_unfolding_all rfl

def steadyAlt : Alt :=
  ⟨[.group [[.sym ⟨5, 6⟩ false (some ⟨7, 8⟩) false, .sym ⟨9, 10⟩ false none false],
      [.sym ⟨11, 12⟩ false (some ⟨13, 14⟩) false, .sym ⟨15, 16⟩ false none false]] false (some ⟨19, 20⟩) true,
    .sym ⟨21, 22⟩ true (some ⟨24, 25⟩) false], ⟨25, 31⟩, [Span.new 0 0, Span.new 0 0]⟩

def steadyDecls : List Decl := [.rule ⟨0, 1⟩ ⟨2, 3⟩ [steadyAlt]]

theorem steady_reads : ReadsProgram (lex lexer steadySrc) steadyDecls := by
  rw [steady_lex]
  have i1 : ReadsItem [tk .ident 5 6, tk .twoDots 6 7, tk .ident 7 8]
      (.sym ⟨5, 6⟩ false (some ⟨7, 8⟩) false) [] :=
    .path (ts := [tk .ident 5 6]) (as := [tk .twoDots 6 7, tk .ident 7 8]) (.one rfl) .no (.ref rfl rfl)
  have i2 : ReadsItem [tk .ident 9 10] (.sym ⟨9, 10⟩ false none false) [] :=
    .path (ts := [tk .ident 9 10]) (.one rfl) .no .none
  have i3 : ReadsItem [tk .ident 11 12, tk .twoDots 12 13, tk .ident 13 14]
      (.sym ⟨11, 12⟩ false (some ⟨13, 14⟩) false) [] :=
    .path (ts := [tk .ident 11 12]) (as := [tk .twoDots 12 13, tk .ident 13 14]) (.one rfl) .no (.ref rfl rfl)
  have i4 : ReadsItem [tk .ident 15 16] (.sym ⟨15, 16⟩ false none false) [] :=
    .path (ts := [tk .ident 15 16]) (.one rfl) .no .none
  have r := ReadsRule.more (p := tk .pipe 10 11) (us := [])
    (ReadsRule.one (us := []) (.more (.one i1) i2) .none) rfl (.more (.one i3) i4) .none
  have g := ReadsItem.group (o := tk .openParen 4 5) (c := tk .closeParen 16 17) (os := [])
    (as := [tk .twoDots 17 18, tk .clone 18 19, tk .ident 19 20]) rfl r rfl .no (.clone rfl rfl rfl)
  have i5 : ReadsItem [tk .ident 21 22, tk .optional 22 23, tk .twoDots 23 24, tk .ident 24 25]
      (.sym ⟨21, 22⟩ true (some ⟨24, 25⟩) false) [] :=
    .path (ts := [tk .ident 21 22]) (os := [tk .optional 22 23]) (as := [tk .twoDots 23 24, tk .ident 24 25])
      (.one rfl) (.yes rfl) (.ref rfl rfl)
  have a : ReadsRule _ [steadyAlt] := .one (us := [tk .codeBlock 25 31]) (.more (.one g) i5) (.some rfl)
  exact .one (ts := steadyToks.take 23) (s := tk .sc 31 32)
    (.rule (is := [tk .ident 0 1]) (ts := [tk .ident 2 3]) (.one rfl) rfl (.one rfl) rfl a) rfl

theorem steady_mem {pre : List Decl} {ident : Span} {alts : List Alt} (h : HasRule steadyDecls pre ident alts) :
    alts = [steadyAlt] := by
  obtain ⟨ty, post, e⟩ := h
  have hm : Decl.rule ident ty alts ∈ steadyDecls := by rw [e]; simp
  simp only [steadyDecls, List.mem_singleton, Decl.rule.injEq] at hm
  exact hm.2.2

theorem steady_legible : ReductorLegible (bytes "Token") steadySrc steadyDecls where
  entry := without_of (by decide +kernel)
  uses := by simp [steadyDecls, uses]
  rules := by
    intro ident ty alts h
    simp only [steadyDecls, List.mem_singleton, Decl.rule.injEq] at h
    obtain ⟨rfl, rfl, _⟩ := h
    exact ⟨isWord_of (by decide +kernel), without_of (by decide +kernel)⟩
  names := by
    intro ident ty alts h a ha n hn
    simp only [steadyDecls, List.mem_singleton, Decl.rule.injEq] at h
    obtain ⟨_, _, rfl⟩ := h
    rw [List.mem_singleton] at ha
    subst ha
    have : n = ⟨19, 20⟩ ∨ n = ⟨7, 8⟩ ∨ n = ⟨13, 14⟩ ∨ n = ⟨24, 25⟩ := by
      simpa [steadyAlt, names, Item.names, altNames] using hn
    rcases this with rfl | rfl | rfl | rfl <;> exact ⟨isWord_of (by decide +kernel), by decide +kernel⟩
  code := by
    intro ident ty alts h a ha code hc
    simp only [steadyDecls, List.mem_singleton, Decl.rule.injEq] at h
    obtain ⟨_, _, rfl⟩ := h
    rw [List.mem_singleton] at ha
    subst ha
    have e : textOf steadySrc steadyAlt.block = 45 :: 62 :: (bytes "{v}" ++ [37]) := by decide +kernel
    rw [code_eq e hc]
    exact ⟨closed_of (by decide +kernel), by decide +kernel⟩

theorem steady_names : textOf steadySrc ⟨7, 8⟩ = bytes "x" ∧ textOf steadySrc ⟨13, 14⟩ = bytes "x" ∧
    textOf steadySrc ⟨19, 20⟩ = bytes "y" ∧ textOf steadySrc ⟨24, 25⟩ = bytes "z" := by decide +kernel

theorem steady_wellNamed : WellNamed steadySrc steadyAlt.items := by
  obtain ⟨h1, h2, h3, h4⟩ := steady_names
  have hn : bytes "x" ≠ bytes "y" ∧ bytes "x" ≠ bytes "z" ∧ bytes "y" ≠ bytes "z" := by decide +kernel
  simp [steadyAlt, WellNamed, Item.WellNamed, AltsWellNamed, Apart, Balanced, names, Item.names, altNames,
    h1, h2, h3, h4, hn, Ne.symm hn.1]

theorem steady_steady : Steady steadySrc steadyAlt.items := by
  obtain ⟨h1, h2, h3, h4⟩ := steady_names
  have hn : bytes "x" ≠ bytes "y" ∧ bytes "x" ≠ bytes "z" ∧ bytes "y" ≠ bytes "z" := by decide +kernel
  simp [steadyAlt, Steady, ItemsSteady, Item.Steady, AltsSteady, names, Item.names, altNames, marked,
    Item.marked, altMarked, groups, Item.groups, altGroups, h1, h2, h3, h4, hn, Ne.symm hn.2.2]

theorem steady_types : aliasTy steadySrc steadyAlt.items (bytes "x") = .option .own ∧
    aliasTy steadySrc steadyAlt.items (bytes "y") = .vec ∧
    aliasTy steadySrc steadyAlt.items (bytes "z") = .option .own := by
  obtain ⟨h1, h2, h3, h4⟩ := steady_names
  have hn : bytes "x" ≠ bytes "y" ∧ bytes "x" ≠ bytes "z" ∧ bytes "y" ≠ bytes "z" := by decide +kernel
  simp [steadyAlt, aliasTy, groups, Item.groups, altGroups, Wop.Spec.bare, Item.bare, h3, hn, Ne.symm hn.2.2]

end WopSamples

/-- The theorem applies to a source with a name in both alternatives of a group: `y` is a vector, and
`x` and `z` are `Option`s of a copy, in all four functions. -/
example : ∃ b t us acts,
    Builder.fromStr false WopSamples.order 100 WopSamples.steadySrc (lex WopSamples.lexer WopSamples.steadySrc) =
      .ok (.ok b) ∧
    reductorText (WopSamples.bytes "Token") WopSamples.steadySrc b.imports b.rules = .ok t ∧
    readReductor t = some (us, acts) ∧
    Functions WopSamples.steadySrc WopSamples.steadyDecls acts (fun a _ lets =>
      ∀ l ∈ lets, l.ty = some (aliasTy WopSamples.steadySrc a.items l.name)) := by
  have hb : ∃ b, Builder.fromStr false WopSamples.order 100 WopSamples.steadySrc
      (lex WopSamples.lexer WopSamples.steadySrc) = .ok (.ok b) := by
    have h : ∀ {o : Out (Except (Error Sym) Builder)},
        (match o with | .ok (.ok _) => true | _ => false) = true → ∃ b, o = .ok (.ok b) := by
      intro o h
      split at h
      · exact ⟨_, rfl⟩
      · cases h
    exact h (by decide +kernel)
  obtain ⟨b, hb⟩ := hb
  obtain ⟨t, us, acts, h⟩ := C77_partial WopSamples.orders (utf8_ascii (by decide +kernel)) WopSamples.steady_reads ⟨100, hb⟩ (.refl _)
    (by decide +kernel) WopSamples.steady_legible (fun pre ident alts hr a ha => by
      rw [WopSamples.steady_mem hr, List.mem_singleton] at ha
      subst ha
      exact ⟨WopSamples.steady_wellNamed, WopSamples.steady_steady⟩)
  exact ⟨b, t, us, acts, hb, h⟩

namespace WopSamples

/-- An alias on an optional group. -/
def optSrc : Text := bytes "S:T=N(A B)?:g->{v}%;"

/-- The second function copies one item as if it were a slice, `toks[0].to_vec()`: this is not Rust. -/
def optTypes : Bool :=
  match Builder.fromStr false order 100 optSrc (lex lexer optSrc) with
  | .ok (.ok b) =>
    match reductorText (bytes "Token") optSrc b.imports b.rules with
    | .ok t =>
      decide (ascii "let mut g = Some(toks[0].to_vec());" <:+: t) &&
      match readReductor t with
      | some (_, [.define f, .define g, .insert _ _]) =>
        match readLets 1 f.body, readLets 1 g.body with
        | some ([a], _), some ([b], _) => decide (a.ty = some (.option .vec)) && decide (b.ty = none)
        | _, _ => false
      | _ => false
    | _ => false
  | _ => false

theorem opt_types : optTypes = true := by decide +kernel

end WopSamples

end Lrp.Props
