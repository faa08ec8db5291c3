import Verif.Proofs.WopOrder
import Verif.Props.WopGen

/-! C98: the order in which `wop` walks its hash sets and hash maps has no effect on the generated
parser. -/

namespace Lrp.Props
open Spec Wop Wop.Spec
set_option maxRecDepth 100000
set_option linter.unusedSectionVars false

variable {X T : Type} [LinOrd T] [DecidableEq T]

section
variable {dbg : Bool} {order order' : Nat → List Span → List Span} {src : Text} {toks : List Gramem}

/-! ### The verdict -/

/-- C98: whether `Builder::from_str` reports an error, and which one, does not depend on the order of the
hash sets. -/
theorem C98_error {e : Error Sym} (h : Returns (fun n => Builder.fromStr dbg order n src toks) (.error e)) :
    Returns (fun n => Builder.fromStr dbg order' n src toks) (.error e) := by
  obtain ⟨n, h⟩ := h
  refine ⟨n, ?_⟩
  simp only [Builder.fromStr] at h ⊢
  obtain ⟨d, hd, h⟩ := Out.bind_eq_ok.mp h
  obtain ⟨⟨d', r⟩, hs, h⟩ := Out.bind_eq_ok.mp h
  rw [hd]
  simp only [Out.ok_bind, hs]
  cases r with
  | error e' => exact h
  | ok u =>
    simp only at h
    split at h
    · cases h
    · obtain ⟨b, _, h⟩ := Out.bind_eq_ok.mp h
      cases h

/-- C98: neither does whether it panics, and how. -/
theorem C98_panics (hord : Orders order) (hord' : Orders order') (hl : Lexed src toks) {w : Panic}
    (h : Panics (fun n => Builder.fromStr dbg order n src toks) w) :
    Panics (fun n => Builder.fromStr dbg order' n src toks) w := by
  obtain ⟨n, h⟩ := h
  by_cases hr : ∃ ds, ReadsProgram toks ds
  · obtain ⟨ds, hr⟩ := hr
    obtain ⟨ast, N, hprog, hf⟩ := fromStr_two dbg dbg order order' hl hr
    have h1 := (fromStr_le (Nat.le_max_left n N) dbg order src toks).panic h
    rw [(hf _ (Nat.le_max_right n N)).1] at h1
    obtain ⟨gs, hast, hds⟩ := hprog.shape
    by_cases ha : Addable src Builder.empty (ds.map Decl.cloning)
    · obtain ⟨b, e, _⟩ := process_ok hord Builder.empty hast hds hprog.inside ha
      rw [e] at h1
      cases h1
    · rw [process_panics hord _ hast hds hprog.inside ha] at h1
      cases h1
      exact ⟨N, by
        simp only [(hf N (Nat.le_refl _)).2, process_panics hord' _ hast hds hprog.inside ha]; rfl⟩
  · obtain ⟨e, N, hf⟩ := C50_error dbg order hl hr
    have h1 := (fromStr_le (Nat.le_max_left n N) dbg order src toks).panic h
    rw [hf _ (Nat.le_max_right n N)] at h1
    cases h1

/-- C98: and if it returns a builder, it does so for every order, with the same imports, the same token
aliases and the same rule names. -/
theorem C98_builds (hord : Orders order) (hord' : Orders order') (hl : Lexed src toks) {b : Builder}
    (hb : Returns (fun n => Builder.fromStr dbg order n src toks) (.ok b)) :
    ∃ b', Returns (fun n => Builder.fromStr dbg order' n src toks) (.ok b') ∧ b'.imports = b.imports ∧
      b'.aliases = b.aliases ∧ b'.rules.map (·.1) = b.rules.map (·.1) := by
  by_cases hr : ∃ ds, ReadsProgram toks ds
  · obtain ⟨ds, hr⟩ := hr
    obtain ⟨ast, N, hprog, hf⟩ := fromStr_two dbg dbg order order' hl hr
    have h1 := fromStr_process (fun n hn => (hf n hn).1) hb
    obtain ⟨gs, hast, hds⟩ := hprog.shape
    by_cases ha : Addable src Builder.empty (ds.map Decl.cloning)
    · obtain ⟨b', e, _⟩ := process_ok hord' Builder.empty hast hds hprog.inside ha
      have hb' : Returns (fun n => Builder.fromStr dbg order' n src toks) (.ok b') :=
        ⟨N, by simp only [(hf N (Nat.le_refl _)).2, e]; rfl⟩
      have hs := fromStr_same hord hord' hl hr hb hb'
      exact ⟨b', hb', hs.imports.symm, hs.aliases.symm, hs.names.symm⟩
    · rw [process_panics hord _ hast hds hprog.inside ha] at h1
      cases h1
  · obtain ⟨e, N, hf⟩ := C50_error dbg order hl hr
    obtain ⟨n, hn⟩ := hb
    have h1 := (fromStr_le (Nat.le_max_left n N) dbg order src toks).ok hn
    rw [hf _ (Nat.le_max_right n N)] at h1
    cases h1

/-! ### The parser -/

theorem fromStr_names (hord : Orders order) (hl : Lexed src toks) {ds : List Decl}
    (hr : ReadsProgram toks ds) {b : Builder}
    (hb : Returns (fun n => Builder.fromStr dbg order n src toks) (.ok b)) :
    b.rules.map (·.1) = ruleNames src ds := by
  by_cases hp : Proper src ds
  · obtain ⟨b0, h0, _, _, h1, _⟩ := C59_builds dbg hord hl hr hp
    obtain ⟨n, hn⟩ := hb
    obtain ⟨m, hm⟩ := h0
    have := Out.Le.agree (f := fun n => Builder.fromStr dbg order n src toks)
      (fun h => fromStr_le h dbg order src toks) hn hm
    cases this
    exact h1
  · obtain ⟨w, m, hm⟩ := C59_rejects dbg hord hl hr hp
    obtain ⟨n, hn⟩ := hb
    have h1 := (fromStr_le (Nat.le_max_left n m) dbg order src toks).ok hn
    have h2 := (fromStr_le (Nat.le_max_right n m) dbg order src toks).panic hm
    rw [h1] at h2
    cases h2

variable {R : Rust X T} {ds : List Decl} {b b' : Builder} {rules rules' : List (Text × RuleBuild)}

/-- C98: the grammars written for two orders of the hash sets, and for two orders of the rules, are the
same map: different rules are assumed to have different symbols. -/
theorem C98_grammar (hord : Orders order) (hord' : Orders order') (hl : Lexed src toks)
    (hr : ReadsProgram toks ds)
    (hb : Returns (fun n => Builder.fromStr dbg order n src toks) (.ok b))
    (hb' : Returns (fun n => Builder.fromStr dbg order' n src toks) (.ok b'))
    (hp : rules.Perm b.rules) (hp' : rules'.Perm b'.rules)
    (hinj : ((ruleNames src ds).map R.sym).Nodup) {D : Decls T}
    (hD : R.dumpGrammar src b.imports rules = .ok D) :
    ∃ D', R.dumpGrammar src b'.imports rules' = .ok D' ∧ grammarMap D' = grammarMap D := by
  have hs := fromStr_same hord hord' hl hr hb hb'
  unfold Rust.dumpGrammar at hD ⊢
  rw [← hs.imports]
  obtain ⟨u, hu, hD⟩ := Out.bind_eq_ok.mp hD
  obtain ⟨D1, h1, p1⟩ := rules_perm hp hD
  rw [rules_same hs.rules] at h1
  obtain ⟨D2, h2, p2⟩ := rules_perm hp'.symm h1
  refine ⟨D2, by rw [hu]; exact h2, ?_⟩
  refine (foldl_insert_perm Prod.fst (fun d => Rule.new d.1 d.2) (p1.trans p2) (m := []) ?_ ?_).symm
  · exact .nil
  · rw [(rules_mem hD).1, ← fromStr_names hord hl hr hb] at *
    exact ((hp.map _).map _).nodup_iff.mpr hinj

/-- C98: so every table made of the one is made of the other. -/
theorem C98_tables (hord : Orders order) (hord' : Orders order') (hl : Lexed src toks)
    (hr : ReadsProgram toks ds)
    (hb : Returns (fun n => Builder.fromStr dbg order n src toks) (.ok b))
    (hb' : Returns (fun n => Builder.fromStr dbg order' n src toks) (.ok b'))
    (hp : rules.Perm b.rules) (hp' : rules'.Perm b'.rules)
    (hinj : ((ruleNames src ds).map R.sym).Nodup) {D D' : Decls T}
    (hD : R.dumpGrammar src b.imports rules = .ok D)
    (hD' : R.dumpGrammar src b'.imports rules' = .ok D') {k : Method} {dbg' : Bool} {S eof : T}
    {t : Tabler T} (ht : Makes k dbg' D S eof t) : Makes k dbg' D' S eof t := by
  obtain ⟨D1, h1, e⟩ := C98_grammar hord hord' hl hr hb hb' hp hp' hinj hD
  rw [hD'] at h1
  cases h1
  unfold Makes at ht ⊢
  rw [e]
  exact ht

/-- C98: and the reductors are the same functions. -/
theorem C98_reductors (hord : Orders order) (hord' : Orders order') (hl : Lexed src toks)
    (hr : ReadsProgram toks ds)
    (hb : Returns (fun n => Builder.fromStr dbg order n src toks) (.ok b))
    (hb' : Returns (fun n => Builder.fromStr dbg order' n src toks) (.ok b'))
    (hp : rules.Perm b.rules) (hp' : rules'.Perm b'.rules)
    (hinj : ((ruleNames src ds).map R.sym).Nodup) {entry : Text} {maps : ReductMap (Meta X) T}
    (hM : R.dumpReductor entry src b.imports rules = .ok maps) :
    R.dumpReductor entry src b'.imports rules' = .ok maps := by
  have hs := fromStr_same hord hord' hl hr hb hb'
  unfold Rust.dumpReductor at hM ⊢
  rw [← hs.imports]
  split at hM
  · cases hM
  · rename_i he
    rw [if_neg he]
    obtain ⟨u, hu, hM⟩ := Out.bind_eq_ok.mp hM
    obtain ⟨D, hD, hM⟩ := Out.bind_eq_ok.mp hM
    cases hM
    obtain ⟨D1, h1, p1⟩ := reductions_perm hp hD
    rw [reductions_same hs.rules] at h1
    obtain ⟨D2, h2, p2⟩ := reductions_perm hp'.symm h1
    rw [hu]
    simp only [Out.ok_bind, h2]
    refine congrArg Out.ok (foldl_insert_perm Prod.fst Prod.snd (p1.trans p2) (m := []) ?_ ?_).symm
    · exact .nil
    · rw [(reductions_mem hD).1]
      rw [← fromStr_names hord hl hr hb] at hinj
      exact ((hp.map _).map _).nodup_iff.mpr hinj

end

/-! ### An example -/

namespace WopSamples

/-- A rule with a group of two alternatives, the first with two aliases. -/
def orderSrc : Text := bytes "A:T=(C:x D:y|B)->{}%;"

def orderToks : List Gramem :=
  [tk .ident 0 1, tk .twoDots 1 2, tk .ident 2 3, tk .assign 3 4, tk .openParen 4 5, tk .ident 5 6,
   tk .twoDots 6 7, tk .ident 7 8, tk .ident 9 10, tk .twoDots 10 11, tk .ident 11 12, tk .pipe 12 13,
   tk .ident 13 14, tk .closeParen 14 15, tk .codeBlock 15 20, tk .sc 20 21]

def orderAlt : Alt :=
  ⟨[.group [[.sym ⟨5, 6⟩ false (some ⟨7, 8⟩) false, .sym ⟨9, 10⟩ false (some ⟨11, 12⟩) false],
      [.sym ⟨13, 14⟩ false none false]] false none false],
   ⟨15, 20⟩, [Span.new 0 0, Span.new 0 0]⟩

def orderDecls : List Decl := [.rule ⟨0, 1⟩ ⟨2, 3⟩ [orderAlt]]

theorem order_lexed : Lexed orderSrc orderToks := lexed_of (by decide +kernel)

theorem order_reads : ReadsProgram orderToks orderDecls := by
  have i1 : ReadsItem [tk .ident 5 6, tk .twoDots 6 7, tk .ident 7 8]
      (.sym ⟨5, 6⟩ false (some ⟨7, 8⟩) false) [] :=
    .path (ts := [tk .ident 5 6]) (as := [tk .twoDots 6 7, tk .ident 7 8]) (.one rfl) .no
      (.ref rfl rfl)
  have i2 : ReadsItem [tk .ident 9 10, tk .twoDots 10 11, tk .ident 11 12]
      (.sym ⟨9, 10⟩ false (some ⟨11, 12⟩) false) [] :=
    .path (ts := [tk .ident 9 10]) (as := [tk .twoDots 10 11, tk .ident 11 12]) (.one rfl) .no
      (.ref rfl rfl)
  have i3 : ReadsItem [tk .ident 13 14] (.sym ⟨13, 14⟩ false none false) [] :=
    .path (ts := [tk .ident 13 14]) (.one rfl) .no .none
  have r1 := ReadsRule.one (us := []) (.more (.one i1) i2) .none
  have r := ReadsRule.more (p := tk .pipe 12 13) (us := []) r1 rfl (.one i3) .none
  have g := ReadsItem.group (o := tk .openParen 4 5) (c := tk .closeParen 14 15)
    (os := []) (as := []) rfl r rfl .no .none
  have a : ReadsRule _ [orderAlt] :=
    .one (us := [tk .codeBlock 15 20]) (.one g) (.some rfl)
  have d : ReadsDecl (orderToks.take 15) (.rule ⟨0, 1⟩ ⟨2, 3⟩ [orderAlt]) :=
    .rule (is := [tk .ident 0 1]) (ts := [tk .ident 2 3]) (.one rfl) rfl (.one rfl) rfl a
  exact .one (s := tk .sc 20 21) d rfl

/-- Hash sets are walked forwards. -/
def plainOrder : Nat → List Span → List Span := fun _ l => l

theorem plain_orders : Orders plainOrder := fun _ l => .refl l

/-- The aliases of the rule, in the order of the builder. -/
def orderAliases (order : Nat → List Span → List Span) : List (List Span) :=
  match Builder.fromStr false order 100 orderSrc orderToks with
  | .ok (.ok b) => b.rules.flatMap (fun r => r.2.map (fun q => q.aliases.map (·.alias)))
  | _ => []

/-- The hypotheses of C98 are met by two orders for which the two builders differ: the names that the
second alternative lacks come in the order of the set. -/
theorem order_differs :
    orderAliases order ≠ orderAliases plainOrder ∧
    ∃ b b', Returns (fun n => Builder.fromStr false order n orderSrc orderToks) (.ok b) ∧
      Returns (fun n => Builder.fromStr false plainOrder n orderSrc orderToks) (.ok b') ∧
      b'.rules.map (·.1) = b.rules.map (·.1) ∧
      ∃ D D', sumRust.dumpGrammar orderSrc b.imports b.rules = .ok D ∧
        sumRust.dumpGrammar orderSrc b'.imports b'.rules.reverse = .ok D' ∧
        grammarMap D' = grammarMap D := by
  refine ⟨by decide +kernel, ?_⟩
  obtain ⟨b, hb, hi, _, hn, _⟩ := C59_builds false orders order_lexed order_reads
    ⟨by decide +kernel, by simp [orderDecls, tokens], by
      intro ident ty alts hd a ha
      simp only [orderDecls, List.mem_singleton, Decl.rule.injEq] at hd
      obtain ⟨rfl, rfl, rfl⟩ := hd
      simp only [List.mem_singleton] at ha
      subst ha
      exact ⟨by decide +kernel, by decide⟩⟩
  obtain ⟨b', hb', _, _, hn'⟩ := C98_builds orders plain_orders order_lexed hb
  have hlex : lex lexer orderSrc = orderToks := by with_unfolding_all rfl
  have hd : Dumped false order lexer orderSrc sumRust orderDecls b b.rules :=
    ⟨orders, utf8_ascii (by decide +kernel), by rw [hlex]; exact order_reads, by rw [hlex]; exact hb, .refl _⟩
  obtain ⟨D, hD⟩ := hd.dumps
  obtain ⟨D', h1, h2⟩ := C98_grammar orders plain_orders order_lexed order_reads hb hb' (.refl _)
    (List.reverse_perm _) (by decide +kernel) hD
  exact ⟨b, b', hb, hb', hn', D, D', hD, h1, h2⟩

end WopSamples

end Lrp.Props
