import Verif.Proofs.WopDump
import Verif.Model.WopMain

/-! The file that `wop` writes. -/

set_option linter.unusedSectionVars false
set_option maxRecDepth 100000

namespace Lrp.Wop
open Spec

/-! ### Reading the file -/

/-- What stands before the first block. -/
def filePre : Text :=
  ascii "\nuse crate::{Ast, Gramem, Meta, Sym};\nuse lrp::{Grammar, ReductMap, Span};\n\n#[allow(" ++
    grammarLints ++ ascii ")]\n#[must_use]\npub fn grammar() -> Grammar<Sym> {\n    Grammar::new(Sym::EntryPoint, "

/-- What stands between the blocks. -/
def fileMid : Text :=
  ascii ", Sym::Eof)\n}\n\n#[allow(" ++ reductorLints ++
    ascii ")]\npub fn reduct_map() -> ReductMap<Meta<Ast>, Sym> "

theorem fileText_eq (g r : Text) : fileText g r = filePre ++ (g ++ (fileMid ++ (r ++ ascii "\n"))) := by
  simp only [fileText, filePre, fileMid, List.append_assoc]

theorem filePre_lexes : Lexes filePre
    (rust "use crate::{Ast, Gramem, Meta, Sym}; use lrp::{Grammar, ReductMap, Span}; #[allow(" ++
      ((toksOf grammarLints ++ rust ")") ++ .char 93 ::
        rust "#[must_use] pub fn grammar() -> Grammar<Sym> { Grammar::new(Sym::EntryPoint,")) := by
  decide +kernel

theorem fileMid_lexes : Lexes fileMid
    (rust ", Sym::Eof) } #[allow(" ++ ((toksOf reductorLints ++ rust ")") ++ .char 93 ::
      rust "pub fn reduct_map() -> ReductMap<Meta<Ast>, Sym>")) := by
  decide +kernel

theorem readBlock_append {inner : List Tok} (h : balance 0 inner = some 0) (rest : List Tok) :
    readBlock ((rust "{" ++ (inner ++ rust "}")) ++ rest) = some (rust "{" ++ (inner ++ rust "}"), rest) := by
  have e : rust "}" = [.char 125] := by decide +kernel
  unfold readBlock
  rw [List.append_assoc, expect_append, List.append_assoc]
  simp only [e, Option.bind_eq_bind, Option.bind_some, List.singleton_append]
  rw [upToBrace_append _ h]
  simp

/-- The two blocks are found again. -/
theorem readFile_fileText {g r : Text} (hg : Block g) (hr : Block r) :
    readFile (fileText g r) = some (toksOf g, toksOf r) := by
  obtain ⟨gi, hg, bg⟩ := hg
  obtain ⟨ri, hr, br⟩ := hr
  have hend : Lexes (ascii "\n") [] := by decide +kernel
  have hl := filePre_lexes.append (hg.append (fileMid_lexes.append (hr.append hend)))
  rw [← fileText_eq] at hl
  have n1 : Tok.char 93 ∉ toksOf grammarLints ++ rust ")" := by decide +kernel
  have n2 : Tok.char 93 ∉ toksOf reductorLints ++ rust ")" := by decide +kernel
  unfold readFile
  rw [hl.toksOf, hg.toksOf, hr.toksOf]
  rw [List.append_assoc, expect_append]
  simp only [Option.bind_eq_bind, Option.bind_some]
  rw [List.append_assoc (toksOf grammarLints ++ rust ")"), List.cons_append, upTo_append _ n1]
  simp only [Option.bind_some]
  rw [expect_append]
  simp only [Option.bind_some]
  rw [readBlock_append bg]
  simp only [Option.bind_some]
  rw [List.append_assoc, expect_append]
  simp only [Option.bind_some]
  rw [List.append_assoc (toksOf reductorLints ++ rust ")"), List.cons_append, upTo_append _ n2]
  simp only [Option.bind_some]
  rw [expect_append]
  simp only [Option.bind_some]
  rw [readBlock_append br]
  simp only [Option.bind_some, if_pos trivial]
  rfl

/-! ### Writing does not panic -/

theorem importsText_ok {src : Text} : ∀ {is : List Span}, (∀ i ∈ is, InSrc src i) → ∃ t, importsText src is = .ok t
  | [], _ => ⟨_, rfl⟩
  | i :: is, h => by
    obtain ⟨t, ht⟩ := importsText_ok (fun j hj => h j (List.mem_cons_of_mem _ hj))
    exact ⟨_, by simp only [importsText, slice_ok (h i (List.mem_cons_self ..)), ht, Out.ok_bind]; rfl⟩

theorem symbolsText_ok {src : Text} : ∀ {ss : List Span}, (∀ s ∈ ss, InSrc src s) → ∃ t, symbolsText src ss = .ok t
  | [], _ => ⟨_, rfl⟩
  | i :: is, h => by
    obtain ⟨t, ht⟩ := symbolsText_ok (fun j hj => h j (List.mem_cons_of_mem _ hj))
    exact ⟨_, by simp only [symbolsText, slice_ok (h i (List.mem_cons_self ..)), ht, Out.ok_bind]; rfl⟩

theorem letsText_ok {src : Text} : ∀ {as : List ItemAlias}, (∀ a ∈ as, InSrc src a.alias) →
    ∃ t, letsText src as = .ok t
  | [], _ => ⟨_, rfl⟩
  | a :: as, h => by
    obtain ⟨t, ht⟩ := letsText_ok (fun j hj => h j (List.mem_cons_of_mem _ hj))
    exact ⟨_, by
      simp only [letsText, ItemAlias.dump, slice_ok (h a (List.mem_cons_self ..)), ht, Out.ok_bind]; rfl⟩

theorem productionsText_ok {src : Text} : ∀ {ps : RuleBuild}, (∀ p ∈ ps, ∀ s ∈ p.production, InSrc src s) →
    ∃ t, productionsText src ps = .ok t
  | [], _ => ⟨_, rfl⟩
  | p :: ps, h => by
    obtain ⟨s, hs⟩ := symbolsText_ok (h p (List.mem_cons_self ..))
    obtain ⟨t, ht⟩ := productionsText_ok (fun j hj => h j (List.mem_cons_of_mem _ hj))
    exact ⟨_, by simp only [productionsText, hs, ht, Out.ok_bind]; rfl⟩

/-- A production with what is sliced for it. -/
def Sliced (src : Text) (p : ProductionBuild) : Prop :=
  (∀ s ∈ p.production, InSrc src s) ∧ InSrc src p.ty ∧ InSrc src p.codeblock ∧
    (∃ code, textOf src p.codeblock = 45 :: 62 :: (code ++ [37])) ∧ ∀ a ∈ p.aliases, InSrc src a.alias

theorem functionsText_ok {src entry name ty : Text} : ∀ {ps : RuleBuild} (i : Nat), (∀ p ∈ ps, Sliced src p) →
    ∃ t, functionsText src entry name ty i ps = .ok t
  | [], _, _ => ⟨_, rfl⟩
  | p :: ps, i, h => by
    obtain ⟨_, _, hc, ⟨code, hcode⟩, ha⟩ := h p (List.mem_cons_self ..)
    obtain ⟨s, hs⟩ := letsText_ok ha
    obtain ⟨t, ht⟩ := functionsText_ok (entry := entry) (name := name) (ty := ty) (i + 1)
      (fun j hj => h j (List.mem_cons_of_mem _ hj))
    exact ⟨_, by
      simp only [functionsText, hs, slice_ok hc, hcode, stripBlock_ok, ht, Out.ok_bind]; rfl⟩

theorem eachText_ok {f : Text × RuleBuild → Out Text} : ∀ {rs : List (Text × RuleBuild)},
    (∀ r ∈ rs, ∃ t, f r = .ok t) → ∃ t, eachText f rs = .ok t
  | [], _ => ⟨_, rfl⟩
  | r :: rs, h => by
    obtain ⟨s, hs⟩ := h r (List.mem_cons_self ..)
    obtain ⟨t, ht⟩ := eachText_ok (fun j hj => h j (List.mem_cons_of_mem _ hj))
    exact ⟨_, by simp only [eachText, hs, ht, Out.ok_bind]; rfl⟩

/-- The texts are written whenever the spans lie in the source. -/
theorem writes_ok {src : Text} {imports : List Span} {rules : List (Text × RuleBuild)}
    (hi : ∀ i ∈ imports, InSrc src i) (hr : ∀ r ∈ rules, r.2 ≠ [] ∧ ∀ p ∈ r.2, Sliced src p) :
    (∃ t, grammarText src imports rules = .ok t) ∧
      ∀ entry, entry ≠ [] → ∃ t, reductorText entry src imports rules = .ok t := by
  obtain ⟨is, his⟩ := importsText_ok hi
  constructor
  · obtain ⟨rs, hrs⟩ := eachText_ok (f := ruleText src) (rs := rules) (by
      intro r hrm
      obtain ⟨t, ht⟩ := productionsText_ok (fun p hp => ((hr r hrm).2 p hp).1)
      exact ⟨_, by simp only [ruleText, ht, Out.ok_bind]; rfl⟩)
    exact ⟨_, by simp only [grammarText, his, hrs, Out.ok_bind]; rfl⟩
  · intro entry h0
    obtain ⟨rs, hrs⟩ := eachText_ok (f := reductionText src entry) (rs := rules) (by
      intro r hrm
      obtain ⟨hne, hps⟩ := hr r hrm
      obtain ⟨name, ps⟩ := r
      cases ps with
      | nil => exact absurd rfl hne
      | cons p ps =>
        obtain ⟨t, ht⟩ := functionsText_ok (entry := entry) (name := name) (ty := textOf src p.ty) 0 hps
        exact ⟨_, by
          simp only [reductionText, slice_ok (hps p (List.mem_cons_self ..)).2.1, ht, Out.ok_bind]; rfl⟩)
    exact ⟨_, by simp only [reductorText, if_neg h0, his, hrs, Out.ok_bind]; rfl⟩

/-- What `from_str` makes of a program that is a part of the source can be written. -/
theorem dumps_ok {dbg : Bool} {order : Nat → List Span → List Span} (hord : Orders order) {L : LexEnv}
    {src : Text} {ds : List Decl} (hu : Utf8 src) {toks : List Gramem} (hs : toks.Sublist (lex L src))
    (hr : ReadsProgram toks ds) {b : Builder} (hb : Returns (fun n => Builder.fromStr dbg order n src toks) (.ok b))
    {rules : List (Text × RuleBuild)} (hp : rules.Perm b.rules) :
    (∃ t, grammarText src b.imports rules = .ok t) ∧
      ∀ entry, entry ≠ [] → ∃ t, reductorText entry src b.imports rules = .ok t := by
  obtain ⟨_, _, _, hi, hrules⟩ := fromStr_prods_of hord hu hs hr hb
  refine writes_ok hi (fun r hrm => ?_)
  obtain ⟨pre, ident, ty, alts, post, d1, d2, d3, d4, d5, d6⟩ := hrules r (hp.mem_iff.mp hrm)
  refine ⟨d3, fun q hq => ?_⟩
  obtain ⟨i, hi⟩ := List.getElem?_of_mem hq
  have hlt : i < (expansions alts).length := by
    rw [← d5]; exact (List.getElem?_eq_some_iff.mp hi).1
  obtain ⟨q', k1, k2, k3, k4, k5, ⟨code, _, k6⟩, k7, _⟩ := d6 i _ _ (List.getElem?_eq_getElem hlt)
  rw [hi] at k1
  cases k1
  exact ⟨k4, k2 ▸ d4, k5, ⟨code, k6⟩, fun e he => (k7 e he).1⟩

end Lrp.Wop
