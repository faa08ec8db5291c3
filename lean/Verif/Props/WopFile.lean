import Verif.Proofs.WopFile
import Verif.Props.WopMain
import Verif.Props.WopText

/-! C83 and C84: slices of sources that are not ASCII, and the file that `wop` writes. -/

namespace Lrp.Props
open Spec Wop Wop.Spec
set_option maxRecDepth 100000
set_option linter.unusedSectionVars false

/-! ### C37: slices of strings -/

theorem utf8_bytes (c : Char) : ∃ n r, utf8 c = n :: r ∧ (n < 128 ∨ 192 ≤ n) ∧ ∀ x ∈ r, 128 ≤ x ∧ x < 192 := by
  have hc : c.toNat < 1114112 := by
    have := c.valid
    simp only [UInt32.isValidChar, Nat.isValidChar] at this
    have e : c.toNat = c.val.toNat := rfl
    omega
  unfold utf8
  simp only
  split
  · exact ⟨_, _, rfl, .inl (by omega), by simp⟩
  split
  · exact ⟨_, _, rfl, .inr (by omega), by simp; omega⟩
  split
  · exact ⟨_, _, rfl, .inr (by omega), by simp; omega⟩
  · exact ⟨_, _, rfl, .inr (by omega), by simp; omega⟩

/-- The ends of characters. -/
theorem boundary_chars {cs : List Char} {i : Nat} (hi : i ≤ (cs.flatMap utf8).length) :
    Boundary (cs.flatMap utf8) i ↔ ∃ k, k ≤ cs.length ∧ i = ((cs.take k).flatMap utf8).length := by
  induction cs generalizing i with
  | nil =>
    simp only [List.flatMap_nil, List.length_nil, Nat.le_zero] at hi
    subst hi
    exact ⟨fun _ => ⟨0, by simp⟩, fun _ => .inl rfl⟩
  | cons c cs ih =>
    obtain ⟨n, r, e, hn, hr⟩ := utf8_bytes c
    rw [List.flatMap_cons] at hi ⊢
    rw [List.length_append] at hi
    constructor
    · intro hb
      by_cases h0 : i = 0
      · exact ⟨0, by simp, by simp [h0]⟩
      by_cases hlt : i < (utf8 c).length
      · rcases hb with hb | hb
        · exact absurd hb h0
        · have hg : (utf8 c ++ cs.flatMap utf8)[i]? = some (utf8 c)[i] := by
            rw [List.getElem?_append_left hlt, List.getElem?_eq_getElem hlt]
          have hm : (utf8 c)[i] ∈ r := by
            have : ∃ j, i = j + 1 := ⟨i - 1, by omega⟩
            obtain ⟨j, rfl⟩ := this
            simp [e]
          have := hb _ hg
          have := hr _ hm
          omega
      · have hb' : Boundary (cs.flatMap utf8) (i - (utf8 c).length) := by
          rcases hb with hb | hb
          · exact absurd hb h0
          · refine .inr (fun x hx => hb x ?_)
            rw [List.getElem?_append_right (by omega)]
            exact hx
        obtain ⟨k, h1, h2⟩ := (ih (by omega)).mp hb'
        exact ⟨k + 1, by simp; omega, by
          simp only [List.take_succ_cons, List.flatMap_cons, List.length_append]; omega⟩
    · rintro ⟨k, h1, h2⟩
      cases k with
      | zero => exact .inl (by simpa using h2)
      | succ k =>
        simp only [List.take_succ_cons, List.flatMap_cons, List.length_append] at h2
        have hb := (ih (i := i - (utf8 c).length) (by omega)).mpr
          ⟨k, by simpa using h1, by omega⟩
        refine .inr (fun x hx => ?_)
        rw [List.getElem?_append_right (by omega)] at hx
        rcases hb with hb | hb
        · rw [hb] at hx
          cases cs with
          | nil => simp at hx
          | cons c' cs =>
            obtain ⟨n', r', e', hn', _⟩ := utf8_bytes c'
            simp [e'] at hx
            omega
        · exact hb x hx

/-- C37: on a string, the slice consists of whole characters: `from_source` returns exactly if the bounds
are the lengths in bytes of two beginnings of the string, and then it returns the characters between
them. -/
theorem C37_str (cs : List Char) (sp : Span) (r : Text) :
    slice sp (cs.flatMap utf8) = .ok r ↔
      ∃ pre mid post, cs = pre ++ (mid ++ post) ∧ sp.start = (pre.flatMap utf8).length ∧
        sp.stop = ((pre ++ mid).flatMap utf8).length ∧ r = mid.flatMap utf8 := by
  constructor
  · intro h
    unfold slice at h
    split at h
    · rename_i hs
      obtain ⟨h1, h2, h3, h4⟩ := hs
      cases h
      obtain ⟨k, a1, a2⟩ := (boundary_chars (by omega)).mp (boundary_iff.mp h3)
      obtain ⟨m, b1, b2⟩ := (boundary_chars h2).mp (boundary_iff.mp h4)
      have hmono : ∀ {k m : Nat}, m ≤ k → ((cs.take m).flatMap utf8).length ≤ ((cs.take k).flatMap utf8).length := by
        intro k m h
        have e : cs.take k = cs.take m ++ (cs.take k).drop m := by
          have := List.take_append_drop m (cs.take k)
          rwa [List.take_take, Nat.min_eq_left h, eq_comm] at this
        rw [e]
        simp
      -- `k` may be taken up to `m`
      obtain ⟨k, hk, a2⟩ : ∃ k, k ≤ m ∧ sp.start = ((cs.take k).flatMap utf8).length := by
        by_cases hkm : k ≤ m
        · exact ⟨k, hkm, a2⟩
        · exact ⟨m, Nat.le_refl _, by have := hmono (m := m) (k := k) (by omega); omega⟩
      have e : cs.take m = cs.take k ++ (cs.take m).drop k := by
        have := List.take_append_drop k (cs.take m)
        rwa [List.take_take, Nat.min_eq_left hk, eq_comm] at this
      refine ⟨cs.take k, (cs.take m).drop k, cs.drop m, ?_, a2, ?_, ?_⟩
      · rw [← List.append_assoc, ← e, List.take_append_drop]
      · rw [← e, b2]
      · have e2 : cs.flatMap utf8 = (cs.take k).flatMap utf8 ++ (((cs.take m).drop k).flatMap utf8 ++ (cs.drop m).flatMap utf8) := by
          rw [← List.append_assoc, ← List.flatMap_append, ← e, ← List.flatMap_append, List.take_append_drop]
        have e3 : sp.stop - sp.start = (((cs.take m).drop k).flatMap utf8).length := by
          rw [a2, b2]
          conv => lhs; rw [e]
          rw [List.flatMap_append, List.length_append]
          omega
        rw [e3, a2, e2, List.drop_left, List.take_left]
    · cases h
  · rintro ⟨pre, mid, post, rfl, h1, h2, rfl⟩
    have hin : InSrc ((pre ++ (mid ++ post)).flatMap utf8) sp := by
      simp only [List.flatMap_append, List.length_append] at h2
      have l1 : sp.start ≤ ((pre ++ (mid ++ post)).flatMap utf8).length := by
        simp only [List.flatMap_append, List.length_append]; omega
      have l2 : sp.stop ≤ ((pre ++ (mid ++ post)).flatMap utf8).length := by
        simp only [List.flatMap_append, List.length_append]; omega
      refine ⟨by omega, l2, (boundary_chars l1).mpr ⟨pre.length, by simp, by rw [List.take_left]; exact h1⟩,
        (boundary_chars l2).mpr ⟨(pre ++ mid).length, by simp, ?_⟩⟩
      rw [← List.append_assoc, List.take_left, List.flatMap_append, List.length_append]
      exact h2
    rw [slice_ok hin]
    unfold textOf
    have e3 : sp.stop - sp.start = (mid.flatMap utf8).length := by
      simp only [List.flatMap_append, List.length_append] at h2
      omega
    rw [e3, h1]
    simp only [List.flatMap_append]
    rw [List.drop_left, List.take_left]

/-- C37: in all other cases `from_source` panics. -/
theorem C37_str_panics (cs : List Char) (sp : Span) : slice sp (cs.flatMap utf8) = .panic .indexRange ↔
    ¬ ∃ pre mid post, cs = pre ++ (mid ++ post) ∧ sp.start = (pre.flatMap utf8).length ∧
      sp.stop = ((pre ++ mid).flatMap utf8).length := by
  have hor : (∃ r, slice sp (cs.flatMap utf8) = .ok r) ∨ slice sp (cs.flatMap utf8) = .panic .indexRange := by
    unfold slice
    split
    · exact .inl ⟨_, rfl⟩
    · exact .inr rfl
  constructor
  · rintro h ⟨pre, mid, post, h1, h2, h3⟩
    rw [(C37_str cs sp (mid.flatMap utf8)).mpr ⟨pre, mid, post, h1, h2, h3, rfl⟩] at h
    cases h
  · intro h
    rcases hor with ⟨r, hr⟩ | hp
    · obtain ⟨pre, mid, post, h1, h2, h3, _⟩ := (C37_str cs sp r).mp hr
      exact absurd ⟨pre, mid, post, h1, h2, h3⟩ h
    · exact hp

/-- `é` has two bytes: the slice of both is the string, and there is none of the first only. -/
example : slice ⟨0, 2⟩ (['é'].flatMap utf8) = .ok [195, 169] ∧
    slice ⟨0, 1⟩ (['é'].flatMap utf8) = .panic .indexRange := by decide +kernel

/-! ### C83: slices of the source -/

/-- C83: no token cuts a character in two: the text of every token is again a string. -/
theorem C83_tokens (L : LexEnv) {src : Text} (hu : Utf8 src) {tok : Gramem} (h : tok ∈ lex L src) :
    ∃ t, slice tok.item.span src = .ok t ∧ t ≠ [] ∧ Utf8 t := by
  have hl := lex_lexed L hu
  obtain ⟨h1, h2⟩ := hl.inside tok h
  obtain ⟨h3, h4⟩ := hl.whole tok h
  have hin : InSrc src tok.item.span := ⟨by omega, h2, h3, h4⟩
  have hs := slice_ok hin
  refine ⟨_, hs, ?_, ?_⟩
  · intro e
    have : (textOf src tok.item.span).length = 0 := by rw [e]; rfl
    simp only [textOf, List.length_take, List.length_drop] at this
    omega
  · obtain ⟨cs, rfl⟩ := hu
    obtain ⟨pre, mid, post, _, _, _, e⟩ := (C37_str cs _ _).mp hs
    exact ⟨mid, e⟩

/-- C83: `print_nested` prints every value the parser of wop can make of tokens of the source. -/
theorem C83_prints (L : LexEnv) {src : Text} (hu : Utf8 src) {tr : PTree} (hv : Tree.Valid outRules tr)
    (hs : tr.yield.Sublist (lex L src)) {v : Meta Ast} (h : tr.eval (redOf outReducts) = some v)
    (quote : Text → Text) (pre : Text) (lvl : Nat) :
    ∃ t, printNested quote src ⟨v, tr.root⟩ pre lvl = .ok t :=
  (shown_value hv ((lex_lexed L hu).sublist hs) h).2.printed quote pre lvl

/-! ### C84: the file -/

section
variable {quote : Text → Text} {dbg : Bool} {order : Nat → List Span → List Span}
  {walk : Nat → List (Text × RuleBuild) → List (Text × RuleBuild)} {L : LexEnv} {src : Text} {ds : List Decl}

theorem run_main {toks : List Gramem} {t : Text} {res : Except (Error Sym) Unit} :
    Returns (fun n => Wop.run quote dbg order walk n src toks) (t, res) ↔
      ∃ b g r, Returns (fun n => Wop.main quote dbg order n src toks) (b, res) ∧
        grammarText src b.imports (walk 0 b.rules) = .ok g ∧
        reductorText (ascii "Gramem") src b.imports (walk 1 b.rules) = .ok r ∧ t = fileText g r := by
  constructor
  · rintro ⟨n, h⟩
    obtain ⟨⟨b, res'⟩, h1, h⟩ := Out.bind_eq_ok.mp h
    obtain ⟨g, h2, h⟩ := Out.bind_eq_ok.mp h
    obtain ⟨r, h3, h⟩ := Out.bind_eq_ok.mp h
    cases h
    exact ⟨b, g, r, ⟨n, h1⟩, h2, h3, rfl⟩
  · rintro ⟨b, g, r, ⟨n, h1⟩, h2, h3, rfl⟩
    refine ⟨n, ?_⟩
    simp only [Wop.run] at h1 ⊢
    rw [h1]
    simp only [Out.ok_bind, h2, h3]
    rfl

theorem run_panics {toks : List Gramem} {w : Panic}
    (h : Panics (fun n => Wop.main quote dbg order n src toks) w) :
    Panics (fun n => Wop.run quote dbg order walk n src toks) w := by
  obtain ⟨n, h⟩ := h
  refine ⟨n, ?_⟩
  simp only [Wop.run] at h ⊢
  rw [h]
  rfl

/-- The order in which a hash map is walked. -/
def Walks (walk : Nat → List (Text × RuleBuild) → List (Text × RuleBuild)) : Prop :=
  ∀ i rules, (walk i rules).Perm rules

theorem run_written (hord : Orders order) (hw : Walks walk) (hu : Utf8 src) {toks : List Gramem}
    (hs : toks.Sublist (lex L src)) {all : List Gramem}
    (hr : ReadsProgram toks ds) {b : Builder} {res : Except (Error Sym) Unit}
    (hb : Returns (fun n => Builder.fromStr dbg order n src toks) (.ok b))
    (hm : Returns (fun n => Wop.main quote dbg order n src all) (b, res)) :
    ∃ t, Returns (fun n => Wop.run quote dbg order walk n src all) (t, res) := by
  obtain ⟨g, hg⟩ := (dumps_ok hord hu hs hr hb (hw 0 b.rules)).1
  obtain ⟨r, hr⟩ := (dumps_ok hord hu hs hr hb (hw 1 b.rules)).2 (ascii "Gramem") (by decide +kernel)
  exact ⟨_, run_main.mpr ⟨b, g, r, hm, hg, hr, rfl⟩⟩

/-- C84: `wop` writes `out.rs` and returns `Ok` exactly for the sources that are programs without repeated
names or misplaced code blocks. -/
theorem C84_ok (hord : Orders order) (hw : Walks walk) (hu : Utf8 src) :
    (∃ t, Returns (fun n => Wop.run quote dbg order walk n src (lex L src)) (t, .ok ())) ↔
      ∃ ds, ReadsProgram (lex L src) ds ∧ Proper src ds := by
  have hl := lex_lexed L hu
  constructor
  · rintro ⟨t, h⟩
    obtain ⟨b, g, r, h1, _⟩ := run_main.mp h
    obtain ⟨ds, hr⟩ := (C73_reports_partial dbg order hl h1).mp rfl
    exact ⟨ds, hr, (fromStr_prods hord hu hr ((C73_ok_partial dbg order hl).mp h1)).1⟩
  · rintro ⟨ds, hr, hp⟩
    obtain ⟨b, hb, _⟩ := C59_builds dbg hord hl hr hp
    exact run_written hord hw hu (.refl _) hr hb ((C73_ok_partial dbg order hl).mpr hb)

/-- C84: `wop` writes `out.rs` and returns an error exactly for the sources that are no programs, but begin
with declarations that are followed by the first token of another one, if there are no repeated names or
misplaced code blocks in the longest beginning of this kind. -/
theorem C84_error (hord : Orders order) (hw : Walks walk) (hu : Utf8 src) :
    (∃ t e, Returns (fun n => Wop.run quote dbg order walk n src (lex L src)) (t, .error e)) ↔
      (¬ ∃ ds, ReadsProgram (lex L src) ds) ∧
      ∃ qs x rest ds, lex L src = qs ++ x :: rest ∧ ReadsProgram qs ds ∧
        (x.ty = .ident ∨ x.ty = .useWord ∨ x.ty = .aliasWord) ∧
        (∀ ps ds x rest, lex L src = ps ++ x :: rest → ReadsProgram ps ds →
          (x.ty = .ident ∨ x.ty = .useWord ∨ x.ty = .aliasWord) → ps <+: qs) ∧ Proper src ds := by
  have hl := lex_lexed L hu
  constructor
  · rintro ⟨t, e, h⟩
    obtain ⟨b, g, r, h1, _⟩ := run_main.mp h
    obtain ⟨hno, ps, x, rest, ds, a1, a2, a3, a4⟩ := C73_error dbg order hl h1
    refine ⟨hno, ?_⟩
    obtain ⟨qs, x', rest', ds', b1, b2, b3, b4, b5, b6⟩ :=
      C73_overwrites (quote := quote) dbg hord hl hno ⟨ps, ds, x, rest, a1, a3, a2⟩
    refine ⟨qs, x', rest', ds', b1, b2, b3, b4, ?_⟩
    apply Classical.byContradiction
    intro hp
    obtain ⟨w, n, hw⟩ := b6 hp
    obtain ⟨m, hm⟩ := h1
    have := (main_le (Nat.le_max_left n m) dbg order src (lex L src)).panic hw
    rw [(main_le (Nat.le_max_right n m) dbg order src (lex L src)).ok hm] at this
    cases this
  · rintro ⟨hno, qs, x, rest, ds, a1, a2, a3, a4, hp⟩
    obtain ⟨qs', x', rest', ds', b1, b2, b3, b4, b5, b6⟩ :=
      C73_overwrites (quote := quote) dbg hord hl hno ⟨qs, ds, x, rest, a1, a2, a3⟩
    have e : qs' = qs := (a4 _ _ _ _ b1 b2 b3).eq_of_length_le (b4 _ _ _ _ a1 a2 a3).length_le
    subst e
    have hlq : Lexed src qs' := (a1 ▸ hl).left
    have hp' : Proper src ds' := by
      apply Classical.byContradiction
      intro hp'
      obtain ⟨w, n, hw⟩ := C59_rejects dbg hord hlq b2 hp'
      obtain ⟨b, ⟨m, hm⟩, _⟩ := C59_builds dbg hord hlq a2 hp
      have := (fromStr_le (Nat.le_max_left n m) dbg order src qs').panic hw
      rw [(fromStr_le (Nat.le_max_right n m) dbg order src qs').ok hm] at this
      cases this
    obtain ⟨b, e, hm, hb⟩ := b5 hp'
    obtain ⟨t, ht⟩ := run_written hord hw hu (a1 ▸ List.sublist_append_left ..) b2 hb hm
    exact ⟨t, e, ht⟩

/-- C84: in all other cases `wop` panics before it touches `out.rs`. -/
theorem C84_panics (hord : Orders order) (hu : Utf8 src)
    (h : ∀ t res, ¬ Returns (fun n => Wop.run quote dbg order walk n src (lex L src)) (t, res)) (hw : Walks walk) :
    ∃ w, Panics (fun n => Wop.main quote dbg order n src (lex L src)) w := by
  have hl := lex_lexed L hu
  by_cases hd : ∃ ds, ReadsProgram (lex L src) ds
  · obtain ⟨ds, hr⟩ := hd
    by_cases hp : Proper src ds
    · obtain ⟨t, ht⟩ := (C84_ok (quote := quote) (dbg := dbg) hord hw hu).mpr ⟨ds, hr, hp⟩
      exact absurd ht (h t _)
    · obtain ⟨w, n, hw⟩ := C59_rejects dbg hord hl hr hp
      obtain ⟨t, d', res, N, _, _, _, h1, h2⟩ := main_run (quote := quote) dbg order hl
      have := (fromStr_le (Nat.le_max_left n (max 100 N)) dbg order src (lex L src)).panic hw
      rw [h2 _ (Nat.le_max_right ..)] at this
      refine ⟨w, max 100 N, ?_⟩
      simp only
      rw [h1 _ (Nat.le_refl _)]
      cases res with
      | error e => cases this
      | ok u =>
        cases hd : d'.items.getLast? with
        | none => rw [hd] at this; simpa using this
        | some ast =>
          rw [hd] at this
          simp only at this ⊢
          rcases Out.bind_eq_panic.mp this with hq | ⟨b, _, hq⟩
          · rw [hq]; rfl
          · cases hq
  · by_cases hs : ∃ ps ds x rest, lex L src = ps ++ x :: rest ∧ ReadsProgram ps ds ∧
      (x.ty = .ident ∨ x.ty = .useWord ∨ x.ty = .aliasWord)
    · obtain ⟨qs, x', rest', ds', b1, b2, b3, b4, b5, b6⟩ := C73_overwrites (quote := quote) dbg hord hl hd hs
      by_cases hp : Proper src ds'
      · obtain ⟨t, e, ht⟩ := (C84_error (quote := quote) (dbg := dbg) hord hw hu).mpr
          ⟨hd, qs, x', rest', ds', b1, b2, b3, b4, hp⟩
        exact absurd ht (h t _)
      · exact b6 hp
    · exact C73_panics dbg order hl hd hs

/-- C84: read as Rust, `out.rs` declares the functions `grammar` and `reduct_map`.  The block of the first
imports exactly the paths the source imports, and inserts exactly one rule for every rule declared, with the
productions its alternatives describe, in order; the block of the second declares and inserts for every rule
as many functions as it has expansions, in their order, whose bodies are `let`s for the aliases, followed by
the code block of the alternative. -/
theorem C84_reads (hord : Orders order) (hw : Walks walk) (hu : Utf8 src) (hr : ReadsProgram (lex L src) ds)
    (hp : Proper src ds) (hg : GrammarLegible src ds) (hR : ReductorLegible (ascii "Gramem") src ds)
    (hbr : Braceless src ds) :
    ∃ t g r gs acts, Returns (fun n => Wop.run quote dbg order walk n src (lex L src)) (t, .ok ()) ∧
      readFile t = some (g, r) ∧
      readGrammarToks g = some ((uses ds).map (fun sp => toksOf (textOf src sp)), gs) ∧
      (gs.map (·.1)).Perm ((ruleNames src ds).map toksOf) ∧
      (∀ pre ident alts, HasRule ds pre ident alts →
        (toksOf (textOf src ident), (expansions alts).map (fun ax =>
          ax.2.word.map (fun sp => toksOf (textOf src (resolve src (tokens src pre) sp))))) ∈ gs) ∧
      readReductorToks r = some ((uses ds).map (fun sp => toksOf (textOf src sp)), acts) ∧
      ((defined acts).map Fn.name).Nodup ∧
      (inserted acts).flatMap (·.2) = (defined acts).map Fn.name ∧
      ((inserted acts).map (·.1)).Perm ((ruleNames src ds).map toksOf) ∧
      ∀ pre post ident ty alts, ds = pre ++ .rule ident ty alts :: post →
        ∃ fns, (toksOf (textOf src ident), fns) ∈ inserted acts ∧ fns.length = (expansions alts).length ∧
          ∀ (i : Nat) (a : Alt) (x : Expansion), (expansions alts)[i]? = some (a, x) →
            ∃ f ∈ defined acts, fns[i]? = some f.name ∧ f.entry = toksOf (ascii "Gramem") ∧
              f.ty = toksOf (textOf src ty) ∧
              ∃ lets code, textOf src a.block = 45 :: 62 :: (code ++ [37]) ∧
                readLets lets.length f.body = some (lets, toksOf code) ∧
                ∀ t, t ∈ lets.map Let.name ↔ t ∈ (names a.items).map (textOf src) := by
  have hl := lex_lexed L hu
  have h0 : ascii "Gramem" ≠ [] := by decide +kernel
  have hen : Without [123, 125] (ascii "Gramem") := WopSamples.without_of (by decide +kernel)
  obtain ⟨b, hb, _⟩ := C59_builds dbg hord hl hr hp
  obtain ⟨g, gs, g1, g2, g3, g4, g5⟩ := source_grammar hord hu hr hb (hw 0 b.rules) hg
  obtain ⟨r, acts, r1, r3, r4, r5, r6, r7⟩ := C75_partial hord hu hr hb (hw 1 b.rules) h0 hR
  obtain ⟨r', _, q1, q2, _⟩ := source_reductor hord hu hr hb (hw 1 b.rules) h0 hR
  rw [r1] at q1
  cases q1
  exact ⟨fileText g r, toksOf g, toksOf r, gs, acts,
    run_main.mpr ⟨b, g, r, (C73_ok_partial dbg order hl).mpr hb, g1, r1, rfl⟩,
    readFile_fileText (g2 hbr) (q2 hbr hen), g3, g4, g5, r3, r4, r5, r6, r7⟩

end

/-! ### Examples -/

namespace WopSamples

/-- A source that is not ASCII: `alias "é" P;S:T="é"->{}%;`. -/
def accent : Text := "alias \"é\" P;S:T=\"é\"->{}%;".toList.flatMap utf8

theorem accent_utf8 : Utf8 accent := ⟨_, rfl⟩

/-- The literals have four bytes. -/
theorem accent_lex : (lex lexer accent).map (fun t => (t.ty, t.item.span.start, t.item.span.stop)) =
    [(.aliasWord, 0, 5), (.strLit, 6, 10), (.ident, 11, 12), (.sc, 12, 13), (.ident, 13, 14), (.twoDots, 14, 15),
     (.ident, 15, 16), (.assign, 16, 17), (.strLit, 17, 21), (.codeBlock, 21, 26), (.sc, 26, 27)] := by
  decide +kernel

/-- A piece of it: the tokens of `"é"`, a tree over them, and its value. -/
example : Utf8 accent ∧ ∃ (tr : PTree) (v : Meta Ast), Tree.Valid outRules tr ∧
    tr.yield.Sublist (lex lexer accent) ∧ tr.yield ≠ [] ∧ tr.eval (redOf outReducts) = some v := by
  refine ⟨accent_utf8, .leaf (tk .strLit 17 21), _, .leaf (by unfold Terminal; decide), ?_, by simp, rfl⟩
  have : tk .strLit 17 21 ∈ lex lexer accent := by
    have h := accent_lex
    have hm : (Sym.strLit, 17, 21) ∈ (lex lexer accent).map (fun t => (t.ty, t.item.span.start, t.item.span.stop)) := by
      rw [h]; decide
    obtain ⟨t, h1, h2⟩ := List.mem_map.mp hm
    have hp := ((lex_lexed lexer accent_utf8).plain t h1).1
    obtain ⟨⟨it, ⟨a, b⟩⟩, ty⟩ := t
    simp only [Prod.mk.injEq] at h2
    obtain ⟨rfl, rfl, rfl⟩ := h2
    simp only at hp
    subst hp
    exact h1
  simpa using this

theorem sum_braceless : Braceless sumSrc sumDecls where
  uses := by simp [sum_uses]
  rules := by
    intro ident ty alts h
    rcases sum_mem h with ⟨rfl, rfl, _⟩ | ⟨rfl, rfl, _⟩ <;>
      exact ⟨without_of (by decide +kernel), without_of (by decide +kernel)⟩
  symbols := by
    intro pre ident alts h a ha sp hsp
    rcases sum_pre h with ⟨rfl, rfl, rfl⟩ | ⟨rfl, rfl, rfl⟩ <;> rw [List.mem_singleton] at ha <;> subst ha
    · have : sp = ⟨14, 15⟩ := by simpa [sumStart, symbols, Item.symbols] using hsp
      subst this
      exact without_of (by decide +kernel)
    · have : sp = ⟨28, 29⟩ ∨ sp = ⟨32, 33⟩ ∨ sp = ⟨34, 35⟩ := by
        simpa [sumAlt, symbols, Item.symbols, altSymbols] using hsp
      rcases this with rfl | rfl | rfl <;> exact without_of (by decide +kernel)

theorem sum_proper : Proper sumSrc sumDecls := by
  obtain ⟨b, _, _, _, hb, _⟩ := sum_built
  exact (fromStr_prods orders sum_utf8 sum_reads ⟨100, hb⟩).1

/-- The hypotheses of `C84_reads` are met by the sums, with the rules written in different orders. -/
example : Orders order ∧ Walks (fun i rs => if i = 0 then rs else rs.reverse) ∧ Utf8 sumSrc ∧
    ReadsProgram (lex lexer sumSrc) sumDecls ∧ Proper sumSrc sumDecls ∧ GrammarLegible sumSrc sumDecls ∧
    ReductorLegible (ascii "Gramem") sumSrc sumDecls ∧ Braceless sumSrc sumDecls := by
  refine ⟨orders, ?_, sum_utf8, sum_reads, sum_proper, sum_grammarLegible,
    ⟨without_of (by decide +kernel), sum_reductorLegible.uses, sum_reductorLegible.rules,
      sum_reductorLegible.names, sum_reductorLegible.code⟩, sum_braceless⟩
  intro i rs
  simp only
  split
  · exact .refl _
  · exact List.reverse_perm _

/-- What `wop` does with a source: whether it writes a file with the given numbers of rules, functions and
lists of functions, and whether it returns `Ok`. -/
def wrote (src : Text) : Option (Nat × Nat × Nat × Bool) :=
  match Wop.run id false order (fun _ rs => rs) 100 src (lex lexer src) with
  | .ok (t, res) =>
    match readFile t with
    | some (g, r) =>
      match readGrammarToks g, readReductorToks r with
      | some (_, gs), some (_, acts) =>
        some (gs.length, (defined acts).length, (inserted acts).length, match res with | .ok () => true | _ => false)
      | _, _ => none
    | none => none
  | _ => none

/-- The sums have two rules and three functions; for a source that ends in the middle of its second rule the
file has only the first one. -/
theorem wrote_run : wrote sumSrc = some (2, 3, 2, true) ∧ wrote accent = some (1, 1, 1, true) ∧
    wrote (bytes "S:T=E:v->{v}%;E:T=") = some (1, 1, 1, false) ∧ wrote (bytes "S:T=E:v->{v}%;|") = none := by
  decide +kernel

end WopSamples

end Lrp.Props
