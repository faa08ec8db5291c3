import Verif.Spec.WopText
import Verif.Proofs.WopLex
import Verif.Proofs.WopParse
import Verif.Proofs.WopText

/-! What the lexer of `wop` tells about the texts of names. -/

namespace Lrp.Wop
open Spec
set_option linter.unusedSectionVars false

/-! ### The bytes of a token -/

theorem wordByte_of_isWord {c : Nat} (h : isWord c = true) : wordByte c = true := by
  unfold isWord isAlpha at h
  unfold wordByte
  simp only [Bool.or_eq_true, Bool.and_eq_true, decide_eq_true_eq, beq_iff_eq] at h ⊢
  omega

theorem wordRun_word (L : LexEnv) : ∀ (n : Nat) (s : Text), ∀ c ∈ s.take (wordRun L n s), wordByte c = true
  | 0, s, c, h => by simp [wordRun] at h
  | n + 1, [], c, h => by simp at h
  | n + 1, d :: s, c, h => by
    rw [wordRun] at h
    split at h
    · next hw =>
      rw [Nat.add_comm, List.take_succ_cons] at h
      rcases List.mem_cons.mp h with rfl | h
      · exact wordByte_of_isWord hw
      · exact wordRun_word L n s c h
    · split at h
      · dsimp only at h
        split at h
        · simp at h
        · rw [List.take_add] at h
          rcases List.mem_append.mp h with h | h
          · have h' : c ∈ (d :: s).take (L.word (d :: s)) :=
              (List.take_sublist_take_left (Nat.min_le_left _ _)).subset h
            have := L.wordHigh _ c h'
            unfold wordByte
            simp [this]
          · exact wordRun_word L n _ c h
      · simp at h

theorem lexIdent_word {L : LexEnv} {s : Text} {n : Nat} (h : lexIdent L s = some n) : IsWord (s.take n) := by
  cases s with
  | nil => cases h
  | cons c s =>
    simp only [lexIdent] at h
    split at h
    · next hc =>
      cases h
      rw [Nat.add_comm, List.take_succ_cons]
      refine ⟨by simp, fun d hd => ?_⟩
      rcases List.mem_cons.mp hd with rfl | hd
      · exact wordByte_of_isWord (by unfold isWord; simp [hc])
      · exact wordRun_word L _ _ d hd
    · cases h

theorem strTail_scan : ∀ {s : Text} {n : Nat}, strTail s = some n → ∀ w,
    scan (.str w false) (s.take n) = (.idle, [.str (w ++ s.take n)])
  | [], n, h, w => by cases h
  | [c], n, h, w => by
    unfold strTail at h
    split at h
    · next hc =>
      cases h
      subst hc
      simp [scan, step]
    · cases h
  | c :: d :: s, n, h, w => by
    unfold strTail at h
    split at h
    · next hc =>
      cases h
      subst hc
      simp [scan, step]
    · next hc =>
      split at h
      · next hc2 =>
        subst hc2
        split at h
        · cases h
        · obtain ⟨m, hm, rfl⟩ : ∃ m, strTail s = some m ∧ m + 2 = n := by
            cases hs : strTail s with
            | none => rw [hs] at h; cases h
            | some m => rw [hs] at h; exact ⟨m, rfl, by simpa using h⟩
          have ih := strTail_scan hm (w ++ [92, d])
          rw [List.take_succ_cons, List.take_succ_cons, scan, scan]
          simp only [step]
          simp [ih]
      · next hc2 =>
        obtain ⟨m, hm, rfl⟩ : ∃ m, strTail (d :: s) = some m ∧ m + 1 = n := by
          cases hs : strTail (d :: s) with
          | none => rw [hs] at h; cases h
          | some m => rw [hs] at h; exact ⟨m, rfl, by simpa using h⟩
        have ih := strTail_scan hm (w ++ [c])
        rw [List.take_succ_cons, scan]
        simp only [step]
        simp [hc, hc2, ih]

theorem lexStr_scan {s : Text} {n : Nat} (h : lexStr s = some n) :
    scan .idle (s.take n) = (.idle, [.str (s.take n)]) ∧ (s.take n).head? = some 34 := by
  unfold lexStr at h
  split at h
  · next s' =>
    obtain ⟨m, hm, rfl⟩ : ∃ m, strTail s' = some m ∧ m + 1 = n := by
      cases hs : strTail s' with
      | none => rw [hs] at h; cases h
      | some m => rw [hs] at h; exact ⟨m, rfl, by simpa using h⟩
    have ih := strTail_scan hm [34]
    rw [List.take_succ_cons, scan]
    refine ⟨?_, rfl⟩
    simp only [step, stepIdle]
    simp [wordByte, ih]
  · cases h

theorem ident_pattern {L : LexEnv} {f : Text → Option Nat} (hf : (Sym.ident, f) ∈ lexPatterns L) :
    f = lexIdent L := by
  simpa [lexPatterns] using hf

theorem strLit_pattern {L : LexEnv} {f : Text → Option Nat} (hf : (Sym.strLit, f) ∈ lexPatterns L) :
    f = lexStr := by
  simpa [lexPatterns] using hf

theorem pathAccess_pattern {L : LexEnv} {f : Text → Option Nat} (hf : (Sym.pathAccess, f) ∈ lexPatterns L) :
    f = lexLit [58, 58] := by
  simpa [lexPatterns] using hf

theorem glob_pattern {L : LexEnv} {f : Text → Option Nat} (hf : (Sym.glob, f) ∈ lexPatterns L) :
    f = lexLit [42] := by
  simpa [lexPatterns] using hf

/-- What matched at a token. -/
theorem lex_matches {L : LexEnv} {src : Text} {t : Gramem} (ht : t ∈ lex L src) (hne : t.ty ≠ .error) :
    ∃ f n, (t.ty, f) ∈ lexPatterns L ∧ f (src.drop t.item.span.start) = some n ∧
      textOf src t.item.span = (src.drop t.item.span.start).take n := by
  obtain ⟨h1, _⟩ := lexFrom_token L src.length 0 src
  rcases (h1 t ht).matches_ with e | ⟨f, hf, e⟩
  · exact absurd e hne
  · exact ⟨f, _, hf, by simpa using e, rfl⟩

/-- The text of an identifier is a word. -/
theorem lex_ident {L : LexEnv} {src : Text} {t : Gramem} (ht : t ∈ lex L src) (hty : t.ty = .ident) :
    IsWord (textOf src t.item.span) := by
  obtain ⟨f, n, hf, e, e'⟩ := lex_matches ht (by rw [hty]; decide)
  rw [hty] at hf
  cases ident_pattern hf
  rw [e']
  exact lexIdent_word e

/-- The text of a string literal is one token of Rust. -/
theorem lex_strLit {L : LexEnv} {src : Text} {t : Gramem} (ht : t ∈ lex L src) (hty : t.ty = .strLit) :
    Closed (textOf src t.item.span) ∧ toksOf (textOf src t.item.span) = [.str (textOf src t.item.span)] ∧
      (textOf src t.item.span).head? = some 34 := by
  obtain ⟨f, n, hf, e, e'⟩ := lex_matches ht (by rw [hty]; decide)
  rw [hty] at hf
  cases strLit_pattern hf
  obtain ⟨h1, h2⟩ := lexStr_scan e
  rw [e']
  refine ⟨?_, ?_, h2⟩
  · intro w b
    rw [h1]
    simp
  · unfold toksOf
    rw [h1]
    rfl

theorem lexLit_text {w s : Text} {n : Nat} (h : lexLit w s = some n) : s.take n = w := by
  obtain ⟨⟨r, rfl⟩, rfl⟩ := lexLit_some h
  simp

/-! ### The bytes between tokens -/

theorem spaceRun_space : ∀ (s : Text), ∀ c ∈ s.take (spaceRun s), isSpace c = true
  | [], c, h => by simp at h
  | d :: s, c, h => by
    rw [spaceRun] at h
    split at h
    · next hd =>
      rw [Nat.add_comm, List.take_succ_cons] at h
      rcases List.mem_cons.mp h with rfl | h
      · exact hd
      · exact spaceRun_space s c h
    · simp at h

/-- What is skipped is white space or begins with a slash. -/
theorem skipped {L : LexEnv} {y : Sym} {f : Text → Option Nat} (hf : (y, f) ∈ lexPatterns L)
    (hy : lexSkips y = true) {s : Text} {n : Nat} (h : f s = some n) :
    (∀ c ∈ s.take n, isSpace c = true) ∨ s[0]? = some 47 := by
  simp only [lexPatterns, List.mem_cons, Prod.mk.injEq, List.not_mem_nil, or_false] at hf
  rcases hf with ⟨rfl, rfl⟩ | ⟨rfl, rfl⟩ | ⟨rfl, rfl⟩ | ⟨rfl, rfl⟩ | ⟨rfl, rfl⟩ | ⟨rfl, rfl⟩ | ⟨rfl, rfl⟩ |
    ⟨rfl, rfl⟩ | ⟨rfl, rfl⟩ | ⟨rfl, rfl⟩ | ⟨rfl, rfl⟩ | ⟨rfl, rfl⟩ | ⟨rfl, rfl⟩ | ⟨rfl, rfl⟩ | ⟨rfl, rfl⟩ |
    ⟨rfl, rfl⟩ | ⟨rfl, rfl⟩ | ⟨rfl, rfl⟩
  all_goals first | exact absurd hy (by decide) | skip
  · unfold lexBlockComment at h
    split at h
    · exact .inr rfl
    · cases h
  · unfold lexLineComment at h
    split at h
    · exact .inr rfl
    · cases h
  · left
    cases s with
    | nil => cases h
    | cons d s =>
      simp only [lexWs] at h
      split at h
      · next hd =>
        cases h
        intro c hc
        rw [Nat.add_comm, List.take_succ_cons] at hc
        rcases List.mem_cons.mp hc with rfl | hc
        · exact hd
        · exact spaceRun_space s c hc
      · cases h

/-- Every byte of the source belongs to a token, is white space, or stands after a slash with no token
in between. -/
theorem lexFrom_bytes (L : LexEnv) : ∀ (n pos : Nat) (s : Text), s.length ≤ n → ∀ (i c : Nat), s[i]? = some c →
    (∃ t ∈ lexFrom L n pos s, t.item.span.start ≤ pos + i ∧ pos + i < t.item.span.stop) ∨ isSpace c = true ∨
      ∃ j, j ≤ i ∧ s[j]? = some 47 ∧
        ∀ t ∈ lexFrom L n pos s, t.item.span.stop ≤ pos + j ∨ pos + i < t.item.span.start
  | 0, pos, s, hn, i, c, h => by
    rw [List.length_eq_zero_iff.mp (Nat.le_zero.mp hn)] at h
    cases h
  | n + 1, pos, [], hn, i, c, h => by cases h
  | n + 1, pos, d :: s, hn, i, c, h => by
    have later : ∀ k, 1 ≤ k → k ≤ i → ∀ (x : List Gramem), (∀ t ∈ x, t.item.span.stop ≤ pos + k) →
        (∀ t ∈ x, t.item.span.start ≤ t.item.span.stop) →
        (∃ t ∈ x ++ lexFrom L n (pos + k) ((d :: s).drop k), t.item.span.start ≤ pos + i ∧ pos + i < t.item.span.stop) ∨
        isSpace c = true ∨ ∃ j, j ≤ i ∧ (d :: s)[j]? = some 47 ∧
          ∀ t ∈ x ++ lexFrom L n (pos + k) ((d :: s).drop k),
            t.item.span.stop ≤ pos + j ∨ pos + i < t.item.span.start := by
      intro k h1 h2 x hx _
      have hl : ((d :: s).drop k).length ≤ n := by
        rw [List.length_drop]
        simp only [List.length_cons] at hn ⊢
        omega
      have hc : ((d :: s).drop k)[i - k]? = some c := by
        rw [List.getElem?_drop, show k + (i - k) = i by omega]
        exact h
      rcases lexFrom_bytes L n (pos + k) ((d :: s).drop k) hl (i - k) c hc with ⟨t, ht, e1, e2⟩ | hs | ⟨j, hj, e, ht⟩
      · exact .inl ⟨t, List.mem_append_right _ ht, by omega, by omega⟩
      · exact .inr (.inl hs)
      · refine .inr (.inr ⟨k + j, by omega, by rw [List.getElem?_drop] at e; exact e, fun t hm => ?_⟩)
        rcases List.mem_append.mp hm with hm | hm
        · have := hx t hm
          exact .inl (by omega)
        · rcases ht t hm with h | h
          · exact .inl (by omega)
          · exact .inr (by omega)
    rw [lexFrom]
    split
    · next y k e =>
      obtain ⟨⟨f, hf, hk⟩, _⟩ := longest_some e
      obtain ⟨b1, b2⟩ := pattern_bounds hf hk
      dsimp only
      split
      · next hy =>
        by_cases hi : i < k
        · rcases skipped hf hy hk with hs | hs
          · refine .inr (.inl (hs c ?_))
            exact List.mem_of_getElem? (i := i) (by rw [List.getElem?_take, if_pos hi]; exact h)
          · refine .inr (.inr ⟨0, Nat.zero_le _, hs, fun t ht => .inr ?_⟩)
            have := ((lexFrom_token L n (pos + k) ((d :: s).drop k)).1 t ht).start
            omega
        · simpa using later k b1 (by omega) [] (by simp) (by simp)
      · next hy =>
        by_cases hi : i < k
        · refine .inl ⟨_, List.mem_cons_self, ?_, ?_⟩
          · show pos ≤ pos + i
            omega
          · show pos + i < pos + k
            omega
        · have := later k b1 (by omega) [⟨⟨.token y, Span.new pos (pos + k)⟩, y⟩] (by simp [Span.new])
            (by simp [Span.new])
          rwa [List.singleton_append] at this
    · next e =>
      dsimp only
      have b1 : 1 ≤ max 1 (min (L.bad (d :: s)) (s.length + 1)) := by omega
      generalize max 1 (min (L.bad (d :: s)) (s.length + 1)) = k at *
      by_cases hi : i < k
      · refine .inl ⟨_, List.mem_cons_self, ?_, ?_⟩
        · show pos ≤ pos + i
          omega
        · show pos + i < pos + k
          omega
      · have := later k b1 (by omega) [⟨⟨.token .error, Span.new pos (pos + k)⟩, .error⟩] (by simp [Span.new])
          (by simp [Span.new])
        rwa [List.singleton_append] at this

/-! ### The bytes of a path -/

/-- The bytes a path consists of. -/
def pathByte (c : Nat) : Bool := wordByte c || c == 58 || c == 42 || isSpace c

/-- The span covers tokens of the given kinds that stand one after the other. -/
def CoveredBy (toks : List Gramem) (P : Sym → Prop) (sp : Span) : Prop :=
  ∃ p ts q, toks = p ++ ts ++ q ∧ cover ts = some sp ∧ ∀ t ∈ ts, P t.ty

/-- The symbols of paths. -/
def PathSym (y : Sym) : Prop := y = .ident ∨ y = .pathAccess ∨ y = .glob

theorem mem_textOf {src : Text} {sp : Span} {c : Nat} :
    c ∈ textOf src sp ↔ ∃ i, sp.start ≤ i ∧ i < sp.stop ∧ src[i]? = some c := by
  unfold textOf
  constructor
  · intro h
    obtain ⟨j, hj⟩ := List.getElem?_of_mem h
    rw [List.getElem?_take] at hj
    split at hj
    · rw [List.getElem?_drop] at hj
      exact ⟨sp.start + j, by omega, by omega, hj⟩
    · cases hj
  · rintro ⟨i, h1, h2, h⟩
    refine List.mem_of_getElem? (i := i - sp.start) ?_
    rw [List.getElem?_take, if_pos (by omega), List.getElem?_drop, show sp.start + (i - sp.start) = i by omega]
    exact h

theorem pathSym_bytes {L : LexEnv} {src : Text} {t : Gramem} (ht : t ∈ lex L src) (hty : PathSym t.ty) :
    ∀ c ∈ textOf src t.item.span, pathByte c = true := by
  intro c hc
  have hne : t.ty ≠ .error := by rcases hty with h | h | h <;> rw [h] <;> decide
  rcases hty with hy | hy | hy
  · have := (lex_ident ht hy).2 c hc
    unfold pathByte
    simp [this]
  · obtain ⟨f, n, hf, e, e'⟩ := lex_matches ht hne
    rw [hy] at hf
    cases pathAccess_pattern hf
    rw [e', lexLit_text e] at hc
    simp at hc
    rw [hc]; rfl
  · obtain ⟨f, n, hf, e, e'⟩ := lex_matches ht hne
    rw [hy] at hf
    cases glob_pattern hf
    rw [e', lexLit_text e] at hc
    simp at hc
    rw [hc]; rfl

/-- A path with no slash in it consists of words, colons, asterisks and white space. -/
theorem CoveredBy.bytes {L : LexEnv} {src : Text} {sp : Span} (h : CoveredBy (lex L src) PathSym sp)
    (hs : 47 ∉ textOf src sp) : ∀ c ∈ textOf src sp, pathByte c = true := by
  obtain ⟨p, ts, q, e, hc, hp⟩ := h
  intro c hm
  obtain ⟨i, h1, h2, h3⟩ := mem_textOf.mp hm
  obtain ⟨k1, k2⟩ := lexFrom_token L src.length 0 src
  have hcov : ∃ a b, ts.head? = some a ∧ ts.getLast? = some b ∧ sp.start = a.item.span.start ∧
      sp.stop = b.item.span.stop := by
    unfold cover at hc
    split at hc
    · next a b ea eb => cases hc; exact ⟨a, b, ea, eb, rfl, rfl⟩
    · cases hc
  obtain ⟨a, b, ea, eb, sa, sb⟩ := hcov
  have ha : a ∈ ts := List.mem_of_mem_head? ea
  have hb : b ∈ ts := List.mem_of_mem_getLast? eb
  have hsub : ∀ t ∈ ts, t ∈ lex L src := fun t ht => by rw [e]; simp [ht]
  have hord : (lex L src).Pairwise (fun a b => a.item.span.stop ≤ b.item.span.start) := k2
  rw [e, List.pairwise_append, List.pairwise_append] at hord
  rcases lexFrom_bytes L src.length 0 src (Nat.le_refl _) i c h3 with ⟨t, ht, e1, e2⟩ | hsp | ⟨j, hj, e1, e2⟩
  · rw [Nat.zero_add] at e1 e2
    have hin : t ∈ lex L src := ht
    have htt : t ∈ ts := by
      rw [e] at hin
      rcases List.mem_append.mp hin with hin | hin
      · rcases List.mem_append.mp hin with hin | hin
        · have := hord.1.2.2 t hin a ha
          omega
        · exact hin
      · have := hord.2.2 b (List.mem_append_right _ hb) t hin
        omega
    exact pathSym_bytes ht (hp t htt) c (mem_textOf.mpr ⟨i, e1, e2, h3⟩)
  · unfold pathByte
    simp [hsp]
  · exfalso
    rw [Nat.zero_add, Nat.zero_add] at e2
    have hin : a ∈ lex L src := hsub a ha
    have hpr := (k1 a hin).proper
    rcases e2 a hin with h | h
    · exact hs (mem_textOf.mpr ⟨j, by omega, by omega, e1⟩)
    · omega

/-- Texts of such bytes have no string literals, and the characters among their tokens are their own. -/
theorem scan_path : ∀ {t : Text}, (∀ c ∈ t, pathByte c = true) → ∀ {s : Scan}, (∀ w e, s ≠ .str w e) →
    (∀ w e, (scan s t).1 ≠ .str w e) ∧ ∀ c, Tok.char c ∈ (scan s t).2 → c = 58 ∨ c = 42
  | [], _, s, hs => ⟨hs, by simp [scan]⟩
  | d :: t, h, s, hs => by
    have hd := h d List.mem_cons_self
    have h34 : d ≠ 34 := by rintro rfl; revert hd; decide
    have key : (∀ w e, (stepIdle d).1 ≠ .str w e) ∧ ∀ c, Tok.char c ∈ (stepIdle d).2 → c = 58 ∨ c = 42 := by
      unfold stepIdle
      split
      · simp
      · next hw =>
        · split
          · simp
          · next hb =>
            refine ⟨by simp, fun c hc => ?_⟩
            simp only [List.mem_singleton, Tok.char.injEq] at hc
            subst hc
            unfold pathByte isSpace at hd
            unfold blankByte at hb
            simp only [Bool.or_eq_true, beq_iff_eq] at hd hb
            have hw' : ¬ wordByte c = true := hw
            rcases hd with ((hd | hd) | hd) | hd
            · exact absurd hd hw'
            · exact .inl hd
            · exact .inr hd
            · exact absurd hd hb
    have hstep : (∀ w e, (step s d).1 ≠ .str w e) ∧ ∀ c, Tok.char c ∈ (step s d).2 → c = 58 ∨ c = 42 := by
      cases s with
      | idle => exact key
      | word w =>
        simp only [step]
        split
        · simp
        · refine ⟨key.1, fun c hc => key.2 c ?_⟩
          simpa using hc
      | str w e => exact absurd rfl (hs w e)
    have ih := scan_path (t := t) (fun c hc => h c (List.mem_cons_of_mem _ hc)) hstep.1
    rw [scan]
    refine ⟨ih.1, fun c hc => ?_⟩
    rcases List.mem_append.mp hc with hc | hc
    · exact hstep.2 c hc
    · exact ih.2 c hc

theorem without_path {t : Text} (h : ∀ c ∈ t, pathByte c = true) {cs : List Nat}
    (hcs : ∀ c ∈ cs, c ≠ 58 ∧ c ≠ 42) : Without cs t := by
  obtain ⟨h1, h2⟩ := scan_path h (s := .idle) (by simp)
  refine ⟨h1, fun c hc hm => ?_⟩
  unfold toksOf at hm
  rcases List.mem_append.mp hm with hm | hm
  · rcases h2 c hm with h | h
    · exact (hcs c hc).1 h
    · exact (hcs c hc).2 h
  · cases hr : (scan .idle t).1 with
    | idle => rw [hr] at hm; simp [Scan.rest] at hm
    | word w => rw [hr] at hm; simp [Scan.rest] at hm
    | str w e => exact h1 w e hr

/-! ### The names of the declarations -/

theorem CoveredBy.append {toks : List Gramem} {P : Sym → Prop} {sp : Span} (h : CoveredBy toks P sp)
    (a b : List Gramem) : CoveredBy (a ++ toks ++ b) P sp := by
  obtain ⟨p, ts, q, rfl, h2, h3⟩ := h
  exact ⟨a ++ p, ts, q ++ b, by simp, h2, h3⟩

theorem CoveredBy.self {toks : List Gramem} {P : Sym → Prop} {sp : Span} (h : cover toks = some sp)
    (hp : ∀ t ∈ toks, P t.ty) : CoveredBy toks P sp :=
  ⟨[], toks, [], by simp, h, hp⟩

theorem readsPath_cover {ts : List Gramem} {sp : Span} (h : ReadsPath ts sp) :
    cover ts = some sp ∧ ∀ t ∈ ts, PathSym t.ty := by
  induction h with
  | one h => exact ⟨rfl, by simp [PathSym, h]⟩
  | @more ts sp c i _ hc hi ih =>
    refine ⟨cover_append ih.1 (s' := Span.new c.item.span.start i.item.span.stop) rfl, fun t ht => ?_⟩
    rcases List.mem_append.mp ht with ht | ht
    · exact ih.2 t ht
    · simp only [List.mem_cons, List.not_mem_nil, or_false] at ht
      rcases ht with rfl | rfl
      · exact .inr (.inl hc)
      · exact .inl hi

theorem readsPath_covered {ts : List Gramem} {sp : Span} (h : ReadsPath ts sp) : CoveredBy ts PathSym sp :=
  .self (readsPath_cover h).1 (readsPath_cover h).2

/-- The span is that of a path among the tokens. -/
def PathIn (toks : List Gramem) (sp : Span) : Prop := ∃ p ts q, toks = p ++ ts ++ q ∧ ReadsPath ts sp

theorem PathIn.append {toks : List Gramem} {sp : Span} (h : PathIn toks sp) (a b : List Gramem) :
    PathIn (a ++ toks ++ b) sp := by
  obtain ⟨p, ts, q, rfl, h⟩ := h
  exact ⟨a ++ p, ts, q ++ b, by simp, h⟩

theorem PathIn.covered {toks : List Gramem} {sp : Span} (h : PathIn toks sp) : CoveredBy toks PathSym sp := by
  obtain ⟨p, ts, q, rfl, h⟩ := h
  exact (readsPath_covered h).append p q

/-- A path without a colon is a word. -/
theorem PathIn.word {L : LexEnv} {src : Text} {sp : Span} (h : PathIn (lex L src) sp)
    (hs : 58 ∉ textOf src sp) : IsWord (textOf src sp) := by
  obtain ⟨p, us, q, e, h⟩ := h
  obtain ⟨k1, k2⟩ := lexFrom_token L src.length 0 src
  have hord : (lex L src).Pairwise (fun a b => a.item.span.stop ≤ b.item.span.start) := k2
  cases h with
  | one h => exact lex_ident (by rw [e]; simp) h
  | @more ts sp c i h hc hi =>
    exfalso
    apply hs
    obtain ⟨h1, _⟩ := readsPath_cover h
    have hcov : ∃ a ∈ ts, sp.start = a.item.span.start := by
      unfold cover at h1
      split at h1
      · next a b ea eb => cases h1; exact ⟨a, List.mem_of_mem_head? ea, rfl⟩
      · cases h1
    obtain ⟨a, ha, sa⟩ := hcov
    have hca : c ∈ lex L src := by rw [e]; simp
    have hia : i ∈ lex L src := by rw [e]; simp
    have haa : a ∈ lex L src := by rw [e]; simp [ha]
    have p1 := (k1 a haa).proper
    have p2 := (k1 c hca).proper
    have p3 := (k1 i hia).proper
    rw [e, List.pairwise_append, List.pairwise_append, List.pairwise_append] at hord
    have o1 := hord.1.2.1.2.2 a ha c (by simp)
    have o2 := (List.pairwise_cons.mp hord.1.2.1.2.1).1 i (by simp)
    obtain ⟨f, n, hf, em, et⟩ := lex_matches hca (by rw [hc]; decide)
    rw [hc] at hf
    cases pathAccess_pattern hf
    have hm : 58 ∈ textOf src c.item.span := by rw [et, lexLit_text em]; simp
    obtain ⟨j, j1, j2, j3⟩ := mem_textOf.mp hm
    refine mem_textOf.mpr ⟨j, ?_, ?_, j3⟩
    · show sp.start ≤ j
      omega
    · show j < i.item.span.stop
      omega

/-- A symbol is a path or a string literal. -/
def SymbolIn (toks : List Gramem) (sp : Span) : Prop :=
  CoveredBy toks PathSym sp ∨ ∃ t ∈ toks, t.ty = .strLit ∧ t.item.span = sp

/-- A name is an identifier. -/
def NameIn (toks : List Gramem) (sp : Span) : Prop := ∃ t ∈ toks, t.ty = .ident ∧ t.item.span = sp

theorem SymbolIn.append {toks : List Gramem} {sp : Span} (h : SymbolIn toks sp) (a b : List Gramem) :
    SymbolIn (a ++ toks ++ b) sp := by
  rcases h with h | ⟨t, ht, h⟩
  · exact .inl (h.append a b)
  · exact .inr ⟨t, by simp [ht], h⟩

theorem NameIn.append {toks : List Gramem} {sp : Span} (h : NameIn toks sp) (a b : List Gramem) :
    NameIn (a ++ toks ++ b) sp := by
  obtain ⟨t, ht, h⟩ := h
  exact ⟨t, by simp [ht], h⟩

theorem readsAlias_name {as : List Gramem} {alias : Option Span} {clone : Bool} (h : ReadsAlias as alias clone)
    {n : Span} (hn : n ∈ alias.toList) : NameIn as n := by
  cases h with
  | none => simp at hn
  | ref h1 h2 => cases List.mem_singleton.mp hn; exact ⟨_, by simp, h2, rfl⟩
  | clone h1 h2 h3 => cases List.mem_singleton.mp hn; exact ⟨_, by simp, h3, rfl⟩

/-- The names and symbols of items come from the tokens. -/
def NamesIn (toks : List Gramem) (is : List Item) : Prop :=
  (∀ sp ∈ symbols is, SymbolIn toks sp) ∧ ∀ n ∈ names is, NameIn toks n

theorem NamesIn.append {toks : List Gramem} {is : List Item} (h : NamesIn toks is) (a b : List Gramem) :
    NamesIn (a ++ toks ++ b) is :=
  ⟨fun sp hs => (h.1 sp hs).append a b, fun n hn => (h.2 n hn).append a b⟩

theorem altSymbols_mem {alts : List (List Item)} {sp : Span} : sp ∈ altSymbols alts ↔ ∃ a ∈ alts, sp ∈ symbols a := by
  induction alts with
  | nil => simp [altSymbols]
  | cons a as ih => simp [altSymbols, ih]

theorem altNames_mem {alts : List (List Item)} {sp : Span} : sp ∈ altNames alts ↔ ∃ a ∈ alts, sp ∈ names a := by
  induction alts with
  | nil => simp [altNames]
  | cons a as ih => simp [altNames, ih]

mutual

theorem readsItem_names : ∀ {ts : List Gramem} {i : Item} {bs : List Span}, ReadsItem ts i bs → NamesIn ts [i]
  | _, _, _, .path (ts := ts) (os := os) (as := as) h1 _ h3 => by
    refine ⟨fun sp hs => ?_, fun n hn => ?_⟩
    · simp only [symbols, Item.symbols, List.append_nil, List.mem_singleton] at hs
      subst hs
      have := (readsPath_covered h1).append [] (os ++ as)
      simpa [SymbolIn, List.append_assoc] using Or.inl this
    · simp only [names, Item.names, List.append_nil] at hn
      have := (readsAlias_name h3 hn).append (ts ++ os) []
      simpa using this
  | _, _, _, .lit (t := t) (os := os) (as := as) h1 _ h3 => by
    refine ⟨fun sp hs => ?_, fun n hn => ?_⟩
    · simp only [symbols, Item.symbols, List.append_nil, List.mem_singleton] at hs
      subst hs
      exact .inr ⟨t, by simp, h1, rfl⟩
    · simp only [names, Item.names, List.append_nil] at hn
      have := (readsAlias_name h3 hn).append ([t] ++ os) []
      simpa using this
  | _, _, _, .group (o := o) (c := c) (ts := ts) (os := os) (as := as) _ h2 _ _ h5 => by
    have ih := readsRule_names h2
    refine ⟨fun sp hs => ?_, fun n hn => ?_⟩
    · simp only [symbols, Item.symbols, List.append_nil] at hs
      obtain ⟨is, hi, hs⟩ := altSymbols_mem.mp hs
      obtain ⟨a, ha, rfl⟩ := List.mem_map.mp hi
      have := ((ih a ha).append [o] ([c] ++ os ++ as)).1 sp hs
      simpa using this
    · simp only [names, Item.names, List.append_nil] at hn
      rcases List.mem_append.mp hn with hn | hn
      · have := (readsAlias_name h5 hn).append (o :: ts ++ [c] ++ os) []
        simpa using this
      · obtain ⟨is, hi, hn⟩ := altNames_mem.mp hn
        obtain ⟨a, ha, rfl⟩ := List.mem_map.mp hi
        have := ((ih a ha).append [o] ([c] ++ os ++ as)).2 n hn
        simpa using this

theorem readsItems_names : ∀ {ts : List Gramem} {is : List Item} {bs : List Span}, ReadsItems ts is bs →
    NamesIn ts is
  | _, _, _, .one h => readsItem_names h
  | _, _, _, .more (ts := ts) (us := us) h1 h2 => by
    have a := (readsItems_names h1).append [] us
    have b := (readsItem_names h2).append ts []
    rw [List.nil_append] at a
    rw [List.append_nil] at b
    refine ⟨fun sp hs => ?_, fun n hn => ?_⟩
    · rw [symbols_append] at hs
      exact (List.mem_append.mp hs).elim (a.1 sp) (b.1 sp)
    · rw [names_append'] at hn
      exact (List.mem_append.mp hn).elim (a.2 n) (b.2 n)

theorem readsRule_names : ∀ {ts : List Gramem} {alts : List Alt}, ReadsRule ts alts →
    ∀ a ∈ alts, NamesIn ts a.items
  | _, _, .one (us := us) h1 _, a, ha => by
    cases List.mem_singleton.mp ha
    have := (readsItems_names h1).append [] us
    rwa [List.nil_append] at this
  | _, _, .more (rs := rs) (ts := ts) (us := us) (p := p) h1 _ h2 _, a, ha => by
    rcases List.mem_append.mp ha with ha | ha
    · have := (readsRule_names h1 a ha).append [] ((p :: ts) ++ us)
      simpa using this
    · cases List.mem_singleton.mp ha
      have := (readsItems_names h2).append (rs ++ [p]) us
      simpa using this

end

/-- The names and symbols of a declaration come from the tokens. -/
def DeclIn (toks : List Gramem) : Decl → Prop
  | .rule ident ty alts => PathIn toks ident ∧ CoveredBy toks PathSym ty ∧
      ∀ a ∈ alts, NamesIn toks a.items
  | .use path => CoveredBy toks PathSym path
  | .token _ target => CoveredBy toks PathSym target

theorem DeclIn.append {toks : List Gramem} {d : Decl} (h : DeclIn toks d) (a b : List Gramem) :
    DeclIn (a ++ toks ++ b) d := by
  cases d with
  | rule ident ty alts => exact ⟨h.1.append a b, h.2.1.append a b, fun x hx => (h.2.2 x hx).append a b⟩
  | use path => exact CoveredBy.append h a b
  | token name target => exact CoveredBy.append h a b

theorem readsDecl_names {ts : List Gramem} {d : Decl} (h : ReadsDecl ts d) : DeclIn ts d := by
  cases h with
  | @rule is ts rs ident ty c e alts h1 _ h2 _ h3 =>
    refine ⟨?_, ?_, fun a ha => ?_⟩
    · exact ⟨[], is, c :: ts ++ e :: rs, by simp, h1⟩
    · have := (readsPath_covered h2).append (is ++ [c]) (e :: rs)
      simpa using this
    · have := (readsRule_names h3 a ha).append (is ++ c :: ts ++ [e]) []
      simpa using this
  | @use u ts sp _ h =>
    have := (readsPath_covered h).append [u] []
    simpa [DeclIn] using this
  | @useAll u c g ts sp _ h hc hg =>
    obtain ⟨h1, h2⟩ := readsPath_cover h
    have : CoveredBy (ts ++ [c, g]) PathSym (Span.new sp.start g.item.span.stop) := by
      refine .self (cover_append h1 (s' := Span.new c.item.span.start g.item.span.stop) rfl) fun t ht => ?_
      rcases List.mem_append.mp ht with ht | ht
      · exact h2 t ht
      · simp only [List.mem_cons, List.not_mem_nil, or_false] at ht
        rcases ht with rfl | rfl
        · exact .inr (.inl hc)
        · exact .inr (.inr hg)
    have := this.append [u] []
    simpa [DeclIn] using this
  | @token a n ts sp _ _ h =>
    have := (readsPath_covered h).append [a, n] []
    simpa [DeclIn] using this

theorem readsProgram_names {toks : List Gramem} {ds : List Decl} (h : ReadsProgram toks ds) :
    ∀ d ∈ ds, DeclIn toks d := by
  induction h with
  | @one ts d s h _ =>
    intro d' hd
    cases List.mem_singleton.mp hd
    have := (readsDecl_names h).append [] [s]
    simpa using this
  | @more ps ts ds d s _ h _ ih =>
    intro d' hd
    rcases List.mem_append.mp hd with hd | hd
    · have := (ih d' hd).append [] (ts ++ [s])
      simpa using this
    · cases List.mem_singleton.mp hd
      have := (readsDecl_names h).append ps [s]
      simpa using this

theorem use_mem {ds : List Decl} {sp : Span} (h : sp ∈ uses ds) : Decl.use sp ∈ ds := by
  induction ds with
  | nil => simp [uses] at h
  | cons d ds ih =>
    cases d with
    | use p =>
      rcases List.mem_cons.mp (by simpa [uses] using h) with rfl | h
      · simp
      · exact List.mem_cons_of_mem _ (ih h)
    | rule a b c => exact List.mem_cons_of_mem _ (ih (by simpa [uses] using h))
    | token a b => exact List.mem_cons_of_mem _ (ih (by simpa [uses] using h))

theorem token_mem {src : Text} {ds : List Decl} {t : Text} {sp : Span} (h : (t, sp) ∈ tokens src ds) :
    ∃ n, Decl.token n sp ∈ ds := by
  induction ds with
  | nil => simp [tokens] at h
  | cons d ds ih =>
    cases d with
    | token a b =>
      rcases List.mem_cons.mp (show (t, sp) ∈ (textOf src a, b) :: tokens src ds from h) with h | h
      · cases h
        exact ⟨a, by simp⟩
      · obtain ⟨n, hn⟩ := ih h
        exact ⟨n, List.mem_cons_of_mem _ hn⟩
    | rule a b c =>
      obtain ⟨n, hn⟩ := ih (by simpa [tokens] using h)
      exact ⟨n, List.mem_cons_of_mem _ hn⟩
    | use a =>
      obtain ⟨n, hn⟩ := ih (by simpa [tokens] using h)
      exact ⟨n, List.mem_cons_of_mem _ hn⟩

theorem lookup_mem {α β : Type} [BEq α] [LawfulBEq α] {a : α} {b : β} : ∀ {l : List (α × β)},
    l.lookup a = some b → (a, b) ∈ l
  | [], h => by cases h
  | (x, y) :: l, h => by
    rw [List.lookup_cons] at h
    split at h
    · next e =>
      cases h
      rw [eq_of_beq e]
      exact List.mem_cons_self
    · exact List.mem_cons_of_mem _ (lookup_mem h)

/-- A symbol that is no path with a slash in it has none of the characters that are not in paths. -/
theorem SymbolIn.without {L : LexEnv} {src : Text} {sp : Span} (h : SymbolIn (lex L src) sp)
    (hs : 47 ∈ textOf src sp → (textOf src sp).head? = some 34) {cs : List Nat}
    (hcs : ∀ c ∈ cs, c ≠ 58 ∧ c ≠ 42) : Without cs (textOf src sp) := by
  rcases h with h | ⟨t, ht, hty, rfl⟩
  · by_cases h47 : 47 ∈ textOf src sp
    · exfalso
      have hh := hs h47
      obtain ⟨p, ts, q, e, hc, hp⟩ := id h
      unfold cover at hc
      split at hc
      · next a b ea eb =>
        cases hc
        have ha : a ∈ ts := List.mem_of_mem_head? ea
        have hal : a ∈ lex L src := by rw [e]; simp [ha]
        have hpr := ((lexFrom_token L src.length 0 src).1 a hal)
        have hlt : a.item.span.start < src.length := by
          have := hpr.proper
          have := hpr.stop
          omega
        have h34 : src[a.item.span.start]? = some 34 := by
          unfold textOf at hh
          rw [List.head?_take] at hh
          split at hh
          · cases hh
          · rw [List.head?_drop] at hh
            exact hh
        have := pathSym_bytes hal (hp a ha) 34 (mem_textOf.mpr ⟨_, Nat.le_refl _, hpr.proper, h34⟩)
        revert this
        decide
      · cases hc
    · exact without_path (h.bytes h47) hcs
  · obtain ⟨h1, h2, _⟩ := lex_strLit ht hty
    refine ⟨h1, fun c _ hm => ?_⟩
    rw [h2] at hm
    simp at hm

theorem NameIn.word {L : LexEnv} {src : Text} {sp : Span} (h : NameIn (lex L src) sp) : IsWord (textOf src sp) := by
  obtain ⟨t, ht, hty, rfl⟩ := h
  exact lex_ident ht hty

end Lrp.Wop
