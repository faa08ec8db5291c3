import Verif.Proofs.WopLex
import Verif.Props.WopOut

/-! C61, C62: from the text of a wop program to its rules and reductors. -/

namespace Lrp.Props
open Spec Wop Wop.Spec
set_option maxRecDepth 100000

/-! ### C61: where a code block ends -/

/-- C61 in full: a code block ends at the first `}%`. -/
def C61_claim : Prop :=
  ∀ (L : LexEnv) (src : Text) (t : Gramem), Utf8 src → t ∈ lex L src → t.ty = .codeBlock →
    ∃ body, textOf src t.item.span = 45 :: 62 :: (body ++ [125, 37]) ∧
      ∀ k, k < body.length → ¬ MarkAt 125 37 (body ++ [125, 37]) k

/-- C61, what happens: a code block ends at the first `}%` with an even number of `}` before it. -/
theorem C61_actual (L : LexEnv) {src : Text} {t : Gramem} (ht : t ∈ lex L src)
    (hty : t.ty = .codeBlock) :
    ∃ body, textOf src t.item.span = 45 :: 62 :: (body ++ [125, 37]) ∧ closing 125 body % 2 = 0 ∧
      ∀ k, k < body.length → MarkAt 125 37 (body ++ [125, 37]) k →
        closing 125 (body.take k) % 2 = 1 := by
  obtain ⟨r, k, _, h, e⟩ := lex_codeBlock L ht hty
  refine ⟨r.take k, e, h.even, fun j hj hm => ?_⟩
  rw [List.length_take] at hj
  have hj' : j < k := by omega
  rw [List.take_take, Nat.min_eq_left (by omega)]
  refine h.first j hj' ?_
  rw [← mark_split h.mark] at hm
  obtain ⟨h1, h2⟩ := hm
  rw [List.getElem?_take, if_pos (by omega)] at h1 h2
  exact ⟨h1, h2⟩

/-- C61 in the part that holds: after a token and white space, `->` and a text without `}%` that does
not end with `}`, followed by `}%`, are a code block. -/
theorem C61_partial (L : LexEnv) {src : Text} {t : Gramem} (ht : t ∈ lex L src) {w body rest : Text}
    (hw : Blank w) (hs : src.drop t.item.span.stop = w ++ 45 :: 62 :: (body ++ 125 :: 37 :: rest))
    (hm : ∀ k, k < body.length → ¬ MarkAt 125 37 (body ++ [125, 37]) k)
    (he : body.getLast? ≠ some 125) :
    ∃ u ∈ lex L src, u.ty = .codeBlock ∧ u.item.span.start = t.item.span.stop + w.length ∧
      textOf src u.item.span = 45 :: 62 :: (body ++ [125, 37]) := by
  have hends : Ends 125 37 (body ++ 125 :: 37 :: rest) body.length := by
    refine ⟨⟨by simp, by simp⟩, ?_, fun j hj hmark => ?_⟩
    · rw [List.take_left]
      unfold closing
      cases hb : body.reverse with
      | nil => rfl
      | cons c l =>
        have : body.getLast? = some c := by rw [← List.head?_reverse, hb]; rfl
        rw [this] at he
        rw [List.takeWhile_cons, if_neg]
        · rfl
        · intro h
          apply he
          rw [beq_iff_eq.mp h]
    · refine absurd ?_ (hm j hj)
      obtain ⟨h1, h2⟩ := hmark
      refine ⟨?_, ?_⟩
      · rw [List.getElem?_append_left hj] at h1 ⊢
        exact h1
      · by_cases hl : j + 1 < body.length
        · rw [List.getElem?_append_left hl] at h2 ⊢
          exact h2
        · rw [List.getElem?_append_right (by omega)] at h2 ⊢
          have e : j + 1 - body.length = 0 := by omega
          rw [e] at h2 ⊢
          exact h2
  obtain ⟨m, h1, h2⟩ := lexFrom_after L src.length 0 src (Nat.le_refl _) t ht
  rw [Nat.sub_zero, hs] at h1 h2
  refine ⟨_, h2 _ (lexFrom_blank_code L hw h1 hends), rfl, rfl, ?_⟩
  have hd : src.drop (t.item.span.stop + w.length) = 45 :: 62 :: (body ++ 125 :: 37 :: rest) := by
    rw [← List.drop_drop, hs, List.drop_left]
  show (src.drop (t.item.span.stop + w.length)).take _ = _
  rw [hd, show (Span.new (t.item.span.stop + w.length) (t.item.span.stop + w.length +
      (body.length + 4))).stop - (Span.new (t.item.span.stop + w.length) (t.item.span.stop + w.length +
      (body.length + 4))).start = body.length + 2 + 2 by simp only [Span.new]; omega,
    List.take_succ_cons, List.take_succ_cons, mark_split hends.mark, List.take_left]

namespace WopSamples

/-- A lexer. -/
def lexer : LexEnv where
  word _ := 0
  bad := charLen
  wordWhole _ := rfl
  wordHigh := by simp
  badWhole := charLen_boundary

/-- Two rules; the code block of the first one ends with `}}%`. -/
def braces : Text := bytes "A:T=B->{{}}%;C:T=D->{}%;"

/-- The first code block goes on to the end of the second one. -/
theorem braces_lex : (lex lexer braces).map (fun t => (t.ty, t.item.span.start, t.item.span.stop)) =
    [(.ident, 0, 1), (.twoDots, 1, 2), (.ident, 2, 3), (.assign, 3, 4), (.ident, 4, 5),
     (.codeBlock, 5, 23), (.sc, 23, 24)] := by decide +kernel

/-- So `Builder::from_str` silently drops the second rule. -/
theorem braces_rule_lost : ∃ b, Builder.fromStr false order 100 braces (lex lexer braces) = .ok b ∧
    (match b with | .ok b => b.rules.map (·.1) = [[65]] | .error _ => False) := by
  have h : ∀ {o : Out (Except (Error Sym) Builder)},
      (match o with | .ok (.ok b) => decide (b.rules.map (·.1) = [[65]]) | _ => false) = true →
        ∃ b, o = .ok b ∧ (match b with | .ok b => b.rules.map (·.1) = [[65]] | .error _ => False) := by
    intro o h
    split at h
    · exact ⟨_, rfl, of_decide_eq_true h⟩
    · cases h
  exact h (by decide +kernel)

/-- A comment that ends with `**/` does not end there either. -/
example : (lex lexer (bytes "/*A**/B/***/C")).map (fun t => (t.ty, t.item.span.start, t.item.span.stop)) =
    [(.ident, 12, 13)] := by decide +kernel

/-- The hypotheses of `C61_partial` are met by the first rule of a program. -/
example : ∃ t ∈ lex lexer (bytes "A:T=B -> {1}% ;"), ∃ w body rest, Blank w ∧
    (bytes "A:T=B -> {1}% ;").drop t.item.span.stop = w ++ 45 :: 62 :: (body ++ 125 :: 37 :: rest) ∧
    (∀ k, k < body.length → ¬ MarkAt 125 37 (body ++ [125, 37]) k) ∧ body.getLast? ≠ some 125 := by
  have e : lex lexer (bytes "A:T=B -> {1}% ;") =
      [tk .ident 0 1, tk .twoDots 1 2, tk .ident 2 3, tk .assign 3 4, tk .ident 4 5,
       tk .codeBlock 6 13, tk .sc 14 15] := by with_unfolding_all rfl
  refine ⟨tk .ident 4 5, by rw [e]; simp, [32], [32, 123, 49], [32, 59], by simp [Blank],
    by decide +kernel, ?_, by decide⟩
  intro k hk
  match k with
  | 0 => simp [MarkAt]
  | 1 => simp [MarkAt]
  | 2 => simp [MarkAt]
  | k + 3 => exact absurd hk (by simp)

end WopSamples

/-- C61 is false: in `A:T=B->{{}}%;C:T=D->{}%;` the first code block ends with the second `}%`. -/
theorem C61_false : ¬ C61_claim := by
  intro h
  have hm : (Sym.codeBlock, 5, 23) ∈ (lex WopSamples.lexer WopSamples.braces).map
      (fun t => (t.ty, t.item.span.start, t.item.span.stop)) := by
    rw [WopSamples.braces_lex]
    simp
  obtain ⟨t, ht, e⟩ := List.mem_map.mp hm
  simp only [Prod.mk.injEq] at e
  obtain ⟨e1, e2, e3⟩ := e
  obtain ⟨body, h1, h2⟩ := h _ _ t (utf8_ascii (by decide +kernel)) ht e1
  have hs : t.item.span = ⟨5, 23⟩ := by
    cases hsp : t.item.span
    rw [hsp] at e2 e3
    cases e2
    cases e3
    rfl
  rw [hs] at h1
  have e : textOf WopSamples.braces ⟨5, 23⟩ =
      45 :: 62 :: ([123, 123, 125, 125, 37, 59, 67, 58, 84, 61, 68, 45, 62, 123] ++ [125, 37]) := by
    decide +kernel
  rw [e] at h1
  simp only [List.cons.injEq, true_and] at h1
  have hb := List.append_cancel_right h1
  subst hb
  exact h2 3 (by decide) ⟨rfl, rfl⟩

/-! ### C62: every source -/

theorem rule_of_name {src : Text} : ∀ {ds : List Decl} {x : Text}, x ∈ ruleNames src ds →
    ∃ pre ident ty alts post, ds = pre ++ .rule ident ty alts :: post ∧ x = textOf src ident
  | [], x, h => by simp [ruleNames] at h
  | d :: ds, x, h => by
    have step : x ∈ ruleNames src ds → ∃ pre ident ty alts post,
        d :: ds = pre ++ .rule ident ty alts :: post ∧ x = textOf src ident := by
      intro h
      obtain ⟨pre, ident, ty, alts, post, rfl, e⟩ := rule_of_name h
      exact ⟨d :: pre, ident, ty, alts, post, rfl, e⟩
    cases d with
    | rule ident ty alts =>
      simp only [ruleNames, List.mem_cons] at h
      rcases h with rfl | h
      · exact ⟨[], ident, ty, alts, ds, rfl, rfl⟩
      · exact step h
    | use p => exact step (by simpa [ruleNames] using h)
    | token n t => exact step (by simpa [ruleNames] using h)

/-- C62: for every source, which is a sequence of characters, `Builder::from_str` returns an error, if its tokens do not read as
declarations; panics, if they do but the declarations repeat names or misplace code blocks; and
otherwise returns a builder for which the code of every rule and of all its reductors is generated
without panic, every reductor with the code written between `->` and `%`. -/
theorem C62_total (dbg : Bool) {order : Nat → List Span → List Span} (hord : Orders order) (L : LexEnv)
    {src : Text} (hu : Utf8 src) :
    ((¬ ∃ ds, ReadsProgram (lex L src) ds) ∧
      ∃ e, Returns (fun n => Builder.fromStr dbg order n src (lex L src)) (.error e)) ∨
    ∃ ds, ReadsProgram (lex L src) ds ∧
      ((¬ Proper src ds ∧ ∃ w, Panics (fun n => Builder.fromStr dbg order n src (lex L src)) w) ∨
       (Proper src ds ∧ ∃ b, Returns (fun n => Builder.fromStr dbg order n src (lex L src)) (.ok b) ∧
         ∀ r ∈ b.rules, ∃ pre ident ty alts post ws rs,
           ds = pre ++ .rule ident ty alts :: post ∧ r.1 = textOf src ident ∧
           writeRule src r.2 = .ok ws ∧ writeReduction src r.2 = .ok rs ∧
           ws = (expansions alts).map (fun ax => ax.2.word.map
             (fun sp => textOf src (resolve src (tokens src pre) sp))) ∧
           rs.map (fun f => (f.ty, 45 :: 62 :: (f.code ++ [37]))) =
             (expansions alts).map (fun ax => (textOf src ty, textOf src ax.1.block)))) := by
  have hl := lex_lexed L hu
  by_cases hr : ∃ ds, ReadsProgram (lex L src) ds
  · obtain ⟨ds, hr⟩ := hr
    refine .inr ⟨ds, hr, ?_⟩
    by_cases hp : Proper src ds
    · refine .inr ⟨hp, ?_⟩
      obtain ⟨b, hb, _, _, hnames, _⟩ := C59_builds dbg hord hl hr hp
      refine ⟨b, hb, fun r hrm => ?_⟩
      have hm : r.1 ∈ ruleNames src ds := hnames ▸ List.mem_map_of_mem hrm
      obtain ⟨pre, ident, ty, alts, post, rfl, e⟩ := rule_of_name hm
      obtain ⟨ast, N, hprog, hfrom⟩ := C50_program dbg order hl hr
      have hproc := fromStr_process hfrom hb
      obtain ⟨hne, hbl⟩ := reads_blocks hr (ident := ident) (ty := ty) (alts := alts) (by simp)
      have hlook : b.rules.lookup (textOf src ident) = some r.2 := by
        rw [← e]
        exact lookup_of_nodup (hnames ▸ hp.rules) hrm
      rw [List.map_append, List.map_cons, Decl.cloning] at hprog
      obtain ⟨prods, ws, rs, g1, g2, g3, g4, g5, g6⟩ := C46_reductors hord hprog
        (by simpa using hne) (by simp [Builder.empty]) hproc (by
          intro a ha
          obtain ⟨a', ha', rfl⟩ := List.mem_map.mp ha
          obtain ⟨body, hbody⟩ := block_code (.refl _) ⟨hne, hbl⟩ ha'
            (hp.blocks ident ty alts (by simp) a' ha')
          exact ⟨body ++ [125], by
            show textOf src a'.block = _
            rw [hbody]
            simp⟩)
      rw [hlook] at g1
      cases g1
      have hlen : (expansions (alts.map Alt.cloning)).length = (expansions alts).length := by
        rw [expansions_cloning, List.length_map]
      have hget : ∀ {i : Nat} {ax : Alt × Expansion}, (expansions alts)[i]? = some ax →
          (expansions (alts.map Alt.cloning))[i]? = some (ax.1.cloning, ax.2.cloning) := by
        intro i ax hx
        rw [expansions_cloning, List.getElem?_map, hx]
        rfl
      refine ⟨pre, ident, ty, alts, post, ws, rs, rfl, e, g2, g3, ?_, ?_⟩
      · apply List.ext_getElem?
        intro i
        rw [List.getElem?_map]
        cases hx : (expansions alts)[i]? with
        | none =>
          rw [List.getElem?_eq_none_iff] at hx
          rw [Option.map_none, List.getElem?_eq_none_iff, g4, hlen]
          exact hx
        | some ax =>
          have := (g6 i ax.1.cloning ax.2.cloning (hget hx)).1
          rw [tokens_cloning] at this
          exact this
      · apply List.ext_getElem?
        intro i
        rw [List.getElem?_map, List.getElem?_map]
        cases hx : (expansions alts)[i]? with
        | none =>
          rw [List.getElem?_eq_none_iff] at hx
          rw [Option.map_none, Option.map_eq_none_iff, List.getElem?_eq_none_iff, g5, hlen]
          exact hx
        | some ax =>
          obtain ⟨_, q, f, _, hf, _, e1, e2⟩ := g6 i ax.1.cloning ax.2.cloning (hget hx)
          rw [hf, Option.map_some, Option.map_some, e1, ← e2]
          rfl
    · exact .inl ⟨hp, C59_rejects dbg hord hl hr hp⟩
  · obtain ⟨e, N, h⟩ := C50_error dbg order hl hr
    exact .inl ⟨hr, e, N, h N (Nat.le_refl _)⟩

end Lrp.Props
