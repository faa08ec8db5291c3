import Verif.Model.Demo
import Verif.Spec.Demo
import Verif.Proofs.Trace

/-! Proofs for the demonstration program src/main.rs: its lines, its language, more fuel. -/

set_option linter.unusedSectionVars false

namespace Lrp
open Spec

section
variable {M T : Type} [LinOrd T] [DecidableEq T]

theorem Dfa.traceWith_le {σ : Type} {f : σ → Dfa M T → σ × Dfa M T} {tn tm n m : Nat} (ht : tn ≤ tm)
    (h : n ≤ m) (s : σ) (d : Dfa M T) : Out.Le (Dfa.traceWith f tn n s d) (Dfa.traceWith f tm m s d) := by
  induction n generalizing m s d with
  | zero => exact .fuel _
  | succ n ih =>
    obtain ⟨m, rfl⟩ : ∃ k, m = k + 1 := ⟨m - 1, by omega⟩
    unfold Dfa.traceWith
    split
    · exact .refl _
    · refine Out.Le.bind (Dfa.travel_le ht _ _) (fun r => ?_)
      obtain ⟨d', e | u⟩ := r
      · exact .refl _
      · exact ih (by omega) _ _

theorem Main.procDfa_le {fs : Nat → String} {ft : T → String} {n m : Nat} (h : n ≤ m) (d : Dfa M T) :
    Out.Le (Main.procDfa fs ft n d) (Main.procDfa fs ft m d) := by
  unfold Main.procDfa
  exact Out.Le.bind (Dfa.traceWith_le h h _ _) (fun _ => .refl _)

theorem Spec.Rightmost.derives {D : Decls T} {a b : List T} {ps : List (T × Nat)}
    (h : Rightmost D a ps b) : Derives D a b := by
  induction h with
  | refl a => exact .refl a
  | head u v hp _ _ ih => exact .head (.mk u v hp) ih

end

namespace Demo

/-! ### Lines -/

theorem isWhitespace_iff (c : Char) : isWhitespace c = true ↔ White c := by
  unfold isWhitespace White
  simp only [Bool.or_eq_true, Bool.and_eq_true, decide_eq_true_eq, beq_iff_eq, List.mem_cons,
    List.not_mem_nil, or_false]
  omega

theorem trim_split (line : List Char) : ∃ a b, line = a ++ trim line ++ b ∧ (∀ c ∈ a, White c) ∧
    ∀ c ∈ b, White c := by
  have key : ∀ l : List Char, ∃ a, l = a ++ l.dropWhile isWhitespace ∧ ∀ c ∈ a, White c := by
    intro l
    refine ⟨l.takeWhile isWhitespace, List.takeWhile_append_dropWhile.symm, fun c hc => ?_⟩
    rw [← isWhitespace_iff]
    have := List.all_takeWhile (p := isWhitespace) (l := l)
    exact List.all_eq_true.mp this c hc
  obtain ⟨a, h1, h2⟩ := key line
  obtain ⟨b, h3, h4⟩ := key (line.dropWhile isWhitespace).reverse
  refine ⟨a, b.reverse, ?_, h2, fun c hc => h4 c (by simpa using hc)⟩
  have : line.dropWhile isWhitespace = trim line ++ b.reverse := by
    have := congrArg List.reverse h3
    simpa [trim] using this
  rw [List.append_assoc, ← this]
  exact h1

theorem dropWhile_white {a : List Char} (ha : ∀ c ∈ a, White c) (l : List Char) :
    (a ++ l).dropWhile isWhitespace = l.dropWhile isWhitespace := by
  induction a with
  | nil => rfl
  | cons c a ih =>
    have : isWhitespace c = true := (isWhitespace_iff c).mpr (ha c (by simp))
    rw [List.cons_append, List.dropWhile_cons_of_pos this]
    exact ih (fun c hc => ha c (List.mem_cons_of_mem _ hc))

theorem dropWhile_word {w : List Char} (hw : ∀ c ∈ w, ¬ White c) (l : List Char) (hl : w ≠ [] ∨ l = []) :
    (w ++ l).dropWhile isWhitespace = w ++ l := by
  cases w with
  | nil =>
    have : l = [] := by simpa using hl
    rw [this]; rfl
  | cons c w =>
    have : ¬ isWhitespace c = true := fun h => hw c (by simp) ((isWhitespace_iff c).mp h)
    rw [List.cons_append, List.dropWhile_cons_of_neg this]

theorem trim_of {a w b : List Char} (ha : ∀ c ∈ a, White c) (hb : ∀ c ∈ b, White c)
    (hw : ∀ c ∈ w, ¬ White c) : trim (a ++ w ++ b) = w := by
  have hb' : ∀ c ∈ b.reverse, White c := fun c hc => hb c (by simpa using hc)
  unfold trim
  rw [List.append_assoc, dropWhile_white ha]
  by_cases h : w = []
  · subst h
    rw [List.nil_append]
    have : b.dropWhile isWhitespace = [] := by
      have := dropWhile_white hb []
      rwa [List.append_nil, List.dropWhile_nil] at this
    rw [this]; rfl
  · rw [dropWhile_word hw b (Or.inl h), List.reverse_append, dropWhile_white hb']
    have := dropWhile_word (w := w.reverse) (fun c hc => hw c (by simpa using hc)) [] (Or.inr rfl)
    rw [List.append_nil] at this
    rw [this, List.reverse_reverse]

theorem entered_trim {line w : List Char} (h : Entered line w) : trim line = w := by
  obtain ⟨h1, a, b, rfl, ha, hb⟩ := h
  refine trim_of ha hb (fun c hc hwc => ?_)
  have := h1 c hc
  simp only [List.mem_cons, List.not_mem_nil, or_false] at this
  rcases this with rfl | rfl | rfl | rfl | rfl | rfl | rfl | rfl <;> revert hwc <;> unfold White <;> decide

theorem token_cases (c : Char) :
    (c ∈ ['(', ')', '[', ']', '{', '}', 'c', 'd'] ∧ token c = .ok ⟨(), [c]⟩) ∨
    (c ∉ ['(', ')', '[', ']', '{', '}', 'c', 'd'] ∧ token c = .panic .mainUnwrap) := by
  have : [c] ∈ terminals ↔ c ∈ ['(', ')', '[', ']', '{', '}', 'c', 'd'] := by
    have e : terminals = [['('], [')'], ['['], [']'], ['c'], ['d'], ['{'], ['}']] := by decide
    rw [e]
    simp only [List.mem_cons, List.cons.injEq, and_true, List.not_mem_nil, or_false]
    constructor
    · rintro (h | h | h | h | h | h | h | h) <;> simp [h]
    · rintro (h | h | h | h | h | h | h | h) <;> simp [h]
  unfold token
  by_cases h : [c] ∈ terminals
  · exact Or.inl ⟨this.mp h, if_pos h⟩
  · exact Or.inr ⟨fun h' => h (this.mpr h'), if_neg h⟩

/-- The tokens of a word. -/
def toks (w : List Char) : List (Token Unit Str) := w.map (fun c => ⟨(), [c]⟩)

theorem mapM_token (w : List Char) :
    ((∀ c ∈ w, c ∈ ['(', ')', '[', ']', '{', '}', 'c', 'd']) ∧ w.mapM token = .ok (toks w)) ∨
    ((¬ ∀ c ∈ w, c ∈ ['(', ')', '[', ']', '{', '}', 'c', 'd']) ∧ w.mapM token = .panic .mainUnwrap) := by
  induction w with
  | nil => left; exact ⟨by simp, rfl⟩
  | cons c w ih =>
    rw [List.mapM_cons]
    rcases token_cases c with ⟨h1, h2⟩ | ⟨h1, h2⟩
    · rcases ih with ⟨h3, h4⟩ | ⟨h3, h4⟩
      · left
        refine ⟨fun d hd => ?_, by rw [h2, h4]; rfl⟩
        rcases List.mem_cons.mp hd with rfl | hd
        · exact h1
        · exact h3 d hd
      · right
        exact ⟨fun h => h3 (fun d hd => h d (List.mem_cons_of_mem _ hd)), by rw [h2, h4]; rfl⟩
    · right
      exact ⟨fun h => h1 (h c (by simp)), by rw [h2]; rfl⟩

/-! ### The language -/

theorem toks_ty (w : List Char) : (toks w).map Token.ty = w.map (fun c => [c]) := by
  simp [toks, Function.comp_def]

theorem isProd_cases {A : Str} {i : Nat} {b : List Str} (h : IsProd rules A i b) :
    (A = ['\'', 'S'] ∧ b = [['S']]) ∨
    (A = ['S'] ∧ b ∈ [[['('], [')']], [['('], ['S'], [')']], [['['], [']']], [['['], ['S'], [']']],
      [['{'], ['}']], [['{'], ['S'], ['}']]]) := by
  obtain ⟨bs, ⟨pre, post, e, _⟩, h2⟩ := h
  have hm : (A, bs) ∈ rules := by rw [e]; simp
  have hb := List.mem_of_getElem? h2
  unfold rules at hm
  simp only [List.mem_cons, Prod.mk.injEq, List.not_mem_nil, or_false] at hm
  rcases hm with ⟨rfl, rfl⟩ | ⟨rfl, rfl⟩
  · left; exact ⟨rfl, by simpa using hb⟩
  · right; exact ⟨rfl, hb⟩

theorem nonterminal_iff {A : Str} : Nonterminal rules A ↔ A = ['\'', 'S'] ∨ A = ['S'] := by
  constructor
  · rintro ⟨d, hd, rfl⟩
    unfold rules at hd
    simp only [List.mem_cons, List.not_mem_nil, or_false] at hd
    rcases hd with rfl | rfl <;> simp
  · rintro (rfl | rfl)
    · exact ⟨_, List.mem_cons_self, rfl⟩
    · exact ⟨_, List.mem_cons_of_mem _ List.mem_cons_self, rfl⟩

theorem terminal_iff {x : Str} : Terminal rules x ↔ ¬ Nonterminal rules x :=
  ⟨fun h ⟨d, hd, e⟩ => h d hd e, fun h d hd e => h ⟨d, hd, e⟩⟩

theorem isProd_S {i : Nat} {b : List Str} (h : [[['('], [')']], [['('], ['S'], [')']], [['['], [']']],
    [['['], ['S'], [']']], [['{'], ['}']], [['{'], ['S'], ['}']]][i]? = some b) : IsProd rules ['S'] i b :=
  ⟨_, ⟨[(['\'', 'S'], [[['S']]])], [], rfl, by simp⟩, h⟩

theorem leaf_of {x : Str} (hx : ¬ Nonterminal rules x) {tr : Tree Unit Str} (h : tr.Valid rules)
    (hr : tr.root = x) : tr.yield = [⟨(), x⟩] := by
  cases h with
  | @leaf tok _ => cases tok; simp only [Tree.root] at hr; subst hr; rfl
  | @node A i cs hp _ =>
    simp only [Tree.root] at hr
    subst hr
    obtain ⟨bs, ⟨pre, post, e, _⟩, _⟩ := hp
    exact absurd ⟨(A, bs), by rw [e]; simp, rfl⟩ hx

theorem nested_of_tree {tr : Tree Unit Str} (h : tr.Valid rules) :
    tr.root = ['S'] → ∃ w, Nested w ∧ tr.yield = toks w := by
  have nt : ∀ c ∈ ['(', ')', '[', ']', '{', '}'], ¬ Nonterminal rules [c] := by
    intro c hc h
    rw [nonterminal_iff] at h
    simp only [List.mem_cons, List.not_mem_nil, or_false] at hc
    rcases hc with rfl | rfl | rfl | rfl | rfl | rfl <;> revert h <;> decide
  have three : ∀ {cs : List (Tree Unit Str)} {a b : Char}, cs.map Tree.root = [[a], ['S'], [b]] →
      (∀ c ∈ cs, Tree.Valid rules c) →
      (∀ c ∈ cs, c.root = ['S'] → ∃ w, Nested w ∧ c.yield = toks w) →
      a ∈ ['(', ')', '[', ']', '{', '}'] → b ∈ ['(', ')', '[', ']', '{', '}'] →
      ∃ w, Nested w ∧ Tree.yields cs = toks (a :: w ++ [b]) := by
    intro cs a b h hv ih ha hb
    have hl := congrArg List.length h
    rw [List.length_map] at hl
    match cs, hl with
    | [x, y, z], _ =>
      simp only [List.map_cons, List.map_nil, List.cons.injEq, and_true] at h
      obtain ⟨w, k1, k2⟩ := ih y (by simp) h.2.1
      refine ⟨w, k1, ?_⟩
      have e1 := leaf_of (nt a ha) (hv x (by simp)) h.1
      have e2 := leaf_of (nt b hb) (hv z (by simp)) h.2.2
      simp [Tree.yields, e1, e2, k2, toks]
  have two : ∀ {cs : List (Tree Unit Str)} {a b : Char}, cs.map Tree.root = [[a], [b]] →
      (∀ c ∈ cs, Tree.Valid rules c) →
      a ∈ ['(', ')', '[', ']', '{', '}'] → b ∈ ['(', ')', '[', ']', '{', '}'] →
      Tree.yields cs = toks [a, b] := by
    intro cs a b h hv ha hb
    have hl := congrArg List.length h
    rw [List.length_map] at hl
    match cs, hl with
    | [x, z], _ =>
      simp only [List.map_cons, List.map_nil, List.cons.injEq, and_true] at h
      have e1 := leaf_of (nt a ha) (hv x (by simp)) h.1
      have e2 := leaf_of (nt b hb) (hv z (by simp)) h.2
      simp [Tree.yields, e1, e2, toks]
  induction h with
  | @leaf tok ht =>
    intro hr
    simp only [Tree.root] at hr
    rw [hr] at ht
    exact absurd (nonterminal_iff.mpr (Or.inr rfl)) (terminal_iff.mp ht)
  | @node A i cs hp hv ih =>
    intro hr
    simp only [Tree.root] at hr
    subst hr
    simp only [Tree.yield]
    rcases isProd_cases hp with ⟨h, _⟩ | ⟨_, h⟩
    · exact absurd h (by decide)
    · simp only [List.mem_cons, List.not_mem_nil, or_false] at h
      rcases h with h | h | h | h | h | h
      · exact ⟨_, .round, two h hv (by decide) (by decide)⟩
      · obtain ⟨w, k1, k2⟩ := three h hv ih (by decide) (by decide)
        exact ⟨_, .inRound k1, k2⟩
      · exact ⟨_, .square, two h hv (by decide) (by decide)⟩
      · obtain ⟨w, k1, k2⟩ := three h hv ih (by decide) (by decide)
        exact ⟨_, .inSquare k1, k2⟩
      · exact ⟨_, .curly, two h hv (by decide) (by decide)⟩
      · obtain ⟨w, k1, k2⟩ := three h hv ih (by decide) (by decide)
        exact ⟨_, .inCurly k1, k2⟩

theorem derives_of_nested {w : List Char} (h : Nested w) : Derives rules [['S']] (w.map (fun c => [c])) := by
  have two : ∀ {i : Nat} {a b : Char}, IsProd rules ['S'] i [[a], [b]] →
      Derives rules [['S']] ([a, b].map (fun c => [c])) := fun hp => .head (.mk [] [] hp) (.refl _)
  have three : ∀ {i : Nat} {a b : Char} {w : List Char}, IsProd rules ['S'] i [[a], ['S'], [b]] →
      Derives rules [['S']] (w.map (fun c => [c])) →
      Derives rules [['S']] ((a :: w ++ [b]).map (fun c => [c])) := by
    intro i a b w hp ih
    refine .head (.mk [] [] hp) ?_
    have := Derives.ctx ih [[a]] [[b]]
    simpa using this
  induction h with
  | round => exact two (isProd_S (i := 0) rfl)
  | square => exact two (isProd_S (i := 2) rfl)
  | curly => exact two (isProd_S (i := 4) rfl)
  | inRound _ ih => exact three (isProd_S (i := 1) rfl) ih
  | inSquare _ ih => exact three (isProd_S (i := 3) rfl) ih
  | inCurly _ ih => exact three (isProd_S (i := 5) rfl) ih

theorem terminals_of {w : List Char} (hw : ∀ c ∈ w, c ∈ ['(', ')', '[', ']', '{', '}', 'c', 'd']) :
    TerminalToks rules (toks w) := by
  intro tok ht
  obtain ⟨c, hc, rfl⟩ := List.mem_map.mp ht
  rw [terminal_iff]
  intro hn
  have := hw c hc
  rw [nonterminal_iff] at hn
  simp only [List.mem_cons, List.not_mem_nil, or_false] at this
  rcases this with rfl | rfl | rfl | rfl | rfl | rfl | rfl | rfl <;> revert hn <;> decide

theorem toks_inj {w w' : List Char} (h : toks w = toks w') : w = w' := by
  induction w generalizing w' with
  | nil => cases w' with
    | nil => rfl
    | cons => cases h
  | cons c w ih => cases w' with
    | nil => cases h
    | cons c' w' =>
      simp only [toks, List.map_cons, List.cons.injEq, Token.mk.injEq, and_true, true_and] at h
      rw [h.1, ih h.2]

theorem sentence_iff {w : List Char} (hw : ∀ c ∈ w, c ∈ ['(', ')', '[', ']', '{', '}', 'c', 'd']) :
    Sentence rules ['\'', 'S'] ((toks w).map Token.ty) ↔ Nested w := by
  constructor
  · rintro ⟨h, _⟩
    obtain ⟨tr, k1, k2, k3⟩ := Tree.of_derives h (terminals_of hw)
    cases k2 with
    | @leaf tok ht =>
      simp only [Tree.root] at k1
      rw [k1] at ht
      exact absurd (nonterminal_iff.mpr (Or.inl rfl)) (terminal_iff.mp ht)
    | @node A i cs hp hv =>
      simp only [Tree.root] at k1
      subst k1
      rcases isProd_cases hp with ⟨_, h⟩ | ⟨h, _⟩
      · obtain ⟨c, rfl, hc⟩ := List.map_eq_singleton_iff.mp h
        · obtain ⟨w', g1, g2⟩ := nested_of_tree (hv c (by simp)) hc
          simp only [Tree.yield, Tree.yields, List.append_nil, g2] at k3
          rw [← toks_inj k3]
          exact g1
      · exact absurd h (by decide)
  · intro h
    refine ⟨?_, fun x hx => ?_⟩
    · rw [toks_ty]
      refine .head (.mk [] [] (i := 0) (body := [['S']])
        ⟨_, ⟨[], _, rfl, by simp⟩, rfl⟩) (derives_of_nested h)
    · obtain ⟨tok, ht, rfl⟩ := List.mem_map.mp hx
      exact terminals_of hw tok ht

end Demo

end Lrp
