import Verif.Spec.WopText
import Verif.Proofs.WopGen

/-! Proofs about the texts that wop writes. -/

namespace Lrp.Wop
open _root_.Lrp.Spec _root_.Lrp.Wop.Spec
set_option linter.unusedSectionVars false

/-! ### Tokens -/

theorem scan_append : ∀ (a b : Text) (s : Scan),
    scan s (a ++ b) = ((scan (scan s a).1 b).1, (scan s a).2 ++ (scan (scan s a).1 b).2)
  | [], b, s => by simp [scan]
  | c :: a, b, s => by simp [scan, scan_append a b, List.append_assoc]

/-- The text is a sequence of whole tokens. -/
def Lexes (t : Text) (ts : List Tok) : Prop := scan .idle t = (.idle, ts)

instance (t : Text) (ts : List Tok) : Decidable (Lexes t ts) := by unfold Lexes; infer_instance

theorem Lexes.nil : Lexes [] [] := rfl

theorem Lexes.append {a b : Text} {x y : List Tok} (h : Lexes a x) (h' : Lexes b y) :
    Lexes (a ++ b) (x ++ y) := by
  unfold Lexes at *
  rw [scan_append, h, h']

theorem Lexes.toksOf {t : Text} {ts : List Tok} (h : Lexes t ts) : toksOf t = ts := by
  unfold Spec.toksOf
  rw [h]
  simp [Scan.rest]

/-- A piece of Rust that ends between tokens. -/
theorem Lexes.rust {s : String} (h : (scan .idle (ascii s)).1 = .idle) : Lexes (ascii s) (rust s) := by
  unfold Lexes Spec.rust Spec.toksOf
  exact Prod.ext h (by rw [h]; simp [Scan.rest])

/-- The text starts with something that is no part of a word. -/
def Breaks (b : Text) : Prop := ∃ c b', b = c :: b' ∧ wordByte c = false

theorem Breaks.append {b : Text} (h : Breaks b) (r : Text) : Breaks (b ++ r) := by
  obtain ⟨c, b', rfl, hc⟩ := h
  exact ⟨c, b' ++ r, rfl, hc⟩

theorem breaks_of {b : Text} (h : (b.head?.map wordByte) = some false) : Breaks b := by
  cases b with
  | nil => cases h
  | cons c b => exact ⟨c, b, rfl, by simpa using h⟩

/-- A text, then something that is no part of a word. -/
theorem Lexes.name {t b : Text} {y : List Tok} (ht : Closed t) (hb : Breaks b) (h : Lexes b y) :
    Lexes (t ++ b) (Spec.toksOf t ++ y) := by
  unfold Lexes at *
  rw [scan_append]
  unfold Spec.toksOf
  cases hs : (scan .idle t).1 with
  | idle => rw [h]; simp [Scan.rest]
  | word w =>
    obtain ⟨c, b', rfl, hc⟩ := hb
    simp only [scan, step] at h ⊢
    rw [if_neg (by simp [hc])]
    simp only [Scan.rest]
    have e1 := (Prod.mk.inj h).1
    have e2 := (Prod.mk.inj h).2
    rw [e1]
    simp only [Prod.mk.injEq, true_and]
    rw [← e2]
    simp
  | str w e => exact absurd hs (ht w e)

theorem scan_words : ∀ (t : Text) (w : Text), (∀ c ∈ t, wordByte c = true) →
    scan (.word w) t = (.word (w ++ t), [])
  | [], w, _ => by simp [scan]
  | c :: t, w, h => by
    simp only [scan, step, if_pos (h c (List.mem_cons_self ..))]
    rw [scan_words t _ (fun d hd => h d (List.mem_cons_of_mem _ hd))]
    simp

theorem Spec.IsWord.scan {t : Text} (h : IsWord t) : scan .idle t = (.word t, []) := by
  obtain ⟨hne, h⟩ := h
  cases t with
  | nil => exact absurd rfl hne
  | cons c t =>
    simp only [Spec.scan, step, stepIdle, if_pos (h c (List.mem_cons_self ..))]
    rw [scan_words t _ (fun d hd => h d (List.mem_cons_of_mem _ hd))]
    simp

theorem Spec.IsWord.closed {t : Text} (h : IsWord t) : Closed t := by
  intro w e
  rw [h.scan]
  simp

theorem Spec.IsWord.toksOf {t : Text} (h : IsWord t) : toksOf t = [.word t] := by
  unfold Spec.toksOf
  rw [h.scan]
  rfl

theorem Spec.IsWord.append {a b : Text} (h : IsWord a) (h' : IsWord b) : IsWord (a ++ b) := by
  refine ⟨by simp [h.1], fun c hc => ?_⟩
  rcases List.mem_append.mp hc with hc | hc
  · exact h.2 c hc
  · exact h'.2 c hc

theorem isWord_of {t : Text} (h : (decide (t ≠ []) && t.all wordByte) = true) : IsWord t := by
  rw [Bool.and_eq_true] at h
  exact ⟨of_decide_eq_true h.1, by simpa using h.2⟩

/-! ### Numbers -/

theorem decimal_digits (n : Nat) : decimal n ≠ [] ∧ ∀ c ∈ decimal n, 48 ≤ c ∧ c ≤ 57 := by
  induction n using Nat.strongRecOn with
  | ind n ih =>
    unfold decimal
    split
    · refine ⟨by simp, fun c hc => ?_⟩
      have := List.mem_singleton.mp hc
      omega
    · obtain ⟨h1, h2⟩ := ih (n / 10) (by omega)
      refine ⟨by simp, fun c hc => ?_⟩
      rcases List.mem_append.mp hc with hc | hc
      · exact h2 c hc
      · have := List.mem_singleton.mp hc
        omega

theorem decimal_isWord (n : Nat) : IsWord (decimal n) := by
  obtain ⟨h1, h2⟩ := decimal_digits n
  refine ⟨h1, fun c hc => ?_⟩
  obtain ⟨h3, h4⟩ := h2 c hc
  simp [wordByte, h3, h4]

theorem readDigits_append : ∀ (a b : Text) (n m : Nat), readDigits n a = some m →
    readDigits n (a ++ b) = readDigits m b
  | [], b, n, m, h => by
    simp only [readDigits, Option.some.injEq] at h
    rw [h]; rfl
  | c :: a, b, n, m, h => by
    simp only [readDigits, List.cons_append] at h ⊢
    split at h
    · rename_i hc
      rw [if_pos hc]
      exact readDigits_append a b _ _ h
    · cases h

/-- Numbers are read as they are written. -/
theorem readDigits_decimal (n : Nat) : readDigits 0 (decimal n) = some n := by
  induction n using Nat.strongRecOn with
  | ind n ih =>
    unfold decimal
    split
    · rename_i h
      have : 48 ≤ 48 + n ∧ 48 + n ≤ 57 := by omega
      simp [readDigits, this]
    · rename_i h
      rw [readDigits_append _ _ _ _ (ih (n / 10) (by omega))]
      have : 48 ≤ 48 + n % 10 ∧ 48 + n % 10 ≤ 57 := by omega
      simp only [readDigits, if_pos this, Option.some.injEq]
      omega

theorem decimal_inj {n m : Nat} (h : decimal n = decimal m) : n = m := by
  have := readDigits_decimal n
  rw [h, readDigits_decimal] at this
  exact (Option.some.inj this).symm

theorem readNat_decimal (n : Nat) (ts : List Tok) : readNat (.word (decimal n) :: ts) = some (n, ts) := by
  unfold readNat
  simp only [readWord]
  have h := readDigits_decimal n
  have hne := (decimal_digits n).1
  cases hd : decimal n with
  | nil => exact absurd hd hne
  | cons c w =>
    rw [hd] at h
    simp only [h]

/-! ### The names of the functions -/

theorem fnName_isWord {name : Text} (h : IsWord name) (i : Nat) : IsWord (fnName name i) := by
  unfold fnName
  have h1 : IsWord (ascii "lrp_wop_") := isWord_of (by decide +kernel)
  have h2 : IsWord (ascii "_") := isWord_of (by decide +kernel)
  exact ((h1.append h).append h2).append (decimal_isWord i)

/-- Splitting at the last underscore. -/
theorem split_last {u : Nat} : ∀ {a b x y : Text}, u ∉ x → u ∉ y → a ++ u :: x = b ++ u :: y → a = b ∧ x = y
  | [], [], x, y, _, _, e => by
    simp only [List.nil_append, List.cons.injEq, true_and] at e
    exact ⟨rfl, e⟩
  | [], d :: b, x, y, hx, _, e => by
    simp only [List.nil_append, List.cons_append, List.cons.injEq] at e
    exact absurd (by rw [e.2]; simp) hx
  | c :: a, [], x, y, _, hy, e => by
    simp only [List.nil_append, List.cons_append, List.cons.injEq] at e
    exact absurd (by rw [← e.2]; simp) hy
  | c :: a, d :: b, x, y, hx, hy, e => by
    simp only [List.cons_append, List.cons.injEq] at e
    obtain ⟨rfl, e⟩ := e
    obtain ⟨h1, h2⟩ := split_last hx hy e
    exact ⟨by rw [h1], h2⟩

theorem fnName_inj {a b : Text} {i j : Nat} (h : fnName a i = fnName b j) : a = b ∧ i = j := by
  unfold fnName at h
  have no : ∀ n, 95 ∉ decimal n := fun n hn => by
    have := (decimal_digits n).2 _ hn
    omega
  have e : ascii "_" = [95] := by decide +kernel
  rw [e] at h
  simp only [List.append_assoc, List.cons_append, List.nil_append] at h
  obtain ⟨h1, h2⟩ := split_last (no i) (no j) (List.append_cancel_left h)
  exact ⟨h1, decimal_inj h2⟩

/-! ### Reading -/

theorem expect_append : ∀ (ps ts : List Tok), expect ps (ps ++ ts) = some ts
  | [], ts => rfl
  | p :: ps, ts => by simp [expect, expect_append ps ts]

theorem expect_none : ∀ {ps qs : List Tok}, expect ps qs = none → ps.length ≤ qs.length → ∀ r,
    expect ps (qs ++ r) = none
  | [], qs, h, _, r => by simp [expect] at h
  | p :: ps, [], _, hl, r => by simp at hl
  | p :: ps, q :: qs, h, hl, r => by
    simp only [expect, List.cons_append] at h ⊢
    split
    · rename_i e
      rw [if_pos e] at h
      exact expect_none h (by simpa using hl) r
    · rfl

theorem upTo_append {stop : Tok} : ∀ {u : List Tok} (ts : List Tok), stop ∉ u →
    upTo stop (u ++ stop :: ts) = some (u, ts)
  | [], ts, _ => by simp [upTo]
  | t :: u, ts, h => by
    rw [List.mem_cons, not_or] at h
    simp only [List.cons_append, upTo, if_neg (Ne.symm h.1), upTo_append ts h.2]

/-- The tokens of a name: a name can be found between the given separators. -/
def Free (seps : List Nat) (ts : List Tok) : Prop := ∀ c ∈ seps, Tok.char c ∉ ts

/-! ### The imports -/

/-- The tokens of the imports. -/
def usesToks (us : List (List Tok)) : List Tok := us.flatMap (fun u => rust "use" ++ (u ++ rust ";"))

theorem importsText_lexes {src : Text} : ∀ {is : List Span}, (∀ i ∈ is, InSrc src i) →
    (∀ i ∈ is, Closed (textOf src i)) →
    ∃ t, importsText src is = .ok t ∧ Lexes t (usesToks (is.map (fun i => toksOf (textOf src i))))
  | [], _, _ => ⟨[], rfl, .nil⟩
  | i :: is, h, hc => by
    obtain ⟨t, ht, hl⟩ := importsText_lexes (fun j hj => h j (List.mem_cons_of_mem _ hj))
      (fun j hj => hc j (List.mem_cons_of_mem _ hj))
    refine ⟨ascii "\tuse " ++ textOf src i ++ ascii ";\n" ++ t, ?_, ?_⟩
    · unfold importsText
      rw [slice_ok (h i (List.mem_cons_self ..)), ht]
      rfl
    · have l1 : Lexes (ascii "\tuse ") (rust "use") := by decide +kernel
      have l2 : Lexes (ascii ";\n") (rust ";") := by decide +kernel
      have b2 : Breaks (ascii ";\n") := breaks_of (by decide +kernel)
      simp only [List.append_assoc, usesToks, List.map_cons, List.flatMap_cons]
      exact l1.append (.name (hc i (List.mem_cons_self ..)) (b2.append _) (l2.append hl))

theorem readUses_toks {rest : List Tok} (hr : expect (rust "use") rest = none) :
    ∀ {us : List (List Tok)} {n : Nat}, (∀ u ∈ us, Tok.char 59 ∉ u) → us.length < n →
      readUses n (usesToks us ++ rest) = some (us, rest)
  | [], 0, _, hn => by simp at hn
  | [], n + 1, _, _ => by simp [readUses, usesToks, hr]
  | u :: us, 0, _, hn => by simp at hn
  | u :: us, n + 1, h, hn => by
    have e : rust ";" = [.char 59] := by decide +kernel
    simp only [usesToks, List.flatMap_cons, List.append_assoc, readUses, expect_append, e,
      List.cons_append, List.nil_append]
    have ih := readUses_toks hr (us := us) (n := n) (fun v hv => h v (List.mem_cons_of_mem _ hv))
      (by simpa using hn)
    simp only [usesToks, e] at ih
    simp [upTo_append _ (h u (List.mem_cons_self ..)), ih]

theorem usesToks_length (us : List (List Tok)) : us.length ≤ (usesToks us).length := by
  induction us with
  | nil => simp
  | cons u us ih =>
    have e : rust ";" = [.char 59] := by decide +kernel
    simp only [usesToks, List.flatMap_cons, List.length_append, List.length_cons, e] at ih ⊢
    omega

/-! ### The grammar -/

/-- The tokens of lists `a, b, `. -/
def itemsToks (us : List (List Tok)) : List Tok := us.flatMap (fun u => u ++ rust ",")

theorem symbolsText_lexes {src : Text} : ∀ {ss : List Span}, (∀ i ∈ ss, InSrc src i) →
    (∀ i ∈ ss, Closed (textOf src i)) →
    ∃ t, symbolsText src ss = .ok t ∧ Lexes t (itemsToks (ss.map (fun i => toksOf (textOf src i))))
  | [], _, _ => ⟨[], rfl, .nil⟩
  | i :: is, h, hc => by
    obtain ⟨t, ht, hl⟩ := symbolsText_lexes (fun j hj => h j (List.mem_cons_of_mem _ hj))
      (fun j hj => hc j (List.mem_cons_of_mem _ hj))
    refine ⟨textOf src i ++ ascii ", " ++ t, ?_, ?_⟩
    · unfold symbolsText
      rw [slice_ok (h i (List.mem_cons_self ..)), ht]
      rfl
    · have l2 : Lexes (ascii ", ") (rust ",") := by decide +kernel
      have b2 : Breaks (ascii ", ") := breaks_of (by decide +kernel)
      simp only [List.append_assoc, itemsToks, List.map_cons, List.flatMap_cons]
      exact .name (hc i (List.mem_cons_self ..)) (b2.append _) (l2.append hl)

theorem readItems_toks {rest : List Tok} :
    ∀ {us : List (List Tok)} {n : Nat}, (∀ u ∈ us, Free [44, 93] u) → us.length < n →
      readItems n (itemsToks us ++ (rust "]" ++ rest)) = some (us, rest)
  | [], 0, _, hn => by simp at hn
  | [], n + 1, _, _ => by simp [readItems, itemsToks, expect_append]
  | u :: us, 0, _, hn => by simp at hn
  | u :: us, n + 1, h, hn => by
    have e : rust "," = [.char 44] := by decide +kernel
    have e' : rust "]" = [.char 93] := by decide +kernel
    have hu := h u (List.mem_cons_self ..)
    have ih := readItems_toks (rest := rest) (us := us) (n := n)
      (fun v hv => h v (List.mem_cons_of_mem _ hv)) (by simpa using hn)
    have hno : expect (rust "]") (u ++ (rust "," ++ (itemsToks us ++ (rust "]" ++ rest)))) = none := by
      rw [e, e']
      cases u with
      | nil => simp [expect]
      | cons t u =>
        have : Tok.char 93 ≠ t := by
          rintro rfl
          exact hu 93 (by simp) (by simp)
        simp [expect, this]
    have es : itemsToks (u :: us) ++ (rust "]" ++ rest) =
        u ++ (rust "," ++ (itemsToks us ++ (rust "]" ++ rest))) := by
      simp [itemsToks]
    rw [es, readItems, hno]
    simp only [e, List.cons_append, List.nil_append]
    simp [upTo_append _ (hu 44 (by simp)), ih]

theorem itemsToks_length (us : List (List Tok)) : us.length ≤ (itemsToks us).length := by
  induction us with
  | nil => simp
  | cons u us ih =>
    have e : rust "," = [.char 44] := by decide +kernel
    simp only [itemsToks, List.flatMap_cons, List.length_append, List.length_cons, e] at ih ⊢
    omega

/-- The tokens of productions `vec![a, b, ], `. -/
def prodsToks (ps : List (List (List Tok))) : List Tok :=
  ps.flatMap (fun p => rust "vec![" ++ (itemsToks p ++ (rust "]" ++ rust ",")))

theorem productionsText_lexes {src : Text} : ∀ {ps : RuleBuild},
    (∀ p ∈ ps, ∀ i ∈ p.production, InSrc src i) → (∀ p ∈ ps, ∀ i ∈ p.production, Closed (textOf src i)) →
    ∃ t, productionsText src ps = .ok t ∧
      Lexes t (prodsToks (ps.map (fun p => p.production.map (fun i => toksOf (textOf src i)))))
  | [], _, _ => ⟨[], rfl, .nil⟩
  | p :: ps, h, hc => by
    obtain ⟨t, ht, hl⟩ := productionsText_lexes (fun j hj => h j (List.mem_cons_of_mem _ hj))
      (fun j hj => hc j (List.mem_cons_of_mem _ hj))
    obtain ⟨s, hs, hl'⟩ := symbolsText_lexes (h p (List.mem_cons_self ..)) (hc p (List.mem_cons_self ..))
    refine ⟨ascii "\t\tvec![" ++ s ++ ascii "],\n" ++ t, ?_, ?_⟩
    · unfold productionsText
      rw [hs, ht]
      rfl
    · have l1 : Lexes (ascii "\t\tvec![") (rust "vec![") := by decide +kernel
      have l2 : Lexes (ascii "],\n") (rust "]" ++ rust ",") := by decide +kernel
      simp only [List.append_assoc, prodsToks, List.map_cons, List.flatMap_cons]
      have := l1.append (hl'.append (l2.append hl))
      simpa only [List.append_assoc, prodsToks] using this

theorem readProds_toks {rest : List Tok} :
    ∀ {ps : List (List (List Tok))} {n : Nat}, (∀ p ∈ ps, ∀ u ∈ p, Free [44, 93] u) →
      (prodsToks ps).length < n →
      readProds n (prodsToks ps ++ (rust "]" ++ rest)) = some (ps, rest)
  | [], 0, _, hn => by simp at hn
  | [], n + 1, _, _ => by simp [readProds, prodsToks, expect_append]
  | p :: ps, 0, _, hn => by simp at hn
  | p :: ps, n + 1, h, hn => by
    have hlen : (rust "vec![").length = 3 := by decide +kernel
    have es : prodsToks (p :: ps) ++ (rust "]" ++ rest) =
        rust "vec![" ++ (itemsToks p ++ (rust "]" ++ (rust "," ++ (prodsToks ps ++ (rust "]" ++ rest))))) := by
      simp [prodsToks]
    have el : (prodsToks (p :: ps)).length = (rust "vec![").length + (itemsToks p).length +
        (rust "]").length + (rust ",").length + (prodsToks ps).length := by
      simp [prodsToks]; omega
    have ih := readProds_toks (rest := rest) (ps := ps) (n := n)
      (fun v hv => h v (List.mem_cons_of_mem _ hv)) (by omega)
    have hit := readItems_toks (rest := rust "," ++ (prodsToks ps ++ (rust "]" ++ rest))) (us := p) (n := n)
      (h p (List.mem_cons_self ..)) (by have := itemsToks_length p; omega)
    rw [es, readProds, expect_none (by decide +kernel) (by decide +kernel)]
    simp [expect_append, hit, ih]

/-- The tokens of an insertion of a rule. -/
def ruleToks (r : List Tok × List (List (List Tok))) : List Tok :=
  rust "map.insert(" ++ (r.1 ++ (rust "," ++ (rust "lrp::grammar::Rule::new(" ++ (r.1 ++ (rust ", vec![" ++
    (prodsToks r.2 ++ (rust "]" ++ rust "));")))))))

/-- What is read of a rule. -/
def readOf (src : Text) (r : Text × RuleBuild) : List Tok × List (List (List Tok)) :=
  (toksOf r.1, r.2.map (fun p => p.production.map (fun i => toksOf (textOf src i))))

theorem ruleText_lexes {src : Text} {r : Text × RuleBuild} (hn : Closed r.1)
    (h : ∀ p ∈ r.2, ∀ i ∈ p.production, InSrc src i)
    (hc : ∀ p ∈ r.2, ∀ i ∈ p.production, Closed (textOf src i)) :
    ∃ t, ruleText src r = .ok t ∧ Lexes t (ruleToks (readOf src r)) := by
  obtain ⟨t, ht, hl⟩ := productionsText_lexes h hc
  refine ⟨ascii "\tmap.insert(" ++ r.1 ++ ascii ", lrp::grammar::Rule::new(" ++ r.1 ++ ascii ", vec![\n" ++ t ++
    ascii "\n\t]));\n", ?_, ?_⟩
  · unfold ruleText
    rw [ht]
    rfl
  · have l1 : Lexes (ascii "\tmap.insert(") (rust "map.insert(") := by decide +kernel
    have l2 : Lexes (ascii ", lrp::grammar::Rule::new(") (rust "," ++ rust "lrp::grammar::Rule::new(") := by
      decide +kernel
    have b2 : Breaks (ascii ", lrp::grammar::Rule::new(") := breaks_of (by decide +kernel)
    have l3 : Lexes (ascii ", vec![\n") (rust ", vec![") := by decide +kernel
    have b3 : Breaks (ascii ", vec![\n") := breaks_of (by decide +kernel)
    have l4 : Lexes (ascii "\n\t]));\n") (rust "]" ++ rust "));") := by decide +kernel
    have := l1.append (Lexes.name hn (b2.append _) (l2.append (Lexes.name hn (b3.append _)
      (l3.append (hl.append l4)))))
    simpa only [List.append_assoc, ruleToks, readOf] using this

theorem eachText_lexes {f : Text × RuleBuild → Out Text} {g : Text × RuleBuild → List Tok} :
    ∀ {rs : List (Text × RuleBuild)}, (∀ r ∈ rs, ∃ t, f r = .ok t ∧ Lexes t (g r)) →
      ∃ t, eachText f rs = .ok t ∧ Lexes t (rs.flatMap g)
  | [], _ => ⟨[], rfl, .nil⟩
  | r :: rs, h => by
    obtain ⟨t, ht, hl⟩ := eachText_lexes (fun j hj => h j (List.mem_cons_of_mem _ hj))
    obtain ⟨s, hs, hl'⟩ := h r (List.mem_cons_self ..)
    refine ⟨s ++ t, ?_, ?_⟩
    · unfold eachText
      rw [hs, ht]
      rfl
    · exact hl'.append hl

theorem readRules_toks : ∀ {rs : List (List Tok × List (List (List Tok)))} {n : Nat},
    (∀ r ∈ rs, Tok.char 44 ∉ r.1 ∧ ∀ p ∈ r.2, ∀ u ∈ p, Free [44, 93] u) →
    (rs.flatMap ruleToks).length < n → readRules n (rs.flatMap ruleToks ++ rust "map }") = some rs
  | [], 0, _, hn => by simp at hn
  | [], n + 1, _, _ => by simp [readRules]
  | r :: rs, 0, _, hn => by simp at hn
  | r :: rs, n + 1, h, hn => by
    obtain ⟨h1, h2⟩ := h r (List.mem_cons_self ..)
    have ec : rust "," = [.char 44] := by decide +kernel
    have es : (r :: rs).flatMap ruleToks ++ rust "map }" = rust "map.insert(" ++ (r.1 ++ (.char 44 ::
        (rust "lrp::grammar::Rule::new(" ++ (r.1 ++ (rust ", vec![" ++ (prodsToks r.2 ++ (rust "]" ++
        (rust "));" ++ (rs.flatMap ruleToks ++ rust "map }"))))))))) := by
      simp [ruleToks, ec]
    have el : ((r :: rs).flatMap ruleToks).length = (rust "map.insert(").length + r.1.length +
        (rust ",").length + (rust "lrp::grammar::Rule::new(").length + r.1.length + (rust ", vec![").length +
        (prodsToks r.2).length + (rust "]").length + (rust "));").length + (rs.flatMap ruleToks).length := by
      simp [ruleToks]; omega
    have hlen : (rust "map.insert(").length = 4 := by decide +kernel
    have ih := readRules_toks (rs := rs) (n := n) (fun v hv => h v (List.mem_cons_of_mem _ hv)) (by omega)
    have hp := readProds_toks (rest := rust "));" ++ (rs.flatMap ruleToks ++ rust "map }")) (ps := r.2)
      (n := n) h2 (by omega)
    have hne : ∀ x, rust "map.insert(" ++ x ≠ rust "map }" := by
      intro x e
      have e1 : rust "map.insert(" = [.word (ascii "map"), .char 46, .word (ascii "insert"), .char 40] := by
        decide +kernel
      have e2 : rust "map }" = [.word (ascii "map"), .char 125] := by decide +kernel
      rw [e1, e2] at e
      simp at e
    rw [es, readRules, if_neg (hne _)]
    simp [expect_append, upTo_append _ h1, hp, ih]

/-- The text of `dump_grammar` is read as it should be. -/
theorem grammarText_read {src : Text} {imports : List Span} {rules : List (Text × RuleBuild)}
    (hi : ∀ i ∈ imports, InSrc src i)
    (hi' : ∀ i ∈ imports, Closed (textOf src i) ∧ Tok.char 59 ∉ toksOf (textOf src i))
    (hn : ∀ r ∈ rules, Closed r.1 ∧ Tok.char 44 ∉ toksOf r.1)
    (hr : ∀ r ∈ rules, ∀ p ∈ r.2, ∀ i ∈ p.production, InSrc src i)
    (hr' : ∀ r ∈ rules, ∀ p ∈ r.2, ∀ i ∈ p.production,
      Closed (textOf src i) ∧ Free [44, 93] (toksOf (textOf src i))) :
    ∃ t, grammarText src imports rules = .ok t ∧ readGrammar t =
      some (imports.map (fun i => toksOf (textOf src i)), rules.map (readOf src)) ∧
      Lexes t (rust "{" ++ (usesToks (imports.map (fun i => toksOf (textOf src i))) ++
        (rust "let mut map = lrp::RuleMap::new();" ++
          ((rules.map (readOf src)).flatMap ruleToks ++ rust "map }")))) := by
  obtain ⟨s, hs, hl⟩ := importsText_lexes hi (fun i h => (hi' i h).1)
  obtain ⟨t, ht, hl'⟩ := eachText_lexes (f := ruleText src) (g := fun r => ruleToks (readOf src r))
    (rs := rules) (fun r h => ruleText_lexes (hn r h).1 (hr r h) (fun p hp i hi => (hr' r h p hp i hi).1))
  have e1 : rules.flatMap (fun r => ruleToks (readOf src r)) = (rules.map (readOf src)).flatMap ruleToks := by
    rw [List.flatMap_map]
  rw [e1] at hl'
  refine ⟨ascii "{\n" ++ s ++ ascii "\tlet mut map = lrp::RuleMap::new();\n" ++ t ++ ascii "\n\tmap\n}",
    by unfold grammarText; rw [hs, ht]; rfl, ?_⟩
  have l1 : Lexes (ascii "{\n") (rust "{") := by decide +kernel
  have l2 : Lexes (ascii "\tlet mut map = lrp::RuleMap::new();\n")
    (rust "let mut map = lrp::RuleMap::new();") := by decide +kernel
  have l3 : Lexes (ascii "\n\tmap\n}") (rust "map }") := by decide +kernel
  have hL := l1.append (hl.append (l2.append (hl'.append l3)))
  simp only [List.append_assoc, Out.ok_bind] at hL ⊢
  refine ⟨?_, hL⟩
  unfold readGrammar readGrammarToks
  rw [hL.toksOf]
  have hu := readUses_toks (rest := rust "let mut map = lrp::RuleMap::new();" ++
    ((rules.map (readOf src)).flatMap ruleToks ++ rust "map }")) (expect_none (by decide +kernel) (by decide +kernel) _)
    (us := imports.map (fun i => toksOf (textOf src i)))
    (n := (usesToks (imports.map (fun i => toksOf (textOf src i))) ++
      (rust "let mut map = lrp::RuleMap::new();" ++
        ((rules.map (readOf src)).flatMap ruleToks ++ rust "map }"))).length + 1) (by
      intro u hu
      obtain ⟨i, hi, rfl⟩ := List.mem_map.mp hu
      exact (hi' i hi).2) (by
      have := usesToks_length (imports.map (fun i => toksOf (textOf src i)))
      rw [List.length_append]
      omega)
  have hrs := readRules_toks (rs := rules.map (readOf src))
    (n := ((rules.map (readOf src)).flatMap ruleToks ++ rust "map }").length + 1) (by
      intro r hr1
      obtain ⟨r', h', rfl⟩ := List.mem_map.mp hr1
      refine ⟨(hn r' h').2, ?_⟩
      intro p hp u hu
      simp only [readOf, List.mem_map] at hp
      obtain ⟨p', hp', rfl⟩ := hp
      obtain ⟨i, hi, rfl⟩ := List.mem_map.mp hu
      exact (hr' r' h' p' hp' i hi).2) (by rw [List.length_append]; omega)
  simp only [expect_append, Option.bind_eq_bind, Option.bind_some]
  rw [hu]
  simp only [Option.bind_some, expect_append]
  rw [hrs]
  rfl

/-! ### The statements -/

/-- The tokens of an access. -/
def accessToks : Access → List Tok
  | .one i => rust "toks[" ++ (.word (decimal i) :: rust "]")
  | .range i j => rust "toks[" ++ (.word (decimal i) :: (rust ".." ++ (.word (decimal j) :: rust "]")))

/-- The tokens of the right side of a `let`, without `Some`. -/
def formToks : Form → Access → List Tok
  | .ref, a => rust "&" ++ accessToks a
  | .clone, a => accessToks a ++ rust ".clone()"
  | .toVec, a => accessToks a ++ rust ".to_vec()"

/-- The tokens of the right side of a `let`. -/
def rhsToks (r : Rhs) : List Tok :=
  if r.wrapped then rust "Some(" ++ (formToks r.form r.access ++ rust ")") else formToks r.form r.access

/-- The tokens of a `let`. -/
def letToks (l : Let) : List Tok :=
  if l.reset then
    rust "let" ++ (rust "mut" ++ (.word l.name :: (rust "=" ++ (rhsToks l.rhs ++
      (rust ";" ++ .word l.name :: rust "= None; let" ++ .word l.name :: rust "=" ++ .word l.name :: rust ";")))))
  else rust "let" ++ (.word l.name :: (rust "=" ++ (rhsToks l.rhs ++ rust ";")))

/-- The `let` that is written for an alias. -/
def letOf (a : ItemAlias) (name : Text) : Let :=
  { name := name
    rhs := { wrapped := a.optional.isSome
             form := if a.clone then (match a.finalIndex with | none => .clone | some _ => .toVec) else .ref
             access := match a.optional, a.finalIndex with
               | some false, _ => .one 0
               | _, none => .one a.index
               | _, some j => .range a.index j }
    reset := decide (a.optional = some false) }

theorem lexes_word {w b : Text} {y : List Tok} (hw : IsWord w) (hb : Breaks b) (h : Lexes b y) :
    Lexes (w ++ b) (.word w :: y) := by
  have := Lexes.name hw.closed hb h
  rwa [hw.toksOf] at this

/-- The tokens of an index, in brackets. -/
theorem index_lexes (a : ItemAlias) {b : Text} {y : List Tok} (hb : Breaks b) (h : Lexes b y) :
    Lexes (a.indexText ++ b) ((match a.finalIndex with
      | none => [Tok.word (decimal a.index)]
      | some j => .word (decimal a.index) :: (rust ".." ++ [.word (decimal j)])) ++ y) := by
  unfold ItemAlias.indexText
  cases a.finalIndex with
  | none => exact lexes_word (decimal_isWord _) hb h
  | some j =>
    have l1 : Lexes (ascii "..") (rust "..") := by decide +kernel
    have b1 : Breaks (ascii "..") := breaks_of (by decide +kernel)
    have := lexes_word (decimal_isWord a.index) (b1.append _)
      (l1.append (lexes_word (decimal_isWord j) hb h))
    simpa only [List.append_assoc, List.cons_append, List.nil_append] using this

/-- The right side, with any index. -/
theorem form_lexes (a : ItemAlias) (acc : Access) (index : Text) (it : List Tok)
    (hi : ∀ {b : Text} {y : List Tok}, Breaks b → Lexes b y → Lexes (index ++ b) (it ++ y))
    (hacc : accessToks acc = rust "toks[" ++ (it ++ rust "]")) {b : Text} {y : List Tok}
    (h : Lexes b y) : Lexes (a.prefixText ++ (index ++ (a.suffixText ++ b)))
      (formToks (if a.clone then (match a.finalIndex with | none => .clone | some _ => .toVec) else .ref)
        acc ++ y) := by
  unfold ItemAlias.prefixText ItemAlias.suffixText
  have p1 : Lexes (ascii "toks[") (rust "toks[") := by decide +kernel
  have p2 : Lexes (ascii "&toks[") (rust "&" ++ rust "toks[") := by decide +kernel
  have s1 : Lexes (ascii "].clone()") (rust "]" ++ rust ".clone()") := by decide +kernel
  have s2 : Lexes (ascii "].to_vec()") (rust "]" ++ rust ".to_vec()") := by decide +kernel
  have s3 : Lexes (ascii "]") (rust "]") := by decide +kernel
  have b1 : Breaks (ascii "].clone()") := breaks_of (by decide +kernel)
  have b2 : Breaks (ascii "].to_vec()") := breaks_of (by decide +kernel)
  have b3 : Breaks (ascii "]") := breaks_of (by decide +kernel)
  cases a.clone with
  | false =>
    have := p2.append (hi (b3.append _) (s3.append h))
    simpa only [Bool.false_eq_true, if_false, formToks, hacc, List.append_assoc] using this
  | true =>
    cases a.finalIndex with
    | none =>
      have := p1.append (hi (b1.append _) (s1.append h))
      simpa only [if_true, formToks, hacc, List.append_assoc] using this
    | some j =>
      have := p1.append (hi (b2.append _) (s2.append h))
      simpa only [if_true, formToks, hacc, List.append_assoc] using this

theorem letText_lexes (a : ItemAlias) {name : Text} (hn : IsWord name) :
    Lexes (a.letText name) (letToks (letOf a name)) := by
  have l1 : Lexes (ascii "let ") (rust "let") := by decide +kernel
  have l2 : Lexes (ascii " = Some(") (rust "=" ++ rust "Some(") := by decide +kernel
  have b2 : Breaks (ascii " = Some(") := breaks_of (by decide +kernel)
  have l3 : Lexes (ascii ");\n") (rust ")" ++ rust ";") := by decide +kernel
  have l4 : Lexes (ascii "let mut ") (rust "let" ++ rust "mut") := by decide +kernel
  have l5 : Lexes (ascii "); ") (rust ")" ++ rust ";") := by decide +kernel
  have l6 : Lexes (ascii " = None; let ") (rust "= None; let") := by decide +kernel
  have b6 : Breaks (ascii " = None; let ") := breaks_of (by decide +kernel)
  have l7 : Lexes (ascii " = ") (rust "=") := by decide +kernel
  have b7 : Breaks (ascii " = ") := breaks_of (by decide +kernel)
  have l8 : Lexes (ascii ";\n") (rust ";") := by decide +kernel
  have b8 : Breaks (ascii ";\n") := breaks_of (by decide +kernel)
  have z0 : decimal 0 = ascii "0" := by decide +kernel
  have hacc : ∀ o, o ≠ some false →
      accessToks (letOf { a with optional := o } name).rhs.access = rust "toks[" ++ ((match a.finalIndex with
      | none => [Tok.word (decimal a.index)]
      | some j => .word (decimal a.index) :: (rust ".." ++ [.word (decimal j)])) ++ rust "]") := by
    intro o ho
    rcases o with _ | _ | _
    · cases hf : a.finalIndex <;> simp [letOf, accessToks, hf]
    · exact absurd rfl ho
    · cases hf : a.finalIndex <;> simp [letOf, accessToks, hf]
  have hzero : ∀ {b : Text} {y : List Tok}, Breaks b → Lexes b y →
      Lexes (ascii "0" ++ b) ([.word (decimal 0)] ++ y) := by
    intro b y hb h
    rw [← z0]
    exact lexes_word (decimal_isWord 0) hb h
  obtain ⟨al, o, ix, fx, c⟩ := a
  rcases o with _ | _ | _
  · have := l1.append (lexes_word hn (b7.append _) (l7.append
      (form_lexes ⟨al, none, ix, fx, c⟩ _ _ _ (index_lexes ⟨al, none, ix, fx, c⟩) (hacc none (by simp)) l8)))
    simpa only [ItemAlias.letText, letToks, letOf, rhsToks, Option.isSome_none, Bool.false_eq_true, if_false,
      reduceCtorEq, decide_false, List.append_assoc, List.cons_append, List.nil_append] using this
  · have := l4.append (lexes_word hn (b2.append _) (l2.append
      (form_lexes ⟨al, some false, ix, fx, c⟩ (.one 0) _ _ hzero (by simp [accessToks])
        (l5.append (lexes_word hn (b6.append _) (l6.append (lexes_word hn (b7.append _)
          (l7.append (lexes_word hn b8 l8)))))))))
    simpa only [ItemAlias.letText, letToks, letOf, rhsToks, Option.isSome_some, if_true, decide_true,
      List.append_assoc, List.cons_append, List.nil_append] using this
  · have := l1.append (lexes_word hn (b2.append _) (l2.append
      (form_lexes ⟨al, some true, ix, fx, c⟩ _ _ _ (index_lexes ⟨al, some true, ix, fx, c⟩)
        (hacc (some true) (by simp)) l3)))
    simpa only [ItemAlias.letText, letToks, letOf, rhsToks, Option.isSome_some, if_true, Bool.false_eq_true,
      if_false, reduceCtorEq, Option.some.injEq, Bool.true_eq_false, decide_false, List.append_assoc,
      List.cons_append, List.nil_append] using this

theorem expect_head {p t : Tok} (h : p ≠ t) (ps ts : List Tok) : expect (p :: ps) (t :: ts) = none := by
  simp [expect, h]

theorem readAccess_toks (a : Access) (rest : List Tok) : readAccess (accessToks a ++ rest) = some (a, rest) := by
  have e1 : rust ".." = [.char 46, .char 46] := by decide +kernel
  have e2 : rust "]" = [.char 93] := by decide +kernel
  unfold readAccess
  cases a with
  | one i => simp [accessToks, expect_append, readNat_decimal, e1, e2, expect]
  | range i j =>
    simp only [accessToks, List.append_assoc, List.cons_append, expect_append, Option.bind_eq_bind,
      Option.bind_some, readNat_decimal]
    rfl

theorem accessToks_head (a : Access) : ∃ r, accessToks a = .word (ascii "toks") :: r := by
  have e : rust "toks[" = [.word (ascii "toks"), .char 91] := by decide +kernel
  cases a <;> simp [accessToks, e]

theorem readForm_toks (f : Form) (a : Access) (rest : List Tok) :
    readForm (formToks f a ++ rest) = some (f, a, rest) := by
  have e1 : rust "&" = [.char 38] := by decide +kernel
  unfold readForm
  have hno : ∀ x, expect (rust "&") (accessToks a ++ x) = none := by
    intro x
    obtain ⟨r, hr⟩ := accessToks_head a
    rw [hr, e1]
    simp [expect]
  cases f with
  | ref => simp [formToks, expect_append, readAccess_toks]
  | clone => simp [formToks, hno, expect_append, readAccess_toks]
  | toVec =>
    have : ∀ r, expect (rust ".clone()") (rust ".to_vec()" ++ r) = none :=
      expect_none (by decide +kernel) (by decide +kernel)
    simp [formToks, hno, expect_append, readAccess_toks, this]

theorem readRhs_toks (r : Rhs) (rest : List Tok) : readRhs (rhsToks r ++ rest) = some (r, rest) := by
  obtain ⟨w, f, a⟩ := r
  unfold readRhs rhsToks
  cases w with
  | true => simp [expect_append, readForm_toks]
  | false =>
    have e1 : rust "Some(" = [.word (ascii "Some"), .char 40] := by decide +kernel
    have hno : ∀ x, expect (rust "Some(") (formToks f a ++ x) = none := by
      intro x
      obtain ⟨r, hr⟩ := accessToks_head a
      have hne : ascii "Some" ≠ ascii "toks" := by decide +kernel
      have e2 : rust "&" = [.char 38] := by decide +kernel
      cases f <;> simp [formToks, hr, e1, e2, expect, hne]
    simp [hno, readForm_toks]

theorem readLet_toks {l : Let} (h : l.name ≠ ascii "mut") (rest : List Tok) :
    readLet (letToks l ++ rest) = some (l, rest) := by
  obtain ⟨x, r, e⟩ := l
  unfold readLet letToks
  cases e with
  | true =>
    simp only [if_true, List.append_assoc, List.cons_append, expect_append, Option.bind_eq_bind,
      Option.bind_some, readWord, readRhs_toks]
    have := expect_append (rust ";" ++ .word x :: rust "= None; let" ++ .word x :: rust "=" ++ .word x :: rust ";") rest
    simp only [List.append_assoc, List.cons_append] at this
    rw [this]
    rfl
  | false =>
    have e1 : rust "mut" = [.word (ascii "mut")] := by decide +kernel
    have hno : ∀ y, expect (rust "mut") (.word x :: y) = none := by
      intro y
      rw [e1]
      exact expect_head (fun e => h (Tok.word.inj e).symm) _ _
    simp only [Bool.false_eq_true, if_false, List.append_assoc, List.cons_append, expect_append,
      Option.bind_eq_bind, Option.bind_some, hno, readWord, readRhs_toks]
    rfl

theorem readLets_toks : ∀ {ls : List Let}, (∀ l ∈ ls, l.name ≠ ascii "mut") → ∀ rest,
    readLets ls.length (ls.flatMap letToks ++ rest) = some (ls, rest)
  | [], _, rest => rfl
  | l :: ls, h, rest => by
    simp only [List.flatMap_cons, List.append_assoc, List.length_cons, readLets,
      readLet_toks (h l (List.mem_cons_self ..)), Option.bind_eq_bind, Option.bind_some,
      readLets_toks (fun m hm => h m (List.mem_cons_of_mem _ hm))]
    rfl

/-- The `let`s of a production. -/
def letsOf (src : Text) (as : List ItemAlias) : List Let := as.map (fun a => letOf a (textOf src a.alias))

theorem letsText_lexes {src : Text} : ∀ {as : List ItemAlias}, (∀ a ∈ as, InSrc src a.alias) →
    (∀ a ∈ as, IsWord (textOf src a.alias)) →
    ∃ t, letsText src as = .ok t ∧ Lexes t ((letsOf src as).flatMap letToks)
  | [], _, _ => ⟨[], rfl, .nil⟩
  | a :: as, h, hc => by
    obtain ⟨t, ht, hl⟩ := letsText_lexes (fun j hj => h j (List.mem_cons_of_mem _ hj))
      (fun j hj => hc j (List.mem_cons_of_mem _ hj))
    refine ⟨a.letText (textOf src a.alias) ++ t, ?_, ?_⟩
    · unfold letsText ItemAlias.dump
      rw [slice_ok (h a (List.mem_cons_self ..)), ht]
      rfl
    · exact (letText_lexes a (hc a (List.mem_cons_self ..))).append hl

/-! ### Braces -/

theorem balance_append : ∀ {a b : List Tok} {d e : Nat}, balance d a = some e →
    balance d (a ++ b) = balance e b
  | [], b, d, e, h => by
    simp only [balance, Option.some.injEq] at h
    rw [h]; rfl
  | t :: a, b, d, e, h => by
    simp only [balance, List.cons_append] at h ⊢
    split
    · rename_i ht
      rw [if_pos ht] at h
      exact balance_append h
    · rename_i ht
      rw [if_neg ht] at h
      split
      · rename_i ht'
        rw [if_pos ht'] at h
        cases d with
        | zero => cases h
        | succ d => exact balance_append h
      · rename_i ht'
        rw [if_neg ht'] at h
        exact balance_append h

theorem balance_free : ∀ {a : List Tok} (d : Nat), Free [123, 125] a → balance d a = some d
  | [], d, _ => rfl
  | t :: a, d, h => by
    have h1 : t ≠ .char 123 := fun e => h 123 (by simp) (by simp [e])
    have h2 : t ≠ .char 125 := fun e => h 125 (by simp) (by simp [e])
    simp only [balance, if_neg h1, if_neg h2]
    exact balance_free d (fun c hc hm => h c hc (List.mem_cons_of_mem _ hm))

theorem upToBrace_append : ∀ {u : List Tok} {d : Nat} (ts : List Tok), balance d u = some 0 →
    upToBrace d (u ++ .char 125 :: ts) = some (u, ts)
  | [], d, ts, h => by
    simp only [balance, Option.some.injEq] at h
    subst h
    simp [upToBrace]
  | t :: u, d, ts, h => by
    simp only [balance] at h
    have step : ∀ e, balance e u = some 0 →
        (if t = .char 123 then d + 1 else if t = .char 125 then d - 1 else d) = e →
        ¬ (t = .char 125 ∧ d = 0) → upToBrace d (t :: u ++ .char 125 :: ts) = some (t :: u, ts) := by
      intro e he hd hn
      rw [List.cons_append, upToBrace, if_neg hn, hd, upToBrace_append ts he]
    split at h
    · rename_i ht
      exact step (d + 1) h (by rw [if_pos ht]) (by rw [ht]; simp)
    · rename_i ht
      split at h
      · rename_i ht'
        cases d with
        | zero => cases h
        | succ d => exact step d h (by rw [if_neg ht, if_pos ht']; rfl) (by simp)
      · rename_i ht'
        exact step d h (by rw [if_neg ht, if_neg ht']) (fun e => ht' e.1)

theorem free_append {cs : List Nat} {a b : List Tok} (h : Free cs a) (h' : Free cs b) : Free cs (a ++ b) := by
  intro c hc hm
  rcases List.mem_append.mp hm with hm | hm
  · exact h c hc hm
  · exact h' c hc hm

theorem free_word {cs : List Nat} {w : Text} {a : List Tok} (h : Free cs a) : Free cs (.word w :: a) := by
  intro c hc hm
  rcases List.mem_cons.mp hm with hm | hm
  · cases hm
  · exact h c hc hm

theorem free_of {cs : List Nat} {a : List Tok} (h : cs.all (fun c => decide (Tok.char c ∉ a)) = true) :
    Free cs a := by
  intro c hc
  exact of_decide_eq_true (List.all_eq_true.mp h c hc)

theorem free_access (a : Access) : Free [123, 125] (accessToks a) := by
  cases a with
  | one i => exact free_append (free_of (by decide +kernel)) (free_word (free_of (by decide +kernel)))
  | range i j =>
    exact free_append (free_of (by decide +kernel)) (free_word (free_append (free_of (by decide +kernel))
      (free_word (free_of (by decide +kernel)))))

theorem free_rhs (r : Rhs) : Free [123, 125] (rhsToks r) := by
  have hf : Free [123, 125] (formToks r.form r.access) := by
    cases r.form with
    | ref => exact free_append (free_of (by decide +kernel)) (free_access _)
    | clone => exact free_append (free_access _) (free_of (by decide +kernel))
    | toVec => exact free_append (free_access _) (free_of (by decide +kernel))
  unfold rhsToks
  split
  · exact free_append (free_of (by decide +kernel)) (free_append hf (free_of (by decide +kernel)))
  · exact hf

theorem free_let (l : Let) : Free [123, 125] (letToks l) := by
  unfold letToks
  have h1 : Free [123, 125] (rust "let") := free_of (by decide +kernel)
  have h2 : Free [123, 125] (rust "mut") := free_of (by decide +kernel)
  have h3 : Free [123, 125] (rust "=") := free_of (by decide +kernel)
  have h4 : Free [123, 125] (rust ";") := free_of (by decide +kernel)
  have h5 : Free [123, 125] (rust "= None; let") := free_of (by decide +kernel)
  split
  · refine free_append h1 (free_append h2 (free_word (free_append h3 (free_append (free_rhs _) ?_))))
    simp only [List.append_assoc, List.cons_append]
    exact free_append h4 (free_word (free_append h5 (free_word (free_append h3 (free_word h4)))))
  · exact free_append h1 (free_word (free_append h3 (free_append (free_rhs _) h4)))

theorem free_lets (ls : List Let) : Free [123, 125] (ls.flatMap letToks) := by
  induction ls with
  | nil => intro c _ h; cases h
  | cons l ls ih => exact free_append (free_let l) ih

/-! ### The reductors -/

/-- The code of a block: without the two bytes at its start and the one at its end. -/
def codeOf (src : Text) (p : ProductionBuild) : Text := ((textOf src p.codeblock).drop 2).dropLast

/-- The function of a production. -/
def fnOf (src entry name ty : Text) (i : Nat) (p : ProductionBuild) : Fn :=
  { name := fnName name i, entry := toksOf entry, ty := toksOf ty
    body := (letsOf src p.aliases).flatMap letToks ++ toksOf (codeOf src p) }

/-- The functions of a rule. -/
def fnsOf (src entry name ty : Text) : Nat → RuleBuild → List Fn
  | _, [] => []
  | i, p :: ps => fnOf src entry name ty i p :: fnsOf src entry name ty (i + 1) ps

/-- The tokens of a function. -/
def fnToks (f : Fn) : List Tok :=
  rust "fn" ++ (.word f.name :: (rust "(toks: &[" ++ (f.entry ++ (rust "]" ++ (rust ") -> lrp::Meta<" ++
    (f.ty ++ (rust ">" ++ (rust "{ lrp::Meta::new({" ++ (f.body ++ (rust "}" ++
      rust ", lrp::Span::new(toks[0].item.span.start, toks.last().unwrap().item.span.end)) }"))))))))))

/-- What the text of a production must be like so that it can be read. -/
structure ProdOk (src : Text) (p : ProductionBuild) : Prop where
  inside : ∀ a ∈ p.aliases, InSrc src a.alias
  word : ∀ a ∈ p.aliases, IsWord (textOf src a.alias) ∧ textOf src a.alias ≠ ascii "mut"
  block : InSrc src p.codeblock
  strip : stripBlock (textOf src p.codeblock) = .ok (codeOf src p)
  closed : Closed (codeOf src p)
  balanced : balance 0 (toksOf (codeOf src p)) = some 0

theorem functionsText_lexes {src entry name ty : Text} (he : Closed entry) (hn : IsWord name)
    (ht : Closed ty) : ∀ {ps : RuleBuild} (i : Nat), (∀ p ∈ ps, ProdOk src p) →
    ∃ t, functionsText src entry name ty i ps = .ok t ∧
      Lexes t ((fnsOf src entry name ty i ps).flatMap fnToks)
  | [], i, _ => ⟨[], rfl, .nil⟩
  | p :: ps, i, h => by
    obtain ⟨t, ht', hl⟩ := functionsText_lexes he hn ht (i + 1)
      (fun j hj => h j (List.mem_cons_of_mem _ hj))
    have hp := h p (List.mem_cons_self ..)
    obtain ⟨s, hs, hl'⟩ := letsText_lexes hp.inside (fun a ha => (hp.word a ha).1)
    refine ⟨ascii "\tfn " ++ fnName name i ++ ascii "(toks: &[" ++ entry ++ ascii "]) -> lrp::Meta<" ++ ty ++
      ascii "> {\n\t\tlrp::Meta::new({ " ++ s ++ ascii " " ++ codeOf src p ++
      ascii "}, lrp::Span::new(toks[0].item.span.start, toks.last().unwrap().item.span.end))\n\t}\n" ++ t,
      ?_, ?_⟩
    · unfold functionsText
      rw [hs, slice_ok hp.block, ht']
      simp only [Out.ok_bind]
      rw [hp.strip]
      rfl
    · have l1 : Lexes (ascii "\tfn ") (rust "fn") := by decide +kernel
      have l2 : Lexes (ascii "(toks: &[") (rust "(toks: &[") := by decide +kernel
      have b2 : Breaks (ascii "(toks: &[") := breaks_of (by decide +kernel)
      have l3 : Lexes (ascii "]) -> lrp::Meta<") (rust "]" ++ rust ") -> lrp::Meta<") := by decide +kernel
      have b3 : Breaks (ascii "]) -> lrp::Meta<") := breaks_of (by decide +kernel)
      have l4 : Lexes (ascii "> {\n\t\tlrp::Meta::new({ ") (rust ">" ++ rust "{ lrp::Meta::new({") := by
        decide +kernel
      have b4 : Breaks (ascii "> {\n\t\tlrp::Meta::new({ ") := breaks_of (by decide +kernel)
      have l5 : Lexes (ascii " ") [] := by decide +kernel
      have l6 : Lexes (ascii "}, lrp::Span::new(toks[0].item.span.start, toks.last().unwrap().item.span.end))\n\t}\n")
          (rust "}" ++
            rust ", lrp::Span::new(toks[0].item.span.start, toks.last().unwrap().item.span.end)) }") := by
        decide +kernel
      have b6 : Breaks
          (ascii "}, lrp::Span::new(toks[0].item.span.start, toks.last().unwrap().item.span.end))\n\t}\n") :=
        breaks_of (by decide +kernel)
      have := l1.append (lexes_word (fnName_isWord hn i) (b2.append _) (l2.append (Lexes.name he (b3.append _)
        (l3.append (Lexes.name ht (b4.append _) (l4.append (hl'.append (l5.append
          (Lexes.name hp.closed (b6.append _) (l6.append hl))))))))))
      simpa only [fnsOf, List.flatMap_cons, fnToks, fnOf, List.append_assoc, List.cons_append,
        List.nil_append] using this

theorem fnNamesText_lexes {name : Text} (hn : IsWord name) : ∀ (i n : Nat),
    Lexes (fnNamesText name i n) (itemsToks ((List.range' i n).map (fun k => [.word (fnName name k)])))
  | i, 0 => .nil
  | i, n + 1 => by
    have l2 : Lexes (ascii ", ") (rust ",") := by decide +kernel
    have b2 : Breaks (ascii ", ") := breaks_of (by decide +kernel)
    have := lexes_word (fnName_isWord hn i) (b2.append _) (l2.append (fnNamesText_lexes hn (i + 1) n))
    simpa only [fnNamesText, List.range'_succ, List.map_cons, itemsToks, List.flatMap_cons, List.append_assoc,
      List.cons_append, List.nil_append] using this

/-- The tokens of what the block does. -/
def actToks : Stmt → List Tok
  | .define f => fnToks f
  | .insert name fns => rust "map.insert(" ++ (name ++ (rust "," ++ (rust "vec![" ++
      (itemsToks (fns.map (fun w => [.word w])) ++ (rust "]" ++ rust ");")))))

/-- The type of the values of a rule. -/
def tyOf (src : Text) (r : RuleBuild) : Text := (r.head?.map (fun p => textOf src p.ty)).getD []

/-- What is done for a rule. -/
def actsOf (src entry : Text) (r : Text × RuleBuild) : List Stmt :=
  (fnsOf src entry r.1 (tyOf src r.2) 0 r.2).map .define ++
    [.insert (toksOf r.1) ((List.range' 0 r.2.length).map (fnName r.1))]

theorem reductionText_lexes {src entry : Text} {r : Text × RuleBuild} (he : Closed entry) (hn : IsWord r.1)
    (h0 : r.2 ≠ []) (hty : ∀ p ∈ r.2, InSrc src p.ty ∧ Closed (textOf src p.ty))
    (h : ∀ p ∈ r.2, ProdOk src p) :
    ∃ t, reductionText src entry r = .ok t ∧ Lexes t ((actsOf src entry r).flatMap actToks) := by
  obtain ⟨name, ps⟩ := r
  cases ps with
  | nil => exact absurd rfl h0
  | cons p ps =>
    have hp := hty p (List.mem_cons_self ..)
    obtain ⟨t, ht, hl⟩ := functionsText_lexes he hn hp.2 0 h
    refine ⟨t ++ ascii "\tmap.insert(" ++ name ++ ascii ", vec![" ++
      fnNamesText name 0 (p :: ps).length ++ ascii "\t]);\n\n", ?_, ?_⟩
    · unfold reductionText
      simp only [slice_ok hp.1, Out.ok_bind]
      simp only at ht
      rw [ht]
      rfl
    · have l1 : Lexes (ascii "\tmap.insert(") (rust "map.insert(") := by decide +kernel
      have l2 : Lexes (ascii ", vec![") (rust "," ++ rust "vec![") := by decide +kernel
      have b2 : Breaks (ascii ", vec![") := breaks_of (by decide +kernel)
      have l3 : Lexes (ascii "\t]);\n\n") (rust "]" ++ rust ");") := by decide +kernel
      have := hl.append (l1.append (Lexes.name hn.closed (b2.append _) (l2.append
        ((fnNamesText_lexes hn 0 (p :: ps).length).append l3))))
      have e : ∀ fs : List Fn, (fs.map Stmt.define).flatMap actToks = fs.flatMap fnToks := by
        intro fs
        induction fs with
        | nil => rfl
        | cons f fs ih => simp [actToks, ih]
      simpa only [actsOf, tyOf, List.flatMap_append, e, List.flatMap_cons, List.flatMap_nil, actToks,
        List.append_nil, List.append_assoc, List.map_map, Function.comp_def, List.head?_cons, Option.map_some,
        Option.getD_some] using this

theorem words_map (fns : List Text) : words (fns.map (fun w => [.word w])) = some fns := by
  induction fns with
  | nil => rfl
  | cons w fns ih => simp [words, ih]

theorem readFn_toks {f : Fn} (he : Tok.char 93 ∉ f.entry) (ht : Tok.char 62 ∉ f.ty)
    (hb : balance 0 f.body = some 0) (rest : List Tok) : readFn (fnToks f ++ rest) = some (f, rest) := by
  have e1 : rust "]" = [.char 93] := by decide +kernel
  have e2 : rust ">" = [.char 62] := by decide +kernel
  have e3 : rust "}" = [.char 125] := by decide +kernel
  obtain ⟨name, entry, ty, body⟩ := f
  simp only [fnToks, e1, e2, e3, List.append_assoc, List.cons_append, List.nil_append, readFn, expect_append,
    Option.bind_eq_bind, Option.bind_some, readWord]
  rw [upTo_append _ he]
  simp only [Option.bind_some, expect_append]
  rw [upTo_append _ ht]
  simp only [Option.bind_some, expect_append]
  rw [upToBrace_append _ hb]
  simp only [Option.bind_some, expect_append]
  rfl

/-- What can be read. -/
def ActOk : Stmt → Prop
  | .define f => Tok.char 93 ∉ f.entry ∧ Tok.char 62 ∉ f.ty ∧ balance 0 f.body = some 0
  | .insert name _ => Tok.char 44 ∉ name

theorem readActions_toks : ∀ {as : List Stmt} {n : Nat}, (∀ a ∈ as, ActOk a) →
    (as.flatMap actToks).length < n → readActions n (as.flatMap actToks ++ rust "map }") = some as
  | [], 0, _, hn => by simp at hn
  | [], n + 1, _, _ => by simp [readActions]
  | a :: as, 0, _, hn => by simp at hn
  | .define f :: as, n + 1, h, hn => by
    obtain ⟨h1, h2, h3⟩ := h _ (List.mem_cons_self ..)
    have el : ((Stmt.define f :: as).flatMap actToks).length = (fnToks f).length +
      (as.flatMap actToks).length := by simp [actToks]
    have el' : (fnToks f).length ≠ 0 := by
      have : (rust "fn").length = 1 := by decide +kernel
      simp only [fnToks, List.length_append]
      omega
    have ih := readActions_toks (as := as) (n := n) (fun v hv => h v (List.mem_cons_of_mem _ hv)) (by omega)
    have hne : ∀ x, fnToks f ++ x ≠ rust "map }" := by
      intro x e
      have e1 : rust "fn" = [.word (ascii "fn")] := by decide +kernel
      have e2 : rust "map }" = [.word (ascii "map"), .char 125] := by decide +kernel
      have e3 : ascii "fn" ≠ ascii "map" := by decide +kernel
      rw [fnToks, e1, e2] at e
      simp only [List.cons_append, List.cons.injEq, Tok.word.injEq] at e
      exact e3 e.1
    have ea : actToks (.define f) = fnToks f := rfl
    rw [List.flatMap_cons, List.append_assoc, ea, readActions, if_neg (hne _), readFn_toks h1 h2 h3]
    simp only [ih]
    rfl
  | .insert name fns :: as, n + 1, h, hn => by
    have h1 : Tok.char 44 ∉ name := h _ (List.mem_cons_self ..)
    have ec : rust "," = [.char 44] := by decide +kernel
    have es : (Stmt.insert name fns :: as).flatMap actToks ++ rust "map }" = rust "map.insert(" ++ (name ++
        (.char 44 :: (rust "vec![" ++ (itemsToks (fns.map (fun w => [.word w])) ++ (rust "]" ++
        (rust ");" ++ (as.flatMap actToks ++ rust "map }"))))))) := by
      simp [actToks, ec]
    have el : ((Stmt.insert name fns :: as).flatMap actToks).length = (rust "map.insert(").length +
        name.length + (rust ",").length + (rust "vec![").length +
        (itemsToks (fns.map (fun w => [Tok.word w]))).length + (rust "]").length + (rust ");").length +
        (as.flatMap actToks).length := by
      simp [actToks]; omega
    have hlen : (rust "map.insert(").length = 4 := by decide +kernel
    have ih := readActions_toks (as := as) (n := n) (fun v hv => h v (List.mem_cons_of_mem _ hv)) (by omega)
    have hit := readItems_toks (rest := rust ");" ++ (as.flatMap actToks ++ rust "map }"))
      (us := fns.map (fun w => [Tok.word w])) (n := n)
      (fun u hu c _ hm => by
        obtain ⟨w, _, rfl⟩ := List.mem_map.mp hu
        simp at hm)
      (by have := itemsToks_length (fns.map (fun w => [Tok.word w])); omega)
    have hne : ∀ x, rust "map.insert(" ++ x ≠ rust "map }" := by
      intro x e
      have e1 : rust "map.insert(" = [.word (ascii "map"), .char 46, .word (ascii "insert"), .char 40] := by
        decide +kernel
      have e2 : rust "map }" = [.word (ascii "map"), .char 125] := by decide +kernel
      rw [e1, e2] at e
      simp at e
    have hnf : ∀ x, readFn (rust "map.insert(" ++ x) = none := by
      intro x
      unfold readFn
      rw [expect_none (by decide +kernel) (by decide +kernel)]
      rfl
    rw [es, readActions, if_neg (hne _), hnf]
    simp [expect_append, upTo_append _ h1, hit, ih, words_map]

theorem readReductor_toks {us : List (List Tok)} {as : List Stmt} {t : Text}
    (hl : Lexes t (rust "{" ++ (usesToks us ++ (rust "let mut map = lrp::ReductMap::new();" ++
      (as.flatMap actToks ++ rust "map }")))))
    (hu : ∀ u ∈ us, Tok.char 59 ∉ u) (ha : ∀ a ∈ as, ActOk a) : readReductor t = some (us, as) := by
  unfold readReductor readReductorToks
  rw [hl.toksOf, expect_append]
  simp only [Option.bind_eq_bind, Option.bind_some]
  rw [readUses_toks (expect_none (by decide +kernel) (by decide +kernel) _) hu
    (by have := usesToks_length us; simp only [List.length_append]; omega)]
  simp only [Option.bind_some, expect_append]
  rw [readActions_toks ha (by simp only [List.length_append]; omega)]
  rfl

/-- The text of `dump_reductor` is read as it should be. -/
theorem reductorText_read {entry src : Text} {imports : List Span} {rules : List (Text × RuleBuild)}
    (h0 : entry ≠ []) (he : Closed entry ∧ Tok.char 93 ∉ toksOf entry)
    (hi : ∀ i ∈ imports, InSrc src i)
    (hi' : ∀ i ∈ imports, Closed (textOf src i) ∧ Tok.char 59 ∉ toksOf (textOf src i))
    (hn : ∀ r ∈ rules, IsWord r.1) (hne : ∀ r ∈ rules, r.2 ≠ [])
    (hty : ∀ r ∈ rules, ∀ p ∈ r.2, InSrc src p.ty ∧ Closed (textOf src p.ty) ∧
      Tok.char 62 ∉ toksOf (textOf src p.ty))
    (hp : ∀ r ∈ rules, ∀ p ∈ r.2, ProdOk src p) :
    ∃ t, reductorText entry src imports rules = .ok t ∧ readReductor t =
      some (imports.map (fun i => toksOf (textOf src i)), rules.flatMap (actsOf src entry)) ∧
      Lexes t (rust "{" ++ (usesToks (imports.map (fun i => toksOf (textOf src i))) ++
        (rust "let mut map = lrp::ReductMap::new();" ++
          ((rules.flatMap (actsOf src entry)).flatMap actToks ++ rust "map }")))) := by
  obtain ⟨is, his, hil⟩ := importsText_lexes hi (fun i h => (hi' i h).1)
  obtain ⟨t, ht, hl⟩ := eachText_lexes (f := reductionText src entry)
    (g := fun r => (actsOf src entry r).flatMap actToks) (rs := rules) (fun r hr =>
      reductionText_lexes he.1 (hn r hr) (hne r hr)
        (fun p h => ⟨(hty r hr p h).1, (hty r hr p h).2.1⟩) (hp r hr))
  refine ⟨ascii "{\n" ++ is ++ ascii "\tlet mut map = lrp::ReductMap::new();\n\n" ++ t ++ ascii "\tmap\n}",
    ?_, ?_⟩
  · unfold reductorText
    rw [if_neg h0, his, ht]
    rfl
  · have l1 : Lexes (ascii "{\n") (rust "{") := by decide +kernel
    have l2 : Lexes (ascii "\tlet mut map = lrp::ReductMap::new();\n\n")
      (rust "let mut map = lrp::ReductMap::new();") := by decide +kernel
    have l3 : Lexes (ascii "\tmap\n}") (rust "map }") := by decide +kernel
    have hL := l1.append (hil.append (l2.append (hl.append l3)))
    rw [← List.flatMap_assoc] at hL
    simp only [List.append_assoc] at hL ⊢
    refine ⟨readReductor_toks hL ?_ ?_, hL⟩
    · intro u hu
      obtain ⟨i, h, rfl⟩ := List.mem_map.mp hu
      exact (hi' i h).2
    · intro a ha
      obtain ⟨r, hr, ha⟩ := List.mem_flatMap.mp ha
      rcases List.mem_append.mp ha with ha | ha
      · obtain ⟨f, hf, rfl⟩ := List.mem_map.mp ha
        have hty' : Tok.char 62 ∉ toksOf (tyOf src r.2) := by
          unfold tyOf
          cases hr2 : r.2 with
          | nil => exact absurd hr2 (hne r hr)
          | cons p ps => exact (hty r hr p (by rw [hr2]; exact List.mem_cons_self ..)).2.2
        have : ∀ (ps : RuleBuild) (i : Nat), (∀ p ∈ ps, ProdOk src p) →
            f ∈ fnsOf src entry r.1 (tyOf src r.2) i ps → ActOk (.define f) := by
          intro ps
          induction ps with
          | nil => intro i _ h; cases h
          | cons p ps ih =>
            intro i hps h
            rcases List.mem_cons.mp h with rfl | h
            · refine ⟨he.2, hty', ?_⟩
              simp only [fnOf]
              rw [balance_append (balance_free 0 (free_lets _))]
              exact (hps p (List.mem_cons_self ..)).balanced
            · exact ih (i + 1) (fun q hq => hps q (List.mem_cons_of_mem _ hq)) h
        exact this r.2 0 (hp r hr) hf
      · rw [List.mem_singleton] at ha
        subst ha
        show Tok.char 44 ∉ toksOf r.1
        rw [(hn r hr).toksOf]
        simp

/-! ### Blocks -/

/-- The text is a block: its last brace closes the first. -/
def Block (t : Text) : Prop :=
  ∃ inner, Lexes t (rust "{" ++ (inner ++ rust "}")) ∧ balance 0 inner = some 0

theorem balance_nil {d : Nat} : balance d [] = some d := by simp [balance]

/-- Balanced pieces one after the other. -/
theorem balance_both {a b : List Tok} (ha : balance 0 a = some 0) (hb : balance 0 b = some 0) :
    balance 0 (a ++ b) = some 0 := by rw [balance_append ha, hb]

theorem balance_flatMap {α : Type} {f : α → List Tok} : ∀ {l : List α}, (∀ a ∈ l, balance 0 (f a) = some 0) →
    balance 0 (l.flatMap f) = some 0
  | [], _ => by simp [balance]
  | a :: l, h => by
    rw [List.flatMap_cons]
    exact balance_both (h a (List.mem_cons_self ..))
      (balance_flatMap (fun b hb => h b (List.mem_cons_of_mem _ hb)))

/-- A balanced piece in braces. -/
theorem balance_braces {a b : List Tok} (ha : balance 0 a = some 0) (hb : balance 0 b = some 0) :
    balance 0 (.char 123 :: (a ++ .char 125 :: b)) = some 0 := by
  have up : ∀ {a : List Tok} {d e : Nat}, balance d a = some e → balance (d + 1) a = some (e + 1) := by
    intro a
    induction a with
    | nil => intro d e h; simp only [balance, Option.some.injEq] at h ⊢; omega
    | cons t a ih =>
      intro d e h
      simp only [balance] at h ⊢
      split
      · rw [if_pos (by assumption)] at h
        exact ih h
      · rw [if_neg (by assumption)] at h
        split
        · rw [if_pos (by assumption)] at h
          cases d with
          | zero => cases h
          | succ d => exact ih h
        · rw [if_neg (by assumption)] at h
          exact ih h
  have h1 := up ha
  simp only [balance, if_pos]
  rw [balance_append h1]
  simp only [balance]
  simpa using hb

theorem usesToks_balance {us : List (List Tok)} (h : ∀ u ∈ us, Free [123, 125] u) :
    balance 0 (usesToks us) = some 0 := by
  unfold usesToks
  refine balance_flatMap fun u hu => ?_
  exact balance_both (by decide +kernel) (balance_both (balance_free 0 (h u hu)) (by decide +kernel))

theorem itemsToks_balance {us : List (List Tok)} (h : ∀ u ∈ us, Free [123, 125] u) :
    balance 0 (itemsToks us) = some 0 := by
  unfold itemsToks
  refine balance_flatMap fun u hu => ?_
  exact balance_both (balance_free 0 (h u hu)) (by decide +kernel)

theorem ruleToks_balance {r : List Tok × List (List (List Tok))} (h : Free [123, 125] r.1)
    (hp : ∀ p ∈ r.2, ∀ u ∈ p, Free [123, 125] u) : balance 0 (ruleToks r) = some 0 := by
  have hps : balance 0 (prodsToks r.2) = some 0 := by
    unfold prodsToks
    refine balance_flatMap fun p hm => ?_
    exact balance_both (by decide +kernel) (balance_both (itemsToks_balance (hp p hm)) (by decide +kernel))
  unfold ruleToks
  refine balance_both (by decide +kernel) (balance_both (balance_free 0 h) (balance_both (by decide +kernel)
    (balance_both (by decide +kernel) (balance_both (balance_free 0 h) (balance_both (by decide +kernel)
      (balance_both hps (by decide +kernel)))))))

theorem grammar_block {t : Text} {us : List (List Tok)} {rs : List (List Tok × List (List (List Tok)))}
    (hl : Lexes t (rust "{" ++ (usesToks us ++ (rust "let mut map = lrp::RuleMap::new();" ++
      (rs.flatMap ruleToks ++ rust "map }")))))
    (hu : ∀ u ∈ us, Free [123, 125] u)
    (hr : ∀ r ∈ rs, Free [123, 125] r.1 ∧ ∀ p ∈ r.2, ∀ u ∈ p, Free [123, 125] u) : Block t := by
  refine ⟨usesToks us ++ (rust "let mut map = lrp::RuleMap::new();" ++ (rs.flatMap ruleToks ++ rust "map")), ?_, ?_⟩
  · have e : rust "map }" = rust "map" ++ rust "}" := by decide +kernel
    rw [e] at hl
    simpa only [List.append_assoc] using hl
  · exact balance_both (usesToks_balance hu) (balance_both (by decide +kernel)
      (balance_both (balance_flatMap fun r hm => ruleToks_balance (hr r hm).1 (hr r hm).2) (by decide +kernel)))

/-- What a statement must be like so that its braces are balanced. -/
def ActBalanced : Stmt → Prop
  | .define f => Free [123, 125] f.entry ∧ Free [123, 125] f.ty ∧ balance 0 f.body = some 0
  | .insert name _ => Free [123, 125] name

theorem actToks_balance : ∀ {a : Stmt}, ActBalanced a → balance 0 (actToks a) = some 0
  | .define f, ⟨h1, h2, h3⟩ => by
    have e1 : rust "{ lrp::Meta::new({" = .char 123 :: (rust "lrp::Meta::new(" ++ [.char 123]) := by decide +kernel
    have e2 : rust "}" = [.char 125] := by decide +kernel
    have e3 : rust ", lrp::Span::new(toks[0].item.span.start, toks.last().unwrap().item.span.end)) }" =
        rust ", lrp::Span::new(toks[0].item.span.start, toks.last().unwrap().item.span.end))" ++ [.char 125] := by
      decide +kernel
    have hin : balance 0 (rust "lrp::Meta::new(" ++ (.char 123 :: (f.body ++ .char 125 ::
        rust ", lrp::Span::new(toks[0].item.span.start, toks.last().unwrap().item.span.end))"))) = some 0 :=
      balance_both (by decide +kernel) (balance_braces h3 (by decide +kernel))
    have hout := balance_braces (b := []) hin (by simp [balance])
    have ew : balance 0 [Tok.word f.name] = some 0 := by simp [balance]
    have : actToks (.define f) = rust "fn" ++ ([.word f.name] ++ (rust "(toks: &[" ++ (f.entry ++ (rust "]" ++
        (rust ") -> lrp::Meta<" ++ (f.ty ++ (rust ">" ++ (.char 123 :: ((rust "lrp::Meta::new(" ++ (.char 123 ::
          (f.body ++ .char 125 ::
            rust ", lrp::Span::new(toks[0].item.span.start, toks.last().unwrap().item.span.end))"))) ++
          .char 125 :: []))))))))) := by
      simp only [actToks, fnToks, e1, e2, e3, List.append_assoc, List.cons_append, List.nil_append]
    rw [this]
    exact balance_both (by decide +kernel) (balance_both ew (balance_both (by decide +kernel)
      (balance_both (balance_free 0 h1) (balance_both (by decide +kernel) (balance_both (by decide +kernel)
        (balance_both (balance_free 0 h2) (balance_both (by decide +kernel) hout)))))))
  | .insert name fns, h => by
    unfold actToks
    refine balance_both (by decide +kernel) (balance_both (balance_free 0 h) (balance_both (by decide +kernel)
      (balance_both (by decide +kernel) (balance_both (itemsToks_balance ?_) (by decide +kernel)))))
    intro u hu c _ hm
    obtain ⟨w, _, rfl⟩ := List.mem_map.mp hu
    simp at hm

theorem reductor_block {t : Text} {us : List (List Tok)} {as : List Stmt}
    (hl : Lexes t (rust "{" ++ (usesToks us ++ (rust "let mut map = lrp::ReductMap::new();" ++
      (as.flatMap actToks ++ rust "map }")))))
    (hu : ∀ u ∈ us, Free [123, 125] u) (ha : ∀ a ∈ as, ActBalanced a) : Block t := by
  refine ⟨usesToks us ++ (rust "let mut map = lrp::ReductMap::new();" ++ (as.flatMap actToks ++ rust "map")), ?_, ?_⟩
  · have e : rust "map }" = rust "map" ++ rust "}" := by decide +kernel
    rw [e] at hl
    simpa only [List.append_assoc] using hl
  · exact balance_both (usesToks_balance hu) (balance_both (by decide +kernel)
      (balance_both (balance_flatMap fun a hm => actToks_balance (ha a hm)) (by decide +kernel)))

end Lrp.Wop
