import Verif.Proofs.Ll1
import Verif.Props.Lalr1

/-! C70: LL(1) grammars. -/

namespace Lrp.Props
open Spec
set_option maxRecDepth 100000

variable {T : Type} [LinOrd T] [DecidableEq T]

/-- C70: all three methods build tables without conflicts for LL(1) grammars. -/
theorem C70_no_conflicts {k : Method} {dbg : Bool} {D : Decls T} {S eof : T} {t : Tabler T}
    (h : Makes k dbg D S eof t) (hpr : AllProductive D) (hll : LL1 D S eof) : t.conflicts = [] := by
  refine h.no_conflict.mpr ?_
  obtain ⟨g, hg, n, hb⟩ := h
  have hof := Grammar.of_new hg
  cases k with
  | slr =>
    have hb := Slr.built hof hb
    obtain ⟨b0, h0, _⟩ := hb.of.grammar.basis
    exact (hb.auto h0).ll1_no_conflict hb.reaches hll hpr
  | clr =>
    have hb := Clr.built hof hb
    obtain ⟨b0, h0, _⟩ := hb.of.grammar.basis
    exact (hb.auto h0).ll1_no_conflict hb.reaches hll hpr
  | lalr =>
    obtain ⟨l, hl, e⟩ := Out.bind_eq_ok.mp hb
    cases e
    obtain ⟨t0, _, hb, _⟩ := Lalr.built hof hl
    obtain ⟨b0, h0, _⟩ := hb.of.grammar.basis
    exact (hb.auto h0).ll1_no_conflict hb.reaches hll hpr

/-- C70: the Slr parser and the Clr parser of an LL(1) grammar accept exactly the sentences. -/
theorem C70_accepts {k : Method} {dbg : Bool} {D : Decls T} {S eof : T} {t : Tabler T}
    (h : Makes k dbg D S eof t) (hk : k = .lalr → Propagated t) (hpr : AllProductive D)
    (hll : LL1 D S eof) (hS : InNoBody D S) (h1 : SingleStart D S) (he : Terminal D eof)
    {toks : List (Token Unit T)} : Validates t toks true ↔ Sentence D S (toks.map Token.ty) :=
  ⟨fun hv => sound_sentence h hS he (validates_true.mp hv),
    complete_validates h hk (C70_no_conflicts h hpr hll) hS h1 he⟩

/-- C70: LL(1) grammars are SLR(1), LALR(1) and LR(1). -/
theorem C70_classes {dbg : Bool} {D : Decls T} {S eof : T} {t t' : Tabler T}
    (h : Makes .slr dbg D S eof t) (h' : Makes .clr dbg D S eof t') (he : Terminal D eof)
    (hS : SingleStart D S) (hpr : AllProductive D) (hll : LL1 D S eof) :
    SLR1 D S eof ∧ LALR1 D S eof ∧ LR1 D S eof := by
  have h1 := C64_slr1 h he hS (C70_no_conflicts h hpr hll)
  have h2 := C69_classes h' he hS hpr
  exact ⟨h1, h2.1 h1, h2.2 (h2.1 h1)⟩

/-! ### Examples -/

/-- A bound for FIRST shows a grammar to be LL(1). -/
theorem ll1_of_bound {D : Decls T} {S eof : T} (F : T → T → Prop) (hne : NoEmpty D)
    (hself : ∀ y, Terminal D y → F y y) (hstep : ∀ A i X b, IsProd D A i (X :: b) → ∀ y, F X y → F A y)
    (hdis : ∀ A i j X b Y c y, IsProd D A i (X :: b) → IsProd D A j (Y :: c) → F X y → F Y y → i = j) :
    LL1 D S eof := by
  have bound : ∀ {n : Nat} {X y : T}, LSteps D y n X y → Terminal D y → F X y := by
    intro n X y h hy
    have : ∀ {n : Nat} {X z : T}, LSteps D y n X z → F z y → F X y := by
      intro n X z h
      induction h with
      | zero => exact id
      | succ s _ ih =>
        obtain ⟨_, i, b, hp⟩ := s
        exact fun hF => hstep _ _ _ _ hp _ (ih hF)
    exact this h (hself y hy)
  have first : ∀ {A : T} {i : Nat} {β α x : List T}, IsProd D A i β → Derives D (β ++ α) x →
      Terminals D x → ∃ X b y, β = X :: b ∧ (x ++ [eof]).head? = some y ∧ F X y := by
    intro A i β α x hp hd hx
    cases β with
    | nil => exact absurd rfl (hne _ _ _ hp)
    | cons X b =>
      cases x with
      | nil => exact absurd rfl (derives_ne_nil hne hd (by simp))
      | cons y v =>
        obtain ⟨_, n, hn⟩ := lsteps_of_derives hne hd rfl (Z := X) (w := b ++ α) rfl
        exact ⟨X, b, y, rfl, rfl, bound hn (hx y (by simp))⟩
  intro w α β γ x y A i j _ _ hb hc hx hxt hy hyt hhead
  obtain ⟨X, b, u, rfl, h1, h2⟩ := first hb hx hxt
  obtain ⟨Y, c, v, rfl, h3, h4⟩ := first hc hy hyt
  rw [h1, h3] at hhead
  cases hhead
  exact hdis _ _ _ _ _ _ _ _ hb hc h2 h4

/-- Decides whether `F` (a list of symbols for each nonterminal) is a bound for FIRST that tells all
alternatives apart. -/
def ll1B (D : Decls Nat) (F : List (Nat × List Nat)) : Bool :=
  let f := fun X => match F.find? (·.1 = X) with
    | some e => e.2
    | none => [X]
  decide ((D.map (·.1)).Pairwise (· ≠ ·)) &&
  D.all (fun d => d.2.all fun b => match b with
    | [] => false
    | X :: _ => (f X).all fun y => decide (y ∈ f d.1)) &&
  F.all (fun e => D.any fun d => decide (d.1 = e.1)) &&
  D.all (fun d => (List.range d.2.length).all fun i => (List.range d.2.length).all fun j =>
    decide (i = j) || match (d.2[i]?.getD []), (d.2[j]?.getD []) with
      | X :: _, Y :: _ => (f X).all fun y => !decide (y ∈ f Y)
      | _, _ => false)

theorem ll1_of_check {D : Decls Nat} {S eof : Nat} (F : List (Nat × List Nat)) (h : ll1B D F = true) :
    LL1 D S eof := by
  unfold ll1B at h
  simp only [Bool.and_eq_true, List.all_eq_true, decide_eq_true_eq, List.any_eq_true, Bool.or_eq_true] at h
  obtain ⟨⟨⟨h0, h1⟩, h2⟩, h3⟩ := h
  have hmem : ∀ {A : Nat} {i : Nat} {b : List Nat}, IsProd D A i b → ∃ bs, (A, bs) ∈ D ∧ bs[i]? = some b := by
    rintro A i b ⟨bs, ⟨pre, post, rfl, _⟩, hb⟩
    exact ⟨bs, by simp, hb⟩
  have huniq : ∀ {A : Nat} {bs bs' : List (List Nat)}, (A, bs) ∈ D → (A, bs') ∈ D → bs = bs' := by
    intro A bs bs' g1 g2
    have : ∀ (D : Decls Nat), (D.map (·.1)).Pairwise (· ≠ ·) → (A, bs) ∈ D → (A, bs') ∈ D → bs = bs' := by
      intro D hD
      induction D with
      | nil => simp
      | cons d D ih =>
        rw [List.map_cons, List.pairwise_cons] at hD
        intro g1 g2
        rcases List.mem_cons.mp g1 with rfl | g3 <;> rcases List.mem_cons.mp g2 with e | g4
        · exact (congrArg Prod.snd e).symm
        · exact absurd rfl (hD.1 A (List.mem_map.mpr ⟨(A, bs'), g4, rfl⟩))
        · subst e; exact absurd rfl (hD.1 A (List.mem_map.mpr ⟨(A, bs), g3, rfl⟩))
        · exact ih hD.2 g3 g4
    exact this D h0 g1 g2
  refine ll1_of_bound (fun X y => y ∈ (match F.find? (·.1 = X) with | some e => e.2 | none => [X])) ?_ ?_ ?_ ?_
  · intro A i b hp hb
    subst hb
    obtain ⟨bs, g1, g2⟩ := hmem hp
    have := h1 _ g1 _ (List.mem_of_getElem? g2)
    simp at this
  · intro y hy
    show y ∈ (match F.find? (·.1 = y) with | some e => e.2 | none => [y])
    split
    · rename_i e he
      obtain ⟨d, hd, e2⟩ := h2 e (List.mem_of_find?_eq_some he)
      have e3 : e.1 = y := by simpa using List.find?_some he
      exact absurd (e2.trans e3) (hy d hd)
    · simp
  · intro A i X b hp y hy
    obtain ⟨bs, g1, g2⟩ := hmem hp
    have := h1 _ g1 _ (List.mem_of_getElem? g2)
    simp only [List.all_eq_true, decide_eq_true_eq] at this
    exact this y hy
  · intro A i j X b Y c y hp hq hX hY
    obtain ⟨bs, g1, g2⟩ := hmem hp
    obtain ⟨bs', g3, g4⟩ := hmem hq
    obtain rfl := huniq g1 g3
    have := h3 _ g1 i (List.mem_range.mpr (List.getElem?_eq_some_iff.mp g2).1) j
      (List.mem_range.mpr (List.getElem?_eq_some_iff.mp g4).1)
    rcases this with rfl | this
    · rfl
    · simp only [g2, g4, Option.getD_some, List.all_eq_true, Bool.not_eq_true', decide_eq_false_iff_not] at this
      exact absurd hY (this y hX)

/-- Not vacuous: `S → A x | z A y`, `A → c B`, `B → d e` is LL(1). -/
theorem lalrGap_ll1 : LL1 Samples.lalrGap 0 99 :=
  ll1_of_check [(0, [11, 13]), (1, [11, 13]), (2, [11]), (3, [14])] (by decide)

example {dbg : Bool} {t : Tabler Nat} (h : Makes .slr dbg Samples.lalrGap 0 99 t) : t.conflicts = [] :=
  C70_no_conflicts h lalrGap_productive lalrGap_ll1

/-- For Lalr it is not enough that the grammar is LL(1) to accept all sentences, as for the other two. -/
theorem C70_needs_propagated : LL1 Samples.lalrGap 0 99 ∧ ∃ t, Makes .lalr true Samples.lalrGap 0 99 t ∧
    t.conflicts = [] ∧ Sentence Samples.lalrGap 0 [13, 11, 14, 15, 12] ∧
    Validates t (Samples.toks [13, 11, 14, 15, 12]) false := by
  obtain ⟨t, h1, h2, _, _, _, h3, h4⟩ := C23_false
  exact ⟨lalrGap_ll1, t, h1, h2, h3, h4⟩

end Lrp.Props
