import Verif.Proofs.WopDump

/-! The types of the variables in generated functions. -/

namespace Lrp.Wop
open _root_.Lrp.Spec _root_.Lrp.Wop.Spec
set_option linter.unusedSectionVars false

theorem altNames_cloning (as : List (List Item)) : altNames (altCloning as) = altNames as := by
  induction as with
  | nil => rw [altCloning]
  | cons a as ih => rw [altCloning, altNames, altNames, ih, (cloning_spans a).2]

mutual

theorem Spec.Item.Steady.uniform {src t : Text} {g : Bool} : ∀ {i : Item}, i.Steady src →
    (∀ a ∈ i.marked, textOf src a.1 = t → g = false) →
    (∀ b ∈ i.groups, textOf src b.1 = t → g = true) → i.cloning.Uniform src t g true
  | .sym sp opt al cl, _, hm, _ => by
    rw [Item.cloning, Item.Uniform]
    intro a ha ht
    cases al with
    | none => cases ha
    | some b =>
      have : a = b := by simpa using ha
      subst this
      exact ⟨hm (a, sp) (by simp [Item.marked]) ht, rfl⟩
  | .group alts opt al cl, h, hm, hg => by
    rw [Item.Steady] at h
    obtain ⟨h1, h2, h3⟩ := h
    rw [Item.cloning, Item.Uniform, altNames_cloning]
    rw [Item.marked] at hm
    rw [Item.groups] at hg
    refine ⟨?_, ?_, ?_⟩
    · intro a ha ht
      cases al with
      | none => cases ha
      | some b =>
        have : a = b := by simpa using ha
        subst this
        refine ⟨hg (a, alts) (by simp) ht, rfl, ?_⟩
        cases opt with
        | false => rfl
        | true => exact absurd (h1 rfl).1 (by simp)
    · intro ht
      refine ⟨fun ho => ?_, .inr ?_⟩
      · rw [(h1 ho).2] at ht
        cases ht
      · intro B hB
        rw [altCloning_map] at hB
        obtain ⟨B, hB', rfl⟩ := List.mem_map.mp hB
        rw [(cloning_spans B).2]
        obtain ⟨n, hn, rfl⟩ := List.mem_map.mp ht
        obtain ⟨A, hA, hn⟩ := mem_altNames.mp hn
        exact h2 A hA B hB' n hn
    · exact altsSteady_uniform h3 hm (fun b hb => hg b (List.mem_append_right _ hb))

theorem itemsSteady_uniform {src t : Text} {g : Bool} : ∀ {is : List Item}, ItemsSteady src is →
    (∀ a ∈ marked is, textOf src a.1 = t → g = false) →
    (∀ b ∈ groups is, textOf src b.1 = t → g = true) → Uniform src t g true (cloning is)
  | [], _, _, _ => by rw [cloning, Uniform]; trivial
  | i :: is, h, hm, hg => by
    rw [ItemsSteady] at h
    rw [marked] at hm
    rw [groups] at hg
    rw [cloning, Uniform]
    exact ⟨h.1.uniform (fun a ha => hm a (List.mem_append_left _ ha)) (fun b hb => hg b (List.mem_append_left _ hb)),
      itemsSteady_uniform h.2 (fun a ha => hm a (List.mem_append_right _ ha))
        (fun b hb => hg b (List.mem_append_right _ hb))⟩

theorem altsSteady_uniform {src t : Text} {g : Bool} : ∀ {as : List (List Item)}, AltsSteady src as →
    (∀ a ∈ altMarked as, textOf src a.1 = t → g = false) →
    (∀ b ∈ altGroups as, textOf src b.1 = t → g = true) → AltsUniform src t g true (altCloning as)
  | [], _, _, _ => by rw [altCloning, AltsUniform]; trivial
  | a :: as, h, hm, hg => by
    rw [AltsSteady] at h
    rw [altMarked] at hm
    rw [altGroups] at hg
    rw [altCloning, AltsUniform]
    exact ⟨itemsSteady_uniform h.1 (fun a ha => hm a (List.mem_append_left _ ha))
        (fun b hb => hg b (List.mem_append_left _ hb)),
      altsSteady_uniform h.2 (fun a ha => hm a (List.mem_append_right _ ha))
        (fun b hb => hg b (List.mem_append_right _ hb))⟩

end

theorem Spec.Steady.uniform {src : Text} {is : List Item} (h : Steady src is) (t : Text) :
    Uniform src t (decide (t ∈ (groups is).map (fun b => textOf src b.1))) true (cloning is) := by
  refine itemsSteady_uniform h.1 ?_ ?_
  · intro a ha ht
    refine decide_eq_false (fun hg => ?_)
    obtain ⟨b, hb, e⟩ := List.mem_map.mp hg
    exact h.2 a ha b hb (ht.trans e.symm)
  · intro b hb ht
    exact decide_eq_true (ht ▸ List.mem_map_of_mem (f := fun b => textOf src b.1) hb)

/-- The type of a `let`, from what is known of the alias. -/
theorem letOf_ty {e : ItemAlias} {g o : Bool} (h1 : e.finalIndex.isSome = g) (h2 : e.clone = true)
    (h3 : g = true → e.optional ≠ some false) (h4 : e.optional.isSome = o) (name : Text) :
    (letOf e name).ty = some (if o then .option (if g then .vec else .own) else if g then .vec else .own) := by
  obtain ⟨al, opt, i, f, c⟩ := e
  simp only at h1 h2 h3 h4
  subst h1 h2 h4
  cases f with
  | none =>
    match opt with
    | none => rfl
    | some true => rfl
    | some false => rfl
  | some j =>
    match opt with
    | none => rfl
    | some true => rfl
    | some false => exact absurd rfl (h3 rfl)

theorem generated_types {order : Nat → List Span → List Span} (hord : Orders order) {src : Text} {a : Alt}
    {x : Expansion} {q : ProductionBuild} (h : Props.Generated order src a.cloning x.cloning q)
    (hd : WellNamed src a.items) (hs : Steady src a.items) :
    ∀ l ∈ letsOf src q.aliases, l.ty = some (aliasTy src a.items l.name) := by
  intro l hl
  obtain ⟨e, he, rfl⟩ := List.mem_map.mp hl
  have hd' : WellNamed src a.cloning.items := wellNamed_cloning a.items hd
  obtain ⟨_, _, h2, _⟩ := h.entries hord hd'
  have hst := (h2 e he).status
  have hb : bare a.cloning.items = bare a.items := bare_cloning a.items
  rw [hb] at hst
  obtain ⟨_, _, _, E, p, rfl, hp1, hp2, hr⟩ := h.rel hord
  obtain ⟨k1, k2, k3⟩ := hr.kinds (textOf E.src e.alias) _ true (hs.uniform _) (by
    rw [hp2]
    intro e he
    cases he) e he rfl
  rw [letOf_ty k1 k2 k3 rfl]
  have hn : (letOf e (textOf E.src e.alias)).name = textOf E.src e.alias := rfl
  unfold aliasTy
  rw [hn]
  by_cases hbare : textOf E.src e.alias ∈ (bare a.items).map (textOf E.src)
  · rw [if_pos hbare] at hst
    rw [hst]
    simp only [if_pos hbare, Option.isSome_none, Bool.false_eq_true, if_false, decide_eq_true_eq]
  · rw [if_neg hbare] at hst
    rw [hst]
    simp only [if_neg hbare, Option.isSome_some, if_true, decide_eq_true_eq]

/-! ### The `let`s of a function -/

theorem expect_length : ∀ {ps ts r : List Tok}, expect ps ts = some r → r.length ≤ ts.length
  | [], ts, r, h => by
    simp only [expect, Option.some.injEq] at h
    rw [h]
    exact Nat.le_refl _
  | p :: ps, [], r, h => by cases h
  | p :: ps, t :: ts, r, h => by
    simp only [expect] at h
    split at h
    · have := expect_length h
      simp only [List.length_cons]
      omega
    · cases h

theorem expect_cons_length {p : Tok} {ps ts r : List Tok} (h : expect (p :: ps) ts = some r) :
    r.length < ts.length := by
  cases ts with
  | nil => cases h
  | cons t ts =>
    simp only [expect] at h
    split at h
    · have := expect_length h
      simp only [List.length_cons]
      omega
    · cases h

theorem readWord_length {ts r : List Tok} {w : Text} (h : readWord ts = some (w, r)) :
    r.length ≤ ts.length := by
  unfold readWord at h
  split at h
  · cases h
    simp only [List.length_cons]
    omega
  · cases h

theorem readNat_length {ts r : List Tok} {n : Nat} (h : readNat ts = some (n, r)) :
    r.length ≤ ts.length := by
  unfold readNat at h
  split at h
  · rename_i c w ts' hw
    split at h
    · cases h
      exact readWord_length hw
    · cases h
  · cases h

theorem readAccess_length {ts r : List Tok} {a : Access} (h : readAccess ts = some (a, r)) :
    r.length ≤ ts.length := by
  unfold readAccess at h
  simp only [Option.bind_eq_bind, Option.bind_eq_some_iff] at h
  obtain ⟨t1, e1, ⟨i, t2⟩, e2, h⟩ := h
  have l1 := expect_length e1
  have l2 := readNat_length e2
  simp only at h
  split at h
  · rename_i t3 e3
    have l3 := expect_length e3
    simp only [Option.bind_eq_bind, Option.bind_eq_some_iff] at h
    obtain ⟨⟨j, t4⟩, e4, t5, e5, h⟩ := h
    have l4 := readNat_length e4
    have l5 := expect_length e5
    cases h
    try dsimp only at *
    omega
  · simp only [Option.bind_eq_bind, Option.bind_eq_some_iff] at h
    obtain ⟨t5, e5, h⟩ := h
    have l5 := expect_length e5
    cases h
    try dsimp only at *
    omega

theorem readForm_length {ts r : List Tok} {f : Form} {a : Access} (h : readForm ts = some (f, a, r)) :
    r.length ≤ ts.length := by
  unfold readForm at h
  split at h
  · rename_i t1 e1
    have l1 := expect_length e1
    simp only [Option.bind_eq_bind, Option.bind_eq_some_iff] at h
    obtain ⟨⟨a', t2⟩, e2, h⟩ := h
    have l2 := readAccess_length e2
    cases h
    try dsimp only at *
    omega
  · simp only [Option.bind_eq_bind, Option.bind_eq_some_iff] at h
    obtain ⟨⟨a', t2⟩, e2, h⟩ := h
    have l2 := readAccess_length e2
    simp only at h
    split at h
    · rename_i t3 e3
      have l3 := expect_length e3
      cases h
      try dsimp only at *
      omega
    · simp only [Option.bind_eq_bind, Option.bind_eq_some_iff] at h
      obtain ⟨t3, e3, h⟩ := h
      have l3 := expect_length e3
      cases h
      try dsimp only at *
      omega

theorem readRhs_length {ts r : List Tok} {x : Rhs} (h : readRhs ts = some (x, r)) :
    r.length ≤ ts.length := by
  unfold readRhs at h
  split at h
  · rename_i t1 e1
    have l1 := expect_length e1
    simp only [Option.bind_eq_bind, Option.bind_eq_some_iff] at h
    obtain ⟨⟨f, a', t2⟩, e2, t3, e3, h⟩ := h
    have l2 := readForm_length e2
    have l3 := expect_length e3
    cases h
    try dsimp only at *
    omega
  · simp only [Option.bind_eq_bind, Option.bind_eq_some_iff] at h
    obtain ⟨⟨f, a', t2⟩, e2, h⟩ := h
    have l2 := readForm_length e2
    cases h
    try dsimp only at *
    omega

theorem readLet_length {ts r : List Tok} {l : Let} (h : readLet ts = some (l, r)) : r.length < ts.length := by
  unfold readLet at h
  simp only [Option.bind_eq_bind, Option.bind_eq_some_iff] at h
  obtain ⟨t1, e1, h⟩ := h
  have hl : rust "let" = [.word (ascii "let")] := by decide +kernel
  rw [hl] at e1
  have l1 := expect_cons_length e1
  split at h
  · rename_i t2 e2
    have l2 := expect_length e2
    simp only [Option.bind_eq_bind, Option.bind_eq_some_iff] at h
    obtain ⟨⟨x, t3⟩, e3, t4, e4, ⟨rhs, t5⟩, e5, t6, e6, h⟩ := h
    have l3 := readWord_length e3
    have l4 := expect_length e4
    have l5 := readRhs_length e5
    have l6 := expect_length e6
    cases h
    try dsimp only at *
    omega
  · simp only [Option.bind_eq_bind, Option.bind_eq_some_iff] at h
    obtain ⟨⟨x, t3⟩, e3, t4, e4, ⟨rhs, t5⟩, e5, t6, e6, h⟩ := h
    have l3 := readWord_length e3
    have l4 := expect_length e4
    have l5 := readRhs_length e5
    have l6 := expect_length e6
    cases h
    try dsimp only at *
    omega

theorem readLets_length : ∀ {n : Nat} {ts r : List Tok} {ls : List Let}, readLets n ts = some (ls, r) →
    r.length + n ≤ ts.length
  | 0, ts, r, ls, h => by cases h; omega
  | n + 1, ts, r, ls, h => by
    simp only [readLets, Option.bind_eq_bind, Option.bind_eq_some_iff] at h
    obtain ⟨⟨l, t1⟩, e1, ⟨ls', t2⟩, e2, h⟩ := h
    have l1 := readLet_length e1
    have l2 := readLets_length e2
    cases h
    try dsimp only at *
    omega

/-- The `let`s before a given rest are determined. -/
theorem readLets_unique : ∀ {n m : Nat} {ts r : List Tok} {ls ls' : List Let},
    readLets n ts = some (ls, r) → readLets m ts = some (ls', r) → ls = ls'
  | 0, 0, ts, r, ls, ls', h, h' => by cases h; cases h'; rfl
  | 0, m + 1, ts, r, ls, ls', h, h' => by
    have := readLets_length h'
    cases h
    try dsimp only at *
    omega
  | n + 1, 0, ts, r, ls, ls', h, h' => by
    have := readLets_length h
    cases h'
    omega
  | n + 1, m + 1, ts, r, ls, ls', h, h' => by
    simp only [readLets, Option.bind_eq_bind, Option.bind_eq_some_iff] at h h'
    obtain ⟨⟨l, t1⟩, e1, ⟨l1, t2⟩, e2, h⟩ := h
    obtain ⟨⟨l', t1'⟩, e1', ⟨l1', t2'⟩, e2', h'⟩ := h'
    rw [e1] at e1'
    cases e1'
    cases h
    cases h'
    rw [readLets_unique e2 e2']

end Lrp.Wop
