import Verif.Proofs.EmbedRun
import Verif.Proofs.Reorder
import Verif.Proofs.Runs
import Verif.Proofs.TablerNew

/-! Tables of grammars with renamed symbols, and of grammars with alternatives in another order. -/

set_option linter.unusedSectionVars false

namespace Lrp
open Spec
variable {T U M : Type} [LinOrd T] [DecidableEq T] [LinOrd U] [DecidableEq U] {f : T → U}

/-! ### The rows of a table reduce productions -/

theorem Spec.Makes.reduces {k : Method} {dbg : Bool} {D : Decls T} {S eof : T} {t : Tabler T}
    (h : Makes k dbg D S eof t) {row : OMap T (Action T)} (hr : row ∈ t.actions) {e : T × Action T} (he : e ∈ row)
    {A : T} {p : Production T} (ha : Among (.reduce A p) e.2) : IsProd D A p.2 p.1 := by
  obtain ⟨b0, next, red, hA, _⟩ := h.auto
  obtain ⟨i, hi⟩ := List.getElem?_of_mem hr
  have hl : i < t.states.length := by rw [← hA.len]; exact (List.getElem?_eq_some_iff.mp hi).1
  obtain ⟨hs, hc⟩ := hA.cell (List.getElem?_eq_getElem hl) hi
  have hg : row.get? e.1 = some e.2 := OMap.get?_of_mem hs he
  rcases ((hc e.1).among e.2 hg _).mp ha with ⟨q, hq, _, j, _, h1⟩ | ⟨q, hq, _, _, h1⟩
  · rcases h1 with ⟨_, h1⟩ | ⟨_, h1⟩ <;> cases h1
  · rcases h1 with ⟨_, h1⟩ | ⟨_, h1⟩
    · cases h1
    · cases h1
      exact (hA.prod (List.getElem?_eq_getElem hl) hq).1

theorem Spec.Makes.redProds {k : Method} {dbg : Bool} {D : Decls T} {S eof : T} {t : Tabler T}
    (h : Makes k dbg D S eof t) : RedProds D t.actions := by
  intro row hr x A p hx
  obtain ⟨e, he, h1, h2⟩ : ∃ e ∈ row, e.1 = x ∧ e.2 = .reduce A p := by
    obtain ⟨b0, next, red, hA, _⟩ := h.auto
    exact ⟨(x, .reduce A p), OMap.mem_of_get? hx, rfl, rfl⟩
  exact h.reduces hr he (by rw [h2]; exact .here (by intro _ _ h; cases h))

/-! ### Renaming that keeps the order -/

theorem posMap_noShift (p : Position T) : posMap f (noShift T) p = movedPos f (fun _ i => i) p := rfl

theorem actMap_noShift (a : Action T) : actMap f (noShift T) a = movedAct f (fun _ i => i) a := by
  induction a with
  | conflict a b h1 h2 => simp only [actMap, movedAct, h1, h2]
  | _ => rfl

theorem TabRel.moved {t : Tabler T} {t' : Tabler U} (h : TabRel f (noShift T) t t') :
    MovedTable f (fun _ i => i) t t' where
  first := h.first
  follow := h.follow
  states := h.states
  actions := by
    rw [h.actions]
    refine List.map_congr_left (fun r _ => List.map_congr_left (fun e _ => ?_))
    simp only [Prod.map, actMap_noShift]

theorem new_ordered (hf : KeepsOrder f) (dbg : Bool) (D : Decls T) (S eof : T) :
    OutRel (fun g g' => g' = gramMap f g) (Grammar.new dbg S (grammarMap D) eof)
      (Grammar.new dbg (f S) (grammarMap (renamed f D)) (f eof)) := by
  rw [grammarMap_map hf]
  exact Grammar.new_map hf dbg S _ eof

theorem OutRel.back {α β : Type} {R : α → β → Prop} {x : Out α} {y : Out β} (h : OutRel R x y) {b : β} (hy : y = .ok b) :
    ∃ a, x = .ok a ∧ R a b := by
  subst hy
  cases h with
  | ok h => exact ⟨_, rfl, h⟩

theorem OutRel.panic_iff {α β : Type} {R : α → β → Prop} {x : Out α} {y : Out β} (h : OutRel R x y) (p : Panic) :
    y = .panic p ↔ x = .panic p := by
  cases h <;> simp

theorem OutRel.fuel_iff {α β : Type} {R : α → β → Prop} {x : Out α} {y : Out β} (h : OutRel R x y) :
    y = .fuel ↔ x = .fuel := by
  cases h <;> simp

theorem OutRel.join {α β γ : Type} {R : α → β → Prop} {Q : γ → β → Prop} {x : Out α} {y : Out β} {z : Out γ}
    (h : OutRel R x y) (h' : OutRel Q z y) : OutRel (fun a c => ∃ b, R a b ∧ Q c b) x z := by
  cases h with
  | ok h => cases h' with | ok h' => exact .ok ⟨_, h, h'⟩
  | panic p => cases h'; exact .panic p
  | fuel => cases h'; exact .fuel

theorem makes_renamed (hf : KeepsOrder f) {k : Method} {dbg : Bool} {D : Decls T} {S eof : T} {t : Tabler T}
    (h : Makes k dbg D S eof t) : ∃ t', Makes k dbg (renamed f D) (f S) (f eof) t' ∧ TabRel f (noShift T) t t' := by
  obtain ⟨g, hg, n, hb⟩ := h
  obtain ⟨g', hg', e⟩ := (new_ordered hf dbg D S eof).of_ok hg
  subst e
  obtain ⟨t', hb', hr⟩ := (build_map hf k dbg n g).of_ok hb
  exact ⟨t', ⟨_, hg', n, hb'⟩, hr⟩

/-! ### Alternatives in another order -/

section Order
variable {D D' : Decls T} {S eof : T} {π : T → Nat → Nat}

/-- The number of an alternative. -/
noncomputable def numOf (D : Decls T) (A : T) (b : List T) : Nat :=
  open Classical in if h : ∃ i, IsProd D A i b then h.choose else 0

theorem numOf_eq (hd : ∀ A i j b, IsProd D A i b → IsProd D A j b → i = j) {A : T} {i : Nat} {b : List T}
    (hp : IsProd D A i b) : numOf D A b = i := by
  unfold numOf
  have h : ∃ i, IsProd D A i b := ⟨i, hp⟩
  rw [dif_pos h]
  exact hd _ _ _ _ h.choose_spec hp

theorem Spec.Reordered.distinct (h : Reordered π D D') (hd : ∀ A i j b, IsProd D A i b → IsProd D A j b → i = j) :
    ∀ A i j b, IsProd D' A i b → IsProd D' A j b → i = j := by
  intro A i j b hi hj
  obtain ⟨i', rfl, hi'⟩ := (h.prods A i b).mp hi
  obtain ⟨j', rfl, hj'⟩ := (h.prods A j b).mp hj
  rw [hd A i' j' b hi' hj']

/-- The rules with their productions renumbered. -/
def shiftRules (c : T → List T → Nat) (rules : RuleMap T) : RuleMap T :=
  rules.map (fun e => (e.1, { e.2 with prods := e.2.prods.map (seqMap id c e.1) }))

theorem get?_shiftRules (c : T → List T → Nat) (rules : RuleMap T) (x : T) :
    (shiftRules c rules).get? x =
      (rules.get? x).map (fun r => { r with prods := r.prods.map (seqMap id c x) }) := by
  induction rules with
  | nil => rfl
  | cons e m ih =>
    obtain ⟨k, r⟩ := e
    simp only [shiftRules, List.map_cons, OMap.get?]
    by_cases h : cmp x k = .eq
    · have := LinOrd.cmp_eq.mp h
      subst this
      simp
    · simp only [if_neg h]
      exact ih

/-- A grammar with its productions renumbered. -/
def shiftGram (c : T → List T → Nat) (g : Grammar T) : Grammar T :=
  { g with rules := shiftRules c g.rules, basis := posMap id c g.basis }

theorem keepsOrder_id : KeepsOrder (id : T → T) := fun _ _ => rfl

theorem shiftGram_rel (c : T → List T → Nat) (g : Grammar T) : GramRel id c g (shiftGram c g) where
  keeps := keepsOrder_id
  symbols := by simp [shiftGram]
  basis := rfl
  none := by
    intro x hx
    show (shiftRules c g.rules).get? x = none
    rw [get?_shiftRules, hx]; rfl
  some := by
    intro x r hx
    refine ⟨{ r with prods := r.prods.map (seqMap id c x) }, ?_, fun q => ?_⟩
    · show (shiftRules c g.rules).get? x = _
      rw [get?_shiftRules, hx]; rfl
    · simp only [List.mem_map]
      constructor
      · rintro ⟨p, hp, rfl⟩; exact ⟨p, hp, rfl⟩
      · rintro ⟨p, hp, rfl⟩; exact ⟨p, hp, rfl⟩

theorem gram_symbols_sorted {dbg : Bool} {rules : RuleMap T} {g : Grammar T} (h : Grammar.new dbg S rules eof = .ok g) :
    OSet.Sorted g.symbols := by
  unfold Grammar.new at h
  simp only [Out.bind_eq_ok] at h
  obtain ⟨_, _, _, _, _, _, h⟩ := h
  cases h
  exact OSet.sorted_ofList _

theorem reordered_gram (h : Reordered π D D') (hd : ∀ A i j b, IsProd D A i b → IsProd D A j b → i = j)
    (hS : SingleStart D S) {dbg : Bool} {g g' : Grammar T} (hg : Grammar.new dbg S (grammarMap D) eof = .ok g)
    (hg' : Grammar.new dbg S (grammarMap D') eof = .ok g') :
    GramRel id (numOf D) g' (shiftGram (numOf D') g) := by
  have ho := Grammar.of_new hg
  have ho' := Grammar.of_new hg'
  have hd' := h.distinct hd
  refine ⟨keepsOrder_id, ?_, ?_, ?_, ?_⟩
  · show g.symbols = g'.symbols.map id
    simp only [List.map_id]
    refine OSet.ext (gram_symbols_sorted hg) (gram_symbols_sorted hg') (fun x => ?_)
    rw [ho.symbols, ho'.symbols, ho.terminals, ho'.terminals, h.names, h.terminal]
    have : (∃ A i b, IsProd D' A i b ∧ x ∈ b) ↔ ∃ A i b, IsProd D A i b ∧ x ∈ b := by
      constructor
      · rintro ⟨A, i, b, h1, h2⟩
        obtain ⟨i', _, h1⟩ := (h.prods A i b).mp h1
        exact ⟨A, i', b, h1, h2⟩
      · rintro ⟨A, i, b, h1, h2⟩
        exact ⟨A, _, b, h.prod h1, h2⟩
    rw [this]
  · obtain ⟨b, hb, e⟩ := ho.basis
    obtain ⟨b', hb', e'⟩ := ho'.basis
    have := (h.start hS b').mp hb'
    rw [hb.unique this] at e
    show posMap id (numOf D') g.basis = _
    rw [e, e']
    simp [posMap, seqMap, numOf_eq hd this, numOf_eq hd' hb']
  · intro x hx
    show (shiftRules _ g.rules).get? x = none
    rw [ho'.get?_none, h.terminal, ← ho.get?_none] at hx
    rw [get?_shiftRules, hx]; rfl
  · intro x r' hx
    have hn : Nonterminal D x := by
      rw [← h.names, ← not_terminal_iff, ← ho'.get?_none, hx]; simp
    obtain ⟨r, hr⟩ := ho.exists_rule hn
    refine ⟨{ r with prods := r.prods.map (seqMap id (numOf D') x) }, ?_, fun q => ?_⟩
    · show (shiftRules _ g.rules).get? x = _
      rw [get?_shiftRules, hr]; rfl
    · simp only [List.mem_map]
      constructor
      · rintro ⟨⟨b, i⟩, hp, rfl⟩
        have hp := (ho.prods hr _).mp hp
        refine ⟨(b, π x i), (ho'.prods hx _).mpr (h.prod hp), ?_⟩
        simp only [seqMap, numOf_eq hd hp, numOf_eq hd' (h.prod hp), Nat.add_comm]
      · rintro ⟨⟨b, j⟩, hp, rfl⟩
        have hp := (ho'.prods hx _).mp hp
        obtain ⟨i, e, hi⟩ := (h.prods x j b).mp hp
        refine ⟨(b, i), (ho.prods hr _).mpr hi, ?_⟩
        simp only [seqMap, numOf_eq hd hi, numOf_eq hd' hp, Nat.add_comm]

theorem single_prods {A : T} {r : Rule T} (hS : SingleStart D A) (hr : (grammarMap D).get? A = some r) :
    r.prods = [] ∧ (∀ b, ¬ IsProd D A 0 b) ∨ ∃ b, r.prods = [(b, 0)] ∧ IsProd D A 0 b := by
  obtain ⟨bs, h1, rfl⟩ := (grammarMap_get? D A r).mp hr
  match bs, h1 with
  | [], h1 =>
    left
    refine ⟨rfl, ?_⟩
    rintro b ⟨bs, h2, h3⟩
    have e := (grammarMap_get? D A _).mpr ⟨_, h1, rfl⟩
    rw [(grammarMap_get? D A _).mpr ⟨_, h2, rfl⟩] at e
    have := congrArg Rule.prods (Option.some.inj e)
    cases bs with
    | nil => simp at h3
    | cons b bs => simp [Rule.new] at this
  | [b], h1 => exact Or.inr ⟨b, rfl, ⟨_, h1, rfl⟩⟩
  | b :: b' :: bs, h1 => exact absurd (hS 1 b' ⟨_, h1, rfl⟩) (by decide)

theorem new_reordered (h : Reordered π D D') (hS : SingleStart D S) (dbg : Bool) :
    OutRel (fun _ _ => True) (Grammar.new dbg S (grammarMap D) eof) (Grammar.new dbg S (grammarMap D') eof) := by
  rw [Grammar.new_eq, Grammar.new_eq]
  cases hr : (grammarMap D).get? S with
  | none =>
    have : (grammarMap D').get? S = none := by rw [grammarMap_none, h.terminal, ← grammarMap_none, hr]
    rw [this]
    exact .panic _
  | some r =>
    cases hr' : (grammarMap D').get? S with
    | none =>
      rw [grammarMap_none, h.terminal, ← grammarMap_none, hr] at hr'
      cases hr'
    | some r' =>
      rcases single_prods hS hr with ⟨e, hn⟩ | ⟨b, e, hb⟩ <;>
        rcases single_prods (h.single hS) hr' with ⟨e', hn'⟩ | ⟨b', e', hb'⟩
      · simp only [e, e']
        cases dbg
        · exact .panic _
        · exact .panic _
      · exact absurd ((h.start hS b').mp hb') (hn b')
      · exact absurd ((h.start hS b).mpr hb) (hn' b)
      · simp only [e, e']
        cases dbg
        · exact .ok trivial
        · exact .ok trivial

namespace Tabler
variable {g g' : Grammar T}

theorem FirstTable.reordered (h : Reordered π D D') {X : Table T} : FirstTable D' X ↔ FirstTable D X := by
  constructor
  · intro hx; exact ⟨hx.sorted, hx.sets, fun A => by rw [hx.keys, h.names]⟩
  · intro hx; exact ⟨hx.sorted, hx.sets, fun A => by rw [hx.keys, h.names]⟩

theorem isTerminal_reordered (h : Reordered π D D') (hg : g.Of D S eof) (hg' : g'.Of D' S eof) :
    g'.isTerminal = g.isTerminal := by
  funext x
  rw [Bool.eq_iff_iff, hg'.isTerminal, hg.isTerminal, h.terminal]

theorem genFirst_reordered (h : Reordered π D D') (hg : g.Of D S eof) (hg' : g'.Of D' S eof) :
    genFirst g' = genFirst g := by
  by_cases hne : NoEmpty D
  · obtain ⟨X, hX⟩ := genFirst_ok hg hne
    obtain ⟨X', hX'⟩ := genFirst_ok hg' (h.noEmpty.mpr hne)
    obtain ⟨a1, a2⟩ := genFirst_spec hg hX
    obtain ⟨b1, b2⟩ := genFirst_spec hg' hX'
    rw [hX, hX', firstTable_ext ((FirstTable.reordered h).mp b1) a1 (fun A x => ?_)]
    rw [a2, b2]
    have : LeftEdge D' A x ↔ LeftEdge D A x := by
      constructor
      · rintro ⟨i, b, hp⟩
        obtain ⟨j, _, hp⟩ := (h.prods A i _).mp hp
        exact ⟨j, b, hp⟩
      · rintro ⟨i, b, hp⟩; exact ⟨_, b, h.prod hp⟩
    rw [this]
  · rw [genFirst_panic hg hne, genFirst_panic hg' (fun e => hne (h.noEmpty.mp e))]

theorem genFollow_reordered (h : Reordered π D D') (hg : g.Of D S eof) (hg' : g'.Of D' S eof) (hne : NoEmpty D)
    {F : Table T} (hF : FirstTable D F) : genFollow g' F = genFollow g F := by
  obtain ⟨Y, a1, a2, a3, a4⟩ := genFollow_spec hg hne hF
  obtain ⟨Y', b1, b2, b3, b4⟩ := genFollow_spec hg' (h.noEmpty.mpr hne) ((FirstTable.reordered h).mpr hF)
  have ht : Terminal D' = Terminal D := funext (fun x => propext (h.terminal x))
  have hn : Nonterminal D' = Nonterminal D := funext (fun x => propext (h.names x))
  have hex : ∀ P : T → List T → Prop, (∃ B i body, IsProd D' B i body ∧ P B body) ↔
      ∃ B i body, IsProd D B i body ∧ P B body := by
    intro P
    constructor
    · rintro ⟨B, i, b, hp, h2⟩
      obtain ⟨j, _, hp⟩ := (h.prods B i b).mp hp
      exact ⟨B, j, b, hp, h2⟩
    · rintro ⟨B, i, b, hp, h2⟩; exact ⟨B, _, b, h.prod hp, h2⟩
  have hT : FollowTable D' Y' → FollowTable D Y' := by
    intro hx
    exact ⟨hx.sorted, hx.sets, fun A hA => by rw [← h.names]; exact hx.keys A hA⟩
  rw [a1, b1, followTable_ext (hT b2) a2 (fun A => ?_) (fun A x => ?_)]
  · rw [a4, b4]
    unfold FollowKey
    rw [hex (fun B body => PairKey D' body A ∨ (body.getLast? = some A ∧ Nonterminal D' A ∧ A ≠ B))]
    simp only [PairKey, hn]
  · rw [a3, b3]
    unfold FollowEdge
    rw [hex (fun B body => PairEdge D' F body A x ∨ LastEdge D' B body A x)]
    simp only [PairEdge, LastEdge, ht, hn]

theorem new_reordered (h : Reordered π D D') (hg : g.Of D S eof) (hg' : g'.Of D' S eof) (dbg : Bool) (n : Nat) :
    OutRel (fun t t' => t' = { t with grammar := g' } ∧ t.grammar = g ∧ t.actions = [] ∧ t.states = [] ∧
      t.kernels = []) (new dbg n g) (new dbg n g') := by
  have hi := isTerminal_reordered h hg hg'
  unfold new
  rw [genFirst_reordered h hg hg']
  cases hX : genFirst g with
  | fuel => exact .fuel
  | panic p => exact .panic p
  | ok X =>
    simp only [Out.ok_bind]
    have e1 : procFirst dbg n g' X = procFirst dbg n g X := by
      have e : firstStep g' = firstStep g := by
        funext X
        simp only [firstStep, firstStepSet, hi]
      simp only [procFirst, allTerminal, e, hi]
    rw [e1]
    cases hF : procFirst dbg n g X with
    | fuel => exact .fuel
    | panic p => exact .panic p
    | ok F =>
      simp only [Out.ok_bind]
      rw [genFollow_reordered h hg hg' (noEmpty_of_genFirst hg hX)
        (first_fix hg (genFirst_spec hg hX).1 (procFirst_fix hF).1).1]
      cases genFollow g F with
      | fuel => exact .fuel
      | panic p => exact .panic p
      | ok Y =>
        simp only [Out.ok_bind]
        have e2 : procFollow dbg n g' Y = procFollow dbg n g Y := by
          have e : followStep g' = followStep g := by
            funext X
            simp only [followStep, followStepSet, hi]
          simp only [procFollow, allTerminal, e, hi]
        rw [e2]
        cases procFollow dbg n g Y with
        | fuel => exact .fuel
        | panic p => exact .panic p
        | ok Y => exact .ok ⟨rfl, rfl, rfl, rfl, rfl⟩

end Tabler

/-- Both tables are, up to numbers, the same. -/
theorem build_reordered (h : Reordered π D D') (hd : ∀ A i j b, IsProd D A i b → IsProd D A j b → i = j)
    (hS : SingleStart D S) {dbg : Bool} {g g' : Grammar T} (hg : Grammar.new dbg S (grammarMap D) eof = .ok g)
    (hg' : Grammar.new dbg S (grammarMap D') eof = .ok g') (k : Method) (n : Nat) :
    OutRel (fun t t' => ∃ t0, TabRel id (numOf D') t t0 ∧ TabRel id (numOf D) t' t0) (k.build dbg n g)
      (k.build dbg n g') := by
  rw [build_eq, build_eq]
  refine (Tabler.new_reordered h (Grammar.of_new hg) (Grammar.of_new hg') dbg n).bind (fun t t' e => ?_)
  obtain ⟨e, e1, e2, e3, e4⟩ := e
  subst e
  have hid : ∀ X : Table T, X = tabMap id X := by
    intro X
    simp [tabMap]
  have r1 : TabRel id (numOf D') t { t with grammar := shiftGram (numOf D') g } :=
    ⟨by rw [e1]; exact shiftGram_rel _ g, hid _, hid _, by simp [e3], by simp [e4], by simp [e2]⟩
  have r2 : TabRel id (numOf D) { t with grammar := g' } { t with grammar := shiftGram (numOf D') g } :=
    ⟨reordered_gram h hd hS hg hg', hid _, hid _, by simp [e3], by simp [e4], by simp [e2]⟩
  exact (r1.fill k dbg n).join (r2.fill k dbg n)

theorem map_eq_map {α β γ : Type} {u : α → γ} {v : β → γ} {w : α → β} {l : List α} {l' : List β}
    (e : l.map u = l'.map v) (h : ∀ x ∈ l, ∀ y ∈ l', u x = v y → y = w x) : l' = l.map w := by
  induction l generalizing l' with
  | nil =>
    cases l' with
    | nil => rfl
    | cons y l' => simp at e
  | cons x l ih =>
    cases l' with
    | nil => simp at e
    | cons y l' =>
      simp only [List.map_cons, List.cons.injEq] at e ⊢
      exact ⟨h x (by simp) y (by simp) e.1, ih e.2 (fun a ha b hb => h a (by simp [ha]) b (by simp [hb]))⟩

theorem seqMap_moved (h : Reordered π D D') (hd : ∀ A i j b, IsProd D A i b → IsProd D A j b → i = j) {A : T}
    {p p' : Production T} (hp : IsProd D A p.2 p.1) (hp' : IsProd D' A p'.2 p'.1)
    (e : seqMap id (numOf D') A p = seqMap id (numOf D) A p') : p' = (p.1.map id, π A p.2) := by
  obtain ⟨b, i⟩ := p
  obtain ⟨b', j⟩ := p'
  simp only [seqMap, List.map_id, Prod.mk.injEq] at e
  obtain ⟨rfl, _⟩ := e
  simp only [List.map_id, Prod.mk.injEq, true_and]
  exact h.distinct hd _ _ _ _ hp' (h.prod hp)

theorem act_moved (h : Reordered π D D') (hd : ∀ A i j b, IsProd D A i b → IsProd D A j b → i = j) {a a' : Action T}
    (hp : ∀ A p, Among (.reduce A p) a → IsProd D A p.2 p.1) (hp' : ∀ A p, Among (.reduce A p) a' → IsProd D' A p.2 p.1)
    (e : actMap id (numOf D') a = actMap id (numOf D) a') : a' = movedAct id π a := by
  induction a generalizing a' with
  | shift n => cases a' <;> simp_all [actMap, movedAct]
  | goto n => cases a' <;> simp_all [actMap, movedAct]
  | acc => cases a' <;> simp_all [actMap, movedAct]
  | reduce A p =>
    cases a' with
    | reduce A' p' =>
      simp only [actMap, Action.reduce.injEq, id] at e
      obtain ⟨rfl, e⟩ := e
      have := seqMap_moved h hd (hp A p (.here (by intro _ _ h; cases h)))
        (hp' A p' (.here (by intro _ _ h; cases h))) e
      simp only [movedAct, id, this]
    | _ => simp [actMap] at e
  | conflict a b ih1 ih2 =>
    cases a' with
    | conflict a' b' =>
      simp only [actMap, Action.conflict.injEq] at e
      simp only [movedAct]
      rw [ih1 (fun A p h => hp A p (.left h)) (fun A p h => hp' A p (.left h)) e.1,
        ih2 (fun A p h => hp A p (.right h)) (fun A p h => hp' A p (.right h)) e.2]
    | _ => simp [actMap] at e

theorem moved_reordered (h : Reordered π D D') (hd : ∀ A i j b, IsProd D A i b → IsProd D A j b → i = j)
    {k : Method} {dbg : Bool} {t t' t0 : Tabler T} (ht : Makes k dbg D S eof t) (ht' : Makes k dbg D' S eof t')
    (h1 : TabRel id (numOf D') t t0) (h2 : TabRel id (numOf D) t' t0) : MovedTable id π t t' := by
  have hid : ∀ X : Table T, tabMap id X = X := by
    intro X
    simp [tabMap]
  have hid' : ∀ X : Table T, X.map (fun e => (id e.1, e.2.map id)) = X := hid
  obtain ⟨b0, next, red, hA, _⟩ := ht.auto
  obtain ⟨b0', next', red', hA', _⟩ := ht'.auto
  refine ⟨?_, ?_, ?_, ?_⟩
  · rw [hid', ← hid t.first, ← hid t'.first, ← h1.first, ← h2.first]
  · rw [hid', ← hid t.follow, ← hid t'.follow, ← h1.follow, ← h2.follow]
  · refine map_eq_map (h1.states.symm.trans h2.states) (fun s hs s' hs' e => ?_)
    refine map_eq_map e (fun p hp q hq e => ?_)
    obtain ⟨i, hi⟩ := List.getElem?_of_mem hs
    obtain ⟨j, hj⟩ := List.getElem?_of_mem hs'
    have a1 := (hA.prod hi hp).1
    have a2 := (hA'.prod hj hq).1
    obtain ⟨A, p, m, L⟩ := p
    obtain ⟨B, q, m', L'⟩ := q
    simp only [posMap, id, Position.mk.injEq] at e a1 a2
    obtain ⟨rfl, e, rfl, e'⟩ := e
    have := seqMap_moved h hd a1 a2 e
    simp only [movedPos, id, this, Position.mk.injEq, true_and]
    simpa using e'.symm
  · refine map_eq_map (h1.actions.symm.trans h2.actions) (fun r hr r' hr' e => ?_)
    refine map_eq_map e (fun x hx y hy e => ?_)
    obtain ⟨x, a⟩ := x
    obtain ⟨y, b⟩ := y
    simp only [Prod.map, id, Prod.mk.injEq] at e
    obtain ⟨rfl, e⟩ := e
    simp only [id, Prod.mk.injEq, true_and]
    exact act_moved h hd (fun A p hp => ht.reduces hr hx hp) (fun A p hp => ht'.reduces hr' hy hp) e

end Order

end Lrp
