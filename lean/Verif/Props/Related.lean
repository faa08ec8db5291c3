import Verif.Proofs.Related
import Verif.Proofs.Moved
import Verif.Props.Runs

/-! C104: what the values have to do with a parse. -/

set_option linter.unusedSectionVars false

namespace Lrp.Props
open Spec
set_option maxRecDepth 100000

variable {M N T : Type} [LinOrd T] [DecidableEq T]

/-- C104: two parses of tokens of the same types, with values that are related type by type and reductors that
keep them related, end alike: both with values that are related at the last symbol of the start rule, both with
the same error, both with the same panic, or both never. -/
theorem C104_related {k : Method} {dbg : Bool} {D : Decls T} {S eof : T} {t : Tabler T}
    (ht : Makes k dbg D S eof t) (he : Terminal D eof) {R : T → M → N → Prop} {maps : ReductMap M T}
    {maps' : ReductMap N T} (hm : RelReds R D maps maps') {toks : List (Token M T)} {toks' : List (Token N T)}
    (hT : TerminalToks D toks) (hr : RelToks R toks toks') :
    (∀ v, Parses t maps toks (.ok v) → ∃ w, Parses t maps' toks' (.ok w) ∧
      ∃ i b X, IsProd D S i (b ++ [X]) ∧ R X v w) ∧
    (∀ w, Parses t maps' toks' (.ok w) → ∃ v, Parses t maps toks (.ok v) ∧
      ∃ i b X, IsProd D S i (b ++ [X]) ∧ R X v w) ∧
    (∀ e, Parses t maps' toks' (.error e) ↔ Parses t maps toks (.error e)) ∧
    (∀ p, Panics (fun n => Parser.parse t n toks' maps') p ↔ Panics (fun n => Parser.parse t n toks maps) p) ∧
    (Diverges (fun n => Parser.parse t n toks' maps') ↔ Diverges (fun n => Parser.parse t n toks maps)) := by
  obtain ⟨b0, next, red, ha, _⟩ := ht.auto
  have key := parse_related (R := R) ha ht.eofHead he hm hT hr
  refine ⟨?_, ?_, fun e => ⟨?_, ?_⟩, fun p => exists_congr fun n => (key n).panic_iff p,
    forall_congr' fun n => (key n).fuel_iff⟩
  · rintro v ⟨n, h⟩
    obtain ⟨r, h1, h2⟩ := (key n).of_ok h
    cases r with
    | ok w => exact ⟨w, ⟨n, h1⟩, h2⟩
    | error e => exact h2.elim
  · rintro w ⟨n, h⟩
    obtain ⟨r, h1, h2⟩ := (key n).back h
    cases r with
    | ok v => exact ⟨v, ⟨n, h1⟩, h2⟩
    | error e => exact h2.elim
  · rintro ⟨n, h⟩
    obtain ⟨r, h1, h2⟩ := (key n).back h
    cases r with
    | ok v => exact h2.elim
    | error e => cases h2; exact ⟨n, h1⟩
  · rintro ⟨n, h⟩
    obtain ⟨r, h1, h2⟩ := (key n).of_ok h
    cases r with
    | ok v => exact h2.elim
    | error e => cases h2; exact ⟨n, h1⟩

theorem relToks_bare {P : T → M → Prop} : ∀ {toks : List (Token M T)}, (∀ t ∈ toks, P t.ty t.item) →
    RelToks (fun x v (_ : Unit) => P x v) toks (typesOnly toks)
  | [], _ => .nil
  | ⟨v, x⟩ :: ts, h => .cons (h ⟨v, x⟩ List.mem_cons_self)
      (relToks_bare fun t ht => h t (List.mem_cons_of_mem _ ht))

theorem relToks_all {P : T → M → Prop} {as : List (Token M T)} {bs : List (Token Unit T)}
    (h : RelToks (fun x v (_ : Unit) => P x v) as bs) : ∀ t ∈ as, P t.ty t.item := by
  induction h with
  | nil => intro t ht; cases ht
  | cons h1 _ ih =>
    intro t ht
    rcases List.mem_cons.mp ht with rfl | ht
    · exact h1
    · exact ih t ht

/-- The reductors of `validate` are there and return. -/
theorem empty_some {k : Method} {dbg : Bool} {D : Decls T} {S eof : T} {t : Tabler T}
    (ht : Makes k dbg D S eof t) {A : T} {i : Nat} {b : List T} (hp : IsProd D A i b) :
    ∃ f : ReductFn Unit T, ((Parser.empty t).get? A).bind (·[i]?) = some f ∧ ∀ its, f its = some () := by
  have h : ∀ its : List (Token Unit T), redOf (Parser.empty t) A i its = some () := by
    intro its
    exact redOf_transparent ht.grammar _ hp its
  unfold redOf at h
  cases h1 : (Parser.empty t).get? A with
  | none => have := h []; rw [h1] at this; cases this
  | some fs =>
    cases h2 : fs[i]? with
    | none => have := h []; rw [h1] at this; simp only [Option.bind_some, h2] at this; cases this
    | some f =>
      refine ⟨f, by simp [h2], fun its => ?_⟩
      have := h its
      rw [h1] at this
      simpa [h2] using this

theorem relReds_typed {k : Method} {dbg : Bool} {D : Decls T} {S eof : T} {t : Tabler T}
    (ht : Makes k dbg D S eof t) {P : T → M → Prop} {maps : ReductMap M T} (hm : TypedReds P D maps) :
    RelReds (fun x v (_ : Unit) => P x v) D maps (Parser.empty t) := by
  intro A i b hp
  obtain ⟨f, h1, h2⟩ := hm A i b hp
  obtain ⟨g, h3, h4⟩ := empty_some ht hp
  rw [h1, h3]
  intro its its' hty hrel
  obtain ⟨v, h5, h6⟩ := h2 its hty (relToks_all hrel)
  rw [h5, h4]
  exact h6

/-- C104: if the tokens have values allowed for their types, and every reductor turns allowed values into an
allowed value, no reductor ever sees a value it cannot handle: `parse` does not panic; it returns a value allowed
for the last symbol of the start rule, the error that `validate` stops at, or loops if `validate` does. -/
theorem C104_typed {k : Method} {dbg : Bool} {D : Decls T} {S eof : T} {t : Tabler T}
    (ht : Makes k dbg D S eof t) (he : Terminal D eof) {P : T → M → Prop} {maps : ReductMap M T}
    (hm : TypedReds P D maps) {toks : List (Token M T)} (hT : TerminalToks D toks)
    (hP : ∀ tok ∈ toks, P tok.ty tok.item) :
    (∀ p, ¬ Panics (fun n => Parser.parse t n toks maps) p) ∧
    (∀ v, Parses t maps toks (.ok v) → ∃ i b X, IsProd D S i (b ++ [X]) ∧ P X v) ∧
    ((∃ v, Parses t maps toks (.ok v)) ↔ Validates t (typesOnly toks) true) ∧
    (∀ e, Parses t maps toks (.error e) ↔ Parses t (Parser.empty t) (typesOnly toks) (.error e)) ∧
    (Diverges (fun n => Parser.parse t n toks maps) ↔
      Diverges (fun n => Parser.parse t n (typesOnly toks) (Parser.empty t))) := by
  obtain ⟨h1, h2, h3, h4, h5⟩ := C104_related ht he (relReds_typed ht hm) hT (relToks_bare hP)
  have hT' : TerminalToks D (typesOnly toks) := by
    intro tok htok
    obtain ⟨tok0, h, rfl⟩ := List.mem_map.mp htok
    exact hT tok0 h
  refine ⟨fun p hp => ?_, fun v hv => ?_, ?_, fun e => (h3 e).symm, h5.symm⟩
  · exact (C26_no_panic ht he ((C26_validate ht).evaluates (typesOnly toks)) hT').1 p ((h4 p).mpr hp)
  · obtain ⟨_, _, h⟩ := h1 v hv
    exact h
  · rw [validates_true]
    constructor
    · rintro ⟨v, hv⟩
      obtain ⟨w, hw, _⟩ := h1 v hv
      exact hw
    · intro hw
      obtain ⟨v, hv, _⟩ := h2 () hw
      exact ⟨v, hv⟩

theorem relToks_map (h : T → M → N) : ∀ (toks : List (Token M T)),
    RelToks (fun x v w => w = h x v) toks (toks.map fun t => ⟨h t.ty t.item, t.ty⟩)
  | [] => .nil
  | ⟨_, _⟩ :: ts => .cons rfl (relToks_map h ts)

theorem relToks_map_eq (h : T → M → N) {as : List (Token M T)} {bs : List (Token N T)}
    (hr : RelToks (fun x v w => w = h x v) as bs) : bs = as.map fun t => ⟨h t.ty t.item, t.ty⟩ := by
  induction hr with
  | nil => rfl
  | cons h1 _ ih => rw [h1, ih]; rfl

/-- C104: translating the values before or after the parse is the same. If `h` turns what the reductors of `maps`
return into what those of `maps'` return on translated items, then `parse` with `maps'` on the translated tokens
returns the translated value (at the last symbol of the start rule). -/
theorem C104_translated {k : Method} {dbg : Bool} {D : Decls T} {S eof : T} {t : Tabler T}
    (ht : Makes k dbg D S eof t) (he : Terminal D eof) (h : T → M → N) {maps : ReductMap M T}
    {maps' : ReductMap N T}
    (hm : ∀ A i b, IsProd D A i b → ∃ r r', (maps.get? A).bind (·[i]?) = some r ∧
      (maps'.get? A).bind (·[i]?) = some r' ∧ ∀ its, its.map Token.ty = b →
        r' (its.map fun it => ⟨h it.ty it.item, it.ty⟩) = (r its).map (h A))
    {toks : List (Token M T)} (hT : TerminalToks D toks) {v : M} (hv : Parses t maps toks (.ok v)) :
    ∃ i b X, IsProd D S i (b ++ [X]) ∧
      Parses t maps' (toks.map fun tok => ⟨h tok.ty tok.item, tok.ty⟩) (.ok (h X v)) := by
  have hrel : RelReds (fun x v w => w = h x v) D maps maps' := by
    intro A i b hp
    obtain ⟨r, r', h1, h2, h3⟩ := hm A i b hp
    rw [h1, h2]
    intro its its' hty hr
    rw [relToks_map_eq h hr, h3 its hty]
    cases r its with
    | none => trivial
    | some v => rfl
  obtain ⟨h1, _⟩ := C104_related ht he hrel hT (relToks_map h toks)
  obtain ⟨w, hw, i, b, X, hX, rfl⟩ := h1 v hv
  exact ⟨i, b, X, hX, hw⟩

/-! ### An example: values of two kinds -/

/-- The value of an expression, or of a piece of punctuation. -/
inductive Val where
  | num (n : Nat)
  | mark
  deriving DecidableEq

/-- Reductors that panic on values of the wrong kind. -/
def valReds : ReductMap Val Nat :=
  [(0, [fun l => match l with | [⟨.num a, _⟩] => some (.num a) | _ => none]),
   (1, [fun l => match l with | [⟨.num a, _⟩, ⟨.mark, _⟩, ⟨.num b, _⟩] => some (.num (a + b)) | _ => none,
        fun l => match l with | [⟨.num a, _⟩] => some (.num a) | _ => none]),
   (2, [fun l => match l with | [⟨.num a, _⟩, ⟨.mark, _⟩, ⟨.num b, _⟩] => some (.num (a * b)) | _ => none,
        fun l => match l with | [⟨.num a, _⟩] => some (.num a) | _ => none]),
   (3, [fun l => match l with | [⟨.mark, _⟩, ⟨.num a, _⟩, ⟨.mark, _⟩] => some (.num a) | _ => none,
        fun l => match l with | [⟨.num a, _⟩] => some (.num a) | _ => none])]

/-- Expressions and identifiers are numbers, the rest is punctuation. -/
def Kind (x : Nat) (v : Val) : Prop := if x < 10 ∨ x = 14 then ∃ n, v = .num n else v = .mark

theorem valReds_typed : TypedReds Kind Samples.expr valReds := by
  have one : ∀ (x : Nat) (its : List (Token Val Nat)), (x < 10 ∨ x = 14) → its.map Token.ty = [x] →
      (∀ it ∈ its, Kind it.ty it.item) → ∃ n, its = [⟨.num n, x⟩] := by
    intro x its hx h hP
    match its with
    | [⟨v, y⟩] =>
      simp only [List.map_cons, List.map_nil, List.cons.injEq, and_true] at h
      subst h
      have := hP _ List.mem_cons_self
      simp only [Kind, hx, if_true] at this
      obtain ⟨n, rfl⟩ := this
      exact ⟨n, rfl⟩
  have three : ∀ (x y z : Nat) (its : List (Token Val Nat)), its.map Token.ty = [x, y, z] →
      (∀ it ∈ its, Kind it.ty it.item) →
      ∃ a b c, its = [⟨a, x⟩, ⟨b, y⟩, ⟨c, z⟩] ∧ Kind x a ∧ Kind y b ∧ Kind z c := by
    intro x y z its h hP
    match its with
    | [⟨a, x'⟩, ⟨b, y'⟩, ⟨c, z'⟩] =>
      simp only [List.map_cons, List.map_nil, List.cons.injEq, and_true] at h
      obtain ⟨rfl, rfl, rfl⟩ := h
      exact ⟨a, b, c, rfl, hP ⟨a, _⟩ (by simp), hP ⟨b, _⟩ (by simp), hP ⟨c, _⟩ (by simp)⟩
  have num : ∀ {x : Nat} {v : Val}, (x < 10 ∨ x = 14) → Kind x v → ∃ n, v = .num n := by
    intro x v hx h; simpa only [Kind, hx, if_true] using h
  have mark : ∀ {x : Nat} {v : Val}, ¬ (x < 10 ∨ x = 14) → Kind x v → v = .mark := by
    intro x v hx h; simpa only [Kind, hx, if_false] using h
  intro A i b hp
  obtain ⟨d, h1, h2, h3⟩ := Samples.mem_of_isProd hp
  simp only [Samples.expr, List.mem_cons, List.not_mem_nil, or_false] at h1
  have hk := (List.getElem?_eq_some_iff.mp h3).1
  rcases h1 with rfl | rfl | rfl | rfl <;> simp only at h2 h3 hk <;> subst h2
  · obtain rfl : i = 0 := by simpa using hk
    simp only [List.getElem?_cons_zero, Option.some.injEq] at h3
    subst h3
    refine ⟨_, rfl, fun its hty hP => ?_⟩
    obtain ⟨n, rfl⟩ := one _ its (by decide) hty hP
    exact ⟨_, rfl, n, rfl⟩
  all_goals
    obtain rfl | rfl : i = 0 ∨ i = 1 := by simp at hk; omega
    · simp only [List.getElem?_cons_zero, Option.some.injEq] at h3
      subst h3
      refine ⟨_, rfl, fun its hty hP => ?_⟩
      obtain ⟨a, b, c, rfl, ka, kb, kc⟩ := three _ _ _ its hty hP
      first
      | obtain ⟨a, rfl⟩ := num (by decide) ka
        obtain rfl := mark (by decide) kb
        obtain ⟨c, rfl⟩ := num (by decide) kc
        exact ⟨_, rfl, _, rfl⟩
      | obtain rfl := mark (by decide) ka
        obtain ⟨b, rfl⟩ := num (by decide) kb
        obtain rfl := mark (by decide) kc
        exact ⟨_, rfl, _, rfl⟩
    · simp only [List.getElem?_cons_succ, List.getElem?_cons_zero, Option.some.injEq] at h3
      subst h3
      refine ⟨_, rfl, fun its hty hP => ?_⟩
      obtain ⟨n, rfl⟩ := one _ its (by decide) hty hP
      exact ⟨_, rfl, n, rfl⟩

/-- Not vacuous: these reductors panic on items of the right types with values of the wrong kind, and still
`parse` panics on no input whose identifiers are numbers and whose punctuation is not. -/
example : redOf valReds 2 1 [⟨.mark, 3⟩] = none ∧ ∀ toks : List (Token Val Nat),
    TerminalToks Samples.expr toks → (∀ tok ∈ toks, Kind tok.ty tok.item) →
      ∀ p, ¬ Panics (fun n => Parser.parse exprClr n toks valReds) p :=
  ⟨rfl, fun _ hT hP => (C104_typed makes_exprClr expr_eof valReds_typed hT hP).1⟩

/-- Not vacuous: computing with remainders modulo seven gives the remainder of the value. -/
example (toks : List (Token Nat Nat)) (hT : TerminalToks Samples.expr toks) (v : Nat)
    (hv : Parses exprClr exprReds toks (.ok v)) :
    Parses exprClr (exprReds.map fun e => (e.1, e.2.map fun r its => (r its).map (· % 7)))
      (toks.map fun tok => ⟨tok.item % 7, tok.ty⟩) (.ok (v % 7)) := by
  suffices hm : _ by
    obtain ⟨_, _, _, _, h⟩ := C104_translated makes_exprClr expr_eof (fun _ n => n % 7)
      (maps' := exprReds.map fun e => (e.1, e.2.map fun r its => (r its).map (· % 7))) hm hT hv
    exact h
  intro A i b hp
  obtain ⟨d, h1, h2, h3⟩ := Samples.mem_of_isProd hp
  simp only [Samples.expr, List.mem_cons, List.not_mem_nil, or_false] at h1
  have hk := (List.getElem?_eq_some_iff.mp h3).1
  rcases h1 with rfl | rfl | rfl | rfl <;> simp only at h2 h3 hk <;> subst h2
  · obtain rfl : i = 0 := by simpa using hk
    exact ⟨_, _, rfl, rfl, fun _ _ => rfl⟩
  all_goals
    rcases (by simp at hk; omega : i = 0 ∨ i = 1) with rfl | rfl
    · simp only [List.getElem?_cons_zero, Option.some.injEq] at h3
      subst h3
      refine ⟨_, _, rfl, rfl, fun its hty => ?_⟩
      have hl := congrArg List.length hty
      simp only [List.length_map, List.length_cons, List.length_nil] at hl
      match its, hl with
      | [_, _, _], _ => simp [Nat.add_mod, Nat.mul_mod]
    · simp only [List.getElem?_cons_succ, List.getElem?_cons_zero, Option.some.injEq] at h3
      subst h3
      refine ⟨_, _, rfl, rfl, fun its hty => ?_⟩
      have hl := congrArg List.length hty
      simp only [List.length_map, List.length_cons, List.length_nil] at hl
      match its, hl with
      | [_], _ => simp

end Lrp.Props
