import Verif.Proofs.Text
import Verif.Props.Lalr
import Verif.Props.Errors

/-! C82: the texts of items, states, actions and errors say which ones they are. -/

set_option linter.unusedSectionVars false

namespace Lrp.Props
open Spec Text
set_option maxRecDepth 100000

variable {T : Type} [LinOrd T] [DecidableEq T]

theorem nodup_getElem {α : Type} {l : List α} (h : l.Nodup) {i j : Nat} (hi : i < l.length) (hj : j < l.length)
    (e : l[i] = l[j]) : i = j := by
  rw [List.nodup_iff_pairwise_ne, List.pairwise_iff_getElem] at h
  rcases Nat.lt_trichotomy i j with hlt | rfl | hlt
  · exact absurd e (h i j hi hj hlt)
  · rfl
  · exact absurd e.symm (h j i hj hi hlt)

/-- No two states of a table are equal. -/
theorem states_unique {k : Method} {dbg : Bool} {D : Decls T} {S eof : T} {t : Tabler T}
    (ht : Makes k dbg D S eof t) {i j : Nat} {s : State T} (hi : t.states[i]? = some s)
    (hj : t.states[j]? = some s) : i = j := by
  have go : t.states.Nodup → i = j := by
    intro h
    obtain ⟨hi', ei⟩ := List.getElem?_eq_some_iff.mp hi
    obtain ⟨hj', ej⟩ := List.getElem?_eq_some_iff.mp hj
    exact nodup_getElem h hi' hj' (ei.trans ej.symm)
  obtain ⟨g, hg, n, hb⟩ := ht
  cases k with
  | slr => exact go (C17_slr hg hb).nodup
  | clr => exact go (C17_clr hg hb).nodup
  | lalr =>
    obtain ⟨l, hl, e⟩ := Out.bind_eq_ok.mp hb
    cases e
    exact (C17_lalr hg hl).nodup i j s s hi hj (fun _ => Iff.rfl)

/-- The items of a table have their points inside. -/
theorem states_inside {k : Method} {dbg : Bool} {D : Decls T} {S eof : T} {t : Tabler T}
    (ht : Makes k dbg D S eof t) {i : Nat} {s : State T} (hi : t.states[i]? = some s) : Inside s := by
  obtain ⟨_, _, _, ha, _⟩ := ht.auto
  exact fun p hp => (ha.prod hi hp).2

/-- C82, what the items of a table look like: the name of the rule, an equals sign, the body with the point at
its place, and the set of lookaheads. -/
theorem C82_item {k : Method} {dbg : Bool} {D : Decls T} {S eof : T} {t : Tabler T}
    (ht : Makes k dbg D S eof t) (fmt : T → List Char) {i : Nat} {s : State T} (hi : t.states[i]? = some s)
    {A : T} {b c : List T} {m : Nat} {L : OSet T}
    (hp : { rule := A, seq := (b ++ c, m), point := b.length, look := L } ∈ s) :
    position fmt { rule := A, seq := (b ++ c, m), point := b.length, look := L } =
      fmt A ++ [' ', '='] ++ spaced fmt b ++ [' ', '.', ' '] ++
      (match (generalizing := false) c with
        | [] => []
        | x :: xs => fmt x ++ spaced fmt xs ++ [' ']) ++
      ' ' :: debugList '{' '}' fmt L := by
  have h := states_inside ht hi _ hp
  have e := position_eq fmt h
  simp only [List.take_left, List.drop_left] at e
  exact e

/-- C82 for items: those of a table with the same text are the same, but for the number of the alternative. -/
theorem C82_items {k : Method} {dbg : Bool} {D : Decls T} {S eof : T} {t : Tabler T}
    (ht : Makes k dbg D S eof t) {fmt : T → List Char} (hf : Legible fmt Eq) {i j : Nat} {s s' : State T}
    (hi : t.states[i]? = some s) (hj : t.states[j]? = some s') {p q : Position T} (hp : p ∈ s) (hq : q ∈ s')
    (e : position fmt p = position fmt q) : SameItem p q := by
  refine (position_split hf (states_inside ht hi _ hp) (states_inside ht hj _ hq) (u := []) (v := []) ?_).1
  rw [e]

/-- C82 for states: different states of a table have different texts. -/
theorem C82_states {k : Method} {dbg : Bool} {D : Decls T} {S eof : T} {t : Tabler T}
    (ht : Makes k dbg D S eof t) (hD : ∀ d ∈ D, d.2.Nodup) {fmt : T → List Char} (hf : Legible fmt Eq)
    {i j : Nat} {s s' : State T} (hi : t.states[i]? = some s) (hj : t.states[j]? = some s')
    (e : state fmt s = state fmt s') : i = j := by
  have h := (state_split hf (states_inside ht hi) (states_inside ht hj) (u := []) (v := [])
    (by rw [e])).1
  obtain ⟨_, _, _, ha, _⟩ := ht.auto
  have key : ∀ {s s' : State T}, Forall2 SameItem s s' →
      (∀ p ∈ s, IsProd D p.rule p.seq.2 p.seq.1) → (∀ p ∈ s', IsProd D p.rule p.seq.2 p.seq.1) → s = s' := by
    intro s s' h
    induction h with
    | nil => intros; rfl
    | @cons p q s s' hpq _ ih =>
      intro hs hs'
      rw [ih (fun x hx => hs x (.tail _ hx)) (fun x hx => hs' x (.tail _ hx))]
      have hp := hs p (.head _)
      have hq := hs' q (.head _)
      obtain ⟨rule, ⟨body, m⟩, point, look⟩ := p
      obtain ⟨rule', ⟨body', m'⟩, point', look'⟩ := q
      obtain ⟨h1, h2, h3, h4⟩ := hpq
      simp only at h1 h2 h3 h4 hp hq
      subst h1; subst h2; subst h3; subst h4
      obtain ⟨bs, hb, hm⟩ := hp
      obtain ⟨bs', hb', hm'⟩ := hq
      have hbs : bs = bs' := hb.unique hb'
      subst hbs
      obtain ⟨k1, k2⟩ := List.getElem?_eq_some_iff.mp hm
      obtain ⟨k3, k4⟩ := List.getElem?_eq_some_iff.mp hm'
      have hn : bs.Nodup := by
        obtain ⟨pre, post, he, _⟩ := hb
        exact hD (rule, bs) (by rw [he]; simp)
      have : m = m' := nodup_getElem hn k1 k3 (k2.trans k4.symm)
      subst this
      rfl
  have : s = s' := key h (fun p hp => (ha.prod hi hp).1) (fun p hp => (ha.prod hj hp).1)
  subst this
  exact states_unique ht hi hj

/-- C82 for the cells of tables. -/
theorem C82_actions {fmt : T → List Char} (hf : Legible fmt Eq) {a b : Action T}
    (e : action fmt a = action fmt b) : a = b :=
  (action_split hf a b [] [] (by rw [e])).1

/-- C82 for errors. -/
theorem C82_errors {fmt : T → List Char} (hf : Legible fmt Eq) {a b : Error T}
    (e : error fmt a = error fmt b) : a = b := error_inj hf e

/-- The symbols may be written as numbers, as different words, or as quoted strings. -/
theorem C82_legible :
    Legible decimal Eq ∧
    (∀ {α : Type} (fmt : α → List Char), (∀ a b, fmt a = fmt b → a = b) → (∀ a, fmt a ≠ []) →
      (∀ a, ∀ c ∈ fmt a, c ∉ [' ', ',', '.', ')', ']', '}']) → Legible fmt Eq) ∧
    ∀ (esc : Char → List Char), (∀ c d u v, esc c ++ u = esc d ++ v → c = d ∧ u = v) →
      (∀ c, ∃ x r, esc c = x :: r ∧ x ≠ '"') →
      Legible (fun s : List Char => '"' :: s.flatMap esc ++ ['"']) Eq :=
  ⟨legible_decimal, fun _ => legible_words, fun _ => legible_quoted⟩

/-- Not vacuous: the expression grammar, its Slr table, and numbers. -/
example : Makes .slr true Samples.expr 0 99 exprSlr ∧ (∀ d ∈ Samples.expr, d.2.Nodup) ∧
    exprSlr.states.length = 12 ∧
    (exprSlr.states[1]?.map (state decimal)).isSome :=
  ⟨makes_exprSlr, by decide, exprSlr_ok.2.1, by decide +kernel⟩

/-- The quotes are needed: a symbol written as `a, b` makes two different errors look alike. -/
example : ¬ Legible (fun b : Bool => if b then ['a'] else ['a', ',', ' ', 'a']) Eq ∧
    error (fun b : Bool => if b then ['a'] else ['a', ',', ' ', 'a']) (.unexpectedToken true [true, true]) =
      error (fun b : Bool => if b then ['a'] else ['a', ',', ' ', 'a']) (.unexpectedToken true [false]) := by
  refine ⟨fun h => ?_, by decide⟩
  have := h.split true false [',', ' ', 'a', ']'] [']'] ⟨',', _, rfl, by decide⟩ ⟨']', _, rfl, by decide⟩ rfl
  cases this.1

/-- A text: rule `E = E + T` of the expression grammar with the point after the `+`. -/
example : position decimal { rule := 1, seq := ([1, 10, 2], 0), point := 2, look := [10, 99] } =
    ['1', ' ', '=', ' ', '1', ' ', '1', '0', ' ', '.', ' ', '2', ' ', ' ', '{', '1', '0', ',', ' ', '9', '9',
      '}'] := by decide +kernel

end Lrp.Props
