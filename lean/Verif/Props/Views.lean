import Verif.Proofs.Views
import Verif.Props.Errors

/-!
Properties of what a parser shows: C53 to C57 — the keys of FIRST and FOLLOW, the tables printed by
src/main.rs, the printed stack, the `cloned` reductors.
-/

set_option linter.unusedSectionVars false
set_option maxRecDepth 100000

namespace Lrp.Props
open Spec
variable {T : Type} [LinOrd T] [DecidableEq T] {M : Type}

/-! ### C53: the keys of FIRST and FOLLOW -/

/-- C53: FIRST has an entry for every nonterminal and nothing else; FOLLOW has one for the start symbol
and for the nonterminals with a context. -/
theorem C53_keys {k : Method} {dbg : Bool} {D : Decls T} {S eof : T} {t : Tabler T}
    (ht : Makes k dbg D S eof t) (A : T) :
    ((∃ s, t.first.get? A = some s) ↔ Nonterminal D A) ∧
    ((∃ s, t.follow.get? A = some s) ↔ Nonterminal D A ∧ HasContext D S A) :=
  ⟨ht.of.firstT.keys A, (ht.of.followKey A).trans (followKey_iff ht.start)⟩

/-- C53 for the printed table: if every nonterminal has a context, every nonterminal has a row and
each row shows the FIRST and FOLLOW sets of its nonterminal. -/
theorem C53_printed {k : Method} {dbg : Bool} {D : Decls T} {S eof : T} {t : Tabler T}
    (ht : Makes k dbg D S eof t) (hc : ∀ A, Nonterminal D A → HasContext D S A) :
    (∀ A, Nonterminal D A → ∃ r ∈ Main.tokensTable t, r.1 = A) ∧
    ∀ r ∈ Main.tokensTable t, t.first.get? r.1 = some r.2.1 ∧ t.follow.get? r.1 = some r.2.2 := by
  have hk : t.first.keys = t.follow.keys := keys_eq ht.of.firstT.sorted ht.of.followT.sorted
    (fun A => by
      rw [(C53_keys ht A).1, (C53_keys ht A).2]
      exact ⟨fun h => ⟨h, hc A h⟩, fun h => h.1⟩)
  constructor
  · intro A hA
    obtain ⟨s, hs⟩ := (C53_keys ht A).1.mpr hA
    have hm := OMap.mem_of_get? hs
    rw [← zip_values_fst hk] at hm
    obtain ⟨e, he, e1⟩ := List.mem_map.mp hm
    exact ⟨_, List.mem_map.mpr ⟨e, he, rfl⟩, by rw [e1]⟩
  · intro r hr
    obtain ⟨⟨e, w⟩, he, rfl⟩ := List.mem_map.mp hr
    obtain ⟨h1, h2⟩ := mem_zip_values hk he
    exact ⟨OMap.get?_of_mem ht.of.firstT.sorted h1, OMap.get?_of_mem ht.of.followT.sorted h2⟩

/-- Not vacuous: the expression grammar. -/
example : ∃ t, Makes .slr true Samples.expr 0 99 t ∧
    ∀ A, Nonterminal Samples.expr A → HasContext Samples.expr 0 A := by
  have hg : Grammar.new true 0 (grammarMap Samples.expr) 99 = .ok (Samples.grammar Samples.expr) := by
    decide +kernel
  have h : ∃ t, Slr.new true 50 (Samples.grammar Samples.expr) = .ok t := ⟨_, rfl⟩
  obtain ⟨t, h⟩ := h
  refine ⟨t, ⟨_, hg, 50, h⟩, ?_⟩
  rintro A ⟨d, hd, rfl⟩
  simp only [Samples.expr, List.mem_cons, List.not_mem_nil, or_false] at hd
  rcases hd with rfl | rfl | rfl | rfl
  · exact Or.inl rfl
  · exact Or.inr ⟨0, 0, [], [], ⟨_, ⟨[], _, rfl, by decide⟩, rfl⟩, Or.inr (by decide)⟩
  · exact Or.inr ⟨1, 1, [], [], ⟨_, ⟨[_], _, rfl, by decide⟩, rfl⟩, Or.inr (by decide)⟩
  · exact Or.inr ⟨2, 1, [], [], ⟨_, ⟨[_, _], _, rfl, by decide⟩, rfl⟩, Or.inr (by decide)⟩

/-- Without the hypothesis the printed table is wrong: `B` occurs in no body, and the row of `B`
shows FOLLOW of `C`; `C` has no row. -/
theorem C53_needs_context : ∃ t, Makes .slr true Samples.unused 0 99 t ∧
    (∃ r ∈ Main.tokensTable t, t.follow.get? r.1 ≠ some r.2.2) ∧
    Nonterminal Samples.unused 3 ∧ ∀ r ∈ Main.tokensTable t, r.1 ≠ 3 := by
  have hg : Grammar.new true 0 (grammarMap Samples.unused) 99 =
    .ok (Samples.grammar Samples.unused) := by decide +kernel
  have h : ∃ t, Slr.new true 50 (Samples.grammar Samples.unused) = .ok t ∧
      (∃ r ∈ Main.tokensTable t, t.follow.get? r.1 ≠ some r.2.2) ∧
      ∀ r ∈ Main.tokensTable t, r.1 ≠ 3 := by
    refine ⟨_, rfl, ?_⟩
    decide +kernel
  obtain ⟨t, h1, h2, h3⟩ := h
  exact ⟨t, ⟨_, hg, 50, h1⟩, h2, by unfold Nonterminal; decide, h3⟩

/-! ### C54: kernels of transitions -/

/-- C54: for every state and every symbol after a point in it, the printed table of states has a row;
every row names a state and is a transition of the table of actions; printing does not panic.  For
`Slr` and `Clr`. -/
theorem C54_slr_clr {k : Method} {dbg : Bool} {D : Decls T} {S eof : T} {t : Tabler T}
    (ht : Makes k dbg D S eof t) (hk : k ≠ .lalr) :
    ∃ rows, Main.statesTable some (stateFromKernel t) t = .ok rows ∧
      (∀ r ∈ rows, t.states[r.target]? = some r.closure ∧ Leads t r.state r.sym r.target) ∧
      ∀ (i : Nat) s p x, t.states[i]? = some s → p ∈ s → After p x →
        ∃ r ∈ rows, r.state = i ∧ r.sym = x := by
  have hgr := ht.grammar
  obtain ⟨g, hg, n, hb⟩ := ht
  cases k with
  | lalr => exact absurd rfl hk
  | slr =>
    have hb := Slr.built (Grammar.of_new hg) hb
    obtain ⟨b0, hb0, _⟩ := hb.basis_eq
    refine statesTable_ok (hb.auto hb0) hgr (fun hs hp htop => ?_)
    obtain ⟨j, _, h1, _⟩ := (hb.auto hb0).edge hs hp htop
    exact ⟨_, j, rfl, h1, h1⟩
  | clr =>
    have hb := Clr.built (Grammar.of_new hg) hb
    obtain ⟨b0, hb0, _⟩ := hb.basis_eq
    refine statesTable_ok (hb.auto hb0) hgr (fun hs hp htop => ?_)
    obtain ⟨j, _, h1, _⟩ := (hb.auto hb0).edge hs hp htop
    exact ⟨_, j, rfl, h1, h1⟩

/-- C54 for `Lalr`, whose `final_kernel` goes through the merged kernels. -/
theorem C54_lalr {dbg : Bool} {n : Nat} {D : Decls T} {S eof : T} {g : Grammar T} {l : Lalr T}
    (hg : Grammar.new dbg S (grammarMap D) eof = .ok g) (hl : Lalr.new dbg n g = .ok l) :
    ∃ rows, Main.statesTable l.finalKernel l.stateFromKernel l.table = .ok rows ∧
      (∀ r ∈ rows, l.table.states[r.target]? = some r.closure ∧
        Leads l.table r.state r.sym r.target) ∧
      ∀ (i : Nat) s p x, l.table.states[i]? = some s → p ∈ s → After p x →
        ∃ r ∈ rows, r.state = i ∧ r.sym = x := by
  obtain ⟨t0, _, hb, _⟩ := Lalr.built (Grammar.of_new hg) hl
  obtain ⟨b0, hb0, _⟩ := hb.of.grammar.basis
  have hgr := hb.of.grammar
  rw [← hb.grammar] at hgr
  exact statesTable_ok (hb.auto hb0) hgr (fun hs hp htop => hb.kernel hs hp htop)

/-- Not vacuous: the printed table of states of the expression grammar has 22 rows. -/
example : ∃ l, Lalr.new true 500 (Samples.grammar Samples.expr) = .ok l ∧
    (match Main.statesTable l.finalKernel l.stateFromKernel l.table with
      | .ok rows => rows.length | _ => 0) = 22 := by
  refine ⟨_, rfl, ?_⟩
  decide +kernel

/-! ### C55: the printed stack -/

/-- C55: at every moment of a run on terminal tokens, `stack_fmt` writes, from the bottom to the top,
state 0 and then symbols, each followed by the state the table leads to from the state before it. -/
theorem C55_stack {k : Method} {dbg : Bool} {D : Decls T} {S eof : T} {t : Tabler T}
    (ht : Makes k dbg D S eof t) (he : Terminal D eof) {maps : ReductMap M T}
    {toks : List (Token M T)} (hT : TerminalToks D toks) {d : Dfa M T} (hd : Reached t maps toks d)
    (fs : Nat → String) (ft : T → String) :
    ∃ rest, Chain t 0 rest ∧ d.items.reverse.map Token.ty = rest.map Prod.fst ∧
      d.states.reverse = 0 :: rest.map Prod.snd ∧
      d.stackFmt fs ft = " ".intercalate (fs 0 :: rest.flatMap (fun e => [ft e.1, fs e.2])) := by
  obtain ⟨b0, next, red, ha, _⟩ := ht.auto
  have key : ∃ (c : Conf M T) (d0 : Dfa M T), Moves t.actions eof ⟨[0], [], toks⟩ c ∧
      Sim t.actions eof maps d0 c ∧ d.items = d0.items ∧ d.states = d0.states := by
    obtain ⟨c, hm, hs | ⟨d0, hs, _, rfl⟩⟩ := ha.reached ht.eofHead he hT hd
    · exact ⟨c, d, hm, hs, rfl, rfl⟩
    · exact ⟨c, d0, hm, hs, rfl, rfl⟩
  obtain ⟨c, d0, hm, hs, e1, e2⟩ := key
  have hi := ha.inv_moves (inv_init D t.states next toks) hm
  obtain ⟨rest, h1, h2, h3⟩ := ha.chain hi.path
  have h5 : d.items.reverse.map Token.ty = rest.map Prod.fst := by
    rw [List.map_reverse, e1, item_types hs.items, h3]
  have h6 : d.states.reverse = 0 :: rest.map Prod.snd := by rw [e2, hs.states, h2]
  refine ⟨rest, h1, h5, h6, ?_⟩
  unfold Dfa.stackFmt
  rw [h6, stackPieces_eq fs ft 0 rest _ h5]

/-- Not vacuous: the stack of the expression parser after the first token. -/
example : ∃ t d, Makes .slr true Samples.expr 0 99 t ∧
    Reached t (Parser.empty t) (Samples.toks [14, 10]) d ∧ d.states.length = 2 := by
  have hg : Grammar.new true 0 (grammarMap Samples.expr) 99 = .ok (Samples.grammar Samples.expr) := by
    decide +kernel
  have h : ∃ t, Slr.new true 50 (Samples.grammar Samples.expr) = .ok t ∧
      ∃ row, t.actions[0]? = some row ∧ ∃ j, row.get? 14 = some (.shift j) := by
    refine ⟨_, rfl, _, rfl, ?_⟩
    exact ⟨_, rfl⟩
  obtain ⟨t, h1, row, h2, j, h3⟩ := h
  have hm : Makes .slr true Samples.expr 0 99 t := ⟨_, hg, 50, h1⟩
  have hs : ∃ d', Dfa.travel 1 (Dfa.new (Samples.toks [14, 10]) t.actions (Parser.empty t) 99) 14 =
      .ok (d', .ok ()) ∧ d'.states.length = 2 := by
    simp only [Dfa.travel, Dfa.new, h2, h3, Samples.toks, List.map_cons, Dfa.shift]
    exact ⟨_, rfl, rfl⟩
  obtain ⟨d', h4, h5⟩ := hs
  exact ⟨t, d', hm, .step (.init (hm.dfa _ _)) rfl h4, h5⟩

/-! ### C56: cloned -/

/-- C56: the `cloned` reductors serve every production and do not panic. -/
theorem C56_total {k : Method} {dbg : Bool} {D : Decls T} {S eof : T} {t : Tabler T}
    (ht : Makes k dbg D S eof t) : Reductors D (Parser.cloned t) := by
  intro A i its hp
  unfold Parser.cloned
  rw [redOf_transparent ht.grammar _ hp]
  cases its with
  | nil => exact absurd rfl (ht.noEmpty A i _ hp)
  | cons it its => exact ⟨it.ty, rfl⟩

/-- C56: with the `cloned` reductors a parse returns, for the last child of the root of a parse tree
of the input, the value of the token or the symbol of its first child. -/
theorem C56_value {k : Method} {dbg : Bool} {D : Decls T} {S eof : T} {t : Tabler T}
    (ht : Makes k dbg D S eof t) (hS : InNoBody D S) (he : Terminal D eof)
    {toks : List (Token T T)} {v : T} (h : Parses t (Parser.cloned t) toks (.ok v)) :
    ∃ cs last, Tree.Valid D (.node S 0 (cs ++ [last])) ∧ Tree.yields (cs ++ [last]) = toks ∧
      clonedValue last = some v := by
  obtain ⟨cs, last, h1, h2, h3⟩ := C24_value ht hS he h
  refine ⟨cs, last, h1, h2, cloned_eval ht.grammar ?_ h3⟩
  cases h1 with
  | node _ hc => exact hc last (by simp)

/-- The value in a result. -/
def valueOf (r : Out (Except (Error T) M)) : Option M :=
  match r with
  | .ok (.ok v) => some v
  | _ => none

theorem valueOf_eq {r : Out (Except (Error T) M)} {v : M} (h : valueOf r = some v) :
    r = .ok (.ok v) := by
  match r, h with
  | .ok (.ok v), h => simp only [valueOf, Option.some.injEq] at h; rw [h]

/-- Not vacuous: `id + id` under the expression grammar gives `E`, the first child of the root. -/
example : ∃ t, Makes .slr true Samples.expr 0 99 t ∧
    Parses t (Parser.cloned t) [⟨50, 14⟩, ⟨51, 10⟩, ⟨52, 14⟩] (.ok 1) := by
  have hg : Grammar.new true 0 (grammarMap Samples.expr) 99 = .ok (Samples.grammar Samples.expr) := by
    decide +kernel
  have h : ∃ t, Slr.new true 50 (Samples.grammar Samples.expr) = .ok t ∧
      valueOf (Parser.parse t 50 [⟨50, 14⟩, ⟨51, 10⟩, ⟨52, 14⟩] (Parser.cloned t)) = some 1 := by
    refine ⟨_, rfl, ?_⟩
    decide +kernel
  obtain ⟨t, h1, h2⟩ := h
  exact ⟨t, ⟨_, hg, 50, h1⟩, 50, valueOf_eq h2⟩

/-! ### C57: the printed table of actions -/

/-- C57: no action is left out of the printed table: the titles are the symbols of the grammar, and
every symbol with a cell is one of them. -/
theorem C57_all_shown {k : Method} {dbg : Bool} {D : Decls T} {S eof : T} {t : Tabler T}
    (ht : Makes k dbg D S eof t) {i : Nat} {row : OMap T (Action T)} {x : T} {c : Action T}
    (hr : t.actions[i]? = some row) (hx : row.get? x = some c) : x ∈ Main.actionTitles t := by
  have := ht.keys hr hx
  unfold Main.actionTitles
  rw [split_eq, List.mem_append, OSet.mem_ofList, OSet.mem_ofList, List.mem_filter, List.mem_filter]
  cases h : t.grammar.isTerminal x
  · exact Or.inr ⟨this, rfl⟩
  · exact Or.inl ⟨this, rfl⟩

/-- C57: the columns of the terminals are right: under the title of a terminal, row `i` has the action
of state `i`.  The number of the state comes next, in a column of its own without a title; the action
of a nonterminal therefore stands one column to the right of its title. -/
theorem C57_columns (t : Tabler T) {i : Nat} {row : OMap T (Action T)}
    (hr : t.actions[i]? = some row) :
    ∃ cells, (Main.actionRows t)[i]? = some cells ∧
      cells.length = (Main.actionTitles t).length + 1 ∧
      cells[(Main.split t).1.length]? = some (.index i) ∧
      ∀ (c : Nat) x, (Main.actionTitles t)[c]? = some x →
        (c < (Main.split t).1.length → cells[c]? = some (.action (row.get? x))) ∧
        ((Main.split t).1.length ≤ c → cells[c + 1]? = some (.action (row.get? x))) := by
  refine ⟨_, by unfold Main.actionRows; rw [List.getElem?_map, List.getElem?_zipIdx, hr]; rfl,
    ?_, ?_, ?_⟩
  · unfold Main.actionTitles; simp; omega
  · simp
  · intro c x hx
    unfold Main.actionTitles at hx
    constructor
    · intro hc
      rw [List.getElem?_append_left (by simp; omega), List.getElem?_append_left (by simpa using hc)]
      rw [List.getElem?_append_left hc] at hx
      rw [List.getElem?_map, hx]; rfl
    · intro hc
      rw [List.getElem?_append_right hc] at hx
      rw [List.getElem?_append_right (by simp; omega)]
      simp only [List.length_append, List.length_map, List.length_cons, List.length_nil]
      rw [show c + 1 - ((Main.split t).1.length + (0 + 1)) = c - (Main.split t).1.length by omega,
        List.getElem?_map, hx]
      rfl

end Lrp.Props
