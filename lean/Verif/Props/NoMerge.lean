import Verif.Proofs.NoMerge
import Verif.Props.Ll1

/-! C71: how many states the tables have, and when Lalr builds the same table as Clr. -/

namespace Lrp.Props
open Spec
set_option maxRecDepth 100000

variable {T : Type} [LinOrd T] [DecidableEq T]

/-- What counting needs to know of a table. -/
theorem makes_auto {k : Method} {dbg : Bool} {D : Decls T} {S eof : T} {t : Tabler T} {g : Grammar T}
    {b0 : List T} (hg : g.Of D S eof) (hb0 : IsProd D S 0 b0) {n : Nat} (hb : k.build dbg n g = .ok t) :
    ∃ next red, Auto D S b0 t.states t.actions next red ∧ Reaches t.states next := by
  cases k with
  | slr => have hb := Slr.built hg hb; exact ⟨_, _, hb.auto hb0, hb.reaches⟩
  | clr => have hb := Clr.built hg hb; exact ⟨_, _, hb.auto hb0, hb.reaches⟩
  | lalr =>
    obtain ⟨l, hl, e⟩ := Out.bind_eq_ok.mp hb
    cases e
    obtain ⟨t0, _, hb, _⟩ := Lalr.built hg hl
    exact ⟨_, _, hb.auto hb0, hb.reaches⟩

theorem makes_basis {k : Method} {dbg : Bool} {D : Decls T} {S eof : T} {t : Tabler T} {g : Grammar T}
    (hg : g.Of D S eof) {n : Nat} (hb : k.build dbg n g = .ok t) : ∃ b0, IsProd D S 0 b0 := by
  cases k with
  | slr => obtain ⟨b0, h, _⟩ := (Slr.built hg hb).of.grammar.basis; exact ⟨b0, h⟩
  | clr => obtain ⟨b0, h, _⟩ := (Clr.built hg hb).of.grammar.basis; exact ⟨b0, h⟩
  | lalr =>
    obtain ⟨l, hl, e⟩ := Out.bind_eq_ok.mp hb
    cases e
    obtain ⟨t0, _, hb, _⟩ := Lalr.built hg hl
    obtain ⟨b0, h, _⟩ := hb.of.grammar.basis
    exact ⟨b0, h⟩

theorem lalr_core_inj {dbg : Bool} {D : Decls T} {S eof : T} {t : Tabler T}
    (h : Makes .lalr dbg D S eof t) : CoreInj t.states := by
  obtain ⟨g, hg, n, hb⟩ := h
  obtain ⟨l, hl, e⟩ := Out.bind_eq_ok.mp hb
  cases e
  obtain ⟨t0, _, hb, _⟩ := Lalr.built (Grammar.of_new hg) hl
  exact fun _ _ _ _ h1 h2 h3 => hb.core_inj h1 h2 h3

/-- A table whose states have different cores has at most as many states as any other table of the
grammar. -/
theorem count_le {k k' : Method} {dbg dbg' : Bool} {D : Decls T} {S eof : T} {t t' : Tabler T}
    (h : Makes k dbg D S eof t) (h' : Makes k' dbg' D S eof t') (hi : CoreInj t.states) :
    t.states.length ≤ t'.states.length := by
  obtain ⟨g, hg, n, hb⟩ := h
  obtain ⟨g', hg', n', hb'⟩ := h'
  obtain ⟨b0, hb0⟩ := makes_basis (Grammar.of_new hg) hb
  obtain ⟨_, _, ha, hr⟩ := makes_auto (Grammar.of_new hg) hb0 hb
  obtain ⟨_, _, ha', _⟩ := makes_auto (Grammar.of_new hg') hb0 hb'
  exact ha.count_le ha' hr hi

/-- C71: every state of a table has, in the table of any other method, a state with the same positions,
apart from lookaheads. -/
theorem C71_same_cores {k k' : Method} {dbg dbg' : Bool} {D : Decls T} {S eof : T} {t t' : Tabler T}
    (h : Makes k dbg D S eof t) (h' : Makes k' dbg' D S eof t') {i : Nat} {s : State T}
    (hs : t.states[i]? = some s) :
    ∃ (j : Nat) (s' : State T), t'.states[j]? = some s' ∧
      ∀ q, (∃ p ∈ s, bare p = q) ↔ ∃ p ∈ s', bare p = q := by
  obtain ⟨g, hg, n, hb⟩ := h
  obtain ⟨g', hg', n', hb'⟩ := h'
  obtain ⟨b0, hb0⟩ := makes_basis (Grammar.of_new hg) hb
  obtain ⟨_, _, ha, hr⟩ := makes_auto (Grammar.of_new hg) hb0 hb
  obtain ⟨_, _, ha', _⟩ := makes_auto (Grammar.of_new hg') hb0 hb'
  obtain ⟨j, s', hs', e⟩ := ha.same_cores ha' hr hs
  refine ⟨j, s', hs', fun q => ?_⟩
  have : q ∈ Lalr.withoutLook s ↔ q ∈ Lalr.withoutLook s' := by rw [e]
  rw [mem_core, mem_core] at this
  exact this

/-- C71: the Lalr table has no more states than the Clr table and the Slr table. -/
theorem C71_lalr_least {k : Method} {dbg dbg' : Bool} {D : Decls T} {S eof : T} {t t' : Tabler T}
    (h : Makes .lalr dbg D S eof t) (h' : Makes k dbg' D S eof t') :
    t.states.length ≤ t'.states.length := count_le h h' (lalr_core_inj h)

/-- C71: the Lalr table has as many states as the Slr table, if the starting rule occurs in no body. -/
theorem C71_lalr_slr {dbg dbg' : Bool} {D : Decls T} {S eof : T} {t t' : Tabler T}
    (h : Makes .lalr dbg D S eof t) (h' : Makes .slr dbg' D S eof t') (hS : InNoBody D S) :
    t.states.length = t'.states.length := by
  refine Nat.le_antisymm (C71_lalr_least h h') (count_le h' h ?_)
  obtain ⟨g, hg, n, hb⟩ := h'
  exact Slr.core_inj (Slr.built (Grammar.of_new hg) hb) hS

/-- C71: if no two states of the Clr table have the same positions, apart from lookaheads, then the Lalr
table is the Clr table: the same states in the same order, and the same actions. -/
theorem C71_same_table {dbg : Bool} {D : Decls T} {S eof : T} {t t' : Tabler T}
    (h : Makes .clr dbg D S eof t) (h' : Makes .lalr dbg D S eof t')
    (hd : ∀ (i j : Nat) s s', t.states[i]? = some s → t.states[j]? = some s' →
      (∀ q, (∃ p ∈ s, bare p = q) ↔ ∃ p ∈ s', bare p = q) → i = j) : t' = t := by
  obtain ⟨g, hg, n, hb⟩ := h
  obtain ⟨g', hg', m, hb'⟩ := h'
  rw [hg] at hg'; cases hg'
  obtain ⟨l, hl, e⟩ := Out.bind_eq_ok.mp hb'
  cases e
  refine Lalr.eq_clr (Grammar.of_new hg) hb hl (fun i j s s' hs hs' he => hd i j s s' hs hs' (fun q => ?_))
  have : q ∈ Lalr.withoutLook s ↔ q ∈ Lalr.withoutLook s' := by rw [he]
  rw [mem_core, mem_core] at this
  exact this

/-- C71: the number of states tells whether Lalr builds the table of Clr. -/
theorem C71_iff_count {dbg : Bool} {D : Decls T} {S eof : T} {t t' : Tabler T}
    (h : Makes .clr dbg D S eof t) (h' : Makes .lalr dbg D S eof t') :
    t' = t ↔ t'.states.length = t.states.length := by
  refine ⟨fun e => by rw [e], fun hn => ?_⟩
  have hi := lalr_core_inj h'
  refine C71_same_table h h' (fun i j s s' hs hs' hc => ?_)
  obtain ⟨g, hg, n, hb⟩ := h
  obtain ⟨g', hg', n', hb'⟩ := h'
  obtain ⟨b0, hb0⟩ := makes_basis (Grammar.of_new hg) hb
  obtain ⟨_, _, ha, _⟩ := makes_auto (Grammar.of_new hg) hb0 hb
  obtain ⟨_, _, ha', hr'⟩ := makes_auto (Grammar.of_new hg') hb0 hb'
  refine ha'.inj_of_count ha hr' hi (by omega) i j s s' hs hs'
    (OSet.ext (sorted_core _) (sorted_core _) (fun q => ?_))
  rw [mem_core, mem_core]
  exact hc q

/-- C71: with as many states as Clr, and no conflicts, the Lalr parser accepts exactly the sentences: no
lookahead gets lost. -/
theorem C71_accepts {dbg : Bool} {D : Decls T} {S eof : T} {t t' : Tabler T}
    (h : Makes .clr dbg D S eof t) (h' : Makes .lalr dbg D S eof t')
    (hn : t'.states.length = t.states.length) (hc : t'.conflicts = []) (hS : InNoBody D S)
    (h1 : SingleStart D S) (he : Terminal D eof) {toks : List (Token Unit T)} :
    Validates t' toks true ↔ Sentence D S (toks.map Token.ty) := by
  obtain rfl := (C71_iff_count h h').mpr hn
  exact ⟨fun hv => sound_sentence h hS he (validates_true.mp hv),
    complete_validates h (by simp) hc hS h1 he⟩

/-! ### Examples -/

/-- Not vacuous: six states for `S → C S | d`, `C → c` with all methods. -/
theorem lists_tables : ∃ t t', Makes .clr true Samples.lists 0 99 t ∧ Makes .lalr true Samples.lists 0 99 t' ∧
    t.states.length = 6 ∧ t'.states.length = 6 ∧ t'.conflicts = [] ∧
    Validates t' (Samples.toks [11, 11, 10]) true := by
  have hg : Grammar.new true 0 (grammarMap Samples.lists) 99 =
    .ok (Samples.grammar Samples.lists) := by decide +kernel
  have h : ∃ l, Lalr.new true 500 (Samples.grammar Samples.lists) = .ok l ∧
      l.table.states.length = 6 ∧ l.table.conflicts = [] ∧
      Parser.validate l.table 50 (Samples.toks [11, 11, 10]) = .ok true := by
    refine ⟨_, rfl, ?_⟩
    decide +kernel
  have h' : ∃ t, Clr.new true 500 (Samples.grammar Samples.lists) = .ok t ∧ t.states.length = 6 := by
    refine ⟨_, rfl, ?_⟩
    decide +kernel
  obtain ⟨l, k1, k2, k3, k4⟩ := h
  obtain ⟨t, j1, j2⟩ := h'
  refine ⟨t, l.table, ⟨_, hg, 500, j1⟩, ⟨_, hg, 500, ?_⟩, j2, k2, k3, ⟨50, k4⟩⟩
  show (do let l ← Lalr.new true 500 (Samples.grammar Samples.lists); return l.table) = _
  rw [k1]; rfl

example : ∃ t, Makes .clr true Samples.lists 0 99 t ∧ Makes .lalr true Samples.lists 0 99 t ∧
    Sentence Samples.lists 0 [11, 11, 10] := by
  obtain ⟨t, t', h, h', h1, h2, h3, h4⟩ := lists_tables
  have hn : t'.states.length = t.states.length := by rw [h1, h2]
  have e := (C71_iff_count h h').mpr hn
  exact ⟨t', e ▸ h, h', (C71_accepts h h' hn h3 (Samples.inNoBody (by decide))
    (Samples.singleStart (by decide)) (by unfold Terminal; decide)).mp h4⟩

/-- The Lalr table of the expression grammar has fewer states than the Clr table, 12 against 22, and so
is another one. -/
example : exprLalr.table.states.length = 12 ∧ exprClr.states.length = 22 := by
  exact ⟨exprLalr_ok.2.1, exprClr_ok.2.1⟩

/-- In `C71_lalr_slr` the starting rule must not occur in a body: `S → A`, `A → S x | y | z S w`. -/
theorem C71_needs_no_body : ∃ t t', Makes .lalr true Samples.recStart 0 99 t ∧
    Makes .slr true Samples.recStart 0 99 t' ∧ t.states.length = 8 ∧ t'.states.length = 9 := by
  have hg : Grammar.new true 0 (grammarMap Samples.recStart) 99 =
    .ok (Samples.grammar Samples.recStart) := by decide +kernel
  have h : ∃ l, Lalr.new true 500 (Samples.grammar Samples.recStart) = .ok l ∧
      l.table.states.length = 8 := by
    refine ⟨_, rfl, ?_⟩
    decide +kernel
  have h' : ∃ t, Slr.new true 500 (Samples.grammar Samples.recStart) = .ok t ∧ t.states.length = 9 := by
    refine ⟨_, rfl, ?_⟩
    decide +kernel
  obtain ⟨l, k1, k2⟩ := h
  obtain ⟨t, j1, j2⟩ := h'
  refine ⟨l.table, t, ⟨_, hg, 500, ?_⟩, ⟨_, hg, 500, j1⟩, k2, j2⟩
  show (do let l ← Lalr.new true 500 (Samples.grammar Samples.recStart); return l.table) = _
  rw [k1]; rfl

end Lrp.Props
