import Verif.Props.Runs

/-!
Properties of parsing: C23, C28 to C32, C38 — tokens consumed, errors, reuse of a `Dfa`.
-/

set_option linter.unusedSectionVars false
set_option maxRecDepth 100000

namespace Lrp.Props
open Spec
variable {T : Type} [LinOrd T] [DecidableEq T] {M : Type}

/-- The error in a result. -/
def errOf (r : Out (Except (Error T) M)) : Option (Error T) :=
  match r with
  | .ok (.error e) => some e
  | _ => none

theorem errOf_eq {r : Out (Except (Error T) M)} {e : Error T} (h : errOf r = some e) :
    r = .ok (.error e) := by
  match r, h with
  | .ok (.error e), h => simp only [errOf, Option.some.injEq] at h; rw [h]

/-- The panic in a result. -/
def panicOf {α : Type} (r : Out α) : Option Panic :=
  match r with
  | .panic p => some p
  | _ => none

theorem panicOf_eq {α : Type} {r : Out α} {p : Panic} (h : panicOf r = some p) : r = .panic p := by
  match r, h with
  | .panic p, h => simp only [panicOf, Option.some.injEq] at h; rw [h]

/-! ### C23 is false -/

/-- `Lalr` does not pass lookaheads on to productions reached through a shift: for
`S → A x | z A y`, `A → c B`, `B → d e` its table has no conflicts and its parser rejects the sentence
`z c d e y`. -/
theorem C23_false : ∃ t, Makes .lalr true Samples.lalrGap 0 99 t ∧ t.conflicts = [] ∧
    InNoBody Samples.lalrGap 0 ∧ SingleStart Samples.lalrGap 0 ∧ Terminal Samples.lalrGap 99 ∧
    Sentence Samples.lalrGap 0 [13, 11, 14, 15, 12] ∧
    Validates t (Samples.toks [13, 11, 14, 15, 12]) false := by
  have hS : InNoBody Samples.lalrGap 0 := Samples.inNoBody (by decide)
  have he : Terminal Samples.lalrGap 99 := by unfold Terminal; decide
  have hg : Grammar.new true 0 (grammarMap Samples.lalrGap) 99 =
    .ok (Samples.grammar Samples.lalrGap) := by decide +kernel
  have h : ∃ t, Slr.new true 50 (Samples.grammar Samples.lalrGap) = .ok t ∧
      Parser.validate t 50 (Samples.toks [13, 11, 14, 15, 12]) = .ok true := by
    refine ⟨_, rfl, ?_⟩
    decide +kernel
  obtain ⟨t, h1, h2⟩ := h
  have hs := C18_slr_sound ⟨_, hg, 50, h1⟩ hS he ⟨50, h2⟩
  have h : ∃ l, Lalr.new true 500 (Samples.grammar Samples.lalrGap) = .ok l ∧
      l.table.conflicts = [] ∧
      Parser.validate l.table 50 (Samples.toks [13, 11, 14, 15, 12]) = .ok false := by
    refine ⟨_, rfl, ?_⟩
    decide +kernel
  obtain ⟨l, k1, k2, k3⟩ := h
  refine ⟨l.table, ⟨_, hg, 500, ?_⟩, k2, hS, Samples.singleStart (by decide), he, hs, ⟨50, k3⟩⟩
  show (do let l ← Lalr.new true 500 (Samples.grammar Samples.lalrGap); return l.table) = _
  rw [k1]; rfl

/-- C23, the part that holds: if the table has no conflicts and lookaheads have been passed on along
all shifts and gotos, the Lalr parser accepts exactly the sentences. -/
theorem C23_partial {dbg : Bool} {D : Decls T} {S eof : T} {t : Tabler T}
    (ht : Makes .lalr dbg D S eof t) (hc : t.conflicts = []) (hpr : Propagated t)
    (hS : InNoBody D S) (h1 : SingleStart D S) (he : Terminal D eof)
    {toks : List (Token Unit T)} : Validates t toks true ↔ Sentence D S (toks.map Token.ty) :=
  ⟨C20_lalr_sound ht hS he, complete_validates ht (fun _ => hpr) hc hS h1 he⟩

/-- Decides `Propagated` for tables without conflicts. -/
def propagatedB (t : Tabler T) : Bool :=
  (List.range t.states.length).all fun i =>
    match t.states[i]?, t.actions[i]? with
    | some s, some row => s.all fun p =>
      match p.seq.1[p.point]? with
      | none => true
      | some x =>
        match row.get? x with
        | some (.shift j) | some (.goto j) =>
          match t.states[j]? with
          | some s' => s'.any fun q => q.rule == p.rule && q.seq == p.seq && q.point == p.point + 1 &&
              p.look.all fun y => q.look.contains y
          | none => true
        | some (.conflict _ _) => false
        | _ => true
    | _, _ => true

theorem propagated_of_check {t : Tabler T} (h : propagatedB t = true) : Propagated t := by
  intro i j s s' row c p x hs hr hp hx hc ha hs'
  unfold propagatedB at h
  rw [List.all_eq_true] at h
  have h1 := h i (List.mem_range.mpr (List.getElem?_eq_some_iff.mp hs).1)
  simp only [hs, hr, List.all_eq_true] at h1
  have h2 := h1 p hp
  unfold After at hx
  simp only [hx, hc] at h2
  have key : ∀ s'', t.states[j]? = some s'' →
      (s''.any fun q => q.rule == p.rule && q.seq == p.seq && q.point == p.point + 1 &&
              p.look.all fun y => q.look.contains y) = true →
      ∃ q ∈ s'', q.rule = p.rule ∧ q.seq = p.seq ∧ q.point = p.point + 1 ∧
        ∀ y ∈ p.look, y ∈ q.look := by
    intro s'' _ hany
    obtain ⟨q, hq, hb⟩ := List.any_eq_true.mp hany
    simp only [Bool.and_eq_true, beq_iff_eq, List.all_eq_true, List.contains_iff_mem] at hb
    exact ⟨q, hq, hb.1.1.1, hb.1.1.2, hb.1.2, hb.2⟩
  cases c with
  | shift k =>
    rcases ha with ha | ha <;> cases ha
    simp only [hs'] at h2
    exact key s' hs' h2
  | goto k =>
    rcases ha with ha | ha <;> cases ha
    simp only [hs'] at h2
    exact key s' hs' h2
  | reduce A pr => rcases ha with ha | ha <;> cases ha
  | acc => rcases ha with ha | ha <;> cases ha
  | conflict a b => simp at h2

/-- Not vacuous: in the Lalr table of the expression grammar all lookaheads are passed on. -/
theorem exprLalr_propagated : Propagated exprLalr.table :=
  propagated_of_check (by decide +kernel)

example {toks : List (Token Unit Nat)} :
    Validates exprLalr.table toks true ↔ Sentence Samples.expr 0 (toks.map Token.ty) :=
  C23_partial makes_exprLalr exprLalr_ok.2.2 exprLalr_propagated expr_start expr_single expr_eof

/-! ### C28: tokens of nonterminal type -/

/-- C28, the part that holds: an input with a token of nonterminal type is never accepted. -/
theorem C28_partial {k : Method} {dbg : Bool} {D : Decls T} {S eof : T} {t : Tabler T}
    (ht : Makes k dbg D S eof t) (hS : InNoBody D S) (he : Terminal D eof)
    {toks : List (Token Unit T)} {tok : Token Unit T} (hm : tok ∈ toks)
    (hn : Nonterminal D tok.ty) : ¬ Validates t toks true := by
  intro h
  have := (sound_sentence ht hS he (validates_true.mp h)).2 tok.ty (List.mem_map.mpr ⟨tok, hm, rfl⟩)
  exact not_terminal_iff.mpr hn this

/-- A state with a goto to itself under the type of the next token. -/
theorem goto_loop {tf : Nat} {row : OMap T (Action T)} {tok : Token M T} {rest : List (Token M T)}
    {j : Nat} (hg : row.get? tok.ty = some (.goto j)) (n : Nat) :
    ∀ d : Dfa M T, d.top = j → d.table[j]? = some row → d.buffer = tok :: rest →
      d.finished = false → Dfa.trace id tf n d = .fuel := by
  induction n with
  | zero => intros; rfl
  | succ n ih =>
    intro d h1 h2 h3 h4
    unfold Dfa.trace
    cases tf with
    | zero => simp [h4, Dfa.travel]
    | succ tf =>
      have hs : d.symbol = tok.ty := by unfold Dfa.symbol; rw [h3]
      have : Dfa.travel (tf + 1) d d.symbol = .ok (d.goto j) := by
        unfold Dfa.travel
        rw [h1, h2, hs]
        simp only [hg]
      simp only [h4, id, this, Dfa.goto, Out.ok_bind]
      exact ih _ rfl h2 h3 rfl

/-- Checks that a run on a single token does not end. -/
theorem validate_hangs {t : Tabler T} {x eof : T} {row row' : OMap T (Action T)} {j : Nat}
    (he : t.grammar.basis.look.head? = some eof) (h0 : t.actions[0]? = some row)
    (h1 : row.get? x = some (.goto j)) (h2 : t.actions[j]? = some row')
    (h3 : row'.get? x = some (.goto j)) :
    Diverges (fun n => Parser.validate t n [⟨(), x⟩]) := by
  intro n
  have : Dfa.trace id n n (Dfa.new [⟨(), x⟩] t.actions (Parser.empty t) eof) = .fuel := by
    cases n with
    | zero => rfl
    | succ n =>
      unfold Dfa.trace
      have : Dfa.travel (n + 1) (Dfa.new [⟨(), x⟩] t.actions (Parser.empty t) eof) x =
          .ok ((Dfa.new [⟨(), x⟩] t.actions (Parser.empty t) eof).goto j) := by
        unfold Dfa.travel
        simp only [Dfa.new, h0, h1]
      simp only [id]
      rw [show (Dfa.new [⟨(), x⟩] t.actions (Parser.empty t) eof).symbol = x from rfl, this]
      simp only [Dfa.goto, Out.ok_bind]
      exact goto_loop h3 n _ rfl h2 rfl rfl
  show Parser.validate t n [⟨(), x⟩] = .fuel
  unfold Parser.validate Parser.parse Parser.dfa Dfa.start
  simp only [he, Out.ofOption_some, Out.ok_bind, Out.pure_eq, this, Out.fuel_bind]

/-- C28 is false: for `S → C S | d`, `C → c` the three tables have no conflicts, and `validate` does
not return on the single token `C`. -/
theorem C28_false (k : Method) : ∃ t, Makes k true Samples.lists 0 99 t ∧ t.conflicts = [] ∧
    InNoBody Samples.lists 0 ∧ Terminal Samples.lists 99 ∧ Nonterminal Samples.lists 2 ∧
    Diverges (fun n => Parser.validate t n (Samples.toks [2])) := by
  have hS : InNoBody Samples.lists 0 := Samples.inNoBody (by decide)
  have he : Terminal Samples.lists 99 := by unfold Terminal; decide
  have hn : Nonterminal Samples.lists 2 := by unfold Nonterminal; decide
  have hg : Grammar.new true 0 (grammarMap Samples.lists) 99 =
    .ok (Samples.grammar Samples.lists) := by decide +kernel
  have h : ∃ t, k.build true 500 (Samples.grammar Samples.lists) = .ok t ∧
      t.conflicts = [] ∧ t.grammar.basis.look.head? = some 99 ∧ ∃ row row' j,
      t.actions[0]? = some row ∧ row.get? 2 = some (.goto j) ∧ t.actions[j]? = some row' ∧
      row'.get? 2 = some (.goto j) := by
    cases k <;> refine ⟨_, rfl, by decide +kernel, by decide +kernel, _, _, _, rfl, rfl, rfl, rfl⟩
  obtain ⟨t, h1, h2, h3, row, row', j, h4, h5, h6, h7⟩ := h
  exact ⟨t, ⟨_, hg, 500, h1⟩, h2, hS, he, hn, validate_hangs h3 h4 h5 h6 h7⟩

/-! ### C38: consumed in order, exactly once -/

/-- C38: at every moment of a run — of any table, on any input — there are trees whose leaves, followed
by the remaining buffer, are the input, and whose values, bottom to top, are the items on the stack. -/
theorem C38_in_order {t : Tabler T} {maps : ReductMap M T} {toks : List (Token M T)} {d : Dfa M T}
    (h : Reached t maps toks d) :
    ∃ trs : List (Tree M T), Tree.yields trs ++ d.buffer = toks ∧
      Tree.evals (redOf maps) trs = some d.items.reverse := by
  obtain ⟨_, trs, h1, h2⟩ := h.holds
  exact ⟨trs.reverse, h1, evals_iff.mpr (by simp [List.map_reverse, h2])⟩

/-- C38: for built tables and inputs of terminals, these are parse trees. -/
theorem C38_parse_trees {k : Method} {dbg : Bool} {D : Decls T} {S eof : T} {t : Tabler T}
    (ht : Makes k dbg D S eof t) (he : Terminal D eof) {maps : ReductMap M T}
    {toks : List (Token M T)} (hT : TerminalToks D toks) {d : Dfa M T}
    (h : Reached t maps toks d) :
    ∃ trs : List (Tree M T), Tree.yields trs ++ d.buffer = toks ∧
      Tree.evals (redOf maps) trs = some d.items.reverse ∧ ∀ tr ∈ trs, Tree.Valid D tr := by
  obtain ⟨b0, next, red, ha, _⟩ := ht.auto
  obtain ⟨c, hm, hs⟩ := ha.reached ht.eofHead he hT h
  have hi := ha.inv_moves (inv_init D t.states next toks) hm
  have hy := hm.yields
  simp only [List.reverse_nil, Tree.yields_nil, List.nil_append] at hy
  have : d.buffer = c.buf ∧ c.trees.map (valTok (redOf maps)) = d.items.map some := by
    rcases hs with hs | ⟨d0, hs, _, rfl⟩
    · exact ⟨hs.buffer, hs.items⟩
    · exact ⟨hs.buffer, hs.items⟩
  refine ⟨c.trees.reverse, by rw [this.1]; exact hy,
    evals_iff.mpr (by simp [List.map_reverse, this.2]),
    fun tr htr => hi.valid tr (List.mem_reverse.mp htr)⟩

/-- Not vacuous: after one step on `id + id` the expression parser has consumed the first token. -/
example : ∃ d, Reached exprSlr (Parser.empty exprSlr) (Samples.toks [14, 10, 14]) d ∧
    d.buffer = Samples.toks [10, 14] ∧ d.items = Samples.toks [14] := by
  have h0 : Reached exprSlr (Parser.empty exprSlr) (Samples.toks [14, 10, 14])
      (Dfa.new (Samples.toks [14, 10, 14]) exprSlr.actions (Parser.empty exprSlr) 99) := by
    refine .init ?_
    unfold Parser.dfa
    rw [show exprSlr.grammar.basis.look.head? = some 99 by decide +kernel]
    rfl
  exact ⟨_, .step (n := 1) h0 rfl rfl, rfl, rfl⟩

/-! ### C29: the end of the input -/

/-- C29: a run that finishes has consumed every token. -/
theorem C29_consumes_all {t : Tabler T} {maps : ReductMap M T} {toks : List (Token M T)} {v : M}
    (h : Parses t maps toks (.ok v)) :
    ∃ d it its, Reached t maps toks d ∧ d.finished = true ∧ d.buffer = [] ∧ d.items = it :: its ∧
      it.item = v := by
  obtain ⟨d, it, its, h1, h2, h3, h4⟩ := parse_reached h
  exact ⟨d, it, its, h1, h2, h1.finished h2, h3, h4⟩

theorem mem_yields {tok : Token M T} {cs : List (Tree M T)} (h : tok ∈ Tree.yields cs) :
    ∃ c ∈ cs, tok ∈ c.yield := by
  induction cs with
  | nil => simp at h
  | cons c cs ih =>
    rw [Tree.yields_cons] at h
    rcases List.mem_append.mp h with h | h
    · exact ⟨c, by simp, h⟩
    · obtain ⟨c', h1, h2⟩ := ih h
      exact ⟨c', by simp [h1], h2⟩

/-- A leaf of a tree is its root or occurs in a body. -/
theorem leaf_in_body {D : Decls T} {tr : Tree M T} (h : Tree.Valid D tr) :
    ∀ tok ∈ tr.yield, tr = .leaf tok ∨ ∃ A i b, IsProd D A i b ∧ tok.ty ∈ b := by
  induction h with
  | leaf _ => intro tok ht; simp at ht; subst ht; exact Or.inl rfl
  | @node A i cs hp hc ih =>
    intro tok ht
    right
    simp only [Tree.yield_node] at ht
    obtain ⟨c, h1, h2⟩ := mem_yields ht
    rcases ih c h1 tok h2 with rfl | h
    · exact ⟨A, i, _, hp, List.mem_map.mpr ⟨_, h1, rfl⟩⟩
    · exact h

/-- C29: a token of the eof type is never accepted, when eof occurs in no body. -/
theorem C29_eof_token {k : Method} {dbg : Bool} {D : Decls T} {S eof : T} {t : Tabler T}
    (ht : Makes k dbg D S eof t) (hS : InNoBody D S) (he : Terminal D eof) (hb : InNoBody D eof)
    {maps : ReductMap M T} {toks : List (Token M T)} {tok : Token M T} (hm : tok ∈ toks)
    (hty : tok.ty = eof) (v : M) : ¬ Parses t maps toks (.ok v) := by
  intro h
  obtain ⟨cs, last, h1, h2, _⟩ := sound ht hS he h
  rcases leaf_in_body h1 tok (by simpa [h2] using hm) with h | ⟨A, i, b, k1, k2⟩
  · cases h
  · exact hb A i b k1 (hty ▸ k2)

/-- C29: `UnexpectedEof` is reported only if eof occurs in a body. -/
theorem C29_unexpected_eof {k : Method} {dbg : Bool} {D : Decls T} {S eof : T} {t : Tabler T}
    (ht : Makes k dbg D S eof t) (he : Terminal D eof) (hb : InNoBody D eof)
    {maps : ReductMap M T} {toks : List (Token M T)} (hT : TerminalToks D toks) :
    ¬ Parses t maps toks (.error .unexpectedEof) := by
  rintro ⟨n, h⟩
  obtain ⟨b0, next, red, ha, _⟩ := ht.auto
  have hend := ha.parse_end (maps := maps) ht.eofHead he hT n
  simp only at h
  rw [h] at hend
  cases hend with
  | @error c _ hm hf =>
    cases hf with
    | eof hc =>
      have hi := ha.inv_moves (inv_init D t.states next toks) hm
      obtain ⟨i0, st0, s, e, hs⟩ := ha.path_state hi.path
      cases e
      rcases ha.cell_dec hs hc (by intro x y; simp) with ⟨p, hp, ht, _⟩ | ⟨p, hp, ht, _, hk⟩
      · exact hb _ _ _ (ha.prod hs hp).1 (List.mem_of_getElem? ht)
      · rcases hk with ⟨_, hk⟩ | ⟨_, hk⟩ <;> cases hk

/-- C29: when the input is the beginning of a sentence, the only errors of Slr and Clr parsers (and of
Lalr parsers whose lookaheads have been passed on) are a conflict and eof as the unexpected symbol. -/
theorem C29_prefix {k : Method} {dbg : Bool} {D : Decls T} {S eof : T} {t : Tabler T}
    (ht : Makes k dbg D S eof t) (hk : k = .lalr → Propagated t) (hS : InNoBody D S) (h1 : SingleStart D S)
    (he : Terminal D eof) (hb : InNoBody D eof) [Nonempty M]
    {maps : ReductMap M T} {toks : List (Token M T)} (hp : ViablePrefix D S (toks.map Token.ty))
    {e : Error T} (h : Parses t maps toks (.error e)) :
    (∃ exp, e = .unexpectedToken eof exp) ∨ ∃ a b, e = .conflict a b := by
  obtain ⟨b0, next, red, ha, hl⟩ := ht.looks hk he
  obtain ⟨w, hw⟩ := hp
  have hT : TerminalToks D toks := fun tok htok =>
    hw.2 _ (List.mem_append.mpr (Or.inl (List.mem_map.mpr ⟨tok, htok, rfl⟩)))
  have hne := C29_unexpected_eof ht he hb (maps := maps) hT
  obtain ⟨m⟩ := ‹Nonempty M›
  obtain ⟨cs, hv, hy⟩ := sentence_tree (M := M) ht.start h1
    (toks := toks ++ w.map (fun y => (⟨m, y⟩ : Token M T))) (by
      simpa [Function.comp_def] using hw)
  have hh := h
  obtain ⟨n, h⟩ := h
  have hend := ha.parse_end (maps := maps) ht.eofHead he hT n
  simp only at h
  rw [h] at hend
  cases hend with
  | @error c _ hm hf =>
    have key : (∃ a b, Fails t.actions eof c (.conflict a b)) ∨ c.buf = [] := by
      rcases Looks.consumes ha hl hS he hv hy [] with ⟨c', a, b, hm', hf'⟩ | ⟨st, trs, hm', _⟩
      · rw [List.append_nil] at hm'
        have := dead_unique hm hm' hf.dead hf'.dead
        subst this
        exact Or.inl ⟨a, b, hf'⟩
      · rw [List.append_nil] at hm'
        right
        rcases hm'.linear hm with hl' | hl'
        · have := hl'.buf_le
          exact List.length_eq_zero_iff.mp (by simpa using this)
        · have := hl'.dead hf.dead
          rw [← this]
    cases hf with
    | noAction h2 h3 =>
      rcases key with ⟨a, b, hf'⟩ | hbuf
      · exfalso
        cases hf' with
        | conflict h4 => unfold cellAt at h4; rw [h2] at h4; simp [h3] at h4
        | conflict' h4 _ _ _ => unfold cellAt at h4; rw [h2] at h4; simp [h3] at h4
      · simp only at hbuf
        subst hbuf
        exact Or.inl ⟨_, rfl⟩
    | eof _ => exact absurd hh hne
    | conflict _ => exact Or.inr ⟨_, _, rfl⟩
    | incomplete h2 h3 =>
      rcases key with ⟨a, b, hf'⟩ | hbuf
      · exfalso
        cases hf' with
        | conflict h4 => rw [h2] at h4; cases h4
        | conflict' h4 _ _ _ => rw [h2] at h4; cases h4
      · exact absurd hbuf h3
    | conflict' _ _ _ _ => exact Or.inr ⟨_, _, rfl⟩

/-- Not vacuous: `id +` is the beginning of a sentence of the expression grammar, eof occurs in no
body, and the error names it. -/
example : ViablePrefix Samples.expr 0 ((Samples.toks [14, 10]).map Token.ty) ∧
    Parses exprSlr (Parser.empty exprSlr) (Samples.toks [14, 10])
      (.error (.unexpectedToken 99 [2, 3, 12, 14])) := by
  refine ⟨⟨[14, 11, 12, 14, 13], ?_⟩, 50, errOf_eq (by decide +kernel)⟩
  exact C18_slr_sound makes_exprSlr expr_start expr_eof expr_accepts.1

/-! ### C30: errors at the first wrong token -/

/-- C30: at every moment of a run the tokens consumed so far are the beginning of a sentence — for all
three methods, with or without conflicts. -/
theorem C30_viable {k : Method} {dbg : Bool} {D : Decls T} {S eof : T} {t : Tabler T}
    (ht : Makes k dbg D S eof t) (he : Terminal D eof) (hpr : AllProductive D)
    {maps : ReductMap M T} {toks : List (Token M T)} (hT : TerminalToks D toks) {d : Dfa M T}
    (h : Reached t maps toks d) :
    ∃ u, toks = u ++ d.buffer ∧ ViablePrefix D S (u.map Token.ty) := by
  obtain ⟨b0, next, red, ha, _⟩ := ht.auto
  obtain ⟨c, hm, hs⟩ := ha.reached ht.eofHead he hT h
  have hi := ha.inv_moves (inv_init D t.states next toks) hm
  have hy := hm.yields
  simp only [List.reverse_nil, Tree.yields_nil, List.nil_append] at hy
  have : d.buffer = c.buf := by
    rcases hs with hs | ⟨d0, hs, _, rfl⟩
    · exact hs.buffer
    · exact hs.buffer
  exact ⟨_, by rw [this]; exact hy.symm, ha.viable_prefix hpr hi⟩

/-- The place of the first wrong token is unique. -/
theorem firstWrong_unique {D : Decls T} {S eof : T} {toks u u' : List (Token M T)} {x x' : T}
    (h : FirstWrong D S eof toks u x) (h' : FirstWrong D S eof toks u' x') : u = u' ∧ x = x' := by
  have key : ∀ {u u' : List (Token M T)} {x x' : T}, FirstWrong D S eof toks u x →
      FirstWrong D S eof toks u' x' → u.length ≤ u'.length → u = u' ∧ x = x' := by
    intro u u' x x' h h' hlen
    obtain ⟨rest, e1, v1, rfl, n1⟩ := h
    obtain ⟨rest', e2, v2, rfl, n2⟩ := h'
    have e : u ++ rest = u' ++ rest' := e1.symm.trans e2
    rcases List.append_eq_append_iff.mp e with ⟨m, h1, h2⟩ | ⟨m, h1, h2⟩
    · cases m with
      | nil => simp at h1 h2; subst h1; subst h2; exact ⟨rfl, rfl⟩
      | cons a m =>
        exfalso
        apply n1
        obtain ⟨w, hw⟩ := v2
        refine ⟨_, m.map Token.ty ++ w ++ [eof], hw, ?_⟩
        rw [h1, h2]
        simp [nextSym]
    · have : m = [] := by
        have := congrArg List.length h1
        simp at this
        exact List.length_eq_zero_iff.mp (by omega)
      subst this
      simp at h1 h2; subst h1; subst h2; exact ⟨rfl, rfl⟩
  rcases Nat.le_total u.length u'.length with hlen | hlen
  · exact key h h' hlen
  · obtain ⟨a, b⟩ := key h' h hlen
    exact ⟨a.symm, b.symm⟩

/-- C30: Slr and Clr parsers (and Lalr parsers whose lookaheads have been passed on) report the first
token that cannot follow the tokens before it. -/
theorem C30_first_wrong {k : Method} {dbg : Bool} {D : Decls T} {S eof : T} {t : Tabler T}
    (ht : Makes k dbg D S eof t) (hk : k = .lalr → Propagated t) (hS : InNoBody D S) (h1 : SingleStart D S)
    (he : Terminal D eof) (hpr : AllProductive D) [Nonempty M] {maps : ReductMap M T}
    {toks : List (Token M T)} (hT : TerminalToks D toks) {x : T} {exp : List T}
    (h : Parses t maps toks (.error (.unexpectedToken x exp))) :
    ∃ u, FirstWrong D S eof toks u x := by
  obtain ⟨b0, next, red, ha, hl⟩ := ht.looks hk he
  obtain ⟨n, h⟩ := h
  have hend := ha.parse_end (maps := maps) ht.eofHead he hT n
  simp only at h
  rw [h] at hend
  cases hend with
  | @error c _ hm hf =>
    have hd := hf.dead
    have hi := ha.inv_moves (inv_init D t.states next toks) hm
    have hy := hm.yields
    simp only [List.reverse_nil, Tree.yields_nil, List.nil_append] at hy
    cases hf with
    | @noAction i st trs buf row h2 h3 =>
      refine ⟨Tree.yields trs.reverse, buf, hy.symm, ha.viable_prefix hpr hi, ?_, ?_⟩
      · cases buf <;> rfl
      · refine Looks.error_token ha hl hS h1 he hm hd ?_
        rintro ⟨i', st', a, e1, e2⟩
        cases e1
        unfold cellAt at e2; rw [h2] at e2; simp [h3] at e2

/-! ### C31: the list of expected tokens -/

/-- C31 for Clr: the terminals in the list of `UnexpectedToken` are exactly those that may follow the
consumed tokens. -/
theorem C31_clr_terminals_partial {dbg : Bool} {D : Decls T} {S eof : T} {t : Tabler T}
    (ht : Makes .clr dbg D S eof t) (hS : InNoBody D S) (h1 : SingleStart D S)
    (he : Terminal D eof) (hpr : AllProductive D) [Nonempty M] {maps : ReductMap M T}
    {toks : List (Token M T)} (hT : TerminalToks D toks) {x : T} {exp : List T}
    (h : Parses t maps toks (.error (.unexpectedToken x exp))) :
    ∃ u, FirstWrong D S eof toks u x ∧
      ∀ y, Terminal D y → (y ∈ exp ↔ MayFollow D S eof (u.map Token.ty) y) := by
  obtain ⟨b0, next, red, ha, hl, hx⟩ := ht.exact
  obtain ⟨n, h⟩ := h
  have hend := ha.parse_end (maps := maps) ht.eofHead he hT n
  simp only at h
  rw [h] at hend
  cases hend with
  | @error c _ hm hf =>
    have hd := hf.dead
    have hi := ha.inv_moves (inv_init D t.states next toks) hm
    have hy := hm.yields
    simp only [List.reverse_nil, Tree.yields_nil, List.nil_append] at hy
    cases hf with
    | @noAction i st trs buf row h2 h3 =>
      have hn : ¬ HasCell t.actions eof (⟨i :: st, trs, buf⟩ : Conf M T) (lookSym eof buf) := by
        rintro ⟨i', st', a, e1, e2⟩
        cases e1
        unfold cellAt at e2; rw [h2] at e2; simp [h3] at e2
      refine ⟨Tree.yields trs.reverse, ⟨buf, hy.symm, ha.viable_prefix hpr hi, ?_, ?_⟩, ?_⟩
      · cases buf <;> rfl
      · exact Looks.error_token ha hl hS h1 he hm hd hn
      · intro y hyT
        have := Exact.error_row ha hl hx hpr hS h1 he hT hm hd hn hyT
        refine Iff.trans ?_ this
        rw [OMap.mem_keys]
        constructor
        · rintro ⟨a, hg⟩
          exact ⟨i, st, a, rfl, by unfold cellAt; rw [h2]; exact hg⟩
        · rintro ⟨i', st', a, e1, e2⟩
          cases e1
          unfold cellAt at e2; rw [h2] at e2
          exact ⟨a, e2⟩

/-- C31: the offending token is never in the list. -/
theorem C31_not_offending {k : Method} {dbg : Bool} {D : Decls T} {S eof : T} {t : Tabler T}
    (ht : Makes k dbg D S eof t) (he : Terminal D eof) {maps : ReductMap M T}
    {toks : List (Token M T)} (hT : TerminalToks D toks) {x : T} {exp : List T}
    (h : Parses t maps toks (.error (.unexpectedToken x exp))) : x ∉ exp := by
  obtain ⟨b0, next, red, ha, _⟩ := ht.auto
  obtain ⟨n, h⟩ := h
  have hend := ha.parse_end (maps := maps) ht.eofHead he hT n
  simp only at h
  rw [h] at hend
  cases hend with
  | @error c _ hm hf =>
    cases hf with
    | noAction h2 h3 =>
      rw [OMap.mem_keys]
      rintro ⟨a, hg⟩
      rw [h3] at hg; cases hg

/-- All nonterminals of the expression grammar are productive. -/
theorem expr_productive : AllProductive Samples.expr := by
  have p3 : IsProd Samples.expr 3 1 [14] := ⟨[[12, 1, 13], [14]],
    ⟨[(0, [[1]]), (1, [[1, 10, 2], [2]]), (2, [[2, 11, 3], [3]])], [], rfl, by simp⟩, rfl⟩
  have p2 : IsProd Samples.expr 2 1 [3] :=
    ⟨[[2, 11, 3], [3]], ⟨[(0, [[1]]), (1, [[1, 10, 2], [2]])], _, rfl, by simp⟩, rfl⟩
  have p1 : IsProd Samples.expr 1 1 [2] := ⟨[[1, 10, 2], [2]], ⟨[(0, [[1]])], _, rfl, by simp⟩, rfl⟩
  have p0 : IsProd Samples.expr 0 0 [1] := ⟨[[1]], ⟨[], _, rfl, by simp⟩, rfl⟩
  have ht : ∀ t ∈ [14], Terminal Samples.expr t := by
    intro t ht; simp only [List.mem_singleton] at ht; subst ht; unfold Terminal; decide
  have d3 := Derives.of_prod p3
  have d2 := (Derives.of_prod p2).trans d3
  have d1 := (Derives.of_prod p1).trans d2
  have d0 := (Derives.of_prod p0).trans d1
  rintro A ⟨d, hd, rfl⟩
  simp only [Samples.expr, List.mem_cons, List.not_mem_nil, or_false] at hd
  rcases hd with rfl | rfl | rfl | rfl
  · exact ⟨_, d0, ht⟩
  · exact ⟨_, d1, ht⟩
  · exact ⟨_, d2, ht⟩
  · exact ⟨_, d3, ht⟩

/-- Not vacuous: `id )` — the second token is wrong; the list has `*`, `+` and eof. -/
example : Parses exprClr (Parser.empty exprClr) (Samples.toks [14, 13])
    (.error (.unexpectedToken 13 [10, 11, 99])) ∧
    TerminalToks Samples.expr (Samples.toks [14, 13]) :=
  ⟨⟨50, errOf_eq (by decide +kernel)⟩, by unfold TerminalToks Terminal; decide⟩

/-- C31 is false for all three methods as regards "only tokens": on the empty input the parser of the
expression grammar lists its nonterminals `E`, `T`, `F` besides `(` and `id`. -/
theorem C31_false_only_tokens : Nonterminal Samples.expr 1 ∧
    Parses exprSlr (Parser.empty exprSlr) [] (.error (.unexpectedToken 99 [1, 2, 3, 12, 14])) ∧
    Parses exprClr (Parser.empty exprClr) [] (.error (.unexpectedToken 99 [1, 2, 3, 12, 14])) ∧
    Parses exprLalr.table (Parser.empty exprLalr.table) []
      (.error (.unexpectedToken 99 [1, 2, 3, 12, 14])) :=
  ⟨by unfold Nonterminal; decide, ⟨50, errOf_eq (by decide +kernel)⟩,
    ⟨50, errOf_eq (by decide +kernel)⟩, ⟨50, errOf_eq (by decide +kernel)⟩⟩

/-- For `S → a A d | b A c`, `A → x | x y`, the sentence `a x y d`. -/
theorem contexts_sentence : Sentence Samples.contexts 0 [10, 14, 15, 13] := by
  have h : ∃ t, Slr.new true 50 (Samples.grammar Samples.contexts) = .ok t ∧
      Parser.validate t 50 (Samples.toks [10, 14, 15, 13]) = .ok true := by
    refine ⟨_, rfl, ?_⟩
    decide +kernel
  obtain ⟨t, h1, h4⟩ := h
  have hg : Grammar.new true 0 (grammarMap Samples.contexts) 99 =
    .ok (Samples.grammar Samples.contexts) := by decide +kernel
  exact C18_slr_sound ⟨_, hg, 50, h1⟩ (Samples.inNoBody (by decide)) (by unfold Terminal; decide)
    ⟨50, h4⟩

/-- In `a x c` the wrong token is `c`, and `y` may follow `a x`. -/
theorem contexts_wrong :
    FirstWrong Samples.contexts 0 99 (Samples.toks [10, 14, 12]) (Samples.toks [10, 14]) 12 ∧
    Terminal Samples.contexts 15 ∧ MayFollow Samples.contexts 0 99 [10, 14] 15 := by
  have hs := contexts_sentence
  have hbad : ∀ {a b : List Nat}, Derives Samples.contexts a b →
      (a = [0] ∨ a = [1] ∨ (∃ v, a = 10 :: v ∧ (v = [2, 13] ∨ v = [14, 13] ∨ v = [14, 15, 13])) ∨
        ∃ v, a = 11 :: v) →
      b = [0] ∨ b = [1] ∨ (∃ v, b = 10 :: v ∧ (v = [2, 13] ∨ v = [14, 13] ∨ v = [14, 15, 13])) ∨
        ∃ v, b = 11 :: v := by
    intro a b hd
    induction hd with
    | refl => exact id
    | head s _ ih =>
      intro hc
      refine ih ?_
      cases s with
      | @mk u v A i body hp =>
        obtain ⟨d, k1, k2, k3⟩ := Samples.mem_of_isProd hp
        have k3 := List.mem_of_getElem? k3
        simp only [Samples.contexts, List.mem_cons, List.not_mem_nil, or_false] at k1
        cases u with
        | nil =>
          simp only [List.nil_append, List.cons.injEq] at hc ⊢
          rcases k1 with rfl | rfl | rfl <;> simp only at k2 k3 <;> subst k2 <;>
            simp only [List.mem_cons, List.not_mem_nil, or_false] at k3
          · rcases hc with ⟨_, rfl⟩ | ⟨h, _⟩ | ⟨w, ⟨h, _⟩, _⟩ | ⟨w, h, _⟩
            · subst k3; simp
            all_goals exact absurd h (by decide)
          · rcases hc with ⟨h, _⟩ | ⟨_, rfl⟩ | ⟨w, ⟨h, _⟩, _⟩ | ⟨w, h, _⟩
            · exact absurd h (by decide)
            · rcases k3 with rfl | rfl <;> simp
            all_goals exact absurd h (by decide)
          · rcases hc with ⟨h, _⟩ | ⟨h, _⟩ | ⟨w, ⟨h, _⟩, _⟩ | ⟨w, h, _⟩
            all_goals exact absurd h (by decide)
        | cons c u =>
          simp only [List.cons_append, List.cons.injEq] at hc ⊢
          rcases hc with ⟨_, h⟩ | ⟨_, h⟩ | ⟨w, ⟨rfl, rfl⟩, hw⟩ | ⟨w, rfl, _⟩
          · simp at h
          · simp at h
          · right; right; left
            refine ⟨_, ⟨rfl, rfl⟩, ?_⟩
            have hA : A = 0 ∨ A = 1 ∨ A = 2 := by rcases k1 with rfl | rfl | rfl <;> simp_all
            rcases hw with hw | hw | hw
            · cases u with
              | nil =>
                simp only [List.nil_append, List.cons.injEq] at hw
                obtain ⟨rfl, rfl⟩ := hw
                rcases k1 with rfl | rfl | rfl
                · exact absurd k2 (by decide)
                · exact absurd k2 (by decide)
                · simp at k3; rcases k3 with rfl | rfl <;> simp
              | cons c' u =>
                exfalso
                have hmem : A ∈ c' :: u ++ A :: v := by simp
                cases u with
                | nil => simp at hw; omega
                | cons c2 u => simp at hw
            · exfalso
              have hmem : A ∈ u ++ A :: v := by simp
              rw [hw] at hmem
              simp at hmem; omega
            · exfalso
              have hmem : A ∈ u ++ A :: v := by simp
              rw [hw] at hmem
              simp at hmem; omega
          · right; right; right
            exact ⟨_, rfl, rfl⟩
  refine ⟨⟨Samples.toks [12], rfl, ⟨[15, 13], hs⟩, rfl, ?_⟩, ?_,
    [10, 14, 15, 13], [13, 99], hs, rfl⟩
  · rintro ⟨w, v, hw, e⟩
    have := hbad hw.1 (Or.inl rfl)
    rcases this with rfl | rfl | ⟨w', rfl, rfl | rfl | rfl⟩ | ⟨w', rfl⟩ <;>
      simp [Samples.toks] at e
  · unfold Terminal; decide

/-- C31 is false for Slr as regards "every terminal that could come next": for
`S → a A d | b A c`, `A → x | x y` and the input `a x c` the table has no conflicts, the wrong token
is `c`, and the list is `d` alone although `y` may also follow `a x`. -/
theorem C31_false_slr : ∃ t, Makes .slr true Samples.contexts 0 99 t ∧ t.conflicts = [] ∧
    Parses t (Parser.empty t) (Samples.toks [10, 14, 12]) (.error (.unexpectedToken 12 [13])) ∧
    FirstWrong Samples.contexts 0 99 (Samples.toks [10, 14, 12]) (Samples.toks [10, 14]) 12 ∧
    Terminal Samples.contexts 15 ∧ MayFollow Samples.contexts 0 99 [10, 14] 15 := by
  have hg : Grammar.new true 0 (grammarMap Samples.contexts) 99 =
    .ok (Samples.grammar Samples.contexts) := by decide +kernel
  have h : ∃ t, Slr.new true 50 (Samples.grammar Samples.contexts) = .ok t ∧ t.conflicts = [] ∧
      errOf (Parser.parse t 50 (Samples.toks [10, 14, 12]) (Parser.empty t)) =
        some (.unexpectedToken 12 [13]) := by
    refine ⟨_, rfl, ?_⟩
    decide +kernel
  obtain ⟨t, h1, h2, h3⟩ := h
  exact ⟨t, ⟨_, hg, 50, h1⟩, h2, ⟨50, errOf_eq h3⟩, contexts_wrong⟩

/-- The same for Lalr, also when all lookaheads have been passed on: the two states after `x` are
merged, so `c` makes it reduce before it notices. -/
theorem C31_false_lalr : ∃ t, Makes .lalr true Samples.contexts 0 99 t ∧ t.conflicts = [] ∧
    Propagated t ∧
    Parses t (Parser.empty t) (Samples.toks [10, 14, 12]) (.error (.unexpectedToken 12 [13])) ∧
    FirstWrong Samples.contexts 0 99 (Samples.toks [10, 14, 12]) (Samples.toks [10, 14]) 12 ∧
    Terminal Samples.contexts 15 ∧ MayFollow Samples.contexts 0 99 [10, 14] 15 := by
  have hg : Grammar.new true 0 (grammarMap Samples.contexts) 99 =
    .ok (Samples.grammar Samples.contexts) := by decide +kernel
  have h : ∃ l, Lalr.new true 500 (Samples.grammar Samples.contexts) = .ok l ∧
      l.table.conflicts = [] ∧ propagatedB l.table = true ∧
      errOf (Parser.parse l.table 50 (Samples.toks [10, 14, 12]) (Parser.empty l.table)) =
        some (.unexpectedToken 12 [13]) := by
    refine ⟨_, rfl, ?_⟩
    decide +kernel
  obtain ⟨l, h1, h2, h4, h3⟩ := h
  refine ⟨l.table, ⟨_, hg, 500, ?_⟩, h2, propagated_of_check h4, ⟨50, errOf_eq h3⟩, contexts_wrong⟩
  show (do let l ← Lalr.new true 500 (Samples.grammar Samples.contexts); return l.table) = _
  rw [h1]; rfl

/-! ### C32: `Dfa::parse` -/

/-- C32, the part that holds: on any `Dfa` of a parser, in whatever state, `Dfa::parse` gives the
result of `Parser::parse` or panics because its stack of states is exhausted. -/
theorem C32_partial {t : Tabler T} {maps : ReductMap M T} {eof : T}
    (he : t.grammar.basis.look.head? = some eof) (d : Dfa M T) (h1 : d.table = t.actions)
    (h2 : d.reductors = maps) (h3 : d.eof = eof) (n : Nat) (input : List (Token M T)) :
    Dfa.parse n d input = .panic .statesUnderflow ∨
    (∃ p, Dfa.parse n d input = .panic p ∧ Parser.parse t n input maps = .panic p) ∨
    (Dfa.parse n d input = .fuel ∧ Parser.parse t n input maps = .fuel) ∨
    ∃ d' r, Dfa.parse n d input = .ok (d', r) ∧ Parser.parse t n input maps = .ok r := by
  have hb : NoBottom (Dfa.new input t.actions maps eof) { d.reset with buffer := input } :=
    ⟨rfl, rfl, h1, rfl, rfl, h2, h3, rfl⟩
  unfold Dfa.parse Parser.parse Parser.dfa Dfa.start
  simp only [he, Out.ofOption_some, Out.ok_bind, Out.pure_eq]
  rcases hb.trace n n with k1 | ⟨p, k1, k2⟩ | ⟨k1, k2⟩ | ⟨e, e', r, k1, k2, k3⟩
  · left; rw [k1]; rfl
  · right; left; rw [k1, k2]; exact ⟨p, rfl, rfl⟩
  · right; right; left; rw [k1, k2]; exact ⟨rfl, rfl⟩
  · right; right; right
    rw [k1, k2]
    simp only [Out.ok_bind]
    cases r with
    | error er => exact ⟨_, _, rfl, rfl⟩
    | ok u =>
      simp only [k3.items]
      cases e.items with
      | nil => exact ⟨_, _, rfl, rfl⟩
      | cons it its => exact ⟨_, _, rfl, rfl⟩

/-- C32 is false, for most grammars: if the body of the start rule begins with a nonterminal,
`Dfa::parse` succeeds on no input at all. -/
theorem C32_false {k : Method} {dbg : Bool} {D : Decls T} {S eof X : T} {b : List T} {t : Tabler T}
    (ht : Makes k dbg D S eof t) (hS : InNoBody D S) (he : Terminal D eof)
    (hX : IsProd D S 0 (X :: b)) (hn : Nonterminal D X) {maps : ReductMap M T} (d : Dfa M T)
    (h1 : d.table = t.actions) (h2 : d.reductors = maps) (h3 : d.eof = eof)
    {input : List (Token M T)} (hT : TerminalToks D input) (n : Nat) :
    ∀ d' v, Dfa.parse n d input ≠ .ok (d', .ok v) := by
  intro d' v h
  obtain ⟨b0, next, red, ha, _⟩ := ht.auto
  unfold Dfa.parse Dfa.start at h
  obtain ⟨⟨e, r⟩, h4, h⟩ := Out.bind_eq_ok.mp h
  cases r with
  | error er => cases h
  | ok u =>
    have hb : NoBottom (Dfa.new input t.actions maps eof) { d.reset with buffer := input } :=
      ⟨rfl, rfl, h1, rfl, rfl, h2, h3, rfl⟩
    obtain ⟨c, hm, hacc, hq⟩ := ha.bottom_trace he hT n n (.refl _)
      (sim_init t.actions eof maps input) hb (by intro tr h; cases h) h4
    obtain ⟨hv, _⟩ := ha.accepts hS (ha.inv_moves (inv_init D t.states next input) hm) hacc
    cases hv with
    | node hp hc =>
      have e1 := hp.unique hX
      cases hl : c.trees.reverse with
      | nil => rw [hl] at e1; cases e1
      | cons tr rest =>
        have : c.trees.getLast? = some tr := by
          rw [← List.head?_reverse, hl]; rfl
        obtain ⟨tok, rfl⟩ := hq tr this
        rw [hl] at e1
        simp only [List.map_cons, Tree.root, List.cons.injEq] at e1
        have := hc (.leaf tok) (by rw [hl]; simp)
        cases this with
        | leaf ht => rw [e1.1] at ht; exact not_terminal_iff.mpr hn ht

/-- Not vacuous: a `Dfa` of the expression parser panics on `id`, which the parser accepts. -/
example : Panics (fun n => Dfa.parse n (Dfa.new [] exprSlr.actions (Parser.empty exprSlr) 99)
      (Samples.toks [14])) .statesUnderflow ∧
    Validates exprSlr (Samples.toks [14]) true :=
  ⟨⟨50, panicOf_eq (by decide +kernel)⟩, 50, by decide +kernel⟩

end Lrp.Props
