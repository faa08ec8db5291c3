import Verif.Proofs.Viable

/-!
Where runs stop: at the first token that cannot follow what has been consumed.
-/

set_option linter.unusedSectionVars false

namespace Lrp
open Spec
variable {T : Type} [LinOrd T] [DecidableEq T] {M : Type}

/-- The symbols of the tokens consumed so far. -/
def Conf.consumed (c : Conf M T) : List T := (Tree.yields c.trees.reverse).map Token.ty

section
variable {D : Decls T} {S : T} {b0 : List T} {states : List (State T)} {acts : ActTable T}
  {next : State T → T → Option Nat} {red : Position T → T → Prop} {eof : T}

theorem InvC.derives {c : Conf M T} (hi : InvC D states next c) :
    Derives D ((c.trees.map Tree.root).reverse) c.consumed := by
  rw [← List.map_reverse]
  exact Tree.forest_derives (fun t ht => hi.valid t (List.mem_reverse.mp ht))

theorem InvC.terminals {c : Conf M T} (hi : InvC D states next c) :
    ∀ x ∈ c.consumed, Terminal D x := by
  intro x hx
  obtain ⟨tok, h1, rfl⟩ := List.mem_map.mp hx
  exact Tree.forest_terminals (fun t ht => hi.valid t (List.mem_reverse.mp ht)) tok h1

/-- A sentential form beginning with the stack is continued to a sentence. -/
theorem viable_of_form (hpr : AllProductive D) {c : Conf M T} (hi : InvC D states next c)
    {z : List T} (hd : Derives D [S] ((c.trees.map Tree.root).reverse ++ z)) :
    ∃ w, Derives D z w ∧ Sentence D S (c.consumed ++ w) := by
  obtain ⟨w, h1, h2⟩ := productive_list hpr z
  refine ⟨w, h1, hd.trans (hi.derives.append h1), ?_⟩
  intro t ht
  rcases List.mem_append.mp ht with ht | ht
  · exact hi.terminals t ht
  · exact h2 t ht

/-- A sentential form beginning with the stack and a terminal. -/
theorem mayFollow_of_form (hpr : AllProductive D) (he : Terminal D eof) {c : Conf M T}
    (hi : InvC D states next c) {x : T} (hx : Terminal D x) {z : List T}
    (hd : Derives D [S, eof] ((c.trees.map Tree.root).reverse ++ x :: z)) :
    MayFollow D S eof c.consumed x := by
  obtain ⟨w, h1, h2⟩ := productive_list hpr z
  have h3 : Derives D [S, eof] (c.consumed ++ x :: w) := by
    refine hd.trans (hi.derives.append ?_)
    exact (Derives.refl [x]).append h1
  have h4 : Derives D ([S] ++ [eof]) (c.consumed ++ x :: w) := h3
  obtain ⟨a, b, e, k1, k2⟩ := h4.split
  have hb := derives_terminal he k2
  subst hb
  refine ⟨a, w, ⟨k1, ?_⟩, e.symm⟩
  intro t ht
  have : t ∈ c.consumed ++ x :: w := by rw [e]; simp [ht]
  rcases List.mem_append.mp this with ht | ht
  · exact hi.terminals t ht
  · rcases List.mem_cons.mp ht with rfl | ht
    · exact hx
    · exact h2 t ht

/-- The top state of a stack has a position. -/
theorem Auto.path_position (h : Auto D S b0 states acts next red) {i : Nat} {st : List Nat}
    {syms : List T} (hp : Path states next (i :: st) syms) {s : State T}
    (hs : states[i]? = some s) : ∃ p, p ∈ s := by
  cases hp with
  | base =>
    obtain ⟨s', p, h1, h2, _⟩ := h.basis
    rw [hs] at h1; cases h1
    exact ⟨p, h2⟩
  | cons h1 h2 h3 h4 h5 =>
    obtain ⟨j', s', e1, _, e2, _, e4⟩ := h.edge h2 h3 h4
    rw [h5] at e1; cases e1
    rw [hs] at e2; cases e2
    obtain ⟨q, hq, _⟩ := e4 _ h3 h4
    exact ⟨q, hq⟩

/-- What has been consumed is the beginning of a sentence. -/
theorem Auto.viable_prefix (h : Auto D S b0 states acts next red) (hpr : AllProductive D)
    {c : Conf M T} (hi : InvC D states next c) : ViablePrefix D S c.consumed := by
  obtain ⟨i, st, s, e, hs⟩ := h.path_state hi.path
  have hpath := hi.path
  rw [e] at hpath
  obtain ⟨p, hp⟩ := h.path_position hpath hs
  obtain ⟨z, hz⟩ := h.viable_stack hpath hs hp
  obtain ⟨w, _, hw⟩ := viable_of_form hpr hi hz
  exact ⟨w, hw⟩

/-- A symbol that can be shifted may come next. -/
theorem Auto.mayFollow_shift (h : Auto D S b0 states acts next red) (hpr : AllProductive D)
    (he : Terminal D eof) {c : Conf M T} (hi : InvC D states next c) {i : Nat} {st : List Nat}
    (e : c.states = i :: st) {s : State T} (hs : states[i]? = some s) {p : Position T} (hp : p ∈ s)
    {x : T} (ht : p.top = some x) (hx : Terminal D x) : MayFollow D S eof c.consumed x := by
  have hpath := hi.path
  rw [e] at hpath
  obtain ⟨z, hz⟩ := h.viable_stack hpath hs hp
  have e1 : p.seq.1.drop p.point = x :: p.seq.1.drop (p.point + 1) := by
    rw [List.drop_eq_getElem_cons (top_lt ht)]
    congr 1
    obtain ⟨_, h⟩ := List.getElem?_eq_some_iff.mp ht
    simpa using h
  refine mayFollow_of_form (z := p.seq.1.drop (p.point + 1) ++ (z ++ [eof])) hpr he hi hx ?_
  have := hz.append (Derives.refl (D := D) [eof])
  rw [e1] at this
  simpa using this

/-- A symbol on which `Clr` reduces may come next. -/
theorem Exact.mayFollow_reduce (h : Auto D S b0 states acts next red)
    (hx : Exact D S eof b0 states next red) (hpr : AllProductive D)
    (he : Terminal D eof) {c : Conf M T} (hi : InvC D states next c) {i : Nat} {st : List Nat}
    (e : c.states = i :: st) {s : State T} (hs : states[i]? = some s) {p : Position T} (hp : p ∈ s)
    {x : T} (ht : p.top = none) (hr : red p x) (hxT : Terminal D x) :
    MayFollow D S eof c.consumed x := by
  have hpath := hi.path
  rw [e] at hpath
  obtain ⟨z, hz⟩ := hx.viable h hpath rfl hs hp hr
  refine mayFollow_of_form (z := z) hpr he hi hxT (hz.trans ?_)
  have hprod := h.prod hs hp
  have hpt : p.point = p.seq.1.length := Nat.le_antisymm hprod.2 (top_none ht)
  rw [h.split_syms hpath hs hp]
  have := Derives.ctx (Derives.of_prod hprod.1) ((List.map Tree.root c.trees).drop p.point).reverse
    (x :: z)
  have e2 : p.seq.1.take p.point = p.seq.1 := by rw [hpt, List.take_length]
  rw [e2]
  simpa using this

/-! ### Cells and dead ends -/

/-- There is a cell for the top state and the next symbol. -/
def HasCell (acts : ActTable T) (_eof : T) (c : Conf M T) (x : T) : Prop :=
  ∃ i st a, c.states = i :: st ∧ cellAt acts i x = some a

/-- No move. -/
def Dead (acts : ActTable T) (eof : T) (c : Conf M T) : Prop := ∀ d, ¬ Move acts eof c d

theorem Move.hasCell {c d : Conf M T} (m : Move acts eof c d) :
    HasCell acts eof c (lookSym eof c.buf) := by
  cases m with
  | shift h => exact ⟨_, _, _, rfl, h⟩
  | reduce h _ _ _ => exact ⟨_, _, _, rfl, h⟩

theorem Fails.dead {c : Conf M T} {e : Error T} (h : Fails acts eof c e) : Dead acts eof c :=
  fun _ m => h.no_move m

theorem Moves.dead {c d : Conf M T} (h : Moves acts eof c d) (hc : Dead acts eof c) : d = c := by
  cases h with
  | refl => rfl
  | head m _ => exact absurd m (hc _)

/-- Two dead ends of one run are the same. -/
theorem dead_unique {c d e : Conf M T} (h1 : Moves acts eof c d) (h2 : Moves acts eof c e)
    (hd : Dead acts eof d) (he : Dead acts eof e) : d = e := by
  rcases h1.linear h2 with h | h
  · exact (h.dead hd).symm
  · exact h.dead he

theorem Move.buf_le {c d : Conf M T} (m : Move acts eof c d) : d.buf.length ≤ c.buf.length := by
  cases m with
  | shift _ => simp
  | reduce _ _ _ _ => simp

theorem Moves.buf_le {c d : Conf M T} (m : Moves acts eof c d) : d.buf.length ≤ c.buf.length := by
  induction m with
  | refl => exact Nat.le_refl _
  | head m _ ih => exact Nat.le_trans ih m.buf_le

/-- The run from `c` gets, without consuming anything, to a cell that stops it or shifts. -/
def Prog (acts : ActTable T) (eof : T) (c : Conf M T) : Prop :=
  ∃ c', Moves acts eof c c' ∧ c'.buf = c.buf ∧ HasCell acts eof c' (lookSym eof c.buf) ∧
    (Dead acts eof c' ∨
      ∃ i st j, c'.states = i :: st ∧ cellAt acts i (lookSym eof c.buf) = some (.shift j))

theorem Prog.hasCell {c e : Conf M T} (h : Prog acts eof c) (hm : Moves acts eof c e)
    (hb : e.buf = c.buf) (hd : Dead acts eof e) : HasCell acts eof e (lookSym eof e.buf) := by
  obtain ⟨c', h1, h2, h3, h4⟩ := h
  rw [hb]
  rcases hm.linear h1 with hl | hl
  · rw [hl.dead hd] at h3; exact h3
  · cases hl with
    | refl => exact h3
    | head m ms =>
      exfalso
      rcases h4 with h4 | ⟨i, st, j, h5, h6⟩
      · exact h4 _ m
      · have hlen := ms.buf_le
        rw [hb, ← h2] at hlen
        cases m with
        | shift _ => simp at hlen; omega
        | reduce k1 _ _ _ =>
          simp only at h2 h5 k1
          cases h5
          rw [← h2, k1] at h6; cases h6

/-- Runs from configurations that differ only behind the next symbol. -/
theorem Moves.peek {c c' : Conf M T} (hm : Moves acts eof c c') :
    ∀ {buf : List (Token M T)}, lookSym eof c.buf = lookSym eof buf →
    (c'.buf = c.buf ∧ Moves acts eof ⟨c.states, c.trees, buf⟩ ⟨c'.states, c'.trees, buf⟩) ∨
    ∃ i st trs j, Moves acts eof ⟨c.states, c.trees, buf⟩ ⟨i :: st, trs, buf⟩ ∧
      cellAt acts i (lookSym eof buf) = some (.shift j) := by
  induction hm with
  | refl c => intro buf _; exact Or.inl ⟨rfl, .refl _⟩
  | @head c d e m ms ih =>
    intro buf hl
    cases m with
    | @shift i j st trs tok rest h1 =>
      right
      exact ⟨i, st, trs, j, .refl _, by rw [← hl]; exact h1⟩
    | reduce h1 h2 h3 h4 =>
      have m' : Move acts eof _ _ := Move.reduce (buf := buf) (by rw [← hl]; exact h1) h2 h3 h4
      rcases ih (buf := buf) hl with ⟨k1, k2⟩ | ⟨i, st, trs, j, k1, k2⟩
      · exact Or.inl ⟨k1, .head m' k2⟩
      · exact Or.inr ⟨i, st, trs, j, .head m' k1, k2⟩

theorem dead_of_cell {i : Nat} {st : List Nat} {trs : List (Tree M T)} {buf : List (Token M T)}
    {a : Action T} (h : cellAt acts i (lookSym eof buf) = some a)
    (ha : a = .acc ∨ ∃ x y, a = .conflict x y) : Dead acts eof ⟨i :: st, trs, buf⟩ := by
  intro d m
  cases m with
  | shift m1 =>
    simp only [lookSym] at h
    rw [m1] at h; cases h
    rcases ha with ha | ⟨x, y, ha⟩ <;> cases ha
  | reduce m1 _ _ _ =>
    rw [m1] at h; cases h
    rcases ha with ha | ⟨x, y, ha⟩ <;> cases ha

/-- A run that clashes or accepts, looked at with another continuation of the input. -/
theorem prog_of_peek {st : List Nat} {trs : List (Tree M T)} {more buf : List (Token M T)}
    (hl : lookSym eof more = lookSym eof buf)
    (h : Clash acts eof ⟨st, trs, more⟩ ∨
      ∃ c, Moves acts eof ⟨st, trs, more⟩ c ∧ Accepts acts eof c) :
    Prog acts eof ⟨st, trs, buf⟩ := by
  have shift : ∀ {i st' trs' j}, Moves acts eof ⟨st, trs, buf⟩ ⟨i :: st', trs', buf⟩ →
      cellAt acts i (lookSym eof buf) = some (.shift j) → Prog acts eof ⟨st, trs, buf⟩ :=
    fun {i st' trs' j} h1 h2 => ⟨_, h1, rfl, ⟨i, st', _, rfl, h2⟩, Or.inr ⟨i, st', j, rfl, h2⟩⟩
  rcases h with ⟨c', a, b, hm, hf⟩ | ⟨c, hm, ha⟩
  · rcases hm.peek hl with ⟨k1, k2⟩ | ⟨i, st', trs', j, k1, k2⟩
    · cases hf with
      | @conflict i st' trs' buf' _ _ h1 =>
        simp only at k1 k2; subst k1
        rw [hl] at h1
        exact ⟨_, k2, rfl, ⟨i, st', _, rfl, h1⟩, Or.inl (dead_of_cell h1 (Or.inr ⟨_, _, rfl⟩))⟩
      | @conflict' i i' k st' trs' buf' A bd _ _ h1 h2 h3 h4 =>
        simp only at k1 k2; subst k1
        rw [hl] at h1
        exact ⟨_, k2, rfl, ⟨i, st', _, rfl, h1⟩, Or.inl (Fails.dead (.conflict' h1 h2 h3 h4))⟩
    · exact shift k1 k2
  · rcases hm.peek hl with ⟨k1, k2⟩ | ⟨i, st', trs', j, k1, k2⟩
    · obtain ⟨i, st', e1, e2, e3⟩ := ha
      obtain ⟨cs, ct, cb⟩ := c
      simp only at e1 e2 e3 k1 k2
      subst e1 e3 k1
      have e2' : cellAt acts i (lookSym eof buf) = some .acc := by rw [← hl]; exact e2
      exact ⟨_, k2, rfl, ⟨i, st', _, rfl, e2'⟩, Or.inl (dead_of_cell e2' (Or.inl rfl))⟩
    · exact shift k1 k2

/-- Such a run has a cell at its first configuration. -/
theorem first_cell {c : Conf M T} (h : Clash acts eof c ∨
      ∃ c', Moves acts eof c c' ∧ Accepts acts eof c') :
    HasCell acts eof c (lookSym eof c.buf) := by
  rcases h with ⟨c', a, b, hm, hf⟩ | ⟨c', hm, ha⟩
  · cases hm with
    | refl =>
      cases hf with
      | conflict h1 => exact ⟨_, _, _, rfl, h1⟩
      | conflict' h1 _ _ _ => exact ⟨_, _, _, rfl, h1⟩
    | head m _ => exact m.hasCell
  · cases hm with
    | refl =>
      obtain ⟨i, st', e1, e2, e3⟩ := ha
      rw [e3]
      exact ⟨i, st', _, e1, e2⟩
    | head m _ => exact m.hasCell

/-! ### The tree of a sentence -/

theorem sentence_tree (hS : Nonterminal D S) (h1 : SingleStart D S) {toks : List (Token M T)}
    (hs : Sentence D S (toks.map Token.ty)) :
    ∃ cs : List (Tree M T), Tree.Valid D (.node S 0 cs) ∧ Tree.yields cs = toks := by
  obtain ⟨t, k1, k2, k3⟩ := Tree.of_derives hs.1 (by
    intro tok ht
    exact hs.2 _ (List.mem_map.mpr ⟨tok, ht, rfl⟩))
  cases k2 with
  | leaf h =>
    simp only [Tree.root] at k1
    rw [k1] at h
    exact absurd h (not_terminal_iff.mpr hS)
  | @node A i cs hp hc =>
    simp only [Tree.root] at k1; subst k1
    have := h1 i _ hp
    subst this
    exact ⟨cs, .node hp hc, by simpa using k3⟩

/-- A symbol that may come next, as a tree for the consumed tokens and some more. -/
theorem mayFollow_tree [hM : Nonempty M] (hS : Nonterminal D S) (h1 : SingleStart D S)
    {u : List (Token M T)} {x : T} (h : MayFollow D S eof (u.map Token.ty) x) :
    ∃ (cs : List (Tree M T)) (more : List (Token M T)), Tree.Valid D (.node S 0 cs) ∧
      Tree.yields cs = u ++ more ∧ lookSym eof more = x := by
  obtain ⟨w, v, hw, e⟩ := h
  obtain ⟨m⟩ := hM
  have hlen : (u.map Token.ty).length ≤ w.length := by
    have := congrArg List.length e
    simp at this ⊢
    omega
  have hpre : u.map Token.ty = w.take (u.map Token.ty).length := by
    have := congrArg (List.take (u.map Token.ty).length) e
    rw [List.take_append_of_le_length hlen, List.take_left' rfl] at this
    exact this.symm
  have hw' : w = u.map Token.ty ++ w.drop (u.map Token.ty).length := by
    have := List.take_append_drop (u.map Token.ty).length w
    rw [← hpre] at this
    exact this.symm
  generalize w.drop (u.map Token.ty).length = w' at hw'
  subst hw'
  rw [List.append_assoc] at e
  have e := List.append_cancel_left e
  have hmap : (w'.map (fun y => (⟨m, y⟩ : Token M T))).map Token.ty = w' := by
    simp [Function.comp_def]
  obtain ⟨cs, k1, k2⟩ := sentence_tree (M := M) hS h1
    (toks := u ++ w'.map (fun y => (⟨m, y⟩ : Token M T))) (by
      rw [List.map_append, hmap]; exact hw)
  refine ⟨cs, _, k1, k2, ?_⟩
  cases w' with
  | nil => simp at e; exact e.1
  | cons y w' => simp at e; exact e.1

/-! ### Errors -/

/-- The run stops because there is no cell for the next symbol: this symbol may not come next. -/
theorem Looks.error_token [Nonempty M] (h : Auto D S b0 states acts next red)
    (hl : Looks D S eof b0 states next red) (hS : InNoBody D S) (h1 : SingleStart D S)
    (he : Terminal D eof) {toks : List (Token M T)} {e : Conf M T}
    (hm : Moves acts eof ⟨[0], [], toks⟩ e) (hd : Dead acts eof e)
    (hn : ¬ HasCell acts eof e (lookSym eof e.buf)) :
    ¬ MayFollow D S eof e.consumed (lookSym eof e.buf) := by
  intro hmf
  obtain ⟨cs, more, k1, k2, k3⟩ := mayFollow_tree h.start.nonterminal h1 hmf
  have hy := hm.yields
  simp only [List.reverse_nil, Tree.yields_nil, List.nil_append] at hy
  rw [← hy] at hm
  rcases Looks.consumes h hl hS he k1 k2 e.buf with ⟨c', a, b, hm', hf⟩ | ⟨st, trs, hm', hrest⟩
  · have := dead_unique hm hm' hd hf.dead
    subst this
    apply hn
    cases hf with
    | conflict h1 => exact ⟨_, _, _, rfl, h1⟩
    | conflict' h1 _ _ _ => exact ⟨_, _, _, rfl, h1⟩
  · have hprog := prog_of_peek (buf := e.buf) k3 (hrest.imp id (fun ⟨c, x, y, _⟩ => ⟨c, x, y⟩))
    rcases hm'.linear hm with hl' | hl'
    · exact hn (hprog.hasCell hl' rfl hd)
    · have := hl'.dead hd
      rw [this] at hprog
      exact hn (hprog.hasCell (.refl _) rfl hd)

/-- In `Clr` the row in which the run stops without a cell has a cell exactly for the terminals that
may come next. -/
theorem Exact.error_row [Nonempty M] (h : Auto D S b0 states acts next red)
    (hl : Looks D S eof b0 states next red) (hx : Exact D S eof b0 states next red)
    (hpr : AllProductive D) (hS : InNoBody D S) (h1 : SingleStart D S)
    (he : Terminal D eof) {toks : List (Token M T)} (htoks : ∀ t ∈ toks, Terminal D t.ty)
    {e : Conf M T} (hm : Moves acts eof ⟨[0], [], toks⟩ e) (hd : Dead acts eof e)
    (hn : ¬ HasCell acts eof e (lookSym eof e.buf)) {y : T} (hyT : Terminal D y) :
    HasCell acts eof e y ↔ MayFollow D S eof e.consumed y := by
  have hi : InvC D states next e := h.inv_moves (inv_init D states next toks) hm
  constructor
  · rintro ⟨i, st, a, e1, e2⟩
    obtain ⟨i0, st0, s, e3, hs⟩ := h.path_state hi.path
    rw [e1] at e3; cases e3
    obtain ⟨row, hr⟩ : ∃ row, acts[i]? = some row := by
      have hlt : i < acts.length := by rw [h.len]; exact (List.getElem?_eq_some_iff.mp hs).1
      exact ⟨_, List.getElem?_eq_getElem hlt⟩
    have hc := (h.cell hs hr).2 y
    have hg : row.get? y = some a := by unfold cellAt at e2; rw [hr] at e2; exact e2
    have : ∃ b, Dec D S (next s) red s y b := by
      by_cases hex : ∃ b, Dec D S (next s) red s y b
      · exact hex
      · have := hc.empty.mpr (fun b hb => hex ⟨b, hb⟩)
        rw [hg] at this; cases this
    obtain ⟨b, ⟨p, hp, ht, _⟩ | ⟨p, hp, ht, hr, _⟩⟩ := this
    · exact h.mayFollow_shift hpr he hi e1 hs hp ht hyT
    · exact hx.mayFollow_reduce h hpr he hi e1 hs hp ht hr hyT
  · intro hmf
    have herr := Looks.error_token h hl hS h1 he hm hd hn
    obtain ⟨cs, more, k1, k2, k3⟩ := mayFollow_tree h.start.nonterminal h1 hmf
    have hy := hm.yields
    simp only [List.reverse_nil, Tree.yields_nil, List.nil_append] at hy
    have hm0 := hm
    rw [← hy] at hm
    rcases Looks.consumes h hl hS he k1 k2 e.buf with ⟨c', a, b, hm', hf⟩ | ⟨st, trs, hm', hrest⟩
    · exfalso
      have := dead_unique hm hm' hd hf.dead
      subst this
      apply hn
      cases hf with
      | conflict h1 => exact ⟨_, _, _, rfl, h1⟩
      | conflict' h1 _ _ _ => exact ⟨_, _, _, rfl, h1⟩
    · have hcell := first_cell (hrest.imp id (fun ⟨c, x, y, _⟩ => ⟨c, x, y⟩))
      simp only [k3] at hcell
      have heq : e = ⟨st, trs, e.buf⟩ := by
        rcases hm'.linear hm with hl' | hl'
        · generalize hc0 : (⟨st, trs, e.buf⟩ : Conf M T) = c0 at hl'
          cases hl' with
          | refl => rfl
          | head m ms =>
            exfalso
            subst hc0
            have hi2 : InvC D states next ⟨st, trs, e.buf⟩ :=
              h.inv_moves (inv_init D states next _) hm'
            have hcons : (⟨st, trs, e.buf⟩ : Conf M T).consumed = e.consumed := by
              have h1 := hm'.yields
              have h2 := hm.yields
              rw [← h2] at h1
              have := List.append_cancel_right h1
              unfold Conf.consumed
              rw [this]
            apply herr
            have hxT : Terminal D (lookSym eof e.buf) := by
              cases hb : e.buf with
              | nil => exact he
              | cons t ts =>
                refine htoks t ?_
                rw [← hy, hb]
                simp
            have hle := ms.buf_le
            generalize e.buf = eb at m hle hi2 hcons hxT ⊢
            cases m with
            | shift m1 =>
              simp at hle
              omega
            | @reduce i i' j k st' _ _ A b m1 m2 m3 m4 =>
              obtain ⟨i0, st0, s, e3, hs⟩ := h.path_state hi2.path
              cases e3
              rcases h.cell_dec hs m1 (by intro x y; simp) with ⟨p, _, _, _, _, hk⟩ | ⟨p, hp, ht, hr, _⟩
              · rcases hk with ⟨_, hk⟩ | ⟨_, hk⟩ <;> cases hk
              · rw [← hcons]
                exact hx.mayFollow_reduce h hpr he hi2 rfl hs hp ht hr hxT
        · exact (hl'.dead hd).symm
      rw [heq]
      obtain ⟨i, st', a, e1, e2⟩ := hcell
      exact ⟨i, st', a, e1, e2⟩

end

end Lrp
