import Verif.Proofs.Sim
import Verif.Proofs.LalrAuto
import Verif.Proofs.Canonical
import Verif.Proofs.Prefix

/-! `Parser::parse` and `Parser::validate` of built parsers in terms of moves. -/

set_option linter.unusedSectionVars false

namespace Lrp
open Spec
variable {T : Type} [LinOrd T] [DecidableEq T] {M : Type}

/-! ### Built tables -/

section
variable {k : Method} {dbg : Bool} {D : Decls T} {S eof : T} {t : Tabler T}

theorem Spec.Makes.auto (h : Makes k dbg D S eof t) : ∃ b0 next red,
    Auto D S b0 t.states t.actions next red ∧ t.grammar.Of D S eof := by
  obtain ⟨g, hg, n, hb⟩ := h
  have hof := Grammar.of_new hg
  cases k with
  | slr =>
    have hb := Slr.built hof hb
    obtain ⟨b0, h0, _⟩ := hb.of.grammar.basis
    exact ⟨b0, _, _, hb.auto h0, hb.of.grammar⟩
  | clr =>
    have hb := Clr.built hof hb
    obtain ⟨b0, h0, _⟩ := hb.of.grammar.basis
    exact ⟨b0, _, _, hb.auto h0, hb.of.grammar⟩
  | lalr =>
    obtain ⟨l, hl, e⟩ := Out.bind_eq_ok.mp hb
    cases e
    obtain ⟨t0, _, hb, _⟩ := Lalr.built hof hl
    obtain ⟨b0, h0, _⟩ := hb.of.grammar.basis
    exact ⟨b0, _, _, hb.auto h0, hb.grammar ▸ hb.of.grammar⟩

/-- Lalr tables have all the lookaheads if these have been propagated. -/
theorem LBuilt.looks {l : Lalr T} {t0 : Tabler T} {G : Position T → Prop}
    (h : LBuilt l D S eof t0 G) {b0 : List T} (hb : IsProd D S 0 b0) (hpr : Propagated l.table) :
    Looks D S eof b0 l.table.states (fun s x => l.stateFromKernel (Tabler.symFilter s x))
      (fun p x => x ∈ p.look) := by
  have ha := h.auto hb
  have hbase : t0.basisPos = { rule := S, seq := (b0, 0), point := 0, look := [eof] } := by
    obtain ⟨b, hb', he⟩ := h.of.grammar.basis
    have he' : t0.basisPos = _ := he
    rw [he', hb'.unique hb]
  refine ⟨?_, ?_, ?_⟩
  · obtain ⟨s, hs, hclo⟩ := h.start
    refine ⟨s, t0.basisPos, hs, (hclo.mem _).mpr (.base (by simp)), ?_, ?_, ?_, ?_⟩ <;> rw [hbase]
    simp
  · intro i j s s' p x hs hp ht hj hs'
    obtain ⟨row, hr⟩ := ha.row hs
    have key : ∀ a : Action T, Dec D S (fun x => l.stateFromKernel (Tabler.symFilter s x))
        (fun p x => x ∈ p.look) s x a → (a = .shift j ∨ a = .goto j) →
        ∃ q ∈ s', SameBody q p.adv ∧ ∀ y, Terminal D y → y ∈ p.look → y ∈ q.look := by
      intro a hd hj'
      have hc := (ha.cell hs hr).2 x
      cases hg : row.get? x with
      | none => exact absurd hd (hc.empty.mp hg a)
      | some c =>
        have := (hc.among c hg a).mpr hd
        obtain ⟨q, k1, k2, k3, k4, k5⟩ := hpr i j s s' row c p x hs hr hp ht hg
          (by rcases hj' with rfl | rfl
              · exact Or.inl this
              · exact Or.inr this) hs'
        exact ⟨q, k1, ⟨k2, k3, k4⟩, fun y _ hy => k5 y hy⟩
    by_cases hx : Terminal D x
    · exact key _ (Or.inl ⟨p, hp, ht, j, hj, Or.inl ⟨hx, rfl⟩⟩) (Or.inl rfl)
    · exact key _ (Or.inl ⟨p, hp, ht, j, hj, Or.inr ⟨Classical.not_not.mp (fun hn => hx
        (by intro d hd e; exact hn ⟨d, hd, e⟩)), rfl⟩⟩) (Or.inr rfl)
  · intro i s p A k b y hs hp ht hprod hy hn hf
    obtain ⟨q, h1, h2, h3⟩ := h.closed hs p hp _ (adds_of_prod h.of.grammar ht hprod)
    refine ⟨q, h1, h2.1.symm, h2.2.1.symm, h2.2.2.symm, h3 y ?_⟩
    show y ∈ clrLook t0.first p
    cases hnx : p.next with
    | none => rw [clrLook_none hnx]; exact hn hnx
    | some Z => rw [clrLook_some hnx]; exact mem_symLook h.of hy (hf Z hnx)

/-- Slr and Clr tables have all the lookaheads. -/
theorem Spec.Makes.looks (h : Makes k dbg D S eof t) (hk : k = .lalr → Propagated t)
    (he : Terminal D eof) :
    ∃ b0 next red, Auto D S b0 t.states t.actions next red ∧
      Looks D S eof b0 t.states next red := by
  obtain ⟨g, hg, n, hb⟩ := h
  have hof := Grammar.of_new hg
  cases k with
  | slr =>
    have hb := Slr.built hof hb
    obtain ⟨b0, h0, _⟩ := hb.of.grammar.basis
    exact ⟨b0, _, _, hb.auto h0, hb.looks_slr h0 he⟩
  | clr =>
    have hb := Clr.built hof hb
    obtain ⟨b0, h0, _⟩ := hb.of.grammar.basis
    exact ⟨b0, _, _, hb.auto h0, hb.looks_clr h0⟩
  | lalr =>
    obtain ⟨l, hl, e⟩ := Out.bind_eq_ok.mp hb
    cases e
    obtain ⟨t0, _, hb, _⟩ := Lalr.built hof hl
    obtain ⟨b0, h0, _⟩ := hb.of.grammar.basis
    exact ⟨b0, _, _, hb.auto h0, hb.looks h0 (hk rfl)⟩

/-- Clr tables have only lookaheads that occur. -/
theorem Spec.Makes.exact (h : Makes .clr dbg D S eof t) :
    ∃ b0 next red, Auto D S b0 t.states t.actions next red ∧
      Looks D S eof b0 t.states next red ∧ Exact D S eof b0 t.states next red := by
  obtain ⟨g, hg, n, hb⟩ := h
  have hof := Grammar.of_new hg
  have hb := Clr.built hof hb
  obtain ⟨b0, h0, _⟩ := hb.of.grammar.basis
  exact ⟨b0, _, _, hb.auto h0, hb.looks_clr h0, hb.exact_clr h0⟩

theorem Spec.Makes.grammar (h : Makes k dbg D S eof t) : t.grammar.Of D S eof := by
  obtain ⟨_, _, _, _, h⟩ := h.auto
  exact h

theorem Spec.Makes.eofHead (h : Makes k dbg D S eof t) : t.grammar.basis.look.head? = some eof := by
  obtain ⟨b, _, e⟩ := h.grammar.basis
  rw [e]; rfl

theorem Spec.Makes.dfa (h : Makes k dbg D S eof t) (toks : List (Token M T)) (maps : ReductMap M T) :
    Parser.dfa t toks maps = .ok (Dfa.new toks t.actions maps eof) := by
  unfold Parser.dfa
  rw [h.eofHead]; rfl

theorem Spec.Makes.noEmpty (h : Makes k dbg D S eof t) : NoEmpty D := by
  obtain ⟨_, _, _, h, _⟩ := h.auto
  exact h.noEmpty

theorem Spec.Makes.start (h : Makes k dbg D S eof t) : Nonterminal D S := by
  obtain ⟨_, _, _, h, _⟩ := h.auto
  exact h.start.nonterminal

/-- No conflicts, no conflict cells. -/
theorem Spec.Makes.no_conflict (h : Makes k dbg D S eof t) : t.conflicts = [] ↔
    ∀ i x a b, cellAt t.actions i x ≠ some (.conflict a b) := by
  obtain ⟨_, _, _, h, _⟩ := h.auto
  rw [conflicts_eq_nil]
  · constructor
    · intro hn i x a b hc
      unfold cellAt at hc
      cases hr : t.actions[i]? with
      | none => rw [hr] at hc; cases hc
      | some row =>
        rw [hr] at hc
        exact hn i row x a b hr hc
    · intro hn i row x a b hr hc
      refine hn i x a b ?_
      unfold cellAt; rw [hr]; exact hc
  · intro row hm
    obtain ⟨i, hi, he⟩ := List.getElem_of_mem hm
    have hi' : i < t.states.length := by rw [← h.len]; exact hi
    exact (h.cell (List.getElem?_eq_getElem hi') (List.getElem?_eq_some_iff.mpr ⟨hi, he⟩)).1

end

/-! ### parse -/

section
variable {D : Decls T} {S : T} {b0 : List T} {t : Tabler T}
  {next : State T → T → Option Nat} {red : Position T → T → Prop} {eof : T} {maps : ReductMap M T}

theorem Parser.parse_le {n m : Nat} (h : n ≤ m) (t : Tabler T) (toks : List (Token M T))
    (maps : ReductMap M T) : Out.Le (Parser.parse t n toks maps) (Parser.parse t m toks maps) := by
  unfold Parser.parse
  refine Out.Le.bind (.refl _) (fun d => Out.Le.bind (Dfa.start_le h d) (fun r => .refl _))

theorem Parser.validate_le {n m : Nat} (h : n ≤ m) (t : Tabler T) (toks : List (Token Unit T)) :
    Out.Le (Parser.validate t n toks) (Parser.validate t m toks) := by
  unfold Parser.validate
  exact Out.Le.bind (Parser.parse_le h t toks _) (fun r => .refl _)

/-- The result of a run depends on the input only. -/
theorem Spec.Parses.unique {toks : List (Token M T)} {r r' : Except (Error T) M}
    (h : Parses t maps toks r) (h' : Parses t maps toks r') : r = r' := by
  obtain ⟨n, h⟩ := h
  obtain ⟨m, h'⟩ := h'
  exact Out.Le.agree (f := fun n => Parser.parse t n toks maps)
    (fun h => Parser.parse_le h t toks maps) h h'

theorem Spec.Validates.unique {toks : List (Token Unit T)} {r r' : Bool}
    (h : Validates t toks r) (h' : Validates t toks r') : r = r' := by
  obtain ⟨n, h⟩ := h
  obtain ⟨m, h'⟩ := h'
  exact Out.Le.agree (f := fun n => Parser.validate t n toks)
    (fun h => Parser.validate_le h t toks) h h'

/-- An accepting configuration has a tree on the stack. -/
theorem Auto.accepts_cons {states : List (State T)} {acts : ActTable T}
    (h : Auto D S b0 states acts next red) {c : Conf M T}
    (hi : InvC D states next c) (ha : Accepts acts eof c) : ∃ tr rest, c.trees = tr :: rest := by
  obtain ⟨i, st, e, hc, _⟩ := ha
  obtain ⟨sts, trs, buf⟩ := c
  simp only at e; subst e
  obtain ⟨i0, st0, s, e, hs⟩ := h.path_state hi.path
  cases e
  rcases h.cell_dec hs hc (by intro x y; simp) with ⟨p, _, _, j, _, hk⟩ | ⟨p, hp, ht, _, hk⟩
  · rcases hk with ⟨_, hk⟩ | ⟨_, hk⟩ <;> cases hk
  · obtain ⟨r1, _⟩ := h.path_items hi.path hs hp
    have h1 := top_none ht
    have h2 : p.seq.1 ≠ [] := h.noEmpty _ _ _ (h.prod hs hp).1
    cases trs with
    | nil =>
      simp at r1
      rw [r1] at h1
      exact absurd (List.length_eq_zero_iff.mp (Nat.le_zero.mp h1)) h2
    | cons tr rest => exact ⟨tr, rest, rfl⟩

/-- What `parse` can return. -/
inductive ParseEnd (D : Decls T) (acts : ActTable T) (eof : T) (maps : ReductMap M T)
    (toks : List (Token M T)) : Out (Except (Error T) M) → Prop
  | ok {c : Conf M T} {tr : Tree M T} {rest : List (Tree M T)} {v : M} :
      Moves acts eof ⟨[0], [], toks⟩ c → Accepts acts eof c → c.trees = tr :: rest →
      tr.eval (redOf maps) = some v → (∀ tr' ∈ c.trees, ∃ v', tr'.eval (redOf maps) = some v') →
      ParseEnd D acts eof maps toks (.ok (.ok v))
  | error {c : Conf M T} {e : Error T} : Moves acts eof ⟨[0], [], toks⟩ c → Fails acts eof c e →
      ParseEnd D acts eof maps toks (.ok (.error e))
  | panic {c : Conf M T} {p : Panic} : RedFails D maps toks p → Moves acts eof ⟨[0], [], toks⟩ c →
      RedAt acts eof maps c → ParseEnd D acts eof maps toks (.panic p)
  | fuel : ParseEnd D acts eof maps toks .fuel

theorem Sim.last {acts : ActTable T} {d : Dfa M T} {c : Conf M T} (hs : Sim acts eof maps d c)
    {tr : Tree M T} {rest : List (Tree M T)} (hc : c.trees = tr :: rest) :
    ∃ it its, d.items = it :: its ∧ tr.eval (redOf maps) = some it.item := by
  have := hs.items
  rw [hc] at this
  cases hd : d.items with
  | nil => rw [hd] at this; simp at this
  | cons it its =>
    rw [hd] at this
    simp only [List.map_cons, List.cons.injEq] at this
    refine ⟨it, its, rfl, ?_⟩
    obtain ⟨v, h1, h2⟩ := Option.map_eq_some_iff.mp this.1
    rw [h1, ← h2]

theorem Sim.values {acts : ActTable T} {d : Dfa M T} {c : Conf M T} (hs : Sim acts eof maps d c) :
    ∀ tr ∈ c.trees, ∃ v, tr.eval (redOf maps) = some v := by
  intro tr ht
  have := List.mem_map_of_mem (f := valTok (redOf maps)) ht
  rw [hs.items] at this
  obtain ⟨it, _, e⟩ := List.mem_map.mp this
  obtain ⟨v, h1, _⟩ := Option.map_eq_some_iff.mp e.symm
  exact ⟨v, h1⟩

theorem Auto.parse_end (h : Auto D S b0 t.states t.actions next red)
    (hdfa : t.grammar.basis.look.head? = some eof) (he : Terminal D eof)
    {toks : List (Token M T)} (hT : TerminalToks D toks) (n : Nat) :
    ParseEnd D t.actions eof maps toks (Parser.parse t n toks maps) := by
  unfold Parser.parse Parser.dfa
  rw [hdfa]
  simp only [Out.ofOption_some, Out.ok_bind, Out.pure_eq]
  have hi := inv_init (M := M) D t.states next toks
  have hr := h.ran (maps := maps) he n n hi (sim_init t.actions eof maps toks) hT
  unfold Dfa.start
  generalize Dfa.trace id n n (Dfa.new toks t.actions maps eof) = r at hr ⊢
  cases hr with
  | @ok c' d' h1 h2 h3 =>
    obtain ⟨tr, rest, hc⟩ := h.accepts_cons (h.inv_moves hi h1) h2
    obtain ⟨it, its, e1, e2⟩ := h3.last hc
    simp only [Out.ok_bind, e1]
    exact .ok h1 h2 hc e2 h3.values
  | error h1 h2 => exact .error h1 h2
  | panic h1 h2 h3 => exact .panic h1 h2 h3
  | fuel => exact .fuel

/-- A successful parse, on any input. -/
theorem Auto.parse_ok (h : Auto D S b0 t.states t.actions next red)
    (hdfa : t.grammar.basis.look.head? = some eof) (he : Terminal D eof)
    {toks : List (Token M T)} {v : M} (hr : Parses t maps toks (.ok v)) :
    ∃ c tr rest, Moves t.actions eof ⟨[0], [], toks⟩ c ∧ Accepts t.actions eof c ∧
      c.trees = tr :: rest ∧ tr.eval (redOf maps) = some v := by
  obtain ⟨n, hr⟩ := hr
  unfold Parser.parse Parser.dfa at hr
  simp only [hdfa, Out.ofOption_some, Out.ok_bind, Out.pure_eq] at hr
  obtain ⟨⟨d', r⟩, h1, h2⟩ := Out.bind_eq_ok.mp hr
  cases r with
  | error e => simp at h2
  | ok u =>
    obtain ⟨c, d1, k1, k2, k3, k4⟩ := h.ran_ok (maps := maps) he n n
      (inv_init (M := M) D t.states next toks) (sim_init t.actions eof maps toks) h1
    obtain ⟨tr, rest, hc⟩ := h.accepts_cons (h.inv_moves (inv_init D t.states next toks) k1) k2
    obtain ⟨it, its, e1, e2⟩ := k3.last hc
    subst k4
    simp only [e1, Out.ok.injEq, Except.ok.injEq] at h2
    subst h2
    exact ⟨c, tr, rest, k1, k2, hc, e2⟩

/-- A run that stops makes `parse` return or panic. -/
theorem Auto.parse_stop (h : Auto D S b0 t.states t.actions next red)
    (hdfa : t.grammar.basis.look.head? = some eof) (he : Terminal D eof)
    {toks : List (Token M T)} (hT : TerminalToks D toks) {c : Conf M T}
    (hm : Moves t.actions eof ⟨[0], [], toks⟩ c)
    (hstop : Accepts t.actions eof c ∨ ∃ e, Fails t.actions eof c e) :
    ∃ n, Parser.parse t n toks maps ≠ .fuel := by
  obtain ⟨n, hn⟩ := h.ran_stop (maps := maps) he hm hstop (inv_init (M := M) D t.states next toks)
    (sim_init t.actions eof maps toks) hT
  refine ⟨max n 2, ?_⟩
  unfold Parser.parse Parser.dfa
  simp only [hdfa, Out.ofOption_some, Out.ok_bind, Out.pure_eq]
  have h1 := hn (max n 2) (Nat.le_max_right _ _)
  have h2 : Dfa.start (max n 2) (Dfa.new toks t.actions maps eof) ≠ .fuel := by
    rcases Dfa.trace_le (f := id) (Nat.le_refl (max n 2)) (Nat.le_max_left n 2)
      (Dfa.new toks t.actions maps eof) with hf | hf
    · exact absurd hf h1
    · intro h3
      unfold Dfa.start at h3
      rw [h3] at hf
      exact h1 hf
  cases hd : Dfa.start (max n 2) (Dfa.new toks t.actions maps eof) with
  | fuel => exact absurd hd h2
  | panic p => simp
  | ok r =>
    obtain ⟨d', e | u⟩ := r
    · simp
    · simp only [Out.ok_bind]
      split <;> simp

theorem RedFails.false {toks : List (Token M T)} {p : Panic} (hr : Evaluates D maps toks)
    (h : RedFails D maps toks p) : False := by
  obtain ⟨_, A, k, cs, its, h1, h2, h3, _, h4⟩ := h
  obtain ⟨v, hv⟩ := hr _ h1 (by rwa [Tree.yield_node])
  rw [Tree.eval, h3, Option.bind_some, h4] at hv
  cases hv

/-- Reductors that never panic give every tree a value. -/
theorem Spec.Reductors.evaluates (hr : Reductors D maps) (toks : List (Token M T)) :
    Evaluates D maps toks := by
  intro tr hv hin
  clear hin
  induction hv with
  | leaf _ => exact ⟨_, by rw [Tree.eval]⟩
  | @node A i cs hp hcs ih =>
    clear hcs
    have : ∃ its, Tree.evals (redOf maps) cs = some its ∧ its.map Token.ty = cs.map Tree.root := by
      clear hp
      induction cs with
      | nil => exact ⟨[], by rw [Tree.evals], rfl⟩
      | cons c cs ihc =>
        obtain ⟨v, h1⟩ := ih c (List.mem_cons_self ..)
        obtain ⟨its, h2, h3⟩ := ihc (fun c hc => ih c (List.mem_cons_of_mem _ hc))
        exact ⟨⟨v, c.root⟩ :: its, by rw [Tree.evals, h1, h2], by simp [h3]⟩
    obtain ⟨its, h1, h2⟩ := this
    obtain ⟨v, h3⟩ := hr A i its (by rw [h2]; exact hp)
    exact ⟨v, by rw [Tree.eval, h1]; exact h3⟩

theorem Accepts.not_fails {acts : ActTable T} {c : Conf M T} {e : Error T}
    (h : Accepts acts eof c) (h' : Fails acts eof c e) : False := by
  obtain ⟨i, st, e1, e2, e3⟩ := h
  cases h' with
  | noAction k1 k2 =>
    simp only at e1 e3; subst e3; cases e1
    unfold cellAt at e2; rw [k1] at e2
    simp only [Option.bind_some] at e2
    simp only [lookSym] at k2
    rw [k2] at e2; cases e2
  | eof k1 => cases e1; rw [k1] at e2; cases e2
  | conflict k1 => simp only at e1 e3; subst e3; cases e1; simp only [lookSym] at k1; rw [k1] at e2; cases e2
  | incomplete k1 k2 => exact k2 e3
  | conflict' k1 _ _ _ =>
    simp only at e1 e3; subst e3; cases e1; simp only [lookSym] at k1; rw [k1] at e2; cases e2

/-- A run that accepts makes `parse` succeed. -/
theorem Auto.parse_accept (h : Auto D S b0 t.states t.actions next red)
    (hdfa : t.grammar.basis.look.head? = some eof) (he : Terminal D eof)
    {toks : List (Token M T)} (hred : Evaluates D maps toks) (hT : TerminalToks D toks) {c : Conf M T}
    (hm : Moves t.actions eof ⟨[0], [], toks⟩ c) (ha : Accepts t.actions eof c) :
    ∃ tr rest v, c.trees = tr :: rest ∧ tr.eval (redOf maps) = some v ∧
      Parses t maps toks (.ok v) := by
  obtain ⟨n, hn⟩ := h.parse_stop (maps := maps) hdfa he hT hm (Or.inl ha)
  have he := h.parse_end (maps := maps) hdfa he hT n
  generalize hp : Parser.parse t n toks maps = r at hn he
  cases he with
  | @ok c' tr rest v k1 k2 k3 k4 =>
    have := dead_unique hm k1 (fun _ => ha.no_move) (fun _ => k2.no_move)
    subst this
    exact ⟨tr, rest, v, k3, k4, n, hp⟩
  | @error c' e k1 k2 =>
    have := dead_unique hm k1 (fun _ => ha.no_move) k2.dead
    subst this
    exact absurd k2 (fun k2 => ha.not_fails k2)
  | panic k _ _ => exact (k.false hred).elim
  | fuel => exact absurd rfl hn

/-- A run that fails makes `parse` report an error found there. -/
theorem Auto.parse_fail (h : Auto D S b0 t.states t.actions next red)
    (hdfa : t.grammar.basis.look.head? = some eof) (he : Terminal D eof)
    {toks : List (Token M T)} (hred : Evaluates D maps toks) (hT : TerminalToks D toks) {c : Conf M T} {e : Error T}
    (hm : Moves t.actions eof ⟨[0], [], toks⟩ c) (hf : Fails t.actions eof c e) :
    ∃ e', Fails t.actions eof c e' ∧ Parses t maps toks (.error e') := by
  obtain ⟨n, hn⟩ := h.parse_stop (maps := maps) hdfa he hT hm (Or.inr ⟨e, hf⟩)
  have he := h.parse_end (maps := maps) hdfa he hT n
  generalize hp : Parser.parse t n toks maps = r at hn he
  cases he with
  | @ok c' tr rest v k1 k2 k3 k4 =>
    have := dead_unique hm k1 hf.dead (fun _ => k2.no_move)
    subst this
    exact absurd hf (fun hf => k2.not_fails hf)
  | @error c' e k1 k2 =>
    have := dead_unique hm k1 hf.dead k2.dead
    subst this
    exact ⟨e, k2, n, hp⟩
  | panic k _ _ => exact (k.false hred).elim
  | fuel => exact absurd rfl hn

/-- Trees stay in the trees built later. -/
theorem Moves.values {acts : ActTable T} {c d : Conf M T} (h : Moves acts eof c d)
    (hd : ∀ tr ∈ d.trees, ∃ v, tr.eval (redOf maps) = some v) :
    ∀ tr ∈ c.trees, ∃ v, tr.eval (redOf maps) = some v := by
  induction h with
  | refl => exact hd
  | head m _ ih =>
    have ih := ih hd
    cases m with
    | shift _ => exact fun tr ht => ih tr (List.mem_cons_of_mem _ ht)
    | @reduce _ _ _ _ _ trs _ _ b _ _ _ _ =>
      intro tr ht
      simp only at ht
      rw [← List.take_append_drop b.length trs, List.mem_append] at ht
      rcases ht with ht | ht
      · obtain ⟨v, hv⟩ := ih _ (List.mem_cons_self ..)
        rw [Tree.eval] at hv
        obtain ⟨its, hits, _⟩ := Option.bind_eq_some_iff.mp hv
        have hm := evals_iff.mp hits
        have := List.mem_map_of_mem (f := valTok (redOf maps)) (List.mem_reverse.mpr ht)
        rw [hm] at this
        obtain ⟨it, _, e⟩ := List.mem_map.mp this
        obtain ⟨v, h1, _⟩ := Option.map_eq_some_iff.mp e.symm
        exact ⟨v, h1⟩
      · exact ih tr (List.mem_cons_of_mem _ ht)

/-- A run whose final trees have values met no reductor that fails. -/
theorem RedAt.false {acts : ActTable T} {c d : Conf M T} (h : RedAt acts eof maps c)
    (hm : Moves acts eof c d) (ha : Accepts acts eof d)
    (hd : ∀ tr ∈ d.trees, ∃ v, tr.eval (redOf maps) = some v) : False := by
  obtain ⟨i, st, A, b, k, its, e1, e2, e3, e4⟩ := h
  cases hm with
  | refl =>
    obtain ⟨i', st', k1, k2, k3⟩ := ha
    rw [e1] at k1
    cases k1
    rw [k3, lookSym, k2] at e2
    cases e2
  | head m hm =>
    have := hm.values hd
    cases m with
    | shift h1 => cases e1; simp only [lookSym] at e2; rw [h1] at e2; cases e2
    | reduce h1 _ _ _ =>
      cases e1
      simp only at e2 e3
      rw [h1] at e2
      cases e2
      obtain ⟨v, hv⟩ := this _ (List.mem_cons_self ..)
      rw [Tree.eval, e3, Option.bind_some, e4] at hv
      cases hv

/-- A run that accepts: `parse` succeeds if the trees have values, and panics otherwise. -/
theorem Auto.parse_accept_iff (h : Auto D S b0 t.states t.actions next red)
    (hdfa : t.grammar.basis.look.head? = some eof) (he : Terminal D eof)
    {toks : List (Token M T)} (hT : TerminalToks D toks) {c : Conf M T}
    (hm : Moves t.actions eof ⟨[0], [], toks⟩ c) (ha : Accepts t.actions eof c) :
    ((∀ tr ∈ c.trees, ∃ v, tr.eval (redOf maps) = some v) ∧
      ∃ tr rest v, c.trees = tr :: rest ∧ tr.eval (redOf maps) = some v ∧ Parses t maps toks (.ok v)) ∨
    ((∃ tr ∈ c.trees, tr.eval (redOf maps) = none) ∧
      ∃ p, Panics (fun n => Parser.parse t n toks maps) p) := by
  obtain ⟨n, hn⟩ := h.parse_stop (maps := maps) hdfa he hT hm (Or.inl ha)
  have he := h.parse_end (maps := maps) hdfa he hT n
  generalize hp : Parser.parse t n toks maps = r at hn he
  cases he with
  | @ok c' tr rest v k1 k2 k3 k4 k5 =>
    have := dead_unique hm k1 (fun _ => ha.no_move) (fun _ => k2.no_move)
    subst this
    exact .inl ⟨k5, tr, rest, v, k3, k4, n, hp⟩
  | @error c' e k1 k2 =>
    have := dead_unique hm k1 (fun _ => ha.no_move) k2.dead
    subst this
    exact absurd k2 (fun k2 => ha.not_fails k2)
  | @panic c' p _ k1 k2 =>
    refine .inr ⟨?_, p, n, hp⟩
    apply Classical.byContradiction
    intro hne
    have hall : ∀ tr ∈ c.trees, ∃ v, tr.eval (redOf maps) = some v := by
      intro tr ht
      cases hv : tr.eval (redOf maps) with
      | none => exact absurd ⟨tr, ht, hv⟩ hne
      | some v => exact ⟨v, rfl⟩
    refine k2.false ?_ ha hall
    rcases k1.linear hm with h1 | h1
    · exact h1
    · have := h1.dead (fun _ => ha.no_move)
      subst this
      exact .refl _
  | fuel => exact absurd rfl hn

/-! ### The reductors of `validate` -/

theorem OMap.get?_ofList_some {κ ν : Type} [LinOrd κ] [DecidableEq κ] {es : List (κ × ν)} {k : κ} {v : ν} (h : (k, v) ∈ es) :
    ∃ v', (k, v') ∈ es ∧ (OMap.ofList es).get? k = some v' := by
  suffices ∃ v', (OMap.ofList es).get? k = some v' by
    obtain ⟨v', h'⟩ := this
    exact ⟨v', OMap.mem_ofList (OMap.mem_of_get? h'), h'⟩
  unfold OMap.ofList
  suffices ∀ m : OMap κ ν, ((∃ v, (k, v) ∈ es) ∨ ∃ v, m.get? k = some v) →
      ∃ v', (es.foldl (fun m e => OMap.insert e.1 e.2 m) m).get? k = some v' from
    this [] (Or.inl ⟨v, h⟩)
  clear h v
  induction es with
  | nil => rintro m (⟨v, h⟩ | h)
           · simp at h
           · exact h
  | cons e es ih =>
    intro m h
    refine ih _ ?_
    by_cases hk : k = e.1
    · right; subst hk; exact ⟨e.2, OMap.get?_insert_self _ _ _⟩
    · rcases h with ⟨v, h⟩ | ⟨v, h⟩
      · rcases List.mem_cons.mp h with h | h
        · exact absurd (by rw [← h]) hk
        · exact Or.inl ⟨v, h⟩
      · right; exact ⟨v, by rw [OMap.get?_insert_ne _ _ hk]; exact h⟩

theorem redOf_transparent {g : T} (hg : t.grammar.Of D S g) (f : ReductFn M T) {A : T} {k : Nat}
    {b : List T} (hp : IsProd D A k b) (its : List (Token M T)) :
    redOf (Dfa.transparent t f) A k its = f its := by
  obtain ⟨bs, h1, h2⟩ := hp
  have hm : (A, (Rule.new A bs).prods.map (fun _ => f)) ∈
      t.grammar.rules.values.map (fun r => (r.name, r.prods.map (fun _ => f))) :=
    List.mem_map.mpr ⟨Rule.new A bs, (hg.mem_values _).mpr ⟨A, bs, h1, rfl⟩, rfl⟩
  obtain ⟨v', h3, h4⟩ := OMap.get?_ofList_some hm
  obtain ⟨r, h5, h6⟩ := List.mem_map.mp h3
  obtain ⟨A', bs', h7, rfl⟩ := (hg.mem_values _).mp h5
  simp only [Prod.mk.injEq] at h6
  obtain ⟨e1, rfl⟩ := h6
  have e1 : A' = A := e1
  subst e1
  rw [h7.unique h1] at h4
  unfold redOf Dfa.transparent
  rw [h4]
  simp [Rule.new, List.getElem?_zipIdx, h2]

theorem reductors_empty {g : T} (hg : t.grammar.Of D S g) : Reductors D (Parser.empty t) := by
  intro A k its hp
  exact ⟨(), redOf_transparent hg _ hp its⟩

theorem validates_true {toks : List (Token Unit T)} :
    Validates t toks true ↔ Parses t (Parser.empty t) toks (.ok ()) := by
  unfold Validates Parses Returns Parser.validate
  refine exists_congr (fun n => ?_)
  simp only
  generalize Parser.parse t n toks (Parser.empty t) = r
  cases r with
  | ok r => cases r <;> simp
  | panic p => simp
  | fuel => simp

theorem validates_false {toks : List (Token Unit T)} :
    Validates t toks false ↔ ∃ e, Parses t (Parser.empty t) toks (.error e) := by
  unfold Validates Parses Returns Parser.validate
  constructor
  · rintro ⟨n, h⟩
    simp only at h
    cases hp : Parser.parse t n toks (Parser.empty t) with
    | ok r =>
      cases r with
      | error e => exact ⟨e, n, hp⟩
      | ok u => rw [hp] at h; simp at h
    | panic p => rw [hp] at h; simp at h
    | fuel => rw [hp] at h; simp at h
  · rintro ⟨e, n, h⟩
    simp only at h
    exact ⟨n, by show Out.bind _ _ = _; rw [h]; rfl⟩

end

end Lrp
