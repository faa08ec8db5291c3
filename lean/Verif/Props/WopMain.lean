import Verif.Proofs.WopPrint
import Verif.Props.WopOut

/-! C73: what the command line program `wop` writes (wop/src/main.rs). -/

namespace Lrp.Props
open Spec Wop Wop.Spec
set_option maxRecDepth 100000

variable {quote : Text → Text}

theorem main_le {n m : Nat} (h : n ≤ m) (dbg : Bool) (order : Nat → List Span → List Span)
    (src : Text) (toks : List Gramem) :
    Out.Le (Wop.main quote dbg order n src toks) (Wop.main quote dbg order m src toks) := by
  unfold Wop.main buildParser
  refine Out.Le.bind (Out.Le.bind (.refl _) (fun g => Out.Le.bind (Slr.new_le h g) (fun t => .refl _)))
    (fun d => Out.Le.bind (Dfa.trace_le h h d) (fun r => .refl _))

/-- When the run of the parser of wop is over, all spans in the value at the bottom of its stack lie in the
source. -/
theorem bottom_shown {dbg : Bool} {src : Text} {toks : List Gramem} (hl : Lexed src toks) {t : Tabler Sym}
    (ht : Makes .slr dbg outRules .entryPoint .eof t) (hc : t.conflicts = []) {n : Nat}
    {d' : Dfa (Meta Ast) Sym} {res : Except (Error Sym) Unit}
    (hrun : Dfa.trace id n n (Dfa.new toks t.actions outReducts .eof) = .ok (d', res)) {ast : Gramem}
    (h : d'.items.getLast? = some ast) : Shown src ast := by
  have hT := lexed_terminals hl
  obtain ⟨b0, next, red', ha, _⟩ := ht.auto
  have hi := inv_init (M := Meta Ast) outRules t.states next toks
  have hsim := sim_init t.actions .eof outReducts toks
  have hend : ∃ c' d1, Moves t.actions .eof ⟨[0], [], toks⟩ c' ∧ Sim t.actions .eof outReducts d1 c' ∧
      d'.items = d1.items := by
    cases res with
    | ok u =>
      obtain ⟨c', d1, k1, _, k3, rfl⟩ := ha.ran_ok out_eof n n hi hsim hrun
      exact ⟨c', d1, k1, k3, rfl⟩
    | error e =>
      have hconf : ∀ a b, e ≠ .conflict a b := by
        rintro a b rfl
        have hran := ha.ran (maps := outReducts) out_eof n n hi hsim hT
        rw [hrun] at hran
        cases hran with
        | error _ k2 =>
          cases k2 with
          | conflict k => exact ht.no_conflict.mp hc _ _ _ _ k
          | conflict' _ _ _ k => exact ht.no_conflict.mp hc _ _ _ _ k
      obtain ⟨c', d1, k1, _, k3, k4⟩ := ha.ran_error out_eof n n hi hsim hT hrun hconf
      exact ⟨c', d1, k1, k3, k4⟩
  obtain ⟨c', d1, k1, k3, k4⟩ := hend
  have hlast := k3.bottom
  rw [← k4, h] at hlast
  cases htr : c'.trees.getLast? with
  | none => rw [htr] at hlast; cases hlast
  | some tr =>
    rw [htr] at hlast
    simp only [Option.map_some, Option.some.injEq] at hlast
    unfold valTok at hlast
    obtain ⟨v, e1, rfl⟩ := Option.map_eq_some_iff.mp hlast.symm
    have hy := k1.yields
    simp only [List.reverse_nil, Tree.yields_nil, List.nil_append] at hy
    have hm : tr ∈ c'.trees.reverse := List.mem_reverse.mpr (List.mem_of_getLast? htr)
    have hs : tr.yield.Sublist toks := by
      rw [hy.symm]
      exact (yield_sublist hm).trans (List.sublist_append_left ..)
    exact (shown_value ((ha.inv_moves hi k1).valid tr (List.mem_of_getLast? htr)) (hl.sublist hs) e1).2

/-- Programs are reduced only at the end of the input and before the first tokens of declarations. -/
theorem out_looks {t : Tabler Sym} (h : outBuilt false = .ok t) : programLooks t = true := by
  have hk : (match outBuilt false with | .ok t => programLooks t | _ => false) = true := by decide +kernel
  rw [h] at hk
  exact hk

/-- The run of the parser of wop, and what `main` and `Builder::from_str` make of it. -/
theorem main_run (dbg : Bool) (order : Nat → List Span → List Span) {src : Text}
    {toks : List Gramem} (hl : Lexed src toks) :
    ∃ t d' res n, Makes .slr dbg outRules .entryPoint .eof t ∧ (t.conflicts = [] ∧ programLooks t = true) ∧
      Dfa.trace id n n (Dfa.new toks t.actions outReducts .eof) = .ok (d', res) ∧
      (∀ m, max 100 n ≤ m → Wop.main quote dbg order m src toks =
        (match d'.items.getLast? with
        | none => .panic .indexRange
        | some ast => do
          let b ← Builder.process order src Builder.empty ast
          return (b, res))) ∧
      ∀ m, max 100 n ≤ m → Builder.fromStr dbg order m src toks =
        (match res with
        | .error e => return .error e
        | .ok () =>
          match d'.items.getLast? with
          | none => .panic .indexRange
          | some ast => do
            let b ← Builder.process order src Builder.empty ast
            return .ok b) := by
  obtain ⟨t, hb, hc⟩ := out_built
  obtain ⟨g, hg, htab⟩ := Out.bind_eq_ok.mp (hb dbg)
  have ht : Makes .slr dbg outRules .entryPoint .eof t := ⟨g, hg, 100, htab⟩
  have hT := lexed_terminals hl
  obtain ⟨r, n, hr⟩ := (C27_conflict_free_returns (maps := outReducts) ht (by simp) hc out_eof
    out_productive hT).2 (C50_evaluates toks)
  have hdfa : Parser.dfa t toks outReducts = .ok (Dfa.new toks t.actions outReducts .eof) := by
    unfold Parser.dfa
    rw [ht.eofHead]
    rfl
  unfold Parser.parse at hr
  rw [hdfa] at hr
  simp only [Out.ok_bind] at hr
  obtain ⟨⟨d', res⟩, hs, hr⟩ := Out.bind_eq_ok.mp hr
  have hbuild : ∀ m, 100 ≤ m → buildParser dbg m toks = .ok (Dfa.new toks t.actions outReducts .eof) := by
    intro m hm
    unfold buildParser
    rw [show outGrammar dbg = .ok g from hg]
    simp only [Out.ok_bind, (Slr.new_le hm g).ok htab, hdfa]
  have hs' : ∀ m, n ≤ m → Dfa.trace id m m (Dfa.new toks t.actions outReducts .eof) = .ok (d', res) :=
    fun m hm => (Dfa.start_le hm _).ok hs
  refine ⟨t, d', res, n, ht, ⟨hc, out_looks (hb false)⟩, hs, fun m hm => ?_, fun m hm => ?_⟩
  · unfold Wop.main
    rw [hbuild m (by omega)]
    simp only [Out.ok_bind, hs' m (by omega)]
    cases hd : d'.items.getLast? with
    | none => rfl
    | some ast =>
      obtain ⟨txt, hp⟩ := (bottom_shown hl ht hc hs hd).printed quote [] 0
      simp only [hp, Out.ok_bind]
  · unfold Builder.fromStr
    rw [hbuild m (by omega)]
    simp only [Out.ok_bind, Dfa.start, hs' m (by omega)]
    cases res with
    | error e => rfl
    | ok u => rfl

theorem returns_main {dbg : Bool} {order : Nat → List Span → List Span} {src : Text}
    {toks : List Gramem} {N : Nat} {o : Out (Builder × Except (Error Sym) Unit)}
    (h : ∀ m, N ≤ m → Wop.main quote dbg order m src toks = o) {r : Builder × Except (Error Sym) Unit} :
    Returns (fun n => Wop.main quote dbg order n src toks) r ↔ o = .ok r := by
  constructor
  · rintro ⟨n, hn⟩
    rw [← h _ (Nat.le_max_right n N)]
    exact (main_le (Nat.le_max_left n N) dbg order src toks).ok hn
  · intro e
    exact ⟨N, (h N (Nat.le_refl _)).trans e⟩

theorem returns_fromStr {dbg : Bool} {order : Nat → List Span → List Span} {src : Text}
    {toks : List Gramem} {N : Nat} {o : Out (Except (Error Sym) Builder)}
    (h : ∀ m, N ≤ m → Builder.fromStr dbg order m src toks = o) {r : Except (Error Sym) Builder} :
    Returns (fun n => Builder.fromStr dbg order n src toks) r ↔ o = .ok r := by
  constructor
  · rintro ⟨n, hn⟩
    rw [← h _ (Nat.le_max_right n N)]
    exact (fromStr_le (Nat.le_max_left n N) dbg order src toks).ok hn
  · intro e
    exact ⟨N, (h N (Nat.le_refl _)).trans e⟩

/-- C73: `main` returns `Ok` exactly when `Builder::from_str` does, and then it writes the dumps of the
same builder. -/
theorem C73_ok_partial (dbg : Bool) (order : Nat → List Span → List Span) {src : Text} {toks : List Gramem}
    (hl : Lexed src toks) {b : Builder} :
    Returns (fun n => Wop.main quote dbg order n src toks) (b, .ok ()) ↔
      Returns (fun n => Builder.fromStr dbg order n src toks) (.ok b) := by
  obtain ⟨t, d', res, n, _, _, _, h1, h2⟩ := main_run dbg order hl
  rw [returns_main h1, returns_fromStr h2]
  cases res with
  | error e =>
    constructor
    · intro h
      cases hd : d'.items.getLast? with
      | none => rw [hd] at h; cases h
      | some ast =>
        rw [hd] at h
        obtain ⟨b', _, e⟩ := Out.bind_eq_ok.mp h
        cases e
    · intro h
      cases h
  | ok u =>
    cases hd : d'.items.getLast? with
    | none => constructor <;> intro h <;> cases h
    | some ast =>
      simp only
      constructor
      · intro h
        obtain ⟨b', h1, e⟩ := Out.bind_eq_ok.mp h
        cases e
        rw [h1]
        rfl
      · intro h
        obtain ⟨b', h1, e⟩ := Out.bind_eq_ok.mp h
        cases e
        rw [h1]
        rfl

/-- Where the run stops on tokens that are no program: `last` is the bottom of the stack with its
value. -/
theorem main_stops (dbg : Bool) (order : Nat → List Span → List Span) {src : Text}
    {toks : List Gramem} (hl : Lexed src toks) (hn : ¬ ∃ ds, ReadsProgram toks ds) :
    ∃ (e : Error Sym) (N : Nat) (last : Option (PTree × Gramem)),
      (∀ tr ast, last = some (tr, ast) → Tree.Valid outRules tr ∧ tr.yield <+: toks ∧
        tr.eval (redOf outReducts) = some ast.item ∧ (tr.root = .program → ∃ post, toks = tr.yield ++ post ∧
          ∀ x rest, post = x :: rest → x.ty = .ident ∨ x.ty = .useWord ∨ x.ty = .aliasWord)) ∧
      (∀ m, N ≤ m → Wop.main quote dbg order m src toks =
        (match last with
        | none => .panic .indexRange
        | some (_, ast) => do
          let b ← Builder.process order src Builder.empty ast
          return (b, .error e))) ∧
      ∀ ps ds x rest, toks = ps ++ x :: rest → ReadsProgram ps ds →
        (x.ty = .ident ∨ x.ty = .useWord ∨ x.ty = .aliasWord) →
        ∃ tr ast, last = some (tr, ast) ∧ tr.root = .program ∧ ps <+: tr.yield := by
  obtain ⟨t, d', res, n, ht, ⟨hc, hlook⟩, hrun, h1, h2⟩ := main_run dbg order hl
  obtain ⟨e', N', he'⟩ := C50_error dbg order hl hn
  have hres : ∃ e, res = .error e := by
    cases res with
    | error e => exact ⟨e, rfl⟩
    | ok u =>
      have a := h2 _ (Nat.le_max_left (max 100 n) N')
      rw [he' _ (Nat.le_max_right (max 100 n) N')] at a
      simp only at a
      cases hd : d'.items.getLast? with
      | none => rw [hd] at a; cases a
      | some ast =>
        rw [hd] at a
        obtain ⟨b', _, e⟩ := Out.bind_eq_ok.mp a.symm
        cases e
  obtain ⟨e, rfl⟩ := hres
  have hT := lexed_terminals hl
  obtain ⟨b0, next, red', ha, _⟩ := ht.auto
  have hi := inv_init (M := Meta Ast) outRules t.states next toks
  have hsim := sim_init t.actions .eof outReducts toks
  have hconf : ∀ a b, e ≠ .conflict a b := by
    rintro a b rfl
    have hran := ha.ran (maps := outReducts) out_eof n n hi hsim hT
    rw [hrun] at hran
    cases hran with
    | error _ k2 =>
      cases k2 with
      | conflict k => exact ht.no_conflict.mp hc _ _ _ _ k
      | conflict' _ _ _ k => exact ht.no_conflict.mp hc _ _ _ _ k
  obtain ⟨c', d1, k1, k2, k3, k4⟩ := ha.ran_error out_eof n n hi hsim hT hrun hconf
  have hic := ha.inv_moves hi k1
  have hlast := k3.bottom
  rw [← k4] at hlast
  have hpre : ∀ tr, c'.trees.getLast? = some tr → tr.yield <+: toks := by
    intro tr htr
    have hy := k1.yields
    simp only [List.reverse_nil, Tree.yields_nil, List.nil_append] at hy
    have hr : c'.trees.reverse = tr :: c'.trees.reverse.tail := by
      have := List.head?_reverse (l := c'.trees)
      rw [htr] at this
      cases hr : c'.trees.reverse with
      | nil => rw [hr] at this; cases this
      | cons a l => rw [hr] at this; cases this; rfl
    rw [hr, Tree.yields, List.append_assoc] at hy
    exact ⟨_, hy⟩
  have hbot : ∀ ps ds x rest, toks = ps ++ x :: rest → ReadsProgram ps ds →
      (x.ty = .ident ∨ x.ty = .useWord ∨ x.ty = .aliasWord) → Bottom ps c' := by
    intro ps ds x rest htk hps hx
    obtain ⟨tr, rfl, hg⟩ := tree_program hps
    obtain ⟨c1, m1, hb⟩ := reaches_bottom ht hc out_start out_eof hg.valid hg.root hx rest
    rw [← htk] at m1
    exact hb.moves ha (ha.inv_moves hi m1) (m1.to_dead k1 k2.dead)
  cases htr : c'.trees.getLast? with
  | none =>
    rw [htr] at hlast
    have hd : d'.items.getLast? = none := by
      cases hd : d'.items.getLast? with
      | none => rfl
      | some a => rw [hd] at hlast; cases hlast
    refine ⟨e, max 100 n, none, by simp, fun m hm => by rw [h1 m hm, hd], ?_⟩
    intro ps ds x rest htk hps hx
    obtain ⟨tr, h, _⟩ := hbot ps ds x rest htk hps hx
    rw [htr] at h
    cases h
  | some tr =>
    rw [htr] at hlast
    cases hd : d'.items.getLast? with
    | none => rw [hd] at hlast; cases hlast
    | some ast =>
      rw [hd] at hlast
      simp only [Option.map_some, Option.some.injEq] at hlast
      have hev : tr.eval (redOf outReducts) = some ast.item := by
        unfold valTok at hlast
        obtain ⟨v, e1, e2⟩ := Option.map_eq_some_iff.mp hlast.symm
        rw [e1, ← e2]
      refine ⟨e, max 100 n, some (tr, ast), ?_, fun m hm => by rw [h1 m hm, hd], ?_⟩
      · intro tr' ast' e'
        cases e'
        refine ⟨hic.valid tr (List.mem_of_getLast? htr), hpre tr htr, hev, fun hr => ?_⟩
        have hlk : Looked c' := Looked.moves hlook k1 ⟨fun tok hk => (hl.plain tok hk).2, by simp⟩
        obtain ⟨post, p1, p2⟩ := hlk.2 tr htr hr
        have hy := k1.yields
        simp only [List.reverse_nil, Tree.yields_nil, List.nil_append] at hy
        exact ⟨post, by rw [p1, hy], p2⟩
      · intro ps ds x rest htk hps hx
        obtain ⟨tr', h, h2, h3⟩ := hbot ps ds x rest htk hps hx
        rw [htr] at h
        cases h
        exact ⟨tr, ast, rfl, h2, h3⟩

/-- The value of a program. -/
theorem process_prefix (dbg : Bool) (order : Nat → List Span → List Span) {src : Text} {tr : PTree}
    (hl : Lexed src tr.yield) (hv : Tree.Valid outRules tr) (hr : tr.root = .program) {ast : Gramem}
    (hev : tr.eval (redOf outReducts) = some ast.item) :
    ∃ ds, ReadsProgram tr.yield ds ∧ IsProgram src ast (ds.map Decl.cloning) ∧ ∀ b,
      Builder.process order src Builder.empty ast = .ok b ↔
        Returns (fun n => Builder.fromStr dbg order n src tr.yield) (.ok b) := by
  obtain ⟨ds, hg⟩ := (reading hv).program hr
  have hprog : IsProgram src ast (ds.map Decl.cloning) := by
    obtain ⟨v, k3, k4⟩ := program_value hg hl
    have : v = ast.item :=
      Option.some.inj ((show tr.eval (redOf outReducts) = some v from k3).symm.trans hev)
    subst this
    exact k4 ast.ty
  refine ⟨ds, hg.reads, hprog, fun b => ?_⟩
  rcases fromStr_cases dbg order hl with ⟨tr', ds', ast', N, e1, e2, ⟨_, e3⟩, e4⟩ | ⟨hno, _⟩
  · have hu := C49_unambiguous (entry_valid hv hr) (entry_valid e2.valid e2.root) rfl rfl
      (by rw [entry_yield, entry_yield, e1])
    simp only [Tree.node.injEq, true_and, List.cons.injEq, and_true] at hu
    subst hu
    rw [hev] at e3
    have hi : ast'.item = ast.item := (Option.some.inj e3).symm
    have hp : Builder.process order src Builder.empty ast' =
        Builder.process order src Builder.empty ast := by
      unfold Builder.process
      rw [hi]
    rw [returns_fromStr e4, hp]
    constructor
    · intro h; rw [h]; rfl
    · intro h
      obtain ⟨b', h1, e⟩ := Out.bind_eq_ok.mp h
      cases e
      exact h1
  · exact absurd ⟨ds, hg.reads⟩ hno

/-- C73: if `main` returns an error although it has written `out.rs`, then the tokens are no program, and
what it has written is made of the declarations at the beginning of the source only, before a token that
can begin another one. -/
theorem C73_error (dbg : Bool) (order : Nat → List Span → List Span) {src : Text} {toks : List Gramem}
    (hl : Lexed src toks) {b : Builder} {e : Error Sym}
    (h : Returns (fun n => Wop.main quote dbg order n src toks) (b, .error e)) :
    (¬ ∃ ds, ReadsProgram toks ds) ∧ ∃ ps x rest ds, toks = ps ++ x :: rest ∧
      (x.ty = .ident ∨ x.ty = .useWord ∨ x.ty = .aliasWord) ∧ ReadsProgram ps ds ∧ Returns (fun n => Builder.fromStr dbg order n src ps) (.ok b) := by
  have hno : ¬ ∃ ds, ReadsProgram toks ds := by
    rintro hds
    obtain ⟨t, d', res, n, _, _, _, h1, h2⟩ := main_run dbg order hl
    rw [returns_main h1] at h
    have hres : res = .error e := by
      cases hd : d'.items.getLast? with
      | none => rw [hd] at h; cases h
      | some ast =>
        rw [hd] at h
        obtain ⟨b', _, e⟩ := Out.bind_eq_ok.mp h
        cases e
        rfl
    subst hres
    obtain ⟨ds, hr⟩ := hds
    obtain ⟨ast, N, _, hfrom⟩ := C50_program dbg order hl hr
    have a := h2 _ (Nat.le_max_left (max 100 n) N)
    rw [hfrom _ (Nat.le_max_right (max 100 n) N)] at a
    obtain ⟨b', _, e⟩ := Out.bind_eq_ok.mp (show _ = Out.ok (Except.error e) from a)
    cases e
  refine ⟨hno, ?_⟩
  obtain ⟨e', N, last, h1, h2, _⟩ := main_stops dbg order hl hno
  rw [returns_main h2] at h
  cases last with
  | none => cases h
  | some p =>
    obtain ⟨tr, ast⟩ := p
    obtain ⟨hv, ⟨rest, hy⟩, hev, hpost⟩ := h1 tr ast rfl
    obtain ⟨b', hb, e⟩ := Out.bind_eq_ok.mp h
    cases e
    have hl' : Lexed src tr.yield := by rw [← hy] at hl; exact hl.left
    have hroot : tr.root = .program := by
      by_cases hp : ∃ gs, ast.item.item = .program gs
      · obtain ⟨gs, hp⟩ := hp
        exact value_program hl' hev hp
      · rw [process_unreachable order src _ (fun gs h => hp ⟨gs, h⟩)] at hb
        cases hb
    obtain ⟨ds, k1, _, k2⟩ := process_prefix dbg order hl' hv hroot hev
    obtain ⟨post, p1, p2⟩ := hpost hroot
    cases post with
    | nil =>
      rw [List.append_nil] at p1
      exact absurd ⟨ds, p1 ▸ k1⟩ hno
    | cons x post => exact ⟨tr.yield, x, post, ds, p1, p2 x post rfl, k1, (k2 _).mp hb⟩

/-- C73: the source is reported as it is: if `main` does not panic, it returns `Ok` if and only if the
tokens are a program. -/
theorem C73_reports_partial (dbg : Bool) (order : Nat → List Span → List Span) {src : Text} {toks : List Gramem}
    (hl : Lexed src toks) {b : Builder} {res : Except (Error Sym) Unit}
    (h : Returns (fun n => Wop.main quote dbg order n src toks) (b, res)) :
    res = .ok () ↔ ∃ ds, ReadsProgram toks ds := by
  cases res with
  | ok u =>
    refine ⟨fun _ => ?_, fun _ => rfl⟩
    have h' := (C73_ok_partial dbg order hl).mp h
    rcases fromStr_cases dbg order hl with ⟨tr, ds, ast, N, e1, e2, _⟩ | ⟨_, e, N, he⟩
    · exact ⟨ds, e1 ▸ e2.reads⟩
    · rw [returns_fromStr he] at h'
      cases h'
  | error e =>
    refine ⟨fun h => (by cases h), fun hds => absurd hds (C73_error dbg order hl h).1⟩

/-- C73: a syntax error after complete declarations.  If the tokens are no program, but some declarations
are followed by the first token of another one, then `main` works on the longest such beginning of the
source: it writes the dumps for this beginning to `out.rs` — or panics, if names are repeated in it. -/
theorem C73_overwrites (dbg : Bool) {order : Nat → List Span → List Span} (hord : Orders order)
    {src : Text} {toks : List Gramem} (hl : Lexed src toks) (hn : ¬ ∃ ds, ReadsProgram toks ds)
    (hs : ∃ ps ds x rest, toks = ps ++ x :: rest ∧ ReadsProgram ps ds ∧
      (x.ty = .ident ∨ x.ty = .useWord ∨ x.ty = .aliasWord)) :
    ∃ qs x rest ds, toks = qs ++ x :: rest ∧ ReadsProgram qs ds ∧
      (x.ty = .ident ∨ x.ty = .useWord ∨ x.ty = .aliasWord) ∧
      (∀ ps ds x rest, toks = ps ++ x :: rest → ReadsProgram ps ds →
        (x.ty = .ident ∨ x.ty = .useWord ∨ x.ty = .aliasWord) → ps <+: qs) ∧
      (Proper src ds → ∃ b e, Returns (fun n => Wop.main quote dbg order n src toks) (b, .error e) ∧
        Returns (fun n => Builder.fromStr dbg order n src qs) (.ok b)) ∧
      (¬ Proper src ds → ∃ w, Panics (fun n => Wop.main quote dbg order n src toks) w) := by
  obtain ⟨e, N, last, h1, h2, h3⟩ := main_stops dbg order hl hn
  obtain ⟨ps, ds0, x, rest0, g1, g2, g3⟩ := hs
  obtain ⟨tr, ast, rfl, hroot, _⟩ := h3 ps ds0 x rest0 g1 g2 g3
  obtain ⟨hv, ⟨rest, hy⟩, hev, hpost⟩ := h1 tr ast rfl
  have hl' : Lexed src tr.yield := by rw [← hy] at hl; exact hl.left
  obtain ⟨ds, k1, k2, k3⟩ := process_prefix dbg order hl' hv hroot hev
  obtain ⟨post, p1, p2⟩ := hpost hroot
  have hne : ∃ x post', post = x :: post' := by
    cases post with
    | nil =>
      rw [List.append_nil] at p1
      exact absurd ⟨ds, p1 ▸ k1⟩ hn
    | cons x post => exact ⟨x, post, rfl⟩
  obtain ⟨x', post', rfl⟩ := hne
  refine ⟨tr.yield, x', post', ds, p1, k1, p2 x' post' rfl, ?_, ?_, ?_⟩
  · intro ps ds x rest a1 a2 a3
    obtain ⟨tr', ast', e', _, hp⟩ := h3 ps ds x rest a1 a2 a3
    cases e'
    exact hp
  · intro hp
    obtain ⟨b, hb, _⟩ := C47_records hord k2 (b := Builder.empty) (addable_empty.mpr (proper_cloning.mpr hp))
    refine ⟨b, e, ?_, (k3 b).mp hb⟩
    rw [returns_main h2]
    simp only [hb]
    rfl
  · intro hp
    obtain ⟨w, hw⟩ := (C47_rejects hord k2 Builder.empty).mpr
      (fun h => hp (proper_cloning.mp (addable_empty.mp h)))
    exact ⟨w, N, by simp only [h2 N (Nat.le_refl _), hw]; rfl⟩

/-- C73: in all other cases, `main` panics: if the tokens are no program, and no declarations at their
beginning are followed by the first token of another one. -/
theorem C73_panics (dbg : Bool) (order : Nat → List Span → List Span) {src : Text} {toks : List Gramem}
    (hl : Lexed src toks) (hn : ¬ ∃ ds, ReadsProgram toks ds)
    (hs : ¬ ∃ ps ds x rest, toks = ps ++ x :: rest ∧ ReadsProgram ps ds ∧
      (x.ty = .ident ∨ x.ty = .useWord ∨ x.ty = .aliasWord)) :
    ∃ w, Panics (fun n => Wop.main quote dbg order n src toks) w := by
  obtain ⟨e, N, last, h1, h2, _⟩ := main_stops dbg order hl hn
  cases last with
  | none => exact ⟨_, N, h2 N (Nat.le_refl _)⟩
  | some p =>
    obtain ⟨tr, ast⟩ := p
    obtain ⟨hv, ⟨rest, hy⟩, hev, hpost⟩ := h1 tr ast rfl
    have hl' : Lexed src tr.yield := by rw [← hy] at hl; exact hl.left
    have hp : ∀ gs, ast.item.item ≠ .program gs := by
      intro gs hp
      have hroot := value_program hl' hev hp
      obtain ⟨ds, k1, _⟩ := process_prefix dbg order hl' hv hroot hev
      obtain ⟨post, p1, p2⟩ := hpost hroot
      cases post with
      | nil =>
        rw [List.append_nil] at p1
        exact hn ⟨ds, p1 ▸ k1⟩
      | cons x post => exact hs ⟨_, ds, x, post, p1, k1, p2 x post rfl⟩
    exact ⟨_, N, by
      simp only [h2 N (Nat.le_refl _), process_unreachable order src _ hp]
      rfl⟩

/-- C73 in full: `main` writes `out.rs` only if the source is a program: it never writes and then returns
an error. -/
def C73_claim : Prop :=
  ∀ (quote : Text → Text) (dbg : Bool) (order : Nat → List Span → List Span) (src : Text) (toks : List Gramem)
    (b : Builder) (e : Error Sym), Orders order → Lexed src toks →
    ¬ Returns (fun n => Wop.main quote dbg order n src toks) (b, .error e)

namespace WopSamples

/-- The source `use a;use`: a declaration, and the beginning of another. -/
def cutSrc : Text := bytes "use a;use"

def cutToks : List Gramem := [tk .useWord 0 3, tk .ident 4 5, tk .sc 5 6, tk .useWord 6 9]

theorem cutLexed : Lexed cutSrc cutToks := lexed_of (by decide +kernel)

theorem cutReads : ReadsProgram [tk .useWord 0 3, tk .ident 4 5, tk .sc 5 6] [.use ⟨4, 5⟩] :=
  .one (ts := [tk .useWord 0 3, tk .ident 4 5]) (.use rfl (.one rfl)) rfl

theorem program_last {toks : List Gramem} {ds : List Decl} (h : ReadsProgram toks ds) :
    toks.getLast?.map Token.ty = some .sc := by
  cases h with
  | one _ hs => simp [hs]
  | more _ _ hs => simp [hs]

theorem cutWrong : ¬ ∃ ds, ReadsProgram cutToks ds := by
  rintro ⟨ds, h⟩
  have := program_last h
  revert this
  decide

/-- The source `use a;|`: a declaration, and a bar. -/
def barToks : List Gramem := [tk .useWord 0 3, tk .ident 4 5, tk .sc 5 6, tk .pipe 6 7]

/-- No program at the beginning of `use a;|` is followed by the first token of a declaration. -/
theorem bar_follow : ¬ ∃ ps ds x rest, barToks = ps ++ x :: rest ∧ ReadsProgram ps ds ∧
    (x.ty = .ident ∨ x.ty = .useWord ∨ x.ty = .aliasWord) := by
  rintro ⟨ps, ds, x, rest, e, h, hx⟩
  have hp := program_last h
  match ps, e with
  | [], e => cases hp
  | [a], e =>
    simp only [barToks, List.cons_append, List.nil_append, List.cons.injEq] at e
    rw [← e.1] at hp
    cases hp
  | [a, b], e =>
    simp only [barToks, List.cons_append, List.nil_append, List.cons.injEq] at e
    rw [← e.2.1] at hp
    cases hp
  | [a, b, c], e =>
    simp only [barToks, List.cons_append, List.nil_append, List.cons.injEq] at e
    rw [← e.2.2.2.1] at hx
    rcases hx with hx | hx | hx <;> cases hx
  | a :: b :: c :: d :: ps, e =>
    simp [barToks] at e

/-- The hypotheses of `C73_panics` are met by `use a;|`. -/
example : Lexed (bytes "use a;|") barToks ∧ (¬ ∃ ds, ReadsProgram barToks ds) ∧
    ¬ ∃ ps ds x rest, barToks = ps ++ x :: rest ∧ ReadsProgram ps ds ∧
      (x.ty = .ident ∨ x.ty = .useWord ∨ x.ty = .aliasWord) := by
  refine ⟨lexed_of (by decide +kernel), ?_, bar_follow⟩
  rintro ⟨ds, h⟩
  exact absurd (program_last h) (by decide)

end WopSamples

/-- The hypotheses of `C73_overwrites` are met by `use a;use`. -/
example : Lexed WopSamples.cutSrc WopSamples.cutToks ∧ (¬ ∃ ds, ReadsProgram WopSamples.cutToks ds) ∧
    ∃ ps ds x rest, WopSamples.cutToks = ps ++ x :: rest ∧ ReadsProgram ps ds ∧
      (x.ty = .ident ∨ x.ty = .useWord ∨ x.ty = .aliasWord) :=
  ⟨WopSamples.cutLexed, WopSamples.cutWrong, _, _, WopSamples.tk .useWord 6 9, [], rfl,
    WopSamples.cutReads, .inr (.inl rfl)⟩

/-- On `use a;use` the program writes `out.rs` for `use a;` and then returns an error. -/
theorem cut_written : ∃ b e, Wop.main id false WopSamples.order 100 WopSamples.cutSrc WopSamples.cutToks =
    .ok (b, .error e) ∧ b.imports = [⟨4, 5⟩] := by
  have h : ∀ {o : Out (Builder × Except (Error Sym) Unit)},
      (match o with | .ok (b, .error _) => decide (b.imports = [⟨4, 5⟩]) | _ => false) = true →
      ∃ b e, o = .ok (b, .error e) ∧ b.imports = [⟨4, 5⟩] := by
    intro o h
    split at h
    · exact ⟨_, _, rfl, of_decide_eq_true h⟩
    · cases h
  exact h (by decide +kernel)

/-- C73 is false: see `cut_written`. -/
theorem C73_false : ¬ C73_claim := by
  intro h
  obtain ⟨b, e, hb, _⟩ := cut_written
  exact h id _ _ _ _ b e WopSamples.orders WopSamples.cutLexed ⟨_, hb⟩

end Lrp.Props
