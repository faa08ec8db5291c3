import Verif.Model.WopMain
import Verif.Proofs.Power
import Verif.Proofs.Prefix
import Verif.Proofs.WopParse

/-! The stack of the parser when it stops with an error, and the bottom of the stack of the parser of
wop. -/

set_option linter.unusedSectionVars false

namespace Lrp
open Spec

section
variable {T : Type} [LinOrd T] [DecidableEq T] {M : Type}
variable {D : Decls T} {S : T} {b0 : List T} {states : List (State T)} {acts : ActTable T}
  {next : State T → T → Option Nat} {red : Position T → T → Prop} {eof : T} {maps : ReductMap M T}

/-- An iteration that ends with an error other than a conflict leaves the items as they are. -/
theorem Auto.travel_items (h : Auto D S b0 states acts next red) {d : Dfa M T} {c : Conf M T}
    (hi : InvC D states next c) (hd : Sim acts eof maps d c) (hT : Terminal D (lookSym eof c.buf))
    {n : Nat} {d' : Dfa M T} {e : Error T} (hr : Dfa.travel n d d.symbol = .ok (d', .error e))
    (he : ∀ a b, e ≠ .conflict a b) : d'.items = d.items := by
  obtain ⟨sts, trs, buf⟩ := c
  obtain ⟨i, st, s, e', hs⟩ := h.path_state hi.path
  simp only at e'; subst e'
  obtain ⟨row, hrow⟩ := h.row hs
  have htop : d.top = i := by have := hd.top; simp at this; exact this.symm
  have htab : d.table[d.top]? = some row := by rw [hd.table, htop]; exact hrow
  rw [hd.symbol] at hr
  cases n with
  | zero => cases hr
  | succ n =>
    unfold Dfa.travel at hr
    rw [htab] at hr
    simp only at hr
    cases hg : row.get? (lookSym eof buf) with
    | none => rw [hg] at hr; cases hr; rfl
    | some a =>
      rw [hg] at hr
      have hc : cellAt acts i (lookSym eof buf) = some a := by rw [cellAt_none hrow]; exact hg
      cases a with
      | shift j =>
        simp only [Dfa.shift] at hr
        split at hr
        · cases hr; rfl
        · cases hr
      | goto j => simp only [Dfa.goto] at hr; cases hr
      | acc =>
        simp only [Dfa.accept] at hr
        split at hr
        · cases hr
        · cases hr; rfl
      | conflict a b => cases hr; exact absurd rfl (he a b)
      | reduce A prod =>
        obtain ⟨b, k⟩ := prod
        simp only at hr
        rcases h.reduceStacks_cases hi hd hc with ⟨p, hp, _⟩ | ⟨d1, i', v, hp, h1, h2, h3, h4, h5⟩
        · rw [hp] at hr; cases hr
        · obtain ⟨r1, r2, r3, r4, i'', s', q, j, r5, r6, r7, r8, r9, r10⟩ := h.reduce_stack hi hc
          rw [h1] at r5; cases r5
          obtain ⟨row', hr'⟩ := h.row r6
          have htab' : d1.table[d1.top]? = some row' := by
            rw [h4]; simp only [hd.table]; exact hr'
          rw [hp] at hr
          simp only [Out.ok_bind] at hr
          cases n with
          | zero => cases hr
          | succ n =>
            unfold Dfa.travel at hr
            rw [htab'] at hr
            simp only at hr
            rw [← cellAt_none hr'] at hr
            rcases r10 with r10 | ⟨x, y, r10⟩
            · rw [r10] at hr; simp only [Dfa.goto] at hr; cases hr
            · rw [r10] at hr; cases hr; exact absurd rfl (he x y)

/-- A run that ends with an error other than a conflict: the items are the values of the trees of the
configuration in which the run stops. -/
theorem Auto.ran_error (h : Auto D S b0 states acts next red) (he : Terminal D eof) (tf : Nat) :
    ∀ (n : Nat) {d d' : Dfa M T} {e : Error T} {c : Conf M T}, InvC D states next c →
      Sim acts eof maps d c → (∀ t ∈ c.buf, Terminal D t.ty) →
      Dfa.trace id tf n d = .ok (d', .error e) → (∀ a b, e ≠ .conflict a b) →
      ∃ c' d1, Moves acts eof c c' ∧ Fails acts eof c' e ∧ Sim acts eof maps d1 c' ∧
        d'.items = d1.items := by
  intro n
  induction n with
  | zero => intro d d' e c _ _ _ h; cases h
  | succ n ih =>
    intro d d' e c hi hd hb hrun hne
    have hT := terminal_lookSym he hb
    unfold Dfa.trace at hrun
    rw [hd.finished] at hrun
    simp only [Bool.false_eq_true, if_false, id] at hrun
    rcases Dfa.travel_le (Nat.le_add_right tf 2) d d.symbol with hf | hf
    · rw [hf] at hrun; cases hrun
    · rw [hf] at hrun
      rcases h.travel_cases hi hd hT (n := tf + 2) (by omega) with
        ⟨c', d2, m, hs, e'⟩ | ⟨ha, e'⟩ | ⟨d2, er, hfl, e'⟩ | ⟨p, hp, e'⟩
      · rw [e'] at hrun
        simp only [Out.ok_bind] at hrun
        obtain ⟨c1, d1, k1, k2, k3, k4⟩ :=
          ih (h.inv_move hi m) hs (fun t ht => hb t (m.buf_suffix t ht)) hrun hne
        exact ⟨c1, d1, .head m k1, k2, k3, k4⟩
      · rw [e'] at hrun
        simp only [Out.ok_bind] at hrun
        cases n with
        | zero => cases hrun
        | succ n =>
          unfold Dfa.trace at hrun
          simp only [if_true] at hrun
          cases hrun
      · rw [e'] at hrun
        simp only [Out.ok_bind, Out.pure_eq, Out.ok.injEq, Prod.mk.injEq, Except.error.injEq] at hrun
        obtain ⟨rfl, rfl⟩ := hrun
        exact ⟨c, d, .refl _, hfl, hd, h.travel_items hi hd hT e' hne⟩
      · rw [e'] at hrun; simp at hrun

theorem Sim.bottom {d : Dfa M T} {c : Conf M T} (hs : Sim acts eof maps d c) :
    d.items.getLast?.map some = c.trees.getLast?.map (valTok (redOf maps)) := by
  rw [← List.getLast?_map, ← List.getLast?_map, hs.items]

end

/-- No sequence of moves gets past a stop. -/
theorem Moves.to_dead {T : Type} [LinOrd T] [DecidableEq T] {M : Type} {acts : ActTable T} {eof : T}
    {c d e : Conf M T} (h : Moves acts eof c d) (h' : Moves acts eof c e) (he : Dead acts eof e) :
    Moves acts eof d e := by
  rcases h.linear h' with k | k
  · exact k
  · rw [k.dead he]; exact .refl _

namespace Wop
open Wop.Spec

/-- The function makes no program. -/
def Sterile (f : List Gramem → Option (Meta Ast)) : Prop :=
  ∀ its v gs, f its = some v → v.item ≠ .program gs

theorem sterile_framed {f : List Gramem → Option Ast} (h : ∀ its gs, f its ≠ some (.program gs)) :
    Sterile (framed f) := by
  intro its v gs hf hv
  unfold framed at hf
  simp only [Option.bind_eq_bind, Option.bind_eq_some_iff] at hf
  obtain ⟨a, h1, _, _, _, _, h2⟩ := hf
  cases h2
  exact h its gs (by rw [h1, ← hv])

theorem sterile_ruleItem (a : Nat) (b c d : Option Nat) : Sterile (framed (outRuleItem a b c d)) := by
  refine sterile_framed (fun its gs h => ?_)
  unfold outRuleItem at h
  simp only [Option.bind_eq_bind, Option.bind_eq_some_iff] at h
  obtain ⟨_, _, _, _, _, _, _, _, h⟩ := h
  cases h

theorem sterile_rules : Sterile (framed outIdentPath0) ∧ Sterile (framed outIdentPath1) ∧
    Sterile (framed outEntryPoint) ∧ (∀ cb, Sterile (framed (outRuleMore cb))) ∧
    (∀ cb, Sterile (framed (outRuleOne cb))) ∧ Sterile (framed outRulePipe0) ∧
    Sterile (framed outRulePipe1) ∧ Sterile (framed outImport) ∧ Sterile (framed outAlias) ∧
    Sterile (framed outRuleDecl) := by
  refine ⟨sterile_framed ?_, sterile_framed ?_, sterile_framed ?_, fun cb => sterile_framed ?_,
    fun cb => sterile_framed ?_, sterile_framed ?_, sterile_framed ?_, sterile_framed ?_,
    sterile_framed ?_, sterile_framed ?_⟩ <;> intro its gs h
  · simp only [outIdentPath0, Option.bind_eq_bind, Option.bind_eq_some_iff] at h
    obtain ⟨_, _, _, _, h⟩ := h
    cases h
  · simp only [outIdentPath1, Option.bind_eq_bind, Option.bind_eq_some_iff] at h
    obtain ⟨_, _, h⟩ := h
    cases h
  · simp only [outEntryPoint, Option.bind_eq_bind, Option.bind_eq_some_iff] at h
    obtain ⟨_, _, h⟩ := h
    cases h
  · simp only [outRuleMore, Option.bind_eq_bind, Option.bind_eq_some_iff] at h
    obtain ⟨_, _, _, _, _, _, _, _, _, _, h⟩ := h
    cases h
  · simp only [outRuleOne, Option.bind_eq_bind, Option.bind_eq_some_iff] at h
    obtain ⟨_, _, _, _, _, _, h⟩ := h
    cases h
  · simp only [outRulePipe0, Option.bind_eq_bind, Option.bind_eq_some_iff] at h
    obtain ⟨_, _, _, _, _, _, h⟩ := h
    cases h
  · unfold outRulePipe1 at h
    split at h <;> cases h
  · simp only [outImport, Option.bind_eq_bind, Option.bind_eq_some_iff] at h
    obtain ⟨_, _, _, _, h⟩ := h
    cases h
  · simp only [outAlias, Option.bind_eq_bind, Option.bind_eq_some_iff] at h
    obtain ⟨_, _, _, _, h⟩ := h
    cases h
  · simp only [outRuleDecl, Option.bind_eq_bind, Option.bind_eq_some_iff] at h
    obtain ⟨_, _, _, _, _, _, _, _, _, _, _, _, h⟩ := h
    cases h

/-- Only the reductors of `program` make programs. -/
theorem sterile {A : Sym} (hA : A ≠ .program) {fs : List (List Gramem → Option (Meta Ast))}
    (h : outReducts.get? A = some fs) : ∀ f ∈ fs, Sterile f := by
  obtain ⟨s1, s2, s3, s4, s5, s6, s7, s8, s9, s10⟩ := sterile_rules
  cases A with
  | program => exact absurd rfl hA
  | ruleItem => rw [reducts_ruleItem] at h; cases h; simp [sterile_ruleItem]
  | identPath => rw [reducts_identPath] at h; cases h; simp [s1, s2]
  | entryPoint => rw [reducts_entryPoint] at h; cases h; simp [s3]
  | rule => rw [reducts_rule] at h; cases h; simp [s4, s5]
  | rulePipe => rw [reducts_rulePipe] at h; cases h; simp [s6, s7]
  | import_ => rw [reducts_import] at h; cases h; simp [s8]
  | alias => rw [reducts_alias] at h; cases h; simp [s9]
  | ruleDecl => rw [reducts_ruleDecl] at h; cases h; simp [s10]
  | _ =>
    have h' : (none : Option (List (List Gramem → Option (Meta Ast)))) = some fs := h
    cases h'

/-- A tree of lexed tokens whose value is a program is one of `program`. -/
theorem value_program {src : Text} {tr : PTree} (hl : Lexed src tr.yield) {v : Meta Ast}
    {gs : List Gramem} (h : tr.eval red = some v) (hv : v.item = .program gs) : tr.root = .program := by
  cases tr with
  | leaf t =>
    rw [Tree.eval] at h
    cases h
    rw [(hl.plain t (by rw [Tree.yield]; simp)).1] at hv
    cases hv
  | node A i cs =>
    rw [Tree.eval] at h
    obtain ⟨its, _, h⟩ := Option.bind_eq_some_iff.mp h
    unfold red redOf at h
    obtain ⟨fs, h1, h⟩ := Option.bind_eq_some_iff.mp h
    obtain ⟨f, h2, h⟩ := Option.bind_eq_some_iff.mp h
    by_cases hA : A = .program
    · exact hA
    · exact absurd hv (sterile hA h1 f (List.mem_of_getElem? h2) its v gs h)

theorem process_unreachable (order : Nat → List Span → List Span) (src : Text) (b : Builder)
    {ast : Gramem} (h : ∀ gs, ast.item.item ≠ .program gs) :
    Builder.process order src b ast = .panic .unreachable := by
  unfold Builder.process
  split
  · rename_i gs e
    exact absurd e (h gs)
  · rfl

/-- The bottom of the stack is a program that begins with `ps`. -/
def Bottom (ps : List Gramem) (c : Conf (Meta Ast) Sym) : Prop :=
  ∃ tr, c.trees.getLast? = some tr ∧ tr.root = .program ∧ ps <+: tr.yield

/-- It stays so. -/
theorem Bottom.move {b0 : List Sym} {states : List (State Sym)} {acts : ActTable Sym}
    {next : State Sym → Sym → Option Nat} {rd : Position Sym → Sym → Prop} {ps : List Gramem}
    {c d : Conf (Meta Ast) Sym} (h : Auto outRules .entryPoint b0 states acts next rd)
    (hi : InvC outRules states next c) (m : Move acts .eof c d) (hb : Bottom ps c) : Bottom ps d := by
  obtain ⟨tr, h1, h2, h3⟩ := hb
  cases m with
  | @shift i j st trs tok rest _ =>
    refine ⟨tr, ?_, h2, h3⟩
    simp only at h1 ⊢
    rw [List.getLast?_cons, h1]
    rfl
  | @reduce i i' j k st trs buf A b k1 k2 k3 k4 =>
    simp only at h1
    obtain ⟨r1, r2, _, r4, _⟩ := h.reduce_stack hi k1
    unfold Bottom
    simp only
    by_cases hlen : b.length < trs.length
    · refine ⟨tr, ?_, h2, h3⟩
      rw [List.getLast?_cons, List.getLast?_drop, if_neg (by omega), h1]
      rfl
    · have hd : trs.drop b.length = [] := List.drop_eq_nil_of_le (by omega)
      have ht : trs.take b.length = trs := List.take_of_length_le (by omega)
      rw [hd, ht]
      refine ⟨.node A k trs.reverse, rfl, ?_, ?_⟩
      · rw [ht] at r4
        have hh : b.head? = some .program := by
          rw [← r4, List.head?_map, List.head?_reverse, h1, Option.map_some, h2]
        obtain ⟨bs, hA, hk⟩ := isProd_out.mp r1
        have key : ∀ d ∈ outRules, ∀ b ∈ d.2, b.head? = some .program →
            d.1 = .program ∨ d.1 = .entryPoint := by decide
        rcases key _ hA b (List.mem_of_getElem? hk) hh with e | e
        · exact e
        · exact absurd e r2
      · rw [Tree.yield_node]
        have : trs.reverse = tr :: trs.reverse.tail := by
          have := List.head?_reverse (l := trs)
          rw [h1] at this
          cases hr : trs.reverse with
          | nil => rw [hr] at this; cases this
          | cons a l => rw [hr] at this; cases this; rfl
        rw [this, Tree.yields]
        exact h3.trans (List.prefix_append _ _)

theorem Bottom.moves {b0 : List Sym} {states : List (State Sym)} {acts : ActTable Sym}
    {next : State Sym → Sym → Option Nat} {rd : Position Sym → Sym → Prop} {ps : List Gramem}
    {c d : Conf (Meta Ast) Sym} (h : Auto outRules .entryPoint b0 states acts next rd)
    (hi : InvC outRules states next c) (m : Moves acts .eof c d) (hb : Bottom ps c) : Bottom ps d := by
  induction m with
  | refl => exact hb
  | head m _ ih => exact ih (h.inv_move hi m) (hb.move h hi m)

/-- Programs are reduced only at the end, or before a symbol that can begin a declaration. -/
def programLooks (t : Tabler Sym) : Bool :=
  t.actions.all (fun row => row.all (fun e =>
    match e.2 with
    | .reduce .program _ => decide (e.1 = .eof ∨ e.1 = .ident ∨ e.1 = .useWord ∨ e.1 = .aliasWord)
    | _ => true))

theorem programLooks_cell {t : Tabler Sym} (h : programLooks t = true) {i : Nat} {x : Sym} {s : List Sym × Nat}
    (hc : cellAt t.actions i x = some (.reduce .program s)) :
    x = .eof ∨ x = .ident ∨ x = .useWord ∨ x = .aliasWord := by
  unfold cellAt at hc
  obtain ⟨row, h1, h2⟩ := Option.bind_eq_some_iff.mp hc
  have := List.all_eq_true.mp (List.all_eq_true.mp h row (List.mem_of_getElem? h1)) _ (OMap.mem_of_get? h2)
  exact of_decide_eq_true this

/-- If the bottom of the stack is a program, then nothing follows it, or a token that can begin a
declaration. -/
def Looked (c : Conf (Meta Ast) Sym) : Prop :=
  (∀ tok ∈ c.buf, tok.ty ∈ lexSyms) ∧ ∀ tr, c.trees.getLast? = some tr → tr.root = .program →
    ∃ post, tr.yield ++ post = Tree.yields c.trees.reverse ++ c.buf ∧
      ∀ x rest, post = x :: rest → x.ty = .ident ∨ x.ty = .useWord ∨ x.ty = .aliasWord

/-- It stays so. -/
theorem Looked.move {t : Tabler Sym} (hl : programLooks t = true) {c d : Conf (Meta Ast) Sym}
    (m : Move t.actions .eof c d) (h : Looked c) : Looked d := by
  have hy := m.yields
  obtain ⟨h1, h2⟩ := h
  cases m with
  | @shift i j st trs tok rest _ =>
    refine ⟨fun tk hk => h1 tk (List.mem_cons_of_mem _ hk), fun tr htr hr => ?_⟩
    rw [hy]
    simp only at htr h2 ⊢
    rw [List.getLast?_cons] at htr
    cases hg : trs.getLast? with
    | none =>
      rw [hg] at htr
      cases htr
      have hm := h1 tok (List.mem_cons_self ..)
      rw [show tok.ty = .program from hr] at hm
      exact absurd hm (by decide)
    | some tr' =>
      rw [hg] at htr
      cases htr
      exact h2 _ hg hr
  | @reduce i i' j k st trs buf A b k1 k2 k3 k4 =>
    refine ⟨h1, fun tr htr hr => ?_⟩
    rw [hy]
    simp only at htr h2 h1 ⊢
    by_cases hlen : b.length < trs.length
    · rw [List.getLast?_cons, List.getLast?_drop, if_neg (by omega)] at htr
      cases hg : trs.getLast? with
      | none => rw [List.getLast?_eq_none_iff.mp hg] at hlen; simp at hlen
      | some tr' =>
        rw [hg] at htr
        cases htr
        exact h2 _ hg hr
    · have hd : trs.drop b.length = [] := List.drop_eq_nil_of_le (by omega)
      have ht : trs.take b.length = trs := List.take_of_length_le (by omega)
      rw [hd, ht] at htr
      cases htr
      have hA : A = .program := hr
      subst hA
      refine ⟨buf, by rw [List.getLast_singleton, Tree.yield_node], ?_⟩
      rintro x rest rfl
      have hx : x.ty = .eof ∨ x.ty = .ident ∨ x.ty = .useWord ∨ x.ty = .aliasWord := programLooks_cell hl k1
      rcases hx with hx | hx
      · have hm := h1 x (List.mem_cons_self ..)
        rw [hx] at hm
        exact absurd hm (by decide)
      · exact hx

theorem Looked.moves {t : Tabler Sym} (hl : programLooks t = true) {c d : Conf (Meta Ast) Sym}
    (m : Moves t.actions .eof c d) (h : Looked c) : Looked d := by
  induction m with
  | refl => exact h
  | head m _ ih => exact ih (h.move hl m)

/-- The symbols that can begin a declaration. -/
theorem first_decl {x : Sym} (hx : x = .ident ∨ x = .useWord ∨ x = .aliasWord) :
    ∃ i Z, IsProd outRules .program i [.program, Z, .sc] ∧ InFirst outRules Z x := by
  have one : ∀ {A i B b}, IsProd outRules A i (B :: b) → InFirst outRules A B := by
    intro A i B b h
    exact ⟨b, .head (by simpa using Step.mk [] [] h) (.refl _)⟩
  rcases hx with rfl | rfl | rfl
  · have h1 : InFirst outRules .ruleDecl .identPath := one (i := 0) (isProd_get.mpr rfl)
    have h2 : InFirst outRules .identPath .ident := one (i := 1) (isProd_get.mpr rfl)
    exact ⟨2, .ruleDecl, isProd_get.mpr rfl, InFirst.trans h1 h2⟩
  · exact ⟨0, .import_, isProd_get.mpr rfl, one (i := 1) (isProd_get.mpr rfl)⟩
  · exact ⟨1, .alias, isProd_get.mpr rfl, one (i := 0) (isProd_get.mpr rfl)⟩

/-- A program before the beginning of a declaration is recognised. -/
theorem reaches_bottom {dbg : Bool} {t : Tabler Sym} (ht : Makes .slr dbg outRules .entryPoint .eof t)
    (hc : t.conflicts = []) (hS : InNoBody outRules .entryPoint) (he : Terminal outRules .eof)
    {tr : PTree} (hv : Tree.Valid outRules tr) (hr : tr.root = .program) {x : Gramem}
    (hx : x.ty = .ident ∨ x.ty = .useWord ∨ x.ty = .aliasWord) (rest : List Gramem) :
    ∃ c, Moves t.actions .eof ⟨[0], [], tr.yield ++ x :: rest⟩ c ∧ Bottom tr.yield c := by
  obtain ⟨b0, next, rd, ha, hl⟩ := ht.looks (by simp) he
  obtain ⟨s, p, h1, h2, h3, h4, h5, h6⟩ := hl.basis
  have hT : Terminal outRules x.ty := by
    rcases hx with e | e | e <;> rw [e] <;> unfold Terminal <;> decide
  have hb0 : b0 = [.program] := by
    have := (isProd_get.mp ha.start)
    exact (Option.some.inj this).symm
  have htop : p.top = some .program := by
    unfold Position.top Position.peek
    rw [h4, h5, hb0]
    rfl
  have hnext : p.next = none := by
    unfold Position.next Position.peek
    rw [h4, h5, hb0]
    rfl
  obtain ⟨i, Z, hp, hf⟩ := first_decl hx
  obtain ⟨q, q1, q2, q3, q4, q5⟩ := hl.close h1 h2 htop hp he (fun _ => h6)
    (fun Z hZ => by rw [hnext] at hZ; cases hZ)
  rcases Looks.follows ha hl hS hv 0 [] s q [] (x :: rest) h1 q1
    (by rw [hr]; unfold Position.top Position.peek; rw [q3, q4]; rfl) hT
    (fun hn => by unfold Position.next Position.peek at hn; rw [q3, q4] at hn; cases hn)
    (fun Z' hZ => by
      unfold Position.next Position.peek at hZ
      rw [q3, q4] at hZ
      cases hZ
      exact .inr hf) with hcl | ⟨j, _, hm⟩
  · exact (hcl.false (ht.no_conflict.mp hc)).elim
  · exact ⟨_, hm, tr, rfl, hr, List.prefix_refl _⟩

end Wop

end Lrp
