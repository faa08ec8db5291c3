import Verif.Proofs.Power
import Verif.Proofs.Reach
import Verif.Model.Main
import Verif.Spec.Views

/-! The printed tables, the printed stack, the `cloned` reductors. -/

set_option linter.unusedSectionVars false

namespace Lrp
open Spec
variable {T : Type} [LinOrd T] [DecidableEq T] {M : Type}
variable {D : Decls T} {S eof : T}

/-! ### Keys of FIRST and FOLLOW -/

theorem followKey_iff {A : T} (hS : Nonterminal D S) :
    Tabler.FollowKey D S A ↔ Nonterminal D A ∧ HasContext D S A := by
  unfold Tabler.FollowKey HasContext Tabler.PairKey
  constructor
  · rintro (rfl | ⟨B, i, body, hp, ⟨b, ⟨u, v, e⟩, hA⟩ | ⟨hl, hA, hne⟩⟩)
    · exact ⟨hS, Or.inl rfl⟩
    · exact ⟨hA, Or.inr ⟨B, i, u, b :: v, by rw [← e]; exact hp, Or.inl (by simp)⟩⟩
    · obtain ⟨u, e⟩ := List.getLast?_eq_some_iff.mp hl
      exact ⟨hA, Or.inr ⟨B, i, u, [], by rw [← e]; exact hp, Or.inr hne⟩⟩
  · rintro ⟨hA, rfl | ⟨B, i, u, v, hp, h⟩⟩
    · exact Or.inl rfl
    · refine Or.inr ⟨B, i, _, hp, ?_⟩
      cases v with
      | nil =>
        rcases h with h | h
        · exact absurd rfl h
        · exact Or.inr ⟨by simp, hA, h⟩
      | cons b v => exact Or.inl ⟨b, ⟨u, v, rfl⟩, hA⟩

theorem keys_eq {κ ν ν' : Type} [LinOrd κ] [DecidableEq κ] {m : OMap κ ν} {n : OMap κ ν'} (hm : OMap.Sorted m)
    (hn : OMap.Sorted n) (h : ∀ k, (∃ v, m.get? k = some v) ↔ ∃ v, n.get? k = some v) :
    m.keys = n.keys := by
  have sk : ∀ {ν : Type} {m : OMap κ ν}, OMap.Sorted m → OSet.Sorted m.keys := by
    intro ν m hm
    exact List.pairwise_map.mpr hm
  refine OSet.ext (sk hm) (sk hn) (fun k => ?_)
  rw [OMap.mem_keys, OMap.mem_keys, h]

theorem mem_zip_values {κ ν ν' : Type} {m : OMap κ ν} {n : OMap κ ν'} (h : m.keys = n.keys) {e : κ × ν}
    {w : ν'} (hm : (e, w) ∈ m.zip n.values) : e ∈ m ∧ (e.1, w) ∈ n := by
  induction m generalizing n with
  | nil => simp at hm
  | cons a m ih =>
    cases n with
    | nil => simp [OMap.values] at hm
    | cons b n =>
      simp only [OMap.keys, List.map_cons, List.cons.injEq] at h
      simp only [OMap.values, List.map_cons, List.zip_cons_cons, List.mem_cons, Prod.mk.injEq] at hm
      rcases hm with ⟨rfl, rfl⟩ | hm
      · exact ⟨by simp, by rw [h.1]; simp⟩
      · obtain ⟨h1, h2⟩ := ih (n := n) h.2 hm
        exact ⟨List.mem_cons_of_mem _ h1, List.mem_cons_of_mem _ h2⟩

theorem zip_values_fst {κ ν ν' : Type} {m : OMap κ ν} {n : OMap κ ν'} (h : m.keys = n.keys) :
    (m.zip n.values).map (fun e => e.1) = m := by
  rw [List.map_fst_zip]
  have : m.keys.length = n.keys.length := by rw [h]
  simp only [OMap.keys, OMap.values, List.length_map] at this ⊢
  omega

theorem Spec.Makes.of {k : Method} {dbg : Bool} {t : Tabler T} (h : Makes k dbg D S eof t) :
    t.Of D S eof := by
  obtain ⟨g, n, t0, hg, h0, e1, e2, e3⟩ := h.tabler
  have := Tabler.of_new (Grammar.of_new hg) h0
  obtain ⟨h1, h2, h3, h4, h5, h6, h7, h8, h9⟩ := this
  rw [← e1] at h1
  rw [← e2] at h3 h4 h5 h8 h9
  rw [← e3] at h6 h7 h8 h9
  exact ⟨h1, h2, h3, h4, h5, h6, h7, h8, h9⟩

/-! ### Edges -/

theorem Auto.leads {b0 : List T} {t : Tabler T} {next : State T → T → Option Nat}
    {red : Position T → T → Prop} (h : Auto D S b0 t.states t.actions next red) {i j : Nat}
    {s : State T} {p : Position T} {x : T} (hs : t.states[i]? = some s) (hp : p ∈ s)
    (ht : p.top = some x) (hj : next s x = some j) : Leads t i x j := by
  have hi : i < t.actions.length := by
    rw [h.len]; exact (List.getElem?_eq_some_iff.mp hs).1
  have hrow := List.getElem?_eq_getElem hi
  obtain ⟨_, hc⟩ := h.cell hs hrow
  have hc := hc x
  by_cases hx : Terminal D x
  · have hd : Dec D S (next s) red s x (.shift j) := Or.inl ⟨p, hp, ht, j, hj, Or.inl ⟨hx, rfl⟩⟩
    cases hr : (t.actions[i]'hi).get? x with
    | none => exact absurd hd (hc.empty.mp hr _)
    | some c => exact ⟨_, c, hrow, hr, Or.inl ((hc.among c hr _).mpr hd)⟩
  · have hd : Dec D S (next s) red s x (.goto j) :=
      Or.inl ⟨p, hp, ht, j, hj, Or.inr ⟨not_terminal_iff.mp hx, rfl⟩⟩
    cases hr : (t.actions[i]'hi).get? x with
    | none => exact absurd hd (hc.empty.mp hr _)
    | some c => exact ⟨_, c, hrow, hr, Or.inr ((hc.among c hr _).mpr hd)⟩

/-! ### The table of states -/

theorem symFilter_eq_nil {s : State T} {x : T} :
    Tabler.symFilter s x = [] ↔ ∀ p ∈ s, p.top ≠ some x := by
  constructor
  · intro h p hp ht
    have : p.adv ∈ Tabler.symFilter s x := mem_symFilter.mpr ⟨p, hp, ht, rfl⟩
    rw [h] at this; simp at this
  · intro h
    cases e : Tabler.symFilter s x with
    | nil => rfl
    | cons q rest =>
      obtain ⟨p, hp, ht, _⟩ := mem_symFilter.mp (show q ∈ Tabler.symFilter s x by rw [e]; simp)
      exact absurd ht (h p hp)

theorem Out.mapM_of_all {α β : Type} {f : α → Out β} {l : List α} (h : ∀ a ∈ l, ∃ b, f a = .ok b) :
    ∃ bs, l.mapM f = .ok bs ∧ (∀ b ∈ bs, ∃ a ∈ l, f a = .ok b) ∧
      ∀ a ∈ l, ∃ b ∈ bs, f a = .ok b := by
  induction l with
  | nil => exact ⟨[], rfl, by simp, by simp⟩
  | cons a l ih =>
    obtain ⟨b, hb⟩ := h a (by simp)
    obtain ⟨bs, h1, h2, h3⟩ := ih (fun a ha => h a (List.mem_cons_of_mem _ ha))
    refine ⟨b :: bs, ?_, ?_, ?_⟩
    · rw [List.mapM_cons, hb, h1]; rfl
    · intro c hc
      rcases List.mem_cons.mp hc with rfl | hc
      · exact ⟨a, by simp, hb⟩
      · obtain ⟨a', ha', e⟩ := h2 c hc
        exact ⟨a', List.mem_cons_of_mem _ ha', e⟩
    · intro c hc
      rcases List.mem_cons.mp hc with rfl | hc
      · exact ⟨b, by simp, hb⟩
      · obtain ⟨b', hb', e⟩ := h3 c hc
        exact ⟨b', List.mem_cons_of_mem _ hb', e⟩

/-- The printed table of states, given that kernels are found. -/
theorem statesTable_ok {b0 : List T} {t : Tabler T} {next : State T → T → Option Nat}
    {red : Position T → T → Prop} (h : Auto D S b0 t.states t.actions next red)
    (hg : t.grammar.Of D S eof) {fk : State T → Option (State T)} {sfk : State T → Option Nat}
    (hk : ∀ {i : Nat} {s p x}, t.states[i]? = some s → p ∈ s → p.top = some x →
      ∃ K j, fk (Tabler.symFilter s x) = some K ∧ sfk K = some j ∧ next s x = some j) :
    ∃ rows, Main.statesTable fk sfk t = .ok rows ∧
      (∀ r ∈ rows, t.states[r.target]? = some r.closure ∧ Leads t r.state r.sym r.target) ∧
      ∀ (i : Nat) s p x, t.states[i]? = some s → p ∈ s → After p x →
        ∃ r ∈ rows, r.state = i ∧ r.sym = x := by
  have row : ∀ (i : Nat) s x, t.states[i]? = some s → ∃ o, Main.gotoRow fk sfk t i s x = .ok o ∧
      (∀ r, o = some r → r.state = i ∧ r.sym = x ∧ t.states[r.target]? = some r.closure ∧
        Leads t r.state r.sym r.target) ∧
      (o = none → ∀ p ∈ s, p.top ≠ some x) := by
    intro i s x hs
    unfold Main.gotoRow
    by_cases he : Tabler.symFilter s x = []
    · refine ⟨none, by simp [he], by simp, fun _ => symFilter_eq_nil.mp he⟩
    · have : ∃ p ∈ s, p.top = some x := by
        cases e : Tabler.symFilter s x with
        | nil => exact absurd e he
        | cons q rest =>
          obtain ⟨p, hp, ht, _⟩ := mem_symFilter.mp (show q ∈ Tabler.symFilter s x by rw [e]; simp)
          exact ⟨p, hp, ht⟩
      obtain ⟨p, hp, ht⟩ := this
      obtain ⟨K, j, h1, h2, h3⟩ := hk hs hp ht
      obtain ⟨j', s', h4, _, h5, _⟩ := h.edge hs hp ht
      rw [h3] at h4; cases h4
      refine ⟨some { state := i, sym := x, kernel := K, target := j, closure := s' }, ?_, ?_, by simp⟩
      · simp only [he, if_false, h1, Out.ofOption, Out.ok_bind, h2, h5]; rfl
      intro r hr
      simp only [Option.some.injEq] at hr
      subst hr
      exact ⟨rfl, rfl, h5, h.leads hs hp ht h3⟩
  obtain ⟨os, h1, h2, h3⟩ := Out.mapM_of_all
    (f := fun e : (State T × Nat) × T => Main.gotoRow fk sfk t e.1.2 e.1.1 e.2)
    (l := t.states.zipIdx.flatMap (fun e => t.grammar.symbols.map (fun sym => (e, sym)))) (by
      intro e he
      obtain ⟨e', he', h'⟩ := List.mem_flatMap.mp he
      obtain ⟨x, hx, rfl⟩ := List.mem_map.mp h'
      obtain ⟨o, ho, _⟩ := row e'.2 e'.1 x (List.mk_mem_zipIdx_iff_getElem?.mp he')
      exact ⟨o, ho⟩)
  refine ⟨os.filterMap id, ?_, ?_, ?_⟩
  · unfold Main.statesTable
    rw [h1]
    simp [h.nonempty, Out.assert]
  · intro r hr
    obtain ⟨o, ho, hr⟩ := List.mem_filterMap.mp hr
    simp only [id_eq] at hr
    subst hr
    obtain ⟨e, he, e1⟩ := h2 _ ho
    obtain ⟨e', he', h'⟩ := List.mem_flatMap.mp he
    obtain ⟨x, hx, rfl⟩ := List.mem_map.mp h'
    obtain ⟨o, ho', h4, _⟩ := row e'.2 e'.1 x (List.mk_mem_zipIdx_iff_getElem?.mp he')
    simp only at e1
    rw [ho'] at e1
    cases e1
    exact (h4 r rfl).2.2
  · intro i s p x hs hp hx
    have ht : p.top = some x := hx
    obtain ⟨o, ho, e1⟩ := h3 ((s, i), x) (List.mem_flatMap.mpr ⟨(s, i),
      List.mk_mem_zipIdx_iff_getElem?.mpr hs, List.mem_map.mpr ⟨x,
        hg.mem_symbols (h.prod hs hp).1 (top_mem ht), rfl⟩⟩)
    obtain ⟨o', ho', h4, h5⟩ := row i s x hs
    simp only at e1
    rw [ho'] at e1
    cases e1
    cases o with
    | none => exact absurd ht (h5 rfl p hp)
    | some r => exact ⟨r, List.mem_filterMap.mpr ⟨_, ho, rfl⟩, (h4 r rfl).1, (h4 r rfl).2.1⟩

/-- The kernel found for a transition of `Lalr` is one whose state is found. -/
theorem LBuilt.kernel {l : Lalr T} {t0 : Tabler T} {G : Position T → Prop}
    (h : LBuilt l D S eof t0 G) {i : Nat} {s : State T} {p : Position T} {x : T}
    (hs : l.table.states[i]? = some s) (hp : p ∈ s) (ht : p.top = some x) :
    ∃ K j, l.finalKernel (Tabler.symFilter s x) = some K ∧ l.stateFromKernel K = some j ∧
      l.stateFromKernel (Tabler.symFilter s x) = some j := by
  obtain ⟨l0, h0, e1, e2, e3⟩ := h.coll
  have hx := h.of.grammar.mem_symbols (h.prod hs hp).1 (top_mem ht)
  rw [← e2] at hs
  obtain ⟨_, j, _, h1, h2, _⟩ := h0.edge hx hs hp ht
  have hsf : l.stateFromKernel = l0.stateFromKernel := by
    funext K; unfold Lalr.stateFromKernel Lalr.finalKernel; rw [e1, e3]
  have hff : l.finalKernel = l0.finalKernel := by
    funext K; unfold Lalr.finalKernel; rw [e1]
  rw [hsf, hff]
  have h1' := h1
  unfold Lalr.stateFromKernel at h1'
  obtain ⟨K, h3, h4⟩ := Option.bind_eq_some_iff.mp h1'
  refine ⟨K, j, h3, ?_, h1⟩
  unfold Lalr.stateFromKernel
  have h5 := (h0.inv.kern K j h4 h2).1
  have : l0.finalKernel K = some K := h5
  rw [this]
  exact h4

/-! ### The table of actions -/

theorem split_eq (t : Tabler T) : Main.split t =
    (OSet.ofList (t.grammar.symbols.filter t.grammar.isTerminal),
      OSet.ofList (t.grammar.symbols.filter (fun s => !t.grammar.isTerminal s))) := by
  unfold Main.split OSet.ofList
  have key : ∀ (l : List T) (a b : OSet T), l.foldl (fun acc s =>
      if t.grammar.isTerminal s then (OSet.insert s acc.1, acc.2) else (acc.1, OSet.insert s acc.2))
      (a, b) = (OSet.extend a (l.filter t.grammar.isTerminal),
        OSet.extend b (l.filter (fun s => !t.grammar.isTerminal s))) := by
    intro l
    induction l with
    | nil => intro a b; rfl
    | cons x l ih =>
      intro a b
      rw [List.foldl_cons]
      by_cases hx : t.grammar.isTerminal x
      · rw [if_pos hx, ih, List.filter_cons_of_pos hx, List.filter_cons_of_neg (by simp [hx])]; rfl
      · rw [if_neg hx, ih, List.filter_cons_of_neg hx, List.filter_cons_of_pos (by simp [hx])]; rfl
  exact key _ _ _

/-- Derivations stay within the symbols of the grammar. -/
theorem derives_symbols {g : Grammar T} (hg : g.Of D S eof) {a b : List T} (h : Derives D a b)
    (ha : ∀ x ∈ a, x ∈ g.symbols) : ∀ x ∈ b, x ∈ g.symbols := by
  induction h with
  | refl => exact ha
  | head hs _ ih =>
    refine ih ?_
    cases hs with
    | mk u v hp =>
      intro x hx
      rcases List.mem_append.mp hx with hx | hx
      · rcases List.mem_append.mp hx with hx | hx
        · exact ha x (List.mem_append_left _ hx)
        · exact hg.mem_symbols hp hx
      · exact ha x (by simp [hx])

theorem inFirst_symbols {g : Grammar T} (hg : g.Of D S eof) {A x : T} (h : InFirst D A x)
    (hA : A ∈ g.symbols) : x ∈ g.symbols := by
  obtain ⟨v, hd⟩ := h
  exact derives_symbols hg hd (by simpa using hA) x (by simp)

theorem lookSyms_symbols {t : Tabler T} (h : t.Of D S eof) {x : T} (hx : x ∈ lookSyms t) :
    x ∈ t.grammar.symbols := by
  rcases List.mem_append.mp hx with hx | hx
  · obtain ⟨b, _, e⟩ := h.grammar.basis
    have e' : t.basisPos = _ := e
    rw [e'] at hx
    simp only [List.mem_singleton] at hx
    subst hx
    rw [h.grammar.symbols, h.grammar.terminals]
    exact Or.inr (Or.inl rfl)
  · obtain ⟨Z, hZ, hx⟩ := List.mem_flatMap.mp hx
    have hZs : Z ∈ t.grammar.symbols := by
      obtain ⟨r, h1, p, h2, h3⟩ := mem_bodySymbols.mp hZ
      have hr := OMap.get?_of_mem h.grammar.sorted h1
      exact h.grammar.mem_symbols ((h.grammar.prods hr p).mp h2) h3
    rcases of_mem_symLook h hx with rfl | hx
    · exact hZs
    · exact inFirst_symbols h.grammar hx hZs

/-- Every symbol with a cell is a symbol of the grammar. -/
theorem Spec.Makes.keys {k : Method} {dbg : Bool} {t : Tabler T} (h : Makes k dbg D S eof t)
    {i : Nat} {row : OMap T (Action T)} {x : T} {c : Action T} (hr : t.actions[i]? = some row)
    (hx : row.get? x = some c) : x ∈ t.grammar.symbols := by
  have key : ∀ {b0 next red}, Auto D S b0 t.states t.actions next red →
      (∀ (i : Nat) s p, t.states[i]? = some s → p ∈ s → red p x → x ∈ t.grammar.symbols) →
      x ∈ t.grammar.symbols := by
    intro b0 next red ha hred
    have hi : i < t.states.length := by
      rw [← ha.len]; exact (List.getElem?_eq_some_iff.mp hr).1
    have hs := List.getElem?_eq_getElem hi
    obtain ⟨_, hc⟩ := ha.cell hs hr
    obtain ⟨a, haa⟩ := among_exists c
    rcases ((hc x).among c hx a).mp haa with ⟨p, hp, ht, _⟩ | ⟨p, hp, _, hrd, _⟩
    · exact h.grammar.mem_symbols (ha.prod hs hp).1 (top_mem ht)
    · exact hred _ _ _ hs hp hrd
  have heof : eof ∈ t.grammar.symbols := by
    rw [h.grammar.symbols, h.grammar.terminals]
    exact Or.inr (Or.inl rfl)
  have hof := h.of
  obtain ⟨g, hg, n, hb⟩ := h
  cases k with
  | slr =>
    have hb := Slr.built (Grammar.of_new hg) hb
    obtain ⟨b0, hb0, _⟩ := hb.basis_eq
    refine key (hb.auto hb0) (fun i s p hs hp hrd => ?_)
    have hreach := hb.of.followAny _ _ hrd
    clear hrd key
    generalize p.rule = A at hreach
    induction hreach with
    | base he =>
      rcases he with ⟨_, rfl⟩ | ⟨B, k, body, hp, ⟨b, ⟨u, v, e⟩, _, ⟨_, rfl⟩ | ⟨_, hF⟩⟩ | ⟨_, _, _, rfl⟩⟩
      · exact heof
      · exact hof.grammar.mem_symbols hp (by rw [e]; simp)
      · exact inFirst_symbols hof.grammar (hof.firstAny _ _ hF)
          (hof.grammar.mem_symbols hp (by rw [e]; simp))
      · rw [hof.grammar.symbols]
        exact Or.inl hp.nonterminal
    | cons _ _ _ ih => exact ih hx
  | clr =>
    have hb := Clr.built (Grammar.of_new hg) hb
    obtain ⟨b0, hb0, _⟩ := hb.basis_eq
    refine key (hb.auto hb0) (fun i s p hs hp hrd => ?_)
    have hl0 : eof ∈ lookSyms t := by
      refine List.mem_append_left _ ?_
      obtain ⟨b, _, e⟩ := hb.basis_eq
      rw [e]; simp
    exact lookSyms_symbols hb.of (hb.look_rel (lookRel_any hb.of) hl0 i s hs p hp x hrd)
  | lalr =>
    obtain ⟨l, hl, e⟩ := Out.bind_eq_ok.mp hb
    cases e
    obtain ⟨t0, _, hb1, _⟩ := Lalr.built (Grammar.of_new hg) hl
    obtain ⟨b0, hb0, _⟩ := hb1.of.grammar.basis
    refine key (hb1.auto hb0) (fun i s p hs hp hrd => ?_)
    obtain ⟨l0, h0, e1, e2, e3⟩ := hb1.coll
    have := lookSyms_symbols hb1.of ((h0.inv.good i s (by rw [e2]; exact hs) p hp).look x hrd)
    rw [← hb1.grammar] at this
    exact this

/-! ### The stack -/

theorem Spec.Chain.snoc {t : Tabler T} {i j k : Nat} {x : T} {rest : List (T × Nat)} (h : Chain t i rest)
    (hl : ((i :: rest.map Prod.snd).getLast?) = some j) (he : Leads t j x k) :
    Chain t i (rest ++ [(x, k)]) := by
  induction h with
  | nil => simp at hl; subst hl; exact .cons he .nil
  | cons h1 _ ih =>
    refine .cons h1 (ih ?_)
    simpa using hl

theorem Auto.chain {b0 : List T} {t : Tabler T} {next : State T → T → Option Nat}
    {red : Position T → T → Prop} (h : Auto D S b0 t.states t.actions next red) {st : List Nat}
    {syms : List T} (hp : Path t.states next st syms) :
    ∃ rest, Chain t 0 rest ∧ st.reverse = 0 :: rest.map Prod.snd ∧
      syms.reverse = rest.map Prod.fst := by
  induction hp with
  | base => exact ⟨[], .nil, rfl, rfl⟩
  | @cons i j st syms s p X hpath hs hp ht hj ih =>
    obtain ⟨rest, h1, h2, h3⟩ := ih
    refine ⟨rest ++ [(X, j)], h1.snoc (j := i) ?_ (h.leads hs hp ht hj), ?_, ?_⟩
    · rw [← h2]; simp
    · rw [List.reverse_cons, h2]; simp
    · rw [List.reverse_cons, h3]; simp

theorem item_types {red : T → Nat → List (Token M T) → Option M} {trs : List (Tree M T)}
    {its : List (Token M T)} (h : trs.map (valTok red) = its.map some) :
    its.map Token.ty = trs.map Tree.root := by
  induction trs generalizing its with
  | nil => cases its <;> simp_all
  | cons tr trs ih =>
    cases its with
    | nil => simp at h
    | cons it its =>
      simp only [List.map_cons, List.cons.injEq] at h
      obtain ⟨v, _, e⟩ := Option.map_eq_some_iff.mp h.1
      simp only [List.map_cons, ih h.2, ← e]

theorem stackPieces_eq (fs : Nat → String) (ft : T → String) (i : Nat) (rest : List (T × Nat))
    (its : List (Token M T)) (h : its.map Token.ty = rest.map Prod.fst) :
    Dfa.stackPieces fs ft (i :: rest.map Prod.snd) its =
      fs i :: rest.flatMap (fun e => [ft e.1, fs e.2]) := by
  induction rest generalizing i its with
  | nil =>
    cases its with
    | nil => rfl
    | cons _ _ => simp at h
  | cons e rest ih =>
    cases its with
    | nil => simp at h
    | cons it its =>
      simp only [List.map_cons, List.cons.injEq] at h
      simp only [List.map_cons, Dfa.stackPieces, List.flatMap_cons]
      rw [ih e.2 its h.2, h.1]; rfl

/-! ### cloned -/

theorem cloned_eval {t : Tabler T} (hg : t.grammar.Of D S eof) {tr : Tree T T} {v : T}
    (hv : Tree.Valid D tr) (h : tr.eval (redOf (Parser.cloned t)) = some v) :
    clonedValue tr = some v := by
  cases hv with
  | leaf _ => simpa [Tree.eval, clonedValue] using h
  | @node A i cs hp hc =>
    unfold Tree.eval at h
    obtain ⟨its, h1, h2⟩ := Option.bind_eq_some_iff.mp h
    unfold Parser.cloned at h2
    rw [redOf_transparent hg _ hp] at h2
    have h1 := evals_iff.mp h1
    unfold clonedValue
    cases cs with
    | nil => cases its <;> simp at h1 h2
    | cons c cs =>
      cases its with
      | nil => simp at h2
      | cons it its =>
        simp only [List.map_cons, List.cons.injEq, valTok, Option.map_eq_some_iff] at h1
        obtain ⟨⟨w, _, rfl⟩, _⟩ := h1
        simpa using h2

end Lrp
