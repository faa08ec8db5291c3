import Verif.Spec.Related
import Verif.Proofs.Machine
import Verif.Proofs.Embed

/-! Two runs on tokens of the same types go through the same states. -/

set_option linter.unusedSectionVars false

namespace Lrp
open Spec
variable {M N T : Type} [LinOrd T] [DecidableEq T] {R : T → M → N → Prop}

theorem Spec.RelToks.length {as : List (Token M T)} {bs : List (Token N T)} (h : RelToks R as bs) :
    bs.length = as.length := by
  induction h with
  | nil => rfl
  | cons _ _ ih => simp [ih]

theorem Spec.RelToks.types {as : List (Token M T)} {bs : List (Token N T)} (h : RelToks R as bs) :
    bs.map Token.ty = as.map Token.ty := by
  induction h with
  | nil => rfl
  | cons _ _ ih => simp [ih]

theorem Spec.RelToks.append {as as' : List (Token M T)} {bs bs' : List (Token N T)} (h : RelToks R as bs)
    (h' : RelToks R as' bs') : RelToks R (as ++ as') (bs ++ bs') := by
  induction h with
  | nil => exact h'
  | cons h1 _ ih => exact .cons h1 ih

theorem Spec.RelToks.reverse {as : List (Token M T)} {bs : List (Token N T)} (h : RelToks R as bs) :
    RelToks R as.reverse bs.reverse := by
  induction h with
  | nil => exact .nil
  | cons h1 _ ih => simp only [List.reverse_cons]; exact ih.append (.cons h1 .nil)

theorem Spec.RelToks.take {as : List (Token M T)} {bs : List (Token N T)} (h : RelToks R as bs) (k : Nat) :
    RelToks R (as.take k) (bs.take k) := by
  induction h generalizing k with
  | nil => simp; exact .nil
  | cons h1 _ ih =>
    cases k with
    | zero => exact .nil
    | succ k => exact .cons h1 (ih k)

theorem Spec.RelToks.drop {as : List (Token M T)} {bs : List (Token N T)} (h : RelToks R as bs) (k : Nat) :
    RelToks R (as.drop k) (bs.drop k) := by
  induction h generalizing k with
  | nil => simp; exact .nil
  | cons h1 h2 ih =>
    cases k with
    | zero => exact .cons h1 h2
    | succ k => exact ih k

section
variable {D : Decls T} {S : T} {b0 : List T} {states : List (State T)} {acts : ActTable T}
  {next : State T → T → Option Nat} {red : Position T → T → Prop}

/-- What a reduction finds on the stack, in terms of the symbols alone. -/
theorem Auto.reduce_path (h : Auto D S b0 states acts next red) {i k : Nat} {st : List Nat} {syms : List T}
    {x A : T} {b : List T} (hi : Path states next (i :: st) syms)
    (hc : cellAt acts i x = some (.reduce A (b, k))) :
    IsProd D A k b ∧ b.length ≤ syms.length ∧ (syms.take b.length).reverse = b ∧
      ∃ i' s' q j, (i :: st)[b.length]? = some i' ∧ states[i']? = some s' ∧ q ∈ s' ∧
        q.top = some A ∧ next s' A = some j ∧
        (cellAt acts i' A = some (.goto j) ∨ ∃ a c, cellAt acts i' A = some (.conflict a c)) := by
  obtain ⟨i0, st0, s, e, hs⟩ := h.path_state hi
  cases e
  have hd := h.cell_dec hs hc (by intro x y; simp)
  rcases hd with ⟨p, _, _, j, _, hk⟩ | ⟨p, hp, ht, _, hk⟩
  · rcases hk with ⟨_, hk⟩ | ⟨_, hk⟩ <;> cases hk
  · rcases hk with ⟨_, hk⟩ | ⟨hne, hk⟩
    · cases hk
    · have hA : A = p.rule := by injection hk
      have hseq : (b, k) = p.seq := by injection hk
      have hprod := h.prod hs hp
      have hpt : p.point = b.length := by
        have := top_none ht
        have := hprod.2
        rw [← hseq] at *
        simp only at *
        omega
      obtain ⟨r1, r2, i', s', q, r3, r4, r5, r6, r7, r8⟩ := h.path_items hi hs hp
      rw [hpt] at r1 r2 r3
      have hb : p.seq.1 = b := by rw [← hseq]
      have hk' : p.seq.2 = k := by rw [← hseq]
      rw [hb, List.take_length] at r2
      rw [hA, ← hk', ← hb]
      refine ⟨hprod.1, by rw [hb]; exact r1, by rw [hb]; exact r2, i', s', ?_⟩
      rcases h.pred r4 r5 r8 with ⟨_, hS, _⟩ | ⟨q', hq', ht'⟩
      · exact absurd (r6.symm.trans hS) hne
      · rw [r6] at ht'
        obtain ⟨j, s'', e1, _, _, _⟩ := h.edge r4 hq' ht'
        refine ⟨q', j, by rw [hb]; exact r3, r4, hq', ht', e1, ?_⟩
        exact h.dec_cell r4 (Or.inl ⟨q', hq', ht', j, e1, Or.inr ⟨hprod.1.nonterminal, rfl⟩⟩)

/-- What an accepting run has on its stack, in terms of the symbols alone. -/
theorem Auto.accept_path (h : Auto D S b0 states acts next red) {i : Nat} {st : List Nat} {syms : List T}
    {x : T} (hi : Path states next (i :: st) syms) (hc : cellAt acts i x = some .acc) :
    ∃ k b X, IsProd D S k (b ++ [X]) ∧ ∃ rest, syms = X :: rest := by
  obtain ⟨i0, st0, s, e, hs⟩ := h.path_state hi
  cases e
  have hd := h.cell_dec hs hc (by intro x y; simp)
  rcases hd with ⟨p, _, _, j, _, hk⟩ | ⟨p, hp, ht, _, hk⟩
  · rcases hk with ⟨_, hk⟩ | ⟨_, hk⟩ <;> cases hk
  · rcases hk with ⟨hpS, _⟩ | ⟨_, hk⟩
    · have hprod := h.prod hs hp
      have hpt : p.point = p.seq.1.length := Nat.le_antisymm hprod.2 (top_none ht)
      obtain ⟨r1, r2, _⟩ := h.path_items hi hs hp
      rw [hpt, List.take_length] at r2
      rw [hpt] at r1
      rw [hpS] at hprod
      cases syms with
      | nil =>
        simp at r2
        have := h.noEmpty _ _ _ hprod.1
        exact absurd r2 this
      | cons X rest =>
        cases hl : p.seq.1.length with
        | zero => exact absurd (List.eq_nil_of_length_eq_zero hl) (h.noEmpty _ _ _ hprod.1)
        | succ m =>
          rw [hl, List.take_succ_cons, List.reverse_cons] at r2
          exact ⟨p.seq.2, (rest.take m).reverse, X, by rw [r2]; exact hprod.1, rest, rfl⟩
    · cases hk

/-- The same moment of two runs whose values are related. -/
structure LinkRel (R : T → M → N → Prop) (D : Decls T) (S : T) (states : List (State T))
    (next : State T → T → Option Nat) (acts : ActTable T) (d : Dfa M T) (d' : Dfa N T) : Prop where
  buffer : RelToks R d.buffer d'.buffer
  terms : TerminalToks D d.buffer
  stack : d'.states = d.states
  items : RelToks R d.items d'.items
  table : d.table = acts
  table' : d'.table = acts
  top : ∃ st, d.states = d.top :: st
  top' : d'.top = d.top
  finished : d'.finished = d.finished
  reds : RelReds R D d.reductors d'.reductors
  eof : d'.eof = d.eof
  isEof : Terminal D d.eof
  path : Path states next d.states (d.items.map Token.ty)
  done : d.finished = true → ∃ k b X, IsProd D S k (b ++ [X]) ∧ ∃ rest, d.items.map Token.ty = X :: rest

/-- The same end of two calls. -/
def LinkRes (R : T → M → N → Prop) (D : Decls T) (S : T) (states : List (State T))
    (next : State T → T → Option Nat) (acts : ActTable T) (r : DfaRes M T Unit) (r' : DfaRes N T Unit) : Prop :=
  r'.2 = r.2 ∧ (r.2 = .ok () → LinkRel R D S states next acts r.1 r'.1)

variable {d : Dfa M T} {d' : Dfa N T}

theorem LinkRel.symbol (h : LinkRel R D S states next acts d d') :
    d'.symbol = d.symbol ∧ Terminal D d.symbol := by
  have h1 := h.buffer
  have h2 := h.terms
  unfold Dfa.symbol
  rw [h.eof]
  revert h1 h2
  generalize d.buffer = b
  generalize d'.buffer = b'
  intro h1 h2
  cases h1 with
  | nil => exact ⟨rfl, h.isEof⟩
  | cons _ _ => exact ⟨rfl, h2 _ List.mem_cons_self⟩

theorem LinkRel.reduceStacks (h : LinkRel R D S states next acts d d') (hf : d.finished = false) {A : T}
    {b : List T} {k : Nat} (hp : IsProd D A k b) (hl : b.length ≤ d.items.length)
    (ht : ((d.items.map Token.ty).take b.length).reverse = b) {i' : Nat} (hi : d.states[b.length]? = some i') :
    OutRel (fun e e' => ∃ its v w its', e = { d with items := ⟨v, A⟩ :: its, top := i', states := d.states.drop b.length } ∧
        e' = { d' with items := ⟨w, A⟩ :: its', top := i', states := d.states.drop b.length } ∧
        RelToks R (⟨v, A⟩ :: its) (⟨w, A⟩ :: its') ∧ its = d.items.drop b.length)
      (d.reduceStacks A (b, k)) (d'.reduceStacks A (b, k)) := by
  unfold Dfa.reduceStacks
  simp only
  refine (OutRel.assert _ (by rw [h.items.length])).bind (fun _ _ _ => ?_)
  have hr := h.reds A k b hp
  have hits : RelToks R (d.items.take b.length).reverse (d'.items.take b.length).reverse :=
    (h.items.take _).reverse
  have hty : (d.items.take b.length).reverse.map Token.ty = b := by
    rw [List.map_reverse, List.map_take]; exact ht
  cases h1 : OMap.get? d.reductors A with
  | none =>
    rw [h1] at hr
    cases h2 : OMap.get? d'.reductors A with
    | none => exact .panic _
    | some fs' =>
      rw [h2] at hr
      simp only [Option.bind_none, Option.bind_some] at hr
      simp only [Out.ofOption_none, Out.ofOption_some, Out.ok_bind]
      cases h4 : fs'[k]? with
      | none => exact .panic _
      | some r' => rw [h4] at hr; exact hr.elim
  | some fs =>
    rw [h1] at hr
    simp only [Out.ofOption_some, Out.ok_bind, Option.bind_some] at hr ⊢
    cases h3 : fs[k]? with
    | none =>
      rw [h3] at hr
      cases h2 : OMap.get? d'.reductors A with
      | none => exact .panic _
      | some fs' =>
        rw [h2] at hr
        simp only [Option.bind_some] at hr
        simp only [Out.ofOption_some, Out.ok_bind]
        cases h4 : fs'[k]? with
        | none => exact .panic _
        | some r' => rw [h4] at hr; exact hr.elim
    | some r =>
      rw [h3] at hr
      cases h2 : OMap.get? d'.reductors A with
      | none => rw [h2] at hr; exact hr.elim
      | some fs' =>
        rw [h2] at hr
        simp only [Option.bind_some] at hr
        simp only [Out.ofOption_some, Out.ok_bind]
        cases h4 : fs'[k]? with
        | none => rw [h4] at hr; exact hr.elim
        | some r' =>
          rw [h4] at hr
          have hv := hr _ _ hty hits
          simp only [Out.ofOption_some, Out.ok_bind]
          cases hv1 : r (d.items.take b.length).reverse with
          | none =>
            rw [hv1] at hv
            cases hv2 : r' (d'.items.take b.length).reverse with
            | none => exact .panic _
            | some w => rw [hv2] at hv; exact hv.elim
          | some v =>
            rw [hv1] at hv
            cases hv2 : r' (d'.items.take b.length).reverse with
            | none => rw [hv2] at hv; exact hv.elim
            | some w =>
              rw [hv2] at hv
              simp only [Out.ofOption_some, Out.ok_bind, h.stack, hi]
              exact .ok ⟨_, v, w, _, rfl, rfl, .cons hv (h.items.drop _), rfl⟩

theorem LinkRel.travel (ha : Auto D S b0 states acts next red) (n : Nat)
    (h : LinkRel R D S states next acts d d') (hf : d.finished = false) :
    OutRel (LinkRes R D S states next acts) (Dfa.travel n d d.symbol) (Dfa.travel n d' d'.symbol) := by
  cases n with
  | zero => exact .fuel
  | succ n =>
    obtain ⟨hs1, hs2⟩ := h.symbol
    rw [hs1]
    simp only [Dfa.travel]
    rw [h.table, h.table', h.top']
    obtain ⟨st, hst⟩ := h.top
    have hpath := h.path
    rw [hst] at hpath
    obtain ⟨i0, st0, s, e, hs⟩ := ha.path_state hpath
    cases e
    cases hrow : acts[d.top]? with
    | none => exact .ok ⟨rfl, fun e => by cases e⟩
    | some row =>
      simp only
      cases hx : OMap.get? row d.symbol with
      | none => exact .ok ⟨rfl, fun e => by cases e⟩
      | some a =>
        have hcell : cellAt acts d.top d.symbol = some a := by unfold cellAt; rw [hrow]; exact hx
        cases a with
        | conflict a b => exact .ok ⟨rfl, fun e => by cases e⟩
        | goto to =>
          rcases ha.cell_dec hs hcell (by intro x y; simp) with ⟨p, _, _, j, _, hk⟩ | ⟨p, _, _, _, hk⟩
          · rcases hk with ⟨_, hk⟩ | ⟨hN, hk⟩
            · cases hk
            · obtain ⟨e, h1, h2⟩ := hN
              exact absurd h2 (hs2 e h1)
          · rcases hk with ⟨_, hk⟩ | ⟨_, hk⟩ <;> cases hk
        | shift to =>
          rcases ha.cell_dec hs hcell (by intro x y; simp) with ⟨p, hp, ht, j, hj, hk⟩ | ⟨p, _, _, _, hk⟩
          · rcases hk with ⟨_, hk⟩ | ⟨_, hk⟩
            · cases hk
              refine .ok ?_
              have hb := h.buffer
              have hT := h.terms
              have hsym : ∀ tok rest, d.buffer = tok :: rest → d.symbol = tok.ty := by
                intro tok rest e; unfold Dfa.symbol; rw [e]
              unfold Dfa.shift
              revert hb hT hsym
              generalize hb1 : d.buffer = b
              generalize hb2 : d'.buffer = b'
              intro hb hT hsym
              cases hb with
              | nil => exact ⟨rfl, fun e => by cases e⟩
              | @cons x v w as bs hv hrest =>
                refine ⟨rfl, fun _ => ?_⟩
                have hxe := hsym _ _ rfl
                rw [hxe] at ht hj
                exact { buffer := hrest, terms := fun t ht => hT t (List.mem_cons_of_mem _ ht)
                        stack := by simp [h.stack], items := .cons hv h.items, table := h.table
                        table' := h.table', top := ⟨_, rfl⟩, top' := rfl, finished := h.finished
                        reds := h.reds, eof := h.eof, isEof := h.isEof
                        path := by
                          show Path states next (to :: d.states) (x :: d.items.map Token.ty)
                          rw [hst]
                          exact .cons hpath hs hp ht hj
                        done := fun e => by
                          have e : d.finished = true := e
                          rw [hf] at e; cases e }
            · cases hk
          · rcases hk with ⟨_, hk⟩ | ⟨_, hk⟩ <;> cases hk
        | acc =>
          refine .ok ?_
          have hdone := ha.accept_path hpath hcell
          have hb := h.buffer
          have hT := h.terms
          unfold Dfa.accept
          simp only
          revert hb hT
          generalize hb1 : d.buffer = b
          generalize hb2 : d'.buffer = b'
          intro hb hT
          cases hb with
          | nil =>
            refine ⟨rfl, fun _ => ?_⟩
            exact { buffer := .nil, terms := hT
                    stack := h.stack, items := h.items, table := h.table, table' := h.table'
                    top := ⟨_, hst⟩, top' := h.top', finished := rfl, reds := h.reds, eof := h.eof
                    isEof := h.isEof, path := h.path, done := fun _ => hdone }
          | cons hv hrest => exact ⟨rfl, fun e => by cases e⟩
        | reduce A p =>
          obtain ⟨b, k⟩ := p
          obtain ⟨r1, r2, r3, i', s', q, j, r4, r5, r6, r7, r8, r9⟩ := ha.reduce_path hpath hcell
          rw [List.length_map] at r2
          refine (h.reduceStacks hf r1 r2 r3 (by rw [hst]; exact r4)).bind (fun e e' he => ?_)
          obtain ⟨its, v, w, its', rfl, rfl, hrel, hits⟩ := he
          cases n with
          | zero => exact .fuel
          | succ n =>
            simp only [Dfa.travel]
            rw [h.table, h.table']
            have hrow' : ∃ row', acts[i']? = some row' := by
              refine ⟨_, List.getElem?_eq_getElem ?_⟩
              rw [ha.len]; exact (List.getElem?_eq_some_iff.mp r5).1
            obtain ⟨row', hrow'⟩ := hrow'
            rw [hrow']
            simp only
            have hget : ∀ c, cellAt acts i' A = some c → OMap.get? row' A = some c := by
              intro c hc; unfold cellAt at hc; rw [hrow'] at hc; exact hc
            rcases r9 with r9 | ⟨a, c, r9⟩
            · rw [hget _ r9]
              refine .ok ⟨rfl, fun _ => ?_⟩
              have hdrop : d.states.drop b.length = i' :: d.states.drop (b.length + 1) := by
                have r4' : d.states[b.length]? = some i' := by rw [hst]; exact r4
                obtain ⟨hlt, he⟩ := List.getElem?_eq_some_iff.mp r4'
                rw [List.drop_eq_getElem_cons hlt, he]
              have hpd := h.path.drop b.length (by rw [List.length_map]; exact r2)
              exact { buffer := h.buffer, terms := h.terms, stack := rfl, items := hrel, table := rfl
                      table' := rfl, top := ⟨_, rfl⟩, top' := rfl, finished := h.finished
                      reds := h.reds, eof := h.eof, isEof := h.isEof
                      path := by
                        show Path states next (j :: d.states.drop b.length) (A :: its.map Token.ty)
                        rw [hits, List.map_drop, hdrop]
                        rw [hdrop] at hpd
                        exact .cons hpd r5 r6 r7 r8
                      done := fun e => by
                        have e : d.finished = true := e
                        rw [hf] at e; cases e }
            · rw [hget _ r9]
              exact .ok ⟨rfl, fun e => by cases e⟩

theorem LinkRel.trace (ha : Auto D S b0 states acts next red) (m n : Nat) : ∀ {d : Dfa M T} {d' : Dfa N T},
    LinkRel R D S states next acts d d' →
    OutRel (fun r r' => r'.2 = r.2 ∧ (r.2 = .ok () → LinkRel R D S states next acts r.1 r'.1 ∧ r.1.finished = true))
      (Dfa.trace id m n d) (Dfa.trace id m n d') := by
  induction n with
  | zero => intro d d' _; exact .fuel
  | succ n ih =>
    intro d d' h
    simp only [Dfa.trace, id]
    rw [h.finished]
    cases hf : d.finished with
    | true => exact .ok ⟨rfl, fun _ => ⟨h, hf⟩⟩
    | false =>
      refine (h.travel ha m hf).bind (fun r r' hr => ?_)
      obtain ⟨d, r⟩ := r
      obtain ⟨d', r'⟩ := r'
      obtain ⟨h1, h2⟩ := hr
      simp only at h1 h2
      subst h1
      cases r' with
      | error e => exact .ok ⟨rfl, fun e => by cases e⟩
      | ok u => exact ih (h2 rfl)

/-- The same end of two parses: values related at the last symbol of an alternative of the start symbol, or the
same error. -/
def LinkEnd (R : T → M → N → Prop) (D : Decls T) (S : T) : Except (Error T) M → Except (Error T) N → Prop
  | .ok v, .ok w => ∃ k b X, IsProd D S k (b ++ [X]) ∧ R X v w
  | .error e, .error e' => e' = e
  | _, _ => False

theorem parse_related {t : Tabler T} (ha : Auto D S b0 states t.actions next red) {eof : T}
    (hh : t.grammar.basis.look.head? = some eof) (he : Terminal D eof) {maps : ReductMap M T}
    {maps' : ReductMap N T} (hm : RelReds R D maps maps') {toks : List (Token M T)} {toks' : List (Token N T)}
    (hT : TerminalToks D toks) (hr : RelToks R toks toks') (n : Nat) :
    OutRel (LinkEnd R D S) (Parser.parse t n toks maps) (Parser.parse t n toks' maps') := by
  unfold Parser.parse Parser.dfa
  rw [hh]
  simp only [Out.ofOption_some, Out.ok_bind, Out.pure_eq]
  refine (LinkRel.trace (R := R) ha n n (d := Dfa.new toks t.actions maps eof)
    (d' := Dfa.new toks' t.actions maps' eof) ?_).bind (fun r r' hr => ?_)
  · exact { buffer := hr, terms := hT, stack := rfl, items := .nil, table := rfl, table' := rfl
            top := ⟨[], rfl⟩, top' := rfl, finished := rfl, reds := hm, eof := rfl, isEof := he
            path := .base, done := fun e => by cases e }
  · obtain ⟨d, r⟩ := r
    obtain ⟨d', r'⟩ := r'
    obtain ⟨h1, h2⟩ := hr
    simp only at h1 h2
    subst h1
    cases r' with
    | error e => exact .ok rfl
    | ok u =>
      obtain ⟨h3, h4⟩ := h2 rfl
      obtain ⟨k, b, X, h5, rest, h6⟩ := h3.done h4
      have hits := h3.items
      simp only
      revert hits h6
      generalize d.items = its
      generalize d'.items = its'
      intro h6 hits
      cases hits with
      | nil => cases h6
      | cons hv _ =>
        simp only [List.map_cons, List.cons.injEq] at h6
        refine .ok ⟨k, b, X, h5, ?_⟩
        rw [← h6.1]; exact hv

end

end Lrp
