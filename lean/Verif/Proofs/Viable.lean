import Verif.Proofs.Complete

/-!
Viable prefixes: what is on the stack can always be continued to a sentence (for grammars whose
symbols are productive), and in `Clr` so can the symbol looked at by a reduction.
-/

set_option linter.unusedSectionVars false

namespace Lrp
open Spec
variable {T : Type} [LinOrd T] [DecidableEq T] {M : Type}

/-- Why a position of a state has a reduction symbol. -/
inductive ProvL (D : Decls T) (S eof : T) (b0 : List T) (red : Position T → T → Prop) (i : Nat)
    (s : State T) : Position T → T → Prop
  | kernel {p : Position T} {x : T} : p ∈ s → 0 < p.point → red p x → ProvL D S eof b0 red i s p x
  | basis {p : Position T} : i = 0 → p ∈ s → p.rule = S → p.seq = (b0, 0) → p.point = 0 →
      ProvL D S eof b0 red i s p eof
  | last {p q : Position T} {x : T} : ProvL D S eof b0 red i s q x → q.top = some p.rule →
      q.next = none → p ∈ s → p.point = 0 → ProvL D S eof b0 red i s p x
  | next {p q : Position T} {x Z : T} : q ∈ s → q.top = some p.rule → q.next = some Z →
      (Z = x ∨ InFirst D Z x) → p ∈ s → p.point = 0 → ProvL D S eof b0 red i s p x

/-- Lookaheads are small enough: what the correct-prefix property of `Clr` needs. -/
structure Exact (D : Decls T) (S eof : T) (b0 : List T) (states : List (State T))
    (next : State T → T → Option Nat) (red : Position T → T → Prop) : Prop where
  prov : ∀ {i : Nat} {s p x}, states[i]? = some s → p ∈ s → red p x →
    ProvL D S eof b0 red i s p x
  edge : ∀ {i j : Nat} {s s' p X}, states[i]? = some s → p ∈ s → p.top = some X →
    next s X = some j → states[j]? = some s' →
    ∀ q ∈ s', 0 < q.point → ∀ x, red q x → ∃ p ∈ s, p.top = some X ∧ SameBody q p.adv ∧ red p x

theorem ProvL.mem {D : Decls T} {S eof : T} {b0 : List T} {red : Position T → T → Prop} {i : Nat}
    {s : State T} {p : Position T} {x : T} (h : ProvL D S eof b0 red i s p x) : p ∈ s := by
  cases h <;> assumption

theorem Built.exact_clr {t : Tabler T} {D : Decls T} {S eof : T}
    (h : Built t D S eof clrLook (fun p x => x ∈ p.look)) {b0 : List T} (hb : IsProd D S 0 b0) :
    Exact D S eof b0 t.states (fun s x => t.kernels.get? (Tabler.symFilter s x))
      (fun p x => x ∈ p.look) := by
  have hbase : t.basisPos = { rule := S, seq := (b0, 0), point := 0, look := [eof] } := by
    obtain ⟨b, hb', he⟩ := h.basis_eq
    rw [he, hb'.unique hb]
  constructor
  · intro i s p x hs hp hx
    have step : ∀ {K : State T}, IsClo t.grammar.rules (clrLook t.first) K s →
        (∀ p ∈ K, p ∈ s → x ∈ p.look → ProvL D S eof b0 (fun p x => x ∈ p.look) i s p x) →
        Clo t.grammar.rules (clrLook t.first) K p →
        ProvL D S eof b0 (fun p x => x ∈ p.look) i s p x := by
      intro K hclo hK hall
      clear hp
      induction hall with
      | base hq => exact hK _ hq ((hclo.mem _).mpr (.base hq)) hx
      | @step q p hq ha ih =>
        obtain ⟨h1, _, h3, h4⟩ := adds_prod h.of.grammar ha
        have hps := (hclo.mem p).mpr (.step hq ha)
        rw [h4] at hx
        cases hn : q.next with
        | none =>
          rw [clrLook_none hn] at hx
          exact .last (ih hx) h1 hn hps h3
        | some Z =>
          rw [clrLook_some hn] at hx
          exact .next ((hclo.mem q).mpr hq) h1 hn (of_mem_symLook h.of hx) hps h3
    rcases h.coll.seed hs with ⟨h0, hclo⟩ | ⟨h0, K, _, hclo, hK⟩
    · refine step hclo ?_ ((hclo.mem p).mp hp)
      intro p hpb hps hx
      simp at hpb; subst hpb
      rw [hbase] at hx
      simp at hx; subst hx
      refine .basis h0 hps ?_ ?_ ?_ <;> rw [hbase]
    · refine step hclo ?_ ((hclo.mem p).mp hp)
      intro p hpb hps hx
      obtain ⟨p', X, _, rfl⟩ := hK _ hpb
      exact .kernel hps (Nat.succ_pos _) hx
  · intro i j s s' p X hs hp ht hj hs' q hq h0 x hx
    have hclo := h.next_clo hs hp ht hj hs'
    refine ((hclo.mem q).mp hq).closed_sub (P := fun q => 0 < q.point → x ∈ q.look →
        ∃ p ∈ s, p.top = some X ∧ SameBody q p.adv ∧ x ∈ p.look) ?_ ?_ h0 hx
    · intro q hq _ hx
      obtain ⟨p', hp', ht', rfl⟩ := mem_symFilter.mp hq
      exact ⟨p', hp', ht', .refl _, hx⟩
    · intro p q _ ha h0
      have := (adds_prod h.of.grammar ha).2.2.1
      omega

/-! ### Sentential forms around a position -/

section
variable {D : Decls T} {S : T} {b0 : List T} {states : List (State T)} {acts : ActTable T}
  {next : State T → T → Option Nat} {red : Position T → T → Prop} {eof : T}

theorem body_split {p : Position T} {X : T} (ht : p.top = some X) :
    p.seq.1 = p.seq.1.take p.point ++ X :: p.seq.1.drop (p.point + 1) := by
  have h3 := top_lt ht
  have e1 : p.seq.1.drop p.point = X :: p.seq.1.drop (p.point + 1) := by
    rw [List.drop_eq_getElem_cons h3]
    congr 1
    obtain ⟨_, h⟩ := List.getElem?_eq_some_iff.mp ht
    simpa using h
  rw [← e1, List.take_append_drop]

theorem next_drop {p : Position T} {Z : T} (hn : p.next = some Z) :
    p.seq.1.drop (p.point + 1) = Z :: p.seq.1.drop (p.point + 2) := by
  obtain ⟨h1, h2⟩ := List.getElem?_eq_some_iff.mp hn
  rw [List.drop_eq_getElem_cons h1, h2]

theorem next_drop_none {p : Position T} (hn : p.next = none) :
    p.seq.1.drop (p.point + 1) = [] := by
  have := List.getElem?_eq_none_iff.mp hn
  exact List.drop_eq_nil_iff.mpr (by simpa using this)

/-- The symbols below the position's prefix, and the prefix itself. -/
theorem Auto.split_syms (h : Auto D S b0 states acts next red) {i : Nat} {st : List Nat}
    {syms : List T} (hp : Path states next (i :: st) syms) {s : State T} (hs : states[i]? = some s)
    {p : Position T} (hps : p ∈ s) :
    syms.reverse = (syms.drop p.point).reverse ++ p.seq.1.take p.point := by
  obtain ⟨_, r2, _⟩ := h.path_items hp hs hps
  rw [← r2, ← List.reverse_append, List.take_append_drop]

/-- Replacing the symbol of a position added by a closure step. -/
theorem derives_closure {α z z' : List T} {p q : Position T}
    (hd : Derives D z' (α ++ q.rule :: z)) (hprod : IsProd D q.rule q.seq.2 q.seq.1)
    (ht : q.top = some p.rule) :
    Derives D z' ((α ++ q.seq.1.take q.point) ++ p.rule :: (q.seq.1.drop (q.point + 1) ++ z)) := by
  refine hd.trans ?_
  have := Derives.ctx (Derives.of_prod hprod) α z
  have h1 := body_split ht
  rw [h1] at this
  simpa using this

theorem Auto.viable (h : Auto D S b0 states acts next red) {st : List Nat}
    {syms : List T} (hp : Path states next st syms) :
    ∀ {i : Nat} {st' : List Nat} {s : State T} {p : Position T}, st = i :: st' →
      states[i]? = some s → p ∈ s →
      ∃ z, Derives D [S] ((syms.drop p.point).reverse ++ p.rule :: z) := by
  -- closure steps, given the result for kernel positions
  have clo : ∀ {i : Nat} {st' : List Nat} {syms : List T} {s : State T},
      Path states next (i :: st') syms → states[i]? = some s →
      (∀ p ∈ s, 0 < p.point → ∃ z, Derives D [S] ((syms.drop p.point).reverse ++ p.rule :: z)) →
      ∀ p, Prov S b0 i s p → ∃ z, Derives D [S] ((syms.drop p.point).reverse ++ p.rule :: z) := by
    intro i st' syms s hpath hs hk p hprov
    induction hprov with
    | kernel hp h0 => exact hk _ hp h0
    | @basis p hi hp h1 h2 h3 =>
      subst hi
      have := h.path_zero hpath
      subst this
      exact ⟨[], by rw [h1, List.drop_nil]; exact .refl _⟩
    | @step p q hq ht hp h0 ih =>
      obtain ⟨z, hz⟩ := ih
      have := derives_closure hz (h.prod hs hq.mem).1 ht
      rw [← h.split_syms hpath hs hq.mem] at this
      exact ⟨_, by rw [h0]; exact this⟩
  induction hp with
  | base =>
    intro i st' s p e hs hps
    cases e
    refine clo .base hs ?_ p (h.prov hs hps)
    intro p hp h0
    have := h.zero hs hp
    omega
  | @cons i0 j st0 syms0 s0 p0 X h1 h2 h3 h4 h5 ih =>
    intro i st' s p e hs hps
    cases e
    obtain ⟨j', s', e1, e0, e2, e3, _⟩ := h.edge h2 h3 h4
    rw [h5] at e1; cases e1
    rw [hs] at e2; cases e2
    refine clo (.cons h1 h2 h3 h4 h5) hs ?_ p (h.prov hs hps)
    intro p hp h0
    obtain ⟨q, hq, hqt, hqb⟩ := e3 p hp h0
    obtain ⟨z, hz⟩ := ih rfl h2 hq
    have hpt : p.point = q.point + 1 := hqb.2.2
    have hr : p.rule = q.rule := hqb.1
    refine ⟨z, ?_⟩
    rw [hpt, hr]
    exact hz

/-- The whole stack is the beginning of a sentential form. -/
theorem Auto.viable_stack (h : Auto D S b0 states acts next red) {i : Nat} {st : List Nat}
    {syms : List T} (hp : Path states next (i :: st) syms) {s : State T} {p : Position T}
    (hs : states[i]? = some s) (hps : p ∈ s) :
    ∃ z, Derives D [S] (syms.reverse ++ (p.seq.1.drop p.point ++ z)) := by
  obtain ⟨z, hz⟩ := h.viable hp rfl hs hps
  refine ⟨z, ?_⟩
  rw [h.split_syms hp hs hps]
  refine hz.trans ?_
  have := Derives.ctx (Derives.of_prod (h.prod hs hps).1) ((syms.drop p.point).reverse) z
  have e := List.take_append_drop p.point p.seq.1
  rw [← e] at this
  simp only [List.append_assoc, List.singleton_append] at this ⊢
  exact this

/-- In `Clr`, a reduction symbol can come after the position's rule. -/
theorem Exact.viable (h : Auto D S b0 states acts next red)
    (hx : Exact D S eof b0 states next red) {st : List Nat}
    {syms : List T} (hp : Path states next st syms) :
    ∀ {i : Nat} {st' : List Nat} {s : State T} {p : Position T} {x : T}, st = i :: st' →
      states[i]? = some s → p ∈ s → red p x →
      ∃ z, Derives D [S, eof] ((syms.drop p.point).reverse ++ p.rule :: x :: z) := by
  have clo : ∀ {i : Nat} {st' : List Nat} {syms : List T} {s : State T},
      Path states next (i :: st') syms → states[i]? = some s →
      (∀ p ∈ s, 0 < p.point → ∀ x, red p x →
        ∃ z, Derives D [S, eof] ((syms.drop p.point).reverse ++ p.rule :: x :: z)) →
      ∀ p x, ProvL D S eof b0 red i s p x →
        ∃ z, Derives D [S, eof] ((syms.drop p.point).reverse ++ p.rule :: x :: z) := by
    intro i st' syms s hpath hs hk p x hprov
    induction hprov with
    | kernel hp h0 hr => exact hk _ hp h0 _ hr
    | @basis p hi hp h1 h2 h3 =>
      subst hi
      have := h.path_zero hpath
      subst this
      exact ⟨[], by rw [h1, List.drop_nil]; exact .refl _⟩
    | @last p q x hq ht hn hp h0 ih =>
      obtain ⟨z, hz⟩ := ih
      have := derives_closure hz (h.prod hs hq.mem).1 ht
      rw [← h.split_syms hpath hs hq.mem, next_drop_none hn] at this
      exact ⟨z, by rw [h0]; simpa using this⟩
    | @next p q x Z hq ht hn hZ hp h0 =>
      obtain ⟨z, hz⟩ := h.viable hpath rfl hs hq
      have hz' := hz.append (Derives.refl (D := D) [eof])
      have hz' : Derives D [S, eof] ((syms.drop q.point).reverse ++ q.rule :: (z ++ [eof])) := by
        simpa using hz'
      have := derives_closure hz' (h.prod hs hq).1 ht
      rw [← h.split_syms hpath hs hq, next_drop hn] at this
      rcases hZ with rfl | ⟨v, hv⟩
      · exact ⟨_, by rw [h0]; simpa using this⟩
      · have h2 := Derives.ctx hv (syms.reverse ++ [p.rule]) (q.seq.1.drop (q.point + 2) ++ (z ++ [eof]))
        refine ⟨v ++ (q.seq.1.drop (q.point + 2) ++ (z ++ [eof])), ?_⟩
        rw [h0]
        refine this.trans ?_
        simpa using h2
  induction hp with
  | base =>
    intro i st' s p x e hs hps hr
    cases e
    refine clo .base hs ?_ p x (hx.prov hs hps hr)
    intro p hp h0
    have := h.zero hs hp
    omega
  | @cons i0 j st0 syms0 s0 p0 X h1 h2 h3 h4 h5 ih =>
    intro i st' s p x e hs hps hr
    cases e
    refine clo (.cons h1 h2 h3 h4 h5) hs ?_ p x (hx.prov hs hps hr)
    intro p hp h0 x hr
    obtain ⟨q, hq, hqt, hqb, hqr⟩ := hx.edge h2 h3 h4 h5 hs p hp h0 x hr
    obtain ⟨z, hz⟩ := ih rfl h2 hq hqr
    have hpt : p.point = q.point + 1 := hqb.2.2
    have hr : p.rule = q.rule := hqb.1
    refine ⟨z, ?_⟩
    rw [hpt, hr]
    exact hz

end

/-! ### Continuing to a sentence -/

theorem productive_list {D : Decls T} (h : AllProductive D) (z : List T) :
    ∃ w, Derives D z w ∧ ∀ t ∈ w, Terminal D t := by
  induction z with
  | nil => exact ⟨[], .refl _, by simp⟩
  | cons A z ih =>
    obtain ⟨w, h1, h2⟩ := ih
    obtain ⟨v, h3, h4⟩ : ∃ v, Derives D [A] v ∧ ∀ t ∈ v, Terminal D t := by
      by_cases hA : Terminal D A
      · exact ⟨[A], .refl _, by simpa using hA⟩
      · exact h A (not_terminal_iff.mp hA)
    refine ⟨v ++ w, h3.cons h1, ?_⟩
    intro t ht
    rcases List.mem_append.mp ht with ht | ht
    · exact h4 t ht
    · exact h2 t ht

theorem derives_terminals {D : Decls T} {u w : List T} (hu : ∀ t ∈ u, Terminal D t)
    (h : Derives D u w) : w = u := by
  cases h with
  | refl => rfl
  | head s _ =>
    cases s with
    | @mk a b A i body hp => exact absurd (hu A (by simp)) hp.not_terminal

end Lrp
