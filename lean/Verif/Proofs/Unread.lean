import Verif.Spec.Run
import Verif.Proofs.Embed
import Verif.Proofs.Equals

/-! A run that has not looked at the end of its input does not depend on the rest of it. -/

set_option linter.unusedSectionVars false

namespace Lrp
open Spec
variable {M T : Type} [LinOrd T] [DecidableEq T]

/-- Some cell of the table reduces to `x`. -/
def ReducesTo (acts : ActTable T) (x : T) : Prop :=
  ∃ row ∈ acts, ∃ y p, OMap.get? row y = some (.reduce x p)

/-- The same end of two calls, with different rests of the input. -/
def RestRel (v v' : List (Token M T)) (r r' : DfaRes M T Unit) : Prop :=
  r'.2 = r.2 ∧ ∃ b, r.1.buffer = b ++ v ∧ r'.1 = { r.1 with buffer := b ++ v' }

theorem reduceStacks_buffer {d : Dfa M T} {A : T} {p : Production T} (b' : List (Token M T)) :
    OutRel (fun e e' => e' = { e with buffer := b' } ∧ e.buffer = d.buffer ∧ e.table = d.table ∧ e.eof = d.eof)
      (d.reduceStacks A p) (Dfa.reduceStacks { d with buffer := b' } A p) := by
  unfold Dfa.reduceStacks
  simp only
  refine (OutRel.assert _ rfl).bind (fun _ _ _ => ?_)
  refine (OutRel.ofOption (v := id) _ (by simp)).bind (fun fs fs' h => ?_)
  simp only [id] at h; subst h
  refine (OutRel.ofOption (v := id) _ (by simp)).bind (fun f f' h => ?_)
  simp only [id] at h; subst h
  refine (OutRel.ofOption (v := id) _ (by simp)).bind (fun v v' h => ?_)
  simp only [id] at h; subst h
  refine (OutRel.ofOption (v := id) _ (by simp)).bind (fun top top' h => ?_)
  simp only [id] at h; subst h
  exact .ok ⟨rfl, rfl, rfl, rfl⟩

theorem travel_rest {v v' : List (Token M T)} {tok : Token M T} (n : Nat) :
    ∀ (d : Dfa M T) (b : List (Token M T)) (x : T), d.buffer = tok :: b ++ v →
      OutRel (RestRel v v') (Dfa.travel n d x) (Dfa.travel n { d with buffer := tok :: b ++ v' } x) := by
  induction n with
  | zero => intro d b x _; exact .fuel
  | succ n ih =>
    intro d b x hb
    simp only [Dfa.travel]
    cases d.table[d.top]? with
    | none => exact .ok ⟨rfl, _, hb, rfl⟩
    | some row =>
      simp only
      cases OMap.get? row x with
      | none => exact .ok ⟨rfl, _, hb, rfl⟩
      | some a =>
        cases a with
        | shift to =>
          simp only [Dfa.shift, hb, List.cons_append]
          exact .ok ⟨rfl, b, rfl, rfl⟩
        | goto to => exact .ok ⟨rfl, _, hb, rfl⟩
        | acc =>
          simp only [Dfa.accept, hb, List.cons_append]
          exact .ok ⟨rfl, tok :: b, rfl, rfl⟩
        | conflict a c => exact .ok ⟨rfl, _, hb, rfl⟩
        | reduce A p =>
          refine (reduceStacks_buffer (d := d) (A := A) (p := p) (tok :: b ++ v')).bind (fun e e' h => ?_)
          obtain ⟨rfl, h1, _⟩ := h
          exact ih e b A (h1.trans hb)

/-- What is left of the input after a call. -/
theorem travel_buffer (n : Nat) : ∀ (d d1 : Dfa M T) (x : T) (r : Except (Error T) Unit),
    Dfa.travel n d x = .ok (d1, r) →
      (d1.table = d.table ∧ d1.eof = d.eof) ∧ (∃ b, d.buffer = b ++ d1.buffer) ∧
      ∀ y exp, r = .error (.unexpectedToken y exp) →
        d1.buffer = d.buffer ∧ (y = x ∨ ReducesTo d.table y) := by
  induction n with
  | zero => intro d d1 x r h; cases h
  | succ n ih =>
    intro d d1 x r h
    simp only [Dfa.travel] at h
    cases hrow : d.table[d.top]? with
    | none => rw [hrow] at h; cases h; exact ⟨⟨rfl, rfl⟩, ⟨[], rfl⟩, fun y exp e => by cases e⟩
    | some row =>
      rw [hrow] at h
      simp only at h
      cases hx : OMap.get? row x with
      | none => rw [hx] at h; cases h; exact ⟨⟨rfl, rfl⟩, ⟨[], rfl⟩, fun y exp e => by cases e; exact ⟨rfl, .inl rfl⟩⟩
      | some a =>
        rw [hx] at h
        cases a with
        | shift to =>
          simp only [Dfa.shift] at h
          cases hb : d.buffer with
          | nil => rw [hb] at h; cases h; exact ⟨⟨rfl, rfl⟩, ⟨[], by simp [hb]⟩, fun y exp e => by cases e⟩
          | cons tok rest =>
            rw [hb] at h; cases h
            exact ⟨⟨rfl, rfl⟩, ⟨[tok], rfl⟩, fun y exp e => by cases e⟩
        | goto to => simp only [Dfa.goto] at h; cases h; exact ⟨⟨rfl, rfl⟩, ⟨[], rfl⟩, fun y exp e => by cases e⟩
        | acc =>
          simp only [Dfa.accept] at h
          cases hb : d.buffer with
          | nil => rw [hb] at h; cases h; exact ⟨⟨rfl, rfl⟩, ⟨[], rfl⟩, fun y exp e => by cases e⟩
          | cons tok rest =>
            rw [hb] at h; cases h
            exact ⟨⟨rfl, rfl⟩, ⟨[], rfl⟩, fun y exp e => by cases e⟩
        | conflict a c => cases h; exact ⟨⟨rfl, rfl⟩, ⟨[], rfl⟩, fun y exp e => by cases e⟩
        | reduce A p =>
          simp only at h
          obtain ⟨e, h1, h2⟩ := Out.bind_eq_ok.mp h
          obtain ⟨_, _, h4⟩ := (reduceStacks_buffer (d := d) (A := A) (p := p) d.buffer).of_ok h1
          obtain ⟨_, h5, h6, h7⟩ := h4
          obtain ⟨k1, ⟨b, k2⟩, k3⟩ := ih e d1 A r h2
          rw [h5] at k2 k3
          rw [h6, h7] at k1
          rw [h6] at k3
          refine ⟨k1, ⟨b, k2⟩, fun y exp hy => ?_⟩
          obtain ⟨k4, k5⟩ := k3 y exp hy
          refine ⟨k4, .inr ?_⟩
          rcases k5 with rfl | k5
          · exact ⟨row, List.mem_of_getElem? hrow, x, p, hx⟩
          · exact k5

/-- A run keeps its table and its end marker. -/
theorem Spec.Reached.const {t : Tabler T} {maps : ReductMap M T} {toks : List (Token M T)} {d : Dfa M T}
    (h : Reached t maps toks d) : d.table = t.actions ∧ t.grammar.basis.look.head? = some d.eof := by
  induction h with
  | init h =>
    unfold Parser.dfa at h
    cases he : t.grammar.basis.look.head? with
    | none => rw [he] at h; cases h
    | some eof => rw [he] at h; cases h; exact ⟨rfl, rfl⟩
  | step _ _ h ih =>
    obtain ⟨⟨h1, h2⟩, _⟩ := travel_buffer _ _ _ _ _ h
    rw [h1, h2]; exact ih

/-- Where a run ended that failed: at the end of the input, or in front of a token, and then the tokens after it
do not matter. -/
inductive StopsAt (t : Tabler T) (maps : ReductMap M T) (toks : List (Token M T)) (m n : Nat) (d : Dfa M T)
    (o : Out (Except (Error T) Unit)) : Prop
  | atEnd {e : Dfa M T} : Reached t maps toks e → e.buffer = [] →
      (∀ x exp, o = .ok (.error (.unexpectedToken x exp)) → x = e.eof ∨ ReducesTo e.table x) →
      StopsAt t maps toks m n d o
  | before {e : Dfa M T} {u rest : List (Token M T)} {tok : Token M T} : Reached t maps toks e →
      e.buffer = tok :: rest → d.buffer = u ++ tok :: rest →
      (∀ x exp, o = .ok (.error (.unexpectedToken x exp)) → x = tok.ty ∨ ReducesTo e.table x) →
      (∀ v, Out.mapOk Prod.snd (Dfa.trace id m n { d with buffer := u ++ tok :: v }) = o) →
      StopsAt t maps toks m n d o

theorem trace_stops {t : Tabler T} {maps : ReductMap M T} {toks : List (Token M T)} (m n : Nat) :
    ∀ (d : Dfa M T), Reached t maps toks d → d.finished = false → ∀ o, o ≠ .fuel → (∀ u, o ≠ .ok (.ok u)) →
      Out.mapOk Prod.snd (Dfa.trace id m n d) = o → StopsAt t maps toks m n d o := by
  induction n with
  | zero => intro d _ _ o ho _ h; exact absurd h.symm ho
  | succ n ih =>
    intro d hR hf o ho1 ho2 h
    have hunf : ∀ (b : List (Token M T)), Dfa.trace id m (n + 1) { d with buffer := b } =
        (Dfa.travel m { d with buffer := b } (Dfa.symbol { d with buffer := b }) >>= fun r =>
          match r with
          | (d, .error e) => pure (d, .error e)
          | (d, .ok ()) => Dfa.trace id m n d) := by
      intro b
      simp only [Dfa.trace, hf, id]
      rfl
    have hd := hunf d.buffer
    rw [show ({ d with buffer := d.buffer } : Dfa M T) = d from rfl] at hd
    rw [hd] at h
    have hnil : d.buffer = [] → d.symbol = d.eof := fun e => by unfold Dfa.symbol; rw [e]
    have hcons : ∀ tok rest v, d.buffer = tok :: rest →
        d.symbol = tok.ty ∧ Dfa.symbol { d with buffer := tok :: v } = tok.ty := fun tok rest v e => by
      unfold Dfa.symbol; rw [e]; exact ⟨rfl, rfl⟩
    cases ht : Dfa.travel m d d.symbol with
    | fuel => rw [ht] at h; exact absurd h.symm ho1
    | panic p =>
      rw [ht] at h
      have h : Out.panic p = o := h
      subst h
      cases hb : d.buffer with
      | nil => exact .atEnd hR hb (fun x exp e => by cases e)
      | cons tok rest =>
        refine .before (u := []) hR hb hb (fun x exp e => by cases e) (fun v => ?_)
        obtain ⟨s1, s2⟩ := hcons tok rest v hb
        rw [List.nil_append, hunf, s2, ← s1]
        have := travel_rest (v := rest) (v' := v) m d [] d.symbol hb
        rw [ht] at this
        simp only [List.cons_append, List.nil_append] at this
        generalize Dfa.travel m { d with buffer := tok :: v } d.symbol = y at this ⊢
        cases this
        rfl
    | ok r =>
      obtain ⟨d1, r⟩ := r
      obtain ⟨k1, ⟨b0, k2⟩, k3⟩ := travel_buffer m d d1 _ r ht
      cases r with
      | error e =>
        rw [ht] at h
        have h : Out.ok (Except.error e) = o := h
        subst h
        cases hb : d.buffer with
        | nil =>
          refine .atEnd hR hb (fun x exp e => ?_)
          cases e
          rw [← hnil hb]
          exact (k3 x exp rfl).2
        | cons tok rest =>
          refine .before (u := []) hR hb hb (fun x exp e => ?_) (fun v => ?_)
          · cases e
            rw [← (hcons tok rest [] hb).1]
            exact (k3 x exp rfl).2
          · obtain ⟨s1, s2⟩ := hcons tok rest v hb
            rw [List.nil_append, hunf, s2, ← s1]
            have := travel_rest (v := rest) (v' := v) m d [] d.symbol hb
            rw [ht] at this
            simp only [List.cons_append, List.nil_append] at this
            generalize Dfa.travel m { d with buffer := tok :: v } d.symbol = y at this ⊢
            cases this with
            | @ok _ r' hr =>
              obtain ⟨d', r'⟩ := r'
              obtain ⟨h1, _⟩ := hr
              simp only at h1
              subst h1
              rfl
      | ok u =>
        rw [ht] at h
        have h : Out.mapOk Prod.snd (Dfa.trace id m n d1) = o := h
        have hf1 : d1.finished = false := by
          cases hf1 : d1.finished with
          | false => rfl
          | true =>
            cases n with
            | zero => exact absurd h.symm ho1
            | succ n => simp only [Dfa.trace, hf1] at h; exact absurd h.symm (ho2 ())
        cases ih d1 (.step hR hf ht) hf1 o ho1 ho2 h with
        | atEnd e1 e2 e3 => exact .atEnd e1 e2 e3
        | @before e u1 rest1 tok1 e1 e2 e3 e4 e5 =>
          refine .before (u := b0 ++ u1) e1 e2 (by rw [k2, e3, List.append_assoc]) e4 (fun v => ?_)
          have hbuf : d.buffer = (b0 ++ u1 ++ [tok1]) ++ rest1 := by rw [k2, e3]; simp
          have hv : b0 ++ u1 ++ tok1 :: v = (b0 ++ u1 ++ [tok1]) ++ v := by simp
          rw [hv]
          obtain ⟨tok, b, hB⟩ : ∃ tok b, b0 ++ u1 ++ [tok1] = tok :: b := by
            cases hB : b0 ++ u1 ++ [tok1] with
            | nil => simp at hB
            | cons tok b => exact ⟨tok, b, rfl⟩
          rw [hB] at hbuf ⊢
          obtain ⟨s1, s2⟩ := hcons tok (b ++ rest1) (b ++ v) hbuf
          rw [hunf, List.cons_append, s2, ← s1]
          have := travel_rest (v := rest1) (v' := v) m d b d.symbol hbuf
          rw [ht] at this
          simp only [List.cons_append] at this
          generalize Dfa.travel m { d with buffer := tok :: (b ++ v) } d.symbol = y at this ⊢
          cases this with
          | @ok _ r' hr =>
            obtain ⟨d', r'⟩ := r'
            obtain ⟨h1, b2, h2, h3⟩ := hr
            simp only at h1 h2 h3
            subst h1 h3
            have hb2 : b2 = u1 ++ [tok1] := by
              rw [e3, show u1 ++ tok1 :: rest1 = (u1 ++ [tok1]) ++ rest1 by simp] at h2
              exact (List.append_cancel_right h2).symm
            subst hb2
            have := e5 v
            rw [show u1 ++ tok1 :: v = u1 ++ [tok1] ++ v by simp] at this
            exact this

end Lrp
