import Verif.Spec.Loose
import Verif.Proofs.Knuth
import Verif.Proofs.Folding
import Verif.Proofs.Rename

/-! FOLLOW in release builds, exactly. -/

set_option linter.unusedSectionVars false

namespace Lrp
open Spec

variable {T : Type} [LinOrd T] [DecidableEq T] {D : Decls T} {S eof : T} {g : Grammar T}

namespace Tabler

theorem followEdge_after {first : Table T} {A B : T} (hB : Nonterminal D B) :
    FollowEdge D S eof first A B ↔ AfterGraph D S eof (Rest D first) A B := by
  unfold AfterGraph
  constructor
  · intro h
    refine ⟨hB, ?_⟩
    rcases h with h | ⟨C, i, body, hp, h | h⟩
    · exact Or.inl h
    · obtain ⟨b, ⟨u, v, rfl⟩, hA, h⟩ := h
      rcases h with ⟨h, rfl⟩ | ⟨h1, h2⟩
      · exact absurd h (not_terminal_iff.mpr hB)
      · exact Or.inr (Or.inr ⟨C, i, u, b, v, hp, hA, h1, h2, not_terminal_iff.mpr hB⟩)
    · obtain ⟨h1, h2, h5, rfl⟩ := h
      obtain ⟨ys, rfl⟩ := List.getLast?_eq_some_iff.mp h1
      exact Or.inr (Or.inl ⟨h5, h2, i, ys, hp⟩)
  · rintro ⟨_, h⟩
    rcases h with h | ⟨h5, h2, i, ys, hp⟩ | ⟨C, i, u, b, v, hp, hA, hb, h2, _⟩
    · exact Or.inl h
    · exact Or.inr ⟨B, i, _, hp, Or.inr ⟨by simp, h2, h5, rfl⟩⟩
    · exact Or.inr ⟨C, i, _, hp, Or.inl ⟨b, ⟨u, v, rfl⟩, hA, Or.inr ⟨hb, h2⟩⟩⟩

/-- The terminals of FOLLOW. -/
theorem Of.loosely {t : Tabler T} (h : t.Of D S eof) (he : Terminal D eof)
    (hreach : ∀ A, Nonterminal D A → Reachable D S A) {A x : T} (hA : Nonterminal D A) (hx : Terminal D x) :
    Has t.follow A x ↔ LooselyFollows D S eof (Rest D t.first) A x := by
  rw [h.follow A x hx]
  constructor
  · have ctx : ∀ {B}, Nonterminal D B → ∃ p q, Derives D [S, eof] (p ++ B :: q) := by
      intro B hB
      obtain ⟨p, q, hd⟩ := hreach B hB
      exact ⟨p, q ++ [eof], by simpa using hd.ctx [] [eof]⟩
    intro hr
    clear hA
    induction hr with
    | @base A x h' =>
      refine .follow ?_
      rcases h' with ⟨rfl, rfl⟩ | ⟨B, i, body, hp, h' | h'⟩
      · exact ⟨[], [], .refl _⟩
      · obtain ⟨b, ⟨u, v, rfl⟩, _, h'⟩ := h'
        obtain ⟨p, q, hd⟩ := ctx hp.nonterminal
        have hd2 := hd.trans (.single (.mk p q hp))
        rcases h' with ⟨_, rfl⟩ | ⟨_, h'⟩
        · exact ⟨p ++ u, v ++ q, by simpa using hd2⟩
        · obtain ⟨w, hw⟩ := h.firstAny _ _ h'
          have := hw.ctx (p ++ u ++ [A]) (v ++ q)
          refine ⟨p ++ u, w ++ v ++ q, ?_⟩
          simp only [List.append_assoc, List.cons_append, List.nil_append] at hd2 this ⊢
          exact hd2.trans this
      · obtain ⟨_, _, _, rfl⟩ := h'
        exact absurd hx hp.not_terminal
    | @cons A B x h' hB _ ih => exact .after ((followEdge_after (not_terminal_iff.mp hB)).mp h') (ih hx)
  · intro hl
    induction hl with
    | follow hf =>
      exact follow_complete h.noEmpty he (fun A t hA ht h' => (h.first A t hA ht).mpr h') hA hx hf
    | after ha _ ih =>
      exact .cons ((followEdge_after ha.1).mpr ha) (not_terminal_iff.mpr ha.1) (ih ha.1 hx)

/-- All of FOLLOW, in any build. -/
theorem followed_iff (hg : g.Of D S eof) {dbg : Bool} {n : Nat} {t : Tabler T} (ht : new dbg n g = .ok t)
    (he : Terminal D eof) (hreach : ∀ A, Nonterminal D A → Reachable D S A) {A x : T} (hA : Nonterminal D A) :
    Has t.follow A x ↔ Followed D S eof A x := by
  obtain ⟨h1, h2⟩ := new_settles hg ht
  have ho := of_new hg ht
  constructor
  · intro hx
    refine ⟨_, _, h1, h2, ?_⟩
    by_cases hT : Terminal D x
    · exact .inl ⟨hT, (ho.loosely he hreach hA hT).mp hx⟩
    · exact .inr ⟨hx, hT⟩
  · rintro ⟨L, R, k1, k2, hx⟩
    obtain rfl := settlesTo_unique k1 h1
    obtain rfl := settlesTo_unique k2 h2
    rcases hx with ⟨hT, hx⟩ | hx
    · exact (ho.loosely he hreach hA hT).mpr hx
    · exact hx.1

end Tabler

/-! ### Conflicts -/

section
variable {b0 : List T} {states : List (State T)} {acts : ActTable T} {next : State T → T → Option Nat}
  {red : Position T → T → Prop} {F : T → T → Prop}

theorem Looks.slr1For (h : Auto D S b0 states acts next red) (hl : Looks D S eof b0 states next red)
    (he : Terminal D eof) (hS : SingleStart D S)
    (hf : ∀ {i : Nat} {s p x}, states[i]? = some s → p ∈ s → F p.rule x → red p x)
    (hno : ∀ i x a b, cellAt acts i x ≠ some (.conflict a b)) : SLR1For D S F := by
  constructor
  · intro γ A i β B j δ x hA hB fA fB
    obtain ⟨i1, st1, s1, p, g1, g2, g3, g4, g5, g6⟩ := Looks.valid h hl he hS hA
    obtain ⟨i2, st2, s2, q, k1, k2, k3, k4, k5, k6⟩ := Looks.valid h hl he hS hB
    have e := g1.unique k1
    injection e with e _
    subst e
    rw [g2] at k2; cases k2
    have tp : p.top = none := by show p.seq.1[p.point]? = none; rw [g5, g6]; simp
    have tq : q.top = none := by show q.seq.1[q.point]? = none; rw [k5, k6]; simp
    have := h.dec_unique hno g2 (dec_of_complete g3 tp (hf g2 g3 (g4 ▸ fA)))
      (dec_of_complete k3 tq (hf g2 k3 (k4 ▸ fB)))
    rw [g4, g5, k4, k5] at this
    by_cases hAS : A = S <;> by_cases hBS : B = S <;> simp [hAS, hBS] at this
    · subst hAS; subst hBS
      exact ⟨rfl, (hS i _ hA.1).trans (hS j _ hB.1).symm⟩
    · exact ⟨this.1, this.2.2⟩
  · intro γ A i β B j δ₁ a δ₂ hA hB fA
    obtain ⟨i1, st1, s1, p, g1, g2, g3, g4, g5, g6⟩ := Looks.valid h hl he hS hA
    obtain ⟨i2, st2, s2, q, k1, k2, k3, k4, k5, k6⟩ := Looks.valid h hl he hS hB
    have e := g1.unique k1
    injection e with e _
    subst e
    rw [g2] at k2; cases k2
    have tp : p.top = none := by show p.seq.1[p.point]? = none; rw [g5, g6]; simp
    have tq : q.top = some a := by show q.seq.1[q.point]? = some a; rw [k5, k6]; simp
    obtain ⟨m, _, hm, _⟩ := h.edge g2 k3 tq
    by_cases ha : Terminal D a
    · have d1 : Dec D S (next s1) red s1 a (.shift m) := Or.inl ⟨q, k3, tq, m, hm, Or.inl ⟨ha, rfl⟩⟩
      have := h.dec_unique hno g2 d1 (dec_of_complete g3 tp (hf g2 g3 (g4 ▸ fA)))
      split at this <;> simp at this
    · have d1 : Dec D S (next s1) red s1 a (.goto m) :=
        Or.inl ⟨q, k3, tq, m, hm, Or.inr ⟨not_terminal_iff.mp ha, rfl⟩⟩
      have := h.dec_unique hno g2 d1 (dec_of_complete g3 tp (hf g2 g3 (g4 ▸ fA)))
      split at this <;> simp at this

theorem Auto.slr_no_conflict_for (h : Auto D S b0 states acts next red) (hpr : AllProductive D)
    (hr : Reaches states next)
    (hf : ∀ {i : Nat} {s p x}, states[i]? = some s → p ∈ s → red p x → F p.rule x)
    (hlr : SLR1For D S F) : ∀ i x a b, cellAt acts i x ≠ some (.conflict a b) := by
  intro i x a b hc
  obtain ⟨row, hrow, hc⟩ := Option.bind_eq_some_iff.mp (show acts[i]?.bind _ = _ from hc)
  have hi : i < states.length := by rw [← h.len]; exact (List.getElem?_eq_some_iff.mp hrow).1
  have hs : states[i]? = some states[i] := List.getElem?_eq_getElem hi
  generalize states[i] = s at hs
  obtain ⟨a1, a2, d1, d2, hne⟩ := (((h.cell hs hrow).2 x).conflict _ hc).mp ⟨a, b, rfl⟩
  obtain ⟨st, syms, hp⟩ := hr i s hs
  have item : ∀ {p : Position T}, p ∈ s → ValidItem D S syms.reverse p.rule p.seq.2
      (p.seq.1.take p.point) (p.seq.1.drop p.point) := by
    intro p hps
    obtain ⟨w, hw, hd⟩ := h.rviable hpr hp rfl hs hps
    refine ⟨by rw [List.take_append_drop]; exact (h.prod hs hps).1, _, w, h.split_syms hp hs hps, hw, hd⟩
  have comp : ∀ {p : Position T}, p ∈ s → p.top = none →
      ValidItem D S syms.reverse p.rule p.seq.2 p.seq.1 [] := by
    intro p hps ht
    have := item hps
    rwa [List.take_of_length_le (top_none ht), List.drop_eq_nil_of_le (top_none ht)] at this
  have mixed : (∃ p ∈ s, p.top = some x) → (∃ p ∈ s, p.top = none ∧ red p x) → False := by
    rintro ⟨q, hq, hqt⟩ ⟨p, hps, ht, hrd⟩
    have hv := item hq
    have e : q.seq.1.drop q.point = x :: q.seq.1.drop (q.point + 1) := by
      rw [List.drop_eq_getElem_cons (top_lt hqt)]
      congr 1
      have : q.seq.1[q.point]? = some x := hqt
      rw [List.getElem?_eq_getElem (top_lt hqt)] at this
      exact Option.some.inj this
    rw [e] at hv
    exact hlr.2 _ _ _ _ _ _ _ _ _ (comp hps ht) hv (hf hs hps hrd)
  have hgo : ∀ {a : Action T}, Dec D S (next s) red s x a →
      (∃ j, next s x = some j ∧ (Terminal D x ∧ a = .shift j ∨ Nonterminal D x ∧ a = .goto j) ∧
        ∃ p ∈ s, p.top = some x) ∨
      (∃ p ∈ s, p.top = none ∧ red p x ∧ a = if p.rule = S then .acc else .reduce p.rule p.seq) := by
    rintro a (⟨p, hp, ht, j, hj, hk⟩ | ⟨p, hp, ht, hr, hk⟩)
    · exact Or.inl ⟨j, hj, hk, p, hp, ht⟩
    · refine Or.inr ⟨p, hp, ht, hr, ?_⟩
      rcases hk with ⟨e, rfl⟩ | ⟨e, rfl⟩
      · rw [if_pos e]
      · rw [if_neg e]
  rcases hgo d1 with ⟨j, g1, g2, g3⟩ | ⟨p, hp1, ht1, hr1, e1⟩ <;>
    rcases hgo d2 with ⟨m, k1, k2, k3⟩ | ⟨q, hp2, ht2, hr2, e2⟩
  · rw [g1] at k1; cases k1
    rcases g2 with ⟨g2, rfl⟩ | ⟨g2, rfl⟩ <;> rcases k2 with ⟨k2, rfl⟩ | ⟨k2, rfl⟩
    · exact hne rfl
    · exact absurd g2 (not_terminal_iff.mpr k2)
    · exact absurd k2 (not_terminal_iff.mpr g2)
    · exact hne rfl
  · exact mixed g3 ⟨q, hp2, ht2, hr2⟩
  · exact mixed k3 ⟨p, hp1, ht1, hr1⟩
  · obtain ⟨r1, r2⟩ := hlr.1 _ _ _ _ _ _ _ x (comp hp1 ht1) (comp hp2 ht2) (hf hs hp1 hr1) (hf hs hp2 hr2)
    apply hne
    have : p.seq = q.seq := by
      refine Prod.ext ?_ r2
      have k5 := (h.prod hs hp1).1
      rw [r1, r2] at k5
      exact k5.unique (h.prod hs hp2).1
    rw [e1, e2, r1, this]

end

/-! ### Renaming -/

namespace Spec
variable {T' : Type} [LinOrd T'] [DecidableEq T'] {f : T → T'}

/-- The graph with its vertices renamed. -/
def Image (f : T → T') (E : T → T → Prop) (A' B' : T') : Prop := ∃ A B, A' = f A ∧ B' = f B ∧ E A B

theorem image_iff (hf : Injective f) {E : T → T → Prop} {A B : T} : Image f E (f A) (f B) ↔ E A B := by
  refine ⟨?_, fun h => ⟨A, B, rfl, rfl, h⟩⟩
  rintro ⟨A', B', e1, e2, h⟩
  rw [hf _ _ e1, hf _ _ e2]; exact h

theorem fold_image (hf : Injective f) {E : T → T → Prop} (n : Nat) :
    Fold (Image f E) n = Image f (Fold E n) := by
  induction n with
  | zero => rfl
  | succ n ih =>
    refine fold_congr (fun A' B' => ?_)
    show (A' ≠ B' ∧ ∃ C', Fold (Image f E) n A' C' ∧ Fold (Image f E) n C' B') ↔ _
    rw [ih]
    constructor
    · rintro ⟨hne, C', ⟨A, C, rfl, rfl, h1⟩, C2, B, e, rfl, h2⟩
      obtain rfl := hf _ _ e
      exact ⟨A, B, rfl, rfl, fun e => hne (by rw [e]), C, h1, h2⟩
    · rintro ⟨A, B, rfl, rfl, hne, C, h1, h2⟩
      exact ⟨fun e => hne (hf _ _ e), f C, ⟨_, _, rfl, rfl, h1⟩, _, _, rfl, rfl, h2⟩

theorem settlesTo_image (hf : Injective f) {E L : T → T → Prop} (h : SettlesTo E L) :
    SettlesTo (Image f E) (Image f L) := by
  obtain ⟨n, hn⟩ := h
  have e1 : Fold E n = L := fold_congr (fun A B => (hn A B).1)
  have e2 : Fold E (n + 1) = L := fold_congr (fun A B => (hn A B).2)
  refine ⟨n, fun A B => ?_⟩
  rw [fold_image hf, fold_image hf, e1, e2]
  exact ⟨Iff.rfl, Iff.rfl⟩

theorem settlesTo_image_inv (hf : Injective f) {E : T → T → Prop} {L' : T' → T' → Prop}
    (h : SettlesTo (Image f E) L') : ∃ L, SettlesTo E L ∧ L' = Image f L := by
  obtain ⟨n, hn⟩ := id h
  have hs : SettlesTo E (fun A B => L' (f A) (f B)) := by
    refine ⟨n, fun A B => ?_⟩
    have := hn (f A) (f B)
    rw [fold_image hf, fold_image hf, image_iff hf, image_iff hf] at this
    exact this
  exact ⟨_, hs, settlesTo_unique h (settlesTo_image hf hs)⟩

theorem nonterminal_rename_iff (hf : Injective f) {A : T} : Nonterminal (renamed f D) (f A) ↔ Nonterminal D A := by
  rw [← not_terminal_iff, ← not_terminal_iff, terminal_rename hf]

theorem leftGraph_rename (hf : Injective f) :
    Loopless (LeftGraph (renamed f D)) = Image f (Loopless (LeftGraph D)) := by
  refine fold_congr (fun A' B' => ?_)
  constructor
  · rintro ⟨hne, hB, i, b', hp⟩
    obtain ⟨A, b, rfl, e, hp'⟩ := isProd_rename_inv hp
    obtain ⟨B, b2, rfl, rfl, rfl⟩ := List.map_eq_cons_iff.mp e.symm
    exact ⟨A, B, rfl, rfl, fun e => hne (by rw [e]), (nonterminal_rename_iff hf).mp hB, i, b2, hp'⟩
  · rintro ⟨A, B, rfl, rfl, hne, hB, i, b, hp⟩
    exact ⟨fun e => hne (hf _ _ e), (nonterminal_rename_iff hf).mpr hB, i, b.map f, isProd_rename hf hp⟩

theorem afterGraph_rename (hf : Injective f) {L : T → T → Prop} :
    AfterGraph (renamed f D) (f S) (f eof) (Image f L) = Image f (AfterGraph D S eof L) := by
  refine fold_congr (fun A' B' => ?_)
  constructor
  · rintro ⟨hB, h⟩
    obtain ⟨B, rfl, hB'⟩ := nonterminal_rename hB
    rcases h with ⟨rfl, e⟩ | ⟨hne, hA, i, b', hp⟩ | ⟨C', i, u', b', v', hp, hA, hb, hL⟩
    · exact ⟨S, B, rfl, rfl, hB', .inl ⟨rfl, hf _ _ e⟩⟩
    · obtain ⟨B2, body, e, e2, hp'⟩ := isProd_rename_inv hp
      obtain rfl := hf _ _ e
      obtain ⟨b, r, rfl, rfl, e3⟩ := map_append_inv e2.symm
      obtain ⟨A, r2, rfl, rfl, e4⟩ := List.map_eq_cons_iff.mp e3
      obtain rfl : r2 = [] := by simpa using e4
      exact ⟨A, B, rfl, rfl, hB', .inr (.inl ⟨fun e => hne (by rw [e]), (nonterminal_rename_iff hf).mp hA, i, b,
        hp'⟩)⟩
    · obtain ⟨C, body, rfl, e2, hp'⟩ := isProd_rename_inv hp
      obtain ⟨u, r, rfl, rfl, e3⟩ := map_append_inv e2.symm
      obtain ⟨A, r2, rfl, rfl, e4⟩ := List.map_eq_cons_iff.mp e3
      obtain ⟨b, v, rfl, rfl, rfl⟩ := List.map_eq_cons_iff.mp e4
      exact ⟨A, B, rfl, rfl, hB', .inr (.inr ⟨C, i, u, b, v, hp', (nonterminal_rename_iff hf).mp hA,
        (nonterminal_rename_iff hf).mp hb, (image_iff hf).mp hL⟩)⟩
  · rintro ⟨A, B, rfl, rfl, hB, h⟩
    refine ⟨(nonterminal_rename_iff hf).mpr hB, ?_⟩
    rcases h with ⟨rfl, rfl⟩ | ⟨hne, hA, i, b, hp⟩ | ⟨C, i, u, b, v, hp, hA, hb, hL⟩
    · exact .inl ⟨rfl, rfl⟩
    · exact .inr (.inl ⟨fun e => hne (hf _ _ e), (nonterminal_rename_iff hf).mpr hA, i, b.map f,
        by simpa using isProd_rename hf hp⟩)
    · exact .inr (.inr ⟨f C, i, u.map f, f b, v.map f, by simpa using isProd_rename hf hp,
        (nonterminal_rename_iff hf).mpr hA, (nonterminal_rename_iff hf).mpr hb, (image_iff hf).mpr hL⟩)

theorem loosely_rename (hf : Injective f) {L : T → T → Prop} {A x : T}
    (h : LooselyFollows D S eof L A x) :
    LooselyFollows (renamed f D) (f S) (f eof) (Image f L) (f A) (f x) := by
  induction h with
  | follow h => exact .follow ((inFollow_rename hf).mpr h)
  | after h _ ih =>
    refine .after (B := f _) ?_ ih
    rw [afterGraph_rename hf]
    exact ⟨_, _, rfl, rfl, h⟩

theorem loosely_rename_inv (hf : Injective f) {L : T → T → Prop} {A : T} {x' : T'}
    (h : LooselyFollows (renamed f D) (f S) (f eof) (Image f L) (f A) x') :
    ∃ x, x' = f x ∧ LooselyFollows D S eof L A x := by
  generalize hA' : f A = A' at h
  induction h generalizing A with
  | follow h =>
    subst hA'
    obtain ⟨x, rfl⟩ := inFollow_rename_inv hf h
    exact ⟨x, rfl, .follow ((inFollow_rename hf).mp h)⟩
  | after h _ ih =>
    subst hA'
    rw [afterGraph_rename hf] at h
    obtain ⟨A2, B, e, rfl, h⟩ := h
    obtain rfl := hf _ _ e
    obtain ⟨x, rfl, hx⟩ := ih rfl
    exact ⟨x, rfl, .after h hx⟩

theorem followed_rename (hf : Injective f) {A : T} {x' : T'} :
    Followed (renamed f D) (f S) (f eof) (f A) x' ↔ ∃ x, x' = f x ∧ Followed D S eof A x := by
  constructor
  · rintro ⟨L', R', h1, h2, h3⟩
    rw [leftGraph_rename hf] at h1
    obtain ⟨L, k1, rfl⟩ := settlesTo_image_inv hf h1
    rw [afterGraph_rename hf] at h2
    obtain ⟨R, k2, rfl⟩ := settlesTo_image_inv hf h2
    rcases h3 with ⟨h3, h4⟩ | ⟨A2, x, e, rfl, h3⟩
    · obtain ⟨x, rfl, h5⟩ := loosely_rename_inv hf h4
      exact ⟨x, rfl, L, R, k1, k2, .inl ⟨(terminal_rename hf).mp h3, h5⟩⟩
    · obtain rfl := hf _ _ e
      exact ⟨x, rfl, L, R, k1, k2, .inr h3⟩
  · rintro ⟨x, rfl, L, R, h1, h2, h3⟩
    refine ⟨Image f L, Image f R, ?_, ?_, ?_⟩
    · rw [leftGraph_rename hf]; exact settlesTo_image hf h1
    · rw [afterGraph_rename hf]; exact settlesTo_image hf h2
    · rcases h3 with ⟨h3, h4⟩ | h3
      · exact .inl ⟨(terminal_rename hf).mpr h3, loosely_rename hf h4⟩
      · exact .inr ⟨A, x, rfl, rfl, h3⟩

theorem slr1For_rename (hf : Injective f) {F : T → T → Prop} {F' : T' → T' → Prop}
    (hF : ∀ A x', F' (f A) x' ↔ ∃ x, x' = f x ∧ F A x) :
    SLR1For (renamed f D) (f S) F' ↔ SLR1For D S F := by
  have hF' : ∀ {A x}, F' (f A) (f x) ↔ F A x := by
    intro A x
    rw [hF]
    exact ⟨fun ⟨y, e, h⟩ => hf _ _ e ▸ h, fun h => ⟨x, rfl, h⟩⟩
  constructor
  · rintro ⟨h1, h2⟩
    constructor
    · intro γ A i β B j δ x hA hB fA fB
      have := h1 (γ.map f) (f A) i (β.map f) (f B) j (δ.map f) (f x) (validItem_rename hf hA)
        (validItem_rename hf hB) (hF'.mpr fA) (hF'.mpr fB)
      exact ⟨hf _ _ this.1, this.2⟩
    · intro γ A i β B j δ₁ a δ₂ hA hB fA
      exact h2 (γ.map f) (f A) i (β.map f) (f B) j (δ₁.map f) (f a) (δ₂.map f) (validItem_rename hf hA)
        (validItem_rename hf hB) (hF'.mpr fA)
  · rintro ⟨h1, h2⟩
    constructor
    · intro γ A i β B j δ x hA hB fA fB
      obtain ⟨γ, A, β, e0, rfl, rfl, rfl, e1, gA⟩ := validItem_rename_inv hf hA
      obtain ⟨γ', B, δ, e0', e2, rfl, rfl, e3, gB⟩ := validItem_rename_inv hf hB
      obtain rfl := map_inj hf e2
      obtain ⟨x, rfl, fA'⟩ := (hF _ _).mp fA
      have e1 : e0 = [] := by simpa using e1.symm
      have e3 : e0' = [] := by simpa using e3.symm
      subst e1; subst e3
      obtain ⟨r1, r2⟩ := h1 γ A i β B j δ x gA gB fA' (hF'.mp fB)
      exact ⟨by rw [r1], r2⟩
    · intro γ A i β B j δ₁ a δ₂ hA hB fA
      obtain ⟨γ, A, β, e0, rfl, rfl, rfl, e1, gA⟩ := validItem_rename_inv hf hA
      obtain ⟨γ', B, δ, e0', e2, rfl, rfl, e3, gB⟩ := validItem_rename_inv hf hB
      obtain rfl := map_inj hf e2
      obtain ⟨a, δ₂, rfl, rfl, rfl⟩ := List.map_eq_cons_iff.mp e3.symm
      have e1 : e0 = [] := by simpa using e1.symm
      subst e1
      exact h2 γ A i β B j δ a δ₂ gA gB (hF'.mp fA)

end Spec

end Lrp
