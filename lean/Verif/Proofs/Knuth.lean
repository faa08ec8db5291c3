import Verif.Spec.Knuth
import Verif.Proofs.Power

/-!
An automaton whose lookaheads are large enough and that has no conflicts makes the grammar LR(1);
conversely the canonical LR(1) automaton of an LR(1) grammar has no conflicts.
-/

set_option linter.unusedSectionVars false

namespace Lrp
open Spec
variable {T : Type} [LinOrd T] [DecidableEq T]

theorem terminals_append {D : Decls T} {u v : List T} :
    Terminals D (u ++ v) ↔ Terminals D u ∧ Terminals D v := by
  simp only [Terminals, List.mem_append]
  exact ⟨fun h => ⟨fun t ht => h t (Or.inl ht), fun t ht => h t (Or.inr ht)⟩,
    fun h t ht => ht.elim (h.1 t) (h.2 t)⟩

theorem terminals_cons {D : Decls T} {a : T} {v : List T} :
    Terminals D (a :: v) ↔ Terminal D a ∧ Terminals D v := by
  simp [Terminals]

/-! ### Rightmost derivations -/

namespace Spec.RDerives
variable {D : Decls T}

theorem trans {a b c : List T} (h : RDerives D a b) (h' : RDerives D b c) : RDerives D a c := by
  induction h' with
  | refl => exact h
  | tail _ s ih => exact .tail ih s

theorem ctx {a b : List T} (h : RDerives D a b) (u : List T) {v : List T} (hv : Terminals D v) :
    RDerives D (u ++ a ++ v) (u ++ b ++ v) := by
  induction h with
  | refl => exact .refl
  | tail _ s ih =>
    refine .tail ih ?_
    cases s with
    | mk x y hp hy =>
      have := RStep.mk (u ++ x) (y ++ v) hp (terminals_append.mpr ⟨hy, hv⟩)
      simpa [List.append_assoc] using this

/-- The yield of trees, in a context. -/
theorem of_forest {M : Type} (cs : List (Tree M T)) (hc : ∀ c ∈ cs, Tree.Valid D c)
    (ih : ∀ c ∈ cs, RDerives D [c.root] (c.yield.map Token.ty)) :
    RDerives D (cs.map Tree.root) ((Tree.yields cs).map Token.ty) := by
  induction cs with
  | nil => exact .refl
  | cons c cs ihs =>
    have h1 := ihs (fun c hc' => hc c (by simp [hc'])) (fun c hc' => ih c (by simp [hc']))
    have h2 := ctx h1 [c.root] (v := []) (by simp [Terminals])
    have ht : Terminals D ((Tree.yields cs).map Token.ty) := by
      intro t ht
      obtain ⟨tok, h3, rfl⟩ := List.mem_map.mp ht
      exact Tree.forest_terminals (fun c hc' => hc c (by simp [hc'])) tok h3
    have h3 := ctx (ih c (by simp)) [] ht
    simp only [Tree.yields_cons, List.map_cons, List.map_append]
    exact trans (by simpa using h2) (by simpa using h3)

theorem of_tree {M : Type} {t : Tree M T} (h : Tree.Valid D t) :
    RDerives D [t.root] (t.yield.map Token.ty) := by
  induction t using Tree.ind with
  | leaf tok => simp [Tree.root]; exact .refl
  | node A i cs ih =>
    cases h with
    | node hp hc =>
      have h1 := of_forest cs hc (fun c h => ih c h (hc c h))
      have h2 : RStep D [A] (cs.map Tree.root) := by
        have := RStep.mk [] [] hp (by simp [Terminals])
        simpa using this
      simp only [Tree.yield_node, Tree.root]
      exact trans (.tail .refl h2) h1

/-- What derives a terminal string derives it from the right. -/
theorem of_derives {z w : List T} (h : Derives D z w) (hw : Terminals D w) : RDerives D z w := by
  have e : (w.map (fun t => (⟨(), t⟩ : Token Unit T))).map Token.ty = w := by
    simp [List.map_map, Function.comp_def]
  have := Tree.forest_of_derives (M := Unit) (D := D) (a := z)
    (toks := w.map (fun t => ⟨(), t⟩)) (by rw [e]; exact h) (by
      intro tok ht
      obtain ⟨t, h1, rfl⟩ := List.mem_map.mp ht
      exact hw t h1)
  obtain ⟨cs, h1, h2, h3⟩ := this
  have := of_forest cs h2 (fun c hc => of_tree (h2 c hc))
  rw [h1, h3, e] at this
  exact this

end Spec.RDerives

/-- Every nonempty sentential form begins, after the end marker is added, with some symbol. -/
theorem head_append_eof {eof : T} (v : List T) : ∃ Z r, v ++ [eof] = Z :: r := by
  cases v with
  | nil => exact ⟨eof, [], rfl⟩
  | cons Z r => exact ⟨Z, r ++ [eof], rfl⟩

section
variable {D : Decls T} {S eof : T} {b0 : List T} {states : List (State T)} {acts : ActTable T}
  {next : State T → T → Option Nat} {red red₀ : Position T → T → Prop}

/-! ### Valid items are in the automaton -/

/-- Reading part of a body. -/
theorem Looks.read (h : Auto D S b0 states acts next red₀) (hl : Looks D S eof b0 states next red)
    {y : T} (hy : Terminal D y) : ∀ (b1 b2 : List T) {i : Nat} {st : List Nat} {syms : List T}
    {s : State T} {q : Position T}, Path states next (i :: st) syms → states[i]? = some s → q ∈ s →
    q.seq.1.drop q.point = b1 ++ b2 → red q y →
    ∃ i' st' s' q', Path states next (i' :: st') (b1.reverse ++ syms) ∧ states[i']? = some s' ∧
      q' ∈ s' ∧ q'.rule = q.rule ∧ q'.seq = q.seq ∧ q'.point = q.point + b1.length ∧ red q' y := by
  intro b1
  induction b1 with
  | nil =>
    intro b2 i st syms s q hp hs hq _ hr
    exact ⟨i, st, s, q, by simpa using hp, hs, hq, rfl, rfl, rfl, hr⟩
  | cons X b1 ih =>
    intro b2 i st syms s q hp hs hq hd hr
    have ht : q.top = some X := by
      show q.seq.1[q.point]? = some X
      have := congrArg (fun l => l[0]?) hd
      simpa [List.getElem?_drop] using this
    obtain ⟨j, s', hj, _, hs', _⟩ := h.edge hs hq ht
    obtain ⟨q', hq', hb, hr'⟩ := hl.adv hs hq ht hj hs'
    have hd' : q'.seq.1.drop q'.point = b1 ++ b2 := by
      have e1 : q'.seq = q.seq := hb.2.1
      have e2 : q'.point = q.point + 1 := hb.2.2
      rw [e1, e2, ← List.drop_drop, hd]
      rfl
    obtain ⟨i', st', s'', q'', g1, g2, g3, g4, g5, g6, g7⟩ :=
      ih b2 (.cons hp hs hq ht hj) hs' hq' hd' (hr' y hy hr)
    refine ⟨i', st', s'', q'', by simpa using g1, g2, g3, g4.trans hb.1, g5.trans hb.2.1, ?_, g7⟩
    have e2 : q'.point = q.point + 1 := hb.2.2
    rw [g6, e2, List.length_cons]; omega

/-- In a rightmost sentential form `u A v` the automaton reads `u`, and is then before `A`, with
everything as lookahead that `v` can begin with. -/
theorem Looks.before (h : Auto D S b0 states acts next red₀) (hl : Looks D S eof b0 states next red)
    (he : Terminal D eof) (hS : SingleStart D S) {c : List T} (hc : RDerives D [S] c) :
    ∀ {u v : List T} {A : T} {k : Nat} {b : List T} {y Z : T}, c = u ++ A :: v → IsProd D A k b →
      Terminal D y → (v ++ [eof]).head? = some Z → (Z = y ∨ InFirst D Z y) →
      ∃ i st s q, Path states next (i :: st) u.reverse ∧ states[i]? = some s ∧ q ∈ s ∧ q.rule = A ∧
        q.seq = (b, k) ∧ q.point = 0 ∧ red q y := by
  induction hc with
  | refl =>
    intro u v A k b y Z e hp hy hZ hf
    cases u with
    | cons a u => have := congrArg List.length e; simp at this
    | nil =>
      simp only [List.nil_append, List.cons.injEq] at e
      obtain ⟨rfl, rfl⟩ := e
      simp only [List.nil_append, List.head?_cons, Option.some.injEq] at hZ
      subst hZ
      have e2 : y = eof := by
        rcases hf with h1 | h1
        · exact h1.symm
        · exact InFirst.terminal h1 he
      subst e2
      obtain rfl := hS k b hp
      obtain rfl := hp.unique h.start
      obtain ⟨s, p, h1, h2, h3, h4, h5, h6⟩ := hl.basis
      exact ⟨0, [], s, p, .base, h1, h2, h3, h4, h5, h6⟩
  | @tail b' c' hb' hstep ih =>
    cases hstep with
    | @mk u0 v0 B i body hB hv0 =>
      intro u v A k b y Z e hp hy hZ hf
      rw [List.append_assoc] at e
      -- the item for `B`, read up to some place of its body
      have hBitem : ∀ b1 b2 y', body = b1 ++ b2 → Terminal D y' →
          (∃ Z, (v0 ++ [eof]).head? = some Z ∧ (Z = y' ∨ InFirst D Z y')) →
          ∃ i' st' s' q', Path states next (i' :: st') (u0 ++ b1).reverse ∧ states[i']? = some s' ∧
            q' ∈ s' ∧ q'.rule = B ∧ q'.seq = (body, i) ∧ q'.point = b1.length ∧ red q' y' := by
        rintro b1 b2 y' eb hy' ⟨Z', hZ', hf'⟩
        obtain ⟨i1, st1, s1, q1, g1, g2, g3, g4, g5, g6, g7⟩ := ih rfl hB hy' hZ' hf'
        obtain ⟨i2, st2, s2, q2, k1, k2, k3, k4, k5, k6, k7⟩ :=
          Looks.read h hl hy' b1 b2 g1 g2 g3 (by rw [g5, g6]; simpa using eb) g7
        exact ⟨i2, st2, s2, q2, by simpa using k1, k2, k3, k4.trans g4, k5.trans g5, by omega, k7⟩
      rcases List.append_eq_append_iff.mp e with ⟨m, e1, e2⟩ | ⟨m, e1, e2⟩
      · -- u = u0 ++ m, body ++ v0 = m ++ A :: v
        rcases List.append_eq_append_iff.mp e2 with ⟨m', e3, e4⟩ | ⟨m', e3, e4⟩
        · -- m = body ++ m', v0 = m' ++ A :: v
          exact absurd (hv0 A (by rw [e4]; simp)) hp.not_terminal
        · -- body = m ++ m', A :: v = m' ++ v0
          cases m' with
          | nil =>
            simp only [List.nil_append] at e4
            exact absurd (hv0 A (by rw [← e4]; simp)) hp.not_terminal
          | cons a m' =>
            simp only [List.cons_append, List.cons.injEq] at e4
            obtain ⟨rfl, rfl⟩ := e4
            have hy' : ∃ y', Terminal D y' ∧ (m' = [] → y' = y) ∧
                ∃ Z, (v0 ++ [eof]).head? = some Z ∧ (Z = y' ∨ InFirst D Z y') := by
              cases m' with
              | nil => exact ⟨y, hy, fun _ => rfl, Z, by simpa using hZ, hf⟩
              | cons a' m' =>
                cases v0 with
                | nil => exact ⟨eof, he, by simp, eof, rfl, Or.inl rfl⟩
                | cons z v0 => exact ⟨z, hv0 z (by simp), by simp, z, rfl, Or.inl rfl⟩
            obtain ⟨y', hy', hyy, hZ'⟩ := hy'
            obtain ⟨i1, st1, s1, q1, g1, g2, g3, g4, g5, g6, g7⟩ := hBitem m (A :: m') y' e3 hy' hZ'
            have ht : q1.top = some A := by
              show q1.seq.1[q1.point]? = some A
              rw [g5, g6, e3]; simp
            have hn : q1.next = m'.head? := by
              show q1.seq.1[q1.point + 1]? = _
              rw [g5, g6, e3]
              cases m' <;> simp
            obtain ⟨r, r1, r2, r3, r4, r5⟩ := hl.close g2 g3 ht hp hy (fun h0 => by
                rw [hn] at h0
                have : m' = [] := by cases m' <;> simp_all
                rw [← hyy this]; exact g7) (fun Z' hZ' => by
                rw [hn] at hZ'
                cases m' with
                | nil => simp at hZ'
                | cons a' m' =>
                  simp only [List.head?_cons, Option.some.injEq, List.cons_append] at hZ' hZ
                  subst hZ'; subst hZ; exact hf)
            exact ⟨i1, st1, s1, r, by rw [e1]; exact g1, g2, r1, r2, r3, r4, r5⟩
      · -- u0 = u ++ m, A :: v = m ++ (body ++ v0)
        cases m with
        | nil =>
          simp only [List.append_nil, List.nil_append] at e1 e2
          subst e1
          cases hbody : body with
          | nil => exact absurd hbody (h.noEmpty _ _ _ hB)
          | cons a m' =>
            -- the case `A` at the beginning of the body
            rw [hbody] at e2
            simp only [List.cons_append, List.cons.injEq] at e2
            obtain ⟨rfl, rfl⟩ := e2
            have hy' : ∃ y', Terminal D y' ∧ (m' = [] → y' = y) ∧
                ∃ Z, (v0 ++ [eof]).head? = some Z ∧ (Z = y' ∨ InFirst D Z y') := by
              cases m' with
              | nil => exact ⟨y, hy, fun _ => rfl, Z, by simpa using hZ, hf⟩
              | cons a' m' =>
                cases v0 with
                | nil => exact ⟨eof, he, by simp, eof, rfl, Or.inl rfl⟩
                | cons z v0 => exact ⟨z, hv0 z (by simp), by simp, z, rfl, Or.inl rfl⟩
            obtain ⟨y', hy', hyy, hZ'⟩ := hy'
            obtain ⟨i1, st1, s1, q1, g1, g2, g3, g4, g5, g6, g7⟩ := hBitem [] body y' rfl hy' hZ'
            have ht : q1.top = some A := by
              show q1.seq.1[q1.point]? = some A
              rw [g5, g6, hbody]; simp
            have hn : q1.next = m'.head? := by
              show q1.seq.1[q1.point + 1]? = _
              rw [g5, g6, hbody]
              cases m' <;> simp
            obtain ⟨r, r1, r2, r3, r4, r5⟩ := hl.close g2 g3 ht hp hy (fun h0 => by
                rw [hn] at h0
                have : m' = [] := by cases m' <;> simp_all
                rw [← hyy this]; exact g7) (fun Z' hZ' => by
                rw [hn] at hZ'
                cases m' with
                | nil => simp at hZ'
                | cons a' m' =>
                  simp only [List.head?_cons, Option.some.injEq, List.cons_append] at hZ' hZ
                  subst hZ'; subst hZ; exact hf)
            exact ⟨i1, st1, s1, r, by simpa using g1, g2, r1, r2, r3, r4, r5⟩
        | cons a m =>
          simp only [List.cons_append, List.cons.injEq] at e2
          obtain ⟨rfl, rfl⟩ := e2
          -- A stands before B
          cases m with
          | nil =>
            cases hbody : body with
            | nil => exact absurd hbody (h.noEmpty _ _ _ hB)
            | cons Z' m' =>
              rw [hbody] at hZ hB
              simp only [List.nil_append, List.cons_append, List.head?_cons, Option.some.injEq] at hZ
              subst hZ
              have hBy : InFirst D B y := by
                have h1 : InFirst D B Z' := ⟨m', Derives.of_prod hB⟩
                rcases hf with rfl | hf
                · exact h1
                · exact InFirst.trans h1 hf
              exact ih (u := u) (v := B :: v0) (Z := B) (by rw [e1]; simp) hp hy (by simp) (Or.inr hBy)
          | cons a' m =>
            exact ih (u := u) (v := a' :: m ++ B :: v0) (Z := a') (by rw [e1]; simp) hp hy
              (by simp) (by
                simp only [List.cons_append, List.head?_cons, Option.some.injEq] at hZ
                subst hZ; exact hf)

/-- The state after a rightmost sentential form up to the end of the body applied last. -/
theorem Looks.handle (h : Auto D S b0 states acts next red₀) (hl : Looks D S eof b0 states next red)
    (he : Terminal D eof) (hS : SingleStart D S) {α β w : List T} {A : T} {k : Nat}
    (hd : RDerives D [S] (α ++ A :: w)) (hw : Terminals D w) (hp : IsProd D A k β) {y : T}
    (hy : (w ++ [eof]).head? = some y) :
    ∃ i st s q, Path states next (i :: st) (α ++ β).reverse ∧ states[i]? = some s ∧ q ∈ s ∧
      q.rule = A ∧ q.seq = (β, k) ∧ q.top = none ∧ red q y := by
  have hyt : Terminal D y := by
    cases w with
    | nil => simp at hy; rw [← hy]; exact he
    | cons a w => simp at hy; rw [← hy]; exact hw a (by simp)
  obtain ⟨i1, st1, s1, q1, g1, g2, g3, g4, g5, g6, g7⟩ := Looks.before h hl he hS hd rfl hp hyt hy (Or.inl rfl)
  obtain ⟨i2, st2, s2, q2, k1, k2, k3, k4, k5, k6, k7⟩ :=
    Looks.read h hl hyt β [] g1 g2 g3 (by rw [g5, g6]; simp) g7
  refine ⟨i2, st2, s2, q2, by simpa using k1, k2, k3, k4.trans g4, k5.trans g5, ?_, k7⟩
  show q2.seq.1[q2.point]? = none
  rw [k5, g5, k6, g6]; simp

theorem Path.prefix {st : List Nat} {l r : List T} (h : Path states next st (l ++ r)) :
    ∃ st', Path states next st' r := by
  induction l generalizing st with
  | nil => exact ⟨st, h⟩
  | cons X l ih =>
    cases h with
    | cons h1 _ _ _ _ => exact ih h1

/-- A path that goes on after a prefix. -/
theorem Path.goes {st : List Nat} {l r : List T} {X : T} (h : Path states next st (l ++ X :: r)) :
    ∃ i st' s p, Path states next (i :: st') r ∧ states[i]? = some s ∧ p ∈ s ∧ p.top = some X := by
  obtain ⟨st', h'⟩ := Path.prefix h
  cases h' with
  | cons h1 h2 h3 h4 _ => exact ⟨_, _, _, _, h1, h2, h3, h4⟩

/-- No conflicts: one decision per cell. -/
theorem Auto.dec_unique (h : Auto D S b0 states acts next red)
    (hno : ∀ i x a b, cellAt acts i x ≠ some (.conflict a b)) {i : Nat} {s : State T}
    (hs : states[i]? = some s) {x : T} {a a' : Action T} (h1 : Dec D S (next s) red s x a)
    (h2 : Dec D S (next s) red s x a') : a = a' := by
  rcases h.dec_cell hs h1 with e1 | ⟨u, v, e1⟩
  · rcases h.dec_cell hs h2 with e2 | ⟨u, v, e2⟩
    · rw [e1] at e2; cases e2; rfl
    · exact absurd e2 (hno _ _ _ _)
  · exact absurd e1 (hno _ _ _ _)

theorem dec_of_complete {s : State T} {p : Position T} (hp : p ∈ s) (ht : p.top = none) {x : T}
    (hr : red p x) : Dec D S (next s) red s x (if p.rule = S then .acc else .reduce p.rule p.seq) := by
  refine Or.inr ⟨p, hp, ht, hr, ?_⟩
  by_cases e : p.rule = S
  · exact Or.inl ⟨e, by rw [if_pos e]⟩
  · exact Or.inr ⟨e, by rw [if_neg e]⟩

/-- Without conflicts the automaton does not both reduce under a symbol and read it. -/
theorem Auto.no_read (h : Auto D S b0 states acts next red)
    (hno : ∀ i x a b, cellAt acts i x ≠ some (.conflict a b)) {i : Nat} {st st' : List Nat} {s : State T}
    {p : Position T} {x : T} {u v : List T} (hp : Path states next (i :: st) u.reverse)
    (hs : states[i]? = some s) (hps : p ∈ s) (ht : p.top = none) (hr : red p x) (hx : Terminal D x)
    (hp' : Path states next st' (u ++ x :: v).reverse) : False := by
  have hp' : Path states next st' (v.reverse ++ x :: u.reverse) := by simpa using hp'
  obtain ⟨i', st'', s', q, g1, g2, g3, g4⟩ := hp'.goes
  have e := hp.unique g1
  injection e with e1 e2
  subst e1
  rw [hs] at g2; cases g2
  obtain ⟨j, _, hj, _⟩ := h.edge hs g3 g4
  have d1 : Dec D S (next s) red s x (.shift j) := Or.inl ⟨q, g3, g4, j, hj, Or.inl ⟨hx, rfl⟩⟩
  have := h.dec_unique hno hs d1 (dec_of_complete hps ht hr)
  split at this <;> simp at this

/-- No conflicts, and every handle is found: the grammar is LR(1). -/
theorem Auto.lr1_of (h : Auto D S b0 states acts next red)
    (hfind : ∀ {α β w : List T} {A : T} {k : Nat}, RDerives D [S] (α ++ A :: w) → Terminals D w → IsProd D A k β →
      ∀ {y : T}, (w ++ [eof]).head? = some y →
      ∃ i st s q, Path states next (i :: st) (α ++ β).reverse ∧ states[i]? = some s ∧ q ∈ s ∧
        q.rule = A ∧ q.seq = (β, k) ∧ q.top = none ∧ red q y)
    (hS : SingleStart D S) (hno : ∀ i x a b, cellAt acts i x ≠ some (.conflict a b)) : LR1 D S eof := by
  intro α β w γ δ x y A B i j hA hw hpA hB hx hpB e hy hh
  obtain ⟨a, r, ha⟩ := head_append_eof (eof := eof) w
  have ha : (w ++ [eof]).head? = some a := by rw [ha]; rfl
  have hya : (y ++ [eof]).head? = some a := hh ▸ ha
  obtain ⟨i1, st1, s1, p, g1, g2, g3, g4, g5, g6, g7⟩ := hfind hA hw hpA ha
  rcases List.append_eq_append_iff.mp e with ⟨m, e1, e2⟩ | ⟨m, e1, e2⟩
  · -- αβ = γδm, x = my
    cases m with
    | nil =>
      simp only [List.append_nil, List.nil_append] at e1 e2
      subst e2
      obtain ⟨i2, st2, s2, q, k1, k2, k3, k4, k5, k6, k7⟩ := hfind hB hx hpB hya
      rw [← e1] at k1
      have e3 := g1.unique k1
      injection e3 with e3 _
      subst e3
      rw [g2] at k2; cases k2
      have := h.dec_unique hno g2 (dec_of_complete g3 g6 g7) (dec_of_complete k3 k6 k7)
      rw [g4, g5, k4, k5] at this
      by_cases hAS : A = S <;> by_cases hBS : B = S <;> simp [hAS, hBS] at this
      · subst hAS; subst hBS
        obtain rfl := hS i β hpA
        obtain rfl := hS j δ hpB
        obtain rfl := hpA.unique hpB
        exact ⟨(List.append_cancel_right e1).symm, rfl, rfl, rfl⟩
      · obtain ⟨rfl, rfl, rfl⟩ := this
        exact ⟨(List.append_cancel_right e1).symm, rfl, rfl, rfl⟩
    | cons t m =>
      subst e2
      have ht : Terminal D t := hx t (by simp)
      obtain ⟨i2, st2, s2, q, k1, k2, k3, k4, k5, k6, k7⟩ :=
        hfind hB hx hpB (y := t) (by simp)
      rw [e1] at g1
      exact (h.no_read hno k1 k2 k3 k6 k7 ht g1).elim
  · -- γδ = αβm, y = mx
    cases m with
    | nil =>
      simp only [List.append_nil, List.nil_append] at e1 e2
      subst e2
      obtain ⟨i2, st2, s2, q, k1, k2, k3, k4, k5, k6, k7⟩ := hfind hB hx hpB hya
      rw [e1] at k1
      have e3 := g1.unique k1
      injection e3 with e3 _
      subst e3
      rw [g2] at k2; cases k2
      have := h.dec_unique hno g2 (dec_of_complete g3 g6 g7) (dec_of_complete k3 k6 k7)
      rw [g4, g5, k4, k5] at this
      by_cases hAS : A = S <;> by_cases hBS : B = S <;> simp [hAS, hBS] at this
      · subst hAS; subst hBS
        obtain rfl := hS i β hpA
        obtain rfl := hS j δ hpB
        obtain rfl := hpA.unique hpB
        exact ⟨List.append_cancel_right e1, rfl, rfl, rfl⟩
      · obtain ⟨rfl, rfl, rfl⟩ := this
        exact ⟨List.append_cancel_right e1, rfl, rfl, rfl⟩
    | cons t m =>
      subst e2
      have ht : Terminal D t := hy t (by simp)
      have hat : a = t := by simpa using hya.symm
      subst hat
      obtain ⟨b, r, hb⟩ := head_append_eof (eof := eof) x
      obtain ⟨i2, st2, s2, q, k1, k2, k3, k4, k5, k6, k7⟩ :=
        hfind hB hx hpB (y := b) (by rw [hb]; rfl)
      rw [e1] at k1
      exact (h.no_read hno g1 g2 g3 g6 g7 ht k1).elim

/-- No conflicts, and lookaheads large enough: the grammar is LR(1). -/
theorem Looks.lr1 (h : Auto D S b0 states acts next red) (hl : Looks D S eof b0 states next red)
    (he : Terminal D eof) (hS : SingleStart D S)
    (hno : ∀ i x a b, cellAt acts i x ≠ some (.conflict a b)) : LR1 D S eof :=
  h.lr1_of (fun hd hw hp _ hy => Looks.handle h hl he hS hd hw hp hy) hS hno

/-! ### Items of the automaton are valid -/

/-- From a rightmost form with the rule of a position to one with the symbol at its point. -/
theorem rderives_closure {α w z : List T} {q : Position T} {X : T}
    (hd : RDerives D z (α ++ q.rule :: w)) (hw : Terminals D w)
    (hprod : IsProd D q.rule q.seq.2 q.seq.1) (ht : q.top = some X) {v : List T}
    (hv : Derives D (q.seq.1.drop (q.point + 1)) v) (hvt : Terminals D v) :
    RDerives D z ((α ++ q.seq.1.take q.point) ++ X :: (v ++ w)) := by
  have h1 := RDerives.tail hd (RStep.mk α w hprod hw)
  have h2 := body_split ht
  have h3 := RDerives.ctx (RDerives.of_derives hv hvt) (α ++ q.seq.1.take q.point ++ [X]) hw
  have e : α ++ q.seq.1 ++ w =
      (α ++ q.seq.1.take q.point ++ [X]) ++ q.seq.1.drop (q.point + 1) ++ w := by
    conv => lhs; rw [h2]
    simp
  have := h1.trans (e ▸ h3)
  simpa using this

/-- Every position of a state reached is valid for the symbols read. -/
theorem Auto.rviable (h : Auto D S b0 states acts next red) (hpr : AllProductive D) {st : List Nat}
    {syms : List T} (hp : Path states next st syms) :
    ∀ {i : Nat} {st' : List Nat} {s : State T} {p : Position T}, st = i :: st' →
      states[i]? = some s → p ∈ s →
      ∃ w, Terminals D w ∧ RDerives D [S] ((syms.drop p.point).reverse ++ p.rule :: w) := by
  have clo : ∀ {i : Nat} {st' : List Nat} {syms : List T} {s : State T},
      Path states next (i :: st') syms → states[i]? = some s →
      (∀ p ∈ s, 0 < p.point →
        ∃ w, Terminals D w ∧ RDerives D [S] ((syms.drop p.point).reverse ++ p.rule :: w)) →
      ∀ p, Prov S b0 i s p →
        ∃ w, Terminals D w ∧ RDerives D [S] ((syms.drop p.point).reverse ++ p.rule :: w) := by
    intro i st' syms s hpath hs hk p hprov
    induction hprov with
    | kernel hp h0 => exact hk _ hp h0
    | @basis p hi hp h1 h2 h3 =>
      subst hi
      have := h.path_zero hpath
      subst this
      exact ⟨[], by simp [Terminals], by rw [h1, List.drop_nil]; exact .refl⟩
    | @step p q hq ht hp h0 ih =>
      obtain ⟨w, hw, hd⟩ := ih
      obtain ⟨v, hv, hvt⟩ := productive_list hpr (q.seq.1.drop (q.point + 1))
      have := rderives_closure hd hw (h.prod hs hq.mem).1 ht hv hvt
      rw [← h.split_syms hpath hs hq.mem] at this
      exact ⟨v ++ w, terminals_append.mpr ⟨hvt, hw⟩, by rw [h0]; simpa using this⟩
  induction hp with
  | base =>
    intro i st' s p e hs hps
    cases e
    refine clo .base hs ?_ p (h.prov hs hps)
    intro p hp h0
    have := h.zero hs hp
    omega
  | @cons i0 j st0 syms0 s0 p0 X h1 h2 h3 h4 h5 ih =>
    intro i st' s p e hs hps
    cases e
    refine clo (.cons h1 h2 h3 h4 h5) hs ?_ p (h.prov hs hps)
    intro p hp h0
    obtain ⟨j', s', f1, _, f3, f4, _⟩ := h.edge h2 h3 h4
    rw [h5] at f1; cases f1
    rw [hs] at f3; cases f3
    obtain ⟨q, hq, hqt, hqb⟩ := f4 p hp h0
    obtain ⟨w, hw, hd⟩ := ih rfl h2 hq
    have hpt : p.point = q.point + 1 := hqb.2.2
    have hr : p.rule = q.rule := hqb.1
    exact ⟨w, hw, by rw [hpt, hr]; exact hd⟩

/-- ... and, where lookaheads are small enough, with every terminal its lookaheads begin with. -/
theorem Exact.rviable (h : Auto D S b0 states acts next red)
    (hx : Exact D S eof b0 states next red) (hpr : AllProductive D) (he : Terminal D eof) {st : List Nat}
    {syms : List T} (hp : Path states next st syms) :
    ∀ {i : Nat} {st' : List Nat} {s : State T} {p : Position T} {x : T}, st = i :: st' →
      states[i]? = some s → p ∈ s → red p x → ∀ y, Terminal D y → InFirst D x y →
      ∃ w, Terminals D w ∧ (w ++ [eof]).head? = some y ∧
        RDerives D [S] ((syms.drop p.point).reverse ++ p.rule :: w) := by
  have clo : ∀ {i : Nat} {st' : List Nat} {syms : List T} {s : State T},
      Path states next (i :: st') syms → states[i]? = some s →
      (∀ p ∈ s, 0 < p.point → ∀ x, red p x → ∀ y, Terminal D y → InFirst D x y →
        ∃ w, Terminals D w ∧ (w ++ [eof]).head? = some y ∧
          RDerives D [S] ((syms.drop p.point).reverse ++ p.rule :: w)) →
      ∀ p x, ProvL D S eof b0 red i s p x → ∀ y, Terminal D y → InFirst D x y →
        ∃ w, Terminals D w ∧ (w ++ [eof]).head? = some y ∧
          RDerives D [S] ((syms.drop p.point).reverse ++ p.rule :: w) := by
    intro i st' syms s hpath hs hk p x hprov
    induction hprov with
    | kernel hp h0 hr => exact hk _ hp h0 _ hr
    | @basis p hi hp h1 h2 h3 =>
      intro y hy hxy
      subst hi
      have := h.path_zero hpath
      subst this
      rw [InFirst.terminal hxy he]
      exact ⟨[], by simp [Terminals], rfl, by rw [h1, List.drop_nil]; exact .refl⟩
    | @last p q x hq ht hn hp h0 ih =>
      intro y hy hxy
      obtain ⟨w, hw, hh, hd⟩ := ih y hy hxy
      have := rderives_closure hd hw (h.prod hs hq.mem).1 ht (v := [])
        (by rw [next_drop_none hn]; exact .refl _) (by simp [Terminals])
      rw [← h.split_syms hpath hs hq.mem] at this
      exact ⟨w, hw, hh, by rw [h0]; simpa using this⟩
    | @next p q x Z hq ht hn hZ hp h0 =>
      intro y hy hxy
      obtain ⟨w, hw, hd⟩ := h.rviable hpr hpath rfl hs hq
      have hZy : InFirst D Z y := by
        rcases hZ with rfl | hZ
        · exact hxy
        · exact InFirst.trans hZ hxy
      obtain ⟨v1, hv1⟩ := hZy
      obtain ⟨v2, hv2, hv2t⟩ := productive_list hpr (v1 ++ q.seq.1.drop (q.point + 2))
      have hv : Derives D (q.seq.1.drop (q.point + 1)) (y :: v2) := by
        rw [next_drop hn]
        have g1 : Derives D (Z :: q.seq.1.drop (q.point + 2)) ((y :: v1) ++ q.seq.1.drop (q.point + 2)) :=
          hv1.cons (.refl _)
        refine g1.trans ?_
        exact (Derives.refl (D := D) [y]).append hv2
      have hvt : Terminals D (y :: v2) := terminals_cons.mpr ⟨hy, hv2t⟩
      have := rderives_closure hd hw (h.prod hs hq).1 ht hv hvt
      rw [← h.split_syms hpath hs hq] at this
      exact ⟨y :: v2 ++ w, terminals_append.mpr ⟨hvt, hw⟩, by simp, by rw [h0]; simpa using this⟩
  induction hp with
  | base =>
    intro i st' s p x e hs hps hr
    cases e
    refine clo .base hs ?_ p x (hx.prov hs hps hr)
    intro p hp h0
    have := h.zero hs hp
    omega
  | @cons i0 j st0 syms0 s0 p0 X h1 h2 h3 h4 h5 ih =>
    intro i st' s p x e hs hps hr
    cases e
    refine clo (.cons h1 h2 h3 h4 h5) hs ?_ p x (hx.prov hs hps hr)
    intro p hp h0 x hr y hy hxy
    obtain ⟨q, hq, hqt, hqb, hqr⟩ := hx.edge h2 h3 h4 h5 hs p hp h0 x hr
    obtain ⟨w, hw, hh, hd⟩ := ih rfl h2 hq hqr y hy hxy
    have hpt : p.point = q.point + 1 := hqb.2.2
    have hr : p.rule = q.rule := hqb.1
    exact ⟨w, hw, hh, by rw [hpt, hr]; exact hd⟩

/-- After a terminal at a point there is a handle further to the right. -/
theorem later_handle (hpr : AllProductive D) {z γ w : List T} {q : Position T} {y : T}
    (hd : RDerives D z (γ ++ q.rule :: w)) (hw : Terminals D w)
    (hprod : IsProd D q.rule q.seq.2 q.seq.1) (ht : q.top = some y) :
    ∃ γ' B j δ x' v, RDerives D z (γ' ++ B :: x') ∧ Terminals D x' ∧ IsProd D B j δ ∧ Terminals D v ∧
      γ' ++ δ ++ x' = (γ ++ q.seq.1.take q.point) ++ y :: v ∧ x'.length ≤ v.length := by
  obtain ⟨v2, hv2, hv2t⟩ := productive_list hpr (q.seq.1.drop (q.point + 1))
  have hr := RDerives.of_derives hv2 hv2t
  have e := body_split ht
  have e' : γ ++ q.seq.1 = (γ ++ q.seq.1.take q.point ++ [y]) ++ q.seq.1.drop (q.point + 1) := by
    conv => lhs; rw [e]
    simp
  have hstep := RDerives.tail hd (RStep.mk γ w hprod hw)
  cases hr with
  | refl =>
    refine ⟨γ, q.rule, _, _, w, q.seq.1.drop (q.point + 1) ++ w, hd, hw, hprod,
      terminals_append.mpr ⟨hv2t, hw⟩, ?_, by simp⟩
    rw [e']; simp
  | @tail b c hb hs =>
    cases hs with
    | @mk u v A i body hA hv =>
      have hb' := RDerives.ctx hb (γ ++ q.seq.1.take q.point ++ [y]) hw
      refine ⟨γ ++ q.seq.1.take q.point ++ [y] ++ u, A, i, body, v ++ w, u ++ body ++ v ++ w, ?_,
        terminals_append.mpr ⟨hv, hw⟩, hA, terminals_append.mpr ⟨hv2t, hw⟩, by simp, by simp; omega⟩
      have := hstep.trans (e' ▸ hb')
      simpa using this

/-- The canonical LR(1) automaton of an LR(1) grammar has no conflicts. -/
theorem Exact.no_conflict (h : Auto D S b0 states acts next red)
    (hx : Exact D S eof b0 states next red) (hpr : AllProductive D) (he : Terminal D eof)
    (hr : Reaches states next)
    (hsome : ∀ (i : Nat) s p x, states[i]? = some s → p ∈ s → red p x →
      ∃ y, Terminal D y ∧ InFirst D x y)
    (hlr : LR1 D S eof) : ∀ i x a b, cellAt acts i x ≠ some (.conflict a b) := by
  intro i x a b hc
  obtain ⟨row, hrow, hc⟩ := Option.bind_eq_some_iff.mp (show acts[i]?.bind _ = _ from hc)
  have hi : i < states.length := by rw [← h.len]; exact (List.getElem?_eq_some_iff.mp hrow).1
  have hs : states[i]? = some states[i] := List.getElem?_eq_getElem hi
  generalize states[i] = s at hs
  obtain ⟨a1, a2, d1, d2, hne⟩ := (((h.cell hs hrow).2 x).conflict _ hc).mp ⟨a, b, rfl⟩
  obtain ⟨st, syms, hp⟩ := hr i s hs
  -- complete positions
  have comp : ∀ {p : Position T}, p ∈ s → p.top = none → red p x → ∀ y, Terminal D y → InFirst D x y →
      ∃ α w, α ++ p.seq.1 = syms.reverse ∧ RDerives D [S] (α ++ p.rule :: w) ∧ Terminals D w ∧
        (w ++ [eof]).head? = some y ∧ IsProd D p.rule p.seq.2 p.seq.1 := by
    intro p hps ht hrd y hy hxy
    obtain ⟨w, hw, hh, hd⟩ := Exact.rviable h hx hpr he hp rfl hs hps hrd y hy hxy
    refine ⟨_, w, ?_, hd, hw, hh, (h.prod hs hps).1⟩
    have := h.split_syms hp hs hps
    rw [List.take_of_length_le (top_none ht)] at this
    exact this.symm
  have mixed : (∃ p ∈ s, p.top = some x) → (∃ p ∈ s, p.top = none ∧ red p x) → False := by
    rintro hq ⟨p, hps, ht, hrd⟩
    obtain ⟨y, hy, hxy⟩ := hsome i s p x hs hps hrd
    obtain ⟨α, w, e1, hd, hw, hh, hprod⟩ := comp hps ht hrd y hy hxy
    obtain ⟨q, hq, hqt⟩ := h.first_top' hs (Or.inr hxy) hq
    obtain ⟨w', hw', hd'⟩ := h.rviable hpr hp rfl hs hq
    obtain ⟨γ', B, j, δ, x', v, f1, f2, f3, f4, f5, f6⟩ :=
      later_handle hpr hd' hw' (h.prod hs hq).1 hqt
    rw [← h.split_syms hp hs hq, ← e1] at f5
    obtain ⟨r1, r2, r3, r4⟩ := hlr α p.seq.1 w γ' δ x' (y :: v) p.rule B p.seq.2 j hd hw hprod f1 f2 f3 f5
      (terminals_cons.mpr ⟨hy, f4⟩) (by simpa using hh)
    rw [r4] at f6
    simp at f6
    omega
  have hgo : ∀ {a : Action T}, Dec D S (next s) red s x a →
      (∃ j, next s x = some j ∧ (Terminal D x ∧ a = .shift j ∨ Nonterminal D x ∧ a = .goto j) ∧
        ∃ p ∈ s, p.top = some x) ∨
      (∃ p ∈ s, p.top = none ∧ red p x ∧ a = if p.rule = S then .acc else .reduce p.rule p.seq) := by
    rintro a (⟨p, hp, ht, j, hj, hk⟩ | ⟨p, hp, ht, hr, hk⟩)
    · exact Or.inl ⟨j, hj, hk, p, hp, ht⟩
    · refine Or.inr ⟨p, hp, ht, hr, ?_⟩
      rcases hk with ⟨e, rfl⟩ | ⟨e, rfl⟩
      · rw [if_pos e]
      · rw [if_neg e]
  rcases hgo d1 with ⟨j, g1, g2, g3⟩ | ⟨p, hp1, ht1, hr1, e1⟩ <;>
    rcases hgo d2 with ⟨m, k1, k2, k3⟩ | ⟨q, hp2, ht2, hr2, e2⟩
  · rw [g1] at k1; cases k1
    rcases g2 with ⟨g2, rfl⟩ | ⟨g2, rfl⟩ <;> rcases k2 with ⟨k2, rfl⟩ | ⟨k2, rfl⟩
    · exact hne rfl
    · exact absurd g2 (not_terminal_iff.mpr k2)
    · exact absurd k2 (not_terminal_iff.mpr g2)
    · exact hne rfl
  · exact mixed g3 ⟨q, hp2, ht2, hr2⟩
  · exact mixed k3 ⟨p, hp1, ht1, hr1⟩
  · obtain ⟨y, hy, hxy⟩ := hsome i s p x hs hp1 hr1
    obtain ⟨α, w, f1, f2, f3, f4, f5⟩ := comp hp1 ht1 hr1 y hy hxy
    obtain ⟨γ, w', k1, k2, k3, k4, k5⟩ := comp hp2 ht2 hr2 y hy hxy
    obtain ⟨r1, r2, r3, _⟩ := hlr α p.seq.1 w γ q.seq.1 w' w' p.rule q.rule p.seq.2 q.seq.2 f2 f3 f5 k2 k3 k5
      (by rw [k1, f1]) k3 (f4.trans k4.symm)
    apply hne
    rw [e1, e2, r2]
    have : q.seq = p.seq := by
      refine Prod.ext ?_ r3
      rw [r2, r3] at k5
      exact k5.unique f5
    rw [this]

/-! ### Slr -/

/-- The automaton contains the valid items. -/
theorem Looks.valid (h : Auto D S b0 states acts next red₀) (hl : Looks D S eof b0 states next red)
    (he : Terminal D eof) (hS : SingleStart D S) {γ : List T} {A : T} {k : Nat} {β₁ β₂ : List T}
    (hv : ValidItem D S γ A k β₁ β₂) :
    ∃ i st s q, Path states next (i :: st) γ.reverse ∧ states[i]? = some s ∧ q ∈ s ∧
      q.rule = A ∧ q.seq = (β₁ ++ β₂, k) ∧ q.point = β₁.length := by
  obtain ⟨hp, α, w, rfl, hw, hd⟩ := hv
  obtain ⟨y, r, hy⟩ := head_append_eof (eof := eof) w
  have hyt : Terminal D y := by
    have : Terminals D (w ++ [eof]) := terminals_append.mpr ⟨hw, by simpa [Terminals] using he⟩
    exact this y (by rw [hy]; simp)
  obtain ⟨i1, st1, s1, q1, g1, g2, g3, g4, g5, g6, g7⟩ :=
    Looks.before h hl he hS hd rfl hp hyt (by rw [hy]; rfl) (Or.inl rfl)
  obtain ⟨i2, st2, s2, q2, k1, k2, k3, k4, k5, k6, k7⟩ :=
    Looks.read h hl hyt β₁ β₂ g1 g2 g3 (by rw [g5, g6]; simp) g7
  exact ⟨i2, st2, s2, q2, by simpa using k1, k2, k3, k4.trans g4, k5.trans g5, by omega⟩

/-- Without conflicts, where positions are reduced under everything that follows their rule, the grammar
is SLR(1). -/
theorem Looks.slr1 (h : Auto D S b0 states acts next red) (hl : Looks D S eof b0 states next red)
    (he : Terminal D eof) (hS : SingleStart D S)
    (hf : ∀ {i : Nat} {s p x}, states[i]? = some s → p ∈ s → Terminal D x →
      InFollow D S eof p.rule x → red p x)
    (hno : ∀ i x a b, cellAt acts i x ≠ some (.conflict a b)) : SLR1 D S eof := by
  constructor
  · intro γ A i β B j δ x hA hB hx fA fB
    obtain ⟨i1, st1, s1, p, g1, g2, g3, g4, g5, g6⟩ := Looks.valid h hl he hS hA
    obtain ⟨i2, st2, s2, q, k1, k2, k3, k4, k5, k6⟩ := Looks.valid h hl he hS hB
    have e := g1.unique k1
    injection e with e _
    subst e
    rw [g2] at k2; cases k2
    have tp : p.top = none := by show p.seq.1[p.point]? = none; rw [g5, g6]; simp
    have tq : q.top = none := by show q.seq.1[q.point]? = none; rw [k5, k6]; simp
    have := h.dec_unique hno g2 (dec_of_complete g3 tp (hf g2 g3 hx (g4 ▸ fA)))
      (dec_of_complete k3 tq (hf g2 k3 hx (k4 ▸ fB)))
    rw [g4, g5, k4, k5] at this
    by_cases hAS : A = S <;> by_cases hBS : B = S <;> simp [hAS, hBS] at this
    · subst hAS; subst hBS
      exact ⟨rfl, (hS i _ hA.1).trans (hS j _ hB.1).symm⟩
    · exact ⟨this.1, this.2.2⟩
  · intro γ A i β B j δ₁ a δ₂ hA hB ha fA
    obtain ⟨i1, st1, s1, p, g1, g2, g3, g4, g5, g6⟩ := Looks.valid h hl he hS hA
    obtain ⟨i2, st2, s2, q, k1, k2, k3, k4, k5, k6⟩ := Looks.valid h hl he hS hB
    have e := g1.unique k1
    injection e with e _
    subst e
    rw [g2] at k2; cases k2
    have tp : p.top = none := by show p.seq.1[p.point]? = none; rw [g5, g6]; simp
    have tq : q.top = some a := by show q.seq.1[q.point]? = some a; rw [k5, k6]; simp
    obtain ⟨m, _, hm, _⟩ := h.edge g2 k3 tq
    have d1 : Dec D S (next s1) red s1 a (.shift m) := Or.inl ⟨q, k3, tq, m, hm, Or.inl ⟨ha, rfl⟩⟩
    have := h.dec_unique hno g2 d1 (dec_of_complete g3 tp (hf g2 g3 ha (g4 ▸ fA)))
    split at this <;> simp at this

/-- An SLR(1) grammar gives no conflicts where positions are reduced only under terminals that follow
their rule. -/
theorem Auto.slr_no_conflict (h : Auto D S b0 states acts next red) (hpr : AllProductive D)
    (hr : Reaches states next)
    (hf : ∀ {i : Nat} {s p x}, states[i]? = some s → p ∈ s → red p x →
      Terminal D x ∧ InFollow D S eof p.rule x)
    (hlr : SLR1 D S eof) : ∀ i x a b, cellAt acts i x ≠ some (.conflict a b) := by
  intro i x a b hc
  obtain ⟨row, hrow, hc⟩ := Option.bind_eq_some_iff.mp (show acts[i]?.bind _ = _ from hc)
  have hi : i < states.length := by rw [← h.len]; exact (List.getElem?_eq_some_iff.mp hrow).1
  have hs : states[i]? = some states[i] := List.getElem?_eq_getElem hi
  generalize states[i] = s at hs
  obtain ⟨a1, a2, d1, d2, hne⟩ := (((h.cell hs hrow).2 x).conflict _ hc).mp ⟨a, b, rfl⟩
  obtain ⟨st, syms, hp⟩ := hr i s hs
  have item : ∀ {p : Position T}, p ∈ s → ValidItem D S syms.reverse p.rule p.seq.2
      (p.seq.1.take p.point) (p.seq.1.drop p.point) := by
    intro p hps
    obtain ⟨w, hw, hd⟩ := h.rviable hpr hp rfl hs hps
    refine ⟨by rw [List.take_append_drop]; exact (h.prod hs hps).1, _, w, h.split_syms hp hs hps, hw, hd⟩
  have comp : ∀ {p : Position T}, p ∈ s → p.top = none →
      ValidItem D S syms.reverse p.rule p.seq.2 p.seq.1 [] := by
    intro p hps ht
    have := item hps
    rwa [List.take_of_length_le (top_none ht), List.drop_eq_nil_of_le (top_none ht)] at this
  have mixed : (∃ p ∈ s, p.top = some x) → (∃ p ∈ s, p.top = none ∧ red p x) → False := by
    rintro ⟨q, hq, hqt⟩ ⟨p, hps, ht, hrd⟩
    obtain ⟨hx, hfx⟩ := hf hs hps hrd
    have hv := item hq
    have e : q.seq.1.drop q.point = x :: q.seq.1.drop (q.point + 1) := by
      rw [List.drop_eq_getElem_cons (top_lt hqt)]
      congr 1
      have : q.seq.1[q.point]? = some x := hqt
      rw [List.getElem?_eq_getElem (top_lt hqt)] at this
      exact Option.some.inj this
    rw [e] at hv
    exact hlr.2 _ _ _ _ _ _ _ _ _ (comp hps ht) hv hx hfx
  have hgo : ∀ {a : Action T}, Dec D S (next s) red s x a →
      (∃ j, next s x = some j ∧ (Terminal D x ∧ a = .shift j ∨ Nonterminal D x ∧ a = .goto j) ∧
        ∃ p ∈ s, p.top = some x) ∨
      (∃ p ∈ s, p.top = none ∧ red p x ∧ a = if p.rule = S then .acc else .reduce p.rule p.seq) := by
    rintro a (⟨p, hp, ht, j, hj, hk⟩ | ⟨p, hp, ht, hr, hk⟩)
    · exact Or.inl ⟨j, hj, hk, p, hp, ht⟩
    · refine Or.inr ⟨p, hp, ht, hr, ?_⟩
      rcases hk with ⟨e, rfl⟩ | ⟨e, rfl⟩
      · rw [if_pos e]
      · rw [if_neg e]
  rcases hgo d1 with ⟨j, g1, g2, g3⟩ | ⟨p, hp1, ht1, hr1, e1⟩ <;>
    rcases hgo d2 with ⟨m, k1, k2, k3⟩ | ⟨q, hp2, ht2, hr2, e2⟩
  · rw [g1] at k1; cases k1
    rcases g2 with ⟨g2, rfl⟩ | ⟨g2, rfl⟩ <;> rcases k2 with ⟨k2, rfl⟩ | ⟨k2, rfl⟩
    · exact hne rfl
    · exact absurd g2 (not_terminal_iff.mpr k2)
    · exact absurd k2 (not_terminal_iff.mpr g2)
    · exact hne rfl
  · exact mixed g3 ⟨q, hp2, ht2, hr2⟩
  · exact mixed k3 ⟨p, hp1, ht1, hr1⟩
  · obtain ⟨hx, f1⟩ := hf hs hp1 hr1
    obtain ⟨_, f2⟩ := hf hs hp2 hr2
    obtain ⟨r1, r2⟩ := hlr.1 _ _ _ _ _ _ _ x (comp hp1 ht1) (comp hp2 ht2) hx f1 f2
    apply hne
    have : p.seq = q.seq := by
      refine Prod.ext ?_ r2
      have k5 := (h.prod hs hp1).1
      rw [r1, r2] at k5
      exact k5.unique (h.prod hs hp2).1
    rw [e1, e2, r1, this]

end

end Lrp
