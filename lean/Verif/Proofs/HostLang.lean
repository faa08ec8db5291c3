import Verif.Proofs.Host

/-! What the grammar with another one inside derives, and when its tables can be made. -/

set_option linter.unusedSectionVars false

namespace Lrp
open Spec

theorem Filled.map {U V : Type} {f : U → V} (hf : Injective f) {inner : List U → Prop} {inner' : List V → Prop}
    (hi : ∀ v, inner v → inner' (v.map f)) {k o c : U} {u w : List U} (h : Filled inner k o c u w) :
    Filled inner' (f k) (f o) (f c) (u.map f) (w.map f) := by
  induction h with
  | nil => exact .nil
  | keep hx _ ih => exact .keep (fun e => hx (hf _ _ e)) ih
  | hole hv _ ih =>
    simp only [List.map_cons, List.map_append]
    exact .hole (hi _ hv) ih

/-! ### Folding two graphs without common vertices -/

section
variable {T : Type} {G G1 G2 : T → T → Prop} {P Q : T → Prop}

theorem fold_empty {n : Nat} (h : ∀ A B, ¬ Fold G n A B) (j : Nat) : ∀ A B, ¬ Fold G (n + j) A B := by
  induction j with
  | zero => exact h
  | succ j ih => rintro A B ⟨_, C, h1, _⟩; exact ih A C h1

theorem fold_both (h1 : ∀ A B, G1 A B → P A ∧ P B) (h2 : ∀ A B, G2 A B → Q A ∧ Q B) (hpq : ∀ A, P A → ¬ Q A)
    (h : ∀ A B, G A B ↔ G1 A B ∨ G2 A B) (n : Nat) : ∀ A B, (Fold G1 n A B → P A ∧ P B) ∧ (Fold G2 n A B → Q A ∧ Q B) ∧
      (Fold G n A B ↔ Fold G1 n A B ∨ Fold G2 n A B) := by
  induction n with
  | zero => exact fun A B => ⟨h1 A B, h2 A B, h A B⟩
  | succ n ih =>
    intro A B
    refine ⟨?_, ?_, ?_⟩
    · rintro ⟨_, C, k1, k2⟩; exact ⟨((ih A C).1 k1).1, ((ih C B).1 k2).2⟩
    · rintro ⟨_, C, k1, k2⟩; exact ⟨((ih A C).2.1 k1).1, ((ih C B).2.1 k2).2⟩
    · constructor
      · rintro ⟨hne, C, k1, k2⟩
        rcases (ih A C).2.2.mp k1 with k1 | k1 <;> rcases (ih C B).2.2.mp k2 with k2 | k2
        · exact .inl ⟨hne, C, k1, k2⟩
        · exact absurd ((ih C B).2.1 k2).1 (hpq _ ((ih A C).1 k1).2)
        · exact absurd ((ih A C).2.1 k1).2 (hpq _ ((ih C B).1 k2).1)
        · exact .inr ⟨hne, C, k1, k2⟩
      · rintro (⟨hne, C, k1, k2⟩ | ⟨hne, C, k1, k2⟩)
        · exact ⟨hne, C, (ih A C).2.2.mpr (.inl k1), (ih C B).2.2.mpr (.inl k2)⟩
        · exact ⟨hne, C, (ih A C).2.2.mpr (.inr k1), (ih C B).2.2.mpr (.inr k2)⟩

theorem foldsAway_both (h1 : ∀ A B, G1 A B → P A ∧ P B) (h2 : ∀ A B, G2 A B → Q A ∧ Q B) (hpq : ∀ A, P A → ¬ Q A)
    (h : ∀ A B, G A B ↔ G1 A B ∨ G2 A B) : FoldsAway G ↔ FoldsAway G1 ∧ FoldsAway G2 := by
  have key := fold_both h1 h2 hpq h
  constructor
  · rintro ⟨n, hn⟩
    exact ⟨⟨n, fun A B k => hn A B ((key n A B).2.2.mpr (.inl k))⟩, ⟨n, fun A B k => hn A B ((key n A B).2.2.mpr (.inr k))⟩⟩
  · rintro ⟨⟨n, hn⟩, ⟨m, hm⟩⟩
    refine ⟨n + m, fun A B k => ?_⟩
    rcases (key (n + m) A B).2.2.mp k with k | k
    · exact fold_empty hn m A B k
    · rw [Nat.add_comm] at k
      exact fold_empty hm n A B k

end

variable {T : Type} [LinOrd T] [DecidableEq T] {D E : Decls T} {S A o R c k : T}

theorem foldsAway_left (hap : Separate D E) : FoldsAway (Loopless (LeftGraph (D ++ E))) ↔
    FoldsAway (Loopless (LeftGraph D)) ∧ FoldsAway (Loopless (LeftGraph E)) := by
  refine foldsAway_both (P := Nonterminal D) (Q := Nonterminal E) ?_ ?_ ?_ ?_
  · rintro X Y ⟨_, h, i, b, hp⟩; exact ⟨hp.nonterminal, h⟩
  · rintro X Y ⟨_, h, i, b, hp⟩; exact ⟨hp.nonterminal, h⟩
  · exact fun X h1 h2 => not_terminal_iff.mpr h1 (hap.1 X h2).1
  · intro X Y
    constructor
    · rintro ⟨hne, h, i, b, hp⟩
      rcases (isProd_both hap).mp hp with hp | hp
      · refine .inl ⟨hne, (nonterminal_both.mp h).resolve_right fun h => ?_, i, b, hp⟩
        exact (hap.1 Y h).2 X i _ hp (by simp)
      · refine .inr ⟨hne, (nonterminal_both.mp h).resolve_left fun h => ?_, i, b, hp⟩
        exact (hap.2 Y h).2 X i _ hp (by simp)
    · rintro (⟨hne, h, i, b, hp⟩ | ⟨hne, h, i, b, hp⟩)
      · exact ⟨hne, nonterminal_both.mpr (.inl h), i, b, (isProd_both hap).mpr (.inl hp)⟩
      · exact ⟨hne, nonterminal_both.mpr (.inr h), i, b, (isProd_both hap).mpr (.inr hp)⟩

theorem foldsAway_right (hap : Separate D E) : FoldsAway (Loopless (RightGraph (D ++ E))) ↔
    FoldsAway (Loopless (RightGraph D)) ∧ FoldsAway (Loopless (RightGraph E)) := by
  refine foldsAway_both (P := Nonterminal D) (Q := Nonterminal E) ?_ ?_ ?_ ?_
  · rintro X Y ⟨_, h, i, b, hp⟩; exact ⟨h, hp.nonterminal⟩
  · rintro X Y ⟨_, h, i, b, hp⟩; exact ⟨h, hp.nonterminal⟩
  · exact fun X h1 h2 => not_terminal_iff.mpr h1 (hap.1 X h2).1
  · intro X Y
    constructor
    · rintro ⟨hne, h, i, b, hp⟩
      rcases (isProd_both hap).mp hp with hp | hp
      · refine .inl ⟨hne, (nonterminal_both.mp h).resolve_right fun h => ?_, i, b, hp⟩
        exact (hap.1 X h).2 Y i _ hp (by simp)
      · refine .inr ⟨hne, (nonterminal_both.mp h).resolve_left fun h => ?_, i, b, hp⟩
        exact (hap.2 X h).2 Y i _ hp (by simp)
    · rintro (⟨hne, h, i, b, hp⟩ | ⟨hne, h, i, b, hp⟩)
      · exact ⟨hne, nonterminal_both.mpr (.inl h), i, b, (isProd_both hap).mpr (.inl hp)⟩
      · exact ⟨hne, nonterminal_both.mpr (.inr h), i, b, (isProd_both hap).mpr (.inr hp)⟩

theorem noEmpty_both (hap : Separate D E) : NoEmpty (D ++ E) ↔ NoEmpty D ∧ NoEmpty E := by
  constructor
  · intro h
    exact ⟨fun X i b hp => h X i b ((isProd_both hap).mpr (.inl hp)), fun X i b hp => h X i b ((isProd_both hap).mpr (.inr hp))⟩
  · rintro ⟨h1, h2⟩ X i b hp
    exact ((isProd_both hap).mp hp).elim (h1 X i b) (h2 X i b)

/-! ### Texts with filled holes -/

theorem Filled.append {inner : List T → Prop} {u w u' w' : List T} (h : Filled inner k o c u w)
    (h' : Filled inner k o c u' w') : Filled inner k o c (u ++ u') (w ++ w') := by
  induction h with
  | nil => exact h'
  | keep hx _ ih => exact .keep hx ih
  | hole hv _ ih =>
    simp only [List.cons_append, List.append_assoc]
    exact .hole hv ih

theorem Filled.plain {inner : List T → Prop} : ∀ {u : List T}, k ∉ u → Filled inner k o c u u
  | [], _ => .nil
  | x :: u, h => .keep (fun e => h (by simp [e])) (Filled.plain fun h' => h (List.mem_cons_of_mem _ h'))

/-- Where a symbol other than the brackets stands in a filled text. -/
theorem Filled.at {inner : List T → Prop} {X : T} (hXo : X ≠ o) (hXc : X ≠ c) {u φ : List T} (h : Filled inner k o c u φ) :
    ∀ {p q : List T}, φ = p ++ X :: q →
      (∃ u1 u2, u = u1 ++ X :: u2 ∧ X ≠ k ∧ Filled inner k o c u1 p ∧ Filled inner k o c u2 q) ∨
      (∃ u1 u2 p1 v1 v2 q2, u = u1 ++ k :: u2 ∧ p = p1 ++ o :: v1 ∧ q = v2 ++ c :: q2 ∧ inner (v1 ++ X :: v2) ∧
        Filled inner k o c u1 p1 ∧ Filled inner k o c u2 q2) := by
  induction h with
  | nil => intro p q e; simp at e
  | @keep x u w hx hf ih =>
    intro p q e
    cases p with
    | nil =>
      simp only [List.nil_append, List.cons.injEq] at e
      obtain ⟨rfl, rfl⟩ := e
      exact .inl ⟨[], u, rfl, hx, .nil, hf⟩
    | cons y p =>
      simp only [List.cons_append, List.cons.injEq] at e
      obtain ⟨rfl, rfl⟩ := e
      rcases ih rfl with ⟨u1, u2, rfl, h1, h2, h3⟩ | ⟨u1, u2, p1, v1, v2, q2, rfl, rfl, rfl, h1, h2, h3⟩
      · exact .inl ⟨x :: u1, u2, rfl, h1, .keep hx h2, h3⟩
      · exact .inr ⟨x :: u1, u2, x :: p1, v1, v2, q2, rfl, rfl, rfl, h1, .keep hx h2, h3⟩
  | @hole v u w hv hf ih =>
    intro p q e
    cases p with
    | nil =>
      simp only [List.nil_append, List.cons.injEq] at e
      exact absurd e.1.symm hXo
    | cons y p =>
      simp only [List.cons_append, List.cons.injEq] at e
      obtain ⟨rfl, e⟩ := e
      rcases List.append_eq_append_iff.mp e with ⟨r, rfl, h1⟩ | ⟨r, rfl, h1⟩
      · cases r with
        | nil =>
          simp only [List.nil_append, List.cons.injEq] at h1
          exact absurd h1.1.symm hXc
        | cons z r =>
          simp only [List.cons_append, List.cons.injEq] at h1
          obtain ⟨rfl, h1⟩ := h1
          rcases ih h1 with ⟨u1, u2, rfl, h2, h3, h4⟩ | ⟨u1, u2, p1, v1, v2, q2, rfl, rfl, rfl, h2, h3, h4⟩
          · exact .inl ⟨k :: u1, u2, rfl, h2, .hole hv h3, h4⟩
          · exact .inr ⟨k :: u1, u2, o :: (v ++ c :: p1), v1, v2, q2, rfl, by simp, rfl, h2, .hole hv h3, h4⟩
      · cases r with
        | nil =>
          simp only [List.nil_append, List.cons.injEq] at h1
          exact absurd h1.1 hXc
        | cons z r =>
          simp only [List.cons_append, List.cons.injEq] at h1
          obtain ⟨rfl, rfl⟩ := h1
          exact .inr ⟨[], u, [], p, r, w, rfl, rfl, rfl, hv, .nil, hf⟩

theorem Filled.mem {inner : List T → Prop} {u w : List T} (h : Filled inner k o c u w) {x : T} (hx : x ∈ u) (hk : x ≠ k) :
    x ∈ w := by
  induction h with
  | nil => exact hx
  | keep _ _ ih =>
    rcases List.mem_cons.mp hx with rfl | hx
    · simp
    · exact List.mem_cons_of_mem _ (ih hx)
  | hole _ _ ih =>
    rcases List.mem_cons.mp hx with rfl | hx
    · exact absurd rfl hk
    · simp [ih hx]

theorem Filled.weaken {inner inner' : List T → Prop} {u w : List T} (h : Filled inner k o c u w)
    (hi : ∀ v, (∀ x ∈ v, x ∈ w) → inner v → inner' v) : Filled inner' k o c u w := by
  induction h with
  | nil => exact .nil
  | keep hx _ ih => exact .keep hx (ih fun v hv => hi v fun x hx => List.mem_cons_of_mem _ (hv x hx))
  | hole hv _ ih =>
    exact .hole (hi _ (fun x hx => by simp [hx]) hv) (ih fun v hv => hi v fun x hx => by simp [hv x hx])

/-! ### What is derived -/

/-- What is asked of the symbols for the language alone. -/
structure HostLang (D E : Decls T) (S A o R c k : T) : Prop where
  apart : Separate D E
  kD : Fresh D k
  oD : Terminal D o
  oE : Terminal E o
  cD : Terminal D c
  cE : Terminal E c
  S : Nonterminal D S
  A : Nonterminal D A
  R : Nonterminal E R

variable (q : HostLang D E S A o R c k)
include q

theorem HostLang.isProd {X : T} {i : Nat} {b : List T} (h : IsProd (Hosting D E A o R c) X i b) :
    IsProd D X i b ∨ IsProd E X i b ∨ (X = A ∧ b = [o, R, c]) := by
  rcases isProd_withAlt.mp h with h | ⟨rfl, rfl, _⟩
  · exact ((isProd_both q.apart).mp h).imp_right .inl
  · exact .inr (.inr ⟨rfl, rfl⟩)

theorem HostLang.newProd : ∃ i, IsProd (Hosting D E A o R c) A i [o, R, c] := by
  obtain ⟨bs, hd⟩ := declared_of_nonterminal (nonterminal_both.mpr (.inl q.A) : Nonterminal (D ++ E) A)
  exact ⟨_, isProd_withAlt.mpr (.inr ⟨rfl, rfl, bs, hd, rfl⟩)⟩

theorem HostLang.holeProd : ∃ i, IsProd (WithAlt D A [k]) A i [k] := by
  obtain ⟨bs, hd⟩ := declared_of_nonterminal q.A
  exact ⟨_, isProd_withAlt.mpr (.inr ⟨rfl, rfl, bs, hd, rfl⟩)⟩

/-- A form of the outer grammar has no rule names of the inner one, apart from what stands for a hole. -/
theorem HostLang.outer {u : List T} (h : Derives (WithAlt D A [k]) [S] u) {x : T} (hx : x ∈ u) (hk : x ≠ k) :
    ¬ Nonterminal E x := by
  intro hE
  rcases derives_from h hx with h | ⟨B, i, b, hp, hb⟩
  · rw [List.mem_singleton.mp h] at hE
    exact not_terminal_iff.mpr q.S (q.apart.1 S hE).1
  · rcases isProd_withAlt.mp hp with hp | ⟨_, rfl, _⟩
    · exact (q.apart.1 x hE).2 B i b hp hb
    · exact hk (List.mem_singleton.mp hb)

theorem HostLang.inner {v : List T} (h : Derives E [R] v) {x : T} (hx : x ∈ v) : ¬ Nonterminal D x := by
  intro hD
  rcases derives_from h hx with h | ⟨B, i, b, hp, hb⟩
  · rw [List.mem_singleton.mp h] at hD
    exact not_terminal_iff.mpr q.R (q.apart.2 R hD).1
  · exact (q.apart.2 x hD).2 B i b hp hb

theorem HostLang.forms {a φ : List T} (h : Derives (Hosting D E A o R c) a φ) :
    ∀ {u : List T}, Derives (WithAlt D A [k]) [S] u → Filled (Derives E [R]) k o c u a →
      ∃ u', Derives (WithAlt D A [k]) [S] u' ∧ Filled (Derives E [R]) k o c u' φ := by
  induction h with
  | refl => exact fun h1 h2 => ⟨_, h1, h2⟩
  | head hs _ ih =>
    intro u hu hf
    obtain @⟨p, r, X, i, b, hp⟩ := hs
    have hX : Nonterminal D X ∨ Nonterminal E X :=
      nonterminal_both.mp (nonterminal_withAlt.mp hp.nonterminal)
    have hXo : X ≠ o := by
      rintro rfl
      exact hX.elim (fun h => not_terminal_iff.mpr h q.oD) (fun h => not_terminal_iff.mpr h q.oE)
    have hXc : X ≠ c := by
      rintro rfl
      exact hX.elim (fun h => not_terminal_iff.mpr h q.cD) (fun h => not_terminal_iff.mpr h q.cE)
    rcases Filled.at hXo hXc hf rfl with ⟨u1, u2, rfl, hXk, h1, h2⟩ | ⟨u1, u2, p1, v1, v2, q2, rfl, rfl, rfl, h1, h2, h3⟩
    · have hXE := q.outer hu (x := X) (by simp) hXk
      rcases q.isProd hp with hp | hp | ⟨rfl, rfl⟩
      · refine ih (hu.trans (.head (Step.mk u1 u2 (isProd_withAlt.mpr (.inl hp))) (.refl _))) ?_
        exact Filled.append (Filled.append h1 (Filled.plain fun h => q.kD.2 _ _ _ hp h)) h2
      · exact absurd hp.nonterminal hXE
      · obtain ⟨j, hj⟩ := q.holeProd
        refine ih (hu.trans (.head (Step.mk u1 u2 hj) (.refl _))) ?_
        exact Filled.append (Filled.append h1 (Filled.hole (v := [R]) (.refl _) .nil)) h2
    · have hXD := q.inner h1 (x := X) (by simp)
      rcases q.isProd hp with hp | hp | ⟨rfl, rfl⟩
      · exact absurd hp.nonterminal hXD
      · refine ih hu ?_
        have h4 : Derives E [R] (v1 ++ b ++ v2) := h1.trans (.head (Step.mk v1 v2 hp) (.refl _))
        have := Filled.append h2 (Filled.hole h4 h3)
        simpa using this
      · exact absurd q.A hXD

/-- What is derived from a text with holes. -/
theorem HostLang.expand {a b : List T} (h : Derives (WithAlt D A [k]) a b) :
    Derives (Hosting D E A o R c) (putFor k [o, R, c] a) (putFor k [o, R, c] b) := by
  induction h with
  | refl => exact .refl _
  | head hs _ ih =>
    refine Spec.Derives.trans ?_ ih
    obtain @⟨p, r, X, i, b, hp⟩ := hs
    have hXk : X ≠ k := by
      rintro rfl
      exact not_terminal_iff.mpr (nonterminal_withAlt.mp hp.nonterminal) q.kD.1
    have e : putFor k [o, R, c] (p ++ X :: r) = putFor k [o, R, c] p ++ X :: putFor k [o, R, c] r := by
      rw [putFor_append, show X :: r = [X] ++ r from rfl, putFor_append, putFor_plain (a := [X]) (by simpa using hXk.symm)]
      rfl
    rw [e, putFor_append, putFor_append]
    rcases isProd_withAlt.mp hp with hp | ⟨rfl, rfl, _⟩
    · rw [putFor_plain (fun h => q.kD.2 _ _ _ hp h)]
      exact .head (Step.mk _ _ (isProd_withAlt.mpr (.inl ((isProd_both q.apart).mpr (.inl hp))))) (.refl _)
    · rw [putFor_self]
      obtain ⟨j, hj⟩ := q.newProd
      exact .head (Step.mk _ _ hj) (.refl _)

theorem HostLang.fill {u w : List T} (h : Filled (Sentence E R) k o c u w) :
    Derives (Hosting D E A o R c) (putFor k [o, R, c] u) w := by
  induction h with
  | nil => exact .refl _
  | @keep x u w hx _ ih =>
    rw [show x :: u = [x] ++ u from rfl, putFor_append, putFor_plain (a := [x]) (by simpa using Ne.symm hx)]
    simpa using ih.ctx [x] []
  | @hole v u w hv _ ih =>
    rw [show k :: u = [k] ++ u from rfl, putFor_append, putFor_self]
    have h1 : Derives (Hosting D E A o R c) [R] v :=
      fewer_derives (f := fun _ i => i) (fun _ _ _ hp => isProd_withAlt.mpr (.inl ((isProd_both q.apart).mpr (.inr hp)))) hv.1
    have h2 := h1.ctx [o] (c :: putFor k [o, R, c] u)
    have h3 := ih.ctx (o :: (v ++ [c])) []
    refine Spec.Derives.trans (by simpa using h2) ?_
    simpa using h3

/-- The texts of the outer grammar with the inner one between brackets: those of the outer grammar with holes, the
holes filled. -/
theorem HostLang.sentence {w : List T} : Sentence (Hosting D E A o R c) S w ↔
    ∃ u, Sentence (WithAlt D A [k]) S u ∧ Filled (Sentence E R) k o c u w := by
  have hSk : S ≠ k := by rintro rfl; exact not_terminal_iff.mpr q.S q.kD.1
  constructor
  · rintro ⟨h, ht⟩
    obtain ⟨u, h1, h2⟩ := q.forms h (.refl _) (Filled.plain (by simpa using hSk.symm))
    have ht' : ∀ x ∈ w, Terminal D x ∧ Terminal E x := fun x hx => terminal_both.mp (terminal_withAlt.mp (ht x hx))
    refine ⟨u, ⟨h1, fun x hx => terminal_withAlt.mpr ?_⟩, Filled.weaken h2 fun v hv hd => ⟨hd, fun x hx => (ht' x (hv x hx)).2⟩⟩
    by_cases hk : x = k
    · exact hk ▸ q.kD.1
    · exact (ht' x (Filled.mem h2 hx hk)).1
  · rintro ⟨u, ⟨h1, h2⟩, hf⟩
    have h3 := q.expand h1
    rw [putFor_plain (by simpa using hSk.symm)] at h3
    refine ⟨h3.trans (q.fill hf), ?_⟩
    have key : ∀ {u w : List T}, Filled (Sentence E R) k o c u w → (∀ x ∈ u, x ≠ k → Terminal D x ∧ Terminal E x) →
        ∀ x ∈ w, Terminal D x ∧ Terminal E x := by
      intro u w h
      induction h with
      | nil => intro _ x hx; cases hx
      | @keep y u w hy _ ih =>
        intro hu x hx
        rcases List.mem_cons.mp hx with rfl | hx
        · exact hu _ (by simp) hy
        · exact ih (fun x hx => hu x (List.mem_cons_of_mem _ hx)) x hx
      | @hole v u w hv _ ih =>
        intro hu x hx
        simp only [List.mem_cons, List.mem_append] at hx
        rcases hx with rfl | hx | rfl | hx
        · exact ⟨q.oD, q.oE⟩
        · exact ⟨Classical.byContradiction fun hn => q.inner hv.1 hx (not_terminal_iff.mp hn), hv.2 x hx⟩
        · exact ⟨q.cD, q.cE⟩
        · exact ih (fun x hx => hu x (List.mem_cons_of_mem _ hx)) x hx
    intro x hx
    refine terminal_withAlt.mpr (terminal_both.mpr (key hf (fun x hx hk => ⟨terminal_withAlt.mp (h2 x hx), ?_⟩) x hx))
    exact Classical.byContradiction fun hn => q.outer h1 hx hk (not_terminal_iff.mp hn)

end Lrp
