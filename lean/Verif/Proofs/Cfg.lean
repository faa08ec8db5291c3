import Verif.Spec.Cfg

/-! Lemmas about the specification of grammars: derivations and parse trees. -/

namespace Lrp.Spec

variable {M T : Type}

theorem Declared.unique {D : Decls T} {A : T} {bs bs' : List (List T)} (h : Declared D A bs)
    (h' : Declared D A bs') : bs = bs' := by
  obtain ⟨p, q, e, hq⟩ := h
  obtain ⟨p', q', e', hq'⟩ := h'
  rw [e] at e'
  rw [List.append_eq_append_iff] at e'
  rcases e' with ⟨a, h1, h2⟩ | ⟨a, h1, h2⟩
  · cases a with
    | nil => simp at h2; exact h2.1
    | cons x xs =>
      simp at h2
      exact absurd rfl (hq (A, bs') (by rw [h2.2]; simp))
  · cases a with
    | nil => simp at h2; exact h2.1.symm
    | cons x xs =>
      simp at h2
      exact absurd rfl (hq' (A, bs) (by rw [h2.2]; simp))

theorem IsProd.nonterminal {D : Decls T} {A : T} {i : Nat} {b : List T} (h : IsProd D A i b) :
    Nonterminal D A := by
  obtain ⟨bs, ⟨p, q, e, _⟩, _⟩ := h
  exact ⟨(A, bs), by rw [e]; simp, rfl⟩

theorem not_terminal_iff {D : Decls T} {A : T} : ¬ Terminal D A ↔ Nonterminal D A := by
  simp [Terminal, Nonterminal]

theorem IsProd.not_terminal {D : Decls T} {A : T} {i : Nat} {b : List T} (h : IsProd D A i b) :
    ¬ Terminal D A := not_terminal_iff.mpr h.nonterminal

theorem IsProd.unique {D : Decls T} {A : T} {i : Nat} {b b' : List T} (h : IsProd D A i b)
    (h' : IsProd D A i b') : b = b' := by
  obtain ⟨bs, h1, h2⟩ := h
  obtain ⟨bs', h1', h2'⟩ := h'
  rw [h1.unique h1'] at h2
  rw [h2] at h2'
  exact Option.some.inj h2'

namespace Derives

theorem single {D : Decls T} {a b : List T} (h : Step D a b) : Derives D a b :=
  .head h (.refl _)

theorem trans {D : Decls T} {a b c : List T} (h : Derives D a b) (h' : Derives D b c) :
    Derives D a c := by
  induction h with
  | refl => exact h'
  | head s _ ih => exact .head s (ih h')

theorem step_ctx {D : Decls T} {a b : List T} (h : Step D a b) (u v : List T) :
    Step D (u ++ a ++ v) (u ++ b ++ v) := by
  cases h with
  | mk x y hp =>
    have := Step.mk (u ++ x) (y ++ v) hp
    simpa [List.append_assoc] using this

theorem ctx {D : Decls T} {a b : List T} (h : Derives D a b) (u v : List T) :
    Derives D (u ++ a ++ v) (u ++ b ++ v) := by
  induction h with
  | refl => exact .refl _
  | head s _ ih => exact .head (step_ctx s u v) ih

theorem append {D : Decls T} {a b c d : List T} (h : Derives D a b) (h' : Derives D c d) :
    Derives D (a ++ c) (b ++ d) := by
  have h1 := ctx h [] c
  have h2 := ctx h' b []
  simp only [List.nil_append, List.append_nil] at h1 h2
  exact h1.trans h2

theorem cons {D : Decls T} {A : T} {b c d : List T} (h : Derives D [A] b) (h' : Derives D c d) :
    Derives D (A :: c) (b ++ d) := by
  have := append h h'
  simpa using this

theorem of_prod {D : Decls T} {A : T} {i : Nat} {b : List T} (h : IsProd D A i b) :
    Derives D [A] b := by
  have := Step.mk [] [] h
  exact single (by simpa using this)

/-- A derivation from a concatenation splits. -/
theorem split {D : Decls T} {a b w : List T} (h : Derives D (a ++ b) w) :
    ∃ u v, w = u ++ v ∧ Derives D a u ∧ Derives D b v := by
  generalize hc : a ++ b = c at h
  induction h generalizing a b with
  | refl c => subst hc; exact ⟨a, b, rfl, .refl _, .refl _⟩
  | @head x y z s _ ih =>
    have hab := hc
    clear hc
    cases s with
    | @mk p q A i body hp =>
      rw [List.append_eq_append_iff] at hab
      rcases hab with ⟨e, h1, h2⟩ | ⟨e, h1, h2⟩
      · -- p = a ++ e, b = e ++ A :: q
        subst h1 h2
        obtain ⟨u, v, e1, e2, e3⟩ := ih (a := a) (b := e ++ body ++ q) (by simp)
        exact ⟨u, v, e1, e2, .head (.mk e q hp) e3⟩
      · cases e with
        | nil =>
          simp at h1 h2
          subst h1 h2
          obtain ⟨u, v, e1, e2, e3⟩ := ih (a := a) (b := body ++ q) (by simp)
          exact ⟨u, v, e1, e2, .head (by simpa using Step.mk [] q hp) e3⟩
        | cons y ys =>
          simp at h2
          obtain ⟨h2, h3⟩ := h2
          subst h2 h3 h1
          obtain ⟨u, v, e1, e2, e3⟩ := ih (a := p ++ body ++ ys) (b := b) (by simp)
          exact ⟨u, v, e1, .head (.mk p ys hp) e2, e3⟩

end Derives

namespace Tree

/-- Induction on trees. -/
theorem ind {P : Tree M T → Prop} (leaf : ∀ tok, P (.leaf tok))
    (node : ∀ A i cs, (∀ c ∈ cs, P c) → P (.node A i cs)) (t : Tree M T) : P t :=
  Tree.rec (motive_1 := P) (motive_2 := fun cs => ∀ c ∈ cs, P c) leaf
    (fun A i cs h => node A i cs h) (by simp) (fun c cs h hs => by simpa using ⟨h, hs⟩) t

@[simp] theorem yields_append (a b : List (Tree M T)) : yields (a ++ b) = yields a ++ yields b := by
  induction a with
  | nil => simp [yields]
  | cons c cs ih => simp [yields, ih]

@[simp] theorem yields_nil : yields ([] : List (Tree M T)) = [] := by simp [yields]

theorem yields_singleton (c : Tree M T) : yields [c] = yield c := by simp [yields]

@[simp] theorem yield_leaf (tok : Token M T) : yield (.leaf tok) = [tok] := by simp [yield]
@[simp] theorem yield_node (A : T) (i : Nat) (cs : List (Tree M T)) :
    yield (.node A i cs) = yields cs := by simp [yield]
theorem yields_cons (c : Tree M T) (cs : List (Tree M T)) : yields (c :: cs) = yield c ++ yields cs := by
  simp [yields]

theorem yields_derives_of {D : Decls T} {cs : List (Tree M T)}
    (h : ∀ c ∈ cs, Derives D [c.root] (c.yield.map Token.ty)) :
    Derives D (cs.map root) ((yields cs).map Token.ty) := by
  induction cs with
  | nil => simp; exact .refl _
  | cons c cs ih =>
    simp only [List.map_cons, yields_cons, List.map_append]
    exact (h c (by simp)).cons (ih (fun c hc => h c (List.mem_cons_of_mem _ hc)))

/-- A parse tree is a derivation of its yield. -/
theorem Valid.derives {D : Decls T} {t : Tree M T} (h : Valid D t) :
    Derives D [t.root] (t.yield.map Token.ty) := by
  induction t using Tree.ind with
  | leaf tok => simp [root]; exact .refl _
  | node A i cs ih =>
    cases h with
    | node hp hc =>
      simp only [root, yield_node]
      exact (Derives.of_prod hp).trans (yields_derives_of (fun c h => ih c h (hc c h)))

theorem forest_derives {D : Decls T} {cs : List (Tree M T)} (h : ∀ c ∈ cs, Valid D c) :
    Derives D (cs.map root) ((yields cs).map Token.ty) :=
  yields_derives_of (fun c hc => (h c hc).derives)

theorem Valid.terminals {D : Decls T} {t : Tree M T} (h : Valid D t) :
    ∀ tok ∈ t.yield, Terminal D tok.ty := by
  induction t using Tree.ind with
  | leaf tok => cases h with | leaf h => simpa using h
  | node A i cs ih =>
    cases h with
    | node hp hc =>
      simp only [yield_node]
      clear hp
      induction cs with
      | nil => simp
      | cons c cs ihc =>
        intro tok htok
        rw [yields_cons, List.mem_append] at htok
        rcases htok with htok | htok
        · exact ih c (by simp) (hc c (by simp)) tok htok
        · exact ihc (fun c h => ih c (List.mem_cons_of_mem _ h))
            (fun c h => hc c (List.mem_cons_of_mem _ h)) tok htok

theorem forest_terminals {D : Decls T} {cs : List (Tree M T)} (h : ∀ c ∈ cs, Valid D c) :
    ∀ tok ∈ yields cs, Terminal D tok.ty := by
  induction cs with
  | nil => simp
  | cons c cs ih =>
    intro tok htok
    rw [yields_cons, List.mem_append] at htok
    rcases htok with htok | htok
    · exact (h c (by simp)).terminals tok htok
    · exact ih (fun c hc => h c (List.mem_cons_of_mem _ hc)) tok htok

/-- Every derivation of a terminal string is the reading of a forest. -/
theorem forest_of_derives {D : Decls T} {a : List T} {toks : List (Token M T)}
    (h : Derives D a (toks.map Token.ty)) (ht : ∀ tok ∈ toks, Terminal D tok.ty) :
    ∃ cs : List (Tree M T), cs.map root = a ∧ (∀ c ∈ cs, Valid D c) ∧ yields cs = toks := by
  generalize hw : toks.map Token.ty = w at h
  induction h with
  | refl a =>
    subst hw
    refine ⟨toks.map .leaf, ?_, ?_, ?_⟩
    · simp [Function.comp_def, root]
    · intro c hc
      obtain ⟨tok, h1, rfl⟩ := List.mem_map.mp hc
      exact .leaf (ht tok h1)
    · clear ht
      induction toks with
      | nil => simp
      | cons t ts ih => simp [yields_cons, ih]
  | head s _ ih =>
    obtain ⟨cs, h1, h2, h3⟩ := ih hw
    cases s with
    | @mk u v A i body hp =>
      obtain ⟨cs1, cv, rfl, h4, h5⟩ := List.map_eq_append_iff.mp h1
      obtain ⟨cu, cb, rfl, h6, h7⟩ := List.map_eq_append_iff.mp h4
      refine ⟨cu ++ .node A i cb :: cv, ?_, ?_, ?_⟩
      · simp [h6, h5, root]
      · intro c hc
        rcases List.mem_append.mp hc with hc | hc
        · exact h2 c (by simp [hc])
        · rcases List.mem_cons.mp hc with rfl | hc
          · exact .node (by rw [h7]; exact hp) (fun c hc => h2 c (by simp [hc]))
          · exact h2 c (by simp [hc])
      · simp [yields_cons] at h3 ⊢
        exact h3

/-- Every derivation of a terminal string from one symbol is the reading of a tree. -/
theorem of_derives {D : Decls T} {A : T} {toks : List (Token M T)}
    (h : Derives D [A] (toks.map Token.ty)) (ht : ∀ tok ∈ toks, Terminal D tok.ty) :
    ∃ t : Tree M T, t.root = A ∧ Valid D t ∧ t.yield = toks := by
  obtain ⟨cs, h1, h2, h3⟩ := forest_of_derives h ht
  obtain ⟨c, rfl, h4⟩ := List.map_eq_singleton_iff.mp h1
  exact ⟨c, h4, h2 c (by simp), by rw [← h3, yields_singleton]⟩

end Tree

end Lrp.Spec
