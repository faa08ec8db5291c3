import Verif.Spec.Suffices
import Verif.Proofs.Lalr1
import Verif.Proofs.Runs
import Verif.Proofs.Views

/-! A run on a sentence follows its tree if the reductions it needs are there; and where all sentences are accepted,
each with one tree only, those reductions are there. -/

set_option linter.unusedSectionVars false

namespace Lrp
open Spec
variable {T : Type} [LinOrd T] [DecidableEq T] {M : Type}

section
variable {D : Decls T} {S eof : T}

/-- The point moves over part of the body. -/
theorem Spec.ValidItem1.read {γ : List T} {A : T} {k : Nat} {β₁ δ β₂ : List T} {y : T}
    (h : ValidItem1 D S eof γ A k β₁ (δ ++ β₂) y) : ValidItem1 D S eof (γ ++ δ) A k (β₁ ++ δ) β₂ y := by
  obtain ⟨h1, α, w, rfl, h3, h4, h5⟩ := h
  exact ⟨by simpa [List.append_assoc] using h1, α, w, by simp, h3, h4, h5⟩

/-- The items of the nonterminal after the point. -/
theorem Spec.ValidItem1.close {γ : List T} {A : T} {k : Nat} {β₁ β₂ : List T} {C : T} {rest v : List (Token M T)}
    (h : ValidItem1 D S eof γ A k β₁ (C :: β₂) (lookSym eof rest)) (hd : Derives D β₂ (v.map Token.ty))
    (hv : TerminalToks D v) {k' : Nat} {b : List T} (hb : IsProd D C k' b) :
    ValidItem1 D S eof γ C k' [] b (lookSym eof (v ++ rest)) := by
  obtain ⟨h1, α, w, rfl, h3, h4, h5⟩ := h
  have hvt : Terminals D (v.map Token.ty) := by
    intro t ht
    obtain ⟨tok, h, rfl⟩ := List.mem_map.mp ht
    exact hv tok h
  refine ⟨by simpa using hb, α ++ β₁, v.map Token.ty ++ w, by simp, terminals_append.mpr ⟨hvt, h3⟩, ?_, ?_⟩
  · cases v with
    | nil => simpa using h4
    | cons tok v => rfl
  · have s : RStep D (α ++ A :: w) (α ++ (β₁ ++ C :: β₂) ++ w) := .mk α w h1 h3
    have h6 := (RDerives.of_derives hd hvt).ctx (α ++ β₁ ++ [C]) h3
    have := (RDerives.tail h5 s).trans (by simpa [List.append_assoc] using h6)
    simpa [List.append_assoc] using this

end

section
variable {D : Decls T} {S : T} {b0 : List T} {states : List (State T)} {acts : ActTable T}
  {next : State T → T → Option Nat} {red : Position T → T → Prop} {eof : T}

/-- `Suffices`, for the paths of an automaton. -/
def Enough (D : Decls T) (S eof : T) (states : List (State T)) (acts : ActTable T)
    (next : State T → T → Option Nat) : Prop :=
  ∀ (i : Nat) (st : List Nat) (γ : List T) (A : T) (k : Nat) (β : List T) (x : T),
    Path states next (i :: st) γ.reverse → ValidItem1 D S eof γ A k β [] x →
    (∃ u, Derives D γ u ∧ Terminals D u) →
    (A = S → cellAt acts i x = some .acc) ∧ (A ≠ S → cellAt acts i x = some (.reduce A (β, k)))

/-- What the run does on the yield of a tree, where its items are valid. -/
def FollowsV (D : Decls T) (S eof : T) (states : List (State T)) (acts : ActTable T)
    (next : State T → T → Option Nat) (t : Tree M T) : Prop :=
  ∀ (i : Nat) (st : List Nat) (s : State T) (p : Position T) (trs : List (Tree M T))
    (rest : List (Token M T)) (γ : List T), Path states next (i :: st) γ.reverse → states[i]? = some s → p ∈ s →
    p.top = some t.root → (∃ u, Derives D γ u ∧ Terminals D u) →
    (∀ k b, IsProd D t.root k b → ValidItem1 D S eof γ t.root k [] b (lookSym eof rest)) →
    ∃ j, next s t.root = some j ∧
      Moves acts eof ⟨i :: st, trs, t.yield ++ rest⟩ ⟨j :: i :: st, t :: trs, rest⟩

theorem derives_snoc {γ : List T} {c : Tree M T} (hu : ∃ u, Derives D γ u ∧ Terminals D u) (hc : Tree.Valid D c) :
    ∃ u, Derives D (γ ++ [c.root]) u ∧ Terminals D u := by
  obtain ⟨u, h1, h2⟩ := hu
  refine ⟨u ++ c.yield.map Token.ty, h1.append hc.derives, terminals_append.mpr ⟨h2, ?_⟩⟩
  intro t ht
  obtain ⟨tok, h3, rfl⟩ := List.mem_map.mp ht
  exact hc.terminals tok h3

theorem Auto.forestV (h : Auto D S b0 states acts next red) {cs : List (Tree M T)}
    (hc : ∀ c ∈ cs, FollowsV D S eof states acts next c) (hv : ∀ c ∈ cs, Tree.Valid D c) :
    ∀ (i : Nat) (st : List Nat) (s : State T) (p : Position T) (trs : List (Tree M T))
      (rest : List (Token M T)) (γ β₁ : List T) (A : T) (k : Nat), Path states next (i :: st) γ.reverse →
      states[i]? = some s → p ∈ s → p.seq.1.drop p.point = cs.map Tree.root →
      (∃ u, Derives D γ u ∧ Terminals D u) →
      ValidItem1 D S eof γ A k β₁ (cs.map Tree.root) (lookSym eof rest) →
      ∃ i' st', Path states next (i' :: st') (γ ++ cs.map Tree.root).reverse ∧
        (∃ u, Derives D (γ ++ cs.map Tree.root) u ∧ Terminals D u) ∧ (i' :: st').drop cs.length = i :: st ∧
        Moves acts eof ⟨i :: st, trs, Tree.yields cs ++ rest⟩ ⟨i' :: st', cs.reverse ++ trs, rest⟩ := by
  induction cs with
  | nil =>
    intro i st s p trs rest γ β₁ A k hp hs hps hd hu hval
    exact ⟨i, st, by simpa using hp, by simpa using hu, rfl, .refl _⟩
  | cons c cs ih =>
    intro i st s p trs rest γ β₁ A k hp hs hps hd hu hval
    have htop : p.top = some c.root := by
      have := congrArg (·[0]?) hd
      simpa [Position.top, Position.peek] using this
    rw [Tree.yields_cons, List.append_assoc]
    have hvs : ∀ c ∈ cs, Tree.Valid D c := fun c h => hv c (List.mem_cons_of_mem _ h)
    obtain ⟨j, hj, hm⟩ := hc c (by simp) i st s p trs (Tree.yields cs ++ rest) γ hp hs hps htop hu (by
      intro k' b hb
      exact hval.close (Tree.forest_derives hvs) (Tree.forest_terminals hvs) hb)
    obtain ⟨j', s', e1, _, e2, _, e3⟩ := h.edge hs hps htop
    rw [hj] at e1; cases e1
    obtain ⟨q, hq, hb⟩ := e3 p hps htop
    have hq2 : q.seq = p.seq := hb.2.1
    have hq3 : q.point = p.point + 1 := hb.2.2
    have hval' : ValidItem1 D S eof (γ ++ [c.root]) A k (β₁ ++ [c.root]) (cs.map Tree.root) (lookSym eof rest) :=
      ValidItem1.read (by simpa using hval)
    obtain ⟨i', st', r1, r2, r3, r4⟩ := ih (fun c h => hc c (List.mem_cons_of_mem _ h)) hvs j (i :: st) s' q
      (c :: trs) rest (γ ++ [c.root]) (β₁ ++ [c.root]) A k
      (by rw [List.reverse_append]; exact .cons hp hs hps htop hj) e2 hq
      (by rw [hq2, hq3, ← List.drop_drop, hd]; simp) (derives_snoc hu (hv c (by simp))) hval'
    refine ⟨i', st', by simpa [List.append_assoc] using r1, by simpa [List.append_assoc] using r2, ?_, ?_⟩
    · rw [List.length_cons, ← List.drop_drop, r3]; rfl
    · simpa using hm.trans r4

theorem Auto.followsV (h : Auto D S b0 states acts next red) (hE : Enough D S eof states acts next)
    (hno : ∀ i x a b, cellAt acts i x ≠ some (.conflict a b)) (hS : InNoBody D S) {t : Tree M T}
    (hv : Tree.Valid D t) : FollowsV D S eof states acts next t := by
  induction t using Tree.ind with
  | leaf tok =>
    intro i st s p trs rest γ hp hs hps ht hu hval
    cases hv with
    | leaf htok =>
      obtain ⟨j, s', e1, _, e2, _, _⟩ := h.edge hs hps ht
      simp only [Tree.root] at ht e1 ⊢
      rcases h.dec_cell hs (Or.inl ⟨p, hps, ht, j, e1, Or.inl ⟨htok, rfl⟩⟩) with hc | ⟨a, b, hc⟩
      · exact ⟨j, e1, by simpa using Moves.head (.shift hc) (.refl _)⟩
      · exact absurd hc (hno _ _ _ _)
  | node A k cs ih =>
    intro i st s p trs rest γ hp hs hps ht hu hval
    cases hv with
    | node hprod hcs =>
      simp only [Tree.root, Tree.yield_node] at ht hval ⊢
      obtain ⟨q0, k1, k2, k3, k4⟩ := h.close hs hps ht hprod
      have hval0 := hval k _ hprod
      obtain ⟨i', st', r1, r2, r3, r4⟩ := h.forestV (fun c hc => ih c hc (hcs c hc)) hcs i st s q0 trs rest γ [] A k
        hp hs k1 (by rw [k3, k4]; simp) hu hval0
      have hA : A ≠ S := by
        rintro rfl
        exact hS _ _ _ (h.prod hs hps).1 (top_mem ht)
      have hvalE : ValidItem1 D S eof (γ ++ cs.map Tree.root) A k (cs.map Tree.root) [] (lookSym eof rest) := by
        simpa using ValidItem1.read (β₁ := []) (δ := cs.map Tree.root) (β₂ := []) (by simpa using hval0)
      have hcell := (hE _ _ _ _ _ _ _ r1 hvalE r2).2 hA
      have hlen : (cs.map Tree.root).length = cs.length := by simp
      have hget : (i' :: st')[(cs.map Tree.root).length]? = some i := by
        rw [hlen]
        have := congrArg (·[0]?) r3
        simpa using this
      have hle : (cs.map Tree.root).length ≤ (cs.reverse ++ trs).length := by simp
      obtain ⟨j, s2, e1, _, e2, _, _⟩ := h.edge hs hps ht
      rcases h.dec_cell hs (Or.inl ⟨p, hps, ht, j, e1, Or.inr ⟨hprod.nonterminal, rfl⟩⟩) with hg | ⟨a, b, hg⟩
      · refine ⟨j, e1, r4.tail ?_⟩
        have := Move.reduce hcell hle hget hg
        rw [hlen, r3] at this
        simpa using this
      · exact absurd hg (hno _ _ _ _)

/-- A sentence is accepted with its tree. -/
theorem Auto.completeV (h : Auto D S b0 states acts next red) (hE : Enough D S eof states acts next)
    (hno : ∀ i x a b, cellAt acts i x ≠ some (.conflict a b)) (hS : InNoBody D S)
    {cs : List (Tree M T)} (hv : Tree.Valid D (.node S 0 cs)) :
    ∃ c, Moves acts eof ⟨[0], [], Tree.yields cs⟩ c ∧ Accepts acts eof c ∧ c.trees = cs.reverse := by
  cases hv with
  | node hprod hcs =>
    obtain ⟨s, p, h1, h2, h3, h4, h5⟩ := h.basis
    have hb := hprod.unique h.start
    have hval : ValidItem1 D S eof [] S 0 [] (cs.map Tree.root) (lookSym eof ([] : List (Token M T))) :=
      ⟨by simpa using hprod, [], [], rfl, by simp [Terminals], rfl, .refl⟩
    obtain ⟨i', st', r1, r2, r3, r4⟩ := h.forestV (fun c hc => h.followsV hE hno hS (hcs c hc)) hcs 0 [] s p [] [] []
      [] S 0 .base h1 h2 (by rw [h4, h5]; exact hb.symm) ⟨[], .refl _, by simp [Terminals]⟩ hval
    have hvalE : ValidItem1 D S eof ([] ++ cs.map Tree.root) S 0 ([] ++ cs.map Tree.root) []
        (lookSym eof ([] : List (Token M T))) := ValidItem1.read (by simpa using hval)
    have hcell := (hE _ _ _ _ _ _ _ r1 hvalE r2).1 rfl
    exact ⟨_, by simpa using r4, ⟨i', st', rfl, hcell, rfl⟩, by simp⟩

end

/-! ### The run, backwards -/

/-- From the end of a run backwards: a leaf on top was shifted last, a node on top was made last. -/
inductive Backs (ts : List (Tree M T)) (b : List (Token M T)) : List (Tree M T) → List (Token M T) → Prop
  | refl : Backs ts b ts b
  | leaf {tok : Token M T} {r : List (Tree M T)} {x : List (Token M T)} :
      Backs ts b (.leaf tok :: r) x → Backs ts b r (tok :: x)
  | node {A : T} {k : Nat} {cs r : List (Tree M T)} {x : List (Token M T)} :
      Backs ts b (.node A k cs :: r) x → Backs ts b (cs.reverse ++ r) x

theorem Moves.last {acts : ActTable T} {eof : T} {c d : Conf M T} (h : Moves acts eof c d) :
    c = d ∨ ∃ e, Moves acts eof c e ∧ Move acts eof e d := by
  induction h with
  | refl => exact Or.inl rfl
  | @head c e d m _ ih =>
    rcases ih with rfl | ⟨e', h1, h2⟩
    · exact Or.inr ⟨_, .refl _, m⟩
    · exact Or.inr ⟨e', .head m h1, h2⟩

theorem Moves.last_tree {acts : ActTable T} {eof : T} {toks : List (Token M T)} {c : Conf M T}
    (h : Moves acts eof ⟨[0], [], toks⟩ c) {tr : Tree M T} {r : List (Tree M T)} (hc : c.trees = tr :: r) :
    ∃ e, Moves acts eof ⟨[0], [], toks⟩ e ∧ Move acts eof e c := by
  rcases h.last with rfl | h
  · cases hc
  · exact h

/-- The run was where it is found going backwards. -/
theorem Moves.backs {acts : ActTable T} {eof : T} {toks : List (Token M T)} {c : Conf M T}
    (h : Moves acts eof ⟨[0], [], toks⟩ c) {trs : List (Tree M T)} {x : List (Token M T)}
    (hb : Backs c.trees c.buf trs x) : ∃ st, Moves acts eof ⟨[0], [], toks⟩ ⟨st, trs, x⟩ := by
  induction hb with
  | refl => exact ⟨c.states, h⟩
  | leaf _ ih =>
    obtain ⟨st, h1⟩ := ih
    obtain ⟨e, h2, h3⟩ := h1.last_tree rfl
    cases h3 with
    | shift _ => exact ⟨_, h2⟩
  | @node A k cs r x _ ih =>
    obtain ⟨st, h1⟩ := ih
    obtain ⟨e, h2, h3⟩ := h1.last_tree rfl
    generalize hd : (⟨st, .node A k cs :: r, x⟩ : Conf M T) = d at h3
    cases h3 with
    | shift _ => cases hd
    | reduce k1 k2 k3 k4 =>
      cases hd
      rw [List.reverse_reverse, List.take_append_drop]
      exact ⟨_, h2⟩

/-- And the node made next is the one of a reduction in the table. -/
theorem Moves.backs_node {acts : ActTable T} {eof : T} {toks : List (Token M T)} {c : Conf M T}
    (h : Moves acts eof ⟨[0], [], toks⟩ c) {A : T} {k : Nat} {cs r : List (Tree M T)} {x : List (Token M T)}
    (hb : Backs c.trees c.buf (.node A k cs :: r) x) :
    ∃ i st b, Moves acts eof ⟨[0], [], toks⟩ ⟨i :: st, cs.reverse ++ r, x⟩ ∧
      cellAt acts i (lookSym eof x) = some (.reduce A (b, k)) := by
  obtain ⟨st, h1⟩ := h.backs hb
  obtain ⟨e, h2, h3⟩ := h1.last_tree rfl
  generalize hd : (⟨st, .node A k cs :: r, x⟩ : Conf M T) = d at h3
  cases h3 with
  | shift _ => cases hd
  | reduce k1 k2 k3 k4 =>
    cases hd
    rw [List.reverse_reverse, List.take_append_drop]
    exact ⟨_, _, _, h2, k1⟩

theorem Backs.leaves {ts : List (Tree M T)} {b : List (Token M T)} : ∀ (z : List (Token M T)) {r : List (Tree M T)}
    {x : List (Token M T)}, Backs ts b ((z.map Tree.leaf).reverse ++ r) x → Backs ts b r (z ++ x) := by
  intro z
  induction z with
  | nil => intro r x h; simpa using h
  | cons tok z ih =>
    intro r x h
    exact .leaf (ih (by simpa using h))

theorem Backs.yields {ts trs : List (Tree M T)} {b x : List (Token M T)} (h : Backs ts b trs x) :
    Tree.yields trs.reverse ++ x = Tree.yields ts.reverse ++ b := by
  induction h with
  | refl => rfl
  | leaf _ ih => rw [← ih]; simp [Tree.yields_append, Tree.yields_singleton]
  | node _ ih => rw [← ih]; simp [Tree.yields_append, Tree.yields_singleton]

theorem Backs.under {S : T} {k : Nat} {cs trs : List (Tree M T)} {b x : List (Token M T)}
    (h : Backs [.node S k cs] b trs x) : (trs = [.node S k cs] ∧ x = b) ∨ Backs cs.reverse b trs x := by
  induction h with
  | refl => exact Or.inl ⟨rfl, rfl⟩
  | leaf _ ih =>
    rcases ih with ⟨h, _⟩ | ih
    · cases h
    · exact Or.inr (.leaf ih)
  | node _ ih =>
    rcases ih with ⟨h, rfl⟩ | ih
    · cases h; right; rw [List.append_nil]; exact .refl
    · exact Or.inr (.node ih)

/-- The last nonterminal of a sentential form stands before what follows it. -/
theorem last_nonterminal {D : Decls T} {u y l z : List T} {A : T} (hy : Terminals D y) (hA : Nonterminal D A)
    (h : u ++ y = l ++ A :: z) : ∃ z₁, z = z₁ ++ y ∧ u = l ++ A :: z₁ := by
  rcases List.append_eq_append_iff.mp h with ⟨a, h1, h2⟩ | ⟨a, h1, h2⟩
  · exact absurd (hy A (by rw [h2]; simp)) (not_terminal_iff.mpr hA)
  · cases a with
    | nil =>
      simp only [List.nil_append] at h2
      exact absurd (hy A (by rw [← h2]; simp)) (not_terminal_iff.mpr hA)
    | cons B a =>
      simp only [List.cons_append, List.cons.injEq] at h2
      obtain ⟨rfl, rfl⟩ := h2
      exact ⟨a, rfl, h1⟩

/-- Trees for a right sentential form grow to a tree for the start symbol, whose run passes there. -/
theorem Spec.RDerives.backs {D : Decls T} {S : T} {w : List T} (h : RDerives D [S] w) :
    ∀ (l : List (Tree M T)) (a : Tree M T) (z : List (Token M T)), w = l.map Tree.root ++ a.root :: z.map Token.ty →
      Nonterminal D a.root → TerminalToks D z → (∀ c ∈ l, Tree.Valid D c) → Tree.Valid D a →
      ∃ t : Tree M T, Tree.Valid D t ∧ t.root = S ∧ Backs [t] [] (a :: l.reverse) z := by
  induction h with
  | refl =>
    intro l a z hw hA hz hl ha
    cases l with
    | nil =>
      simp only [List.map_nil, List.nil_append, List.cons.injEq] at hw
      have : z = [] := by simpa using hw.2.symm
      subst this
      exact ⟨a, ha, hw.1.symm, .refl⟩
    | cons c l => simp at hw
  | tail _ s ih =>
    intro l a z hw hA hz hl ha
    cases s with
    | @mk x y B i body hp hy =>
      obtain ⟨z₁, h1, h2⟩ := last_nonterminal hy hA hw
      obtain ⟨za, zb, rfl, rfl, rfl⟩ := List.map_eq_append_iff.mp h1
      have hf : (l ++ a :: za.map Tree.leaf).map Tree.root = x ++ body := by
        rw [h2]; simp [Function.comp_def, Tree.root]
      obtain ⟨fx, fb, e, rfl, rfl⟩ := List.map_eq_append_iff.mp hf
      have hva : ∀ c ∈ fx ++ fb, Tree.Valid D c := by
        intro c hc
        rw [← e] at hc
        rcases List.mem_append.mp hc with hc | hc
        · exact hl c hc
        · rcases List.mem_cons.mp hc with rfl | hc
          · exact ha
          · obtain ⟨tok, h3, rfl⟩ := List.mem_map.mp hc
            exact .leaf (hz tok (by simp [h3]))
      obtain ⟨t, k1, k2, k3⟩ := ih fx (.node B i fb) zb rfl hp.nonterminal
        (fun tok h => hz tok (by simp [h])) (fun c hc => hva c (by simp [hc]))
        (.node hp (fun c hc => hva c (by simp [hc])))
      refine ⟨t, k1, k2, Backs.leaves za ?_⟩
      have := k3.node
      rw [← List.reverse_append, ← e] at this
      simpa using this

section
variable {D : Decls T} {S : T} {b0 : List T} {states : List (State T)} {acts : ActTable T}
  {next : State T → T → Option Nat} {red : Position T → T → Prop} {eof : T}

/-- If all sentences are accepted, and no input has two trees, the reductions are there. -/
theorem Auto.enough (h : Auto D S b0 states acts next red) (hS : InNoBody D S)
    (hu : ∀ t₁ t₂ : Tree M T, Tree.Valid D t₁ → Tree.Valid D t₂ → t₁.root = S → t₂.root = S →
      t₁.yield = t₂.yield → t₁ = t₂) (m : M)
    (hall : ∀ toks : List (Token M T), Sentence D S (toks.map Token.ty) →
      ∃ c, Moves acts eof ⟨[0], [], toks⟩ c ∧ Accepts acts eof c) : Enough D S eof states acts next := by
  intro i st γ A k β x hp hval hder
  obtain ⟨hprod, α, w, rfl, hw, hx, hrd⟩ := hval
  obtain ⟨u, hd, hut⟩ := hder
  simp only [List.append_nil] at hprod
  have tys : ∀ l : List T, (l.map (fun t => (⟨m, t⟩ : Token M T))).map Token.ty = l := by
    intro l; simp [Function.comp_def]
  have ter : ∀ {l : List T}, Terminals D l → TerminalToks D (l.map (fun t => (⟨m, t⟩ : Token M T))) := by
    intro l hl tok ht
    obtain ⟨t, h1, rfl⟩ := List.mem_map.mp ht
    exact hl t h1
  obtain ⟨cs, c1, c2, c3⟩ := Tree.forest_of_derives (D := D) (a := α ++ β)
    (toks := u.map (fun t => (⟨m, t⟩ : Token M T))) (by rw [tys]; exact hd) (ter hut)
  obtain ⟨fa, fb, rfl, rfl, rfl⟩ := List.map_eq_append_iff.mp c1
  obtain ⟨t, k1, k2, k3⟩ := hrd.backs fa (.node A k fb) (w.map (fun t => (⟨m, t⟩ : Token M T)))
    (by rw [tys]; rfl) hprod.nonterminal (ter hw) (fun c hc => c2 c (by simp [hc]))
    (.node hprod (fun c hc => c2 c (by simp [hc])))
  obtain ⟨c, m1, m2⟩ := hall t.yield ⟨by rw [← k2]; exact k1.derives, by
    intro x hx
    obtain ⟨tok, h1, rfl⟩ := List.mem_map.mp hx
    exact k1.terminals tok h1⟩
  have hinv := h.inv_moves (inv_init D states next t.yield) m1
  have hacc := h.accepts hS hinv m2
  have hbuf : c.buf = [] := by obtain ⟨_, _, _, _, e⟩ := m2; exact e
  have hyield : t.yield = Tree.yields c.trees.reverse := by
    have := m1.yields
    rw [hbuf] at this
    simpa using this.symm
  have ht := hu t _ k1 hacc.1 k2 rfl (by simpa using hyield)
  have hlook : lookSym eof (w.map (fun t => (⟨m, t⟩ : Token M T))) = x := by
    cases w with
    | nil => simpa [lookSym] using hx
    | cons a w => simpa [lookSym] using hx
  rw [ht] at k3
  rcases k3.under with ⟨e1, e2⟩ | hb
  · simp only [List.cons.injEq, Tree.node.injEq, List.reverse_eq_nil_iff] at e1
    obtain ⟨⟨rfl, rfl, rfl⟩, rfl⟩ := e1
    refine ⟨fun _ => ?_, fun hn => absurd rfl hn⟩
    obtain ⟨i', st', q1, q2, _⟩ := m2
    have hpath := hinv.path
    rw [q1] at hpath
    have e := hp.unique (by simpa using hpath)
    cases e
    rw [← hlook, e2]
    exact q2
  · rw [List.reverse_reverse] at hb
    obtain ⟨i', st', b, n1, n2⟩ := m1.backs_node (by rw [hbuf]; exact hb)
    have hinv' := h.inv_moves (inv_init D states next t.yield) n1
    obtain ⟨r1, r2, _⟩ := h.reduce_stack hinv' n2
    have e := hp.unique (by simpa using hinv'.path)
    cases e
    refine ⟨fun hA => absurd hA r2, fun _ => ?_⟩
    rw [← hlook, n2, r1.unique hprod]

/-- A table without conflicts that has the reductions is one of an LR(1) grammar. -/
theorem Auto.lr1_enough (h : Auto D S b0 states acts next red) (hE : Enough D S eof states acts next)
    (hpr : AllProductive D) (he : Terminal D eof) (hS : SingleStart D S)
    (hno : ∀ i x a b, cellAt acts i x ≠ some (.conflict a b)) : LR1 D S eof := by
  refine h.lr1_of ?_ hS hno
  intro α β w A k hd hw hp y hy
  obtain ⟨i, st, s, q, g1, g2, _⟩ := Looks.handle h (h.looks_any (eof := eof)) he hS hd hw hp hy
  obtain ⟨u, hu1, hu2⟩ := productive_list hpr (α ++ β)
  have hcell := hE i st (α ++ β) A k β y g1 ⟨by simpa using hp, α, w, rfl, hw, hy, hd⟩ ⟨u, hu1, hu2⟩
  by_cases hA : A = S
  · rcases h.cell_dec g2 (hcell.1 hA) (by intro x y; simp) with ⟨p, _, _, j, _, hk⟩ | ⟨p, p1, p2, p3, hk⟩
    · rcases hk with ⟨_, hk⟩ | ⟨_, hk⟩ <;> cases hk
    · rcases hk with ⟨hk, _⟩ | ⟨_, hk⟩
      · have hprod := (h.prod g2 p1).1
        rw [hk] at hprod
        subst hA
        have e1 := hS _ _ hprod
        have e2 := hS _ _ hp
        rw [e1] at hprod
        subst e2
        exact ⟨i, st, s, p, g1, g2, p1, hk, Prod.ext (hprod.unique hp) e1, p2, p3⟩
      · cases hk
  · rcases h.cell_dec g2 (hcell.2 hA) (by intro x y; simp) with ⟨p, _, _, j, _, hk⟩ | ⟨p, p1, p2, p3, hk⟩
    · rcases hk with ⟨_, hk⟩ | ⟨_, hk⟩ <;> cases hk
    · rcases hk with ⟨_, hk⟩ | ⟨_, hk⟩
      · cases hk
      · simp only [Action.reduce.injEq] at hk
        exact ⟨i, st, s, p, g1, g2, p1, hk.1.symm, hk.2.symm, p2, p3⟩

/-- The chains of the table are the paths of the automaton. -/
theorem Auto.chain_path {t : Tabler T} (h : Auto D S b0 t.states t.actions next red) {path : List (T × Nat)} :
    ∀ {i : Nat} {st : List Nat} {syms : List T}, Chain t i path → Path t.states next (i :: st) syms →
      Path t.states next ((path.map Prod.snd).reverse ++ (i :: st)) ((path.map Prod.fst).reverse ++ syms) := by
  induction path with
  | nil => intro i st syms _ hp; simpa using hp
  | cons e path ih =>
    intro i st syms hc hp
    cases hc with
    | @cons _ j x _ hl hc =>
      obtain ⟨row, c, h1, h2, h3⟩ := hl
      obtain ⟨i0, st0, s, e, hs⟩ := h.path_state hp
      cases e
      have hd : ∀ a, Among a c → Dec D S (next s) red s x a := fun a ha =>
        (((h.cell hs h1).2 x).among c h2 a).mp ha
      have hp' : Path t.states next (j :: i :: st) (x :: syms) := by
        rcases h3 with h3 | h3
        · rcases hd _ h3 with ⟨p, p1, p2, j', p3, hk⟩ | ⟨p, _, _, _, hk⟩
          · rcases hk with ⟨_, hk⟩ | ⟨_, hk⟩ <;> cases hk
            exact .cons hp hs p1 p2 p3
          · rcases hk with ⟨_, hk⟩ | ⟨_, hk⟩ <;> cases hk
        · rcases hd _ h3 with ⟨p, p1, p2, j', p3, hk⟩ | ⟨p, _, _, _, hk⟩
          · rcases hk with ⟨_, hk⟩ | ⟨_, hk⟩ <;> cases hk
            exact .cons hp hs p1 p2 p3
          · rcases hk with ⟨_, hk⟩ | ⟨_, hk⟩ <;> cases hk
      have := ih hc hp'
      simpa using this

theorem cellAt_cell {i : Nat} {x : T} {a : Action T} : cellAt acts i x = some a ↔ Cell acts i x a := by
  unfold cellAt Cell
  exact Option.bind_eq_some_iff

end

end Lrp
