import Verif.Spec.Twice
import Verif.Proofs.Cfg

/-! Derivations carry forests: what is ambiguous below is ambiguous above. -/

set_option linter.unusedSectionVars false

namespace Lrp
open Spec

variable {M T : Type}

namespace Spec.Tree

mutual
/-- How many leaves and nodes a tree has. -/
def weight : Tree M T → Nat
  | leaf _ => 1
  | node _ _ cs => weights cs + 1
/-- The same of a list of trees. -/
def weights : List (Tree M T) → Nat
  | [] => 0
  | c :: cs => weight c + weights cs
end

theorem weights_cons (c : Tree M T) (cs : List (Tree M T)) : weights (c :: cs) = weight c + weights cs := by
  simp [weights]

theorem weights_append (a b : List (Tree M T)) : weights (a ++ b) = weights a + weights b := by
  induction a with
  | nil => simp [weights]
  | cons c cs ih => simp only [List.cons_append, weights_cons, ih]; omega

theorem weights_singleton (c : Tree M T) : weights [c] = weight c := by simp [weights]

theorem weight_node (A : T) (i : Nat) (cs : List (Tree M T)) : weight (.node A i cs) = weights cs + 1 := by
  simp [weight]

theorem weight_pos (t : Tree M T) : 0 < weight t := by
  cases t <;> simp [weight]

end Spec.Tree

/-- The trees `cs` have the roots `a`. -/
def Stands (D : Decls T) (a : List T) (cs : List (Tree M T)) : Prop :=
  cs.map Tree.root = a ∧ ∀ c ∈ cs, Tree.Valid D c

theorem Stands.append {D : Decls T} {a b : List T} {as bs : List (Tree M T)} (ha : Stands D a as)
    (hb : Stands D b bs) : Stands D (a ++ b) (as ++ bs) := by
  refine ⟨by rw [List.map_append, ha.1, hb.1], fun c hc => ?_⟩
  rcases List.mem_append.mp hc with h | h
  · exact ha.2 c h
  · exact hb.2 c h

theorem Stands.split {D : Decls T} {a b : List T} {cs : List (Tree M T)} (h : Stands D (a ++ b) cs) :
    ∃ as bs, cs = as ++ bs ∧ Stands D a as ∧ Stands D b bs := by
  obtain ⟨as, bs, rfl, h1, h2⟩ := List.map_eq_append_iff.mp h.1
  exact ⟨as, bs, rfl, ⟨h1, fun c hc => h.2 c (List.mem_append_left _ hc)⟩,
    ⟨h2, fun c hc => h.2 c (List.mem_append_right _ hc)⟩⟩

theorem Stands.length {D : Decls T} {a : List T} {cs : List (Tree M T)} (h : Stands D a cs) :
    cs.length = a.length := by
  rw [← h.1, List.length_map]

theorem Stands.one {D : Decls T} {A : T} {c : Tree M T} (h : Tree.Valid D c) (hA : c.root = A) :
    Stands D [A] [c] :=
  ⟨by simp [hA], by simpa using h⟩

theorem Stands.single {D : Decls T} {A : T} {cs : List (Tree M T)} (h : Stands D [A] cs) :
    ∃ c, cs = [c] ∧ Tree.Valid D c ∧ c.root = A := by
  match cs, h with
  | [], h => cases h.1
  | [c], h => exact ⟨c, rfl, h.2 c (by simp), by have := h.1; simpa using this⟩
  | _ :: _ :: _, h => have := h.1; simp at this

/-- A derivation takes forests with the roots of its end to forests with the roots of its beginning: the yield is
the same, different forests stay different, and none gets lighter. -/
theorem carries {D : Decls T} {a b : List T} (h : Derives D a b) :
    ∃ f : List (Tree M T) → List (Tree M T), (∀ cs, Stands D b cs → Stands D a (f cs) ∧
      Tree.yields (f cs) = Tree.yields cs ∧ Tree.weights cs ≤ Tree.weights (f cs)) ∧
      ∀ cs cs', Stands D b cs → Stands D b cs' → f cs = f cs' → cs = cs' := by
  induction h with
  | refl a => exact ⟨id, fun cs h => ⟨h, rfl, Nat.le_refl _⟩, fun _ _ _ _ h => h⟩
  | @head a b c hs _ ih =>
    obtain ⟨f, hf, hi⟩ := ih
    cases hs with
    | @mk u v A i body hp =>
      let g : List (Tree M T) → List (Tree M T) := fun cs =>
        cs.take u.length ++ Tree.node A i ((cs.drop u.length).take body.length) ::
          (cs.drop u.length).drop body.length
      have key : ∀ cs : List (Tree M T), Stands D (u ++ body ++ v) cs → ∃ us bs vs, cs = us ++ (bs ++ vs) ∧
          Stands D u us ∧ Stands D body bs ∧ Stands D v vs ∧ g cs = us ++ .node A i bs :: vs := by
        intro cs h
        rw [List.append_assoc] at h
        obtain ⟨us, r, rfl, h1, h2⟩ := h.split
        obtain ⟨bs, vs, rfl, h3, h4⟩ := h2.split
        refine ⟨us, bs, vs, rfl, h1, h3, h4, ?_⟩
        simp only [g, ← h1.length, ← h3.length, List.take_left, List.drop_left]
      refine ⟨fun cs => g (f cs), fun cs hcs => ?_, fun cs cs' h1 h2 h3 => ?_⟩
      · obtain ⟨h1, h2, h3⟩ := hf cs hcs
        obtain ⟨us, bs, vs, e, k1, k2, k3, k4⟩ := key _ h1
        have hn : Stands D [A] [Tree.node A i bs] := .one (.node (k2.1 ▸ hp) k2.2) rfl
        simp only [k4]
        refine ⟨by simpa using k1.append (hn.append k3), ?_, ?_⟩
        · rw [← h2, e]
          simp [Tree.yields_cons]
        · refine Nat.le_trans h3 ?_
          rw [e]
          simp only [Tree.weights_append, Tree.weights_cons, Tree.weight_node]
          omega
      · obtain ⟨a1, a2, a3⟩ := hf cs h1
        obtain ⟨b1, b2, b3⟩ := hf cs' h2
        obtain ⟨us, bs, vs, e, k1, k2, k3, k4⟩ := key _ a1
        obtain ⟨us', bs', vs', e', l1, l2, l3, l4⟩ := key _ b1
        simp only [k4, l4] at h3
        have h4 := List.append_inj h3 (by rw [k1.length, l1.length])
        obtain ⟨rfl, h5⟩ := h4
        have h6 := List.cons.inj h5
        obtain ⟨h6, rfl⟩ := h6
        have h7 := (Tree.node.inj h6).2.2
        exact hi cs cs' h1 h2 (by rw [e, e', h7])

/-- If all rules are productive there are trees for all symbols. -/
theorem stands_of_productive {D : Decls T} (hpr : AllProductive D) :
    ∀ a : List T, ∃ cs : List (Tree Unit T), Stands D a cs
  | [] => ⟨[], rfl, by simp⟩
  | x :: a => by
    obtain ⟨cs, h⟩ := stands_of_productive hpr a
    have h1 : ∃ c : Tree Unit T, Tree.Valid D c ∧ c.root = x := by
      by_cases hx : Nonterminal D x
      · obtain ⟨w, h1, h2⟩ := hpr x hx
        obtain ⟨f, hf, _⟩ := carries (M := Unit) h1
        have hw : Stands D w (w.map fun y => Tree.leaf (⟨(), y⟩ : Token Unit T)) := by
          refine ⟨by simp [Function.comp_def, Tree.root], fun c hc => ?_⟩
          obtain ⟨y, hy, rfl⟩ := List.mem_map.mp hc
          exact .leaf (h2 y hy)
        obtain ⟨c, _, h3, h4⟩ := (hf _ hw).1.single
        exact ⟨c, h3, h4⟩
      · exact ⟨.leaf ⟨(), x⟩, .leaf (fun d hd e => hx ⟨d, hd, e⟩), rfl⟩
    obtain ⟨c, h1, h2⟩ := h1
    exact ⟨c :: cs, by simpa using (Stands.one h1 h2).append h⟩

/-- What is ambiguous below is ambiguous above. -/
theorem Spec.Ambiguous.up {D : Decls T} {A S : T} (hpr : AllProductive D) (h : Ambiguous D A)
    (hr : Reachable D S A) : Ambiguous D S := by
  obtain ⟨t1, t2, v1, v2, r1, r2, hy, hne⟩ := h
  obtain ⟨u, v, hd⟩ := hr
  obtain ⟨f, hf, hi⟩ := carries (M := Unit) hd
  obtain ⟨us, hu⟩ := stands_of_productive hpr u
  obtain ⟨vs, hv⟩ := stands_of_productive hpr v
  have k1 : Stands D (u ++ A :: v) (us ++ t1 :: vs) := by simpa using hu.append ((Stands.one v1 r1).append hv)
  have k2 : Stands D (u ++ A :: v) (us ++ t2 :: vs) := by simpa using hu.append ((Stands.one v2 r2).append hv)
  obtain ⟨a1, a2, _⟩ := hf _ k1
  obtain ⟨b1, b2, _⟩ := hf _ k2
  obtain ⟨c1, e1, c2, c3⟩ := a1.single
  obtain ⟨d1, g1, d2, d3⟩ := b1.single
  refine ⟨c1, d1, c2, d2, c3, d3, ?_, fun e => ?_⟩
  · rw [e1] at a2
    rw [g1] at b2
    simp only [Tree.yields_singleton] at a2 b2
    rw [a2, b2]
    simp [Tree.yields_cons, hy]
  · have := hi _ _ k1 k2 (by rw [e1, g1, e])
    have := List.append_cancel_left this
    exact hne (List.cons.inj this).1

/-- The same alternative twice. -/
theorem ambiguous_same {D : Decls T} {A : T} {i j : Nat} {b : List T} (hpr : AllProductive D)
    (hi : IsProd D A i b) (hj : IsProd D A j b) (hij : i ≠ j) : Ambiguous D A := by
  obtain ⟨bs, hb⟩ := stands_of_productive hpr b
  exact ⟨.node A i bs, .node A j bs, .node (hb.1 ▸ hi) hb.2, .node (hb.1 ▸ hj) hb.2, rfl, rfl, by simp,
    fun e => hij (Tree.node.inj e).2.1⟩

/-- A rule that derives itself. -/
theorem ambiguous_loop {D : Decls T} {A : T} {b : List T} (hpr : AllProductive D) (h1 : Step D [A] b)
    (h2 : Derives D b [A]) : Ambiguous D A := by
  obtain ⟨cs, hc⟩ := stands_of_productive hpr [A]
  obtain ⟨c, rfl, c1, c2⟩ := hc.single
  obtain ⟨f, hf, _⟩ := carries (M := Unit) h2
  obtain ⟨k1, k2, k3⟩ := hf _ hc
  generalize hA : [A] = a at h1
  cases h1 with
  | @mk u v B i body hp =>
    have hu : u = [] ∧ B = A ∧ v = [] := by
      cases u with
      | nil => simp at hA; exact ⟨rfl, hA.1.symm, hA.2⟩
      | cons x u => simp at hA
    obtain ⟨rfl, rfl, rfl⟩ := hu
    simp only [List.nil_append, List.append_nil] at k1
    refine ⟨.node B i (f [c]), c, .node (k1.1 ▸ hp) k1.2, c1, rfl, c2, ?_, fun e => ?_⟩
    · rw [Tree.yield_node, k2, Tree.yields_singleton]
    · have := congrArg Tree.weight e
      rw [Tree.weight_node] at this
      rw [Tree.weights_singleton] at k3
      omega

/-- A rule that derives something with itself at both ends. -/
theorem ambiguous_ends {D : Decls T} {A : T} {b : List T} (hpr : AllProductive D)
    (h : Derives D [A] (A :: b ++ [A])) : Ambiguous D A := by
  obtain ⟨cs, hc⟩ := stands_of_productive hpr [A]
  obtain ⟨x, rfl, x1, x2⟩ := hc.single
  obtain ⟨bs, hb⟩ := stands_of_productive hpr b
  obtain ⟨f, hf, hi⟩ := carries (M := Unit) h
  have st : ∀ l r : Tree Unit T, Tree.Valid D l → l.root = A → Tree.Valid D r → r.root = A →
      Stands D (A :: b ++ [A]) (l :: bs ++ [r]) := fun l r a1 a2 b1 b2 => by
    simpa using (Stands.one a1 a2).append (hb.append (Stands.one b1 b2))
  have k := st x x x1 x2 x1 x2
  obtain ⟨p1, p2, p3⟩ := hf _ k
  obtain ⟨p, ep, q1, q2⟩ := p1.single
  rw [ep, Tree.yields_singleton] at p2
  rw [ep, Tree.weights_singleton] at p3
  have kl := st p x q1 q2 x1 x2
  have kr := st x p x1 x2 q1 q2
  obtain ⟨l1, l2, _⟩ := hf _ kl
  obtain ⟨r1, r2, _⟩ := hf _ kr
  obtain ⟨l, el, l3, l4⟩ := l1.single
  obtain ⟨r, er, r3, r4⟩ := r1.single
  refine ⟨l, r, l3, r3, l4, r4, ?_, fun e => ?_⟩
  · rw [el, Tree.yields_singleton] at l2
    rw [er, Tree.yields_singleton] at r2
    rw [l2, r2]
    simp [Tree.yields_cons, p2]
  · have := hi _ _ kl kr (by rw [el, er, e])
    have h1 : p = x := (List.cons.inj this).1
    subst h1
    simp only [List.cons_append, Tree.weights_cons, Tree.weights_append, Tree.weights_singleton] at p3
    have := Tree.weight_pos p
    simp only [Tree.weights] at p3
    omega

/-- A left recursive and a right recursive alternative. -/
theorem ambiguous_both {D : Decls T} {A : T} {i j : Nat} {a b : List T} (hpr : AllProductive D)
    (hi : IsProd D A i (A :: a)) (hj : IsProd D A j (b ++ [A])) : Ambiguous D A := by
  by_cases hij : i = j
  · subst hij
    obtain ⟨bs, d1, d2⟩ := hi
    obtain ⟨bs', e1, e2⟩ := hj
    have h1 : A :: a = b ++ [A] := by
      have := Declared.unique d1 e1
      subst this
      rw [d2] at e2
      exact Option.some.inj e2
    cases b with
    | nil =>
      have h2 : a = [] := (List.cons.inj h1).2
      subst h2
      exact ambiguous_loop hpr (by simpa using Step.mk [] [] ⟨bs, d1, d2⟩) (.refl _)
    | cons y b =>
      obtain ⟨rfl, h2⟩ := List.cons.inj h1
      subst h2
      exact ambiguous_ends hpr (.head (by simpa using Step.mk [] [] ⟨bs, d1, d2⟩) (.refl _))
  · obtain ⟨cs, hc⟩ := stands_of_productive hpr [A]
    obtain ⟨x, rfl, x1, x2⟩ := hc.single
    obtain ⟨as, ha⟩ := stands_of_productive hpr a
    obtain ⟨bs, hb⟩ := stands_of_productive hpr b
    have hl : ∀ c : Tree Unit T, Tree.Valid D c → c.root = A → Tree.Valid D (.node A i (c :: as)) :=
      fun c c1 c2 => .node (by simpa [c2, ha.1] using hi) (by simpa using ⟨c1, ha.2⟩)
    have hr : ∀ c : Tree Unit T, Tree.Valid D c → c.root = A → Tree.Valid D (.node A j (bs ++ [c])) :=
      fun c c1 c2 => .node (by simpa [c2, hb.1] using hj) (by
        intro d hd
        rcases List.mem_append.mp hd with h | h
        · exact hb.2 d h
        · rw [List.mem_singleton.mp h]; exact c1)
    refine ⟨_, _, hl _ (hr x x1 x2) rfl, hr _ (hl x x1 x2) rfl, rfl, rfl, ?_, fun e => hij (Tree.node.inj e).2.1⟩
    simp [Tree.yields_cons]

/-- A dangling end. -/
theorem ambiguous_dangling {D : Decls T} {A : T} {i j : Nat} {b c : List T} (hpr : AllProductive D)
    (hi : IsProd D A i (b ++ [A])) (hj : IsProd D A j (b ++ A :: c)) (hij : i ≠ j) : Ambiguous D A := by
  obtain ⟨cs, hc⟩ := stands_of_productive hpr [A]
  obtain ⟨x, rfl, x1, x2⟩ := hc.single
  obtain ⟨bs, hb⟩ := stands_of_productive hpr b
  obtain ⟨ds, hd⟩ := stands_of_productive hpr c
  have hs : ∀ c : Tree Unit T, Tree.Valid D c → c.root = A → Tree.Valid D (.node A i (bs ++ [c])) :=
    fun c c1 c2 => .node (by simpa [c2, hb.1] using hi) (hb.append (.one c1 c2)).2
  have hl : ∀ c : Tree Unit T, Tree.Valid D c → c.root = A → Tree.Valid D (.node A j (bs ++ c :: ds)) :=
    fun c c1 c2 => .node (by simpa [c2, hb.1, hd.1] using hj) (by
      simpa using (hb.append ((Stands.one c1 c2).append hd)).2)
  refine ⟨_, _, hs _ (hl x x1 x2) rfl, hl _ (hs x x1 x2) rfl, rfl, rfl, ?_, fun e => hij (Tree.node.inj e).2.1⟩
  simp [Tree.yields_cons]

end Lrp
