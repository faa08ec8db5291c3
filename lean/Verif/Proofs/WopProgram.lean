import Verif.Proofs.WopSingle

/-! Processing a program. -/

set_option linter.unusedSectionVars false

namespace Lrp.Wop
open Spec

/-- The production a rule begins with. -/
def baseProd (a : Alt) (ty : Span) : ProductionBuild :=
  { production := [], codeblock := a.block, ty := ty, aliases := [] }

/-- The productions `prods` are those of the alternatives `alts`, with the token aliases `A`. -/
def RuleRel (src : Text) (A : List (Text × Span)) (order : Nat → List Span → List Span) (ty : Span)
    (alts : List Alt) (prods : RuleBuild) : Prop :=
  All2 (fun (ax : Alt × Expansion) q => Rel { src := src, aliases := A, order := order }
    (baseProd ax.1 ty) (names ax.1.items) (bare ax.1.items) (WellNamed src ax.1.items)
    (fun t g c => Uniform src t g c ax.1.items) ax.2 q) (expansions alts) prods

theorem alternatives_ok (E : Env) (hord : Orders E.order) (ty : Span) :
    ∀ (rule : List RulePipe) (alts : List Alt) (n : Nat), ruleOf rule = some alts →
      (∀ a ∈ alts, a.Readable E.src) → (∀ a ∈ alts, a.Placed E.src) →
      ∃ prods n', E.alternatives ty rule n = .ok (prods, n') ∧
        RuleRel E.src E.aliases E.order ty alts prods := by
  intro rule
  induction rule with
  | nil =>
    intro alts n h _ _
    rw [ruleOf] at h
    cases h
    exact ⟨[], n, rfl, .nil⟩
  | cons r rest ih =>
    intro alts n h hr hp
    obtain ⟨pipe, block⟩ := r
    rw [ruleOf] at h
    split at h
    · rename_i items as hi ha
      cases h
      obtain ⟨⟨hb, hri⟩, hras⟩ := List.forall_mem_cons.mp hr
      obtain ⟨⟨hne, hin⟩, hpas⟩ := List.forall_mem_cons.mp hp
      obtain ⟨qs, m, e1, _, r1⟩ := (single_variants E hord (sizeOf pipe)).1 pipe items
        (baseProd ⟨items, block, blocksOf pipe⟩ ty) n (Nat.le_refl _) hi hin hri
        (by intro s hs; cases hs)
      obtain ⟨bs, m', e2, r2⟩ := ih as m ha hras hpas
      refine ⟨qs ++ bs, m', ?_, ?_⟩
      · rw [Env.alternatives, slice_ok hb]
        simp only [Out.ok_bind]
        rw [if_neg hne, getProduction_eq]
        · rw [forOrigins_one]
          have e1' : E.single { production := [], codeblock := block, ty := ty, aliases := [] }
              pipe n = .ok (qs, m) := e1
          rw [e1']
          simp only [Out.ok_bind]
          rw [e2]
          rfl
      · unfold RuleRel expansions
        rw [List.flatMap_cons]
        refine All2.append ?_ r2
        exact All2.map_left (fun x => ((⟨items, block, blocksOf pipe⟩ : Alt), x)) (fun _ _ h => h) r1
    · cases h

theorem alternatives_panics (E : Env) (hord : Orders E.order) (ty : Span) :
    ∀ (rule : List RulePipe) (alts : List Alt) (n : Nat), ruleOf rule = some alts →
      (∀ a ∈ alts, a.Readable E.src) → ¬ (∀ a ∈ alts, a.Placed E.src) →
      E.alternatives ty rule n = .panic .assertion := by
  intro rule
  induction rule with
  | nil =>
    intro alts n h _ hn
    rw [ruleOf] at h
    cases h
    exact absurd (by simp) hn
  | cons r rest ih =>
    intro alts n h hr hp
    obtain ⟨pipe, block⟩ := r
    rw [ruleOf] at h
    split at h
    · rename_i items as hi ha
      cases h
      obtain ⟨⟨hb, hri⟩, hras⟩ := List.forall_mem_cons.mp hr
      rw [Env.alternatives, slice_ok hb]
      simp only [Out.ok_bind]
      by_cases hne : textOf E.src block = []
      · rw [if_pos hne]
      · rw [if_neg hne, getProduction_eq, forOrigins_one]
        by_cases hin : ∀ b ∈ blocksOf pipe, b = Span.new 0 0
        · obtain ⟨qs, m, e1, _, r1⟩ := (single_variants E hord (sizeOf pipe)).1 pipe items
            (baseProd ⟨items, block, blocksOf pipe⟩ ty) n (Nat.le_refl _) hi hin hri
            (by intro s hs; cases hs)
          have e1' : E.single { production := [], codeblock := block, ty := ty, aliases := [] }
              pipe n = .ok (qs, m) := e1
          rw [e1']
          simp only [Out.ok_bind]
          rw [ih as m ha hras (fun h => hp (List.forall_mem_cons.mpr ⟨⟨hne, hin⟩, h⟩))]
          rfl
        · have hex : ∃ b ∈ blocksOf pipe, b ≠ Span.new 0 0 := by
            refine Classical.byContradiction (fun h => hin (fun b hb => ?_))
            exact Classical.byContradiction (fun hb' => h ⟨b, hb, hb'⟩)
          rw [(single_blocks E hord (sizeOf pipe)).1 pipe items _ n (Nat.le_refl _) hi hex hri
            (by intro s hs; cases hs)]
          rfl
    · cases h

/-- The declarations can be added to the names used before. -/
def Fine (src : Text) : List Text → List Text → List Decl → Prop
  | _, _, [] => True
  | rn, tn, .rule ident _ alts :: ds =>
    (∀ a ∈ alts, a.Placed src) ∧ textOf src ident ∉ rn ∧ Fine src (rn ++ [textOf src ident]) tn ds
  | rn, tn, .use _ :: ds => Fine src rn tn ds
  | rn, tn, .token name _ :: ds => textOf src name ∉ tn ∧ Fine src rn (tn ++ [textOf src name]) ds

theorem placed_rule {src : Text} {ident ty : Span} {alts : List Alt} {ds : List Decl} :
    Placed src (.rule ident ty alts :: ds) ↔ (∀ a ∈ alts, a.Placed src) ∧ Placed src ds := by
  constructor
  · intro h
    exact ⟨h _ _ _ (List.mem_cons_self ..), fun _ _ _ hm => h _ _ _ (List.mem_cons_of_mem _ hm)⟩
  · intro h i t as hm
    rcases List.mem_cons.mp hm with e | hm
    · cases e; exact h.1
    · exact h.2 _ _ _ hm

theorem placed_other {src : Text} {d : Decl} {ds : List Decl}
    (hd : ∀ ident ty alts, d ≠ .rule ident ty alts) : Placed src (d :: ds) ↔ Placed src ds := by
  constructor
  · intro h _ _ _ hm; exact h _ _ _ (List.mem_cons_of_mem _ hm)
  · intro h i t as hm
    rcases List.mem_cons.mp hm with e | hm
    · exact absurd e.symm (hd _ _ _)
    · exact h _ _ _ hm

theorem fine_iff (src : Text) : ∀ (ds : List Decl) (rn tn : List Text),
    (Fine src rn tn ds ↔ Proper src ds ∧ (∀ t ∈ ruleNames src ds, t ∉ rn) ∧
      ∀ t ∈ (tokens src ds).map (·.1), t ∉ tn) := by
  have key : ∀ (l rn : List Text) (t : Text), (l.Nodup ∧ t ∉ rn ∧ ∀ s ∈ l, s ∉ rn ++ [t]) ↔
      (t :: l).Nodup ∧ ∀ s ∈ t :: l, s ∉ rn := by
    intro l rn t
    rw [List.nodup_cons]
    constructor
    · rintro ⟨h1, h2, h3⟩
      refine ⟨⟨fun h => h3 t h (by simp), h1⟩, ?_⟩
      intro s hs
      rcases List.mem_cons.mp hs with rfl | hs
      · exact h2
      · exact fun h => h3 s hs (List.mem_append_left _ h)
    · rintro ⟨⟨h1, h2⟩, h3⟩
      refine ⟨h2, h3 t (List.mem_cons_self ..), ?_⟩
      intro s hs h
      rcases List.mem_append.mp h with h | h
      · exact h3 s (List.mem_cons_of_mem _ hs) h
      · rw [List.mem_singleton] at h
        subst h
        exact h1 hs
  intro ds
  induction ds with
  | nil =>
    intro rn tn
    simp only [Fine, ruleNames, Spec.tokens, List.map_nil, true_iff]
    refine ⟨⟨?_, ?_, ?_⟩, ?_, ?_⟩
    · exact List.nodup_nil
    · exact List.nodup_nil
    · intro _ _ _ h; cases h
    · intro _ h; cases h
    · intro _ h; cases h
  | cons d ds ih =>
    intro rn tn
    cases d with
    | rule ident ty alts =>
      simp only [Fine]
      rw [ih]
      have k := key (ruleNames src ds) rn (textOf src ident)
      constructor
      · rintro ⟨h1, h2, ⟨h3, h4, h5⟩, h6, h7⟩
        obtain ⟨k1, k2⟩ := k.mp ⟨h3, h2, h6⟩
        exact ⟨⟨k1, h4, placed_rule.mpr ⟨h1, h5⟩⟩, k2, h7⟩
      · rintro ⟨⟨h1, h2, h3⟩, h4, h5⟩
        obtain ⟨k1, k2, k3⟩ := k.mpr ⟨h1, h4⟩
        exact ⟨(placed_rule.mp h3).1, k2, ⟨k1, h2, (placed_rule.mp h3).2⟩, k3, h5⟩
    | use path =>
      have hpl := placed_other (src := src) (ds := ds) (d := .use path) (by intro _ _ _ h; cases h)
      simp only [Fine]
      rw [ih]
      constructor
      · rintro ⟨⟨h1, h2, h3⟩, h4, h5⟩
        exact ⟨⟨h1, h2, hpl.mpr h3⟩, h4, h5⟩
      · rintro ⟨⟨h1, h2, h3⟩, h4, h5⟩
        exact ⟨⟨h1, h2, hpl.mp h3⟩, h4, h5⟩
    | token name target =>
      have hpl := placed_other (src := src) (ds := ds) (d := .token name target)
        (by intro _ _ _ h; cases h)
      simp only [Fine]
      rw [ih]
      have k := key ((Spec.tokens src ds).map (·.1)) tn (textOf src name)
      constructor
      · rintro ⟨h2, ⟨h3, h4, h5⟩, h6, h7⟩
        obtain ⟨k1, k2⟩ := k.mp ⟨h4, h2, h7⟩
        exact ⟨⟨h3, k1, hpl.mpr h5⟩, h6, k2⟩
      · rintro ⟨⟨h1, h2, h3⟩, h4, h5⟩
        obtain ⟨k1, k2, k3⟩ := k.mpr ⟨h2, h5⟩
        exact ⟨k2, ⟨h1, k1, hpl.mp h3⟩, h4, k3⟩

theorem lookup_isSome {ν : Type} (t : Text) : ∀ (l : List (Text × ν)),
    (l.lookup t).isSome = true ↔ t ∈ l.map (·.1)
  | [] => by simp
  | (k, v) :: l => by
    rw [List.lookup_cons]
    by_cases h : t = k
    · subst h; simp
    · have : (t == k) = false := by simpa using h
      simp only [this, List.map_cons, List.mem_cons, h, false_or]
      exact lookup_isSome t l

/-- The rules of a program with the token aliases declared before each, when `A` are declared before
all. -/
def ruleDecls (src : Text) : List (Text × Span) → List Decl →
    List (List (Text × Span) × Span × Span × List Alt)
  | _, [] => []
  | A, .rule ident ty alts :: ds => (A, ident, ty, alts) :: ruleDecls src A ds
  | A, .use _ :: ds => ruleDecls src A ds
  | A, .token name target :: ds => ruleDecls src (A ++ [(textOf src name, target)]) ds

theorem ruleDecls_split (src : Text) (ident ty : Span) (alts : List Alt) (post : List Decl) :
    ∀ (pre : List Decl) (A : List (Text × Span)),
      ruleDecls src A (pre ++ .rule ident ty alts :: post) =
        ruleDecls src A pre ++ (A ++ tokens src pre, ident, ty, alts) ::
          ruleDecls src (A ++ tokens src pre) post := by
  intro pre
  induction pre with
  | nil => intro A; simp [ruleDecls, tokens]
  | cons d pre ih =>
    intro A
    cases d with
    | rule i t as => simp only [List.cons_append, ruleDecls, tokens]; rw [ih]
    | use p => simp only [List.cons_append, ruleDecls, tokens]; rw [ih]
    | token n g =>
      simp only [List.cons_append, ruleDecls, tokens]
      rw [ih]
      simp

theorem ruleDecls_length (src : Text) : ∀ (ds : List Decl) (A : List (Text × Span)),
    (ruleDecls src A ds).map (fun r => textOf src r.2.1) = ruleNames src ds := by
  intro ds
  induction ds with
  | nil => intro A; rfl
  | cons d ds ih =>
    intro A
    cases d <;> simp only [ruleDecls, ruleNames, List.map_cons, ih]

theorem declarations_ok (order : Nat → List Span → List Span) (hord : Orders order) (src : Text) :
    ∀ (gs : List Gramem) (ds : List Decl) (b : Builder) (n : Nat), declsOf gs = some ds →
      (∀ d ∈ ds, d.Readable src) → Fine src (b.rules.map (·.1)) (b.aliases.map (·.1)) ds →
      ∃ b' n', Builder.declarations order src gs b n = .ok (b', n') ∧
        b'.imports = b.imports ++ uses ds ∧ b'.aliases = b.aliases ++ tokens src ds ∧
        ∃ rs, b'.rules = b.rules ++ rs ∧
          All2 (fun r (q : Text × RuleBuild) => q.1 = textOf src r.2.1 ∧
            RuleRel src r.1 order r.2.2.1 r.2.2.2 q.2) (ruleDecls src b.aliases ds) rs := by
  intro gs
  induction gs with
  | nil =>
    intro ds b n h _ _
    rw [declsOf] at h
    cases h
    exact ⟨b, n, rfl, by simp [uses], by simp [tokens], [], by simp, .nil⟩
  | cons g gs ih =>
    intro ds b n h hr hf
    rw [declsOf] at h
    split at h
    · cases h
    · rename_i ds' hds'
      rw [Builder.declarations]
      split at h
      · rename_i ident ty rule hg
        split at h
        · rename_i alts halts
          cases h
          obtain ⟨⟨hri, hrt, hra⟩, hrd⟩ := List.forall_mem_cons.mp hr
          obtain ⟨hp, hn, hf'⟩ := hf
          obtain ⟨prods, m, e1, r1⟩ := alternatives_ok { src := src, aliases := b.aliases, order := order }
            hord ty rule alts n halts hra hp
          have hlook : ¬ (b.rules.lookup (textOf src ident)).isSome = true := by
            rw [lookup_isSome]; exact hn
          have hrd' : b.ruleDecl order src ident ty rule n =
              .ok ({ b with rules := b.rules ++ [(textOf src ident, prods)] }, m) := by
            unfold Builder.ruleDecl
            simp only [e1, Out.ok_bind]
            rw [slice_ok hri]
            simp only [Out.ok_bind]
            rw [if_neg hlook]
            rfl
          obtain ⟨b', n', e2, i2, a2, rs, hrs, h2⟩ := ih ds'
            { b with rules := b.rules ++ [(textOf src ident, prods)] } m hds' hrd
            (by simpa using hf')
          refine ⟨b', n', ?_, i2, a2, (textOf src ident, prods) :: rs, ?_, ?_⟩
          · rw [hg]
            simp only [hrd', Out.ok_bind]
            exact e2
          · rw [hrs]; simp
          · exact .cons ⟨rfl, r1⟩ h2
        · cases h
      · rename_i path hg
        cases h
        obtain ⟨_, hrd⟩ := List.forall_mem_cons.mp hr
        obtain ⟨b', n', e2, i2, a2, rs, hrs, h2⟩ := ih ds' (b.useDecl path) n hds' hrd hf
        refine ⟨b', n', ?_, ?_, a2, rs, hrs, h2⟩
        · rw [hg]
          exact e2
        · rw [i2]; simp [Builder.useDecl, uses]
      · rename_i name target hg
        cases h
        obtain ⟨⟨hrn, _⟩, hrd⟩ := List.forall_mem_cons.mp hr
        obtain ⟨hn, hf'⟩ := hf
        have hlook : ¬ (b.aliases.lookup (textOf src name)).isSome = true := by
          rw [lookup_isSome]; exact hn
        have htd : b.tokenDecl src name target =
            .ok { b with aliases := b.aliases ++ [(textOf src name, target)] } := by
          unfold Builder.tokenDecl
          rw [slice_ok hrn]
          simp only [Out.ok_bind]
          rw [if_neg hlook]
          rfl
        obtain ⟨b', n', e2, i2, a2, rs, hrs, h2⟩ := ih ds'
          { b with aliases := b.aliases ++ [(textOf src name, target)] } n hds' hrd
          (by simpa using hf')
        refine ⟨b', n', ?_, i2, ?_, rs, hrs, h2⟩
        · rw [hg]
          simp only [htd, Out.ok_bind]
          exact e2
        · rw [a2]; simp [tokens]
      · cases h

theorem declarations_panics (order : Nat → List Span → List Span) (hord : Orders order) (src : Text) :
    ∀ (gs : List Gramem) (ds : List Decl) (b : Builder) (n : Nat), declsOf gs = some ds →
      (∀ d ∈ ds, d.Readable src) → ¬ Fine src (b.rules.map (·.1)) (b.aliases.map (·.1)) ds →
      Builder.declarations order src gs b n = .panic .assertion := by
  intro gs
  induction gs with
  | nil =>
    intro ds b n h _ hf
    rw [declsOf] at h
    cases h
    exact absurd trivial hf
  | cons g gs ih =>
    intro ds b n h hr hf
    rw [declsOf] at h
    split at h
    · cases h
    · rename_i ds' hds'
      rw [Builder.declarations]
      split at h
      · rename_i ident ty rule hg
        split at h
        · rename_i alts halts
          cases h
          obtain ⟨⟨hri, hrt, hra⟩, hrd⟩ := List.forall_mem_cons.mp hr
          rw [hg]
          simp only
          by_cases hp : ∀ a ∈ alts, a.Placed src
          · obtain ⟨prods, m, e1, r1⟩ := alternatives_ok
              { src := src, aliases := b.aliases, order := order } hord ty rule alts n halts hra hp
            by_cases hn : textOf src ident ∈ b.rules.map (·.1)
            · have hlook : (b.rules.lookup (textOf src ident)).isSome = true := by
                rw [lookup_isSome]; exact hn
              have hrd' : b.ruleDecl order src ident ty rule n = .panic .assertion := by
                unfold Builder.ruleDecl
                simp only [e1, Out.ok_bind]
                rw [slice_ok hri]
                simp only [Out.ok_bind]
                rw [if_pos hlook]
              rw [hrd']
              rfl
            · have hlook : ¬ (b.rules.lookup (textOf src ident)).isSome = true := by
                rw [lookup_isSome]; exact hn
              have hrd' : b.ruleDecl order src ident ty rule n =
                  .ok ({ b with rules := b.rules ++ [(textOf src ident, prods)] }, m) := by
                unfold Builder.ruleDecl
                simp only [e1, Out.ok_bind]
                rw [slice_ok hri]
                simp only [Out.ok_bind]
                rw [if_neg hlook]
                rfl
              rw [hrd']
              simp only [Out.ok_bind]
              refine ih ds' _ m hds' hrd (fun h => hf ⟨hp, hn, ?_⟩)
              simpa using h
          · have hrd' : b.ruleDecl order src ident ty rule n = .panic .assertion := by
              unfold Builder.ruleDecl
              simp only [alternatives_panics { src := src, aliases := b.aliases, order := order }
                hord ty rule alts n halts hra hp, Out.panic_bind]
            rw [hrd']
            rfl
        · cases h
      · rename_i path hg
        cases h
        obtain ⟨_, hrd⟩ := List.forall_mem_cons.mp hr
        rw [hg]
        exact ih ds' (b.useDecl path) n hds' hrd hf
      · rename_i name target hg
        cases h
        obtain ⟨⟨hrn, _⟩, hrd⟩ := List.forall_mem_cons.mp hr
        rw [hg]
        simp only
        by_cases hn : textOf src name ∈ b.aliases.map (·.1)
        · have hlook : (b.aliases.lookup (textOf src name)).isSome = true := by
            rw [lookup_isSome]; exact hn
          have htd : b.tokenDecl src name target = .panic .assertion := by
            unfold Builder.tokenDecl
            rw [slice_ok hrn]
            simp only [Out.ok_bind]
            rw [if_pos hlook]
          rw [htd]
          rfl
        · have hlook : ¬ (b.aliases.lookup (textOf src name)).isSome = true := by
            rw [lookup_isSome]; exact hn
          have htd : b.tokenDecl src name target =
              .ok { b with aliases := b.aliases ++ [(textOf src name, target)] } := by
            unfold Builder.tokenDecl
            rw [slice_ok hrn]
            simp only [Out.ok_bind]
            rw [if_neg hlook]
            rfl
          rw [htd]
          simp only [Out.ok_bind]
          refine ih ds' _ n hds' hrd (fun h => hf ⟨hn, ?_⟩)
          simpa using h
      · cases h

theorem process_panics {order : Nat → List Span → List Span} (hord : Orders order) {src : Text}
    {ast : Gramem} {gs : List Gramem} {ds : List Decl} (b : Builder)
    (hast : ast.item.item = .program gs) (hds : declsOf gs = some ds)
    (hr : ∀ d ∈ ds, d.Readable src) (hn : ¬ Addable src b ds) :
    Builder.process order src b ast = .panic .assertion := by
  unfold Builder.process
  rw [hast]
  simp only
  rw [declarations_panics order hord src gs ds b 0 hds hr (fun h => hn ((fine_iff _ _ _ _).mp h))]
  rfl

theorem process_ok {order : Nat → List Span → List Span} (hord : Orders order) {src : Text}
    {ast : Gramem} {gs : List Gramem} {ds : List Decl} (b : Builder)
    (hast : ast.item.item = .program gs) (hds : declsOf gs = some ds)
    (hr : ∀ d ∈ ds, d.Readable src) (hf : Addable src b ds) :
    ∃ b', Builder.process order src b ast = .ok b' ∧ b'.imports = b.imports ++ uses ds ∧
      b'.aliases = b.aliases ++ tokens src ds ∧ ∃ rs, b'.rules = b.rules ++ rs ∧
        All2 (fun r (q : Text × RuleBuild) => q.1 = textOf src r.2.1 ∧
            RuleRel src r.1 order r.2.2.1 r.2.2.2 q.2) (ruleDecls src b.aliases ds) rs := by
  obtain ⟨b', n', e, h⟩ := declarations_ok order hord src gs ds b 0 hds hr ((fine_iff _ _ _ _).mpr hf)
  refine ⟨b', ?_, h⟩
  unfold Builder.process
  rw [hast]
  simp only
  rw [e]
  rfl

theorem lookup_append_none {ν : Type} {t : Text} {l m : List (Text × ν)} (h : t ∉ l.map (·.1)) :
    (l ++ m).lookup t = m.lookup t := by
  induction l with
  | nil => rfl
  | cons p l ih =>
    obtain ⟨k, v⟩ := p
    simp only [List.map_cons, List.mem_cons, not_or] at h
    rw [List.cons_append, List.lookup_cons]
    have : (t == k) = false := by simpa using h.1
    rw [this]
    exact ih h.2

theorem All2.split_left {α β : Type} {R : α → β → Prop} : ∀ {as : List α} {a : α} {as' : List α}
    {bs : List β}, All2 R (as ++ a :: as') bs →
    ∃ bs₁ b bs₂, bs = bs₁ ++ b :: bs₂ ∧ All2 R as bs₁ ∧ R a b ∧ All2 R as' bs₂
  | [], a, as', bs, h => by
    cases h with
    | cons h1 h2 => exact ⟨[], _, _, rfl, .nil, h1, h2⟩
  | c :: as, a, as', bs, h => by
    cases h with
    | cons h1 h2 =>
      obtain ⟨bs₁, b, bs₂, rfl, h3, h4, h5⟩ := All2.split_left h2
      exact ⟨_ :: bs₁, b, bs₂, rfl, .cons h1 h3, h4, h5⟩

theorem All2.map_eq {α β γ : Type} {R : α → β → Prop} (f : α → γ) (g : β → γ)
    (h : ∀ a b, R a b → f a = g b) : ∀ {as : List α} {bs : List β}, All2 R as bs →
    as.map f = bs.map g
  | _, _, .nil => rfl
  | _, _, .cons h1 h2 => by rw [List.map_cons, List.map_cons, h _ _ h1, All2.map_eq f g h h2]

/-- The productions recorded for a rule of a program. -/
theorem process_rule {order : Nat → List Span → List Span} (hord : Orders order) {src : Text}
    {ast : Gramem} {gs : List Gramem} {pre post : List Decl} {ident ty : Span} {alts : List Alt}
    {b b' : Builder} (hast : ast.item.item = .program gs)
    (hds : declsOf gs = some (pre ++ .rule ident ty alts :: post))
    (hr : ∀ d ∈ pre ++ .rule ident ty alts :: post, d.Readable src)
    (hp : Builder.process order src b ast = .ok b') :
    ∃ prods, b'.rules.lookup (textOf src ident) = some prods ∧
      RuleRel src (b.aliases ++ tokens src pre) order ty alts prods := by
  by_cases hf : Addable src b (pre ++ .rule ident ty alts :: post)
  · obtain ⟨b'', e, _, _, rs, hrs, hall⟩ := process_ok hord b hast hds hr hf
    rw [hp] at e
    cases e
    have hnames : (ruleDecls src b.aliases (pre ++ .rule ident ty alts :: post)).map
        (fun r => textOf src r.2.1) = rs.map (·.1) :=
      All2.map_eq _ _ (fun a b h => h.1.symm) hall
    rw [ruleDecls_length] at hnames
    obtain ⟨⟨hnd, _, _⟩, hnew, _⟩ := hf
    rw [hnames] at hnd hnew
    rw [ruleDecls_split] at hall
    obtain ⟨r₁, q, r₂, rfl, _, ⟨hq1, hq2⟩, _⟩ := All2.split_left hall
    refine ⟨q.2, ?_, hq2⟩
    have hm : textOf src ident ∉ b.rules.map (·.1) := by
      refine hnew _ ?_
      rw [List.map_append, List.map_cons, hq1]
      simp
    rw [hrs, lookup_append_none hm, lookup_append_none]
    · obtain ⟨n, ps⟩ := q
      simp only at hq1
      rw [hq1, List.lookup_cons]
      simp
    · intro h
      rw [List.map_append, List.map_cons, List.nodup_append] at hnd
      exact absurd hq1.symm (hnd.2.2 _ h _ (List.mem_cons_self ..))
  · rw [process_panics hord b hast hds hr hf] at hp
    cases hp

end Lrp.Wop
