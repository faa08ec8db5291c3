import Verif.Spec.Wop
import Verif.Proofs.Out

/-! Expansion of the alternatives of a `wop` rule. -/

set_option linter.unusedSectionVars false

namespace Lrp.Wop
open Spec

/-! ### Spans and texts -/

theorem boundary_iff {src : Text} {i : Nat} : boundary src i = true ↔ Boundary src i := by
  unfold boundary Boundary
  cases h : src[i]? <;> simp

theorem slice_ok {src : Text} {sp : Span} (h : InSrc src sp) : slice sp src = .ok (textOf src sp) := by
  simp [slice, textOf, h.le, h.len, boundary_iff.mpr h.first, boundary_iff.mpr h.last]

theorem definition_ok {E : Env} {sp : Span} (h : InSrc E.src sp) :
    E.definition sp = .ok (resolve E.src E.aliases sp) := by
  unfold Env.definition
  rw [slice_ok h]
  rfl

theorem nodup_of_map {α β : Type} {f : α → β} {l : List α} (h : (l.map f).Nodup) : l.Nodup :=
  List.Pairwise.of_map f (fun _ _ hab e => hab (e ▸ rfl)) h

theorem inj_of_nodup_map {α β : Type} {f : α → β} : ∀ {l : List α}, (l.map f).Nodup →
    ∀ {a b : α}, a ∈ l → b ∈ l → f a = f b → a = b
  | [], _, a, b, ha, _, _ => by cases ha
  | x :: xs, h, a, b, ha, hb, e => by
    rw [List.map_cons, List.nodup_cons] at h
    rcases List.mem_cons.mp ha with rfl | ha'
    · rcases List.mem_cons.mp hb with rfl | hb'
      · rfl
      · exact absurd (e ▸ List.mem_map_of_mem hb') h.1
    · rcases List.mem_cons.mp hb with rfl | hb'
      · exact absurd (e ▸ List.mem_map_of_mem ha') h.1
      · exact inj_of_nodup_map h.2 ha' hb' e

/-! ### Relating two lists element by element -/

inductive All2 {α β : Type} (R : α → β → Prop) : List α → List β → Prop
  | nil : All2 R [] []
  | cons {a : α} {b : β} {as : List α} {bs : List β} : R a b → All2 R as bs → All2 R (a :: as) (b :: bs)

namespace All2
variable {α β γ : Type}

theorem append {R : α → β → Prop} {as as' : List α} {bs bs' : List β} (h : All2 R as bs)
    (h' : All2 R as' bs') : All2 R (as ++ as') (bs ++ bs') := by
  induction h with
  | nil => exact h'
  | cons hr _ ih => exact .cons hr ih

theorem imp {R S : α → β → Prop} (hi : ∀ a b, R a b → S a b) {as : List α} {bs : List β}
    (h : All2 R as bs) : All2 S as bs := by
  induction h with
  | nil => exact .nil
  | cons hr _ ih => exact .cons (hi _ _ hr) ih

theorem map_left {R : α → β → Prop} {S : γ → β → Prop} (f : α → γ) (hi : ∀ a b, R a b → S (f a) b)
    {as : List α} {bs : List β} (h : All2 R as bs) : All2 S (as.map f) bs := by
  induction h with
  | nil => exact .nil
  | cons hr _ ih => exact .cons (hi _ _ hr) ih

theorem map_right {R : α → β → Prop} {S : α → γ → Prop} (f : β → γ) {as : List α} {bs : List β}
    (hi : ∀ a b, b ∈ bs → R a b → S a (f b)) (h : All2 R as bs) : All2 S as (bs.map f) := by
  induction h with
  | nil => exact .nil
  | cons hr _ ih =>
    exact .cons (hi _ _ (List.mem_cons_self ..) hr)
      (ih (fun a b hb => hi a b (List.mem_cons_of_mem _ hb)))

theorem length {R : α → β → Prop} {as : List α} {bs : List β} (h : All2 R as bs) :
    as.length = bs.length := by
  induction h with
  | nil => rfl
  | cons _ _ ih => simp [ih]

theorem get {R : α → β → Prop} {as : List α} {bs : List β} (h : All2 R as bs) :
    ∀ {i : Nat} {a : α} {b : β}, as[i]? = some a → bs[i]? = some b → R a b := by
  induction h with
  | nil => intro i a b ha; simp at ha
  | cons hr _ ih =>
    intro i a b ha hb
    cases i with
    | zero => simp at ha hb; subst ha; subst hb; exact hr
    | succ i => simp at ha hb; exact ih ha hb

theorem mem_right {R : α → β → Prop} {as : List α} {bs : List β} (h : All2 R as bs) :
    ∀ {b : β}, b ∈ bs → ∃ a ∈ as, R a b := by
  induction h with
  | nil => intro b hb; cases hb
  | @cons a b as bs hr _ ih =>
    intro b' hb
    rcases List.mem_cons.mp hb with rfl | hb
    · exact ⟨a, List.mem_cons_self .., hr⟩
    · obtain ⟨a', ha, hr'⟩ := ih hb
      exact ⟨a', List.mem_cons_of_mem _ ha, hr'⟩

end All2

/-! ### The last alias -/

theorem modifyLast_append (f : ItemAlias → ItemAlias) (a : ItemAlias) :
    ∀ as : List ItemAlias, modifyLast f (as ++ [a]) = .ok (as ++ [f a])
  | [] => rfl
  | [b] => rfl
  | b :: c :: as => by
    have ih := modifyLast_append f a (c :: as)
    simp only [List.cons_append] at ih ⊢
    rw [modifyLast, ih]
    · rfl
    · simp

/-! ### Marking aliases -/

/-- The alias of an item that was not taken. -/
def absent (clone : Bool) (name : Span) : ItemAlias :=
  { alias := name, optional := some false, index := 0, finalIndex := none, clone := clone }

/-- What `markAlias` returns when no text is out of range. -/
def mark (src : Text) (name : Span) : List ItemAlias → List ItemAlias
  | [] => [absent false name]
  | a :: as =>
    if textOf src a.alias = textOf src name then { a with optional := some true } :: as
    else a :: mark src name as

theorem markAlias_ok {src : Text} {name : Span} (hn : InSrc src name) :
    ∀ {as : List ItemAlias}, (∀ a ∈ as, InSrc src a.alias) →
      markAlias src name as = .ok (mark src name as)
  | [], _ => rfl
  | a :: as, h => by
    unfold markAlias mark
    rw [slice_ok (h a (List.mem_cons_self ..)), slice_ok hn]
    simp only [Out.ok_bind]
    split
    · rfl
    · rw [markAlias_ok hn (fun b hb => h b (List.mem_cons_of_mem _ hb))]
      rfl

theorem mark_spans {src : Text} {name : Span} : ∀ {as : List ItemAlias} {b : ItemAlias},
    b ∈ mark src name as → b.alias ∈ as.map (·.alias) ∨ b.alias = name
  | [], b, h => by
    simp [mark] at h
    subst h
    exact .inr rfl
  | a :: as, b, h => by
    unfold mark at h
    split at h
    · rcases List.mem_cons.mp h with rfl | h
      · exact .inl (by simp)
      · exact .inl (List.mem_map_of_mem (List.mem_cons_of_mem _ h))
    · rcases List.mem_cons.mp h with rfl | h
      · exact .inl (by simp)
      · rcases mark_spans h with h | h
        · exact .inl (by simp at h ⊢; exact .inr h)
        · exact .inr h

/-- The texts of aliases. -/
def aliasTexts (src : Text) (as : List ItemAlias) : List Text := as.map (fun a => textOf src a.alias)

theorem mark_texts {src : Text} {name : Span} : ∀ {as : List ItemAlias} {t : Text},
    t ∈ aliasTexts src (mark src name as) ↔ t ∈ aliasTexts src as ∨ t = textOf src name
  | [], t => by simp [mark, aliasTexts, absent]
  | a :: as, t => by
    have ih := mark_texts (src := src) (name := name) (as := as) (t := t)
    unfold mark
    split
    · rename_i he
      simp only [aliasTexts, List.map_cons, List.mem_cons] at ih ⊢
      constructor
      · rintro (h | h)
        · exact .inl (.inl h)
        · exact .inl (.inr h)
      · rintro ((h | h) | h)
        · exact .inl h
        · exact .inr h
        · exact .inl (h.trans he.symm)
    · simp only [aliasTexts, List.map_cons, List.mem_cons] at ih ⊢
      rw [ih, or_assoc]

/-- All the names, in order. -/
def markAll (src : Text) (ns : List Span) (as : List ItemAlias) : List ItemAlias :=
  ns.foldl (fun as n => mark src n as) as

theorem markAll_spans {src : Text} : ∀ {ns : List Span} {as : List ItemAlias} {b : ItemAlias},
    b ∈ markAll src ns as → b.alias ∈ as.map (·.alias) ∨ b.alias ∈ ns
  | [], as, b, h => .inl (List.mem_map_of_mem h)
  | n :: ns, as, b, h => by
    rcases markAll_spans (ns := ns) (as := mark src n as) h with h | h
    · obtain ⟨c, hc, e⟩ := List.mem_map.mp h
      rcases mark_spans hc with h | h
      · exact .inl (e ▸ h)
      · exact .inr (by rw [← e, h]; exact List.mem_cons_self ..)
    · exact .inr (List.mem_cons_of_mem _ h)

theorem markAliases_ok {src : Text} : ∀ {ns : List Span} {as : List ItemAlias},
    (∀ n ∈ ns, InSrc src n) → (∀ a ∈ as, InSrc src a.alias) →
    markAliases src ns as = .ok (markAll src ns as)
  | [], _, _, _ => rfl
  | n :: ns, as, hn, ha => by
    unfold markAliases
    rw [markAlias_ok (hn n (List.mem_cons_self ..)) ha]
    simp only [Out.ok_bind]
    rw [markAliases_ok (fun m hm => hn m (List.mem_cons_of_mem _ hm))]
    · rfl
    · intro b hb
      rcases mark_spans hb with h | h
      · obtain ⟨c, hc, e⟩ := List.mem_map.mp h
        exact e ▸ ha c hc
      · exact h ▸ hn n (List.mem_cons_self ..)

theorem markAll_texts {src : Text} : ∀ {ns : List Span} {as : List ItemAlias} {t : Text},
    t ∈ aliasTexts src (markAll src ns as) ↔ t ∈ aliasTexts src as ∨ t ∈ ns.map (textOf src)
  | [], as, t => by simp [markAll]
  | n :: ns, as, t => by
    have : markAll src (n :: ns) as = markAll src ns (mark src n as) := rfl
    rw [this, markAll_texts, mark_texts, List.map_cons, List.mem_cons, or_assoc]

theorem markProds_ok {src : Text} {ns : List Span} (hn : ∀ n ∈ ns, InSrc src n) :
    ∀ {ps : RuleBuild}, (∀ p ∈ ps, ∀ a ∈ p.aliases, InSrc src a.alias) →
      markProds src ns ps = .ok (ps.map (fun p => { p with aliases := markAll src ns p.aliases }))
  | [], _ => rfl
  | p :: ps, h => by
    unfold markProds
    rw [markAliases_ok hn (h p (List.mem_cons_self ..)),
      markProds_ok hn (fun q hq => h q (List.mem_cons_of_mem _ hq))]
    rfl

/-- The alias is set to `Some(true)` if its text is among those of the names. -/
def setText (src : Text) (ns : List Span) (a : ItemAlias) : ItemAlias :=
  if textOf src a.alias ∈ ns.map (textOf src) then { a with optional := some true } else a

theorem setText_alias (src : Text) (ns : List Span) (a : ItemAlias) :
    (setText src ns a).alias = a.alias := by
  unfold setText
  split <;> rfl

theorem setText_texts (src : Text) (ns : List Span) (as : List ItemAlias) :
    aliasTexts src (as.map (setText src ns)) = aliasTexts src as := by
  unfold aliasTexts
  rw [List.map_map]
  exact List.map_congr_left (fun a _ => by simp [setText_alias])

/-- Marking a name that does not occur before. -/
theorem mark_pre {src : Text} {name : Span} {as : List ItemAlias} : ∀ {pre : List ItemAlias},
    (∀ a ∈ pre, textOf src a.alias ≠ textOf src name) →
    mark src name (pre ++ as) = pre ++ mark src name as
  | [], _ => rfl
  | a :: pre, h => by
    obtain ⟨h1, h2⟩ := List.forall_mem_cons.mp h
    rw [List.cons_append, mark, if_neg h1, mark_pre h2]
    rfl

/-- Marking one name, if no text occurs twice. -/
theorem mark_nodup {src : Text} {name : Span} : ∀ {as : List ItemAlias}, (aliasTexts src as).Nodup →
    mark src name as =
      if textOf src name ∈ aliasTexts src as then as.map (setText src [name])
      else as ++ [absent false name]
  | [], _ => by simp [mark, aliasTexts]
  | a :: as, hn => by
    simp only [aliasTexts, List.map_cons, List.nodup_cons] at hn
    have ih := mark_nodup (src := src) (name := name) (as := as) hn.2
    unfold mark
    by_cases he : textOf src a.alias = textOf src name
    · have hrest : as.map (setText src [name]) = as := by
        refine (List.map_congr_left (g := id) (fun b hb => ?_)).trans (List.map_id _)
        have : textOf src b.alias ≠ textOf src name := fun e =>
          hn.1 (he.trans e.symm ▸ List.mem_map_of_mem (f := fun a : ItemAlias => textOf src a.alias) hb)
        simp [setText, this]
      simp [hrest, setText, he, aliasTexts]
    · have : setText src [name] a = a := by simp [setText, he]
      rw [if_neg he, ih]
      have e : textOf src name ∈ aliasTexts src (a :: as) ↔ textOf src name ∈ aliasTexts src as := by
        simp only [aliasTexts, List.map_cons, List.mem_cons, or_iff_right_iff_imp]
        exact fun h => absurd h.symm he
      by_cases hm : textOf src name ∈ aliasTexts src as
      · rw [if_pos hm, if_pos (e.mpr hm), List.map_cons, this]
      · rw [if_neg hm, if_neg (fun h => hm (e.mp h))]
        rfl

/-- Marking all names, if no text occurs twice in the aliases after `pre`, and names with the same text
occur in them. -/
theorem markAll_pre {src : Text} {pre : List ItemAlias} : ∀ {ns : List Span} {as : List ItemAlias},
    ns.Nodup → (aliasTexts src as).Nodup →
    (∀ a ∈ pre, ∀ n ∈ ns, textOf src a.alias ≠ textOf src n) →
    (∀ n ∈ ns, ∀ m ∈ ns, textOf src n = textOf src m → n = m ∨ textOf src n ∈ aliasTexts src as) →
    markAll src ns (pre ++ as) = pre ++ (as.map (setText src ns) ++
      (ns.filter (fun n => textOf src n ∉ aliasTexts src as)).map (absent false))
  | [], as, _, _, _, _ => by
    have : as.map (setText src []) = as :=
      (List.map_congr_left (g := id) (fun b _ => by simp [setText])).trans (List.map_id _)
    simp [markAll, this]
  | n :: ns, as, hns, has, hpre, hi => by
    have h0 : markAll src (n :: ns) (pre ++ as) = markAll src ns (mark src n (pre ++ as)) := rfl
    rw [List.nodup_cons] at hns
    have hpre' : ∀ a ∈ pre, ∀ m ∈ ns, textOf src a.alias ≠ textOf src m :=
      fun a ha m hm => hpre a ha m (List.mem_cons_of_mem _ hm)
    rw [h0, mark_pre (fun a ha => hpre a ha n (List.mem_cons_self ..)), mark_nodup has]
    by_cases hmem : textOf src n ∈ aliasTexts src as
    · rw [if_pos hmem, markAll_pre hns.2 (by rw [setText_texts]; exact has) hpre' (by
        rw [setText_texts]
        exact fun a ha b hb => hi a (List.mem_cons_of_mem _ ha) b (List.mem_cons_of_mem _ hb)),
        setText_texts, List.filter_cons_of_neg (by simpa using hmem), List.map_map]
      congr 2
      refine List.map_congr_left (fun a _ => ?_)
      simp only [Function.comp_apply]
      by_cases h1 : textOf src a.alias = textOf src n
      · by_cases h2 : textOf src a.alias ∈ ns.map (textOf src) <;> simp [setText, h1]
      · by_cases h2 : textOf src a.alias ∈ ns.map (textOf src)
        · have h3 : textOf src a.alias ∈ (n :: ns).map (textOf src) := List.mem_cons_of_mem _ h2
          have h4 : setText src [n] a = a := by simp [setText, h1]
          rw [h4]
          unfold setText
          rw [if_pos h2, if_pos h3]
        · have h3 : textOf src a.alias ∉ (n :: ns).map (textOf src) := by
            rw [List.map_cons, List.mem_cons, not_or]
            exact ⟨h1, h2⟩
          have h4 : setText src [n] a = a := by simp [setText, h1]
          rw [h4]
          unfold setText
          rw [if_neg h2, if_neg h3]
    · rw [if_neg hmem]
      have hal : aliasTexts src (as ++ [absent false n]) = aliasTexts src as ++ [textOf src n] := by
        simp [aliasTexts, absent]
      have hother : ∀ m ∈ ns, textOf src m ≠ textOf src n := by
        intro m hm e
        rcases hi n (List.mem_cons_self ..) m (List.mem_cons_of_mem _ hm) e.symm with h | h
        · exact hns.1 (h ▸ hm)
        · exact hmem h
      rw [markAll_pre hns.2 (by
          rw [hal]
          refine List.nodup_append.mpr ⟨has, by simp, ?_⟩
          intro x hx y hy e
          rw [List.mem_singleton] at hy
          exact hmem (hy ▸ e ▸ hx)) hpre' (by
          intro a ha b hb e
          rw [hal]
          rcases hi a (List.mem_cons_of_mem _ ha) b (List.mem_cons_of_mem _ hb) e with h | h
          · exact .inl h
          · exact .inr (List.mem_append_left _ h)), hal]
      have h1 : setText src ns (absent false n) = absent false n := by
        have : textOf src n ∉ ns.map (textOf src) := by
          intro h
          obtain ⟨m, hm, e⟩ := List.mem_map.mp h
          exact hother m hm e
        unfold setText
        rw [if_neg (by exact this)]
      have h2 : as.map (setText src ns) = as.map (setText src (n :: ns)) := by
        refine List.map_congr_left (fun a ha => ?_)
        have : textOf src a.alias ≠ textOf src n := fun e =>
          hmem (e ▸ List.mem_map_of_mem (f := fun a : ItemAlias => textOf src a.alias) ha)
        unfold setText
        have e : textOf src a.alias ∈ (n :: ns).map (textOf src) ↔
            textOf src a.alias ∈ ns.map (textOf src) := by
          rw [List.map_cons, List.mem_cons]
          exact ⟨fun h => h.resolve_left this, .inr⟩
        by_cases h : textOf src a.alias ∈ ns.map (textOf src)
        · rw [if_pos h, if_pos (e.mpr h)]
        · rw [if_neg h, if_neg (fun h' => h (e.mp h'))]
      have h3 : ns.filter (fun m => textOf src m ∉ aliasTexts src as ++ [textOf src n]) =
          ns.filter (fun m => textOf src m ∉ aliasTexts src as) := by
        refine List.filter_congr (fun m hm => ?_)
        simp [hother m hm]
      rw [List.map_append, h2, h3, List.filter_cons_of_pos (by simpa using hmem)]
      simp [h1]

theorem nodup_map_of_inj {α β : Type} {f : α → β} {l : List α} (hn : l.Nodup)
    (hi : ∀ a ∈ l, ∀ b ∈ l, f a = f b → a = b) : (l.map f).Nodup := by
  rw [List.Nodup, List.pairwise_map]
  exact List.Pairwise.imp_of_mem (fun ha hb hab e => hab (hi _ ha _ hb e)) hn

theorem mem_dedup : ∀ {l : List Span} {a : Span}, a ∈ dedup l ↔ a ∈ l
  | [], a => Iff.rfl
  | b :: l, a => by
    unfold dedup
    split
    · rename_i h
      rw [mem_dedup, List.mem_cons]
      constructor
      · exact .inr
      · rintro (rfl | h')
        · exact h
        · exact h'
    · rw [List.mem_cons, List.mem_cons, mem_dedup]

theorem nodup_dedup : ∀ (l : List Span), (dedup l).Nodup
  | [] => List.nodup_nil
  | b :: l => by
    unfold dedup
    split
    · exact nodup_dedup l
    · rename_i h
      exact List.nodup_cons.mpr ⟨fun h' => h (mem_dedup.mp h'), nodup_dedup l⟩

theorem mem_subNames {base : ProductionBuild} {prods : RuleBuild} {s : Span} :
    s ∈ subNames base prods ↔
      (∃ q ∈ prods, s ∈ q.aliases.map (·.alias)) ∧ s ∉ base.aliases.map (·.alias) := by
  simp [subNames, mem_dedup]

theorem nodup_subNames (base : ProductionBuild) (prods : RuleBuild) : (subNames base prods).Nodup :=
  (nodup_dedup _).filter _

/-! ### The production that skips a group -/

theorem addIgnored_spec (c : Bool) : ∀ (l as : List ItemAlias),
    ∃ extra : List Span, addIgnored c l as = as ++ extra.map (absent c) ∧ extra.Nodup ∧
      ∀ s, s ∈ extra ↔ s ∈ l.map (·.alias) ∧ s ∉ as.map (·.alias)
  | [], as => ⟨[], by simp [addIgnored], List.nodup_nil, by simp⟩
  | a :: l, as => by
    unfold addIgnored
    by_cases h : a.alias ∈ as.map (·.alias)
    · have h' : (as.any (fun b => b.alias = a.alias)) = true := by
        obtain ⟨b, hb, e⟩ := List.mem_map.mp h
        exact List.any_eq_true.mpr ⟨b, hb, by simpa using e⟩
      rw [if_pos h']
      obtain ⟨extra, h1, h2, h3⟩ := addIgnored_spec c l as
      refine ⟨extra, h1, h2, fun s => ?_⟩
      rw [h3, List.map_cons, List.mem_cons]
      constructor
      · exact fun ⟨x, y⟩ => ⟨.inr x, y⟩
      · rintro ⟨rfl | x, y⟩
        · exact absurd h y
        · exact ⟨x, y⟩
    · have h' : ¬ (as.any (fun b => b.alias = a.alias)) = true := by
        intro hc
        obtain ⟨b, hb, e⟩ := List.any_eq_true.mp hc
        exact h (by simp at e; exact e ▸ List.mem_map_of_mem hb)
      rw [if_neg h']
      obtain ⟨extra, h1, h2, h3⟩ := addIgnored_spec c l
        (as ++ [{ alias := a.alias, optional := some false, index := 0, finalIndex := none, clone := c }])
      refine ⟨a.alias :: extra, ?_, ?_, fun s => ?_⟩
      · rw [h1]; simp [absent]
      · refine List.nodup_cons.mpr ⟨fun hm => ?_, h2⟩
        exact ((h3 _).mp hm).2 (by simp)
      · rw [List.mem_cons, h3]
        simp only [List.map_append, List.map_cons, List.map_nil, List.mem_append, List.mem_cons,
          List.not_mem_nil, or_false, not_or]
        constructor
        · rintro (rfl | ⟨x, y, z⟩)
          · exact ⟨.inl rfl, h⟩
          · exact ⟨.inr x, y⟩
        · rintro ⟨rfl | x, y⟩
          · exact .inl rfl
          · by_cases e : s = a.alias
            · exact .inl e
            · exact .inr ⟨x, y, e⟩

end Lrp.Wop
