import Verif.Spec.Knuth

/-! Specification: renaming the symbols of a grammar. -/

namespace Lrp.Spec
variable {T T' : Type}

/-- The grammar with its symbols renamed. -/
def renamed (f : T → T') (D : Decls T) : Decls T' := D.map fun d => (f d.1, d.2.map (List.map f))

/-- The input with its symbols renamed. -/
def renameToks {M : Type} (f : T → T') (toks : List (Token M T)) : List (Token M T') :=
  toks.map fun t => ⟨t.item, f t.ty⟩

/-- Different symbols keep different names. -/
def Injective (f : T → T') : Prop := ∀ a b, f a = f b → a = b

end Lrp.Spec
