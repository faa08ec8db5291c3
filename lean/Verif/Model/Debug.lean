import Verif.Model.Dfa

/-! Model of `Dfa::stack_debug` (src/dfa.rs).  `Debug` of values and symbols and `Display` of state numbers
are parameters. -/

namespace Lrp
variable {M T : Type}

/-- src/lib.rs:83, the derived `Debug` of `Token`. -/
def Token.debug (fi : M → String) (ft : T → String) (it : Token M T) : String :=
  "Token { item: " ++ fi it.item ++ ", ty: " ++ ft it.ty ++ " }"

namespace Dfa

/-- src/dfa.rs:256-267, the loop of `stack_debug`: the pieces that are joined. -/
def debugPieces (fs : Nat → String) (fi : M → String) (ft : T → String) : List Nat → List (Token M T) →
    List String
  | [], its => its.map (Token.debug fi ft)
  | s :: ss, [] => fs s :: ss.map fs
  | s :: ss, it :: its => fs s :: it.debug fi ft :: debugPieces fs fi ft ss its

/-- src/dfa.rs:250-269 `stack_debug`. -/
def stackDebug [LinOrd T] [DecidableEq T] (fs : Nat → String) (fi : M → String) (ft : T → String) (d : Dfa M T) :
    String :=
  " ".intercalate (debugPieces fs fi ft d.states.reverse d.items.reverse)

end Dfa
end Lrp
