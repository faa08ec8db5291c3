import Verif.Model.Lalr
import Verif.Model.Dfa
import Verif.Spec.Cfg
import Verif.Spec.Lr

/-! Specification vocabulary for parsers at run time. -/

namespace Lrp.Spec
variable {M T : Type} [LinOrd T] [DecidableEq T]

/-- The three ways to build a parser. -/
inductive Method where
  | slr
  | clr
  | lalr
  deriving DecidableEq, Repr

/-- `Slr::new`, `Clr::new` or `Lalr::new`; the parser is identified with its table. -/
def Method.build (k : Method) (dbg : Bool) (fuel : Nat) (g : Grammar T) : Out (Tabler T) :=
  match k with
  | .slr => Slr.new dbg fuel g
  | .clr => Clr.new dbg fuel g
  | .lalr => do
    let l ← Lalr.new dbg fuel g
    return l.table

/-- `t` is the table made by method `k` from the declarations `D` with start symbol `S`. -/
def Makes (k : Method) (dbg : Bool) (D : Decls T) (S eof : T) (t : Tabler T) : Prop :=
  ∃ g, Grammar.new dbg S (grammarMap D) eof = .ok g ∧ Returns (fun n => k.build dbg n g) t

/-- The reductor registered under a rule name and production number, applied to items (`none`: it is
missing or panics). -/
def redOf (maps : ReductMap M T) (A : T) (k : Nat) (its : List (Token M T)) : Option M :=
  (maps.get? A).bind (fun fs => fs[k]?.bind (fun f => f its))

/-- Every production has a reductor, and it does not panic on items of the right types. -/
def Reductors (D : Decls T) (maps : ReductMap M T) : Prop :=
  ∀ A k its, IsProd D A k (its.map Token.ty) → ∃ v, redOf maps A k its = some v

/-- Every parse tree of a piece of the input has a value: no reductor that the tree calls is missing or
panics. -/
def Evaluates (D : Decls T) (maps : ReductMap M T) (toks : List (Token M T)) : Prop :=
  ∀ tr, Tree.Valid D tr → tr.yield <:+: toks → ∃ v, tr.eval (redOf maps) = some v

/-- `Parser::parse` returns `r` on the input. -/
def Parses (t : Tabler T) (maps : ReductMap M T) (toks : List (Token M T))
    (r : Except (Error T) M) : Prop :=
  Returns (fun n => Parser.parse t n toks maps) r

/-- `Parser::validate` answers `b` on the input. -/
def Validates (t : Tabler T) (toks : List (Token Unit T)) (b : Bool) : Prop :=
  Returns (fun n => Parser.validate t n toks) b

/-- All tokens are of terminal types. -/
def TerminalToks (D : Decls T) (toks : List (Token M T)) : Prop := ∀ t ∈ toks, Terminal D t.ty

/-- `d` is the state of the `Dfa` at some moment of the run of `Parser::parse`: at the start, or
after an iteration of the loop of `Dfa::trace` that reported no error. -/
inductive Reached (t : Tabler T) (maps : ReductMap M T) (toks : List (Token M T)) :
    Dfa M T → Prop
  | init {d : Dfa M T} : Parser.dfa t toks maps = .ok d → Reached t maps toks d
  | step {d d' : Dfa M T} {n : Nat} : Reached t maps toks d → d.finished = false →
      Dfa.travel n d d.symbol = .ok (d', .ok ()) → Reached t maps toks d'

/-- The symbol that comes next: the type of the next token, or the end marker. -/
def nextSym (eof : T) : List (Token M T) → T
  | [] => eof
  | t :: _ => t.ty

/-- The beginning `u` of the input is the beginning of a sentence, but the symbol `x` that comes next
in the input cannot follow it. -/
def FirstWrong (D : Decls T) (S eof : T) (toks u : List (Token M T)) (x : T) : Prop :=
  ∃ rest, toks = u ++ rest ∧ ViablePrefix D S (u.map Token.ty) ∧ x = nextSym eof rest ∧
    ¬ MayFollow D S eof (u.map Token.ty) x

/-- Lookaheads are passed on along shifts and gotos: if a shift or goto of a state leads to another
state, what the advanced position has there contains the lookahead of the position. -/
def Propagated (t : Tabler T) : Prop :=
  ∀ (i j : Nat) s s' row c (p : Position T) x, t.states[i]? = some s → t.actions[i]? = some row →
    p ∈ s → After p x → row.get? x = some c → Among (.shift j) c ∨ Among (.goto j) c →
    t.states[j]? = some s' →
    ∃ q ∈ s', q.rule = p.rule ∧ q.seq = p.seq ∧ q.point = p.point + 1 ∧ ∀ y ∈ p.look, y ∈ q.look

/-- No state is mistaken for a successor: if the kernel positions (those with something before the point)
of a state are exactly what the kernel positions of another one become when advanced over `X`, then the
latter state has no other positions before `X`. -/
def Unmixed (t : Tabler T) : Prop :=
  ∀ (i j : Nat) s s' X, t.states[i]? = some s → t.states[j]? = some s' →
    (∃ p ∈ s, 0 < p.point ∧ After p X) →
    (∀ c : Position T, (∃ q ∈ s', 0 < q.point ∧ bare q = c) ↔
      ∃ p ∈ s, 0 < p.point ∧ After p X ∧ bare { p with point := p.point + 1 } = c) →
    ∀ p ∈ s, After p X → 0 < p.point

end Lrp.Spec
