import Verif.Model.WopPrint

/-! Model of the command line program `wop` (wop/src/main.rs). -/

namespace Lrp.Wop

/-- wop/src/main.rs:14-38 of `main`, from the source that was read from the file (line 12) and the tokens
the lexer makes of it (lines 14-17): the builder whose two dumps are written to `out.rs`, and whether `main`
will return `Ok` or the error "impossible to parse".

* Lines 19-31: `dfa.trace` with an observer that only prints (`id`).  Its result is kept for the end.
* Line 33: `print_nested` of `dfa.items[0]`, the bottom of the stack, whatever the result was.
* Line 38: `Builder::process` on it, with a new builder.

Left out: the other printing, of tokens (line 15, which slices the source at the spans of the tokens only),
of the stacks (line 21), of the result and the time. -/
def main (quote : Text → Text) (dbg : Bool) (order : Nat → List Span → List Span) (fuel : Nat) (src : Text)
    (toks : List Gramem) : Out (Builder × Except (Error Sym) Unit) := do
  let dfa ← buildParser dbg fuel toks
  let (dfa, res) ← dfa.trace id fuel fuel
  match dfa.items.getLast? with
  | none => .panic .indexRange
  | some ast => do
    let _ ← printNested quote src ast [] 0
    let b ← Builder.process order src Builder.empty ast
    return (b, res)

/-- wop/src/builder.rs:10 `GRAMMAR_LINTS`. -/
def grammarLints : Text := ascii "unused_imports, clippy::enum_glob_use"

/-- wop/src/builder.rs:11-12 `REDUCTOR_LINTS`. -/
def reductorLints : Text :=
  ascii "non_snake_case, clippy::enum_glob_use, unused_braces, unused_imports, unused_assignments, clippy::unnecessary_literal_unwrap"

/-- wop/src/main.rs:45-66: what is written around the two dumps. -/
def fileText (grammar reductor : Text) : Text :=
  ascii "\nuse crate::{Ast, Gramem, Meta, Sym};\nuse lrp::{Grammar, ReductMap, Span};\n\n#[allow(" ++
    grammarLints ++
    ascii ")]\n#[must_use]\npub fn grammar() -> Grammar<Sym> {\n    Grammar::new(Sym::EntryPoint, " ++ grammar ++
    ascii ", Sym::Eof)\n}\n\n#[allow(" ++ reductorLints ++
    ascii ")]\npub fn reduct_map() -> ReductMap<Meta<Ast>, Sym> " ++ reductor ++ ascii "\n"

/-- wop/src/main.rs:14-70 of `main`: what is written to `out.rs` (line 43), and what is returned (line 69).
`walk` is the order in which the hash map of the rules is walked by the first and by the second dump.  The
entry type is the one of line 36.  Errors of the file system are left out. -/
def run (quote : Text → Text) (dbg : Bool) (order : Nat → List Span → List Span)
    (walk : Nat → List (Text × RuleBuild) → List (Text × RuleBuild)) (fuel : Nat) (src : Text)
    (toks : List Gramem) : Out (Text × Except (Error Sym) Unit) := do
  let (b, res) ← main quote dbg order fuel src toks
  let g ← grammarText src b.imports (walk 0 b.rules)
  let r ← reductorText (ascii "Gramem") src b.imports (walk 1 b.rules)
  return (fileText g r, res)

end Lrp.Wop
