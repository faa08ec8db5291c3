import Verif.Model.WopOut

/-! Model of the lexer of `wop` (wop/src/lib.rs:39-127), which `logos` derives from the patterns of
`Sym`: at every position the longest match of a pattern is taken, an earlier pattern before a later one
of the same length (`alias` and `use` before identifiers).  No pattern is a proper prefix of another
one, except for `:`, `alias` and `use`, so nothing depends on how `logos` backtracks.

Sources are bytes.  Two things are left open: which characters outside of ASCII belong to `\w`, and how
many characters an error token spans. -/

namespace Lrp.Wop

/-- What is left open. -/
structure LexEnv where
  /-- The number of bytes of the character of `\w`, outside of ASCII, that the text starts with. -/
  word : Text → Nat
  /-- The number of bytes of the error token at the start of the text. -/
  bad : Text → Nat
  /-- A character is a whole one. -/
  wordWhole : ∀ s, boundary s (word s) = true
  /-- None of its bytes is a byte of ASCII. -/
  wordHigh : ∀ s : Text, ∀ c ∈ s.take (word s), 128 ≤ c
  /-- An error token, which is not empty, consists of whole characters. -/
  badWhole : ∀ s, boundary s (max 1 (bad s)) = true

/-- `[a-zA-Z_]`. -/
def isAlpha (c : Nat) : Bool := (97 ≤ c && c ≤ 122) || (65 ≤ c && c ≤ 90) || c == 95

/-- The ASCII characters of `\w`. -/
def isWord (c : Nat) : Bool := isAlpha c || (48 ≤ c && c ≤ 57)

/-- `\w*`: the length of the longest match; the first argument is the length of the text. -/
def wordRun (L : LexEnv) : Nat → Text → Nat
  | 0, _ => 0
  | _ + 1, [] => 0
  | n + 1, c :: s =>
    if isWord c then 1 + wordRun L n s
    else if 128 ≤ c then
      let k := min (L.word (c :: s)) (s.length + 1)
      if k = 0 then 0 else k + wordRun L n ((c :: s).drop k)
    else 0

/-- `[a-zA-Z_]\w*`. -/
def lexIdent (L : LexEnv) : Text → Option Nat
  | [] => none
  | c :: s => if isAlpha c then some (1 + wordRun L s.length s) else none

/-- `([^"\\]|\\.)*"`. -/
def strTail : Text → Option Nat
  | [] => none
  | [c] => if c = 34 then some 1 else none
  | c :: d :: s =>
    if c = 34 then some 1
    else if c = 92 then
      if d = 10 then none else (strTail s).map (· + 2)
    else (strTail (d :: s)).map (· + 1)

/-- `"([^"\\]|\\.)*"`. -/
def lexStr : Text → Option Nat
  | 34 :: s => (strTail s).map (· + 1)
  | _ => none

/-- `([^a]|a[^b])*ab`, for the end `ab` of code blocks and block comments. -/
def tailTo (a b : Nat) : Text → Option Nat
  | [] => none
  | [_] => none
  | c :: d :: s =>
    if c = a then
      if d = b then some 2 else (tailTo a b s).map (· + 2)
    else (tailTo a b (d :: s)).map (· + 1)

/-- `/\*([^\*]|\*[^//])*\*/`. -/
def lexBlockComment : Text → Option Nat
  | 47 :: 42 :: s => (tailTo 42 47 s).map (· + 2)
  | _ => none

/-- `[^\n]*`. -/
def lineRun : Text → Nat
  | [] => 0
  | c :: s => if c = 10 then 0 else 1 + lineRun s

/-- `//[^\n]*\r?`: a carriage return is already matched by `[^\n]*`. -/
def lexLineComment : Text → Option Nat
  | 47 :: 47 :: s => some (2 + lineRun s)
  | _ => none

/-- `(->)([^\}]|\}[^%])*\}%`. -/
def lexCodeBlock : Text → Option Nat
  | 45 :: 62 :: s => (tailTo 125 37 s).map (· + 2)
  | _ => none

/-- `[ \t\n\r]`. -/
def isSpace (c : Nat) : Bool := c == 32 || c == 9 || c == 10 || c == 13

/-- `[ \t\n\r]*`. -/
def spaceRun : Text → Nat
  | [] => 0
  | c :: s => if isSpace c then 1 + spaceRun s else 0

/-- `[ \t\n\r]+`. -/
def lexWs : Text → Option Nat
  | [] => none
  | c :: s => if isSpace c then some (1 + spaceRun s) else none

/-- A literal token. -/
def lexLit (w : Text) (s : Text) : Option Nat := if w.isPrefixOf s then some w.length else none

/-- wop/src/lib.rs:41-103, the patterns in the order of their declaration. -/
def lexPatterns (L : LexEnv) : List (Sym × (Text → Option Nat)) :=
  [(.aliasWord, lexLit [97, 108, 105, 97, 115]),
   (.useWord, lexLit [117, 115, 101]),
   (.assign, lexLit [61]),
   (.pipe, lexLit [124]),
   (.openParen, lexLit [40]),
   (.closeParen, lexLit [41]),
   (.sc, lexLit [59]),
   (.pathAccess, lexLit [58, 58]),
   (.twoDots, lexLit [58]),
   (.glob, lexLit [42]),
   (.optional, lexLit [63]),
   (.clone, lexLit [38]),
   (.ident, lexIdent L),
   (.strLit, lexStr),
   (.blockComment, lexBlockComment),
   (.lineComment, lexLineComment),
   (.codeBlock, lexCodeBlock),
   (.ws, lexWs)]

/-- The longest match, the first one among those of the same length. -/
def longest (s : Text) : List (Sym × (Text → Option Nat)) → Option (Sym × Nat)
  | [] => none
  | (y, f) :: ps =>
    match f s, longest s ps with
    | none, r => r
    | some n, none => some (y, n)
    | some n, some (z, m) => if n < m then some (z, m) else some (y, n)

/-- The patterns marked `logos::skip`. -/
def lexSkips (y : Sym) : Bool := y == .blockComment || y == .lineComment || y == .ws

/-- wop/src/lib.rs:121-127 `lexer`, from the position `pos` on, where `s` is the rest of the source;
the first argument bounds the length of the rest. -/
def lexFrom (L : LexEnv) : Nat → Nat → Text → List Gramem
  | 0, _, _ => []
  | _ + 1, _, [] => []
  | n + 1, pos, c :: s =>
    match longest (c :: s) (lexPatterns L) with
    | some (y, k) =>
      let rest := lexFrom L n (pos + k) ((c :: s).drop k)
      if lexSkips y then rest else ⟨⟨.token y, Span.new pos (pos + k)⟩, y⟩ :: rest
    | none =>
      let k := max 1 (min (L.bad (c :: s)) (s.length + 1))
      ⟨⟨.token .error, Span.new pos (pos + k)⟩, .error⟩ :: lexFrom L n (pos + k) ((c :: s).drop k)

/-- wop/src/lib.rs:121-127 `lexer`. -/
def lex (L : LexEnv) (src : Text) : List Gramem := lexFrom L src.length 0 src

end Lrp.Wop
