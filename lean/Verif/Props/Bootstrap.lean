import Verif.Props.WopLex

/-! wop is written in itself: wop/src/out.rs was generated from wop/src/wop.grammar.  The model of the
lexer, the parser and the builder, run on the bytes of wop.grammar, gives the productions and the
`let`s of out.rs.  This checks the model against the code; it is not a claim about all programs. -/

namespace Lrp.Props
open Spec Wop Wop.Spec
set_option maxRecDepth 1000000

/-- The bytes of wop/src/wop.grammar. -/
def wopGrammar : Text :=
  [117, 115, 101, 32, 99, 114, 97, 116, 101, 58, 58, 83, 121, 109, 58, 58, 42, 59, 10, 117, 115, 101, 32, 99, 114,
   97, 116, 101, 58, 58, 65, 115, 116, 59, 10, 10, 97, 108, 105, 97, 115, 32, 34, 59, 34, 32, 83, 99, 59, 10,
   97, 108, 105, 97, 115, 32, 34, 58, 58, 34, 32, 80, 97, 116, 104, 65, 99, 99, 101, 115, 115, 59, 10, 97, 108,
   105, 97, 115, 32, 34, 61, 34, 32, 65, 115, 115, 105, 103, 110, 59, 10, 97, 108, 105, 97, 115, 32, 34, 97, 108,
   105, 97, 115, 34, 32, 65, 108, 105, 97, 115, 87, 111, 114, 100, 59, 10, 97, 108, 105, 97, 115, 32, 34, 117, 115,
   101, 34, 32, 85, 115, 101, 87, 111, 114, 100, 59, 10, 97, 108, 105, 97, 115, 32, 34, 42, 34, 32, 71, 108, 111,
   98, 59, 10, 97, 108, 105, 97, 115, 32, 34, 58, 34, 32, 84, 119, 111, 68, 111, 116, 115, 59, 10, 97, 108, 105,
   97, 115, 32, 34, 40, 34, 32, 79, 112, 101, 110, 80, 97, 114, 101, 110, 59, 10, 97, 108, 105, 97, 115, 32, 34,
   41, 34, 32, 67, 108, 111, 115, 101, 80, 97, 114, 101, 110, 59, 10, 97, 108, 105, 97, 115, 32, 34, 63, 34, 32,
   79, 112, 116, 105, 111, 110, 97, 108, 59, 10, 97, 108, 105, 97, 115, 32, 34, 38, 34, 32, 67, 108, 111, 110, 101,
   59, 10, 10, 69, 110, 116, 114, 121, 80, 111, 105, 110, 116, 58, 32, 65, 115, 116, 32, 61, 32, 80, 114, 111, 103,
   114, 97, 109, 58, 38, 112, 32, 45, 62, 32, 123, 32, 65, 115, 116, 58, 58, 69, 110, 116, 114, 121, 80, 111, 105,
   110, 116, 40, 66, 111, 120, 58, 58, 110, 101, 119, 40, 112, 41, 41, 32, 125, 37, 32, 59, 10, 10, 80, 114, 111,
   103, 114, 97, 109, 58, 32, 65, 115, 116, 32, 61, 32, 80, 114, 111, 103, 114, 97, 109, 32, 40, 73, 109, 112, 111,
   114, 116, 58, 38, 101, 120, 116, 32, 124, 32, 65, 108, 105, 97, 115, 58, 38, 101, 120, 116, 32, 124, 32, 82, 117,
   108, 101, 68, 101, 99, 108, 58, 38, 101, 120, 116, 41, 32, 34, 59, 34, 32, 45, 62, 32, 123, 32, 10, 32, 32,
   32, 32, 108, 101, 116, 32, 112, 114, 111, 103, 114, 97, 109, 32, 61, 32, 38, 116, 111, 107, 115, 91, 48, 93, 59,
   10, 32, 32, 32, 32, 108, 101, 116, 32, 109, 117, 116, 32, 112, 114, 111, 103, 114, 97, 109, 95, 118, 101, 99, 32,
   61, 32, 109, 97, 116, 99, 104, 32, 112, 114, 111, 103, 114, 97, 109, 46, 105, 116, 101, 109, 46, 105, 116, 101, 109,
   32, 123, 10, 32, 32, 32, 32, 32, 32, 32, 32, 65, 115, 116, 58, 58, 80, 114, 111, 103, 114, 97, 109, 40, 114,
   101, 102, 32, 118, 41, 32, 61, 62, 32, 118, 46, 99, 108, 111, 110, 101, 40, 41, 44, 10, 32, 32, 32, 32, 32,
   32, 32, 32, 95, 32, 61, 62, 32, 117, 110, 114, 101, 97, 99, 104, 97, 98, 108, 101, 33, 40, 41, 44, 10, 32,
   32, 32, 32, 125, 59, 10, 32, 32, 32, 32, 112, 114, 111, 103, 114, 97, 109, 95, 118, 101, 99, 46, 112, 117, 115,
   104, 40, 101, 120, 116, 46, 117, 110, 119, 114, 97, 112, 40, 41, 41, 59, 10, 32, 32, 32, 32, 65, 115, 116, 58,
   58, 80, 114, 111, 103, 114, 97, 109, 40, 112, 114, 111, 103, 114, 97, 109, 95, 118, 101, 99, 41, 10, 125, 37, 32,
   10, 32, 32, 32, 32, 124, 32, 32, 40, 65, 108, 105, 97, 115, 32, 124, 32, 73, 109, 112, 111, 114, 116, 32, 124,
   32, 82, 117, 108, 101, 68, 101, 99, 108, 41, 58, 38, 112, 32, 34, 59, 34, 32, 45, 62, 32, 123, 32, 65, 115,
   116, 58, 58, 80, 114, 111, 103, 114, 97, 109, 40, 112, 41, 32, 125, 37, 32, 59, 10, 10, 73, 100, 101, 110, 116,
   80, 97, 116, 104, 58, 32, 65, 115, 116, 32, 61, 32, 73, 100, 101, 110, 116, 80, 97, 116, 104, 58, 38, 105, 112,
   32, 80, 97, 116, 104, 65, 99, 99, 101, 115, 115, 32, 73, 100, 101, 110, 116, 58, 38, 101, 120, 116, 32, 45, 62,
   32, 123, 10, 32, 32, 32, 32, 108, 101, 116, 32, 115, 112, 97, 110, 32, 61, 32, 83, 112, 97, 110, 58, 58, 110,
   101, 119, 40, 105, 112, 46, 105, 116, 101, 109, 46, 115, 112, 97, 110, 46, 115, 116, 97, 114, 116, 44, 32, 101, 120,
   116, 46, 105, 116, 101, 109, 46, 115, 112, 97, 110, 46, 101, 110, 100, 41, 59, 10, 32, 32, 32, 32, 65, 115, 116,
   58, 58, 73, 100, 101, 110, 116, 80, 97, 116, 104, 40, 115, 112, 97, 110, 41, 10, 125, 37, 10, 32, 32, 32, 32,
   124, 32, 73, 100, 101, 110, 116, 32, 45, 62, 32, 123, 32, 65, 115, 116, 58, 58, 73, 100, 101, 110, 116, 80, 97,
   116, 104, 40, 116, 111, 107, 115, 91, 48, 93, 46, 105, 116, 101, 109, 46, 115, 112, 97, 110, 41, 32, 125, 37, 59,
   10, 10, 82, 117, 108, 101, 68, 101, 99, 108, 58, 32, 65, 115, 116, 32, 61, 32, 73, 100, 101, 110, 116, 80, 97,
   116, 104, 32, 34, 58, 34, 32, 73, 100, 101, 110, 116, 80, 97, 116, 104, 32, 34, 61, 34, 32, 82, 117, 108, 101,
   32, 45, 62, 32, 123, 10, 32, 32, 32, 32, 108, 101, 116, 32, 105, 100, 101, 110, 116, 32, 61, 32, 116, 111, 107,
   115, 91, 48, 93, 46, 105, 116, 101, 109, 46, 105, 116, 101, 109, 46, 103, 101, 116, 95, 115, 114, 99, 95, 114, 101,
   102, 40, 41, 46, 117, 110, 119, 114, 97, 112, 40, 41, 59, 10, 32, 32, 32, 32, 108, 101, 116, 32, 116, 121, 32,
   61, 32, 116, 111, 107, 115, 91, 50, 93, 46, 105, 116, 101, 109, 46, 105, 116, 101, 109, 46, 103, 101, 116, 95, 115,
   114, 99, 95, 114, 101, 102, 40, 41, 46, 117, 110, 119, 114, 97, 112, 40, 41, 59, 10, 32, 32, 32, 32, 108, 101,
   116, 32, 114, 117, 108, 101, 95, 118, 101, 99, 32, 61, 32, 109, 97, 116, 99, 104, 32, 116, 111, 107, 115, 91, 52,
   93, 46, 105, 116, 101, 109, 46, 105, 116, 101, 109, 32, 123, 10, 32, 32, 32, 32, 32, 32, 32, 32, 65, 115, 116,
   58, 58, 82, 117, 108, 101, 40, 114, 101, 102, 32, 118, 41, 32, 61, 62, 32, 118, 46, 99, 108, 111, 110, 101, 40,
   41, 44, 10, 32, 32, 32, 32, 32, 32, 32, 32, 95, 32, 61, 62, 32, 117, 110, 114, 101, 97, 99, 104, 97, 98,
   108, 101, 33, 40, 41, 44, 10, 32, 32, 32, 32, 125, 59, 10, 32, 32, 32, 32, 65, 115, 116, 58, 58, 82, 117,
   108, 101, 68, 101, 99, 108, 40, 40, 105, 100, 101, 110, 116, 44, 32, 116, 121, 44, 32, 114, 117, 108, 101, 95, 118,
   101, 99, 41, 41, 10, 125, 37, 59, 10, 10, 82, 117, 108, 101, 58, 32, 65, 115, 116, 32, 61, 32, 82, 117, 108,
   101, 32, 80, 105, 112, 101, 32, 82, 117, 108, 101, 80, 105, 112, 101, 32, 67, 111, 100, 101, 66, 108, 111, 99, 107,
   63, 58, 99, 98, 32, 45, 62, 32, 123, 10, 32, 32, 32, 32, 108, 101, 116, 32, 109, 117, 116, 32, 114, 117, 108,
   101, 95, 118, 101, 99, 32, 61, 32, 109, 97, 116, 99, 104, 32, 116, 111, 107, 115, 91, 48, 93, 46, 105, 116, 101,
   109, 46, 105, 116, 101, 109, 32, 123, 10, 32, 32, 32, 32, 32, 32, 32, 32, 65, 115, 116, 58, 58, 82, 117, 108,
   101, 40, 114, 101, 102, 32, 118, 118, 41, 32, 61, 62, 32, 118, 118, 46, 99, 108, 111, 110, 101, 40, 41, 44, 10,
   32, 32, 32, 32, 32, 32, 32, 32, 95, 32, 61, 62, 32, 117, 110, 114, 101, 97, 99, 104, 97, 98, 108, 101, 33,
   40, 41, 44, 10, 32, 32, 32, 32, 125, 59, 10, 32, 32, 32, 32, 109, 97, 116, 99, 104, 32, 116, 111, 107, 115,
   91, 50, 93, 46, 105, 116, 101, 109, 46, 105, 116, 101, 109, 32, 123, 10, 32, 32, 32, 32, 32, 32, 32, 32, 65,
   115, 116, 58, 58, 82, 117, 108, 101, 80, 105, 112, 101, 40, 114, 101, 102, 32, 118, 41, 32, 61, 62, 32, 114, 117,
   108, 101, 95, 118, 101, 99, 46, 112, 117, 115, 104, 40, 40, 118, 46, 99, 108, 111, 110, 101, 40, 41, 44, 32, 99,
   98, 46, 109, 97, 112, 95, 111, 114, 95, 101, 108, 115, 101, 40, 124, 124, 32, 83, 112, 97, 110, 58, 58, 110, 101,
   119, 40, 48, 44, 32, 48, 41, 44, 32, 124, 103, 124, 32, 103, 46, 105, 116, 101, 109, 46, 115, 112, 97, 110, 41,
   41, 41, 44, 10, 32, 32, 32, 32, 32, 32, 32, 32, 95, 32, 61, 62, 32, 117, 110, 114, 101, 97, 99, 104, 97,
   98, 108, 101, 33, 40, 41, 44, 10, 32, 32, 32, 32, 125, 59, 10, 32, 32, 32, 32, 65, 115, 116, 58, 58, 82,
   117, 108, 101, 40, 114, 117, 108, 101, 95, 118, 101, 99, 41, 10, 125, 37, 10, 32, 32, 32, 32, 124, 32, 82, 117,
   108, 101, 80, 105, 112, 101, 32, 67, 111, 100, 101, 66, 108, 111, 99, 107, 63, 58, 99, 98, 32, 45, 62, 32, 123,
   10, 32, 32, 32, 32, 108, 101, 116, 32, 65, 115, 116, 58, 58, 82, 117, 108, 101, 80, 105, 112, 101, 40, 114, 101,
   102, 32, 112, 114, 111, 100, 41, 32, 61, 32, 116, 111, 107, 115, 91, 48, 93, 46, 105, 116, 101, 109, 46, 105, 116,
   101, 109, 32, 101, 108, 115, 101, 32, 123, 10, 32, 32, 32, 32, 32, 32, 32, 32, 117, 110, 114, 101, 97, 99, 104,
   97, 98, 108, 101, 33, 40, 41, 10, 32, 32, 32, 32, 125, 59, 10, 32, 32, 32, 32, 65, 115, 116, 58, 58, 82,
   117, 108, 101, 40, 118, 101, 99, 33, 91, 40, 112, 114, 111, 100, 46, 99, 108, 111, 110, 101, 40, 41, 44, 32, 99,
   98, 46, 109, 97, 112, 95, 111, 114, 95, 101, 108, 115, 101, 40, 124, 124, 32, 83, 112, 97, 110, 58, 58, 110, 101,
   119, 40, 48, 44, 32, 48, 41, 44, 32, 124, 103, 124, 32, 103, 46, 105, 116, 101, 109, 46, 115, 112, 97, 110, 41,
   41, 93, 41, 10, 125, 37, 59, 10, 10, 82, 117, 108, 101, 80, 105, 112, 101, 58, 32, 65, 115, 116, 32, 61, 32,
   82, 117, 108, 101, 80, 105, 112, 101, 32, 82, 117, 108, 101, 73, 116, 101, 109, 58, 38, 105, 116, 101, 109, 32, 45,
   62, 32, 123, 10, 32, 32, 32, 32, 108, 101, 116, 32, 109, 117, 116, 32, 118, 32, 61, 32, 109, 97, 116, 99, 104,
   32, 116, 111, 107, 115, 91, 48, 93, 46, 105, 116, 101, 109, 46, 105, 116, 101, 109, 32, 123, 10, 32, 32, 32, 32,
   32, 32, 32, 32, 65, 115, 116, 58, 58, 82, 117, 108, 101, 80, 105, 112, 101, 40, 114, 101, 102, 32, 118, 41, 32,
   61, 62, 32, 118, 46, 99, 108, 111, 110, 101, 40, 41, 44, 10, 32, 32, 32, 32, 32, 32, 32, 32, 95, 32, 61,
   62, 32, 117, 110, 114, 101, 97, 99, 104, 97, 98, 108, 101, 33, 40, 41, 44, 10, 32, 32, 32, 32, 125, 59, 10,
   32, 32, 32, 32, 118, 46, 112, 117, 115, 104, 40, 105, 116, 101, 109, 41, 59, 10, 32, 32, 32, 32, 65, 115, 116,
   58, 58, 82, 117, 108, 101, 80, 105, 112, 101, 40, 118, 41, 10, 125, 37, 10, 32, 32, 32, 32, 124, 32, 82, 117,
   108, 101, 73, 116, 101, 109, 32, 45, 62, 32, 123, 10, 32, 32, 32, 32, 65, 115, 116, 58, 58, 82, 117, 108, 101,
   80, 105, 112, 101, 40, 116, 111, 107, 115, 91, 46, 46, 49, 93, 46, 116, 111, 95, 118, 101, 99, 40, 41, 41, 10,
   125, 37, 59, 10, 10, 82, 117, 108, 101, 73, 116, 101, 109, 58, 32, 65, 115, 116, 32, 61, 32, 40, 73, 100, 101,
   110, 116, 80, 97, 116, 104, 58, 38, 105, 116, 101, 109, 32, 124, 32, 83, 116, 114, 76, 105, 116, 58, 38, 105, 116,
   101, 109, 41, 32, 79, 112, 116, 105, 111, 110, 97, 108, 63, 58, 111, 112, 116, 32, 40, 34, 58, 34, 32, 34, 38,
   34, 63, 58, 99, 108, 32, 73, 100, 101, 110, 116, 58, 105, 100, 41, 63, 32, 45, 62, 32, 123, 10, 32, 32, 32,
   32, 65, 115, 116, 58, 58, 82, 117, 108, 101, 73, 116, 101, 109, 40, 66, 111, 120, 58, 58, 110, 101, 119, 40, 105,
   116, 101, 109, 46, 117, 110, 119, 114, 97, 112, 40, 41, 41, 44, 32, 111, 112, 116, 46, 105, 115, 95, 115, 111, 109,
   101, 40, 41, 44, 32, 105, 100, 46, 109, 97, 112, 40, 124, 105, 100, 124, 32, 105, 100, 46, 105, 116, 101, 109, 46,
   115, 112, 97, 110, 41, 44, 32, 99, 108, 46, 105, 115, 95, 115, 111, 109, 101, 40, 41, 41, 10, 125, 37, 10, 32,
   32, 32, 32, 124, 32, 34, 40, 34, 32, 82, 117, 108, 101, 58, 38, 114, 117, 108, 101, 32, 34, 41, 34, 32, 79,
   112, 116, 105, 111, 110, 97, 108, 63, 58, 111, 112, 116, 32, 40, 34, 58, 34, 32, 34, 38, 34, 63, 58, 99, 108,
   32, 73, 100, 101, 110, 116, 58, 105, 100, 41, 63, 32, 45, 62, 32, 123, 10, 32, 32, 32, 32, 65, 115, 116, 58,
   58, 82, 117, 108, 101, 73, 116, 101, 109, 40, 66, 111, 120, 58, 58, 110, 101, 119, 40, 114, 117, 108, 101, 41, 44,
   32, 111, 112, 116, 46, 105, 115, 95, 115, 111, 109, 101, 40, 41, 44, 32, 105, 100, 46, 109, 97, 112, 40, 124, 105,
   100, 124, 32, 105, 100, 46, 105, 116, 101, 109, 46, 115, 112, 97, 110, 41, 44, 32, 99, 108, 46, 105, 115, 95, 115,
   111, 109, 101, 40, 41, 41, 10, 125, 37, 59, 10, 10, 73, 109, 112, 111, 114, 116, 58, 32, 65, 115, 116, 32, 61,
   32, 34, 117, 115, 101, 34, 32, 40, 73, 100, 101, 110, 116, 80, 97, 116, 104, 32, 34, 58, 58, 34, 32, 34, 42,
   34, 32, 124, 32, 73, 100, 101, 110, 116, 80, 97, 116, 104, 41, 32, 45, 62, 32, 123, 10, 32, 32, 32, 32, 65,
   115, 116, 58, 58, 73, 109, 112, 111, 114, 116, 40, 83, 112, 97, 110, 58, 58, 110, 101, 119, 40, 116, 111, 107, 115,
   91, 49, 93, 46, 105, 116, 101, 109, 46, 115, 112, 97, 110, 46, 115, 116, 97, 114, 116, 44, 32, 116, 111, 107, 115,
   46, 108, 97, 115, 116, 40, 41, 46, 117, 110, 119, 114, 97, 112, 40, 41, 46, 105, 116, 101, 109, 46, 115, 112, 97,
   110, 46, 101, 110, 100, 41, 41, 10, 125, 37, 59, 10, 10, 65, 108, 105, 97, 115, 58, 32, 65, 115, 116, 32, 61,
   32, 34, 97, 108, 105, 97, 115, 34, 32, 40, 73, 100, 101, 110, 116, 32, 124, 32, 83, 116, 114, 76, 105, 116, 41,
   32, 73, 100, 101, 110, 116, 80, 97, 116, 104, 32, 45, 62, 32, 123, 10, 32, 32, 32, 32, 65, 115, 116, 58, 58,
   65, 108, 105, 97, 115, 40, 116, 111, 107, 115, 91, 49, 93, 46, 105, 116, 101, 109, 46, 115, 112, 97, 110, 44, 32,
   116, 111, 107, 115, 91, 50, 93, 46, 105, 116, 101, 109, 46, 115, 112, 97, 110, 41, 10, 125, 37, 59, 10]

/-- The name of a symbol. -/
def symName : Sym → String
  | .aliasWord => "AliasWord" | .useWord => "UseWord" | .assign => "Assign" | .pipe => "Pipe"
  | .openParen => "OpenParen" | .closeParen => "CloseParen" | .sc => "Sc" | .pathAccess => "PathAccess"
  | .twoDots => "TwoDots" | .glob => "Glob" | .optional => "Optional" | .clone => "Clone"
  | .ident => "Ident" | .strLit => "StrLit" | .blockComment => "BlockComment"
  | .lineComment => "LineComment" | .codeBlock => "CodeBlock" | .error => "Error" | .ws => "Ws"
  | .eof => "Eof" | .token => "Token" | .entryPoint => "EntryPoint" | .program => "Program"
  | .rule => "Rule" | .import_ => "Import" | .alias => "Alias" | .rulePipe => "RulePipe"
  | .ruleDecl => "RuleDecl" | .identPath => "IdentPath" | .ruleItem => "RuleItem"

/-- wop/src/out.rs:127-854, the `let`s at the start of every reductor: the name, then `some true` for
`Some(…)`, `some false` for `None` and `none` otherwise, the index, the end of the range, and whether
the item is copied. -/
def outLets : List (Sym × List (List (String × Option Bool × Nat × Option Nat × Bool))) :=
  [(.ruleItem,
     [[("item", some true, 0, none, true),
        ("opt", some true, 1, none, true),
        ("cl", some true, 3, none, true),
        ("id", some true, 4, none, true)],
      [("item", some true, 0, none, true),
        ("opt", some true, 1, none, true),
        ("cl", some true, 3, none, true),
        ("id", some true, 3, none, true)],
      [("item", some true, 0, none, true),
        ("opt", some true, 1, none, true),
        ("cl", some false, 0, none, false),
        ("id", some false, 0, none, false)],
      [("item", some true, 0, none, true),
        ("opt", some false, 0, none, true),
        ("cl", some true, 2, none, true),
        ("id", some true, 3, none, true)],
      [("item", some true, 0, none, true),
        ("opt", some false, 0, none, true),
        ("cl", some true, 2, none, true),
        ("id", some true, 2, none, true)],
      [("item", some true, 0, none, true),
        ("opt", some false, 0, none, true),
        ("cl", some false, 0, none, false),
        ("id", some false, 0, none, false)],
      [("item", some true, 0, none, true),
        ("opt", some true, 1, none, true),
        ("cl", some true, 3, none, true),
        ("id", some true, 4, none, true)],
      [("item", some true, 0, none, true),
        ("opt", some true, 1, none, true),
        ("cl", some true, 3, none, true),
        ("id", some true, 3, none, true)],
      [("item", some true, 0, none, true),
        ("opt", some true, 1, none, true),
        ("cl", some false, 0, none, false),
        ("id", some false, 0, none, false)],
      [("item", some true, 0, none, true),
        ("opt", some false, 0, none, true),
        ("cl", some true, 2, none, true),
        ("id", some true, 3, none, true)],
      [("item", some true, 0, none, true),
        ("opt", some false, 0, none, true),
        ("cl", some true, 2, none, true),
        ("id", some true, 2, none, true)],
      [("item", some true, 0, none, true),
        ("opt", some false, 0, none, true),
        ("cl", some false, 0, none, false),
        ("id", some false, 0, none, false)],
      [("rule", none, 1, none, true),
        ("opt", some true, 3, none, true),
        ("cl", some true, 5, none, true),
        ("id", some true, 6, none, true)],
      [("rule", none, 1, none, true),
        ("opt", some true, 3, none, true),
        ("cl", some true, 5, none, true),
        ("id", some true, 5, none, true)],
      [("rule", none, 1, none, true),
        ("opt", some true, 3, none, true),
        ("cl", some false, 0, none, false),
        ("id", some false, 0, none, false)],
      [("rule", none, 1, none, true),
        ("opt", some false, 0, none, true),
        ("cl", some true, 4, none, true),
        ("id", some true, 5, none, true)],
      [("rule", none, 1, none, true),
        ("opt", some false, 0, none, true),
        ("cl", some true, 4, none, true),
        ("id", some true, 4, none, true)],
      [("rule", none, 1, none, true),
        ("opt", some false, 0, none, true),
        ("cl", some false, 0, none, false),
        ("id", some false, 0, none, false)]]),
   (.identPath,
     [[("ip", none, 0, none, true),
        ("ext", none, 2, none, true)],
      []]),
   (.entryPoint,
     [[("p", none, 0, none, true)]]),
   (.rule,
     [[("cb", some true, 3, none, true)],
      [("cb", some false, 0, none, true)],
      [("cb", some true, 1, none, true)],
      [("cb", some false, 0, none, true)]]),
   (.rulePipe,
     [[("item", none, 1, none, true)],
      []]),
   (.import_,
     [[],
      []]),
   (.alias,
     [[],
      []]),
   (.program,
     [[("ext", some true, 1, none, true)],
      [("ext", some true, 1, none, true)],
      [("ext", some true, 1, none, true)],
      [("p", none, 0, some 1, true)],
      [("p", none, 0, some 1, true)],
      [("p", none, 0, some 1, true)]]),
   (.ruleDecl,
     [[]])]

/-- The line written for an alias, in the form of `outLets`; the line for `None` reads `toks[0]`. -/
def letOf (a : ItemAlias) : Text × Option Bool × Nat × Option Nat × Bool :=
  (textOf wopGrammar a.alias, a.optional,
    if a.optional = some false then 0 else a.index,
    if a.optional = some false then none else a.finalIndex, a.clone)

/-- The rules of the builder are those of out.rs, and the `let`s of their reductors too, up to order. -/
def sameAsOut (b : Builder) : Bool :=
  decide (b.rules.length = outRules.length) &&
  outRules.all (fun r =>
    match b.rules.lookup (WopSamples.bytes (symName r.1)) with
    | some prods => decide (writeRule wopGrammar prods =
        .ok (r.2.map (·.map (fun s => WopSamples.bytes (symName s)))))
    | none => false) &&
  outLets.all (fun r =>
    match b.rules.lookup (WopSamples.bytes (symName r.1)) with
    | some prods => decide (prods.length = r.2.length) && (prods.zip r.2).all (fun (q : ProductionBuild × _) =>
        (q.1.aliases.map letOf).isPerm (q.2.map (fun l => (WopSamples.bytes l.1, l.2))))
    | none => false)

/-- `Builder::from_str` on wop.grammar gives the grammar and the `let`s of out.rs. -/
theorem bootstrap : ∃ b, Builder.fromStr false WopSamples.order 1000 wopGrammar
    (lex WopSamples.lexer wopGrammar) = .ok (.ok b) ∧ sameAsOut b = true := by
  have h : ∀ {o : Out (Except (Error Sym) Builder)},
      (match o with | .ok (.ok b) => sameAsOut b | _ => false) = true →
        ∃ b, o = .ok (.ok b) ∧ sameAsOut b = true := by
    intro o h
    split at h
    · exact ⟨_, rfl, h⟩
    · cases h
  exact h (by decide +kernel)

end Lrp.Props
