/-
Text of the parser of mathematical expressions (zm_parse.c): characters, names of variables and functions.  The stack, the brackets and the
evaluation are in Model/Parse.lean; here the text is an array of characters, as the C code reads it.

Contracts of ZEDA and of the C library: `isalpha` and `isalnum` in the "C" locale; `zSSkipIncludedChar` skips the characters listed;
`zStrCopyNC(str,cp)` moves the rest of the text to the front; `zSNumToken` moves a number from the front of the text to the token, as
described by `Lex.num`; lists find and insert; allocations succeed.
-/
import Verif.Model.Parse

namespace Zm.Parse

variable {K : Type*}

/-- The reader of numbers `zSNumToken` together with `atof` (`none`: the text does not begin with a number), and the size of the buffer
`tkn`, zm_parse.c:872 (`BUFSIZ`). -/
structure Lex (K : Type*) where
  size : Nat
  num : List Char → Option (K × List Char)

/-- `isalpha` of the C library. -/
def isAlpha (c : Char) : Bool := c.isAlpha
/-- `isalnum` of the C library. -/
def isAlnum (c : Char) : Bool := c.isAlpha || c.isDigit
/-- `__zm_parse_delim`, zm_parse.c:19-21 (the character -1 is left out). -/
def isDelim (c : Char) : Bool := c = '\t' || c = '\x0b' || c = '\x0c' || c = '\n' || c = '\r' || c = ' '

/-- The table `zm_parse_op`, zm_parse.h:103-116: the texts of the operators. -/
def Op.char : Op → Char
  | .add => '+'
  | .sub => '-'
  | .mul => '*'
  | .div => '/'
  | .mod => '%'
  | .pow => '^'
  | .fct => '!'
  | .comma => ','
  | .sep => ';'
  | .rat => ':'
  | .let_ => '='

/-- `__zm_parse_op`, zm_parse.c:23. -/
def isOpChar (c : Char) : Bool := ['+', '-', '*', '/', '%', '^', '!', ',', ';', ':', '='].contains c

/-- The rows of the table `zm_parse_op`, zm_parse.h:103-116. -/
def allOps : List Op := [.add, .sub, .mul, .div, .mod, .pow, .fct, .comma, .sep, .rat, .let_]

/-- `_zmParseOpFind`, zm_parse.c:398-407. -/
def opFind (s : List Char) : Option Op := allOps.find? fun o => [o.char] = s

/-- The lists of names of a parser, `varlist` and `funclist`, zm_parse.h:167-173: variables with their values (`none`: no cell) and functions
with their numbers of arguments. -/
structure Names (K : Type*) where
  vars : List (String × Option K)
  funcs : List (String × Nat)

/-- `_zmParseVarListReg`, zm_parse.c:64-85: a variable of that name, a new one at the head if there is none. -/
def varReg (l : List (String × Option K)) (s : String) : List (String × Option K) :=
  if l.any (fun x => x.1 = s) then l else (s, none) :: l

/-- `_zmParseFuncListReg`, zm_parse.c:268-290. -/
def funcReg (l : List (String × Nat)) (s : String) (argc : Nat) : List (String × Nat) :=
  if l.any (fun x => x.1 = s) then l else (s, argc) :: l

/-- `_zmParseVarAssoc`, zm_parse.c:100-110. -/
def varAssoc (l : List (String × Option K)) (s : String) (v : K) : List (String × Option K) :=
  (varReg l s).map fun x => if x.1 = s then (x.1, some v) else x

/-- `_zmParseVarBuiltin`, zm_parse.c:112-134, for the values of the two constants. -/
def varBuiltin (pi e : K) (l : List (String × Option K)) : List (String × Option K) := varAssoc (varAssoc l "pi" pi) "e" e

/-- The names of `_zmParseFuncBuiltin`, zm_parse.c:303-328. -/
def builtinFuncs : List String :=
  ["sin", "cos", "tan", "cot", "asin", "acos", "atan", "acot", "sinh", "cosh", "tanh", "coth", "exp", "log", "ln", "abs", "sqrt", "deg", "rad"]

/-- `_zmParseFuncBuiltin`, zm_parse.c:303-328. -/
def funcBuiltin (l : List (String × Nat)) : List (String × Nat) :=
  funcReg (builtinFuncs.foldl (fun l s => funcReg l s 1) l) "testfunc" 3

/-- The lists of `zmParserInit`, zm_parse.c:553-556. -/
def namesInit (pi e : K) : Names K := { vars := varBuiltin pi e [], funcs := funcBuiltin [] }

/-- `_zmParseVarEval`, zm_parse.c:136-139, of the variable with that name. -/
def varValue [Zero K] (l : List (String × Option K)) (s : String) : K :=
  match l.find? fun x => x.1 = s with
  | some (_, some v) => v
  | _ => 0

/-- The copy of a name to the buffer, zm_parse.c:622 and 648: undefined when the name and its terminator do not fit. -/
def copyName (X : Lex K) (l : List Char) : Res (List Char) :=
  if (l.takeWhile isAlnum).length < X.size then .ok (l.takeWhile isAlnum) else .ub

/-- `_zmParseTokFunc`, zm_parse.c:642-656: the name, the rest of the text, and the list of functions. -/
def tokFunc (X : Lex K) (N : Names K) (l : List Char) : Res (Option (Sym K × List Char × Names K)) :=
  if l.head?.any isAlpha then
    (copyName X l).bind fun name =>
      if (l.drop name.length).head? = some '(' then
        .ok (some (.func (String.ofList name), l.drop (name.length + 1), { N with funcs := funcReg N.funcs (String.ofList name) 0 }))
      else .ok none
  else .ok none

/-- `_zmParseTokNum`, zm_parse.c:610-614. -/
def tokNum (X : Lex K) (N : Names K) (l : List Char) : Option (Sym K × List Char × Names K) :=
  match X.num l with
  | some (v, r) => some (.num v, r, N)
  | none => none

/-- `_zmParseTokVar`, zm_parse.c:616-627. -/
def tokVar (X : Lex K) (N : Names K) (l : List Char) : Res (Option (Sym K × List Char × Names K)) :=
  if l.head?.any isAlpha then
    (copyName X l).bind fun name =>
      .ok (some (.var (String.ofList name), l.drop name.length, { N with vars := varReg N.vars (String.ofList name) }))
  else .ok none

/-- `_zmParseTokPar`, zm_parse.c:658-694, as to the text. -/
def tokPar (N : Names K) : List Char → Option (Sym K × List Char × Names K)
  | '(' :: l => some (.lp .par, l, N)
  | ')' :: l => some (.rp .par, l, N)
  | '{' :: l => some (.lp .brace, l, N)
  | '}' :: l => some (.rp .brace, l, N)
  | '[' :: l => some (.lp .bracket, l, N)
  | ']' :: l => some (.rp .bracket, l, N)
  | _ => none

/-- The order in which the readers are tried, zm_parse.c:882-887. -/
def nextSym (X : Lex K) (N : Names K) (l : List Char) : Res (Option (Sym K × List Char × Names K)) :=
  (tokFunc X N l).bind fun r => match r with
    | some r => .ok (some r)
    | none => match tokNum X N l with
      | some r => .ok (some r)
      | none => (tokVar X N l).bind fun r => match r with
        | some r => .ok (some r)
        | none => .ok (tokPar N l)

/-- The main loop of `zmParse`, zm_parse.c:874-891, on the text.  The copy of a run of operator characters to the buffer, zm_parse.c:634-636,
is undefined when it does not fit. -/
def textLoop (X : Lex K) (fuel : Nat) : Nat → List Char → Parser K × Names K → Res (Parser K × Names K)
  | 0, _, _ => .ub
  | n+1, l, p =>
    let l := l.dropWhile isDelim
    let run := l.takeWhile isOpChar
    let l := l.dropWhile isOpChar
    if X.size ≤ run.length then .ub
    else match opFind run with
    | some o => (reduceLoop o.priority p.1.level fuel p.1.stack).bind fun stack =>
      textLoop X fuel n l ({ p.1 with stack := { status := p.1.status, level := p.1.level, cell := .op o } :: stack }, p.2)
    | none => (nextSym X p.2 l).bind fun r => match r with
      | none => .ok p
      | some (x, l', N) => (parseSym fuel p.1 [x]).bind fun r => if r.2.2 then textLoop X fuel n l' (r.1, N) else .ok (r.1, N)

/-- `zmParse`, zm_parse.c:869-894, on the text. -/
def parseText (X : Lex K) (fuel : Nat) (l : List Char) (p : Parser K × Names K) : Res (Parser K × Names K) :=
  (textLoop X fuel (l.length + 1) l p).bind fun p => (finalLoop fuel p.1.stack).bind fun stack => .ok ({ p.1 with stack := stack }, p.2)

/-- `zmParserInit`, zm_parse.c:550-559, with the lists of names. -/
def textInit (pi e : K) : Parser K × Names K := (zmParserInit, namesInit pi e)

end Zm.Parse
