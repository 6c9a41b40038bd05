import Verif.Base.Res
import Mathlib.Algebra.Order.Field.Basic

/-! # Parser of mathematical expressions

Model of `src/zm_parse.c`.  The text is a list of symbols: spaces, operator characters, and numbers, names, function heads (`name(`) and
brackets, which the C code cuts off with `zSNumToken` (of the ZEDA library, not part of the sources) and `isalnum`.  Memory allocation
succeeds, and the memory of discarded tokens is not modelled.  The token stack is a list with the top first. -/

namespace Zm.Parse
open Zm

/-- `zmParseOpType`, zm_parse.h:72-85. -/
inductive Op where
  | add | sub | mul | div | mod | pow | fct | comma | sep | rat | let_
  deriving DecidableEq

/-- `zmParseOpSpec`, zm_parse.h:87-93 (`ZM_PARSE_OP_INVALID` is `none`). -/
inductive OpSpec where
  | prefix | infix | preinfix | postfix
  deriving DecidableEq

/-- The table `zm_parse_op`, zm_parse.h:103-116: kinds of the operators. -/
def Op.spec : Op → OpSpec
  | .add => .preinfix
  | .sub => .preinfix
  | .mul => .infix
  | .div => .infix
  | .mod => .infix
  | .pow => .infix
  | .fct => .postfix
  | .comma => .infix
  | .sep => .infix
  | .rat => .infix
  | .let_ => .infix

/-- The table `zm_parse_op`, zm_parse.h:103-116: priorities of the operators. -/
def Op.priority : Op → Nat
  | .add => 40
  | .sub => 40
  | .mul => 30
  | .div => 30
  | .mod => 30
  | .pow => 20
  | .fct => 10
  | .comma => 60
  | .sep => 80
  | .rat => 50
  | .let_ => 70

/-- `ZM_PARSE_MAX_PRIORITY`, zm_parse.h:95. -/
def maxPriority : Nat := 999

/-- The three pairs of brackets. -/
inductive Br where
  | par | brace | bracket
  deriving DecidableEq

/-- `zmParseStatus`, zm_parse.h:145-156. -/
inductive Status where
  | flat
  | inBr (b : Br)
  | outBr (b : Br)
  | inFunc
  | outFunc
  deriving DecidableEq

/-- `zmParseCell`, zm_parse.h:130-141; `null` is the null pointer; an operator cell without arguments is `op`, and with arguments `chunk`
(`ZM_PARSE_CELL_CHUNK`). -/
inductive Cell (K : Type*) where
  | null
  | num (v : K)
  | var (name : String)
  | op (o : Op)
  | func (name : String) (arg : Cell K)
  | par
  | chunk (o : Op) (arg1 arg2 : Cell K)

/-- Symbols of the text. -/
inductive Sym (K : Type*) where
  | sp
  | op (o : Op)
  | num (v : K)
  | var (name : String)
  | func (name : String)
  | lp (b : Br)
  | rp (b : Br)

/-- `zmParseTok`, zm_parse.h:158-163. -/
structure Tok (K : Type*) where
  status : Status
  level : Int
  cell : Cell K

/-- `zmParser`, zm_parse.h:167-173, without the lists of names. -/
structure Parser (K : Type*) where
  stack : List (Tok K)
  level : Int
  status : Status

section
variable {K : Type*}

/-- `_zmParseTokOpSpec`, zm_parse.c:464-472. -/
def tokOpSpec : List (Tok K) → Option OpSpec
  | [] => none
  | [t] => match t.cell with
    | .op o => some o.spec
    | _ => none
  | t :: t' :: rest => match t.cell with
    | .op o => some o.spec
    | _ => if t'.level ≠ t.level then none else tokOpSpec (t' :: rest)

/-- `_zmParseTokPriority`, zm_parse.c:474-482. -/
def tokPriority : List (Tok K) → Nat
  | [] => maxPriority
  | [t] => match t.cell with
    | .op o => o.priority
    | _ => maxPriority
  | t :: t' :: rest => match t.cell with
    | .op o => o.priority
    | _ => if t'.level ≠ t.level then maxPriority else tokPriority (t' :: rest)

/-- `_zmParseTokStatus`, zm_parse.c:459-462. -/
def tokStatus : List (Tok K) → Status
  | [] => .flat
  | t :: _ => t.status

/-- `_zmParseTokLevel`, zm_parse.c:454-457. -/
def tokLevel : List (Tok K) → Int
  | [] => 0
  | t :: _ => t.level

/-- `_zmParseStackPop`, zm_parse.c:598-608; `next` is the level of `toknext`, `none` if that is null. -/
def pop (stack : List (Tok K)) (next : Option Int) : Option (Tok K) × List (Tok K) :=
  match stack with
  | [] => (none, [])
  | t :: rest => match next with
    | none => (some t, rest)
    | some l => if t.level ≠ l then (none, t :: rest) else (some t, rest)

/-- `_zmParseStackPrefix`, zm_parse.c:696-714. -/
def stackPrefix (stack : List (Tok K)) (next : Option Int) : List (Tok K) :=
  let (arg, stack) := pop stack next
  let (op, stack) := pop stack next
  match op, arg with
  | some op, some arg => match op.cell with
    | .op o => { op with cell := .chunk o arg.cell .null } :: stack
    | _ => stack
  | _, _ => stack

/-- `_zmParseStackInfix`, zm_parse.c:716-739. -/
def stackInfix (stack : List (Tok K)) (next : Option Int) : List (Tok K) :=
  let (arg2, stack) := pop stack next
  let (op, stack) := pop stack next
  let (arg1, stack) := pop stack next
  match op, arg1, arg2 with
  | some op, some arg1, some arg2 => match op.cell with
    | .op o => { op with cell := .chunk o arg1.cell arg2.cell } :: stack
    | _ => stack
  | _, _, _ => stack

/-- `_zmParseStackPreinfix`, zm_parse.c:741-766. -/
def stackPreinfix (stack : List (Tok K)) (next : Option Int) : List (Tok K) :=
  let (arg2, stack) := pop stack next
  let (op, stack) := pop stack next
  let (arg1, stack) := pop stack next
  match op, arg2 with
  | some op, some arg2 => match op.cell with
    | .op o => { op with cell := .chunk o (match arg1 with | some a => a.cell | none => .null) arg2.cell } :: stack
    | _ => stack
  | _, _ => stack

/-- `_zmParseStackPostfix`, zm_parse.c:768-786. -/
def stackPostfix (stack : List (Tok K)) (next : Option Int) : List (Tok K) :=
  let (op, stack) := pop stack next
  let (arg, stack) := pop stack next
  match op, arg with
  | some op, some arg => match op.cell with
    | .op o => { op with cell := .chunk o arg.cell .null } :: stack
    | _ => stack
  | _, _ => stack

/-- `_zmParseStack`, zm_parse.c:788-804 (no caller uses the returned value). -/
def parseStack (stack : List (Tok K)) (next : Option Int) : List (Tok K) :=
  match tokOpSpec stack with
  | some .prefix => stackPrefix stack next
  | some .infix => stackInfix stack next
  | some .preinfix => stackPreinfix stack next
  | some .postfix => stackPostfix stack next
  | none => stack

/-- Is it a bracket? -/
def Cell.isPar : Cell K → Bool
  | .par => true
  | _ => false

/-- Is it a function? -/
def Cell.isFunc : Cell K → Bool
  | .func _ _ => true
  | _ => false

/-- Attachment of the argument to a function, zm_parse.c:829. -/
def Cell.setArg (c arg : Cell K) : Cell K :=
  match c with
  | .func f _ => .func f arg
  | c => c

/-- The loop of `_zmParseIn`, zm_parse.c:814-839.  `fuel` bounds the number of rounds; running out of it is rendered as `ub`, as are null
pointers. -/
def inLoop : Nat → Parser K → Res (Parser K)
  | 0, _ => .ub
  | fuel+1, p =>
    match parseStack p.stack none with
    | [] => .ub
    | tok :: rest =>
      if tok.cell.isPar then .ok { p with stack := rest }
      else match rest with
        | [] => .ok { p with stack := [{ tok with level := p.level, status := .flat }], status := .flat }
        | t :: rest' =>
          if t.cell.isPar then
            let stack := (pop rest (some tok.level)).2
            .ok { p with stack := { tok with level := p.level, status := tokStatus stack } :: stack, status := tokStatus stack }
          else if t.cell.isFunc then
            if t.level ≠ tok.level then .ub
            else inLoop fuel { p with stack := { status := tokStatus rest', level := tokLevel rest', cell := t.cell.setArg tok.cell } :: rest' }
          else inLoop fuel { p with stack := tok :: rest }

/-- `_zmParseIn`, zm_parse.c:806-840; the flag is the returned value. -/
def parseIn (fuel : Nat) (p : Parser K) (status : Status) : Res (Parser K × Bool) :=
  if tokStatus p.stack ≠ status then .ok (p, false)
  else (inLoop fuel p).bind fun p => .ok (p, true)

/-- The reduction before an operator is pushed, zm_parse.c:878-879. -/
def reduceLoop (q : Nat) (level : Int) : Nat → List (Tok K) → Res (List (Tok K))
  | 0, _ => .ub
  | fuel+1, stack => if q ≥ tokPriority stack then reduceLoop q level fuel (parseStack stack (some level)) else .ok stack

/-- The final reduction, zm_parse.c:892-893. -/
def finalLoop : Nat → List (Tok K) → Res (List (Tok K))
  | 0, _ => .ub
  | fuel+1, stack => if tokOpSpec stack ≠ none then finalLoop fuel (parseStack stack none) else .ok stack

/-- Is it an operator character? -/
def Sym.isOp : Sym K → Bool
  | .op _ => true
  | _ => false

/-- Is it a space? -/
def Sym.isSp : Sym K → Bool
  | .sp => true
  | _ => false

/-- A closing bracket, zm_parse.c:666-670,676-680,686-690 and 842-867. -/
def parseOut (fuel : Nat) (b : Br) (p : Parser K) : Res (Parser K × Bool) :=
  if b = .par ∧ p.status = .inFunc then parseIn fuel { p with level := p.level - 1, status := .outFunc } .inFunc
  else parseIn fuel { p with level := p.level - 1, status := .outBr b } (.inBr b)

/-- The branches of the main loop for the next symbol when it is not an operator, zm_parse.c:882-890.  The flag tells whether there was a
token.  A space at this place follows a run of operator characters, and whether the number reader of ZEDA skips it is not known. -/
def parseSym (fuel : Nat) (p : Parser K) : List (Sym K) → Res (Parser K × List (Sym K) × Bool)
  | [] => .ok (p, [], false)
  | .func f :: l => .ok ({ stack := { status := .inFunc, level := p.level + 1, cell := .func f .null } :: p.stack, level := p.level + 1, status := .inFunc }, l, true)
  | .num v :: l => .ok ({ p with stack := { status := p.status, level := p.level, cell := .num v } :: p.stack }, l, true)
  | .var s :: l => .ok ({ p with stack := { status := p.status, level := p.level, cell := .var s } :: p.stack }, l, true)
  | .lp b :: l => .ok ({ stack := { status := .inBr b, level := p.level + 1, cell := .par } :: p.stack, level := p.level + 1, status := .inBr b }, l, true)
  | .rp b :: l => (parseOut fuel b p).bind fun r => .ok (r.1, l, r.2)
  | .sp :: _ => .ub
  | .op _ :: _ => .ub

/-- The main loop of `zmParse`, zm_parse.c:874-891: spaces are skipped, then a run of operator characters is read as one operator
(`_zmParseTokOp`, zm_parse.c:629-640). -/
def parseLoop (fuel : Nat) : Nat → List (Sym K) → Parser K → Res (Parser K)
  | 0, _, _ => .ub
  | n+1, l, p =>
    let l := l.dropWhile Sym.isSp
    let run := l.takeWhile Sym.isOp
    let l := l.dropWhile Sym.isOp
    match run with
    | [.op o] => (reduceLoop o.priority p.level fuel p.stack).bind fun stack =>
      parseLoop fuel n l { p with stack := { status := p.status, level := p.level, cell := .op o } :: stack }
    | _ => (parseSym fuel p l).bind fun r => if r.2.2 then parseLoop fuel n r.2.1 r.1 else .ok r.1

/-- `zmParse`, zm_parse.c:869-894. -/
def zmParse (fuel : Nat) (l : List (Sym K)) (p : Parser K) : Res (Parser K) :=
  (parseLoop fuel (l.length + 1) l p).bind fun p => (finalLoop fuel p.stack).bind fun stack => .ok { p with stack := stack }

/-- `zmParserInit`, zm_parse.c:550-559. -/
def zmParserInit : Parser K := { stack := [], level := 0, status := .flat }

end

/-- The functions of the C library and the constants on which the evaluation depends. -/
structure Ext (K : Type*) where
  tol : K
  /-- `HUGE_VAL` or `-HUGE_VAL` -/
  huge : Bool → K
  /-- `(int)a % (int)b` -/
  imod : K → K → K
  pow : K → K → K
  fact : K → K
  /-- built-in functions of one argument -/
  func : String → Option (K → K)
  /-- values of the variables, zero when nothing is assigned -/
  var : String → K

section
variable {K : Type*} [Field K] [LinearOrder K]

/-- `_zmParseOpEval`, zm_parse.c:409-427. -/
def opEval (X : Ext K) (o : Op) (a b : K) : K :=
  match o with
  | .add => a + b
  | .sub => a - b
  | .mul => a * b
  | .div => if |b| ≤ X.tol then X.huge (decide (b ≥ 0)) else a / b
  | .rat => if |b| ≤ X.tol then X.huge (decide (b ≥ 0)) else a / b
  | .mod => X.imod a b
  | .pow => X.pow a b
  | .fct => X.fact a
  | .comma => a
  | .sep => a
  | .let_ => b

/-- `cell->arg ? r : 0`, zm_parse.c:208-209. -/
def orZero (c : Cell K) (r : Res K) : Res K :=
  match c with
  | .null => .ok 0
  | _ => r

mutual
/-- `_zmParseCellEval`, zm_parse.c:199-214, with `_zmParseFuncEval`, zm_parse.c:346-381.  A null pointer is undefined; an unknown
function has no arguments, so that the allocation of no elements fails and zero is returned. -/
def cellEval (X : Ext K) : Cell K → Res K
  | .null => .ub
  | .num v => .ok v
  | .var s => .ok (X.var s)
  | .op _ => .ok 0
  | .par => .ok 0
  | .func f arg => match X.func f with
    | none => .ok 0
    | some g => (argEval X arg).bind fun x => .ok (g x)
  | .chunk o a b =>
    (orZero a (cellEval X a)).bind fun x => (orZero b (cellEval X b)).bind fun y => .ok (opEval X o x y)

/-- `_zmParseFuncGetArg`, zm_parse.c:330-344, for one argument; the array is zero when allocated. -/
def argEval (X : Ext K) : Cell K → Res K
  | .null => .ok 0
  | .num v => .ok v
  | .var s => .ok (X.var s)
  | .op _ => .ok 0
  | .par => .ok 0
  | .func f arg => match X.func f with
    | none => .ok 0
    | some g => (argEval X arg).bind fun x => .ok (g x)
  | .chunk o a b => if o = .comma then argEval X a else
    (orZero a (cellEval X a)).bind fun x => (orZero b (cellEval X b)).bind fun y => .ok (opEval X o x y)
end

/-- `zmParseEval`, zm_parse.c:896-910; the syntax error is `fail`. -/
def zmParseEval (X : Ext K) (p : Parser K) : Res K :=
  match p.stack with
  | [] => .ok 0
  | [t] => cellEval X t.cell
  | _ :: _ :: _ => .fail

/-- Parsing and evaluation of a text by a fresh parser. -/
def parseEval (X : Ext K) (fuel : Nat) (l : List (Sym K)) : Res K := (zmParse fuel l zmParserInit).bind fun p => zmParseEval X p

end
end Zm.Parse
