import Verif.Model.Parse

/-! # Memory of the parser of expressions

Model of the allocations and releases of `src/zm_parse.c`, function by function beside Model/Parse.lean.  Blocks are counted by their kind: tokens, cells and
numbers (a number counts together with its name).  The entries of the lists of variables and functions are not counted.  Allocation succeeds. -/

namespace Zm.Parse
open Zm

/-- The numbers of live blocks. -/
structure Led where
  toks : Int
  cells : Int
  nums : Int

section
variable {K : Type*}

/-- Is it the null pointer? -/
def Cell.isNull : Cell K → Bool
  | .null => true
  | _ => false

/-- `_zmParseCellFree`, zm_parse.c:183-197: the number is released, then each argument that is not null and its block; not the block of the cell itself. -/
def cellFree : Cell K → Led → Led
  | .null, l => l
  | .num _, l => { l with nums := l.nums - 1 }
  | .var _, l => l
  | .op _, l => l
  | .par, l => l
  | .func _ a, l => if a.isNull then l else let l := cellFree a l; { l with cells := l.cells - 1 }
  | .chunk _ a b, l =>
    let l := if a.isNull then l else let l := cellFree a l; { l with cells := l.cells - 1 }
    if b.isNull then l else let l := cellFree b l; { l with cells := l.cells - 1 }

/-- `_zmParseTokFree`, zm_parse.c:446-452. -/
def tokFree (t : Option (Tok K)) (l : Led) : Led :=
  match t with
  | none => l
  | some t =>
    let l := if t.cell.isNull then l else cellFree t.cell l
    { l with toks := l.toks - 1 }

/-- `arg->cell = NULL; _zmParseTokFree( arg );`, zm_parse.c:710-711 and others. -/
def shellFree (t : Option (Tok K)) (l : Led) : Led :=
  match t with
  | none => l
  | some t => tokFree (some ({ t with cell := .null } : Tok K)) l

/-- `_zmParseTokAlloc`, zm_parse.c:568-586, with `_zmParseCellAlloc`, zm_parse.c:151-181. -/
def tokAlloc (c : Cell K) (l : Led) : Led :=
  match c with
  | .num _ => { toks := l.toks + 1, cells := l.cells + 1, nums := l.nums + 1 }
  | _ => { l with toks := l.toks + 1, cells := l.cells + 1 }

/-- `_zmParseStackPrefix`, zm_parse.c:696-714. -/
def stackPrefixM (stack : List (Tok K)) (next : Option Int) (l : Led) : List (Tok K) × Led :=
  let (arg, stack) := pop stack next
  let (op, stack) := pop stack next
  match op, arg with
  | some op, some arg => match op.cell with
    | .op o => ({ op with cell := .chunk o arg.cell .null } :: stack, shellFree (some arg) l)
    | _ => (stack, tokFree (some arg) (tokFree (some op) l))
  | _, _ => (stack, tokFree arg (tokFree op l))

/-- `_zmParseStackInfix`, zm_parse.c:716-739. -/
def stackInfixM (stack : List (Tok K)) (next : Option Int) (l : Led) : List (Tok K) × Led :=
  let (arg2, stack) := pop stack next
  let (op, stack) := pop stack next
  let (arg1, stack) := pop stack next
  match op, arg1, arg2 with
  | some op, some arg1, some arg2 => match op.cell with
    | .op o => ({ op with cell := .chunk o arg1.cell arg2.cell } :: stack, shellFree (some arg2) (shellFree (some arg1) l))
    | _ => (stack, tokFree (some arg2) (tokFree (some arg1) (tokFree (some op) l)))
  | _, _, _ => (stack, tokFree arg2 (tokFree arg1 (tokFree op l)))

/-- `_zmParseStackPreinfix`, zm_parse.c:741-766. -/
def stackPreinfixM (stack : List (Tok K)) (next : Option Int) (l : Led) : List (Tok K) × Led :=
  let (arg2, stack) := pop stack next
  let (op, stack) := pop stack next
  let (arg1, stack) := pop stack next
  match op, arg2 with
  | some op, some arg2 => match op.cell with
    | .op o => ({ op with cell := .chunk o (match arg1 with | some a => a.cell | none => .null) arg2.cell } :: stack, shellFree (some arg2) (shellFree arg1 l))
    | _ => (stack, tokFree (some arg2) (tokFree arg1 (tokFree (some op) l)))
  | _, _ => (stack, tokFree arg2 (tokFree arg1 (tokFree op l)))

/-- `_zmParseStackPostfix`, zm_parse.c:768-786. -/
def stackPostfixM (stack : List (Tok K)) (next : Option Int) (l : Led) : List (Tok K) × Led :=
  let (op, stack) := pop stack next
  let (arg, stack) := pop stack next
  match op, arg with
  | some op, some arg => match op.cell with
    | .op o => ({ op with cell := .chunk o arg.cell .null } :: stack, shellFree (some arg) l)
    | _ => (stack, tokFree (some arg) (tokFree (some op) l))
  | _, _ => (stack, tokFree arg (tokFree op l))

/-- `_zmParseStack`, zm_parse.c:788-804. -/
def parseStackM (stack : List (Tok K)) (next : Option Int) (l : Led) : List (Tok K) × Led :=
  match tokOpSpec stack with
  | some .prefix => stackPrefixM stack next l
  | some .infix => stackInfixM stack next l
  | some .preinfix => stackPreinfixM stack next l
  | some .postfix => stackPostfixM stack next l
  | none => (stack, l)

/-- The loop of `_zmParseIn`, zm_parse.c:814-839. -/
def inLoopM : Nat → Parser K → Led → Res (Parser K × Led)
  | 0, _, _ => .ub
  | fuel+1, p, l =>
    let r := parseStackM p.stack none l
    match r.1 with
    | [] => .ub
    | tok :: rest =>
      if tok.cell.isPar then .ok ({ p with stack := rest }, tokFree (some tok) r.2)
      else match rest with
        | [] => .ok ({ p with stack := [{ tok with level := p.level, status := .flat }], status := .flat }, r.2)
        | t :: rest' =>
          if t.cell.isPar then
            let q := pop rest (some tok.level)
            .ok ({ p with stack := { tok with level := p.level, status := tokStatus q.2 } :: q.2, status := tokStatus q.2 }, tokFree q.1 r.2)
          else if t.cell.isFunc then
            if t.level ≠ tok.level then .ub
            else inLoopM fuel { p with stack := { status := tokStatus rest', level := tokLevel rest', cell := t.cell.setArg tok.cell } :: rest' } (shellFree (some tok) r.2)
          else inLoopM fuel { p with stack := tok :: rest } r.2

/-- `_zmParseIn`, zm_parse.c:806-840. -/
def parseInM (fuel : Nat) (p : Parser K) (status : Status) (l : Led) : Res ((Parser K × Bool) × Led) :=
  if tokStatus p.stack ≠ status then .ok ((p, false), l)
  else (inLoopM fuel p l).bind fun r => .ok ((r.1, true), r.2)

/-- The reduction before an operator is pushed, zm_parse.c:878-879. -/
def reduceLoopM (q : Nat) (level : Int) : Nat → List (Tok K) → Led → Res (List (Tok K) × Led)
  | 0, _, _ => .ub
  | fuel+1, stack, l => if q ≥ tokPriority stack then let r := parseStackM stack (some level) l; reduceLoopM q level fuel r.1 r.2 else .ok (stack, l)

/-- The final reduction, zm_parse.c:892-893. -/
def finalLoopM : Nat → List (Tok K) → Led → Res (List (Tok K) × Led)
  | 0, _, _ => .ub
  | fuel+1, stack, l => if tokOpSpec stack ≠ none then let r := parseStackM stack none l; finalLoopM fuel r.1 r.2 else .ok (stack, l)

/-- A closing bracket, zm_parse.c:666-670,676-680,686-690 and 842-867: its token is released before the brackets are matched. -/
def parseOutM (fuel : Nat) (b : Br) (p : Parser K) (l : Led) : Res ((Parser K × Bool) × Led) :=
  let tok : Tok K := { status := .outBr b, level := p.level - 1, cell := .par }
  let l := tokFree (some tok) (tokAlloc tok.cell l)
  if b = .par ∧ p.status = .inFunc then parseInM fuel { p with level := p.level - 1, status := .outFunc } .inFunc l
  else parseInM fuel { p with level := p.level - 1, status := .outBr b } (.inBr b) l

/-- The branches of the main loop for the next symbol when it is not an operator, zm_parse.c:882-890. -/
def parseSymM (fuel : Nat) (p : Parser K) (l : Led) : List (Sym K) → Res ((Parser K × List (Sym K) × Bool) × Led)
  | [] => .ok ((p, [], false), l)
  | .func f :: s => .ok (({ stack := { status := .inFunc, level := p.level + 1, cell := .func f .null } :: p.stack, level := p.level + 1, status := .inFunc }, s, true),
      tokAlloc (.func f .null : Cell K) l)
  | .num v :: s => .ok (({ p with stack := { status := p.status, level := p.level, cell := .num v } :: p.stack }, s, true), tokAlloc (.num v) l)
  | .var n :: s => .ok (({ p with stack := { status := p.status, level := p.level, cell := .var n } :: p.stack }, s, true), tokAlloc (.var n : Cell K) l)
  | .lp b :: s => .ok (({ stack := { status := .inBr b, level := p.level + 1, cell := .par } :: p.stack, level := p.level + 1, status := .inBr b }, s, true),
      tokAlloc (.par : Cell K) l)
  | .rp b :: s => (parseOutM fuel b p l).bind fun r => .ok ((r.1.1, s, r.1.2), r.2)
  | .sp :: _ => .ub
  | .op _ :: _ => .ub

/-- The main loop of `zmParse`, zm_parse.c:874-891.  The token of the operator is allocated before the reduction. -/
def parseLoopM (fuel : Nat) : Nat → List (Sym K) → Parser K → Led → Res (Parser K × Led)
  | 0, _, _, _ => .ub
  | n+1, s, p, l =>
    let s := s.dropWhile Sym.isSp
    let run := s.takeWhile Sym.isOp
    let s := s.dropWhile Sym.isOp
    match run with
    | [.op o] => (reduceLoopM o.priority p.level fuel p.stack (tokAlloc (.op o : Cell K) l)).bind fun r =>
      parseLoopM fuel n s { p with stack := { status := p.status, level := p.level, cell := .op o } :: r.1 } r.2
    | _ => (parseSymM fuel p l s).bind fun r => if r.1.2.2 then parseLoopM fuel n r.1.2.1 r.1.1 r.2 else .ok (r.1.1, r.2)

/-- `zmParse`, zm_parse.c:869-894. -/
def zmParseM (fuel : Nat) (s : List (Sym K)) (p : Parser K) (l : Led) : Res (Parser K × Led) :=
  (parseLoopM fuel (s.length + 1) s p l).bind fun r => (finalLoopM fuel r.1.stack r.2).bind fun t => .ok ({ r.1 with stack := t.1 }, t.2)

/-- `zmParserInit`, zm_parse.c:550-559, with `_zmParseVarBuiltin`, zm_parse.c:107-131: a cell and a number for each of the two constants. -/
def zmParserInitM : Led := { toks := 0, cells := 2, nums := 2 }

/-- The memory effects of `zmParseEval`, zm_parse.c:896-910; the evaluation itself releases what it allocates. -/
def zmParseEvalM (p : Parser K) (l : Led) : Parser K × Led :=
  match p.stack with
  | [] => (p, l)
  | [t] => ({ p with stack := [] }, tokFree (some t) l)
  | _ :: t :: rest => ({ p with stack := t :: rest }, l)

/-- `_zmParseStackDestroy`, zm_parse.c:526-535. -/
def stackDestroyM : List (Tok K) → Led → Led
  | [], l => l
  | t :: rest, l => stackDestroyM rest (tokFree (some t) l)

/-- `zmParserDestroy`, zm_parse.c:561-566, with `_zmParseVarListDestroy`, zm_parse.c:86-95, which releases the entries and their names but not the cells of the
variables. -/
def zmParserDestroyM (p : Parser K) (l : Led) : Led := stackDestroyM p.stack l

/-- A use of a parser: a text is given, or what was read is evaluated. -/
inductive Use (K : Type*) where
  | parse (s : List (Sym K))
  | eval

/-- The uses of a parser one after another. -/
def uses (fuel : Nat) : List (Use K) → Parser K → Led → Res (Parser K × Led)
  | [], p, l => .ok (p, l)
  | .parse s :: u, p, l => (zmParseM fuel s p l).bind fun r => uses fuel u r.1 r.2
  | .eval :: u, p, l => let r := zmParseEvalM p l; uses fuel u r.1 r.2

end
end Zm.Parse
