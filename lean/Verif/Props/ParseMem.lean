import Verif.Props.Parse
import Verif.Model.ParseMem

/-!
# Memory of the parser of expressions
-/

set_option linter.unusedSectionVars false

namespace Zm.Parse
open Zm
variable {K : Type*}

/-! ## Specification -/

/-- The cells of a tree. -/
def Cell.cells : Cell K → Int
  | .null => 0
  | .func _ a => 1 + a.cells
  | .chunk _ a b => 1 + a.cells + b.cells
  | _ => 1

/-- The numbers of a tree. -/
def Cell.nums : Cell K → Int
  | .num _ => 1
  | .func _ a => a.nums
  | .chunk _ a b => a.nums + b.nums
  | _ => 0

/-- The cells on a stack. -/
def cellsOf : List (Tok K) → Int
  | [] => 0
  | t :: s => t.cell.cells + cellsOf s

/-- The numbers on a stack. -/
def numsOf : List (Tok K) → Int
  | [] => 0
  | t :: s => t.cell.nums + numsOf s

/-- Live tokens that are not on the stack. -/
def lostToks (l : Led) (s : List (Tok K)) : Int := l.toks - s.length

/-- Live cells that are not on the stack. -/
def lostCells (l : Led) (s : List (Tok K)) : Int := l.cells - cellsOf s

/-- Live numbers that are not on the stack. -/
def lostNums (l : Led) (s : List (Tok K)) : Int := l.nums - numsOf s

/-! ## Releases -/

theorem cells_nonneg (c : Cell K) : 0 ≤ c.cells := by
  induction c with
  | func _ a ih => simp only [Cell.cells]; omega
  | chunk _ a b iha ihb => simp only [Cell.cells]; omega
  | _ => simp [Cell.cells]

theorem nums_nonneg (c : Cell K) : 0 ≤ c.nums := by
  induction c with
  | func _ a ih => simp only [Cell.nums]; omega
  | chunk _ a b iha ihb => simp only [Cell.nums]; omega
  | _ => simp [Cell.nums]

theorem cellsOf_nonneg (s : List (Tok K)) : 0 ≤ cellsOf s := by
  induction s with
  | nil => simp [cellsOf]
  | cons t s ih => have := cells_nonneg t.cell; simp only [cellsOf]; omega

/-- The block of the cell itself, if there is one. -/
def Cell.own (c : Cell K) : Int := if c.isNull then 0 else 1

theorem null_of {c : Cell K} (h : c.isNull = true) : c = .null := by
  cases c <;> simp [Cell.isNull] at h
  rfl

theorem own_le (c : Cell K) : 0 ≤ c.own ∧ c.own ≤ c.cells := by
  unfold Cell.own
  cases c with
  | func _ a => have := cells_nonneg a; simp only [Cell.isNull, Cell.cells]; simp; omega
  | chunk _ a b => have := cells_nonneg a; have := cells_nonneg b; simp only [Cell.isNull, Cell.cells]; simp; omega
  | _ => simp [Cell.isNull, Cell.cells]

theorem cellFree_spec (c : Cell K) : ∀ l, cellFree c l = { toks := l.toks, cells := l.cells - (c.cells - c.own), nums := l.nums - c.nums } := by
  have step : ∀ (a : Cell K), (∀ l, cellFree a l = { toks := l.toks, cells := l.cells - (a.cells - a.own), nums := l.nums - a.nums }) → ∀ l : Led,
      (if a.isNull then l else let l := cellFree a l; { l with cells := l.cells - 1 }) = { toks := l.toks, cells := l.cells - a.cells, nums := l.nums - a.nums } := by
    intro a ha l
    by_cases h : a.isNull = true
    · rw [if_pos h, null_of h]
      simp [Cell.cells, Cell.nums]
    · rw [if_neg h, ha]
      simp only [Cell.own, h]
      simp
      omega
  induction c with
  | func _ a ih =>
    intro l
    unfold cellFree
    rw [step a ih]
    simp [Cell.own, Cell.isNull, Cell.cells, Cell.nums]
  | chunk _ a b iha ihb =>
    intro l
    unfold cellFree
    simp only
    have h1 := step a iha l
    simp only at h1
    rw [h1]
    have h2 := step b ihb { toks := l.toks, cells := l.cells - a.cells, nums := l.nums - a.nums }
    simp only at h2
    rw [h2]
    simp only [Cell.own, Cell.isNull, Cell.cells, Cell.nums, Led.mk.injEq]
    simp
    omega
  | _ => intro l; simp [cellFree, Cell.own, Cell.isNull, Cell.cells, Cell.nums]

theorem tokFree_spec (t : Tok K) (l : Led) :
    tokFree (some t) l = { toks := l.toks - 1, cells := l.cells - (t.cell.cells - t.cell.own), nums := l.nums - t.cell.nums } := by
  unfold tokFree
  simp only
  by_cases h : t.cell.isNull = true
  · rw [if_pos h, null_of h]; simp [Cell.cells, Cell.nums, Cell.own, Cell.isNull]
  · rw [if_neg h, cellFree_spec]

theorem shellFree_spec (t : Tok K) (l : Led) : shellFree (some t) l = { l with toks := l.toks - 1 } := by
  unfold shellFree
  simp only
  rw [tokFree_spec]
  simp [Cell.cells, Cell.nums, Cell.own, Cell.isNull]

theorem tokAlloc_spec (c : Cell K) (l : Led) (hc : c.cells = 1) : tokAlloc c l = { toks := l.toks + 1, cells := l.cells + c.cells, nums := l.nums + c.nums } := by
  cases c with
  | func f a =>
    have : a.cells = 0 := by simp only [Cell.cells] at hc; omega
    cases a with
    | null => simp [tokAlloc, Cell.cells, Cell.nums]
    | func _ b => have := cells_nonneg b; simp only [Cell.cells] at *; omega
    | chunk _ b c => have := cells_nonneg b; have := cells_nonneg c; simp only [Cell.cells] at *; omega
    | _ => simp [Cell.cells] at this
  | chunk o a b =>
    have h1 : a.cells = 0 := by have := cells_nonneg a; have := cells_nonneg b; simp only [Cell.cells] at hc; omega
    have h2 : b.cells = 0 := by have := cells_nonneg a; have := cells_nonneg b; simp only [Cell.cells] at hc; omega
    have z : ∀ x : Cell K, x.cells = 0 → x = .null := by
      intro x hx
      cases x with
      | null => rfl
      | func _ b => have := cells_nonneg b; simp only [Cell.cells] at hx; omega
      | chunk _ b c => have := cells_nonneg b; have := cells_nonneg c; simp only [Cell.cells] at hx; omega
      | _ => simp [Cell.cells] at hx
    rw [z a h1, z b h2]
    simp [tokAlloc, Cell.cells, Cell.nums]
  | null => simp [Cell.cells] at hc
  | _ => simp [tokAlloc, Cell.cells, Cell.nums]

/-! ## The stack -/

/-- A step of the parser from one stack and memory to another: no token is lost or released twice, and cells and numbers are not released while they are on the
stack. -/
def Fair (s : List (Tok K)) (l : Led) (s' : List (Tok K)) (l' : Led) : Prop :=
  lostToks l' s' = lostToks l s ∧ lostCells l s ≤ lostCells l' s' ∧ lostNums l s ≤ lostNums l' s'

theorem Fair.refl (s : List (Tok K)) (l : Led) : Fair s l s l := ⟨rfl, le_refl _, le_refl _⟩

theorem Fair.trans {s s' s'' : List (Tok K)} {l l' l'' : Led} (a : Fair s l s' l') (b : Fair s' l' s'' l'') : Fair s l s'' l'' :=
  ⟨b.1.trans a.1, a.2.1.trans b.2.1, a.2.2.trans b.2.2⟩

theorem pop_cases (s : List (Tok K)) (next : Option Int) : (pop s next = (none, s)) ∨ ∃ t s', s = t :: s' ∧ pop s next = (some t, s') := by
  cases s with
  | nil => left; rfl
  | cons t s =>
    cases next with
    | none => exact Or.inr ⟨t, s, rfl, rfl⟩
    | some l =>
      by_cases h : t.level ≠ l
      · left; simp [pop, h]
      · right; exact ⟨t, s, rfl, by simp [pop]; push Not at h; simp [h]⟩

/-- Releasing a popped token. -/
theorem free_pop (s : List (Tok K)) (next : Option Int) (l : Led) :
    Fair s l (pop s next).2 (tokFree (pop s next).1 l) ∧ lostNums (tokFree (pop s next).1 l) (pop s next).2 = lostNums l s := by
  rcases pop_cases s next with h | ⟨t, s', rfl, h⟩
  · rw [h]; exact ⟨Fair.refl s l, rfl⟩
  · rw [h]
    simp only
    rw [tokFree_spec]
    have := own_le t.cell
    refine ⟨⟨?_, ?_, ?_⟩, ?_⟩ <;> simp only [lostToks, lostCells, lostNums, cellsOf, numsOf, List.length_cons] <;> push_cast <;> omega

theorem tokFree_none (l : Led) : tokFree (none : Option (Tok K)) l = l := rfl
theorem shellFree_none (l : Led) : shellFree (none : Option (Tok K)) l = l := rfl

/-- What is shown of every operation on the stack: it is the one of Model/Parse.lean, it is fair, and no number is lost. -/
def StackOk (s : List (Tok K)) (l : Led) (r : List (Tok K)) (m : List (Tok K) × Led) : Prop :=
  m.1 = r ∧ Fair s l m.1 m.2 ∧ lostNums m.2 m.1 = lostNums l s

macro "stack_arith" : tactic => `(tactic| (
  refine ⟨rfl, ⟨?_, ?_, ?_⟩, ?_⟩ <;>
  simp only [tokFree_spec, shellFree_spec, tokFree_none, shellFree_none, lostToks, lostCells, lostNums, cellsOf, numsOf, List.length_cons, Cell.cells, Cell.nums, *] <;>
  push_cast <;> omega))

theorem stackPostfixM_ok (s : List (Tok K)) (next : Option Int) (l : Led) : StackOk s l (stackPostfix s next) (stackPostfixM s next l) := by
  unfold stackPostfixM stackPostfix
  rcases pop_cases s next with h | ⟨t, s, rfl, h⟩
  · simp only [h]
    stack_arith
  · have o1 := own_le t.cell
    simp only [h]
    rcases pop_cases s next with h2 | ⟨t2, s, rfl, h2⟩
    · simp only [h2]
      stack_arith
    · have o2 := own_le t2.cell
      simp only [h2]
      cases hc : t.cell <;> rw [hc] at o1 <;> simp only <;> stack_arith

theorem stackPrefixM_ok (s : List (Tok K)) (next : Option Int) (l : Led) : StackOk s l (stackPrefix s next) (stackPrefixM s next l) := by
  unfold stackPrefixM stackPrefix
  rcases pop_cases s next with h | ⟨t, s, rfl, h⟩
  · simp only [h]
    stack_arith
  · have o1 := own_le t.cell
    simp only [h]
    rcases pop_cases s next with h2 | ⟨t2, s, rfl, h2⟩
    · simp only [h2]
      stack_arith
    · have o2 := own_le t2.cell
      simp only [h2]
      cases hc : t2.cell <;> rw [hc] at o2 <;> simp only <;> stack_arith

theorem stackInfixM_ok (s : List (Tok K)) (next : Option Int) (l : Led) : StackOk s l (stackInfix s next) (stackInfixM s next l) := by
  unfold stackInfixM stackInfix
  rcases pop_cases s next with h | ⟨t, s, rfl, h⟩
  · simp only [h]
    stack_arith
  · have o1 := own_le t.cell
    simp only [h]
    rcases pop_cases s next with h2 | ⟨t2, s, rfl, h2⟩
    · simp only [h2]
      stack_arith
    · have o2 := own_le t2.cell
      simp only [h2]
      rcases pop_cases s next with h3 | ⟨t3, s, rfl, h3⟩
      · simp only [h3]
        stack_arith
      · have o3 := own_le t3.cell
        simp only [h3]
        cases hc : t2.cell <;> rw [hc] at o2 <;> simp only <;> stack_arith

theorem stackPreinfixM_ok (s : List (Tok K)) (next : Option Int) (l : Led) : StackOk s l (stackPreinfix s next) (stackPreinfixM s next l) := by
  unfold stackPreinfixM stackPreinfix
  rcases pop_cases s next with h | ⟨t, s, rfl, h⟩
  · simp only [h]
    stack_arith
  · have o1 := own_le t.cell
    simp only [h]
    rcases pop_cases s next with h2 | ⟨t2, s, rfl, h2⟩
    · simp only [h2]
      stack_arith
    · have o2 := own_le t2.cell
      simp only [h2]
      rcases pop_cases s next with h3 | ⟨t3, s, rfl, h3⟩
      · simp only [h3]
        cases hc : t2.cell <;> rw [hc] at o2 <;> simp only <;> stack_arith
      · have o3 := own_le t3.cell
        simp only [h3]
        cases hc : t2.cell <;> rw [hc] at o2 <;> simp only <;> stack_arith

theorem parseStackM_ok (s : List (Tok K)) (next : Option Int) (l : Led) : StackOk s l (parseStack s next) (parseStackM s next l) := by
  unfold parseStackM parseStack
  cases tokOpSpec s with
  | none => exact ⟨rfl, Fair.refl s l, rfl⟩
  | some x =>
    cases x with
    | «prefix» => exact stackPrefixM_ok s next l
    | «infix» => exact stackInfixM_ok s next l
    | preinfix => exact stackPreinfixM_ok s next l
    | «postfix» => exact stackPostfixM_ok s next l

/-! ## Reading a text -/

/-- Outcome of a step: the memory is added to the outcome of Model/Parse.lean, and the step is fair. -/
def Sound {α : Type*} (stackOf : α → List (Tok K)) (s : List (Tok K)) (l : Led) (r : Res α) (m : Res (α × Led)) : Prop :=
  match m with
  | .ok x => r = .ok x.1 ∧ Fair s l (stackOf x.1) x.2
  | .fail => r = .fail
  | .ub => r = .ub

theorem setArg_cells {t arg : Cell K} (h : t.isFunc = true) : (t.setArg arg).cells ≤ t.cells + arg.cells ∧ (t.setArg arg).nums ≤ t.nums + arg.nums := by
  cases t with
  | func f a =>
    have := cells_nonneg a
    have := nums_nonneg a
    simp only [Cell.setArg, Cell.cells, Cell.nums]
    omega
  | _ => simp [Cell.isFunc] at h

theorem inLoopM_sound (fuel : Nat) : ∀ (p : Parser K) (l : Led), Sound Parser.stack p.stack l (inLoop fuel p) (inLoopM fuel p l) := by
  induction fuel with
  | zero => intro p l; rfl
  | succ fuel ih =>
    intro p l
    unfold inLoop inLoopM
    obtain ⟨e, hf, _⟩ := parseStackM_ok p.stack none l
    simp only
    rw [← e]
    generalize parseStackM p.stack none l = r at hf ⊢
    obtain ⟨s, l1⟩ := r
    simp only at hf ⊢
    match s with
    | [] => rfl
    | tok :: rest =>
      simp only
      have o1 := own_le tok.cell
      by_cases hp : tok.cell.isPar = true
      · rw [if_pos hp, if_pos hp]
        refine ⟨rfl, hf.trans ?_⟩
        simp only
        rw [tokFree_spec]
        refine ⟨?_, ?_, ?_⟩ <;> simp only [lostToks, lostCells, lostNums, cellsOf, numsOf, List.length_cons] <;> push_cast <;> omega
      · rw [if_neg hp, if_neg hp]
        match rest with
        | [] =>
          refine ⟨rfl, hf.trans ?_⟩
          exact Fair.refl _ _
        | t :: rest =>
          simp only
          by_cases h1 : t.cell.isPar = true
          · rw [if_pos h1, if_pos h1]
            refine ⟨rfl, hf.trans ?_⟩
            simp only
            have := (free_pop (t :: rest) (some tok.level) l1).1
            obtain ⟨a, b, c⟩ := this
            refine ⟨?_, ?_, ?_⟩ <;> simp only [lostToks, lostCells, lostNums, cellsOf, numsOf, List.length_cons] at a b c ⊢ <;> push_cast at a b c ⊢ <;> omega
          · rw [if_neg h1, if_neg h1]
            by_cases h2 : t.cell.isFunc = true
            · rw [if_pos h2, if_pos h2]
              by_cases h3 : t.level ≠ tok.level
              · rw [if_pos h3, if_pos h3]; rfl
              · rw [if_neg h3, if_neg h3]
                have := ih { p with stack := { status := tokStatus rest, level := tokLevel rest, cell := t.cell.setArg tok.cell } :: rest } (shellFree (some tok) l1)
                have hstep : Fair (tok :: t :: rest) l1 ({ status := tokStatus rest, level := tokLevel rest, cell := t.cell.setArg tok.cell } :: rest) (shellFree (some tok) l1) := by
                  obtain ⟨c1, c2⟩ := setArg_cells (arg := tok.cell) h2
                  rw [shellFree_spec]
                  refine ⟨?_, ?_, ?_⟩ <;> simp only [lostToks, lostCells, lostNums, cellsOf, numsOf, List.length_cons] <;> push_cast <;> omega
                revert this
                unfold Sound
                split
                · rintro ⟨a, b⟩
                  exact ⟨a, hf.trans (hstep.trans b)⟩
                · exact id
                · exact id
            · rw [if_neg h2, if_neg h2]
              have := ih { p with stack := tok :: t :: rest } l1
              revert this
              unfold Sound
              split
              · rintro ⟨a, b⟩
                exact ⟨a, hf.trans b⟩
              · exact id
              · exact id

theorem parseInM_sound (fuel : Nat) (p : Parser K) (st : Status) (l : Led) :
    Sound (fun x : Parser K × Bool => x.1.stack) p.stack l (parseIn fuel p st) (parseInM fuel p st l) := by
  unfold parseIn parseInM
  by_cases h : tokStatus p.stack ≠ st
  · rw [if_pos h, if_pos h]; exact ⟨rfl, Fair.refl _ _⟩
  · rw [if_neg h, if_neg h]
    have := inLoopM_sound fuel p l
    revert this
    unfold Sound
    cases inLoopM fuel p l with
    | ok x => rintro ⟨a, b⟩; rw [a]; exact ⟨rfl, b⟩
    | fail => intro a; rw [a]; rfl
    | ub => intro a; rw [a]; rfl

theorem reduceLoopM_sound (q : Nat) (level : Int) (fuel : Nat) : ∀ (s : List (Tok K)) (l : Led),
    Sound id s l (reduceLoop q level fuel s) (reduceLoopM q level fuel s l) := by
  induction fuel with
  | zero => intro s l; rfl
  | succ fuel ih =>
    intro s l
    unfold reduceLoop reduceLoopM
    by_cases h : q ≥ tokPriority s
    · rw [if_pos h, if_pos h]
      obtain ⟨e, hf, _⟩ := parseStackM_ok s (some level) l
      have := ih (parseStackM s (some level) l).1 (parseStackM s (some level) l).2
      rw [e] at this
      simp only
      rw [e]
      revert this
      rw [e] at hf
      unfold Sound
      split
      · rintro ⟨a, b⟩; exact ⟨a, hf.trans b⟩
      · exact id
      · exact id
    · rw [if_neg h, if_neg h]; exact ⟨rfl, Fair.refl _ _⟩

theorem finalLoopM_sound (fuel : Nat) : ∀ (s : List (Tok K)) (l : Led), Sound id s l (finalLoop fuel s) (finalLoopM fuel s l) := by
  induction fuel with
  | zero => intro s l; rfl
  | succ fuel ih =>
    intro s l
    unfold finalLoop finalLoopM
    by_cases h : tokOpSpec s ≠ none
    · rw [if_pos h, if_pos h]
      obtain ⟨e, hf, _⟩ := parseStackM_ok s none l
      have := ih (parseStackM s none l).1 (parseStackM s none l).2
      rw [e] at this
      simp only
      rw [e]
      revert this
      rw [e] at hf
      unfold Sound
      split
      · rintro ⟨a, b⟩; exact ⟨a, hf.trans b⟩
      · exact id
      · exact id
    · rw [if_neg h, if_neg h]; exact ⟨rfl, Fair.refl _ _⟩

/-- The token of a closing bracket is released, but not its cell. -/
theorem bracket_led (t : Tok K) (ht : t.cell = .par) (l : Led) : tokFree (some t) (tokAlloc t.cell l) = { l with cells := l.cells + 1 } := by
  rw [tokFree_spec, tokAlloc_spec _ _ (by rw [ht]; rfl), ht]
  simp [Cell.cells, Cell.nums, Cell.own, Cell.isNull]

/-- C218, a closing bracket: whatever the state of the parser, one cell more is lost. -/
theorem parseOutM_loses (fuel : Nat) (b : Br) (p : Parser K) (l : Led) {x : (Parser K × Bool) × Led} (h : parseOutM fuel b p l = .ok x) :
    parseOut fuel b p = .ok x.1 ∧ lostToks x.2 x.1.1.stack = lostToks l p.stack ∧ lostCells l p.stack + 1 ≤ lostCells x.2 x.1.1.stack ∧
      lostNums l p.stack ≤ lostNums x.2 x.1.1.stack := by
  unfold parseOutM at h
  simp only at h
  have hb := bracket_led ({ status := .outBr b, level := p.level - 1, cell := .par } : Tok K) rfl l
  simp only at hb
  rw [hb] at h
  unfold parseOut
  by_cases hc : b = .par ∧ p.status = .inFunc
  · rw [if_pos hc] at h ⊢
    have := parseInM_sound fuel { p with level := p.level - 1, status := .outFunc } .inFunc { l with cells := l.cells + 1 }
    rw [h] at this
    obtain ⟨a, f1, f2, f3⟩ := this
    simp only [lostToks, lostCells, lostNums] at f1 f2 f3 ⊢
    exact ⟨a, f1, by omega, f3⟩
  · rw [if_neg hc] at h ⊢
    have := parseInM_sound fuel { p with level := p.level - 1, status := .outBr b } (.inBr b) { l with cells := l.cells + 1 }
    rw [h] at this
    obtain ⟨a, f1, f2, f3⟩ := this
    simp only [lostToks, lostCells, lostNums] at f1 f2 f3 ⊢
    exact ⟨a, f1, by omega, f3⟩

theorem push_fair (s : List (Tok K)) (l : Led) (t : Tok K) (ht : t.cell.cells = 1) : Fair s l (t :: s) (tokAlloc t.cell l) := by
  rw [tokAlloc_spec _ _ ht]
  refine ⟨?_, ?_, ?_⟩ <;> simp only [lostToks, lostCells, lostNums, cellsOf, numsOf, List.length_cons] <;> push_cast <;> omega

theorem parseSymM_fair (fuel : Nat) (p : Parser K) (l : Led) (s : List (Sym K)) {x : (Parser K × List (Sym K) × Bool) × Led} (h : parseSymM fuel p l s = .ok x) :
    parseSym fuel p s = .ok x.1 ∧ Fair p.stack l x.1.1.stack x.2 := by
  match s with
  | [] => simp only [parseSymM, Res.ok.injEq] at h; subst h; exact ⟨rfl, Fair.refl _ _⟩
  | .func f :: s => simp only [parseSymM, Res.ok.injEq] at h; subst h; exact ⟨rfl, push_fair p.stack l ⟨.inFunc, p.level + 1, .func f .null⟩ (by simp [Cell.cells])⟩
  | .num v :: s => simp only [parseSymM, Res.ok.injEq] at h; subst h; exact ⟨rfl, push_fair p.stack l ⟨p.status, p.level, .num v⟩ (by simp [Cell.cells])⟩
  | .var v :: s => simp only [parseSymM, Res.ok.injEq] at h; subst h; exact ⟨rfl, push_fair p.stack l ⟨p.status, p.level, .var v⟩ (by simp [Cell.cells])⟩
  | .lp b :: s => simp only [parseSymM, Res.ok.injEq] at h; subst h; exact ⟨rfl, push_fair p.stack l ⟨.inBr b, p.level + 1, .par⟩ (by simp [Cell.cells])⟩
  | .rp b :: s =>
    unfold parseSymM at h
    simp only at h
    cases hm : parseOutM fuel b p l with
    | ok y =>
      rw [hm] at h
      simp only [Res.bind, Res.ok.injEq] at h
      subst h
      obtain ⟨a, f1, f2, f3⟩ := parseOutM_loses fuel b p l hm
      refine ⟨?_, f1, le_trans (by omega) f2, f3⟩
      unfold parseSym
      simp only
      rw [a]; rfl
    | fail => rw [hm] at h; cases h
    | ub => rw [hm] at h; cases h
  | .sp :: _ => cases h
  | .op _ :: _ => cases h

theorem parseLoopM_fair (fuel n : Nat) : ∀ (s : List (Sym K)) (p : Parser K) (l : Led) {x : Parser K × Led}, parseLoopM fuel n s p l = .ok x →
    parseLoop fuel n s p = .ok x.1 ∧ Fair p.stack l x.1.stack x.2 := by
  induction n with
  | zero => intro s p l x h; cases h
  | succ n ih =>
    intro s p l x h
    unfold parseLoopM at h
    unfold parseLoop
    simp only at h ⊢
    split at h
    · next o heq =>
      rw [heq]
      simp only
      cases hr : reduceLoopM o.priority p.level fuel p.stack (tokAlloc (.op o : Cell K) l) with
      | ok y =>
        rw [hr] at h
        simp only [Res.bind] at h
        have hs := reduceLoopM_sound o.priority p.level fuel p.stack (tokAlloc (.op o : Cell K) l)
        rw [hr] at hs
        obtain ⟨a, f1, f2, f3⟩ := hs
        obtain ⟨b, g⟩ := ih _ _ _ h
        refine ⟨?_, Fair.trans ?_ g⟩
        · rw [a]; exact b
        · rw [tokAlloc_spec _ _ (by simp [Cell.cells])] at f1 f2 f3
          simp only [id] at f1 f2 f3
          refine ⟨?_, ?_, ?_⟩ <;> simp only [lostToks, lostCells, lostNums, cellsOf, numsOf, List.length_cons, Cell.cells, Cell.nums] at f1 f2 f3 ⊢ <;>
            push_cast at f1 f2 f3 ⊢ <;> omega
      | fail => rw [hr] at h; cases h
      | ub => rw [hr] at h; cases h
    · next hne =>
      split
      · next o heq => exact absurd heq (hne o)
      · cases hr : parseSymM fuel p l ((s.dropWhile Sym.isSp).dropWhile Sym.isOp) with
        | ok y =>
          rw [hr] at h
          simp only [Res.bind] at h
          obtain ⟨a, f⟩ := parseSymM_fair fuel p l _ hr
          rw [a]
          simp only [Res.bind]
          by_cases hb : y.1.2.2 = true
          · rw [if_pos hb] at h ⊢
            obtain ⟨b, g⟩ := ih _ _ _ h
            exact ⟨b, f.trans g⟩
          · rw [if_neg hb] at h ⊢
            simp only [Res.ok.injEq] at h
            subst h
            exact ⟨rfl, f⟩
        | fail => rw [hr] at h; cases h
        | ub => rw [hr] at h; cases h

/-- C218, reading a text (partial: cells are lost): whatever the text and the state of the parser, no token is lost or released twice, and no cell or number is
released while it is in use.  The stack is that of Model/Parse.lean. -/
theorem zmParseM_fair_partial (fuel : Nat) (s : List (Sym K)) (p : Parser K) (l : Led) {x : Parser K × Led} (h : zmParseM fuel s p l = .ok x) :
    zmParse fuel s p = .ok x.1 ∧ Fair p.stack l x.1.stack x.2 := by
  unfold zmParseM at h
  unfold zmParse
  cases hr : parseLoopM fuel (s.length + 1) s p l with
  | ok y =>
    rw [hr] at h
    simp only [Res.bind] at h
    obtain ⟨a, f⟩ := parseLoopM_fair fuel _ s p l hr
    rw [a]
    simp only [Res.bind]
    cases hf : finalLoopM fuel y.1.stack y.2 with
    | ok z =>
      rw [hf] at h
      simp only [Res.ok.injEq] at h
      subst h
      have hs := finalLoopM_sound fuel y.1.stack y.2
      rw [hf] at hs
      obtain ⟨b, g⟩ := hs
      rw [b]
      exact ⟨rfl, f.trans g⟩
    | fail => rw [hf] at h; cases h
    | ub => rw [hf] at h; cases h
  | fail => rw [hr] at h; cases h
  | ub => rw [hr] at h; cases h

/-! ## Evaluation and destruction -/

theorem own_pos {c : Cell K} (h : c ≠ .null) : c.own = 1 := by
  unfold Cell.own
  cases c <;> simp [Cell.isNull] at h ⊢

/-- C218, an expression that was read is evaluated once: its token and numbers are released, and all of its cells but one. -/
theorem zmParseEvalM_single (p : Parser K) (l : Led) (t : Tok K) (ht : p.stack = [t]) (hn : t.cell ≠ .null) :
    (zmParseEvalM p l).1.stack = [] ∧ lostToks (zmParseEvalM p l).2 ([] : List (Tok K)) = lostToks l p.stack ∧
      lostNums (zmParseEvalM p l).2 ([] : List (Tok K)) = lostNums l p.stack ∧ lostCells (zmParseEvalM p l).2 ([] : List (Tok K)) = lostCells l p.stack + 1 := by
  unfold zmParseEvalM
  rw [ht]
  simp only
  rw [tokFree_spec, own_pos hn]
  refine ⟨trivial, ?_, ?_, ?_⟩ <;> simp only [lostToks, lostCells, lostNums, cellsOf, numsOf, List.length_cons, List.length_nil] <;> push_cast <;> omega

/-- C218 violated by the evaluation of more than one expression: the last of them, reported as a syntax error, is lost with its token. -/
theorem zmParseEvalM_violated (p : Parser K) (l : Led) (t t' : Tok K) (s : List (Tok K)) (hs : p.stack = t :: t' :: s) :
    lostToks (zmParseEvalM p l).2 (zmParseEvalM p l).1.stack = lostToks l p.stack + 1 ∧
      lostCells (zmParseEvalM p l).2 (zmParseEvalM p l).1.stack = lostCells l p.stack + t.cell.cells := by
  unfold zmParseEvalM
  rw [hs]
  simp only
  constructor <;> simp only [lostToks, lostCells, cellsOf, List.length_cons] <;> push_cast <;> omega

/-- As `Fair`, but tokens may be lost as well. -/
def Safe (s : List (Tok K)) (l : Led) (s' : List (Tok K)) (l' : Led) : Prop :=
  lostToks l s ≤ lostToks l' s' ∧ lostCells l s ≤ lostCells l' s' ∧ lostNums l s ≤ lostNums l' s'

theorem zmParseEvalM_safe (p : Parser K) (l : Led) : Safe p.stack l (zmParseEvalM p l).1.stack (zmParseEvalM p l).2 := by
  unfold zmParseEvalM
  match hs : p.stack with
  | [] => simp only; rw [hs]; exact ⟨le_refl _, le_refl _, le_refl _⟩
  | [t] =>
    simp only
    rw [tokFree_spec]
    have := own_le t.cell
    refine ⟨?_, ?_, ?_⟩ <;> simp only [lostToks, lostCells, lostNums, cellsOf, numsOf, List.length_cons, List.length_nil] <;> push_cast <;> omega
  | t :: t' :: s =>
    simp only
    have := cells_nonneg t.cell
    have := nums_nonneg t.cell
    refine ⟨?_, ?_, ?_⟩ <;> simp only [lostToks, lostCells, lostNums, cellsOf, numsOf, List.length_cons] <;> push_cast <;> omega

/-- C218 (partial: more than nothing may be lost): in every sequence of texts and evaluations no token, cell or number is released while it is in use or
twice. -/
theorem uses_safe_partial (fuel : Nat) (u : List (Use K)) : ∀ (p : Parser K) (l : Led) {x : Parser K × Led}, uses fuel u p l = .ok x →
    Safe p.stack l x.1.stack x.2 := by
  induction u with
  | nil => intro p l x h; simp only [uses, Res.ok.injEq] at h; subst h; exact ⟨le_refl _, le_refl _, le_refl _⟩
  | cons a u ih =>
    intro p l x h
    cases a with
    | parse s =>
      unfold uses at h
      cases hr : zmParseM fuel s p l with
      | ok y =>
        rw [hr] at h
        obtain ⟨_, f⟩ := zmParseM_fair_partial fuel s p l hr
        obtain ⟨g1, g2, g3⟩ := ih _ _ h
        exact ⟨f.1.symm.le.trans g1, f.2.1.trans g2, f.2.2.trans g3⟩
      | fail => rw [hr] at h; cases h
      | ub => rw [hr] at h; cases h
    | eval =>
      unfold uses at h
      obtain ⟨f1, f2, f3⟩ := zmParseEvalM_safe p l
      obtain ⟨g1, g2, g3⟩ := ih _ _ h
      exact ⟨f1.trans g1, f2.trans g2, f3.trans g3⟩

theorem stackDestroyM_spec (s : List (Tok K)) : ∀ l : Led, (stackDestroyM s l).toks = lostToks l s ∧ (stackDestroyM s l).nums = lostNums l s ∧
    lostCells l s ≤ (stackDestroyM s l).cells := by
  induction s with
  | nil => intro l; simp [stackDestroyM, lostToks, lostNums, lostCells, cellsOf, numsOf]
  | cons t s ih =>
    intro l
    unfold stackDestroyM
    obtain ⟨a, b, c⟩ := ih (tokFree (some t) l)
    rw [tokFree_spec] at a b c ⊢
    have := own_le t.cell
    refine ⟨a.trans ?_, b.trans ?_, le_trans ?_ c⟩ <;> simp only [lostToks, lostCells, lostNums, cellsOf, numsOf, List.length_cons] <;> push_cast <;> omega

/-- C218 (partial): texts without evaluation leave no token when the parser is destroyed. -/
theorem zmParserDestroy_tokens_partial (fuel : Nat) (s : List (Sym K)) {x : Parser K × Led} (h : zmParseM fuel s zmParserInit zmParserInitM = .ok x) :
    (zmParserDestroyM x.1 x.2).toks = 0 := by
  obtain ⟨_, f⟩ := zmParseM_fair_partial fuel s _ _ h
  have := (stackDestroyM_spec x.1.stack x.2).1
  unfold zmParserDestroyM
  rw [this, f.1]
  rfl

/-- C218 violated by every use of a parser: whatever it is given and evaluates, its destruction leaves the cells and numbers of the two constants behind. -/
theorem zmParserDestroy_violated (fuel : Nat) (u : List (Use K)) {x : Parser K × Led} (h : uses fuel u zmParserInit zmParserInitM = .ok x) :
    2 ≤ (zmParserDestroyM x.1 x.2).cells ∧ 2 ≤ (zmParserDestroyM x.1 x.2).nums := by
  obtain ⟨_, f2, f3⟩ := uses_safe_partial fuel u _ _ h
  obtain ⟨_, b, c⟩ := stackDestroyM_spec x.1.stack x.2
  have e1 : lostCells zmParserInitM (zmParserInit (K := K)).stack = 2 := rfl
  have e2 : lostNums zmParserInitM (zmParserInit (K := K)).stack = 2 := rfl
  unfold zmParserDestroyM
  omega

/-- The count after texts, evaluations and the destruction. -/
def afterUses (u : List (Use ℚ)) : Res (Int × Int × Int) :=
  (uses 20 u zmParserInit zmParserInitM).bind fun x => let l := zmParserDestroyM x.1 x.2; .ok (l.toks, l.cells, l.nums)

/-- C218 violated: `2*(3+4)` leaves three cells more, one for each bracket and the root. -/
example : afterUses [.parse [.num 2, .op .mul, .lp .par, .num 3, .op .add, .num 4, .rp .par], .eval] = .ok (0, 5, 2) := by decide +kernel

/-- C218 violated: an argument given to a function that has one already is lost with its number. -/
example : afterUses [.parse [.lp .par, .func "f", .num 3, .rp .par, .num 4, .rp .par], .eval] = .ok (1, 7, 3) := by decide +kernel

/-- C218 violated: two expressions side by side. -/
example : afterUses [.parse [.num 2, .sp, .num 3], .eval] = .ok (1, 4, 3) := by decide +kernel

example : afterUses [] = .ok (0, 2, 2) := by decide +kernel

end Zm.Parse
