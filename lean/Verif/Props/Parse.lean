import Verif.Model.Parse
import Mathlib.Algebra.Order.Field.Rat
import Mathlib.Tactic.NormNum

/-! # Properties of the expression parser (C49) -/

set_option linter.unusedSectionVars false

namespace Zm.Parse
open Zm

section
variable {K : Type*}

/-- Expressions.  `par` are explicit brackets, `sgn` is a leading sign, `call` is a function with its argument. -/
inductive Exp (K : Type*) where
  | num (v : K)
  | var (s : String)
  | bin (o : Op) (a b : Exp K)
  | fact (a : Exp K)
  | sgn (o : Op) (a : Exp K)
  | par (b : Br) (a : Exp K)
  | call (f : String) (a : Exp K)

/-- Binding strength of the outermost operator: sums 40, products 30, powers 20, factorials 10, anything else 0; further 50 for `:`, 60 for `,`,
70 for `=` and 80 for `;`. -/
def Exp.top : Exp K → Nat
  | .num _ => 0
  | .var _ => 0
  | .bin o _ _ => o.priority
  | .fact _ => 10
  | .sgn _ _ => 40
  | .par _ _ => 0
  | .call _ _ => 0

/-- The text of an expression. -/
def Exp.text : Exp K → List (Sym K)
  | .num v => [.num v]
  | .var s => [.var s]
  | .bin o a b => a.text ++ .op o :: b.text
  | .fact a => a.text ++ [.op .fct, .sp]
  | .sgn o a => .op o :: a.text
  | .par b a => .lp b :: a.text ++ [.rp b]
  | .call f a => .func f :: a.text ++ [.rp .par]

/-- The tree is the usual reading of its text: the operands of an operator bind more strongly than it does, the left one at least as strongly
(so operators of equal strength associate to the left); a sign or a function stands at the beginning of the text only (`lead`). -/
def Exp.Reading : Bool → Exp K → Prop
  | _, .num _ => True
  | _, .var _ => True
  | lead, .bin o a b => o ≠ .fct ∧ a.top ≤ o.priority ∧ b.top < o.priority ∧ a.Reading lead ∧ b.Reading false
  | lead, .fact a => a.top ≤ 10 ∧ a.Reading lead
  | lead, .sgn o a => lead = true ∧ (o = .add ∨ o = .sub) ∧ a.top < 40 ∧ a.Reading false
  | _, .par _ a => a.Reading false
  | lead, .call _ a => lead = true ∧ a.Reading false

def Exp.cell : Exp K → Cell K
  | .num v => .num v
  | .var s => .var s
  | .bin o a b => .chunk o a.cell b.cell
  | .fact a => .chunk .fct a.cell .null
  | .sgn o a => .chunk o .null a.cell
  | .par _ a => a.cell
  | .call f a => .func f a.cell

def Exp.spine (l : Int) (s : Status) : Exp K → List (Tok K)
  | .num v => [⟨s, l, .num v⟩]
  | .var v => [⟨s, l, .var v⟩]
  | .bin o a b => b.spine l s ++ [⟨s, l, .op o⟩, ⟨s, l, a.cell⟩]
  | .fact a => [⟨s, l, .op .fct⟩, ⟨s, l, a.cell⟩]
  | .sgn o a => a.spine l s ++ [⟨s, l, .op o⟩]
  | .par _ a => [⟨s, l, a.cell⟩]
  | .call f a => [⟨s, l, .func f a.cell⟩]

def Exp.steps : Exp K → Nat
  | .bin _ _ b => b.steps + 1
  | .fact _ => 1
  | .sgn _ a => a.steps + 1
  | _ => 0

def Exp.iter : Exp K → Nat
  | .num _ => 1
  | .var _ => 1
  | .bin _ a b => a.iter + 1 + b.iter
  | .fact a => a.iter + 1
  | .sgn _ a => 1 + a.iter
  | .par _ a => 1 + a.iter + 1
  | .call _ a => 1 + a.iter + 1

theorem steps_le (e : Exp K) : e.steps < e.iter := by
  induction e with
  | num => simp [Exp.steps, Exp.iter]
  | var => simp [Exp.steps, Exp.iter]
  | bin o a b _ hb => simp only [Exp.steps, Exp.iter]; omega
  | fact a ha => simp only [Exp.steps, Exp.iter]; omega
  | sgn o a ha => simp only [Exp.steps, Exp.iter]; omega
  | par b a ha => simp only [Exp.steps, Exp.iter]; omega
  | call f a ha => simp only [Exp.steps, Exp.iter]; omega

theorem iter_le (e : Exp K) : e.iter ≤ e.text.length := by
  induction e with
  | num => simp [Exp.text, Exp.iter]
  | var => simp [Exp.text, Exp.iter]
  | bin o a b ha hb => simp only [Exp.text, Exp.iter, List.length_append, List.length_cons]; omega
  | fact a ha => simp only [Exp.text, Exp.iter, List.length_append, List.length_cons, List.length_nil]; omega
  | sgn o a ha => simp only [Exp.text, Exp.iter, List.length_cons]; omega
  | par b a ha => simp only [Exp.text, Exp.iter, List.length_append, List.length_cons, List.length_nil]; omega
  | call f a ha => simp only [Exp.text, Exp.iter, List.length_append, List.length_cons, List.length_nil]; omega

theorem priority_lt (o : Op) : o.priority < 999 := by cases o <;> decide

theorem top_lt (e : Exp K) : e.top < 999 := by
  cases e with
  | bin o a b => exact priority_lt o
  | _ => simp [Exp.top]

/-- A cell that is neither an operator nor a bracket. -/
def Solid (c : Cell K) : Prop := (∀ o, c ≠ .op o) ∧ c ≠ .par

theorem cell_solid (e : Exp K) : Solid e.cell := by
  induction e with
  | par b a ha => exact ha
  | _ => exact ⟨fun _ => by simp [Exp.cell], by simp [Exp.cell]⟩

/-- The stack belongs to the level `l`. -/
def Ctx (l : Int) (S : List (Tok K)) : Prop := S = [] ∨ tokLevel S = l

theorem pri_solid (s : Status) (l : Int) (c : Cell K) (hc : Solid c) (S : List (Tok K)) (h : Ctx l S) : tokPriority (⟨s, l, c⟩ :: S) = tokPriority S := by
  cases S with
  | nil =>
    cases c with
    | op o => exact absurd rfl (hc.1 o)
    | _ => rfl
  | cons t S =>
    rcases h with h | h
    · cases h
    · simp only [tokLevel] at h
      cases c with
      | op o => exact absurd rfl (hc.1 o)
      | _ => simp [tokPriority, h]

theorem spec_solid (s : Status) (l : Int) (c : Cell K) (hc : Solid c) (S : List (Tok K)) (h : Ctx l S) : tokOpSpec (⟨s, l, c⟩ :: S) = tokOpSpec S := by
  cases S with
  | nil =>
    cases c with
    | op o => exact absurd rfl (hc.1 o)
    | _ => rfl
  | cons t S =>
    rcases h with h | h
    · cases h
    · simp only [tokLevel] at h
      cases c with
      | op o => exact absurd rfl (hc.1 o)
      | _ => simp [tokOpSpec, h]

theorem pri_op (s : Status) (l : Int) (o : Op) (S : List (Tok K)) : tokPriority (⟨s, l, .op o⟩ :: S) = o.priority := by
  cases S <;> rfl

theorem spec_op (s : Status) (l : Int) (o : Op) (S : List (Tok K)) : tokOpSpec (⟨s, l, .op o⟩ :: S) = some o.spec := by
  cases S <;> rfl

theorem pri_par (s : Status) (l : Int) (S : List (Tok K)) (h : Ctx l S) : tokPriority (⟨s, l + 1, .par⟩ :: S) = 999 := by
  cases S with
  | nil => rfl
  | cons t S =>
    rcases h with h | h
    · cases h
    · simp only [tokLevel] at h
      have : t.level ≠ l + 1 := by omega
      simp [tokPriority, this, maxPriority]

theorem spec_par (s : Status) (l : Int) (S : List (Tok K)) (h : Ctx l S) : tokOpSpec (⟨s, l + 1, .par⟩ :: S) = none := by
  cases S with
  | nil => rfl
  | cons t S =>
    rcases h with h | h
    · cases h
    · simp only [tokLevel] at h
      have : t.level ≠ l + 1 := by omega
      simp [tokOpSpec, this]

theorem pop_ok (s : Status) (l : Int) (c : Cell K) (S : List (Tok K)) (nx : Option Int) (h : nx = none ∨ nx = some l) :
    pop (⟨s, l, c⟩ :: S) nx = (some ⟨s, l, c⟩, S) := by
  rcases h with rfl | rfl <;> simp [pop]

theorem parseStack_bin (s : Status) (l : Int) (c d : Cell K) (hc : Solid c) (o : Op) (ho : o ≠ .fct) (S : List (Tok K)) (nx : Option Int) (h : nx = none ∨ nx = some l) :
    parseStack (⟨s, l, c⟩ :: ⟨s, l, .op o⟩ :: ⟨s, l, d⟩ :: S) nx = ⟨s, l, .chunk o d c⟩ :: S := by
  unfold parseStack
  rw [spec_solid s l c hc _ (Or.inr rfl), spec_op]
  have hp : o.spec = .infix ∨ o.spec = .preinfix := by
    cases o with
    | fct => exact absurd rfl ho
    | _ => simp [Op.spec]
  rcases hp with hp | hp
  · simp only [hp, stackInfix, pop_ok s l _ _ nx h]
  · simp only [hp, stackPreinfix, pop_ok s l _ _ nx h]

theorem parseStack_fact (s : Status) (l : Int) (d : Cell K) (S : List (Tok K)) (nx : Option Int) (h : nx = none ∨ nx = some l) :
    parseStack (⟨s, l, .op .fct⟩ :: ⟨s, l, d⟩ :: S) nx = ⟨s, l, .chunk .fct d .null⟩ :: S := by
  unfold parseStack
  rw [spec_op]
  simp only [Op.spec, stackPostfix, pop_ok s l _ _ nx h]

theorem parseStack_sgn (s : Status) (l : Int) (c : Cell K) (hc : Solid c) (o : Op) (ho : o = .add ∨ o = .sub) (nx : Option Int) (h : nx = none ∨ nx = some l) :
    parseStack [⟨s, l, c⟩, ⟨s, l, .op o⟩] nx = [⟨s, l, .chunk o .null c⟩] := by
  unfold parseStack
  rw [spec_solid s l c hc _ (Or.inr rfl), spec_op]
  have hp : o.spec = .preinfix := by rcases ho with rfl | rfl <;> rfl
  simp only [hp, stackPreinfix, pop_ok s l _ _ nx h]
  simp [pop]

theorem reduce_spine (q : Nat) (l : Int) (s : Status) (e : Exp K) : ∀ (lead : Bool) (S : List (Tok K)) (f : Nat), e.Reading lead → (lead = true → S = []) → Ctx l S → e.top ≤ q →
    reduceLoop q l (e.steps + f) (e.spine l s ++ S) = reduceLoop q l f (⟨s, l, e.cell⟩ :: S) := by
  induction e with
  | num v => intro lead S f _ _ _ _; simp [Exp.steps, Exp.spine, Exp.cell]
  | var v => intro lead S f _ _ _ _; simp [Exp.steps, Exp.spine, Exp.cell]
  | par b a _ => intro lead S f _ _ _ _; simp [Exp.steps, Exp.spine, Exp.cell]
  | call g a _ => intro lead S f _ _ _ _; simp [Exp.steps, Exp.spine, Exp.cell]
  | bin o a b _ ihb =>
    intro lead S f hr _ hS hq
    obtain ⟨h1, _, h3, _, h5⟩ := hr
    have hq' : o.priority ≤ q := hq
    simp only [Exp.steps, Exp.spine, Exp.cell, List.append_assoc, List.cons_append, List.nil_append]
    rw [show b.steps + 1 + f = b.steps + (f + 1) from by omega, ihb false _ (f+1) h5 (by simp) (Or.inr rfl) (by omega)]
    rw [reduceLoop, pri_solid s l _ (cell_solid b) _ (Or.inr rfl), pri_op, if_pos hq', parseStack_bin s l _ _ (cell_solid b) o h1 S _ (Or.inr rfl)]
  | fact a _ =>
    intro lead S f hr _ hS hq
    have hq' : 10 ≤ q := hq
    simp only [Exp.steps, Exp.spine, Exp.cell, List.cons_append, List.nil_append]
    rw [show 1 + f = f + 1 from by omega, reduceLoop, pri_op, if_pos (by simpa [Op.priority] using hq'), parseStack_fact s l _ S _ (Or.inr rfl)]
  | sgn o a iha =>
    intro lead S f hr hl hS hq
    obtain ⟨h1, h2, h3, h4⟩ := hr
    have hS0 := hl h1
    subst hS0
    have hq' : 40 ≤ q := hq
    simp only [Exp.steps, Exp.spine, Exp.cell, List.append_assoc, List.cons_append, List.nil_append]
    rw [show a.steps + 1 + f = a.steps + (f + 1) from by omega, iha false _ (f+1) h4 (by simp) (Or.inr rfl) (by omega)]
    rw [reduceLoop, pri_solid s l _ (cell_solid a) _ (Or.inr rfl), pri_op, if_pos (by rcases h2 with rfl | rfl <;> simpa [Op.priority] using hq'),
      parseStack_sgn s l _ (cell_solid a) o h2 _ (Or.inr rfl)]

theorem final_spine (l : Int) (s : Status) (e : Exp K) : ∀ (lead : Bool) (S : List (Tok K)) (f : Nat), e.Reading lead → (lead = true → S = []) →
    finalLoop (e.steps + f) (e.spine l s ++ S) = finalLoop f (⟨s, l, e.cell⟩ :: S) := by
  induction e with
  | num v => intro lead S f _ _; simp [Exp.steps, Exp.spine, Exp.cell]
  | var v => intro lead S f _ _; simp [Exp.steps, Exp.spine, Exp.cell]
  | par b a _ => intro lead S f _ _; simp [Exp.steps, Exp.spine, Exp.cell]
  | call g a _ => intro lead S f _ _; simp [Exp.steps, Exp.spine, Exp.cell]
  | bin o a b _ ihb =>
    intro lead S f hr _
    obtain ⟨h1, _, h3, _, h5⟩ := hr
    simp only [Exp.steps, Exp.spine, Exp.cell, List.append_assoc, List.cons_append, List.nil_append]
    rw [show b.steps + 1 + f = b.steps + (f + 1) from by omega, ihb false _ (f+1) h5 (by simp)]
    rw [finalLoop, spec_solid s l _ (cell_solid b) _ (Or.inr rfl), spec_op, if_pos (by simp), parseStack_bin s l _ _ (cell_solid b) o h1 S _ (Or.inl rfl)]
  | fact a _ =>
    intro lead S f hr _
    simp only [Exp.steps, Exp.spine, Exp.cell, List.cons_append, List.nil_append]
    rw [show 1 + f = f + 1 from by omega, finalLoop, spec_op, if_pos (by simp), parseStack_fact s l _ S _ (Or.inl rfl)]
  | sgn o a iha =>
    intro lead S f hr hl
    obtain ⟨h1, h2, h3, h4⟩ := hr
    have hS0 := hl h1
    subst hS0
    simp only [Exp.steps, Exp.spine, Exp.cell, List.append_assoc, List.cons_append, List.nil_append]
    rw [show a.steps + 1 + f = a.steps + (f + 1) from by omega, iha false _ (f+1) h4 (by simp)]
    rw [finalLoop, spec_solid s l _ (cell_solid a) _ (Or.inr rfl), spec_op, if_pos (by simp), parseStack_sgn s l _ (cell_solid a) o h2 _ (Or.inl rfl)]

theorem solid_isPar {c : Cell K} (h : Solid c) : c.isPar = false := by
  cases c with
  | par => exact absurd rfl h.2
  | _ => rfl

theorem inLoop_solid (f : Nat) (p : Parser K) (l : Int) (s : Status) (c : Cell K) (hc : Solid c) (T : List (Tok K)) (t : Tok K) (stk : List (Tok K))
    (hp : parseStack stk none = ⟨s, l, c⟩ :: t :: T) (ht : (∃ o, t.cell = .op o) ∨ t.cell = .par) (hl : t.level = l) :
    (∃ o, t.cell = .op o) ∧ inLoop (f+1) { p with stack := stk } = inLoop f { p with stack := ⟨s, l, c⟩ :: t :: T } ∨
    t.cell = .par ∧ inLoop (f+1) { p with stack := stk } = .ok { p with stack := ⟨tokStatus T, p.level, c⟩ :: T, status := tokStatus T } := by
  rw [inLoop]
  simp only [hp, solid_isPar hc, Bool.false_eq_true, if_false]
  rcases ht with ⟨o, ho⟩ | ho
  · left
    refine ⟨⟨o, ho⟩, ?_⟩
    simp [ho, Cell.isPar, Cell.isFunc]
  · right
    refine ⟨ho, ?_⟩
    have : pop (t :: T) (some l) = (some t, T) := by simp [pop, hl]
    simp [ho, Cell.isPar, this]

theorem in_spine (p : Parser K) (l : Int) (s : Status) (e : Exp K) : ∀ (t : Tok K) (T : List (Tok K)) (f : Nat), e.Reading false → t.level = l →
    ((∃ o, t.cell = .op o) ∨ (t.cell = .par ∧ tokOpSpec (t :: T) = none)) →
    inLoop (e.steps + (f+1)) { p with stack := e.spine l s ++ t :: T } = inLoop (f+1) { p with stack := ⟨s, l, e.cell⟩ :: t :: T } := by
  induction e with
  | num v => intro t T f _ _ _; simp [Exp.steps, Exp.spine, Exp.cell]
  | var v => intro t T f _ _ _; simp [Exp.steps, Exp.spine, Exp.cell]
  | par b a _ => intro t T f _ _ _; simp [Exp.steps, Exp.spine, Exp.cell]
  | bin o a b _ ihb =>
    intro t T f hr hl ht
    obtain ⟨h1, _, h3, _, h5⟩ := hr
    simp only [Exp.steps, Exp.spine, Exp.cell, List.append_assoc, List.cons_append, List.nil_append]
    rw [show b.steps + 1 + (f + 1) = b.steps + (f + 1 + 1) from by omega, ihb _ _ (f+1) h5 rfl (Or.inl ⟨o, rfl⟩)]
    have hsol : Solid (Cell.chunk o a.cell b.cell) := ⟨fun _ => by simp, by simp⟩
    have hp := parseStack_bin s l b.cell a.cell (cell_solid b) o h1 (t :: T) none (Or.inl rfl)
    have ht' : (∃ o, t.cell = .op o) ∨ t.cell = .par := ht.imp id And.left
    rcases inLoop_solid (f+1) p l s _ hsol T t _ hp ht' hl with ⟨_, h⟩ | ⟨hpar, h⟩
    · exact h
    · rw [h]
      have hspec : tokOpSpec (t :: T) = none := by
        rcases ht with ⟨o', ho'⟩ | ht
        · rw [hpar] at ho'; cases ho'
        · exact ht.2
      have hp2 : parseStack (⟨s, l, Cell.chunk o a.cell b.cell⟩ :: t :: T) none = ⟨s, l, Cell.chunk o a.cell b.cell⟩ :: t :: T := by
        unfold parseStack
        rw [spec_solid s l _ hsol (t :: T) (Or.inr hl), hspec]
      rcases inLoop_solid f p l s _ hsol T t _ hp2 ht' hl with ⟨⟨o', ho'⟩, _⟩ | ⟨_, h'⟩
      · rw [hpar] at ho'; cases ho'
      · rw [h']
  | fact a _ =>
    intro t T f hr hl ht
    simp only [Exp.steps, Exp.spine, Exp.cell, List.cons_append, List.nil_append]
    rw [show 1 + (f + 1) = f + 1 + 1 from by omega]
    have hsol : Solid (Cell.chunk .fct a.cell .null) := ⟨fun _ => by simp, by simp⟩
    have hp := parseStack_fact s l a.cell (t :: T) none (Or.inl rfl)
    have ht' : (∃ o, t.cell = .op o) ∨ t.cell = .par := ht.imp id And.left
    rcases inLoop_solid (f+1) p l s _ hsol T t _ hp ht' hl with ⟨_, h⟩ | ⟨hpar, h⟩
    · exact h
    · rw [h]
      have hspec : tokOpSpec (t :: T) = none := by
        rcases ht with ⟨o', ho'⟩ | ht
        · rw [hpar] at ho'; cases ho'
        · exact ht.2
      have hp2 : parseStack (⟨s, l, Cell.chunk .fct a.cell .null⟩ :: t :: T) none = ⟨s, l, Cell.chunk .fct a.cell .null⟩ :: t :: T := by
        unfold parseStack
        rw [spec_solid s l _ hsol (t :: T) (Or.inr hl), hspec]
      rcases inLoop_solid f p l s _ hsol T t _ hp2 ht' hl with ⟨⟨o', ho'⟩, _⟩ | ⟨_, h'⟩
      · rw [hpar] at ho'; cases ho'
      · rw [h']
  | sgn o a iha =>
    intro t T f hr
    exact absurd hr.1 (by simp)
  | call g a _ =>
    intro t T f hr
    exact absurd hr.1 (by simp)

/-- A closing bracket of a function at the beginning of the text: the argument is reduced and attached. -/
theorem in_call (p : Parser K) (l : Int) (s s' : Status) (g : String) (e : Exp K) (he : e.Reading false) (f : Nat) :
    inLoop (e.steps + (f+2)) { p with stack := e.spine l s ++ [⟨s', l, .func g .null⟩] } = .ok { p with stack := [⟨.flat, p.level, .func g e.cell⟩], status := .flat } := by
  have last : ∀ (f : Nat) (stk : List (Tok K)) (c : Cell K), Solid c → parseStack stk none = [⟨s, l, c⟩, ⟨s', l, .func g .null⟩] →
      inLoop (f+2) { p with stack := stk } = .ok { p with stack := [⟨.flat, p.level, .func g c⟩], status := .flat } := by
    intro f stk c hc h
    rw [inLoop]
    simp only [h, solid_isPar hc, Bool.false_eq_true, if_false]
    have e1 : (Cell.func g (.null : Cell K)).isPar = false := rfl
    have e2 : (Cell.func g (.null : Cell K)).isFunc = true := rfl
    simp only [e1, e2, Bool.false_eq_true, if_false, if_true, ne_eq, not_true_eq_false, Cell.setArg]
    rfl
  have atom : ∀ c : Cell K, Solid c → parseStack [⟨s, l, c⟩, ⟨s', l, .func g .null⟩] none = [⟨s, l, c⟩, ⟨s', l, .func g .null⟩] := by
    intro c hc
    unfold parseStack
    rw [spec_solid s l c hc [⟨s', l, .func g .null⟩] (Or.inr rfl)]
    rfl
  cases e with
  | num v => simp only [Exp.steps, Exp.spine, Exp.cell, Nat.zero_add, List.cons_append, List.nil_append]; exact last f _ _ (cell_solid (.num v)) (atom _ (cell_solid (.num v)))
  | var v => simp only [Exp.steps, Exp.spine, Exp.cell, Nat.zero_add, List.cons_append, List.nil_append]; exact last f _ _ (cell_solid (.var v)) (atom _ (cell_solid (.var v)))
  | par b a => simp only [Exp.steps, Exp.spine, Exp.cell, Nat.zero_add, List.cons_append, List.nil_append]; exact last f _ _ (cell_solid a) (atom _ (cell_solid a))
  | bin o a b =>
    obtain ⟨h1, _, h3, _, h5⟩ := he
    simp only [Exp.steps, Exp.spine, Exp.cell, List.append_assoc, List.cons_append, List.nil_append]
    rw [show b.steps + 1 + (f + 2) = b.steps + (f + 2 + 1) from by omega, in_spine p l s b _ _ (f+2) h5 rfl (Or.inl ⟨o, rfl⟩)]
    have hp := parseStack_bin s l b.cell a.cell (cell_solid b) o h1 [⟨s', l, .func g .null⟩] none (Or.inl rfl)
    exact last (f+1) _ _ ⟨fun _ => by simp, by simp⟩ hp
  | fact a =>
    simp only [Exp.steps, Exp.spine, Exp.cell, List.cons_append, List.nil_append]
    rw [show 1 + (f + 2) = f + 1 + 2 from by omega]
    exact last (f+1) _ _ ⟨fun _ => by simp, by simp⟩ (parseStack_fact s l a.cell [⟨s', l, .func g .null⟩] none (Or.inl rfl))
  | sgn o a => exact absurd he.1 (by simp)
  | call h a => exact absurd he.1 (by simp)

theorem text_head (e : Exp K) (h : e.Reading false) : ∃ x l, e.text = x :: l ∧ x.isOp = false := by
  induction e with
  | num v => exact ⟨_, _, rfl, rfl⟩
  | var v => exact ⟨_, _, rfl, rfl⟩
  | bin o a b iha _ =>
    obtain ⟨x, l, h1, h2⟩ := iha h.2.2.2.1
    exact ⟨x, l ++ .op o :: b.text, by simp [Exp.text, h1], h2⟩
  | fact a iha =>
    obtain ⟨x, l, h1, h2⟩ := iha h.2
    exact ⟨x, l ++ [.op .fct, .sp], by simp [Exp.text, h1], h2⟩
  | sgn o a _ => exact absurd h.1 (by simp)
  | par b a _ => exact ⟨.lp b, a.text ++ [.rp b], rfl, rfl⟩
  | call f a _ => exact ⟨.func f, a.text ++ [.rp .par], rfl, rfl⟩

theorem spine_status (l : Int) (s : Status) (e : Exp K) (S : List (Tok K)) : tokStatus (e.spine l s ++ S) = s := by
  induction e generalizing S with
  | bin o a b _ ihb => simp only [Exp.spine, List.append_assoc]; exact ihb _
  | sgn o a iha => simp only [Exp.spine, List.append_assoc]; exact iha _
  | _ => rfl

theorem parseLoop_sp (F n : Nat) (rest : List (Sym K)) (p : Parser K) : parseLoop F n (.sp :: rest) p = parseLoop F n rest p := by
  cases n with
  | zero => rfl
  | succ n =>
    have e : (Sym.sp :: rest).dropWhile Sym.isSp = rest.dropWhile Sym.isSp := by rw [List.dropWhile_cons_of_pos (by rfl)]
    simp only [parseLoop, e]

theorem parseLoop_op (F n : Nat) (o : Op) (rest : List (Sym K)) (hrest : (rest.takeWhile Sym.isOp) = []) (p : Parser K) (stk : List (Tok K))
    (h : reduceLoop o.priority p.level F p.stack = .ok stk) :
    parseLoop F (n+1) (.op o :: rest) p = parseLoop F n rest { p with stack := ⟨p.status, p.level, .op o⟩ :: stk } := by
  have hd : rest.dropWhile Sym.isOp = rest := by
    cases rest with
    | nil => rfl
    | cons x l =>
      by_cases hx : x.isOp = true
      · simp [hx] at hrest
      · simp [hx]
  simp only [parseLoop]
  have e1 : (Sym.op o :: rest).dropWhile Sym.isSp = Sym.op o :: rest := by simp [Sym.isSp]
  have e2 : (Sym.op o :: rest).takeWhile Sym.isOp = [Sym.op o] := by
    rw [List.takeWhile_cons_of_pos (by rfl), hrest]
  have e3 : (Sym.op o :: rest).dropWhile Sym.isOp = rest := by
    rw [List.dropWhile_cons_of_pos (by rfl), hd]
  rw [e1, e2, e3]
  simp only [h, Res.bind]

theorem parseLoop_sym (F n : Nat) (x : Sym K) (hx : x.isOp = false) (hs : x.isSp = false) (rest : List (Sym K)) (p : Parser K) (r : Parser K)
    (h : parseSym F p (x :: rest) = .ok (r, rest, true)) : parseLoop F (n+1) (x :: rest) p = parseLoop F n rest r := by
  simp only [parseLoop]
  have e1 : (x :: rest).dropWhile Sym.isSp = x :: rest := by simp [hs]
  have e2 : (x :: rest).takeWhile Sym.isOp = [] := by simp [hx]
  have e3 : (x :: rest).dropWhile Sym.isOp = x :: rest := by simp [hx]
  rw [e1, e2, e3]
  simp only [h, Res.bind, if_true]

theorem feed (F : Nat) (e : Exp K) : ∀ (lead : Bool) (n : Nat) (rest : List (Sym K)) (S : List (Tok K)) (l : Int), e.Reading lead → (lead = true → S = []) → Ctx l S →
    e.top < tokPriority S → e.iter ≤ F →
    parseLoop F (e.iter + n) (e.text ++ rest) ⟨S, l, tokStatus S⟩ = parseLoop F n rest ⟨e.spine l (tokStatus S) ++ S, l, tokStatus S⟩ := by
  induction e with
  | num v =>
    intro lead n rest S l _ _ _ _ _
    rw [show (Exp.num v).iter + n = n + 1 from by simp [Exp.iter]; omega]
    exact parseLoop_sym F n _ rfl rfl rest _ _ rfl
  | var v =>
    intro lead n rest S l _ _ _ _ _
    rw [show (Exp.var v : Exp K).iter + n = n + 1 from by simp [Exp.iter]; omega]
    exact parseLoop_sym F n _ rfl rfl rest _ _ rfl
  | bin o a b iha ihb =>
    intro lead n rest S l hr hl hS ht hF
    obtain ⟨h1, h2, h3, h4, h5⟩ := hr
    have ht' : o.priority < tokPriority S := ht
    simp only [Exp.iter] at hF
    simp only [Exp.iter, Exp.text, List.append_assoc, List.cons_append]
    rw [show a.iter + 1 + b.iter + n = a.iter + (b.iter + n + 1) from by omega, iha lead _ _ S l h4 hl hS (by omega) (by omega)]
    obtain ⟨x, tl, hx1, hx2⟩ := text_head b h5
    have hred : reduceLoop o.priority l F (a.spine l (tokStatus S) ++ S) = .ok (⟨tokStatus S, l, a.cell⟩ :: S) := by
      have hst := steps_le a
      obtain ⟨f, hf⟩ : ∃ f, F = a.steps + (f + 1) := ⟨F - a.steps - 1, by omega⟩
      rw [hf, reduce_spine _ l _ a lead S _ h4 hl hS h2, reduceLoop, pri_solid _ _ _ (cell_solid a) _ hS, if_neg (by omega)]
    rw [parseLoop_op F _ o _ (by rw [hx1]; simp [hx2]) _ _ hred]
    have := ihb false n rest (⟨tokStatus S, l, .op o⟩ :: ⟨tokStatus S, l, a.cell⟩ :: S) l h5 (by simp) (Or.inr rfl) (by rw [pri_op]; exact h3) (by omega)
    refine this.trans ?_
    simp [Exp.spine, tokStatus]
  | fact a iha =>
    intro lead n rest S l hr hl hS ht hF
    obtain ⟨h1, h2⟩ := hr
    have ht' : 10 < tokPriority S := ht
    simp only [Exp.iter] at hF
    simp only [Exp.iter, Exp.text, List.append_assoc, List.cons_append, List.nil_append]
    rw [show a.iter + 1 + n = a.iter + (n + 1) from by omega, iha lead _ _ S l h2 hl hS (by omega) (by omega)]
    have hred : reduceLoop Op.fct.priority l F (a.spine l (tokStatus S) ++ S) = .ok (⟨tokStatus S, l, a.cell⟩ :: S) := by
      have hst := steps_le a
      obtain ⟨f, hf⟩ : ∃ f, F = a.steps + (f + 1) := ⟨F - a.steps - 1, by omega⟩
      rw [hf, reduce_spine Op.fct.priority l _ a lead S _ h2 hl hS h1, reduceLoop, pri_solid _ _ _ (cell_solid a) _ hS, if_neg (by simp only [Op.priority]; omega)]
    rw [parseLoop_op F _ .fct _ (by simp [Sym.isOp]) _ _ hred, parseLoop_sp]
    rfl
  | sgn o a iha =>
    intro lead n rest S l hr hl hS ht hF
    obtain ⟨h1, h2, h3, h4⟩ := hr
    have hS0 := hl h1
    subst hS0
    simp only [Exp.iter] at hF
    simp only [Exp.iter, Exp.text, List.cons_append]
    obtain ⟨x, tl, hx1, hx2⟩ := text_head a h4
    have hred : reduceLoop o.priority l F ([] : List (Tok K)) = .ok [] := by
      obtain ⟨f, hf⟩ : ∃ f, F = f + 1 := ⟨F - 1, by omega⟩
      rw [hf, reduceLoop, if_neg]
      have := priority_lt o
      simp only [tokPriority, maxPriority]; omega
    rw [show 1 + a.iter + n = (a.iter + n) + 1 from by omega, parseLoop_op F _ o _ (by rw [hx1]; simp [hx2]) _ _ hred]
    have := iha false n rest [⟨tokStatus ([] : List (Tok K)), l, .op o⟩] l h4 (by simp) (Or.inr rfl)
      (by rw [pri_op]; rcases h2 with rfl | rfl <;> simpa [Op.priority] using h3) (by omega)
    simp only [tokStatus] at this
    simp only [tokStatus]
    rw [this]
    simp [Exp.spine]
  | par b a iha =>
    intro lead n rest S l hr hl hS ht hF
    have hr' : a.Reading false := hr
    simp only [Exp.iter] at hF
    simp only [Exp.iter, Exp.text, List.append_assoc, List.cons_append, List.nil_append]
    rw [show 1 + a.iter + 1 + n = (a.iter + (n + 1)) + 1 from by omega]
    rw [parseLoop_sym F _ (.lp b) rfl rfl _ _ ⟨⟨.inBr b, l + 1, .par⟩ :: S, l + 1, .inBr b⟩ rfl]
    have := iha false (n+1) (.rp b :: rest) (⟨.inBr b, l + 1, .par⟩ :: S) (l+1) hr' (by simp) (Or.inr rfl) (by rw [pri_par _ _ _ hS]; exact top_lt a) (by omega)
    simp only [tokStatus] at this
    rw [this]
    apply parseLoop_sym F n (.rp b) rfl rfl
    simp only [parseSym, parseOut]
    rw [if_neg (by simp)]
    simp only [parseIn]
    have hst := spine_status (l+1) (.inBr b) a (⟨.inBr b, l + 1, .par⟩ :: S)
    rw [if_neg (by simpa using hst)]
    have hs := steps_le a
    obtain ⟨f, hf⟩ : ∃ f, F = a.steps + (f + 1) := ⟨F - a.steps - 1, by omega⟩
    have h1 := in_spine ⟨[], l + 1 - 1, .outBr b⟩ (l+1) (.inBr b) a ⟨.inBr b, l + 1, .par⟩ S f hr' rfl (Or.inr ⟨rfl, spec_par _ _ _ hS⟩)
    simp only at h1
    rw [hf, h1]
    have hp2 : parseStack (⟨Status.inBr b, l + 1, a.cell⟩ :: ⟨.inBr b, l + 1, .par⟩ :: S) none = ⟨.inBr b, l + 1, a.cell⟩ :: ⟨.inBr b, l + 1, .par⟩ :: S := by
      unfold parseStack
      rw [spec_solid _ (l+1) _ (cell_solid a) _ (Or.inr rfl), spec_par _ _ _ hS]
    rcases inLoop_solid f ⟨[], l + 1 - 1, .outBr b⟩ (l+1) (.inBr b) a.cell (cell_solid a) S ⟨.inBr b, l + 1, .par⟩ _ hp2 (Or.inr rfl) rfl with ⟨⟨o', ho'⟩, _⟩ | ⟨_, h'⟩
    · cases ho'
    · simp only at h'
      rw [h']
      have hl2 : l + 1 - 1 = l := by omega
      simp only [Res.bind, hl2]
      rfl
  | call g a iha =>
    intro lead n rest S l hr hl hS ht hF
    obtain ⟨h1, hr'⟩ := hr
    have hS0 := hl h1
    subst hS0
    simp only [Exp.iter] at hF
    simp only [Exp.iter, Exp.text, List.append_assoc, List.cons_append, List.nil_append]
    rw [show 1 + a.iter + 1 + n = (a.iter + (n + 1)) + 1 from by omega]
    rw [parseLoop_sym F _ (.func g) rfl rfl _ _ ⟨[⟨.inFunc, l + 1, .func g .null⟩], l + 1, .inFunc⟩ rfl]
    have := iha false (n+1) (.rp .par :: rest) [⟨.inFunc, l + 1, .func g .null⟩] (l+1) hr' (by simp) (Or.inr rfl) (top_lt a) (by omega)
    simp only [tokStatus] at this
    rw [this]
    apply parseLoop_sym F n (.rp .par) rfl rfl
    simp only [parseSym, parseOut]
    rw [if_pos (by simp)]
    simp only [parseIn]
    have hst := spine_status (l+1) .inFunc a [⟨.inFunc, l + 1, .func g .null⟩]
    rw [if_neg (by simpa using hst)]
    have hs := steps_le a
    obtain ⟨f, hf⟩ : ∃ f, F = a.steps + (f + 2) := ⟨F - a.steps - 2, by omega⟩
    have h1 := in_call ⟨[], l + 1 - 1, .outFunc⟩ (l+1) .inFunc .inFunc g a hr' f
    simp only at h1
    rw [hf, h1]
    have hl2 : l + 1 - 1 = l := by omega
    simp only [Res.bind, hl2]
    rfl

/-- The text of an expression that is read in the usual way is parsed to its tree. -/
theorem zmParse_tree (e : Exp K) (he : e.Reading true) (F : Nat) (hF : e.text.length < F) :
    zmParse F e.text zmParserInit = .ok ⟨[⟨.flat, 0, e.cell⟩], 0, .flat⟩ := by
  unfold zmParse
  have hi := iter_le e
  have hs := steps_le e
  have h := feed F e true (e.text.length + 1 - e.iter) [] [] 0 he (fun _ => rfl) (Or.inl rfl) (top_lt e) (by omega)
  rw [List.append_nil, List.append_nil, show e.iter + (e.text.length + 1 - e.iter) = e.text.length + 1 from by omega] at h
  simp only [tokStatus] at h
  have h2 : parseLoop F (e.text.length + 1 - e.iter) [] ⟨e.spine 0 .flat, 0, .flat⟩ = .ok ⟨e.spine 0 .flat, 0, .flat⟩ := by
    obtain ⟨m, hm⟩ : ∃ m, e.text.length + 1 - e.iter = m + 1 := ⟨e.text.length - e.iter, by omega⟩
    rw [hm]
    simp [parseLoop, parseSym, Res.bind]
  unfold zmParserInit
  rw [h, h2]
  simp only [Res.bind]
  obtain ⟨f, hf⟩ : ∃ f, F = e.steps + (f + 1) := ⟨F - e.steps - 1, by omega⟩
  have h3 := final_spine 0 .flat e true [] (f+1) he (fun _ => rfl)
  rw [List.append_nil] at h3
  rw [hf, h3, finalLoop, spec_solid _ _ _ (cell_solid e) _ (Or.inl rfl)]
  simp [tokOpSpec]

end

section
variable {K : Type*} [Field K] [LinearOrder K]

/-- The value of an expression. -/
def Exp.value (X : Ext K) : Exp K → K
  | .num v => v
  | .var s => X.var s
  | .bin o a b => match o with
    | .add => a.value X + b.value X
    | .sub => a.value X - b.value X
    | .mul => a.value X * b.value X
    | .div => if |b.value X| ≤ X.tol then X.huge (decide (0 ≤ b.value X)) else a.value X / b.value X
    | .rat => if |b.value X| ≤ X.tol then X.huge (decide (0 ≤ b.value X)) else a.value X / b.value X
    | .mod => X.imod (a.value X) (b.value X)
    | .pow => X.pow (a.value X) (b.value X)
    | .fct => X.fact (a.value X)
    | .comma => a.value X
    | .sep => a.value X
    | .let_ => b.value X
  | .fact a => X.fact (a.value X)
  | .sgn o a => if o = .sub then - a.value X else a.value X
  | .par _ a => a.value X
  | .call f a => match X.func f with
    | some g => g (a.value X)
    | none => 0

theorem cell_ne_null (e : Exp K) : e.cell ≠ .null := by
  induction e with
  | par b a ha => exact ha
  | _ => simp [Exp.cell]

theorem orZero_ne (c : Cell K) (r : Res K) (h : c ≠ .null) : orZero c r = r := by
  cases c with
  | null => exact absurd rfl h
  | _ => rfl

/-- An argument is evaluated as any expression. -/
theorem eval_arg (X : Ext K) : ∀ c : Cell K, c ≠ .null → ∀ v, cellEval X c = .ok v → (∀ a b, c ≠ .chunk .comma a b) → argEval X c = .ok v := by
  intro c hc v h hn
  cases c with
  | null => exact absurd rfl hc
  | chunk o a b =>
    rw [argEval, if_neg (fun ho => hn a b (by rw [ho])), ← h, cellEval]
  | _ => simpa [argEval, cellEval] using h

theorem eval_both (X : Ext K) (e : Exp K) (lead : Bool) (he : e.Reading lead) : cellEval X e.cell = .ok (e.value X) ∧ argEval X e.cell = .ok (e.value X) := by
  induction e generalizing lead with
  | num v => simp [Exp.cell, cellEval, argEval, Exp.value]
  | var v => simp [Exp.cell, cellEval, argEval, Exp.value]
  | bin o a b iha ihb =>
    have h : cellEval X (Exp.bin o a b).cell = .ok ((Exp.bin o a b).value X) := by
      simp only [Exp.cell]
      rw [cellEval, orZero_ne _ _ (cell_ne_null a), orZero_ne _ _ (cell_ne_null b), (iha _ he.2.2.2.1).1, (ihb _ he.2.2.2.2).1]
      simp only [Res.bind]
      cases o <;> rfl
    refine ⟨h, ?_⟩
    by_cases ho : o = .comma
    · subst ho
      simp only [Exp.cell]
      rw [argEval, if_pos rfl, (iha _ he.2.2.2.1).2]
      rfl
    · refine eval_arg X _ (by simp [Exp.cell]) _ h fun a' b' hh => ?_
      simp only [Exp.cell, Cell.chunk.injEq] at hh
      exact ho hh.1
  | fact a iha =>
    have h : cellEval X (Exp.fact a).cell = .ok ((Exp.fact a).value X) := by
      simp only [Exp.cell]
      rw [cellEval, orZero_ne _ _ (cell_ne_null a), (iha _ he.2).1]
      rfl
    exact ⟨h, eval_arg X _ (by simp [Exp.cell]) _ h fun a' b' hh => by simp [Exp.cell] at hh⟩
  | sgn o a iha =>
    have h : cellEval X (Exp.sgn o a).cell = .ok ((Exp.sgn o a).value X) := by
      simp only [Exp.cell]
      have e1 : cellEval X (.chunk o .null a.cell) = .ok (opEval X o 0 (a.value X)) := by
        rw [cellEval, orZero_ne _ _ (cell_ne_null a), (iha _ he.2.2.2).1]; rfl
      rw [e1]
      rcases he.2.1 with rfl | rfl
      · simp [opEval, Exp.value]
      · simp [opEval, Exp.value]
    refine ⟨h, eval_arg X _ (by simp [Exp.cell]) _ h fun a' b' hh => ?_⟩
    simp only [Exp.cell, Cell.chunk.injEq] at hh
    rcases he.2.1 with h1 | h1 <;> rw [h1] at hh <;> simp at hh
  | par b a iha => exact iha _ he
  | call f a iha =>
    have h : cellEval X (Exp.call f a).cell = .ok ((Exp.call f a).value X) := by
      simp only [Exp.cell]
      rw [cellEval, (iha false he.2).2]
      simp only [Exp.value]
      cases X.func f <;> rfl
    exact ⟨h, eval_arg X _ (by simp [Exp.cell]) _ h fun a' b' hh => by simp [Exp.cell] at hh⟩

theorem eval_cell (X : Ext K) (e : Exp K) (lead : Bool) (he : e.Reading lead) : cellEval X e.cell = .ok (e.value X) := (eval_both X e lead he).1

/-- **C49** (partial: a sign or a function stands at the beginning of the text only; signs in brackets and operators that follow each other are handled
wrongly, and a function call in another place disturbs the priorities).  The text of every expression, read with the usual priorities, brackets, factorials and
association to the left, evaluates to its value. -/
theorem parse_correct_partial (X : Ext K) (e : Exp K) (he : e.Reading true) (fuel : Nat) (hf : e.text.length < fuel) : parseEval X fuel e.text = .ok (e.value X) := by
  unfold parseEval
  rw [zmParse_tree e he fuel hf]
  exact eval_cell X e true he

/-- A tree of binary operations without brackets. -/
def Exp.Plain : Exp K → Prop
  | .num _ => True
  | .var _ => True
  | .bin o a b => o ≠ .fct ∧ a.Plain ∧ b.Plain
  | _ => False

/-- The tree with brackets where the priorities require them. -/
def Exp.brackets : Exp K → Exp K
  | .bin o a b => .bin o (if a.top ≤ o.priority then a.brackets else .par .par a.brackets) (if b.top < o.priority then b.brackets else .par .par b.brackets)
  | e => e

theorem brackets_top (e : Exp K) : e.brackets.top = e.top := by
  cases e <;> rfl

theorem brackets_reading (e : Exp K) (h : e.Plain) : e.brackets.Reading false := by
  induction e with
  | num v => trivial
  | var v => trivial
  | bin o a b iha ihb =>
    obtain ⟨h1, h2, h3⟩ := h
    have hpos : 0 < o.priority := by cases o <;> decide
    refine ⟨h1, ?_, ?_, ?_, ?_⟩
    · split
      · rw [brackets_top]; assumption
      · exact Nat.zero_le _
    · split
      · rw [brackets_top]; assumption
      · exact hpos
    · split
      · exact iha h2
      · exact iha h2
    · split
      · exact ihb h3
      · exact ihb h3
  | fact a _ => exact absurd h (by simp [Exp.Plain])
  | sgn o a _ => exact absurd h (by simp [Exp.Plain])
  | par b a _ => exact absurd h (by simp [Exp.Plain])
  | call f a _ => exact absurd h (by simp [Exp.Plain])

theorem brackets_value (X : Ext K) (e : Exp K) : e.brackets.value X = e.value X := by
  induction e with
  | bin o a b iha ihb =>
    have ha : (if a.top ≤ o.priority then a.brackets else .par .par a.brackets).value X = a.value X := by
      split <;> simpa [Exp.value] using iha
    have hb : (if b.top < o.priority then b.brackets else .par .par b.brackets).value X = b.value X := by
      split <;> simpa [Exp.value] using ihb
    cases o <;> simp only [Exp.brackets, Exp.value, ha, hb]
  | _ => rfl

theorem reading_mono (e : Exp K) (h : e.Reading false) : e.Reading true := by
  induction e with
  | bin o a b iha ihb => exact ⟨h.1, h.2.1, h.2.2.1, iha h.2.2.2.1, h.2.2.2.2⟩
  | fact a iha => exact ⟨h.1, iha h.2⟩
  | sgn o a _ => exact absurd h.1 (by simp)
  | num v => trivial
  | var v => trivial
  | par b a _ => exact h
  | call f a _ => exact absurd h.1 (by simp)

/-- **C49.** Every tree of binary operations, written down with the brackets that the priorities require and no others, evaluates to its value. -/
theorem parse_print (X : Ext K) (e : Exp K) (h : e.Plain) (fuel : Nat) (hf : e.brackets.text.length < fuel) : parseEval X fuel e.brackets.text = .ok (e.value X) := by
  rw [parse_correct_partial X _ (reading_mono _ (brackets_reading e h)) fuel hf, brackets_value]

/-- Arithmetic over the rationals for the examples. -/
def exX : Ext ℚ := { tol := 0, huge := fun _ => 0, imod := fun _ _ => 0, pow := fun a b => a ^ b.num.toNat, fact := fun a => a, func := fun _ => some fun x => x, var := fun _ => 0 }

/-- `2*(3+4)-5` -/
def exE : Exp ℚ := .bin .sub (.bin .mul (.num 2) (.par .par (.bin .add (.num 3) (.num 4)))) (.num 5)

example : exE.Reading true ∧ exE.value exX = 9 := by
  refine ⟨?_, ?_⟩
  · simp [exE, Exp.Reading, Exp.top, Op.priority]
  · norm_num [exE, Exp.value]

example : (Exp.bin .mul (.bin .add (.num (1:ℚ)) (.num 2)) (.num 3)).Plain ∧
    (Exp.bin .mul (.bin .add (.num (1:ℚ)) (.num 2)) (.num 3)).brackets.text = [.lp .par, .num 1, .op .add, .num 2, .rp .par, .op .mul, .num 3] := by
  refine ⟨by simp [Exp.Plain], rfl⟩

theorem inLoop_stuck (f : Nat) (p : Parser ℚ) (c : Cell ℚ) (hc : Solid c) (s : Status) (t : Tok ℚ) (T : List (Tok ℚ)) (o : Op) (ht : t.cell = .op o) (hl : t.level = 0) :
    inLoop f { p with stack := ⟨s, 1, c⟩ :: t :: T } = .ub := by
  induction f with
  | zero => rfl
  | succ f ih =>
    have hsp : parseStack (⟨s, 1, c⟩ :: t :: T) none = ⟨s, 1, c⟩ :: t :: T := by
      have : tokOpSpec (⟨s, 1, c⟩ :: t :: T) = none := by
        cases c with
        | op o => exact absurd rfl (hc.1 o)
        | _ => simp [tokOpSpec, hl]
      unfold parseStack
      rw [this]
    rw [inLoop]
    have h1 : t.cell.isPar = false := by rw [ht]; rfl
    have h2 : t.cell.isFunc = false := by rw [ht]; rfl
    simp only [hsp, solid_isPar hc, Bool.false_eq_true, if_false, h1, h2]
    exact ih

/-- **C49 is false of the code** for a sign in brackets: `3*(-2)` never ends, whatever the number of rounds. -/
theorem parse_sign_violated (fuel : Nat) : parseEval exX fuel [.num 3, .op .mul, .lp .par, .op .sub, .num 2, .rp .par] = .ub := by
  unfold parseEval zmParse
  have h1 : parseLoop fuel 7 [.num 3, .op .mul, .lp .par, .op .sub, .num 2, .rp .par] (zmParserInit : Parser ℚ) = .ub := by
    cases fuel with
    | zero => rfl
    | succ fuel =>
      rw [parseLoop_sym (fuel+1) 6 (.num 3) rfl rfl _ _ ⟨[⟨.flat, 0, .num 3⟩], 0, .flat⟩ rfl]
      rw [parseLoop_op (fuel+1) 5 .mul _ rfl ⟨[⟨.flat, 0, .num 3⟩], 0, .flat⟩ [⟨.flat, 0, .num 3⟩] (by rw [reduceLoop]; rfl)]
      rw [parseLoop_sym (fuel+1) 4 (.lp .par) rfl rfl _ _ ⟨[⟨.inBr .par, 1, .par⟩, ⟨.flat, 0, .op .mul⟩, ⟨.flat, 0, .num 3⟩], 1, .inBr .par⟩ rfl]
      rw [parseLoop_op (fuel+1) 3 .sub _ rfl ⟨[⟨.inBr .par, 1, .par⟩, ⟨.flat, 0, .op .mul⟩, ⟨.flat, 0, .num 3⟩], 1, .inBr .par⟩
        [⟨.inBr .par, 1, .par⟩, ⟨.flat, 0, .op .mul⟩, ⟨.flat, 0, .num 3⟩] (by rw [reduceLoop]; rfl)]
      rw [parseLoop_sym (fuel+1) 2 (.num 2) rfl rfl _ _ ⟨[⟨.inBr .par, 1, .num 2⟩, ⟨.inBr .par, 1, .op .sub⟩, ⟨.inBr .par, 1, .par⟩, ⟨.flat, 0, .op .mul⟩, ⟨.flat, 0, .num 3⟩], 1, .inBr .par⟩ rfl]
      have hstuck : inLoop (fuel+1) (⟨[⟨.inBr .par, 1, .num 2⟩, ⟨.inBr .par, 1, .op .sub⟩, ⟨.inBr .par, 1, .par⟩, ⟨.flat, 0, .op .mul⟩, ⟨.flat, 0, .num 3⟩], 0, .outBr .par⟩ : Parser ℚ) = .ub := by
        rw [inLoop]
        exact inLoop_stuck fuel ⟨[], 0, .outBr .par⟩ (.chunk .sub .par (.num 2)) ⟨fun _ => by simp, by simp⟩ (.inBr .par) ⟨.flat, 0, .op .mul⟩ [⟨.flat, 0, .num 3⟩] .mul rfl rfl
      have e : parseSym (fuel+1) (⟨[⟨.inBr .par, 1, .num 2⟩, ⟨.inBr .par, 1, .op .sub⟩, ⟨.inBr .par, 1, .par⟩, ⟨.flat, 0, .op .mul⟩, ⟨.flat, 0, .num 3⟩], 1, .inBr .par⟩ : Parser ℚ) [.rp .par] = .ub := by
        show ((parseOut (fuel+1) .par _).bind _) = _
        have : parseOut (fuel+1) .par (⟨[⟨.inBr .par, 1, .num 2⟩, ⟨.inBr .par, 1, .op .sub⟩, ⟨.inBr .par, 1, .par⟩, ⟨.flat, 0, .op .mul⟩, ⟨.flat, 0, .num 3⟩], 1, .inBr .par⟩ : Parser ℚ) = .ub := by
          unfold parseOut parseIn
          rw [if_neg (by simp), if_neg (by simp [tokStatus])]
          show (inLoop (fuel+1) (⟨[⟨.inBr .par, 1, .num 2⟩, ⟨.inBr .par, 1, .op .sub⟩, ⟨.inBr .par, 1, .par⟩, ⟨.flat, 0, .op .mul⟩, ⟨.flat, 0, .num 3⟩], 0, .outBr .par⟩ : Parser ℚ)).bind _ = _
          rw [hstuck]
          rfl
        rw [this]
        rfl
      show ((parseSym (fuel+1) _ [.rp .par]).bind _) = _
      rw [e]
      rfl
  show ((parseLoop fuel 7 _ _).bind _).bind _ = _
  rw [h1]
  rfl

/-- **C49 is false of the code** for operators that follow each other: `2*-3` is a syntax error. -/
theorem parse_run_violated : parseEval exX 10 [.num 2, .op .mul, .op .sub, .num 3] = .fail := by
  rfl

/-- A function that doubles. -/
def exD : Ext ℚ := { exX with func := fun f => if f = "f" then some fun x => 2 * x else none }

/-- `f(3*4+1)^2` with the function that doubles. -/
example : (Exp.bin .pow (.call "f" (.bin .add (.bin .mul (.num 3) (.num 4)) (.num 1))) (.num 2)).Reading true ∧
    (Exp.bin .pow (.call "f" (.bin .add (.bin .mul (.num 3) (.num 4)) (.num 1))) (.num 2)).value exD = 26 ^ 2 := by
  refine ⟨by simp [Exp.Reading, Exp.top, Op.priority], ?_⟩
  norm_num [Exp.value, exD, exX, Int.toNat]

/-- **C49 is false of the code** for a function of a function: `f(f(1)+2)` with the function that doubles is 8, but what is delivered is `f(f(1))+2`. -/
theorem parse_nested_violated : parseEval exD 10 [.func "f", .func "f", .num 1, .rp .par, .op .add, .num 2, .rp .par] = .ok 6 := by
  have h : zmParse 10 [.func "f", .func "f", .num 1, .rp .par, .op .add, .num 2, .rp .par] (zmParserInit : Parser ℚ) =
      .ok ⟨[⟨.flat, 1, .chunk .add (.func "f" (.func "f" (.num 1))) (.num 2)⟩], 0, .outBr .par⟩ := by rfl
  unfold parseEval
  rw [h]
  norm_num [Res.bind, zmParseEval, cellEval, argEval, orZero, opEval, exD]

/-- **C49 is false of the code** for what follows a function of a function: it is dropped, `f(f(1))+2` is `f(f(1))`. -/
theorem parse_dropped_violated : parseEval exD 10 [.func "f", .func "f", .num 1, .rp .par, .rp .par, .op .add, .num 2] = .ok 4 := by
  have h : zmParse 10 [.func "f", .func "f", .num 1, .rp .par, .rp .par, .op .add, .num 2] (zmParserInit : Parser ℚ) =
      .ok ⟨[⟨.flat, 1, .func "f" (.func "f" (.num 1))⟩], 0, .outBr .par⟩ := by rfl
  unfold parseEval
  rw [h]
  norm_num [Res.bind, zmParseEval, cellEval, argEval, orZero, opEval, exD]

/-- **Priorities are lost after a function call**: `1+f(0)*3` with the identity function evaluates to 3, not to 1. -/
theorem parse_func_violated : parseEval exX 10 [.num 1, .op .add, .func "f", .num 0, .rp .par, .op .mul, .num 3] = .ok 3 := by
  have h : zmParse 10 [.num 1, .op .add, .func "f", .num 0, .rp .par, .op .mul, .num 3] (zmParserInit : Parser ℚ) =
      .ok ⟨[⟨.flat, 0, .chunk .mul (.chunk .add (.num 1) (.func "f" (.num 0))) (.num 3)⟩], 0, .flat⟩ := by rfl
  unfold parseEval
  rw [h]
  norm_num [Res.bind, zmParseEval, cellEval, argEval, orZero, opEval, exX]

end
end Zm.Parse
