import Verif.Model.ParseText
import Verif.Props.Parse

/-! # Text of the parser: properties -/

set_option linter.unusedSectionVars false

namespace Zm.Parse

variable {K : Type*}

/-! ## Specification: how symbols are written -/

/-- White space. -/
def white : List Char := [' ', '\t', '\n', '\r', '\x0b', '\x0c']

/-- How the operators are written. -/
def Op.sign : Op → Char
  | .add => '+'
  | .sub => '-'
  | .mul => '*'
  | .div => '/'
  | .mod => '%'
  | .pow => '^'
  | .fct => '!'
  | .comma => ','
  | .sep => ';'
  | .rat => ':'
  | .let_ => '='

/-- A text after which a number has ended: its end, a space, an operator or a bracket. -/
def Stops : List Char → Prop
  | [] => True
  | c :: _ => c ∈ white ∨ (∃ o : Op, c = o.sign) ∨ c ∈ ['(', ')', '{', '}', '[', ']']

/-- A text that does not begin with an operator character. -/
def NoOp : List Char → Prop
  | [] => True
  | c :: _ => ∀ o : Op, c ≠ o.sign

/-- A name: letters and digits, beginning with a letter. -/
def IsName (w : List Char) : Prop := w.head?.any isAlpha = true ∧ ∀ c ∈ w, isAlnum c = true

/-- The characters of the brackets. -/
def Br.left : Br → Char
  | .par => '('
  | .brace => '{'
  | .bracket => '['
def Br.right : Br → Char
  | .par => ')'
  | .brace => '}'
  | .bracket => ']'

/-- The text `t` writes the symbols `l`: operators do not touch each other, a number or the name of a variable is followed by the end, a space,
an operator or a bracket (not an opening parenthesis after a variable), names fit in the buffer. -/
inductive Writes (size : Nat) (lit : K → List Char → Prop) : List (Sym K) → List Char → Prop
  | nil : Writes size lit [] []
  | sp (c : Char) (l : List (Sym K)) (t : List Char) : c ∈ white → Writes size lit l t → Writes size lit (.sp :: l) (c :: t)
  | op (o : Op) (l : List (Sym K)) (t : List Char) : NoOp t → Writes size lit l t → Writes size lit (.op o :: l) (o.sign :: t)
  | num (v : K) (w : List Char) (l : List (Sym K)) (t : List Char) : lit v w → Stops t → Writes size lit l t →
      Writes size lit (.num v :: l) (w ++ t)
  | var (w : List Char) (l : List (Sym K)) (t : List Char) : IsName w → w.length < size → Stops t → t.head? ≠ some '(' →
      Writes size lit l t → Writes size lit (.var (String.ofList w) :: l) (w ++ t)
  | func (w : List Char) (l : List (Sym K)) (t : List Char) : IsName w → w.length < size → Writes size lit l t →
      Writes size lit (.func (String.ofList w) :: l) (w ++ '(' :: t)
  | lp (b : Br) (l : List (Sym K)) (t : List Char) : Writes size lit l t → Writes size lit (.lp b :: l) (b.left :: t)
  | rp (b : Br) (l : List (Sym K)) (t : List Char) : Writes size lit l t → Writes size lit (.rp b :: l) (b.right :: t)

/-- What is expected of the reader of numbers, with `lit v w` for "the text `w` is a numeral of the value `v`": numerals begin with a digit, are read up to
their end, and nothing is read where no digit or point begins. -/
structure NumOk (X : Lex K) (lit : K → List Char → Prop) : Prop where
  size : 1 < X.size
  digit : ∀ v w, lit v w → ∃ c w', w = c :: w' ∧ c.isDigit = true
  reads : ∀ v w t, lit v w → Stops t → X.num (w ++ t) = some (v, t)
  none_nil : X.num [] = none
  none_cons : ∀ c t, c.isDigit = false → c ≠ '.' → X.num (c :: t) = none

/-! ## Characters -/

theorem isOpChar_char (o : Op) : isOpChar o.char = true := by cases o <;> decide
theorem opFind_char (o : Op) : opFind [o.char] = some o := by cases o <;> decide
theorem opFind_nil : opFind [] = none := by decide

theorem sign_eq (o : Op) : o.sign = o.char := by cases o <;> rfl

theorem white_delim (c : Char) (h : c ∈ white) : isDelim c = true := by
  unfold white at h
  simp only [List.mem_cons, List.not_mem_nil, or_false] at h
  rcases h with rfl|rfl|rfl|rfl|rfl|rfl <;> decide

theorem delim_cases (c : Char) (h : isDelim c = true) : c = '\t' ∨ c = '\x0b' ∨ c = '\x0c' ∨ c = '\n' ∨ c = '\r' ∨ c = ' ' := by
  unfold isDelim at h
  simp only [Bool.or_eq_true, decide_eq_true_eq] at h
  rcases h with ((((h | h) | h) | h) | h) | h
  · exact Or.inl h
  · exact Or.inr (Or.inl h)
  · exact Or.inr (Or.inr (Or.inl h))
  · exact Or.inr (Or.inr (Or.inr (Or.inl h)))
  · exact Or.inr (Or.inr (Or.inr (Or.inr (Or.inl h))))
  · exact Or.inr (Or.inr (Or.inr (Or.inr (Or.inr h))))

theorem op_cases (c : Char) (h : isOpChar c = true) : ∃ o : Op, c = o.char := by
  unfold isOpChar at h
  simp only [List.contains_iff_mem, List.mem_cons, List.not_mem_nil, or_false] at h
  rcases h with h|h|h|h|h|h|h|h|h|h|h
  · exact ⟨.add, h⟩
  · exact ⟨.sub, h⟩
  · exact ⟨.mul, h⟩
  · exact ⟨.div, h⟩
  · exact ⟨.mod, h⟩
  · exact ⟨.pow, h⟩
  · exact ⟨.fct, h⟩
  · exact ⟨.comma, h⟩
  · exact ⟨.sep, h⟩
  · exact ⟨.rat, h⟩
  · exact ⟨.let_, h⟩

theorem noop_isOp (c : Char) (h : ∀ o : Op, c ≠ o.sign) : isOpChar c = false := by
  by_contra hc
  rw [Bool.not_eq_false] at hc
  obtain ⟨o, rfl⟩ := op_cases c hc
  exact h o (sign_eq o).symm

/-- A letter or digit is no operator, no space, no bracket. -/
theorem alnum_plain (c : Char) (h : isAlnum c = true) : isDelim c = false ∧ isOpChar c = false ∧ c ∉ ['(', ')', '{', '}', '[', ']'] := by
  refine ⟨?_, ?_, ?_⟩
  · by_contra hd
    rw [Bool.not_eq_false] at hd
    rcases delim_cases c hd with rfl|rfl|rfl|rfl|rfl|rfl <;> exact absurd h (by decide)
  · by_contra hd
    rw [Bool.not_eq_false] at hd
    obtain ⟨o, rfl⟩ := op_cases c hd
    cases o <;> exact absurd h (by decide)
  · intro hm
    simp only [List.mem_cons, List.not_mem_nil, or_false] at hm
    rcases hm with rfl|rfl|rfl|rfl|rfl|rfl <;> exact absurd h (by decide)

theorem stops_alnum (c : Char) (t : List Char) (h : Stops (c :: t)) : isAlnum c = false := by
  by_contra hc
  rw [Bool.not_eq_false] at hc
  obtain ⟨h1, h2, h3⟩ := alnum_plain c hc
  rcases h with h | ⟨o, h⟩ | h
  · rw [white_delim c h] at h1; exact absurd h1 (by decide)
  · rw [h, sign_eq, isOpChar_char] at h2; exact absurd h2 (by decide)
  · exact h3 h

/-- The name is what `isalnum` accepts. -/
theorem takeName (w t : List Char) (hw : ∀ c ∈ w, isAlnum c = true) (ht : ∀ c t', t = c :: t' → isAlnum c = false) : (w ++ t).takeWhile isAlnum = w := by
  induction w with
  | nil =>
    cases t with
    | nil => rfl
    | cons c t => rw [List.nil_append, List.takeWhile_cons_of_neg (by rw [ht c t rfl]; decide)]
  | cons c w ih =>
    rw [List.cons_append, List.takeWhile_cons_of_pos (hw c List.mem_cons_self), ih (fun d hd => hw d (List.mem_cons_of_mem _ hd))]

theorem name_head (w : List Char) (h : IsName w) : ∃ c w', w = c :: w' ∧ isAlpha c = true := by
  obtain ⟨h1, -⟩ := h
  cases w with
  | nil => exact absurd h1 (by decide)
  | cons c w => exact ⟨c, w, rfl, by simpa using h1⟩

theorem alpha_not_digit (c : Char) (h : isAlpha c = true) : c.isDigit = false ∧ c ≠ '.' := by
  constructor
  · by_contra hd
    rw [Bool.not_eq_false] at hd
    unfold isAlpha at h
    simp only [Char.isAlpha, Char.isUpper, Char.isLower, Char.isDigit, Bool.or_eq_true, Bool.and_eq_true, decide_eq_true_eq, ge_iff_le,
      UInt32.le_iff_toNat_le] at h hd
    have e1 : ('A' : Char).val.toNat = 65 := rfl
    have e2 : ('Z' : Char).val.toNat = 90 := rfl
    have e3 : ('a' : Char).val.toNat = 97 := rfl
    have e4 : ('z' : Char).val.toNat = 122 := rfl
    have e5 : ('0' : Char).val.toNat = 48 := rfl
    have e6 : ('9' : Char).val.toNat = 57 := rfl
    omega
  · rintro rfl
    exact absurd h (by decide)

theorem digit_not_alpha (c : Char) (h : c.isDigit = true) : isAlpha c = false := by
  by_contra hc
  rw [Bool.not_eq_false] at hc
  rw [(alpha_not_digit c hc).1] at h
  exact absurd h (by decide)

/-! ## One symbol -/

theorem nextSym_num (X : Lex K) (lit : K → List Char → Prop) (hX : NumOk X lit) (N : Names K) (v : K) (w t : List Char) (hw : lit v w) (ht : Stops t) :
    nextSym X N (w ++ t) = .ok (some (.num v, t, N)) := by
  obtain ⟨c, w', rfl, hc⟩ := hX.digit v w hw
  unfold nextSym tokFunc tokNum
  rw [hX.reads v _ t hw ht]
  have : ((c :: w' ++ t).head?.any isAlpha) = false := by
    rw [List.cons_append, List.head?_cons]
    exact digit_not_alpha c hc
  rw [this]
  rfl

theorem nextSym_var (X : Lex K) (lit : K → List Char → Prop) (hX : NumOk X lit) (N : Names K) (w t : List Char) (hw : IsName w) (hl : w.length < X.size)
    (ht : Stops t) (hp : t.head? ≠ some '(') :
    nextSym X N (w ++ t) = .ok (some (.var (String.ofList w), t, { N with vars := varReg N.vars (String.ofList w) })) := by
  have e : (w ++ t).takeWhile isAlnum = w := takeName w t hw.2 fun c t' h => stops_alnum c t' (h ▸ ht)
  obtain ⟨c, w', hc, ha⟩ := name_head w hw
  have h1 : (w ++ t).head?.any isAlpha = true := by rw [hc, List.cons_append, List.head?_cons]; exact ha
  have h2 : X.num (w ++ t) = none := by
    rw [hc, List.cons_append]
    exact hX.none_cons c _ (alpha_not_digit c ha).1 (alpha_not_digit c ha).2
  unfold nextSym tokFunc tokVar tokNum copyName
  rw [e, h1, h2, if_pos hl]
  simp only [Res.bind, if_true, List.drop_left, if_neg hp]

theorem nextSym_func (X : Lex K) (lit : K → List Char → Prop) (hX : NumOk X lit) (N : Names K) (w t : List Char) (hw : IsName w) (hl : w.length < X.size) :
    nextSym X N (w ++ '(' :: t) = .ok (some (.func (String.ofList w), t, { N with funcs := funcReg N.funcs (String.ofList w) 0 })) := by
  have e : (w ++ '(' :: t).takeWhile isAlnum = w := takeName w _ hw.2 fun c t' h => by
    injection h with h _
    rw [← h]
    decide
  obtain ⟨c, w', hc, ha⟩ := name_head w hw
  have h1 : (w ++ '(' :: t).head?.any isAlpha = true := by rw [hc, List.cons_append, List.head?_cons]; exact ha
  have h3 : (w ++ '(' :: t).drop (w.length + 1) = t := by
    rw [List.drop_append, List.drop_of_length_le (by omega), Nat.add_sub_cancel_left]
    rfl
  unfold nextSym tokFunc copyName
  rw [e, h1, if_pos hl]
  simp only [Res.bind, if_true, List.drop_left, List.head?_cons, h3]

theorem nextSym_lp (X : Lex K) (lit : K → List Char → Prop) (hX : NumOk X lit) (N : Names K) (b : Br) (t : List Char) :
    nextSym X N (b.left :: t) = .ok (some (.lp b, t, N)) := by
  have h2 : X.num (b.left :: t) = none := hX.none_cons _ _ (by cases b <;> decide) (by cases b <;> decide)
  unfold nextSym tokFunc tokVar tokNum
  have h1 : ((b.left :: t).head?.any isAlpha) = false := by rw [List.head?_cons]; cases b <;> decide
  rw [h1, h2]
  cases b <;> rfl

theorem nextSym_rp (X : Lex K) (lit : K → List Char → Prop) (hX : NumOk X lit) (N : Names K) (b : Br) (t : List Char) :
    nextSym X N (b.right :: t) = .ok (some (.rp b, t, N)) := by
  have h2 : X.num (b.right :: t) = none := hX.none_cons _ _ (by cases b <;> decide) (by cases b <;> decide)
  unfold nextSym tokFunc tokVar tokNum
  have h1 : ((b.right :: t).head?.any isAlpha) = false := by rw [List.head?_cons]; cases b <;> decide
  rw [h1, h2]
  cases b <;> rfl

theorem nextSym_nil (X : Lex K) (lit : K → List Char → Prop) (hX : NumOk X lit) (N : Names K) : nextSym X N [] = .ok none := by
  unfold nextSym tokFunc tokVar tokNum
  rw [hX.none_nil]
  rfl

/-! ## The loop -/

/-- The result without the lists of names. -/
def fstOf {α β : Type*} (r : Res (α × β)) : Res α := r.bind fun p => .ok p.1

theorem textLoop_delim (X : Lex K) (F n : Nat) (c : Char) (hc : isDelim c = true) (t : List Char) (p : Parser K × Names K) :
    textLoop X F n (c :: t) p = textLoop X F n t p := by
  cases n with
  | zero => rfl
  | succ n =>
    have e : (c :: t).dropWhile isDelim = t.dropWhile isDelim := by rw [List.dropWhile_cons_of_pos hc]
    simp only [textLoop, e]

/-- A round of the loop on a symbol that is neither a space nor an operator. -/
theorem textLoop_sym (X : Lex K) (hs : 0 < X.size) (F n : Nat) (c : Char) (t : List Char) (p : Parser K × Names K) (x : Sym K) (l' : List Char)
    (N : Names K) (h1 : isDelim c = false) (h2 : isOpChar c = false) (h : nextSym X p.2 (c :: t) = .ok (some (x, l', N))) :
    textLoop X F (n+1) (c :: t) p =
      (parseSym F p.1 [x]).bind fun r => if r.2.2 then textLoop X F n l' (r.1, N) else .ok (r.1, N) := by
  have e1 : (c :: t).dropWhile isDelim = c :: t := by rw [List.dropWhile_cons_of_neg (by rw [h1]; decide)]
  have e2 : (c :: t).takeWhile isOpChar = [] := by rw [List.takeWhile_cons_of_neg (by rw [h2]; decide)]
  have e3 : (c :: t).dropWhile isOpChar = c :: t := by rw [List.dropWhile_cons_of_neg (by rw [h2]; decide)]
  simp only [textLoop, e1, e2, e3, opFind_nil, h, Res.bind]
  rw [if_neg (by simp only [List.length_nil]; omega)]

theorem parseSym_cons (F : Nat) (p : Parser K) (x : Sym K) (l : List (Sym K)) :
    parseSym F p (x :: l) = (parseSym F p [x]).bind fun r => .ok (r.1, l, r.2.2) := by
  cases x with
  | rp b =>
    simp only [parseSym]
    cases parseOut F b p <;> rfl
  | _ => rfl

theorem parseLoop_one (F n : Nat) (x : Sym K) (hx : x.isOp = false) (hs : x.isSp = false) (l : List (Sym K)) (p : Parser K) :
    parseLoop F (n+1) (x :: l) p = (parseSym F p [x]).bind fun r => if r.2.2 then parseLoop F n l r.1 else .ok r.1 := by
  simp only [parseLoop]
  have e1 : (x :: l).dropWhile Sym.isSp = x :: l := by simp [hs]
  have e2 : (x :: l).takeWhile Sym.isOp = [] := by simp [hx]
  have e3 : (x :: l).dropWhile Sym.isOp = x :: l := by simp [hx]
  rw [e1, e2, e3, parseSym_cons]
  cases parseSym F p [x] <;> rfl

theorem writes_noop {size : Nat} {lit : K → List Char → Prop} {l : List (Sym K)} {t : List Char} (h : Writes size lit l t) (ht : NoOp t) :
    l.takeWhile Sym.isOp = [] ∧ l.dropWhile Sym.isOp = l := by
  cases h with
  | op o l t _ _ =>
    exact absurd rfl (ht o)
  | _ => exact ⟨rfl, rfl⟩

theorem noop_drop (t : List Char) (ht : NoOp t) : t.takeWhile isOpChar = [] ∧ t.dropWhile isOpChar = t := by
  cases t with
  | nil => exact ⟨rfl, rfl⟩
  | cons c t =>
    have : isOpChar c = false := noop_isOp c ht
    exact ⟨by rw [List.takeWhile_cons_of_neg (by rw [this]; decide)], by rw [List.dropWhile_cons_of_neg (by rw [this]; decide)]⟩

/-- A round of both loops on the same symbol. -/
theorem same_round (X : Lex K) (hs : 0 < X.size) (F n : Nat) (c : Char) (t : List Char) (p : Parser K) (N N' : Names K) (x : Sym K) (l : List (Sym K))
    (t' : List Char) (h1 : isDelim c = false) (h2 : isOpChar c = false) (h : nextSym X N (c :: t) = .ok (some (x, t', N')))
    (hx : x.isOp = false) (hxs : x.isSp = false)
    (ih : ∀ (n : Nat) (p : Parser K) (N : Names K), fstOf (textLoop X F n t' (p, N)) = parseLoop F n l p) :
    fstOf (textLoop X F (n+1) (c :: t) (p, N)) = parseLoop F (n+1) (x :: l) p := by
  rw [textLoop_sym X hs F n c t (p, N) x t' N' h1 h2 h, parseLoop_one F n x hx hxs l p]
  cases hq : parseSym F p [x] with
  | ok r =>
    simp only [Res.bind, fstOf]
    by_cases hr : r.2.2 = true
    · rw [if_pos hr, if_pos hr]
      exact ih n r.1 N'
    · rw [if_neg hr, if_neg hr]
  | fail => rfl
  | ub => rfl

theorem loops_agree (X : Lex K) (lit : K → List Char → Prop) (hX : NumOk X lit) (F : Nat) {l : List (Sym K)} {t : List Char}
    (h : Writes X.size lit l t) : ∀ (n : Nat) (p : Parser K) (N : Names K), fstOf (textLoop X F n t (p, N)) = parseLoop F n l p := by
  have hs : 0 < X.size := by have := hX.size; omega
  induction h with
  | nil =>
    intro n p N
    cases n with
    | zero => rfl
    | succ n =>
      simp only [textLoop, parseLoop, List.dropWhile_nil, List.takeWhile_nil, opFind_nil, nextSym_nil X lit hX N, Res.bind, parseSym]
      rw [if_neg (by simp only [List.length_nil]; omega)]
      rfl
  | sp c l t hc _ ih =>
    intro n p N
    rw [textLoop_delim X F n c (white_delim c hc), parseLoop_sp]
    exact ih n p N
  | op o l t ht hw ih =>
    intro n p N
    cases n with
    | zero => rfl
    | succ n =>
      rw [sign_eq]
      obtain ⟨a1, a2⟩ := noop_drop t ht
      obtain ⟨b1, b2⟩ := writes_noop hw ht
      have e0 : isDelim o.char = false := by cases o <;> decide
      have e1 : (o.char :: t).dropWhile isDelim = o.char :: t := by rw [List.dropWhile_cons_of_neg (by rw [e0]; decide)]
      have e2 : (o.char :: t).takeWhile isOpChar = [o.char] := by rw [List.takeWhile_cons_of_pos (isOpChar_char o), a1]
      have e3 : (o.char :: t).dropWhile isOpChar = t := by rw [List.dropWhile_cons_of_pos (isOpChar_char o), a2]
      have f1 : (Sym.op o :: l).dropWhile Sym.isSp = Sym.op o :: l := by simp [Sym.isSp]
      have f2 : (Sym.op o :: l).takeWhile Sym.isOp = [Sym.op o] := by rw [List.takeWhile_cons_of_pos (by rfl), b1]
      have f3 : (Sym.op o :: l).dropWhile Sym.isOp = l := by rw [List.dropWhile_cons_of_pos (by rfl), b2]
      simp only [textLoop, parseLoop, e1, e2, e3, f1, f2, f3, opFind_char]
      rw [if_neg (by simp only [List.length_singleton]; have := hX.size; omega)]
      cases reduceLoop o.priority p.level F p.stack with
      | ok stk => exact ih n _ N
      | fail => rfl
      | ub => rfl
  | num v w l t hw ht _ ih =>
    intro n p N
    cases n with
    | zero => rfl
    | succ n =>
      have hn := nextSym_num X lit hX N v w t hw ht
      obtain ⟨c, w', rfl, hc⟩ := hX.digit v w hw
      obtain ⟨h1, h2, -⟩ := alnum_plain c (by unfold isAlnum; rw [hc, Bool.or_true])
      exact same_round X hs F n c (w' ++ t) p N N _ l t h1 h2 hn rfl rfl ih
  | var w l t hw hl ht hp _ ih =>
    intro n p N
    cases n with
    | zero => rfl
    | succ n =>
      have hn := nextSym_var X lit hX N w t hw hl ht hp
      obtain ⟨c, w', rfl, hc⟩ := name_head w hw
      obtain ⟨h1, h2, -⟩ := alnum_plain c (hw.2 c List.mem_cons_self)
      exact same_round X hs F n c (w' ++ t) p N _ _ l t h1 h2 hn rfl rfl ih
  | func w l t hw hl _ ih =>
    intro n p N
    cases n with
    | zero => rfl
    | succ n =>
      have hn := nextSym_func X lit hX N w t hw hl
      obtain ⟨c, w', rfl, hc⟩ := name_head w hw
      obtain ⟨h1, h2, -⟩ := alnum_plain c (hw.2 c List.mem_cons_self)
      exact same_round X hs F n c (w' ++ '(' :: t) p N _ _ l t h1 h2 hn rfl rfl ih
  | lp b l t _ ih =>
    intro n p N
    cases n with
    | zero => rfl
    | succ n =>
      exact same_round X hs F n b.left t p N N _ l t (by cases b <;> decide) (by cases b <;> decide) (nextSym_lp X lit hX N b t) rfl rfl ih
  | rp b l t _ ih =>
    intro n p N
    cases n with
    | zero => rfl
    | succ n =>
      exact same_round X hs F n b.right t p N N _ l t (by cases b <;> decide) (by cases b <;> decide) (nextSym_rp X lit hX N b t) rfl rfl ih

theorem writes_length {size : Nat} {lit : K → List Char → Prop} (hlit : ∀ v w, lit v w → 0 < w.length) {l : List (Sym K)} {t : List Char}
    (h : Writes size lit l t) : l.length ≤ t.length := by
  induction h with
  | nil => exact le_rfl
  | sp c l t _ _ ih => simp only [List.length_cons]; omega
  | op o l t _ _ ih => simp only [List.length_cons]; omega
  | num v w l t hw _ _ ih =>
    have := hlit v w hw
    simp only [List.length_cons, List.length_append]; omega
  | var w l t hw _ _ _ _ ih =>
    obtain ⟨c, w', rfl, -⟩ := name_head w hw
    simp only [List.length_cons, List.length_append]; omega
  | func w l t hw _ _ ih => simp only [List.length_cons, List.length_append]; omega
  | lp b l t _ ih => simp only [List.length_cons]; omega
  | rp b l t _ ih => simp only [List.length_cons]; omega

/-- Once it exceeds the number of symbols, the bound of the rounds does not matter. -/
theorem parseLoop_rounds (F : Nat) : ∀ (n m : Nat) (l : List (Sym K)) (p : Parser K), l.length < n → l.length < m →
    parseLoop F n l p = parseLoop F m l p := by
  intro n
  induction n with
  | zero => intro m l p h; omega
  | succ n ih =>
    intro m l p h1 h2
    cases m with
    | zero => omega
    | succ m =>
      cases l with
      | nil => rfl
      | cons x l =>
        have hd1 := (List.dropWhile_suffix (l := x :: l) Sym.isSp).length_le
        have hlen : ((x :: l).dropWhile Sym.isSp).length ≤ n := by simp only [List.length_cons] at h1 hd1; omega
        have hlem : ((x :: l).dropWhile Sym.isSp).length ≤ m := by simp only [List.length_cons] at h2 hd1; omega
        simp only [parseLoop]
        generalize hg : (x :: l).dropWhile Sym.isSp = L at *
        have hdd := (List.dropWhile_suffix (l := L) Sym.isOp).length_le
        have key : ∀ (q : Parser K × List (Sym K) × Bool), parseSym F p (L.dropWhile Sym.isOp) = .ok q → q.2.2 = true → q.2.1.length < L.length := by
          intro q hq hq2
          cases hL : L.dropWhile Sym.isOp with
          | nil => rw [hL] at hq; injection hq with hq; rw [← hq] at hq2; exact absurd hq2 Bool.false_ne_true
          | cons y L' =>
            rw [hL, parseSym_cons] at hq
            rw [hL, List.length_cons] at hdd
            cases hy : parseSym F p [y] with
            | ok r => rw [hy] at hq; injection hq with hq; rw [← hq]; exact hdd
            | fail => rw [hy] at hq; exact absurd hq (by simp [Res.bind])
            | ub => rw [hy] at hq; exact absurd hq (by simp [Res.bind])
        have tail : (parseSym F p (L.dropWhile Sym.isOp)).bind (fun r => if r.2.2 then parseLoop F n r.2.1 r.1 else .ok r.1) =
            (parseSym F p (L.dropWhile Sym.isOp)).bind (fun r => if r.2.2 then parseLoop F m r.2.1 r.1 else .ok r.1) := by
          cases hq : parseSym F p (L.dropWhile Sym.isOp) with
          | ok q =>
            simp only [Res.bind]
            by_cases hq2 : q.2.2 = true
            · rw [if_pos hq2, if_pos hq2]
              have := key q hq hq2
              exact ih m _ _ (by omega) (by omega)
            · rw [if_neg hq2, if_neg hq2]
          | fail => rfl
          | ub => rfl
        split
        · next o ho =>
          have h3 : (L.dropWhile Sym.isOp).length < L.length := by
            have e := congrArg List.length (List.takeWhile_append_dropWhile (p := Sym.isOp) (l := L))
            rw [ho, List.length_append, List.length_singleton] at e
            omega
          cases reduceLoop o.priority p.level F p.stack with
          | ok stk => exact ih m _ _ (by omega) (by omega)
          | fail => rfl
          | ub => rfl
        · exact tail

/-- **C202.** On every text that writes a list of symbols the parser does what it does on the symbols: names, numbers, operators and brackets are
told apart as written, whatever spaces are between them. -/
theorem parseText_refines (X : Lex K) (lit : K → List Char → Prop) (hX : NumOk X lit) (F : Nat) {l : List (Sym K)} {t : List Char}
    (h : Writes X.size lit l t) (p : Parser K) (N : Names K) : fstOf (parseText X F t (p, N)) = zmParse F l p := by
  have hlen := writes_length (fun v w hw => by obtain ⟨c, w', rfl, -⟩ := hX.digit v w hw; exact Nat.succ_pos _) h
  have e := loops_agree X lit hX F h (t.length + 1) p N
  rw [parseLoop_rounds F (t.length+1) (l.length+1) l p (by omega) (by omega)] at e
  unfold parseText zmParse
  rw [← e]
  cases textLoop X F (t.length+1) t (p, N) with
  | ok q =>
    simp only [fstOf, Res.bind]
    cases finalLoop F q.1.stack <;> rfl
  | fail => rfl
  | ub => rfl

/-! ## Names -/

/-- Names occur once. -/
def Unique {α : Type*} (l : List (String × α)) : Prop := (l.map Prod.fst).Nodup

theorem varReg_unique (l : List (String × Option K)) (s : String) (h : Unique l) : Unique (varReg l s) := by
  unfold varReg
  by_cases hs : l.any (fun x => x.1 = s) = true
  · rw [if_pos hs]; exact h
  · rw [if_neg hs]
    unfold Unique
    rw [List.map_cons, List.nodup_cons]
    refine ⟨?_, h⟩
    intro hm
    apply hs
    rw [List.any_eq_true]
    obtain ⟨x, hx, hxs⟩ := List.mem_map.mp hm
    exact ⟨x, hx, by simpa using hxs⟩

theorem varReg_mem (l : List (String × Option K)) (s : String) : s ∈ (varReg l s).map Prod.fst := by
  unfold varReg
  by_cases hs : l.any (fun x => x.1 = s) = true
  · rw [if_pos hs]
    rw [List.any_eq_true] at hs
    obtain ⟨x, hx, hxs⟩ := hs
    exact List.mem_map.mpr ⟨x, hx, by simpa using hxs⟩
  · rw [if_neg hs]; exact List.mem_cons_self

theorem varValue_reg [Zero K] (l : List (String × Option K)) (s s' : String) : varValue (varReg l s) s' = varValue l s' := by
  unfold varReg
  by_cases hs : l.any (fun x => x.1 = s) = true
  · rw [if_pos hs]
  · rw [if_neg hs]
    unfold varValue
    by_cases e : s = s'
    · subst e
      rw [List.find?_cons_of_pos (by simp)]
      have : l.find? (fun x => x.1 = s) = none := by
        rw [List.find?_eq_none]
        intro x hx hxs
        exact hs (List.any_eq_true.mpr ⟨x, hx, hxs⟩)
      rw [this]
    · rw [List.find?_cons_of_neg (by simpa using e)]

/-- What reading text does to the names. -/
def Step [Zero K] (N N' : Names K) : Prop :=
  (Unique N.vars → Unique N'.vars) ∧ (∀ s, varValue N'.vars s = varValue N.vars s) ∧ (∀ s, s ∈ N.vars.map Prod.fst → s ∈ N'.vars.map Prod.fst)

theorem Step.refl [Zero K] (N : Names K) : Step N N := ⟨id, fun _ => rfl, fun _ => id⟩
theorem Step.trans [Zero K] {N N' N'' : Names K} (h : Step N N') (h' : Step N' N'') : Step N N'' :=
  ⟨fun u => h'.1 (h.1 u), fun s => (h'.2.1 s).trans (h.2.1 s), fun s hs => h'.2.2 s (h.2.2 s hs)⟩

theorem varReg_sub (l : List (String × Option K)) (s s' : String) (h : s' ∈ l.map Prod.fst) : s' ∈ (varReg l s).map Prod.fst := by
  unfold varReg
  by_cases hs : l.any (fun x => x.1 = s) = true
  · rw [if_pos hs]; exact h
  · rw [if_neg hs]; exact List.mem_cons_of_mem _ h

theorem nextSym_step [Zero K] (X : Lex K) (N : Names K) (l : List Char) (x : Sym K) (l' : List Char) (N' : Names K)
    (h : nextSym X N l = .ok (some (x, l', N'))) : Step N N' := by
  unfold nextSym at h
  cases h1 : tokFunc X N l with
  | ub => rw [h1] at h; exact absurd h (by simp [Res.bind])
  | fail => rw [h1] at h; exact absurd h (by simp [Res.bind])
  | ok r =>
    rw [h1] at h
    simp only [Res.bind] at h
    cases r with
    | some r =>
      simp only [Res.ok.injEq, Option.some.injEq] at h
      subst h
      unfold tokFunc at h1
      by_cases g1 : l.head?.any isAlpha = true
      swap
      · rw [if_neg g1] at h1; exact absurd h1 (by simp)
      rw [if_pos g1] at h1
      cases hc : copyName X l with
      | ok name =>
        rw [hc] at h1
        simp only [Res.bind] at h1
        by_cases g2 : (l.drop name.length).head? = some '('
        swap
        · rw [if_neg g2] at h1; exact absurd h1 (by simp)
        rw [if_pos g2] at h1
        injection h1 with h1
        injection h1 with h1
        injection h1 with _ h1
        injection h1 with _ h1
        rw [← h1]
        exact ⟨id, fun _ => rfl, fun _ => id⟩
      | fail => rw [hc] at h1; exact absurd h1 (by simp [Res.bind])
      | ub => rw [hc] at h1; exact absurd h1 (by simp [Res.bind])
    | none =>
      simp only at h
      cases h2 : tokNum X N l with
      | some r =>
        rw [h2] at h
        simp only [Res.ok.injEq, Option.some.injEq] at h
        subst h
        unfold tokNum at h2
        cases hn : X.num l with
        | none => rw [hn] at h2; exact absurd h2 (by simp)
        | some q =>
          rw [hn] at h2
          simp only [Option.some.injEq, Prod.mk.injEq] at h2
          rw [← h2.2.2]
          exact Step.refl N
      | none =>
        rw [h2] at h
        simp only at h
        cases h3 : tokVar X N l with
        | ub => rw [h3] at h; exact absurd h (by simp)
        | fail => rw [h3] at h; exact absurd h (by simp)
        | ok r =>
          rw [h3] at h
          simp only at h
          cases r with
          | some r =>
            simp only [Res.ok.injEq, Option.some.injEq] at h
            subst h
            unfold tokVar at h3
            by_cases g1 : l.head?.any isAlpha = true
            swap
            · rw [if_neg g1] at h3; exact absurd h3 (by simp)
            rw [if_pos g1] at h3
            cases hc : copyName X l with
            | ok name =>
              rw [hc] at h3
              simp only [Res.bind, Res.ok.injEq, Option.some.injEq, Prod.mk.injEq] at h3
              rw [← h3.2.2]
              exact ⟨varReg_unique _ _, varValue_reg _ _, varReg_sub _ _⟩
            | fail => rw [hc] at h3; exact absurd h3 (by simp [Res.bind])
            | ub => rw [hc] at h3; exact absurd h3 (by simp [Res.bind])
          | none =>
            simp only [Res.ok.injEq] at h
            unfold tokPar at h
            split at h <;> simp only [Option.some.injEq, Prod.mk.injEq, reduceCtorEq] at h <;> (rw [← h.2.2]; exact Step.refl N)

theorem textLoop_step [Zero K] (X : Lex K) (F : Nat) : ∀ (n : Nat) (l : List Char) (p q : Parser K × Names K), textLoop X F n l p = .ok q → Step p.2 q.2 := by
  intro n
  induction n with
  | zero => intro l p q h; exact absurd h (by simp [textLoop])
  | succ n ih =>
    intro l p q h
    simp only [textLoop] at h
    split_ifs at h
    split at h
    · next o ho =>
      cases hr : reduceLoop o.priority p.1.level F p.1.stack with
      | ok stk =>
        rw [hr] at h
        simp only [Res.bind] at h
        have st := ih _ _ _ h
        exact st
      | fail => rw [hr] at h; exact absurd h (by simp [Res.bind])
      | ub => rw [hr] at h; exact absurd h (by simp [Res.bind])
    · cases hs : nextSym X p.2 (((l.dropWhile isDelim)).dropWhile isOpChar) with
      | fail => rw [hs] at h; exact absurd h (by simp [Res.bind])
      | ub => rw [hs] at h; exact absurd h (by simp [Res.bind])
      | ok r =>
        rw [hs] at h
        simp only [Res.bind] at h
        cases r with
        | none => injection h with h; rw [← h]; exact Step.refl _
        | some r =>
          obtain ⟨x, l', N⟩ := r
          have st := nextSym_step X p.2 _ x l' N hs
          simp only at h
          cases hq : parseSym F p.1 [x] with
          | fail => rw [hq] at h; exact absurd h (by simp)
          | ub => rw [hq] at h; exact absurd h (by simp)
          | ok r =>
            rw [hq] at h
            simp only at h
            split_ifs at h
            · exact st.trans (ih _ _ _ h)
            · injection h with h
              rw [← h]
              exact st

theorem parseText_step [Zero K] (X : Lex K) (F : Nat) (t : List Char) (p q : Parser K × Names K) (h : parseText X F t p = .ok q) : Step p.2 q.2 := by
  unfold parseText at h
  cases hl : textLoop X F (t.length+1) t p with
  | fail => rw [hl] at h; exact absurd h (by simp [Res.bind])
  | ub => rw [hl] at h; exact absurd h (by simp [Res.bind])
  | ok r =>
    rw [hl] at h
    simp only [Res.bind] at h
    cases hf : finalLoop F r.1.stack with
    | fail => rw [hf] at h; exact absurd h (by simp)
    | ub => rw [hf] at h; exact absurd h (by simp)
    | ok stk =>
      rw [hf] at h
      injection h with h
      rw [← h]
      exact textLoop_step X F _ _ _ r hl

/-- The values of the names after `zmParserInit`. -/
theorem varValue_init [Zero K] (pi e : K) (s : String) : varValue (namesInit pi e).vars s = if s = "pi" then pi else if s = "e" then e else 0 := by
  have hd : ("pi" : String) ≠ "e" := by decide
  have e0 : (namesInit pi e).vars = [("e", some e), ("pi", some pi)] := by
    simp [namesInit, varBuiltin, varAssoc, varReg, hd]
  rw [e0]
  unfold varValue
  by_cases h1 : s = "e"
  · subst h1
    simp [hd.symm]
  · by_cases h2 : s = "pi"
    · subst h2
      simp [hd.symm]
    · rw [if_neg h2, if_neg h1, List.find?_cons_of_neg (by simpa using fun h => h1 h.symm), List.find?_cons_of_neg (by simpa using fun h => h2 h.symm)]
      rfl

/-- Texts parsed one after another. -/
def parseAll (X : Lex K) (F : Nat) : List (List Char) → Parser K × Names K → Res (Parser K × Names K)
  | [], p => .ok p
  | t :: ts, p => (parseText X F t p).bind fun q => parseAll X F ts ({ q.1 with stack := [] }, q.2)

theorem parseAll_step [Zero K] (X : Lex K) (F : Nat) : ∀ (ts : List (List Char)) (p q : Parser K × Names K), parseAll X F ts p = .ok q → Step p.2 q.2 := by
  intro ts
  induction ts with
  | nil => intro p q h; injection h with h; rw [h]; exact Step.refl _
  | cons t ts ih =>
    intro p q h
    simp only [parseAll] at h
    cases hl : parseText X F t p with
    | fail => rw [hl] at h; exact absurd h (by simp [Res.bind])
    | ub => rw [hl] at h; exact absurd h (by simp [Res.bind])
    | ok r =>
      rw [hl] at h
      exact (parseText_step X F t p r hl).trans (ih ({ r.1 with stack := [] }, r.2) _ h)

/-- **C203.** After any texts a parser has one variable of each name, `pi` and `e` have their values, and every other variable is zero: no text
changes a variable. -/
theorem names_constant [Zero K] (X : Lex K) (F : Nat) (pi e : K) (ts : List (List Char)) (q : Parser K × Names K)
    (h : parseAll X F ts (textInit pi e) = .ok q) :
    Unique q.2.vars ∧ ∀ s, varValue q.2.vars s = if s = "pi" then pi else if s = "e" then e else 0 := by
  have st := parseAll_step X F ts _ q h
  refine ⟨st.1 ?_, fun s => (st.2.1 s).trans (varValue_init pi e s)⟩
  have hd : ("pi" : String) ≠ "e" := by decide
  have e0 : (textInit pi e).2.vars = [("e", some e), ("pi", some pi)] := by
    simp [textInit, namesInit, varBuiltin, varAssoc, varReg, hd]
  rw [e0]
  unfold Unique
  show ["e", "pi"].Nodup
  decide

/-- **C202.** A text that writes an expression, given to a fresh parser, evaluates to the value of the expression, with the constants `pi` and `e` and
zero for all other names. -/
theorem text_value_partial {K : Type*} [Field K] [LinearOrder K] (E : Ext K) (X : Lex K) (lit : K → List Char → Prop) (hX : NumOk X lit) (pi e₁ : K)
    (e : Exp K) (he : e.Reading true) (F : Nat) (hF : e.text.length < F) {t : List Char} (h : Writes X.size lit e.text t) :
    ((parseText X F t (textInit pi e₁)).bind fun q => zmParseEval { E with var := varValue q.2.vars } q.1) =
      .ok (e.value { E with var := fun s => if s = "pi" then pi else if s = "e" then e₁ else 0 }) := by
  have r := parseText_refines X lit hX F h zmParserInit (namesInit pi e₁)
  have v := parse_correct_partial { E with var := fun s => if s = "pi" then pi else if s = "e" then e₁ else 0 } e he F hF
  unfold parseEval at v
  rw [← r] at v
  unfold textInit
  cases hq : parseText X F t (zmParserInit, namesInit pi e₁) with
  | ok q =>
    rw [hq] at v
    have st := parseText_step X F t _ q hq
    have ev : varValue q.2.vars = fun s => if s = "pi" then pi else if s = "e" then e₁ else 0 := by
      funext s
      exact (st.2.1 s).trans (varValue_init pi e₁ s)
    simp only [Res.bind, ev]
    exact v
  | fail => rw [hq] at v; exact absurd v (by simp [fstOf, Res.bind])
  | ub => rw [hq] at v; exact absurd v (by simp [fstOf, Res.bind])

/-! ## Violations -/

/-- **C202, violated.** A name as long as the buffer (or longer) is written beyond the end of the buffer. -/
theorem name_overflow_violated (X : Lex K) (F : Nat) (p : Parser K × Names K) (hs : 0 < X.size) (t : List Char) (h1 : t.head?.any isAlpha = true)
    (h2 : X.size ≤ (t.takeWhile isAlnum).length) : parseText X F t p = .ub := by
  cases t with
  | nil => exact absurd h1 (by decide)
  | cons c t =>
    have ha : isAlpha c = true := by simpa using h1
    obtain ⟨d1, d2, -⟩ := alnum_plain c (by unfold isAlnum; unfold isAlpha at ha; rw [ha, Bool.true_or])
    have e1 : (c :: t).dropWhile isDelim = c :: t := by rw [List.dropWhile_cons_of_neg (by rw [d1]; decide)]
    have e2 : (c :: t).takeWhile isOpChar = [] := by rw [List.takeWhile_cons_of_neg (by rw [d2]; decide)]
    have e3 : (c :: t).dropWhile isOpChar = c :: t := by rw [List.dropWhile_cons_of_neg (by rw [d2]; decide)]
    have e4 : nextSym X p.2 (c :: t) = .ub := by
      unfold nextSym tokFunc copyName
      rw [if_pos h1, if_neg (by omega)]
      rfl
    unfold parseText
    simp only [textLoop, e1, e2, e3, opFind_nil, e4, Res.bind]
    rw [if_neg (by simp only [List.length_nil]; omega)]

/-! ## A concrete reader -/

/-- A reader of unsigned integers. -/
def digits (l : List Char) : Option (ℚ × List Char) :=
  let w := l.takeWhile Char.isDigit
  if w = [] then none else some ((w.foldl (fun (a : Nat) c => 10 * a + (c.toNat - 48)) 0 : Nat), l.dropWhile Char.isDigit)

/-- The reader with the buffer of the GNU C library. -/
def exLex : Lex ℚ := { size := 8192, num := digits }

/-- Numerals of unsigned integers. -/
def exLit (v : ℚ) (w : List Char) : Prop :=
  w ≠ [] ∧ (∀ c ∈ w, c.isDigit = true) ∧ v = (w.foldl (fun (a : Nat) c => 10 * a + (c.toNat - 48)) 0 : Nat)

/-- The reader of unsigned integers is a reader of numbers. -/
theorem exLex_ok : NumOk exLex exLit where
  size := by decide
  digit v w h := by
    obtain ⟨h1, h2, -⟩ := h
    cases w with
    | nil => exact absurd rfl h1
    | cons c w => exact ⟨c, w, rfl, h2 c List.mem_cons_self⟩
  reads v w t h ht := by
    obtain ⟨h1, h2, rfl⟩ := h
    have key : ∀ w : List Char, (∀ c ∈ w, c.isDigit = true) → (w ++ t).takeWhile Char.isDigit = w ∧ (w ++ t).dropWhile Char.isDigit = t := by
      intro w
      induction w with
      | nil =>
        intro _
        cases t with
        | nil => exact ⟨rfl, rfl⟩
        | cons c t =>
          have := stops_alnum c t ht
          unfold isAlnum at this
          rw [Bool.or_eq_false_iff] at this
          exact ⟨by rw [List.nil_append, List.takeWhile_cons_of_neg (by rw [this.2]; decide)],
            by rw [List.nil_append, List.dropWhile_cons_of_neg (by rw [this.2]; decide)]⟩
      | cons c w ih =>
        intro h
        obtain ⟨a, b⟩ := ih fun d hd => h d (List.mem_cons_of_mem _ hd)
        have hc := h c List.mem_cons_self
        exact ⟨by rw [List.cons_append, List.takeWhile_cons_of_pos hc, a], by rw [List.cons_append, List.dropWhile_cons_of_pos hc, b]⟩
    obtain ⟨a, b⟩ := key w h2
    show digits (w ++ t) = _
    unfold digits
    simp only [a, b]
    rw [if_neg h1]
  none_nil := rfl
  none_cons c t h _ := by
    show digits (c :: t) = none
    unfold digits
    simp only
    rw [List.takeWhile_cons_of_neg (by rw [h]; decide), if_pos rfl]

/-- A concrete case: "12 * (x3+pi)" writes seven symbols and a space or two. -/
example : Writes (K := ℚ) 8192 exLit [.num 12, .sp, .op .mul, .sp, .lp .par, .var "x3", .op .add, .var "pi", .rp .par] ['1', '2', ' ', '*', ' ', '(', 'x', '3', '+', 'p', 'i', ')'] := by
  refine Writes.num 12 ['1', '2'] _ _ ⟨by decide, by decide, by decide +kernel⟩ (Or.inl (by decide)) ?_
  refine Writes.sp _ _ _ (by decide) (Writes.op .mul _ _ (by intro o; cases o <;> decide) (Writes.sp _ _ _ (by decide) (Writes.lp .par _ _ ?_)))
  refine Writes.var ['x', '3'] _ _ ⟨by decide, by decide⟩ (by decide) (Or.inr (Or.inl ⟨.add, rfl⟩)) (by decide) (Writes.op .add _ _ (by intro o; cases o <;> decide) ?_)
  exact Writes.var ['p', 'i'] _ _ ⟨by decide, by decide⟩ (by decide) (Or.inr (Or.inr (by decide))) (by decide) (Writes.rp .par _ _ Writes.nil)

/-- **C203, violated.** An assignment does not assign: after "a=3" the variable `a` is zero. -/
theorem assign_violated : ∃ q r, parseAll exLex 20 [['a', '=', '3']] (textInit 3 2) = .ok q ∧ parseText exLex 20 ['a'] q = .ok r ∧
    zmParseEval { exX with var := varValue r.2.vars } r.1 = .ok 0 :=
  ⟨_, _, rfl, rfl, rfl⟩

end Zm.Parse
