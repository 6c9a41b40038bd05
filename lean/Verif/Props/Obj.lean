import Verif.Model.Obj
import Verif.Base.Fn
import Verif.Base.Tac

/-! # C232: vectors and matrices as objects -/

set_option linter.unusedSectionVars false

namespace Zm.Obj
variable {α : Type*} [Zero α]

/-! ## Specification: values -/

/-- A rectangle of numbers with a margin: `rows` × `cols` of it are in use. -/
structure Arr (α : Type*) where
  rcap : Nat
  ccap : Nat
  rows : Nat
  cols : Nat
  el : Nat → Nat → α

/-- The number of rows of a new object: a vector has one. -/
def rowsOf (k : Kind) (r : Nat) : Nat := if k = .vec ∨ k = .cvec then 1 else r

/-- A new object without a margin; without elements there is none. -/
def mk (got : Bool) (r c : Nat) (el : Nat → Nat → α) : Option (Arr α) := if got = true ∧ 0 < r * c then some ⟨r, c, r, c, el⟩ else none

/-- Variables that hold values. -/
abbrev Vals (α : Type*) := List (Kind × Option (Arr α))

def Vals.var (s : Vals α) (x : Nat) : Kind × Option (Arr α) := s.getD x (.mat, none)

/-- Change of a variable that is not null. -/
def Vals.upd (s : Vals α) (x : Nat) (f : Arr α → Arr α) : Vals α := s.set x ((s.var x).1, (s.var x).2.map f)

/-- The values after one step.  `got` says whether memory was given out. -/
def specStep (got : Bool) (s : Vals α) (o : Op α) : Vals α :=
  match o with
  | .alloc k r c => s ++ [(k, mk got (rowsOf k r) c fun _ _ => 0)]
  | .create k r c args => s ++ [(k, if k = .vec ∨ k = .mat then mk got (rowsOf k r) c fun i j => args.getD (i * c + j) 0 else none)]
  | .cloneArray k r c a => s ++ [(k, if k = .vec ∨ k = .mat then mk got (rowsOf k r) c fun i j => a.getD (i * c + j) 0 else none)]
  | .clone x => s ++ [((s.var x).1, (s.var x).2.bind fun A => mk got A.rows A.cols A.el)]
  | .tclone x => if (s.var x).1 = .mat then s ++ [(.mat, (s.var x).2.bind fun A => mk got A.cols A.rows fun i j => A.el j i)] else s
  | .setList x args =>
    if (s.var x).1 = .vec ∨ (s.var x).1 = .mat then
      s.upd x fun A => { A with el := fun i j => if i < A.rows ∧ j < A.cols then args.getD (i * A.cols + j) 0 else A.el i j }
    else s
  | .set x i j v => s.upd x fun A => { A with el := fun i' j' => if i < A.rows ∧ j < A.cols ∧ i' = i ∧ j' = j then v else A.el i' j' }
  | .copy x y =>
    if x ≠ y ∧ (s.var x).1 = (s.var y).1 then
      s.upd y fun B => ((s.var x).2.map fun A =>
        if A.rows = B.rows ∧ A.cols = B.cols then { B with el := fun i j => if i < B.rows ∧ j < B.cols then A.el i j else B.el i j } else B).getD B
    else s
  | .resize x r c =>
    if (s.var x).1 = .vec then s.upd x fun A => { A with cols := if c ≤ A.ccap then c else A.cols }
    else if (s.var x).1 = .mat then s.upd x fun A => { A with rows := if r ≤ A.rcap then r else A.rows, cols := if c ≤ A.ccap then c else A.cols }
    else s
  | .free x => s.set x ((s.var x).1, none)

/-- The obligation of the client: as many arguments as elements. -/
def Fits (s : Vals α) (o : Op α) : Prop :=
  match o with
  | .create k r c args => rowsOf k r * c ≤ args.length
  | .cloneArray k r c a => rowsOf k r * c ≤ a.length
  | .setList x args => ∀ A, (s.var x).2 = some A → A.rows * A.cols ≤ args.length
  | _ => True

/-! ## What an object in the heap stands for -/

/-- The buffer of an object. -/
def buf (h : Hp α) (p : Nat) : Nat := (h.hdr p).buf.getD p

/-- The object at `p` is the value `A`. -/
structure IsArr (h : Hp α) (k : Kind) (p : Nat) (A : Arr α) : Prop where
  hdr : h.hdr p = ⟨some (buf h p), A.rcap, A.ccap, A.rows, A.cols⟩
  len : h.len (buf h p) = A.rcap * A.ccap
  el : ∀ i j, i < A.rcap → j < A.ccap → h.dat (buf h p) (i * A.ccap + j) = A.el i j
  rows : A.rows ≤ A.rcap
  cols : A.cols ≤ A.ccap
  vec : k = .vec ∨ k = .cvec → A.rows = 1 ∧ A.rcap = 1
  tight : k = .cvec ∨ k = .cmat → A.cols = A.ccap ∧ A.rows = A.rcap
  pos : 0 < A.rcap * A.ccap

/-- The client's variables stand for the values, and its objects own the live blocks: each block belongs to exactly one object. -/
structure Agrees (s : Cl α) (a : Vals α) : Prop where
  length : s.vars.length = a.length
  kind : ∀ x, (s.var x).1 = (a.var x).1
  null : ∀ x, (s.var x).2 = none ↔ (a.var x).2 = none
  val : ∀ x p A, (s.var x).2 = some p → (a.var x).2 = some A → IsArr s.h (s.var x).1 p A
  own : ∀ x p, (s.var x).2 = some p → p ∈ s.h.live ∧ buf s.h p ∈ s.h.live ∧ p ≠ buf s.h p
  disj : ∀ x y p q, x ≠ y → (s.var x).2 = some p → (s.var y).2 = some q → p ≠ q ∧ p ≠ buf s.h q ∧ buf s.h p ≠ buf s.h q
  all : ∀ b ∈ s.h.live, ∃ x p, (s.var x).2 = some p ∧ (b = p ∨ b = buf s.h p)
  nodup : s.h.live.Nodup
  fresh : ∀ b ∈ s.h.live, b < s.h.next

/-! ## Loops that fill a buffer -/

/-- The heap after the first `n` elements, row by row, of `cols` columns have been written with the stride `cap`. -/
def pre (h : Hp α) (b cap cols : Nat) (g : Nat → Nat → α) (n : Nat) : Hp α :=
  { h with dat := fun b' k => if b' = b ∧ k % cap < cols ∧ k / cap * cols + k % cap < n then g (k / cap) (k % cap) else h.dat b' k }

theorem pre_zero (h : Hp α) (b cap cols : Nat) (g : Nat → Nat → α) : pre h b cap cols g 0 = h := by
  unfold pre
  simp

theorem cell_inj {c i j q r : Nat} (hj : j < c) (hr : r < c) (h : q * c + r = i * c + j) : q = i ∧ r = j := by
  rcases Nat.lt_trichotomy q i with hl | rfl | hl
  · have : (q + 1) * c ≤ i * c := Nat.mul_le_mul_right c hl
    rw [Nat.add_mul] at this; omega
  · exact ⟨rfl, by omega⟩
  · have : (i + 1) * c ≤ q * c := Nat.mul_le_mul_right c hl
    rw [Nat.add_mul] at this; omega

theorem pre_step (h : Hp α) (b cap cols : Nat) (g : Nat → Nat → α) (i j : Nat) (hb : b ∈ h.live) (hl : i * cap + j < h.len b) (hj : j < cols) (hc : cols ≤ cap) :
    wr (pre h b cap cols g (i * cols + j)) b (i * cap + j) (g i j) = .ok (pre h b cap cols g (i * cols + j + 1)) := by
  unfold wr
  rw [if_pos ⟨hb, hl⟩]
  congr 1
  unfold pre
  congr 1
  funext b' k
  dsimp only
  by_cases e : b' = b
  · subst e
    have hk : k / cap * cap + k % cap = k := Nat.div_add_mod' k cap
    have hm : k % cap < cap := Nat.mod_lt _ (by omega)
    by_cases e2 : k = i * cap + j
    · obtain ⟨e3, e4⟩ := cell_inj (c := cap) (by omega) hm (hk.trans e2)
      rw [if_pos ⟨rfl, e2⟩, if_pos ⟨rfl, by omega, by rw [e3, e4]; omega⟩, e3, e4]
    · rw [if_neg (fun x => e2 x.2)]
      by_cases e5 : k % cap < cols
      · have hne : k / cap * cols + k % cap ≠ i * cols + j := by
          intro e6
          obtain ⟨e3, e4⟩ := cell_inj hj e5 e6
          exact e2 (by rw [← hk, e3, e4])
        by_cases e6 : k / cap * cols + k % cap < i * cols + j
        · rw [if_pos ⟨rfl, e5, e6⟩, if_pos ⟨rfl, e5, by omega⟩]
        · rw [if_neg (fun x => e6 x.2.2), if_neg (fun x => hne (by omega))]
      · rw [if_neg (fun x => e5 x.2.1), if_neg (fun x => e5 x.2.1)]
  · rw [if_neg (fun x => e x.1), if_neg (fun x => e x.1), if_neg (fun x => e x.1)]

/-- Two nested loops. -/
theorem nested {σ : Type*} (rows cols : Nat) (body : Nat → Nat → σ → Res σ) (P : Nat → σ → Prop) (s : σ) (h0 : P 0 s)
    (hs : ∀ i j t, i < rows → j < cols → P (i * cols + j) t → ∃ t', body i j t = .ok t' ∧ P (i * cols + j + 1) t') :
    ∃ s', forUpM 0 rows (fun i t => forUpM 0 cols (body i) t) s = .ok s' ∧ P (rows * cols) s' := by
  refine forUpM_ok _ s (fun i t => P (i * cols) t) (Nat.zero_le _) (by simpa using h0) ?_
  intro i t _ hi ht
  obtain ⟨t', e, p⟩ := forUpM_ok (lo := 0) (hi := cols) (body i) t (fun j t => P (i * cols + j) t) (Nat.zero_le _) ht (fun j u _ hj hu => hs i j u hi hj hu)
  exact ⟨t', e, by rw [Nat.add_mul, Nat.one_mul]; exact p⟩

/-- Only the elements of `rows` × `cols` in the buffer `b` have changed: they are `g`. -/
structure Filled (h h' : Hp α) (b cap rows cols : Nat) (g : Nat → Nat → α) : Prop where
  t : h'.t = h.t
  next : h'.next = h.next
  live : h'.live = h.live
  hdr : h'.hdr = h.hdr
  len : h'.len = h.len
  dat : ∀ b', b' ≠ b → h'.dat b' = h.dat b'
  el : ∀ i j, j < cap → h'.dat b (i * cap + j) = if i < rows ∧ j < cols then g i j else h.dat b (i * cap + j)

theorem pre_filled (h : Hp α) (b cap rows cols : Nat) (g : Nat → Nat → α) : Filled h (pre h b cap cols g (rows * cols)) b cap rows cols g := by
  refine ⟨rfl, rfl, rfl, rfl, rfl, ?_, ?_⟩
  · intro b' hb
    funext k
    simp [pre, hb]
  · intro i j hj
    have e1 : (i * cap + j) % cap = j := by rw [Nat.add_comm, Nat.add_mul_mod_self_right, Nat.mod_eq_of_lt hj]
    have e2 : (i * cap + j) / cap = i := by
      rw [Nat.add_comm, Nat.add_mul_div_right _ _ (by omega), Nat.div_eq_of_lt hj, Nat.zero_add]
    simp only [pre, e1, e2, true_and]
    by_cases hi : i < rows ∧ j < cols
    · rw [if_pos hi, if_pos ⟨hi.2, by
        have : (i + 1) * cols ≤ rows * cols := Nat.mul_le_mul_right cols hi.1
        rw [Nat.add_mul] at this; omega⟩]
    · rw [if_neg hi, if_neg]
      rintro ⟨hc, hl⟩
      apply hi
      refine ⟨?_, hc⟩
      by_contra hge
      have : rows * cols ≤ i * cols := Nat.mul_le_mul_right cols (by omega)
      omega

/-- A loop over rows and columns which writes to each place of the destination an element that does not depend on the destination. -/
theorem fill (h : Hp α) (b cap rows cols : Nat) (g : Nat → Nat → α) (src : Nat → Nat → Hp α → Res α) (hb : b ∈ h.live) (hc : cols ≤ cap)
    (hl : ∀ i j, i < rows → j < cols → i * cap + j < h.len b)
    (hs : ∀ i j n, i < rows → j < cols → src i j (pre h b cap cols g n) = .ok (g i j)) :
    ∃ h', forUpM 0 rows (fun i h => forUpM 0 cols (fun j h => (src i j h).bind fun x => wr h b (i * cap + j) x) h) h = .ok h' ∧ Filled h h' b cap rows cols g := by
  obtain ⟨h', e, p⟩ := nested rows cols (fun i j h => (src i j h).bind fun x => wr h b (i * cap + j) x) (fun n t => t = pre h b cap cols g n) h (pre_zero ..).symm (by
    rintro i j t hi hj rfl
    refine ⟨_, ?_, rfl⟩
    simp only [hs i j _ hi hj, Res.bind, pre_step h b cap cols g i j hb (hl i j hi hj) hj hc])
  exact ⟨h', e, p ▸ pre_filled h b cap rows cols g⟩

theorem forUpM_one {σ : Type*} (f : Nat → σ → Res σ) (s : σ) : forUpM 0 1 f s = f 0 s := by
  unfold forUpM
  simp only [Nat.sub_zero, forNM]
  cases f 0 s <;> rfl

theorem fill1 (h : Hp α) (b cols : Nat) (g : Nat → α) (src : Nat → Hp α → Res α) (hb : b ∈ h.live) (hl : ∀ j, j < cols → j < h.len b)
    (hs : ∀ j n, j < cols → src j (pre h b cols cols (fun _ => g) n) = .ok (g j)) :
    ∃ h', forUpM 0 cols (fun j h => (src j h).bind fun x => wr h b j x) h = .ok h' ∧ Filled h h' b cols 1 cols fun _ => g := by
  obtain ⟨h', e, f⟩ := fill h b cols 1 cols (fun _ => g) (fun _ => src) hb le_rfl (by
    intro i j hi hj
    obtain rfl : i = 0 := by omega
    simpa using hl j hj) (fun i j n _ hj => hs j n hj)
  refine ⟨h', ?_, f⟩
  rw [forUpM_one] at e
  rw [← e]
  simp only [Nat.zero_mul, Nat.zero_add]

/-- The loops that take the elements from a list of arguments. -/
theorem fillArgs (h : Hp α) (b cap rows cols : Nat) (args : List α) (hb : b ∈ h.live) (hc : cols ≤ cap)
    (hl : ∀ i j, i < rows → j < cols → i * cap + j < h.len b) (ha : rows * cols ≤ args.length) :
    ∃ s, forUpM 0 rows (fun i s => forUpM 0 cols (fun j (s : Hp α × List α) =>
      (vaArg s.2).bind fun a => (wr s.1 b (i * cap + j) a.1).bind fun h => .ok (h, a.2)) s) (h, args) = .ok s ∧
      Filled h s.1 b cap rows cols fun i j => args.getD (i * cols + j) 0 := by
  obtain ⟨s, e, p⟩ := nested rows cols (fun i j (s : Hp α × List α) => (vaArg s.2).bind fun a => (wr s.1 b (i * cap + j) a.1).bind fun h => .ok (h, a.2))
    (fun n t => t = (pre h b cap cols (fun i j => args.getD (i * cols + j) 0) n, args.drop n)) (h, args) (by simp [pre_zero]) (by
      rintro i j t hi hj rfl
      have hlt : i * cols + j < args.length := by
        have : (i + 1) * cols ≤ rows * cols := Nat.mul_le_mul_right cols hi
        rw [Nat.add_mul] at this; omega
      refine ⟨_, ?_, rfl⟩
      rw [List.drop_eq_getElem_cons hlt]
      have := pre_step h b cap cols (fun i j => args.getD (i * cols + j) 0) i j hb (hl i j hi hj) hj hc
      simp only [List.getD_eq_getElem?_getD, List.getElem?_eq_getElem hlt, Option.getD_some] at this
      simp only [vaArg, Res.bind, List.getD_eq_getElem?_getD, this])
  refine ⟨s, e, ?_⟩
  rw [p]
  exact pre_filled h b cap rows cols fun i j => args.getD (i * cols + j) 0

/-! ## Allocation -/

/-- Nothing that is in use has changed. -/
structure Same (h h' : Hp α) : Prop where
  live : h'.live = h.live
  next : h.next ≤ h'.next
  hdr : ∀ q, q < h.next → h'.hdr q = h.hdr q
  len : ∀ q, q < h.next → h'.len q = h.len q
  dat : ∀ q, q < h.next → h'.dat q = h.dat q

/-- A new object `p` with the buffer `b` and the elements `g`; everything else is as before. -/
structure Made (h h' : Hp α) (p b r c : Nat) (g : Nat → Nat → α) : Prop where
  hp : p = h.next
  hb : b = h.next + 1
  live : h'.live = b :: p :: h.live
  next : h'.next = h.next + 2
  hdr : h'.hdr p = ⟨some b, r, c, r, c⟩
  hdrO : ∀ q, q < h.next → h'.hdr q = h.hdr q
  len : h'.len b = r * c
  lenO : ∀ q, q < h.next → h'.len q = h.len q
  datO : ∀ q, q < h.next → h'.dat q = h.dat q
  el : ∀ i j, i < r → j < c → h'.dat b (i * c + j) = g i j
  pos : 0 < r * c

theorem zMatAlloc_cases (avail : Nat → Bool) (r c : Nat) (h : Hp α) :
    (∃ h', zMatAlloc avail r c h = .ok (none, h') ∧ Same h h' ∧ (r * c = 0 ∨ avail h.t = false ∨ avail (h.t + 1) = false)) ∨
    (∃ h', zMatAlloc avail r c h = .ok (some h.next, h') ∧ Made h h' h.next (h.next + 1) r c fun _ _ => 0) := by
  unfold zMatAlloc newHdr
  by_cases h1 : avail h.t = true
  · rw [if_pos h1]
    dsimp only
    unfold newBuf
    by_cases h0 : r * c = 0
    · left
      rw [if_pos h0]
      simp only [free, List.mem_cons, true_or, if_true, Res.bind, List.erase_cons_head]
      refine ⟨_, rfl, ⟨rfl, by simp, fun q hq => ?_, fun _ _ => rfl, fun _ _ => rfl⟩, Or.inl h0⟩
      simp only [if_neg (Nat.ne_of_lt hq)]
    rw [if_neg h0]
    dsimp only
    by_cases h2 : avail (h.t + 1) = true
    · right
      rw [if_pos h2]
      refine ⟨_, rfl, ⟨rfl, rfl, rfl, rfl, by simp, ?_, by simp, ?_, ?_, by simp, by omega⟩⟩
      · intro q hq; simp only [if_neg (Nat.ne_of_lt hq)]
      · intro q hq; simp only [if_neg (show q ≠ h.next + 1 by omega)]
      · intro q hq; simp only [if_neg (show q ≠ h.next + 1 by omega)]
    · left
      rw [if_neg h2]
      simp only [free, List.mem_cons, true_or, if_true, Res.bind, List.erase_cons_head]
      refine ⟨_, rfl, ⟨rfl, by simp, fun q hq => ?_, fun _ _ => rfl, fun _ _ => rfl⟩, Or.inr (Or.inr (by simpa using h2))⟩
      simp only [if_neg (Nat.ne_of_lt hq)]
  · left
    rw [if_neg h1]
    exact ⟨_, rfl, ⟨rfl, le_rfl, fun _ _ => rfl, fun _ _ => rfl, fun _ _ => rfl⟩, Or.inr (Or.inl (by simpa using h1))⟩

theorem zVecAlloc_eq (avail : Nat → Bool) (c : Nat) (h : Hp α) : zVecAlloc avail c h = zMatAlloc avail 1 c h := by
  unfold zVecAlloc zMatAlloc
  rw [Nat.one_mul]

/-- The object that has been made is filled. -/
theorem Made.fill {h h1 h2 : Hp α} {p b r c : Nat} {g g' : Nat → Nat → α} (m : Made h h1 p b r c g) (f : Filled h1 h2 b c r c g') : Made h h2 p b r c g' := by
  refine ⟨m.hp, m.hb, f.live.trans m.live, f.next.trans m.next, by rw [f.hdr]; exact m.hdr, fun q hq => by rw [f.hdr]; exact m.hdrO q hq, by rw [f.len]; exact m.len,
    fun q hq => by rw [f.len]; exact m.lenO q hq, fun q hq => ?_, fun i j hi hj => ?_, m.pos⟩
  · rw [f.dat q (by rw [m.hb]; omega)]; exact m.datO q hq
  · rw [f.el i j hj, if_pos ⟨hi, hj⟩]

/-! ## Variables -/

theorem var_add (s : Cl α) (k : Kind) (r : Option Nat × Hp α) (x : Nat) :
    (s.add k r).var x = if x < s.vars.length then s.var x else if x = s.vars.length then (k, r.1) else (.mat, none) := by
  unfold Cl.add Cl.var
  simp only [List.getD_eq_getElem?_getD, List.getElem?_append]
  by_cases hx : x < s.vars.length
  · simp [hx]
  · rw [if_neg hx, if_neg hx]
    by_cases e : x = s.vars.length
    · simp [e]
    · rw [if_neg e]
      have : x - s.vars.length ≠ 0 := by omega
      obtain ⟨n, hn⟩ := Nat.exists_eq_succ_of_ne_zero this
      simp [hn]

theorem vals_add (a : Vals α) (v : Kind × Option (Arr α)) (x : Nat) :
    Vals.var (a ++ [v]) x = if x < a.length then a.var x else if x = a.length then v else (.mat, none) := by
  unfold Vals.var
  simp only [List.getD_eq_getElem?_getD, List.getElem?_append]
  by_cases hx : x < a.length
  · simp [hx]
  · rw [if_neg hx, if_neg hx]
    by_cases e : x = a.length
    · simp [e]
    · rw [if_neg e]
      have : x - a.length ≠ 0 := by omega
      obtain ⟨n, hn⟩ := Nat.exists_eq_succ_of_ne_zero this
      simp [hn]

theorem vals_set (a : Vals α) (v : Kind × Option (Arr α)) (x y : Nat) (hx : x < a.length) : Vals.var (a.set x v) y = if y = x then v else a.var y := by
  unfold Vals.var
  simp only [List.getD_eq_getElem?_getD, List.getElem?_set]
  by_cases e : y = x
  · subst e; simp [hx]
  · simp [e, Ne.symm e]

theorem var_lt (s : Cl α) (x p : Nat) (h : (s.var x).2 = some p) : x < s.vars.length := by
  by_contra hx
  unfold Cl.var at h
  rw [List.getD_eq_getElem?_getD, List.getElem?_eq_none (by omega)] at h
  cases h

theorem Same.buf {h h' : Hp α} (m : Same h h') (q : Nat) (hq : q < h.next) : Obj.buf h' q = Obj.buf h q := by unfold Obj.buf; rw [m.hdr q hq]
theorem Made.buf {h h' : Hp α} {p b r c : Nat} {g : Nat → Nat → α} (m : Made h h' p b r c g) (q : Nat) (hq : q < h.next) : Obj.buf h' q = Obj.buf h q := by
  unfold Obj.buf; rw [m.hdrO q hq]
theorem Made.bufp {h h' : Hp α} {p b r c : Nat} {g : Nat → Nat → α} (m : Made h h' p b r c g) : Obj.buf h' p = b := by unfold Obj.buf; rw [m.hdr]; rfl

/-- An object whose blocks have not changed stands for the same value. -/
theorem IsArr.of_eq {h h' : Hp α} {k : Kind} {p : Nat} {A : Arr α} (m : IsArr h k p A) (h1 : h'.hdr p = h.hdr p) (h2 : h'.len (Obj.buf h p) = h.len (Obj.buf h p))
    (h3 : h'.dat (Obj.buf h p) = h.dat (Obj.buf h p)) : IsArr h' k p A := by
  have e : Obj.buf h' p = Obj.buf h p := by unfold Obj.buf; rw [h1]
  refine ⟨by rw [e, h1]; exact m.hdr, by rw [e, h2]; exact m.len, fun i j hi hj => by rw [e, h3]; exact m.el i j hi hj, m.rows, m.cols, m.vec, m.tight, m.pos⟩

theorem agrees_add_none {s : Cl α} {a : Vals α} (g : Agrees s a) (k : Kind) (h' : Hp α) (m : Same s.h h') : Agrees (s.add k (none, h')) (a ++ [(k, none)]) := by
  have lt : ∀ x p, (s.var x).2 = some p → p < s.h.next ∧ buf s.h p < s.h.next := fun x p hx => ⟨g.fresh _ (g.own x p hx).1, g.fresh _ (g.own x p hx).2.1⟩
  have key : ∀ x p, ((s.add k (none, h')).var x).2 = some p → (s.var x).2 = some p ∧ x < s.vars.length := by
    intro x p hx
    rw [var_add] at hx
    by_cases h1 : x < s.vars.length
    · rw [if_pos h1] at hx; exact ⟨hx, h1⟩
    · rw [if_neg h1] at hx
      by_cases h2 : x = s.vars.length
      · rw [if_pos h2] at hx; cases hx
      · rw [if_neg h2] at hx; cases hx
  refine ⟨by simp [Cl.add, g.length], ?_, ?_, ?_, ?_, ?_, ?_, by show h'.live.Nodup; rw [m.live]; exact g.nodup, ?_⟩
  · intro x
    rw [var_add, vals_add, g.length]
    split
    · exact g.kind x
    · split <;> rfl
  · intro x
    rw [var_add, vals_add, g.length]
    split
    · exact g.null x
    · split <;> exact ⟨fun _ => rfl, fun _ => rfl⟩
  · intro x p A hx hA
    obtain ⟨hx, hl⟩ := key x p hx
    rw [vals_add, if_pos (g.length ▸ hl)] at hA
    rw [var_add, if_pos hl]
    exact (g.val x p A hx hA).of_eq (m.hdr _ (lt x p hx).1) (m.len _ (lt x p hx).2) (m.dat _ (lt x p hx).2)
  · intro x p hx
    obtain ⟨hx, hl⟩ := key x p hx
    show p ∈ h'.live ∧ buf h' p ∈ h'.live ∧ p ≠ buf h' p
    rw [m.buf p (lt x p hx).1, m.live]
    exact g.own x p hx
  · intro x y p q hne hx hy
    obtain ⟨hx, hl⟩ := key x p hx
    obtain ⟨hy, hl'⟩ := key y q hy
    show p ≠ q ∧ p ≠ buf h' q ∧ buf h' p ≠ buf h' q
    rw [m.buf p (lt x p hx).1, m.buf q (lt y q hy).1]
    exact g.disj x y p q hne hx hy
  · intro b hb
    have hb : b ∈ h'.live := hb
    rw [m.live] at hb
    obtain ⟨x, p, hx, hp⟩ := g.all b hb
    refine ⟨x, p, ?_, ?_⟩
    · rw [var_add, if_pos (var_lt s x p hx)]; exact hx
    · show b = p ∨ b = buf h' p
      rw [m.buf p (lt x p hx).1]; exact hp
  · intro b hb
    have hb : b ∈ h'.live := hb
    rw [m.live] at hb
    exact Nat.lt_of_lt_of_le (g.fresh b hb) m.next

theorem agrees_add_some {s : Cl α} {a : Vals α} (g : Agrees s a) (k : Kind) {h' : Hp α} {p b r c : Nat} {f : Nat → Nat → α} (m : Made s.h h' p b r c f) (el : Nat → Nat → α)
    (he : ∀ i j, i < r → j < c → f i j = el i j) (hk : k = .vec ∨ k = .cvec → r = 1) : Agrees (s.add k (some p, h')) (a ++ [(k, some ⟨r, c, r, c, el⟩)]) := by
  have lt : ∀ x p, (s.var x).2 = some p → p < s.h.next ∧ buf s.h p < s.h.next := fun x p hx => ⟨g.fresh _ (g.own x p hx).1, g.fresh _ (g.own x p hx).2.1⟩
  have key : ∀ x q, ((s.add k (some p, h')).var x).2 = some q → ((s.var x).2 = some q ∧ x < s.vars.length) ∨ (x = s.vars.length ∧ q = p) := by
    intro x q hx
    rw [var_add] at hx
    by_cases h1 : x < s.vars.length
    · rw [if_pos h1] at hx; exact Or.inl ⟨hx, h1⟩
    · rw [if_neg h1] at hx
      by_cases h2 : x = s.vars.length
      · rw [if_pos h2] at hx; exact Or.inr ⟨h2, (Option.some.inj hx).symm⟩
      · rw [if_neg h2] at hx; cases hx
  have ehp := m.hp
  have ehb := m.hb
  refine ⟨by simp [Cl.add, g.length], ?_, ?_, ?_, ?_, ?_, ?_, ?_, ?_⟩
  · intro x
    rw [var_add, vals_add, g.length]
    split
    · exact g.kind x
    · split <;> rfl
  · intro x
    rw [var_add, vals_add, g.length]
    split
    · exact g.null x
    · split
      · simp
      · exact ⟨fun _ => rfl, fun _ => rfl⟩
  · intro x q A hx hA
    rcases key x q hx with ⟨hx, hl⟩ | ⟨rfl, rfl⟩
    · rw [vals_add, if_pos (g.length ▸ hl)] at hA
      rw [var_add, if_pos hl]
      exact (g.val x q A hx hA).of_eq (m.hdrO _ (lt x q hx).1) (m.lenO _ (lt x q hx).2) (m.datO _ (lt x q hx).2)
    · rw [vals_add, g.length, if_neg (Nat.lt_irrefl _), if_pos rfl] at hA
      obtain rfl : (⟨r, c, r, c, el⟩ : Arr α) = A := Option.some.inj hA
      rw [var_add, if_neg (Nat.lt_irrefl _), if_pos rfl]
      have eb : buf (s.add k (some q, h')).h q = b := m.bufp
      refine ⟨by rw [eb]; exact m.hdr, by rw [eb]; exact m.len, fun i j hi hj => by rw [eb]; exact (m.el i j hi hj).trans (he i j hi hj), le_rfl, le_rfl, fun h => ⟨hk h, hk h⟩, fun _ => ⟨rfl, rfl⟩, m.pos⟩
  · intro x q hx
    show q ∈ h'.live ∧ buf h' q ∈ h'.live ∧ q ≠ buf h' q
    rcases key x q hx with ⟨hx, hl⟩ | ⟨rfl, rfl⟩
    · rw [m.buf q (lt x q hx).1, m.live]
      obtain ⟨o1, o2, o3⟩ := g.own x q hx
      exact ⟨by simp [o1], by simp [o2], o3⟩
    · rw [m.bufp, m.live]
      exact ⟨by simp, by simp, by omega⟩
  · intro x y q q' hne hx hy
    show q ≠ q' ∧ q ≠ buf h' q' ∧ buf h' q ≠ buf h' q'
    rcases key x q hx with ⟨hx1, hl⟩ | ⟨e1, e2⟩ <;> rcases key y q' hy with ⟨hy1, hl'⟩ | ⟨e3, e4⟩
    · rw [m.buf q (lt x q hx1).1, m.buf q' (lt y q' hy1).1]
      exact g.disj x y q q' hne hx1 hy1
    · have := lt x q hx1
      rw [m.buf q this.1, e4, m.bufp]
      omega
    · have := lt y q' hy1
      rw [m.buf q' this.1, e2, m.bufp]
      omega
    · exact absurd (e1.trans e3.symm) hne
  · intro d hd
    have hd : d ∈ h'.live := hd
    rw [m.live] at hd
    rcases List.mem_cons.1 hd with rfl | hd
    · exact ⟨s.vars.length, p, by rw [var_add, if_neg (Nat.lt_irrefl _), if_pos rfl], Or.inr m.bufp.symm⟩
    rcases List.mem_cons.1 hd with rfl | hd
    · exact ⟨s.vars.length, d, by rw [var_add, if_neg (Nat.lt_irrefl _), if_pos rfl], Or.inl rfl⟩
    obtain ⟨x, q, hx, hq⟩ := g.all d hd
    refine ⟨x, q, ?_, ?_⟩
    · rw [var_add, if_pos (var_lt s x q hx)]; exact hx
    · show d = q ∨ d = buf h' q
      rw [m.buf q (lt x q hx).1]; exact hq
  · show h'.live.Nodup
    rw [m.live]
    refine List.nodup_cons.2 ⟨?_, List.nodup_cons.2 ⟨fun hm => ?_, g.nodup⟩⟩
    · intro hm
      rcases List.mem_cons.1 hm with e | hm
      · omega
      · have := g.fresh _ hm; omega
    · have := g.fresh _ hm; omega
  · intro d hd
    have hd : d ∈ h'.live := hd
    rw [m.live] at hd
    show d < h'.next
    rw [m.next]
    rcases List.mem_cons.1 hd with rfl | hd
    · omega
    rcases List.mem_cons.1 hd with rfl | hd
    · omega
    have := g.fresh d hd
    omega

/-- Elements or the header of one object change, and its value with them. -/
theorem agrees_set {s : Cl α} {a : Vals α} (g : Agrees s a) (x p : Nat) (A : Arr α) (h' : Hp α) (hx : (s.var x).2 = some p)
    (live : h'.live = s.h.live) (next : h'.next = s.h.next) (hdr : ∀ q, q ≠ p → h'.hdr q = s.h.hdr q) (bufp : buf h' p = buf s.h p)
    (len : h'.len = s.h.len) (dat : ∀ b, b ≠ buf s.h p → h'.dat b = s.h.dat b) (hA : IsArr h' (s.var x).1 p A) :
    Agrees { s with h := h' } (a.set x ((a.var x).1, some A)) := by
  have hxl := var_lt s x p hx
  have hb : ∀ y q, (s.var y).2 = some q → buf h' q = buf s.h q := by
    intro y q hy
    by_cases e : q = p
    · subst e; exact bufp
    · unfold buf; rw [hdr q e]
  refine ⟨by simp [g.length], ?_, ?_, ?_, ?_, ?_, ?_, by show h'.live.Nodup; rw [live]; exact g.nodup, ?_⟩
  · intro y
    rw [vals_set _ _ _ _ (g.length ▸ hxl)]
    by_cases e : y = x
    · subst e; rw [if_pos rfl]; exact g.kind y
    · rw [if_neg e]; exact g.kind y
  · intro y
    rw [vals_set _ _ _ _ (g.length ▸ hxl)]
    by_cases e : y = x
    · subst e; rw [if_pos rfl]
      constructor
      · intro hn; exact absurd (hx.symm.trans hn) (by simp)
      · intro hn; cases hn
    · rw [if_neg e]; exact g.null y
  · intro y q B hy hB
    rw [vals_set _ _ _ _ (g.length ▸ hxl)] at hB
    by_cases e : y = x
    · subst e
      rw [if_pos rfl] at hB
      obtain rfl : p = q := Option.some.inj (hx.symm.trans hy)
      obtain rfl : A = B := Option.some.inj hB
      exact hA
    · rw [if_neg e] at hB
      obtain ⟨d1, d2, d3⟩ := g.disj y x q p e hy hx
      exact (g.val y q B hy hB).of_eq (hdr q d1) (by show h'.len _ = _; rw [len]) (dat _ d3)
  · intro y q hy
    show q ∈ h'.live ∧ buf h' q ∈ h'.live ∧ q ≠ buf h' q
    rw [hb y q hy, live]
    exact g.own y q hy
  · intro y z q q' hne hy hz
    show q ≠ q' ∧ q ≠ buf h' q' ∧ buf h' q ≠ buf h' q'
    rw [hb y q hy, hb z q' hz]
    exact g.disj y z q q' hne hy hz
  · intro d hd
    have hd : d ∈ h'.live := hd
    rw [live] at hd
    obtain ⟨y, q, hy, hq⟩ := g.all d hd
    exact ⟨y, q, hy, by show d = q ∨ d = buf h' q; rw [hb y q hy]; exact hq⟩
  · intro d hd
    have hd : d ∈ h'.live := hd
    rw [live] at hd
    show d < h'.next
    rw [next]
    exact g.fresh d hd

/-! ## The functions -/

/-- An object of the heap: its header, its buffer and its sizes. -/
structure Valid (h : Hp α) (p b rc cc rows cols : Nat) : Prop where
  pl : p ∈ h.live
  hdr : h.hdr p = ⟨some b, rc, cc, rows, cols⟩
  bl : b ∈ h.live
  len : h.len b = rc * cc
  rows : rows ≤ rc
  cols : cols ≤ cc

theorem Valid.hd {h : Hp α} {p b rc cc rows cols : Nat} (v : Valid h p b rc cc rows cols) : hd h p = .ok ⟨some b, rc, cc, rows, cols⟩ := by
  unfold Obj.hd; rw [if_pos v.pl, v.hdr]

theorem Valid.cell {h : Hp α} {p b rc cc rows cols : Nat} (v : Valid h p b rc cc rows cols) (i j : Nat) (hi : i < rows) (hj : j < cols) : i * cc + j < h.len b := by
  rw [v.len]
  have h1 : (i + 1) * cc ≤ rc * cc := Nat.mul_le_mul_right cc (by have := v.rows; omega)
  rw [Nat.add_mul] at h1
  have := v.cols
  omega

theorem Made.valid {h h' : Hp α} {p b r c : Nat} {g : Nat → Nat → α} (m : Made h h' p b r c g) : Valid h' p b r c r c :=
  ⟨by rw [m.live]; simp, m.hdr, by rw [m.live]; simp, m.len, le_rfl, le_rfl⟩

theorem Agrees.valid {s : Cl α} {a : Vals α} (g : Agrees s a) (x p : Nat) (A : Arr α) (hx : (s.var x).2 = some p) (hA : (a.var x).2 = some A) :
    Valid s.h p (buf s.h p) A.rcap A.ccap A.rows A.cols :=
  let v := g.val x p A hx hA
  ⟨(g.own x p hx).1, v.hdr, (g.own x p hx).2.1, v.len, v.rows, v.cols⟩

/-- An object that was there stays while another is made. -/
theorem Valid.made {h h' : Hp α} {p b rc cc rows cols q d r c : Nat} {g : Nat → Nat → α} (v : Valid h p b rc cc rows cols) (m : Made h h' q d r c g) (hf : ∀ b ∈ h.live, b < h.next) :
    Valid h' p b rc cc rows cols :=
  ⟨by rw [m.live]; simp [v.pl], by rw [m.hdrO _ (hf _ v.pl)]; exact v.hdr, by rw [m.live]; simp [v.bl], by rw [m.lenO _ (hf _ v.bl)]; exact v.len, v.rows, v.cols⟩

theorem rd_pre (h : Hp α) (b cap cols : Nat) (g : Nat → Nat → α) (n s k : Nat) (hs : s ∈ h.live) (hk : k < h.len s) (hne : s ≠ b) :
    rd (pre h b cap cols g n) s k = .ok (h.dat s k) := by
  unfold rd
  rw [if_pos ⟨hs, hk⟩]
  simp [pre, hne]

/-- Elements from a list of arguments. -/
theorem setElemList_ok {h : Hp α} {p b rc cc rows cols : Nat} (v : Valid h p b rc cc rows cols) (args : List α) (ha : rows * cols ≤ args.length) :
    ∃ s, _zMatSetElemList p args h = .ok s ∧ Filled h s.1 b cc rows cols fun i j => args.getD (i * cols + j) 0 := by
  unfold _zMatSetElemList
  simp only [v.hd, Res.bind, bufOf]
  exact fillArgs h b cc rows cols args v.bl v.cols v.cell ha

theorem vecSetElemList_eq {h : Hp α} {p b rc cc cols : Nat} (v : Valid h p b rc cc 1 cols) (args : List α) : zVecSetElemVList p args h = _zMatSetElemList p args h := by
  unfold zVecSetElemVList _zMatSetElemList
  simp only [v.hd, Res.bind, bufOf, forUpM_one, Nat.zero_mul, Nat.zero_add]

/-- Copies between different buffers. -/
theorem matCopyNC_ok {h : Hp α} {p b rc cc p' b' rc' cc' rows cols : Nat} (v : Valid h p b rc cc rows cols) (w : Valid h p' b' rc' cc' rows cols) (hne : b ≠ b') :
    ∃ h', zMatCopyNC p p' h = .ok h' ∧ Filled h h' b' cc' rows cols fun i j => h.dat b (i * cc + j) := by
  unfold zMatCopyNC
  simp only [v.hd, w.hd, Res.bind, bufOf, memcpy, hne, false_and, if_false]
  exact fill h b' cc' rows cols (fun i j => h.dat b (i * cc + j)) (fun i j h => rd h b (i * cc + j)) w.bl w.cols w.cell (fun i j n hi hj => rd_pre h b' cc' cols _ n b _ v.bl (v.cell i j hi hj) hne)

theorem vecCopyNC_eq {h : Hp α} {p b rc cc p' b' rc' cc' cols : Nat} (v : Valid h p b rc cc 1 cols) (w : Valid h p' b' rc' cc' 1 cols) :
    zVecCopyNC p p' h = zMatCopyNC p p' h := by
  unfold zVecCopyNC zMatCopyNC
  simp only [v.hd, w.hd, Res.bind, bufOf, forUpM_one, Nat.zero_mul]

theorem cvecCopyNC_eq {h : Hp α} {p b rc cc p' b' rc' cc' cols : Nat} (v : Valid h p b rc cc 1 cols) (w : Valid h p' b' rc' cc' 1 cols) (hne : b ≠ b') :
    zCVecCopyNC p p' h = zMatCopyNC p p' h := by
  unfold zCVecCopyNC zMatCopyNC
  simp only [v.hd, w.hd, Res.bind, bufOf, forUpM_one, Nat.zero_mul, memcpy, hne, false_and, if_false, Nat.zero_add]

theorem cmatCopyNC_ok {h : Hp α} {p b p' b' rows cols : Nat} (v : Valid h p b rows cols rows cols) (w : Valid h p' b' rows cols rows cols) (hne : b ≠ b') :
    ∃ h', zCMatCopyNC p p' h = .ok h' ∧ Filled h h' b' cols rows cols fun i j => h.dat b (i * cols + j) := by
  unfold zCMatCopyNC
  simp only [v.hd, w.hd, bufOf]
  obtain ⟨h', e, f⟩ := fill1 h b' (rows * cols) (fun k => h.dat b k) (fun k h => rd h b k) w.bl (fun j hj => by rw [w.len]; exact hj)
    (fun j n hj => rd_pre h b' _ _ _ n b _ v.bl (by rw [v.len]; exact hj) hne)
  refine ⟨h', e, ⟨f.t, f.next, f.live, f.hdr, f.len, f.dat, ?_⟩⟩
  intro i j hj
  by_cases hi : i < rows
  · rw [if_pos ⟨hi, hj⟩]
    have hl : i * cols + j < rows * cols := by
      have h1 : (i + 1) * cols ≤ rows * cols := Nat.mul_le_mul_right cols hi
      rw [Nat.add_mul] at h1; omega
    have := f.el 0 (i * cols + j) hl
    rw [Nat.zero_mul, Nat.zero_add, if_pos ⟨Nat.one_pos, hl⟩] at this
    exact this
  · rw [if_neg (fun x => hi x.1)]
    have hpos : 0 < rows * cols ∨ rows * cols = 0 := by omega
    rcases hpos with hpos | h0
    · have hl : rows * cols ≤ i * cols := Nat.mul_le_mul_right cols (by omega)
      have := f.el ((i * cols + j) / (rows * cols)) ((i * cols + j) % (rows * cols)) (Nat.mod_lt _ hpos)
      rw [Nat.div_add_mod', if_neg] at this
      · exact this
      · rintro ⟨hlt, -⟩
        have : 1 ≤ (i * cols + j) / (rows * cols) := (Nat.one_le_div_iff hpos).2 (by omega)
        omega
    · rw [h0, forUpM_nil le_rfl] at e
      obtain rfl : h = h' := Res.ok.inj e
      rfl

theorem matTNC_ok {h : Hp α} {p b rc cc p' b' rc' cc' rows cols : Nat} (v : Valid h p b rc cc rows cols) (w : Valid h p' b' rc' cc' cols rows) (hne : b ≠ b') :
    ∃ h', zMatTNC p p' h = .ok h' ∧ Filled h h' b' cc' cols rows fun i j => h.dat b (j * cc + i) := by
  unfold zMatTNC
  simp only [v.hd, w.hd, bufOf]
  exact fill h b' cc' cols rows (fun i j => h.dat b (j * cc + i)) (fun i j h => rd h b (j * cc + i)) w.bl w.cols w.cell (fun i j n hi hj => rd_pre h b' cc' rows _ n b _ v.bl (v.cell j i hj hi) hne)

theorem matCopyArray_ok {h : Hp α} {p b rc cc rows cols : Nat} (v : Valid h p b rc cc rows cols) (a : List α) (ha : rows * cols ≤ a.length) :
    ∃ h', zMatCopyArray a rows cols p h = .ok (h', true) ∧ Filled h h' b cc rows cols fun i j => a.getD (i * cols + j) 0 := by
  unfold zMatCopyArray
  simp only [v.hd, bufOf]
  obtain ⟨h', e, f⟩ := fill h b cc rows cols (fun i j => a.getD (i * cols + j) 0) (fun i j _ => arrElem a (i * cols + j)) v.bl v.cols v.cell (by
    intro i j n hi hj
    have hlt : i * cols + j < a.length := by
      have : (i + 1) * cols ≤ rows * cols := Nat.mul_le_mul_right cols hi
      rw [Nat.add_mul] at this; omega
    simp [arrElem, List.getElem?_eq_getElem hlt])
  refine ⟨h', ?_, f⟩
  simp only [ne_eq, not_true_eq_false, or_self, if_false, Res.bind] at e ⊢
  rw [e]

theorem vecCopyArray_eq {h : Hp α} {p b rc cc cols : Nat} (v : Valid h p b rc cc 1 cols) (a : List α) : zVecCopyArray a cols p h = zMatCopyArray a 1 cols p h := by
  unfold zVecCopyArray zMatCopyArray
  simp only [v.hd, Res.bind, bufOf, forUpM_one, Nat.zero_mul, Nat.zero_add, ne_eq, not_true_eq_false, or_self, if_false]

/-! ## Objects that are made -/

/-- Memory was refused at this step. -/
def Refused (avail : Nat → Bool) (h : Hp α) : Prop := avail h.t = false ∨ avail (h.t + 1) = false

/-- Outcome of a function that makes an object. -/
def Makes (avail : Nat → Bool) (h : Hp α) (r c : Nat) (g : Nat → Nat → α) (F : Res (Option Nat × Hp α)) : Prop :=
  (∃ h', F = .ok (none, h') ∧ Same h h' ∧ (r * c = 0 ∨ Refused avail h)) ∨ (∃ h', F = .ok (some h.next, h') ∧ Made h h' h.next (h.next + 1) r c g)

theorem makes (avail : Nat → Bool) (h : Hp α) (r c : Nat) (g : Nat → Nat → α) (K : Nat → Hp α → Res (Option Nat × Hp α))
    (hK : ∀ h1, Made h h1 h.next (h.next + 1) r c (fun _ _ => 0) → ∃ h2, K h.next h1 = .ok (some h.next, h2) ∧ Filled h1 h2 (h.next + 1) c r c g) :
    Makes avail h r c g ((zMatAlloc avail r c h).bind fun x => orNull x K) := by
  rcases zMatAlloc_cases avail r c h with ⟨h', e, hs, hr⟩ | ⟨h1, e, hm⟩
  · left
    exact ⟨h', by rw [e]; rfl, hs, hr⟩
  · right
    obtain ⟨h2, e2, f⟩ := hK h1 hm
    exact ⟨h2, by rw [e]; exact e2, hm.fill f⟩

theorem alloc_makes (avail : Nat → Bool) (k : Kind) (r c : Nat) (h : Hp α) : Makes avail h (rowsOf k r) c (fun _ _ => 0) (allocK avail k r c h) := by
  have e : allocK avail k r c h = zMatAlloc avail (rowsOf k r) c h := by cases k <;> simp [allocK, rowsOf, zVecAlloc_eq]
  rw [e]
  exact zMatAlloc_cases avail _ c h

theorem create_makes (avail : Nat → Bool) (k : Kind) (r c : Nat) (args : List α) (h : Hp α) (hk : k = .vec ∨ k = .mat) (ha : rowsOf k r * c ≤ args.length) :
    Makes avail h (rowsOf k r) c (fun i j => args.getD (i * c + j) 0) (createK avail k r c args h) := by
  rcases hk with rfl | rfl
  · show Makes avail h 1 c _ (zVecCreateList avail c args h)
    unfold zVecCreateList
    rw [zVecAlloc_eq]
    refine makes avail h 1 c _ _ ?_
    intro h1 m
    obtain ⟨s, e, f⟩ := setElemList_ok m.valid args ha
    exact ⟨s.1, by rw [vecSetElemList_eq m.valid, e]; rfl, f⟩
  · show Makes avail h r c _ (zMatCreateList avail r c args h)
    unfold zMatCreateList
    refine makes avail h r c _ _ ?_
    intro h1 m
    obtain ⟨s, e, f⟩ := setElemList_ok m.valid args ha
    exact ⟨s.1, by rw [e]; rfl, f⟩

theorem cloneArray_makes (avail : Nat → Bool) (k : Kind) (r c : Nat) (a : List α) (h : Hp α) (hk : k = .vec ∨ k = .mat) (ha : rowsOf k r * c ≤ a.length) :
    Makes avail h (rowsOf k r) c (fun i j => a.getD (i * c + j) 0) (cloneArrayK avail k r c a h) := by
  rcases hk with rfl | rfl
  · show Makes avail h 1 c _ (zVecCloneArray avail a c h)
    unfold zVecCloneArray
    rw [zVecAlloc_eq]
    refine makes avail h 1 c _ _ ?_
    intro h1 m
    obtain ⟨s, e, f⟩ := matCopyArray_ok m.valid a ha
    exact ⟨s, by rw [vecCopyArray_eq m.valid, e]; rfl, f⟩
  · show Makes avail h r c _ (zMatCloneArray avail a r c h)
    unfold zMatCloneArray
    refine makes avail h r c _ _ ?_
    intro h1 m
    obtain ⟨s, e, f⟩ := matCopyArray_ok m.valid a ha
    exact ⟨s, by rw [e]; rfl, f⟩

theorem filled_congr {h h' : Hp α} {b cap rows cols : Nat} {g g' : Nat → Nat → α} (f : Filled h h' b cap rows cols g) (e : ∀ i j, i < rows → j < cols → g i j = g' i j) :
    Filled h h' b cap rows cols g' := by
  refine ⟨f.t, f.next, f.live, f.hdr, f.len, f.dat, fun i j hj => ?_⟩
  rw [f.el i j hj]
  by_cases hc : i < rows ∧ j < cols
  · rw [if_pos hc, if_pos hc]; exact e i j hc.1 hc.2
  · rw [if_neg hc, if_neg hc]

theorem clone_makes (avail : Nat → Bool) (k : Kind) {h : Hp α} {p b rc cc rows cols : Nat} (v : Valid h p b rc cc rows cols) (hf : ∀ b ∈ h.live, b < h.next)
    (hv : k = .vec ∨ k = .cvec → rows = 1) (ht : k = .cvec ∨ k = .cmat → cols = cc ∧ rows = rc) :
    Makes avail h rows cols (fun i j => h.dat b (i * cc + j)) (cloneK avail k (some p) h) := by
  have hb := hf _ v.bl
  have same : ∀ h1 : Hp α, Made h h1 h.next (h.next + 1) rows cols (fun _ _ => 0) → ∀ h2, Filled h1 h2 (h.next + 1) cols rows cols (fun i j => h1.dat b (i * cc + j)) →
      Filled h1 h2 (h.next + 1) cols rows cols (fun i j => h.dat b (i * cc + j)) := fun h1 m h2 f => filled_congr f (fun i j _ _ => by rw [m.datO b hb])
  cases k with
  | vec =>
    obtain rfl := hv (Or.inl rfl)
    show Makes avail h 1 cols _ (zVecClone avail (some p) h)
    unfold zVecClone
    simp only [v.hd, Res.bind, zVecAlloc_eq]
    refine makes avail h 1 cols _ (fun q h1 => (zVecCopyNC p q h1).bind fun h => .ok (some q, h)) ?_
    intro h1 m
    obtain ⟨h2, e, f⟩ := matCopyNC_ok (v.made m hf) m.valid (by omega)
    exact ⟨h2, by rw [vecCopyNC_eq (v.made m hf) m.valid, e]; rfl, same h1 m h2 f⟩
  | cvec =>
    obtain rfl := hv (Or.inr rfl)
    show Makes avail h 1 cols _ (zCVecClone avail (some p) h)
    unfold zCVecClone
    simp only [v.hd, Res.bind, zVecAlloc_eq]
    refine makes avail h 1 cols _ (fun q h1 => (zCVecCopyNC p q h1).bind fun h => .ok (some q, h)) ?_
    intro h1 m
    obtain ⟨h2, e, f⟩ := matCopyNC_ok (v.made m hf) m.valid (by omega)
    exact ⟨h2, by rw [cvecCopyNC_eq (v.made m hf) m.valid (by omega), e]; rfl, same h1 m h2 f⟩
  | mat =>
    show Makes avail h rows cols _ (zMatClone avail (some p) h)
    unfold zMatClone
    simp only [v.hd, Res.bind]
    refine makes avail h rows cols _ (fun q h1 => (zMatCopyNC p q h1).bind fun h => .ok (some q, h)) ?_
    intro h1 m
    obtain ⟨h2, e, f⟩ := matCopyNC_ok (v.made m hf) m.valid (by omega)
    exact ⟨h2, by rw [e]; rfl, same h1 m h2 f⟩
  | cmat =>
    obtain ⟨rfl, rfl⟩ := ht (Or.inr rfl)
    show Makes avail h rows cols _ (zCMatClone avail (some p) h)
    unfold zCMatClone
    simp only [v.hd, Res.bind]
    refine makes avail h rows cols _ (fun q h1 => (zCMatCopyNC p q h1).bind fun h => .ok (some q, h)) ?_
    intro h1 m
    obtain ⟨h2, e, f⟩ := cmatCopyNC_ok (v.made m hf) m.valid (by omega)
    exact ⟨h2, by rw [e]; rfl, same h1 m h2 f⟩

theorem tclone_makes (avail : Nat → Bool) {h : Hp α} {p b rc cc rows cols : Nat} (v : Valid h p b rc cc rows cols) (hf : ∀ b ∈ h.live, b < h.next) :
    Makes avail h cols rows (fun i j => h.dat b (j * cc + i)) (zMatTClone avail (some p) h) := by
  have hb := hf _ v.bl
  unfold zMatTClone
  simp only [v.hd, Res.bind]
  refine makes avail h cols rows _ (fun q h1 => (zMatTNC p q h1).bind fun h => .ok (some q, h)) ?_
  intro h1 m
  obtain ⟨h2, e, f⟩ := matTNC_ok (v.made m hf) m.valid (by omega)
  exact ⟨h2, by rw [e]; rfl, filled_congr f (fun i j _ _ => by rw [m.datO b hb])⟩

/-- The client after an object has been made. -/
theorem agrees_makes (avail : Nat → Bool) {s : Cl α} {a : Vals α} (g : Agrees s a) (k : Kind) (r c : Nat) (f el : Nat → Nat → α) (F : Res (Option Nat × Hp α)) (hF : Makes avail s.h r c f F)
    (he : ∀ i j, i < r → j < c → f i j = el i j) (hk : k = .vec ∨ k = .cvec → r = 1) :
    ∃ s' got, (F.bind fun x => .ok (s.add k x)) = .ok s' ∧ Agrees s' (a ++ [(k, mk got r c el)]) ∧ (got = false → Refused avail s.h) := by
  rcases hF with ⟨h', e, hs, h0 | hr⟩ | ⟨h', e, hm⟩
  · refine ⟨s.add k (none, h'), true, by rw [e]; rfl, ?_, by simp⟩
    have : mk true r c el = none := by unfold mk; rw [if_neg (by omega)]
    rw [this]
    exact agrees_add_none g k h' hs
  · refine ⟨s.add k (none, h'), false, by rw [e]; rfl, ?_, fun _ => hr⟩
    have : mk false r c el = none := by unfold mk; rw [if_neg (by simp)]
    rw [this]
    exact agrees_add_none g k h' hs
  · refine ⟨s.add k (some s.h.next, h'), true, by rw [e]; rfl, ?_, by simp⟩
    have : mk true r c el = some ⟨r, c, r, c, el⟩ := by unfold mk; rw [if_pos ⟨rfl, hm.pos⟩]
    rw [this]
    exact agrees_add_some g k hm el he hk

/-! ## Objects that change -/

theorem upd_none (a : Vals α) (x : Nat) (f : Arr α → Arr α) (h : (a.var x).2 = none) : a.upd x f = a := by
  unfold Vals.upd
  rw [h]
  apply List.ext_getElem?
  intro y
  rw [List.getElem?_set]
  by_cases e : x = y
  · subst e
    by_cases hl : x < a.length
    · rw [if_pos rfl, if_pos hl]
      have : a.var x = a[x] := by unfold Vals.var; simp [hl]
      rw [List.getElem?_eq_getElem hl, ← this]
      exact congrArg some (Prod.ext rfl h.symm)
    · rw [if_pos rfl, if_neg hl, List.getElem?_eq_none (by omega)]
  · rw [if_neg e]

theorem upd_some (a : Vals α) (x : Nat) (f : Arr α → Arr α) (A : Arr α) (h : (a.var x).2 = some A) : a.upd x f = a.set x ((a.var x).1, some (f A)) := by
  unfold Vals.upd
  rw [h]
  rfl

theorem agrees_fill {s : Cl α} {a : Vals α} (g : Agrees s a) (x p : Nat) (A : Arr α) (hx : (s.var x).2 = some p) (hA : (a.var x).2 = some A) (h' : Hp α) (f el : Nat → Nat → α)
    (hf : Filled s.h h' (buf s.h p) A.ccap A.rows A.cols f) (he : ∀ i j, i < A.rcap → j < A.ccap → el i j = if i < A.rows ∧ j < A.cols then f i j else A.el i j) (F : Arr α → Arr α)
    (hF : F A = { A with el := el }) : Agrees { s with h := h' } (a.upd x F) := by
  rw [upd_some a x F A hA, hF]
  have v := g.val x p A hx hA
  have eb : buf h' p = buf s.h p := by unfold buf; rw [hf.hdr]
  refine agrees_set g x p _ h' hx hf.live hf.next (fun q _ => by rw [hf.hdr]) eb hf.len hf.dat ?_
  refine ⟨by rw [eb, hf.hdr]; exact v.hdr, by rw [eb, hf.len]; exact v.len, fun i j hi hj => ?_, v.rows, v.cols, v.vec, v.tight, v.pos⟩
  rw [eb]
  refine (hf.el i j hj).trans ?_
  show _ = el i j
  rw [he i j hi hj]
  by_cases hc : i < A.rows ∧ j < A.cols
  · rw [if_pos hc, if_pos hc]
  · rw [if_neg hc, if_neg hc]; exact v.el i j hi hj

/-- One cell is written. -/
theorem set_filled (h : Hp α) (b cc rows cols i j : Nat) (x : α) (hi : i < rows) (hj : j < cols) (hc : cols ≤ cc) :
    Filled h { h with dat := fun b' k' => if b' = b ∧ k' = i * cc + j then x else h.dat b' k' } b cc rows cols
      (fun i' j' => if i' = i ∧ j' = j then x else h.dat b (i' * cc + j')) := by
  refine ⟨rfl, rfl, rfl, rfl, rfl, fun b' hb => ?_, fun i' j' hj' => ?_⟩
  · funext k; dsimp only; rw [if_neg (fun e => hb e.1)]
  · dsimp only
    by_cases e : i' * cc + j' = i * cc + j
    · obtain ⟨rfl, rfl⟩ := cell_inj (by omega) hj' e
      rw [if_pos ⟨rfl, rfl⟩, if_pos ⟨hi, hj⟩, if_pos ⟨rfl, rfl⟩]
    · rw [if_neg (fun c => e c.2)]
      by_cases h1 : i' < rows ∧ j' < cols
      · rw [if_pos h1, if_neg]
        rintro ⟨rfl, rfl⟩
        exact e rfl
      · rw [if_neg h1]

theorem copy_filled {s : Cl α} {a : Vals α} (g : Agrees s a) (x y p q : Nat) (A B : Arr α) (hxy : x ≠ y) (hk : (s.var x).1 = (s.var y).1)
    (hx : (s.var x).2 = some p) (hy : (s.var y).2 = some q) (hA : (a.var x).2 = some A) (hB : (a.var y).2 = some B) :
    (A.rows = B.rows ∧ A.cols = B.cols ∧ ∃ h', copyK (s.var x).1 p q s.h = .ok (h', true) ∧
      Filled s.h h' (buf s.h q) B.ccap B.rows B.cols fun i j => s.h.dat (buf s.h p) (i * A.ccap + j)) ∨
    (¬ (A.rows = B.rows ∧ A.cols = B.cols) ∧ copyK (s.var x).1 p q s.h = .ok (s.h, false)) := by
  have v := g.valid x p A hx hA
  have w := g.valid y q B hy hB
  have iv := g.val x p A hx hA
  have iw := g.val y q B hy hB
  have hne := (g.disj x y p q hxy hx hy).2.2
  by_cases he : A.rows = B.rows ∧ A.cols = B.cols
  · left
    refine ⟨he.1, he.2, ?_⟩
    rw [he.1, he.2] at v
    cases k : (s.var x).1 with
    | vec =>
      have e1 := (iw.vec (Or.inl (hk ▸ k))).1
      rw [e1] at v w ⊢
      obtain ⟨h', e, f⟩ := matCopyNC_ok v w hne
      refine ⟨h', ?_, f⟩
      simp only [copyK, zVecCopy, v.hd, w.hd, Res.bind, if_true, vecCopyNC_eq v w, e]
    | cvec =>
      have e1 := (iw.vec (Or.inr (hk ▸ k))).1
      rw [e1] at v w ⊢
      obtain ⟨h', e, f⟩ := matCopyNC_ok v w hne
      refine ⟨h', ?_, f⟩
      simp only [copyK, zCVecCopy, v.hd, w.hd, Res.bind, if_true, cvecCopyNC_eq v w hne, e]
    | mat =>
      obtain ⟨h', e, f⟩ := matCopyNC_ok v w hne
      refine ⟨h', ?_, f⟩
      simp only [copyK, zMatCopy, v.hd, w.hd, Res.bind, and_self, if_true, e]
    | cmat =>
      obtain ⟨t1, t2⟩ := iv.tight (Or.inr k)
      obtain ⟨t3, t4⟩ := iw.tight (Or.inr (hk ▸ k))
      rw [← t1, ← t2, he.1, he.2] at v
      rw [← t3, ← t4] at w
      obtain ⟨h', e, f⟩ := cmatCopyNC_ok v w hne
      refine ⟨h', ?_, ?_⟩
      · simp only [copyK, zCMatCopy, v.hd, w.hd, Res.bind, and_self, if_true, e]
      · rw [← t1, he.2, ← t3]; exact f
  · right
    refine ⟨he, ?_⟩
    cases k : (s.var x).1 with
    | vec =>
      have e1 := (iv.vec (Or.inl k)).1
      have e2 := (iw.vec (Or.inl (hk ▸ k))).1
      simp only [copyK, zVecCopy, v.hd, w.hd, Res.bind, if_neg (show ¬ A.cols = B.cols from fun e => he ⟨e1.trans e2.symm, e⟩)]
    | cvec =>
      have e1 := (iv.vec (Or.inr k)).1
      have e2 := (iw.vec (Or.inr (hk ▸ k))).1
      simp only [copyK, zCVecCopy, v.hd, w.hd, Res.bind, if_neg (show ¬ A.cols = B.cols from fun e => he ⟨e1.trans e2.symm, e⟩)]
    | mat => simp only [copyK, zMatCopy, v.hd, w.hd, Res.bind, if_neg he]
    | cmat => simp only [copyK, zCMatCopy, v.hd, w.hd, Res.bind, if_neg he]

/-- The sizes of an object change within its capacities. -/
theorem agrees_resize {s : Cl α} {a : Vals α} (g : Agrees s a) (x p : Nat) (A : Arr α) (hx : (s.var x).2 = some p) (hA : (a.var x).2 = some A) (r c : Nat) (hr : r ≤ A.rcap) (hc : c ≤ A.ccap)
    (hv : (s.var x).1 = .vec → r = 1) (hk : (s.var x).1 = .vec ∨ (s.var x).1 = .mat) (F : Arr α → Arr α) (hF : F A = { A with rows := r, cols := c }) (f : Nat → Hdr)
    (hp : f p = ⟨some (buf s.h p), A.rcap, A.ccap, r, c⟩) (ho : ∀ q, q ≠ p → f q = s.h.hdr q) : Agrees { s with h := { s.h with hdr := f } } (a.upd x F) := by
  rw [upd_some a x F A hA, hF]
  have v := g.val x p A hx hA
  have eb : buf ({ s.h with hdr := f } : Hp α) p = buf s.h p := by
    show ((f p).buf).getD p = _
    rw [hp]
    rfl
  refine agrees_set g x p _ _ hx rfl rfl ho eb rfl (fun _ _ => rfl) ?_
  refine ⟨by rw [eb]; exact hp, by rw [eb]; exact v.len, fun i j hi hj => by rw [eb]; exact v.el i j hi hj, hr, hc, fun h => ?_, fun h => ?_, v.pos⟩
  · rcases h with h | h
    · exact ⟨hv h, (v.vec (Or.inl h)).2⟩
    · rcases hk with e | e <;> simp [e] at h
  · rcases hk with e | e <;> simp [e] at h

theorem cl_set (vars : List (Kind × Option Nat)) (h h' : Hp α) (k : Kind) (x y : Nat) (hx : x < vars.length) :
    (⟨vars.set x (k, none), h'⟩ : Cl α).var y = if y = x then (k, none) else (⟨vars, h⟩ : Cl α).var y := by
  unfold Cl.var
  simp only [List.getD_eq_getElem?_getD, List.getElem?_set]
  by_cases e : y = x
  · subst e; simp [hx]
  · simp [e, Ne.symm e]

/-- An object is released. -/
theorem agrees_free {s : Cl α} {a : Vals α} (g : Agrees s a) (x : Nat) :
    ∃ h', zMatFree s.h (s.var x).2 = .ok h' ∧ Agrees ⟨s.vars.set x ((s.var x).1, none), h'⟩ (a.set x ((a.var x).1, none)) := by
  cases hx : (s.var x).2 with
  | none =>
    have hA := (g.null x).1 hx
    refine ⟨s.h, rfl, ?_⟩
    have e1 : a.set x ((a.var x).1, none) = a := by
      have := upd_none a x id hA
      unfold Vals.upd at this
      rw [hA] at this
      exact this
    have e2 : s.vars.set x ((s.var x).1, none) = s.vars := by
      apply List.ext_getElem?
      intro y
      rw [List.getElem?_set]
      by_cases e : x = y
      · subst e
        by_cases hl : x < s.vars.length
        · rw [if_pos rfl, if_pos hl]
          have : s.var x = s.vars[x] := by unfold Cl.var; simp [hl]
          rw [List.getElem?_eq_getElem hl, ← this]
          exact congrArg some (Prod.ext rfl hx.symm)
        · rw [if_pos rfl, if_neg hl, List.getElem?_eq_none (by omega)]
      · rw [if_neg e]
    rw [e1, e2]
    exact g
  | some p =>
    have hl := var_lt s x p hx
    obtain ⟨A, hA⟩ : ∃ A, (a.var x).2 = some A := by
      cases h : (a.var x).2 with
      | none => exact absurd ((g.null x).2 h) (by rw [hx]; simp)
      | some A => exact ⟨A, rfl⟩
    have v := g.valid x p A hx hA
    obtain ⟨o1, o2, o3⟩ := g.own x p hx
    have hm : p ∈ s.h.live.erase (buf s.h p) := (List.mem_erase_of_ne o3).2 o1
    refine ⟨{ s.h with live := (s.h.live.erase (buf s.h p)).erase p }, ?_, ?_⟩
    · simp only [zMatFree, v.hd, Res.bind, free?, free, if_pos o2, if_pos hm]
    have memIff : ∀ b, b ∈ (s.h.live.erase (buf s.h p)).erase p ↔ b ∈ s.h.live ∧ b ≠ p ∧ b ≠ buf s.h p := by
      intro b
      rw [(g.nodup.erase _).mem_erase_iff, g.nodup.mem_erase_iff]
      tauto
    have vy : ∀ y q, ((⟨s.vars.set x ((s.var x).1, none), { s.h with live := (s.h.live.erase (buf s.h p)).erase p }⟩ : Cl α).var y).2 = some q → y ≠ x ∧ (s.var y).2 = some q := by
      intro y q hy
      rw [cl_set s.vars s.h _ _ x y hl] at hy
      by_cases e : y = x
      · rw [if_pos e] at hy; cases hy
      · rw [if_neg e] at hy; exact ⟨e, hy⟩
    refine ⟨by simp [g.length], ?_, ?_, ?_, ?_, ?_, ?_, (g.nodup.erase _).erase _, fun b hb => g.fresh b ((memIff b).1 hb).1⟩
    · intro y
      rw [cl_set s.vars s.h _ _ x y hl, vals_set _ _ _ _ (g.length ▸ hl)]
      by_cases e : y = x
      · rw [if_pos e, if_pos e]; exact g.kind x
      · rw [if_neg e, if_neg e]; exact g.kind y
    · intro y
      rw [cl_set s.vars s.h _ _ x y hl, vals_set _ _ _ _ (g.length ▸ hl)]
      by_cases e : y = x
      · rw [if_pos e, if_pos e]; exact ⟨fun _ => rfl, fun _ => rfl⟩
      · rw [if_neg e, if_neg e]; exact g.null y
    · intro y q B hy hB
      obtain ⟨hne, hy'⟩ := vy y q hy
      rw [vals_set _ _ _ _ (g.length ▸ hl), if_neg hne] at hB
      rw [cl_set s.vars s.h _ _ x y hl, if_neg hne]
      exact (g.val y q B hy' hB).of_eq rfl rfl rfl
    · intro y q hy
      obtain ⟨hne, hy'⟩ := vy y q hy
      obtain ⟨w1, w2, w3⟩ := g.own y q hy'
      obtain ⟨d1, d2, d3⟩ := g.disj y x q p hne hy' hx
      obtain ⟨d4, d5, d6⟩ := g.disj x y p q (Ne.symm hne) hx hy'
      exact ⟨(memIff q).2 ⟨w1, d1, d2⟩, (memIff _).2 ⟨w2, Ne.symm d5, d3⟩, w3⟩
    · intro y z q q' hne hy hz
      exact g.disj y z q q' hne (vy y q hy).2 (vy z q' hz).2
    · intro b hb
      obtain ⟨b1, b2, b3⟩ := (memIff b).1 hb
      obtain ⟨y, q, hy, hq⟩ := g.all b b1
      have hne : y ≠ x := by
        rintro rfl
        obtain rfl : p = q := Option.some.inj (hx.symm.trans hy)
        tauto
      exact ⟨y, q, by rw [cl_set s.vars s.h _ _ x y hl, if_neg hne]; exact hy, hq⟩

/-! ## Histories -/

/-- C232: one step of a client changes the values as the specification says, and memory is denied only where it was refused. -/
theorem step_ok (avail : Nat → Bool) {s : Cl α} {a : Vals α} (g : Agrees s a) (o : Op α) (hf : Fits a o) :
    ∃ s' got, step avail s o = .ok s' ∧ Agrees s' (specStep got a o) ∧ (got = false → Refused avail s.h) := by
  have other : ∀ x p, (s.var x).2 = some p → ∃ A, (a.var x).2 = some A := by
    intro x p hx
    cases h : (a.var x).2 with
    | none => exact absurd ((g.null x).2 h) (by rw [hx]; simp)
    | some A => exact ⟨A, rfl⟩
  cases o with
  | alloc k r c => exact agrees_makes avail g k (rowsOf k r) c _ _ _ (alloc_makes avail k r c s.h) (fun _ _ _ _ => rfl) (fun h => by unfold rowsOf; rw [if_pos h])
  | create k r c args =>
    by_cases hk : k = .vec ∨ k = .mat
    · have := agrees_makes avail g k (rowsOf k r) c _ _ _ (create_makes avail k r c args s.h hk hf) (fun _ _ _ _ => rfl) (fun h => by unfold rowsOf; rw [if_pos h])
      simp only [specStep, if_pos hk]
      exact this
    · refine ⟨s.add k (none, s.h), true, ?_, ?_, by simp⟩
      · cases k <;> simp at hk <;> rfl
      · simp only [specStep, if_neg hk]
        exact agrees_add_none g k s.h ⟨rfl, le_rfl, fun _ _ => rfl, fun _ _ => rfl, fun _ _ => rfl⟩
  | cloneArray k r c l =>
    by_cases hk : k = .vec ∨ k = .mat
    · have := agrees_makes avail g k (rowsOf k r) c _ _ _ (cloneArray_makes avail k r c l s.h hk hf) (fun _ _ _ _ => rfl) (fun h => by unfold rowsOf; rw [if_pos h])
      simp only [specStep, if_pos hk]
      exact this
    · refine ⟨s.add k (none, s.h), true, ?_, ?_, by simp⟩
      · cases k <;> simp at hk <;> rfl
      · simp only [specStep, if_neg hk]
        exact agrees_add_none g k s.h ⟨rfl, le_rfl, fun _ _ => rfl, fun _ _ => rfl, fun _ _ => rfl⟩
  | clone x =>
    simp only [step, specStep]
    rw [← g.kind x]
    cases hx : (s.var x).2 with
    | none =>
      rw [(g.null x).1 hx]
      refine ⟨s.add (s.var x).1 (none, s.h), true, ?_, agrees_add_none g _ s.h ⟨rfl, le_rfl, fun _ _ => rfl, fun _ _ => rfl, fun _ _ => rfl⟩, by simp⟩
      cases (s.var x).1 <;> rfl
    | some p =>
      obtain ⟨A, hA⟩ := other x p hx
      have v := g.val x p A hx hA
      rw [hA]
      exact agrees_makes avail g _ A.rows A.cols _ _ _ (clone_makes avail _ (g.valid x p A hx hA) g.fresh (fun h => (v.vec h).1) v.tight)
        (fun i j hi hj => v.el i j (by have := v.rows; omega) (by have := v.cols; omega)) (fun h => (v.vec h).1)
  | tclone x =>
    simp only [step, specStep]
    rw [← g.kind x]
    by_cases hk : (s.var x).1 = .mat
    · simp only [if_pos hk]
      cases hx : (s.var x).2 with
      | none =>
        rw [(g.null x).1 hx]
        exact ⟨s.add .mat (none, s.h), true, rfl, agrees_add_none g _ s.h ⟨rfl, le_rfl, fun _ _ => rfl, fun _ _ => rfl, fun _ _ => rfl⟩, by simp⟩
      | some p =>
        obtain ⟨A, hA⟩ := other x p hx
        have v := g.val x p A hx hA
        rw [hA]
        exact agrees_makes avail g .mat A.cols A.rows _ _ _ (tclone_makes avail (g.valid x p A hx hA) g.fresh)
          (fun i j hi hj => v.el j i (by have := v.rows; omega) (by have := v.cols; omega)) (fun h => by simp at h)
    · simp only [if_neg hk]
      exact ⟨s, true, rfl, g, by simp⟩
  | setList x args =>
    simp only [step, specStep]
    rw [← g.kind x]
    cases hx : (s.var x).2 with
    | none =>
      refine ⟨s, true, rfl, ?_, by simp⟩
      by_cases hk : (s.var x).1 = .vec ∨ (s.var x).1 = .mat
      · rw [if_pos hk, upd_none _ _ _ ((g.null x).1 hx)]; exact g
      · rw [if_neg hk]; exact g
    | some p =>
      obtain ⟨A, hA⟩ := other x p hx
      have v := g.val x p A hx hA
      have w := g.valid x p A hx hA
      by_cases hk : (s.var x).1 = .vec ∨ (s.var x).1 = .mat
      · rw [if_pos hk]
        obtain ⟨t, e, f⟩ := setElemList_ok w args (hf A hA)
        refine ⟨{ s with h := t.1 }, true, ?_, agrees_fill g x p A hx hA t.1 _ _ f (fun i j _ _ => rfl) _ rfl, by simp⟩
        rcases hk with hk | hk
        · rw [(v.vec (Or.inl hk)).1] at w
          simp only [hk, setListK, zVecSetElemList, vecSetElemList_eq w, e, Res.bind]
        · simp only [hk, setListK, zMatSetElemList, e, Res.bind]
      · rw [if_neg hk]
        refine ⟨s, true, ?_, g, by simp⟩
        cases hk' : (s.var x).1 <;> simp [hk'] at hk <;> rfl
  | set x i j v =>
    simp only [step, specStep]
    cases hx : (s.var x).2 with
    | none => exact ⟨s, true, rfl, by rw [upd_none _ _ _ ((g.null x).1 hx)]; exact g, by simp⟩
    | some p =>
      obtain ⟨A, hA⟩ := other x p hx
      have w := g.valid x p A hx hA
      have vl := g.val x p A hx hA
      simp only [zMatSetElem, w.hd, Res.bind]
      by_cases hc : i < A.rows ∧ j < A.cols
      · rw [if_pos hc]
        simp only [bufOf, wr, if_pos (show buf s.h p ∈ s.h.live ∧ i * A.ccap + j < s.h.len (buf s.h p) from ⟨w.bl, w.cell i j hc.1 hc.2⟩)]
        refine ⟨_, true, rfl, agrees_fill g x p A hx hA _ _ _ (set_filled s.h (buf s.h p) A.ccap A.rows A.cols i j v hc.1 hc.2 w.cols) ?_ _ rfl, by simp⟩
        intro i' j' hi' hj'
        by_cases e : i' = i ∧ j' = j
        · rw [if_pos ⟨hc.1, hc.2, e.1, e.2⟩, if_pos (by rw [e.1, e.2]; exact hc), if_pos e]
        · rw [if_neg (fun h => e h.2.2), if_neg e, vl.el i' j' hi' hj', ite_self]
      · rw [if_neg hc]
        refine ⟨s, true, rfl, ?_, by simp⟩
        have hm : ({ A with el := fun i' j' => if i < A.rows ∧ j < A.cols ∧ i' = i ∧ j' = j then v else A.el i' j' } : Arr α) = A := by
          cases A with
          | mk rc cc r c el =>
            dsimp only at hc ⊢
            congr 1
            funext i' j'
            rw [if_neg (fun h => hc ⟨h.1, h.2.1⟩)]
        rw [upd_some _ _ _ A hA, hm]
        exact agrees_set g x p A s.h hx rfl rfl (fun _ _ => rfl) rfl rfl (fun _ _ => rfl) vl
  | copy x y =>
    simp only [step, specStep]
    rw [← g.kind x, ← g.kind y]
    by_cases hc : x = y ∨ (s.var x).1 ≠ (s.var y).1
    · rw [if_pos hc, if_neg (fun h => by rcases hc with e | e; exact h.1 e; exact e h.2)]
      exact ⟨s, true, rfl, g, by simp⟩
    · rw [if_neg hc, if_pos (by push Not at hc; exact hc)]
      push Not at hc
      cases hy : (s.var y).2 with
      | none =>
        refine ⟨s, true, ?_, by rw [upd_none _ _ _ ((g.null y).1 hy)]; exact g, by simp⟩
        cases (s.var x).2 <;> rfl
      | some q =>
        obtain ⟨B, hB⟩ := other y q hy
        have same : Agrees s (a.set y ((a.var y).1, some B)) := agrees_set g y q B s.h hy rfl rfl (fun _ _ => rfl) rfl rfl (fun _ _ => rfl) (g.val y q B hy hB)
        cases hx : (s.var x).2 with
        | none =>
          refine ⟨s, true, rfl, ?_, by simp⟩
          rw [(g.null x).1 hx, upd_some _ _ _ B hB]
          exact same
        | some p =>
          obtain ⟨A, hA⟩ := other x p hx
          have v := g.val x p A hx hA
          have w := g.val y q B hy hB
          rcases copy_filled g x y p q A B hc.1 hc.2 hx hy hA hB with ⟨e1, e2, h', e, f⟩ | ⟨hne, e⟩
          · refine ⟨{ s with h := h' }, true, by simp only [e, Res.bind], ?_, by simp⟩
            rw [hA]
            refine agrees_fill g y q B hy hB h' _ (fun i j => if i < B.rows ∧ j < B.cols then A.el i j else B.el i j) f ?_ _ ?_
            · intro i j hi hj
              by_cases h1 : i < B.rows ∧ j < B.cols
              · rw [if_pos h1, if_pos h1]
                exact (v.el i j (by have := v.rows; omega) (by have := v.cols; omega)).symm
              · rw [if_neg h1, if_neg h1]
            · simp only [Option.map_some, Option.getD_some, if_pos (And.intro e1 e2)]
          · refine ⟨s, true, by simp only [e, Res.bind], ?_, by simp⟩
            rw [hA, upd_some _ _ _ B hB]
            simp only [Option.map_some, Option.getD_some, if_neg hne]
            exact same
  | resize x r c =>
    simp only [step, specStep]
    rw [← g.kind x]
    cases hx : (s.var x).2 with
    | none =>
      refine ⟨s, true, rfl, ?_, by simp⟩
      by_cases h1 : (s.var x).1 = .vec
      · rw [if_pos h1, upd_none _ _ _ ((g.null x).1 hx)]; exact g
      · rw [if_neg h1]
        by_cases h2 : (s.var x).1 = .mat
        · rw [if_pos h2, upd_none _ _ _ ((g.null x).1 hx)]; exact g
        · rw [if_neg h2]; exact g
    | some p =>
      obtain ⟨A, hA⟩ := other x p hx
      have w := g.valid x p A hx hA
      have vl := g.val x p A hx hA
      by_cases h1 : (s.var x).1 = .vec
      · rw [if_pos h1]
        refine ⟨{ s with h := { s.h with hdr := fun q => if q = p then (if c ≤ A.ccap then ⟨some (buf s.h p), A.rcap, A.ccap, A.rows, c⟩ else ⟨some (buf s.h p), A.rcap, A.ccap, A.rows, A.cols⟩) else s.h.hdr q } },
          true, ?_, ?_, by simp⟩
        · simp only [h1, resizeK, zMatColResize, w.hd, Res.bind]
        · refine agrees_resize g x p A hx hA A.rows (if c ≤ A.ccap then c else A.cols) w.rows ?_ (fun h => (vl.vec (Or.inl h)).1) (Or.inl h1) _ rfl _ ?_ (fun q hq => if_neg hq)
          · split
            · assumption
            · exact w.cols
          · rw [if_pos rfl]; split <;> rfl
      · rw [if_neg h1]
        by_cases h2 : (s.var x).1 = .mat
        · rw [if_pos h2]
          refine ⟨{ s with h := { s.h with hdr := fun q => if q = p then ⟨some (buf s.h p), A.rcap, A.ccap, if r ≤ A.rcap then r else A.rows, if c ≤ A.ccap then c else A.cols⟩ else s.h.hdr q } },
            true, ?_, ?_, by simp⟩
          · have e1 : zMatRowResize p r s.h = .ok ({ s.h with hdr := fun q => if q = p then ⟨some (buf s.h p), A.rcap, A.ccap, if r ≤ A.rcap then r else A.rows, A.cols⟩ else s.h.hdr q },
                (if r ≤ A.rcap then r else A.rows) == r) := by
              simp only [zMatRowResize, w.hd, Res.bind]
              by_cases hr : r ≤ A.rcap
              · simp only [if_pos hr]
              · simp only [if_neg hr]
            simp only [h2, resizeK, zMatResize, e1, Res.bind, zMatColResize, hd, if_pos w.pl, if_true]
            congr 3
            funext q
            by_cases hq : q = p
            · simp only [if_pos hq]
              split <;> rfl
            · simp only [if_neg hq]
          · refine agrees_resize g x p A hx hA (if r ≤ A.rcap then r else A.rows) (if c ≤ A.ccap then c else A.cols) ?_ ?_ (fun h => absurd h h1) (Or.inr h2) _ rfl _ (if_pos rfl) (fun q hq => if_neg hq)
            · split
              · assumption
              · exact w.rows
            · split
              · assumption
              · exact w.cols
        · rw [if_neg h2]
          refine ⟨s, true, ?_, g, by simp⟩
          cases hk' : (s.var x).1 with
          | vec => exact absurd hk' h1
          | mat => exact absurd hk' h2
          | cvec => rfl
          | cmat => rfl
  | free x =>
    obtain ⟨h', e, g'⟩ := agrees_free g x
    exact ⟨_, true, by simp only [step, e, Res.bind], g', by simp⟩

/-- The values after a history; `gots` says at which steps memory was given out. -/
def specRun : List (Op α) → List Bool → Vals α → Vals α
  | o :: l, b :: bs, a => specRun l bs (specStep b a o)
  | _, _, a => a

/-- The obligations of the client along a history, whether memory is given out or not. -/
def AllFit : List (Op α) → Vals α → Prop
  | [], _ => True
  | o :: l, a => Fits a o ∧ ∀ got, AllFit l (specStep got a o)

theorem run_ok (avail : Nat → Bool) (l : List (Op α)) : ∀ (s : Cl α) (a : Vals α), Agrees s a → AllFit l a →
    ∃ s' gots, run avail l s = .ok s' ∧ gots.length = l.length ∧ Agrees s' (specRun l gots a) ∧ ((∀ n, avail n = true) → ∀ b ∈ gots, b = true) := by
  induction l with
  | nil => intro s a g _; exact ⟨s, [], rfl, rfl, g, by simp⟩
  | cons o l ih =>
    intro s a g hf
    obtain ⟨s1, got, e, g1, hr⟩ := step_ok avail g o hf.1
    obtain ⟨s2, gots, e2, hl, g2, hr2⟩ := ih s1 _ g1 (hf.2 got)
    refine ⟨s2, got :: gots, by simp only [run, e, Res.bind, e2], by simp [hl], g2, ?_⟩
    intro ha b hb
    rcases List.mem_cons.1 hb with rfl | hb
    · cases h : b
      · rcases hr h with h1 | h1 <;> rw [ha] at h1 <;> cases h1
      · rfl
    · exact hr2 ha b hb

theorem agrees_empty (d : Nat → Nat → α) (hdr : Nat → Hdr) (len : Nat → Nat) (t next : Nat) : Agrees (⟨[], ⟨t, next, [], hdr, len, d⟩⟩ : Cl α) [] := by
  refine ⟨rfl, fun _ => rfl, fun _ => ⟨fun _ => rfl, fun _ => rfl⟩, ?_, ?_, ?_, ?_, List.nodup_nil, ?_⟩
  · intro x p A hx; simp [Cl.var] at hx
  · intro x p hx; simp [Cl.var] at hx
  · intro x y p q _ hx; simp [Cl.var] at hx
  · intro b hb; cases hb
  · intro b hb; cases hb

/-- C232: whatever a client does with vectors and matrices, real or complex, and whichever allocations fail, from any heap without live blocks: no undefined behaviour occurs; every variable stands
for the value which the specification computes, so that objects do not influence each other; memory is denied only where an allocation failed; and every live block belongs to a variable. -/
theorem history (avail : Nat → Bool) (l : List (Op α)) (t next : Nat) (hdr : Nat → Hdr) (len : Nat → Nat) (d : Nat → Nat → α) (hf : AllFit l ([] : Vals α)) :
    ∃ s gots, run avail l ⟨[], ⟨t, next, [], hdr, len, d⟩⟩ = .ok s ∧ gots.length = l.length ∧ Agrees s (specRun l gots []) ∧ ((∀ n, avail n = true) → ∀ b ∈ gots, b = true) :=
  run_ok avail l _ _ (agrees_empty d hdr len t next) hf

/-- C232: what a client reads from an object is the element of its value, and 0 beyond its sizes. -/
theorem elem_ok {s : Cl α} {a : Vals α} (g : Agrees s a) (x p : Nat) (A : Arr α) (hx : (s.var x).2 = some p) (hA : (a.var x).2 = some A) (i j : Nat) :
    zMatElem p i j s.h = .ok (if i < A.rows ∧ j < A.cols then A.el i j else 0) := by
  have w := g.valid x p A hx hA
  have v := g.val x p A hx hA
  unfold zMatElem
  simp only [w.hd, Res.bind, bufOf]
  by_cases hc : i < A.rows ∧ j < A.cols
  · rw [if_pos hc, if_pos hc]
    unfold rd
    rw [if_pos ⟨w.bl, w.cell i j hc.1 hc.2⟩, v.el i j (by have := v.rows; omega) (by have := v.cols; omega)]
  · rw [if_neg hc, if_neg hc]

/-- C232: when every variable is null, no block is live. -/
theorem no_leak {s : Cl α} {a : Vals α} (g : Agrees s a) (h : ∀ x, (s.var x).2 = none) : s.h.live = [] := by
  rw [List.eq_nil_iff_forall_not_mem]
  intro b hb
  obtain ⟨x, p, hx, _⟩ := g.all b hb
  rw [h x] at hx
  cases hx

theorem fold_set {β : Type*} (xs : List Nat) (f f' : Nat → Kind) (h : ∀ y ∈ xs, f y = f' y) (v : List (Kind × Option β)) :
    xs.foldl (fun v y => v.set y (f y, none)) v = xs.foldl (fun v y => v.set y (f' y, none)) v := by
  apply List.foldl_ext
  intro v y hy
  rw [h y hy]

/-- C232: `zMatFreeAtOnce` releases the objects of `n` different variables, null or not, and leaves the others as they are. -/
theorem freeAtOnce_ok : ∀ (xs : List Nat) {s : Cl α} {a : Vals α}, Agrees s a → xs.Nodup → ∀ more : List (Option Nat),
    ∃ h', zMatFreeAtOnce xs.length (xs.map (fun x => (s.var x).2) ++ more) s.h = .ok h' ∧
      Agrees ⟨xs.foldl (fun v x => v.set x ((s.var x).1, none)) s.vars, h'⟩ (xs.foldl (fun v x => v.set x ((s.var x).1, none)) a) := by
  intro xs
  induction xs with
  | nil => intro s a g _ more; exact ⟨s.h, by simp [zMatFreeAtOnce], g⟩
  | cons x xs ih =>
    intro s a g hn more
    obtain ⟨h1, e1, g1⟩ := agrees_free g x
    rw [← g.kind x] at g1
    have hx : x ∉ xs := (List.nodup_cons.1 hn).1
    have hv : ∀ y, y ∈ xs → (⟨s.vars.set x ((s.var x).1, none), h1⟩ : Cl α).var y = s.var y := by
      intro y hy
      have hne : y ≠ x := fun e => hx (e ▸ hy)
      unfold Cl.var
      simp only [List.getD_eq_getElem?_getD, List.getElem?_set]
      simp [Ne.symm hne]
    obtain ⟨h2, e2, g2⟩ := ih g1 (List.nodup_cons.1 hn).2 more
    refine ⟨h2, ?_, ?_⟩
    · simp only [List.map_cons, List.length_cons, List.cons_append, zMatFreeAtOnce, e1, Res.bind]
      rw [← e2]
      congr 2
      exact List.map_congr_left fun y hy => by rw [hv y hy]
    · have e3 := fold_set xs (fun y => ((⟨s.vars.set x ((s.var x).1, none), h1⟩ : Cl α).var y).1) (fun y => (s.var y).1) (fun y hy => by rw [hv y hy])
        (s.vars.set x ((s.var x).1, none))
      have e4 := fold_set xs (fun y => ((⟨s.vars.set x ((s.var x).1, none), h1⟩ : Cl α).var y).1) (fun y => (s.var y).1) (fun y hy => by rw [hv y hy])
        (List.set a x ((s.var x).1, none))
      simp only [List.foldl_cons]
      rw [← e3, ← e4]
      exact g2

/-- Nontrivial history: a 2×3 matrix from a list, resized to 2×2, cloned, transposed; the clone has the elements of the part in use. -/
def exOps : List (Op ℚ) := [.create .mat 2 3 [1, 2, 3, 4, 5, 6], .resize 0 2 2, .clone 0, .tclone 0, .set 1 0 1 9, .copy 1 0, .resize 0 2 3, .free 1, .alloc .cmat 1 2, .clone 3]

example : AllFit exOps [] := by
  simp only [exOps, AllFit, Fits]
  refine ⟨by decide, fun _ => ⟨trivial, fun _ => ⟨trivial, fun _ => ⟨trivial, fun _ => ⟨trivial, fun _ => ⟨trivial, fun _ => ⟨trivial, fun _ => ⟨trivial, fun _ => ⟨trivial, fun _ => ⟨trivial, fun _ => trivial⟩⟩⟩⟩⟩⟩⟩⟩⟩⟩

/-- What the client of the example reads at the end. -/
def exRead (avail : Nat → Bool) (x : Nat) : Res (List ℚ) :=
  (run avail exOps ⟨[], ⟨0, 0, [], fun _ => {}, fun _ => 0, fun _ _ => 0⟩⟩).bind fun s =>
  match (s.var x).2 with
  | none => .fail
  | some p => (zMatElem p 0 0 s.h).bind fun a => (zMatElem p 0 1 s.h).bind fun b => (zMatElem p 0 2 s.h).bind fun c =>
    (zMatElem p 1 0 s.h).bind fun d => (zMatElem p 1 1 s.h).bind fun e => .ok [a, b, c, d, e]

example : exRead (fun _ => true) 0 = .ok [1, 9, 3, 4, 5] ∧ exRead (fun _ => true) 2 = .ok [1, 4, 0, 2, 5] ∧ exRead (fun _ => true) 1 = .fail := by decide +kernel
example : exRead (fun n => n != 3) 0 = .ok [1, 2, 3, 4, 5] ∧ exRead (fun n => n != 3) 4 = .ok [0, 0, 0, 0, 0] ∧ exRead (fun n => n != 3) 1 = .fail := by decide +kernel

/-- C232 needs the restriction to different objects: copying a matrix to itself is undefined, since `memcpy` gets overlapping rows. -/
theorem zMatCopy_self : zMatCopy 0 0 (⟨2, 2, [0, 1], fun _ => ⟨some 1, 1, 1, 1, 1⟩, fun _ => 1, fun _ _ => 5⟩ : Hp ℚ) = .ub := rfl

/-- When only one of the sizes fits, `zMatResize` returns the null pointer and has set that one. -/
theorem zMatResize_half : ∃ h', zMatResize 0 1 5 (⟨2, 2, [0, 1], fun _ => ⟨some 1, 2, 2, 2, 2⟩, fun _ => 4, fun _ _ => 5⟩ : Hp ℚ) = .ok (h', false) ∧ (h'.hdr 0).rows = 1 :=
  ⟨_, rfl, by decide +kernel⟩

/-- C232: the number of rows changes if it fits into the capacity, and the answer says so unless it had that value already. -/
theorem zMatRowResize_ret {h : Hp α} {p b rc cc rows cols : Nat} (v : Valid h p b rc cc rows cols) (r : Nat) :
    ∃ h' ok, zMatRowResize p r h = .ok (h', ok) ∧ (ok = true ↔ r ≤ rc) ∧ Valid h' p b rc cc (if r ≤ rc then r else rows) cols ∧ h'.dat = h.dat := by
  have v' := v.rows
  unfold zMatRowResize
  simp only [v.hd, Res.bind]
  by_cases hr : r ≤ rc
  · simp only [if_pos hr]
    exact ⟨_, _, rfl, by simp [hr], ⟨v.pl, by simp, v.bl, v.len, hr, v.cols⟩, rfl⟩
  · simp only [if_neg hr]
    exact ⟨_, _, rfl, by simp [hr]; omega, ⟨v.pl, by simp, v.bl, v.len, v.rows, v.cols⟩, rfl⟩

/-- C232: `zMatColResize` and `zVecResize`. -/
theorem zMatColResize_ret {h : Hp α} {p b rc cc rows cols : Nat} (v : Valid h p b rc cc rows cols) (c : Nat) :
    ∃ h' ok, zMatColResize p c h = .ok (h', ok) ∧ (ok = true ↔ c ≤ cc) ∧ Valid h' p b rc cc rows (if c ≤ cc then c else cols) ∧ h'.dat = h.dat := by
  have v' := v.cols
  unfold zMatColResize
  simp only [v.hd, Res.bind]
  by_cases hr : c ≤ cc
  · simp only [if_pos hr]
    exact ⟨_, _, rfl, by simp [hr], ⟨v.pl, by simp, v.bl, v.len, v.rows, hr⟩, rfl⟩
  · simp only [if_neg hr]
    exact ⟨_, _, rfl, by simp [hr]; omega, ⟨v.pl, by simp, v.bl, v.len, v.rows, v.cols⟩, rfl⟩

/-- C232: the answer of `zMatResize`: both sizes fit; each that fits has been set, and no element has changed. -/
theorem zMatResize_ret {h : Hp α} {p b rc cc rows cols : Nat} (v : Valid h p b rc cc rows cols) (r c : Nat) :
    ∃ h' ok, zMatResize p r c h = .ok (h', ok) ∧ (ok = true ↔ r ≤ rc ∧ c ≤ cc) ∧ Valid h' p b rc cc (if r ≤ rc then r else rows) (if c ≤ cc then c else cols) ∧ h'.dat = h.dat := by
  obtain ⟨h1, ok1, e1, i1, v1, d1⟩ := zMatRowResize_ret v r
  obtain ⟨h2, ok2, e2, i2, v2, d2⟩ := zMatColResize_ret v1 c
  exact ⟨h2, ok1 && ok2, by simp only [zMatResize, e1, e2, Res.bind], by rw [Bool.and_eq_true, i1, i2], v2, d2.trans d1⟩

example : Valid (⟨2, 2, [0, 1], fun _ => ⟨some 1, 2, 2, 2, 2⟩, fun _ => 4, fun _ _ => 5⟩ : Hp ℚ) 0 1 2 2 2 2 := ⟨by simp, rfl, by simp, rfl, le_rfl, le_rfl⟩

end Zm.Obj
