import Verif.Model.ObjDRC

/-!
# Model of functions that take parts out of vectors and matrices and put parts into them, of objects on a heap

Positions are natural numbers: the functions do not look for negative ones.
-/

namespace Zm.Obj
variable {K : Type*} [Field K] [LinearOrder K] [IsStrictOrderedRing K]

/-- The size that is used where the part does not fit, zm_raw_mat.c:137-144, 152-159, 167-174, 182-189: what is left from the position on. -/
def clampSize (pos part whole : Nat) : Nat := if pos + part > whole then whole - pos else part

/-- `zRawMatGetCol`, zm_raw_mat.c:91-94, from the place `i` of the matrix to the place `j` of the vector. -/
def rawGetCol (m i cap rowsize v j : Nat) (h : Hp K) : Res (Hp K) := forUpM 0 rowsize (fun k h => (rd h m (i + k * cap)).bind fun x => wr h v (j + k) x) h

/-- `zRawMatPutCol`, zm_raw_mat.c:103-106. -/
def rawPutCol (m i cap rowsize v j : Nat) (h : Hp K) : Res (Hp K) := forUpM 0 rowsize (fun k h => (rd h v (j + k)).bind fun x => wr h m (i + k * cap) x) h

/-- `zRawMatGet`, zm_raw_mat.c:135-147. -/
def rawMatGet (s : Nat) (ds : Hdr) (r c d : Nat) (dd : Hdr) (h : Hp K) : Res (Hp K) :=
  forUpM 0 (clampSize r dd.rows ds.rows) (fun i h => memcpy s (r * ds.colcap + c + i * ds.colcap) d (i * dd.colcap) (clampSize c dd.cols ds.cols) h) h

/-- `zRawMatPut`, zm_raw_mat.c:150-162. -/
def rawMatPut (d : Nat) (dd : Hdr) (r c s : Nat) (ds : Hdr) (h : Hp K) : Res (Hp K) :=
  forUpM 0 (clampSize r ds.rows dd.rows) (fun i h => memcpy s (i * ds.colcap) d (r * dd.colcap + c + i * dd.colcap) (clampSize c ds.cols dd.cols) h) h

/-- `zRawMatTGet`, zm_raw_mat.c:165-177. -/
def rawMatTGet (s : Nat) (ds : Hdr) (r c d : Nat) (dd : Hdr) (h : Hp K) : Res (Hp K) :=
  forUpM 0 (clampSize c dd.rows ds.cols) (fun i h => rawGetCol s (r * ds.colcap + c + i) ds.colcap (clampSize r dd.cols ds.rows) d (i * dd.colcap) h) h

/-- `zRawMatTPut`, zm_raw_mat.c:180-192. -/
def rawMatTPut (d : Nat) (dd : Hdr) (r c s : Nat) (ds : Hdr) (h : Hp K) : Res (Hp K) :=
  forUpM 0 (clampSize c ds.rows dd.cols) (fun i h => rawPutCol d (r * dd.colcap + c + i) dd.colcap (clampSize r ds.cols dd.rows) s (i * ds.colcap) h) h

/-- The functions, from a source to a destination. -/
inductive Part
  | get (r c : Nat) | tget (r c : Nat) | put (r c : Nat) | tput (r c : Nat)
  | vget (pos : Nat) | vput (pos : Nat)
  | getRow (k : Nat) | getCol (k : Nat) | putRow (k : Nat) | putCol (k : Nat)
deriving DecidableEq

/-- The checks, zm_mat.c:210-211, 228-229, 246-247, 264-265, 289, 293, 303, 307, 331, 335, 345, 349; zm_vec.c:149, 166; `true` is a refusal. -/
def partRefuses (f : Part) (ds dd : Hdr) : Prop :=
  match f with
  | .get r c => r + dd.rows > ds.rows ∨ c + dd.cols > ds.cols
  | .tget r c => r + dd.cols > ds.rows ∨ c + dd.rows > ds.cols
  | .put r c => r + ds.rows > dd.rows ∨ c + ds.cols > dd.cols
  | .tput r c => r + ds.cols > dd.rows ∨ c + ds.rows > dd.cols
  | .vget pos => pos + dd.cols > ds.cols
  | .vput pos => pos + ds.cols > dd.cols
  | .getRow k => ds.cols ≠ dd.cols ∨ k ≥ ds.rows
  | .getCol k => ds.rows ≠ dd.cols ∨ k ≥ ds.cols
  | .putRow k => dd.cols ≠ ds.cols ∨ k ≥ dd.rows
  | .putCol k => dd.rows ≠ ds.cols ∨ k ≥ dd.cols
instance (f : Part) (ds dd : Hdr) : Decidable (partRefuses f ds dd) := by cases f <;> unfold partRefuses <;> infer_instance

/-- `zMatGetNC`, `zMatTGetNC`, `zMatPutNC`, `zMatTPutNC`, `zMatGetRowNC`, `zMatGetColNC`, `zMatPutRowNC`, `zMatPutColNC`, zm_mat.c:201-326; `zVecGetNC`, `zVecPutNC`,
zm_vec.c:140-161; rows are copied by `memcpy`, zm_raw_vec.h:35-46, zm_raw_mat.c:85-100. -/
def partNC (f : Part) (ds dd : Hdr) (h : Hp K) : Res (Hp K) :=
  (bufOf ds).bind fun s => (bufOf dd).bind fun d =>
  match f with
  | .get r c => rawMatGet s ds r c d dd h
  | .tget r c => rawMatTGet s ds r c d dd h
  | .put r c => rawMatPut d dd r c s ds h
  | .tput r c => rawMatTPut d dd r c s ds h
  | .vget pos => memcpy s pos d 0 dd.cols h
  | .vput pos => memcpy s 0 d pos ds.cols h
  | .getRow k => memcpy s (k * ds.colcap) d 0 ds.cols h
  | .getCol k => rawGetCol s k ds.colcap ds.rows d 0 h
  | .putRow k => memcpy s 0 d (k * dd.colcap) dd.cols h
  | .putCol k => rawPutCol d k dd.colcap dd.rows s 0 h

/-- `zMatGet`, `zMatTGet`, `zMatPut`, `zMatTPut`, `zMatGetRow`, `zMatGetCol`, `zMatPutRow`, `zMatPutCol`, zm_mat.c:208-354; `zVecGet`, `zVecPut`, zm_vec.c:147-171. -/
def part (f : Part) (ps pd : Nat) (h : Hp K) : Res (Hp K × Bool) :=
  (hd h ps).bind fun ds => (hd h pd).bind fun dd =>
  if partRefuses f ds dd then .ok (h, false) else (partNC f ds dd h).bind fun h => .ok (h, true)

/-- `zMatSwapRow`, zm_mat.c:357-371, through `zRawMatSwapRow`, zm_raw_mat.c:109-120. -/
def zMatSwapRow (m r1 r2 : Nat) (h : Hp K) : Res (Hp K × Bool) :=
  (hd h m).bind fun d =>
  if r1 ≥ d.rows ∨ r2 ≥ d.rows then .ok (h, false)
  else (bufOf d).bind fun b =>
    (forUpM 0 d.cols (fun j h => (rd h b (r1 * d.colcap + j)).bind fun tmp => (rd h b (r2 * d.colcap + j)).bind fun x =>
      (wr h b (r1 * d.colcap + j) x).bind fun h => wr h b (r2 * d.colcap + j) tmp) h).bind fun h => .ok (h, true)

/-- `zMatSwapCol`, zm_mat.c:374-388, through `zRawMatSwapCol`, zm_raw_mat.c:123-132. -/
def zMatSwapCol (m c1 c2 : Nat) (h : Hp K) : Res (Hp K × Bool) :=
  (hd h m).bind fun d =>
  if c1 ≥ d.cols ∨ c2 ≥ d.cols then .ok (h, false)
  else (bufOf d).bind fun b =>
    (forUpM 0 d.rows (fun i h => (rd h b (i * d.colcap + c1)).bind fun tmp => (rd h b (i * d.colcap + c2)).bind fun x =>
      (wr h b (i * d.colcap + c1) x).bind fun h => wr h b (i * d.colcap + c2) tmp) h).bind fun h => .ok (h, true)

/-- What a client may do: what is in `DOp`, and the functions on parts. -/
inductive POp (K : Type*)
  | base (o : DOp K)
  | part (f : Part) (x z : Nat)
  | swapRow (x r1 r2 : Nat)
  | swapCol (x c1 c2 : Nat)

/-- The classes of source and destination in the prototypes. -/
def partKinds (f : Part) : Kind × Kind :=
  match f with
  | .get _ _ | .tget _ _ | .put _ _ | .tput _ _ => (.mat, .mat)
  | .vget _ | .vput _ => (.vec, .vec)
  | .getRow _ | .getCol _ => (.mat, .vec)
  | .putRow _ | .putCol _ => (.vec, .mat)

/-- One step. -/
def pstep (tol : K) (avail : Nat → Bool) (s : Cl K) (o : POp K) : Res (Cl K) :=
  match o with
  | .base o => dstep tol avail s o
  | .part f x z =>
    if (s.var x).1 = (partKinds f).1 ∧ (s.var z).1 = (partKinds f).2 then
      match (s.var x).2, (s.var z).2 with
      | some p, some q => (part f p q s.h).bind fun a => .ok { s with h := a.1 }
      | _, _ => .ok s
    else .ok s
  | .swapRow x r1 r2 =>
    if (s.var x).1 = .mat then
      match (s.var x).2 with
      | some p => (zMatSwapRow p r1 r2 s.h).bind fun a => .ok { s with h := a.1 }
      | none => .ok s
    else .ok s
  | .swapCol x c1 c2 =>
    if (s.var x).1 = .mat then
      match (s.var x).2 with
      | some p => (zMatSwapCol p c1 c2 s.h).bind fun a => .ok { s with h := a.1 }
      | none => .ok s
    else .ok s

/-- A history. -/
def prun (tol : K) (avail : Nat → Bool) : List (POp K) → Cl K → Res (Cl K)
  | [], s => .ok s
  | o :: l, s => (pstep tol avail s o).bind fun s => prun tol avail l s

end Zm.Obj
