import Verif.Base.Fn

/-!
# Doubly linked lists whose cells are moved or removed while they are traversed

Every other model takes a list of ZEDA for a Lean list.  Here are the loops of ZM that unlink cells of the list they run through, or join lists by hand, on the level of the pointers of the cells.
A cell and the root of a list are numbers; what a cell holds does not matter.  The macros of ZEDA are: `zListCellBind(a,b)` makes `b` the next of `a`; `zListPurge` binds the neighbours of a cell;
`zListInsertHead` puts a cell between the head and the root; `zListTail` is the next of the root, `zListHead` its previous; `zListForEach` runs from the tail along the next pointers to the root.
A loop has as many turns as its first argument allows and is `none` if these do not suffice.
-/

namespace Zm.Links

/-- The pointers of all cells and roots. -/
structure Ptrs where
  nx : Nat → Nat
  pv : Nat → Nat

/-- `zListCellBind( a, b )`. -/
def bind (m : Ptrs) (a b : Nat) : Ptrs := ⟨set1 m.nx a b, set1 m.pv b a⟩

/-- `zListInit`. -/
def init (m : Ptrs) (r : Nat) : Ptrs := bind m r r

/-- `zListPurge`. -/
def purge (m : Ptrs) (c : Nat) : Ptrs := bind m (m.pv c) (m.nx c)

/-- `zListInsertHead` on the list with the root `r`. -/
def insertHead (m : Ptrs) (r c : Nat) : Ptrs := bind (bind m c r) (m.pv r) c

/-- The loop in zm_mva_cluster.c:616-634, and, with the list of inliers as the other list, `_zRANSACSelectInlier`, zm_mva_ransac.c:47-54: a cell `c` that is not for the list `r` it is in (`dest c` is
the root of the list it is for) is moved there. -/
def moveLoop (dest : Nat → Nat) (r : Nat) : Nat → Ptrs → Nat → Option Ptrs
  | 0, _, _ => none
  | k + 1, m, cp =>
    if cp = r then some m
    else if dest cp = r then moveLoop dest r k m (m.nx cp)
    else
      let prev := m.pv cp
      let m := insertHead (purge m cp) (dest cp) cp
      moveLoop dest r k m (m.nx prev)

/-- `_zRANSACSelectInlier`, zm_mva_ransac.c:42-57. -/
def zRANSACSelectInlier (inlier sample : Nat) (pick : Nat → Bool) (fuel : Nat) (m : Ptrs) : Option Ptrs :=
  let m := init m inlier
  moveLoop (fun c => if pick c then inlier else sample) sample fuel m (m.nx sample)

/-- One sweep of `_zVecMultiClusterKMeansRecluster` through the clusters, zm_mva_cluster.c:614-635; `rs` are the roots of their lists of samples in the order of the clusters, and `dest c` is the
cluster with the nearest core, which does not change during the sweep (the distances are taken to be finite, so that there is one). -/
def sweep (dest : Nat → Nat) (fuel : Nat) : List Nat → Ptrs → Option Ptrs
  | [], m => some m
  | r :: rs, m => (moveLoop dest r fuel m (m.nx r)).bind (sweep dest fuel rs)

/-- `_zGNGRemoveAgedEdge`, zm_gng.c:266-277, on the list of edges; in the same way `_zLPMegiddoDyerDiscardConstraint`, zm_opt_lp_megiddodyer.c:505-524, on the lists of pairs. -/
def purgeLoop (old : Nat → Bool) (r : Nat) : Nat → Ptrs → Nat → Option Ptrs
  | 0, _, _ => none
  | k + 1, m, cp =>
    if cp = r then some m
    else if old cp then
      let prev := m.pv cp
      let m := purge m cp
      purgeLoop old r k m (m.nx prev)
    else purgeLoop old r k m (m.nx cp)

/-- The loop in zm_vec_list.c:126-130: all cells between `tail` and `head` are removed. -/
def purgeBetween (tail head : Nat) : Nat → Ptrs → Option Ptrs
  | 0, _ => none
  | k + 1, m => if m.nx tail = head then some m else purgeBetween tail head k (purge m (m.nx tail))

/-- The inner loop of `zRRTShortcutPath`, zm_rrt.c:417-424: as long as there is a way from `cp1` to `cp2`, the cell before `cp2` is removed. -/
def shortcutInner (free : Nat → Nat → Bool) (r cp1 : Nat) : Nat → Ptrs → Nat → Option (Ptrs × Nat)
  | 0, _, _ => none
  | k + 1, m, cp2 =>
    if cp2 = r then some (m, cp2)
    else if free cp1 cp2 then
      let m := purge m (m.pv cp2)
      shortcutInner free r cp1 k m (m.nx cp2)
    else some (m, cp2)

/-- The outer loop, zm_rrt.c:416-428. -/
def shortcutOuter (free : Nat → Nat → Bool) (r fuel : Nat) : Nat → Ptrs → Nat → Nat → Option Ptrs
  | 0, _, _, _ => none
  | k + 1, m, cp1, cp2 =>
    if cp1 = m.pv r ∨ cp2 = r then some m
    else (shortcutInner free r cp1 fuel m cp2).bind fun (m, cp2) => shortcutOuter free r fuel k m (m.pv cp2) (m.nx cp2)

/-- `zRRTShortcutPath`, zm_rrt.c:404-431, on a list of three cells or more. -/
def zRRTShortcutPath (free : Nat → Nat → Bool) (r fuel : Nat) (m : Ptrs) : Option Ptrs :=
  let cp1 := m.nx r
  shortcutOuter free r fuel fuel m cp1 (m.nx (m.nx cp1))

/-- `_zVecMultiClusterMerge`, zm_mva_cluster.c:741-754, on the lists of clusters: the cell `vc` is replaced by the cells of the list with the root `sub`. -/
def merge (m : Ptrs) (vc sub : Nat) : Ptrs :=
  let prev := m.pv vc
  let next := m.nx vc
  let m := bind m prev (m.nx sub)
  let m := bind m (m.pv sub) next
  init m sub

/-- `zSeqJump`, zm_seq.c:66-78: from the head along the previous pointers; beyond the last it is the tail. -/
def zSeqJump (m : Ptrs) (r : Nat) : Nat → Nat → Int → Option Nat
  | 0, _, _ => none
  | k + 1, cp, step => if cp = r then some (m.nx r) else if step ≤ 0 then some cp else zSeqJump m r k (m.pv cp) (step - 1)

end Zm.Links
