import Verif.Model.Graph

/-! # Memory of graphs (zm_graph.c, zm_graph_search.c)

The blocks are counted: a node (its cell), the data of a node, an arc and a cell of a list of nodes is one block each.  Which allocations succeed is arbitrary while the graph is built; in the
searches they succeed.  `dup` allocates one block for the data, which may fail, and `destroy` releases it. -/

namespace Zm.GraphMem
open Zm Graph

/-- The number of allocations tried so far and the number of live blocks. -/
structure Led where
  t : Nat := 0
  live : Int := 0

/-- An allocation of one block. -/
def alloc (avail : Nat → Bool) (l : Led) : Bool × Led := (avail l.t, ⟨l.t + 1, if avail l.t then l.live + 1 else l.live⟩)

/-- The release of one block. -/
def free (l : Led) : Led := { l with live := l.live - 1 }

section
variable {D K : Type*}

/-- `zGraphAddNode`, zm_graph.c:93-115: whether it succeeds, the graph and the blocks. -/
def addNode (avail : Nat → Bool) (equal : D → D → Bool) (g : List (Node D K)) (data : D) (l : Led) : Bool × List (Node D K) × Led :=
  if g.any fun n => equal n.data data then (true, g, l)
  else
    let a := alloc avail l
    if !a.1 then (false, g, a.2)
    else
      let b := alloc avail a.2
      if !b.1 then (false, g, free b.2)
      else (true, g ++ [{ data := data, arc := [] }], b.2)

/-- `zGraphNodeConnect`, zm_graph.c:23-42, of the node at `src` with the one at `dest`; there is no node at `src`: undefined. -/
def nodeConnect (avail : Nat → Bool) (g : List (Node D K)) (src dest : Nat) (cost : K) (l : Led) : Res (Bool × List (Node D K) × Led) :=
  match g[src]? with
  | none => .ub
  | some n =>
    if n.arc.any fun a => a.1 = dest then .ok (true, g.set src { n with arc := n.arc.map fun a => if a.1 = dest then (dest, cost) else a }, l)
    else
      let a := alloc avail l
      if !a.1 then .ok (false, g, a.2)
      else .ok (true, g.set src { n with arc := n.arc ++ [(dest, cost)] }, a.2)

/-- `zGraphConnect`, zm_graph.c:129-137. -/
def connect (avail : Nat → Bool) (equal : D → D → Bool) (g : List (Node D K)) (src dest : D) (cost : K) (l : Led) : Res (Bool × List (Node D K) × Led) :=
  match zGraphFindNode equal g src with
  | none => .ok (false, g, l)
  | some s =>
    match zGraphFindNode equal g dest with
    | none => .ok (false, g, l)
    | some d => nodeConnect avail g s d cost l

/-- `zGraphBiconnect`, zm_graph.c:140-148, with `zGraphNodeBiconnect`, zm_graph.c:45-49: the second arc is made only if the first one could be. -/
def biconnect (avail : Nat → Bool) (equal : D → D → Bool) (g : List (Node D K)) (n1 n2 : D) (cost : K) (l : Led) : Res (Bool × List (Node D K) × Led) :=
  match zGraphFindNode equal g n1 with
  | none => .ok (false, g, l)
  | some a =>
    match zGraphFindNode equal g n2 with
    | none => .ok (false, g, l)
    | some b => (nodeConnect avail g a b cost l).bind fun r => if !r.1 then .ok r else nodeConnect avail r.2.1 b a cost r.2.2

/-- The releases of a list of arcs (`zListDestroy`). -/
def arcsFree : List (Nat × K) → Led → Led
  | [], l => l
  | _ :: as, l => arcsFree as (free l)

/-- `zGraphDestroy`, zm_graph.c:79-89: of each node the data, the arcs and the cell. -/
def destroy : List (Node D K) → Led → Led
  | [], l => l
  | n :: g, l => destroy g (free (arcsFree n.arc (free l)))

/-- Calls by the user. -/
inductive Op (D K : Type*) where
  | add (d : D)
  | connect (a b : D) (cost : K)
  | biconnect (a b : D) (cost : K)

/-- One call. -/
def step (avail : Nat → Bool) (equal : D → D → Bool) (g : List (Node D K)) (l : Led) : Op D K → Res (Bool × List (Node D K) × Led)
  | .add d => .ok (addNode avail equal g d l)
  | .connect a b c => connect avail equal g a b c l
  | .biconnect a b c => biconnect avail equal g a b c l

/-- A history: what every call returned, the graph and the blocks at the end. -/
def run (avail : Nat → Bool) (equal : D → D → Bool) : List (Op D K) → List (Node D K) → Led → Res (List Bool × List (Node D K) × Led)
  | [], g, l => .ok ([], g, l)
  | o :: ops, g, l => (step avail equal g l o).bind fun r => (run avail equal ops r.2.1 r.2.2).bind fun q => .ok (r.1 :: q.1, q.2)

end

section
variable {D K : Type*} [Field K] [LinearOrder K]

/-- `zGraphNodeListAdd`, zm_graph.c:180-193, with the blocks. -/
def listAddC (p : List Nat × Led) (n : Nat) : List Nat × Led := if n ∈ p.1 then p else (p.1 ++ [n], { p.2 with live := p.2.live + 1 })

/-- The body of the loop over the arcs of `cc`, zm_graph_search.c:51-60, with the blocks. -/
def relaxC (H : Nat → K) (cc : Nat) (p : SS K × Led) (a : Nat × K) : SS K × Led :=
  match p.1.val cc with
  | none => p
  | some x =>
    let testcost := x + a.2
    let testcost_h := testcost + H a.1
    if ltH (some testcost_h) (p.1.hval a.1) then
      let y := listAddC (p.1.yet, p.2) a.1
      ({ val := fun i => if i = a.1 then some testcost else p.1.val i
         hval := fun i => if i = a.1 then some testcost_h else p.1.hval i
         next := fun i => if i = a.1 then some cc else p.1.next i
         yet := y.1 }, y.2)
    else p

/-- The main loop, zm_graph_search.c:44-61: the cell of the node chosen goes from one list to the other, and neither list is ever released. -/
def astarLoopC (g : List (Node D K)) (H : Nat → K) (s : Nat) : Nat → SS K × Led → Res (SS K × Led)
  | 0, _ => .ub
  | fuel+1, p =>
    match pick p.1.hval p.1.yet with
    | none => .ok p
    | some cc =>
      let st := { p.1 with yet := p.1.yet.erase cc }
      if cc = s then .ok (st, p.2)
      else astarLoopC g H s fuel ((arcs g cc).foldl (relaxC H cc) (st, p.2))

/-- The path, zm_graph_search.c:63-67, with the blocks. -/
def pathLoopC (next : Nat → Option Nat) (g : Nat) : Nat → Nat → List Nat × Led → Res (List Nat × Led)
  | 0, _, _ => .ub
  | fuel+1, n, p =>
    let p := listAddC p n
    if n = g then .ok p
    else match next n with
      | none => .ub
      | some m => pathLoopC next g fuel m p

/-- The search after both nodes are found, zm_graph_search.c:37-68: cost, path and blocks. -/
def searchMainC (h : D → D → K) (g : List (Node D K)) (s gl : Nat) (st : SS K) (l : Led) : Res (Option K × List Nat × Led) :=
  match g[s]? with
  | none => .ub
  | some sn =>
    let H : Nat → K := heur h g sn.data
    let y := listAddC ([], l) gl
    let st : SS K := { val := fun i => if i = gl then some 0 else st.val i, hval := fun i => if i = gl then some (H gl) else st.hval i, next := st.next, yet := y.1 }
    (astarLoopC g H s (g.length + 1) (st, y.2)).bind fun q =>
    (pathLoopC q.1.next gl (g.length + 1) s ([], q.2)).bind fun p => .ok (q.1.val s, p.1, p.2)

/-- `zGraphSearchAStar`, zm_graph_search.c:13-69, with the blocks. -/
def searchAStar (equal : D → D → Bool) (h : D → D → K) (g : List (Node D K)) (old : SS K) (start goal : D) (l : Led) : Res (Option K × List Nat × Led) :=
  match searchInit equal start goal g.zipIdx (none, none, old) with
  | (some s, some gl, st) => searchMainC h g s gl st l
  | _ => .fail

/-- The caller releases a path (`zListDestroy`). -/
def pathFree : List Nat → Led → Led
  | [], l => l
  | _ :: p, l => pathFree p (free l)

end
end Zm.GraphMem
