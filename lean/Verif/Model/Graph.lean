import Verif.Base.Res
import Mathlib.Algebra.Order.Field.Basic

/-! # Graphs and shortest paths

Model of `src/zm_graph.c` and `src/zm_graph_search.c`.  A pointer to a node is the position of the node in the order of insertion (nodes are
never removed), so a list of nodes or arcs is a Lean list whose first element is the oldest one, which is where `zListForEach` begins.
Memory allocation succeeds; the data of a node are a value of type `D` (`dup` copies it).  `HUGE_VAL` is `none`. -/

namespace Zm.Graph
open Zm

/-- `zGraphNode`, zm_graph.h:40-46, without the search state. -/
structure Node (D K : Type*) where
  data : D
  arc : List (Nat × K)

section
variable {D K : Type*}

/-- `zGraphNodeConnect`, zm_graph.c:23-42, on the arcs of the node `from`. -/
def arcConnect (arc : List (Nat × K)) (dest : Nat) (cost : K) : List (Nat × K) :=
  match arc with
  | [] => [(dest, cost)]
  | a :: l => if a.1 = dest then (dest, cost) :: l else a :: arcConnect l dest cost

/-- `zGraphNodeConnect`, zm_graph.c:23-42. -/
def zGraphNodeConnect (g : List (Node D K)) (src dest : Nat) (cost : K) : List (Node D K) :=
  g.modify src fun n => { n with arc := arcConnect n.arc dest cost }

/-- `zGraphFindNode`, zm_graph.c:118-126; `none` is the null pointer. -/
def zGraphFindNode (equal : D → D → Bool) (g : List (Node D K)) (data : D) : Option Nat :=
  g.findIdx? fun n => equal n.data data

/-- `zGraphAddNode`, zm_graph.c:93-115. -/
def zGraphAddNode (equal : D → D → Bool) (g : List (Node D K)) (data : D) : List (Node D K) :=
  if g.any fun n => equal n.data data then g else g ++ [{ data := data, arc := [] }]

/-- `zGraphConnect`, zm_graph.c:129-137. -/
def zGraphConnect (equal : D → D → Bool) (g : List (Node D K)) (src dest : D) (cost : K) : List (Node D K) × Bool :=
  match zGraphFindNode equal g src, zGraphFindNode equal g dest with
  | some s, some d => (zGraphNodeConnect g s d cost, true)
  | _, _ => (g, false)

/-- `zGraphBiconnect`, zm_graph.c:140-148, with `zGraphNodeBiconnect`, zm_graph.c:45-49. -/
def zGraphBiconnect (equal : D → D → Bool) (g : List (Node D K)) (n1 n2 : D) (cost : K) : List (Node D K) × Bool :=
  match zGraphFindNode equal g n1, zGraphFindNode equal g n2 with
  | some a, some b => (zGraphNodeConnect (zGraphNodeConnect g a b cost) b a cost, true)
  | _, _ => (g, false)

end

section
variable {D K : Type*} [Field K] [LinearOrder K]

/-- Search state of all the nodes (`val`, `hval`, `to`, zm_graph.h:41-45) and the list `list_yet`. -/
structure SS (K : Type*) where
  val : Nat → Option K
  hval : Nat → Option K
  next : Nat → Option Nat
  yet : List Nat

/-- `a < b` with `none` for `HUGE_VAL`. -/
def ltH (a b : Option K) : Bool :=
  match a, b with
  | none, _ => false
  | some _, none => true
  | some a, some b => decide (a < b)

/-- `zGraphNodeListAdd`, zm_graph.c:180-193. -/
def listAdd (l : List Nat) (n : Nat) : List Nat := if n ∈ l then l else l ++ [n]

/-- The choice of the cell with the least `hval`, zm_graph_search.c:45-47. -/
def pick (hval : Nat → Option K) (l : List Nat) : Option Nat :=
  l.foldl (fun cc n => match cc with
    | none => some n
    | some c => if ltH (hval n) (hval c) then some n else some c) none

/-- The body of the loop over the arcs of `cc`, zm_graph_search.c:51-60 (`H` is the heuristic value towards the start node). -/
def relax (H : Nat → K) (cc : Nat) (st : SS K) (a : Nat × K) : SS K :=
  match st.val cc with
  | none => st
  | some x =>
    let testcost := x + a.2
    let testcost_h := testcost + H a.1
    if ltH (some testcost_h) (st.hval a.1) then
      { val := fun i => if i = a.1 then some testcost else st.val i
        hval := fun i => if i = a.1 then some testcost_h else st.hval i
        next := fun i => if i = a.1 then some cc else st.next i
        yet := listAdd st.yet a.1 }
    else st

/-- Arcs of node `i`. -/
def arcs (g : List (Node D K)) (i : Nat) : List (Nat × K) :=
  match g[i]? with
  | some n => n.arc
  | none => []

/-- The main loop, zm_graph_search.c:44-61 (`fuel` bounds the number of rounds; running out is rendered as `ub`). -/
def astarLoop (g : List (Node D K)) (H : Nat → K) (s : Nat) : Nat → SS K → Res (SS K)
  | 0, _ => .ub
  | fuel+1, st =>
    match pick st.hval st.yet with
    | none => .ok st
    | some cc =>
      let st := { st with yet := st.yet.erase cc }
      if cc = s then .ok st
      else astarLoop g H s fuel ((arcs g cc).foldl (relax H cc) st)

/-- The path, zm_graph_search.c:63-67.  Following a null pointer is `ub`, as is an endless loop. -/
def pathLoop (next : Nat → Option Nat) (g : Nat) : Nat → Nat → List Nat → Res (List Nat)
  | 0, _, _ => .ub
  | fuel+1, n, l =>
    let l := listAdd l n
    if n = g then .ok l
    else match next n with
      | none => .ub
      | some m => pathLoop next g fuel m l

/-- The heuristic value of node `i` towards the start node, as passed in zm_graph_search.c:38,53. -/
def heur (h : D → D → K) (g : List (Node D K)) (start : D) (i : Nat) : K :=
  match g[i]? with
  | some n => h n.data start
  | none => 0

/-- The search after both nodes are found, zm_graph_search.c:37-68. -/
def searchMain (h : D → D → K) (g : List (Node D K)) (s gl : Nat) (st : SS K) : Res (Option K × List Nat) :=
  match g[s]? with
  | none => .ub
  | some sn =>
    let H : Nat → K := heur h g sn.data
    let st : SS K := { val := fun i => if i = gl then some 0 else st.val i, hval := fun i => if i = gl then some (H gl) else st.hval i, next := st.next, yet := [gl] }
    (astarLoop g H s (g.length + 1) st).bind fun st =>
    (pathLoop st.next gl (g.length + 1) s []).bind fun p => .ok (st.val s, p)

/-- The initialisation loop, zm_graph_search.c:24-32: the start node, the goal node and the search state. -/
def searchInit (equal : D → D → Bool) (start goal : D) (l : List (Node D K × Nat)) (p : Option Nat × Option Nat × SS K) : Option Nat × Option Nat × SS K :=
  l.foldl (fun (p : Option Nat × Option Nat × SS K) (n : Node D K × Nat) =>
    if equal n.1.data goal then (p.1, some n.2, p.2.2)
    else
      let st : SS K := { p.2.2 with val := fun i => if i = n.2 then none else p.2.2.val i, hval := fun i => if i = n.2 then none else p.2.2.hval i }
      (if equal n.1.data start then some n.2 else p.1, p.2.1, st)) p

/-- `zGraphSearchAStar`, zm_graph_search.c:13-69.  `old` is the search state left in the nodes.  The error return (`HUGE_VAL`, no path) is
`fail`; a returned cost `none` is `HUGE_VAL`. -/
def zGraphSearchAStar (equal : D → D → Bool) (h : D → D → K) (g : List (Node D K)) (old : SS K) (start goal : D) : Res (Option K × List Nat) :=
  match searchInit equal start goal g.zipIdx (none, none, old) with
  | (some s, some gl, st) => searchMain h g s gl st
  | _ => .fail

/-- `zGraphSearchDijkstra`, zm_graph_search.c:72-76. -/
def zGraphSearchDijkstra (equal : D → D → Bool) (g : List (Node D K)) (old : SS K) (start goal : D) : Res (Option K × List Nat) :=
  zGraphSearchAStar equal (fun _ _ => 0) g old start goal

end
end Zm.Graph
