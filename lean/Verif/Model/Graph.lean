import Verif.Model.Base

/-!
# Algorithms on the stochastic computation graph

Nodes are natural numbers (their identity, Python's `is`).  The links of a node are pairs of a neighbour
and the "differentiable" flag.  Loops take fuel; `Err.diverge` means that the fuel ran out.
-/

namespace Storch

/-- `lambda p: p._parents` or `lambda p: p._children`.  tensor.py:371-430. -/
abbrev Links := Nat → List (Nat × Bool)

/-- The neighbours kept by `if d or not only_differentiable` (tensor.py:348-350, 362-364). -/
def nexts (ex : Links) (onlyDiff : Bool) (v : Nat) : List Nat :=
  ((ex v).filter (fun e => e.2 || !onlyDiff)).map Prod.fst

/-- The depth-first branch of `_walk_backwards` (tensor.py:341-350).  The head of `stack` is the end of
the Python list `S`; `visited` is the Python set. -/
def dfsLoop (ex : Links) (onlyDiff repeatVisited : Bool) :
    Nat → List Nat → List Nat → List Nat → Except Err (List Nat)
  | 0, _, _, _ => .error .diverge
  | _ + 1, [], _, out => .ok out
  | fuel + 1, v :: stack, visited, out =>
    if repeatVisited || !decide (v ∈ visited) then
      dfsLoop ex onlyDiff repeatVisited fuel ((nexts ex onlyDiff v).reverse ++ stack) (visited ++ [v])
        (out ++ [v])
    else dfsLoop ex onlyDiff repeatVisited fuel stack visited out

/-- The inner loop of the breadth-first branch (tensor.py:361-366): `visited` and `queue` are extended
while looping. -/
def bfsPush (repeatVisited : Bool) : List Nat → List Nat → List Nat → List Nat × List Nat
  | [], visited, queue => (visited, queue)
  | v :: vs, visited, queue =>
    if repeatVisited || !decide (v ∈ visited) then bfsPush repeatVisited vs (visited ++ [v]) (queue ++ [v])
    else bfsPush repeatVisited vs visited queue

/-- The breadth-first branch of `_walk_backwards` (tensor.py:351-369). -/
def bfsLoop (ex : Links) (onlyDiff repeatVisited : Bool) :
    Nat → List Nat → List Nat → List Nat → Except Err (List Nat)
  | 0, _, _, _ => .error .diverge
  | _ + 1, [], _, out => .ok out
  | fuel + 1, v :: queue, visited, out =>
    let r := bfsPush repeatVisited (nexts ex onlyDiff v) visited queue
    bfsLoop ex onlyDiff repeatVisited fuel r.2 r.1 (out ++ [v])

/-- Keyword arguments of `walk_parents` and `walk_children` (tensor.py:371-430); `walk_fn` is the
identity. -/
structure WalkCfg where
  depthFirst : Bool := true
  reverse : Bool := false
  onlyDiff : Bool := false
  repeatVisited : Bool := false

/-- `_walk_backwards` (tensor.py:330-369): the list of yielded nodes.  `reverse` has no effect on the
depth-first walk, as in the code. -/
def walk (ex : Links) (cfg : WalkCfg) (fuel : Nat) (start : Nat) : Except Err (List Nat) :=
  if cfg.depthFirst then dfsLoop ex cfg.onlyDiff cfg.repeatVisited fuel [start] [] []
  else
    match bfsLoop ex cfg.onlyDiff cfg.repeatVisited fuel [start] [start] [] with
    | .error e => .error e
    | .ok l => .ok (if cfg.reverse then l.reverse else l)

/-- `has_differentiable_path(output, input)` (util.py:164-168) on the child links. -/
def hasDifferentiablePath (kids : Links) (fuel : Nat) (output input : Nat) : Except Err Bool :=
  match walk kids { onlyDiff := true } fuel input with
  | .error e => .error e
  | .ok l => .ok (decide (output ∈ l))

/-! ### topological_sort (util.py:171-202) -/

/-- `for i, _c in enumerate(children): if _c is n: c = i; break` followed by `del children[c]` with
`c = -1` when not found (util.py:194-199): deleting from an empty list raises IndexError. -/
def delChild (n : Nat) (children : List Nat) : Except Err (List Nat) :=
  if n ∈ children then .ok (children.erase n)
  else if children = [] then .error .index
  else .ok children.dropLast

/-- The loop over `n._parents` (util.py:188-201); `edges` is the dict, the head of `s` is the end of the
Python list. -/
def topoParents (kids : Links) (n : Nat) : List (Nat × Bool) → (Nat → Option (List Nat)) → List Nat →
    Except Err ((Nat → Option (List Nat)) × List Nat)
  | [], edges, s => .ok (edges, s)
  | (p, _) :: ps, edges, s =>
    let children := match edges p with
      | some c => c
      | none => (kids p).map Prod.fst
    match delChild n children with
    | .error e => .error e
    | .ok c' =>
      topoParents kids n ps (fun q => if q = p then some c' else edges q) (if c' = [] then p :: s else s)

/-- The `while s` loop (util.py:185-201). -/
def topoLoop (parents kids : Links) : Nat → List Nat → List Nat → (Nat → Option (List Nat)) →
    Except Err (List Nat)
  | 0, _, _, _ => .error .diverge
  | _ + 1, [], l, _ => .ok l
  | fuel + 1, n :: s, l, edges =>
    match topoParents kids n (parents n) edges s with
    | .error e => .error e
    | .ok (edges', s') => topoLoop parents kids fuel s' (l ++ [n]) edges'

/-- `topological_sort(costs)` (util.py:171-202). -/
def topologicalSort (isCost : Nat → Bool) (parents kids : Links) (fuel : Nat) (costs : List Nat) :
    Except Err (List Nat) :=
  if costs.any (fun c => !isCost c || !(kids c).isEmpty) then .error .value
  else topoLoop parents kids fuel costs.reverse [] (fun _ => none)

/-! ### print_graph (util.py:30-64) -/

/-- What `print_graph` reads of a node.  util.py:35-55. -/
structure PrintNode where
  name : Option String
  /-- `node.stochastic`, as a truth value: for an `IndependentTensor` it is a bound method. -/
  stochastic : Bool
  isCost : Bool

/-- The two dicts of `print_graph`.  util.py:32-33. -/
structure PrintState where
  counters : String → Option Nat
  names : Nat → Option String

/-- `counters = {"s": 1, "c": 1, "d": 1}; names = {}` (util.py:32-33). -/
def PrintState.init : PrintState :=
  ⟨fun s => if s = "s" ∨ s = "c" ∨ s = "d" then some 1 else none, fun _ => none⟩

/-- `base + "[" + str(k) + "]"`.  util.py:41-52. -/
def nodeLabel (base : String) (k : Nat) : String := base ++ "[" ++ Nat.repr k ++ "]"

/-- The part of `get_name` that makes a new name out of a base (util.py:38-53): the number used and the
new value of the counter. -/
def freshLabel (counters : String → Option Nat) (base : String) : String × (String → Option Nat) :=
  match counters base with
  | none => (nodeLabel base 0, fun s => if s = base then some 1 else counters s)
  | some k => (nodeLabel base k, fun s => if s = base then some (k + 1) else counters s)

/-- The letter for nodes without a name (util.py:45-53). -/
def PrintNode.kindLetter (i : PrintNode) : String :=
  if i.stochastic then "s" else if i.isCost then "c" else "d"

/-- The base of a label (util.py:38, 45, 48, 51): the name of the node unless it is missing or empty. -/
def PrintNode.base (i : PrintNode) : String :=
  match i.name with
  | some s => if s = "" then i.kindLetter else s
  | none => i.kindLetter

/-- `get_name(node, names)` (util.py:35-55). -/
def getName (info : Nat → PrintNode) (node : Nat) (st : PrintState) : String × PrintState :=
  match st.names node with
  | some s => (s, st)
  | none =>
    let r := freshLabel st.counters (info node).base
    (r.1, ⟨r.2, fun m => if m = node then some r.1 else st.names m⟩)

/-- A printed line, with the nodes the labels stand for: a node (line 59) or an edge (line 64).  util.py:57-64. -/
inductive Line
  | node (n : Nat) (label : String)
  | edge (p : Nat) (lp : String) (diff : Bool) (n : Nat) (ln : String)

/-- util.py:57-59. -/
def printNodes (info : Nat → PrintNode) : List Nat → PrintState → List Line × PrintState
  | [], st => ([], st)
  | n :: ns, st =>
    let r := getName info n st
    let rest := printNodes info ns r.2
    (.node n r.1 :: rest.1, rest.2)

/-- util.py:62-64. -/
def printEdges (info : Nat → PrintNode) (n : Nat) (ln : String) : List (Nat × Bool) → PrintState →
    List Line × PrintState
  | [], st => ([], st)
  | (p, d) :: ps, st =>
    let r := getName info p st
    let rest := printEdges info n ln ps r.2
    (.edge p r.1 d n ln :: rest.1, rest.2)

/-- util.py:60-64. -/
def printAllEdges (info : Nat → PrintNode) (parents : Links) : List Nat → PrintState →
    List Line × PrintState
  | [], st => ([], st)
  | n :: ns, st =>
    let r := getName info n st
    let es := printEdges info n r.1 (parents n) r.2
    let rest := printAllEdges info parents ns es.2
    (es.1 ++ rest.1, rest.2)

/-- `print_graph(costs)` (util.py:30-64): the printed lines. -/
def printGraph (info : Nat → PrintNode) (parents kids : Links) (fuel : Nat) (costs : List Nat) :
    Except Err (List Line) :=
  match topologicalSort (fun c => (info c).isCost) parents kids fuel costs with
  | .error e => .error e
  | .ok nodes =>
    let a := printNodes info nodes PrintState.init
    let b := printAllEdges info parents nodes a.2
    .ok (a.1 ++ b.1)

end Storch
