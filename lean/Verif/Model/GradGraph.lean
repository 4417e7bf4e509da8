import Verif.Model.Base
import Mathlib.Data.Fintype.Card
import Mathlib.Data.Finset.Card

/-!
# The search through torch's backward graph (storch/util.py:95-161)
-/

namespace Storch

/-- torch's backward graph: nodes `N` and torch tensors `T`, both compared by identity.  `next n` are the nodes of
`n.next_functions` (util.py:104), `leaf n` is `n.variable` where the node has one (util.py:146), `gradFn t` is
`t.grad_fn` (util.py:129, 149). -/
structure GradGraph (N T : Type _) where
  next : N → List (Option N)
  leaf : N → Option T
  gradFn : T → Option N

section
variable {N T : Type _} [DecidableEq N] [DecidableEq T]

/-- `_walk_backward_graph` (util.py:95-104) from a queue: the nodes in the order in which they are yielded. -/
def walkQueue [Fintype N] (G : GradGraph N T) (visited : Finset N) : List (Option N) → List N
  | [] => []
  | none :: q => walkQueue G visited q
  | some n :: q =>
    if n ∈ visited then walkQueue G visited q
    else n :: walkQueue G (insert n visited) (q ++ G.next n)
termination_by q => (Finset.card (Finset.univ \ visited), q.length)
decreasing_by
  · exact .right _ (by simp)
  · exact .right _ (by simp)
  · rename_i h
    refine .left _ _ (Finset.card_lt_card ?_)
    rw [Finset.ssubset_iff_of_subset]
    · exact ⟨n, by simpa using h, by simp⟩
    · intro x hx
      simp only [Finset.mem_sdiff, Finset.mem_univ, Finset.mem_insert, not_or, true_and] at hx ⊢
      exact hx.2

/-- `walk_backward_graph` (util.py:107-110). -/
def walkBackward [Fintype N] (G : GradGraph N T) (t : T) : Except Err (List N) :=
  match G.gradFn t with
  | none => .error .value
  | some n => .ok (walkQueue G ∅ [some n])

/-- The test for one node and one input (util.py:146-151). -/
def gradMatch (G : GradGraph N T) (p : N) (input : T) : Bool :=
  decide (G.leaf p = some input) || decide (G.gradFn input = some p)

/-- The first entry of `to_search` that the node matches: `found_i` and `to_search` without it (util.py:144-153). -/
def findInput (G : GradGraph N T) (p : N) : List (Nat × T) → Option (Nat × List (Nat × T))
  | [] => none
  | (i, x) :: r =>
    if gradMatch G p x then some (i, r)
    else
      match findInput G p r with
      | none => none
      | some (k, r') => some (k, (i, x) :: r')

/-- The loop over the graph (util.py:142-161).  `if found_i` is false for `None` and for 0. -/
def searchPaths (G : GradGraph N T) : List N → List (Nat × T) → List Bool → List Bool
  | [], _, has => has
  | p :: ps, todo, has =>
    match findInput G p todo with
    | some (i + 1, todo') =>
      let has' := has.set (i + 1) true
      if has'.all id then has' else searchPaths G ps todo' has'
    | _ => searchPaths G ps todo has

/-- What `has_backwards_path` returns: a list, or the number `False` (util.py:140-141). -/
inductive PathResult
  | flags (l : List Bool)
  | noSearch

/-- `has_backwards_path` (util.py:113-161) for an output that is not a stochastic tensor.  Storch tensors stand for their
torch tensors. -/
def hasPath [Fintype N] (G : GradGraph N T) (output : T) (inputs : List T) : Except Err PathResult :=
  match G.gradFn output with
  | none => .ok (.flags (inputs.map fun _ => false))
  | some _ =>
    let todo := (inputs.zipIdx.filter (fun x => decide (x.1 ≠ output))).map (fun x => (x.2, x.1))
    if todo.length = 0 then .ok .noSearch
    else
      match walkBackward G output with
      | .error e => .error e
      | .ok ps => .ok (.flags (searchPaths G ps todo (inputs.map (fun x => decide (x = output)))))

/-- The loop over the parameters (util.py:131-136): `zip` with a number raises a TypeError. -/
def orPaths [Fintype N] (G : GradGraph N T) (inputs : List T) : List T → List Bool → Except Err (List Bool)
  | [], has => .ok has
  | p :: ps, has =>
    match hasPath G p inputs with
    | .error e => .error e
    | .ok .noSearch => .error .type
    | .ok (.flags l) => orPaths G inputs ps (List.zipWith (· || ·) has l)

/-- `has_backwards_path` (util.py:127-136) for a stochastic tensor whose distribution has the parameters `params`
(those that require a gradient). -/
def hasPathStoch [Fintype N] (G : GradGraph N T) (output : T) (params inputs : List T) : Except Err PathResult :=
  match G.gradFn output with
  | none => .ok (.flags (inputs.map fun _ => false))
  | some _ =>
    match orPaths G inputs params (inputs.map fun _ => false) with
    | .error e => .error e
    | .ok l => .ok (.flags l)

end

end Storch
