import Verif.Model.Plate

/-!
# `order_plates` and `_isroot` (storch/storch.py:131-177)
-/

namespace Storch
variable {α : Type _} [ValEq α]

mutual
/-- `_isroot(plate, plates)` (storch.py:131-140). -/
def isRoot (plates : List (Plate α)) : Plate α → Bool
  | .mk _ _ _ _ ps => isRootList plates ps
/-- The loop over `plate.parents` in `_isroot`.  storch.py:135-139. -/
def isRootList (plates : List (Plate α)) : List (Plate α) → Bool
  | [] => true
  | q :: qs =>
    if q.isIn plates then false
    else if !(isRoot plates q) then false
    else isRootList plates qs
end

/-- The dicts `in_edges` and `out_edges` (storch.py:150-151), in insertion order. -/
abbrev Edges (α : Type _) := List (String × List (Plate α))

/-- storch.py:156-162: register `p` as a child of each of its parents; a parent that has no entry yet gets
an empty one (and `p` is not recorded in it). -/
def addOut (p : Plate α) (out : Edges α) (q : Plate α) : Edges α :=
  match dget out q.name with
  | some l => dset out q.name (l ++ [p])
  | none => dset out q.name []

/-- Loop state of storch.py:148-162: `roots` as a stack (top first: `list.pop()` takes the last element),
`in_edges`, `out_edges`. -/
structure OrdSt (α : Type _) where
  roots : List (Plate α)
  inE : Edges α
  outE : Edges α

/-- storch.py:153-162 for one plate. -/
def ordInit1 (plates : List (Plate α)) (st : OrdSt α) (p : Plate α) : OrdSt α where
  roots := if isRoot plates p then p :: st.roots else st.roots
  inE := dset st.inE p.name p.parents
  outE := p.parents.foldl (addOut p) st.outE

/-- storch.py:148-162. -/
def ordInit (plates : List (Plate α)) : OrdSt α :=
  plates.foldl (ordInit1 plates)
    ⟨[], [], plates.foldl (fun d p => dset d p.name []) []⟩

/-- storch.py:167-171: the loop over the children of the plate `n` just taken from the stack. -/
def ordRelax (n : Plate α) : List (Plate α) → List (Plate α) → Edges α →
    Except Err (List (Plate α) × Edges α)
  | [], roots, inE => .ok (roots, inE)
  | m :: ms, roots, inE =>
    match dget inE m.name with
    | none => .error .key
    | some rem =>
      match removeBy Plate.pyEq n rem with
      | none => .error .value
      | some rem' =>
        ordRelax n ms (if rem'.isEmpty then m :: roots else roots) (dset inE m.name rem')

/-- storch.py:163-171: the `while roots` loop.  The first argument is fuel. -/
def ordLoop (plates : List (Plate α)) (outE : Edges α) : Nat → List (Plate α) → Edges α →
    List (Plate α) → Except Err (List (Plate α) × Edges α)
  | 0, _, _, _ => .error .diverge
  | _ + 1, [], inE, sorted => .ok (sorted, inE)
  | fuel + 1, n :: roots, inE, sorted =>
    let sorted' := if n.isIn plates then sorted ++ [n] else sorted
    match dget outE n.name with
    | none => .error .key
    | some ms =>
      match ordRelax n ms roots inE with
      | .error e => .error e
      | .ok (roots', inE') => ordLoop plates outE fuel roots' inE' sorted'

/-- storch.py:172-174: is a plate of the list left waiting for another plate of the list? -/
def ordCycle (plates : List (Plate α)) (inE : Edges α) : Bool :=
  inE.any (fun e => e.2.any (fun p => p.isIn plates))

/-- Fuel for `ordLoop`: enough for every input (`orderPlates_terminates`).
A bound on the turns of the loop of storch.py:163-171. -/
def ordFuel (plates : List (Plate α)) : Nat :=
  plates.length + (plates.map (fun p => p.parents.length)).sum + 1

/-- `order_plates(plates, reverse)` (storch.py:143-177). -/
def orderPlates (plates : List (Plate α)) (reverse : Bool := false) :
    Except Err (List (Plate α)) :=
  let st := ordInit plates
  match ordLoop plates st.outE (ordFuel plates) st.roots st.inE [] with
  | .error e => .error e
  | .ok (sorted, inE) =>
    if ordCycle plates inE then .error .value
    else .ok (if reverse then sorted.reverse else sorted)

end Storch
