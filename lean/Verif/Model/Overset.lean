import Mathlib.Data.Nat.Basic

/-
Model of the searches in /repo/include/mini/mesh/overset.hpp.

The dual graph is `adj` (`adj[i]` = neighbours of cell `i`); a read outside it is `none`.
`std::unordered_set<Int> found` is a list used only through membership.
-/
namespace MiniCFD.Overset

/-- The loop over the neighbours of one cell (overset.hpp:76-82 and 184-200). `far j` tells that
cell `j` lies outside the bounding ball (overset.hpp:189-197); it is `false` in the search for
fringe cells. Returns `found` and `next`. -/
def visit (far : Nat → Bool) : List Nat → List Nat → List Nat → List Nat × List Nat
  | [], found, next => (found, next)
  | j :: js, found, next =>
    if j ∈ found then visit far js found next
    else if far j then visit far js found next
    else visit far js (j :: found) (next ++ [j])

/-- The loop over the current layer (overset.hpp:74-83 and 182-201). -/
def layer (adj : List (List Nat)) (far : Nat → Bool) :
    List Nat → List Nat → List Nat → Option (List Nat × List Nat)
  | [], found, next => some (found, next)
  | i :: is, found, next => do
    let js ← adj[i]?
    let (found', next') := visit far js found next
    layer adj far is found' next'

/-- The outer loop of FindForegroundFringeCells (overset.hpp:72-88) with `k` expansions left
(`k + 1` is the value of `n_layer` before `--n_layer > 0`). -/
def fringeLoop (adj : List (List Nat)) : Nat → List Nat → List Nat → List Nat → Option (List Nat)
  | 0, result, _, _ => some result
  | k + 1, result, curr, found =>
    if curr = [] then some result else do
      let (found', next) ← layer adj (fun _ => false) curr found []
      fringeLoop adj k (result ++ next) next found'

/-- The scan for the outermost layer (overset.hpp:63-69), cells from `i` on; `nFaces` holds
`CountFacesByType` of each cell's section. -/
def outermost : List (List Nat) → List Nat → Nat → Option (List Nat)
  | [], _, _ => some []
  | js :: adj, f :: nFaces, i => do
    let rest ← outermost adj nFaces (i + 1)
    return if js.length < f then i :: rest else rest
  | _ :: _, [], _ => none

/-- `FindForegroundFringeCells` (overset.hpp:57-91). `n_layer` is a C++ `int`; every value below
2 gives no expansion. -/
def fringe (nLayer : Int) (adj : List (List Nat)) (nFaces : List Nat) : Option (List Nat) := do
  let result ← outermost adj nFaces 0
  fringeLoop adj (nLayer - 1).toNat result result result

/-- The outer loop of the second FindBackgroundDonorCells (overset.hpp:180-206). The C++ loop has
no counter; here `fuel` bounds it and `none` means that it has run out (theorem `donors_exact`
shows that one more than the number of cells is always enough). -/
def donorLoop (adj : List (List Nat)) (far : Nat → Bool) :
    Nat → List Nat → List Nat → List Nat → Option (List Nat)
  | 0, _, _, _ => none
  | fuel + 1, result, curr, found =>
    if curr = [] then some result else do
      let (found', next) ← layer adj far curr found []
      donorLoop adj far fuel (result ++ next) next found'

/-- One row of the second FindBackgroundDonorCells (overset.hpp:170-207): `start` is the answer of
`tree_bg.Search(x, y, z, 1)`. -/
def donors (adj : List (List Nat)) (far : Nat → Bool) (fuel : Nat) (start : List Nat) :
    Option (List Nat) := donorLoop adj far fuel start start start

end MiniCFD.Overset
