import Verif.Model.ShapeHex

/-!
# Tables by element type

Model of `mini/mesh/cgns.hpp:39-104, 827-841`, and of the switches of `mini/mesh/part.hpp:710-765`.
-/

namespace MiniCFD.Tables

open MiniCFD.Shape

/-- The enumerators of `CGNS_ENUMT(ElementType_t)` which the code names; `other npe` stands for the remaining
ones, with the number of nodes that `cg_npe` of the CGNS library knows for them. -/
inductive ElementType
  | node | bar2 | tri3 | tri6 | quad4 | quad8 | quad9 | tetra4 | tetra10 | pyra5 | pyra13 | pyra14
  | penta6 | penta15 | penta18 | hexa8 | hexa20 | hexa27 | mixed | other (npe : Nat)
  deriving DecidableEq

/-- `cg_npe` of the CGNS library for the types which the first two functions leave to it; `MIXED` has no number
of nodes of its own, and 0 is what the library gives. -/
def npe : ElementType → Nat
  | .node => 1
  | .bar2 => 2
  | .other n => n
  | _ => 0

/-- `CountNodesByType`, cgns.hpp:39-61. -/
def countNodesByType : ElementType → Nat
  | .tri3 => 3
  | .tri6 => 6
  | .quad4 => 4
  | .quad8 => 8
  | .quad9 => 9
  | .tetra4 => 4
  | .tetra10 => 10
  | .pyra5 => 5
  | .pyra13 => 13
  | .pyra14 => 14
  | .hexa8 => 8
  | .hexa20 => 20
  | .hexa27 => 27
  | .penta6 => 6
  | .penta15 => 15
  | .penta18 => 18
  | t => npe t

/-- `CountFacesByType`, cgns.hpp:63-85. -/
def countFacesByType : ElementType → Nat
  | .tri3 | .tri6 => 3
  | .quad4 | .quad8 | .quad9 => 4
  | .tetra4 | .tetra10 => 4
  | .pyra5 | .pyra13 | .pyra14 => 5
  | .hexa8 | .hexa20 | .hexa27 => 6
  | .penta6 | .penta15 | .penta18 => 5
  | t => npe t

/-- `dim`, cgns.hpp:87-104, with assertions switched off. -/
def dim : ElementType → Int
  | .node => 0
  | .bar2 => 1
  | .tri3 | .quad4 => 2
  | .tetra4 | .penta6 | .hexa8 => 3
  | _ => -1

/-- Whether the assertion in `dim` passes. -/
def dimAsserts : ElementType → Bool
  | .node | .bar2 | .tri3 | .quad4 | .tetra4 | .penta6 | .hexa8 | .mixed => true
  | _ => false

/-- `Zone::CheckTypeDim`, cgns.hpp:827-841. -/
def checkTypeDim (t : ElementType) (cellDim : Int) : Bool :=
  match t with
  | .tri3 | .quad4 => cellDim == 2
  | .tetra4 | .penta6 | .hexa8 => cellDim == 3
  | t => t == .mixed

/-- `Part::BuildGaussForCell`, part.hpp:710-726: the class built for a number of nodes; `none` stands for the
null pointers of the default case. -/
def buildGaussForCell : Nat → Option Kind
  | 4 => some .tetrahedron4
  | 5 => some .pyramid5
  | 6 => some .wedge6
  | 8 => some .hexahedron8
  | _ => none

/-- `Part::BuildGaussForFace`, part.hpp:749-761. -/
def buildGaussForFace : Nat → Option Kind
  | 3 => some .triangle3
  | 4 => some .quadrangle4
  | _ => none

end MiniCFD.Tables
