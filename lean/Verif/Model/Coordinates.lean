import Verif.Model.Frame

/-!
# Moving the nodes of a mesh

Model of the mutators of `cgns::Coordinates` (mini/mesh/cgns.hpp:264-286), and of the functions of `Base`
(1131-1147) and `File` (1241-1257) that call them for all zones.  Real numbers stand for `Real`.  A read or
write past the end of a vector is `none`; the three vectors are exposed by reference (252-262), so that nothing
keeps their sizes equal.
-/

namespace MiniCFD.Coordinates

/-- The data members of `Coordinates`, cgns.hpp:318-320. -/
structure Coords where
  x : List ℝ
  y : List ℝ
  z : List ℝ

/-- `Translate`, cgns.hpp:264-268. -/
noncomputable def Coords.translate (dx dy dz : ℝ) (c : Coords) : Coords :=
  { x := c.x.map (· + dx), y := c.y.map (· + dy), z := c.z.map (· + dz) }

/-- `Dilate`, cgns.hpp:270-274. -/
noncomputable def Coords.dilate (cx cy cz s : ℝ) (c : Coords) : Coords :=
  { x := c.x.map fun x => cx + s * (x - cx)
    y := c.y.map fun y => cy + s * (y - cy)
    z := c.z.map fun z => cz + s * (z - cz) }

/-- One round of the loop of `RotateZ`, cgns.hpp:279-284, on the two vectors. -/
noncomputable def rotateStep (ox oy cos sin : ℝ) (st : List ℝ × List ℝ) (i : Nat) :
    Option (List ℝ × List ℝ) := do
  let x ← st.1[i]?
  let y ← st.2[i]?
  let dx := x - ox
  let dy := y - oy
  let dx_new := dx * cos - dy * sin
  let dy_new := dx * sin + dy * cos
  some (st.1.set i (ox + dx_new), st.2.set i (oy + dy_new))

/-- `RotateZ`, cgns.hpp:276-286. -/
noncomputable def Coords.rotateZ (ox oy degree : ℝ) (c : Coords) : Option Coords := do
  let (cos, sin) := Frame.cosSin degree
  let st ← (List.range c.x.length).foldlM (rotateStep ox oy cos sin) (c.x, c.y)
  some { x := st.1, y := st.2, z := c.z }

/-- A call of one of the three functions. -/
inductive Op
  | translate (dx dy dz : ℝ)
  | dilate (cx cy cz s : ℝ)
  | rotateZ (ox oy degree : ℝ)

/-- The call on the coordinates of one zone. -/
noncomputable def Coords.call (c : Coords) : Op → Option Coords
  | .translate dx dy dz => some (c.translate dx dy dz)
  | .dilate cx cy cz s => some (c.dilate cx cy cz s)
  | .rotateZ ox oy degree => c.rotateZ ox oy degree

/-- The zones of a `Base`. -/
abbrev Base := List Coords

/-- The bases of a `File`. -/
abbrev File := List Base

/-- The call on a `File`, cgns.hpp:1241-1257, and on its bases, 1131-1147: all zones of all bases. -/
noncomputable def File.call (f : File) (op : Op) : Option File := f.mapM fun b => b.mapM fun c => c.call op

/-- A history of calls. -/
noncomputable def File.run (f : File) (ops : List Op) : Option File := ops.foldlM File.call f

/-- The coordinates of node `i` (from one), cgns.hpp:226-234. -/
noncomputable def Coords.node (c : Coords) (i : Nat) : Option (ℝ × ℝ × ℝ) := do
  let x ← c.x[i - 1]?
  let y ← c.y[i - 1]?
  let z ← c.z[i - 1]?
  some (x, y, z)

end MiniCFD.Coordinates
