import Mathlib.Algebra.Field.Basic
import Mathlib.Algebra.Module.Pi
import Mathlib.Algebra.BigOperators.Fin
import Mathlib.Data.Fin.VecNotation
import Mathlib.Data.Fin.Tuple.Basic
import Mathlib.Data.List.FinRange
import Mathlib.Data.Rat.Cast.Defs
import Mathlib.Algebra.Field.Rat

/-!
# Shape functions of the elements

Model of `mini/geometry/{element,face,cell,triangle,quadrangle,tetrahedron,pyramid,wedge}.hpp`
(the hexahedra are in `Verif.Model.ShapeHex`).

* Scalars are elements of a field `K`; rounding is not modelled.
* `std::vector<Scalar>`, `std::array` and `Local` become functions on `Fin n`; the entries that a method
  assigns one by one are listed in one literal, in the order of their indices.
* The static tables `local_coords_` are rational and are cast into `K` where the code reads them.
* Sums written as loops in the code are `∑`.
* Not modelled: `assert`s, construction from an `initializer_list`, `center_` (see `center` below for
  the local coordinates it is built from).
-/

namespace MiniCFD.Shape

/-- `Local` and `Global`, element.hpp:32-33. -/
abbrev Point (K : Type*) (d : Nat) := Fin d → K

variable {K : Type*} [Field K] {d n m D : Nat}

/-- An entry of a table of local coordinates, as the scalar type reads it. -/
def embed (q : Point ℚ d) : Point K d := fun j => (q j : K)

/-- What a concrete class supplies to the coordinate map: `GetLocalCoord`, `LocalToShapeFunctions` and
`LocalToShapeGradients`, element.hpp:45-58. -/
structure Element (K : Type*) (d n : Nat) where
  nodes : Fin n → Point ℚ d
  shapes : Point K d → Fin n → K
  grads : Point K d → Fin n → Point K d

/-- `LocalToGlobal`, face.hpp:72-79 and cell.hpp:67-75. -/
def localToGlobal (e : Element K d n) (coords : Fin n → Point K D) (p : Point K d) : Point K D :=
  fun c => ∑ i, coords i c * e.shapes p i

/-- `LocalToJacobian`, face.hpp:84-91 and cell.hpp:80-88: row `r` is the derivative along the local
axis `r`. -/
def jacobian (e : Element K d n) (coords : Fin n → Point K D) (p : Point K d) :
    Fin d → Point K D :=
  fun r c => ∑ i, e.grads p i r * coords i c

/-- The double loop `for b: for a: shapes[a] -= old_shapes_on_new_nodes[a] * shapes[b]` of all
hierarchical elements, for instance quadrangle.hpp:199-208, where `w b a` is
`old_shapes_on_new_nodes[a]` for the new node `b`. -/
def reduce {V : Type*} [AddCommGroup V] [Module K V] (w : Fin m → Fin n → K) (new : Fin m → V)
    (old : Fin n → V) : Fin n → V :=
  (List.finRange m).foldl (fun s b a => s a - w b a • new b) old

/-- The part common to `LocalToShapeFunctions` and `LocalToShapeGradients` of all hierarchical
elements, for instance quadrangle.hpp:194-209 and 216-231: evaluate the old element, append the new
entries and correct the old ones. -/
def enrich (e : Element K d n) (nodes : Fin m → Point ℚ d) (new : Point K d → Fin m → K)
    (newGrads : Point K d → Fin m → Point K d) : Element K d (n + m) where
  nodes := Fin.append e.nodes nodes
  shapes p := Fin.append (reduce (fun b => e.shapes (embed (nodes b))) (new p) (e.shapes p)) (new p)
  grads p := Fin.append (reduce (fun b => e.shapes (embed (nodes b))) (newGrads p) (e.grads p))
    (newGrads p)

/-! ### Triangles, triangle.hpp -/

/-- `Triangle3`, triangle.hpp:78-89 and 109-112. -/
def triangle3 (K : Type*) [Field K] : Element K 2 3 where
  nodes := ![![1, 0], ![0, 1], ![0, 0]]
  shapes p := ![p 0, p 1, 1 - p 0 - p 1]
  grads _ := ![![1, 0], ![0, 1], ![-1, -1]]

/-- `Triangle6`, triangle.hpp:142-178 and 198-202. -/
def triangle6 (K : Type*) [Field K] : Element K 2 6 where
  nodes := ![![1, 0], ![0, 1], ![0, 0], ![1 / 2, 1 / 2], ![0, 1 / 2], ![1 / 2, 0]]
  shapes p :=
    let x := p 0
    let y := p 1
    let z := 1 - x - y
    ![x * (x - 1 / 2) * 2, y * (y - 1 / 2) * 2, z * (z - 1 / 2) * 2, x * y * 4, y * z * 4, z * x * 4]
  grads p :=
    let factorX := 4 * p 0
    let factorY := 4 * p 1
    let factorZ := 4 - factorX - factorY
    ![![factorX - 1, 0], ![0, factorY - 1], ![1 - factorZ, 1 - factorZ], ![factorY, factorX],
      ![-factorY, -factorY + factorZ], ![-factorX + factorZ, -factorX]]

/-! ### Quadrangles, quadrangle.hpp -/

/-- `Quadrangle4`, quadrangle.hpp:76-104 and 138-141. -/
def quadrangle4 (K : Type*) [Field K] : Element K 2 4 where
  nodes := ![![-1, -1], ![1, -1], ![1, 1], ![-1, 1]]
  shapes p i :=
    let c : Point K 2 := embed ((![![-1, -1], ![1, -1], ![1, 1], ![-1, 1]] : Fin 4 → Point ℚ 2) i)
    (1 + c 0 * p 0) * (1 + c 1 * p 1) / 4
  grads p i :=
    let c : Point K 2 := embed ((![![-1, -1], ![1, -1], ![1, 1], ![-1, 1]] : Fin 4 → Point ℚ 2) i)
    ![c 0 * ((1 + c 1 * p 1) / 4), c 1 * ((1 + c 0 * p 0) / 4)]

/-- The four mid-edge nodes, quadrangle.hpp:260-261. -/
def quadrangle8Nodes : Fin 4 → Point ℚ 2 := ![![0, -1], ![1, 0], ![0, 1], ![-1, 0]]

/-- `LocalToNewShapeFunctions`, quadrangle.hpp:170-178: entries 4 to 7. -/
def quadrangle8New (p : Point K 2) : Fin 4 → K :=
  let c : Fin 4 → Point K 2 := fun b => embed (quadrangle8Nodes b)
  let factorX := (1 - p 0 * p 0) / 2
  let factorY := (1 - p 1 * p 1) / 2
  ![factorX * (1 + c 0 1 * p 1), (1 + c 1 0 * p 0) * factorY, factorX * (1 + c 2 1 * p 1),
    (1 + c 3 0 * p 0) * factorY]

/-- `LocalToNewShapeGradients`, quadrangle.hpp:179-191: entries 4 to 7. -/
def quadrangle8NewGrads (p : Point K 2) : Fin 4 → Point K 2 :=
  let c : Fin 4 → Point K 2 := fun b => embed (quadrangle8Nodes b)
  let factorX := (1 - p 0 * p 0) / 2
  let factorY := (1 - p 1 * p 1) / 2
  ![![-p 0 * (1 + c 0 1 * p 1), factorX * c 0 1], ![factorY * c 1 0, -p 1 * (1 + c 1 0 * p 0)],
    ![-p 0 * (1 + c 2 1 * p 1), factorX * c 2 1], ![factorY * c 3 0, -p 1 * (1 + c 3 0 * p 0)]]

/-- `Quadrangle8`, quadrangle.hpp:194-231. -/
def quadrangle8 (K : Type*) [Field K] : Element K 2 8 :=
  enrich (quadrangle4 K) quadrangle8Nodes quadrangle8New quadrangle8NewGrads

/-- The mid-face node, quadrangle.hpp:384. -/
def quadrangle9Nodes : Fin 1 → Point ℚ 2 := ![![0, 0]]

/-- `LocalToNewShapeFunctions`, quadrangle.hpp:291-296: entry 8. -/
def quadrangle9New (p : Point K 2) : Fin 1 → K := ![(1 - p 0 * p 0) * (1 - p 1 * p 1)]

/-- `LocalToNewShapeGradients`, quadrangle.hpp:297-301: entry 8. -/
def quadrangle9NewGrads (p : Point K 2) : Fin 1 → Point K 2 :=
  ![![(-2 * p 0) * (1 - p 1 * p 1), (1 - p 0 * p 0) * (-2 * p 1)]]

/-- `Quadrangle9`, quadrangle.hpp:304-341. -/
def quadrangle9 (K : Type*) [Field K] : Element K 2 9 :=
  enrich (quadrangle8 K) quadrangle9Nodes quadrangle9New quadrangle9NewGrads

/-! ### Tetrahedra, tetrahedron.hpp -/

/-- `Tetrahedron4`, tetrahedron.hpp:98-110 and 138-141. -/
def tetrahedron4 (K : Type*) [Field K] : Element K 3 4 where
  nodes := ![![1, 0, 0], ![0, 1, 0], ![0, 0, 1], ![0, 0, 0]]
  shapes p := ![p 0, p 1, p 2, 1 - p 0 - p 1 - p 2]
  grads _ := ![![1, 0, 0], ![0, 1, 0], ![0, 0, 1], ![-1, -1, -1]]

/-- `Tetrahedron10`, tetrahedron.hpp:215-276 and 296-307; `a` and `b` are multiplied by four on the
way (lines 223 and 225). -/
def tetrahedron10 (K : Type*) [Field K] : Element K 3 10 where
  nodes := ![![1, 0, 0], ![0, 1, 0], ![0, 0, 1], ![0, 0, 0], ![1 / 2, 1 / 2, 0], ![0, 1 / 2, 1 / 2],
    ![1 / 2, 0, 1 / 2], ![1 / 2, 0, 0], ![0, 1 / 2, 0], ![0, 0, 1 / 2]]
  shapes p :=
    let a := p 0
    let b := p 1
    let c := p 2
    let d := 1 - a - b - c
    let a4 := a * 4
    let b4 := b * 4
    ![a * (a - 1 / 2) * 2, b * (b - 1 / 2) * 2, c * (c - 1 / 2) * 2, d * (d - 1 / 2) * 2,
      b * a4, c * b4, c * a4, d * a4, d * b4, d * c * 4]
  grads p :=
    let fa := 4 * p 0
    let fb := 4 * p 1
    let fc := 4 * p 2
    let fd := 4 - fa - fb - fc
    ![![fa - 1, 0, 0], ![0, fb - 1, 0], ![0, 0, fc - 1], ![1 - fd, 1 - fd, 1 - fd],
      ![fb, fa, 0], ![0, fc, fb], ![fc, 0, fa],
      ![fd - fa, -fa, -fa], ![-fb, fd - fb, -fb], ![-fc, -fc, fd - fc]]

/-! ### Pyramids, pyramid.hpp -/

/-- The corners of the base, pyramid.hpp:189-190. -/
def pyramidBase : Fin 4 → Point ℚ 3 := ![![-1, -1, -1], ![1, -1, -1], ![1, 1, -1], ![-1, 1, -1]]

/-- `Pyramid5::LocalToShapeFunctions`, pyramid.hpp:126-132, an entry of the base. -/
def pyramidBaseShape (c p : Point K 3) : K :=
  (1 + c 0 * p 0) * (1 + c 1 * p 1) * (1 + c 2 * p 2) / 8

/-- `Pyramid5::LocalToShapeGradients`, pyramid.hpp:144-159, an entry of the base. -/
def pyramidBaseGrad (c p : Point K 3) : Point K 3 :=
  let factorX := 1 + c 0 * p 0
  let factorY := 1 + c 1 * p 1
  let factorZ := 1 + c 2 * p 2
  ![c 0 * (factorY * factorZ / 8), c 1 * (factorZ * factorX / 8), c 2 * (factorX * factorY / 8)]

/-- `Pyramid5`, pyramid.hpp:124-162 and 188-192. -/
def pyramid5 (K : Type*) [Field K] : Element K 3 5 where
  nodes := ![![-1, -1, -1], ![1, -1, -1], ![1, 1, -1], ![-1, 1, -1], ![0, 0, 1]]
  shapes p := ![pyramidBaseShape (embed (pyramidBase 0)) p, pyramidBaseShape (embed (pyramidBase 1)) p,
    pyramidBaseShape (embed (pyramidBase 2)) p, pyramidBaseShape (embed (pyramidBase 3)) p,
    (1 + p 2) / 2]
  grads p := ![pyramidBaseGrad (embed (pyramidBase 0)) p, pyramidBaseGrad (embed (pyramidBase 1)) p,
    pyramidBaseGrad (embed (pyramidBase 2)) p, pyramidBaseGrad (embed (pyramidBase 3)) p,
    ![0, 0, 1 / 2]]

/-- The eight mid-edge nodes, pyramid.hpp:382-385. -/
def pyramid13Nodes : Fin 8 → Point ℚ 3 :=
  ![![0, -1, -1], ![1, 0, -1], ![0, 1, -1], ![-1, 0, -1],
    ![-1, -1, 0], ![1, -1, 0], ![1, 1, 0], ![-1, 1, 0]]

/-- pyramid.hpp:262-264: the entries 5 and 7. -/
def pyramidEdgeX (c p : Point K 3) : K :=
  let quadraticX := 1 - p 0 * p 0
  let quadraticZ := (1 - p 2 * p 2) / 4
  let factorY := (1 + c 1 * p 1) / 2
  let factorZ := (1 + c 2 * p 2) / 2
  quadraticX * factorY * (factorZ - quadraticZ)

/-- pyramid.hpp:267-269: the entries 6 and 8. -/
def pyramidEdgeY (c p : Point K 3) : K :=
  let quadraticY := 1 - p 1 * p 1
  let quadraticZ := (1 - p 2 * p 2) / 4
  let factorX := (1 + c 0 * p 0) / 2
  let factorZ := (1 + c 2 * p 2) / 2
  factorX * quadraticY * (factorZ - quadraticZ)

/-- pyramid.hpp:272-274: the entries 9 to 12. -/
def pyramidEdgeZ (c p : Point K 3) : K :=
  let quadraticZ := (1 - p 2 * p 2) / 4
  (1 + c 0 * p 0) * (1 + c 1 * p 1) * quadraticZ

/-- pyramid.hpp:283-290. -/
def pyramidEdgeXGrad (c p : Point K 3) : Point K 3 :=
  let quadraticX := 1 - p 0 * p 0
  let quadraticZ := (1 - p 2 * p 2) / 4
  let factorY := (1 + c 1 * p 1) / 2
  let factorZ := (1 + c 2 * p 2) / 2 - quadraticZ
  let gradZ := (c 2 + p 2) / 2
  ![(-2 * p 0) * factorY * factorZ, (c 1 / 2) * quadraticX * factorZ, quadraticX * factorY * gradZ]

/-- pyramid.hpp:293-300. -/
def pyramidEdgeYGrad (c p : Point K 3) : Point K 3 :=
  let quadraticY := 1 - p 1 * p 1
  let quadraticZ := (1 - p 2 * p 2) / 4
  let factorX := (1 + c 0 * p 0) / 2
  let factorZ := (1 + c 2 * p 2) / 2 - quadraticZ
  let gradZ := (c 2 + p 2) / 2
  ![(c 0 / 2) * quadraticY * factorZ, (-2 * p 1) * factorX * factorZ, factorX * quadraticY * gradZ]

/-- pyramid.hpp:303-308. -/
def pyramidEdgeZGrad (c p : Point K 3) : Point K 3 :=
  let quadraticZ := (1 - p 2 * p 2) / 4
  let factorX := 1 + c 0 * p 0
  let factorY := 1 + c 1 * p 1
  ![c 0 * factorY * quadraticZ, c 1 * factorX * quadraticZ, factorX * factorY * (-p 2 / 2)]

/-- `Pyramid13::LocalToNewShapeFunctions`, pyramid.hpp:256-276. -/
def pyramid13New (p : Point K 3) : Fin 8 → K :=
  let c : Fin 8 → Point K 3 := fun b => embed (pyramid13Nodes b)
  ![pyramidEdgeX (c 0) p, pyramidEdgeY (c 1) p, pyramidEdgeX (c 2) p, pyramidEdgeY (c 3) p,
    pyramidEdgeZ (c 4) p, pyramidEdgeZ (c 5) p, pyramidEdgeZ (c 6) p, pyramidEdgeZ (c 7) p]

/-- `Pyramid13::LocalToNewShapeGradients`, pyramid.hpp:277-310. -/
def pyramid13NewGrads (p : Point K 3) : Fin 8 → Point K 3 :=
  let c : Fin 8 → Point K 3 := fun b => embed (pyramid13Nodes b)
  ![pyramidEdgeXGrad (c 0) p, pyramidEdgeYGrad (c 1) p, pyramidEdgeXGrad (c 2) p,
    pyramidEdgeYGrad (c 3) p, pyramidEdgeZGrad (c 4) p, pyramidEdgeZGrad (c 5) p,
    pyramidEdgeZGrad (c 6) p, pyramidEdgeZGrad (c 7) p]

/-- `Pyramid13`, pyramid.hpp:313-352. -/
def pyramid13 (K : Type*) [Field K] : Element K 3 13 :=
  enrich (pyramid5 K) pyramid13Nodes pyramid13New pyramid13NewGrads

/-- The mid-base node, pyramid.hpp:537. -/
def pyramid14Nodes : Fin 1 → Point ℚ 3 := ![![0, 0, -1]]

/-- `Pyramid14::LocalToNewShapeFunctions`, pyramid.hpp:446-452. -/
def pyramid14New (p : Point K 3) : Fin 1 → K :=
  ![(1 - p 0 * p 0) * (1 - p 1 * p 1) * ((1 - p 2) / 2)]

/-- `Pyramid14::LocalToNewShapeGradients`, pyramid.hpp:453-461. -/
def pyramid14NewGrads (p : Point K 3) : Fin 1 → Point K 3 :=
  let quadraticX := 1 - p 0 * p 0
  let quadraticY := 1 - p 1 * p 1
  let factorZ := 1 - p 2
  ![![(-p 0) * quadraticY * factorZ, (-p 1) * quadraticX * factorZ,
    quadraticX * quadraticY * (-1 / 2)]]

/-- `Pyramid14`, pyramid.hpp:464-503. -/
def pyramid14 (K : Type*) [Field K] : Element K 3 14 :=
  enrich (pyramid13 K) pyramid14Nodes pyramid14New pyramid14NewGrads

/-! ### Wedges, wedge.hpp -/

/-- `Wedge6`, wedge.hpp:126-173 and 199-202. -/
def wedge6 (K : Type*) [Field K] : Element K 3 6 where
  nodes := ![![1, 0, -1], ![0, 1, -1], ![0, 0, -1], ![1, 0, 1], ![0, 1, 1], ![0, 0, 1]]
  shapes p :=
    let a := p 0
    let b := p 1
    let c := 1 - a - b
    let lower := (1 - p 2) / 2
    let upper := lower + p 2
    ![a * lower, b * lower, c * lower, a * upper, b * upper, c * upper]
  grads p :=
    let a := p 0
    let b := p 1
    let c := 1 - a - b
    let lower := (1 - p 2) / 2
    let upper := lower + p 2
    ![![lower, 0, -1 / 2 * a], ![0, lower, -1 / 2 * b], ![-lower, -lower, -1 / 2 * c],
      ![upper, 0, 1 / 2 * a], ![0, upper, 1 / 2 * b], ![-upper, -upper, 1 / 2 * c]]

/-- The nine mid-edge nodes, wedge.hpp:414-421. -/
def wedge15Nodes : Fin 9 → Point ℚ 3 :=
  ![![1 / 2, 1 / 2, -1], ![0, 1 / 2, -1], ![1 / 2, 0, -1], ![1, 0, 0], ![0, 1, 0], ![0, 0, 0],
    ![1 / 2, 1 / 2, 1], ![0, 1 / 2, 1], ![1 / 2, 0, 1]]

/-- `Wedge15::LocalToNewShapeFunctions`, wedge.hpp:267-288. -/
def wedge15New (p : Point K 3) : Fin 9 → K :=
  let a := p 0
  let b := p 1
  let c := 1 - a - b
  let ab := a * b * 4
  let bc := b * c * 4
  let ca := c * a * 4
  let lower := (1 - p 2) / 2
  let middle := 1 - p 2 * p 2
  let upper := (1 + p 2) / 2
  ![ab * lower, bc * lower, ca * lower, a * middle, b * middle, c * middle,
    ab * upper, bc * upper, ca * upper]

/-- `Wedge15::LocalToNewShapeGradients`, wedge.hpp:289-343. -/
def wedge15NewGrads (p : Point K 3) : Fin 9 → Point K 3 :=
  let a := p 0
  let b := p 1
  let c := 1 - a - b
  let fa := 4 * a
  let fb := 4 * b
  let fc := 4 * c
  let ab := fa * b
  let bc := fb * c
  let ca := fc * a
  let lower := (1 - p 2) / 2
  let middle := 1 - p 2 * p 2
  let upper := (1 + p 2) / 2
  ![![fb * lower, fa * lower, ab * (-1 / 2)], ![-fb * lower, (fc - fb) * lower, bc * (-1 / 2)],
    ![(fc - fa) * lower, -fa * lower, ca * (-1 / 2)],
    ![middle, 0, a * (-2 * p 2)], ![0, middle, b * (-2 * p 2)], ![-middle, -middle, c * (-2 * p 2)],
    ![fb * upper, fa * upper, ab * (1 / 2)], ![-fb * upper, (fc - fb) * upper, bc * (1 / 2)],
    ![(fc - fa) * upper, -fa * upper, ca * (1 / 2)]]

/-- `Wedge15`, wedge.hpp:346-383. -/
def wedge15 (K : Type*) [Field K] : Element K 3 15 :=
  enrich (wedge6 K) wedge15Nodes wedge15New wedge15NewGrads

/-- `Wedge18`, wedge.hpp:482-615 and 641-657. -/
def wedge18 (K : Type*) [Field K] : Element K 3 18 where
  nodes := ![![1, 0, -1], ![0, 1, -1], ![0, 0, -1], ![1, 0, 1], ![0, 1, 1], ![0, 0, 1],
    ![1 / 2, 1 / 2, -1], ![0, 1 / 2, -1], ![1 / 2, 0, -1], ![1, 0, 0], ![0, 1, 0], ![0, 0, 0],
    ![1 / 2, 1 / 2, 1], ![0, 1 / 2, 1], ![1 / 2, 0, 1],
    ![1 / 2, 1 / 2, 0], ![0, 1 / 2, 0], ![1 / 2, 0, 0]]
  shapes p :=
    let a := p 0
    let b := p 1
    let z := p 2
    let c := 1 - a - b
    let qa := a * (2 * a - 1)
    let qb := b * (2 * b - 1)
    let qc := c * (2 * c - 1)
    let ab := a * b * 4
    let bc := b * c * 4
    let ca := c * a * 4
    let lower := (z - 1) * z / 2
    let upper := lower + z
    let middle := 1 - z * z
    ![qa * lower, qb * lower, qc * lower, qa * upper, qb * upper, qc * upper,
      ab * lower, bc * lower, ca * lower, qa * middle, qb * middle, qc * middle,
      ab * upper, bc * upper, ca * upper, ab * middle, bc * middle, ca * middle]
  grads p :=
    let a := p 0
    let b := p 1
    let z := p 2
    let c := 1 - a - b
    let qa := a * (2 * a - 1)
    let qb := b * (2 * b - 1)
    let qc := c * (2 * c - 1)
    let fa := a * 4
    let fb := b * 4
    let fc := c * 4
    let ab := fa * b
    let bc := fb * c
    let ca := fc * a
    let lower := (z - 1) * z / 2
    let gLower := z - 1 / 2
    let upper := lower + z
    let gUpper := gLower + 1
    let middle := 1 - z * z
    let gMiddle := -2 * z
    ![![(fa - 1) * lower, 0, qa * gLower], ![0, (fb - 1) * lower, qb * gLower],
      ![(1 - fc) * lower, (1 - fc) * lower, qc * gLower],
      ![(fa - 1) * upper, 0, qa * gUpper], ![0, (fb - 1) * upper, qb * gUpper],
      ![(1 - fc) * upper, (1 - fc) * upper, qc * gUpper],
      ![fb * lower, fa * lower, ab * gLower], ![-fb * lower, (fc - fb) * lower, bc * gLower],
      ![(fc - fa) * lower, -fa * lower, ca * gLower],
      ![(fa - 1) * middle, 0, qa * gMiddle], ![0, (fb - 1) * middle, qb * gMiddle],
      ![(1 - fc) * middle, (1 - fc) * middle, qc * gMiddle],
      ![fb * upper, fa * upper, ab * gUpper], ![-fb * upper, (fc - fb) * upper, bc * gUpper],
      ![(fc - fa) * upper, -fa * upper, ca * gUpper],
      ![fb * middle, fa * middle, ab * gMiddle], ![-fb * middle, (fc - fb) * middle, bc * gMiddle],
      ![(fc - fa) * middle, -fa * middle, ca * gMiddle]]

end MiniCFD.Shape
