import Verif.Model.Shape

/-!
# Shape functions of the hexahedra

Model of `mini/geometry/hexahedron.hpp`, with the same conventions as `Verif.Model.Shape`.

The static tables `old_shapes_on_new_nodes_` (lines 154-167, 538-549, 817-830) hold the values of the
smaller element at the new nodes; the model reads these values directly.  That the tables are filled
before they are used depends on the order in which the linker initialises static members of templates,
which is not modelled.
-/

namespace MiniCFD.Shape

variable {K : Type*} [Field K]

/-- `Hexahedron27::local_coords_`, hexahedron.hpp:345-368. -/
def hexNodes : Fin 27 → Point ℚ 3 :=
  ![![-1, -1, -1], ![1, -1, -1], ![1, 1, -1], ![-1, 1, -1],
    ![-1, -1, 1], ![1, -1, 1], ![1, 1, 1], ![-1, 1, 1],
    ![0, -1, -1], ![1, 0, -1], ![0, 1, -1], ![-1, 0, -1],
    ![-1, -1, 0], ![1, -1, 0], ![1, 1, 0], ![-1, 1, 0],
    ![0, -1, 1], ![1, 0, 1], ![0, 1, 1], ![-1, 0, 1],
    ![0, 0, -1], ![0, -1, 0], ![1, 0, 0], ![0, 1, 0], ![-1, 0, 0], ![0, 0, 1],
    ![0, 0, 0]]

/-- The symmetric index of a pair of axes, constant/index.hpp:26-31. -/
def sym2 : Fin 3 → Fin 3 → Fin 6 := ![![0, 1, 2], ![1, 3, 4], ![2, 4, 5]]

/-- The symmetric index of a triple of axes, constant/index.hpp:37-66. -/
def sym3 : Fin 3 → Fin 3 → Fin 3 → Fin 10 :=
  ![![![0, 1, 2], ![1, 3, 4], ![2, 4, 5]],
    ![![1, 3, 4], ![3, 6, 7], ![4, 7, 8]],
    ![![2, 4, 5], ![4, 7, 8], ![5, 8, 9]]]

/-! ### The 27-node element, written down as a tensor product -/

/-- `factor_x[i_x]`, hexahedron.hpp:185-199 (the index is the coordinate of the node plus one). -/
def hexFactor (c : ℚ) (x : K) : K :=
  if c = -1 then (x - 1) * x / 2 else if c = 0 then 1 - x * x else (x + 1) * x / 2

/-- `grad_x[i_x]`, hexahedron.hpp:225-230. -/
def hexGradFactor (c : ℚ) (x : K) : K :=
  if c = -1 then x - 1 / 2 else if c = 0 then -2 * x else x + 1 / 2

/-- `Hexahedron27`, hexahedron.hpp:183-237. -/
def hexahedron27 (K : Type*) [Field K] : Element K 3 27 where
  nodes := hexNodes
  shapes p i :=
    hexFactor (hexNodes i 0) (p 0) * hexFactor (hexNodes i 1) (p 1) * hexFactor (hexNodes i 2) (p 2)
  grads p i :=
    ![hexGradFactor (hexNodes i 0) (p 0) * hexFactor (hexNodes i 1) (p 1) *
        hexFactor (hexNodes i 2) (p 2),
      hexFactor (hexNodes i 0) (p 0) * hexGradFactor (hexNodes i 1) (p 1) *
        hexFactor (hexNodes i 2) (p 2),
      hexFactor (hexNodes i 0) (p 0) * hexFactor (hexNodes i 1) (p 1) *
        hexGradFactor (hexNodes i 2) (p 2)]

/-! ### The 8-node element -/

/-- hexahedron.hpp:421-427. -/
def cornerShape (c p : Point K 3) : K :=
  (1 + c 0 * p 0) * (1 + c 1 * p 1) * (1 + c 2 * p 2) / 8

/-- hexahedron.hpp:438-453. -/
def cornerGrad (c p : Point K 3) : Point K 3 :=
  let factorX := 1 + c 0 * p 0
  let factorY := 1 + c 1 * p 1
  let factorZ := 1 + c 2 * p 2
  ![c 0 * (factorY * factorZ / 8), c 1 * (factorZ * factorX / 8), c 2 * (factorX * factorY / 8)]

/-- hexahedron.hpp:464-477, in the order XX, XY, XZ, YY, YZ, ZZ. -/
def cornerHess (c p : Point K 3) : Fin 6 → K :=
  let factorX := (1 + c 0 * p 0) / 8
  let factorY := (1 + c 1 * p 1) / 8
  let factorZ := (1 + c 2 * p 2) / 8
  ![0, c 0 * c 1 * factorZ, c 0 * c 2 * factorY, 0, c 1 * c 2 * factorX, 0]

/-- hexahedron.hpp:486-491, in the order XXX, XXY, XXZ, XYY, XYZ, XZZ, YYY, YYZ, YZZ, ZZZ. -/
def cornerThird (c _p : Point K 3) : Fin 10 → K := ![0, 0, 0, 0, c 0 * c 1 * c 2 / 8, 0, 0, 0, 0, 0]

/-- The corners. -/
def hex8Nodes : Fin 8 → Point ℚ 3 := fun i => hexNodes (i.castLE (by omega))

/-- `Hexahedron8`, hexahedron.hpp:419-454. -/
def hexahedron8 (K : Type*) [Field K] : Element K 3 8 where
  nodes := hex8Nodes
  shapes p i := cornerShape (embed (hex8Nodes i)) p
  grads p i := cornerGrad (embed (hex8Nodes i)) p

/-- `Hexahedron8::LocalToShapeHessians`, hexahedron.hpp:461-478. -/
def hessians8 (p : Point K 3) (i : Fin 8) : Fin 6 → K := cornerHess (embed (hex8Nodes i)) p

/-- `Hexahedron8::LocalToShape3rdOrderDerivatives`, hexahedron.hpp:484-492. -/
def thirds8 (p : Point K 3) (i : Fin 8) : Fin 10 → K := cornerThird (embed (hex8Nodes i)) p

/-! ### The 20-node element -/

/-- hexahedron.hpp:569-574: nodes 8, 10, 16, 18. -/
def edgeXShape (c p : Point K 3) : K := (1 - p 0 * p 0) / 4 * (1 + c 1 * p 1) * (1 + c 2 * p 2)

/-- hexahedron.hpp:576-581: nodes 9, 11, 17, 19. -/
def edgeYShape (c p : Point K 3) : K := (1 - p 1 * p 1) / 4 * (1 + c 0 * p 0) * (1 + c 2 * p 2)

/-- hexahedron.hpp:583-588: nodes 12 to 15. -/
def edgeZShape (c p : Point K 3) : K := (1 - p 2 * p 2) / 4 * (1 + c 0 * p 0) * (1 + c 1 * p 1)

/-- hexahedron.hpp:593-603. -/
def edgeXGrad (c p : Point K 3) : Point K 3 :=
  let shapeX := (1 - p 0 * p 0) / 4
  let gradX := -p 0 / 2
  let shapeY := 1 + c 1 * p 1
  let shapeZ := 1 + c 2 * p 2
  ![gradX * shapeY * shapeZ, shapeX * c 1 * shapeZ, shapeX * shapeY * c 2]

/-- hexahedron.hpp:605-615. -/
def edgeYGrad (c p : Point K 3) : Point K 3 :=
  let shapeY := (1 - p 1 * p 1) / 4
  let gradY := -p 1 / 2
  let shapeX := 1 + c 0 * p 0
  let shapeZ := 1 + c 2 * p 2
  ![c 0 * shapeY * shapeZ, shapeX * gradY * shapeZ, shapeX * shapeY * c 2]

/-- hexahedron.hpp:617-627. -/
def edgeZGrad (c p : Point K 3) : Point K 3 :=
  let shapeZ := (1 - p 2 * p 2) / 4
  let gradZ := -p 2 / 2
  let shapeX := 1 + c 0 * p 0
  let shapeY := 1 + c 1 * p 1
  ![c 0 * shapeY * shapeZ, shapeX * c 1 * shapeZ, shapeX * shapeY * gradZ]

/-- hexahedron.hpp:635-642. -/
def edgeXHess (c p : Point K 3) : Fin 6 → K :=
  let factorX := -1 / 2 * p 0
  let factorY := 1 + c 1 * p 1
  let factorZ := 1 + c 2 * p 2
  ![-1 / 2 * factorY * factorZ, factorX * c 1 * factorZ, factorX * factorY * c 2,
    0, (1 / 4 - factorX * factorX) * c 1 * c 2, 0]

/-- hexahedron.hpp:648-655. -/
def edgeYHess (c p : Point K 3) : Fin 6 → K :=
  let factorX := 1 + c 0 * p 0
  let factorY := -1 / 2 * p 1
  let factorZ := 1 + c 2 * p 2
  ![0, factorY * c 0 * factorZ, (1 / 4 - factorY * factorY) * c 0 * c 2,
    -1 / 2 * factorX * factorZ, factorY * factorX * c 2, 0]

/-- hexahedron.hpp:661-668. -/
def edgeZHess (c p : Point K 3) : Fin 6 → K :=
  let factorX := 1 + c 0 * p 0
  let factorY := 1 + c 1 * p 1
  let factorZ := -1 / 2 * p 2
  ![0, (1 / 4 - factorZ * factorZ) * c 0 * c 1, factorZ * c 0 * factorY,
    0, factorZ * factorX * c 1, -1 / 2 * factorX * factorY]

/-- hexahedron.hpp:678-681. -/
def edgeXThird (c p : Point K 3) : Fin 10 → K :=
  ![0, -1 / 2 * c 1 * (1 + c 2 * p 2), -1 / 2 * (1 + c 1 * p 1) * c 2, 0, -1 / 2 * p 0 * c 1 * c 2, 0,
    0, 0, 0, 0]

/-- hexahedron.hpp:687-690. -/
def edgeYThird (c p : Point K 3) : Fin 10 → K :=
  ![0, 0, 0, -1 / 2 * c 0 * (1 + c 2 * p 2), -1 / 2 * p 1 * c 0 * c 2, 0,
    0, -1 / 2 * (1 + c 0 * p 0) * c 2, 0, 0]

/-- hexahedron.hpp:696-699. -/
def edgeZThird (c p : Point K 3) : Fin 10 → K :=
  ![0, 0, 0, 0, -1 / 2 * p 2 * c 0 * c 1, -1 / 2 * c 0 * (1 + c 1 * p 1),
    0, 0, -1 / 2 * (1 + c 0 * p 0) * c 1, 0]

/-- The mid-edge nodes 8 to 19. -/
def hex20Nodes : Fin 12 → Point ℚ 3 := fun b => hexNodes ⟨8 + b, by omega⟩

/-- The assignment of entries 8 to 19 by the three loops of hexahedron.hpp:566-701. -/
def edges {V : Type*} (x y z : Point K 3 → Point K 3 → V) (p : Point K 3) : Fin 12 → V :=
  let c : Fin 12 → Point K 3 := fun b => embed (hex20Nodes b)
  ![x (c 0) p, y (c 1) p, x (c 2) p, y (c 3) p, z (c 4) p, z (c 5) p, z (c 6) p, z (c 7) p,
    x (c 8) p, y (c 9) p, x (c 10) p, y (c 11) p]

/-- `Hexahedron20`, hexahedron.hpp:704-733. -/
def hexahedron20 (K : Type*) [Field K] : Element K 3 20 :=
  enrich (hexahedron8 K) hex20Nodes (edges edgeXShape edgeYShape edgeZShape)
    (edges edgeXGrad edgeYGrad edgeZGrad)

/-- `old_shapes_on_new_nodes_`, hexahedron.hpp:540-549. -/
def weights20 (K : Type*) [Field K] (b : Fin 12) : Fin 8 → K :=
  (hexahedron8 K).shapes (embed (hex20Nodes b))

/-- `Hexahedron20::LocalToShapeHessians`, hexahedron.hpp:740-750. -/
def hessians20 (p : Point K 3) : Fin 20 → Fin 6 → K :=
  let new := edges edgeXHess edgeYHess edgeZHess p
  Fin.append (reduce (weights20 K) new (hessians8 p)) new

/-- `Hexahedron20::LocalToShape3rdOrderDerivatives`, hexahedron.hpp:757-767. -/
def thirds20 (p : Point K 3) : Fin 20 → Fin 10 → K :=
  let new := edges edgeXThird edgeYThird edgeZThird p
  Fin.append (reduce (weights20 K) new (thirds8 p)) new

/-! ### The 26-node element -/

/-- hexahedron.hpp:853-857: nodes 22 and 24. -/
def faceXShape (c p : Point K 3) : K :=
  (1 - p 1 * p 1) * (1 - p 2 * p 2) / 2 * (1 + c 0 * p 0)

/-- hexahedron.hpp:859-863: nodes 21 and 23. -/
def faceYShape (c p : Point K 3) : K :=
  (1 - p 2 * p 2) * (1 - p 0 * p 0) / 2 * (1 + c 1 * p 1)

/-- hexahedron.hpp:865-869: nodes 20 and 25. -/
def faceZShape (c p : Point K 3) : K :=
  (1 - p 0 * p 0) * (1 - p 1 * p 1) / 2 * (1 + c 2 * p 2)

/-- hexahedron.hpp:878-883. -/
def faceXGrad (c p : Point K 3) : Point K 3 :=
  let quadraticY := 1 - p 1 * p 1
  let quadraticZ := 1 - p 2 * p 2
  let factorX := 1 + c 0 * p 0
  ![(c 0 / 2) * quadraticY * quadraticZ, factorX * (-p 1) * quadraticZ,
    factorX * (-p 2) * quadraticY]

/-- hexahedron.hpp:887-892. -/
def faceYGrad (c p : Point K 3) : Point K 3 :=
  let quadraticX := 1 - p 0 * p 0
  let quadraticZ := 1 - p 2 * p 2
  let factorY := 1 + c 1 * p 1
  ![factorY * (-p 0) * quadraticZ, (c 1 / 2) * quadraticZ * quadraticX,
    factorY * (-p 2) * quadraticX]

/-- hexahedron.hpp:896-901. -/
def faceZGrad (c p : Point K 3) : Point K 3 :=
  let quadraticX := 1 - p 0 * p 0
  let quadraticY := 1 - p 1 * p 1
  let factorZ := 1 + c 2 * p 2
  ![factorZ * (-p 0) * quadraticY, factorZ * (-p 1) * quadraticX,
    (c 2 / 2) * quadraticX * quadraticY]

/-- hexahedron.hpp:913-920. -/
def faceXHess (c p : Point K 3) : Fin 6 → K :=
  let quadraticY := 1 - p 1 * p 1
  let quadraticZ := 1 - p 2 * p 2
  let linearX := 1 + c 0 * p 0
  ![0, c 0 * (-p 1) * quadraticZ, c 0 * (-p 2) * quadraticY,
    linearX * (-quadraticZ), linearX * p 1 * p 2 * 2, linearX * (-quadraticY)]

/-- hexahedron.hpp:926-933. -/
def faceYHess (c p : Point K 3) : Fin 6 → K :=
  let quadraticX := 1 - p 0 * p 0
  let quadraticZ := 1 - p 2 * p 2
  let linearY := 1 + c 1 * p 1
  ![linearY * (-quadraticZ), c 1 * (-p 0) * quadraticZ, linearY * p 0 * p 2 * 2,
    0, c 1 * (-p 2) * quadraticX, linearY * (-quadraticX)]

/-- hexahedron.hpp:939-946. -/
def faceZHess (c p : Point K 3) : Fin 6 → K :=
  let quadraticX := 1 - p 0 * p 0
  let quadraticY := 1 - p 1 * p 1
  let linearZ := 1 + c 2 * p 2
  ![linearZ * (-quadraticY), linearZ * p 0 * p 1 * 2, c 2 * (-p 0) * quadraticY,
    linearZ * (-quadraticX), c 2 * (-p 1) * quadraticX, 0]

/-- hexahedron.hpp:958-967. -/
def faceXThird (c p : Point K 3) : Fin 10 → K :=
  let quadraticY := 1 - p 1 * p 1
  let quadraticZ := 1 - p 2 * p 2
  let linearX := 1 + c 0 * p 0
  ![0, 0, 0, -c 0 * quadraticZ, c 0 * p 1 * p 2 * 2, -c 0 * quadraticY,
    0, linearX * p 2 * 2, linearX * p 1 * 2, 0]

/-- hexahedron.hpp:972-981. -/
def faceYThird (c p : Point K 3) : Fin 10 → K :=
  let quadraticX := 1 - p 0 * p 0
  let quadraticZ := 1 - p 2 * p 2
  let linearY := 1 + c 1 * p 1
  ![0, -c 1 * quadraticZ, linearY * p 2 * 2, 0, c 1 * p 0 * p 2 * 2, linearY * p 0 * 2,
    0, 0, -c 1 * quadraticX, 0]

/-- hexahedron.hpp:986-995. -/
def faceZThird (c p : Point K 3) : Fin 10 → K :=
  let quadraticX := 1 - p 0 * p 0
  let quadraticY := 1 - p 1 * p 1
  let linearZ := 1 + c 2 * p 2
  ![0, linearZ * p 1 * 2, -c 2 * quadraticY, linearZ * p 0 * 2, c 2 * p 0 * p 1 * 2, 0,
    0, -c 2 * quadraticX, 0, 0]

/-- The mid-face nodes 20 to 25. -/
def hex26Nodes : Fin 6 → Point ℚ 3 := fun b => hexNodes ⟨20 + b, by omega⟩

/-- The assignment of entries 20 to 25 by the three loops of hexahedron.hpp:847-997. -/
def faces {V : Type*} (x y z : Point K 3 → Point K 3 → V) (p : Point K 3) : Fin 6 → V :=
  let c : Fin 6 → Point K 3 := fun b => embed (hex26Nodes b)
  ![z (c 0) p, y (c 1) p, x (c 2) p, y (c 3) p, x (c 4) p, z (c 5) p]

/-- `Hexahedron26`, hexahedron.hpp:1000-1029. -/
def hexahedron26 (K : Type*) [Field K] : Element K 3 26 :=
  enrich (hexahedron20 K) hex26Nodes (faces faceXShape faceYShape faceZShape)
    (faces faceXGrad faceYGrad faceZGrad)

/-- `old_shapes_on_new_nodes_`, hexahedron.hpp:819-830. -/
def weights26 (K : Type*) [Field K] (b : Fin 6) : Fin 20 → K :=
  (hexahedron20 K).shapes (embed (hex26Nodes b))

/-- `Hexahedron26::LocalToShapeHessians`, hexahedron.hpp:1036-1046. -/
def hessians26 (p : Point K 3) : Fin 26 → Fin 6 → K :=
  let new := faces faceXHess faceYHess faceZHess p
  Fin.append (reduce (weights26 K) new (hessians20 p)) new

/-- `Hexahedron26::LocalToShape3rdOrderDerivatives`, hexahedron.hpp:1053-1063. -/
def thirds26 (p : Point K 3) : Fin 26 → Fin 10 → K :=
  let new := faces faceXThird faceYThird faceZThird p
  Fin.append (reduce (weights26 K) new (thirds20 p)) new

/-! ### Higher derivatives of the 27-node element -/

/-- hexahedron.hpp:246-263: entry 26. -/
def centerHess (p : Point K 3) : Fin 6 → K :=
  let quadraticX := 1 - p 0 * p 0
  let quadraticY := 1 - p 1 * p 1
  let quadraticZ := 1 - p 2 * p 2
  let linearX := -2 * p 0
  let linearY := -2 * p 1
  let linearZ := -2 * p 2
  ![-2 * quadraticY * quadraticZ, linearX * linearY * quadraticZ, linearX * linearZ * quadraticY,
    -2 * quadraticX * quadraticZ, linearY * linearZ * quadraticX, -2 * quadraticX * quadraticY]

/-- hexahedron.hpp:264-284: entry 26. -/
def centerThird (p : Point K 3) : Fin 10 → K :=
  let quadraticX := 1 - p 0 * p 0
  let quadraticY := 1 - p 1 * p 1
  let quadraticZ := 1 - p 2 * p 2
  let linearX := 4 * p 0
  let linearY := 4 * p 1
  let linearZ := 4 * p 2
  ![0, linearY * quadraticZ, linearZ * quadraticY, linearX * quadraticZ,
    linearX * linearY * linearZ / (-8), linearX * quadraticY,
    0, linearZ * quadraticX, linearY * quadraticX, 0]

/-- The center node 26. -/
def hex27Nodes : Fin 1 → Point ℚ 3 := ![hexNodes 26]

/-- `old_shapes_on_new_nodes_`, hexahedron.hpp:156-167. -/
def weights27 (K : Type*) [Field K] (b : Fin 1) : Fin 26 → K :=
  (hexahedron26 K).shapes (embed (hex27Nodes b))

/-- `Hexahedron27::LocalToShapeHessians`, hexahedron.hpp:287-297. -/
def hessians27 (p : Point K 3) : Fin 27 → Fin 6 → K :=
  let new : Fin 1 → Fin 6 → K := ![centerHess p]
  Fin.append (reduce (weights27 K) new (hessians26 p)) new

/-- `Hexahedron27::LocalToShape3rdOrderDerivatives`, hexahedron.hpp:304-314. -/
def thirds27 (p : Point K 3) : Fin 27 → Fin 10 → K :=
  let new : Fin 1 → Fin 10 → K := ![centerThird p]
  Fin.append (reduce (weights27 K) new (thirds26 p)) new

/-! ### The shipped elements -/

/-- The concrete classes of `mini/geometry`. -/
inductive Kind
  | triangle3 | triangle6 | quadrangle4 | quadrangle8 | quadrangle9
  | tetrahedron4 | tetrahedron10 | pyramid5 | pyramid13 | pyramid14 | wedge6 | wedge15 | wedge18
  | hexahedron8 | hexahedron20 | hexahedron26 | hexahedron27
  deriving DecidableEq

/-- `CellDim()`, element.hpp:41. -/
def Kind.dim : Kind → Nat
  | triangle3 | triangle6 | quadrangle4 | quadrangle8 | quadrangle9 => 2
  | _ => 3

/-- `kNodes`, returned by `CountNodes()`. -/
def Kind.count : Kind → Nat
  | triangle3 => 3
  | triangle6 => 6
  | quadrangle4 => 4
  | quadrangle8 => 8
  | quadrangle9 => 9
  | tetrahedron4 => 4
  | tetrahedron10 => 10
  | pyramid5 => 5
  | pyramid13 => 13
  | pyramid14 => 14
  | wedge6 => 6
  | wedge15 => 15
  | wedge18 => 18
  | hexahedron8 => 8
  | hexahedron20 => 20
  | hexahedron26 => 26
  | hexahedron27 => 27

/-- The tables of each class. -/
def Kind.element (K : Type*) [Field K] : (k : Kind) → Element K k.dim k.count
  | triangle3 => Shape.triangle3 K
  | triangle6 => Shape.triangle6 K
  | quadrangle4 => Shape.quadrangle4 K
  | quadrangle8 => Shape.quadrangle8 K
  | quadrangle9 => Shape.quadrangle9 K
  | tetrahedron4 => Shape.tetrahedron4 K
  | tetrahedron10 => Shape.tetrahedron10 K
  | pyramid5 => Shape.pyramid5 K
  | pyramid13 => Shape.pyramid13 K
  | pyramid14 => Shape.pyramid14 K
  | wedge6 => Shape.wedge6 K
  | wedge15 => Shape.wedge15 K
  | wedge18 => Shape.wedge18 K
  | hexahedron8 => Shape.hexahedron8 K
  | hexahedron20 => Shape.hexahedron20 K
  | hexahedron26 => Shape.hexahedron26 K
  | hexahedron27 => Shape.hexahedron27 K

end MiniCFD.Shape
