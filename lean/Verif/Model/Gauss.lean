import Mathlib.Analysis.Real.Sqrt
import Mathlib.Data.Rat.Defs

/-!
# Model of the quadrature rules

Covers `include/mini/gauss/{legendre,lobatto,jacobi,line,quadrangle,hexahedron,triangle,tetrahedron,
pyramid,wedge,element}.hpp`.  Literals stand for the rational numbers they denote (the rounding of a
literal to a floating-point number is not modelled); `std::sqrt` is the real square root.  A rule is
kept as the array of its points and the array of its weights, as in the code.
-/

namespace MiniCFD.Gauss

/-- The static members `points` and `weights` of a rule on the line. -/
structure Rule1 (K : Type*) where
  points : List K
  weights : List K

/-! ### Gauss-Legendre, legendre.hpp -/

/-- `Legendre<S, 1>`, legendre.hpp:30-35. -/
noncomputable def legendre1 : Rule1 ℝ := ⟨[0], [2]⟩

/-- `Legendre<S, 2>`, legendre.hpp:53-58. -/
noncomputable def legendre2 : Rule1 ℝ := ⟨[-√(1 / 3), √(1 / 3)], [1, 1]⟩

/-- `Legendre<S, 3>`, legendre.hpp:76-81. -/
noncomputable def legendre3 : Rule1 ℝ := ⟨[-√0.6, 0, √0.6], [5 / 9, 8 / 9, 5 / 9]⟩

/-- `Legendre<S, 4>`, legendre.hpp:99-114. -/
noncomputable def legendre4 : Rule1 ℝ :=
  ⟨[-√((3 + 2 * √1.2) / 7), -√((3 - 2 * √1.2) / 7), √((3 - 2 * √1.2) / 7), √((3 + 2 * √1.2) / 7)],
   [(18 - √30) / 36, (18 + √30) / 36, (18 + √30) / 36, (18 - √30) / 36]⟩

/-- `Legendre<S, 5>`, legendre.hpp:132-149. -/
noncomputable def legendre5 : Rule1 ℝ :=
  ⟨[-√((5 + √(40 / 7)) / 9), -√((5 - √(40 / 7)) / 9), 0, √((5 - √(40 / 7)) / 9),
    √((5 + √(40 / 7)) / 9)],
   [(322 - 13 * √70) / 900, (322 + 13 * √70) / 900, 128 / 225, (322 + 13 * √70) / 900,
    (322 - 13 * √70) / 900]⟩

/-- `Legendre<S, 6>`, legendre.hpp:167-186. -/
def legendre6 : Rule1 ℚ :=
  ⟨[-0.932469514203152, -0.6612093864662645, -0.23861918608319693, 0.23861918608319693,
    0.6612093864662645, 0.932469514203152],
   [0.17132449237917016, 0.36076157304813855, 0.4679139345726912, 0.4679139345726912,
    0.36076157304813855, 0.17132449237917016]⟩

/-! ### Gauss-Lobatto, lobatto.hpp -/

/-- `Lobatto<S, 2>`, lobatto.hpp:30-35. -/
noncomputable def lobatto2 : Rule1 ℝ := ⟨[-1, 1], [1, 1]⟩

/-- `Lobatto<S, 3>`, lobatto.hpp:53-58. -/
noncomputable def lobatto3 : Rule1 ℝ := ⟨[-1, 0, 1], [1 / 3, 4 / 3, 1 / 3]⟩

/-- `Lobatto<S, 4>`, lobatto.hpp:76-81. -/
noncomputable def lobatto4 : Rule1 ℝ :=
  ⟨[-1, -√(1 / 5), √(1 / 5), 1], [1 / 6, 5 / 6, 5 / 6, 1 / 6]⟩

/-- `Lobatto<S, 5>`, lobatto.hpp:99-104. -/
noncomputable def lobatto5 : Rule1 ℝ :=
  ⟨[-1, -√21 / 7, 0, √21 / 7, 1], [0.1, 49 / 90, 32 / 45, 49 / 90, 0.1]⟩

/-- `Lobatto<S, 6>`, lobatto.hpp:122-141. -/
noncomputable def lobatto6 : Rule1 ℝ :=
  ⟨[-1, -√((7 + 2 * √7) / 21), -√((7 - 2 * √7) / 21), √((7 - 2 * √7) / 21), √((7 + 2 * √7) / 21), 1],
   [1 / 15, (14 - √7) / 30, (14 + √7) / 30, (14 + √7) / 30, (14 - √7) / 30, 1 / 15]⟩

/-! ### Gauss-Jacobi with the weight `(1 - ξ)²`, jacobi.hpp -/

/-- `Jacobi<Scalar, 1, 2, 0>`, jacobi.hpp:28-33. -/
def jacobi1 : Rule1 ℚ :=
  ⟨[-0.5],
   [2.6666666666666665]⟩

/-- `Jacobi<Scalar, 2, 2, 0>`, jacobi.hpp:49-60. -/
def jacobi2 : Rule1 ℚ :=
  ⟨[-0.754970354689117, 0.08830368802245062],
   [1.860379610028064, 0.8062870566386026]⟩

/-- `Jacobi<Scalar, 3, 2, 0>`, jacobi.hpp:76-89. -/
def jacobi3 : Rule1 ℚ :=
  ⟨[-0.8540119518537006, -0.30599246792329643, 0.41000441977699675],
   [1.2570908885190917, 1.169970154078929, 0.23960562406864572]⟩

/-- `Jacobi<Scalar, 4, 2, 0>`, jacobi.hpp:105-120. -/
def jacobi4 : Rule1 ℚ :=
  ⟨[-0.9029989011060054, -0.5227985248962753, 0.03409459020873491, 0.5917028357935458],
   [0.8871073248902219, 1.1476703183937156, 0.5490710973833848, 0.08281792599934465]⟩

/-- `Jacobi<Scalar, 5, 2, 0>`, jacobi.hpp:136-153. -/
def jacobi5 : Rule1 ℚ :=
  ⟨[-0.9308421201635698, -0.6530393584566087, -0.2202272258689614, 0.26866694526177365, 0.7021084258940329],
   [0.6541182742861681, 1.009591695199291, 0.7136012897727205, 0.25644480578369516, 0.03291060162479203]⟩

/-! ### Triangles, triangle.hpp -/

/-- The arrays `local_coords_` and `local_weights_` of a triangle. -/
structure Rule2 (K : Type*) where
  points : List (K × K)
  weights : List K

/-- The three points of an S21 orbit, triangle.hpp:152-157. -/
def s21 (a : ℚ) : List (ℚ × ℚ) :=
  let b := 1 - a - a
  [(a, a), (a, b), (b, a)]

/-- The six points of an S111 orbit, triangle.hpp:226-236. -/
def s111 (a b : ℚ) : List (ℚ × ℚ) :=
  let c := 1 - a - b
  [(a, b), (a, c), (b, a), (b, c), (c, a), (c, b)]

/-- The loops that fill the weights and divide them by the last constant, triangle.hpp:240-251. -/
def fill (blocks : List (Nat × ℚ)) (d : ℚ) : List ℚ :=
  (blocks.flatMap fun nw => List.replicate nw.1 nw.2).map (· / d)

/-- `_TriangleBuilder<Scalar, D, 1>`, triangle.hpp:128-137. -/
def triangle1 : Rule2 ℚ :=
  ⟨[(0.3333333333333333333333333333333333, 0.3333333333333333333333333333333333)], [1 / 2]⟩

/-- `_TriangleBuilder<Scalar, D, 3>`, triangle.hpp:147-168. -/
def triangle3 : Rule2 ℚ := ⟨[1 / 6].flatMap s21, fill [(3, 1 / 3)] 2⟩

/-- `_TriangleBuilder<Scalar, D, 6>`, triangle.hpp:178-203. -/
def triangle6 : Rule2 ℚ :=
  ⟨[0.44594849091596488631832925388305199, 0.09157621350977074345957146340220151].flatMap s21,
   fill [(3, 0.22338158967801146569500700843312280), (3, 0.10995174365532186763832632490021053)] 2⟩

/-- `_TriangleBuilder<Scalar, D, 12>`, triangle.hpp:213-251. -/
def triangle12 : Rule2 ℚ :=
  ⟨[0.06308901449150222834033160287081916, 0.24928674517091042129163855310701908].flatMap s21 ++
     s111 0.05314504984481694735324967163139815 0.31035245103378440541660773395655215,
   fill [(3, 0.05084490637020681692093680910686898), (3, 0.11678627572637936602528961138557944),
     (6, 0.08285107561837357519355345642044245)] 2⟩

/-- `_TriangleBuilder<Scalar, D, 16>`, triangle.hpp:261-308. -/
def triangle16 : Rule2 ℚ :=
  ⟨[(0.33333333333333333333333333333333333, 0.33333333333333333333333333333333333)] ++
     [0.17056930775176020662229350149146450, 0.05054722831703097545842355059659895,
       0.45929258829272315602881551449416932].flatMap s21 ++
     s111 0.26311282963463811342178578628464359 0.00839477740995760533721383453929445,
   fill [(1, 0.14431560767778716825109111048906462), (3, 0.10321737053471825028179155029212903),
     (3, 0.03245849762319808031092592834178060), (3, 0.09509163426728462479389610438858432),
     (6, 0.02723031417443499426484469007390892)] 2⟩

/-! ### Tetrahedra, tetrahedron.hpp -/

/-- The arrays `local_coords_` and `local_weights_` of a cell. -/
structure Rule3 (K : Type*) where
  points : List (K × K × K)
  weights : List K

/-- The four points of an S31 orbit, tetrahedron.hpp:139-143. -/
def s31 (a : ℚ) : List (ℚ × ℚ × ℚ) :=
  let c := 1 - 3 * a
  [(a, a, a), (a, a, c), (a, c, a), (c, a, a)]

/-- The six points of an S22 orbit, tetrahedron.hpp:175-184. -/
def s22 (a : ℚ) : List (ℚ × ℚ × ℚ) :=
  let c := (1 - 2 * a) * (1 / 2)
  [(a, a, c), (a, c, a), (a, c, c), (c, a, a), (c, a, c), (c, c, a)]

/-- The twelve points of an S211 orbit, tetrahedron.hpp:276-292. -/
def s211 (a b : ℚ) : List (ℚ × ℚ × ℚ) :=
  let c := 1 - a - a - b
  [(a, a, b), (a, a, c), (a, b, a), (a, b, c), (a, c, a), (a, c, b), (b, a, a), (b, a, c),
    (b, c, a), (c, a, a), (c, a, b), (c, b, a)]

/-- `_TetrahedronBuilder<Scalar, 1>`, tetrahedron.hpp:116-125. -/
def tetrahedron1 : Rule3 ℚ := ⟨[(0.25, 0.25, 0.25)], [1 / 6]⟩

/-- `_TetrahedronBuilder<Scalar, 4>`, tetrahedron.hpp:134-152. -/
def tetrahedron4 : Rule3 ℚ :=
  ⟨s31 0.13819660112501051517954131656343619, List.replicate 4 (0.25 / 6)⟩

/-- `_TetrahedronBuilder<Scalar, 14>`, tetrahedron.hpp:161-199. -/
def tetrahedron14 : Rule3 ℚ :=
  ⟨[0.31088591926330060979734573376345783, 0.09273525031089122640232391373703061].flatMap s31 ++
     s22 0.04550370412564964949188052627933943,
   fill [(4, 0.11268792571801585079918565233328633), (4, 0.07349304311636194954371020548632750),
     (6, 0.04254602077708146643806942812025744)] 6⟩

/-- `_TetrahedronBuilder<Scalar, 15>`, tetrahedron.hpp:208-252. -/
def tetrahedron15 : Rule3 ℚ :=
  ⟨[(0.25, 0.25, 0.25)] ++ [0.09197107805272303, 0.31979362782962991].flatMap s31 ++
     s22 0.05635083268962916,
   fill [(1, 16 / 135), (4, 0.07193708377901862), (4, 0.06906820722627239), (6, 20 / 378)] 6⟩

/-- `_TetrahedronBuilder<Scalar, 24>`, tetrahedron.hpp:261-309. -/
def tetrahedron24 : Rule3 ℚ :=
  ⟨[0.21460287125915202928883921938628499, 0.04067395853461135311557944895641006,
      0.32233789014227551034399447076249213].flatMap s31 ++
     s211 0.06366100187501752529923552760572698 0.60300566479164914136743113906093969,
   fill [(4, 0.03992275025816749209969062755747998), (4, 0.01007721105532064294801323744593686),
     (4, 0.05535718154365472209515327785372602), (12, 27 / 560)] 6⟩

/-- `_TetrahedronBuilder<Scalar, 46>`, tetrahedron.hpp:318-387. -/
def tetrahedron46 : Rule3 ℚ :=
  ⟨[0.03967542307038990126507132953938949, 0.31448780069809631378416056269714830,
      0.10198669306270330000000000000000000, 0.18420369694919151227594641734890918].flatMap s31 ++
     s22 0.06343628775453989240514123870189827 ++
     [(0.02169016206772800480266248262493018, 0.71993192203946593588943495335273478),
      (0.20448008063679571424133557487274534, 0.58057719012880922417539817139062041)].flatMap
        fun ab => s211 ab.1 ab.2,
   fill [(4, 0.00639714777990232132145142033517302), (4, 0.04019044802096617248816115847981783),
     (4, 0.02430797550477032117486910877192260), (4, 0.05485889241369744046692412399039144),
     (6, 0.03571961223409918246495096899661762), (12, 0.00718319069785253940945110521980376),
     (12, 0.01637218194531911754093813975611913)] 6⟩

/-! ### Products -/

variable {K : Type*} [Field K]

/-- `Quadrangle::BuildLocalCoords` and `BuildLocalWeights`, quadrangle.hpp:61-82. -/
def quadrangle (gx gy : Rule1 K) : Rule2 K :=
  ⟨gx.points.flatMap fun x => gy.points.map fun y => (x, y),
   gx.weights.flatMap fun u => gy.weights.map fun v => u * v⟩

/-- `Hexahedron::BuildLocalCoords` and `BuildLocalWeights`, hexahedron.hpp:66-93. -/
def hexahedron (gx gy gz : Rule1 K) : Rule3 K :=
  ⟨gx.points.flatMap fun x => gy.points.flatMap fun y => gz.points.map fun z => (x, y, z),
   gx.weights.flatMap fun u => gy.weights.flatMap fun v => gz.weights.map fun w => u * v * w⟩

/-- `Wedge::BuildLocalCoords` and `BuildLocalWeights`, wedge.hpp:58-82. -/
def wedge (gt : Rule2 K) (gz : Rule1 K) : Rule3 K :=
  ⟨gt.points.flatMap fun p => gz.points.map fun z => (p.1, p.2, z),
   gt.weights.flatMap fun u => gz.weights.map fun w => u * w⟩

/-- `Pyramid::BuildLocalCoords` and `BuildLocalWeights`, pyramid.hpp:58-86: the innermost loop runs
over the points and weights of the Jacobi rule together. -/
def pyramid (gx gy gz : Rule1 K) : Rule3 K :=
  ⟨gx.points.flatMap fun x => gy.points.flatMap fun y => gz.points.map fun z => (x, y, z),
   gx.weights.flatMap fun u => gy.weights.flatMap fun v =>
     (gz.points.zip gz.weights).map fun zw => u * v * zw.2 * ((1 - zw.1) ^ 2)⁻¹⟩

/-! ### Quadrature and the global rule -/

/-- `Quadrature`, function.hpp:26-39: the sum over the points in order. -/
def quadrature {Pt : Type*} (points : List Pt) (weights : List K) (f : Pt → K) : K :=
  (points.zip weights).foldl (fun sum pw => sum + f pw.1 * pw.2) 0

/-- `Element::BuildQuadraturePoints`, element.hpp:87-100: the global points, the global weights and
the returned sum.  `map` is `LocalToGlobal` and `det` the value of `det_j`. -/
def buildGlobal {Pt Qt : Type*} (points : List Pt) (weights : List K) (map : Pt → Qt) (det : Pt → K) :
    List Qt × List K × K :=
  let ws := (points.zip weights).map fun pw => pw.2 * det pw.1
  (points.map map, ws, ws.foldl (· + ·) 0)

/-- `Line`, line.hpp:57-65, 72-75 and 98-100, in one physical dimension: the global points and weights
on the segment from `p` to `q`. -/
def lineGlobal (gauss : Rule1 ℝ) (p q : ℝ) : Rule1 ℝ :=
  let det := |p - q| * 0.5
  ⟨gauss.points.map fun x => p * (0.5 - x * 0.5) + q * (0.5 + x * 0.5),
   gauss.weights.map fun w => w * det⟩

end MiniCFD.Gauss
