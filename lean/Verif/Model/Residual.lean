import Verif.Model.Column
import Verif.Model.Projection

/-!
# Residuals of the discontinuous Galerkin schemes

Model of `GetResidualColumn` and of the registration of boundary conditions of
`mini/spatial/fem.hpp` (`FiniteElement`), of `mini/spatial/dg/general.hpp` (`General`) and of
`mini/spatial/dg/lobatto.hpp` (`Lobatto`).  Scalars are real.  Every cell has `n + 1` basis functions and
every value has `K` components.

A face refers to its cells by position; that the references are valid is part of the type.  What a scheme
asks of a cell (values, basis values, fluxes and gradients at Gaussian points) is a field of `Cell`: how
`Projection` and `Hexahedron` compute these is modelled elsewhere.  The logging code is left out.
-/

namespace MiniCFD.Residual

open MiniCFD.Column MiniCFD.Projection

/-- What a face's solver computes at one Gaussian point (`face.riemann(q)`). -/
structure Riemann (K : Nat) where
  upwind : Value K → Value K → Value K
  solidWall : Value K → Value K
  supersonicOutlet : Value K → Value K
  supersonicInlet : Value K → Value K
  subsonicInlet : Value K → Value K → Value K
  subsonicOutlet : Value K → Value K → Value K
  smart : Value K → Value K → Value K

/-- A Gaussian point of a face: `GetGlobalCoord(q)`, `GetGlobalWeight(q)` and `riemann(q)`. -/
structure FacePoint (Pt : Type) (K : Nat) where
  coord : Pt
  weight : ℝ
  riemann : Riemann K

/-- A Gaussian point of a cell: `cell_to_flux(cell, q)`, its weight and the gradients of the basis.  For
`General` these are `GetGlobalWeight(q)` and `GlobalToBasisGradients`; for `Lobatto` they are `GetWeight`
and `GetBasisGradients(q)`, where the flux is that of `GlobalFluxToLocalFlux` if the basis is local
(lobatto.hpp:76-97). -/
structure VolumePoint (K n : Nat) where
  flux : Fin K → Fin 3 → ℝ
  weight : ℝ
  grad : Fin 3 → Fin (n + 1) → ℝ

/-- A cell with its current coefficients: `GlobalToValue`, `GlobalToBasisValues`, the Gaussian points with
their coordinates, and `GetValue(i)`, the value at Gaussian point `i`. -/
structure Cell (Pt : Type) (K n : Nat) where
  value : Pt → Value K
  basis : Pt → Fin (n + 1) → ℝ
  volume : List (VolumePoint K n)
  nodes : Fin (n + 1) → Pt
  nodal : Fin (n + 1) → Value K

variable {Pt : Type} {K n : Nat}

/-- A face between two cells of a part (`GetLocalFaces`). -/
structure LocalFace (Pt : Type) (K N : Nat) where
  holder : Fin N
  sharer : Fin N
  points : List (FacePoint Pt K)

/-- A face between a cell of the part and a copy of a cell of another part (`GetGhostFaces`). -/
structure GhostFace (Pt : Type) (K n N : Nat) where
  holder : Fin N
  sharer : Cell Pt K n
  points : List (FacePoint Pt K)

/-- A face on the boundary (`GetBoundaryFaces`). -/
structure BoundaryFace (Pt : Type) (K N : Nat) where
  holder : Fin N
  points : List (FacePoint Pt K)

/-- A part: its cells in storage order, which of them are inter cells, its faces.  `boundary name` is
`*name_to_faces_.at(name)`, which throws for an unknown name (part.hpp:1381-1387).  The ghost cells are
those received by `UpdateGhostCellCoeffs`. -/
structure Part (Pt : Type) (K n : Nat) where
  count : Nat
  cells : Fin count → Cell Pt K n
  inter : Fin count → Bool
  localFaces : List (LocalFace Pt K count)
  ghostFaces : List (GhostFace Pt K n count)
  boundary : String → Option (List (BoundaryFace Pt K count))

/-! ### Boundary conditions -/

/-- `Function`, fem.hpp:56. -/
abbrev Func (Pt : Type) (K : Nat) := Pt → ℝ → Value K

/-- The registered conditions, fem.hpp:55-58.  An `unordered_map` is a list of pairs with distinct keys in
the order of iteration, which is left open: see `residual_perm` in `Props/Registration.lean`. -/
structure Conditions (Pt : Type) (K : Nat) where
  solidWall : List String := []
  supersonicOutlet : List String := []
  supersonicInlet : List (String × Func Pt K) := []
  subsonicInlet : List (String × Func Pt K) := []
  subsonicOutlet : List (String × Func Pt K) := []
  smart : List (String × Func Pt K) := []

/-- `map[name] = func`. -/
def assign (m : List (String × Func Pt K)) (name : String) (f : Func Pt K) : List (String × Func Pt K) :=
  match m with
  | [] => [(name, f)]
  | (k, g) :: rest => if k = name then (name, f) :: rest else (k, g) :: assign rest name f

/-- A call of one of the registration methods, fem.hpp:126-147. -/
inductive Call (Pt : Type) (K : Nat) where
  | smartBoundary (name : String) (f : Func Pt K)
  | supersonicInlet (name : String) (f : Func Pt K)
  | subsonicInlet (name : String) (f : Func Pt K)
  | subsonicOutlet (name : String) (f : Func Pt K)
  | solidWall (name : String)
  | supersonicOutlet (name : String)

/-- Its effect, fem.hpp:126-147. -/
def register (c : Conditions Pt K) : Call Pt K → Conditions Pt K
  | .smartBoundary name f => { c with smart := assign c.smart name f }
  | .supersonicInlet name f => { c with supersonicInlet := assign c.supersonicInlet name f }
  | .subsonicInlet name f => { c with subsonicInlet := assign c.subsonicInlet name f }
  | .subsonicOutlet name f => { c with subsonicOutlet := assign c.subsonicOutlet name f }
  | .solidWall name => { c with solidWall := c.solidWall ++ [name] }
  | .supersonicOutlet name => { c with supersonicOutlet := c.supersonicOutlet ++ [name] }

/-- A history of calls on a new object. -/
def registerAll (calls : List (Call Pt K)) : Conditions Pt K := calls.foldl register {}

/-- The boundaries in the order in which `AddFluxOnBoundaries` (fem.hpp:185-226) visits them, each with the
flux which the `Apply*` method computes from the face point and the inner value
(dg/general.hpp:108-212, dg/lobatto.hpp:198-300). -/
def jobs (c : Conditions Pt K) (t : ℝ) : List (String × (FacePoint Pt K → Value K → Value K)) :=
  (c.solidWall.map fun name => (name, fun q u => q.riemann.solidWall u)) ++
  (c.supersonicInlet.map fun nf => (nf.1, fun q _ => q.riemann.supersonicInlet (nf.2 q.coord t))) ++
  (c.supersonicOutlet.map fun name => (name, fun q u => q.riemann.supersonicOutlet u)) ++
  (c.subsonicInlet.map fun nf => (nf.1, fun q u => q.riemann.subsonicInlet u (nf.2 q.coord t))) ++
  (c.subsonicOutlet.map fun nf => (nf.1, fun q u => q.riemann.subsonicOutlet u (nf.2 q.coord t))) ++
  (c.smart.map fun nf => (nf.1, fun q u => q.riemann.smart u (nf.2 q.coord t)))

/-! ### Contributions to the column -/

/-- `flux * row` for a column vector `flux`. -/
def outer (flux : Value K) (row : Fin (n + 1) → ℝ) : Coeff K n := fun r c => flux r * row c

/-- `AddCoeffTo(prod, data)` and `MinusCoeff(prod, data)` on the block of cell `p`. -/
noncomputable def addCoeff (p : Nat) (m : Coeff K n) : Contribution ℝ := ⟨p, 0, loopOrder m⟩
noncomputable def minusCoeff (p : Nat) (m : Coeff K n) : Contribution ℝ :=
  ⟨p, 0, loopOrder fun r c => -m r c⟩

/-- `AddValueTo(value, data, i)` and `MinusValue(value, data, i)` on the block of cell `p`,
hexahedron.hpp:546-566. -/
noncomputable def addValue (p i : Nat) (v : Value K) : Contribution ℝ := ⟨p, K * i, List.ofFn v⟩
noncomputable def minusValue (p i : Nat) (v : Value K) : Contribution ℝ :=
  ⟨p, K * i, List.ofFn fun r => -v r⟩

/-- `flux *= weight`. -/
noncomputable def weigh (w : ℝ) (v : Value K) : Value K := fun r => v r * w

/-- Append the results of a loop whose body may throw. -/
def collect {α β : Type*} (f : α → Option (List β)) : List α → Option (List β)
  | [] => some []
  | a :: as => do
    let x ← f a
    let y ← collect f as
    some (x ++ y)

/-- `AddFluxDivergence` on cell `p`, dg/general.hpp:50-61 and dg/lobatto.hpp:142-151. -/
noncomputable def divergence (p : Nat) (c : Cell Pt K n) : List (Contribution ℝ) :=
  c.volume.map fun v => addCoeff p fun r i => ∑ k, v.flux r k * v.weight * v.grad k i

/-- `AddFluxDivergence` on all cells, fem.hpp:247-253. -/
noncomputable def divergences (P : Part Pt K n) : List (Contribution ℝ) :=
  (List.finRange P.count).flatMap fun p => divergence p.val (P.cells p)

/-- The scheme-dependent part of a face loop: read the trace of the cell at position `p` at a face point,
and add (`true`) or subtract (`false`) a weighted flux at that point. -/
structure Scheme (Pt : Type) (K n : Nat) where
  trace : Cell Pt K n → FacePoint Pt K → Option (Value K)
  put : Bool → Nat → Cell Pt K n → FacePoint Pt K → Value K → Option (Contribution ℝ)

/-- The loop over the points of a face between two cells, dg/general.hpp:69-88 and
dg/lobatto.hpp:156-178. -/
noncomputable def onLocalFace (S : Scheme Pt K n) (P : Part Pt K n) (f : LocalFace Pt K P.count) :
    Option (List (Contribution ℝ)) :=
  collect (fun q => do
    let u ← S.trace (P.cells f.holder) q
    let v ← S.trace (P.cells f.sharer) q
    let flux := weigh q.weight (q.riemann.upwind u v)
    let a ← S.put false f.holder (P.cells f.holder) q flux
    let b ← S.put true f.sharer (P.cells f.sharer) q flux
    some [a, b]) f.points

/-- The same for a ghost face, dg/general.hpp:89-105 and dg/lobatto.hpp:179-197. -/
noncomputable def onGhostFace (S : Scheme Pt K n) (P : Part Pt K n) (f : GhostFace Pt K n P.count) :
    Option (List (Contribution ℝ)) :=
  collect (fun q => do
    let u ← S.trace (P.cells f.holder) q
    let v ← S.trace f.sharer q
    let a ← S.put false f.holder (P.cells f.holder) q (weigh q.weight (q.riemann.upwind u v))
    some [a]) f.points

/-- The same for a boundary face, dg/general.hpp:108-212 and dg/lobatto.hpp:198-300.  (At a supersonic
inlet the inner value is not read by the code; reading it has no effect.) -/
noncomputable def onBoundaryFace (S : Scheme Pt K n) (P : Part Pt K n)
    (flux : FacePoint Pt K → Value K → Value K) (f : BoundaryFace Pt K P.count) :
    Option (List (Contribution ℝ)) :=
  collect (fun q => do
    let u ← S.trace (P.cells f.holder) q
    let a ← S.put false f.holder (P.cells f.holder) q (weigh q.weight (flux q u))
    some [a]) f.points

/-- `AddFluxOnBoundaries`, fem.hpp:185-226. -/
noncomputable def onBoundaries (S : Scheme Pt K n) (P : Part Pt K n) (c : Conditions Pt K) (t : ℝ) :
    Option (List (Contribution ℝ)) :=
  collect (fun job => do
    let faces ← P.boundary job.1
    collect (onBoundaryFace S P job.2) faces) (jobs c t)

/-- All additions made by `GetResidualColumn`, fem.hpp:173-183, in order. -/
noncomputable def contributions (S : Scheme Pt K n) (vol : Bool) (P : Part Pt K n) (c : Conditions Pt K)
    (t : ℝ) : Option (List (Contribution ℝ)) := do
  let a ← collect (onLocalFace S P) P.localFaces
  let b ← onBoundaries S P c t
  let g ← collect (onGhostFace S P) P.ghostFaces
  some ((if vol then divergences P else []) ++ a ++ b ++ g)

/-- `CountFields()` of every cell. -/
def sizes (P : Part Pt K n) : List Nat := List.replicate P.count ((n + 1) * K)

/-- `GetResidualColumn`, fem.hpp:173-183: start from zero and make the additions. -/
noncomputable def residual (S : Scheme Pt K n) (vol : Bool) (P : Part Pt K n) (c : Conditions Pt K) (t : ℝ) :
    Option (Numbering × List ℝ) := do
  let (ids, offs) ← addLocalCellId (List.ofFn P.inter) (sizes P)
  let cs ← contributions S vol P c t
  let col ← accumulate ⟨List.ofFn P.inter, ids, offs⟩ cs (List.replicate (sizes P).sum 0)
  some (⟨List.ofFn P.inter, ids, offs⟩, col)

/-- Entry `(r, i)` of the coefficients which the column holds for cell `p`. -/
def entry (res : Numbering × List ℝ) (p : Nat) (r : Fin K) (i : Fin (n + 1)) : Option ℝ := do
  let off ← res.1.offset p
  res.2[off + (i * K + r)]?

/-! ### The two schemes -/

/-- `dg::General`: evaluate the polynomial at the point and test with all basis functions. -/
noncomputable def general : Scheme Pt K n where
  trace c q := some (c.value q.coord)
  put b p c q flux := some (if b then addCoeff p (outer flux (c.basis q.coord))
    else minusCoeff p (outer flux (c.basis q.coord)))

/-- `dg::General::GetResidualColumn`: the flux divergence is left out for degree 0
(dg/general.hpp:62-68). -/
noncomputable def generalResidual (P : Part Pt K n) (c : Conditions Pt K) (t : ℝ) :=
  residual general (decide (0 < n)) P c t

/-- A cell whose projection is on an orthonormal basis: `cell_to_flux` is the flux matrix of the value at the
Gaussian point (fem.hpp:263-278, for solvers without diffusion), and the gradients are those of
`OrthoNormal::GetGradValue` (linear.hpp:129-133), whose row `i` is `Taylor::GetGradValue` on row `i` of the
coefficients of the basis.  Its nodes are not used by `General`. -/
noncomputable def ofProjection (b : Basis Pt n) (gradValue : (Fin (n + 1) → ℝ) → Pt → Fin 3 → ℝ)
    (fluxMatrix : Value K → Fin K → Fin 3 → ℝ) (coeff : Coeff K n) (nodes : Fin (n + 1) → Pt) :
    Cell Pt K n where
  value := Projection.value b coeff
  basis := basisValues b
  volume := b.rule.map fun xw => ⟨fluxMatrix (Projection.value b coeff xw.1), xw.2,
    fun k i => gradValue (fun j => b.linear.coeff i j) xw.1 k⟩
  nodes := nodes
  nodal i := Projection.value b coeff (nodes i)

/-- `MatchGaussianPoints`, dg/lobatto.hpp:55-75: the first Gaussian point of the cell near the face point;
`none` where the assertion fails. -/
def matchPoint (near : Pt → Pt → Bool) (c : Cell Pt K n) (x : Pt) : Option (Fin (n + 1)) :=
  (List.finRange (n + 1)).find? fun h => near x (c.nodes h)

/-- `dg::Lobatto`: take the value at the matching node and test with its basis function only. -/
noncomputable def lobatto (near : Pt → Pt → Bool) : Scheme Pt K n where
  trace c q := do
    let i ← matchPoint near c q.coord
    some (c.nodal i)
  put b p c q flux := do
    let i ← matchPoint near c q.coord
    some (if b then addValue p i flux else minusValue p i flux)

/-- `ScaleValueAt(1 / w, data)` for the nodes of one cell one after another, dg/lobatto.hpp:128-136 and
hexahedron.hpp:573-578; `none` beyond the column. -/
noncomputable def scaleNodes (K : Nat) (col : List ℝ) (off : Nat) : List ℝ → Option (List ℝ)
  | [] => some col
  | w :: ws => do
    let old ← readAt col off K
    let col' ← writeAt col off (old.map (· * (1 / w)))
    scaleNodes K col' (off + K) ws

/-- The loop over cells of `dg::Lobatto::GetResidualColumn`, dg/lobatto.hpp:124-139. -/
noncomputable def scaleAll (K : Nat) (num : Numbering) (col : List ℝ) :
    List (Nat × List ℝ) → Option (List ℝ)
  | [] => some col
  | (p, ws) :: rest => do
    let off ← num.offset p
    let col' ← scaleNodes K col off ws
    scaleAll K num col' rest

/-- `dg::Lobatto::GetResidualColumn`, dg/lobatto.hpp:124-139. -/
noncomputable def lobattoResidual (near : Pt → Pt → Bool) (P : Part Pt K n) (c : Conditions Pt K) (t : ℝ) :
    Option (Numbering × List ℝ) := do
  let (num, col) ← residual (lobatto near) true P c t
  let col ← scaleAll K num col ((List.finRange P.count).map fun p =>
    (p.val, (P.cells p).volume.map (·.weight)))
  some (num, col)

end MiniCFD.Residual
