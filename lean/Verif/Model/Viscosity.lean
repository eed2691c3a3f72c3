import Verif.Model.LocalHex
import Verif.Model.DirectDG

/-!
# Damping matrices of the energy-based viscosity

Model of `BuildDampingMatrices` of `include/mini/spatial/viscosity.hpp` with the functions it calls: `GetGlobalGradient`
of both kinds of `polynomial::Hexahedron`, `MinusViscousFlux` of `riemann::diffusive::Isotropic`, and the element-wise
`AddFluxDivergence` of `dg::General`, `dg::Lobatto` and `fr::General`.  Scalars are real.  The other members of the class
forward to the base and are not modelled.
-/

namespace MiniCFD.Viscosity

open MiniCFD.LocalHex MiniCFD.DirectDG

variable {K N Q : Nat}

/-- `FluxMatrix`. -/
abbrev Flux (K : Nat) := Matrix (Fin K) (Fin 3) ℝ

/-! ### Gradients at Gaussian points -/

/-- `GetGlobalGradient(q)` for `!kLocal`, hexahedron.hpp:349-352; `basis q` is `GetBasisGradients(q)`. -/
noncomputable def gradientGlobal (basis : Fin Q → Matrix (Fin 3) (Fin N) ℝ) (coeff : Coeff K N) (q : Fin Q) :
    Matrix (Fin 3) (Fin K) ℝ := basis q * coeff.transpose

/-- `GetGlobalGradient(q)` for `kLocal`, hexahedron.hpp:359-369, with what the constructor has cached. -/
noncomputable def gradientLocal (cache : Fin N → Cache) (basis : Fin N → Matrix (Fin 3) (Fin N) ℝ) (coeff : Coeff K N)
    (q : Fin N) : Matrix (Fin 3) (Fin K) ℝ :=
  globalGradient (cache q) (getValue (cache q) coeff q) (outer (basis q) coeff)

/-- `GetDiffusiveFluxMatrix`, viscosity.hpp:50-58, for a solver derived from `Isotropic`, whose static coefficients are
`nu`. -/
noncomputable def diffusiveFlux (nu : Fin 3 → ℝ) (gradient : Matrix (Fin 3) (Fin K) ℝ) : Flux K :=
  Matrix.of fun r k => minusFluxMatrix nu gradient 0 k r

/-! ### The flux divergence of a cell, added to zero -/

/-- dg/general.hpp:50-61, and dg/lobatto.hpp:142-151 for `!kLocal`. -/
noncomputable def divergenceGlobal (weight : Fin Q → ℝ) (basis : Fin Q → Matrix (Fin 3) (Fin N) ℝ)
    (flux : Fin Q → Flux K) : Coeff K N :=
  (List.finRange Q).foldl (fun data q => data + (weight q • flux q) * basis q) 0

/-- dg/lobatto.hpp:142-151 for `kLocal`; `weight` is `GetLocalWeight`. -/
noncomputable def divergenceLocal (weight : Fin N → ℝ) (cache : Fin N → Cache) (basis : Fin N → Matrix (Fin 3) (Fin N) ℝ)
    (flux : Fin N → Flux K) : Coeff K N :=
  (List.finRange N).foldl (fun data q => data + (weight q • globalFluxToLocalFlux (cache q) (flux q)) * basis q) 0

/-- fr/general.hpp:232-248. -/
noncomputable def divergenceFR (cache : Fin N → Cache) (basis : Fin N → Matrix (Fin 3) (Fin N) ℝ)
    (flux : Fin N → Flux K) : Coeff K N :=
  let localFlux := fun q => globalFluxToLocalFlux (cache q) (flux q)
  (List.finRange N).foldl (fun data q =>
    let value : Fin K → ℝ := (List.finRange N).foldl (fun v k => v + (localFlux k).mulVec fun d => basis q d k) 0
    Matrix.of fun r i => if i = q then data r i - value r else data r i) 0

/-- What is used of a cell: `GetGlobalGradient(q)` for given coefficients, and the scheme's `AddFluxDivergence`. -/
structure Cell (K N Q : Nat) where
  gradient : Coeff K N → Fin Q → Matrix (Fin 3) (Fin K) ℝ
  divergence : (Fin Q → Flux K) → Coeff K N

/-- A cell of `dg::General` or `dg::Lobatto` with a hexahedron of `!kLocal`. -/
noncomputable def dgGlobal (weight : Fin Q → ℝ) (basis : Fin Q → Matrix (Fin 3) (Fin N) ℝ) : Cell K N Q :=
  ⟨gradientGlobal basis, divergenceGlobal weight basis⟩

/-- A cell of `dg::Lobatto` with a hexahedron of `kLocal`. -/
noncomputable def dgLocal (weight : Fin N → ℝ) (cache : Fin N → Cache) (basis : Fin N → Matrix (Fin 3) (Fin N) ℝ) :
    Cell K N N := ⟨gradientLocal cache basis, divergenceLocal weight cache basis⟩

/-- A cell of `dg::General` with a hexahedron of `kLocal`; `tests q` is `GlobalToBasisGradients`. -/
noncomputable def dgMixed (weight : Fin N → ℝ) (cache : Fin N → Cache)
    (basis tests : Fin N → Matrix (Fin 3) (Fin N) ℝ) : Cell K N N :=
  ⟨gradientLocal cache basis, divergenceGlobal weight tests⟩

/-- A cell of `fr::General` or `fr::Lobatto`. -/
noncomputable def fr (cache : Fin N → Cache) (basis : Fin N → Matrix (Fin 3) (Fin N) ℝ) : Cell K N N :=
  ⟨gradientLocal cache basis, divergenceFR cache basis⟩

/-- `AddFluxDivergence(GetDiffusiveFluxMatrix, cell, residual.data())` on a zero residual, viscosity.hpp:101-103. -/
noncomputable def residual (nu : Fin 3 → ℝ) (c : Cell K N Q) (coeff : Coeff K N) : Coeff K N :=
  c.divergence fun q => diffusiveFlux nu (c.gradient coeff q)

/-! ### The matrices -/

/-- `solution.col(c).setConstant(v)`. -/
noncomputable def setCol (coeff : Coeff K N) (c : Nat) (v : ℝ) : Coeff K N :=
  Matrix.of fun r j => if j.val = c then v else coeff r j

open scoped Classical in
/-- One round of the loop over columns, viscosity.hpp:95-109: the coefficients of the cell and its matrix.  The assertion
that all rows are equal is `none`. -/
noncomputable def column (nu : Fin 3 → ℝ) (c : Cell (K + 1) N Q) (s : Coeff (K + 1) N × Matrix (Fin N) (Fin N) ℝ)
    (j : Fin N) : Option (Coeff (K + 1) N × Matrix (Fin N) (Fin N) ℝ) :=
  let coeff := setCol s.1 j 1
  let coeff := if 0 < j.val then setCol coeff (j - 1) 0 else coeff
  let res := residual nu c coeff
  let matrix : Matrix (Fin N) (Fin N) ℝ := Matrix.of fun i j' => if j' = j then res 0 i else s.2 i j'
  if ∀ r, res r = res 0 then some (coeff, matrix) else none

/-- A cell of the part or a copy of a cell of another part. -/
abbrev Ref (count : Nat) := Fin count ⊕ Nat

/-- What the call reads and writes: the coefficients of all cells, the static diffusion coefficients, and `matrices`. -/
structure State (count K N : Nat) where
  coeff : Ref count → Coeff K N
  nu : Fin 3 → ℝ
  matrices : Fin count → Matrix (Fin N) (Fin N) ℝ

variable {count : Nat}

/-- One round of the loop over cells, viscosity.hpp:87-111.  `GetLocalCellPointers` visits the cells in the order of
their ids (part.hpp:826-831). -/
noncomputable def cell (cells : Fin count → Cell (K + 1) N Q) (adj : Fin count → List (Ref count))
    (s : State count (K + 1) N) (p : Fin count) : Option (State count (K + 1) N) := do
  let coeff := (adj p).foldl (fun coeff n => Function.update coeff n 0) s.coeff
  let (own, matrix) ← (List.finRange N).foldlM (column s.nu (cells p)) (0, s.matrices p)
  some { s with
    coeff := Function.update coeff (.inl p) own
    matrices := Function.update s.matrices p matrix }

/-- `BuildDampingMatrices`, viscosity.hpp:84-113; `junk` is what the new matrices hold. -/
noncomputable def build (cells : Fin count → Cell (K + 1) N Q) (adj : Fin count → List (Ref count))
    (coeff : Ref count → Coeff (K + 1) N) (nu : Fin 3 → ℝ) (junk : Fin count → Matrix (Fin N) (Fin N) ℝ) :
    Option (State count (K + 1) N) :=
  let s : State count (K + 1) N := ⟨coeff, nu, junk⟩
  let s := { s with nu := fun _ => 1 }
  (List.finRange count).foldlM (cell cells adj) s

end MiniCFD.Viscosity
