import Verif.Model.PyWave
import Verif.Props.PyEnergy
import Verif.Props.PyFR

/-! Helper lemmas about the wave numbers: the schemes for linear advection as matrices. -/

namespace MiniCFD.PyWave
open MiniCFD.PyQuad MiniCFD.PyExpansion MiniCFD.PyDG

variable {p n : ℕ}

/-! ### The parts of a scheme as matrices -/

/-- The row that gives the value at an end. -/
noncomputable def endRow (s : Setup p) (left : Bool) (j : Fin (p + 1)) : ℝ :=
  match s.kind with
  | .lobatto => if j = (if left then 0 else Fin.last p) then 1 else 0
  | _ => boundaryBasisDerivatives s 0 left j

theorem boundary_row (s : Setup p) (v : Fin (p + 1) → ℂ) (left : Bool) :
    boundaryDerivatives s (setCoeff s v) 0 left = ∑ j, endRow s left j • v j := by
  unfold boundaryDerivatives endRow
  cases s.kind <;> simp [nodeDerivatives, setCoeff]

/-- The row that gives the value by the Taylor expansion. -/
noncomputable def valueRow (s : Setup p) (x : ℝ) (j : Fin (p + 1)) : ℝ :=
  ∑ l : Fin (p + 1), taylorValues s.coordinate.xCenter x l * s.toTaylor l j

theorem value_row (s : Setup p) (v : Fin (p + 1) → ℂ) (x : ℝ) :
    s.value (setCoeff s v) x = ∑ j, valueRow s x j • v j := by
  simp only [Setup.value, taylorValue, setCoeff, PyExpansion.apply, valueRow, Finset.smul_sum, Finset.sum_smul, smul_smul]
  rw [Finset.sum_comm]

/-- The cell that `setColumn` makes. -/
noncomputable def cell (s : Setup p) (v : Fin (p + 1) → ℂ) : Cell p ℂ := ⟨s, setCoeff s v, none⟩

theorem flux_advection (a : ℝ) (s : Setup p) (v : Fin (p + 1) → ℂ) (x : ℝ) (u du : ℂ) :
    dgFlux (advection a) (cell s v) x u du = a • u := by
  simp [dgFlux, advection, cell]

/-- The matrix of `get_interior_residual` of DG. -/
noncomputable def dgInterior (a : ℝ) (s : Setup p) (i j : Fin (p + 1)) : ℝ :=
  let nodal := s.integrator.weights j * (nodeBasisDerivatives s j 1 i * a)
  let plain := ∑ q, s.integrator.weights q * (s.basisGradients (s.integrator.points q) i * (a * valueRow s (s.integrator.points q) j))
  match s.kind with
  | .uniform => plain
  | .modal => plain
  | .legendreRoots => nodal
  | .lobatto => nodal

theorem dg_interior (a : ℝ) (s : Setup p) (v : Fin (p + 1) → ℂ) (i : Fin (p + 1)) :
    PyDG.interior (advection a) (cell s v) i = ∑ j, dgInterior a s i j • v j := by
  have hplain : s.integrator.integrate (fun x => s.basisGradients x i • dgFluxAt (advection a) (cell s v) x) =
      ∑ j, (∑ q, s.integrator.weights q * (s.basisGradients (s.integrator.points q) i *
        (a * valueRow s (s.integrator.points q) j))) • v j := by
    simp only [Integrator.integrate_eq, dgFluxAt, flux_advection, Finset.sum_smul]
    rw [Finset.sum_comm]
    refine Finset.sum_congr rfl fun q _ => ?_
    rw [show (cell s v).setup.value (cell s v).state (s.integrator.points q) =
      ∑ j, valueRow s (s.integrator.points q) j • v j from value_row s v _]
    simp only [Finset.smul_sum, smul_smul, mul_assoc]
  have hnodal : s.integrator.integrateIndex (fun j => nodeBasisDerivatives s j 1 i •
      dgFlux (advection a) (cell s v) (s.points j) (nodeDerivatives s (cell s v).state j 0)
        (nodeDerivatives s (cell s v).state j 1)) =
      ∑ j, (s.integrator.weights j * (nodeBasisDerivatives s j 1 i * a)) • v j := by
    simp only [Integrator.integrateIndex_eq, flux_advection]
    refine Finset.sum_congr rfl fun j _ => ?_
    simp only [nodeDerivatives, if_true, smul_smul, mul_assoc]
    rfl
  unfold PyDG.interior dgInterior
  have hs : (cell s v).setup = s := rfl
  simp only [hs]
  cases hk : s.kind <;> simp only <;> first | exact hplain | exact hnodal

open scoped Classical in
/-- The matrix of `divide_mass_matrix`. -/
noncomputable def massInverse (s : Setup p) : Matrix (Fin (p + 1)) (Fin (p + 1)) ℝ :=
  match s.kind with
  | .uniform => s.innerProducts⁻¹
  | .legendreRoots => fun i j => if i = j then (s.integrator.weights i)⁻¹ else 0
  | .lobatto => fun i j => if i = j then (s.integrator.weights i)⁻¹ else 0
  | .modal => fun i j => if i = j then (s.modeWeight i)⁻¹ else 0

theorem divide_matrix {c : Coordinate} (hc : c.xLeft < c.xRight) {s : Setup p} (h : Built c s) (column : Fin (p + 1) → ℂ) :
    divideMass s column = some (PyExpansion.apply (massInverse s) column) := by
  obtain ⟨r, hr, _⟩ := divideMass_spec hc h column
  have hdiag : ∀ w : Fin (p + 1) → ℝ, (fun k => (w k)⁻¹ • column k) =
      PyExpansion.apply (fun i j => if i = j then (w i)⁻¹ else 0) column := by
    intro w
    funext k
    simp [PyExpansion.apply, ite_smul]
  unfold divideMass at hr ⊢
  unfold massInverse
  cases hk : s.kind <;> simp only [hk, divideRows] at hr ⊢
  · split_ifs at hr ⊢ with h0
    rfl
  · split_ifs at hr ⊢ with h0
    rw [hdiag]
  · split_ifs at hr ⊢ with h0
    rw [hdiag]
  · split_ifs at hr ⊢ with h0
    rw [hdiag]

/-! ### Faces -/

theorem face_advection {a : ℝ} (ha : 0 ≤ a) (s s' : Setup p) (v v' : Fin (p + 1) → ℂ) :
    PyDG.interface (advection a) (cell s v) (cell s' v') = (a • ∑ j, endRow s false j • v j, 0) := by
  unfold PyDG.interface
  have e1 : (cell s v).extra (cell s v).setup.coordinate.xRight = 0 := rfl
  have e2 : (cell s' v').extra (cell s' v').setup.coordinate.xLeft = 0 := rfl
  have e3 : ∀ u, (advection a).coefficient u = 0 := fun _ => rfl
  simp only [e1, e2, e3, min_self, add_zero, if_true, sub_self]
  rw [show boundaryDerivatives (cell s v).setup (cell s v).state 0 false = ∑ j, endRow s false j • v j from boundary_row s v false]
  simp [advection, ha]

theorem faces {a : ℝ} (ha : 0 ≤ a) (setups : Fin (n + 2) → Setup p) (u : Fin (n + 2) → Fin (p + 1) → ℂ) (i : Fin (n + 2)) :
    faceData (advection a) (setColumn setups u) i =
      ⟨a • ∑ j, endRow (setups (i - 1)) false j • u (i - 1) j, a • ∑ j, endRow (setups i) false j • u i j, 0, 0⟩ := by
  have hl : ∀ i, leftFace (advection a) (setColumn setups u) i =
      (a • ∑ j, endRow (setups (i - 1)) false j • u (i - 1) j, 0) := by
    intro i
    rw [PyEnergy.periodic_left _ _ rfl]
    exact face_advection ha _ _ _ _
  have hr : rightFace (advection a) (setColumn setups u) i = (a • ∑ j, endRow (setups i) false j • u i j, 0) := by
    rw [PyEnergy.periodic_right _ _ rfl, hl, add_sub_cancel_right]
  simp only [faceData, hl, hr]

/-! ### The schemes -/

/-- The matrices of DG: what an element contributes to its own residual and what the element at its left contributes. -/
noncomputable def dgOwn (a : ℝ) (s : Setup p) : Matrix (Fin (p + 1)) (Fin (p + 1)) ℝ :=
  massInverse s * Matrix.of fun i j => dgInterior a s i j - boundaryBasisDerivatives s 0 false i * (a * endRow s false j)
noncomputable def dgLeft (a : ℝ) (s l : Setup p) : Matrix (Fin (p + 1)) (Fin (p + 1)) ℝ :=
  massInverse s * Matrix.of fun i j => boundaryBasisDerivatives s 0 true i * (a * endRow l false j)

theorem apply_sum {m : Matrix (Fin (p + 1)) (Fin (p + 1)) ℝ} (v w : Fin (p + 1) → ℂ) :
    PyExpansion.apply m (fun i => v i + w i) = fun i => PyExpansion.apply m v i + PyExpansion.apply m w i := by
  funext i
  simp [PyExpansion.apply, smul_add, Finset.sum_add_distrib]

theorem dg_form {co : Fin (n + 2) → Coordinate} (hc : ∀ i, (co i).xLeft < (co i).xRight) {a : ℝ} (ha : 0 ≤ a)
    {setups : Fin (n + 2) → Setup p} (hb : ∀ i, Built (co i) (setups i)) (u : Fin (n + 2) → Fin (p + 1) → ℂ) (i : Fin (n + 2)) :
    PyDG.residual (advection a) (setColumn setups u) i = some fun k =>
      PyExpansion.apply (dgOwn a (setups i)) (u i) k + PyExpansion.apply (dgLeft a (setups i) (setups (i - 1))) (u (i - 1)) k := by
  rw [PyDG.residual, PyDG.cellResidual, faces ha]
  have hcell : (setColumn setups u).cells i = cell (setups i) (u i) := rfl
  rw [hcell]
  have hload : PyDG.load (advection a) (cell (setups i) (u i))
      ⟨a • ∑ j, endRow (setups (i - 1)) false j • u (i - 1) j, a • ∑ j, endRow (setups i) false j • u i j, 0, 0⟩ =
      fun k => PyExpansion.apply (Matrix.of fun i' j => dgInterior a (setups i) i' j -
          boundaryBasisDerivatives (setups i) 0 false i' * (a * endRow (setups i) false j)) (u i) k +
        PyExpansion.apply (Matrix.of fun i' j => boundaryBasisDerivatives (setups i) 0 true i' *
          (a * endRow (setups (i - 1)) false j)) (u (i - 1)) k := by
    funext k
    simp only [PyDG.load, dg_interior, smul_zero, add_zero, sub_zero, PyExpansion.apply, Matrix.of_apply, sub_smul,
      Finset.sum_sub_distrib, Finset.smul_sum, smul_smul]
    have hs : (cell (setups i) (u i)).setup = setups i := rfl
    simp only [hs, mul_assoc]
    abel
  rw [hload]
  have hs : (cell (setups i) (u i)).setup = setups i := rfl
  rw [hs, divide_matrix (hc i) (hb i), apply_sum]
  simp only [dgOwn, dgLeft, ← apply_mul]

/-- The rows that give the value at an end as FR computes it. -/
noncomputable def gapRow (s : Setup p) (left : Bool) (j : Fin (p + 1)) : ℝ :=
  match s.kind with
  | .uniform => valueRow s (s.end_ left) j
  | _ => endRow s left j

/-- The matrix of `get_interior_residual` of FR. -/
noncomputable def frInterior (a : ℝ) (s : Setup p) (i j : Fin (p + 1)) : ℝ :=
  match s.kind with
  | .uniform => -(s.basisGradients (s.points i) j * a)
  | _ => -(nodeBasisDerivatives s i 1 j * a)

noncomputable def frOwn (g : PyFR.Correction) (a : ℝ) (s : Setup p) : Matrix (Fin (p + 1)) (Fin (p + 1)) ℝ :=
  Matrix.of fun i j => frInterior a s i j + (PyFR.correctionGradients g s (s.points i)).1 * (a * gapRow s true j) -
    (PyFR.correctionGradients g s (s.points i)).2 * (a * endRow s false j - a * gapRow s false j)
noncomputable def frLeft (g : PyFR.Correction) (a : ℝ) (s l : Setup p) : Matrix (Fin (p + 1)) (Fin (p + 1)) ℝ :=
  Matrix.of fun i j => -((PyFR.correctionGradients g s (s.points i)).1 * (a * endRow l false j))

theorem fr_interior (a : ℝ) (s : Setup p) (v : Fin (p + 1) → ℂ) (i : Fin (p + 1)) :
    PyFR.interior (advection a) (cell s v) i = ∑ j, frInterior a s i j • v j := by
  have hflux : ∀ j, PyFR.nodeFlux (advection a) (cell s v) j = a • v j := by
    intro j
    simp only [PyFR.nodeFlux, flux_advection, nodeDerivatives, if_true]
    rfl
  unfold PyFR.interior frInterior
  have hs : (cell s v).setup = s := rfl
  simp only [hs]
  cases hk : s.kind <;> simp only [PyFR.dgFluxGradient, hflux, hs, smul_smul, neg_smul, Finset.sum_neg_distrib]

theorem fr_gaps (a : ℝ) (s : Setup p) (v : Fin (p + 1) → ℂ) (l r : ℂ) :
    PyFR.gaps (advection a) (cell s v) l r =
      (l - a • ∑ j, gapRow s true j • v j, r - a • ∑ j, gapRow s false j • v j) := by
  unfold PyFR.gaps gapRow
  have hs : (cell s v).setup = s := rfl
  have hst : (cell s v).state = setCoeff s v := rfl
  simp only [hs, hst]
  cases hk : s.kind <;> simp only [dgFluxAt, flux_advection, hs, hst, value_row, boundary_row, Setup.end_] <;> rfl

theorem fr_form {a : ℝ} (ha : 0 ≤ a) {setups : Fin (n + 2) → Setup p} (g : PyFR.Correction)
    (u : Fin (n + 2) → Fin (p + 1) → ℂ) (i : Fin (n + 2)) (hk : (setups i).kind ≠ .modal) :
    PyFR.residual (advection a) (some g) (setColumn setups u) i = some fun k =>
      PyExpansion.apply (frOwn g a (setups i)) (u i) k + PyExpansion.apply (frLeft g a (setups i) (setups (i - 1))) (u (i - 1)) k := by
  rw [PyFR.residual, faces ha]
  have hcell : (setColumn setups u).cells i = cell (setups i) (u i) := rfl
  rw [hcell]
  have key : (fun k => PyFR.interior (advection a) (cell (setups i) (u i)) k -
        (PyFR.correctionGradients g (setups i) ((setups i).points k)).1 •
          (a • ∑ j, endRow (setups (i - 1)) false j • u (i - 1) j - a • ∑ j, gapRow (setups i) true j • u i j) -
        (PyFR.correctionGradients g (setups i) ((setups i).points k)).2 •
          (a • ∑ j, endRow (setups i) false j • u i j - a • ∑ j, gapRow (setups i) false j • u i j)) =
      fun k => PyExpansion.apply (frOwn g a (setups i)) (u i) k +
        PyExpansion.apply (frLeft g a (setups i) (setups (i - 1))) (u (i - 1)) k := by
    funext k
    simp only [fr_interior, PyExpansion.apply, frOwn, frLeft, Matrix.of_apply, sub_smul, add_smul, neg_smul, mul_sub,
      Finset.sum_sub_distrib, Finset.sum_add_distrib, Finset.sum_neg_distrib, smul_sub, Finset.smul_sum, smul_smul, mul_assoc]
    abel
  have hs : (cell (setups i) (u i)).setup = setups i := rfl
  unfold PyFR.cellResidual
  rw [hs]
  cases hkk : (setups i).kind <;> simp only [hkk] at hk ⊢ <;>
    first | exact absurd rfl hk | (simp only [fr_gaps, hs]; rw [← key])

end MiniCFD.PyWave
