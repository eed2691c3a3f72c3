import Verif.Lemmas.PyWave
import Verif.Spec.PyWave

/-! Helper lemmas about the wave numbers: moving an element changes nothing. -/

namespace MiniCFD.PyWave
open MiniCFD.PyQuad MiniCFD.PyExpansion MiniCFD.PyDG
open MiniCFD.Spec.PyWave

variable {p n : ℕ}

/-- Two expansions that differ by a translation. -/
structure Twin (d : ℝ) (s t : Setup p) : Prop where
  kind : t.kind = s.kind
  left : t.coordinate.xLeft = s.coordinate.xLeft + d
  right : t.coordinate.xRight = s.coordinate.xRight + d
  nodes : t.nodes = s.nodes
  toTaylor : t.toTaylor = s.toTaylor
  points : ∀ q, t.integrator.points q = s.integrator.points q + d
  weights : t.integrator.weights = s.integrator.weights

section
variable {c e : Coordinate} {d : ℝ} (hl : e.xLeft = c.xLeft + d) (hr : e.xRight = c.xRight + d)
include hl hr

theorem coordinate_center : e.xCenter = c.xCenter + d := by
  rw [e.eq_linear.2.1, c.eq_linear.2.1, hl, hr]; ring

theorem coordinate_jacobian (x : ℝ) : e.localToJacobian x = c.localToJacobian x := by
  rw [e.eq_linear.2.2.1, c.eq_linear.2.2.1, hl, hr]; ring

theorem coordinate_global (x : ℝ) : e.localToGlobal x = c.localToGlobal x + d := by
  rw [e.eq_linear.2.2.2.2.1, c.eq_linear.2.2.2.2.1, hl, hr]; ring

theorem coordinate_local (x : ℝ) : e.globalToLocal (x + d) = c.globalToLocal x := by
  rw [e.eq_linear.2.2.2.2.2, c.eq_linear.2.2.2.2.2, hl, hr]; congr 1 <;> ring

theorem integrator_twin (rule : Rule p) : (∀ q, (rule.integrator e).points q = (rule.integrator c).points q + d) ∧
    (rule.integrator e).weights = (rule.integrator c).weights := by
  refine ⟨fun q => coordinate_global hl hr _, funext fun q => ?_⟩
  simp only [Rule.integrator, coordinate_jacobian hl hr]

theorem lagrange_twin {k : Kind} {nodes : Fin (p + 1) → ℝ} {rule : Rule p} {s t : Setup p}
    (hs : lagrange k c nodes rule = some s) (ht : lagrange k e nodes rule = some t) : Twin d s t := by
  have hrows : (fun i (k : Fin (p + 1)) => taylorValues e.xCenter (samplePoints e nodes i) k : Matrix (Fin (p + 1)) (Fin (p + 1)) ℝ) =
      fun i (k : Fin (p + 1)) => taylorValues c.xCenter (samplePoints c nodes i) k := by
    funext i k
    rw [taylorValues, taylorValues, samplePoints, samplePoints, coordinate_center hl hr, coordinate_global hl hr]
    congr 1
    ring
  unfold lagrange at hs ht
  dsimp only at hs ht
  rw [hrows] at ht
  split_ifs at hs ht with h0
  cases hs
  cases ht
  obtain ⟨h1, h2⟩ := integrator_twin (c := c) (e := e) hl hr rule
  exact ⟨rfl, hl, hr, rfl, rfl, h1, h2⟩

theorem modal_twin {rule : Rule p} {s t : Setup p}
    (hs : PyExpansion.modal c rule = some s) (ht : PyExpansion.modal e rule = some t) : Twin d s t := by
  unfold PyExpansion.modal at hs ht
  dsimp only at hs ht
  rw [coordinate_jacobian hl hr] at ht
  split_ifs at hs ht with h0
  cases hs
  cases ht
  obtain ⟨h1, h2⟩ := integrator_twin (c := c) (e := e) hl hr rule
  exact ⟨rfl, hl, hr, rfl, rfl, h1, h2⟩

theorem make_twin {maker : Maker p} {s t : Setup p} (hs : maker.make c = some s) (ht : maker.make e = some t) :
    Twin d s t := by
  cases maker with
  | uniform rule => exact lagrange_twin hl hr hs ht
  | legendreRoots rule => exact lagrange_twin hl hr hs ht
  | lobatto =>
    change onLobattoRoots p c = some s at hs
    change onLobattoRoots p e = some t at ht
    unfold onLobattoRoots at hs ht
    cases hq : PyQuad.lobatto p with
    | none => simp [hq] at hs
    | some rule =>
      simp only [hq, Option.bind_some] at hs ht
      exact lagrange_twin hl hr hs ht
  | modal rule => exact modal_twin hl hr hs ht

end

theorem built {maker : Maker p} (ex : maker.Exact) {c : Coordinate} {s : Setup p} (h : maker.make c = some s) : Built c s := by
  cases maker with
  | uniform rule => exact .uniform rule ex h
  | legendreRoots rule => exact .legendreRoots rule ex h
  | lobatto => exact .lobatto h
  | modal rule => exact .modal rule ex h

theorem nodal {maker : Maker p} (hn : maker.Nodal) {c : Coordinate} {s : Setup p} (h : maker.make c = some s) :
    s.kind ≠ .modal := by
  have key : ∀ {k : Kind} {nodes : Fin (p + 1) → ℝ} {rule : Rule p}, k ≠ .modal → lagrange k c nodes rule = some s →
      s.kind ≠ .modal := by
    intro k nodes rule hk h
    unfold lagrange at h
    dsimp only at h
    split_ifs at h
    cases h
    exact hk
  cases maker with
  | uniform rule => exact key (by simp) h
  | legendreRoots rule => exact key (by simp) h
  | lobatto =>
    change onLobattoRoots p c = some s at h
    unfold onLobattoRoots at h
    cases hq : PyQuad.lobatto p with
    | none => simp [hq] at h
    | some rule =>
      simp only [hq, Option.bind_some] at h
      exact key (by simp) h
  | modal rule => exact absurd hn (by simp [Maker.Nodal])

namespace Twin
variable {d : ℝ} {s t : Setup p} (h : Twin d s t)
include h

theorem center : t.coordinate.xCenter = s.coordinate.xCenter + d := coordinate_center h.left h.right

theorem points' (i : Fin (p + 1)) : t.points i = s.points i + d := by
  rw [Setup.points, Setup.points, samplePoints, samplePoints, h.nodes, coordinate_global h.left h.right]

theorem end_ (left : Bool) : t.end_ left = s.end_ left + d := by
  cases left
  · exact h.right
  · exact h.left

theorem sub (x : ℝ) : x + d - t.coordinate.xCenter = x - s.coordinate.xCenter := by rw [h.center]; ring

theorem derivatives (x : ℝ) (k : ℕ) : t.basisDerivatives (x + d) k = s.basisDerivatives x k := by
  funext i
  simp only [Setup.basisDerivatives, taylorDerivatives, taylorValues, h.sub, h.toTaylor]

theorem gradients (x : ℝ) : t.basisGradients (x + d) = s.basisGradients x := by
  funext i
  simp only [Setup.basisGradients, taylorGradients, h.sub, h.toTaylor]

theorem valueRow_eq (x : ℝ) : valueRow t (x + d) = valueRow s x := by
  funext j
  simp only [valueRow, taylorValues, h.sub, h.toTaylor]

theorem node (j : Fin (p + 1)) (k : ℕ) : nodeBasisDerivatives t j k = nodeBasisDerivatives s j k := by
  funext i
  simp only [nodeBasisDerivatives, h.points', h.derivatives]

theorem boundary (k : ℕ) (left : Bool) : boundaryBasisDerivatives t k left = boundaryBasisDerivatives s k left := by
  funext i
  simp only [boundaryBasisDerivatives, h.kind, h.end_, h.derivatives, h.node]

theorem endRow_eq (left : Bool) : endRow t left = endRow s left := by
  funext j
  simp only [endRow, h.kind, h.boundary]

theorem values (x : ℝ) : t.basisValues (x + d) = s.basisValues x := by
  funext i
  simp only [Setup.basisValues, h.kind, h.nodes, coordinate_local h.left h.right]

theorem products : t.innerProducts = s.innerProducts := by
  funext i j
  simp only [Setup.innerProducts, Integrator.integrate_eq, h.points, h.weights, h.values]

theorem massInverse_eq : massInverse t = massInverse s := by
  have hw : t.modeWeight = s.modeWeight := by
    funext k
    simp only [Setup.modeWeight, coordinate_jacobian h.left h.right]
  unfold massInverse
  rw [h.kind, h.products, h.weights, hw]

theorem dgInterior_eq (a : ℝ) : dgInterior a t = dgInterior a s := by
  funext i j
  unfold dgInterior
  simp only [h.kind, h.weights, h.node, h.points, h.gradients, h.valueRow_eq]

theorem gapRow_eq (left : Bool) : gapRow t left = gapRow s left := by
  funext j
  unfold gapRow
  simp only [h.kind, h.end_, h.valueRow_eq, h.endRow_eq]

theorem frInterior_eq (a : ℝ) : frInterior a t = frInterior a s := by
  funext i j
  unfold frInterior
  simp only [h.kind, h.points', h.gradients, h.node]

theorem correction_eq (g : PyFR.Correction) (x : ℝ) :
    PyFR.correctionGradients g t (x + d) = PyFR.correctionGradients g s x := by
  simp only [PyFR.correctionGradients, coordinate_local h.left h.right, coordinate_jacobian h.left h.right]

theorem dgOwn_eq (a : ℝ) : dgOwn a t = dgOwn a s := by
  unfold dgOwn
  rw [h.massInverse_eq, h.dgInterior_eq, h.boundary, h.endRow_eq]

theorem frOwn_eq (g : PyFR.Correction) (a : ℝ) : frOwn g a t = frOwn g a s := by
  unfold frOwn
  simp only [h.frInterior_eq, h.points', h.correction_eq, h.gapRow_eq, h.endRow_eq]

end Twin

theorem dgLeft_eq {d d' : ℝ} {s t l m : Setup p} (h : Twin d s t) (h' : Twin d' l m) (a : ℝ) :
    dgLeft a t m = dgLeft a s l := by
  unfold dgLeft
  rw [h.massInverse_eq, h.boundary, h'.endRow_eq]

theorem frLeft_eq {d d' : ℝ} {s t l m : Setup p} (h : Twin d s t) (h' : Twin d' l m) (g : PyFR.Correction) (a : ℝ) :
    frLeft g a t m = frLeft g a s l := by
  unfold frLeft
  simp only [h.points', h.correction_eq, h'.endRow_eq]

end MiniCFD.PyWave
