import Verif.Lemmas.PyWaveTwin

/-! # C122: the matrix of the wave number analysis -/

namespace MiniCFD.PyWave
open MiniCFD.PyQuad MiniCFD.PyExpansion MiniCFD.PyDG
open MiniCFD.Spec.PyWave

variable {p n : ℕ} {maker : Maker p} {h a : ℝ} {scheme : Scheme}

/-- The scheme can be built: FR needs a nodal expansion and a correction function of the right degree. -/
def Fits (maker : Maker p) : Scheme → Prop
  | .dg => True
  | .fr g => maker.Nodal ∧ g.degree = p + 1

/-- On grids of equal elements the residual of an element is one real matrix times its own column plus another times the column
of the element at its left, and these matrices are those of every grid. -/
theorem stencil (ex : maker.Exact) (fits : Fits maker scheme) (hh : 0 < h) (ha : 0 ≤ a) :
    ∃ A B : Matrix (Fin (p + 1)) (Fin (p + 1)) ℝ, ∀ (n : ℕ) (co : Fin (n + 2) → Coordinate) (setups : Fin (n + 2) → Setup p),
      Equal maker h co setups → ∀ (u : Fin (n + 2) → Fin (p + 1) → ℂ) (i : Fin (n + 2)),
        residual scheme (advection a) (setColumn setups u) i =
          some fun k => ∑ j, (A k j : ℂ) * u i j + ∑ j, (B k j : ℂ) * u (i - 1) j := by
  by_cases he : ∃ (c : Coordinate) (s : Setup p), c.xRight - c.xLeft = h ∧ maker.make c = some s
  swap
  · exact ⟨0, 0, fun n co setups hq => absurd ⟨co 0, setups 0, hq.length 0, hq.made 0⟩ he⟩
  obtain ⟨c, s, hch, hs⟩ := he
  have twin : ∀ {e : Coordinate} {t : Setup p}, e.xRight - e.xLeft = h → maker.make e = some t →
      Twin (e.xLeft - c.xLeft) s t := fun {e t} he ht =>
    make_twin (by ring) (by linarith) hs ht
  have hlt : ∀ {e : Coordinate}, e.xRight - e.xLeft = h → e.xLeft < e.xRight := fun he => by linarith
  cases scheme with
  | dg =>
    refine ⟨dgOwn a s, dgLeft a s s, fun n co setups hq u i => ?_⟩
    rw [residual, dg_form (co := co) (fun i => hlt (hq.length i)) ha (fun i => built ex (hq.made i))]
    have t1 := twin (hq.length i) (hq.made i)
    have t2 := twin (hq.length (i - 1)) (hq.made (i - 1))
    rw [t1.dgOwn_eq, dgLeft_eq t1 t2]
    simp only [PyExpansion.apply, Complex.real_smul]
  | fr g =>
    refine ⟨frOwn g a s, frLeft g a s s, fun n co setups hq u i => ?_⟩
    rw [residual, PyFR.addCorrection, if_pos fits.2, fr_form ha g u i (nodal fits.1 (hq.made i))]
    have t1 := twin (hq.length i) (hq.made i)
    have t2 := twin (hq.length (i - 1)) (hq.made (i - 1))
    rw [t1.frOwn_eq, frLeft_eq t1 t2]
    simp only [PyExpansion.apply, Complex.real_smul]

theorem phase_ne (kappa : ℝ) (i : ℕ) : phase kappa i ≠ 0 := Complex.exp_ne_zero _

theorem phase_pred (kappa : ℝ) {i : Fin (n + 2)} (hi : i ≠ 0) :
    phase kappa ((i - 1 : Fin (n + 2)) : ℕ) = Complex.exp (-(Complex.I * kappa)) * phase kappa i := by
  rw [Fin.val_sub_one_of_ne_zero hi, phase, phase, ← Complex.exp_add]
  have : 1 ≤ (i : ℕ) := Nat.one_le_iff_ne_zero.2 fun h0 => hi (Fin.ext h0)
  rw [Nat.cast_sub this]
  congr 1
  push_cast
  ring

theorem phase_zero_pred (kappa : ℝ) :
    phase kappa ((0 - 1 : Fin (n + 2)) : ℕ) = Complex.exp (-(Complex.I * kappa)) * phase kappa (n + 2) := by
  have : ((0 - 1 : Fin (n + 2)) : ℕ) = n + 1 := by
    have : (0 : Fin (n + 2)) - 1 = Fin.last _ := by rw [sub_eq_iff_eq_add, Fin.last_add_one]
    rw [this]
    rfl
  rw [this, phase, phase, ← Complex.exp_add]
  congr 1
  push_cast
  ring

/-- What the analysis computes, with the matrices of `stencil`: every block but the first is the symbol of the scheme, and the
first is the one where the wave does not close. -/
theorem blocks {A B : Matrix (Fin (p + 1)) (Fin (p + 1)) ℝ} {setups : Fin (n + 2) → Setup p}
    (hAB : ∀ (u : Fin (n + 2) → Fin (p + 1) → ℂ) (i : Fin (n + 2)), residual scheme (advection a) (setColumn setups u) i =
      some fun k => ∑ j, (A k j : ℂ) * u i j + ∑ j, (B k j : ℂ) * u (i - 1) j) (kappa : ℝ) :
    (∀ i, i ≠ 0 → block scheme a setups kappa i =
      some (Matrix.of fun k j => (A k j : ℂ) + Complex.exp (-(Complex.I * kappa)) * B k j)) ∧
    block scheme a setups kappa 0 =
      some (Matrix.of fun k j => (A k j : ℂ) + Complex.exp (Complex.I * (n + 1) * kappa) * B k j) := by
  have col : ∀ i j, blockColumn scheme a setups kappa i j =
      some fun k => (A k j : ℂ) + phase kappa ((i - 1 : Fin (n + 2)) : ℕ) / phase kappa i * B k j := by
    intro i j
    rw [blockColumn, hAB, Option.map_some]
    congr 1
    funext k
    have := phase_ne kappa i
    simp only [ite_mul, one_mul, zero_mul, mul_ite, mul_zero, Finset.sum_ite_eq', Finset.mem_univ, if_true]
    field_simp
  have blk : ∀ i, block scheme a setups kappa i =
      some (Matrix.of fun k j => (A k j : ℂ) + phase kappa ((i - 1 : Fin (n + 2)) : ℕ) / phase kappa i * B k j) := by
    intro i
    have hs : ∀ j, (blockColumn scheme a setups kappa i j).isSome := fun j => by rw [col]; rfl
    rw [block, dif_pos hs]
    congr 1
    ext k j
    exact congrFun (Option.get_of_eq_some (hs j) (col i j)) k
  refine ⟨fun i hi => ?_, ?_⟩
  · rw [blk, phase_pred kappa hi, mul_div_cancel_right₀ _ (phase_ne kappa i)]
  · rw [blk, phase_zero_pred]
    have e : Complex.exp (-(Complex.I * kappa)) * phase kappa (n + 2) / phase kappa ((0 : Fin (n + 2)) : ℕ) =
        Complex.exp (Complex.I * (n + 1) * kappa) := by
      simp only [phase, Fin.val_zero, Nat.cast_zero, mul_zero, zero_mul, Complex.exp_zero, div_one]
      rw [← Complex.exp_add]
      congr 1
      push_cast
      ring
    rw [e]

/-- The matrix is defined, does not depend on the number of elements and on their position, is periodic in the wave number, and
its conjugate is that of the opposite wave. -/
theorem symbol (ex : maker.Exact) (fits : Fits maker scheme) (hh : 0 < h) (ha : 0 ≤ a) :
    ∃ M : ℝ → Matrix (Fin (p + 1)) (Fin (p + 1)) ℂ,
      (∀ (n : ℕ) (co : Fin (n + 2) → Coordinate) (setups : Fin (n + 2) → Setup p), Equal maker h co setups →
        ∀ kappa, spatialMatrix scheme a setups kappa = some (M kappa) ∧
          ∀ i, i ≠ 0 → block scheme a setups kappa i = some (M kappa)) ∧
      (∀ kappa (m : ℤ), M (kappa + m * (2 * Real.pi)) = M kappa) ∧
      ∀ kappa, M (-kappa) = (M kappa).map (starRingEnd ℂ) := by
  obtain ⟨A, B, hAB⟩ := stencil ex fits hh ha
  refine ⟨fun kappa => Matrix.of fun k j => (A k j : ℂ) + Complex.exp (-(Complex.I * kappa)) * B k j,
    fun n co setups hq kappa => ⟨?_, ?_⟩, fun kappa m => ?_, fun kappa => ?_⟩
  · exact (blocks (hAB n co setups hq) kappa).1 _ (by simp)
  · exact (blocks (hAB n co setups hq) kappa).1
  · have : Complex.exp (-(Complex.I * ((kappa + m * (2 * Real.pi) : ℝ) : ℂ))) = Complex.exp (-(Complex.I * kappa)) := by
      rw [Complex.exp_eq_exp_iff_exists_int]
      refine ⟨-m, ?_⟩
      push_cast
      ring
    dsimp only
    rw [this]
  · ext k j
    simp only [Matrix.of_apply, Matrix.map_apply, map_add, map_mul, Complex.conj_ofReal, ← Complex.exp_conj, map_neg,
      Complex.conj_I]
    push_cast
    ring_nf

/-- A wave stays a wave: away from the first element, and everywhere if the wave closes on the grid, the residual of a wave is the
matrix applied to its column. -/
theorem wave_residual (ex : maker.Exact) (fits : Fits maker scheme) (hh : 0 < h) (ha : 0 ≤ a) {co : Fin (n + 2) → Coordinate}
    {setups : Fin (n + 2) → Setup p} (hq : Equal maker h co setups) {kappa : ℝ} {m : Matrix (Fin (p + 1)) (Fin (p + 1)) ℂ}
    (hm : spatialMatrix scheme a setups kappa = some m) (v : Fin (p + 1) → ℂ) (i : Fin (n + 2))
    (hi : i ≠ 0 ∨ phase kappa (n + 2) = 1) :
    residual scheme (advection a) (setColumn setups fun j k => v k * phase kappa j) i =
      some fun k => m.mulVec v k * phase kappa i := by
  obtain ⟨A, B, hAB⟩ := stencil ex fits hh ha
  have hl := (blocks (hAB n co setups hq) kappa).1 (Fin.last _) (by simp)
  rw [spatialMatrix, hl] at hm
  cases hm
  rw [hAB n co setups hq]
  congr 1
  funext k
  have hp : phase kappa ((i - 1 : Fin (n + 2)) : ℕ) = Complex.exp (-(Complex.I * kappa)) * phase kappa i := by
    by_cases h0 : i = 0
    · have h1 := hi.resolve_left (fun h => h h0)
      subst h0
      rw [phase_zero_pred, h1]
      simp [phase]
    · exact phase_pred kappa h0
  simp only [hp, Matrix.mulVec, dotProduct, Matrix.of_apply, add_mul, Finset.sum_add_distrib, Finset.sum_mul]
  congr 1
  · exact Finset.sum_congr rfl fun j _ => by ring
  · exact Finset.sum_congr rfl fun j _ => by ring

/-- What a modified wave number means: the eigenvectors give waves that solve the semi-discrete equations and move as waves with
the modified wave number do. -/
theorem wave_solves (ex : maker.Exact) (fits : Fits maker scheme) (hh : 0 < h) (ha : 0 < a) {co : Fin (n + 2) → Coordinate}
    {setups : Fin (n + 2) → Setup p} (hq : Equal maker h co setups) {kappa : ℝ} {m : Matrix (Fin (p + 1)) (Fin (p + 1)) ℂ}
    (hm : modifiedMatrix scheme a setups kappa = some m) (hk : phase kappa (n + 2) = 1) (v : Fin (p + 1) → ℂ) {tilde : ℂ}
    (hv : m.mulVec v = tilde • v) (t : ℝ) (i : Fin (n + 2)) :
    ∃ r, residual scheme (advection a) (setColumn setups fun j k =>
        v k * Complex.exp (Complex.I * (j * kappa - tilde * (a * t / h)))) i = some r ∧
      ∀ k, HasDerivAt (fun t : ℝ => v k * Complex.exp (Complex.I * (i * kappa - tilde * (a * t / h)))) (r k) t := by
  obtain ⟨M, hM, rfl⟩ : ∃ M, spatialMatrix scheme a setups kappa = some M ∧
      (Complex.I * ((setups 0).coordinate.length : ℂ) / a) • M = m := by
    simpa [modifiedMatrix, Option.map_eq_some_iff] using hm
  have hlen : (setups 0).coordinate.length = h := by
    rw [((built ex (hq.made 0)).sane (by have := hq.length 0; linarith)).2, (co 0).eq_linear.1, hq.length]
  have hhC : (h : ℂ) ≠ 0 := by exact_mod_cast hh.ne'
  have haC : (a : ℂ) ≠ 0 := by exact_mod_cast ha.ne'
  rw [hlen] at hv
  have hMv : M.mulVec v = (-(Complex.I * tilde * a / h)) • v := by
    have e : (-(Complex.I * a / h)) • ((Complex.I * (h : ℂ) / a) • M).mulVec v = M.mulVec v := by
      rw [Matrix.smul_mulVec, smul_smul]
      have : -(Complex.I * a / h) * (Complex.I * (h : ℂ) / a) = 1 := by
        field_simp
        rw [Complex.I_sq, neg_neg]
      rw [this, one_smul]
    rw [← e, hv, smul_smul]
    congr 1
    ring
  set w : ℂ := Complex.exp (-(Complex.I * tilde * a / h) * t) with hw
  have hcol : (fun (j : Fin (n + 2)) (k : Fin (p + 1)) => v k * Complex.exp (Complex.I * (j * kappa - tilde * (a * t / h)))) =
      fun (j : Fin (n + 2)) k => (w • v) k * phase kappa j := by
    funext j k
    rw [Pi.smul_apply, smul_eq_mul, mul_assoc, mul_comm w, mul_assoc, hw, phase, ← Complex.exp_add]
    congr 2
    ring
  refine ⟨_, by rw [hcol]; exact wave_residual ex fits hh ha.le hq hM (w • v) i (.inr hk), fun k => ?_⟩
  rw [Matrix.mulVec_smul, hMv]
  have hexp : (fun t : ℝ => v k * Complex.exp (Complex.I * (i * kappa - tilde * (a * t / h)))) =
      fun t : ℝ => v k * phase kappa i * Complex.exp (-(Complex.I * tilde * a / h) * (t : ℂ)) := by
    funext t
    rw [phase, mul_assoc, ← Complex.exp_add]
    congr 2
    ring
  rw [hexp]
  have hd : HasDerivAt (fun t : ℝ => -(Complex.I * tilde * a / h) * (t : ℂ)) (-(Complex.I * tilde * a / h) * 1) t :=
    (HasDerivAt.ofReal_comp (hasDerivAt_id t)).const_mul _
  refine (hd.cexp.const_mul _).congr_deriv ?_
  simp only [Pi.smul_apply, smul_eq_mul, hw]
  ring

/-- A grid of two elements with a rule of Gauss. -/
example : ∃ (co : Fin 2 → Coordinate) (setups : Fin 2 → Setup 1), Equal (.legendreRoots gauss2) 1 co setups ∧
    (Maker.legendreRoots gauss2).Exact ∧ Fits (.legendreRoots gauss2) .dg := by
  have hc : ∀ i : Fin 2, (Coordinate.linear i (i + 1)).xLeft < (Coordinate.linear i (i + 1)).xRight := fun i => by
    simp [Coordinate.xLeft, Coordinate.xRight]
  choose s hs using fun i : Fin 2 => (constructors (hc i) gauss2_exact).2.1
  exact ⟨fun i => .linear i (i + 1), s, ⟨fun i => by simp [Coordinate.xLeft, Coordinate.xRight], hs⟩, gauss2_exact, trivial⟩

end MiniCFD.PyWave
