import Verif.Lemmas.Viscosity
import Mathlib.Algebra.Order.BigOperators.Ring.Finset
import Mathlib.Tactic.NormNum

/-!
# C76: damping matrices

Spec in `Verif.Spec.Viscosity`.
-/

namespace MiniCFD.Viscosity

open MiniCFD.LocalHex MiniCFD.Spec.Viscosity

variable {K N Q count : Nat}

/-- All cells of the schemes have linear gradients and divergences. -/
theorem known_dgLocal (weight : Fin N → ℝ) (cache : Fin N → Cache) (basis : Fin N → Matrix (Fin 3) (Fin N) ℝ) :
    LinearGradient (dgLocal (K := K) weight cache basis).gradient ∧
    LinearDivergence (dgLocal (K := K) weight cache basis).divergence :=
  ⟨gradientLocal_linear cache basis, divergenceLocal_linear weight cache basis⟩

theorem known_dgGlobal (weight : Fin Q → ℝ) (basis : Fin Q → Matrix (Fin 3) (Fin N) ℝ) :
    LinearGradient (dgGlobal (K := K) weight basis).gradient ∧
    LinearDivergence (dgGlobal (K := K) weight basis).divergence :=
  ⟨gradientGlobal_linear basis, divergenceGlobal_linear weight basis⟩

theorem known_dgMixed (weight : Fin N → ℝ) (cache : Fin N → Cache) (basis tests : Fin N → Matrix (Fin 3) (Fin N) ℝ) :
    LinearGradient (dgMixed (K := K) weight cache basis tests).gradient ∧
    LinearDivergence (dgMixed (K := K) weight cache basis tests).divergence :=
  ⟨gradientLocal_linear cache basis, divergenceGlobal_linear weight tests⟩

theorem known_fr (cache : Fin N → Cache) (basis : Fin N → Matrix (Fin 3) (Fin N) ℝ) :
    LinearGradient (fr (K := K) cache basis).gradient ∧ LinearDivergence (fr (K := K) cache basis).divergence :=
  ⟨gradientLocal_linear cache basis, divergenceFR_linear cache basis⟩

theorem represents_unique {D D' : Matrix (Fin N) (Fin N) ℝ} {F : Coeff (K + 1) N → Coeff (K + 1) N}
    (h : Represents D F) (h' : Represents D' F) : D = D' := by
  ext i j
  have e := (h (Matrix.of fun _ c => if c = j then 1 else 0) 0 i).symm.trans
    (h' (Matrix.of fun _ c => if c = j then 1 else 0) 0 i)
  simp only [Matrix.of_apply, mul_ite, mul_one, mul_zero] at e
  rwa [Finset.sum_ite_eq' Finset.univ j, Finset.sum_ite_eq' Finset.univ j, if_pos (Finset.mem_univ j),
    if_pos (Finset.mem_univ j)] at e

open scoped Classical in
/-- What `build` does, in full. -/
theorem build_spec {cells : Fin count → Cell (K + 1) N Q} (adj : Fin count → List (Ref count))
    (h : ∀ p, LinearGradient (cells p).gradient ∧ LinearDivergence (cells p).divergence)
    (coeff : Ref count → Coeff (K + 1) N) (nu : Fin 3 → ℝ) (junk : Fin count → Matrix (Fin N) (Fin N) ℝ) :
    ∃ s, build cells adj coeff nu junk = some s ∧ s.nu = (fun _ => 1) ∧
      (∀ p, Represents (s.matrices p) (residual (fun _ => 1) (cells p))) ∧
      (∀ p, s.coeff (.inl p) = if ∃ q, p < q ∧ (.inl p : Ref count) ∈ adj q then 0 else lastOnes) ∧
      ∀ n, s.coeff (.inr n) = if ∃ q, .inr n ∈ adj q then 0 else coeff (.inr n) := by
  obtain ⟨s, h1, h2, h3, h4, h5⟩ := Checkpoint.fold_prefix (fun pre (s : State count (K + 1) N) =>
      s.nu = (fun _ => 1) ∧
      (∀ p ∈ pre, Represents (s.matrices p) (residual (fun _ => 1) (cells p))) ∧
      (∀ p ∈ pre, s.coeff (.inl p) = if ∃ q ∈ pre, p < q ∧ .inl p ∈ adj q then 0 else lastOnes) ∧
      ∀ n, s.coeff (.inr n) = if ∃ q ∈ pre, .inr n ∈ adj q then 0 else coeff (.inr n))
    (cell cells adj) (List.finRange count) ⟨coeff, fun _ => 1, junk⟩ ⟨rfl, by simp, by simp, by simp⟩ (by
    rintro pre p post s e ⟨g1, g2, g3, g4⟩
    have hlt : ∀ q ∈ pre, q < p := by
      have hs := List.pairwise_lt_finRange count
      rw [e] at hs
      exact fun q hq => (List.pairwise_append.1 hs).2.2 q hq p List.mem_cons_self
    obtain ⟨M, hM⟩ := residual_matrix (h p).1 (h p).2 fun _ => 1
    refine ⟨⟨Function.update ((adj p).foldl (fun coeff n => Function.update coeff n 0) s.coeff) (.inl p) lastOnes, s.nu,
      Function.update s.matrices p M⟩, ?_, g1, ?_, ?_, ?_⟩
    · unfold cell
      rw [g1, columns hM]
      rfl
    · intro q hq
      dsimp only
      by_cases hqp : q = p
      · subst hqp; rw [Function.update_self]; exact hM
      · rw [Function.update_of_ne hqp]
        rcases List.mem_append.1 hq with hq | hq
        · exact g2 q hq
        · exact absurd (List.mem_singleton.1 hq) hqp
    · intro q hq
      dsimp only
      by_cases hqp : q = p
      · subst hqp
        rw [Function.update_self, if_neg]
        rintro ⟨q', hq', hlt', -⟩
        rcases List.mem_append.1 hq' with hq' | hq'
        · exact absurd (hlt q' hq') (not_lt.2 hlt'.le)
        · exact absurd (List.mem_singleton.1 hq') hlt'.ne'
      · rw [Function.update_of_ne (by simpa using hqp), zeroed]
        have hq : q ∈ pre := by
          rcases List.mem_append.1 hq with hq | hq
          · exact hq
          · exact absurd (List.mem_singleton.1 hq) hqp
        rw [g3 q hq]
        by_cases ha : (.inl q : Ref count) ∈ adj p
        · rw [if_pos ha, if_pos ⟨p, by simp, hlt q hq, ha⟩]
        · rw [if_neg ha]
          refine if_congr ⟨?_, ?_⟩ rfl rfl
          · rintro ⟨q', a, b⟩
            exact ⟨q', by simp [a], b⟩
          · rintro ⟨q', a, b⟩
            rcases List.mem_append.1 a with a | a
            · exact ⟨q', a, b⟩
            · rw [List.mem_singleton.1 a] at b
              exact absurd b.2 ha
    · intro n
      dsimp only
      rw [Function.update_of_ne (by simp), zeroed, g4]
      by_cases ha : (.inr n : Ref count) ∈ adj p
      · rw [if_pos ha, if_pos ⟨p, by simp, ha⟩]
      · rw [if_neg ha]
        refine if_congr ⟨?_, ?_⟩ rfl rfl
        · rintro ⟨q', a, b⟩
          exact ⟨q', by simp [a], b⟩
        · rintro ⟨q', a, b⟩
          rcases List.mem_append.1 a with a | a
          · exact ⟨q', a, b⟩
          · rw [List.mem_singleton.1 a] at b
            exact absurd b ha)
  refine ⟨s, h1, h2, fun p => h3 p (List.mem_finRange p), fun p => ?_, fun n => ?_⟩
  · rw [h4 p (List.mem_finRange p)]; simp
  · rw [h5 n]; simp

/-- **C76** The matrices.  Whatever the cells hold before and whatever the diffusion coefficient was, the matrix of each
cell represents the element-wise diffusion residual with unit coefficient, for every component. -/
theorem damping {cells : Fin count → Cell (K + 1) N Q} (adj : Fin count → List (Ref count))
    (h : ∀ p, LinearGradient (cells p).gradient ∧ LinearDivergence (cells p).divergence)
    (coeff : Ref count → Coeff (K + 1) N) (nu : Fin 3 → ℝ) (junk : Fin count → Matrix (Fin N) (Fin N) ℝ) :
    ∃ s, build cells adj coeff nu junk = some s ∧
      ∀ p u r i, residual (fun _ => 1) (cells p) u r i = ∑ c, s.matrices p i c * u r c := by
  obtain ⟨s, h1, -, h3, -⟩ := build_spec adj h coeff nu junk
  exact ⟨s, h1, h3⟩

/-- **C76** They depend on the mesh only: neither on the solution, nor on neighbours, nor on earlier coefficients. -/
theorem same_matrices {cells : Fin count → Cell (K + 1) N Q} {adj adj' : Fin count → List (Ref count)}
    (h : ∀ p, LinearGradient (cells p).gradient ∧ LinearDivergence (cells p).divergence)
    {coeff coeff' : Ref count → Coeff (K + 1) N} {nu nu' : Fin 3 → ℝ} {junk junk' : Fin count → Matrix (Fin N) (Fin N) ℝ}
    {s s' : State count (K + 1) N} (hs : build cells adj coeff nu junk = some s)
    (hs' : build cells adj' coeff' nu' junk' = some s') : s.matrices = s'.matrices := by
  obtain ⟨t, h1, -, h3, -⟩ := build_spec adj h coeff nu junk
  obtain ⟨t', h1', -, h3', -⟩ := build_spec adj' h coeff' nu' junk'
  rw [hs, Option.some.injEq] at h1
  rw [hs', Option.some.injEq] at h1'
  subst h1 h1'
  funext p
  exact represents_unique (h3 p) (h3' p)

/-- **C76** Coefficients whose gradient vanishes at all points are not damped. -/
theorem not_damped {c : Cell (K + 1) N Q} {D : Matrix (Fin N) (Fin N) ℝ} (hd : LinearDivergence c.divergence)
    (hD : Represents D (residual (fun _ => 1) c)) {u : Coeff (K + 1) N} (hu : ∀ q, c.gradient u q = 0) (r : Fin (K + 1))
    (i : Fin N) : ∑ j, D i j * u r j = 0 := by
  rw [← hD u r i]
  obtain ⟨T, hT⟩ := hd
  unfold residual
  rw [hT]
  simp [hu, diffusiveFlux_apply]

/-- For a basis in global coordinates the residual is the weak form of minus the Laplacian. -/
theorem residual_weak (weight : Fin Q → ℝ) (basis : Fin Q → Matrix (Fin 3) (Fin N) ℝ) (u : Coeff K N) :
    residual (fun _ => 1) (dgGlobal weight basis) u = weak weight basis u := by
  ext r i
  refine (divergenceGlobal_apply weight basis _ r i).trans ?_
  unfold weak
  refine Finset.sum_congr rfl fun q _ => ?_
  rw [Finset.mul_sum]
  refine Finset.sum_congr rfl fun d _ => ?_
  rw [diffusiveFlux_apply]
  simp only [dgGlobal, gradientGlobal, Matrix.mul_apply, Matrix.transpose_apply]
  ring

/-- **C76** For a basis in global coordinates the damping matrix is symmetric. -/
theorem damping_symm {weight : Fin Q → ℝ} {basis : Fin Q → Matrix (Fin 3) (Fin N) ℝ} {D : Matrix (Fin N) (Fin N) ℝ}
    (hD : Represents D (residual (K := K + 1) (fun _ => 1) (dgGlobal weight basis))) : D.transpose = D := by
  have hM : Represents (K := K + 1) (Matrix.of fun i j => ∑ q, weight q * ∑ d, -(basis q d j) * basis q d i)
      (residual (fun _ => 1) (dgGlobal weight basis)) := by
    intro u r i
    rw [residual_weak]
    simp only [weak, Matrix.of_apply, Finset.sum_mul, Finset.mul_sum]
    rw [Finset.sum_comm]
    conv_rhs => rw [Finset.sum_comm]
    rw [Finset.sum_comm]
    refine Finset.sum_congr rfl fun q _ => ?_
    rw [Finset.sum_comm]
    conv_rhs => rw [Finset.sum_comm]
    rw [Finset.sum_comm]
    refine Finset.sum_congr rfl fun d _ => ?_
    rw [← Finset.sum_neg_distrib, Finset.sum_mul, Finset.mul_sum]
    refine Finset.sum_congr rfl fun c _ => ?_
    ring
  rw [represents_unique hD hM]
  ext i j
  simp only [Matrix.transpose_apply, Matrix.of_apply]
  refine Finset.sum_congr rfl fun q _ => congrArg _ (Finset.sum_congr rfl fun d _ => ?_)
  ring

/-- **C76** and it takes exactly the energy of the gradient. -/
theorem damping_energy {weight : Fin Q → ℝ} {basis : Fin Q → Matrix (Fin 3) (Fin N) ℝ} {D : Matrix (Fin N) (Fin N) ℝ}
    (hD : Represents D (residual (K := K + 1) (fun _ => 1) (dgGlobal weight basis))) (v : Fin N → ℝ) :
    ∑ i, v i * ∑ j, D i j * v j = -∑ q, weight q * ∑ d, (∑ c, basis q d c * v c) ^ 2 := by
  have h : ∀ i, ∑ j, D i j * v j = ∑ q, weight q * ∑ d, -(∑ c, basis q d c * v c) * basis q d i := by
    intro i
    have := hD (Matrix.of fun _ c => v c) 0 i
    rw [residual_weak] at this
    exact this.symm
  have h' : ∀ i, v i * ∑ q, weight q * ∑ d, -(∑ c, basis q d c * v c) * basis q d i =
      ∑ q, ∑ d, -(weight q * ((∑ c, basis q d c * v c) * (basis q d i * v i))) := by
    intro i
    rw [Finset.mul_sum]
    refine Finset.sum_congr rfl fun q _ => ?_
    rw [Finset.mul_sum, Finset.mul_sum]
    refine Finset.sum_congr rfl fun d _ => ?_
    ring
  simp only [h, h']
  rw [Finset.sum_comm, ← Finset.sum_neg_distrib]
  refine Finset.sum_congr rfl fun q _ => ?_
  rw [Finset.sum_comm, Finset.mul_sum, ← Finset.sum_neg_distrib]
  refine Finset.sum_congr rfl fun d _ => ?_
  rw [Finset.sum_neg_distrib, ← Finset.mul_sum, ← Finset.mul_sum, sq]

/-- **C76** so that with non-negative weights it never adds energy. -/
theorem damping_dissipates {weight : Fin Q → ℝ} {basis : Fin Q → Matrix (Fin 3) (Fin N) ℝ}
    {D : Matrix (Fin N) (Fin N) ℝ} (hw : ∀ q, 0 ≤ weight q)
    (hD : Represents D (residual (K := K + 1) (fun _ => 1) (dgGlobal weight basis))) (v : Fin N → ℝ) :
    ∑ i, v i * ∑ j, D i j * v j ≤ 0 := by
  rw [damping_energy hD, neg_nonpos]
  exact Finset.sum_nonneg fun q _ => mul_nonneg (hw q) (Finset.sum_nonneg fun d _ => sq_nonneg _)

/-! ### A method that is not as constant as its declaration -/

/-- **C76** `BuildDampingMatrices() const` overwrites the solution of every cell of the part — by zeros if a later cell
has it as a neighbour, otherwise by ones in the last column — and sets copies of neighbours to zero. -/
theorem solution_lost {cells : Fin count → Cell (K + 1) N Q} {adj : Fin count → List (Ref count)}
    (h : ∀ p, LinearGradient (cells p).gradient ∧ LinearDivergence (cells p).divergence)
    {coeff : Ref count → Coeff (K + 1) N} {nu : Fin 3 → ℝ} {junk : Fin count → Matrix (Fin N) (Fin N) ℝ}
    {s : State count (K + 1) N} (hs : build cells adj coeff nu junk = some s) :
    (∀ p q, p < q → .inl p ∈ adj q → s.coeff (.inl p) = 0) ∧
    (∀ p, (∀ q, p < q → .inl p ∉ adj q) → s.coeff (.inl p) = lastOnes) ∧
    ∀ n q, .inr n ∈ adj q → s.coeff (.inr n) = 0 := by
  obtain ⟨t, h1, -, -, h4, h5⟩ := build_spec adj h coeff nu junk
  rw [hs, Option.some.injEq] at h1
  subst h1
  refine ⟨fun p q hpq hq => ?_, fun p hp => ?_, fun n q hq => ?_⟩
  · rw [h4, if_pos ⟨q, hpq, hq⟩]
  · rw [h4, if_neg (by rintro ⟨q, a, b⟩; exact hp q a b)]
  · rw [h5, if_pos ⟨q, hq⟩]

/-- **C76** and leaves the diffusion coefficient of the solver at one. -/
theorem viscosity_lost {cells : Fin count → Cell (K + 1) N Q} {adj : Fin count → List (Ref count)}
    (h : ∀ p, LinearGradient (cells p).gradient ∧ LinearDivergence (cells p).divergence)
    {coeff : Ref count → Coeff (K + 1) N} {nu : Fin 3 → ℝ} {junk : Fin count → Matrix (Fin N) (Fin N) ℝ}
    {s : State count (K + 1) N} (hs : build cells adj coeff nu junk = some s) : s.nu = fun _ => 1 := by
  obtain ⟨t, h1, h2, -⟩ := build_spec adj h coeff nu junk
  rw [hs, Option.some.injEq] at h1
  subst h1
  exact h2

/-- Two neighbouring cells with two basis functions, `1` and `x`, and one point of weight 8: the matrix is
`diag(0, -8)`, and a solution of fives is gone. -/
example : ∃ s : State 2 1 2, build (fun _ => dgGlobal (fun _ : Fin 1 => 8) fun _ => Matrix.of ![![0, 1], ![0, 0], ![0, 0]])
    (fun p => [.inl (1 - p)]) (fun _ _ _ => 5) (fun _ => 7) (fun _ => 0) = some s ∧
    s.matrices 0 = Matrix.of ![![0, 0], ![0, -8]] ∧ s.coeff (.inl 0) = 0 ∧ s.coeff (.inl 1) 0 = ![0, 1] := by
  obtain ⟨s, h1, -, h3, h4, -⟩ := build_spec (fun p : Fin 2 => [.inl (1 - p)])
    (fun _ : Fin 2 => known_dgGlobal (K := 1) (fun _ : Fin 1 => (8 : ℝ)) fun _ => Matrix.of ![![0, 1], ![0, 0], ![0, 0]])
    (fun _ _ _ => 5) (fun _ => 7) (fun _ => 0)
  refine ⟨s, h1, represents_unique (h3 0) ?_, ?_, ?_⟩
  · intro u r i
    rw [residual_weak]
    fin_cases i <;> simp [weak, Fin.sum_univ_succ]
  · rw [h4, if_pos ⟨1, by decide, by simp⟩]
  · rw [h4, if_neg]
    · funext j
      fin_cases j <;> simp [lastOnes]
    · rintro ⟨q, hq, -⟩
      revert hq
      fin_cases q <;> decide

end MiniCFD.Viscosity
