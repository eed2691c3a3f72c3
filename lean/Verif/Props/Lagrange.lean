import Verif.Lemmas.Lagrange
import Mathlib.Analysis.Calculus.Deriv.Polynomial
import Mathlib.Analysis.Calculus.IteratedDeriv.Defs
import Mathlib.Tactic.NormNum
import Mathlib.Tactic.FinCases

/-!
# Lagrange bases (C33)
-/

namespace MiniCFD.Lagrange
open MiniCFD.Spec.Lagrange Polynomial

variable {K : Type*} [Field K]

/-! ### One dimension -/

/-- `l_i(x_j) = δ_ij`. -/
theorem line_cardinal {N : Nat} {nodes : Fin N → K} (h : Function.Injective nodes) (i j : Fin N) :
    lineValues nodes (nodes j) i = if i = j then 1 else 0 := by
  rw [lineValues_eq, basisPoly]
  by_cases e : i = j
  · subst e
    rw [if_pos rfl, _root_.Lagrange.eval_basis_self h.injOn (Finset.mem_univ _)]
  · rw [if_neg e, _root_.Lagrange.eval_basis_of_ne e (Finset.mem_univ _)]

/-- Interpolation through the nodal values reproduces every polynomial of degree below the number
of nodes. -/
theorem line_reproduces {N : Nat} {nodes : Fin N → K} (h : Function.Injective nodes) (p : K[X])
    (hp : p.degree < N) (x : K) : ∑ i, p.eval (nodes i) * lineValues nodes x i = p.eval x := by
  conv_rhs => rw [reproduce h p hp]
  rw [eval_finsetSum]
  refine Finset.sum_congr rfl fun i _ => ?_
  rw [eval_mul, eval_C, lineValues_eq]

/-- The values sum to one at every point. -/
theorem line_partition_of_unity {P : Nat} {nodes : Fin (P + 1) → K} (h : Function.Injective nodes)
    (x : K) : ∑ i, lineValues nodes x i = 1 := by
  have := line_reproduces h 1 (by
    rw [degree_one]; exact_mod_cast Nat.succ_pos P) x
  simpa using this

/-- The matrix form of the derivatives (through the Vandermonde inverse) agrees with the product
form of the values, at order zero. -/
theorem line_zeroth [CharZero K] {P : Nat} {nodes : Fin (P + 1) → K} (h : Function.Injective nodes)
    (x : K) : lineDerivatives nodes 0 x = lineValues nodes x :=
  funext fun i => lineValues_zeroth h x i

/-- The derivative function returns the derivatives: differentiating the interpolant of a polynomial
gives the derivative of that polynomial, to every order up to the degree. -/
theorem line_derivatives_reproduce [CharZero K] {P : Nat} {nodes : Fin (P + 1) → K}
    (h : Function.Injective nodes) (p : K[X]) (hp : p.degree < (P + 1 : Nat)) (k : Nat) (hk : k ≤ P) (x : K) :
    ∑ i, p.eval (nodes i) * lineDerivatives nodes k x i = (derivative^[k] p).eval x := by
  conv_rhs => rw [reproduce h p hp]
  rw [iterate_derivative_sum', eval_finsetSum]
  refine Finset.sum_congr rfl fun i _ => ?_
  rw [iterate_derivative_C_mul, eval_mul, eval_C, lineDerivatives_eq h k hk]

theorem iteratedDeriv_eval (p : ℝ[X]) (k : Nat) :
    iteratedDeriv k (fun x => p.eval x) = fun x => (derivative^[k] p).eval x := by
  induction k generalizing p with
  | zero => simp
  | succ k ih =>
    rw [iteratedDeriv_succ', Function.iterate_succ_apply, ← ih]
    congr 1
    funext x
    exact p.deriv

/-- Over the reals, `GetDerivatives(k, x)` is the `k`-th derivative in the sense of calculus of the
functions returned by `GetValues`. -/
theorem line_derivatives {P : Nat} {nodes : Fin (P + 1) → ℝ} (h : Function.Injective nodes)
    (k : Nat) (hk : k ≤ P) (i : Fin (P + 1)) (x : ℝ) :
    iteratedDeriv k (fun x => lineValues nodes x i) x = lineDerivatives nodes k x i := by
  have e : (fun x => lineValues nodes x i) = fun x => (basisPoly nodes i).eval x :=
    funext fun x => lineValues_eq nodes x i
  rw [e, iteratedDeriv_eval, lineDerivatives_eq h k hk]

/-- The cached table holds the derivatives at the nodes. -/
theorem line_cached {P : Nat} {nodes : Fin (P + 1) → ℝ} (h : Function.Injective nodes)
    (k j i : Fin (P + 1)) :
    lineCached nodes k j i = iteratedDeriv k (fun x => lineValues nodes x i) (nodes j) := by
  rw [line_derivatives h k (by omega), lineCached]

/-- The derivatives of positive order sum to zero. -/
theorem line_derivatives_sum [CharZero K] {P : Nat} {nodes : Fin (P + 1) → K}
    (h : Function.Injective nodes) (k : Nat) (h0 : 0 < k) (hk : k ≤ P) (x : K) :
    ∑ i, lineDerivatives nodes k x i = 0 := by
  have := line_derivatives_reproduce h 1 (by
    rw [degree_one]; exact_mod_cast Nat.succ_pos P) k hk x
  rw [iterate_derivative_one h0] at this
  simpa using this

/-! ### The index map of the hexahedron -/

/-- `(i, j, k) ↦ index` is a bijection from the boxes of indices onto `0 … I·J·L - 1`. -/
theorem index_bijective (I J L : Nat) :
    (∀ i < I, ∀ j < J, ∀ k < L, index3 J L i j k < I * J * L ∧
      unindex3 J L (index3 J L i j k) = (i, j, k)) ∧
    ∀ m < I * J * L, ∃ i < I, ∃ j < J, ∃ k < L,
      unindex3 J L m = (i, j, k) ∧ index3 J L i j k = m := by
  refine ⟨fun i hi j hj k hk => ⟨index3_lt hi hj hk, unindex_index hj hk⟩, fun m hm => ?_⟩
  obtain ⟨h1, h2, h3, h4⟩ := index_unindex hm
  exact ⟨_, h1, _, h2, _, h3, rfl, h4⟩

/-- Two triples never share an index. -/
theorem index_injective {J L i j k i' j' k' : Nat} (hj : j < J) (hk : k < L) (hj' : j' < J)
    (hk' : k' < L) (e : index3 J L i j k = index3 J L i' j' k') : i = i' ∧ j = j' ∧ k = k' := by
  have := congrArg (unindex3 J L) e
  rw [unindex_index hj hk, unindex_index hj' hk'] at this
  simpa using this

/-- `GetNode(ijk)` and `GetNode(i, j, k)` agree. -/
theorem hexNode_index {I J L : Nat} (nx : Fin I → K) (ny : Fin J → K) (nz : Fin L → K)
    (i : Fin I) (j : Fin J) (k : Fin L) :
    hexNode nx ny nz (index3 J L i j k) = some (nx i, ny j, nz k) := by
  unfold hexNode
  rw [unindex_index j.2 k.2]
  simp

/-! ### Three dimensions -/

/-- The weighted sum of the entries of a list. -/
def contract (f : Nat → K) (l : List K) : K := ∑ m ∈ Finset.range l.length, f m * (l[m]?).getD 0

theorem contract_tensor {I J L : Nat} (vx : Fin I → K) (vy : Fin J → K) (vz : Fin L → K)
    (f : Nat → K) : contract f (tensorLoop vx vy vz) =
      ∑ i : Fin I, ∑ j : Fin J, ∑ k : Fin L, f (index3 J L i j k) * (vx i * vy j * vz k) := by
  unfold contract
  rw [tensorLoop_length]
  simp only [← Finset.sum_product', Finset.univ_product_univ]
  symm
  refine Finset.sum_bij (fun (q : Fin I × Fin J × Fin L) _ => index3 J L q.1 q.2.1 q.2.2) ?_ ?_ ?_ ?_
  · intro q _
    exact Finset.mem_range.2 (index3_lt q.1.2 q.2.1.2 q.2.2.2)
  · intro q _ r _ e
    obtain ⟨h1, h2, h3⟩ := index_injective q.2.1.2 q.2.2.2 r.2.1.2 r.2.2.2 e
    exact Prod.ext (Fin.ext h1) (Prod.ext (Fin.ext h2) (Fin.ext h3))
  · intro m hm
    obtain ⟨h1, h2, h3, h4⟩ := index_unindex (Finset.mem_range.1 hm)
    exact ⟨(⟨_, h1⟩, ⟨_, h2⟩, ⟨_, h3⟩), by simp, h4⟩
  · intro q _
    rw [tensorLoop_get]
    rfl

/-- The three-dimensional functions are cardinal at the nodes. -/
theorem hex_cardinal {I J L : Nat} {nx : Fin I → K} {ny : Fin J → K} {nz : Fin L → K}
    (hx : Function.Injective nx) (hy : Function.Injective ny) (hz : Function.Injective nz)
    {m n : Nat} (hm : m < I * J * L) {X Y Z : K} (hn : hexNode nx ny nz n = some (X, Y, Z))
    (hn' : n < I * J * L) :
    (hexValues nx ny nz X Y Z)[m]? = some (if m = n then 1 else 0) := by
  obtain ⟨i, hi, j, hj, k, hk, _, rfl⟩ := (index_bijective I J L).2 m hm
  obtain ⟨i', hi', j', hj', k', hk', _, rfl⟩ := (index_bijective I J L).2 n hn'
  have e := hexNode_index nx ny nz ⟨i', hi'⟩ ⟨j', hj'⟩ ⟨k', hk'⟩
  dsimp only at e
  rw [e] at hn
  simp only [Option.some.injEq, Prod.mk.injEq] at hn
  obtain ⟨rfl, rfl, rfl⟩ := hn
  have := tensorLoop_get (lineValues nx (nx ⟨i', hi'⟩)) (lineValues ny (ny ⟨j', hj'⟩))
    (lineValues nz (nz ⟨k', hk'⟩)) ⟨i, hi⟩ ⟨j, hj⟩ ⟨k, hk⟩
  dsimp only at this
  rw [hexValues, this, line_cardinal hx, line_cardinal hy, line_cardinal hz]
  by_cases c : i = i' ∧ j = j' ∧ k = k'
  · obtain ⟨rfl, rfl, rfl⟩ := c
    simp
  · have hne : index3 J L i j k ≠ index3 J L i' j' k' := fun e =>
      c (index_injective hj hk hj' hk' e)
    rw [if_neg hne]
    simp only [Fin.mk.injEq, not_and_or] at c ⊢
    rcases c with c | c | c <;> simp [c]

/-- The three-dimensional values sum to one. -/
theorem hex_partition_of_unity {P Q R : Nat} {nx : Fin (P + 1) → K} {ny : Fin (Q + 1) → K}
    {nz : Fin (R + 1) → K} (hx : Function.Injective nx) (hy : Function.Injective ny)
    (hz : Function.Injective nz) (x y z : K) : contract (fun _ => 1) (hexValues nx ny nz x y z) = 1 := by
  rw [hexValues, contract_tensor]
  simp only [one_mul, ← Finset.mul_sum, line_partition_of_unity hz, mul_one,
    line_partition_of_unity hy, line_partition_of_unity hx]

/-- Interpolating a polynomial of bounded degree in each variable and differentiating the
interpolant `a`, `b`, `c` times gives the corresponding partial derivative of the polynomial. -/
theorem hex_derivatives_reproduce [CharZero K] {P Q R : Nat} {nx : Fin (P + 1) → K}
    {ny : Fin (Q + 1) → K} {nz : Fin (R + 1) → K} (hx : Function.Injective nx)
    (hy : Function.Injective ny) (hz : Function.Injective nz)
    (coef : Fin (P + 1) → Fin (Q + 1) → Fin (R + 1) → K) (f : Nat → K)
    (hf : ∀ m X Y Z, hexNode nx ny nz m = some (X, Y, Z) → f m = triEval coef 0 0 0 X Y Z)
    {a b c : Nat} (ha : a ≤ P) (hb : b ≤ Q) (hc : c ≤ R) (x y z : K) :
    contract f (hexDerivatives nx ny nz a b c x y z) = triEval coef a b c x y z := by
  have mono : ∀ {N : Nat} {nd : Fin (N + 1) → K} (_ : Function.Injective nd) (k : Nat) (_ : k ≤ N)
      (w : K) (p : Fin (N + 1)), ∑ i, nd i ^ p.val * lineDerivatives nd k w i =
        (derivative^[k] (X ^ p.val : K[X])).eval w := by
    intro N nd h k hk w p
    have := line_derivatives_reproduce h (X ^ p.val) (by
      rw [degree_X_pow]; exact_mod_cast p.2) k hk w
    simpa using this
  rw [hexDerivatives, contract_tensor]
  have e : ∀ (i : Fin (P + 1)) (j : Fin (Q + 1)) (k : Fin (R + 1)),
      f (index3 (Q + 1) (R + 1) i j k) = triEval coef 0 0 0 (nx i) (ny j) (nz k) :=
    fun i j k => hf _ _ _ _ (hexNode_index nx ny nz i j k)
  simp only [e]
  simp only [triEval, Function.iterate_zero, id_eq, eval_pow, eval_X]
  have comm3 : ∀ (F : Fin (P + 1) → Fin (Q + 1) → Fin (R + 1) → Fin (P + 1) → Fin (Q + 1) →
      Fin (R + 1) → K), ∑ i, ∑ j, ∑ k, ∑ p, ∑ q, ∑ r, F i j k p q r =
        ∑ p, ∑ q, ∑ r, ∑ i, ∑ j, ∑ k, F i j k p q r := by
    intro F
    simp only [← Finset.sum_product', Finset.univ_product_univ]
    exact Fintype.sum_equiv
      ⟨fun t => (t.2.2.2.1, t.2.2.2.2.1, t.2.2.2.2.2, t.1, t.2.1, t.2.2.1),
       fun t => (t.2.2.2.1, t.2.2.2.2.1, t.2.2.2.2.2, t.1, t.2.1, t.2.2.1),
       fun _ => rfl, fun _ => rfl⟩ _ _ fun _ => rfl
  simp only [Finset.sum_mul]
  rw [comm3]
  refine Finset.sum_congr rfl fun p _ => Finset.sum_congr rfl fun q _ =>
    Finset.sum_congr rfl fun r _ => ?_
  rw [← mono hx a ha x, ← mono hy b hb y, ← mono hz c hc z, Finset.sum_mul_sum, Finset.sum_mul,
    Finset.mul_sum]
  refine Finset.sum_congr rfl fun i _ => ?_
  rw [Finset.sum_mul, Finset.mul_sum]
  refine Finset.sum_congr rfl fun j _ => ?_
  rw [Finset.mul_sum, Finset.mul_sum]
  refine Finset.sum_congr rfl fun k _ => ?_
  ring

/-- Interpolation reproduces every polynomial of bounded degree in each variable. -/
theorem hex_reproduces [CharZero K] {P Q R : Nat} {nx : Fin (P + 1) → K}
    {ny : Fin (Q + 1) → K} {nz : Fin (R + 1) → K} (hx : Function.Injective nx)
    (hy : Function.Injective ny) (hz : Function.Injective nz)
    (coef : Fin (P + 1) → Fin (Q + 1) → Fin (R + 1) → K) (f : Nat → K)
    (hf : ∀ m X Y Z, hexNode nx ny nz m = some (X, Y, Z) → f m = triEval coef 0 0 0 X Y Z)
    (x y z : K) : contract f (hexValues nx ny nz x y z) = triEval coef 0 0 0 x y z := by
  have := hex_derivatives_reproduce hx hy hz coef f hf (Nat.zero_le _) (Nat.zero_le _)
    (Nat.zero_le _) x y z
  rwa [hexDerivatives, line_zeroth hx, line_zeroth hy, line_zeroth hz] at this

/-- The entry of the derivative vector at `index(i, j, k)` is the mixed partial derivative of the
function at the same entry of the value vector, taken one variable after the other. -/
theorem hex_derivatives {P Q R : Nat} {nx : Fin (P + 1) → ℝ} {ny : Fin (Q + 1) → ℝ}
    {nz : Fin (R + 1) → ℝ} (hx : Function.Injective nx) (hy : Function.Injective ny)
    (hz : Function.Injective nz) {a b c : Nat} (ha : a ≤ P) (hb : b ≤ Q) (hc : c ≤ R)
    (m : Nat) (hm : m < (P + 1) * (Q + 1) * (R + 1)) (x y z : ℝ) :
    (hexDerivatives nx ny nz a b c x y z)[m]? =
      some (iteratedDeriv a (fun x => iteratedDeriv b (fun y => iteratedDeriv c (fun z =>
        ((hexValues nx ny nz x y z)[m]?).getD 0) z) y) x) := by
  obtain ⟨i, hi, j, hj, k, hk, _, rfl⟩ := (index_bijective (P + 1) (Q + 1) (R + 1)).2 m hm
  have t := fun (vx : Fin (P + 1) → ℝ) (vy : Fin (Q + 1) → ℝ) (vz : Fin (R + 1) → ℝ) =>
    tensorLoop_get vx vy vz ⟨i, hi⟩ ⟨j, hj⟩ ⟨k, hk⟩
  dsimp only at t
  rw [hexDerivatives, t]
  simp only [hexValues, t, Option.getD_some, Option.some.injEq]
  have ez : ∀ (s : ℝ), iteratedDeriv c (fun z => s * lineValues nz z ⟨k, hk⟩) z =
      s * lineDerivatives nz c z ⟨k, hk⟩ := by
    intro s
    rw [← line_derivatives hz c hc]
    have e : (fun z => lineValues nz z ⟨k, hk⟩) = fun z => (basisPoly nz ⟨k, hk⟩).eval z :=
      funext fun z => lineValues_eq nz z _
    have e' : (fun z => s * lineValues nz z ⟨k, hk⟩) =
        fun z => (C s * basisPoly nz ⟨k, hk⟩).eval z := by
      funext z
      rw [lineValues_eq, eval_mul, eval_C]
    rw [e, e', iteratedDeriv_eval, iteratedDeriv_eval]
    simp only [iterate_derivative_C_mul, eval_mul, eval_C]
  have ey : ∀ (s r : ℝ), iteratedDeriv b (fun y => s * lineValues ny y ⟨j, hj⟩ * r) y =
      s * lineDerivatives ny b y ⟨j, hj⟩ * r := by
    intro s r
    rw [← line_derivatives hy b hb]
    have e : (fun z => lineValues ny z ⟨j, hj⟩) = fun z => (basisPoly ny ⟨j, hj⟩).eval z :=
      funext fun z => lineValues_eq ny z _
    have e' : (fun z => s * lineValues ny z ⟨j, hj⟩ * r) =
        fun z => (C (s * r) * basisPoly ny ⟨j, hj⟩).eval z := by
      funext z
      rw [lineValues_eq, eval_mul, eval_C]; ring
    rw [e, e', iteratedDeriv_eval, iteratedDeriv_eval]
    simp only [iterate_derivative_C_mul, eval_mul, eval_C]
    ring
  have ex : ∀ (s r : ℝ), iteratedDeriv a (fun x => lineValues nx x ⟨i, hi⟩ * s * r) x =
      lineDerivatives nx a x ⟨i, hi⟩ * s * r := by
    intro s r
    rw [← line_derivatives hx a ha]
    have e : (fun z => lineValues nx z ⟨i, hi⟩) = fun z => (basisPoly nx ⟨i, hi⟩).eval z :=
      funext fun z => lineValues_eq nx z _
    have e' : (fun z => lineValues nx z ⟨i, hi⟩ * s * r) =
        fun z => (C (s * r) * basisPoly nx ⟨i, hi⟩).eval z := by
      funext z
      rw [lineValues_eq, eval_mul, eval_C]; ring
    rw [e, e', iteratedDeriv_eval, iteratedDeriv_eval]
    simp only [iterate_derivative_C_mul, eval_mul, eval_C]
    ring
  simp only [ez, ey, ex]

/-! ### Examples -/

/-- Three distinct nodes. -/
def sample : Fin 3 → ℚ := fun i => (i.val : ℚ) - 1

theorem sample_injective : Function.Injective sample := by
  intro i j h
  simpa [sample, Fin.ext_iff] using h

/-- A quadratic is reproduced from three nodes, away from the nodes. -/
example : ∑ i, (X ^ 2 + X : ℚ[X]).eval (sample i) * lineValues sample 5 i = 30 := by
  rw [line_reproduces sample_injective _ (by
    refine lt_of_le_of_lt (b := (2 : WithBot ℕ)) ?_ (by norm_num)
    compute_degree)]
  norm_num

example : ∑ i, lineDerivatives sample 2 (7 : ℚ) i = 0 :=
  line_derivatives_sum sample_injective 2 (by norm_num) (by norm_num) 7

/-- Derivatives of the interpolant of the polynomial `x y² z`. -/
example (f : Nat → ℚ) (hf : ∀ m X Y Z, hexNode sample sample sample m = some (X, Y, Z) →
    f m = triEval (fun p q r : Fin 3 => if p = 1 ∧ q = 2 ∧ r = 1 then 1 else 0) 0 0 0 X Y Z) :
    contract f (hexDerivatives sample sample sample 1 1 0 2 3 5) = 30 := by
  rw [hex_derivatives_reproduce sample_injective sample_injective sample_injective _ f hf
    (by norm_num) (by norm_num) (by norm_num)]
  simp [triEval, Fin.sum_univ_three]
  norm_num

example : index3 3 4 1 2 3 = 23 := by decide

end MiniCFD.Lagrange
