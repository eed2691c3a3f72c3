import Verif.Model.Lagrange
import Verif.Spec.Lagrange
import Mathlib.LinearAlgebra.Vandermonde
import Mathlib.Tactic.FieldSimp
import Mathlib.Tactic.Ring
import Mathlib.Tactic.Linarith

/-! Lemmas on Taylor and Lagrange bases. -/

namespace MiniCFD.Lagrange
open MiniCFD.Spec.Lagrange Polynomial

variable {K : Type*} [Field K]

theorem powersLoop_get (x : K) (n : Nat) (e : Nat) (k : Nat) (hk : k < n) :
    (powersLoop x n (x ^ e))[k]? = some (x ^ (e + k + 1)) := by
  induction n generalizing e k with
  | zero => omega
  | succ n ih =>
    rw [powersLoop, ← pow_succ]
    cases k with
    | zero => simp
    | succ k =>
      rw [List.getElem?_cons_succ, ih (e + 1) k (by omega)]
      congr 2
      omega

theorem taylorValues_get (P : Nat) (x : K) (k : Nat) (hk : k ≤ P) :
    (taylorValues P x)[k]? = some (x ^ k) := by
  cases k with
  | zero => simp [taylorValues]
  | succ k =>
    have := powersLoop_get x P 0 k (by omega)
    rw [pow_zero] at this
    simp [taylorValues, this]

theorem row_taylorValues (P : Nat) (x : K) (k : Fin (P + 1)) :
    row (taylorValues P x) k = x ^ k.val := by
  rw [row, taylorValues_get P x k (by omega)]
  rfl

theorem taylorToLagrange_eq {P : Nat} (nodes : Fin (P + 1) → K) :
    taylorToLagrange nodes = Matrix.vandermonde nodes := by
  ext i j
  rw [taylorToLagrange, Matrix.of_apply, row_taylorValues, Matrix.vandermonde_apply]

/-- The entry `j` of the derivative row: the `k`-th derivative of `x ^ j`. -/
theorem derivLoop_get [CharZero K] (k : Nat) (x : K) (n i m : Nat) (hm : m < n) :
    (derivLoop k x n (k + i + 1) ((k + i).factorial : K) (i.factorial : K) (x ^ i))[m]? =
      some ((derivative^[k] (X ^ (k + i + m + 1) : K[X])).eval x) := by
  induction n generalizing i m with
  | zero => omega
  | succ n ih =>
    rw [derivLoop]
    have e1 : ((i.factorial : K)) * ((k + i + 1 - k : Nat) : K) = ((i + 1).factorial : K) := by
      have : k + i + 1 - k = i + 1 := by omega
      rw [this, Nat.factorial_succ]; push_cast; ring
    have e2 : ((k + i).factorial : K) * ((k + i + 1 : Nat) : K) = ((k + (i + 1)).factorial : K) := by
      rw [← add_assoc, Nat.factorial_succ]; push_cast; ring
    simp only [e1, e2, ← pow_succ]
    cases m with
    | zero =>
      simp only [List.getElem?_cons_zero, Option.some.injEq, add_zero]
      rw [iterate_derivative_X_pow_eq_natCast_mul]
      have h1 : k + i + 1 - k = i + 1 := by omega
      have h2 : (k + i + 1).descFactorial k * (i + 1).factorial = (k + (i + 1)).factorial := by
        have := Nat.factorial_mul_descFactorial (show k ≤ k + i + 1 by omega)
        rw [h1] at this
        rw [mul_comm, this, add_assoc]
      have h3 : ((i + 1).factorial : K) ≠ 0 := Nat.cast_ne_zero.2 (Nat.factorial_ne_zero _)
      rw [h1, ← h2]
      simp only [eval_mul, eval_natCast, eval_pow, eval_X]
      push_cast
      field_simp
    | succ m =>
      rw [List.getElem?_cons_succ]
      have := ih (i + 1) m (by omega)
      rw [show k + i + 1 + 1 = k + (i + 1) + 1 by omega, this]
      congr 4
      omega

theorem taylorDerivatives_get [CharZero K] (P k : Nat) (hk : k ≤ P) (x : K) (j : Nat) (hj : j ≤ P) :
    (taylorDerivatives P k x)[j]? = some ((derivative^[k] (X ^ j : K[X])).eval x) := by
  unfold taylorDerivatives
  by_cases h : j < k
  · rw [List.getElem?_append_left (by simpa using h), List.getElem?_replicate_of_lt h,
      iterate_derivative_X_pow_eq_natCast_mul, Nat.descFactorial_eq_zero_iff_lt.2 h]
    simp
  · rw [List.getElem?_append_right (by simpa using h), List.length_replicate]
    obtain ⟨m, rfl⟩ := Nat.exists_eq_add_of_le (not_lt.1 h)
    rw [show k + m - k = m by omega]
    cases m with
    | zero =>
      simp only [List.getElem?_cons_zero, add_zero, div_one]
      rw [iterate_derivative_X_pow_eq_natCast_mul, Nat.descFactorial_self]
      simp
    | succ m =>
      rw [List.getElem?_cons_succ]
      have := derivLoop_get k x (P - k) 0 m (by omega)
      simp only [add_zero, Nat.factorial_zero, Nat.cast_one, pow_zero] at this
      rw [this]
      congr 4

theorem row_taylorDerivatives [CharZero K] (P k : Nat) (hk : k ≤ P) (x : K) (j : Fin (P + 1)) :
    row (taylorDerivatives P k x) j = (derivative^[k] (X ^ j.val : K[X])).eval x := by
  rw [row, taylorDerivatives_get P k hk x j (by omega)]
  rfl

theorem foldl_skip {α : Type*} (l : List α) (p : α → Prop) [DecidablePred p] (f : α → K) (v : K) :
    l.foldl (fun v j => if p j then v * f j else v) v =
      v * (l.map fun j => if p j then f j else 1).prod := by
  induction l generalizing v with
  | nil => simp
  | cons a l ih =>
    rw [List.foldl_cons, ih, List.map_cons, List.prod_cons]
    by_cases h : p a
    · simp only [if_pos h]; ring
    · simp only [if_neg h]; ring

theorem lineValues_eq {N : Nat} (nodes : Fin N → K) (x : K) (i : Fin N) :
    lineValues nodes x i = (basisPoly nodes i).eval x := by
  classical
  rw [lineValues, valueLoop, foldl_skip (List.finRange N) (fun j => i ≠ j)
    (fun j => (x - nodes j) / (nodes i - nodes j)) 1, one_mul, basisPoly, _root_.Lagrange.basis,
    eval_prod, ← List.ofFn_eq_map, List.prod_ofFn]
  have e : ∀ j, (_root_.Lagrange.basisDivisor (nodes i) (nodes j)).eval x =
      (x - nodes j) / (nodes i - nodes j) := by
    intro j
    simp [_root_.Lagrange.basisDivisor]
    field_simp
  rw [Finset.prod_congr rfl (fun j _ => e j), ← Finset.prod_filter]
  congr 1
  ext j
  simp [eq_comm]

/-- The polynomials whose coefficient vectors are the columns of `lagrange_to_taylor_`. -/
noncomputable def colPoly {P : Nat} (nodes : Fin (P + 1) → K) (i : Fin (P + 1)) : K[X] :=
  ∑ j : Fin (P + 1), C (lagrangeToTaylor nodes j i) * X ^ j.val

theorem colPoly_eq {P : Nat} {nodes : Fin (P + 1) → K} (h : Function.Injective nodes)
    (i : Fin (P + 1)) : colPoly nodes i = basisPoly nodes i := by
  have hdet : IsUnit (taylorToLagrange nodes).det := by
    rw [taylorToLagrange_eq, isUnit_iff_ne_zero]
    exact Matrix.det_vandermonde_ne_zero_iff.2 h
  have hmul : taylorToLagrange nodes * lagrangeToTaylor nodes = 1 := Matrix.mul_nonsing_inv _ hdet
  have hev : ∀ l, (colPoly nodes i).eval (nodes l) = if l = i then 1 else 0 := by
    intro l
    have := congrFun (congrFun hmul l) i
    rw [Matrix.mul_apply, Matrix.one_apply] at this
    rw [← this, colPoly, eval_finsetSum]
    refine Finset.sum_congr rfl fun j _ => ?_
    rw [eval_mul, eval_C, eval_pow, eval_X, taylorToLagrange_eq, Matrix.vandermonde_apply, mul_comm]
  refine eq_of_degrees_lt_of_eval_index_eq Finset.univ (v := nodes) (h.injOn) ?_ ?_ ?_
  · rw [Finset.card_univ, Fintype.card_fin]
    refine lt_of_le_of_lt (degree_sum_le _ _) ?_
    rw [Finset.sup_lt_iff (WithBot.bot_lt_coe _)]
    intro j _
    refine lt_of_le_of_lt (degree_C_mul_X_pow_le _ _) ?_
    exact_mod_cast j.2
  · rw [Finset.card_univ, Fintype.card_fin, basisPoly, _root_.Lagrange.degree_basis h.injOn (Finset.mem_univ i)]
    rw [Finset.card_univ, Fintype.card_fin]
    exact_mod_cast Nat.lt_succ_self P
  · intro l _
    rw [hev l, basisPoly]
    by_cases hl : l = i
    · subst hl
      rw [if_pos rfl, _root_.Lagrange.eval_basis_self h.injOn (Finset.mem_univ _)]
    · rw [if_neg hl, _root_.Lagrange.eval_basis_of_ne (Ne.symm hl) (Finset.mem_univ _)]

theorem iterate_derivative_sum' {ι : Type*} (s : Finset ι) (f : ι → K[X]) (k : Nat) :
    derivative^[k] (∑ i ∈ s, f i) = ∑ i ∈ s, derivative^[k] (f i) := by
  induction k generalizing f with
  | zero => rfl
  | succ k ih => simp only [Function.iterate_succ_apply, derivative_sum, ih]

theorem lineDerivatives_eq [CharZero K] {P : Nat} {nodes : Fin (P + 1) → K}
    (h : Function.Injective nodes) (k : Nat) (hk : k ≤ P) (x : K) (i : Fin (P + 1)) :
    lineDerivatives nodes k x i = (derivative^[k] (basisPoly nodes i)).eval x := by
  rw [← colPoly_eq h, colPoly, iterate_derivative_sum', eval_finsetSum, lineDerivatives,
    Matrix.vecMul, dotProduct]
  refine Finset.sum_congr rfl fun j _ => ?_
  rw [iterate_derivative_C_mul, eval_mul, eval_C, row_taylorDerivatives P k hk, mul_comm]

theorem lineValues_zeroth [CharZero K] {P : Nat} {nodes : Fin (P + 1) → K}
    (h : Function.Injective nodes) (x : K) (i : Fin (P + 1)) :
    lineDerivatives nodes 0 x i = lineValues nodes x i := by
  rw [lineDerivatives_eq h 0 (Nat.zero_le _), lineValues_eq]
  rfl

/-- A polynomial of low degree is the combination of the Lagrange polynomials with its values. -/
theorem reproduce {N : Nat} {nodes : Fin N → K} (h : Function.Injective nodes) (p : K[X])
    (hp : p.degree < N) : p = ∑ i, C (p.eval (nodes i)) * basisPoly nodes i := by
  have := _root_.Lagrange.eq_interpolate (s := Finset.univ) (v := nodes) (f := p) h.injOn
    (by simpa using hp)
  rw [_root_.Lagrange.interpolate_apply] at this
  exact this

/-! ### Three dimensions -/

theorem index3_lt {I J L i j k : Nat} (hi : i < I) (hj : j < J) (hk : k < L) :
    index3 J L i j k < I * J * L := by
  unfold index3
  have h1 : i * J * L + j * L + k < i * J * L + j * L + L := by omega
  have h2 : i * J * L + j * L + L = (i * J + (j + 1)) * L := by ring
  have h3 : (i * J + (j + 1)) ≤ I * J := by
    calc i * J + (j + 1) ≤ i * J + J := by omega
      _ = (i + 1) * J := by ring
      _ ≤ I * J := Nat.mul_le_mul_right _ hi
  calc _ < _ := h1
    _ = _ := h2
    _ ≤ I * J * L := Nat.mul_le_mul_right _ h3

theorem flatMap_get {α β : Type*} (l : List α) (f : α → List β) (m : Nat)
    (hf : ∀ a ∈ l, (f a).length = m) (i k : Nat) (hk : k < m) :
    (l.flatMap f)[i * m + k]? = (l[i]?).bind fun a => (f a)[k]? := by
  induction l generalizing i with
  | nil => simp
  | cons a l ih =>
    rw [List.flatMap_cons]
    have ha : (f a).length = m := hf a (by simp)
    cases i with
    | zero => rw [zero_mul, zero_add, List.getElem?_append_left (by omega)]; simp
    | succ i =>
      rw [List.getElem?_append_right (by rw [ha, Nat.succ_mul]; omega), ha,
        show (i + 1) * m + k - m = i * m + k by rw [Nat.succ_mul]; omega,
        ih (fun b hb => hf b (by simp [hb]))]
      simp

theorem finRange_get {n : Nat} (i : Fin n) : (List.finRange n)[i.val]? = some i := by
  rw [List.getElem?_eq_getElem (by simp)]
  simp

theorem flatMap_length {α β : Type*} (l : List α) (f : α → List β) (m : Nat)
    (hf : ∀ a, (f a).length = m) : (l.flatMap f).length = l.length * m := by
  induction l with
  | nil => simp
  | cons a l ih => rw [List.flatMap_cons, List.length_append, ih, hf, List.length_cons]; ring

theorem tensorLoop_length {I J L : Nat} (vx : Fin I → K) (vy : Fin J → K) (vz : Fin L → K) :
    (tensorLoop vx vy vz).length = I * J * L := by
  unfold tensorLoop
  rw [flatMap_length _ _ (J * L), List.length_finRange, mul_assoc]
  intro i
  rw [flatMap_length _ _ L, List.length_finRange]
  intro j
  simp

theorem tensorLoop_get {I J L : Nat} (vx : Fin I → K) (vy : Fin J → K) (vz : Fin L → K)
    (i : Fin I) (j : Fin J) (k : Fin L) :
    (tensorLoop vx vy vz)[index3 J L i j k]? = some (vx i * vy j * vz k) := by
  unfold tensorLoop index3
  have hin : ∀ i : Fin I, ((List.finRange J).flatMap fun j =>
      (List.finRange L).map fun k => vx i * vy j * vz k).length = J * L := by
    intro i
    rw [flatMap_length _ _ L, List.length_finRange]
    intro j; simp
  have hb : (j : Nat) * L + k < J * L := by
    calc (j : Nat) * L + k < j * L + L := by omega
      _ = (j + 1) * L := by ring
      _ ≤ J * L := Nat.mul_le_mul_right _ j.2
  rw [show (i : Nat) * J * L + j * L + k = i * (J * L) + (j * L + k) by ring]
  rw [flatMap_get _ _ (J * L) (fun i _ => hin i) i _ hb, finRange_get, Option.bind_some]
  rw [flatMap_get _ _ L (fun j _ => by simp) j k k.2, finRange_get, Option.bind_some]
  rw [List.getElem?_map, finRange_get, Option.map_some]

theorem unindex_index {J L i j k : Nat} (hj : j < J) (hk : k < L) :
    unindex3 J L (index3 J L i j k) = (i, j, k) := by
  unfold unindex3 index3
  have hL : 0 < L := by omega
  have hJ : 0 < J := by omega
  have e : i * J * L + j * L + k = L * (i * J + j) + k := by ring
  have h1 : (L * (i * J + j) + k) % L = k := by
    rw [Nat.mul_add_mod, Nat.mod_eq_of_lt hk]
  have h2 : (L * (i * J + j) + k) / L = i * J + j := by
    rw [Nat.mul_add_div hL, Nat.div_eq_of_lt hk, add_zero]
  have h3 : (i * J + j) / J = i := by
    rw [mul_comm, Nat.mul_add_div hJ, Nat.div_eq_of_lt hj, add_zero]
  have h4 : (i * J + j) % J = j := by
    rw [mul_comm, Nat.mul_add_mod, Nat.mod_eq_of_lt hj]
  simp only [e, h1, h2, h3, h4]

theorem index_unindex {I J L m : Nat} (hm : m < I * J * L) :
    (unindex3 J L m).1 < I ∧ (unindex3 J L m).2.1 < J ∧ (unindex3 J L m).2.2 < L ∧
      index3 J L (unindex3 J L m).1 (unindex3 J L m).2.1 (unindex3 J L m).2.2 = m := by
  have hL : 0 < L := by
    rcases Nat.eq_zero_or_pos L with h | h
    · subst h; simp at hm
    · exact h
  have hJ : 0 < J := by
    rcases Nat.eq_zero_or_pos J with h | h
    · subst h; simp at hm
    · exact h
  unfold unindex3 index3
  refine ⟨?_, Nat.mod_lt _ hJ, Nat.mod_lt _ hL, ?_⟩
  · dsimp only
    rw [Nat.div_div_eq_div_mul, Nat.div_lt_iff_lt_mul (by positivity)]
    calc m < I * J * L := hm
      _ = I * (L * J) := by ring
  · dsimp only
    have h1 := Nat.div_add_mod (m / L) J
    have h2 := Nat.div_add_mod m L
    calc m / L / J * J * L + m / L % J * L + m % L = (J * (m / L / J) + m / L % J) * L + m % L := by
          ring
      _ = m / L * L + m % L := by rw [h1]
      _ = m := by rw [mul_comm]; exact h2

end MiniCFD.Lagrange
