import Verif.Lemmas.Simple
import Mathlib.Tactic.NormNum

/-! C16, C17, and the convection-solver parts of C18 and C19. -/

namespace MiniCFD.Simple
open MiniCFD.Spec.Simple

/-- C16. The Burgers solver returns the Godunov flux, for every coefficient and every two states. -/
theorem burgers_is_godunov (k left right : ℝ) :
    IsGodunov (burgersFlux k) left right (burgersUpwind k left right) := by
  refine ⟨burgers_expanding k left right, fun h => ?_⟩
  obtain ⟨⟨u, hu, e⟩, hb⟩ := burgers_expanding (-k) right left h
  rw [burgersUpwind_mirror] at e hb
  rw [burgersFlux_neg] at e
  refine ⟨⟨u, hu, neg_injective e⟩, ?_⟩
  rintro _ ⟨v, hv, rfl⟩
  have := hb ⟨v, hv, rfl⟩
  rw [burgersFlux_neg] at this
  linarith

/-- A sonic rarefaction: the flux is that of the state 0 strictly inside. -/
example : burgersUpwind 2 (-1) 3 = 0 := by norm_num [burgersUpwind, burgersFlux]
/-- A shock moving right. -/
example : burgersUpwind 2 3 (-1) = 9 := by norm_num [burgersUpwind, burgersFlux]

/-- C17, one component: the flux of the state on the face of the exact solution. -/
theorem single_upwind (a left right : ℝ) :
    singleUpwind a left right = a * (if a < 0 then right else left) := by
  unfold singleUpwind
  rcases lt_trichotomy a 0 with h | h | h
  · rw [if_neg (by linarith), if_pos h]; ring
  · subst h; simp
  · rw [if_pos h, if_neg (by linarith)]; ring

/-- C17, two components: for a matrix with real eigenvalues and a jump split into waves in any
way, the flux is that of the state on the face of the exact self-similar solution. -/
theorem double_upwind (m : M2) (h : Hyperbolic m) (ws : List (ℝ × V2)) (left right : V2)
    (hs : SplitsJump m ws left right) :
    doubleUpwind m left right = m.app (stateOnFace ws left) := by
  obtain ⟨hw, rfl⟩ := hs
  rw [double_split h, jumpFlux_sum h ws hw]
  unfold stateOnFace
  rw [app_add]

/-- With two different real eigenvalues every jump is split into waves. -/
theorem double_waves_exist (m : M2) (h : 0 < (m.a - m.d) * (m.a - m.d) + 4 * (m.b * m.c))
    (left right : V2) : ∃ ws, SplitsJump m ws left right := by
  have hh : Hyperbolic m := h.le
  have hd : 0 < delta m := Real.sqrt_pos.2 (by linarith)
  have hne : eig0 m ≠ eig1 m := by unfold eig0 eig1; intro e; linarith
  have hdet := eigenR_det hh hne
  obtain ⟨w0, w1⟩ := eigenR_waves hh
  generalize eigenR m = r at *
  let x := right.x - left.x
  let y := right.y - left.y
  let D := r.a * r.d - r.b * r.c
  let p := (r.d * x - r.b * y) / D
  let q := (-r.c * x + r.a * y) / D
  refine ⟨[(eig0 m, ⟨p * r.a, p * r.c⟩), (eig1 m, ⟨q * r.b, q * r.d⟩)], ?_, ?_⟩
  · intro c hc
    unfold Wave2 M2.app at *
    simp only [V2.mk.injEq] at *
    rcases List.mem_cons.1 hc with rfl | hc
    · exact ⟨by linear_combination p * w0.1, by linear_combination p * w0.2⟩
    · rcases List.mem_cons.1 hc with rfl | hc
      · exact ⟨by linear_combination q * w1.1, by linear_combination q * w1.2⟩
      · exact absurd hc List.not_mem_nil
  · have hD : D ≠ 0 := hdet
    have e1 : p * D = r.d * x - r.b * y := div_mul_cancel₀ _ hD
    have e2 : q * D = -r.c * x + r.a * y := div_mul_cancel₀ _ hD
    have f1 : p * r.a + q * r.b = x := by
      apply mul_right_cancel₀ hD
      linear_combination r.a * e1 + r.b * e2
    have f2 : p * r.c + q * r.d = y := by
      apply mul_right_cancel₀ hD
      linear_combination r.c * e1 + r.d * e2
    simp only [V2.add, V2.sum, List.map_cons, List.map_nil, List.foldr_cons, List.foldr_nil]
    apply V2.ext
    · show left.x + (p * r.a + (q * r.b + 0)) = right.x
      rw [add_zero, f1]; ring
    · show left.y + (p * r.c + (q * r.d + 0)) = right.y
      rw [add_zero, f2]; ring

/-- A subsonic case, one wave each way. -/
example : SplitsJump ⟨0, 1, 4, 0⟩ [(2, ⟨3, 6⟩), (-2, ⟨1, -2⟩)] ⟨0, 0⟩ ⟨4, 4⟩ ∧
    Hyperbolic ⟨0, 1, 4, 0⟩ := by
  constructor
  · constructor
    · intro p hp
      rcases List.mem_cons.1 hp with rfl | hp
      · simp only [Wave2, M2.app, V2.mk.injEq]; norm_num
      · rcases List.mem_cons.1 hp with rfl | hp
        · simp only [Wave2, M2.app, V2.mk.injEq]; norm_num
        · exact absurd hp List.not_mem_nil
    · simp only [V2.add, V2.sum, List.map_cons, List.map_nil, List.foldr_cons, List.foldr_nil,
        V2.mk.injEq]
      norm_num
  · norm_num [Hyperbolic]

open Matrix in
/-- C17, any number of components: given the eigendecomposition of the coefficient matrix, and
any way of splitting the jump into waves. -/
theorem multiple_upwind {K n : Nat} (A rows cols : Matrix (Fin K) (Fin K) ℝ) (vals : Fin K → ℝ)
    (h : Decomposed A rows cols vals) (speed : Fin n → ℝ) (wave : Fin n → Fin K → ℝ)
    (left right : Fin K → ℝ) (hs : SplitsJumpK A speed wave left right) :
    multipleUpwind rows cols vals left right = A *ᵥ stateOnFaceK speed wave left := by
  obtain ⟨hw, rfl⟩ := hs
  rw [multiple_split h]
  unfold stateOnFaceK
  rw [mulVec_add, mulVec_sum]
  congr 1
  simp only [dotProduct_sum, Finset.mul_sum, Finset.sum_smul]
  rw [Finset.sum_comm]
  refine Finset.sum_congr rfl fun j _ => ?_
  rw [multiple_wave h (hw j)]
  by_cases hj : speed j < 0
  · rw [if_pos hj, min_eq_left hj.le]
    exact (hw j).symm
  · rw [if_neg hj, min_eq_right (not_lt.1 hj)]
    simp

open Matrix in
/-- Every jump is split into waves by the decomposition. -/
theorem multiple_waves_exist {K : Nat} (A rows cols : Matrix (Fin K) (Fin K) ℝ) (vals : Fin K → ℝ)
    (h : Decomposed A rows cols vals) (left right : Fin K → ℝ) :
    ∃ wave : Fin K → Fin K → ℝ, SplitsJumpK A vals wave left right := by
  refine ⟨fun k => (cols k ⬝ᵥ (right - left)) • fun i => rows i k, fun k => ?_, ?_⟩
  · unfold Wave
    rw [mulVec_smul, h.eigen, smul_comm]
  · rw [decomposed_sum h]; abel

open Matrix in
example : Decomposed (K := 2) !![0, 1; 4, 0] !![1, 1; 2, -2] !![1/2, 1/4; 1/2, -1/4] ![2, -2] := by
  constructor
  · ext i j; fin_cases i <;> fin_cases j <;> norm_num [Matrix.mul_apply, Fin.sum_univ_two]
  · intro k; funext i
    fin_cases k <;> fin_cases i <;> norm_num [Matrix.mulVec, dotProduct, Fin.sum_univ_two]

/-! ### C18: reversing the face -/

/-- The rotated coefficient changes sign with the normal. -/
theorem aNormal_neg {J : Type} [AddCommGroup J] [Module ℝ J] (coeff : Fin 3 → J)
    (nu : Fin 3 → ℝ) : aNormal coeff (-nu) = -aNormal coeff nu := by
  simp only [aNormal, Pi.neg_apply, neg_smul]; abel

theorem aNormal2_neg (coeff : Fin 3 → M2) (nu : Fin 3 → ℝ) :
    aNormal2 coeff (-nu) = M2.neg (aNormal2 coeff nu) := by
  simp only [aNormal2, M2.neg, Pi.neg_apply, M2.mk.injEq]
  refine ⟨?_, ?_, ?_, ?_⟩ <;> ring

theorem burgers_reversal (coeff nu : Fin 3 → ℝ) (left right : ℝ) :
    burgersUpwind (aNormal coeff (-nu)) right left =
      -burgersUpwind (aNormal coeff nu) left right := by
  rw [aNormal_neg, burgersUpwind_mirror]

theorem single_reversal (coeff nu : Fin 3 → ℝ) (left right : ℝ) :
    singleUpwind (aNormal coeff (-nu)) right left =
      -singleUpwind (aNormal coeff nu) left right := by
  rw [aNormal_neg, single_upwind, single_upwind]
  rcases lt_trichotomy (aNormal coeff nu) 0 with h | h | h
  · rw [if_neg (by linarith), if_pos h]; ring
  · rw [h]; simp
  · rw [if_pos (by linarith), if_neg (by linarith)]; ring

theorem sum_filter_split (m : M2) (ws : List (ℝ × V2)) (hw : ∀ p ∈ ws, Wave2 m p.1 p.2) :
    V2.add (m.app (V2.sum ((ws.filter fun p => p.1 < 0).map (·.2))))
      (m.app (V2.sum ((ws.filter fun p => 0 < p.1).map (·.2)))) =
      m.app (V2.sum (ws.map (·.2))) := by
  induction ws with
  | nil => simp [V2.sum, M2.app, V2.add]
  | cons p ws ih =>
    have ih := ih fun q hq => hw q (List.mem_cons_of_mem _ hq)
    have hp := hw p List.mem_cons_self
    simp only [List.map_cons, V2.sum, List.foldr_cons] at ih ⊢
    rw [app_add, ← ih]
    rcases lt_trichotomy p.1 0 with h | h | h
    · rw [List.filter_cons, if_pos (decide_eq_true h), List.filter_cons,
        if_neg (by simpa using h.le)]
      simp only [List.map_cons, List.foldr_cons]
      rw [app_add]
      simp only [V2.add, V2.mk.injEq]; constructor <;> ring
    · rw [List.filter_cons, if_neg (by simp [h]), List.filter_cons, if_neg (by simp [h])]
      have : m.app p.2 = ⟨0, 0⟩ := by
        unfold Wave2 at hp; rw [hp, h]; simp
      rw [this]
      simp only [V2.add, zero_add]
    · rw [List.filter_cons, if_neg (by simpa using h.le), List.filter_cons,
        if_pos (decide_eq_true h)]
      simp only [List.map_cons, List.foldr_cons]
      rw [app_add]
      simp only [V2.add, V2.mk.injEq]; constructor <;> ring

/-- Whenever the jump splits into waves. -/
theorem double_reversal (coeff : Fin 3 → M2) (nu : Fin 3 → ℝ)
    (h : Hyperbolic (aNormal2 coeff nu)) (ws : List (ℝ × V2)) (left right : V2)
    (hs : SplitsJump (aNormal2 coeff nu) ws left right) :
    doubleUpwind (aNormal2 coeff (-nu)) right left =
      V2.scale (-1) (doubleUpwind (aNormal2 coeff nu) left right) := by
  rw [aNormal2_neg]
  generalize aNormal2 coeff nu = m at *
  have h' : Hyperbolic (M2.neg m) := by
    unfold Hyperbolic M2.neg at *; dsimp only; linarith
  -- the same waves, seen from the other side
  have hs' : SplitsJump (M2.neg m) (ws.map fun p => (-p.1, V2.scale (-1) p.2)) right left := by
    obtain ⟨hw, rfl⟩ := hs
    constructor
    · intro p hp
      obtain ⟨q, hq, rfl⟩ := List.mem_map.1 hp
      have := hw q hq
      unfold Wave2 M2.app M2.neg V2.scale at *
      simp only [V2.mk.injEq] at this ⊢
      exact ⟨by linear_combination this.1, by linear_combination this.2⟩
    · have e : V2.sum ((ws.map fun p => (-p.1, V2.scale (-1) p.2)).map (·.2)) =
          V2.scale (-1) (V2.sum (ws.map (·.2))) := by
        clear hw
        induction ws with
        | nil => simp [V2.sum, V2.scale]
        | cons p ws ih =>
          simp only [List.map_cons, V2.sum, List.foldr_cons] at ih ⊢
          rw [ih]
          simp only [V2.add, V2.scale, V2.mk.injEq]; constructor <;> ring
      rw [e]
      apply V2.ext <;> simp only [V2.add, V2.scale] <;> ring
  rw [double_upwind _ h' _ _ _ hs', double_upwind _ h _ _ _ hs]
  obtain ⟨hw, rfl⟩ := hs
  have e : V2.sum (((ws.map fun p => (-p.1, V2.scale (-1) p.2)).filter
      fun p => p.1 < 0).map (·.2)) =
      V2.scale (-1) (V2.sum ((ws.filter fun p => 0 < p.1).map (·.2))) := by
    clear hs' hw
    induction ws with
    | nil => simp [V2.sum, V2.scale]
    | cons p ws ih =>
      simp only [List.map_cons, List.filter_cons]
      by_cases hp : 0 < p.1
      · rw [if_pos (by simpa using hp), if_pos (by simpa using hp)]
        simp only [List.map_cons, V2.sum, List.foldr_cons] at ih ⊢
        rw [ih]
        simp only [V2.add, V2.scale, V2.mk.injEq]; constructor <;> ring
      · rw [if_neg (by simpa using hp), if_neg (by simpa using hp)]
        exact ih
  have k := sum_filter_split m ws hw
  unfold stateOnFace
  rw [e]
  generalize V2.sum ((ws.filter fun p => 0 < p.1).map (·.2)) = P at *
  generalize V2.sum ((ws.filter fun p => p.1 < 0).map (·.2)) = N at *
  generalize V2.sum (ws.map (·.2)) = S at *
  simp only [V2.add, M2.app, M2.neg, V2.scale, V2.mk.injEq] at k ⊢
  obtain ⟨k1, k2⟩ := k
  exact ⟨by linear_combination k1, by linear_combination k2⟩

/-- It fails for a coefficient that has real eigenvalues but too few eigenvectors. -/
theorem double_reversal_defective :
    ∃ (coeff : Fin 3 → M2) (nu : Fin 3 → ℝ) (left right : V2),
      Hyperbolic (aNormal2 coeff nu) ∧
      doubleUpwind (aNormal2 coeff (-nu)) right left ≠
        V2.scale (-1) (doubleUpwind (aNormal2 coeff nu) left right) := by
  refine ⟨fun _ => ⟨0, 1, 0, 0⟩, fun i => if i = 0 then 1 else 0, ⟨0, 1⟩, ⟨0, 2⟩, ?_, ?_⟩
  · norm_num [Hyperbolic, aNormal2]
  · intro e
    have := congrArg V2.x e
    norm_num [doubleUpwind, eig0, delta, aNormal2, M2.app, V2.scale,
      show ¬ (2 : Fin 3) = 0 by decide] at this

open Matrix in
/-- Whatever eigendecompositions the library finds for the two orientations. -/
theorem multiple_reversal {K : Nat} (coeff : Fin 3 → Matrix (Fin K) (Fin K) ℝ) (nu : Fin 3 → ℝ)
    (rows cols rows' cols' : Matrix (Fin K) (Fin K) ℝ) (vals vals' : Fin K → ℝ)
    (h : Decomposed (aNormal coeff nu) rows cols vals)
    (h' : Decomposed (aNormal coeff (-nu)) rows' cols' vals') (left right : Fin K → ℝ) :
    multipleUpwind rows' cols' vals' right left = -multipleUpwind rows cols vals left right := by
  rw [aNormal_neg] at h'
  generalize aNormal coeff nu = A at *
  obtain ⟨wave, hs⟩ := multiple_waves_exist A rows cols vals h left right
  have hs' : SplitsJumpK (-A) (-vals) (-wave) right left := by
    obtain ⟨hw, rfl⟩ := hs
    refine ⟨fun j => ?_, ?_⟩
    · have := hw j
      unfold Wave at this ⊢
      simp only [Pi.neg_apply]
      rw [neg_mulVec, mulVec_neg, this]; simp
    · simp only [Pi.neg_apply, Finset.sum_neg_distrib]; abel
  rw [multiple_upwind _ _ _ _ h' _ _ _ _ hs', multiple_upwind _ _ _ _ h _ _ _ _ hs]
  obtain ⟨hw, rfl⟩ := hs
  unfold stateOnFaceK
  rw [neg_mulVec]
  congr 1
  rw [add_assoc, ← Finset.sum_add_distrib, mulVec_add, mulVec_add, mulVec_sum, mulVec_sum]
  congr 1
  refine Finset.sum_congr rfl fun j _ => ?_
  simp only [Pi.neg_apply, Left.neg_neg_iff]
  rcases lt_trichotomy (vals j) 0 with hj | hj | hj
  · rw [if_neg (by linarith), if_pos hj, add_zero]
  · rw [if_neg (by linarith), if_neg (by linarith), add_zero]
    have := hw j
    unfold Wave at this
    rw [this, hj]; simp
  · rw [if_pos hj, if_neg (by linarith), add_neg_cancel]

/-! ### C19: consistency with the flux matrix -/

theorem burgers_consistent (coeff nu : Fin 3 → ℝ) (u : ℝ) :
    burgersUpwind (aNormal coeff nu) u u = ∑ c, burgersFluxMatrix coeff u c * nu c := by
  have h := (burgers_is_godunov (aNormal coeff nu) u u).1 (le_refl _)
  obtain ⟨⟨v, hv, e⟩, -⟩ := h
  rw [Set.Icc_self, Set.mem_singleton_iff] at hv
  rw [← e, hv, Fin.sum_univ_three]
  simp only [burgersFlux, burgersFluxMatrix, aNormal, smul_eq_mul]; ring

theorem single_consistent (coeff nu : Fin 3 → ℝ) (u : ℝ) :
    singleUpwind (aNormal coeff nu) u u = ∑ c, simpleFluxMatrix coeff u c * nu c := by
  rw [single_upwind, ite_self, Fin.sum_univ_three]
  simp only [simpleFluxMatrix, aNormal, smul_eq_mul]; ring

theorem double_consistent (coeff : Fin 3 → M2) (nu : Fin 3 → ℝ)
    (h : Hyperbolic (aNormal2 coeff nu)) (u : V2) :
    doubleUpwind (aNormal2 coeff nu) u u =
      V2.sum ((List.finRange 3).map fun c => V2.scale (nu c) (simpleFluxMatrix2 coeff u c)) := by
  rw [double_upwind _ h [] u u ⟨by simp, by simp [V2.add, V2.sum]⟩]
  have : List.finRange 3 = [0, 1, 2] := by decide
  rw [this]
  simp only [stateOnFace, List.filter_nil, List.map_nil, List.map_cons, V2.sum, List.foldr_nil,
    List.foldr_cons, V2.add, V2.scale, simpleFluxMatrix2, M2.app, aNormal2, V2.mk.injEq]
  constructor <;> ring

open Matrix in
theorem multiple_consistent {K : Nat} (coeff : Fin 3 → Matrix (Fin K) (Fin K) ℝ) (nu : Fin 3 → ℝ)
    (rows cols : Matrix (Fin K) (Fin K) ℝ) (vals : Fin K → ℝ)
    (h : Decomposed (aNormal coeff nu) rows cols vals) (u : Fin K → ℝ) :
    multipleUpwind rows cols vals u u = ∑ c, nu c • simpleFluxMatrixK coeff u c := by
  have hs : SplitsJumpK (n := 0) (aNormal coeff nu) ![] ![] u u := ⟨fun j => j.elim0, by simp⟩
  rw [multiple_upwind _ _ _ _ h _ _ _ _ hs, Fin.sum_univ_three]
  simp only [stateOnFaceK, Finset.univ_eq_empty, Finset.sum_empty, add_zero, simpleFluxMatrixK,
    aNormal, add_mulVec, smul_mulVec]

end MiniCFD.Simple
