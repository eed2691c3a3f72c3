import Verif.Spec.Energy
import Verif.Props.Parallel
import Mathlib.Tactic.Linarith
import Mathlib.Tactic.Ring

/-! The weak form tested with the solution itself. -/

namespace MiniCFD.Energy

open MiniCFD.Spec.Energy MiniCFD.Spec.WeakForm MiniCFD.Residual MiniCFD.Projection MiniCFD.Ortho MiniCFD.Parallel

variable {Pt : Type} {n : Nat}

/-! ### Numerical fluxes -/

theorem flux_eq (law : Law) (alpha u : ℝ) : law.flux alpha u = alpha * shape law u := by
  cases law
  · simp only [Law.flux, Simple.singleFlux, shape]; ring
  · simp only [Law.flux, Simple.burgersFlux, shape]; ring

theorem matrix_eq (law : Law) (a : Fin 3 → ℝ) (u : ℝ) (k : Fin 3) : law.matrix a u k = a k * shape law u := by
  cases law
  · simp only [Law.matrix, Simple.simpleFluxMatrix, shape]
  · simp only [Law.matrix, Simple.burgersFluxMatrix, shape]; ring

theorem aNormal_along (a : Fin 3 → ℝ) (q : Point Pt) : Simple.aNormal a q.normal = along a q := by
  simp only [Simple.aNormal, along, Fin.sum_univ_three, smul_eq_mul]; ring

theorem loss_single (alpha l r : ℝ) : loss .single alpha l r = |alpha| * (l - r) ^ 2 / 2 := by
  simp only [loss, Law.upwind, Simple.singleUpwind, potential]
  split_ifs with h
  · rw [abs_of_pos h]; ring
  · rw [abs_of_nonpos (not_lt.1 h)]; ring

/-- The loss at a shock or a rarefaction. -/
theorem loss_burgers_nonneg (alpha l r : ℝ) : 0 ≤ loss .burgers alpha l r := by
  simp only [loss, Law.upwind, Simple.burgersUpwind, potential, Simple.burgersFlux, zero_div]
  split_ifs with h0 h1 h2 h3 h2 h3
  · subst h0; simp
  all_goals try (have e : (l - r) * (l * l * alpha / 2) - alpha * (l ^ 3 / 6 - r ^ 3 / 6) =
    (l - r) ^ 2 * (alpha * (r + 2 * l)) / 6 := by ring)
  all_goals try (have e' : (l - r) * (r * r * alpha / 2) - alpha * (l ^ 3 / 6 - r ^ 3 / 6) =
    (l - r) ^ 2 * (-(alpha * (l + 2 * r))) / 6 := by ring)
  · rw [e]; have : 0 ≤ alpha * (r + 2 * l) := by linarith
    positivity
  · rw [e']; have : 0 ≤ -(alpha * (l + 2 * r)) := by linarith
    positivity
  · exact absurd (le_of_not_ge h2) (by linarith)
  · rw [e]; have : 0 ≤ alpha * (r + 2 * l) := by linarith
    positivity
  · rw [e']; have : 0 ≤ -(alpha * (l + 2 * r)) := by linarith
    positivity
  · have e2 : (l - r) * (0 * 0 * alpha / 2) - alpha * (l ^ 3 / 6 - r ^ 3 / 6) =
      ((alpha * r) * r ^ 2 + (-(alpha * l)) * l ^ 2) / 6 := by ring
    rw [e2]
    have a1 : 0 ≤ (alpha * r) * r ^ 2 := mul_nonneg (by linarith) (sq_nonneg _)
    have a2 : 0 ≤ (-(alpha * l)) * l ^ 2 := mul_nonneg (by linarith) (sq_nonneg _)
    linarith

theorem loss_nonneg (law : Law) (alpha l r : ℝ) : 0 ≤ loss law alpha l r := by
  cases law
  · rw [loss_single]; positivity
  · exact loss_burgers_nonneg alpha l r

/-! ### Sums -/

theorem sum_map_fin {α : Type*} (l : List α) (v : Fin (n + 1) → ℝ) (g : Fin (n + 1) → α → ℝ) :
    ∑ i, v i * (l.map (g i)).sum = (l.map fun a => ∑ i, v i * g i a).sum := by
  induction l with
  | nil => simp
  | cons a l ih => simp only [List.map_cons, List.sum_cons, mul_add, Finset.sum_add_distrib, ih]

theorem sum_map_neg' {α : Type*} (l : List α) (g : α → ℝ) : (l.map fun a => -g a).sum = -(l.map g).sum := by
  induction l with
  | nil => simp
  | cons a l ih => simp only [List.map_cons, List.sum_cons, ih]; ring

theorem over_test (points : List (FacePoint Pt 1)) (flux : FacePoint Pt 1 → Value 1) (v : Fin (n + 1) → ℝ)
    (φ : Fin (n + 1) → FacePoint Pt 1 → ℝ) :
    ∑ i, v i * over points flux (φ i) 0 = over points flux (fun q => ∑ i, v i * φ i q) 0 := by
  simp only [over]
  rw [sum_map_fin]
  refine congrArg List.sum (List.map_congr_left fun q _ => ?_)
  rw [Finset.mul_sum]
  exact Finset.sum_congr rfl fun i _ => by ring

/-- Testing with all basis functions, with weights, is testing with their combination. -/
theorem weak_test (T : Cell Pt 1 n → FacePoint Pt 1 → Value 1) (P : Part Pt 1 n) (c : Conditions Pt 1) (t : ℝ)
    (p : Fin P.count) (v : Fin (n + 1) → ℝ) (φ : Fin (n + 1) → FacePoint Pt 1 → ℝ) :
    ∑ i, v i * weakForm T P c t p i (φ i) 0 = ∑ i, v i * inside (P.cells p) 0 i
      - outLocal T P p (fun q => ∑ i, v i * φ i q) 0 - outGhost T P p (fun q => ∑ i, v i * φ i q) 0
      - ((jobs c t).map fun job => outBoundary T P p (fun q => ∑ i, v i * φ i q) 0 job.1 job.2).sum := by
  have e1 : ∑ i, v i * outLocal T P p (φ i) 0 = outLocal T P p (fun q => ∑ i, v i * φ i q) 0 := by
    simp only [outLocal]
    rw [sum_map_fin]
    refine congrArg List.sum (List.map_congr_left fun f _ => ?_)
    simp only [← over_test, mul_sub, Finset.sum_sub_distrib, mul_ite, mul_zero]
    split_ifs <;> simp
  have e2 : ∑ i, v i * outGhost T P p (φ i) 0 = outGhost T P p (fun q => ∑ i, v i * φ i q) 0 := by
    simp only [outGhost]
    rw [sum_map_fin]
    refine congrArg List.sum (List.map_congr_left fun f _ => ?_)
    simp only [← over_test, mul_ite, mul_zero]
    split_ifs <;> simp
  have e3 : ∑ i, v i * outBoundaries T P c t p (φ i) 0 =
      ((jobs c t).map fun job => outBoundary T P p (fun q => ∑ i, v i * φ i q) 0 job.1 job.2).sum := by
    simp only [outBoundaries_jobs]
    rw [sum_map_fin]
    refine congrArg List.sum (List.map_congr_left fun job _ => ?_)
    simp only [outBoundary]
    cases P.boundary job.1 with
    | none => simp
    | some faces =>
      simp only
      rw [sum_map_fin]
      refine congrArg List.sum (List.map_congr_left fun f _ => ?_)
      simp only [← over_test, mul_ite, mul_zero]
      split_ifs <;> simp
  simp only [weakForm, mul_sub, Finset.sum_sub_distrib]
  rw [e1, e2, e3]

theorem jobs_names (c : Conditions Pt 1) (t : ℝ) : (jobs c t).map Prod.fst = names c := by
  simp [jobs, names, List.map_map, Function.comp_def]

theorem sum_swap_list {ι α : Type*} [Fintype ι] (l : List α) (g : ι → α → ℝ) :
    ∑ p, (l.map (g p)).sum = (l.map fun a => ∑ p, g p a).sum := by
  induction l with
  | nil => simp
  | cons a l ih => simp only [List.map_cons, List.sum_cons, Finset.sum_add_distrib, ih]

theorem sum_map_add' {α : Type*} (l : List α) (f g : α → ℝ) :
    (l.map fun a => f a + g a).sum = (l.map f).sum + (l.map g).sum := by
  induction l with
  | nil => simp
  | cons a l ih => simp only [List.map_cons, List.sum_cons, ih]; ring

theorem sum_map_mul' {α : Type*} (l : List α) (b : ℝ) (g : α → ℝ) :
    (l.map fun a => b * g a).sum = b * (l.map g).sum := by
  induction l with
  | nil => simp
  | cons a l ih => simp only [List.map_cons, List.sum_cons, ih]; ring

/-! ### The mesh -/

variable (m : Mesh Pt n) (law : Law) (a : Fin 3 → ℝ) (junk : Value 1 → Value 1 → Value 1)

theorem value_sol (p : Fin m.count) (w : Coeff 1 n) (x : Pt) :
    ((m.grid law a junk).cell p w).value x = fun _ => sol m p (w 0) x := by
  funext r
  obtain rfl : r = 0 := Subsingleton.elim _ _
  rfl

/-- Products of functions of the space are integrated by multiplying coefficients. -/
theorem integrate_sol {c : Conditions Pt 1} (hr : Regular m c) (p : Fin m.count) (v w : Fin (n + 1) → ℝ) :
    integrate (fun x => sol m p v x * sol m p w x) (m.basis p).rule = ∑ i, v i * w i := by
  have e : (fun x => sol m p v x * sol m p w x) = fun x => ∑ i, v i * ∑ j, w j *
      (basisValues (m.basis p) x i * basisValues (m.basis p) x j) := by
    funext x
    simp only [sol]
    rw [Finset.sum_mul]
    refine Finset.sum_congr rfl fun i _ => ?_
    rw [Finset.mul_sum, Finset.mul_sum]
    exact Finset.sum_congr rfl fun j _ => by ring
  have lin : ∀ (rule : Rule Pt) (v : Fin (n + 1) → ℝ) (g : Fin (n + 1) → Pt → ℝ),
      integrate (fun x => ∑ i, v i * g i x) rule = ∑ i, v i * integrate (g i) rule := by
    intro rule v g
    simp only [integrate_eq]
    rw [sum_map_fin]
    refine congrArg List.sum (List.map_congr_left fun q _ => ?_)
    rw [Finset.sum_mul]
    exact Finset.sum_congr rfl fun i _ => by ring
  rw [e, lin]
  refine Finset.sum_congr rfl fun i _ => ?_
  rw [lin]
  simp [hr.orth p i]

theorem energy_eq {c : Conditions Pt 1} (hr : Regular m c) (u : Fin m.count → Coeff 1 n) :
    energy m u = ∑ p, ∑ i, u p 0 i ^ 2 := by
  refine Finset.sum_congr rfl fun p _ => ?_
  simp only [pow_two]
  exact integrate_sol m hr p _ _

theorem power_eq {c : Conditions Pt 1} (hr : Regular m c) (u w : Fin m.count → Coeff 1 n) :
    power m u w = ∑ p, ∑ i, u p 0 i * w p 0 i :=
  Finset.sum_congr rfl fun p _ => integrate_sol m hr p _ _

/-- The integral over the cell, tested with the solution. -/
theorem inside_test (p : Fin m.count) (w : Coeff 1 n) :
    ∑ i, w 0 i * inside ((m.grid law a junk).cell p w) 0 i =
      ∑ k, a k * integrate (fun x => shape law (sol m p (w 0) x) * slope m p (w 0) x k) (m.basis p).rule := by
  simp only [inside]
  rw [sum_map_fin]
  have h : ∀ l : List (Pt × ℝ), ∑ k, a k * (l.map fun xw =>
      shape law (sol m p (w 0) xw.1) * slope m p (w 0) xw.1 k * xw.2).sum =
      (l.map fun xw => ∑ k, a k * (shape law (sol m p (w 0) xw.1) * slope m p (w 0) xw.1 k * xw.2)).sum := by
    intro l
    induction l with
    | nil => simp
    | cons x l ih => simp only [List.map_cons, List.sum_cons, mul_add, Finset.sum_add_distrib, ih]
  simp only [integrate_eq]
  rw [h]
  show (((m.basis p).rule.map _).map _).sum = _
  rw [List.map_map]
  refine congrArg List.sum (List.map_congr_left fun xw _ => ?_)
  have hm : ∀ k, law.matrix a (Projection.value (m.basis p) w xw.1 0) k = a k * shape law (sol m p (w 0) xw.1) :=
    fun k => matrix_eq law a _ k
  simp only [Function.comp_apply, hm, Spec.Energy.slope, Fin.sum_univ_three, Finset.mul_sum, Finset.sum_mul,
    ← Finset.sum_add_distrib]
  exact Finset.sum_congr rfl fun i _ => by ring

theorem face_lin (points : List (Point Pt)) (g : Fin 3 → Point Pt → ℝ) :
    ∑ k, a k * face points (g k) = face points fun q => ∑ k, a k * g k q := by
  simp only [face]
  induction points with
  | nil => simp
  | cons x l ih =>
    simp only [List.map_cons, List.sum_cons, mul_add, Finset.sum_add_distrib, ih, Finset.mul_sum]
    congr 1
    exact Finset.sum_congr rfl fun k _ => by ring

theorem surface_lin (c : Conditions Pt 1) (p : Fin m.count) (g : Fin 3 → Point Pt → ℝ) :
    ∑ k, a k * surface m c p (g k) = surface m c p fun q => ∑ k, a k * g k q := by
  have swap : ∀ {α : Type} (l : List α) (h : Fin 3 → α → ℝ),
      ∑ k, a k * (l.map (h k)).sum = (l.map fun x => ∑ k, a k * h k x).sum := by
    intro α l h
    induction l with
    | nil => simp
    | cons x l ih => simp only [List.map_cons, List.sum_cons, mul_add, Finset.sum_add_distrib, ih]
  simp only [surface, mul_add, Finset.sum_add_distrib]
  rw [swap, swap]
  congr 1
  · refine congrArg List.sum (List.map_congr_left fun f _ => ?_)
    simp only [← face_lin, mul_sub, Finset.sum_sub_distrib, mul_ite, mul_zero]
    split_ifs <;> simp
  · refine congrArg List.sum (List.map_congr_left fun name _ => ?_)
    simp only [rim]
    cases m.boundary name with
    | none => simp
    | some faces =>
      simp only
      rw [swap]
      refine congrArg List.sum (List.map_congr_left fun f _ => ?_)
      rw [face_lin]
      refine congrArg (face f.2) (_root_.funext fun q => ?_)
      split_ifs <;> simp

/-- `over` on the points of the mesh. -/
theorem over_face (points : List (Point Pt)) (flux : FacePoint Pt 1 → Value 1) (φ : FacePoint Pt 1 → ℝ) :
    over (points.map (Point.face law a junk)) flux φ 0 =
      face points fun q => flux (q.face law a junk) 0 * φ (q.face law a junk) := by
  simp only [over, face, List.map_map]
  refine congrArg List.sum (List.map_congr_left fun q _ => ?_)
  simp only [Function.comp_apply, Point.face]
  ring

theorem face_sub (points : List (Point Pt)) (g h : Point Pt → ℝ) :
    face points g - face points h = face points fun q => g q - h q := by
  simp only [face, mul_sub]
  rw [sum_map_sub]

theorem over_local (u : Fin m.count → Coeff 1 n) (h s p : Fin m.count) (points : List (Point Pt)) :
    over (points.map (Point.face law a junk)) (fun q => q.riemann.upwind
      (((m.grid law a junk).cell h (u h)).value q.coord) (((m.grid law a junk).cell s (u s)).value q.coord))
      (fun q => ∑ i, u p 0 i * ((m.grid law a junk).cell p (u p)).basis q.coord i) 0 =
    face points fun q =>
      law.upwind (along a q) (sol m h (u h 0) q.coord) (sol m s (u s 0) q.coord) * sol m p (u p 0) q.coord := by
  rw [over_face]
  refine congrArg (face points) (_root_.funext fun q => ?_)
  simp only [Point.face, riemann, aNormal_along]
  rfl

/-- The power of a cell. -/
theorem cell_power {c : Conditions Pt 1} (hr : Regular m c) (hb : ByParts m law c) (t : ℝ)
    (u : Fin m.count → Coeff 1 n) (p : Fin m.count) :
    ∑ i, u p 0 i * (m.grid law a junk).rates c t u p 0 i =
      (m.faces.map fun f =>
        (if f.1 = p then face f.2.2 (fun q => along a q * potential law (sol m p (u p 0) q.coord) -
          law.upwind (along a q) (sol m f.1 (u f.1 0) q.coord) (sol m f.2.1 (u f.2.1 0) q.coord) *
            sol m p (u p 0) q.coord) else 0) -
        (if f.2.1 = p then face f.2.2 (fun q => along a q * potential law (sol m p (u p 0) q.coord) -
          law.upwind (along a q) (sol m f.1 (u f.1 0) q.coord) (sol m f.2.1 (u f.2.1 0) q.coord) *
            sol m p (u p 0) q.coord) else 0)).sum +
      ((jobs c t).map fun job => rim m job.1 fun h q => if h = p then
        income law (along a q) (job.2 (q.face law a junk) (fun _ => sol m p (u p 0) q.coord) 0)
          (sol m p (u p 0) q.coord) else 0).sum := by
  have hj : ∀ job ∈ jobs c t, ((m.grid law a junk).part u).boundary job.1 ≠ none := by
    intro job hjob
    have : job.1 ∈ names c := by rw [← jobs_names c t]; exact List.mem_map_of_mem hjob
    have := hr.known _ this
    show (m.boundary job.1).map _ ≠ none
    simpa using this
  have h0 : n = 0 → ∀ p : Fin ((m.grid law a junk).part u).count, ∀ v ∈ (((m.grid law a junk).part u).cells p).volume, ∀ k i, v.grad k i = 0 := by
    intro hn p v hv k i
    obtain ⟨xw, -, rfl⟩ := List.mem_map.1 hv
    exact hr.flat hn _ _ _ _
  have e0 : ∀ i, (m.grid law a junk).rates c t u p 0 i = weakForm (fun c q => c.value q.coord) ((m.grid law a junk).part u) c t p i
      (fun q => ((m.grid law a junk).cell p (u p)).basis q.coord i) 0 := fun i => (rates_weak hj h0 p 0 i).2
  simp only [e0]
  refine (weak_test _ ((m.grid law a junk).part u) c t p (u p 0)
    (fun i q => ((m.grid law a junk).cell p (u p)).basis q.coord i)).trans ?_
  have e1 : ∑ i, u p 0 i * inside (((m.grid law a junk).part u).cells p) 0 i =
      surface m c p fun q => along a q * potential law (sol m p (u p 0) q.coord) := by
    refine (inside_test m law a junk p (u p)).trans ?_
    simp only [hb p (u p 0)]
    rw [surface_lin]
    refine congrArg (surface m c p) (_root_.funext fun q => ?_)
    simp only [along, Finset.sum_mul]
    exact Finset.sum_congr rfl fun k _ => by ring
  have eφ : ∀ q : FacePoint Pt 1, ∑ i, u p 0 i * ((m.grid law a junk).cell p (u p)).basis q.coord i = sol m p (u p 0) q.coord :=
    fun q => rfl
  have e2 : outGhost (fun c q => c.value q.coord) ((m.grid law a junk).part u) p
      (fun q => ∑ i, u p 0 i * ((m.grid law a junk).cell p (u p)).basis q.coord i) 0 = 0 := by
    simp [outGhost, Grid.part]
  have e3 : outLocal (fun c q => c.value q.coord) ((m.grid law a junk).part u) p
      (fun q => ∑ i, u p 0 i * ((m.grid law a junk).cell p (u p)).basis q.coord i) 0 =
      (m.faces.map fun f =>
        (if f.1 = p then face f.2.2 (fun q =>
          law.upwind (along a q) (sol m f.1 (u f.1 0) q.coord) (sol m f.2.1 (u f.2.1 0) q.coord) *
            sol m p (u p 0) q.coord) else 0) -
        (if f.2.1 = p then face f.2.2 (fun q =>
          law.upwind (along a q) (sol m f.1 (u f.1 0) q.coord) (sol m f.2.1 (u f.2.1 0) q.coord) *
            sol m p (u p 0) q.coord) else 0)).sum := by
    simp only [outLocal]
    show ((m.faces.map _).map _).sum = _
    refine (congrArg List.sum List.map_map).trans ?_
    refine congrArg List.sum (List.map_congr_left fun f _ => ?_)
    have ov := over_local m law a junk u f.1 f.2.1 p f.2.2
    have ite : ∀ (b : Prop) [Decidable b] {x y : ℝ}, x = y → (if b then x else 0) = (if b then y else 0) := by
      intro b _ x y h
      rw [h]
    exact congrArg₂ (· - ·) (ite (f.1 = p) ov) (ite (f.2.1 = p) ov)
  have e4 : ((jobs c t).map fun job => outBoundary (fun c q => c.value q.coord) ((m.grid law a junk).part u) p
      (fun q => ∑ i, u p 0 i * ((m.grid law a junk).cell p (u p)).basis q.coord i) 0 job.1 job.2).sum =
      ((jobs c t).map fun job => rim m job.1 fun h q => if h = p then
        job.2 (q.face law a junk) (fun _ => sol m p (u p 0) q.coord) 0 * sol m p (u p 0) q.coord else 0).sum := by
    refine congrArg List.sum (List.map_congr_left fun job _ => ?_)
    have hbd : ((m.grid law a junk).part u).boundary job.1 =
        (m.boundary job.1).map fun l => l.map fun f => ⟨f.1, f.2.map (Point.face law a junk)⟩ := rfl
    simp only [outBoundary, rim, hbd]
    cases m.boundary job.1 with
    | none => rfl
    | some faces =>
      simp only [Option.map_some]
      rw [List.map_map]
      refine congrArg List.sum (List.map_congr_left fun f _ => ?_)
      simp only [Function.comp_apply, over_face, eφ]
      by_cases hp : f.1 = p
      · subst hp
        simp only [if_true]
        refine (if_pos rfl).trans ?_
        refine congrArg (face f.2) (_root_.funext fun q => ?_)
        show job.2 _ (((m.grid law a junk).cell f.1 (u f.1)).value q.coord) 0 * _ = _
        rw [value_sol]
        rfl
      · simp only [if_neg hp]
        refine (if_neg hp).trans ?_
        simp [face]
  have e5 : ((names c).map fun name => rim m name fun h q => if h = p then
        along a q * potential law (sol m p (u p 0) q.coord) else 0).sum =
      ((jobs c t).map fun job => rim m job.1 fun h q => if h = p then
        along a q * potential law (sol m p (u p 0) q.coord) else 0).sum := by
    rw [← jobs_names c t, List.map_map]
    rfl
  refine (congrArg₂ (· - ·) (congrArg₂ (· - ·) (congrArg₂ (· - ·) e1 e3) e2) e4).trans ?_
  simp only [surface, sub_zero]
  rw [e5, add_sub_right_comm, add_sub_assoc, ← sum_map_sub, ← sum_map_sub]
  congr 1
  · refine congrArg List.sum (List.map_congr_left fun f _ => ?_)
    simp only [← face_sub]
    split_ifs <;> ring
  · refine congrArg List.sum (List.map_congr_left fun job _ => ?_)
    simp only [rim]
    cases m.boundary job.1 with
    | none => simp
    | some faces =>
      simp only
      rw [← sum_map_sub]
      refine congrArg List.sum (List.map_congr_left fun f _ => ?_)
      rw [face_sub]
      refine congrArg (face f.2) (_root_.funext fun q => ?_)
      simp only [income]
      split_ifs <;> simp

/-- The power of the mesh. -/
theorem mesh_power {c : Conditions Pt 1} (hr : Regular m c) (hb : ByParts m law c) (t : ℝ)
    (u : Fin m.count → Coeff 1 n) :
    power m u ((m.grid law a junk).rates c t u) =
      -(m.faces.map fun f => face f.2.2 fun q =>
        loss law (along a q) (sol m f.1 (u f.1 0) q.coord) (sol m f.2.1 (u f.2.1 0) q.coord)).sum +
      ((jobs c t).map fun job => rim m job.1 fun h q =>
        income law (along a q) (job.2 (q.face law a junk) (fun _ => sol m h (u h 0) q.coord) 0)
          (sol m h (u h 0) q.coord)).sum := by
  refine (power_eq m hr u _).trans ?_
  refine (Finset.sum_congr rfl fun p _ => cell_power m law a junk hr hb t u p).trans ?_
  rw [Finset.sum_add_distrib, sum_swap_list, sum_swap_list]
  congr 1
  · rw [← sum_map_neg']
    refine congrArg List.sum (List.map_congr_left fun f _ => ?_)
    rw [Finset.sum_sub_distrib]
    simp only [Finset.sum_ite_eq, Finset.mem_univ, if_true]
    rw [face_sub]
    have : ∀ g : Point Pt → ℝ, -face f.2.2 g = face f.2.2 fun q => -g q := by
      intro g
      simp only [face, mul_neg]
      rw [sum_map_neg']
    rw [this]
    refine congrArg (face f.2.2) (_root_.funext fun q => ?_)
    simp only [loss]
    ring
  · refine congrArg List.sum (List.map_congr_left fun job _ => ?_)
    simp only [rim]
    cases m.boundary job.1 with
    | none => simp
    | some faces =>
      simp only
      rw [sum_swap_list]
      refine congrArg List.sum (List.map_congr_left fun f _ => ?_)
      simp only [face]
      rw [sum_swap_list]
      refine congrArg List.sum (List.map_congr_left fun q _ => ?_)
      simp

end MiniCFD.Energy
