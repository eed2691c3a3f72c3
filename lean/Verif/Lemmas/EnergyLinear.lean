import Verif.Lemmas.Energy
import Verif.Lemmas.EnergyRK
import Mathlib.Algebra.Order.BigOperators.Ring.Finset
import Mathlib.Tactic.Positivity

/-! The rates tested with any function of the space; the rates of the linear equation are linear but for a source. -/

namespace MiniCFD.Energy

open MiniCFD.Spec.Energy MiniCFD.Spec.WeakForm MiniCFD.Residual MiniCFD.Projection MiniCFD.Ortho MiniCFD.Parallel

variable {Pt : Type} {n : Nat}

section

variable (m : Mesh Pt n) (law : Law) (a : Fin 3 → ℝ) (junk : Value 1 → Value 1 → Value 1)

theorem inside_any (p : Fin m.count) (w : Coeff 1 n) (v : Fin (n + 1) → ℝ) :
    ∑ i, v i * inside ((m.grid law a junk).cell p w) 0 i =
      ∑ k, a k * integrate (fun x => shape law (sol m p (w 0) x) * slope m p v x k) (m.basis p).rule := by
  simp only [inside]
  rw [sum_map_fin]
  have h : ∀ l : List (Pt × ℝ), ∑ k, a k * (l.map fun xw =>
      shape law (sol m p (w 0) xw.1) * slope m p v xw.1 k * xw.2).sum =
      (l.map fun xw => ∑ k, a k * (shape law (sol m p (w 0) xw.1) * slope m p v xw.1 k * xw.2)).sum := by
    intro l
    induction l with
    | nil => simp
    | cons x l ih => simp only [List.map_cons, List.sum_cons, mul_add, Finset.sum_add_distrib, ih]
  simp only [integrate_eq]
  rw [h]
  show (((m.basis p).rule.map _).map _).sum = _
  rw [List.map_map]
  refine congrArg List.sum (List.map_congr_left fun xw _ => ?_)
  have hm : ∀ k, law.matrix a (Projection.value (m.basis p) w xw.1 0) k = a k * shape law (sol m p (w 0) xw.1) :=
    fun k => matrix_eq law a _ k
  simp only [Function.comp_apply, hm, Spec.Energy.slope, Fin.sum_univ_three, Finset.mul_sum, Finset.sum_mul,
    ← Finset.sum_add_distrib]
  exact Finset.sum_congr rfl fun i _ => by ring

theorem over_any (u : Fin m.count → Coeff 1 n) (h s p : Fin m.count) (v : Fin (n + 1) → ℝ)
    (points : List (Point Pt)) :
    over (points.map (Point.face law a junk)) (fun q => q.riemann.upwind
      (((m.grid law a junk).cell h (u h)).value q.coord) (((m.grid law a junk).cell s (u s)).value q.coord))
      (fun q => ∑ i, v i * ((m.grid law a junk).cell p (u p)).basis q.coord i) 0 =
    face points fun q =>
      law.upwind (along a q) (sol m h (u h 0) q.coord) (sol m s (u s 0) q.coord) * sol m p v q.coord := by
  rw [over_face]
  refine congrArg (face points) (_root_.funext fun q => ?_)
  simp only [Point.face, riemann, aNormal_along]
  rfl

/-- The rates tested with a function of the space. -/
theorem rates_test {c : Conditions Pt 1} (hr : Regular m c) (t : ℝ) (u : Fin m.count → Coeff 1 n) (p : Fin m.count)
    (v : Fin (n + 1) → ℝ) :
    ∑ i, v i * (m.grid law a junk).rates c t u p 0 i =
      (∑ k, a k * integrate (fun x => shape law (sol m p (u p 0) x) * slope m p v x k) (m.basis p).rule) -
      (m.faces.map fun f =>
        (if f.1 = p then face f.2.2 (fun q =>
          law.upwind (along a q) (sol m f.1 (u f.1 0) q.coord) (sol m f.2.1 (u f.2.1 0) q.coord) *
            sol m p v q.coord) else 0) -
        (if f.2.1 = p then face f.2.2 (fun q =>
          law.upwind (along a q) (sol m f.1 (u f.1 0) q.coord) (sol m f.2.1 (u f.2.1 0) q.coord) *
            sol m p v q.coord) else 0)).sum -
      ((jobs c t).map fun job => rim m job.1 fun h q => if h = p then
        job.2 (q.face law a junk) (fun _ => sol m p (u p 0) q.coord) 0 * sol m p v q.coord else 0).sum := by
  have hj : ∀ job ∈ jobs c t, ((m.grid law a junk).part u).boundary job.1 ≠ none := by
    intro job hjob
    have : job.1 ∈ names c := by rw [← jobs_names c t]; exact List.mem_map_of_mem hjob
    have := hr.known _ this
    show (m.boundary job.1).map _ ≠ none
    simpa using this
  have h0 : n = 0 → ∀ p : Fin ((m.grid law a junk).part u).count, ∀ v ∈ (((m.grid law a junk).part u).cells p).volume,
      ∀ k i, v.grad k i = 0 := by
    intro hn p v hv k i
    obtain ⟨xw, -, rfl⟩ := List.mem_map.1 hv
    exact hr.flat hn _ _ _ _
  have e0 : ∀ i, (m.grid law a junk).rates c t u p 0 i = weakForm (fun c q => c.value q.coord)
      ((m.grid law a junk).part u) c t p i
      (fun q => ((m.grid law a junk).cell p (u p)).basis q.coord i) 0 := fun i => (rates_weak hj h0 p 0 i).2
  simp only [e0]
  refine (weak_test _ ((m.grid law a junk).part u) c t p v
    (fun i q => ((m.grid law a junk).cell p (u p)).basis q.coord i)).trans ?_
  have e1 := inside_any m law a junk p (u p) v
  have eφ : ∀ q : FacePoint Pt 1, ∑ i, v i * ((m.grid law a junk).cell p (u p)).basis q.coord i = sol m p v q.coord :=
    fun q => rfl
  have e2 : outGhost (fun c q => c.value q.coord) ((m.grid law a junk).part u) p
      (fun q => ∑ i, v i * ((m.grid law a junk).cell p (u p)).basis q.coord i) 0 = 0 := by
    simp [outGhost, Grid.part]
  have e3 : outLocal (fun c q => c.value q.coord) ((m.grid law a junk).part u) p
      (fun q => ∑ i, v i * ((m.grid law a junk).cell p (u p)).basis q.coord i) 0 =
      (m.faces.map fun f =>
        (if f.1 = p then face f.2.2 (fun q =>
          law.upwind (along a q) (sol m f.1 (u f.1 0) q.coord) (sol m f.2.1 (u f.2.1 0) q.coord) *
            sol m p v q.coord) else 0) -
        (if f.2.1 = p then face f.2.2 (fun q =>
          law.upwind (along a q) (sol m f.1 (u f.1 0) q.coord) (sol m f.2.1 (u f.2.1 0) q.coord) *
            sol m p v q.coord) else 0)).sum := by
    simp only [outLocal]
    show ((m.faces.map _).map _).sum = _
    refine (congrArg List.sum List.map_map).trans ?_
    refine congrArg List.sum (List.map_congr_left fun f _ => ?_)
    have ov := over_any m law a junk u f.1 f.2.1 p v f.2.2
    have ite : ∀ (b : Prop) [Decidable b] {x y : ℝ}, x = y → (if b then x else 0) = (if b then y else 0) := by
      intro b _ x y h
      rw [h]
    exact congrArg₂ (· - ·) (ite (f.1 = p) ov) (ite (f.2.1 = p) ov)
  have e4 : ((jobs c t).map fun job => outBoundary (fun c q => c.value q.coord) ((m.grid law a junk).part u) p
      (fun q => ∑ i, v i * ((m.grid law a junk).cell p (u p)).basis q.coord i) 0 job.1 job.2).sum =
      ((jobs c t).map fun job => rim m job.1 fun h q => if h = p then
        job.2 (q.face law a junk) (fun _ => sol m p (u p 0) q.coord) 0 * sol m p v q.coord else 0).sum := by
    refine congrArg List.sum (List.map_congr_left fun job _ => ?_)
    have hbd : ((m.grid law a junk).part u).boundary job.1 =
        (m.boundary job.1).map fun l => l.map fun f => ⟨f.1, f.2.map (Point.face law a junk)⟩ := rfl
    simp only [outBoundary, rim, hbd]
    cases m.boundary job.1 with
    | none => rfl
    | some faces =>
      simp only [Option.map_some]
      rw [List.map_map]
      refine congrArg List.sum (List.map_congr_left fun f _ => ?_)
      simp only [Function.comp_apply, over_face, eφ]
      by_cases hp : f.1 = p
      · subst hp
        simp only [if_true]
        refine (if_pos rfl).trans ?_
        refine congrArg (face f.2) (_root_.funext fun q => ?_)
        show job.2 _ (((m.grid law a junk).cell f.1 (u f.1)).value q.coord) 0 * _ = _
        rw [value_sol]
        rfl
      · simp only [if_neg hp]
        refine (if_neg hp).trans ?_
        simp [face]
  refine (congrArg₂ (· - ·) (congrArg₂ (· - ·) (congrArg₂ (· - ·) e1 e3) e2) e4).trans ?_
  rw [sub_zero]

/-- The rate of one coefficient. -/
theorem rate_eq {c : Conditions Pt 1} (hr : Regular m c) (t : ℝ) (u : Fin m.count → Coeff 1 n) (p : Fin m.count)
    (i : Fin (n + 1)) (v : Fin (n + 1) → ℝ) (hv : v = fun j => if j = i then 1 else 0) :
    (m.grid law a junk).rates c t u p 0 i =
      (∑ k, a k * integrate (fun x => shape law (sol m p (u p 0) x) * slope m p v x k) (m.basis p).rule) -
      (m.faces.map fun f =>
        (if f.1 = p then face f.2.2 (fun q =>
          law.upwind (along a q) (sol m f.1 (u f.1 0) q.coord) (sol m f.2.1 (u f.2.1 0) q.coord) *
            sol m p v q.coord) else 0) -
        (if f.2.1 = p then face f.2.2 (fun q =>
          law.upwind (along a q) (sol m f.1 (u f.1 0) q.coord) (sol m f.2.1 (u f.2.1 0) q.coord) *
            sol m p v q.coord) else 0)).sum -
      ((jobs c t).map fun job => rim m job.1 fun h q => if h = p then
        job.2 (q.face law a junk) (fun _ => sol m p (u p 0) q.coord) 0 * sol m p v q.coord else 0).sum := by
  rw [← rates_test m law a junk hr t u p v, hv]
  simp

/-! ### Linearity -/

theorem sol_lin (p : Fin m.count) (x y : ℝ) (v w : Fin (n + 1) → ℝ) (pt : Pt) :
    sol m p (fun i => x * v i + y * w i) pt = x * sol m p v pt + y * sol m p w pt := by
  simp only [sol, Finset.mul_sum, ← Finset.sum_add_distrib]
  exact Finset.sum_congr rfl fun i _ => by ring

theorem face_lin2 (points : List (Point Pt)) (x y : ℝ) (f g : Point Pt → ℝ) :
    face points (fun q => x * f q + y * g q) = x * face points f + y * face points g := by
  simp only [face]
  induction points with
  | nil => simp
  | cons a l ih => simp only [List.map_cons, List.sum_cons, ih]; ring

theorem rim_lin2 (name : String) (x y : ℝ) (f g : Fin m.count → Point Pt → ℝ) :
    rim m name (fun h q => x * f h q + y * g h q) = x * rim m name f + y * rim m name g := by
  simp only [rim]
  cases m.boundary name with
  | none => simp
  | some faces =>
    simp only [face_lin2]
    induction faces with
    | nil => simp
    | cons a l ih => simp only [List.map_cons, List.sum_cons, ih]; ring

theorem list_lin2 {α : Type*} (l : List α) (x y : ℝ) (f g : α → ℝ) :
    (l.map fun s => x * f s + y * g s).sum = x * (l.map f).sum + y * (l.map g).sum := by
  induction l with
  | nil => simp
  | cons a l ih => simp only [List.map_cons, List.sum_cons, ih]; ring

theorem integrate_lin2 (rule : Rule Pt) (x y : ℝ) (f g : Pt → ℝ) :
    integrate (fun s => x * f s + y * g s) rule = x * integrate f rule + y * integrate g rule := by
  simp only [integrate_eq]
  induction rule with
  | nil => simp
  | cons a l ih => simp only [List.map_cons, List.sum_cons, ih]; ring

theorem upwind_lin2 (al x y l r l' r' : ℝ) :
    Simple.singleUpwind al (x * l + y * l') (x * r + y * r') =
      x * Simple.singleUpwind al l r + y * Simple.singleUpwind al l' r' := by
  simp only [Simple.singleUpwind]
  split_ifs <;> ring

/-- The part of the rates that depends on the solution. -/
noncomputable def linear (c : Conditions Pt 1) (u : Fin m.count → Coeff 1 n) (p : Fin m.count)
    (v : Fin (n + 1) → ℝ) : ℝ :=
  (∑ k, a k * integrate (fun x => sol m p (u p 0) x * slope m p v x k) (m.basis p).rule) -
  (m.faces.map fun f =>
    (if f.1 = p then face f.2.2 (fun q => Simple.singleUpwind (along a q) (sol m f.1 (u f.1 0) q.coord)
        (sol m f.2.1 (u f.2.1 0) q.coord) * sol m p v q.coord) else 0) -
    (if f.2.1 = p then face f.2.2 (fun q => Simple.singleUpwind (along a q) (sol m f.1 (u f.1 0) q.coord)
        (sol m f.2.1 (u f.2.1 0) q.coord) * sol m p v q.coord) else 0)).sum -
  (c.supersonicOutlet.map fun name => rim m name fun h q => if h = p then
    sol m p (u p 0) q.coord * along a q * sol m p v q.coord else 0).sum

/-- The part that does not. -/
noncomputable def source (c : Conditions Pt 1) (t : ℝ) (p : Fin m.count) (v : Fin (n + 1) → ℝ) : ℝ :=
  -(c.supersonicInlet.map fun nf => rim m nf.1 fun h q => if h = p then
    nf.2 q.coord t 0 * along a q * sol m p v q.coord else 0).sum

theorem rim_zero (name : String) : rim m name (fun _ _ => 0) = 0 := by
  simp only [rim]
  cases m.boundary name <;> simp [face]

/-- Of the conditions only those are used that the solver supports. -/
theorem jobs_plain {c : Conditions Pt 1} (h1 : c.subsonicInlet = []) (h2 : c.subsonicOutlet = []) (h3 : c.smart = [])
    (t : ℝ) : jobs c t =
      (c.solidWall.map fun name => (name, fun (q : FacePoint Pt 1) u => q.riemann.solidWall u)) ++
      (c.supersonicInlet.map fun nf => (nf.1, fun (q : FacePoint Pt 1) _ => q.riemann.supersonicInlet (nf.2 q.coord t))) ++
      (c.supersonicOutlet.map fun name => (name, fun (q : FacePoint Pt 1) u => q.riemann.supersonicOutlet u)) := by
  simp [jobs, h1, h2, h3]

theorem rate_single {c : Conditions Pt 1} (hr : Regular m c) (h1 : c.subsonicInlet = []) (h2 : c.subsonicOutlet = [])
    (h3 : c.smart = []) (t : ℝ) (u : Fin m.count → Coeff 1 n) (p : Fin m.count) (i : Fin (n + 1)) :
    (m.grid .single a junk).rates c t u p 0 i =
      linear m a c u p (fun j => if j = i then 1 else 0) + source m a c t p (fun j => if j = i then 1 else 0) := by
  refine (rate_eq m .single a junk hr t u p i _ rfl).trans ?_
  rw [jobs_plain h1 h2 h3]
  simp only [linear, source, List.map_append, List.sum_append, List.map_map, Function.comp_def, Point.face, riemann,
    Law.flux, Law.upwind, Simple.singleFlux, aNormal_along, shape, zero_mul, ite_self, rim_zero]
  simp
  ring

theorem linear_lin2 (c : Conditions Pt 1) (x y : ℝ) (u w : Fin m.count → Coeff 1 n) (p : Fin m.count)
    (v : Fin (n + 1) → ℝ) :
    linear m a c (fun p r i => x * u p r i + y * w p r i) p v = x * linear m a c u p v + y * linear m a c w p v := by
  simp only [linear, sol_lin, upwind_lin2]
  have e1 : ∀ k, integrate (fun pt => (x * sol m p (u p 0) pt + y * sol m p (w p 0) pt) * slope m p v pt k)
      (m.basis p).rule = x * integrate (fun pt => sol m p (u p 0) pt * slope m p v pt k) (m.basis p).rule +
      y * integrate (fun pt => sol m p (w p 0) pt * slope m p v pt k) (m.basis p).rule := by
    intro k
    rw [← integrate_lin2]
    refine congrArg (fun f => integrate f _) (_root_.funext fun pt => ?_)
    ring
  have e2 : ∀ f : Fin m.count × Fin m.count × List (Point Pt), face f.2.2 (fun q =>
      (x * Simple.singleUpwind (along a q) (sol m f.1 (u f.1 0) q.coord) (sol m f.2.1 (u f.2.1 0) q.coord) +
        y * Simple.singleUpwind (along a q) (sol m f.1 (w f.1 0) q.coord) (sol m f.2.1 (w f.2.1 0) q.coord)) *
        sol m p v q.coord) =
      x * face f.2.2 (fun q => Simple.singleUpwind (along a q) (sol m f.1 (u f.1 0) q.coord)
        (sol m f.2.1 (u f.2.1 0) q.coord) * sol m p v q.coord) +
      y * face f.2.2 (fun q => Simple.singleUpwind (along a q) (sol m f.1 (w f.1 0) q.coord)
        (sol m f.2.1 (w f.2.1 0) q.coord) * sol m p v q.coord) := by
    intro f
    rw [← face_lin2]
    refine congrArg (face f.2.2) (_root_.funext fun q => ?_)
    ring
  have e3 : ∀ name, (rim m name fun h q => if h = p then
      (x * sol m p (u p 0) q.coord + y * sol m p (w p 0) q.coord) * along a q * sol m p v q.coord else 0) =
      x * (rim m name fun h q => if h = p then sol m p (u p 0) q.coord * along a q * sol m p v q.coord else 0) +
      y * (rim m name fun h q => if h = p then sol m p (w p 0) q.coord * along a q * sol m p v q.coord else 0) := by
    intro name
    rw [← rim_lin2]
    refine congrArg (rim m name) (_root_.funext fun h => _root_.funext fun q => ?_)
    split_ifs <;> ring
  simp only [e1, e2, e3]
  have e4 : ∀ f : Fin m.count × Fin m.count × List (Point Pt), ∀ A B : ℝ,
      ((if f.1 = p then x * A + y * B else 0) - (if f.2.1 = p then x * A + y * B else 0)) =
      x * ((if f.1 = p then A else 0) - (if f.2.1 = p then A else 0)) +
      y * ((if f.1 = p then B else 0) - (if f.2.1 = p then B else 0)) := by
    intro f A B
    split_ifs <;> ring
  simp only [e4, list_lin2]
  simp only [Fin.sum_univ_three]
  ring

theorem quiet_names (c : Conditions Pt 1) : names (quiet c) = names c := by
  simp [names, quiet, List.map_map, Function.comp_def]

theorem quiet_regular {c : Conditions Pt 1} (hr : Regular m c) : Regular m (quiet c) :=
  ⟨hr.orth, hr.flat, hr.weights, hr.rims, by rw [quiet_names]; exact hr.known⟩

theorem quiet_byParts {c : Conditions Pt 1} (hb : ByParts m law c) : ByParts m law (quiet c) := by
  intro p v k
  rw [hb p v k]
  simp only [surface, quiet_names]

theorem quiet_source (c : Conditions Pt 1) (t : ℝ) (p : Fin m.count) (v : Fin (n + 1) → ℝ) :
    source m a (quiet c) t p v = 0 := by
  simp only [source, quiet, List.map_map, Function.comp_def, zero_mul, ite_self, rim_zero]
  simp

theorem quiet_rate {c : Conditions Pt 1} (hr : Regular m c) (h1 : c.subsonicInlet = []) (h2 : c.subsonicOutlet = [])
    (h3 : c.smart = []) (t : ℝ) (z : Fin m.count → Coeff 1 n) (p : Fin m.count) (i : Fin (n + 1)) :
    (m.grid .single a junk).rates (quiet c) t z p 0 i = linear m a c z p (fun j => if j = i then 1 else 0) := by
  refine (rate_single m a junk (quiet_regular m hr) h1 h2 h3 t z p i).trans ?_
  exact (congrArg (linear m a c z p _ + ·) (quiet_source m a c t p _)).trans (add_zero _)

/-- The rates without inflow. -/
noncomputable def operator {c : Conditions Pt 1} (hr : Regular m c) (h1 : c.subsonicInlet = [])
    (h2 : c.subsonicOutlet = []) (h3 : c.smart = []) :
    (Fin m.count → Coeff 1 n) →ₗ[ℝ] (Fin m.count → Coeff 1 n) where
  toFun u := (m.grid .single a junk).rates (quiet c) 0 u
  map_add' u w := by
    funext p r i
    obtain rfl : r = 0 := Subsingleton.elim _ _
    refine (quiet_rate m a junk hr h1 h2 h3 0 (u + w) p i).trans ?_
    refine Eq.trans ?_ (congrArg₂ (· + ·) (quiet_rate m a junk hr h1 h2 h3 0 u p i)
      (quiet_rate m a junk hr h1 h2 h3 0 w p i)).symm
    have := linear_lin2 m a c 1 1 u w p (fun j => if j = i then 1 else 0)
    simp only [one_mul] at this
    exact this
  map_smul' x u := by
    funext p r i
    obtain rfl : r = 0 := Subsingleton.elim _ _
    refine (quiet_rate m a junk hr h1 h2 h3 0 (x • u) p i).trans ?_
    refine Eq.trans ?_ (congrArg (x * ·) (quiet_rate m a junk hr h1 h2 h3 0 u p i)).symm
    have := linear_lin2 m a c x 0 u u p (fun j => if j = i then 1 else 0)
    simp only [zero_mul, add_zero] at this
    exact this

/-- The rates are those without inflow and a source. -/
theorem rates_affine {c : Conditions Pt 1} (hr : Regular m c) (h1 : c.subsonicInlet = []) (h2 : c.subsonicOutlet = [])
    (h3 : c.smart = []) (t : ℝ) (u : Fin m.count → Coeff 1 n) :
    (m.grid .single a junk).rates c t u = operator m a junk hr h1 h2 h3 u +
      fun p _ i => source m a c t p (fun j => if j = i then 1 else 0) := by
  funext p r i
  obtain rfl : r = 0 := Subsingleton.elim _ _
  refine (rate_single m a junk hr h1 h2 h3 t u p i).trans ?_
  exact (congrArg (· + source m a c t p _) (quiet_rate m a junk hr h1 h2 h3 0 u p i)).symm

end

/-! ### The energy as a bilinear form -/

/-- The sum of products. -/
noncomputable def dot (N n : Nat) : (Fin N → Coeff 1 n) →ₗ[ℝ] (Fin N → Coeff 1 n) →ₗ[ℝ] ℝ :=
  LinearMap.mk₂ ℝ (fun u w => ∑ p, ∑ i, u p 0 i * w p 0 i)
    (by intros; simp only [Pi.add_apply, add_mul, Finset.sum_add_distrib])
    (by intros; simp only [Pi.smul_apply, smul_eq_mul, mul_assoc, Finset.mul_sum])
    (by intros; simp only [Pi.add_apply, mul_add, Finset.sum_add_distrib])
    (by intros; simp only [Pi.smul_apply, smul_eq_mul, Finset.mul_sum]
        exact Finset.sum_congr rfl fun _ _ => Finset.sum_congr rfl fun _ _ => by ring)

/-- Linear maps are bounded. -/
theorem dot_bounded {N n : Nat} (L : (Fin N → Coeff 1 n) →ₗ[ℝ] (Fin N → Coeff 1 n)) :
    ∃ M : ℝ, 0 ≤ M ∧ ∀ u, dot N n (L u) (L u) ≤ M * dot N n u u := by
  classical
  let e : Fin N × Fin (n + 1) → (Fin N → Coeff 1 n) := fun x p _ i => if p = x.1 ∧ i = x.2 then 1 else 0
  refine ⟨∑ p, ∑ i, ∑ x, (L (e x) p 0 i) ^ 2, by positivity, fun u => ?_⟩
  have hu : u = ∑ x, u x.1 0 x.2 • e x := by
    funext p r i
    obtain rfl : r = 0 := Subsingleton.elim _ _
    simp only [Finset.sum_apply, Pi.smul_apply, smul_eq_mul, e]
    rw [Finset.sum_eq_single (p, i)]
    · simp
    · rintro ⟨p', i'⟩ - hne
      rw [if_neg, mul_zero]
      rintro ⟨rfl, rfl⟩
      exact hne rfl
    · simp
  have hL : ∀ p i, L u p 0 i = ∑ x, u x.1 0 x.2 * L (e x) p 0 i := by
    intro p i
    conv_lhs => rw [hu]
    rw [map_sum]
    simp only [Finset.sum_apply, map_smul, Pi.smul_apply, smul_eq_mul]
  have hd : dot N n u u = ∑ x : Fin N × Fin (n + 1), u x.1 0 x.2 ^ 2 := by
    rw [Fintype.sum_prod_type]
    show ∑ p, ∑ i, u p 0 i * u p 0 i = _
    simp only [pow_two]
  show ∑ p, ∑ i, L u p 0 i * L u p 0 i ≤ _
  rw [hd, Finset.sum_mul]
  refine Finset.sum_le_sum fun p _ => ?_
  rw [Finset.sum_mul]
  refine Finset.sum_le_sum fun i _ => ?_
  rw [hL, ← pow_two, mul_comm]
  exact Finset.sum_mul_sq_le_sq_mul_sq _ _ _

end MiniCFD.Energy
