import Verif.Lemmas.Turn
import Verif.Props.RK
import Verif.Props.Gas

/-!
# C136: turning everything turns the results

`dg::General` of any degree with Euler's equations on a mesh and on its image under a rotation or reflection.
-/

namespace MiniCFD.Turn

open MiniCFD.Spec.Turn MiniCFD.Gas MiniCFD.Residual MiniCFD.Projection MiniCFD.Ortho MiniCFD.Euler MiniCFD.Spec.Euler
open MiniCFD.RK MiniCFD.Spec.RK

/-! ### Solvers -/

section

variable {d : Nat} {Q F F' : Frame d}

/-- **C136.** HLLC: whatever the tangents are. -/
theorem hllc_turn (γ : ℝ) (hF : Frames Q F F') (h : Orthonormal Q) (l r : Tup d) :
    upwind γ (hllc γ) F' (turn Q l) (turn Q r) = turn Q (upwind γ (hllc γ) F l r) :=
  upwind_turn (hllc_assemble γ) hF h l r

/-- **C136.** AUSM. -/
theorem ausm_turn (γ : ℝ) (hF : Frames Q F F') (h : Orthonormal Q) (l r : Tup d) :
    upwind γ (ausm γ) F' (turn Q l) (turn Q r) = turn Q (upwind γ (ausm γ) F l r) :=
  upwind_turn (ausm_assemble γ) hF h l r

/-- **C136.** The exact solver, with what it remembers: it returns in both cases or in none. -/
theorem exact_turn (fuel : Nat) (γ starU : ℝ) (hF : Frames Q F F') (h : Orthonormal Q) (l r : Tup d) :
    Exact.rotatedCall fuel γ F' starU (turn Q l) (turn Q r) =
      (Exact.rotatedCall fuel γ F starU l r).map fun o => (turn Q o.1, o.2) :=
  rotatedCall_turn fuel γ starU hF h l r

end

/-! ### Meshes -/

variable {Pt Pt' : Type} {n : Nat} {Q : Frame 2} {φ : Pt → Pt'} {γ : ℝ} {m : Mesh Pt n} {m' : Mesh Pt' n}
  {e : Fin m.count → Fin m'.count} {c : Conditions Pt 5} {c' : Conditions Pt' 5}

/-- **C136.** The residual on the image, of the image of the flow, is the image of the residual. -/
theorem residual_follows (hi : Image Q φ m m' e) (hc : Likewise Q φ c c') (hk : Known m c) (t : ℝ)
    {u : Fin m.count → Coeff 5 n} {u' : Fin m'.count → Coeff 5 n} (hu : Follows Q φ m m' e u u') :
    Follows Q φ m m' e (m.rates γ c t u) (m'.rates γ c' t u') := by
  intro p x
  obtain ⟨M, hM, hg⟩ := hi.span p
  have ho := span_orthogonal hi p hM
  have hcol : ∀ j k, ∑ i, M i j * M i k = if j = k then 1 else 0 := by
    intro j k
    have := congrFun (congrFun ho j) k
    rw [Matrix.mul_apply, Matrix.one_apply] at this
    exact this
  refine tup_of_value fun r => ?_
  have e1 : ∀ i, m'.rates γ c' t u' (e p) r i = comb (M i) (big Q r) fun j s => m.rates γ c t u p s j :=
    fun i => rates_turn hi hc hk hu t p r (fun x => hM x i) fun x k => hg x i k
  simp only [e1, hM, comb]
  have e2 : ∀ R B : Fin (n + 1) → ℝ, ∑ i, (∑ j, M i j * R j) * ∑ k, M i k * B k = ∑ j, R j * B j := by
    intro R B
    have : ∀ i, (∑ j, M i j * R j) * ∑ k, M i k * B k = ∑ j, ∑ k, R j * B k * (M i j * M i k) := by
      intro i
      rw [Finset.sum_mul_sum]
      exact Finset.sum_congr rfl fun j _ => Finset.sum_congr rfl fun k _ => by ring
    simp only [this]
    rw [Finset.sum_comm]
    refine Finset.sum_congr rfl fun j _ => ?_
    rw [Finset.sum_comm]
    simp only [← Finset.mul_sum, hcol, mul_ite, mul_one, mul_zero, Finset.sum_ite_eq, Finset.mem_univ, if_true]
  rw [e2 (fun j => ∑ s, big Q r s * m.rates γ c t u p s j) (fun j => basisValues (m.basis p) x j)]
  simp only [Finset.sum_mul, Finset.mul_sum]
  rw [Finset.sum_comm]
  exact Finset.sum_congr rfl fun s _ => Finset.sum_congr rfl fun j _ => by ring

theorem follows_lin {u w : Fin m.count → Coeff 5 n} {u' w' : Fin m'.count → Coeff 5 n}
    (hu : Follows Q φ m m' e u u') (hw : Follows Q φ m m' e w w') (a b : ℝ) :
    Follows Q φ m m' e (a • u + b • w) (a • u' + b • w') := by
  intro p x
  refine tup_of_value fun r => ?_
  have h1 := turned_value (hu p x) r
  have h2 := turned_value (hw p x) r
  have ex : ∀ (y z B : Fin (n + 1) → ℝ), ∑ i, (a * y i + b * z i) * B i = a * ∑ i, y i * B i + b * ∑ i, z i * B i := by
    intro y z B
    rw [Finset.mul_sum, Finset.mul_sum, ← Finset.sum_add_distrib]
    exact Finset.sum_congr rfl fun i _ => by ring
  simp only [Pi.add_apply, Pi.smul_apply, smul_eq_mul, ex]
  rw [h1, h2, Finset.mul_sum, Finset.mul_sum, ← Finset.sum_add_distrib]
  exact Finset.sum_congr rfl fun s _ => by ring

/-- Two runs side by side are one run of the pair. -/
theorem run_two {V W : Type*} [AddCommGroup V] [Module ℝ V] [AddCommGroup W] [Module ℝ W] (k : Stepper) (R : ℝ → V → V)
    (R' : ℝ → W → W) (t dt : ℝ) (N : ℕ) (s : Sys ℝ V) (w : Sys ℝ W) (q : Sys ℝ (V × W)) (hq : q.sol = (s.sol, w.sol)) :
    (run k (fun t p => (R t p.1, R' t p.2)) t dt N q).sol = ((run k R t dt N s).sol, (run k R' t dt N w).sol) := by
  induction N with
  | zero => exact hq
  | succ N ih =>
    show (RK.update k _ _ dt (run k _ t dt N q)).sol = ((RK.update k R _ dt (run k R t dt N s)).sol,
      (RK.update k R' _ dt (run k R' t dt N w)).sol)
    generalize run k (fun t p => (R t p.1, R' t p.2)) t dt N q = q' at ih ⊢
    cases k <;>
      simp only [RK.update, update1, update2, update3, eulerUpdate, nextSolution, Sys.residual, Sys.setTime, Sys.setSol,
        ih] <;> rfl

/-- **C136.** The same for runs: of all orders, with any time step, over any number of steps. -/
theorem run_follows (hi : Image Q φ m m' e) (hc : Likewise Q φ c c') (hk : Known m c) (k : Stepper) (t dt : ℝ) (N : ℕ)
    (s : Sys ℝ (Fin m.count → Coeff 5 n)) (s' : Sys ℝ (Fin m'.count → Coeff 5 n))
    (hs : Follows Q φ m m' e s.sol s'.sol) :
    Follows Q φ m m' e (run k (m.rates γ c) t dt N s).sol (run k (m'.rates γ c') t dt N s').sol := by
  have key := strong_stability k
    (fun t (p : (Fin m.count → Coeff 5 n) × (Fin m'.count → Coeff 5 n)) => (m.rates γ c t p.1, m'.rates γ c' t p.2))
    (fun p => Follows Q φ m m' e p.1 p.2)
    (fun u w hu hw x _ _ => follows_lin hu hw x (1 - x)) dt
    (fun t p hp => by
      have := follows_lin hp (residual_follows (γ := γ) hi hc hk t hp) 1 dt
      rw [one_smul, one_smul] at this
      exact this)
    t N ⟨t, (s.sol, s'.sol), []⟩ hs
  rw [run_two k _ _ t dt N s s' _ rfl] at key
  exact key

/-- **C136.** A flow which is its own image at the start, on a mesh with conditions that are their own images, remains
so. -/
theorem symmetric {φ : Pt → Pt} {e : Fin m.count → Fin m.count} (hi : Image Q φ m m e) (hc : Likewise Q φ c c)
    (hk : Known m c) (k : Stepper) (t dt : ℝ) (N : ℕ) (s : Sys ℝ (Fin m.count → Coeff 5 n))
    (hs : Follows Q φ m m e s.sol s.sol) :
    Follows Q φ m m e (run k (m.rates γ c) t dt N s).sol (run k (m.rates γ c) t dt N s).sol :=
  run_follows hi hc hk k t dt N s s hs

/-! ### The hypotheses are met: a tube along the first axis and its image along the second -/

/-- HLLC at a point. -/
noncomputable def port (γ : ℝ) (x : ℝ) (F : Frame 2) : Site ℝ := ⟨x, 1, F, upwind γ (hllc γ) F⟩

/-- A tube of two cells, with the given frames and the basis function `s`. -/
noncomputable def duct (γ s : ℝ) (E W N S : Frame 2) : Mesh ℝ 0 where
  count := 2
  basis p := ⟨⟨fun _ _ => s⟩, fun _ _ => 1, [(1 / 2 + p.val, 1)]⟩
  gradValue _ _ _ _ := 0
  nodes _ _ := 0
  inter _ := false
  faces := [(0, 1, [port γ 1 E])]
  boundary name :=
    if name = "in" then some [(0, [port γ 0 W])]
    else if name = "out" then some [(1, [port γ 2 E])]
    else if name = "wall" then some [(1, [port γ (3 / 2) N]), (1, [port γ (3 / 2) S])] else none

/-- A quarter turn about the third axis. -/
def quarter : Frame 2 := !![0, -1, 0; 1, 0, 0; 0, 0, 1]

theorem quarter_orthonormal : Orthonormal quarter := by
  unfold Orthonormal
  ext i j
  fin_cases i <;> fin_cases j <;> simp [quarter, Matrix.mul_apply, Fin.sum_univ_three]

theorem quarter_frames : Frames quarter east north ∧ Frames quarter west south ∧ Frames quarter north west ∧
    Frames quarter south east := by
  obtain ⟨o1, o2, o3, o4⟩ := orthonormal_all
  refine ⟨⟨o1, o3, fun j => ?_⟩, ⟨o2, o4, fun j => ?_⟩, ⟨o3, o2, fun j => ?_⟩, ⟨o4, o1, fun j => ?_⟩⟩ <;>
    fin_cases j <;> simp [east, west, north, south, quarter, three, third]
  rfl

theorem port_same {γ x : ℝ} {F F' : Frame 2} (h : Frames quarter F F') : Same quarter id (port γ x F) (port γ x F') :=
  ⟨rfl, rfl, h, fun l r => hllc_turn γ h quarter_orthonormal l r⟩

theorem duct_values (s : ℝ) (E W N S : Frame 2) (p : Fin 2) (x : ℝ) (i : Fin (0 + 1)) :
    basisValues ((duct γ s E W N S).basis p) x i = s := by
  have : basisValues ((duct γ s E W N S).basis p) x i =
      fullEval ((duct γ s E W N S).basis p).linear (((duct γ s E W N S).basis p).taylor x) i := rfl
  rw [this]
  simp [fullEval, duct]

theorem duct_basis {s : ℝ} (hs : s * s = 1) (E W N S : Frame 2) : OrthonormalBasis (duct γ s E W N S) := by
  intro p i j
  obtain rfl : i = j := Subsingleton.elim (α := Fin 1) i j
  simp only [duct_values s E W N S p, if_true]
  show integrate _ [(_, _)] = _
  simp [integrate_eq, hs]

/-- The image has another basis function. -/
theorem duct_image : Image quarter id (duct γ 1 east west north south) (duct γ (-1) north south west east) id := by
  obtain ⟨f1, f2, f3, f4⟩ := quarter_frames
  refine ⟨Function.bijective_id, quarter_orthonormal, duct_basis (by norm_num) _ _ _ _, duct_basis (by norm_num) _ _ _ _,
    fun p => ⟨fun _ _ => -1, fun x i => ?_, fun x i k => ?_⟩, fun p => ?_, ?_, fun name => ?_, fun _ p x i k => rfl⟩
  · refine (duct_values (-1) _ _ _ _ p x i).trans ?_
    have : ∀ j, basisValues ((duct γ 1 east west north south).basis p) x j = 1 := duct_values 1 _ _ _ _ p x
    simp [this]
  · have : ∀ j l, gradient (duct γ 1 east west north south) p x j l = 0 := fun _ _ => rfl
    simp only [this]
    show (0 : ℝ) = _
    simp
  · rfl
  · exact .cons ⟨rfl, rfl, .cons (port_same f1) .nil⟩ .nil
  · unfold duct
    dsimp only
    split_ifs
    · exact .cons ⟨rfl, .cons (port_same f2) .nil⟩ .nil
    · exact .cons ⟨rfl, .cons (port_same f1) .nil⟩ .nil
    · exact .cons ⟨rfl, .cons (port_same f3) .nil⟩ (.cons ⟨rfl, .cons (port_same f4) .nil⟩ .nil)
    · trivial

/-- A gas prescribed at the left of the tube, as seen by a smart boundary, and its image. -/
def blow (G : Tup 2) : Conditions ℝ 5 where
  solidWall := ["wall"]
  smart := [("in", fun _ _ => val G)]
  supersonicOutlet := ["out"]

theorem blow_likewise (G : Tup 2) : Likewise quarter id (blow G) (blow (turn quarter G)) :=
  ⟨rfl, rfl, .nil, .nil, .nil, .cons ⟨rfl, fun x t => by
    show tup (val _) = turn quarter (tup (val _))
    rw [tup_val, tup_val]⟩ .nil⟩

/-- Coefficients of two gases on the mesh with basis function `s`. -/
def fill (s : ℝ) (L R : Tup 2) (p : Fin 2) : Coeff 5 0 := fun r _ => s * val (if p = 0 then L else R) r

theorem fill_gas {s : ℝ} (hs : s * s = 1) (E W N S : Frame 2) (L R : Tup 2) (p : Fin 2) (x : ℝ) :
    gas (duct γ s E W N S) p (fill s L R p) x = if p = 0 then L else R := by
  unfold gas
  have : ∀ j, basisValues ((duct γ s E W N S).basis p) x j = s := duct_values s _ _ _ _ p x
  simp only [this]
  have e : (fun r => ∑ _i : Fin (0 + 1), s * val (if p = 0 then L else R) r * s) = val (if p = 0 then L else R) := by
    funext r
    rw [Finset.sum_const, Finset.card_univ, Fintype.card_fin]
    rw [zero_add, one_smul, mul_right_comm, hs, one_mul]
  exact (congrArg tup e).trans (tup_val _)

/-- Any two gases in the tube, any one coming in. -/
example (L R G : Tup 2) (k : Stepper) (t dt : ℝ) (N : ℕ) :
    Follows quarter id (duct γ 1 east west north south) (duct γ (-1) north south west east) id
      (run k ((duct γ 1 east west north south).rates γ (blow G)) t dt N ⟨t, fill 1 L R, []⟩).sol
      (run k ((duct γ (-1) north south west east).rates γ (blow (turn quarter G))) t dt N
        ⟨t, fill (-1) (turn quarter L) (turn quarter R), []⟩).sol := by
  refine run_follows duct_image (blow_likewise G) ?_ k t dt N _ _ ?_
  · intro job hj
    have : job.1 = "wall" ∨ job.1 = "out" ∨ job.1 = "in" := by
      simp only [jobs, blow, List.map_cons, List.map_nil, List.append_nil, List.nil_append, List.mem_append,
        List.mem_singleton] at hj
      rcases hj with (rfl | rfl) | rfl <;> simp
    rcases this with h | h | h <;> rw [h] <;> simp [duct]
  · intro p x
    refine (fill_gas (by norm_num) _ _ _ _ _ _ p x).trans ?_
    refine Eq.trans ?_ (congrArg (turn quarter) (fill_gas (γ := γ) (s := 1) (by norm_num) _ _ _ _ _ _ p x)).symm
    split_ifs <;> rfl

end MiniCFD.Turn
