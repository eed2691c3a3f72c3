import Verif.Spec.Parallel
import Verif.Props.WeakForm
import Verif.Props.Registration
import Verif.Props.RK

/-! C78: the answer does not depend on the number of processes. -/

namespace MiniCFD.Parallel

open MiniCFD.Residual MiniCFD.Projection MiniCFD.Column
open MiniCFD.Spec.Parallel MiniCFD.Spec.WeakForm

variable {Pt : Type} {K n : Nat}

/-! ### The weak form as a sum over points of the surface -/

theorem sum_flatMap {α β : Type*} (l : List α) (f : α → List β) (g : β → ℝ) :
    ((l.flatMap f).map g).sum = (l.map fun a => ((f a).map g).sum).sum := by
  induction l with
  | nil => rfl
  | cons a l ih => simp [ih]

theorem sum_sameUpTo {α : Type*} {R : α → α → Prop} {a b : List α} (h : SameUpTo R a b) (f g : α → ℝ)
    (hfg : ∀ x y, R x y → g y = f x) : (b.map g).sum = (a.map f).sum := by
  obtain ⟨l, hp, hl⟩ := h
  rw [(hp.map g).sum_eq]
  clear hp
  induction hl with
  | nil => rfl
  | cons hr _ ih => simp [ih, hfg _ _ hr]

/-- The flux through the faces between cells. -/
theorem outLocal_sides {N : Nat} (P : Part Pt K n) (of : Fin P.count → Fin N) (val : Fin N → Pt → Value K)
    (hval : ∀ p, val (of p) = (P.cells p).value) (p : Fin P.count) (φ : Pt → ℝ) (r : Fin K) :
    outLocal (fun c q => c.value q.coord) P p (fun q => φ q.coord) r =
      ((sides of P.localFaces p).map fun q =>
        q.weight * q.out ((P.cells p).value q.coord) (val q.other q.coord) r * φ q.coord).sum := by
  unfold outLocal sides
  rw [sum_flatMap]
  refine congrArg List.sum (List.map_congr_left fun f _ => ?_)
  rw [List.map_append, List.sum_append, sub_eq_add_neg]
  congr 1
  · split_ifs with h
    · subst h
      simp only [over, fromHolder, List.map_map, Function.comp_def, hval]
    · rfl
  · split_ifs with h
    · subst h
      simp only [over, fromSharer, List.map_map, Function.comp_def, hval]
      rw [← sum_map_neg]
      exact congrArg List.sum (List.map_congr_left fun q _ => by ring)
    · simp

theorem outBoundaries_jobs (P : Part Pt K n) (c : Conditions Pt K) (t : ℝ)
    (T : Cell Pt K n → FacePoint Pt K → Value K) (p : Fin P.count) (φ : FacePoint Pt K → ℝ) (r : Fin K) :
    outBoundaries T P c t p φ r = ((jobs c t).map fun job => outBoundary T P p φ r job.1 job.2).sum := by
  simp only [outBoundaries, jobs, List.map_append, List.map_map, List.sum_append, Function.comp_def]
  ring

theorem outBoundary_rim (P : Part Pt K n) (p : Fin P.count) (φ : Pt → ℝ) (r : Fin K) (name : String)
    (flux : FacePoint Pt K → Value K → Value K) {faces : List (BoundaryFace Pt K P.count)}
    (h : P.boundary name = some faces) :
    outBoundary (fun c q => c.value q.coord) P p (fun q => φ q.coord) r name flux =
      ((rim faces p).map fun q => q.weight * flux q ((P.cells p).value q.coord) r * φ q.coord).sum := by
  unfold outBoundary rim
  rw [h, sum_flatMap]
  refine congrArg List.sum (List.map_congr_left fun f _ => ?_)
  split_ifs with hp
  · subst hp; rfl
  · rfl

/-- **C78** The weak form of a cell is the same on its process as on a single one, if the cell sees the same surface. -/
theorem same_weakForm {g : Grid Pt K n} {rank : Rank Pt K g.count} {c : Conditions Pt K} {t : ℝ}
    {u : Fin g.count → Coeff K n} {i : Fin rank.count} (h : SeesSame g rank c t u i) (j : Fin (n + 1)) (φ : Pt → ℝ)
    (r : Fin K) :
    weakForm (fun c q => c.value q.coord) (rank.part g (fun i => u (rank.of i)) u) c t i j (fun q => φ q.coord) r =
      weakForm (fun c q => c.value q.coord) (g.part u) c t (rank.of i) j (fun q => φ q.coord) r := by
  unfold weakForm
  have e1 : outLocal (fun c q => c.value q.coord) (g.part u) (rank.of i) (fun q => φ q.coord) r =
      ((surface g (rank.of i)).map fun q => q.weight * q.out ((g.cell (rank.of i) (u (rank.of i))).value q.coord)
        ((g.cell q.other (u q.other)).value q.coord) r * φ q.coord).sum :=
    outLocal_sides (g.part u) id (fun p => (g.cell p (u p)).value) (fun _ => rfl) (rank.of i) φ r
  have e2 : outGhost (fun c q => c.value q.coord) (g.part u) (rank.of i) (fun q => φ q.coord) r = 0 := rfl
  have e3 : outLocal (fun c q => c.value q.coord) (rank.part g (fun i => u (rank.of i)) u) i (fun q => φ q.coord) r +
      outGhost (fun c q => c.value q.coord) (rank.part g (fun i => u (rank.of i)) u) i (fun q => φ q.coord) r =
      ((rankSurface rank i).map fun q => q.weight * q.out ((g.cell (rank.of i) (u (rank.of i))).value q.coord)
        ((g.cell q.other (u q.other)).value q.coord) r * φ q.coord).sum := by
    unfold rankSurface
    rw [List.map_append, List.sum_append]
    congr 1
    · exact outLocal_sides (rank.part g (fun i => u (rank.of i)) u) rank.of (fun p => (g.cell p (u p)).value)
        (fun _ => rfl) i φ r
    · unfold outGhost
      rw [sum_flatMap]
      simp only [Rank.part, List.map_map, Function.comp_def]
      refine congrArg List.sum (List.map_congr_left fun f _ => ?_)
      by_cases hp : f.1 = i
      · refine (if_pos hp).trans ?_
        rw [if_pos hp, hp]
        simp only [over, fromHolder, List.map_map, Function.comp_def]
      · refine (if_neg hp).trans ?_
        rw [if_neg hp]
        rfl
  have e4 := sum_sameUpTo h.surface
    (fun q => q.weight * q.out ((g.cell (rank.of i) (u (rank.of i))).value q.coord)
        ((g.cell q.other (u q.other)).value q.coord) r * φ q.coord)
    (fun q => q.weight * q.out ((g.cell (rank.of i) (u (rank.of i))).value q.coord)
        ((g.cell q.other (u q.other)).value q.coord) r * φ q.coord)
    (by
      rintro x y ⟨h1, h2, h3, h4⟩
      rw [h1, h2, h3, h4])
  have e5 : outBoundaries (fun c q => c.value q.coord) (rank.part g (fun i => u (rank.of i)) u) c t i
      (fun q => φ q.coord) r = outBoundaries (fun c q => c.value q.coord) (g.part u) c t (rank.of i)
      (fun q => φ q.coord) r := by
    refine (outBoundaries_jobs (rank.part g (fun i => u (rank.of i)) u) c t _ i _ r).trans
      (Eq.trans ?_ (outBoundaries_jobs (g.part u) c t _ (rank.of i) _ r).symm)
    refine congrArg List.sum (List.map_congr_left fun job hj => ?_)
    obtain ⟨faces, faces', h1, h2, h3⟩ := h.rim job hj
    refine (outBoundary_rim (rank.part g (fun i => u (rank.of i)) u) i φ r job.1 job.2 h2).trans
      (Eq.trans ?_ (outBoundary_rim (g.part u) (rank.of i) φ r job.1 job.2 h1).symm)
    refine sum_sameUpTo h3 _ _ ?_
    rintro x y ⟨k1, k2, k3⟩
    have k3 : job.2 y (((rank.part g (fun i => u (rank.of i)) u).cells i).value x.coord) =
      job.2 x (((g.part u).cells (rank.of i)).value x.coord) := k3
    rw [k1, k2, k3]
  have e6 : inside ((rank.part g (fun i => u (rank.of i)) u).cells i) r j =
      inside ((g.part u).cells (rank.of i)) r j := rfl
  rw [e1, e2, e5, e6, ← e4, ← e3]
  ring

/-- At degree zero basis functions are constant. -/
def Flat (g : Grid Pt K n) : Prop :=
  n = 0 → ∀ p u, ∀ v ∈ (g.cell p u).volume, ∀ k i, v.grad k i = 0

theorem rates_weak {P : Part Pt K n} {c : Conditions Pt K} {t : ℝ}
    (hj : ∀ job ∈ jobs c t, P.boundary job.1 ≠ none)
    (h0 : n = 0 → ∀ p : Fin P.count, ∀ v ∈ (P.cells p).volume, ∀ k i, v.grad k i = 0)
    (p : Fin P.count) (r : Fin K) (i : Fin (n + 1)) :
    (∃ res, generalResidual P c t = some res) ∧
    rates P c t p r i = weakForm (fun c q => c.value q.coord) P c t p i (fun q => (P.cells p).basis q.coord i) r := by
  obtain ⟨res, hres⟩ := (general_defined P c t (decide (0 < n))).2 hj
  refine ⟨⟨res, hres⟩, ?_⟩
  have hres : generalResidual P c t = some res := hres
  unfold rates
  rw [hres]
  simp only
  rw [general_weak hres h0 p r i]
  rfl

/-- The condition under which the mesh is the same for all processes: every cell sees the same surface on its process.
(No name may be unknown, not even on a process without cells.) -/
def Same {g : Grid Pt K n} {m : Nat} (d : Cluster g m) (c : Conditions Pt K) (t : ℝ) (u : Fin g.count → Coeff K n) :
    Prop :=
  (∀ k i, SeesSame g (d.rank k) c t u i) ∧
  ∀ job ∈ jobs c t, g.boundary job.1 ≠ none ∧ ∀ k, (d.rank k).boundary job.1 ≠ none

/-- **C78** The residuals on all processes are those on a single one, and none of them throws. -/
theorem same_rates {g : Grid Pt K n} (hg : Flat g) {m : Nat} {d : Cluster g m} (hd : Owns d) {c : Conditions Pt K}
    {t : ℝ} {u : Fin g.count → Coeff K n} (h : Same d c t u) :
    d.rates c t (spread d u) = spread d (g.rates c t u) ∧
    (∃ res, generalResidual (g.part u) c t = some res) ∧
    ∀ k, ∃ res, generalResidual ((d.rank k).part g (spread d u k)
      fun p => spread d u (d.place p).1 (d.place p).2) c t = some res := by
  have hrec : (fun p => spread d u (d.place p).1 (d.place p).2) = u := by
    funext p
    simp only [spread, hd p]
  refine ⟨?_, ?_, fun k => ?_⟩
  · funext k i r j
    have key : ∀ rec, rec = u → Parallel.rates ((d.rank k).part g (spread d u k) rec) c t i r j =
        Parallel.rates (g.part u) c t ((d.rank k).of i) r j := by
      rintro _ rfl
      refine (rates_weak (P := (d.rank k).part g (spread d _ k) _) (fun job hj => (h.2 job hj).2 k)
        (fun hn p => hg hn _ _) i r j).2.trans (Eq.trans ?_ (rates_weak (P := g.part _)
        (fun job hj => (h.2 job hj).1) (fun hn p => hg hn _ _) ((d.rank k).of i) r j).2.symm)
      exact same_weakForm (h.1 k i) j (fun x => (g.cell ((d.rank k).of i) _).basis x j) r
    exact key _ hrec
  · exact (general_defined _ c t _).2 fun job hj => (h.2 job hj).1
  · exact (general_defined _ c t _).2 fun job hj => (h.2 job hj).2 k

/-! ### Runs -/

open MiniCFD.RK

section Steps

variable {F V W : Type*} [Field F] [AddCommGroup V] [Module F V] [AddCommGroup W] [Module F W]

/-- Two systems whose residuals correspond wherever the first is evaluated stay in correspondence. -/
theorem update_map (G : V →ₗ[F] W) (k : Stepper) (R : F → V → V) (R' : F → W → W) (t dt : F) (s : Sys F V)
    (s' : Sys F W) (hs : s'.sol = G s.sol)
    (hR : ∀ e ∈ (RK.update k R t dt s).evals, R' e.1 (G e.2) = G (R e.1 e.2)) :
    (RK.update k R' t dt s').sol = G (RK.update k R t dt s).sol := by
  cases k
  · have h1 := hR (t, s.sol) (by simp [RK.update, update1, eulerUpdate, nextSolution, Sys.residual, Sys.setTime, Sys.setSol])
    simp only [RK.update, update1, eulerUpdate, nextSolution, Sys.residual, Sys.setTime, Sys.setSol, hs, h1, map_add,
      map_smul]
  · have h1 := hR (t, s.sol) (by simp [RK.update, update2, eulerUpdate, nextSolution, Sys.residual, Sys.setTime, Sys.setSol])
    have h2 := hR (t + dt, s.sol + dt • R t s.sol)
      (by simp [RK.update, update2, eulerUpdate, nextSolution, Sys.residual, Sys.setTime, Sys.setSol])
    simp only [map_add, map_smul] at h1 h2
    simp only [RK.update, update2, eulerUpdate, nextSolution, Sys.residual, Sys.setTime, Sys.setSol, hs, h1, h2, map_add,
      map_smul]
  · have h1 := hR (t, s.sol) (by simp [RK.update, update3, eulerUpdate, nextSolution, Sys.residual, Sys.setTime, Sys.setSol])
    have h2 := hR (t + dt, s.sol + dt • R t s.sol)
      (by simp [RK.update, update3, eulerUpdate, nextSolution, Sys.residual, Sys.setTime, Sys.setSol])
    have h3 := hR (t + dt / 2, (4 : F)⁻¹ • ((3 : F) • s.sol + (s.sol + dt • R t s.sol +
        dt • R (t + dt) (s.sol + dt • R t s.sol))))
      (by simp [RK.update, update3, eulerUpdate, nextSolution, Sys.residual, Sys.setTime, Sys.setSol])
    simp only [map_add, map_smul] at h1 h2 h3
    simp only [RK.update, update3, eulerUpdate, nextSolution, Sys.residual, Sys.setTime, Sys.setSol, hs, h1, h2, h3,
      map_add, map_smul]

theorem evals_mono (k : Stepper) (R : F → V → V) (t dt : F) (s : Sys F V) :
    ∀ e ∈ s.evals, e ∈ (RK.update k R t dt s).evals := by
  intro e he
  obtain ⟨us, h, -⟩ := stage_times k R t dt s
  rw [h]
  exact List.mem_append_left _ he

theorem run_map (G : V →ₗ[F] W) (k : Stepper) (R : F → V → V) (R' : F → W → W) (t dt : F) (N : Nat) (s : Sys F V)
    (s' : Sys F W) (hs : s'.sol = G s.sol)
    (hR : ∀ e ∈ (run k R t dt N s).evals, R' e.1 (G e.2) = G (R e.1 e.2)) :
    (run k R' t dt N s').sol = G (run k R t dt N s).sol := by
  induction N with
  | zero => exact hs
  | succ N ih =>
    refine update_map G k R R' _ dt (run k R t dt N s) (run k R' t dt N s') (ih fun e he => hR e ?_) hR
    exact evals_mono k R _ dt _ e he

end Steps

/-- Spreading is linear. -/
def spreadₗ {g : Grid Pt K n} {m : Nat} (d : Cluster g m) : (Fin g.count → Coeff K n) →ₗ[ℝ] Columns d where
  toFun := spread d
  map_add' _ _ := rfl
  map_smul' _ _ := rfl

/-- **C78** A run of any length on any number of processes gives the coefficients of a run on a single one, for each of
the steppers, provided that every cell sees the same surface on its process, in all states which the run on a single
process goes through. -/
theorem same_run {g : Grid Pt K n} (hg : Flat g) {m : Nat} {d : Cluster g m} (hd : Owns d) (c : Conditions Pt K)
    (k : Stepper) (t dt : ℝ) (N : Nat) (s : Sys ℝ (Fin g.count → Coeff K n)) (s' : Sys ℝ (Columns d))
    (hs : s'.sol = spread d s.sol)
    (h : ∀ e ∈ (run k (g.rates c) t dt N s).evals, Same d c e.1 e.2) :
    (run k (d.rates c) t dt N s').sol = spread d (run k (g.rates c) t dt N s).sol :=
  run_map (spreadₗ d) k (g.rates c) (d.rates c) t dt N s s' hs fun e he => (same_rates hg hd (h e he)).1

/-- Conversely the single column can be put together from those of the processes. -/
theorem gather {g : Grid Pt K n} {m : Nat} {d : Cluster g m} (hd : Owns d) (u : Fin g.count → Coeff K n) (p) :
    spread d u (d.place p).1 (d.place p).2 = u p := by
  simp only [spread, hd p]

/-! ### An example: advection along two cells with an inlet and an outlet, on two processes -/

/-- Two cells in a row; the faces are at 0, 1, 2. -/
noncomputable def row : Grid ℝ 1 0 where
  count := 2
  cell _ u := flatCell (u 0 0)
  inter _ := false
  faces := [⟨0, 1, [⟨1, 2, rightward true⟩]⟩]
  boundary name := if name = "in" then some [⟨0, [⟨0, 2, rightward true⟩]⟩] else
    if name = "out" then some [⟨1, [⟨2, 2, rightward true⟩]⟩] else none

/-- The second process looks at the face from the other side.  Both know both boundaries. -/
noncomputable def rowRank (k : Fin 2) : Rank ℝ 1 2 where
  count := 1
  of _ := k
  inter _ := true
  faces := []
  ghosts := if k = 0 then [(0, 1, [⟨1, 2, rightward true⟩])] else [(0, 0, [⟨1, 2, rightward false⟩])]
  boundary name := if name = "in" then some (if k = 0 then [⟨0, [⟨0, 2, rightward true⟩]⟩] else []) else
    if name = "out" then some (if k = 0 then [] else [⟨0, [⟨2, 2, rightward true⟩]⟩]) else none

noncomputable def rowCluster : Cluster row 2 := ⟨rowRank, fun p => ⟨p, (0 : Fin 1)⟩⟩

noncomputable def rowConditions : Conditions ℝ 1 :=
  { supersonicInlet := [("in", fun _ _ _ => 11)], supersonicOutlet := ["out"] }

theorem row_same (t : ℝ) (u : Fin 2 → Coeff 1 0) : Same (g := row) rowCluster rowConditions t u := by
  constructor
  · intro k i
    have hi : i = (0 : Fin 1) := Subsingleton.elim (α := Fin 1) i 0
    subst hi
    fin_cases k
    · constructor
      · exact ⟨_, .refl _, .cons ⟨rfl, rfl, rfl, rfl⟩ .nil⟩
      · intro job hj
        simp only [jobs, rowConditions, List.map_cons, List.map_nil, List.nil_append, List.append_nil,
          List.mem_append, List.mem_cons, List.not_mem_nil, or_false] at hj
        rcases hj with rfl | rfl
        · exact ⟨_, _, rfl, rfl, _, .refl _, .cons ⟨rfl, rfl, rfl⟩ .nil⟩
        · exact ⟨_, _, rfl, rfl, _, .refl _, .nil⟩
    · constructor
      · refine ⟨_, .refl _, .cons ⟨rfl, rfl, rfl, ?_⟩ .nil⟩
        funext r
        simp [rightward]
      · intro job hj
        simp only [jobs, rowConditions, List.map_cons, List.map_nil, List.nil_append, List.append_nil,
          List.mem_append, List.mem_cons, List.not_mem_nil, or_false] at hj
        rcases hj with rfl | rfl
        · exact ⟨_, _, rfl, rfl, _, .refl _, .nil⟩
        · exact ⟨_, _, rfl, rfl, _, .refl _, .cons ⟨rfl, rfl, rfl⟩ .nil⟩
  · intro job hj
    simp only [jobs, rowConditions, List.map_cons, List.map_nil, List.nil_append, List.append_nil,
      List.mem_append, List.mem_cons, List.not_mem_nil, or_false] at hj
    rcases hj with rfl | rfl
    · exact ⟨nofun, fun k => nofun⟩
    · exact ⟨nofun, fun k => nofun⟩

/-- All hypotheses hold, whatever the initial values are. -/
example (a b t dt : ℝ) (N : Nat) (k : Stepper) :
    (run k (rowCluster.rates rowConditions) t dt N ⟨0, fun k _ _ _ => ![a, b] k, []⟩).sol =
      spread rowCluster (run k (row.rates rowConditions) t dt N ⟨0, fun p _ _ => ![a, b] p, []⟩).sol :=
  same_run (fun _ p u v hv => by simp [row, flatCell] at hv) (fun _ => rfl) rowConditions k t dt N _ _ rfl
    fun e _ => row_same e.1 e.2

end MiniCFD.Parallel
