import Verif.Lemmas.FRBalance
import Verif.Props.Gauss

/-! # C45, C49: the residual of flux reconstruction schemes -/

namespace MiniCFD.FR

open MiniCFD.Column MiniCFD.Projection MiniCFD.Spec.FR
open MiniCFD.Residual (Conditions collect)

variable {D : Type} {K N : Nat}

/-! ### The Lobatto rules of the code -/

/-- Point and weight of a table. -/
noncomputable def ruleX (r : Gauss.Rule1 ℝ) (N : Nat) (i : Fin (N + 1)) : ℝ := r.points.getD i 0
noncomputable def ruleW (r : Gauss.Rule1 ℝ) (N : Nat) (i : Fin (N + 1)) : ℝ := r.weights.getD i 0

theorem line_of_rule {r : Gauss.Rule1 ℝ} (hN : r.points.length = N + 1) (hs : Gauss.Sound r)
    (he : Spec.Gauss.ExactTo r.apply (2 * N - 1))
    (hends : r.points.head? = some (-1) ∧ r.points.getLast? = some 1) : LineRule (ruleX r N) (ruleW r N) := by
  obtain ⟨h1, h2, -, h4⟩ := hs
  have hp : ∀ i : Fin (N + 1), ruleX r N i = r.points[i.val]'(by have := i.2; omega) := fun i => by
    rw [ruleX, List.getD_eq_getElem?_getD, List.getElem?_eq_getElem, Option.getD_some]
  have hw : ∀ i : Fin (N + 1), ruleW r N i = r.weights[i.val]'(by have := i.2; omega) := fun i => by
    rw [ruleW, List.getD_eq_getElem?_getD, List.getElem?_eq_getElem, Option.getD_some]
  refine ⟨fun i j h => ?_, ?_, ?_, fun i => ?_, fun p hd => ?_⟩
  · rw [hp, hp] at h
    exact Fin.ext ((List.Nodup.getElem_inj_iff (h2.imp fun h => h.ne)).1 h)
  · rw [hp]
    have := hends.1
    rw [List.head?_eq_getElem?, List.getElem?_eq_some_iff] at this
    exact this.2
  · rw [hp]
    have := hends.2
    rw [List.getLast?_eq_getElem?, List.getElem?_eq_some_iff] at this
    obtain ⟨_, h⟩ := this
    simpa [hN] using h
  · rw [hw]
    exact h4 _ (List.getElem_mem _)
  · rw [← he p hd]
    unfold Gauss.Rule1.apply
    rw [Gauss.quadrature_eq]
    have e : r.points.zip r.weights = List.ofFn fun i : Fin (N + 1) => (ruleX r N i, ruleW r N i) := by
      refine List.ext_getElem (by simp [← h1, hN]) fun n a b => ?_
      rw [List.getElem_zip, List.getElem_ofFn, hp, hw]
    rw [e, List.map_ofFn, List.sum_ofFn]
    exact Finset.sum_congr rfl fun i _ => by simp only [Function.comp_apply]; ring

/-- Every Lobatto rule of the code satisfies the hypothesis of the theorems below. -/
theorem lobatto_lines :
    LineRule (ruleX Gauss.lobatto2 1) (ruleW Gauss.lobatto2 1) ∧
    LineRule (ruleX Gauss.lobatto3 2) (ruleW Gauss.lobatto3 2) ∧
    LineRule (ruleX Gauss.lobatto4 3) (ruleW Gauss.lobatto4 3) ∧
    LineRule (ruleX Gauss.lobatto5 4) (ruleW Gauss.lobatto5 4) ∧
    LineRule (ruleX Gauss.lobatto6 5) (ruleW Gauss.lobatto6 5) :=
  ⟨line_of_rule rfl Gauss.lobatto2_sound.1 Gauss.lobatto2_exact (Gauss.lobatto_ends _ (by simp)),
   line_of_rule rfl Gauss.lobatto3_sound.1 Gauss.lobatto3_exact (Gauss.lobatto_ends _ (by simp)),
   line_of_rule rfl Gauss.lobatto4_sound.1 Gauss.lobatto4_exact (Gauss.lobatto_ends _ (by simp)),
   line_of_rule rfl Gauss.lobatto5_sound.1 Gauss.lobatto5_exact (Gauss.lobatto_ends _ (by simp)),
   line_of_rule rfl Gauss.lobatto6_sound.1 Gauss.lobatto6_exact (Gauss.lobatto_ends _ (by simp))⟩

/-! ### C45 -/

/-- Sum of the balances of all parts. -/
theorem balance {w : Fin (N + 1) → ℝ} {ph : Physics D K} {T : Trace D K N} {runs : List (Run D K N)} {t : ℝ}
    (h : ∀ u ∈ runs, ∀ r, integral w u.part u.res r
      = -outflow ph T u.part u.cond t r - ((interfaces T u.part).map fun s => s.flux r).sum)
    (hp : Closed T runs) (r : Fin K) : total w runs r = -totalOutflow ph T runs t r := by
  have h1 := paired_cancel hp r
  unfold total totalOutflow
  have h2 : (runs.map fun u => integral w u.part u.res r).sum
      = -(runs.map fun u => outflow ph T u.part u.cond t r).sum
        - ((runs.flatMap fun u => interfaces T u.part).map fun s => s.flux r).sum := by
    clear hp h1
    induction runs with
    | nil => simp
    | cons u us ih =>
      simp only [List.map_cons, List.sum_cons, List.flatMap_cons, List.map_append, List.sum_append]
      rw [h u (by simp) r, ih fun v hv => h v (List.mem_cons_of_mem _ hv)]
      ring
  rw [h2, h1]
  ring

/-- **C45**, `fr::General`, for every parameter of the correction functions.  On every conforming hexahedral
mesh, partition and solution: the integral of the residual over all cells of all ranks is minus the flux
through the physical boundary. -/
theorem general_conservative {x w : Fin (N + 1) → ℝ} (hl : LineRule x w) (hN : 0 < N) (c_next : ℝ)
    (ph : Physics D K) (T : Trace D K N) (runs : List (Run D K N)) (t : ℝ)
    (hres : ∀ u ∈ runs, generalResidual x c_next ph u.part u.cond t = some u.res)
    (hc : ∀ u ∈ runs, ∃ σ, Conforming x w u.part u.cond σ)
    (hT : ∀ u ∈ runs, (∀ p, IsTrace x T (u.part.cells p)) ∧ ∀ f ∈ u.part.ghostFaces, IsTrace x T f.sharer)
    (hp : Closed T runs) (r : Fin K) : total w runs r = -totalOutflow ph T runs t r :=
  balance (fun u hu => by
    obtain ⟨σ, hσ⟩ := hc u hu
    exact part_balance hl hN (general_good hl hN c_next) hσ (hT u hu).1 (hT u hu).2 (hres u hu)) hp r

/-- **C45**, `fr::Lobatto`. -/
theorem lobatto_conservative {x w : Fin (N + 1) → ℝ} (hl : LineRule x w) (hN : 0 < N)
    (ph : Physics D K) (T : Trace D K N) (runs : List (Run D K N)) (t : ℝ)
    (hres : ∀ u ∈ runs, lobattoResidual x ph u.part u.cond t = some u.res)
    (hc : ∀ u ∈ runs, ∃ σ, Conforming x w u.part u.cond σ)
    (hT : ∀ u ∈ runs, (∀ p, IsTrace x T (u.part.cells p)) ∧ ∀ f ∈ u.part.ghostFaces, IsTrace x T f.sharer)
    (hp : Closed T runs) (r : Fin K) : total w runs r = -totalOutflow ph T runs t r :=
  balance (fun u hu => by
    obtain ⟨σ, hσ⟩ := hc u hu
    exact part_balance hl hN (lobatto_good hl hN) hσ (hT u hu).1 (hT u hu).2 (hres u hu)) hp r

/-- **C45.**  On a conforming mesh both residuals are computed without running out of any table, and data at
points of space can be given. -/
theorem defined {x w : Fin (N + 1) → ℝ} (hl : LineRule x w) (hN : 0 < N) (ph : Physics D K) (P : Part D K N)
    (c : Conditions Vec K) (t : ℝ) {σ : Sides P} (hc : Conforming x w P c σ) :
    (∀ c_next, ∃ res, generalResidual x c_next ph P c t = some res) ∧
    (∃ res, lobattoResidual x ph P c t = some res) ∧
    ∃ T : Trace D K N, (∀ p, IsTrace x T (P.cells p)) ∧ ∀ f ∈ P.ghostFaces, IsTrace x T f.sharer := by
  obtain ⟨T, hT⟩ := exists_trace (D := D) (K := K) x
  exact ⟨fun c_next => part_defined (general_good hl hN c_next) hc, part_defined (lobatto_good hl hN) hc,
    T, fun p => hT _ (hc.resolved p), fun f hf => hT _ (hc.ghostResolved f hf)⟩

/-- **C45**, no viscosity.  When the flux is the convective flux, only the fluxes of the conditions are left
at the boundary: nothing of the inner viscous flux. -/
theorem viscous_zero {x : Fin (N + 1) → ℝ} (ph : Physics D K) (T : Trace D K N) (c : Cell D K N)
    (hT : IsTrace x T c) (hv : ∀ q, c.flux q = ph.fluxMatrix (ph.value (c.data q))) (q : FacePoint D K)
    {ν : Node N} (hq : q.coord = pos x c ν) (r : Fin K) : viscous ph T q c r = 0 := by
  simp only [viscous, hq, (hT ν).1, (hT ν).2, hv, sub_self, zero_mul, Finset.sum_const_zero]

/-! ### C49 -/

/-- With the correction function for lumping, both schemes fail together and otherwise add the same. -/
theorem same_cache {x w : Fin (N + 1) → ℝ} (hl : LineRule x w) (hN : 0 < N) :
    SameCache (D := D) (K := K) (lobattoCache x (Vincent.mk' N (Vincent.huynhLumpingLobatto N)))
      (generalCache x (Vincent.mk' N (Vincent.huynhLumpingLobatto N))) := by
  have hr := huynh_right hl hN
  have hlf := huynh_left hl hN
  have h1 := hr (Fin.last N)
  rw [if_pos rfl, hl.last] at h1
  have h2 := hlf 0
  rw [if_pos rfl, hl.first, Vincent.leftDerivative, neg_neg, h1, neg_inj] at h2
  intro c y z
  simp only [lobattoCache, generalCache, Option.bind_eq_bind]
  cases findFaceId c y with
  | none => trivial
  | some k =>
    simp only [Option.bind_some]
    cases findCollinear x c z k with
    | none => trivial
    | some ab =>
      obtain ⟨a, b⟩ := ab
      simp only [Option.bind_some, true_and, List.map_cons, List.map_nil, List.sum_cons, List.sum_nil, add_zero,
        List.map_map, Function.comp_def, h1]
      intro q
      rw [← List.ofFn_eq_map, List.sum_ofFn]
      have e : ∀ l : Fin (N + 1), (if right k = true then
          Vincent.rightDerivative (Vincent.mk' N (Vincent.huynhLumpingLobatto N)) (x l)
          else Vincent.leftDerivative (Vincent.mk' N (Vincent.huynhLumpingLobatto N)) (x l))
          = if l = stop (right k) then (if right k = true then 1 / w (Fin.last N) else -(1 / w (Fin.last N))) else 0 := by
        intro l
        cases right k
        · simp only [Bool.false_eq_true, if_false, stop, hlf]
          split
          · rename_i h; subst h; rw [h2]
          · rfl
        · simp only [if_true, stop, hr]
          split
          · rename_i h; subst h; rfl
          · rfl
      simp only [e]
      rw [Finset.sum_eq_single (stop (right k))]
      · simp only [if_true, fluxPoint, stop]
        split <;> rfl
      · intro l _ hne
        simp [hne]
      · simp

/-- **C49**, flux reconstruction.  On every part, even a non-conforming one, `Lobatto`, which corrects only at
the flux points, computes the same column as `General` with the parameter for lumping, which corrects along
whole lines: at all other points the derivative of that correction function vanishes. -/
theorem lobatto_eq_general {x w : Fin (N + 1) → ℝ} (hl : LineRule x w) (hN : 0 < N) (ph : Physics D K)
    (P : Part D K N) (c : Conditions Vec K) (t : ℝ) :
    lobattoResidual x ph P c t = generalResidual x (Vincent.huynhLumpingLobatto N) ph P c t :=
  residual_same (same_cache hl hN)

/-! ### Two cubes with a wall around them -/

/-- A cube of side two around `(d, 0, 0)`. -/
noncomputable def cube (d : ℝ) (data : Node 1 → ℝ) : Cell ℝ 1 1 where
  map y := ![y 0 + d, y 1, y 2]
  assoc _ := 1
  data := data
  flux q := fun _ j => if j = 0 then data q else 0

/-- One conserved value moving in the direction of the first axis. -/
def moving : Physics ℝ 1 := ⟨fun u _ => u, fun u _ j => if j = 0 then u 0 else 0⟩

/-- A Riemann solver is only needed at the wall, where nothing passes. -/
def closedWall : Residual.Riemann 1 where
  upwind u _ := u
  solidWall _ := fun _ => 0
  supersonicOutlet u := u
  supersonicInlet u := fun r => -u r
  subsonicInlet _ v := v
  subsonicOutlet _ v := v
  smart _ v := v

/-- The points of a side of the cube. -/
noncomputable def cubePoints (d : ℝ) (s : Side) : List (FacePoint ℝ 1) :=
  (sideNodes (N := 1) s).toList.map fun ν =>
    ⟨⟨pos ![-1, 1] (cube d fun _ => 0) ν, 1, closedWall⟩, fun i => if i = s.1 then sign s else 0, fun u _ _ => u,
      fun u _ => u⟩

noncomputable def twoCubes (f g : Node 1 → ℝ) : Part ℝ 1 1 where
  count := 2
  cells := ![cube 0 f, cube 2 g]
  inter _ := true
  localFaces := [⟨0, 1, ![1, 0, 0], cubePoints 0 (0, true)⟩]
  ghostFaces := []
  boundary name := if name = "wall" then some
    (([(0, false), (1, false), (1, true), (2, false), (2, true)].map fun s =>
      ⟨0, (cube 0 f).map (sideMid s), cubePoints 0 s⟩) ++
     ([(0, true), (1, false), (1, true), (2, false), (2, true)].map fun s =>
      ⟨1, (cube 2 g).map (sideMid s), cubePoints 2 s⟩)) else none

theorem line2 : LineRule (N := 1) ![-1, 1] ![1, 1] := by
  have h := lobatto_lines.1
  have e1 : ruleX Gauss.lobatto2 1 = ![-1, 1] := by
    funext i; fin_cases i <;> rfl
  have e2 : ruleW Gauss.lobatto2 1 = ![1, 1] := by
    funext i; fin_cases i <;> rfl
  rwa [e1, e2] at h

theorem component_le (a : Vec) (i : Fin 3) : |a i| ≤ length a := by
  unfold length
  refine Real.abs_le_sqrt ?_
  have := fun i => mul_self_nonneg (a i)
  fin_cases i <;> simp only [Fin.zero_eta, Fin.mk_one, Fin.reduceFinMk, Fin.isValue, pow_two]
  · linarith [this 1, this 2]
  · linarith [this 0, this 2]
  · linarith [this 0, this 1]

theorem cube_sub (d : ℝ) (f : Node 1 → ℝ) (y z : Vec) (i : Fin 3) :
    (cube d f).map y i - (cube d f).map z i = y i - z i := by
  fin_cases i <;> simp [cube]

theorem cube_resolved (d : ℝ) (f : Node 1 → ℝ) : Resolved ![-1, 1] (cube d f) where
  nodes q q' h := by
    have key : ∀ i, at_ q i = at_ q' i := by
      intro i
      have h1 := (component_le (fun i => pos ![-1, 1] (cube d f) q i - pos ![-1, 1] (cube d f) q' i) i).trans_lt h
      simp only [pos, cube_sub, loc] at h1
      generalize at_ q i = a at h1
      generalize at_ q' i = b at h1
      revert h1
      fin_cases a <;> fin_cases b <;> norm_num
    exact Prod.ext (key 0) (Prod.ext (key 1) (key 2))
  centers s s' h := by
    have key : ∀ i, |sideMid s i - sideMid s' i| < 1e-10 := by
      intro i
      have h1 := (component_le (fun i => (cube d f).map (sideMid s) i - (cube d f).map (sideMid s') i) i).trans_lt h
      simpa only [cube_sub] using h1
    obtain ⟨a, b⟩ := s
    obtain ⟨a', b'⟩ := s'
    have h1 := key a
    have h2 : a = a' := by
      by_contra hne
      simp only [sideMid, if_true, if_neg hne, sign] at h1
      cases b <;> norm_num at h1
    subst h2
    simp only [sideMid, if_true, sign] at h1
    cases b <;> cases b' <;> first | rfl | (norm_num at h1)

theorem length_axis (d : Fin 3) (a : ℝ) : length (fun i => if i = d then a else 0) = |a| := by
  have h1 : length (fun i => if i = d then a else 0) = √(a * a) := by
    unfold length
    congr 1
    fin_cases d <;> simp
  rw [h1, Real.sqrt_mul_self_eq_abs]

theorem cube_side (d : ℝ) (f : Node 1 → ℝ) (s : Side) :
    IsSide ![-1, 1] ![1, 1] (cube d f) s 1 ((cube d f).map (sideMid s)) (cubePoints d s) where
  mid := rfl
  onNodes := by
    have h : (cubePoints d s).map (fun q => q.coord) = (sideNodes s).toList.map (pos ![-1, 1] (cube d f)) := by
      unfold cubePoints
      rw [List.map_map]
      rfl
    rw [h, ← Multiset.map_coe, Finset.coe_toList]
  unit q hq := by
    obtain ⟨ν, -, rfl⟩ := List.mem_map.1 hq
    simp only [length_axis]
    unfold sign
    split <;> simp
  weight q hq := by
    obtain ⟨ν, -, rfl⟩ := List.mem_map.1 hq
    simp
  area q hq ν _ _ i := by
    obtain ⟨ν', -, rfl⟩ := List.mem_map.1 hq
    have h : ∀ ν : Node 1, sideMass ![1, 1] s.1 ν = 1 := by
      intro ν
      obtain ⟨a, b, c⟩ := ν
      have : ∀ i : Fin 2, (![1, 1] : Fin 2 → ℝ) i = 1 := by intro i; fin_cases i <;> rfl
      unfold sideMass
      simp only [this]
      generalize s.1 = d'
      fin_cases d' <;> simp
    simp only [h, cube, Matrix.one_apply, one_mul, mul_ite, mul_one, mul_zero]

theorem cube_shared (g : Node 1 → ℝ) :
    IsSide ![-1, 1] ![1, 1] (cube 2 g) (0, false) (-1) ![1, 0, 0] (cubePoints 0 (0, true)) where
  mid := by
    funext i; fin_cases i <;> simp [cube, sideMid, sign]
    norm_num
  onNodes := by
    have h : (cubePoints 0 (0, true)).map (fun q => q.coord)
        = (sideNodes (0, true)).toList.map (pos ![-1, 1] (cube 0 g)) := by
      unfold cubePoints
      rw [List.map_map]
      rfl
    have e : (sideNodes (N := 1) (0, true)).val
        = (sideNodes (N := 1) (0, false)).val.map fun q => (1, q.2.1, q.2.2) := by decide
    rw [h, ← Multiset.map_coe, Finset.coe_toList, e, Multiset.map_map]
    refine Multiset.map_congr rfl fun q hq => ?_
    have hq : q ∈ sideNodes (N := 1) (0, false) := hq
    have h0 : q.1 = 0 := (mem_sideNodes _ _).1 hq
    funext i
    fin_cases i <;> simp [pos, loc, at_, cube, h0]
    norm_num
  unit := (cube_side 0 g (0, true)).unit
  weight := (cube_side 0 g (0, true)).weight
  area q hq ν _ _ i := by
    obtain ⟨ν', -, rfl⟩ := List.mem_map.1 hq
    have h : sideMass ![1, 1] 0 ν = 1 := by
      have : ∀ i : Fin 2, (![1, 1] : Fin 2 → ℝ) i = 1 := by intro i; fin_cases i <;> rfl
      simp [sideMass, this]
    fin_cases i <;> simp [h, cube, sign]

/-- The hypotheses of the theorems hold for the two cubes, whatever the solution is. -/
theorem twoCubes_conforming (f g : Node 1 → ℝ) :
    ∃ σ, Conforming ![-1, 1] ![1, 1] (twoCubes f g) { solidWall := ["wall"] } σ := by
  classical
  have hinj : ∀ p : Fin 2, Function.Injective fun s => ((![cube 0 f, cube 2 g] : Fin 2 → _) p).map (sideMid s) := by
    intro p s s' h
    have : Resolved ![-1, 1] ((![cube 0 f, cube 2 g] : Fin 2 → _) p) := by
      fin_cases p
      · exact cube_resolved 0 f
      · exact cube_resolved 2 g
    refine this.centers s s' ?_
    have h' : ((![cube 0 f, cube 2 g] : Fin 2 → _) p).map (sideMid s)
      = ((![cube 0 f, cube 2 g] : Fin 2 → _) p).map (sideMid s') := h
    rw [h']
    simp only [sub_self, length]
    norm_num
  let inv : BoundaryFace ℝ 1 2 → Side := fun b =>
    Function.invFun (fun s => ((![cube 0 f, cube 2 g] : Fin 2 → _) b.holder).map (sideMid s)) b.center
  have hinv : ∀ (p : Fin 2) s l,
      inv ⟨p, ((![cube 0 f, cube 2 g] : Fin 2 → _) p).map (sideMid s), l⟩ = s :=
    fun p s l => Function.leftInverse_invFun (hinj p) s
  have hinv0 : ∀ s l, inv ⟨0, (cube 0 f).map (sideMid s), l⟩ = s := fun s l => hinv 0 s l
  have hinv1 : ∀ s l, inv ⟨1, (cube 2 g).map (sideMid s), l⟩ = s := fun s l => hinv 1 s l
  refine ⟨⟨fun _ => (0, true), fun _ => (0, false), fun _ => (0, true), fun _ => (0, true), inv⟩,
    ?_, ?_, ?_, ?_, ?_, ?_, ?_, ?_, ?_⟩
  · intro name hn
    simp only [names, List.append_nil, List.map_nil, List.mem_cons, List.not_mem_nil, or_false] at hn
    subst hn
    rfl
  · intro p
    change Fin 2 at p
    fin_cases p
    · exact cube_resolved 0 f
    · exact cube_resolved 2 g
  · intro φ hφ
    exact absurd hφ List.not_mem_nil
  · intro φ hφ
    obtain rfl := List.mem_singleton.1 hφ
    have := cube_side 0 f (0, true)
    have e : (cube 0 f).map (sideMid (0, true)) = ![1, 0, 0] := by
      funext i; fin_cases i <;> simp [cube, sideMid, sign]
    rw [e] at this
    exact this
  · intro φ hφ
    obtain rfl := List.mem_singleton.1 hφ
    exact cube_shared g
  · intro φ hφ
    exact absurd hφ List.not_mem_nil
  · intro φ hφ
    exact absurd hφ List.not_mem_nil
  · intro b hb
    simp only [registered, names, List.append_nil, List.map_nil, List.flatMap_cons, List.flatMap_nil, twoCubes,
      if_true, Option.getD_some] at hb
    rcases List.mem_append.1 hb with hb | hb <;> obtain ⟨s, -, rfl⟩ := List.mem_map.1 hb
    · simp only [hinv0]
      exact cube_side 0 f s
    · simp only [hinv1]
      exact cube_side 2 g s
  · intro p
    change Fin 2 at p
    simp only [registered, names, List.append_nil, List.map_nil, List.flatMap_cons, List.flatMap_nil, twoCubes,
      if_true, Option.getD_some]
    fin_cases p
    · simp [hinv0]
      decide
    · simp [hinv1]
      decide

/-- Nothing leaves the two cubes, whatever happens between them. -/
example (f g : Node 1 → ℝ) (c_next t : ℝ) : ∃ res,
    generalResidual ![-1, 1] c_next moving (twoCubes f g) { solidWall := ["wall"] } t = some res ∧
    integral ![1, 1] (twoCubes f g) res 0
      = -outflow moving (exists_trace ![-1, 1]).choose (twoCubes f g) { solidWall := ["wall"] } t 0 := by
  obtain ⟨σ, hσ⟩ := twoCubes_conforming f g
  obtain ⟨res, hres⟩ := (defined line2 (by norm_num) moving _ _ t hσ).1 c_next
  refine ⟨res, hres, ?_⟩
  have hT := (exists_trace (D := ℝ) (K := 1) (N := 1) ![-1, 1]).choose_spec
  have := general_conservative line2 (by norm_num) c_next moving _
    [⟨twoCubes f g, { solidWall := ["wall"] }, res⟩] t (by simpa using hres)
    (by simpa using ⟨σ, hσ⟩)
    (by
      intro u hu
      obtain rfl := List.mem_singleton.1 hu
      exact ⟨fun p => hT _ (hσ.resolved p), fun φ hφ => absurd hφ List.not_mem_nil⟩)
    ⟨[], by simp [interfaces, twoCubes], by simp⟩ 0
  simpa [total, totalOutflow] using this

end MiniCFD.FR
