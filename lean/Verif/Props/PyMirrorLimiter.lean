import Verif.Spec.PyMirrorLimiter
import Verif.Spec.PyMirror
import Verif.Props.PyLimiterFormula
import Mathlib.Analysis.Calculus.IteratedDeriv.Lemmas

/-! # C150: the limiters of the Python code in a mirror -/

namespace MiniCFD.PyMirrorLimiter
open MiniCFD.PyQuad MiniCFD.PyExpansion MiniCFD.PyLimiter MiniCFD.Spec.PyMirror MiniCFD.Spec.PyMirrorLimiter Polynomial
open MiniCFD.Spec.PyLimiter (smoothness smoothness' mean weighted)
open MiniCFD.Spec.Gauss (ExactTo)

variable {p : ℕ} {c c' : Coordinate} {s s' : Setup p} {σ w : ℝ}

/-! ### Means and indicators -/

theorem mean_imageOf (a b : ℝ) (f : ℝ → ℝ) : mean (w - b) (w - a) (imageOf σ w f) = σ * mean a b f := by
  unfold Spec.PyLimiter.mean imageOf
  rw [intervalIntegral.integral_const_mul, intervalIntegral.integral_comp_sub_left (fun x => f x) w, sub_sub_cancel,
    sub_sub_cancel, sub_sub_sub_cancel_left]
  ring

theorem derivative_imageOf (k : ℕ) (f : ℝ → ℝ) (x : ℝ) :
    iteratedDeriv k (imageOf σ w f) x = σ * ((-1) ^ k * iteratedDeriv k f (w - x)) := by
  have : imageOf σ w f = (σ * (fun x => f (w - x)) ·) := rfl
  rw [this, iteratedDeriv_const_mul_field, iteratedDeriv_comp_const_sub]
  rfl

theorem smoothness_imageOf (hσ : σ ^ 2 = 1) (a b : ℝ) (f : ℝ → ℝ) :
    smoothness p (w - b) (w - a) (imageOf σ w f) = smoothness p a b f := by
  unfold smoothness
  refine Finset.sum_congr rfl fun k _ => ?_
  have e : ∀ x, (iteratedDeriv k (imageOf σ w f) x / (k.factorial : ℝ)) ^ 2 =
      (fun y => (iteratedDeriv k f y / (k.factorial : ℝ)) ^ 2) (w - x) := by
    intro x
    have h1 : ((-1 : ℝ) ^ k) ^ 2 = 1 := by rw [← pow_mul, mul_comm, pow_mul]; simp
    rw [derivative_imageOf, div_pow, mul_pow, mul_pow, hσ, h1, one_mul, one_mul, ← div_pow]
  simp only [e]
  rw [intervalIntegral.integral_comp_sub_left (fun y => (iteratedDeriv k f y / (k.factorial : ℝ)) ^ 2) w, sub_sub_cancel,
    sub_sub_cancel, sub_sub_sub_cancel_left]

/-- A polynomial moved to another mean. -/
noncomputable def moved (a b : ℝ) (f g : ℝ → ℝ) : ℝ → ℝ := fun x => g x + (mean a b f - mean a b g)

theorem moved_imageOf (a b : ℝ) (f g : ℝ → ℝ) :
    moved (w - b) (w - a) (imageOf σ w f) (imageOf σ w g) = imageOf σ w (moved a b f g) := by
  funext x
  unfold moved
  rw [mean_imageOf, mean_imageOf]
  unfold imageOf
  ring

/-! ### The limiter of Zhong and Shu -/

private theorem zip_map {α : Type*} (W : α → ℝ) (g : α → ℝ → ℝ) (x : ℝ) (L : List α) :
    (List.zipWith (fun v (f : ℝ → ℝ) => v * f x) (L.map W) (L.map g)).sum = (L.map fun a => W a * g a x).sum := by
  induction L with
  | nil => rfl
  | cons a L ih => simp only [List.map_cons, List.zipWith_cons_cons, List.sum_cons, ih]

private theorem zxh_value (epsilon wSmall : ℝ) (hc : c.xLeft < c.xRight) (h : Built c s) (hk : s.kind ≠ .lobatto)
    {st : State p ℝ} (hr : Reached s st) (bs : List (Neighbour p ℝ)) :
    let W := fun v f => v / (epsilon + smoothness p c.xLeft c.xRight f) ^ 2
    let m := moved c.xLeft c.xRight (s.value st)
    ∃ t, zxhNewScalar epsilon wSmall s st bs = some t ∧ ∀ x, s.value (setTaylor s t) x =
      (W (1 - bs.length * wSmall) (s.value st) * s.value st x +
          ((bs.map Neighbour.value).map fun g => W wSmall (m g) * m g x).sum) /
        (W (1 - bs.length * wSmall) (s.value st) + ((bs.map Neighbour.value).map fun g => W wSmall (m g)).sum) := by
  intro W m
  obtain ⟨t, ht, hv⟩ := zxh_formula_partial epsilon wSmall hc h hk hr bs
  refine ⟨t, ht, fun x => ?_⟩
  rw [hv, weighted]
  have e : ((s.value st :: bs.map fun b x =>
      b.value x + (mean c.xLeft c.xRight (s.value st) - mean c.xLeft c.xRight b.value)).mapIdx fun i f =>
        (if i = 0 then 1 - bs.length * wSmall else wSmall) / (epsilon + smoothness p c.xLeft c.xRight f) ^ 2) =
      W (1 - bs.length * wSmall) (s.value st) :: (bs.map fun b => W wSmall (m b.value)) := by
    rw [List.mapIdx_cons]
    congr 1
    refine List.ext_getElem (by simp) fun i h1 h2 => ?_
    simp only [List.getElem_mapIdx, List.getElem_map]
    rw [if_neg (by omega)]
    rfl
  rw [e, List.zipWith_cons_cons, List.sum_cons, List.sum_cons, List.map_map, List.map_map]
  congr 2
  exact zip_map (fun b : Neighbour p ℝ => W wSmall (m b.value)) (fun b => m b.value) x bs

/-- **One element.**  If the element and its neighbours hold images of each other, in whatever order the neighbours come,
then the limited polynomials are images of each other. -/
theorem zxh_mirror (hσ : σ ^ 2 = 1) (epsilon wSmall : ℝ) (hc : c.xLeft < c.xRight) (ho : Opposite w c c') (h : Built c s)
    (h' : Built c' s') (hk : s.kind ≠ .lobatto) (hk' : s'.kind ≠ .lobatto) {st st' : State p ℝ} (hr : Reached s st)
    (hr' : Reached s' st') {bs bs' : List (Neighbour p ℝ)} (hv : s'.value st' = imageOf σ w (s.value st))
    (hb : List.Perm (bs'.map Neighbour.value) (bs.map fun b => imageOf σ w b.value)) :
    ∃ t t', zxhNewScalar epsilon wSmall s st bs = some t ∧ zxhNewScalar epsilon wSmall s' st' bs' = some t' ∧
      s'.value (setTaylor s' t') = imageOf σ w (s.value (setTaylor s t)) := by
  have hc' : c'.xLeft < c'.xRight := by rw [ho.left, ho.right]; linarith
  obtain ⟨t, ht, e⟩ := zxh_value epsilon wSmall hc h hk hr bs
  obtain ⟨t', ht', e'⟩ := zxh_value epsilon wSmall hc' h' hk' hr' bs'
  refine ⟨t, t', ht, ht', funext fun x => ?_⟩
  have hlen : bs'.length = bs.length := by simpa using hb.length_eq
  rw [e', imageOf, e, ho.left, ho.right, hv, hlen, (hb.map _).sum_eq, (hb.map _).sum_eq, List.map_map, List.map_map,
    List.map_map, List.map_map]
  have q : ∀ b : Neighbour p ℝ, moved (w - c.xRight) (w - c.xLeft) (imageOf σ w (s.value st)) (imageOf σ w b.value) =
      imageOf σ w (moved c.xLeft c.xRight (s.value st) b.value) := fun b => moved_imageOf _ _ _ _
  simp only [Function.comp_def, q, smoothness_imageOf hσ]
  rw [mul_div_assoc', mul_add, ← List.sum_map_mul_left]
  congr 2
  · unfold imageOf; ring
  · congr 1
    refine List.map_congr_left fun b _ => ?_
    unfold imageOf; ring

/-! ### Grids -/

section Grids
variable {ι κ : Type} [DecidableEq ι] [DecidableEq κ] {setup : ι → Setup p} {setup' : κ → Setup p}
  {coordinate : ι → Coordinate} {coordinate' : κ → Coordinate}

theorem neighbours_mirror (e : ι ≃ κ) {states : ι → State p ℝ} {states' : κ → State p ℝ}
    (hv : ∀ i, (setup' (e i)).value (states' (e i)) = imageOf σ w ((setup i).value (states i))) {links : List (ι × ℝ)}
    {links' : List (κ × ℝ)} (hl : links'.Perm (links.map fun jt => (e jt.1, -jt.2))) :
    ((neighboursOf setup' states' links').map Neighbour.value).Perm
      ((neighboursOf setup states links).map fun b => imageOf σ w b.value) := by
  unfold neighboursOf
  rw [List.map_map, List.map_map]
  refine (hl.map _).trans (List.Perm.of_eq ?_)
  rw [List.map_map]
  refine List.map_congr_left fun jt _ => funext fun x => ?_
  simp only [Function.comp, Neighbour.value, hv, imageOf]
  congr 2
  ring

/-- **A grid.**  The mirror takes elements to elements, and the neighbours of an element to the neighbours of its image, with
the shifts across periodic boundaries in the other direction.  If the images of the troubled elements are the troubled ones,
the limiter takes images to images. -/
theorem zxh_grid_mirror (hσ : σ ^ 2 = 1) (epsilon wSmall : ℝ) (hc : ∀ i, (coordinate i).xLeft < (coordinate i).xRight)
    (e : ι ≃ κ) (ho : ∀ i, Opposite w (coordinate i) (coordinate' (e i))) (h : ∀ i, Built (coordinate i) (setup i))
    (h' : ∀ i, Built (coordinate' i) (setup' i)) (hk : ∀ i, (setup i).kind ≠ .lobatto) (hk' : ∀ i, (setup' i).kind ≠ .lobatto)
    {states : ι → State p ℝ} {states' : κ → State p ℝ} (hr : ∀ i, Reached (setup i) (states i))
    (hr' : ∀ i, Reached (setup' i) (states' i))
    (hv : ∀ i, (setup' (e i)).value (states' (e i)) = imageOf σ w ((setup i).value (states i)))
    {links : ι → List (ι × ℝ)} {links' : κ → List (κ × ℝ)}
    (hl : ∀ i, (links' (e i)).Perm ((links i).map fun jt => (e jt.1, -jt.2))) {troubled : List ι} {troubled' : List κ}
    (ht : ∀ i, e i ∈ troubled' ↔ i ∈ troubled) :
    ∃ new new',
      reconstruct (fun st i => zxhNewScalar epsilon wSmall (setup i) (st i) (neighboursOf setup st (links i)))
        setup troubled states = some new ∧
      reconstruct (fun st i => zxhNewScalar epsilon wSmall (setup' i) (st i) (neighboursOf setup' st (links' i)))
        setup' troubled' states' = some new' ∧
      ∀ i, (setup' (e i)).value (new' (e i)) = imageOf σ w ((setup i).value (new i)) := by
  obtain ⟨new, hn⟩ := Option.isSome_iff_exists.mp ((succeeds (fun st i => zxhNewScalar epsilon wSmall (setup i) (st i)
    (neighboursOf setup st (links i))) setup troubled states).mpr fun i _ => rfl)
  obtain ⟨new', hn'⟩ := Option.isSome_iff_exists.mp ((succeeds (fun st i => zxhNewScalar epsilon wSmall (setup' i) (st i)
    (neighboursOf setup' st (links' i))) setup' troubled' states').mpr fun i _ => rfl)
  refine ⟨new, new', hn, hn', fun i => ?_⟩
  obtain ⟨ha, hb⟩ := simultaneous _ setup hn i
  obtain ⟨ha', hb'⟩ := simultaneous _ setup' hn' (e i)
  by_cases hi : i ∈ troubled
  · obtain ⟨t, e1, e2⟩ := hb hi
    obtain ⟨t', e1', e2'⟩ := hb' ((ht i).2 hi)
    obtain ⟨u, u', h1, h2, h3⟩ := zxh_mirror hσ epsilon wSmall (hc i) (ho i) (h i) (h' (e i)) (hk i) (hk' (e i)) (hr i)
      (hr' (e i)) (hv i) (neighbours_mirror e hv (hl i))
    rw [h1] at e1; cases e1
    rw [h2] at e1'; cases e1'
    rw [e2, e2', h3]
  · rw [ha hi, ha' fun h => hi ((ht i).1 h), hv]

end Grids

end MiniCFD.PyMirrorLimiter
