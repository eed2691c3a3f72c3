import Verif.Lemmas.Weno
import Verif.Props.Projection
import Verif.Props.Taylor
import Verif.Props.Eigen
import Verif.Spec.Weno

/-!
# C43, C64, C65: the WENO limiters, their smoothness indicator and the troubled-cell indicator
-/

namespace MiniCFD.Weno

open MiniCFD.Ortho MiniCFD.Projection

variable {Pt : Type*} {n K : Nat} {b : Basis Pt n} {t : TaylorOps Pt n} {w0 eps : ℝ}

/-! ### C43: averages, weights, consistency -/

/-- **C43.** `Lazy` keeps every average, whatever the weights. -/
theorem lazy_average (s : Sound b) {own new : Coeff K n} {adj : List (Pt → Value K)}
    (h : lazyLimit t b w0 eps own adj = some new) : average b new = average b own := by
  funext r
  have h0 : new r 0 = own r 0 := weighted_const h r 0 fun c hc => by
    obtain ⟨f, _, rfl⟩ := List.mem_map.1 hc
    exact borrowOne_zero s own f r
  simp only [average, h0]

theorem sum_mul_zip (ws : List (Value K)) (cs : List (Coeff K n)) (r : Fin K) (φ : Fin (n + 1) → ℝ) :
    ∑ i, (List.zipWith (fun (w : Value K) (c : Coeff K n) => w r * c r i) ws cs).sum * φ i
      = (List.zipWith (fun (w : Value K) (c : Coeff K n) => w r * ∑ i, c r i * φ i) ws cs).sum := by
  induction ws generalizing cs with
  | nil => simp
  | cons w ws ih =>
    cases cs with
    | nil => simp
    | cons c cs =>
      simp only [List.zipWith_cons_cons, List.sum_cons, add_mul, Finset.sum_add_distrib, ih, Finset.mul_sum,
        mul_assoc]

/-- The result of the weighting is a convex combination of the candidates. -/
theorem weighted_convex (hs : ∀ (c : Coeff K n) r, 0 ≤ smoothness t b c r) (he : 0 < eps) (h0 : 0 < w0)
    (borrowed : List (Coeff K n)) (own : Coeff K n) (h1 : borrowed.length * w0 < 1) :
    ∃ new, weighted t b w0 eps borrowed own = some new ∧
      ∃ (ws : List (Value K)) (w : Value K), ws.length = borrowed.length ∧
        (∀ v ∈ ws, ∀ r, 0 < v r) ∧ (∀ r, 0 < w r) ∧ (∀ r, (ws.map fun v => v r).sum + w r = 1) ∧
        (∀ r, List.Forall₂ (fun (v : Value K) (c : Coeff K n) => v r * (smoothness t b c r + eps) ^ 2
            * (1 - borrowed.length * w0) = w r * (smoothness t b own r + eps) ^ 2 * w0) ws borrowed) ∧
        ∀ p r, value b new p r
          = (List.zipWith (fun (v : Value K) (c : Coeff K n) => v r * value b c p r) ws borrowed).sum
            + w r * value b own p r := by
  obtain ⟨hp1, hp2⟩ := weights_pos (own := own) hs he h0 h1
  have ht := total_pos hp1 hp2
  obtain ⟨new, hn⟩ := weighted_defined (t := t) (b := b) (w0 := w0) (eps := eps) (borrowed := borrowed)
    (own := own) (fun c _ r => ne_of_gt (add_pos_of_nonneg_of_pos (hs c r) he)) (fun r => (ht r).ne')
  refine ⟨new, hn, (normalized t b w0 eps borrowed own).1, (normalized t b w0 eps borrowed own).2,
    normalized_length .., ?_, ?_, fun r => normalized_sum r (ht r).ne', ?_, ?_⟩
  · intro v hv r
    obtain ⟨w, hw, rfl⟩ := List.mem_map.1 hv
    exact div_pos (hp1 w hw r) (ht r)
  · exact fun r => div_pos (hp2 r) (ht r)
  · intro r
    simp only [normalized, weights, List.map_map, List.forall₂_map_left_iff, List.forall₂_same]
    intro c _
    have h2 := (add_pos_of_nonneg_of_pos (hs c r) he).ne'
    have h3 := (add_pos_of_nonneg_of_pos (hs own r) he).ne'
    have h4 : total (List.map (modify t b eps w0) borrowed, modify t b eps (w0 * -(borrowed.length : ℝ) + 1) own) r ≠ 0 :=
      (ht r).ne'
    simp only [Function.comp, modify]
    field_simp
    ring
  · intro p r
    obtain ⟨-, h2⟩ := weighted_some hn
    simp only [value, h2, add_mul, Finset.sum_add_distrib, sum_mul_zip, Finset.mul_sum, mul_assoc]

/-- **C43.** With `0 < w0`, fewer than `1 / w0` neighbours and `0 < eps`, `Lazy` succeeds, and each
component of its result is, at every point, an average of the candidates with positive weights, which are as
`w0 / (β + eps) ^ 2` for the neighbours and `(1 - (number of neighbours) * w0) / (β + eps) ^ 2` for the cell, `β`
being the smoothness of the candidate. -/
theorem lazy_convex (hs : ∀ (c : Coeff K n) r, 0 ≤ smoothness t b c r) (he : 0 < eps) (h0 : 0 < w0)
    (own : Coeff K n) (adj : List (Pt → Value K)) (h1 : adj.length * w0 < 1) :
    ∃ new, lazyLimit t b w0 eps own adj = some new ∧
      ∃ (ws : List (Value K)) (w : Value K), ws.length = adj.length ∧
        (∀ v ∈ ws, ∀ r, 0 < v r) ∧ (∀ r, 0 < w r) ∧ (∀ r, (ws.map fun v => v r).sum + w r = 1) ∧
        (∀ r, List.Forall₂ (fun (v : Value K) (c : Coeff K n) => v r * (smoothness t b c r + eps) ^ 2
            * (1 - adj.length * w0) = w r * (smoothness t b own r + eps) ^ 2 * w0) ws (borrow b own adj)) ∧
        ∀ p r, value b new p r
          = (List.zipWith (fun (v : Value K) (c : Coeff K n) => v r * value b c p r) ws (borrow b own adj)).sum
            + w r * value b own p r := by
  have hl : (borrow b own adj).length = adj.length := by simp [borrow]
  rw [← hl]
  exact weighted_convex hs he h0 (borrow b own adj) own (by rw [hl]; exact h1)

/-- **C43.** A candidate is the neighbour's projection plus the constant that gives it the average of the
cell. -/
theorem candidate (s : Sound b) (own : Coeff K n) (f : Pt → Value K) (p : Pt) (r : Fin K) :
    value b (borrowOne b own f) p r
      = value b (project b f) p r + (average b own r - average b (project b f) r) :=
  (arithmetic s (project b f) (project b f) p 1 1 _ r).2.2.2.2.1

/-- **C43.** A cell whose neighbours carry the same polynomial up to constants is left unchanged. -/
theorem lazy_unchanged (s : Sound b) {own new : Coeff K n} {adj : List (Pt → Value K)}
    (h : lazyLimit t b w0 eps own adj = some new)
    (hadj : ∀ f ∈ adj, ∃ offset : Value K, ∀ pw ∈ b.rule, ∀ r, f pw.1 r = value b own pw.1 r + offset r) :
    new = own := by
  funext r i
  refine weighted_const h r i fun c hc => ?_
  obtain ⟨f, hf, rfl⟩ := List.mem_map.1 hc
  obtain ⟨offset, ho⟩ := hadj f hf
  rw [borrowOne_same s own f offset ho]

/-- The weight of the cell is not positive beyond the bound: with `1 / w0` neighbours or more the linear
weight of the cell itself is zero or negative. -/
theorem own_weight_nonpos (he : 0 < eps) (own : Coeff K n) (hs : ∀ r, 0 ≤ smoothness t b own r)
    (borrowed : List (Coeff K n)) (h1 : 1 ≤ borrowed.length * w0) (r : Fin K) :
    (weights t b w0 eps borrowed own).2 r ≤ 0 := by
  have h := hs r
  refine div_nonpos_of_nonpos_of_nonneg (by linarith) ?_
  positivity

/-- **C43.** `Dummy` changes nothing. -/
theorem dummy_unchanged (own : Coeff K n) : dummyLimit own = own := rfl

/-! #### The characteristic version -/

theorem leftMultiply_mul (A B : Matrix (Fin K) (Fin K) ℝ) (c : Coeff K n) :
    leftMultiply A (leftMultiply B c) = leftMultiply (A * B) c := by
  funext r i
  simp only [leftMultiply, Matrix.mul_apply, Finset.sum_mul, Finset.mul_sum]
  rw [Finset.sum_comm]
  exact Finset.sum_congr rfl fun _ _ => Finset.sum_congr rfl fun _ _ => by ring

theorem leftMultiply_one (c : Coeff K n) : leftMultiply 1 c = c := by
  funext r i
  simp [leftMultiply, Matrix.one_apply]

theorem onFace_const {own d : Coeff K n} {borrowed : List (Coeff K n)} {f : Face K}
    (hRL : f.right (average b own) * f.left (average b own) = 1)
    (h : onFace t b w0 eps borrowed own f = some d) (i : Fin (n + 1))
    (hc : ∀ c ∈ borrowed, ∀ r, c r i = own r i) (r : Fin K) : d r i = own r i := by
  simp only [onFace, Option.map_eq_some_iff] at h
  obtain ⟨e, he, rfl⟩ := h
  have h1 : ∀ k, e k i = leftMultiply (f.left (average b own)) own k i := by
    intro k
    refine weighted_const he k i fun c hcm => ?_
    obtain ⟨c', hc', rfl⟩ := List.mem_map.1 hcm
    simp only [leftMultiply, hc c' hc']
  have h2 : leftMultiply (f.right (average b own)) e r i
      = leftMultiply (f.right (average b own)) (leftMultiply (f.left (average b own)) own) r i := by
    simp only [leftMultiply] at h1 ⊢
    simp only [h1]
  rw [h2, leftMultiply_mul, hRL, leftMultiply_one]

theorem accumulate_const {own : Coeff K n} {borrowed : List (Coeff K n)} {faces : List (Face K)}
    (hRL : ∀ f ∈ faces, f.right (average b own) * f.left (average b own) = 1) (i : Fin (n + 1))
    (hc : ∀ c ∈ borrowed, ∀ r, c r i = own r i) {s s' : Coeff K n × ℝ}
    (h : accumulate t b w0 eps borrowed own faces s = some s')
    (h0 : ∀ r, s.1 r i = s.2 * own r i) :
    (∀ r, s'.1 r i = s'.2 * own r i) ∧ s'.2 = s.2 + (faces.map Face.volume).sum := by
  induction faces generalizing s with
  | nil =>
    simp only [accumulate, Option.some.injEq] at h
    subst h
    exact ⟨h0, by simp⟩
  | cons f fs ih =>
    obtain ⟨c, v⟩ := s
    simp only [accumulate] at h
    split at h
    · exact absurd h (by simp)
    · rename_i d hd
      have hdc := onFace_const (hRL f (List.mem_cons_self ..)) hd i hc
      have := ih (fun g hg => hRL g (List.mem_cons_of_mem _ hg)) h (fun r => by
        simp only [plus, scale, hdc, show c r i = v * own r i from h0 r]; ring)
      refine ⟨this.1, ?_⟩
      rw [this.2, List.map_cons, List.sum_cons]
      ring

theorem eigen_const {own new : Coeff K n} {adj : List (Pt → Value K)} {faces : List (Face K)}
    (hRL : ∀ f ∈ faces, f.right (average b own) * f.left (average b own) = 1) (i : Fin (n + 1))
    (hc : ∀ c ∈ borrow b own adj, ∀ r, c r i = own r i)
    (h : eigenLimit t b w0 eps own adj faces = some new) (r : Fin K) : new r i = own r i := by
  unfold eigenLimit at h
  split at h
  · exact absurd h (by simp)
  · split at h
    · exact absurd h (by simp)
    · rename_i c v hcv
      obtain ⟨h1, -⟩ := accumulate_const hRL i hc hcv (fun r => by simp)
      unfold divide at h
      split at h
      · exact absurd h (by simp)
      · rename_i hv
        obtain rfl := Option.some.inj h
        show c r i / v = own r i
        rw [show c r i = v * own r i from h1 r]
        field_simp

/-- **C43.** `Eigen` keeps every average, when the eigenvector matrices of each face are inverse to each
other at that average. -/
theorem eigen_average (s : Sound b) {own new : Coeff K n} {adj : List (Pt → Value K)} {faces : List (Face K)}
    (hRL : ∀ f ∈ faces, f.right (average b own) * f.left (average b own) = 1)
    (h : eigenLimit t b w0 eps own adj faces = some new) : average b new = average b own := by
  funext r
  have h0 : new r 0 = own r 0 := eigen_const hRL 0 (fun c hc r => by
    obtain ⟨f, _, rfl⟩ := List.mem_map.1 hc
    exact borrowOne_zero s own f r) h r
  simp only [average, h0]

/-- **C43.** `Eigen` leaves a cell unchanged whose neighbours carry the same polynomial up to constants. -/
theorem eigen_unchanged (s : Sound b) {own new : Coeff K n} {adj : List (Pt → Value K)}
    {faces : List (Face K)} (hRL : ∀ f ∈ faces, f.right (average b own) * f.left (average b own) = 1)
    (h : eigenLimit t b w0 eps own adj faces = some new)
    (hadj : ∀ f ∈ adj, ∃ offset : Value K, ∀ pw ∈ b.rule, ∀ r, f pw.1 r = value b own pw.1 r + offset r) :
    new = own := by
  funext r i
  refine eigen_const hRL i (fun c hc r => ?_) h r
  obtain ⟨f, hf, rfl⟩ := List.mem_map.1 hc
  obtain ⟨offset, ho⟩ := hadj f hf
  rw [borrowOne_same s own f offset ho]

theorem value_leftMultiply (A : Matrix (Fin K) (Fin K) ℝ) (c : Coeff K n) (p : Pt) (r : Fin K) :
    value b (leftMultiply A c) p r = ∑ k, A r k * value b c p k := by
  simp only [value, leftMultiply, Finset.sum_mul, Finset.mul_sum]
  rw [Finset.sum_comm]
  exact Finset.sum_congr rfl fun _ _ => Finset.sum_congr rfl fun _ _ => by ring

/-- **C43.** On each face the characteristic components of the result are averages of those of the
candidates, with positive weights. -/
theorem onFace_convex (hs : ∀ (c : Coeff K n) r, 0 ≤ smoothness t b c r) (he : 0 < eps) (h0 : 0 < w0)
    (own : Coeff K n) (borrowed : List (Coeff K n)) (h1 : borrowed.length * w0 < 1) (f : Face K)
    (hLR : f.left (average b own) * f.right (average b own) = 1) :
    ∃ d, onFace t b w0 eps borrowed own f = some d ∧
      ∃ (ws : List (Value K)) (w : Value K), ws.length = borrowed.length ∧
        (∀ v ∈ ws, ∀ r, 0 < v r) ∧ (∀ r, 0 < w r) ∧ (∀ r, (ws.map fun v => v r).sum + w r = 1) ∧
        (∀ r, List.Forall₂ (fun (v : Value K) (c : Coeff K n) => v r * (smoothness t b (leftMultiply (f.left (average b own)) c) r + eps) ^ 2
            * (1 - borrowed.length * w0) = w r * (smoothness t b (leftMultiply (f.left (average b own)) own) r + eps) ^ 2 * w0) ws borrowed) ∧
        ∀ p r, ∑ k, f.left (average b own) r k * value b d p k
          = (List.zipWith (fun (v : Value K) (c : Coeff K n) =>
              v r * ∑ k, f.left (average b own) r k * value b c p k) ws borrowed).sum
            + w r * ∑ k, f.left (average b own) r k * value b own p k := by
  obtain ⟨e, he', ws, w, hl, hp, hw, hsum, hratio, hv⟩ := weighted_convex hs he h0
    (borrowed.map (leftMultiply (f.left (average b own)))) (leftMultiply (f.left (average b own)) own)
    (by simpa using h1)
  refine ⟨leftMultiply (f.right (average b own)) e, by simp only [onFace, he', Option.map_some], ws, w,
    by simpa using hl, hp, hw, hsum, fun r => ?_, fun p r => ?_⟩
  · simpa using hratio r
  rw [← value_leftMultiply, leftMultiply_mul, hLR, leftMultiply_one, hv p r]
  simp only [List.zipWith_map_right, value_leftMultiply]

/-- **C43.** `Eigen` succeeds under the same conditions when the neighbours have a positive total volume. -/
theorem eigen_defined (hs : ∀ (c : Coeff K n) r, 0 ≤ smoothness t b c r) (he : 0 < eps) (h0 : 0 < w0)
    (own : Coeff K n) (adj : List (Pt → Value K)) (faces : List (Face K)) (hl : faces.length = adj.length)
    (h1 : adj.length * w0 < 1)
    (hLR : ∀ f ∈ faces, f.left (average b own) * f.right (average b own) = 1)
    (hv : (faces.map Face.volume).sum ≠ 0) :
    ∃ new, eigenLimit t b w0 eps own adj faces = some new := by
  have key : ∀ (fs : List (Face K)) (s : Coeff K n × ℝ),
      (∀ f ∈ fs, f.left (average b own) * f.right (average b own) = 1) →
      ∃ c, accumulate t b w0 eps (borrow b own adj) own fs s = some (c, s.2 + (fs.map Face.volume).sum) := by
    intro fs
    induction fs with
    | nil => intro s _; exact ⟨s.1, by simp [accumulate]⟩
    | cons f fs ih =>
      rintro ⟨c, v⟩ hf
      obtain ⟨d, hd, -⟩ := onFace_convex hs he h0 own (borrow b own adj) (by simpa [borrow] using h1) f
        (hf f (List.mem_cons_self ..))
      obtain ⟨c', hc'⟩ := ih (plus c (scale f.volume d), v + f.volume)
        (fun g hg => hf g (List.mem_cons_of_mem _ hg))
      refine ⟨c', ?_⟩
      simp only [accumulate, hd]
      rw [hc', List.map_cons, List.sum_cons, add_assoc]
  obtain ⟨c, hc⟩ := key faces (fun _ _ => 0, 0) hLR
  unfold eigenLimit
  rw [if_neg (by simpa using hl)]
  simp only [hc]
  unfold divide
  rw [if_neg (by simpa using hv)]
  exact ⟨_, rfl⟩

/-- `Eigen` divides by zero on a cell without neighbours, where `Lazy` returns the projection unchanged. -/
theorem eigen_isolated (own : Coeff K n) : eigenLimit t b w0 eps own [] [] = none := by
  simp [eigenLimit, accumulate, divide]

theorem lazy_isolated (s : Sound b) {own new : Coeff K n} (h : lazyLimit t b w0 eps own [] = some new) :
    new = own := lazy_unchanged s h (by simp)

/-- The eigenvector matrices of the Euler equations on a face with frame `F`. -/
noncomputable def eulerFace (γ : ℝ) (F : Euler.Frame 2) (volume : ℝ) : Face 5 where
  left u := Eigen.matLOf γ F ⟨u 0, ![u 1, u 2, u 3], u 4⟩
  right u := Eigen.matROf γ F ⟨u 0, ![u 1, u 2, u 3], u 4⟩
  volume := volume

/-- **C43.** For the Euler equations: `Eigen` keeps the average of every cell whose average is
admissible. -/
theorem eigen_average_euler (s : Sound b) {γ : ℝ} (hγ : 1 < γ) {own new : Coeff 5 n}
    {adj : List (Pt → Value 5)} (frames : List (Euler.Frame 2 × ℝ))
    (hF : ∀ f ∈ frames, Spec.Euler.Orthonormal f.1)
    (hu : Spec.Euler.Admissible γ (d := 2)
      ⟨average b own 0, ![average b own 1, average b own 2, average b own 3], average b own 4⟩)
    (h : eigenLimit t b w0 eps own adj (frames.map fun f => eulerFace γ f.1 f.2) = some new) :
    average b new = average b own := by
  refine eigen_average s ?_ h
  intro f hf
  obtain ⟨g, hg, rfl⟩ := List.mem_map.1 hf
  exact Eigen.right_left hγ (hF g hg) _ hu

end MiniCFD.Weno
