import Verif.Lemmas.FRMetric
import Verif.Props.FR

/-! # One cell in a uniform flow -/

namespace MiniCFD.FR

open MiniCFD.Shape MiniCFD.Cell MiniCFD.Spec.Shape MiniCFD.LocalHex Polynomial
open MiniCFD.Spec.FR (LineRule Side sideNodes sideMid sideMass sign loc at_ pos allSides IsSide Resolved Conforming
  Uniform OnHexahedron metricDegree names registered Passes)
open MiniCFD.Projection (Value)

variable {N : Nat}

/-- A solver for one value moving in the direction of the first axis, on faces with normal `n`. -/
def carried (n : Vec) : Residual.Riemann 1 where
  upwind u _ := fun r => u r * n 0
  solidWall _ := fun _ => 0
  supersonicOutlet u := fun r => u r * n 0
  supersonicInlet u := fun r => u r * n 0
  subsonicInlet _ v := fun r => v r * n 0
  subsonicOutlet _ v := fun r => v r * n 0
  smart _ v := fun r => v r * n 0

/-- Unit normal out of a cell. -/
noncomputable def outward (c : Cell ℝ 1 N) (s : Side) (ν : Node N) : Vec :=
  fun i => sign s * c.assoc ν i s.1 / length (fun i => c.assoc ν i s.1)

/-- The points of a side. -/
noncomputable def around (x w : Fin (N + 1) → ℝ) (c : Cell ℝ 1 N) (s : Side) : List (FacePoint ℝ 1) :=
  (sideNodes s).toList.map fun ν =>
    ⟨⟨pos x c ν, sideMass w s.1 ν * length (fun i => c.assoc ν i s.1), carried (outward c s ν)⟩, outward c s ν,
      fun u _ _ => u * outward c s ν 0, fun u _ => u * outward c s ν 0⟩

/-- A part with one cell. -/
noncomputable def alone (x w : Fin (N + 1) → ℝ) (c : Cell ℝ 1 N) : Part ℝ 1 N where
  count := 1
  cells _ := c
  inter _ := true
  localFaces := []
  ghostFaces := []
  boundary name := if name = "far" then some (allSides.map fun s => ⟨0, c.map (sideMid s), around x w c s⟩) else none

/-- The value 5 comes in from everywhere. -/
def farField : Residual.Conditions Vec 1 := { supersonicInlet := [("far", fun _ _ _ => 5)] }

/-- The flux of the value 5. -/
def five : Matrix (Fin 1) (Fin 3) ℝ := fun _ j => if j = 0 then 5 else 0

theorem sign_abs (s : Side) : |sign s| = 1 := by unfold sign; split <;> simp

theorem outward_length (c : Cell ℝ 1 N) (s : Side) (ν : Node N)
    (h : length (fun i => c.assoc ν i s.1) ≠ 0) : length (outward c s ν) = 1 := by
  have e : outward c s ν = fun i => (sign s / length (fun i => c.assoc ν i s.1)) * c.assoc ν i s.1 := by
    funext i; rw [outward]; ring
  rw [e, length_smul, abs_div, sign_abs, abs_of_nonneg (length_nonneg _), one_div, inv_mul_cancel₀ h]

theorem around_side {x w : Fin (N + 1) → ℝ} (hl : LineRule x w) {c : Cell ℝ 1 N} (hr : Resolved x c)
    (hcol : ∀ (ν : Node N) (d : Fin 3), length (fun i => c.assoc ν i d) ≠ 0) (s : Side) :
    IsSide x w c s 1 (c.map (sideMid s)) (around x w c s) where
  mid := rfl
  onNodes := by
    have h : (around x w c s).map (fun q => q.coord) = (sideNodes s).toList.map (pos x c) := by
      unfold around
      rw [List.map_map]
      rfl
    rw [h, ← Multiset.map_coe, Finset.coe_toList]
  unit q hq := by
    obtain ⟨ν, -, rfl⟩ := List.mem_map.1 hq
    exact outward_length c s ν (hcol ν s.1)
  weight q hq := by
    obtain ⟨ν, -, rfl⟩ := List.mem_map.1 hq
    exact mul_nonneg (sideMass_pos hl _ _).le (length_nonneg _)
  area q hq ν _ e i := by
    obtain ⟨ν', -, rfl⟩ := List.mem_map.1 hq
    obtain rfl : ν' = ν := pos_injective hr e
    have := hcol ν' s.1
    dsimp only [outward]
    field_simp

theorem alone_conforming {x w : Fin (N + 1) → ℝ} (hl : LineRule x w) {c : Cell ℝ 1 N} (hr : Resolved x c)
    (hcol : ∀ (ν : Node N) (d : Fin 3), length (fun i => c.assoc ν i d) ≠ 0) :
    ∃ σ, Conforming x w (alone x w c) farField σ := by
  classical
  have hinj : Function.Injective fun s => c.map (sideMid s) := by
    intro s s' h
    refine hr.centers s s' ?_
    have h' : c.map (sideMid s) = c.map (sideMid s') := h
    rw [h']
    simp only [sub_self, length]
    norm_num
  let inv : BoundaryFace ℝ 1 1 → Side := fun b => Function.invFun (fun s => c.map (sideMid s)) b.center
  have hinv : ∀ p s l, inv ⟨p, c.map (sideMid s), l⟩ = s := fun p s l => Function.leftInverse_invFun hinj s
  refine ⟨⟨fun _ => (0, true), fun _ => (0, false), fun _ => (0, true), fun _ => (0, true), inv⟩,
    ?_, fun _ => hr, ?_, ?_, ?_, ?_, ?_, ?_, ?_⟩
  · intro name hn
    simp only [names, farField, List.append_nil, List.nil_append, List.map_cons, List.map_nil, List.mem_cons,
      List.not_mem_nil, or_false] at hn
    subst hn
    rfl
  · intro φ hφ
    exact absurd hφ List.not_mem_nil
  · intro φ hφ
    exact absurd hφ List.not_mem_nil
  · intro φ hφ
    exact absurd hφ List.not_mem_nil
  · intro φ hφ
    exact absurd hφ List.not_mem_nil
  · intro φ hφ
    exact absurd hφ List.not_mem_nil
  · intro b hb
    simp only [registered, names, farField, List.append_nil, List.nil_append, List.map_cons, List.map_nil,
      List.flatMap_cons, List.flatMap_nil, alone, if_true, Option.getD_some] at hb
    obtain ⟨s, -, rfl⟩ := List.mem_map.1 hb
    simp only [hinv]
    exact around_side hl hr hcol s
  · intro p
    change Fin 1 at p
    obtain rfl : p = 0 := Subsingleton.elim _ _
    simp only [registered, names, farField, List.append_nil, List.nil_append, List.map_cons, List.map_nil,
      List.flatMap_cons, List.flatMap_nil, alone, if_true, Option.getD_some]
    simp [hinv, allSides]

/-- A cell of the given shape with the value 5. -/
noncomputable def cellOn (x : Fin (N + 1) → ℝ) (g : Geometry) : Cell ℝ 1 N where
  map := g.map
  assoc q := (g.jac (loc x q)).det • (g.jac (loc x q))⁻¹
  data _ := 5
  flux _ := five

theorem cellOn_hexahedron {x : Fin (N + 1) → ℝ} {g : Geometry} (hg : g.Hex)
    (h0 : ∀ q : Node N, (g.jac (loc x q)).det ≠ 0) : OnHexahedron x g (cellOn x g) := by
  refine ⟨rfl, fun q => ?_⟩
  obtain ⟨h, hh⟩ := Option.isSome_iff_exists.1 ((cache_defined hg _).2 (h0 q))
  rw [hh, Option.map_some, (cache_det hh).2.2.1]
  rfl

theorem alone_uniform (x w : Fin (N + 1) → ℝ) {c : Cell ℝ 1 N} (hd : ∀ q, c.data q = 5) (hf : ∀ q, c.flux q = five)
    (t : ℝ) : Uniform 5 five moving (alone x w c) farField t where
  data _ q := hd q
  flux _ q := hf q
  ghost f hf := absurd hf List.not_mem_nil
  convective := by
    funext r j
    rfl
  locals f hf := absurd hf List.not_mem_nil
  ghosts f hf := absurd hf List.not_mem_nil
  wall name hn := absurd hn List.not_mem_nil
  outlet name hn := absurd hn List.not_mem_nil
  inlet nf hn := by
    obtain rfl := List.mem_singleton.1 hn
    intro faces hb f hf q hq r
    simp only [alone, if_true] at hb
    have hb' := Option.some.inj hb
    subst hb'
    obtain ⟨s, -, rfl⟩ := List.mem_map.1 hf
    obtain ⟨ν, -, rfl⟩ := List.mem_map.1 hq
    simp [carried, five, Fin.sum_univ_three]
  subInlet nf hn := absurd hn List.not_mem_nil
  subOutlet nf hn := absurd hn List.not_mem_nil
  smart nf hn := absurd hn List.not_mem_nil

theorem cellOn_uniform (x w : Fin (N + 1) → ℝ) (g : Geometry) (t : ℝ) :
    Uniform 5 five moving (alone x w (cellOn x g)) farField t :=
  alone_uniform x w (fun _ => rfl) (fun _ => rfl) t

/-! ### A twisted cell -/

/-- How wide the cell is. -/
noncomputable def width (e : Nat) (s : ℝ) : ℝ := 1 + s ^ e / 2

/-- A channel whose width depends on the first coordinate. -/
noncomputable def channel (e : Nat) (y : Vec) : Vec := ![y 0, y 1 * width e (y 0), y 2 * width e (y 0)]

/-- A hexahedron of this shape. -/
structure Channel (e : Nat) (g : Geometry) : Prop where
  hex : g.Hex
  map : g.map = channel e

theorem width_deriv (e : Nat) (s : ℝ) : HasDerivAt (width e) (e * s ^ (e - 1) / 2) s := by
  have := ((hasDerivAt_pow e s).div_const 2).const_add 1
  exact this

theorem channel_jac {e : Nat} {g : Geometry} (h : Channel e g) (p : Vec) :
    g.jac p = !![1, p 1 * (e * p 0 ^ (e - 1) / 2), p 2 * (e * p 0 ^ (e - 1) / 2);
      0, width e (p 0), 0; 0, 0, width e (p 0)] := by
  have key : ∀ a c v, HasPartial (fun q => channel e q c) a v p → g.jac p a c = v := by
    intro a c v hv
    have h1 := Geometry.map_partial h.hex p a c
    rw [h.map] at h1
    exact partial_unique h1 hv
  have w0 := width_deriv e (p 0)
  ext a c
  refine key a c _ ?_
  unfold HasPartial
  fin_cases a <;> fin_cases c <;>
    simp only [channel, Function.update, Fin.zero_eta, Fin.mk_one, Fin.reduceFinMk, Matrix.cons_val, Matrix.of_apply,
      Matrix.cons_val', Fin.isValue, eq_rec_constant, dite_eq_ite, reduceIte, Fin.reduceEq, one_ne_zero,
      zero_ne_one]
  · exact hasDerivAt_id _
  · exact w0.const_mul _
  · exact w0.const_mul _
  · exact hasDerivAt_const _ _
  · simpa using (hasDerivAt_id (p 1)).mul_const (width e (p 0))
  · exact hasDerivAt_const _ _
  · exact hasDerivAt_const _ _
  · exact hasDerivAt_const _ _
  · simpa using (hasDerivAt_id (p 2)).mul_const (width e (p 0))

theorem channel_det {e : Nat} {g : Geometry} (h : Channel e g) (p : Vec) : (g.jac p).det = width e (p 0) ^ 2 := by
  rw [channel_jac h, Matrix.det_fin_three]
  simp only [Matrix.of_apply, Matrix.cons_val', Matrix.cons_val, Fin.isValue]
  ring

/-- The metric terms. -/
theorem channel_cofactor {e : Nat} {g : Geometry} (h : Channel e g) (p : Vec) (i a : Fin 3) :
    cofactor (g.jac p) i a = (!![width e (p 0) ^ 2, -(width e (p 0) * (p 1 * (e * p 0 ^ (e - 1) / 2))),
      -(width e (p 0) * (p 2 * (e * p 0 ^ (e - 1) / 2))); 0, width e (p 0), 0; 0, 0, width e (p 0)] :
        Matrix (Fin 3) (Fin 3) ℝ) i a := by
  rw [cofactor, channel_jac h]
  fin_cases i <;> fin_cases a <;>
    simp only [Fin.zero_eta, Fin.mk_one, Fin.reduceFinMk, Fin.isValue, Fin.reduceAdd, zero_add, Matrix.of_apply,
      Matrix.cons_val', Matrix.cons_val] <;> ring

/-- Nodes between -1 and 1 that are at least 1 apart. -/
structure Apart (x : Fin (N + 1) → ℝ) : Prop where
  apart : ∀ i j, i ≠ j → 1 ≤ |x i - x j|
  inside : ∀ i, |x i| ≤ 1

theorem width_ge {e : Nat} {s : ℝ} (h : |s| ≤ 1) : 1 / 2 ≤ width e s := by
  have h1 : |s ^ e| ≤ 1 := by rw [abs_pow]; exact pow_le_one₀ (abs_nonneg _) h
  have := (abs_le.1 h1).1
  unfold width
  linarith

variable {x : Fin (N + 1) → ℝ} {e : Nat} {g : Geometry}

theorem channel_on (hx : Apart x) (h : Channel e g) : OnHexahedron x g (cellOn x g) :=
  cellOn_hexahedron h.hex fun q => by
    rw [channel_det h]
    have := width_ge (e := e) (hx.inside q.1)
    have h2 : 0 < width e (loc x q 0) := lt_of_lt_of_le (by norm_num) this
    positivity

theorem channel_assoc (hx : Apart x) (h : Channel e g) (q : Node N) (i a : Fin 3) :
    (cellOn x g).assoc q i a = (!![width e (x q.1) ^ 2, -(width e (x q.1) * (x q.2.1 * (e * x q.1 ^ (e - 1) / 2))),
      -(width e (x q.1) * (x q.2.2 * (e * x q.1 ^ (e - 1) / 2))); 0, width e (x q.1), 0; 0, 0, width e (x q.1)] :
        Matrix (Fin 3) (Fin 3) ℝ) i a := by
  rw [(assoc_cofactor (channel_on hx h) q).2, channel_cofactor h]
  rfl

theorem channel_columns (hx : Apart x) (h : Channel e g) (ν : Node N) (d : Fin 3) :
    length (fun i => (cellOn x g).assoc ν i d) ≠ 0 := by
  have h1 := component_le (fun i => (cellOn x g).assoc ν i d) d
  have h2 : 0 < width e (x ν.1) := lt_of_lt_of_le (by norm_num) (width_ge (e := e) (hx.inside ν.1))
  refine (lt_of_lt_of_le (abs_pos.2 ?_) h1).ne'
  rw [channel_assoc hx h]
  fin_cases d <;> simp [h2.ne']

theorem channel_mid (he : e ≠ 0) (s : Side) : channel e (sideMid s) = sideMid s := by
  obtain ⟨d, b⟩ := s
  funext i
  fin_cases d <;> fin_cases i <;> simp [channel, sideMid, width, he]

theorem mid_resolved {s s' : Side} (h : length (fun i => sideMid s i - sideMid s' i) < 1e-10) : s = s' := by
  have key : ∀ i, |sideMid s i - sideMid s' i| < 1e-10 := fun i => (component_le _ i).trans_lt h
  obtain ⟨a, b⟩ := s
  obtain ⟨a', b'⟩ := s'
  have h1 := key a
  have h2 : a = a' := by
    by_contra hne
    simp only [sideMid, if_true, if_neg hne, sign] at h1
    cases b <;> norm_num at h1
  subst h2
  simp only [sideMid, if_true, sign] at h1
  cases b <;> cases b' <;> first | rfl | (norm_num at h1)

theorem channel_resolved (he : e ≠ 0) (hx : Apart x) (h : Channel e g) : Resolved x (cellOn x g) where
  nodes q q' hq := by
    have key : ∀ i, |channel e (loc x q) i - channel e (loc x q') i| < 1e-8 := fun i => by
      have := (component_le _ i).trans_lt hq
      simpa only [pos, cellOn, h.map] using this
    have h0 : q.1 = q'.1 := by
      by_contra hne
      have h1 := hx.apart _ _ hne
      have h2 : |x q.1 - x q'.1| < 1e-8 := key 0
      linarith [show (1e-8 : ℝ) < 1 by norm_num]
    have hw := width_ge (e := e) (hx.inside q'.1)
    have other : ∀ i j, |x i * width e (x q'.1) - x j * width e (x q'.1)| < 1e-8 → i = j := by
      intro i j hij
      by_contra hne
      have h1 := hx.apart _ _ hne
      rw [← sub_mul, abs_mul, abs_of_pos (by linarith : 0 < width e (x q'.1))] at hij
      have h3 : 1 * (1 / 2) ≤ |x i - x j| * width e (x q'.1) := mul_le_mul h1 hw (by norm_num) (abs_nonneg _)
      linarith [show (1e-8 : ℝ) < 1 / 2 by norm_num]
    have h1 : |x q.2.1 * width e (x q.1) - x q'.2.1 * width e (x q'.1)| < 1e-8 := key 1
    have h2 : |x q.2.2 * width e (x q.1) - x q'.2.2 * width e (x q'.1)| < 1e-8 := key 2
    rw [h0] at h1 h2
    exact Prod.ext h0 (Prod.ext (other _ _ h1) (other _ _ h2))
  centers s s' hs := by
    refine mid_resolved ?_
    simpa only [cellOn, h.map, channel_mid he] using hs

/-- The discrete divergence of the metric terms at the end of the channel. -/
theorem channel_defect (hx : Apart x) (hi : Function.Injective x) (hlast : x (Fin.last N) = 1) (hN : 1 ≤ N)
    (h : Channel e g) {p : ℝ[X]} (hp : p.natDegree ≤ N) (hw : ∀ l, width e (x l) ^ 2 = p.eval (x l)) :
    defect x (cellOn x g) (Fin.last N, 0, 0) 0 = (derivative p).eval 1 - 3 / 2 * e := by
  have w1 : width e 1 = 3 / 2 := by unfold width; norm_num
  rw [defect_comm, Fin.sum_univ_three,
    line_exact hi hN hp (fun k => (cellOn x g).assoc k 0 0) _ 0 fun l => by
      rw [channel_assoc hx h, ← hw l]
      rfl,
    line_exact hi hN (p := C (-(3 / 2 * ((e : ℝ) / 2))) * X)
      ((show natDegree _ ≤ 1 by compute_degree).trans hN) (fun k => (cellOn x g).assoc k 0 1) _ 1
      fun l => by
        rw [channel_assoc hx h]
        simp only [setAt, hlast, w1, Matrix.of_apply, Matrix.cons_val', Matrix.cons_val, Fin.isValue, one_pow, eval_mul,
          eval_C, eval_X]
        ring,
    line_exact hi hN (p := C (-(3 / 2 * ((e : ℝ) / 2))) * X)
      ((show natDegree _ ≤ 1 by compute_degree).trans hN) (fun k => (cellOn x g).assoc k 0 2) _ 2
      fun l => by
        rw [channel_assoc hx h]
        simp only [setAt, hlast, w1, Matrix.of_apply, Matrix.cons_val', Matrix.cons_val, Fin.isValue, one_pow, eval_mul,
          eval_C, eval_X]
        ring]
  simp only [at_, Matrix.cons_val, Fin.isValue, hlast, derivative_mul, derivative_C, derivative_X, zero_mul, zero_add,
    mul_one, eval_C]
  ring

/-! ### Two such cells -/

/-- The cell with 8 nodes: a truncated pyramid. -/
noncomputable def pyramid : Geometry where
  kind := .hexahedron8
  element := hexahedron8 ℝ
  coords i := channel 1 (embed ((hexahedron8 ℝ).nodes i))

theorem pyramid_channel : Channel 1 pyramid := by
  refine ⟨⟨rfl, trivial⟩, ?_⟩
  funext p c
  change ∑ i, channel 1 (embed ((hexahedron8 ℝ).nodes i)) c * (hexahedron8 ℝ).shapes p i = _
  rw [Fin.sum_univ_eight]
  fin_cases c <;>
    simp [channel, width, hexahedron8, hex8Nodes, hexNodes, embed, cornerShape] <;> ring

/-- The cell with 27 nodes: a nozzle. -/
noncomputable def nozzle : Geometry where
  kind := .hexahedron27
  element := hexahedron27 ℝ
  coords i := channel 2 (embed ((hexahedron27 ℝ).nodes i))

theorem nozzle_channel : Channel 2 nozzle := by
  refine ⟨⟨rfl, trivial⟩, ?_⟩
  funext p c
  have := hexahedron27_triquadratic (fun q => channel 2 q c) (fun p j => ?_) p
  · refine Eq.trans ?_ this
    change ∑ i, channel 2 (embed ((hexahedron27 ℝ).nodes i)) c * (hexahedron27 ℝ).shapes p i = _
    exact Finset.sum_congr rfl fun i _ => by rw [mul_comm]; rfl
  · refine ⟨channel 2 (Function.update p j 0) c,
      (channel 2 (Function.update p j 1) c - channel 2 (Function.update p j (-1)) c) / 2,
      (channel 2 (Function.update p j 1) c + channel 2 (Function.update p j (-1)) c) / 2
        - channel 2 (Function.update p j 0) c, fun t => ?_⟩
    fin_cases j <;> fin_cases c <;> simp [channel, width, Function.update] <;> ring

end MiniCFD.FR
