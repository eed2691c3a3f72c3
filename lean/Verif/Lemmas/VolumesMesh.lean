import Verif.Lemmas.Volumes

/-! A step of Euler's method at degree zero. -/

namespace MiniCFD.Volumes

open MiniCFD.Energy MiniCFD.Spec.Energy MiniCFD.Spec.Volumes MiniCFD.Residual MiniCFD.Projection MiniCFD.Ortho

variable {Pt : Type} (m : Mesh Pt 0) (law : Law) (a : Fin 3 → ℝ) (c : Conditions Pt 1)

/-- What leaves a cell. -/
noncomputable def out (t : ℝ) (U : Fin m.count → ℝ) (p : Fin m.count) : ℝ :=
  (m.faces.map fun f =>
    (if f.1 = p then face f.2.2 (fun q => law.upwind (along a q) (U f.1) (U f.2.1)) else 0) -
    (if f.2.1 = p then face f.2.2 (fun q => law.upwind (along a q) (U f.1) (U f.2.1)) else 0)).sum +
  (c.supersonicInlet.map fun nf => rim m nf.1 fun h q => if h = p then
    law.flux (along a q) (nf.2 q.coord t 0) else 0).sum +
  (c.supersonicOutlet.map fun name => rim m name fun h q => if h = p then law.flux (along a q) (U p) else 0).sum

/-- The values after a step. -/
noncomputable def next (t dt : ℝ) (U : Fin m.count → ℝ) (p : Fin m.count) : ℝ :=
  U p - dt / volume m p * out m law a c t U p

/-! ### Inequalities between sums -/

theorem face_mono {points : List (Point Pt)} (hw : ∀ q ∈ points, 0 ≤ q.weight) {f g : Point Pt → ℝ}
    (h : ∀ q ∈ points, f q ≤ g q) : face points f ≤ face points g :=
  List.sum_le_sum fun q hq => mul_le_mul_of_nonneg_left (h q hq) (hw q hq)

theorem face_nonneg {points : List (Point Pt)} (hw : ∀ q ∈ points, 0 ≤ q.weight) {g : Point Pt → ℝ}
    (h : ∀ q ∈ points, 0 ≤ g q) : 0 ≤ face points g := by
  have := face_mono hw (f := fun _ => 0) h
  simpa [face] using this

variable {m c}

theorem rim_le (hr : Regular m c) (name : String) {f g : Fin m.count → Point Pt → ℝ}
    (h : OnRim m name fun p q => f p q ≤ g p q) : rim m name f ≤ rim m name g := by
  simp only [rim]
  cases hn : m.boundary name with
  | none => simp
  | some faces =>
    refine List.sum_le_sum fun x hx => ?_
    exact face_mono (hr.rims name faces hn x hx) (h faces hn x hx)

theorem rim_nonneg (hr : Regular m c) (name : String) {g : Fin m.count → Point Pt → ℝ}
    (h : OnRim m name fun p q => 0 ≤ g p q) : 0 ≤ rim m name g := by
  have := rim_le hr name (f := fun _ _ => 0) h
  rwa [rim_zero] at this

theorem names_plain (hs : Supported c) : names c = c.solidWall ++ c.supersonicInlet.map Prod.fst ++ c.supersonicOutlet := by
  simp [names, hs.subsonicInlet, hs.subsonicOutlet, hs.smart]

theorem list_nonneg {l : List ℝ} (h : ∀ x ∈ l, 0 ≤ x) : 0 ≤ l.sum := List.sum_nonneg h

theorem ite_le {P Q : Prop} [Decidable P] [Decidable Q] {HW HU X Y : ℝ} (i1 : P → HW - HU ≤ X)
    (i2 : Q → HU - HW ≤ Y) :
    (if P then HW else 0) - (if Q then HW else 0) ≤
      (if P then HU else 0) - (if Q then HU else 0) + ((if P then X else 0) + (if Q then Y else 0)) := by
  by_cases hP : P <;> by_cases hQ : Q <;> simp only [hP, hQ, if_true, if_false]
  · have := i1 hP; have := i2 hQ; linarith
  · have := i1 hP; linarith
  · have := i2 hQ; linarith
  · simp

/-- Greater values lose more, but not too much more. -/
theorem out_mono (hr : Regular m c) (hs : Supported c) {A B : ℝ} (t : ℝ) {U W : Fin m.count → ℝ}
    (hU : ∀ p, A ≤ U p) (hW : ∀ p, W p ≤ B) (h : ∀ p, U p ≤ W p) (p : Fin m.count) :
    out m law a c t W p - out m law a c t U p ≤
      fastest law A B * around m c p (fun q => |along a q|) * (W p - U p) := by
  set K := fastest law A B with hK
  have hK0 : 0 ≤ K := by
    rw [hK]
    cases law <;> simp [fastest]
  have hd : 0 ≤ W p - U p := sub_nonneg.2 (h p)
  have e1 : (m.faces.map fun f =>
      (if f.1 = p then face f.2.2 (fun q => law.upwind (along a q) (W f.1) (W f.2.1)) else 0) -
      (if f.2.1 = p then face f.2.2 (fun q => law.upwind (along a q) (W f.1) (W f.2.1)) else 0)).sum ≤
      (m.faces.map fun f =>
      (if f.1 = p then face f.2.2 (fun q => law.upwind (along a q) (U f.1) (U f.2.1)) else 0) -
      (if f.2.1 = p then face f.2.2 (fun q => law.upwind (along a q) (U f.1) (U f.2.1)) else 0)).sum +
      (K * (W p - U p)) * (m.faces.map fun f => (if f.1 = p then face f.2.2 (fun q => |along a q|) else 0) +
        (if f.2.1 = p then face f.2.2 (fun q => |along a q|) else 0)).sum := by
    rw [← sum_map_mul', ← sum_map_add']
    refine List.sum_le_sum fun f hf => ?_
    have key : ∀ q ∈ f.2.2, law.upwind (along a q) (W f.1) (W f.2.1) - law.upwind (along a q) (U f.1) (U f.2.1) ≤
        K * (W f.1 - U f.1) * |along a q| ∧
        law.upwind (along a q) (U f.1) (U f.2.1) - law.upwind (along a q) (W f.1) (W f.2.1) ≤
        K * (W f.2.1 - U f.2.1) * |along a q| := by
      intro q _
      obtain ⟨a1, a2⟩ := upwind_left law (al := along a q) (r := W f.2.1) (h f.1) (hU _) (hW _)
      obtain ⟨b1, b2⟩ := upwind_right law (al := along a q) (l := U f.1) (h f.2.1) (hU _) (hW _)
      constructor <;> linarith
    have i1 : f.1 = p → face f.2.2 (fun q => law.upwind (along a q) (W f.1) (W f.2.1)) -
        face f.2.2 (fun q => law.upwind (along a q) (U f.1) (U f.2.1)) ≤
        K * (W p - U p) * face f.2.2 fun q => |along a q| := by
      intro hp
      rw [face_sub, ← hp]
      have := face_mono (hr.weights f hf) fun q hq => (key q hq).1
      refine this.trans (le_of_eq ?_)
      have := face_lin2 f.2.2 (K * (W f.1 - U f.1)) 0 (fun q => |along a q|) (fun q => |along a q|)
      simpa using this
    have i2 : f.2.1 = p → face f.2.2 (fun q => law.upwind (along a q) (U f.1) (U f.2.1)) -
        face f.2.2 (fun q => law.upwind (along a q) (W f.1) (W f.2.1)) ≤
        K * (W p - U p) * face f.2.2 fun q => |along a q| := by
      intro hp
      rw [face_sub, ← hp]
      have := face_mono (hr.weights f hf) fun q hq => (key q hq).2
      refine this.trans (le_of_eq ?_)
      have := face_lin2 f.2.2 (K * (W f.2.1 - U f.2.1)) 0 (fun q => |along a q|) (fun q => |along a q|)
      simpa using this
    refine (ite_le i1 i2).trans (le_of_eq ?_)
    rw [mul_add, mul_ite, mul_ite, mul_zero]
  have e2 : (c.supersonicOutlet.map fun name => rim m name fun h q => if h = p then
        law.flux (along a q) (W p) else 0).sum ≤
      (c.supersonicOutlet.map fun name => rim m name fun h q => if h = p then
        law.flux (along a q) (U p) else 0).sum +
      (K * (W p - U p)) * (c.supersonicOutlet.map fun name => rim m name fun h q => if h = p then
        |along a q| else 0).sum := by
    rw [← sum_map_mul', ← sum_map_add']
    refine List.sum_le_sum fun name _ => ?_
    have := rim_lin2 m name 1 (K * (W p - U p)) (fun h q => if h = p then law.flux (along a q) (U p) else 0)
      (fun h q => if h = p then |along a q| else 0)
    rw [one_mul] at this
    rw [← this]
    refine rim_le hr name fun faces hfc f hf q hq => ?_
    by_cases hp : f.1 = p
    · simp only [hp, if_true]
      have := flux_step law (al := along a q) (h p) (hU p) (hW p)
      linarith
    · simp [hp]
  have e3 : 0 ≤ (c.solidWall.map fun name => rim m name fun h q => if h = p then |along a q| else 0).sum := by
    refine List.sum_nonneg fun x hx => ?_
    obtain ⟨name, -, rfl⟩ := List.mem_map.1 hx
    refine rim_nonneg hr name fun faces hfc f hf q hq => ?_
    dsimp only
    split_ifs <;> simp
  have e4 : 0 ≤ (c.supersonicInlet.map fun nf => rim m nf.1 fun h q => if h = p then |along a q| else 0).sum := by
    refine List.sum_nonneg fun x hx => ?_
    obtain ⟨name, -, rfl⟩ := List.mem_map.1 hx
    refine rim_nonneg hr name.1 fun faces hfc f hf q hq => ?_
    dsimp only
    split_ifs <;> simp
  simp only [out, around, names_plain hs, List.map_append, List.sum_append, List.map_map, Function.comp_def]
  have k3 := mul_nonneg (mul_nonneg hK0 hd) e3
  have k4 := mul_nonneg (mul_nonneg hK0 hd) e4
  simp only [mul_add, add_mul]
  linarith

/-- What leaves a cell if all values are the same and others come in. -/
theorem out_const (hs : Supported c) (hc : Closed m c) (t v : ℝ)
    (hwall : ∀ name ∈ c.solidWall, OnRim m name fun _ q => along a q = 0) (p : Fin m.count) :
    out m law a c t (fun _ => v) p =
      (c.supersonicInlet.map fun nf => rim m nf.1 fun h q => if h = p then
        law.flux (along a q) (nf.2 q.coord t 0) else 0).sum -
      (c.supersonicInlet.map fun nf => rim m nf.1 fun h q => if h = p then law.flux (along a q) v else 0).sum := by
  have h0 : surface m c p (fun q => law.flux (along a q) v) = 0 := by
    have h1 := surface_lin m (fun k => a k * shape law v) c p (fun k q => q.normal k)
    have h2 : (fun q : Point Pt => ∑ k, a k * shape law v * q.normal k) = fun q => law.flux (along a q) v := by
      funext q
      rw [flux_eq]
      simp only [along, Finset.sum_mul]
      exact Finset.sum_congr rfl fun k _ => by ring
    rw [h2] at h1
    rw [← h1]
    exact Finset.sum_eq_zero fun k _ => by rw [hc p k, mul_zero]
  have hz : (c.solidWall.map fun name => rim m name fun h q => if h = p then law.flux (along a q) v else 0).sum = 0 := by
    refine List.sum_eq_zero fun x hx => ?_
    obtain ⟨name, hn, rfl⟩ := List.mem_map.1 hx
    simp only [rim]
    cases hb : m.boundary name with
    | none => rfl
    | some faces =>
      refine List.sum_eq_zero fun y hy => ?_
      obtain ⟨f, hf, rfl⟩ := List.mem_map.1 hy
      refine List.sum_eq_zero fun z hz => ?_
      obtain ⟨q, hq, rfl⟩ := List.mem_map.1 hz
      have := hwall name hn faces hb f hf q hq
      dsimp only at this ⊢
      rw [this, flux_eq]
      simp
  simp only [surface, names_plain hs, List.map_append, List.sum_append, List.map_map, Function.comp_def, hz] at h0
  simp only [out, upwind_same]
  linarith

variable (m) in
/-- Faces only pass on. -/
theorem out_sum (t : ℝ) (U : Fin m.count → ℝ) :
    ∑ p, out m law a c t U p =
      (c.supersonicInlet.map fun nf => rim m nf.1 fun _ q => law.flux (along a q) (nf.2 q.coord t 0)).sum +
      (c.supersonicOutlet.map fun name => rim m name fun h q => law.flux (along a q) (U h)).sum := by
  have hrim : ∀ (name : String) (g : Fin m.count → Fin m.count → Point Pt → ℝ),
      ∑ p, rim m name (fun h q => if h = p then g p h q else 0) = rim m name fun h q => g h h q := by
    intro name g
    simp only [rim]
    cases m.boundary name with
    | none => simp
    | some faces =>
      simp only
      rw [sum_swap_list]
      refine congrArg List.sum (List.map_congr_left fun f _ => ?_)
      simp only [face]
      rw [sum_swap_list]
      refine congrArg List.sum (List.map_congr_left fun q _ => ?_)
      simp
  simp only [out, Finset.sum_add_distrib]
  rw [sum_swap_list, sum_swap_list, sum_swap_list]
  have hz : (m.faces.map fun f => ∑ p,
      ((if f.1 = p then face f.2.2 (fun q => law.upwind (along a q) (U f.1) (U f.2.1)) else 0) -
      (if f.2.1 = p then face f.2.2 (fun q => law.upwind (along a q) (U f.1) (U f.2.1)) else 0))).sum = 0 := by
    refine List.sum_eq_zero fun x hx => ?_
    obtain ⟨f, -, rfl⟩ := List.mem_map.1 hx
    rw [Finset.sum_sub_distrib]
    simp
  rw [hz, zero_add]
  congr 1
  · refine congrArg List.sum (List.map_congr_left fun nf _ => ?_)
    exact hrim nf.1 fun _ _ q => law.flux (along a q) (nf.2 q.coord t 0)
  · refine congrArg List.sum (List.map_congr_left fun name _ => ?_)
    exact hrim name fun p _ q => law.flux (along a q) (U p)

/-! ### Steps -/

section

variable (hV : ∀ p, 0 < volume m p) {A B dt : ℝ} (h0 : 0 ≤ dt)
include hV h0

theorem next_mono (hr : Regular m c) (hs : Supported c) (hC : Courant m law a c A B dt) (t : ℝ)
    {U W : Fin m.count → ℝ} (hU : ∀ p, A ≤ U p) (hW : ∀ p, W p ≤ B) (h : ∀ p, U p ≤ W p) (p : Fin m.count) :
    next m law a c t dt U p ≤ next m law a c t dt W p := by
  have k := out_mono law a hr hs t hU hW h p
  have hc := hC p
  have hd : 0 ≤ W p - U p := sub_nonneg.2 (h p)
  have hv := hV p
  have k2 := mul_le_mul_of_nonneg_left k (div_nonneg h0 hv.le)
  have k3 : dt / volume m p * (fastest law A B * (around m c p fun q => |along a q|) * (W p - U p)) ≤ W p - U p := by
    have : dt / volume m p * (fastest law A B * (around m c p fun q => |along a q|) * (W p - U p)) =
      dt * (fastest law A B * around m c p fun q => |along a q|) / volume m p * (W p - U p) := by ring
    rw [this]
    have h1 : dt * (fastest law A B * around m c p fun q => |along a q|) / volume m p ≤ 1 := by
      rw [div_le_one hv]; exact hc
    calc _ ≤ 1 * (W p - U p) := mul_le_mul_of_nonneg_right h1 hd
      _ = _ := one_mul _
  simp only [next]
  linarith

theorem next_upper (hr : Regular m c) (hs : Supported c) (hc : Closed m c) (hi : Inflow m law a c A B) (t : ℝ)
    (hAB : A ≤ B) (p : Fin m.count) : next m law a c t dt (fun _ => B) p ≤ B := by
  have k : 0 ≤ out m law a c t (fun _ => B) p := by
    rw [out_const law a hs hc t B hi.wall, sub_nonneg]
    refine List.sum_le_sum fun nf hn => ?_
    refine rim_le hr nf.1 fun faces hfc f hf q hq => ?_
    have hg := hi.range nf hn q.coord t
    have hin := hi.inlet nf hn faces hfc f hf q hq
    dsimp only
    split_ifs
    · exact flux_anti law hg.2 (hin _ hg.1 hg.2) (hin _ hAB le_rfl)
    · exact le_rfl
  have := mul_nonneg (div_nonneg h0 (hV p).le) k
  simp only [next]
  linarith

theorem next_lower (hr : Regular m c) (hs : Supported c) (hc : Closed m c) (hi : Inflow m law a c A B) (t : ℝ)
    (hAB : A ≤ B) (p : Fin m.count) : A ≤ next m law a c t dt (fun _ => A) p := by
  have k : out m law a c t (fun _ => A) p ≤ 0 := by
    rw [out_const law a hs hc t A hi.wall, sub_nonpos]
    refine List.sum_le_sum fun nf hn => ?_
    refine rim_le hr nf.1 fun faces hfc f hf q hq => ?_
    have hg := hi.range nf hn q.coord t
    have hin := hi.inlet nf hn faces hfc f hf q hq
    dsimp only
    split_ifs
    · exact flux_anti law hg.1 (hin _ le_rfl hAB) (hin _ hg.1 hg.2)
    · exact le_rfl
  have := mul_nonneg (div_nonneg h0 (hV p).le) (neg_nonneg.2 k)
  simp only [next]
  linarith

theorem next_within (hr : Regular m c) (hs : Supported c) (hc : Closed m c) (hi : Inflow m law a c A B)
    (hC : Courant m law a c A B dt) (t : ℝ) {U : Fin m.count → ℝ} (hU : ∀ p, A ≤ U p ∧ U p ≤ B) (p : Fin m.count) :
    A ≤ next m law a c t dt U p ∧ next m law a c t dt U p ≤ B := by
  have hAB : A ≤ B := (hU p).1.trans (hU p).2
  constructor
  · refine (next_lower law a hV h0 hr hs hc hi t hAB p).trans ?_
    exact next_mono law a hV h0 hr hs hC t (fun _ => le_rfl) (fun p => (hU p).2) (fun p => (hU p).1) p
  · refine le_trans ?_ (next_upper law a hV h0 hr hs hc hi t hAB p)
    exact next_mono law a hV h0 hr hs hC t (fun p => (hU p).1) (fun _ => le_rfl) (fun p => (hU p).2) p

theorem next_distance (hr : Regular m c) (hs : Supported c) (ho : Outflow m law a c A B)
    (hC : Courant m law a c A B dt) (t : ℝ) {U W : Fin m.count → ℝ} (hU : ∀ p, A ≤ U p ∧ U p ≤ B)
    (hW : ∀ p, A ≤ W p ∧ W p ≤ B) :
    ∑ p, volume m p * |next m law a c t dt U p - next m law a c t dt W p| ≤ ∑ p, volume m p * |U p - W p| := by
  set Z : Fin m.count → ℝ := fun p => max (U p) (W p) with hZ
  have hZB : ∀ p, Z p ≤ B := fun p => max_le (hU p).2 (hW p).2
  have m1 : ∀ p, next m law a c t dt U p ≤ next m law a c t dt Z p :=
    next_mono law a hV h0 hr hs hC t (fun p => (hU p).1) hZB fun p => le_max_left _ _
  have m2 : ∀ p, next m law a c t dt W p ≤ next m law a c t dt Z p :=
    next_mono law a hV h0 hr hs hC t (fun p => (hW p).1) hZB fun p => le_max_right _ _
  have tot : ∀ X : Fin m.count → ℝ, ∑ p, volume m p * next m law a c t dt X p =
      ∑ p, volume m p * X p - dt * ∑ p, out m law a c t X p := by
    intro X
    rw [Finset.mul_sum, ← Finset.sum_sub_distrib]
    refine Finset.sum_congr rfl fun p _ => ?_
    simp only [next]
    have := (hV p).ne'
    field_simp
  have grow : ∀ X : Fin m.count → ℝ, (∀ p, A ≤ X p) → (∀ p, X p ≤ Z p) →
      ∑ p, out m law a c t X p ≤ ∑ p, out m law a c t Z p := by
    intro X hX hXZ
    rw [out_sum, out_sum]
    refine (add_le_add_iff_left _).2 ?_
    refine List.sum_le_sum fun name hn => ?_
    refine rim_le hr name fun faces hfc f hf q hq => ?_
    have := ho name hn faces hfc f hf q hq
    exact flux_mono law (hXZ f.1) (this _ (hX _) ((hXZ _).trans (hZB _))) (this _ ((hX _).trans (hXZ _)) (hZB _))
  have g1 := mul_le_mul_of_nonneg_left (grow U (fun p => (hU p).1) fun p => le_max_left _ _) h0
  have g2 := mul_le_mul_of_nonneg_left (grow W (fun p => (hW p).1) fun p => le_max_right _ _) h0
  calc ∑ p, volume m p * |next m law a c t dt U p - next m law a c t dt W p|
      ≤ ∑ p, (volume m p * next m law a c t dt Z p - volume m p * next m law a c t dt U p +
          (volume m p * next m law a c t dt Z p - volume m p * next m law a c t dt W p)) := by
        refine Finset.sum_le_sum fun p _ => ?_
        have : |next m law a c t dt U p - next m law a c t dt W p| ≤
            (next m law a c t dt Z p - next m law a c t dt U p) + (next m law a c t dt Z p - next m law a c t dt W p) := by
          rw [abs_le]
          constructor <;> linarith [m1 p, m2 p]
        have := mul_le_mul_of_nonneg_left this (hV p).le
        linarith
    _ = (∑ p, volume m p * next m law a c t dt Z p - ∑ p, volume m p * next m law a c t dt U p) +
        (∑ p, volume m p * next m law a c t dt Z p - ∑ p, volume m p * next m law a c t dt W p) := by
        rw [Finset.sum_add_distrib, Finset.sum_sub_distrib, Finset.sum_sub_distrib]
    _ ≤ (∑ p, volume m p * Z p - ∑ p, volume m p * U p) + (∑ p, volume m p * Z p - ∑ p, volume m p * W p) := by
        rw [tot, tot, tot]
        linarith
    _ = ∑ p, volume m p * |U p - W p| := by
        rw [← Finset.sum_sub_distrib, ← Finset.sum_sub_distrib, ← Finset.sum_add_distrib]
        refine Finset.sum_congr rfl fun p _ => ?_
        have : |U p - W p| = (Z p - U p) + (Z p - W p) := by
          simp only [hZ]
          rcases le_total (U p) (W p) with h | h
          · rw [max_eq_right h, abs_of_nonpos (by linarith)]; ring
          · rw [max_eq_left h, abs_of_nonneg (by linarith)]; ring
        rw [this]
        ring

end

end MiniCFD.Volumes
