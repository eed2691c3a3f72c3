import Verif.Model.Rotor
import Verif.Model.Airfoil
import Verif.Spec.Rotor
import Verif.Props.Frame
import Mathlib.Tactic.FieldSimp
import Mathlib.Tactic.Linarith
import Mathlib.Tactic.Module
import Mathlib.Tactic.NormNum

/-! Lemmas on rotors, blades and sections. -/

namespace MiniCFD.Rotor
open MiniCFD.Frame MiniCFD.Spec.Frame MiniCFD.Spec.Rotor Matrix

variable {A : Type*}

theorem getPoint_in (ro : Vec) (b : Blade A) {l : ℝ} (h0 : 0 ≤ l) (h1 : l ≤ 1) :
    b.getPoint ro l = some (ro + (b.root + l * b.span) • b.frame.y) := by
  rw [Blade.getPoint, if_neg (by rintro (h | h) <;> linarith), Blade.origin]
  congr 1
  module

theorem getPoint_zero (ro : Vec) (b : Blade A) :
    b.getPoint ro 0 = some (ro + b.root • b.frame.y) := by
  rw [getPoint_in ro b le_rfl zero_le_one]
  congr 2; ring_nf

theorem getPoint_one (ro : Vec) (b : Blade A) :
    b.getPoint ro 1 = some (ro + (b.root + b.span) • b.frame.y) := by
  rw [getPoint_in ro b zero_le_one le_rfl]
  congr 2; ring_nf

/-- `Blade::SetAzimuth` places the blade. -/
theorem setAzimuth_placed {rf : Axes} (h : RightHanded rf.x rf.y rf.z) (ro : Vec) (deg : ℝ)
    (b : Blade A) :
    let b' := b.setAzimuth rf ro deg
    b'.azimuth = deg ∧ b'.root = b.root ∧ b'.stations = b.stations ∧
      Placed rf.x rf.y rf.z ro b.root b.span deg b'.frame.x b'.frame.y b'.frame.z b'.p b'.q b'.pq
        (b'.getPoint ro) := by
  have hr := rotate_is_turn h (.rz deg)
  have e0 := getPoint_zero ro { b with azimuth := deg, frame := rf.rotateZ deg }
  have e1 := getPoint_one ro { b with azimuth := deg, frame := rf.rotateZ deg }
  refine ⟨rfl, rfl, rfl, hr.1, hr.2.1, hr.2.2, ?_, ?_, rfl, ?_⟩
  · simp only [Blade.setAzimuth, e0, Option.getD_some]
  · simp only [Blade.setAzimuth, e1, Option.getD_some]; rfl
  · intro l h0 h1
    exact getPoint_in ro (b.setAzimuth rf ro deg) h0 h1

theorem setBlades_length (rf : Axes) (ro : Vec) (psi : ℝ) (bs : List (Blade A)) (deg : ℝ) :
    (setBlades rf ro psi deg bs).length = bs.length := by
  induction bs generalizing deg with
  | nil => rfl
  | cons b bs ih => simp [setBlades, ih]

theorem setBlades_get (rf : Axes) (ro : Vec) (psi : ℝ) (bs : List (Blade A)) (deg : ℝ) (i : ℕ) :
    (setBlades rf ro psi deg bs)[i]? =
      bs[i]?.map (fun b => b.setAzimuth rf ro (deg + psi * i)) := by
  induction bs generalizing deg i with
  | nil => simp [setBlades]
  | cons b bs ih =>
    cases i with
    | zero => simp [setBlades]
    | succ i =>
      simp only [setBlades, List.getElem?_cons_succ, ih]
      congr 1
      funext c
      congr 1
      push_cast
      ring

/-- The azimuth of the rotor is `θ` and all its blades are where they then should be. -/
def Consistent (r : Rotor A) (θ : ℝ) : Prop :=
  r.azimuth = θ ∧ ∀ (i : ℕ) (b : Blade A), r.blades[i]? = some b →
    b.azimuth = θ + i * (360 / r.blades.length) ∧
    Placed r.frame.x r.frame.y r.frame.z r.origin b.root b.span (θ + i * (360 / r.blades.length))
      b.frame.x b.frame.y b.frame.z b.p b.q b.pq (b.getPoint r.origin)

theorem setAzimuth_consistent (r : Rotor A) (h : RightHanded r.frame.x r.frame.y r.frame.z)
    (deg : ℝ) : Consistent (r.setAzimuth deg) deg := by
  refine ⟨rfl, fun i b hb => ?_⟩
  have hl : (r.setAzimuth deg).blades.length = r.blades.length := setBlades_length _ _ _ _ _
  have hb' : (setBlades r.frame r.origin (360 / (r.blades.length : ℝ)) deg r.blades)[i]? = some b :=
    hb
  rw [setBlades_get] at hb'
  obtain ⟨c, hc, rfl⟩ := Option.map_eq_some_iff.1 hb'
  have := setAzimuth_placed h r.origin (deg + 360 / (r.blades.length : ℝ) * i) c
  rw [hl, mul_comm (i : ℝ)]
  exact ⟨this.1, this.2.2.2⟩

/-- What an update of the azimuth does not touch. -/
structure SameParams (r r' : Rotor A) : Prop where
  frame : r'.frame = r.frame
  origin : r'.origin = r.origin
  initial : r'.initial = r.initial
  omega : r'.omega = r.omega
  blades : r'.blades.map (fun b => (b.root, b.stations)) = r.blades.map (fun b => (b.root, b.stations))

theorem setBlades_params (rf : Axes) (ro : Vec) (psi : ℝ) (bs : List (Blade A)) (deg : ℝ) :
    (setBlades rf ro psi deg bs).map (fun b => (b.root, b.stations)) =
      bs.map (fun b => (b.root, b.stations)) := by
  induction bs generalizing deg with
  | nil => rfl
  | cons b bs ih => simp only [setBlades, List.map_cons, ih]; rfl

theorem setAzimuth_params (r : Rotor A) (d : ℝ) : SameParams r (r.setAzimuth d) :=
  ⟨rfl, rfl, rfl, rfl, setBlades_params _ _ _ _ _⟩

theorem update_params (r : Rotor A) (t : ℝ) : SameParams r (apply r (.update t)) := by
  by_cases h : r.time ≠ t
  · simp only [apply, if_pos h]
    exact ⟨rfl, rfl, rfl, rfl, setBlades_params _ _ _ _ _⟩
  · simp only [apply, if_neg h]
    exact ⟨rfl, rfl, rfl, rfl, rfl⟩

theorem update_time (r : Rotor A) (t : ℝ) : (apply r (.update t)).time = t := by
  by_cases h : r.time ≠ t
  · simp only [apply, if_pos h]; rfl
  · simp only [apply, if_neg h]; exact not_not.1 h

theorem update_consistent (r : Rotor A) (h : RightHanded r.frame.x r.frame.y r.frame.z) (t : ℝ)
    (ht : r.time ≠ t) : Consistent (apply r (.update t)) (r.initial + t * r.omega) := by
  simp only [apply, if_pos ht]
  exact setAzimuth_consistent { r with time := t } h _

/-! ### Stations and interpolation -/

/-- Positions increase strictly. -/
def Increasing (ss : List (Station A)) : Prop := (ss.map Station.y).Pairwise (· < ·)

/-- The search finds the neighbours of `y`. -/
theorem search_eq (y : ℝ) (pre : List (Station A)) (r s : Station A) (post : List (Station A))
    (prev : Option (Station A)) (hpre : ∀ x ∈ pre, x.y < y) (hr : r.y < y) (hs : y ≤ s.y) :
    search y prev (pre ++ r :: s :: post) = between y (some r) s := by
  induction pre generalizing prev with
  | nil =>
    simp only [List.nil_append, search]
    rw [if_pos hr, if_neg (not_lt.2 hs)]
  | cons p pre ih =>
    simp only [List.cons_append, search]
    rw [if_pos (hpre p (by simp))]
    exact ih _ (fun x hx => hpre x (by simp [hx]))

theorem search_station (pre : List (Station A)) (s : Station A) (post : List (Station A))
    (prev : Option (Station A)) (hpre : ∀ x ∈ pre, x.y < s.y) :
    search s.y prev (pre ++ s :: post) = some ⟨s.chord, s.twist, s.airfoil, 0, s.airfoil, 1⟩ := by
  induction pre generalizing prev with
  | nil => simp [search, between]
  | cons p pre ih =>
    simp only [List.cons_append, search]
    rw [if_pos (hpre p (by simp))]
    exact ih _ (fun x hx => hpre x (by simp [hx]))

theorem increasing_split {pre : List (Station A)} {s : Station A} {post : List (Station A)}
    (h : Increasing (pre ++ s :: post)) : (∀ x ∈ pre, x.y < s.y) ∧ ∀ x ∈ post, s.y < x.y := by
  unfold Increasing at h
  rw [List.map_append, List.pairwise_append] at h
  obtain ⟨-, h2, h3⟩ := h
  rw [List.map_cons, List.pairwise_cons] at h2
  exact ⟨fun x hx => h3 _ (List.mem_map_of_mem hx) _ (by simp),
    fun x hx => h2.1 _ (List.mem_map_of_mem hx)⟩

/-! ### Angles -/

theorem angle_eq (d : ℝ) : Real.pi * (d / 180) = deg2rad d := by rw [deg2rad]; ring

theorem rad_deg (x : ℝ) : deg2rad (rad2deg x) = x := by
  have := Real.pi_ne_zero
  rw [deg2rad, rad2deg]
  field_simp

theorem deg2rad_add (c d : ℝ) : deg2rad (c + d) = deg2rad c + deg2rad d := by
  simp only [deg2rad]; ring

theorem deg2rad_180 : deg2rad 180 = Real.pi := by rw [deg2rad]; ring
theorem deg2rad_90 : deg2rad 90 = Real.pi / 2 := by rw [deg2rad]; ring

theorem isAngle_add_full {u w d : ℝ} (k : ℤ) (h : IsAngle u w d) : IsAngle u w (d + 360 * k) := by
  unfold IsAngle at *
  have e : Real.pi * ((d + 360 * k) / 180) = Real.pi * (d / 180) + k * (2 * Real.pi) := by ring
  rw [e, Real.cos_add_int_mul_two_pi, Real.sin_add_int_mul_two_pi]
  exact h

theorem isAngle_arctan {u w : ℝ} (hu : 0 < u) : IsAngle u w (rad2deg (Real.arctan (w / u))) := by
  unfold IsAngle
  rw [angle_eq, rad_deg, Real.cos_arctan, Real.sin_arctan]
  have h1 : Real.sqrt (u ^ 2 + w ^ 2) = u * Real.sqrt (1 + (w / u) ^ 2) := by
    rw [← Real.sqrt_sq hu.le, ← Real.sqrt_mul (sq_nonneg u), Real.sqrt_sq hu.le]
    congr 1
    field_simp
  have h2 : Real.sqrt (1 + (w / u) ^ 2) ≠ 0 := (Real.sqrt_pos.2 (by positivity)).ne'
  rw [h1]
  constructor <;> field_simp

theorem isAngle_neg {u w d : ℝ} (h : IsAngle (-u) (-w) d) : IsAngle u w (d + 180) := by
  unfold IsAngle at *
  rw [angle_eq] at *
  rw [deg2rad_add, deg2rad_180, Real.cos_add_pi, Real.sin_add_pi]
  rw [neg_sq, neg_sq] at h
  constructor
  · linarith [h.1]
  · linarith [h.2]

theorem arctan_range (x : ℝ) : -90 < rad2deg (Real.arctan x) ∧ rad2deg (Real.arctan x) < 90 := by
  have h1 := Real.neg_pi_div_two_lt_arctan x
  have h2 := Real.arctan_lt_pi_div_two x
  have hp := Real.pi_pos
  unfold rad2deg
  constructor
  · rw [div_mul_eq_mul_div, lt_div_iff₀ hp]; linarith
  · rw [div_mul_eq_mul_div, div_lt_iff₀ hp]; linarith

/-- The inflow angle before the twist is added: a direction angle in `[-180, 180]`. -/
theorem aoa_core (twist u w : ℝ) (h : u ≠ 0 ∨ w ≠ 0) :
    ∃ φ, IsAngle u w φ ∧ -180 ≤ φ ∧ φ ≤ 180 ∧
      angleOfAttack twist u w = some (let deg := φ + twist
        if deg < -180 ∨ 180 < deg then deg + (if deg < 0 then 360 else -360) else deg) := by
  unfold angleOfAttack
  by_cases hu : u = 0
  · subst hu
    have hw : w ≠ 0 := h.resolve_left (fun h => h rfl)
    simp only [if_true, if_neg hw, lt_irrefl, if_false, Option.map_some]
    by_cases hw' : 0 < w
    · rw [if_pos hw']
      refine ⟨90, ?_, by norm_num, by norm_num, rfl⟩
      unfold IsAngle
      rw [angle_eq, deg2rad_90, Real.cos_pi_div_two, Real.sin_pi_div_two, mul_zero, mul_one]
      exact ⟨rfl, by rw [zero_pow two_ne_zero, zero_add, Real.sqrt_sq hw'.le]⟩
    · rw [if_neg hw']
      refine ⟨-90, ?_, by norm_num, by norm_num, rfl⟩
      unfold IsAngle
      have : deg2rad (-90) = -(Real.pi / 2) := by rw [deg2rad]; ring
      rw [angle_eq, this, Real.cos_neg, Real.sin_neg, Real.cos_pi_div_two, Real.sin_pi_div_two,
        mul_zero]
      refine ⟨rfl, ?_⟩
      have hw2 : w ≤ 0 := not_lt.1 hw'
      rw [zero_pow two_ne_zero, zero_add, ← neg_sq, Real.sqrt_sq (by linarith)]
      ring
  · simp only [if_neg hu, Option.map_some]
    obtain ⟨hl, hr⟩ := arctan_range (w / u)
    by_cases hn : u < 0
    · have hd : (-w) / (-u) = w / u := neg_div_neg_eq w u
      have ha := isAngle_arctan (u := -u) (w := -w) (by linarith)
      rw [hd] at ha
      have ha := isAngle_neg ha
      simp only [if_pos hn]
      by_cases hw : 0 < w
      · simp only [if_pos hw]
        have : w / u < 0 := div_neg_of_pos_of_neg hw hn
        have h0 : rad2deg (Real.arctan (w / u)) ≤ 0 := by
          have := (Real.arctan_lt_zero.2 this).le
          unfold rad2deg
          have hp := Real.pi_pos
          rw [div_mul_eq_mul_div, div_le_iff₀ hp]; linarith
        exact ⟨_, ha, by linarith, by linarith, rfl⟩
      · simp only [if_neg hw]
        have : 0 ≤ w / u := div_nonneg_of_nonpos (not_lt.1 hw) hn.le
        have h0 : 0 ≤ rad2deg (Real.arctan (w / u)) := by
          have := Real.arctan_nonneg.2 this
          unfold rad2deg
          have hp := Real.pi_pos
          positivity
        refine ⟨_, ?_, by linarith, by linarith, rfl⟩
        have := isAngle_add_full (-1) ha
        have e : rad2deg (Real.arctan (w / u)) + 180 + 360 * ((-1 : ℤ) : ℝ) =
            rad2deg (Real.arctan (w / u)) - 180 := by push_cast; ring
        rwa [e] at this
    · simp only [if_neg hn]
      have hp : 0 < u := lt_of_le_of_ne (not_lt.1 hn) (Ne.symm hu)
      exact ⟨_, isAngle_arctan hp, by linarith, by linarith, rfl⟩

end MiniCFD.Rotor
