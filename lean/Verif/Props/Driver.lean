import Verif.Spec.Driver
import Verif.Lemmas.RK
import Verif.Props.Parallel
import Mathlib.Algebra.CharZero.Defs
import Mathlib.Data.Nat.Cast.Basic
import Mathlib.Tactic.FieldSimp
import Mathlib.Tactic.Ring
import Mathlib.Tactic.NormNum

/-! C79: runs and restarts.  C80: forces.  C81: balances over a run. -/

namespace MiniCFD.Driver

open MiniCFD.Spec.Driver MiniCFD.RK

variable {F V : Type*} [Field F]

/-! ### C79 -/

/-- What a loop over `m` steps leaves behind. -/
theorem loop_prefix (c : Config F) (hp : 0 < c.perFrame) (step : F → V → V) (s : State V) (m : Nat) :
    (List.range' 1 m).foldl (iterate c step) s =
      ⟨after step c.tStart c.dt s.sol m, s.frame + m / c.perFrame,
        s.files ++ (List.range (m / c.perFrame)).map fun j =>
          (s.frame + j + 1, after step c.tStart c.dt s.sol ((j + 1) * c.perFrame))⟩ := by
  induction m with
  | zero => simp [after]
  | succ m ih =>
    rw [List.range'_1_concat, List.foldl_append, ih, List.foldl_cons, List.foldl_nil]
    unfold iterate
    have e : (1 + m - 1 : Nat) = m := by omega
    simp only [e]
    by_cases hm : (1 + m) % c.perFrame = 0
    · rw [if_pos hm]
      have hd : (m + 1) / c.perFrame = m / c.perFrame + 1 := by
        rw [Nat.succ_div, if_pos (Nat.dvd_of_mod_eq_zero (by rw [Nat.add_comm]; exact hm))]
      have hmul : (m / c.perFrame + 1) * c.perFrame = m + 1 := by
        rw [← hd]
        exact Nat.div_mul_cancel (Nat.dvd_of_mod_eq_zero (by rw [Nat.add_comm]; exact hm))
      rw [hd, List.range_succ, List.map_append, List.map_cons, List.map_nil, hmul]
      simp only [after, List.append_assoc, Nat.add_assoc]
    · rw [if_neg hm]
      have hd : (m + 1) / c.perFrame = m / c.perFrame := by
        rw [Nat.succ_div, if_neg fun h => hm (by rw [Nat.add_comm]; exact Nat.mod_eq_zero_of_dvd h), Nat.add_zero]
      rw [hd]
      simp only [after]

/-- **C79** A run writes as many frames as asked for, numbered on from `i_frame_start`; each holds the solution after a
whole number of steps per frame. -/
theorem loop_frames (c : Config F) (hp : 0 < c.perFrame) (step : F → V → V) (s : State V) :
    loop c step s = ⟨after step c.tStart c.dt s.sol c.steps, s.frame + c.frames,
      s.files ++ (List.range c.frames).map fun j =>
        (s.frame + j + 1, after step c.tStart c.dt s.sol ((j + 1) * c.perFrame))⟩ := by
  unfold loop
  rw [loop_prefix c hp, Config.steps, Nat.mul_div_cancel _ hp]

/-- **C79** The frames are equidistant in time; the last one is at `t_stop`. -/
theorem frame_times [CharZero F] (c : Config F) (hp : 0 < c.perFrame) (hf : 0 < c.frames) (j : Nat) :
    c.tStart + c.dt * ((j * c.perFrame : Nat) : F) = frameTime c.tStart c.tStop c.frames j ∧
    frameTime c.tStart c.tStop c.frames c.frames = c.tStop := by
  have h1 : (c.perFrame : F) ≠ 0 := Nat.cast_ne_zero.2 hp.ne'
  have h2 : (c.frames : F) ≠ 0 := Nat.cast_ne_zero.2 hf.ne'
  unfold frameTime Config.dt Config.steps
  push_cast
  constructor
  · field_simp
  · field_simp
    ring

/-- Steps taken in two portions. -/
theorem after_add (step : F → V → V) (t dt : F) (u : V) (a b : Nat) :
    after step t dt u (a + b) = after step (t + dt * (a : F)) dt (after step t dt u a) b := by
  induction b with
  | zero => rfl
  | succ b ih =>
    rw [← Nat.add_assoc, after, after, ih]
    congr 1
    push_cast
    ring

theorem lookup_append {files : List (Nat × V)} {a : Nat × V} {i : Nat} :
    lookup (files ++ [a]) i = if a.1 = i then some a.2 else lookup files i := by
  unfold lookup
  rw [List.reverse_append, List.reverse_singleton, List.singleton_append, List.find?_cons]
  by_cases h : a.1 = i <;> simp [h]

/-- Frames can be found again. -/
theorem lookup_frames {files : List (Nat × V)} (f : Nat → V) (k m j : Nat) :
    lookup (files ++ (List.range m).map fun j => (k + j + 1, f (j + 1))) (k + j) =
      if 0 < j ∧ j ≤ m then some (f j) else lookup files (k + j) := by
  induction m with
  | zero =>
    rw [if_neg (by omega)]
    simp
  | succ m ih =>
    rw [List.range_succ, List.map_append, List.map_cons, List.map_nil, ← List.append_assoc, lookup_append, ih]
    by_cases h : k + m + 1 = k + j
    · have : j = m + 1 := by omega
      subst this
      simp [Nat.add_assoc]
    · rw [if_neg h]
      by_cases h' : 0 < j ∧ j ≤ m
      · rw [if_pos h', if_pos (by omega)]
      · rw [if_neg h', if_neg (by omega)]

/-- **C79** A run that is stopped at a frame and started again from it writes the frames of a run that was not stopped:
the first run ends where the second one starts, and both take steps of the same size as the whole. -/
theorem stop_and_go [CharZero F] (step : F → V → V) (init : V) (a b : Config F) (hp : 0 < a.perFrame)
    (hper : b.perFrame = a.perFrame) (hat : b.tStart = a.tStop) (hframe : b.frame0 = a.frames) (h0 : a.frame0 = 0)
    (ha : 0 < a.frames) (hdt : b.dt = a.dt) :
    let whole : Config F := ⟨a.tStart, b.tStop, a.perFrame, a.frames + b.frames, 0⟩
    whole.dt = a.dt → restart b step (fresh a step init).files = some (fresh whole step init) := by
  intro whole hw
  have hend : a.tStart + a.dt * (a.steps : F) = b.tStart := by
    have := frame_times a hp ha a.frames
    rw [Config.steps, this.1, this.2, hat]
  unfold restart fresh
  rw [loop_frames a hp]
  have hl : lookup ([(0, init)] ++ (List.range a.frames).map fun j =>
      (a.frame0 + j + 1, after step a.tStart a.dt init ((j + 1) * a.perFrame))) b.frame0 =
      some (after step a.tStart a.dt init a.steps) := by
    have := lookup_frames (files := [(0, init)]) (fun j => after step a.tStart a.dt init (j * a.perFrame)) a.frame0
      a.frames a.frames
    rw [h0, Nat.zero_add, if_pos ⟨ha, le_refl _⟩] at this
    rw [h0, hframe, this, Config.steps]
  simp only [Option.bind_eq_bind]
  rw [hl, Option.bind_some, loop_frames b (by rw [hper]; exact hp), loop_frames whole hp]
  congr 1
  have hsteps : whole.steps = a.steps + b.steps := by
    simp only [whole, Config.steps, hper, Nat.add_mul]
  rw [State.mk.injEq]
  refine ⟨?_, ?_, ?_⟩
  · show after step b.tStart b.dt (after step a.tStart a.dt init a.steps) b.steps =
      after step whole.tStart whole.dt init whole.steps
    rw [hsteps, hw, after_add, hend, hdt]
  · show b.frame0 + b.frames = 0 + (a.frames + b.frames)
    rw [hframe, Nat.zero_add]
  · show _ = [(0, init)] ++ (List.range (a.frames + b.frames)).map _
    rw [List.range_add, List.map_append, List.append_assoc]
    congr 1
    congr 1
    · refine List.map_congr_left fun j _ => ?_
      simp only [whole] at hw ⊢
      rw [h0, hw]
    · rw [List.map_map]
      refine List.map_congr_left fun j _ => ?_
      show (b.frame0 + j + 1, after step b.tStart b.dt (after step a.tStart a.dt init a.steps) ((j + 1) * b.perFrame)) =
        (0 + (a.frames + j) + 1, after step a.tStart whole.dt init ((a.frames + j + 1) * a.perFrame))
      rw [hframe, Nat.zero_add, hw, hdt, hper]
      have : (a.frames + j + 1) * a.perFrame = a.steps + (j + 1) * a.perFrame := by
        rw [Config.steps, Nat.add_assoc, Nat.add_mul]
      rw [this, after_add, hend]

/-- Three frames of two steps each, stopped after the first: `step` adds the time. -/
example : ∃ s, restart ⟨2, 6, 2, 2, 1⟩ (fun t (u : ℚ) => u + t) (fresh ⟨0, 2, 2, 1, 0⟩ (fun t u => u + t) 0).files = some s ∧
    s.files = [(0, 0), (1, 1), (2, 6), (3, 15)] := by
  refine ⟨_, stop_and_go (fun t (u : ℚ) => u + t) 0 ⟨0, 2, 2, 1, 0⟩ ⟨2, 6, 2, 2, 1⟩ (by decide) rfl rfl rfl rfl (by decide)
    (by norm_num [Config.dt, Config.steps]) (by norm_num [Config.dt, Config.steps]), ?_⟩
  rw [fresh, loop_frames _ (by decide)]
  simp [after, Config.dt, Config.steps, List.range_succ]
  norm_num

/-! ### C80 -/

/-- The skipping loop stops at the next multiple. -/
theorem skip_spec {p : Nat} (hp : 0 < p) (j d : Nat) (hd : d < p) (fuel : Nat) (hf : d ≤ fuel) :
    skip p fuel ((j + 1) * p - d) = (j + 1) * p := by
  induction d generalizing fuel with
  | zero =>
    cases fuel with
    | zero => rfl
    | succ fuel => simp [skip]
  | succ d ih =>
    cases fuel with
    | zero => omega
    | succ fuel =>
      have hle : p ≤ (j + 1) * p := Nat.le_mul_of_pos_left p (Nat.succ_pos j)
      have hne : ((j + 1) * p - (d + 1)) % p ≠ 0 := by
        have e : (j + 1) * p - (d + 1) = j * p + (p - (d + 1)) := by
          rw [Nat.add_mul, Nat.one_mul]; omega
        rw [e, Nat.mul_add_mod_self_right, Nat.mod_eq_of_lt (by omega)]
        omega
      unfold skip
      rw [if_neg hne]
      have : (j + 1) * p - (d + 1) + 1 = (j + 1) * p - d := by omega
      rw [this]
      exact ih (by omega) fuel (by omega)

theorem forcesLoop_spec (c : Config F) (hp : 0 < c.perFrame) (files : List (Nat × V)) (f : Nat → V) (k : Nat)
    (hf : ∀ j, j < c.frames → lookup files (k + j + 1) = some (f (j + 1))) (m j fuel : Nat) (hm : j + m = c.frames)
    (hfuel : m < fuel) :
    forcesLoop c files fuel (j * c.perFrame + 1) (k + j) = some ((List.range' j m).map fun j =>
      (k + j + 1, c.tStart + c.dt * ((j * c.perFrame : Nat) : F), f (j + 1))) := by
  induction m generalizing j fuel with
  | zero =>
    obtain ⟨fuel, rfl⟩ : ∃ n, fuel = n + 1 := ⟨fuel - 1, by omega⟩
    have : c.steps < j * c.perFrame + 1 := by
      rw [Config.steps, ← hm, Nat.add_zero]; omega
    simp [forcesLoop, this]
  | succ m ih =>
    obtain ⟨fuel, rfl⟩ : ∃ n, fuel = n + 1 := ⟨fuel - 1, by omega⟩
    have hlt : ¬c.steps < j * c.perFrame + 1 := by
      have : (j + 1) * c.perFrame ≤ c.frames * c.perFrame := Nat.mul_le_mul_right _ (by omega)
      rw [Config.steps]
      rw [Nat.add_mul] at this
      omega
    have hskip : skip c.perFrame c.perFrame (j * c.perFrame + 1) = (j + 1) * c.perFrame := by
      have := skip_spec hp j (c.perFrame - 1) (by omega) c.perFrame (by omega)
      rw [← this]
      congr 1
      rw [Nat.add_mul]
      omega
    unfold forcesLoop
    rw [if_neg hlt]
    simp only [hskip, hf j (by omega), Option.bind_some, Nat.add_sub_cancel]
    have := ih (j + 1) fuel (by omega) (by omega)
    rw [← Nat.add_assoc] at this
    rw [this, List.range'_succ, List.map_cons]
    simp

/-- **C80** (partial) With `--write_forces` there is one file of forces for each frame, and each is computed from the
solution in that frame.  The full claim, that they are the forces at the time of the frame, is false: see `forces_late`. -/
theorem forces_partial (c : Config F) (hp : 0 < c.perFrame) (files : List (Nat × V)) (f : Nat → V)
    (hf : ∀ j, j ≤ c.frames → lookup files (c.frame0 + j) = some (f j)) :
    forces c files = some ((c.frame0, c.tStart, f 0) :: (List.range c.frames).map fun j =>
      (c.frame0 + j + 1, c.tStart + c.dt * ((j * c.perFrame : Nat) : F), f (j + 1))) := by
  have h0 := hf 0 (Nat.zero_le _)
  rw [Nat.add_zero] at h0
  have hfuel : c.frames < c.steps + 1 := by
    have : c.frames ≤ c.frames * c.perFrame := Nat.le_mul_of_pos_right _ hp
    rw [Config.steps]; omega
  have := forcesLoop_spec c hp files f c.frame0 (fun j hj => hf (j + 1) hj) c.frames 0 (c.steps + 1) (by omega) hfuel
  rw [Nat.zero_mul, Nat.zero_add, Nat.add_zero] at this
  unfold forces
  rw [h0, Option.bind_some, List.range_eq_range']
  exact congrArg (Option.map _) this

/-- **C80** The forces written for every frame but the first are those at the time of the frame before it. -/
theorem forces_late [CharZero F] (c : Config F) (hp : 0 < c.perFrame) (hc : 0 < c.frames) (ht : c.tStop ≠ c.tStart)
    (files : List (Nat × V)) (f : Nat → V) (hf : ∀ j, j ≤ c.frames → lookup files (c.frame0 + j) = some (f j)) :
    ∃ l, forces c files = some l ∧ ∀ j, j < c.frames →
      l[j + 1]? = some (c.frame0 + j + 1, frameTime c.tStart c.tStop c.frames j, f (j + 1)) ∧
      frameTime c.tStart c.tStop c.frames j ≠ frameTime c.tStart c.tStop c.frames (j + 1) := by
  refine ⟨_, forces_partial c hp files f hf, fun j hj => ⟨?_, ?_⟩⟩
  · rw [List.getElem?_cons_succ, List.getElem?_map, List.getElem?_range hj, Option.map_some,
      (frame_times c hp hc j).1]
  · intro h
    unfold frameTime at h
    have h1 : (c.frames : F) ≠ 0 := Nat.cast_ne_zero.2 hc.ne'
    field_simp at h
    push_cast at h
    have : c.tStop - c.tStart = 0 := by linear_combination -h
    exact ht (sub_eq_zero.1 this)

/-- Two frames, at times 0, 1, 2: forces are written for times 0, 0, 1. -/
example : ∃ l, forces ⟨(0 : ℚ), 2, 3, 2, 0⟩ [(0, "a"), (1, "b"), (2, "c")] = some l ∧
    l[0]? = some (0, 0, "a") ∧ l[1]? = some (1, 0, "b") ∧ l[2]? = some (2, 1, "c") := by
  refine ⟨_, forces_partial ⟨(0 : ℚ), 2, 3, 2, 0⟩ (by decide) _ (fun j => ["a", "b", "c"].getD j "") ?_, rfl, ?_, ?_⟩
  · intro j hj
    have hj : j ≤ 2 := hj
    interval_cases j <;> rfl
  · simp [Config.dt, Config.steps]
  · simp [Config.dt, Config.steps, List.range_succ]
    norm_num

end MiniCFD.Driver
