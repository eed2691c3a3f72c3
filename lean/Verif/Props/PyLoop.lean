import Verif.Lemmas.PyLoop
import Mathlib.Tactic.NormNum
import Mathlib.Tactic.IntervalCases
import Mathlib.Data.Rat.Cast.Order

/-! C83, C84: the time loop of the Python solver. -/

namespace MiniCFD.PyLoop

variable {K U N : Type*} [Field K] [LinearOrder K] [IsStrictOrderedRing K]

/-- Frames and steps from any time on. -/
theorem frames_spec (S : Scheme K U N) {dtMax dtf : K} (h0 : 0 ≤ dtf) (fuel : Nat) (n : Nat) :
    ∀ (t : K) (u : U) (nu : N) q, frames S dtMax dtf fuel n t u nu = some q →
      (q.1.map Prod.fst) = ((List.range (n + 1)).map fun (i : Nat) => t + (i : K) * dtf) ∧
      (q.1.head? = some (t, u)) ∧ Covers S dtMax t (t + n * dtf) q.2 := by
  induction n with
  | zero =>
    intro t u nu q h
    cases h
    refine ⟨by simp, rfl, ?_⟩
    simpa using covers_nil S dtMax t
  | succ n ih =>
    intro t u nu q h
    simp only [frames, Option.bind_eq_some_iff, Option.map_eq_some_iff] at h
    obtain ⟨r, hr, q', hq, rfl⟩ := h
    obtain ⟨h1, h2⟩ := inner_spec S true dtMax (t + dtf) fuel t u nu r (by linarith) hr
    rw [h1] at hq
    obtain ⟨h3, h4, h5⟩ := ih _ _ _ q' hq
    refine ⟨?_, rfl, ?_⟩
    · rw [List.map_cons, h3, List.range_succ_eq_map (n := n + 1), List.map_cons, List.map_map]
      refine congrArg₂ _ (by simp) (List.map_congr_left fun i _ => ?_)
      simp only [Function.comp_apply, Nat.succ_eq_add_one, Nat.cast_add, Nat.cast_one]
      ring
    · have e : t + dtf + n * dtf = t + ((n + 1 : ℕ) : K) * dtf := by push_cast; ring
      rw [e] at h5
      exact covers_append h2 h5

/-- C83.  A finished run has written `nFrame + 1` frames, the `i`-th at
`tStart + i (tStop - tStart) / nFrame`; its steps follow each other from `tStart` to `tStop` without
gap or overlap, and none is longer than `(tStop - tStart) / nStep` or than what any element suggested
for the column it started from. -/
theorem run_covers (S : Scheme K U N) {tStart tStop : K} (h : tStart ≤ tStop) {nStep nFrame : Nat}
    (hf : 0 < nFrame) {fuel : Nat} {u0 : U} {nu0 : N} {q}
    (hq : solveAndWrite S tStart tStop nStep nFrame fuel u0 nu0 = some q) :
    q.1.map Prod.fst = ((List.range (nFrame + 1)).map fun (i : Nat) =>
      tStart + (i : K) * ((tStop - tStart) / nFrame)) ∧
    q.1.head? = some (tStart, u0) ∧
    q.1.getLast?.map Prod.fst = some tStop ∧
    Covers S ((tStop - tStart) / nStep) tStart tStop q.2 := by
  have hn : (0 : K) < nFrame := by exact_mod_cast hf
  have h0 : 0 ≤ (tStop - tStart) / nFrame := div_nonneg (by linarith) hn.le
  obtain ⟨h1, h2, h3⟩ := frames_spec S h0 fuel nFrame _ _ _ q hq
  have e : tStart + nFrame * ((tStop - tStart) / nFrame) = tStop := by field_simp; ring
  refine ⟨h1, h2, ?_, by rwa [e] at h3⟩
  rw [← List.getLast?_map, h1, List.range_succ, List.map_append]
  simp [e]

theorem frames_end (S : Scheme K U N) {dtMax dtf δ : K} (hd : 0 < δ) (hm : δ ≤ dtMax) (h0 : 0 ≤ dtf)
    (hS : ∀ u nu, ∀ x ∈ S.elements u nu, δ ≤ x) {fuel : Nat} (hf : dtf ≤ fuel * δ) (n : Nat) :
    ∀ (t : K) (u : U) (nu : N), ∃ q, frames S dtMax dtf fuel n t u nu = some q := by
  induction n with
  | zero => intro t u nu; exact ⟨_, rfl⟩
  | succ n ih =>
    intro t u nu
    obtain ⟨r, hr⟩ := inner_ends S true hd hm hS fuel (tNext := t + dtf) t u nu (by linarith)
    obtain ⟨q, hq⟩ := ih r.1 r.2.1 r.2.2.1
    exact ⟨((t, u) :: q.1, r.2.2.2 ++ q.2), by
      simp only [frames, hr, Option.bind_some, hq, Option.map_some]⟩

/-- C83.  If no element ever suggests a step below some `δ > 0`, the run finishes, and the number of
steps per frame is at most the first integer above `(tStop - tStart) / nFrame / δ`. -/
theorem run_ends (S : Scheme K U N) {tStart tStop δ : K} (h : tStart ≤ tStop) {nStep nFrame : Nat}
    (hd : 0 < δ) (hm : δ ≤ (tStop - tStart) / nStep)
    (hS : ∀ u nu, ∀ x ∈ S.elements u nu, δ ≤ x) {fuel : Nat}
    (hfuel : (tStop - tStart) / nFrame ≤ fuel * δ) (u0 : U) (nu0 : N) :
    ∃ q, solveAndWrite S tStart tStop nStep nFrame fuel u0 nu0 = some q :=
  frames_end S hd hm (div_nonneg (by linarith) (by positivity)) hS hfuel _ _ _ _

/-- The suggestion of an element is positive and respects the limits for convection and for
diffusion, for every degree up to eight. -/
theorem blazek_bounds (fr : Bool) {p : Nat} (hp : p ≤ 8) {h lc ld : K} (hh : 0 < h) (hd : 0 ≤ ld) :
    ∃ c dt, cfl fr p = some c ∧ 0 < c ∧ blazek fr p h lc ld = some dt ∧ 0 < dt ∧
      dt * lc ≤ c * h ∧ dt * (factor p * ld) ≤ c * h := by
  have hc : ∃ c : K, cfl fr p = some c ∧ 0 < c := by
    have aux : ∀ q : ℚ, 0 < q → cflTable[p]? = some q → ∃ c : K, cfl fr p = some c ∧ 0 < c := by
      intro q hq he
      have : (0 : K) < (q : K) := by exact_mod_cast hq
      cases fr
      · exact ⟨q, by simp [cfl, he], this⟩
      · exact ⟨2 * q, by simp [cfl, he], by linarith⟩
    interval_cases p <;> exact aux _ (by norm_num) rfl
  obtain ⟨c, hc, hc0⟩ := hc
  have hm : (0 : K) < max lc ((1 / 10 ^ 16 : ℚ) : K) := by
    refine lt_max_of_lt_right ?_
    have : (0 : ℚ) < 1 / 10 ^ 16 := by positivity
    exact_mod_cast this
  have hl := le_max_left lc ((1 / 10 ^ 16 : ℚ) : K)
  have hf : (0 : K) ≤ factor p * ld := mul_nonneg (by positivity) hd
  have hb : blazek fr p h lc ld =
      some (h / (max lc ((1 / 10 ^ 16 : ℚ) : K) + factor p * ld) * c) := by
    simp only [blazek, hc, Option.map_some]
  refine ⟨c, _, hc, hc0, hb, ?_, ?_, ?_⟩ <;>
    generalize max lc ((1 / 10 ^ 16 : ℚ) : K) = m at hm hl hb ⊢ <;>
    generalize (factor p : K) * ld = f at hf hb ⊢
  · positivity
  · rw [div_mul_eq_mul_div, div_mul_eq_mul_div, div_le_iff₀ (by positivity)]
    have : 0 < h * c := by positivity
    nlinarith
  · rw [div_mul_eq_mul_div, div_mul_eq_mul_div, div_le_iff₀ (by positivity)]
    have : 0 < h * c := by positivity
    nlinarith

omit [Field K] [LinearOrder K] [IsStrictOrderedRing K] in
/-- The factor of the diffusive limit grows at least like `p (p + 1)` and never vanishes. -/
theorem factor_grows (p : Nat) : 1 ≤ factor p ∧ p * (p + 1) ≤ factor p ∧ factor p ≤ factor (p + 1) := by
  by_cases h : p ≤ 7
  · interval_cases p <;> decide
  · have e : ∀ q, 7 ≤ q → factor q = 3 * q ^ 2 := by
      intro q hq
      simp only [factor]
      repeat rw [if_neg (by omega)]
    rw [e p (by omega), e (p + 1) (by omega)]
    refine ⟨?_, ?_, ?_⟩ <;> nlinarith

/-- So a diffusive step is at most of the size `h / (p (p + 1) λ)`. -/
theorem blazek_diffusive (fr : Bool) {p : Nat} (hp : p ≤ 8) {h lc ld : K} (hh : 0 < h) (hd : 0 ≤ ld) :
    ∃ c dt, cfl fr p = some c ∧ blazek fr p h lc ld = some dt ∧
      dt * ld ≤ c * h ∧ dt * (p * (p + 1) * ld) ≤ c * h := by
  obtain ⟨c, dt, h1, _, h3, h4, _, h6⟩ := blazek_bounds fr hp (lc := lc) hh hd
  obtain ⟨f1, f2, _⟩ := factor_grows p
  have g1 : (1 : K) ≤ factor p := by exact_mod_cast f1
  have g2 : (p : K) * (p + 1) ≤ factor p := by exact_mod_cast f2
  refine ⟨c, dt, h1, h3, le_trans ?_ h6, le_trans ?_ h6⟩
  · exact mul_le_mul_of_nonneg_left (by nlinarith) h4.le
  · exact mul_le_mul_of_nonneg_left (mul_le_mul_of_nonneg_right g2 hd) h4.le

/-- Above degree eight there is no suggestion: the table lookup raises. -/
theorem blazek_out_of_range (fr : Bool) {p : Nat} (hp : 9 ≤ p) (h lc ld : K) :
    blazek fr p h lc ld = none := by
  have : cflTable[p]? = none := List.getElem?_eq_none (by simpa [cflTable] using hp)
  simp [blazek, cfl, this]

/-! ### C84 -/

omit [IsStrictOrderedRing K] in
theorem inner_fresh (S : Scheme K U N) (dtMax tNext : K) (fuel : Nat) :
    ∀ (t : K) (u : U) r, inner S true dtMax tNext fuel t u (S.generate u) = some r →
      r.2.2.1 = S.generate r.2.1 ∧ ∀ e ∈ r.2.2.2, e.2.1 = S.generate e.1 := by
  induction fuel with
  | zero =>
    intro t u r h
    unfold inner at h
    split at h
    · simp at h
    · cases h; exact ⟨rfl, by simp⟩
  | succ fuel ih =>
    intro t u r h
    unfold inner at h
    split at h
    · simp only [Option.map_eq_some_iff, if_true] at h
      obtain ⟨r', hr, rfl⟩ := h
      obtain ⟨h1, h2⟩ := ih _ _ r' hr
      refine ⟨h1, fun e he => ?_⟩
      rcases List.mem_cons.1 he with rfl | he
      · rfl
      · exact h2 e he
    · cases h; exact ⟨rfl, by simp⟩

omit [IsStrictOrderedRing K] in
/-- C84.  In `solve_and_write` every step uses the viscosity that the model generates for the column
the step starts from. -/
theorem viscosity_fresh_partial (S : Scheme K U N) {tStart tStop : K} {nStep nFrame fuel : Nat} {u0 : U}
    {nu0 : N} {q} (hq : solveAndWrite S tStart tStop nStep nFrame fuel u0 nu0 = some q) :
    ∀ e ∈ q.2, e.2.1 = S.generate e.1 := by
  have key : ∀ dtMax dtf n (t : K) (u : U) q,
      frames S dtMax dtf fuel n t u (S.generate u) = some q → ∀ e ∈ q.2, e.2.1 = S.generate e.1 := by
    intro dtMax dtf n
    induction n with
    | zero => intro t u q h; cases h; simp
    | succ n ih =>
      intro t u q h
      simp only [frames, Option.bind_eq_some_iff, Option.map_eq_some_iff] at h
      obtain ⟨r, hr, q', hq', rfl⟩ := h
      obtain ⟨h1, h2⟩ := inner_fresh S dtMax (t + dtf) fuel t u r hr
      rw [h1] at hq'
      intro e he
      rcases List.mem_append.1 he with he | he
      · exact h2 e he
      · exact ih _ _ q' hq' e he
  exact key _ _ _ _ _ q hq

omit [IsStrictOrderedRing K] in
theorem inner_stale (S : Scheme K U N) (dtMax tNext : K) (nu : N) (fuel : Nat) :
    ∀ (t : K) (u : U) r, inner S false dtMax tNext fuel t u nu = some r →
      r.2.2.1 = nu ∧ ∀ e ∈ r.2.2.2, e.2.1 = nu := by
  induction fuel with
  | zero =>
    intro t u r h
    unfold inner at h
    split at h
    · simp at h
    · cases h; exact ⟨rfl, by simp⟩
  | succ fuel ih =>
    intro t u r h
    unfold inner at h
    split at h
    · simp only [Option.map_eq_some_iff, Bool.false_eq_true, if_false] at h
      obtain ⟨r', hr, rfl⟩ := h
      obtain ⟨h1, h2⟩ := ih _ _ r' hr
      refine ⟨h1, fun e he => ?_⟩
      rcases List.mem_cons.1 he with rfl | he
      · rfl
      · exact h2 e he
    · cases h; exact ⟨rfl, by simp⟩

omit [IsStrictOrderedRing K] in
/-- C84, refuted for `animate`: all its steps use the viscosity the elements were born with, which is
none. -/
theorem animate_stale (S : Scheme K U N) {tStart tStop : K} {nStep nFrame fuel : Nat} {u0 : U}
    {nu0 : N} {q} (hq : animate S tStart tStop nStep nFrame fuel u0 nu0 = some q) :
    ∀ e ∈ q.2, e.2.1 = nu0 := by
  have key : ∀ dtMax dtf (ts : List K) (u : U) q,
      animateFrom S dtMax dtf tStop fuel ts u nu0 = some q → ∀ e ∈ q.2, e.2.1 = nu0 := by
    intro dtMax dtf ts
    induction ts with
    | nil => intro u q h; cases h; simp
    | cons t ts ih =>
      intro u q h
      simp only [animateFrom, Option.bind_eq_some_iff, Option.map_eq_some_iff] at h
      obtain ⟨r, hr, q', hq', rfl⟩ := h
      obtain ⟨h1, h2⟩ := inner_stale S dtMax _ nu0 fuel t u r hr
      rw [h1] at hq'
      intro e he
      rcases List.mem_append.1 he with he | he
      · exact h2 e he
      · exact ih _ q' hq' e he
  exact key _ _ _ _ q hq

/-- Apart from the viscosity `animate` steps as it should: from `tStart` to `tStop` without gap or
overlap, within all limits, drawing the frames at the same times. -/
theorem animate_covers (S : Scheme K U N) {tStart tStop : K} (h : tStart ≤ tStop) {nStep nFrame : Nat}
    (hf : 0 < nFrame) {fuel : Nat} {u0 : U} {nu0 : N} {q}
    (hq : animate S tStart tStop nStep nFrame fuel u0 nu0 = some q) :
    q.1.map Prod.fst = ((List.range (nFrame + 1)).map fun (i : Nat) =>
      tStart + (i : K) * ((tStop - tStart) / nFrame)) ∧
    Covers S ((tStop - tStart) / nStep) tStart tStop q.2 := by
  have hn : (0 : K) < nFrame := by exact_mod_cast hf
  set dtf := (tStop - tStart) / nFrame with hdtf
  have h0 : 0 ≤ dtf := div_nonneg (by linarith) hn.le
  have e : tStart + nFrame * dtf = tStop := by rw [hdtf]; field_simp; ring
  have key : ∀ (n k : Nat), n + k = nFrame → ∀ (u : U) (nu : N) q,
      animateFrom S ((tStop - tStart) / nStep) dtf tStop fuel
        ((List.range' k (n + 1)).map fun (i : Nat) => tStart + (i : K) * dtf) u nu = some q →
      q.1.map Prod.fst = ((List.range' k (n + 1)).map fun (i : Nat) => tStart + (i : K) * dtf) ∧
      Covers S ((tStop - tStart) / nStep) (tStart + k * dtf) tStop q.2 := by
    intro n
    induction n with
    | zero =>
      intro k hk u nu q h
      have hk : k = nFrame := by omega
      subst hk
      simp only [List.range'_succ, List.range'_zero, List.map_cons, List.map_nil, animateFrom,
        Option.bind_eq_some_iff, Option.map_eq_some_iff, Option.some.injEq] at h
      obtain ⟨r, hr, q', rfl, rfl⟩ := h
      rw [e, min_eq_left (by linarith)] at hr
      obtain ⟨h1, h2⟩ := inner_spec S false _ tStop fuel tStop u nu r le_rfl hr
      refine ⟨by simp, ?_⟩
      rw [e]
      simpa using h2
    | succ n ih =>
      intro k hk u nu q h
      rw [List.range'_succ] at h ⊢
      simp only [List.map_cons, animateFrom, Option.bind_eq_some_iff, Option.map_eq_some_iff] at h
      obtain ⟨r, hr, q', hq', rfl⟩ := h
      have hkn : ((k : K) + 1) ≤ nFrame := by
        have : k + 1 ≤ nFrame := by omega
        exact_mod_cast this
      have e2 : tStart + k * dtf + dtf = tStart + ((k + 1 : ℕ) : K) * dtf := by push_cast; ring
      have hle : tStart + ((k + 1 : ℕ) : K) * dtf ≤ tStop := by
        rw [← e]; push_cast
        have := mul_le_mul_of_nonneg_right hkn h0
        linarith
      rw [e2, min_eq_right hle, ← e2] at hr
      obtain ⟨h1, h2⟩ := inner_spec S false _ _ fuel _ u nu r (by linarith) hr
      obtain ⟨h3, h4⟩ := ih (k + 1) (by omega) _ _ q' hq'
      refine ⟨by rw [List.map_cons, h3, List.map_cons], ?_⟩
      rw [e2] at h2
      exact covers_append h2 h4
  have := key nFrame 0 rfl u0 nu0 q (by rw [← List.range_eq_range']; exact hq)
  simp only [Nat.cast_zero, zero_mul, add_zero, ← List.range_eq_range'] at this
  exact this

/-! Concrete cases. -/

/-- Decay at the rate the viscosity says; elements ask for a quarter of a unit of time. -/
def decay : Scheme ℚ ℚ ℚ where
  elements _ _ := [1 / 2, 1 / 4]
  step u nu dt _ := u - dt * nu * u
  generate _ := 1

/-- The two drivers of the same scheme give different final solutions. -/
example : (solveAndWrite decay 0 1 2 2 10 1 0).map (fun q => q.1.map Prod.snd) = some [1, 9/16, 81/256] ∧
    (animate decay 0 1 2 2 10 1 0).map (fun q => q.1.map Prod.snd) = some [1, 1, 1] := by
  decide +kernel

example : ∃ q, solveAndWrite decay 0 1 2 2 2 1 0 = some q :=
  run_ends decay (δ := 1 / 4) (by norm_num) (by norm_num) (by norm_num)
    (by intro u nu x hx; simp [decay] at hx; rcases hx with rfl | rfl <;> norm_num) (by norm_num) 1 0

/-- Elements that ask for half of the remaining time keep the loop running for ever, so a lower
bound is needed. -/
def zeno : Scheme ℚ ℚ Unit where
  elements u _ := [u / 2]
  step u _ _ _ := u / 2
  generate _ := ()

example (fuel : Nat) : ∀ t u : ℚ, 0 < u → u ≤ 1 → t = 1 - u →
    inner zeno true 1 1 fuel t u () = none := by
  induction fuel with
  | zero => intro t u hu _ ht; unfold inner; rw [if_pos (by linarith)]
  | succ fuel ih =>
    intro t u hu h1 ht
    unfold inner
    rw [if_pos (by linarith)]
    simp only [Option.map_eq_none_iff]
    have e : min 1 (suggest (zeno.elements u ()) (1 - t)) = u / 2 := by
      simp only [zeno, suggest, List.foldl_cons, List.foldl_nil]
      rw [min_eq_right (by linarith : u / 2 ≤ 1 - t), min_eq_right (by linarith)]
    have e' : suggest (zeno.elements u (if true = true then zeno.generate u else ())) (1 - t) =
        suggest (zeno.elements u ()) (1 - t) := rfl
    rw [e', e]
    exact ih _ _ (by simp only [zeno]; linarith) (by simp only [zeno]; linarith)
      (by simp only [zeno]; linarith)

example : blazek (K := ℚ) false 1 (1 / 10) 1 0 = some (409 / 10000) := by decide +kernel

end MiniCFD.PyLoop
