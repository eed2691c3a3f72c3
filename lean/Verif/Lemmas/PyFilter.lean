import Verif.Model.PyFilter
import Verif.Spec.PyFilter
import Mathlib.Tactic.Ring
import Mathlib.Tactic.Linarith
import Mathlib.Tactic.IntervalCases
import Mathlib.Tactic.Common

namespace MiniCFD.PyFilter

open MiniCFD.Spec.PyFilter

theorem sample_length (n : ℕ) (u : ℤ → ℝ) : (sample n u).length = n := by simp [sample]

theorem sample_get {n : ℕ} (u : ℤ → ℝ) {k : ℕ} (h : k < n) : (sample n u)[k]? = some (u k) := by
  simp [sample, h]

theorem sample_none {n : ℕ} (u : ℤ → ℝ) {k : ℕ} (h : n ≤ k) : (sample n u)[k]? = none := by
  simp [sample, h]

theorem get_inside {n : ℕ} (u : ℤ → ℝ) {i : ℤ} (h0 : 0 ≤ i) (h : i < n) : get (sample n u) i = some (u i) := by
  unfold get
  rw [if_pos h0, sample_get u (by omega), Int.toNat_of_nonneg h0]

theorem get_beyond {n : ℕ} (u : ℤ → ℝ) {i : ℤ} (h : (n : ℤ) ≤ i) : get (sample n u) i = none := by
  unfold get
  rw [if_pos (by omega), sample_none u (by omega)]

theorem get_wrapped {n : ℕ} {u : ℤ → ℝ} (hu : ∀ i, u (i + n) = u i) {i : ℤ} (h0 : -(n : ℤ) ≤ i) (h : i < n) :
    get (sample n u) i = some (u i) := by
  rcases le_or_gt 0 i with h' | h'
  · exact get_inside u h' h
  · unfold get
    rw [if_neg (by omega), sample_length, if_pos (by omega), sample_get u (by omega), Int.toNat_of_nonneg (by omega), hu]

theorem get_mod {n : ℕ} {u : ℤ → ℝ} (hu : ∀ i, u (i + n) = u i) {i : ℤ} (h0 : 0 ≤ i) (h : i < 2 * n) :
    get (sample n u) (i % (sample n u).length) = some (u i) := by
  rw [sample_length]
  rcases lt_or_ge i n with h' | h'
  · rw [Int.emod_eq_of_lt h0 h']; exact get_inside u h0 h'
  · have : i % n = i - n := by
      rw [← Int.sub_emod_right]; exact Int.emod_eq_of_lt (by omega) (by omega)
    rw [this, get_inside u (by omega) (by omega), ← hu, sub_add_cancel]

theorem dotSlice_eq {n : ℕ} (u : ℤ → ℝ) {i : ℕ} (h5 : 5 ≤ i) (h : i + 5 < n) :
    dotSlice (sample n u) i = some (dissipation u i) := by
  have g : ∀ k : ℕ, k < 11 → get (sample n u) ((i : ℤ) - 5 + k) = some (u ((i : ℤ) - 5 + k)) :=
    fun k hk => get_inside u (by omega) (by omega)
  have e : List.range 11 = [0, 1, 2, 3, 4, 5, 6, 7, 8, 9, 10] := by decide
  unfold dotSlice
  rw [e]
  simp only [List.foldlM_cons, List.foldlM_nil, Option.bind_eq_bind, Option.pure_def]
  simp only [g, Nat.reduceLT, Option.map_some, Option.bind_some, coeff, dissipation, weights]
  simp only [Nat.cast_ofNat, Nat.cast_zero, Nat.cast_one]
  congr 1
  rw [show (i : ℤ) - 5 + 0 = i - 5 by ring, show (i : ℤ) - 5 + 1 = i - 4 by ring, show (i : ℤ) - 5 + 2 = i - 3 by ring,
    show (i : ℤ) - 5 + 3 = i - 2 by ring, show (i : ℤ) - 5 + 4 = i - 1 by ring, show (i : ℤ) - 5 + 5 = i by ring,
    show (i : ℤ) - 5 + 6 = i + 1 by ring, show (i : ℤ) - 5 + 7 = i + 2 by ring, show (i : ℤ) - 5 + 8 = i + 3 by ring,
    show (i : ℤ) - 5 + 9 = i + 4 by ring, show (i : ℤ) - 5 + 10 = i + 5 by ring]
  ring

private theorem dot_eq {u : ℤ → ℝ} {i : ℤ} {l r : ℤ → Option ℝ} {x : ℝ} (hx : x = u i)
    (hl : ∀ j : ℕ, 1 ≤ j → j ≤ 5 → l (i - j) = some (u (i - j))) (hr : ∀ j : ℕ, 1 ≤ j → j ≤ 5 → r (i + j) = some (u (i + j))) :
    (List.range' 1 5).foldlM (fun (d : ℝ) (j : ℕ) => (r (i + j)).bind fun y => (l (i - j)).map fun z =>
      d + y * coeff (5 + j) + z * coeff (5 - j)) (x * coeff 5) = some (dissipation u i) := by
  have e : List.range' 1 5 = [1, 2, 3, 4, 5] := by decide
  rw [e]
  simp only [List.foldlM_cons, List.foldlM_nil, Option.bind_eq_bind, Option.pure_def]
  simp only [hl _ (by decide : 1 ≤ 1) (by decide), hl _ (by decide : 1 ≤ 2) (by decide), hl _ (by decide : 1 ≤ 3) (by decide),
    hl _ (by decide : 1 ≤ 4) (by decide), hl _ (by decide : 1 ≤ 5) (by decide), hr _ (by decide : 1 ≤ 1) (by decide),
    hr _ (by decide : 1 ≤ 2) (by decide), hr _ (by decide : 1 ≤ 3) (by decide), hr _ (by decide : 1 ≤ 4) (by decide),
    hr _ (by decide : 1 ≤ 5) (by decide), Option.map_some, Option.bind_some, coeff, dissipation, weights, hx]
  simp only [Nat.cast_ofNat, Nat.cast_one]
  congr 1
  ring

theorem dotLeft_eq {n : ℕ} {u : ℤ → ℝ} (hu : ∀ i, u (i + n) = u i) (hn : 10 ≤ n) {i : ℕ} (h : i < 5) :
    dotLeft (sample n u) i = some (dissipation u i) := by
  unfold dotLeft
  rw [get_inside u (by omega) (by omega), Option.bind_some]
  exact dot_eq (u := u) (i := i) (l := get (sample n u)) (r := get (sample n u)) rfl
    (fun j h1 h5 => get_wrapped hu (by omega) (by omega)) (fun j h1 h5 => get_inside u (by omega) (by omega))

theorem dotRight_eq {n : ℕ} {u : ℤ → ℝ} (hu : ∀ i, u (i + n) = u i) (hn : 10 ≤ n) {i : ℕ} (h : i < n) (h' : n ≤ i + 5) :
    dotRight (sample n u) i = some (dissipation u i) := by
  unfold dotRight
  rw [get_inside u (by omega) (by omega), Option.bind_some]
  exact dot_eq (u := u) (i := i) (l := get (sample n u)) (r := fun k => get (sample n u) (k % (sample n u).length)) rfl
    (fun j h1 h5 => get_inside u (by omega) (by omega)) (fun j h1 h5 => get_mod hu (by omega) (by omega))

/-- A loop over different points whose values `d` are defined. -/
theorem sweep_spec (d : ℕ → Option ℝ) (D : ℕ → ℝ) (sigma : ℝ) :
    ∀ (is : List ℕ) (new : List ℝ), is.Nodup → (∀ i ∈ is, i < new.length ∧ d i = some (D i)) →
      ∃ new', sweep d sigma is new = some new' ∧ new'.length = new.length ∧
        (∀ k : ℕ, new'[k]? = if k ∈ is then new[k]?.map fun x => x - sigma * D k else new[k]?) := by
  intro is
  induction is with
  | nil => intro new _ _; exact ⟨new, rfl, rfl, fun k => by simp⟩
  | cons i is ih =>
    intro new hd h
    obtain ⟨hi, hdi⟩ := h i List.mem_cons_self
    obtain ⟨new', h1, h2, h3⟩ := ih (new.set i (new[i] - sigma * D i)) (List.nodup_cons.1 hd).2
      (fun k hk => by rw [List.length_set]; exact h k (List.mem_cons_of_mem _ hk))
    refine ⟨new', ?_, by rw [h2, List.length_set], fun k => ?_⟩
    · unfold sweep at h1 ⊢
      rw [List.foldlM_cons, hdi, Option.bind_some, List.getElem?_eq_getElem hi]
      exact h1
    · rw [h3]
      by_cases hk : k = i
      · subst hk
        rw [if_neg (List.nodup_cons.1 hd).1, if_pos List.mem_cons_self, List.getElem?_set_self hi, List.getElem?_eq_getElem hi]
        rfl
      · rw [List.getElem?_set_ne (Ne.symm hk)]
        simp only [List.mem_cons, hk, false_or]

theorem sweep_fails (d : ℕ → Option ℝ) (sigma : ℝ) (is : List ℕ) {i : ℕ} (hi : i ∈ is) (h : d i = none) (new : List ℝ) :
    sweep d sigma is new = none := by
  induction is generalizing new with
  | nil => simp at hi
  | cons k is ih =>
    unfold sweep
    rw [List.foldlM_cons]
    rcases List.mem_cons.1 hi with rfl | h'
    · rw [h]; rfl
    · cases hk : ((d k).bind fun y => new[k]?.map fun x => new.set k (x - sigma * y)) with
      | none => rfl
      | some v => exact ih h' v

end MiniCFD.PyFilter
