import Verif.Model.PyLoop
import Mathlib.Tactic.Linarith
import Mathlib.Tactic.Ring
import Mathlib.Tactic.FieldSimp
import Mathlib.Tactic.Positivity
import Mathlib.Algebra.Order.Archimedean.Basic

/-! Lemmas on the time loop of the Python solver. -/

namespace MiniCFD.PyLoop

variable {K U N : Type*} [Field K] [LinearOrder K] [IsStrictOrderedRing K]

omit [Field K] [IsStrictOrderedRing K] in
theorem suggest_le (es : List K) : ∀ dt : K, suggest es dt ≤ dt ∧ ∀ e ∈ es, suggest es dt ≤ e := by
  induction es with
  | nil => intro dt; exact ⟨le_rfl, by simp⟩
  | cons e es ih =>
    intro dt
    obtain ⟨h1, h2⟩ := ih (min dt e)
    refine ⟨h1.trans (min_le_left _ _), fun x hx => ?_⟩
    rcases List.mem_cons.1 hx with rfl | hx
    · exact h1.trans (min_le_right _ _)
    · exact h2 x hx

omit [Field K] [IsStrictOrderedRing K] in
theorem le_suggest {c : K} (es : List K) : ∀ dt : K, c ≤ dt → (∀ e ∈ es, c ≤ e) → c ≤ suggest es dt := by
  induction es with
  | nil => intro dt h _; exact h
  | cons e es ih =>
    intro dt h h2
    exact ih _ (le_min h (h2 e (by simp))) fun x hx => h2 x (by simp [hx])

/-- What a finished `while` loop has done. -/
structure Covers (S : Scheme K U N) (dtMax t t' : K) (log : List (U × N × K × K)) : Prop where
  /-- the steps add up to the distance … -/
  total : (log.map fun e => e.2.2.1).sum = t' - t
  /-- … follow each other … -/
  times : ∀ i (h : i < log.length), (log[i]).2.2.2 = t + ((log.take i).map fun e => e.2.2.1).sum
  /-- … and are positive and within all limits. -/
  sizes : ∀ e ∈ log, e.2.2.1 ≤ dtMax ∧ ∀ x ∈ S.elements e.1 e.2.1, e.2.2.1 ≤ x

omit [IsStrictOrderedRing K] in
theorem covers_nil (S : Scheme K U N) (dtMax t : K) : Covers S dtMax t t [] :=
  ⟨by simp, fun i h => absurd h (by simp), by simp⟩

omit [IsStrictOrderedRing K] in
theorem covers_cons {S : Scheme K U N} {dtMax t t' dt : K} {u : U} {nu : N}
    {log : List (U × N × K × K)} (h1 : dt ≤ dtMax) (h2 : ∀ x ∈ S.elements u nu, dt ≤ x)
    (h : Covers S dtMax (t + dt) t' log) : Covers S dtMax t t' ((u, nu, dt, t) :: log) := by
  refine ⟨?_, fun i hi => ?_, fun e he => ?_⟩
  · rw [List.map_cons, List.sum_cons, h.total]; ring
  · cases i with
    | zero => simp
    | succ i =>
      simp only [List.getElem_cons_succ, List.take_succ_cons, List.map_cons, List.sum_cons]
      rw [h.times i (by simpa using hi)]
      ring
  · rcases List.mem_cons.1 he with rfl | he
    · exact ⟨h1, h2⟩
    · exact h.sizes e he

omit [IsStrictOrderedRing K] in
theorem covers_append {S : Scheme K U N} {dtMax t t' t'' : K}
    {l l' : List (U × N × K × K)} (h : Covers S dtMax t t' l) (h' : Covers S dtMax t' t'' l') :
    Covers S dtMax t t'' (l ++ l') := by
  refine ⟨?_, fun i hi => ?_, fun e he => ?_⟩
  · rw [List.map_append, List.sum_append, h.total, h'.total]; ring
  · by_cases hl : i < l.length
    · rw [List.getElem_append_left hl, h.times i hl, List.take_append_of_le_length hl.le]
    · rw [List.getElem_append_right (by omega), h'.times _ (by simp at hi; omega),
        List.take_append, List.take_of_length_le (l := l) (by omega), List.map_append,
        List.sum_append, h.total]
      ring
  · rcases List.mem_append.1 he with he | he
    · exact h.sizes e he
    · exact h'.sizes e he

theorem inner_spec (S : Scheme K U N) (ap : Bool) (dtMax tNext : K) (fuel : Nat) :
    ∀ (t : K) (u : U) (nu : N) r, t ≤ tNext → inner S ap dtMax tNext fuel t u nu = some r →
      r.1 = tNext ∧ Covers S dtMax t tNext r.2.2.2 := by
  induction fuel with
  | zero =>
    intro t u nu r ht h
    unfold inner at h
    split at h
    · simp at h
    · cases h
      have : t = tNext := le_antisymm ht (not_lt.1 ‹_›)
      subst this
      exact ⟨rfl, covers_nil S dtMax t⟩
  | succ fuel ih =>
    intro t u nu r ht h
    unfold inner at h
    split at h
    · simp only [Option.map_eq_some_iff] at h
      obtain ⟨r', hr, rfl⟩ := h
      have h1 := suggest_le (S.elements u nu) (tNext - t)
      have h2 : min dtMax (suggest (S.elements u nu) (tNext - t)) ≤ tNext - t :=
        (min_le_right _ _).trans h1.1
      obtain ⟨h3, h4⟩ := ih _ _ _ r' (by linarith) hr
      exact ⟨h3, covers_cons (min_le_left _ _)
        (fun x hx => (min_le_right _ _).trans (h1.2 x hx)) h4⟩
    · cases h
      have : t = tNext := le_antisymm ht (not_lt.1 ‹_›)
      subst this
      exact ⟨rfl, covers_nil S dtMax t⟩

/-- With a positive lower bound on all suggestions the loop ends. -/
theorem inner_ends (S : Scheme K U N) (ap : Bool) {dtMax tNext δ : K} (hd : 0 < δ) (hm : δ ≤ dtMax)
    (hS : ∀ u nu, ∀ x ∈ S.elements u nu, δ ≤ x) (fuel : Nat) :
    ∀ (t : K) (u : U) (nu : N), tNext - t ≤ fuel * δ →
      ∃ r, inner S ap dtMax tNext fuel t u nu = some r := by
  induction fuel with
  | zero =>
    intro t u nu h
    have : ¬ t < tNext := by
      have : tNext - t ≤ 0 := by simpa using h
      linarith
    exact ⟨_, by unfold inner; rw [if_neg this]⟩
  | succ fuel ih =>
    intro t u nu h
    unfold inner
    split
    · rename_i hlt
      dsimp only
      set dt := min dtMax (suggest (S.elements u nu) (tNext - t)) with hdt
      have key : tNext - (t + dt) ≤ fuel * δ := by
        by_cases hc : δ ≤ tNext - t
        · have h1 : δ ≤ dt := le_min hm (le_suggest _ _ hc (hS u nu))
          push_cast at h
          linarith
        · have h1 : tNext - t ≤ dt := by
            refine le_min (by linarith) (le_suggest _ _ le_rfl fun e he => ?_)
            exact (not_le.1 hc).le.trans (hS u nu e he)
          have : (0 : K) ≤ fuel * δ := by positivity
          linarith
      obtain ⟨r, hr⟩ := ih (t + dt) (S.step u nu dt t)
        (if ap then (applyViscosity S (S.step u nu dt t) nu).2 else nu) key
      exact ⟨_, by rw [hr]; rfl⟩
    · exact ⟨_, rfl⟩

end MiniCFD.PyLoop
