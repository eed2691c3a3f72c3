import Verif.Spec.PyGrid
import Mathlib.Algebra.Order.BigOperators.Group.List
import Mathlib.Tactic.Common
import Mathlib.Tactic.Ring
import Mathlib.Tactic.FieldSimp
import Mathlib.Tactic.Linarith
import Mathlib.Tactic.Positivity

namespace MiniCFD.PyGrid

open MiniCFD.Spec.PyGrid

section Elements

variable {K : Type*} [Field K] [LinearOrder K]

theorem build_length (d : K) : ∀ (n : Nat) (x : K), (buildElements d n x).length = n
  | 0, _ => rfl
  | n + 1, x => by simp [buildElements, build_length d n]

theorem build_get (d : K) : ∀ (n : Nat) (x : K) (i : Nat), i < n →
    (buildElements d n x)[i]? = some (x + i * d, x + i * d + d)
  | 0, _, _, h => by omega
  | n + 1, x, 0, _ => by simp [buildElements]
  | n + 1, x, i + 1, h => by
    have := build_get d n (x + d) i (by omega)
    simp only [buildElements, List.getElem?_cons_succ, this, Nat.cast_add, Nat.cast_one]
    congr 2 <;> ring

theorem bisect_spec (a : List K) (x : K) (hs : a.Pairwise (· ≤ ·)) :
    ∀ (k lo hi : Nat), hi - lo = k → lo ≤ hi → hi ≤ a.length →
      (∀ j (h : j < a.length), j < lo → a[j] ≤ x) → (∀ j (h : j < a.length), hi ≤ j → x < a[j]) →
      ∃ i, bisectRight a x lo hi = some i ∧ lo ≤ i ∧ i ≤ hi ∧
        (∀ j (h : j < a.length), j < i → a[j] ≤ x) ∧ (∀ j (h : j < a.length), i ≤ j → x < a[j]) := by
  intro k
  induction k using Nat.strong_induction_on with
  | _ k ih =>
    intro lo hi hk hle hlen h1 h2
    rw [bisectRight]
    by_cases hlt : lo < hi
    · have hm : (lo + hi) / 2 < a.length := by omega
      rw [if_pos hlt, List.getElem?_eq_getElem hm]
      dsimp only
      have hpair := List.pairwise_iff_getElem.mp hs
      by_cases hx : x < a[(lo + hi) / 2]
      · rw [if_pos hx]
        obtain ⟨i, e, l1, l2, h3, h4⟩ := ih ((lo + hi) / 2 - lo) (by omega) lo ((lo + hi) / 2) rfl (by omega) (by omega) h1 (by
          intro j hj hjm
          rcases Nat.eq_or_lt_of_le hjm with h | h
          · subst h; exact hx
          · exact lt_of_lt_of_le hx (hpair _ _ hm hj h))
        exact ⟨i, e, l1, by omega, h3, h4⟩
      · rw [if_neg hx]
        obtain ⟨i, e, l1, l2, h3, h4⟩ := ih (hi - ((lo + hi) / 2 + 1)) (by omega) ((lo + hi) / 2 + 1) hi rfl (by omega) hlen (by
          intro j hj hjm
          rcases Nat.eq_or_lt_of_le (Nat.le_of_lt_succ hjm) with h | h
          · subst h; exact not_lt.mp hx
          · exact le_trans (hpair _ _ hj hm h) (not_lt.mp hx)) h2
        exact ⟨i, e, by omega, l2, h3, h4⟩
    · rw [if_neg hlt]
      have : lo = hi := by omega
      subst this
      exact ⟨lo, rfl, le_rfl, le_rfl, h1, h2⟩

end Elements

section Links

variable {K U : Type*} [Zero K]

/-- The state of the links after the interfaces `1, …, m` have been built. -/
theorem inner_loop (s : Links K U) : ∀ m,
    let s' := (List.range' 1 m).foldl Links.linkInner s
    s'.n = s.n ∧ s'.periodic = s.periodic ∧
    s'.objects = s.objects ++ (List.range' 1 m).map (fun i => Face.interface (i - 1) i) ∧
    (∀ j, s'.faces j = if 1 ≤ j ∧ j ≤ m then some (s.objects.length + (j - 1)) else s.faces j) ∧
    (∀ j, s'.leftFace j = if 1 ≤ j ∧ j ≤ m then some (s.objects.length + (j - 1)) else s.leftFace j) ∧
    (∀ j, s'.rightFace j = if j < m then some (s.objects.length + j) else s.rightFace j) ∧
    (∀ j, s'.leftExpansion j = if 1 ≤ j ∧ j ≤ m then some (j - 1, 0) else s.leftExpansion j) ∧
    (∀ j, s'.rightExpansion j = if 1 ≤ j ∧ j ≤ m then some (j + 1, 0) else s.rightExpansion j)
  | 0 => by
    refine ⟨rfl, rfl, by simp, ?_, ?_, ?_, ?_, ?_⟩ <;> intro j <;> simp <;> omega
  | m + 1 => by
    obtain ⟨hn, hp, ho, hf, hl, hr, hle, hre⟩ := inner_loop s m
    have e : (List.range' 1 (m + 1)).foldl Links.linkInner s =
        ((List.range' 1 m).foldl Links.linkInner s).linkInner (m + 1) := by
      rw [List.range'_1_concat, List.foldl_append, Nat.add_comm 1 m]; rfl
    have eo : (List.range' 1 (m + 1)).map (fun i => (Face.interface (i - 1) i : Face U)) =
        (List.range' 1 m).map (fun i => Face.interface (i - 1) i) ++ [Face.interface m (m + 1)] := by
      rw [List.range'_1_concat, List.map_append, Nat.add_comm 1 m]; rfl
    dsimp only at *
    rw [e, eo]
    have len : ((List.range' 1 m).foldl Links.linkInner s).objects.length = s.objects.length + m := by
      rw [ho]; simp
    have pm : previous ((List.range' 1 m).foldl Links.linkInner s).n (m + 1) = m := by simp [previous]
    refine ⟨hn, hp, ?_, ?_, ?_, ?_, ?_, ?_⟩
    · simp only [Links.linkInner, Links.buildInterface, pm, ho, List.append_assoc]
    · intro j
      simp only [Links.linkInner, Links.buildInterface, len, if_neg (Nat.succ_ne_zero m), Function.update_apply, hf]
      split_ifs <;> first | rfl | omega | (congr 1; omega)
    · intro j
      simp only [Links.linkInner, Links.buildInterface, len, Function.update_apply, hl]
      split_ifs <;> first | rfl | omega | (congr 1; omega)
    · intro j
      simp only [Links.linkInner, Links.buildInterface, len, pm, Function.update_apply, hr]
      split_ifs <;> first | rfl | omega | (congr 1; omega)
    · intro j
      simp only [Links.linkInner, Links.buildInterface, Function.update_apply, hle]
      split_ifs with h1 h2 h3 h4 <;> first | rfl | omega | (subst h1; rfl)
    · intro j
      simp only [Links.linkInner, Links.buildInterface, Function.update_apply, hre]
      split_ifs with h1 h2 h3 h4 <;> first | rfl | omega | (subst h1; rfl)

variable [Neg K]

/-- The faces, neighbours and face objects agree with each other and with the boundary conditions. -/
structure Wired (length : K) (bc : Boundary U) (s : Links K U) : Prop where
  many : 2 ≤ s.n
  periodic : s.periodic = bc.isNone
  left : ∀ i, i < s.n → ∃ k, s.leftFace i = some k ∧ s.faces i = some k ∧ s.objects[k]? = some (leftOf s.n bc i)
  right : ∀ i, i < s.n → s.rightFace i = s.faces (i + 1)
  last : ∃ k, s.faces s.n = some k ∧ s.objects[k]? = some (rightOf s.n bc (s.n - 1))
  wrap : bc = none → s.faces s.n = s.faces 0
  leftN : ∀ i, i < s.n → s.leftExpansion i = leftNeighbour s.n length bc i
  rightN : ∀ i, i < s.n → s.rightExpansion i = rightNeighbour s.n length bc i

/-- All the calls of `build_interface` but that for slot 0. -/
def Links.interior (s : Links K U) : Links K U :=
  ((List.range' 1 (s.n - 2)).foldl Links.linkInner
    { s with rightExpansion := Function.update s.rightExpansion 0 (some (1, 0)) }).buildInterface (s.n - 1)

/-- The rest of `link_neighbors`. -/
def Links.finish (length : K) (n : Nat) (s : Links K U) : Option (Links K U) :=
  let s := { s with leftExpansion := Function.update s.leftExpansion (n - 1) (some (n - 2, 0)) }
  if s.periodic then
    if (s.faces 0).isNone && (s.faces n).isNone then
      let s := s.buildInterface 0
      some { s with
        leftExpansion := Function.update s.leftExpansion 0 (some (n - 1, -length))
        rightExpansion := Function.update s.rightExpansion (n - 1) (some (0, length)) }
    else none
  else
    if s.isInlet 0 && s.isInlet n then
      some { s with
        leftExpansion := Function.update s.leftExpansion 0 none
        rightExpansion := Function.update s.rightExpansion (n - 1) none }
    else none

theorem link_eq (length : K) (s : Links K U) : s.linkNeighbors length = s.interior.finish length s.n := rfl

omit [Neg K] in
theorem linked_interior (s : Links K U) (h2 : 2 ≤ s.n) :
    let s2 := s.interior
    s2.n = s.n ∧ s2.periodic = s.periodic ∧
    s2.objects = s.objects ++ (List.range' 1 (s.n - 1)).map (fun i => Face.interface (i - 1) i) ∧
    (∀ j, s2.faces j = if 1 ≤ j ∧ j < s.n then some (s.objects.length + (j - 1)) else s.faces j) ∧
    (∀ j, s2.leftFace j = if 1 ≤ j ∧ j < s.n then some (s.objects.length + (j - 1)) else s.leftFace j) ∧
    (∀ j, s2.rightFace j = if j + 1 < s.n then some (s.objects.length + j) else s.rightFace j) ∧
    (∀ j, s2.leftExpansion j = if 1 ≤ j ∧ j + 1 < s.n then some (j - 1, 0) else s.leftExpansion j) ∧
    (∀ j, s2.rightExpansion j = if j + 1 < s.n then some (j + 1, 0) else s.rightExpansion j) := by
  obtain ⟨m, hm⟩ : ∃ m, s.n = m + 2 := ⟨s.n - 2, by omega⟩
  unfold Links.interior
  have hk := inner_loop { s with rightExpansion := Function.update s.rightExpansion 0 (some (1, 0)) } m
  dsimp only at hk ⊢
  obtain ⟨hn, hp, ho, hf, hl, hr, hle, hre⟩ := hk
  rw [show s.n - 2 = m by omega, show s.n - 1 = m + 1 by omega]
  have eo : (List.range' 1 (m + 1)).map (fun i => (Face.interface (i - 1) i : Face U)) =
      (List.range' 1 m).map (fun i => Face.interface (i - 1) i) ++ [Face.interface m (m + 1)] := by
    rw [List.range'_1_concat, List.map_append, Nat.add_comm 1 m]; rfl
  generalize (List.range' 1 m).foldl Links.linkInner
    { s with rightExpansion := Function.update s.rightExpansion 0 (some (1, 0)) } = s1 at *
  have len : s1.objects.length = s.objects.length + m := by
    rw [ho]; simp
  have pm : previous s1.n (m + 1) = m := by simp [previous]
  refine ⟨hn, hp, ?_, ?_, ?_, ?_, ?_, ?_⟩
  · simp only [Links.buildInterface, pm, ho, List.append_assoc, eo]
  · intro j
    simp only [Links.buildInterface, len, if_neg (Nat.succ_ne_zero m), Function.update_apply, hf]
    split_ifs <;> first | rfl | omega | (congr 1; omega)
  · intro j
    simp only [Links.buildInterface, len, Function.update_apply, hl]
    split_ifs <;> first | rfl | omega | (congr 1; omega)
  · intro j
    simp only [Links.buildInterface, len, pm, Function.update_apply, hr]
    split_ifs <;> first | rfl | omega | (congr 1; omega)
  · intro j
    simp only [Links.buildInterface, hle]
    split_ifs <;> first | rfl | omega
  · intro j
    simp only [Links.buildInterface, Function.update_apply, hre]
    split_ifs with g1 g2 g3 g4 <;> first | rfl | omega | (subst g2; rfl) | (subst g3; rfl)

theorem init_wired (length : K) {n : Nat} (h : 2 ≤ n) :
    ∃ s : Links K U, Links.init length n = some s ∧ s.n = n ∧ Wired length none s := by
  have key := linked_interior (Links.blank n : Links K U) h
  dsimp only at key
  obtain ⟨hn, hp, ho, hf, hl, hr, hle, hre⟩ := key
  have hbn : (Links.blank n : Links K U).n = n := rfl
  rw [hbn] at hn ho hf hl hr hle hre
  unfold Links.init
  rw [if_pos (by omega)]
  rw [link_eq, hbn]
  generalize (Links.blank n : Links K U).interior = s2 at *
  unfold Links.finish
  dsimp only
  have len : s2.objects.length = n - 1 := by rw [ho]; simp [Links.blank]
  have hp' : s2.periodic = true := hp
  have f0 : s2.faces 0 = none := by rw [hf]; simp [Links.blank]
  have fn : s2.faces n = none := by rw [hf]; simp [Links.blank]
  rw [hp', f0, fn]
  refine ⟨_, rfl, hn, ?_⟩
  have hobj : ∀ j, 1 ≤ j → j < n → s2.objects[j - 1]? = some (Face.interface (j - 1) j) := by
    intro j h1 h2
    rw [ho]
    have hlt : j - 1 < n - 1 := by omega
    simp [Links.blank, hlt]
    omega
  refine ⟨?_, ?_, ?_, ?_, ?_, ?_, ?_, ?_⟩
  · show 2 ≤ s2.n; omega
  · rfl
  · intro i hi
    simp only [Links.buildInterface, hn] at hi ⊢
    by_cases h0 : i = 0
    · subst h0
      refine ⟨n - 1, ?_, ?_, ?_⟩
      · simp [len]
      · simp only [if_true, Function.update_apply]; split_ifs <;> simp [len]
      · simp [leftOf, previous, ← len]
    · refine ⟨i - 1, ?_, ?_, ?_⟩
      · simp only [Function.update_apply, if_neg h0, hl, if_pos (⟨by omega, hi⟩ : 1 ≤ i ∧ i < n)]
        simp [Links.blank]
      · simp only [if_true, Function.update_apply, if_neg h0, if_neg (show i ≠ n by omega), hf, if_pos (⟨by omega, hi⟩ : 1 ≤ i ∧ i < n)]
        simp [Links.blank]
      · rw [List.getElem?_append_left (by omega), hobj i (by omega) hi]
        simp [leftOf, h0]
  · intro i hi
    simp only [Links.buildInterface, hn, previous, if_true, Function.update_apply, hr, hf] at hi ⊢
    by_cases hl' : i + 1 = n
    · rw [if_pos (by omega), if_pos (by omega)]
    · rw [if_neg (by omega), if_pos (by omega), if_neg (by omega), if_neg (by omega), if_pos (by omega)]; rfl
  · refine ⟨n - 1, ?_, ?_⟩
    · simp [Links.buildInterface, hn, len]
    · simp only [Links.buildInterface, hn]
      have : n - 1 + 1 = n := by omega
      simp [rightOf, previous, ← len, this]
      omega
  · intro _
    simp only [Links.buildInterface, hn, if_true, Function.update_apply]
    split_ifs <;> first | rfl | omega
  · intro i hi
    simp only [Links.buildInterface, hn, Function.update_apply, leftNeighbour, hle] at hi ⊢
    by_cases h0 : i = 0
    · simp [h0]
    · by_cases h1 : i = n - 1
      · rw [if_neg h0, if_pos h1, if_neg h0, show n - 2 = i - 1 by omega]
      · rw [if_neg h0, if_neg h1, if_neg h0, if_pos (by omega)]
  · intro i hi
    simp only [Links.buildInterface, hn, Function.update_apply, rightNeighbour, hre] at hi ⊢
    by_cases h1 : i = n - 1
    · rw [if_pos h1, if_pos (by omega)]; rfl
    · rw [if_neg h1, if_pos (by omega), if_neg (by omega)]

theorem setBoundary_wired (length : K) {bc : Boundary U} {s : Links K U} (hw : Wired length bc s) (ul ur : U) :
    ∃ s' : Links K U, s.setBoundary length (some ul) (some ur) = some s' ∧ s'.n = s.n ∧
      Wired length (some (ul, ur)) s' := by
  have h2 := hw.many
  unfold Links.setBoundary
  dsimp only
  have key := linked_interior ({ s with
      periodic := false
      objects := s.objects ++ [Face.inlet ul 0 true, Face.inlet ur (s.n - 1) false]
      leftFace := Function.update s.leftFace 0 (some s.objects.length)
      rightFace := Function.update s.rightFace (s.n - 1) (some (s.objects.length + 1))
      faces := Function.update (Function.update s.faces 0 (some s.objects.length)) s.n (some (s.objects.length + 1)) } : Links K U) h2
  rw [link_eq]
  dsimp only at key ⊢
  obtain ⟨hn, hp, ho, hf, hl, hr, hle, hre⟩ := key
  generalize Links.interior (K := K) (U := U) _ = s2 at *
  unfold Links.finish
  dsimp only
  rw [List.append_assoc] at ho
  have hm : s.n ≠ 0 := by omega
  have f0 : s2.faces 0 = some s.objects.length := by
    rw [hf, if_neg (by omega), Function.update_of_ne (by omega), Function.update_self]
  have fn : s2.faces s.n = some (s.objects.length + 1) := by
    rw [hf, if_neg (by omega), Function.update_self]
  have o0 : s2.objects[s.objects.length]? = some (Face.inlet ul 0 true) := by rw [ho]; simp
  have o1 : s2.objects[s.objects.length + 1]? = some (Face.inlet ur (s.n - 1) false) := by rw [ho]; simp
  have oj : ∀ j, 1 ≤ j → j < s.n → s2.objects[s.objects.length + 2 + (j - 1)]? = some (Face.interface (j - 1) j) := by
    intro j h1 h2
    rw [ho, List.getElem?_append_right (by omega), show s.objects.length + 2 + (j - 1) - s.objects.length = (j - 1) + 1 + 1 by omega]
    have hlt : j - 1 < s.n - 1 := by omega
    simp [hlt]
    omega
  have i0 : Links.isInlet (K := K) (U := U) { s2 with leftExpansion := Function.update s2.leftExpansion (s.n - 1) (some (s.n - 2, (0 : K))) } 0 = true := by
    simp [Links.isInlet, f0, o0]
  have i1 : Links.isInlet (K := K) (U := U) { s2 with leftExpansion := Function.update s2.leftExpansion (s.n - 1) (some (s.n - 2, (0 : K))) } s.n = true := by
    simp [Links.isInlet, fn, o1]
  rw [i0, i1, hp]
  refine ⟨_, rfl, hn, ?_⟩
  have two : (s.objects ++ [Face.inlet ul 0 true, Face.inlet ur (s.n - 1) false]).length = s.objects.length + 2 := by simp
  rw [two] at hf hl hr
  refine ⟨?_, ?_, ?_, ?_, ?_, ?_, ?_, ?_⟩
  · show 2 ≤ s2.n; omega
  · rfl
  · intro i hi
    have hi' : i < s.n := by rw [← hn]; exact hi
    show ∃ k, s2.leftFace i = some k ∧ s2.faces i = some k ∧ s2.objects[k]? = some (leftOf s2.n _ i)
    by_cases h0 : i = 0
    · subst h0
      exact ⟨s.objects.length, by rw [hl, if_neg (by omega), Function.update_self], f0, by rw [o0]; rfl⟩
    · refine ⟨s.objects.length + 2 + (i - 1), ?_, ?_, ?_⟩
      · rw [hl, if_pos ⟨by omega, hi'⟩]
      · rw [hf, if_pos ⟨by omega, hi'⟩]
      · rw [oj i (by omega) hi']; simp [leftOf, h0]
  · intro i hi
    have hi' : i < s.n := by rw [← hn]; exact hi
    show s2.rightFace i = s2.faces (i + 1)
    by_cases hl' : i + 1 = s.n
    · rw [hl', fn, hr, if_neg (by omega), show i = s.n - 1 by omega, Function.update_self]
    · rw [hr, if_pos (by omega), hf, if_pos (by omega)]; rfl
  · refine ⟨s.objects.length + 1, ?_, ?_⟩
    · show s2.faces s2.n = _; rw [hn, fn]
    · show s2.objects[_]? = some (rightOf s2.n _ (s2.n - 1))
      rw [hn, o1, rightOf, if_pos (by omega)]
  · intro h; cases h
  · intro i hi
    have hi' : i < s.n := by rw [← hn]; exact hi
    show (Function.update (Function.update s2.leftExpansion (s.n - 1) (some (s.n - 2, 0))) 0 none) i = leftNeighbour s2.n _ _ i
    rw [hn]
    simp only [Function.update_apply, leftNeighbour, hle]
    by_cases h0 : i = 0
    · simp [h0]
    · by_cases h1 : i = s.n - 1
      · rw [if_neg h0, if_pos h1, if_neg h0, show s.n - 2 = i - 1 by omega]
      · rw [if_neg h0, if_neg h1, if_neg h0, if_pos (by omega)]
  · intro i hi
    have hi' : i < s.n := by rw [← hn]; exact hi
    show (Function.update s2.rightExpansion (s.n - 1) none) i = rightNeighbour s2.n _ _ i
    rw [hn]
    simp only [Function.update_apply, rightNeighbour, hre]
    by_cases h1 : i = s.n - 1
    · rw [if_pos h1, if_pos (by omega)]; rfl
    · rw [if_neg h1, if_pos (by omega), if_neg (by omega)]

omit [Zero K] [Neg K] in
theorem solve_ok {F : Type*} (s : Links K U) (f : Face U → F) :
    ∀ (is : List Nat) (held : Nat → Option F),
      (∀ i ∈ is, ∃ k o, s.faces i = some k ∧ s.objects[k]? = some o) →
      ∃ held', s.solve f is held = some held' ∧
        ∀ k, (∀ i ∈ is, s.faces i = some k → ∃ o, s.objects[k]? = some o ∧ held' k = some (f o)) ∧
          ((∀ o, s.objects[k]? = some o → held k = some (f o)) → ∀ o, s.objects[k]? = some o → held' k = some (f o))
  | [], held, _ => ⟨held, rfl, fun k => ⟨by simp, fun h => h⟩⟩
  | i :: is, held, h => by
    obtain ⟨k0, o0, hf, ho⟩ := h i (by simp)
    obtain ⟨held', e, hk⟩ := solve_ok s f is (Function.update held k0 (some (f o0))) (fun j hj => h j (by simp [hj]))
    refine ⟨held', by simp only [Links.solve, hf, ho, e], fun k => ⟨?_, ?_⟩⟩
    · intro j hj hjk
      rcases List.mem_cons.mp hj with hj | hj
      · subst hj
        have : k0 = k := by rw [hf] at hjk; exact Option.some.inj hjk
        subst this
        exact ⟨o0, ho, (hk k0).2 (fun o h' => by rw [ho] at h'; cases h'; simp) o0 ho⟩
      · exact (hk k).1 j hj hjk
    · intro hh
      refine (hk k).2 fun o h' => ?_
      by_cases e0 : k = k0
      · subst e0; rw [ho] at h'; cases h'; simp
      · rw [Function.update_of_ne e0]; exact hh o h'

end Links

section Columns

variable {α : Type*}

theorem slots_length (rows cols : Nat) : (slots rows cols).length = rows * cols := by
  simp [slots, Nat.mul_comm]

theorem slots_get {rows cols r c : Nat} (hr : r < rows) (hc : c < cols) :
    (slots rows cols)[c * rows + r]? = some (r, c) := by
  unfold slots
  induction cols with
  | zero => omega
  | succ n ih =>
    rw [List.range_succ, List.flatMap_append]
    have hl : ((List.range n).flatMap fun c => (List.range rows).map fun r => (r, c)).length = n * rows := by
      simp
    by_cases h : c < n
    · have : c * rows + r < n * rows := by
        have : (c + 1) * rows ≤ n * rows := Nat.mul_le_mul_right _ h
        have e : (c + 1) * rows = c * rows + rows := by ring
        omega
      rw [List.getElem?_append_left (by rw [hl]; exact this), ih h]
    · have : c = n := by omega
      subst this
      rw [List.getElem?_append_right (by rw [hl]; omega), hl, Nat.add_sub_cancel_left]
      simp [hr]

theorem mem_slots {rows cols r c : Nat} : (r, c) ∈ slots rows cols ↔ r < rows ∧ c < cols := by
  simp [slots, and_comm]

theorem slots_nodup (rows cols : Nat) : (slots rows cols).Nodup := by
  unfold slots
  rw [List.nodup_flatMap]
  refine ⟨fun c _ => (List.nodup_range).map fun a b h => (Prod.mk.inj h).1, ?_⟩
  refine (List.nodup_range (n := cols)).imp fun {a b} hab => ?_
  intro x hx hy
  simp only [List.mem_map] at hx hy
  obtain ⟨_, _, rfl⟩ := hx
  obtain ⟨_, _, h⟩ := hy
  exact hab (Prod.mk.inj h).2.symm

theorem read_ok (column : List α) : ∀ (ss : List (Nat × Nat)) (i : Nat) (coeff : Nat → Nat → α),
    ss.Nodup → column.length = i + ss.length →
    ∃ coeff', readLoop column ss i coeff = some coeff' ∧ ss.map (fun s => coeff' s.1 s.2) = column.drop i ∧
      ∀ r c, (r, c) ∉ ss → coeff' r c = coeff r c
  | [], i, coeff, _, h => by
    refine ⟨coeff, by simp only [readLoop]; rw [if_pos (by simpa using h.symm)], ?_, fun _ _ _ => rfl⟩
    simp only [List.map_nil]
    exact (List.drop_eq_nil_of_le (by simp at h; omega)).symm
  | (r, c) :: rest, i, coeff, hn, h => by
    have hi : i < column.length := by simp at h; omega
    obtain ⟨hnot, hn'⟩ := List.nodup_cons.mp hn
    obtain ⟨coeff', e, hm, ho⟩ := read_ok column rest (i + 1)
      (fun r' c' => if r' = r ∧ c' = c then column[i] else coeff r' c') hn' (by simp at h; omega)
    refine ⟨coeff', ?_, ?_, ?_⟩
    · simp only [readLoop, List.getElem?_eq_getElem hi, e]
    · rw [List.map_cons, hm, ho r c hnot, List.drop_eq_getElem_cons hi]
      simp
    · intro r' c' h'
      simp only [List.mem_cons, not_or] at h'
      rw [ho r' c' h'.2, if_neg]
      rintro ⟨rfl, rfl⟩
      exact h'.1 rfl

theorem write_length (rows cols : Nat) (e : Nat → Nat → α) : (writeLoop rows cols e).length = rows * cols := by
  simp [writeLoop, slots_length]

theorem get_length (rows cols : Nat) : ∀ es : List (Nat → Nat → α),
    (getSolutionColumn rows cols es).length = es.length * (rows * cols)
  | [] => by simp [getSolutionColumn]
  | e :: es => by
    have := get_length rows cols es
    simp only [getSolutionColumn, List.flatMap_cons, List.length_append, write_length, List.length_cons] at this ⊢
    rw [this]; ring

theorem set_ok (rows cols : Nat) : ∀ (es : List (Nat → Nat → α)) (column : List α),
    column.length = es.length * (rows * cols) →
    ∃ es', setColumns rows cols es column = some es' ∧ es'.length = es.length ∧ getSolutionColumn rows cols es' = column
  | [], column, h => by
    have : column = [] := List.eq_nil_of_length_eq_zero (by simpa using h)
    subst this
    exact ⟨[], rfl, rfl, rfl⟩
  | e :: es, column, h => by
    have h' : column.length = rows * cols + es.length * (rows * cols) := by rw [h, List.length_cons]; ring
    obtain ⟨e', he, hm, -⟩ := read_ok (column.take (rows * cols)) (slots rows cols) 0 e (slots_nodup _ _) (by
      rw [slots_length, List.length_take]; omega)
    obtain ⟨es', hes, hl, hg⟩ := set_ok rows cols es (column.drop (rows * cols)) (by rw [List.length_drop]; omega)
    refine ⟨e' :: es', by simp only [setColumns, he, hes], by simp [hl], ?_⟩
    have : writeLoop rows cols e' = column.take (rows * cols) := hm
    unfold getSolutionColumn at hg ⊢
    rw [List.flatMap_cons, hg, this, List.take_append_drop]

end Columns

end MiniCFD.PyGrid
