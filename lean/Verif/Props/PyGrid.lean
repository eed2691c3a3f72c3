import Verif.Lemmas.PyGrid
import Verif.Model.PyDG

/-! Properties of the one-dimensional grids of the Python code (C100, C101, C102). -/

namespace MiniCFD.PyGrid

open MiniCFD.Spec.PyGrid

section Elements

variable {K : Type*} [Field K] [LinearOrder K] [IsStrictOrderedRing K]

private theorem built {n : Nat} {a b : K} {es : List (K × K)} (h : elements n a b = some es) :
    a < b ∧ 1 < n ∧ es = buildElements ((b - a) / n) n a := by
  unfold elements at h
  split_ifs at h with hc
  exact ⟨hc.1, hc.2, (Option.some.inj h).symm⟩

private theorem get {n : Nat} {a b : K} {es : List (K × K)} (h : elements n a b = some es) {i : Nat} {e : K × K}
    (hi : es[i]? = some e) : i < n ∧ e = (a + i * ((b - a) / n), a + i * ((b - a) / n) + (b - a) / n) := by
  obtain ⟨-, -, rfl⟩ := built h
  have hlt : i < n := by
    have := (List.getElem?_eq_some_iff.mp hi).1
    rwa [build_length] at this
  rw [build_get _ _ _ _ hlt] at hi
  exact ⟨hlt, (Option.some.inj hi).symm⟩

/-- C100: The constructor cuts the interval into `n` elements of equal length without gaps; it refuses empty
intervals and grids of less than two elements. -/
theorem uniform {n : Nat} {a b : K} :
    (∀ es, elements n a b = some es → es.length = n ∧ Uniform a b es) ∧ (elements n a b = none ↔ b ≤ a ∨ n < 2) := by
  constructor
  · intro es h
    have hg := @get K _ _ _ n a b es h
    obtain ⟨hab, hn, he⟩ := built h
    have hlen : es.length = n := by rw [he, build_length]
    have h0 : (0 : K) < n := by exact_mod_cast (by omega : 0 < n)
    refine ⟨hlen, ⟨?_, ?_, ?_, ?_, ?_⟩⟩
    · intro e h'; obtain ⟨-, rfl⟩ := hg h'; simp
    · intro e h'
      obtain ⟨-, rfl⟩ := hg h'
      rw [hlen, Nat.cast_sub (by omega)]
      push_cast
      field_simp
      ring
    · intro i e e' h1 h2
      obtain ⟨-, rfl⟩ := hg h1
      obtain ⟨-, rfl⟩ := hg h2
      push_cast
      ring
    · intro i e h'
      obtain ⟨-, rfl⟩ := hg h'
      rw [hlen]
      ring
    · intro i e h'
      obtain ⟨-, rfl⟩ := hg h'
      have : 0 < (b - a) / n := div_pos (sub_pos.mpr hab) h0
      simpa using this
  · unfold elements
    split_ifs with h
    · simp only [reduceCtorEq, false_iff, not_or, not_le, not_lt]; exact ⟨h.1, by omega⟩
    · simp only [true_iff]
      by_contra hc
      simp only [not_or, not_le, not_lt] at hc
      exact h ⟨hc.1, by omega⟩

private theorem index {n : Nat} {a b : K} {es : List (K × K)} (h : elements n a b = some es) (x : K) :
    ∃ i : Nat, elementIndex es x = some ((i : Int) - 1) ∧ i ≤ n ∧
      (∀ j : Nat, j < i → a + j * ((b - a) / n) ≤ x) ∧ (∀ j : Nat, i ≤ j → j < n → x < a + j * ((b - a) / n)) := by
  obtain ⟨hab, hn, rfl⟩ := built h
  have hd : 0 < (b - a) / n := div_pos (sub_pos.mpr hab) (by exact_mod_cast (by omega : 0 < n))
  have hg : ∀ j (hj : j < ((buildElements ((b - a) / n) n a).map Prod.fst).length),
      ((buildElements ((b - a) / n) n a).map Prod.fst)[j] = a + j * ((b - a) / n) := by
    intro j hj
    have hj' : j < n := by rwa [List.length_map, build_length] at hj
    have := build_get ((b - a) / n) n a j hj'
    rw [List.getElem_map]
    rw [List.getElem?_eq_some_iff] at this
    rw [this.2]
  obtain ⟨i, e, -, h2, h3, h4⟩ := bisect_spec ((buildElements ((b - a) / n) n a).map Prod.fst) x (by
      rw [List.pairwise_iff_getElem]
      intro i j hi hj hij
      rw [hg, hg]
      have : (i : K) ≤ j := by exact_mod_cast hij.le
      nlinarith) _ 0 n rfl (by omega) (by rw [List.length_map, build_length]) (by intro j _ hj; omega) (by
      intro j hj hn; rw [List.length_map, build_length] at hj; omega)
  refine ⟨i, by simp [elementIndex, build_length, e], h2, ?_, ?_⟩
  · intro j hj
    have hj' : j < ((buildElements ((b - a) / n) n a).map Prod.fst).length := by rw [List.length_map, build_length]; omega
    have := h3 j hj' hj
    rwa [hg] at this
  · intro j hj hjn
    have hj' : j < ((buildElements ((b - a) / n) n a).map Prod.fst).length := by rw [List.length_map, build_length]; omega
    have := h4 j hj' hj
    rwa [hg] at this

/-- C100: Each point of the grid is looked up in the one element that contains it (left end included, right
end excluded). -/
theorem lookup {n : Nat} {a b x : K} {es : List (K × K)} (h : elements n a b = some es) (ha : a ≤ x) (hb : x < b) :
    ∃ (i : Nat) (e : K × K), elementIndex es x = some (i : Int) ∧ es[i]? = some e ∧ getElement es x = some e ∧
      e.1 ≤ x ∧ x < e.2 ∧ ∀ (j : Nat) (e' : K × K), es[j]? = some e' → e'.1 ≤ x → x < e'.2 → j = i := by
  obtain ⟨i, he, hin, h1, h2⟩ := index h x
  have hg := @get K _ _ _ n a b es h
  obtain ⟨hab, hn, hes⟩ := built h
  have h0 : (0 : K) < n := by exact_mod_cast (by omega : 0 < n)
  have hd : 0 < (b - a) / n := div_pos (sub_pos.mpr hab) h0
  have hpos : i ≠ 0 := by
    rintro rfl
    have := h2 0 le_rfl (by omega)
    simp at this
    exact absurd this (not_lt.mpr ha)
  obtain ⟨k, rfl⟩ : ∃ k, i = k + 1 := ⟨i - 1, by omega⟩
  have hk : es[k]? = some (a + k * ((b - a) / n), a + k * ((b - a) / n) + (b - a) / n) := by
    rw [hes]; exact build_get _ _ _ _ (by omega)
  have hright : x < a + k * ((b - a) / n) + (b - a) / n := by
    by_cases hlt : k + 1 < n
    · have := h2 (k + 1) le_rfl hlt
      push_cast at this
      linarith
    · have : k + 1 = n := by omega
      have hb' : a + k * ((b - a) / n) + (b - a) / n = b := by
        rw [← this]; push_cast
        have : ((k : K) + 1) ≠ 0 := by positivity
        field_simp; ring
      rw [hb']; exact hb
  have he' : elementIndex es x = some (k : Int) := by rw [he]; congr 1; push_cast; ring
  refine ⟨k, _, he', hk, ?_, h1 k (by omega), hright, ?_⟩
  · simp [getElement, he', pyGet, hk]
  · intro j e' hj hl hr
    obtain ⟨hjn, rfl⟩ := hg hj
    rcases lt_trichotomy j k with hjk | hjk | hjk
    · have c : (j : K) + 1 ≤ k := by exact_mod_cast hjk
      have := h1 k (by omega)
      dsimp only at hr
      nlinarith
    · exact hjk
    · have c : (k : K) + 1 ≤ j := by exact_mod_cast hjk
      dsimp only at hl
      nlinarith

/-- C100: What `get_solution_value` returns at a point of the grid is the value of the element that contains
the point. -/
theorem value {V : Type*} {n : Nat} {a b x : K} {es : List (K × K)} {values : List (K → V)}
    (h : elements n a b = some es) (hv : values.length = n) (ha : a ≤ x) (hb : x < b) :
    ∃ (i : Nat) (e : K × K) (u : K → V), es[i]? = some e ∧ values[i]? = some u ∧ e.1 ≤ x ∧ x < e.2 ∧
      solutionValue es values x = some (u x) := by
  obtain ⟨i, e, hi, hes, -, h1, h2, -⟩ := lookup h ha hb
  have hin := (get h hes).1
  have hu : values[i]? = some values[i] := List.getElem?_eq_getElem (by omega)
  exact ⟨i, e, _, hes, hu, h1, h2, by simp [solutionValue, hi, pyGet, hu]⟩

/-- C100: Beyond the right end (and at it) the last element answers. -/
theorem beyond {n : Nat} {a b x : K} {es : List (K × K)} (h : elements n a b = some es) (hb : b ≤ x) :
    elementIndex es x = some ((n : Int) - 1) ∧ ∃ e, getElement es x = some e ∧ e.2 = b := by
  obtain ⟨i, he, hin, h1, h2⟩ := index h x
  obtain ⟨hlen, hu⟩ := (uniform (n := n) (a := a) (b := b)).1 es h
  obtain ⟨hab, hn, hes⟩ := built h
  have h0 : (0 : K) < n := by exact_mod_cast (by omega : 0 < n)
  have : i = n := by
    by_contra hne
    have := h2 i le_rfl (by omega)
    have c : (i : K) ≤ n := by exact_mod_cast hin
    have : (i : K) * ((b - a) / n) ≤ b - a := by
      rw [mul_div_assoc', div_le_iff₀ h0]
      nlinarith
    linarith
  subst this
  refine ⟨he, ?_⟩
  have hk := build_get ((b - a) / i) i a (i - 1) (by omega)
  rw [← hes] at hk
  refine ⟨_, ?_, hu.last _ (by rw [hlen]; exact hk)⟩
  have e1 : ((i : Int) - 1).toNat = i - 1 := by omega
  simp only [getElement, he, Option.bind_some, pyGet]
  rw [if_pos (by omega), e1, hk]

/-- C100: Left of the grid the index is `-1`, which no check catches: the *last* element answers. -/
theorem before {n : Nat} {a b x : K} {es : List (K × K)} (h : elements n a b = some es) (ha : x < a) :
    elementIndex es x = some (-1) ∧ ∃ e, getElement es x = some e ∧ e.2 = b := by
  obtain ⟨i, he, hin, h1, h2⟩ := index h x
  obtain ⟨hlen, hu⟩ := (uniform (n := n) (a := a) (b := b)).1 es h
  obtain ⟨hab, hn, hes⟩ := built h
  have : i = 0 := by
    by_contra hne
    have := h1 0 (by omega)
    simp at this
    exact absurd this (not_le.mpr ha)
  subst this
  have he' : elementIndex es x = some (-1) := by simpa using he
  refine ⟨he', ?_⟩
  have hk := build_get ((b - a) / n) n a (n - 1) (by omega)
  rw [← hes] at hk
  refine ⟨_, ?_, hu.last _ (by rw [hlen]; exact hk)⟩
  have e1 : ((-1 : Int) + (es.length : Int)).toNat = n - 1 := by omega
  simp only [getElement, he', Option.bind_some, pyGet]
  rw [if_neg (by omega), if_pos (by omega), e1, hk]

example : elements 4 (0 : ℚ) 2 = some [(0, 1/2), (1/2, 1), (1, 3/2), (3/2, 2)] ∧
    elementIndex [(0, 1/2), (1/2, 1), (1, 3/2), (3/2, 2)] (1 : ℚ) = some 2 ∧
    elementIndex [(0, 1/2), (1/2, 1), (1, 3/2), (3/2, 2)] (-1 : ℚ) = some (-1) := by
  refine ⟨by decide +kernel, ?_, ?_⟩ <;> simp [elementIndex, bisectRight] <;> norm_num

end Elements

section Links

variable {K U : Type*} [Zero K] [Neg K]

/-- A new grid on which `set_boundary_values` is called with each pair of a list in turn. -/
def history (length : K) (n : Nat) : List (U × U) → Option (Links K U)
  | [] => Links.init length n
  | b :: bs => (history length n bs).bind fun s => s.setBoundary length (some b.1) (some b.2)

private theorem wired (length : K) {n : Nat} (h : 2 ≤ n) : ∀ bs : List (U × U),
    ∃ s, history length n bs = some s ∧ s.n = n ∧ Wired length bs.head? s
  | [] => init_wired length h
  | b :: bs => by
    obtain ⟨s, e, hn, hw⟩ := wired length h bs
    obtain ⟨s', e', hn', hw'⟩ := setBoundary_wired length hw b.1 b.2
    exact ⟨s', by simp only [history, e, Option.bind_some, e'], hn'.trans hn, hw'⟩

private theorem leftOf_right {n : Nat} {bc : Boundary U} {i : Nat} (h : i + 1 < n) :
    leftOf n bc (i + 1) = rightOf n bc i := by
  unfold leftOf rightOf
  rw [if_neg (by omega), if_neg (by omega)]; rfl

private theorem slot {length : K} {bc : Boundary U} {s : Links K U} (hw : Wired length bc s) {i : Nat} (hi : i < s.n) :
    ∃ k, s.faces (i + 1) = some k ∧ s.objects[k]? = some (rightOf s.n bc i) := by
  by_cases h : i + 1 = s.n
  · obtain ⟨k, h1, h2⟩ := hw.last
    exact ⟨k, by rw [h, h1], by rw [h2, show s.n - 1 = i by omega]⟩
  · obtain ⟨k, -, h1, h2⟩ := hw.left (i + 1) (by omega)
    exact ⟨k, h1, by rw [h2, leftOf_right (by omega)]⟩

/-- C101: However often the boundary values have been set, in each evaluation of the residual every element
reads off its faces what has just been computed there: the Riemann problem with the element before or after
it, at the ends of the grid with the last or first element (periodic grid) or with the boundary values set
last.  No face keeps an old value, whatever it held before. -/
theorem faces_fresh {F : Type*} (length : K) {n : Nat} (h : 2 ≤ n) (bs : List (U × U)) :
    ∃ s, history length n bs = some s ∧ s.n = n ∧ ∀ (f : Face U → F) (held : Nat → Option F),
      ∃ held', s.solve f s.solved held = some held' ∧
        ∀ i, i < n → s.read held' i = some (f (leftOf n bs.head? i), f (rightOf n bs.head? i)) := by
  obtain ⟨s, e, hn, hw⟩ := wired length h bs
  refine ⟨s, e, hn, fun f held => ?_⟩
  have hin : ∀ i, i ∈ s.solved ↔ i < s.n + if s.periodic then 0 else 1 := by simp [Links.solved]
  obtain ⟨held', hs, hk⟩ := solve_ok s f s.solved held (by
    intro i hi
    rw [hin] at hi
    by_cases hlt : i < s.n
    · obtain ⟨k, -, h1, h2⟩ := hw.left i hlt
      exact ⟨k, _, h1, h2⟩
    · obtain ⟨k, h1, h2⟩ := hw.last
      have : i = s.n := by split_ifs at hi <;> omega
      exact ⟨k, _, by rw [this, h1], h2⟩)
  refine ⟨held', hs, fun i hi => ?_⟩
  rw [← hn] at hi ⊢
  obtain ⟨k, hl, hf, ho⟩ := hw.left i hi
  obtain ⟨k', hf', ho'⟩ := slot hw hi
  have hr : s.rightFace i = some k' := by rw [hw.right i hi, hf']
  obtain ⟨o, ho1, hh⟩ := (hk k).1 i ((hin i).mpr (by omega)) hf
  have hr' : ∃ j ∈ s.solved, s.faces j = some k' := by
    by_cases hlast : i + 1 = s.n
    · cases hb : bs.head? with
      | none =>
        refine ⟨0, (hin 0).mpr (by omega), ?_⟩
        rw [← hw.wrap hb, ← hlast, hf']
      | some b =>
        refine ⟨i + 1, (hin _).mpr ?_, hf'⟩
        rw [hw.periodic, hb]
        simp; omega
    · exact ⟨i + 1, (hin _).mpr (by omega), hf'⟩
  obtain ⟨j, hj, hfj⟩ := hr'
  obtain ⟨o', ho2, hh'⟩ := (hk k').1 j hj hfj
  rw [ho] at ho1; cases ho1
  rw [ho'] at ho2; cases ho2
  simp only [Links.read, hl, hr, hh, hh']

/-- C101: No face is solved twice in one evaluation. -/
theorem faces_once (length : K) {n : Nat} (h : 2 ≤ n) (bs : List (U × U)) :
    ∃ s, history length n bs = some s ∧ (s.solved.map s.faces).Nodup := by
  obtain ⟨s, e, hn, hw⟩ := wired length h bs
  refine ⟨s, e, ?_⟩
  have hin : ∀ i, i ∈ s.solved → i < s.n + if s.periodic then 0 else 1 := by simp [Links.solved]
  have obj : ∀ i ∈ s.solved, ∃ k, s.faces i = some k ∧
      s.objects[k]? = some (if i < s.n then leftOf s.n bs.head? i else rightOf s.n bs.head? (s.n - 1)) := by
    intro i hi
    by_cases hlt : i < s.n
    · obtain ⟨k, -, h1, h2⟩ := hw.left i hlt
      exact ⟨k, h1, by rw [h2, if_pos hlt]⟩
    · obtain ⟨k, h1, h2⟩ := hw.last
      have := hin i hi
      have : i = s.n := by split_ifs at this <;> omega
      exact ⟨k, by rw [this, h1], by rw [h2, if_neg hlt]⟩
  refine List.Nodup.map_on ?_ (List.nodup_range (n := s.n + if s.periodic then 0 else 1))
  intro i hi j hj hij
  obtain ⟨k, h1, h2⟩ := obj i hi
  obtain ⟨k', h1', h2'⟩ := obj j hj
  rw [h1, h1'] at hij
  cases hij
  rw [h2'] at h2
  have hi' := hin i hi
  have hj' := hin j hj
  have hp := hw.periodic
  have hm := hw.many
  cases hb : bs.head? with
  | none =>
    rw [hb] at h2 hp
    simp only [Option.isNone_none] at hp
    rw [hp] at hi' hj'
    simp only [if_true, Nat.add_zero] at hi' hj'
    rw [if_pos hi', if_pos hj'] at h2
    unfold leftOf at h2
    split_ifs at h2 <;> first | omega | (simp at h2; omega) | simp at h2
  | some b =>
    rw [hb] at h2
    obtain ⟨ul, ur⟩ := b
    have hl : s.n - 1 + 1 = s.n := by omega
    simp only [leftOf, rightOf, hl, if_true] at h2
    rw [hp, hb] at hi' hj'
    simp only [Option.isNone_some, Bool.false_eq_true, if_false] at hi' hj'
    split_ifs at h2 <;> first | omega | (simp at h2; omega) | simp at h2

/-- C101: The neighbours of each element. -/
theorem neighbours (length : K) {n : Nat} (h : 2 ≤ n) (bs : List (U × U)) :
    ∃ s, history length n bs = some s ∧ ∀ i, i < n →
      s.leftExpansion i = leftNeighbour n length bs.head? i ∧ s.rightExpansion i = rightNeighbour n length bs.head? i := by
  obtain ⟨s, e, rfl, hw⟩ := wired length h bs
  exact ⟨s, e, fun i hi => ⟨hw.leftN i hi, hw.rightN i hi⟩⟩

/-- C101: `set_boundary_values` accepts `None` in its assertions, but fails; `link_neighbors` must not be
called again on a periodic grid. -/
theorem refused (length : K) (s : Links K U) (u : Option U) :
    s.setBoundary length none u = none ∧ s.setBoundary length u none = none := by
  cases u <;> exact ⟨rfl, rfl⟩

theorem relink (length : K) {n : Nat} (h : 2 ≤ n) :
    ∃ s : Links K U, Links.init length n = some s ∧ s.linkNeighbors length = none := by
  obtain ⟨s, e, hn, hw⟩ := init_wired (U := U) length h
  refine ⟨s, e, ?_⟩
  obtain ⟨-, hp, -, hf, -⟩ := linked_interior s (by omega)
  rw [link_eq, Links.finish]
  obtain ⟨k, -, h0, -⟩ := hw.left 0 (by omega)
  have f0 : s.interior.faces 0 = some k := by rw [hf]; simpa using h0
  have hp' : s.interior.periodic = true := by rw [hp, hw.periodic]; rfl
  simp [hp', f0]

end Links

section Places

variable {K : Type*} [Field K] [LinearOrder K] [IsStrictOrderedRing K]

/-- C101: The neighbour of an element, moved by the shift of its wrapper, has the length of the element and
touches it: on the left it ends where the element starts, on the right it starts where the element ends. -/
theorem adjacent {U : Type*} {n : Nat} {a b : K} {es : List (K × K)} (h : elements n a b = some es) (bc : Boundary U)
    {i : Nat} {e : K × K} (hi : es[i]? = some e) :
    (∀ j t, leftNeighbour n (b - a) bc i = some (j, t) → ∃ e', es[j]? = some e' ∧ e'.2 + t = e.1 ∧ e'.2 - e'.1 = e.2 - e.1) ∧
    (∀ j t, rightNeighbour n (b - a) bc i = some (j, t) → ∃ e', es[j]? = some e' ∧ e'.1 + t = e.2 ∧ e'.2 - e'.1 = e.2 - e.1) := by
  obtain ⟨hlen, hu⟩ := (uniform (n := n) (a := a) (b := b)).1 es h
  obtain ⟨-, hn, -⟩ := built h
  have hin := (get h hi).1
  have hget : ∀ j, j < n → ∃ e', es[j]? = some e' := fun j hj => ⟨_, List.getElem?_eq_getElem (by omega)⟩
  have same : ∀ (j : Nat) (e' : K × K), es[j]? = some e' → e'.2 - e'.1 = e.2 - e.1 := by
    intro j e' hj; rw [hu.size _ _ hj, hu.size _ _ hi]
  constructor
  · intro j t hj
    unfold leftNeighbour at hj
    split_ifs at hj with h0 hb
    · cases hj
      subst h0
      obtain ⟨e', hk⟩ := hget (n - 1) (by omega)
      exact ⟨_, hk, by rw [hu.last _ (by rw [hlen]; exact hk), hu.first _ hi]; ring, same _ _ hk⟩
    · cases hj
      obtain ⟨e', hk⟩ := hget (i - 1) (by omega)
      exact ⟨_, hk, by rw [add_zero]; exact hu.chain (i - 1) _ _ hk (by rw [show i - 1 + 1 = i by omega]; exact hi), same _ _ hk⟩
  · intro j t hj
    unfold rightNeighbour at hj
    split_ifs at hj with h0 hb
    · cases hj
      obtain ⟨e', hk⟩ := hget 0 (by omega)
      exact ⟨_, hk, by rw [hu.first _ hk, hu.last e (by rw [hlen, show n - 1 = i by omega]; exact hi)]; ring, same _ _ hk⟩
    · cases hj
      obtain ⟨e', hk⟩ := hget (i + 1) (by omega)
      exact ⟨_, hk, by rw [add_zero]; exact (hu.chain i _ _ hi hk).symm, same _ _ hk⟩

end Places

section Columns

variable {α : Type*}

/-- C102: Where each coefficient stands in the solution column (and each residual in the residual column):
element by element, in each element component by component. -/
theorem layout {rows cols : Nat} (es : List (Nat → Nat → α)) {i r c : Nat} {e : Nat → Nat → α} (he : es[i]? = some e)
    (hr : r < rows) (hc : c < cols) :
    (getSolutionColumn rows cols es)[i * (rows * cols) + (c * rows + r)]? = some (e r c) := by
  induction es generalizing i with
  | nil => simp at he
  | cons e0 es ih =>
    have hs : c * rows + r < rows * cols := by
      have h1 : (c + 1) * rows ≤ cols * rows := Nat.mul_le_mul_right _ hc
      have e1 : (c + 1) * rows = c * rows + rows := by ring
      have e2 : cols * rows = rows * cols := Nat.mul_comm _ _
      omega
    unfold getSolutionColumn at ih ⊢
    rw [List.flatMap_cons]
    cases i with
    | zero =>
      simp only [List.getElem?_cons_zero, Option.some.injEq] at he
      subst he
      rw [List.getElem?_append_left (by rw [write_length]; omega)]
      simp [writeLoop, slots_get hr hc]
    | succ i =>
      simp only [List.getElem?_cons_succ] at he
      have e1 : (i + 1) * (rows * cols) = rows * cols + i * (rows * cols) := by ring
      rw [List.getElem?_append_right (by rw [write_length]; omega), write_length,
        show (i + 1) * (rows * cols) + (c * rows + r) - rows * cols = i * (rows * cols) + (c * rows + r) by omega]
      exact ih he

/-- C102: A column of the right length is taken and given back unchanged; any other is refused. -/
theorem set_get (rows cols : Nat) (es : List (Nat → Nat → α)) (column : List α) :
    (column.length = es.length * (rows * cols) →
      ∃ es', setSolutionColumn rows cols es column = some es' ∧ es'.length = es.length ∧
        getSolutionColumn rows cols es' = column) ∧
    (column.length ≠ es.length * (rows * cols) → setSolutionColumn rows cols es column = none) := by
  refine ⟨fun h => ?_, fun h => by simp [setSolutionColumn, h]⟩
  obtain ⟨es', h1, h2, h3⟩ := set_ok rows cols es column h
  exact ⟨es', by simp [setSolutionColumn, h, h1], h2, h3⟩

/-- C102: Writing back the column that was read restores the coefficients. -/
theorem get_set (rows cols : Nat) (es fs : List (Nat → Nat → α)) (h : es.length = fs.length) :
    ∃ es', setSolutionColumn rows cols es (getSolutionColumn rows cols fs) = some es' ∧ es'.length = fs.length ∧
      ∀ (i : Nat) (e f : Nat → Nat → α), es'[i]? = some e → fs[i]? = some f → ∀ r c, r < rows → c < cols → e r c = f r c := by
  obtain ⟨es', h1, h2, h3⟩ := (set_get rows cols es (getSolutionColumn rows cols fs)).1 (by rw [get_length, h])
  refine ⟨es', h1, h2.trans h, fun i e f he hf r c hr hc => ?_⟩
  have a := layout es' he hr hc
  have b := layout fs hf hr hc
  rw [h3, b] at a
  exact (Option.some.inj a).symm

example : getSolutionColumn 2 3 [fun r c => 10 * r + c, fun r c => 100 + 10 * r + c] =
    [0, 10, 1, 11, 2, 12, 100, 110, 101, 111, 102, 112] := by decide

end Columns

section Scheme

open PyDG

variable {p n : Nat} {V : Type*} [AddCommGroup V] [Module ℝ V]

/-- What `solve` of a face computes, for the elements of a grid of C95. -/
noncomputable def solveFace (ph : Physics V) (g : PyDG.Grid p n V) : Face V → V × V
  | .interface l r => PyDG.interface ph (g.cells (Fin.ofNat _ l)) (g.cells (Fin.ofNat _ r))
  | .inlet u i true =>
    (ph.upwind u (PyExpansion.boundaryDerivatives (g.cells (Fin.ofNat _ i)).setup (g.cells (Fin.ofNat _ i)).state 0 true), (0 : ℝ) • u)
  | .inlet u i false =>
    (ph.upwind (PyExpansion.boundaryDerivatives (g.cells (Fin.ofNat _ i)).setup (g.cells (Fin.ofNat _ i)).state 0 false) u, (0 : ℝ) • u)

/-- C101: The faces of C95 (`leftFace`, `rightFace`) are what the elements of the grid read. -/
theorem same_faces (ph : Physics V) (g : PyDG.Grid p n V) (i : Fin (n + 2)) :
    solveFace ph g (leftOf (n + 2) g.boundary i) = PyDG.leftFace ph g i ∧
    solveFace ph g (rightOf (n + 2) g.boundary i) = PyDG.rightFace ph g i := by
  have hlast : (Fin.ofNat (n + 2) (n + 1)) = Fin.last (n + 1) := by
    apply Fin.ext; simp
  have hself : ∀ j : Fin (n + 2), Fin.ofNat (n + 2) j = j := by
    intro j; apply Fin.ext; simp [Nat.mod_eq_of_lt j.2]
  have hleft : ∀ j : Fin (n + 2), solveFace ph g (leftOf (n + 2) g.boundary j) = PyDG.leftFace ph g j := by
    intro j
    by_cases h0 : j = 0
    · subst h0
      simp only [leftOf, PyDG.leftFace, Fin.val_zero, if_true]
      cases g.boundary with
      | none => simp only [solveFace]; congr 2
      | some b => rfl
    · have hv : (j : Nat) ≠ 0 := fun h => h0 (Fin.ext h)
      unfold leftOf PyDG.leftFace
      rw [if_neg hv, if_neg h0, solveFace, hself]
      congr 2
      apply Fin.ext
      rw [Fin.val_sub_one_of_ne_zero h0, Fin.val_ofNat, Nat.mod_eq_of_lt (by omega)]
  refine ⟨hleft i, ?_⟩
  by_cases h1 : i = Fin.last _
  · subst h1
    simp only [rightOf, PyDG.rightFace, Fin.val_last, if_true]
    cases hb : g.boundary with
    | none =>
      have := hleft 0
      simp only [leftOf, hb, Fin.val_zero, if_true] at this
      exact this
    | some b =>
      simp only [solveFace, show n + 2 - 1 = n + 1 from rfl, hlast]
  · have hv : (i : Nat) + 1 ≠ n + 2 := fun h => h1 (Fin.ext (by simpa using h))
    have := hleft (i + 1)
    have hi1 : ((i + 1 : Fin (n + 2)) : Nat) = i + 1 := by
      rw [Fin.val_add_one_of_lt (Fin.lt_last_iff_ne_last.mpr h1)]
    rw [hi1, leftOf_right (by omega)] at this
    unfold PyDG.rightFace
    rw [this, if_neg h1]

/-- C101: On a grid with boundary values `FluxReconstruction.get_flux_value` does not solve the Riemann
problems of the boundary faces, but those of a periodic grid. -/
theorem flux_value_faces (m : Nat) (hm : 2 ≤ m) (i : Nat) (hi : i < m) :
    (Face.interface (fluxValueFaces m i).1.1 (fluxValueFaces m i).1.2 = leftOf m (none : Boundary U) i ∧
      Face.interface (fluxValueFaces m i).2.1 (fluxValueFaces m i).2.2 = rightOf m (none : Boundary U) i) ∧
    ∀ b : U × U, (i = 0 → Face.interface (fluxValueFaces m i).1.1 (fluxValueFaces m i).1.2 ≠ leftOf m (some b) i) ∧
      (i + 1 = m → Face.interface (fluxValueFaces m i).2.1 (fluxValueFaces m i).2.2 ≠ rightOf m (some b) i) := by
  refine ⟨⟨?_, ?_⟩, fun b => ⟨?_, ?_⟩⟩
  · unfold fluxValueFaces previous leftOf
    split_ifs with h
    · subst h; rfl
    · rfl
  · unfold fluxValueFaces rightOf
    split_ifs with h
    · have : i = m - 1 := by omega
      subst this
      rw [h, Nat.mod_self]
    · rw [Nat.mod_eq_of_lt (by omega)]
  · intro h; simp [leftOf, h]
  · intro h; simp [rightOf, h]

end Scheme

end MiniCFD.PyGrid
