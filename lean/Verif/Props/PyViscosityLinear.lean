import Verif.Props.PyViscosityProfile

/-! # C117: the linear profile of the energy-based viscosity -/

namespace MiniCFD.PyViscosity.Linear

section Scalar
variable {nu : ℕ → Option ℝ} {speeds : ℕ → ℝ} {indices : List ℕ} {count : ℕ} {sites : ℕ → Site} {periodic : Bool}
  {d : Dict (ℝ → ℝ)}

/-- The face at the right of an element: the last element of a periodic grid shares face 0, of another grid it has a face of its
own. -/
def faceAfter (periodic : Bool) (count i : ℕ) : ℕ := if periodic = true ∧ i + 1 = count then 0 else i + 1

theorem rightFace_eq (periodic : Bool) (count i : ℕ) : rightFace periodic count i = faceAfter periodic count i := by
  unfold rightFace faceAfter
  cases periodic <;> simp

/-- The value at the left face of an element, and the one at its right face. -/
noncomputable def sides (nu : ℕ → Option ℝ) (speeds : ℕ → ℝ) (indices : List ℕ) (count : ℕ) (periodic : Bool)
    (c : Site) (i : ℕ) : ℝ × ℝ :=
  (upwind (speeds i) (if c.hasLeft then level nu indices (before count i) else level nu indices (before count i) * 0)
    (level nu indices i),
   upwind (speeds (rightFace periodic count i)) (level nu indices i)
    (if c.hasRight then level nu indices (after count i) else level nu indices (after count i) * 0))

noncomputable def line (ends : ℝ × ℝ) (c : Site) (x : ℝ) : ℝ :=
  ends.1 * (1 - (x - c.xLeft) / c.length) + ends.2 * ((x - c.xLeft) / c.length)

private theorem callable_line {i : ℕ} (hi : i < count) (hm : i ∈ indices) (hn : (nu i).isSome) (c : Site) :
    callableCoeff speeds periodic (fun i => if i ∈ indices then nu i else none) count i c =
      some (line (sides nu speeds indices count periodic c i) c) := by
  obtain ⟨v, hv⟩ := Option.isSome_iff_exists.1 hn
  have hlev : ∀ j, ((if j ∈ indices then nu j else none : Option ℝ)).getD 0 = level nu indices j := by
    intro j
    unfold level
    split_ifs <;> rfl
  have hlv : level nu indices i = v := by rw [← hlev, if_pos hm, hv]; rfl
  unfold callableCoeff
  simp only [if_pos hm, hv, Option.bind_some, getNu_before hi, getNu_after hi, hlev, Option.map_some]
  unfold line sides
  rw [hlv]

/-- C117: `generate` stores a profile for every troubled element and for no other, and succeeds if every troubled element
has its constant. -/
theorem generate_profiles (hn : ∀ i ∈ indices, i < count ∧ (nu i).isSome) :
    ∃ d, generate nu speeds periodic count sites indices = some d ∧ ∀ i, (d i).isSome ↔ i ∈ indices := by
  refine ⟨fun i => if i ∈ indices then some (line (sides nu speeds indices count periodic (sites i) i) (sites i)) else none,
    ?_, fun i => by by_cases hi : i ∈ indices <;> simp [hi]⟩
  unfold generate
  rw [(fill_eq nu indices _ _).2 ⟨fun i hi => (hn i hi).2, rfl⟩, Option.bind_some, fill_eq]
  refine ⟨fun i hi => by rw [callable_line (hn i hi).1 hi (hn i hi).2]; rfl, ?_⟩
  funext i
  by_cases hi : i ∈ indices
  · rw [if_pos hi, if_pos hi, callable_line (hn i hi).1 hi (hn i hi).2]
  · rw [if_neg hi, if_neg hi]

theorem generated (hn : ∀ i ∈ indices, i < count) (h : generate nu speeds periodic count sites indices = some d)
    {i : ℕ} {f : ℝ → ℝ} (hf : d i = some f) :
    i ∈ indices ∧ i < count ∧ f = line (sides nu speeds indices count periodic (sites i) i) (sites i) := by
  unfold generate at h
  rw [Option.bind_eq_some_iff] at h
  obtain ⟨nus, h1, h2⟩ := h
  obtain ⟨hsome, rfl⟩ := (fill_eq nu indices _ _).1 h1
  obtain ⟨_, rfl⟩ := (fill_eq _ indices _ _).1 h2
  dsimp only at hf
  by_cases hi : i ∈ indices
  · rw [if_pos hi, callable_line (hn i hi) hi (hsome i hi)] at hf
    exact ⟨hi, hn i hi, (Option.some.inj hf).symm⟩
  · rw [if_neg hi] at hf
    cases hf

private theorem line_ends {c : Site} (hl : 0 < c.length) (e : ℝ × ℝ) :
    line e c c.xLeft = e.1 ∧ line e c (c.xLeft + c.length) = e.2 := by
  unfold line
  constructor
  · simp
  · rw [add_sub_cancel_left, div_self hl.ne']; ring

/-- C117: At a face the profile is the constant of the element from which the waves come: of the left element if they run
to the right, of the right element if they run to the left, the mean if they stand.  Zero counts for an untroubled
element and beyond the ends of a grid that is not periodic. -/
theorem face_values (hs : Chain periodic count sites) (hn : ∀ i ∈ indices, i < count)
    (h : generate nu speeds periodic count sites indices = some d) {i : ℕ} {f : ℝ → ℝ} (hf : d i = some f) :
    ((0 < speeds i → f (sites i).xLeft = if periodic = true ∨ i ≠ 0 then level nu indices (before count i) else 0) ∧
      (speeds i < 0 → f (sites i).xLeft = level nu indices i) ∧
      (speeds i = 0 → f (sites i).xLeft =
        ((if periodic = true ∨ i ≠ 0 then level nu indices (before count i) else 0) + level nu indices i) / 2)) ∧
    ((0 < speeds (faceAfter periodic count i) → f ((sites i).xLeft + (sites i).length) = level nu indices i) ∧
      (speeds (faceAfter periodic count i) < 0 → f ((sites i).xLeft + (sites i).length) =
        if periodic = true ∨ i + 1 ≠ count then level nu indices (after count i) else 0) ∧
      (speeds (faceAfter periodic count i) = 0 → f ((sites i).xLeft + (sites i).length) =
        (level nu indices i + if periodic = true ∨ i + 1 ≠ count then level nu indices (after count i) else 0) / 2)) := by
  obtain ⟨_, hi, rfl⟩ := generated hn h hf
  obtain ⟨e1, e2⟩ := line_ends (hs.pos i hi) (sides nu speeds indices count periodic (sites i) i)
  rw [e1, e2]
  unfold sides upwind
  rw [rightFace_eq]
  simp only [hs.left i hi, hs.right i hi, mul_zero]
  refine ⟨⟨fun hp => ?_, fun hp => ?_, fun hp => ?_⟩, fun hp => ?_, fun hp => ?_, fun hp => ?_⟩
  · rw [if_pos hp]
  · rw [if_neg hp.not_gt, if_pos hp]
  · rw [if_neg (by rw [hp]; exact lt_irrefl _), if_neg (by rw [hp]; exact lt_irrefl _)]
  · rw [if_pos hp]
  · rw [if_neg hp.not_gt, if_pos hp]
  · rw [if_neg (by rw [hp]; exact lt_irrefl _), if_neg (by rw [hp]; exact lt_irrefl _)]

/-- C117: Between two troubled elements the viscosity has no jump, also across the ends of a periodic grid. -/
theorem no_jump (hs : Chain periodic count sites) (hn : ∀ i ∈ indices, i < count)
    (h : generate nu speeds periodic count sites indices = some d) {i : ℕ} (hp : periodic = true ∨ i + 1 ≠ count)
    {f g : ℝ → ℝ} (hf : d i = some f) (hg : d (after count i) = some g) :
    f ((sites i).xLeft + (sites i).length) = g (sites (after count i)).xLeft := by
  obtain ⟨_, hi, rfl⟩ := generated hn h hf
  obtain ⟨_, hj, rfl⟩ := generated hn h hg
  rw [(line_ends (hs.pos i hi) _).2, (line_ends (hs.pos _ hj) _).1]
  have hb : before count (after count i) = i := by
    unfold before after
    by_cases h1 : i + 1 = count
    · rw [if_pos h1, if_pos rfl]; omega
    · rw [if_neg h1, if_neg (by omega)]; omega
  have hp' : periodic = true ∨ after count i ≠ 0 := by
    rcases hp with hp | hp
    · exact .inl hp
    · right; unfold after; rw [if_neg hp]; omega
  have hr : rightFace periodic count i = after count i := by
    unfold rightFace after
    rcases hp with hp | hp
    · by_cases e : i + 1 = count <;> simp [hp, e]
    · simp [hp]
  unfold sides
  simp only [hs.right i hi, hs.left _ hj, if_pos hp, if_pos hp', hb, hr]

private theorem upwind_between {speed l r lo hi : ℝ} (h1 : lo ≤ l) (h2 : lo ≤ r) (h3 : l ≤ hi) (h4 : r ≤ hi) :
    lo ≤ upwind speed l r ∧ upwind speed l r ≤ hi := by
  unfold upwind
  split_ifs <;> constructor <;> linarith

private theorem level_nonneg (h0 : ∀ i v, nu i = some v → 0 ≤ v) (i : ℕ) : 0 ≤ level nu indices i := by
  unfold level
  split_ifs
  · cases h : nu i with
    | none => exact le_refl _
    | some v => exact h0 i v h
  · exact le_refl _

/-- C117: In the whole element the profile is not negative and at most the largest of the constants of the element and its
neighbours. -/
theorem profile_bounds (hs : Chain periodic count sites) (hn : ∀ i ∈ indices, i < count)
    (h0 : ∀ i v, nu i = some v → 0 ≤ v) (h : generate nu speeds periodic count sites indices = some d) {i : ℕ} {f : ℝ → ℝ}
    (hf : d i = some f) {x : ℝ} (hx : (sites i).xLeft ≤ x) (hx' : x ≤ (sites i).xLeft + (sites i).length) {bound : ℝ}
    (hb : level nu indices i ≤ bound ∧ level nu indices (before count i) ≤ bound ∧ level nu indices (after count i) ≤ bound) :
    0 ≤ f x ∧ f x ≤ bound := by
  obtain ⟨_, hi, rfl⟩ := generated hn h hf
  have hl := hs.pos i hi
  have l0 := level_nonneg (indices := indices) h0 i
  have l1 := level_nonneg (indices := indices) h0 (before count i)
  have l2 := level_nonneg (indices := indices) h0 (after count i)
  have a1 : 0 ≤ (sides nu speeds indices count periodic (sites i) i).1 ∧
      (sides nu speeds indices count periodic (sites i) i).1 ≤ bound := by
    refine upwind_between ?_ l0 ?_ hb.1 <;> split_ifs <;> linarith [hb.1, hb.2.1]
  have a2 : 0 ≤ (sides nu speeds indices count periodic (sites i) i).2 ∧
      (sides nu speeds indices count periodic (sites i) i).2 ≤ bound := by
    refine upwind_between l0 ?_ hb.1 ?_ <;> split_ifs <;> linarith [hb.1, hb.2.2]
  have y0 : 0 ≤ (x - (sites i).xLeft) / (sites i).length := div_nonneg (by linarith) hl.le
  have y1 : (x - (sites i).xLeft) / (sites i).length ≤ 1 := (div_le_one hl).2 (by linarith)
  unfold line
  set y := (x - (sites i).xLeft) / (sites i).length
  constructor
  · exact add_nonneg (mul_nonneg a1.1 (by linarith)) (mul_nonneg a2.1 y0)
  · have b1 := mul_le_mul_of_nonneg_right a1.2 (by linarith : 0 ≤ 1 - y)
    have b2 := mul_le_mul_of_nonneg_right a2.2 y0
    linarith

/-- C117: The profile is affine: halfway it is the mean of the values at the faces, and so on. -/
theorem profile_affine (hs : Chain periodic count sites) (hn : ∀ i ∈ indices, i < count)
    (h : generate nu speeds periodic count sites indices = some d) {i : ℕ} {f : ℝ → ℝ} (hf : d i = some f) (t : ℝ) :
    f ((sites i).xLeft + t * (sites i).length) =
      (1 - t) * f (sites i).xLeft + t * f ((sites i).xLeft + (sites i).length) := by
  obtain ⟨_, hi, rfl⟩ := generated hn h hf
  have hl := (hs.pos i hi).ne'
  rw [(line_ends (hs.pos i hi) _).1, (line_ends (hs.pos i hi) _).2]
  unfold line
  field_simp
  ring

/-- Elements 1 and 2 of 4 are troubled, with constants 1 and 2, and the waves run to the right: the profile of element 2
begins with the constant of element 1. -/
example : ∃ d f, generate (fun i => some (i : ℝ)) (fun _ => 1) true 4 Quadratic.units [1, 2] = some d ∧ d 2 = some f ∧
    f 2 = 1 ∧ f 3 = 2 := by
  have hn : ∀ i ∈ [1, 2], i < 4 ∧ ((fun i => some (i : ℝ) : ℕ → Option ℝ) i).isSome := by simp
  obtain ⟨d, h, hd⟩ := generate_profiles (speeds := fun _ => 1) (periodic := true) (sites := Quadratic.units) hn
  obtain ⟨f, hf⟩ := Option.isSome_iff_exists.1 ((hd 2).2 (by simp))
  have hv := face_values (Quadratic.units_chain 4) (fun i hi => (hn i hi).1) h hf
  have h1 := hv.1.1 (by norm_num)
  have h2 := hv.2.1 (by norm_num)
  refine ⟨d, f, h, hf, ?_, ?_⟩
  · have : (Quadratic.units 2).xLeft = 2 := by simp [Quadratic.units]
    rw [this] at h1
    rw [h1]
    simp [level, before]
  · have : (Quadratic.units 2).xLeft + (Quadratic.units 2).length = 3 := by simp [Quadratic.units]; norm_num
    rw [this] at h2
    rw [h2]
    simp [level]

end Scalar

section Systems
variable {m : ℕ} {nu : ℕ → Option (Fin m → ℝ)} {speeds : ℕ → Fin m → ℝ}
  {eigen : ℕ → Matrix (Fin m) (Fin m) ℝ × Matrix (Fin m) (Fin m) ℝ} {indices : List ℕ} {count : ℕ} {sites : ℕ → Site}
  {periodic : Bool}

private theorem lookup_before {α : Type*} {nus : Dict α} {i : ℕ} (hi : i < count) :
    lookup nus (i - 1) count = some (nus (before count i)) := by
  unfold lookup before
  rw [if_pos (by omega)]
  dsimp only
  by_cases h : i = 0
  · subst h
    have e : (if (((0 : ℕ) : ℤ) - 1) < 0 then ((0 : ℕ) : ℤ) - 1 + (count : ℤ) else ((0 : ℕ) : ℤ) - 1) = (count : ℤ) - 1 := by
      rw [if_pos (by simp)]; push_cast; ring
    rw [e, if_neg (by omega)]
    simp only [if_true]
    congr 2
    omega
  · rw [if_neg (by omega : ¬((i : ℤ) - 1 < 0)), if_neg (by omega : ¬((i : ℤ) - 1 = count)), if_neg h]
    congr 2
    omega

private theorem lookup_after {α : Type*} {nus : Dict α} {i : ℕ} (hi : i < count) :
    lookup nus (i + 1) count = some (nus (after count i)) := by
  unfold lookup after
  rw [if_pos (by omega)]
  dsimp only
  rw [if_neg (by omega : ¬((i : ℤ) + 1 < 0))]
  by_cases h : i + 1 = count
  · rw [if_pos (by omega : ((i : ℤ) + 1 = count)), if_pos h]; simp
  · rw [if_neg (by omega : ¬((i : ℤ) + 1 = count)), if_neg h]
    congr 2

private theorem needs_neighbours {nus : Dict (Fin m → ℝ)} {i : ℕ} (hi : i < count) (c : Site) :
    (callableVector speeds eigen periodic nus count i c).isSome ↔
      (nus i).isSome ∧ (nus (before count i)).isSome ∧ (nus (after count i)).isSome := by
  unfold callableVector
  rw [lookup_before hi, lookup_after hi]
  cases h0 : nus i <;> cases h1 : nus (before count i) <;> cases h2 : nus (after count i) <;> cases c.hasLeft <;>
    cases c.hasRight <;> simp [upwindVector]

/-- C117: For a system with more than one component, `generate` succeeds with a troubled element only if every element of
the grid is troubled. -/
theorem system_all_or_nothing (hn : ∀ i ∈ indices, i < count) {d : Dict (ℝ → Matrix (Fin m) (Fin m) ℝ)}
    (h : generateVector nu speeds eigen periodic count sites indices = some d) (hne : indices ≠ []) :
    ∀ i < count, i ∈ indices := by
  unfold generateVector at h
  rw [Option.bind_eq_some_iff] at h
  obtain ⟨nus, h1, h2⟩ := h
  obtain ⟨hsome, rfl⟩ := (fill_eq nu indices _ _).1 h1
  have hall := ((fill_eq _ indices _ _).1 h2).1
  have hmem : ∀ j, ((if j ∈ indices then nu j else none : Option (Fin m → ℝ))).isSome → j ∈ indices := by
    intro j hj
    by_contra hc
    rw [if_neg hc] at hj
    cases hj
  have step : ∀ i ∈ indices, after count i ∈ indices := fun i hi =>
    hmem _ ((needs_neighbours (hn i hi) _).1 (hall i hi)).2.2
  obtain ⟨i0, hi0⟩ := List.exists_mem_of_ne_nil _ hne
  have hup : ∀ a ∈ indices, ∀ k, a + k < count → a + k ∈ indices := by
    intro a ha k
    induction k with
    | zero => intro _; exact ha
    | succ k ih =>
      intro hk
      have := step _ (ih (by omega))
      unfold after at this
      rwa [if_neg (by omega)] at this
  have h0 : 0 ∈ indices := by
    have hlast := hup i0 hi0 (count - 1 - i0) (by have := hn i0 hi0; omega)
    have := step _ hlast
    unfold after at this
    rwa [if_pos (by have := hn i0 hi0; omega)] at this
  intro i hi
  have := hup 0 h0 i (by omega)
  rwa [zero_add] at this

/-- C117: If all elements are troubled and have their constants, it succeeds. -/
theorem system_all (h1 : ∀ i < count, (nu i).isSome) :
    (generateVector nu speeds eigen periodic count sites (List.range count)).isSome := by
  unfold generateVector
  rw [(fill_eq nu _ _ _).2 ⟨fun i hi => h1 i (List.mem_range.1 hi), rfl⟩, Option.bind_some, Option.isSome_iff_exists]
  refine ⟨_, (fill_eq _ _ _ _).2 ⟨fun i hi => ?_, rfl⟩⟩
  have hi := List.mem_range.1 hi
  have hb : before count i < count := by unfold before; split_ifs <;> omega
  have ha : after count i < count := by unfold after; split_ifs <;> omega
  rw [needs_neighbours hi]
  simp only [List.mem_range, hi, hb, ha, if_true]
  exact ⟨h1 _ hi, h1 _ hb, h1 _ ha⟩

/-- C117: The matrix at a face has the right eigenvectors of the flux as eigenvectors, with the upwinded constants as
eigenvalues: each wave gets its own viscosity. -/
theorem span_eigen (diag : Fin m → ℝ) (L R : Matrix (Fin m) (Fin m) ℝ) (h : L * R = 1) (k : Fin m) :
    (span diag L R).mulVec (fun r => R r k) = diag k • fun r => R r k := by
  have he : span diag L R = R * Matrix.diagonal diag * L := by
    ext r c
    rw [Matrix.mul_apply]
    simp only [span, Matrix.sum_apply, Matrix.of_apply, Matrix.mul_diagonal]
    exact Finset.sum_congr rfl fun i _ => by ring
  have hk : (fun r => R r k) = R.mulVec (Pi.single k 1) := by
    funext r
    rw [Matrix.mulVec_single_one]
    rfl
  rw [he, hk, Matrix.mulVec_mulVec, Matrix.mul_assoc, h, Matrix.mul_one, ← Matrix.mulVec_mulVec, Matrix.diagonal_mulVec_single,
    ← Matrix.mulVec_smul, mul_one]
  congr 1
  funext j
  by_cases hj : j = k
  · subst hj; simp
  · simp [hj]

/-- One troubled element of three makes it raise. -/
example (nu : ℕ → Option (Fin 3 → ℝ)) (speeds : ℕ → Fin 3 → ℝ)
    (eigen : ℕ → Matrix (Fin 3) (Fin 3) ℝ × Matrix (Fin 3) (Fin 3) ℝ) (sites : ℕ → Site) :
    generateVector nu speeds eigen true 3 sites [1] = none := by
  cases h : generateVector nu speeds eigen true 3 sites [1] with
  | none => rfl
  | some d => exact absurd (system_all_or_nothing (by simp) h (by simp) 0 (by norm_num)) (by simp)

/-- The value at a face with the states `l` and `r` beside it: the one from which the waves come. -/
def Upwinded (speed l r v : ℝ) : Prop := (0 < speed → v = l) ∧ (speed < 0 → v = r) ∧ (speed = 0 → v = (l + r) / 2)

private theorem upwinded (speed l r : ℝ) : Upwinded speed l r (upwind speed l r) := by
  unfold Upwinded upwind
  refine ⟨fun h => by rw [if_pos h], fun h => by rw [if_neg h.not_gt, if_pos h], fun h => ?_⟩
  subst h
  simp

private theorem system_profile (hs : Chain periodic count sites) (hn : ∀ i ∈ indices, i < count)
    {d : Dict (ℝ → Matrix (Fin m) (Fin m) ℝ)}
    (h : generateVector nu speeds eigen periodic count sites indices = some d) {i : ℕ} {f : ℝ → Matrix (Fin m) (Fin m) ℝ}
    (hf : d i = some f) : i < count ∧ ∃ own left right, nu i = some own ∧ nu (before count i) = some left ∧
      nu (after count i) = some right ∧
      ∀ x, f x = (1 - (x - (sites i).xLeft) / (sites i).length) •
          span (fun k => upwind (speeds i k) (if periodic = true ∨ i ≠ 0 then left k else 0) (own k)) (eigen i).1 (eigen i).2 +
        ((x - (sites i).xLeft) / (sites i).length) •
          span (fun k => upwind (speeds (rightFace periodic count i) k) (own k)
            (if periodic = true ∨ i + 1 ≠ count then right k else 0))
            (eigen (rightFace periodic count i)).1 (eigen (rightFace periodic count i)).2 := by
  have hall := fun hne => system_all_or_nothing hn h hne
  unfold generateVector at h
  rw [Option.bind_eq_some_iff] at h
  obtain ⟨nus, h1, h2⟩ := h
  obtain ⟨hsome, rfl⟩ := (fill_eq nu indices _ _).1 h1
  obtain ⟨_, rfl⟩ := (fill_eq _ indices _ _).1 h2
  by_cases hm : i ∈ indices
  · dsimp only at hf
    rw [if_pos hm] at hf
    have hi := hn i hm
    have hall := hall (List.ne_nil_of_mem hm)
    have hb : before count i < count := by unfold before; split_ifs <;> omega
    have ha : after count i < count := by unfold after; split_ifs <;> omega
    obtain ⟨own, e0⟩ := Option.isSome_iff_exists.1 (hsome i hm)
    obtain ⟨left, e1⟩ := Option.isSome_iff_exists.1 (hsome _ (hall _ hb))
    obtain ⟨right, e2⟩ := Option.isSome_iff_exists.1 (hsome _ (hall _ ha))
    refine ⟨hi, own, left, right, e0, e1, e2, fun x => ?_⟩
    unfold callableVector at hf
    rw [lookup_before hi, lookup_after hi] at hf
    simp only [if_pos hm, if_pos (hall _ hb), if_pos (hall _ ha), e0, e1, e2, Option.bind_some, Option.map_some] at hf
    have hl := hs.left i hi
    have hr := hs.right i hi
    by_cases c1 : (sites i).hasLeft = true <;> by_cases c2 : (sites i).hasRight = true <;>
      simp only [c1, c2, if_true, if_false, upwindVector, Option.bind_some, Option.map_some, Option.some.injEq, Bool.false_eq_true] at hf <;>
      simp only [← hl, ← hr, c1, c2, if_true, if_false, ← hf, Bool.false_eq_true] <;> simp
  · dsimp only at hf
    rw [if_neg hm] at hf
    cases hf

/-- C117: For a system, the matrix at a face has the right eigenvectors there as eigenvectors, and the eigenvalue of a wave
is the constant of that wave in the element from which it comes, zero beyond the ends of a grid that is not periodic. -/
theorem system_face_values (hs : Chain periodic count sites) (hn : ∀ i ∈ indices, i < count)
    {d : Dict (ℝ → Matrix (Fin m) (Fin m) ℝ)} (hLR : ∀ i, (eigen i).1 * (eigen i).2 = 1)
    (h : generateVector nu speeds eigen periodic count sites indices = some d) {i : ℕ} {f : ℝ → Matrix (Fin m) (Fin m) ℝ}
    (hf : d i = some f) : ∃ own left right, nu i = some own ∧ nu (before count i) = some left ∧
      nu (after count i) = some right ∧ ∀ k,
      (∃ v, Upwinded (speeds i k) (if periodic = true ∨ i ≠ 0 then left k else 0) (own k) v ∧
        (f (sites i).xLeft).mulVec (fun r => (eigen i).2 r k) = v • fun r => (eigen i).2 r k) ∧
      ∃ v, Upwinded (speeds (faceAfter periodic count i) k) (own k) (if periodic = true ∨ i + 1 ≠ count then right k else 0) v ∧
        (f ((sites i).xLeft + (sites i).length)).mulVec (fun r => (eigen (faceAfter periodic count i)).2 r k) =
          v • fun r => (eigen (faceAfter periodic count i)).2 r k := by
  obtain ⟨hi, own, left, right, e0, e1, e2, e⟩ := system_profile hs hn h hf
  have hl := (hs.pos i hi).ne'
  rw [rightFace_eq] at e
  refine ⟨own, left, right, e0, e1, e2, fun k => ⟨⟨_, upwinded _ _ _, ?_⟩, _, upwinded _ _ _, ?_⟩⟩
  · rw [e, sub_self, zero_div, sub_zero, one_smul, zero_smul, add_zero]
    exact span_eigen _ _ _ (hLR _) k
  · rw [e, add_sub_cancel_left, div_self hl, sub_self, one_smul, zero_smul, zero_add]
    exact span_eigen _ _ _ (hLR _) k

/-- C117: For a system too there is no jump between neighbours, and the profile is affine between the faces. -/
theorem system_no_jump (hs : Chain periodic count sites) (hn : ∀ i ∈ indices, i < count)
    {d : Dict (ℝ → Matrix (Fin m) (Fin m) ℝ)}
    (h : generateVector nu speeds eigen periodic count sites indices = some d) {i : ℕ} {f g : ℝ → Matrix (Fin m) (Fin m) ℝ}
    (hf : d i = some f) :
    (∀ t, f ((sites i).xLeft + t * (sites i).length) =
      (1 - t) • f (sites i).xLeft + t • f ((sites i).xLeft + (sites i).length)) ∧
    ((periodic = true ∨ i + 1 ≠ count) → d (after count i) = some g →
      f ((sites i).xLeft + (sites i).length) = g (sites (after count i)).xLeft) := by
  obtain ⟨hi, own, left, right, e0, e1, e2, e⟩ := system_profile hs hn h hf
  have hl := (hs.pos i hi).ne'
  constructor
  · intro t
    simp only [e, add_sub_cancel_left, mul_div_cancel_right₀ _ hl, div_self hl, sub_self, zero_div, sub_zero, one_smul,
      zero_smul, add_zero, zero_add]
  · intro hp hg
    obtain ⟨hj, own', left', right', e0', e1', e2', e'⟩ := system_profile hs hn h hg
    have hb : before count (after count i) = i := by
      unfold before after
      by_cases h1 : i + 1 = count
      · rw [if_pos h1, if_pos rfl]; omega
      · rw [if_neg h1, if_neg (by omega)]; omega
    have hp' : periodic = true ∨ after count i ≠ 0 := by
      rcases hp with hp | hp
      · exact .inl hp
      · right; unfold after; rw [if_neg hp]; omega
    have hr : rightFace periodic count i = after count i := by
      unfold rightFace after
      rcases hp with hp | hp
      · by_cases e : i + 1 = count <;> simp [hp, e]
      · simp [hp]
    rw [hb, e0] at e1'
    rw [e2] at e0'
    cases e1'
    cases e0'
    rw [e, e', hr]
    simp only [add_sub_cancel_left, div_self hl, sub_self, zero_div, sub_zero, one_smul, zero_smul, add_zero, zero_add,
      if_pos hp, if_pos hp']

/-- Two elements of length one and a system of two waves, one to the right and one to the left. -/
example : ∃ d f, generateVector (m := 2) (fun i => some fun k => if k = 0 then i + 1 else 3 * (i + 1)) (fun _ => ![1, -1])
    (fun _ => (1, 1)) true 2 Quadratic.units [0, 1] = some d ∧ d 0 = some f ∧
    (f 0).mulVec (fun r => (1 : Matrix (Fin 2) (Fin 2) ℝ) r 0) = (2 : ℝ) • fun r => (1 : Matrix (Fin 2) (Fin 2) ℝ) r 0 := by
  obtain ⟨d, h⟩ := Option.isSome_iff_exists.1 (system_all (m := 2) (count := 2) (periodic := true) (sites := Quadratic.units)
    (nu := fun i => some fun k => if k = 0 then (i : ℝ) + 1 else 3 * ((i : ℝ) + 1)) (speeds := fun _ => ![1, -1])
    (eigen := fun _ => (1, 1)) fun i _ => rfl)
  have hf : (d 0).isSome := by
    have h' := h
    unfold generateVector at h'
    rw [Option.bind_eq_some_iff] at h'
    obtain ⟨nus, h1, h2⟩ := h'
    obtain ⟨hall, rfl⟩ := (fill_eq _ _ _ _).1 h2
    have := hall 0 (by simp)
    simpa using this
  obtain ⟨f, hf⟩ := Option.isSome_iff_exists.1 hf
  refine ⟨d, f, h, hf, ?_⟩
  obtain ⟨own, left, right, e0, e1, e2, e⟩ := system_face_values (Quadratic.units_chain 2)
    (fun i hi => List.mem_range.1 hi) (fun _ => by simp) h hf
  obtain ⟨v, hv, e⟩ := (e 0).1
  have hv := hv.1 (by simp)
  simp only [before, if_true, Option.some.injEq] at e1
  rw [if_pos (.inl rfl), ← e1] at hv
  norm_num at hv
  subst hv
  simpa [Quadratic.units] using e

end Systems

end MiniCFD.PyViscosity.Linear
