import Verif.Lemmas.PyLimiter

/-! Properties of the limiters of the Python code (C103, C104, C105). -/

namespace MiniCFD.PyLimiter

open MiniCFD.PyQuad MiniCFD.PyExpansion Polynomial
open MiniCFD.Spec.Gauss (ExactTo)

/-! ### The reconstruction of a grid -/

section Grid
variable {p : ℕ} {ι : Type} [DecidableEq ι] {V : Type} [AddCommGroup V] [Module ℝ V]

private theorem fold_spec (new : ι → Option (Fin (p + 1) → V)) (setup : ι → Setup p) :
    ∀ (troubled : List ι) (coeffs : List (Fin (p + 1) → V)) (states : ι → State p V), troubled.mapM new = some coeffs →
    ∀ i, (i ∉ troubled → (troubled.zip coeffs).foldl
        (fun (st : ι → State p V) (ic : ι × (Fin (p + 1) → V)) => Function.update st ic.1 (setTaylor (setup ic.1) ic.2)) states i = states i) ∧
      (i ∈ troubled → ∃ t, new i = some t ∧ (troubled.zip coeffs).foldl
        (fun (st : ι → State p V) (ic : ι × (Fin (p + 1) → V)) => Function.update st ic.1 (setTaylor (setup ic.1) ic.2)) states i = setTaylor (setup i) t)
  | [], coeffs, states, h, i => by simp
  | j :: js, coeffs, states, h, i => by
    simp only [List.mapM_cons, Option.pure_def, Option.bind_eq_bind, Option.bind_eq_some_iff, Option.some.injEq] at h
    obtain ⟨t, ht, ts, hts, rfl⟩ := h
    obtain ⟨h1, h2⟩ := fold_spec new setup js ts (Function.update states j (setTaylor (setup j) t)) hts i
    simp only [List.zip_cons_cons, List.foldl_cons]
    refine ⟨fun hi => ?_, fun hi => ?_⟩
    · rw [h1 fun h' => hi (List.mem_cons_of_mem _ h'), Function.update_of_ne]
      rintro rfl
      exact hi List.mem_cons_self
    · by_cases hj : i ∈ js
      · exact h2 hj
      · have : i = j := by simpa [hj] using hi
        subst this
        exact ⟨t, ht, by rw [h1 hj, Function.update_self]⟩

/-- C103: Elements that are not troubled keep their state; each troubled element gets the coefficients
computed from the states before the call, in whatever order the elements are listed. -/
theorem simultaneous (new : (ι → State p V) → ι → Option (Fin (p + 1) → V)) (setup : ι → Setup p) {troubled : List ι}
    {states states' : ι → State p V} (h : reconstruct new setup troubled states = some states') (i : ι) :
    (i ∉ troubled → states' i = states i) ∧
    (i ∈ troubled → ∃ t, new states i = some t ∧ states' i = setTaylor (setup i) t) := by
  unfold reconstruct at h
  simp only [Option.map_eq_some_iff] at h
  obtain ⟨coeffs, h1, rfl⟩ := h
  exact fold_spec (new states) setup troubled coeffs states h1 i

/-- C103: The call succeeds if the coefficients of all troubled elements can be computed. -/
theorem succeeds (new : (ι → State p V) → ι → Option (Fin (p + 1) → V)) (setup : ι → Setup p) (troubled : List ι)
    (states : ι → State p V) :
    (reconstruct new setup troubled states).isSome ↔ ∀ i ∈ troubled, (new states i).isSome := by
  unfold reconstruct
  rw [Option.isSome_map]
  generalize new states = f
  induction troubled with
  | nil => simp
  | cons j js ih =>
    simp only [List.mapM_cons, Option.pure_def, Option.bind_eq_bind, List.forall_mem_cons]
    rw [← ih]
    cases f j <;> cases List.mapM f js <;> simp

/-- C103: The order of the troubled elements and repetitions among them do not matter. -/
theorem order_irrelevant (new : (ι → State p V) → ι → Option (Fin (p + 1) → V)) (setup : ι → Setup p)
    {troubled troubled' : List ι} (hp : ∀ i, i ∈ troubled ↔ i ∈ troubled') (states : ι → State p V) :
    reconstruct new setup troubled states = reconstruct new setup troubled' states := by
  have hs := succeeds new setup troubled states
  have hs' := succeeds new setup troubled' states
  cases h : reconstruct new setup troubled states with
  | none =>
    cases h' : reconstruct new setup troubled' states with
    | none => rfl
    | some b =>
      rw [h] at hs
      rw [h'] at hs'
      simp only [Option.isSome_none, Bool.false_eq_true, false_iff] at hs
      exact absurd (fun i hi => hs'.mp rfl i ((hp i).mp hi)) hs
  | some a =>
    cases h' : reconstruct new setup troubled' states with
    | none =>
      rw [h] at hs
      rw [h'] at hs'
      simp only [Option.isSome_none, Bool.false_eq_true, false_iff] at hs'
      exact absurd (fun i hi => hs.mp rfl i ((hp i).mpr hi)) hs'
    | some b =>
      congr 1
      funext i
      obtain ⟨h1, h2⟩ := simultaneous new setup h i
      obtain ⟨h1', h2'⟩ := simultaneous new setup h' i
      by_cases hi : i ∈ troubled
      · obtain ⟨t, e, e'⟩ := h2 hi
        obtain ⟨t', f, f'⟩ := h2' ((hp i).mp hi)
        rw [e', f']
        rw [e] at f
        cases f
        rfl
      · rw [h1 hi, h1' fun h => hi ((hp i).mpr h)]

end Grid

/-! ### The limiter of Zhong and Shu -/

section Zxh
variable {p m : ℕ} {c : Coordinate} {s : Setup p}

private theorem keeps {V : Type*} [NormedAddCommGroup V] [NormedSpace ℝ V] [CompleteSpace V] (hc : c.xLeft < c.xRight)
    (h : Built c s) (hl : s.kind = .lobatto → p ≤ 5) {t : Fin (p + 1) → V} {a : V}
    (ht : ∑ l : Fin (p + 1), meanMoments c l • t l = a) : (setTaylor s t).average = a := by
  rw [← average_act hc h hl (.taylor t rfl)]
  exact ht

private theorem zxh_ne {V : Type*} [NormedAddCommGroup V] [NormedSpace ℝ V] (st : State p V) (bs : List (Neighbour p V)) :
    zxhCandidates s st bs ≠ [] := by simp [zxhCandidates]

private theorem zxh_small {V : Type*} [NormedAddCommGroup V] [NormedSpace ℝ V] {wSmall : ℝ} (h0 : 0 < wSmall) (h1 : 2 * wSmall < 1)
    (st : State p V) {bs : List (Neighbour p V)} (hb : bs.length ≤ 2) :
    (((zxhCandidates s st bs).length : ℝ) - 1) * wSmall < 1 := by
  have : (bs.length : ℝ) ≤ 2 := by exact_mod_cast hb
  simp only [zxhCandidates, List.length_cons, List.length_map]
  push_cast
  nlinarith

private theorem zxh_scalar {epsilon wSmall : ℝ} (he : 0 < epsilon) (h0 : 0 < wSmall) (h1 : 2 * wSmall < 1)
    (hc : c.xLeft < c.xRight) (h : Built c s) (st : State p ℝ) {bs : List (Neighbour p ℝ)} (hb : bs.length ≤ 2)
    (μ : ℕ → ℝ) {lo hi : ℝ} (hown : lo ≤ (own s st).act μ ∧ (own s st).act μ ≤ hi)
    (hbor : ∀ b ∈ bs, lo ≤ (zxhBorrow s st b).act μ ∧ (zxhBorrow s st b).act μ ≤ hi) :
    lo ≤ ∑ l : Fin (p + 1), μ l • zxhScalar epsilon wSmall (zxhCandidates s st bs) l ∧
      ∑ l : Fin (p + 1), μ l • zxhScalar epsilon wSmall (zxhCandidates s st bs) l ≤ hi := by
  obtain ⟨hw, hco⟩ := built_integrator hc h
  have hmem : ∀ P : Candidate ℝ → Prop, P (own s st) → (∀ b ∈ bs, P (zxhBorrow s st b)) → ∀ x ∈ zxhCandidates s st bs, P x := by
    intro P h1 h2 x hx
    rcases List.mem_cons.mp hx with rfl | hx
    · exact h1
    · obtain ⟨b, hb, rfl⟩ := List.mem_map.mp hx
      exact h2 b hb
  have hlen : (0 : ℝ) ≤ c.length := by rw [c.eq_linear.1]; linarith
  have := zxh_between (p := p) μ (zxh_ne st bs) he h0 (zxh_small h0 h1 st hb) (lo := lo) (hi := hi)
    (hmem _ (zxhSmoothness_nonneg (fun i => (hw i).le) (by rw [show (own s st).integrator = s.integrator from rfl, hco]; exact hlen))
      fun b _ => zxhSmoothness_nonneg (fun i => (hw i).le) (by
        rw [show (zxhBorrow s st b).integrator = s.integrator from rfl, hco]; exact hlen))
    (hmem _ le_rfl fun _ _ => le_rfl) (hmem _ hown hbor)
  rwa [Finset.sum_range] at this

private theorem zxh_system {epsilon wSmall : ℝ} (he : 0 < epsilon) (h0 : 0 < wSmall) (h1 : 2 * wSmall < 1)
    (hc : c.xLeft < c.xRight) (h : Built c s) (st : State p (Fin m → ℝ)) {bs : List (Neighbour p (Fin m → ℝ))}
    (hb : bs.length ≤ 2) {left right : Matrix (Fin m) (Fin m) ℝ} (hrl : right * left = 1)
    (μ : ℕ → ℝ) {a : Fin m → ℝ} (hown : (own s st).act μ = a) (hbor : ∀ b ∈ bs, (zxhBorrow s st b).act μ = a) :
    ∑ l : Fin (p + 1), μ l • right.mulVec (fun i =>
      zxhScalar epsilon wSmall ((zxhCandidates s st bs).map (Candidate.component left s i)) l) = a := by
  obtain ⟨hw, hco⟩ := built_integrator hc h
  have hlen : (0 : ℝ) ≤ c.length := by rw [c.eq_linear.1]; linarith
  have hmem : ∀ i, ∀ x ∈ (zxhCandidates s st bs).map (Candidate.component left s i),
      0 ≤ zxhSmoothness x ∧ x.degree ≤ p ∧ x.act μ = left.mulVec a i := by
    intro i x hx
    obtain ⟨y, hy, rfl⟩ := List.mem_map.mp hx
    refine ⟨zxhSmoothness_nonneg (fun i => (hw i).le) (by
      rw [show (Candidate.component left s i y).integrator = s.integrator from rfl, hco]; exact hlen), ?_, ?_⟩
    · rcases List.mem_cons.mp hy with rfl | hy
      · exact le_rfl
      · obtain ⟨b, hb, rfl⟩ := List.mem_map.mp hy
        exact le_rfl
    · rw [act_component]
      rcases List.mem_cons.mp hy with rfl | hy
      · rw [hown]
      · obtain ⟨b, hb, rfl⟩ := List.mem_map.mp hy
        rw [hbor b hb]
  refine act_system μ hrl _ a fun i => ?_
  have := zxh_between (p := p) (cs := (zxhCandidates s st bs).map (Candidate.component left s i)) μ
    (by simpa using zxh_ne st bs) he h0 (by simpa using zxh_small h0 h1 st hb) (lo := left.mulVec a i) (hi := left.mulVec a i)
    (fun x hx => (hmem i x hx).1) (fun x hx => (hmem i x hx).2.1) (fun x hx => by rw [(hmem i x hx).2.2]; exact ⟨le_rfl, le_rfl⟩)
  exact le_antisymm this.2 this.1

/-- C104: `ZhongXingHui2013` keeps the average of a troubled element, for scalar equations and for systems
with any pair of inverse matrices.  Missing: elements on Lobatto nodes (`zxh_average_lobatto`). -/
theorem zxh_average_partial {epsilon wSmall : ℝ} (he : 0 < epsilon) (h0 : 0 < wSmall) (h1 : 2 * wSmall < 1)
    (hc : c.xLeft < c.xRight) (h : Built c s) (hk : s.kind ≠ .lobatto) :
    (∀ (st : State p ℝ) (bs : List (Neighbour p ℝ)), Reached s st → bs.length ≤ 2 →
      ∃ t, zxhNewScalar epsilon wSmall s st bs = some t ∧ (setTaylor s t).average = st.average) ∧
    (∀ (st : State p (Fin m → ℝ)) (bs : List (Neighbour p (Fin m → ℝ))) (left right : Matrix (Fin m) (Fin m) ℝ),
      Reached s st → bs.length ≤ 2 → right * left = 1 →
      ∃ t, zxhNewSystem epsilon wSmall left right s st bs = some t ∧ (setTaylor s t).average = st.average) := by
  have hl : s.kind = .lobatto → p ≤ 5 := fun h' => absurd h' hk
  refine ⟨fun st bs hr hb => ⟨_, rfl, keeps hc h hl ?_⟩, fun st bs left right hr hb hrl => ⟨_, rfl, keeps hc h hl ?_⟩⟩
  · have := zxh_scalar (lo := st.average) (hi := st.average) he h0 h1 hc h st hb (meanMoments c)
      (by rw [average_act hc h hl hr]; exact ⟨le_rfl, le_rfl⟩)
      (fun b _ => by rw [borrow_average hc h hk]; exact ⟨le_rfl, le_rfl⟩)
    exact le_antisymm this.2 this.1
  · exact zxh_system he h0 h1 hc h st hb hrl (meanMoments c) (average_act hc h hl hr)
      (fun b _ => borrow_average hc h hk _ _)

/-- C104: At each point the limited value of a scalar equation lies between the old value and the values of
the neighbours' polynomials moved to the own average. -/
theorem zxh_bounded_partial {epsilon wSmall : ℝ} (he : 0 < epsilon) (h0 : 0 < wSmall) (h1 : 2 * wSmall < 1)
    (hc : c.xLeft < c.xRight) (h : Built c s) (hk : s.kind ≠ .lobatto) {st : State p ℝ} (hr : Reached s st)
    {bs : List (Neighbour p ℝ)} (hb : bs.length ≤ 2) (x lo hi : ℝ) (hown : lo ≤ s.value st x ∧ s.value st x ≤ hi)
    (hbor : ∀ b ∈ bs, lo ≤ b.value x + (st.average - (c.xRight - c.xLeft)⁻¹ * ∫ y in c.xLeft..c.xRight, b.value y) ∧
      b.value x + (st.average - (c.xRight - c.xLeft)⁻¹ * ∫ y in c.xLeft..c.xRight, b.value y) ≤ hi) :
    ∃ t, zxhNewScalar epsilon wSmall s st bs = some t ∧
      lo ≤ s.value (setTaylor s t) x ∧ s.value (setTaylor s t) x ≤ hi := by
  refine ⟨_, rfl, ?_⟩
  have hco := (h.sane hc).2
  rw [value_act hco]
  refine zxh_scalar (lo := lo) (hi := hi) he h0 h1 hc h st hb (fun l => (x - c.xCenter) ^ l)
    (by rw [← value_act hco]; exact hown) fun b hb' => ?_
  rw [borrow_value hc h hk]
  obtain ⟨v, hv⟩ := neighbour_polynomial b 0
  have e : b.value = polynomial v := by funext x; rw [← hv, add_zero]
  have := integrator_polynomial hc h (fun h' => absurd h' hk) v
  have e2 : s.integrator.average b.value = (c.xRight - c.xLeft)⁻¹ * ∫ y in c.xLeft..c.xRight, b.value y := by
    rw [e, ← this, smul_eq_mul, ← mul_assoc, inv_mul_cancel₀ (by linarith), one_mul]
  rw [e2]
  exact hbor b hb'

/-- C104: Where the element and its neighbours hold one and the same polynomial, nothing changes. -/
theorem zxh_reproduces_partial {epsilon wSmall : ℝ} (he : 0 < epsilon) (h0 : 0 < wSmall) (h1 : 2 * wSmall < 1)
    (hc : c.xLeft < c.xRight) (h : Built c s) (hk : s.kind ≠ .lobatto) :
    (∀ (st : State p ℝ) (bs : List (Neighbour p ℝ)), Reached s st → bs.length ≤ 2 → (∀ b ∈ bs, b.value = s.value st) →
      ∃ t, zxhNewScalar epsilon wSmall s st bs = some t ∧ s.value (setTaylor s t) = s.value st) ∧
    (∀ (st : State p (Fin m → ℝ)) (bs : List (Neighbour p (Fin m → ℝ))) (left right : Matrix (Fin m) (Fin m) ℝ),
      Reached s st → bs.length ≤ 2 → right * left = 1 → (∀ b ∈ bs, b.value = s.value st) →
      ∃ t, zxhNewSystem epsilon wSmall left right s st bs = some t ∧ s.value (setTaylor s t) = s.value st) := by
  have hl : s.kind = .lobatto → p ≤ 5 := fun h' => absurd h' hk
  have hco := (h.sane hc).2
  have hne : c.xRight - c.xLeft ≠ 0 := by linarith
  have same : ∀ {V : Type} [NormedAddCommGroup V] [NormedSpace ℝ V] [CompleteSpace V] {st : State p V} {b : Neighbour p V},
      Reached s st → b.value = s.value st → ∀ x, (zxhBorrow s st b).act (fun l => (x - c.xCenter) ^ l) = s.value st x := by
    intro V _ _ _ st b hr hb x
    rw [borrow_value hc h hk, hb]
    obtain ⟨v, hv⟩ := taylor_polynomial s.coordinate.xCenter 0 st.taylor
    have e : s.value st = polynomial v := by funext y; rw [← hv, sub_zero]; rfl
    have h2 := average_eq hc h hl hr
    rw [e, ← integrator_polynomial hc h hl v] at h2
    have := smul_right_injective V hne h2
    rw [e, this, sub_self, add_zero]
  constructor
  · intro st bs hr hb hv
    refine ⟨_, rfl, ?_⟩
    funext x
    rw [value_act hco]
    have := zxh_scalar (lo := s.value st x) (hi := s.value st x) he h0 h1 hc h st hb (fun l => (x - c.xCenter) ^ l)
      (by rw [← value_act hco]; exact ⟨le_rfl, le_rfl⟩)
      (fun b hb' => by rw [same hr (hv b hb')]; exact ⟨le_rfl, le_rfl⟩)
    exact le_antisymm this.2 this.1
  · intro st bs left right hr hb hrl hv
    refine ⟨_, rfl, ?_⟩
    funext x
    rw [value_act hco]
    exact zxh_system he h0 h1 hc h st hb hrl (fun l => (x - c.xCenter) ^ l) (value_act hco st x).symm
      (fun b hb' => same hr (hv b hb') x)

end Zxh

/-! ### The limiter of Li, Wang and Ren -/

section Lwa
variable {p m : ℕ} {c : Coordinate} {s : Setup p} {roots : (m : ℕ) → Rule m}

/-- C105: `LiWanAi2020` computes coefficients for all elements of positive degree that have one or two
neighbours, and fails otherwise. -/
theorem lwa_defined {V : Type*} [AddCommGroup V] [Module ℝ V] (exact : ∀ m, ExactTo (roots m).apply (2 * m + 1))
    (hc : c.xLeft < c.xRight) (hco : s.coordinate = c) (st : State p V) (bs : List (Neighbour p V)) :
    (lwaCandidates roots s st bs).isSome ↔ 1 ≤ p ∧ 1 ≤ bs.length ∧ bs.length ≤ 2 := by
  have hl : (lwaLegendre roots s st).isSome := by
    unfold lwaLegendre
    obtain ⟨s', hs'⟩ := modal_defined hc (roots p)
    cases s.kind <;> simp [hco, hs']
  obtain ⟨l, hl⟩ := Option.isSome_iff_exists.mp hl
  have hb : ∀ b : Neighbour p V, ∃ x, lwaBorrow roots s st b = some x := by
    intro b
    obtain ⟨s1, hs1⟩ := modal_defined hc (roots 1)
    unfold lwaBorrow
    rw [hco, hs1]
    exact ⟨_, rfl⟩
  unfold lwaCandidates
  by_cases hp : 1 ≤ p
  · rw [dif_pos hp, hl]
    simp only [Option.bind_some, hp, true_and]
    match bs with
    | [] => simp
    | [b] =>
      obtain ⟨x, hx⟩ := hb b
      simp [hx]
    | [b, b'] =>
      obtain ⟨x, hx⟩ := hb b
      obtain ⟨x', hx'⟩ := hb b'
      simp [hx, hx']
    | _ :: _ :: _ :: _ => simp
  · rw [dif_neg hp]; simp [hp]

private theorem members {V : Type*} [AddCommGroup V] [Module ℝ V] {st : State p V} {bs : List (Neighbour p V)}
    {cs : LwaCandidates V} (h : lwaCandidates roots s st bs = some cs) :
    1 ≤ p ∧ ∃ l, lwaLegendre roots s st = some l ∧ ∀ x ∈ cs.all,
      (∃ d, 1 ≤ d ∧ ∃ hd : d ≤ p, x = truncated d hd l.1 l.2) ∨ ∃ b ∈ bs, lwaBorrow roots s st b = some x := by
  unfold lwaCandidates at h
  by_cases hp : 1 ≤ p
  · rw [dif_pos hp] at h
    refine ⟨hp, ?_⟩
    obtain ⟨l, hl, h⟩ := Option.bind_eq_some_iff.mp h
    refine ⟨l, hl, ?_⟩
    have hhigh : ∀ x ∈ (List.range (p - 1)).map fun i => truncated (p - i) (Nat.sub_le p i) l.1 l.2,
        ∃ d, 1 ≤ d ∧ ∃ hd : d ≤ p, x = truncated d hd l.1 l.2 := by
      intro x hx
      obtain ⟨i, hi, rfl⟩ := List.mem_map.mp hx
      rw [List.mem_range] at hi
      exact ⟨p - i, by omega, Nat.sub_le _ _, rfl⟩
    dsimp only at h
    match bs, h with
    | [b], h =>
      obtain ⟨y, hy, rfl⟩ := Option.map_eq_some_iff.mp h
      intro x hx
      simp only [LwaCandidates.all, Option.toList_none, List.append_nil, List.mem_append] at hx
      rcases hx with hx | hx
      · exact .inl (hhigh x hx)
      · simp only [List.mem_cons, List.not_mem_nil, or_false] at hx
        rcases hx with rfl | rfl
        · exact .inl ⟨1, le_rfl, hp, rfl⟩
        · exact .inr ⟨b, by simp, hy⟩
    | [b, b'], h =>
      obtain ⟨y, hy, h⟩ := Option.bind_eq_some_iff.mp h
      obtain ⟨y', hy', rfl⟩ := Option.map_eq_some_iff.mp h
      intro x hx
      simp only [LwaCandidates.all, Option.toList_some, List.mem_append] at hx
      rcases hx with (hx | hx) | hx
      · exact .inl (hhigh x hx)
      · simp only [List.mem_cons, List.not_mem_nil, or_false] at hx
        rcases hx with rfl | rfl
        · exact .inl ⟨1, le_rfl, hp, rfl⟩
        · exact .inr ⟨b, by simp, hy⟩
      · simp only [List.mem_cons, List.not_mem_nil, or_false] at hx
        subst hx
        exact .inr ⟨b', by simp, hy'⟩
  · rw [dif_neg hp] at h; cases h

variable {V : Type*} [NormedAddCommGroup V] [NormedSpace ℝ V]

/-- The Legendre expansion has the same function. -/
theorem legendre_value (exact : ∀ m, ExactTo (roots m).apply (2 * m + 1)) (hc : c.xLeft < c.xRight) (h : Built c s)
    {st : State p V} (hr : Reached s st) {l : Setup p × State p V} (hl : lwaLegendre roots s st = some l) :
    (∃ rule : Rule p, ExactTo rule.apply (2 * p + 1) ∧ modal c rule = some l.1) ∧ Reached l.1 l.2 ∧
      l.1.value l.2 = s.value st := by
  have hco := (h.sane hc).2
  unfold lwaLegendre at hl
  by_cases hk : s.kind = .modal
  · rw [hk] at hl
    cases hl
    refine ⟨?_, hr, rfl⟩
    cases h with
    | uniform rule _ hu => rw [(lagrange_sane (by simp) hc hu).2.2.1] at hk; cases hk
    | legendreRoots rule _ hu => rw [(lagrange_sane (by simp) hc hu).2.2.1] at hk; cases hk
    | lobatto hu =>
      obtain ⟨rule, hr', hu⟩ := lobatto_cases hu
      rw [(lagrange_sane (by simp) hc hu).2.2.1] at hk; cases hk
    | modal rule ex hu => exact ⟨rule, ex, hu⟩
  · have hl' : (modal s.coordinate (roots p)).map (fun s' => (s', approximate s' (s.value st))) = some l := by
      cases hs : s.kind <;> rw [hs] at hl hk <;> first | exact hl | exact absurd rfl hk
    obtain ⟨s', hs', rfl⟩ := Option.map_eq_some_iff.mp hl'
    rw [hco] at hs'
    refine ⟨⟨roots p, exact p, hs'⟩, .approximate _ rfl, ?_⟩
    obtain ⟨v, hv⟩ := taylor_polynomial s.coordinate.xCenter 0 st.taylor
    have e : s.value st = polynomial v := by funext y; rw [← hv, sub_zero]; rfl
    dsimp only
    rw [e]
    exact approximate_reproduces_partial hc (.modal _ (exact p) hs') (by rw [(modal_sane hc hs').2.1]; simp) v

private theorem truncated_act (exact : ∀ m, ExactTo (roots m).apply (2 * m + 1)) (hc : c.xLeft < c.xRight) (μ : ℕ → ℝ)
    {rule : Rule p} {s : Setup p} (hs : modal c rule = some s) (st : State p V) {d : ℕ} (hd : d ≤ p) :
    ∃ s' : Setup d, modal c (roots d) = some s' ∧
      (truncated d hd s st).act μ = (own s' (setCoeff s' fun k => st.coeff (Fin.castLE (by omega) k))).act μ := by
  obtain ⟨s', hs'⟩ := modal_defined hc (roots d)
  refine ⟨s', hs', ?_⟩
  unfold Candidate.act truncated own
  dsimp only
  rw [truncate_eq hd hc hs hs' st]

private theorem modal_average {s : Setup p} (hk : s.kind = .modal) (a : Fin (p + 1) → V) : (setCoeff s a).average = a 0 := by
  simp only [setCoeff, mean, hk]

private theorem lwa_mean [CompleteSpace V] (exact : ∀ m, ExactTo (roots m).apply (2 * m + 1)) (hc : c.xLeft < c.xRight)
    (h : Built c s) (hl : s.kind = .lobatto → p ≤ 5) {st : State p V} (hr : Reached s st) {bs : List (Neighbour p V)}
    {cs : LwaCandidates V} (hcs : lwaCandidates roots s st bs = some cs) :
    ∀ x ∈ cs.all, x.degree ≤ p ∧ x.act (meanMoments c) = st.average := by
  obtain ⟨hp, l, hl1, hmem⟩ := members hcs
  obtain ⟨⟨rule, ex, hm⟩, hr', hv⟩ := legendre_value exact hc h hr hl1
  have hne : c.xRight - c.xLeft ≠ 0 := by linarith
  have hB : Built c l.1 := .modal rule ex hm
  have havg : l.2.average = st.average := by
    have e1 := average_eq hc h hl hr
    have e2 := average_eq hc hB (by rw [(modal_sane hc hm).2.1]; simp) hr'
    rw [hv, ← e1] at e2
    exact smul_right_injective V hne e2
  intro x hx
  rcases hmem x hx with ⟨d, -, hd, rfl⟩ | ⟨b, hb, hbx⟩
  · refine ⟨hd, ?_⟩
    obtain ⟨s', hs', e⟩ := truncated_act exact hc (meanMoments c) hm l.2 hd
    have hk' := (modal_sane hc hs').2.1
    rw [e, average_act hc (.modal _ (exact d) hs') (by rw [hk']; simp) (.coeff _ rfl), modal_average hk', ← havg,
      hr'.eq_setCoeff hc hB, modal_average (modal_sane hc hm).2.1]
    rfl
  · unfold lwaBorrow at hbx
    obtain ⟨s1, hs1, rfl⟩ := Option.map_eq_some_iff.mp hbx
    rw [(h.sane hc).2] at hs1
    have hk' := (modal_sane hc hs1).2.1
    refine ⟨hp, ?_⟩
    dsimp only
    rw [average_act hc (.modal _ (exact 1) hs1) (by rw [hk']; simp) (.coeff _ rfl), modal_average hk']
    rfl

private theorem lwa_scalar {epsilon kEpsilon kTrunc : ℝ} (he : 0 < epsilon) (hk : 0 ≤ kEpsilon) {cs : LwaCandidates ℝ}
    (μ : ℕ → ℝ) {a : ℝ} (hd : ∀ x ∈ cs.all, x.degree ≤ p ∧ x.act μ = a) :
    ∑ l : Fin (p + 1), μ l • lwaScalar epsilon kEpsilon kTrunc cs l = a := by
  have := lwa_between (p := p) (lo := a) (hi := a) (kTrunc := kTrunc) μ he hk (fun x hx => (hd x hx).1)
    (fun x hx => by rw [(hd x hx).2]; exact ⟨le_rfl, le_rfl⟩)
  rw [Finset.sum_range] at this
  exact le_antisymm this.2 this.1

private theorem lwa_system {epsilon kEpsilon kTrunc : ℝ} (he : 0 < epsilon) (hk : 0 ≤ kEpsilon)
    {cs : LwaCandidates (Fin m → ℝ)} {left right : Matrix (Fin m) (Fin m) ℝ} (hrl : right * left = 1)
    (μ : ℕ → ℝ) {a : Fin m → ℝ} (hd : ∀ x ∈ cs.all, x.degree ≤ p ∧ x.act μ = a) :
    ∑ l : Fin (p + 1), μ l • right.mulVec (fun i => lwaScalar epsilon kEpsilon kTrunc
      ⟨cs.high.map (Candidate.component left s i), Candidate.component left s i cs.low,
        Candidate.component left s i cs.first, cs.second.map (Candidate.component left s i)⟩ l) = a := by
  refine act_system μ hrl _ a fun i => ?_
  rw [Finset.sum_range]
  refine lwa_scalar (p := p) he hk μ fun x hx => ?_
  have hall : (LwaCandidates.all ⟨cs.high.map (Candidate.component left s i), Candidate.component left s i cs.low,
        Candidate.component left s i cs.first, cs.second.map (Candidate.component left s i)⟩) =
      cs.all.map (Candidate.component left s i) := by
    unfold LwaCandidates.all
    cases cs.second <;> simp
  rw [hall] at hx
  obtain ⟨y, hy, rfl⟩ := List.mem_map.mp hx
  exact ⟨(hd y hy).1, by rw [act_component, (hd y hy).2]⟩

/-- C105: `LiWanAi2020` keeps the average of a troubled element, for scalar equations and for systems with
any pair of inverse matrices (on Lobatto nodes: for the closed rules with up to six points). -/
theorem lwa_average {epsilon kEpsilon kTrunc : ℝ} (he : 0 < epsilon) (hk : 0 ≤ kEpsilon)
    (exact : ∀ m, ExactTo (roots m).apply (2 * m + 1)) (hc : c.xLeft < c.xRight) (h : Built c s)
    (hl : s.kind = .lobatto → p ≤ 5) :
    (∀ (st : State p ℝ) (bs : List (Neighbour p ℝ)) (t : Fin (p + 1) → ℝ), Reached s st →
      lwaNewScalar roots epsilon kEpsilon kTrunc s st bs = some t → (setTaylor s t).average = st.average) ∧
    (∀ (st : State p (Fin m → ℝ)) (bs : List (Neighbour p (Fin m → ℝ))) (left right : Matrix (Fin m) (Fin m) ℝ)
      (t : Fin (p + 1) → Fin m → ℝ), Reached s st → right * left = 1 →
      lwaNewSystem roots epsilon kEpsilon kTrunc left right s st bs = some t → (setTaylor s t).average = st.average) := by
  constructor
  · intro st bs t hr ht
    obtain ⟨cs, hcs, rfl⟩ := Option.map_eq_some_iff.mp ht
    exact keeps hc h hl (lwa_scalar he hk _ (lwa_mean exact hc h hl hr hcs))
  · intro st bs left right t hr hrl ht
    obtain ⟨cs, hcs, rfl⟩ := Option.map_eq_some_iff.mp ht
    exact keeps hc h hl (lwa_system he hk hrl _ (lwa_mean exact hc h hl hr hcs))

private theorem lwa_flat (exact : ∀ m, ExactTo (roots m).apply (2 * m + 1)) (hc : c.xLeft < c.xRight)
    (h : Built c s) {st : State p V} (hr : Reached s st) {bs : List (Neighbour p V)} {a : V} (hs : ∀ x, s.value st x = a)
    (ha : st.average = a) (hb : ∀ b ∈ bs, ∀ x, b.value x = a)
    {cs : LwaCandidates V} (hcs : lwaCandidates roots s st bs = some cs) (x : ℝ) :
    ∀ y ∈ cs.all, y.degree ≤ p ∧ y.act (fun l => (x - c.xCenter) ^ l) = a := by
  obtain ⟨hp, l, hl1, hmem⟩ := members hcs
  obtain ⟨⟨rule, ex, hm⟩, hr', hv⟩ := legendre_value exact hc h hr hl1
  have hB : Built c l.1 := .modal rule ex hm
  have flat : ∀ {d : ℕ} {rule : Rule d} {s' : Setup d} (_ : modal c rule = some s') (_ : ExactTo rule.apply (2 * d + 1)) (x : ℝ),
      s'.value (setCoeff s' fun k => if k = 0 then a else 0) x = a := by
    intro d rule s' hs' ex x
    rw [value_eq hc (.modal rule ex hs') (.coeff _ rfl), Finset.sum_eq_single 0]
    · rw [(modal_sane hc hs').2.2.2.2.2]
      simp [setCoeff, Vincent.legendre]
    · intro k _ hk; simp [setCoeff, hk]
    · simp
  have hcoef : l.2.coeff = fun k => if k = 0 then a else 0 := by
    have e1 := hr'.eq_setCoeff hc hB
    have e2 : l.2.taylor = (setCoeff l.1 fun k => if k = 0 then a else 0).taylor := by
      refine taylor_unique ex hc fun y => ?_
      have hco := (hB.sane hc).2
      have f1 : l.1.value l.2 y = a := by rw [hv]; exact hs y
      have f2 := flat hm ex y
      rw [Setup.value, hco] at f1 f2
      rw [f1, f2]
    have e3 := (round_trip hc hB l.2.coeff l.2.taylor).2.2.1
    rw [← e1, e2, (round_trip hc hB _ l.2.taylor).2.2.1] at e3
    exact (congrArg State.coeff e3).symm
  intro y hy
  rcases hmem y hy with ⟨d, -, hd, rfl⟩ | ⟨b, hb', hbx⟩
  · refine ⟨hd, ?_⟩
    obtain ⟨s', hs', e⟩ := truncated_act exact hc (fun l => (x - c.xCenter) ^ l) hm l.2 hd
    rw [e, ← value_act (modal_sane hc hs').2.2.1, hcoef]
    have hz : ∀ k : Fin (d + 1), (Fin.castLE (by omega : d + 1 ≤ p + 1) k = 0) = (k = 0) := by
      intro k; rw [Fin.ext_iff, Fin.ext_iff]; rfl
    simp only [hz]
    exact flat hs' (exact d) x
  · unfold lwaBorrow at hbx
    obtain ⟨s1, hs1, rfl⟩ := Option.map_eq_some_iff.mp hbx
    rw [(h.sane hc).2] at hs1
    refine ⟨hp, ?_⟩
    dsimp only
    have e0 : b.integrator.integrate (fun x => Vincent.legendre 1 (s.coordinate.globalToLocal x) • (b.value x - st.average)) = 0 := by
      rw [Integrator.integrate_eq]
      refine Finset.sum_eq_zero fun i _ => ?_
      rw [hb b hb', ha, sub_self, smul_zero, smul_zero]
    rw [e0, smul_zero, ha, ← value_act (modal_sane hc hs1).2.2.1]
    exact flat hs1 (exact 1) x

/-- C105: Where the element and its neighbours hold one and the same constant, nothing changes. -/
theorem lwa_constant {epsilon kEpsilon kTrunc : ℝ} (he : 0 < epsilon) (hk : 0 ≤ kEpsilon)
    (exact : ∀ m, ExactTo (roots m).apply (2 * m + 1)) (hc : c.xLeft < c.xRight) (h : Built c s)
    (hl : s.kind = .lobatto → p ≤ 5) :
    (∀ (st : State p ℝ) (bs : List (Neighbour p ℝ)) (t : Fin (p + 1) → ℝ) (a : ℝ), Reached s st → (∀ x, s.value st x = a) →
      (∀ b ∈ bs, ∀ x, b.value x = a) →
      lwaNewScalar roots epsilon kEpsilon kTrunc s st bs = some t → ∀ x, s.value (setTaylor s t) x = a) ∧
    (∀ (st : State p (Fin m → ℝ)) (bs : List (Neighbour p (Fin m → ℝ))) (left right : Matrix (Fin m) (Fin m) ℝ)
      (t : Fin (p + 1) → Fin m → ℝ) (a : Fin m → ℝ), Reached s st → (∀ x, s.value st x = a) →
      (∀ b ∈ bs, ∀ x, b.value x = a) → right * left = 1 →
      lwaNewSystem roots epsilon kEpsilon kTrunc left right s st bs = some t → ∀ x, s.value (setTaylor s t) x = a) := by
  have hco := (h.sane hc).2
  have avg : ∀ {V : Type} [NormedAddCommGroup V] [NormedSpace ℝ V] [CompleteSpace V] {st : State p V} {a : V},
      Reached s st → (∀ x, s.value st x = a) → st.average = a := by
    intro V _ _ _ st a hr hs
    have := average_eq hc h hl hr
    simp only [hs, intervalIntegral.integral_const] at this
    exact smul_right_injective V (by linarith : c.xRight - c.xLeft ≠ 0) this
  constructor
  · intro st bs t a hr hs hb ht x
    obtain ⟨cs, hcs, rfl⟩ := Option.map_eq_some_iff.mp ht
    rw [value_act hco]
    exact lwa_scalar he hk _ (lwa_flat exact hc h hr hs (avg hr hs) hb hcs x)
  · intro st bs left right t a hr hs hb hrl ht x
    obtain ⟨cs, hcs, rfl⟩ := Option.map_eq_some_iff.mp ht
    rw [value_act hco]
    exact lwa_system he hk hrl _ (lwa_flat exact hc h hr hs (avg hr hs) hb hcs x)

end Lwa

end MiniCFD.PyLimiter
