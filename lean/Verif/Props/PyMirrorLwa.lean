import Verif.Props.PyMirrorLimiter
import Verif.Lemmas.PyMirror

/-! # C150: the limiter of Li, Wang and Ren in a mirror -/

namespace MiniCFD.PyMirrorLimiter
open MiniCFD.PyQuad MiniCFD.PyExpansion MiniCFD.PyLimiter MiniCFD.Spec.PyMirror MiniCFD.Spec.PyMirrorLimiter Polynomial
open MiniCFD.PyMirror (integrate_mirror)
open MiniCFD.Vincent (leg leg_eval)
open MiniCFD.Spec.Gauss (ExactTo)

variable {p : ℕ} {c c' : Coordinate} {s s' : Setup p} {σ w : ℝ}

/-! ### Candidates -/

/-- Candidates that are images of each other. -/
structure Twin (σ w : ℝ) (k k' : Candidate ℝ) : Prop where
  degree : k'.degree = k.degree
  coef : ∀ l, k'.coef l = σ * (-1) ^ l * k.coef l
  integrate : ∀ g : ℝ → ℝ, k'.integrator.integrate g = k.integrator.integrate fun x => g (w - x)
  length : k'.integrator.coordinate.length = k.integrator.coordinate.length
  center : k'.integrator.coordinate.xCenter = w - k.integrator.coordinate.xCenter

private theorem derivative_coef (k : Candidate ℝ) (x : ℝ) (n : ℕ) :
    k.derivative x n = ∑ l ∈ Finset.range (k.degree + 1),
      if n ≤ l then taylorDerivatives k.integrator.coordinate.xCenter x n l * k.coef l else 0 := by
  rw [Candidate.derivative, Finset.sum_filter, Finset.sum_range]
  refine Finset.sum_congr rfl fun l _ => ?_
  rw [Candidate.coef, dif_pos l.2]

theorem sign_sq (n : ℕ) : ((-1 : ℝ) ^ n) ^ 2 = 1 := by rw [← pow_mul, mul_comm, pow_mul]; simp

theorem Twin.derivative {k k' : Candidate ℝ} (h : Twin σ w k k') (x : ℝ) (n : ℕ) :
    k'.derivative x n = σ * (-1) ^ n * k.derivative (w - x) n := by
  rw [derivative_coef, derivative_coef, h.degree, Finset.mul_sum]
  refine Finset.sum_congr rfl fun l _ => ?_
  split_ifs with hl
  · obtain ⟨m, rfl⟩ := Nat.exists_eq_add_of_le hl
    rw [taylorDerivatives_eq, taylorDerivatives_eq, h.center, h.coef, Nat.add_sub_cancel_left,
      show x - (w - k.integrator.coordinate.xCenter) = -1 * (w - x - k.integrator.coordinate.xCenter) by ring, mul_pow,
      pow_add]
    linear_combination (↑((n + m).descFactorial n) * (w - x - k.integrator.coordinate.xCenter) ^ m * σ * (-1) ^ n *
      k.coef (n + m)) * sign_sq m
  · ring

theorem Twin.norm (hσ : σ ^ 2 = 1) {k k' : Candidate ℝ} (h : Twin σ w k k') (n : ℕ) : k'.norm n = k.norm n := by
  rw [Candidate.norm, Candidate.norm, h.integrate]
  congr 1
  funext x
  rw [h.derivative, sub_sub_cancel, mul_pow, mul_pow, hσ, sign_sq, one_mul, one_mul]

theorem Twin.lwaNorm (hσ : σ ^ 2 = 1) {k k' : Candidate ℝ} (h : Twin σ w k k') (n : ℕ) : lwaNorm k' n = lwaNorm k n := by
  rw [PyLimiter.lwaNorm, PyLimiter.lwaNorm, h.norm hσ, h.length]

theorem Twin.lwaSmoothness (hσ : σ ^ 2 = 1) {k k' : Candidate ℝ} (h : Twin σ w k k') :
    lwaSmoothness k' = lwaSmoothness k := by
  rw [PyLimiter.lwaSmoothness, PyLimiter.lwaSmoothness, h.degree]
  exact Finset.sum_congr rfl fun d _ => h.lwaNorm hσ _

theorem high_mirror (hσ : σ ^ 2 = 1) (epsilon kTrunc betaMean : ℝ) {cs cs' : List (Candidate ℝ)}
    (h : List.Forall₂ (Twin σ w) cs cs') :
    highWeights epsilon kTrunc betaMean cs' = highWeights epsilon kTrunc betaMean cs := by
  induction h with
  | nil => rfl
  | cons h _ ih => simp only [highWeights, h.degree, h.lwaNorm hσ, ih]

private theorem zip_mirror (S : ℝ) (l : ℕ) {cs cs' : List (Candidate ℝ)} (h : List.Forall₂ (Twin σ w) cs cs') :
    ∀ ws : List ℝ, (List.zipWith (fun v (c : Candidate ℝ) => c.coef l * (v / S)) ws cs').sum =
      σ * (-1) ^ l * (List.zipWith (fun v (c : Candidate ℝ) => c.coef l * (v / S)) ws cs).sum := by
  induction h with
  | nil => intro ws; simp
  | cons h _ ih =>
    intro ws
    cases ws with
    | nil => simp
    | cons v ws =>
      simp only [List.zipWith_cons_cons, List.sum_cons, ih, h.coef]
      ring

/-- The weighted mean of images, where the two borrowed candidates have changed their places. -/
theorem lwa_scalar_mirror (hσ : σ ^ 2 = 1) (epsilon kEpsilon kTrunc : ℝ) {cs cs' : LwaCandidates ℝ}
    (hh : List.Forall₂ (Twin σ w) cs.high cs'.high) (hl : Twin σ w cs.low cs'.low)
    (hb : (cs.second = none ∧ cs'.second = none ∧ Twin σ w cs.first cs'.first) ∨
      ∃ y y', cs.second = some y ∧ cs'.second = some y' ∧ Twin σ w cs.first y' ∧ Twin σ w y cs'.first) (l : ℕ) :
    lwaScalar epsilon kEpsilon kTrunc cs' l = σ * (-1) ^ l * lwaScalar epsilon kEpsilon kTrunc cs l := by
  obtain ⟨high, low, first, second⟩ := cs
  obtain ⟨high', low', first', second'⟩ := cs'
  simp only at hh hl hb
  have hlen : high'.length = high.length := hh.length_eq.symm
  rcases hb with ⟨rfl, rfl, hf⟩ | ⟨y, y', rfl, rfl, hf, hy⟩
  · simp only [lwaScalar, combine, Option.getD_none, hl.lwaSmoothness hσ, hf.lwaSmoothness hσ, high_mirror hσ _ _ _ hh, hlen,
      Option.toList_none, List.append_nil]
    exact zip_mirror _ l (List.rel_append hh (.cons hl (.cons hf .nil))) _
  · simp only [lwaScalar, combine, Option.getD_some, hl.lwaSmoothness hσ, hf.lwaSmoothness hσ, hy.lwaSmoothness hσ,
      Option.toList_some]
    rw [show lwaSmoothness low + lwaSmoothness y + lwaSmoothness first =
        lwaSmoothness low + lwaSmoothness first + lwaSmoothness y by ring,
      add_comm (lwaSmoothness y ^ 2), high_mirror hσ _ _ _ hh, hlen]
    split_ifs with hw
    · have e : ∀ (v v' : ℝ) (c c' : Candidate ℝ) (S : ℝ) (ws : List ℝ) (cs : List (Candidate ℝ)) (u : ℝ) (d : Candidate ℝ),
          ws.length = cs.length →
          (List.zipWith (fun v (c : Candidate ℝ) => c.coef l * (v / S)) (ws ++ [u, v] ++ [v']) (cs ++ [d, c] ++ [c'])).sum =
            (List.zipWith (fun v (c : Candidate ℝ) => c.coef l * (v / S)) ws cs).sum + d.coef l * (u / S) +
              (c.coef l * (v / S) + c'.coef l * (v' / S)) := by
        intro v v' c c' S ws cs u d h
        rw [List.append_assoc, List.append_assoc, List.zipWith_append h, List.sum_append]
        simp
        ring
      rw [e _ _ _ _ _ _ _ _ _ (by rw [hw, hlen]), e _ _ _ _ _ _ _ _ _ hw]
      simp only [List.sum_append, List.sum_cons, List.sum_nil, add_zero]
      rw [show ∀ A B C D : ℝ, A + (B + C) + D = A + (B + D) + C by intros; ring, zip_mirror _ l hh, hl.coef, hf.coef, hy.coef]
      ring
    · have e : ∀ (S : ℝ) (ws : List ℝ) (cs cs1 : List (Candidate ℝ)), ws.length ≤ cs.length →
          List.zipWith (fun v (c : Candidate ℝ) => c.coef l * (v / S)) ws (cs ++ cs1) =
            List.zipWith (fun v (c : Candidate ℝ) => c.coef l * (v / S)) ws cs := by
        intro S ws cs cs1 h
        induction ws generalizing cs with
        | nil => simp
        | cons v ws ih =>
          cases cs with
          | nil => simp at h
          | cons d cs => simp only [List.cons_append, List.zipWith_cons_cons]; rw [ih cs (by simpa using h)]
      have hle : ∀ (b : ℝ) (cs : List (Candidate ℝ)), (highWeights epsilon kTrunc b cs).length ≤ cs.length := by
        intro b cs
        induction cs with
        | nil => simp [highWeights]
        | cons d cs ih =>
          simp only [highWeights]
          split_ifs
          · simp
          · simpa using ih
      rw [List.append_assoc, List.append_assoc, e _ _ _ _ (by rw [hlen]; exact hle _ _), e _ _ _ _ (hle _ _)]
      exact zip_mirror _ l hh _

/-! ### Legendre expansions -/

theorem leg_parity (k r : ℕ) : (leg k).coeff r * (-1) ^ r = (-1) ^ k * (leg k).coeff r := by
  have e : (leg k).comp (C (-1) * X) = C ((-1) ^ k) * leg k := by
    refine Polynomial.funext fun x => ?_
    rw [eval_comp, eval_mul, eval_mul, eval_C, eval_C, eval_X, leg_eval, leg_eval, neg_one_mul, Vincent.legendre_neg]
  have := congrArg (fun q => q.coeff r) e
  simpa only [comp_C_mul_X_coeff, coeff_C_mul] using this

theorem sign_cancel (k r : ℕ) (a : ℝ) : (leg k).coeff r * ((-1) ^ k * a) = (-1) ^ r * ((leg k).coeff r * a) := by
  have h := leg_parity k r
  linear_combination (-a) * h

/-- Expansions whose coefficients change their signs with the parity. -/
theorem modal_twin (hc : c.xLeft < c.xRight) (ho : Opposite w c c') {d : ℕ} (hd : d ≤ p) {rule rule' : Rule p}
    (exact : ExactTo rule.apply (2 * p + 1)) (exact' : ExactTo rule'.apply (2 * p + 1)) (h : modal c rule = some s)
    (h' : modal c' rule' = some s') {st st' : State p ℝ} (hst : ∀ k, st'.coeff k = σ * (-1) ^ (k : ℕ) * st.coeff k) :
    Twin σ w (truncated d hd s st) (truncated d hd s' st') := by
  have hc' : c'.xLeft < c'.xRight := by rw [ho.left, ho.right]; linarith
  obtain ⟨-, hm, hco, hi, hT, -⟩ := modal_sane hc h
  obtain ⟨-, hm', hco', hi', hT', -⟩ := modal_sane hc' h'
  have hJ : c'.localToJacobian 0 = c.localToJacobian 0 := by
    rw [c'.eq_linear.2.2.1, c.eq_linear.2.2.1, ho.left, ho.right]; ring
  refine ⟨rfl, fun l => ?_, fun g => ?_, ?_, ?_⟩
  · unfold Candidate.coef truncated
    dsimp only
    split_ifs with hl
    · unfold truncate apply
      dsimp only
      rw [Finset.mul_sum]
      refine Finset.sum_congr rfl fun k _ => ?_
      rw [hT, hT', hJ, hst, smul_eq_mul, smul_eq_mul]
      have := sign_cancel k l (st.coeff (Fin.castLE (by omega) k))
      simp only [Fin.val_castLE] at this ⊢
      rw [div_mul_eq_mul_div, div_mul_eq_mul_div, mul_div_assoc']
      congr 1
      linear_combination σ * this
    · ring
  · exact integrate_mirror hc ho (.modal _ exact h) (.modal _ exact' h') (by rw [hm, hm']) g
  · show s'.integrator.coordinate.length = s.integrator.coordinate.length
    rw [hi, hi']
    show c'.length = c.length
    rw [c'.eq_linear.1, c.eq_linear.1, ho.left, ho.right]; ring
  · show s'.integrator.coordinate.xCenter = w - s.integrator.coordinate.xCenter
    rw [hi, hi']
    show c'.xCenter = w - c.xCenter
    rw [c'.eq_linear.2.1, c.eq_linear.2.1, ho.left, ho.right]; ring

theorem local_mirror (hc : c.xLeft < c.xRight) (ho : Opposite w c c') (x : ℝ) :
    c'.globalToLocal x = -c.globalToLocal (w - x) := by
  rw [c'.eq_linear.2.2.2.2.2, c.eq_linear.2.2.2.2.2, ho.left, ho.right]
  have : c.xRight - c.xLeft ≠ 0 := by linarith
  rw [show w - c.xLeft - (w - c.xRight) = c.xRight - c.xLeft by ring]
  field_simp
  ring

/-- The coefficients of the images. -/
theorem modal_coeff (hc : c.xLeft < c.xRight) (ho : Opposite w c c') {rule rule' : Rule p}
    (exact : ExactTo rule.apply (2 * p + 1)) (exact' : ExactTo rule'.apply (2 * p + 1)) (h : modal c rule = some s)
    (h' : modal c' rule' = some s') {st st' : State p ℝ} (hr : Reached s st) (hr' : Reached s' st')
    (hv : s'.value st' = imageOf σ w (s.value st)) (k : Fin (p + 1)) : st'.coeff k = σ * (-1) ^ (k : ℕ) * st.coeff k := by
  have hc' : c'.xLeft < c'.xRight := by rw [ho.left, ho.right]; linarith
  have hB := Built.modal rule exact h
  have hB' := Built.modal rule' exact' h'
  have hco' := (hB'.sane hc').2
  let a : Fin (p + 1) → ℝ := fun k => σ * (-1) ^ (k : ℕ) * st.coeff k
  have e : ∀ x, s'.value (setCoeff s' a) x = s'.value st' x := by
    intro x
    rw [hv, imageOf, value_eq hc' hB' (.coeff _ rfl), value_eq hc hB hr, Finset.mul_sum]
    refine Finset.sum_congr rfl fun k _ => ?_
    rw [(modal_sane hc' h').2.2.2.2.2, (modal_sane hc h).2.2.2.2.2, local_mirror hc ho, Vincent.legendre_neg, smul_eq_mul,
      smul_eq_mul]
    show (-1) ^ (k : ℕ) * _ * (σ * (-1) ^ (k : ℕ) * st.coeff k) = _
    linear_combination (Vincent.legendre k (c.globalToLocal (w - x)) * σ * st.coeff k) * sign_sq k
  have et : (setCoeff s' a).taylor = st'.taylor := by
    refine taylor_unique (c := c') exact' hc' fun x => ?_
    have := e x
    simpa only [Setup.value, hco'] using this
  have h1 := (round_trip hc' hB' a a).2.2.1
  have h2 := (round_trip hc' hB' st'.coeff a).2.2.1
  rw [← hr'.eq_setCoeff hc' hB'] at h2
  rw [et, h2] at h1
  rw [h1]
  rfl

/-! ### Borrowed candidates -/

/-- Neighbours that hold images of each other, on elements that are images of each other. -/
structure Facing (σ w : ℝ) (b b' : Neighbour p ℝ) : Prop where
  elements : ∃ c c' : Coordinate, c.xLeft < c.xRight ∧ Opposite w c c' ∧ Built c b.setup ∧ Built c' b'.setup
  kind : b'.setup.kind = .lobatto ↔ b.setup.kind = .lobatto
  shift : b'.shift = -b.shift
  value : b'.value = imageOf σ w b.value

theorem neighbour_integrate (b : Neighbour p ℝ) (g : ℝ → ℝ) :
    b.integrator.integrate g = b.setup.integrator.integrate fun x => g (x + b.shift) := by
  rw [Integrator.integrate_eq, Integrator.integrate_eq]
  rfl

theorem Facing.integrate {b b' : Neighbour p ℝ} (h : Facing σ w b b') (g : ℝ → ℝ) :
    b'.integrator.integrate g = b.integrator.integrate fun x => g (w - x) := by
  obtain ⟨cb, cb', hc, ho, hB, hB'⟩ := h.elements
  rw [neighbour_integrate, neighbour_integrate, integrate_mirror hc ho hB hB' h.kind]
  congr 1
  funext x
  rw [h.shift]
  congr 1
  ring

/-- The means of the images. -/
theorem average_mirror (hc : c.xLeft < c.xRight) (ho : Opposite w c c') (h : Built c s) (h' : Built c' s')
    (hl : s.kind = .lobatto → p ≤ 5) (hl' : s'.kind = .lobatto → p ≤ 5) {st st' : State p ℝ} (hr : Reached s st)
    (hr' : Reached s' st') (hv : s'.value st' = imageOf σ w (s.value st)) : st'.average = σ * st.average := by
  have hc' : c'.xLeft < c'.xRight := by rw [ho.left, ho.right]; linarith
  have e := average_eq hc h hl hr
  have e' := average_eq hc' h' hl' hr'
  have hm := mean_imageOf (σ := σ) (w := w) c.xLeft c.xRight (s.value st)
  have hne : c.xRight - c.xLeft ≠ 0 := by linarith
  have hne' : c'.xRight - c'.xLeft ≠ 0 := by linarith
  rw [← hv, ← ho.left, ← ho.right] at hm
  unfold Spec.PyLimiter.mean at hm
  rw [← e, ← e', smul_eq_mul, smul_eq_mul, inv_mul_cancel_left₀ hne, inv_mul_cancel_left₀ hne'] at hm
  exact hm

variable {roots : (m : ℕ) → Rule m}

/-- The borrowed candidates are images of each other. -/
theorem borrow_mirror (exact : ∀ m, ExactTo (roots m).apply (2 * m + 1)) (hc : c.xLeft < c.xRight) (ho : Opposite w c c')
    (h : Built c s) (h' : Built c' s') {st st' : State p ℝ} (ha : st'.average = σ * st.average) {b b' : Neighbour p ℝ}
    (hb : Facing σ w b b') :
    ∃ k k', lwaBorrow roots s st b = some k ∧ lwaBorrow roots s' st' b' = some k' ∧ Twin σ w k k' := by
  have hc' : c'.xLeft < c'.xRight := by rw [ho.left, ho.right]; linarith
  obtain ⟨s1, hs1⟩ := modal_defined hc (roots 1)
  obtain ⟨s1', hs1'⟩ := modal_defined hc' (roots 1)
  have hco := (h.sane hc).2
  have hco' := (h'.sane hc').2
  have hphi : ∀ x, Vincent.legendre 1 (c'.globalToLocal x) = -Vincent.legendre 1 (c.globalToLocal (w - x)) := by
    intro x
    rw [local_mirror hc ho, Vincent.legendre_neg]
    ring
  have hn : b'.integrator.norm2 (fun x => Vincent.legendre 1 (c'.globalToLocal x)) =
      b.integrator.norm2 fun x => Vincent.legendre 1 (c.globalToLocal x) := by
    unfold Integrator.norm2
    rw [hb.integrate]
    simp only [hphi, sub_sub_cancel, abs_neg]
  have hi : b'.integrator.integrate (fun x => Vincent.legendre 1 (c'.globalToLocal x) • (b'.value x - st'.average)) =
      -σ * b.integrator.integrate fun x => Vincent.legendre 1 (c.globalToLocal x) • (b.value x - st.average) := by
    rw [hb.integrate, Integrator.integrate_eq, Integrator.integrate_eq, Finset.mul_sum]
    refine Finset.sum_congr rfl fun i _ => ?_
    simp only [hphi, sub_sub_cancel, hb.value, imageOf, ha, smul_eq_mul]
    ring
  unfold lwaBorrow
  rw [hco, hco', hs1, hs1']
  refine ⟨_, _, rfl, rfl, ?_⟩
  have key := modal_twin (σ := σ) hc ho (le_refl 1) (exact 1) (exact 1) hs1 hs1'
    (st := setCoeff s1 fun k => if k = 0 then st.average else
      (b.integrator.norm2 fun x => Vincent.legendre 1 (c.globalToLocal x))⁻¹ •
        b.integrator.integrate fun x => Vincent.legendre 1 (c.globalToLocal x) • (b.value x - st.average))
    (st' := setCoeff s1' fun k => if k = 0 then st'.average else
      (b'.integrator.norm2 fun x => Vincent.legendre 1 (c'.globalToLocal x))⁻¹ •
        b'.integrator.integrate fun x => Vincent.legendre 1 (c'.globalToLocal x) • (b'.value x - st'.average)) (by
      intro k
      dsimp only [setCoeff]
      rw [hn, hi, ha]
      fin_cases k
      · simp
      · show (if (1 : Fin 2) = 0 then _ else _) = σ * (-1) ^ 1 * (if (1 : Fin 2) = 0 then _ else _)
        rw [if_neg (by decide), if_neg (by decide), smul_eq_mul, smul_eq_mul]
        generalize (b.integrator.integrate fun x => Vincent.legendre 1 (c.globalToLocal x) • (b.value x - st.average)) = I
        ring)
  exact key

/-- All candidates. -/
theorem candidates_mirror (exact : ∀ m, ExactTo (roots m).apply (2 * m + 1)) (hc : c.xLeft < c.xRight)
    (ho : Opposite w c c') (h : Built c s) (h' : Built c' s') (hl : s.kind = .lobatto → p ≤ 5)
    (hl' : s'.kind = .lobatto → p ≤ 5) {st st' : State p ℝ} (hr : Reached s st) (hr' : Reached s' st')
    (hv : s'.value st' = imageOf σ w (s.value st)) {bs bs' : List (Neighbour p ℝ)}
    (hb : List.Forall₂ (Facing σ w) bs.reverse bs') {cs : LwaCandidates ℝ} (hcs : lwaCandidates roots s st bs = some cs) :
    ∃ cs', lwaCandidates roots s' st' bs' = some cs' ∧ List.Forall₂ (Twin σ w) cs.high cs'.high ∧ Twin σ w cs.low cs'.low ∧
      ((cs.second = none ∧ cs'.second = none ∧ Twin σ w cs.first cs'.first) ∨
        ∃ y y', cs.second = some y ∧ cs'.second = some y' ∧ Twin σ w cs.first y' ∧ Twin σ w y cs'.first) := by
  have hc' : c'.xLeft < c'.xRight := by rw [ho.left, ho.right]; linarith
  have hlen : bs'.length = bs.length := by simpa using hb.length_eq.symm
  obtain ⟨hp, hb1, hb2⟩ := (lwa_defined exact hc (h.sane hc).2 st bs).1 (by rw [hcs]; rfl)
  obtain ⟨cs', hcs'⟩ := Option.isSome_iff_exists.mp
    ((lwa_defined exact hc' (h'.sane hc').2 st' bs').2 ⟨hp, by omega, by omega⟩)
  refine ⟨cs', hcs', ?_⟩
  have ha := average_mirror hc ho h h' hl hl' hr hr' hv
  unfold lwaCandidates at hcs hcs'
  rw [dif_pos hp] at hcs hcs'
  obtain ⟨l, hl1, hcs⟩ := Option.bind_eq_some_iff.mp hcs
  obtain ⟨l', hl1', hcs'⟩ := Option.bind_eq_some_iff.mp hcs'
  obtain ⟨⟨rule, ex, hm⟩, hrl, hvl⟩ := legendre_value exact hc h hr hl1
  obtain ⟨⟨rule', ex', hm'⟩, hrl', hvl'⟩ := legendre_value exact hc' h' hr' hl1'
  have hcoef := modal_coeff (σ := σ) hc ho ex ex' hm hm' hrl hrl' (by rw [hvl, hvl', hv])
  have twin : ∀ d (hd : d ≤ p), Twin σ w (truncated d hd l.1 l.2) (truncated d hd l'.1 l'.2) := fun d hd =>
    modal_twin hc ho hd ex ex' hm hm' hcoef
  have high : List.Forall₂ (Twin σ w) ((List.range (p - 1)).map fun i => truncated (p - i) (Nat.sub_le p i) l.1 l.2)
      ((List.range (p - 1)).map fun i => truncated (p - i) (Nat.sub_le p i) l'.1 l'.2) := by
    rw [List.forall₂_map_left_iff, List.forall₂_map_right_iff, List.forall₂_same]
    exact fun i _ => twin _ _
  dsimp only at hcs hcs'
  match bs, hb, hcs, hb1, hb2 with
  | [b], hb, hcs, _, _ =>
    simp only [List.reverse_cons, List.reverse_nil, List.nil_append] at hb
    cases hb with
    | cons hf hn =>
      cases hn
      obtain ⟨k, k', e, e', tw⟩ := borrow_mirror exact hc ho h h' ha hf
      simp only [e, e', Option.map_some, Option.some.injEq] at hcs hcs'
      subst hcs hcs'
      exact ⟨high, twin 1 hp, .inl ⟨rfl, rfl, tw⟩⟩
  | [b, d], hb, hcs, _, _ =>
    simp only [List.reverse_cons, List.reverse_nil, List.nil_append, List.cons_append] at hb
    cases hb with
    | cons hf hn =>
      cases hn with
      | cons hg hn =>
        cases hn
        obtain ⟨k, k', e, e', tw⟩ := borrow_mirror exact hc ho h h' ha hf
        obtain ⟨j, j', f, f', tw'⟩ := borrow_mirror exact hc ho h h' ha hg
        simp only [e, e', f, f', Option.map_some, Option.bind_some, Option.some.injEq] at hcs hcs'
        subst hcs hcs'
        exact ⟨high, twin 1 hp, .inr ⟨_, _, rfl, rfl, tw', tw⟩⟩

/-- **One element.**  If the element and its neighbours, which come in the other order, hold images of each other, then the
limiter either fails on both or returns images of each other. -/
theorem lwa_mirror (hσ : σ ^ 2 = 1) (epsilon kEpsilon kTrunc : ℝ) (exact : ∀ m, ExactTo (roots m).apply (2 * m + 1))
    (hc : c.xLeft < c.xRight) (ho : Opposite w c c') (h : Built c s) (h' : Built c' s') (hl : s.kind = .lobatto → p ≤ 5)
    (hl' : s'.kind = .lobatto → p ≤ 5) {st st' : State p ℝ} (hr : Reached s st) (hr' : Reached s' st')
    (hv : s'.value st' = imageOf σ w (s.value st)) {bs bs' : List (Neighbour p ℝ)}
    (hb : List.Forall₂ (Facing σ w) bs.reverse bs') :
    ((lwaNewScalar roots epsilon kEpsilon kTrunc s' st' bs').isSome ↔
      (lwaNewScalar roots epsilon kEpsilon kTrunc s st bs).isSome) ∧
    ∀ t t', lwaNewScalar roots epsilon kEpsilon kTrunc s st bs = some t →
      lwaNewScalar roots epsilon kEpsilon kTrunc s' st' bs' = some t' →
      s'.value (setTaylor s' t') = imageOf σ w (s.value (setTaylor s t)) := by
  have hc' : c'.xLeft < c'.xRight := by rw [ho.left, ho.right]; linarith
  have hco := (h.sane hc).2
  have hco' := (h'.sane hc').2
  constructor
  · have hlen : bs'.length = bs.length := by simpa using hb.length_eq.symm
    simp only [lwaNewScalar, Option.isSome_map]
    rw [lwa_defined exact hc hco, lwa_defined exact hc' hco', hlen]
  · intro t t' e e'
    obtain ⟨cs, hcs, rfl⟩ := Option.map_eq_some_iff.mp e
    obtain ⟨cs', hcs', rfl⟩ := Option.map_eq_some_iff.mp e'
    obtain ⟨cs1, hcs1, h1, h2, h3⟩ := candidates_mirror exact hc ho h h' hl hl' hr hr' hv hb hcs
    rw [hcs'] at hcs1
    cases hcs1
    funext x
    rw [imageOf, Setup.value, Setup.value, hco, hco']
    simp only [taylorValue, taylorValues_eq, setTaylor, smul_eq_mul, lwa_scalar_mirror hσ _ _ _ h1 h2 h3]
    rw [Finset.mul_sum]
    refine Finset.sum_congr rfl fun l _ => ?_
    have : x - c'.xCenter = -1 * (w - x - c.xCenter) := by
      rw [c'.eq_linear.2.1, c.eq_linear.2.1, ho.left, ho.right]; ring
    rw [this, mul_pow]
    linear_combination (σ * (w - x - c.xCenter) ^ (l : ℕ) * lwaScalar epsilon kEpsilon kTrunc cs l) * sign_sq l

/-! ### Grids -/

section Grids
variable {ι κ : Type} [DecidableEq ι] [DecidableEq κ] {setup : ι → Setup p} {setup' : κ → Setup p}
  {coordinate : ι → Coordinate} {coordinate' : κ → Coordinate}

/-- **A grid.**  The limiter fails on both grids or on none, and takes images to images. -/
theorem lwa_grid_mirror (hσ : σ ^ 2 = 1) (epsilon kEpsilon kTrunc : ℝ) (exact : ∀ m, ExactTo (roots m).apply (2 * m + 1))
    (hc : ∀ i, (coordinate i).xLeft < (coordinate i).xRight) (e : ι ≃ κ)
    (ho : ∀ i, Opposite w (coordinate i) (coordinate' (e i))) (h : ∀ i, Built (coordinate i) (setup i))
    (h' : ∀ i, Built (coordinate' i) (setup' i)) (hl : ∀ i, (setup i).kind = .lobatto → p ≤ 5)
    (hk : ∀ i, (setup' (e i)).kind = .lobatto ↔ (setup i).kind = .lobatto) {states : ι → State p ℝ} {states' : κ → State p ℝ}
    (hr : ∀ i, Reached (setup i) (states i)) (hr' : ∀ i, Reached (setup' i) (states' i))
    (hv : ∀ i, (setup' (e i)).value (states' (e i)) = imageOf σ w ((setup i).value (states i)))
    {links : ι → List (ι × ℝ)} {links' : κ → List (κ × ℝ)}
    (hlinks : ∀ i, links' (e i) = ((links i).map fun jt => (e jt.1, -jt.2)).reverse) {troubled : List ι} {troubled' : List κ}
    (ht : ∀ i, e i ∈ troubled' ↔ i ∈ troubled) :
    let limit := reconstruct (fun st i => lwaNewScalar roots epsilon kEpsilon kTrunc (setup i) (st i)
      (neighboursOf setup st (links i))) setup troubled states
    let limit' := reconstruct (fun st i => lwaNewScalar roots epsilon kEpsilon kTrunc (setup' i) (st i)
      (neighboursOf setup' st (links' i))) setup' troubled' states'
    (limit'.isSome ↔ limit.isSome) ∧ ∀ new new', limit = some new → limit' = some new' →
      ∀ i, (setup' (e i)).value (new' (e i)) = imageOf σ w ((setup i).value (new i)) := by
  intro limit limit'
  have facing : ∀ i, List.Forall₂ (Facing σ w) (neighboursOf setup states (links i)).reverse
      (neighboursOf setup' states' (links' (e i))) := by
    intro i
    unfold neighboursOf
    rw [hlinks, List.map_reverse, List.forall₂_reverse_iff, List.map_map, List.forall₂_map_left_iff,
      List.forall₂_map_right_iff, List.forall₂_same]
    intro jt _
    refine ⟨⟨_, _, hc jt.1, ho jt.1, h jt.1, h' (e jt.1)⟩, hk jt.1, rfl, funext fun x => ?_⟩
    simp only [Function.comp, Neighbour.value, hv, imageOf]
    congr 2
    ring
  have one := fun i => lwa_mirror hσ epsilon kEpsilon kTrunc exact (hc i) (ho i) (h i) (h' (e i)) (hl i)
    (fun hk' => hl i ((hk i).1 hk')) (hr i) (hr' (e i)) (hv i) (facing i)
  constructor
  · simp only [limit, limit']
    rw [PyLimiter.succeeds, PyLimiter.succeeds]
    constructor
    · exact fun H i hi => (one i).1.1 (H (e i) ((ht i).2 hi))
    · intro H j hj
      obtain ⟨i, rfl⟩ := e.surjective j
      exact (one i).1.2 (H i ((ht i).1 hj))
  · intro new new' hn hn' i
    obtain ⟨ha, hb⟩ := simultaneous _ setup hn i
    obtain ⟨ha', hb'⟩ := simultaneous _ setup' hn' (e i)
    by_cases hi : i ∈ troubled
    · obtain ⟨t, e1, e2⟩ := hb hi
      obtain ⟨t', e1', e2'⟩ := hb' ((ht i).2 hi)
      rw [e2, e2', (one i).2 t t' e1 e1']
    · rw [ha hi, ha' fun h => hi ((ht i).1 h), hv]

end Grids

/-! ### A periodic grid of two elements with a roof on it, which is its own image -/

private def co : Fin 2 → Coordinate := ![.linear 0 1, .linear 1 2]
private def links : Fin 2 → List (Fin 2 × ℝ) := ![[(1, -2), (1, 0)], [(0, 0), (0, 2)]]

/-- Both limiters keep the symmetry of the roof `min x (2 - x)`, and succeed on it. -/
example (roots : (m : ℕ) → Rule m) (exact : ∀ m, ExactTo (roots m).apply (2 * m + 1)) :
    ∃ (setup : Fin 2 → Setup 1) (states new new' : Fin 2 → State 1 ℝ),
      (∀ x, (setup 0).value (states 0) x = x) ∧ (∀ x, (setup 1).value (states 1) x = 2 - x) ∧
      reconstruct (fun st i => zxhNewScalar (1 / 10 ^ 6) (1 / 1000) (setup i) (st i) (neighboursOf setup st (links i))) setup
        [1, 0] states = some new ∧
      reconstruct (fun st i => lwaNewScalar roots (1 / 10 ^ 16) (1 / 10 ^ 8) 1 (setup i) (st i)
        (neighboursOf setup st (links i))) setup [0, 1] states = some new' ∧
      (∀ x, (setup 1).value (new 1) x = (setup 0).value (new 0) (2 - x)) ∧
      ∀ x, (setup 1).value (new' 1) x = (setup 0).value (new' 0) (2 - x) := by
  have hc : ∀ i, (co i).xLeft < (co i).xRight := by
    intro i; fin_cases i <;> simp [co, Coordinate.xLeft, Coordinate.xRight]
  choose setup hs using fun i => modal_defined (hc i) (roots 1)
  have hk : ∀ i, (setup i).kind = .modal := fun i => (modal_sane (hc i) (hs i)).2.1
  have hB : ∀ i, Built (co i) (setup i) := fun i => .modal _ (exact 1) (hs i)
  set states : Fin 2 → State 1 ℝ := fun i => setCoeff (setup i) (![![1 / 2, 1 / 2], ![1 / 2, -1 / 2]] i)
  have v0 : ∀ x, (setup 0).value (states 0) x = x := by
    intro x
    rw [value_eq (hc 0) (hB 0) (.coeff _ rfl), Fin.sum_univ_two, (modal_sane (hc 0) (hs 0)).2.2.2.2.2,
      (modal_sane (hc 0) (hs 0)).2.2.2.2.2]
    simp [states, setCoeff, Vincent.legendre, co, Coordinate.globalToLocal]
  have v1 : ∀ x, (setup 1).value (states 1) x = 2 - x := by
    intro x
    rw [value_eq (hc 1) (hB 1) (.coeff _ rfl), Fin.sum_univ_two, (modal_sane (hc 1) (hs 1)).2.2.2.2.2,
      (modal_sane (hc 1) (hs 1)).2.2.2.2.2]
    simp [states, setCoeff, Vincent.legendre, co, Coordinate.globalToLocal]
    ring
  have ho : ∀ i, Opposite 2 (co i) (co (Equiv.swap 0 1 i)) := by
    intro i
    fin_cases i <;> constructor <;> simp [co, Coordinate.xLeft, Coordinate.xRight] <;> norm_num
  have hv : ∀ i, (setup (Equiv.swap 0 1 i)).value (states (Equiv.swap 0 1 i)) = imageOf 1 2 ((setup i).value (states i)) := by
    intro i
    funext x
    fin_cases i
    · show (setup (Equiv.swap 0 1 0)).value (states (Equiv.swap 0 1 0)) x = 1 * (setup 0).value (states 0) (2 - x)
      rw [Equiv.swap_apply_left, v0, v1]; ring
    · show (setup (Equiv.swap 0 1 1)).value (states (Equiv.swap 0 1 1)) x = 1 * (setup 1).value (states 1) (2 - x)
      rw [Equiv.swap_apply_right, v0, v1]; ring
  have hl : ∀ i, links (Equiv.swap 0 1 i) = ((links i).map fun jt => (Equiv.swap 0 1 jt.1, -jt.2)).reverse := by
    intro i
    fin_cases i <;> simp [links]
  have ht : ∀ i : Fin 2, Equiv.swap 0 1 i ∈ [(1 : Fin 2), 0] ↔ i ∈ [(1 : Fin 2), 0] := by decide
  have ht' : ∀ i : Fin 2, Equiv.swap 0 1 i ∈ [(0 : Fin 2), 1] ↔ i ∈ [(0 : Fin 2), 1] := by decide
  obtain ⟨new, new1, e, e1, hz⟩ := zxh_grid_mirror (by norm_num : (1 : ℝ) ^ 2 = 1) (1 / 10 ^ 6) (1 / 1000) hc _ ho hB hB
    (fun i => by rw [hk]; simp) (fun i => by rw [hk]; simp) (states := states) (fun i => .coeff _ rfl) (fun i => .coeff _ rfl)
    hv (fun i => (List.Perm.of_eq (hl i)).trans (List.reverse_perm _)) ht
  rw [e] at e1; cases e1
  have hL := lwa_grid_mirror (by norm_num : (1 : ℝ) ^ 2 = 1) (1 / 10 ^ 16) (1 / 10 ^ 8) 1 exact hc _ ho hB hB
    (fun i h => by rw [hk] at h; cases h) (fun i => by rw [hk, hk]) (states := states) (fun i => .coeff _ rfl)
    (fun i => .coeff _ rfl) hv hl ht'
  obtain ⟨new', en⟩ := Option.isSome_iff_exists.mp ((succeeds (fun st i => lwaNewScalar roots (1 / 10 ^ 16) (1 / 10 ^ 8) 1
    (setup i) (st i) (neighboursOf setup st (links i))) setup [0, 1] states).mpr fun i _ => by
      simp only [lwaNewScalar, Option.isSome_map]
      rw [lwa_defined exact (hc i) ((hB i).sane (hc i)).2]
      fin_cases i <;> simp [neighboursOf, links])
  refine ⟨setup, states, new, new', v0, v1, e, en, fun x => ?_, fun x => ?_⟩
  · have := congrFun (hz 0) x
    rw [Equiv.swap_apply_left] at this
    rw [this, imageOf, one_mul]
  · have := congrFun (hL.2 new' new' en en 0) x
    rw [Equiv.swap_apply_left] at this
    rw [this, imageOf, one_mul]

end MiniCFD.PyMirrorLimiter
