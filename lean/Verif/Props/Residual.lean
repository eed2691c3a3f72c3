import Verif.Lemmas.ResidualLobatto
import Verif.Model.Taylor
import Verif.Model.Weno
import Mathlib.Tactic.NormNum
import Mathlib.Tactic.FieldSimp

/-! # C45: the residual of discontinuous Galerkin schemes is conservative -/

namespace MiniCFD.Residual

open MiniCFD.Column MiniCFD.Projection MiniCFD.Spec.Residual

variable {Pt : Type} {K n : Nat}

/-- Sum of the balances of all parts. -/
theorem balance {T : Cell Pt K n → Pt → Value K} {runs : List (Run Pt K n)} {t : ℝ}
    (h : ∀ u ∈ runs, ∀ r, integral u.part u.m u.res r
      = -outflow T u.part u.cond t r - ((sides T u.part).map fun s => s.flux r).sum)
    (hp : Closed T runs) (r : Fin K) : total runs r = -totalOutflow T runs t r := by
  have h1 := paired_cancel hp r
  unfold total totalOutflow
  have h2 : (runs.map fun u => integral u.part u.m u.res r).sum
      = -(runs.map fun u => outflow T u.part u.cond t r).sum
        - ((runs.flatMap fun u => sides T u.part).map fun s => s.flux r).sum := by
    clear hp h1
    induction runs with
    | nil => simp
    | cons u us ih =>
      simp only [List.map_cons, List.sum_cons, List.flatMap_cons, List.map_append, List.sum_append]
      rw [h u (by simp) r, ih fun v hv => h v (List.mem_cons_of_mem _ hv)]
      ring
  rw [h2, h1]
  ring

theorem general_consistent {P : Part Pt K n} {m : Fin P.count → Fin (n + 1) → ℝ} (hm : HasUnit P m) :
    Consistent general P m Cell.value where
  trace c q u h := by simpa [general] using h.symm
  put b p q flux a r h := by
    simp only [general, Option.some.injEq] at h
    subst h
    have e : ∑ i, m p i * outer flux ((P.cells p).basis q.coord) r i = flux r := by
      calc ∑ i, m p i * outer flux ((P.cells p).basis q.coord) r i
          = flux r * ∑ i, m p i * (P.cells p).basis q.coord i := by
            rw [Finset.mul_sum]
            exact Finset.sum_congr rfl fun i _ => by simp only [outer]; ring
        _ = flux r := by rw [hm.one, mul_one]
    cases b
    · simp only [Bool.false_eq_true, if_false, moment_minusCoeff, e]
    · simp only [if_true, moment_addCoeff, e]

/-- **C45**, `dg::General`.  On every mesh, partition and solution: the integral of the residual over all
cells of all ranks is minus the flux through the physical boundary.  Faces between cells contribute nothing;
neither do interfaces between parts, as long as the copies of the cells are up to date and the solvers are
the reverse of each other. -/
theorem general_conservative (runs : List (Run Pt K n)) (t : ℝ)
    (hres : ∀ u ∈ runs, generalResidual u.part u.cond t = some u.res)
    (hunit : ∀ u ∈ runs, HasUnit u.part u.m) (hp : Closed Cell.value runs) (r : Fin K) :
    total runs r = -totalOutflow Cell.value runs t r :=
  balance (fun u hu => part_balance (general_local _) (general_consistent (hunit u hu)) (hres u hu)
    fun _ => (hunit u hu).grad) hp r

/-- With the coefficients of an orthonormal basis, the function which is one everywhere is the first basis
function over its value. -/
noncomputable def orthoUnit {N : Nat} (b : Fin N → Basis Pt n) (p : Fin N) (i : Fin (n + 1)) : ℝ :=
  if i = 0 then 1 / (b p).linear.coeff 0 0 else 0

/-- What a Taylor class must satisfy: the gradient of a constant vanishes. -/
def FlatConstants (gradValue : (Fin (n + 1) → ℝ) → Pt → Fin 3 → ℝ) : Prop :=
  ∀ c x k, (∀ i, i ≠ 0 → c i = 0) → gradValue c x k = 0

/-- The four Taylor classes in space satisfy it. -/
theorem taylor_flat :
    FlatConstants (fun c (p : Weno.Point) => Taylor.grad30 c p.1 p.2.1 p.2.2) ∧
    FlatConstants (fun c (p : Weno.Point) => Taylor.grad31 c p.1 p.2.1 p.2.2) ∧
    FlatConstants (fun c (p : Weno.Point) => Taylor.grad32 c p.1 p.2.1 p.2.2) ∧
    FlatConstants (fun c (p : Weno.Point) => Taylor.grad33 c p.1 p.2.1 p.2.2) := by
  refine ⟨fun c x k h => ?_, fun c x k h => ?_, fun c x k h => ?_, fun c x k h => ?_⟩
  · fin_cases k <;> rfl
  · simp only [Taylor.grad31, h 1 (by decide), h 2 (by decide), h 3 (by decide)]
    fin_cases k <;> rfl
  · simp only [Taylor.grad32, h 1 (by decide), h 2 (by decide), h 3 (by decide), h 4 (by decide),
      h 5 (by decide), h 6 (by decide), h 7 (by decide), h 8 (by decide), h 9 (by decide)]
    fin_cases k <;> simp
  · simp only [Taylor.grad33, h 1 (by decide), h 2 (by decide), h 3 (by decide), h 4 (by decide),
      h 5 (by decide), h 6 (by decide), h 7 (by decide), h 8 (by decide), h 9 (by decide),
      h 10 (by decide), h 11 (by decide), h 12 (by decide), h 13 (by decide), h 14 (by decide),
      h 15 (by decide), h 16 (by decide), h 17 (by decide), h 18 (by decide), h 19 (by decide)]
    fin_cases k <;> simp

/-- **C45.**  Parts whose cells carry projections on orthonormal bases satisfy the hypothesis of
`general_conservative`, and there the integral of the residual is the sum over the cells of the average of
the residual times the volume. -/
theorem ortho_hasUnit (P : Part Pt K n) (b : Fin P.count → Basis Pt n)
    (gradValue : (Fin (n + 1) → ℝ) → Pt → Fin 3 → ℝ) (hg : FlatConstants gradValue)
    (fluxMatrix : Value K → Fin K → Fin 3 → ℝ) (coeff : Fin P.count → Coeff K n)
    (nodes : Fin P.count → Fin (n + 1) → Pt)
    (hcell : ∀ p, P.cells p = ofProjection (b p) gradValue fluxMatrix (coeff p) (nodes p))
    (hs : ∀ p, Sound (b p)) (hl : ∀ p, (b p).linear.Lower) :
    HasUnit P (orthoUnit b) ∧
    ∀ res r, integral P (orthoUnit b) res r
      = ∑ p, average (b p) (fun r i => coeffAt res p.val r i) r * Ortho.measure (b p).linear := by
  refine ⟨⟨fun p x => ?_, fun p v hv k => ?_⟩, fun res r => ?_⟩
  · have := (hs p).ne
    simp only [orthoUnit, ite_mul, zero_mul, Finset.sum_ite_eq', Finset.mem_univ, if_true]
    rw [hcell]
    simp only [ofProjection, (hs p).const]
    field_simp
  · simp only [orthoUnit, ite_mul, zero_mul, Finset.sum_ite_eq', Finset.mem_univ, if_true]
    rw [hcell] at hv
    simp only [ofProjection, List.mem_map] at hv
    obtain ⟨xw, -, rfl⟩ := hv
    simp only
    rw [hg _ _ _ fun i hi => hl p _ _ ?_, mul_zero]
    exact Nat.pos_of_ne_zero fun h => hi (Fin.ext h)
  · unfold integral
    refine Finset.sum_congr rfl fun p _ => ?_
    have := (hs p).ne
    simp only [orthoUnit, ite_mul, zero_mul, Finset.sum_ite_eq', Finset.mem_univ, if_true, average,
      Ortho.measure]
    field_simp

/-! ### `dg::Lobatto` -/

/-- The trace used by `Lobatto`: the value at the node that matches the point. -/
noncomputable def nodeTrace (near : Pt → Pt → Bool) (c : Cell Pt K n) (x : Pt) : Value K :=
  match matchPoint near c x with
  | some i => c.nodal i
  | none => fun _ => 0

theorem lobatto_consistent (near : Pt → Pt → Bool) (P : Part Pt K n) :
    Consistent (lobatto near) P (fun _ _ => 1) (nodeTrace near) where
  trace c q u h := by
    simp only [lobatto, Option.bind_eq_bind, Option.bind_eq_some_iff, Option.some.injEq] at h
    obtain ⟨i, h1, rfl⟩ := h
    simp only [nodeTrace, h1]
  put b p q flux a r h := by
    simp only [lobatto, Option.bind_eq_bind, Option.bind_eq_some_iff, Option.some.injEq] at h
    obtain ⟨i, -, rfl⟩ := h
    cases b
    · simp only [Bool.false_eq_true, if_false, moment_minusValue, one_mul]
    · simp only [if_true, moment_addValue, one_mul]

/-- **C45**, `dg::Lobatto`.  The same with the quadrature of the nodal values of the residual, for every
basis whose gradients sum to zero (`hex_partition_of_unity`, `line_derivatives_sum`). -/
theorem lobatto_conservative (near : Pt → Pt → Bool) (runs : List (Run Pt K n)) (t : ℝ)
    (hres : ∀ u ∈ runs, lobattoResidual near u.part u.cond t = some u.res)
    (hv : ∀ u ∈ runs, ∀ p, (u.part.cells p).volume.length = n + 1)
    (hw : ∀ u ∈ runs, ∀ p, ∀ v ∈ (u.part.cells p).volume, v.weight ≠ 0)
    (hm : ∀ u ∈ runs, u.m = nodeWeight u.part)
    (hg : ∀ u ∈ runs, ∀ p, ∀ v ∈ (u.part.cells p).volume, ∀ k, ∑ i, v.grad k i = 0)
    (hp : Closed (nodeTrace near) runs) (r : Fin K) :
    total runs r = -totalOutflow (nodeTrace near) runs t r := by
  refine balance (fun u hu r => ?_) hp r
  obtain ⟨raw, h1, h2⟩ := lobatto_entry (hv u hu) (hres u hu)
  rw [← part_balance (lobatto_local near u.part) (lobatto_consistent near u.part) h1
    (fun _ p v hv k => by simpa using hg u hu p v hv k) r]
  unfold integral
  refine Finset.sum_congr rfl fun p _ => Finset.sum_congr rfl fun i _ => ?_
  obtain ⟨x, e1, e2⟩ := h2 p r i
  have hi : i.val < (u.part.cells p).volume.length := by rw [hv u hu p]; exact i.2
  have hne : nodeWeight u.part p i ≠ 0 := by
    simp only [nodeWeight, List.getElem?_eq_getElem hi, Option.map_some, Option.getD_some]
    exact hw u hu p _ (List.getElem_mem hi)
  simp only [coeffAt, e1, e2, Option.getD_some, hm u hu]
  field_simp

/-! ### C49: the Lobatto scheme is the general one -/

theorem match_onNode {near : Pt → Pt → Bool} {c : Cell Pt K n} {x : Pt} (h : OnNode near c x) :
    ∃ i, matchPoint near c x = some i ∧ c.nodes i = x := by
  obtain ⟨⟨h0, hn⟩, hx⟩ := h
  unfold matchPoint
  cases hf : (List.finRange (n + 1)).find? fun h => near x (c.nodes h) with
  | none =>
    rw [List.find?_eq_none] at hf
    exact absurd hn (hf h0 (List.mem_finRange _))
  | some i =>
    have := List.find?_some (p := fun h => near x (c.nodes h)) hf
    exact ⟨i, rfl, hx i this⟩

theorem nodal_trace {near : Pt → Pt → Bool} {c : Cell Pt K n} (hc : Nodal c) {q : FacePoint Pt K}
    (h : OnNode near c q.coord) : (lobatto near).trace c q = (general : Scheme Pt K n).trace c q := by
  obtain ⟨i, h1, h2⟩ := match_onNode h
  simp only [lobatto, general, h1, Option.bind_eq_bind, Option.bind_some, Option.some.injEq]
  funext r
  rw [hc.value, ← h2]
  simp only [hc.cardinal, mul_ite, mul_one, mul_zero, Finset.sum_ite_eq', Finset.mem_univ, if_true]

theorem lobatto_agreeAt {near : Pt → Pt → Bool} {P : Part Pt K n} {p : Fin P.count}
    (hc : Nodal (P.cells p)) {q : FacePoint Pt K} (h : OnNode near (P.cells p) q.coord) :
    AgreeAt (lobatto near) general P p q where
  trace := nodal_trace hc h
  put b flux := by
    obtain ⟨i, h1, h2⟩ := match_onNode h
    refine ⟨_, _, by simp only [lobatto, h1, Option.bind_eq_bind, Option.bind_some]; rfl, rfl, ?_⟩
    intro p' r j
    have hj : (P.cells p).basis q.coord j = if j = i then 1 else 0 := by rw [← h2, hc.cardinal]
    cases b
    · simp only [Bool.false_eq_true, if_false, List.map_cons, List.map_nil, List.sum_cons, List.sum_nil,
        add_zero, amount_minusValue, amount_minusCoeff, outer, hj]
      by_cases hp : p.val = p'.val <;> by_cases hi : i = j
      · subst hi; simp [hp]
      · simp [hp, hi, Ne.symm hi]
      · simp [hp]
      · simp [hp]
    · simp only [if_true, List.map_cons, List.map_nil, List.sum_cons, List.sum_nil,
        add_zero, amount_addValue, amount_addCoeff, outer, hj]
      by_cases hp : p.val = p'.val <;> by_cases hi : i = j
      · subst hi; simp [hp]
      · simp [hp, hi, Ne.symm hi]
      · simp [hp]
      · simp [hp]

/-- **C49**, discontinuous Galerkin.  For cells with a nodal basis whose nodes include the face points, the
column assembled by `Lobatto`, from the values at the matching nodes and with one basis function per face
point, is the column assembled by `General` from the same data: all other basis functions vanish there.
(`Lobatto` divides it by the weights afterwards, see `lobatto_entry`: that is the inverse of its diagonal
mass matrix.) -/
theorem lobatto_eq_general (near : Pt → Pt → Bool) (P : Part Pt K n) (hc : ∀ p, Nodal (P.cells p))
    (hf : FacesOnNodes near P) (vol : Bool) (c : Conditions Pt K) (t : ℝ) :
    residual (lobatto near) vol P c t = residual general vol P c t :=
  residual_same (lobatto_local near P) (general_local P) (agree_contributions
    ⟨fun f h q hq => lobatto_agreeAt (hc _) (hf.holder f h q hq),
     fun f h q hq => lobatto_agreeAt (hc _) (hf.sharer f h q hq),
     fun f h q hq => ⟨lobatto_agreeAt (hc _) (hf.ghost f h q hq).1,
       nodal_trace (hf.ghost f h q hq).2.1 (hf.ghost f h q hq).2.2⟩,
     fun name faces hn f h q hq => lobatto_agreeAt (hc _) (hf.boundary name faces hn f h q hq)⟩ vol c t)

/-! ### Examples -/

/-- Advection to the right, seen from the left and from the right of a face. -/
def rightward (left : Bool) : Riemann 1 where
  upwind u v := if left then u else fun r => -v r
  solidWall _ := fun _ => 0
  supersonicOutlet u := u
  supersonicInlet u := fun r => -u r
  subsonicInlet _ v := v
  subsonicOutlet _ v := v
  smart _ v := v

/-- A cell on a line with a constant value. -/
noncomputable def flatCell (u : ℝ) : Cell ℝ 1 0 := ⟨fun _ _ => u, fun _ _ => 1, [], fun _ => 0, fun _ _ => u⟩

/-- Two parts of one cell each: an inlet at 0, an interface at 1, an outlet at 2. -/
noncomputable def leftPart : Part ℝ 1 0 where
  count := 1
  cells _ := flatCell 7
  inter _ := true
  localFaces := []
  ghostFaces := [⟨0, flatCell 5, [⟨1, 2, rightward true⟩]⟩]
  boundary name := if name = "in" then some [⟨0, [⟨0, 2, rightward true⟩]⟩] else none

noncomputable def rightPart : Part ℝ 1 0 where
  count := 1
  cells _ := flatCell 5
  inter _ := true
  localFaces := []
  ghostFaces := [⟨0, flatCell 7, [⟨1, 2, rightward false⟩]⟩]
  boundary name := if name = "out" then some [⟨0, [⟨2, 2, rightward true⟩]⟩] else none

theorem leftPart_unit : HasUnit leftPart fun _ _ => 1 :=
  ⟨fun _ _ => by simp [leftPart, flatCell], fun _ v hv => by simp [leftPart, flatCell] at hv⟩

theorem rightPart_unit : HasUnit rightPart fun _ _ => 1 :=
  ⟨fun _ _ => by simp [rightPart, flatCell], fun _ v hv => by simp [rightPart, flatCell] at hv⟩

/-- The interface is closed, so that in the sum only inlet and outlet are left. -/
theorem parts_closed (ra rb : Numbering × List ℝ) (ca cb : Conditions ℝ 1) :
    Closed Cell.value [⟨leftPart, ca, fun _ _ => 1, ra⟩, ⟨rightPart, cb, fun _ _ => 1, rb⟩] := by
  refine ⟨[(⟨[(1, 2, (rightward true).upwind)], fun _ _ => 7, fun _ _ => 5⟩,
    ⟨[(1, 2, (rightward false).upwind)], fun _ _ => 5, fun _ _ => 7⟩)], ?_, ?_⟩
  · simp [sides, leftPart, rightPart, flatCell]
  · intro ab hab
    simp only [List.mem_cons, List.not_mem_nil, or_false] at hab
    subst hab
    exact ⟨_, .refl _, .cons ⟨rfl, rfl, rfl, rfl, fun r => by simp [rightward]⟩ .nil⟩

example (ra rb : Numbering × List ℝ)
    (ha : generalResidual leftPart { supersonicInlet := [("in", fun _ _ _ => 11)] } 0 = some ra)
    (hb : generalResidual rightPart { supersonicOutlet := ["out"] } 0 = some rb) :
    integral leftPart (fun _ _ => 1) ra 0 + integral rightPart (fun _ _ => 1) rb 0 = 22 - 10 := by
  have := general_conservative
    [⟨leftPart, { supersonicInlet := [("in", fun _ _ _ => 11)] }, fun _ _ => 1, ra⟩,
     ⟨rightPart, { supersonicOutlet := ["out"] }, fun _ _ => 1, rb⟩] 0
    (by simp [ha, hb]) (by
      intro u hu
      simp only [List.mem_cons, List.not_mem_nil, or_false] at hu
      rcases hu with rfl | rfl
      · exact leftPart_unit
      · exact rightPart_unit) (parts_closed ra rb _ _) 0
  simp [total, totalOutflow, outflow, through, leftPart, rightPart, rightward, flatCell] at this
  refine Eq.trans ?_ (this.trans ?_)
  · rfl
  · norm_num

/-- A linear cell with its nodes at the two ends. -/
noncomputable def linearCell (a b : ℝ) : Cell ℝ 1 1 where
  value x _ := a * (1 - x) + b * x
  basis x := ![1 - x, x]
  volume := [⟨fun _ _ => a, 1 / 2, fun _ => ![-1, 1]⟩, ⟨fun _ _ => b, 1 / 2, fun _ => ![-1, 1]⟩]
  nodes := ![0, 1]
  nodal := ![fun _ => a, fun _ => b]

example (a b : ℝ) : Nodal (linearCell a b) := by
  refine ⟨fun i j => ?_, fun x r => ?_⟩
  · fin_cases i <;> fin_cases j <;> simp [linearCell]
  · simp [linearCell, Fin.sum_univ_two]

open scoped Classical in
/-- The right end of the cell is found within the tolerance of `Near` (fem.hpp:23-25). -/
example (a b : ℝ) : OnNode (fun x y => decide (|x - y| < 1 / 10 ^ 12)) (linearCell a b) 1 := by
  refine ⟨⟨1, by simp [linearCell]⟩, fun h hh => ?_⟩
  fin_cases h
  · simp [linearCell] at hh
    norm_num at hh
  · rfl

end MiniCFD.Residual
