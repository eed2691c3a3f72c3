import Verif.Spec.Conform
import Verif.Model.Conform
import Verif.Lemmas.ConformHex
import Verif.Lemmas.ConformOther
import Verif.Props.SortNodes
import Verif.Props.Cell

/-! # The sides against the bounding planes -/

set_option linter.unusedSimpArgs false
set_option linter.unnecessarySeqFocus false

namespace MiniCFD.Conform

open MiniCFD.Shape MiniCFD.Spec.Conform

/-- What a side has to do with a bounding plane. -/
structure IsSide (shape : Spec.SortNodes.Shape) (l : Int × Int × Int × Int) (m : Nat) (s : Side) : Prop where
  plane : ∀ p, height shape l p = 0 →
    s.on p ∨ shape = .pyramid ∧ p 2 = 1 ∧ ∃ q, s.on q ∧ q 2 = 1 ∧ s.ψ q = s.ψ p ∧ InFace m (s.ψ p)
  on : ∀ p, s.on p → height shape l p = 0
  maps : ∀ p, InCell shape p → s.on p → InFace m (s.ψ p)
  onto : ∀ q, InFace m q → ∃ p, InCell shape p ∧ s.on p ∧ s.ψ p = q
  sign : ∀ p, InCell shape p → s.on p → ∀ d, Inward shape l p d → (shape = .pyramid → p 2 ≠ 1) →
    hand shape * det3 (s.T 0) (s.T 1) d * det2 (s.D p) < 0


theorem half_lt {ε : ℝ} (h : 0 < ε) : 0 < ε / 2 ∧ ε / 2 < ε := ⟨by linarith, by linarith⟩

theorem all3 {P : Fin 3 → Prop} (h0 : P 0) (h1 : P 1) (h2 : P 2) : ∀ i, P i := by
  intro i; fin_cases i <;> assumption

theorem all2 {P : Fin 2 → Prop} (h0 : P 0) (h1 : P 1) : ∀ i, P i := by
  intro i; fin_cases i <;> assumption

/-! ### Hexahedra -/

def hexPlane : Fin 6 → Int × Int × Int × Int :=
  ![(0, 0, 1, 4), (0, 1, 0, 4), (-1, 0, 0, 4), (0, -1, 0, 4), (1, 0, 0, 4), (0, 0, -1, 4)]

theorem isSide_hex {m : Nat} (hm : ¬ (m = 3 ∨ m = 6)) (s : Fin 6) :
    IsSide .hexahedron (hexPlane s) m (hexSide s) where
  plane p h := by
    left
    fin_cases s <;> side h [height, place, hexPlane] <;> push_cast at h <;> simp only [hexSide, Fin.zero_eta,
      Fin.mk_one, Fin.reduceFinMk] <;> linarith
  on p h := by
    fin_cases s <;> side h [hexSide] <;> expand [height, place, hexPlane] <;> push_cast <;> linarith
  maps p h hp := by
    rw [InFace, if_neg hm]
    have h0 := h 0
    have h1 := h 1
    have h2 := h 2
    fin_cases s <;> refine all2 ?_ ?_ <;> expand [hexSide] <;> constructor <;> linarith
  onto q h := by
    rw [InFace, if_neg hm] at h
    have h0 := h 0
    have h1 := h 1
    have e : ∀ q : Fin 2 → ℝ, ![q 0, q 1] = q := fun q => by funext i; fin_cases i <;> rfl
    fin_cases s
    · refine ⟨![q 1, q 0, -1], all3 h1 h0 (by expand []; norm_num), rfl, e q⟩
    · refine ⟨![q 0, -1, q 1], all3 h0 (by expand []; norm_num) h1, rfl, e q⟩
    · refine ⟨![1, q 0, q 1], all3 (by expand []; norm_num) h0 h1, rfl, e q⟩
    · refine ⟨![-q 0, 1, q 1], all3 (by expand []; constructor <;> linarith) (by expand []; norm_num) h1, rfl, ?_⟩
      funext i
      fin_cases i <;> expand [hexSide, neg_neg]
    · refine ⟨![-1, q 1, q 0], all3 (by expand []; norm_num) h1 h0, rfl, e q⟩
    · refine ⟨![q 0, q 1, 1], all3 h0 h1 (by expand []; norm_num), rfl, e q⟩
  sign p h hp d hd _ := by
    obtain ⟨ε, he, hd⟩ := hd
    have := hd (ε / 2) (half_lt he).1 (half_lt he).2
    have hpos := (half_lt he).1
    generalize ε / 2 = t at this hpos
    fin_cases s <;> side hp [hexSide] <;>
      simp only [Fin.zero_eta, Fin.mk_one, Fin.reduceFinMk, Fin.isValue, Matrix.cons_val, height, place, hexPlane,
        Pi.add_apply, Pi.smul_apply, smul_eq_mul, hp] at this <;> push_cast at this <;>
      expand [hand, hexSide, det3, det2] <;> nlinarith

theorem pair (q : Fin 2 → ℝ) : ![q 0, q 1] = q := by funext i; fin_cases i <;> rfl

/-! ### Tetrahedra -/

def tetraPlane : Fin 4 → Int × Int × Int × Int := ![(0, 0, 1, 0), (0, 1, 0, 0), (1, 0, 0, 0), (-1, -1, -1, 4)]

theorem isSide_tetra {m : Nat} (hm : m = 3 ∨ m = 6) (s : Fin 4) :
    IsSide .tetrahedron (tetraPlane s) m (tetraSide s) where
  plane p h := by
    left
    fin_cases s <;> side h [height, place, tetraPlane] <;> push_cast at h <;> simp only [tetraSide, Fin.zero_eta,
      Fin.mk_one, Fin.reduceFinMk] <;> linarith
  on p h := by
    fin_cases s <;> side h [tetraSide] <;> expand [height, place, tetraPlane] <;> push_cast <;> linarith
  maps p h hp := by
    rw [InFace, if_pos hm]
    obtain ⟨h0, h1, h2, h3⟩ := h
    fin_cases s <;> side hp [tetraSide] <;> expand [tetraSide] <;> refine ⟨?_, ?_, ?_⟩ <;> linarith
  onto q h := by
    rw [InFace, if_pos hm] at h
    obtain ⟨h0, h1, h2⟩ := h
    fin_cases s
    · refine ⟨![q 0, 1 - q 0 - q 1, q 1], ⟨?_, ?_, ?_, ?_⟩, ?_, pair q⟩ <;> expand [tetraSide] <;> linarith
    · refine ⟨![q 0, q 1, 0], ⟨?_, ?_, ?_, ?_⟩, ?_, pair q⟩ <;> expand [tetraSide] <;> linarith
    · refine ⟨![q 0, 0, 1 - q 0 - q 1], ⟨?_, ?_, ?_, ?_⟩, ?_, ?_⟩
      on_goal 6 => funext i; fin_cases i <;> expand [tetraSide] <;> ring
      all_goals expand [tetraSide] <;> linarith
    · refine ⟨![0, q 0, q 1], ⟨?_, ?_, ?_, ?_⟩, ?_, pair q⟩ <;> expand [tetraSide] <;> linarith
  sign p h hp d hd _ := by
    obtain ⟨ε, he, hd⟩ := hd
    have := hd (ε / 2) (half_lt he).1 (half_lt he).2
    have hpos := (half_lt he).1
    generalize ε / 2 = t at this hpos
    fin_cases s <;> side hp [tetraSide] <;>
      simp only [Fin.zero_eta, Fin.mk_one, Fin.reduceFinMk, Fin.isValue, Matrix.cons_val, height, place, tetraPlane,
        Pi.add_apply, Pi.smul_apply, smul_eq_mul, hp] at this <;> push_cast at this <;>
      expand [hand, tetraSide, det3, det2] <;> nlinarith

/-! ### Wedges -/

def triPlane : Fin 2 → Int × Int × Int × Int := ![(0, 0, 1, 0), (0, 0, -1, 4)]

def quadPlane : Fin 3 → Int × Int × Int × Int := ![(0, 1, 0, 0), (-1, -1, 0, 4), (1, 0, 0, 0)]

theorem isSide_wedgeTri {m : Nat} (hm : m = 3 ∨ m = 6) (s : Fin 2) :
    IsSide .wedge (triPlane s) m (wedgeTri s) where
  plane p h := by
    left
    fin_cases s <;> side h [height, place, triPlane] <;> push_cast at h <;> simp only [wedgeTri, Fin.zero_eta,
      Fin.mk_one, Fin.reduceFinMk] <;> linarith
  on p h := by
    fin_cases s <;> side h [wedgeTri] <;> expand [height, place, triPlane] <;> push_cast <;> linarith
  maps p h hp := by
    rw [InFace, if_pos hm]
    obtain ⟨h0, h1, h2, h3⟩ := h
    fin_cases s <;> side hp [wedgeTri] <;> expand [wedgeTri] <;> refine ⟨?_, ?_, ?_⟩ <;> linarith
  onto q h := by
    rw [InFace, if_pos hm] at h
    obtain ⟨h0, h1, h2⟩ := h
    fin_cases s
    · refine ⟨![q 0, 1 - q 0 - q 1, -1], ⟨?_, ?_, ?_, ?_, ?_⟩, ?_, ?_⟩
      on_goal 7 => funext i; fin_cases i <;> expand [wedgeTri] <;> ring
      all_goals expand [wedgeTri] <;> linarith
    · refine ⟨![q 0, q 1, 1], ⟨?_, ?_, ?_, ?_, ?_⟩, ?_, pair q⟩ <;> expand [wedgeTri] <;> linarith
  sign p h hp d hd _ := by
    obtain ⟨ε, he, hd⟩ := hd
    have := hd (ε / 2) (half_lt he).1 (half_lt he).2
    have hpos := (half_lt he).1
    generalize ε / 2 = t at this hpos
    fin_cases s <;> side hp [wedgeTri] <;>
      simp only [Fin.zero_eta, Fin.mk_one, Fin.reduceFinMk, Fin.isValue, Matrix.cons_val, height, place, triPlane,
        Pi.add_apply, Pi.smul_apply, smul_eq_mul, hp] at this <;> push_cast at this <;>
      expand [hand, wedgeTri, det3, det2] <;> nlinarith

theorem isSide_wedgeQuad {m : Nat} (hm : ¬ (m = 3 ∨ m = 6)) (s : Fin 3) :
    IsSide .wedge (quadPlane s) m (wedgeQuad s) where
  plane p h := by
    left
    fin_cases s <;> side h [height, place, quadPlane] <;> push_cast at h <;> simp only [wedgeQuad, Fin.zero_eta,
      Fin.mk_one, Fin.reduceFinMk] <;> linarith
  on p h := by
    fin_cases s <;> side h [wedgeQuad] <;> expand [height, place, quadPlane] <;> push_cast <;> linarith
  maps p h hp := by
    rw [InFace, if_neg hm]
    obtain ⟨h0, h1, h2, h3, h4⟩ := h
    fin_cases s <;> side hp [wedgeQuad] <;> refine all2 ?_ ?_ <;> expand [wedgeQuad] <;> constructor <;> linarith
  onto q h := by
    rw [InFace, if_neg hm] at h
    obtain ⟨h0, h0'⟩ := h 0
    obtain ⟨h1, h1'⟩ := h 1
    fin_cases s
    · refine ⟨![(1 - q 0) / 2, (1 + q 0) / 2, q 1], ⟨?_, ?_, ?_, ?_, ?_⟩, ?_, ?_⟩
      on_goal 7 => funext i; fin_cases i <;> expand [wedgeQuad] <;> ring
      all_goals expand [wedgeQuad] <;> linarith
    · refine ⟨![0, (1 - q 0) / 2, q 1], ⟨?_, ?_, ?_, ?_, ?_⟩, ?_, ?_⟩
      on_goal 7 => funext i; fin_cases i <;> expand [wedgeQuad] <;> ring
      all_goals expand [wedgeQuad] <;> linarith
    · refine ⟨![(1 - q 1) / 2, 0, q 0], ⟨?_, ?_, ?_, ?_, ?_⟩, ?_, ?_⟩
      on_goal 7 => funext i; fin_cases i <;> expand [wedgeQuad] <;> ring
      all_goals expand [wedgeQuad] <;> linarith
  sign p h hp d hd _ := by
    obtain ⟨ε, he, hd⟩ := hd
    have := hd (ε / 2) (half_lt he).1 (half_lt he).2
    have hpos := (half_lt he).1
    generalize ε / 2 = t at this hpos
    fin_cases s <;> side hp [wedgeQuad] <;>
      simp only [Fin.zero_eta, Fin.mk_one, Fin.reduceFinMk, Fin.isValue, Matrix.cons_val, height, place, quadPlane,
        Pi.add_apply, Pi.smul_apply, smul_eq_mul, hp] at this <;> push_cast at this <;>
      expand [hand, wedgeQuad, det3, det2] <;> nlinarith

/-! ### Pyramids -/

theorem isSide_pyrBottom {m : Nat} (hm : ¬ (m = 3 ∨ m = 6)) : IsSide .pyramid (0, 0, 1, 0) m pyrBottom where
  plane p h := by
    left
    side h [height, place]
    push_cast at h
    simp only [pyrBottom]
    linarith
  on p h := by
    side h [pyrBottom]
    expand [height, place]
    push_cast
    linarith
  maps p h hp := by
    rw [InFace, if_neg hm]
    exact all2 (h 1) (h 0)
  onto q h := by
    rw [InFace, if_neg hm] at h
    exact ⟨![q 1, q 0, -1], all3 (h 1) (h 0) (by expand []; norm_num), rfl, pair q⟩
  sign p h hp d hd _ := by
    obtain ⟨ε, he, hd⟩ := hd
    have := hd (ε / 2) (half_lt he).1 (half_lt he).2
    have hpos := (half_lt he).1
    generalize ε / 2 = t at this hpos
    side hp [pyrBottom]
    simp only [Fin.isValue, Matrix.cons_val, height, place, Pi.add_apply, Pi.smul_apply, smul_eq_mul, hp] at this
    push_cast at this
    expand [hand, pyrBottom, det3, det2]
    nlinarith

def pyrPlane : Fin 4 → Int × Int × Int × Int := ![(0, 1, -1, 4), (-1, 0, -1, 4), (0, -1, -1, 4), (1, 0, -1, 4)]

/-- A small step towards which a factor stays positive. -/
theorem small_step {ε a : ℝ} (he : 0 < ε) (ha : 0 < a) (c : ℝ) : ∃ t, 0 < t ∧ t < ε ∧ 0 < a - t * c := by
  by_cases hc : c ≤ 0
  · exact ⟨ε / 2, (half_lt he).1, (half_lt he).2, by nlinarith [(half_lt he).1]⟩
  · push Not at hc
    refine ⟨min (ε / 2) (a / (2 * c)), lt_min (half_lt he).1 (by positivity),
      lt_of_le_of_lt (min_le_left _ _) (half_lt he).2, ?_⟩
    have h1 : min (ε / 2) (a / (2 * c)) * c ≤ a / (2 * c) * c :=
      mul_le_mul_of_nonneg_right (min_le_right _ _) hc.le
    have h2 : a / (2 * c) * c = a / 2 := by field_simp
    linarith

theorem isSide_pyr {m : Nat} (hm : m = 3 ∨ m = 6) (s : Fin 4) :
    IsSide .pyramid (pyrPlane s) m (pyrSide s) where
  plane p h := by
    by_cases hz : p 2 = 1
    · right
      refine ⟨rfl, hz, ?_⟩
      have hf : InFace m ((pyrSide s).ψ p) := by
        rw [InFace, if_pos hm]
        fin_cases s <;> expand [pyrSide, hz, sub_self, mul_zero, zero_div, le_refl, add_zero, true_and] <;> norm_num
      fin_cases s
      · exact ⟨![0, -1, 1], rfl, rfl, by funext i; fin_cases i <;> expand [pyrSide, hz] <;> ring, hf⟩
      · exact ⟨![1, 0, 1], rfl, rfl, by funext i; fin_cases i <;> expand [pyrSide, hz] <;> ring, hf⟩
      · exact ⟨![0, 1, 1], rfl, rfl, by funext i; fin_cases i <;> expand [pyrSide, hz] <;> ring, hf⟩
      · exact ⟨![-1, 0, 1], rfl, rfl, by funext i; fin_cases i <;> expand [pyrSide, hz] <;> ring, hf⟩
    · left
      have hz' : 1 - p 2 ≠ 0 := fun h => hz (by linarith)
      fin_cases s <;> side h [height, place, pyrPlane] <;> push_cast at h <;> simp only [pyrSide, Fin.zero_eta,
        Fin.mk_one, Fin.reduceFinMk] <;> apply mul_left_cancel₀ hz' <;> linarith
  on p h := by
    fin_cases s <;> side h [pyrSide] <;> expand [height, place, pyrPlane, h] <;> push_cast <;> ring
  maps p h hp := by
    rw [InFace, if_pos hm]
    obtain ⟨h0, h0'⟩ := h 0
    obtain ⟨h1, h1'⟩ := h 1
    obtain ⟨h2, h2'⟩ := h 2
    fin_cases s <;> side hp [pyrSide] <;> expand [pyrSide] <;> refine ⟨?_, ?_, ?_⟩ <;> nlinarith
  onto q h := by
    rw [InFace, if_pos hm] at h
    obtain ⟨h0, h1, h2⟩ := h
    obtain ⟨r, hr, hr', e0, e1⟩ : ∃ r : ℝ, -1 ≤ r ∧ r ≤ 1 ∧ (1 - r) * (q 0 + q 1) / 2 = q 0 ∧
        (1 + r) * (q 0 + q 1) / 2 = q 1 := by
      by_cases hs : q 0 + q 1 = 0
      · exact ⟨0, by norm_num, by norm_num, by rw [hs]; linarith, by rw [hs]; linarith⟩
      · have hp : 0 < q 0 + q 1 := lt_of_le_of_ne (by linarith) (Ne.symm hs)
        refine ⟨(q 1 - q 0) / (q 0 + q 1), ?_, ?_, ?_, ?_⟩
        · rw [le_div_iff₀ hp]; linarith
        · rw [div_le_one hp]; linarith
        · field_simp; ring
        · field_simp; ring
    have hz : -1 ≤ 1 - 2 * (q 0 + q 1) ∧ 1 - 2 * (q 0 + q 1) ≤ 1 := ⟨by linarith, by linarith⟩
    have hn : -1 ≤ -r ∧ -r ≤ 1 := ⟨by linarith, by linarith⟩
    have one : (-1 : ℝ) ≤ 1 ∧ (1 : ℝ) ≤ 1 := by norm_num
    have neg : (-1 : ℝ) ≤ -1 ∧ (-1 : ℝ) ≤ 1 := by norm_num
    fin_cases s
    · refine ⟨![r, -1, 1 - 2 * (q 0 + q 1)], all3 ⟨hr, hr'⟩ neg hz, rfl, ?_⟩
      funext i; fin_cases i <;> expand [pyrSide] <;> linarith
    · refine ⟨![1, r, 1 - 2 * (q 0 + q 1)], all3 one ⟨hr, hr'⟩ hz, rfl, ?_⟩
      funext i; fin_cases i <;> expand [pyrSide] <;> linarith
    · refine ⟨![-r, 1, 1 - 2 * (q 0 + q 1)], all3 hn one hz, rfl, ?_⟩
      funext i; fin_cases i <;> expand [pyrSide] <;> linarith
    · refine ⟨![-1, -r, 1 - 2 * (q 0 + q 1)], all3 neg hn hz, rfl, ?_⟩
      funext i; fin_cases i <;> expand [pyrSide] <;> linarith
  sign p h hp d hd hz := by
    obtain ⟨ε, he, hd⟩ := hd
    have hz' : 0 < 1 - p 2 := lt_of_le_of_ne (by linarith [(h 2).2]) fun h => hz rfl (by linarith)
    obtain ⟨t, ht, hte, hs⟩ := small_step he hz' (d 2)
    have := hd t ht hte
    have key : ∀ u, 0 < 2 * (1 - p 2 - t * d 2) * (t * u) → 0 < (1 - p 2) * u := by
      intro u hu
      have h1 : 0 < t * u := (mul_pos_iff_of_pos_left (by linarith)).1 hu
      have h2 : 0 < u := (mul_pos_iff_of_pos_left ht).1 h1
      exact mul_pos hz' h2
    fin_cases s <;> side hp [pyrSide] <;>
      simp only [Fin.zero_eta, Fin.mk_one, Fin.reduceFinMk, Fin.isValue, Matrix.cons_val, height, place, pyrPlane,
        Pi.add_apply, Pi.smul_apply, smul_eq_mul, hp] at this <;> push_cast at this <;>
      expand [hand, pyrSide, det3, det2]
    · have := key (d 1) (by linarith); nlinarith
    · have := key (-d 0) (by linarith); nlinarith
    · have := key (-d 1) (by linarith); nlinarith
    · have := key (d 0) (by linarith); nlinarith

/-! ### All classes -/

/-- Everything there is to know about one face of one class of cells. -/
def Facet (k : Kind) (e : Element ℝ 3 k.count) (shape : Spec.SortNodes.Shape) (l : Int × Int × Int × Int) : Prop :=
  ∃ (m : Nat) (F : Element ℝ 2 m) (ρ : Fin m → Fin k.count) (s : Side), surface m = some F ∧ IsSide shape l m s ∧
    s.Matches e F ρ ∧ SortNodes.sortNodes k (List.range k.count)
      (Spec.SortNodes.faceNodes (shape.positions k.count) l) = some (List.ofFn fun j => (ρ j).val)

theorem facet_tetrahedron4 (l : Int × Int × Int × Int) (hl : l ∈ Spec.SortNodes.Shape.planes .tetrahedron) :
    Facet .tetrahedron4 (Shape.tetrahedron4 ℝ) .tetrahedron l := by
  simp only [Spec.SortNodes.Shape.planes, List.mem_cons, List.not_mem_nil, or_false] at hl
  rcases hl with rfl | rfl | rfl | rfl
  · exact ⟨3, _, _, _, rfl, isSide_tetra (by decide) 2, tetra4 2, by decide +kernel⟩
  · exact ⟨3, _, _, _, rfl, isSide_tetra (by decide) 1, tetra4 1, by decide +kernel⟩
  · exact ⟨3, _, _, _, rfl, isSide_tetra (by decide) 0, tetra4 0, by decide +kernel⟩
  · exact ⟨3, _, _, _, rfl, isSide_tetra (by decide) 3, tetra4 3, by decide +kernel⟩

theorem facet_tetrahedron10 (l : Int × Int × Int × Int) (hl : l ∈ Spec.SortNodes.Shape.planes .tetrahedron) :
    Facet .tetrahedron10 (Shape.tetrahedron10 ℝ) .tetrahedron l := by
  simp only [Spec.SortNodes.Shape.planes, List.mem_cons, List.not_mem_nil, or_false] at hl
  rcases hl with rfl | rfl | rfl | rfl
  · exact ⟨6, _, _, _, rfl, isSide_tetra (by decide) 2, tetra10 2, by decide +kernel⟩
  · exact ⟨6, _, _, _, rfl, isSide_tetra (by decide) 1, tetra10 1, by decide +kernel⟩
  · exact ⟨6, _, _, _, rfl, isSide_tetra (by decide) 0, tetra10 0, by decide +kernel⟩
  · exact ⟨6, _, _, _, rfl, isSide_tetra (by decide) 3, tetra10 3, by decide +kernel⟩

theorem facet_pyramid5 (l : Int × Int × Int × Int) (hl : l ∈ Spec.SortNodes.Shape.planes .pyramid) :
    Facet .pyramid5 (Shape.pyramid5 ℝ) .pyramid l := by
  simp only [Spec.SortNodes.Shape.planes, List.mem_cons, List.not_mem_nil, or_false] at hl
  rcases hl with rfl | rfl | rfl | rfl | rfl
  · exact ⟨4, _, _, _, rfl, isSide_pyrBottom (by decide), pyramid5_bottom, by decide +kernel⟩
  · exact ⟨3, _, _, _, rfl, isSide_pyr (by decide) 3, pyramid5_side 3, by decide +kernel⟩
  · exact ⟨3, _, _, _, rfl, isSide_pyr (by decide) 1, pyramid5_side 1, by decide +kernel⟩
  · exact ⟨3, _, _, _, rfl, isSide_pyr (by decide) 0, pyramid5_side 0, by decide +kernel⟩
  · exact ⟨3, _, _, _, rfl, isSide_pyr (by decide) 2, pyramid5_side 2, by decide +kernel⟩

theorem facet_pyramid13 (l : Int × Int × Int × Int) (hl : l ∈ Spec.SortNodes.Shape.planes .pyramid) :
    Facet .pyramid13 (Shape.pyramid13 ℝ) .pyramid l := by
  simp only [Spec.SortNodes.Shape.planes, List.mem_cons, List.not_mem_nil, or_false] at hl
  rcases hl with rfl | rfl | rfl | rfl | rfl
  · exact ⟨8, _, _, _, rfl, isSide_pyrBottom (by decide), pyramid13_bottom, by decide +kernel⟩
  · exact ⟨6, _, _, _, rfl, isSide_pyr (by decide) 3, pyramid13_side 3, by decide +kernel⟩
  · exact ⟨6, _, _, _, rfl, isSide_pyr (by decide) 1, pyramid13_side 1, by decide +kernel⟩
  · exact ⟨6, _, _, _, rfl, isSide_pyr (by decide) 0, pyramid13_side 0, by decide +kernel⟩
  · exact ⟨6, _, _, _, rfl, isSide_pyr (by decide) 2, pyramid13_side 2, by decide +kernel⟩

theorem facet_pyramid14 (l : Int × Int × Int × Int) (hl : l ∈ Spec.SortNodes.Shape.planes .pyramid) :
    Facet .pyramid14 (Shape.pyramid14 ℝ) .pyramid l := by
  simp only [Spec.SortNodes.Shape.planes, List.mem_cons, List.not_mem_nil, or_false] at hl
  rcases hl with rfl | rfl | rfl | rfl | rfl
  · exact ⟨9, _, _, _, rfl, isSide_pyrBottom (by decide), pyramid14_bottom, by decide +kernel⟩
  · exact ⟨6, _, _, _, rfl, isSide_pyr (by decide) 3, pyramid14_side 3, by decide +kernel⟩
  · exact ⟨6, _, _, _, rfl, isSide_pyr (by decide) 1, pyramid14_side 1, by decide +kernel⟩
  · exact ⟨6, _, _, _, rfl, isSide_pyr (by decide) 0, pyramid14_side 0, by decide +kernel⟩
  · exact ⟨6, _, _, _, rfl, isSide_pyr (by decide) 2, pyramid14_side 2, by decide +kernel⟩

theorem facet_wedge6 (l : Int × Int × Int × Int) (hl : l ∈ Spec.SortNodes.Shape.planes .wedge) :
    Facet .wedge6 (Shape.wedge6 ℝ) .wedge l := by
  simp only [Spec.SortNodes.Shape.planes, List.mem_cons, List.not_mem_nil, or_false] at hl
  rcases hl with rfl | rfl | rfl | rfl | rfl
  · exact ⟨4, _, _, _, rfl, isSide_wedgeQuad (by decide) 2, wedge6_quad 2, by decide +kernel⟩
  · exact ⟨4, _, _, _, rfl, isSide_wedgeQuad (by decide) 0, wedge6_quad 0, by decide +kernel⟩
  · exact ⟨4, _, _, _, rfl, isSide_wedgeQuad (by decide) 1, wedge6_quad 1, by decide +kernel⟩
  · exact ⟨3, _, _, _, rfl, isSide_wedgeTri (by decide) 0, wedge6_tri 0, by decide +kernel⟩
  · exact ⟨3, _, _, _, rfl, isSide_wedgeTri (by decide) 1, wedge6_tri 1, by decide +kernel⟩

theorem facet_wedge15 (l : Int × Int × Int × Int) (hl : l ∈ Spec.SortNodes.Shape.planes .wedge) :
    Facet .wedge15 (Shape.wedge15 ℝ) .wedge l := by
  simp only [Spec.SortNodes.Shape.planes, List.mem_cons, List.not_mem_nil, or_false] at hl
  rcases hl with rfl | rfl | rfl | rfl | rfl
  · exact ⟨8, _, _, _, rfl, isSide_wedgeQuad (by decide) 2, wedge15_quad 2, by decide +kernel⟩
  · exact ⟨8, _, _, _, rfl, isSide_wedgeQuad (by decide) 0, wedge15_quad 0, by decide +kernel⟩
  · exact ⟨8, _, _, _, rfl, isSide_wedgeQuad (by decide) 1, wedge15_quad 1, by decide +kernel⟩
  · exact ⟨6, _, _, _, rfl, isSide_wedgeTri (by decide) 0, wedge15_tri 0, by decide +kernel⟩
  · exact ⟨6, _, _, _, rfl, isSide_wedgeTri (by decide) 1, wedge15_tri 1, by decide +kernel⟩

theorem facet_wedge18 (l : Int × Int × Int × Int) (hl : l ∈ Spec.SortNodes.Shape.planes .wedge) :
    Facet .wedge18 (Shape.wedge18 ℝ) .wedge l := by
  simp only [Spec.SortNodes.Shape.planes, List.mem_cons, List.not_mem_nil, or_false] at hl
  rcases hl with rfl | rfl | rfl | rfl | rfl
  · exact ⟨9, _, _, _, rfl, isSide_wedgeQuad (by decide) 2, wedge18_quad 2, by decide +kernel⟩
  · exact ⟨9, _, _, _, rfl, isSide_wedgeQuad (by decide) 0, wedge18_quad 0, by decide +kernel⟩
  · exact ⟨9, _, _, _, rfl, isSide_wedgeQuad (by decide) 1, wedge18_quad 1, by decide +kernel⟩
  · exact ⟨6, _, _, _, rfl, isSide_wedgeTri (by decide) 0, wedge18_tri 0, by decide +kernel⟩
  · exact ⟨6, _, _, _, rfl, isSide_wedgeTri (by decide) 1, wedge18_tri 1, by decide +kernel⟩

theorem facet_hexahedron8 (l : Int × Int × Int × Int) (hl : l ∈ Spec.SortNodes.Shape.planes .hexahedron) :
    Facet .hexahedron8 (Shape.hexahedron8 ℝ) .hexahedron l := by
  simp only [Spec.SortNodes.Shape.planes, List.mem_cons, List.not_mem_nil, or_false] at hl
  rcases hl with rfl | rfl | rfl | rfl | rfl | rfl
  · exact ⟨4, _, _, _, rfl, isSide_hex (by decide) 4, hex8 4, by decide +kernel⟩
  · exact ⟨4, _, _, _, rfl, isSide_hex (by decide) 2, hex8 2, by decide +kernel⟩
  · exact ⟨4, _, _, _, rfl, isSide_hex (by decide) 1, hex8 1, by decide +kernel⟩
  · exact ⟨4, _, _, _, rfl, isSide_hex (by decide) 3, hex8 3, by decide +kernel⟩
  · exact ⟨4, _, _, _, rfl, isSide_hex (by decide) 0, hex8 0, by decide +kernel⟩
  · exact ⟨4, _, _, _, rfl, isSide_hex (by decide) 5, hex8 5, by decide +kernel⟩

theorem facet_hexahedron20 (l : Int × Int × Int × Int) (hl : l ∈ Spec.SortNodes.Shape.planes .hexahedron) :
    Facet .hexahedron20 (Shape.hexahedron20 ℝ) .hexahedron l := by
  simp only [Spec.SortNodes.Shape.planes, List.mem_cons, List.not_mem_nil, or_false] at hl
  rcases hl with rfl | rfl | rfl | rfl | rfl | rfl
  · exact ⟨8, _, _, _, rfl, isSide_hex (by decide) 4, hex20 4, by decide +kernel⟩
  · exact ⟨8, _, _, _, rfl, isSide_hex (by decide) 2, hex20 2, by decide +kernel⟩
  · exact ⟨8, _, _, _, rfl, isSide_hex (by decide) 1, hex20 1, by decide +kernel⟩
  · exact ⟨8, _, _, _, rfl, isSide_hex (by decide) 3, hex20 3, by decide +kernel⟩
  · exact ⟨8, _, _, _, rfl, isSide_hex (by decide) 0, hex20 0, by decide +kernel⟩
  · exact ⟨8, _, _, _, rfl, isSide_hex (by decide) 5, hex20 5, by decide +kernel⟩

theorem facet_hexahedron26 (l : Int × Int × Int × Int) (hl : l ∈ Spec.SortNodes.Shape.planes .hexahedron) :
    Facet .hexahedron26 (Shape.hexahedron26 ℝ) .hexahedron l := by
  simp only [Spec.SortNodes.Shape.planes, List.mem_cons, List.not_mem_nil, or_false] at hl
  rcases hl with rfl | rfl | rfl | rfl | rfl | rfl
  · exact ⟨9, _, _, _, rfl, isSide_hex (by decide) 4, hex26 4, by decide +kernel⟩
  · exact ⟨9, _, _, _, rfl, isSide_hex (by decide) 2, hex26 2, by decide +kernel⟩
  · exact ⟨9, _, _, _, rfl, isSide_hex (by decide) 1, hex26 1, by decide +kernel⟩
  · exact ⟨9, _, _, _, rfl, isSide_hex (by decide) 3, hex26 3, by decide +kernel⟩
  · exact ⟨9, _, _, _, rfl, isSide_hex (by decide) 0, hex26 0, by decide +kernel⟩
  · exact ⟨9, _, _, _, rfl, isSide_hex (by decide) 5, hex26 5, by decide +kernel⟩

theorem facet_hexahedron27 (l : Int × Int × Int × Int) (hl : l ∈ Spec.SortNodes.Shape.planes .hexahedron) :
    Facet .hexahedron27 (Shape.hexahedron27 ℝ) .hexahedron l := by
  simp only [Spec.SortNodes.Shape.planes, List.mem_cons, List.not_mem_nil, or_false] at hl
  rcases hl with rfl | rfl | rfl | rfl | rfl | rfl
  · exact ⟨9, _, _, _, rfl, isSide_hex (by decide) 4, hex27 4, by decide +kernel⟩
  · exact ⟨9, _, _, _, rfl, isSide_hex (by decide) 2, hex27 2, by decide +kernel⟩
  · exact ⟨9, _, _, _, rfl, isSide_hex (by decide) 1, hex27 1, by decide +kernel⟩
  · exact ⟨9, _, _, _, rfl, isSide_hex (by decide) 3, hex27 3, by decide +kernel⟩
  · exact ⟨9, _, _, _, rfl, isSide_hex (by decide) 0, hex27 0, by decide +kernel⟩
  · exact ⟨9, _, _, _, rfl, isSide_hex (by decide) 5, hex27 5, by decide +kernel⟩

theorem facet {k : Kind} {shape : Spec.SortNodes.Shape} (hk : SortNodes.shapeOf k = some shape)
    {e : Element ℝ 3 k.count} (he : Cell.cell k = some e) {l : Int × Int × Int × Int} (hl : l ∈ shape.planes) :
    Facet k e shape l := by
  cases k <;> simp only [SortNodes.shapeOf, reduceCtorEq] at hk <;> cases hk <;>
    simp only [Cell.cell] at he <;> cases he
  · exact facet_tetrahedron4 l hl
  · exact facet_tetrahedron10 l hl
  · exact facet_pyramid5 l hl
  · exact facet_pyramid13 l hl
  · exact facet_pyramid14 l hl
  · exact facet_wedge6 l hl
  · exact facet_wedge15 l hl
  · exact facet_wedge18 l hl
  · exact facet_hexahedron8 l hl
  · exact facet_hexahedron20 l hl
  · exact facet_hexahedron26 l hl
  · exact facet_hexahedron27 l hl

/-! ### The apex of a pyramid -/

theorem apex5 {p : Point ℝ 3} (h : p 2 = 1) (i : Fin 5) : (pyramid5 ℝ).shapes p i = if i = 4 then 1 else 0 := by
  fin_cases i <;> expand [pyramid5, pyramidBase, pyramidBaseShape, h] <;> norm_num

theorem pyramid13New_apex {p : Point ℝ 3} (h : p 2 = 1) (b : Fin 8) : pyramid13New p b = 0 := by
  fin_cases b <;> expand [pyramid13New, pyramid13Nodes, pyramidEdgeX, pyramidEdgeY, pyramidEdgeZ, h] <;> norm_num

theorem pyramid14New_apex {p : Point ℝ 3} (h : p 2 = 1) (b : Fin 1) : pyramid14New p b = 0 := by
  fin_cases b; expand [pyramid14New, h]; norm_num

theorem enrich_eq {n m : Nat} {e : Element ℝ 3 n} {nodes : Fin m → Point ℚ 3} {new : Point ℝ 3 → Fin m → ℝ}
    {newGrads : Point ℝ 3 → Fin m → Point ℝ 3} {p q : Point ℝ 3} (he : e.shapes p = e.shapes q)
    (hn : new p = new q) : (Shape.enrich e nodes new newGrads).shapes p = (Shape.enrich e nodes new newGrads).shapes q := by
  simp only [Shape.enrich, he, hn]

theorem apex {k : Kind} (hk : SortNodes.shapeOf k = some .pyramid) {e : Element ℝ 3 k.count}
    (he : Cell.cell k = some e) {p q : Point ℝ 3} (hp : p 2 = 1) (hq : q 2 = 1) : e.shapes p = e.shapes q := by
  have h5 : (pyramid5 ℝ).shapes p = (pyramid5 ℝ).shapes q := by funext i; rw [apex5 hp, apex5 hq]
  have h13 : (pyramid13 ℝ).shapes p = (pyramid13 ℝ).shapes q :=
    enrich_eq h5 (by funext b; rw [pyramid13New_apex hp, pyramid13New_apex hq])
  have h14 : (pyramid14 ℝ).shapes p = (pyramid14 ℝ).shapes q :=
    enrich_eq h13 (by funext b; rw [pyramid14New_apex hp, pyramid14New_apex hq])
  cases k <;> simp only [SortNodes.shapeOf, reduceCtorEq, Option.some.injEq] at hk <;>
    simp only [Cell.cell] at he <;> cases he
  · exact h5
  · exact h13
  · exact h14

/-- The Jacobian is singular there. -/
theorem apex_singular {k : Kind} (hk : SortNodes.shapeOf k = some .pyramid) {e : Element ℝ 3 k.count}
    (he : Cell.cell k = some e) (x : Fin k.count → Point ℝ 3) {p : Point ℝ 3} (hp : p 2 = 1) :
    (Matrix.of (jacobian e x p)).det = 0 := by
  have h0 : ∀ c, jacobian e x p 0 c = 0 := by
    intro c
    have h1 := Cell.jacobian_partial_cell he x p 0 c
    have h2 : (fun s => localToGlobal e x (Function.update p 0 s) c) = fun _ => localToGlobal e x p c := by
      funext s
      simp only [localToGlobal]
      rw [apex hk he (p := Function.update p 0 s) (q := p) (by rw [Function.update_of_ne (by decide)]; exact hp) hp]
    unfold Spec.Shape.HasPartial at h1
    rw [h2] at h1
    exact h1.unique (hasDerivAt_const _ _)
  refine Matrix.det_eq_zero_of_row_eq_zero 0 fun c => h0 c

end MiniCFD.Conform
