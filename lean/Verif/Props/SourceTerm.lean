import Verif.Lemmas.Residual
import Verif.Props.Source
import Verif.Props.Rotor
import Verif.Props.Registration
import Verif.Props.Gauss

/-!
# C74: the source term of a rotorcraft

`AddSourceIntegral` adds to the residual of each cell the forces that `GetForces` reports for the cell, and nothing
else.
-/

namespace MiniCFD.Source

open MiniCFD.Frame MiniCFD.Rotor MiniCFD.Residual MiniCFD.Column MiniCFD.Projection
open MiniCFD.Spec.Source MiniCFD.Spec.Column
open MiniCFD.Intersect (Columns Regular)

variable {n : Nat} {solve : Columns ℝ → Vec → Vec}

/-- A second update to the same time changes nothing. -/
theorem update_twice (r : Rotor Foil) (t : ℝ) :
    Rotor.apply (Rotor.apply r (.update t)) (.update t) = Rotor.apply r (.update t) := by
  have : (Rotor.apply r (.update t)).time = t := by
    simp only [Rotor.apply]
    split_ifs with h
    · rfl
    · exact not_not.1 h
  conv_lhs => rw [Rotor.apply]
  simp only [this, ne_eq, not_true_eq_false, if_false]

/-- All rotors at time `t`. -/
noncomputable def turned (rotors : List (Rotor Foil)) (t : ℝ) : List (Rotor Foil) :=
  rotors.map fun r => Rotor.apply r (.update t)

theorem turned_twice (rotors : List (Rotor Foil)) (t : ℝ) : turned (turned rotors t) t = turned rotors t := by
  simp only [turned, List.map_map]
  refine List.map_congr_left fun r _ => update_twice r t

/-- At a station the section has the coefficients of the airfoil there; between two stations it has those interpolated
linearly, at the same (mirrored, see `section_between`) position as chord and twist. -/
theorem section_coefficients (b : Blade Foil) (hinc : Increasing b.stations) (ratio : ℝ) (h0 : 0 ≤ ratio)
    (h1 : ratio ≤ 1) (deg : ℝ) :
    (∀ pre post s, b.stations = pre ++ s :: post → ratio * b.span = s.y → ∃ x, b.getSection ratio = some x ∧
      lift x deg = s.airfoil.lift deg ∧ drag x deg = s.airfoil.drag deg) ∧
    (∀ pre post r s, b.stations = pre ++ r :: s :: post → r.y < ratio * b.span → ratio * b.span < s.y →
      ∃ x, b.getSection ratio = some x ∧
        lift x deg = Spec.Rotor.lerp r.y (r.airfoil.lift deg) s.y (s.airfoil.lift deg) (r.y + s.y - ratio * b.span) ∧
        drag x deg = Spec.Rotor.lerp r.y (r.airfoil.drag deg) s.y (s.airfoil.drag deg) (r.y + s.y - ratio * b.span)) := by
  constructor
  · intro pre post s hb hy
    exact ⟨_, section_at_station b pre post s hb hinc ratio h0 h1 hy, by simp [lift], by simp [drag]⟩
  · intro pre post r s hb hr hs
    obtain ⟨x, hx, -, -, e0, e1, ew, e2⟩ := section_between b pre post r s hb hinc ratio h0 h1 hr hs
    have hrs : s.y - r.y ≠ 0 := by linarith
    have e3 : x.w0 = 1 - (s.y - ratio * b.span) / (s.y - r.y) := by rw [← e2]; linarith
    refine ⟨x, hx, ?_, ?_⟩
    · simp only [lift, e0, e1, e2, e3, Spec.Rotor.lerp]; field_simp; ring
    · simp only [drag, e0, e1, e2, e3, Spec.Rotor.lerp]; field_simp; ring

theorem load_power {omega : ℝ} {ro : Vec} {b : Blade Foil} {c : Cell Vec 5 n} {xw : ℝ × ℝ} {l : Load}
    (h : load omega ro b c xw = some l) (k : Fin 4) :
    (![l.force 0, l.force 1, l.force 2, l.power] : Fin 4 → ℝ) k = strength (c.value l.point) l.force k.succ := by
  simp only [load, Option.bind_eq_bind, Option.bind_eq_some_iff, Option.some.injEq] at h
  obtain ⟨s, -, x, -, fp, h, rfl⟩ := h
  unfold sourceValue at h
  split_ifs at h with hz
  rw [Option.map_eq_some_iff] at h
  obtain ⟨f, -, rfl⟩ := h
  fin_cases k
  · rfl
  · rfl
  · rfl
  · simp only [dotProduct, velocity, Fin.sum_univ_three, strength]
    simp
    field_simp

theorem mapM_mem {α β : Type} {g : α → Option β} {l : List α} {l' : List β} (h : l.mapM g = some l') :
    ∀ b ∈ l', ∃ a ∈ l, g a = some b := by
  induction l generalizing l' with
  | nil =>
    cases h
    exact fun b hb => absurd hb List.not_mem_nil
  | cons a l ih =>
    simp only [List.mapM_cons, Option.bind_eq_bind, Option.bind_eq_some_iff, Option.pure_def,
      Option.some.injEq] at h
    obtain ⟨b, hb, l1, hl, rfl⟩ := h
    intro x hx
    rcases List.mem_cons.1 hx with rfl | hx
    · exact ⟨a, List.mem_cons_self, hb⟩
    · obtain ⟨a', ha, h1⟩ := ih hl x hx
      exact ⟨a', List.mem_cons_of_mem _ ha, h1⟩

theorem blade_amount {faces : List Triangle} {c : Cell Vec 5 n} {at' : Nat} {r : Rotor Foil} {b : Blade Foil}
    {cs : List (Contribution ℝ)} (h : updateBlade solve faces c at' r b = some cs) :
    ∃ reports, getForcesBlade solve faces c r b = some reports ∧
      (∀ x ∈ cs, ∃ m : Coeff 5 n, x = addCoeff at' m) ∧
      ∀ (p : Nat) (row : Fin 5) (i : Fin (n + 1)), (cs.map (amount p (i.val * 5 + row.val))).sum =
        if at' = p then work c reports row i else 0 := by
  unfold updateBlade at h
  unfold getForcesBlade
  dsimp only at h ⊢
  split_ifs at h with hrs
  · rw [if_neg (not_le.2 hrs)]
    simp only [Option.bind_eq_bind, Option.bind_eq_some_iff, Option.some.injEq] at h
    obtain ⟨loads, hl, rfl⟩ := h
    refine ⟨_, by rw [hl]; rfl, fun x hx => ⟨_, List.mem_singleton.1 hx⟩, fun p row i => ?_⟩
    have hp : ∀ l ∈ loads, ∃ xw, load r.omega r.origin b c xw = some l := by
      intro l hm
      obtain ⟨xw, -, h1⟩ := mapM_mem hl l hm
      exact ⟨xw, h1⟩
    rw [List.map_singleton, List.sum_singleton, amount_addCoeff]
    refine if_congr Iff.rfl ?_ rfl
    unfold work
    rw [List.map_map]
    refine Fin.cases ?_ (fun k => ?_) row
    · simp [strength, Function.comp_def]
    · rw [Fin.cons_succ, ← List.sum_map_mul_right]
      refine congrArg List.sum (List.map_congr_left fun l hm => ?_)
      obtain ⟨xw, h1⟩ := hp l hm
      simp only [Function.comp, product, load_power h1 k]
      ring
  · rw [if_pos (not_lt.1 hrs)]
    cases h
    refine ⟨_, rfl, fun x hx => absurd hx List.not_mem_nil, fun p row i => ?_⟩
    simp [work]

theorem work_append (c : Cell Vec 5 n) (a b : List Reported) (row : Fin 5) (i : Fin (n + 1)) :
    work c (a ++ b) row i = work c a row i + work c b row i := by
  unfold work
  rw [List.map_append, List.sum_append]

theorem blades_amount {faces : List Triangle} {c : Cell Vec 5 n} {at' : Nat} {r : Rotor Foil} (bs : List (Blade Foil))
    {cs : List (Contribution ℝ)} (h : collect (updateBlade solve faces c at' r) bs = some cs) :
    ∃ reports, collect (getForcesBlade solve faces c r) bs = some reports ∧
      (∀ x ∈ cs, ∃ m : Coeff 5 n, x = addCoeff at' m) ∧
      ∀ (p : Nat) (row : Fin 5) (i : Fin (n + 1)), (cs.map (amount p (i.val * 5 + row.val))).sum =
        if at' = p then work c reports row i else 0 := by
  induction bs generalizing cs with
  | nil =>
    cases h
    exact ⟨[], rfl, fun x hx => absurd hx List.not_mem_nil, fun p row i => by simp [work]⟩
  | cons b bs ih =>
    simp only [collect, Option.bind_eq_bind, Option.bind_eq_some_iff, Option.some.injEq] at h
    obtain ⟨x, h1, y, h2, rfl⟩ := h
    obtain ⟨f, g1, g2, g3⟩ := blade_amount h1
    obtain ⟨f', k1, k2, k3⟩ := ih h2
    refine ⟨f ++ f', by simp only [collect, g1, k1, Option.bind_eq_bind, Option.bind_some], fun z hz => ?_,
      fun p row i => ?_⟩
    · rcases List.mem_append.1 hz with hz | hz
      · exact g2 z hz
      · exact k2 z hz
    · rw [List.map_append, List.sum_append, g3, k3, work_append]
      split_ifs <;> simp

/-- `UpdateCoeff` turns the rotors and adds what `GetForces` reports. -/
theorem cell_amount {faces : List Triangle} {c : Cell Vec 5 n} {at' : Nat} {t : ℝ} (rotors : List (Rotor Foil))
    {rotors' : List (Rotor Foil)} {cs : List (Contribution ℝ)}
    (h : updateCoeff solve rotors t faces c at' = some (rotors', cs)) :
    rotors' = turned rotors t ∧ ∃ reports, getForces solve rotors t faces c = some (turned rotors t, reports) ∧
      (∀ x ∈ cs, ∃ m : Coeff 5 n, x = addCoeff at' m) ∧
      ∀ (p : Nat) (row : Fin 5) (i : Fin (n + 1)), (cs.map (amount p (i.val * 5 + row.val))).sum =
        if at' = p then work c reports row i else 0 := by
  induction rotors generalizing rotors' cs with
  | nil =>
    cases h
    exact ⟨rfl, [], rfl, fun x hx => absurd hx List.not_mem_nil, fun p row i => by simp [work]⟩
  | cons r rest ih =>
    simp only [updateCoeff, Option.bind_eq_bind, Option.bind_eq_some_iff, Option.some.injEq] at h
    obtain ⟨x, h1, ⟨rest', y⟩, h2, h3⟩ := h
    cases h3
    obtain ⟨f, g1, g2, g3⟩ := blades_amount _ h1
    obtain ⟨rfl, f', k1, k2, k3⟩ := ih h2
    refine ⟨rfl, f ++ f', ?_, fun z hz => ?_, fun p row i => ?_⟩
    · simp only [getForces, g1, k1, Option.bind_eq_bind, Option.bind_some]
      rfl
    · rcases List.mem_append.1 hz with hz | hz
      · exact g2 z hz
      · exact k2 z hz
    · rw [List.map_append, List.sum_append, g3, k3, work_append]
      split_ifs <;> simp

/-- Asking again, at the same time, gives the same answer. -/
theorem forces_again {faces : List Triangle} {c : Cell Vec 5 n} {t : ℝ} (rotors : List (Rotor Foil)) :
    getForces solve (turned rotors t) t faces c = getForces solve rotors t faces c := by
  induction rotors with
  | nil => rfl
  | cons r rest ih =>
    have e : turned (r :: rest) t = Rotor.apply r (.update t) :: turned rest t := rfl
    rw [e]
    simp only [getForces, update_twice, ih]

variable {P : Part Vec 5 n} {faces : Fin P.count → List Triangle} {c : Conditions Vec 5} {t : ℝ}

theorem loop_amount (ps : List (Fin P.count)) (hn : ps.Nodup) {rotors rotors' : List (Rotor Foil)}
    {cs : List (Contribution ℝ)} (h : sourceLoop solve P faces t ps rotors = some (rotors', cs)) :
    (ps ≠ [] → rotors' = turned rotors t) ∧ (∀ x ∈ cs, Fits P x) ∧
      ∀ p : Fin P.count, (p ∈ ps → ∃ reports, getForces solve rotors t (faces p) (P.cells p) =
          some (turned rotors t, reports) ∧ ∀ (row : Fin 5) (i : Fin (n + 1)),
          (cs.map (amount p.val (i.val * 5 + row.val))).sum = work (P.cells p) reports row i) ∧
        (p ∉ ps → ∀ (row : Fin 5) (i : Fin (n + 1)), (cs.map (amount p.val (i.val * 5 + row.val))).sum = 0) := by
  induction ps generalizing rotors cs with
  | nil =>
    cases h
    exact ⟨fun h => absurd rfl h, fun x hx => absurd hx List.not_mem_nil,
      fun p => ⟨fun h => absurd h List.not_mem_nil, fun _ _ _ => by simp⟩⟩
  | cons a ps ih =>
    rw [List.nodup_cons] at hn
    simp only [sourceLoop, Option.bind_eq_bind, Option.bind_eq_some_iff, Option.some.injEq] at h
    obtain ⟨⟨r1, x⟩, h1, ⟨r2, y⟩, h2, h3⟩ := h
    cases h3
    obtain ⟨rfl, f, g1, g2, g3⟩ := cell_amount _ h1
    obtain ⟨k1, k2, k3⟩ := ih hn.2 h2
    refine ⟨fun _ => ?_, fun z hz => ?_, fun p => ⟨fun hp => ?_, fun hp row i => ?_⟩⟩
    · by_cases he : ps = []
      · subst he
        cases h2
        rfl
      · rw [k1 he, turned_twice]
    · rcases List.mem_append.1 hz with hz | hz
      · obtain ⟨m, rfl⟩ := g2 z hz
        exact fits_addCoeff P a m
      · exact k2 z hz
    · rcases List.mem_cons.1 hp with rfl | hp
      · refine ⟨f, g1, fun row i => ?_⟩
        rw [List.map_append, List.sum_append, g3, if_pos rfl, (k3 p).2 hn.1, add_zero]
      · obtain ⟨f', l1, l2⟩ := (k3 p).1 hp
        rw [forces_again, turned_twice] at l1
        refine ⟨f', l1, fun row i => ?_⟩
        have hne : a.val ≠ p.val := by
          intro e
          rw [Fin.ext e] at hn
          exact hn.1 hp
        rw [List.map_append, List.sum_append, g3, if_neg hne, l2, zero_add]
    · rw [List.mem_cons, not_or] at hp
      have hne : a.val ≠ p.val := fun e => hp.1 (Fin.ext e).symm
      rw [List.map_append, List.sum_append, g3, if_neg hne, (k3 p).2 hp.2, add_zero]

/-- Adding to a residual. -/
theorem residual_plus {S : Scheme Vec 5 n} (hS : S.Local P) {vol : Bool} {num : Numbering} {col col' : List ℝ}
    (h : residual S vol P c t = some (num, col)) {cs : List (Contribution ℝ)} (hcs : ∀ x ∈ cs, Fits P x)
    (ha : accumulate num cs col = some col') (p : Fin P.count) (row : Fin 5) (i : Fin (n + 1)) :
    ∃ v, entry (num, col) p.val row i = some v ∧
      entry (num, col') p.val row i = some (v + (cs.map (amount p.val (i.val * 5 + row.val))).sum) := by
  simp only [Residual.residual, Option.bind_eq_bind, Option.bind_eq_some_iff, Option.some.injEq] at h
  obtain ⟨⟨ids, offs⟩, hn, cs0, hc, col0, h0, e⟩ := h
  cases e
  obtain ⟨col1, h1, hlen, h2⟩ := assembled hn (contributions_fit hS hc)
  rw [h0, Option.some.injEq] at h1
  subst h1
  obtain ⟨col2, off, h1, -, hL, ho, h3⟩ := contributions_stay_in_block (List.ofFn P.inter) (sizes P) ids offs
    (by simp [sizes]) hn cs col hlen (fun c hc => ⟨_, sizes_get P (hcs c hc).1, (hcs c hc).2⟩)
  rw [ha, Option.some.injEq] at h1
  subst h1
  refine ⟨_, h2 p row i, ?_⟩
  have he := h2 p row i
  have hoff := ho p.val (by simpa [sizes] using p.2)
  simp only [entry, hoff, Option.bind_eq_bind, Option.bind_some] at he ⊢
  rw [h3 p.val _ (sizes_get P p.2) _ (index_lt row i), he]
  rfl

theorem plus_defined {S : Scheme Vec 5 n} (hS : S.Local P) {vol : Bool} {num : Numbering} {col : List ℝ}
    (h : Residual.residual S vol P c t = some (num, col)) {cs : List (Contribution ℝ)} (hcs : ∀ x ∈ cs, Fits P x) :
    ∃ col', accumulate num cs col = some col' := by
  simp only [Residual.residual, Option.bind_eq_bind, Option.bind_eq_some_iff, Option.some.injEq] at h
  obtain ⟨⟨ids, offs⟩, hn, cs0, hc, col0, h0, e⟩ := h
  cases e
  obtain ⟨col1, h1, hlen, h2⟩ := assembled hn (contributions_fit hS hc)
  rw [h0, Option.some.injEq] at h1
  subst h1
  obtain ⟨col2, off, h1, -⟩ := contributions_stay_in_block (List.ofFn P.inter) (sizes P) ids offs
    (by simp [sizes]) hn cs col hlen (fun c hc => ⟨_, sizes_get P (hcs c hc).1, (hcs c hc).2⟩)
  exact ⟨_, h1⟩

/-- The residual with a rotorcraft: the one without, plus, for each cell, the forces that `GetForces` reports for it at
the same time, before or after the residual is computed.  Mass is not added; what is added to energy is the power of
the forces.  The rotors have been turned to the current time. -/
theorem source_entry {rotors : List (Rotor Foil)} {rotors' : Option (List (Rotor Foil))} {num : Numbering}
    {col : List ℝ} (h : withSource solve (some rotors) P faces c t = some (rotors', num, col)) :
    ∃ col0 after, generalResidual P c t = some (num, col0) ∧ rotors' = some after ∧
      ∀ p : Fin P.count, after = turned rotors t ∧
        ∃ reports, getForces solve rotors t (faces p) (P.cells p) = some (after, reports) ∧
          getForces solve after t (faces p) (P.cells p) = some (after, reports) ∧
          ∀ (row : Fin 5) (i : Fin (n + 1)), ∃ v, entry (num, col0) p.val row i = some v ∧
            entry (num, col) p.val row i = some (v + work (P.cells p) reports row i) := by
  simp only [withSource, Option.bind_eq_bind, Option.bind_eq_some_iff, Option.some.injEq] at h
  obtain ⟨⟨num0, col0⟩, h1, ⟨after, cs⟩, h2, col', h3, h4⟩ := h
  cases h4
  obtain ⟨g1, g2, g3⟩ := loop_amount _ (List.nodup_finRange _) h2
  refine ⟨col0, after, h1, rfl, fun p => ?_⟩
  have e : after = turned rotors t := g1 (List.ne_nil_of_mem (List.mem_finRange p))
  obtain ⟨reports, k1, k2⟩ := (g3 p).1 (List.mem_finRange p)
  refine ⟨e, reports, e ▸ k1, ?_, fun row i => ?_⟩
  · rw [e, forces_again]
    exact k1
  · obtain ⟨v, l1, l2⟩ := residual_plus (general_local P) h1 g2 h3 p row i
    exact ⟨v, l1, by rw [l2, k2]⟩

/-- Without a source nothing is added. -/
theorem no_source : withSource solve none P faces c t =
    (generalResidual P c t).map fun res => (none, res.1, res.2) := by
  unfold withSource
  cases generalResidual P c t <;> rfl

/-! ### When it is defined -/

theorem finish_valid {rs : ℝ × ℝ} (h : rs = (-1, -1) ∨ (Valid rs.1 ∧ (rs.2 = -1 ∨ Valid rs.2)))
    (hlt : (finish rs).1 < (finish rs).2) : 0 ≤ (finish rs).1 ∧ (finish rs).2 ≤ 1 := by
  obtain ⟨r, s⟩ := rs
  rcases h with h | ⟨h1, h2⟩
  · cases h
    norm_num [finish, Valid] at hlt
  · have h3 : ∀ x : ℝ, Valid x → (if x < 1 / 2 then (0 : ℝ) else 1) = 0 ∨ (if x < 1 / 2 then (0 : ℝ) else 1) = 1 := by
      intro x _
      split_ifs <;> simp
    simp only at h1 h2
    have h4 : Valid (if Valid r ∧ ¬ Valid s then (if r < 1 / 2 then 0 else 1) else s) := by
      split_ifs with ha hb
      · exact ⟨le_rfl, zero_le_one⟩
      · exact ⟨zero_le_one, le_rfl⟩
      · exact not_not.1 fun hs => ha ⟨h1, hs⟩
    unfold finish at hlt ⊢
    dsimp only at hlt ⊢
    split_ifs at hlt ⊢ <;> first | exact ⟨h1.1, h4.2⟩ | exact ⟨h4.1, h1.2⟩ | skip
    all_goals
      simp_all [Valid]

theorem segment_valid (faces : List Triangle) (p pq : Vec)
    (hlt : (segment solve faces p pq).1 < (segment solve faces p pq).2) :
    0 ≤ (segment solve faces p pq).1 ∧ (segment solve faces p pq).2 ≤ 1 := by
  refine finish_valid ?_ hlt
  have : ∀ (fs : List Triangle) (rs : ℝ × ℝ), (rs = (-1, -1) ∨ (Valid rs.1 ∧ (rs.2 = -1 ∨ Valid rs.2))) →
      (fs.foldl (step solve p pq) rs = (-1, -1) ∨ (Valid (fs.foldl (step solve p pq) rs).1 ∧
        ((fs.foldl (step solve p pq) rs).2 = -1 ∨ Valid (fs.foldl (step solve p pq) rs).2))) := by
    intro fs
    induction fs with
    | nil => intro rs h; exact h
    | cons f fs ih =>
      intro rs h
      refine ih _ ?_
      unfold step
      dsimp only
      split_ifs with h1 h2 h3
      · exact h
      · exact Or.inr ⟨h3, Or.inr h2⟩
      · rcases h with rfl | h
        · exact Or.inr ⟨h2, Or.inl rfl⟩
        · exact Or.inr ⟨h2, h.2⟩
      · exact h
  exact this faces _ (Or.inl rfl)

/-- The points are on the line and their weights add up to its length. -/
theorem line_spec {r s : ℝ} (h : r < s) :
    (∀ xw ∈ line r s, r ≤ xw.1 ∧ xw.1 ≤ s) ∧ ((line r s).map Prod.snd).sum = s - r := by
  constructor
  · intro xw hm
    simp only [line, List.mem_map] at hm
    obtain ⟨⟨a, w⟩, hm, rfl⟩ := hm
    obtain ⟨h1, h2⟩ := Gauss.legendre4_sound.1.2.2.1 a (List.of_mem_zip hm).1
    constructor <;> nlinarith
  · have : |r - s| = s - r := by rw [abs_sub_comm, abs_of_pos (by linarith)]
    simp only [line, Gauss.legendre4, List.zip_cons_cons, List.zip_nil_right, List.map_cons, List.map_nil,
      List.sum_cons, List.sum_nil, this]
    ring

/-- A blade on which every section has wind. -/
structure Ready (c : Cell Vec 5 n) (r : Rotor Foil) (b : Blade Foil) : Prop where
  stations : b.stations ≠ []
  sorted : Increasing b.stations
  first : ∀ s ∈ b.stations.head?, s.y = 0
  wind : ∀ ratio x, b.getPoint r.origin ratio = some x → (c.value x) 0 ≠ 0 ∧
    ((velocity (c.value x) - sectionVelocity r.omega b ratio) ⬝ᵥ b.frame.x ≠ 0 ∨
      (velocity (c.value x) - sectionVelocity r.omega b ratio) ⬝ᵥ b.frame.z ≠ 0)

theorem load_defined {c : Cell Vec 5 n} {r : Rotor Foil} {b : Blade Foil} (h : Ready c r b) {xw : ℝ × ℝ}
    (h0 : 0 ≤ xw.1) (h1 : xw.1 ≤ 1) : ∃ l, load r.omega r.origin b c xw = some l ∧
      b.getPoint r.origin xw.1 = some l.point ∧ l.weight = xw.2 := by
  obtain ⟨s, hs⟩ := section_total b h.stations h.sorted h.first xw.1 h0 h1
  obtain ⟨x, hx⟩ : ∃ x, b.getPoint r.origin xw.1 = some x := ⟨_, getPoint_in r.origin b h0 h1⟩
  obtain ⟨hm, hw⟩ := h.wind _ _ hx
  have hf : ∃ f, sourceValue r.omega b xw.1 s (c.value x) = some f := by
    unfold sourceValue sectionForce
    rw [if_neg hm]
    dsimp only
    obtain ⟨a, ha⟩ : ∃ a, angleOfAttack s.twist
        ((velocity (c.value x) - sectionVelocity r.omega b xw.1) ⬝ᵥ
          (if r.omega < 0 then -b.frame.x else b.frame.x))
        ((velocity (c.value x) - sectionVelocity r.omega b xw.1) ⬝ᵥ
          b.frame.z) = some a := by
      have : ∀ u w : ℝ, u ≠ 0 ∨ w ≠ 0 → ∃ a, angleOfAttack s.twist u w = some a := by
        intro u w huw
        unfold angleOfAttack
        by_cases hu : u = 0
        · have hw : w ≠ 0 := by
            rcases huw with h | h
            · exact absurd hu h
            · exact h
          simp [hu, hw]
        · simp [hu]
      refine this _ _ ?_
      rcases hw with hw | hw
      · left
        split_ifs
        · rw [dotProduct_neg]
          exact neg_ne_zero.2 hw
        · exact hw
      · right
        exact hw
    rw [ha]
    exact ⟨_, rfl⟩
  obtain ⟨f, hf⟩ := hf
  exact ⟨⟨x, f.1, f.2, xw.2⟩, by simp only [load, hs, hx, hf, Option.bind_eq_bind, Option.bind_some], hx, rfl⟩

theorem loads_defined {c : Cell Vec 5 n} {r : Rotor Foil} {b : Blade Foil} (h : Ready c r b) :
    ∀ l : List (ℝ × ℝ), (∀ xw ∈ l, 0 ≤ xw.1 ∧ xw.1 ≤ 1) → ∃ loads, l.mapM (load r.omega r.origin b c) = some loads ∧
      loads.map Load.weight = l.map Prod.snd := by
  intro l
  induction l with
  | nil => exact fun _ => ⟨[], rfl, rfl⟩
  | cons xw l ih =>
    intro hl
    obtain ⟨a, ha, -, hw⟩ := load_defined h (hl xw List.mem_cons_self).1 (hl xw List.mem_cons_self).2
    obtain ⟨as, has, hws⟩ := ih fun x hx => hl x (List.mem_cons_of_mem _ hx)
    exact ⟨a :: as, by simp [ha, has], by simp [hw, hws]⟩

theorem blade_loads {faces : List Triangle} {c : Cell Vec 5 n} {r : Rotor Foil} {b : Blade Foil} (h : Ready c r b)
    (hlt : (segment solve faces b.p b.pq).1 < (segment solve faces b.p b.pq).2) :
    ∃ loads, (line (segment solve faces b.p b.pq).1 (segment solve faces b.p b.pq).2).mapM
        (load r.omega r.origin b c) = some loads ∧
      (loads.map Load.weight).sum = (segment solve faces b.p b.pq).2 - (segment solve faces b.p b.pq).1 := by
  obtain ⟨h0, h1⟩ := segment_valid faces _ _ hlt
  obtain ⟨h2, h3⟩ := line_spec hlt
  obtain ⟨loads, h4, h5⟩ := loads_defined h _ fun xw hx => ⟨h0.trans (h2 xw hx).1, (h2 xw hx).2.trans h1⟩
  exact ⟨loads, h4, by rw [h5, h3]⟩

theorem blade_defined {faces : List Triangle} {c : Cell Vec 5 n} {r : Rotor Foil} {b : Blade Foil} (h : Ready c r b)
    (at' : Nat) : ∃ cs, updateBlade solve faces c at' r b = some cs := by
  unfold updateBlade
  dsimp only
  split_ifs with hlt
  · obtain ⟨loads, h1, -⟩ := blade_loads h hlt
    exact ⟨_, by rw [h1]; rfl⟩
  · exact ⟨_, rfl⟩

/-- The weights reported for a blade add up to the length of the part of it in the cell. -/
theorem report_length {faces : List Triangle} {c : Cell Vec 5 n} {r : Rotor Foil} {b : Blade Foil} (h : Ready c r b)
    (hlt : (segment solve faces b.p b.pq).1 < (segment solve faces b.p b.pq).2) :
    ∃ reports, getForcesBlade solve faces c r b = some reports ∧ reports.length = 4 ∧
      (reports.map fun fxw => fxw.2.2).sum =
        ((segment solve faces b.p b.pq).2 - (segment solve faces b.p b.pq).1) * b.span := by
  obtain ⟨loads, h1, h2⟩ := blade_loads h hlt
  have hl : loads.length = 4 := by
    have : ∀ {α β : Type} {g : α → Option β} {l : List α} {l' : List β}, l.mapM g = some l' →
        l'.length = l.length := by
      intro α β g l
      induction l with
      | nil => intro l' h; cases h; rfl
      | cons a l ih =>
        intro l' h
        simp only [List.mapM_cons, Option.bind_eq_bind, Option.bind_eq_some_iff, Option.pure_def,
          Option.some.injEq] at h
        obtain ⟨b, hb, l1, hl, rfl⟩ := h
        simp [ih hl]
    rw [this h1]
    rfl
  refine ⟨_, by unfold getForcesBlade; dsimp only; rw [if_neg (not_le.2 hlt), h1]; rfl, by rw [List.length_map, hl], ?_⟩
  rw [List.map_map, ← h2, ← List.sum_map_mul_right]
  rfl

theorem collect_defined {α β : Type} {g : α → Option (List β)} {l : List α} (h : ∀ a ∈ l, ∃ x, g a = some x) :
    ∃ x, collect g l = some x := by
  induction l with
  | nil => exact ⟨_, rfl⟩
  | cons a l ih =>
    obtain ⟨x, hx⟩ := h a List.mem_cons_self
    obtain ⟨y, hy⟩ := ih fun b hb => h b (List.mem_cons_of_mem _ hb)
    exact ⟨x ++ y, by simp only [collect, hx, hy, Option.bind_eq_bind, Option.bind_some]⟩

theorem cell_defined {faces : List Triangle} {c : Cell Vec 5 n} (at' : Nat) (rotors : List (Rotor Foil))
    (h : ∀ r ∈ turned rotors t, ∀ b ∈ r.blades, Ready c r b) :
    ∃ res, updateCoeff solve rotors t faces c at' = some res := by
  induction rotors with
  | nil => exact ⟨_, rfl⟩
  | cons r rest ih =>
    obtain ⟨x, hx⟩ := collect_defined fun b hb =>
      blade_defined (solve := solve) (faces := faces) (h (Rotor.apply r (.update t)) List.mem_cons_self b hb) at'
    obtain ⟨y, hy⟩ := ih fun r hr => h r (List.mem_cons_of_mem _ hr)
    obtain ⟨y, y'⟩ := y
    exact ⟨(Rotor.apply r (.update t) :: y, x ++ y'), by
      simp only [updateCoeff, hx, hy, Option.bind_eq_bind, Option.bind_some]⟩

/-- The residual is defined as soon as the one without the source is, provided that every section of every blade has
air around it and a relative wind. -/
theorem source_defined {rotors : List (Rotor Foil)} (h0 : ∃ res, generalResidual P c t = some res)
    (h : ∀ r ∈ turned rotors t, ∀ b ∈ r.blades, ∀ p, Ready (P.cells p) r b) :
    ∃ res, withSource solve (some rotors) P faces c t = some res := by
  obtain ⟨⟨num, col0⟩, h0⟩ := h0
  have hl : ∀ (ps : List (Fin P.count)) (rotors : List (Rotor Foil)),
      (∀ r ∈ turned rotors t, ∀ b ∈ r.blades, ∀ p, Ready (P.cells p) r b) →
      ∃ res, sourceLoop solve P faces t ps rotors = some res := by
    intro ps
    induction ps with
    | nil => intro _ _; exact ⟨_, rfl⟩
    | cons p ps ih =>
      intro rotors h
      obtain ⟨⟨r1, x⟩, h1⟩ := cell_defined (solve := solve) (faces := faces p) (c := P.cells p) p.val rotors
        fun r hr b hb => h r hr b hb p
      obtain ⟨rfl, -⟩ := cell_amount _ h1
      obtain ⟨⟨r2, y⟩, h2⟩ := ih (turned rotors t) (by rw [turned_twice]; exact h)
      exact ⟨(r2, x ++ y), by simp only [sourceLoop, h1, h2, Option.bind_eq_bind, Option.bind_some]⟩
  obtain ⟨⟨after, cs⟩, h1⟩ := hl (List.finRange P.count) rotors h
  obtain ⟨-, h2, -⟩ := loop_amount _ (List.nodup_finRange _) h1
  obtain ⟨col, h3⟩ := plus_defined (general_local P) h0 h2
  exact ⟨(some after, num, col), by simp only [withSource, h0, h1, h3, Option.bind_eq_bind, Option.bind_some]⟩

/-- A cell in which `Intersect` finds no part of any blade keeps its residual. -/
theorem untouched {rotors : List (Rotor Foil)} {rotors' : Option (List (Rotor Foil))} {num : Numbering}
    {col col0 : List ℝ} (h : withSource solve (some rotors) P faces c t = some (rotors', num, col))
    (h0 : generalResidual P c t = some (num, col0)) (p : Fin P.count)
    (hp : ∀ r ∈ turned rotors t, ∀ b ∈ r.blades,
      (segment solve (faces p) b.p b.pq).2 ≤ (segment solve (faces p) b.p b.pq).1) (row : Fin 5) (i : Fin (n + 1)) :
    entry (num, col) p.val row i = entry (num, col0) p.val row i := by
  obtain ⟨col0', after, h1, -, h2⟩ := source_entry h
  rw [h0, Option.some.injEq, Prod.mk.injEq] at h1
  obtain ⟨-, rfl⟩ := h1
  obtain ⟨-, reports, h3, -, h4⟩ := h2 p
  have hnil : ∀ rotors : List (Rotor Foil), (∀ r ∈ turned rotors t, ∀ b ∈ r.blades,
      (segment solve (faces p) b.p b.pq).2 ≤ (segment solve (faces p) b.p b.pq).1) →
      getForces solve rotors t (faces p) (P.cells p) = some (turned rotors t, []) := by
    intro rotors
    induction rotors with
    | nil => intro _; rfl
    | cons r rest ih =>
      intro hp
      have hb : ∀ bs : List (Blade Foil), (∀ b ∈ bs,
          (segment solve (faces p) b.p b.pq).2 ≤ (segment solve (faces p) b.p b.pq).1) →
          collect (getForcesBlade solve (faces p) (P.cells p) (Rotor.apply r (.update t))) bs = some [] := by
        intro bs
        induction bs with
        | nil => intro _; rfl
        | cons b bs ih =>
          intro hb
          have : getForcesBlade solve (faces p) (P.cells p) (Rotor.apply r (.update t)) b = some [] :=
            if_pos (hb b List.mem_cons_self)
          simp only [collect, this, ih fun b hm => hb b (List.mem_cons_of_mem _ hm), Option.bind_eq_bind,
            Option.bind_some, List.append_nil]
      have h1 := hb (Rotor.apply r (.update t)).blades (hp _ List.mem_cons_self)
      have h2 := ih fun r' hr' => hp r' (List.mem_cons_of_mem _ hr')
      simp only [getForces, h1, h2, Option.bind_eq_bind, Option.bind_some, List.append_nil]
      rfl
  rw [hnil rotors hp, Option.some.injEq, Prod.mk.injEq] at h3
  obtain ⟨-, rfl⟩ := h3
  obtain ⟨v, g1, g2⟩ := h4 row i
  rw [g1, g2]
  simp [work]

/-! ### A wing through a tetrahedron -/

/-- A wing of span 2 along the first axis, not turning, in a wind along the third. -/
noncomputable def wing : Rotor Foil where
  blades := [⟨[⟨0, 1, 0, ⟨id, fun _ => 1⟩⟩, ⟨2, 1, 0, ⟨id, fun _ => 1⟩⟩], 0, 0, 0, Axes.default, 0, 0⟩]
  frame := ⟨![0, -1, 0], ![1, 0, 0], ![0, 0, 1]⟩
  origin := ![-1, 1 / 4, 1 / 8]
  initial := 0
  azimuth := 0
  omega := 0
  time := 0

noncomputable def windy : Part Vec 5 0 where
  count := 1
  cells _ := ⟨fun _ => ![1, 0, 0, 1, 5], fun _ _ => 1, [], fun _ => 0, fun _ => ![1, 0, 0, 1, 5]⟩
  inter _ := false
  localFaces := []
  ghostFaces := []
  boundary _ := none

/-- The blade after the update. -/
noncomputable def placed : Blade Foil :=
  ⟨[⟨0, 1, 0, ⟨id, fun _ => 1⟩⟩, ⟨2, 1, 0, ⟨id, fun _ => 1⟩⟩], ![-1, 1 / 4, 1 / 8], ![1, 1 / 4, 1 / 8],
    ![1, 1 / 4, 1 / 8] - ![-1, 1 / 4, 1 / 8], ⟨![0, -1, 0], ![1, 0, 0], ![0, 0, 1]⟩, 0, 0⟩

theorem wing_placed : (Rotor.apply wing (.update 1)).blades = [placed] := by
  have hf : (⟨![0, -1, 0], ![1, 0, 0], ![0, 0, 1]⟩ : Axes).rotateZ 0 = ⟨![0, -1, 0], ![1, 0, 0], ![0, 0, 1]⟩ := by
    simp only [Axes.rotateZ, cosSin, deg2rad, zero_div, mul_zero, zero_mul, Real.cos_zero, Real.sin_zero, one_smul,
      zero_smul, add_zero, sub_zero]
  have hp : (2 : ℝ) • (![1, 0, 0] : Vec) + ![-1, 1 / 4, 1 / 8] = ![1, 1 / 4, 1 / 8] := by
    funext k
    fin_cases k <;> simp <;> norm_num
  simp only [Rotor.apply, wing, ne_eq, zero_ne_one, not_false_eq_true, if_true, Rotor.setAzimuth, setBlades,
    Blade.setAzimuth, mul_zero, add_zero, hf, placed, getPoint_zero, getPoint_one, Option.getD_some]
  simp [Blade.span, add_comm, hp]
  norm_num

theorem wing_ready (r : Rotor Foil) (h : r = Rotor.apply wing (.update 1)) (p : Fin 1) :
    Ready (windy.cells p) r placed := by
  refine ⟨by simp [placed], by simp [Increasing, placed], by simp [placed], fun ratio x _ => ⟨?_, Or.inr ?_⟩⟩
  · simp [windy]
  · simp [windy, placed, velocity, sectionVelocity, dotProduct, Fin.sum_univ_three]

theorem wing_segment (hs : Regular solve) : segment solve unitFaces placed.p placed.pq = (1 / 2, 13 / 16) := by
  have h := chord_partial unit_solid hs unit_sides unit_all
    (offPlanes_x (a := -1) (b := 1) (y := 1 / 4) (z := 1 / 8) (by norm_num) (by norm_num) (by norm_num) (by norm_num))
    (offEdges_x (by norm_num) (by norm_num) (by norm_num)) (by rw [unit_at]; norm_num)
    (by rw [unit_at]; norm_num)
  have hc := clip_x (a := -1) (b := 1) (y := 1 / 4) (z := 1 / 8) (by norm_num) (by norm_num)
  have h1 := h.2 (h.1.1 ⟨1 / 2, (hc _).2 (by norm_num)⟩)
  simp only [hc] at h1
  have e : segment solve unitFaces ![-1, 1 / 4, 1 / 8] (![1, 1 / 4, 1 / 8] - ![-1, 1 / 4, 1 / 8]) =
    segment solve unitFaces placed.p placed.pq := rfl
  rw [e] at h1
  generalize segment solve unitFaces placed.p placed.pq = rs at *
  have a1 := (h1 (1 / 2)).1 (by norm_num)
  have a2 := (h1 (13 / 16)).1 (by norm_num)
  have a3 := (h1 rs.1).2 ⟨le_rfl, by linarith⟩
  have a4 := (h1 rs.2).2 ⟨by linarith, le_rfl⟩
  exact Prod.ext (by simp only; linarith) (by simp only; linarith)

example (hs : Regular solve) : ∃ res, withSource solve (some [wing]) windy (fun _ => unitFaces) {} 1 = some res ∧
    ∃ reports, getForces solve [wing] 1 unitFaces (windy.cells (0 : Fin 1)) = some (turned [wing] 1, reports) ∧
      reports.length = 4 ∧ (reports.map fun fxw => fxw.2.2).sum = 5 / 8 := by
  have h0 : ∃ res, generalResidual windy {} 1 = some res :=
    (general_defined windy {} 1 _).2 (by simp [jobs])
  have hr : ∀ r ∈ turned [wing] 1, ∀ b ∈ r.blades, ∀ p, Ready (windy.cells p) r b := by
    intro r hr b hb p
    obtain rfl := List.mem_singleton.1 hr
    rw [wing_placed] at hb
    obtain rfl := List.mem_singleton.1 hb
    exact wing_ready _ rfl p
  obtain ⟨res, h1⟩ := source_defined (solve := solve) (faces := fun _ => unitFaces) h0 hr
  refine ⟨res, h1, ?_⟩
  obtain ⟨reports, h2, h3, h4⟩ := report_length (solve := solve) (faces := unitFaces) (wing_ready _ rfl (0 : Fin 1))
    (by rw [wing_segment hs]; norm_num)
  refine ⟨reports, ?_, h3, ?_⟩
  · simp only [getForces, wing_placed, collect, h2, Option.bind_eq_bind, Option.bind_some, List.append_nil]
    rfl
  · rw [h4, wing_segment hs]
    simp [placed, Blade.span]
    norm_num

end MiniCFD.Source
