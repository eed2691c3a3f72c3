import Verif.Props.Residual
import Verif.Spec.Registration

/-! # C46: registration of boundary conditions -/

namespace MiniCFD.Residual

open MiniCFD.Column MiniCFD.Projection MiniCFD.Spec.Column MiniCFD.Spec.Residual MiniCFD.Spec.Registration

variable {Pt : Type} {K n : Nat}

/-! ### Maps -/

theorem find_assign (m : List (String × Func Pt K)) (name name' : String) (f : Func Pt K) :
    find (assign m name f) name' = if name = name' then some f else find m name' := by
  induction m with
  | nil => simp [assign, find]
  | cons kg rest ih =>
    obtain ⟨k, g⟩ := kg
    simp only [assign]
    by_cases hk : k = name
    · subst hk
      simp only [if_true, find]
      split <;> simp_all
    · rw [if_neg hk]
      simp only [find, ih]
      by_cases hk' : k = name'
      · subst hk'
        simp [Ne.symm hk]
      · simp [hk']

theorem mem_keys_assign (m : List (String × Func Pt K)) (name x : String) (f : Func Pt K) :
    x ∈ (assign m name f).map Prod.fst ↔ x = name ∨ x ∈ m.map Prod.fst := by
  induction m with
  | nil => simp [assign]
  | cons kg rest ih =>
    obtain ⟨k, g⟩ := kg
    simp only [assign]
    by_cases hk : k = name
    · subst hk
      simp
    · simp only [if_neg hk, List.map_cons, List.mem_cons, ih]
      tauto

theorem nodup_assign {m : List (String × Func Pt K)} (h : (m.map Prod.fst).Nodup) (name : String)
    (f : Func Pt K) : ((assign m name f).map Prod.fst).Nodup := by
  induction m with
  | nil => simp [assign]
  | cons kg rest ih =>
    obtain ⟨k, g⟩ := kg
    simp only [List.map_cons, List.nodup_cons] at h
    simp only [assign]
    by_cases hk : k = name
    · subst hk
      simpa using h
    · simp only [if_neg hk, List.map_cons, List.nodup_cons, mem_keys_assign]
      exact ⟨by rintro (rfl | h'); exact hk rfl; exact h.1 h', ih h.2⟩

theorem assign_assign (m : List (String × Func Pt K)) (name : String) (f g : Func Pt K) :
    assign (assign m name f) name g = assign m name g := by
  induction m with
  | nil => simp [assign]
  | cons kg rest ih =>
    obtain ⟨k, h⟩ := kg
    simp only [assign]
    by_cases hk : k = name
    · simp [hk, assign]
    · simp only [if_neg hk, assign, ih]

theorem mem_iff_find {m : List (String × Func Pt K)} (h : (m.map Prod.fst).Nodup) (name : String)
    (f : Func Pt K) : (name, f) ∈ m ↔ find m name = some f := by
  induction m with
  | nil => simp [find]
  | cons kg rest ih =>
    obtain ⟨k, g⟩ := kg
    simp only [List.map_cons, List.nodup_cons] at h
    simp only [List.mem_cons, Prod.mk.injEq, find]
    by_cases hk : k = name
    · subst hk
      simp only [if_true, true_and, Option.some.injEq]
      refine ⟨?_, fun h' => .inl h'.symm⟩
      rintro (h' | h')
      · exact h'.symm
      · exact absurd (List.mem_map_of_mem h') h.1
    · rw [if_neg hk, ← ih h.2]
      simp [Ne.symm hk]

theorem perm_of_find {m m' : List (String × Func Pt K)} (h : (m.map Prod.fst).Nodup)
    (h' : (m'.map Prod.fst).Nodup) (he : ∀ name, find m name = find m' name) : m.Perm m' := by
  refine (List.perm_ext_iff_of_nodup h.of_map h'.of_map).2 fun x => ?_
  obtain ⟨name, f⟩ := x
  rw [mem_iff_find h, mem_iff_find h', he]

/-! ### Histories -/

theorem table_register (c : Conditions Pt K) (x : Call Pt K) (k : Kind) (name : String) :
    find (table (register c x) k) name = (given k name x).or (find (table c k) name) := by
  cases x <;> cases k <;> simp only [register, table, given, find_assign, Option.none_or] <;>
    split <;> simp

theorem table_nodup {c : Conditions Pt K} (h : ∀ k, ((table c k).map Prod.fst).Nodup) (x : Call Pt K)
    (k : Kind) : ((table (register c x) k).map Prod.fst).Nodup := by
  cases x <;> cases k <;> simp only [register, table] <;> first
    | exact nodup_assign (h .supersonicInlet) _ _
    | exact nodup_assign (h .subsonicInlet) _ _
    | exact nodup_assign (h .subsonicOutlet) _ _
    | exact nodup_assign (h .smart) _ _
    | exact h .supersonicInlet
    | exact h .subsonicInlet
    | exact h .subsonicOutlet
    | exact h .smart

/-- **C46.** After every history of registrations each name has, for each kind of condition with a function,
one entry, which is the function registered last. -/
theorem last_wins (calls : List (Call Pt K)) (k : Kind) :
    ((table (registerAll calls) k).map Prod.fst).Nodup ∧
    ∀ name, find (table (registerAll calls) k) name = last k name calls := by
  induction calls using List.reverseRecOn generalizing k with
  | nil => cases k <;> simp [registerAll, table, last, find]
  | append_singleton calls x ih =>
    have hr : registerAll (calls ++ [x]) = register (registerAll calls) x := by
      simp [registerAll]
    rw [hr]
    refine ⟨table_nodup (fun k => (ih k).1) x k, fun name => ?_⟩
    rw [table_register, (ih k).2]
    simp only [last, List.filterMap_append, List.filterMap_cons, List.filterMap_nil]
    cases given k name x <;> simp

/-- Walls and outlets accumulate. -/
theorem walls_accumulate (calls : List (Call Pt K)) :
    (registerAll calls).solidWall = calls.filterMap wall ∧
    (registerAll calls).supersonicOutlet = calls.filterMap outlet := by
  induction calls using List.reverseRecOn with
  | nil => simp [registerAll]
  | append_singleton calls x ih =>
    have hr : registerAll (calls ++ [x]) = register (registerAll calls) x := by
      simp [registerAll]
    rw [hr]
    cases x <;> simp [register, wall, outlet, ih.1, ih.2]

/-! ### Effect on the residual -/

theorem SameList.of_perm (P : Part Pt K n) {a b : List (Contribution ℝ)} (h : a.Perm b) : SameList a b P :=
  fun _ _ _ => (h.map _).sum_eq

theorem collect_perm_same {α : Type*} (P : Part Pt K n) {f : α → Option (List (Contribution ℝ))}
    {l l' : List α} (h : l.Perm l') : Same P (collect f l) (collect f l') := by
  cases h1 : collect f l with
  | some y =>
    obtain ⟨y', h2, h3⟩ := collect_perm h h1
    exact .inr ⟨y, y', rfl, h2, .of_perm P h3⟩
  | none =>
    cases h2 : collect f l' with
    | none => exact .inl ⟨rfl, rfl⟩
    | some y =>
      obtain ⟨y', h3, -⟩ := collect_perm h.symm h2
      rw [h1] at h3
      exact absurd h3 (by simp)

theorem contributions_jobs {S : Scheme Pt K n} {P : Part Pt K n} {c c' : Conditions Pt K} {t : ℝ}
    (h : (jobs c t).Perm (jobs c' t)) (vol : Bool) :
    Same P (contributions S vol P c t) (contributions S vol P c' t) := by
  have h2 : Same P (onBoundaries S P c t) (onBoundaries S P c' t) := collect_perm_same P h
  simp only [contributions, Option.bind_eq_bind]
  cases collect (onLocalFace S P) P.localFaces with
  | none => exact .inl ⟨rfl, rfl⟩
  | some a =>
    rcases h2 with ⟨e1, e2⟩ | ⟨b, b', e1, e2, e3⟩
    · exact .inl ⟨by simp [e1], by simp [e2]⟩
    · cases collect (onGhostFace S P) P.ghostFaces with
      | none => exact .inl ⟨by simp [e1], by simp [e2]⟩
      | some d =>
        exact .inr ⟨(if vol then divergences P else []) ++ a ++ b ++ d,
          (if vol then divergences P else []) ++ a ++ b' ++ d, by simp [e1], by simp [e2],
          ((SameList.append (fun _ _ _ => rfl) e3).append fun _ _ _ => rfl)⟩

/-- The order in which boundaries are visited, in particular the iteration order of an `unordered_map`,
does not matter. -/
theorem residual_perm {S : Scheme Pt K n} {P : Part Pt K n} (hS : S.Local P) {c c' : Conditions Pt K}
    (hw : c.solidWall.Perm c'.solidWall) (ho : c.supersonicOutlet.Perm c'.supersonicOutlet)
    (hf : ∀ k, (table c k).Perm (table c' k)) (vol : Bool) (t : ℝ) :
    residual S vol P c t = residual S vol P c' t := by
  refine residual_same hS hS (contributions_jobs ?_ vol)
  exact ((((((hw.map _).append ((hf .supersonicInlet).map _)).append (ho.map _)).append
    ((hf .subsonicInlet).map _)).append ((hf .subsonicOutlet).map _)).append ((hf .smart).map _))

/-- **C46.** The residual after a history of registrations depends only on the functions registered last for
each kind and name, and on the walls and outlets registered, counted with multiplicity. -/
theorem residual_of_history {S : Scheme Pt K n} {P : Part Pt K n} (hS : S.Local P)
    (calls calls' : List (Call Pt K)) (hf : ∀ k name, last k name calls = last k name calls')
    (hw : (calls.filterMap wall).Perm (calls'.filterMap wall))
    (ho : (calls.filterMap outlet).Perm (calls'.filterMap outlet)) (vol : Bool) (t : ℝ) :
    residual S vol P (registerAll calls) t = residual S vol P (registerAll calls') t := by
  refine residual_perm hS ?_ ?_ (fun k => ?_) vol t
  · rw [(walls_accumulate calls).1, (walls_accumulate calls').1]; exact hw
  · rw [(walls_accumulate calls).2, (walls_accumulate calls').2]; exact ho
  · refine perm_of_find (last_wins calls k).1 (last_wins calls' k).1 fun name => ?_
    rw [(last_wins calls k).2, (last_wins calls' k).2, hf]

/-- **C46.** Registering a function again, or another function under the same name and kind, at any later time
has the effect of registering only the later one: nothing is applied twice. -/
theorem reregister {S : Scheme Pt K n} {P : Part Pt K n} (hS : S.Local P) (before between after : List (Call Pt K))
    (k : Kind) (name : String) (f g : Func Pt K) (vol : Bool) (t : ℝ) :
    residual S vol P (registerAll (before ++ call k name f :: (between ++ call k name g :: after))) t
      = residual S vol P (registerAll (before ++ (between ++ call k name g :: after))) t := by
  refine residual_of_history hS _ _ (fun k' name' => ?_) ?_ ?_ vol t
  · simp only [last, List.filterMap_append, List.filterMap_cons]
    by_cases h : given k' name' (call k name f) = none
    · rw [h]
    · have h' : ∃ y, given k' name' (call k name g) = some y := by
        cases k <;> cases k' <;> simp_all [given, call]
      obtain ⟨x, hx⟩ := Option.ne_none_iff_exists'.1 h
      obtain ⟨y, hy⟩ := h'
      simp only [hx, hy]
      simp [List.getLast?_append, List.getLast?_cons]
  · have : wall (call k name f) = none := by cases k <;> rfl
    simp only [List.filterMap_append, List.filterMap_cons, this]
    exact .refl _
  · have : outlet (call k name f) = none := by cases k <;> rfl
    simp only [List.filterMap_append, List.filterMap_cons, this]
    exact .refl _

/-! ### Walls and outlets -/

theorem contributions_cons {S : Scheme Pt K n} {P : Part Pt K n} {c c' : Conditions Pt K} {t : ℝ}
    {job : String × (FacePoint Pt K → Value K → Value K)} (h : (jobs c' t).Perm (job :: jobs c t)) {vol : Bool}
    {faces : List (BoundaryFace Pt K P.count)} (hf : P.boundary job.1 = some faces)
    {x : List (Contribution ℝ)} (hx : collect (onBoundaryFace S P job.2) faces = some x)
    {cs : List (Contribution ℝ)} (hc : contributions S vol P c t = some cs) :
    ∃ cs', contributions S vol P c' t = some cs' ∧ cs'.Perm (x ++ cs) := by
  simp only [contributions, Option.bind_eq_bind, Option.bind_eq_some_iff, Option.some.injEq] at hc
  obtain ⟨a, ha, b, hb, d, hd, rfl⟩ := hc
  have h1 : collect (fun job => do
      let faces ← P.boundary job.1
      collect (onBoundaryFace S P job.2) faces) (job :: jobs c t) = some (x ++ b) := by
    simp only [collect, Option.bind_eq_bind, hf, Option.bind_some, hx]
    have : collect (fun job => (P.boundary job.1).bind fun faces => collect (onBoundaryFace S P job.2) faces)
      (jobs c t) = some b := hb
    rw [this]
    rfl
  obtain ⟨y, h2, h3⟩ := collect_perm h.symm h1
  refine ⟨(if vol then divergences P else []) ++ a ++ y ++ d, ?_, ?_⟩
  · have : onBoundaries S P c' t = some y := h2
    simp only [contributions, ha, this, hd, Option.bind_eq_bind, Option.bind_some]
  · refine (List.Perm.append_right d (List.Perm.append_left _ h3.symm)).trans ?_
    generalize (if vol then divergences P else []) ++ a = z
    rw [← List.append_assoc, List.append_assoc z x b]
    have : (z ++ (x ++ b)).Perm (x ++ (z ++ b)) := by
      rw [← List.append_assoc, ← List.append_assoc]
      exact List.Perm.append_right b List.perm_append_comm
    refine (List.Perm.append_right d this).trans ?_
    rw [List.append_assoc, List.append_assoc]

/-- The effect of one more wall or outlet, the same each time it is registered. -/
theorem job_additive {S : Scheme Pt K n} {P : Part Pt K n} (hS : S.Local P) {c c' c'' : Conditions Pt K} {t : ℝ}
    {job : String × (FacePoint Pt K → Value K → Value K)} (h : (jobs c' t).Perm (job :: jobs c t))
    (h' : (jobs c'' t).Perm (job :: jobs c' t)) {vol : Bool} {r0 r1 : Numbering × List ℝ}
    (e0 : residual S vol P c t = some r0) (e1 : residual S vol P c' t = some r1) :
    ∃ r2, residual S vol P c'' t = some r2 ∧ ∀ (p : Fin P.count) (r : Fin K) (i : Fin (n + 1)),
      coeffAt r2 p.val r i - coeffAt r1 p.val r i = coeffAt r1 p.val r i - coeffAt r0 p.val r i := by
  obtain ⟨cs, h1, f0⟩ := residual_some hS e0
  obtain ⟨cs1, h2, f1⟩ := residual_some hS e1
  have hb : ∃ faces x, P.boundary job.1 = some faces ∧ collect (onBoundaryFace S P job.2) faces = some x := by
    simp only [contributions, Option.bind_eq_bind, Option.bind_eq_some_iff, Option.some.injEq] at h2
    obtain ⟨a, ha, b, hb, -⟩ := h2
    obtain ⟨y, h3, -⟩ := collect_perm h hb
    simp only [collect, Option.bind_eq_bind, Option.bind_eq_some_iff] at h3
    obtain ⟨x, ⟨faces, g1, g2⟩, -⟩ := h3
    exact ⟨faces, x, g1, g2⟩
  obtain ⟨faces, x, g1, g2⟩ := hb
  obtain ⟨cs1', h3, p1⟩ := contributions_cons h g1 g2 h1
  rw [h2, Option.some.injEq] at h3
  subst h3
  obtain ⟨cs2, h4, p2⟩ := contributions_cons h' g1 g2 h2
  obtain ⟨r2, e2⟩ := residual_total hS h4
  refine ⟨r2, e2, fun p r i => ?_⟩
  obtain ⟨cs2', h5, f2⟩ := residual_some hS e2
  rw [h4, Option.some.injEq] at h5
  subst h5
  simp only [coeffAt, f0, f1, f2, Option.getD_some]
  rw [(p2.map _).sum_eq, (p1.map _).sum_eq]
  simp only [List.map_append, List.sum_append]
  rw [(p1.map _).sum_eq]
  simp only [List.map_append, List.sum_append]
  ring

theorem jobs_wall (c : Conditions Pt K) (name : String) (t : ℝ) :
    (jobs (register c (.solidWall name)) t).Perm ((name, fun q u => q.riemann.solidWall u) :: jobs c t) := by
  simp only [jobs, register, List.map_append, List.map_cons, List.map_nil, List.append_assoc]
  exact List.perm_middle

theorem jobs_outlet (c : Conditions Pt K) (name : String) (t : ℝ) :
    (jobs (register c (.supersonicOutlet name)) t).Perm
      ((name, fun q u => q.riemann.supersonicOutlet u) :: jobs c t) := by
  simp only [jobs, register, List.map_append, List.map_cons, List.map_nil, List.append_assoc]
  refine (List.Perm.append_left _ (List.Perm.append_left _ List.perm_middle)).trans ?_
  refine (List.Perm.append_left _ List.perm_middle).trans ?_
  exact List.perm_middle

/-- **C46, what is missing.**  A wall registered twice is applied twice: the second registration changes the
residual by as much as the first. -/
theorem wall_twice {S : Scheme Pt K n} {P : Part Pt K n} (hS : S.Local P) {c : Conditions Pt K} {t : ℝ}
    (name : String) {vol : Bool} {r0 r1 : Numbering × List ℝ} (e0 : residual S vol P c t = some r0)
    (e1 : residual S vol P (register c (.solidWall name)) t = some r1) :
    ∃ r2, residual S vol P (register (register c (.solidWall name)) (.solidWall name)) t = some r2 ∧
      ∀ (p : Fin P.count) (r : Fin K) (i : Fin (n + 1)),
        coeffAt r2 p.val r i - coeffAt r1 p.val r i = coeffAt r1 p.val r i - coeffAt r0 p.val r i :=
  job_additive hS (jobs_wall c name t) (jobs_wall _ name t) e0 e1

/-- The same for supersonic outlets. -/
theorem outlet_twice {S : Scheme Pt K n} {P : Part Pt K n} (hS : S.Local P) {c : Conditions Pt K} {t : ℝ}
    (name : String) {vol : Bool} {r0 r1 : Numbering × List ℝ} (e0 : residual S vol P c t = some r0)
    (e1 : residual S vol P (register c (.supersonicOutlet name)) t = some r1) :
    ∃ r2, residual S vol P (register (register c (.supersonicOutlet name)) (.supersonicOutlet name)) t
        = some r2 ∧
      ∀ (p : Fin P.count) (r : Fin K) (i : Fin (n + 1)),
        coeffAt r2 p.val r i - coeffAt r1 p.val r i = coeffAt r1 p.val r i - coeffAt r0 p.val r i :=
  job_additive hS (jobs_outlet c name t) (jobs_outlet _ name t) e0 e1

/-- `General` has a residual exactly if every registered name is the name of a boundary. -/
theorem general_defined (P : Part Pt K n) (c : Conditions Pt K) (t : ℝ) (vol : Bool) :
    (∃ res, residual general vol P c t = some res) ↔ ∀ job ∈ jobs c t, P.boundary job.1 ≠ none := by
  constructor
  · rintro ⟨res, h⟩ job hj hn
    obtain ⟨cs, h1, -⟩ := residual_some (general_local P) h
    simp only [contributions, Option.bind_eq_bind, Option.bind_eq_some_iff] at h1
    obtain ⟨a, -, b, hb, -⟩ := h1
    obtain ⟨l1, l2, hl⟩ := List.append_of_mem hj
    unfold onBoundaries at hb
    rw [hl, collect_append] at hb
    simp only [collect, hn, Option.bind_eq_bind, Option.bind_none, Option.map_none] at hb
    cases h5 : collect (fun job => (P.boundary job.1).bind fun faces =>
      collect (onBoundaryFace general P job.2) faces) l1 <;> simp [h5] at hb
  · intro h
    have ha : ∃ a, collect (onLocalFace general P) P.localFaces = some a :=
      collect_total fun f _ => collect_total fun q _ => ⟨_, rfl⟩
    have hg : ∃ a, collect (onGhostFace general P) P.ghostFaces = some a :=
      collect_total fun f _ => collect_total fun q _ => ⟨_, rfl⟩
    have hb : ∃ b, onBoundaries general P c t = some b := by
      refine collect_total fun job hj => ?_
      obtain ⟨faces, hf⟩ := Option.ne_none_iff_exists'.1 (h job hj)
      simp only [hf, Option.bind_eq_bind, Option.bind_some]
      exact collect_total fun f _ => collect_total fun q _ => ⟨_, rfl⟩
    obtain ⟨a, ha⟩ := ha
    obtain ⟨b, hb⟩ := hb
    obtain ⟨g, hg⟩ := hg
    exact residual_total (general_local P) (cs := (if vol then divergences P else []) ++ a ++ b ++ g)
      (by simp only [contributions, ha, hb, hg, Option.bind_eq_bind, Option.bind_some])

/-! ### A witness -/

/-- A solver with a wall flux of 3. -/
def wallSolver : Riemann 1 where
  upwind u _ := u
  solidWall _ := fun _ => 3
  supersonicOutlet u := u
  supersonicInlet u := u
  subsonicInlet _ v := v
  subsonicOutlet _ v := v
  smart _ v := v

/-- One cell of degree zero with one face of area 2 on a wall. -/
noncomputable def wallPart : Part ℝ 1 0 where
  count := 1
  cells _ := ⟨fun _ _ => 7, fun _ _ => 1, [], fun _ => 0, fun _ _ => 7⟩
  inter _ := false
  localFaces := []
  ghostFaces := []
  boundary name := if name = "wall" then some [⟨0, [⟨1, 2, wallSolver⟩]⟩] else none

theorem wallPart_unit : HasUnit wallPart fun _ _ => 1 :=
  ⟨fun _ _ => by simp [wallPart], fun _ v hv => by simp [wallPart] at hv⟩

/-- **C46, negation for walls.**  The second call doubles the wall flux. -/
theorem wall_not_idempotent :
    ∃ r1 r2, generalResidual wallPart (registerAll [.solidWall "wall"]) 0 = some r1 ∧
      generalResidual wallPart (registerAll [.solidWall "wall", .solidWall "wall"]) 0 = some r2 ∧
      integral wallPart (fun _ _ => 1) r1 0 = -6 ∧ integral wallPart (fun _ _ => 1) r2 0 = -12 := by
  have hd : ∀ c : Conditions ℝ 1, (∀ job ∈ jobs c 0, job.1 = "wall") →
      ∃ res, residual general (decide (0 < 0)) wallPart c 0 = some res := fun c hc =>
    (general_defined wallPart c 0 _).2 fun job hj => by simp [wallPart, hc job hj]
  obtain ⟨r1, h1⟩ := hd (registerAll [.solidWall "wall"]) (by simp [registerAll, register, jobs])
  obtain ⟨r2, h2⟩ := hd (registerAll [.solidWall "wall", .solidWall "wall"])
    (by simp [registerAll, register, jobs])
  refine ⟨r1, r2, h1, h2, ?_, ?_⟩
  · rw [part_balance (general_local _) (general_consistent wallPart_unit) h1 (fun h => by simp at h)]
    simp [outflow, registerAll, register, through, wallPart, wallSolver, sides]
    norm_num
  · rw [part_balance (general_local _) (general_consistent wallPart_unit) h2 (fun h => by simp at h)]
    simp [outflow, registerAll, register, through, wallPart, wallSolver, sides]
    norm_num

/-- The function registered last is used, in a history with other calls in between. -/
example (f g : Func ℝ 1) : find (registerAll [.smartBoundary "a" f, .solidWall "w", .smartBoundary "b" f,
    .smartBoundary "a" g]).smart "a" = some g := by
  have := (last_wins [.smartBoundary "a" f, .solidWall "w", .smartBoundary "b" f,
    .smartBoundary "a" g] .smart).2 "a"
  refine this.trans ?_
  simp [last, given, List.filterMap_cons]

end MiniCFD.Residual
