import Verif.Lemmas.Rotor
import Mathlib.Analysis.Calculus.Deriv.Mul
import Mathlib.Analysis.Calculus.Deriv.Add
import Mathlib.Analysis.SpecialFunctions.Trigonometric.Deriv

/-! C30, C31, C32, C58, C59: rotors, blades, sections and airfoils. -/

namespace MiniCFD.Rotor
open MiniCFD.Frame MiniCFD.Spec.Frame MiniCFD.Spec.Rotor Matrix

variable {A : Type*}

/-! ### C30: configuration of the rotor -/

/-- Full statement wanted: after any history of setters, installations and updates the rotor and its
blades are where the current parameters and the time of the last update put them.  The code caches
placements and skips an update to the stored time, so this holds only when the first update after
the last change of a parameter is not skipped: after *any* history (starting from any memory
content), an update to a time different from the stored one, and then any further updates, everything
is where it should be. Missing: histories in which that update is skipped (see `stale_speed`,
`stale_origin`, `garbage_clock`). -/
theorem placed_after_update_partial (r0 : Rotor A) (ops : List (Op A)) (t : ℝ) (ts : List ℝ)
    (hf : RightHanded (run r0 ops).frame.x (run r0 ops).frame.y (run r0 ops).frame.z)
    (ht : (run r0 ops).time ≠ t) :
    Consistent (run r0 (ops ++ (t :: ts).map Op.update))
      ((run r0 ops).initial + (t :: ts).getLast (by simp) * (run r0 ops).omega) ∧
    SameParams (run r0 ops) (run r0 (ops ++ (t :: ts).map Op.update)) := by
  generalize hr : run r0 ops = r at *
  have e : run r0 (ops ++ (t :: ts).map Op.update) = run (apply r (.update t)) (ts.map Op.update) := by
    rw [← hr]; simp [run]
  rw [e]
  have key : ∀ (ts : List ℝ) (t : ℝ) (r' : Rotor A), SameParams r r' → r'.time = t →
      Consistent r' (r.initial + t * r.omega) →
      Consistent (run r' (ts.map Op.update))
        (r.initial + (t :: ts).getLast (by simp) * r.omega) ∧
      SameParams r (run r' (ts.map Op.update)) := by
    intro ts
    induction ts with
    | nil => intro t r' hp _ hc; exact ⟨hc, hp⟩
    | cons s ts ih =>
      intro t r' hp hti hc
      have hp' := update_params r' s
      have hp2 : SameParams r (apply r' (.update s)) :=
        ⟨hp'.frame.trans hp.frame, hp'.origin.trans hp.origin, hp'.initial.trans hp.initial,
          hp'.omega.trans hp.omega, hp'.blades.trans hp.blades⟩
      have hc' : Consistent (apply r' (.update s)) (r.initial + s * r.omega) := by
        by_cases hs : r'.time ≠ s
        · have := update_consistent r' (by rw [hp.frame]; exact hf) s hs
          rwa [hp.initial, hp.omega] at this
        · have hs' : t = s := by rw [← hti]; exact not_not.1 hs
          subst hs'
          simp only [apply, if_neg hs]
          exact hc
      exact ih s (apply r' (.update s)) hp2 (update_time _ _) hc'
  exact key ts t (apply r (.update t)) (update_params r t) (update_time r t)
    (update_consistent r hf t ht)

/-- History independence under the same restriction: two rotors whose parameters agree report the
same azimuth, and blade by blade the same axes, ends and points, after an update that neither
skips. -/
theorem history_free_partial (r r' : Rotor A) (h : SameParams r r')
    (hf : RightHanded r.frame.x r.frame.y r.frame.z) (t : ℝ) (h1 : r.time ≠ t) (h2 : r'.time ≠ t) :
    (apply r (.update t)).azimuth = (apply r' (.update t)).azimuth ∧
    ∀ (i : ℕ) (b b' : Blade A), (apply r (.update t)).blades[i]? = some b →
      (apply r' (.update t)).blades[i]? = some b' →
      b.azimuth = b'.azimuth ∧ b.frame = b'.frame ∧ b.p = b'.p ∧ b.q = b'.q ∧ b.pq = b'.pq ∧
        ∀ l, b.getPoint r.origin l = b'.getPoint r'.origin l := by
  have c1 := update_consistent r hf t h1
  have c2 := update_consistent r' (by rw [h.frame]; exact hf) t h2
  have p1 := update_params r t
  have p2 := update_params r' t
  rw [h.initial, h.omega] at c2
  refine ⟨c1.1.trans c2.1.symm, fun i b b' hb hb' => ?_⟩
  have hm : (apply r' (.update t)).blades.map (fun b => (b.root, b.stations)) =
      (apply r (.update t)).blades.map (fun b => (b.root, b.stations)) :=
    p2.blades.trans (h.blades.trans p1.blades.symm)
  have hl : (apply r' (.update t)).blades.length = (apply r (.update t)).blades.length := by
    simpa using congrArg List.length hm
  have hi := congrArg (fun l => l[i]?) hm
  simp only [List.getElem?_map, hb, hb', Option.map_some, Option.some.injEq, Prod.mk.injEq] at hi
  obtain ⟨a1, q1⟩ := c1.2 i b hb
  obtain ⟨a2, q2⟩ := c2.2 i b' hb'
  have hspan : b'.span = b.span := by unfold Blade.span; rw [hi.2]
  rw [p2.frame, p2.origin, h.frame, h.origin, hl, hi.1, hspan] at q2
  rw [p1.frame, p1.origin] at q1
  rw [hl] at a2
  have hfr : b.frame = b'.frame := by
    have ex := q1.x.trans q2.x.symm
    have ey := q1.y.trans q2.y.symm
    have ez := q1.z.trans q2.z.symm
    cases hb1 : b.frame; cases hb2 : b'.frame
    rw [hb1, hb2] at ex ey ez
    simp only at ex ey ez
    rw [ex, ey, ez]
  have hP : b.p = b'.p := by rw [q1.inner, q2.inner, hfr]
  have hQ : b.q = b'.q := by rw [q1.outer, q2.outer, hfr]
  refine ⟨a1.trans a2.symm, hfr, hP, hQ, by rw [q1.diff, q2.diff, hP, hQ], fun l => ?_⟩
  unfold Blade.getPoint Blade.origin
  rw [hspan, hfr, hi.1, h.origin]

/-- `SetInitialAzimuth` places everything afresh, whatever happened before: the protocol of the
demos, which call it last. -/
theorem placed_after_initial (r0 : Rotor A) (ops : List (Op A)) (d : ℝ)
    (hf : RightHanded (run r0 ops).frame.x (run r0 ops).frame.y (run r0 ops).frame.z) :
    Consistent (run r0 (ops ++ [.initial d])) d := by
  have e : run r0 (ops ++ [.initial d]) = { run r0 ops with initial := d }.setAzimuth d := by
    simp [run, apply]
  rw [e]
  exact setAzimuth_consistent _ hf d

/-- A rotor in the state left by its constructor, with the given rubbish in the members that it does
not initialise. -/
def fresh (o : Vec) (azimuth omega time : ℝ) : Rotor A :=
  ⟨[], .default, o, 0, azimuth, omega, time⟩

/-- The wanted statement fails for the speed: two histories that end with the same parameters and
the same time report different azimuths. -/
theorem stale_speed : ∃ (r0 : Rotor Unit) (h1 h2 : List (Op Unit)),
    SameParams (run r0 h1) (run r0 h2) ∧ (run r0 h1).time = (run r0 h2).time ∧
      (run r0 h1).azimuth ≠ (run r0 h2).azimuth := by
  refine ⟨fresh 0 0 0 0, [.rps 1, .update 1, .rps 2, .update 1], [.rps 2, .update 1], ?_, ?_, ?_⟩
  · exact ⟨by simp [run, apply, fresh, Rotor.setAzimuth, setBlades],
      by simp [run, apply, fresh, Rotor.setAzimuth, setBlades],
      by simp [run, apply, fresh, Rotor.setAzimuth, setBlades],
      by simp [run, apply, fresh, Rotor.setAzimuth, setBlades],
      by simp [run, apply, fresh, Rotor.setAzimuth, setBlades]⟩
  · simp [run, apply, fresh, Rotor.setAzimuth, setBlades]
  · simp [run, apply, fresh, Rotor.setAzimuth, setBlades]

/-- The wanted statement fails for the origin: moving a placed rotor leaves `P()` behind while
`GetPoint(0)` moves. -/
theorem stale_origin (b : Blade A) (r : Rotor A) (o : Vec) (ho : o ≠ r.origin) (deg : ℝ)
    (hb : r.blades = [b]) :
    ∃ b', (run r [.azimuth deg, .origin o]).blades = [b'] ∧
      b'.getPoint (run r [.azimuth deg, .origin o]).origin 0 ≠ some b'.p := by
  refine ⟨b.setAzimuth r.frame r.origin deg, ?_, ?_⟩
  · simp [run, apply, Rotor.setAzimuth, hb, setBlades]
  · have h1 : (run r [.azimuth deg, .origin o]).origin = o := rfl
    have h2 : (b.setAzimuth r.frame r.origin deg).p =
        r.origin + b.root • (b.setAzimuth r.frame r.origin deg).frame.y := by
      have := getPoint_zero r.origin { b with azimuth := deg, frame := r.frame.rotateZ deg }
      simp only [Blade.setAzimuth, this, Option.getD_some]
    rw [h1, getPoint_zero, h2]
    intro e
    rw [Option.some.injEq] at e
    have h3 : (b.setAzimuth r.frame r.origin deg).root = b.root := rfl
    rw [h3] at e
    exact ho (add_right_cancel e)

/-- The wanted statement fails on the first update: the clock is not initialised, and if its memory
happens to hold the requested time the update does nothing. -/
theorem garbage_clock (t : ℝ) (ht : t ≠ 0) (o : Vec) (az om : ℝ) :
    ∃ time : ℝ, ∃ r : Rotor Unit, r = run (fresh o az om time) [.rps 1, .initial 0, .update t] ∧
      r.time = t ∧ r.azimuth ≠ r.initial + t * r.omega := by
  refine ⟨t, _, rfl, ?_, ?_⟩
  · simp [run, apply, fresh, Rotor.setAzimuth, setBlades]
  · simp [run, apply, fresh, Rotor.setAzimuth, setBlades, ht]

/-- A non-trivial case of `placed_after_update_partial`: three installed blades. -/
example (b : Blade Unit) : Consistent (run (fresh 0 0 0 0) ([.rps 2, .install 1 b, .install 1 b,
    .install 2 b, .initial 30] ++ [(1 / 4 : ℝ), 1 / 2, 1 / 2].map Op.update)) (30 + 1 / 2 * (2 * 360)) := by
  have h := frame_right_handed []
  have := placed_after_update_partial (fresh 0 0 0 0) [.rps 2, .install 1 b, .install 1 b,
    .install 2 b, .initial 30] (1 / 4) [1 / 2, 1 / 2]
    (by simpa [run, MiniCFD.Frame.run, apply, fresh, Rotor.setAzimuth] using h)
    (by simp [run, apply, fresh, Rotor.setAzimuth])
  have e := this.1
  simpa [run, apply, fresh, Rotor.setAzimuth] using e

/-! ### C31: interpolation along a blade -/

/-- Successful installations. -/
noncomputable def installAll (b : Blade A) : List (Station A) → Option (Blade A)
  | [] => some b
  | s :: ss => (b.installSection s).bind fun b => installAll b ss

/-- Whatever stations are installed (the throwing calls aside), their positions start at zero and
increase strictly. -/
theorem stations_increase (b b' : Blade A) (hb : b.stations = []) (ss : List (Station A))
    (h : installAll b ss = some b') :
    b'.stations = ss ∧ Increasing b'.stations ∧ ∀ s ∈ b'.stations.head?, s.y = 0 := by
  have key : ∀ (ss : List (Station A)) (b b' : Blade A), Increasing b.stations →
      (∀ s ∈ b.stations.head?, s.y = 0) → installAll b ss = some b' →
      b'.stations = b.stations ++ ss ∧ Increasing b'.stations ∧
        ∀ s ∈ b'.stations.head?, s.y = 0 := by
    intro ss
    induction ss with
    | nil => intro b b' h1 h2 h; cases h; exact ⟨by simp, h1, h2⟩
    | cons s ss ih =>
      intro b b' h1 h2 h
      simp only [installAll, Option.bind_eq_some_iff] at h
      obtain ⟨c, hc, h⟩ := h
      have hc' : c.stations = b.stations ++ [s] ∧ Increasing c.stations ∧
          ∀ x ∈ c.stations.head?, x.y = 0 := by
        unfold Blade.installSection at hc
        split at hc
        · next hn =>
          have hn := List.getLast?_eq_none_iff.1 hn
          split at hc
          · next hs =>
            cases hc
            exact ⟨by simp [hn], by simp [Increasing], by simpa using hs⟩
          · cases hc
        · next l hl =>
          split at hc
          · cases hc
          · next hs =>
            cases hc
            obtain ⟨pre, hpre⟩ : ∃ pre, b.stations = pre ++ [l] := by
              obtain ⟨ys, h⟩ := List.getLast?_eq_some_iff.1 hl
              exact ⟨ys, h⟩
            refine ⟨rfl, ?_, ?_⟩
            · change Increasing (b.stations ++ [s])
              unfold Increasing at h1 ⊢
              rw [List.map_append, List.pairwise_append]
              refine ⟨h1, by simp, ?_⟩
              intro x hx y hy
              simp only [List.map_cons, List.map_nil, List.mem_singleton] at hy
              subst hy
              have hls : l.y < s.y := not_le.1 hs
              rw [hpre, List.map_append, List.mem_append] at hx
              rcases hx with hx | hx
              · rw [hpre, List.map_append, List.pairwise_append] at h1
                exact (h1.2.2 x hx l.y (by simp)).trans hls
              · simp only [List.map_cons, List.map_nil, List.mem_singleton] at hx
                rw [hx]; exact hls
            · intro x hx
              refine h2 x ?_
              have hne : b.stations ≠ [] := by rw [hpre]; simp
              rw [List.head?_append_of_ne_nil _ hne] at hx
              exact hx
      have := ih c b' hc'.2.1 hc'.2.2 h
      refine ⟨?_, this.2⟩
      rw [this.1, hc'.1]
      simp
  have := key ss b b' (by rw [hb]; simp [Increasing]) (by rw [hb]; simp) h
  rw [hb] at this
  simpa using this

/-- At a station the section is that station's own. -/
theorem section_at_station (b : Blade A) (pre post : List (Station A)) (s : Station A)
    (hb : b.stations = pre ++ s :: post) (hinc : Increasing b.stations) (ratio : ℝ) (h0 : 0 ≤ ratio)
    (h1 : ratio ≤ 1) (hy : ratio * b.span = s.y) :
    b.getSection ratio = some ⟨s.chord, s.twist, s.airfoil, 0, s.airfoil, 1⟩ := by
  rw [Blade.getSection, if_pos ⟨h0, h1⟩, hy, hb]
  rw [hb] at hinc
  exact search_station pre s post none (increasing_split hinc).1

/-- Strictly between two neighbouring stations `r` and `s` the section carries the linear
interpolant *at the mirrored position* `r.y + s.y - y`: the two weights are exchanged. -/
theorem section_between (b : Blade A) (pre post : List (Station A)) (r s : Station A)
    (hb : b.stations = pre ++ r :: s :: post) (hinc : Increasing b.stations) (ratio : ℝ)
    (h0 : 0 ≤ ratio) (h1 : ratio ≤ 1) (hr : r.y < ratio * b.span) (hs : ratio * b.span < s.y) :
    ∃ x, b.getSection ratio = some x ∧
      x.chord = lerp r.y r.chord s.y s.chord (r.y + s.y - ratio * b.span) ∧
      x.twist = lerp r.y r.twist s.y s.twist (r.y + s.y - ratio * b.span) ∧
      x.a0 = r.airfoil ∧ x.a1 = s.airfoil ∧ x.w0 + x.w1 = 1 ∧
      x.w1 = (s.y - ratio * b.span) / (s.y - r.y) := by
  rw [Blade.getSection, if_pos ⟨h0, h1⟩, hb]
  rw [hb] at hinc
  generalize ratio * b.span = y at *
  have hrs : s.y - r.y ≠ 0 := by linarith
  have h2 : search y none (pre ++ r :: s :: post) = between y (some r) s :=
    search_eq y pre r s post none
      (fun x hx => ((increasing_split hinc).1 x hx).trans hr) hr hs.le
  rw [h2, between, if_neg hs.ne']
  refine ⟨_, rfl, ?_, ?_, rfl, rfl, ?_, rfl⟩
  · simp only [lerp]; field_simp; ring
  · simp only [lerp]; field_simp; ring
  · simp

/-- Full statement wanted: chord and twist are the linear interpolants at `y`.  The exchanged
weights leave this true only half-way between two stations and where the neighbours agree.
Missing: every other position (see `section_not_linear`). -/
theorem section_linear_partial (b : Blade A) (pre post : List (Station A)) (r s : Station A)
    (hb : b.stations = pre ++ r :: s :: post) (hinc : Increasing b.stations) (ratio : ℝ)
    (h0 : 0 ≤ ratio) (h1 : ratio ≤ 1) (hr : r.y < ratio * b.span) (hs : ratio * b.span < s.y)
    (h : (r.chord = s.chord ∧ r.twist = s.twist) ∨ ratio * b.span = (r.y + s.y) / 2) :
    ∃ x, b.getSection ratio = some x ∧
      x.chord = lerp r.y r.chord s.y s.chord (ratio * b.span) ∧
      x.twist = lerp r.y r.twist s.y s.twist (ratio * b.span) := by
  obtain ⟨x, hx, hc, ht, -⟩ := section_between b pre post r s hb hinc ratio h0 h1 hr hs
  refine ⟨x, hx, ?_, ?_⟩
  · rw [hc]
    rcases h with ⟨e, -⟩ | e
    · simp [lerp, e]
    · rw [e]; congr 1; ring
  · rw [ht]
    rcases h with ⟨-, e⟩ | e
    · simp [lerp, e]
    · rw [e]; congr 1; ring

/-- Everywhere else the chord is wrong: strictly between two stations with different chords, off
the midpoint, `GetSection` does not return the linear interpolant. -/
theorem section_not_linear (b : Blade A) (pre post : List (Station A)) (r s : Station A)
    (hb : b.stations = pre ++ r :: s :: post) (hinc : Increasing b.stations) (ratio : ℝ)
    (h0 : 0 ≤ ratio) (h1 : ratio ≤ 1) (hr : r.y < ratio * b.span) (hs : ratio * b.span < s.y)
    (hm : ratio * b.span ≠ (r.y + s.y) / 2) (hc : r.chord ≠ s.chord) :
    ∃ x, b.getSection ratio = some x ∧ x.chord ≠ lerp r.y r.chord s.y s.chord (ratio * b.span) := by
  obtain ⟨x, hx, hx', -⟩ := section_between b pre post r s hb hinc ratio h0 h1 hr hs
  refine ⟨x, hx, ?_⟩
  rw [hx']
  unfold lerp
  have hrs : s.y - r.y ≠ 0 := by linarith
  intro e
  field_simp at e
  have e2 : (s.chord - r.chord) * (2 * (ratio * b.span) - (r.y + s.y)) = 0 := by linarith
  rcases mul_eq_zero.1 e2 with h | h
  · exact hc (by linarith)
  · exact hm (by linarith)

/-- Nevertheless chord and twist always lie between the values of the neighbouring stations, and
the two airfoil weights are non-negative and sum to one. -/
theorem section_within (b : Blade A) (pre post : List (Station A)) (r s : Station A)
    (hb : b.stations = pre ++ r :: s :: post) (hinc : Increasing b.stations) (ratio : ℝ)
    (h0 : 0 ≤ ratio) (h1 : ratio ≤ 1) (hr : r.y < ratio * b.span) (hs : ratio * b.span < s.y) :
    ∃ x, b.getSection ratio = some x ∧
      min r.chord s.chord ≤ x.chord ∧ x.chord ≤ max r.chord s.chord ∧
      min r.twist s.twist ≤ x.twist ∧ x.twist ≤ max r.twist s.twist ∧
      0 ≤ x.w0 ∧ 0 ≤ x.w1 ∧ x.w0 + x.w1 = 1 := by
  obtain ⟨x, hx, hc, ht, -, -, hw, hw1⟩ := section_between b pre post r s hb hinc ratio h0 h1 hr hs
  generalize ratio * b.span = y at *
  have hrs : 0 < s.y - r.y := by linarith
  have hl0 : 0 ≤ (s.y - y) / (s.y - r.y) := div_nonneg (by linarith) hrs.le
  have hl1 : (s.y - y) / (s.y - r.y) ≤ 1 := by rw [div_le_one hrs]; linarith
  have conv : ∀ a c : ℝ, min a c ≤ lerp r.y a s.y c (r.y + s.y - y) ∧
      lerp r.y a s.y c (r.y + s.y - y) ≤ max a c := by
    intro a c
    have e : lerp r.y a s.y c (r.y + s.y - y) = a + (c - a) * ((s.y - y) / (s.y - r.y)) := by
      unfold lerp; congr 2; ring
    rw [e]
    generalize (s.y - y) / (s.y - r.y) = l at *
    rcases le_total a c with h | h
    · rw [min_eq_left h, max_eq_right h]; constructor <;> nlinarith
    · rw [min_eq_right h, max_eq_left h]; constructor <;> nlinarith
  refine ⟨x, hx, ?_, ?_, ?_, ?_, ?_, ?_, hw⟩
  · rw [hc]; exact (conv _ _).1
  · rw [hc]; exact (conv _ _).2
  · rw [ht]; exact (conv _ _).1
  · rw [ht]; exact (conv _ _).2
  · rw [hw1] at hw; linarith
  · rw [hw1]; exact hl0

/-- `GetSection` succeeds for every blade that has stations and every ratio in `[0,1]`. -/
theorem section_total (b : Blade A) (hne : b.stations ≠ []) (hinc : Increasing b.stations)
    (hz : ∀ s ∈ b.stations.head?, s.y = 0) (ratio : ℝ) (h0 : 0 ≤ ratio) (h1 : ratio ≤ 1) :
    ∃ x, b.getSection ratio = some x := by
  rw [Blade.getSection, if_pos ⟨h0, h1⟩]
  have hlast : b.stations.getLast? = some (b.stations.getLast hne) := List.getLast?_eq_some_getLast hne
  have hsp : b.span = (b.stations.getLast hne).y := by rw [Blade.span, hlast]
  have hfirst : ∀ s ∈ b.stations, 0 ≤ s.y := by
    cases hb : b.stations with
    | nil => simp
    | cons f rest =>
      rw [hb] at hz hinc
      have hf : f.y = 0 := hz f (by simp)
      intro s hs
      rcases List.mem_cons.1 hs with rfl | hs
      · exact hf.ge
      · have := (increasing_split (pre := []) hinc).2 s hs
        linarith
  have hspan0 : 0 ≤ b.span := by rw [hsp]; exact hfirst _ (List.getLast_mem hne)
  have hy : ratio * b.span ≤ b.span := by nlinarith
  have hy0 : 0 ≤ ratio * b.span := by positivity
  generalize ratio * b.span = y at *
  have key : ∀ (ss : List (Station A)) (prev : Option (Station A)), (∃ s ∈ ss, y ≤ s.y) →
      (prev = none → ∀ s ∈ ss.head?, s.y ≤ y) → ∃ x, search y prev ss = some x := by
    intro ss
    induction ss with
    | nil => rintro prev ⟨s, hs, -⟩ _; simp at hs
    | cons a ss ih =>
      rintro prev ⟨s, hs, hsy⟩ hp
      rw [search]
      by_cases ha : a.y < y
      · rw [if_pos ha]
        refine ih (some a) ⟨s, ?_, hsy⟩ (by simp)
        rcases List.mem_cons.1 hs with rfl | h
        · linarith
        · exact h
      · rw [if_neg ha]
        unfold between
        by_cases he : a.y = y
        · exact ⟨_, by rw [if_pos he]⟩
        · rw [if_neg he]
          cases prev with
          | some r => exact ⟨_, rfl⟩
          | none =>
            have := hp rfl a (by simp)
            exact absurd (le_antisymm this (not_lt.1 ha)) he
  refine key b.stations none ⟨_, List.getLast_mem hne, by rw [← hsp]; exact hy⟩ ?_
  intro _ s hs
  rw [hz s hs]
  exact hy0

/-- A blade with chords 1, 3 at positions 0, 4: at a quarter of the span the chord should be 3/2
but is 5/2. -/
example : ∃ x, (⟨[⟨0, 1, 0, ()⟩, ⟨4, 3, 0, ()⟩], 0, 0, 0, .default, 0, 0⟩ : Blade Unit).getSection
    (1 / 4) = some x ∧ x.chord = 5 / 2 ∧ lerp 0 1 4 3 1 = 3 / 2 := by
  have hspan : (1 / 4 : ℝ) *
      (⟨[⟨0, 1, 0, ()⟩, ⟨4, 3, 0, ()⟩], 0, 0, 0, .default, 0, 0⟩ : Blade Unit).span = 1 := by
    norm_num [Blade.span]
  obtain ⟨x, hx, hc, -⟩ := section_between
    (⟨[⟨0, 1, 0, ()⟩, ⟨4, 3, 0, ()⟩], 0, 0, 0, .default, 0, 0⟩ : Blade Unit) [] [] ⟨0, 1, 0, ()⟩
    ⟨4, 3, 0, ()⟩ rfl (by simp [Increasing]) (1 / 4) (by norm_num) (by norm_num)
    (by rw [hspan]; norm_num) (by rw [hspan]; norm_num)
  refine ⟨x, hx, ?_, by norm_num [lerp]⟩
  rw [hc, hspan]
  norm_num [lerp]

/-! ### C32: airfoil tables -/

/-- Both tables have 181 entries. -/
theorem tables_complete : liftTable.length = 181 ∧ dragTable.length = 181 := by
  constructor
  · rw [liftTable, List.length_map]; rfl
  · rw [dragTable, List.length_map]; rfl

/-- For angles in `[-180, 180]` a lookup in a table of 181 entries succeeds; the entry read is the
one tabulated for the nearest even angle not above. -/
theorem lookup_total (table : List ℝ) (hl : table.length = 181) (deg : ℝ) (h0 : -180 ≤ deg)
    (h1 : deg ≤ 180) : ∃ (k : ℕ) (v : ℝ), tableLookup table deg = some v ∧ table[k]? = some v ∧
      (-180 + 2 * (k : ℝ)) ≤ deg ∧ deg < -180 + 2 * ((k : ℝ) + 1) := by
  have hx0 : 0 ≤ (deg + 180) / 2 := by linarith
  have hx1 : (deg + 180) / 2 ≤ 180 := by linarith
  have hf0 : 0 ≤ ⌊(deg + 180) / 2⌋ := Int.floor_nonneg.2 hx0
  have hf1 : ⌊(deg + 180) / 2⌋ ≤ 180 := by
    have : (⌊(deg + 180) / 2⌋ : ℝ) ≤ 180 := (Int.floor_le _).trans hx1
    exact_mod_cast this
  have hk : ⌊(deg + 180) / 2⌋.toNat < table.length := by omega
  refine ⟨⌊(deg + 180) / 2⌋.toNat, table[⌊(deg + 180) / 2⌋.toNat], ?_, ?_, ?_, ?_⟩
  · simp only [tableLookup]
    rw [if_neg (by linarith), List.getElem?_eq_getElem hk]
  · rw [List.getElem?_eq_getElem hk]
  all_goals
    have hc : ((⌊(deg + 180) / 2⌋.toNat : ℕ) : ℝ) = ⌊(deg + 180) / 2⌋ := by
      have := Int.toNat_of_nonneg hf0
      exact_mod_cast this
    rw [hc]
  · linarith [Int.floor_le ((deg + 180) / 2)]
  · linarith [Int.lt_floor_add_one ((deg + 180) / 2)]

/-- At the tabulated angle `-180 + 2k` the lookup returns the entry `k`. -/
theorem lookup_tabulated (table : List ℝ) (k : ℕ) (hk : k < table.length) :
    tableLookup table (-180 + 2 * (k : ℝ)) = some table[k] := by
  have e : (-180 + 2 * (k : ℝ) + 180) / 2 = (k : ℝ) := by ring
  simp only [tableLookup, e]
  rw [if_neg (by have : (0 : ℝ) ≤ k := by positivity
                 linarith), Int.floor_natCast, Int.toNat_natCast, List.getElem?_eq_getElem hk]

/-- The angle of attack is a direction angle of the inflow plus the twist, up to full turns, and
lies in `[-180, 180]` for every inflow and every twist of at most a full turn. -/
theorem aoa_in_range (twist u w : ℝ) (h : u ≠ 0 ∨ w ≠ 0) (ht : |twist| ≤ 360) :
    ∃ a φ, angleOfAttack twist u w = some a ∧ -180 ≤ a ∧ a ≤ 180 ∧ IsAngle u w φ ∧
      a = φ + twist := by
  obtain ⟨φ, hφ, h0, h1, e⟩ := aoa_core twist u w h
  obtain ⟨t0, t1⟩ := abs_le.1 ht
  by_cases hd : φ + twist < -180 ∨ 180 < φ + twist
  · rw [if_pos hd] at e
    by_cases hn : φ + twist < 0
    · rw [if_pos hn] at e
      refine ⟨_, φ + 360, e, ?_, ?_, ?_, by ring⟩
      · linarith
      · rcases hd with hd | hd <;> linarith
      · simpa using isAngle_add_full 1 hφ
    · rw [if_neg hn] at e
      refine ⟨_, φ - 360, e, ?_, ?_, ?_, by ring⟩
      · rcases hd with hd | hd <;> linarith
      · linarith
      · have := isAngle_add_full (-1) hφ
        simpa [sub_eq_add_neg] using this
  · rw [if_neg hd] at e
    push Not at hd
    exact ⟨_, φ, e, hd.1, hd.2, hφ, rfl⟩

/-- So the SC1095 coefficients are defined for every inflow that is not exactly zero and every twist
of at most a full turn. -/
theorem sc1095_total (twist u w : ℝ) (h : u ≠ 0 ∨ w ≠ 0) (ht : |twist| ≤ 360) :
    ∃ a cl cd, angleOfAttack twist u w = some a ∧ tableLookup liftTable a = some cl ∧
      tableLookup dragTable a = some cd ∧ cl ∈ liftTable ∧ cd ∈ dragTable := by
  obtain ⟨a, -, e, h0, h1, -⟩ := aoa_in_range twist u w h ht
  obtain ⟨k, cl, hl, hk, -⟩ := lookup_total liftTable tables_complete.1 a h0 h1
  obtain ⟨j, cd, hd, hj, -⟩ := lookup_total dragTable tables_complete.2 a h0 h1
  exact ⟨a, cl, cd, e, hl, hd, List.mem_of_getElem? hk, List.mem_of_getElem? hj⟩

/-- Without the bound on the twist the lookup can leave the table: a twist of -600 degrees. -/
theorem sc1095_outside : ∃ a, angleOfAttack (-600) 1 0 = some a ∧ a < -180 ∧
    tableLookup liftTable a = none := by
  refine ⟨-240, ?_, by norm_num, ?_⟩
  · simp only [angleOfAttack]
    norm_num [rad2deg]
  · simp only [tableLookup]
    norm_num

/-- No tabulated drag is negative. -/
theorem drag_nonneg : ∀ v ∈ dragTable, 0 ≤ v := by
  have h : ∀ n ∈ dragScaled, (0 : Int) ≤ n := by decide +kernel
  intro v hv
  obtain ⟨n, hn, rfl⟩ := List.mem_map.1 hv
  have : (0 : ℝ) ≤ (n : ℝ) := by exact_mod_cast h n hn
  positivity

example : |(10 : ℝ)| ≤ 360 ∧ ((-1 : ℝ) ≠ 0 ∨ (2 : ℝ) ≠ 0) := by norm_num

/-! ### C58: section velocity -/

/-- `Section::GetVelocity` is the velocity of the section's origin: for a blade of a rotor turning at
`omega` degrees per second, the time derivative of `GetPoint` of the blade placed at the azimuth
`phase + omega * t`. -/
theorem velocity_is_derivative (b : Blade A) (rf : Axes) (ro : Vec) (phase omega ratio : ℝ)
    (h0 : 0 ≤ ratio) (h1 : ratio ≤ 1) :
    ∃ pos : ℝ → Vec,
      (∀ t, (b.setAzimuth rf ro (phase + t * omega)).getPoint ro ratio = some (pos t)) ∧
      ∀ t, HasDerivAt pos (sectionVelocity omega (b.setAzimuth rf ro (phase + t * omega)) ratio) t := by
  refine ⟨fun t => ro + (b.root + ratio * b.span) • (rf.rotateZ (phase + t * omega)).y,
    fun t => getPoint_in ro (b.setAzimuth rf ro (phase + t * omega)) h0 h1, fun t => ?_⟩
  have ha : HasDerivAt (fun t => deg2rad (phase + t * omega)) (deg2rad omega) t := by
    unfold deg2rad
    have := (((((hasDerivAt_id t).mul_const omega).const_add phase).mul_const Real.pi).div_const 180)
    simpa using this
  have hy : HasDerivAt (fun t => (rf.rotateZ (phase + t * omega)).y)
      (-(deg2rad omega) • (rf.rotateZ (phase + t * omega)).x) t := by
    have hc := ha.cos.smul_const rf.y
    have hs := ha.sin.smul_const rf.x
    refine (hc.sub hs).congr_deriv ?_
    simp only [Axes.rotateZ, cosSin]
    module
  refine ((hy.const_smul (b.root + ratio * b.span)).const_add ro).congr_deriv ?_
  have e : (b.setAzimuth rf ro (phase + t * omega)).frame.x = (rf.rotateZ (phase + t * omega)).x := rfl
  have e2 : (b.setAzimuth rf ro (phase + t * omega)).span = b.span := rfl
  have e3 : (b.setAzimuth rf ro (phase + t * omega)).root = b.root := rfl
  rw [sectionVelocity, e, e2, e3]
  module

/-! ### C59: section force -/

/-- The force that a section exerts on the air, seen in its own plane: it has no component along the
span; against the relative wind it has the drag, across it the lift. -/
theorem force_is_lift_and_drag (omega : ℝ) (f : Axes) (hf : RightHanded f.x f.y f.z)
    (chord twist : ℝ) (lift drag : ℝ → ℝ) (own vel : Vec) (rho : ℝ) (F : Vec)
    (hF : sectionForce omega f chord twist lift drag own rho vel = some F)
    (ht : |twist| ≤ 360) :
    let ux := if omega < 0 then -f.x else f.x
    let u := (vel - own) ⬝ᵥ ux
    let w := (vel - own) ⬝ᵥ f.z
    F ⬝ᵥ f.y = 0 ∧ ∃ a, angleOfAttack twist u w = some a ∧
      F ⬝ᵥ (u • ux + w • f.z) =
        -(1 / 2) * rho * chord * drag a * (Real.sqrt (u ^ 2 + w ^ 2)) ^ 3 ∧
      F ⬝ᵥ (u • f.z - w • ux) =
        -(1 / 2) * rho * chord * lift a * (Real.sqrt (u ^ 2 + w ^ 2)) ^ 3 := by
  intro ux u w
  have huy : ux ⬝ᵥ f.y = 0 := by
    simp only [ux]; split
    · rw [neg_dotProduct, h_xy hf, neg_zero]
    · exact h_xy hf
  have huu : ux ⬝ᵥ ux = 1 := by
    simp only [ux]; split
    · rw [neg_dotProduct, dotProduct_neg, neg_neg]; exact hf.xx
    · exact hf.xx
  have huz : ux ⬝ᵥ f.z = 0 := by
    simp only [ux]; split
    · rw [neg_dotProduct, dotProduct_comm, hf.zx, neg_zero]
    · rw [dotProduct_comm]; exact hf.zx
  have hzu : f.z ⬝ᵥ ux = 0 := by rw [dotProduct_comm]; exact huz
  have hzy : f.z ⬝ᵥ f.y = 0 := by rw [dotProduct_comm]; exact hf.yz
  unfold sectionForce at hF
  obtain ⟨a, ha, rfl⟩ := Option.map_eq_some_iff.1 hF
  change angleOfAttack twist u w = some a at ha
  have hne : u ≠ 0 ∨ w ≠ 0 := by
    by_contra hc
    push Not at hc
    rw [hc.1, hc.2] at ha
    simp [angleOfAttack] at ha
  obtain ⟨a', φ, ha', -, -, hφ, e⟩ := aoa_in_range twist u w hne ht
  rw [ha] at ha'
  cases ha'
  have hd : a - twist = φ := by rw [e]; ring
  have hcos : u = Real.sqrt (u ^ 2 + w ^ 2) * Real.cos (deg2rad φ) := by rw [← angle_eq]; exact hφ.1
  have hsin : w = Real.sqrt (u ^ 2 + w ^ 2) * Real.sin (deg2rad φ) := by rw [← angle_eq]; exact hφ.2
  have hsq : Real.sqrt (u ^ 2 + w ^ 2) ^ 2 = u ^ 2 + w ^ 2 := Real.sq_sqrt (by positivity)
  have hcs := Real.cos_sq_add_sin_sq (deg2rad φ)
  refine ⟨?_, a, ha, ?_, ?_⟩
  · change ((-(1 / 2) * rho * (u * u + w * w) * chord) • (_ • f.z + _ • ux)) ⬝ᵥ f.y = 0
    simp only [smul_dotProduct, add_dotProduct, huy, hzy, smul_eq_mul, mul_zero, add_zero]
  · change ((-(1 / 2) * rho * (u * u + w * w) * chord) • ((lift a * (cosSin (a - twist)).1 +
      drag a * (cosSin (a - twist)).2) • f.z + (drag a * (cosSin (a - twist)).1 -
      lift a * (cosSin (a - twist)).2) • ux)) ⬝ᵥ (u • ux + w • f.z) = _
    rw [hd]
    simp only [smul_dotProduct, add_dotProduct, dotProduct_add, dotProduct_smul, huu, hzu, huz, hf.zz,
      smul_eq_mul, mul_zero, add_zero, zero_add, mul_one, cosSin]
    generalize Real.sqrt (u ^ 2 + w ^ 2) = V at *
    generalize Real.cos (deg2rad φ) = c at *
    generalize Real.sin (deg2rad φ) = s at *
    have e2 : u * u + w * w = V ^ 2 := by rw [hsq]; ring
    rw [e2]
    have e3 : u = V * c := hcos
    have e4 : w = V * s := hsin
    rw [e3, e4]
    linear_combination (-(1 / 2) * rho * chord * drag a * V ^ 3) * hcs
  · change ((-(1 / 2) * rho * (u * u + w * w) * chord) • ((lift a * (cosSin (a - twist)).1 +
      drag a * (cosSin (a - twist)).2) • f.z + (drag a * (cosSin (a - twist)).1 -
      lift a * (cosSin (a - twist)).2) • ux)) ⬝ᵥ (u • f.z - w • ux) = _
    rw [hd]
    simp only [smul_dotProduct, add_dotProduct, dotProduct_sub, dotProduct_smul, huu, hzu, huz, hf.zz,
      smul_eq_mul, mul_zero, add_zero, zero_add, mul_one, cosSin]
    generalize Real.sqrt (u ^ 2 + w ^ 2) = V at *
    generalize Real.cos (deg2rad φ) = c at *
    generalize Real.sin (deg2rad φ) = s at *
    have e2 : u * u + w * w = V ^ 2 := by rw [hsq]; ring
    rw [e2]
    have e3 : u = V * c := hcos
    have e4 : w = V * s := hsin
    rw [e3, e4]
    linear_combination (-(1 / 2) * rho * chord * lift a * V ^ 3) * hcs
where
  h_xy {x y z : Fin 3 → ℝ} (h : RightHanded x y z) : x ⬝ᵥ y = 0 := h.xy

/-- A section whose drag is negative at no angle in `[-180, 180]` takes energy out of the relative motion of the
air. -/
theorem force_dissipates (omega : ℝ) (f : Axes) (hf : RightHanded f.x f.y f.z)
    (chord twist : ℝ) (lift drag : ℝ → ℝ) (own vel : Vec) (rho : ℝ) (F : Vec)
    (hF : sectionForce omega f chord twist lift drag own rho vel = some F)
    (ht : |twist| ≤ 360) (hr : 0 ≤ rho) (hc : 0 ≤ chord) (hd : ∀ a, -180 ≤ a → a ≤ 180 → 0 ≤ drag a) :
    F ⬝ᵥ (vel - own) ≤ 0 := by
  have h := force_is_lift_and_drag omega f hf chord twist lift drag own vel rho F hF ht
  obtain ⟨hy, a, ha, h1, -⟩ := h
  have hd : 0 ≤ drag a := by
    have hne : ∀ u w : ℝ, angleOfAttack twist u w = some a → u ≠ 0 ∨ w ≠ 0 := by
      intro u w h
      by_contra hc
      push Not at hc
      rw [hc.1, hc.2] at h
      simp [angleOfAttack] at h
    obtain ⟨a', -, ha', l0, l1, -⟩ := aoa_in_range twist _ _ (hne _ _ ha) ht
    rw [ha] at ha'
    cases ha'
    exact hd a l0 l1
  set ux := if omega < 0 then -f.x else f.x with hux
  -- the relative velocity splits along the axes
  obtain ⟨c, hc'⟩ : ∃ c : ℝ, F = c • f.z + (F ⬝ᵥ ux) • ux ∧ c = F ⬝ᵥ f.z := by
    have huu : ux ⬝ᵥ ux = 1 := by
      simp only [ux]; split
      · rw [neg_dotProduct, dotProduct_neg, neg_neg]; exact hf.xx
      · exact hf.xx
    have huz : ux ⬝ᵥ f.z = 0 := by
      simp only [ux]; split
      · rw [neg_dotProduct, dotProduct_comm, hf.zx, neg_zero]
      · rw [dotProduct_comm]; exact hf.zx
    have hzu : f.z ⬝ᵥ ux = 0 := by rw [dotProduct_comm]; exact huz
    unfold sectionForce at hF
    obtain ⟨a, ha, rfl⟩ := Option.map_eq_some_iff.1 hF
    refine ⟨_, ?_, rfl⟩
    simp only [← hux, smul_dotProduct, add_dotProduct, huu, hzu, huz, hf.zz, smul_eq_mul, mul_zero,
      add_zero, zero_add, mul_one]
    module
  have e : F ⬝ᵥ (vel - own) =
      F ⬝ᵥ (((vel - own) ⬝ᵥ ux) • ux + ((vel - own) ⬝ᵥ f.z) • f.z) := by
    conv_lhs => rw [hc'.1]
    rw [add_dotProduct, smul_dotProduct, smul_dotProduct, hc'.2, dotProduct_add, dotProduct_smul,
      dotProduct_smul, dotProduct_comm f.z, dotProduct_comm ux]
    simp only [smul_eq_mul]
    ring
  rw [e, h1]
  have : 0 ≤ rho * chord * drag a *
      (Real.sqrt (((vel - own) ⬝ᵥ ux) ^ 2 + ((vel - own) ⬝ᵥ f.z) ^ 2)) ^ 3 := by
    positivity
  linarith

/-- So does a section of either airfoil of the library: a linear one with a drag slope that is not negative, ... -/
theorem linear_dissipates (omega : ℝ) (f : Axes) (hf : RightHanded f.x f.y f.z) (chord twist cl cd : ℝ)
    (own vel : Vec) (rho : ℝ) (F : Vec)
    (hF : sectionForce omega f chord twist (linearLift cl) (linearDrag cd) own rho vel = some F)
    (ht : |twist| ≤ 360) (hr : 0 ≤ rho) (hc : 0 ≤ chord) (hd : 0 ≤ cd) : F ⬝ᵥ (vel - own) ≤ 0 :=
  force_dissipates omega f hf chord twist _ _ own vel rho F hF ht hr hc fun a _ _ => by
    unfold linearDrag
    positivity

/-- ... and an SC1095. -/
theorem sc1095_dissipates (omega : ℝ) (f : Axes) (hf : RightHanded f.x f.y f.z) (chord twist : ℝ)
    (lift drag : ℝ → ℝ) (hdrag : ∀ a v, tableLookup dragTable a = some v → drag a = v)
    (own vel : Vec) (rho : ℝ) (F : Vec) (hF : sectionForce omega f chord twist lift drag own rho vel = some F)
    (ht : |twist| ≤ 360) (hr : 0 ≤ rho) (hc : 0 ≤ chord) : F ⬝ᵥ (vel - own) ≤ 0 :=
  force_dissipates omega f hf chord twist _ _ own vel rho F hF ht hr hc fun a h0 h1 => by
    obtain ⟨k, v, hv, hk, -⟩ := lookup_total dragTable tables_complete.2 a h0 h1
    rw [hdrag a v hv]
    exact drag_nonneg v (List.mem_of_getElem? hk)

/-- A linear airfoil is symmetric: turning the inflow over turns the lift over and leaves the drag. -/
theorem linear_symmetric (c deg : ℝ) :
    linearLift c (-deg) = -linearLift c deg ∧ linearDrag c (-deg) = linearDrag c deg := by
  unfold linearLift linearDrag
  exact ⟨by ring, by rw [abs_neg]⟩

/-- A case in which the force exists: unit inflow along the chord of an untwisted section. -/
example : ∃ F, sectionForce 360 .default 1 0 (linearLift 1) (linearDrag 1) 0 1 ![1, 0, 0] = some F := by
  have e : angleOfAttack 0 ((![1, 0, 0] - (0 : Vec)) ⬝ᵥ
      (if (360 : ℝ) < 0 then -Axes.default.x else Axes.default.x))
      ((![1, 0, 0] - (0 : Vec)) ⬝ᵥ Axes.default.z) = some 0 := by
    rw [if_neg (by norm_num)]
    simp [Axes.default, angleOfAttack, rad2deg]
    norm_num
  unfold sectionForce
  simp only [e, Option.map_some]
  exact ⟨_, rfl⟩

end MiniCFD.Rotor
