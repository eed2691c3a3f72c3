import Verif.Lemmas.MetisMesh

/-! # C147: meshes and graphs for METIS are values as long as they are moved, and aliases once they are copied -/

namespace MiniCFD.MetisMesh
open MiniCFD.Spec.MetisMesh (Value World Act act acts set fit starts)

variable {h h' : Heap} {w w' : World}

/-- The operations that users may take for operations on values: all but the constructor from `const` vectors and the
generated copies. -/
def lower : Op → Option Act
  | .vector b xs => some (.vector b xs)
  | .write b i x => some (.write b i x)
  | .free b => some (.free b)
  | .default a => some (.default a)
  | .wrap .. => none
  | .adopt a r x n => some (.adopt a r x n)
  | .resize a c n l _ _ => some (.resize a c n l)
  | .copyConstruct .. => none
  | .copyAssign .. => none
  | .moveConstruct d s => some (.moveConstruct d s)
  | .moveAssign d s => some (.moveAssign d s)
  | .destroy a => some (.destroy a)
  | .setRange a i v => some (.setRange a i v)
  | .setNodes a i v => some (.setNodes a i v)

/-- What the allocator guarantees: addresses that are handed out are not in use by anyone else. -/
def Fresh (h : Heap) : Op → Prop
  | .vector b _ => h.arrays b = none
  | .resize a _ _ _ r x => r ≠ x ∧ ∀ c, c = r ∨ c = x → h.arrays c = none ∨ Has (h.meshes a) c
  | _ => True

theorem vector_refines (R : Rel h w) {b : Nat} {xs : List Int} (hf : h.arrays b = none)
    (hw : act w (.vector b xs) = some w') : ∃ h', step h (.vector b xs) = some h' ∧ Rel h' w' := by
  simp only [act] at hw
  split_ifs at hw with hb
  cases hw
  refine ⟨_, alloc_some hf, ?_, fun a => (R.good a).mono fun c hc => ?_, R.sep⟩
  · intro c ys
    show put h.arrays b _ c = _ ↔ set w.vectors b _ c = _
    rw [← put_eq_set]
    by_cases e : c = b
    · subst e; simp
    · rw [put_ne _ _ e, put_ne _ _ e]; exact R.vec c ys
  · obtain ⟨ys, hy⟩ := (R.good a).inside hc
    exact put_ne _ _ fun e => by rw [e, hf] at hy; cases hy

theorem write_refines (R : Rel h w) {b i : Nat} {x : Int} (hw : act w (.write b i x) = some w') :
    ∃ h', step h (.write b i x) = some h' ∧ Rel h' w' := by
  obtain ⟨xs, hx, hw⟩ := Option.bind_eq_some_iff.1 hw
  split_ifs at hw with hi
  cases hw
  have hb := (R.vec b xs).2 hx
  refine ⟨{ h with arrays := put h.arrays b (some ⟨true, xs.set i x⟩) }, by simp [step, save, hb, hi], ?_,
    fun a => (R.good a).mono fun c hc => ?_, R.sep⟩
  · intro c ys
    show put h.arrays b _ c = _ ↔ set w.vectors b _ c = _
    rw [← put_eq_set]
    by_cases e : c = b
    · subst e; simp
    · rw [put_ne _ _ e, put_ne _ _ e]; exact R.vec c ys
  · obtain ⟨ys, hy⟩ := (R.good a).inside hc
    exact put_ne _ _ fun e => by rw [e, hb] at hy; cases hy

theorem free_refines (R : Rel h w) {b : Nat} (hw : act w (.free b) = some w') :
    ∃ h', step h (.free b) = some h' ∧ Rel h' w' := by
  obtain ⟨xs, hx, hw⟩ := Option.map_eq_some_iff.1 hw
  cases hw
  have hb := (R.vec b xs).2 hx
  refine ⟨release h (some b), by simp [step, hb], ?_, fun a => (R.good a).mono fun c hc => ?_, R.sep⟩
  · intro c ys
    show put h.arrays b _ c = _ ↔ set w.vectors b _ c = _
    rw [← put_eq_set]
    by_cases e : c = b
    · subst e; simp
    · rw [put_ne _ _ e, put_ne _ _ e]; exact R.vec c ys
  · obtain ⟨ys, hy⟩ := (R.good a).inside hc
    exact put_ne _ _ fun e => by rw [e, hb] at hy; cases hy

theorem default_refines (R : Rel h w) {a : Nat} (hw : act w (.default a) = some w') :
    ∃ h', step h (.default a) = some h' ∧ Rel h' w' := by
  simp only [act] at hw
  have ga := R.good a
  split at hw
  · rename_i ha
    cases hw
    rw [ha] at ga
    have ga : h.meshes a = none := ga
    refine ⟨place h a (some ⟨none, none, none⟩), by simp [step, ga], R.frame (a := a) R.vec rfl rfl (fun _ _ _ _ => rfl) ?_
      ⟨_, rfl, rfl, rfl⟩⟩
    rintro b ⟨o, e, hb⟩
    cases e
    simp at hb
  · cases hw

theorem adopt_refines (R : Rel h w) {a r x : Nat} {n : Int} (hw : act w (.adopt a r x n) = some w') :
    ∃ h', step h (.adopt a r x n) = some h' ∧ Rel h' w' := by
  simp only [act] at hw
  have ga := R.good a
  split at hw
  · rename_i rs xs ha hr hx
    split_ifs at hw with hc
    cases hw
    rw [ha] at ga
    have ga : h.meshes a = none := ga
    have hr' := (R.vec r rs).2 hr
    have hx' := (R.vec x xs).2 hx
    refine ⟨place { h with arrays := put (put h.arrays r (some ⟨false, rs⟩)) x (some ⟨false, xs⟩) } a
        (some ⟨some r, some x, some (⟨rs.length - 1, r, x⟩, n)⟩), ?_, R.frame (a := a) ?_ rfl rfl ?_ ?_ ?_⟩
    · simp only [step, adopt, hr', hx']
      rw [if_pos ⟨ga, hc.1⟩, if_pos hc.2]
    · intro b ys
      show put (put h.arrays r _) x _ b = _ ↔ set (set w.vectors r none) x none b = _
      rw [← put_eq_set, ← put_eq_set]
      by_cases e : b = x
      · subst e; simp
      · rw [put_ne _ _ e, put_ne _ _ e]
        by_cases e' : b = r
        · subst e'; simp
        · rw [put_ne _ _ e', put_ne _ _ e']; exact R.vec b ys
    · intro a' b _ hb
      obtain ⟨ys, hy⟩ := (R.good a').inside hb
      show put (put h.arrays r _) x _ b = _
      rw [put_ne _ _ (fun e => by rw [e, hx'] at hy; cases hy), put_ne _ _ (fun e => by rw [e, hr'] at hy; cases hy)]
    · rintro b ⟨o, e, hb⟩ a' _ hb'
      cases e
      obtain ⟨ys, hy⟩ := (R.good a').inside hb'
      rcases hb with hb | hb <;> cases hb
      · rw [hr'] at hy; cases hy
      · rw [hx'] at hy; cases hy
    · refine ⟨r, x, hc.1, rfl, ?_, ?_⟩
      · show put (put h.arrays r _) x _ r = _
        rw [put_ne _ _ hc.1, put_same]
      · exact put_same _ _ _
  · cases hw

/-- The live objects of a heap that represents a world. -/
theorem Rel.live (R : Rel h w) {a : Nat} {o : Option Value} (ha : w.meshes a = some o) : ∃ m, h.meshes a = some m ∧
    contents h m.ownRange = some (o.elim [] Value.range) ∧ contents h m.ownIndex = some (o.elim [] Value.nodes) := by
  have g := R.good a
  rw [ha] at g
  match o, g with
  | none, g =>
    obtain ⟨m, e, h1, h2⟩ := g
    exact ⟨m, e, by rw [h1]; rfl, by rw [h2]; rfl⟩
  | some v, g =>
    obtain ⟨r, x, _, e, h1, h2⟩ := g
    exact ⟨_, e, by simp [contents, h1], by simp [contents, h2]⟩

theorem resize_refines (R : Rel h w) {a c l r x : Nat} {n : Int} (hf : Fresh h (.resize a c n l r x))
    (hw : act w (.resize a c n l) = some w') : ∃ h', step h (.resize a c n l r x) = some h' ∧ Rel h' w' := by
  simp only [act] at hw
  split_ifs at hw with hc
  obtain ⟨o, ha, hw⟩ : ∃ o, w.meshes a = some o ∧
      w' = { w with meshes := set w.meshes a (some (some ⟨fit (o.elim [] Value.range) (c + 1), fit (o.elim [] Value.nodes) l, n⟩)) } := by
    split at hw
    · cases hw
    · rename_i ha; cases hw; exact ⟨_, ha, rfl⟩
    · rename_i v ha; cases hw; exact ⟨_, ha, rfl⟩
  obtain ⟨m, hm, h1, h2⟩ := R.live ha
  obtain ⟨hrx, hfree⟩ := hf
  have hgone : ∀ b, b = r ∨ b = x → (release (release h m.ownRange) m.ownIndex).arrays b = none := by
    intro b hb
    rw [release_two]
    split_ifs with hb'
    · rfl
    · rcases hfree b hb with e | ⟨o, e, ho⟩
      · exact e
      · rw [hm] at e; cases e; exact (hb' ho).elim
  have hr := alloc_some (x := ⟨false, resized (o.elim [] Value.range) (c + 1)⟩) (hgone r (.inl rfl))
  let h0 := release (release h m.ownRange) m.ownIndex
  let h1' : Heap := { h0 with arrays := put h0.arrays r (some ⟨false, resized (o.elim [] Value.range) (c + 1)⟩) }
  have hx := alloc_some (h := h1') (b := x) (x := ⟨false, resized (o.elim [] Value.nodes) l⟩)
    (by show put h0.arrays r _ x = none; rw [put_ne _ _ hrx.symm]; exact hgone x (.inr rfl))
  refine ⟨_, by
    simp only [step, resize, if_pos hc, hm, Option.bind_some, h1, h2]
    rw [hr, Option.bind_some]
    erw [hx]
    rfl, ?_⟩
  subst hw
  have harr : ∀ b, b ≠ r → b ≠ x → put (put h0.arrays r (some ⟨false, resized (o.elim [] Value.range) (c + 1)⟩)) x
      (some ⟨false, resized (o.elim [] Value.nodes) l⟩) b = h0.arrays b := by
    intro b e1 e2
    rw [put_ne _ _ e2, put_ne _ _ e1]
  refine R.frame (a := a) (m' := some ⟨some r, some x, some (⟨c, r, x⟩, n)⟩) ?_ ?_ rfl ?_ ?_ ?_
  · intro b ys
    show put (put h0.arrays r _) x _ b = _ ↔ w.vectors b = _
    by_cases e : b = x
    · subst e
      rw [put_same, ← R.vec]
      simp only [Option.some.injEq, Array'.mk.injEq, Bool.false_eq_true, false_and, false_iff]
      rw [← R.released hm, hgone b (.inr rfl)]; simp
    · by_cases e' : b = r
      · subst e'
        rw [put_ne _ _ e, put_same, ← R.vec]
        simp only [Option.some.injEq, Array'.mk.injEq, Bool.false_eq_true, false_and, false_iff]
        rw [← R.released hm, hgone b (.inl rfl)]; simp
      · rw [harr b e' e]
        exact (R.released hm b ys).trans (R.vec b ys)
  · show put (release (release h m.ownRange) m.ownIndex).meshes a _ = _
    rw [release_meshes, release_meshes]
  · intro a' b hne hb
    have hno : ¬ (m.ownRange = some b ∨ m.ownIndex = some b) := fun e => hne (R.sep a' a b hb ⟨m, hm, e⟩)
    have : ∀ c, c = r ∨ c = x → b ≠ c := by
      rintro c hc rfl
      obtain ⟨ys, hy⟩ := (R.good a').inside hb
      rcases hfree b hc with e | e
      · rw [e] at hy; cases hy
      · exact hne (R.sep _ _ _ hb e)
    show put (put h0.arrays r _) x _ b = _
    rw [harr b (this r (.inl rfl)) (this x (.inr rfl))]
    show (release (release h m.ownRange) m.ownIndex).arrays b = _
    rw [release_two, if_neg hno]
  · rintro b ⟨o', e, hb⟩ a' hne hb'
    cases e
    have hb : b = r ∨ b = x := hb.imp (fun e => (Option.some.inj e).symm) fun e => (Option.some.inj e).symm
    obtain ⟨ys, hy⟩ := (R.good a').inside hb'
    rcases hfree b hb with e | e
    · rw [e] at hy; cases hy
    · exact hne (R.sep _ _ _ hb' e)
  · refine ⟨r, x, hrx, by simp, ?_, ?_⟩
    · show put (put h0.arrays r _) x _ r = _
      rw [put_ne _ _ hrx, put_same, resized_eq_fit]
    · show put (put h0.arrays r _) x _ x = _
      rw [put_same, resized_eq_fit]

theorem destroy_refines (R : Rel h w) {a : Nat} (hw : act w (.destroy a) = some w') :
    ∃ h', step h (.destroy a) = some h' ∧ Rel h' w' := by
  obtain ⟨o, ha, hw⟩ := Option.map_eq_some_iff.1 hw
  cases hw
  obtain ⟨m, hm, _, _⟩ := R.live ha
  refine ⟨place (release (release h m.ownRange) m.ownIndex) a none, by simp only [step, hm, Option.map_some],
    R.frame (a := a) (m' := none) ?_ ?_ rfl ?_ ?_ rfl⟩
  · exact fun b xs => (R.released hm b xs).trans (R.vec b xs)
  · show put (release (release h m.ownRange) m.ownIndex).meshes a _ = _
    rw [release_meshes, release_meshes]
  · intro a' b hne hb
    show (release (release h m.ownRange) m.ownIndex).arrays b = _
    rw [release_two, if_neg fun e => hne (R.sep a' a b hb ⟨m, hm, e⟩)]
  · rintro b ⟨o', e, _⟩; cases e

/-- Moving between two different objects, the target owning nothing. -/
theorem move_refines (R : Rel h w) {d s : Nat} (hne : d ≠ s) {m : Mesh} (hm : h.meshes s = some m) {v : Option Value}
    (hv : w.meshes s = some v) (hd : ∀ b, ¬ Has (h.meshes d) b) :
    Rel (move h d s m) { w with meshes := set (set w.meshes s (some none)) d (some v) } := by
  have R1 : Rel (place h s (some { m with ownRange := none, ownIndex := none })) { w with meshes := set w.meshes s (some none) } :=
    R.frame (a := s) R.vec rfl rfl (fun _ _ _ _ => rfl)
      (by rintro b ⟨o, e, hb⟩; cases e; simp at hb) ⟨_, rfl, rfl, rfl⟩
  have g := R.good s
  rw [hm, hv] at g
  refine R1.frame (a := d) (m' := some m) R1.vec rfl rfl (fun _ _ _ _ => rfl) ?_ (g.mono fun _ _ => rfl)
  intro b hb a' ha hb'
  by_cases e : a' = s
  · subst e
    obtain ⟨o, e, hb'⟩ := hb'
    rw [show (place h a' _).meshes a' = _ from put_same _ _ _] at e
    cases e
    simp at hb'
  · rw [show (place h s _).meshes a' = h.meshes a' from put_ne _ _ e] at hb'
    exact e (R.sep _ _ _ hb' (by rw [hm]; exact hb))

theorem moveConstruct_refines (R : Rel h w) {d s : Nat} (hw : act w (.moveConstruct d s) = some w') :
    ∃ h', step h (.moveConstruct d s) = some h' ∧ Rel h' w' := by
  simp only [act] at hw
  split at hw
  · rename_i v hd hs
    cases hw
    have gd := R.good d
    rw [hd] at gd
    have gd : h.meshes d = none := gd
    obtain ⟨m, hm, _, _⟩ := R.live hs
    refine ⟨move h d s m, by simp [step, gd, hm], move_refines R (fun e => by rw [e, hm] at gd; cases gd) hm hs ?_⟩
    rintro b ⟨o, e, _⟩
    rw [gd] at e; cases e
  · cases hw

theorem moveAssign_refines (R : Rel h w) {d s : Nat} (hw : act w (.moveAssign d s) = some w') :
    ∃ h', step h (.moveAssign d s) = some h' ∧ Rel h' w' := by
  simp only [act] at hw
  split at hw
  · rename_i old v hd hs
    split_ifs at hw with hne
    cases hw
    obtain ⟨md, hmd, _, _⟩ := R.live hd
    obtain ⟨m, hm, _, _⟩ := R.live hs
    let h0 := release (release h md.ownRange) md.ownIndex
    have hmesh : h0.meshes = h.meshes := by
      show (release (release h md.ownRange) md.ownIndex).meshes = _
      rw [release_meshes, release_meshes]
    -- the target as if emptied first
    have R1 : Rel (place h0 d (some ⟨none, none, none⟩)) { w with meshes := set w.meshes d (some none) } := by
      refine R.frame (a := d) (m' := some ⟨none, none, none⟩) (fun b xs => (R.released hmd b xs).trans (R.vec b xs)) ?_ rfl ?_ ?_
        ⟨_, rfl, rfl, rfl⟩
      · show put h0.meshes d _ = _
        rw [hmesh]
      · intro a' b ha hb
        show (release (release h md.ownRange) md.ownIndex).arrays b = _
        rw [release_two, if_neg fun e => ha (R.sep a' d b hb ⟨md, hmd, e⟩)]
      · rintro b ⟨o, e, hb⟩; cases e; simp at hb
    have hms : (place h0 d (some ⟨none, none, none⟩)).meshes s = some m := by
      show put h0.meshes d _ s = _
      rw [put_ne _ _ (Ne.symm hne), hmesh, hm]
    have hvs : set w.meshes d (some none) s = some v := by
      rw [← put_eq_set, put_ne _ _ (Ne.symm hne), hs]
    have R2 := move_refines R1 hne hms hvs (by
      rintro b ⟨o, e, hb⟩
      rw [show (place h0 d _).meshes d = _ from put_same _ _ _] at e
      cases e; simp at hb)
    refine ⟨move h0 d s m, by simp only [step, if_neg hne, hmd, hm, Option.bind_some, Option.map_some]; rfl, ?_⟩
    have e1 : move (place h0 d (some ⟨none, none, none⟩)) d s m = move h0 d s m := by
      unfold move place
      congr 1
      funext b
      simp only [put]
      split_ifs <;> rfl
    have e2 : set (set (set w.meshes d (some none)) s (some none)) d (some v) = set (set w.meshes s (some none)) d (some v) := by
      funext b
      simp only [Spec.MetisMesh.set]
      split_ifs <;> rfl
    rw [e1] at R2
    simp only at R2
    rw [e2] at R2
    exact R2
  · cases hw

/-- Writing through the pointers of an object that has a value. -/
theorem setRange_refines (R : Rel h w) {a i : Nat} {x : Int} (hw : act w (.setRange a i x) = some w') :
    ∃ h', step h (.setRange a i x) = some h' ∧ Rel h' w' := by
  obtain ⟨v, ha, hw⟩ := Option.bind_eq_some_iff.1 hw
  split_ifs at hw with hi
  cases hw
  have ha : w.meshes a = some (some v) := by
    unfold World.value at ha
    match hh : w.meshes a with
    | none => rw [hh] at ha; cases ha
    | some o => rw [hh] at ha; exact congrArg some ha
  have g := R.good a
  rw [ha] at g
  obtain ⟨r, y, hne, hm, h1, h2⟩ := g
  refine ⟨{ h with arrays := put h.arrays r (some ⟨false, v.range.set i x⟩) },
    by simp [step, viewOf, hm, save, h1, hi], R.frame (a := a) (m' := h.meshes a) ?_ ?_ rfl ?_ ?_ ?_⟩
  · intro b ys
    show put h.arrays r _ b = _ ↔ w.vectors b = _
    by_cases e : b = r
    · subst e; rw [put_same, ← R.vec, h1]; simp
    · rw [put_ne _ _ e]; exact R.vec b ys
  · funext b
    simp only [put]
    split_ifs with e
    · rw [e]
    · rfl
  · intro a' b hne' hb
    exact put_ne _ _ fun e => hne' (R.sep a' a b hb (by rw [hm, e]; exact ⟨_, rfl, .inl rfl⟩))
  · exact fun b hb a' hne' hb' => hne' (R.sep _ _ _ hb' hb)
  · refine ⟨r, y, hne, ?_, put_same _ _ _, ?_⟩
    · rw [hm]; simp
    · show put h.arrays r _ y = _
      rw [put_ne _ _ hne.symm, h2]

theorem setNodes_refines (R : Rel h w) {a i : Nat} {x : Int} (hw : act w (.setNodes a i x) = some w') :
    ∃ h', step h (.setNodes a i x) = some h' ∧ Rel h' w' := by
  obtain ⟨v, ha, hw⟩ := Option.bind_eq_some_iff.1 hw
  split_ifs at hw with hi
  cases hw
  have ha : w.meshes a = some (some v) := by
    unfold World.value at ha
    match hh : w.meshes a with
    | none => rw [hh] at ha; cases ha
    | some o => rw [hh] at ha; exact congrArg some ha
  have g := R.good a
  rw [ha] at g
  obtain ⟨r, y, hne, hm, h1, h2⟩ := g
  refine ⟨{ h with arrays := put h.arrays y (some ⟨false, v.nodes.set i x⟩) },
    by simp [step, viewOf, hm, save, h2, hi], R.frame (a := a) (m' := h.meshes a) ?_ ?_ rfl ?_ ?_ ?_⟩
  · intro b ys
    show put h.arrays y _ b = _ ↔ w.vectors b = _
    by_cases e : b = y
    · subst e; rw [put_same, ← R.vec, h2]; simp
    · rw [put_ne _ _ e]; exact R.vec b ys
  · funext b
    simp only [put]
    split_ifs with e
    · rw [e]
    · rfl
  · intro a' b hne' hb
    exact put_ne _ _ fun e => hne' (R.sep a' a b hb (by rw [hm, e]; exact ⟨_, rfl, .inr rfl⟩))
  · exact fun b hb a' hne' hb' => hne' (R.sep _ _ _ hb' hb)
  · refine ⟨r, y, hne, ?_, ?_, put_same _ _ _⟩
    · rw [hm]
    · show put h.arrays y _ r = _
      rw [put_ne _ _ hne, h1]

/-- One operation. -/
theorem step_refines (R : Rel h w) {o : Op} {c : Act} (ho : lower o = some c) (hf : Fresh h o) (hw : act w c = some w') :
    ∃ h', step h o = some h' ∧ Rel h' w' := by
  cases o <;> cases ho
  · exact vector_refines R hf hw
  · exact write_refines R hw
  · exact free_refines R hw
  · exact default_refines R hw
  · exact adopt_refines R hw
  · exact resize_refines R hf hw
  · exact moveConstruct_refines R hw
  · exact moveAssign_refines R hw
  · exact destroy_refines R hw
  · exact setRange_refines R hw
  · exact setNodes_refines R hw

/-- The allocator keeps its word during a whole program. -/
def FreshAll : Heap → List Op → Prop
  | _, [] => True
  | h, o :: os => Fresh h o ∧ ∀ h', step h o = some h' → FreshAll h' os

/-- The heap and the world before anything is created. -/
def emptyHeap : Heap := ⟨fun _ => none, fun _ => none⟩
def emptyWorld : World := ⟨fun _ => none, fun _ => none⟩

theorem empty_rel : Rel emptyHeap emptyWorld :=
  ⟨fun _ _ => by simp [emptyHeap, emptyWorld], fun _ => rfl, fun _ _ _ ⟨_, e, _⟩ => by cases e⟩

/-- Whole programs without copies: if the program makes sense for values, the code runs without undefined
behaviour and ends with a heap that represents these values. -/
theorem run_refines (R : Rel h w) {os : List Op} {cs : List Act} (ho : os.mapM lower = some cs) (hf : FreshAll h os)
    (hw : acts w cs = some w') : ∃ h', run h os = some h' ∧ Rel h' w' := by
  induction os generalizing h w cs with
  | nil => cases ho; cases hw; exact ⟨h, rfl, R⟩
  | cons o os ih =>
    rw [List.mapM_cons] at ho
    obtain ⟨c, h1, ho⟩ := Option.bind_eq_some_iff.1 ho
    obtain ⟨cs', h2, ho⟩ := Option.bind_eq_some_iff.1 ho
    cases ho
    obtain ⟨w1, hw1, hw⟩ := Option.bind_eq_some_iff.1 hw
    obtain ⟨k, hk, R1⟩ := step_refines R h1 hf.1 hw1
    obtain ⟨k', hk', R2⟩ := ih R1 h2 (hf.2 k hk) hw
    exact ⟨k', by simp [run, hk, hk'], R2⟩

/-- What all accessors return then. -/
theorem reads_agree (R : Rel h w) {a : Nat} {v : Value} (ha : w.meshes a = some (some v)) (i : Nat) :
    range h a i = v.range[i]? ∧ nodes h a i = v.nodes[i]? ∧ countCells h a = some (v.range.length - 1) ∧
      countNodes h a = some v.count ∧ (v.range ≠ [] → countLocalNodes h a = v.range.getLast?) := by
  have g := R.good a
  rw [ha] at g
  obtain ⟨r, x, hne, hm, h1, h2⟩ := g
  refine ⟨by simp [range, viewOf, hm, load, h1], by simp [nodes, viewOf, hm, load, h2], by simp [countCells, viewOf, hm],
    by simp [countNodes, viewOf, hm], fun _ => ?_⟩
  simp [countLocalNodes, viewOf, hm, load, h1, List.getLast?_eq_getElem?]

/-- From the beginning of a program: the accessors return the values. -/
theorem program_reads {os : List Op} {cs : List Act} (ho : os.mapM lower = some cs) (hf : FreshAll emptyHeap os)
    (hw : acts emptyWorld cs = some w) {a : Nat} {v : Value} (ha : w.meshes a = some (some v)) :
    ∃ h, run emptyHeap os = some h ∧ ∀ i, range h a i = v.range[i]? ∧ nodes h a i = v.nodes[i]? := by
  obtain ⟨h, hr, R⟩ := run_refines empty_rel ho hf hw
  exact ⟨h, hr, fun i => ⟨(reads_agree R ha i).1, (reads_agree R ha i).2.1⟩⟩

/-! ### What the generated copies do -/

/-- A write changes what is read at that place. -/
theorem load_save {b i : Nat} {v : Int} (hs : save h b i v = some h') : load h' b i = some v := by
  obtain ⟨x, hx, hs⟩ := Option.bind_eq_some_iff.1 hs
  split_ifs at hs with hi
  cases hs
  simp [load, hi]

/-- A copy reads the pointers of its source. -/
theorem copy_view {d s r x : Nat} (hc : step h (.copyConstruct d s r x) = some h') : viewOf h' d = viewOf h s ∧
    (d ≠ s → viewOf h' s = viewOf h s) := by
  simp only [step] at hc
  split_ifs at hc with hd
  obtain ⟨m, hm, hc⟩ := Option.bind_eq_some_iff.1 hc
  obtain ⟨rs, _, hc⟩ := Option.bind_eq_some_iff.1 hc
  obtain ⟨xs, _, hc⟩ := Option.bind_eq_some_iff.1 hc
  obtain ⟨⟨k1, o1⟩, hp, hc⟩ := Option.bind_eq_some_iff.1 hc
  obtain ⟨⟨k2, o2⟩, hq, hc⟩ := Option.map_eq_some_iff.1 hc
  have key : ∀ {k k' : Heap} {o o' : Option Nat} {ys : List Int} {b : Nat}, copied k o ys b = some (k', o') → k'.meshes = k.meshes := by
    intro k k' o o' ys b e
    unfold copied at e
    split at e
    · cases e; rfl
    · obtain ⟨k'', e1, e2⟩ := Option.map_eq_some_iff.1 e
      cases e2
      unfold alloc at e1
      split_ifs at e1
      cases e1; rfl
  subst hc
  refine ⟨by simp [viewOf, place, hm], fun hne => ?_⟩
  simp only [viewOf, place]
  rw [put_ne _ _ hne.symm, key hq, key hp]

/-- Writing to a copy writes to its source. -/
theorem copy_aliases {d s r x i : Nat} {v : Int} (hc : step h (.copyConstruct d s r x) = some h') (hne : d ≠ s)
    {h'' : Heap} (hw : step h' (.setNodes d i v) = some h'') : nodes h'' s i = some v := by
  obtain ⟨e1, e2⟩ := copy_view hc
  obtain ⟨g, hg, hw⟩ := Option.bind_eq_some_iff.1 hw
  have hs : viewOf h'' s = some g := by
    have : h''.meshes = h'.meshes := by
      obtain ⟨x, _, hw⟩ := Option.bind_eq_some_iff.1 hw
      split_ifs at hw
      cases hw; rfl
    rw [viewOf, this]
    exact (e2 hne).trans (e1.symm.trans hg)
  rw [nodes, hs]
  exact load_save hw

/-- After the source of a copy is gone, reading the copy is undefined: the copies that the vectors made are never looked at. -/
theorem copy_dangles (R : Rel h w) {d s r x : Nat} {u : Value} (hs : w.meshes s = some (some u))
    (hr : h.arrays r = none) (hx : h.arrays x = none) (hc : step h (.copyConstruct d s r x) = some h') {h'' : Heap}
    (hdes : step h' (.destroy s) = some h'') (i : Nat) : nodes h'' d i = none ∧ range h'' d i = none := by
  have g := R.good s
  rw [hs] at g
  obtain ⟨p, q, hpq, hm, hp, hq⟩ := g
  simp only [step] at hc
  split_ifs at hc with hd
  rw [hm] at hc
  simp only [Option.bind_some, contents, hp, hq, Option.map_some, copy, copied, alloc, hr, if_true] at hc
  obtain ⟨⟨k, o⟩, hq', hc⟩ := Option.map_eq_some_iff.1 hc
  obtain ⟨k', hk', e⟩ := Option.map_eq_some_iff.1 hq'
  cases e
  split_ifs at hk' with hfree
  cases hk'
  subst hc
  have hds : s ≠ d := fun e => by rw [← e, hm] at hd; cases hd
  have hms : (place (⟨put (put h.arrays r (some ⟨false, u.range⟩)) x (some ⟨false, u.nodes⟩), h.meshes⟩ : Heap) d
      (some ⟨some r, some x, some (⟨u.range.length - 1, p, q⟩, u.count)⟩)).meshes s =
      some ⟨some p, some q, some (⟨u.range.length - 1, p, q⟩, u.count)⟩ := by
    show put h.meshes d _ s = _
    rw [put_ne _ _ hds, hm]
  simp only [step, hms, Option.map_some, Option.some.injEq] at hdes
  subst hdes
  have hv : ∀ (k : Heap), viewOf (place (release (release (place k d
      (some ⟨some r, some x, some (⟨u.range.length - 1, p, q⟩, u.count)⟩)) (some p)) (some q)) s none) d =
      some (⟨u.range.length - 1, p, q⟩, u.count) := by
    intro k
    show (put (put k.meshes d _) s none d).bind _ = _
    rw [put_ne _ _ hds.symm, put_same]; rfl
  constructor
  · rw [nodes, hv]
    show (put (put _ p none) q none q).bind _ = _
    rw [put_same]; rfl
  · rw [range, hv]
    show (put (put _ p none) q none p).bind _ = _
    rw [put_ne _ _ hpq, put_same]; rfl

/-- The constructor from `const` vectors: writing to the mesh writes to the vectors. -/
theorem wrap_writes {a r x i : Nat} {n v : Int} (hc : step h (.wrap a r x n) = some h') {h'' : Heap}
    (hw : step h' (.setNodes a i v) = some h'') : load h'' x i = some v := by
  simp only [step, wrap] at hc
  split_ifs at hc with ha
  split at hc
  · split_ifs at hc
    cases hc
    obtain ⟨g, hg, hw⟩ := Option.bind_eq_some_iff.1 hw
    rw [viewOf, show (place h a _).meshes a = _ from put_same _ _ _] at hg
    cases hg
    exact load_save hw
  · cases hc

/-- … and after the vector is gone, reading the mesh is undefined. -/
theorem wrap_dangles {a r x : Nat} {n : Int} (hc : step h (.wrap a r x n) = some h') {h'' : Heap}
    (hw : step h' (.free x) = some h'') (i : Nat) : nodes h'' a i = none := by
  simp only [step, wrap] at hc
  split_ifs at hc with ha
  split at hc
  · split_ifs at hc
    cases hc
    obtain ⟨y, _, hw⟩ := Option.bind_eq_some_iff.1 hw
    split_ifs at hw
    cases hw
    have : ∀ k, viewOf (release (place h a (some ⟨none, none, some (⟨k, r, x⟩, n)⟩)) (some x)) a = some (⟨k, r, x⟩, n) := by
      intro k
      show (put h.meshes a _ a).bind _ = _
      rw [put_same]; rfl
    rw [nodes, this]
    show (put h.arrays x none x).bind _ = _
    rw [put_same]; rfl
  · cases hc

/-! ### Rows -/

theorem starts_get (n : Int) (rows : List (List Int)) (i : Nat) (hi : i ≤ rows.length) :
    (starts n rows)[i]? = some (n + ((rows.take i).flatten.length : Int)) := by
  induction rows generalizing n i with
  | nil =>
    have : i = 0 := by simpa using hi
    subst this; simp [starts]
  | cons row rows ih =>
    cases i with
    | zero => simp [starts]
    | succ i =>
      rw [starts, List.getElem?_cons_succ, ih _ i (by simpa using hi)]
      simp; omega

/-- `neighbors` returns the rows that the arrays were built from. -/
theorem neighbors_rows (rows : List (List Int)) (i : Nat) (hi : i < rows.length) :
    neighbors (starts 0 rows) rows.flatten i = some rows[i] ∧
      countNeighbors (starts 0 rows) i = some (rows[i].length : Int) := by
  have h1 := starts_get 0 rows i (Nat.le_of_lt hi)
  have h2 := starts_get 0 rows (i + 1) hi
  have e : rows.take (i + 1) = rows.take i ++ [rows[i]] := by rw [List.take_succ_eq_append_getElem hi]
  have hl : ((rows.take (i + 1)).flatten.length : Int) = (rows.take i).flatten.length + rows[i].length := by
    rw [e, List.flatten_append, List.length_append]; simp
  have hsplit : rows.flatten = (rows.take i).flatten ++ (rows[i] ++ (rows.drop (i + 1)).flatten) := by
    conv_lhs => rw [← List.take_append_drop i rows, List.drop_eq_getElem_cons hi]
    rw [List.flatten_append, List.flatten_cons]
  constructor
  · unfold neighbors
    rw [h1, h2, Option.bind_some, Option.bind_some, hl]
    rw [if_pos ⟨by omega, by omega, by rw [hsplit]; simp; omega⟩, hsplit]
    congr 1
    rw [show (0 + ((rows.take i).flatten.length : Int)).toNat = (rows.take i).flatten.length by omega, List.drop_left,
      show (0 + (((rows.take i).flatten.length : Int) + rows[i].length) - (0 + ((rows.take i).flatten.length : Int))).toNat =
        rows[i].length by omega, List.take_left]
  · unfold countNeighbors
    rw [h1, h2, Option.bind_some, Option.map_some, hl]
    congr 1; omega

/-- Rows beyond the last one are not there. -/
theorem neighbors_none (rows : List (List Int)) (i : Nat) (hi : rows.length ≤ i) :
    neighbors (starts 0 rows) rows.flatten i = none := by
  have hlen : ∀ (n : Int) (rows : List (List Int)), (starts n rows).length = rows.length + 1 := by
    intro n rows
    induction rows generalizing n with
    | nil => rfl
    | cons row rows ih => simp [starts, ih]
  unfold neighbors
  cases (starts 0 rows)[i]? with
  | none => rfl
  | some y =>
    rw [Option.bind_some, List.getElem?_eq_none (by rw [hlen]; omega)]; rfl

/-! ### Graphs with deleters -/

/-- Each live array belongs to one live graph. -/
structure Sound (h : DualHeap) : Prop where
  live : ∀ a g, h.graphs a = some g → h.arrays g.1 = true ∧ h.arrays g.2 = true ∧ g.1 ≠ g.2
  sep : ∀ a a' g g' b, h.graphs a = some g → h.graphs a' = some g' → (b = g.1 ∨ b = g.2) → (b = g'.1 ∨ b = g'.2) → a = a'
  owned : ∀ b, h.arrays b = true → ∃ a g, h.graphs a = some g ∧ (b = g.1 ∨ b = g.2)

/-- Not a copy. -/
def DualOp.plain : DualOp → Prop
  | .copyConstruct .. => False
  | _ => True

theorem dual_step {h h' : DualHeap} (S : Sound h) {o : DualOp} (hp : o.plain) (hs : dualStep h o = some h') : Sound h' := by
  cases o with
  | create a r x =>
    simp only [dualStep] at hs
    split_ifs at hs with hc
    obtain ⟨ha, hr, hx, hrx⟩ := hc
    cases hs
    have other : ∀ {a' g}, a' ≠ a → put h.graphs a (some (r, x)) a' = some g → h.graphs a' = some g := fun hne e => by
      rwa [put_ne _ _ hne] at e
    have nothers : ∀ {a' g b}, h.graphs a' = some g → (b = g.1 ∨ b = g.2) → b ≠ r ∧ b ≠ x := by
      intro a' g b hg hb
      obtain ⟨l1, l2, _⟩ := S.live _ _ hg
      rcases hb with rfl | rfl
      · exact ⟨fun e => by simp [e, hr] at l1, fun e => by simp [e, hx] at l1⟩
      · exact ⟨fun e => by simp [e, hr] at l2, fun e => by simp [e, hx] at l2⟩
    refine ⟨?_, ?_, ?_⟩
    · intro a' g hg
      by_cases e : a' = a
      · subst e
        replace hg := (put_same h.graphs a' (some (r, x))).symm.trans hg
        cases hg
        simp [hrx]
      · obtain ⟨l1, l2, l3⟩ := S.live _ _ (other e hg)
        simp [l1, l2, l3]
    · intro a1 a2 g1 g2 b h1 h2 b1 b2
      by_cases e1 : a1 = a
      · by_cases e2 : a2 = a
        · rw [e1, e2]
        · subst e1
          replace h1 := (put_same h.graphs a1 (some (r, x))).symm.trans h1
          cases h1
          have := nothers (other e2 h2) b2
          rcases b1 with b1 | b1
          · exact (this.1 b1).elim
          · exact (this.2 b1).elim
      · by_cases e2 : a2 = a
        · subst e2
          replace h2 := (put_same h.graphs a2 (some (r, x))).symm.trans h2
          cases h2
          have := nothers (other e1 h1) b1
          rcases b2 with b2 | b2
          · exact (this.1 b2).elim
          · exact (this.2 b2).elim
        · exact S.sep _ _ _ _ _ (other e1 h1) (other e2 h2) b1 b2
    · intro b hb
      by_cases e : b = r ∨ b = x
      · exact ⟨a, (r, x), put_same _ _ _, e⟩
      · simp only [e, if_false] at hb
        obtain ⟨a', g, hg, hb⟩ := S.owned b hb
        have : a' ≠ a := fun e' => by rw [e', ha] at hg; cases hg
        exact ⟨a', g, by rw [← hg]; exact put_ne _ _ this, hb⟩
  | copyConstruct d s => exact hp.elim
  | destroy a =>
    obtain ⟨g, hg, hs⟩ := Option.bind_eq_some_iff.1 hs
    split_ifs at hs with hc
    cases hs
    have other : ∀ {a' g'}, put h.graphs a none a' = some g' → a' ≠ a ∧ h.graphs a' = some g' := by
      intro a' g' e
      by_cases e' : a' = a
      · subst e'; rw [put_same] at e; cases e
      · exact ⟨e', by rwa [put_ne _ _ e'] at e⟩
    refine ⟨?_, ?_, ?_⟩
    · intro a' g' hg'
      obtain ⟨hne, hg'⟩ := other hg'
      obtain ⟨l1, l2, l3⟩ := S.live _ _ hg'
      have n1 : ¬ (g'.1 = g.1 ∨ g'.1 = g.2) := fun e => hne (S.sep _ _ _ _ _ hg' hg (.inl rfl) e)
      have n2 : ¬ (g'.2 = g.1 ∨ g'.2 = g.2) := fun e => hne (S.sep _ _ _ _ _ hg' hg (.inr rfl) e)
      exact ⟨by simp only [n1, if_false, l1], by simp only [n2, if_false, l2], l3⟩
    · intro a1 a2 g1 g2 b h1 h2
      exact S.sep _ _ _ _ _ (other h1).2 (other h2).2
    · intro b hb
      by_cases e : b = g.1 ∨ b = g.2
      · simp [e] at hb
      · simp only [e, if_false] at hb
        obtain ⟨a', g', hg', hb⟩ := S.owned b hb
        have : a' ≠ a := fun e' => by rw [e', hg] at hg'; cases hg'; exact e hb
        exact ⟨a', g', by rw [← hg']; exact put_ne _ _ this, hb⟩

/-- Without copies each graph can be destroyed at any time, and nothing leaks: arrays are live only as long as a graph has them. -/
theorem dual_sound {os : List DualOp} (hp : ∀ o ∈ os, o.plain) {h : DualHeap}
    (hr : dualRun ⟨fun _ => false, fun _ => none⟩ os = some h) : Sound h ∧
      ∀ a g, h.graphs a = some g → ∃ h', dualStep h (.destroy a) = some h' ∧ h'.arrays g.1 = false ∧ h'.arrays g.2 = false := by
  have key : ∀ (os : List DualOp) (k : DualHeap), (∀ o ∈ os, o.plain) → Sound k → dualRun k os = some h → Sound h := by
    intro os
    induction os with
    | nil => intro k _ S e; cases e; exact S
    | cons o os ih =>
      intro k hp S e
      obtain ⟨k', h1, h2⟩ := Option.bind_eq_some_iff.1 e
      exact ih k' (fun o ho => hp o (List.mem_cons_of_mem _ ho)) (dual_step S (hp o List.mem_cons_self) h1) h2
  have S := key os _ hp ⟨fun _ _ e => (by cases e), fun _ _ _ _ _ e => (by cases e), fun _ e => (by cases e)⟩ hr
  refine ⟨S, fun a g hg => ?_⟩
  obtain ⟨l1, l2, _⟩ := S.live a g hg
  refine ⟨⟨fun b => if b = g.1 ∨ b = g.2 then false else h.arrays b, put h.graphs a none⟩, by simp [dualStep, hg, l1, l2], ?_, ?_⟩ <;> simp

/-- A copied graph: when both are destroyed, in whatever order, the arrays are freed twice. -/
theorem dual_copy {h h1 : DualHeap} {d s : Nat} (hc : dualStep h (.copyConstruct d s) = some h1) :
    dualRun h1 [.destroy s, .destroy d] = none ∧ dualRun h1 [.destroy d, .destroy s] = none := by
  simp only [dualStep] at hc
  split_ifs at hc with hd
  obtain ⟨g, hg, hc⟩ := Option.map_eq_some_iff.1 hc
  subst hc
  have hne : s ≠ d := fun e => by rw [e, hd] at hg; cases hg
  have gd : put h.graphs d (some g) d = some g := put_same _ _ _
  have gs : put h.graphs d (some g) s = some g := by rw [put_ne _ _ hne, hg]
  constructor
  · have : put (put h.graphs d (some g)) s none d = some g := by rw [put_ne _ _ hne.symm, gd]
    simp only [dualRun, dualStep, gs, Option.bind_some]
    split_ifs <;> simp [this]
  · have : put (put h.graphs d (some g)) d none s = some g := by rw [put_ne _ _ hne, gs]
    simp only [dualRun, dualStep, gd, Option.bind_some]
    split_ifs <;> simp [this]

/-! ### Instances -/

/-- A mesh built as in `CgnsToMetis::Map`: two triangles, returned by value (moved), then written to. -/
def demo : List Op :=
  [.vector 1 [0, 3, 6], .vector 2 [0, 1, 2, 1, 3, 2], .adopt 0 1 2 4, .moveConstruct 1 0, .destroy 0, .setNodes 1 5 0]

example : ∃ h, run emptyHeap demo = some h ∧ nodes h 1 4 = some 3 ∧ nodes h 1 5 = some 0 ∧ range h 1 2 = some 6 := by
  have hw : ∃ w, acts emptyWorld [.vector 1 [0, 3, 6], .vector 2 [0, 1, 2, 1, 3, 2], .adopt 0 1 2 4, .moveConstruct 1 0, .destroy 0,
      .setNodes 1 5 0] = some w ∧ w.meshes 1 = some (some ⟨[0, 3, 6], [0, 1, 2, 1, 3, 0], 4⟩) := ⟨_, rfl, rfl⟩
  obtain ⟨w, hw, ha⟩ := hw
  have hf : FreshAll emptyHeap demo := by
    refine ⟨rfl, fun h1 e1 => ?_⟩
    cases e1
    refine ⟨rfl, fun h2 _ => ⟨trivial, fun h3 _ => ⟨trivial, fun h4 _ => ⟨trivial, fun h5 _ => ⟨trivial, fun h6 _ => trivial⟩⟩⟩⟩⟩
  obtain ⟨h, hr, hread⟩ := program_reads (os := demo) rfl hf hw ha
  exact ⟨h, hr, (hread 4).2, (hread 5).2, (hread 2).1⟩

/-- The same mesh, copied: the source changes with the copy, and the copy is unreadable after the source is gone. -/
example : ∃ h, run emptyHeap [.vector 1 [0, 3], .vector 2 [0, 1, 2], .adopt 0 1 2 3, .copyConstruct 1 0 3 4, .setNodes 1 0 7] = some h ∧
    nodes h 0 0 = some 7 ∧ ∃ h', step h (.destroy 0) = some h' ∧ nodes h' 1 0 = none := ⟨_, rfl, rfl, _, rfl, rfl⟩

example : neighbors (starts 0 [[1, 2], [], [0]]) [[1, 2], [], [0]].flatten 1 = some [] := (neighbors_rows [[1, 2], [], [0]] 1 (by decide)).1

example : ∃ h, dualRun ⟨fun _ => false, fun _ => none⟩ [.create 0 1 2, .create 1 3 4, .destroy 0] = some h ∧ h.graphs 1 = some (3, 4) :=
  ⟨_, rfl, rfl⟩

end MiniCFD.MetisMesh
