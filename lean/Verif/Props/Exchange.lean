import Verif.Lemmas.Exchange
import Verif.Props.Adjacency

/-
C08: whatever the order in which ranks run and messages move, an Update gives every ghost cell
the coefficients its owner had at the matching Share; and the exchange cannot get stuck.
-/
namespace MiniCFD.Exchange
open MiniCFD.Spec.Exchange

variable {α : Type}

/-- After any run in which rank `q` has done `k + 1` Updates, each ghost cell of `q` holds the
coefficients its owner `p` had when `p` did its `(k + 1)`-th Share. -/
theorem ghost_is_snapshot {P : Plan} (hP : GoodPlan P) {s0 s : State α} (h0 : Initial P s0)
    {es : List (Event α)} (he : exec P s0 es = some s) (q p c k : Nat)
    (hc : c ∈ P.recvs q p) (hk : updates q es = k + 1) :
    ∃ f, (shareLog P p s0 es)[k]? = some f ∧ s.ghost q c = f c := by
  have h := inv_exec hP es (inv_init h0) he
  have := h.ghost q p c hc k (by simpa using hk)
  simpa using this

/-- A rank never runs ahead of a neighbour by more than one exchange: when `q` has done `k`
Updates each of its neighbours has done at least `k` Shares, and each rank has done as many
Shares as Updates, or one more. -/
theorem lockstep {P : Plan} (hP : GoodPlan P) {s0 s : State α} (h0 : Initial P s0)
    {es : List (Event α)} (he : exec P s0 es = some s) (q p : Nat) (hc : P.recvs q p ≠ []) :
    updates q es ≤ (shareLog P p s0 es).length ∧
    updates q es ≤ (shareLog P q s0 es).length ∧
    (shareLog P q s0 es).length ≤ updates q es + 1 := by
  have h := inv_exec hP es (inv_init h0) he
  have hq := h.cnt q
  simp only [List.nil_append, Nat.zero_add] at hq
  refine ⟨?_, by omega, ?_⟩
  · obtain ⟨c, hcm⟩ := List.exists_mem_of_ne_nil _ hc
    cases hk : updates q es with
    | zero => omega
    | succ k =>
      obtain ⟨f, h1, _⟩ := ghost_is_snapshot hP h0 he q p c k hcm hk
      have := (List.getElem?_eq_some_iff.1 h1).1
      omega
  · rw [hq]; unfold b2n; split <;> omega

/-- The exchange never touches the coefficients of local cells: at any time they are the
latest ones written. -/
theorem local_untouched {P : Plan} : ∀ (es : List (Event α)) {s0 s : State α},
    exec P s0 es = some s → ∀ r c, s.coef r c = lastWrite r c (s0.coef r c) es := by
  intro es
  induction es with
  | nil => intro s0 s h r c; simp only [exec, Option.some.injEq] at h; subst h; rfl
  | cons e es ih =>
    intro s0 s h r c
    simp only [exec, Option.bind_eq_bind, Option.bind_eq_some_iff] at h
    obtain ⟨s1, h1, h2⟩ := h
    rw [ih h2 r c]
    cases e with
    | write r' c' v =>
      simp only [step] at h1
      split at h1
      · cases h1; simp [lastWrite, upd2]
      · cases h1
    | share r' =>
      simp only [step] at h1
      split at h1
      · cases h1; simp [lastWrite]
      · cases h1
    | update r' =>
      simp only [step] at h1
      split at h1
      · simp only [Option.bind_eq_bind, Option.bind_eq_some_iff, Option.some.injEq] at h1
        obtain ⟨g, _, rfl⟩ := h1; simp [lastWrite]
      · cases h1
    | launch p q =>
      simp only [step] at h1
      split at h1
      · cases h1; simp [lastWrite]
      · cases h1
    | arrive p q =>
      simp only [step] at h1
      split at h1
      · split at h1
        · cases h1
        · cases h1; simp [lastWrite]
      · cases h1

/-- An Update can be carried out as soon as `MPI_Waitall` returns: no assertion on the buffer
lengths fails. -/
theorem update_never_fails {P : Plan} (hP : GoodPlan P) {s0 s : State α} (h0 : Initial P s0)
    {es : List (Event α)} (he : exec P s0 es = some s) (r : Nat) (hr : r < P.nRanks)
    (hw : s.waiting r = true) (hd : allDone P s r = true) : (step P s (.update r)).isSome := by
  have h := inv_exec hP es (inv_init h0) he
  obtain ⟨g, h1, _⟩ := h.unpack_ok hP hd hw
  simp [step, hr, hw, hd, h1]

/-- No deadlock: in every reachable state, with a rank that has done the fewest Updates, that
rank can Share or Update, or a neighbour of it that has done equally few can Share, or a message
to or from that rank can move. -/
theorem no_deadlock {P : Plan} (hP : GoodPlan P) {s0 s : State α} (h0 : Initial P s0)
    {es : List (Event α)} (he : exec P s0 es = some s) (r : Nat) (hr : r < P.nRanks)
    (hmin : ∀ q < P.nRanks, updates r es ≤ updates q es) :
    (step P s (.share r)).isSome ∨ (step P s (.update r)).isSome ∨
    (∃ q, updates q es = updates r es ∧ (step P s (.share q)).isSome) ∨
    (∃ q, (step P s (.launch r q)).isSome ∨ (step P s (.launch q r)).isSome ∨
      (step P s (.arrive q r)).isSome) := by
  have h := inv_exec hP es (inv_init h0) he
  by_cases hw : s.waiting r = true
  · by_cases hd : allDone P s r = true
    · exact Or.inr (Or.inl (update_never_fails hP h0 he r hr hw hd))
    · right; right
      obtain ⟨q, hq, hpend⟩ : ∃ q, q < P.nRanks ∧
          (s.sendPend r q = true ∨ s.recvPend r q = true) := by
        by_contra hcon
        push Not at hcon
        apply hd
        unfold allDone
        rw [List.all_eq_true]
        intro q hq
        have := hcon q (by simpa using hq)
        simpa using this
      rcases hpend with hsp | hrp
      · exact Or.inr ⟨q, Or.inl (by simp [step, hsp])⟩
      · have hne : P.sends q r ≠ [] := by rw [hP.same]; exact (h.recvWait r q hrp).2
        obtain ⟨L, A, h1⟩ := h.pair q r hne
        have ha := h1.arrived
        rw [hrp] at ha
        simp only [b2n, if_true, List.nil_append] at ha
        have hcr := h.cnt r
        rw [hw] at hcr
        simp only [b2n, if_true, List.nil_append, Nat.zero_add] at hcr
        have hcq := h.cnt q
        simp only [List.nil_append, Nat.zero_add] at hcq
        have hmq := hmin q hq
        by_cases hch : s.chan q r = []
        · have hf := h1.flight
          rw [hch] at hf
          have hl := h1.launched
          simp only [List.nil_append] at hl
          by_cases hsp : s.sendPend q r = true
          · exact Or.inr ⟨q, Or.inr (Or.inl (by simp [step, hsp]))⟩
          · left
            have hsp' : s.sendPend q r = false := by simpa using hsp
            rw [hsp'] at hl
            simp only [b2n, List.length_nil] at hl hf
            have hwq : s.waiting q = false := by
              by_contra hcon
              have : s.waiting q = true := by simpa using hcon
              rw [this] at hcq
              simp [b2n] at hcq hl hf
              omega
            refine ⟨q, ?_, by simp [step, hq, hwq]⟩
            rw [hwq] at hcq
            simp [b2n] at hcq hl hf
            omega
        · refine Or.inr ⟨q, Or.inr (Or.inr ?_)⟩
          cases hc : s.chan q r with
          | nil => exact absurd hc hch
          | cons m ms => simp [step, hrp, hc]
  · exact Or.inl (by simp [step, hr, show s.waiting r = false by simpa using hw])

/-- The plan the ranks build from the partition files. -/
def planOf (inp : MiniCFD.Adjacency.Input) (o : MiniCFD.Adjacency.Out) (width : Nat) : Plan where
  nRanks := inp.nParts
  width := width
  sends := MiniCFD.Adjacency.sendCells o
  recvs := MiniCFD.Adjacency.recvCells o

/-- The plan built from the partition files is good. -/
theorem planOf_good {inp : MiniCFD.Adjacency.Input} (hv : MiniCFD.Spec.Adjacency.Valid inp)
    (hs : MiniCFD.Spec.Adjacency.Symmetric inp) (width : Nat) :
    ∃ o, MiniCFD.Adjacency.run inp = some o ∧ GoodPlan (planOf inp o width) := by
  obtain ⟨o, h1, h2⟩ := MiniCFD.Adjacency.cellLists_agree hv hs
  have hmem : ∀ q p c, c ∈ MiniCFD.Adjacency.recvCells o q p ↔
      MiniCFD.Spec.Adjacency.Border inp p q c := by
    intro q p c; rw [← (h2 p q).1]; exact (h2 p q).2.2 c
  refine ⟨o, h1, ⟨fun p q => (h2 p q).1, ?_, ?_⟩⟩
  · intro q p p' c h3 h4
    have h5 := ((hmem q p c).1 h3).1
    have h6 := ((hmem q p' c).1 h4).1
    unfold MiniCFD.Spec.Adjacency.InPart at h5 h6
    rw [h5] at h6; exact Option.some.inj h6
  · intro p q hne
    obtain ⟨c, hc⟩ := List.exists_mem_of_ne_nil _ hne
    obtain ⟨h5, _, j, h6, _⟩ := (hmem q p c).1 hc
    exact ⟨hv.parts p (List.mem_of_getElem? h5), hv.parts q (List.mem_of_getElem? h6)⟩

/-- Two ranks with one cell each; both write between Share and Update, rank 0 shares again
before rank 1 has received its first message. -/
def demoPlan : Plan where
  nRanks := 2
  width := 1
  sends := fun p q => if p = 0 ∧ q = 1 then [10] else if p = 1 ∧ q = 0 then [20] else []
  recvs := fun q p => if p = 0 ∧ q = 1 then [10] else if p = 1 ∧ q = 0 then [20] else []

theorem demoPlan_good : GoodPlan demoPlan := by
  refine ⟨?_, ?_, ?_⟩
  · intro p q; rfl
  · intro q p p' c h1 h2
    simp only [demoPlan] at h1 h2
    split at h1 <;> split at h2 <;> (try split at h1) <;> (try split at h2) <;> simp_all
  · intro p q h
    simp only [demoPlan] at h ⊢
    split at h
    · omega
    · split at h
      · omega
      · simp at h

def demoInit : State Nat where
  coef := fun r _ => [r]
  ghost := fun _ _ => []
  sendBuf := fun _ _ => []
  recvBuf := fun _ _ => []
  sendPend := fun _ _ => false
  recvPend := fun _ _ => false
  chan := fun _ _ => []
  waiting := fun _ => false

example : Initial demoPlan demoInit :=
  ⟨fun _ _ => rfl, fun _ _ => rfl, fun _ _ => rfl, fun _ _ => rfl, fun _ => rfl⟩

example : (exec demoPlan demoInit [.share 0, .write 0 10 [5], .share 1, .launch 1 0, .arrive 1 0,
    .launch 0 1, .update 0, .share 0, .launch 0 1, .arrive 0 1, .write 1 20 [7], .update 1]).map
      (fun s => [s.ghost 0 20, s.ghost 1 10]) = some [[1], [0]] := by decide

end MiniCFD.Exchange
