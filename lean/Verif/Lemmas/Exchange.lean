import Verif.Spec.Exchange
import Mathlib.Tactic.Common

namespace MiniCFD.Exchange
open MiniCFD.Spec.Exchange

variable {α : Type}

/-! ### packing -/

theorem unpack_pack {K : Nat} (f : Nat → List α) (cs : List Nat) (hf : ∀ c, (f c).length = K)
    (g : Nat → List α) : ∃ g', unpack K cs (pack f cs) g = some g' ∧
      ∀ c, g' c = if c ∈ cs then f c else g c := by
  induction cs generalizing g with
  | nil => exact ⟨g, rfl, by simp⟩
  | cons c cs ih =>
    obtain ⟨g', h1, h2⟩ := ih (upd1 g c (f c))
    refine ⟨g', ?_, fun d => ?_⟩
    · have hl : (f c).length = K := hf c
      simp only [pack, List.flatMap_cons, unpack]
      rw [if_pos (by simp [hl]), ← hl, List.drop_left, List.take_left, hl]
      exact h1
    · rw [h2 d]
      by_cases hd : d ∈ cs
      · simp [hd]
      · by_cases hdc : d = c
        · subst hdc; simp [hd, upd1]
        · simp [hd, hdc, upd1]

theorem unpackAll_spec {P : Plan} (hP : GoodPlan P) {bufs : Nat → List α} {r : Nat}
    (src : Nat → Nat → List α) (hw : ∀ q c, (src q c).length = P.width)
    (qs : List Nat) (hb : ∀ q ∈ qs, P.recvs r q ≠ [] → bufs q = pack (src q) (P.recvs r q))
    (g : Nat → List α) :
    ∃ g', unpackAll P bufs r qs g = some g' ∧
      (∀ q ∈ qs, ∀ c ∈ P.recvs r q, g' c = src q c) ∧
      (∀ c, (∀ q ∈ qs, c ∉ P.recvs r q) → g' c = g c) := by
  induction qs generalizing g with
  | nil => exact ⟨g, rfl, by simp, by simp⟩
  | cons q qs ih =>
    obtain ⟨g1, h1, h2⟩ : ∃ g1, (if (P.recvs r q).isEmpty then some g
        else unpack P.width (P.recvs r q) (bufs q) g) = some g1 ∧
        ∀ c, g1 c = if c ∈ P.recvs r q then src q c else g c := by
      by_cases he : P.recvs r q = []
      · exact ⟨g, by simp [he], by simp [he]⟩
      · obtain ⟨g1, h1, h2⟩ := unpack_pack (src q) (P.recvs r q) (hw q) g
        refine ⟨g1, ?_, h2⟩
        rw [if_neg (by simpa using he), hb q (by simp) he, h1]
    obtain ⟨g2, h3, h4, h5⟩ := ih (fun q' hq' => hb q' (by simp [hq'])) g1
    refine ⟨g2, ?_, ?_, ?_⟩
    · simp only [unpackAll, Option.bind_eq_bind]
      by_cases he : (P.recvs r q).isEmpty = true
      · rw [if_pos he] at h1 ⊢; rw [h1]; exact h3
      · rw [if_neg he] at h1 ⊢; rw [h1]; exact h3
    · intro q' hq' c hc
      by_cases hin : q' ∈ qs
      · exact h4 q' hin c hc
      · have : q' = q := by
          rcases List.mem_cons.1 hq' with h | h
          · exact h
          · exact absurd h hin
        subst this
        rw [h5 c (fun q'' hq'' hc' => hin (hP.single r q' q'' c hc hc' ▸ hq'')), h2 c, if_pos hc]
    · intro c hc
      rw [h5 c (fun q' hq' => hc q' (by simp [hq'])), h2 c, if_neg (hc q (by simp))]

/-! ### one channel -/

def b2n (b : Bool) : Nat := if b then 1 else 0

/-- State of the channel from `p` to `q`: `lp` is the log of `p`, `nq` the number of Shares of
`q`, `A` the number of messages received, `L` the number launched. -/
structure PairInv (cells : List Nat) (lp : List (Nat → List α)) (nq : Nat) (sp rp : Bool)
    (ch : List (List α)) (sb rb : List α) (L A : Nat) : Prop where
  launched : L + b2n sp = lp.length
  arrived : A + b2n rp = nq
  flight : A + ch.length = L
  chan : ∀ (i : Nat) m, ch[i]? = some m → ∃ f, lp[A + i]? = some f ∧ m = pack f cells
  sbuf : sp = true → ∃ f, lp[L]? = some f ∧ sb = pack f cells
  rbuf : ∀ k, A = k + 1 → ∃ f, lp[k]? = some f ∧ rb = pack f cells

theorem get_append {β : Type} {l l' : List β} {i : Nat} {x : β} (h : l[i]? = some x) :
    (l ++ l')[i]? = some x := by
  rw [List.getElem?_append_left (List.getElem?_eq_some_iff.1 h).1]; exact h

/-- The sender shares. -/
theorem PairInv.share_send {cells : List Nat} {lp : List (Nat → List α)} {nq : Nat} {rp : Bool}
    {ch : List (List α)} {sb rb : List α} {L A : Nat}
    (h : PairInv cells lp nq false rp ch sb rb L A) (f : Nat → List α) :
    PairInv cells (lp ++ [f]) nq true rp ch (pack f cells) rb L A := by
  have hL : L = lp.length := by have := h.launched; simpa [b2n] using this
  refine ⟨by simp [b2n, hL], h.arrived, h.flight, ?_, ?_, ?_⟩
  · intro i m hm
    obtain ⟨f', h1, h2⟩ := h.chan i m hm
    exact ⟨f', get_append h1, h2⟩
  · intro _; exact ⟨f, by simp [hL], rfl⟩
  · intro k hk
    obtain ⟨f', h1, h2⟩ := h.rbuf k hk
    exact ⟨f', get_append h1, h2⟩

/-- The receiver shares. -/
theorem PairInv.share_recv {cells : List Nat} {lp : List (Nat → List α)} {nq : Nat} {sp : Bool}
    {ch : List (List α)} {sb rb : List α} {L A : Nat}
    (h : PairInv cells lp nq sp false ch sb rb L A) :
    PairInv cells lp (nq + 1) sp true ch sb rb L A :=
  ⟨h.launched, by have := h.arrived; simp [b2n] at this ⊢; omega, h.flight, h.chan, h.sbuf, h.rbuf⟩

theorem PairInv.launch {cells : List Nat} {lp : List (Nat → List α)} {nq : Nat} {rp : Bool}
    {ch : List (List α)} {sb rb : List α} {L A : Nat}
    (h : PairInv cells lp nq true rp ch sb rb L A) :
    PairInv cells lp nq false rp (ch ++ [sb]) sb rb (L + 1) A := by
  refine ⟨by have := h.launched; simp [b2n] at this ⊢; omega, h.arrived,
    by have := h.flight; simp; omega, ?_, by simp, h.rbuf⟩
  intro i m hm
  by_cases hi : i < ch.length
  · rw [List.getElem?_append_left hi] at hm
    exact h.chan i m hm
  · have hi2 : i = ch.length := by
      have := (List.getElem?_eq_some_iff.1 hm).1
      simp at this; omega
    subst hi2
    simp at hm; subst hm
    rw [h.flight]; exact h.sbuf rfl

theorem PairInv.arrive {cells : List Nat} {lp : List (Nat → List α)} {nq : Nat} {sp : Bool}
    {m : List α} {ch : List (List α)} {sb rb : List α} {L A : Nat}
    (h : PairInv cells lp nq sp true (m :: ch) sb rb L A) :
    PairInv cells lp nq sp false ch sb m L (A + 1) := by
  refine ⟨h.launched, by have := h.arrived; simp [b2n] at this ⊢; omega,
    by have := h.flight; simp at this; omega, ?_, h.sbuf, ?_⟩
  · intro i m' hm'
    have := h.chan (i + 1) m' (by simpa using hm')
    rwa [show A + (i + 1) = A + 1 + i by omega] at this
  · intro k hk
    have hk' : A = k := by omega
    have := h.chan 0 m rfl
    rw [Nat.add_zero] at this
    rwa [← hk']

/-! ### all ranks -/

structure Inv (P : Plan) (s : State α) (log : Nat → List (Nat → List α)) (up : Nat → Nat) :
    Prop where
  coefW : ∀ r c, (s.coef r c).length = P.width
  logW : ∀ r, ∀ f ∈ log r, ∀ c, (f c).length = P.width
  cnt : ∀ r, (log r).length = up r + b2n (s.waiting r)
  sendWait : ∀ p q, s.sendPend p q = true → s.waiting p = true ∧ P.sends p q ≠ []
  recvWait : ∀ q p, s.recvPend q p = true → s.waiting q = true ∧ P.recvs q p ≠ []
  pair : ∀ p q, P.sends p q ≠ [] → ∃ L A, PairInv (P.sends p q) (log p) (log q).length
    (s.sendPend p q) (s.recvPend q p) (s.chan p q) (s.sendBuf p q) (s.recvBuf q p) L A
  ghost : ∀ q p c, c ∈ P.recvs q p → ∀ k, up q = k + 1 →
    ∃ f, (log p)[k]? = some f ∧ s.ghost q c = f c

/-- How an event changes the log. -/
def logStep (s : State α) (e : Event α) (log : Nat → List (Nat → List α)) :
    Nat → List (Nat → List α) := fun p => log p ++
  (match e with
    | .share r => if r = p then [s.coef p] else []
    | _ => [])

def upStep (e : Event α) (up : Nat → Nat) : Nat → Nat := fun q =>
  match e with
  | .update r => up q + (if r = q then 1 else 0)
  | _ => up q

theorem inv_init {P : Plan} {s : State α} (h : Initial P s) : Inv P s (fun _ => []) (fun _ => 0) where
  coefW := h.coef
  logW := by simp
  cnt := by simp [h.waiting, b2n]
  sendWait := by simp [h.sendPend]
  recvWait := by simp [h.recvPend]
  pair := by
    intro p q _
    refine ⟨0, 0, ?_, ?_, ?_, ?_, ?_, ?_⟩
    · simp [h.sendPend, b2n]
    · simp [h.recvPend, b2n]
    · simp [h.chan]
    · simp [h.chan]
    · simp [h.sendPend]
    · intro k hk; omega
  ghost := by intro q p c _ k hk; omega

theorem Inv.done {P : Plan} (hP : GoodPlan P) {s : State α} {log up} (h : Inv P s log up) {r : Nat}
    (hr : allDone P s r = true) (q : Nat) : s.sendPend r q = false ∧ s.recvPend r q = false := by
  have hd : ∀ q < P.nRanks, s.sendPend r q = false ∧ s.recvPend r q = false := by
    intro q hq
    unfold allDone at hr
    rw [List.all_eq_true] at hr
    have := hr q (by simpa using hq)
    simpa using this
  by_cases hq : q < P.nRanks
  · exact hd q hq
  · constructor
    · by_contra hc
      have h1 := (h.sendWait r q (by simpa using hc)).2
      rw [hP.same] at h1
      exact hq (hP.ranks r q h1).2
    · by_contra hc
      have h1 := (h.recvWait r q (by simpa using hc)).2
      exact hq (hP.ranks q r h1).1

/-- What the receive buffers of a rank hold when its `MPI_Waitall` has returned. -/
theorem Inv.buffers {P : Plan} (hP : GoodPlan P) {s : State α} {log up} (h : Inv P s log up)
    {r : Nat} (hr : allDone P s r = true) (hw : s.waiting r = true) (p : Nat)
    (hp : P.recvs r p ≠ []) :
    ∃ f, (log p)[up r]? = some f ∧ s.recvBuf r p = pack f (P.recvs r p) := by
  rw [← hP.same] at hp ⊢
  obtain ⟨L, A, h1⟩ := h.pair p r hp
  have hd := (h.done hP hr p).2
  have h2 := h1.arrived
  rw [hd, h.cnt r, hw] at h2
  simp [b2n] at h2
  exact h1.rbuf (up r) h2

/-- A rank whose `MPI_Waitall` has returned can finish its Update. -/
theorem Inv.unpack_ok {P : Plan} (hP : GoodPlan P) {s : State α} {log up} (h : Inv P s log up)
    {r : Nat} (hr : allDone P s r = true) (hw : s.waiting r = true) :
    ∃ g, unpackAll P (s.recvBuf r) r (List.range P.nRanks) (s.ghost r) = some g ∧
      ∀ p c, c ∈ P.recvs r p → ∃ f, (log p)[up r]? = some f ∧ g c = f c := by
  classical
  let dummy : Nat → List α := s.coef r
  let src : Nat → Nat → List α := fun p => ((log p)[up r]?).getD dummy
  have hsrcW : ∀ q c, (src q c).length = P.width := by
    intro q c
    simp only [src]
    cases hq : (log q)[up r]? with
    | none => exact h.coefW r c
    | some f => exact h.logW q f (List.mem_of_getElem? hq) c
  have hb : ∀ q ∈ List.range P.nRanks, P.recvs r q ≠ [] →
      s.recvBuf r q = pack (src q) (P.recvs r q) := by
    intro q _ hq
    obtain ⟨f, h1, h2⟩ := h.buffers hP hr hw q hq
    simp only [src, h1, Option.getD_some]; exact h2
  obtain ⟨g, h1, h2, _⟩ := unpackAll_spec hP src hsrcW (List.range P.nRanks) hb (s.ghost r)
  refine ⟨g, h1, fun p c hc => ?_⟩
  have hne : P.recvs r p ≠ [] := by intro h0; rw [h0] at hc; simp at hc
  obtain ⟨f, h3, _⟩ := h.buffers hP hr hw p hne
  refine ⟨f, h3, ?_⟩
  rw [h2 p (by simpa using (hP.ranks p r hne).1) c hc]
  simp [src, h3]

theorem inv_step {P : Plan} (hP : GoodPlan P) {s s' : State α} {log up} (h : Inv P s log up)
    {e : Event α} (hs : step P s e = some s') : Inv P s' (logStep s e log) (upStep e up) := by
  cases e with
  | write r c v =>
    have hl : logStep s (.write r c v) log = log := by funext p; simp [logStep]
    have hu : upStep (.write r c v) up = up := rfl
    rw [hl, hu]
    simp only [step] at hs
    split at hs
    · rename_i hv
      cases hs
      refine ⟨?_, h.logW, h.cnt, h.sendWait, h.recvWait, h.pair, h.ghost⟩
      intro r' c'
      simp only [upd2]
      split
      · exact hv
      · exact h.coefW r' c'
    · cases hs
  | share r =>
    have hu : upStep (.share r : Event α) up = up := rfl
    rw [hu]
    simp only [step] at hs
    split at hs
    · rename_i hr
      obtain ⟨hrn, hrw⟩ := hr
      cases hs
      have hsp : ∀ q, s.sendPend r q = false := by
        intro q; by_contra hc
        have := (h.sendWait r q (by simpa using hc)).1
        rw [hrw] at this; cases this
      have hrp : ∀ q, s.recvPend r q = false := by
        intro q; by_contra hc
        have := (h.recvWait r q (by simpa using hc)).1
        rw [hrw] at this; cases this
      refine ⟨h.coefW, ?_, ?_, ?_, ?_, ?_, ?_⟩
      · intro p f hf c
        simp only [logStep, List.mem_append] at hf
        rcases hf with hf | hf
        · exact h.logW p f hf c
        · split at hf
          · simp at hf; subst hf; exact h.coefW p c
          · simp at hf
      · intro p
        simp only [logStep, List.length_append, h.cnt p, upd1]
        by_cases hpr : r = p
        · subst hpr; simp [hrw, b2n]
        · rw [if_neg hpr, if_neg (fun h => hpr h.symm)]; simp
      · intro p q hpq
        simp only at hpq ⊢
        split at hpq
        · rename_i hc
          obtain ⟨rfl, _, h2⟩ := hc
          exact ⟨by simp [upd1], by simpa using h2⟩
        · obtain ⟨h1, h2⟩ := h.sendWait p q hpq
          refine ⟨?_, h2⟩
          simp only [upd1]; split
          · rfl
          · exact h1
      · intro q p hpq
        simp only at hpq ⊢
        split at hpq
        · rename_i hc
          obtain ⟨rfl, _, h2⟩ := hc
          exact ⟨by simp [upd1], by simpa using h2⟩
        · obtain ⟨h1, h2⟩ := h.recvWait q p hpq
          refine ⟨?_, h2⟩
          simp only [upd1]; split
          · rfl
          · exact h1
      · intro p q hpq
        obtain ⟨L, A, h1⟩ := h.pair p q hpq
        have hpq' : P.recvs q p ≠ [] := by rw [← hP.same]; exact hpq
        have hrk := hP.ranks p q hpq'
        refine ⟨L, A, ?_⟩
        have hA : PairInv (P.sends p q) (logStep s (.share r) log p) (log q).length
            (if p = r ∧ q < P.nRanks ∧ ¬ (P.sends p q).isEmpty then true else s.sendPend p q)
            (s.recvPend q p) (s.chan p q)
            (if p = r ∧ ¬ (P.sends p q).isEmpty then pack (s.coef r) (P.sends r q)
              else s.sendBuf p q) (s.recvBuf q p) L A := by
          by_cases hpr : p = r
          · subst hpr
            have he : ¬ (P.sends p q).isEmpty = true := by simpa using hpq
            rw [if_pos ⟨rfl, hrk.2, he⟩, if_pos ⟨rfl, he⟩]
            simp only [logStep, if_true]
            rw [hsp q] at h1
            exact h1.share_send (s.coef p)
          · rw [if_neg (fun h => hpr h.1), if_neg (fun h => hpr h.1)]
            have : logStep s (.share r) log p = log p := by
              simp only [logStep]; rw [if_neg (fun h => hpr h.symm)]; simp
            rw [this]; exact h1
        simp only
        by_cases hqr : q = r
        · subst hqr
          have he : ¬ (P.recvs q p).isEmpty = true := by simpa using hpq'
          rw [if_pos (show q = q ∧ p < P.nRanks ∧ ¬ (P.recvs q p).isEmpty = true from
            ⟨rfl, hrk.1, he⟩)]
          have hlen : (logStep s (.share q) log q).length = (log q).length + 1 := by
            simp [logStep]
          rw [hlen]
          rw [hrp p] at hA
          exact hA.share_recv
        · rw [if_neg (show ¬ (q = r ∧ p < P.nRanks ∧ ¬ (P.recvs q p).isEmpty = true) from
            fun h => hqr h.1)]
          have : logStep s (.share r) log q = log q := by
            simp only [logStep]; rw [if_neg (fun h => hqr h.symm)]; simp
          rw [this]; exact hA
      · intro q p c hc k hk
        obtain ⟨f, h1, h2⟩ := h.ghost q p c hc k hk
        exact ⟨f, get_append h1, h2⟩
    · cases hs
  | update r =>
    have hl : logStep s (.update r) log = log := by funext p; simp [logStep]
    rw [hl]
    simp only [step] at hs
    split at hs
    · rename_i hr
      obtain ⟨hrn, hrw, hrd⟩ := hr
      obtain ⟨g, h1, h2⟩ := h.unpack_ok hP hrd hrw
      rw [h1] at hs
      simp only [Option.bind_eq_bind, Option.bind_some, Option.some.injEq] at hs
      subst hs
      refine ⟨h.coefW, h.logW, ?_, ?_, ?_, h.pair, ?_⟩
      · intro p
        rw [h.cnt p]
        simp only [upStep, upd1]
        by_cases hpr : r = p
        · subst hpr; simp [hrw, b2n]
        · rw [if_neg hpr, if_neg (fun h => hpr h.symm)]; rfl
      · intro p q hpq
        obtain ⟨h3, h4⟩ := h.sendWait p q hpq
        refine ⟨?_, h4⟩
        simp only [upd1]
        split
        · rename_i hpr; subst hpr
          have := (h.done hP hrd q).1
          simp only at hpq
          rw [this] at hpq; cases hpq
        · exact h3
      · intro q p hpq
        obtain ⟨h3, h4⟩ := h.recvWait q p hpq
        refine ⟨?_, h4⟩
        simp only [upd1]
        split
        · rename_i hpr; subst hpr
          have := (h.done hP hrd p).2
          simp only at hpq
          rw [this] at hpq; cases hpq
        · exact h3
      · intro q p c hc k hk
        simp only [upStep] at hk
        by_cases hqr : r = q
        · subst hqr
          obtain ⟨f, h3, h4⟩ := h2 p c hc
          refine ⟨f, ?_, by simp [upd1, h4]⟩
          rw [if_pos rfl] at hk
          rw [← h3]; congr 1; omega
        · rw [if_neg hqr] at hk
          obtain ⟨f, h3, h4⟩ := h.ghost q p c hc k hk
          refine ⟨f, h3, ?_⟩
          simp only [upd1]; rw [if_neg (fun h => hqr h.symm)]; exact h4
    · cases hs
  | launch p0 q0 =>
    have hl : logStep s (.launch p0 q0) log = log := by funext p; simp [logStep]
    have hu : upStep (.launch p0 q0 : Event α) up = up := rfl
    rw [hl, hu]
    simp only [step] at hs
    split at hs
    · rename_i hsp
      cases hs
      refine ⟨h.coefW, h.logW, h.cnt, ?_, h.recvWait, ?_, h.ghost⟩
      · intro p q hpq
        simp only [upd2] at hpq
        split at hpq
        · cases hpq
        · exact h.sendWait p q hpq
      · intro p q hpq
        obtain ⟨L, A, h1⟩ := h.pair p q hpq
        simp only [upd2]
        by_cases hc : p = p0 ∧ q = q0
        · rw [if_pos hc, if_pos hc]
          obtain ⟨rfl, rfl⟩ := hc
          rw [hsp] at h1
          exact ⟨L + 1, A, h1.launch⟩
        · rw [if_neg hc, if_neg hc]
          exact ⟨L, A, h1⟩
    · cases hs
  | arrive p0 q0 =>
    have hl : logStep s (.arrive p0 q0) log = log := by funext p; simp [logStep]
    have hu : upStep (.arrive p0 q0 : Event α) up = up := rfl
    rw [hl, hu]
    simp only [step] at hs
    split at hs
    · rename_i hrp
      split at hs
      · cases hs
      · rename_i m ms hch
        cases hs
        refine ⟨h.coefW, h.logW, h.cnt, h.sendWait, ?_, ?_, h.ghost⟩
        · intro q p hpq
          simp only [upd2] at hpq
          split at hpq
          · cases hpq
          · exact h.recvWait q p hpq
        · intro p q hpq
          obtain ⟨L, A, h1⟩ := h.pair p q hpq
          simp only [upd2]
          by_cases hc : p = p0 ∧ q = q0
          · obtain ⟨rfl, rfl⟩ := hc
            rw [hrp, hch] at h1
            refine ⟨L, A + 1, ?_⟩
            rw [if_pos ⟨rfl, rfl⟩, if_pos ⟨rfl, rfl⟩, if_pos ⟨rfl, rfl⟩]
            exact h1.arrive
          · have hc' : ¬ (q = q0 ∧ p = p0) := fun h => hc ⟨h.2, h.1⟩
            rw [if_neg hc, if_neg hc', if_neg hc']
            exact ⟨L, A, h1⟩
    · cases hs

theorem inv_exec {P : Plan} (hP : GoodPlan P) : ∀ (es : List (Event α)) {s s' : State α} {log up},
    Inv P s log up → exec P s es = some s' →
    Inv P s' (fun p => log p ++ shareLog P p s es) (fun q => up q + updates q es) := by
  intro es
  induction es with
  | nil =>
    intro s s' log up h hs
    simp only [exec, Option.some.injEq] at hs
    subst hs
    simpa [shareLog, updates] using h
  | cons e es ih =>
    intro s s' log up h hs
    simp only [exec, Option.bind_eq_bind, Option.bind_eq_some_iff] at hs
    obtain ⟨s1, h1, h2⟩ := hs
    have h3 := ih (inv_step hP h h1) h2
    have hl : (fun p => logStep s e log p ++ shareLog P p s1 es) =
        fun p => log p ++ shareLog P p s (e :: es) := by
      funext p
      simp only [logStep, shareLog, h1, List.append_assoc]
      cases e <;> rfl
    have hu : (fun q => upStep e up q + updates q es) = fun q => up q + updates q (e :: es) := by
      funext q
      cases e <;> simp [upStep, updates] <;> omega
    rw [hl, hu] at h3
    exact h3

end MiniCFD.Exchange
