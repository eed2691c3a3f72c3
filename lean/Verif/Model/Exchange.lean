import Mathlib.Data.Nat.Basic

/-
Model of the ghost-cell exchange of /repo/include/mini/mesh/part.hpp:1258-1302
(ShareGhostCellCoeffs, UpdateGhostCellCoeffs) run by all ranks together.

The ranks and the MPI library form a transition system. MPI guarantees used: a send request
completes only after its buffer has been read (rendezvous or buffered), a receive request
completes only after its buffer has been written, messages of one (source, destination, tag,
communicator) do not overtake. Here the tag is the destination (lines 1270 and 1280), so there
is one FIFO channel per ordered pair of ranks. The library may take a send buffer (`launch`) and
fill a receive buffer (`arrive`) at any moment after the request was posted. A rank may write
its own coefficients at any moment, also between Share and Update (the limiter does).

Simplified: the coefficients of a cell are a list of `width` scalars (`kFields`), written and
read whole (WriteCoeffTo and GetCoeffFrom copy `kFields` scalars and advance the pointer).
-/
namespace MiniCFD.Exchange

variable {α : Type}

/-- `send_cell_ptrs_` and `recv_cell_ptrs_` of all ranks (part.hpp:964-991): `sends p q` are the
cells `p` sends to `q`, `recvs q p` the ghost cells `q` receives from `p`. An empty list is a
missing map key. -/
structure Plan where
  nRanks : Nat
  width : Nat
  sends : Nat → Nat → List Nat
  recvs : Nat → Nat → List Nat

structure State (α : Type) where
  /-- coefficients of the local cells of each rank -/
  coef : Nat → Nat → List α
  /-- coefficients of the ghost cells of each rank -/
  ghost : Nat → Nat → List α
  /-- `send_coeffs_` -/
  sendBuf : Nat → Nat → List α
  /-- `recv_coeffs_`, first index the receiver -/
  recvBuf : Nat → Nat → List α
  /-- send request not completed -/
  sendPend : Nat → Nat → Bool
  /-- receive request not completed, first index the receiver -/
  recvPend : Nat → Nat → Bool
  /-- messages taken from the sender but not yet received, oldest first -/
  chan : Nat → Nat → List (List α)
  /-- rank is between Share and Update -/
  waiting : Nat → Bool

inductive Event (α : Type) where
  /-- rank `r` sets the coefficients of its cell `c` -/
  | write (r c : Nat) (v : List α)
  | share (r : Nat)
  | update (r : Nat)
  /-- the library takes the message from `p` to `q` out of the send buffer -/
  | launch (p q : Nat)
  /-- the library puts the oldest message from `p` into the receive buffer of `q` -/
  | arrive (p q : Nat)

def upd1 {β : Type} (t : Nat → β) (p : Nat) (v : β) : Nat → β := fun p' => if p' = p then v else t p'

def upd2 {β : Type} (t : Nat → Nat → β) (p q : Nat) (v : β) : Nat → Nat → β :=
  fun p' q' => if p' = p ∧ q' = q then v else t p' q'

/-- Filling a send buffer (part.hpp:1263-1267). -/
def pack (coef : Nat → List α) (cells : List Nat) : List α := cells.flatMap coef

/-- Reading a receive buffer into the ghost cells (part.hpp:1294-1300); `none` when the
assertion on the end of the buffer fails or the buffer is too short. -/
def unpack (width : Nat) : List Nat → List α → (Nat → List α) → Option (Nat → List α)
  | [], [], g => some g
  | [], _ :: _, _ => none
  | c :: cs, buf, g =>
    if width ≤ buf.length then unpack width cs (buf.drop width) (upd1 g c (buf.take width))
    else none

/-- The loop over the sources in UpdateGhostCellCoeffs (part.hpp:1292-1301). -/
def unpackAll (P : Plan) (bufs : Nat → List α) (r : Nat) : List Nat → (Nat → List α) →
    Option (Nat → List α)
  | [], g => some g
  | q :: qs, g => do
    let g' ← if (P.recvs r q).isEmpty then some g else unpack P.width (P.recvs r q) (bufs q) g
    unpackAll P bufs r qs g'

/-- All requests of rank `r` have completed, i.e. `MPI_Waitall` returns (part.hpp:1288). -/
def allDone (P : Plan) (s : State α) (r : Nat) : Bool :=
  (List.range P.nRanks).all fun q => !s.sendPend r q && !s.recvPend r q

/-- One step; `none` when the event is not possible in this state. Share and Update are only
called in turn (every caller in the library does so). -/
def step (P : Plan) (s : State α) : Event α → Option (State α)
  | .write r c v =>
    if v.length = P.width then some { s with coef := upd2 s.coef r c v } else none
  | .share r =>
    if r < P.nRanks ∧ s.waiting r = false then
      some { s with
        sendBuf := fun p q => if p = r ∧ ¬ (P.sends p q).isEmpty then pack (s.coef r) (P.sends r q)
          else s.sendBuf p q
        sendPend := fun p q => if p = r ∧ q < P.nRanks ∧ ¬ (P.sends p q).isEmpty then true
          else s.sendPend p q
        recvPend := fun p q => if p = r ∧ q < P.nRanks ∧ ¬ (P.recvs p q).isEmpty then true
          else s.recvPend p q
        waiting := upd1 s.waiting r true }
    else none
  | .update r =>
    if r < P.nRanks ∧ s.waiting r = true ∧ allDone P s r = true then do
      let g ← unpackAll P (s.recvBuf r) r (List.range P.nRanks) (s.ghost r)
      some { s with ghost := upd1 s.ghost r g, waiting := upd1 s.waiting r false }
    else none
  | .launch p q =>
    if s.sendPend p q then
      some { s with
        chan := upd2 s.chan p q (s.chan p q ++ [s.sendBuf p q])
        sendPend := upd2 s.sendPend p q false }
    else none
  | .arrive p q =>
    if s.recvPend q p then
      match s.chan p q with
      | [] => none
      | m :: ms => some { s with
          chan := upd2 s.chan p q ms
          recvBuf := upd2 s.recvBuf q p m
          recvPend := upd2 s.recvPend q p false }
    else none

/-- A run. -/
def exec (P : Plan) : State α → List (Event α) → Option (State α)
  | s, [] => some s
  | s, e :: es => do
    let s' ← step P s e
    exec P s' es

end MiniCFD.Exchange
