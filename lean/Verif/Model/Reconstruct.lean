import Mathlib.Data.Nat.Basic

/-
Model of `Part::Reconstruct` (/repo/include/mini/mesh/part.hpp:1304-1334): the limiter pass of
one rank.

Simplified: the store of a rank is one function from cell numbers to coefficients, for local and
ghost cells alike; the limiter is a parameter (`trouble` is `IsNotSmooth`, `lim` its call
operator); the exchange in the middle is given by the values the ghost cells receive, which are
the owners' values at their Share (theorem `ghost_is_snapshot` in `Verif.Props.Exchange`).
-/
namespace MiniCFD.Reconstruct

variable {V : Type}

/-- `cell_ptr->projection().coeff() = new_projections[i++].coeff()` (part.hpp:1329-1332). -/
def writeBack : List Nat → List V → (Nat → V) → Nat → V
  | c :: cs, v :: vs, s => writeBack cs vs (fun d => if d = c then v else s d)
  | _, _, s => s

/-- `Reconstruct(limiter, cell_ptrs)` (part.hpp:1317-1334): collect the troubled cells, limit
all of them, then write. -/
def limitGroup (trouble : Nat → (Nat → V) → Bool) (lim : Nat → (Nat → V) → V) (cells : List Nat)
    (s : Nat → V) : Nat → V :=
  let troubled := cells.filter (fun c => trouble c s)
  let news := troubled.map (fun c => lim c s)
  writeBack troubled news s

/-- UpdateGhostCellCoeffs: the ghost cells take the received values. -/
def setGhosts (ghosts : List Nat) (recv : Nat → V) (s : Nat → V) : Nat → V :=
  fun c => if c ∈ ghosts then recv c else s c

/-- `Reconstruct(limiter)` on one rank (part.hpp:1304-1315); `degrees` is `kDegrees`, `inner` and
`inter` are `inner_and_inter_cells_[0]` and `[1]`. -/
def reconstruct (degrees : Nat) (trouble : Nat → (Nat → V) → Bool) (lim : Nat → (Nat → V) → V)
    (inner inter ghosts : List Nat) (recv : Nat → V) (s : Nat → V) : Nat → V :=
  if degrees = 0 then s else
    let s1 := limitGroup trouble lim inner s
    let s2 := setGhosts ghosts recv s1
    limitGroup trouble lim inter s2

end MiniCFD.Reconstruct
