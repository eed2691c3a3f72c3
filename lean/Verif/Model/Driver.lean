import Verif.Model.RK
import Mathlib.Algebra.Field.Basic
import Mathlib.Data.Nat.Cast.Defs

/-!
# Model of the main programs

Covers `demo/euler/sourceless.cpp` (`Main`) and `demo/euler/rotorcraft.cpp` (`Main`, without the contents of what
`WriteForces` writes), and time steps with a limiter: `WithLimiterAndSource::SetSolutionColumn`,
`include/mini/spatial/dg/general.hpp:245-250`.

The column of all processes together is one element of a module `V`.  What is read back from a file is what was written
(C75).  Printing and the VTK output are left out, as are MPI calls and the partition of the mesh.  Over a field:
no rounding.
-/

namespace MiniCFD.Driver

open MiniCFD.RK

section

variable {F V : Type*} [Field F] [AddCommGroup V] [Module F V]

/-! ### Steps with a limiter -/

/-- `SetSolutionColumn`, dg/general.hpp:245-250: the column is stored and then limited. -/
def put (limit : V → V) (s : Sys F V) (u : V) : Sys F V := s.setSol (limit u)

/-- `Euler::Update`, ode.hpp:128-131. -/
def eulerWith (limit : V → V) (R : F → V → V) (t dt : F) (s : Sys F V) : Sys F V :=
  let (u, s) := nextSolution R t dt s
  put limit s u

/-- `RungeKutta<2>::Update`, rk.hpp:36-43. -/
def update2With (limit : V → V) (R : F → V → V) (t dt : F) (s : Sys F V) : Sys F V :=
  let u0 := s.sol
  let s := eulerWith limit R t dt s
  let (u, s) := nextSolution R (t + dt) dt s
  let u := u + u0
  let u := (2⁻¹ : F) • u
  put limit s u

/-- `RungeKutta<3>::Update`, rk.hpp:55-72. -/
def update3With (limit : V → V) (R : F → V → V) (t dt : F) (s : Sys F V) : Sys F V :=
  let u0 := s.sol
  let s := eulerWith limit R t dt s
  let u := (3 : F) • u0
  let (v, s) := nextSolution R (t + dt) dt s
  let u := u + v
  let u := (4 : F)⁻¹ • u
  let s := put limit s u
  let (u, s) := nextSolution R (t + dt / 2) dt s
  let u := (2 : F) • u
  let u := u + u0
  let u := (3 : F)⁻¹ • u
  put limit s u

/-- `temporal.Update(&spatial, t, dt)` for a system with a limiter. -/
def updateWith (limit : V → V) : Stepper → (F → V → V) → F → F → Sys F V → Sys F V
  | .rk1 => eulerWith limit
  | .rk2 => update2With limit
  | .rk3 => update3With limit

/-- The calls of `Update` in the main loop, sourceless.cpp:137-139: the `i`-th (from zero) at `t_start + dt * i`. -/
def runWith (limit : V → V) (k : Stepper) (R : F → V → V) (t dt : F) : Nat → Sys F V → Sys F V
  | 0, s => s
  | n + 1, s => updateWith limit k R (t + dt * n) dt (runWith limit k R t dt n s)

end

/-! ### The main loop -/

variable {F V : Type*} [Field F]

/-- The arguments of the program, sourceless.cpp:35-48: `<t_start> <t_stop> <n_steps_per_frame> <n_frames>` and
`<i_frame_start>`, zero by default. -/
structure Config (F : Type*) where
  tStart : F
  tStop : F
  perFrame : Nat
  frames : Nat
  frame0 : Nat := 0

/-- `n_steps`, sourceless.cpp:39. -/
def Config.steps (c : Config F) : Nat := c.frames * c.perFrame

/-- `dt`, sourceless.cpp:40. -/
def Config.dt (c : Config F) : F := (c.tStop - c.tStart) / (c.steps : F)

/-- What changes during the run: the solution, `i_frame`, and the frames written so far. -/
structure State (V : Type*) where
  sol : V
  frame : Nat
  files : List (Nat × V)

/-- One iteration, sourceless.cpp:137-163.  `step t u` is the solution after `temporal.Update(&spatial, t, dt)`. -/
def iterate (c : Config F) (step : F → V → V) (s : State V) (i : Nat) : State V :=
  let t := c.tStart + c.dt * ((i - 1 : Nat) : F)
  let u := step t s.sol
  if i % c.perFrame = 0 then ⟨u, s.frame + 1, s.files ++ [(s.frame + 1, u)]⟩ else ⟨u, s.frame, s.files⟩

/-- `for (int i_step = 1; i_step <= n_steps; ++i_step)`. -/
def loop (c : Config F) (step : F → V → V) (s : State V) : State V :=
  (List.range' 1 c.steps).foldl (iterate c step) s

/-- A run from an initial condition (`argc == 7`), sourceless.cpp:84-109: `init` is the approximation, already limited.
Frame 0 is written first. -/
def fresh (c : Config F) (step : F → V → V) (init : V) : State V :=
  loop c step ⟨init, c.frame0, [(0, init)]⟩

/-- The contents of a frame: the last one of that name. -/
def lookup (files : List (Nat × V)) (i : Nat) : Option V := (files.reverse.find? fun f => f.1 = i).map (·.2)

/-- A run from a frame, on as many processes as before, sourceless.cpp:110-119 (`n_parts_prev == n_core`). -/
def restart (c : Config F) (step : F → V → V) (files : List (Nat × V)) : Option (State V) := do
  let u ← lookup files c.frame0
  some (loop c step ⟨u, c.frame0, files⟩)

/-! ### Writing forces, rotorcraft.cpp -/

/-- `while (i_step % n_steps_per_frame) ++i_step`, rotorcraft.cpp:140-142, at most `fuel` times. -/
def skip (perFrame : Nat) : Nat → Nat → Nat
  | 0, i => i
  | fuel + 1, i => if i % perFrame = 0 then i else skip perFrame fuel (i + 1)

/-- The loop with `write_forces`, rotorcraft.cpp:135-157, from `i_step = i` on; `t_curr` is computed before `i_step`
moves.  The result: for each file of forces its frame, the time and the solution that the forces were computed from;
`none` if a frame is missing.  `fuel` bounds the number of iterations. -/
def forcesLoop (c : Config F) (files : List (Nat × V)) : Nat → Nat → Nat → Option (List (Nat × F × V))
  | 0, _, _ => some []
  | fuel + 1, i, frame =>
    if c.steps < i then some [] else
      let t := c.tStart + c.dt * ((i - 1 : Nat) : F)
      let i := skip c.perFrame c.perFrame i
      (lookup files (frame + 1)).bind fun u =>
        (forcesLoop c files fuel (i + 1) (frame + 1)).map fun rest => (frame + 1, t, u) :: rest

/-- A run with `--write_forces`, rotorcraft.cpp:110-160: the forces of the frame it starts from, then those of the frames
that it would have written. -/
def forces (c : Config F) (files : List (Nat × V)) : Option (List (Nat × F × V)) :=
  (lookup files c.frame0).bind fun u =>
    (forcesLoop c files (c.steps + 1) 1 c.frame0).map fun rest => (c.frame0, c.tStart, u) :: rest

end MiniCFD.Driver
