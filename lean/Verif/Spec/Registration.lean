import Verif.Model.Residual

/-! # What a history of registrations means -/

namespace MiniCFD.Spec.Registration

open MiniCFD.Residual

variable {Pt : Type} {K : Nat}

/-- The value stored under a key. -/
def find (m : List (String × Func Pt K)) (name : String) : Option (Func Pt K) :=
  match m with
  | [] => none
  | (k, f) :: rest => if k = name then some f else find rest name

/-- The four kinds of conditions with a function. -/
inductive Kind | supersonicInlet | subsonicInlet | subsonicOutlet | smart

/-- The stored functions of a kind. -/
def table (c : Conditions Pt K) : Kind → List (String × Func Pt K)
  | .supersonicInlet => c.supersonicInlet
  | .subsonicInlet => c.subsonicInlet
  | .subsonicOutlet => c.subsonicOutlet
  | .smart => c.smart

/-- The call that registers a function. -/
def call (k : Kind) (name : String) (f : Func Pt K) : Call Pt K :=
  match k with
  | .supersonicInlet => .supersonicInlet name f
  | .subsonicInlet => .subsonicInlet name f
  | .subsonicOutlet => .subsonicOutlet name f
  | .smart => .smartBoundary name f

/-- The function which a call gives to a kind and a name, if any. -/
def given (k : Kind) (name : String) : Call Pt K → Option (Func Pt K)
  | .supersonicInlet m f => match k with
    | .supersonicInlet => if m = name then some f else none
    | _ => none
  | .subsonicInlet m f => match k with
    | .subsonicInlet => if m = name then some f else none
    | _ => none
  | .subsonicOutlet m f => match k with
    | .subsonicOutlet => if m = name then some f else none
    | _ => none
  | .smartBoundary m f => match k with
    | .smart => if m = name then some f else none
    | _ => none
  | .solidWall _ => none
  | .supersonicOutlet _ => none

/-- The last function given to a kind and a name. -/
def last (k : Kind) (name : String) (calls : List (Call Pt K)) : Option (Func Pt K) :=
  (calls.filterMap (given k name)).getLast?

/-- The walls and outlets named by a call. -/
def wall : Call Pt K → Option String
  | .solidWall m => some m
  | _ => none

def outlet : Call Pt K → Option String
  | .supersonicOutlet m => some m
  | _ => none

end MiniCFD.Spec.Registration
