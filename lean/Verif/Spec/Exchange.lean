import Verif.Model.Exchange

namespace MiniCFD.Spec.Exchange
open MiniCFD.Exchange

variable {α : Type}

/-- The lists of the two sides agree (C07) and a ghost cell has one owner. -/
structure GoodPlan (P : Plan) : Prop where
  same : ∀ p q, P.sends p q = P.recvs q p
  single : ∀ q p p' c, c ∈ P.recvs q p → c ∈ P.recvs q p' → p = p'
  ranks : ∀ p q, P.recvs q p ≠ [] → p < P.nRanks ∧ q < P.nRanks

/-- Nothing has been sent; the coefficients have the right size. -/
structure Initial (P : Plan) (s : State α) : Prop where
  coef : ∀ r c, (s.coef r c).length = P.width
  sendPend : ∀ p q, s.sendPend p q = false
  recvPend : ∀ p q, s.recvPend p q = false
  chan : ∀ p q, s.chan p q = []
  waiting : ∀ r, s.waiting r = false

/-- The coefficients of the cells of rank `p` at its first, second, ... Share in a run. -/
def shareLog (P : Plan) (p : Nat) : State α → List (Event α) → List (Nat → List α)
  | _, [] => []
  | s, e :: es =>
    (match e with
      | .share r => if r = p then [s.coef p] else []
      | _ => []) ++
    (match step P s e with
      | some s' => shareLog P p s' es
      | none => [])

/-- The number of Updates of rank `q` in a run. -/
def updates (q : Nat) : List (Event α) → Nat
  | [] => 0
  | .update r :: es => (if r = q then 1 else 0) + updates q es
  | _ :: es => updates q es

/-- The latest value written to a local cell. -/
def lastWrite (r c : Nat) : List α → List (Event α) → List α
  | v, [] => v
  | v, .write r' c' v' :: es => lastWrite r c (if r = r' ∧ c = c' then v' else v) es
  | v, _ :: es => lastWrite r c v es

end MiniCFD.Spec.Exchange
