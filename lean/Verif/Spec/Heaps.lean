import Mathlib.Data.Prod.Lex
import Mathlib.Logic.Function.Basic

/-!
# Specification of the unique heap: a finite map from items to weights
-/

namespace Rustomata.Spec

/-- Operations on a unique heap and their observable results. -/
inductive UOp (It Wt : Type _)
  | push (i : It) (w : Wt) (result : Bool)
  | pop (result : Option (It × Wt))

/-- `UStep m o m'`: on the map `m` from items to weights, the operation with the result recorded in `o` is
allowed and leads to `m'`. -/
inductive UStep {It Wt : Type _} [DecidableEq It] [LE It] [LT Wt] :
    (It → Option Wt) → UOp It Wt → (It → Option Wt) → Prop
  | push_new {m i w} : m i = none → UStep m (.push i w true) (Function.update m i (some w))
  | push_old {m i w w'} : m i = some w' → UStep m (.push i w false) m
  | pop_none {m} : (∀ i, m i = none) → UStep m (.pop none) m
  | pop_some {m : It → Option Wt} {i w} : m i = some w →
      (∀ j v, m j = some v → toLex (v, j) ≤ toLex (w, i)) →
      UStep m (.pop (some (i, w))) (Function.update m i none)

/-- A history of operations from map to map. -/
inductive UHist {It Wt : Type _} [DecidableEq It] [LE It] [LT Wt] :
    (It → Option Wt) → List (UOp It Wt) → (It → Option Wt) → Prop
  | nil {m} : UHist m [] m
  | cons {m o m' os m''} : UStep m o m' → UHist m' os m'' → UHist m (o :: os) m''

end Rustomata.Spec
