import Mathlib.Logic.Function.Basic

/-!
# Specifications for the utility data structures
-/

namespace Rustomata.Spec

/-- Operations of a multi map. -/
inductive VOp (T : Type _)
  | push (i : Nat) (x : T)
  | get (i : Nat)
  | update (i : Nat) (f : List T → List T)

/-- The abstract multi map is a function from indices to lists; the result is the list read by `get`. -/
def VOp.step {T : Type _} (m : Nat → List T) : VOp T → (Nat → List T) × Option (List T)
  | .push i x => (Function.update m i (m i ++ [x]), none)
  | .get i => (m, some (m i))
  | .update i f => (Function.update m i (f (m i)), none)

/-- Operations of a stack. -/
inductive StackOp (A : Type _)
  | push (a : A)
  | set (a : A)
  | pop
  | peek
  | isEmpty
  | map (f : A → A)

/-- What an operation reports: a symbol, failure, a truth value, or nothing. -/
inductive StackOut (A : Type _)
  | sym (a : A)
  | fail
  | bool (b : Bool)
  | unit

/-- The abstract stack is a list, its last element is the top. -/
def StackOp.step {A : Type _} (l : List A) : StackOp A → List A × StackOut A
  | .push a => (l ++ [a], .unit)
  | .set a => if l = [] then (l, .fail) else (l.dropLast ++ [a], .unit)
  | .pop => match l.getLast? with
    | none => (l, .fail)
    | some a => (l.dropLast, .sym a)
  | .peek => match l.getLast? with
    | none => (l, .fail)
    | some a => (l, .sym a)
  | .isEmpty => (l, .bool (l.length == 0))
  | .map f => (l.map f, .unit)

/-- Run a sequence of operations and collect the outputs. -/
def runOps {S Op Out : Type _} (step : S → Op → S × Out) : S → List Op → S × List Out
  | s, [] => (s, [])
  | s, o :: os =>
    let r := step s o
    let q := runOps step r.1 os
    (q.1, r.2 :: q.2)

end Rustomata.Spec
