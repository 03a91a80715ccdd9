import Verif.Model.FromStr
import Mathlib.Data.NNRat.Defs
import Mathlib.Algebra.Order.Field.Rat
import Mathlib.Data.NNRat.Order

/-!
# Definitions for the unit tests of the repository

The modules in `Verif/Tests` evaluate the model on the inputs of the unit tests of `/repo` and compare the results with the values that these tests expect. They
are tests of the model, not proofs about the code: they check on samples that the model computes what the code computes.

Probabilities are non-negative rational numbers. Tests that take the kernel too long use `#guard`, which evaluates by compiled code and proves nothing.
-/

namespace Rustomata.Tests

deriving instance DecidableEq for CFG
deriving instance DecidableEq for PMCFG
deriving instance DecidableEq for Lcfrs

/-- The bytes of a character in UTF-8 (up to three bytes). -/
def utf8 (c : Char) : List Nat :=
  let n := c.toNat
  if n < 0x80 then [n]
  else if n < 0x800 then [0xC0 + n / 64, 0x80 + n % 64]
  else [0xE0 + n / 4096, 0x80 + n / 64 % 64, 0x80 + n % 64]

/-- The bytes of a string. -/
def txt (s : String) : List Nat := s.toList.flatMap utf8

/-- Strings. -/
def str : Codec (List Nat) := ⟨id, some⟩

/-- Natural numbers. -/
def num : Codec Nat := ⟨natText, fun s => if s ≠ [] ∧ s.all (fun b => 48 ≤ b && b ≤ 57) then some (digitsValue s) else none⟩

/-- Characters (ASCII). -/
def chr : Codec Nat := ⟨fun c => [c], fun s => match s with
  | [c] => some c
  | _ => none⟩

/-- Decimal numbers. -/
def dec : Codec ℚ≥0 := ⟨fun _ => [], fun s =>
  let a := s.takeWhile (· ≠ 46)
  let b := (s.dropWhile (· ≠ 46)).drop 1
  if a ++ b ≠ [] ∧ (a ++ b).all (fun d => 48 ≤ d && d ≤ 57) then some ((digitsValue (a ++ b) : ℚ≥0) / (10 ^ b.length : ℕ)) else none⟩

example : txt "a→%" = [97, 226, 134, 146, 37] := by decide +kernel
example : [dec.read (txt "0.75"), dec.read (txt "2"), dec.read (txt ".5"), dec.read (txt "1e"), dec.read []] = [some (3 / 4), some 2, some (1 / 2), none, none] := by
  decide +kernel

/-- Decimal numbers with an optional negative exponent. -/
def sci : Codec ℚ≥0 := ⟨fun _ => [], fun s =>
  match dec.read (s.takeWhile (· ≠ 69)), s.dropWhile (· ≠ 69) with
  | some m, [] => some m
  | some m, 69 :: 45 :: e => (num.read e).map fun k => m / (10 ^ k : ℕ)
  | _, _ => none⟩

/-- `w` for the first component and one for the others; the code uses the `n`-th root. -/
def factors (w : ℚ≥0) : Nat → List ℚ≥0
  | 0 => []
  | n + 1 => w :: List.replicate n 1

end Rustomata.Tests
