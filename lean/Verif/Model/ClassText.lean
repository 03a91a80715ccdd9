import Verif.Model.FromStr
import Verif.Model.Approximation
import Mathlib.Data.List.Dedup

/-!
# Parsing of equivalence relations

Source: `/repo/src/approximation/equivalence_classes.rs:129-212`.

A set is a list without repetitions; a class is a pair of the label and the optional set.
-/

namespace Rustomata
open Nom

section
variable {A B : Type _} [DecidableEq A] [DecidableEq B] (ca : Codec A) (cb : Codec B)

/-- `parse_set` (equivalence_classes.rs:203-212). -/
def parseSet : Parser Nat (List A) := chain (parseVec (parseToken ca) [91] [93] [44]) fun output => ret output.dedup

/-- `parse_class` (equivalence_classes.rs:185-201). -/
def parseClass : Parser Nat (B × Option (List A)) :=
  chain (parseToken cb) fun label => thn (takeWhile isSpace) <|
    chain (alt (thn (tag [42]) (ret none)) (chain (parseSet ca) fun s => ret (some s))) fun set => ret (label, set)

/-- `EquivalenceClass::from_str` (equivalence_classes.rs:177-182): `none` is a panic, `some none` an error. -/
def EquivalenceClass.fromStr (s : List Nat) : Option (Option (B × Option (List A))) := (parseClass ca cb s).toResult

/-- The loop of `EquivalenceRelation::from_str` (equivalence_classes.rs:141-155). -/
def classLoop : List (List Nat) → List (B × List A) × Option B → Option (Option (List (B × List A) × Option B))
  | [], m => some (some m)
  | l :: ls, m =>
    if l ≠ [] then match EquivalenceClass.fromStr ca cb (trim l) with
      | some (some c) => classLoop ls (EquivalenceRelation.fromLinesStep m c)
      | some none => some none
      | none => none
    else classLoop ls m

/-- `EquivalenceRelation::from_str` (equivalence_classes.rs:137-164): `none` is a panic, `some none` an error. -/
def EquivalenceRelation.fromStr (s : List Nat) : Option (Option (EquivalenceRelation A B)) :=
  match classLoop ca cb (lines s) ([], none) with
  | none => none
  | some none => some none
  | some (some (map, default)) => match default with
    | some label => match newSafe map label with
      | .ok relation => some (some relation)
      | .error _ => some none
    | none => some none

end

end Rustomata
