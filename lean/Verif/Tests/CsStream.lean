import Verif.Props.CsStream

/-!
# Tests of the Chomsky-Schützenberger parser for a grammar with a cycle and several terminals
-/

namespace Rustomata.Tests.CsStream
open Props.C91Example
open Props.C81Example (Z factorize)

/-- The terminals and the numbers of nodes of the first results for the sentence `a a a`. -/
def results (m : Nat) : Option (List (List Nat × Nat)) :=
  (CsRep.new factorize (fun _ l => l.dedup) g 5).bind fun R => (R.parses .default [7, 7, 7] 40 m).map fun out =>
    out.map fun t => (t.flatMap fun x => x.2.composition.flatten.filterMap fun s => match s with | .t a => some a | _ => none, t.length)

-- After the results without the cycle come those with it.
#guard results 12 = some [([8, 8, 8], 5), ([8, 7, 8], 5), ([7, 8, 8], 5), ([8, 7, 7], 5), ([7, 8, 7], 5), ([7, 7, 8], 5), ([8, 8, 7], 5),
  ([8, 7, 7], 5), ([7, 8, 7], 5), ([7, 7, 7], 5), ([8, 8, 8], 6), ([8, 7, 8], 6)]

end Rustomata.Tests.CsStream
