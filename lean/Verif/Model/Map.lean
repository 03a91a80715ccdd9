/-!
# Finite maps

`HashMap` and `BTreeMap` as association lists, for code that does not depend on the iteration order.
-/

namespace Rustomata

/-- A finite map as an association list with at most one entry per key. -/
abbrev AMap (K V : Type _) := List (K × V)

namespace AMap
variable {K V : Type _} [DecidableEq K]

/-- `get` (`HashMap`, `BTreeMap`). -/
def get : AMap K V → K → Option V
  | [], _ => none
  | (k', v) :: m, k => if k' = k then some v else get m k

/-- `insert` (`HashMap`, `BTreeMap`). -/
def set : AMap K V → K → V → AMap K V
  | [], k, v => [(k, v)]
  | (k', v') :: m, k, v => if k' = k then (k', v) :: m else (k', v') :: set m k v

theorem get_set (m : AMap K V) (k k' : K) (v : V) : (m.set k v).get k' = if k = k' then some v else m.get k' := by
  induction m with
  | nil => simp [set, get]
  | cons p m ih =>
    obtain ⟨k₀, v₀⟩ := p
    by_cases h : k₀ = k
    · subst h
      by_cases h' : k₀ = k' <;> simp [set, get, h']
    · by_cases h' : k₀ = k'
      · subst h'
        simp [set, get, h, Ne.symm h]
      · simp [set, get, h, h', ih]

theorem get_set_self (m : AMap K V) (k : K) (v : V) : (m.set k v).get k = some v := by simp [get_set]

end AMap

end Rustomata
