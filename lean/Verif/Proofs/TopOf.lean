import Verif.Proofs.Once
import Verif.Proofs.Outer
import Verif.Proofs.Prefix
import Verif.Spec.TsaCommand

/-!
# Lemmas: the first items of a search are the best ones
-/

namespace Rustomata
open Spec

theorem topOf_take {D W : Type _} [Preorder W] {P : D → Prop} {weight : D → W} {n : Nat} {ds : List D} (hall : ∀ d ∈ ds, P d)
    (hs : ds.Pairwise fun d e => weight e ≤ weight d)
    (hc : (n ≤ ds.length ∧ ∀ d, P d → d ∉ ds.take n → ∀ e ∈ ds.take n, weight d ≤ weight e) ∨ ∀ d, P d → d ∈ ds) : TopOf P weight n (ds.take n) where
  length := by simp
  all d hd := hall d (List.mem_of_mem_take hd)
  sorted := hs.sublist (List.take_sublist n ds)
  best d hd := by
    by_cases hdt : d ∈ ds.take n
    · exact .inl hdt
    · right
      rcases hc with ⟨h1, h2⟩ | h
      · exact ⟨by rw [List.length_take]; omega, h2 d hd hdt⟩
      · have hdm := h d hd
        have hdd : d ∈ ds.drop n := by
          rw [← List.take_append_drop n ds, List.mem_append] at hdm
          exact hdm.resolve_left hdt
        refine ⟨?_, fun e he => ?_⟩
        · have : n < ds.length := by
            by_contra hn
            rw [List.drop_eq_nil_of_le (by omega)] at hdd
            simp at hdd
          rw [List.length_take]
          omega
        · rw [← List.take_append_drop n ds, List.pairwise_append] at hs
          exact hs.2.2 e he d hdd

namespace Represents
variable {A K S I T W S' I' T' : Type _} [DecidableEq K] [DecidableEq T]
variable {M : Automaton K S I T W} {D : Device S' I' T' W} {toInt : T' → Option T}
  {itemMap : Item S I T W → Option (Item S' I' T' W)} {RT : T → T' → Prop} {RS : S → S' → Prop} {RI : I → I' → Prop}

/-- The first `n` items are the best parses. -/
theorem top [Mul W] [One W] [LinearOrder W] (h : Represents M D toInt itemMap RT RS RI) (hM : M.Coherent)
    {G : Agenda A (Item S I T W)} {content : A → Multiset (Item S I T W)} (hG : HeapLaws G content (fun i => i.conf.weight)) {empty : A} (hempty : content empty = 0)
    (hw : ∀ t ∈ D.transitions, ∀ u : W, u * t.weight ≤ u) {w : List T'} {n m : Nat} {out : List (Item S' I' T' W)} {a : A}
    (hrun : M.recogniseOuter toInt itemMap G empty w m = some (out, a)) (hfin : n ≤ out.length ∨ G.pop a = none) :
    TopOf (ParseOf D w) (fun i => i.conf.weight) n (out.take n) := by
  refine topOf_take (h.sound hG.lossless.sound hempty hrun) (h.sorted hG hw hrun) ?_
  rcases hfin with hn | hp
  · left
    refine ⟨hn, fun d hd hdm e he => ?_⟩
    by_contra hlt
    rw [not_le] at hlt
    obtain ⟨l₁, l₂, hl⟩ := List.append_of_mem he
    have hpre : l₁ ++ [e] <+: out := by
      have : l₁ ++ [e] <+: out.take n := ⟨l₂, by rw [hl]; simp⟩
      exact this.trans (List.take_prefix n out)
    obtain ⟨m', b', hrun'⟩ := Automaton.recogniseOuter_prefix hrun hpre
    have := h.best_first hM hG hempty hw hrun' d hd.1 hd.2 hlt
    exact hdm (by rw [hl]; simp [this])
  · right
    intro d hd
    exact (h.exact_runs hM hG.lossless hempty hrun hp d).2 hd

end Represents

end Rustomata
