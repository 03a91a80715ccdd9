import Verif.Proofs.Recognise
import Verif.Proofs.Pmcfg

/-!
# More steps of a search prolong the result
-/

namespace Rustomata

theorem Search.runP_cut {A X : Type _} {G : Agenda A X} {succ : X → Option (List X)} {n : Nat} {a b : A} {r : List X}
    (h : Search.runP G succ n a = some (r, b)) (m : Nat) (hm : m ≤ n) : ∃ b', Search.runP G succ m a = some (r.take m, b') ∧
      (G.pop b' = none → r.take m = r ∧ b = b') := by
  induction m generalizing n a r with
  | zero =>
    refine ⟨a, by simp [Search.runP], fun hp => ?_⟩
    cases n with
    | zero => simp only [Search.runP, Option.some.injEq, Prod.mk.injEq] at h; simp [← h.1, h.2]
    | succ n =>
      unfold Search.runP at h
      rw [hp] at h
      simp only [Option.some.injEq, Prod.mk.injEq] at h
      simp [← h.1, h.2]
  | succ m ih =>
    cases n with
    | zero => omega
    | succ n =>
      unfold Search.runP at h ⊢
      cases hp : G.pop a with
      | none =>
        rw [hp] at h
        simp only [Option.some.injEq, Prod.mk.injEq] at h
        exact ⟨a, by simp [← h.1], fun _ => by simp [← h.1, h.2]⟩
      | some x =>
        obtain ⟨x, a'⟩ := x
        rw [hp] at h
        simp only at h ⊢
        cases hs : succ x with
        | none => rw [hs] at h; simp at h
        | some ys =>
          rw [hs] at h
          simp only at h ⊢
          cases hr : Search.runP G succ n (G.extend a' ys) with
          | none => rw [hr] at h; simp at h
          | some q =>
            obtain ⟨r', b'⟩ := q
            rw [hr] at h
            simp only [Option.some.injEq, Prod.mk.injEq] at h
            obtain ⟨rfl, rfl⟩ := h
            obtain ⟨b'', h1, h2⟩ := ih hr (by omega)
            rw [h1]
            refine ⟨b'', rfl, fun hp => ?_⟩
            obtain ⟨h3, h4⟩ := h2 hp
            exact ⟨by rw [List.take_succ_cons, h3], h4⟩

theorem Search.runP_length {A X : Type _} {G : Agenda A X} {succ : X → Option (List X)} {n : Nat} {a b : A} {r : List X}
    (h : Search.runP G succ n a = some (r, b)) : r.length ≤ n := by
  induction n generalizing a r with
  | zero => simp [Search.runP] at h; simp [← h.1]
  | succ n ih =>
    unfold Search.runP at h
    split at h
    · simp only [Option.some.injEq, Prod.mk.injEq] at h
      simp [← h.1]
    · split at h
      · cases h
      · split at h
        · cases h
        · rename_i h1
          simp only [Option.some.injEq, Prod.mk.injEq] at h
          obtain ⟨rfl, rfl⟩ := h
          simpa using ih h1

theorem prefix_filter {X : Type _} {p : X → Bool} {l : List X} : ∀ (r : List X), l <+: r.filter p → ∃ m ≤ r.length, (r.take m).filter p = l
  | [], h => ⟨0, by simp, by rw [List.filter_nil, List.prefix_nil] at h; rw [h]; rfl⟩
  | x :: r, h => by
    by_cases hl : l = []
    · exact ⟨0, by simp, by simp [hl]⟩
    · rw [List.filter_cons] at h
      split at h
      · rename_i hp
        rcases l with _ | ⟨y, l⟩
        · exact absurd rfl hl
        · rw [List.cons_prefix_cons] at h
          obtain ⟨rfl, h⟩ := h
          obtain ⟨m, h1, h2⟩ := prefix_filter r h
          exact ⟨m + 1, by simpa using h1, by rw [List.take_succ_cons, List.filter_cons_of_pos hp, h2]⟩
      · rename_i hp
        obtain ⟨m, h1, h2⟩ := prefix_filter r h
        exact ⟨m + 1, by simpa using h1, by rw [List.take_succ_cons, List.filter_cons_of_neg hp, h2]⟩

theorem mapM_take {X Y : Type _} {f : X → Option Y} {l : List X} {ys : List Y} (h : l.mapM f = some ys) (m : Nat) :
    (l.take m).mapM f = some (ys.take m) := by
  rw [mapM_some_iff] at h ⊢
  induction h generalizing m with
  | nil => simp
  | cons h1 _ ih =>
    cases m with
    | zero => simp
    | succ m => exact .cons h1 (ih m)

theorem mapM_prefix {X Y : Type _} {f : X → Option Y} {l l' : List X} {ys : List Y} (h : l.mapM f = some ys) (hl : l' <+: l) :
    ∃ ys', l'.mapM f = some ys' ∧ ys' <+: ys := by
  rw [List.prefix_iff_eq_take] at hl
  exact ⟨_, by rw [hl]; exact mapM_take h _, List.take_prefix ..⟩

section
variable {K S I T W A S' I' T' : Type _} [DecidableEq K] [DecidableEq T] [Mul W] [One W] {M : Automaton K S I T W} {toInt : T' → Option T}
  {itemMap : Item S I T W → Option (Item S' I' T' W)} {G : Agenda A (Item S I T W)} {empty : A} {w : List T'} {n : Nat} {out : List (Item S' I' T' W)} {b : A}

/-- With fewer steps, the beginning of the output is returned; if the agenda is empty then, there is no difference. -/
theorem Automaton.recogniseOuter_mono (h : M.recogniseOuter toInt itemMap G empty w n = some (out, b)) {m : Nat} (hm : m ≤ n) :
    ∃ out' b', M.recogniseOuter toInt itemMap G empty w m = some (out', b') ∧ out' <+: out ∧ (G.pop b' = none → out' = out ∧ b' = b) := by
  unfold Automaton.recogniseOuter Automaton.recognise at h ⊢
  cases hr : Search.runP G M.successors n (G.extend empty (M.initItem (w.mapM toInt))) with
  | none => rw [hr] at h; simp at h
  | some x =>
    obtain ⟨r, c⟩ := x
    rw [hr] at h
    simp only [Option.map_some] at h
    obtain ⟨b', h1, h2⟩ := Search.runP_cut hr m hm
    rw [h1]
    simp only [Option.map_some]
    cases hq : (r.filter fun i => M.isTerminal i.conf).mapM itemMap with
    | none => rw [hq] at h; simp at h
    | some ys =>
      rw [hq] at h
      simp only [Option.some.injEq, Prod.mk.injEq] at h
      obtain ⟨rfl, rfl⟩ := h
      obtain ⟨ys', h3, h4⟩ := mapM_prefix hq ((List.take_prefix m r).filter fun i => M.isTerminal i.conf)
      rw [h3]
      refine ⟨ys', b', rfl, h4, fun hp => ?_⟩
      obtain ⟨h5, h6⟩ := h2 hp
      rw [h5, hq, Option.some_inj] at h3
      exact ⟨h3.symm, h6.symm⟩

/-- Each beginning of the output is returned after fewer steps. -/
theorem Automaton.recogniseOuter_prefix (h : M.recogniseOuter toInt itemMap G empty w n = some (out, b)) {l : List (Item S' I' T' W)} (hl : l <+: out) :
    ∃ m b', M.recogniseOuter toInt itemMap G empty w m = some (l, b') := by
  unfold Automaton.recogniseOuter Automaton.recognise at h ⊢
  cases hr : Search.runP G M.successors n (G.extend empty (M.initItem (w.mapM toInt))) with
  | none => rw [hr] at h; simp at h
  | some x =>
    obtain ⟨r, c⟩ := x
    rw [hr] at h
    simp only [Option.map_some] at h
    cases hq : (r.filter fun i => M.isTerminal i.conf).mapM itemMap with
    | none => rw [hq] at h; simp at h
    | some ys =>
      rw [hq] at h
      simp only [Option.some.injEq, Prod.mk.injEq] at h
      obtain ⟨rfl, rfl⟩ := h
      obtain ⟨m, h1, h2⟩ := prefix_filter r (List.take_prefix l.length (r.filter fun i => M.isTerminal i.conf))
      have h3 := mapM_take hq l.length
      rw [← h2, ← List.prefix_iff_eq_take.1 hl] at h3
      by_cases hmn : m ≤ n
      · obtain ⟨b', h4, _⟩ := Search.runP_cut hr m hmn
        exact ⟨m, b', by rw [h4]; simp only [Option.map_some]; rw [h3]⟩
      · refine ⟨n, c, ?_⟩
        rw [hr]
        simp only [Option.map_some]
        have := Search.runP_length hr
        rw [List.take_of_length_le (by omega)] at h3
        rw [h3]

end

end Rustomata
