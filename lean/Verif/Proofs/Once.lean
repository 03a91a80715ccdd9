import Verif.Proofs.Represent

/-!
# Each run is found once
-/

namespace Rustomata
open Spec

variable {A X K S I T W : Type _}

/-- What holds during a search whose items are paths. -/
structure OnceInv {B : Type _} (path : X → List B) (seen : List X) (c : Multiset X) : Prop where
  nodup : (((seen : Multiset X) + c).map path).Nodup
  parent : ∀ y ∈ (seen : Multiset X) + c, path y ≠ [] → ∃ x ∈ seen, path x = (path y).dropLast

theorem OnceInv.le {B : Type _} {path : X → List B} {seen : List X} {c c' : Multiset X} (h : OnceInv path seen c) (hle : c' ≤ c) : OnceInv path seen c' :=
  ⟨Multiset.nodup_of_le (Multiset.map_le_map (by gcongr)) h.nodup, fun y hy => h.parent y (Multiset.mem_of_le (by gcongr) hy)⟩

/-- If the successors of an item extend its path, each in another way, then no path is found twice. -/
theorem Search.run_once {B : Type _} {G : Agenda A X} {content : A → Multiset X} (hG : G.Sound content) {succ : X → List X} {path : X → List B}
    (h1 : ∀ x, ∀ y ∈ succ x, ∃ t, path y = path x ++ [t]) (h2 : ∀ x, ((succ x).map path).Nodup) (n : Nat) (a : A) (seen : List X)
    (hi : OnceInv path seen (content a)) : OnceInv path (seen ++ (Search.run G succ n a).1) (content (Search.run G succ n a).2) := by
  induction n generalizing a seen with
  | zero => simpa [Search.run] using hi
  | succ n ih =>
    unfold Search.run
    split
    · simpa using hi
    · rename_i x a'' hn
      obtain ⟨a', hp, rfl⟩ := Search.next_eq_some.1 hn
      have hc := hG.pop_some _ _ _ hp
      have key : OnceInv path (seen ++ [x]) (content (G.extend a' (succ x))) := by
        refine OnceInv.le ?_ (hG.extend a' (succ x))
        have hperm : ((seen ++ [x] : List X) : Multiset X) + (content a' + (succ x : Multiset X)) = ((seen : Multiset X) + content a) + (succ x : Multiset X) := by
          rw [hc, ← Multiset.coe_add, Multiset.coe_singleton, ← Multiset.singleton_add]
          simp only [add_assoc]
        have hxs : x ∈ (seen : Multiset X) + content a := by simp [hc]
        refine ⟨?_, fun y hy hne => ?_⟩
        · rw [hperm, Multiset.map_add, Multiset.nodup_add]
          refine ⟨hi.nodup, by simpa using h2 x, ?_⟩
          rw [Multiset.disjoint_left]
          intro p hp1 hp2
          obtain ⟨y, hy, rfl⟩ := Multiset.mem_map.1 hp1
          obtain ⟨z, hz, hzy⟩ := Multiset.mem_map.1 hp2
          obtain ⟨t, ht⟩ := h1 x z (by simpa using hz)
          obtain ⟨v, hv, hvy⟩ := hi.parent y hy (by rw [← hzy, ht]; simp)
          rw [← hzy, ht, List.dropLast_concat] at hvy
          have hnd := hi.nodup
          rw [hc, Multiset.add_cons, Multiset.map_cons, Multiset.nodup_cons] at hnd
          refine hnd.1 (Multiset.mem_map.2 ⟨v, ?_, hvy⟩)
          simp [hv]
        · rw [hperm, Multiset.mem_add] at hy
          rcases hy with hy | hy
          · obtain ⟨v, hv, hvy⟩ := hi.parent y hy hne
            exact ⟨v, by simp [hv], hvy⟩
          · obtain ⟨t, ht⟩ := h1 x y (by simpa using hy)
            exact ⟨x, by simp, by rw [ht, List.dropLast_concat]⟩
      have := ih (G.extend a' (succ x)) (seen ++ [x]) key
      simpa using this

/-- No run is found twice if no transition occurs twice and instructions have at most one result. -/
theorem Automaton.recognise_once [Mul W] [One W] [DecidableEq K] [DecidableEq T] {G : Agenda A (Item S I T W)} {content : A → Multiset (Item S I T W)}
    (hG : G.Sound content) {empty : A} (hempty : content empty = 0) (M : Automaton K S I T W) (hnd : M.transitions.Nodup)
    (hdet : ∀ i s, (M.apply i s).length ≤ 1) {w : Option (List T)} {n : Nat} {out : List (Item S I T W)} {a : A}
    (hrun : M.recognise G empty w n = some (out, a)) : (out.map fun i => i.run.toVec).Nodup := by
  unfold Automaton.recognise at hrun
  obtain ⟨⟨Y, b⟩, hr, he⟩ := Option.map_eq_some_iff.1 hrun
  simp only [Prod.mk.injEq] at he
  obtain ⟨rfl, rfl⟩ := he
  have hlook : ∀ k, (M.lookup k).Nodup := by
    intro k
    unfold Automaton.lookup
    split
    · rename_i p hp
      have := List.mem_of_find?_eq_some hp
      exact ((List.sublist_flatten_of_mem (List.mem_map.2 ⟨p, this, rfl⟩)).nodup (by simpa [Automaton.transitions, List.flatMap] using hnd))
    · simp
  have hap : ∀ (t : Transition I T W) (c : Configuration S T W), (t.apply M.apply c).length ≤ 1 := by
    intro t c
    unfold Transition.apply
    split
    · simp
    · simpa using hdet _ _
  have hstart : OnceInv (fun i : Item S I T W => i.run.toVec) [] (content (G.extend empty (M.initItem w))) := by
    have hle := hG.extend empty (M.initItem w)
    rw [hempty, zero_add] at hle
    refine OnceInv.le ?_ hle
    refine ⟨?_, fun y hy hne => ?_⟩
    · cases w <;> simp [Automaton.initItem]
    · cases w with
      | none => simp [Automaton.initItem] at hy
      | some w =>
        simp only [Automaton.initItem, Multiset.coe_nil, zero_add, Multiset.mem_coe, List.mem_singleton] at hy
        subst hy
        exact absurd rfl hne
  have h := Search.run_once hG (succ := noPanic M.successors) (path := fun i : Item S I T W => i.run.toVec) (fun x y hy => ?_) (fun x => ?_) n _ [] hstart
  · rw [List.nil_append, (Search.runP_run hr).1] at h
    have h3 := Multiset.nodup_of_le (Multiset.map_le_map (Multiset.le_add_right _ _)) h.nodup
    simp only [Multiset.map_coe, Multiset.coe_nodup] at h3
    exact (List.filter_sublist.map _).nodup h3
  · unfold noPanic Automaton.successors at hy
    split at hy
    · rename_i l hl
      split at hl
      · cases hl
      · cases hl
        obtain ⟨t, _, hy⟩ := List.mem_flatMap.1 hy
        obtain ⟨c, _, rfl⟩ := List.mem_map.1 hy
        exact ⟨t, by simp [Pushdown.push]⟩
    · simp at hy
  · unfold noPanic Automaton.successors
    split
    · rename_i l hl
      split at hl
      · cases hl
      · rename_i k _
        cases hl
        rw [List.map_flatMap]
        have hk := hlook k
        generalize M.lookup k = ts at hk
        induction ts with
        | nil => simp
        | cons t ts ih =>
          rw [List.nodup_cons] at hk
          rw [List.flatMap_cons, List.nodup_append]
          refine ⟨?_, ih hk.2, ?_⟩
          · rw [List.map_map]
            have := hap t x.conf
            generalize t.apply M.apply x.conf = cs at this
            match cs, this with
            | [], _ => simp
            | [c], _ => simp
          · intro p hp q hq hpq
            subst hpq
            obtain ⟨c, hc, rfl⟩ := List.mem_map.1 hp
            obtain ⟨c, _, rfl⟩ := List.mem_map.1 hc
            obtain ⟨t', ht', hq⟩ := List.mem_flatMap.1 hq
            obtain ⟨c', hc', hq⟩ := List.mem_map.1 hq
            obtain ⟨c', _, rfl⟩ := List.mem_map.1 hc'
            simp only [Pushdown.push, Pushdown.toVec_cons, List.append_cancel_left_eq, List.cons.injEq, and_true] at hq
            subst hq
            exact hk.1 ht'
    · simp

theorem forall₂_nodup_left {α β : Type _} {R : α → β → Prop} (hR : Relator.BiUnique R) {l : List α} {l' : List β} (h : List.Forall₂ R l l') (hn : l'.Nodup) :
    l.Nodup := by
  induction h with
  | nil => simp
  | cons h1 h2 ih =>
    rw [List.nodup_cons] at hn ⊢
    refine ⟨fun hm => hn.1 ?_, ih hn.2⟩
    obtain ⟨b, hb, hr⟩ := forall₂_exists_right h2 hm
    rw [hR.2 h1 hr]
    exact hb

theorem forall₂_nodup_right {α β : Type _} {R : α → β → Prop} (hR : Relator.BiUnique R) {l : List α} {l' : List β} (h : List.Forall₂ R l l') (hn : l.Nodup) :
    l'.Nodup := by
  induction h with
  | nil => simp
  | cons h1 h2 ih =>
    rw [List.nodup_cons] at hn ⊢
    refine ⟨fun hm => hn.1 ?_, ih hn.2⟩
    obtain ⟨b, hb, hr⟩ := forall₂_exists_left h2 hm
    rw [hR.1 h1 hr]
    exact hb

/-- The same for the outer representation. -/
theorem Represents.once {S' I' T' : Type _} [Mul W] [One W] [DecidableEq K] [DecidableEq T] {M : Automaton K S I T W} {D : Device S' I' T' W} {toInt : T' → Option T}
    {itemMap : Item S I T W → Option (Item S' I' T' W)} {RT : T → T' → Prop} {RS : S → S' → Prop} {RI : I → I' → Prop}
    (h : Represents M D toInt itemMap RT RS RI) {G : Agenda A (Item S I T W)} {content : A → Multiset (Item S I T W)} (hG : G.Sound content) {empty : A}
    (hempty : content empty = 0) (hnd : D.transitions.Nodup) (hdet : ∀ i s, (M.apply i s).length ≤ 1) {w : List T'} {n : Nat}
    {out : List (Item S' I' T' W)} {a : A} (hrun : M.recogniseOuter toInt itemMap G empty w n = some (out, a)) : (out.map fun i => i.run.toVec).Nodup := by
  obtain ⟨out0, h0, h1⟩ := h.recogniseOuter_some hrun
  have hu := TrRel.biUnique (W := W) h.uT h.uI
  have h2 := Automaton.recognise_once hG hempty M (forall₂_nodup_left hu h.transitions hnd) hdet h0
  refine forall₂_nodup_right hu.forall₂ ?_ h2
  rw [List.forall₂_map_left_iff, List.forall₂_map_right_iff]
  exact h1.imp fun _ _ h => h.run

end Rustomata
