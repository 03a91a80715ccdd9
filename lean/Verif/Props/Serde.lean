import Verif.Model.Serde
import Verif.Props.Util
import Verif.Props.Dyck

/-!
# C95: partitions and multiple Dyck languages after writing and reading
-/

namespace Rustomata.Props
open Spec

variable {T : Type _} [LinearOrder T]

/-! ### Sets -/

private theorem readSet_fold (l : List T) (m : BMap T Unit) (h : BMap.Sorted m) :
    BMap.Sorted (l.foldl (fun m x => (BMap.insert m x ()).2) m) ∧
      ∀ x, (∃ v, (x, v) ∈ l.foldl (fun m x => (BMap.insert m x ()).2) m) ↔ x ∈ l ∨ ∃ v, (x, v) ∈ m := by
  induction l generalizing m with
  | nil => exact ⟨h, fun x => by simp⟩
  | cons a l ih =>
    have hs := BMap.insert_sorted h a ()
    obtain ⟨h1, h2⟩ := ih _ hs
    refine ⟨h1, fun x => ?_⟩
    rw [List.foldl_cons, h2]
    simp only [← BMap.get_eq_some hs, ← BMap.get_eq_some h, BMap.get_insert h, List.mem_cons]
    by_cases hx : a = x
    · simp [hx]
    · simp [hx, Ne.symm hx]

/-- A set read from a sequence is ascending. -/
theorem readSet_sorted (l : List T) : (readSet l).Pairwise (· < ·) := (readSet_fold l [] List.Pairwise.nil).1

/-- It has the elements of the sequence. -/
theorem mem_readSet (l : List T) (x : T) : x ∈ readSet l ↔ x ∈ l := by
  rw [readSet, BMap.mem_keys, (readSet_fold l [] List.Pairwise.nil).2]
  simp

private theorem sorted_ext {l m : List T} (hl : l.Pairwise (· < ·)) (hm : m.Pairwise (· < ·)) (h : ∀ x, x ∈ l ↔ x ∈ m) : l = m := by
  have hp : l.Perm m := (List.perm_ext_iff_of_nodup (hl.imp fun h => ne_of_lt h) (hm.imp fun h => ne_of_lt h)).mpr h
  exact hp.eq_of_pairwise (fun a b _ _ h1 h2 => absurd (lt_trans h1 h2) (lt_irrefl _)) hl hm

theorem readSet_eq {l : List T} (h : l.Pairwise (· < ·)) : readSet l = l := sorted_ext (readSet_sorted l) h (mem_readSet l)

/-! ### Partitions -/

private theorem bmap_ext {V : Type _} {p q : BMap T V} (hp : BMap.Sorted p) (hq : BMap.Sorted q) (h : ∀ x, BMap.get p x = BMap.get q x) : p = q := by
  have hmem : ∀ a, a ∈ p ↔ a ∈ q := by
    rintro ⟨x, v⟩
    rw [← BMap.get_eq_some hp, ← BMap.get_eq_some hq, h]
  have nd : ∀ {r : BMap T V}, BMap.Sorted r → r.Nodup := fun hr => (List.pairwise_map.mp hr).imp fun h e => absurd (e ▸ h) (lt_irrefl _)
  exact ((List.perm_ext_iff_of_nodup (nd hp) (nd hq)).mpr hmem).eq_of_pairwise (fun a b _ _ h1 h2 => absurd (lt_trans h1 h2) (lt_irrefl _))
    (List.pairwise_map.mp hp) (List.pairwise_map.mp hq)

/-- **C95** Reading a sequence of cells panics iff two cells have a common symbol. -/
theorem C95_deserialize_panics (cells : List (List T)) : Partition.deserialize cells = none ↔ ¬ cells.Pairwise List.Disjoint := by
  have h := C12_new_iff_disjoint (cells.map readSet) (by simp only [List.mem_map]; rintro _ ⟨c, -, rfl⟩; exact readSet_sorted c)
  rw [List.pairwise_map] at h
  have h2 : cells.Pairwise (fun a b => List.Disjoint (readSet a) (readSet b)) ↔ cells.Pairwise List.Disjoint := by
    refine ⟨fun h => h.imp ?_, fun h => h.imp ?_⟩ <;> intro a b hab x hx hy
    · exact hab ((mem_readSet a x).mpr hx) ((mem_readSet b x).mpr hy)
    · exact hab ((mem_readSet a x).mp hx) ((mem_readSet b x).mp hy)
  rw [h2] at h
  rw [← h, Partition.deserialize]
  simp

/-- **C95** A partition that was read has the given cells, as sets. -/
theorem C95_deserialize (cells : List (List T)) (p : Partition T) (hp : Partition.deserialize cells = some p) :
    (∀ x c, p.getCell x = some c ↔ c.Pairwise (· < ·) ∧ x ∈ c ∧ ∃ d ∈ cells, ∀ y, y ∈ c ↔ y ∈ d) ∧
    p.alphabet.Pairwise (· < ·) ∧ ∀ x, x ∈ p.alphabet ↔ ∃ d ∈ cells, x ∈ d := by
  have hs : ∀ c ∈ cells.map readSet, c.Pairwise (· < ·) := by simp only [List.mem_map]; rintro _ ⟨c, -, rfl⟩; exact readSet_sorted c
  obtain ⟨h1, -, h2, h3⟩ := C12_lookup _ hs p hp
  refine ⟨fun x c => ?_, h2, fun x => ?_⟩
  · rw [h1, List.mem_map]
    constructor
    · rintro ⟨⟨d, hd, rfl⟩, hx⟩
      exact ⟨readSet_sorted d, hx, d, hd, mem_readSet d⟩
    · rintro ⟨hc, hx, d, hd, he⟩
      exact ⟨⟨d, hd, sorted_ext (readSet_sorted d) hc fun y => by rw [mem_readSet, he]⟩, hx⟩
  · rw [h3]
    simp only [List.mem_map, exists_exists_and_eq_and, mem_readSet]

/-- **C95** Reading what was written for a partition gives this partition. -/
theorem C95_partition (cells : List (List T)) (hs : ∀ c ∈ cells, c.Pairwise (· < ·)) (p : Partition T) (hp : Partition.new cells = some p) :
    Partition.deserialize p.serialize = some p := by
  have hperm := C12_collapse cells hs p hp
  have hmem : ∀ c, c ∈ p.collapse ↔ c ∈ cells ∧ c ≠ [] := by intro c; rw [hperm.mem_iff]; simp
  have hs' : ∀ c ∈ p.collapse, c.Pairwise (· < ·) := fun c hc => hs c ((hmem c).mp hc).1
  have hmap : p.collapse.map readSet = p.collapse := by
    conv_rhs => rw [← List.map_id p.collapse]
    exact List.map_congr_left fun c hc => readSet_eq (hs' c hc)
  have hdis : p.collapse.Pairwise List.Disjoint := by
    refine hperm.symm.pairwise (((C12_new_iff_disjoint cells hs).mp (by rw [hp]; rfl)).filter _) fun h => h.symm
  obtain ⟨q, hq⟩ := Option.isSome_iff_exists.mp ((C12_new_iff_disjoint p.collapse hs').mpr hdis)
  rw [Partition.deserialize, Partition.serialize, hmap, hq]
  congr 1
  have hpl := C12_lookup cells hs p hp
  have hql := C12_lookup p.collapse hs' q hq
  refine bmap_ext (hql.2.2.1) (hpl.2.2.1) fun x => ?_
  refine Option.ext fun c => ?_
  have h1 := hql.1 x c
  have h2 := hpl.1 x c
  rw [hmem] at h1
  simp only [Partition.getCell] at h1 h2
  rw [h1, h2]
  exact ⟨fun h => ⟨h.1.1, h.2⟩, fun h => ⟨⟨h.1, List.ne_nil_of_mem h.2⟩, h.2⟩⟩

/-- Two cells, one of them written with a repetition. -/
example : (Partition.deserialize [[5, 1, 5], [2]]).map (fun p => (p.serialize, p.getCell 5)) = some ([[1, 5], [2]], some [1, 5]) ∧
    Partition.deserialize [[1, 2], [2]] = none := by decide

/-! ### Multiple Dyck languages -/

private theorem read_transitions {cells : List (List T)} (hs : ∀ c ∈ cells, c.Pairwise (· < ·)) {p : Partition T} (hp : Partition.new cells = some p)
    (up : T → List T → MdInstr T) (hup : ∀ a c, c.Pairwise (· < ·) → (up a c).read = up a c) :
    ∀ t ∈ Mda.transitions up p, Mda.readTransition t = t ∧ t.word ≠ [] := by
  intro t ht
  simp only [Mda.transitions, Mda.symbolTransitions, List.mem_flatMap, List.mem_cons, List.not_mem_nil, or_false] at ht
  obtain ⟨c, hc, a, -, rfl | rfl⟩ := ht
  · have : c ∈ cells := (List.mem_filter.mp ((C12_collapse cells hs p hp).mem_iff.mp hc)).1
    simp [Mda.readTransition, hup a c (hs c this)]
  · simp [Mda.readTransition, MdInstr.read]

private theorem transitions_automaton (ts : List (Transition (MdInstr T) (Bracket T) Nat)) : (Mda.automaton ts).transitions = ts := by
  simp [Mda.automaton, Automaton.transitions]

variable {H : Type _} {G : Agenda H (Item (TreeStack (MdElem T)) (MdInstr T) (Bracket T) Nat)}
  {content : H → Multiset (Item (TreeStack (MdElem T)) (MdInstr T) (Bracket T) Nat)}

private theorem deserialize_spec (hG : G.Lossless content) (empty : H) (hempty : content empty = 0)
    {heap : List (Transition (MdInstr T) (Bracket T) Nat) → List (Transition (MdInstr T) (Bracket T) Nat)} (hh : ∀ l, (heap l).Perm l)
    (ts : List (Transition (MdInstr T) (Bracket T) Nat)) (hts : ∀ t ∈ ts, Mda.readTransition t = t ∧ t.word ≠ []) (w : List (Bracket T)) (L : Prop)
    (hL : (∃ us c, IsRun (Mda.automaton ts).apply (Mda.automaton ts).transitions (Mda.automaton ts).initial w us c ∧ (Mda.automaton ts).isTerminal c = true) ↔ L) :
    (∀ n a, Mdl.recognize (Mda.deserialize heap (Mda.serialize heap (Mda.automaton ts))) G empty w n = some (true, a) → L) ∧
    ∃ N, ∀ n ≥ N, ∃ b a, Mdl.recognize (Mda.deserialize heap (Mda.serialize heap (Mda.automaton ts))) G empty w n = some (b, a) ∧ G.pop a = none ∧ (b = true ↔ L) := by
  have hmem : ∀ t, t ∈ heap ((Mda.serialize heap (Mda.automaton ts)).map Mda.readTransition) ↔ t ∈ ts := by
    intro t
    rw [(hh _).mem_iff, Mda.serialize, transitions_automaton, List.mem_map]
    constructor
    · rintro ⟨u, hu, rfl⟩
      have hu := (hh ts).mem_iff.mp hu
      rwa [(hts u hu).1]
    · exact fun h => ⟨t, (hh ts).mem_iff.mpr h, (hts t h).1⟩
  refine recognize_spec hG empty hempty _ (fun t ht => (hts t ((hmem t).mp ht)).2) w L ?_
  rw [← hL]
  simp only [IsRun, transitions_automaton, hmem]
  rfl

/-- **C95** A multiple Dyck language that was written and read says the same about each word, for each order of the elements of the heaps. -/
theorem C95_mdl (hG : G.Lossless content) (empty : H) (hempty : content empty = 0)
    (heap : List (Transition (MdInstr T) (Bracket T) Nat) → List (Transition (MdInstr T) (Bracket T) Nat)) (hh : ∀ l, (heap l).Perm l)
    (cells : List (List T)) (hs : ∀ c ∈ cells, c.Pairwise (· < ·)) (p : Partition T) (hp : Partition.new cells = some p) (w : List (Bracket T)) :
    (∀ n a, Mdl.recognize (Mda.deserialize heap (Mda.serialize heap (Mdl.new p))) G empty w n = some (true, a) → MultipleDyck cells w) ∧
    ∃ N, ∀ n ≥ N, ∃ b a, Mdl.recognize (Mda.deserialize heap (Mda.serialize heap (Mdl.new p))) G empty w n = some (b, a) ∧ G.pop a = none ∧
      (b = true ↔ MultipleDyck cells w) :=
  deserialize_spec hG empty hempty hh _ (read_transitions hs hp _ fun a c hc => by simp [MdInstr.read, readSet_eq hc]) w _ (C34_language cells hs p hp w)

/-- **C95** The same for sorted multiple Dyck languages. -/
theorem C95_sorted_mdl (hG : G.Lossless content) (empty : H) (hempty : content empty = 0)
    (heap : List (Transition (MdInstr T) (Bracket T) Nat) → List (Transition (MdInstr T) (Bracket T) Nat)) (hh : ∀ l, (heap l).Perm l)
    (cells : List (List T)) (hs : ∀ c ∈ cells, c.Pairwise (· < ·)) (p : Partition T) (hp : Partition.new cells = some p) (sort : T → Nat) (w : List (Bracket T)) :
    (∀ n a, Mdl.recognize (Mda.deserialize heap (Mda.serialize heap (Mdl.sorted p sort))) G empty w n = some (true, a) → SortedMultipleDyck cells sort w) ∧
    ∃ N, ∀ n ≥ N, ∃ b a, Mdl.recognize (Mda.deserialize heap (Mda.serialize heap (Mdl.sorted p sort))) G empty w n = some (b, a) ∧ G.pop a = none ∧
      (b = true ↔ SortedMultipleDyck cells sort w) :=
  deserialize_spec hG empty hempty hh _ (read_transitions hs hp _ fun a c hc => by simp [MdInstr.read, readSet_eq hc]) w _ (C34_sorted_language cells hs p hp sort w)

/-- Reversing is an order of the elements, and an automaton that was written and read has its transitions. -/
example : (Mda.deserialize List.reverse (Mda.serialize List.reverse (Mdl.new ((Partition.new [[1, 2]]).getD [])))).transitions.length = 4 := by decide

end Rustomata.Props
