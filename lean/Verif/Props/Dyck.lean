import Verif.Proofs.Dyck
import Verif.Props.Recognise
import Verif.Props.Util
import Verif.Props.Tsa

/-!
# C33, C34: Dyck languages and multiple Dyck languages
-/

set_option linter.unusedSectionVars false

namespace Rustomata.Props
open Spec

/-! ### C33 -/

/-- **C33** `recognize` accepts exactly the Dyck words. -/
theorem C33_recognize {A : Type _} [DecidableEq A] (w : List (Bracket A)) : Bracket.recognize w = true ↔ Dyck w := by
  constructor
  · intro h
    cases closes_of_loop [] w h with
    | nil h => exact h
  · intro h
    have := loop_dyck h [] []
    rw [List.append_nil] at this
    rw [Bracket.recognize, this]
    rfl

example : Dyck [Bracket.open_ 1, .close 1, .open_ 2, .open_ 1, .close 1, .close 2] ∧ ¬ Dyck [Bracket.open_ 1, .open_ 2, .close 1, .close 2] ∧
    ¬ Dyck [Bracket.close 1, .open_ 1] ∧ ¬ Dyck [Bracket.open_ 1] := by
  simp only [← C33_recognize]
  decide

/-- **C33** The language is closed under the inverse of bracket removal: inserting a matching pair around a Dyck factor, and nothing else, keeps a word in it. -/
theorem C33_insert {A : Type _} [DecidableEq A] (u d v : List (Bracket A)) (hd : Dyck d) : Dyck (u ++ d ++ v) ↔ Dyck (u ++ v) := by
  have key : ∀ s, Bracket.recognizeLoop s (u ++ d ++ v) = Bracket.recognizeLoop s (u ++ v) := by
    induction u with
    | nil => intro s; exact loop_dyck hd s v
    | cons b u ih =>
      intro s
      cases b with
      | open_ a => exact ih _
      | close a =>
        cases s with
        | nil => rfl
        | cons c s =>
          simp only [List.cons_append, Bracket.recognizeLoop]
          rw [ih]
  rw [← C33_recognize, ← C33_recognize, Bracket.recognize, Bracket.recognize, key]

/-- **C33** The matching of the brackets of a word: Dyck words are the words of forests of pairs. -/
theorem C33_pairs {A : Type _} [DecidableEq A] (w : List (Bracket A)) : Dyck w ↔ ∃ F : Pairs A, F.word = w := by
  constructor
  · intro h
    induction h with
    | nil => exact ⟨.nil, rfl⟩
    | append _ _ ih1 ih2 =>
      obtain ⟨F, rfl⟩ := ih1
      obtain ⟨G, rfl⟩ := ih2
      exact ⟨F.append G, Pairs.word_append F G⟩
    | wrap a _ ih =>
      obtain ⟨F, rfl⟩ := ih
      exact ⟨.pair a [] F .nil, rfl⟩
  · rintro ⟨F, rfl⟩
    induction F with
    | nil => exact .nil
    | pair a g i r ih1 ih2 =>
      have := Dyck.append (Dyck.wrap a ih1) ih2
      simpa [Pairs.word] using this

/-! ### C34 -/

section mdl
variable {T : Type _} [LinearOrder T]

/-- **C34** No instruction of the automata panics on a tree stack. -/
theorem C34_no_panic (i : MdInstr T) {t : TreeStack (MdElem T)} (h : Reachable t) : ∃ l, i.applyP t = some l ∧ i.apply t = l := by
  suffices ∃ l, i.applyP t = some l by
    obtain ⟨l, hl⟩ := this
    exact ⟨l, hl, by simp [MdInstr.apply, hl]⟩
  cases i with
  | up a c =>
    obtain ⟨s, h1, -⟩ := TreeStack.pushNext_some t (.node (some a) (MdInstr.remove c a))
    obtain ⟨l, h2, -⟩ := TreeStack.ups_some t
    exact ⟨_, by simp [MdInstr.applyP, h1, h2]; rfl⟩
  | upAt n a c =>
    simp only [MdInstr.applyP]
    cases hp : t.push n (.node (some a) (MdInstr.remove c a)) with
    | ok s => exact ⟨_, rfl⟩
    | error s =>
      obtain ⟨h1, rfl⟩ := TreeStack.push_err.1 hp
      obtain ⟨x, hx⟩ := up_of_label (TreeStack.reachable_wf h) (n := n)
        (by rw [ne_eq, TreeStack.label_child_none (TreeStack.reachable_wf h)]; exact h1)
      exact ⟨_, by simp only [hx]; rfl⟩
  | down a =>
    simp only [MdInstr.applyP]
    split
    · split
      · exact ⟨_, rfl⟩
      · split <;> exact ⟨_, rfl⟩
    · exact ⟨_, rfl⟩

private theorem cells_good {cells : List (List T)} (hs : ∀ c ∈ cells, c.Pairwise (· < ·)) {p : Partition T} (hp : Partition.new cells = some p) :
    (∀ c ∈ p.collapse, ∀ c' ∈ p.collapse, ∀ x, x ∈ c → x ∈ c' → c = c') ∧ (∀ c ∈ p.collapse, c.Nodup) ∧ ∀ c, c ∈ p.collapse ↔ c ∈ cells ∧ c ≠ [] := by
  have hmem : ∀ c, c ∈ p.collapse ↔ c ∈ cells ∧ c ≠ [] := by
    intro c
    rw [(C12_collapse cells hs p hp).mem_iff]
    simp
  have hget := (C12_lookup cells hs p hp).1
  refine ⟨?_, ?_, hmem⟩
  · intro c hc c' hc' x hx hx'
    have h1 := (hget x c).2 ⟨((hmem c).1 hc).1, hx⟩
    have h2 := (hget x c').2 ⟨((hmem c').1 hc').1, hx'⟩
    rw [h1] at h2
    exact Option.some.inj h2
  · intro c hc
    exact (hs c ((hmem c).1 hc).1).imp fun h => ne_of_lt h

private theorem grouped_cells {cells cells' : List (List T)} (h : ∀ c, c ∈ cells' ↔ c ∈ cells ∧ c ≠ []) (F : Pairs T) :
    F.Grouped cells' ↔ F.Grouped cells := by
  constructor
  · intro hF
    refine ⟨fun p g a hm => ?_, hF.parent⟩
    obtain ⟨c, hc, hp⟩ := hF.cell p g a hm
    exact ⟨c, ((h c).1 hc).1, hp⟩
  · intro hF
    refine ⟨fun p g a hm => ?_, hF.parent⟩
    obtain ⟨c, hc, hp⟩ := hF.cell p g a hm
    refine ⟨c, (h c).2 ⟨hc, ?_⟩, hp⟩
    rintro rfl
    have : a ∈ symsL (F.list none) g := mem_symsL.2 ⟨p, hm⟩
    exact absurd (hp.mem_iff.1 this) (by simp)

private theorem terminal_iff {ts : List (Transition (MdInstr T) (Bracket T) Nat)} {c : Configuration (TreeStack (MdElem T)) (Bracket T) Nat} :
    (Mda.automaton ts).isTerminal c = true ↔ c.word = [] ∧ (c.storage.isAtBottom && c.storage.all MdElem.isEmpty) = true := by
  simp only [Mda.automaton, Bool.and_eq_true, List.isEmpty_iff]
  tauto

private theorem transitions_eq (ts : List (Transition (MdInstr T) (Bracket T) Nat)) : (Mda.automaton ts).transitions = ts := by
  simp [Mda.automaton, Automaton.transitions]

/-- **C34** The runs of the automaton of `MultipleDyckLanguage::new`: there is an accepting one exactly for the words of the multiple Dyck language. -/
theorem C34_language (cells : List (List T)) (hs : ∀ c ∈ cells, c.Pairwise (· < ·)) (p : Partition T) (hp : Partition.new cells = some p)
    (w : List (Bracket T)) :
    (∃ ts c, IsRun (Mdl.new p).apply (Mdl.new p).transitions (Mdl.new p).initial w ts c ∧ (Mdl.new p).isTerminal c = true) ↔ MultipleDyck cells w := by
  obtain ⟨hdis, hnd, hmem⟩ := cells_good hs hp
  unfold Mdl.new
  simp only [terminal_iff, transitions_eq]
  constructor
  · rintro ⟨ts, c, h1, h2, h3⟩
    obtain ⟨F, h4, h5, _⟩ := sound_run (cells := p.collapse) (up := MdInstr.up) opensAs_up hnd h1 h2 h3
    exact ⟨F, h4, (grouped_cells hmem F).1 h5⟩
  · rintro ⟨F, rfl, hF⟩
    exact complete_run (cells := p.collapse) (up := MdInstr.up) opensAs_up hdis hnd F (totOk_up ((grouped_cells hmem F).2 hF))

/-- **C34** The runs of the automaton of `MultipleDyckLanguage::sorted`. -/
theorem C34_sorted_language (cells : List (List T)) (hs : ∀ c ∈ cells, c.Pairwise (· < ·)) (p : Partition T) (hp : Partition.new cells = some p)
    (sort : T → Nat) (w : List (Bracket T)) :
    (∃ ts c, IsRun (Mdl.sorted p sort).apply (Mdl.sorted p sort).transitions (Mdl.sorted p sort).initial w ts c ∧ (Mdl.sorted p sort).isTerminal c = true) ↔
      SortedMultipleDyck cells sort w := by
  obtain ⟨hdis, hnd, hmem⟩ := cells_good hs hp
  unfold Mdl.sorted
  simp only [terminal_iff, transitions_eq]
  constructor
  · rintro ⟨ts, c, h1, h2, h3⟩
    obtain ⟨F, h4, h5, h6⟩ := sound_run (cells := p.collapse) (up := fun a cell => MdInstr.upAt (sort a) a cell) (opensAs_upAt sort) hnd h1 h2 h3
    refine ⟨F, h4, (grouped_cells hmem F).1 h5, ?_⟩
    intro q g g' a a' hm hm'
    obtain ⟨n, rfl, hn⟩ := h6.child _ _ _ hm
    obtain ⟨n', rfl, hn'⟩ := h6.child _ _ _ hm'
    simp only [id] at hn hn'
    rw [hn, hn']
    simp
  · rintro ⟨F, rfl, hF, hFs⟩
    exact complete_run (cells := p.collapse) (up := fun a cell => MdInstr.upAt (sort a) a cell) (opensAs_upAt sort) hdis hnd F
      (totOk_upAt ((grouped_cells hmem F).2 hF) hFs)

private theorem recognise_word (w : List (Bracket T)) : w.mapM (fun t : Bracket T => some t) = some w := by
  induction w with
  | nil => rfl
  | cons a w ih => simp [List.mapM_cons, ih]

private theorem mapM_id {X : Type _} (l : List X) : l.mapM (fun t : X => some t) = some l := by
  induction l with
  | nil => rfl
  | cons a w ih => simp [List.mapM_cons, ih]

variable {H : Type _}

theorem recognize_spec {G : Agenda H (Item (TreeStack (MdElem T)) (MdInstr T) (Bracket T) Nat)}
    {content : H → Multiset (Item (TreeStack (MdElem T)) (MdInstr T) (Bracket T) Nat)} (hG : G.Lossless content) (empty : H) (hempty : content empty = 0)
    (ts : List (Transition (MdInstr T) (Bracket T) Nat)) (hread : ∀ t ∈ ts, t.word ≠ []) (w : List (Bracket T)) (L : Prop)
    (hL : (∃ us c, IsRun (Mda.automaton ts).apply (Mda.automaton ts).transitions (Mda.automaton ts).initial w us c ∧ (Mda.automaton ts).isTerminal c = true) ↔ L) :
    (∀ n a, Mdl.recognize (Mda.automaton ts) G empty w n = some (true, a) → L) ∧
    ∃ N, ∀ n ≥ N, ∃ b a, Mdl.recognize (Mda.automaton ts) G empty w n = some (b, a) ∧ G.pop a = none ∧ (b = true ↔ L) := by
  have hcoh : (Mda.automaton ts).Coherent := ⟨by simp [Mda.automaton], fun _ _ _ _ _ _ _ _ _ _ => rfl⟩
  have hout : ∀ n out a, (Mda.automaton ts).recognise G empty (some w) n = some (out, a) → Mdl.recognize (Mda.automaton ts) G empty w n = some (!out.isEmpty, a) := by
    intro n out a h
    unfold Mdl.recognize Automaton.recogniseOuter
    rw [mapM_id w, h]
    dsimp only
    rw [mapM_id]
    rfl
  have hno : ∀ n, ∃ out a, (Mda.automaton ts).recognise G empty (some w) n = some (out, a) := fun n =>
    Automaton.recognise_no_panic hG.sound hempty _ _ (fun _ _ _ _ _ => ⟨(), rfl⟩) n
  constructor
  · intro n a h
    obtain ⟨out, a', h1⟩ := hno n
    rw [hout n out a' h1] at h
    simp only [Option.some.injEq, Prod.mk.injEq, Bool.not_eq_true', List.isEmpty_eq_false_iff] at h
    obtain ⟨i, hi⟩ := List.exists_mem_of_ne_nil _ h.1
    obtain ⟨ht, w', hw', hr, _⟩ := C16_recognise_sound hG.sound empty hempty _ _ n out a' h1 i hi
    cases hw'
    exact hL.1 ⟨_, _, hr, ht⟩
  · obtain ⟨N, hN⟩ := Automaton.recognise_terminates hG.sound empty (Mda.automaton ts) (by rw [transitions_eq]; exact hread) (some w)
    refine ⟨N, fun n hn => ?_⟩
    obtain ⟨out, a, h1⟩ := hno n
    have hend := hN n hn out a h1
    refine ⟨_, a, hout n out a h1, hend, ?_⟩
    rw [← hL]
    simp only [Bool.not_eq_true', List.isEmpty_eq_false_iff]
    constructor
    · intro hne
      obtain ⟨i, hi⟩ := List.exists_mem_of_ne_nil _ hne
      exact ⟨_, _, (C17_recognise_exact hG empty hempty _ hcoh w n out a h1 hend i).1 hi⟩
    · rintro ⟨us, c, h2, h3⟩ hnil
      have := (C17_recognise_exact hG empty hempty _ hcoh w n out a h1 hend ⟨c, Pushdown.ofSlice us⟩).2 (by
        have hv : (Pushdown.ofSlice us).toVec = us := by unfold Pushdown.ofSlice; rw [Pushdown.toVec_foldl]; simp
        exact ⟨by rw [hv]; exact h2, h3⟩)
      rw [hnil] at this
      simp at this

/-- **C34** `MultipleDyckLanguage::new(p).recognize(w)` never panics, ends, and says whether `w` is in the multiple Dyck language of the partition. -/
theorem C34_recognize {G : Agenda H (Item (TreeStack (MdElem T)) (MdInstr T) (Bracket T) Nat)}
    {content : H → Multiset (Item (TreeStack (MdElem T)) (MdInstr T) (Bracket T) Nat)} (hG : G.Lossless content) (empty : H) (hempty : content empty = 0)
    (cells : List (List T)) (hs : ∀ c ∈ cells, c.Pairwise (· < ·)) (p : Partition T) (hp : Partition.new cells = some p) (w : List (Bracket T)) :
    (∀ n a, Mdl.recognize (Mdl.new p) G empty w n = some (true, a) → MultipleDyck cells w) ∧
    ∃ N, ∀ n ≥ N, ∃ b a, Mdl.recognize (Mdl.new p) G empty w n = some (b, a) ∧ G.pop a = none ∧ (b = true ↔ MultipleDyck cells w) := by
  refine recognize_spec hG empty hempty _ ?_ w _ (C34_language cells hs p hp w)
  intro t ht
  obtain ⟨c, _, a, _, rfl | rfl⟩ := mem_cellTransitions.1 ht <;> simp

/-- **C34** `MultipleDyckLanguage::sorted(p, sort).recognize(w)` never panics, ends, and says whether `w` is in the sorted multiple Dyck language. -/
theorem C34_sorted_recognize {G : Agenda H (Item (TreeStack (MdElem T)) (MdInstr T) (Bracket T) Nat)}
    {content : H → Multiset (Item (TreeStack (MdElem T)) (MdInstr T) (Bracket T) Nat)} (hG : G.Lossless content) (empty : H) (hempty : content empty = 0)
    (cells : List (List T)) (hs : ∀ c ∈ cells, c.Pairwise (· < ·)) (p : Partition T) (hp : Partition.new cells = some p) (sort : T → Nat) (w : List (Bracket T)) :
    (∀ n a, Mdl.recognize (Mdl.sorted p sort) G empty w n = some (true, a) → SortedMultipleDyck cells sort w) ∧
    ∃ N, ∀ n ≥ N, ∃ b a, Mdl.recognize (Mdl.sorted p sort) G empty w n = some (b, a) ∧ G.pop a = none ∧ (b = true ↔ SortedMultipleDyck cells sort w) := by
  refine recognize_spec hG empty hempty _ ?_ w _ (C34_sorted_language cells hs p hp sort w)
  intro t ht
  obtain ⟨c, _, a, _, rfl | rfl⟩ := mem_cellTransitions.1 ht <;> simp

/-- **C34** Words of multiple Dyck languages are Dyck words, and sorted ones are words of the unsorted language. -/
theorem C34_subset (cells : List (List T)) (sort : T → Nat) (w : List (Bracket T)) :
    (SortedMultipleDyck cells sort w → MultipleDyck cells w) ∧ (MultipleDyck cells w → Dyck w) :=
  ⟨fun ⟨F, h1, h2, _⟩ => ⟨F, h1, h2⟩, fun ⟨F, h1, _⟩ => (C33_pairs w).2 ⟨F, h1⟩⟩

end mdl

/-- The word of the test: `1 3 3 1 2 4 4 2` with the groups of its pairs. -/
private def exPairs : Pairs Nat := .pair 1 [0] (.pair 3 [0, 0] .nil .nil) (.pair 2 [0] (.pair 4 [0, 0] .nil .nil) .nil)

private theorem exPairs_grouped : exPairs.Grouped [[1, 2], [3, 4]] := by
  have hl : exPairs.list none = [(none, [0], 1), (some [0], [0, 0], 3), (none, [0], 2), (some [0], [0, 0], 4)] := rfl
  constructor
  · intro p g a h
    rw [hl] at h
    simp only [List.mem_cons, Prod.mk.injEq, List.not_mem_nil, or_false] at h
    rcases h with ⟨_, rfl, _⟩ | ⟨_, rfl, _⟩ | ⟨_, rfl, _⟩ | ⟨_, rfl, _⟩
    · exact ⟨[1, 2], by simp, by decide⟩
    · exact ⟨[3, 4], by simp, by decide⟩
    · exact ⟨[1, 2], by simp, by decide⟩
    · exact ⟨[3, 4], by simp, by decide⟩
  · intro p p' g a a' h h'
    rw [hl] at h h'
    simp only [List.mem_cons, Prod.mk.injEq, List.not_mem_nil, or_false] at h h'
    rcases h with ⟨rfl, rfl, _⟩ | ⟨rfl, rfl, _⟩ | ⟨rfl, rfl, _⟩ | ⟨rfl, rfl, _⟩ <;>
      rcases h' with ⟨rfl, h, _⟩ | ⟨rfl, h, _⟩ | ⟨rfl, h, _⟩ | ⟨rfl, h, _⟩ <;> first | rfl | (exact absurd h (by decide))

example : MultipleDyck [[1, 2], [3, 4]] [Bracket.open_ 1, .open_ 3, .close 3, .close 1, .open_ 2, .open_ 4, .close 4, .close 2] :=
  ⟨exPairs, rfl, exPairs_grouped⟩

private def exPartition : Partition Nat := (Partition.new [[1, 2], [3, 4]]).getD []

example : Partition.new [[1, 2], [3, 4]] = some exPartition := by decide

-- the partner of the inner pair is missing, or it is enclosed by another group
example : (Mdl.recognize (Mdl.new exPartition) (vecAgenda _) [] [Bracket.open_ 1, .open_ 3, .close 3, .close 1, .open_ 2, .open_ 4, .close 4, .close 2] 40).map Prod.fst = some true ∧
    (Mdl.recognize (Mdl.new exPartition) (vecAgenda _) [] [Bracket.open_ 1, .open_ 3, .close 3, .close 1, .open_ 2, .close 2] 40).map Prod.fst = some false ∧
    (Mdl.recognize (Mdl.new exPartition) (vecAgenda _) [] [Bracket.open_ 1, .open_ 3, .close 3, .close 1, .open_ 2, .close 2, .open_ 4, .close 4] 40).map Prod.fst = some false ∧
    (Mdl.recognize (Mdl.new exPartition) (vecAgenda _) [] [Bracket.open_ 1, .open_ 2, .close 1, .close 2] 40).map Prod.fst = some false := by
  decide

-- two groups of the same sort side by side
example : (Mdl.recognize (Mdl.new exPartition) (vecAgenda _) [] [Bracket.open_ 1, .close 1, .open_ 1, .close 1, .open_ 2, .close 2, .open_ 2, .close 2] 60).map Prod.fst = some true ∧
    (Mdl.recognize (Mdl.sorted exPartition fun x => (x + 1) / 2) (vecAgenda _) [] [Bracket.open_ 1, .close 1, .open_ 1, .close 1, .open_ 2, .close 2, .open_ 2, .close 2] 60).map Prod.fst = some false ∧
    (Mdl.recognize (Mdl.sorted exPartition fun x => (x + 1) / 2) (vecAgenda _) [] [Bracket.open_ 1, .open_ 3, .close 3, .close 1, .open_ 2, .open_ 4, .close 4, .close 2] 60).map Prod.fst = some true := by
  decide

end Rustomata.Props
