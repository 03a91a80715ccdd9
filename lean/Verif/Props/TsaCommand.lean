import Verif.Model.TsaCommand
import Verif.Proofs.TopOf
import Verif.Proofs.TsaOnce
import Verif.Props.CfgCommand

/-!
# Property C76: the command `tsa recognise`

Only property theorems, the lemmas that combine them, and the examples that show their hypotheses to be satisfiable.
-/

namespace Rustomata.Props
open Rustomata Rustomata.Spec
variable {W H : Type _}

section
variable [Mul W] [One W] {ts : List (Transition (TsInstr (List Nat)) (List Nat) W)} {s : List Nat} {P : TSA (List Nat) (List Nat) W}
  {ag : Agenda H (Item (TreeStack Nat) (TsInstr Nat) Nat W)} {content : H → Multiset (Item (TreeStack Nat) (TsInstr Nat) Nat W)} {empty : H}
  {dbgWord : List (List Nat) → List Nat} {dbgRun : Pushdown (Transition (TsInstr (List Nat)) (List Nat) W) → List Nat}

theorem tsaSentence_some {n m : Nat} {w : List (List Nat)} {text : List Nat} (h : tsaSentence P dbgWord dbgRun ag empty n m w = some (some text)) :
    ∃ out a, P.recognise ag empty w m = some (out, a) ∧ (n ≤ out.length ∨ ag.pop a = none) ∧ text = runsText dbgWord dbgRun w (out.take n) := by
  unfold tsaSentence at h
  cases hrun : P.recognise ag empty w m with
  | none => rw [hrun] at h; cases h
  | some x =>
    obtain ⟨out, a⟩ := x
    rw [hrun] at h
    simp only at h
    split at h
    · rename_i hc
      cases h
      exact ⟨out, a, rfl, by simpa using hc, rfl⟩
    · cases h

/-- **C76** No panic in the loop over the runs, whatever the agenda is. -/
theorem C76_no_panic (hG : ag.Sound content) (hempty : content empty = 0) (n m : Nat) (w : List (List Nat)) :
    ∃ r, tsaSentence (TSA.new ts (.new s)) dbgWord dbgRun ag empty n m w = some r := by
  obtain ⟨⟨out, a⟩, hrun⟩ := (C51_tsa_no_panic ts (.new s) (.new _) hG hempty w m).1
  unfold tsaSentence
  rw [hrun]
  simp only
  split
  · exact ⟨_, rfl⟩
  · exact ⟨_, rfl⟩

/-- **C76** Soundness, whatever the agenda is (e.g. with a beam): what is printed for a sentence are at most `n` accepting runs for this sentence; if no transition occurs
twice, no run is printed twice. -/
theorem C76_sentence_sound (hG : ag.Sound content) (hempty : content empty = 0) {n m : Nat} {w : List (List Nat)} {text : List Nat}
    (h : tsaSentence (TSA.new ts (.new s)) dbgWord dbgRun ag empty n m w = some (some text)) :
    ∃ is, is.length ≤ n ∧ (∀ i ∈ is, ParseOf (tsaDevice ts s) w i) ∧ (ts.Nodup → (is.map fun i => i.run.toVec).Nodup) ∧ text = runsText dbgWord dbgRun w is := by
  obtain ⟨out, a, hrun, _, rfl⟩ := tsaSentence_some h
  refine ⟨out.take n, by simp, fun i hi => C16_tsa_sound ts (.new s) hG hempty hrun i (List.mem_of_mem_take hi), fun hnd => ?_, rfl⟩
  obtain ⟨L, h1, h2, h3, h4⟩ := TSA.new_represents (W := W) ts (.new s)
  exact (h4.once hG hempty (h2.nodup_iff.2 hnd) (fun i s => TsInstr.apply_length i s) hrun).sublist ((List.take_sublist n out).map _)

/-- **C76** Without a beam: the `n` best accepting runs are printed, the best one first. -/
theorem C76_sentence_best [LinearOrder W] (hw : ∀ t ∈ ts, ∀ u : W, u * t.weight ≤ u) (hG : HeapLaws ag content fun i => i.conf.weight) (hempty : content empty = 0) {n m : Nat}
    {w : List (List Nat)} {text : List Nat} (h : tsaSentence (TSA.new ts (.new s)) dbgWord dbgRun ag empty n m w = some (some text)) :
    ∃ is, TopOf (ParseOf (tsaDevice ts s) w) (fun i => i.conf.weight) n is ∧ (ts.Nodup → (is.map fun i => i.run.toVec).Nodup) ∧ text = runsText dbgWord dbgRun w is := by
  obtain ⟨out, a, hrun, hfin, rfl⟩ := tsaSentence_some h
  obtain ⟨L, h1, h2, h3, h4⟩ := TSA.new_represents (W := W) ts (.new s)
  have hw' : ∀ t ∈ (TSA.device L (.new s)).transitions, ∀ u : W, u * t.weight ≤ u := fun t ht => hw t (h2.mem_iff.1 ht)
  have hiff : ∀ i, ParseOf (TSA.device L (.new s)) w i ↔ ParseOf (tsaDevice ts s) w i := fun i =>
    and_congr_right fun _ => ⟨fun h => ⟨⟨h.1.1, fun t ht => h2.mem_iff.1 (h.1.2 t ht)⟩, h.2⟩, fun h => ⟨⟨h.1.1, fun t ht => h2.mem_iff.2 (h.1.2 t ht)⟩, h.2⟩⟩
  have htop := h4.top (TSA.new_coherent ts (.new s)) hG hempty hw' hrun hfin
  refine ⟨out.take n, ⟨htop.length, fun i hi => (hiff i).1 (htop.all i hi), htop.sorted, fun i hi => htop.best i ((hiff i).2 hi)⟩, fun hnd => ?_, rfl⟩
  exact (h4.once hG.lossless.sound hempty (h2.nodup_iff.2 hnd) (fun i s => TsInstr.apply_length i s) hrun).sublist ((List.take_sublist n out).map _)

/-- **C76** More steps do not change what is printed. -/
theorem C76_steps (hG : ag.Sound content) (hempty : content empty = 0) {n m m' : Nat} {w : List (List Nat)} {text : List Nat} (hm : m ≤ m')
    (h : tsaSentence (TSA.new ts (.new s)) dbgWord dbgRun ag empty n m w = some (some text)) :
    tsaSentence (TSA.new ts (.new s)) dbgWord dbgRun ag empty n m' w = some (some text) := by
  obtain ⟨⟨out', a'⟩, h'⟩ := (C51_tsa_no_panic ts (.new s) (.new _) hG hempty w m').1
  obtain ⟨out, a, hrun, hfin, rfl⟩ := tsaSentence_some h
  obtain ⟨out₁, a₁, h1, h2, h3⟩ := Automaton.recogniseOuter_mono h' hm
  have := h1.symm.trans hrun
  simp only [Option.some.injEq, Prod.mk.injEq] at this
  obtain ⟨rfl, rfl⟩ := this
  unfold tsaSentence
  rw [h']
  simp only
  rcases hfin with hn | hp
  · obtain ⟨l, rfl⟩ := h2
    rw [if_pos (.inl (by simp; omega)), List.take_append_of_le_length hn]
    rfl
  · obtain ⟨rfl, rfl⟩ := h3 hp
    rw [if_pos (.inr (by rw [hp]; rfl))]
    rfl

theorem tsaSentence_of_run {n m : Nat} {w : List (List Nat)} {out : List (Item (TreeStack (List Nat)) (TsInstr (List Nat)) (List Nat) W)} {a : H}
    (hrun : P.recognise ag empty w m = some (out, a)) (hfin : n ≤ out.length ∨ ag.pop a = none) :
    tsaSentence P dbgWord dbgRun ag empty n m w = some (some (runsText dbgWord dbgRun w (out.take n))) := by
  unfold tsaSentence
  rw [hrun]
  simp only
  rw [if_pos (by simpa using hfin)]
  rfl

/-- **C76** The loop over the runs finishes if the lengths of the runs on the sentence are bounded, for each number of runs. -/
theorem C76_sentence_ends (hG : ag.Sound content) (hempty : content empty = 0) (n : Nat) {w : List (List Nat)} {l : Nat}
    (hl : ∀ us c, IsRun TsInstr.apply ts (TreeStack.new s) w us c → us.length ≤ l) :
    ∃ text m₀, ∀ m ≥ m₀, tsaSentence (TSA.new ts (.new s)) dbgWord dbgRun ag empty n m w = some (some text) := by
  obtain ⟨L, h1, h2, h3, h4⟩ := TSA.new_represents (W := W) ts (.new s)
  obtain ⟨m₀, hm⟩ := h4.ends hG hempty w (L := l) fun us c hc => hl us c ⟨hc.1, fun t ht => h2.mem_iff.1 (hc.2 t ht)⟩
  obtain ⟨⟨out, a⟩, hrun⟩ := (C51_tsa_no_panic ts (.new s) (.new _) hG hempty w m₀).1
  exact ⟨_, m₀, fun m hm' => C76_steps hG hempty hm' (tsaSentence_of_run hrun (.inr (hm m₀ (le_refl _) out a hrun)))⟩

/-- **C76** Otherwise, the loop finishes if there are `n` accepting runs such that the lengths of the runs that are not worse than one of them are bounded. -/
theorem C76_sentence_fair [LinearOrder W] (hw : ∀ t ∈ ts, ∀ u : W, u * t.weight ≤ u) (hG : HeapLaws ag content fun i => i.conf.weight) (hempty : content empty = 0)
    {w : List (List Nat)} {is : List (Item (TreeStack (List Nat)) (TsInstr (List Nat)) (List Nat) W)} (hnd : is.Nodup)
    (his : ∀ i ∈ is, ParseOf (tsaDevice ts s) w i) {v : W} (hv : ∀ i ∈ is, v ≤ i.conf.weight) {l : Nat}
    (hl : ∀ us c, IsRun TsInstr.apply ts (TreeStack.new s) w us c → v ≤ c.weight → us.length ≤ l) :
    ∃ text m₀, ∀ m ≥ m₀, tsaSentence (TSA.new ts (.new s)) dbgWord dbgRun ag empty is.length m w = some (some text) := by
  obtain ⟨m₀, hm⟩ := C70_tsa ts (.new s) hw hl hG hempty
  obtain ⟨⟨out, a⟩, hrun⟩ := (C51_tsa_no_panic ts (.new s) (.new _) hG.lossless.sound hempty w m₀).1
  have hsub : is ⊆ out := fun i hi => hm m₀ (le_refl _) out a hrun i (his i hi).1 (his i hi).2 (hv i hi)
  exact ⟨_, m₀, fun m hm' => C76_steps hG.lossless.sound hempty hm' (tsaSentence_of_run hrun (.inl (hnd.subperm hsub).length_le))⟩

end

/-! ### The command -/

section
variable [Mul W] [One W] {P : TSA (List Nat) (List Nat) W} {ag : Agenda H (Item (TreeStack Nat) (TsInstr Nat) Nat W)} {empty : H}
  {dbgWord : List (List Nat) → List Nat} {dbgRun : Pushdown (Transition (TsInstr (List Nat)) (List Nat) W) → List Nat} {n m : Nat}

theorem tsaLines_some {ls : List (List Nat)} {text : List Nat} (h : tsaLines P dbgWord dbgRun ag empty n m ls = some (some text)) :
    ∃ answers, List.Forall₂ (fun x answer => tsaSentence P dbgWord dbgRun ag empty n m (splitWhite x) = some (some answer)) ls answers ∧ text = answers.flatten := by
  induction ls generalizing text with
  | nil => cases h; exact ⟨[], .nil, rfl⟩
  | cons line ls ih =>
    unfold tsaLines at h
    split at h
    · cases h
    · cases h
    · rename_i t ht
      obtain ⟨o, h1, h2⟩ := Option.map_eq_some_iff.1 h
      obtain ⟨rest, rfl, rfl⟩ := Option.map_eq_some_iff.1 h2
      obtain ⟨answers, h3, rfl⟩ := ih h1
      exact ⟨t :: answers, .cons ht h3, by simp⟩

theorem tsaLines_no_panic {ls : List (List Nat)} (h : ∀ x ∈ ls, ∃ r, tsaSentence P dbgWord dbgRun ag empty n m (splitWhite x) = some r) :
    ∃ r, tsaLines P dbgWord dbgRun ag empty n m ls = some r := by
  induction ls with
  | nil => exact ⟨_, rfl⟩
  | cons x ls ih =>
    obtain ⟨r, hr⟩ := h x (by simp)
    obtain ⟨r', hr'⟩ := ih fun x hx => h x (by simp [hx])
    unfold tsaLines
    rw [hr]
    cases r with
    | none => exact ⟨_, rfl⟩
    | some t => simp only [hr', Option.map_some]; exact ⟨_, rfl⟩

theorem tsaLines_finishes {ls : List (List Nat)}
    (h : ∀ x ∈ ls, ∃ text m₀, ∀ m ≥ m₀, tsaSentence P dbgWord dbgRun ag empty n m (splitWhite x) = some (some text)) :
    ∃ text m₀, ∀ m ≥ m₀, tsaLines P dbgWord dbgRun ag empty n m ls = some (some text) := by
  induction ls with
  | nil => exact ⟨[], 0, fun _ _ => rfl⟩
  | cons x ls ih =>
    obtain ⟨t, m₁, h1⟩ := h x (by simp)
    obtain ⟨ts, m₂, h2⟩ := ih fun x hx => h x (by simp [hx])
    refine ⟨t ++ ts, max m₁ m₂, fun m hm => ?_⟩
    unfold tsaLines
    rw [h1 m (le_trans (le_max_left _ _) hm)]
    simp only
    rw [h2 m (le_trans (le_max_right _ _) hm)]
    rfl

variable {ts : List (Transition (TsInstr (List Nat)) (List Nat) W)} {s : List Nat} {cw : Codec W} {automaton corpus : List Nat}

theorem tsaCommand_lines (hf : TsaFile cw s ts automaton) :
    tsaCommand cw dbgWord dbgRun ag empty n m automaton corpus = tsaLines (TSA.new ts (.new s)) dbgWord dbgRun ag empty n m (lines corpus) := by
  obtain ⟨ls, ds, h1, h2, h3, rfl⟩ := hf
  unfold tsaCommand
  rw [C65_tsa.2 ⟨ls, ds, s, h1, h2, h3, rfl⟩]

/-- What holds for the output of each sentence holds for the output of the command. -/
theorem tsaCommand_answers (hf : TsaFile cw s ts automaton) {ls : List (List Nat)} (hls : LinesOf ls corpus) {R : List (List Nat) → List Nat → Prop}
    (hR : ∀ line ∈ ls, ∀ w, WordsText w line → (∃ r, tsaSentence (TSA.new ts (.new s)) dbgWord dbgRun ag empty n m w = some r) ∧
      ∀ text, tsaSentence (TSA.new ts (.new s)) dbgWord dbgRun ag empty n m w = some (some text) → R w text) :
    ∃ r, tsaCommand cw dbgWord dbgRun ag empty n m automaton corpus = some r ∧ ∀ text, r = some text → ∃ answers : List (List Nat),
      List.Forall₂ (fun line answer => ∃ w, WordsText w line ∧ R w answer) ls answers ∧ text = answers.flatten := by
  rw [tsaCommand_lines hf, lines_iff.2 hls]
  obtain ⟨r, hr⟩ := tsaLines_no_panic (P := TSA.new ts (.new s)) (dbgWord := dbgWord) (dbgRun := dbgRun) (ag := ag) (empty := empty) (n := n) (m := m) (ls := ls)
    (fun x hx => (hR x hx _ (splitWhite_iff.1 rfl)).1)
  refine ⟨r, hr, ?_⟩
  rintro text rfl
  obtain ⟨answers, h1, rfl⟩ := tsaLines_some hr
  refine ⟨answers, ?_, rfl⟩
  clear hr hls
  induction h1 with
  | nil => exact .nil
  | @cons line answer ls answers h1 h2 ih =>
    have hw := splitWhite_iff.1 (rfl : splitWhite line = splitWhite line)
    exact .cons ⟨_, hw, (hR line (by simp) _ hw).2 _ h1⟩ (ih fun x hx => hR x (by simp [hx]))

variable {content : H → Multiset (Item (TreeStack Nat) (TsInstr Nat) Nat W)}

/-- **C76** The command with a beam, or with any other agenda: the lines are answered one after the other, and each answer consists of the sentence and at most `n` accepting
runs for it. There is no panic. -/
theorem C76_command_sound (hf : TsaFile cw s ts automaton) (hG : ag.Sound content) (hempty : content empty = 0) {ls : List (List Nat)} (hls : LinesOf ls corpus) :
    ∃ r, tsaCommand cw dbgWord dbgRun ag empty n m automaton corpus = some r ∧ ∀ text, r = some text → ∃ answers : List (List Nat),
      List.Forall₂ (fun line answer => ∃ w, WordsText w line ∧ ∃ is, is.length ≤ n ∧ (∀ i ∈ is, ParseOf (tsaDevice ts s) w i) ∧
        (ts.Nodup → (is.map fun i => i.run.toVec).Nodup) ∧ answer = runsText dbgWord dbgRun w is) ls answers ∧ text = answers.flatten :=
  tsaCommand_answers (R := fun w answer => ∃ is, is.length ≤ n ∧ (∀ i ∈ is, ParseOf (tsaDevice ts s) w i) ∧ (ts.Nodup → (is.map fun i => i.run.toVec).Nodup) ∧
    answer = runsText dbgWord dbgRun w is) hf hls fun _ _ w _ => ⟨C76_no_panic hG hempty n m w, fun _ h => C76_sentence_sound hG hempty h⟩

/-- **C76** The command without a beam: the answer to each line are the `n` best accepting runs. -/
theorem C76_command_best [LinearOrder W] (hf : TsaFile cw s ts automaton) (hw : ∀ t ∈ ts, ∀ u : W, u * t.weight ≤ u)
    (hG : HeapLaws ag content fun i => i.conf.weight) (hempty : content empty = 0) {ls : List (List Nat)} (hls : LinesOf ls corpus) :
    ∃ r, tsaCommand cw dbgWord dbgRun ag empty n m automaton corpus = some r ∧ ∀ text, r = some text → ∃ answers : List (List Nat),
      List.Forall₂ (fun line answer => ∃ w, WordsText w line ∧ ∃ is, TopOf (ParseOf (tsaDevice ts s) w) (fun i => i.conf.weight) n is ∧
        (ts.Nodup → (is.map fun i => i.run.toVec).Nodup) ∧ answer = runsText dbgWord dbgRun w is) ls answers ∧ text = answers.flatten :=
  tsaCommand_answers (R := fun w answer => ∃ is, TopOf (ParseOf (tsaDevice ts s) w) (fun i => i.conf.weight) n is ∧ (ts.Nodup → (is.map fun i => i.run.toVec).Nodup) ∧
    answer = runsText dbgWord dbgRun w is) hf hls fun _ _ w _ => ⟨C76_no_panic hG.lossless.sound hempty n m w, fun _ h => C76_sentence_best hw hG hempty h⟩

/-- **C76** Total correctness: if the lengths of the runs on each line of the input are bounded, the command finishes and prints the `n` best accepting runs of each line. -/
theorem C76_command_total [LinearOrder W] (hf : TsaFile cw s ts automaton) (hw : ∀ t ∈ ts, ∀ u : W, u * t.weight ≤ u)
    (hG : HeapLaws ag content fun i => i.conf.weight) (hempty : content empty = 0) {ls : List (List Nat)} (hls : LinesOf ls corpus)
    (hl : ∀ line ∈ ls, ∀ w, WordsText w line → ∃ l, ∀ us c, IsRun TsInstr.apply ts (TreeStack.new s) w us c → us.length ≤ l) (n : Nat) :
    ∃ answers : List (List Nat),
      List.Forall₂ (fun line answer => ∃ w, WordsText w line ∧ ∃ is, TopOf (ParseOf (tsaDevice ts s) w) (fun i => i.conf.weight) n is ∧
        (ts.Nodup → (is.map fun i => i.run.toVec).Nodup) ∧ answer = runsText dbgWord dbgRun w is) ls answers ∧
      ∃ m₀, ∀ m ≥ m₀, tsaCommand cw dbgWord dbgRun ag empty n m automaton corpus = some (some answers.flatten) := by
  obtain ⟨text, m₀, hm⟩ := tsaLines_finishes (P := TSA.new ts (.new s)) (dbgWord := dbgWord) (dbgRun := dbgRun) (ag := ag) (empty := empty) (n := n) (ls := ls) fun x hx => by
    obtain ⟨l, hl⟩ := hl x hx _ (splitWhite_iff.1 rfl)
    exact C76_sentence_ends hG.lossless.sound hempty n hl
  have hm' : ∀ m ≥ m₀, tsaCommand cw dbgWord dbgRun ag empty n m automaton corpus = some (some text) := by
    intro m hm'
    rw [tsaCommand_lines hf, lines_iff.2 hls]
    exact hm m hm'
  obtain ⟨r, hr, hcor⟩ := C76_command_best (dbgWord := dbgWord) (dbgRun := dbgRun) (n := n) (m := m₀) hf hw hG hempty hls
  rw [hm' m₀ (le_refl _)] at hr
  obtain ⟨answers, h1, rfl⟩ := hcor text (Option.some.inj hr).symm
  exact ⟨answers, h1, m₀, hm'⟩

/-- **C76** The command panics if and only if the file is not an automaton. -/
theorem C76_panic (hG : ag.Sound content) (hempty : content empty = 0) :
    tsaCommand cw dbgWord dbgRun ag empty n m automaton corpus = none ↔ ¬ ∃ s ts, TsaFile cw s ts automaton := by
  constructor
  · rintro h ⟨s, ts, hf⟩
    obtain ⟨r, hr, _⟩ := C76_command_sound (dbgWord := dbgWord) (dbgRun := dbgRun) (n := n) (m := m) hf hG hempty (lines_iff.1 (rfl : lines corpus = lines corpus))
    rw [h] at hr
    cases hr
  · intro h
    unfold tsaCommand
    split
    · rename_i a ha
      obtain ⟨ls, ds, s, h1, h2, h3, _⟩ := C65_tsa.1 ha
      exact absurd ⟨s, _, ls, ds, h1, h2, h3, rfl⟩ h
    · rfl

theorem run_length_le {S I T : Type _} {ap : I → S → List S} {us : List (Transition I T W)} (hread : ∀ t ∈ us, t.word ≠ []) {c c' : Configuration S T W} (h : Exec ap c us c') :
    us.length ≤ c.word.length := by
  have hw := ((exec_iff_from ap us c c').1 h).1
  have : us.length ≤ (wordOf us).length := by
    clear hw h
    induction us with
    | nil => simp
    | cons t us ih =>
      have h1 := List.length_pos_iff.2 (hread t (by simp))
      have h2 := ih fun t ht => hread t (by simp [ht])
      simp only [wordOf, List.flatMap_cons, List.length_append, List.length_cons] at h2 ⊢
      omega
  rw [hw, List.length_append]
  omega

/-- **C76** If each transition reads something, the command finishes for each input. -/
theorem C76_command_reading [LinearOrder W] (hf : TsaFile cw s ts automaton) (hw : ∀ t ∈ ts, ∀ u : W, u * t.weight ≤ u) (hread : ∀ t ∈ ts, t.word ≠ [])
    (hG : HeapLaws ag content fun i => i.conf.weight) (hempty : content empty = 0) {ls : List (List Nat)} (hls : LinesOf ls corpus) (n : Nat) :
    ∃ answers : List (List Nat),
      List.Forall₂ (fun line answer => ∃ w, WordsText w line ∧ ∃ is, TopOf (ParseOf (tsaDevice ts s) w) (fun i => i.conf.weight) n is ∧
        (ts.Nodup → (is.map fun i => i.run.toVec).Nodup) ∧ answer = runsText dbgWord dbgRun w is) ls answers ∧
      ∃ m₀, ∀ m ≥ m₀, tsaCommand cw dbgWord dbgRun ag empty n m automaton corpus = some (some answers.flatten) :=
  C76_command_total hf hw hG hempty hls (fun _ _ w _ => ⟨w.length, fun _ _ hc => run_length_le (fun t ht => hread t (hc.2 t ht)) hc.1⟩) n

end

namespace C76Example
open C48Example C65Example

/-- An automaton for `aⁿ bⁿ`, where the first symbol can be read with two weights. -/
def automaton : List Nat := bytes "initial: @\nTransition [a] (Push 0 @ q) # 0\nTransition [a] (Push 0 @ q)\nTransition [a] (Push 0 q q)\n% comment\n\nTransition [b] (Down q q q)\nTransition [b] (Down q @ f) # 1\n"

def sym := bytes "@"
def q := bytes "q"
def a := bytes "a"
def b := bytes "b"

def trans : List (Transition (TsInstr (List Nat)) (List Nat) Nat) :=
  [⟨[a], 0, .push 0 sym q⟩, ⟨[a], 1, .push 0 sym q⟩, ⟨[a], 1, .push 0 q q⟩, ⟨[b], 1, .down q q q⟩, ⟨[b], 1, .down q sym (bytes "f")⟩]

set_option synthInstance.maxSize 512 in
theorem reads : TsaFile num sym trans automaton := by
  obtain ⟨ds, h1, h2⟩ := (tsaLoop_iff (c := stringCodec) (read := Transition.fromStr stringCodec num (TsInstr.fromStr stringCodec)) (fun _ _ => C65_ts_transition)
    (fun t s h => transitionReads_first h) (lines automaton) none [] (some sym, trans)).1 (by decide +kernel)
  simp only [tsaResult, Option.or_none, List.nil_append, Prod.mk.injEq] at h2
  exact ⟨lines automaton, ds, lines_iff.1 rfl, h1, h2.1.symm, h2.2⟩

/-- The command finishes for each input, and prints the `n` best accepting runs. -/
example (dbgWord : List (List Nat) → List Nat) (dbgRun : Pushdown (Transition (TsInstr (List Nat)) (List Nat) Nat) → List Nat) (n : Nat) {ls : List (List Nat)}
    {corpus : List Nat} (hls : LinesOf ls corpus) : ∃ answers : List (List Nat),
      List.Forall₂ (fun line answer => ∃ w, WordsText w line ∧ ∃ is, TopOf (ParseOf (tsaDevice trans sym) w) (fun i => i.conf.weight) n is ∧
        (trans.Nodup → (is.map fun i => i.run.toVec).Nodup) ∧ answer = runsText dbgWord dbgRun w is) ls answers ∧
      ∃ m₀, ∀ m ≥ m₀, tsaCommand num dbgWord dbgRun (listHeap fun i => i.conf.weight) [] n m automaton corpus = some (some answers.flatten) :=
  C76_command_reading reads (fun t ht u => by
      rcases Nat.le_one_iff_eq_zero_or_eq_one.1 ((by decide +kernel : ∀ t ∈ trans, t.weight ≤ 1) t ht) with h | h <;> rw [h] <;> omega)
    (by decide +kernel) (listHeap_laws _) rfl hls n

/-- The hypothesis about duplicates holds. -/
example : trans.Nodup := by decide +kernel

/-- Test: the output for `a b`, a blank line (which is accepted), and `a`. The runs are shown by their lengths. -/
example : tsaCommand num (fun w => natText w.length) (fun r => natText r.toVec.length) (listHeap fun i => i.conf.weight) [] 2 20 automaton (bytes "a b\n\na\n") =
    some (some (bytes "2:\n  2\n  2\n\n0:\n  0\n\n1:\n\n")) := by
  decide +kernel

end C76Example

end Rustomata.Props
