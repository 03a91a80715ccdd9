import Verif.Proofs.AutomatonText
import Verif.Props.FromStrTotal

/-!
# Properties C60, C61 and C62: the text of automata
-/

namespace Rustomata
open Nom Spec

/-! ### The text of instructions -/

theorem readUsize_inv {n : Nat} {s : List Nat} (h : readUsize s = some n) : NumberText n s := by
  have key : ∀ d : List Nat, d ≠ [] ∧ d.all (fun b => decide (48 ≤ b) && decide (b ≤ 57)) = true → parseUsize d = some n →
      n < 2 ^ 64 ∧ ∃ ds : List Nat, ds ≠ [] ∧ (∀ d ∈ ds, d < 10) ∧ Nat.ofDigits 10 ds = n ∧ d = ds.reverse.map (48 + ·) := by
    intro d hd hp
    obtain ⟨hne, hall⟩ := hd
    rw [List.all_eq_true] at hall
    have hb : ∀ b ∈ d, 48 ≤ b ∧ b ≤ 57 := fun b hb => by simpa using hall b hb
    have he : d = (d.reverse.map (· - 48)).reverse.map (48 + ·) := by
      rw [← List.map_reverse, List.reverse_reverse, List.map_map]
      conv_lhs => rw [← List.map_id d]
      refine List.map_congr_left fun b hb' => ?_
      have := hb b hb'
      simp only [id, Function.comp]
      omega
    rw [parseUsize] at hp
    split at hp
    · rename_i hlt
      rw [Option.some.injEq] at hp
      refine ⟨hp ▸ hlt, d.reverse.map (· - 48), by simpa using hne, ?_, ?_, he⟩
      · intro x hx
        obtain ⟨b, hb', rfl⟩ := List.mem_map.mp hx
        have := hb b (List.mem_reverse.mp hb')
        omega
      · rw [← hp, ← digitsValue_digits, ← he]
    · cases hp
  simp only [readUsize] at h
  split at h
  · rename_i h43
    split at h
    · rename_i hd
      obtain ⟨h1, ds, h2, h3, h4, h5⟩ := key _ hd h
      cases s with
      | nil => cases h43
      | cons b s =>
        rw [List.head?_cons, Option.some.injEq] at h43
        exact ⟨h1, ds, h2, h3, h4, .inr (by rw [h43]; exact congrArg _ h5)⟩
    · cases h
  · split at h
    · rename_i hd
      obtain ⟨h1, ds, h2, h3, h4, h5⟩ := key _ hd h
      exact ⟨h1, ds, h2, h3, h4, .inl h5⟩
    · cases h

namespace Props

section
variable {A Q T W : Type _}

/-- C60: the texts that are read as an instruction of a finite state automaton. -/
theorem C60_fs_instruction {c : Codec Q} {i : FsInstr Q} {t : List Nat} : FsInstr.fromStr c t = some (some i) ↔ FsInstrText c i t := by
  refine ⟨fun h => ?_, fsInstr_read⟩
  rw [FsInstr.fromStr] at h
  split at h
  · rename_i p a q e
    split at h
    · rename_i ha
      split at h
      · rename_i hp hq
        rw [Option.some.injEq, Option.some.injEq] at h
        rw [← h]
        exact .mk hp hq ha (splitWhite_iff.mp e)
      · cases h
    · cases h
  · cases h

/-- C60: the texts that are read as an instruction of a tree stack automaton. -/
theorem C60_ts_instruction {c : Codec A} {i : TsInstr A} {t : List Nat} : TsInstr.fromStr c t = some (some i) ↔ TsInstrText c i t := by
  refine ⟨fun h => ?_, tsInstr_read⟩
  rw [TsInstr.fromStr] at h
  split at h
  · cases h
  · rename_i k x y z e
    split at h
    · rename_i hk
      split at h
      · rename_i h1 h2 h3
        rw [Option.some.injEq, Option.some.injEq] at h
        rw [← h]
        rw [hk] at e
        exact .push (readUsize_inv h1) h2 h3 (splitWhite_iff.mp e)
      · cases h
    · split at h
      · rename_i hk
        split at h
        · rename_i h1 h2 h3
          rw [Option.some.injEq, Option.some.injEq] at h
          rw [← h]
          rw [hk] at e
          exact .down h1 h2 h3 (splitWhite_iff.mp e)
        · cases h
      · cases h
  · rename_i k x y z u e
    split at h
    · rename_i hk
      split at h
      · rename_i h1 h2 h3 h4
        rw [Option.some.injEq, Option.some.injEq] at h
        rw [← h]
        rw [hk] at e
        exact .up (readUsize_inv h1) h2 h3 h4 (splitWhite_iff.mp e)
      · cases h
    · cases h
  · cases h

/-- C60 for transitions of finite state automata. -/
theorem C60_fs_transition [One W] {cq : Codec Q} {ct : Codec T} {cw : Codec W} {t : Transition (FsInstr Q) T W} {s : List Nat}
    (h : TransitionText ct cw (FsInstrText cq) t s) : Transition.fromStr ct cw (FsInstr.fromStr cq) s = some (some t) :=
  transition_read (read := FsInstr.fromStr cq) (instr := FsInstrText cq) (fun _ _ h => fsInstr_read h) h

/-- C60 for transitions of tree stack automata. -/
theorem C60_ts_transition [One W] {ca : Codec A} {ct : Codec T} {cw : Codec W} {t : Transition (TsInstr A) T W} {s : List Nat}
    (h : TransitionText ct cw (TsInstrText ca) t s) : Transition.fromStr ct cw (TsInstr.fromStr ca) s = some (some t) :=
  transition_read (read := TsInstr.fromStr ca) (instr := TsInstrText ca) (fun _ _ h => tsInstr_read h) h

section
variable [One W] [DecidableEq Q] [DecidableEq T] {cq : Codec Q} {ct : Codec T} {cw : Codec W}
  {ds : List (Decl Q (Transition (FsInstr Q) T W))} {s : List Nat}

/-- C60 for finite state automata: the result is the automaton with the declared transitions, the last declared initial state and the last
declared final states. -/
theorem C60_fsa (h : AutFile (LineText True cq (TransitionText ct cw (FsInstrText cq))) ds s) {q : Q} (hq : Decl.lastInitial ds = some q) {qs : List Q}
    (hqs : Decl.lastFinals ds = some qs) (hne : qs ≠ []) : FSA.fromStr cq ct cw s = some (some (FSA.new (Decl.transitions ds) q qs)) := by
  have := fsaLoop_read (read := Transition.fromStr ct cw (FsInstr.fromStr cq)) (fun t s h => C60_fs_transition h) (fun t s h => transitionText_first h)
    (file_lines h) none [] []
  simp only [FSA.fromStr, this, hq, hqs, Option.getD_some, if_neg hne, List.nil_append]

/-- C60: without an initial state, or without final states, there is an error. -/
theorem C60_fsa_error (h : AutFile (LineText True cq (TransitionText ct cw (FsInstrText cq))) ds s)
    (hq : Decl.lastInitial ds = none ∨ Decl.lastFinals ds = none ∨ Decl.lastFinals ds = some []) : FSA.fromStr cq ct cw s = some none := by
  have := fsaLoop_read (read := Transition.fromStr ct cw (FsInstr.fromStr cq)) (fun t s h => C60_fs_transition h) (fun t s h => transitionText_first h)
    (file_lines h) none [] []
  rcases hq with hq | hq | hq
  · simp only [FSA.fromStr, this, hq]
  · cases hi : Decl.lastInitial ds <;> simp [FSA.fromStr, this, hq, hi]
  · cases hi : Decl.lastInitial ds <;> simp [FSA.fromStr, this, hq, hi]

end

section
variable [One W] [DecidableEq A] [DecidableEq T] {ca : Codec A} {ct : Codec T} {cw : Codec W}
  {ds : List (Decl A (Transition (TsInstr A) T W))} {s : List Nat}

/-- C60 for tree stack automata: the result is the automaton with the declared transitions and a tree stack with one node as initial storage,
labelled with the last declared initial symbol. -/
theorem C60_tsa (h : AutFile (LineText False ca (TransitionText ct cw (TsInstrText ca))) ds s) {a : A} (ha : Decl.lastInitial ds = some a) :
    TSA.fromStr ca ct cw s = some (some (TSA.new (Decl.transitions ds) (.new a))) := by
  have := tsaLoop_read (read := Transition.fromStr ct cw (TsInstr.fromStr ca)) (fun t s h => C60_ts_transition h) (fun t s h => transitionText_first h)
    (file_lines h) none []
  simp only [TSA.fromStr, this, ha, List.nil_append]

/-- C60: without an initial symbol, there is an error. -/
theorem C60_tsa_error (h : AutFile (LineText False ca (TransitionText ct cw (TsInstrText ca))) ds s) (ha : Decl.lastInitial ds = none) :
    TSA.fromStr ca ct cw s = some none := by
  have := tsaLoop_read (read := Transition.fromStr ct cw (TsInstr.fromStr ca)) (fun t s h => C60_ts_transition h) (fun t s h => transitionText_first h)
    (file_lines h) none []
  simp only [TSA.fromStr, this, ha]

end

end

namespace C60Example
open C48Example

/-- The text of a file with a finite state automaton (the example of the tests, finite_state_automaton/from_str.rs:97-101). -/
def fsaFile : List Nat := "initial: 18 % end-of-line comment 1\nfinal: [1, 2]\n\nTransition [] (1 -> 2) # 1 % end-of-line comment 2".toList.map Char.toNat

/-- The file conforms to the description. -/
example : AutFile (LineText True num (TransitionText str num (FsInstrText num)))
    [.initial 18, .final [1, 2], .nothing, .transition ⟨[], 1, ⟨1, 2⟩⟩] fsaFile := by
  have hw : ∀ s : List Nat, s.all (· = 32) = true → Spaces s := fun s h b hb => by simpa using List.all_eq_true.mp h b hb
  have ht : ∀ (n : Nat) (s : List Nat), num.read s = some n → s ≠ [] → (s.all fun b => 48 ≤ b && b ≤ 57) = true → TokenText num n s := by
    intro n s h1 h2 h3
    refine .bare h2 (fun b hb => ?_) h1
    have := List.all_eq_true.mp h3 b hb
    simp only [Bool.and_eq_true, decide_eq_true_eq] at this
    simp only [List.mem_cons, List.not_mem_nil, or_false, not_or]
    omega
  have hws : Whites [] := whites_nil
  have hwd : ∀ s : List Nat, s ≠ [] → s.all (fun b => !isWhite b) = true → WordText s := fun s h1 h2 => wordText_of h1 fun b hb => by
    have := List.all_eq_true.mp h2 b hb
    rwa [Bool.not_eq_true'] at this
  refine .cons (e := [10]) (l := "initial: 18 % end-of-line comment 1".toList.map Char.toNat) ?_ (by decide +kernel) (by decide +kernel) (.inl rfl) <|
    .cons (e := [10]) (l := "final: [1, 2]".toList.map Char.toNat) ?_ (by decide +kernel) (by decide +kernel) (.inl rfl) <|
    .cons (e := [10]) (l := []) .empty (by decide) (by decide) (.inl rfl) <| .last ?_ (by decide +kernel) (by decide +kernel)
  · exact .initial (u := []) (w := [32]) (s := ascii ['1', '8']) (r := 32 :: "% end-of-line comment 1".toList.map Char.toNat) hws (hw _ rfl)
      (ht 18 _ (by decide +kernel) (by decide) (by decide)) (.inr (.inl ⟨_, rfl⟩))
  · exact .final (u := []) (w := [32]) (s := ascii ['[', '1', ',', ' ', '2', ']']) (r := []) trivial hws (hw _ rfl)
      (.elems (w := []) (hw _ rfl) (.cons (s := ascii ['1']) (w := []) (w' := [32]) (t := ascii ['2']) (ht 1 _ (by decide +kernel) (by decide) (by decide))
        (hw _ rfl) (hw _ rfl) (.one (s := ascii ['2']) (w := []) (ht 2 _ (by decide +kernel) (by decide) (by decide)) (hw _ rfl))))
  · have hfs : FsInstrText num ⟨1, 2⟩ (ascii ['1', ' ', '-', '>', ' ', '2']) := .mk (sp := ascii ['1']) (sq := ascii ['2']) (by decide +kernel) (by decide +kernel) (.inl rfl)
      (.cons (w := []) (c := [32]) (s := ascii ['1']) hws (hwd _ (by decide) (by decide)) white_space
      (.cons (w := []) (c := [32]) (s := ascii ['-', '>']) hws (hwd _ (by decide) (by decide)) white_space
      (.last (w := []) hws (hwd _ (by decide) (by decide)))))
    have := TransitionText.mk (ct := str) (w₁ := [32]) (w₂ := [32]) (w₃ := [32]) (hw _ rfl) (.nil (w := []) (hw _ rfl)) (hw _ rfl) hfs
      (by decide) (hw _ rfl) (.both (c := num) (w := [32]) (s := ascii ['1']) (w' := []) (r := " end-of-line comment 2".toList.map Char.toNat) (v := 1) (hw _ rfl)
        (hwd _ (by decide) (by decide)) (by decide +kernel) (hw _ rfl))
    exact .transition (u := []) (v := []) (s := "Transition [] (1 -> 2) # 1 % end-of-line comment 2".toList.map Char.toNat) hws this
      (no_white_suffix (b := 50) (by decide) ("Transition [] (1 -> 2) # 1 % end-of-line comment ".toList.map Char.toNat)) hws

set_option synthInstance.maxSize 512 in
/-- The result of parsing the file. -/
example : (FSA.fromStr num str num fsaFile).map (Option.map fun P => (P.listTransitions, P.initialState, P.finals.map P.qInt.findValue)) =
    some (some (some [⟨[], 1, ⟨1, 2⟩⟩], some 18, [some 1, some 2])) := by decide +kernel

/-- Words can be separated by white space outside of ASCII, here U+00A0, U+2003 and U+3000; the arrow begins with the same byte as U+2003. -/
example : splitWhite ([0xC2, 0xA0] ++ ascii ['1', ' '] ++ arrow ++ [0xE2, 0x80, 0x83, 50, 0xE3, 0x80, 0x80]) = [ascii ['1'], arrow, ascii ['2']] ∧
    trim ([0xE2, 0x80, 0xAF, 9] ++ arrow ++ [0xC2, 0x85]) = arrow := by decide

set_option synthInstance.maxSize 512 in
/-- A file with a tree stack automaton; the last declaration of the initial symbol counts. -/
example : (TSA.fromStr num str num ("  initial: 5\r\n\tinitial: \"7\"\nTransition [\"a\", b] (Up +1 7  8 9)\t# 3\n".toList.map Char.toNat)).map
    (Option.map fun P => (P.listTransitions, P.initialStack)) =
    some (some (some [⟨[ascii ['a'], ascii ['b']], 3, .up 1 7 8 9⟩], some (.new 7))) := by decide +kernel

/-- A line that consists of white space is an error. -/
example : (TSA.fromStr num str num ("initial: 5\n \n".toList.map Char.toNat)).map (Option.map fun P => P.initialStack) = some none := by decide +kernel

end C60Example

end Props
end Rustomata
