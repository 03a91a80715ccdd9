import Verif.Props.AutomatonText

/-!
# Property C62: parsing an automaton does not panic
-/

namespace Rustomata
open Nom Spec

section
variable {A Q T W I : Type _}

namespace Spec

/-- The text contains parentheses around a text (without closing parenthesis) that is no instruction. -/
def BadInstruction (read : List Nat → Option (Option I)) (s : List Nat) : Prop :=
  ∃ u t v, s = u ++ 40 :: (t ++ 41 :: v) ∧ 41 ∉ t ∧ ∀ i, read t ≠ some (some i)

end Spec

theorem takeUntil_inv {b : Nat} {i r s : List Nat} (h : takeUntil b i = .done r s) : i = s ++ r ∧ b ∉ s ∧ ∃ r', r = b :: r' := by
  unfold takeUntil at h
  split at h
  · cases h
  · split at h
    · rename_i hb
      obtain ⟨h1, h2, h3⟩ := takeWhile_inv (p := fun x => decide (x ≠ b)) (i := i) (r := r) (s := s) h
      refine ⟨h1, fun hs => by simpa using h2 b hs, ?_⟩
      cases r with
      | nil =>
        exfalso
        rw [h1, List.append_nil] at hb
        simpa using h2 b hb
      | cons c r =>
        have := h3 c r rfl
        simp only [ne_eq, decide_not, Bool.not_eq_eq_eq_not, Bool.not_false, decide_eq_true_eq] at this
        exact ⟨r, by rw [this]⟩
    · cases h

theorem tame_takeUntil {P : List Nat → Prop} (b : Nat) : Tame P (takeUntil b) := by
  refine ⟨fun i h => ?_, fun i r s h => ⟨s, (takeUntil_inv h).1.symm⟩⟩
  unfold takeUntil at h
  split at h
  · cases h
  · split at h <;> cases h

theorem tame_comment {P : List Nat → Prop} (hP : Up P) : Tame P (opt (complete parseComment)) :=
  tame_opt <| tame_complete <| tame_thn hP (tame_tag _) <| tame_thn hP (tame_takeWhile _) (tame_ret _)

/-- A panic is caused by a malformed weight or a malformed instruction. -/
theorem transition_panic [One W] {ct : Codec T} {cw : Codec W} {read : List Nat → Option (Option I)} {s : List Nat}
    (h : parseTransition ct cw read s = .panic) : BadWeight cw s ∨ BadInstruction read s := by
  have hup : Up (fun _ : List Nat => False) := fun _ _ _ h => h
  rcases chain_panic h with h | ⟨r₁, _, h1, h⟩
  · exact ((tame_tag (P := fun _ => False) _).1 _ h).elim
  rcases chain_panic h with h | ⟨r₂, w₂, h2, h⟩
  · exact ((tame_takeWhile (P := fun _ => False) _).1 _ h).elim
  rcases chain_panic h with h | ⟨r₃, word, h3, h⟩
  · exact ((tame_parseVec hup (tame_parseToken hup ct) _ _ _).1 _ h).elim
  rcases chain_panic h with h | ⟨r₄, w₄, h4, h⟩
  · exact ((tame_takeWhile (P := fun _ => False) _).1 _ h).elim
  rcases chain_panic h with h | ⟨r₅, body, h5, h⟩
  · exact ((tame_thn hup (tame_tag _) (tame_terminated hup (tame_takeUntil _) (tame_tag _))).1 _ h).elim
  rcases chain_panic h with h | ⟨r₆, w₆, h6, h⟩
  · exact ((tame_takeWhile (P := fun _ => False) _).1 _ h).elim
  obtain ⟨p₃, e3⟩ := (tame_parseVec hup (tame_parseToken hup ct) _ _ _).2 _ _ _ h3
  have e1 := tag_inv h1
  have e2 := (takeWhile_inv h2).1
  have e4 := (takeWhile_inv h4).1
  obtain ⟨q, _, k1, h5⟩ := chain_inv h5
  obtain ⟨q', body', k2, h5⟩ := chain_inv h5
  obtain ⟨q'', _, k3, h5⟩ := chain_inv h5
  rw [ret, PResult.done.injEq] at h5
  have e5 := tag_inv k1
  obtain ⟨e6, e7, _⟩ := takeUntil_inv k2
  have e8 := tag_inv k3
  obtain ⟨u, hu⟩ : ∃ u, s = u ++ 40 :: (body ++ 41 :: r₅) :=
    ⟨ascii ['T', 'r', 'a', 'n', 's', 'i', 't', 'i', 'o', 'n'] ++ (w₂ ++ (p₃ ++ w₄)), by
      rw [e1, e2, ← e3, e4, e5, e6, e8, h5.1, h5.2]
      simp⟩
  rcases chain_panic h with h | ⟨r₇, weight, h7, h⟩
  · left
    obtain ⟨u', w, t, v, e, h⟩ := weight_panic h
    refine ⟨u ++ 40 :: (body ++ 41 :: (w₆ ++ u')), w, t, v, ?_, h⟩
    rw [hu, (takeWhile_inv h6).1, e]
    simp
  rcases chain_panic h with h | ⟨r₈, w₈, h8, h⟩
  · exact ((tame_takeWhile (P := fun _ => False) _).1 _ h).elim
  rcases chain_panic h with h | ⟨r₉, w₉, h9, h⟩
  · exact ((tame_comment hup).1 _ h).elim
  right
  refine ⟨u, body, r₅, hu, h5.2 ▸ e7, fun i hi => ?_⟩
  rw [hi] at h
  rcases chain_panic h with h | ⟨_, _, _, h⟩ <;> cases h

theorem fsaLoop_none {R : Type _} {c : Codec Q} {trans : List Nat → Option (Option R)} :
    ∀ {ls : List (List Nat)} {init : Option Q} {fin : List Q} {ts : List R}, fsaLoop c trans ls init fin ts = none → ∃ l ∈ ls, trans (trim l) = none
  | [], _, _, _, h => by cases h
  | l :: ls, init, fin, ts, h => by
    have hup : Up (fun _ : List Nat => False) := fun _ _ _ h => h
    have hrec : ∀ {init fin ts}, fsaLoop c trans ls init fin ts = none → ∃ l' ∈ l :: ls, trans (trim l') = none := by
      intro init fin ts h
      obtain ⟨l', hl', h'⟩ := fsaLoop_none h
      exact ⟨l', List.mem_cons_of_mem _ hl', h'⟩
    rw [fsaLoop] at h
    split at h
    · split at h
      · exact hrec h
      · cases h
      · rename_i e
        have : Tame (fun _ : List Nat => False) (parseInitial c) := tame_thn hup (tame_tag _) <| tame_thn hup (tame_takeWhile _) <|
          tame_chain hup (tame_parseToken hup c) fun _ => tame_thn hup (tame_takeWhile _) (tame_ret _)
        exact (this.1 _ (toResult_none e)).elim
    · split at h
      · split at h
        · exact hrec h
        · cases h
        · rename_i e
          have : Tame (fun _ : List Nat => False) (parseFinals c) := tame_thn hup (tame_tag _) <| tame_thn hup (tame_takeWhile _) <|
            tame_parseVec hup (tame_parseToken hup c) _ _ _
          exact (this.1 _ (toResult_none e)).elim
      · split at h
        · split at h
          · exact hrec h
          · cases h
          · rename_i e
            exact ⟨l, List.mem_cons_self, e⟩
        · exact hrec h

theorem tsaLoop_none {R : Type _} {c : Codec Q} {trans : List Nat → Option (Option R)} :
    ∀ {ls : List (List Nat)} {init : Option Q} {ts : List R}, tsaLoop c trans ls init ts = none → ∃ l ∈ ls, trans (trim l) = none
  | [], _, _, h => by cases h
  | l :: ls, init, ts, h => by
    have hup : Up (fun _ : List Nat => False) := fun _ _ _ h => h
    have hrec : ∀ {init ts}, tsaLoop c trans ls init ts = none → ∃ l' ∈ l :: ls, trans (trim l') = none := by
      intro init ts h
      obtain ⟨l', hl', h'⟩ := tsaLoop_none h
      exact ⟨l', List.mem_cons_of_mem _ hl', h'⟩
    rw [tsaLoop] at h
    split at h
    · split at h
      · exact hrec h
      · cases h
      · rename_i e
        have : Tame (fun _ : List Nat => False) (parseInitial c) := tame_thn hup (tame_tag _) <| tame_thn hup (tame_takeWhile _) <|
          tame_chain hup (tame_parseToken hup c) fun _ => tame_thn hup (tame_takeWhile _) (tame_ret _)
        exact (this.1 _ (toResult_none e)).elim
    · split at h
      · split at h
        · exact hrec h
        · cases h
        · rename_i e
          exact ⟨l, List.mem_cons_self, e⟩
      · exact hrec h

end

namespace Props

section
variable {A Q T W : Type _} [One W]

/-- C62 for finite state automata. -/
def C62_fsa_claim : Prop := ∀ (s : List Nat), FSA.fromStr C48Example.num C48Example.str C48Example.num s ≠ none

/-- C62 for tree stack automata. -/
def C62_tsa_claim : Prop := ∀ (s : List Nat), TSA.fromStr C48Example.num C48Example.str C48Example.num s ≠ none

/-- C62: parsing a transition panics only if there is a malformed weight or a malformed instruction. -/
theorem C62_transition_partial {I : Type _} {ct : Codec T} {cw : Codec W} {read : List Nat → Option (Option I)} {s : List Nat}
    (h : Transition.fromStr ct cw read s = none) : BadWeight cw s ∨ BadInstruction read s := transition_panic (toResult_none h)

/-- C62: conversely, a malformed weight or a malformed instruction leads to a panic (and not to an error) if what is before it is well-formed. -/
theorem C62_transition_panics {I : Type _} {ct : Codec T} {cw : Codec W} {read : List Nat → Option (Option I)} {word : List T}
    {w₁ l w₂ body w₃ tail : List Nat} (h1 : Spaces w₁) (h2 : ListText ct word l) (h3 : Spaces w₂) (h4 : 41 ∉ body) (h5 : Spaces w₃)
    (h6 : (∃ w t v, tail = 35 :: (w ++ (t ++ v)) ∧ Spaces w ∧ (∀ b r, t ++ v = b :: r → b ≠ 32 ∧ b ≠ 9) ∧ 32 ∉ t ∧ (v = [] ∨ ∃ r, v = 32 :: r) ∧
        cw.read t = none) ∨
      (∃ v, TailText cw v tail) ∧ ∀ i, read body ≠ some (some i)) :
    Transition.fromStr ct cw read (ascii ['T', 'r', 'a', 'n', 's', 'i', 't', 'i', 'o', 'n'] ++ w₁ ++ l ++ w₂ ++ [40] ++ body ++ [41] ++ w₃ ++ tail) =
      none := by
  have hpanic : ∀ {p : PResult Nat (Transition I T W)}, p = .panic → p.toResult = none := by rintro _ rfl; rfl
  rcases h6 with ⟨w, t, v, rfl, hw, ht, k1, hv, hr⟩ | ⟨⟨v, hv⟩, hb⟩
  · rw [Transition.fromStr, parseTransition_front h1 h2 h3 h4 h5 (not_space_of_cons rfl)]
    refine hpanic ?_
    have hsp : Nom.takeWhile isSpace (w ++ (t ++ v)) = .done (t ++ v) w := skip_spaces hw _ fun b r e => isSpace_false (ht b r e).1 (ht b r e).2
    have hnot : isNot [32] (t ++ v) = .done v t := by
      by_cases hne : t = []
      · subst hne
        rcases hv with rfl | ⟨r, rfl⟩
        · rfl
        · exact absurd rfl (ht 32 r rfl).1
      · refine isNot_append hne (fun b hb hb' => ?_) fun b r e => ?_
        · rw [List.mem_singleton] at hb'
          exact k1 (hb' ▸ hb)
        · rcases hv with rfl | ⟨r', rfl⟩
          · cases e
          · rw [List.cons.injEq] at e
            simp [← e.1]
    have hp : parsePmcfgWeight cw (35 :: (w ++ (t ++ v))) = .panic := by
      have : (thn (tag [35]) <| thn (Nom.takeWhile isSpace) <| chain (isNot [32]) fun s => unwrapRes (cw.read s)) (35 :: (w ++ (t ++ v))) = .panic := by
        rw [thn_done (tag_cons _ _), thn_done hsp, chain_done hnot, hr]
        rfl
      rw [parsePmcfgWeight, opt, complete, this]
    rw [chain, hp]
  · rw [Transition.fromStr, parseTransition_front h1 h2 h3 h4 h5 (tail_first hv)]
    refine hpanic ?_
    obtain ⟨o, _, hp⟩ := tail_read hv
    obtain ⟨r, x, hw, hp⟩ := chain_inv hp
    obtain ⟨r', _, hsp, hp⟩ := chain_inv hp
    obtain ⟨r'', _, hc, hp⟩ := chain_inv hp
    rw [chain_done hw, thn_done hsp, thn_done hc, chain]
    have : unwrapErr (read body) r'' = .panic := by
      unfold unwrapErr
      split
      · rename_i i e
        exact absurd e (hb i)
      · rfl
      · rfl
    rw [this]

/-- C62 for finite state automata: a panic is caused by a line with a malformed weight or a malformed instruction. -/
theorem C62_fsa_partial [DecidableEq Q] [DecidableEq T] {cq : Codec Q} {ct : Codec T} {cw : Codec W} {s : List Nat} (h : FSA.fromStr cq ct cw s = none) :
    ∃ l ∈ lines s, BadWeight cw (trim l) ∨ BadInstruction (FsInstr.fromStr cq) (trim l) := by
  rw [FSA.fromStr] at h
  split at h
  · rename_i e
    obtain ⟨l, hl, h⟩ := fsaLoop_none e
    exact ⟨l, hl, C62_transition_partial h⟩
  · cases h
  · cases h
  · split at h <;> cases h

/-- C62 for tree stack automata. -/
theorem C62_tsa_partial [DecidableEq A] [DecidableEq T] {ca : Codec A} {ct : Codec T} {cw : Codec W} {s : List Nat} (h : TSA.fromStr ca ct cw s = none) :
    ∃ l ∈ lines s, BadWeight cw (trim l) ∨ BadInstruction (TsInstr.fromStr ca) (trim l) := by
  rw [TSA.fromStr] at h
  split at h
  · rename_i e
    obtain ⟨l, hl, h⟩ := tsaLoop_none e
    exact ⟨l, hl, C62_transition_partial h⟩
  · cases h
  · cases h
  · cases h

/-- An instruction without arrow. -/
theorem C62_fsa_violated : ¬ C62_fsa_claim := fun h => h ("Transition [] (0 1)".toList.map Char.toNat) (by decide +kernel)

/-- An empty instruction. -/
theorem C62_tsa_violated : ¬ C62_tsa_claim := fun h => h ("Transition [] ()".toList.map Char.toNat) (by decide +kernel)

end

namespace C62Example
open C48Example

/-- A malformed weight leads to a panic. -/
example : FSA.fromStr num str num ("initial: 0\nfinal: [1]\nTransition [] (0 -> 1) # x".toList.map Char.toNat) = none := by decide +kernel

/-- A malformed list of terminals leads to an error. -/
example : (FSA.fromStr num str num ("initial: 0\nfinal: [1]\nTransition [a (0 -> 1) # x".toList.map Char.toNat)).map Option.isNone = some true := by
  decide +kernel

end C62Example

end Props
end Rustomata
