import Verif.Props.Import

/-!
# C58: files that are not in the format are reported

C58: reading a text that is not a file of rules in the format of disco-dop or rparse returns an error; it neither panics nor returns a part of the rules.
-/

namespace Rustomata
open Spec Nom

section
variable {C A B : Type _} {P : List C → Prop}

theorem complete_not_incomplete (p : Parser C A) (i : List C) : complete p i ≠ .incomplete := by
  unfold complete
  split
  · simp
  · rename_i h; exact h

theorem sepGo_result (sep : Parser C B) (p : Parser C A) (n : Nat) (i : List C) (acc : List A) :
    (∃ r l, sepGo (complete sep) (complete p) n i acc = .done r l) ∨ sepGo (complete sep) (complete p) n i acc = .panic := by
  induction n generalizing i acc with
  | zero => exact Or.inl ⟨i, acc, rfl⟩
  | succ n ih =>
    rw [sepGo]
    cases h1 : complete sep i with
    | error => exact Or.inl ⟨_, _, rfl⟩
    | incomplete => exact absurd h1 (complete_not_incomplete sep i)
    | panic => exact Or.inr rfl
    | done i₂ b =>
      simp only
      split
      · exact Or.inl ⟨_, _, rfl⟩
      · cases h2 : complete p i₂ with
        | error => exact Or.inl ⟨_, _, rfl⟩
        | incomplete => exact absurd h2 (complete_not_incomplete p i₂)
        | panic => exact Or.inr rfl
        | done r a =>
          simp only
          split
          · exact Or.inl ⟨_, _, rfl⟩
          · exact ih _ _

/-- The inner parser consumes input. -/
def Consumes (p : Parser C A) : Prop := ∀ i r a, p i = .done r a → r.length < i.length

theorem sepList_result (sep : Parser C B) {p : Parser C A} (hp : Consumes p) (i : List C) :
    (∃ r l, sepList sep p i = .done r l) ∨ sepList sep p i = .panic := by
  rw [sepList]
  cases h : complete p i with
  | error => exact Or.inl ⟨_, _, rfl⟩
  | incomplete => exact absurd h (complete_not_incomplete p i)
  | panic => exact Or.inr rfl
  | done r a =>
    have : p i = .done r a := by
      unfold complete at h
      split at h
      · cases h
      · exact h
    have := hp i r a this
    simp only
    rw [if_neg (by omega)]
    exact sepGo_result _ _ _ _ _

theorem sepList1_result (sep : Parser C B) {p : Parser C A} (hp : Consumes p) (i : List C) :
    (∃ r l, sepList1 sep p i = .done r l) ∨ sepList1 sep p i = .panic ∨ (sepList1 sep p i = .error ∧ complete p i = .error) := by
  rw [sepList1]
  cases h : complete p i with
  | error => exact Or.inr (Or.inr ⟨rfl, rfl⟩)
  | incomplete => exact absurd h (complete_not_incomplete p i)
  | panic => exact Or.inr (Or.inl rfl)
  | done r a =>
    have : p i = .done r a := by
      unfold complete at h
      split at h
      · cases h
      · exact h
    have := hp i r a this
    simp only
    rw [if_neg (by omega)]
    rcases sepGo_result sep p (i.length + 1) r [a] with h | h
    · exact Or.inl h
    · exact Or.inr (Or.inl h)

theorem tame_sepGo (hP : Up P) {sep : Parser C B} {p : Parser C A} (hs : Tame P sep) (hp : Tame P p) (n : Nat) (i : List C) (acc : List A) :
    (sepGo (complete sep) (complete p) n i acc = .panic → P i) ∧ ∀ r a, sepGo (complete sep) (complete p) n i acc = .done r a → r <:+ i := by
  have hs' := tame_complete hs
  have hp' := tame_complete hp
  induction n generalizing i acc with
  | zero => exact ⟨fun h => (by cases h), fun r a h => by cases h; exact List.suffix_rfl⟩
  | succ n ih =>
    have hd : ∀ {acc' : List A}, ((PResult.done i acc' : PResult C (List A)) = .panic → P i) ∧
        ∀ r a, (PResult.done i acc' : PResult C (List A)) = .done r a → r <:+ i := ⟨fun h => (by cases h), fun r a h => by cases h; exact List.suffix_rfl⟩
    rw [sepGo]
    cases h1 : complete sep i with
    | error => exact hd
    | incomplete => exact ⟨fun h => (by cases h), fun r a h => (by cases h)⟩
    | panic => exact ⟨fun _ => hs'.1 i h1, fun r a h => (by cases h)⟩
    | done i₂ b =>
      have e1 := hs'.2 i i₂ b h1
      simp only
      split
      · exact hd
      · cases h2 : complete p i₂ with
        | error => exact hd
        | incomplete => exact ⟨fun h => (by cases h), fun r a h => (by cases h)⟩
        | panic => exact ⟨fun _ => hP _ _ e1 (hp'.1 i₂ h2), fun r a h => (by cases h)⟩
        | done r a =>
          have e2 := (hp'.2 i₂ r a h2).trans e1
          simp only
          split
          · exact hd
          · obtain ⟨f1, f2⟩ := ih r (acc ++ [a])
            exact ⟨fun h => hP r i e2 (f1 h), fun r' a' h => (f2 r' a' h).trans e2⟩

theorem tame_sepList (hP : Up P) {sep : Parser C B} {p : Parser C A} (hs : Tame P sep) (hp : Tame P p) : Tame P (sepList sep p) := by
  have key : ∀ i, (sepList sep p i = .panic → P i) ∧ ∀ r a, sepList sep p i = .done r a → r <:+ i := by
    intro i
    rw [sepList]
    cases h : complete p i with
    | error => exact ⟨fun h => (by cases h), fun r a h => by cases h; exact List.suffix_rfl⟩
    | incomplete => exact ⟨fun h => (by cases h), fun r a h => (by cases h)⟩
    | panic => exact ⟨fun _ => (tame_complete hp).1 i h, fun r a h => (by cases h)⟩
    | done r a =>
      have e := (tame_complete hp).2 i r a h
      simp only
      split
      · exact ⟨fun h => (by cases h), fun r a h => (by cases h)⟩
      · obtain ⟨f1, f2⟩ := tame_sepGo hP hs hp (i.length + 1) r [a]
        exact ⟨fun h => hP r i e (f1 h), fun r' a' h => (f2 r' a' h).trans e⟩
  exact ⟨fun i => (key i).1, fun i => (key i).2⟩

theorem tame_sepList1 (hP : Up P) {sep : Parser C B} {p : Parser C A} (hs : Tame P sep) (hp : Tame P p) : Tame P (sepList1 sep p) := by
  have key : ∀ i, (sepList1 sep p i = .panic → P i) ∧ ∀ r a, sepList1 sep p i = .done r a → r <:+ i := by
    intro i
    rw [sepList1]
    cases h : complete p i with
    | error => exact ⟨fun h => (by cases h), fun r a h => (by cases h)⟩
    | incomplete => exact ⟨fun h => (by cases h), fun r a h => (by cases h)⟩
    | panic => exact ⟨fun _ => (tame_complete hp).1 i h, fun r a h => (by cases h)⟩
    | done r a =>
      have e := (tame_complete hp).2 i r a h
      simp only
      split
      · exact ⟨fun h => (by cases h), fun r a h => (by cases h)⟩
      · obtain ⟨f1, f2⟩ := tame_sepGo hP hs hp (i.length + 1) r [a]
        exact ⟨fun h => hP r i e (f1 h), fun r' a' h => (f2 r' a' h).trans e⟩
  exact ⟨fun i => (key i).1, fun i => (key i).2⟩

end

section
variable {N T W : Type _} {cn : Codec N} {ct : Codec T} {cw : Codec W}

/-- The text contains a sequence of more than 64 binary digits. -/
def LongBinary (i : List Nat) : Prop := ∃ t, t <:+: i ∧ (∀ b ∈ t, b = 48 ∨ b = 49) ∧ 64 < t.length

theorem up_longBinary : Up LongBinary := up_infix fun t => (∀ b ∈ t, b = 48 ∨ b = 49) ∧ 64 < t.length

theorem longBinary_infix {s i : List Nat} (h : s <:+: i) (hs : LongBinary s) : LongBinary i := by
  obtain ⟨t, h1, h2⟩ := hs
  exact ⟨t, h1.trans h, h2⟩

theorem fromBinaryGo_total (s : List Nat) (k : Nat) (o : Option Nat) (h : k + s.length ≤ 64) : fromBinaryGo k o s ≠ none := by
  induction s generalizing k o with
  | nil => simp [fromBinaryGo]
  | cons c s ih =>
    simp only [List.length_cons] at h
    rw [fromBinaryGo]
    have : binaryValue k c ≠ none := by
      unfold binaryValue pow64
      rw [if_pos (show k < 64 by omega)]
      split
      · simp
      · split <;> simp
    cases e : binaryValue k c with
    | none => exact absurd e this
    | some ov => exact ih _ _ (by omega)

theorem tame_parseYield : Tame LongBinary parseYield := by
  refine tame_sepList1 up_longBinary (tame_tag _) ?_
  unfold mapResPanic
  refine tame_chain' (tame_takeWhile _) fun i r a h => ?_
  rw [Nom.takeWhile, PResult.done.injEq] at h
  have hsuf : r <:+ i := by rw [← h.1]; exact List.dropWhile_suffix _
  have hinf : a <:+: i := by rw [← h.2]; exact (List.takeWhile_prefix _).isInfix
  have hbin : ∀ b ∈ a, b = 48 ∨ b = 49 := by
    intro b hb
    rw [← h.2] at hb
    have := List.mem_takeWhile_imp hb
    simpa [isBinaryDigit] using this
  simp only
  cases e : fromBinary a with
  | none =>
    simp only
    refine ⟨fun _ => ⟨a, hinf, hbin, ?_⟩, fun r' b h => (by cases h)⟩
    by_contra hle
    exact fromBinaryGo_total a 0 (some 0) (by omega) e
  | some o =>
    cases o with
    | none => exact ⟨fun h => (by cases h), fun r' b h => (by cases h)⟩
    | some v => exact ⟨fun h => (by cases h), fun r' b h => by cases h; exact hsuf⟩

theorem tame_parsePseudocount [Div W] {P : List Nat → Prop} (hP : Up P) : Tame P (parsePseudocount cw) :=
  tame_mapRes hP (tame_chain hP (tame_takeWhile1 _) fun _ => tame_chain hP (tame_opt <| tame_complete <| tame_thn hP (tame_tag _) (tame_takeWhile1 _)) fun _ => tame_ret _) _

theorem discoRule_total [Div W] {d : DiscoDeriv N} {y w : List Nat} (h : discoRule cw d y w = none) : LongBinary y := by
  unfold discoRule at h
  split at h
  · rename_i e
    exact tame_parseYield.1 y (toResult_none e)
  · cases h
  · split at h
    · rename_i e
      exact absurd ((tame_parsePseudocount (cw := cw) (P := fun _ => False) (fun _ _ _ h => h)).1 w (toResult_none e)) id
    · cases h
    · cases h

theorem discoLine_total [Div W] {a b c d : List Nat} {o : Option (List Nat)} (h : discoLine cn cw (a, b, c, d, o) = none) : LongBinary c ∨ LongBinary d := by
  simp only [discoLine] at h
  cases h1 : cn.read a with
  | none => simp [h1] at h
  | some lhs =>
    cases h2 : cn.read b with
    | none => simp [h1, h2] at h
    | some rhs =>
      cases o with
      | none => simp only [h1, h2] at h; exact Or.inl (discoRule_total h)
      | some w =>
        cases h3 : cn.read c with
        | none => simp [h1, h2, h3] at h
        | some rhs2 => simp only [h1, h2, h3] at h; exact Or.inr (discoRule_total h)

theorem nextToken_suffix {i r s : List Nat} (h : nextToken i = .done r s) : r <:+ i ∧ s <:+: i := by
  obtain ⟨r', a, h1, h2⟩ := chain_inv h
  have e1 := (tame_takeWhile1 (P := fun _ => True) isSpace).2 i r' a h1
  exact ⟨((tame_takeWhile1 (P := fun _ => True) isToken).2 r' r s h2).trans e1, (takeWhile1_value h2).1.trans e1.isInfix⟩

theorem takeWhile1_consumes {C : Type _} (p : C → Bool) : Consumes (takeWhile1 p) := by
  intro i r a h
  cases i with
  | nil => cases h
  | cons c i =>
    rw [takeWhile1] at h
    split at h
    · rename_i hc
      rw [PResult.done.injEq] at h
      rw [← h.1, List.dropWhile_cons_of_pos hc]
      have := (List.dropWhile_suffix p (l := i)).length_le
      simp only [List.length_cons]
      omega
    · cases h

theorem constituent_consumes [Div W] : Consumes (parseConstituent cn cw) := by
  intro i r x h
  obtain ⟨r₀, x₀, h0, h⟩ := chain_inv h
  obtain ⟨r₁, lhs, h1, h0⟩ := chain_inv h0
  obtain ⟨r₂, s₂, h2, h0⟩ := chain_inv h0
  obtain ⟨r₃, s₃, h3, h0⟩ := chain_inv h0
  obtain ⟨r₄, s₄, h4, h0⟩ := chain_inv h0
  obtain ⟨r₅, s₅, h5, h0⟩ := chain_inv h0
  cases h0
  have e1 := takeWhile1_consumes _ _ _ _ h1
  have e2 := (nextToken_suffix h2).1.length_le
  have e3 := (nextToken_suffix h3).1.length_le
  have e4 := (nextToken_suffix h4).1.length_le
  have hn : Tame (fun _ => True) nextToken := tame_thn (fun _ _ _ _ => trivial) (tame_takeWhile1 _) (tame_takeWhile1 _)
  have e5 := ((tame_opt (tame_complete hn)).2 _ _ _ h5).length_le
  have : r = r₀ := by
    split at h <;> cases h
    rfl
  subst this
  omega

theorem tame_constituent [Div W] : Tame LongBinary (parseConstituent cn cw) := by
  have hU : Up (fun _ : List Nat => False) := fun _ _ _ h => h
  have hn : Tame (fun _ : List Nat => False) nextToken := tame_thn hU (tame_takeWhile1 _) (tame_takeWhile1 _)
  have ht : Tame (fun _ : List Nat => False) (chain (takeWhile1 isToken) fun lhs => chain nextToken fun rhs => chain nextToken fun rhsOrY => chain nextToken fun yOrW =>
      chain (opt (complete nextToken)) fun ow => ret (lhs, rhs, rhsOrY, yOrW, ow)) :=
    tame_chain hU (tame_takeWhile1 _) fun _ => tame_chain hU hn fun _ => tame_chain hU hn fun _ => tame_chain hU hn fun _ =>
      tame_chain hU (tame_opt (tame_complete hn)) fun _ => tame_ret _
  unfold parseConstituent mapResPanic
  refine tame_chain' ⟨fun i h => absurd (ht.1 i h) id, ht.2⟩ fun i r x h => ?_
  have hr := ht.2 i r x h
  obtain ⟨r₁, lhs, h1, h0⟩ := chain_inv h
  obtain ⟨r₂, s₂, h2, h0⟩ := chain_inv h0
  obtain ⟨r₃, s₃, h3, h0⟩ := chain_inv h0
  obtain ⟨r₄, s₄, h4, h0⟩ := chain_inv h0
  obtain ⟨r₅, s₅, h5, h0⟩ := chain_inv h0
  cases h0
  have e1 := (tame_takeWhile1 (P := fun _ => True) isToken).2 _ _ _ h1
  have e2 := (nextToken_suffix h2).1.trans e1
  have e3 := (nextToken_suffix h3).1.trans e2
  cases e : discoLine cn cw (lhs, s₂, s₃, s₄, s₅) with
  | none =>
    refine ⟨fun _ => ?_, fun r' b h => (by cases h)⟩
    rcases discoLine_total e with h | h
    · exact longBinary_infix ((nextToken_suffix h3).2.trans e2.isInfix) h
    · exact longBinary_infix ((nextToken_suffix h4).2.trans e3.isInfix) h
  | some o =>
    cases o with
    | none => exact ⟨fun h => (by cases h), fun r' b h => (by cases h)⟩
    | some v => exact ⟨fun h => (by cases h), fun r' b h => by cases h; exact hr⟩

theorem lexerLine_consumes [Div W] : Consumes (parseLexerLine cw) := by
  intro i r x h
  obtain ⟨r₁, w, h1, h⟩ := chain_inv h
  obtain ⟨r₂, l, h2, h⟩ := chain_inv h
  cases h
  obtain ⟨r₃, a, h3, h1⟩ := chain_inv h1
  obtain ⟨r₄, b, h4, h1⟩ := chain_inv h1
  cases h1
  have hU : Up (fun _ : List Nat => True) := fun _ _ _ h => h
  have e3 := ((tame_takeWhile (P := fun _ => True) isToken).2 _ _ _ h3).length_le
  have e4 := takeWhile1_consumes _ _ _ _ h4
  have e2 := ((tame_sepList1 hU (tame_takeWhile1 isSpace) (tame_chain hU (tame_terminated hU (tame_takeWhile isToken) (tame_takeWhile1 isSpace)) fun pos =>
    tame_chain hU (tame_parsePseudocount (cw := cw) hU) fun w => tame_ret (pos, w))).2 _ _ _ h2).length_le
  omega

theorem tame_unwrapRes {C B : Type _} (b : Option B) : Tame (fun _ : List C => True) (unwrapRes b) := by
  refine ⟨fun _ _ => trivial, fun i r a h => ?_⟩
  unfold unwrapRes at h
  split at h <;> cases h
  exact List.suffix_rfl

theorem tame_pnot {C A : Type _} (p : Parser C A) : Tame (fun _ : List C => True) (pnot p) := by
  refine ⟨fun _ _ => trivial, fun i r a h => ?_⟩
  unfold pnot at h
  split at h <;> cases h <;> exact List.suffix_rfl

theorem clause_consumes : Consumes (parseRparseClause cn cw) := by
  have hU : Up (fun _ : List Nat => True) := fun _ _ _ h => h
  have hbool : Tame (fun _ => True) parseBool := tame_alt (tame_pmap hU (tame_tag _) _) (tame_pmap hU (tame_tag _) _)
  have hyield : Tame (fun _ => True) parseRparseYield := tame_thn hU (tame_tag _) <| tame_terminated hU
    (tame_sepList hU (tame_tag _) <| tame_thn hU (tame_tag _) <| tame_terminated hU (tame_sepList hU (tame_tag _) hbool) (tame_tag _)) (tame_tag _)
  intro i r x h
  obtain ⟨r₁, a, h1, h⟩ := chain_inv h
  obtain ⟨r₂, b, h2, h1⟩ := chain_inv h1
  obtain ⟨r₃, c, h3, h1⟩ := chain_inv h1
  cases h1
  have e2 := takeWhile1_consumes _ _ _ _ h2
  have e3 := takeWhile1_consumes _ _ _ _ h3
  obtain ⟨r₄, s₄, h4, h⟩ := chain_inv h
  obtain ⟨r₅, s₅, h5, h⟩ := chain_inv h
  obtain ⟨r₆, s₆, h6, h⟩ := chain_inv h
  obtain ⟨r₇, s₇, h7, h⟩ := chain_inv h
  obtain ⟨r₈, s₈, h8, h⟩ := chain_inv h
  obtain ⟨r₉, s₉, h9, h⟩ := chain_inv h
  obtain ⟨r₁₀, o, h10, h⟩ := chain_inv h
  obtain ⟨r₁₁, s₁₁, h11, h⟩ := chain_inv h
  obtain ⟨r₁₂, s₁₂, h12, h⟩ := chain_inv h
  obtain ⟨r₁₃, s₁₃, h13, h⟩ := chain_inv h
  have e4 := takeWhile1_consumes _ _ _ _ h4
  have e5 := ((tame_tag (P := fun _ => True) _).2 _ _ _ h5).length_le
  have e6 := takeWhile1_consumes _ _ _ _ h6
  have e7 := ((tame_thn hU (tame_takeWhile1 isSpace) (tame_terminated hU (tame_tag (ascii ['-', '-', '>'])) (tame_takeWhile1 isSpace))).2 _ _ _ h7).length_le
  have e8 := takeWhile1_consumes _ _ _ _ h8
  have e9 := takeWhile1_consumes _ _ _ _ h9
  have e10 := ((tame_opt (tame_thn hU (tame_pnot (tag (ascii ['[', '[', '[']))) (tame_terminated hU (tame_takeWhile1 isToken) (tame_takeWhile1 isSpace)))).2 _ _ _ h10).length_le
  have e11 := ((tame_complete hyield).2 _ _ _ h11).length_le
  have e12 := ((tame_unwrapRes _).2 _ _ _ h12).length_le
  have e13 := ((tame_unwrapRes _).2 _ _ _ h13).length_le
  cases o with
  | none =>
    obtain ⟨r₁₄, s₁₄, h14, h⟩ := chain_inv h
    have e14 := ((tame_unwrapRes _).2 _ _ _ h14).length_le
    cases h
    omega
  | some rhs2 =>
    obtain ⟨r₁₄, s₁₄, h14, h⟩ := chain_inv h
    obtain ⟨r₁₅, s₁₅, h15, h⟩ := chain_inv h
    have e14 := ((tame_unwrapRes _).2 _ _ _ h14).length_le
    have e15 := ((tame_unwrapRes _).2 _ _ _ h15).length_le
    cases h
    omega

end

namespace Props
variable {N T W : Type _} {cn : Codec N} {ct : Codec T} {cw : Codec W}

/-- C58: reading rules of disco-dop never returns an error. -/
theorem C58_discodop_no_error [Div W] (cn : Codec N) (cw : Codec W) (s : List Nat) : DiscoDopGrammar.fromStr cn cw s ≠ some none := by
  unfold DiscoDopGrammar.fromStr parseDiscodopConstituents
  rcases sepList_result (tag [10]) (constituent_consumes (cn := cn) (cw := cw)) s with ⟨r, l, h⟩ | h
  · rw [h]; simp [PResult.toResult]
  · rw [h]; simp [PResult.toResult]

/-- C58: reading rules of disco-dop panics only on texts with more than 64 binary digits in sequence. -/
theorem C58_discodop_panics_partial [Div W] {s : List Nat} (h : DiscoDopGrammar.fromStr cn cw s = none) :
    ∃ t, t <:+: s ∧ (∀ b ∈ t, b = 48 ∨ b = 49) ∧ 64 < t.length := by
  unfold DiscoDopGrammar.fromStr at h
  split at h
  · rename_i e
    exact (tame_sepList up_longBinary (tame_tag _) tame_constituent).1 s (toResult_none e)
  · cases h
  · cases h

/-- C58: everything from a line on that starts with white space is dropped; the same holds if a line ends with a white space character other than a line
break and a blank, such as a carriage return. -/
theorem C58_discodop_cut [Div W] {lines : List (List Nat)} {l : List (DiscoDeriv N × List (List Bool) × W)}
    (h : List.Forall₂ (fun s y => ConstituentText cn cw y.1 y.2.1 y.2.2 s) lines l) (hne : l ≠ []) {c : Nat} (hc : c ∈ whiteSpace) (t : List Nat) :
    (c ≠ 32 → c ≠ 9 → c ≠ 10 → DiscoDopGrammar.fromStr cn cw ([10].intercalate lines ++ c :: t) = DiscoDopGrammar.fromStr cn cw ([10].intercalate lines)) ∧
    DiscoDopGrammar.fromStr cn cw ([10].intercalate lines ++ 10 :: c :: t) = DiscoDopGrammar.fromStr cn cw ([10].intercalate lines) := by
  rw [constituents_read h (Or.inl rfl)]
  obtain ⟨v, hv, hm, hl⟩ := constituents_lines h
  subst hv
  have hne' : v ≠ [] := by
    rintro rfl
    apply hne
    simpa using hl.symm
  unfold DiscoDopGrammar.fromStr parseDiscodopConstituents
  constructor
  · intro h1 h2 h3
    rw [(file_cut hne' hm (endsLine_cons hc h1 h2 t) (Or.inl (by unfold complete; rw [tag_ne (Ne.symm h3)]))).1, hl]
    rfl
  · rw [(file_cut hne' hm (endsLine_newline _) (Or.inr ⟨c :: t, rfl, ?_⟩)).1, hl]
    · rfl
    · have : isToken c = false := by
        cases e : isToken c with
        | false => rfl
        | true => exact absurd hc ((isToken_iff c).1 e)
      simp only [complete, parseConstituent, mapResPanic, chain, takeWhile1, this]
      rfl

/-- C58: reading a lexicon never panics, and returns an error only if a symbol cannot be read. -/
theorem C58_lexicon_no_error [Div W] (hn : ∀ s, (cn.read s).isSome) (ht : ∀ s, (ct.read s).isSome) (s : List Nat) :
    ∃ l, DiscoLexer.fromStr cn ct cw s = some (some l) := by
  have htame : Tame (fun _ : List Nat => False) (parseLexerLine cw) := by
    have hU : Up (fun _ : List Nat => False) := fun _ _ _ h => h
    exact tame_chain hU (tame_terminated hU (tame_takeWhile _) (tame_takeWhile1 _)) fun _ => tame_chain hU (tame_sepList1 hU (tame_takeWhile1 _) (tame_chain hU
      (tame_terminated hU (tame_takeWhile _) (tame_takeWhile1 _)) fun _ => tame_chain hU (tame_parsePseudocount hU) fun _ => tame_ret _)) fun _ => tame_ret _
  unfold DiscoLexer.fromStr parseDiscodopLexer mapRes
  rcases sepList_result (tag [10]) (lexerLine_consumes (cw := cw)) s with ⟨r, v, h⟩ | h
  · rw [chain_done h]
    have : ∃ l, lexerEntries cn ct v = some l := by
      unfold lexerEntries
      generalize (v.flatMap fun x => x.2.map fun y => (x.1, y.1, y.2)) = u
      simp only [mapM_some_iff]
      induction u with
      | nil => exact ⟨[], .nil⟩
      | cons x u ih =>
        obtain ⟨l, hl⟩ := ih
        obtain ⟨a, ha⟩ := Option.isSome_iff_exists.1 (ht x.1)
        obtain ⟨b, hb⟩ := Option.isSome_iff_exists.1 (hn x.2.1)
        exact ⟨(a, b, x.2.2) :: l, .cons (by simp only [ha, hb]) hl⟩
    obtain ⟨l, hl⟩ := this
    exact ⟨l, by simp only [hl]; rfl⟩
  · exact absurd ((tame_sepList (P := fun _ : List Nat => False) (fun _ _ _ h => h) (tame_tag _) htame).1 s h) id

/-- C58: everything from an empty line or a line end with a carriage return on is dropped from a lexicon. -/
theorem C58_lexicon_cut [Div W] {lines : List (List Nat)} {l : List (T × List (N × W))} (h : List.Forall₂ (fun s y => LexiconText cn ct cw y.1 y.2 s) lines l) (hne : l ≠ [])
    {c : Nat} (hc : c ∈ whiteSpace) (h1 : c ≠ 32) (h2 : c ≠ 9) (t : List Nat) :
    (c ≠ 10 → DiscoLexer.fromStr cn ct cw ([10].intercalate lines ++ c :: t) = DiscoLexer.fromStr cn ct cw ([10].intercalate lines)) ∧
    DiscoLexer.fromStr cn ct cw ([10].intercalate lines ++ 10 :: c :: t) = DiscoLexer.fromStr cn ct cw ([10].intercalate lines) := by
  rw [lexicon_read h (Or.inl rfl)]
  obtain ⟨v, hv, hm, hl⟩ := lexicon_lines h
  subst hv
  have hne' : v ≠ [] := by
    rintro rfl
    cases hl
    exact hne rfl
  unfold DiscoLexer.fromStr parseDiscodopLexer mapRes
  constructor
  · intro h3
    rw [chain_done (file_cut hne' hm (endsLine_cons hc h1 h2 t) (Or.inl (by unfold complete; rw [tag_ne (Ne.symm h3)]))).1]
    simp only [lexerEntries_read hl]
    rfl
  · have hs := isSpace_false h1 h2
    have htk : isToken c = false := by
      cases e : isToken c with
      | false => rfl
      | true => exact absurd hc ((isToken_iff c).1 e)
    rw [chain_done (file_cut hne' hm (endsLine_newline _) (Or.inr ⟨c :: t, rfl, ?_⟩)).1]
    · simp only [lexerEntries_read hl]
      rfl
    · unfold complete parseLexerLine terminated
      have e1 : Nom.takeWhile isToken (c :: t) = .done (c :: t) [] := takeWhile_none fun b t e => by cases e; exact htk
      have e2 : space (c :: t) = .error := by simp [space, many1Of, takeWhile1, hs]
      have e3 : (chain (Nom.takeWhile isToken) fun a => chain space fun _ => ret a) (c :: t) = .error := by
        rw [chain_done e1, chain_error e2]
      rw [chain_error e3]

/-- C58: reading clauses of rparse returns an error if and only if the first clause cannot be read. -/
theorem C58_rparse_error (s : List Nat) : RparseClauses.fromStr cn cw s = some none ↔ parseRparseClause cn cw s = .error ∨ parseRparseClause cn cw s = .incomplete := by
  have hc : complete (parseRparseClause cn cw) s = .error ↔ parseRparseClause cn cw s = .error ∨ parseRparseClause cn cw s = .incomplete := by
    unfold complete
    cases parseRparseClause cn cw s <;> simp
  rw [← hc]
  unfold RparseClauses.fromStr parseRparseClauses
  constructor
  · intro h
    rcases sepList1_result (tag [10]) (clause_consumes (cn := cn) (cw := cw)) s with ⟨r, l, e⟩ | e | ⟨_, e⟩
    · rw [e] at h; cases h
    · rw [e] at h; cases h
    · exact e
  · intro h
    simp only [sepList1, h]
    rfl

/-- C58: everything from a character on that follows a clause and is not a line break, and everything from a line on that does not start with a digit, is
dropped from the clauses of rparse. -/
theorem C58_rparse_cut {lines : List (List Nat)} {l : RparseClauses N W} (h : List.Forall₂ (fun s y => ClauseText cn cw y s) lines l) (hne : l ≠ []) (c : Nat) (t : List Nat) :
    (c ∈ whiteSpace → c ≠ 32 → c ≠ 9 → c ≠ 10 → RparseClauses.fromStr cn cw ([10].intercalate lines ++ c :: t) = some (some l)) ∧
    ((c < 48 ∨ 57 < c) → RparseClauses.fromStr cn cw ([10].intercalate lines ++ 10 :: c :: t) = some (some l)) := by
  obtain ⟨v, hv, hm, hl⟩ := clauses_lines h
  subst hv
  have hne' : v ≠ [] := by
    rintro rfl
    apply hne
    simpa using hl.symm
  unfold RparseClauses.fromStr parseRparseClauses
  constructor
  · intro hc h1 h2 h3
    rw [(file_cut hne' hm (endsLine_cons hc h1 h2 t) (Or.inl (by unfold complete; rw [tag_ne (Ne.symm h3)]))).2, hl]
    rfl
  · intro hc
    rw [(file_cut hne' hm (endsLine_newline _) (Or.inr ⟨c :: t, rfl, ?_⟩)).2, hl]
    · rfl
    · have e1 : digit (c :: t) = .error := by
        have : (decide (48 ≤ c) && decide (c ≤ 57)) = false := by
          simp only [Bool.and_eq_false_iff, decide_eq_false_iff_not]
          omega
        simp only [digit, many1Of, takeWhile1, this]
        rfl
      unfold complete parseRparseClause terminated
      rw [thn_error (chain_error e1)]

/-- C58: a clause of rparse whose weight cannot be read panics. -/
theorem C58_rparse_weight {s₀ g₁ s₁ s₂ g₂ g₃ s₃ g₄ : List Nat} {bits : List (List Bool)} (h0 : Digits s₀) (h1 : Bare s₁) (hc : 58 ∉ s₁) (hw : cw.read s₁ = none)
    (h2 : Bare s₂) (h3 : Bare s₃) (hg1 : Gap g₁) (hg2 : Gap g₂) (hg3 : Gap g₃) (hg4 : Gap g₄) (hb : bits ≠ []) (r : List Nat) :
    RparseClauses.fromStr cn cw
      (s₀ ++ (g₁ ++ (s₁ ++ 58 :: (s₂ ++ (g₂ ++ (ascii ['-', '-', '>'] ++ (g₃ ++ (s₃ ++ (g₄ ++ (rparseYieldText bits ++ r)))))))))) = none := by
  have hp : parseRparseClause cn cw (s₀ ++ (g₁ ++ (s₁ ++ 58 :: (s₂ ++ (g₂ ++ (ascii ['-', '-', '>'] ++ (g₃ ++ (s₃ ++ (g₄ ++ (rparseYieldText bits ++ r)))))))))) = .panic := by
    unfold parseRparseClause
    have hnum : terminated digit space (s₀ ++ (g₁ ++ (s₁ ++ 58 :: (s₂ ++ (g₂ ++ (ascii ['-', '-', '>'] ++ (g₃ ++ (s₃ ++ (g₄ ++ (rparseYieldText bits ++ r)))))))))) =
        .done (s₁ ++ 58 :: (s₂ ++ (g₂ ++ (ascii ['-', '-', '>'] ++ (g₃ ++ (s₃ ++ (g₄ ++ (rparseYieldText bits ++ r)))))))) s₀ := by
      unfold terminated
      rw [chain_done (digits_read h0 (gap_noDigit hg1)), chain_done (gap_read hg1 (bare_noBlank h1))]
      rfl
    have hw' : ∀ t, takeWhile1 (fun c => isToken c && c != 58) (s₁ ++ 58 :: t) = .done (58 :: t) s₁ := by
      intro t
      refine takeWhile1_append h1.1 (fun c hc' => ?_) (fun b t e => by cases e; rfl)
      simp only [Bool.and_eq_true, bne_iff_ne]
      exact ⟨bare_token h1 c hc', fun e => hc (e ▸ hc')⟩
    have harr : delimited space (tag (ascii ['-', '-', '>'])) space (g₂ ++ (ascii ['-', '-', '>'] ++ (g₃ ++ (s₃ ++ (g₄ ++ (rparseYieldText bits ++ r)))))) =
        .done (s₃ ++ (g₄ ++ (rparseYieldText bits ++ r))) () := by
      unfold delimited terminated
      have hb : NoBlank (ascii ['-', '-', '>'] ++ (g₃ ++ (s₃ ++ (g₄ ++ (rparseYieldText bits ++ r))))) := noBlank_cons (c := 45) rfl _
      rw [thn_done (gap_read hg2 hb), chain_done (tag_append _ _), chain_done (gap_read hg3 (bare_noBlank h3))]
      rfl
    rw [thn_done hnum, chain_done (hw' _), show ascii [':'] = [58] from rfl, thn_done (tag_cons 58 _), chain_done (token_read h2 (gap_ends hg2)), thn_done harr,
      chain_done (token_read h3 (gap_ends hg4)), thn_done (gap_read hg4 (rparseYield_noBlank bits r))]
    obtain ⟨t, ht⟩ := rparseYield_start hb r
    have hopt : opt (delimited (pnot (tag (ascii ['[', '[', '[']))) (takeWhile1 isToken) space) (rparseYieldText bits ++ r) =
        .done (rparseYieldText bits ++ r) none := by
      refine opt_error ?_
      unfold delimited
      refine thn_error ?_
      unfold pnot
      rw [ht, tag_append]
    rw [chain_done hopt, chain_done (complete_done (rparseYield_read bits r))]
    simp only [hw]
    rfl
  unfold RparseClauses.fromStr parseRparseClauses
  simp only [sepList1, complete, hp]
  rfl

/-- The property for the rules of disco-dop. -/
def C58_claim : Prop :=
  ∀ s : List Nat, (¬ ∃ (lines : List (List Nat)) (l : List (DiscoDeriv (List Nat) × List (List Bool) × ℚ)), List.Forall₂ (fun t y => ConstituentText ImportExample.str ImportExample.num y.1 y.2.1 y.2.2 t) lines l ∧ FileText lines s) →
    DiscoDopGrammar.fromStr ImportExample.str ImportExample.num s = some none

/-- The text with one blank is not in the format, but it is read as a grammar without rules. -/
theorem C58_violated : ¬ C58_claim := by
  intro h
  refine C58_discodop_no_error _ _ _ (h [32] ?_)
  rintro ⟨lines, l, h1, h2⟩
  cases h1 with
  | nil => rcases h2 with h2 | h2 <;> cases h2
  | @cons t y lines l ht _ =>
    have hne := constituentText_ne ht
    have hhead : ∃ c u, t = c :: u ∧ c ∉ whiteSpace := by
      obtain ⟨d, b, w⟩ := y
      have : ∀ s₁ u : List Nat, Bare s₁ → ∃ c v, s₁ ++ u = c :: v ∧ c ∉ whiteSpace := by
        intro s₁ u hb
        cases s₁ with
        | nil => exact absurd rfl hb.1
        | cons c v => exact ⟨c, v ++ u, rfl, hb.2 c (by simp)⟩
      cases ht with
      | chain h1 => exact this _ _ h1.1
      | binary h1 => exact this _ _ h1.1
    obtain ⟨c, u, rfl, hc⟩ := hhead
    have : ∃ v, [32] = c :: v := by
      rcases h2 with h2 | h2
      · rw [intercalate_cons'] at h2; exact ⟨_, h2⟩
      · rw [intercalate_cons'] at h2; exact ⟨_, h2⟩
    obtain ⟨v, hv⟩ := this
    cases hv
    exact hc (by decide)

open ImportExample in
/-- Of two rules that are separated by a carriage return and a line break, only the first one is read. -/
example : (DiscoDopGrammar.fromStr str num (ascii ['S', ' ', 'A', ' ', '0', ' ', '1', '\r', '\n', 'A', ' ', 'B', ' ', '0', ' ', '1'])).map (Option.map fun g => g.constituents.length) =
    some (some 1) := by decide +kernel
open ImportExample in
/-- The yield `0,,1` is read as `0`, the count `3.5` as `3`. -/
example : parseYield (ascii ['0', ',', ',', '1']) = .done (ascii [',', ',', '1']) [(1, 0)] ∧
    (parsePseudocount num (ascii ['3', '.', '5'])).toResult = some (some 3) := by decide +kernel
open ImportExample in
/-- A weight that is not a number panics. -/
example : (RparseClauses.fromStr str num (ascii ['1', ' ', 'x', ':', 'S', ' ', '-', '-', '>', ' ', 'A', ' ', '[', '[', '[', 'f', 'a', 'l', 's', 'e', ']', ']', ']'])).isNone = true := by
  decide +kernel

end Props

end Rustomata
