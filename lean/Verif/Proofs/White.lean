import Verif.Model.AutomatonText
import Verif.Spec.White

/-!
# White space
-/

namespace Rustomata
open Spec

theorem white_mem {c : List Nat} : White c ↔ c ∈ whiteChars := by
  have h : whiteChars = whiteSpace.map utf8 := by decide
  rw [h, List.mem_map]
  exact ⟨fun ⟨x, h, e⟩ => ⟨x, h, e.symm⟩, fun ⟨x, h, e⟩ => ⟨x, h, e.symm⟩⟩

/-- A byte of a white space character. -/
def isWhite (b : Nat) : Bool := whiteChars.flatten.contains b

/-- The first byte of a white space character. -/
def isLead (b : Nat) : Bool := (whiteChars.filterMap List.head?).contains b

theorem white_cons {c : List Nat} (h : White c) : ∃ b t, c = b :: t ∧ isLead b = true ∧ ∀ x ∈ t, isLead x = false := by
  have key : ∀ c ∈ whiteChars, c ≠ [] ∧ (∀ b ∈ c.head?, isLead b = true) ∧ ∀ x ∈ c.tail, isLead x = false := by decide
  obtain ⟨h1, h2, h3⟩ := key c (white_mem.mp h)
  cases c with
  | nil => exact absurd rfl h1
  | cons b t => exact ⟨b, t, rfl, h2 b rfl, h3⟩

theorem white_ne {c : List Nat} (h : White c) : c ≠ [] := by
  obtain ⟨b, t, rfl, -⟩ := white_cons h
  simp

theorem white_bytes {c : List Nat} (h : White c) {b : Nat} (hb : b ∈ c) : isWhite b = true := by
  rw [isWhite, List.contains_iff_mem]
  exact List.mem_flatten.mpr ⟨c, white_mem.mp h, hb⟩

theorem lead_white {b : Nat} (h : isLead b = true) : isWhite b = true := by
  rw [isLead, List.contains_iff_mem, List.mem_filterMap] at h
  obtain ⟨c, h1, h2⟩ := h
  exact white_bytes (white_mem.mpr h1) (List.mem_of_mem_head? h2)

theorem not_white {b : Nat} (h : 33 ≤ b) (h' : b < 128) : isWhite b = false := by
  have key : ∀ x ∈ whiteChars.flatten, x < 33 ∨ 128 ≤ x := by decide
  cases e : isWhite b with
  | false => rfl
  | true =>
    rw [isWhite, List.contains_iff_mem] at e
    have := key b e
    omega

/-- A set of texts none of which begins with another one. -/
def PrefixFree (ws : List (List Nat)) : Prop := (∀ c ∈ ws, c ≠ []) ∧ ∀ c ∈ ws, ∀ c' ∈ ws, c <+: c' → c = c'

theorem prefixFree_white : PrefixFree whiteChars := by
  have h1 : ∀ c ∈ whiteChars, c ≠ [] := by decide
  have h2 : ∀ c ∈ whiteChars, ∀ c' ∈ whiteChars, c <+: c' → c = c' := by decide
  exact ⟨h1, h2⟩

theorem prefixFree_reverse : PrefixFree (whiteChars.map List.reverse) := by
  have h1 : ∀ c ∈ whiteChars.map List.reverse, c ≠ [] := by decide
  have h2 : ∀ c ∈ whiteChars.map List.reverse, ∀ c' ∈ whiteChars.map List.reverse, c <+: c' → c = c' := by decide
  exact ⟨h1, h2⟩

section
variable {ws : List (List Nat)}

theorem whiteLen_append (hp : PrefixFree ws) {c : List Nat} (h : c ∈ ws) (s : List Nat) : whiteLen ws (c ++ s) = c.length := by
  have hc : c <+: c ++ s := ⟨s, rfl⟩
  rw [whiteLen]
  cases e : ws.find? (·.isPrefixOf (c ++ s)) with
  | none => exact absurd (List.isPrefixOf_iff_prefix.mpr hc) (List.find?_eq_none.mp e c h)
  | some d =>
    have h1 : d <+: c ++ s := List.isPrefixOf_iff_prefix.mp (by simpa using List.find?_some e)
    have h2 := List.mem_of_find?_eq_some e
    have : d = c := by
      rcases List.prefix_or_prefix_of_prefix h1 hc with h3 | h3
      · exact hp.2 d h2 c h h3
      · exact (hp.2 c h d h2 h3).symm
    rw [this]

theorem whiteLen_zero (hp : PrefixFree ws) {s : List Nat} : whiteLen ws s = 0 ↔ ∀ c ∈ ws, ¬ c <+: s := by
  constructor
  · rintro h c hc ⟨t, rfl⟩
    rw [whiteLen_append hp hc] at h
    exact hp.1 c hc (List.length_eq_zero_iff.mp h)
  · intro h
    rw [whiteLen, List.find?_eq_none.mpr fun c hc e => h c hc (List.isPrefixOf_iff_prefix.mp e)]

theorem whiteLen_pos (hp : PrefixFree ws) {s : List Nat} (h : whiteLen ws s ≠ 0) : ∃ c ∈ ws, ∃ t, s = c ++ t := by
  by_contra hn
  refine h ((whiteLen_zero hp).mpr fun c hc hs => hn ?_)
  obtain ⟨t, e⟩ := hs
  exact ⟨c, hc, t, e.symm⟩

theorem trimGo_skip (c s : List Nat) : trimGo ws c.length (c ++ s) = trimGo ws 0 s := by
  induction c with
  | nil => rfl
  | cons b c ih => rw [List.length_cons, List.cons_append, trimGo, ih]

theorem trimGo_char (hp : PrefixFree ws) {c : List Nat} (h : c ∈ ws) (s : List Nat) : trimGo ws 0 (c ++ s) = trimGo ws 0 s := by
  cases c with
  | nil => rfl
  | cons b c =>
    have e := whiteLen_append hp h s
    rw [List.length_cons, List.cons_append] at e
    rw [List.cons_append, trimGo, e]
    exact trimGo_skip c s

theorem trimGo_chars (hp : PrefixFree ws) {cs : List (List Nat)} (h : ∀ c ∈ cs, c ∈ ws) (s : List Nat) :
    trimGo ws 0 (cs.flatten ++ s) = trimGo ws 0 s := by
  induction cs with
  | nil => rfl
  | cons c cs ih =>
    rw [List.flatten_cons, List.append_assoc, trimGo_char hp (h c List.mem_cons_self), ih fun d hd => h d (List.mem_cons_of_mem _ hd)]

theorem trimGo_id (hp : PrefixFree ws) {s : List Nat} (h : ∀ c ∈ ws, ¬ c <+: s) : trimGo ws 0 s = s := by
  cases s with
  | nil => rfl
  | cons b s => rw [trimGo, (whiteLen_zero hp).mpr h]

theorem trimGo_inv (hp : PrefixFree ws) : ∀ (n : Nat) (s : List Nat), s.length ≤ n →
    ∃ cs : List (List Nat), (∀ c ∈ cs, c ∈ ws) ∧ s = cs.flatten ++ trimGo ws 0 s ∧ ∀ c ∈ ws, ¬ c <+: trimGo ws 0 s
  | 0, s, hn => by
    have : s = [] := List.length_eq_zero_iff.mp (by omega)
    subst this
    exact ⟨[], by simp, rfl, fun c hc h => hp.1 c hc (List.prefix_nil.mp h)⟩
  | n + 1, s, hn => by
    by_cases h : whiteLen ws s = 0
    · have h' := (whiteLen_zero hp).mp h
      rw [trimGo_id hp h']
      exact ⟨[], by simp, rfl, h'⟩
    · obtain ⟨c, hc, t, rfl⟩ := whiteLen_pos hp h
      have : 0 < c.length := List.length_pos_of_ne_nil (hp.1 c hc)
      rw [List.length_append] at hn
      obtain ⟨cs, h1, h2, h3⟩ := trimGo_inv hp n t (by omega)
      rw [trimGo_char hp hc]
      refine ⟨c :: cs, fun d hd => ?_, ?_, h3⟩
      · rcases List.mem_cons.mp hd with rfl | hd
        · exact hc
        · exact h1 d hd
      · rw [List.flatten_cons, List.append_assoc, ← h2]

end

/-! ### Sequences of white space characters -/

theorem whites_nil : Whites [] := ⟨[], by simp, rfl⟩

theorem whites_append {u v : List Nat} (hu : Whites u) (hv : Whites v) : Whites (u ++ v) := by
  obtain ⟨cs, h1, rfl⟩ := hu
  obtain ⟨ds, h2, rfl⟩ := hv
  refine ⟨cs ++ ds, fun c hc => ?_, by simp⟩
  rcases List.mem_append.mp hc with h | h
  · exact h1 c h
  · exact h2 c h

theorem whites_one {c : List Nat} (h : White c) : Whites c := ⟨[c], by simpa using h, by simp⟩

theorem white_space : White [32] := white_mem.mpr (by decide)

theorem whites_bytes {u : List Nat} (hu : Whites u) {b : Nat} (hb : b ∈ u) : isWhite b = true := by
  obtain ⟨cs, h, rfl⟩ := hu
  obtain ⟨c, hc, hb⟩ := List.mem_flatten.mp hb
  exact white_bytes (h c hc) hb

/-- ASCII white space. -/
theorem whites_ascii {s : List Nat} (h : ∀ b ∈ s, b = 32 ∨ 9 ≤ b ∧ b ≤ 13) : Whites s := by
  refine ⟨s.map fun b => [b], fun c hc => ?_, ?_⟩
  · obtain ⟨b, hb, rfl⟩ := List.mem_map.mp hc
    have : b = 32 ∨ b = 9 ∨ b = 10 ∨ b = 11 ∨ b = 12 ∨ b = 13 := by
      have := h b hb
      omega
    refine white_mem.mpr ?_
    rcases this with rfl | rfl | rfl | rfl | rfl | rfl <;> decide
  · clear h
    induction s with
    | nil => rfl
    | cons b s ih => rw [List.map_cons, List.flatten_cons, ← ih]; rfl

theorem whites_lead {v : List Nat} (hv : Whites v) : ∀ b ∈ v.head?, isLead b = true := by
  obtain ⟨cs, h, rfl⟩ := hv
  cases cs with
  | nil => simp
  | cons c cs =>
    obtain ⟨b, t, rfl, hb, -⟩ := white_cons (h c List.mem_cons_self)
    intro x hx
    simp only [List.flatten_cons, List.cons_append, List.head?_cons, Option.mem_def, Option.some.injEq] at hx
    rwa [← hx]

/-- A white space character does not begin inside a text and end behind it, if the rest begins with a first byte. -/
theorem prefix_of_lead {c s v : List Nat} (hc : White c) (hs : s ≠ []) (hv : ∀ b ∈ v.head?, isLead b = true) (h : c <+: s ++ v) : c <+: s := by
  rcases List.prefix_or_prefix_of_prefix h (List.prefix_append s v) with h1 | ⟨x, rfl⟩
  · exact h1
  · obtain ⟨y, e⟩ := h
    rw [List.append_assoc] at e
    have e2 := List.append_cancel_left e
    cases x with
    | nil => simp
    | cons b x =>
      exfalso
      obtain ⟨a, t, e', -, ht⟩ := white_cons hc
      cases s with
      | nil => exact hs rfl
      | cons a' s =>
        rw [List.cons_append, List.cons.injEq] at e'
        have h1 := ht b (by rw [← e'.2]; simp)
        have h2 := hv b (by rw [← e2]; rfl)
        rw [h1] at h2
        cases h2

theorem no_white_prefix {b : Nat} (hb : isWhite b = false) (t : List Nat) : ∀ c, White c → ¬ c <+: b :: t := by
  rintro c hc ⟨r, e⟩
  obtain ⟨a, t', rfl, ha, -⟩ := white_cons hc
  rw [List.cons_append, List.cons.injEq] at e
  have := lead_white ha
  rw [e.1, hb] at this
  cases this

theorem no_white_suffix {b : Nat} (hb : isWhite b = false) (t : List Nat) : ∀ c, White c → ¬ c <:+ t ++ [b] := by
  rintro c hc h
  have : b ∈ c := by
    obtain ⟨r, e⟩ := h
    have h1 := congrArg List.getLast? e
    rw [List.getLast?_append, List.getLast?_concat] at h1
    obtain ⟨d, hd⟩ : ∃ d, c.getLast? = some d := by
      cases h2 : c.getLast? with
      | none => exact absurd (List.getLast?_eq_none_iff.mp h2) (white_ne hc)
      | some d => exact ⟨d, rfl⟩
    rw [hd, Option.some_or, Option.some.injEq] at h1
    rw [← h1]
    exact List.mem_of_getLast? hd
  rw [white_bytes hc this] at hb
  cases hb

theorem wordText_of {s : List Nat} (h : s ≠ []) (hs : ∀ b ∈ s, isWhite b = false) : WordText s := by
  refine ⟨h, fun c hc hi => ?_⟩
  obtain ⟨b, t, rfl, hb, -⟩ := white_cons hc
  have := hs b (hi.subset List.mem_cons_self)
  rw [lead_white hb] at this
  cases this

theorem wordText_lead {s : List Nat} (h : WordText s) {b : Nat} (hb : b < 128) (hw : isWhite b = true) : b ∉ s := by
  have key : ∀ x ∈ whiteChars.flatten, x < 128 → [x] ∈ whiteChars := by decide
  intro hm
  rw [isWhite, List.contains_iff_mem] at hw
  obtain ⟨x, y, rfl⟩ := List.append_of_mem hm
  exact h.2 [b] (white_mem.mpr (key b hw hb)) ⟨x, y, by simp⟩

/-! ### Trimming -/

theorem trimStart_append {u : List Nat} (hu : Whites u) (r : List Nat) : trimStart (u ++ r) = trimStart r := by
  obtain ⟨cs, h, rfl⟩ := hu
  exact trimGo_chars prefixFree_white (fun c hc => white_mem.mp (h c hc)) r

theorem trimStart_self {s : List Nat} (h : ∀ c, White c → ¬ c <+: s) : trimStart s = s :=
  trimGo_id prefixFree_white fun c hc => h c (white_mem.mpr hc)

theorem trimStart_id {b : Nat} {t : List Nat} (h : isWhite b = false) : trimStart (b :: t) = b :: t := trimStart_self (no_white_prefix h t)

theorem trimStart_trims (l : List Nat) : TrimsStart l (trimStart l) := by
  obtain ⟨cs, h1, h2, h3⟩ := trimGo_inv prefixFree_white l.length l le_rfl
  exact ⟨cs.flatten, h2, ⟨cs, fun c hc => white_mem.mpr (h1 c hc), rfl⟩, fun c hc => h3 c (white_mem.mp hc)⟩

theorem trimStart_iff {l s : List Nat} : trimStart l = s ↔ TrimsStart l s := by
  constructor
  · rintro rfl
    exact trimStart_trims l
  · rintro ⟨u, rfl, hu, hs⟩
    rw [trimStart_append hu, trimStart_self hs]

/-- `str::trim_end`. -/
def trimEnd (s : List Nat) : List Nat := (trimGo (whiteChars.map List.reverse) 0 s.reverse).reverse

theorem trimEnd_append (s : List Nat) {v : List Nat} (hv : Whites v) : trimEnd (s ++ v) = trimEnd s := by
  obtain ⟨cs, h, rfl⟩ := hv
  have e : (s ++ cs.flatten).reverse = (cs.map List.reverse).reverse.flatten ++ s.reverse := by
    rw [List.reverse_append, List.reverse_flatten]
  rw [trimEnd, e, trimGo_chars prefixFree_reverse]
  · rfl
  · intro c hc
    obtain ⟨d, hd, rfl⟩ := List.mem_map.mp (List.mem_reverse.mp hc)
    exact List.mem_map.mpr ⟨d, white_mem.mp (h d hd), rfl⟩

theorem trimEnd_self {s : List Nat} (h : ∀ c, White c → ¬ c <:+ s) : trimEnd s = s := by
  rw [trimEnd, trimGo_id prefixFree_reverse, List.reverse_reverse]
  intro c hc hp
  obtain ⟨d, hd, rfl⟩ := List.mem_map.mp hc
  exact h d (white_mem.mpr hd) (List.reverse_prefix.mp hp)

theorem trimEnd_inv (s : List Nat) : ∃ v, s = trimEnd s ++ v ∧ Whites v ∧ ∀ c, White c → ¬ c <:+ trimEnd s := by
  obtain ⟨cs, h1, h2, h3⟩ := trimGo_inv prefixFree_reverse s.reverse.length s.reverse le_rfl
  refine ⟨(cs.map List.reverse).reverse.flatten, ?_, ⟨_, fun c hc => ?_, rfl⟩, fun c hc hs => ?_⟩
  · have := congrArg List.reverse h2
    rwa [List.reverse_reverse, List.reverse_append, List.reverse_flatten] at this
  · obtain ⟨d, hd, rfl⟩ := List.mem_map.mp (List.mem_reverse.mp hc)
    obtain ⟨d', hd', rfl⟩ := List.mem_map.mp (h1 d hd)
    rw [List.reverse_reverse]
    exact white_mem.mpr hd'
  · refine h3 c.reverse (List.mem_map.mpr ⟨c, white_mem.mp hc, rfl⟩) ?_
    rw [trimEnd] at hs
    have := List.reverse_prefix.mpr hs
    rwa [List.reverse_reverse] at this

theorem trim_eq (l : List Nat) : trim l = trimEnd (trimStart l) := rfl

theorem trim_trims (l : List Nat) : Trims l (trim l) := by
  obtain ⟨u, h1, h2, h3⟩ := trimStart_trims l
  obtain ⟨v, h4, h5, h6⟩ := trimEnd_inv (trimStart l)
  refine ⟨u, v, ?_, h2, h5, fun c hc hp => h3 c hc ?_, h6⟩
  · rw [List.append_assoc, trim_eq, ← h4, ← h1]
  · rw [h4]
    exact hp.trans (List.prefix_append _ _)

/-- Without white space at the beginning, there is still none after white space is added at the end. -/
theorem no_white_append {s v : List Nat} (h : ∀ c, White c → ¬ c <+: s) (hs : s ≠ []) (hv : Whites v) : ∀ c, White c → ¬ c <+: s ++ v :=
  fun c hc hp => h c hc (prefix_of_lead hc hs (whites_lead hv) hp)

theorem trim_iff {l s : List Nat} : trim l = s ↔ Trims l s := by
  constructor
  · rintro rfl
    exact trim_trims l
  · rintro ⟨u, v, rfl, hu, hv, h1, h2⟩
    by_cases hs : s = []
    · subst hs
      have : trimStart (u ++ [] ++ v) = [] := by
        have := trimStart_append (whites_append hu hv) []
        rw [List.append_nil] at this
        rw [List.append_nil, this]
        rfl
      rw [trim_eq, this]
      rfl
    · rw [trim_eq, List.append_assoc, trimStart_append hu, trimStart_self (no_white_append h1 hs hv), trimEnd_append _ hv, trimEnd_self h2]

theorem trim_id {s : List Nat} {b c : Nat} {t u : List Nat} (h1 : s = b :: t) (h2 : s = u ++ [c]) (hb : isWhite b = false) (hc : isWhite c = false) :
    trim s = s := by
  refine trim_iff.mpr ⟨[], [], by simp, whites_nil, whites_nil, ?_, ?_⟩
  · rw [h1]
    exact no_white_prefix hb t
  · rw [h2]
    exact no_white_suffix hc u

theorem trims_start {l : List Nat} {b : Nat} {t : List Nat} (hb : isWhite b = false) (h : Trims l (b :: t)) : ∃ t', trimStart l = b :: t' := by
  obtain ⟨u, v, h1, h2, -⟩ := h
  exact ⟨t ++ v, trimStart_iff.mpr ⟨u, by rw [h1]; simp, h2, no_white_prefix hb _⟩⟩

theorem prefix_trim {t l : List Nat} {c : Nat} (ht : t.getLast? = some c) (hc : isWhite c = false) : t <+: trimStart l ↔ t <+: trim l := by
  obtain ⟨v, hv, hw, -⟩ := trimEnd_inv (trimStart l)
  rw [← trim_eq] at hv
  constructor
  · intro h
    rw [hv] at h
    rcases List.prefix_or_prefix_of_prefix h (List.prefix_append (trim l) v) with h1 | ⟨x, rfl⟩
    · exact h1
    · obtain ⟨y, e⟩ := h
      rw [List.append_assoc] at e
      have e := List.append_cancel_left e
      by_cases hx : x = []
      · subst hx
        simp
      · exfalso
        rw [List.getLast?_append] at ht
        obtain ⟨d, hd⟩ : ∃ d, x.getLast? = some d := by
          cases h2 : x.getLast? with
          | none => exact absurd (List.getLast?_eq_none_iff.mp h2) hx
          | some d => exact ⟨d, rfl⟩
        rw [hd, Option.some_or, Option.some.injEq] at ht
        subst ht
        have := whites_bytes hw (b := d) (by rw [← e]; exact List.mem_append_left _ (List.mem_of_getLast? hd))
        rw [hc] at this
        cases this
  · intro h
    rw [hv]
    exact h.trans (List.prefix_append _ _)

/-! ### Words -/

theorem splitWhiteGo_skip (c cur s : List Nat) : splitWhiteGo c.length cur (c ++ s) = splitWhiteGo 0 cur s := by
  induction c with
  | nil => rfl
  | cons b c ih => rw [List.length_cons, List.cons_append, splitWhiteGo, ih]

theorem splitWhiteGo_white {c : List Nat} (h : White c) (cur s : List Nat) :
    splitWhiteGo 0 cur (c ++ s) = if cur = [] then splitWhiteGo 0 [] s else cur :: splitWhiteGo 0 [] s := by
  cases c with
  | nil => exact absurd rfl (white_ne h)
  | cons b c =>
    have e := whiteLen_append prefixFree_white (white_mem.mp h) s
    rw [List.length_cons, List.cons_append] at e
    rw [List.cons_append, splitWhiteGo, e]
    simp only [splitWhiteGo_skip]

theorem splitWhiteGo_byte {b : Nat} {s : List Nat} (h : ∀ c, White c → ¬ c <+: b :: s) (cur : List Nat) :
    splitWhiteGo 0 cur (b :: s) = splitWhiteGo 0 (cur ++ [b]) s := by
  rw [splitWhiteGo, (whiteLen_zero prefixFree_white).mpr fun c hc => h c (white_mem.mpr hc)]

theorem splitWhiteGo_word : ∀ (s cur r : List Nat), (∀ c, White c → ¬ c <:+: s) → (∀ b ∈ r.head?, isLead b = true) →
    splitWhiteGo 0 cur (s ++ r) = splitWhiteGo 0 (cur ++ s) r
  | [], cur, r, _, _ => by simp
  | b :: s, cur, r, h, hr => by
    rw [List.cons_append, splitWhiteGo_byte, splitWhiteGo_word s (cur ++ [b]) r (fun c hc hi => h c hc (hi.trans (List.suffix_cons b s).isInfix)) hr]
    · simp
    · intro c hc hp
      exact h c hc (prefix_of_lead hc (by simp) hr hp).isInfix

theorem splitWhiteGo_whites {w : List Nat} (r : List Nat) (h : Whites w) : splitWhiteGo 0 [] (w ++ r) = splitWhiteGo 0 [] r := by
  obtain ⟨cs, h, rfl⟩ := h
  induction cs with
  | nil => rfl
  | cons c cs ih =>
    rw [List.flatten_cons, List.append_assoc, splitWhiteGo_white (h c List.mem_cons_self), if_pos rfl, ih fun d hd => h d (List.mem_cons_of_mem _ hd)]

theorem splitWhite_words {l : List (List Nat)} {t : List Nat} (h : WordsText l t) : splitWhite t = l := by
  rw [splitWhite]
  induction h with
  | nil hw =>
    have := splitWhiteGo_whites [] hw
    rw [List.append_nil] at this
    rw [this]
    rfl
  | @last w s hw hs =>
    rw [splitWhiteGo_whites _ hw]
    have := splitWhiteGo_word s [] [] hs.2 (by simp)
    rw [List.append_nil] at this
    rw [this, List.nil_append, splitWhiteGo, if_neg hs.1]
  | @cons w s c l t hw hs hc _ ih =>
    have hl : ∀ b ∈ (c ++ t).head?, isLead b = true := by
      obtain ⟨b, t', rfl, hb, -⟩ := white_cons hc
      intro x hx
      simp only [List.cons_append, List.head?_cons, Option.mem_def, Option.some.injEq] at hx
      rwa [← hx]
    rw [List.append_assoc, List.append_assoc, splitWhiteGo_whites _ hw, splitWhiteGo_word s [] _ hs.2 hl, List.nil_append,
      splitWhiteGo_white hc, if_neg hs.1, ih]

theorem wordsText_whites {w : List Nat} (hw : Whites w) {l : List (List Nat)} {t : List Nat} (h : WordsText l t) : WordsText l (w ++ t) := by
  cases h with
  | nil h => exact .nil (whites_append hw h)
  | last h hs =>
    rw [← List.append_assoc]
    exact .last (whites_append hw h) hs
  | cons h hs hc ht =>
    rw [← List.append_assoc, ← List.append_assoc, ← List.append_assoc]
    exact .cons (whites_append hw h) hs hc ht

theorem splitWhite_inv (t : List Nat) : WordsText (splitWhite t) t := by
  have key : ∀ (n : Nat) (t cur : List Nat), t.length ≤ n → (∀ p x, cur = p ++ x → x ≠ [] → ∀ c, White c → ¬ c <+: x ++ t) →
      (cur = [] → WordsText (splitWhiteGo 0 cur t) t) ∧ (cur ≠ [] → WordsText (splitWhiteGo 0 cur t) (cur ++ t)) := by
    intro n
    have hword : ∀ {t cur : List Nat}, cur ≠ [] → (∀ p x, cur = p ++ x → x ≠ [] → ∀ c, White c → ¬ c <+: x ++ t) → WordText cur := by
      rintro t cur hc h
      refine ⟨hc, fun c hc ⟨p, q, e⟩ => h p (c ++ q) (by rw [← e, List.append_assoc]) (by simp [white_ne hc]) c hc ?_⟩
      rw [List.append_assoc]
      exact List.prefix_append _ _
    induction n with
    | zero =>
      intro t cur hn h
      have : t = [] := List.length_eq_zero_iff.mp (by omega)
      subst this
      refine ⟨fun e => ?_, fun e => ?_⟩
      · rw [splitWhiteGo, if_pos e]
        exact .nil whites_nil
      · rw [splitWhiteGo, if_neg e, List.append_nil]
        exact .last (w := []) whites_nil (hword e h)
    | succ n ih =>
      intro t cur hn h
      by_cases hz : whiteLen whiteChars t = 0
      · have hz' := (whiteLen_zero prefixFree_white).mp hz
        cases t with
        | nil => exact ih [] cur (by simp) h
        | cons b t =>
          rw [splitWhiteGo_byte fun c hc => hz' c (white_mem.mp hc)]
          have h1 := (ih t (cur ++ [b]) (by simpa using hn) ?_).2 (by simp)
          · rw [List.append_assoc] at h1
            refine ⟨fun e => ?_, fun _ => h1⟩
            subst e
            exact h1
          · intro p x e hx c hc hp
            rcases List.eq_nil_or_concat x with rfl | ⟨x, d, rfl⟩
            · exact hx rfl
            · rw [List.concat_eq_append] at e hp
              rw [← List.append_assoc] at e
              obtain ⟨e1, e2⟩ := List.append_inj' e rfl
              cases e2
              rw [List.append_assoc] at hp
              cases x with
              | nil => exact hz' c (white_mem.mp hc) hp
              | cons a x => exact h p (a :: x) e1 (by simp) c hc hp
      · obtain ⟨c, hc, s, rfl⟩ := whiteLen_pos prefixFree_white hz
        have hw := white_mem.mpr hc
        have : 0 < c.length := List.length_pos_of_ne_nil (white_ne hw)
        rw [List.length_append] at hn
        have h1 := (ih s [] (by omega) (by
          intro p x e hx
          exact absurd (List.append_eq_nil_iff.mp e.symm).2 hx)).1 rfl
        rw [splitWhiteGo_white hw]
        refine ⟨fun e => ?_, fun e => ?_⟩
        · rw [if_pos e]
          exact wordsText_whites (whites_one hw) h1
        · rw [if_neg e, ← List.append_assoc]
          exact .cons (w := []) whites_nil (hword e h) hw h1
  exact (key t.length t [] le_rfl (by
    intro p x e hx
    exact absurd (List.append_eq_nil_iff.mp e.symm).2 hx)).1 rfl

theorem splitWhite_iff {t : List Nat} {l : List (List Nat)} : splitWhite t = l ↔ WordsText l t :=
  ⟨fun h => h ▸ splitWhite_inv t, splitWhite_words⟩

theorem wordsText_append {l l' : List (List Nat)} {s t : List Nat} (h : WordsText l s) (h' : WordsText l' t) {c : List Nat} (hc : White c) :
    WordsText (l ++ l') (s ++ (c ++ t)) := by
  induction h with
  | nil hw => exact wordsText_whites hw (wordsText_whites (whites_one hc) h')
  | last hw hs =>
    rw [← List.append_assoc]
    exact .cons hw hs hc h'
  | cons hw hs hd _ ih =>
    rw [List.append_assoc _ _ (c ++ t)]
    exact .cons hw hs hd ih

end Rustomata
