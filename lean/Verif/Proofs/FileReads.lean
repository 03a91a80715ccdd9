import Verif.Proofs.RuleReads

/-!
# Files with grammars and automata are read line by line
-/

namespace Rustomata
open Nom Spec

section
variable {A Q N T W I R : Type _}

theorem parseInitials_iff {c : Codec N} {i r : List Nat} {ns : List N} : parseInitials c i = .done r ns ↔
    ∃ i₁, i = ascii ['i', 'n', 'i', 't', 'i', 'a', 'l', ':'] ++ i₁ ∧ ∃ i₂, Skips i₁ i₂ ∧ VecReads (TokenReads c) 91 93 ns i₂ r := by
  rw [parseInitials, thn_tag_iff]
  simp only [thn_skip_iff]
  exact exists_congr fun i₁ => and_congr_right fun _ => exists_congr fun i₂ => and_congr_right fun _ => parseTokens_iff c (.inr rfl) _ _ _

theorem parseFinals_iff {c : Codec N} {i r : List Nat} {ns : List N} : parseFinals c i = .done r ns ↔
    ∃ i₁, i = ascii ['f', 'i', 'n', 'a', 'l', ':'] ++ i₁ ∧ ∃ i₂, Skips i₁ i₂ ∧ VecReads (TokenReads c) 91 93 ns i₂ r := by
  rw [parseFinals, thn_tag_iff]
  simp only [thn_skip_iff]
  exact exists_congr fun i₁ => and_congr_right fun _ => exists_congr fun i₂ => and_congr_right fun _ => parseTokens_iff c (.inr rfl) _ _ _

theorem parseInitial_iff {c : Codec Q} {i r : List Nat} {q : Q} : parseInitial c i = .done r q ↔
    r = [] ∧ ∃ i₁, i = ascii ['i', 'n', 'i', 't', 'i', 'a', 'l', ':'] ++ i₁ ∧ ∃ i₂, Skips i₁ i₂ ∧ ∃ i₃, TokenReads c q i₂ i₃ := by
  rw [parseInitial, thn_tag_iff]
  constructor
  · rintro ⟨i₁, h1, h⟩
    obtain ⟨i₂, h2, h⟩ := thn_skip_iff.mp h
    obtain ⟨i₃, q', h3, h⟩ := chain_iff.mp h
    rw [thn_done takeWhile_all, ret_iff] at h
    obtain ⟨rfl, rfl⟩ := h
    exact ⟨rfl, i₁, h1, i₂, h2, i₃, (parseToken_iff c _ _ _).mp h3⟩
  · rintro ⟨rfl, i₁, h1, i₂, h2, i₃, h3⟩
    exact ⟨i₁, h1, thn_skip_iff.mpr ⟨i₂, h2, chain_iff.mpr ⟨i₃, q, (parseToken_iff c _ _ _).mpr h3, by rw [thn_done takeWhile_all, ret]⟩⟩⟩

theorem grammarLoop_iff {cn : Codec N} {read : List Nat → Option (Option R)} {rule : R → List Nat → Prop} (hr : ∀ r s, read s = some (some r) ↔ rule r s) :
    ∀ (ls : List (List Nat)) (ini ini' : List N) (rs rs' : List R), grammarLoop cn read ls ini rs = some (some (ini', rs')) ↔
      ∃ ns rs₁, GrammarLines cn rule ns rs₁ ls ∧ ini' = ini ++ ns ∧ rs' = rs ++ rs₁
  | [], ini, ini', rs, rs' => by
    rw [grammarLoop, Option.some.injEq, Option.some.injEq, Prod.mk.injEq]
    constructor
    · rintro ⟨rfl, rfl⟩
      exact ⟨[], [], .nil, by simp, by simp⟩
    · rintro ⟨ns, rs₁, h, rfl, rfl⟩
      cases h
      simp
  | l :: ls, ini, ini', rs, rs' => by
    have hrec := grammarLoop_iff (cn := cn) hr ls
    have hini := prefix_trim (t := ascii ['i', 'n', 'i', 't', 'i', 'a', 'l', ':']) (l := l) rfl rfl
    have hcom := prefix_trim (t := [37]) (l := l) rfl rfl
    have hself : ∀ i, ascii ['i', 'n', 'i', 't', 'i', 'a', 'l', ':'] <+: trimStart (ascii ['i', 'n', 'i', 't', 'i', 'a', 'l', ':'] ++ i) := fun i => by
      rw [show ascii ['i', 'n', 'i', 't', 'i', 'a', 'l', ':'] ++ i = 105 :: (ascii ['n', 'i', 't', 'i', 'a', 'l', ':'] ++ i) from rfl, trimStart_id rfl]
      exact ⟨i, rfl⟩
    rw [grammarLoop]
    split
    · rename_i h0
      constructor
      · intro h
        split at h
        · rename_i ns e
          obtain ⟨ns', rs₁, h1, rfl, rfl⟩ := (hrec _ _ _ _).mp h
          obtain ⟨r, e⟩ := toResult_iff.mp e
          obtain ⟨i₁, rfl, i₂, h2, h3⟩ := parseInitials_iff.mp e
          exact ⟨ns ++ ns', rs₁, .initial h2 h3 h1, by simp, rfl⟩
        · cases h
        · cases h
      · rintro ⟨ns, rs₁, h, rfl, rfl⟩
        cases h with
        | initial h1 h2 h3 =>
          rw [toResult_iff.mpr ⟨_, parseInitials_iff.mpr ⟨_, rfl, _, h1, h2⟩⟩]
          simp only
          exact (hrec _ _ _ _).mpr ⟨_, _, h3, by simp, rfl⟩
        | rule h1 _ h2 => exact absurd (trim_iff.mpr h1 ▸ hini.mp h0) h2
        | comment h1 =>
          have := hini.mp h0
          rw [trim_iff.mpr h1] at this
          exact absurd (List.cons_prefix_cons.mp this).1 (by decide)
        | empty => exact absurd h0 (by decide)
    · rename_i h0
      split
      · rename_i hl
        constructor
        · intro h
          split at h
          · rename_i r e
            obtain ⟨ns, rs₁, h1, rfl, rfl⟩ := (hrec _ _ _ _).mp h
            exact ⟨ns, r :: rs₁, .rule (trim_trims l) hl.1 (fun h => h0 (hini.mpr h)) (fun h => hl.2 (hcom.mpr h)) ((hr _ _).mp e) h1, rfl, by simp⟩
          · cases h
          · cases h
        · rintro ⟨ns, rs₁, h, rfl, rfl⟩
          cases h with
          | initial => exact absurd (hself _) h0
          | rule h1 _ _ _ h2 h3 =>
            rw [trim_iff.mpr h1, (hr _ _).mpr h2]
            simp only
            exact (hrec _ _ _ _).mpr ⟨_, _, h3, rfl, by simp⟩
          | comment h1 =>
            refine absurd (hcom.mpr ?_) hl.2
            rw [trim_iff.mpr h1]
            exact ⟨_, rfl⟩
          | empty => exact absurd rfl hl.1
      · rename_i hl
        rw [hrec]
        constructor
        · rintro ⟨ns, rs₁, h, rfl, rfl⟩
          by_cases hle : l = []
          · subst hle
            exact ⟨ns, rs₁, .empty h, rfl, rfl⟩
          · have : [37] <+: trim l := hcom.mp (by by_contra hc; exact hl ⟨hle, hc⟩)
            obtain ⟨s, hs⟩ := this
            exact ⟨ns, rs₁, .comment (s := s) (trim_iff.mp hs.symm) h, rfl, rfl⟩
        · rintro ⟨ns, rs₁, h, rfl, rfl⟩
          cases h with
          | initial => exact absurd (hself _) h0
          | rule h1 h2 _ h3 => exact absurd ⟨h2, fun hc => h3 (trim_iff.mpr h1 ▸ hcom.mp hc)⟩ hl
          | comment _ h => exact ⟨_, _, h, rfl, rfl⟩
          | empty h => exact ⟨_, _, h, rfl, rfl⟩

theorem grammarFromStr_iff {cn : Codec N} {read : List Nat → Option (Option R)} {rule : R → List Nat → Prop} (hr : ∀ r s, read s = some (some r) ↔ rule r s)
    {s : List Nat} {ns : List N} {rs : List R} : grammarFromStr cn read s = some (some (ns, rs)) ↔ GrammarFile cn rule ns rs s := by
  rw [grammarFromStr, grammarLoop_iff hr]
  constructor
  · rintro ⟨ns', rs', h, rfl, rfl⟩
    exact ⟨lines s, lines_iff.mp rfl, h⟩
  · rintro ⟨ls, h1, h2⟩
    rw [← lines_iff.mpr h1] at h2
    exact ⟨ns, rs, h2, rfl, rfl⟩

/-! ### Automata -/

/-- The result of the loop over the lines of an automaton. -/
def declResult (ds : List (Decl Q R)) (init : Option Q) (fin : List Q) (ts : List R) : Option Q × List Q × List R :=
  ((Decl.lastInitial ds).or init, (Decl.lastFinals ds).getD fin, ts ++ Decl.transitions ds)

theorem fsaLoop_iff {c : Codec Q} {read : List Nat → Option (Option R)} {trans : R → List Nat → Prop} (hr : ∀ r s, read s = some (some r) ↔ trans r s)
    (htr : ∀ t s, trans t s → ∃ r, s = 84 :: r) : ∀ (ls : List (List Nat)) (init : Option Q) (fin : List Q) (ts : List R) (x : Option Q × List Q × List R),
      fsaLoop c read ls init fin ts = some (some x) ↔ ∃ ds, List.Forall₂ (DeclReads True c trans) ds ls ∧ x = declResult ds init fin ts
  | [], init, fin, ts, x => by
    rw [fsaLoop, Option.some.injEq, Option.some.injEq]
    constructor
    · rintro rfl
      exact ⟨[], .nil, by simp [declResult, Decl.lastInitial, Decl.lastFinals, Decl.transitions]⟩
    · rintro ⟨ds, h, rfl⟩
      cases h
      simp [declResult, Decl.lastInitial, Decl.lastFinals, Decl.transitions]
  | l :: ls, init, fin, ts, x => by
    have hrec := fsaLoop_iff (c := c) hr htr ls
    have htrans : ∀ {t s}, Trims l s → trans t s → ∃ t', trimStart l = 84 :: t' := by
      intro t s h1 h2
      obtain ⟨r, rfl⟩ := htr t s h2
      exact trims_start (by decide) h1
    have hpre : ∀ {p q i : List Nat}, p <+: q → q = i → p <+: i := fun h e => e ▸ h
    rw [fsaLoop]
    split
    · rename_i h0
      constructor
      · intro h
        split at h
        · rename_i q e
          obtain ⟨ds, h1, rfl⟩ := (hrec _ _ _ _).mp h
          obtain ⟨r, e⟩ := toResult_iff.mp e
          obtain ⟨_, i₁, h2, i₂, h3, i₃, h4⟩ := parseInitial_iff.mp e
          refine ⟨.initial q :: ds, .cons (.initial (trimStart_iff.mp h2) h3 h4) h1, ?_⟩
          cases e : Decl.lastInitial ds <;> simp [declResult, Decl.lastInitial, Decl.lastFinals, Decl.transitions, e]
        · cases h
        · cases h
      · rintro ⟨ds, h, rfl⟩
        cases h with
        | cons h h1 =>
          cases h with
          | initial h2 h3 h4 =>
            rw [trimStart_iff.mpr h2, toResult_iff.mpr ⟨_, parseInitial_iff.mpr ⟨rfl, _, rfl, _, h3, _, h4⟩⟩]
            simp only
            rw [hrec]
            refine ⟨_, h1, ?_⟩
            rename_i ds _ _ _ _
            cases e : Decl.lastInitial ds <;> simp [declResult, Decl.lastInitial, Decl.lastFinals, Decl.transitions, e]
          | final _ h2 => exact absurd (List.cons_prefix_cons.mp (hpre h0 (trimStart_iff.mpr h2))).1 (by decide)
          | transition h2 h3 =>
            obtain ⟨t', e⟩ := htrans h2 h3
            exact absurd (List.cons_prefix_cons.mp (hpre h0 e)).1 (by decide)
          | comment h2 => exact absurd (List.cons_prefix_cons.mp (hpre h0 (trimStart_iff.mpr h2))).1 (by decide)
          | empty => exact absurd h0 (by decide)
    · rename_i h0
      split
      · rename_i h0'
        constructor
        · intro h
          split at h
          · rename_i q e
            obtain ⟨ds, h1, rfl⟩ := (hrec _ _ _ _).mp h
            obtain ⟨r, e⟩ := toResult_iff.mp e
            obtain ⟨i₁, h2, i₂, h3, h4⟩ := parseFinals_iff.mp e
            refine ⟨.final q :: ds, .cons (.final trivial (trimStart_iff.mp h2) h3 h4) h1, ?_⟩
            cases e : Decl.lastFinals ds <;> simp [declResult, Decl.lastInitial, Decl.lastFinals, Decl.transitions, e]
          · cases h
          · cases h
        · rintro ⟨ds, h, rfl⟩
          cases h with
          | cons h h1 =>
            cases h with
            | initial h2 h3 h4 => exact absurd (trimStart_iff.mpr h2 ▸ List.prefix_append _ _) h0
            | final _ h2 h3 h4 =>
              rw [trimStart_iff.mpr h2, toResult_iff.mpr ⟨_, parseFinals_iff.mpr ⟨_, rfl, _, h3, h4⟩⟩]
              simp only
              rw [hrec]
              refine ⟨_, h1, ?_⟩
              rename_i ds _ _ _ _ _
              cases e : Decl.lastFinals ds <;> simp [declResult, Decl.lastInitial, Decl.lastFinals, Decl.transitions, e]
            | transition h2 h3 =>
              obtain ⟨t', e⟩ := htrans h2 h3
              exact absurd (List.cons_prefix_cons.mp (hpre h0' e)).1 (by decide)
            | comment h2 => exact absurd (List.cons_prefix_cons.mp (hpre h0' (trimStart_iff.mpr h2))).1 (by decide)
            | empty => exact absurd h0' (by decide)
      · rename_i h0'
        split
        · rename_i hl
          constructor
          · intro h
            split at h
            · rename_i t e
              obtain ⟨ds, h1, rfl⟩ := (hrec _ _ _ _).mp h
              exact ⟨.transition t :: ds, .cons (.transition (trim_trims l) ((hr _ _).mp e)) h1,
                by simp [declResult, Decl.lastInitial, Decl.lastFinals, Decl.transitions]⟩
            · cases h
            · cases h
          · rintro ⟨ds, h, rfl⟩
            cases h with
            | cons h h1 =>
              cases h with
              | initial h2 h3 h4 => exact absurd (trimStart_iff.mpr h2 ▸ List.prefix_append _ _) h0
              | final _ h2 => exact absurd (trimStart_iff.mpr h2 ▸ List.prefix_append _ _) h0'
              | transition h2 h3 =>
                rw [trim_iff.mpr h2, (hr _ _).mpr h3]
                simp only
                rw [hrec]
                exact ⟨_, h1, by simp [declResult, Decl.lastInitial, Decl.lastFinals, Decl.transitions]⟩
              | comment h2 => exact absurd (trimStart_iff.mpr h2 ▸ ⟨_, rfl⟩) hl.2
              | empty => exact absurd rfl hl.1
        · rename_i hl
          rw [hrec]
          constructor
          · rintro ⟨ds, h, rfl⟩
            refine ⟨.nothing :: ds, .cons ?_ h, by simp [declResult, Decl.lastInitial, Decl.lastFinals, Decl.transitions]⟩
            by_cases hle : l = []
            · subst hle
              exact .empty
            · have : [37] <+: trimStart l := by by_contra hc; exact hl ⟨hle, hc⟩
              obtain ⟨s, hs⟩ := this
              exact .comment (s := s) (trimStart_iff.mp hs.symm)
          · rintro ⟨ds, h, rfl⟩
            cases h with
            | cons h h1 =>
              cases h with
              | initial h2 h3 h4 => exact absurd (trimStart_iff.mpr h2 ▸ List.prefix_append _ _) h0
              | final _ h2 => exact absurd (trimStart_iff.mpr h2 ▸ List.prefix_append _ _) h0'
              | transition h2 h3 =>
                exfalso
                obtain ⟨t', e⟩ := htrans h2 h3
                refine hl ⟨?_, fun hc => absurd (List.cons_prefix_cons.mp (hpre hc e)).1 (by decide)⟩
                rintro rfl
                cases e
              | comment h2 => exact ⟨_, h1, by simp [declResult, Decl.lastInitial, Decl.lastFinals, Decl.transitions]⟩
              | empty => exact ⟨_, h1, by simp [declResult, Decl.lastInitial, Decl.lastFinals, Decl.transitions]⟩

/-- The result of the loop over the lines of a tree stack automaton. -/
def tsaResult (ds : List (Decl Q R)) (init : Option Q) (ts : List R) : Option Q × List R := ((Decl.lastInitial ds).or init, ts ++ Decl.transitions ds)

theorem tsaLoop_iff {c : Codec Q} {read : List Nat → Option (Option R)} {trans : R → List Nat → Prop} (hr : ∀ r s, read s = some (some r) ↔ trans r s)
    (htr : ∀ t s, trans t s → ∃ r, s = 84 :: r) : ∀ (ls : List (List Nat)) (init : Option Q) (ts : List R) (x : Option Q × List R),
      tsaLoop c read ls init ts = some (some x) ↔ ∃ ds, List.Forall₂ (DeclReads False c trans) ds ls ∧ x = tsaResult ds init ts
  | [], init, ts, x => by
    rw [tsaLoop, Option.some.injEq, Option.some.injEq]
    constructor
    · rintro rfl
      exact ⟨[], .nil, by simp [tsaResult, Decl.lastInitial, Decl.transitions]⟩
    · rintro ⟨ds, h, rfl⟩
      cases h
      simp [tsaResult, Decl.lastInitial, Decl.transitions]
  | l :: ls, init, ts, x => by
    have hrec := tsaLoop_iff (c := c) hr htr ls
    have htrans : ∀ {t s}, Trims l s → trans t s → ∃ t', trimStart l = 84 :: t' := by
      intro t s h1 h2
      obtain ⟨r, rfl⟩ := htr t s h2
      exact trims_start (by decide) h1
    have hpre : ∀ {p q i : List Nat}, p <+: q → q = i → p <+: i := fun h e => e ▸ h
    rw [tsaLoop]
    split
    · rename_i h0
      constructor
      · intro h
        split at h
        · rename_i q e
          obtain ⟨ds, h1, rfl⟩ := (hrec _ _ _).mp h
          obtain ⟨r, e⟩ := toResult_iff.mp e
          obtain ⟨_, i₁, h2, i₂, h3, i₃, h4⟩ := parseInitial_iff.mp e
          refine ⟨.initial q :: ds, .cons (.initial (trimStart_iff.mp h2) h3 h4) h1, ?_⟩
          cases e : Decl.lastInitial ds <;> simp [tsaResult, Decl.lastInitial, Decl.transitions, e]
        · cases h
        · cases h
      · rintro ⟨ds, h, rfl⟩
        cases h with
        | cons h h1 =>
          cases h with
          | initial h2 h3 h4 =>
            rw [trimStart_iff.mpr h2, toResult_iff.mpr ⟨_, parseInitial_iff.mpr ⟨rfl, _, rfl, _, h3, _, h4⟩⟩]
            simp only
            rw [hrec]
            refine ⟨_, h1, ?_⟩
            rename_i ds _ _ _ _
            cases e : Decl.lastInitial ds <;> simp [tsaResult, Decl.lastInitial, Decl.transitions, e]
          | final h => exact h.elim
          | transition h2 h3 =>
            obtain ⟨t', e⟩ := htrans h2 h3
            exact absurd (List.cons_prefix_cons.mp (hpre h0 e)).1 (by decide)
          | comment h2 => exact absurd (List.cons_prefix_cons.mp (hpre h0 (trimStart_iff.mpr h2))).1 (by decide)
          | empty => exact absurd h0 (by decide)
    · rename_i h0
      split
      · rename_i hl
        constructor
        · intro h
          split at h
          · rename_i t e
            obtain ⟨ds, h1, rfl⟩ := (hrec _ _ _).mp h
            exact ⟨.transition t :: ds, .cons (.transition (trim_trims l) ((hr _ _).mp e)) h1, by simp [tsaResult, Decl.lastInitial, Decl.transitions]⟩
          · cases h
          · cases h
        · rintro ⟨ds, h, rfl⟩
          cases h with
          | cons h h1 =>
            cases h with
            | initial h2 h3 h4 => exact absurd (trimStart_iff.mpr h2 ▸ List.prefix_append _ _) h0
            | final h => exact h.elim
            | transition h2 h3 =>
              rw [trim_iff.mpr h2, (hr _ _).mpr h3]
              simp only
              rw [hrec]
              exact ⟨_, h1, by simp [tsaResult, Decl.lastInitial, Decl.transitions]⟩
            | comment h2 => exact absurd (trimStart_iff.mpr h2 ▸ ⟨_, rfl⟩) hl.2
            | empty => exact absurd rfl hl.1
      · rename_i hl
        rw [hrec]
        constructor
        · rintro ⟨ds, h, rfl⟩
          refine ⟨.nothing :: ds, .cons ?_ h, by simp [tsaResult, Decl.lastInitial, Decl.transitions]⟩
          by_cases hle : l = []
          · subst hle
            exact .empty
          · have : [37] <+: trimStart l := by by_contra hc; exact hl ⟨hle, hc⟩
            obtain ⟨s, hs⟩ := this
            exact .comment (s := s) (trimStart_iff.mp hs.symm)
        · rintro ⟨ds, h, rfl⟩
          cases h with
          | cons h h1 =>
            cases h with
            | initial h2 h3 h4 => exact absurd (trimStart_iff.mpr h2 ▸ List.prefix_append _ _) h0
            | final h => exact h.elim
            | transition h2 h3 =>
              exfalso
              obtain ⟨t', e⟩ := htrans h2 h3
              refine hl ⟨?_, fun hc => absurd (List.cons_prefix_cons.mp (hpre hc e)).1 (by decide)⟩
              rintro rfl
              cases e
            | comment h2 => exact ⟨_, h1, by simp [tsaResult, Decl.lastInitial, Decl.transitions]⟩
            | empty => exact ⟨_, h1, by simp [tsaResult, Decl.lastInitial, Decl.transitions]⟩

end

end Rustomata
