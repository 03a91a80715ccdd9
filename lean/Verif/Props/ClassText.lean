import Verif.Spec.ClassText
import Verif.Model.ClassText
import Verif.Proofs.Reading
import Verif.Props.Approximation

/-!
# Property C64: reading equivalence relations
-/

namespace Rustomata
open Nom Spec

section
variable {A B : Type _} [DecidableEq A] [DecidableEq B] {ca : Codec A} {cb : Codec B}

/-- The elements of a class, without repetitions. -/
def dedupClass (c : B × Option (List A)) : B × Option (List A) := (c.1, c.2.map List.dedup)

theorem parseClass_iff {i r : List Nat} {c : B × Option (List A)} :
    parseClass ca cb i = .done r c ↔ ∃ c', ClassReads ca cb c' i r ∧ c = dedupClass c' := by
  have halt : ∀ {j r : List Nat} {o : Option (List A)},
      alt (thn (tag [42]) (ret none)) (chain (parseSet ca) fun s => ret (some s)) j = .done r o ↔
        (j = 42 :: r ∧ o = none) ∨ ∃ l, VecReads (TokenReads ca) 91 93 l j r ∧ o = some l.dedup := by
    intro j r o
    have hset : ∀ {j}, (chain (parseSet ca) fun s => ret (some s)) j = .done r o ↔ ∃ l, VecReads (TokenReads ca) 91 93 l j r ∧ o = some l.dedup := by
      intro j
      rw [parseSet]
      simp only [chain_iff, ret_iff]
      constructor
      · rintro ⟨r₁, a, ⟨r₂, l, h1, rfl, rfl⟩, rfl, rfl⟩
        exact ⟨l, (parseTokens_iff ca (Or.inr rfl) _ _ _).mp h1, rfl⟩
      · rintro ⟨l, h1, rfl⟩
        exact ⟨r, _, ⟨r, l, (parseTokens_iff ca (Or.inr rfl) _ _ _).mpr h1, rfl, rfl⟩, rfl, rfl⟩
    cases j with
    | nil =>
      constructor
      · intro h; cases h
      · rintro (⟨h, _⟩ | ⟨l, h, _⟩) <;> cases h
    | cons b j =>
      by_cases hb : b = 42
      · subst hb
        have h1 : (thn (tag [42]) (ret none) : Parser Nat (Option (List A))) (42 :: j) = .done j none := by rw [thn_done (tag_cons _ _), ret]
        rw [alt_done h1, PResult.done.injEq]
        constructor
        · rintro ⟨rfl, rfl⟩
          exact .inl ⟨rfl, rfl⟩
        · rintro (⟨h, rfl⟩ | ⟨l, h, _⟩)
          · exact ⟨(List.cons.inj h).2, rfl⟩
          · cases h
      · rw [alt_error (thn_error (tag_ne (Ne.symm hb))), hset]
        constructor
        · exact .inr
        · rintro (⟨h, _⟩ | h)
          · exact absurd (List.cons.inj h).1 hb
          · exact h
  rw [parseClass]
  simp only [chain_iff, thn_skip_iff, ret_iff, halt]
  constructor
  · rintro ⟨i₁, b, h1, i₂, h2, i₃, o, h3, rfl, rfl⟩
    have h1 := (parseToken_iff cb _ _ _).mp h1
    rcases h3 with ⟨rfl, rfl⟩ | ⟨l, h3, rfl⟩
    · exact ⟨(b, none), .default h1 h2, rfl⟩
    · exact ⟨(b, some l), .set h1 h2 h3, rfl⟩
  · rintro ⟨c', h, rfl⟩
    cases h with
    | default h1 h2 => exact ⟨_, _, (parseToken_iff cb _ _ _).mpr h1, _, h2, _, _, .inl ⟨rfl, rfl⟩, rfl, rfl⟩
    | set h1 h2 h3 => exact ⟨_, _, (parseToken_iff cb _ _ _).mpr h1, _, h2, _, _, .inr ⟨_, h3, rfl⟩, rfl, rfl⟩

theorem classFromStr_total (s : List Nat) : EquivalenceClass.fromStr ca cb s ≠ none := by
  have hup : Up (fun _ : List Nat => False) := fun _ _ _ h => h
  have : Tame (fun _ : List Nat => False) (parseClass ca cb) := tame_chain hup (tame_parseToken hup cb) fun _ => tame_thn hup (tame_takeWhile _) <|
    tame_chain hup (tame_alt (tame_thn hup (tame_tag _) (tame_ret _))
      (tame_chain hup (tame_chain hup (tame_parseVec hup (tame_parseToken hup ca) _ _ _) fun _ => tame_ret _) fun _ => tame_ret _)) fun _ => tame_ret _
  exact fun h => this.1 s (toResult_none h)

theorem classFromStr_iff {s : List Nat} {c : B × Option (List A)} :
    EquivalenceClass.fromStr ca cb s = some (some c) ↔ ∃ c' r, ClassReads ca cb c' s r ∧ c = dedupClass c' := by
  rw [EquivalenceClass.fromStr, toResult_iff]
  simp only [parseClass_iff]
  exact ⟨fun ⟨r, c', h⟩ => ⟨c', r, h⟩, fun ⟨c', r, h⟩ => ⟨r, c', h⟩⟩

theorem classLoop_total : ∀ (ls : List (List Nat)) (m : List (B × List A) × Option B), classLoop ca cb ls m ≠ none
  | [], m => by simp [classLoop]
  | l :: ls, m => by
    rw [classLoop]
    split
    · split
      · exact classLoop_total ls _
      · simp
      · rename_i h
        exact absurd h (classFromStr_total _)
    · exact classLoop_total ls m

theorem classLoop_iff : ∀ (ls : List (List Nat)) (m m' : List (B × List A) × Option B),
    classLoop ca cb ls m = some (some m') ↔ ∃ cs, ClassLines ca cb cs ls ∧ m' = (cs.map dedupClass).foldl EquivalenceRelation.fromLinesStep m
  | [], m, m' => by
    simp only [classLoop, Option.some.injEq]
    constructor
    · rintro rfl
      exact ⟨[], .nil, rfl⟩
    · rintro ⟨cs, h, rfl⟩
      cases h
      rfl
  | l :: ls, m, m' => by
    rw [classLoop]
    by_cases hl : l = []
    · rw [if_neg (by simp [hl]), classLoop_iff ls]
      subst hl
      constructor
      · rintro ⟨cs, h1, h2⟩
        exact ⟨cs, .empty h1, h2⟩
      · rintro ⟨cs, h1, h2⟩
        cases h1 with
        | empty h1 => exact ⟨cs, h1, h2⟩
        | line h => exact absurd rfl h
    · rw [if_pos hl]
      have hnone := classFromStr_total (ca := ca) (cb := cb) (trim l)
      cases e : EquivalenceClass.fromStr ca cb (trim l) with
      | none => exact absurd e hnone
      | some o =>
        cases o with
        | none =>
          simp only [Option.some.injEq, reduceCtorEq, false_iff, not_exists, not_and]
          intro cs h
          cases h with
          | empty => exact absurd rfl hl
          | line _ h1 h2 =>
            have := classFromStr_iff.mpr ⟨_, _, h2, rfl⟩
            rw [← trim_iff.mpr h1, e] at this
            cases this
        | some c =>
          simp only [classLoop_iff ls]
          obtain ⟨c', r, h1, rfl⟩ := classFromStr_iff.mp e
          constructor
          · rintro ⟨cs, h2, h3⟩
            exact ⟨c' :: cs, .line hl (trim_trims l) h1 h2, h3⟩
          · rintro ⟨cs, h2, h3⟩
            cases h2 with
            | empty => exact absurd rfl hl
            | @line c'' cs l ls s r' _ h4 h5 h6 =>
              have := classFromStr_iff.mpr ⟨_, _, h5, rfl⟩
              rw [← trim_iff.mpr h4, e, Option.some.injEq, Option.some.injEq] at this
              refine ⟨cs, h6, ?_⟩
              rw [h3, List.map_cons, List.foldl_cons, this]

theorem relationFromStr_iff {s : List Nat} {r : EquivalenceRelation A B} {cs : List (B × Option (List A))} (h : ClassFile ca cb cs s) :
    EquivalenceRelation.fromStr ca cb s = some (some r) ↔ EquivalenceRelation.fromLines (cs.map dedupClass) = some r := by
  obtain ⟨ls, h1, h2⟩ := h
  rw [← lines_iff.mpr h1] at h2
  rw [EquivalenceRelation.fromStr, (classLoop_iff (lines s) ([], none) _).mpr ⟨cs, h2, rfl⟩, EquivalenceRelation.fromLines]
  generalize (cs.map dedupClass).foldl EquivalenceRelation.fromLinesStep ([], none) = x
  obtain ⟨m, d⟩ := x
  cases d with
  | none => simp
  | some d =>
    simp only [Option.bind_some]
    cases EquivalenceRelation.newSafe m d <;> simp [Except.toOption]

end

namespace Props
open EquivalenceRelation

section
variable {A B : Type _} [DecidableEq A] [DecidableEq B] {ca : Codec A} {cb : Codec B}

/-- **C64** A text is read as a class iff it begins with a label that is followed by `*` or by a list in brackets. The set contains the
elements of the list once. -/
theorem C64_class {s : List Nat} {b : B} {o : Option (List A)} :
    EquivalenceClass.fromStr ca cb s = some (some (b, o)) ↔ ∃ o' r, ClassReads ca cb (b, o') s r ∧ o = o'.map List.dedup := by
  rw [classFromStr_iff]
  constructor
  · rintro ⟨⟨b', o'⟩, r, h, e⟩
    obtain ⟨rfl, rfl⟩ := Prod.mk.inj e
    exact ⟨o', r, h, rfl⟩
  · rintro ⟨o', r, h, rfl⟩
    exact ⟨(b, o'), r, h, rfl⟩

/-- **C64** Reading a class or a relation returns a value or an error, it does not panic. -/
theorem C64_total (s : List Nat) : EquivalenceClass.fromStr ca cb s ≠ none ∧ EquivalenceRelation.fromStr ca cb s ≠ none := by
  refine ⟨classFromStr_total s, ?_⟩
  rw [EquivalenceRelation.fromStr]
  split
  · rename_i e
    exact absurd e (classLoop_total _ _)
  · simp
  · split
    · split <;> simp
    · simp

/-- A text is read as a relation iff each of its lines that is not empty is a class, and these classes make up a relation. -/
theorem C64_relation {s : List Nat} {r : EquivalenceRelation A B} :
    EquivalenceRelation.fromStr ca cb s = some (some r) ↔
      ∃ cs, ClassFile ca cb cs s ∧ fromLines (cs.map fun c => (c.1, c.2.map List.dedup)) = some r := by
  constructor
  · intro h
    have h' := h
    rw [EquivalenceRelation.fromStr] at h'
    split at h'
    · cases h'
    · cases h'
    · rename_i m d e
      obtain ⟨cs, h1, _⟩ := (classLoop_iff (lines s) _ _).mp e
      exact ⟨cs, ⟨lines s, lines_iff.mp rfl, h1⟩, (relationFromStr_iff ⟨lines s, lines_iff.mp rfl, h1⟩).mp h⟩
  · rintro ⟨cs, h1, h2⟩
    exact (relationFromStr_iff h1).mpr h2

/-- **C64** (partial) If the text lists classes with distinct labels and one default class, then it is read successfully iff the classes are
disjoint and not named like the default class, and each element is then put into the class that lists it, and all others into the default class.
Text after a class on the same line is ignored. -/
theorem C64_project_partial {s : List Nat} (classes : List (B × List A)) (default : B) (hnd : (classes.map Prod.fst).Nodup)
    {cs : List (B × Option (List A))} (hcs : cs.Perm ((default, none) :: classes.map fun c => (c.1, some c.2))) (hs : ClassFile ca cb cs s) :
    ((∃ r, EquivalenceRelation.fromStr ca cb s = some (some r)) ↔
      (∀ c ∈ classes, c.1 ≠ default) ∧ classes.Pairwise fun c d => ∀ a, a ∈ c.2 → a ∉ d.2) ∧
    ∀ r, EquivalenceRelation.fromStr ca cb s = some (some r) → ∀ a,
      (∀ c ∈ classes, a ∈ c.2 → r.project a = c.1) ∧ ((∀ c ∈ classes, a ∉ c.2) → r.project a = default) := by
  have hperm : (cs.map dedupClass).Perm ((default, none) :: (classes.map fun c => (c.1, c.2.dedup)).map fun c => (c.1, some c.2)) := by
    refine (hcs.map dedupClass).trans (.of_eq ?_)
    rw [List.map_cons, List.map_map, List.map_map]
    rfl
  have hnd' : ((classes.map fun c => (c.1, c.2.dedup)).map Prod.fst).Nodup := by
    rw [List.map_map]
    exact hnd
  obtain ⟨h1, h2⟩ := C52_lines_partial _ default hnd' _ hperm
  have hdis : ((classes.map fun c => (c.1, c.2.dedup)).flatMap Prod.snd).Nodup ↔ classes.Pairwise fun c d => ∀ a, a ∈ c.2 → a ∉ d.2 := by
    rw [List.flatMap_map, List.nodup_flatMap]
    simp only [List.nodup_dedup, implies_true, true_and]
    have : ∀ c d : B × List A, Function.onFun List.Disjoint (fun a : B × List A => a.2.dedup) c d ↔ ∀ a, a ∈ c.2 → a ∉ d.2 := by
      intro c d
      simp only [Function.onFun, List.disjoint_left, List.mem_dedup]
    exact ⟨fun h => h.imp fun {_ _} => (this _ _).mp, fun h => h.imp fun {_ _} => (this _ _).mpr⟩
  constructor
  · rw [hdis, List.forall_mem_map, Option.isSome_iff_exists] at h1
    rw [← h1]
    exact exists_congr fun r => relationFromStr_iff hs
  · intro r hr a
    have h3 := h2 r ((relationFromStr_iff hs).mp hr) a
    refine ⟨fun c hc ha => ?_, fun ha => ?_⟩
    · exact (h3 _).mpr (.inl ⟨c.2.dedup, List.mem_map.mpr ⟨c, hc, rfl⟩, List.mem_dedup.mpr ha⟩)
    · refine (h3 _).mpr (.inr ⟨rfl, ?_⟩)
      rw [List.forall_mem_map]
      exact fun c hc h => ha c hc (List.mem_dedup.mp h)

end

namespace C64Example
open C48Example

/-- Texts of ASCII characters. -/
def txt (s : String) : List Nat := s.toList.map Char.toNat

/-- The file of the documentation, with text after the last class. -/
def classText : List Nat := txt "a [1, \"2\" 2]\n\n\tb\t [ 3,4 ] x\r\n\"*\"*\n"

example : (EquivalenceRelation.fromStr num str classText).map (Option.map fun r => [1, 2, 3, 4, 5].map r.project) =
    some (some [txt "a", txt "a", txt "b\t", txt "b\t", txt "*"]) := by decide +kernel

/-- The hypotheses of `C64_project_partial` can be satisfied. -/
example : ∃ r, EquivalenceRelation.fromStr num str (txt "a [1]\n* *") = some (some r) := by
  refine (C64_project_partial [(txt "a", [1])] (txt "*") (by decide) (cs := [(txt "a", some [1]), (txt "*", none)]) ?_ ?_).1.mpr (by decide)
  · exact List.Perm.swap _ _ _
  · refine ⟨[txt "a [1]", txt "* *"], ?_, ?_⟩
    · exact .lf (l := txt "a [1]") (s := txt "* *") (by decide) (by decide) (.last (by decide) (by decide))
    · refine .line (s := txt "a [1]") (r := []) (by decide) (trim_iff.mp (by decide)) ?_
        (.line (s := txt "* *") (r := []) (by decide) (trim_iff.mp (by decide)) ?_ .nil)
      · refine .set (i₁ := txt " [1]") (i₂ := txt "[1]") (.bare (s := txt "a") (by decide) (by decide) rfl ?_) ⟨txt " ", rfl, by decide, ?_⟩ ?_
        · rintro b t e; cases e; decide
        · rintro b t e; cases e; decide
        · refine .mk (i₁ := txt "1]") ⟨[], rfl, by simp, ?_⟩ (.cons (i₁ := txt "1]") (i₂ := txt "1]") (i₃ := txt "]") (i₄ := txt "]") (.inr ⟨rfl, ?_, by decide⟩)
            ⟨[], rfl, by simp, ?_⟩ (.bare (s := txt "1") (by decide) (by decide) (by decide +kernel) ?_) ⟨[], rfl, by simp, ?_⟩ .nil)
          · rintro b t e; cases e; decide
          · rintro t e; cases e
          · rintro b t e; cases e; decide
          · rintro b t e; cases e; decide
          · rintro b t e; cases e; decide
      · refine .default (i₁ := txt " *") (.bare (s := txt "*") (by decide) (by decide) rfl ?_) ⟨txt " ", rfl, by decide, ?_⟩
        · rintro b t e; cases e; decide
        · rintro b t e; cases e; decide

end C64Example

open C48Example C64Example

/-- The full claim **C64**: a text that is read as a relation consists of lines that are classes, without text after them. -/
def C64_claim : Prop :=
  ∀ (s : List Nat) (r : EquivalenceRelation Nat (List Nat)), EquivalenceRelation.fromStr num str s = some (some r) →
    ∀ ls, LinesOf ls s → ∀ l ∈ ls, l ≠ [] → ∃ c t, Trims l t ∧ ClassReads num str c t []

/-- **C64 is violated**: text after a class is ignored, for example a second class on the same line. -/
theorem C64_violated : ¬ C64_claim := by
  intro h
  have e : (EquivalenceRelation.fromStr num str (txt "a [1] b [2]\nd *")).map (Option.map fun r => (r.project 1, r.project 2)) = some (some (txt "a", txt "d")) := by
    decide +kernel
  cases e1 : EquivalenceRelation.fromStr num str (txt "a [1] b [2]\nd *") with
  | none => rw [e1] at e; cases e
  | some o =>
    cases o with
    | none => rw [e1] at e; cases e
    | some r =>
      obtain ⟨c, t, h1, h2⟩ := h _ r e1 [txt "a [1] b [2]", txt "d *"]
        (.lf (l := txt "a [1] b [2]") (s := txt "d *") (by decide) (by decide) (.last (by decide) (by decide))) _ (List.mem_cons_self) (by decide)
      have h3 := trim_iff.mpr h1
      subst h3
      have h4 := parseClass_iff.mpr ⟨c, h2, rfl⟩
      have h5 : parseClass num str (trim (txt "a [1] b [2]")) = .done (txt " b [2]") (txt "a", some [1]) := by decide +kernel
      rw [h5, PResult.done.injEq] at h4
      exact absurd h4.1 (by decide)

end Props

end Rustomata
