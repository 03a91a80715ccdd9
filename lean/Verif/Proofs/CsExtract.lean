import Verif.Spec.CsExtract
import Verif.Props.Import
import Verif.Props.RuleReads
import Verif.Props.CsCommandAny
import Verif.Props.Factorize

/-!
# Grammars of disco-dop as grammars of the parser
-/

namespace Rustomata
open Spec Props

section
variable {N T W : Type _}

/-- The variable of a component that consists of one variable. -/
theorem isYield_single {bits : List (List Bool)} {comp : Composition T} (h : IsYield bits comp) {c i j : Nat} (hc : comp[c]? = some [.var i j]) :
    ∃ b : Bool, bits[c]? = some [b] ∧ i = b.toNat ∧ j = (bits.take c).flatten.count b := by
  obtain ⟨h1, h2, h3⟩ := h
  have hlt : c < comp.length := (List.getElem?_eq_some_iff.1 hc).1
  have hb : ∃ b : Bool, bits[c]? = some [b] ∧ i = b.toNat := by
    have hlt' : c < bits.length := h1.length_eq ▸ hlt
    have := h1.get hlt hlt'
    simp only [List.get_eq_getElem] at this
    rw [List.getElem?_eq_getElem hlt, Option.some_inj] at hc
    rw [hc] at this
    rw [List.getElem?_eq_getElem hlt']
    cases hbs : bits[c] with
    | nil => rw [hbs] at this; cases this
    | cons b bs =>
      rw [hbs] at this
      cases this with
      | cons hb hn =>
        cases hn
        cases hb with
        | fst j => exact ⟨false, rfl, rfl⟩
        | snd j => exact ⟨true, rfl, rfl⟩
  obtain ⟨b, hb1, hb2⟩ := hb
  refine ⟨b, hb1, hb2, ?_⟩
  have hsplit : comp = comp.take c ++ [.var i j] :: comp.drop (c + 1) := by
    conv_lhs => rw [← List.take_append_drop c comp]
    rw [List.drop_eq_getElem_cons hlt]
    rw [List.getElem?_eq_getElem hlt, Option.some_inj] at hc
    rw [hc]
  have hvars : varsOf comp = varsOf (comp.take c) ++ (i, j) :: varsOf (comp.drop (c + 1)) := by
    conv_lhs => rw [hsplit]
    simp [varsOf, List.filterMap_append]
  have hcount : ∀ {cs : Composition T} {bs : List (List Bool)}, List.Forall₂ (List.Forall₂ IsChild) cs bs →
      ((varsOf cs).filter (·.1 = b.toNat)).length = bs.flatten.count b := by
    intro cs bs h
    induction h with
    | nil => rfl
    | @cons x y cs bs hxy _ ih =>
      have e : varsOf (x :: cs) = varsOf [x] ++ varsOf cs := by simp [varsOf, List.filterMap_append]
      rw [e, List.filter_append, List.length_append, ih, List.flatten_cons, List.count_append]
      congr 1
      clear e ih
      induction hxy with
      | nil => rfl
      | @cons v w vs ws hv _ ih =>
        have e : varsOf [v :: vs] = varsOf [[v]] ++ varsOf [vs] := by
          simp only [varsOf, List.flatten_cons, List.flatten_nil, List.append_nil]
          rw [← List.singleton_append, List.filterMap_append]
        rw [e, List.filter_append, List.length_append, ih, List.count_cons, Nat.add_comm]
        congr 1
        cases hv <;> cases b <;> rfl
  have key : ∀ n, ((varsOf comp).filter (·.1 = b.toNat)).map (·.2) = List.range n → j = ((varsOf (comp.take c)).filter (·.1 = b.toNat)).length := by
    intro n hn
    rw [hvars, List.filter_append, List.map_append, List.filter_cons_of_pos (by simp [hb2]), List.map_cons] at hn
    have := congrArg (fun l => l[((varsOf (comp.take c)).filter (·.1 = b.toNat)).length]?) hn
    simp only at this
    rw [List.getElem?_append_right (by simp)] at this
    simp only [List.length_map, Nat.sub_self, List.getElem?_cons_zero] at this
    obtain ⟨h1, h2⟩ := List.getElem?_eq_some_iff.1 this.symm
    rw [List.getElem_range] at h2
    exact h2.symm
  have htake := hcount (List.forall₂_take c h1)
  rw [← htake]
  cases b with
  | false => exact key _ h2
  | true => exact key _ h3

/-- The grammar that is described by the files of disco-dop is a grammar for the parser. -/
theorem described_grammar [DecidableEq N] [DivisionSemiring W] {l : List (DiscoDeriv N × List (List Bool) × W)} {lex : List (T × N × W)} {root : N} {g : Lcfrs N T W}
    (h : DescribedBy l lex root g) (hgood : ∀ x ∈ l, GoodBits x.2.1) (hf : SameFanout l (fun A => ∃ x ∈ lex, x.2.1 = A) root)
    (hroot : (∃ x ∈ l, x.1.lhs = root) ∨ ∃ x ∈ lex, x.2.1 = root)
    (hclosed : ∀ x ∈ l, ∀ A ∈ discoRhs x.1, (∃ y ∈ l, y.1.lhs = A) ∨ ∃ y ∈ lex, y.2.1 = A) : ParserGrammar g.rules g.init := by
  classical
  obtain ⟨hi, R₁, R₂, hr, h1, h2⟩ := h
  obtain ⟨f, f1, f2, f3⟩ := hf
  have hhead : ∀ A, (∃ r ∈ g.rules, r.head = A) ↔ (∃ y ∈ l, y.1.lhs = A) ∨ ∃ y ∈ lex, y.2.1 = A := by
    intro A
    rw [hr]
    constructor
    · rintro ⟨r, hr, rfl⟩
      rcases List.mem_append.1 hr with hr | hr
      · obtain ⟨x, hx, hx'⟩ := forall₂_mem_right h1 hr
        exact Or.inl ⟨x, hx, hx'.1.symm⟩
      · obtain ⟨x, hx, hx'⟩ := forall₂_mem_right h2 hr
        exact Or.inr ⟨x, hx, hx'.1.symm⟩
    · rintro (⟨x, hx, rfl⟩ | ⟨x, hx, rfl⟩)
      · obtain ⟨r, hr, hx'⟩ := forall₂_mem_left h1 hx
        exact ⟨r, List.mem_append_left _ hr, hx'.1⟩
      · obtain ⟨r, hr, hx'⟩ := forall₂_mem_left h2 hx
        exact ⟨r, List.mem_append_right _ hr, hx'.1⟩
  have hlen : ∀ r ∈ g.rules, r.composition.length = f r.head := by
    intro r hr'
    rw [hr] at hr'
    rcases List.mem_append.1 hr' with hr' | hr'
    · obtain ⟨x, hx, e1, e2, e3, _⟩ := forall₂_mem_right h1 hr'
      rw [e1, e3.1.length_eq, (f3 x hx).1]
    · obtain ⟨x, hx, e1, e2, e3, _⟩ := forall₂_mem_right h2 hr'
      rw [e1, e3, f2 _ ⟨x, hx, rfl⟩]
      rfl
  have hclosed' : ∀ r ∈ g.rules, ∀ A ∈ r.tail, ∃ r' ∈ g.rules, r'.head = A := by
    intro r hr' A hA
    rw [hhead]
    rw [hr] at hr'
    rcases List.mem_append.1 hr' with hr' | hr'
    · obtain ⟨x, hx, _, e2, _⟩ := forall₂_mem_right h1 hr'
      rw [e2] at hA
      exact hclosed x hx A hA
    · obtain ⟨x, hx, _, e2, _⟩ := forall₂_mem_right h2 hr'
      rw [e2] at hA
      cases hA
  have hfan : ∀ A k, (if ∃ r ∈ g.rules, r.head = A then some (f A) else none) = some k ↔ ∃ r ∈ g.rules, r.head = A ∧ r.composition.length = k := by
    intro A k
    constructor
    · intro h
      split at h
      · rename_i hA
        obtain ⟨r, hr', rfl⟩ := hA
        exact ⟨r, hr', rfl, (hlen r hr').trans (Option.some_inj.1 h)⟩
      · cases h
    · rintro ⟨r, hr', rfl, hk⟩
      rw [if_pos ⟨r, hr', rfl⟩, ← hk, hlen r hr']
  refine ⟨⟨fun A => if ∃ r ∈ g.rules, r.head = A then some (f A) else none, hfan, ?_, ?_⟩, ?_, hclosed'⟩
  · rw [hi]
    simp only
    rw [if_pos ((hhead root).2 hroot), f1]
  · intro r hr'
    have htail : ∀ (i : Nat) A, r.tail[i]? = some A → ∀ j, (∃ k, (if ∃ r ∈ g.rules, r.head = A then some (f A) else none) = some k ∧ j < k) ↔ j < f A := by
      intro i A hA j
      rw [if_pos (hclosed' r hr' A (List.mem_of_getElem? hA))]
      simp
    have hiff : ∀ i j : Nat, (∃ A k, r.tail[i]? = some A ∧ (if ∃ r ∈ g.rules, r.head = A then some (f A) else none) = some k ∧ j < k) ↔ ∃ A, r.tail[i]? = some A ∧ j < f A := by
      intro i j
      constructor
      · rintro ⟨A, k, e1, e2⟩
        exact ⟨A, e1, (htail i A e1 j).1 ⟨k, e2⟩⟩
      · rintro ⟨A, e1, e2⟩
        obtain ⟨k, e3⟩ := (htail i A e1 j).2 e2
        exact ⟨A, k, e1, e3⟩
    simp only [hiff]
    rw [hr] at hr'
    rcases List.mem_append.1 hr' with hr' | hr'
    · obtain ⟨x, hx, _, e2, e3, _⟩ := forall₂_mem_right h1 hr'
      obtain ⟨_, c2, c3⟩ := C47_linear e3
      refine ⟨c2, fun i j => ?_⟩
      rw [c3, e2]
      obtain ⟨_, f4, f5⟩ := f3 x hx
      match i with
      | 0 =>
        rw [List.getElem?_map, Option.map_eq_some_iff] at f4
        obtain ⟨A, hA, hA'⟩ := f4
        simp [hA, hA']
      | 1 =>
        rw [List.getElem?_map] at f5
        cases hA : (discoRhs x.1)[1]? with
        | none => rw [hA] at f5; simp at f5; simp [← f5]
        | some A => rw [hA] at f5; simp at f5; simp [← f5]
      | i + 2 =>
        have : (discoRhs x.1)[i + 2]? = none := by
          cases x.1 <;> simp [discoRhs]
        simp [this]
    · obtain ⟨x, hx, _, e2, e3, _⟩ := forall₂_mem_right h2 hr'
      rw [e2, e3]
      exact ⟨by simp [varsOf], fun i j => by simp [varsOf]⟩
  · intro r hr'
    rw [hr] at hr'
    rcases List.mem_append.1 hr' with hr' | hr'
    · obtain ⟨x, hx, _, e2, e3, _⟩ := forall₂_mem_right h1 hr'
      have hg := hgood x hx
      refine ⟨fun e => ?_, fun c hc e => ?_, Or.inr fun c hc v hv => ?_⟩
      · have := e3.1.length_eq
        rw [e] at this
        exact hg.1 (List.length_eq_zero_iff.1 this.symm)
      · obtain ⟨b, hb, hb'⟩ := forall₂_mem_left e3.1 hc
        rw [e] at hb'
        cases hb'
        exact (hg.2 _ hb).1 rfl
      · obtain ⟨b, hb, hb'⟩ := forall₂_mem_left e3.1 hc
        obtain ⟨b, _, hb'⟩ := forall₂_mem_left hb' hv
        cases hb' with
        | fst j => exact ⟨0, j, rfl⟩
        | snd j => exact ⟨1, j, rfl⟩
    · obtain ⟨x, hx, _, e2, e3, _⟩ := forall₂_mem_right h2 hr'
      rw [e3]
      exact ⟨by simp, by simp, Or.inl ⟨x.1, rfl⟩⟩

theorem described_noVariableCycle [DecidableEq N] [DivisionSemiring W] {l : List (DiscoDeriv N × List (List Bool) × W)} {lex : List (T × N × W)} {root : N} {g : Lcfrs N T W}
    (h : DescribedBy l lex root g) (hcyc : NoBitCycle l) : NoVariableCycle g.rules := by
  obtain ⟨hi, R₁, R₂, hr, h1, h2⟩ := h
  obtain ⟨rank, hrank⟩ := hcyc
  refine ⟨rank, fun r hr' c i j B hc hB => ?_⟩
  rw [hr] at hr'
  rcases List.mem_append.1 hr' with hr' | hr'
  · obtain ⟨x, hx, e1, e2, e3, _⟩ := forall₂_mem_right h1 hr'
    obtain ⟨b, hb, rfl, rfl⟩ := isYield_single e3 hc
    rw [e1]
    exact hrank x hx c b B hb (by rw [← e2]; exact hB)
  · obtain ⟨x, hx, e1, e2, e3, _⟩ := forall₂_mem_right h2 hr'
    rw [e2] at hB
    cases hB

theorem described_probabilities [DecidableEq N] {l : List (DiscoDeriv N × List (List Bool) × NNReal)} {lex : List (T × N × NNReal)} {root : N} {g : Lcfrs N T NNReal}
    (h : DescribedBy l lex root g) (hl : ∀ x ∈ l, x.2.2 ≠ 0) (hlex : ∀ x ∈ lex, x.2.2 ≠ 0) : Probabilities g.rules := by
  obtain ⟨hi, R₁, R₂, hr, h1, h2⟩ := h
  have hle1 : ∀ x ∈ l, x.2.2 ≤ totalCount l lex x.1.lhs := fun x hx =>
    le_trans (List.single_le_sum (fun _ _ => zero_le) _ (List.mem_map.2 ⟨x, List.mem_filter.2 ⟨hx, by simp⟩, rfl⟩)) (le_add_of_nonneg_right zero_le)
  have hle2 : ∀ x ∈ lex, x.2.2 ≤ totalCount l lex x.2.1 := fun x hx =>
    le_trans (List.single_le_sum (fun _ _ => zero_le) _ (List.mem_map.2 ⟨x, List.mem_filter.2 ⟨hx, by simp⟩, rfl⟩)) (le_add_of_nonneg_left zero_le)
  have key : ∀ {w t : NNReal}, w ≠ 0 → w ≤ t → w / t ≠ 0 ∧ w / t ≤ 1 := fun {w t} h0 hle =>
    ⟨div_ne_zero h0 fun e => h0 (le_antisymm (e ▸ hle) zero_le), div_le_one_of_le₀ hle zero_le⟩
  intro r hr'
  rw [hr] at hr'
  rcases List.mem_append.1 hr' with hr' | hr'
  · obtain ⟨x, hx, _, _, _, e4⟩ := forall₂_mem_right h1 hr'
    rw [e4]
    exact key (hl x hx) (hle1 x hx)
  · obtain ⟨x, hx, _, _, _, e4⟩ := forall₂_mem_right h2 hr'
    rw [e4]
    exact key (hlex x hx) (hle2 x hx)

/-- The conversion of a grammar of disco-dop. -/
theorem fromDiscodop_described [DecidableEq N] [DivisionSemiring W] {cd : Codec N} {l : List (DiscoDeriv N × List (List Bool) × W)} {lex : DiscoLexer N T W} {root : N}
    (hgood : ∀ x ∈ l, GoodBits x.2.1) (hi : cd.read (ascii ['R', 'O', 'O', 'T']) = some root) :
    ∃ G, Lcfrs.fromDiscodop cd ⟨l.map fun y => (y.1, y.2.1.map (fun b => (b.length, bitVal b)), y.2.2), some lex⟩ = some G ∧ DescribedBy l lex root G := by
  generalize hge : (⟨l.map fun y => (y.1, y.2.1.map (fun b => (b.length, bitVal b)), y.2.2), some lex⟩ : DiscoDopGrammar N T W) = g
  have hcount : ∀ A, headCount g A = totalCount l lex A := by
    intro A
    unfold headCount totalCount
    rw [← hge]
    simp only [Option.toList_some, List.flatten_cons, List.flatten_nil, List.append_nil]
    rw [List.filter_map, List.map_map]
    rfl
  obtain ⟨R, hR, hR'⟩ := C57_grammar (cn := cd) (g := g) (bits := l.map (·.2.1)) (by
    rw [← hge]
    rw [List.forall₂_map_left_iff, List.forall₂_map_right_iff]
    refine List.forall₂_same.2 fun y hy => ?_
    rw [List.forall₂_map_left_iff]
    exact List.forall₂_same.2 fun b hb => ⟨⟨rfl, fun i => bitVal_testBit b i⟩, ((hgood y hy).2 b hb).2⟩) hi
  refine ⟨_, hR, rfl, R, _, rfl, ?_, ?_⟩
  · have hz : g.constituents.zip (l.map (·.2.1)) = l.map fun y => ((y.1, y.2.1.map (fun b => (b.length, bitVal b)), y.2.2), y.2.1) := by
      rw [← hge, List.zip_map']
    rw [hz, List.forall₂_map_left_iff] at hR'
    simpa only [hcount] using hR'
  · simp only [hcount]
    rw [← hge]
    simp only [Option.toList_some, List.flatten_cons, List.flatten_nil, List.append_nil]
    rw [List.forall₂_map_right_iff]
    exact List.forall₂_same.2 fun y _ => ⟨rfl, rfl, rfl, rfl⟩

theorem constituents_good [Div W] {cn : Codec N} {cw : Codec W} {lines : List (List Nat)} {l : List (DiscoDeriv N × List (List Bool) × W)}
    (h : List.Forall₂ (fun s y => ConstituentText cn cw y.1 y.2.1 y.2.2 s) lines l) : ∀ y ∈ l, GoodBits y.2.1 := by
  intro y hy
  obtain ⟨t, _, ht⟩ := forall₂_mem_right h hy
  obtain ⟨d, b, w⟩ := y
  cases ht with
  | chain _ _ _ _ _ _ h => exact h
  | binary _ _ _ _ _ _ _ _ h => exact h

end

end Rustomata
