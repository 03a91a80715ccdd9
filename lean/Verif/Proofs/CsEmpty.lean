import Verif.Props.CsFallback

/-!
# The empty sentence

No derivation of a grammar in normal form has the empty word as its value, so that all rules are filtered out.
-/

namespace Rustomata
open Spec

section
variable {N T W : Type _}

theorem normal_components {rules : List (PMCFGRule N T W)} (hn : NormalForm rules) {A : N} {d : DTree (PMCFGRule N T W)} {v : List (List T)}
    (h : Derives rules A d v) : ∀ c ∈ v, c ≠ [] := by
  refine derives_induct (P := fun _ _ v => ∀ c ∈ v, c ≠ []) (fun r ds args v hr hl1 hl2 hch hv => ?_) h
  intro c hc
  unfold compose at hv
  rw [mapM_some_iff] at hv
  obtain ⟨comp, hcomp, hs⟩ := forall₂_mem_right hv hc
  unfold substAll at hs
  rw [Option.map_eq_some_iff] at hs
  obtain ⟨parts, hp, rfl⟩ := hs
  rw [mapM_some_iff] at hp
  cases comp with
  | nil => exact absurd rfl ((hn r hr).2.1 _ hcomp)
  | cons x comp =>
    rcases parts with _ | ⟨p, parts⟩
    · cases hp
    rw [List.forall₂_cons] at hp
    have : p ≠ [] := by
      cases x with
      | t a =>
        have := hp.1
        simp only [subst, Option.some.injEq] at this
        subst this
        simp
      | var i j =>
        have := hp.1
        simp only [subst] at this
        rw [Option.bind_eq_some_iff] at this
        obtain ⟨y, hy, hj⟩ := this
        have hi := (List.getElem?_eq_some_iff.1 hy).1
        exact (hch i _ _ y (List.getElem?_eq_getElem (by omega)) (List.getElem?_eq_getElem (by omega)) hy).2 p (List.mem_of_getElem? hj)
    simp [this]

/-- The empty word has no derivation. -/
theorem not_derivesOver_nil {rules : List (PMCFGRule N T W)} (hn : NormalForm rules) (A : N) : ¬ DerivesOver rules ([] : List T) A := by
  rintro ⟨d, v, hd, hv⟩
  obtain ⟨c, hc⟩ := List.exists_mem_of_ne_nil _ (derives_length_pos hn hd)
  obtain ⟨a, ha⟩ := List.exists_mem_of_ne_nil _ (normal_components hn hd c hc)
  exact absurd (hv c hc a ha) (by simp)

end

section
variable {N T W : Type _} [DecidableEq N] [DecidableEq T] [RoundedWeight W]

variable {A : CsAutomaton T W} {st : List (CsState N)} {ps : List (CsProd N T W × TdBrackets)} {filter : List Bool} {chart : DenseChart W}

theorem backtraces_empty (hA : A.Rep st ps) (hf : filter.length = A.brackets.length) (hno : ∀ k : Nat, filter[k]? ≠ some true) {q : Nat} (hq : q < A.states) :
    backtraces A chart filter 0 0 q = some [] := by
  have hs : A.states = st.length := hA.len.1
  have hps : A.brackets.length = ps.length := by rw [hA.brackets, List.length_map]
  have hfil : ∀ rid p, (ps[rid]?).map Prod.fst = some p → filter[rid]? = some false := fun rid p h => by
    rw [Option.map_eq_some_iff] at h
    obtain ⟨x, hx, _⟩ := h
    have := (List.getElem?_eq_some_iff.1 hx).1
    have h2 : filter[rid]? = some filter[rid] := List.getElem?_eq_getElem (by omega)
    cases h3 : filter[rid] with
    | false => rw [h2, h3]
    | true => exact absurd (h2.trans (by rw [h3])) (hno rid)
  obtain ⟨bs, hbs⟩ : ∃ l, A.tdBinaries[q]? = some l := ⟨_, List.getElem?_eq_getElem (by rw [hA.len.2.2.1]; omega)⟩
  obtain ⟨us, hus⟩ : ∃ l, A.tdUnaries[q]? = some l := ⟨_, List.getElem?_eq_getElem (by rw [hA.len.2.2.2.1]; omega)⟩
  have hbin := fun x => hA.tdBin q x
  have hun := fun x => hA.tdUn q x
  simp only [hbs, Option.some.injEq, exists_eq_left'] at hbin
  simp only [hus, Option.some.injEq, exists_eq_left'] at hun
  have h1 : flatMapP (btBinaries chart filter 0 0) bs = some [] := by
    have : ∀ b ∈ bs, btBinaries chart filter 0 0 b = some [] := fun b hb => by
      obtain ⟨Q, L, R, hp, _⟩ := (hbin b).1 hb
      unfold btBinaries
      rw [hfil _ _ hp]
    clear hbin hbs
    induction bs with
    | nil => rfl
    | cons b bs ih => rw [flatMapP, this b (by simp), ih fun x hx => this x (by simp [hx])]; rfl
  have h2 : filterMapP (btUnary chart filter 0 0) us = some [] := by
    have : ∀ b ∈ us, btUnary chart filter 0 0 b = some none := fun b hb => by
      obtain ⟨Q, S, hp, _⟩ := (hun b).1 hb
      unfold btUnary
      rw [hfil _ _ hp]
    clear hun hus
    induction us with
    | nil => rfl
    | cons b us ih => rw [filterMapP, this b (by simp), ih fun x hx => this x (by simp [hx])]
  unfold backtraces
  rw [if_neg (by omega), hbs, hus, show (if 0 - 0 = 1 then A.tdNullaries[q]? else some []) = some [] from if_neg (by omega)]
  simp only [h1, h2, filterMapP]
  rfl

theorem kiter_empty (hA : A.Rep st ps) (hf : filter.length = A.brackets.length) (hno : ∀ k : Nat, filter[k]? ≠ some true) (hi : A.initial < A.states)
    (fuel : Nat) : ∀ (m : Nat) (it : KIter W), (it.d = [] ∨ it.d.get (0, 0, A.initial) = some ([], [])) →
      KIter.run A chart filter (fuel + 1) 0 m it = some (List.replicate m none)
  | 0, _, _ => rfl
  | m + 1, it, h => by
    have : ∃ it', it.next A chart filter (fuel + 1) 0 = some (none, it') ∧ it'.d.get (0, 0, A.initial) = some ([], []) := by
      unfold KIter.next
      rw [show u8 0 = 0 from rfl, kth]
      rcases h with h | h
      · rw [h]
        simp only [AMap.get, List.lookup_nil, backtraces_empty hA hf hno hi, btPop]
        exact ⟨_, rfl, by simp [AMap.set, AMap.get]⟩
      · rw [h]
        exact ⟨_, rfl, h⟩
    obtain ⟨it', h1, h2⟩ := this
    rw [KIter.run, h1]
    simp only [kiter_empty hA hf hno hi fuel m it' (.inr h2), Option.map_some]
    rfl

variable {factorize : W → Nat → List W} {order : Nat → List Nat → List Nat} {g : Lcfrs N T W} {width : Nat} {R : CsRep N T W}

/-- There are no candidates for the empty sentence. -/
theorem candidates_empty (hR : CsRep.new factorize order g width = some R) (ho : HashOrder order) (hlen : ∀ w n, (factorize w n).length = n)
    (hg : ParserGrammar g.rules g.init) (hw : Props.FactorsLeOne factorize (indexed g.rules)) {o : CsOptions W} (hb0 : 0 < o.beam.getD R.generator.states)
    (hs : o.beam.getD R.generator.states ≤ 65535) (m fuel : Nat) : R.generate o [] (fuel + 1) m = some (List.replicate m none) := by
  unfold CsRep.new at hR
  split at hR
  swap
  · cases hR
  split at hR
  swap
  · cases hR
  split at hR
  swap
  · cases hR
  rename_i _ _ A masks hA hmk
  change CsAutomaton.fromGrammar factorize (indexed g.rules) g.init = some A at hA
  rw [Option.map_eq_some_iff] at hR
  obtain ⟨outs, houts, rfl⟩ := hR
  simp only at hs hb0
  have hi := initial_lt hA hg hlen
  obtain ⟨st, ps, h1, h2, _⟩ := CsAutomaton.fromGrammar_rep hA
  obtain ⟨mask, hm1, hm2, hm3, hm4⟩ := mask_spec hlen h1 h2.symbols ho hg hmk []
  have hml : mask.length = A.brackets.length := by rw [hm2, h2.brackets, List.length_map]
  obtain ⟨chart, hc⟩ := Props.C42_total hA hw hi houts (beam := o.beam.getD A.states) (delta := o.delta) (word := []) hml (by simp) hb0 hs
  unfold CsRep.generate
  simp only [hm1, hc]
  exact kiter_empty h2 hml (fun k hk => not_derivesOver_nil hg.normal _ (hm3 k hk)) hi fuel m _ (.inl rfl)

end

end Rustomata
