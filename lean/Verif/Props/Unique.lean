import Verif.Props.McfgLcfrs
import Verif.Props.MapNonterminals
import Verif.Props.Search
import Verif.Spec.Unique

/-!
# Property C99: what the search without repetitions returns exactly, and which rules the conversion of MCFGs keeps

Only property theorems, the lemmas that combine them, and the examples that show their hypotheses to be satisfiable.
-/

namespace Rustomata.Props
open Rustomata Rustomata.Spec

section
variable {I A : Type _} [DecidableEq I]

theorem discoveries_append (succ : I → List I) (seen ys zs : List I) :
    discoveries succ seen (ys ++ zs) = discoveries succ seen ys ++ discoveries succ (ys.reverse ++ seen) zs := by
  induction ys generalizing seen with
  | nil => rfl
  | cons y ys ih => simp [discoveries, ih, List.append_assoc]

theorem discoveries_fresh {succ : I → List I} {seen ys : List I} {x : I} (h : x ∈ discoveries succ seen ys) : x ∉ seen := by
  induction ys generalizing seen with
  | nil => cases h
  | cons y ys ih =>
    simp only [discoveries, List.mem_append, List.mem_filter, decide_eq_true_eq] at h
    rcases h with ⟨_, h⟩ | h
    · exact fun hx => h (by simp [hx])
    · exact fun hx => ih h (by simp [hx])

theorem discoveries_head {succ : I → List I} {seen ys : List I} {y : I} : y ∉ discoveries succ seen (y :: ys) := by
  intro h
  simp only [discoveries, List.mem_append, List.mem_filter, decide_eq_true_eq] at h
  rcases h with ⟨_, h⟩ | h
  · simp at h
  · exact discoveries_fresh h (by simp)

theorem usearch_queue (succ : I → List I) (n : Nat) (s : USearch (List I) I) :
    (USearch.run (dequeAgenda I) succ n s).1 ++ (USearch.run (dequeAgenda I) succ n s).2.agenda.reverse =
      s.agenda.reverse ++ discoveries succ s.elements (USearch.run (dequeAgenda I) succ n s).1 := by
  have hext : ∀ (xs a : List I), (dequeAgenda I).extend a xs = xs.reverse ++ a := by
    intro xs
    induction xs with
    | nil => intro a; rfl
    | cons x xs ih =>
      intro a
      rw [show (dequeAgenda I).extend a (x :: xs) = (dequeAgenda I).extend (x :: a) xs from rfl, ih]
      simp
  induction n generalizing s with
  | zero => simp [USearch.run, discoveries]
  | succ n ih =>
    unfold USearch.run
    rcases hn : USearch.next (dequeAgenda I) succ s with ⟨o, s'⟩
    cases o with
    | none => simp [discoveries]
    | some x =>
      obtain ⟨a', hp, hx, rfl⟩ := USearch.next_some hn
      simp only [dequeAgenda, Option.map_eq_some_iff, Prod.mk.injEq] at hp
      obtain ⟨y, hy, rfl, rfl⟩ := hp
      have h1 := ih ⟨(dequeAgenda I).extend s.agenda.dropLast ((succ y).filter fun z => z ∉ y :: s.elements), y :: s.elements⟩
      rw [List.cons_append, h1, hext]
      have h2 : s.agenda.reverse = y :: s.agenda.dropLast.reverse := by
        conv_lhs => rw [← List.dropLast_append_getLast? y hy]
        simp
      rw [h2]
      simp [discoveries]

theorem distinctPrefix_append {ys rest : List I} (hnd : ys.Nodup) (h : ∀ x, rest.head? = some x → x ∈ ys) : DistinctPrefix ys (ys ++ rest) := by
  refine ⟨List.prefix_append .., hnd, fun zs hz hzn => ?_⟩
  rcases List.prefix_or_prefix_of_prefix hz (List.prefix_append ys rest) with h1 | ⟨t, rfl⟩
  · exact h1
  · rw [List.prefix_append_right_inj] at hz
    cases t with
    | nil => simp
    | cons x t =>
      obtain ⟨u, rfl⟩ := hz
      have := h x (by simp)
      rw [List.nodup_append] at hzn
      exact absurd rfl (hzn.2.2 x this x (by simp))

/-- **C99** A breadth-first search without repetitions (`Search::bfs(…).uniques()`) that has ended has returned the items in the order of their discovery, up to the first
repetition. -/
theorem C99_bfs (succ : I → List I) (start : List I) (n : Nat)
    (hend : (USearch.next (dequeAgenda I) succ (USearch.run (dequeAgenda I) succ n (USearch.init start)).2).1 = none) :
    StoppingSearch succ start.reverse (USearch.run (dequeAgenda I) succ n (USearch.init start)).1 := by
  have hq := usearch_queue succ n (USearch.init start)
  have hnd := (C05_unique_nodup dequeAgenda_lossless.sound succ start n).1
  have hel := (USearch.run_elements (G := dequeAgenda I) (succ := succ) n (USearch.init start)).1
  unfold StoppingSearch
  rw [show start.reverse ++ discoveries succ [] _ = _ from hq.symm]
  refine distinctPrefix_append hnd fun x hx => ?_
  rcases hn : USearch.next (dequeAgenda I) succ (USearch.run (dequeAgenda I) succ n (USearch.init start)).2 with ⟨o, s'⟩
  rw [hn] at hend
  simp only at hend
  subst hend
  rw [List.head?_reverse] at hx
  have hpop : ∀ a : List I, (dequeAgenda I).pop a = a.getLast?.map fun x => (x, a.dropLast) := fun _ => rfl
  rcases USearch.next_none hn with ⟨h1, _⟩ | ⟨y, a', h1, h2, _⟩
  · rw [hpop, hx] at h1
    cases h1
  · rw [hpop, hx, Option.map_some, Option.some.injEq, Prod.mk.injEq] at h1
    rw [h1.1]
    rw [hel] at h2
    simpa [USearch.init] using h2

/-- **C99** There is at most one such list, i.e. the specification determines the result. -/
theorem C99_unique (succ : I → List I) (start ys zs : List I) (hy : StoppingSearch succ start ys) (hz : StoppingSearch succ start zs) : ys = zs := by
  -- both lists agree as long as possible
  have key : ∀ {ys zs : List I}, StoppingSearch succ start ys → StoppingSearch succ start zs → ∀ p a ys', ys = p ++ a :: ys' → p <+: zs → p ++ [a] <+: zs := by
    rintro _ zs hy hz p a ys' rfl ⟨zs', rfl⟩
    have h1 := hy.isPrefix
    rw [discoveries_append, ← List.append_assoc] at h1
    have hlen : p.length < (start ++ discoveries succ [] p).length := by
      by_contra hc
      obtain ⟨t, ht⟩ := h1
      have h2 : (start ++ discoveries succ [] p) <+: p ++ a :: ys' :=
        List.prefix_of_prefix_length_le (List.prefix_append ..) ⟨t, ht⟩ (by simp only [List.length_append, List.length_cons] at hc ⊢; omega)
      obtain ⟨q, hq⟩ := List.prefix_of_prefix_length_le h2 (List.prefix_append p (a :: ys')) (by omega)
      have h3 : (start ++ discoveries succ [] p) ++ (q ++ a :: ys' ++ t) = start ++ discoveries succ [] p ++ discoveries succ (p.reverse ++ []) (a :: ys') := by
        rw [← ht, ← List.append_assoc, ← List.append_assoc, hq]
      rw [List.append_cancel_left_eq] at h3
      cases q with
      | nil =>
        refine discoveries_head (succ := succ) (seen := p.reverse ++ []) (ys := ys') (y := a) ?_
        rw [← h3]; simp
      | cons b q =>
        have hb : b ∈ discoveries succ (p.reverse ++ []) (a :: ys') := by rw [← h3]; simp
        exact discoveries_fresh hb (by rw [← hq]; simp)
    have h2 : p ++ [a] <+: start ++ discoveries succ [] p := by
      refine List.prefix_of_prefix_length_le (l₃ := start ++ discoveries succ [] p ++ discoveries succ (p.reverse ++ []) (a :: ys'))
        (List.IsPrefix.trans ⟨ys', by simp⟩ h1) (List.prefix_append ..) ?_
      simp only [List.length_append, List.length_cons, List.length_nil] at hlen ⊢
      omega
    refine hz.longest _ (h2.trans ?_) ?_
    · rw [discoveries_append, ← List.append_assoc]
      exact List.prefix_append ..
    · exact hy.nodup.sublist (by simp)
  have all : ∀ {ys zs : List I}, StoppingSearch succ start ys → StoppingSearch succ start zs → ys <+: zs := by
    intro ys zs hy hz
    have : ∀ (q p : List I), ys = p ++ q → p <+: zs → ys <+: zs := by
      intro q
      induction q with
      | nil => rintro p rfl hp; simpa using hp
      | cons a q ih => exact fun p he hp => ih (p ++ [a]) (by simp [he]) (key hy hz p a q he hp)
    exact this ys [] rfl List.nil_prefix
  exact List.IsPrefix.eq_of_length (all hy hz) (le_antisymm (all hy hz).length_le (all hz hy).length_le)

/-- **C99** For each agenda that loses nothing: what is reachable but not returned is reachable from what is left on the agenda. -/
theorem C99_lost {G : Agenda A I} {content : A → Multiset I} (hG : G.Lossless content) (succ : I → List I) (start : A) (n : Nat) (x : I) :
    Reach succ (· ∈ content start) x ↔ x ∈ (USearch.run G succ n (USearch.init start)).1 ∨
      Reach succ (· ∈ content (USearch.run G succ n (USearch.init start)).2.agenda) x := by
  have hc := USearch.run_closed hG succ (· ∈ content start) n (USearch.init start) ⟨fun x hx => Or.inr hx, by simp [USearch.init]⟩
  rw [(USearch.run_elements n _).1] at hc
  simp only [USearch.init, List.append_nil] at hc
  constructor
  · intro hx
    induction hx with
    | base h =>
      rcases hc.1 _ h with h | h
      · exact .inl (by simpa [USearch.init] using h)
      · exact .inr (.base h)
    | step _ hy ih =>
      rcases ih with ih | ih
      · rcases hc.2 _ (by simpa [USearch.init] using ih) _ hy with h | h
        · exact .inl (by simpa [USearch.init] using h)
        · exact .inr (.base h)
      · exact .inr (.step ih hy)
  · have hag : ∀ (n : Nat) (s : USearch A I), (∀ z ∈ content s.agenda, Reach succ (· ∈ content start) z) →
        ∀ z ∈ content (USearch.run G succ n s).2.agenda, Reach succ (· ∈ content start) z := by
      intro n
      induction n with
      | zero => exact fun s hs => hs
      | succ n ih =>
        intro s hs
        unfold USearch.run
        rcases hn : USearch.next G succ s with ⟨o, s'⟩
        cases o with
        | none => exact hs
        | some y =>
          refine ih s' ?_
          obtain ⟨a', hp, hy, rfl⟩ := USearch.next_some hn
          have h1 := hG.pop_some _ _ _ hp
          intro z hz
          simp only at hz
          rw [hG.extend, Multiset.mem_add] at hz
          rcases hz with hz | hz
          · exact hs z (by rw [h1]; simp [hz])
          · exact .step (hs y (by rw [h1]; simp)) (List.mem_filter.1 (Multiset.mem_coe.1 hz)).1
    rintro (hx | hx)
    · exact (C05_unique_nodup hG.sound succ start n).2 x hx
    · induction hx with
      | base h => exact hag n (USearch.init start) (fun z hz => .base hz) _ h
      | step _ hy ih => exact .step ih hy

end

section
variable {N T W : Type _}

theorem prefix_of_map {X Y : Type _} {f : X → Y} (hf : Function.Injective f) {l l' : List X} (h : l.map f <+: l'.map f) : l <+: l' := by
  rw [List.prefix_iff_eq_take, ← List.map_take] at h
  rw [List.map_injective_iff.2 hf h]
  exact List.take_prefix ..

theorem stoppingSearch_of_map {X Y : Type _} [DecidableEq X] [DecidableEq Y] {f : X → Y} (hf : Function.Injective f) {succ : X → List X} {succ' : Y → List Y}
    (hs : ∀ x, succ' (f x) = (succ x).map f) {start ys : List X} (h : StoppingSearch succ' (start.map f) (ys.map f)) : StoppingSearch succ start ys := by
  have hd : ∀ (ys seen : List X), discoveries succ' (seen.map f) (ys.map f) = (discoveries succ seen ys).map f := by
    intro ys
    induction ys with
    | nil => exact fun _ => rfl
    | cons y ys ih =>
      intro seen
      have := ih (y :: seen)
      simp only [List.map_cons] at this
      simp only [List.map_cons, discoveries, List.map_append, this, hs, List.filter_map]
      congr 3
      funext z
      simp only [Function.comp, List.mem_cons, hf.eq_iff, List.mem_map_of_injective hf]
  have h0 := hd ys []
  unfold StoppingSearch at h ⊢
  rw [List.map_nil] at h0
  rw [h0, ← List.map_append] at h
  exact ⟨prefix_of_map hf h.isPrefix, List.Nodup.of_map f h.nodup, fun zs hz hn => prefix_of_map hf (h.longest _ (hz.map f) (hn.map hf))⟩

theorem mapM_some_id {X : Type _} {f : X → Option X} (hf : ∀ x y, f x = some y → y = x) {l l' : List X} (h : l.mapM f = some l') : l' = l := by
  induction l generalizing l' with
  | nil => simpa using h.symm
  | cons x l ih =>
    simp only [List.mapM_cons, Option.bind_eq_bind, Option.bind_eq_some_iff, Option.pure_def, Option.some.injEq] at h
    obtain ⟨y, hy, ys, hys, rfl⟩ := h
    rw [hf x y hy, ih hys]

variable [DecidableEq N]

/-- In a non-deleting grammar, the conversion deletes nothing. -/
theorem mcfg_keepAll {rules : List (PMCFGRule N T W)} {F : AMap N Nat} (hF : readFanouts rules = some F) (hwf : WellFormed rules) (hnd : NonDeleting rules)
    (hdef : ∀ r ∈ rules, ∀ A ∈ r.tail, ∃ r' ∈ rules, r'.head = A) {r : PMCFGRule N T W} (hr : r ∈ rules) :
    toLcfrsRule r [] F = some (keepAll r) ∧
      ∃ fs ds, r.tail.mapM (fun nt => F.get nt) = some fs ∧ compositionDeletes (remComp r.composition []) fs = some ds ∧
        r.tail.zip ds = r.tail.map fun A => (A, []) := by
  obtain ⟨r', hr'⟩ := toLcfrsRule_isSome hF (hdef r hr) (fun i j hij => by
    obtain ⟨A, hA, _⟩ := hwf r hr i j hij
    exact (List.getElem?_eq_some_iff.1 hA).1) []
  obtain ⟨fs, ds, hfs, hds, hc, hh, ht, hw⟩ := toLcfrsRule_some hr'
  have hds' := hds
  rw [remFrom_empty] at hds hc
  obtain ⟨hl, -, h3⟩ := compositionDeletes_spec hds
  have hlen := mapM_length hfs
  have hnil : ∀ (i : Nat) (y : List Nat), ds[i]? = some y → y = [] := by
    intro i y hy
    have hi : i < ds.length := (List.getElem?_eq_some_iff.1 hy).1
    have hi' : i < r.tail.length := by omega
    obtain ⟨f, hf⟩ : ∃ f, fs[i]? = some f := ⟨fs[i]'(by omega), by simp⟩
    obtain ⟨y', hy', -, hm⟩ := h3 i f hf
    rw [hy] at hy'
    cases hy'
    have hg : F.get (r.tail[i]) = some f := by
      have := mapM_getElem? hfs i
      rw [hf, List.getElem?_eq_getElem hi'] at this
      exact this.symm
    obtain ⟨r₁, hr₁, he, hf'⟩ := (readFanouts_some hF _ _).1 hg
    rw [List.eq_nil_iff_forall_not_mem]
    intro j hj
    obtain ⟨hj1, hj2⟩ := (hm j).1 hj
    exact hj2 (hnd r hr i _ (by simp [hi']) r₁ hr₁ he j (by omega))
  have hz : r.tail.zip ds = r.tail.map fun A => (A, []) := by
    apply List.ext_getElem
    · simp; omega
    · intro i h1 h2
      simp only [List.getElem_zip, List.getElem_map, Prod.mk.injEq, true_and]
      exact hnil i _ (by simp)
  refine ⟨?_, fs, ds, hfs, hds', hz⟩
  rw [hr']
  have hcc : r'.composition = r.composition := by
    refine mapM_some_id (fun c c' hc' => mapM_some_id (fun x y hx => ?_) hc') hc
    cases x with
    | t a => simpa [renumber] using hx.symm
    | var i j =>
      simp only [renumber] at hx
      split at hx
      · cases hx
      · rename_i e he
        rw [hnil i e he] at hx
        simpa using hx.symm
  obtain ⟨a, b, c, d⟩ := r'
  simp only at hh ht hw hcc
  rw [hh, ht, hw, hcc, hz]
  rfl

/-- The full claim **C99**: the conversion of a well-formed, non-deleting MCFG whose nonterminals all have rules keeps all rules for the nonterminals that are reachable from the initial one. -/
def C99_claim : Prop :=
  ∀ (N T W : Type) (_ : DecidableEq N) (g : Mcfg N T W) (n : Nat) (L : Lcfrs (N × List Nat) T W),
    WellFormed g.rules → NonDeleting g.rules → (∀ r ∈ g.rules, ∀ A ∈ r.tail, ∃ r' ∈ g.rules, r'.head = A) →
    Lcfrs.ofMcfgEnded g n → Lcfrs.ofMcfg g n = some L →
    ∀ r ∈ g.rules, Reach (childNonterminals g.rules) (· = g.initial) r.head → keepAll r ∈ L.rules

/-- **C99** The conversion of a well-formed, non-deleting MCFG whose nonterminals all have rules: the nonterminals are visited breadth-first, up to the first one that was
discovered twice; the rules for these nonterminals are kept unchanged, in the order of the visits and, for each nonterminal, in the order of the grammar. All other rules are lost. -/
theorem C99_mcfg (g : Mcfg N T W) (n : Nat) (L : Lcfrs (N × List Nat) T W) (hwf : WellFormed g.rules) (hnd : NonDeleting g.rules)
    (hdef : ∀ r ∈ g.rules, ∀ A ∈ r.tail, ∃ r' ∈ g.rules, r'.head = A) (hend : Lcfrs.ofMcfgEnded g n) (hL : Lcfrs.ofMcfg g n = some L) :
    ∃ ys, StoppingSearch (childNonterminals g.rules) [g.initial] ys ∧
      L = ⟨ys.flatMap fun A => (g.rules.filter fun r => r.head = A).map keepAll, (g.initial, [])⟩ := by
  unfold Lcfrs.ofMcfg at hL
  rcases hF : readFanouts g.rules with _ | F
  · rw [hF] at hL; cases hL
  rw [hF] at hL
  simp only at hL
  have hsucc : ∀ A, mcfgSuccessors g.rules F (A, []) = (childNonterminals g.rules A).map fun B => (B, []) := by
    intro A
    unfold mcfgSuccessors childNonterminals
    rw [List.map_flatMap]
    refine List.flatMap_congr fun r hr => ?_
    obtain ⟨-, fs, ds, h1, h2, h3⟩ := mcfg_keepAll hF hwf hnd hdef (List.mem_filter.1 hr).1
    simp only [h1]
    rw [h2]
    exact h3
  have hb := C99_bfs (mcfgSuccessors g.rules F) [(g.initial, [])] n (hend F hF)
  have hkeep : ∀ x ∈ (mcfgSearch g F n).1, x.2 = [] := by
    intro x hx
    have := (C05_unique_nodup dequeAgenda_lossless.sound (mcfgSuccessors g.rules F) [(g.initial, [])] n).2 x hx
    clear hx
    induction this with
    | base h => simp at h; simp [h]
    | @step y z _ hz ih =>
      obtain ⟨A, e⟩ := y
      simp only at ih
      subst ih
      rw [hsucc] at hz
      obtain ⟨B, -, rfl⟩ := List.mem_map.1 hz
      rfl
  have hys : (mcfgSearch g F n).1 = ((mcfgSearch g F n).1.map Prod.fst).map fun A => (A, ([] : List Nat)) := by
    rw [List.map_map]
    conv_lhs => rw [← List.map_id (mcfgSearch g F n).1]
    exact List.map_congr_left fun x hx => Prod.ext rfl (hkeep x hx)
  refine ⟨(mcfgSearch g F n).1.map Prod.fst, stoppingSearch_of_map (f := fun A => (A, ([] : List Nat))) (fun a b h => (Prod.mk.inj h).1) hsucc ?_, ?_⟩
  · rw [← hys]
    exact hb
  · have hm : (mcfgSearch g F n).1.mapM (lcfrsRulesFor g F) =
        some ((mcfgSearch g F n).1.map fun x => (g.rules.filter fun r => r.head = x.1).map keepAll) := by
      rw [mapM_some_iff, List.forall₂_map_right_iff, List.forall₂_same]
      intro x hx
      unfold lcfrsRulesFor
      rw [mapM_some_iff, List.forall₂_map_right_iff, List.forall₂_same]
      intro r hr
      rw [hkeep x hx]
      exact (mcfg_keepAll hF hwf hnd hdef (List.mem_filter.1 hr).1).1
    rw [hm] at hL
    simp only [Option.map_some, Option.some.injEq] at hL
    rw [← hL, List.flatMap_map, List.flatMap_def]

omit [DecidableEq N] in
theorem derives_of_subset {rules rules' : List (PMCFGRule N T W)} (hs : ∀ r ∈ rules, r ∈ rules') {A : N} {d : DTree (PMCFGRule N T W)} {v : List (List T)}
    (h : Derives rules A d v) : Derives rules' A d v := by
  refine Derives.rec (motive_1 := fun A d v _ => Derives rules' A d v) (motive_2 := fun As ds vs _ => DerivesAll rules' As ds vs) ?_ ?_ ?_ h
  · intro r ds args v hr _ hv ih
    exact .node (hs r hr) ih hv
  · exact .nil
  · intro A As d ds v vs _ _ h1 h2
    exact .cons h1 h2

/-- **C99** For such a grammar, the result of the conversion generates exactly the words that have a derivation in which only the visited nonterminals occur, with the same weights. -/
theorem C99_language [Monoid W] (g : Mcfg N T W) (n : Nat) (L : Lcfrs (N × List Nat) T W) (hwf : WellFormed g.rules) (hnd : NonDeleting g.rules)
    (hdef : ∀ r ∈ g.rules, ∀ A ∈ r.tail, ∃ r' ∈ g.rules, r'.head = A) (hend : Lcfrs.ofMcfgEnded g n) (hL : Lcfrs.ofMcfg g n = some L)
    (ys : List N) (hys : StoppingSearch (childNonterminals g.rules) [g.initial] ys) (w : List T) (u : W) :
    PGenerates [L.init] L.rules w u ↔ PGenerates [g.initial] (g.rules.filter fun r => r.head ∈ ys) w u := by
  obtain ⟨ys', hys', rfl⟩ := C99_mcfg g n L hwf hnd hdef hend hL
  obtain rfl := C99_unique _ _ _ _ hys hys'
  rw [← C97_injective (fun A : N => (A, ([] : List Nat))) (fun a b h => (Prod.mk.inj h).1) ⟨[g.initial], g.rules.filter fun r => r.head ∈ ys⟩ w u]
  have hmem : ∀ r', r' ∈ (ys.flatMap fun A => (g.rules.filter fun r => r.head = A).map keepAll) ↔
      r' ∈ (g.rules.filter fun r => r.head ∈ ys).map (PMCFGRule.mapNonterminals fun A : N => (A, ([] : List Nat))) := by
    intro r'
    simp only [List.mem_flatMap, List.mem_map, List.mem_filter, decide_eq_true_eq]
    constructor
    · rintro ⟨A, hA, r, ⟨hr, rfl⟩, rfl⟩
      exact ⟨r, ⟨hr, hA⟩, rfl⟩
    · rintro ⟨r, ⟨hr, hA⟩, rfl⟩
      exact ⟨r.head, hA, r, ⟨hr, rfl⟩, rfl⟩
  constructor
  · rintro ⟨S, hS, d, hd, hu⟩
    exact ⟨S, hS, d, derives_of_subset (fun r hr => (hmem r).1 hr) hd, hu⟩
  · rintro ⟨S, hS, d, hd, hu⟩
    exact ⟨S, hS, d, derives_of_subset (fun r hr => (hmem r).2 hr) hd, hu⟩

end

/-- The grammar of `C36_mcfg_lcfrs_violated` is non-deleting and visits `S`, `A`, and then `A` a second time, so that the rule for `B` is lost. -/
theorem C99_violated : ¬ C99_claim := by
  intro h
  have hwf : WellFormed c36Grammar.rules := by
    intro r hr i j hij
    simp only [c36Grammar, List.mem_cons, List.not_mem_nil, or_false] at hr
    rcases hr with rfl | rfl | rfl
    · simp [varsOf] at hij
      rcases hij with ⟨rfl, rfl⟩ | ⟨rfl, rfl⟩ | ⟨rfl, rfl⟩ <;> refine ⟨_, rfl, ?_⟩ <;>
        simp [c36Grammar]
    · simp [varsOf] at hij
    · simp [varsOf] at hij
  have hnd : NonDeleting c36Grammar.rules := by
    intro r hr i A hA r' hr' he j hj
    simp only [c36Grammar, List.mem_cons, List.not_mem_nil, or_false] at hr
    rcases hr with rfl | rfl | rfl
    · have hj0 : r'.composition.length = 1 := by
        simp only [c36Grammar, List.mem_cons, List.not_mem_nil, or_false] at hr'
        rcases hr' with rfl | rfl | rfl <;> rfl
      obtain rfl : j = 0 := by omega
      have hi : i < 3 := (List.getElem?_eq_some_iff.1 hA).1
      rcases (by omega : i = 0 ∨ i = 1 ∨ i = 2) with rfl | rfl | rfl <;> simp [varsOf]
    · simp at hA
    · simp at hA
  have h1 := h Nat Nat Nat inferInstance c36Grammar 5
    ⟨[⟨(0, []), [(1, []), (1, []), (2, [])], [[.var 0 0, .var 1 0, .var 2 0]], 1⟩, ⟨(1, []), [], [[.t 5]], 1⟩], (0, [])⟩
    hwf hnd (by decide) (by intro F hF; cases hF; decide) rfl ⟨2, [], [[.t 6]], 1⟩ (by decide)
    (.step (x := 0) (.base rfl) (by decide))
  revert h1
  decide

/-- Items are returned in the order of their discovery; the second discovery of `2` ends the search, though `4` is left. -/
example : (USearch.run (dequeAgenda Nat) (fun x => if x = 1 then [2, 3] else if x = 3 then [2, 4] else if x = 2 then [5, 3] else []) 9 (USearch.init [1])).1 = [1, 2, 3, 5] := by
  decide

/-- A grammar that meets the hypotheses and keeps all rules: `S → [x₀,₀] (A)`, `A → [x₀,₀ 5] (A)`, `A → [7] ()`. -/
example :
    let g : Mcfg Nat Nat Nat := ⟨[⟨0, [1], [[.var 0 0]], 1⟩, ⟨1, [1], [[.var 0 0, .t 5]], 2⟩, ⟨1, [], [[.t 7]], 3⟩], 0⟩
    (∀ F, readFanouts g.rules = some F → (USearch.next (dequeAgenda (Nat × List Nat)) (mcfgSuccessors g.rules F) (mcfgSearch g F 5).2).1 = none) ∧
      Lcfrs.ofMcfg g 5 = some ⟨[0, 1].flatMap fun A => (g.rules.filter fun r => r.head = A).map keepAll, (0, [])⟩ := by
  refine ⟨by intro F hF; cases hF; decide, rfl⟩

end Rustomata.Props
