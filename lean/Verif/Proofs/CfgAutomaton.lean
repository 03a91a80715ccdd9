import Verif.Proofs.Approximation
import Verif.Proofs.CfgMerge
import Verif.Proofs.CsKBestRead
import Verif.Proofs.Fair
import Verif.Proofs.Once
import Verif.Proofs.Prefix
import Verif.Proofs.TsaLength
import Verif.Spec.CfgCommand
import Verif.Spec.Fair

/-!
# Lemmas: recognition with automata that have the transitions of the automaton of a context-free grammar

The hypothesis is `PDA.Built P G.pdaTransitions …`: the automaton `P` represents the transitions for the grammar. This holds for the automaton of the grammar (`PDA.new_built`)
and for relabelled automata.
-/

namespace Rustomata
open Spec

theorem forall₂_take {X Y : Type _} {R : X → Y → Prop} {l : List X} {l' : List Y} (h : List.Forall₂ R l l') (n : Nat) :
    List.Forall₂ R (l.take n) (l'.take n) := by
  induction h generalizing n with
  | nil => simp
  | cons h1 _ ih =>
    cases n with
    | zero => simp
    | succ n => exact .cons h1 (ih n)

theorem toVec_ofSlice {X : Type _} (run : List X) : (Pushdown.ofSlice run).toVec = run := by
  unfold Pushdown.ofSlice
  rw [Pushdown.toVec_foldl]
  simp

/-- The first `n` elements of a sorted list are the best ones if no better ones are missing. -/
theorem bestOf_take {D W : Type _} [Preorder W] {P : D → Prop} {weight : D → W} {n : Nat} {ds : List D} (hnd : ds.Nodup) (hall : ∀ d ∈ ds, P d)
    (hs : ds.Pairwise fun d e => weight e ≤ weight d) (hc : (n ≤ ds.length ∧ ∀ d, P d → d ∉ ds → ∀ e ∈ ds, weight d ≤ weight e) ∨ ∀ d, P d → d ∈ ds) :
    BestOf P weight n (ds.take n) where
  nodup := hnd.sublist (List.take_sublist n ds)
  length := by simp
  all d hd := hall d (List.mem_of_mem_take hd)
  sorted := hs.sublist (List.take_sublist n ds)
  best d hd := by
    have hkey : d ∈ ds ∨ n ≤ ds.length ∧ ∀ e ∈ ds, weight d ≤ weight e := by
      by_cases hdm : d ∈ ds
      · exact .inl hdm
      · rcases hc with ⟨h1, h2⟩ | h
        · exact .inr ⟨h1, h2 d hd hdm⟩
        · exact .inl (h d hd)
    rcases hkey with hdm | ⟨h3, h4⟩
    · by_cases hdt : d ∈ ds.take n
      · exact .inl hdt
      · right
        have hdd : d ∈ ds.drop n := by
          rw [← List.take_append_drop n ds, List.mem_append] at hdm
          exact hdm.resolve_left hdt
        refine ⟨?_, fun e he => ?_⟩
        · have : n < ds.length := by
            by_contra hn
            rw [List.drop_eq_nil_of_le (by omega)] at hdd
            simp at hdd
          rw [List.length_take]
          omega
        · rw [← List.take_append_drop n ds, List.pairwise_append] at hs
          exact hs.2.2 e he d hdd
    · exact .inr ⟨by rw [List.length_take]; omega, fun e he => h4 e (List.mem_of_mem_take he)⟩

variable {N T W H : Type _} [DecidableEq N] [DecidableEq T]

omit [DecidableEq N] [DecidableEq T] in
theorem leftmost_symbols {G : CFG N T W} {γ : List (LetterT N T)} {rs : List (CFGRule N T W)} {v : List T} (h : Leftmost G γ rs v) :
    ∀ x ∈ v, .value x ∈ γ ∨ ∃ r ∈ G.rules, .value x ∈ r.composition := by
  induction h with
  | nil => simp
  | read _ ih =>
    intro x hx
    rcases List.mem_cons.1 hx with rfl | hx
    · exact .inl (by simp)
    · rcases ih x hx with h | h
      · exact .inl (by simp [h])
      · exact .inr h
  | @expand r γ rs w hr _ ih =>
    intro x hx
    rcases ih x hx with h | h
    · rcases List.mem_append.1 h with h | h
      · exact .inr ⟨r, hr, h⟩
      · exact .inl (by simp [h])
    · exact .inr h

omit [DecidableEq N] [DecidableEq T] in
theorem exposed_symbols {G : CFG N T W} {v : List T} {A : N} (h : Exposed G v A) : ∀ x ∈ v, ∃ r ∈ G.rules, .value x ∈ r.composition := by
  induction h with
  | initial => simp
  | @step u v A r α β B _ hr _ hc hv ih =>
    intro x hx
    rcases List.mem_append.1 hx with hx | hx
    · exact ih x hx
    · obtain ⟨rs, hv⟩ := yields_iff.1 hv
      rcases leftmost_symbols hv x hx with h | h
      · exact ⟨r, hr, by rw [hc]; simp [h]⟩
      · exact h

/-- The initial store. -/
abbrev cfgStart : PushDown (PushState N T) := PushDown.new .designated .initial

/-- The run of the automaton for a derivation. -/
def derivationRun [One W] [AddMonoid W] (G : CFG N T W) (d : N × List (CFGRule N T W)) : List (Transition (PdInstr (PushState N T)) T W) :=
  CFG.startTransition G d.1 :: CFG.runOf [.label d.1] d.2

theorem derivationRun_injective [One W] [AddMonoid W] {G G' : CFG N T W} {w w' : List T} {d e : N × List (CFGRule N T W)} (hd : CfgDerivation G' w d) (he : CfgDerivation G' w' e)
    (h : derivationRun G d = derivationRun G e) : d = e := by
  obtain ⟨S, rs⟩ := d
  obtain ⟨S', rs'⟩ := e
  obtain ⟨h1, h2⟩ := List.cons.inj h
  have : S = S' := by
    have := congrArg Transition.instruction h1
    simp only [CFG.startTransition, PdInstr.mk.injEq, List.cons.injEq, and_true, true_and, PushState.nt.injEq] at this
    exact this
  subst this
  have : rs = rs' := CFG.runOf_injective hd.2 he.2 h2
  rw [this]

section
variable [AddMonoid W] {P : PDA (PushState N T) T W} {L : List (Transition (PdInstr (PushState N T)) T W)} {G G' : CFG N T W}

theorem PDA.total_eq {I : Type _} [DecidableEq I] (ts : List (Transition I T W)) (k : List T × I) : PDA.total ts k = (weightsOf ts k.1 k.2).sum := by
  rw [PDA.total_sum]
  unfold weightsOf
  congr 1
  induction ts with
  | nil => rfl
  | cons t ts ih =>
    rw [List.filter_cons, List.filterMap_cons]
    by_cases h : t.word = k.1 ∧ t.instruction = k.2
    · have : PDA.keyOf t = k := Prod.ext h.1 h.2
      simp [h, this, ih]
    · have : ¬ PDA.keyOf t = k := by rintro rfl; exact h ⟨rfl, rfl⟩
      simp [h, this, ih]

theorem PDA.Built.transitions {A : Type _} [DecidableEq A] {P : PDA A T W} {ts L : List (Transition (PdInstr A) T W)} {initial : PushDown A} (h2 : PDA.Built P ts initial L)
    (t : Transition (PdInstr A) T W) :
    t ∈ L ↔ (∃ t' ∈ ts, t'.word = t.word ∧ t'.instruction = t.instruction) ∧ t.weight = (weightsOf ts t.word t.instruction).sum := by
  constructor
  · intro ht
    obtain ⟨t', h3, h4⟩ := List.mem_map.1 ((h2.mem _).1 (List.mem_map.2 ⟨t, ht, rfl⟩))
    obtain ⟨h5, h6⟩ := Prod.mk.inj h4
    exact ⟨⟨t', h3, h5, h6⟩, by rw [h2.weight t ht, PDA.total_eq]; rfl⟩
  · rintro ⟨⟨t', h3, h4, h5⟩, h6⟩
    obtain ⟨t2, h7, h8⟩ := List.mem_map.1 ((h2.mem (PDA.keyOf t)).2 (List.mem_map.2 ⟨t', h3, Prod.ext h4 h5⟩))
    have h9 := h2.weight t2 h7
    rw [h8, PDA.total_eq] at h9
    obtain ⟨w, v, i⟩ := t
    obtain ⟨w2, v2, i2⟩ := t2
    obtain ⟨rfl, rfl⟩ := Prod.mk.inj h8
    have : v2 = v := h9.trans h6.symm
    rw [← this]
    exact h7

omit [AddMonoid W] in
theorem cfg_current [AddMonoid W] [One W] (hB : PDA.Built P G.pdaTransitions cfgStart L) : ∀ t ∈ L, ∃ a, t.instruction.current = [a] ∧ a ≠ .designated := by
  intro t ht
  obtain ⟨t', h3, h4⟩ := List.mem_map.1 ((hB.mem _).1 (List.mem_map.2 ⟨t, ht, rfl⟩))
  rw [show t.instruction = t'.instruction from (Prod.mk.inj h4).2.symm]
  unfold CFG.pdaTransitions at h3
  rw [List.mem_append, List.mem_append] at h3
  rcases h3 with (h3 | h3) | h3 <;> obtain ⟨r, _, rfl⟩ := List.mem_map.1 h3
  · exact ⟨_, rfl, by simp⟩
  · exact ⟨_, rfl, by simp⟩
  · exact ⟨_, rfl, by simp⟩

variable [Monoid W] (hB : PDA.Built P G.pdaTransitions cfgStart L)
  {ag : Agenda H (Item (PushDown Nat) (PdInstr Nat) Nat W)} {content : H → Multiset (Item (PushDown Nat) (PdInstr Nat) Nat W)} {empty : H}
include hB

theorem cfg_no_panic (hG : ag.Sound content) (hempty : content empty = 0) (w : List T) (n : Nat) : ∃ r, P.recognise ag empty w n = some r := by
  have R := hB.represents
  have hne : ∀ w ts c, IsRun PdInstr.apply L cfgStart w ts c → c.storage ≠ [] := by
    intro w ts c ⟨he, hm⟩
    have hcur := cfg_current hB
    have key : ∀ (ts : List (Transition (PdInstr (PushState N T)) T W)) (c c' : Configuration (PushDown (PushState N T)) T W),
        Exec PdInstr.apply c ts c' → (∀ t ∈ ts, t ∈ L) → c.storage.head? = some .designated → c'.storage.head? = some .designated := by
      intro ts c c' he
      induction he with
      | nil => intro _ h; exact h
      | @cons c t c1 ts c2 hst _ ih =>
        intro hm hc
        refine ih (fun t ht => hm t (by simp [ht])) ?_
        obtain ⟨below, h3, h4⟩ := PdInstr.mem_apply.1 hst.storage
        obtain ⟨a, h5, h6⟩ := hcur t (hm t (by simp))
        rw [h5] at h3
        cases below with
        | nil =>
          rw [h3] at hc
          simp at hc
          exact absurd hc h6
        | cons b bs =>
          rw [h3] at hc
          rw [h4]
          simpa using hc
    have := key ts _ _ he hm rfl
    intro e
    rw [e] at this
    simp at this
  obtain ⟨out, a, h3⟩ := Automaton.recognise_no_panic hG hempty P.automaton (w.mapM P.terminalToInt) (by
    intro w0 ts' c hw hr
    obtain ⟨ts'', c', h4, h5, h6⟩ := R.isRun_outer (R.mapM_toInt.1 hw) hr
    have h7 := hne w ts'' c' h6
    have h8 : c.storage ≠ [] := by
      intro e
      have := h5.storage
      rw [e] at this
      exact h7 (List.forall₂_nil_left_iff.1 this)
    exact ⟨c.storage.getLast h8, List.getLast?_eq_some_getLast h8⟩) n
  obtain ⟨out', h4⟩ := R.recogniseOuter_no_panic hG hempty h3
  exact ⟨_, h4⟩

/-- The language. -/
theorem cfg_language (w : List T) : (PDA.device L cfgStart).Language w ↔ Generates G w := by
  have hl : (PDA.device L cfgStart).Language w ↔ (PDA.device G.pdaTransitions cfgStart).Language w :=
    ⟨language_of_keys (D := PDA.device L cfgStart) (D' := PDA.device G.pdaTransitions cfgStart) rfl rfl rfl hB.mem w,
      language_of_keys (D := PDA.device G.pdaTransitions cfgStart) (D' := PDA.device L cfgStart) rfl rfl rfl (fun k => (hB.mem k).symm) w⟩
  rw [hl, generates_iff]
  constructor
  · rintro ⟨ts, s, u, h⟩
    obtain ⟨_, S, hS, rs, h3, _⟩ := CFG.accepting_iff.1 h
    exact ⟨S, hS, rs, h3⟩
  · rintro ⟨S, hS, rs, h⟩
    exact ⟨_, _, _, CFG.accepting_iff.2 ⟨rfl, S, hS, rs, h, rfl, rfl⟩⟩

theorem cfg_ends (hG : ag.Sound content) (hempty : content empty = 0) {w : List T} (h : ∀ v A, v <+: w → Exposed G v A → ¬ CfgLeftRecursive G A) :
    ∃ n₀, ∀ n ≥ n₀, ∃ out a, P.recognise ag empty w n = some (out, a) ∧ ag.pop a = none := by
  have hkeys : ∀ k, k ∈ L.map PDA.keyOf ↔ k ∈ G.pdaTransitions.map PDA.keyOf := hB.mem
  obtain ⟨l, hl⟩ := CFG.run_bounded (G := G) (w := w) h
  obtain ⟨n₀, hn⟩ := hB.represents.ends hG hempty w (L := l) (fun us c hc => by
    obtain ⟨us', c', h5, h6⟩ := run_of_keys (fun k hk => (hkeys k).1 hk) hc
    rw [← h6]
    exact hl us' c' h5)
  refine ⟨n₀, fun n hn' => ?_⟩
  obtain ⟨⟨out, a⟩, hrun⟩ := cfg_no_panic hB hG hempty w n
  exact ⟨out, a, hrun, hn n hn' out a hrun⟩

theorem cfg_ends_iff (hG : ag.Lossless content) (hempty : content empty = 0) {w : List T} (hw : ∀ x ∈ w, ∃ r ∈ G.rules, .value x ∈ r.composition) :
    (∃ n out a, P.recognise ag empty w n = some (out, a) ∧ ag.pop a = none) ↔ ¬ ∃ v A, v <+: w ∧ Exposed G v A ∧ CfgLeftRecursive G A := by
  have hkeys : ∀ k, k ∈ L.map PDA.keyOf ↔ k ∈ G.pdaTransitions.map PDA.keyOf := hB.mem
  constructor
  · intro h ⟨v, A, hv, hA, hrec⟩
    obtain ⟨l, hl⟩ := (hB.represents.ends_iff hB.coherent hG hempty w (cfg_no_panic hB hG.sound hempty w) (fun x hx => by
      obtain ⟨r, hr, hxr⟩ := hw x hx
      have : PDA.keyOf (CFG.readTransition x : Transition (PdInstr (PushState N T)) T W) ∈ G.pdaTransitions.map PDA.keyOf := by
        refine List.mem_map.2 ⟨_, ?_, rfl⟩
        unfold CFG.pdaTransitions
        simp only [List.mem_append, List.mem_map]
        exact .inl (.inr ⟨x, CFG.mem_terminals.2 ⟨r, hr, hxr⟩, rfl⟩)
      obtain ⟨t, ht, he⟩ := List.mem_map.1 ((hkeys _).2 this)
      exact ⟨t, ht, by rw [(Prod.mk.inj he).1]; simp [CFG.readTransition]⟩)).1 h
    obtain ⟨us, c, h3, h4⟩ := CFG.run_unbounded (W := W) hv hA hrec (l + 1)
    obtain ⟨us', c', h5, h6⟩ := run_of_keys (fun k hk => (hkeys k).2 hk) h3
    have := hl us' c' h5
    omega
  · intro h
    obtain ⟨n, hn⟩ := cfg_ends hB hG.sound hempty (w := w) fun v A hv hA hrec => h ⟨v, A, hv, hA, hrec⟩
    obtain ⟨out, a, h1, h2⟩ := hn n (le_refl _)
    exact ⟨n, out, a, h1, h2⟩

/-- The derivations of the parses. -/
theorem cfg_derivations (hM : MergedCfg G G') (hG : ag.Sound content) (hempty : content empty = 0) {w : List T} {n : Nat}
    {out : List (Item (PushDown (PushState N T)) (PdInstr (PushState N T)) T W)} {a : H} (hrun : P.recognise ag empty w n = some (out, a)) :
    ∃ ds, ds.Nodup ∧ List.Forall₂ (fun i d => CfgDerivation G' w d ∧ i.conf = ⟨[], [.designated], derivationWeight G d⟩ ∧ i.run.toVec = derivationRun G d) out ds := by
  have hL := CFG.transitions_merged hM hB.transitions
  have hs := hB.represents.sound hG hempty hrun
  have hnd := hB.represents.once hG hempty (List.Nodup.of_map _ hB.nodup) (fun i s => PdInstr.apply_length i s) hrun
  obtain ⟨ds, hds⟩ : ∃ ds, List.Forall₂ (fun i d => CfgDerivation G' w d ∧ i.conf = ⟨[], [.designated], derivationWeight G d⟩ ∧ i.run.toVec = derivationRun G d) out ds := by
    refine exists_forall₂ _ fun i hi => ?_
    obtain ⟨h5, h6⟩ := hs i hi
    obtain ⟨h7, S, hS, rs, h8, h9, h10⟩ := (CFG.accepting_merged hL).1 h6
    refine ⟨(S, rs), ⟨hS, h8⟩, ?_, h9⟩
    obtain ⟨⟨cw, cs, cu⟩, r⟩ := i
    simp only at h5 h7 h10
    rw [h5, h7, h10]
    rfl
  refine ⟨ds, ?_, hds⟩
  clear hs hrun
  induction hds with
  | nil => simp
  | @cons i d l ds hh ht ih =>
    rw [List.map_cons, List.nodup_cons] at hnd
    rw [List.nodup_cons]
    refine ⟨fun hm => hnd.1 ?_, ih hnd.2⟩
    obtain ⟨j, hj, hjd⟩ := forall₂_exists_left ht hm
    exact List.mem_map.2 ⟨j, hj, by rw [hjd.2.2, hh.2.2]⟩

/-- The parse for a derivation. -/
theorem derivation_accepting (hM : MergedCfg G G') {w : List T} {d : N × List (CFGRule N T W)} (hd : CfgDerivation G' w d) :
    (PDA.device L cfgStart).Accepting w (derivationRun G d) [.designated] (derivationWeight G d) :=
  (CFG.accepting_merged (CFG.transitions_merged hM hB.transitions)).2 ⟨rfl, d.1, hd.1, d.2, hd.2, rfl, rfl⟩

/-- The transitions do not increase the weight if the rules do not. -/
theorem cfg_decreasing [Preorder W] (hM : MergedCfg G G') (hle : ∀ r ∈ G'.rules, ∀ u : W, u * r.weight ≤ u)
    (hin : ∀ S ∈ G'.initial, ∀ u : W, u * startTotal G S ≤ u) : ∀ t ∈ L, ∀ u : W, u * t.weight ≤ u := by
  intro t ht u
  rcases (CFG.transitions_merged hM hB.transitions t).1 ht with ⟨r, hr, rfl⟩ | ⟨x, _, rfl⟩ | ⟨S, hS, rfl⟩
  · exact hle r hr u
  · simp [CFG.readTransition]
  · exact hin S hS u

/-- The best derivations are found first. -/
theorem cfg_best [LinearOrder W] (hM : MergedCfg G G') (hle : ∀ r ∈ G'.rules, ∀ u : W, u * r.weight ≤ u)
    (hin : ∀ S ∈ G'.initial, ∀ u : W, u * startTotal G S ≤ u) (hG : HeapLaws ag content fun i => i.conf.weight) (hempty : content empty = 0) {n m : Nat}
    {w : List T} {out : List (Item (PushDown (PushState N T)) (PdInstr (PushState N T)) T W)} {a : H} (hrun : P.recognise ag empty w m = some (out, a))
    (hfin : n ≤ out.length ∨ ag.pop a = none) :
    ∃ ds, BestOf (CfgDerivation G' w) (derivationWeight G) n ds ∧
      List.Forall₂ (fun i d => i.conf = ⟨[], [.designated], derivationWeight G d⟩ ∧ i.run.toVec = derivationRun G d) (out.take n) ds := by
  obtain ⟨ds, hnd, hds⟩ := cfg_derivations hB hM hG.lossless.sound hempty hrun
  have hdec := cfg_decreasing hB hM hle hin
  have hsorted : ds.Pairwise fun d e => derivationWeight G e ≤ derivationWeight G d := by
    have := hB.represents.sorted hG hdec hrun
    clear hnd hrun hfin
    induction hds with
    | nil => simp
    | @cons i d l ds hh ht ih =>
      rw [List.pairwise_cons] at this ⊢
      refine ⟨fun e he => ?_, ih this.2⟩
      obtain ⟨j, hj, hje⟩ := forall₂_exists_left ht he
      have := this.1 j hj
      rwa [hh.2.1, hje.2.1] at this
  have hmem : ∀ d, CfgDerivation G' w d → (⟨⟨[], [.designated], derivationWeight G d⟩, Pushdown.ofSlice (derivationRun G d)⟩ :
      Item (PushDown (PushState N T)) (PdInstr (PushState N T)) T W) ∈ out → d ∈ ds := by
    intro d hd hz
    obtain ⟨e, he, h5, _, h6⟩ := forall₂_exists_right hds hz
    rw [toVec_ofSlice] at h6
    rwa [derivationRun_injective hd h5 h6]
  refine ⟨ds.take n, bestOf_take hnd (fun d hd => ?_) hsorted ?_, (forall₂_take hds n).imp fun _ _ h => h.2⟩
  · obtain ⟨i, _, hi⟩ := forall₂_exists_left hds hd
    exact hi.1
  · rcases hfin with hn | hp
    · left
      refine ⟨by rw [← hds.length_eq]; exact hn, fun d hd hdm e he => ?_⟩
      by_contra hlt
      rw [not_le] at hlt
      obtain ⟨x, hx, hxe⟩ := forall₂_exists_left hds he
      obtain ⟨l₁, l₂, rfl⟩ := List.append_of_mem hx
      obtain ⟨m', b', hrun'⟩ := Automaton.recogniseOuter_prefix hrun (l := l₁ ++ [x]) ⟨l₂, by simp⟩
      refine hdm (hmem d hd (List.mem_append_left _ ?_))
      refine hB.represents.best_first hB.coherent hG hempty hdec hrun' _ rfl (by rw [toVec_ofSlice]; exact derivation_accepting hB hM hd) ?_
      rw [hxe.2.1]
      exact hlt
    · right
      intro d hd
      refine hmem d hd ?_
      exact (hB.represents.exact_runs hB.coherent hG.lossless hempty hrun hp _).2 ⟨rfl, by rw [toVec_ofSlice]; exact derivation_accepting hB hM hd⟩

end

/-- Fairness. -/
theorem cfg_fair [CommMonoid W] [AddMonoid W] [Preorder W] {G G' : CFG N T W} {P : PDA (PushState N T) T W} {L : List (Transition (PdInstr (PushState N T)) T W)}
    (hB : PDA.Built P G.pdaTransitions cfgStart L) (hM : MergedCfg G G')
    (hle : ∀ r ∈ G'.rules, ∀ u : W, u * r.weight ≤ u) (hin : ∀ S ∈ G'.initial, ∀ u : W, u * startTotal G S ≤ u) {v : W} (hf : Fades (G'.rules.map CFGRule.weight) v)
    {ag : Agenda H (Item (PushDown Nat) (PdInstr Nat) Nat W)} {content : H → Multiset (Item (PushDown Nat) (PdInstr Nat) Nat W)}
    (hG : HeapLaws ag content fun i => i.conf.weight) {empty : H} (hempty : content empty = 0) (w : List T) :
    ∃ m₀, ∀ m ≥ m₀, ∃ out a ds, P.recognise ag empty w m = some (out, a) ∧ ds.Nodup ∧
      List.Forall₂ (fun i d => CfgDerivation G' w d ∧ i.conf = ⟨[], [.designated], derivationWeight G d⟩) out ds ∧
      ∀ d, CfgDerivation G' w d → v ≤ derivationWeight G d → d ∈ ds := by
  have hL := CFG.transitions_merged hM hB.transitions
  obtain ⟨l, hl⟩ := fades_prod.1 hf
  obtain ⟨m₀, hm⟩ := hB.represents.fair hB.coherent hG hempty (cfg_decreasing hB hM hle hin) w v (L := l + w.length + 1) (fun us c hc hv => by
    rcases CFG.run_merged_length hL hc with rfl | ⟨S, hS, rs, h5, h6, h7⟩
    · simp
    · have : rs.length ≤ l := by
        have := hl (rs.map CFGRule.weight) (fun u hu => by
          obtain ⟨r, hr, rfl⟩ := List.mem_map.1 hu
          exact List.mem_map.2 ⟨r, h5 r hr, rfl⟩) (le_trans hv (by rw [h6, mul_comm]; exact hin S hS _))
        simpa using this
      omega)
  refine ⟨m₀, fun m hm' => ?_⟩
  obtain ⟨⟨out, a⟩, hrun⟩ := cfg_no_panic hB hG.lossless.sound hempty w m
  obtain ⟨ds, hnd, hds⟩ := cfg_derivations hB hM hG.lossless.sound hempty hrun
  refine ⟨out, a, ds, hrun, hnd, hds.imp fun _ _ h => ⟨h.1, h.2.1⟩, fun d hd hv => ?_⟩
  have hz := hm m hm' out a hrun ⟨⟨[], [.designated], derivationWeight G d⟩, Pushdown.ofSlice (derivationRun G d)⟩ rfl
    (by rw [toVec_ofSlice]; exact derivation_accepting hB hM hd) hv
  obtain ⟨e, he, h5, _, h6⟩ := forall₂_exists_right hds hz
  rw [toVec_ofSlice] at h6
  rwa [derivationRun_injective hd h5 h6]

end Rustomata
