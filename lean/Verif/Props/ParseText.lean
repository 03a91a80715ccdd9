import Verif.Proofs.ShownParses
import Verif.Props.TsaCommand
import Verif.Props.McfgCommand
import Verif.Props.Ends

/-!
# Property C79: the text of a tree stack, and the command `mcfg parse` without `--negra`

Only property theorems, the lemmas that combine them, and the examples that show their hypotheses to be satisfiable.
-/

namespace Rustomata.Props
open Rustomata Rustomata.Spec
variable {A W H : Type _}

/-! ### Tree stacks -/

/-- **C79** The text of a tree stack is the drawing of what `to_tree` returns. -/
theorem C79_drawing (a : A → List Nat) (t : TreeStack A) : Drawing (fun p => ((view t).label p).map a) (view t).pointer (t.text a) := treeStack_drawing a t

/-- **C79** The text of a tree stack determines the tree and the pointer, if the texts of the symbols are different and contain no line break. -/
theorem C79_determines (a : A → List Nat) (ha : Function.Injective a) (hn : ∀ x, 10 ∉ a x) {t t' : TreeStack A} (h : t.text a = t'.text a) : view t = view t' := by
  have hlike : ∀ t : TreeStack A, TreeLike fun p => ((view t).label p).map a := fun t => by
    refine ⟨fun h => (view_treeLike t).1.1 (Option.map_eq_none_iff.1 h), fun p i hp h => (view_treeLike t).1.2 p i (fun h' => hp ?_) (Option.map_eq_none_iff.1 h)⟩
    simp only [h', Option.map_none]
  have hnl : ∀ (t : TreeStack A) p v, ((view t).label p).map a = some v → 10 ∉ v := fun t p v hv => by
    obtain ⟨x, _, rfl⟩ := Option.map_eq_some_iff.1 hv
    exact hn x
  obtain ⟨h1, h2⟩ := drawing_inj (C79_drawing a t) (h ▸ C79_drawing a t') (hlike t) (hlike t') (hnl t) (hnl t')
  have h3 : (view t).label = (view t').label := funext fun p => Option.map_injective ha (congrFun h1 p)
  have h4 : (view t).pointer = (view t').pointer := h2 fun h => (view_treeLike t).2 (Option.map_eq_none_iff.1 h)
  show (⟨(view t).label, (view t).pointer⟩ : Marked A) = ⟨(view t').label, (view t').pointer⟩
  rw [h3, h4]

/-- **C79** The same for the texts of the stack symbols of the automaton of a PMCFG. -/
theorem C79_symbols {X : Type _} (x : X → List Nat) (hx : Function.Injective x) (hn : ∀ r, 10 ∉ x r) :
    Function.Injective (PosState.text x) ∧ ∀ v, 10 ∉ PosState.text x v := by
  constructor
  · intro v v' h
    have hpos : ∀ r i j r' i' j', PosState.text x (.position r i j) = PosState.text x (.position r' i' j') → r = r' ∧ i = i' ∧ j = j' := by
      intro r i j r' i' j' h
      obtain ⟨h1, h2, h3⟩ := positionText_inj h
      exact ⟨hx h1, h2, h3⟩
    cases v with
    | designated => cases v' with
      | designated => rfl
      | initial => simp [PosState.text] at h
      | position => simp [PosState.text] at h
    | initial => cases v' with
      | designated => simp [PosState.text] at h
      | initial => rfl
      | position => simp [PosState.text] at h
    | position r i j => cases v' with
      | designated => simp [PosState.text] at h
      | initial => simp [PosState.text] at h
      | position r' i' j' =>
        obtain ⟨rfl, rfl, rfl⟩ := hpos _ _ _ _ _ _ h
        rfl
  · intro v
    cases v with
    | designated => simp [PosState.text]
    | initial => simp [PosState.text]
    | position r i j => simp [PosState.text, hn r, natText_not (b := 10) (n := i) (by omega), natText_not (b := 10) (n := j) (by omega)]

/-- The drawing of what a parse shows is the drawing of a tree. -/
theorem shownDrawing_tree {N T : Type _} [CommMonoid W] {g : PMCFG N T W} {rule : PMCFGRule N T W → List Nat} (hn : ∀ r ∈ g.rules, 10 ∉ rule r) {w : List T}
    {x : Option (List Nat → Option (PMCFGRule N T W)) × W} (hs : ShownParse g w x) {text : List Nat} (h : ShownDrawing rule x.1 text) :
    ∃ label, Drawing label [] text ∧ TreeLike label ∧ (∀ p v, label p = some v → 10 ∉ v) ∧ match x.1 with
      | none => label [] = some [73]
      | some labels => label [] = some [64] ∧ ∀ p, match labels p with
        | none => label (0 :: p) = none
        | some r => ∃ j k, label (0 :: p) = some ([40] ++ rule r ++ [44, 32] ++ natText j ++ [44, 32] ++ natText k ++ [41]) := by
  obtain ⟨o, u⟩ := x
  cases o with
  | none =>
    refine ⟨fun p => if p = [] then some [73] else none, ⟨[[]], by simp, fun p => by simp, ?_⟩, ⟨by simp, fun p i hp => by simp at hp⟩, fun p v hv => ?_, rfl⟩
    · rw [show text = [32, 10, 42, 73, 10] from h]
      rfl
    · simp only at hv
      split at hv
      · cases hv; simp
      · cases hv
  | some labels =>
    obtain ⟨label, h1, h2, h3, h4⟩ := h
    obtain ⟨S, hS, hd⟩ := hs
    have hl := hd.treeLike
    have hm := hd.labels_mem.2
    refine ⟨label, h1, ⟨by rw [h2]; simp, fun p i hp => ?_⟩, fun p v hv => ?_, h2, fun p => ?_⟩
    · cases p with
      | nil => rw [h2]; simp
      | cons i' p =>
        have hi := h3 i' _ hp
        subst hi
        have h5 := h4 (p ++ [i])
        cases hp' : labels (p ++ [i]) with
        | none =>
          rw [hp'] at h5
          exact absurd h5 hp
        | some r =>
          have h6 := hl.2 p i (by rw [hp']; simp)
          obtain ⟨r', hr'⟩ := Option.ne_none_iff_exists'.1 h6
          have h7 := h4 p
          rw [hr'] at h7
          obtain ⟨_, _, _, h8⟩ := h7
          rw [h8]
          simp
    · cases p with
      | nil =>
        rw [h2] at hv
        cases hv
        simp
      | cons i' p =>
        have hi := h3 i' p (by rw [hv]; simp)
        subst hi
        have h5 := h4 p
        cases hp' : labels p with
        | none =>
          rw [hp'] at h5
          simp only [hv] at h5
          cases h5
        | some r =>
          rw [hp'] at h5
          obtain ⟨j, c, _, h6⟩ := h5
          rw [h6] at hv
          cases hv
          simp [hn r (hm p r hp'), natText_not (b := 10) (n := j) (by omega), natText_not (b := 10) (n := (varsOf [c]).length) (by omega)]
    · have h5 := h4 p
      cases hp' : labels p with
      | none => rw [hp'] at h5; exact h5
      | some r =>
        rw [hp'] at h5
        obtain ⟨j, c, _, h6⟩ := h5
        exact ⟨j, _, h6⟩

/-- **C79** What a parse shows can be seen in its text: if the texts of the rules are different and contain no line break, then texts with the same drawing show the same rules. -/
theorem C79_shows {N T : Type _} [CommMonoid W] {g : PMCFG N T W} {rule : PMCFGRule N T W → List Nat} (hx : ∀ r ∈ g.rules, ∀ r' ∈ g.rules, rule r = rule r' → r = r')
    (hn : ∀ r ∈ g.rules, 10 ∉ rule r) {w w' : List T} {x x' : Option (List Nat → Option (PMCFGRule N T W)) × W} (hs : ShownParse g w x) (hs' : ShownParse g w' x')
    {text : List Nat} (h : ShownDrawing rule x.1 text) (h' : ShownDrawing rule x'.1 text) : x.1 = x'.1 := by
  obtain ⟨label, h1, h2, h3, h4⟩ := shownDrawing_tree hn hs h
  obtain ⟨label', h1', h2', h3', h4'⟩ := shownDrawing_tree hn hs' h'
  obtain ⟨rfl, _⟩ := drawing_inj h1 h1' h2 h2' h3 h3'
  obtain ⟨o, u⟩ := x
  obtain ⟨o', u'⟩ := x'
  cases o with
  | none =>
    cases o' with
    | none => rfl
    | some labels' =>
      simp only at h4 h4'
      rw [h4] at h4'
      simp at h4'
  | some labels =>
    cases o' with
    | none =>
      simp only at h4 h4'
      rw [h4'] at h4
      simp at h4
    | some labels' =>
      simp only at h4 h4' ⊢
      congr 1
      funext p
      obtain ⟨S, hS, hd⟩ := hs
      obtain ⟨S', hS', hd'⟩ := hs'
      have h5 := h4.2 p
      have h5' := h4'.2 p
      cases hl : labels p with
      | none =>
        cases hl' : labels' p with
        | none => rfl
        | some r' =>
          rw [hl] at h5
          rw [hl'] at h5'
          obtain ⟨j, k, h6⟩ := h5'
          rw [h5] at h6
          cases h6
      | some r =>
        rw [hl] at h5
        obtain ⟨j, k, h6⟩ := h5
        cases hl' : labels' p with
        | none =>
          rw [hl'] at h5'
          rw [h5'] at h6
          cases h6
        | some r' =>
          rw [hl'] at h5'
          obtain ⟨j', k', h6'⟩ := h5'
          rw [h6, Option.some.injEq] at h6'
          rw [hx r (hd.labels_mem.2 p r hl) r' (hd'.labels_mem.2 p r' hl') (positionText_inj h6').1]

/-! ### The parses of a sentence -/

section
variable [CommMonoid W] {g : PMCFG (List Nat) (List Nat) W} {a : TSA (TsaSymbol (List Nat) (List Nat)) (List Nat) W}
  {G : Agenda H (Item (TreeStack Nat) (TsInstr Nat) Nat W)} {content : H → Multiset (Item (TreeStack Nat) (TsInstr Nat) Nat W)} {empty : H}
  {rule : PMCFGRule (List Nat) (List Nat) Unit → List Nat} {cw : Codec W}

/-- What the parses show. -/
theorem shown_parses (ha : TSA.ofPmcfg g = some a) (hG : G.Sound content) (hempty : content empty = 0) {w : List (List Nat)} {m : Nat}
    {out : List (Item (TreeStack (TsaSymbol (List Nat) (List Nat))) (TsInstr (TsaSymbol (List Nat) (List Nat))) (List Nat) W)} {b : H}
    (hrun : a.recognise G empty w m = some (out, b)) :
    ∃ xs, List.Forall₂ (fun i x => i.conf.word = [] ∧ i.conf.weight = x.2 ∧ ShownParse g w x ∧ Stored g i.conf.storage x.1) out xs ∧
      ((g.rules.map PMCFGRule.key).Nodup → (xs.map Prod.fst).Nodup) := by
  have ha' := ha
  unfold TSA.ofPmcfg at ha'
  obtain ⟨ts, hts, rfl⟩ := Option.map_eq_some_iff.1 ha'
  clear ha'
  obtain ⟨xs, hxs⟩ : ∃ xs : List (Option (List Nat → Option (PMCFGRule (List Nat) (List Nat) W)) × W), List.Forall₂ (fun i x => (i.conf.word = [] ∧ i.conf.weight = x.2 ∧
      ShownParse g w x ∧ Stored g i.conf.storage x.1) ∧ (x.1 = none ↔ i.run.toVec = [])) out xs := by
    refine exists_forall₂ _ fun i hi => ?_
    obtain ⟨h1, h2⟩ := C16_tsa_sound ts _ hG hempty hrun i hi
    obtain ⟨o, h3, h4, h5⟩ := accepting_shown hts h2
    exact ⟨(o, i.conf.weight), ⟨h1, rfl, h3, h4⟩, h5⟩
  refine ⟨xs, hxs.imp fun _ _ h => h.1, fun hk => ?_⟩
  obtain ⟨hnd, hpw₀⟩ := C78_once g _ ha hk hG hempty hrun
  have hpw : out.Pairwise fun i j => i.run.toVec ≠ j.run.toVec ∧ (i.run.toVec ≠ [] → j.run.toVec ≠ [] →
        ∀ m m', toAbstractSyntaxTree i.conf.storage.toTree.1 = some m → toAbstractSyntaxTree j.conf.storage.toTree.1 = some m' → ∃ p, m.get p ≠ m'.get p) :=
    (List.pairwise_map.1 hnd).and hpw₀
  clear hrun hnd hpw₀
  induction hxs with
  | nil => simp
  | @cons i x l xs hh ht ih =>
    rw [List.pairwise_cons] at hpw
    rw [List.map_cons, List.nodup_cons]
    refine ⟨fun hm => ?_, ih hpw.2⟩
    obtain ⟨y, hy, hxy⟩ := List.mem_map.1 hm
    obtain ⟨j, hj, ⟨_, _, _, hjs⟩, hjr⟩ := forall₂_exists_left ht hy
    obtain ⟨⟨_, _, _, his⟩, hir⟩ := hh
    obtain ⟨h1, h2⟩ := hpw.1 j hj
    rw [hxy] at hjs hjr
    cases hx : x.1 with
    | none => exact h1 ((hir.1 hx).trans (hjr.1 hx).symm)
    | some labels =>
      rw [hx] at his hjs hir hjr
      obtain ⟨m, m1, m2⟩ := his.1.ast
      obtain ⟨m', m1', m2'⟩ := hjs.1.ast
      obtain ⟨p, hp⟩ := h2 (fun h => by simpa using hir.2 h) (fun h => by simpa using hjr.2 h) m m' m1 m1'
      rw [m2, m2'] at hp
      exact hp rfl

theorem shown_texts {w : List (List Nat)} {out : List (Item (TreeStack (TsaSymbol (List Nat) (List Nat))) (TsInstr (TsaSymbol (List Nat) (List Nat))) (List Nat) W)}
    {xs : List (Option (List Nat → Option (PMCFGRule (List Nat) (List Nat) W)) × W)}
    (h : List.Forall₂ (fun i x => i.conf.word = [] ∧ i.conf.weight = x.2 ∧ ShownParse g w x ∧ Stored g i.conf.storage x.1) out xs) :
    ∃ ts, (out.mapM fun i => (toAbstractSyntaxTree i.conf.storage.toTree.1).map fun _ =>
        Configuration.text (TreeStack.text (PosState.text rule)) (fun s => s) cw.text i.conf ++ [10]) = some ts ∧
      List.Forall₂ (ShownText (fun r => rule r.key) cw.text) xs ts := by
  induction h with
  | nil => exact ⟨[], rfl, .nil⟩
  | @cons i x out xs hh ht ih =>
    obtain ⟨ts, h1, h2⟩ := ih
    obtain ⟨k1, k2, k3, k4⟩ := hh
    obtain ⟨m, hm⟩ := k4.ast
    refine ⟨_ :: ts, by rw [List.mapM_cons, hm, h1]; rfl, .cons ⟨_, k4.drawing rule, ?_⟩ h2⟩
    simp only [Configuration.text, k1, spaceSep, k2, List.append_nil]
    simp [ascii]

theorem mcfgPlainSentence_some {n m : Nat} {w : List (List Nat)} {text : List Nat} (ha : TSA.ofPmcfg g = some a) (hG : G.Sound content) (hempty : content empty = 0)
    (h : mcfgPlainSentence rule cw a G empty n m w = some (some text)) :
    ∃ out b xs, a.recognise G empty w m = some (out, b) ∧ (n ≤ out.length ∨ G.pop b = none) ∧
      List.Forall₂ (fun i x => i.conf.word = [] ∧ i.conf.weight = x.2 ∧ ShownParse g w x ∧ Stored g i.conf.storage x.1) out xs ∧
      ((g.rules.map PMCFGRule.key).Nodup → (xs.map Prod.fst).Nodup) ∧ ShownTexts (fun r => rule r.key) cw.text (xs.take n) text := by
  unfold mcfgPlainSentence at h
  cases hrun : a.recognise G empty w m with
  | none => rw [hrun] at h; cases h
  | some x =>
    obtain ⟨out, b⟩ := x
    rw [hrun] at h
    simp only at h
    obtain ⟨xs, h1, h2⟩ := shown_parses ha hG hempty hrun
    obtain ⟨ts, h3, h4⟩ := shown_texts (rule := rule) (cw := cw) (forall₂_take h1 n)
    rw [h3] at h
    simp only at h
    split at h
    · rename_i hc
      cases h
      exact ⟨out, b, xs, rfl, by simpa using hc, h1, h2, ts, h4, rfl⟩
    · cases h

theorem mcfgPlainSentence_of_run (ha : TSA.ofPmcfg g = some a) (hG : G.Sound content) (hempty : content empty = 0) {n m : Nat} {w : List (List Nat)}
    {out : List (Item (TreeStack (TsaSymbol (List Nat) (List Nat))) (TsInstr (TsaSymbol (List Nat) (List Nat))) (List Nat) W)} {b : H}
    (hrun : a.recognise G empty w m = some (out, b)) (hfin : n ≤ out.length ∨ G.pop b = none) :
    ∃ text, mcfgPlainSentence rule cw a G empty n m w = some (some text) := by
  obtain ⟨xs, h1, h2⟩ := shown_parses ha hG hempty hrun
  obtain ⟨ts, h3, h4⟩ := shown_texts (rule := rule) (cw := cw) (forall₂_take h1 n)
  unfold mcfgPlainSentence
  rw [hrun]
  simp only
  rw [h3]
  simp only
  rw [if_pos (by simpa using hfin)]
  exact ⟨_, rfl⟩

theorem recognise_ofPmcfg (ha : TSA.ofPmcfg g = some a) (hG : G.Sound content) (hempty : content empty = 0) (m : Nat) (w : List (List Nat)) :
    ∃ out b, a.recognise G empty w m = some (out, b) := by
  unfold TSA.ofPmcfg at ha
  obtain ⟨ts, hts, rfl⟩ := Option.map_eq_some_iff.1 ha
  obtain ⟨⟨out, b⟩, h⟩ := (C51_tsa_no_panic ts (.new .initial) (.new _) hG hempty w m).1
  exact ⟨out, b, h⟩

/-- **C79** No panic in the loop over the parses, for any grammar with an automaton, any sentence and any agenda. -/
theorem C79_no_panic (ha : TSA.ofPmcfg g = some a) (hG : G.Sound content) (hempty : content empty = 0) (n m : Nat) (w : List (List Nat)) :
    ∃ r, mcfgPlainSentence rule cw a G empty n m w = some r := by
  obtain ⟨out, b, hrun⟩ := recognise_ofPmcfg ha hG hempty m w
  obtain ⟨xs, h1, h2⟩ := shown_parses ha hG hempty hrun
  obtain ⟨ts, h3, h4⟩ := shown_texts (rule := rule) (cw := cw) (forall₂_take h1 n)
  unfold mcfgPlainSentence
  rw [hrun]
  simp only
  rw [h3]
  simp only
  split
  · exact ⟨_, rfl⟩
  · exact ⟨_, rfl⟩

/-- **C79** Soundness, whatever the agenda is (e.g. with a beam): what is printed for a sentence are at most `n` ways to accept it by visiting components (or the empty run);
if no two rules only differ in their weights, none of them is printed twice. -/
theorem C79_sentence_sound (ha : TSA.ofPmcfg g = some a) (hG : G.Sound content) (hempty : content empty = 0) {n m : Nat} {w : List (List Nat)} {text : List Nat}
    (h : mcfgPlainSentence rule cw a G empty n m w = some (some text)) :
    ∃ xs, xs.length ≤ n ∧ (∀ x ∈ xs, ShownParse g w x) ∧ ((g.rules.map PMCFGRule.key).Nodup → (xs.map Prod.fst).Nodup) ∧
      ShownTexts (fun r => rule r.key) cw.text xs text := by
  obtain ⟨out, b, xs, h1, h2, h3, h4, h5⟩ := mcfgPlainSentence_some ha hG hempty h
  refine ⟨xs.take n, by simp, fun x hx => ?_, fun hk => (h4 hk).sublist ((List.take_sublist n xs).map _), h5⟩
  obtain ⟨i, _, hi⟩ := forall₂_exists_left h3 (List.mem_of_mem_take hx)
  exact hi.2.2.1

/-- **C79** Without a beam: the `n` best ways are printed, the best one first. -/
theorem C79_sentence_best [LinearOrder W] (ha : TSA.ofPmcfg g = some a) (hk : (g.rules.map PMCFGRule.key).Nodup) (hle : ∀ r ∈ g.rules, ∀ u : W, u * r.weight ≤ u)
    (hG : HeapLaws G content fun i => i.conf.weight) (hempty : content empty = 0) {n m : Nat} {w : List (List Nat)} {text : List Nat}
    (h : mcfgPlainSentence rule cw a G empty n m w = some (some text)) :
    ∃ xs, TopOf (ShownParse g w) Prod.snd n xs ∧ (xs.map Prod.fst).Nodup ∧ ShownTexts (fun r => rule r.key) cw.text xs text := by
  obtain ⟨out, b, xs, hrun, hfin, h3, h4, h5⟩ := mcfgPlainSentence_some ha hG.lossless.sound hempty h
  have ha' := ha
  unfold TSA.ofPmcfg at ha'
  obtain ⟨ts, hts, rfl⟩ := Option.map_eq_some_iff.1 ha'
  clear ha'
  obtain ⟨L, l1, l2, l3, l4⟩ := TSA.new_represents (W := W) ts (.new .initial)
  have hw' : ∀ t ∈ (TSA.device L (.new .initial)).transitions, ∀ u : W, u * t.weight ≤ u := fun t ht => visit_weights hts hle t (l2.mem_iff.1 ht)
  have htop := l4.top (TSA.new_coherent ts (.new .initial)) hG hempty hw' hrun hfin
  have h3' := forall₂_take h3 n
  refine ⟨xs.take n, ⟨by simp, fun x hx => ?_, ?_, fun x hx => ?_⟩, (h4 hk).sublist ((List.take_sublist n xs).map _), h5⟩
  · obtain ⟨i, _, hi⟩ := forall₂_exists_left h3' hx
    exact hi.2.2.1
  · have hs := htop.sorted
    clear htop h5 hfin hrun h
    generalize out.take n = o at hs h3'
    generalize xs.take n = ys at h3'
    induction h3' with
    | nil => simp
    | @cons i x o ys hh ht ih =>
      rw [List.pairwise_cons] at hs ⊢
      refine ⟨fun y hy => ?_, ih hs.2⟩
      obtain ⟨j, hj, hjy⟩ := forall₂_exists_left ht hy
      rw [← hh.2.1, ← hjy.2.1]
      exact hs.1 j hj
  · obtain ⟨run, s, hacc, hst⟩ := shown_accepting hts hx
    have hv : (Pushdown.ofSlice run).toVec = run := by unfold Pushdown.ofSlice; rw [Pushdown.toVec_foldl]; simp
    rcases htop.best ⟨⟨[], s, x.2⟩, Pushdown.ofSlice run⟩ ⟨rfl, by
      rw [hv]
      exact ⟨⟨hacc.1.1, fun t ht => l2.mem_iff.2 (hacc.1.2 t ht)⟩, hacc.2⟩⟩ with hi | ⟨hlen, hall⟩
    · obtain ⟨y, hy, k1, k2, k3, k4⟩ := forall₂_exists_right h3' hi
      have : y = x := Prod.ext (storesLabels_unique hts hk (o := y.1) (o' := x.1) k3 hx k4.labels hst) k2.symm
      exact .inl (this ▸ hy)
    · refine .inr ⟨by rw [← h3'.length_eq]; exact hlen, fun y hy => ?_⟩
      obtain ⟨i, hi, _, k2, _⟩ := forall₂_exists_left h3' hy
      rw [← k2]
      exact hall i hi

/-- **C79** More steps do not change what is printed. -/
theorem C79_steps (ha : TSA.ofPmcfg g = some a) (hG : G.Sound content) (hempty : content empty = 0) {n m m' : Nat} {w : List (List Nat)} {text : List Nat} (hm : m ≤ m')
    (h : mcfgPlainSentence rule cw a G empty n m w = some (some text)) : mcfgPlainSentence rule cw a G empty n m' w = some (some text) := by
  obtain ⟨out', b', h'⟩ := recognise_ofPmcfg ha hG hempty m' w
  obtain ⟨out, b, h1, h2, h3⟩ := Automaton.recogniseOuter_mono h' hm
  unfold mcfgPlainSentence at h ⊢
  rw [show a.recognise G empty w m = some (out, b) from h1] at h
  rw [h']
  simp only at h ⊢
  have hout : n ≤ out.length ∨ (G.pop b).isNone → out'.take n = out.take n ∧ (n ≤ out'.length ∨ (G.pop b').isNone) := by
    rintro (hn | hp)
    · obtain ⟨l, rfl⟩ := h2
      exact ⟨by rw [List.take_append_of_le_length hn], .inl (by simp; omega)⟩
    · obtain ⟨h4, h5⟩ := h3 (by simpa using hp)
      rw [h4, ← h5]
      exact ⟨rfl, .inr hp⟩
  cases hq : (out.take n).mapM fun i => (toAbstractSyntaxTree i.conf.storage.toTree.1).map fun _ =>
      Configuration.text (TreeStack.text (PosState.text rule)) (fun s => s) cw.text i.conf ++ [10] with
  | none => rw [hq] at h; cases h
  | some texts =>
    rw [hq] at h
    simp only at h
    split at h
    · rename_i hc
      obtain ⟨h4, h5⟩ := hout hc
      rw [h4, hq]
      simp only
      rw [if_pos h5]
      exact h
    · cases h

/-- **C79** If no component is reached from itself by first visits at the left, and the components that are visited first are not empty, then the loop over the parses finishes. -/
theorem C79_sentence_ends (ha : TSA.ofPmcfg g = some a) (hl : ¬ VisitRecursive cutTrails g.rules)
    (hne : ∀ r j, FirstVisited cutTrails g r j → (cutTrails r.composition)[j]? ≠ some []) (hG : G.Sound content) (hempty : content empty = 0) (n : Nat)
    (w : List (List Nat)) : ∃ text m₀, ∀ m ≥ m₀, mcfgPlainSentence rule cw a G empty n m w = some (some text) := by
  obtain ⟨m₀, hm⟩ := C78_ends g a ha hl hne hG hempty w
  obtain ⟨out, b, hrun, hend⟩ := hm m₀ (le_refl _)
  obtain ⟨text, ht⟩ := mcfgPlainSentence_of_run (rule := rule) (cw := cw) ha hG hempty hrun (n := n) (.inr hend)
  exact ⟨text, m₀, fun m hm' => C79_steps ha hG hempty hm' ht⟩

/-- **C79** Otherwise, the loop over the parses finishes if there are `n` ways to accept the sentence whose weights are not reached by long products of the weights of rules. -/
theorem C79_sentence_fair [LinearOrder W] (ha : TSA.ofPmcfg g = some a) (hk : (g.rules.map PMCFGRule.key).Nodup) (hle : ∀ r ∈ g.rules, ∀ u : W, u * r.weight ≤ u)
    (hG : HeapLaws G content fun i => i.conf.weight) (hempty : content empty = 0) {w : List (List Nat)} {v : W} (hf : Fades (g.rules.map PMCFGRule.weight) v)
    {ls : List ((List Nat → Option (PMCFGRule (List Nat) (List Nat) W)) × W)} (hnd : (ls.map Prod.fst).Nodup)
    (hls : ∀ x ∈ ls, v ≤ x.2 ∧ ∃ S ∈ g.initial, Visited cutTrails g.rules S [0] x.1 [w] x.2) :
    ∃ text m₀, ∀ m ≥ m₀, mcfgPlainSentence rule cw a G empty ls.length m w = some (some text) := by
  obtain ⟨m₀, hm⟩ := C78_fair g a ha hle hf hG hempty w
  obtain ⟨out, b, hrun⟩ := recognise_ofPmcfg ha hG.lossless.sound hempty m₀ w
  have ha' := ha
  unfold TSA.ofPmcfg at ha'
  obtain ⟨ts, hts, rfl⟩ := Option.map_eq_some_iff.1 ha'
  clear ha'
  obtain ⟨is, his⟩ : ∃ is, List.Forall₂ (fun x i => (i ∈ out ∧ ∃ m', toAbstractSyntaxTree i.conf.storage.toTree.1 = some m' ∧
      ∀ p, GornTree.get m' p = (x.1 p).map PMCFGRule.key) ∧ ∃ S ∈ g.initial, Visited cutTrails g.rules S [0] x.1 [w] x.2) ls is := by
    refine exists_forall₂ _ fun x hx => ?_
    obtain ⟨h1, S, hS, h2⟩ := hls x hx
    obtain ⟨i, hi, _, h3⟩ := hm m₀ (le_refl _) out b hrun S hS x.1 x.2 h2 h1
    exact ⟨i, ⟨hi, h3⟩, S, hS, h2⟩
  have hisn : is.Nodup := by
    clear hls
    induction his with
    | nil => simp
    | @cons x i ls is hh ht ih =>
      rw [List.map_cons, List.nodup_cons] at hnd
      rw [List.nodup_cons]
      refine ⟨fun hi => hnd.1 ?_, ih hnd.2⟩
      obtain ⟨y, hy, ⟨_, m', m1', m2'⟩, S', hS', h2'⟩ := forall₂_exists_left ht hi
      obtain ⟨⟨_, m, m1, m2⟩, S, hS, h2⟩ := hh
      rw [m1, Option.some_inj] at m1'
      subst m1'
      rw [(C78_labels g ts hts hk hS hS' h2 h2' fun p => by rw [← m2, m2']).1]
      exact List.mem_map_of_mem hy
  have hsub : is ⊆ out := fun i hi => by
    obtain ⟨x, _, h, _⟩ := forall₂_exists_left his hi
    exact h.1
  obtain ⟨text, ht⟩ := mcfgPlainSentence_of_run (rule := rule) (cw := cw) ha hG.lossless.sound hempty hrun (n := ls.length)
    (.inl (by rw [his.length_eq]; exact (hisn.subperm hsub).length_le))
  exact ⟨text, m₀, fun m hm' => C79_steps ha hG.lossless.sound hempty hm' ht⟩

end

/-! ### The command -/

section
variable [CommMonoid W] {g : PMCFG (List Nat) (List Nat) W} {a : TSA (TsaSymbol (List Nat) (List Nat)) (List Nat) W}
  {G : Agenda H (Item (TreeStack Nat) (TsInstr Nat) Nat W)} {content : H → Multiset (Item (TreeStack Nat) (TsInstr Nat) Nat W)} {empty : H}
  {rule : PMCFGRule (List Nat) (List Nat) Unit → List Nat} {cw : Codec W} {n m : Nat} {grammar corpus : List Nat}

theorem shownRule_text (hk : (g.rules.map PMCFGRule.key).Nodup) {r : PMCFGRule (List Nat) (List Nat) W} (hr : r ∈ g.rules) :
    shownRule cw g r.key = PMCFGRule.text stringCodec stringCodec cw r := by
  unfold shownRule
  cases hf : g.rules.find? (fun r' => r'.key = r.key) with
  | none =>
    have := List.find?_eq_none.1 hf r hr
    simp at this
  | some r' =>
    have h1 := List.find?_some hf
    have h2 := List.mem_of_find?_eq_some hf
    simp only [decide_eq_true_eq] at h1
    rw [List.inj_on_of_nodup_map hk h2 hr h1]

/-- The texts of the rules that are shown. -/
theorem shownTexts_congr {w : List (List Nat)} {rule rule' : PMCFGRule (List Nat) (List Nat) W → List Nat} (hr : ∀ r ∈ g.rules, rule r = rule' r)
    {xs : List (Option (List Nat → Option (PMCFGRule (List Nat) (List Nat) W)) × W)} (hxs : ∀ x ∈ xs, ShownParse g w x) {weight : W → List Nat} {text : List Nat}
    (h : ShownTexts rule weight xs text) : ShownTexts rule' weight xs text := by
  obtain ⟨ts, h1, rfl⟩ := h
  refine ⟨ts, ?_, rfl⟩
  induction h1 with
  | nil => exact .nil
  | @cons x t xs ts hh ht ih =>
    refine .cons ?_ (ih fun x hx => hxs x (by simp [hx]))
    obtain ⟨d, h1, rfl⟩ := hh
    refine ⟨d, ?_, rfl⟩
    have hx := hxs x (by simp)
    obtain ⟨o, u⟩ := x
    cases o with
    | none => exact h1
    | some labels =>
      obtain ⟨S, hS, hd⟩ := hx
      obtain ⟨label, k1, k2, k3, k4⟩ := h1
      refine ⟨label, k1, k2, k3, fun p => ?_⟩
      have k5 := k4 p
      cases hp : labels p with
      | none => rw [hp] at k5; exact k5
      | some r =>
        rw [hp] at k5
        obtain ⟨j, c, k6, k7⟩ := k5
        exact ⟨j, c, k6, by rw [← hr r (hd.labels_mem.2 p r hp)]; exact k7⟩

theorem mcfgPlainLines_some {ls : List (List Nat)} {text : List Nat} (h : mcfgPlainLines rule cw a G empty n m ls = some (some text)) :
    ∃ answers, List.Forall₂ (fun x answer => mcfgPlainSentence rule cw a G empty n m (splitWhite x) = some (some answer)) ls answers ∧
      text = (answers.map fun t => t ++ [10]).flatten := by
  induction ls generalizing text with
  | nil => cases h; exact ⟨[], .nil, rfl⟩
  | cons line ls ih =>
    unfold mcfgPlainLines at h
    split at h
    · cases h
    · cases h
    · rename_i t ht
      obtain ⟨o, h1, h2⟩ := Option.map_eq_some_iff.1 h
      obtain ⟨rest, rfl, rfl⟩ := Option.map_eq_some_iff.1 h2
      obtain ⟨answers, h3, rfl⟩ := ih h1
      exact ⟨t :: answers, .cons ht h3, by simp⟩

theorem mcfgPlainLines_no_panic {ls : List (List Nat)} (h : ∀ x ∈ ls, ∃ r, mcfgPlainSentence rule cw a G empty n m (splitWhite x) = some r) :
    ∃ r, mcfgPlainLines rule cw a G empty n m ls = some r := by
  induction ls with
  | nil => exact ⟨_, rfl⟩
  | cons x ls ih =>
    obtain ⟨r, hr⟩ := h x (by simp)
    obtain ⟨r', hr'⟩ := ih fun x hx => h x (by simp [hx])
    unfold mcfgPlainLines
    rw [hr]
    cases r with
    | none => exact ⟨_, rfl⟩
    | some t => simp only [hr', Option.map_some]; exact ⟨_, rfl⟩

theorem mcfgPlainLines_finishes {ls : List (List Nat)}
    (h : ∀ x ∈ ls, ∃ text m₀, ∀ m ≥ m₀, mcfgPlainSentence rule cw a G empty n m (splitWhite x) = some (some text)) :
    ∃ text m₀, ∀ m ≥ m₀, mcfgPlainLines rule cw a G empty n m ls = some (some text) := by
  induction ls with
  | nil => exact ⟨[], 0, fun _ _ => rfl⟩
  | cons x ls ih =>
    obtain ⟨t, m₁, h1⟩ := h x (by simp)
    obtain ⟨ts, m₂, h2⟩ := ih fun x hx => h x (by simp [hx])
    refine ⟨t ++ [10] ++ ts, max m₁ m₂, fun m hm => ?_⟩
    unfold mcfgPlainLines
    rw [h1 m (le_trans (le_max_left _ _) hm)]
    simp only
    rw [h2 m (le_trans (le_max_right _ _) hm)]
    rfl

theorem mcfgPlainCommand_lines (hgr : GrammarFile stringCodec (PmcfgRuleReads stringCodec stringCodec cw) g.initial g.rules grammar) (ha : TSA.ofPmcfg g = some a) :
    mcfgPlainCommand cw G empty n m grammar corpus = mcfgPlainLines (shownRule cw g) cw a G empty n m (lines corpus) := by
  unfold mcfgPlainCommand
  rw [C65_pmcfg.2 hgr]
  simp only
  rw [ha, Option.bind_some]

/-- What holds for the output of each sentence holds for the output of the command. -/
theorem mcfgPlainCommand_answers (hgr : GrammarFile stringCodec (PmcfgRuleReads stringCodec stringCodec cw) g.initial g.rules grammar) (ha : TSA.ofPmcfg g = some a)
    {ls : List (List Nat)} (hls : LinesOf ls corpus) {R : List (List Nat) → List Nat → Prop}
    (hR : ∀ line ∈ ls, ∀ w, WordsText w line → (∃ r, mcfgPlainSentence (shownRule cw g) cw a G empty n m w = some r) ∧
      ∀ text, mcfgPlainSentence (shownRule cw g) cw a G empty n m w = some (some text) → R w text) :
    ∃ r, mcfgPlainCommand cw G empty n m grammar corpus = some r ∧ ∀ text, r = some text → ∃ answers : List (List Nat),
      List.Forall₂ (fun line answer => ∃ w, WordsText w line ∧ R w answer) ls answers ∧ text = (answers.map fun t => t ++ [10]).flatten := by
  rw [mcfgPlainCommand_lines hgr ha, lines_iff.2 hls]
  obtain ⟨r, hr⟩ := mcfgPlainLines_no_panic (rule := shownRule cw g) (cw := cw) (a := a) (G := G) (empty := empty) (n := n) (m := m) (ls := ls)
    (fun x hx => (hR x hx _ (splitWhite_iff.1 rfl)).1)
  refine ⟨r, hr, ?_⟩
  rintro text rfl
  obtain ⟨answers, h1, rfl⟩ := mcfgPlainLines_some hr
  refine ⟨answers, ?_, rfl⟩
  clear hr hls
  induction h1 with
  | nil => exact .nil
  | @cons line answer ls answers h1 h2 ih =>
    have hw := splitWhite_iff.1 (rfl : splitWhite line = splitWhite line)
    exact .cons ⟨_, hw, (hR line (by simp) _ hw).2 _ h1⟩ (ih fun x hx => hR x (by simp [hx]))

/-- **C79** The command with a beam, or with any other agenda: the lines are answered one after the other, each followed by an empty line, and each answer shows at most `n` ways
to accept the line, none of them twice. There is no panic, also for lines without words. -/
theorem C79_command_sound (hgr : GrammarFile stringCodec (PmcfgRuleReads stringCodec stringCodec cw) g.initial g.rules grammar) (ha : TSA.ofPmcfg g = some a)
    (hk : (g.rules.map PMCFGRule.key).Nodup) (hG : G.Sound content) (hempty : content empty = 0) {ls : List (List Nat)} (hls : LinesOf ls corpus) :
    ∃ r, mcfgPlainCommand cw G empty n m grammar corpus = some r ∧ ∀ text, r = some text → ∃ answers : List (List Nat),
      List.Forall₂ (fun line answer => ∃ w, WordsText w line ∧ ∃ xs, xs.length ≤ n ∧ (∀ x ∈ xs, ShownParse g w x) ∧ (xs.map Prod.fst).Nodup ∧
        ShownTexts (PMCFGRule.text stringCodec stringCodec cw) cw.text xs answer) ls answers ∧ text = (answers.map fun t => t ++ [10]).flatten :=
  mcfgPlainCommand_answers (R := fun w answer => ∃ xs, xs.length ≤ n ∧ (∀ x ∈ xs, ShownParse g w x) ∧ (xs.map Prod.fst).Nodup ∧
      ShownTexts (PMCFGRule.text stringCodec stringCodec cw) cw.text xs answer) hgr ha hls fun _ _ w _ =>
    ⟨C79_no_panic ha hG hempty n m w, fun _ h => by
      obtain ⟨xs, h1, h2, h3, h4⟩ := C79_sentence_sound ha hG hempty h
      exact ⟨xs, h1, h2, h3 hk, shownTexts_congr (fun r hr => shownRule_text hk hr) h2 h4⟩⟩

/-- **C79** The command without a beam: the answer to each line are the `n` best ways to accept it. -/
theorem C79_command_best [LinearOrder W] (hgr : GrammarFile stringCodec (PmcfgRuleReads stringCodec stringCodec cw) g.initial g.rules grammar) (ha : TSA.ofPmcfg g = some a)
    (hk : (g.rules.map PMCFGRule.key).Nodup) (hle : ∀ r ∈ g.rules, ∀ u : W, u * r.weight ≤ u) (hG : HeapLaws G content fun i => i.conf.weight) (hempty : content empty = 0)
    {ls : List (List Nat)} (hls : LinesOf ls corpus) :
    ∃ r, mcfgPlainCommand cw G empty n m grammar corpus = some r ∧ ∀ text, r = some text → ∃ answers : List (List Nat),
      List.Forall₂ (fun line answer => ∃ w, WordsText w line ∧ ∃ xs, TopOf (ShownParse g w) Prod.snd n xs ∧ (xs.map Prod.fst).Nodup ∧
        ShownTexts (PMCFGRule.text stringCodec stringCodec cw) cw.text xs answer) ls answers ∧ text = (answers.map fun t => t ++ [10]).flatten :=
  mcfgPlainCommand_answers (R := fun w answer => ∃ xs, TopOf (ShownParse g w) Prod.snd n xs ∧ (xs.map Prod.fst).Nodup ∧
      ShownTexts (PMCFGRule.text stringCodec stringCodec cw) cw.text xs answer) hgr ha hls fun _ _ w _ =>
    ⟨C79_no_panic ha hG.lossless.sound hempty n m w, fun _ h => by
      obtain ⟨xs, h1, h2, h3⟩ := C79_sentence_best ha hk hle hG hempty h
      exact ⟨xs, h1, h2, shownTexts_congr (fun r hr => shownRule_text hk hr) h1.all h3⟩⟩

/-- **C79** Total correctness: if no component is reached from itself by first visits at the left, and the components that are visited first are not empty, then the command
finishes for each input and prints the `n` best ways to accept each line. -/
theorem C79_command_total [LinearOrder W] (hgr : GrammarFile stringCodec (PmcfgRuleReads stringCodec stringCodec cw) g.initial g.rules grammar) (ha : TSA.ofPmcfg g = some a)
    (hk : (g.rules.map PMCFGRule.key).Nodup) (hle : ∀ r ∈ g.rules, ∀ u : W, u * r.weight ≤ u) (hl : ¬ VisitRecursive cutTrails g.rules)
    (hne : ∀ r j, FirstVisited cutTrails g r j → (cutTrails r.composition)[j]? ≠ some []) (hG : HeapLaws G content fun i => i.conf.weight) (hempty : content empty = 0)
    {ls : List (List Nat)} (hls : LinesOf ls corpus) (n : Nat) :
    ∃ answers : List (List Nat),
      List.Forall₂ (fun line answer => ∃ w, WordsText w line ∧ ∃ xs, TopOf (ShownParse g w) Prod.snd n xs ∧ (xs.map Prod.fst).Nodup ∧
        ShownTexts (PMCFGRule.text stringCodec stringCodec cw) cw.text xs answer) ls answers ∧
      ∃ m₀, ∀ m ≥ m₀, mcfgPlainCommand cw G empty n m grammar corpus = some (some (answers.map fun t => t ++ [10]).flatten) := by
  obtain ⟨text, m₀, hm⟩ := mcfgPlainLines_finishes (rule := shownRule cw g) (cw := cw) (a := a) (G := G) (empty := empty) (n := n) (ls := ls) fun x hx =>
    C79_sentence_ends ha hl hne hG.lossless.sound hempty n _
  have hm' : ∀ m ≥ m₀, mcfgPlainCommand cw G empty n m grammar corpus = some (some text) := by
    intro m hm'
    rw [mcfgPlainCommand_lines hgr ha, lines_iff.2 hls]
    exact hm m hm'
  obtain ⟨r, hr, hcor⟩ := C79_command_best (n := n) (m := m₀) hgr ha hk hle hG hempty hls
  rw [hm' m₀ (le_refl _)] at hr
  obtain ⟨answers, h1, rfl⟩ := hcor text (Option.some.inj hr).symm
  exact ⟨answers, h1, m₀, hm'⟩

/-- **C79** The command panics if and only if the file is not a grammar with an automaton (C28). -/
theorem C79_panic (hG : G.Sound content) (hempty : content empty = 0) : mcfgPlainCommand cw G empty n m grammar corpus = none ↔
    ¬ ∃ g : PMCFG (List Nat) (List Nat) W, GrammarFile stringCodec (PmcfgRuleReads stringCodec stringCodec cw) g.initial g.rules grammar ∧ TSA.ofPmcfg g ≠ none := by
  constructor
  · rintro h ⟨g, hgr, hg⟩
    obtain ⟨a, ha⟩ := Option.ne_none_iff_exists'.1 hg
    rw [mcfgPlainCommand_lines hgr ha] at h
    obtain ⟨r, hr⟩ := mcfgPlainLines_no_panic (rule := shownRule cw g) (cw := cw) (a := a) (G := G) (empty := empty) (n := n) (m := m) (ls := lines corpus)
      fun x _ => C79_no_panic ha hG hempty n m _
    rw [h] at hr
    cases hr
  · intro h
    unfold mcfgPlainCommand
    split
    · rename_i g hg
      rw [C65_pmcfg] at hg
      have : TSA.ofPmcfg g = none := by
        by_contra hc
        exact h ⟨g, hg, hc⟩
      rw [this]
      rfl
    · rfl

end

/-! ### Examples -/

namespace C79Example
open C69Example

/-- The bytes of a text with arrows. -/
def utf (s : String) : List Nat := s.toList.flatMap fun c => if c = '→' then [226, 134, 146] else [c.toNat]

theorem keys : (g.rules.map PMCFGRule.key).Nodup := by decide +kernel

theorem weights : ∀ r ∈ g.rules, ∀ u, u * r.weight ≤ u := fun r hr u => by rw [(by decide +kernel : ∀ r ∈ g.rules, r.weight = 1) r hr, Nat.mul_one]

theorem notVisit : ¬ VisitRecursive cutTrails g.rules := by
  rintro ⟨x, hx⟩
  let rank : PMCFGRule (List Nat) (List Nat) Nat × Nat → Nat := fun x => if x.1.head = S then 2 else if x.1.head = B then 1 else 0
  have h1 : ∀ x y, LeftVisit cutTrails g.rules x y → rank y < rank x := by
    rintro ⟨x, j⟩ ⟨y, j'⟩ ⟨hx, hy, i, c, hc, _, ht⟩
    have hi : i < x.tail.length := (List.getElem?_eq_some_iff.1 ht).1
    have : ∀ x ∈ g.rules, ∀ y ∈ g.rules, ∀ i < x.tail.length, x.tail[i]? = some y.head → rank (y, 0) < rank (x, 0) := by decide +kernel
    exact this x hx y hy i hi ht
  have h2 : ∀ x y, Relation.TransGen (LeftVisit cutTrails g.rules) x y → rank y < rank x := by
    intro x y h
    induction h with
    | single h => exact h1 _ _ h
    | tail _ h ih => exact lt_trans (h1 _ _ h) ih
  exact lt_irrefl _ (h2 x x hx)

theorem visited : ∀ r j, FirstVisited cutTrails g r j → (cutTrails r.composition)[j]? ≠ some [] := by
  rintro r j ⟨hr, _⟩ hj
  have : ∀ r ∈ g.rules, [] ∉ cutTrails r.composition := by decide +kernel
  exact this r hr (List.mem_of_getElem? hj)

end C79Example

open C69Example C79Example in
/-- The command finishes for the grammar of C69, also with lines without words. -/
example (n : Nat) : ∃ answers : List (List Nat), answers.length = 2 ∧ ∃ m₀, ∀ m ≥ m₀,
    mcfgPlainCommand C48Example.num (listHeap fun i => i.conf.weight) [] n m grammar (C65Example.bytes "a b\n\n") = some (some (answers.map fun t => t ++ [10]).flatten) := by
  obtain ⟨a, ha⟩ := hasAutomaton
  obtain ⟨answers, h1, h2⟩ := C79_command_total (ls := [C65Example.bytes "a b", []]) (corpus := C65Example.bytes "a b\n\n") reads ha keys weights notVisit visited
    (listHeap_laws _) rfl (lines_iff.1 (by decide)) n
  exact ⟨answers, h1.length_eq.symm, h2⟩

open C69Example C79Example in
/-- The two ways to accept a sentence, and the run without transitions for a line without words. -/
example : mcfgPlainCommand C48Example.num (listHeap fun i => i.conf.weight) [] 2 30 grammar (C65Example.bytes "a b\n\n") = some (some (utf (
    "Configuration:\nword:[]\nweight:1\n \n*@\n |\n +-0: (\"S\" → [[Var 0 0, Var 1 0]] (\"A\", \"A\")  # 1, 0, 2)\n" ++
    " | |\n | +-0: (\"A\" → [[T \"a\"]] ()  # 1, 0, 0)\n | |\n | +-1: (\"A\" → [[T \"b\"]] ()  # 1, 0, 0)\n\n\n" ++
    "Configuration:\nword:[]\nweight:1\n \n*@\n |\n +-0: (\"S\" → [[Var 0 0, Var 0 1]] (\"B\")  # 1, 0, 2)\n" ++
    " | |\n | +-0: (\"B\" → [[Var 0 0], [Var 1 0]] (\"A\", \"A\")  # 1, 1, 1)\n | | |\n | | +-0: (\"A\" → [[T \"a\"]] ()  # 1, 0, 0)\n" ++
    " | | |\n | | +-1: (\"A\" → [[T \"b\"]] ()  # 1, 0, 0)\n\n\n\nConfiguration:\nword:[]\nweight:1\n \n*I\n\n\n\n"))) := by
  decide +kernel

open C69Example C79Example in
/-- The texts of the rules are different and have no line breaks, so that the drawings determine what they show. -/
example : (∀ r ∈ g.rules, ∀ r' ∈ g.rules, PMCFGRule.text stringCodec stringCodec C48Example.num r = PMCFGRule.text stringCodec stringCodec C48Example.num r' → r = r') ∧
    ∀ r ∈ g.rules, 10 ∉ PMCFGRule.text stringCodec stringCodec C48Example.num r := by
  decide +kernel

/-- There are symbols as in `C79_determines`. -/
example : Function.Injective (PosState.text natText) ∧ ∀ v, 10 ∉ PosState.text natText v := C79_symbols natText (fun _ _ h => natText_inj h) fun _ h => natText_not (by decide) h

end Rustomata.Props
