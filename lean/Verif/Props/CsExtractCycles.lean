import Verif.Proofs.Productive
import Verif.Props.CsExtract
import Verif.Props.CsEnds

/-!
# C88: from grammar files to printed parse trees, for grammars with cycles
-/

namespace Rustomata.Props
open Spec

/-- Each line is answered, and the text that is printed in the end consists of the answers; the number of steps may depend on the number of calls. -/
def AnswersEventually (ans : List (List Nat) → List (List Nat) → Nat → List Nat → Prop) (a : ParseArgs) (ls : List (List Nat)) (run : Nat → Nat → Option (List Nat)) : Prop :=
  ∃ answers : List (List Nat), answers.length = ls.length ∧
    (∀ (i : Nat) line answer, ls[i]? = some line → answers[i]? = some answer → ∃ id ws sentence names, LineOf a.withLines i line id ws ∧
      TagsOf a.withPos ws sentence names ∧ ans sentence names id answer) ∧
    ∃ m₀, ∀ m ≥ m₀, ∃ fuel₀, ∀ fuel ≥ fuel₀, run fuel m = some answers.flatten

/-- **C88** In a grammar whose weights are relative frequencies, if all left-hand sides are productive, then each cycle lowers the weights, and its repetitions vanish. -/
theorem C88_cycles {N T : Type _} [DecidableEq N] {l : List (DiscoDeriv N × List (List Bool) × NNReal)} {lex : List (T × N × NNReal)} {root : N} {g : Lcfrs N T NNReal}
    (h : DescribedBy l lex root g) (hl : ∀ x ∈ l, x.2.2 ≠ 0) (hlex : ∀ x ∈ lex, x.2.2 ≠ 0)
    (hprod : ∀ x ∈ l, Productive l (fun A => ∃ x ∈ lex, x.2.1 = A) x.1.lhs) :
    (∀ A c, ¬ VariablePath logFactorize g.rules A c A c 1) ∧ VariableCyclesLower logFactorize g.rules ∧ VariableCyclesVanish logFactorize g.rules := by
  have key : ∀ A c, ¬ VariablePath logFactorize g.rules A c A c 1 := by
    intro A c hpath
    refine described_cycles h hl hlex (A := A) ?_ c hpath
    have hhead : ∃ r ∈ g.rules, r.head = A := by
      generalize (1 : NNReal) = v at hpath
      cases hpath with
      | one q1 => exact ⟨_, q1, rfl⟩
      | cons q1 => exact ⟨_, q1, rfl⟩
    obtain ⟨r, hr, rfl⟩ := hhead
    obtain ⟨_, R₁, R₂, e, h1, h2⟩ := h
    rw [e] at hr
    rcases List.mem_append.1 hr with hr | hr
    · obtain ⟨x, hx, e1, _⟩ := forall₂_mem_right h1 hr
      rw [e1]
      exact hprod x hx
    · obtain ⟨x, hx, e1, _⟩ := forall₂_mem_right h2 hr
      exact .tag ⟨x, hx, e1.symm⟩
  exact ⟨key, C81_probability_cycles (described_probabilities h hl hlex) key⟩

section
variable {order : Nat → List Nat → List Nat} {cs cd : Codec (List Nat)} {cw : Codec NNReal}
  {lexOrder : DiscoLexer (List Nat) (List Nat) NNReal → DiscoLexer (List Nat) (List Nat) NNReal} {sxlen : Nat}

/-- **C88** `extract` with rules of disco-dop, and `parse` with the result, for grammars with cycles: if all left-hand sides are productive, then each sentence is answered
for which the number of candidates is limited, or which has the demanded number of derivations (without pruning). -/
theorem C88_disco (ho : HashOrder order) (hlo : ∀ l, (lexOrder l).Perm l) {lines : List (List Nat)} {l : List (DiscoDeriv (List Nat) × List (List Bool) × NNReal)}
    (h : List.Forall₂ (fun s y => ConstituentText cd cw y.1 y.2.1 y.2.2 s) lines l) {s : List Nat} (hs : FileText lines s) {root : List Nat}
    (hi : cd.read (ascii ['R', 'O', 'O', 'T']) = some root) (hroot : ∃ x ∈ l, x.1.lhs = root) (hf : SameFanout l (OnlyRight l) root) (hl : ∀ x ∈ l, x.2.2 ≠ 0)
    (hprod : ∀ x ∈ l, Productive l (OnlyRight l) x.1.lhs) (hsx : sxlen ≤ 255) :
    ∃ (lex : DiscoLexer (List Nat) (List Nat) NNReal) (G : Lcfrs (List Nat) (List Nat) NNReal) (R : CsRep (List Nat) (List Nat) NNReal),
      lex.Nodup ∧ (∀ x, x ∈ lex ↔ ∃ A, x = (A, A, 1) ∧ OnlyRight l A) ∧ DescribedBy l lex root G ∧
      FactorsNeZero logFactorize G.rules ∧ VariableCyclesVanish logFactorize G.rules ∧
      extract logFactorize order cs cd cw lexOrder (.disco s) sxlen = some R ∧
      ∀ (o : CsOptions NNReal) (a : ParseArgs) (text : List Nat) (ls : List (List Nat)), 0 < o.beam.getD R.generator.states → o.beam.getD R.generator.states ≤ 65535 →
        LinesOf ls text →
        (∀ i line, ls[i]? = some line → ∃ id ws sentence names, LineOf a.withLines i line id ws ∧ TagsOf a.withPos ws sentence names ∧ sentence.length ≤ 255 ∧
          ((∃ c, o.candidates = some c) ∨
            (o.beam = none ∧ o.delta = 0 ∧ o.candidates = none ∧ AtLeast G.rules G.init sentence (if a.debug then 1 else a.k)))) →
        AnswersEventually (LineAnswerCycles logFactorize G R o a fun A => A) a ls
          fun fuel m => extractParse logFactorize order cs cd cw lexOrder (.disco s) sxlen o a fuel m text := by
  obtain ⟨lex, G, R, h1, h2, hd, hp, hpg, hpre, hnt, hR, hex⟩ := disco_setup (order := order) (cs := cs) hlo h hs hi hroot hf hl hsx
  have htags : ∀ A, Productive l (OnlyRight l) A → Productive l (fun A => ∃ x ∈ lex, x.2.1 = A) A := by
    intro A hA
    induction hA with
    | tag hA => exact .tag ⟨(_, _, 1), (h2 _).2 ⟨_, rfl, hA⟩, rfl⟩
    | rule hx _ ih => exact .rule hx ih
  obtain ⟨_, hlow, hvan⟩ := C88_cycles hd hl (fun x hx => by
    obtain ⟨A, rfl, _⟩ := (h2 x).1 hx
    exact one_ne_zero) fun x hx => htags _ (hprod x hx)
  obtain ⟨hw, h0⟩ := probabilities_factors hp
  refine ⟨lex, G, R, h1, h2, hd, h0, hvan, hex, fun o a text ls hb0 hb hls hform => ?_⟩
  have hrun : (fun fuel m => extractParse logFactorize order cs cd cw lexOrder (.disco s) sxlen o a fuel m text) = fun fuel m => R.parseCommand o a (fun A => A) fuel m text := by
    funext fuel m
    rw [extractParse, hex]
    rfl
  rw [hrun]
  refine C87_command hR ho C67_factorize hpg hw hpre hlow hnt hb0 hb a _ hls fun i line hi => ?_
  obtain ⟨id, ws, sentence, names, k1, k2, k3, k4⟩ := hform i line hi
  refine ⟨id, ws, sentence, names, k1, k2, k3, ?_⟩
  rcases k4 with ⟨c, hc⟩ | ⟨q1, q2, q3, q4⟩
  · exact C87_limit hR ho C67_factorize hpg hw hpre hlow k3 hb0 hb hc _
  · refine C87_enough hR ho C67_factorize hpg hw h0 hpre hlow hvan ?_ k3 q1 q2 q3 q4
    rw [q1] at hb
    exact hb

end

namespace C88Example
open C86Example

/-- `ROOT X 0 1`, `ROOT A 0 1`, `X ROOT 0 1`: the rules for `ROOT` and `X` are a cycle. -/
noncomputable def cyclic : List (DiscoDeriv (List Nat) × List (List Bool) × NNReal) :=
  [(.chain root [88], [[false]], ((1 : Nat) : NNReal)), (.chain root [65], [[false]], ((1 : Nat) : NNReal)), (.chain [88] root, [[false]], ((1 : Nat) : NNReal))]

def cyclicLines : List (List Nat) := [ascii "ROOT X 0 1".toList, ascii "ROOT A 0 1".toList, ascii "X ROOT 0 1".toList]

theorem cyclic_text : List.Forall₂ (fun s y => ConstituentText str num y.1 y.2.1 y.2.2 s) cyclicLines cyclic := by
  have hn : ∀ n s, Digits s → digitsValue s = n → CountText num (n : NNReal) s := fun n s h1 h2 => .number h1 (by rw [← h2]; rfl)
  have ht : ∀ s, Bare s → Token str s s := fun s h => ⟨h, rfl⟩
  exact .cons (.chain (ht root ⟨by decide, by decide⟩) (ht [88] ⟨by decide, by decide⟩) (hn 1 [49] ⟨by decide, by decide⟩ (by decide)) gap gap gap ⟨by decide, by decide⟩)
    (.cons (.chain (ht root ⟨by decide, by decide⟩) (ht [65] ⟨by decide, by decide⟩) (hn 1 [49] ⟨by decide, by decide⟩ (by decide)) gap gap gap ⟨by decide, by decide⟩)
    (.cons (.chain (ht [88] ⟨by decide, by decide⟩) (ht root ⟨by decide, by decide⟩) (hn 1 [49] ⟨by decide, by decide⟩ (by decide)) gap gap gap ⟨by decide, by decide⟩) .nil))

theorem cyclic_fanout : SameFanout cyclic (OnlyRight cyclic) root := by
  refine ⟨fun _ => 1, rfl, fun _ _ => rfl, fun x hx => ?_⟩
  simp only [cyclic, List.mem_cons, List.not_mem_nil, or_false] at hx
  rcases hx with rfl | rfl | rfl <;> exact ⟨by decide, by decide, by decide⟩

theorem cyclic_productive : ∀ x ∈ cyclic, Productive cyclic (OnlyRight cyclic) x.1.lhs := by
  have ht : Productive cyclic (OnlyRight cyclic) [65] := by
    refine .tag ⟨⟨_, List.mem_cons_of_mem _ List.mem_cons_self, by simp [discoRhs]⟩, ?_⟩
    simp [cyclic, DiscoDeriv.lhs, root, ascii]
  have hr : Productive cyclic (OnlyRight cyclic) root :=
    .rule (x := (.chain root [65], [[false]], ((1 : Nat) : NNReal))) (by simp [cyclic]) (by simpa [discoRhs] using ht)
  have hX : Productive cyclic (OnlyRight cyclic) [88] :=
    .rule (x := (.chain [88] root, [[false]], ((1 : Nat) : NNReal))) (by simp [cyclic]) (by simpa [discoRhs] using hr)
  intro x hx
  simp only [cyclic, List.mem_cons, List.not_mem_nil, or_false] at hx
  rcases hx with rfl | rfl | rfl
  · exact hr
  · exact hr
  · exact hX

/-- There is a cycle of components of one bit. -/
theorem cyclic_cycle : ¬ NoBitCycle cyclic := by
  rintro ⟨rank, h⟩
  have h1 := h (.chain root [88], [[false]], ((1 : Nat) : NNReal)) (by simp [cyclic]) 0 false [88] rfl rfl
  have h2 := h (.chain [88] root, [[false]], ((1 : Nat) : NNReal)) (by simp [cyclic]) 0 false root rfl rfl
  simp only [DiscoDeriv.lhs] at h1 h2
  exact absurd (lt_trans h1 h2) (lt_irrefl _)

/-- `ROOT X 0 1`, `X ROOT 0 1`: no nonterminal is productive. -/
noncomputable def unproductive : List (DiscoDeriv Nat × List (List Bool) × NNReal) := [(.chain 0 1, [[false]], 1), (.chain 1 0, [[false]], 1)]

noncomputable def unproductiveGrammar : Lcfrs Nat Nat NNReal := { init := 0, rules := [⟨0, [1], [[.var 0 0]], 1⟩, ⟨1, [0], [[.var 0 0]], 1⟩] }

end C88Example

open C86Example C88Example in
/-- The hypotheses of `C88_disco` can be fulfilled by a grammar with a cycle. -/
example : ∃ R, extract logFactorize (fun _ l => l.dedup) str str num id (.disco ([10].intercalate cyclicLines)) 5 = some R := by
  obtain ⟨_, _, R, _, _, _, _, _, h, _⟩ := C88_disco (cs := str) (order := fun _ l => l.dedup) (lexOrder := id) (sxlen := 5) C54Witness.hashOrder (fun _ => .refl _) cyclic_text
    (Or.inl rfl) (root := root) rfl ⟨_, List.mem_cons_self, rfl⟩ cyclic_fanout (by simp [cyclic]) cyclic_productive (by decide)
  exact ⟨R, h⟩

open C88Example in
/-- **C88** The condition is needed: without productive nonterminals, the relative frequencies may be one on a cycle. -/
theorem C88_unproductive : DescribedBy unproductive ([] : List (Nat × Nat × NNReal)) 0 unproductiveGrammar ∧ (∀ x ∈ unproductive, x.2.2 ≠ 0) ∧
    VariablePath logFactorize unproductiveGrammar.rules 0 0 0 0 1 ∧ ¬ VariableCyclesLower logFactorize unproductiveGrammar.rules := by
  have hf : (logFactorize 1 1)[0]? = some 1 := by
    rw [logFactorize, NNReal.one_rpow]
    rfl
  have hpath : VariablePath logFactorize unproductiveGrammar.rules 0 0 0 0 1 := by
    have h1 : VariablePath logFactorize unproductiveGrammar.rules 0 0 0 0 (1 * 1) :=
      .cons (r := ⟨0, [1], [[.var 0 0]], 1⟩) (i := 0) (j := 0) (B := 1) (by simp [unproductiveGrammar]) rfl rfl hf
        (.one (r := ⟨1, [0], [[.var 0 0]], 1⟩) (i := 0) (by simp [unproductiveGrammar]) rfl rfl hf)
    rwa [one_mul] at h1
  refine ⟨⟨rfl, _, [], (List.append_nil _).symm, ?_, .nil⟩, by simp [unproductive], hpath, fun h => ?_⟩
  · have hy : IsYield (T := Nat) [[false]] [[.var 0 0]] := ⟨.cons (.cons (.fst 0) .nil) .nil, by decide, by decide⟩
    refine .cons ⟨rfl, rfl, hy, ?_⟩ (.cons ⟨rfl, rfl, hy, ?_⟩ .nil) <;> simp [totalCount, unproductive, DiscoDeriv.lhs]
  · have := h 0 0 1 1 hpath one_ne_zero
    rw [one_mul] at this
    exact lt_irrefl _ this

/-- The commands with rational numbers as weights: `ROOT X 0 1`, `ROOT A 0 1`, `X ROOT 0 1`; the two best derivations of `A`. -/
example : extractParse C86Example.factorize (fun _ l => l.dedup) C86Example.str C86Example.str ImportExample.num id
    (.disco (ascii "ROOT X 0 1\nROOT A 0 1\nX ROOT 0 1\n".toList)) 5 .default ⟨2, false, false, false, false⟩ 60 4 (ascii "A".toList) =
    some (ascii "#BOS 0\nA\tA\t--\t--\t0\n#EOS 0\n#BOS 0\nA\tA\t--\t--\t500\n#500\tROOT\t--\t--\t501\n#501\tX\t--\t--\t0\n#EOS 0\n".toList) := by
  decide +kernel

end Rustomata.Props
