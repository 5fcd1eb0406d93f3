import Verif.Props.WeighedFiles

/-!
# C108: the language model of the files as the program applies it
-/
namespace Verif.Props

open Verif.Model Verif.Spec Verif.Lemmas

/-- An output symbol stands for a stretch: with the entry of the suggestion chosen (0 if there is none), and with the
boundary that follows. -/
def SymbolPart (boundaries : List Match) (o : OutputSymbol) (a : Part VariantResult) : Prop :=
  (∃ b, boundaries[o.boundaryIndex]? = some b ∧ a.sep = b.text) ∧
    ((∃ c, a.choice = some c ∧ o.vocabId = c.2.vocabId) ∨ (a.choice = none ∧ o.vocabId = 0))

theorem loaded_tokens {x : LoadExt} {args : LoadArgs} {o : Orders} {L : Loaded}
    (h : x.load args o = .ok L) (hcount : (sourcesOf args).length ≤ 256)
    {as : List Additions} (has : AddsAll x 0 (sourcesOf args) as)
    (hshort : ∀ a ∈ as.flatten, ∀ us, TokensOf a.1 us → us.length ≤ 255) :
    ∀ v ∈ L.vm.decoder, ∀ ws, TokensOf v.text ws → ws.length ≤ 255 := by
  intro v hv ws hws
  rcases (loaded_has h hcount has v.text).1.mpr ⟨v, hv, rfl⟩ with hr | ⟨a, ha, e⟩
  · have := tokensOf_unique hws
    subst this
    rcases hr with e | e | e <;> rw [e] <;> decide
  · rw [← e] at hws; exact hshort a ha ws hws

/-- **C108**: what the program computes for a sequence of output symbols, with the model that was loaded, is the
perplexity that the files give to the reading. -/
theorem loaded_lm_run {x : LoadExt} {args : LoadArgs} {o : Orders} {L : Loaded}
    (h : x.load args o = .ok L) (hcount : (sourcesOf args).length ≤ 256)
    {as : List Additions} (has : AddsAll x 0 (sourcesOf args) as)
    (hshort : ∀ a ∈ as.flatten, ∀ us, TokensOf a.1 us → us.length ≤ 255) (y : TextExt)
    {syms : List OutputSymbol} {bs : List Match} {l : List (Part VariantResult)} {l' : List (Part Suggestion)}
    (hs : List.Forall₂ (SymbolPart bs) syms l) (hl : List.Forall₂ (SamePart L.vm) l l') :
    ∃ logprob perplexity, L.vm.lmScore y syms bs = .ok (logprob, perplexity) ∧
      WordsPerplexity as.flatten y l' perplexity := by
  obtain ⟨_, ops, _, _, _, _, hrun, _⟩ := loaded_history h
  have hinv := loaded_inv h
  have hid : ∀ s ∈ syms, s.vocabId < L.vm.decoder.length := by
    intro s hs'
    obtain ⟨a, ha, _, hc⟩ := mem_of_forall₂_left hs hs'
    obtain ⟨b, _, hab⟩ := mem_of_forall₂_left hl ha
    rcases hc with ⟨c, c1, c2⟩ | ⟨_, c2⟩
    · rcases hab.choice with ⟨e1, _⟩ | ⟨i, v, u, e1, _, e3⟩
      · rw [c1] at e1; cases e1
      · rw [c1] at e1
        cases e1
        obtain ⟨w, hw, _⟩ := e3.word
        rw [c2]
        exact (List.getElem?_eq_some_iff.mp hw).1
    · have h0 := hinv.bos
      rw [c2]
      unfold textAt at h0
      obtain ⟨w, hw, _⟩ := Option.map_eq_some_iff.mp h0
      exact (List.getElem?_eq_some_iff.mp hw).1
  have hb : ∀ s ∈ syms, s.boundaryIndex < bs.length := by
    intro s hs'
    obtain ⟨a, _, ⟨b, h1, _⟩, _⟩ := mem_of_forall₂_left hs hs'
    exact (List.getElem?_eq_some_iff.mp h1).1
  obtain ⟨parts, tokens, logprob, h1, h2, h3, h4⟩ := lm_score_exact_partial _ _ L.vm y hrun
    (loaded_tokens h hcount has hshort) syms bs hid hb
  refine ⟨_, _, h4, (loaded_computed h hcount has hshort hl).mp ⟨parts.map fun p => p.1 ++ p.2, tokens, ?_, by
    rw [h2]; rfl, by rw [h3, minusMean, List.length_zipWith, List.length_tail, min_eq_right (Nat.sub_le _ _)]⟩⟩
  clear h2 h4 h3 hid hb hl
  induction hs generalizing parts with
  | nil => cases h1; exact .nil
  | @cons s a ss l h5 _ ih =>
    cases h1 with
    | @cons _ p _ ps h6 h7 =>
      refine .cons ?_ (ih _ h7)
      obtain ⟨h7, b, h8, h9⟩ := h6
      obtain ⟨⟨b', hb', hsep⟩, hc⟩ := h5
      rw [h8] at hb'
      cases hb'
      refine ⟨p.1, p.2, rfl, by rw [hsep]; exact h9, ?_⟩
      rcases hc with ⟨c, c1, c2⟩ | ⟨c1, c2⟩
      · rcases h7 with ⟨d1, d2⟩ | ⟨d1, d2⟩
        · left
          refine ⟨?_, d2⟩
          intro v hv
          rw [c1] at hv
          cases hv
          rw [← c2, d1]
        · exact .inr ⟨c, c1, by rw [← c2]; exact d1, by rw [← c2]; exact d2⟩
      · rcases h7 with ⟨d1, d2⟩ | ⟨d1, d2⟩
        · left
          refine ⟨?_, d2⟩
          intro v hv
          rw [c1] at hv
          cases hv
        · exact absurd c2 d1

/-- The reading of `ab b` with both words as they are. -/
example : ∃ logprob perplexity, exLoadedC.vm.lmScore exText
      [⟨3, 0, some 0, 0, 1⟩, ⟨4, 1, some 0, 1, 2⟩] [{ text := " ".toList, first := 2, last := 3 },
        { text := [], first := 4, last := 4 }] = .ok (logprob, perplexity) ∧
    WordsPerplexity exAddedC.flatten exText
      [⟨0, "ab".toList, some (0, ⟨"ab".toList, 1, 1, none⟩), " ".toList⟩,
        ⟨3, "b".toList, some (0, ⟨"b".toList, 1, 1, none⟩), []⟩] perplexity :=
  loaded_lm_run exLoadedC_ok (by decide) exAddsC exShortC exText
    (l := [⟨0, "ab".toList, some (0, ⟨3, 1, 1, none⟩), " ".toList⟩, ⟨3, "b".toList, some (0, ⟨4, 1, 1, none⟩), []⟩])
    (.cons ⟨⟨_, rfl, rfl⟩, .inl ⟨_, rfl, rfl⟩⟩ (.cons ⟨⟨_, rfl, rfl⟩, .inl ⟨_, rfl, rfl⟩⟩ .nil))
    (.cons ⟨rfl, rfl, rfl, .inr ⟨0, _, _, rfl, rfl, ⟨⟨_, rfl, rfl⟩, rfl, rfl, .inl ⟨rfl, rfl⟩⟩⟩⟩
      (.cons ⟨rfl, rfl, rfl, .inr ⟨0, _, _, rfl, rfl, ⟨⟨_, rfl, rfl⟩, rfl, rfl, .inl ⟨rfl, rfl⟩⟩⟩⟩ .nil))

end Verif.Props
