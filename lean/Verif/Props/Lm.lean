import Verif.Spec.Lm
import Verif.Props.NGram
import Verif.Props.RulesFile

/-!
# Properties of language model scores (C56)
-/
namespace Verif.Props

open Verif.Spec Verif.Model Verif.Lemmas

/-- A text has one list of tokens. -/
theorem tokensOf_unique {t : List Char} {ws : List (List Char)} (h : TokensOf t ws) :
    ws = splitSpaces t := by
  obtain ⟨h1, h2, rfl⟩ := h
  have none_ : ∀ {s : List Char}, ' ' ∉ s → splitSpaces s = [s] := by
    intro s hs
    induction s with
    | nil => rfl
    | cons c s ih =>
      simp only [List.mem_cons, not_or] at hs
      rw [splitSpaces, if_neg (fun e => hs.1 e.symm), ih hs.2]
  have sep_ : ∀ {s t : List Char}, ' ' ∉ s → splitSpaces (s ++ ' ' :: t) = s :: splitSpaces t := by
    intro s t hs
    induction s with
    | nil => rw [List.nil_append, splitSpaces, if_pos rfl]
    | cons c s ih =>
      simp only [List.mem_cons, not_or] at hs
      rw [List.cons_append, splitSpaces, if_neg (fun e => hs.1 e.symm), ih hs.2]
  induction ws with
  | nil => exact absurd rfl h1
  | cons w ws ih =>
    cases ws with
    | nil => simpa [List.intercalate] using (none_ (h2 w (by simp))).symm
    | cons v ws =>
      rw [intercalate_cons_cons, sep_ (h2 w (by simp)), ← ih (by simp) fun u hu => h2 u (by simp [hu])]

theorem drain_toVec (g : NGram) : drain 6 g = g.toVec.map some := by
  cases g <;> rfl

theorem itemTokens_ok {m : Vm} (hinv : Inv m) (hs : ∀ v ∈ m.decoder, spaces v.text < 255) {id : Nat}
    (hid : id < m.decoder.length) : ∃ l, m.itemTokens id = .ok l ∧ ItemTokens m id l := by
  have hv := List.getElem?_eq_getElem hid
  have h := intoNgram_eq hinv hv (hs _ (List.getElem_mem hid)) none
  unfold Vm.itemTokens
  rw [h]
  refine ⟨_, ?_, m.decoder[id], splitSpaces m.decoder[id].text, hv, splitSpaces_isTokens _, rfl⟩
  have hl : (splitSpaces m.decoder[id].text).length = (tokenIds m m.decoder[id]).length := by
    simp [tokenIds]
  rw [hl]
  cases hg : NGram.fromList (tokenIds m m.decoder[id]) with
  | none =>
    have := fromList_none.mp hg
    simp only [bind, Except.bind, pure, Except.pure]
    rw [if_neg (by omega)]
  | some g =>
    have h5 : ¬ 5 < (tokenIds m m.decoder[id]).length := by
      intro h5; rw [fromList_none.mpr h5] at hg; cases hg
    simp only [bind, Except.bind, pure, Except.pure]
    rw [if_pos (by omega), drain_toVec, fromList_some hg]
    simp [tokenIds, UNK]

theorem boundaryTokens_ok {m : Vm} (hinv : Inv m) (hs : ∀ v ∈ m.decoder, spaces v.text < 255)
    (isSpace : Char → Bool) (text : List Char) :
    ∃ l, m.boundaryTokens isSpace text = .ok l ∧ BoundaryTokens m isSpace text l := by
  obtain ⟨a, s, b, h1, h2, h3, h4, h5⟩ : ∃ a s b, text = a ++ s ++ b ∧ Blank isSpace a ∧
      Blank isSpace b ∧ Trimmed isSpace s ∧ s = trim isSpace text := by
    refine ⟨text.takeWhile isSpace, trim isSpace text,
      ((text.dropWhile isSpace).reverse.takeWhile isSpace).reverse, ?_, ?_, ?_, ⟨?_, ?_⟩, rfl⟩
    · unfold trim
      rw [List.append_assoc, ← List.reverse_append, List.takeWhile_append_dropWhile,
        List.reverse_reverse, List.takeWhile_append_dropWhile]
    · intro c hc
      exact List.mem_takeWhile_imp hc
    · intro c hc
      exact List.mem_takeWhile_imp (List.mem_reverse.mp hc)
    · intro c hc
      have hpre : trim isSpace text <+: text.dropWhile isSpace := by
        unfold trim
        have := List.dropWhile_suffix isSpace (l := (text.dropWhile isSpace).reverse)
        have := List.reverse_prefix.mpr this
        rwa [List.reverse_reverse] at this
      have hc' : (text.dropWhile isSpace).head? = some c := by
        obtain ⟨t, ht⟩ := hpre
        rw [← ht, List.head?_append, hc]
        rfl
      have := List.head?_dropWhile_not isSpace text
      rw [hc'] at this
      simpa using this
    · intro c hc
      unfold trim at hc
      rw [List.getLast?_reverse] at hc
      have := List.head?_dropWhile_not isSpace (text.dropWhile isSpace).reverse
      rw [hc] at this
      simpa using this
  unfold Vm.boundaryTokens
  by_cases ht : trim isSpace text = []
  · refine ⟨[], by rw [if_neg (by simpa using ht)]; rfl, .inl ⟨?_, rfl⟩⟩
    rw [h1, h5, ht, List.append_nil]
    intro c hc
    rcases List.mem_append.mp hc with hc | hc
    · exact h2 c hc
    · exact h3 c hc
  · rw [if_pos ht]
    cases he : m.encoder.get? (trim isSpace text) with
    | none =>
      refine ⟨[none], rfl, .inr ⟨a, s, b, h1, h2, h3, h4, by rw [h5]; exact ht, .inl ⟨by rw [h5]; exact he, rfl⟩⟩⟩
    | some id =>
      have hid : id < m.decoder.length := by
        have := (hinv.bij _ _).mp he
        unfold textAt at this
        obtain ⟨v, hv, _⟩ := Option.map_eq_some_iff.mp this
        exact (List.getElem?_eq_some_iff.mp hv).1
      obtain ⟨l, l1, l2⟩ := itemTokens_ok hinv hs hid
      exact ⟨l, l1, .inr ⟨a, s, b, h1, h2, h3, h4, by rw [h5]; exact ht, .inr ⟨id, by rw [h5]; exact he, l2⟩⟩⟩

theorem symbolTokens_ok {m : Vm} (hinv : Inv m) (hs : ∀ v ∈ m.decoder, spaces v.text < 255)
    (isSpace : Char → Bool) (boundaries : List Match) (syms : List OutputSymbol)
    (hid : ∀ o ∈ syms, o.vocabId < m.decoder.length)
    (hb : ∀ o ∈ syms, o.boundaryIndex < boundaries.length) :
    ∃ parts : List (List (Option Nat) × List (Option Nat)),
      m.symbolTokens isSpace boundaries syms = .ok (parts.map fun p => p.1 ++ p.2).flatten ∧
      List.Forall₂ (fun o p => SymbolTokens m o p.1 ∧ ∃ b, boundaries[o.boundaryIndex]? = some b ∧
        BoundaryTokens m isSpace b.text p.2) syms parts := by
  induction syms with
  | nil => exact ⟨[], rfl, .nil⟩
  | cons o os ih =>
    obtain ⟨parts, h1, h2⟩ := ih (fun o ho => hid o (by simp [ho])) fun o ho => hb o (by simp [ho])
    have hbo := List.getElem?_eq_getElem (hb o (by simp))
    obtain ⟨l2, e2, b2⟩ := boundaryTokens_ok hinv hs isSpace (boundaries[o.boundaryIndex]'(hb o (by simp))).text
    obtain ⟨l1, e1, b1⟩ : ∃ l, m.wordTokens o = .ok l ∧ SymbolTokens m o l := by
      unfold Vm.wordTokens
      by_cases h0 : o.vocabId = 0
      · exact ⟨[none], by rw [if_pos h0]; rfl, .inl ⟨h0, rfl⟩⟩
      · obtain ⟨l, h3, h4⟩ := itemTokens_ok hinv hs (hid o (by simp))
        exact ⟨l, by rw [if_neg h0, h3], .inr ⟨h0, h4⟩⟩
    refine ⟨(l1, l2) :: parts, ?_, .cons ⟨b1, _, hbo, b2⟩ h2⟩
    rw [Vm.symbolTokens, hbo]
    simp only [e1, e2, h1, bind, Except.bind, pure, Except.pure, List.map_cons, List.flatten_cons, List.append_assoc]

theorem transitionScore_eq (m : Vm) (x : TextExt) (a b : Option Nat) :
    m.transitionScore x a b =
      transition (fun l => (NGram.fromList l).bind m.ngrams.get?) x a b := by
  cases a with
  | none => cases b <;> rfl
  | some a =>
    cases b with
    | none => rfl
    | some b =>
      simp only [Vm.transitionScore, transition, NGram.fromOptionList, NGram.fromList,
        Option.bind_some]
      cases m.ngrams.get? (.bi a b) with
      | none => rfl
      | some j =>
        simp only
        split
        · next h => exact (if_neg (Nat.not_le.mpr h)).symm
        · next h => exact (if_pos (Nat.not_lt.mp h)).symm

theorem lmTokensLoop_eq (m : Vm) (x : TextExt) (tokens : List (Option Nat)) : ∀ (lp : EFloat) (n : Nat),
    m.lmTokensLoop x tokens lp n =
      ((List.zipWith (m.transitionScore x) tokens tokens.tail).foldl (fun s t => s.add x.f32 t) lp,
        n + (tokens.length - 1)) := by
  induction tokens with
  | nil => intro lp n; rfl
  | cons a rest ih =>
    intro lp n
    cases rest with
    | nil => rfl
    | cons b rest =>
      rw [Vm.lmTokensLoop, ih]
      simp only [List.tail_cons, List.zipWith_cons_cons, List.foldl_cons, List.length_cons, Prod.mk.injEq,
        true_and]
      omega

/-- **C56**: the tokens are the begin marker, those of the output symbols, each followed by those of its
boundary, and the end marker; the log-probability is the sum over all adjacent pairs, and the perplexity
divides it by their number. -/
theorem lm_score_exact_partial (alphabet : Alphabet) (ops : List Op) (m : Vm) (x : TextExt)
    (h : (Vm.new alphabet).run ops = .ok m)
    (hs : ∀ v ∈ m.decoder, ∀ ws, TokensOf v.text ws → ws.length ≤ 255)
    (syms : List OutputSymbol) (boundaries : List Match)
    (hid : ∀ o ∈ syms, o.vocabId < m.decoder.length)
    (hb : ∀ o ∈ syms, o.boundaryIndex < boundaries.length) :
    ∃ (parts : List (List (Option Nat) × List (Option Nat))) (tokens : List (Option Nat))
      (logprob : EFloat),
      List.Forall₂ (fun o p => SymbolTokens m o p.1 ∧ ∃ b, boundaries[o.boundaryIndex]? = some b ∧
        BoundaryTokens m x.isSpace b.text p.2) syms parts ∧
      tokens = [some 0] ++ (parts.map fun p => p.1 ++ p.2).flatten ++ [some 1] ∧
      logprob = (List.zipWith (transition (fun l => (NGram.fromList l).bind m.ngrams.get?) x) tokens
        tokens.tail).foldl (fun s t => s.add x.f32 t) (.fin 0) ∧
      m.lmScore x syms boundaries =
        .ok (logprob, logprob.scale x.f64 (x.f64.rnd (-1 / ((tokens.length - 1 : Nat) : Rat)))) := by
  have hinv := (inv_run (inv_new alphabet) h).1
  have hs' : ∀ v ∈ m.decoder, spaces v.text < 255 := by
    intro v hv
    have := hs v hv _ (splitSpaces_isTokens v.text)
    rw [splitSpaces_length] at this
    omega
  obtain ⟨parts, h1, h2⟩ := symbolTokens_ok hinv hs' x.isSpace boundaries syms hid hb
  refine ⟨parts, _, _, h2, rfl, rfl, ?_⟩
  unfold Vm.lmScore
  rw [h1]
  simp only [bind, Except.bind]
  unfold Vm.lmScoreTokens
  rw [if_neg (by simp), lmTokensLoop_eq]
  simp only
  rw [if_neg (by simp)]
  have ht : m.transitionScore x = transition (fun l => (NGram.fromList l).bind m.ngrams.get?) x := by
    funext a b
    exact transitionScore_eq m x a b
  rw [ht, Nat.zero_add]
  rfl

/-- After the first build, the counts of tokens and pairs in `lm_score_exact_partial` are the total
frequencies of the language model entries with these tokens. -/
theorem lm_counts (alphabet : Alphabet) (ops : List Op) (m0 m : Vm) (o : Orders)
    (h : (Vm.new alphabet).run ops = .ok m0) (hn : NoBuild ops) (hb : m0.build o = .ok m)
    (hs : ∀ v ∈ m0.decoder, (splitSpaces v.text).length ≤ 255) (l : List Nat) (hl : l.length ≤ 5) :
    ((NGram.fromList l).bind m.ngrams.get?).getD 0 =
      ((lmEntries m0 l).map VocabValue.frequency).sum := by
  obtain ⟨g, hg, rfl⟩ := (ngram_fromList l).1 hl
  rw [hg]
  exact ngram_counts_exact alphabet ops m0 m o h hn hb hs g

/-- A model with a bigram `a b`, counted 2, and `a`, counted 3; the words `c` and `a b` are entries, too. -/
def scored : Vm := (((Vm.new exAlphabet).run
  [.add ['a'] (some 3) { vocabType := .LM }, .add ['b'] (some 1) { vocabType := .LM },
   .add ['a', ' ', 'b'] (some 2) { vocabType := .LM }, .build exOrders]).toOption.getD (Vm.new []))

/-- The tokens are `<bos> a b - <eos>`, where `-` is unknown. -/
example : (Vm.new exAlphabet).run
    [.add ['a'] (some 3) { vocabType := .LM }, .add ['b'] (some 1) { vocabType := .LM },
     .add ['a', ' ', 'b'] (some 2) { vocabType := .LM }, .build exOrders] = .ok scored ∧
    (∀ v ∈ scored.decoder, (splitSpaces v.text).length ≤ 255) ∧
    scored.symbolTokens (· == ' ') [{ text := " - ".toList, first := 0, last := 3 }] [⟨5, 0, none, 0, 0⟩] = .ok [some 3, some 4, none] ∧
    scored.transitionScore exText (some 3) (some 4) = .fin (exText.ln32 (exText.f32.rnd (2/3))) := by
  refine ⟨rfl, by decide +kernel, rfl, ?_⟩
  decide +kernel

/-- A pair that was counted more often than its first token is scored by its count, as if that were a
probability. -/
theorem overcounted_transition {count : List Nat → Option Nat} {x : TextExt} {a b joint : Nat}
    (h : count [a, b] = some joint) (hp : (count [a]).getD 1 < joint) (hx : x.f32.rnd joint = joint) :
    transition count x (some a) (some b) = .fin (x.ln32 joint) := by
  have : (0 : Rat) < joint := by exact_mod_cast Nat.lt_of_le_of_lt (Nat.zero_le _) hp
  simp only [transition, h]
  rw [if_neg (by omega), hx]
  simp [EFloat.log, this]

/-- The bigram is known, but not its first word. -/
example : let count : List Nat → Option Nat := fun l => if l = [3, 4] then some 2 else none
    count [3, 4] = some 2 ∧ (count [3]).getD 1 < 2 ∧ exText.f32.rnd (2 : Nat) = (2 : Nat) := by
  refine ⟨rfl, by decide, by decide +kernel⟩

end Verif.Props
