import Verif.Lemmas.Lm
import Verif.Props.Index

/-!
# Properties of n-grams and of the language model counts (C54, C55)
-/
namespace Verif.Props

open Verif.Spec Verif.Model Verif.Lemmas

/-! ## C54 -/

/-- **C54**: `from_list` accepts exactly the lists of at most five ids, and `to_vec` gives the list
back. -/
theorem ngram_fromList (l : List Nat) :
    (l.length ≤ 5 → ∃ g, NGram.fromList l = some g ∧ g.toVec = l) ∧
    (5 < l.length → NGram.fromList l = none) := by
  refine ⟨fun h => ?_, fun h => fromList_none.mpr h⟩
  cases hg : NGram.fromList l with
  | none => have := fromList_none.mp hg; omega
  | some g => exact ⟨g, rfl, fromList_some hg⟩

example : ([7, 8, 9] : List Nat).length ≤ 5 := by decide

/-- **C54**: the n-gram is determined by its list, which has `len` elements, at most five. -/
theorem ngram_toVec (g g' : NGram) :
    NGram.fromList g.toVec = some g ∧ g.toVec.length = g.len ∧ g.len ≤ 5 ∧
    (g.toVec = g'.toVec → g = g') := by
  refine ⟨fromList_toVec g, toVec_length g, by cases g <;> simp [NGram.len], ?_⟩
  intro h
  have h1 := fromList_toVec g
  rw [h, fromList_toVec] at h1
  cases h1; rfl

/-- **C54**: `from_option_list` succeeds exactly on at most five present ids. -/
theorem ngram_fromOptionList (l : List (Option Nat)) (g : NGram) :
    NGram.fromOptionList l = some g ↔ l = g.toVec.map some := by
  constructor
  · intro h
    unfold NGram.fromOptionList at h
    split at h <;> first | (cases h; rfl) | cases h
  · rintro rfl
    cases g <;> rfl

example : NGram.fromOptionList [some 1, some 2] = some (.bi 1 2) := rfl
example : NGram.fromOptionList [some 1, none] = none := rfl

/-- **C54**: `push` appends if there is room, and otherwise changes nothing and returns false. -/
theorem ngram_push (g : NGram) (x : Nat) :
    (g.len < 5 → (g.push x).2 = true ∧ (g.push x).1.toVec = g.toVec ++ [x]) ∧
    (5 ≤ g.len → g.push x = (g, false)) := by
  cases g <;> simp [NGram.push, NGram.toVec, NGram.len]

example : (NGram.quad 1 2 3 4).len < 5 ∧ 5 ≤ (NGram.quint 1 2 3 4 5).len := by decide

/-- **C54**: `first`, `pop_first`, `pop_last` are head, tail, and last element. -/
theorem ngram_first_pop (g : NGram) :
    g.first = g.toVec.head? ∧
    g.popFirst.1.toVec = g.toVec.tail ∧ g.popFirst.2.toVec = g.toVec.take 1 ∧
    g.popLast.1.toVec = g.toVec.dropLast ∧ g.popLast.2.toVec = g.toVec.getLast?.toList := by
  cases g <;> simp [NGram.first, NGram.popFirst, NGram.popLast, NGram.toVec]

/-- an operation on an n-gram -/
inductive NgOp where
  | push (x : Nat) | popFirst | popLast

/-- the operation on n-grams -/
def NgOp.onNgram (g : NGram) : NgOp → NGram
  | .push x => (g.push x).1
  | .popFirst => g.popFirst.1
  | .popLast => g.popLast.1

/-- the operation on lists with room for five -/
def NgOp.onList (l : List Nat) : NgOp → List Nat
  | .push x => if l.length < 5 then l ++ [x] else l
  | .popFirst => l.tail
  | .popLast => l.dropLast

/-- **C54**: after any sequence of operations the n-gram is the list with room for five. -/
theorem ngram_refines_list (ops : List NgOp) (g : NGram) :
    (ops.foldl NgOp.onNgram g).toVec = ops.foldl NgOp.onList g.toVec := by
  induction ops generalizing g with
  | nil => rfl
  | cons op ops ih =>
    rw [List.foldl_cons, List.foldl_cons, ih]
    congr 1
    cases op with
    | push x =>
      simp only [NgOp.onNgram, NgOp.onList, toVec_length]
      split
      · next h => exact ((ngram_push g x).1 h).2
      · next h => rw [(ngram_push g x).2 (by omega)]
    | popFirst => exact (ngram_first_pop g).2.1
    | popLast => exact (ngram_first_pop g).2.2.2.1

/-! ## C55 -/

/-- `ws` are the tokens of `t`: free of spaces, and joined by single spaces they give `t`. -/
def IsTokens (t : List Char) (ws : List (List Char)) : Prop :=
  ws ≠ [] ∧ (∀ w ∈ ws, ' ' ∉ w) ∧ [' '].intercalate ws = t

theorem intercalate_cons_cons (w v : List Char) (ws : List (List Char)) :
    [' '].intercalate (w :: v :: ws) = w ++ ' ' :: [' '].intercalate (v :: ws) := by
  simp [List.intercalate]

/-- The model's splitting at spaces gives the tokens. -/
theorem splitSpaces_isTokens (t : List Char) : IsTokens t (splitSpaces t) := by
  refine ⟨splitSpaces_ne_nil t, ?_⟩
  induction t with
  | nil => simp [splitSpaces, List.intercalate]
  | cons c t ih =>
    simp only [splitSpaces]
    have hne := splitSpaces_ne_nil t
    obtain ⟨h1, h2⟩ := ih
    cases hs : splitSpaces t with
    | nil => exact absurd hs hne
    | cons w ws =>
      rw [hs] at h1 h2
      split
      · next hc =>
        refine ⟨fun v hv => ?_, ?_⟩
        · rcases List.mem_cons.mp hv with rfl | hv
          · simp
          · exact h1 v hv
        · rw [intercalate_cons_cons, h2, hc]; rfl
      · next hc =>
        refine ⟨fun v hv => ?_, ?_⟩
        · rcases List.mem_cons.mp hv with rfl | hv
          · simp only [List.mem_cons, not_or]
            exact ⟨fun e => hc e.symm, h1 w (by simp)⟩
          · exact h1 v (by simp [hv])
        · cases ws with
          | nil => simpa [List.intercalate] using h2
          | cons v ws =>
            rw [intercalate_cons_cons] at h2 ⊢
            rw [← h2]; rfl

/-- The id of a token: that of the entry, or the unknown marker. -/
def tokenId (m : Vm) (w : List Char) : Nat := (m.encoder.get? w).getD 2

/-- the entries of the language model whose tokens have the given ids -/
def lmEntries (m : Vm) (ids : List Nat) : List VocabValue :=
  m.decoder.filter fun v => v.vocabtype.check .LM && decide ((splitSpaces v.text).map (tokenId m) = ids)

/-- the entries of the language model of `n` tokens -/
def lmEntriesOfLength (m : Vm) (n : Nat) : List VocabValue :=
  m.decoder.filter fun v => v.vocabtype.check .LM && decide ((splitSpaces v.text).length = n)

theorem sum_map_ite (l : List VocabValue) (p : VocabValue → Bool) (f : VocabValue → Nat) :
    (l.map fun v => if p v = true then f v else 0).sum = ((l.filter p).map f).sum := by
  induction l with
  | nil => rfl
  | cons v l ih =>
    simp only [List.map_cons, List.sum_cons, ih, List.filter_cons]
    split <;> simp

/-- Histories without any build. -/
def NoBuild (ops : List Op) : Prop :=
  ∀ op ∈ ops, match op with
    | .build _ => False
    | .learn _ autoBuild _ => autoBuild = false
    | _ => True

theorem step_noBuild {m m' : Vm} {op : Op} (hn : match op with
    | .build _ => False
    | .learn _ autoBuild _ => autoBuild = false
    | _ => True) (h : m.step op = .ok m') : m'.ngrams = m.ngrams ∧ m'.freqSum = m.freqSum := by
  have hadd : ∀ {m m' : Vm} {t f p id}, m.addToVocabulary t f p = .ok (m', id) →
      m'.ngrams = m.ngrams ∧ m'.freqSum = m.freqSum := by
    intro m m' t f p id h
    rcases add_cases h with ⟨_, _, _, _, _, _, rfl⟩ | ⟨_, _, _, _, _, _, rfl⟩ <;> exact ⟨rfl, rfl⟩
  have hby : ∀ (m : Vm) r v s, (m.addVariantById r v s).1.ngrams = m.ngrams ∧
      (m.addVariantById r v s).1.freqSum = m.freqSum := by
    intro m r v s
    rw [(addVariantById_core m r v s).1]; exact ⟨rfl, rfl⟩
  cases op with
  | add text f p =>
    simp only [Vm.step, bind_ok, pure_ok] at h
    obtain ⟨⟨m1, id⟩, h1, rfl⟩ := h
    exact hadd h1
  | addVariant r text s f p =>
    simp only [Vm.step, Vm.addVariant, bind_ok, pure_ok] at h
    obtain ⟨⟨m1, b⟩, ⟨⟨m2, id⟩, h1, h2⟩, rfl⟩ := h
    have : m1 = (m2.addVariantById r id s).1 := by rw [h2]
    subst this
    rw [(hby _ _ _ _).1, (hby _ _ _ _).2]
    exact hadd h1
  | addVariantById r v s =>
    simp only [Vm.step, Except.ok.injEq] at h
    subst h
    exact hby _ _ _ _
  | build o => exact hn.elim
  | learn fs ab o =>
    simp only at hn
    subst hn
    simp only [Vm.step, Vm.learnVariants, bind_ok, pure_ok] at h
    obtain ⟨⟨m1, c⟩, ⟨⟨m2, c2⟩, h1, h2⟩, rfl⟩ := h
    simp only [Bool.false_eq_true, if_false, Prod.mk.injEq] at h2
    obtain ⟨rfl, _⟩ := h2
    clear o
    have hloop : ∀ (fs : List Finding) (m m' : Vm) prev c c', m.learnLoop fs prev c = .ok (m', c') →
        m'.ngrams = m.ngrams ∧ m'.freqSum = m.freqSum := by
      intro fs
      induction fs with
      | nil => intro m m' prev c c' h; cases h; exact ⟨rfl, rfl⟩
      | cons f fs ih =>
        intro m m' prev c c' h
        simp only [Vm.learnLoop, bind_ok] at h
        obtain ⟨⟨m1, id⟩, h1, h2⟩ := h
        have e1 : m1.ngrams = m.ngrams ∧ m1.freqSum = m.freqSum := by
          unfold Vm.learnId at h1
          split at h1
          · split at h1
            · cases h1
            · split at h1
              · split at h1
                · cases h1
                · cases h1; exact ⟨rfl, rfl⟩
              · cases h1; exact ⟨rfl, rfl⟩
          · exact hadd h1
        simp only at h2
        split at h2
        · obtain ⟨a, b⟩ := ih _ _ _ _ _ h2
          rw [a, b, (hby _ _ _ _).1, (hby _ _ _ _).2]; exact e1
        · obtain ⟨a, b⟩ := ih _ _ _ _ _ h2
          rw [a, b]; exact e1
    exact hloop _ _ _ _ _ _ h1
  | freq => cases h; exact ⟨rfl, rfl⟩
  | lexicon n => cases h; exact ⟨rfl, rfl⟩

theorem run_noBuild {m m' : Vm} {ops : List Op} (hn : NoBuild ops) (h : m.run ops = .ok m') :
    m'.ngrams = m.ngrams ∧ m'.freqSum = m.freqSum := by
  induction ops generalizing m with
  | nil => cases h; exact ⟨rfl, rfl⟩
  | cons op ops ih =>
    simp only [Vm.run, bind_ok] at h
    obtain ⟨m1, h1, h2⟩ := h
    obtain ⟨a, b⟩ := ih (fun x hx => hn x (by simp [hx])) h2
    obtain ⟨c, d⟩ := step_noBuild (hn op (by simp)) h1
    exact ⟨a.trans c, b.trans d⟩

/-- **C55**: after the first build, the count of an n-gram is the total frequency of the language
model entries whose tokens form it. -/
theorem ngram_counts_exact (alphabet : Alphabet) (ops : List Op) (m0 m : Vm) (o : Orders)
    (h : (Vm.new alphabet).run ops = .ok m0) (hn : NoBuild ops) (hb : m0.build o = .ok m)
    (hs : ∀ v ∈ m0.decoder, (splitSpaces v.text).length ≤ 255) (g : NGram) :
    (m.ngrams.get? g).getD 0 = ((lmEntries m0 g.toVec).map VocabValue.frequency).sum := by
  have hinv := (inv_run (inv_new alphabet) h).1
  have hs' : ∀ v ∈ m0.decoder, spaces v.text < 255 := by
    intro v hv; have := hs v hv; rw [splitSpaces_length] at this; omega
  have hc := (build_counts hinv hs' hb).1 g
  have he := (run_noBuild hn h).1
  rw [he, show count (Vm.new alphabet).ngrams g = 0 from rfl, Nat.zero_add] at hc
  change count m.ngrams g = _
  rw [hc, lmEntries, ← sum_map_ite]
  congr 1
  apply List.map_congr_left
  intro v _
  simp only [contrib, check_lm, Bool.and_eq_true, decide_eq_true_eq]
  rfl

/-- **C55**: the total of order `n` (for `n` from 1 to 5) is the total frequency of the language
model entries of `n` tokens; longer entries do not count. -/
theorem ngram_totals_exact (alphabet : Alphabet) (ops : List Op) (m0 m : Vm) (o : Orders)
    (h : (Vm.new alphabet).run ops = .ok m0) (hn : NoBuild ops) (hb : m0.build o = .ok m)
    (hs : ∀ v ∈ m0.decoder, (splitSpaces v.text).length ≤ 255) (n : Nat) :
    (n < 5 → m.freqSum.getD n 0 = ((lmEntriesOfLength m0 (n + 1)).map VocabValue.frequency).sum) ∧
    (5 ≤ n → m.freqSum.getD n 0 = 0) := by
  have hinv := (inv_run (inv_new alphabet) h).1
  have hs' : ∀ v ∈ m0.decoder, spaces v.text < 255 := by
    intro v hv; have := hs v hv; rw [splitSpaces_length] at this; omega
  have hc := (build_counts hinv hs' hb).2 n
  have he := (run_noBuild hn h).2
  have h0 : (Vm.new alphabet).freqSum.getD n 0 = 0 := by
    cases n <;> simp [Vm.new]
  rw [he, h0, Nat.zero_add] at hc
  constructor
  · intro h5
    rw [hc, lmEntriesOfLength, ← sum_map_ite]
    congr 1
    apply List.map_congr_left
    intro v _
    simp only [contribSum, check_lm, Bool.and_eq_true, decide_eq_true_eq, splitSpaces_length, h5,
      and_true, Nat.add_right_cancel_iff]
  · intro h5
    rw [hc]
    apply List.sum_eq_zero
    intro x hx
    obtain ⟨v, _, rfl⟩ := List.mem_map.mp hx
    simp only [contribSum, if_neg (show ¬ (v.vocabtype.lm = true ∧ spaces v.text = n ∧ n < 5) by omega)]

/-- Entries `a` (3), `b a` (2), `a` (again 4, so 7 by sum) and a lexicon entry. -/
def exLm : List Op :=
  [.add ['a'] (some 3) { vocabType := .LM, freqHandling := .sum },
   .add ['b', ' ', 'a'] (some 2) { vocabType := .LM },
   .add ['a'] (some 4) { vocabType := .LM, freqHandling := .sum },
   .add ['a', 'b'] none {}]

example : ∃ m0 m, (Vm.new exAlphabet).run exLm = .ok m0 ∧ NoBuild exLm ∧
    m0.build exOrders = .ok m ∧ (∀ v ∈ m0.decoder, (splitSpaces v.text).length ≤ 255) ∧
    m.ngrams.get? (.bi 2 3) = some 2 ∧ m.ngrams.get? (.uni 3) = some 7 ∧ m.freqSum = [7, 2] :=
  ⟨_, _, rfl, by simp [NoBuild, exLm], rfl, by decide +kernel, by decide +kernel,
    by decide +kernel, by decide +kernel⟩

end Verif.Props
