import Verif.Spec.History
import Verif.Lemmas.History
import Verif.Lemmas.Index
import Verif.Props.Anahash

/-!
# Properties of the vocabulary (C13 – C18)

`Vm.run` (Model/Learn.lean) is the effect of a history of operations; a history that panics has no
resulting model.
-/
namespace Verif.Props

open Verif.Spec Verif.Model Verif.Lemmas

/-- iteration in list order, used in the examples -/
def exOrders : Orders := ⟨id, id, fun _ => .rfl, fun _ => .rfl⟩

/-- A history used in the examples. -/
def exOps : List Op :=
  [.add ['a', 'b'] (some 3) { freqHandling := .sum, index := 1 },
   .add ['b'] none {},
   .addVariant 3 ['b', 'a'] (9/10) (some 2) { vocabType := .TRANSPARENT, freqHandling := .sum },
   .add ['a', 'b'] (some 4) { freqHandling := .sum, index := 4 },
   .build exOrders,
   .addVariantById 3 4 (1/2)]

theorem exOps_run : ∃ m, (Vm.new exAlphabet).run exOps = .ok m := ⟨_, rfl⟩

theorem exOps_noLearning : NoLearning exOps := by
  intro f a o; simp [exOps]

/-! ## C13 -/

/-- **C13**: after any history on a fresh model, looking up a text gives id `i` exactly when entry
`i` has that text. -/
theorem vocabulary_bijection (alphabet : Alphabet) (ops : List Op) (m : Vm)
    (h : (Vm.new alphabet).run ops = .ok m) (t : List Char) (i : Nat) :
    m.encoder.get? t = some i ↔ ∃ v, m.decoder[i]? = some v ∧ v.text = t := by
  have := (inv_run (inv_new alphabet) h).1.bij t i
  simpa [textAt, Option.map_eq_some_iff] using this

example : ∃ m, (Vm.new exAlphabet).run exOps = .ok m ∧ m.encoder.get? ['b', 'a'] = some 5 :=
  ⟨_, rfl, by decide +kernel⟩

/-- **C13**: no text has two entries. -/
theorem vocabulary_texts_distinct (alphabet : Alphabet) (ops : List Op) (m : Vm)
    (h : (Vm.new alphabet).run ops = .ok m) : (m.decoder.map VocabValue.text).Nodup := by
  have hb := (inv_run (inv_new alphabet) h).1.bij
  rw [List.nodup_iff_injective_getElem]
  rintro ⟨i, hi⟩ ⟨j, hj⟩ e
  simp only [List.getElem_map, List.length_map] at e hi hj
  have h1 : textAt m i = some (m.decoder[i].text) := by simp [textAt, hi]
  have h2 : textAt m j = some (m.decoder[i].text) := by simp [textAt, hj, e]
  have h3 := (hb _ _).mpr h1
  rw [(hb _ _).mpr h2] at h3
  cases h3; rfl

example : ∃ m, (Vm.new exAlphabet).run exOps = .ok m := exOps_run

/-- **C13**: ids handed out keep resolving to the same text, whatever happens later. -/
theorem vocabulary_ids_stable (alphabet : Alphabet) (ops later : List Op) (m m' : Vm)
    (h : (Vm.new alphabet).run ops = .ok m) (h' : m.run later = .ok m') (t : List Char) (i : Nat)
    (hi : m.encoder.get? t = some i) :
    m'.encoder.get? t = some i ∧ ∃ v, m'.decoder[i]? = some v ∧ v.text = t := by
  have inv := (inv_run (inv_new alphabet) h).1
  obtain ⟨inv', ext⟩ := inv_run inv h'
  have ht := ext.2 i t ((inv.bij t i).mp hi)
  refine ⟨(inv'.bij t i).mpr ht, ?_⟩
  simpa [textAt, Option.map_eq_some_iff] using ht

example : ∃ m m', (Vm.new exAlphabet).run exOps = .ok m ∧
    m.run [.learn [⟨['b', 'b'], 3, 1/2⟩] true exOrders, .add ['b'] none {}] = .ok m' ∧
    m.encoder.get? ['b', 'a'] = some 5 := ⟨_, _, rfl, rfl, by decide +kernel⟩

/-- **C13**: `add_to_vocabulary` returns the id of the text, and after it the text is there. -/
theorem add_returns_id (alphabet : Alphabet) (ops : List Op) (m m' : Vm)
    (h : (Vm.new alphabet).run ops = .ok m) (t : List Char) (f : Option Nat) (p : VocabParams)
    (i : Nat) (h' : m.addToVocabulary t f p = .ok (m', i)) :
    m'.encoder.get? t = some i ∧ ∃ v, m'.decoder[i]? = some v ∧ v.text = t := by
  obtain ⟨inv', _, hi⟩ := inv_add (inv_run (inv_new alphabet) h).1 h'
  refine ⟨hi, ?_⟩
  simpa [textAt, Option.map_eq_some_iff] using (inv'.bij t i).mp hi

example : ∃ m m', (Vm.new exAlphabet).run exOps = .ok m ∧
    m.addToVocabulary ['a'] none {} = .ok (m', 6) := ⟨_, _, rfl, rfl⟩

/-! ## The entry of a text after a history -/

theorem additions_eq (t : List Char) (ops : List Op) :
    additions t ops = ops.filterMap (addOf t) := by
  induction ops with
  | nil => rfl
  | cons op ops ih =>
    cases op <;> simp only [additions, List.filterMap_cons, addOf, ih] <;>
      first
        | rfl
        | (split <;> rename_i h <;> simp)

theorem noLearning_iff {ops : List Op} (h : NoLearning ops) : ∀ op ∈ ops, isLearn op = false := by
  intro op hop
  cases op <;> try rfl
  exact absurd hop (h _ _ _)

theorem isReserved_iff (t : List Char) : isReserved t = true ↔ Reserved t := by
  simp only [isReserved, Bool.or_eq_true, beq_iff_eq, Reserved, or_assoc]
  exact Iff.rfl

/-- The entry of a text that is not reserved, in terms of its additions. -/
theorem entry_of_history {alphabet : Alphabet} {ops : List Op} {m : Vm}
    (h : (Vm.new alphabet).run ops = .ok m) (hl : NoLearning ops) {t : List Char}
    (hr : ¬ Reserved t) :
    match additions t ops with
    | [] => entry m t = none
    | a :: as => ∃ i v, EntryAt m t i v ∧
        some (coreOf v) = as.foldl (fun c a => addCore false a c)
          (some ⟨a.1.getD 1, a.2.vocabType, 1 <<< a.2.index⟩) := by
  have hrun := entry_run (inv_new alphabet) (noLearning_iff hl) h t
  have hb := (inv_run (inv_new alphabet) h).1.bij
  have hr' : isReserved t = false := by
    rw [Bool.eq_false_iff]; intro e; exact hr ((isReserved_iff t).mp e)
  have h0 : entryCore (Vm.new alphabet) t = none := by
    have hn : (Vm.new alphabet).encoder.get? t = none := by
      simp only [isReserved, Bool.or_eq_false_iff, beq_eq_false_iff_ne, ne_eq] at hr'
      simp only [Vm.new, get?_insert, HMap.get?]
      rw [if_neg (Ne.symm hr'.2), if_neg (Ne.symm hr'.1.2), if_neg (Ne.symm hr'.1.1)]
    simp [entryCore, entry, hn]
  rw [← additions_eq, h0, hr'] at hrun
  split
  · next e =>
    rw [e] at hrun
    simpa [entryCore] using hrun
  · next a as e =>
    rw [e] at hrun
    rw [List.foldl_cons] at hrun
    change _ = as.foldl (fun c a => addCore false a c)
      (some ⟨a.1.getD 1, a.2.vocabType, 1 <<< a.2.index⟩) at hrun
    cases he : entry m t with
    | none =>
      exfalso
      obtain ⟨c', hc, _⟩ := fold_some false as ⟨a.1.getD 1, a.2.vocabType, 1 <<< a.2.index⟩
      simp only [entryCore, he, Option.map_none] at hrun
      rw [hc] at hrun; cases hrun
    | some v =>
      simp only [entry, Option.bind_eq_some_iff] at he
      obtain ⟨i, hi, hv⟩ := he
      refine ⟨i, v, ⟨hi, hv, ?_⟩, ?_⟩
      · have := (hb t i).mp hi
        simpa [textAt, hv] using this
      · rw [← hrun]
        simp [entryCore, entry, hi, hv]

theorem entryAt_unique {m : Vm} {t : List Char} {i j : Nat} {v w : VocabValue}
    (h : EntryAt m t i v) (h' : EntryAt m t j w) : i = j ∧ v = w := by
  obtain ⟨a, b, _⟩ := h
  obtain ⟨a', b', _⟩ := h'
  rw [a] at a'; cases a'
  rw [b] at b'; cases b'
  exact ⟨rfl, rfl⟩

/-! ## C14 -/

theorem foldl_sum (l : List Nat) (a : Nat) : l.foldl (combine .sum) a = a + l.sum := by
  induction l generalizing a with
  | nil => rfl
  | cons b l ih => simp only [List.foldl_cons, ih, combine, List.sum_cons]; omega

theorem foldl_max (l : List Nat) (a : Nat) :
    l.foldl (combine .max) a ∈ a :: l ∧ ∀ x ∈ a :: l, x ≤ l.foldl (combine .max) a := by
  induction l generalizing a with
  | nil => simp
  | cons b l ih =>
    simp only [List.foldl_cons, combine]
    obtain ⟨h1, h2⟩ := ih ((max a b))
    constructor
    · rcases List.mem_cons.mp h1 with e | e
      · rw [e]
        rcases Nat.le_total a b with hab | hab
        · rw [show (max a b) = b from Nat.max_eq_right hab]; simp
        · rw [show (max a b) = a from Nat.max_eq_left hab]; simp
      · simp [e]
    · intro x hx
      have h3 := h2 _ (List.mem_cons_self ..)
      have ha : a ≤ (max a b) := Nat.le_max_left a b
      have hb : b ≤ (max a b) := Nat.le_max_right a b
      rcases List.mem_cons.mp hx with rfl | hx
      · omega
      · rcases List.mem_cons.mp hx with rfl | hx
        · omega
        · exact h2 x (List.mem_cons_of_mem _ hx)

theorem foldl_min (l : List Nat) (a : Nat) :
    l.foldl (combine .min) a ∈ a :: l ∧ ∀ x ∈ a :: l, l.foldl (combine .min) a ≤ x := by
  induction l generalizing a with
  | nil => simp
  | cons b l ih =>
    simp only [List.foldl_cons, combine]
    obtain ⟨h1, h2⟩ := ih ((min a b))
    constructor
    · rcases List.mem_cons.mp h1 with e | e
      · rw [e]
        rcases Nat.le_total a b with hab | hab
        · rw [show (min a b) = a from Nat.min_eq_left hab]; simp
        · rw [show (min a b) = b from Nat.min_eq_right hab]; simp
      · simp [e]
    · intro x hx
      have h3 := h2 _ (List.mem_cons_self ..)
      have ha : (min a b) ≤ a := Nat.min_le_left a b
      have hb : (min a b) ≤ b := Nat.min_le_right a b
      rcases List.mem_cons.mp hx with rfl | hx
      · omega
      · rcases List.mem_cons.mp hx with rfl | hx
        · omega
        · exact h2 x (List.mem_cons_of_mem _ hx)

theorem foldl_replace (l : List Nat) (a : Nat) :
    (a :: l).getLast? = some (l.foldl (combine .replace) a) := by
  induction l generalizing a with
  | nil => rfl
  | cons b l ih => simp only [List.foldl_cons, combine, ← ih b]; simp [List.getLast?_cons_cons]

/-- What a frequency handling makes of the frequencies given, as a relation. -/
def Combined : FrequencyHandling → List Nat → Nat → Prop
  | .sum, fs, f => f = fs.sum
  | .max, fs, f => f ∈ fs ∧ ∀ x ∈ fs, x ≤ f
  | .min, fs, f => f ∈ fs ∧ ∀ x ∈ fs, f ≤ x
  | .replace, fs, f => fs.getLast? = some f

/-- **C14**: if all additions of a (non-reserved) text use the same handling, the frequency of its
entry is the sum, maximum, minimum or last of the frequencies given; other texts do not matter. -/
theorem frequency_combined (alphabet : Alphabet) (ops : List Op) (m : Vm)
    (h : (Vm.new alphabet).run ops = .ok m) (hl : NoLearning ops) (t : List Char)
    (hr : ¬ Reserved t) (handling : FrequencyHandling) (hne : additions t ops ≠ [])
    (hh : ∀ a ∈ additions t ops, a.2.freqHandling = handling) :
    ∃ i v, EntryAt m t i v ∧ Combined handling (frequencies (additions t ops)) v.frequency := by
  have he := entry_of_history h hl hr
  cases ha : additions t ops with
  | nil => exact absurd ha hne
  | cons a as =>
    rw [ha] at he hh
    obtain ⟨i, v, hv, hc⟩ := he
    obtain ⟨c', h1, h2⟩ := fold_freq (h := handling) false as
      (fun b hb => hh b (List.mem_cons_of_mem _ hb))
      ⟨a.1.getD 1, a.2.vocabType, 1 <<< a.2.index⟩
    rw [h1, Option.some.injEq] at hc
    subst hc
    refine ⟨i, v, hv, ?_⟩
    have h3 : v.frequency = (freqsOf as).foldl (combine handling) (a.1.getD 1) := h2
    have hf : frequencies (a :: as) = a.1.getD 1 :: freqsOf as := rfl
    rw [hf, h3]
    cases handling
    · simp only [Combined, foldl_sum, List.sum_cons]
    · exact foldl_max _ _
    · exact foldl_min _ _
    · exact foldl_replace _ _

example : ∃ m, (Vm.new exAlphabet).run exOps = .ok m ∧
    ∃ i v, EntryAt m ['a', 'b'] i v ∧ v.frequency = 7 := by
  obtain ⟨m, h⟩ := exOps_run
  exact ⟨m, h, frequency_combined exAlphabet exOps m h exOps_noLearning ['a', 'b'] (by decide) .sum
    (by decide) (by decide)⟩

/-! ## C15 -/

theorem and_shift (x i : Nat) : x &&& (1 <<< i) = 1 <<< i ↔ x.testBit i = true := by
  have hs : ∀ j, (1 <<< i).testBit j = decide (i = j) := by
    intro j; rw [Nat.one_shiftLeft, Nat.testBit_two_pow]
  constructor
  · intro h
    have := congrArg (fun n => n.testBit i) h
    simpa [Nat.testBit_and, hs] using this
  · intro h
    apply Nat.eq_of_testBit_eq
    intro j
    rw [Nat.testBit_and, hs]
    by_cases e : i = j
    · subst e; simp [h]
    · simp [e]

/-- **C15**: an entry is in lexicon `i` exactly if it was added with index `i`. -/
theorem in_lexicon_exact (alphabet : Alphabet) (ops : List Op) (m : Vm)
    (h : (Vm.new alphabet).run ops = .ok m) (hl : NoLearning ops) (t : List Char)
    (hr : ¬ Reserved t) (id : Nat) (v : VocabValue) (hv : EntryAt m t id v) (i : Nat) (hi : i < 32) :
    ∃ b, v.inLexicon i = .ok b ∧ (b = true ↔ ∃ a ∈ additions t ops, a.2.index = i) := by
  refine ⟨_, if_neg (by omega), ?_⟩
  rw [decide_eq_true_eq, and_shift]
  have he := entry_of_history h hl hr
  cases ha : additions t ops with
  | nil =>
    rw [ha] at he
    simp [entry, hv.1, hv.2.1] at he
  | cons a as =>
    rw [ha] at he
    obtain ⟨j, w, hw, hc⟩ := he
    obtain ⟨_, rfl⟩ := entryAt_unique hv hw
    obtain ⟨c', h1, _, _, h2⟩ := fold_some false as ⟨a.1.getD 1, a.2.vocabType, 1 <<< a.2.index⟩
    rw [h1, Option.some.injEq] at hc
    subst hc
    have h3 := h2 i
    simp only [coreOf, Nat.one_shiftLeft, Nat.testBit_two_pow, decide_eq_true_eq] at h3
    rw [h3]
    simp

example : ∃ m, (Vm.new exAlphabet).run exOps = .ok m ∧ ∃ i v, EntryAt m ['a', 'b'] i v ∧
    v.inLexicon 4 = .ok true ∧ v.inLexicon 0 = .ok false :=
  ⟨_, rfl, 3, _, ⟨by decide +kernel, rfl, rfl⟩, by decide +kernel, by decide +kernel⟩

theorem lexindexLoop_eq (v : VocabValue) (i n : Nat) (h : i + n ≤ 32) :
    v.lexindexLoop i n = .ok ((List.range' i n).filter fun j => v.lexindex.testBit j) := by
  induction n generalizing i with
  | zero => rfl
  | succ n ih =>
    simp only [VocabValue.lexindexLoop, VocabValue.inLexicon, if_neg (show ¬ i ≥ 32 by omega),
      ih (i + 1) (by omega), bind, Except.bind, pure, Except.pure, List.range'_succ,
      List.filter_cons, and_shift]
    by_cases hb : v.lexindex.testBit i = true
    · simp [hb]
    · simp [hb]

/-- **C15**: `lexindex_as_vec` lists, ascending and each once, exactly the lexicon indices below 31
the entry was added with. -/
theorem lexindex_as_vec_exact (alphabet : Alphabet) (ops : List Op) (m : Vm)
    (h : (Vm.new alphabet).run ops = .ok m) (hl : NoLearning ops) (t : List Char)
    (hr : ¬ Reserved t) (id : Nat) (v : VocabValue) (hv : EntryAt m t id v) :
    ∃ l, v.lexindexAsVec = .ok l ∧ l.Pairwise (· < ·) ∧
      ∀ i, i ∈ l ↔ i < 31 ∧ ∃ a ∈ additions t ops, a.2.index = i := by
  refine ⟨_, lexindexLoop_eq v 0 31 (by omega), ?_, ?_⟩
  · apply List.Pairwise.filter
    have := List.pairwise_lt_range' (s := 0) (n := 31)
    exact this
  · intro i
    simp only [List.mem_filter, List.mem_range'_1]
    by_cases hi : i < 31
    · obtain ⟨b, h1, h2⟩ := in_lexicon_exact alphabet ops m h hl t hr id v hv i (by omega)
      rw [← h2]
      simp only [VocabValue.inLexicon, if_neg (show ¬ i ≥ 32 by omega), Except.ok.injEq] at h1
      rw [← h1, decide_eq_true_eq, and_shift]
      simp [hi]
    · simp [hi]

example : ∃ m, (Vm.new exAlphabet).run exOps = .ok m ∧ ∃ i v, EntryAt m ['a', 'b'] i v ∧
    v.lexindexAsVec = .ok [1, 4] :=
  ⟨_, rfl, 3, _, ⟨by decide +kernel, rfl, rfl⟩, by decide +kernel⟩

/-- **C15**, where the list falls short: an entry of lexicon 31 is in lexicon 31, but the list does
not show it. -/
theorem lexindex_as_vec_omits_31 : ∃ (ops : List Op) (m : Vm) (v : VocabValue) (i : Nat),
    (Vm.new exAlphabet).run ops = .ok m ∧ EntryAt m ['a'] i v ∧
    v.inLexicon 31 = .ok true ∧ v.lexindexAsVec = .ok [] :=
  ⟨[.add ['a'] none { index := 31 }], _, _, 3, rfl, ⟨by decide +kernel, rfl, rfl⟩,
    by decide +kernel, by decide +kernel⟩

/-- **C15**: from the 33rd lexicon on, adding to the vocabulary panics. -/
theorem lexicon_limit (m : Vm) (t : List Char) (f : Option Nat) (p : VocabParams)
    (hp : 32 ≤ p.index) : ∃ e, m.addToVocabulary t f p = .error e := by
  cases h : m.addToVocabulary t f p with
  | error e => exact ⟨e, rfl⟩
  | ok r =>
    obtain ⟨m', i⟩ := r
    rcases add_cases h with ⟨_, _, _, _, _, h1, _⟩ | ⟨_, _, _, h1, _⟩ <;> omega

example : ∃ p : VocabParams, 32 ≤ p.index := ⟨{ index := 32 }, by decide⟩

/-! ## C16, C17 -/

/-- **C16**: an entry is transparent exactly if all its additions were transparent. -/
theorem transparent_exact (alphabet : Alphabet) (ops : List Op) (m : Vm)
    (h : (Vm.new alphabet).run ops = .ok m) (hl : NoLearning ops) (t : List Char)
    (hr : ¬ Reserved t) (id : Nat) (v : VocabValue) (hv : EntryAt m t id v) :
    v.vocabtype.check .TRANSPARENT = true ↔
      ∀ a ∈ additions t ops, a.2.vocabType.check .TRANSPARENT = true := by
  have hcheck : ∀ x : VocabType, x.check .TRANSPARENT = x.transparent := by
    intro ⟨a, b, c⟩; cases a <;> cases b <;> cases c <;> rfl
  simp only [hcheck]
  have he := entry_of_history h hl hr
  cases ha : additions t ops with
  | nil =>
    rw [ha] at he
    simp [entry, hv.1, hv.2.1] at he
  | cons a as =>
    rw [ha] at he
    obtain ⟨j, w, hw, hc⟩ := he
    obtain ⟨_, rfl⟩ := entryAt_unique hv hw
    obtain ⟨c', h1, _, h2, _⟩ := fold_some false as ⟨a.1.getD 1, a.2.vocabType, 1 <<< a.2.index⟩
    rw [h1, Option.some.injEq] at hc
    subst hc
    rw [show v.vocabtype.transparent = (coreOf v).type.transparent from rfl, (h2 rfl).2]
    simp

example : ∃ m, (Vm.new exAlphabet).run exOps = .ok m ∧ ∃ i v, EntryAt m ['b', 'a'] i v ∧
    v.vocabtype.check .TRANSPARENT = true :=
  ⟨_, rfl, 5, _, ⟨by decide +kernel, rfl, rfl⟩, by decide +kernel⟩

/-- **C17**, what holds: whether an entry is indexed, and whether it is in the language model, is
decided by its first addition alone.  (Missing for the full claim: later additions should add their
flags; `both_purposes_fails` shows that they do not.) -/
theorem purposes_of_first_addition_partial (alphabet : Alphabet) (ops : List Op) (m : Vm)
    (h : (Vm.new alphabet).run ops = .ok m) (hl : NoLearning ops) (t : List Char)
    (hr : ¬ Reserved t) (a : Option Nat × VocabParams) (as : List (Option Nat × VocabParams))
    (ha : additions t ops = a :: as) :
    ∃ i v, EntryAt m t i v ∧ v.vocabtype.indexed = a.2.vocabType.indexed ∧
      v.vocabtype.lm = a.2.vocabType.lm := by
  have he := entry_of_history h hl hr
  rw [ha] at he
  obtain ⟨i, v, hv, hc⟩ := he
  obtain ⟨c', h1, h2, h3, _⟩ := fold_some false as ⟨a.1.getD 1, a.2.vocabType, 1 <<< a.2.index⟩
  rw [h1, Option.some.injEq] at hc
  subst hc
  exact ⟨i, v, hv, by simpa [coreOf] using h2, (h3 rfl).1⟩

example : ∃ m, (Vm.new exAlphabet).run exOps = .ok m ∧ ∃ a, additions ['b'] exOps = [a] :=
  ⟨_, rfl, _, rfl⟩

/-- **C17** fails: the full claim is refuted by adding `a` to the language model and then to a
lexicon (it is not found afterwards), and also in the other order (it is not counted). -/
theorem both_purposes_fails :
    ¬ ∀ (alphabet : Alphabet) (ops : List Op) (m : Vm) (t : List Char) (i : Nat) (v : VocabValue),
      (Vm.new alphabet).run ops = .ok m → NoLearning ops → ¬ Reserved t → EntryAt m t i v →
      ((∃ a ∈ additions t ops, a.2.vocabType.check .INDEXED = true) →
        v.vocabtype.check .INDEXED = true) := by
  intro hall
  have := hall exAlphabet [.add ['a'] none { vocabType := .LM }, .add ['a'] none {}] _ ['a'] 3 _ rfl
    (by intro f a o; simp) (by decide) ⟨by decide +kernel, rfl, rfl⟩ ⟨(none, {}), by decide, by decide⟩
  revert this
  decide +kernel

theorem both_purposes_fails' :
    ¬ ∀ (alphabet : Alphabet) (ops : List Op) (m : Vm) (t : List Char) (i : Nat) (v : VocabValue),
      (Vm.new alphabet).run ops = .ok m → NoLearning ops → ¬ Reserved t → EntryAt m t i v →
      ((∃ a ∈ additions t ops, a.2.vocabType.check .LM = true) →
        v.vocabtype.check .LM = true) := by
  intro hall
  have := hall exAlphabet [.add ['a'] none {}, .add ['a'] none { vocabType := .LM }] _ ['a'] 3 _ rfl
    (by intro f a o; simp) (by decide) ⟨by decide +kernel, rfl, rfl⟩
    ⟨(none, { vocabType := .LM }), by decide, by decide⟩
  revert this
  decide +kernel

end Verif.Props
