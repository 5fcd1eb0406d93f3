import Verif.Lemmas.Tokens

/-!
# Properties of tokenisation (C40 – C43, C46)
-/
namespace Verif.Props

open Verif.Spec Verif.Model Verif.Lemmas

/-! ## C40 -/

/-- **C40**: for every text, `find_boundaries` succeeds and returns the separators of the segmentation
of the text into words and separators. -/
theorem boundaries_partition (isAlpha : Char → Bool) (text : List Char) :
    ∃ l, Segmented isAlpha text l ∧ findBoundaries isAlpha text = .ok (boundariesFrom 0 l) :=
  findBoundaries_eq isAlpha text

/-- The segmentation is unique. -/
theorem segmentation_unique {isAlpha : Char → Bool} {text : List Char} {l l' : List Seg}
    (h : Segmented isAlpha text l) (h' : Segmented isAlpha text l') : l = l' :=
  segmented_unique h h'

/-- A small table of letters, for the examples. -/
def letters (c : Char) : Bool := c.isAlpha || c == 'é'

example : Segmented letters "né, a-b".toList
    [("né".toList, ", ".toList), ("a".toList, "-".toList), ("b".toList, [])] ∧
    findBoundaries letters "né, a-b".toList = .ok
      [{ text := ", ".toList, first := 3, last := 5 }, { text := "-".toList, first := 6, last := 7 },
        { text := [], first := 8, last := 8 }] :=
  ⟨⟨by decide, by decide, by decide, by decide, by decide, by decide⟩, by decide +kernel⟩

/-- The texts of the boundaries, and where they lie. -/
theorem boundariesFrom_faithful (l : List Seg) (pre post : List Char) (b : Match)
    (h : b ∈ boundariesFrom (byteLen pre) l) : Faithful (pre ++ flat l ++ post) b := by
  induction l generalizing pre with
  | nil => cases h
  | cons p l ih =>
    obtain ⟨w, s⟩ := p
    rw [boundariesFrom, List.mem_cons] at h
    rcases h with rfl | h
    · exact ⟨pre ++ w, flat l ++ post, by simp [flat], by simp [byteLen_append],
        by simp [byteLen_append, Nat.add_assoc]⟩
    · have := ih (pre ++ (w ++ s)) (by simpa [byteLen_append, Nat.add_assoc] using h)
      simpa [flat] using this

theorem boundariesFrom_ge (l : List Seg) (o : Nat) (b : Match) (h : b ∈ boundariesFrom o l) :
    o ≤ b.first := by
  induction l generalizing o with
  | nil => cases h
  | cons p l ih =>
    obtain ⟨w, s⟩ := p
    rw [boundariesFrom, List.mem_cons] at h
    rcases h with rfl | h
    · exact Nat.le_add_right _ _
    · have := ih _ h; omega

theorem boundariesFrom_ordered (l : List Seg) (o : Nat) (h : ∀ p ∈ l.tail, p.1 ≠ []) :
    (boundariesFrom o l).Pairwise (fun x y => x.last < y.first) := by
  induction l generalizing o with
  | nil => exact .nil
  | cons p l ih =>
    obtain ⟨w, s⟩ := p
    rw [boundariesFrom, List.pairwise_cons]
    refine ⟨?_, ih _ (fun q hq => h q (List.mem_of_mem_tail hq))⟩
    intro b hb
    cases l with
    | nil => cases hb
    | cons q l =>
      obtain ⟨w', s'⟩ := q
      have hw := byteLen_pos (h (w', s') (by simp))
      simp only at hw
      rw [boundariesFrom, List.mem_cons] at hb
      rcases hb with rfl | hb
      · simp only; omega
      · have := boundariesFrom_ge _ _ _ hb
        simp only; omega

/-- **C40**: the boundaries are faithful to the text, in order and separated by at least one
character, and the last one ends at the end of the text. -/
theorem boundaries_faithful (isAlpha : Char → Bool) (text : List Char) (bs : List Match)
    (h : findBoundaries isAlpha text = .ok bs) :
    (∀ b ∈ bs, Faithful text b ∧ ∀ c ∈ b.text, isAlpha c = false) ∧
    bs.Pairwise (fun x y => x.last < y.first) ∧
    ∃ z, bs.getLast? = some z ∧ z.last = byteLen text := by
  obtain ⟨l, h1, h2⟩ := findBoundaries_eq isAlpha text
  rw [h] at h2
  cases h2
  refine ⟨?_, boundariesFrom_ordered l 0 h1.words_ne, ?_⟩
  · intro b hb
    constructor
    · have := boundariesFrom_faithful l [] [] b hb
      simpa [h1.text_eq] using this
    · obtain ⟨j, hj⟩ := List.mem_iff_getElem?.mp hb
      have : ∀ (l : List Seg) (o j : Nat) (b : Match), (boundariesFrom o l)[j]? = some b →
          ∃ p ∈ l, b.text = p.2 := by
        intro l
        induction l with
        | nil => intro o j b h; simp [boundariesFrom] at h
        | cons p l ih =>
          intro o j b h
          cases j with
          | zero =>
            simp only [boundariesFrom, List.getElem?_cons_zero, Option.some.injEq] at h
            exact ⟨p, by simp, by rw [← h]⟩
          | succ j =>
            simp only [boundariesFrom, List.getElem?_cons_succ] at h
            obtain ⟨q, hq, e⟩ := ih _ _ _ h
            exact ⟨q, by simp [hq], e⟩
      obtain ⟨p, hp, e⟩ := this _ _ _ _ hj
      rw [e]
      exact h1.seps p hp
  · have hlen : 0 < l.length := List.length_pos_iff.mpr h1.ne
    have hlt : l.length - 1 < (boundariesFrom 0 l).length := by rw [boundariesFrom_length]; omega
    have hg := List.getElem?_eq_getElem hlt
    refine ⟨(boundariesFrom 0 l)[l.length - 1], ?_, ?_⟩
    · rw [List.getLast?_eq_getElem?, boundariesFrom_length]; exact hg
    · obtain ⟨_, e, _⟩ := boundary_at _ _ _ _ hg
      rw [e, show l.length - 1 + 1 = l.length by omega, List.take_length, h1.text_eq, Nat.zero_add]

/-- Slicing the text at the offsets of a boundary gives its text: no panic, no broken character. -/
theorem faithful_slice {text : List Char} {m : Match} :
    Faithful text m ↔ slice text m.first m.last = .ok m.text := by
  constructor
  · rintro ⟨a, c, h1, h2, h3⟩
    exact slice_of_eq h1 h2 (by rw [h3, byteLen_append])
  · intro h
    obtain ⟨a, c, h1, h2, h3⟩ := slice_ok h
    exact ⟨a, c, h1, h2.symm, by rw [byteLen_append, h3]⟩

example : Faithful "né, a-b".toList { text := ", ".toList, first := 3, last := 5 } ∧
    ¬ Faithful "né, a-b".toList { text := ", ".toList, first := 2, last := 4 } := by
  simp only [faithful_slice]
  decide +kernel

/-! ## C41 -/

/-- **C41**: one strength for each boundary, decided by its text and by whether it is the last. -/
theorem boundary_strengths (bs : List Match) :
    (classifyBoundaries bs).length = bs.length ∧
    ∀ j b, bs[j]? = some b → ∃ s, (classifyBoundaries bs)[j]? = some s ∧
      IsStrength (j + 1 = bs.length) b.text s := by
  refine ⟨classifyLoop_length _ _ _, ?_⟩
  intro j b h
  obtain ⟨s, h1, h2⟩ := classifyLoop_spec bs.length bs 0 j b h
  have hj := (List.getElem?_eq_some_iff.mp h).1
  refine ⟨s, h1, ?_⟩
  have : (0 + j = bs.length - 1) = (j + 1 = bs.length) := propext (by omega)
  rwa [this] at h2

/-- The four cases exclude one another, so the strength is determined. -/
theorem strength_unique {last : Prop} {text : List Char} {s t : Strength}
    (h : IsStrength last text s) (h' : IsStrength last text t) : s = t := by
  cases s <;> cases t <;> simp only [IsStrength] at h h' <;>
    first | rfl | exact h.elim | exact h'.elim | skip
  · exact absurd h.2.2 (by simp [h'.2.2])
  · rcases h' with h' | h'
    · exact absurd h' h.1
    · omega
  · exact absurd h'.2.2 (by simp [h.2.2])
  · rcases h' with h' | h'
    · exact absurd h' h.1
    · omega
  · rcases h with h | h
    · exact absurd h h'.1
    · omega
  · rcases h with h | h
    · exact absurd h h'.1
    · omega

example : classifyBoundaries
    [{ text := " ".toList, first := 1, last := 2 }, { text := "-".toList, first := 3, last := 4 },
      { text := ", ".toList, first := 5, last := 7 }, { text := "é".toList, first := 9, last := 11 },
      { text := " ".toList, first := 12, last := 13 }] =
    [.normal, .weak, .hard, .hard, .hard] := by decide +kernel

/-! ## C42 -/

/-- What the runs of `n` words are: `r` is `n` consecutive words of the list. -/
theorem mem_runsFrom {n o : Nat} {l : List Seg} {m : Match} :
    m ∈ runsFrom n o l ↔ ∃ a r b, l = a ++ r ++ b ∧ r.length = n ∧ stretch r ≠ [] ∧
      m = spanAt (o + byteLen (flat a)) r := by
  induction l generalizing o with
  | nil =>
    simp only [runsFrom, List.not_mem_nil, false_iff]
    rintro ⟨a, r, b, h1, h2, h3, _⟩
    have : r = [] := by simp_all
    simp [this, stretch] at h3
  | cons p l ih =>
    obtain ⟨w, s⟩ := p
    rw [runsFrom, List.mem_append, ih]
    constructor
    · rintro (h | ⟨a, r, b, h1, h2, h3, h4⟩)
      · split at h
        · next hc =>
          rw [List.mem_singleton] at h
          exact ⟨[], ((w, s) :: l).take n, ((w, s) :: l).drop n, by simp, by
            rw [List.length_take, Nat.min_eq_left hc.1], hc.2, by simpa [flat, byteLen] using h⟩
        · cases h
      · exact ⟨(w, s) :: a, r, b, by simp [h1], h2, h3, by
          rw [h4]; simp [flat, byteLen_append, Nat.add_assoc]⟩
    · rintro ⟨a, r, b, h1, h2, h3, h4⟩
      cases a with
      | nil =>
        left
        rw [List.nil_append] at h1
        have e : ((w, s) :: l).take n = r := by rw [h1, ← h2, List.take_left]
        rw [e, if_pos ⟨by rw [h1]; simp; omega, h3⟩, List.mem_singleton, h4]
        simp [flat, byteLen]
      | cons q a =>
        right
        rw [List.cons_append, List.cons_append, List.cons.injEq] at h1
        obtain ⟨rfl, h1⟩ := h1
        exact ⟨a, r, b, h1, h2, h3, by rw [h4]; simp [flat, byteLen_append, Nat.add_assoc]⟩

theorem runsFrom_ge {n o : Nat} {l : List Seg} {m : Match} (h : m ∈ runsFrom n o l) : o ≤ m.first := by
  induction l generalizing o with
  | nil => cases h
  | cons p l ih =>
    rw [runsFrom, List.mem_append] at h
    rcases h with h | h
    · split at h
      · rw [List.mem_singleton] at h; subst h; exact Nat.le_refl _
      · cases h
    · have := ih h; omega

theorem stretch_ne_nil_head {w s : List Char} {l : List Seg} (h : w ≠ []) :
    stretch ((w, s) :: l) ≠ [] := by
  cases l with
  | nil => exact h
  | cons p l => simp [stretch, h]

/-- The runs are in text order. -/
theorem runsFrom_ordered {n o : Nat} {l : List Seg}
    (hs : ∀ p ∈ l.dropLast, p.2 ≠ []) :
    (runsFrom n o l).Pairwise (fun x y => x.first < y.first) := by
  induction l generalizing o with
  | nil => exact .nil
  | cons p l ih =>
    obtain ⟨w, s⟩ := p
    rw [runsFrom]
    cases l with
    | nil => simp only [runsFrom, List.append_nil]; split <;> simp
    | cons q l =>
      have h2 := ih (o := o + byteLen (w ++ s)) (fun p hp => hs p (by
        rw [List.dropLast_cons_of_ne_nil (by simp)]; exact List.mem_cons_of_mem _ hp))
      split
      · rw [List.singleton_append, List.pairwise_cons]
        refine ⟨?_, h2⟩
        intro m hm
        have h1 := runsFrom_ge hm
        have := byteLen_pos (hs (w, s) (by simp [List.dropLast]))
        simp only [byteLen_append] at h1
        simp only [spanAt]
        simp only at this
        omega
      · rw [List.nil_append]; exact h2

/-- **C42**: for a batch of words `cur` of a text, `find_match_ngrams` returns exactly the runs of `n`
consecutive words, in order, with their texts and offsets (`mem_runsFrom`), leaving out only the one
that is empty (`n = 1` and no word before the first separator).  A space is not alphabetic, so that no
run consists of a single space. -/
theorem ngrams_exact {isAlpha : Char → Bool} (hsp : isAlpha ' ' = false) {text : List Char}
    {a cur b : List Seg} (h : Segmented isAlpha text (a ++ cur ++ b)) (hne : cur ≠ []) (n : Nat)
    (hn : 1 ≤ n) :
    findMatchNgrams text (boundariesFrom (byteLen (flat a)) cur) n (byteLen (flat a))
      (some (byteLen (flat a ++ stretch cur))) = .ok (runsFrom n (byteLen (flat a)) cur) := by
  have ht : text = flat a ++ flat cur ++ flat b := by rw [← h.text_eq, flat_append, flat_append]
  rw [ht, byteLen_append]
  exact findMatchNgrams_eq hsp hn hne (segmented_infix h hne)

example : letters ' ' = false ∧ findMatchNgrams "né, a-b c".toList
    [{ text := "-".toList, first := 6, last := 7 }, { text := " ".toList, first := 8, last := 9 },
      { text := [], first := 10, last := 10 }] 2 5 (some 10) = .ok
    [{ text := "a-b".toList, first := 5, last := 8, n := 2 },
      { text := "b c".toList, first := 7, last := 10, n := 2 }] := by decide +kernel

/-- Each n-gram is faithful to the text, is not empty, and they come in text order. -/
theorem ngrams_faithful {isAlpha : Char → Bool} {text : List Char} {a cur b : List Seg}
    (h : Segmented isAlpha text (a ++ cur ++ b)) (n : Nat) :
    (∀ m ∈ runsFrom n (byteLen (flat a)) cur, Faithful text m ∧ m.text ≠ [] ∧ m.n = n) ∧
    (runsFrom n (byteLen (flat a)) cur).Pairwise (fun x y => x.first < y.first) := by
  constructor
  · intro m hm
    obtain ⟨c, r, d, h1, h2, h3, rfl⟩ := mem_runsFrom.mp hm
    refine ⟨?_, h3, h2⟩
    obtain ⟨q, hq⟩ := stretch_prefix_flat r
    refine ⟨flat a ++ flat c, q ++ flat d ++ flat b, ?_, ?_, ?_⟩
    · rw [← h.text_eq, h1]
      simp only [flat_append, ← hq, spanAt]
      simp
    · simp [spanAt, byteLen_append]
    · simp [spanAt, byteLen_append, Nat.add_assoc]
  · by_cases hne : cur = []
    · subst hne; exact .nil
    · exact runsFrom_ordered (segmented_infix h hne).seps_ne

/-- The words themselves are the runs of length one: all of them but an empty first one. -/
theorem unigrams_words (cur : List Seg) (o : Nat) :
    (runsFrom 1 o cur).map (·.text) = (cur.map Prod.fst).filter (· ≠ []) := by
  induction cur generalizing o with
  | nil => rfl
  | cons p l ih =>
    obtain ⟨w, s⟩ := p
    rw [runsFrom, List.map_append, ih]
    simp only [List.length_cons, List.take_succ_cons, List.take_zero, stretch, List.map_cons,
      List.filter_cons]
    by_cases hw : w = [] <;> simp [hw, spanAt, stretch]

/-! ## C43 -/

/-- **C43**: a match is skipped iff every single word inside it has a best variant with similarity at
least one (given that the single words come first among the matches). -/
theorem redundant_iff (c : Match) (us hs : List Match) (hu : ∀ m ∈ us, m.n = 1)
    (hh : ∀ m ∈ hs, m.n ≠ 1) :
    redundantMatch c (us ++ hs) = true ↔
      ∀ u ∈ us, c.first ≤ u.first → u.last ≤ c.last →
        ∃ v vs, u.variants = some (v :: vs) ∧ 1 ≤ v.distScore := by
  induction us with
  | nil =>
    cases hs with
    | nil => simp [redundantMatch]
    | cons m hs => simp [redundantMatch, hh m (by simp)]
  | cons u us ih =>
    have hu1 := hu u (by simp)
    have ih := ih (fun m hm => hu m (by simp [hm]))
    rw [List.cons_append, redundantMatch, if_pos hu1, List.forall_mem_cons]
    by_cases hc : u.first ≥ c.first ∧ u.last ≤ c.last
    · rw [if_pos hc]
      match hv : u.variants with
      | some (v :: vs) =>
        simp only
        by_cases hd : v.distScore < 1
        · rw [if_pos hd]
          simp only [Bool.false_eq_true, false_iff, not_and]
          intro h
          obtain ⟨v', vs', h1, h2⟩ := h hc.1 hc.2
          simp only [Option.some.injEq, List.cons.injEq] at h1
          rw [h1.1] at hd
          exact absurd h2 (not_le.mpr hd)
        · rw [if_neg hd, ih]
          exact ⟨fun h => ⟨fun _ _ => ⟨v, vs, rfl, not_lt.mp hd⟩, h⟩, fun h => h.2⟩
      | some [] =>
        simp only [Bool.false_eq_true, false_iff, not_and]
        intro h
        obtain ⟨_, _, h1, _⟩ := h hc.1 hc.2
        simp at h1
      | none =>
        simp only [Bool.false_eq_true, false_iff, not_and]
        intro h
        obtain ⟨_, _, h1, _⟩ := h hc.1 hc.2
        cases h1
    · rw [if_neg hc, ih]
      exact ⟨fun h => ⟨fun h1 h2 => absurd ⟨h1, h2⟩ hc, h⟩, fun h => h.2⟩

example : redundantMatch { text := "a b".toList, first := 0, last := 3, n := 2 }
    [{ text := "a".toList, first := 0, last := 1, n := 1, variants := some [⟨3, 1, 1, none⟩] },
     { text := "b".toList, first := 2, last := 3, n := 1, variants := some [⟨4, 1, 1, none⟩] },
     { text := "c".toList, first := 4, last := 5, n := 1, variants := some [] }] = true ∧
    redundantMatch { text := "b c".toList, first := 2, last := 5, n := 2 }
    [{ text := "a".toList, first := 0, last := 1, n := 1, variants := some [⟨3, 1, 1, none⟩] },
     { text := "b".toList, first := 2, last := 3, n := 1, variants := some [⟨4, 1, 1, none⟩] },
     { text := "c".toList, first := 4, last := 5, n := 1, variants := some [] }] = false := by
  decide +kernel

/-! ## C46 -/

theorem unicodeTable_at (pre post : List Char) (k : Nat) :
    (unicodeTable (pre ++ post) k ++ [some (k + (pre ++ post).length)])[byteLen pre]? =
      some (some (k + pre.length)) := by
  induction pre generalizing k with
  | nil =>
    cases post with
    | nil => simp [unicodeTable, byteLen]
    | cons c cs => simp [unicodeTable, byteLen]
  | cons c pre ih =>
    have hc := c.utf8Size_pos
    have := ih (k + 1)
    simp only [List.cons_append, unicodeTable, byteLen, List.append_assoc]
    rw [show c.utf8Size + byteLen pre = ((c.utf8Size - 1) + byteLen pre) + 1 by omega,
      List.getElem?_cons_succ, List.getElem?_append_right (by simp)]
    simp only [List.length_replicate, Nat.add_sub_cancel_left, List.length_cons]
    rw [show k + ((pre ++ post).length + 1) = k + 1 + (pre ++ post).length by omega, this]
    congr 2
    omega

/-- **C46**: for matches that are faithful to the text the conversion succeeds; it changes only the
offsets, and the new ones count the characters before the begin and before the end, so that this range
of characters is the text of the match. -/
theorem unicode_offsets (text : List Char) (ms : List Match) (h : ∀ m ∈ ms, Faithful text m) :
    ∃ ms', remapOffsets text ms = .ok ms' ∧
      List.Forall₂ (fun m m' => m' = { m with first := m'.first, last := m'.last } ∧
        ∃ a c, text = a ++ m.text ++ c ∧ byteLen a = m.first ∧ byteLen (a ++ m.text) = m.last ∧
          m'.first = a.length ∧ m'.last = (a ++ m.text).length ∧
          (text.take m'.last).drop m'.first = m.text) ms ms' := by
  unfold remapOffsets
  induction ms with
  | nil => exact ⟨[], rfl, .nil⟩
  | cons m ms ih =>
    obtain ⟨ms', h1, h2⟩ := ih (fun x hx => h x (by simp [hx]))
    obtain ⟨a, c, e1, e2, e3⟩ := h m (by simp)
    have t1 : convertOffset (unicodeTable text 0 ++ [some text.length]) m.first = .ok a.length := by
      have := unicodeTable_at a (m.text ++ c) 0
      rw [← List.append_assoc, ← e1, Nat.zero_add, Nat.zero_add, ← e2] at this
      unfold convertOffset
      rw [this]
    have t2 : convertOffset (unicodeTable text 0 ++ [some text.length]) m.last =
        .ok (a ++ m.text).length := by
      have := unicodeTable_at (a ++ m.text) c 0
      rw [← e1, Nat.zero_add, Nat.zero_add, ← e3] at this
      unfold convertOffset
      rw [this]
    refine ⟨{ m with first := a.length, last := (a ++ m.text).length } :: ms', ?_, .cons ?_ h2⟩
    · rw [remapLoop, t1, t2]
      simp only [bind, Except.bind, pure, Except.pure, h1]
    · refine ⟨rfl, a, c, e1, e2.symm, e3.symm, rfl, rfl, ?_⟩
      simp only
      rw [e1, List.take_left, List.drop_left]

example : remapOffsets "né, a".toList
    [{ text := "né".toList, first := 0, last := 3 }, { text := "a".toList, first := 5, last := 6 }] =
    .ok [{ text := "né".toList, first := 0, last := 2 }, { text := "a".toList, first := 4, last := 5 }] := by
  decide +kernel

end Verif.Props
