import Verif.Spec.Tokens
import Verif.Lemmas.Encode

/-!
# Lemmas about slices, boundaries and n-grams
-/
namespace Verif.Lemmas

open Verif.Spec Verif.Model

theorem dropBytes_append (a r : List Char) : dropBytes (a ++ r) (byteLen a) = some r := by
  induction a with
  | nil => cases r <;> rfl
  | cons c a ih =>
    have hc := c.utf8Size_pos
    simp only [List.cons_append, byteLen]
    obtain ⟨k, hk⟩ : ∃ k, c.utf8Size + byteLen a = k + 1 := ⟨c.utf8Size + byteLen a - 1, by omega⟩
    rw [hk]
    simp only [dropBytes]
    rw [if_pos (by omega), show k + 1 - c.utf8Size = byteLen a by omega]
    exact ih

theorem dropBytes_some {text r : List Char} {n : Nat} (h : dropBytes text n = some r) :
    ∃ a, text = a ++ r ∧ byteLen a = n := by
  induction text generalizing n with
  | nil =>
    cases n with
    | zero => simp only [dropBytes, Option.some.injEq] at h; exact ⟨[], by simp [h], rfl⟩
    | succ n => cases h
  | cons c cs ih =>
    cases n with
    | zero => simp only [dropBytes, Option.some.injEq] at h; exact ⟨[], by simp [h], rfl⟩
    | succ n =>
      simp only [dropBytes] at h
      split at h
      · obtain ⟨a, h1, h2⟩ := ih h
        exact ⟨c :: a, by rw [h1]; rfl, by simp only [byteLen, h2]; omega⟩
      · cases h

theorem slice_append (a b c : List Char) :
    slice (a ++ b ++ c) (byteLen a) (byteLen a + byteLen b) = .ok b := by
  unfold slice
  rw [if_neg (by omega), List.append_assoc, dropBytes_append]
  simp only [Nat.add_sub_cancel_left]
  rw [takeBytes_append]

theorem slice_of_eq {text a b c : List Char} {i j : Nat} (h : text = a ++ b ++ c)
    (hi : i = byteLen a) (hj : j = byteLen a + byteLen b) : slice text i j = .ok b := by
  subst h hi hj; exact slice_append a b c

theorem slice_ok {text b : List Char} {i j : Nat} (h : slice text i j = .ok b) :
    ∃ a c, text = a ++ b ++ c ∧ byteLen a = i ∧ byteLen a + byteLen b = j := by
  unfold slice at h
  split at h
  · cases h
  · next hij =>
    split at h
    · cases h
    · next rest hr =>
      split at h
      · cases h
      · next s hs =>
        cases h
        obtain ⟨a, h1, h2⟩ := dropBytes_some hr
        obtain ⟨⟨c, h3⟩, h4⟩ := takeBytes_some hs
        exact ⟨a, c, by rw [h1, ← h3, List.append_assoc], h2, by omega⟩

theorem byteLen_pos {w : List Char} (h : w ≠ []) : 0 < byteLen w := by
  cases w with
  | nil => exact absurd rfl h
  | cons c w => have := c.utf8Size_pos; simp only [byteLen]; omega

/-! ## Words and separators -/

theorem flat_append (a b : List Seg) : flat (a ++ b) = flat a ++ flat b := by
  induction a with
  | nil => rfl
  | cons p a ih => obtain ⟨w, s⟩ := p; simp [flat, ih]

theorem boundariesFrom_append (o : Nat) (a b : List Seg) :
    boundariesFrom o (a ++ b) = boundariesFrom o a ++ boundariesFrom (o + byteLen (flat a)) b := by
  induction a generalizing o with
  | nil => simp [boundariesFrom, flat, byteLen]
  | cons p a ih =>
    obtain ⟨w, s⟩ := p
    simp [boundariesFrom, flat, ih, byteLen_append, Nat.add_assoc]

theorem boundariesFrom_length (o : Nat) (l : List Seg) : (boundariesFrom o l).length = l.length := by
  induction l generalizing o with
  | nil => rfl
  | cons p l ih => obtain ⟨w, s⟩ := p; simp [boundariesFrom, ih]

/-- Segments complete so far (`l`) and the word in progress (`w`). -/
structure Partly (isAlpha : Char → Bool) (l : List Seg) (w : List Char) : Prop where
  words : ∀ p ∈ l, ∀ c ∈ p.1, isAlpha c = true
  seps : ∀ p ∈ l, ∀ c ∈ p.2, isAlpha c = false
  words_ne : ∀ p ∈ l.tail, p.1 ≠ []
  seps_ne : ∀ p ∈ l, p.2 ≠ []
  word : ∀ c ∈ w, isAlpha c = true
  word_ne : l ≠ [] → w ≠ []

theorem Partly.finish {isAlpha : Char → Bool} {l : List Seg} {w : List Char}
    (h : Partly isAlpha l w) (s : List Char) (hs : ∀ c ∈ s, isAlpha c = false) :
    Segmented isAlpha (flat l ++ w ++ s) (l ++ [(w, s)]) where
  ne := by simp
  text_eq := by simp [flat_append, flat]
  words := by
    intro p hp
    rcases List.mem_append.mp hp with hp | hp
    · exact h.words p hp
    · rw [List.mem_singleton.mp hp]; exact h.word
  seps := by
    intro p hp
    rcases List.mem_append.mp hp with hp | hp
    · exact h.seps p hp
    · rw [List.mem_singleton.mp hp]; exact hs
  words_ne := by
    intro p hp
    cases l with
    | nil => simp at hp
    | cons q l =>
      simp only [List.cons_append, List.tail_cons, List.mem_append, List.mem_singleton] at hp
      rcases hp with hp | rfl
      · exact h.words_ne p hp
      · exact h.word_ne (by simp)
  seps_ne := by
    intro p hp
    rw [List.dropLast_concat] at hp
    exact h.seps_ne p hp

theorem Partly.next {isAlpha : Char → Bool} {l : List Seg} {w : List Char}
    (h : Partly isAlpha l w) (s : List Char) (hs : ∀ c ∈ s, isAlpha c = false) (hne : s ≠ [])
    (c : Char) (hc : isAlpha c = true) : Partly isAlpha (l ++ [(w, s)]) [c] := by
  have f := h.finish s hs
  refine ⟨f.words, f.seps, f.words_ne, ?_, by simpa using hc, fun _ => by simp⟩
  intro p hp
  rcases List.mem_append.mp hp with hp | hp
  · exact h.seps_ne p hp
  · rw [List.mem_singleton.mp hp]; exact hne

theorem boundariesLoop_eq {isAlpha : Char → Bool} {text : List Char} (cs : List Char) :
    ∀ (l : List Seg) (w s : List Char), Partly isAlpha l w → (∀ c ∈ s, isAlpha c = false) →
      text = flat l ++ w ++ s ++ cs →
      ∃ (l' : List Seg) (w' s' : List Char),
        boundariesLoop isAlpha text cs (byteLen (flat l ++ w ++ s))
          (if s = [] then none else some (byteLen (flat l ++ w))) (boundariesFrom 0 l)
        = .ok (boundariesFrom 0 l', if s' = [] then none else some (byteLen (flat l' ++ w'))) ∧
        Partly isAlpha l' w' ∧ (∀ c ∈ s', isAlpha c = false) ∧ text = flat l' ++ w' ++ s' := by
  induction cs with
  | nil =>
    intro l w s hp hs ht
    refine ⟨l, w, s, ?_, hp, hs, by simpa using ht⟩
    by_cases h : s = []
    · simp only [h, if_true, boundariesLoop]
    · simp only [h, if_false, boundariesLoop]
  | cons c cs ih =>
    intro l w s hp hs ht
    by_cases h : s = []
    · subst h
      simp only [if_true, boundariesLoop]
      by_cases hc : isAlpha c = true
      · simp only [hc, Bool.not_true, Bool.false_eq_true, if_false]
        have := ih l (w ++ [c]) [] ⟨hp.words, hp.seps, hp.words_ne, hp.seps_ne, ?_, ?_⟩ (by simp)
          (by rw [ht]; simp)
        · simpa [byteLen_append, byteLen, Nat.add_assoc] using this
        · intro d hd
          rcases List.mem_append.mp hd with hd | hd
          · exact hp.word d hd
          · rw [List.mem_singleton.mp hd]; exact hc
        · intro _; simp
      · have hc' : isAlpha c = false := by simpa using hc
        simp only [hc', Bool.not_false, if_true]
        have := ih l w [c] hp (by simpa using hc') (by rw [ht]; simp)
        simpa [byteLen_append, byteLen, Nat.add_assoc] using this
    · simp only [h, if_false, boundariesLoop]
      by_cases hc : isAlpha c = true
      · have hsl : slice text (byteLen (flat l ++ w)) (byteLen (flat l ++ w ++ s)) = .ok s :=
          slice_of_eq ht rfl (by rw [byteLen_append])
        simp only [hc, if_true, hsl, bind, Except.bind]
        have := ih (l ++ [(w, s)]) [c] [] (hp.next s hs h c hc) (by simp)
          (by rw [ht]; simp [flat_append, flat])
        simp only [if_true] at this
        rw [boundariesFrom_append] at this
        simpa [boundariesFrom, byteLen_append, byteLen, flat_append, flat, Nat.add_assoc] using this
      · have hc' : isAlpha c = false := by simpa using hc
        simp only [hc', Bool.false_eq_true, if_false]
        have := ih l w (s ++ [c]) hp (fun d hd => ?_) (by rw [ht]; simp)
        · simpa [byteLen_append, byteLen, Nat.add_assoc] using this
        · rcases List.mem_append.mp hd with hd | hd
          · exact hs d hd
          · rw [List.mem_singleton.mp hd]; exact hc'

theorem findBoundaries_eq (isAlpha : Char → Bool) (text : List Char) :
    ∃ l, Segmented isAlpha text l ∧ findBoundaries isAlpha text = .ok (boundariesFrom 0 l) := by
  obtain ⟨l, w, s, h1, h2, h3, h4⟩ := boundariesLoop_eq (isAlpha := isAlpha) (text := text) text
    [] [] [] ⟨by simp, by simp, by simp, by simp, by simp, by simp⟩ (by simp) (by simp [flat])
  refine ⟨l ++ [(w, s)], h4 ▸ h2.finish s h3, ?_⟩
  simp only [if_true, flat, List.append_nil, byteLen, boundariesFrom] at h1
  unfold findBoundaries
  rw [h1]
  simp only [bind, Except.bind]
  by_cases hs : s = []
  · subst hs
    simp only [if_true, pure, Except.pure]
    rw [boundariesFrom_append]
    simp [boundariesFrom, h4, byteLen_append, byteLen]
  · simp only [hs, if_false]
    have : slice text (byteLen (flat l ++ w)) (byteLen text) = .ok s :=
      slice_of_eq (c := []) (by rw [List.append_nil]; exact h4) rfl (by rw [h4, byteLen_append])
    rw [this]
    simp only [pure, Except.pure]
    rw [boundariesFrom_append]
    simp [boundariesFrom, h4, byteLen_append, Nat.add_assoc]

/-! ## Uniqueness of the segmentation -/

theorem takeWhile_run {q : Char → Bool} {w r : List Char} (hw : ∀ c ∈ w, q c = true)
    (hr : ∀ c, r.head? = some c → q c = false) :
    (w ++ r).takeWhile q = w ∧ (w ++ r).dropWhile q = r := by
  induction w with
  | nil =>
    cases r with
    | nil => simp
    | cons c r => simp [hr c rfl]
  | cons c w ih =>
    have := ih (fun d hd => hw d (by simp [hd]))
    simp only [List.cons_append, List.takeWhile_cons, List.dropWhile_cons, hw c (by simp), if_true]
    exact ⟨by rw [this.1], this.2⟩

theorem segmented_tail {isAlpha : Char → Bool} {text : List Char} {p q : Seg} {l : List Seg}
    (h : Segmented isAlpha text (p :: q :: l)) : Segmented isAlpha (flat (q :: l)) (q :: l) where
  ne := by simp
  text_eq := rfl
  words := fun r hr => h.words r (List.mem_cons_of_mem _ hr)
  seps := fun r hr => h.seps r (List.mem_cons_of_mem _ hr)
  words_ne := fun r hr => h.words_ne r (List.mem_of_mem_tail hr)
  seps_ne := fun r hr => h.seps_ne r (by simp only [List.dropLast]; exact List.mem_cons_of_mem _ hr)

theorem segmented_head {isAlpha : Char → Bool} {text : List Char} {w s : List Char} {l : List Seg}
    (h : Segmented isAlpha text ((w, s) :: l)) :
    w = text.takeWhile isAlpha ∧ s = (text.dropWhile isAlpha).takeWhile (fun c => !isAlpha c) ∧
      flat l = (text.dropWhile isAlpha).dropWhile (fun c => !isAlpha c) ∧
      (l = [] ↔ flat l = []) := by
  have ht : text = w ++ (s ++ flat l) := by rw [← h.text_eq]; simp [flat]
  have hw := h.words (w, s) (by simp)
  have hs := h.seps (w, s) (by simp)
  have hl : ∀ c, (flat l).head? = some c → isAlpha c = true := by
    intro c hc
    cases l with
    | nil => cases hc
    | cons p l =>
      obtain ⟨a, b⟩ := p
      have hne := h.words_ne (a, b) (by simp)
      cases a with
      | nil => exact absurd rfl hne
      | cons d a =>
        simp only [flat, List.cons_append, List.head?_cons, Option.some.injEq] at hc
        exact hc ▸ h.words (d :: a, b) (by simp) d (by simp)
  have hsl : ∀ c, (s ++ flat l).head? = some c → isAlpha c = false := by
    intro c hc
    cases s with
    | nil =>
      cases l with
      | nil => cases hc
      | cons p l => exact absurd rfl (h.seps_ne (w, []) (by simp [List.dropLast]))
    | cons d s =>
      simp only [List.cons_append, List.head?_cons, Option.some.injEq] at hc
      exact hc ▸ hs d (by simp)
  obtain ⟨h1, h2⟩ := takeWhile_run hw hsl
  obtain ⟨h3, h4⟩ := takeWhile_run (q := fun c => !isAlpha c) (w := s) (r := flat l)
    (fun c hc => by simp [hs c hc]) (fun c hc => by simp [hl c hc])
  rw [ht, h1, h2, h3, h4]
  refine ⟨rfl, rfl, rfl, ?_, ?_⟩
  · rintro rfl; rfl
  · intro hf
    cases l with
    | nil => rfl
    | cons p l =>
      have := h.words_ne p (by simp)
      obtain ⟨a, b⟩ := p
      rw [flat, List.append_assoc] at hf
      exact absurd (List.append_eq_nil_iff.mp hf).1 this

theorem segmented_unique {isAlpha : Char → Bool} {text : List Char} {l l' : List Seg}
    (h : Segmented isAlpha text l) (h' : Segmented isAlpha text l') : l = l' := by
  induction l generalizing text l' with
  | nil => exact absurd rfl h.ne
  | cons p l ih =>
    cases l' with
    | nil => exact absurd rfl h'.ne
    | cons q l' =>
      obtain ⟨w, s⟩ := p
      obtain ⟨w', s'⟩ := q
      obtain ⟨a1, a2, a3, a4⟩ := segmented_head h
      obtain ⟨b1, b2, b3, b4⟩ := segmented_head h'
      have e1 : w = w' := a1.trans b1.symm
      have e2 : s = s' := a2.trans b2.symm
      have e3 : flat l = flat l' := a3.trans b3.symm
      subst e1 e2
      cases l with
      | nil =>
        have : l' = [] := b4.mpr (e3 ▸ rfl)
        rw [this]
      | cons p l =>
        cases l' with
        | nil => exact absurd (a4.mpr (e3.trans rfl)) (by simp)
        | cons q l' => rw [ih (segmented_tail h) (e3 ▸ segmented_tail h')]

/-! ## Strengths -/

theorem classifyLoop_spec (len : Nat) (l : List Match) (i j : Nat) (b : Match) (h : l[j]? = some b) :
    ∃ s, (classifyLoop len i l)[j]? = some s ∧ IsStrength (i + j = len - 1) b.text s := by
  induction l generalizing i j with
  | nil => simp at h
  | cons a l ih =>
    cases j with
    | zero =>
      simp only [List.getElem?_cons_zero, Option.some.injEq] at h
      subst h
      refine ⟨_, rfl, ?_⟩
      simp only [Nat.add_zero]
      split
      · exact .inl ‹_›
      · next h1 =>
        split
        · exact .inr (by omega)
        · next h2 =>
          split
          · next h3 => exact ⟨h1, by omega, h3⟩
          · next h3 =>
            push Not at h3
            exact ⟨h1, by omega, h3⟩
    | succ j =>
      obtain ⟨s, h1, h2⟩ := ih (i + 1) j h
      exact ⟨s, h1, by rwa [show i + 1 + j = i + (j + 1) by omega] at h2⟩

theorem classifyLoop_length (len : Nat) (l : List Match) (i : Nat) :
    (classifyLoop len i l).length = l.length := by
  induction l generalizing i with
  | nil => rfl
  | cons a l ih => simp [classifyLoop, ih]

/-! ## Runs of words -/

theorem segmented_infix {isAlpha : Char → Bool} {text : List Char} {a l b : List Seg}
    (h : Segmented isAlpha text (a ++ l ++ b)) (hne : l ≠ []) : Segmented isAlpha (flat l) l where
  ne := hne
  text_eq := rfl
  words := fun p hp => h.words p (by simp [hp])
  seps := fun p hp => h.seps p (by simp [hp])
  words_ne := by
    intro p hp
    apply h.words_ne
    cases a with
    | nil =>
      cases l with
      | nil => cases hp
      | cons q l => simp at hp ⊢; exact .inl hp
    | cons q a => simp [List.mem_of_mem_tail hp]
  seps_ne := by
    intro p hp
    apply h.seps_ne
    cases hb : b with
    | nil =>
      rw [List.append_nil, List.dropLast_append_of_ne_nil hne]
      exact List.mem_append_right _ hp
    | cons q b =>
      rw [List.dropLast_append_of_ne_nil (by simp)]
      simp [List.mem_of_mem_dropLast hp]

theorem stretch_cons {w s : List Char} {l : List Seg} (h : l ≠ []) :
    stretch ((w, s) :: l) = w ++ s ++ stretch l := by
  cases l with
  | nil => exact absurd rfl h
  | cons p l => rfl

theorem flat_eq_stretch (l : List Seg) (w s : List Char) :
    flat (l ++ [(w, s)]) = stretch (l ++ [(w, s)]) ++ s := by
  induction l with
  | nil => simp [flat, stretch]
  | cons p l ih =>
    obtain ⟨a, b⟩ := p
    cases hl : l ++ [(w, s)] with
    | nil => simp at hl
    | cons q l' =>
      rw [hl] at ih
      rw [List.cons_append, hl, flat, ih, stretch_cons (w := a) (s := b) (by simp)]
      simp

theorem stretch_snoc (l : List Seg) (w s : List Char) :
    stretch (l ++ [(w, s)]) = flat l ++ w := by
  induction l with
  | nil => simp [flat, stretch]
  | cons p l ih =>
    obtain ⟨a, b⟩ := p
    cases hl : l ++ [(w, s)] with
    | nil => simp at hl
    | cons q l' =>
      rw [hl] at ih
      simp only [List.cons_append, hl, stretch, ih, flat]
      simp

theorem stretch_prefix_flat (l : List Seg) : stretch l <+: flat l := by
  rcases List.eq_nil_or_concat l with rfl | ⟨l, p, rfl⟩
  · exact List.prefix_refl _
  · obtain ⟨w, s⟩ := p
    rw [List.concat_eq_append, flat_eq_stretch]
    exact List.prefix_append _ _

theorem flat_take_prefix (l : List Seg) (n : Nat) : flat (l.take n) <+: flat l := by
  conv_rhs => rw [← List.take_append_drop n l, flat_append]
  exact List.prefix_append _ _

theorem stretch_take_prefix (l : List Seg) (n : Nat) : stretch (l.take n) <+: stretch l := by
  induction l generalizing n with
  | nil => simp
  | cons p l ih =>
    obtain ⟨w, s⟩ := p
    cases n with
    | zero => simp [stretch]
    | succ n =>
      rw [List.take_succ_cons]
      by_cases hl : l = []
      · subst hl; simp
      · rw [stretch_cons hl]
        by_cases hn : l.take n = []
        · rw [hn, List.append_assoc]; exact List.prefix_append _ _
        · rw [stretch_cons hn]
          exact (List.prefix_append_right_inj _).mpr (ih n)

theorem byteLen_prefix {a b : List Char} (h : a <+: b) : byteLen a ≤ byteLen b := by
  obtain ⟨c, rfl⟩ := h
  rw [byteLen_append]; omega

theorem boundary_at (o : Nat) (l : List Seg) (j : Nat) (b : Match)
    (h : (boundariesFrom o l)[j]? = some b) :
    b.first = o + byteLen (stretch (l.take (j + 1))) ∧
      b.last = o + byteLen (flat (l.take (j + 1))) ∧ b.first ≤ b.last := by
  induction l generalizing o j with
  | nil => simp [boundariesFrom] at h
  | cons p l ih =>
    obtain ⟨w, s⟩ := p
    cases j with
    | zero =>
      simp only [boundariesFrom, List.getElem?_cons_zero, Option.some.injEq] at h
      subst h
      simp [stretch, flat, byteLen_append, Nat.add_assoc]
    | succ j =>
      simp only [boundariesFrom, List.getElem?_cons_succ] at h
      obtain ⟨h1, h2, h3⟩ := ih _ _ h
      have hl : l.take (j + 1) ≠ [] := by
        cases l with
        | nil => simp [boundariesFrom] at h
        | cons q l => simp
      refine ⟨?_, ?_, h3⟩
      · rw [h1, List.take_succ_cons, stretch_cons hl]
        simp [byteLen_append, Nat.add_assoc]
      · rw [h2, List.take_succ_cons, flat]
        simp [byteLen_append, Nat.add_assoc]

theorem stretch_ne_space {isAlpha : Char → Bool} (hsp : isAlpha ' ' = false) {text : List Char}
    {l : List Seg} (h : Segmented isAlpha text l) : stretch l ≠ [' '] := by
  intro e
  match l, h with
  | [(w, s)], h =>
    have := h.words (w, s) (by simp) ' ' (by simp only [stretch] at e; simp [e])
    rw [hsp] at this; cases this
  | (w, s) :: (w', s') :: l, h =>
    have h1 := h.words_ne (w', s') (by simp)
    have h2 := h.seps_ne (w, s) (by simp [List.dropLast])
    have hl : (stretch ((w', s') :: l)).length ≠ 0 := by
      intro h0
      have : w' <+: stretch ((w', s') :: l) := by
        cases l with
        | nil => exact List.prefix_refl _
        | cons q l => simp only [stretch, List.append_assoc]; exact List.prefix_append _ _
      have := this.length_le
      have : w'.length ≠ 0 := by simpa using h1
      omega
    have := congrArg List.length e
    rw [stretch_cons (by simp)] at this
    have : s.length ≠ 0 := by simpa using h2
    simp only [List.length_append, List.length_singleton] at *
    omega

theorem ngramLoop_eq {isAlpha : Char → Bool} (hsp : isAlpha ' ' = false) {text : List Char} {n e : Nat}
    (hn : 1 ≤ n) (cur : List Seg) : ∀ (pre post : List Char) (acc : List Match),
      text = pre ++ flat cur ++ post →
      (cur ≠ [] → e = byteLen pre + byteLen (stretch cur)) →
      (cur ≠ [] → Segmented isAlpha (flat cur) cur) →
      ngramLoop text n e (boundariesFrom (byteLen pre) cur) (byteLen pre) acc =
        .ok (acc ++ runsFrom n (byteLen pre) cur,
          byteLen pre + byteLen (flat (cur.take (cur.length + 1 - n)))) := by
  induction cur with
  | nil => intro pre post acc _ _ _; simp [boundariesFrom, ngramLoop, runsFrom, flat, byteLen]
  | cons p cur ih =>
    intro pre post acc ht he hseg
    obtain ⟨w, s⟩ := p
    have he := he (by simp)
    have hseg := hseg (by simp)
    rw [boundariesFrom, ngramLoop]
    rw [show ({ text := s, first := byteLen pre + byteLen w, last := byteLen pre + byteLen w + byteLen s } :
        Match) :: boundariesFrom (byteLen pre + byteLen w + byteLen s) cur =
        boundariesFrom (byteLen pre) ((w, s) :: cur) from rfl]
    cases hb : (boundariesFrom (byteLen pre) ((w, s) :: cur))[n - 1]? with
    | none =>
      have hlen : ((w, s) :: cur).length < n := by
        rw [List.getElem?_eq_none_iff, boundariesFrom_length] at hb
        omega
      have hruns : ∀ (l : List Seg) (o : Nat), l.length < n → runsFrom n o l = [] := by
        intro l
        induction l with
        | nil => intro o _; rfl
        | cons q l ihl =>
          intro o hl
          rw [runsFrom, if_neg (by omega), ihl _ (by simp at hl; omega)]
          rfl
      rw [hruns _ _ hlen, show ((w, s) :: cur).length + 1 - n = 0 by omega]
      simp [flat, byteLen]
    | some b =>
      have hlen : n ≤ ((w, s) :: cur).length := by
        have := (List.getElem?_eq_some_iff.mp hb).1
        rw [boundariesFrom_length] at this
        omega
      obtain ⟨h1, h2, h3⟩ := boundary_at _ _ _ _ hb
      rw [show n - 1 + 1 = n by omega] at h1 h2
      have hpre := stretch_take_prefix ((w, s) :: cur) n
      have hle := byteLen_prefix hpre
      simp only
      rw [if_neg (by omega)]
      have hsl : slice text (byteLen pre) b.first = .ok (stretch (((w, s) :: cur).take n)) := by
        obtain ⟨r, hr⟩ := hpre.trans (stretch_prefix_flat ((w, s) :: cur))
        refine slice_of_eq (a := pre) (c := r ++ post) ?_ rfl h1
        rw [ht, ← hr]; simp
      rw [hsl]
      simp only [bind, Except.bind]
      have hin : Segmented isAlpha (flat (((w, s) :: cur).take n)) (((w, s) :: cur).take n) := by
        refine segmented_infix (text := flat ((w, s) :: cur)) (a := [])
          (b := ((w, s) :: cur).drop n) ?_ ?_
        · rw [List.nil_append, List.take_append_drop]; exact hseg
        · intro h; simp at h; omega
      have hone := stretch_ne_space hsp hin
      have hng : ngramMatch (stretch (((w, s) :: cur).take n)) n (byteLen pre) b.first =
          if n ≤ ((w, s) :: cur).length ∧ stretch (((w, s) :: cur).take n) ≠ [] then
            [spanAt (byteLen pre) (((w, s) :: cur).take n)] else [] := by
        unfold ngramMatch spanAt
        by_cases h0 : stretch (((w, s) :: cur).take n) = []
        · simp only [h0, ne_eq, not_true_eq_false, false_and, and_false, if_false]
        · rw [if_pos ⟨h0, hone⟩, if_pos ⟨hlen, h0⟩, h1, List.length_take, Nat.min_eq_left hlen]
      have hpre' : byteLen pre + byteLen w + byteLen s = byteLen (pre ++ (w ++ s)) := by
        simp [byteLen_append, Nat.add_assoc]
      have := ih (pre ++ (w ++ s)) post (acc ++ ngramMatch (stretch (((w, s) :: cur).take n)) n
        (byteLen pre) b.first) (by rw [ht]; simp [flat]) ?_ ?_
      · rw [hpre', this, hng, runsFrom, List.append_assoc]
        have e1 : byteLen (pre ++ (w ++ s)) = byteLen pre + byteLen (w ++ s) := byteLen_append _ _
        rw [show ((w, s) :: cur).length + 1 - n = (cur.length + 1 - n) + 1 by
          simp only [List.length_cons] at hlen ⊢; omega, List.take_succ_cons, flat, e1]
        simp only [byteLen_append, Nat.add_assoc]
      · intro hne
        rw [he, stretch_cons hne]
        simp only [byteLen_append, Nat.add_assoc]
      · intro hne
        cases cur with
        | nil => exact absurd rfl hne
        | cons q cur => exact segmented_tail hseg

theorem internalLoop_bounds (m : Match) {lo hi : Nat} (l : List Match) (i : Nat) (b : Option Nat)
    (e : Nat) (h : ∀ j x, l[j]? = some x → x.first > m.first → x.last < m.last →
      lo ≤ i + j ∧ i + j < hi) (hb : ∀ y, b = some y → lo ≤ y) (he : e ≤ hi) :
    (∀ y, (m.internalLoop i l b e).1 = some y → lo ≤ y) ∧ (m.internalLoop i l b e).2 ≤ hi := by
  induction l generalizing i b e with
  | nil => exact ⟨hb, he⟩
  | cons x l ih =>
    have hrec : ∀ j y, l[j]? = some y → y.first > m.first → y.last < m.last →
        lo ≤ i + 1 + j ∧ i + 1 + j < hi := by
      intro j y hj h1 h2
      have := h (j + 1) y hj h1 h2
      omega
    by_cases hc : x.first > m.first ∧ x.last < m.last
    · have h0 := h 0 x rfl hc.1 hc.2
      cases b with
      | none =>
        rw [Match.internalLoop, if_pos hc]
        exact ih (i + 1) _ _ hrec (fun y hy => by cases hy; omega) he
      | some b =>
        rw [Match.internalLoop, if_pos hc]
        exact ih (i + 1) _ _ hrec hb (by omega)
    · cases b with
      | none => rw [Match.internalLoop, if_neg hc]; exact ih (i + 1) _ _ hrec hb he
      | some b => rw [Match.internalLoop, if_neg hc]; exact ih (i + 1) _ _ hrec hb he

theorem internalBoundaries_length (m : Match) {lo hi : Nat} (l : List Match)
    (h : ∀ j x, l[j]? = some x → x.first > m.first → x.last < m.last → lo ≤ j ∧ j < hi) :
    (m.internalBoundaries l).length ≤ hi - lo := by
  have := internalLoop_bounds m (lo := lo) (hi := hi) l 0 none 0 (fun j x hj h1 h2 => by
    have := h j x hj h1 h2; omega) (fun y hy => by cases hy) (Nat.zero_le _)
  unfold Match.internalBoundaries
  split
  · simp
  · next b e heq =>
    rw [heq] at this
    have h1 := this.1 b rfl
    have h2 := this.2
    split
    · simp
    · simp only [List.length_drop, List.length_take]
      simp only at h2
      omega

theorem findMatchNgrams_eq {isAlpha : Char → Bool} (hsp : isAlpha ' ' = false) {n : Nat}
    (hn : 1 ≤ n) {pre post : List Char} {cur : List Seg} (hne : cur ≠ [])
    (hseg : Segmented isAlpha (flat cur) cur) :
    findMatchNgrams (pre ++ flat cur ++ post) (boundariesFrom (byteLen pre) cur) n (byteLen pre)
      (some (byteLen pre + byteLen (stretch cur))) = .ok (runsFrom n (byteLen pre) cur) := by
  unfold findMatchNgrams
  rw [if_neg (by omega)]
  simp only [Option.getD_some]
  rw [ngramLoop_eq hsp hn cur pre post [] rfl (fun _ => rfl) (fun _ => hseg)]
  simp only [bind, Except.bind, List.nil_append]
  split
  · next hlt =>
    set t := cur.length + 1 - n with ht
    obtain ⟨q, hq⟩ : ∃ q, flat (cur.take t) ++ q = stretch cur := by
      obtain ⟨l, p, rfl⟩ := (List.eq_nil_or_concat cur).resolve_left hne
      obtain ⟨w, s⟩ := p
      rw [List.concat_eq_append] at *
      rw [stretch_snoc]
      rcases Nat.lt_or_ge l.length t with h | h
      · have e1 : (l ++ [(w, s)]).take t = l ++ [(w, s)] :=
          List.take_of_length_le (by simp; omega)
        rw [e1, stretch_snoc] at hlt
        have := byteLen_prefix (stretch_prefix_flat (l ++ [(w, s)]))
        rw [stretch_snoc] at this
        omega
      · rw [List.take_append_of_le_length h]
        obtain ⟨r, hr⟩ := flat_take_prefix l t
        exact ⟨r ++ w, by rw [← List.append_assoc, hr]⟩
    have hsl : slice (pre ++ flat cur ++ post) (byteLen pre + byteLen (flat (cur.take t)))
        (byteLen pre + byteLen (stretch cur)) = .ok q := by
      obtain ⟨r, hr⟩ := stretch_prefix_flat cur
      refine slice_of_eq (a := pre ++ flat (cur.take t)) (c := r ++ post) ?_ ?_ ?_
      · rw [← hr, ← hq]; simp
      · rw [byteLen_append]
      · rw [← hq]; simp only [byteLen_append]; omega
    rw [hsl]
    simp only [pure, Except.pure]
    congr 1
    rw [List.append_right_eq_self, List.filter_eq_nil_iff]
    intro g hg
    unfold ngramMatch at hg
    split at hg
    · rw [List.mem_singleton] at hg
      subst hg
      simp only [beq_iff_eq]
      have := internalBoundaries_length ({ text := q, first := byteLen pre + byteLen (flat (cur.take t)), last := byteLen pre + byteLen (stretch cur), n := n } : Match)
        (lo := t) (hi := cur.length - 1) (boundariesFrom (byteLen pre) cur) ?_
      · omega
      · intro j x hj h1 h2
        simp only at h1 h2
        obtain ⟨e1, e2, e3⟩ := boundary_at _ _ _ _ hj
        have hjl := (List.getElem?_eq_some_iff.mp hj).1
        rw [boundariesFrom_length] at hjl
        constructor
        · by_contra hlt'
          have : flat (cur.take (j + 1)) <+: flat (cur.take t) := by
            have := flat_take_prefix (cur.take t) (j + 1)
            rwa [List.take_take, Nat.min_eq_left (by omega)] at this
          have := byteLen_prefix this
          omega
        · by_contra hge
          have : j + 1 = cur.length := by omega
          rw [this, List.take_length] at e1
          omega
    · simp at hg
  · rfl

end Verif.Lemmas
