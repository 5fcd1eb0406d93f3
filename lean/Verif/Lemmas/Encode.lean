import Verif.Lemmas.Bag
import Verif.Spec.Alphabet

/-! # The hashing and normalisation loops follow the greedy encoding -/
namespace Verif.Lemmas

open Verif.Spec Verif.Model

theorem byteLen_append (a b : List Char) : byteLen (a ++ b) = byteLen a + byteLen b := by
  induction a with
  | nil => simp [byteLen]
  | cons c a ih => simp [byteLen, ih, Nat.add_assoc]

theorem byteLen_eq_zero {a : List Char} : byteLen a = 0 ↔ a = [] := by
  cases a with
  | nil => simp [byteLen]
  | cons c a =>
    have := Char.utf8Size_pos c
    simp [byteLen]; omega

theorem takeBytes_append (e rest : List Char) : takeBytes (e ++ rest) (byteLen e) = some e := by
  induction e with
  | nil => cases rest <;> simp [takeBytes, byteLen]
  | cons c e ih =>
    have := Char.utf8Size_pos c
    simp only [List.cons_append, takeBytes, byteLen]
    rw [if_neg (by omega), if_pos (by omega), Nat.add_sub_cancel_left, ih]
    rfl

theorem takeBytes_some {text e : List Char} {n : Nat} (h : takeBytes text n = some e) :
    e <+: text ∧ byteLen e = n := by
  induction text generalizing n e with
  | nil =>
    simp only [takeBytes] at h
    split at h
    · next h0 => cases h; exact ⟨List.prefix_refl _, by simp [byteLen, h0]⟩
    · cases h
  | cons c text ih =>
    simp only [takeBytes] at h
    split at h
    · next h0 => cases h; exact ⟨List.nil_prefix, by simp [byteLen, h0]⟩
    · split at h
      · next h1 =>
        rcases ho : takeBytes text (n - c.utf8Size) with _ | e'
        · rw [ho] at h; cases h
        · rw [ho] at h; cases h
          obtain ⟨hp, hb⟩ := ih ho
          refine ⟨?_, by simp only [byteLen, hb]; omega⟩
          obtain ⟨t, rfl⟩ := hp
          exact ⟨t, rfl⟩
      · cases h

theorem takeBytes_iff {text e : List Char} :
    takeBytes text (byteLen e) = some e ↔ e <+: text := by
  constructor
  · intro h; exact (takeBytes_some h).1
  · rintro ⟨rest, rfl⟩; exact takeBytes_append e rest

theorem matchElement_cons (rest x : List Char) (entry : List (List Char)) :
    matchElement rest (x :: entry) =
      if x <+: rest then some x.length else matchElement rest entry := by
  simp only [matchElement]
  split
  · next slice h =>
    by_cases hx : x <+: rest
    · rw [if_pos hx]
      rw [takeBytes_iff.mpr hx] at h
      cases h; rw [if_pos rfl]
    · rw [if_neg hx, if_neg]
      rintro rfl
      exact hx (takeBytes_some h).1
  · next h =>
    rw [if_neg]
    intro hx
    rw [takeBytes_iff.mpr hx] at h; cases h

theorem matchElement_some {rest : List Char} {entry : List (List Char)} {n : Nat}
    (h : matchElement rest entry = some n) :
    ∃ pre e post, entry = pre ++ e :: post ∧ (∀ x ∈ pre, ¬ x <+: rest) ∧ e <+: rest ∧
      n = e.length := by
  induction entry with
  | nil => cases h
  | cons x entry ih =>
    rw [matchElement_cons] at h
    split at h
    · next hx => cases h; exact ⟨[], x, entry, rfl, by simp, hx, rfl⟩
    · next hx =>
      obtain ⟨pre, e, post, rfl, h1, h2, h3⟩ := ih h
      refine ⟨x :: pre, e, post, rfl, ?_, h2, h3⟩
      intro y hy
      rcases List.mem_cons.mp hy with rfl | hy
      · exact hx
      · exact h1 y hy

theorem matchElement_none {rest : List Char} {entry : List (List Char)} :
    matchElement rest entry = none ↔ ∀ x ∈ entry, ¬ x <+: rest := by
  induction entry with
  | nil => simp [matchElement]
  | cons x entry ih =>
    rw [matchElement_cons]
    split
    · next hx => simp [hx]
    · next hx => simp [hx, ih]

theorem matchElement_hit {rest e : List Char} {pre post : List (List Char)}
    (hpre : ∀ x ∈ pre, ¬ x <+: rest) (he : e <+: rest) :
    matchElement rest (pre ++ e :: post) = some e.length := by
  induction pre with
  | nil => rw [List.nil_append, matchElement_cons, if_pos he]
  | cons x pre ih =>
    rw [List.cons_append, matchElement_cons, if_neg (hpre x (by simp))]
    exact ih fun y hy => hpre y (by simp [hy])

theorem matchAlphabet_some {rest : List Char} {alphabet : Alphabet} {k s n : Nat}
    (h : matchAlphabet rest alphabet k = some (s, n)) :
    ∃ i e, s = k + i ∧ FirstMatch alphabet rest i e ∧ n = e.length ∧ i < alphabet.length := by
  induction alphabet generalizing k with
  | nil => cases h
  | cons entry alphabet ih =>
    simp only [matchAlphabet] at h
    split at h
    · next n' hn =>
      cases h
      obtain ⟨pre, e, post, rfl, h1, h2, h3⟩ := matchElement_some hn
      refine ⟨0, e, rfl, ⟨⟨pre, post, rfl, h1⟩, h2, ?_⟩, h3, by simp⟩
      intro j hj; omega
    · next hn =>
      obtain ⟨i, e, rfl, hf, h3, h4⟩ := ih h
      refine ⟨i + 1, e, by omega, ⟨?_, hf.isPrefix, ?_⟩, h3, by simpa using h4⟩
      · obtain ⟨pre, post, hp, hp'⟩ := hf.hit
        exact ⟨pre, post, by simpa using hp, hp'⟩
      · intro j hj entry' he'
        cases j with
        | zero =>
          simp only [List.getElem?_cons_zero, Option.some.injEq] at he'
          subst he'
          exact matchElement_none.mp hn
        | succ j =>
          rw [List.getElem?_cons_succ] at he'
          exact hf.earlier j (by omega) entry' he'

theorem matchAlphabet_hit {rest e : List Char} {alphabet : Alphabet} {i : Nat}
    (h : FirstMatch alphabet rest i e) (k : Nat) :
    matchAlphabet rest alphabet k = some (k + i, e.length) := by
  induction alphabet generalizing i k with
  | nil => obtain ⟨_, _, h, _⟩ := h.hit; simp at h
  | cons entry alphabet ih =>
    simp only [matchAlphabet]
    cases i with
    | zero =>
      obtain ⟨pre, post, hp, hp'⟩ := h.hit
      simp only [List.getElem?_cons_zero, Option.some.injEq] at hp
      subst hp
      rw [matchElement_hit hp' h.isPrefix]
      rfl
    | succ i =>
      have hn : matchElement rest entry = none :=
        matchElement_none.mpr (h.earlier 0 (by omega) entry rfl)
      rw [hn]
      simp only []
      rw [ih (i := i) ⟨?_, h.isPrefix, ?_⟩ (k + 1)]
      · congr 2; omega
      · obtain ⟨pre, post, hp, hp'⟩ := h.hit
        exact ⟨pre, post, by simpa using hp, hp'⟩
      · intro j hj entry' he'
        exact h.earlier (j + 1) (by omega) entry' (by simpa using he')

theorem matchAlphabet_none {rest : List Char} {alphabet : Alphabet} {k : Nat} :
    matchAlphabet rest alphabet k = none ↔ ∀ entry ∈ alphabet, ∀ x ∈ entry, ¬ x <+: rest := by
  induction alphabet generalizing k with
  | nil => simp [matchAlphabet]
  | cons entry alphabet ih =>
    simp only [matchAlphabet]
    split
    · next n hn =>
      obtain ⟨pre, e, post, rfl, _, h2, _⟩ := matchElement_some hn
      simp only [reduceCtorEq, false_iff]
      intro h
      exact h (pre ++ e :: post) (by simp) e (by simp) h2
    · next hn =>
      rw [ih]
      simp only [List.forall_mem_cons]
      exact ⟨fun h => ⟨matchElement_none.mp hn, h⟩, fun h => h.2⟩

theorem firstMatch_lt {alphabet : Alphabet} {rest e : List Char} {i : Nat}
    (h : FirstMatch alphabet rest i e) : i < alphabet.length := by
  obtain ⟨_, _, h, _⟩ := h.hit
  exact (List.getElem?_eq_some_iff.mp h).1

/-- codes are line numbers or the unknown code -/
theorem encodes_codes {alphabet : Alphabet} {unk : Nat} {text : List Char} {codes : List Nat}
    (h : Encodes alphabet unk text codes) : ∀ c ∈ codes, c < alphabet.length ∨ c = unk := by
  induction h with
  | nil => intro c hc; cases hc
  | hit h _ _ ih =>
    intro c hc
    rcases List.mem_cons.mp hc with rfl | hc
    · exact .inl (firstMatch_lt h)
    · exact ih c hc
  | miss _ _ ih =>
    intro c hc
    rcases List.mem_cons.mp hc with rfl | hc
    · exact .inr rfl
    · exact ih c hc

theorem encodes_change {alphabet : Alphabet} {unk : Nat} {text : List Char} {codes : List Nat}
    (h : Encodes alphabet unk text codes) (unk' : Nat) :
    Encodes alphabet unk' text (codes.map fun c => if c < alphabet.length then c else unk') ∨
      unk < alphabet.length := by
  by_cases hu : unk < alphabet.length
  · exact .inr hu
  · left
    induction h with
    | nil => exact .nil
    | hit h hne _ ih =>
      rw [List.map_cons, if_pos (firstMatch_lt h)]
      exact .hit h hne ih
    | miss h _ ih =>
      rw [List.map_cons, if_neg hu]
      exact .miss h ih

theorem encodes_exists {alphabet : Alphabet} (hne : NoEmpty alphabet) (unk : Nat) :
    ∀ text : List Char, ∃ codes, Encodes alphabet unk text codes := by
  intro text
  induction hn : text.length using Nat.strong_induction_on generalizing text with
  | _ n ih =>
    cases text with
    | nil => exact ⟨[], .nil⟩
    | cons c cs =>
      rcases hm : matchAlphabet (c :: cs) alphabet 0 with _ | ⟨s, k⟩
      · obtain ⟨codes, hc⟩ := ih cs.length (by simp at hn; omega) cs rfl
        exact ⟨unk :: codes, .miss (matchAlphabet_none.mp hm) hc⟩
      · obtain ⟨i, e, _, hf, _, hi⟩ := matchAlphabet_some hm
        have he : e ≠ [] := by
          rintro rfl
          obtain ⟨pre, post, hp, _⟩ := hf.hit
          exact hne _ (List.mem_of_getElem? hp) (by simp)
        obtain ⟨rest, hr⟩ := hf.isPrefix
        have hpos : 0 < e.length := List.length_pos_iff.mpr he
        have hl : e.length + rest.length = (c :: cs).length := by rw [← hr]; simp
        obtain ⟨codes, hc⟩ := ih rest.length (by omega) rest rfl
        rw [← hr] at hf ⊢
        exact ⟨i :: codes, .hit hf he hc⟩

theorem firstMatch_unique {alphabet : Alphabet} {rest e e' : List Char} {i i' : Nat}
    (h : FirstMatch alphabet rest i e) (h' : FirstMatch alphabet rest i' e') : i = i' ∧ e = e' := by
  have h1 := matchAlphabet_hit h 0
  have h2 := matchAlphabet_hit h' 0
  rw [h1] at h2
  simp only [Nat.zero_add, Option.some.injEq, Prod.mk.injEq] at h2
  refine ⟨h2.1, ?_⟩
  obtain ⟨r, hr⟩ := h.isPrefix
  obtain ⟨r', hr'⟩ := h'.isPrefix
  exact (List.append_inj (hr.trans hr'.symm) h2.2).1

theorem encodes_unique {alphabet : Alphabet} {unk : Nat} {text : List Char} {codes codes' : List Nat}
    (h : Encodes alphabet unk text codes) (h' : Encodes alphabet unk text codes') :
    codes = codes' := by
  induction h generalizing codes' with
  | nil =>
    generalize ht : ([] : List Char) = t at h'
    cases h' with
    | nil => rfl
    | hit _ hne _ => exact absurd (List.append_eq_nil_iff.mp ht.symm).1 hne
    | miss => cases ht
  | @hit i e rest codes hf hne _ ih =>
    generalize ht : e ++ rest = t at h'
    cases h' with
    | nil => exact absurd (List.append_eq_nil_iff.mp ht).1 hne
    | @hit i' e' rest' codes' hf' _ hr' =>
      rw [← ht] at hf'
      obtain ⟨rfl, rfl⟩ := firstMatch_unique hf hf'
      have := List.append_cancel_left ht
      subst this
      rw [ih hr']
    | @miss c rest' codes' hm _ =>
      rw [← ht] at hm
      obtain ⟨pre, post, hp, _⟩ := hf.hit
      exact absurd hf.isPrefix (hm _ (List.mem_of_getElem? hp) e (by simp))
  | @miss c rest codes hm _ ih =>
    generalize ht : c :: rest = t at h'
    cases h' with
    | nil => cases ht
    | @hit i' e' rest' codes' hf' _ hr' =>
      rw [← ht] at hf'
      obtain ⟨pre, post, hp, _⟩ := hf'.hit
      exact absurd hf'.isPrefix (hm _ (List.mem_of_getElem? hp) e' (by simp))
    | miss _ hr' =>
      cases ht
      rw [ih hr']

theorem anahashLoop_skip (alphabet : Alphabet) (e rest : List Char) (h : Nat) :
    anahashLoop alphabet (e ++ rest) e.length h = anahashLoop alphabet rest 0 h := by
  induction e with
  | nil => rfl
  | cons c e ih =>
    simp only [List.cons_append, anahashLoop, List.length_cons]
    rw [if_pos (by omega), Nat.add_sub_cancel, ih]

theorem normalizeLoop_skip (alphabet : Alphabet) (e rest : List Char) :
    normalizeLoop alphabet (e ++ rest) e.length = normalizeLoop alphabet rest 0 := by
  induction e with
  | nil => rfl
  | cons c e ih =>
    simp only [List.cons_append, normalizeLoop, List.length_cons]
    rw [if_pos (by omega), Nat.add_sub_cancel, ih]

theorem anahashLoop_eq {alphabet : Alphabet} (hlen : alphabet.length ≤ 167) {text : List Char}
    {codes : List Nat} (h : Encodes alphabet alphabet.length text codes) (acc : Nat)
    (hacc : acc ≠ 0) :
    anahashLoop alphabet text 0 acc = .ok (acc * bagValue codes) := by
  induction h generalizing acc with
  | nil => simp [anahashLoop]
  | @hit i e rest codes hf hne _ ih =>
    cases e with
    | nil => exact absurd rfl hne
    | cons c e =>
      have hi := (firstMatch_lt hf)
      have hm := matchAlphabet_hit hf 0
      simp only [List.cons_append] at hm ⊢
      simp only [anahashLoop, gt_iff_lt, Nat.lt_irrefl, if_false, hm, Nat.zero_add]
      rw [Nat.mod_eq_of_lt (by omega), character_eq (by omega)]
      simp only [List.length_cons, Nat.add_eq_zero_iff, one_ne_zero, and_false, if_false,
        Nat.add_sub_cancel]
      have hp := (symPrime_prime (i := i) (by omega)).pos
      rw [anahashLoop_skip, anaInsert, if_neg hacc, ih _ (Nat.mul_ne_zero hacc hp.ne'), bagValue_cons,
        Nat.mul_assoc]
  | @miss c rest codes hm _ ih =>
    have hn := (matchAlphabet_none (k := 0)).mpr hm
    simp only [anahashLoop, gt_iff_lt, Nat.lt_irrefl, if_false, hn]
    rw [Nat.mod_eq_of_lt (by omega), character_eq (by omega)]
    have hp := (symPrime_prime (i := alphabet.length) (by omega)).pos
    simp only []
    rw [anaInsert, if_neg hacc, ih _ (Nat.mul_ne_zero hacc hp.ne'), bagValue_cons, Nat.mul_assoc]

theorem anahash_eq {alphabet : Alphabet} (hlen : alphabet.length ≤ 167) {text : List Char}
    {codes : List Nat} (h : Encodes alphabet alphabet.length text codes) :
    anahash alphabet text = .ok (bagValue codes) := by
  rw [anahash, anahashLoop_eq hlen h anaEmpty (by decide)]; simp [anaEmpty]

theorem normalize_eq {alphabet : Alphabet} (hlen : alphabet.length ≤ 254) {text : List Char}
    {codes : List Nat} (h : Encodes alphabet (alphabet.length + 1) text codes) :
    normalizeToAlphabet alphabet text = .ok codes := by
  rw [normalizeToAlphabet]
  induction h with
  | nil => simp [normalizeLoop]
  | @hit i e rest codes hf hne _ ih =>
    cases e with
    | nil => exact absurd rfl hne
    | cons c e =>
      have hi := (firstMatch_lt hf)
      have hm := matchAlphabet_hit hf 0
      simp only [List.cons_append] at hm ⊢
      simp only [normalizeLoop, gt_iff_lt, Nat.lt_irrefl, if_false, hm, Nat.zero_add,
        List.length_cons, Nat.add_eq_zero_iff, one_ne_zero, and_false, Nat.add_sub_cancel]
      rw [normalizeLoop_skip, ih]
      simp only []
      rw [Nat.mod_eq_of_lt (by omega)]
  | @miss c rest codes hm _ ih =>
    have hn := (matchAlphabet_none (k := 0)).mpr hm
    simp only [normalizeLoop, gt_iff_lt, Nat.lt_irrefl, if_false, hn]
    rw [if_neg (by omega), ih]
    simp only []
    rw [Nat.mod_eq_of_lt (by omega)]

theorem encodes_within {alphabet : Alphabet} {text : List Char} {codes : List Nat}
    (h : Encodes alphabet alphabet.length text codes) : Within (alphabet.length + 1) codes := by
  intro c hc
  rcases encodes_codes h c hc with h | h <;> omega

end Verif.Lemmas
