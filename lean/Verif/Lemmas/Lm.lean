import Verif.Lemmas.Vocab
import Mathlib.Algebra.BigOperators.Group.List.Basic

/-! # Language model counts -/
namespace Verif.Lemmas

open Verif.Model

theorem splitSpaces_ne_nil (t : List Char) : splitSpaces t ≠ [] := by
  cases t with
  | nil => simp [splitSpaces]
  | cons c t =>
    simp only [splitSpaces]
    split
    · simp
    · split <;> simp

theorem splitSpaces_length (t : List Char) : (splitSpaces t).length = spaces t + 1 := by
  induction t with
  | nil => simp [splitSpaces, spaces]
  | cons c t ih =>
    simp only [splitSpaces, spaces, List.countP_cons] at ih ⊢
    by_cases h : c = ' '
    · subst h; simp [ih]
    · simp only [h, if_false, beq_iff_eq]
      split
      · next e => exact absurd e (splitSpaces_ne_nil t)
      · next w ws e =>
        rw [e] at ih
        simpa using ih

/-- The ids of the tokens of an entry. -/
def tokenIds (m : Vm) (v : VocabValue) : List Nat :=
  (splitSpaces v.text).map fun t => (m.encoder.get? t).getD UNK

theorem tokenIds_congr {m m' : Vm} (h : m'.encoder = m.encoder) (v : VocabValue) :
    tokenIds m' v = tokenIds m v := by
  simp only [tokenIds, h]

theorem tokenIds_length (m : Vm) (v : VocabValue) : (tokenIds m v).length = spaces v.text + 1 := by
  simp [tokenIds, splitSpaces_length]

theorem fromList_toVec (g : NGram) : NGram.fromList g.toVec = some g := by cases g <;> rfl

theorem fromList_some {l : List Nat} {g : NGram} (h : NGram.fromList l = some g) : g.toVec = l := by
  unfold NGram.fromList at h
  split at h <;> first | (cases h; rfl) | cases h

theorem fromList_none {l : List Nat} : NGram.fromList l = none ↔ 5 < l.length := by
  match l with
  | [] => simp [NGram.fromList]
  | [_] => simp [NGram.fromList]
  | [_, _] => simp [NGram.fromList]
  | [_, _, _] => simp [NGram.fromList]
  | [_, _, _, _] => simp [NGram.fromList]
  | [_, _, _, _, _] => simp [NGram.fromList]
  | _ :: _ :: _ :: _ :: _ :: _ :: _ => simp [NGram.fromList]

theorem toVec_length (g : NGram) : g.toVec.length = g.len := by cases g <;> rfl

theorem intoNgram_eq {m : Vm} (hinv : Inv m) {id : Nat} {v : VocabValue}
    (hv : m.decoder[id]? = some v) (hs : spaces v.text < 255) (u : Option (HMap (List Char) Nat)) :
    m.intoNgram id u = .ok (NGram.fromList (tokenIds m v), u) := by
  have ht := (hinv.tokens v (List.mem_of_getElem? hv)).1
  rw [Nat.mod_eq_of_lt (by omega)] at ht
  unfold Vm.intoNgram
  simp only [hv]
  split
  · next h5 =>
    have hl := splitSpaces_length v.text
    rw [encodeTokens_eq m _ _ _ (by omega), List.take_of_length_le (by omega)]
    rfl
  · next h5 =>
    rw [fromList_none.mpr (by rw [tokenIds_length]; omega)]

def count (ngrams : HMap NGram Nat) (g : NGram) : Nat := (ngrams.get? g).getD 0

theorem addNgram_count {ng ng' : HMap NGram Nat} {g : NGram} {f : Nat}
    (h : addNgram ng g f = .ok ng') (g' : NGram) :
    count ng' g' = count ng g' + if g = g' then f else 0 := by
  unfold addNgram at h
  split at h
  · next n hn =>
    split at h
    · cases h
    · cases h
      simp only [count, get?_insert]
      by_cases e : g = g'
      · subst e; simp [hn]
      · simp [e]
  · next hn =>
    cases h
    simp only [count, get?_insert]
    by_cases e : g = g'
    · subst e; simp [hn]
    · simp [e]

theorem getD_replicate_append (l : List Nat) (k n : Nat) :
    (l ++ List.replicate k 0).getD n 0 = l.getD n 0 := by
  simp only [List.getD_eq_getElem?_getD]
  by_cases h : n < l.length
  · rw [List.getElem?_append_left h]
  · rw [List.getElem?_append_right (by omega), List.getElem?_eq_none (l := l) (by omega)]
    by_cases h2 : n - l.length < k
    · simp [h2]
    · rw [List.getElem?_eq_none (by simp; omega)]

theorem addFreqSum_get {s s' : List Nat} {len f : Nat} (h : addFreqSum s len f = .ok s')
    (hlen : 1 ≤ len) (n : Nat) : s'.getD n 0 = s.getD n 0 + if n = len - 1 then f else 0 := by
  unfold addFreqSum at h
  simp only at h
  have hi : (if len > 1 then len - 1 else 0) = len - 1 := by split <;> omega
  rw [hi] at h
  generalize hs2 : (if len > 1 then s ++ List.replicate (len - s.length) 0 else s) = s2 at h
  have hg : ∀ n, s2.getD n 0 = s.getD n 0 := by
    intro n
    subst hs2
    split
    · exact getD_replicate_append _ _ _
    · rfl
  split at h
  · cases h
  · next x hx =>
    cases h
    rw [← hg n]
    simp only [List.getD_eq_getElem?_getD]
    by_cases e : n = len - 1
    · subst e; rw [getElem?_set_self' hx, hx]; simp
    · rw [List.getElem?_set_ne (Ne.symm e)]; simp [e]

/-- what an entry contributes to the count of an n-gram -/
def contrib (m : Vm) (g : NGram) (v : VocabValue) : Nat :=
  if v.vocabtype.lm = true ∧ tokenIds m v = g.toVec then v.frequency else 0

/-- what an entry contributes to the total of order `n + 1` -/
def contribSum (n : Nat) (v : VocabValue) : Nat :=
  if v.vocabtype.lm = true ∧ spaces v.text = n ∧ n < 5 then v.frequency else 0

theorem check_lm (t : VocabType) : t.check .LM = t.lm := by
  obtain ⟨a, b, c⟩ := t
  cases a <;> cases b <;> cases c <;> rfl

theorem lmStep_eq {m m' : Vm} (hinv : Inv m) {id : Nat} {v : VocabValue}
    (hv : m.decoder[id]? = some v) (hs : spaces v.text < 255) {u u' : Option (HMap (List Char) Nat)}
    (h : m.lmStep id u = .ok (m', u')) :
    (∀ g, count m'.ngrams g = count m.ngrams g + contrib m g v) ∧
    (∀ n, m'.freqSum.getD n 0 = m.freqSum.getD n 0 + contribSum n v) := by
  unfold Vm.lmStep at h
  simp only [hv, check_lm, intoNgram_eq hinv hv hs] at h
  have hlen := tokenIds_length m v
  split at h
  · next hlm =>
    simp only [bind_ok] at h
    obtain ⟨⟨g0, u1⟩, h1, h2⟩ := h
    cases h1
    split at h2
    · next hn =>
      cases h2
      have h5 := fromList_none.mp hn
      refine ⟨fun g => ?_, fun n => ?_⟩
      · have : tokenIds m v ≠ g.toVec := by
          intro e
          rw [e, fromList_toVec] at hn; cases hn
        simp [contrib, this]
      · rw [contribSum, if_neg (by omega)]; simp
    · next g0 hg =>
      simp only [bind_ok, pure_ok, Prod.mk.injEq] at h2
      obtain ⟨fs, hfs, ng, hng, rfl, _⟩ := h2
      have hvec := fromList_some hg
      have hl : g0.len = spaces v.text + 1 := by rw [← toVec_length, hvec, hlen]
      refine ⟨fun g => ?_, fun n => ?_⟩
      · rw [addNgram_count hng]
        congr 1
        unfold contrib
        by_cases e : g0 = g
        · subst e; simp [hlm, hvec]
        · rw [if_neg e, if_neg]
          rintro ⟨_, e2⟩
          rw [e2, fromList_toVec] at hg
          cases hg; exact e rfl
      · rw [addFreqSum_get hfs (by omega)]
        congr 1
        have h5 : ¬ 5 < (tokenIds m v).length := by
          intro h5; rw [fromList_none.mpr h5] at hg; cases hg
        unfold contribSum
        by_cases e : n = g0.len - 1
        · rw [if_pos e, if_pos ⟨hlm, by omega, by omega⟩]
        · rw [if_neg e, if_neg (by omega)]
  · next hlm =>
    cases h
    simp [contrib, contribSum, hlm]

theorem SameButLm.decoder {m m' : Vm} (h : SameButLm m m') : m'.decoder = m.decoder := by
  unfold SameButLm at h; rw [h]
theorem SameButLm.encoder {m m' : Vm} (h : SameButLm m m') : m'.encoder = m.encoder := by
  unfold SameButLm at h; rw [h]

theorem lmLoop_eq {m m' : Vm} (hinv : Inv m) {ids : List Nat}
    (hs : ∀ v ∈ m.decoder, spaces v.text < 255) {u u' : Option (HMap (List Char) Nat)}
    (h : m.lmLoop ids u = .ok (m', u')) :
    (∀ g, count m'.ngrams g = count m.ngrams g +
      (ids.map fun i => ((m.decoder[i]?).map (contrib m g)).getD 0).sum) ∧
    (∀ n, m'.freqSum.getD n 0 = m.freqSum.getD n 0 +
      (ids.map fun i => ((m.decoder[i]?).map (contribSum n)).getD 0).sum) := by
  induction ids generalizing m u with
  | nil => cases h; simp
  | cons id ids ih =>
    simp only [Vm.lmLoop, bind_ok] at h
    obtain ⟨⟨m1, u1⟩, h1, h2⟩ := h
    obtain ⟨_, hsame, hf, _⟩ := lmStep_cases h1
    have hinv1 := hsame.inv (hf hinv.freqSum) hinv
    have hd := hsame.decoder
    have he := hsame.encoder
    have hc : ∀ g, contrib m1 g = contrib m g := by
      intro g; funext v; simp only [contrib, tokenIds_congr he]
    obtain ⟨a, b⟩ := ih hinv1 (by rw [hd]; exact hs) h2
    cases hv : m.decoder[id]? with
    | none => simp [Vm.lmStep, hv] at h1
    | some v =>
      obtain ⟨c, d⟩ := lmStep_eq hinv hv (hs v (List.mem_of_getElem? hv)) h1
      refine ⟨fun g => ?_, fun n => ?_⟩
      · rw [a g, c g, hd, hc]
        simp only [List.map_cons, List.sum_cons, hv, Option.map_some, Option.getD_some]
        omega
      · rw [b n, d n, hd]
        simp only [List.map_cons, List.sum_cons, hv, Option.map_some, Option.getD_some]
        omega

theorem range_map_getD {α : Type} (l : List α) (f : α → Nat) :
    (List.range l.length).map (fun i => ((l[i]?).map f).getD 0) = l.map f := by
  apply List.ext_getElem
  · simp
  · intro i h1 h2
    simp at h1 h2
    simp [h1]

theorem build_counts {m m' : Vm} {o : Orders} (hinv : Inv m)
    (hs : ∀ v ∈ m.decoder, spaces v.text < 255) (h : m.build o = .ok m') :
    (∀ g, count m'.ngrams g = count m.ngrams g + (m.decoder.map (contrib m g)).sum) ∧
    (∀ n, m'.freqSum.getD n 0 = m.freqSum.getD n 0 + (m.decoder.map (contribSum n)).sum) := by
  simp only [Vm.build, bind_ok] at h
  obtain ⟨m1, h1, h2⟩ := h
  have a1 := buildIndex_cases h1
  have hd : m1.decoder = m.decoder := by rw [a1]
  have he : m1.encoder = m.encoder := by rw [a1]
  have hg : m1.ngrams = m.ngrams := by rw [a1]
  have hf : m1.freqSum = m.freqSum := by rw [a1]
  have hinv1 : Inv m1 := by
    rw [a1]
    exact ⟨hinv.bij, hinv.bos, hinv.eos, hinv.unk, hinv.notIndexed, hinv.tokens, hinv.freqSum⟩
  obtain ⟨m2, hl, rfl, _⟩ := buildLm_cases h2
  obtain ⟨b1, b2⟩ := lmLoop_eq hinv1 (by rw [hd]; exact hs) hl
  have hc : ∀ g, contrib m1 g = contrib m g := by
    intro g; funext v; simp only [contrib, tokenIds_congr he]
  refine ⟨fun g => ?_, fun n => ?_⟩
  · have := b1 g
    rw [range_map_getD, hd, hc, hg] at this
    exact this
  · have := b2 n
    rw [range_map_getD, hd, hf] at this
    exact this

end Verif.Lemmas
