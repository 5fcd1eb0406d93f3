import Verif.Lemmas.Edit
import Verif.Model.Distance

/-! # The matrix algorithm computes the least alignment cost -/
namespace Verif.Lemmas

open Verif.Spec Verif.Model

/-- 1-based position of the last occurrence of `c` in the word whose reversal is `r`, or 0.
(If `r = w ++ c :: r'` with `c ∉ w` it is `r'.length + 1`.) -/
def lastPos (c : Nat) : List Nat → Nat
  | [] => 0
  | x :: r => if c = x then r.length + 1 else lastPos c r

theorem lastPos_le (c : Nat) (r : List Nat) : lastPos c r ≤ r.length := by
  induction r with
  | nil => simp [lastPos]
  | cons x r ih => simp only [lastPos, List.length_cons]; split <;> omega

theorem lastPos_spec (c : Nat) (r : List Nat) :
    (c ∉ r ∧ lastPos c r = 0) ∨
    (∃ w r', r = w ++ c :: r' ∧ c ∉ w ∧ lastPos c r = r'.length + 1) := by
  induction r with
  | nil => exact .inl ⟨by simp, rfl⟩
  | cons x r ih =>
    by_cases h : c = x
    · subst h
      exact .inr ⟨[], r, rfl, by simp, by simp [lastPos]⟩
    · rcases ih with ⟨h1, h2⟩ | ⟨w, r', rfl, h1, h2⟩
      · exact .inl ⟨by simp [h, h1], by simp [lastPos, h, h2]⟩
      · exact .inr ⟨x :: w, r', rfl, by simp [h, h1], by simp only [lastPos, h, if_false, h2]⟩

/-- contents of the matrix after the rows for the (reversed) prefix `rs` are filled -/
structure MatOk (ub : Nat) (m : Mat) (rs rt : List Nat) : Prop where
  row0 : ∀ y, m 0 y = ub
  col0 : ∀ x, m x 0 = ub
  col1 : ∀ x, m (x + 1) 1 = x
  cell : ∀ r r', r <:+ rs → r' <:+ rt → m (r.length + 1) (r'.length + 1) = dist True r r'

/-- the new cell of the matrix -/
theorem cell_value {ub : Nat} {m : Mat} {rs rt : List Nat} (h : MatOk ub m rs rt)
    (a b : Nat) (r' : List Nat) (hr' : r' <:+ rt)
    (hub : rs.length + 1 + (r'.length + 1) ≤ ub)
    (hleft : m (rs.length + 2) (r'.length + 1) = dist True (a :: rs) r')
    (hup : m (rs.length + 1) (r'.length + 2) = dist True rs (b :: r')) :
    min4 (m (rs.length + 2) (r'.length + 1) + 1) (m (rs.length + 1) (r'.length + 2) + 1)
      (m (rs.length + 1) (r'.length + 1) + (if a = b then 0 else 1))
      (m (lastPos b rs) (lastPos a r') + (rs.length + 1 - lastPos b rs - 1) + 1 +
        (r'.length + 1 - lastPos a r' - 1)) = dist True (a :: rs) (b :: r') := by
  have hdiag := h.cell rs r' (List.suffix_refl _) hr'
  rw [hleft, hup, hdiag]
  have hmax := dist_le_max (sw := True) (a :: rs) (b :: r')
  simp only [List.length_cons] at hmax
  have hle := dist_cons_cons_le (sw := True) a b rs r'
  rcases lastPos_spec b rs with ⟨hn, h0⟩ | ⟨w, s', hrs, hw, hp⟩
  · have := dist_cons_cons_noocc (sw := True) a b (s := rs) (t := r') (.inl hn)
    rw [h0, h.row0]
    unfold min4; omega
  · rcases lastPos_spec a r' with ⟨hn, h0⟩ | ⟨v, t', hrt, hv, hq⟩
    · have := dist_cons_cons_noocc (sw := True) a b (s := rs) (t := r') (.inr hn)
      rw [h0, h.col0]
      unfold min4; omega
    · have hc := h.cell s' t' (by rw [hrs]; exact ⟨w ++ [b], by simp⟩)
        (List.IsSuffix.trans (by rw [hrt]; exact ⟨v ++ [a], by simp⟩) hr')
      have := dist_cons_cons_occ (sw := True) trivial a b (w := w) (s' := s') (v := v) (t' := t')
        hw hv
      rw [← hrs, ← hrt] at this
      have l1 : rs.length = w.length + (s'.length + 1) := by rw [hrs]; simp
      have l2 : r'.length = v.length + (t'.length + 1) := by rw [hrt]; simp
      rw [hp, hq, hc, this]
      unfold min4; omega

/-- state inside the inner loop: cells of the current row are filled up to the prefix `rp` of `t` -/
structure RowOk (ub : Nat) (m : Mat) (a : Nat) (rs rt rp : List Nat) : Prop where
  base : MatOk ub m rs rt
  row : ∀ r', r' <:+ rp → m (rs.length + 2) (r'.length + 1) = dist True (a :: rs) r'

theorem dlInner_ok {lenS lenT ub a : Nat} {rs : List Nat} {charMap : Nat → Option Nat}
    (hlenS : rs.length + 1 ≤ lenS) (hub : lenS + lenT ≤ ub)
    (hmap : ∀ c, (charMap c).getD 0 = lastPos c rs) :
    ∀ (ts rp rt : List Nat) (m : Mat), ts.reverse ++ rp = rt → rt.length = lenT →
      RowOk ub m a rs rt rp →
      ∃ m', dlInner lenS lenT (rs.length + 1) a charMap ts rp.length (lastPos a rp) m = .ok m' ∧
        RowOk ub m' a rs rt rt := by
  intro ts
  induction ts with
  | nil =>
    intro rp rt m h _ hm
    simp only [List.reverse_nil, List.nil_append] at h
    subst h
    exact ⟨m, rfl, hm⟩
  | cons b ts ih =>
    intro rp rt m h hlt hm
    have hrp : (b :: rp) <:+ rt := ⟨ts.reverse, by rw [← h]; simp⟩
    have hrp' : rp <:+ rt := List.IsSuffix.trans ⟨[b], rfl⟩ hrp
    have hlen : rp.length + 1 ≤ lenT := by
      have := hrp.length_le; simp at this; omega
    have hl1 := lastPos_le b rs
    have hl2 := lastPos_le a rp
    simp only [dlInner, hmap]
    rw [if_pos (by omega), if_pos (by omega)]
    have hval := cell_value hm.base a b rp hrp' (by omega)
      (hm.row rp (List.suffix_refl _))
      (by have := hm.base.cell rs (b :: rp) (List.suffix_refl _) hrp; simpa using this)
    have e1 : rs.length + 1 + 1 = rs.length + 2 := by omega
    have e2 : rp.length + 1 + 1 = rp.length + 2 := by omega
    have hdb : (if (if a = b then 0 else 1) = 0 then rp.length + 1 else lastPos a rp) =
        lastPos a (b :: rp) := by
      simp only [lastPos]; by_cases hab : a = b <;> simp [hab]
    rw [e1, e2, hval, hdb]
    refine ih (b :: rp) rt _ (by rw [← h]; simp) hlt ?_
    refine ⟨⟨?_, ?_, ?_, ?_⟩, ?_⟩
    · intro y; simp [Mat.put, hm.base.row0]
    · intro x; simp [Mat.put, hm.base.col0]
    · intro x
      simp only [Mat.put]
      rw [if_neg (by omega)]; exact hm.base.col1 x
    · intro r r' hr hr'
      have := hr.length_le
      simp only [Mat.put]
      rw [if_neg (by omega)]; exact hm.base.cell r r' hr hr'
    · intro r' hr'
      simp only [Mat.put]
      rcases List.suffix_cons_iff.mp hr' with rfl | hr'
      · rw [if_pos (by simp)]
      · have := hr'.length_le
        rw [if_neg (by omega)]; exact hm.row r' hr'

theorem dlOuter_ok {lenS lenT ub : Nat} {t : List Nat} (hub : lenS + lenT ≤ ub)
    (hlenS : lenS ≤ 255) (hlt : t.length = lenT) :
    ∀ (ss rs : List Nat) (charMap : Nat → Option Nat) (m : Mat),
      rs.length + ss.length = lenS → (∀ c, (charMap c).getD 0 = lastPos c rs) →
      MatOk ub m rs t.reverse →
      ∃ m', dlOuter lenS lenT t ss rs.length charMap m = .ok m' ∧
        MatOk ub m' (ss.reverse ++ rs) t.reverse := by
  intro ss
  induction ss with
  | nil => intro rs charMap m _ _ hm; exact ⟨m, rfl, by simpa using hm⟩
  | cons a ss ih =>
    intro rs charMap m hl hmap hm
    simp only [List.length_cons] at hl
    have hrow : RowOk ub m a rs t.reverse [] := by
      refine ⟨hm, ?_⟩
      intro r' hr'
      have : r' = [] := List.suffix_nil.mp hr'
      subst this
      rw [dist_nil_right]; exact hm.col1 _
    obtain ⟨m', h1, h2⟩ := dlInner_ok (lenS := lenS) (lenT := lenT) (ub := ub) (a := a)
      (by omega) hub hmap t [] t.reverse m (by simp) (by simpa using hlt) hrow
    simp only [List.length_nil, lastPos] at h1
    simp only [dlOuter, h1]
    have := ih (a :: rs) (fun c => if c = a then some ((rs.length + 1) % 256) else charMap c) m'
      (by simp only [List.length_cons]; omega) ?_ ?_
    · simpa using this
    · intro c
      simp only [lastPos]
      by_cases hc : c = a
      · simp only [hc, if_true, Option.getD_some]; exact Nat.mod_eq_of_lt (by omega)
      · simp only [hc, if_false]; exact hmap c
    · refine ⟨h2.base.row0, h2.base.col0, h2.base.col1, ?_⟩
      intro r r' hr hr'
      rcases List.suffix_cons_iff.mp hr with rfl | hr
      · simpa using h2.row r' hr'
      · exact h2.base.cell r r' hr hr'

theorem dlInit_ok (ub : Nat) (rt : List Nat) : MatOk ub (dlInit ub) [] rt := by
  refine ⟨fun y => by simp [dlInit], fun x => by simp [dlInit], fun x => by simp [dlInit], ?_⟩
  intro r r' hr _
  have : r = [] := List.suffix_nil.mp hr
  subst this
  rw [dist_nil_left]
  simp only [dlInit]
  simp only [List.length_nil, Nat.zero_add, Nat.add_eq_zero_iff, one_ne_zero, and_false, or_self,
    if_false, Nat.add_sub_cancel]
  split
  · omega
  · simp

theorem damerau_eq (s t : List Nat) (k : Nat) (hk : k ≤ 255) (hs : s.length ≤ 255) :
    damerauLevenshtein s t k =
      .ok (if dist True s t ≤ k then some (dist True s t) else none) := by
  have hlen := dist_length (sw := True) s t
  unfold damerauLevenshtein
  by_cases ha : s.length = 0
  · have : s = [] := List.length_eq_zero_iff.mp ha
    subst this
    rw [if_pos ha, dist_nil_left]
    by_cases h : t.length > k
    · rw [if_pos h, if_neg (by omega)]
    · rw [if_neg h, if_pos (by omega), Nat.mod_eq_of_lt (by omega)]
  · rw [if_neg ha]
    split
    · next h => rw [if_neg]; omega
    · split
      · next hb =>
        have : t = [] := List.length_eq_zero_iff.mp hb
        subst this
        rw [dist_nil_right]
        by_cases h : s.length > k
        · rw [if_pos h, if_neg (by omega)]
        · rw [if_neg h, if_pos (by omega), Nat.mod_eq_of_lt (by omega)]
      · next hb =>
        split
        · next h => rw [if_neg]; omega
        · obtain ⟨m', h1, h2⟩ := dlOuter_ok (lenS := s.length) (lenT := t.length)
            (ub := t.length + s.length) (t := t) (by omega) hs rfl s [] (fun _ => none)
            (dlInit (t.length + s.length)) (by simp) (fun c => rfl) (dlInit_ok _ _)
          simp only [List.length_nil] at h1
          rw [h1]
          have hc := h2.cell s.reverse t.reverse (by simp) (List.suffix_refl _)
          simp only [List.length_reverse, dist_reverse] at hc
          simp only [hc]
          by_cases h : dist True s t > k
          · rw [if_pos h, if_neg (by omega)]
          · rw [if_neg h, if_pos (by omega), Nat.mod_eq_of_lt (by omega)]

/-! ## Strings of any length: never below the true distance, never a panic -/

/-- lower and upper bounds for the contents of the matrix -/
structure MatGe (ub : Nat) (m : Mat) (rs rt : List Nat) : Prop where
  row0 : ∀ y, m 0 y = ub
  col0 : ∀ x, m x 0 = ub
  col1 : ∀ x, m (x + 1) 1 = x
  cell : ∀ r r', r <:+ rs → r' <:+ rt → dist True r r' ≤ m (r.length + 1) (r'.length + 1)
  le : ∀ r r', r <:+ rs → r' <:+ rt → m (r.length + 1) (r'.length + 1) ≤ dist False r r'

theorem drop_suffix_dist (z s t : List Nat) : dist True (z ++ s) t ≤ dist True s t + z.length := by
  have := dist_dels_inss (sw := True) z [] s t
  simpa using this

theorem cell_value_ge {ub : Nat} {m : Mat} {rs rt : List Nat} (h : MatGe ub m rs rt)
    (a b : Nat) (r' : List Nat) (hr' : r' <:+ rt) (last : Nat) (hlast : last ≤ lastPos b rs)
    (hub : rs.length + 1 + (r'.length + 1) ≤ ub)
    (hleft : dist True (a :: rs) r' ≤ m (rs.length + 2) (r'.length + 1))
    (hup : dist True rs (b :: r') ≤ m (rs.length + 1) (r'.length + 2)) :
    dist True (a :: rs) (b :: r') ≤
    min4 (m (rs.length + 2) (r'.length + 1) + 1) (m (rs.length + 1) (r'.length + 2) + 1)
      (m (rs.length + 1) (r'.length + 1) + (if a = b then 0 else 1))
      (m last (lastPos a r') + (rs.length + 1 - last - 1) + 1 +
        (r'.length + 1 - lastPos a r' - 1)) := by
  have hdiag := h.cell rs r' (List.suffix_refl _) hr'
  have hmax := dist_le_max (sw := True) (a :: rs) (b :: r')
  simp only [List.length_cons] at hmax
  have hle := dist_cons_cons_le (sw := True) a b rs r'
  by_cases hl0 : last = 0
  · rw [hl0, h.row0]
    unfold min4; omega
  · rcases lastPos_spec b rs with ⟨hn, h0⟩ | ⟨w, s', hrs, hw, hp⟩
    · omega
    · rcases lastPos_spec a r' with ⟨hn, h0⟩ | ⟨v, t', hrt, hv, hq⟩
      · rw [h0, h.col0]
        unfold min4; omega
      · have hsuf : s'.drop (s'.length + 1 - last) <:+ rs :=
          List.IsSuffix.trans (List.drop_suffix _ _) (by rw [hrs]; exact ⟨w ++ [b], by simp⟩)
        have hc := h.cell _ t' hsuf
          (List.IsSuffix.trans (by rw [hrt]; exact ⟨v ++ [a], by simp⟩) hr')
        have htr := dist_trans_le (sw := True) trivial (a := a) (b := b) (w := w) (s' := s')
          (v := v) (t' := t')
        rw [← hrs, ← hrt] at htr
        have hd := drop_suffix_dist (s'.take (s'.length + 1 - last))
          (s'.drop (s'.length + 1 - last)) t'
        rw [List.take_append_drop] at hd
        simp only [List.length_drop, List.length_take] at hc hd
        have l1 : rs.length = w.length + (s'.length + 1) := by rw [hrs]; simp
        have l2 : r'.length = v.length + (t'.length + 1) := by rw [hrt]; simp
        have e : s'.length - (s'.length + 1 - last) + 1 = last := by omega
        rw [e] at hc
        rw [hq]
        have hm1 : min (s'.length + 1 - last) s'.length ≤ s'.length + 1 - last := min_le_left _ _
        unfold min4; omega

theorem cell_value_le {ub : Nat} {m : Mat} {rs rt : List Nat} (h : MatGe ub m rs rt)
    (a b : Nat) (r' : List Nat) (hr' : r' <:+ rt) (n : Nat)
    (hleft : m (rs.length + 2) (r'.length + 1) ≤ dist False (a :: rs) r')
    (hup : m (rs.length + 1) (r'.length + 2) ≤ dist False rs (b :: r')) :
    min4 (m (rs.length + 2) (r'.length + 1) + 1) (m (rs.length + 1) (r'.length + 2) + 1)
      (m (rs.length + 1) (r'.length + 1) + (if a = b then 0 else 1)) n ≤
      dist False (a :: rs) (b :: r') := by
  have hdiag := h.le rs r' (List.suffix_refl _) hr'
  rw [dist_cons_cons_lev (sw := False) (fun h => h) a b rs r']
  unfold min4; omega

structure RowGe (ub : Nat) (m : Mat) (a : Nat) (rs rt rp : List Nat) : Prop where
  base : MatGe ub m rs rt
  row : ∀ r', r' <:+ rp → dist True (a :: rs) r' ≤ m (rs.length + 2) (r'.length + 1)
  le : ∀ r', r' <:+ rp → m (rs.length + 2) (r'.length + 1) ≤ dist False (a :: rs) r'

/-- cells to the right in the row above are still available -/
theorem dlInner_ge {lenS lenT ub a : Nat} {rs : List Nat} {charMap : Nat → Option Nat}
    (hlenS : rs.length + 1 ≤ lenS) (hub : lenS + lenT ≤ ub)
    (hmap : ∀ c, (charMap c).getD 0 ≤ lastPos c rs) :
    ∀ (ts rp rt : List Nat) (m : Mat), ts.reverse ++ rp = rt → rt.length = lenT →
      RowGe ub m a rs rt rp →
      ∃ m', dlInner lenS lenT (rs.length + 1) a charMap ts rp.length (lastPos a rp) m = .ok m' ∧
        RowGe ub m' a rs rt rt := by
  intro ts
  induction ts with
  | nil =>
    intro rp rt m h _ hm
    simp only [List.reverse_nil, List.nil_append] at h
    subst h
    exact ⟨m, rfl, hm⟩
  | cons b ts ih =>
    intro rp rt m h hlt hm
    have hrp : (b :: rp) <:+ rt := ⟨ts.reverse, by rw [← h]; simp⟩
    have hrp' : rp <:+ rt := List.IsSuffix.trans ⟨[b], rfl⟩ hrp
    have hlen : rp.length + 1 ≤ lenT := by
      have := hrp.length_le; simp at this; omega
    have hl1 := lastPos_le b rs
    have hl2 := lastPos_le a rp
    have hl3 := hmap b
    simp only [dlInner]
    rw [if_pos (by omega), if_pos (by omega)]
    have hval := cell_value_ge hm.base a b rp hrp' _ hl3 (by omega)
      (hm.row rp (List.suffix_refl _))
      (by have := hm.base.cell rs (b :: rp) (List.suffix_refl _) hrp; simpa using this)
    have hval' := cell_value_le hm.base a b rp hrp'
      (m ((charMap b).getD 0) (lastPos a rp) + (rs.length + 1 - (charMap b).getD 0 - 1) + 1 +
        (rp.length + 1 - lastPos a rp - 1)) (hm.le rp (List.suffix_refl _))
      (by have := hm.base.le rs (b :: rp) (List.suffix_refl _) hrp; simpa using this)
    have hdb : (if (if a = b then 0 else 1) = 0 then rp.length + 1 else lastPos a rp) =
        lastPos a (b :: rp) := by
      simp only [lastPos]; by_cases hab : a = b <;> simp [hab]
    rw [hdb]
    refine ih (b :: rp) rt _ (by rw [← h]; simp) hlt ?_
    refine ⟨⟨?_, ?_, ?_, ?_, ?_⟩, ?_, ?_⟩
    · intro y; simp [Mat.put, hm.base.row0]
    · intro x; simp [Mat.put, hm.base.col0]
    · intro x
      simp only [Mat.put]
      rw [if_neg (by omega)]; exact hm.base.col1 x
    · intro r r' hr hr'
      have := hr.length_le
      simp only [Mat.put]
      rw [if_neg (by omega)]; exact hm.base.cell r r' hr hr'
    · intro r r' hr hr'
      have := hr.length_le
      simp only [Mat.put]
      rw [if_neg (by omega)]; exact hm.base.le r r' hr hr'
    · intro r' hr'
      simp only [Mat.put]
      rcases List.suffix_cons_iff.mp hr' with rfl | hr'
      · rw [if_pos (by simp)]; exact hval
      · have := hr'.length_le
        rw [if_neg (by omega)]; exact hm.row r' hr'
    · intro r' hr'
      simp only [Mat.put]
      rcases List.suffix_cons_iff.mp hr' with rfl | hr'
      · rw [if_pos (by simp)]; exact hval'
      · have := hr'.length_le
        rw [if_neg (by omega)]; exact hm.le r' hr'

theorem dlOuter_ge {lenS lenT ub : Nat} {t : List Nat} (hub : lenS + lenT ≤ ub)
    (hlt : t.length = lenT) :
    ∀ (ss rs : List Nat) (charMap : Nat → Option Nat) (m : Mat),
      rs.length + ss.length = lenS → (∀ c, (charMap c).getD 0 ≤ lastPos c rs) →
      MatGe ub m rs t.reverse →
      ∃ m', dlOuter lenS lenT t ss rs.length charMap m = .ok m' ∧
        MatGe ub m' (ss.reverse ++ rs) t.reverse := by
  intro ss
  induction ss with
  | nil => intro rs charMap m _ _ hm; exact ⟨m, rfl, by simpa using hm⟩
  | cons a ss ih =>
    intro rs charMap m hl hmap hm
    simp only [List.length_cons] at hl
    have hrow : RowGe ub m a rs t.reverse [] := by
      refine ⟨hm, ?_, ?_⟩ <;> intro r' hr' <;> obtain rfl : r' = [] := List.suffix_nil.mp hr' <;>
        rw [dist_nil_right]
      · exact le_of_eq (hm.col1 _).symm
      · exact le_of_eq (hm.col1 _)
    obtain ⟨m', h1, h2⟩ := dlInner_ge (lenS := lenS) (lenT := lenT) (ub := ub) (a := a)
      (by omega) hub hmap t [] t.reverse m (by simp) (by simpa using hlt) hrow
    simp only [List.length_nil, lastPos] at h1
    simp only [dlOuter, h1]
    have := ih (a :: rs) (fun c => if c = a then some ((rs.length + 1) % 256) else charMap c) m'
      (by simp only [List.length_cons]; omega) ?_ ?_
    · simpa using this
    · intro c
      simp only [lastPos]
      by_cases hc : c = a
      · simp only [hc, if_true, Option.getD_some]; exact Nat.mod_le _ _
      · simp only [hc, if_false]; exact hmap c
    · refine ⟨h2.base.row0, h2.base.col0, h2.base.col1, ?_, ?_⟩ <;> intro r r' hr hr' <;>
        rcases List.suffix_cons_iff.mp hr with rfl | hr
      · simpa using h2.row r' hr'
      · exact h2.base.cell r r' hr hr'
      · simpa using h2.le r' hr'
      · exact h2.base.le r r' hr hr'

theorem capped_bounds {lo hi k v : Nat} (hk : k ≤ 255) (h1 : lo ≤ v) (h2 : v ≤ hi) :
    (∀ d, (if v > k then none else some (v % 256)) = some d → lo ≤ d ∧ d ≤ hi ∧ d ≤ k) ∧
    ((if v > k then none else some (v % 256)) = none → k < hi) := by
  constructor
  · intro d hd
    split at hd
    · cases hd
    · rw [Nat.mod_eq_of_lt (by omega)] at hd
      cases hd; omega
  · intro hd
    split at hd
    · omega
    · cases hd

theorem damerau_ge (s t : List Nat) (k : Nat) (hk : k ≤ 255) :
    ∃ o, damerauLevenshtein s t k = .ok o ∧
      (∀ d, o = some d → dist True s t ≤ d ∧ d ≤ dist False s t ∧ d ≤ k) ∧
      (o = none → k < dist False s t) := by
  have hlen := dist_length (sw := False) s t
  unfold damerauLevenshtein
  by_cases ha : s.length = 0
  · have : s = [] := List.length_eq_zero_iff.mp ha
    subst this
    rw [if_pos ha, dist_nil_left, dist_nil_left]
    exact ⟨_, rfl, capped_bounds hk le_rfl le_rfl⟩
  · rw [if_neg ha]
    split
    · exact ⟨_, rfl, by simp, fun _ => by omega⟩
    · split
      · next hb =>
        have : t = [] := List.length_eq_zero_iff.mp hb
        subst this
        rw [dist_nil_right, dist_nil_right]
        exact ⟨_, rfl, capped_bounds hk le_rfl le_rfl⟩
      · split
        · exact ⟨_, rfl, by simp, fun _ => by omega⟩
        · have hinit := dlInit_ok (t.length + s.length) t.reverse
          obtain ⟨m', h1, h2⟩ := dlOuter_ge (lenS := s.length) (lenT := t.length)
            (ub := t.length + s.length) (t := t) (by omega) rfl s [] (fun _ => none)
            (dlInit (t.length + s.length)) (by simp) (fun c => by simp)
            ⟨hinit.row0, hinit.col0, hinit.col1, fun r r' h h' => le_of_eq (hinit.cell r r' h h').symm,
              fun r r' h h' => by
                rw [hinit.cell r r' h h']
                obtain rfl : r = [] := List.suffix_nil.mp h
                rw [dist_nil_left, dist_nil_left]⟩
          simp only [List.length_nil] at h1
          rw [h1]
          have hc := h2.cell s.reverse t.reverse (by simp) (List.suffix_refl _)
          have hc' := h2.le s.reverse t.reverse (by simp) (List.suffix_refl _)
          simp only [List.length_reverse, dist_reverse] at hc hc'
          exact ⟨_, rfl, capped_bounds hk hc hc'⟩

end Verif.Lemmas
