import Verif.Lemmas.Nearest
import Verif.Props.Distance
import Verif.Spec.Candidate

/-! # Gathering the candidates -/
namespace Verif.Lemmas

open Verif.Spec Verif.Model Verif.Props

/-- the distance computed by the code -/
def mkDistance (w : Weights) (qs ns : List Nat) (ld : Nat) (samecase : Bool) : Distance :=
  { ld
    lcs := if w.lcs > 0 then longestCommonSubstringLength qs ns else 0
    prefixlen := if w.pre > 0 then commonPrefixLength qs ns else 0
    suffixlen := if w.suf > 0 then commonSuffixLength qs ns else 0
    samecase }

theorem isDistance_iff {isLower : Char → Bool} {w : Weights} {qs ns : List Nat}
    {query text : List Char} {ld : Nat} {sc : Bool} (hld : IsDamerau qs ns ld)
    (hsc : sameCase isLower w text query = .ok sc) (d : Distance) :
    IsDistance isLower w qs query ns text d ↔ d = mkDistance w qs ns ld sc := by
  have p := common_prefix_exact qs ns
  have s := common_suffix_exact qs ns
  have l := longest_common_substring_exact qs ns
  have hcase : (0 < w.case → ∃ a b, text.head? = some a ∧ query.head? = some b ∧
      (sc = true ↔ (isLower a = true ↔ isLower b = true))) ∧ (w.case ≤ 0 → sc = true) := by
    unfold sameCase at hsc
    constructor
    · intro hw
      rw [if_pos hw] at hsc
      split at hsc
      · next a b ha hb =>
        cases hsc
        refine ⟨a, b, ha, hb, ?_⟩
        rw [beq_iff_eq]
        exact Bool.eq_iff_iff
      · cases hsc
    · intro hw
      rw [if_neg (not_lt.mpr hw)] at hsc
      cases hsc; rfl
  constructor
  · intro h
    obtain ⟨dld, dl, dp, ds, dc⟩ := d
    have e1 : dld = ld := h.ld.unique hld
    have e2 : dl = if w.lcs > 0 then longestCommonSubstringLength qs ns else 0 := by
      split
      · next hw => exact (h.lcs hw).unique l
      · next hw => exact h.lcs0 (not_lt.mp hw)
    have e3 : dp = if w.pre > 0 then commonPrefixLength qs ns else 0 := by
      split
      · next hw => exact (h.pre hw).unique p
      · next hw => exact h.pre0 (not_lt.mp hw)
    have e4 : ds = if w.suf > 0 then commonSuffixLength qs ns else 0 := by
      split
      · next hw => exact (h.suf hw).unique s
      · next hw => exact h.suf0 (not_lt.mp hw)
    have e5 : dc = sc := by
      rcases lt_or_ge 0 w.case with hw | hw
      · obtain ⟨a, b, h1, h2, h3⟩ := h.case hw
        obtain ⟨a', b', h1', h2', h3'⟩ := hcase.1 hw
        rw [h1] at h1'; cases h1'
        rw [h2] at h2'; cases h2'
        rw [Bool.eq_iff_iff]
        exact h3.trans h3'.symm
      · exact (h.case0 hw).trans (hcase.2 hw).symm
    rw [e1, e2, e3, e4, e5, mkDistance]
  · rintro rfl
    refine ⟨hld, fun hw => ?_, fun hw => ?_, fun hw => ?_, fun hw => ?_, fun hw => ?_,
      fun hw => ?_, hcase.1, hcase.2⟩
    · rw [mkDistance]; simp only [if_pos (show w.lcs > 0 from hw)]; exact l
    · rw [mkDistance]; simp only [if_neg (not_lt.mpr hw)]
    · rw [mkDistance]; simp only [if_pos (show w.pre > 0 from hw)]; exact p
    · rw [mkDistance]; simp only [if_neg (not_lt.mpr hw)]
    · rw [mkDistance]; simp only [if_pos (show w.suf > 0 from hw)]; exact s
    · rw [mkDistance]; simp only [if_neg (not_lt.mpr hw)]

theorem sameCase_ok (isLower : Char → Bool) (w : Weights) {text query : List Char}
    (h : 0 < w.case → text ≠ [] ∧ query ≠ []) : ∃ sc, sameCase isLower w text query = .ok sc := by
  unfold sameCase
  split
  · next hw =>
    obtain ⟨h1, h2⟩ := h hw
    cases text with
    | nil => exact absurd rfl h1
    | cons a _ =>
      cases query with
      | nil => exact absurd rfl h2
      | cons b _ => exact ⟨_, rfl⟩
  · exact ⟨_, rfl⟩

theorem inU16_ok {n : Nat} (h : n < 65536) : inU16 n = .ok n := if_pos h

theorem inU16_iff {n k : Nat} : inU16 n = .ok k ↔ n < 65536 ∧ k = n := by
  unfold inU16
  split
  · next h => simp [h, eq_comm]
  · next h => simp [h]

theorem gatherNode_spec (m : Vm) (isLower : Char → Bool) (w : Weights) {qs : List Nat}
    {query : List Char} {cap : Nat} (hcap : cap ≤ 255) (hq : qs.length ≤ 255)
    (hquery : 0 < w.case → query ≠ []) (ids : List Nat)
    (hids : ∀ id ∈ ids, ∃ v, m.decoder[id]? = some v ∧ (0 < w.case → v.text ≠ [])) :
    ∃ l, m.gatherNode isLower w qs query cap ids = .ok l ∧ (l.map Prod.fst).Sublist ids ∧
      ∀ id d, (id, d) ∈ l ↔ id ∈ ids ∧ ∃ v, m.decoder[id]? = some v ∧
        IsDistance isLower w qs query v.norm v.text d ∧ d.ld ≤ cap := by
  induction ids with
  | nil => exact ⟨[], rfl, by simp, by simp⟩
  | cons id ids ih =>
    obtain ⟨l, h1, h2, h3⟩ := ih fun i hi => hids i (List.mem_cons_of_mem _ hi)
    obtain ⟨v, hv, ht⟩ := hids id List.mem_cons_self
    obtain ⟨o, ho, _⟩ := damerau_sound_any_length qs v.norm cap hcap
    simp only [Vm.gatherNode, hv, ho, bind, Except.bind]
    cases o with
    | none =>
      refine ⟨l, h1, h2.trans (List.sublist_cons_self _ _), fun i d => ?_⟩
      rw [h3]
      constructor
      · rintro ⟨hi, h⟩; exact ⟨List.mem_cons_of_mem _ hi, h⟩
      · rintro ⟨hi, v', hv', hd, hle⟩
        rcases List.mem_cons.mp hi with rfl | hi
        · rw [hv] at hv'; cases hv'
          have := (damerau_none qs v.norm cap hcap hq).mp ho _ hd.ld.1
          omega
        · exact ⟨hi, v', hv', hd, hle⟩
    | some ld =>
      obtain ⟨sc, hsc⟩ := sameCase_ok isLower w (text := v.text) (query := query)
        fun hw => ⟨ht hw, hquery hw⟩
      have hld := (damerau_exact qs v.norm cap hcap hq ld).mp ho
      have hiff := isDistance_iff hld.1 hsc
      obtain ⟨b1, b2, b3, _⟩ := common_lengths_bounds qs v.norm
      rw [inU16_ok (n := if w.lcs > 0 then longestCommonSubstringLength qs v.norm else 0) (by split <;> omega),
        inU16_ok (n := if w.pre > 0 then commonPrefixLength qs v.norm else 0) (by split <;> omega),
        inU16_ok (n := if w.suf > 0 then commonSuffixLength qs v.norm else 0) (by split <;> omega)]
      simp only [hsc, h1]
      refine ⟨_, rfl, ?_, fun i d => ?_⟩
      · rw [List.map_cons]; exact h2.cons_cons _
      · rw [List.mem_cons, h3]
        constructor
        · rintro (e | ⟨hi, h⟩)
          · rw [Prod.mk.injEq] at e
            obtain ⟨rfl, hd⟩ := e
            refine ⟨List.mem_cons_self, v, hv, (hiff d).mpr hd, ?_⟩
            rw [hd]; exact hld.2
          · exact ⟨List.mem_cons_of_mem _ hi, h⟩
        · rintro ⟨hi, v', hv', hd, hle⟩
          rcases List.mem_cons.mp hi with rfl | hi
          · rw [hv] at hv'; cases hv'
            left
            rw [(hiff d).mp hd]; rfl
          · exact .inr ⟨hi, v', hv', hd, hle⟩

theorem gatherInstances_spec {alphabet : Alphabet} {m : Vm} (hb : Built alphabet m)
    (isLower : Char → Bool) (w : Weights) {qs : List Nat}
    {query : List Char} {cap : Nat} (hcap : cap ≤ 255) (hq : qs.length ≤ 255)
    (hquery : 0 < w.case → query ≠ []) (near : List Nat) (hnd : near.Nodup)
    (hnear : ∀ k ∈ near, (m.index.get? k).isSome)
    (htext : 0 < w.case → ∀ v ∈ m.decoder, v.vocabtype.indexed = true →
      ∀ k ∈ near, anahash alphabet v.text = .ok k → v.text ≠ []) :
    ∃ l, m.gatherInstances isLower w qs query cap near = .ok l ∧ (l.map Prod.fst).Nodup ∧
      ∀ id d, (id, d) ∈ l ↔ ∃ v, m.decoder[id]? = some v ∧ v.vocabtype.indexed = true ∧
        (∃ k ∈ near, anahash alphabet v.text = .ok k) ∧
        IsDistance isLower w qs query v.norm v.text d ∧ d.ld ≤ cap := by
  induction near with
  | nil => exact ⟨[], rfl, by simp, by simp⟩
  | cons k near ih =>
    rw [List.nodup_cons] at hnd
    obtain ⟨l', h1, h2, h3⟩ := ih hnd.2 (fun j hj => hnear j (List.mem_cons_of_mem _ hj))
      (fun hw v hv hi j hj => htext hw v hv hi j (List.mem_cons_of_mem _ hj))
    obtain ⟨node, hn⟩ := Option.isSome_iff_exists.mp (hnear k List.mem_cons_self)
    obtain ⟨_, n1, n2, _⟩ := hb.node k node hn
    obtain ⟨l, g1, g2, g3⟩ := gatherNode_spec m isLower w hcap hq hquery node.instances (by
      intro id hid
      obtain ⟨v, hv, hi, ha⟩ := (n2 id).mp hid
      exact ⟨v, hv, fun hw => htext hw v (List.mem_of_getElem? hv) hi k List.mem_cons_self ha⟩)
    simp only [Vm.gatherInstances, hn, g1, h1, bind, Except.bind]
    refine ⟨_, rfl, ?_, fun id d => ?_⟩
    · rw [List.map_append, List.nodup_append]
      refine ⟨g2.nodup (n1.imp fun h => Nat.ne_of_lt h), h2, ?_⟩
      intro x hx y hy e
      subst e
      obtain ⟨⟨i, d⟩, hp, rfl⟩ := List.mem_map.mp hx
      obtain ⟨⟨i', d'⟩, hp', hii⟩ := List.mem_map.mp hy
      simp only at hii
      subst hii
      obtain ⟨hi, _⟩ := (g3 _ _).mp hp
      obtain ⟨v, hv, _, ha⟩ := (n2 _).mp hi
      obtain ⟨v', hv', _, ⟨k', hk', ha'⟩, _⟩ := (h3 _ _).mp hp'
      rw [hv] at hv'; cases hv'
      rw [ha] at ha'
      cases ha'
      exact hnd.1 hk'
    · rw [List.mem_append, g3, h3]
      constructor
      · rintro (⟨hi, v, hv, hd, hle⟩ | ⟨v, hv, hi, ⟨k', hk', ha⟩, hd, hle⟩)
        · obtain ⟨v', hv', hi, ha⟩ := (n2 _).mp hi
          rw [hv] at hv'; cases hv'
          exact ⟨v, hv, hi, ⟨k, List.mem_cons_self, ha⟩, hd, hle⟩
        · exact ⟨v, hv, hi, ⟨k', List.mem_cons_of_mem _ hk', ha⟩, hd, hle⟩
      · rintro ⟨v, hv, hi, ⟨k', hk', ha⟩, hd, hle⟩
        rcases List.mem_cons.mp hk' with rfl | hk'
        · exact .inl ⟨(n2 id).mpr ⟨v, hv, hi, ha⟩, v, hv, hd, hle⟩
        · exact .inr ⟨v, hv, hi, ⟨k', hk', ha⟩, hd, hle⟩

/-! ## Queries of any length -/

theorem gatherNode_any (m : Vm) (isLower : Char → Bool) (w : Weights) {qs : List Nat}
    {query : List Char} {cap : Nat} (hcap : cap ≤ 255) (hq : qs.length < 65536)
    (hquery : 0 < w.case → query ≠ []) (ids : List Nat)
    (hids : ∀ id ∈ ids, ∃ v, m.decoder[id]? = some v ∧ (0 < w.case → v.text ≠ [])) :
    ∃ l, m.gatherNode isLower w qs query cap ids = .ok l ∧ (l.map Prod.fst).Sublist ids ∧
      ∀ id ∈ ids, ∀ v, m.decoder[id]? = some v → v.norm = qs → ∀ d,
        IsDistance isLower w qs query qs v.text d → (id, d) ∈ l := by
  induction ids with
  | nil => exact ⟨[], rfl, by simp, by simp⟩
  | cons id ids ih =>
    obtain ⟨l, h1, h2, h3⟩ := ih fun i hi => hids i (List.mem_cons_of_mem _ hi)
    obtain ⟨v, hv, ht⟩ := hids id List.mem_cons_self
    obtain ⟨o, ho, _⟩ := damerau_sound_any_length qs v.norm cap hcap
    simp only [Vm.gatherNode, hv, ho, bind, Except.bind]
    cases o with
    | none =>
      refine ⟨l, h1, h2.trans (List.sublist_cons_self _ _), fun i hi v' hv' hn d hd => ?_⟩
      rcases List.mem_cons.mp hi with rfl | hi
      · rw [hv] at hv'; cases hv'
        rw [hn, damerau_self qs cap hcap] at ho
        cases ho
      · exact h3 i hi v' hv' hn d hd
    | some ld =>
      obtain ⟨sc, hsc⟩ := sameCase_ok isLower w (text := v.text) (query := query)
        fun hw => ⟨ht hw, hquery hw⟩
      obtain ⟨b1, b2, b3, _⟩ := common_lengths_bounds qs v.norm
      rw [inU16_ok (n := if w.lcs > 0 then longestCommonSubstringLength qs v.norm else 0) (by split <;> omega),
        inU16_ok (n := if w.pre > 0 then commonPrefixLength qs v.norm else 0) (by split <;> omega),
        inU16_ok (n := if w.suf > 0 then commonSuffixLength qs v.norm else 0) (by split <;> omega)]
      simp only [hsc, h1]
      refine ⟨_, rfl, ?_, fun i hi v' hv' hn d hd => ?_⟩
      · rw [List.map_cons]; exact h2.cons_cons _
      · rcases List.mem_cons.mp hi with rfl | hi
        · rw [hv] at hv'; cases hv'
          rw [hn, damerau_self qs cap hcap] at ho
          cases ho
          have h0 : IsDamerau qs qs 0 := ⟨.refl qs, fun _ _ => Nat.zero_le _⟩
          rw [(isDistance_iff h0 hsc d).mp hd]
          exact List.mem_cons.mpr (.inl (by rw [hn]; rfl))
        · exact List.mem_cons_of_mem _ (h3 i hi v' hv' hn d hd)

theorem gatherInstances_any {alphabet : Alphabet} {m : Vm} (hb : Built alphabet m)
    (isLower : Char → Bool) (w : Weights) {qs : List Nat}
    {query : List Char} {cap : Nat} (hcap : cap ≤ 255) (hq : qs.length < 65536)
    (hquery : 0 < w.case → query ≠ []) (near : List Nat) (hnd : near.Nodup)
    (hnear : ∀ k ∈ near, (m.index.get? k).isSome)
    (htext : 0 < w.case → ∀ v ∈ m.decoder, v.vocabtype.indexed = true →
      ∀ k ∈ near, anahash alphabet v.text = .ok k → v.text ≠ []) :
    ∃ l, m.gatherInstances isLower w qs query cap near = .ok l ∧ (l.map Prod.fst).Nodup ∧
      (∀ id d, (id, d) ∈ l → ∃ v, m.decoder[id]? = some v ∧ v.vocabtype.indexed = true ∧
        ∃ k ∈ near, anahash alphabet v.text = .ok k) ∧
      ∀ id v, m.decoder[id]? = some v → v.vocabtype.indexed = true →
        (∃ k ∈ near, anahash alphabet v.text = .ok k) → v.norm = qs → ∀ d,
        IsDistance isLower w qs query qs v.text d → (id, d) ∈ l := by
  induction near with
  | nil => exact ⟨[], rfl, by simp, by simp, by simp⟩
  | cons k near ih =>
    rw [List.nodup_cons] at hnd
    obtain ⟨l', h1, h2, h3, h4⟩ := ih hnd.2 (fun j hj => hnear j (List.mem_cons_of_mem _ hj))
      (fun hw v hv hi j hj => htext hw v hv hi j (List.mem_cons_of_mem _ hj))
    obtain ⟨node, hn⟩ := Option.isSome_iff_exists.mp (hnear k List.mem_cons_self)
    obtain ⟨_, n1, n2, _⟩ := hb.node k node hn
    obtain ⟨l, g1, g2, g3⟩ := gatherNode_any m isLower w hcap hq hquery node.instances (by
      intro id hid
      obtain ⟨v, hv, hi, ha⟩ := (n2 id).mp hid
      exact ⟨v, hv, fun hw => htext hw v (List.mem_of_getElem? hv) hi k List.mem_cons_self ha⟩)
    simp only [Vm.gatherInstances, hn, g1, h1, bind, Except.bind]
    have hmem : ∀ id d, (id, d) ∈ l → ∃ v, m.decoder[id]? = some v ∧ v.vocabtype.indexed = true ∧
        anahash alphabet v.text = .ok k := fun id d hd =>
      (n2 id).mp (g2.subset (List.mem_map_of_mem (f := Prod.fst) hd))
    refine ⟨_, rfl, ?_, fun id d hd => ?_, fun id v hv hi hk hq' d hd => ?_⟩
    · rw [List.map_append, List.nodup_append]
      refine ⟨g2.nodup (n1.imp fun h => Nat.ne_of_lt h), h2, ?_⟩
      intro x hx y hy e
      subst e
      obtain ⟨⟨i, d⟩, hp, rfl⟩ := List.mem_map.mp hx
      obtain ⟨⟨i', d'⟩, hp', hii⟩ := List.mem_map.mp hy
      simp only at hii
      subst hii
      obtain ⟨v, hv, _, ha⟩ := hmem _ _ hp
      obtain ⟨v', hv', _, k', hk', ha'⟩ := h3 _ _ hp'
      rw [hv] at hv'; cases hv'
      rw [ha] at ha'
      cases ha'
      exact hnd.1 hk'
    · rcases List.mem_append.mp hd with hd | hd
      · obtain ⟨v, hv, hi, ha⟩ := hmem id d hd
        exact ⟨v, hv, hi, k, List.mem_cons_self, ha⟩
      · obtain ⟨v, hv, hi, k', hk', ha⟩ := h3 id d hd
        exact ⟨v, hv, hi, k', List.mem_cons_of_mem _ hk', ha⟩
    · obtain ⟨k', hk', ha⟩ := hk
      rcases List.mem_cons.mp hk' with rfl | hk'
      · exact List.mem_append_left _ (g3 id ((n2 id).mpr ⟨v, hv, hi, ha⟩) v hv hq' d hd)
      · exact List.mem_append_right _ (h4 id v hv hi ⟨k', hk', ha⟩ hq' d hd)

/-! ## Bag difference and edit distance -/

theorem bagDiff_card (a c : List Nat) :
    bagDiff a c = ((a : Multiset Nat) - c).card + ((c : Multiset Nat) - a).card := by
  simp [bagDiff]

theorem bagDiff_triangle (a b c : List Nat) : bagDiff a c ≤ bagDiff a b + bagDiff b c := by
  rw [bagDiff_card, bagDiff_card, bagDiff_card]
  have h1 : (a : Multiset Nat) - c ≤ (a - b) + (b - c) := tsub_le_tsub_add_tsub
  have h2 : (c : Multiset Nat) - a ≤ (c - b) + (b - a) := tsub_le_tsub_add_tsub
  have e1 := Multiset.card_le_card h1
  have e2 := Multiset.card_le_card h2
  rw [Multiset.card_add] at e1 e2
  omega

theorem bagDiff_cons (x : Nat) (a c : List Nat) : bagDiff (x :: a) (x :: c) = bagDiff a c := by
  rw [bagDiff_card, bagDiff_card]
  simp only [← Multiset.cons_coe]
  simp only [← Multiset.singleton_add, add_tsub_add_eq_tsub_left]

theorem bagDiff_step {s t : List Nat} {sw : Prop} (h : EditStep sw s t) : bagDiff s t ≤ 2 := by
  induction h with
  | ins c s => exact bagDiff_le_iff.mpr ⟨s, [], [c], by simp, List.perm_append_singleton c s, by simp⟩
  | del c s => exact bagDiff_le_iff.mpr ⟨s, [c], [], List.perm_append_singleton c s, by simp, by simp⟩
  | sub c d s => exact bagDiff_le_iff.mpr ⟨s, [c], [d], List.perm_append_singleton c s,
      List.perm_append_singleton d s, by simp⟩
  | swap _ c d s => exact bagDiff_le_iff.mpr ⟨c :: d :: s, [], [], by simp,
      by simpa using List.Perm.swap d c s, by simp⟩
  | cons c _ ih => rw [bagDiff_cons]; exact ih

theorem bagDiff_self (a : List Nat) : bagDiff a a = 0 := by
  exact Nat.le_zero.mp (bagDiff_le_iff.mpr ⟨a, [], [], by simp, by simp, le_refl _⟩)

theorem bagDiff_edits {s t : List Nat} {sw : Prop} {n : Nat} (h : Edits sw n s t) :
    bagDiff s t ≤ 2 * n := by
  induction h with
  | refl s => rw [bagDiff_self]
  | tail _ h' ih =>
    have := bagDiff_triangle _ _ _ |>.trans (Nat.add_le_add ih (bagDiff_step h'))
    omega

theorem bagDiff_map (f : Nat → Nat) (a c : List Nat) :
    bagDiff (a.map f) (c.map f) ≤ bagDiff a c := by
  obtain ⟨b, r, s, h1, h2, h3⟩ := bagDiff_le_iff.mp (le_refl (bagDiff a c))
  refine bagDiff_le_iff.mpr ⟨b.map f, r.map f, s.map f, ?_, ?_, by simpa using h3⟩
  · rw [← List.map_append]; exact h1.map f
  · rw [← List.map_append]; exact h2.map f

/-- the two encodings of a text differ only in the code of unknown symbols -/
theorem bagDiff_encodings {alphabet : Alphabet} {u u' : Nat} (hu : ¬ u < alphabet.length)
    {s t : List Char} {cs ct ds dt : List Nat} (h1 : Encodes alphabet u s cs)
    (h2 : Encodes alphabet u t ct) (h3 : Encodes alphabet u' s ds) (h4 : Encodes alphabet u' t dt) :
    bagDiff ds dt ≤ bagDiff cs ct := by
  rw [encodes_unique h3 ((encodes_change h1 u').resolve_right hu),
    encodes_unique h4 ((encodes_change h2 u').resolve_right hu)]
  exact bagDiff_map _ _ _

theorem effectiveDistance_le (r : Rounding) (len : Nat) (t : DistanceThreshold) :
    effectiveDistance r len t ≤ 255 := by
  cases t <;> simp only [effectiveDistance, castU8] <;> omega

end Verif.Lemmas
