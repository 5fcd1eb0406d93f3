import Verif.Lemmas.Gather
import Verif.Props.Index

/-!
# Properties of the candidate search (C22 – C27)
-/
namespace Verif.Props

open Verif.Spec Verif.Model Verif.Lemmas

/-! ## C22, search -/

/-- **C22** (search): the anagram values found do not depend on the order in which the map of
lookups is iterated; this holds for every state whatsoever, panics included. -/
theorem search_order_independent (m : Vm) (focus k : Nat) (stop : StopCriterion)
    (lo lo' : LookupOrder) :
    m.findNearestAnahashes lo focus k stop = m.findNearestAnahashes lo' focus k stop := by
  have hdel : ∀ (cc : Nat) (items : List IterItem) (near near' : List Nat)
      (L L' : HMap Nat (List Nat)), near.Pairwise (· < ·) →
      deletionLoop m.index cc k items near L = .ok (near', L') → near'.Pairwise (· < ·) := by
    intro cc items
    induction items with
    | nil => intro near near' L L' hs h; cases h; exact hs
    | cons x items ih =>
      intro near near' L L' hs h
      obtain ⟨del, d⟩ := x
      simp only [deletionLoop] at h
      split at h
      · cases h
      · rw [bind_ok] at h
        obtain ⟨L1, _, h⟩ := h
        refine ih _ _ _ _ ?_ h
        split
        · exact setInsert_sorted hs
        · exact hs
  have hex : ∀ near : List Nat, near.Pairwise (· < ·) →
      m.exhaustiveSearch lo focus k near = m.exhaustiveSearch lo' focus k near := by
    intro near hs
    unfold Vm.exhaustiveSearch
    refine bind_congr fun asz => bind_congr fun x => ?_
    obtain ⟨upper, cc⟩ := x
    simp only
    split
    · rfl
    · refine bind_congr fun L => ?_
      split
      · rfl
      · refine bind_congr fun items => ?_
        cases hd : deletionLoop m.index cc k items near L with
        | error e => rfl
        | ok y =>
          obtain ⟨near', L'⟩ := y
          simp only [bind, Except.bind]
          exact lookupLoop_perm ((lo.perm L').trans (lo'.perm L').symm) (hdel _ _ _ _ _ _ hs hd)
  unfold Vm.findNearestAnahashes
  split
  · split
    · rfl
    · exact hex _ (by simp)
  · exact hex _ (by simp)

/-- two iteration orders -/
def exLookups : LookupOrder := ⟨id, fun _ => .refl _⟩
def exLookups' : LookupOrder := ⟨List.reverse, List.reverse_perm⟩

/-- a search in which two different numbers of symbols are looked up -/
example : ∃ m, (Vm.new exAlphabet).run (exOps ++ [.build exOrders]) = .ok m ∧
    m.findNearestAnahashes exLookups 6 1 .exhaustive = .ok [3, 6] ∧
    m.findNearestAnahashes exLookups' 6 1 .exhaustive = .ok [3, 6] :=
  ⟨_, rfl, by decide +kernel, by decide +kernel⟩

/-! ## C23 -/

theorem check_indexed' (t : VocabType) : t.check .INDEXED = t.indexed := by
  obtain ⟨a, b, c⟩ := t
  cases a <;> cases b <;> cases c <;> rfl

/-- **C23**, in full: for a query with symbols `a` (at least one) the search with distance `k` finds
exactly the values of the indexed entries that differ from it in at most `k` symbols and share a
symbol with it, except that entries of 256 or more symbols are found only if they have no symbol
beyond those of the query. -/
theorem nearest_exact_general (alphabet : Alphabet) (hne : NoEmpty alphabet)
    (hlen : alphabet.length ≤ 167) (ops : List Op) (o : Orders) (m : Vm)
    (h : (Vm.new alphabet).run (ops ++ [.build o]) = .ok m) (lo : LookupOrder)
    (hshort : ∀ v ∈ m.decoder, v.text.length < 65536)
    (input : List Char) (a : List Nat) (ha : Encodes alphabet alphabet.length input a)
    (ha0 : a ≠ []) (ha1 : ∀ c ∈ a, c ≤ 166) (k : Nat) (hk : k ≤ 255) (hal : a.length + k < 65536) :
    ∃ hash r, anahash alphabet input = .ok hash ∧
      m.findNearestAnahashes lo hash k .exhaustive = .ok r ∧ r.Pairwise (· < ·) ∧
      ∀ n, n ∈ r ↔ ∃ v ∈ m.decoder, v.vocabtype.check .INDEXED = true ∧
        ∃ c, Encodes alphabet alphabet.length v.text c ∧ anahash alphabet v.text = .ok n ∧
          bagDiff a c ≤ k ∧ (∃ x ∈ a, x ∈ c) ∧ (c.length < 256 ∨ c.Subperm a) := by
  have hb := built_of_run h
  have hidx : ∀ c, IsIdx alphabet m c → c.length < 65536 := by
    rintro c ⟨v, hv, _, hc⟩
    have := encodes_length hc
    have := hshort v hv
    omega
  have hw := encodes_within ha
  have hw' : Within 168 a := Within.mono hw (by omega)
  have hsearch := fun near hs => exhaustiveSearch_spec hb hne hlen lo hw
    (fun c hc => by have := ha1 c hc; omega) hk hal hidx near hs
  -- the result in terms of bags
  have hres : ∃ r, m.findNearestAnahashes lo (bagValue a) k .exhaustive = .ok r ∧
      r.Pairwise (· < ·) ∧ ∀ n, n ∈ r ↔ ∃ c, IsIdx alphabet m c ∧ n = bagValue c ∧
        ∃ b x y : List Nat, (b ++ x).Perm a ∧ (b ++ y).Perm c ∧ x.length + y.length ≤ k ∧
          (x = [] ∨ b ≠ []) ∧ (y = [] ∨ c.length < 256) := by
    have hself : ∀ c, bagValue a = bagValue c → IsIdx alphabet m c → a.Perm c := fun c e hc =>
      (bagValue_inj hw' (Within.mono (isIdx_within hc) (by omega))).mp e
    cases hg : HMap.get? m.index (bagValue a) with
    | none =>
      obtain ⟨r, h1, h2, h3⟩ := hsearch [] (by simp)
      refine ⟨r, by simp only [Vm.findNearestAnahashes, hg]; exact h1, h2, fun n => ?_⟩
      rw [h3]
      constructor
      · rintro (hx | ⟨c, hc, e, b, x, y, p1, p2, p3, p4, p5, _⟩)
        · cases hx
        · exact ⟨c, hc, e, b, x, y, p1, p2, p3, p4, p5⟩
      · rintro ⟨c, hc, rfl, b, x, y, p1, p2, p3, p4, p5⟩
        refine .inr ⟨c, hc, rfl, b, x, y, p1, p2, p3, p4, p5, ?_⟩
        by_contra hcon
        have : x = [] ∧ y = [] := by
          constructor
          · by_contra hx; exact hcon (.inl hx)
          · by_contra hy; exact hcon (.inr hy)
        obtain ⟨rfl, rfl⟩ := this
        simp only [List.append_nil] at p1 p2
        have := (index_isSome hb hne hlen (bagValue a)).mpr ⟨c, hc, bagValue_perm (p1.symm.trans p2)⟩
        rw [hg] at this; cases this
    | some node =>
      obtain ⟨r, h1, h2, h3⟩ := hsearch [bagValue a] (by simp)
      refine ⟨r, by simp only [Vm.findNearestAnahashes, hg, stopsEarly]; exact h1, h2, fun n => ?_⟩
      rw [h3]
      constructor
      · rintro (hx | ⟨c, hc, e, b, x, y, p1, p2, p3, p4, p5, _⟩)
        · rw [List.mem_singleton] at hx
          subst hx
          obtain ⟨c, hc, e⟩ := (index_isSome hb hne hlen (bagValue a)).mp (by rw [hg]; rfl)
          exact ⟨c, hc, e, a, [], [], by simp, by simpa using hself c e hc, by simp, .inl rfl, .inl rfl⟩
        · exact ⟨c, hc, e, b, x, y, p1, p2, p3, p4, p5⟩
      · rintro ⟨c, hc, rfl, b, x, y, p1, p2, p3, p4, p5⟩
        by_cases hxy : x = [] ∧ y = []
        · obtain ⟨rfl, rfl⟩ := hxy
          simp only [List.append_nil] at p1 p2
          exact .inl (by rw [List.mem_singleton]; exact bagValue_perm (p2.symm.trans p1))
        · refine .inr ⟨c, hc, rfl, b, x, y, p1, p2, p3, p4, p5, ?_⟩
          by_cases hx : x = []
          · exact .inr fun hy => hxy ⟨hx, hy⟩
          · exact .inl hx
  obtain ⟨r, h1, h2, h3⟩ := hres
  refine ⟨bagValue a, r, anahash_eq hlen ha, h1, h2, fun n => ?_⟩
  rw [h3]
  constructor
  · rintro ⟨c, ⟨v, hv, hi, hc⟩, rfl, b, x, y, p1, p2, p3, p4, p5⟩
    have hb0 : b ≠ [] := by
      rcases p4 with rfl | hb0
      · rintro rfl
        simp only [List.append_nil] at p1
        exact ha0 (List.perm_nil.mp p1.symm)
      · exact hb0
    obtain ⟨q1, q2⟩ := bagDiff_le_iff'.mpr ⟨b, x, y, hb0, p1, p2, p3⟩
    refine ⟨v, hv, by rw [check_indexed']; exact hi, c, hc, anahash_eq hlen hc, q1, q2, ?_⟩
    rcases p5 with rfl | hl
    · right
      simp only [List.append_nil] at p2
      exact p2.symm.subperm.trans (List.Subperm.trans (List.sublist_append_left b x).subperm
        p1.subperm)
    · exact .inl hl
  · rintro ⟨v, hv, hi, c, hc, hn, q1, q2, q3⟩
    rw [check_indexed'] at hi
    rw [anahash_eq hlen hc] at hn
    refine ⟨c, ⟨v, hv, hi, hc⟩, (Except.ok.inj hn).symm, ?_⟩
    rcases q3 with hl | hsub
    · obtain ⟨b, x, y, hb0, p1, p2, p3⟩ := bagDiff_le_iff'.mp ⟨q1, q2⟩
      exact ⟨b, x, y, p1, p2, p3, .inr hb0, .inr hl⟩
    · obtain ⟨x, hx⟩ := subperm_exists_append hsub
      have hc0 : c ≠ [] := by
        rintro rfl
        obtain ⟨z, _, hz⟩ := q2
        cases hz
      obtain ⟨b', x', y', p1, p2, p3⟩ := bagDiff_le_iff.mp q1
      refine ⟨c, x, [], hx, by simp, ?_, .inr hc0, .inl rfl⟩
      have l1 := hx.length_eq
      have l2 := p1.length_eq
      have l3 := p2.length_eq
      simp only [List.length_append, List.length_nil] at l1 l2 l3 ⊢
      omega

/-- **C23**: if the query has at most `255 - k` symbols, the search with distance `k` finds exactly
the values of the indexed entries that differ from the query in at most `k` symbols and share a
symbol with it. -/
theorem nearest_exact (alphabet : Alphabet) (hne : NoEmpty alphabet)
    (hlen : alphabet.length ≤ 166) (ops : List Op) (o : Orders) (m : Vm)
    (h : (Vm.new alphabet).run (ops ++ [.build o]) = .ok m) (lo : LookupOrder)
    (hshort : ∀ v ∈ m.decoder, v.text.length < 65536)
    (input : List Char) (hin : input ≠ []) (a : List Nat)
    (ha : Encodes alphabet alphabet.length input a) (k : Nat) (hal : a.length + k ≤ 255) :
    ∃ hash r, anahash alphabet input = .ok hash ∧
      m.findNearestAnahashes lo hash k .exhaustive = .ok r ∧ r.Pairwise (· < ·) ∧
      ∀ n, n ∈ r ↔ ∃ v ∈ m.decoder, v.vocabtype.check .INDEXED = true ∧
        ∃ c, Encodes alphabet alphabet.length v.text c ∧ anahash alphabet v.text = .ok n ∧
          bagDiff a c ≤ k ∧ ∃ x ∈ a, x ∈ c := by
  have ha0 : a ≠ [] := by
    rintro rfl
    cases ha
    exact hin rfl
  obtain ⟨hash, r, h1, h2, h3, h4⟩ := nearest_exact_general alphabet hne (by omega) ops o m h lo hshort
    input a ha ha0 (fun c hc => by have := encodes_within ha c hc; omega) k (by omega) (by omega)
  refine ⟨hash, r, h1, h2, h3, fun n => ?_⟩
  rw [h4]
  constructor
  · rintro ⟨v, hv, hi, c, hc, hn, q1, q2, _⟩
    exact ⟨v, hv, hi, c, hc, hn, q1, q2⟩
  · rintro ⟨v, hv, hi, c, hc, hn, q1, q2⟩
    refine ⟨v, hv, hi, c, hc, hn, q1, q2, .inl ?_⟩
    obtain ⟨b, x, y, p1, p2, p3⟩ := bagDiff_le_iff.mp q1
    have l2 := p1.length_eq
    have l3 := p2.length_eq
    simp only [List.length_append] at l2 l3
    omega

/-- The query `Ba` (symbols 1, 0) against the entries `ab` and `b` (and `ba`, not indexed). -/
example : ∃ m, (Vm.new exAlphabet).run (exOps ++ [.build exOrders]) = .ok m ∧
    (∀ v ∈ m.decoder, v.text.length < 65536) ∧
    (anahash exAlphabet ['b', 'A'] >>= fun x => m.findNearestAnahashes exLookups x 1 .exhaustive) =
      .ok [3, 6] := ⟨_, rfl, by decide +kernel, by decide +kernel⟩

/-- an alphabet of `n` lines -/
def bigAlphabet (n : Nat) : Alphabet := (List.range n).map fun i => [[Char.ofNat (0x4e00 + i)]]

/-- **C23** for an alphabet of 167 lines, which `anahash` still accepts: a search for a text with an
unknown symbol panics (index 168 into the 168 primes). -/
theorem nearest_panics_large_alphabet :
    ((Vm.new (bigAlphabet 167)).run
      [.add [Char.ofNat 0x4e00] none {}, .build exOrders]).toOption.map (fun m =>
        anahash (bigAlphabet 167) ['x', 'x'] >>= fun v =>
          m.findNearestAnahashes exLookups v 1 .exhaustive) = some (.error .index) ∧
    NoEmpty (bigAlphabet 167) := by
  decide +kernel

/-- **C23** without the bound on the length: an entry of 256 symbols is not found for a query that
lacks just one of them, as the number of symbols is stored in 8 bits. -/
theorem nearest_misses_long :
    ((Vm.new [[['a']]]).run
      [.add (List.replicate 256 'a') none {}, .build exOrders]).toOption.map (fun m =>
        ((m.index.get? (2 ^ 256)).isSome,
          m.findNearestAnahashes exLookups (2 ^ 255) 1 .exhaustive)) = some (true, .ok []) ∧
    anahash [[['a']]] (List.replicate 255 'a') = .ok (2 ^ 255) := by
  decide +kernel

/-! ## C27 -/

/-- **C27**: with `StopAtExactMatch`, if the index has the query's value this value alone is found;
otherwise the result is that of the exhaustive search. -/
theorem stop_at_exact_match (alphabet : Alphabet) (ops : List Op) (o : Orders) (m : Vm)
    (h : (Vm.new alphabet).run (ops ++ [.build o]) = .ok m) (lo : LookupOrder) (focus k : Nat) :
    ((m.index.get? focus).isSome →
      m.findNearestAnahashes lo focus k .stopAtExactMatch = .ok [focus]) ∧
    (m.index.get? focus = none → m.findNearestAnahashes lo focus k .stopAtExactMatch =
      m.findNearestAnahashes lo focus k .exhaustive) := by
  have hb := built_of_run h
  constructor
  · intro hs
    obtain ⟨node, hn⟩ := Option.isSome_iff_exists.mp hs
    obtain ⟨h1, _, h2, _⟩ := hb.node _ node hn
    obtain ⟨id, hid⟩ := List.exists_mem_of_ne_nil _ h1
    obtain ⟨v, hv, _⟩ := (h2 id).mp hid
    have : stopsEarly m node .stopAtExactMatch = true := by
      simp only [stopsEarly, decide_true, Bool.true_and, List.any_eq_true]
      exact ⟨id, hid, by rw [hv]; rfl⟩
    simp only [Vm.findNearestAnahashes, hn, this, if_true]
  · intro hn
    simp only [Vm.findNearestAnahashes, hn]

example : ∃ m, (Vm.new exAlphabet).run (exOps ++ [.build exOrders]) = .ok m ∧
    (m.index.get? 6).isSome ∧ m.index.get? 12 = none ∧
    m.findNearestAnahashes exLookups 12 1 .stopAtExactMatch = .ok [6] :=
  ⟨_, rfl, by decide +kernel, by decide +kernel, by decide +kernel⟩

/-! ## C25 -/

theorem bagValue_eq_one {c : List Nat} (h : Within 168 c) (h1 : bagValue c = 1) : c = [] := by
  have : bagValue c = bagValue [] := h1
  exact List.perm_nil.mp ((bagValue_inj h (fun x hx => by cases hx)).mp this)

/-- **C25**: for a query of at most 255 symbols and a set of anagram values of the index (without 1,
the value of the empty text, unless case has no positive weight), `gather_instances` returns
normally; no entry occurs twice; and an entry occurs, with distance record `d`, exactly when it is
indexed, has one of the values, is within the edit distance, and `d` is its true record. -/
theorem gather_exact (alphabet : Alphabet) (hne : NoEmpty alphabet)
    (hlen : alphabet.length ≤ 167) (ops : List Op) (o : Orders) (m : Vm)
    (h : (Vm.new alphabet).run (ops ++ [.build o]) = .ok m) (isLower : Char → Bool) (w : Weights)
    (query : List Char) (hquery : query ≠ []) (qs : List Nat)
    (hq : qs.length ≤ 255) (cap : Nat) (hcap : cap ≤ 255) (near : List Nat) (hnd : near.Nodup)
    (hnear : ∀ k ∈ near, (m.index.get? k).isSome) (h1 : 0 < w.case → 1 ∉ near) :
    ∃ l, m.gatherInstances isLower w qs query cap near = .ok l ∧ (l.map Prod.fst).Nodup ∧
      ∀ id d, (id, d) ∈ l ↔ ∃ v, m.decoder[id]? = some v ∧ v.vocabtype.check .INDEXED = true ∧
        (∃ k ∈ near, anahash alphabet v.text = .ok k) ∧
        ∃ ns, Encodes alphabet (alphabet.length + 1) v.text ns ∧
          IsDistance isLower w qs query ns v.text d ∧ d.ld ≤ cap := by
  have hb := built_of_run h
  obtain ⟨l, g1, g2, g3⟩ := gatherInstances_spec hb isLower w hcap hq (fun _ => hquery) near hnd hnear
    (by
      intro hw v _ _ k hk ha ht
      rw [ht] at ha
      rw [anahash_eq hlen Encodes.nil] at ha
      cases ha
      exact h1 hw hk)
  refine ⟨l, g1, g2, fun id d => ?_⟩
  rw [g3]
  have hnorm : ∀ v, m.decoder[id]? = some v → v.vocabtype.indexed = true →
      ∀ ns, Encodes alphabet (alphabet.length + 1) v.text ns → v.norm = ns := by
    intro v hv hi ns hns
    have h3 : 3 ≤ id := by
      by_contra hcon
      have := hb.inv.notIndexed id (by omega) v hv
      rw [hi] at this; cases this
    have := hb.norm id v hv h3
    rw [hb.alpha, normalize_eq (by omega) hns] at this
    exact (Except.ok.inj this).symm
  constructor
  · rintro ⟨v, hv, hi, hk, hd, hle⟩
    obtain ⟨ns, hns⟩ := encodes_exists hne (alphabet.length + 1) v.text
    exact ⟨v, hv, by rw [check_indexed']; exact hi, hk, ns, hns, by rwa [← hnorm v hv hi ns hns], hle⟩
  · rintro ⟨v, hv, hi, hk, ns, hns, hd, hle⟩
    rw [check_indexed'] at hi
    exact ⟨v, hv, hi, hk, by rwa [hnorm v hv hi ns hns], hle⟩

/-- The query `aB` (symbols 0 and unknown) against the entries `ab` (distance 1) and `b`
(distance 2). -/
example : ∃ m, (Vm.new exAlphabet).run (exOps ++ [.build exOrders]) = .ok m ∧
    (∀ k ∈ [3, 6], (m.index.get? k).isSome) ∧
    m.gatherInstances Char.isLower .default [0, 4] ['a', 'B'] 1 [3, 6] =
      .ok [(3, ⟨1, 1, 1, 0, true⟩)] ∧
    m.gatherInstances Char.isLower .default [0, 4] ['a', 'B'] 2 [3, 6] =
      .ok [(4, ⟨2, 0, 0, 0, true⟩), (3, ⟨1, 1, 1, 0, true⟩)] :=
  ⟨_, rfl, by decide +kernel, by decide +kernel, by decide +kernel⟩

/-- An indexed empty text is in the way: with a positive weight for case, looking at the value 1
panics.  (The search finds 1 only for the empty query.) -/
theorem gather_empty_text_panics : ∃ m,
    (Vm.new exAlphabet).run [.add [] none {}, .build exOrders] = .ok m ∧
    (m.index.get? 1).isSome ∧
    m.gatherInstances Char.isLower .default [0] ['a'] 1 [1] = .error .expect :=
  ⟨_, rfl, by decide +kernel, by decide +kernel⟩

/-! ## C26 -/

/-- **C26**, ratio: the distance is the largest number not above 12 and not above the product of
ratio and length as computed in `f32`. -/
theorem effective_ratio (r : Rounding) (len : Nat) (x : Rat) (hx : 0 ≤ r.rnd (r.rnd len * x)) :
    IsGreatest {n : Nat | n ≤ 12 ∧ (n : Rat) ≤ r.rnd (r.rnd len * x)}
      (effectiveDistance r len (.ratio x)) := by
  have key : ∀ n : Nat, (n : Rat) ≤ r.rnd (r.rnd len * x) ↔ n ≤ ⌊r.rnd (r.rnd len * x)⌋.toNat := by
    intro n
    have h0 : 0 ≤ ⌊r.rnd (r.rnd len * x)⌋ := Int.floor_nonneg.mpr hx
    rw [show (n : Rat) = ((n : Int) : Rat) by simp, ← Int.le_floor]
    omega
  simp only [effectiveDistance, castU8, MAX_DISTANCE]
  refine ⟨⟨by omega, (key _).mpr (by omega)⟩, fun n hn => ?_⟩
  have h1 := hn.1
  have h2 := (key n).mp hn.2
  omega

/-- **C26**, ratio with limit (a `u8`). -/
theorem effective_ratio_limit (r : Rounding) (len : Nat) (x : Rat) (limit : Nat)
    (hl : limit ≤ 255) (hx : 0 ≤ r.rnd (r.rnd len * x)) :
    IsGreatest {n : Nat | n ≤ limit ∧ (n : Rat) ≤ r.rnd (r.rnd len * x)}
      (effectiveDistance r len (.ratioWithLimit x limit)) := by
  have key : ∀ n : Nat, (n : Rat) ≤ r.rnd (r.rnd len * x) ↔ n ≤ ⌊r.rnd (r.rnd len * x)⌋.toNat := by
    intro n
    have h0 : 0 ≤ ⌊r.rnd (r.rnd len * x)⌋ := Int.floor_nonneg.mpr hx
    rw [show (n : Rat) = ((n : Int) : Rat) by simp, ← Int.le_floor]
    omega
  simp only [effectiveDistance, castU8]
  refine ⟨⟨by omega, (key _).mpr (by omega)⟩, fun n hn => ?_⟩
  have h1 := hn.1
  have h2 := (key n).mp hn.2
  omega

/-- **C26**, absolute (a `u8`): the largest number not above the threshold and not above half the
length. -/
theorem effective_absolute (r : Rounding) (len x : Nat) (hx : x ≤ 255) :
    IsGreatest {n : Nat | n ≤ x ∧ 2 * n ≤ len} (effectiveDistance r len (.absolute x)) := by
  simp only [effectiveDistance, castU8]
  refine ⟨⟨by omega, by omega⟩, fun n hn => ?_⟩
  have h1 := hn.1
  have h2 := hn.2
  omega

/-- **C26**: a non-negative ratio never gives a negative product; a negative one gives distance 0. -/
theorem effective_ratio_sign (r : Rounding) (len : Nat) (x : Rat) :
    (0 ≤ x → 0 ≤ r.rnd (r.rnd len * x)) ∧
    (r.rnd (r.rnd len * x) < 0 → effectiveDistance r len (.ratio x) = 0 ∧
      ∀ l, effectiveDistance r len (.ratioWithLimit x l) = 0) := by
  constructor
  · intro hx
    have h1 : 0 ≤ r.rnd len := by
      have := r.mono 0 len (by positivity)
      rwa [r.zero] at this
    have := r.mono 0 (r.rnd len * x) (mul_nonneg h1 hx)
    rwa [r.zero] at this
  · intro hx
    have h0 : ⌊r.rnd (r.rnd len * x)⌋ < 0 := Int.floor_lt.mpr (by simpa using hx)
    have : (⌊r.rnd (r.rnd len * x)⌋).toNat = 0 := by omega
    simp [effectiveDistance, castU8, this]

example : effectiveDistance .exact 7 (.absolute 3) = 3 ∧ effectiveDistance .exact 5 (.absolute 3) = 2 ∧
    effectiveDistance .exact 40 (.ratio (1/2)) = 12 ∧
    effectiveDistance .exact 40 (.ratioWithLimit (1/2) 15) = 15 ∧
    effectiveDistance .exact 9 (.ratioWithLimit (1/2) 15) = 4 := by decide +kernel

/-! ## The candidates of a query (C23, C25, C26 together) -/

/-- The candidates of `find_variants` for a non-empty input, with exhaustive search: exactly the
indexed entries whose bag of symbols differs in at most the effective anagram distance, that share a
symbol with the input, and that are within the effective edit distance; each once, with its true
distances. -/
theorem candidates_exact (alphabet : Alphabet) (hne : NoEmpty alphabet)
    (hlen : alphabet.length ≤ 166) (ops : List Op) (o : Orders) (m : Vm)
    (h : (Vm.new alphabet).run (ops ++ [.build o]) = .ok m)
    (hshort : ∀ v ∈ m.decoder, v.text.length < 65536) (x : Ext) (w : Weights) (p : Params)
    (hstop : p.stopCriterion = .exhaustive)
    (input : List Char) (hin : input ≠ []) (a qs : List Nat)
    (ha : Encodes alphabet alphabet.length input a)
    (hqs : Encodes alphabet (alphabet.length + 1) input qs)
    (hal : qs.length + effectiveDistance x.f32 qs.length p.maxAnagramDistance ≤ 255) :
    ∃ l, m.findCandidates x w p input = .ok (qs, l) ∧ (l.map Prod.fst).Nodup ∧
      ∀ id d, (id, d) ∈ l ↔ ∃ v, m.decoder[id]? = some v ∧ v.vocabtype.check .INDEXED = true ∧
        ∃ c ns, Encodes alphabet alphabet.length v.text c ∧
          Encodes alphabet (alphabet.length + 1) v.text ns ∧
          bagDiff a c ≤ effectiveDistance x.f32 qs.length p.maxAnagramDistance ∧
          (∃ y ∈ a, y ∈ c) ∧ IsDistance x.isLower w qs input ns v.text d ∧
          d.ld ≤ effectiveDistance x.f32 qs.length p.maxEditDistance := by
  have hb := built_of_run h
  have hlens : a.length = qs.length := by
    rw [encodes_unique ha ((encodes_change hqs alphabet.length).resolve_right (by omega)),
      List.length_map]
  obtain ⟨hash, r, h1, h2, h3, h4⟩ := nearest_exact alphabet hne hlen ops o m h x.lookups hshort input
    hin a ha _ (by rw [hlens]; exact hal)
  have hmem : ∀ k ∈ r, ∃ v ∈ m.decoder, v.vocabtype.check .INDEXED = true ∧
      anahash alphabet v.text = .ok k := by
    intro k hk
    obtain ⟨v, hv, hi, c, _, hn, _⟩ := (h4 k).mp hk
    exact ⟨v, hv, hi, hn⟩
  obtain ⟨l, g1, g2, g3⟩ := gather_exact alphabet hne (by omega) ops o m h x.isLower w input hin qs
    (by omega) (effectiveDistance x.f32 qs.length p.maxEditDistance) (effectiveDistance_le _ _ _) r
    (h3.imp fun h => Nat.ne_of_lt h)
    (by
      intro k hk
      obtain ⟨v, hv, hi, hn⟩ := hmem k hk
      rw [check_indexed'] at hi
      obtain ⟨i, hi'⟩ := List.getElem?_of_mem hv
      obtain ⟨k', node, hk', hnode⟩ := hb.complete i v hi' hi
      rw [hn] at hk'
      cases hk'
      rw [hnode]; rfl)
    (by
      intro _ hone
      obtain ⟨v, _, _, c, hc, hn, _, ⟨y, _, hy⟩⟩ := (h4 1).mp hone
      rw [anahash_eq (by omega) hc] at hn
      have := bagValue_eq_one (Within.mono (encodes_within hc) (by omega)) (Except.ok.inj hn)
      subst this
      cases hy)
  refine ⟨l, ?_, g2, fun id d => ?_⟩
  · simp only [Vm.findCandidates, hb.alpha, normalize_eq (by omega : alphabet.length ≤ 254) hqs, h1,
      hstop, h2, g1, bind, Except.bind, pure, Except.pure]
  · rw [g3]
    constructor
    · rintro ⟨v, hv, hi, ⟨k, hk, ha'⟩, ns, hns, hd, hle⟩
      obtain ⟨v', hv', hi', c', hc', hn', hdiff, y, hy, hy'⟩ := (h4 k).mp hk
      obtain ⟨c, hc⟩ := encodes_exists hne alphabet.length v.text
      have hperm : c'.Perm c := by
        rw [anahash_eq (by omega) hc] at ha'
        rw [anahash_eq (by omega) hc'] at hn'
        refine (bagValue_inj (Within.mono (encodes_within hc') (by omega))
          (Within.mono (encodes_within hc) (by omega))).mp ?_
        exact (Except.ok.inj hn').trans (Except.ok.inj ha').symm
      refine ⟨v, hv, hi, c, ns, hc, hns, ?_, ⟨y, hy, hperm.mem_iff.mp hy'⟩, hd, hle⟩
      obtain ⟨b, r, s, p1, p2, p3⟩ := bagDiff_le_iff.mp hdiff
      exact bagDiff_le_iff.mpr ⟨b, r, s, p1, p2.trans hperm, p3⟩
    · rintro ⟨v, hv, hi, c, ns, hc, hns, hdiff, hsh, hd, hle⟩
      have hk := anahash_eq (by omega : alphabet.length ≤ 167) hc
      exact ⟨v, hv, hi, ⟨_, (h4 _).mpr ⟨v, List.mem_of_getElem? hv, hi, c, hc, hk, hdiff, hsh⟩, hk⟩,
        ns, hns, hd, hle⟩

/-- parameters for the examples -/
def exParams : Params :=
  { maxAnagramDistance := .ratioWithLimit 1 3, maxEditDistance := .ratioWithLimit 1 3, maxMatches := 20,
    scoreThreshold := 1/4, cutoffThreshold := 2, stopCriterion := .exhaustive, freqWeight := 0 }

/-- exact arithmetic, ASCII case -/
def exExt : Ext := ⟨.exact, .exact, Char.isLower, exLookups⟩

example : ∃ m, (Vm.new exAlphabet).run (exOps ++ [.build exOrders]) = .ok m ∧
    (∀ v ∈ m.decoder, v.text.length < 65536) ∧
    m.findCandidates exExt .default exParams ['b', 'A'] =
      .ok ([1, 0], [(4, ⟨1, 1, 1, 0, true⟩), (3, ⟨1, 1, 0, 0, true⟩)]) :=
  ⟨_, rfl, by decide +kernel, by decide +kernel⟩

/-- **C22**: the candidates do not depend on the iteration order of the map of lookups. -/
theorem candidates_order_independent (m : Vm) (x : Ext) (lo : LookupOrder) (w : Weights) (p : Params)
    (input : List Char) :
    m.findCandidates x w p input = m.findCandidates { x with lookups := lo } w p input := by
  unfold Vm.findCandidates
  refine bind_congr fun ns => bind_congr fun hash => ?_
  simp only
  rw [search_order_independent m hash _ p.stopCriterion x.lookups lo]

example : ∃ m, (Vm.new exAlphabet).run (exOps ++ [.build exOrders]) = .ok m ∧
    m.findCandidates { exExt with lookups := exLookups' } .default exParams ['b', 'A'] =
      .ok ([1, 0], [(4, ⟨1, 1, 1, 0, true⟩), (3, ⟨1, 1, 0, 0, true⟩)]) :=
  ⟨_, rfl, by decide +kernel⟩

/-- **C26**: no candidate has a larger edit distance than the effective one; no restriction on model
state or input. -/
theorem candidates_within_edit_distance (m : Vm) (x : Ext) (w : Weights) (p : Params)
    (input : List Char) (qs : List Nat) (l : List (Nat × Distance))
    (h : m.findCandidates x w p input = .ok (qs, l)) :
    ∀ y ∈ l, y.2.ld ≤ effectiveDistance x.f32 qs.length p.maxEditDistance := by
  have hnode : ∀ (qs : List Nat) (cap : Nat), cap ≤ 255 → ∀ (ids : List Nat) (l : List (Nat × Distance)),
      m.gatherNode x.isLower w qs input cap ids = .ok l → ∀ y ∈ l, y.2.ld ≤ cap := by
    intro qs cap hcap ids
    induction ids with
    | nil => intro l h; cases h; simp
    | cons id ids ih =>
      intro l h
      simp only [Vm.gatherNode] at h
      split at h
      · cases h
      · next v hv =>
        rw [bind_ok] at h
        obtain ⟨od, h1, h⟩ := h
        obtain ⟨od', h1', h2, _⟩ := damerau_sound_any_length qs v.norm cap hcap
        rw [h1] at h1'; cases h1'
        cases od with
        | none => exact ih l h
        | some ld =>
          simp only [bind_ok, pure_ok] at h
          obtain ⟨x1, e1, x2, e2, x3, e3, sc, _, l', hl', rfl⟩ := h
          intro y hy
          rcases List.mem_cons.mp hy with rfl | hy
          · exact (h2 ld rfl).1
          · exact ih l' hl' y hy
  have hall : ∀ (qs : List Nat) (cap : Nat), cap ≤ 255 → ∀ (near : List Nat) (l : List (Nat × Distance)),
      m.gatherInstances x.isLower w qs input cap near = .ok l → ∀ y ∈ l, y.2.ld ≤ cap := by
    intro qs cap hcap near
    induction near with
    | nil => intro l h; cases h; simp
    | cons k near ih =>
      intro l h
      simp only [Vm.gatherInstances] at h
      split at h
      · cases h
      · simp only [bind_ok, pure_ok] at h
        obtain ⟨l1, h1, l2, h2, rfl⟩ := h
        intro y hy
        rcases List.mem_append.mp hy with hy | hy
        · exact hnode qs cap hcap _ l1 h1 y hy
        · exact ih l2 h2 y hy
  simp only [Vm.findCandidates, bind_ok, pure_ok, Prod.mk.injEq] at h
  obtain ⟨ns, _, hash, _, near, _, l', h1, rfl, rfl⟩ := h
  exact hall ns _ (effectiveDistance_le _ _ _) near l' h1

example : ∃ m, (Vm.new exAlphabet).run (exOps ++ [.build exOrders]) = .ok m ∧
    m.findCandidates exExt .default exParams ['b', 'A'] =
      .ok ([1, 0], [(4, ⟨1, 1, 1, 0, true⟩), (3, ⟨1, 1, 0, 0, true⟩)]) :=
  ⟨_, rfl, by decide +kernel⟩

/-! ## C24 -/

/-- **C24**: the bags of two texts differ in at most twice as many symbols as edits lead from one to
the other. -/
theorem bag_difference_le (s t : List Nat) (d : Nat) (h : IsDamerau s t d) : bagDiff s t ≤ 2 * d :=
  bagDiff_edits h.1

example : bagDiff [0, 1, 2] [0, 3, 2] = 2 ∧ bagDiff [0, 1] [1, 0] = 0 ∧ bagDiff [0] [0, 0] = 1 := by
  decide

/-- **C24**: with an anagram distance of at least twice the edit distance, every indexed entry within
the edit distance that shares a symbol with the input is a candidate. -/
theorem filter_complete (alphabet : Alphabet) (hne : NoEmpty alphabet)
    (hlen : alphabet.length ≤ 166) (ops : List Op) (o : Orders) (m : Vm)
    (h : (Vm.new alphabet).run (ops ++ [.build o]) = .ok m)
    (hshort : ∀ v ∈ m.decoder, v.text.length < 65536) (x : Ext) (w : Weights) (p : Params)
    (hstop : p.stopCriterion = .exhaustive)
    (input : List Char) (hin : input ≠ []) (qs : List Nat)
    (hqs : Encodes alphabet (alphabet.length + 1) input qs)
    (hal : qs.length + effectiveDistance x.f32 qs.length p.maxAnagramDistance ≤ 255)
    (htwice : 2 * effectiveDistance x.f32 qs.length p.maxEditDistance ≤
      effectiveDistance x.f32 qs.length p.maxAnagramDistance)
    (id : Nat) (v : VocabValue) (hv : m.decoder[id]? = some v)
    (hi : v.vocabtype.check .INDEXED = true) (ns : List Nat)
    (hns : Encodes alphabet (alphabet.length + 1) v.text ns) (n : Nat) (hd : IsDamerau qs ns n)
    (hle : n ≤ effectiveDistance x.f32 qs.length p.maxEditDistance) (hshare : ∃ y ∈ qs, y ∈ ns) :
    ∃ l d, m.findCandidates x w p input = .ok (qs, l) ∧ (id, d) ∈ l ∧ d.ld = n := by
  obtain ⟨a, ha⟩ := encodes_exists hne alphabet.length input
  obtain ⟨c, hc⟩ := encodes_exists hne alphabet.length v.text
  obtain ⟨l, h1, _, h3⟩ := candidates_exact alphabet hne hlen ops o m h hshort x w p hstop input hin a
    qs ha hqs hal
  obtain ⟨sc, hsc⟩ := sameCase_ok x.isLower w (text := v.text) (query := input) fun _ => ⟨fun h0 => by
    rw [h0] at hns
    obtain ⟨y, _, hy⟩ := hshare
    rw [encodes_unique hns .nil] at hy
    exact absurd hy List.not_mem_nil, hin⟩
  refine ⟨l, mkDistance w qs ns n sc, h1, (h3 _ _).mpr ⟨v, hv, hi, c, ns, hc, hns, ?_, ?_, ?_, hle⟩, rfl⟩
  · have h1 := bagDiff_encodings (by omega) hqs hns ha hc
    have h2 := bagDiff_edits hd.1
    omega
  · obtain ⟨y, hy, hy'⟩ := hshare
    rw [encodes_unique ha ((encodes_change hqs alphabet.length).resolve_right (by omega)),
      encodes_unique hc ((encodes_change hns alphabet.length).resolve_right (by omega))]
    exact ⟨_, List.mem_map_of_mem hy, List.mem_map_of_mem hy'⟩
  · exact (isDistance_iff hd hsc _).mpr rfl

/-- The input `bA` (symbols 1, 0) with edit distance 1 and anagram distance 2: `ab` is a swap away and
`b` a deletion. -/
example : ∃ m, (Vm.new exAlphabet).run (exOps ++ [.build exOrders]) = .ok m ∧
    (∀ v ∈ m.decoder, v.text.length < 65536) ∧
    normalizeToAlphabet exAlphabet ['b', 'A'] = .ok [1, 0] ∧
    effectiveDistance .exact 2 (.ratio (1/2)) = 1 ∧ effectiveDistance .exact 2 (.ratio 1) = 2 ∧
    damerauLevenshtein [1, 0] [0, 1] 1 = .ok (some 1) ∧
    m.findCandidates exExt .default
      { exParams with maxAnagramDistance := .ratio 1, maxEditDistance := .ratio (1/2) }
      ['b', 'A'] = .ok ([1, 0], [(4, ⟨1, 1, 1, 0, true⟩), (3, ⟨1, 1, 0, 0, true⟩)]) :=
  ⟨_, rfl, by decide +kernel, by decide +kernel, by decide +kernel, by decide +kernel,
    by decide +kernel, by decide +kernel⟩

/-- **C24** needs the shared symbol: the entry `b` is one substitution away from the input `a`, the
anagram distance is 2, and it is not found. -/
theorem filter_loses_disjoint : ∃ m,
    (Vm.new exAlphabet).run (exOps ++ [.build exOrders]) = .ok m ∧
    (m.encoder.get? ['b']).isSome ∧ damerauLevenshtein [0] [1] 1 = .ok (some 1) ∧
    m.findCandidates exExt .default
      { exParams with maxAnagramDistance := .ratioWithLimit 2 2,
                      maxEditDistance := .ratioWithLimit 1 1 } ['a'] = .ok ([0], [(3, ⟨1, 1, 1, 0, true⟩)]) :=
  ⟨_, rfl, by decide +kernel, by decide +kernel, by decide +kernel⟩

end Verif.Props
