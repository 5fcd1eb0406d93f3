import Verif.Model.Nearest
import Verif.Spec.BagDiff
import Verif.Lemmas.Built
import Mathlib.Data.List.Sort
import Mathlib.Algebra.Order.Group.Multiset

/-! # The candidate search -/
namespace Verif.Lemmas

open Verif.Spec Verif.Model

/-! ## Sets as ascending lists -/

theorem mem_setInsert {v x : Nat} {l : List Nat} : x ∈ setInsert v l ↔ x = v ∨ x ∈ l := by
  induction l with
  | nil => simp [setInsert]
  | cons y l ih =>
    simp only [setInsert]
    split
    · simp
    · split
      · next h => subst h; simp
      · simp only [List.mem_cons, ih]
        constructor
        · rintro (h | h | h) <;> simp [h]
        · rintro (h | h | h) <;> simp [h]

theorem setInsert_sorted {v : Nat} {l : List Nat} (h : l.Pairwise (· < ·)) :
    (setInsert v l).Pairwise (· < ·) := by
  induction l with
  | nil => simp [setInsert]
  | cons y l ih =>
    rw [List.pairwise_cons] at h
    simp only [setInsert]
    split
    · next hv =>
      rw [List.pairwise_cons, List.pairwise_cons]
      refine ⟨?_, h⟩
      intro a ha
      rcases List.mem_cons.mp ha with rfl | ha
      · exact hv
      · have := h.1 a ha; omega
    · split
      · exact List.pairwise_cons.mpr h
      · next h1 h2 =>
        rw [List.pairwise_cons]
        refine ⟨?_, ih h.2⟩
        intro a ha
        rcases mem_setInsert.mp ha with rfl | ha
        · omega
        · exact h.1 a ha

theorem sorted_ext {l l' : List Nat} (h : l.Pairwise (· < ·)) (h' : l'.Pairwise (· < ·))
    (hm : ∀ x, x ∈ l ↔ x ∈ l') : l = l' :=
  h.eq_of_mem_iff h' (by intro a; exact hm a)

/-! ## Difference of bags -/

/-- A common part with what is left on both sides. -/
theorem bagDiff_le_iff {a c : List Nat} {k : Nat} :
    bagDiff a c ≤ k ↔ ∃ b r s : List Nat, (b ++ r).Perm a ∧ (b ++ s).Perm c ∧
      r.length + s.length ≤ k := by
  have hd : bagDiff a c = ((a : Multiset Nat) - c).card + ((c : Multiset Nat) - a).card := by
    simp [bagDiff]
  constructor
  · intro h
    refine ⟨a.bagInter c, a.diff c, c.diff a, ?_, ?_, h⟩
    · rw [← Multiset.coe_eq_coe, ← Multiset.coe_add, ← Multiset.coe_inter, ← Multiset.coe_sub,
        add_comm]
      exact Multiset.sub_add_inter _ _
    · rw [← Multiset.coe_eq_coe, ← Multiset.coe_add, ← Multiset.coe_inter, ← Multiset.coe_sub,
        add_comm, Multiset.inter_comm]
      exact Multiset.sub_add_inter _ _
  · rintro ⟨b, r, s, h1, h2, h3⟩
    have e1 : (a : Multiset Nat) = b + r := (Multiset.coe_eq_coe.mpr h1).symm
    have e2 : (c : Multiset Nat) = b + s := (Multiset.coe_eq_coe.mpr h2).symm
    rw [hd, e1, e2]
    have g1 : (b + r : Multiset Nat) - (b + s) ≤ r := by
      rw [add_tsub_add_eq_tsub_left]; exact Multiset.sub_le_self _ _
    have g2 : (b + s : Multiset Nat) - (b + r) ≤ s := by
      rw [add_tsub_add_eq_tsub_left]; exact Multiset.sub_le_self _ _
    have g1 := Multiset.card_le_card g1
    have g2 := Multiset.card_le_card g2
    simp only [Multiset.coe_card] at g1 g2
    omega

/-- The same with a common part that is not empty. -/
theorem bagDiff_le_iff' {a c : List Nat} {k : Nat} :
    (bagDiff a c ≤ k ∧ ∃ x ∈ a, x ∈ c) ↔ ∃ b r s : List Nat, b ≠ [] ∧ (b ++ r).Perm a ∧
      (b ++ s).Perm c ∧ r.length + s.length ≤ k := by
  constructor
  · rintro ⟨h, x, h1, h2⟩
    have p1 : (a.bagInter c ++ a.diff c).Perm a := by
      rw [← Multiset.coe_eq_coe, ← Multiset.coe_add, ← Multiset.coe_inter, ← Multiset.coe_sub,
        add_comm]
      exact Multiset.sub_add_inter _ _
    have p2 : (a.bagInter c ++ c.diff a).Perm c := by
      rw [← Multiset.coe_eq_coe, ← Multiset.coe_add, ← Multiset.coe_inter, ← Multiset.coe_sub,
        add_comm, Multiset.inter_comm]
      exact Multiset.sub_add_inter _ _
    exact ⟨_, _, _, List.ne_nil_of_mem (List.mem_bagInter.mpr ⟨h1, h2⟩), p1, p2, h⟩
  · rintro ⟨b, r, s, hb, h1, h2, h3⟩
    refine ⟨bagDiff_le_iff.mpr ⟨b, r, s, h1, h2, h3⟩, ?_⟩
    obtain ⟨x, hx⟩ := List.exists_mem_of_ne_nil b hb
    exact ⟨x, h1.mem_iff.mp (by simp [hx]), h2.mem_iff.mp (by simp [hx])⟩

/-! ## Scheduling -/

/-- the values scheduled under a key -/
def lookupsAt (lookups : HMap Nat (List Nat)) (key : Nat) : List Nat := (lookups.get? key).getD []

theorem schedule_ok {value cc : Nat} : ∀ (n i : Nat) (L : HMap Nat (List Nat)),
    cc + i + n ≤ 65536 → (L.map Prod.fst).Nodup →
    ∃ L', schedule value cc i n L = .ok L' ∧ (L'.map Prod.fst).Nodup ∧
      ∀ key v, v ∈ lookupsAt L' key ↔ v ∈ lookupsAt L key ∨
        (v = value ∧ ∃ j, i ≤ j ∧ j < i + n ∧ key = (cc + j) % 256) := by
  intro n
  induction n with
  | zero =>
    intro i L _ hn
    refine ⟨L, rfl, hn, fun key v => ?_⟩
    constructor
    · exact Or.inl
    · rintro (h | ⟨_, j, h1, h2, _⟩)
      · exact h
      · omega
  | succ n ih =>
    intro i L hl hn
    obtain ⟨L', h1, h2, h3⟩ := ih (i + 1) (pushLookup L ((cc + i) % 256) value) (by omega)
      (nodup_insert hn _ _)
    refine ⟨L', ?_, h2, fun key v => ?_⟩
    · simp only [schedule]
      rw [if_neg (by omega)]; exact h1
    · rw [h3]
      have hp : v ∈ lookupsAt (pushLookup L ((cc + i) % 256) value) key ↔
          v ∈ lookupsAt L key ∨ (v = value ∧ key = (cc + i) % 256) := by
        simp only [lookupsAt, pushLookup, get?_insert]
        split
        · next e => subst e; simp
        · next e => simp [Ne.symm e]
      rw [hp]
      constructor
      · rintro ((h | ⟨rfl, h⟩) | ⟨rfl, j, a, b, c⟩)
        · exact .inl h
        · exact .inr ⟨rfl, i, by omega, by omega, h⟩
        · exact .inr ⟨rfl, j, by omega, by omega, c⟩
      · rintro (h | ⟨rfl, j, a, b, c⟩)
        · exact .inl (.inl h)
        · rcases Nat.lt_or_eq_of_le a with e | rfl
          · exact .inr ⟨rfl, j, by omega, by omega, c⟩
          · exact .inl (.inr ⟨rfl, c⟩)

theorem deletionLoop_ok {index : HMap Nat AnaIndexNode} {cc k : Nat} (hcc : cc + k < 65536) :
    ∀ (items : List IterItem) (near : List Nat) (L : HMap Nat (List Nat)),
    (∀ x ∈ items, x.2 ≤ cc ∧ x.2 ≤ k) → (L.map Prod.fst).Nodup → near.Pairwise (· < ·) →
    ∃ near' L', deletionLoop index cc k items near L = .ok (near', L') ∧
      (L'.map Prod.fst).Nodup ∧ near'.Pairwise (· < ·) ∧
      (∀ v, v ∈ near' ↔ v ∈ near ∨ ((index.get? v).isSome ∧ ∃ x ∈ items, x.1.value = v)) ∧
      ∀ key v, v ∈ lookupsAt L' key ↔ v ∈ lookupsAt L key ∨
        ∃ x ∈ items, x.1.value = v ∧ ∃ j, 1 ≤ j ∧ j ≤ k - x.2 ∧ key = (cc - x.2 + j) % 256 := by
  intro items
  induction items with
  | nil =>
    intro near L _ hn hs
    exact ⟨near, L, rfl, hn, hs, by simp, by simp⟩
  | cons x items ih =>
    intro near L hx hn hs
    obtain ⟨del, d⟩ := x
    have hd := hx (del, d) (by simp)
    simp only at hd
    obtain ⟨L1, a1, a2, a3⟩ := schedule_ok (value := del.value) (cc := cc - d) (k - d) 1 L
      (by omega) hn
    have hs1 : (match HMap.get? index del.value with
        | some _ => setInsert del.value near
        | none => near).Pairwise (· < ·) := by
      split
      · exact setInsert_sorted hs
      · exact hs
    obtain ⟨near', L', b1, b2, b3, b4, b5⟩ := ih _ L1 (fun y hy => hx y (by simp [hy])) a2 hs1
    refine ⟨near', L', ?_, b2, b3, ?_, ?_⟩
    · simp only [deletionLoop]
      rw [if_neg (by omega), a1]
      simp only [bind, Except.bind]
      exact b1
    · intro v
      rw [b4]
      have h1 : (v ∈ match HMap.get? index del.value with
          | some _ => setInsert del.value near
          | none => near) ↔ v ∈ near ∨ ((index.get? v).isSome ∧ del.value = v) := by
        cases hg : HMap.get? index del.value with
        | none =>
          simp only
          constructor
          · exact Or.inl
          · rintro (h | ⟨h, rfl⟩)
            · exact h
            · rw [hg] at h; cases h
        | some node =>
          simp only [mem_setInsert]
          constructor
          · rintro (rfl | h)
            · exact .inr ⟨by rw [hg]; rfl, rfl⟩
            · exact .inl h
          · rintro (h | ⟨_, rfl⟩)
            · exact .inr h
            · exact .inl rfl
      rw [h1]
      simp only [List.mem_cons, exists_eq_or_imp]
      rw [or_assoc, ← and_or_left]
    · intro key v
      rw [b5, a3]
      simp only [List.mem_cons, exists_eq_or_imp]
      have h2 : (v = del.value ∧ ∃ j, 1 ≤ j ∧ j < 1 + (k - d) ∧ key = (cc - d + j) % 256) ↔
          (del.value = v ∧ ∃ j, 1 ≤ j ∧ j ≤ k - d ∧ key = (cc - d + j) % 256) := by
        constructor
        · rintro ⟨h, j, p, q, r⟩; exact ⟨h.symm, j, p, by omega, r⟩
        · rintro ⟨h, j, p, q, r⟩; exact ⟨h.symm, j, p, by omega, r⟩
      rw [h2, or_assoc]

/-! ## Looking up -/

theorem containsAny_ok {cand : Nat} (hc : 0 < cand) {avs : List Nat} (h : ∀ v ∈ avs, 0 < v) :
    containsAny cand avs = .ok (decide (∃ v ∈ avs, v ∣ cand)) := by
  induction avs with
  | nil => simp [containsAny]
  | cons v avs ih =>
    have hv := h v (by simp)
    have e : anaContains cand v = .ok (decide (v ∣ cand)) := by
      unfold anaContains
      split
      · next hlt =>
        congr 1
        symm
        rw [decide_eq_false_iff_not]
        intro hd
        have := Nat.le_of_dvd hc hd
        omega
      · rw [if_neg (by omega)]
        congr 1
        exact decide_eq_decide.mpr (Nat.dvd_iff_mod_eq_zero).symm
    simp only [containsAny, e, bind, Except.bind]
    by_cases hd : v ∣ cand
    · simp [hd, pure, Except.pure]
    · rw [ih (fun w hw => h w (by simp [hw]))]
      simp [hd]

theorem insertionCandidates_ok {avs : List Nat} (h : ∀ v ∈ avs, 0 < v) {cands : List Nat}
    (hc : ∀ c ∈ cands, 0 < c) (near : List Nat) (hs : near.Pairwise (· < ·)) :
    ∃ near', insertionCandidates avs cands near = .ok near' ∧ near'.Pairwise (· < ·) ∧
      ∀ v, v ∈ near' ↔ v ∈ near ∨ (v ∈ cands ∧ ∃ w ∈ avs, w ∣ v) := by
  induction cands generalizing near with
  | nil => exact ⟨near, rfl, hs, by simp⟩
  | cons c cands ih =>
    simp only [insertionCandidates, containsAny_ok (hc c (by simp)) h, bind, Except.bind]
    by_cases hd : ∃ v ∈ avs, v ∣ c
    · obtain ⟨n', a, b, d⟩ := ih (fun x hx => hc x (by simp [hx])) (setInsert c near)
        (setInsert_sorted hs)
      refine ⟨n', by simpa [hd] using a, b, fun v => ?_⟩
      rw [d, mem_setInsert, List.mem_cons]
      constructor
      · rintro ((rfl | h) | ⟨h, h'⟩)
        · exact .inr ⟨.inl rfl, hd⟩
        · exact .inl h
        · exact .inr ⟨.inr h, h'⟩
      · rintro (h | ⟨rfl | h, h'⟩)
        · exact .inl (.inr h)
        · exact .inl (.inl rfl)
        · exact .inr ⟨h, h'⟩
    · obtain ⟨n', a, b, d⟩ := ih (fun x hx => hc x (by simp [hx])) near hs
      refine ⟨n', by simpa [hd] using a, b, fun v => ?_⟩
      rw [d, List.mem_cons]
      constructor
      · rintro (h | ⟨h, h'⟩)
        · exact .inl h
        · exact .inr ⟨.inr h, h'⟩
      · rintro (h | ⟨rfl | h, h'⟩)
        · exact .inl h
        · exact absurd h' hd
        · exact .inr ⟨h, h'⟩

theorem lookupLoop_ok {si : HMap Nat (List Nat)}
    (hpos : ∀ n keys, si.get? n = some keys → ∀ c ∈ keys, 0 < c) (l : List (Nat × List Nat))
    (h : ∀ x ∈ l, ∀ v ∈ x.2, 0 < v) (near : List Nat) (hs : near.Pairwise (· < ·)) :
    ∃ near', lookupLoop si l near = .ok near' ∧ near'.Pairwise (· < ·) ∧
      ∀ v, v ∈ near' ↔ v ∈ near ∨ ∃ x ∈ l, (∃ keys, si.get? x.1 = some keys ∧ v ∈ keys) ∧
        ∃ w ∈ x.2, w ∣ v := by
  induction l generalizing near with
  | nil => exact ⟨near, rfl, hs, by simp⟩
  | cons x l ih =>
    obtain ⟨key, avs⟩ := x
    simp only [lookupLoop]
    cases hk : HMap.get? si key with
    | none =>
      obtain ⟨n', a, b, c⟩ := ih (fun y hy => h y (by simp [hy])) near hs
      refine ⟨n', a, b, fun v => ?_⟩
      rw [c]
      simp [hk]
    | some keys =>
      obtain ⟨n1, a1, b1, c1⟩ := insertionCandidates_ok (h (key, avs) (by simp)) (hpos key keys hk)
        near hs
      obtain ⟨n', a, b, c⟩ := ih (fun y hy => h y (by simp [hy])) n1 b1
      refine ⟨n', ?_, b, fun v => ?_⟩
      · simp only at a1
        simp only [a1, bind, Except.bind]; exact a
      · rw [c, c1]
        simp only [List.mem_cons, exists_eq_or_imp, hk, Option.some.injEq, exists_eq_left', or_assoc]

/-! ## Order of the lookups -/

theorem containsAny_error {cand : Nat} {avs : List Nat} {e : Panic}
    (h : containsAny cand avs = .error e) : e = .divZero := by
  induction avs with
  | nil => simp [containsAny] at h
  | cons v avs ih =>
    simp only [containsAny, anaContains] at h
    split at h
    · simp only [bind, Except.bind] at h; exact ih h
    · split at h
      · cases h; rfl
      · simp only [bind, Except.bind] at h
        split at h
        · cases h
        · exact ih h

/-- the candidates that contain one of the values -/
def hitsOf (avs : List Nat) : List Nat → Res (List Nat)
  | [] => .ok []
  | c :: cs => do
    let b ← containsAny c avs
    let r ← hitsOf avs cs
    return if b then c :: r else r

/-- the candidates hit by one entry of the lookups -/
def entryHits (si : HMap Nat (List Nat)) (x : Nat × List Nat) : Res (List Nat) :=
  match si.get? x.1 with
  | none => .ok []
  | some keys => hitsOf x.2 keys

theorem insertionCandidates_eq (avs cands near : List Nat) :
    insertionCandidates avs cands near =
      (hitsOf avs cands).map
        (fun hits => hits.foldl (fun n c => setInsert c n) near) := by
  induction cands generalizing near with
  | nil => rfl
  | cons c cands ih =>
    simp only [insertionCandidates, hitsOf]
    cases hc : containsAny c avs with
    | error e => rfl
    | ok b =>
      simp only [bind, Except.bind]
      cases b with
      | false =>
        simp only [Bool.false_eq_true, if_false, ih]
        cases hitsOf avs cands <;> rfl
      | true =>
        simp only [if_true, ih]
        cases hitsOf avs cands <;> rfl

theorem lookupLoop_cons (si : HMap Nat (List Nat)) (x : Nat × List Nat) (l : List (Nat × List Nat))
    (near : List Nat) : lookupLoop si (x :: l) near =
      match entryHits si x with
      | .error e => .error e
      | .ok hits => lookupLoop si l (hits.foldl (fun n c => setInsert c n) near) := by
  obtain ⟨key, avs⟩ := x
  simp only [lookupLoop, entryHits]
  cases HMap.get? si key with
  | none => rfl
  | some keys =>
    simp only [insertionCandidates_eq]
    cases hitsOf avs keys <;> rfl

theorem entryHits_error {si : HMap Nat (List Nat)} {x : Nat × List Nat} {e : Panic}
    (h : entryHits si x = .error e) : e = .divZero := by
  unfold entryHits at h
  split at h
  · cases h
  · next keys hk =>
    clear hk
    induction keys with
    | nil => cases h
    | cons c keys ih =>
      simp only [hitsOf, bind, Except.bind] at h
      split at h
      · next e' he => cases h; exact containsAny_error he
      · next b _ =>
        split at h
        · next e' he => cases h; exact ih he
        · cases b <;> cases h

theorem foldl_setInsert {hits near : List Nat} (hs : near.Pairwise (· < ·)) :
    (hits.foldl (fun n c => setInsert c n) near).Pairwise (· < ·) ∧
    ∀ v, v ∈ hits.foldl (fun n c => setInsert c n) near ↔ v ∈ hits ∨ v ∈ near := by
  induction hits generalizing near with
  | nil => simp [hs]
  | cons c hits ih =>
    obtain ⟨a, b⟩ := ih (setInsert_sorted (v := c) hs)
    refine ⟨a, fun v => ?_⟩
    rw [List.foldl_cons, b, mem_setInsert, List.mem_cons]
    tauto

theorem lookupLoop_error {si : HMap Nat (List Nat)} {l : List (Nat × List Nat)} {near : List Nat}
    {e : Panic} (h : lookupLoop si l near = .error e) : e = .divZero := by
  induction l generalizing near with
  | nil => cases h
  | cons x l ih =>
    rw [lookupLoop_cons] at h
    split at h
    · next e' he => cases h; exact entryHits_error he
    · exact ih h

/-- The loop over the lookups gives the same result in every order. -/
theorem lookupLoop_perm {si : HMap Nat (List Nat)} {l l' : List (Nat × List Nat)} (h : l.Perm l')
    {near : List Nat} (hs : near.Pairwise (· < ·)) : lookupLoop si l near = lookupLoop si l' near := by
  induction h generalizing near with
  | nil => rfl
  | cons x h ih =>
    simp only [lookupLoop_cons]
    cases entryHits si x with
    | error e => rfl
    | ok hits => exact ih (foldl_setInsert hs).1
  | swap x y l =>
    simp only [lookupLoop_cons]
    cases hx : entryHits si x with
    | error e =>
      cases hy : entryHits si y with
      | error e' => rw [entryHits_error hx, entryHits_error hy]
      | ok hy => rfl
    | ok hitx =>
      cases hy : entryHits si y with
      | error e' => rfl
      | ok hity =>
        simp only
        congr 1
        have a := foldl_setInsert (hits := hity) hs
        have b := foldl_setInsert (hits := hitx) hs
        have a' := foldl_setInsert (hits := hitx) a.1
        have b' := foldl_setInsert (hits := hity) b.1
        apply sorted_ext a'.1 b'.1
        intro v
        rw [a'.2, b'.2, a.2, b.2]
        tauto
  | trans _ _ ih1 ih2 => rw [ih1 hs, ih2 hs]

/-! ## The whole search -/

/-- `c` is the bag of an indexed entry. -/
def IsIdx (alphabet : Alphabet) (m : Vm) (c : List Nat) : Prop :=
  ∃ v ∈ m.decoder, v.vocabtype.indexed = true ∧ Encodes alphabet alphabet.length v.text c

theorem encodes_length {alphabet : Alphabet} {unk : Nat} {text : List Char} {codes : List Nat}
    (h : Encodes alphabet unk text codes) : codes.length ≤ text.length := by
  induction h with
  | nil => simp
  | hit h hne _ ih =>
    have := List.length_pos_of_ne_nil hne
    simp only [List.length_cons, List.length_append]; omega
  | miss h _ ih => simp only [List.length_cons]; omega

theorem isIdx_within {alphabet : Alphabet} {m : Vm} {c : List Nat} (h : IsIdx alphabet m c) :
    Within (alphabet.length + 1) c := by
  obtain ⟨v, _, _, h⟩ := h
  exact encodes_within h

theorem index_isSome {alphabet : Alphabet} {m : Vm} (hb : Built alphabet m)
    (hne : NoEmpty alphabet) (hlen : alphabet.length ≤ 167) (k : Nat) :
    (m.index.get? k).isSome ↔ ∃ c, IsIdx alphabet m c ∧ k = bagValue c := by
  constructor
  · intro h
    obtain ⟨node, hn⟩ := Option.isSome_iff_exists.mp h
    obtain ⟨h1, _, h2, _⟩ := hb.node k node hn
    obtain ⟨id, hid⟩ := List.exists_mem_of_ne_nil _ h1
    obtain ⟨v, hv, hi, ha⟩ := (h2 id).mp hid
    obtain ⟨c, hc⟩ := encodes_exists hne alphabet.length v.text
    rw [anahash_eq hlen hc] at ha
    exact ⟨c, ⟨v, List.mem_of_getElem? hv, hi, hc⟩, (Except.ok.inj ha).symm⟩
  · rintro ⟨c, ⟨v, hv, hi, hc⟩, rfl⟩
    obtain ⟨id, hid⟩ := List.getElem?_of_mem hv
    obtain ⟨k, node, h1, h2⟩ := hb.complete id v hid hi
    rw [anahash_eq hlen hc] at h1
    rw [Except.ok.inj h1, h2]; rfl

theorem node_charcount {alphabet : Alphabet} {m : Vm} (hb : Built alphabet m)
    (hlen : alphabet.length ≤ 167) {c : List Nat} (hc : Within (alphabet.length + 1) c)
    (hcl : c.length < 65536) {node : AnaIndexNode} (hn : m.index.get? (bagValue c) = some node) :
    node.charcount = c.length := by
  obtain ⟨_, _, _, asz, h1, h2⟩ := hb.node _ node hn
  have : asz = alphabet.length + 1 := by
    simp only [Vm.alphabetSize, hb.alpha] at h1
    rw [Nat.mod_eq_of_lt (by omega), if_neg (by omega)] at h1
    exact (Except.ok.inj h1).symm
  subst this
  rw [charCount_bag (by omega) hc, Nat.mod_eq_of_lt hcl] at h2
  exact (Except.ok.inj h2).symm

theorem foldl_max_ge (l : List Nat) (i : Nat) : i ≤ l.foldl max i ∧ ∀ x ∈ l, x ≤ l.foldl max i := by
  induction l generalizing i with
  | nil => simp
  | cons y l ih =>
    obtain ⟨h1, h2⟩ := ih (max i y)
    rw [List.foldl_cons]
    refine ⟨by omega, ?_⟩
    intro x hx
    rcases List.mem_cons.mp hx with rfl | hx
    · omega
    · exact h2 x hx

theorem foldl_max_le (l : List Nat) (i b : Nat) (hi : i ≤ b) (h : ∀ x ∈ l, x ≤ b) :
    l.foldl max i ≤ b := by
  induction l generalizing i with
  | nil => exact hi
  | cons y l ih =>
    rw [List.foldl_cons]
    exact ih _ (by have := h y (by simp); omega) (fun x hx => h x (by simp [hx]))

/-- What the search finds, in terms of a common part. -/
theorem exhaustiveSearch_spec {alphabet : Alphabet} {m : Vm} (hb : Built alphabet m)
    (hne : NoEmpty alphabet) (hlen : alphabet.length ≤ 167) (lo : LookupOrder) {a : List Nat}
    (ha : Within (alphabet.length + 1) a) (ha' : Within 167 a) {k : Nat} (hk : k ≤ 255)
    (hal : a.length + k < 65536) (hshort : ∀ c, IsIdx alphabet m c → c.length < 65536)
    (near : List Nat) (hs : near.Pairwise (· < ·)) :
    ∃ r, m.exhaustiveSearch lo (bagValue a) k near = .ok r ∧ r.Pairwise (· < ·) ∧
      ∀ v, v ∈ r ↔ v ∈ near ∨ ∃ c, IsIdx alphabet m c ∧ v = bagValue c ∧
        ∃ b x y : List Nat, (b ++ x).Perm a ∧ (b ++ y).Perm c ∧ x.length + y.length ≤ k ∧
          (x = [] ∨ b ≠ []) ∧ (y = [] ∨ c.length < 256) ∧ (x ≠ [] ∨ y ≠ []) := by
  have hw : Within 168 a := Within.mono ha (by omega)
  have hasz : m.alphabetSize = .ok (alphabet.length + 1) := by
    simp only [Vm.alphabetSize, hb.alpha]
    rw [Nat.mod_eq_of_lt (by omega), if_neg (by omega)]
  have hub := alphabetUpperBound_bag (asz := alphabet.length + 1) (by omega) ha (by omega)
  have hupper : a.foldl max 0 ≤ 166 := foldl_max_le a 0 166 (by omega) (fun x hx => by
    have := ha' x hx; omega)
  have hwu : Within (a.foldl max 0 + 2) a := fun x hx => by
    have := (foldl_max_ge a 0).2 x hx; omega
  obtain ⟨L1, s1, s2, s3⟩ := schedule_ok (value := bagValue a) (cc := a.length) k 1 [] (by omega)
    (by simp)
  have hcfg : BfsCfg (recursiveCfg (a.foldl max 0 + 2) (nearestParams k)) :=
    ⟨rfl, rfl, rfl, rfl, by simp only [recursiveCfg]; omega⟩
  obtain ⟨items, i1, i2⟩ := bfs_all hcfg hwu _ le_rfl
  have hitem : ∀ v d, (∃ x ∈ items, x.1.value = v ∧ x.2 = d) ↔
      ∃ b r : List Nat, (b ++ r).Perm a ∧ b ≠ [] ∧ v = bagValue b ∧ d = r.length ∧ 1 ≤ d ∧ d ≤ k := by
    intro v d
    constructor
    · rintro ⟨x, hx, rfl, rfl⟩
      obtain ⟨C, hC, hl, hv, hd, hd1, hne⟩ := i2.sound _ hx
      obtain ⟨r, hr⟩ := subperm_exists_append hC
      have := hr.length_eq
      simp only [List.length_append] at this
      exact ⟨C, r, hr, hne, hv, by omega, hd1, hd k rfl⟩
    · rintro ⟨b, r, hp, hne, rfl, rfl, hd1, hdk⟩
      have hsub : b.Subperm a :=
        List.Subperm.trans (List.sublist_append_left b r).subperm hp.subperm
      have hl := hp.length_eq
      simp only [List.length_append] at hl
      rcases i2.complete b hsub hne (by omega) (by
        intro m hm
        simp only [recursiveCfg, nearestParams, Option.some.injEq] at hm
        omega) with h | ⟨x, hx, he⟩
      · cases h
      · obtain ⟨C, hC, hCl, hv, _⟩ := i2.sound _ hx
        rw [he] at hv
        have := ((bagValue_inj (within_of_subperm hsub hw) (within_of_subperm hC hw)).mp hv).length_eq
        exact ⟨x, hx, he, by omega⟩
  have hbound : ∀ x ∈ items, x.2 ≤ a.length ∧ x.2 ≤ k := by
    intro x hx
    obtain ⟨b, r, hp, _, _, hd, _, hdk⟩ := (hitem _ _).mp ⟨x, hx, rfl, rfl⟩
    have := hp.length_eq
    simp only [List.length_append] at this
    omega
  obtain ⟨near1, L2, d1, d2, d3, d4, d5⟩ := deletionLoop_ok (index := m.index) hal items near L1
    hbound s2 hs
  have hsched : ∀ key v, v ∈ lookupsAt L2 key ↔ ∃ b x : List Nat, (b ++ x).Perm a ∧
      (x = [] ∨ b ≠ []) ∧ v = bagValue b ∧ ∃ j, 1 ≤ j ∧ j + x.length ≤ k ∧
        key = (b.length + j) % 256 := by
    intro key v
    rw [d5, s3]
    constructor
    · rintro ((h | ⟨rfl, j, h1, h2, h3⟩) | ⟨x, hx, rfl, j, h1, h2, h3⟩)
      · cases h
      · exact ⟨a, [], by simp, .inl rfl, rfl, j, h1, by simp; omega, h3⟩
      · obtain ⟨b, r, hp, hne, hv, hd, hd1, hdk⟩ := (hitem _ _).mp ⟨x, hx, rfl, rfl⟩
        have := hp.length_eq
        simp only [List.length_append] at this
        refine ⟨b, r, hp, .inr hne, hv, j, h1, by omega, ?_⟩
        rw [h3, hd]; congr 1; omega
    · rintro ⟨b, x, hp, hor, rfl, j, h1, h2, h3⟩
      have hl := hp.length_eq
      simp only [List.length_append] at hl
      by_cases hx : x = []
      · subst hx
        left; right
        simp only [List.append_nil] at hp
        refine ⟨bagValue_perm hp, j, h1, by simp at h2; omega, ?_⟩
        rw [h3]; simp at hl; rw [hl]
      · right
        have hb0 : b ≠ [] := by
          rcases hor with h | h
          · exact absurd h hx
          · exact h
        have hxp := List.length_pos_of_ne_nil hx
        obtain ⟨y, hy, e1, e2⟩ := (hitem (bagValue b) x.length).mpr
          ⟨b, x, hp, hb0, rfl, rfl, hxp, by omega⟩
        exact ⟨y, hy, e1, j, h1, by omega, by rw [h3, e2]; congr 1; omega⟩
  have hpermL := lo.perm L2
  have hpos : ∀ n keys, m.sortedindex.get? n = some keys → ∀ c ∈ keys, 0 < c := by
    intro n keys hk c hc
    obtain ⟨node, h1, _⟩ := (hb.sorted n c).mp ⟨keys, hk, hc⟩
    obtain ⟨c', hc', rfl⟩ := (index_isSome hb hne hlen c).mp (by rw [h1]; rfl)
    exact bagValue_pos (Within.mono (isIdx_within hc') (by omega))
  have hLmem : ∀ x ∈ lo.order L2, ∀ v, v ∈ x.2 ↔ v ∈ lookupsAt L2 x.1 := by
    intro x hx v
    have : HMap.get? L2 x.1 = some x.2 := get?_of_mem d2 (hpermL.mem_iff.mp hx)
    simp [lookupsAt, this]
  obtain ⟨r, r1, r2, r3⟩ := lookupLoop_ok hpos (lo.order L2) (by
    intro x hx v hv
    obtain ⟨b, y, hp, _, rfl, _⟩ := (hsched _ _).mp ((hLmem x hx v).mp hv)
    exact bagValue_pos (within_of_subperm
      (List.Subperm.trans (List.sublist_append_left b y).subperm hp.subperm) hw)) near1 d3
  refine ⟨r, ?_, r2, ?_⟩
  · unfold Vm.exhaustiveSearch
    simp only [hasz, hub, bind, Except.bind, s1]
    rw [if_neg (by omega), if_neg (by omega)]
    have : iterCollect (recursiveCfg (a.foldl max 0 + 2) (nearestParams k))
        (iterFuel (a.foldl max 0 + 2) (bagValue a)) (iterInit (bagValue a)) = some (.ok items) := i1
    rw [this]
    simp only [Option.getD_some, d1]
    exact r1
  · intro v
    rw [r3, d4]
    constructor
    · rintro ((h | ⟨h1, x, hx, rfl⟩) | ⟨x, hx, hk1, w, hw1, hw2⟩)
      · exact .inl h
      · obtain ⟨b, y, hp, hb0, hv, hd, hd1, hdk⟩ := (hitem _ _).mp ⟨x, hx, rfl, rfl⟩
        obtain ⟨c, hc, hcv⟩ := (index_isSome hb hne hlen _).mp h1
        have hperm : c.Perm b := (bagValue_inj (Within.mono (isIdx_within hc) (by omega))
          (within_of_subperm (List.Subperm.trans (List.sublist_append_left b y).subperm hp.subperm)
            hw)).mp (hcv.symm.trans hv)
        refine .inr ⟨c, hc, hcv, b, y, [], hp, by simpa using hperm.symm, by simp; omega, .inr hb0,
          .inl rfl, .inl ?_⟩
        rintro rfl
        simp at hd; omega
      · obtain ⟨node, hn1, hn2⟩ := (hb.sorted _ _).mp hk1
        obtain ⟨c, hc, rfl⟩ := (index_isSome hb hne hlen _).mp (by rw [hn1]; rfl)
        have hcl := hshort c hc
        have hcc := node_charcount hb hlen (isIdx_within hc) hcl hn1
        obtain ⟨b, y, hp, hor, rfl, j, j1, j2, j3⟩ := (hsched _ _).mp ((hLmem x hx w).mp hw1)
        have hwb := within_of_subperm
          (List.Subperm.trans (List.sublist_append_left b y).subperm hp.subperm) hw
        have hsub := (dvd_iff_subperm hwb (Within.mono (isIdx_within hc) (by omega))).mp hw2
        obtain ⟨z, hz⟩ := subperm_exists_append hsub
        have hzl := hz.length_eq
        simp only [List.length_append] at hzl
        have hlt : c.length < 256 := by omega
        have hzj : z.length = j := by
          have : (b.length + j) % 256 = b.length + z.length := by omega
          omega
        refine .inr ⟨c, hc, rfl, b, y, z, hp, hz, by omega, hor, .inr hlt, .inr ?_⟩
        rintro rfl
        simp at hzj; omega
    · rintro (h | ⟨c, hc, rfl, b, x, y, hp, hq, hxy, hor1, hor2, hor3⟩)
      · exact .inl (.inl h)
      · by_cases hy : y = []
        · subst hy
          left; right
          have hx : x ≠ [] := by
            rcases hor3 with h | h
            · exact h
            · exact absurd rfl h
          have hb0 : b ≠ [] := by
            rcases hor1 with h | h
            · exact absurd h hx
            · exact h
          have hxp := List.length_pos_of_ne_nil hx
          simp only [List.append_nil] at hq
          refine ⟨(index_isSome hb hne hlen _).mpr ⟨c, hc, rfl⟩, ?_⟩
          obtain ⟨z, hz, e1, e2⟩ := (hitem (bagValue b) x.length).mpr
            ⟨b, x, hp, hb0, rfl, rfl, hxp, by omega⟩
          exact ⟨z, hz, e1.trans (bagValue_perm hq)⟩
        · right
          have hlt : c.length < 256 := by
            rcases hor2 with h | h
            · exact absurd h hy
            · exact h
          have hyp := List.length_pos_of_ne_nil hy
          have hql := hq.length_eq
          simp only [List.length_append] at hql
          have hmem : bagValue b ∈ lookupsAt L2 c.length :=
            (hsched _ _).mpr ⟨b, x, hp, hor1, rfl, y.length, hyp, by omega, by omega⟩
          have hget : ∃ l, HMap.get? L2 c.length = some l ∧ bagValue b ∈ l := by
            simp only [lookupsAt] at hmem
            cases hg : HMap.get? L2 c.length with
            | none => rw [hg] at hmem; cases hmem
            | some l => rw [hg] at hmem; exact ⟨l, rfl, hmem⟩
          obtain ⟨l, hl1, hl2⟩ := hget
          obtain ⟨node, hnode⟩ := Option.isSome_iff_exists.mp
            ((index_isSome hb hne hlen (bagValue c)).mpr ⟨c, hc, rfl⟩)
          have hcc := node_charcount hb hlen (isIdx_within hc) (hshort c hc) hnode
          refine ⟨(c.length, l), hpermL.mem_iff.mpr (mem_of_get? hl1),
            (hb.sorted _ _).mpr ⟨node, hnode, hcc⟩, bagValue b, hl2, ?_⟩
          have hwc : Within 168 c := Within.mono (isIdx_within hc) (by omega)
          have hsub : b.Subperm c :=
            List.Subperm.trans (List.sublist_append_left b y).subperm hq.subperm
          exact (dvd_iff_subperm (within_of_subperm hsub hwc) hwc).mpr hsub

end Verif.Lemmas
