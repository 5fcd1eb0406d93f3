import Verif.Lemmas.Tokens
import Verif.Lemmas.Vocab
import Verif.Model.Sequence

/-!
# Lemmas about batches and the schedule of the workers
-/
namespace Verif.Lemmas

open Verif.Spec Verif.Model

/-! ## Batches -/

/-- The matches of all batches, the first starting at byte `o`. -/
def Vm.batchesRun (m : Vm) (x : TextExt) (cfg : TextConfig) (p : TextParams) (text : List Char) :
    Nat → List (List Seg) → Res (List Match)
  | _, [] => .ok []
  | o, g :: gs => do
    let ms ← m.batchMatches x cfg p text (boundariesFrom o g) o (o + byteLen (stretch g))
    let rest ← Vm.batchesRun m x cfg p text (o + byteLen (flat g)) gs
    return ms ++ rest

theorem classifyLoop_cons (len i : Nat) (b : Match) (bs : List Match) :
    ∃ s, classifyLoop len i (b :: bs) = s :: classifyLoop len (i + 1) bs ∧
      (s = .hard ↔ i = len - 1 ∨ 1 < byteLen b.text) := by
  refine ⟨_, rfl, ?_⟩
  split
  · simp [*]
  · split
    · simp [*]
    · split <;> simp_all

theorem batchLoop_eq {isAlpha : Char → Bool} (m : Vm) (x : TextExt) (cfg : TextConfig)
    (p : TextParams) {text : List Char} (segs : List Seg) (hs : Segmented isAlpha text segs)
    (rest : List Seg) : ∀ (done cur : List Seg) (acc : List Match), segs = done ++ cur ++ rest →
      m.batchLoop x cfg p text (boundariesFrom 0 segs)
        ((classifyLoop segs.length (done.length + cur.length)
          (boundariesFrom (byteLen (flat (done ++ cur))) rest)).zip
          (boundariesFrom (byteLen (flat (done ++ cur))) rest))
        (done.length + cur.length) (byteLen (flat done)) done.length acc =
      (Vm.batchesRun m x cfg p text (byteLen (flat done)) (batches cur rest)).map (acc ++ ·) := by
  induction rest with
  | nil =>
    intro done cur acc _
    simp [boundariesFrom, classifyLoop, Vm.batchLoop, batches, Vm.batchesRun, Except.map]
  | cons q rest ih =>
    intro done cur acc he
    obtain ⟨w, s⟩ := q
    rw [boundariesFrom]
    obtain ⟨st, h1, h2⟩ := classifyLoop_cons segs.length (done.length + cur.length)
      ({ text := s, first := byteLen (flat (done ++ cur)) + byteLen w, last := byteLen (flat (done ++ cur)) + byteLen w + byteLen s } : Match)
      (boundariesFrom (byteLen (flat (done ++ cur)) + byteLen w + byteLen s) rest)
    rw [h1, List.zip_cons_cons, Vm.batchLoop, batches]
    have e1 : byteLen (flat (done ++ cur)) + byteLen w + byteLen s =
        byteLen (flat (done ++ (cur ++ [(w, s)]))) := by
      simp [flat_append, flat, byteLen_append]
      omega
    have hlast : (done.length + cur.length = segs.length - 1) ↔ rest = [] := by
      rw [he]
      simp only [List.length_append, List.length_cons]
      rw [← List.length_eq_zero_iff]
      omega
    have hfirst : (byteLen (flat (done ++ cur)) + byteLen w ≠ byteLen (flat done)) ↔
        (cur ≠ [] ∨ w ≠ []) := by
      rw [flat_append, byteLen_append]
      constructor
      · intro h
        by_contra hc
        simp only [ne_eq, not_or, not_not] at hc
        rw [hc.1, hc.2] at h
        simp [flat, byteLen] at h
      · rintro (h | h)
        · cases cur with
          | nil => exact absurd rfl h
          | cons r cur =>
            have : r.2 ≠ [] := hs.seps_ne r (by
              rw [he, List.dropLast_append_of_ne_nil (by simp)]; simp)
            have := byteLen_pos this
            obtain ⟨a, b⟩ := r
            simp only [flat, byteLen_append]
            simp only at this
            omega
        · have := byteLen_pos h
          omega
    have hcond : (st = .hard ∧ byteLen (flat (done ++ cur)) + byteLen w ≠ byteLen (flat done)) ↔
        ((rest = [] ∨ 1 < byteLen s) ∧ (cur ≠ [] ∨ w ≠ [])) := by
      rw [h2, hfirst, hlast]
    by_cases hc : (rest = [] ∨ 1 < byteLen s) ∧ (cur ≠ [] ∨ w ≠ [])
    · rw [if_pos hc, if_pos (hcond.mpr hc)]
      have hst : byteLen (flat (done ++ cur)) + byteLen w =
          byteLen (flat done) + byteLen (stretch (cur ++ [(w, s)])) := by
        rw [stretch_snoc, flat_append, byteLen_append, byteLen_append]; omega
      have hsl : slice text (byteLen (flat done)) (byteLen (flat (done ++ cur)) + byteLen w) =
          .ok (stretch (cur ++ [(w, s)])) := by
        refine slice_of_eq (a := flat done) (c := s ++ flat rest) ?_ rfl hst
        rw [← hs.text_eq, he, stretch_snoc]
        simp [flat_append, flat]
      have hbs : ((boundariesFrom 0 segs).take (done.length + cur.length + 1)).drop done.length =
          boundariesFrom (byteLen (flat done)) (cur ++ [(w, s)]) := by
        rw [he, show done ++ cur ++ (w, s) :: rest = done ++ ((cur ++ [(w, s)]) ++ rest) by simp,
          boundariesFrom_append, boundariesFrom_append, Nat.zero_add, Nat.add_assoc,
          ← boundariesFrom_length 0 done, List.take_length_add_append, List.drop_left]
        rw [List.take_left' (by rw [boundariesFrom_length]; simp)]
      rw [hst] at hsl
      simp only [hst, hsl, bind, Except.bind, hbs]
      rw [Vm.batchesRun]
      cases hb : m.batchMatches x cfg p text (boundariesFrom (byteLen (flat done)) (cur ++ [(w, s)]))
          (byteLen (flat done)) (byteLen (flat done) + byteLen (stretch (cur ++ [(w, s)]))) with
      | error e => simp [bind, Except.bind, Except.map]
      | ok ms =>
        simp only [bind, Except.bind]
        have := ih (done ++ (cur ++ [(w, s)])) [] (acc ++ ms) (by rw [he]; simp)
        simp only [List.append_nil, List.length_nil, Nat.add_zero] at this
        rw [show byteLen (flat done) + byteLen (stretch (cur ++ [(w, s)])) + byteLen s =
          byteLen (flat (done ++ (cur ++ [(w, s)]))) by rw [← hst, e1]]
        rw [show done.length + cur.length + 1 = (done ++ (cur ++ [(w, s)])).length by
          simp [Nat.add_assoc], this,
          show byteLen (flat done) + byteLen (flat (cur ++ [(w, s)])) =
            byteLen (flat (done ++ (cur ++ [(w, s)]))) by rw [flat_append done, byteLen_append]]
        cases Vm.batchesRun m x cfg p text (byteLen (flat (done ++ (cur ++ [(w, s)]))))
          (batches [] rest) with
        | error e => rfl
        | ok r => simp [Except.map, pure, Except.pure]
    · rw [if_neg hc, if_neg (fun h => hc (hcond.mp h))]
      have := ih done (cur ++ [(w, s)]) acc (by rw [he]; simp)
      rw [e1]
      rw [show done.length + (cur ++ [(w, s)]).length = done.length + cur.length + 1 by simp; omega]
        at this
      exact this

theorem findAllMatches_eq (m : Vm) (x : TextExt) (cfg : TextConfig) (p : TextParams)
    {text : List Char} (hne : text ≠ []) (hi : m.index.isEmpty = false) {segs : List Seg}
    (hs : Segmented x.isAlpha text segs) :
    m.findAllMatches x cfg p text = do
      let ms ← Vm.batchesRun m x cfg p text 0 (batches [] segs)
      if p.unicodeoffsets then remapOffsets text ms else return ms := by
  obtain ⟨l, h1, h2⟩ := findBoundaries_eq x.isAlpha text
  have := segmented_unique h1 hs
  subst this
  unfold Vm.findAllMatches
  rw [if_neg hne, hi, if_neg (by simp), h2]
  simp only [bind, Except.bind, classifyBoundaries, boundariesFrom_length]
  have := batchLoop_eq m x cfg p l hs l [] [] [] rfl
  simp only [List.append_nil, flat, byteLen, List.length_nil, Nat.add_zero, List.nil_append] at this
  rw [this]
  cases Vm.batchesRun m x cfg p text 0 (batches [] l) <;> rfl

/-- The batches are consecutive parts of the text; only a single separator without words may be left
out. -/
theorem batches_flatten (rest : List Seg) : ∀ cur : List Seg, rest ≠ [] →
    (∀ p ∈ rest.tail, p.1 ≠ []) →
    (batches cur rest).flatten = cur ++ rest ∨
      (cur = [] ∧ (batches cur rest) = [] ∧ ∃ s, rest = [([], s)]) := by
  induction rest with
  | nil => intro cur h _; exact absurd rfl h
  | cons q rest ih =>
    intro cur _ hw
    have hw' : ∀ p ∈ rest.tail, p.1 ≠ [] := fun p hp => hw p (List.mem_of_mem_tail hp)
    obtain ⟨w, s⟩ := q
    rw [batches]
    split
    · next hc =>
      left
      by_cases hr : rest = []
      · subst hr; simp [batches]
      · rcases ih [] hr hw' with h | ⟨_, h, s', h'⟩
        · rw [List.flatten_cons, h]; simp
        · exact absurd rfl (hw ([], s') (by simp [h']))
    · next hc =>
      by_cases hr : rest = []
      · subst hr
        right
        simp only [true_or, true_and, not_or, not_not, ne_eq] at hc
        exact ⟨hc.1, by simp [batches], s, by rw [hc.2]⟩
      · rcases ih (cur ++ [(w, s)]) hr hw' with h | ⟨h, _⟩
        · left; rw [h]; simp
        · simp at h

theorem batches_ne {isAlpha : Char → Bool} {text : List Char} {segs : List Seg}
    (hs : Segmented isAlpha text segs) (rest : List Seg) : ∀ done cur : List Seg,
      segs = done ++ cur ++ rest → ∀ g ∈ batches cur rest, g ≠ [] ∧ stretch g ≠ [] := by
  induction rest with
  | nil => intro done cur _ g hg; cases hg
  | cons q rest ih =>
    intro done cur he g hg
    obtain ⟨w, s⟩ := q
    rw [batches] at hg
    split at hg
    · next hc =>
      rw [List.mem_cons] at hg
      rcases hg with rfl | hg
      · refine ⟨by simp, ?_⟩
        rw [stretch_snoc]
        intro h0
        rw [List.append_eq_nil_iff] at h0
        rcases hc.2 with h | h
        · cases cur with
          | nil => exact h rfl
          | cons r cur =>
            have : r.2 ≠ [] := hs.seps_ne r (by
              rw [he, List.dropLast_append_of_ne_nil (by simp)]; simp)
            obtain ⟨a, b⟩ := r
            simp [flat] at h0
            exact this h0.1.2.1
        · exact h h0.2
      · exact ih (done ++ cur ++ [(w, s)]) [] (by rw [he]; simp) g hg
    · exact ih done (cur ++ [(w, s)]) (by rw [he]; simp) g hg

/-- A property of the matches of each batch carries over to all matches. -/
theorem batchesRun_ok {m : Vm} {x : TextExt} {cfg : TextConfig} {p : TextParams}
    {text : List Char} {gs : List (List Seg)} {o : Nat} {ms : List Match}
    (h : Vm.batchesRun m x cfg p text o gs = .ok ms) :
    ∃ mss : List (List Match), ms = mss.flatten ∧ mss.length = gs.length ∧
      ∀ i g r, gs[i]? = some g → mss[i]? = some r →
        m.batchMatches x cfg p text (boundariesFrom (o + byteLen (flat (gs.take i).flatten)) g)
          (o + byteLen (flat (gs.take i).flatten))
          (o + byteLen (flat (gs.take i).flatten) + byteLen (stretch g)) = .ok r := by
  induction gs generalizing o ms with
  | nil =>
    simp only [Vm.batchesRun, Except.ok.injEq] at h
    exact ⟨[], by simp [← h], rfl, by simp⟩
  | cons g gs ih =>
    rw [Vm.batchesRun] at h
    obtain ⟨r, h1, h⟩ := bind_ok.mp h
    obtain ⟨rest, h2, h⟩ := bind_ok.mp h
    have h := pure_ok.mp h
    obtain ⟨mss, e1, e2, e3⟩ := ih h2
    refine ⟨r :: mss, by rw [← h, e1]; rfl, by simp [e2], ?_⟩
    intro i g' r' hg hr
    cases i with
    | zero =>
      simp only [List.getElem?_cons_zero, Option.some.injEq] at hg hr
      subst hg hr
      simpa [flat, byteLen] using h1
    | succ i =>
      simp only [List.getElem?_cons_succ] at hg hr
      have := e3 i g' r' hg hr
      rw [List.take_succ_cons, List.flatten_cons, flat_append, byteLen_append, ← Nat.add_assoc]
      exact this

/-! ## The schedule of the workers -/

theorem processSeq_ok {f : Match → Res Match} {l l' : List Match} :
    processSeq f l = .ok l' ↔ List.Forall₂ (fun s s' => f s = .ok s') l l' := by
  induction l generalizing l' with
  | nil => simp only [processSeq, Except.ok.injEq, List.forall₂_nil_left_iff]; exact eq_comm
  | cons s l ih =>
    rw [processSeq, bind_ok, List.forall₂_cons_left_iff]
    constructor
    · rintro ⟨s', h1, h⟩
      obtain ⟨r, h2, h⟩ := bind_ok.mp h
      exact ⟨s', r, h1, ih.mp h2, (pure_ok.mp h).symm⟩
    · rintro ⟨s', r, h1, h2, rfl⟩
      exact ⟨s', h1, bind_ok.mpr ⟨r, ih.mpr h2, rfl⟩⟩

theorem processPar_ok {f : Match → Res Match} (is : List Nat) : ∀ {l l' : List Match}, is.Nodup →
    (processPar f is l = .ok l' ↔ l'.length = l.length ∧ ∀ i s, l[i]? = some s →
      ∃ s', l'[i]? = some s' ∧ (i ∈ is → f s = .ok s') ∧ (i ∉ is → s' = s)) := by
  induction is with
  | nil =>
    intro l l' _
    simp only [processPar, Except.ok.injEq, List.not_mem_nil, false_imp_iff, not_false_eq_true,
      true_imp_iff, true_and]
    constructor
    · rintro rfl; exact ⟨rfl, fun i s h => ⟨s, h, rfl⟩⟩
    · rintro ⟨h1, h2⟩
      apply List.ext_getElem? 
      intro i
      cases h : l[i]? with
      | none => rw [List.getElem?_eq_none_iff] at h; rw [eq_comm, List.getElem?_eq_none_iff]; omega
      | some s => obtain ⟨s', h3, rfl⟩ := h2 i s h; exact h3.symm
  | cons j is ih =>
    intro l l' hnd
    rw [List.nodup_cons] at hnd
    rw [processPar]
    cases hj : l[j]? with
    | none =>
      simp only
      rw [ih hnd.2]
      apply and_congr_right
      intro hl
      apply forall_congr'; intro i
      apply forall_congr'; intro s
      apply imp_congr_right; intro hi
      have hij : i ≠ j := by rintro rfl; rw [hj] at hi; cases hi
      simp [hij]
    | some sj =>
      simp only
      rw [bind_ok]
      have hjl := (List.getElem?_eq_some_iff.mp hj).1
      constructor
      · rintro ⟨s', h1, h2⟩
        obtain ⟨h3, h4⟩ := (ih hnd.2).mp h2
        refine ⟨by rw [h3, List.length_set], ?_⟩
        intro i s hi
        by_cases hij : i = j
        · subst hij
          rw [hj] at hi; cases hi
          obtain ⟨t, h5, _, h7⟩ := h4 i s' (by rw [List.getElem?_set_self hjl])
          refine ⟨t, h5, fun _ => ?_, fun h => absurd List.mem_cons_self h⟩
          rw [h7 hnd.1]; exact h1
        · obtain ⟨t, h5, h6, h7⟩ := h4 i s (by rw [List.getElem?_set_ne (Ne.symm hij)]; exact hi)
          refine ⟨t, h5, ?_, ?_⟩
          · intro h; rw [List.mem_cons] at h; exact h6 (h.resolve_left hij)
          · intro h; exact h7 (fun h' => h (List.mem_cons_of_mem _ h'))
      · rintro ⟨h1, h2⟩
        obtain ⟨t, h3, h4, _⟩ := h2 j sj hj
        refine ⟨t, h4 List.mem_cons_self, (ih hnd.2).mpr ⟨by rw [h1, List.length_set], ?_⟩⟩
        intro i s hi
        by_cases hij : i = j
        · subst hij
          rw [List.getElem?_set_self hjl] at hi; cases hi
          exact ⟨t, h3, fun h => absurd h hnd.1, fun _ => rfl⟩
        · rw [List.getElem?_set_ne (Ne.symm hij)] at hi
          obtain ⟨t', h5, h6, h7⟩ := h2 i s hi
          refine ⟨t', h5, fun h => h6 (List.mem_cons_of_mem _ h), fun h => h7 ?_⟩
          rw [List.mem_cons]; rintro (h' | h')
          · exact hij h'
          · exact h h'

theorem processPar_perm {f : Match → Res Match} {is : List Nat} {l l' : List Match}
    (h : is.Perm (List.range l.length)) : processPar f is l = .ok l' ↔ processSeq f l = .ok l' := by
  rw [processPar_ok is (h.nodup_iff.mpr List.nodup_range), processSeq_ok, List.forall₂_iff_get]
  have hm : ∀ i s, l[i]? = some s → i ∈ is := by
    intro i s hi
    rw [h.mem_iff, List.mem_range]
    exact (List.getElem?_eq_some_iff.mp hi).1
  constructor
  · rintro ⟨h1, h2⟩
    refine ⟨h1.symm, ?_⟩
    intro i hi hi'
    have hs : l[i]? = some l[i] := List.getElem?_eq_getElem hi
    obtain ⟨s', h3, h4, _⟩ := h2 i _ hs
    rw [List.getElem?_eq_getElem hi'] at h3
    cases h3
    exact h4 (hm i _ hs)
  · rintro ⟨h1, h2⟩
    refine ⟨h1.symm, ?_⟩
    intro i s hs
    have hi := (List.getElem?_eq_some_iff.mp hs).1
    refine ⟨l'[i]'(h1 ▸ hi), List.getElem?_eq_getElem _, fun _ => ?_, fun h => absurd (hm i s hs) h⟩
    have := h2 i hi (h1 ▸ hi)
    rw [← (List.getElem?_eq_some_iff.mp hs).2]
    exact this

end Verif.Lemmas
