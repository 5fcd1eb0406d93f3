import Verif.Lemmas.Batch
import Verif.Spec.Sequence

/-!
# Lemmas about the transducer of a batch
-/
namespace Verif.Lemmas

open Verif.Spec Verif.Model

/-! ## Positions in a batch -/

theorem _root_.Verif.Spec.IsBatch.pos {isAlpha : Char → Bool} {g : List Seg} (h : IsBatch isAlpha g) :
    ∀ p ∈ g, 0 < byteLen (p.1 ++ p.2) := by
  intro p hp
  match g, h with
  | [(w, s)], h =>
    rw [List.mem_singleton] at hp
    subst hp
    have : w ≠ [] := h.word
    exact byteLen_pos (by simp [this])
  | q :: r :: g, h =>
    rw [List.mem_cons] at hp
    rcases hp with rfl | hp
    · have := h.seg.seps_ne p (by simp [List.dropLast])
      exact byteLen_pos (by simp [this])
    · have := h.seg.words_ne p (by simpa using hp)
      exact byteLen_pos (by simp [this])

theorem flat_take_mono (g : List Seg) {s t : Nat} (h : s ≤ t) :
    byteLen (flat (g.take s)) ≤ byteLen (flat (g.take t)) := by
  have := flat_take_prefix (g.take t) s
  rw [List.take_take, Nat.min_eq_left h] at this
  exact byteLen_prefix this

theorem flat_take_lt {g : List Seg} (h : ∀ p ∈ g, 0 < byteLen (p.1 ++ p.2)) {s t : Nat}
    (hst : s < t) (ht : t ≤ g.length) : byteLen (flat (g.take s)) < byteLen (flat (g.take t)) := by
  induction g generalizing s t with
  | nil => simp at ht; omega
  | cons p g ih =>
    obtain ⟨w, c⟩ := p
    obtain ⟨t, rfl⟩ : ∃ t', t = t' + 1 := ⟨t - 1, by omega⟩
    have hp := h (w, c) (by simp)
    cases s with
    | zero =>
      simp only [List.take_zero, flat, byteLen, List.take_succ_cons, byteLen_append] at hp ⊢
      omega
    | succ s =>
      have := ih (s := s) (t := t) (fun q hq => h q (by simp [hq])) (by omega)
        (by simpa using ht)
      simp only [List.take_succ_cons, flat, byteLen_append]
      omega

theorem take_succ_eq {g : List Seg} {e : Nat} (he : 1 ≤ e) (hl : e ≤ g.length) :
    ∃ p, g.take e = g.take (e - 1) ++ [p] ∧ g[e - 1]? = some p := by
  have hlt : e - 1 < g.length := by omega
  refine ⟨g[e - 1], ?_, List.getElem?_eq_getElem hlt⟩
  conv_lhs => rw [show e = (e - 1) + 1 by omega]
  rw [List.take_succ_eq_append_getElem hlt]

theorem stretch_take {g : List Seg} {e : Nat} (he : 1 ≤ e) (hl : e ≤ g.length) :
    ∃ w c, g[e - 1]? = some (w, c) ∧ stretch (g.take e) = flat (g.take (e - 1)) ++ w ∧
      flat (g.take e) = stretch (g.take e) ++ c := by
  obtain ⟨⟨w, c⟩, h1, h2⟩ := take_succ_eq he hl
  refine ⟨w, c, h2, ?_, ?_⟩
  · rw [h1, stretch_snoc]
  · rw [h1, flat_eq_stretch]

theorem stretch_le_flat (g : List Seg) (e : Nat) :
    byteLen (stretch (g.take e)) ≤ byteLen (flat (g.take e)) :=
  byteLen_prefix (stretch_prefix_flat _)

theorem mem_dropLast_of {g : List Seg} {e : Nat} {p : Seg} (h : g[e - 1]? = some p) (he : 1 ≤ e)
    (hl : e < g.length) : p ∈ g.dropLast := by
  rw [List.mem_iff_getElem?]
  refine ⟨e - 1, ?_⟩
  rw [List.getElem?_dropLast, if_pos (by omega), h]

theorem mem_tail_of {g : List Seg} {e : Nat} {p : Seg} (h : g[e - 1]? = some p) (he : 2 ≤ e) :
    p ∈ g.tail := by
  rw [List.mem_iff_getElem?]
  refine ⟨e - 2, ?_⟩
  rw [List.getElem?_tail, show e - 2 + 1 = e - 1 by omega, h]

theorem _root_.Verif.Spec.IsBatch.stretch_lt_flat {isAlpha : Char → Bool} {g : List Seg} (h : IsBatch isAlpha g)
    {e : Nat} (he : 1 ≤ e) (hl : e < g.length) :
    byteLen (stretch (g.take e)) < byteLen (flat (g.take e)) := by
  obtain ⟨w, c, h1, _, h3⟩ := stretch_take he (by omega : e ≤ g.length)
  have hm := mem_dropLast_of h1 he hl
  have := byteLen_pos (h.seg.seps_ne _ hm)
  rw [h3, byteLen_append]
  simp only at this
  omega

theorem _root_.Verif.Spec.IsBatch.flat_lt_stretch {isAlpha : Char → Bool} {g : List Seg} (h : IsBatch isAlpha g)
    {e f : Nat} (he : 1 ≤ e) (hef : e < f) (hl : f ≤ g.length) :
    byteLen (flat (g.take e)) < byteLen (stretch (g.take f)) := by
  obtain ⟨w, c, h1, h2, _⟩ := stretch_take (by omega : 1 ≤ f) hl
  have hm := mem_tail_of h1 (by omega)
  have := byteLen_pos (h.seg.words_ne _ hm)
  have h4 := flat_take_mono g (show e ≤ f - 1 by omega)
  rw [h2, byteLen_append]
  simp only at this
  omega

theorem _root_.Verif.Spec.IsBatch.stretch_lt {isAlpha : Char → Bool} {g : List Seg} (h : IsBatch isAlpha g)
    {e f : Nat} (he : 1 ≤ e) (hef : e < f) (hl : f ≤ g.length) :
    byteLen (stretch (g.take e)) < byteLen (stretch (g.take f)) := by
  have h1 := h.stretch_lt_flat he (by omega)
  have h2 := h.flat_lt_stretch he hef hl
  omega

theorem stretch_append (a r : List Seg) (h : r ≠ []) : stretch (a ++ r) = flat a ++ stretch r := by
  induction a with
  | nil => rfl
  | cons p a ih =>
    obtain ⟨w, s⟩ := p
    rw [List.cons_append, stretch_cons (by simp [h]), ih, flat]
    simp

theorem span_of_run {o : Nat} {g a r b : List Seg} (h : g = a ++ r ++ b) (hr : stretch r ≠ []) :
    Span o g a.length (a.length + r.length) (spanAt (o + byteLen (flat a)) r) := by
  have hne : r ≠ [] := by rintro rfl; exact hr rfl
  have hpos := List.length_pos_iff.mpr hne
  have e1 : g.take a.length = a := by rw [h, List.append_assoc, List.take_left]
  have e2 : g.take (a.length + r.length) = a ++ r := by
    rw [h, List.take_left' (by simp)]
  refine ⟨by omega, by rw [h]; simp, ?_, ?_, ?_, ?_, ?_⟩
  · rw [e2, List.drop_left]; rfl
  · rw [e1]; rfl
  · rw [e2, stretch_append _ _ hne, byteLen_append]; simp [spanAt, Nat.add_assoc]
  · have := byteLen_pos hr
    simp only [spanAt]; omega
  · simp [spanAt]

/-! ## Transitions -/

theorem adjacentLoop_eq {m : Match} {s e : Nat} (hse : s ≠ e) (l : List Match) :
    ∀ (i : Nat) (prev next : Option Nat),
      (∀ j b, l[j]? = some b → (m.first = b.last ↔ i + j + 1 = s)) →
      (∀ j b, l[j]? = some b → (m.last = b.first ↔ i + j + 1 = e)) →
      adjacentLoop m i l prev next =
        (if i < s ∧ s ≤ i + l.length then some (s - 1) else prev,
          if i < e ∧ e ≤ i + l.length then some (e - 1) else next) := by
  induction l with
  | nil =>
    intro i prev next _ _
    rw [if_neg (by simp), if_neg (by simp)]
    rfl
  | cons b l ih =>
    intro i prev next h1 h2
    have a1 := h1 0 b rfl
    have a2 := h2 0 b rfl
    have ih := fun prev next => ih (i + 1) prev next
      (fun j b hj => by rw [h1 (j + 1) b hj]; omega) (fun j b hj => by rw [h2 (j + 1) b hj]; omega)
    rw [adjacentLoop]
    simp only [List.length_cons]
    by_cases c1 : m.first = b.last
    · have := a1.mp c1
      rw [if_pos c1, ih]
      refine Prod.ext ?_ ?_
      · simp only
        rw [if_neg (by omega), if_pos (by omega)]
        congr 1; omega
      · simp only
        by_cases c : i < e ∧ e ≤ i + (l.length + 1)
        · rw [if_pos c, if_pos (by omega)]
        · rw [if_neg c, if_neg (by omega)]
    · rw [if_neg c1]
      have n1 : i + 1 ≠ s := fun h => c1 (a1.mpr (by omega))
      have e1 : (if i + 1 < s ∧ s ≤ i + 1 + l.length then some (s - 1) else prev) =
          if i < s ∧ s ≤ i + (l.length + 1) then some (s - 1) else prev := by
        by_cases c : i < s ∧ s ≤ i + (l.length + 1)
        · rw [if_pos c, if_pos (by omega)]
        · rw [if_neg c, if_neg (by omega)]
      by_cases c2 : m.last = b.first
      · have := a2.mp c2
        rw [if_pos c2, ih, e1]
        congr 1
        rw [if_neg (by omega), if_pos (by omega)]
        congr 1; omega
      · have n2 : i + 1 ≠ e := fun h => c2 (a2.mpr (by omega))
        rw [if_neg c2, ih, e1]
        congr 1
        by_cases c : i < e ∧ e ≤ i + (l.length + 1)
        · rw [if_pos c, if_pos (by omega)]
        · rw [if_neg c, if_neg (by omega)]

theorem transitionOf_span {isAlpha : Char → Bool} {o : Nat} {g : List Seg} (h : IsBatch isAlpha g)
    {s e : Nat} {m : Match} (hm : Span o g s e m) :
    transitionOf m (boundariesFrom o g) = .ok (s, e - 1, e - s) := by
  have hlt := hm.lt
  have hle := hm.le
  have key := adjacentLoop_eq (m := m) (s := s) (e := e) (by omega) (boundariesFrom o g) 0 none none
    ?_ ?_
  · unfold transitionOf
    rw [key, boundariesFrom_length]
    rw [if_pos (show 0 < e ∧ e ≤ 0 + g.length by omega)]
    by_cases hs : s = 0
    · subst hs
      simp only [Nat.lt_irrefl, false_and, if_false]
      rw [show e - 1 + 1 = e by omega]; rfl
    · rw [if_pos (by omega)]
      simp only
      rw [if_neg (by omega), show s - 1 + 1 = s by omega, show e - 1 - (s - 1) = e - s by omega]
  · intro j b hj
    obtain ⟨_, h2, _⟩ := boundary_at _ _ _ _ hj
    have hjl := (List.getElem?_eq_some_iff.mp hj).1
    rw [boundariesFrom_length] at hjl
    rw [h2, hm.first]
    constructor
    · intro heq
      rcases Nat.lt_trichotomy s (j + 1) with c | c | c
      · have := flat_take_lt h.pos c (by omega); omega
      · omega
      · have := flat_take_lt h.pos c (by omega); omega
    · intro heq
      rw [show s = j + 1 by omega]
  · intro j b hj
    obtain ⟨h1, _, _⟩ := boundary_at _ _ _ _ hj
    have hjl := (List.getElem?_eq_some_iff.mp hj).1
    rw [boundariesFrom_length] at hjl
    rw [h1, hm.last]
    constructor
    · intro heq
      rcases Nat.lt_trichotomy e (j + 1) with c | c | c
      · have := h.stretch_lt (by omega) c (by omega); omega
      · omega
      · have := h.stretch_lt (by omega) c (by omega); omega
    · intro heq
      rw [show e = j + 1 by omega]

theorem finalStates_eq {isAlpha : Char → Bool} {g : List Seg} (o : Nat) (h : IsBatch isAlpha g) :
    finalStates (o + byteLen (stretch g)) 0 (boundariesFrom o g) = [g.length] := by
  have hpos : 0 < g.length := List.length_pos_iff.mpr h.seg.ne
  have gen : ∀ (l : List Match) (i : Nat), i + l.length = g.length → l ≠ [] →
      (∀ j b, l[j]? = some b → ((b.first = o + byteLen (stretch g) ∨
        b.last = o + byteLen (stretch g)) ↔ i + j + 1 = g.length)) →
      finalStates (o + byteLen (stretch g)) i l = [g.length] := by
    intro l
    induction l with
    | nil => intro i _ h; exact absurd rfl h
    | cons b l ih =>
      intro i hl _ hb
      rw [finalStates]
      have h0 := hb 0 b rfl
      by_cases hln : l = []
      · subst hln
        simp only [List.length_cons, List.length_nil] at hl
        rw [if_pos (h0.mpr (by omega)), finalStates, List.append_nil]
        congr 1
      · have : 0 < l.length := List.length_pos_iff.mpr hln
        simp only [List.length_cons] at hl
        rw [if_neg (by rw [h0]; omega), List.nil_append]
        exact ih (i + 1) (by omega) hln (fun j b hj => by rw [hb (j + 1) b hj]; omega)
  apply gen
  · rw [boundariesFrom_length]; omega
  · intro h0
    have := congrArg List.length h0
    rw [boundariesFrom_length, List.length_nil] at this
    omega
  · intro j b hj
    obtain ⟨h1, h2, _⟩ := boundary_at _ _ _ _ hj
    have hjl := (List.getElem?_eq_some_iff.mp hj).1
    rw [boundariesFrom_length] at hjl
    have hst : stretch (g.take g.length) = stretch g := by rw [List.take_length]
    constructor
    · intro hor
      by_contra hne
      have c : j + 1 < g.length := by omega
      have a1 := h.stretch_lt (show 1 ≤ j + 1 by omega) c (Nat.le_refl _)
      have a2 := h.flat_lt_stretch (show 1 ≤ j + 1 by omega) c (Nat.le_refl _)
      rw [hst] at a1 a2
      rcases hor with e | e <;> omega
    · intro heq
      left
      rw [h1, show j + 1 = g.length by omega, hst]

/-- What a transition of a match is. -/
def TrOk (x : TextExt) (fw : Rat) (o : Nat) (g : List Seg) (all : List Match)
    (syms : List OutputSymbol) (t : Tr) : Prop :=
  ∃ sym m, t.olabel ≠ 0 ∧ syms[t.olabel]? = some sym ∧ all[sym.matchIndex]? = some m ∧
    Span o g t.src t.dst m ∧ sym.boundaryIndex + 1 = t.dst ∧
    ((∃ vi vs v, sym.variantIndex = some vi ∧ m.variants = some vs ∧ vs[vi]? = some v ∧
        sym.vocabId = v.vocabId ∧
        t.cost = x.f32.rnd (x.f32.rnd (t.dst - t.src : Nat) +
          x.f32.rnd (1 - x.f32.rnd (v.score x.f64 fw)))) ∨
      (sym.variantIndex = none ∧ m.isEmpty = true ∧ sym.vocabId = 0 ∧ t.dst = t.src + 1 ∧
        t.cost = x.f32.rnd (x.f32.rnd (1 : Nat) + 1)))

theorem TrOk.mono {x : TextExt} {fw : Rat} {o : Nat} {g : List Seg} {all : List Match}
    {syms syms' : List OutputSymbol} {t : Tr} (h : TrOk x fw o g all syms t)
    (hp : syms <+: syms') : TrOk x fw o g all syms' t := by
  obtain ⟨sym, m, h0, h1, h2⟩ := h
  obtain ⟨r, rfl⟩ := hp
  refine ⟨sym, m, h0, ?_, h2⟩
  rw [List.getElem?_append_left (List.getElem?_eq_some_iff.mp h1).1, h1]

theorem variantTrs_ok {x : TextExt} {fw : Rat} {o : Nat} {g : List Seg} {all : List Match}
    {s e mi : Nat} {m : Match} (hmi : all[mi]? = some m) (hm : Span o g s e m)
    {all_vs : List VariantResult} (hv : m.variants = some all_vs) (vs : List VariantResult) :
    ∀ (vi : Nat) (syms : List OutputSymbol) (trs : List Tr), all_vs.drop vi = vs → syms ≠ [] →
      (∀ t ∈ trs, TrOk x fw o g all syms t) →
      ∃ syms' trs', variantTrs x fw mi s (e - 1) (e - s) vi vs syms trs = (syms', trs') ∧
        syms <+: syms' ∧ trs <+: trs' ∧ (∀ t ∈ trs', TrOk x fw o g all syms' t) ∧
        (∀ vj v, vi ≤ vj → all_vs[vj]? = some v → ∃ t ∈ trs', ∃ sym, syms'[t.olabel]? = some sym ∧
          sym.matchIndex = mi ∧ sym.variantIndex = some vj ∧ t.src = s ∧ t.dst = e) := by
  have hlt := hm.lt
  induction vs with
  | nil =>
    intro vi syms trs hd hs ht
    refine ⟨syms, trs, rfl, List.prefix_refl _, List.prefix_refl _, ht, ?_⟩
    intro vj v hvj hv
    have := (List.getElem?_eq_some_iff.mp hv).1
    rw [List.drop_eq_nil_iff] at hd
    omega
  | cons v vs ih =>
    intro vi syms trs hd hs ht
    unfold variantTrs
    have hvi : all_vs[vi]? = some v := by
      have := congrArg (·[0]?) hd
      simpa [List.getElem?_drop] using this
    have hd' : all_vs.drop (vi + 1) = vs := by
      have := congrArg (List.drop 1) hd
      simpa [List.drop_drop, Nat.add_comm] using this
    simp only
    generalize hsym : ({ vocabId := v.vocabId, matchIndex := mi, variantIndex := some vi, boundaryIndex := e - 1, symbol := syms.length } : OutputSymbol) = sym
    generalize htr : ({ src := s, ilabel := mi + 1, olabel := syms.length, cost := x.f32.rnd (x.f32.rnd (e - s : Nat) + x.f32.rnd (1 - x.f32.rnd (v.score x.f64 fw))), dst := e - 1 + 1 } : Tr) = tr
    have hnew : TrOk x fw o g all (syms ++ [sym]) tr := by
      subst hsym htr
      refine ⟨_, m, ?_, List.getElem?_concat_length .., hmi, ?_, ?_, ?_⟩
      · simp only [ne_eq, List.length_eq_zero_iff]; exact hs
      · simp only [show e - 1 + 1 = e by omega]; exact hm
      · rfl
      · left
        refine ⟨vi, all_vs, v, rfl, hv, hvi, rfl, ?_⟩
        simp only [show e - 1 + 1 = e by omega]
    obtain ⟨syms', trs', e1, e2, e3, e4, e5⟩ := ih (vi + 1) (syms ++ [sym]) (trs ++ [tr]) hd' (by simp)
      (by
        intro t ht'
        rw [List.mem_append, List.mem_singleton] at ht'
        rcases ht' with ht' | rfl
        · exact (ht t ht').mono (List.prefix_append _ _)
        · exact hnew)
    refine ⟨syms', trs', e1, (List.prefix_append _ _).trans e2, (List.prefix_append _ _).trans e3, e4, ?_⟩
    intro vj v' hvj hv'
    rcases Nat.lt_or_ge vi vj with c | c
    · exact e5 vj v' c hv'
    · have : vj = vi := by omega
      subst this
      refine ⟨tr, e3.subset (by simp), sym, ?_, ?_⟩
      · obtain ⟨r, rfl⟩ := e2
        subst htr
        rw [List.append_assoc, List.getElem?_append_right (Nat.le_refl _)]
        simp
      · subst hsym htr
        exact ⟨rfl, rfl, rfl, by simp only; omega⟩

/-- What it means that the match `mi` has its transitions. -/
def HasTrs (syms : List OutputSymbol) (trs : List Tr) (mi s e : Nat) (m : Match) : Prop :=
  (∀ vs vj v, m.variants = some vs → vs[vj]? = some v → ∃ t ∈ trs, ∃ sym,
    syms[t.olabel]? = some sym ∧ sym.matchIndex = mi ∧ sym.variantIndex = some vj ∧ t.src = s ∧
    t.dst = e) ∧
  (m.isEmpty = true → e = s + 1 → ∃ t ∈ trs, ∃ sym, syms[t.olabel]? = some sym ∧
    sym.matchIndex = mi ∧ sym.variantIndex = none ∧ t.src = s ∧ t.dst = e)

theorem HasTrs.mono {syms syms' : List OutputSymbol} {trs trs' : List Tr} {mi s e : Nat} {m : Match}
    (h : HasTrs syms trs mi s e m) (h1 : syms <+: syms') (h2 : trs <+: trs') :
    HasTrs syms' trs' mi s e m := by
  have key : ∀ (i : Nat) sym, syms[i]? = some sym → syms'[i]? = some sym := by
    intro i sym hi
    obtain ⟨r, rfl⟩ := h1
    rw [List.getElem?_append_left (List.getElem?_eq_some_iff.mp hi).1, hi]
  constructor
  · intro vs vj v hv hvj
    obtain ⟨t, ht, sym, hs, h⟩ := h.1 vs vj v hv hvj
    exact ⟨t, h2.subset ht, sym, key _ _ hs, h⟩
  · intro he hs
    obtain ⟨t, ht, sym, hs, h⟩ := h.2 he hs
    exact ⟨t, h2.subset ht, sym, key _ _ hs, h⟩

theorem matchTrs_ok {isAlpha : Char → Bool} {x : TextExt} {fw : Rat} {o : Nat} {g : List Seg}
    (hg : IsBatch isAlpha g) {all : List Match} {s e mi : Nat} {m : Match}
    (hmi : all[mi]? = some m) (hm : Span o g s e m) (syms : List OutputSymbol) (trs : List Tr)
    (hs : syms ≠ []) (ht : ∀ t ∈ trs, TrOk x fw o g all syms t) :
    ∃ syms' trs', matchTrs x fw (boundariesFrom o g) mi m syms trs = .ok (syms', trs') ∧
      syms <+: syms' ∧ trs <+: trs' ∧ (∀ t ∈ trs', TrOk x fw o g all syms' t) ∧
      HasTrs syms' trs' mi s e m := by
  have hlt := hm.lt
  unfold matchTrs
  rw [transitionOf_span hg hm]
  simp only [bind, Except.bind]
  have hempty : (m.variants = none ∨ m.variants = some []) →
      ∃ syms' trs', (if e - s = 1 then (pure
        (syms ++ [({ vocabId := 0, matchIndex := mi, variantIndex := none, boundaryIndex := e - 1, symbol := syms.length } : OutputSymbol)],
        trs ++ [({ src := s, ilabel := mi + 1, olabel := syms.length, cost := x.f32.rnd (x.f32.rnd (e - s : Nat) + 1), dst := e - 1 + 1 } : Tr)]) : Res _)
        else pure (syms, trs)) = .ok (syms', trs') ∧
      syms <+: syms' ∧ trs <+: trs' ∧ (∀ t ∈ trs', TrOk x fw o g all syms' t) ∧
      HasTrs syms' trs' mi s e m := by
    intro hv
    have hie : m.isEmpty = true := by
      unfold Match.isEmpty
      rcases hv with h | h <;> simp [h]
    have hnov : ∀ (vs : List VariantResult) (vj : Nat) v, m.variants = some vs → vs[vj]? = some v → False := by
      intro vs vj v h1 h2
      rcases hv with h | h
      · rw [h] at h1; cases h1
      · rw [h] at h1; cases h1; simp at h2
    split
    · next h1 =>
      refine ⟨_, _, rfl, List.prefix_append _ _, List.prefix_append _ _, ?_, ?_, ?_⟩
      · intro t ht'
        rw [List.mem_append, List.mem_singleton] at ht'
        rcases ht' with ht' | rfl
        · exact (ht t ht').mono (List.prefix_append _ _)
        · refine ⟨_, m, ?_, List.getElem?_concat_length .., hmi, ?_, rfl, .inr ⟨rfl, hie, rfl, ?_, ?_⟩⟩
          · simp only [ne_eq, List.length_eq_zero_iff]; exact hs
          · simp only [show e - 1 + 1 = e by omega]; exact hm
          · simp only; omega
          · simp only [h1]
      · intro vs vj v h1 h2; exact (hnov vs vj v h1 h2).elim
      · intro _ _
        exact ⟨_, List.mem_append_right _ (List.mem_singleton.mpr rfl), _,
          List.getElem?_concat_length .., rfl, rfl, rfl, by simp only; omega⟩
    · next h1 =>
      refine ⟨_, _, rfl, List.prefix_refl _, List.prefix_refl _, ht, ?_, ?_⟩
      · intro vs vj v h1 h2; exact (hnov vs vj v h1 h2).elim
      · intro _ h; omega
  match hv : m.variants with
  | some (v :: vs) =>
    obtain ⟨syms', trs', e1, e2, e3, e4, e5⟩ := variantTrs_ok hmi hm hv (v :: vs) 0 syms trs rfl hs ht
    refine ⟨syms', trs', by simp only [e1]; rfl, e2, e3, e4, ?_, ?_⟩
    · intro ws vj w h1 h2
      rw [hv] at h1; cases h1
      exact e5 vj w (Nat.zero_le _) h2
    · intro h; simp [Match.isEmpty, hv] at h
  | some [] => exact hempty (.inr hv)
  | none => exact hempty (.inl hv)

theorem matchesTrs_ok {isAlpha : Char → Bool} {x : TextExt} {fw : Rat} {o : Nat} {g : List Seg}
    (hg : IsBatch isAlpha g) {all : List Match} (ms : List Match) :
    ∀ (i : Nat) (syms : List OutputSymbol) (trs : List Tr), all.drop i = ms →
      (∀ m ∈ ms, ∃ s e, Span o g s e m) → syms ≠ [] → (∀ t ∈ trs, TrOk x fw o g all syms t) →
      ∃ syms' trs', matchesTrs x fw (boundariesFrom o g) i ms syms trs = .ok (syms', trs') ∧
        syms <+: syms' ∧ trs <+: trs' ∧ (∀ t ∈ trs', TrOk x fw o g all syms' t) ∧
        (∀ j m s e, i ≤ j → all[j]? = some m → Span o g s e m → HasTrs syms' trs' j s e m) := by
  induction ms with
  | nil =>
    intro i syms trs hd _ _ ht
    refine ⟨syms, trs, rfl, List.prefix_refl _, List.prefix_refl _, ht, ?_⟩
    intro j m s e hij hj _
    have := (List.getElem?_eq_some_iff.mp hj).1
    rw [List.drop_eq_nil_iff] at hd
    omega
  | cons m ms ih =>
    intro i syms trs hd hsp hs ht
    have hi : all[i]? = some m := by
      have := congrArg (·[0]?) hd
      simpa [List.getElem?_drop] using this
    have hd' : all.drop (i + 1) = ms := by
      have := congrArg (List.drop 1) hd
      simpa [List.drop_drop, Nat.add_comm] using this
    obtain ⟨s, e, hm⟩ := hsp m (by simp)
    obtain ⟨syms1, trs1, a1, a2, a3, a4, a5⟩ := matchTrs_ok hg hi hm syms trs hs ht
    have hs1 : syms1 ≠ [] := by
      obtain ⟨r, rfl⟩ := a2
      simp [hs]
    obtain ⟨syms2, trs2, b1, b2, b3, b4, b5⟩ := ih (i + 1) syms1 trs1 hd'
      (fun m hm => hsp m (by simp [hm])) hs1 a4
    refine ⟨syms2, trs2, ?_, a2.trans b2, a3.trans b3, b4, ?_⟩
    · rw [matchesTrs, a1]
      exact b1
    · intro j m' s' e' hij hj hm'
      rcases Nat.lt_or_ge i j with c | c
      · exact b5 j m' s' e' c hj hm'
      · have : j = i := by omega
        subst this
        rw [hi] at hj; cases hj
        have q1 := transitionOf_span hg hm
        have q2 := transitionOf_span hg hm'
        rw [q1] at q2
        simp only [Except.ok.injEq, Prod.mk.injEq] at q2
        have h1 := hm.lt
        have h2 := hm'.lt
        have e1 : s' = s := q2.1.symm
        have e2 : e' = e := by omega
        rw [e1, e2]
        exact a5.mono b2 b3

/-- The transducer of a batch. -/
theorem buildFst_ok {isAlpha : Char → Bool} (x : TextExt) (fw : Rat) {o : Nat} {g : List Seg}
    (hg : IsBatch isAlpha g) {all : List Match} (hsp : ∀ m ∈ all, ∃ s e, Span o g s e m) :
    ∃ syms trs, buildFst x fw all (boundariesFrom o g) (o + byteLen (stretch g)) =
        .ok ({ states := g.length + 1, finals := [g.length], trs := trs ++ epsilonTrs g.length }, syms) ∧
      syms.head? = some dummySymbol ∧ (∀ t ∈ trs, TrOk x fw o g all syms t) ∧
      (∀ j m s e, all[j]? = some m → Span o g s e m → HasTrs syms trs j s e m) ∧
      (syms.length = 1 → trs = []) := by
  obtain ⟨syms, trs, h1, h2, _, h4, h5⟩ := matchesTrs_ok (x := x) (fw := fw) hg all 0 [dummySymbol] [] rfl hsp
    (by simp) (by simp)
  refine ⟨syms, trs, ?_, ?_, h4, fun j m s e => h5 j m s e (Nat.zero_le _), ?_⟩
  · unfold buildFst
    rw [finalStates_eq o hg, h1, boundariesFrom_length]
    rfl
  · obtain ⟨r, rfl⟩ := h2; rfl
  · intro hl
    rw [List.eq_nil_iff_forall_not_mem]
    intro t ht
    obtain ⟨sym, m, h6, h7, _⟩ := h4 t ht
    have := (List.getElem?_eq_some_iff.mp h7).1
    omega

end Verif.Lemmas
