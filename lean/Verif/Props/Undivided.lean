import Verif.Spec.Undivided
import Verif.Props.Correct
import Verif.Props.Reckon

/-!
# Correct texts are left unchanged by searches for stretches of words (C136)
-/
namespace Verif.Props

open Verif.Spec Verif.Model Verif.Lemmas

/-- The words that are not empty, with their offsets; the first starts at byte `o`. -/
def wordsFrom : Nat → List Seg → List (Nat × List Char)
  | _, [] => []
  | o, (w, s) :: g => (if w = [] then [] else [(o, w)]) ++ wordsFrom (o + byteLen (w ++ s)) g

theorem wordsFrom_append (a b : List Seg) : ∀ o,
    wordsFrom o (a ++ b) = wordsFrom o a ++ wordsFrom (o + byteLen (flat a)) b := by
  induction a with
  | nil => intro o; simp [wordsFrom, flat, byteLen]
  | cons q a ih =>
    intro o
    obtain ⟨w, s⟩ := q
    rw [List.cons_append, wordsFrom, ih, wordsFrom, List.append_assoc, flat, byteLen_append (w ++ s), Nat.add_assoc]

theorem wordsFrom_runs (segs : List Seg) : ∀ o,
    wordsFrom o segs = (runsFrom 1 o segs).map fun m => (m.first, m.text) := by
  induction segs with
  | nil => intro o; rfl
  | cons q a ih =>
    intro o
    obtain ⟨w, s⟩ := q
    rw [wordsFrom, runsFrom, List.map_append, ih]
    congr 1
    by_cases hw : w = []
    · simp [hw, stretch]
    · simp [hw, stretch, spanAt]

theorem placed_words (gs : List (List Seg)) : ∀ o,
    (placed o gs).flatMap (fun b => wordsFrom b.1 b.2) = wordsFrom o gs.flatten := by
  induction gs with
  | nil => intro o; rfl
  | cons g gs ih =>
    intro o
    rw [placed, List.flatMap_cons, ih, List.flatten_cons, wordsFrom_append]

theorem batch_of_placed {gs : List (List Seg)} : ∀ {o : Nat} {b : Nat × List Seg}, b ∈ placed o gs → b.2 ∈ gs := by
  induction gs with
  | nil => intro o b h; cases h
  | cons g gs ih =>
    intro o b h
    rcases List.mem_cons.mp h with rfl | h
    · exact List.mem_cons_self
    · exact List.mem_cons_of_mem _ (ih h)

theorem forall₂_eq_map {α β : Type} {f : α → β} {l : List α} {l' : List β} (h : List.Forall₂ (fun a b => b = f a) l l') :
    l' = l.map f := by
  induction h with
  | nil => rfl
  | cons hd _ ih => rw [List.map_cons, hd, ih]

theorem forall₂_choose {α β γ : Type} {P : α → γ → Prop} {Q : γ → Prop} {G : γ → β} {l : List α} {l' : List β}
    (h : List.Forall₂ (fun a b => ∃ c, P a c ∧ b = G c ∧ Q c) l l') :
    ∃ cs, List.Forall₂ P l cs ∧ l' = cs.map G ∧ ∀ c ∈ cs, Q c := by
  induction h with
  | nil => exact ⟨[], .nil, rfl, by simp⟩
  | cons h _ ih =>
    obtain ⟨c, h1, rfl, h2⟩ := h
    obtain ⟨cs, h3, rfl, h4⟩ := ih
    exact ⟨c :: cs, .cons h1 h3, rfl, List.forall_mem_cons.mpr ⟨h2, h4⟩⟩

/-- What it costs to take every word as it is, and to leave out what is empty. -/
def plainCost : List Seg → Rat
  | [] => 0
  | (w, _) :: g => (if w = [] then 100 else 1) + plainCost g

theorem plainCost_ge (g : List Seg) : (g.length : Rat) ≤ plainCost g := by
  induction g with
  | nil => simp [plainCost]
  | cons q g ih =>
    obtain ⟨w, s⟩ := q
    rw [plainCost, List.length_cons]
    push_cast
    split <;> linarith

theorem plainCost_words {g : List Seg} (h : ∀ p ∈ g, p.1 ≠ []) : plainCost g = g.length := by
  induction g with
  | nil => simp [plainCost]
  | cons q g ih =>
    obtain ⟨w, s⟩ := q
    rw [plainCost, if_neg (h _ List.mem_cons_self), ih fun p hp => h p (List.mem_cons_of_mem _ hp), List.length_cons]
    push_cast
    ring

theorem plainCost_le {g : List Seg} (h : ∀ p ∈ g.tail, p.1 ≠ []) : plainCost g ≤ g.length + 99 := by
  cases g with
  | nil => simp [plainCost]
  | cons q g =>
    obtain ⟨w, s⟩ := q
    rw [plainCost, plainCost_words (show ∀ p ∈ g, p.1 ≠ [] from h), List.length_cons]
    push_cast
    split <;> linarith

/-- Of the words, each has itself first. -/
def Settled {α : Type} (found : List Char → List α) (dist score : α → Rat) (m : Rat) (t : List Char) : Prop :=
  ∃ v rest, found t = v :: rest ∧ dist v = 1 ∧ score v = 1 ∧ ∀ u ∈ rest, score u ≤ 1 - m

theorem division_plain {α : Type} {found : List Char → List α} {dist score : α → Rat} {n : Nat} (hn : 1 ≤ n) {m : Rat} :
    ∀ (g : List Seg) (o : Nat), (∀ p ∈ g, p.1 ≠ [] → Settled found dist score m p.1) →
    Division (fun t us => us = found t) dist score n o g
      ((wordsFrom o g).map fun u => (u.1, u.2, some 0)) (plainCost g) := by
  intro g
  induction g with
  | nil => intro o _; exact .done
  | cons q g ih =>
    intro o h
    obtain ⟨w, s⟩ := q
    have ih := ih (o + byteLen (w ++ s)) fun p hp => h p (List.mem_cons_of_mem _ hp)
    by_cases hw : w = []
    · rw [wordsFrom, plainCost, if_pos hw, if_pos hw, List.nil_append]
      exact .skip ih
    · obtain ⟨v, rest, e, _, hs, _⟩ := h _ List.mem_cons_self hw
      rw [wordsFrom, plainCost, if_neg hw, if_neg hw]
      have := Division.variant (found := fun t us => us = found t) (dist := dist) (score := score) (n := n) (o := o)
        (r := [(w, s)]) (g := g) (vs := v :: rest) (i := 0) (v := v) hn (by simpa [stretch] using hw)
        (.inl rfl) (by simpa [stretch] using e.symm) rfl (by simpa [flat] using ih)
      simpa [stretch, hs] using this

theorem division_dear {α : Type} {found : List Char → List α} {dist score : α → Rat} {n : Nat} {m : Rat}
    (hm0 : 0 ≤ m) (hm1 : m ≤ 1) {o : Nat} {g : List Seg} {l : List (Nat × List Char × Option Nat)} {c : Rat}
    (hd : Division (fun t us => us = found t) dist score n o g l c)
    (h : ∀ p ∈ g, p.1 ≠ [] → Settled found dist score m p.1) :
    (l = (wordsFrom o g).map (fun u => (u.1, u.2, some 0)) ∧ c = plainCost g) ∨ plainCost g + m ≤ c := by
  induction hd with
  | done => exact .inl ⟨rfl, rfl⟩
  | @skip o w s g l c _ ih =>
    have ih := ih fun p hp => h p (List.mem_cons_of_mem _ hp)
    rw [wordsFrom, plainCost]
    by_cases hw : w = []
    · rw [if_pos hw, if_pos hw, List.nil_append]
      rcases ih with ⟨e1, e2⟩ | ih
      · exact .inl ⟨e1, by rw [e2]⟩
      · exact .inr (by linarith)
    · rw [if_neg hw, if_neg hw]
      right
      rcases ih with ⟨_, e2⟩ | ih <;> linarith
  | @variant o r g l c vs i v hr hne hlook hf hv _ ih =>
    have hfirst : r.length = 1 := by
      rcases hlook with h1 | ⟨p, hp, hp0, us, rfl, hlt⟩
      · exact h1
      · obtain ⟨v', rest, e, hdist, _⟩ := h p (List.mem_append_left _ hp) hp0
        have := hlt v' (by rw [e]; rfl)
        rw [hdist] at this
        exact absurd this (lt_irrefl _)
    match r, hfirst with
    | [(w, s)], _ =>
      have hw : w ≠ [] := by simpa [stretch] using hne
      have ih := ih fun p hp => h p (List.mem_append_right _ hp)
      obtain ⟨v', rest, e, _, hs, hrest⟩ := h (w, s) (by simp) hw
      rw [show flat [(w, s)] = w ++ s by simp [flat]] at ih
      rw [List.cons_append, List.nil_append, wordsFrom, plainCost, if_neg hw, if_neg hw]
      have hf : vs = v' :: rest := by rw [hf]; simpa [stretch] using e
      subst hf
      simp only [stretch, List.length_singleton, Nat.cast_one]
      cases i with
      | zero =>
        cases hv
        rw [hs]
        rcases ih with ⟨e1, e2⟩ | ih
        · exact .inl ⟨by rw [e1]; simp, by rw [e2]; ring⟩
        · exact .inr (by linarith)
      | succ i =>
        have := hrest v (List.mem_of_getElem? (by simpa using hv))
        right
        rcases ih with ⟨_, e2⟩ | ih <;> linarith
  | @unknown o w s g l c hw hf _ _ =>
    obtain ⟨v', rest, e, _⟩ := h (w, s) (by simp) hw
    rw [e] at hf
    cases hf

theorem cheapest_plain {α : Type} {found : List Char → List α} {dist score : α → Rat} {n : Nat} (hn : 1 ≤ n)
    {m e : Rat} (hm0 : 0 ≤ m) (hm1 : m ≤ 1) (he : 0 ≤ e) {o : Nat} {g : List Seg}
    (hg : ∀ p ∈ g.tail, p.1 ≠ []) (hem : 4 * e * (g.length + 99) < m)
    (h : ∀ p ∈ g, p.1 ≠ [] → Settled found dist score m p.1)
    {l : List (Nat × List Char × Option Nat)} (hl : Cheapest e (fun t us => us = found t) dist score n o g l) :
    l = (wordsFrom o g).map fun u => (u.1, u.2, some 0) := by
  obtain ⟨c, hc, hmin⟩ := hl
  rcases division_dear hm0 hm1 hc h with h1 | h1
  · exact h1.1
  exfalso
  have hle := hmin _ _ (division_plain hn g o h)
  have b1 := plainCost_ge g
  have b2 := plainCost_le hg
  have hlen : (0 : Rat) ≤ g.length := by positivity
  have he4 : 4 * e ≤ 1 := by nlinarith
  have hb : e * plainCost g ≤ e * (g.length + 99) := mul_le_mul_of_nonneg_left b2 he
  have hb' : e * g.length ≤ e * plainCost g := mul_le_mul_of_nonneg_left b1 he
  have hy : 0 ≤ c - plainCost g - m := by linarith
  have k : e * (c - plainCost g) ≤ 1 / 4 * (c - plainCost g) :=
    mul_le_mul_of_nonneg_right (by linarith) (by linarith)
  nlinarith

/-- A row is that of a word with what is found for it. -/
theorem row_of_first {x : ToolExt} {c : CommandLine} (hlex : ¬ Given c .outputLexmatch) {names : List (List Char)}
    {as : List (List (List Char × Option Nat × VocabParams))} {p : Params} {found : List Char → List (Nat × Hit)}
    {u : Nat × List Char} {row : List Char} (hne : found u.2 ≠ [])
    (h : DividedRow (fun v col => HitColumn x c names as p v.1 v.2 col) found (u.1, u.2, some 0) row) :
    row = wordPrinted x u ((found u.2).map fun v => (v.2.word, v.2.overall x.text.f64 p.freqWeight v.1)) := by
  obtain ⟨l, cols, hl, hcols, rfl⟩ := h
  have hl' : l = found u.2 := by
    obtain ⟨v, rest, e⟩ := List.exists_cons_of_ne_nil hne
    rcases hl with ⟨i, r, hi, hr, rfl⟩ | ⟨hn, _⟩
    · cases hi
      simp only [e] at hr ⊢
      cases hr
      rfl
    · have := hn 0 rfl
      simp only [e] at this
      cases this
  subst hl'
  unfold wordPrinted
  congr 2
  clear hl hne
  generalize found u.2 = fs at hcols ⊢
  induction hcols with
  | nil => rfl
  | cons hd _ ih =>
    rw [List.flatten_cons, ih, List.map_cons, List.flatMap_cons]
    congr 1
    obtain ⟨lex, hlx, rfl⟩ := hd
    rcases hlx with ⟨_, rfl⟩ | ⟨hg, _⟩
    · simp
    · exact absurd hg hlex

/-- **C136**: without frequency ranking, a search for stretches of several words in texts all words of which are words
of the lexicons prints one row for each word of the texts, with the word itself first, with score 1, and everything
else with a score lower by at least `m`: no words are joined, split or left out.  (Other words of the lexicons must get
lower scores for these words, by more than sums of costs in floating point are off.) -/
theorem correct_text_undivided {x : ToolExt} {c : CommandLine} {files : List (List Char)}
    {alphabet : Alphabet} {as : List (List (List Char × Option Nat × VocabParams))} {w : Weights}
    {p : TextParams} {inputs : List (List (Option (List Char)))}
    (h : StretchSearch x c files alphabet as w p inputs) {u : Rat} {d : Nat → Rat}
    (hx : Reckons x.text p.variant.freqWeight u d) (hw : WeightsOk x.text.f64 w)
    (hf : p.variant.freqWeight = 0) (hs : p.variant.scoreThreshold ≤ 1) {m : Rat} (hm0 : 0 < m) (hm1 : m ≤ 1)
    (hcorrect : ∀ lines ∈ inputs, ∀ text, SearchedIn c lines text →
      CorrectText x.text alphabet as w p.variant m text ∧ SmallBatches x.text.isAlpha (slack u d) m text) :
    ∃ rs : List (List (List ((Nat × List Char) × List (List Char × Rat)))),
      List.Forall₂ (TextWords x.text.isAlpha c) inputs (rs.map (List.map (List.map Prod.fst))) ∧
      x.main c files = .ok (.output (rs.flatMap (textPrinted x)) []) ∧
      ∀ gs ∈ rs, ∀ g ∈ gs, ∀ v ∈ g, ∃ rest, v.2 = (v.1.2, 1) :: rest ∧ ∀ z ∈ rest, z.2 ≤ 1 - m := by
  obtain ⟨afile, alines, ha, hal, hae⟩ := h.letters
  obtain ⟨fa, fe⟩ := fits_of_numbers h.numbers
  have hlexm : ¬ Given c .outputLexmatch := h.options _ (by simp)
  obtain ⟨found, hfound, texts, htexts, hmain⟩ := search_prints_cheapest h.semicolon h.positions h.marks h.space h.blank
    h.accepted h.search (h.options _ (by simp))
    (fun o ho => h.options o (by simp only [List.mem_cons, List.not_mem_nil, or_false] at ho ⊢; tauto))
    h.words h.numbers hx hw (by rw [hf]) h.several h.sequences h.some h.unreserved ha hal hae h.texts h.short
  -- what is found for a correct word
  let F : List Char → List (List Char × Rat) := fun t =>
    (found t).map fun v => (v.2.word, v.2.overall x.text.f64 p.variant.freqWeight v.1)
  have key : ∀ t, t ≠ [] → ShortEnough x.text alphabet p.variant t → (∃ a ∈ as.flatten, a.1 = t) →
      (∀ a ∈ as.flatten, ∀ s, Near x.text alphabet w p.variant t a.1 s → a.1 = t ∨ s ≤ 1 - m) →
      Settled found (fun u => u.2.score) (fun u => u.2.overall x.text.f64 p.variant.freqWeight u.1) m t ∧
      ∃ rest, F t = (t, 1) :: rest ∧ ∀ z ∈ rest, z.2 ≤ 1 - m := by
    intro t ht hshort hword hnear
    obtain ⟨top, hits, hR, hfd⟩ := hfound t ht hshort
    obtain ⟨a, ham, eat⟩ := id hword
    have hnr : ¬ Reserved t := eat ▸ h.unreserved a ham
    obtain ⟨qs, _, hqs, _⟩ := id hshort
    obtain ⟨⟨t', rest, e⟩, _, _⟩ := found_self hw hf hs fa fe ht hqs hnr hword hR
    have hov : ∀ v : Hit, v.overall x.text.f64 p.variant.freqWeight top = v.score := fun v => by
      rw [Hit.overall, if_pos hf]
    have hshown := shown_sublist x.text.f64 p.variant.maxMatches p.variant.cutoffThreshold
      (Hit.overall x.text.f64 p.variant.freqWeight top) Hit.score hits
    have hnd := hR.nodup.sublist (hshown.map Hit.word)
    have hscore : ∀ v ∈ shown x.text.f64 p.variant.maxMatches p.variant.cutoffThreshold
        (Hit.overall x.text.f64 p.variant.freqWeight top) Hit.score hits, v.word = t ∨ v.score ≤ 1 - m := by
      intro v hv
      obtain ⟨_, hsim, hfr⟩ := (hR.mem v).mp (hshown.subset hv)
      obtain ⟨b, hb, eb, _⟩ := hfr.1
      rcases hnear b hb v.score (eb ▸ hsim.1) with h1 | h1
      · exact .inl (eb ▸ h1)
      · exact .inr h1
    unfold foundOf at e
    generalize hsh : shown x.text.f64 p.variant.maxMatches p.variant.cutoffThreshold
        (Hit.overall x.text.f64 p.variant.freqWeight top) Hit.score hits = S at *
    cases S with
    | nil => cases e
    | cons v vs =>
      rw [List.map_cons] at e
      obtain ⟨e1, rfl⟩ := List.cons.inj e
      obtain ⟨rfl, e2⟩ := Prod.mk.inj e1
      rw [hov] at e2
      have hvt : v.word = t := by
        rcases hscore v List.mem_cons_self with h1 | h1
        · exact h1
        · linarith
      have hvs : ∀ z ∈ vs, z.score ≤ 1 - m := by
        intro z hz
        rcases hscore z (List.mem_cons_of_mem _ hz) with h1 | h1
        · rw [List.map_cons, List.nodup_cons] at hnd
          exact absurd (List.mem_map.mpr ⟨z, hz, h1.trans hvt.symm⟩) hnd.1
        · exact h1
      constructor
      · refine ⟨(top, v), vs.map fun z => (top, z), by rw [hfd]; rfl, e2, (hov v).trans e2, ?_⟩
        intro z hz
        obtain ⟨z', hz', rfl⟩ := List.mem_map.mp hz
        exact (hov z').trans_le (hvs z' hz')
      · refine ⟨vs.map fun z => (z.word, z.score), ?_, ?_⟩
        · show (found t).map _ = _
          rw [hfd, List.map_cons, List.map_cons, List.map_map]
          simp only [hov, hvt, e2]
          congr 1
          refine List.map_congr_left fun z _ => ?_
          simp only [Function.comp, hov]
        · intro z hz
          obtain ⟨z', hz', rfl⟩ := List.mem_map.mp hz
          exact hvs z' hz'
  -- a text
  have text : ∀ lines ∈ inputs, ∀ text, SearchedIn c lines text → ∀ rs,
      CheapestIn x.text (slack u d) (fun u => u.2.score)
        (fun u => u.2.overall x.text.f64 p.variant.freqWeight u.1) found p.maxNgram text rs →
      ∃ ws, WordsOf x.text.isAlpha text ws ∧ rs = ws.map (fun u => (u.1, u.2, some 0)) ∧
        ∀ v ∈ ws, ∃ rest, F v.2 = (v.2, 1) :: rest ∧ ∀ z ∈ rest, z.2 ≤ 1 - m := by
    rintro lines hli text ht rs ⟨segs, ls, hseg, hls, rfl⟩
    obtain ⟨hcor, hsmall⟩ := hcorrect lines hli text ht
    obtain ⟨hwords, _⟩ := words_of_text hseg
    rw [← wordsFrom_runs] at hwords
    obtain ⟨hb1, hb2⟩ := batches_of hseg
    have hat : ∀ q ∈ segs, q.1 ≠ [] → ∃ b, WordAt x.text.isAlpha text b q.1 := by
      intro q hq hq0
      obtain ⟨a, b, e⟩ := List.append_of_mem hq
      refine ⟨byteLen (flat a), (hwords.mem _ _).mp ?_⟩
      rw [e, wordsFrom_append]
      obtain ⟨w', s'⟩ := q
      rw [wordsFrom, if_neg hq0]
      simp
    have hse : ∀ q ∈ segs, q.1 ≠ [] → ShortEnough x.text alphabet p.variant q.1 := by
      intro q hq hq0
      obtain ⟨a, b, e⟩ := List.append_of_mem hq
      have := h.short lines hli text ht segs [q] hseg ⟨a, b, by rw [e]; simp⟩
        (by have := h.several; simp only [List.length_singleton]; omega)
      simp only [stretch] at this
      exact this hq0
    have hset := fun q hq hq0 => (hat q hq hq0).elim fun b hb =>
      key q.1 hq0 (hse q hq hq0) (hcor b q.1 hb).1 (hcor b q.1 hb).2
    have hsub : ∀ g ∈ batches [] segs, ∀ q ∈ g, q ∈ segs := by
      intro g hg q hq
      rcases hb2 with e | ⟨e, _⟩
      · rw [← e]
        exact List.mem_flatten.mpr ⟨g, hg, hq⟩
      · rw [e] at hg; cases hg
    refine ⟨wordsFrom 0 segs, hwords, ?_, ?_⟩
    · have hls' : ls = (placed 0 (batches [] segs)).map fun b =>
          (wordsFrom b.1 b.2).map fun u => (u.1, u.2, some 0) := by
        refine forall₂_eq_map ((forall₂_mem_left hls).imp fun b l hcl => ?_)
        have hg := batch_of_placed hcl.2
        obtain ⟨s1, s2⟩ := hsmall segs hseg b.2 hg
        exact cheapest_plain (by have := h.several; omega) hm0.le hm1 s1 (hb1 _ hg).seg.words_ne s2
          (fun q hq hq0 => (hset q (hsub _ hg q hq) hq0).1) hcl.1
      rw [hls', ← List.flatMap_def]
      have e : wordsFrom 0 segs = wordsFrom 0 (batches [] segs).flatten := by
        rcases hb2 with e | ⟨e, s, e'⟩
        · rw [e]
        · rw [e, e']; simp [wordsFrom]
      rw [e, ← placed_words, List.map_flatMap]
    · intro v hv
      obtain ⟨b, t⟩ := v
      have hat := (hwords.mem b t).mp hv
      have hex : ∃ s, (t, s) ∈ segs := by
        rw [wordsFrom_runs] at hv
        obtain ⟨r, hr, er⟩ := List.mem_map.mp hv
        obtain ⟨a, r', b', e1, e2, e3, rfl⟩ := (mem_runsFrom ..).mp hr
        match r', e2 with
        | [(w', s')], _ =>
          obtain ⟨_, rfl⟩ := Prod.mk.inj er
          exact ⟨s', by rw [e1]; simp [spanAt, stretch]⟩
      obtain ⟨s, hs'⟩ := hex
      have ht0 : t ≠ [] := by obtain ⟨_, _, _, _, h0, _⟩ := hat; exact h0
      exact (hset (t, s) hs' ht0).2
  -- an input
  obtain ⟨rs, h1, rfl, h3⟩ := forall₂_choose (P := fun lines gs => TextWords x.text.isAlpha c lines (gs.map (List.map Prod.fst)))
    (Q := fun gs => ∀ g ∈ gs, ∀ v ∈ g, ∃ rest, v.2 = (v.1.2, 1) :: rest ∧ ∀ z ∈ rest, z.2 ≤ 1 - m)
    (G := textPrinted x) ((forall₂_mem_left htexts).imp fun lines out hd => by
      obtain ⟨⟨perLine, sep, gs, stretches, rows, g1, g2, g3, g4, g5, rfl⟩, hli⟩ := hd
      obtain ⟨W, w1, rfl, w3⟩ := forall₂_choose ((forall₂_mem_left g4).imp fun g rs hg =>
        text lines hli _ ⟨perLine, sep, gs, g, g1, g2, g3, hg.2, rfl⟩ rs hg.1)
      have hrows : rows = W.map fun ws => ws.map fun v => wordPrinted x v (F v.2) := by
        rw [List.forall₂_map_left_iff] at g5
        refine forall₂_eq_map ((forall₂_mem_left g5).imp fun ws row hr => ?_)
        have hr1 := hr.1
        rw [List.forall₂_map_left_iff] at hr1
        refine forall₂_eq_map ((forall₂_mem_left hr1).imp fun v r hv => ?_)
        refine row_of_first hlexm ?_ hv.1
        intro e0
        obtain ⟨rest, e, _⟩ := w3 ws hr.2 v hv.2
        simp only [F, e0] at e
        cases e
      refine ⟨W.map fun ws => ws.map fun v => (v, F v.2), ⟨perLine, sep, gs, g1, g2, g3, ?_⟩, ?_, ?_⟩
      · have : (W.map fun ws => ws.map fun v => (v, F v.2)).map (List.map Prod.fst) = W := by
          rw [List.map_map]
          conv_rhs => rw [← List.map_id W]
          refine List.map_congr_left fun ws _ => ?_
          simp [Function.comp_def]
        rw [this]
        exact w1
      · rw [hrows, textPrinted, List.filter_map, List.filter_map, List.map_map, List.map_map]
        congr 1
        have e : ((fun r : List (List Char) => decide (r ≠ [])) ∘ fun ws : List (Nat × List Char) =>
            ws.map fun v => wordPrinted x v (F v.2)) =
            ((fun g => !g.isEmpty) ∘ fun ws : List (Nat × List Char) => ws.map fun v => (v, F v.2)) := by
          funext ws
          cases ws <;> simp
        rw [e]
        refine List.map_congr_left fun ws _ => ?_
        simp only [Function.comp, List.flatMap_def, List.map_map]
        rfl
      · intro g hg v hv
        obtain ⟨ws, hws, rfl⟩ := List.mem_map.mp hg
        obtain ⟨v', hv', rfl⟩ := List.mem_map.mp hv
        exact w3 ws hws v' hv')
  refine ⟨rs, ?_, ?_, h3⟩
  · rw [List.forall₂_map_right_iff]
    exact h1
  · rw [hmain, List.flatMap_def]

/-- In `f64` arithmetic, other words of the lexicons get lower scores, by as much as one edit (or the other case of
the first letter) lowers them. -/
theorem near_gap {x : TextExt} (hx : x.f64 = .binary64) {alphabet : Alphabet}
    {as : List (List (List Char × Option Nat × VocabParams))} {w : Weights}
    (hw : WeightsOk .binary64 w) (hsum : (2 : Rat) ^ (-1022 : Int) ≤ weightSum w) {p : Params} {m : Rat}
    {text : List Char} (h0 : text ≠ []) (hm0 : 0 ≤ m) (hld : text.length * ((m + 2 ^ (-46 : Int)) * weightSum w) ≤ w.ld)
    (hcase : Counts w w.case → (m + 2 ^ (-46 : Int)) * weightSum w ≤ w.case)
    (hshort : ShortEnough x alphabet p text) (halone : Alone x.isLower alphabet as w text) :
    ∀ a ∈ as.flatten, ∀ s, Near x alphabet w p text a.1 s → a.1 = text ∨ s ≤ 1 - m := by
  intro a ham s h
  by_contra hno
  rw [not_or, not_le] at hno
  obtain ⟨hne, hs⟩ := hno
  obtain ⟨ca, cb, qs, ns, d, na, ne, h1, h2, h3, h4, h5, h6, h7, h8, h9, h10, h11⟩ := h
  have hqs : qs ≠ [] := by
    rintro rfl
    exact h0 (encodes_nil_text h3)
  have hlen := List.length_pos_iff.mpr hqs
  have hql := encodes_length h3
  obtain ⟨qs', n, hq', _, hn⟩ := hshort
  obtain rfl := encodes_unique h3 hq'
  obtain ⟨i1, i2, i3⟩ := distance_le h8
  rw [hx] at h11
  have hacc := scoreOf_accurate hw hsum hlen i1 i2 i3 h11
  have hpos : 0 < weightSum w := lt_of_lt_of_le (two_zpow_pos _) hsum
  obtain ⟨g1, g2⟩ := exactScore_gap hw.ld.1 hw.lcs.1 hw.pre.1 hw.suf.1 hw.case.1 hpos hlen i1 i2 i3
  have hgap : (1 - exactScore w qs.length d) * weightSum w < (m + 2 ^ (-46 : Int)) * weightSum w :=
    mul_lt_mul_of_pos_right (by linarith [le_trans (le_abs_self _) hacc]) hpos
  have hl : (0 : Rat) < qs.length := by exact_mod_cast hlen
  have hld0 : d.ld = 0 := by
    by_contra hd
    have h' := lt_of_le_of_lt (g1 hd) hgap
    rw [div_lt_iff₀ hl] at h'
    have : (qs.length : Rat) * ((m + 2 ^ (-46 : Int)) * weightSum w) ≤
        text.length * ((m + 2 ^ (-46 : Int)) * weightSum w) :=
      mul_le_mul_of_nonneg_right (by exact_mod_cast hql)
        (mul_nonneg (add_nonneg hm0 (two_zpow_pos _).le) hpos.le)
    linarith
  refine hne (halone a ham ?_ ?_)
  · have hns : qs = ns := by
      have := h8.ld.1
      rw [hld0] at this
      cases this
      rfl
    subst hns
    have c1 := (encodes_change h3 alphabet.length).resolve_right (by omega)
    have c2 := (encodes_change h4 alphabet.length).resolve_right (by omega)
    exact ⟨_, c1, c2⟩
  · intro hc
    have hcase0 : 0 < w.case := by
      unfold Counts at hc
      by_contra hn
      have : (2 : Rat) ^ 37 * w.case ≤ 0 := mul_nonpos_of_nonneg_of_nonpos (by positivity) (not_lt.mp hn)
      linarith
    obtain ⟨b, a', e1, e2, e3⟩ := h8.case hcase0
    have hsame : d.samecase = true := by
      by_contra hn
      exact absurd (lt_of_le_of_lt ((hcase hc).trans (g2 (by simpa using hn))) hgap) (lt_irrefl _)
    intro c hcm c' hcm'
    rw [e2] at hcm
    rw [e1] at hcm'
    cases hcm
    cases hcm'
    exact Bool.eq_iff_iff.mpr (e3.mp hsame).symm

/-- **C136**: the same in the arithmetic of IEEE 754, for texts each word of which is a word of the lexicons that no
other word of the lexicons is written like. -/
theorem correct_text_undivided_ieee {x : ToolExt} {c : CommandLine} {files : List (List Char)}
    {alphabet : Alphabet} {as : List (List (List Char × Option Nat × VocabParams))} {w : Weights}
    {p : TextParams} {inputs : List (List (Option (List Char)))}
    (h : StretchSearch x c files alphabet as w p inputs)
    (h32 : x.text.f32 = .binary32) (h64 : x.text.f64 = .binary64)
    (hln : ∀ a b, 0 < a → a * (1 + 2 ^ (-30 : Int)) ≤ b → x.text.ln64 a < x.text.ln64 b) {τ : Rat} (hτ : 0 ≤ τ)
    (hsolve : SolverAdds .binary32 τ x.text.solve)
    (hw : WeightsOk .binary64 w) (hsum : (2 : Rat) ^ (-1022 : Int) ≤ weightSum w)
    (hf : p.variant.freqWeight = 0) (hs : p.variant.scoreThreshold ≤ 1) {m : Rat} (hm0 : 0 < m) (hm1 : m ≤ 1)
    (hcase : Counts w w.case → (m + 2 ^ (-46 : Int)) * weightSum w ≤ w.case)
    (hcorrect : ∀ lines ∈ inputs, ∀ text, SearchedIn c lines text → SmallBatches x.text.isAlpha (slack32 τ) m text ∧
      ∀ b t, WordAt x.text.isAlpha text b t → (∃ a ∈ as.flatten, a.1 = t) ∧ Alone x.text.isLower alphabet as w t ∧
        t.length * ((m + 2 ^ (-46 : Int)) * weightSum w) ≤ w.ld) :
    ∃ rs : List (List (List ((Nat × List Char) × List (List Char × Rat)))),
      List.Forall₂ (TextWords x.text.isAlpha c) inputs (rs.map (List.map (List.map Prod.fst))) ∧
      x.main c files = .ok (.output (rs.flatMap (textPrinted x)) []) ∧
      ∀ gs ∈ rs, ∀ g ∈ gs, ∀ v ∈ g, ∃ rest, v.2 = (v.1.2, 1) :: rest ∧ ∀ z ∈ rest, z.2 ≤ 1 - m := by
  refine correct_text_undivided h (ieee_reckons h32 h64 hln hτ hsolve (by rw [hf, h64]; decide +kernel))
    (by rw [h64]; exact hw) hf hs hm0 hm1 fun lines hli text ht => ?_
  obtain ⟨k1, k2⟩ := hcorrect lines hli text ht
  refine ⟨fun b t hat => ?_, k1⟩
  obtain ⟨e1, e2, e3⟩ := k2 b t hat
  have ht0 : t ≠ [] := by obtain ⟨_, _, _, _, h0, _⟩ := id hat; exact h0
  have hshort : ShortEnough x.text alphabet p.variant t := by
    obtain ⟨segs, hseg, _⟩ := findBoundaries_eq x.text.isAlpha text
    obtain ⟨hwords, _⟩ := words_of_text hseg
    obtain ⟨r, hr, er⟩ := List.mem_map.mp ((hwords.mem b t).mpr hat)
    obtain ⟨a, r', b', f1, f2, f3, rfl⟩ := (mem_runsFrom ..).mp hr
    obtain ⟨_, rfl⟩ := Prod.mk.inj er
    exact h.short lines hli text ht segs r' hseg ⟨a, b', f1.symm⟩ (by have := h.several; omega) f3
  exact ⟨e1, near_gap h64 hw hsum ht0 hm0.le e3 hcase hshort e2⟩

/-! ### Example -/

/-- The words `ab`, `ba` and `a`, and the text `ab ba, a`. -/
theorem exUndivided : ∃ rs : List (List (List ((Nat × List Char) × List (List Char × Rat)))),
    List.Forall₂ (TextWords exText32.isAlpha exSearchN) [[some "ab ba, a".toList]] (rs.map (List.map (List.map Prod.fst))) ∧
    { exToolT exLex6 [some "ab ba, a".toList] with text := exText32 }.main exSearchN [['t']] =
      .ok (.output (rs.flatMap (textPrinted { exToolT exLex6 [some "ab ba, a".toList] with text := exText32 })) []) ∧
    ∀ gs ∈ rs, ∀ g ∈ gs, ∀ v ∈ g, ∃ rest, v.2 = (v.1.2, 1) :: rest ∧ ∀ z ∈ rest, z.2 ≤ 1 - 1 / 100 := by
  obtain ⟨entries, e1, e2, _⟩ := read_alphabet_entries (isSpace := exToolR.load.isSpace) rfl []
    [some "a\tA".toList, some ['b']]
  have he : entries = [["a".toList, "A".toList], ["b".toList]] := by
    rw [List.nil_append] at e2
    rw [← e2]
    decide
  rw [he] at e1
  have htext : ∀ text, SearchedIn exSearchN [some "ab ba, a".toList] text → text = "ab ba, a".toList := by
    rintro text ⟨perLine, sep, gs, g, h1, _, h3, h4, rfl⟩
    have hp : perLine = false := by
      rw [← Bool.not_eq_true, h1]
      exact not_given (by decide)
    subst hp
    obtain rfl := groups_unique h3 (.last (g := ["ab ba, a".toList]) (by decide) (by decide) (fun h => by cases h))
    cases List.mem_singleton.mp h4
    rfl
  have hsegs : Segmented exText32.isAlpha "ab ba, a".toList
      [("ab".toList, " ".toList), ("ba".toList, ", ".toList), ("a".toList, [])] :=
    ⟨by decide, rfl, by decide +kernel, by decide +kernel, by decide +kernel, by decide +kernel⟩
  have hS : StretchSearch { exToolT exLex6 [some "ab ba, a".toList] with text := exText32 } exSearchN [['t']]
      [["a".toList, "A".toList], ["b".toList]]
      [[("ab".toList, some 7, {}), ("ba".toList, some 16, {}), (['a'], some 1, {})]]
      ⟨1 / 2, 1 / 8, 1 / 8, 1 / 8, 1 / 8⟩ (exNumbers exSearchN) [[some "ab ba, a".toList]] := by
    refine ⟨ex_noSemicolon, ex_pos, ex_marks, rfl, rfl, accepted_of (by decide) (by decide), rfl, ?_,
      ⟨exUsableN.1, (exUsableN (ts := [])).2⟩, by decide, by unfold Reserved; decide, ⟨['a'], _, by decide, rfl, e1⟩,
      ⟨exNumbersN.weights, by decide +kernel, exNumbersN.params, exNumbersN.cutoff, exNumbersN.debug⟩,
      show 2 ≤ 2 by decide, by decide +kernel, inputsOf_iff.mp rfl, ?_⟩
    · have : ∀ o ∈ [OptName.json, .outputLexmatch, .variants, .errors, .confusables, .lm, .contextrules,
          .stopExact], ∀ g ∈ exSearchN.given, g.1 ≠ o := by decide
      exact fun o ho => not_given (this o ho)
    intro lines hl text ht segs r hs hr _ _
    cases List.mem_singleton.mp hl
    have h1 := htext text ht
    have h2 : (stretch r).length ≤ text.length := by
      obtain ⟨a, b, e⟩ := hr
      refine le_trans (stretch_prefix_flat r).length_le ?_
      rw [← hs.text_eq, ← e, flat_append, flat_append]
      simp
      omega
    have h3 : text.length ≤ 30 := by rw [h1]; decide
    obtain ⟨qs, hqs⟩ := encodes_exists (alphabet := [["a".toList, "A".toList], ["b".toList]])
      (by unfold NoEmpty; decide) 3 (stretch r)
    have hlen := encodes_length hqs
    have ha : (exNumbers exSearchN).variant.maxAnagramDistance = .absolute 3 := rfl
    refine ⟨qs, _, hqs, (allowed_iff ?_).mpr rfl, ?_⟩
    · rw [ha]
      show 3 ≤ 255
      decide
    · have : effectiveDistance exText32.f32 qs.length (.absolute 3) ≤ 3 :=
        (effective_absolute exText32.f32 qs.length 3 (by decide)).1.1
      rw [ha]
      show qs.length + effectiveDistance exText32.f32 qs.length (.absolute 3) ≤ 255
      omega
  refine correct_text_undivided_ieee hS rfl rfl exLn32 (le_refl 0) (sumSolver_adds _ (le_refl 0)) exWeights64 exSum64
    (by decide +kernel) (by decide +kernel) (by norm_num) (by norm_num)
    (fun _ => by unfold weightSum; norm_num) fun lines hl text ht => ?_
  cases List.mem_singleton.mp hl
  obtain rfl := htext text ht
  constructor
  · intro segs hs g hg
    obtain rfl := segmented_unique hs hsegs
    have : g.length = 2 ∨ g.length = 1 := by
      revert g
      decide
    unfold slack32 sumError
    rcases this with e | e <;> rw [e] <;> norm_num
  · intro b t hat
    have hmem := ((words_of_text hsegs).1.mem b t).mpr hat
    have ht : t = "ab".toList ∨ t = "ba".toList ∨ t = ['a'] := by
      rw [← wordsFrom_runs] at hmem
      have : ∀ u ∈ wordsFrom 0 [("ab".toList, " ".toList), ("ba".toList, ", ".toList), ("a".toList, [])],
          u.2 = "ab".toList ∨ u.2 = "ba".toList ∨ u.2 = ['a'] := by decide
      exact this _ hmem
    refine ⟨?_, ?_, ?_⟩
    · rcases ht with rfl | rfl | rfl
      · exact ⟨("ab".toList, some 7, {}), by decide, rfl⟩
      · exact ⟨("ba".toList, some 16, {}), by decide, rfl⟩
      · exact ⟨(['a'], some 1, {}), by decide, rfl⟩
    · rintro a ha ⟨codes, c1, c2⟩ _
      have same : ∀ n n', normalizeToAlphabet [["a".toList, "A".toList], ["b".toList]] t = .ok n →
          normalizeToAlphabet [["a".toList, "A".toList], ["b".toList]] a.1 = .ok n' → n = n' := by
        intro n n' h h'
        have enc := normalize_is_greedy_encoding [["a".toList, "A".toList], ["b".toList]]
          (by unfold NoEmpty; decide) (by decide)
        rw [encodes_unique ((enc _ _).mp h) ((encodes_change c1 3).resolve_right (by decide)),
          encodes_unique ((enc _ _).mp h') ((encodes_change c2 3).resolve_right (by decide))]
      simp only [List.flatten_singleton, List.mem_cons, List.not_mem_nil, or_false] at ha
      rcases ht with rfl | rfl | rfl <;> rcases ha with rfl | rfl | rfl <;>
        first | rfl | exact absurd (same _ _ rfl rfl) (by decide)
    · have hl : (t.length : Rat) ≤ 2 := by
        rcases ht with rfl | rfl | rfl <;> decide +kernel
      have hS1 : weightSum ⟨1 / 2, 1 / 8, 1 / 8, 1 / 8, 1 / 8⟩ = 1 := by unfold weightSum; norm_num
      rw [hS1]
      norm_num
      linarith

end Verif.Props
