import Verif.Spec.Reload
import Verif.Props.LearnedParts
import Verif.Props.Indexed

/-!
# What was learned can be loaded again
-/
namespace Verif.Props

open Verif.Model Verif.Spec Verif.Lemmas

/-! ## Lines -/

theorem intercalate_tail (sep a : List Char) (l : List (List Char)) :
    sep.intercalate (a :: l) = a ++ l.flatMap (sep ++ ·) := by
  induction l generalizing a with
  | nil => simp
  | cons b l ih =>
    rw [List.intercalate_cons_cons, ih, List.flatMap_cons]
    simp only [List.append_assoc]

theorem cut_unique {c : Char} {a b s t : List Char} (ha : c ∉ a) (hb : c ∉ b) (h : a ++ c :: s = b ++ c :: t) :
    a = b ∧ s = t := by
  induction a generalizing b with
  | nil =>
    cases b with
    | nil => simpa using h
    | cons d b =>
      rw [List.nil_append, List.cons_append, List.cons.injEq] at h
      exact absurd (h.1 ▸ List.mem_cons_self) hb
  | cons d a ih =>
    cases b with
    | nil =>
      rw [List.nil_append, List.cons_append, List.cons.injEq] at h
      exact absurd (h.1 ▸ List.mem_cons_self) ha
    | cons d' b =>
      rw [List.cons_append, List.cons_append, List.cons.injEq] at h
      obtain ⟨h1, h2⟩ := ih (fun h => ha (List.mem_cons_of_mem _ h)) (fun h => hb (List.mem_cons_of_mem _ h)) h.2
      exact ⟨by rw [h.1, h1], h2⟩

/-- A text has its lines only. -/
theorem lines_unique {ls rs : List (List Char)} (hl : ∀ l ∈ ls, '\n' ∉ l) (hr : ∀ l ∈ rs, '\n' ∉ l)
    (h : (ls.map (· ++ ['\n'])).flatten = (rs.map (· ++ ['\n'])).flatten) : ls = rs := by
  induction ls generalizing rs with
  | nil =>
    cases rs with
    | nil => rfl
    | cons r rs => simp at h
  | cons l ls ih =>
    cases rs with
    | nil => simp at h
    | cons r rs =>
      simp only [List.map_cons, List.flatten_cons, List.append_assoc, List.singleton_append] at h
      obtain ⟨h1, h2⟩ := cut_unique (hl l List.mem_cons_self) (hr r List.mem_cons_self) h
      rw [h1, ih (fun l h => hl l (List.mem_cons_of_mem _ h)) (fun l h => hr l (List.mem_cons_of_mem _ h)) h2]

/-- The fields of an entry. -/
def fieldsFor (showF : Rat → List Char) (e : VariantEntry) : List (List Char) :=
  e.reference :: e.variants.flatMap fun v => [v.1, showF v.2.1]

/-- The line of an entry. -/
def lineFor (showF : Rat → List Char) (e : VariantEntry) : List Char := ['\t'].intercalate (fieldsFor showF e)

theorem learnedRow_lines (showF : Rat → List Char) (ks : List (List Char × List Char × Rat))
    (words : List (List Char)) : words.flatMap (learnedRow showF ks) =
      ((learnedEntries ks words).map fun e => lineFor showF e ++ ['\n']).flatten := by
  unfold learnedEntries
  induction words with
  | nil => rfl
  | cons w ws ih =>
    rw [List.flatMap_cons, ih]
    by_cases h : variantsIn ks w = []
    · rw [learnedRow, if_pos h, List.filter_cons_of_neg (by simpa using h), List.nil_append]
    · rw [learnedRow, if_neg h, List.filter_cons_of_pos (by simpa using h), List.map_cons, List.map_cons,
        List.flatten_cons, lineFor, fieldsFor, intercalate_tail]
      congr 3
      generalize variantsIn ks w = vs
      clear h ih
      induction vs with
      | nil => rfl
      | cons v vs ih =>
        rw [List.flatMap_cons, ih]
        simp

/-- An entry that can be written. -/
structure Clean (showF : Rat → List Char) (parseF64 : List Char → Option Rat) (e : VariantEntry) : Prop where
  freq : e.freq = none
  nonempty : e.variants ≠ []
  reference : '\t' ∉ e.reference ∧ '\n' ∉ e.reference
  variants : ∀ v ∈ e.variants, v.2.2 = none ∧ '\t' ∉ v.1 ∧ '\n' ∉ v.1 ∧ parseF64 (showF v.2.1) = some v.2.1 ∧
    '\t' ∉ showF v.2.1 ∧ '\n' ∉ showF v.2.1 ∧ (showF v.2.1).getLast? ≠ some '\r'

theorem firsts_sub {α β : Type} [DecidableEq β] (key : α → β) (l : List α) : ∀ a ∈ firsts key l, a ∈ l := by
  induction l with
  | nil => intro a h; exact h
  | cons b l ih =>
    intro a h
    rcases List.mem_cons.mp h with rfl | h
    · exact List.mem_cons_self
    · exact List.mem_cons_of_mem _ (ih a (List.mem_filter.mp h).1)

theorem variantsIn_mem {ks : List (List Char × List Char × Rat)} {w : List Char} {v : List Char × Rat}
    (h : v ∈ variantsIn ks w) : (w, v) ∈ ks := by
  obtain ⟨k, hk, rfl⟩ := List.mem_map.mp (firsts_sub _ _ _ h)
  obtain ⟨hk', e⟩ := List.mem_filter.mp hk
  have e : k.1 = w := by simpa using e
  subst e
  exact hk'

theorem clean_entries {showF : Rat → List Char} {parseF64 : List Char → Option Rat}
    {ks : List (List Char × List Char × Rat)} {words : List (List Char)} (h : Readable showF parseF64 ks words) :
    ∀ e ∈ learnedEntries ks words, Clean showF parseF64 e := by
  intro e he
  obtain ⟨w, hw, rfl⟩ := List.mem_map.mp he
  obtain ⟨hw, hne⟩ := List.mem_filter.mp hw
  refine ⟨rfl, by simpa using hne, h.words w hw, ?_⟩
  intro v hv
  obtain ⟨v, hv', rfl⟩ := List.mem_map.mp hv
  have hk := variantsIn_mem hv'
  exact ⟨rfl, (h.variants _ hk).1, (h.variants _ hk).2, h.scores _ hk, h.shown _ hk⟩

section
variable {showF : Rat → List Char} {parseF64 : List Char → Option Rat} {e : VariantEntry}

theorem Clean.fields (h : Clean showF parseF64 e) : FieldsOf (lineFor showF e) (fieldsFor showF e) := by
  refine ⟨List.cons_ne_nil _ _, ?_, rfl⟩
  intro f hf
  rcases List.mem_cons.mp hf with rfl | hf
  · exact h.reference.1
  · obtain ⟨v, hv, hf⟩ := List.mem_flatMap.mp hf
    obtain ⟨_, h1, _, _, h2, _⟩ := h.variants v hv
    rcases List.mem_pair.mp hf with rfl | rfl
    · exact h1
    · exact h2

theorem Clean.newline (h : Clean showF parseF64 e) : '\n' ∉ lineFor showF e := by
  rw [lineFor, fieldsFor, intercalate_tail]
  simp only [List.mem_append, List.mem_flatMap, not_or, not_exists, not_and]
  refine ⟨h.reference.2, ?_⟩
  rintro f ⟨v, hv, hf⟩
  obtain ⟨_, _, h1, _, _, h2, _⟩ := h.variants v hv
  rcases List.mem_pair.mp hf with rfl | rfl
  · simpa using h1
  · simpa using h2

theorem Clean.line (h : Clean showF parseF64 e) :
    withoutReturn (lineFor showF e) = lineFor showF e ∧ lineFor showF e ≠ [] := by
  obtain ⟨vs, v, hv⟩ : ∃ vs v, e.variants = vs ++ [v] :=
    ⟨_, _, (List.dropLast_append_getLast h.nonempty).symm⟩
  obtain ⟨_, _, _, _, _, _, hlast⟩ := h.variants v (by rw [hv]; simp)
  have hl : ∃ a, lineFor showF e = a ++ '\t' :: showF v.2.1 := by
    refine ⟨e.reference ++ (vs.flatMap fun v => [v.1, showF v.2.1]).flatMap (['\t'] ++ ·) ++ ('\t' :: v.1), ?_⟩
    rw [lineFor, fieldsFor, intercalate_tail, hv]
    simp
  obtain ⟨a, ha⟩ := hl
  rw [ha]
  refine ⟨?_, by simp⟩
  rw [withoutReturn, if_neg]
  cases hs : showF v.2.1 with
  | nil => simp
  | cons b bs =>
    rw [hs] at hlast
    rw [List.getLast?_append, List.getLast?_cons_cons]
    rw [List.getLast?_eq_some_getLast (List.cons_ne_nil b bs)] at hlast ⊢
    simpa using hlast

theorem Clean.plain (h : Clean showF parseF64 e) : PlainLine parseF64 (lineFor showF e) e := by
  obtain ⟨r, f, vs⟩ := e
  have hf : f = none := h.freq
  subst hf
  refine .mk h.fields ?_
  have hv := h.variants
  clear h
  change ∀ v ∈ vs, _ at hv
  change PlainFields parseF64 (vs.flatMap fun v => [v.1, showF v.2.1]) vs
  induction vs with
  | nil => exact .nil
  | cons v vs ih =>
    obtain ⟨h0, _, _, h1, _⟩ := hv v List.mem_cons_self
    obtain ⟨t, s, c⟩ := v
    have h0 : c = none := h0
    subst h0
    exact .cons h1 (ih fun v h => hv v (List.mem_cons_of_mem _ h))

/-- What the line of an entry tells. -/
theorem Clean.tells (h : Clean showF parseF64 e) :
    (e.variants.length % 3 ≠ 2 → Tells (lineFor showF e) (some false)) ∧
    (e.variants.length % 3 = 2 → ∀ v ∈ e.variants.head?,
      (∀ n, NumberText (2 ^ 32 - 1) v.1 n → Tells (lineFor showF e) (some true)) ∧
      ((∀ n, ¬ NumberText (2 ^ 32 - 1) v.1 n) → Tells (lineFor showF e) none)) := by
  have hf := h.fields
  have hne := h.nonempty
  obtain ⟨r, f, vs⟩ := e
  obtain ⟨v, vs, rfl⟩ : ∃ v vs', vs = v :: vs' := List.exists_cons_of_ne_nil hne
  have hfs : fieldsFor showF ⟨r, f, v :: vs⟩ =
      r :: v.1 :: (showF v.2.1 :: vs.flatMap fun v => [v.1, showF v.2.1]) := rfl
  have hlen : (showF v.2.1 :: vs.flatMap fun v => [v.1, showF v.2.1]).length = 1 + 2 * vs.length := by
    rw [List.length_cons, List.length_flatMap]
    simp
    omega
  rw [hfs] at hf
  simp only [List.length_cons, List.head?_cons, Option.mem_some_iff, forall_eq']
  refine ⟨fun hk => .noFreq hf (by rw [hlen]; omega), fun hk => ⟨fun n hn => .freq hf (by rw [hlen]; omega) hn,
    fun hn => .unknown hf (by rw [hlen]; omega) hn⟩⟩

end

theorem read_iff {showF : Rat → List Char} {parseF64 : List Char → Option Rat} {es : List VariantEntry}
    (hc : ∀ e ∈ es, Clean showF parseF64 e) :
    VariantLines parseF64 none (es.map (lineFor showF)) es ↔ NotCounts es := by
  have hplain : ∀ {es : List VariantEntry}, (∀ e ∈ es, Clean showF parseF64 e) →
      VariantLines parseF64 (some false) (es.map (lineFor showF)) es := by
    intro es hc
    induction es with
    | nil => exact .nil
    | cons e es ih =>
      exact .plain (hc e List.mem_cons_self).plain (ih fun e h => hc e (List.mem_cons_of_mem _ h))
  induction es with
  | nil => exact ⟨fun _ => .nil, fun _ => .nil⟩
  | cons e es ih =>
    have ih := ih fun e h => hc e (List.mem_cons_of_mem _ h)
    have he := hc e List.mem_cons_self
    obtain ⟨t1, t2⟩ := he.tells
    rw [List.map_cons]
    by_cases hk : e.variants.length % 3 = 2
    · obtain ⟨v, hv⟩ : ∃ v, e.variants.head? = some v := by
        cases h : e.variants with
        | nil => exact absurd h he.nonempty
        | cons v vs => exact ⟨v, rfl⟩
      obtain ⟨t2, t3⟩ := t2 hk v hv
      constructor
      · intro h
        cases h with
        | unknown h1 _ h3 =>
          refine .next hk ?_ (ih.mp h3)
          intro v' hv' n hn
          cases hv.symm.trans hv'
          cases tells_unique h1 (t2 n hn)
        | tells h1 h2 =>
          cases h2 with
          | freq h2 _ =>
            cases h2
            cases he.freq
          | plain h2 _ =>
            by_cases hn : ∃ n, NumberText (2 ^ 32 - 1) v.1 n
            · obtain ⟨n, hn⟩ := hn
              cases tells_unique h1 (t2 n hn)
            · cases tells_unique h1 (t3 fun n h => hn ⟨n, h⟩)
      · intro h
        cases h with
        | other h => exact absurd hk h
        | next _ h1 h2 => exact .unknown (t3 (h1 v hv)) he.plain (ih.mpr h2)
    · exact ⟨fun _ => .other hk, fun _ => .tells (t1 hk) (hplain hc)⟩

/-- **C118**: what was learned, as it is printed, is read as a variant list with the same variants and scores,
if and only if no variant is taken for a frequency. -/
theorem learned_list_iff {showF : Rat → List Char} {parseF64 : List Char → Option Rat}
    {as : List (List (List Char × Option Nat × VocabParams))} {s : Lexis × List (List Char × List Char × Rat)}
    {text : List Char} {ws : List FileWrite} (h : LearnedText showF as s text ws)
    (hw : Readable showF parseF64 s.2 (as.flatten.map Prod.fst))
    {lines : List (Option (List Char))} (hl : HasLines text lines) :
    VariantLines parseF64 none (nonEmpty lines) (learnedEntries s.2 (firsts id (as.flatten.map Prod.fst))) ↔
      NotCounts (learnedEntries s.2 (firsts id (as.flatten.map Prod.fst))) := by
  have hc := clean_entries (words := firsts id (as.flatten.map Prod.fst))
    ⟨fun w h => hw.words w (firsts_sub _ _ w h), hw.variants, hw.scores, hw.shown⟩
  obtain ⟨ls, h1, h2, rfl⟩ := hl
  obtain ⟨_, ht⟩ := h
  rw [learnedRow_lines] at ht
  generalize learnedEntries s.2 (firsts id (as.flatten.map Prod.fst)) = es at hc ht ⊢
  have hls : ls = es.map (lineFor showF) := by
    refine lines_unique h1 ?_ ?_
    · intro l hl
      obtain ⟨e, he, rfl⟩ := List.mem_map.mp hl
      exact (hc e he).newline
    · rw [← h2, ht, List.map_map]
      rfl
  have hne : nonEmpty (ls.map fun l => some (withoutReturn l)) = es.map (lineFor showF) := by
    rw [hls]
    clear hls ht
    induction es with
    | nil => rfl
    | cons e es ih =>
      have ih := ih fun e h => hc e (List.mem_cons_of_mem _ h)
      obtain ⟨g1, g2⟩ := (hc e List.mem_cons_self).line
      unfold nonEmpty readable at ih ⊢
      simp only [List.map_cons, List.filterMap_cons, g1, id_eq] at ih ⊢
      rw [List.filter_cons_of_pos (by simpa using g2), ih]
  rw [hne]
  exact read_iff hc

/-! ## The variants again -/

theorem firsts_append {α β : Type} [DecidableEq β] (key : α → β) (a b : List α) :
    firsts key (a ++ b) = firsts key a ++ (firsts key b).filter fun x => key x ∉ a.map key := by
  induction a with
  | nil =>
    refine (List.filter_eq_self.mpr ?_).symm
    intro x _
    simp
  | cons c a ih =>
    rw [List.cons_append, firsts, ih, firsts, List.cons_append, List.filter_append, List.filter_filter]
    congr 2
    refine List.filter_congr fun x _ => ?_
    by_cases h : key x = key c
    · simp [h]
    · simp [h]

theorem firsts_again {α β : Type} [DecidableEq β] (key : α → β) (l : List α) :
    firsts key (firsts key l) = firsts key l := by
  induction l using List.reverseRecOn with
  | nil => rfl
  | append_singleton l a ih =>
    rw [firsts_snoc]
    by_cases h : key a ∈ l.map key
    · rw [if_pos h, ih]
    · rw [if_neg h, firsts_snoc, if_neg (by rw [firsts_keys]; exact h), ih]

/-- What is first mentioned again after it was mentioned. -/
theorem firsts_repeat {α β : Type} [DecidableEq β] (key : α → β) (a b : List α) :
    firsts key (a ++ firsts key (a ++ b)) = firsts key (a ++ b) := by
  rw [firsts_append, firsts_again, firsts_append, List.filter_append, List.filter_filter]
  congr 1
  rw [List.filter_eq_nil_iff.mpr, List.nil_append]
  · simp
  · intro x hx
    simpa using ⟨x, firsts_sub _ _ x hx, rfl⟩

theorem linksOf_learned (ks : List (List Char × List Char × Rat)) (W : List (List Char)) :
    linksOf (learnedEntries ks W) = W.flatMap fun w => (variantsIn ks w).map fun v => (w, v) := by
  unfold linksOf learnedEntries
  rw [flatMap_filter (fun w => (variantsIn ks w).map fun v => (w, v)), List.flatMap_map]
  simp only [ne_eq, List.map_eq_nil_iff, List.map_map]
  rfl

/-- The links for a word. -/
theorem linksOf_word (ks : List (List Char × List Char × Rat)) {W : List (List Char)} (hn : W.Nodup)
    (w : List Char) : ((linksOf (learnedEntries ks W)).filter fun k => k.1 = w).map (fun k => (k.2.1, k.2.2)) =
      if w ∈ W then variantsIn ks w else [] := by
  rw [linksOf_learned]
  induction W with
  | nil => rfl
  | cons u W ih =>
    obtain ⟨h1, h2⟩ := List.nodup_cons.mp hn
    rw [List.flatMap_cons, List.filter_append, List.map_append, ih h2]
    by_cases e : u = w
    · subst e
      rw [if_neg h1, if_pos List.mem_cons_self, List.append_nil, List.filter_eq_self.mpr ?_, List.map_map]
      · exact List.map_id _
      · intro k hk
        obtain ⟨v, _, rfl⟩ := List.mem_map.mp hk
        simp
    · rw [List.filter_eq_nil_iff.mpr]
      · simp [Ne.symm e]
      · intro k hk
        obtain ⟨v, _, rfl⟩ := List.mem_map.mp hk
        simpa using e

/-- **C118**: with the list, the variants of words and their scores are what was learned; also if some of the
links that were there before are there again. -/
theorem learned_list_variants (a b : List (List Char × List Char × Rat)) {W : List (List Char)} (hn : W.Nodup)
    {w : List Char} (hw : w ∈ W) :
    variantsIn (a ++ linksOf (learnedEntries (a ++ b) W)) w = variantsIn (a ++ b) w := by
  have h := linksOf_word (a ++ b) hn w
  rw [if_pos hw] at h
  unfold variantsIn at h ⊢
  rw [List.filter_append, List.map_append, h, List.filter_append, List.map_append, firsts_repeat]

theorem linksOf_sub {ks : List (List Char × List Char × Rat)} {W : List (List Char)} :
    ∀ k ∈ linksOf (learnedEntries ks W), k ∈ ks ∧ k.1 ∈ W := by
  intro k hk
  rw [linksOf_learned] at hk
  obtain ⟨w, hw, hk⟩ := List.mem_flatMap.mp hk
  obtain ⟨v, hv, rfl⟩ := List.mem_map.mp hk
  exact ⟨variantsIn_mem hv, hw⟩

theorem proper_self {ks : List (List Char × List Char × Rat)} (h : ∀ k ∈ ks, k.1 ≠ k.2.1) : proper ks = ks :=
  List.filter_eq_self.mpr fun k hk => by simpa using h k hk

theorem proper_ne (ks : List (List Char × List Char × Rat)) : ∀ k ∈ proper ks, k.1 ≠ k.2.1 := by
  intro k hk
  simpa using (List.mem_filter.mp hk).2

/-- What is learned from one input is added to the links there were. -/
theorem learned_links {found : Lexis → List (List Char) → List (List Char × List Char × Rat) → Prop} {n : Nat}
    {as : List (List (List Char × Option Nat × VocabParams))} {showF : Rat → List Char}
    {s : Lexis × List (List Char × List Char × Rat)} {lines : List (Option (List Char))} {text : List Char}
    (h : LearnAll (Learns found) n (LearnedText showF as) s [lines] [text] [[]]) :
    ∃ L new, LearnedText showF as (L, s.2 ++ proper new) text [] := by
  have hrounds : ∀ {n : Nat} {s s' : Lexis × List (List Char × List Char × Rat)} {ls : List (List Char)},
      Rounds (Learns found ls) n s s' → ∃ new, s'.2 = s.2 ++ proper new := by
    intro n s s' ls h
    induction h with
    | none => exact ⟨[], by simp [proper]⟩
    | last h =>
      obtain ⟨new, _, rfl, _⟩ := h
      exact ⟨new, rfl⟩
    | more h _ _ ih =>
      obtain ⟨new, _, rfl, _⟩ := h
      obtain ⟨new', h⟩ := ih
      exact ⟨new ++ new', by rw [h]; simp [proper]⟩
  cases h with
  | @cons _ s' _ _ _ _ _ _ h1 h2 _ =>
    obtain ⟨new, e⟩ := hrounds h1
    exact ⟨s'.1, new, e ▸ h2⟩

/-- **C118**: what `learn` prints is printed again if it is loaded with the same resources and nothing more is
learned. -/
theorem learn_reloads {x : ToolExt} (hf : ∀ s, ';' ∈ s → x.parseF32 s = none) (hpos : StrictMono x.pos)
    (hmarks : MarksOk x.load.isSpace) (hsp : x.text.isAlpha ' ' = false) (hsolve : SolverOk x.text.solve)
    (hb : x.load.isSpace '\\' = false)
    {c : CommandLine} (hc : Accepted c) (hsub : c.sub = .learn)
    (hj : ¬ Given c .json) (hmo : ¬ Given c .multiOutput)
    {as : List (List (List Char × Option Nat × VocabParams))} {a : List (List Char × Option Nat × VocabParams)}
    {w : Weights} {p : TextParams}
    (hfiles : UsableFiles x c (as ++ [a])) (hnum : UsableNumbers x c w p)
    (hfw : 0 ≤ p.variant.freqWeight)
    (hlenient : ¬ Given c .strict → 1 ≤ p.maxSeq ∧
      (0 < p.lmWeight → ∀ b ∈ (as ++ [a]).flatten, ∀ ws, TokensOf b.1 ws → ws.length ≤ 255))
    {afile : List Char} {alines : List (Option (List Char))} {alphabet : Alphabet}
    (ha : (.alphabet, afile) ∈ c.given) (hal : x.load.file afile = some alines)
    (hae : List.Forall₂ (AlphabetLine x.load.isSpace) (nonEmpty alines) alphabet)
    {cs : List Confusable} (hcs : ConfusablesGiven x c cs)
    {v : List Char} {n : Nat} (hv : InForce c .iterations "1".toList v) (hn : NumberText 255 v n)
    {files : List (List Char)} (hin : InputsOf x files [[]])
    (hcount : (n + 1) * (((as ++ [a]).flatten.map fun a => a.2.1.getD 1).sum) < 2 ^ 32)
    {ss : List Source} {f : List Char} (hss : sourcesGiven c = ss ++ [.variants f])
    (hadds : AddsAll x.load 0 ss as) (hr : ∀ a ∈ as.flatten, ¬ Reserved a.1)
    {kss : List (List (List Char × List Char × Rat))} (hk : List.Forall₂ (Gives x.load) ss kss)
    {L : Lexis} {new : List (List Char × List Char × Rat)} {text : List Char} {ws : List FileWrite}
    (htext : LearnedText x.showF as (L, proper kss.flatten ++ proper new) text ws)
    {lines : List (Option (List Char))} (hlines : HasLines text lines) (hfile : x.load.file f = some lines)
    (hread : Readable x.showF x.load.parseF64 (proper kss.flatten ++ proper new) (as.flatten.map Prod.fst))
    (hcounts : NotCounts (learnedEntries (proper kss.flatten ++ proper new)
      (firsts id (as.flatten.map Prod.fst)))) :
    x.main c files = .ok (.output text [[]]) := by
  classical
  have hne : ∀ k ∈ proper kss.flatten ++ proper new, k.1 ≠ k.2.1 := by
    intro k hk
    rcases List.mem_append.mp hk with hk | hk <;> exact proper_ne _ k hk
  have hlist := (learned_list_iff htext hread hlines).mpr hcounts
  have hgives : Gives x.load (.variants f) _ := .variants hfile hlist
  change Gives x.load (.variants f) (linksOf (learnedEntries (proper kss.flatten ++ proper new) _)) at hgives
  have hk' : List.Forall₂ (Gives x.load) (sourcesGiven c) (kss ++ [linksOf (learnedEntries
      (proper kss.flatten ++ proper new) (firsts id (as.flatten.map Prod.fst)))]) := by
    rw [hss]
    exact List.rel_append hk (.cons hgives .nil)
  have hin1 : ∀ k ∈ kss.flatten, k.1 ∈ as.flatten.map Prod.fst := by
    intro k hk1
    obtain ⟨b, hb, e⟩ := gives_added hadds hk k hk1
    exact List.mem_map.mpr ⟨b, hb, e⟩
  have hin2 : ∀ k ∈ linksOf (learnedEntries (proper kss.flatten ++ proper new)
      (firsts id (as.flatten.map Prod.fst))), k.1 ∈ as.flatten.map Prod.fst := by
    intro k hk2
    exact firsts_sub _ _ _ (linksOf_sub k hk2).2
  have hW : ∀ t ∈ as.flatten.map Prod.fst, ¬ Reserved t := by
    intro t ht
    obtain ⟨b, hb, rfl⟩ := List.mem_map.mp ht
    exact hr b hb
  have hrefs : ∀ k ∈ (kss ++ [linksOf (learnedEntries (proper kss.flatten ++ proper new)
      (firsts id (as.flatten.map Prod.fst)))]).flatten, ¬ Reserved k.1 := by
    intro k hk3
    rw [List.flatten_append, List.flatten_singleton] at hk3
    rcases List.mem_append.mp hk3 with h | h
    · exact hW _ (hin1 k h)
    · exact hW _ (hin2 k h)
  obtain ⟨args, M, asked, hL, _, hsrc, hsz, hadds', hcfg, halpha, _, _⟩ :=
    resources_listed hmarks hb hc hfiles hnum hfw ha hal hae hk' hrefs hcs
      (early := decide (Given c .earlyConfusables)) (by simp)
  obtain ⟨args', M', _, hload', hL', hLF', ha6, _, _, _, hshort⟩ := usable_loads hmarks hfiles
  have hLL := loadedFor_unique hpos hc hLF' asked.1
  subst hLL
  have hst := stocked_load hL (by omega) hadds' (hsrc ▸ hk') hrefs hshort
  rw [hsrc] at hst
  obtain ⟨texts, h1, h2⟩ := learn_prints hf hpos hmarks hsp hsolve hc hsub (strict := decide (Given c .strict))
    (by simp) hj hmo hfiles hnum hlenient hv hn hin (by
      intro ls hls l hl
      rw [List.mem_singleton.mp hls] at hl
      cases hl) (by simpa [bytesOf, untilError] using hcount) asked
    (R := fun m s => Stocked M'.vm.alphabet x.orders ((as ++ [a]).flatten.map Prod.fst) m s ∧
      s.2 = proper (kss ++ [linksOf (learnedEntries (proper kss.flatten ++ proper new)
        (firsts id (as.flatten.map Prod.fst)))]).flatten)
    (fun _ _ h => h.1)
    (step := fun _ s s' k => s'.2 = s.2) (by
      intro ls hls m m' k s hs hl
      rw [List.mem_singleton.mp hls] at hl
      obtain ⟨fss, g1, g2⟩ := learnFrom_ok hl
      cases g1
      obtain ⟨_, h⟩ := stocked_learn hs.1 (new := []) .nil (by simp) g2
      exact ⟨_, List.append_nil _, h, by rw [← hs.2]; exact List.append_nil _⟩) ⟨hst, rfl⟩
  · cases h2 with
    | @cons _ s' _ _ t _ _ _ g1 g2 g3 =>
      cases g3
      have hs' : s'.2 = proper kss.flatten ++ linksOf (learnedEntries (proper kss.flatten ++ proper new)
          (firsts id (as.flatten.map Prod.fst))) := by
        have hro : ∀ {n : Nat} {s s' : Lexis × List (List Char × List Char × Rat)},
            Rounds (fun s s' _ => s'.2 = s.2) n s s' → s'.2 = s.2 := by
          intro n s s' h
          induction h with
          | none => rfl
          | last h => exact h
          | more h _ _ ih => rw [ih, h]
        rw [hro g1, List.flatten_append, List.flatten_singleton]
        refine (List.filter_append _ _).trans ?_
        exact congrArg (proper kss.flatten ++ ·) (proper_self fun k hk => hne k (linksOf_sub k hk).1)
      rw [h1]
      have ht : t = text := by
        rw [g2.2, htext.2, hs', List.flatten_append, List.flatten_singleton, List.map_append, firsts_append,
          List.flatMap_append]
        refine (congrArg (_ ++ ·) (List.flatMap_eq_nil_iff.mpr ?_)).trans ((List.append_nil _).trans ?_)
        rotate_left
        · refine List.flatMap_congr fun t ht => ?_
          unfold learnedRow
          rw [learned_list_variants _ _ (firsts_nodup _) ht]
        · intro t ht
          have ht : t ∉ as.flatten.map Prod.fst := by simpa using (List.mem_filter.mp ht).2
          unfold learnedRow
          rw [if_pos]
          unfold variantsIn
          rw [List.filter_eq_nil_iff.mpr]
          · rfl
          · intro k hk e
            have e : k.1 = t := by simpa using e
            rw [← e] at ht
            rcases List.mem_append.mp hk with h | h
            · exact ht (hin1 k (List.mem_filter.mp h).1)
            · exact ht (hin2 k h)
      rw [ht]
      simp

/-- Scores as they are written in the examples. -/
def exScores : List (List Char × Rat) :=
  [("1".toList, 1), ("0.5".toList, 1 / 2), ("0.53125".toList, 17 / 32), ("0.5625".toList, 9 / 16),
   ("0.65625".toList, 21 / 32), ("0.83".toList, 5 / 6), ("184".toList, 184), ("1994".toList, 1994)]

/-- Surroundings with the lexicon `l`, the variant list `o` and these lines on standard input. -/
def exToolV (l o stdin : List (Option (List Char))) : ToolExt :=
  { exToolR with
    load := { exLoadR with
      file := fun f => if f = ['l'] then some l else if f = ['o'] then some o else exLoadR.file f
      parseF64 := fun s => (exScores.find? fun e => e.1 = s).map Prod.snd }
    showF := fun q => ((exScores.find? fun e => e.2 = q).map Prod.fst).getD []
    stdin := stdin }

/-- `learn --strict --alphabet a --lexicon l --score-threshold 0.0 --cutoff-threshold 0.0` -/
def exLearnV : CommandLine :=
  { sub := .learn, debug := none
    given := [(.strict, []), (.alphabet, ['a']), (.lexicon, ['l']), (.scoreThreshold, "0.0".toList),
      (.cutoffThreshold, "0.0".toList)] }

/-- The same with `--variants o`. -/
def exLearnV2 : CommandLine := { exLearnV with given := exLearnV.given ++ [(.variants, ['o'])] }

/-- What is learned from the lines `aabb`, `abbb` and `bb`. -/
def exNew : List (List Char × List Char × Rat) :=
  [("ab".toList, "aabb".toList, 1 / 2), ("ab".toList, "abbb".toList, 17 / 32),
   ("b".toList, "bb".toList, 9 / 16)]

/-- It is printed as the list that follows. -/
example : (exToolV [some "ab".toList, some "b".toList] []
      [some "aabb".toList, some "abbb".toList, some "bb".toList]).main exLearnV [] =
    .ok (.output "ab\taabb\t0.5\tabbb\t0.53125\nb\tbb\t0.5625\n".toList [[]]) := by
  decide +kernel

/-- The links are those of the lexicon, which has none, and what was learned. -/
example : ∃ text L new, (exToolV [some "ab".toList, some "b".toList] []
      [some "aabb".toList, some "abbb".toList, some "bb".toList]).main exLearnV [] = .ok (.output text [[]]) ∧
    LearnedText (exToolV [] [] []).showF [[("ab".toList, some 1, {}), ("b".toList, some 1, {})]]
      (L, proper new) text [] := by
  have hnum : UsableNumbers exToolR exLearnV ⟨1 / 2, 1 / 8, 1 / 8, 1 / 8, 1 / 8⟩ (exNumbers exLearnV) :=
    exUsableNumbers (accepted_of (by decide) (by decide)) rfl (by decide +kernel) rfl
      (exSome exTextParams (by decide +kernel)) (.inl (by decide +kernel))
  obtain ⟨texts, h1, h2⟩ := learn_strict_prints (x := exToolV [some "ab".toList, some "b".toList] []
      [some "aabb".toList, some "abbb".toList, some "bb".toList]) (c := exLearnV) (v := ['1']) (n := 1)
    (as := [[("ab".toList, some 1, {}), ("b".toList, some 1, {})]]) (kss := [[]]) (files := []) ex_noSemicolon
    ex_pos ex_marks rfl refSolver_ok rfl (accepted_of (by decide) (by decide)) rfl ⟨[], by decide⟩
    (not_given (by decide)) (not_given (by decide)) (by
      refine ⟨⟨⟨['a'], [(['l'], 2)], [], [], [], [], []⟩, by constructor <;> decide, ?_⟩, by decide⟩
      refine ⟨⟨[some "a\tA".toList, some ['b']], rfl, by decide⟩, .cons (.lexicon
        (lines := [some "ab".toList, some "b".toList]) (es := [("ab".toList, 1), ("b".toList, 1)]) rfl ?_) .nil,
        by decide, by decide, by decide, fun f hf => (by cases hf), fun f hf => (by cases hf)⟩
      refine .cons ⟨["ab".toList], (fieldsOf_iff _ _).mpr (by decide), rfl, .inr ⟨1, rfl, .inl ⟨rfl, rfl⟩⟩⟩
        (.cons ⟨["b".toList], (fieldsOf_iff _ _).mpr (by decide), rfl, .inr ⟨1, rfl, .inl ⟨rfl, rfl⟩⟩⟩ .nil))
    ⟨hnum.weights, hnum.nonzero, hnum.params, hnum.cutoff, hnum.debug⟩ (by decide +kernel) (afile := ['a'])
    (by decide) rfl exAlphabetE (.cons .lexicon .nil) (by simp) (cs := []) ⟨[], .nil, rfl⟩ (early := false)
    (by simpa using not_given (by decide)) (.inr ⟨not_given (by decide), rfl⟩)
    ((parseUnsigned_iff _ _ _).mp (by decide))
    (inputs := [[some "aabb".toList, some "abbb".toList, some "bb".toList]]) (.inl ⟨rfl, rfl⟩) (by
      intro lines hl l h
      have hs : l ≠ [] ∧ l.length ≤ 30 ∧ l.countP (· == ' ') < 255 := by
        have hall : ∀ ls ∈ [[some "aabb".toList, some "abbb".toList, some "bb".toList]], ∀ l ∈ untilError ls,
            l ≠ [] ∧ l.length ≤ 30 ∧ l.countP (· == ' ') < 255 := by decide
        exact hall lines hl l h
      exact ⟨⟨hs.2.2, fun _ => ⟨hs.1, by omega⟩, fun h => absurd ⟨[], by decide⟩ h⟩, exShort30 rfl hs.2.1⟩)
    (by decide)
  cases h2 with
  | cons g1 g2 g3 =>
    cases g3
    obtain ⟨L, new, h⟩ := learned_links (.cons g1 g2 .nil)
    exact ⟨_, L, new, h1.trans (by simp), h⟩

/-- The surroundings in which it is loaded again. -/
def exToolV2 : ToolExt :=
  exToolV [some "ab".toList, some "b".toList]
    [some "ab\taabb\t0.5\tabbb\t0.53125".toList, some "b\tbb\t0.5625".toList] []

theorem exLearned : LearnedText exToolV2.showF [[("ab".toList, some 1, {}), ("b".toList, some 1, {})]]
    (lexisFrom [] [] [], proper [[]].flatten ++ proper exNew)
    "ab\taabb\t0.5\tabbb\t0.53125\nb\tbb\t0.5625\n".toList [] :=
  ⟨rfl, by decide +kernel⟩

theorem exHasLines : HasLines "ab\taabb\t0.5\tabbb\t0.53125\nb\tbb\t0.5625\n".toList
    [some "ab\taabb\t0.5\tabbb\t0.53125".toList, some "b\tbb\t0.5625".toList] :=
  ⟨["ab\taabb\t0.5\tabbb\t0.53125".toList, "b\tbb\t0.5625".toList], by decide, by decide, by decide⟩

theorem exReadable : Readable exToolV2.showF exToolV2.load.parseF64 (proper [[]].flatten ++ proper exNew)
    (([[("ab".toList, some 1, {}), ("b".toList, some 1, {})]] :
      List (List (List Char × Option Nat × VocabParams))).flatten.map Prod.fst) :=
  ⟨by decide, by decide, by decide +kernel, by decide +kernel⟩

theorem exNotCounts : NotCounts (learnedEntries (proper [[]].flatten ++ proper exNew)
    (firsts id (([[("ab".toList, some 1, {}), ("b".toList, some 1, {})]] :
      List (List (List Char × Option Nat × VocabParams))).flatten.map Prod.fst))) := by
  refine .next (by decide +kernel) ?_ (.other (by decide +kernel))
  have h : ∀ v ∈ ([("aabb".toList, 1 / 2, none), ("abbb".toList, 17 / 32, none)] :
      List (List Char × Rat × Option Nat)).head?, ∀ n, ¬ NumberText (2 ^ 32 - 1) v.1 n := by
    intro v hv n hn
    cases hv
    rw [← parseUnsigned_iff] at hn
    exact absurd hn (by have : parseUnsigned (2 ^ 32 - 1) "aabb".toList = none := (by decide)
                        rw [this]; simp)
  exact h

example : VariantLines exToolV2.load.parseF64 none
    ["ab\taabb\t0.5\tabbb\t0.53125".toList, "b\tbb\t0.5625".toList]
    [⟨"ab".toList, none, [("aabb".toList, 1 / 2, none), ("abbb".toList, 17 / 32, none)]⟩,
     ⟨"b".toList, none, [("bb".toList, 9 / 16, none)]⟩] :=
  (learned_list_iff exLearned exReadable exHasLines).mpr exNotCounts

example : variantsIn (linksOf (learnedEntries exNew ["ab".toList, "b".toList])) "ab".toList =
    [("aabb".toList, 1 / 2), ("abbb".toList, 17 / 32)] :=
  (learned_list_variants [] exNew (W := ["ab".toList, "b".toList]) (by decide) (by decide)).trans
    (by decide +kernel)

example : exToolV2.main exLearnV2 [] =
    .ok (.output "ab\taabb\t0.5\tabbb\t0.53125\nb\tbb\t0.5625\n".toList [[]]) := by
  have hl := (learned_list_iff exLearned exReadable exHasLines).mpr exNotCounts
  have hnum : UsableNumbers exToolR exLearnV2 ⟨1 / 2, 1 / 8, 1 / 8, 1 / 8, 1 / 8⟩ (exNumbers exLearnV2) :=
    exUsableNumbers (accepted_of (by decide) (by decide)) rfl (by decide +kernel) rfl
      (exSome exTextParams (by decide +kernel)) (.inl (by decide +kernel))
  have hadds : AddsAll exToolV2.load 0 [.lexicon ['l']] [[("ab".toList, some 1, {}), ("b".toList, some 1, {})]] := by
    refine .cons (.lexicon (lines := [some "ab".toList, some "b".toList])
      (es := [("ab".toList, 1), ("b".toList, 1)]) rfl ?_) .nil
    refine .cons ⟨["ab".toList], (fieldsOf_iff _ _).mpr (by decide), rfl, .inr ⟨1, rfl, .inl ⟨rfl, rfl⟩⟩⟩
      (.cons ⟨["b".toList], (fieldsOf_iff _ _).mpr (by decide), rfl, .inr ⟨1, rfl, .inl ⟨rfl, rfl⟩⟩⟩ .nil)
  refine learn_reloads (x := exToolV2) (c := exLearnV2) (v := ['1']) (n := 1) (f := ['o'])
    (as := [[("ab".toList, some 1, {}), ("b".toList, some 1, {})]])
    (a := [("ab".toList, none, { index := 1 }), ("aabb".toList, none, { index := 1 }),
      ("abbb".toList, none, { index := 1 }), ("b".toList, none, { index := 1 }),
      ("bb".toList, none, { index := 1 })])
    (ss := [.lexicon ['l']]) (kss := [[]]) ex_noSemicolon ex_pos
    ex_marks rfl refSolver_ok rfl (accepted_of (by decide) (by decide)) rfl (not_given (by decide))
    (not_given (by decide)) ?_ ⟨hnum.weights, hnum.nonzero, hnum.params, hnum.cutoff, hnum.debug⟩
    (by decide +kernel) (fun h => absurd ⟨[], by decide⟩ h) (afile := ['a']) (by decide) rfl exAlphabetE
    (cs := []) ⟨[], .nil, rfl⟩ (.inr ⟨not_given (by decide), rfl⟩) ((parseUnsigned_iff _ _ _).mp (by decide))
    (.inl ⟨rfl, rfl⟩) (by decide) rfl hadds ?_ (.cons .lexicon .nil) exLearned
    exHasLines rfl exReadable exNotCounts
  · refine ⟨⟨⟨['a'], [(['l'], 2)], [(['o'], 5)], [], [], [], []⟩, by constructor <;> decide, ?_⟩, by decide⟩
    refine ⟨⟨[some "a\tA".toList, some ['b']], rfl, by decide⟩, ?_, by decide, by decide, by decide,
      fun f hf => (by cases hf), fun f hf => (by cases hf)⟩
    cases hadds with
    | cons h1 h2 => exact .cons h1 (.cons (.variants rfl hl) .nil)
  · unfold Reserved
    decide

/-- **C118** fails for variants that are numbers: of two such, the first is taken for a frequency and the second
for a score, and the list is misread or the program panics. -/
theorem learned_list_misread :
    (exToolV [some "1984".toList] [] [some "194".toList, some "1994".toList]).main exLearnV [] =
      .ok (.output "1984\t194\t0.83\t1994\t1\n".toList [[]]) ∧
    (exToolV [some "1984".toList] [some "1984\t194\t0.83\t1994\t1".toList] []).main exLearnV2 [] =
      .ok (.output "1984\t0.83\t1994\n".toList [[]]) ∧
    (exToolV [some "1984".toList] [] [some "194".toList, some "184".toList]).main exLearnV [] =
      .ok (.output "1984\t194\t0.83\t184\t0.83\n".toList [[]]) ∧
    (exToolV [some "1984".toList] [some "1984\t194\t0.83\t184\t0.83".toList] []).main exLearnV2 [] =
      .error .expect := by
  refine ⟨by decide +kernel, by decide +kernel, by decide +kernel, by decide +kernel⟩

/-- **C118** fails for texts with tabs: the program panics. -/
theorem learned_list_tab :
    (exToolV [some "abab".toList] [] [some "ab\tb".toList]).main exLearnV [] =
      .ok (.output "abab\tab\tb\t0.65625\n".toList [[]]) ∧
    (exToolV [some "abab".toList] [some "abab\tab\tb\t0.65625".toList] []).main exLearnV2 [] =
      .error .expect := by
  refine ⟨by decide +kernel, by decide +kernel⟩

end Verif.Props
