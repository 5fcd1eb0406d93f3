import Verif.Spec.PySuggest
import Verif.Props.Python
import Verif.Props.Objects

/-!
# What a Python program is told about a text (C120)
-/
namespace Verif.Props

open Verif.Model Verif.Spec Verif.Lemmas

/-! ## What calls leave behind -/

/-- Reading a vocabulary. -/
theorem known_vocabulary {m m' : Vm} {fr : Bool} {ks : List (List Char × List Char × Rat)}
    (h : Known m fr ks) {f : List Char} {p : VocabParams} {lines : List (Option (List Char))}
    (hr : m.readVocabulary f p lines = .ok m') {b : Bool}
    (hb : b = true ↔ nonEmpty lines ≠ [] ∧ (∃ k, p.freqColumn = some k) ∧ p.vocabType.indexed = true) :
    Known m' (fr || b) ks := by
  obtain ⟨es, m1, g1, g2, g3⟩ := (read_vocabulary _ _ _ _ _).mp hr
  refine known_with (known_adds h g2) (m' := m') ?_
  have e : (p.freqColumn.isSome && p.vocabType.check .INDEXED && !es.isEmpty) = b := by
    rw [Bool.eq_iff_iff, hb, check_indexed', Bool.and_eq_true, Bool.and_eq_true, Option.isSome_iff_exists,
      Bool.not_eq_true', List.isEmpty_eq_false_iff, ← List.length_pos_iff, ← List.length_pos_iff, g1.length_eq]
    tauto
  rw [g3, h.counted, e]

/-- A call: the links it gives are added, and whether frequencies count. -/
theorem known_call {x : LoadExt} {L L' : Loaded} {c : PyCall} {ok : Bool} {fr : Bool}
    {ks k : List (List Char × List Char × Rat)} (h : Known L.vm fr ks) (hc : L.call x c = .ok (L', ok))
    (hk : CallGives x c k) {b : Bool} (hb : b = true ↔ CallCounts x c) :
    Known L'.vm (fr || b) (ks ++ proper k) := by
  have nothing : ∀ {fr : Bool} {m : Vm}, (∀ f t, c ≠ .readVariants f t) → Known m fr ks →
      Known m fr (ks ++ proper k) := by
    intro fr m hn h
    have e : k = [] := by
      cases hk with
      | variants => exact absurd rfl (hn _ _)
      | noFile => exact absurd rfl (hn _ _)
      | other => rfl
    rw [e, show proper [] = [] from rfl, List.append_nil]
    exact h
  have plain : ∀ {m : Vm}, ¬ CallCounts x c → Known m fr (ks ++ proper k) →
      Known m (fr || b) (ks ++ proper k) := by
    intro m hn h
    have e : b = false := by
      rw [Bool.eq_false_iff]
      exact fun e => hn (hb.mp e)
    rw [e, Bool.or_false]
    exact h
  have into : ∀ {f : List Char} {read : Vm → List (Option (List Char)) → Res Vm},
      L.readInto x f read = .ok (L', ok) →
      (x.file f = none ∧ L' = L) ∨ ∃ lines, x.file f = some lines ∧ read L.vm lines = .ok L'.vm := by
    intro f read h
    unfold Loaded.readInto at h
    cases hx : x.file f with
    | none =>
      rw [hx] at h
      cases h
      exact .inl ⟨rfl, rfl⟩
    | some lines =>
      rw [hx] at h
      obtain ⟨m, h1, h⟩ := bind_ok.mp h
      cases pure_ok.mp h
      exact .inr ⟨lines, rfl, h1⟩
  cases c with
  | build o =>
    obtain ⟨m, h1, h2⟩ := bind_ok.mp hc
    cases pure_ok.mp h2
    obtain ⟨i1, i2, i3, i4⟩ := inv_build h.inv h1
    have hs := (linkExt_build h1).noSelf h.noSelf
    refine plain (by intro h; cases h) (nothing (by intro _ _ h; cases h) (known_same h i1 hs ?_ i2 ?_))
    · show m.haveFreq = fr
      rw [(build_cases h1).1]
      exact h.counted
    · intro i v hv
      have hv : m.decoder[i]? = some v := hv
      rw [i3] at hv
      exact .inl ⟨v, hv, rfl, rfl⟩
  | addToVocabulary t f p =>
    obtain ⟨⟨m, id⟩, h1, h2⟩ := bind_ok.mp hc
    cases pure_ok.mp h2
    exact plain (by intro h; cases h) (nothing (by intro _ _ h; cases h) (known_add h h1))
  | readVocabulary f p =>
    rw [Loaded.call] at hc
    rcases into hc with ⟨h1, rfl⟩ | ⟨lines, h1, h2⟩
    · refine plain ?_ (nothing (by intro _ _ h; cases h) h)
      intro h
      cases h with
      | vocabulary h2 => rw [h1] at h2; cases h2
    · refine nothing (by intro _ _ h; cases h) (known_vocabulary h h2 ?_)
      rw [hb]
      constructor
      · intro h
        cases h with
        | vocabulary g1 g2 g3 g4 =>
          rw [h1] at g1
          cases g1
          exact ⟨g2, ⟨_, g3⟩, g4⟩
      · rintro ⟨g2, ⟨_, g3⟩, g4⟩
        exact .vocabulary h1 g2 g3 g4
  | readLexicon f =>
    rw [Loaded.call] at hc
    rcases into hc with ⟨h1, rfl⟩ | ⟨lines, h1, h2⟩
    · refine plain ?_ (nothing (by intro _ _ h; cases h) h)
      intro h
      cases h with
      | lexicon h2 => rw [h1] at h2; cases h2
    · refine nothing (by intro _ _ h; cases h) (known_vocabulary h h2 ?_)
      rw [hb]
      constructor
      · intro h
        cases h with
        | lexicon g1 g2 =>
          rw [h1] at g1
          cases g1
          exact ⟨g2, ⟨_, rfl⟩, rfl⟩
      · rintro ⟨g2, _, _⟩
        exact .lexicon h1 g2
  | readLm f =>
    rw [Loaded.call] at hc
    rcases into hc with ⟨h1, rfl⟩ | ⟨lines, h1, h2⟩
    · exact plain (by intro h; cases h) (nothing (by intro _ _ h; cases h) h)
    · refine nothing (by intro _ _ h; cases h) (known_vocabulary h h2 ?_)
      rw [hb]
      constructor
      · intro h; cases h
      · rintro ⟨_, _, h⟩; cases h
  | readVariants f t =>
    rw [Loaded.call] at hc
    refine plain (by intro h; cases h) ?_
    rcases into hc with ⟨h1, rfl⟩ | ⟨lines, h1, h2⟩
    · cases hk with
      | variants g1 => rw [h1] at g1; cases g1
      | noFile =>
        rw [show proper [] = [] from rfl, List.append_nil]
        exact h
      | other hn => exact absurd rfl (hn _ _)
    · obtain ⟨es, m1, g1, g2, g3⟩ := (read_variants _ _ _ _ _ _ _).mp h2
      cases hk with
      | variants f1 f2 =>
        rw [h1] at f1
        cases f1
        cases variantLines_unique g1 f2
        have k1 := known_entries h g2
        refine known_with k1 (m' := L'.vm) ?_
        rw [g3, ← k1.counted]
      | noFile g1 => rw [h1] at g1; cases g1
      | other hn => exact absurd rfl (hn _ _)
  | addContextrule p s t o =>
    obtain ⟨⟨book, ok⟩, h1, h2⟩ := bind_ok.mp hc
    cases pure_ok.mp h2
    exact plain (by intro h; cases h) (nothing (by intro _ _ h; cases h) h)
  | readConfusablelist f =>
    rw [Loaded.call] at hc
    refine plain (by intro h; cases h) (nothing (by intro _ _ h; cases h) ?_)
    cases hx : x.file f with
    | none => rw [hx] at hc; cases hc; exact h
    | some lines =>
      rw [hx] at hc
      obtain ⟨⟨book, ok⟩, h1, h2⟩ := bind_ok.mp hc
      cases pure_ok.mp h2
      exact h
  | readContextrules f =>
    rw [Loaded.call] at hc
    refine plain (by intro h; cases h) (nothing (by intro _ _ h; cases h) ?_)
    cases hx : x.file f with
    | none => rw [hx] at hc; cases hc; exact h
    | some lines =>
      rw [hx] at hc
      obtain ⟨⟨book, ok⟩, h1, h2⟩ := bind_ok.mp hc
      cases pure_ok.mp h2
      exact h

theorem known_calls {x : LoadExt} {cs : List PyCall} : ∀ {L L' : Loaded} {fr : Bool}
    {ks : List (List Char × List Char × Rat)} {kss : List (List (List Char × List Char × Rat))},
    Known L.vm fr ks → L.calls x cs = .ok L' → List.Forall₂ (CallGives x) cs kss →
    ∀ {b : Bool}, (b = true ↔ ∃ c ∈ cs, CallCounts x c) → Known L'.vm (fr || b) (ks ++ proper kss.flatten) := by
  classical
  induction cs with
  | nil =>
    intro L L' fr ks kss h hc hk b hb
    cases hc
    cases hk
    have e : b = false := by
      rw [Bool.eq_false_iff]
      intro e
      obtain ⟨c, hc, _⟩ := hb.mp e
      cases hc
    rw [List.flatten_nil, show proper [] = [] from rfl, List.append_nil, e, Bool.or_false]
    exact h
  | cons c cs ih =>
    intro L L' fr ks kss h hc hk b hb
    obtain ⟨⟨L1, ok⟩, h1, h2⟩ := bind_ok.mp hc
    cases hk with
    | cons k1 k2 =>
      have g := ih (known_call h h1 k1 (b := decide (CallCounts x c)) decide_eq_true_iff) h2 k2
        (b := decide (∃ c ∈ cs, CallCounts x c)) decide_eq_true_iff
      have e : (decide (CallCounts x c) || decide (∃ c ∈ cs, CallCounts x c)) = b := by
        rw [Bool.eq_iff_iff, hb, Bool.or_eq_true, decide_eq_true_iff, decide_eq_true_iff]
        simp only [List.mem_cons, exists_eq_or_imp]
      rw [Bool.or_assoc, e] at g
      rw [List.flatten_cons, proper_append, ← List.append_assoc]
      exact g

/-- Reading a list of confusables up to a line that stands for none. -/
theorem readConfusables_stopped {x : LoadExt} {lines : List (Option (List Char))} :
    ∀ {cs cs' : List Confusable} {ok : Bool} {good rest : List (List Char)} {bad : List Char}
      {new : List Confusable}, readConfusables x cs lines = .ok (cs', ok) →
    nonEmpty lines = good ++ bad :: rest → List.Forall₂ (ConfusableLine x) good new →
    (∀ c, ¬ ConfusableLine x bad c) → cs' = cs ++ new := by
  induction lines with
  | nil => intro cs cs' ok good rest bad new _ h; cases good <;> cases h
  | cons l lines ih =>
    intro cs cs' ok good rest bad new h hl hg hb
    cases l with
    | none => rw [readConfusables] at h; exact ih h hl hg hb
    | some line =>
      rw [readConfusables] at h
      cases line with
      | nil => rw [if_pos (by rfl)] at h; exact ih h hl hg hb
      | cons c0 r0 =>
        rw [if_neg (by simp)] at h
        have hne : nonEmpty (some (c0 :: r0) :: lines) = (c0 :: r0) :: nonEmpty lines := by
          simp [nonEmpty, readable]
        rw [hne] at hl
        obtain ⟨w, h1, h⟩ := bind_ok.mp h
        obtain ⟨cf, h2, h⟩ := bind_ok.mp h
        -- the line as a list of its own
        have one : ∀ c, ConfusableLine x (c0 :: r0) c ↔ cf = some c := by
          intro c
          have hr := read_confusables x [some (c0 :: r0)] [] [c]
          have e1 : readConfusables x [] [some (c0 :: r0)] =
              .ok (match cf with | none => ([], false) | some c => ([c], true)) := by
            rw [readConfusables, if_neg (by simp)]
            refine bind_ok.mpr ⟨w, h1, bind_ok.mpr ⟨cf, h2, ?_⟩⟩
            cases cf <;> rfl
          rw [e1, show nonEmpty [some (c0 :: r0)] = [c0 :: r0] by simp [nonEmpty, readable]] at hr
          constructor
          · intro hc
            have := hr.mpr ⟨[c], .cons hc .nil, rfl⟩
            cases cf with
            | none => simp at this
            | some c' => simp at this; rw [this]
          · rintro rfl
            obtain ⟨new, g1, g2⟩ := hr.mp rfl
            rw [List.nil_append] at g2
            subst g2
            cases g1 with
            | cons g _ => exact g
        cases good with
        | nil =>
          cases hg
          rw [List.nil_append] at hl
          cases hl
          cases cf with
          | none =>
            cases pure_ok.mp h
            rw [List.append_nil]
          | some c => exact absurd ((one c).mpr rfl) (hb c)
        | cons g good =>
          cases hg with
          | cons g1 g2 =>
            rw [List.cons_append] at hl
            obtain ⟨e1, e2⟩ := List.cons.inj hl
            subst e1
            cases (one _).mp g1
            have := ih h e2 g2 hb
            rw [this, List.append_assoc]
            rfl

theorem call_confusables {x : LoadExt} {L L' : Loaded} {c : PyCall} {ok : Bool} {new : List Confusable}
    (hc : L.call x c = .ok (L', ok)) (hn : CallConfuses x c new) :
    L'.confusables = L.confusables ++ new := by
  have into : ∀ {f : List Char} {read : Vm → List (Option (List Char)) → Res Vm},
      L.readInto x f read = .ok (L', ok) → L'.confusables = L.confusables := by
    intro f read h
    unfold Loaded.readInto at h
    cases hx : x.file f with
    | none => rw [hx] at h; cases h; rfl
    | some lines =>
      rw [hx] at h
      obtain ⟨m, _, h⟩ := bind_ok.mp h
      cases pure_ok.mp h
      rfl
  have other : (∀ f, c ≠ .readConfusablelist f) → L'.confusables = L.confusables →
      L'.confusables = L.confusables ++ new := by
    intro h e
    cases hn with
    | all => exact absurd rfl (h _)
    | stopped => exact absurd rfl (h _)
    | noFile => exact absurd rfl (h _)
    | other => rw [List.append_nil, e]
  cases c with
  | build o =>
    obtain ⟨m, _, h⟩ := bind_ok.mp hc
    cases pure_ok.mp h
    exact other (by intro _ h; cases h) rfl
  | addToVocabulary t f p =>
    obtain ⟨m, _, h⟩ := bind_ok.mp hc
    cases pure_ok.mp h
    exact other (by intro _ h; cases h) rfl
  | readVocabulary f p =>
    rw [Loaded.call] at hc
    exact other (by intro _ h; cases h) (into hc)
  | readLexicon f =>
    rw [Loaded.call] at hc
    exact other (by intro _ h; cases h) (into hc)
  | readLm f =>
    rw [Loaded.call] at hc
    exact other (by intro _ h; cases h) (into hc)
  | readVariants f t =>
    rw [Loaded.call] at hc
    exact other (by intro _ h; cases h) (into hc)
  | addContextrule p s t o =>
    obtain ⟨⟨book, ok⟩, _, h⟩ := bind_ok.mp hc
    cases pure_ok.mp h
    exact other (by intro _ h; cases h) rfl
  | readContextrules f =>
    refine other (by intro _ h; cases h) ?_
    rw [Loaded.call] at hc
    cases hx : x.file f with
    | none => rw [hx] at hc; cases hc; rfl
    | some lines =>
      rw [hx] at hc
      obtain ⟨⟨book, ok⟩, _, h⟩ := bind_ok.mp hc
      cases pure_ok.mp h
      rfl
  | readConfusablelist f =>
    rw [Loaded.call] at hc
    cases hx : x.file f with
    | none =>
      rw [hx] at hc
      cases hc
      cases hn with
      | all h => rw [hx] at h; cases h
      | stopped h => rw [hx] at h; cases h
      | noFile => rw [List.append_nil]
      | other h => exact absurd rfl (h _)
    | some lines =>
      rw [hx] at hc
      obtain ⟨⟨cs, ok⟩, h1, h⟩ := bind_ok.mp hc
      cases pure_ok.mp h
      cases hn with
      | all g1 g2 =>
        rw [hx] at g1
        cases g1
        rw [(read_confusables x lines L.confusables _).mpr ⟨new, g2, rfl⟩] at h1
        cases h1
        rfl
      | stopped g1 g2 g3 g4 =>
        rw [hx] at g1
        cases g1
        exact readConfusables_stopped h1 g2 g3 g4
      | noFile h => rw [hx] at h; cases h
      | other h => exact absurd rfl (h _)

theorem calls_confusables {x : LoadExt} {cs : List PyCall} : ∀ {L L' : Loaded}
    {css : List (List Confusable)}, L.calls x cs = .ok L' → List.Forall₂ (CallConfuses x) cs css →
    L'.confusables = L.confusables ++ css.flatten := by
  induction cs with
  | nil => intro L L' css h hc; cases h; cases hc; simp
  | cons c cs ih =>
    intro L L' css h hc
    obtain ⟨⟨L1, ok⟩, h1, h2⟩ := bind_ok.mp h
    cases hc with
    | cons k1 k2 => rw [ih h2 k2, call_confusables h1 k1, List.append_assoc, List.flatten_cons]

/-- The frequency that additions lead to. -/
theorem core_freq (bs : List (Option Nat × VocabParams)) : ∀ c : Core,
    ∃ c', bs.foldl (fun c a => addCore false a c) (some c) = some c' ∧
      c'.freq = bs.foldl (fun n y => match y.2.freqHandling with
        | .sum => n + y.1.getD 1
        | .max => max n (y.1.getD 1)
        | .min => min n (y.1.getD 1)
        | .replace => y.1.getD 1) c.freq := by
  induction bs with
  | nil => intro c; exact ⟨c, rfl, rfl⟩
  | cons b bs ih =>
    intro c
    rw [List.foldl_cons, List.foldl_cons]
    obtain ⟨c', h1, h2⟩ := ih ⟨combine b.2.freqHandling c.freq (b.1.getD 1),
      { c.type with transparent := c.type.transparent && b.2.vocabType.transparent },
      c.lex ||| (1 <<< b.2.index)⟩
    refine ⟨c', h1, ?_⟩
    rw [h2]
    unfold combine
    cases b.2.freqHandling <;> rfl

theorem frequencyIn_addsOf {a : List (List Char × Option Nat × VocabParams)} {t : List Char}
    {b : Option Nat × VocabParams} {bs : List (Option Nat × VocabParams)} (h : addsOf t a = b :: bs) :
    frequencyIn a t = bs.foldl (fun n y => match y.2.freqHandling with
        | .sum => n + y.1.getD 1
        | .max => max n (y.1.getD 1)
        | .min => min n (y.1.getD 1)
        | .replace => y.1.getD 1) (b.1.getD 1) := by
  unfold addsOf at h
  unfold frequencyIn
  cases hf : a.filter fun y => y.1 = t with
  | nil => rw [hf] at h; cases h
  | cons c cs =>
    rw [hf, List.map_cons] at h
    obtain ⟨rfl, rfl⟩ := List.cons.inj h
    rw [List.foldl_map]
    rfl

/-- The entry of a word that is not reserved. -/
theorem program_word {alphabet : Alphabet} {ops : List Op} {m : Vm}
    (h : (Vm.new alphabet).run ops = .ok m) (hl : NoLearning ops)
    {a : List (List Char × Option Nat × VocabParams)} (ha : ∀ t, additions t ops = addsOf t a)
    {t : List Char} (hr : ¬ Reserved t) : match addsOf t a with
      | [] => m.encoder.get? t = none
      | b :: bs => ∃ id v, EntryAt m t id v ∧ v.frequency = frequencyIn a t ∧
          v.vocabtype.indexed = b.2.vocabType.indexed ∧
          (v.vocabtype.transparent = true ↔ ∀ y ∈ b :: bs, y.2.vocabType.transparent = true) := by
  have hinv : Inv m := (inv_run (inv_new _) h).1
  have he := entry_of_history h hl hr
  rw [ha] at he
  cases hb : addsOf t a with
  | nil =>
    rw [hb] at he
    show m.encoder.get? t = none
    cases hg : m.encoder.get? t with
    | none => rfl
    | some i =>
      obtain ⟨v, hv, _⟩ := Option.map_eq_some_iff.mp ((hinv.bij _ _).mp hg)
      simp [entry, hg, hv] at he
  | cons b bs =>
    rw [hb] at he
    obtain ⟨id, v, hv, hc⟩ := he
    obtain ⟨c1, f1, f2, f3, _⟩ := fold_some false bs ⟨b.1.getD 1, b.2.vocabType, 1 <<< b.2.index⟩
    obtain ⟨c2, g1, g2⟩ := core_freq bs ⟨b.1.getD 1, b.2.vocabType, 1 <<< b.2.index⟩
    rw [f1] at g1
    cases g1
    rw [f1] at hc
    have hc := Option.some.inj hc
    refine ⟨id, v, hv, ?_, ?_, ?_⟩
    · rw [frequencyIn_addsOf hb, ← g2, ← hc]
      rfl
    · have e : v.vocabtype = c1.type := by rw [← hc]; rfl
      rw [e, f2, if_neg (by simp)]
    · have e : v.vocabtype = c1.type := by rw [← hc]; rfl
      rw [e, (f3 rfl).2]
      simp

/-- What a program says about words is what the model knows about them. -/
theorem describes_program {alphabet : Alphabet} {ops : List Op} {m : Vm}
    (h : (Vm.new alphabet).run ops = .ok m) (hl : NoLearning ops)
    {a : List (List Char × Option Nat × VocabParams)} (ha : ∀ t, additions t ops = addsOf t a)
    {ks : List (List Char × List Char × Rat)} {counted : Bool} (known : Known m counted (proper ks))
    (hrefs : ∀ k ∈ ks, ¬ Reserved k.1) : Describes m (programLexis counted a ks) := by
  have hinv := known.inv
  have hres := indexed_not_reserved hinv
  have word : ∀ v ∈ m.decoder, ¬ Reserved v.text → ∃ b bs, addsOf v.text a = b :: bs ∧
      v.frequency = frequencyIn a v.text ∧ v.vocabtype.indexed = b.2.vocabType.indexed ∧
      (v.vocabtype.transparent = true ↔ ∀ y ∈ b :: bs, y.2.vocabType.transparent = true) := by
    intro v hv hr
    obtain ⟨id, hid⟩ := List.getElem?_of_mem hv
    have he : m.encoder.get? v.text = some id := (hinv.bij _ _).mpr (by simp [textAt, hid])
    have hw := program_word h hl ha hr
    cases hb : addsOf v.text a with
    | nil =>
      rw [hb] at hw
      rw [he] at hw
      cases hw
    | cons b bs =>
      rw [hb] at hw
      obtain ⟨id', v', ⟨e1, e2, _⟩, h1⟩ := hw
      rw [he] at e1
      cases e1
      rw [hid] at e2
      cases e2
      exact ⟨b, bs, rfl, h1⟩
  have hfreq : ∀ v ∈ m.decoder, ¬ Reserved v.text →
      (programLexis counted a ks).freq v.text = v.frequency := by
    intro v hv hr
    obtain ⟨_, _, _, h1, _⟩ := word v hv hr
    exact h1.symm
  refine ⟨fun t => ?_, known.counted.symm, fun v hv hi => hfreq v hv (hres v hv hi), fun v hv hi => ?_,
    fun v hv hi => ?_, fun v hv hi => ?_⟩
  · constructor
    · rintro ⟨hr, y, hy, hi⟩
      have hat : y.1 = t := by simpa using List.find?_some hy
      have hmem : y.2 ∈ addsOf t a := mem_addsOf.mpr (by rw [← hat]; exact List.mem_of_find?_eq_some hy)
      have hw := program_word h hl ha hr
      cases hb : addsOf t a with
      | nil => rw [hb] at hmem; cases hmem
      | cons b bs =>
        rw [hb] at hw
        obtain ⟨id, v, ⟨e1, e2, e3⟩, _, e4, _⟩ := hw
        rw [addsOf_head hb] at hy
        cases hy
        refine ⟨v, List.mem_of_getElem? e2, e3, ?_⟩
        rw [check_indexed', e4]
        exact hi
    · rintro ⟨v, hv, rfl, hi⟩
      have hr := hres v hv hi
      obtain ⟨b, bs, hb, _, h4, _⟩ := word v hv hr
      refine ⟨hr, _, addsOf_head hb, ?_⟩
      rw [← h4, ← check_indexed']
      exact hi
  · obtain ⟨b, bs, hb, _, _, ht⟩ := word v hv (hres v hv hi)
    rw [check_transparent', Bool.eq_iff_iff, ht, ← hb]
    show (a.all fun y => y.1 ≠ v.text || y.2.2.vocabType.transparent) = true ↔ _
    rw [List.all_eq_true]
    constructor
    · intro h y hy
      have := h _ (mem_addsOf.mp hy)
      simpa using this
    · intro h y hy
      by_cases e : y.1 = v.text
      · have := h y.2 (mem_addsOf.mpr (by rw [← e]; exact hy))
        simp [this]
      · simp [e]
  · obtain ⟨id, hid⟩ := List.getElem?_of_mem hv
    exact (known.linked id v hid).symm
  · obtain ⟨id, hid⟩ := List.getElem?_of_mem hv
    refine (forall₂_mem_right (known.links id v hid)).imp ?_
    rintro r l ⟨⟨i, hr, ht⟩, hl⟩
    obtain ⟨k, hk, rfl⟩ := List.mem_map.mp hl
    obtain ⟨t, ht', e⟩ := Option.map_eq_some_iff.mp ht
    refine ⟨i, t, hr, ht', e, hfreq t (List.mem_of_getElem? ht') ?_⟩
    rw [e]
    exact hrefs k (List.mem_filter.mp (List.mem_filter.mp hk).1).1

/-! ## Queries -/

/-- What is known after a program that ends with `build`. -/
theorem program_known {x : LoadExt} (hb : x.isSpace '\\' = false) {alphabetFile : List Char}
    {cs : List PyCall} {o : Orders} {L0 L : Loaded} (h0 : x.pyNew alphabetFile = .ok L0)
    (h : L0.calls x (cs ++ [.build o]) = .ok L) {alphabet : Alphabet}
    {a : List (List Char × Option Nat × VocabParams)} {ks : List (List Char × List Char × Rat)}
    {confusables : List Confusable} {counted : Bool}
    (hp : Program x alphabetFile cs alphabet a ks confusables counted) (hrefs : ∀ k ∈ ks, ¬ Reserved k.1)
    (htexts : ∀ y ∈ a, y.1.length < 65536) :
    L.vm.alphabet = alphabet ∧ L.confusables = confusables ∧ L.vm.lexicons = wordFiles x cs ∧
      CallsAdd x 0 (cs ++ [.build o]) a ∧ Describes L.vm (programLexis counted a ks) ∧
      (∀ v ∈ L.vm.decoder, v.text.length < 65536) ∧
      ∀ v ∈ L.vm.decoder, ∀ t s, VariantReference.variantOf t s ∈ v.variants.getD [] →
        t < L.vm.decoder.length ∧ ∃ k ∈ ks, s = k.2.2 := by
  obtain ⟨L1, h1, h2⟩ := calls_append.mp h
  have h3 := h2
  obtain ⟨⟨L2, ok⟩, h4, h5⟩ := bind_ok.mp h2
  cases h5
  have ha' : CallsAdd x 0 (cs ++ [.build o]) a := by
    have gen : ∀ {cs : List PyCall} {i : Nat} {a : List (List Char × Option Nat × VocabParams)},
        CallsAdd x i cs a → CallsAdd x i (cs ++ [.build o]) a := by
      intro cs
      induction cs with
      | nil =>
        intro i a h
        cases h
        exact .cons (a := []) .build .nil
      | cons c cs ih =>
        intro i a h
        cases h with
        | cons g1 g2 => exact .cons g1 (ih g2)
    exact gen hp.adds
  obtain ⟨lines, ops, a2, g1, g2, g3, g4, g5, g6, g7, g8, g9⟩ := py_history h0 h
  cases callsAdd_unique ha' g7
  obtain ⟨alines, k1, k2⟩ := hp.alphabet
  rw [g1] at k1
  cases k1
  have halpha : L.vm.alphabet = alphabet := by
    obtain ⟨es, _, e2, e3⟩ := read_alphabet_entries hb [] lines
    rw [g2, e2, List.nil_append, e3 alphabet k2]
  have known : Known L.vm counted (proper ks) := by
    obtain ⟨m0, k0, k⟩ := bind_ok.mp h0
    cases pure_ok.mp k
    obtain ⟨lines, k1, k⟩ := bind_ok.mp k0
    cases pure_ok.mp k
    obtain ⟨kss, hk, rfl⟩ := hp.gives
    have := known_calls (L := ⟨_, [], ⟨[], []⟩⟩) (known_new _) h1 hk hp.counts
    rw [Bool.false_or, List.nil_append] at this
    have := known_call this h4 (k := []) (.other (by intro _ _ h; cases h)) (b := false)
      ⟨fun h => Bool.noConfusion h, by intro h; cases h⟩
    rw [Bool.or_false, show proper [] = [] from rfl, List.append_nil] at this
    exact this
  have hdesc := describes_program g4 g5 g8 known hrefs
  have hinv := known.inv
  refine ⟨halpha, ?_, ?_, ha', hdesc, ?_, ?_⟩
  · obtain ⟨css, hc, rfl⟩ := hp.confuses
    have := calls_confusables (css := css ++ [[]]) h (List.rel_append hc (.cons (.other (by intro _ h; cases h)) .nil))
    rw [this]
    obtain ⟨m0, k0, k⟩ := bind_ok.mp h0
    cases pure_ok.mp k
    simp
  · rw [g9]
    simp [wordFiles, List.filterMap_append, wordFile]
  · intro v hv
    by_cases hr : Reserved v.text
    · rcases hr with e | e | e <;> rw [e] <;> decide
    · obtain ⟨id, hid⟩ := List.getElem?_of_mem hv
      have he : L.vm.encoder.get? v.text = some id := (hinv.bij _ _).mpr (by simp [textAt, hid])
      have hw := program_word g4 g5 g8 hr
      cases hb : addsOf v.text a with
      | nil => rw [hb, he] at hw; cases hw
      | cons b bs =>
        have : b ∈ addsOf v.text a := by rw [hb]; exact List.mem_cons_self
        exact htexts _ (mem_addsOf.mp this)
  · intro v hv t s ht
    obtain ⟨id, hid⟩ := List.getElem?_of_mem hv
    obtain ⟨l, hl, i, e, hi⟩ := mem_of_forall₂_left (known.links id v hid) (List.mem_filter.mpr ⟨ht, rfl⟩)
    cases e
    obtain ⟨t', ht', _⟩ := Option.map_eq_some_iff.mp hi
    obtain ⟨k, hk, rfl⟩ := List.mem_map.mp hl
    exact ⟨(List.getElem?_eq_some_iff.mp ht').1, k, (List.mem_filter.mp (List.mem_filter.mp hk).1).1, rfl⟩

/-- The dictionary for a suggestion. -/
theorem suggestion_dict {x : LoadExt} {alphabetFile : List Char}
    {cs : List PyCall} {o : Orders} {L0 L : Loaded} (h0 : x.pyNew alphabetFile = .ok L0)
    (h : L0.calls x (cs ++ [.build o]) = .ok L) {a : List (List Char × Option Nat × VocabParams)}
    (k4 : CallsAdd x 0 (cs ++ [.build o]) a) {f64 : Rounding} {fw : Rat} {r : VariantResult} {u : Suggestion}
    {d : PyVariant} (hru : SuggestedBy L.vm r u) (hu : ¬ Reserved u.word)
    (hd : L.vm.variantToDict f64 fw r = .ok d) : SuggestionDict (wordFiles x cs) a f64 fw u d := by
  have hwf : wordFiles x (cs ++ [.build o]) = wordFiles x cs := by
    simp [wordFiles, List.filterMap_append, wordFile]
  obtain ⟨_, ⟨⟨v, v1, v2, v3⟩, d1, d2, d3, d4⟩⟩ := variantToDict_iff.mp hd
  obtain ⟨v', v4, v5⟩ := hru.word
  rw [v1] at v4
  cases v4
  have ht : d.text = u.word := by rw [v2, v5]
  obtain ⟨q, q1, q2⟩ := py_lexicons h0 h k4 hd (by rw [ht]; exact hu)
  refine ⟨ht, ?_, by rw [d2, hru.score], by rw [d3, hru.freq], ?_, q, ?_, ?_⟩
  · rw [d1]
    unfold VariantResult.score Suggestion.overall
    rw [hru.score, hru.freq]
  · rcases hru.via with ⟨e1, e2⟩ | ⟨i, v', e1, e2, e3⟩
    · rcases d4 with ⟨_, e4⟩ | ⟨id, w', e4, _⟩
      · rw [e2, e4]
      · rw [e1] at e4; cases e4
    · rcases d4 with ⟨e4, _⟩ | ⟨id, w', e4, e5, e6⟩
      · rw [e1] at e4; cases e4
      · rw [e1] at e4
        cases e4
        rw [e2] at e5
        cases e5
        rw [e3, e6]
  · rw [← ht]; exact q1
  · rw [q2, hwf]

/-- **C120**: what a Python program is told.  After a program that ends with `build`, whatever calls it
makes and whichever of them are exceptions, `find_variants` returns the suggestions for the text, in order,
that follow from what the calls say about words, with the confusables of the calls. -/
theorem py_suggestions {x : LoadExt} (hb : x.isSpace '\\' = false) {alphabetFile : List Char}
    {cs : List PyCall} {o : Orders} {L0 L : Loaded} (h0 : x.pyNew alphabetFile = .ok L0)
    (h : L0.calls x (cs ++ [.build o]) = .ok L) {alphabet : Alphabet}
    {a : List (List Char × Option Nat × VocabParams)} {ks : List (List Char × List Char × Rat)}
    {confusables : List Confusable} {counted : Bool}
    (hp : Program x alphabetFile cs alphabet a ks confusables counted) (hrefs : ∀ k ∈ ks, ¬ Reserved k.1)
    (htexts : ∀ y ∈ a, y.1.length < 65536) (hfiles : (wordFiles x cs).length ≤ 32)
    (hlen : alphabet.length ≤ 166) (e : TextExt) (w : Weights) (early : Bool)
    (script : List Char → List Char → List EditInstr) (p : Params)
    (hw : w.sum e.f64 ≠ 0) (hfw : 0 ≤ p.freqWeight) (ha : Fits p.maxAnagramDistance)
    (he : Fits p.maxEditDistance) (input : List Char) (hin : input ≠ [])
    (hs : ShortEnough e alphabet p input) :
    ∃ ds us, L.vm.pyFindVariants e.toExt ⟨w, L.confusables, early, script⟩ p input = .ok ds ∧
      Suggestions e alphabet (programLexis counted a ks) ⟨w, confusables, early, script⟩ p input us ∧
      List.Forall₂ (SuggestionDict (wordFiles x cs) a e.f64 p.freqWeight) us ds := by
  obtain ⟨k1, k2, k3, k4, k5, k6, k7⟩ := program_known hb h0 h hp hrefs htexts
  obtain ⟨ops, g1, g2, g3⟩ := py_built h0 h
  subst k1 k2
  obtain ⟨rs, us, f1, f2, f3⟩ := find_variants_exact L.vm.alphabet g1 hlen ops o L.vm g2 k6
    (fun v hv t s ht => (k7 v hv t s ht).1) _ k5 e
    ⟨w, L.confusables, early, script⟩ p hw hfw ha he input hin hs
  have hl : L.vm.lexicons.length ≤ 32 := by rw [k3]; exact hfiles
  obtain ⟨ds, hds⟩ := collectSeq_total (f := L.vm.variantToDict e.f64 p.freqWeight) (l := rs)
    fun r hr => variantToDict_total _ _ hl (find_variants_ids hw f1 r hr) (find_variants_via hw f1 r hr)
  refine ⟨ds, us, bind_ok.mpr ⟨rs, f1, hds⟩, f2, ?_⟩
  have hnr : ∀ u ∈ us, ¬ Reserved u.word := by
    intro u hu
    rcases suggestions_words f2 u hu with h | ⟨t, s, _, h⟩
    · exact h.1
    · obtain ⟨k, hk, e⟩ := List.mem_map.mp h
      have : u.word = k.1 := (congrArg Prod.fst e).symm
      rw [this]
      exact hrefs k (List.mem_filter.mp (List.mem_filter.mp hk).1).1
  have hds := collectSeq_ok.mp hds
  have one : ∀ r u d, SuggestedBy L.vm r u → u ∈ us → L.vm.variantToDict e.f64 p.freqWeight r = .ok d →
      SuggestionDict (wordFiles x cs) a e.f64 p.freqWeight u d :=
    fun r u d hru hu hd => suggestion_dict h0 h k4 hru (hnr u hu) hd
  clear f1 f2 hnr
  have all : ∀ {rs : List VariantResult} {us' : List Suggestion} {ds : List PyVariant},
      List.Forall₂ (SuggestedBy L.vm) rs us' → (∀ u ∈ us', u ∈ us) →
      List.Forall₂ (fun r d => L.vm.variantToDict e.f64 p.freqWeight r = .ok d) rs ds →
      List.Forall₂ (SuggestionDict (wordFiles x cs) a e.f64 p.freqWeight) us' ds := by
    intro rs us' ds h1
    induction h1 generalizing ds with
    | nil => intro _ h; cases h; exact .nil
    | cons a1 _ ih =>
      intro hm h
      cases h with
      | cons b1 b2 =>
        exact .cons (one _ _ _ a1 (hm _ List.mem_cons_self) b1) (ih (fun u hu => hm u (List.mem_cons_of_mem _ hu)) b2)
  exact all f3 (fun _ h => h) hds

/-- **C120**: likewise `find_variants_par`, for each of several texts, whatever the workers do. -/
theorem py_suggestions_par {x : LoadExt} (hb : x.isSpace '\\' = false) {alphabetFile : List Char}
    {cs : List PyCall} {o : Orders} {L0 L : Loaded} (h0 : x.pyNew alphabetFile = .ok L0)
    (h : L0.calls x (cs ++ [.build o]) = .ok L) {alphabet : Alphabet}
    {a : List (List Char × Option Nat × VocabParams)} {ks : List (List Char × List Char × Rat)}
    {confusables : List Confusable} {counted : Bool}
    (hp : Program x alphabetFile cs alphabet a ks confusables counted) (hrefs : ∀ k ∈ ks, ¬ Reserved k.1)
    (htexts : ∀ y ∈ a, y.1.length < 65536) (hfiles : (wordFiles x cs).length ≤ 32)
    (hlen : alphabet.length ≤ 166) (e : TextExt) (w : Weights) (early : Bool)
    (script : List Char → List Char → List EditInstr) (p : Params)
    (hw : w.sum e.f64 ≠ 0) (hfw : 0 ≤ p.freqWeight) (ha : Fits p.maxAnagramDistance)
    (he : Fits p.maxEditDistance) (inputs : List (List Char))
    (hs : ∀ t ∈ inputs, t ≠ [] ∧ ShortEnough e alphabet p t) (sched : List Nat)
    (hsched : sched.Perm (List.range inputs.length)) :
    ∃ out, L.vm.pyFindVariantsPar e.toExt ⟨w, L.confusables, early, script⟩ p sched inputs = .ok out ∧
      List.Forall₂ (fun t (y : List Char × List PyVariant) => y.1 = t ∧ ∃ us,
        Suggestions e alphabet (programLexis counted a ks) ⟨w, confusables, early, script⟩ p t us ∧
        List.Forall₂ (SuggestionDict (wordFiles x cs) a e.f64 p.freqWeight) us y.2) inputs out := by
  suffices hx : ∃ out, List.Forall₂ (fun i (y : List Char × List PyVariant) => y.1 = i ∧
      L.vm.pyFindVariants e.toExt ⟨w, L.confusables, early, script⟩ p i = .ok y.2) inputs out ∧
      List.Forall₂ (fun t (y : List Char × List PyVariant) => y.1 = t ∧ ∃ us,
        Suggestions e alphabet (programLexis counted a ks) ⟨w, confusables, early, script⟩ p t us ∧
        List.Forall₂ (SuggestionDict (wordFiles x cs) a e.f64 p.freqWeight) us y.2) inputs out by
    obtain ⟨out, h1, h2⟩ := hx
    exact ⟨out, (py_find_variants_par L.vm e.toExt _ p sched inputs hsched out).mpr h1, h2⟩
  clear hsched
  induction inputs with
  | nil => exact ⟨[], .nil, .nil⟩
  | cons t inputs ih =>
    obtain ⟨out, h1, h2⟩ := ih fun t ht => hs t (List.mem_cons_of_mem _ ht)
    obtain ⟨ds, us, g1, g2, g3⟩ := py_suggestions hb h0 h hp hrefs htexts hfiles hlen e w early script p hw hfw
      ha he t (hs t List.mem_cons_self).1 (hs t List.mem_cons_self).2
    exact ⟨(t, ds) :: out, .cons ⟨rfl, g1⟩ h1, .cons ⟨rfl, us, g2, g3⟩ h2⟩

/-! ### Examples -/

/-- The files, with a list of confusables (`k`) of which the second line is wrong. -/
def pyFileS (f : List Char) : Option (List (Option (List Char))) :=
  if f = ['k'] then some [some "=[b]\t0.5".toList, some "b".toList, some "=[a]".toList]
  else exFile f

def pyLoadS : LoadExt := { exLoad with file := pyFileS }

/-- A program with two exceptions: there is no file `z`, and `k` is wrong.  Frequencies are added up for the
second reading of `l`, and that of `ba` is replaced. -/
def pyCallsS : List PyCall :=
  [.readLexicon ['l'], .readLexicon ['z'], .addToVocabulary "ba".toList (some 9) {}, .readVariants ['e'] true,
   .readVocabulary ['l'] { freqHandling := .sum },
   .addToVocabulary "ba".toList (some 4) { index := 7, freqHandling := .replace },
   .readConfusablelist ['k']]

def pyModelS : Loaded :=
  match (pyLoadS.pyNew ['a']).bind fun L => L.calls pyLoadS (pyCallsS ++ [PyCall.build exOrders]) with
  | .ok L => L
  | .error _ => ⟨Vm.new [], [], ⟨[], []⟩⟩

theorem pyModelS_ok : ∃ L0, pyLoadS.pyNew ['a'] = .ok L0 ∧
    L0.calls pyLoadS (pyCallsS ++ [.build exOrders]) = .ok pyModelS := ⟨_, rfl, rfl⟩

/-- What it adds. -/
def pyAddsS : List (List Char × Option Nat × VocabParams) :=
  [("ab".toList, some 3, {}), ("b".toList, some 1, {}), ("ba".toList, some 9, {}),
    ("b".toList, none, { index := 1 }),
    ("bb".toList, none, { index := 1, vocabType := { indexed := true, transparent := true } }),
    ("ab".toList, some 3, { index := 2, freqHandling := .sum }),
    ("b".toList, some 1, { index := 2, freqHandling := .sum }),
    ("ba".toList, some 4, { index := 7, freqHandling := .replace })]

theorem pyProgramS : Program pyLoadS ['a'] pyCallsS [["a".toList, "A".toList], ["b".toList]] pyAddsS
    [("b".toList, "bb".toList, 1 / 2)] [⟨[.identity ['b']], 1 / 2, false, false⟩] true := by
  have plain : ∀ {l r v s : List Char} {q : Rat}, splitChar '\t' l = [r, v, s] → exParseF64 s = some q →
      VariantLines exParseF64 none [l] [⟨r, none, [(v, q, none)]⟩] := by
    intro l r v s q h1 h2
    have hf := (fieldsOf_iff _ _).mpr h1
    exact .tells (.noFreq hf (by simp)) (.plain (.mk hf (.cons h2 .nil)) .nil)
  have vocab : ∀ {p : VocabParams} {l t f : List Char} {n : Nat}, p.textColumn = 0 → p.freqColumn = some 1 →
      splitChar '\t' l = [t, f] → parseUnsigned (2 ^ 32 - 1) f = some n → VocabLine p l (t, n) := by
    intro p l t f n h0 h0' h1 h2
    exact ⟨[t, f], (fieldsOf_iff _ _).mpr h1, by rw [h0]; rfl,
      .inr ⟨1, h0', .inr ⟨f, rfl, (parseUnsigned_iff _ _ _).mp h2⟩⟩⟩
  have words : ∀ {p : VocabParams}, p.textColumn = 0 → p.freqColumn = some 1 →
      List.Forall₂ (VocabLine p) (nonEmpty [some "ab\t3".toList, some "b\t1".toList])
        [("ab".toList, 3), ("b".toList, 1)] := fun h1 h2 =>
    .cons (vocab h1 h2 (f := ['3']) (by decide) (by decide))
      (.cons (vocab h1 h2 (f := ['1']) (by decide) (by decide)) .nil)
  have errs : VariantLines exParseF64 none (nonEmpty [some "b\tbb\t0.5".toList])
      [⟨"b".toList, none, [("bb".toList, 1 / 2, none)]⟩] :=
    plain (s := "0.5".toList) (by decide) (by decide +kernel)
  refine ⟨⟨_, rfl, exAlphabetE⟩, ?_, ⟨[[], [], [], [("b".toList, "bb".toList, 1 / 2)], [], [], []], ?_, rfl⟩,
    ⟨[[], [], [], [], [], [], [⟨[.identity ['b']], 1 / 2, false, false⟩]], ?_, rfl⟩,
    ⟨fun _ => ⟨.readLexicon ['l'], by simp [pyCallsS], .lexicon (lines := [some "ab\t3".toList, some "b\t1".toList])
      rfl (by decide)⟩, fun _ => rfl⟩⟩
  · refine .cons (a := pyAddsS.take 2) ?_ (.cons (a := []) ?_ (.cons (a := (pyAddsS.drop 2).take 1) .add
      (.cons (a := (pyAddsS.drop 3).take 2) ?_ (.cons (a := (pyAddsS.drop 5).take 2) ?_
        (.cons (a := pyAddsS.drop 7) .add (.cons (a := []) .confusables .nil))))))
    · exact .lexicon (Adds.lexicon (x := pyLoadS) (f := ['l'])
        (es := [("ab".toList, 3), ("b".toList, 1)]) rfl (words rfl rfl))
    · exact .noFile (f := ['z']) rfl rfl
    · exact .errors (Adds.errors (x := pyLoadS) (f := ['e']) (lines := [some "b\tbb\t0.5".toList])
        (es := [⟨"b".toList, none, [("bb".toList, 1 / 2, none)]⟩]) rfl errs)
    · exact CallAdds.vocabulary (x := pyLoadS) (f := ['l']) (es := [("ab".toList, 3), ("b".toList, 1)]) rfl
        (words rfl rfl)
  · refine .cons (.other ?_) (.cons (.other ?_) (.cons (.other ?_) (.cons ?_ (.cons (.other ?_)
      (.cons (.other ?_) (.cons (.other ?_) .nil)))))) <;> try (intro _ _ h; cases h)
    exact CallGives.variants (x := pyLoadS) (f := ['e']) (lines := [some "b\tbb\t0.5".toList])
      (es := [⟨"b".toList, none, [("bb".toList, 1 / 2, none)]⟩]) rfl errs
  · refine .cons (.other ?_) (.cons (.other ?_) (.cons (.other ?_) (.cons (.other ?_) (.cons (.other ?_)
      (.cons (.other ?_) (.cons ?_ .nil)))))) <;> try (intro _ h; cases h)
    refine .stopped (x := pyLoadS) (f := ['k']) (good := ["=[b]\t0.5".toList]) (bad := ['b'])
      (rest := ["=[a]".toList]) rfl (by decide) (.cons ?_ .nil) ?_
    · exact ⟨"=[b]".toList, ["0.5".toList], 1 / 2, (fieldsOf_iff _ _).mpr (by decide),
        .inr ⟨_, _, rfl, by decide +kernel⟩, rfl⟩
    · rintro c ⟨s, r, w, h1, _, h3⟩
      rw [fieldsOf_iff, show splitChar '\t' ['b'] = [['b']] by decide] at h1
      cases h1
      revert h3
      rw [show Confusable.new pyLoadS.parseScript ['b'] w = .ok none from rfl]
      intro h
      cases h

theorem exShortPy {p : Params} (hp : p.maxAnagramDistance = exParams.maxAnagramDistance)
    {l : List Char} (h : l.length ≤ 9) : ShortEnough exText [["a".toList, "A".toList], ["b".toList]] p l := by
  obtain ⟨qs, hqs⟩ := encodes_exists (alphabet := [["a".toList, "A".toList], ["b".toList]])
    (by unfold NoEmpty; decide) 3 l
  have hlen := encodes_length hqs
  rw [ShortEnough, hp]
  refine ⟨qs, _, hqs, (allowed_iff ?_).mpr rfl, ?_⟩
  · show (3 : Nat) ≤ 255
    decide
  · have : effectiveDistance exText.f32 qs.length exParams.maxAnagramDistance ≤ 3 := by
      have h4 : qs.length < 10 := by omega
      revert h4
      generalize qs.length = k
      revert k
      decide +kernel
    omega

/-- What the program is told about `bb` and `ab`. -/
example : ∀ t ∈ ["bb".toList, "ab".toList], ∃ ds us,
    pyModelS.vm.pyFindVariants exText.toExt ⟨.default, pyModelS.confusables, true, fun _ _ => [.identity ['b']]⟩
      { exParams with freqWeight := 1 / 2 } t = .ok ds ∧
    Suggestions exText [["a".toList, "A".toList], ["b".toList]]
      (programLexis true pyAddsS [("b".toList, "bb".toList, 1 / 2)])
      ⟨.default, [⟨[.identity ['b']], 1 / 2, false, false⟩], true, fun _ _ => [.identity ['b']]⟩
      { exParams with freqWeight := 1 / 2 } t us ∧
    List.Forall₂ (SuggestionDict [['l'], ['e'], ['l']] pyAddsS exText.f64 (1 / 2)) us ds := by
  intro t ht
  obtain ⟨L0, h0, h⟩ := pyModelS_ok
  have hs : t ≠ [] ∧ t.length ≤ 4 := by
    simp only [List.mem_cons, List.not_mem_nil, or_false] at ht
    rcases ht with rfl | rfl <;> decide
  exact py_suggestions rfl h0 h pyProgramS (by unfold Reserved; decide) (by decide) (by decide) (by decide) exText
    .default true (fun _ _ => [.identity ['b']]) { exParams with freqWeight := 1 / 2 } (by decide +kernel)
    (by decide +kernel) (by show 3 ≤ 255; decide) (by show 3 ≤ 255; decide) t hs.1 (exShortPy rfl (le_trans hs.2 (by decide)))

/-- The frequencies: those of `ab` are added up and that of `ba` is replaced. -/
example : ["ab".toList, "b".toList, "ba".toList, "bb".toList].map (frequencyIn pyAddsS) = [6, 2, 4, 1] := by
  decide

/-- The result for `bb`, which is an error and not among the suggestions itself. -/
example : pyModelS.vm.pyFindVariants exText.toExt
    ⟨.default, pyModelS.confusables, true, fun _ _ => [.identity ['b']]⟩ { exParams with freqWeight := 1 / 2 }
    "bb".toList = .ok [⟨"ab".toList, 1 / 2, 1 / 4, 1, none, [['l'], ['l']]⟩,
      ⟨"ba".toList, 7 / 18, 1 / 4, 2 / 3, none, [['l']]⟩,
      ⟨"b".toList, 43 / 144, 9 / 32, 1 / 3, none, [['l'], ['e'], ['l']]⟩] := by
  decide +kernel

/-- Two texts at once. -/
example : ∃ out, pyModelS.vm.pyFindVariantsPar exText.toExt
      ⟨.default, pyModelS.confusables, true, fun _ _ => [.identity ['b']]⟩ exParams [1, 0]
      ["bb".toList, "ab".toList] = .ok out ∧
    List.Forall₂ (fun t (y : List Char × List PyVariant) => y.1 = t ∧ ∃ us,
      Suggestions exText [["a".toList, "A".toList], ["b".toList]]
        (programLexis true pyAddsS [("b".toList, "bb".toList, 1 / 2)])
        ⟨.default, [⟨[.identity ['b']], 1 / 2, false, false⟩], true, fun _ _ => [.identity ['b']]⟩ exParams t us ∧
      List.Forall₂ (SuggestionDict [['l'], ['e'], ['l']] pyAddsS exText.f64 0) us y.2)
      ["bb".toList, "ab".toList] out := by
  obtain ⟨L0, h0, h⟩ := pyModelS_ok
  refine py_suggestions_par rfl h0 h pyProgramS (by unfold Reserved; decide) (by decide) (by decide) (by decide)
    exText .default true (fun _ _ => [.identity ['b']]) exParams (by decide +kernel)
    (by decide +kernel) (by show 3 ≤ 255; decide) (by show 3 ≤ 255; decide) _ ?_ [1, 0] (by decide)
  intro t ht
  simp only [List.mem_cons, List.not_mem_nil, or_false] at ht
  rcases ht with rfl | rfl
  · exact ⟨by decide, exShortPy rfl (by decide)⟩
  · exact ⟨by decide, exShortPy rfl (by decide)⟩

end Verif.Props
