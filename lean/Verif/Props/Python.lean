import Verif.Spec.Python
import Verif.Lemmas.Book
import Verif.Props.Cli
import Verif.Props.Load
import Verif.Props.Options
import Verif.Props.Tags

/-!
# C83, C85, C86: the Python bindings
-/
namespace Verif.Props

open Verif.Spec Verif.Model Verif.Lemmas

/-! ## C83: results -/

theorem lexiconsOf_iff {v : VocabValue} {names l : List (List Char)} : ∀ {i : Nat}, i ≤ 32 →
    (lexiconsOf v i names = .ok l ↔ (names = [] ∨ i + names.length ≤ 32) ∧
      l = ((names.zipIdx i).filter fun n => v.lexindex.testBit n.2).map fun n => n.1) := by
  have total : ∀ (names : List (List Char)) (i : Nat), i ≤ 32 → i + names.length ≤ 32 →
      ∃ l, lexiconsOf v i names = .ok l := by
    intro names
    induction names with
    | nil => intro i _ _; exact ⟨_, rfl⟩
    | cons n names ih =>
      intro i hi hl
      rw [List.length_cons] at hl
      obtain ⟨r, hr⟩ := ih (i + 1) (by omega) (by omega)
      have hb : ∃ b, v.inLexicon (i % 256) = .ok b := by
        rw [Nat.mod_eq_of_lt (by omega), VocabValue.inLexicon, if_neg (by omega)]
        exact ⟨_, rfl⟩
      obtain ⟨b, hb⟩ := hb
      exact ⟨_, bind_ok.mpr ⟨b, hb, bind_ok.mpr ⟨r, hr, rfl⟩⟩⟩
  have bound : ∀ (names : List (List Char)) (i : Nat) (l : List (List Char)), i ≤ 32 →
      lexiconsOf v i names = .ok l → names = [] ∨ i + names.length ≤ 32 := by
    intro names
    induction names with
    | nil => intro i l _ _; exact .inl rfl
    | cons n names ih =>
      intro i l hi h
      right
      obtain ⟨b, h1, h⟩ := bind_ok.mp h
      obtain ⟨r, h2, h⟩ := bind_ok.mp h
      rw [Nat.mod_eq_of_lt (by omega), VocabValue.inLexicon] at h1
      split at h1
      · cases h1
      · rw [List.length_cons]
        rcases ih (i + 1) r (by omega) h2 with rfl | h
        · simp; omega
        · omega
  intro i hi
  constructor
  · intro h
    exact ⟨bound names i l hi h, lexiconsOf_ok hi h⟩
  · rintro ⟨h, rfl⟩
    rcases h with rfl | h
    · rfl
    · obtain ⟨l, hl⟩ := total names i hi h
      rw [hl, lexiconsOf_ok hi hl]

/-- The dictionary for a variant, which there is for at most 32 lexicons. -/
theorem variantToDict_iff {m : Vm} {f64 : Rounding} {w : Rat} {r : VariantResult} {d : PyVariant} :
    m.variantToDict f64 w r = .ok d ↔ m.lexicons.length ≤ 32 ∧ VariantDict m f64 w r d := by
  have hvia : ∀ u, m.viaText r.via = .ok u ↔ (r.via = none ∧ u = none) ∨
      ∃ id w, r.via = some id ∧ m.decoder[id]? = some w ∧ u = some w.text := by
    intro u
    cases r.via with
    | none => simp [Vm.viaText, eq_comm]
    | some id =>
      simp only [Vm.viaText, Vm.vocabAt]
      cases hi : m.decoder[id]? with
      | none => simp [bind, Except.bind, hi]
      | some v => simp [bind, Except.bind, pure, Except.pure, hi, eq_comm]
  have hlen : (m.lexicons = [] ∨ 0 + m.lexicons.length ≤ 32) ↔ m.lexicons.length ≤ 32 := by
    constructor
    · rintro (h | h)
      · simp [h]
      · omega
    · intro h; right; omega
  unfold Vm.variantToDict Vm.vocabAt
  cases hd : m.decoder[r.vocabId]? with
  | none =>
    constructor
    · intro h; cases h
    · rintro ⟨_, ⟨v, h, _⟩, _⟩; rw [hd] at h; cases h
  | some v =>
    constructor
    · intro h
      obtain ⟨u, h1, h⟩ := bind_ok.mp h
      cases h1
      obtain ⟨u, h1, h⟩ := bind_ok.mp h
      obtain ⟨l, h2, h⟩ := bind_ok.mp h
      cases pure_ok.mp h
      rw [lexiconsOf_iff (by omega), hlen] at h2
      exact ⟨h2.1, ⟨v, hd, rfl, h2.2⟩, rfl, rfl, rfl, (hvia u).mp h1⟩
    · rintro ⟨h1, ⟨v', h2, h3, h4⟩, h5, h6, h7, h8⟩
      rw [hd] at h2
      cases h2
      have hl := (lexiconsOf_iff (v := v) (names := m.lexicons) (l := d.lexicons) (i := 0) (by omega)).mpr
        ⟨hlen.mpr h1, h4⟩
      refine bind_ok.mpr ⟨v, rfl, bind_ok.mpr ⟨d.via, (hvia _).mpr h8, bind_ok.mpr ⟨d.lexicons, hl, ?_⟩⟩⟩
      rw [← h3, ← h5, ← h6, ← h7]
      rfl

theorem forall₂_and_left {α β : Type} {P : Prop} {R : α → β → Prop} {l : List α} {l' : List β} :
    List.Forall₂ (fun a b => P ∧ R a b) l l' ↔ (l = [] ∨ P) ∧ List.Forall₂ R l l' := by
  induction l generalizing l' with
  | nil => simp
  | cons a l ih =>
    simp only [List.forall₂_cons_left_iff, ih]
    constructor
    · rintro ⟨b, bs, ⟨h1, h2⟩, ⟨_, h3⟩, rfl⟩
      exact ⟨.inr h1, b, bs, h2, h3, rfl⟩
    · rintro ⟨h, b, bs, h2, h3, rfl⟩
      have hp : P := h.resolve_left (by simp)
      exact ⟨b, bs, ⟨hp, h2⟩, ⟨.inr hp, h3⟩, rfl⟩

/-- **C83**: `find_variants` returns one dictionary for each result of the library, in their order. -/
theorem py_find_variants (m : Vm) (x : Ext) (cfg : Config) (p : Params) (input : List Char)
    (ds : List PyVariant) :
    m.pyFindVariants x cfg p input = .ok ds ↔ ∃ rs, m.findVariants x cfg p input = .ok rs ∧
      (rs = [] ∨ m.lexicons.length ≤ 32) ∧
      List.Forall₂ (VariantDict m x.f64 p.freqWeight) rs ds := by
  unfold Vm.pyFindVariants
  rw [bind_ok]
  simp only [collectSeq_ok, variantToDict_iff, forall₂_and_left]

/-- **C83**: `find_variants_par` returns for each input what `find_variants` returns, in the order of
the inputs, whatever the workers do. -/
theorem py_find_variants_par (m : Vm) (x : Ext) (cfg : Config) (p : Params) (sched : List Nat)
    (inputs : List (List Char)) (hs : sched.Perm (List.range inputs.length))
    (out : List (List Char × List PyVariant)) :
    m.pyFindVariantsPar x cfg p sched inputs = .ok out ↔
      List.Forall₂ (fun i o => o.1 = i ∧ m.pyFindVariants x cfg p i = .ok o.2) inputs out := by
  unfold Vm.pyFindVariantsPar
  rw [bind_ok]
  simp only [collectPar_perm hs]
  clear hs
  induction inputs generalizing out with
  | nil =>
    simp only [collectSeq, Except.ok.injEq, exists_eq_left', List.forall₂_nil_left_iff]
    exact eq_comm
  | cons i inputs ih =>
    simp only [List.forall₂_cons_left_iff]
    constructor
    · rintro ⟨os, h1, h2⟩
      obtain ⟨o, h3, h1⟩ := bind_ok.mp h1
      obtain ⟨rest, h4, h1⟩ := bind_ok.mp h1
      cases pure_ok.mp h1
      obtain ⟨rs, h5, h3⟩ := bind_ok.mp h3
      cases pure_ok.mp h3
      obtain ⟨d, h6, h2⟩ := bind_ok.mp h2
      obtain ⟨ds, h7, h2⟩ := bind_ok.mp h2
      cases pure_ok.mp h2
      obtain ⟨dd, h8, h6⟩ := bind_ok.mp h6
      cases pure_ok.mp h6
      exact ⟨_, ds, ⟨rfl, bind_ok.mpr ⟨rs, h5, h8⟩⟩, (ih ds).mp ⟨rest, h4, h7⟩, rfl⟩
    · rintro ⟨⟨i', dd⟩, ds, ⟨rfl, h1⟩, h2, rfl⟩
      obtain ⟨rs, h5, h8⟩ := bind_ok.mp h1
      obtain ⟨rest, h4, h7⟩ := (ih ds).mpr h2
      exact ⟨(i', rs) :: rest,
        bind_ok.mpr ⟨_, bind_ok.mpr ⟨rs, h5, rfl⟩, bind_ok.mpr ⟨rest, h4, rfl⟩⟩,
        bind_ok.mpr ⟨_, bind_ok.mpr ⟨dd, h8, rfl⟩, bind_ok.mpr ⟨ds, h7, rfl⟩⟩⟩

theorem pyOthers_ok {m : Vm} {f64 : Rounding} {w : Rat} {sel : Option Nat} {i : Nat}
    {rs : List VariantResult} {ds : List PyVariant} : m.pyOthers f64 w sel i rs = .ok ds ↔
      List.Forall₂ (fun r d => m.variantToDict f64 w r = .ok d) (skipAt sel i rs) ds := by
  induction rs generalizing i ds with
  | nil => simp [Vm.pyOthers, skipAt, eq_comm]
  | cons r rs ih =>
    rw [Vm.pyOthers, skipAt]
    split
    · simp only [List.forall₂_cons_left_iff]
      constructor
      · intro h
        obtain ⟨d, h1, h⟩ := bind_ok.mp h
        obtain ⟨t, h2, h⟩ := bind_ok.mp h
        exact ⟨d, t, h1, ih.mp h2, (pure_ok.mp h).symm⟩
      · rintro ⟨d, t, h1, h2, rfl⟩
        exact bind_ok.mpr ⟨d, h1, bind_ok.mpr ⟨t, ih.mpr h2, rfl⟩⟩
    · exact ih

theorem pyVariants_ok {m : Vm} {f64 : Rounding} {w : Rat} {sel : Option Nat}
    {rs : Option (List VariantResult)} {ds : List PyVariant} : m.pyVariants f64 w sel rs = .ok ds ↔
      ∃ l, Listed (rs.getD []) sel l ∧ List.Forall₂ (fun r d => m.variantToDict f64 w r = .ok d) l ds := by
  cases rs with
  | none =>
    simp only [Vm.pyVariants, Except.ok.injEq, Option.getD_none]
    constructor
    · rintro rfl
      exact ⟨[], .inr ⟨fun _ _ => rfl, rfl⟩, .nil⟩
    · rintro ⟨l, h | ⟨_, rfl⟩, h2⟩
      · obtain ⟨i, r, _, h, _⟩ := h
        cases h
      · cases h2; rfl
  | some rs =>
    have hl := skipAt_listed (variants := rs) (selected := sel)
    simp only [Vm.pyVariants, Option.getD_some]
    cases hs : selectedResult sel rs with
    | none =>
      rw [hs] at hl
      constructor
      · intro h; exact ⟨_, hl, pyOthers_ok.mp h⟩
      · rintro ⟨l, h1, h2⟩
        rw [listed_unique h1 hl] at h2
        exact pyOthers_ok.mpr h2
    | some r =>
      rw [hs] at hl
      constructor
      · intro h
        obtain ⟨d, h1, h⟩ := bind_ok.mp h
        obtain ⟨t, h2, h⟩ := bind_ok.mp h
        cases pure_ok.mp h
        exact ⟨_, hl, .cons h1 (pyOthers_ok.mp h2)⟩
      · rintro ⟨l, h1, h2⟩
        rw [listed_unique h1 hl] at h2
        cases h2 with
        | cons h3 h4 => exact bind_ok.mpr ⟨_, h3, bind_ok.mpr ⟨_, pyOthers_ok.mpr h4, rfl⟩⟩

theorem tagNames_ok {tags : List (List Char)} {tag seqnr : List Nat} {names : List (List Char)} :
    tagNames tags (tag.zip seqnr) = .ok names ↔
      List.Forall₂ (fun t n => tags[t]? = some n) (tag.take seqnr.length) names := by
  induction tag generalizing seqnr names with
  | nil => simp [tagNames, eq_comm]
  | cons t tag ih =>
    cases seqnr with
    | nil => simp [tagNames, eq_comm]
    | cons s seqnr =>
      simp only [List.zip_cons_cons, tagNames, List.length_cons, List.take_succ_cons,
        List.forall₂_cons_left_iff]
      cases ht : tags[t]? with
      | none => simp
      | some n =>
        constructor
        · intro h
          obtain ⟨ns, h1, h⟩ := bind_ok.mp h
          cases pure_ok.mp h
          exact ⟨n, ns, rfl, ih.mp h1, rfl⟩
        · rintro ⟨n', ns, h1, h2, rfl⟩
          cases h1
          exact bind_ok.mpr ⟨ns, ih.mpr h2, rfl⟩

theorem zip_map_snd' (a b : List Nat) : (a.zip b).map Prod.snd = b.take a.length := by
  induction a generalizing b with
  | nil => simp
  | cons x a ih =>
    cases b with
    | nil => simp
    | cons y b => simp [ih]

theorem pyMatch_iff {m : Vm} {tags : List (List Char)} {f64 : Rounding} {w : Rat} {a : Match}
    {d : PyMatch} : m.pyMatch tags f64 w a = .ok d ↔
      ((a.variants.getD [] = [] ∨ m.lexicons.length ≤ 32) ∧ MatchDict m tags f64 w a d) := by
  have htags : ∀ t, tagLists tags a.tag a.seqnr = .ok t ↔ (a.tag = [] ∧ t = none) ∨
      (a.tag ≠ [] ∧ ∃ names, List.Forall₂ (fun t n => tags[t]? = some n) (a.tag.take a.seqnr.length) names ∧
        t = some (names, a.seqnr.take a.tag.length)) := by
    intro t
    unfold tagLists
    split
    · rename_i h
      rw [List.isEmpty_iff] at h
      simp [h, eq_comm]
    · rename_i h
      rw [List.isEmpty_iff] at h
      constructor
      · intro h1
        obtain ⟨names, h2, h1⟩ := bind_ok.mp h1
        cases pure_ok.mp h1
        exact .inr ⟨h, names, tagNames_ok.mp h2, by rw [zip_map_snd']⟩
      · rintro (⟨h1, _⟩ | ⟨_, names, h2, rfl⟩)
        · exact absurd h1 h
        · exact bind_ok.mpr ⟨names, tagNames_ok.mpr h2, by rw [zip_map_snd']; rfl⟩
  have hnil : ∀ l, Listed (a.variants.getD []) a.selected l → (l = [] ↔ a.variants.getD [] = []) := by
    intro l hl
    have := (listed_perm hl).length_eq
    rw [← List.length_eq_zero_iff, ← List.length_eq_zero_iff, this]
  unfold Vm.pyMatch
  constructor
  · intro h
    obtain ⟨t, h1, h⟩ := bind_ok.mp h
    obtain ⟨vs, h2, h⟩ := bind_ok.mp h
    cases pure_ok.mp h
    obtain ⟨l, h3, h4⟩ := pyVariants_ok.mp h2
    simp only [variantToDict_iff, forall₂_and_left] at h4
    rw [hnil l h3] at h4
    exact ⟨h4.1, rfl, rfl, rfl, (htags t).mp h1, l, h3, h4.2⟩
  · rintro ⟨h0, h1, h2, h3, h4, l, h5, h6⟩
    refine bind_ok.mpr ⟨d.tags, (htags _).mpr h4, bind_ok.mpr ⟨d.variants, pyVariants_ok.mpr ⟨l, h5, ?_⟩, ?_⟩⟩
    · simp only [variantToDict_iff, forall₂_and_left]
      rw [hnil l h5]
      exact ⟨h0, h6⟩
    · rw [← h1, ← h2, ← h3]; rfl

/-- **C83**: `find_all_matches` returns one dictionary for each match of the library, in their order, with
the selected variant first. -/
theorem py_find_all_matches (m : Vm) (tags : List (List Char)) (x : TextExt) (cfg : TextConfig)
    (p : TextParams) (text : List Char) (ds : List PyMatch) :
    m.pyFindAllMatches tags x cfg p text = .ok ds ↔ ∃ ms, m.findAllMatches x cfg p text = .ok ms ∧
      ((∀ a ∈ ms, a.variants.getD [] = []) ∨ m.lexicons.length ≤ 32) ∧
      List.Forall₂ (MatchDict m tags x.f64 p.variant.freqWeight) ms ds := by
  unfold Vm.pyFindAllMatches
  rw [bind_ok]
  simp only [collectSeq_ok, pyMatch_iff]
  have key : ∀ (ms : List Match) (ds : List PyMatch),
      List.Forall₂ (fun a d => (a.variants.getD [] = [] ∨ m.lexicons.length ≤ 32) ∧
        MatchDict m tags x.f64 p.variant.freqWeight a d) ms ds ↔
      (((∀ a ∈ ms, a.variants.getD [] = []) ∨ m.lexicons.length ≤ 32) ∧
        List.Forall₂ (MatchDict m tags x.f64 p.variant.freqWeight) ms ds) := by
    intro ms
    induction ms with
    | nil => intro ds; simp
    | cons a ms ih =>
      intro ds
      simp only [List.forall₂_cons_left_iff, ih, List.mem_cons, forall_eq_or_imp]
      constructor
      · rintro ⟨d, ds, ⟨h1, h2⟩, ⟨h3, h4⟩, rfl⟩
        refine ⟨?_, d, ds, h2, h4, rfl⟩
        rcases h1 with h1 | h1
        · rcases h3 with h3 | h3
          · exact .inl ⟨h1, h3⟩
          · exact .inr h3
        · exact .inr h1
      · rintro ⟨h, d, ds, h2, h4, rfl⟩
        exact ⟨d, ds, ⟨h.imp (·.1) id, h2⟩, ⟨h.imp (·.2) id, h4⟩, rfl⟩
  simp only [key]

/-! ### The model -/

theorem wordFiles_cons (x : LoadExt) (c : PyCall) (cs : List PyCall) :
    wordFiles x (c :: cs) = wordFiles x [c] ++ wordFiles x cs := by
  unfold wordFiles
  rw [← List.filter_append, ← List.filterMap_append]
  rfl

/-- Loading by a call. -/
theorem call_loads {x : LoadExt} {L L' : Loaded} {c : PyCall} {ok : Bool} (hinv : Inv L.vm)
    (h : L.call x c = .ok (L', ok)) :
    ∃ ops a, CallAdds x L.vm.lexicons.length c a ∧ Loads L.vm L'.vm ops a ∧
      L'.vm.lexicons = L.vm.lexicons ++ wordFiles x [c] := by
  have into : ∀ {f : List Char} {read : Vm → List (Option (List Char)) → Res Vm},
      wordFile c = some f → L.readInto x f read = .ok (L', ok) →
      (x.file f = none ∧ L' = L ∧ wordFiles x [c] = []) ∨
        ∃ lines, x.file f = some lines ∧ read L.vm lines = .ok L'.vm ∧ wordFiles x [c] = [f] := by
    intro f read hf h
    unfold Loaded.readInto at h
    cases hx : x.file f with
    | none =>
      rw [hx] at h
      cases h
      exact .inl ⟨rfl, rfl, by simp [wordFiles, hf, hx]⟩
    | some lines =>
      rw [hx] at h
      obtain ⟨m, h1, h⟩ := bind_ok.mp h
      cases pure_ok.mp h
      exact .inr ⟨lines, rfl, h1, by simp [wordFiles, hf, hx]⟩
  have none : ∀ {f : List Char}, wordFile c = some f →
      (x.file f = none ∧ L' = L ∧ wordFiles x [c] = []) →
      ∃ ops a, CallAdds x L.vm.lexicons.length c a ∧ Loads L.vm L'.vm ops a ∧
        L'.vm.lexicons = L.vm.lexicons ++ wordFiles x [c] := by
    rintro f hf ⟨h1, rfl, h3⟩
    exact ⟨[], [], .noFile hf h1, .refl _, by simp [h3]⟩
  cases c with
  | build o =>
    obtain ⟨m, h1, h⟩ := bind_ok.mp h
    cases pure_ok.mp h
    refine ⟨[.build o], [], .build, ⟨bind_ok.mpr ⟨m, h1, rfl⟩, fun _ _ _ => by simp, by simp [opLinks],
      fun _ => rfl, fun hv => variantsExist_build hv h1⟩, ?_⟩
    show m.lexicons = _
    rw [(build_cases h1).1]
    simp [wordFiles, wordFile]
  | addToVocabulary t f p =>
    obtain ⟨⟨m, id⟩, h1, h⟩ := bind_ok.mp h
    cases pure_ok.mp h
    refine ⟨_, _, .add, loads_add h1, ?_⟩
    show m.lexicons = _
    have : m.lexicons = L.vm.lexicons := by
      rcases add_cases h1 with ⟨item, freq, _, _, _, _, rfl⟩ | ⟨norm, _, rfl, _, _, _, rfl⟩ <;> rfl
    simp [this, wordFiles, wordFile]
  | readVocabulary f p =>
    rw [Loaded.call] at h
    rcases into (f := f) rfl h with h | ⟨lines, h1, h2, h3⟩
    · exact none rfl h
    · obtain ⟨es, ops, g1, g2, g3⟩ := loads_vocabulary hinv h2
      exact ⟨ops, _, .vocabulary h1 g1, g2, by rw [g3, h3]⟩
  | readLexicon f =>
    rw [Loaded.call] at h
    rcases into (f := f) rfl h with h | ⟨lines, h1, h2, h3⟩
    · exact none rfl h
    · obtain ⟨es, ops, g1, g2, g3⟩ := loads_vocabulary hinv h2
      exact ⟨ops, _, .lexicon (.lexicon h1 g1), g2, by rw [g3, h3]⟩
  | readLm f =>
    rw [Loaded.call] at h
    rcases into (f := f) rfl h with h | ⟨lines, h1, h2, h3⟩
    · exact none rfl h
    · obtain ⟨es, ops, g1, g2, g3⟩ := loads_vocabulary hinv h2
      rw [vocabLine_columns (p := { vocabType := .LM }) (p' := {}) rfl rfl] at g1
      exact ⟨ops, _, .lm (.lm h1 g1), g2, by rw [g3, h3]⟩
  | readVariants f transparent =>
    rw [Loaded.call] at h
    rcases into (f := f) rfl h with h | ⟨lines, h1, h2, h3⟩
    · exact none rfl h
    · obtain ⟨es, ops, g1, g2, g3⟩ := loads_variants hinv h2
      cases transparent with
      | false => exact ⟨ops, _, .variants (.variants h1 g1), g2, by rw [g3, h3]⟩
      | true => exact ⟨ops, _, .errors (.errors h1 g1), g2, by rw [g3, h3]⟩
  | addContextrule p s t o =>
    obtain ⟨⟨book, ok⟩, h1, h⟩ := bind_ok.mp h
    cases pure_ok.mp h
    exact ⟨[], [], .rule, .refl _, by simp [wordFiles, wordFile]⟩
  | readConfusablelist f =>
    rw [Loaded.call] at h
    cases hx : x.file f with
    | none =>
      rw [hx] at h
      cases h
      exact ⟨[], [], .confusables, .refl _, by simp [wordFiles, wordFile]⟩
    | some lines =>
      rw [hx] at h
      obtain ⟨⟨book, ok⟩, h1, h⟩ := bind_ok.mp h
      cases pure_ok.mp h
      exact ⟨[], [], .confusables, .refl _, by simp [wordFiles, wordFile]⟩
  | readContextrules f =>
    rw [Loaded.call] at h
    cases hx : x.file f with
    | none =>
      rw [hx] at h
      cases h
      exact ⟨[], [], .rules, .refl _, by simp [wordFiles, wordFile]⟩
    | some lines =>
      rw [hx] at h
      obtain ⟨⟨book, ok⟩, h1, h⟩ := bind_ok.mp h
      cases pure_ok.mp h
      exact ⟨[], [], .rules, .refl _, by simp [wordFiles, wordFile]⟩

theorem calls_loads {x : LoadExt} {cs : List PyCall} : ∀ {L L' : Loaded}, Inv L.vm →
    L.calls x cs = .ok L' → ∃ ops a, CallsAdd x L.vm.lexicons.length cs a ∧ Loads L.vm L'.vm ops a ∧
      L'.vm.lexicons = L.vm.lexicons ++ wordFiles x cs := by
  induction cs with
  | nil => intro L L' _ h; cases h; exact ⟨[], [], .nil, .refl _, by simp [wordFiles]⟩
  | cons c cs ih =>
    intro L L' hinv h
    obtain ⟨⟨L1, ok⟩, h1, h2⟩ := bind_ok.mp h
    obtain ⟨ops1, a1, g1, g2, g3⟩ := call_loads hinv h1
    obtain ⟨ops2, a2, k1, k2, k3⟩ := ih (g2.inv hinv) h2
    refine ⟨_, _, .cons g1 ?_, g2.trans (g2.inv hinv) k2, ?_⟩
    · rw [g3, List.length_append] at k1
      exact k1
    · rw [k3, g3, wordFiles_cons x c cs, List.append_assoc]

/-- **C83**: after any program of calls, whichever of them were exceptions, the model is the result of a
history without learning that adds what the calls add (`CallAdds` says what), all references lead to
entries, no string of the alphabet is empty, and the names of the lexicons are those of the files that
could be opened, in order. -/
theorem py_history {x : LoadExt} {alphabetFile : List Char} {cs : List PyCall} {L0 L : Loaded}
    (h0 : x.pyNew alphabetFile = .ok L0) (h : L0.calls x cs = .ok L) :
    ∃ lines ops a, x.file alphabetFile = some lines ∧
      L.vm.alphabet = readAlphabet x.isSpace [] lines ∧ NoEmpty L.vm.alphabet ∧
      (Vm.new L.vm.alphabet).run ops = .ok L.vm ∧ NoLearning ops ∧
      (∀ y ∈ ops.flatMap opLinks, y.1 < L.vm.decoder.length) ∧
      CallsAdd x 0 cs a ∧ (∀ t, additions t ops = addsOf t a) ∧
      L.vm.lexicons = wordFiles x cs := by
  obtain ⟨m0, g0, g⟩ := bind_ok.mp h0
  cases pure_ok.mp g
  obtain ⟨lines, g1, g⟩ := bind_ok.mp g0
  cases pure_ok.mp g
  have i0 := inv_new (readAlphabet x.isSpace [] lines)
  obtain ⟨ops, a, k1, k2, k3⟩ := calls_loads i0 h
  have halpha : L.vm.alphabet = readAlphabet x.isSpace [] lines := (inv_run i0 k2.run).2.1
  refine ⟨lines, ops, a, open_ok.mp g1, halpha, ?_, ?_, k2.learn, ?_, k1, k2.adds, ?_⟩
  · rw [halpha]; exact read_alphabet_noEmpty _ _
  · rw [halpha]; exact k2.run
  · intro y hy
    obtain ⟨t, ht⟩ := k2.links y hy
    exact textAt_lt ht
  · rw [k3]; rfl

theorem callAdds_unique {x : LoadExt} {i : Nat} {c : PyCall}
    {a a' : List (List Char × Option Nat × VocabParams)} (h : CallAdds x i c a) (h' : CallAdds x i c a') :
    a = a' := by
  have vocab : ∀ {p : VocabParams} {ls : List (List Char)} {es es' : List (List Char × Nat)},
      List.Forall₂ (VocabLine p) ls es → List.Forall₂ (VocabLine p) ls es' → es = es' := by
    intro p ls es es' h h'
    induction h generalizing es' with
    | nil => cases h'; rfl
    | cons h1 _ ih =>
      cases h' with
      | cons h1' h2' => rw [vocabLine_unique h1 h1', ih h2']
  have file : ∀ {s : Source} {a : List (List Char × Option Nat × VocabParams)}, Adds x (i % 256) s a →
      x.file s.name ≠ none := by
    intro s a h
    cases h with
    | lexicon h _ => rw [Source.name, h]; simp
    | variants h _ => rw [Source.name, h]; simp
    | errors h _ => rw [Source.name, h]; simp
    | lm h _ => rw [Source.name, h]; simp
  have noFile : ∀ {c : PyCall} {f : List Char} {a : List (List Char × Option Nat × VocabParams)},
      wordFile c = some f → x.file f = none → CallAdds x i c a → a = [] := by
    intro c f a hc hf h
    cases h with
    | build => rfl
    | add => cases hc
    | vocabulary h1 _ => cases hc; rw [hf] at h1; cases h1
    | lexicon h1 => cases hc; exact absurd hf (file h1)
    | lm h1 => cases hc; exact absurd hf (file h1)
    | variants h1 => cases hc; exact absurd hf (file h1)
    | errors h1 => cases hc; exact absurd hf (file h1)
    | noFile => rfl
    | rule => rfl
    | confusables => rfl
    | rules => rfl
  cases h with
  | noFile hc hf => rw [noFile hc hf h']
  | build => cases h' with
    | build => rfl
    | noFile => rfl
  | add => cases h' with
    | add => rfl
    | noFile hc => cases hc
  | vocabulary h1 h2 => cases h' with
    | vocabulary h1' h2' => rw [h1] at h1'; cases h1'; rw [vocab h2 h2']
    | noFile hc hf => cases hc; rw [h1] at hf; cases hf
  | lexicon h1 => cases h' with
    | lexicon h1' => exact adds_unique h1 h1'
    | noFile hc hf => cases hc; exact absurd hf (file h1)
  | lm h1 => cases h' with
    | lm h1' => exact adds_unique h1 h1'
    | noFile hc hf => cases hc; exact absurd hf (file h1)
  | variants h1 => cases h' with
    | variants h1' => exact adds_unique h1 h1'
    | noFile hc hf => cases hc; exact absurd hf (file h1)
  | errors h1 => cases h' with
    | errors h1' => exact adds_unique h1 h1'
    | noFile hc hf => cases hc; exact absurd hf (file h1)
  | rule => cases h' with
    | rule => rfl
    | noFile => rfl
  | confusables => cases h' with
    | confusables => rfl
    | noFile => rfl
  | rules => cases h' with
    | rules => rfl
    | noFile => rfl

theorem callsAdd_unique {x : LoadExt} {cs : List PyCall} : ∀ {i : Nat}
    {a a' : List (List Char × Option Nat × VocabParams)}, CallsAdd x i cs a → CallsAdd x i cs a' →
    a = a' := by
  induction cs with
  | nil => intro i a a' h h'; cases h; cases h'; rfl
  | cons c cs ih =>
    intro i a a' h h'
    cases h with
    | cons h1 h2 =>
      cases h' with
      | cons h1' h2' => rw [callAdds_unique h1 h1', ih h2 h2']

/-- **C83**: the lexicons named for a variant are those of the files with an index that an addition of its
text has, in the order of the files. -/
theorem py_lexicons {x : LoadExt} {alphabetFile : List Char} {cs : List PyCall} {L0 L : Loaded}
    (h0 : x.pyNew alphabetFile = .ok L0) (h : L0.calls x cs = .ok L)
    {a : List (List Char × Option Nat × VocabParams)} (ha : CallsAdd x 0 cs a) {f64 : Rounding} {w : Rat}
    {r : VariantResult} {d : PyVariant} (hd : L.vm.variantToDict f64 w r = .ok d)
    (hr : ¬ Reserved d.text) :
    ∃ p : Nat → Bool, (∀ i < 32, p i = true ↔ ∃ y ∈ a, y.1 = d.text ∧ y.2.2.index = i) ∧
      d.lexicons = ((wordFiles x cs).zipIdx.filter fun n => p n.2).map fun n => n.1 := by
  obtain ⟨_, ops, a', _, _, _, hrun, hl, _, ha', hadd, hlex⟩ := py_history h0 h
  cases callsAdd_unique ha ha'
  obtain ⟨_, ⟨⟨v, h1, h2, h3⟩, _⟩⟩ := variantToDict_iff.mp hd
  refine ⟨fun i => v.lexindex.testBit i, ?_, by rw [h3, hlex]⟩
  intro i hi
  have hv : EntryAt L.vm d.text r.vocabId v :=
    ⟨(vocabulary_bijection _ _ _ hrun d.text r.vocabId).mpr ⟨v, h1, h2.symm⟩, h1, h2.symm⟩
  obtain ⟨b, h4, h5⟩ := in_lexicon_exact _ _ _ hrun hl d.text hr r.vocabId v hv i hi
  have hb : b = v.lexindex.testBit i := by
    rw [VocabValue.inLexicon, if_neg (by omega)] at h4
    cases h4
    rw [and_shift_value, Nat.one_shiftLeft]
    cases v.lexindex.testBit i with
    | true => simp
    | false => simp [(Nat.two_pow_pos i).ne]
  show v.lexindex.testBit i = true ↔ _
  rw [← hb, h5, hadd]
  constructor
  · rintro ⟨y, hy, e⟩
    exact ⟨(d.text, y), mem_addsOf.mp hy, rfl, e⟩
  · rintro ⟨⟨t, y⟩, hy, e, e'⟩
    cases e
    exact ⟨y, mem_addsOf.mpr hy, e'⟩

/-! ### No exceptions -/

/-- Results name entries as what they were found by. -/
theorem find_variants_via {m : Vm} {x : Ext} {cfg : Config} {p : Params} {input : List Char}
    {res : List VariantResult} (hw : cfg.weights.sum x.f64 ≠ 0)
    (h : m.findVariants x cfg p input = .ok res) :
    ∀ v ∈ res, ∀ id, v.via = some id → id < m.decoder.length := by
  unfold Vm.findVariants at h
  split at h
  · cases pure_ok.mp h
    intro v hv
    cases hv
  · obtain ⟨⟨qs, l⟩, _, h2⟩ := bind_ok.mp h
    obtain ⟨_, mf, cands, _, _, hc, rfl⟩ := scoreAndRank_ok hw h2
    intro v hv
    obtain ⟨y, hy, _, _, e1⟩ := mem_prune hv
    obtain ⟨z, hz, _, _, e2, _⟩ := mem_normalizeFreq (mem_ranked hy)
    rw [e1, e2]
    have scored : ∀ u ∈ scoredList m x.f64 cfg p input qs.length l, u.via = none ∧
        u.vocabId < m.decoder.length := by
      intro u hu
      obtain ⟨c, _, item, hitem, e, _, e'⟩ := mem_scoredList hu
      rw [e]
      exact ⟨e', (List.getElem?_eq_some_iff.mp hitem).1⟩
    split at hc
    · obtain ⟨u, hu, item, _, hh⟩ := (expandVariants_spec hc z).mp hz
      rcases hh with ⟨rfl, _⟩ | ⟨t, s, tg, _, ht, rfl⟩
      · intro id hid
        rw [(scored _ hu).1] at hid
        cases hid
      · intro id hid
        cases hid
        exact (scored _ hu).2
    · rw [hc] at hz
      intro id hid
      rw [(scored _ hz).1] at hid
      cases hid

theorem variantToDict_total {m : Vm} (f64 : Rounding) (w : Rat) {r : VariantResult}
    (hl : m.lexicons.length ≤ 32) (h1 : r.vocabId < m.decoder.length)
    (h2 : ∀ id, r.via = some id → id < m.decoder.length) : ∃ d, m.variantToDict f64 w r = .ok d := by
  suffices hs : ∃ d, VariantDict m f64 w r d by
    obtain ⟨d, hd⟩ := hs
    exact ⟨d, variantToDict_iff.mpr ⟨hl, hd⟩⟩
  have hv := List.getElem?_eq_getElem h1
  cases hr : r.via with
  | none =>
    exact ⟨⟨_, _, _, _, none, _⟩, ⟨⟨_, hv, rfl, rfl⟩, rfl, rfl, rfl, .inl ⟨hr, rfl⟩⟩⟩
  | some id =>
    have hi := List.getElem?_eq_getElem (h2 id hr)
    exact ⟨⟨_, _, _, _, some _, _⟩, ⟨⟨_, hv, rfl, rfl⟩, rfl, rfl, rfl, .inr ⟨id, _, hr, hi, rfl⟩⟩⟩

theorem collectSeq_total {α β : Type} {f : α → Res β} {l : List α} (h : ∀ a ∈ l, ∃ b, f a = .ok b) :
    ∃ bs, collectSeq f l = .ok bs := by
  induction l with
  | nil => exact ⟨[], rfl⟩
  | cons a l ih =>
    obtain ⟨b, hb⟩ := h a (by simp)
    obtain ⟨bs, hbs⟩ := ih fun a ha => h a (by simp [ha])
    exact ⟨b :: bs, bind_ok.mpr ⟨b, hb, bind_ok.mpr ⟨bs, hbs, rfl⟩⟩⟩

theorem calls_append {x : LoadExt} {cs cs' : List PyCall} : ∀ {L L' : Loaded},
    L.calls x (cs ++ cs') = .ok L' ↔ ∃ L1, L.calls x cs = .ok L1 ∧ L1.calls x cs' = .ok L' := by
  induction cs with
  | nil => intro L L'; simp [Loaded.calls]
  | cons c cs ih =>
    intro L L'
    rw [List.cons_append]
    constructor
    · intro h
      obtain ⟨⟨L1, ok⟩, h1, h⟩ := bind_ok.mp h
      obtain ⟨L2, h2, h3⟩ := ih.mp h
      exact ⟨L2, bind_ok.mpr ⟨_, h1, h2⟩, h3⟩
    · rintro ⟨L2, h, h3⟩
      obtain ⟨⟨L1, ok⟩, h1, h2⟩ := bind_ok.mp h
      exact bind_ok.mpr ⟨_, h1, ih.mpr ⟨L2, h2, h3⟩⟩

/-- After `build` as the last call. -/
theorem py_built {x : LoadExt} {alphabetFile : List Char} {cs : List PyCall} {o : Orders} {L0 L : Loaded}
    (h0 : x.pyNew alphabetFile = .ok L0) (h : L0.calls x (cs ++ [.build o]) = .ok L) :
    ∃ ops, NoEmpty L.vm.alphabet ∧ (Vm.new L.vm.alphabet).run (ops ++ [.build o]) = .ok L.vm ∧
      ∀ y ∈ (ops ++ [Op.build o]).flatMap opLinks, y.1 < L.vm.decoder.length := by
  obtain ⟨L1, h1, h2⟩ := calls_append.mp h
  obtain ⟨lines, ops, a, _, g2, g3, g4, _, g6, _⟩ := py_history h0 h1
  obtain ⟨⟨L2, ok⟩, h3, h4⟩ := bind_ok.mp h2
  cases h4
  obtain ⟨m, h5, h6⟩ := bind_ok.mp h3
  cases pure_ok.mp h6
  have hb := (build_cases h5).1
  have e1 : m.alphabet = L1.vm.alphabet := by rw [hb]
  have e2 : m.decoder = L1.vm.decoder := by rw [hb]
  refine ⟨ops, ?_, ?_, ?_⟩
  · show NoEmpty m.alphabet
    rw [e1]; exact g3
  · show (Vm.new m.alphabet).run _ = _
    rw [e1]
    exact run_append_ok g4 (bind_ok.mpr ⟨m, h5, rfl⟩)
  · intro y hy
    show y.1 < m.decoder.length
    rw [e2]
    rw [List.flatMap_append] at hy
    rcases List.mem_append.mp hy with hy | hy
    · exact g6 y hy
    · simp [opLinks] at hy

/-- **C83**: with `build` as the last call, at most 32 files and the conditions of C80, `find_variants`
returns normally. -/
theorem py_query_total {x : LoadExt} {alphabetFile : List Char} {cs : List PyCall} {o : Orders}
    {L0 L : Loaded} (h0 : x.pyNew alphabetFile = .ok L0) (h : L0.calls x (cs ++ [.build o]) = .ok L)
    (hfiles : (wordFiles x cs).length ≤ 32) (hlen : L.vm.alphabet.length ≤ 166)
    (hshort : ∀ v ∈ L.vm.decoder, v.text.length < 65536) (e : Ext) (cfg : Config) (p : Params)
    (hw : cfg.weights.sum e.f64 ≠ 0) (input : List Char) (hin0 : input ≠ [])
    (hin : input.length ≤ 65280) : ∃ ds, L.vm.pyFindVariants e cfg p input = .ok ds := by
  obtain ⟨ops, g1, g2, g3⟩ := py_built h0 h
  obtain ⟨rs, hrs⟩ := find_variants_total _ g1 hlen ops o _ g2 g3 hshort e cfg p hw input hin0 hin
  have hl : L.vm.lexicons.length ≤ 32 := by
    obtain ⟨_, _, _, _, _, _, _, _, _, _, _, hlex⟩ := py_history h0 h
    have : wordFiles x (cs ++ [.build o]) = wordFiles x cs := by
      simp [wordFiles, List.filterMap_append, wordFile]
    rw [hlex, this]
    exact hfiles
  obtain ⟨ds, hds⟩ := collectSeq_total (f := L.vm.variantToDict e.f64 p.freqWeight) (l := rs)
    fun r hr => variantToDict_total _ _ hl (find_variants_ids hw hrs r hr) (find_variants_via hw hrs r hr)
  exact ⟨ds, bind_ok.mpr ⟨rs, hrs, hds⟩⟩

theorem calls_book {x : LoadExt} {cs : List PyCall} : ∀ {L L' : Loaded}, Inv L.vm →
    L'.vm.lexicons.length ≤ 32 → BookOk L.book → L.calls x cs = .ok L' → BookOk L'.book := by
  induction cs with
  | nil => intro L L' _ _ hb h; cases h; exact hb
  | cons c cs ih =>
    intro L L' hinv hl hb h
    obtain ⟨⟨L1, ok⟩, h1, h2⟩ := bind_ok.mp h
    obtain ⟨_, _, _, g2, g3⟩ := call_loads hinv h1
    obtain ⟨_, _, _, _, k3⟩ := calls_loads (g2.inv hinv) h2
    have hl1 : L1.vm.lexicons.length ≤ 32 := by
      rw [k3, List.length_append] at hl
      omega
    have hl0 : L.vm.lexicons.length ≤ 32 := by
      rw [g3, List.length_append] at hl1
      omega
    refine ih (g2.inv hinv) hl ?_ h2
    cases c with
    | build o =>
      obtain ⟨m, _, h⟩ := bind_ok.mp h1
      cases pure_ok.mp h
      exact hb
    | addToVocabulary t f p =>
      obtain ⟨m, _, h⟩ := bind_ok.mp h1
      cases pure_ok.mp h
      exact hb
    | addContextrule p s t o =>
      obtain ⟨⟨book, ok⟩, h3, h⟩ := bind_ok.mp h1
      cases pure_ok.mp h
      exact bookOk_add hl0 hb h3
    | readConfusablelist f =>
      rw [Loaded.call] at h1
      cases hx : x.file f with
      | none => rw [hx] at h1; cases h1; exact hb
      | some lines =>
        rw [hx] at h1
        obtain ⟨⟨book, ok⟩, _, h⟩ := bind_ok.mp h1
        cases pure_ok.mp h
        exact hb
    | readContextrules f =>
      rw [Loaded.call] at h1
      cases hx : x.file f with
      | none => rw [hx] at h1; cases h1; exact hb
      | some lines =>
        rw [hx] at h1
        obtain ⟨⟨book, ok⟩, h3, h⟩ := bind_ok.mp h1
        cases pure_ok.mp h
        exact bookOk_read hl0 hb h3
    | readVocabulary f p =>
      rw [Loaded.call, Loaded.readInto] at h1
      cases hx : x.file f with
      | none => rw [hx] at h1; cases h1; exact hb
      | some lines =>
        rw [hx] at h1
        obtain ⟨m, _, h⟩ := bind_ok.mp h1
        cases pure_ok.mp h
        exact hb
    | readLexicon f =>
      rw [Loaded.call, Loaded.readInto] at h1
      cases hx : x.file f with
      | none => rw [hx] at h1; cases h1; exact hb
      | some lines =>
        rw [hx] at h1
        obtain ⟨m, _, h⟩ := bind_ok.mp h1
        cases pure_ok.mp h
        exact hb
    | readLm f =>
      rw [Loaded.call, Loaded.readInto] at h1
      cases hx : x.file f with
      | none => rw [hx] at h1; cases h1; exact hb
      | some lines =>
        rw [hx] at h1
        obtain ⟨m, _, h⟩ := bind_ok.mp h1
        cases pure_ok.mp h
        exact hb
    | readVariants f b =>
      rw [Loaded.call, Loaded.readInto] at h1
      cases hx : x.file f with
      | none => rw [hx] at h1; cases h1; exact hb
      | some lines =>
        rw [hx] at h1
        obtain ⟨m, _, h⟩ := bind_ok.mp h1
        cases pure_ok.mp h
        exact hb

/-- The tags and variants of matches are those of rules and entries. -/
theorem search_known {vm : Vm} {x : TextExt} {cfg : TextConfig} {p : TextParams} {text : List Char}
    {ms : List Match} (hsp : x.isAlpha ' ' = false) (hsolve : SolverOk x.solve)
    (hw : cfg.weights.sum x.f64 ≠ 0) (hrules : ∀ r ∈ cfg.contextRules, RuleOk r)
    (h : vm.findAllMatches x cfg p text = .ok ms) :
    ∀ m ∈ ms, (∀ t ∈ m.tag, ∃ r ∈ cfg.contextRules, t ∈ r.tag) ∧
      ∀ v ∈ m.variants.getD [], v.vocabId < vm.decoder.length ∧
        ∀ id, v.via = some id → id < vm.decoder.length := by
  have key : ∀ (p : TextParams) ms, p.unicodeoffsets = false → vm.findAllMatches x cfg p text = .ok ms →
      ∀ m ∈ ms, (∀ t ∈ m.tag, ∃ r ∈ cfg.contextRules, t ∈ r.tag) ∧
        ∀ v ∈ m.variants.getD [], v.vocabId < vm.decoder.length ∧
          ∀ id, v.via = some id → id < vm.decoder.length := by
    intro p ms hu h m hm
    obtain ⟨tm, _⟩ := text_matches hsp hsolve hu h
    obtain ⟨_, _, hv, _⟩ := tm m hm
    constructor
    · obtain ⟨segs, mss, _, rfl, h2, _⟩ := text_tags hsp hsolve hrules hu h
      obtain ⟨r, hr, hm⟩ := List.mem_flatten.mp hm
      obtain ⟨A, _, h3⟩ := h2 r hr
      obtain ⟨i, hi⟩ := List.mem_iff_getElem?.mp hm
      obtain ⟨h4, h5⟩ := h3 i m hi
      intro t ht
      by_cases hA : ∃ a ∈ A, Marked cfg.contextRules a i
      · obtain ⟨a, ha, hmark⟩ := hA
        obtain ⟨rule, hrule, _⟩ := id hmark
        obtain ⟨e1, _⟩ := h4 a ha rule hrule hmark
        rw [e1] at ht
        obtain ⟨y, hy, rfl⟩ := List.mem_map.mp ht
        obtain ⟨z, hz, rfl⟩ := List.mem_map.mp hy
        exact ⟨rule, List.mem_of_getElem? hrule, (List.of_mem_zip (List.mem_filter.mp hz).1).1⟩
      · obtain ⟨e1, _⟩ := h5 fun a ha hm => hA ⟨a, ha, hm⟩
        rw [e1] at ht
        cases ht
    · intro v hv'
      cases hvs : m.variants with
      | none => rw [hvs] at hv'; cases hv'
      | some vs =>
        rw [hvs] at hv'
        exact ⟨find_variants_ids hw (hv vs hvs) v hv', find_variants_via hw (hv vs hvs) v hv'⟩
  cases hu : p.unicodeoffsets with
  | false => exact key p ms hu h
  | true =>
    obtain ⟨ms', h1, h2, _⟩ := text_matches_unicode hsp hsolve hu h
    intro m hm
    obtain ⟨m', hm', e, _⟩ := mem_of_forall₂_right h2 hm
    have := key _ ms' rfl h1 m' hm'
    rw [e]
    exact this

/-- **C83**: likewise `find_all_matches`, with the rules and tags of the model.  Rules must have at most
256 words, and tags must end before position 256. -/
theorem py_search_total {x : LoadExt} {alphabetFile : List Char} {cs : List PyCall} {o : Orders}
    {L0 L : Loaded} (h0 : x.pyNew alphabetFile = .ok L0) (h : L0.calls x (cs ++ [.build o]) = .ok L)
    (hfiles : (wordFiles x cs).length ≤ 32) (hlen : L.vm.alphabet.length ≤ 166)
    (hshort : ∀ v ∈ L.vm.decoder, v.text.length < 65536) (e : TextExt) (cfg : TextConfig)
    (hcfg : cfg.contextRules = L.book.rules) (p : TextParams)
    (hw : cfg.weights.sum e.f64 ≠ 0) (hsp : e.isAlpha ' ' = false) (hsolve : SolverOk e.solve)
    (hseq : 1 ≤ p.maxSeq)
    (hlm : L.vm.haveLm = true → 0 < p.lmWeight →
      ∀ v ∈ L.vm.decoder, ∀ ws, TokensOf v.text ws → ws.length ≤ 255)
    (hrules : ∀ r ∈ L.book.rules, r.pattern.length ≤ 256 ∧ ∀ y ∈ r.tagoffset, y.1 + y.2 < 256)
    (text : List Char) (hwords : ∀ segs a r b, Segmented e.isAlpha text segs → segs = a ++ r ++ b →
      r.length ≤ p.maxNgram → (stretch r).length ≤ 65280) :
    ∃ ds, L.vm.pyFindAllMatches L.book.tags e cfg p text = .ok ds := by
  obtain ⟨ops, g1, g2, g3⟩ := py_built h0 h
  have hl : L.vm.lexicons.length ≤ 32 := by
    obtain ⟨_, _, _, _, _, _, _, _, _, _, _, hlex⟩ := py_history h0 h
    have : wordFiles x (cs ++ [.build o]) = wordFiles x cs := by
      simp [wordFiles, List.filterMap_append, wordFile]
    rw [hlex, this]
    exact hfiles
  have hbook : BookOk L.book := by
    obtain ⟨m0, k0, k⟩ := bind_ok.mp h0
    cases pure_ok.mp k
    obtain ⟨lines, k1, k⟩ := bind_ok.mp k0
    cases pure_ok.mp k
    exact calls_book (inv_new _) hl bookOk_empty h
  have hok : ∀ r ∈ cfg.contextRules, RuleOk r := by
    intro r hr
    rw [hcfg] at hr
    exact ⟨hbook.small r hr, (hrules r hr).2, (hrules r hr).1⟩
  obtain ⟨ms, hms⟩ := search_total _ g1 hlen ops o _ g2 g3 hshort e cfg p hw hsp hsolve hseq hlm hok text
    hwords
  suffices hd : ∃ ds, collectSeq (L.vm.pyMatch L.book.tags e.f64 p.variant.freqWeight) ms = .ok ds by
    obtain ⟨ds, hds⟩ := hd
    exact ⟨ds, bind_ok.mpr ⟨ms, hms, hds⟩⟩
  refine collectSeq_total fun m hm => ?_
  obtain ⟨ht, hv⟩ := search_known hsp hsolve hw hok hms m hm
  have htags : ∃ t, tagLists L.book.tags m.tag m.seqnr = .ok t := by
    unfold tagLists
    split
    · exact ⟨_, rfl⟩
    · suffices hn : ∃ names, List.Forall₂ (fun t n => L.book.tags[t]? = some n)
          (m.tag.take m.seqnr.length) names by
        obtain ⟨names, hn⟩ := hn
        exact ⟨_, bind_ok.mpr ⟨names, tagNames_ok.mpr hn, rfl⟩⟩
      have hall : ∀ t ∈ m.tag.take m.seqnr.length, t < L.book.tags.length := by
        intro t htm
        obtain ⟨r, hr, htr⟩ := ht t (List.mem_of_mem_take htm)
        rw [hcfg] at hr
        exact hbook.tags r hr t htr
      generalize m.tag.take m.seqnr.length = l at hall
      induction l with
      | nil => exact ⟨[], .nil⟩
      | cons t l ih =>
        obtain ⟨ns, hns⟩ := ih fun t ht => hall t (by simp [ht])
        exact ⟨_ :: ns, .cons (List.getElem?_eq_getElem (hall t (by simp))) hns⟩
  obtain ⟨t, ht⟩ := htags
  have hvs : ∃ vs, L.vm.pyVariants e.f64 p.variant.freqWeight m.selected m.variants = .ok vs := by
    have hlist := skipAt_listed (variants := m.variants.getD []) (selected := m.selected)
    generalize (selectedResult m.selected (m.variants.getD [])).toList ++
      skipAt m.selected 0 (m.variants.getD []) = l at hlist
    suffices hf : ∃ ds, List.Forall₂ (fun r d => L.vm.variantToDict e.f64 p.variant.freqWeight r = .ok d)
        l ds by
      obtain ⟨ds, hds⟩ := hf
      exact ⟨ds, pyVariants_ok.mpr ⟨l, hlist, hds⟩⟩
    obtain ⟨ds, hds⟩ := collectSeq_total (f := L.vm.variantToDict e.f64 p.variant.freqWeight) (l := l)
      fun r hr => by
        have := hv r ((listed_perm hlist).mem_iff.mp hr)
        exact variantToDict_total _ _ hl this.1 this.2
    exact ⟨ds, collectSeq_ok.mp hds⟩
  obtain ⟨vs, hvs⟩ := hvs
  exact ⟨_, bind_ok.mpr ⟨t, ht, bind_ok.mpr ⟨vs, hvs, rfl⟩⟩⟩

/-! ### Examples -/

/-- Files for the examples, among them an empty one. -/
def pyLoad : LoadExt :=
  { exLoad with file := fun f => if f = ['n'] then some [] else exLoad.file f }

/-- A program with an exception (there is no file `z`). -/
def pyCalls : List PyCall :=
  [.readLexicon ['l'], .readLexicon ['z'], .readVariants ['e'] true, .addToVocabulary ['b', 'a'] none {},
   .addContextrule "ab;ba".toList (11/10) ["p".toList] []]

def pyModel : Loaded :=
  match (pyLoad.pyNew ['a']).bind fun L => L.calls pyLoad (pyCalls ++ [PyCall.build exOrders]) with
  | .ok L => L
  | .error _ => ⟨Vm.new [], [], ⟨[], []⟩⟩

theorem pyModel_ok : ∃ L0, pyLoad.pyNew ['a'] = .ok L0 ∧
    L0.calls pyLoad (pyCalls ++ [.build exOrders]) = .ok pyModel := ⟨_, rfl, rfl⟩

example : (wordFiles pyLoad pyCalls) = [['l'], ['e']] ∧ pyModel.vm.alphabet.length ≤ 166 ∧
    (∀ v ∈ pyModel.vm.decoder, v.text.length < 65536) ∧
    (∀ r ∈ pyModel.book.rules, r.pattern.length ≤ 256 ∧ ∀ y ∈ r.tagoffset, y.1 + y.2 < 256) ∧
    pyModel.book.tags = ["p".toList] := by decide +kernel

example : (∃ a, CallsAdd pyLoad 0 (pyCalls ++ [.build exOrders]) a) ∧
    CallsAdd pyLoad 0 [.readLexicon ['z'], .addToVocabulary ['b', 'a'] none {}] [(['b', 'a'], none, {})] := by
  obtain ⟨L0, h0, h⟩ := pyModel_ok
  obtain ⟨_, _, a, _, _, _, _, _, _, ha, _⟩ := py_history h0 h
  exact ⟨⟨a, ha⟩, .cons (a := []) (.noFile (f := ['z']) rfl rfl) (.cons .add .nil)⟩

example : pyModel.vm.pyFindVariants exExt exConfig exParams ['a', 'b'] =
    .ok [⟨['a', 'b'], 1, 1, 1, none, [['l']]⟩] := by decide +kernel

/-- C83, disagreement: `ba` was added on its own but is reported as an entry of the first lexicon. -/
theorem py_added_word_in_first_lexicon :
    pyCalls[3]? = some (.addToVocabulary ['b', 'a'] none {}) ∧
    pyModel.vm.pyFindVariants exExt exConfig exParams ['b', 'b'] =
      .ok [⟨['b'], 9 / 16, 9 / 16, 1 / 3, none, [['l'], ['e']]⟩, ⟨['a', 'b'], 1 / 2, 1 / 2, 1, none, [['l']]⟩,
        ⟨['b', 'a'], 1 / 2, 1 / 2, 1 / 3, none, [['l']]⟩,
        ⟨['b'], 1 / 2, 1 / 2, 1 / 3, some ['b', 'b'], [['l'], ['e']]⟩] := by
  exact ⟨rfl, by decide +kernel⟩

example : pyModel.vm.pyFindAllMatches pyModel.book.tags exText
    { exTextConfig with contextRules := pyModel.book.rules } exTextParams "ab ba".toList =
    .ok [⟨['a', 'b'], 0, 2, some ([['p']], [0]), [⟨['a', 'b'], 1, 1, 1, none, [['l']]⟩]⟩,
      ⟨['b', 'a'], 3, 5, some ([['p']], [1]), [⟨['b', 'a'], 1, 1, 1 / 3, none, [['l']]⟩]⟩] := by decide +kernel

example : [1, 0].Perm (List.range [['a', 'b'], ['b', 'a']].length) ∧
    pyModel.vm.pyFindVariantsPar exExt exConfig exParams [1, 0] [['a', 'b'], ['b', 'a']] =
      .ok [(['a', 'b'], [⟨['a', 'b'], 1, 1, 1, none, [['l']]⟩]),
        (['b', 'a'], [⟨['b', 'a'], 1, 1, 1 / 3, none, [['l']]⟩])] := by
  constructor <;> decide +kernel

/-- A model with 33 lexicons, of which only the first has entries. -/
def pyMany : Res Loaded :=
  (pyLoad.pyNew ['a']).bind fun L =>
    L.calls pyLoad (PyCall.readLexicon ['l'] :: List.replicate 32 (.readLexicon ['n']) ++ [.build exOrders])

/-- C83, disagreement: with more than 32 lexicons a query that has results panics. -/
theorem py_many_lexicons : ∃ L, pyMany = .ok L ∧ L.vm.lexicons.length = 33 ∧
    (∃ e, L.vm.pyFindVariants exExt exConfig exParams ['a', 'b'] = .error e) := by
  have h : (match pyMany with
    | .ok L => L.vm.lexicons.length == 33 &&
        (match L.vm.pyFindVariants exExt exConfig exParams ['a', 'b'] with
          | .error _ => true
          | .ok _ => false)
    | .error _ => false) = true := by decide +kernel
  split at h
  · rename_i L hL
    rw [Bool.and_eq_true, beq_iff_eq] at h
    refine ⟨L, hL, h.1, ?_⟩
    cases hr : L.vm.pyFindVariants exExt exConfig exParams ['a', 'b'] with
    | error e => exact ⟨e, rfl⟩
    | ok r => rw [hr] at h; exact absurd h.2 (by simp)
  · cases h


/-! ## C85: parameters -/

theorem asInt_iff {v : PyVal} {i : Int} : v.asInt = some i ↔ WholeNumber v i := by
  constructor
  · intro h
    cases v with
    | bool b => cases b <;> (injection h with h; subst h) <;> constructor
    | int j => injection h with h; subst h; constructor
    | none | float | str | pair | other => cases h
  · intro h; cases h <;> rfl

theorem asUnsigned_iff {max : Nat} {v : PyVal} {n : Nat} :
    v.asUnsigned max = some n ↔ Natural max v n := by
  unfold PyVal.asUnsigned Natural
  cases hi : v.asInt with
  | none =>
    refine iff_of_false (by simp) fun h => ?_
    rw [asInt_iff.mpr h.1] at hi; cases hi
  | some i =>
    have hw := asInt_iff.mp hi
    constructor
    · intro h
      dsimp only at h
      split at h
      · injection h with h
        subst h
        rw [Int.toNat_of_nonneg (by omega)]
        exact ⟨hw, by omega⟩
      · cases h
    · rintro ⟨h, hn⟩
      rw [asInt_iff.mpr h] at hi
      injection hi with hi
      subst hi
      simp [hn]

theorem asF64_iff {f64 : Rounding} {v : PyVal} {q : EFloat} :
    v.asF64 f64 = some q ↔ Double f64 v q := by
  have whole : ∀ v : PyVal, (∀ x, v ≠ .float x) →
      (v.asF64 f64 = some q ↔ ∃ i, WholeNumber v i ∧ i.natAbs < doubleLimit ∧ q = .fin (f64.rnd i)) := by
    intro v hv
    have : v.asF64 f64 = match v.asInt with
        | some i => if i.natAbs < doubleLimit then some (.fin (f64.rnd i)) else none
        | none => none := by
      cases v with
      | float x => exact absurd rfl (hv x)
      | none | bool | int | str | pair | other => rfl
    rw [this]
    simp only [← asInt_iff]
    cases v.asInt with
    | none => simp
    | some i =>
      dsimp only
      split <;> rename_i hb
      · constructor
        · intro h; injection h with h; exact ⟨i, rfl, hb, h.symm⟩
        · rintro ⟨j, hj, _, rfl⟩; injection hj with hj; subst hj; rfl
      · refine iff_of_false (by simp) ?_
        rintro ⟨j, hj, hb', _⟩
        injection hj with hj; subst hj; exact hb hb'
  constructor
  · intro h
    by_cases hv : ∃ x, v = .float x
    · obtain ⟨x, rfl⟩ := hv
      injection h with h
      subst h
      exact .float
    · obtain ⟨i, hi, hb, rfl⟩ := (whole v fun x hx => hv ⟨x, hx⟩).mp h
      exact .whole hi hb
  · intro h
    cases h with
    | float => rfl
    | whole hi hb => exact (whole v (by rintro x rfl; cases hi)).mpr ⟨_, hi, hb, rfl⟩

theorem asF32_iff {x : PyExt} {v : PyVal} {q : EFloat} :
    v.asF32 x.f32 x.f64 = some q ↔ Single x v q := by
  unfold PyVal.asF32 Single
  simp only [← asF64_iff]
  cases v.asF64 x.f64 with
  | none => simp
  | some e =>
    cases e with
    | fin a =>
      simp only [Option.map_some, roundTo, Option.some.injEq, EFloat.fin.injEq, exists_eq_left']
      constructor
      · intro h; exact .inl h.symm
      · rintro (h | ⟨h, h2⟩)
        · exact h.symm
        · exact absurd h.symm (h2 a)
    | nan | negInf | posInf =>
      simp only [Option.map_some, roundTo, Option.some.injEq]
      constructor
      · rintro rfl; exact .inr ⟨rfl, by simp⟩
      · rintro (⟨a, h, _⟩ | ⟨h, _⟩)
        · cases h
        · exact h

theorem asBool_iff {v : PyVal} {b : Bool} : v.asBool = some b ↔ Truth v b := by
  unfold Truth
  cases v <;> simp [PyVal.asBool]

theorem stop_iff {v : PyVal} {s : StopCriterion} :
    (v.asBool.map fun b => if b then StopCriterion.stopAtExactMatch else .exhaustive) = some s ↔ Stop v s := by
  unfold Stop
  cases v with
  | bool b => cases b <;> simp [PyVal.asBool, eq_comm]
  | none | int | float | str | pair | other => simp [PyVal.asBool]

/-- Converting a value to a threshold. -/
theorem extractThreshold_iff {x : PyExt} (hf : ∀ s, ';' ∈ s → x.parseF32 s = none) {v : PyVal}
    {t : ParsedThreshold} :
    extractThreshold x.f32 x.f64 x.parseF32 v = some t ↔ ThresholdValue x v t := by
  have hnone : v.asUnsigned 255 = none ↔ ∀ n, ¬ Natural 255 v n := by
    rw [Option.eq_none_iff_forall_ne_some]
    simp only [ne_eq, asUnsigned_iff]
  have number : (∀ a b, v ≠ .pair a b) → (∀ s, v ≠ .str s) →
      (extractThreshold x.f32 x.f64 x.parseF32 v = some t ↔ ThresholdValue x v t) := by
    intro hp hs
    have : extractThreshold x.f32 x.f64 x.parseF32 v =
        match v.asUnsigned 255 with
        | some n => some (.absolute n)
        | none =>
          match v.asF32 x.f32 x.f64 with
          | some x => some (.ratio x)
          | none => none := by
      unfold extractThreshold
      cases v with
      | pair a b => exact absurd rfl (hp a b)
      | str s => exact absurd rfl (hs s)
      | none | bool | int | float | other =>
        dsimp only
        cases PyVal.asUnsigned 255 _ with
        | some n => rfl
        | none => cases PyVal.asF32 x.f32 x.f64 _ <;> rfl
    rw [this]
    constructor
    · intro h
      cases hn : v.asUnsigned 255 with
      | some n =>
        rw [hn] at h
        injection h with h
        subst h
        exact .absolute (asUnsigned_iff.mp hn)
      | none =>
        rw [hn] at h
        cases hq : v.asF32 x.f32 x.f64 with
        | some q =>
          rw [hq] at h
          injection h with h
          subst h
          exact .ratio (hnone.mp hn) (asF32_iff.mp hq)
        | none => rw [hq] at h; cases h
    · intro h
      cases h with
      | absolute hn => rw [asUnsigned_iff.mpr hn]
      | ratio hn hq => rw [hnone.mpr hn, asF32_iff.mpr hq]
      | pair => exact absurd rfl (hp _ _)
      | text => exact absurd rfl (hs _)
  cases v with
  | none => exact number (by simp) (by simp)
  | bool b => exact number (by simp) (by simp)
  | int i => exact number (by simp) (by simp)
  | float q => exact number (by simp) (by simp)
  | other => exact number (by simp) (by simp)
  | str s =>
    have : extractThreshold x.f32 x.f64 x.parseF32 (.str s) = parseThreshold x.parseF32 s := rfl
    rw [this, thresholdText_iff _ hf]
    constructor
    · intro h; exact .text h
    · intro h
      cases h with
      | absolute h => cases h.1
      | ratio _ h =>
        rcases h with ⟨_, h, _⟩ | ⟨h, _⟩
        · cases h with | whole h => cases h
        · cases h with | whole h => cases h
      | text h => exact h
  | pair a b =>
    have hw : ∀ i, ¬ WholeNumber (.pair a b) i := fun i h => by cases h
    have hu : (PyVal.pair a b).asUnsigned 255 = none := rfl
    have hs : (PyVal.pair a b).asF32 x.f32 x.f64 = none := rfl
    constructor
    · intro h
      unfold extractThreshold at h
      cases ha : a.asF32 x.f32 x.f64 with
      | none => simp [ha, hu, hs] at h
      | some q =>
        cases hb : b.asUnsigned 255 with
        | none => simp [ha, hb, hu, hs] at h
        | some n =>
          simp only [ha, hb, Option.some.injEq] at h
          subst h
          exact .pair (asF32_iff.mp ha) (asUnsigned_iff.mp hb)
    · intro h
      cases h with
      | absolute h => exact absurd h.1 (hw _)
      | ratio _ h =>
        rcases h with ⟨_, h, _⟩ | ⟨h, _⟩
        · cases h with | whole h => cases h
        · cases h with | whole h => cases h
      | pair ha hb => simp only [extractThreshold, asF32_iff.mpr ha, asUnsigned_iff.mpr hb]

/-- What a setting ends up as when each argument is handled in turn. -/
theorem argument_fold {κ α σ : Type} [DecidableEq κ] {kwargs : List (κ × PyVal)}
    (hd : (kwargs.map (·.1)).Nodup) (set : σ → κ → PyVal → σ) (g : σ → α) (k : κ) (conv : PyVal → Option α)
    (hset : ∀ p v, g (set p k v) = (conv v).getD (g p))
    (hother : ∀ p k' v, k' ≠ k → g (set p k' v) = g p) (p : σ) (r : α) :
    g (kwargs.foldl (fun p a => set p a.1 a.2) p) = r ↔
      Argument kwargs k (fun v a => conv v = some a) (g p) r := by
  unfold Argument
  induction kwargs generalizing p with
  | nil => simp [eq_comm]
  | cons a kwargs ih =>
    obtain ⟨k', v⟩ := a
    rw [List.map_cons, List.nodup_cons] at hd
    rw [List.foldl_cons, ih hd.2]
    by_cases hk : k' = k
    · subst hk
      have hn : ∀ w, (k', w) ∉ kwargs := fun w hw => hd.1 (List.mem_map.mpr ⟨_, hw, rfl⟩)
      simp only [hn, hset, List.mem_cons, Prod.mk.injEq, true_and, or_false]
      cases hc : conv v with
      | none => simp [hc]
      | some b => simp [hc, eq_comm]
    · rw [hother p k' v hk]
      have : ∀ w, (k, w) ∈ (k', v) :: kwargs ↔ (k, w) ∈ kwargs := by
        intro w
        simp [show k ≠ k' from fun h => hk h.symm]
      simp only [this]

/-- Whichever way a value converts. -/
local macro "each_value" : tactic => `(tactic| (
  simp only [PyExt.setParam]
  first
    | rfl
    | (cases extractThreshold _ _ _ _ <;> rfl)
    | (cases PyVal.asUnsigned 255 _ <;> rfl)
    | (cases PyVal.asUnsigned (2 ^ 64 - 1) _ <;> rfl)
    | (cases PyVal.asF64 _ _ <;> rfl)
    | (cases PyVal.asF32 _ _ _ <;> rfl)
    | (cases PyVal.asBool _ <;> rfl)))

/-- A parameter other than the one an argument is for stays as it is. -/
local macro "other_key" : tactic => `(tactic| (
  intro p k v hk
  cases k <;> first | exact absurd rfl hk | each_value | rfl))

theorem argument_congr {κ α : Type} {kwargs : List (κ × PyVal)} {k : κ} {c c' : PyVal → α → Prop} {d r : α}
    (h : ∀ v a, c v a ↔ c' v a) : Argument kwargs k c d r ↔ Argument kwargs k c' d r := by
  unfold Argument
  simp only [h]

/-- C85: the parameters are those the keyword arguments ask for. -/
theorem py_parameters {x : PyExt} (hf : ∀ s, ';' ∈ s → x.parseF32 s = none)
    {kwargs : List (PyKey × PyVal)} (hd : (kwargs.map (·.1)).Nodup) {p : SearchParameters} :
    x.newParams kwargs = p ↔ SearchArguments x kwargs p := by
  have F : ∀ {α : Type} (g : SearchParameters → α) (k : PyKey) (conv : PyVal → Option α)
      (c : PyVal → α → Prop) (_ : ∀ v a, conv v = some a ↔ c v a)
      (_ : ∀ p v, g (x.setParam p k v) = (conv v).getD (g p))
      (_ : ∀ p k' v, k' ≠ k → g (x.setParam p k' v) = g p) (r : α),
      g (x.newParams kwargs) = r ↔ Argument kwargs k c (g .default) r := by
    intro α g k conv c hc hset hother r
    exact (argument_fold hd x.setParam g k conv hset hother .default r).trans (argument_congr hc)
  have h1 := F (·.maxAnagramDistance) .maxAnagramDistance _ _ (fun v a => extractThreshold_iff hf) (fun p v => by each_value) (by other_key)
  have h2 := F (·.maxEditDistance) .maxEditDistance _ _ (fun v a => extractThreshold_iff hf) (fun p v => by each_value) (by other_key)
  have h3 := F (·.maxMatches) .maxMatches _ _ (fun v a => asUnsigned_iff) (fun p v => by each_value) (by other_key)
  have h4 := F (·.scoreThreshold) .scoreThreshold _ _ (fun v a => asF64_iff) (fun p v => by each_value) (by other_key)
  have h5 := F (·.cutoffThreshold) .cutoffThreshold _ _ (fun v a => asF64_iff) (fun p v => by each_value) (by other_key)
  have h6 := F (·.stopCriterion) .stopAtExactMatch _ _ (fun v a => stop_iff) (fun p v => by each_value) (by other_key)
  have h7 := F (·.maxNgram) .maxNgram _ _ (fun v a => asUnsigned_iff) (fun p v => by each_value) (by other_key)
  have h8 := F (·.maxSeq) .maxSeq _ _ (fun v a => asUnsigned_iff) (fun p v => by each_value) (by other_key)
  have h9 := F (·.singleThread) .singleThread _ _ (fun v a => asBool_iff) (fun p v => by each_value) (by other_key)
  have h10 := F (·.contextWeight) .contextWeight _ _ (fun v a => asF32_iff) (fun p v => by each_value) (by other_key)
  have h11 := F (·.variantmodelWeight) .variantmodelWeight _ _ (fun v a => asF32_iff) (fun p v => by each_value) (by other_key)
  have h12 := F (·.lmWeight) .lmWeight _ _ (fun v a => asF32_iff) (fun p v => by each_value) (by other_key)
  have h13 := F (·.contextrulesWeight) .contextrulesWeight _ _ (fun v a => asF32_iff) (fun p v => by each_value) (by other_key)
  have h14 := F (·.freqWeight) .freqWeight _ _ (fun v a => asF32_iff) (fun p v => by each_value) (by other_key)
  have h15 := F (·.consolidateMatches) .consolidateMatches _ _ (fun v a => asBool_iff) (fun p v => by each_value) (by other_key)
  have h16 := F (·.unicodeoffsets) .unicodeoffsets _ _ (fun v a => asBool_iff) (fun p v => by each_value) (by other_key)
  have h17 : (x.newParams kwargs).lmOrder = 3 := by
    have : ∀ (l : List (PyKey × PyVal)) (p : SearchParameters),
        (l.foldl (fun p a => x.setParam p a.1 a.2) p).lmOrder = p.lmOrder := by
      intro l
      induction l with
      | nil => intro p; rfl
      | cons a l ih =>
        intro p
        rw [List.foldl_cons, ih]
        have : ∀ p k v, k ≠ PyKey.other [] → (x.setParam p k v).lmOrder = p.lmOrder := by other_key
        by_cases ha : a.1 = .other []
        · rw [ha]; rfl
        · exact this _ _ _ ha
    exact this _ _
  constructor
  · rintro rfl
    exact ⟨(h1 _).mp rfl, (h2 _).mp rfl, (h3 _).mp rfl, (h4 _).mp rfl, (h5 _).mp rfl, (h6 _).mp rfl,
      (h7 _).mp rfl, h17, (h8 _).mp rfl, (h9 _).mp rfl, (h10 _).mp rfl, (h11 _).mp rfl, (h12 _).mp rfl,
      (h13 _).mp rfl, (h14 _).mp rfl, (h15 _).mp rfl, (h16 _).mp rfl⟩
  · intro h
    have e1 := (h1 _).mpr h.anagram
    have e2 := (h2 _).mpr h.edit
    have e3 := (h3 _).mpr h.matches
    have e4 := (h4 _).mpr h.score
    have e5 := (h5 _).mpr h.cutoff
    have e6 := (h6 _).mpr h.stop
    have e7 := (h7 _).mpr h.ngram
    have e8 := (h8 _).mpr h.seq
    have e9 := (h9 _).mpr h.thread
    have e10 := (h10 _).mpr h.context
    have e11 := (h11 _).mpr h.variantmodel
    have e12 := (h12 _).mpr h.lm
    have e13 := (h13 _).mpr h.rules
    have e14 := (h14 _).mpr h.freq
    have e15 := (h15 _).mpr h.consolidate
    have e16 := (h16 _).mpr h.offsets
    have e17 := h17.trans h.order.symm
    generalize x.newParams kwargs = q at *
    cases p
    cases q
    simp only at e1 e2 e3 e4 e5 e6 e7 e8 e9 e10 e11 e12 e13 e14 e15 e16 e17
    simp only [*]

/-- C85: the order of the arguments makes no difference. -/
theorem py_parameters_order {x : PyExt} (hf : ∀ s, ';' ∈ s → x.parseF32 s = none)
    {k1 k2 : List (PyKey × PyVal)} (hd : (k1.map (·.1)).Nodup) (hp : k1.Perm k2) :
    x.newParams k1 = x.newParams k2 := by
  have h := (py_parameters hf hd).mp rfl
  refine ((py_parameters hf ((hp.map _).nodup_iff.mp hd)).mpr ?_).symm
  have arg : ∀ {α : Type} {k : PyKey} {c : PyVal → α → Prop} {d r : α},
      Argument k1 k c d r → Argument k2 k c d r := by
    intro α k c d r h
    unfold Argument at h ⊢
    simpa only [hp.mem_iff] using h
  exact ⟨arg h.1, arg h.2, arg h.3, arg h.4, arg h.5, arg h.6, arg h.7, h.8, arg h.9, arg h.10, arg h.11,
    arg h.12, arg h.13, arg h.14, arg h.15, arg h.16, arg h.17⟩

/-- How frequencies are to be handled, for any value. -/
def handlingOf : PyVal → Option FrequencyHandling
  | .str s => pyHandling s
  | _ => none

/-- The kind of a vocabulary, for any value. -/
def kindOf : PyVal → Option VocabType
  | .str s => pyVocabType s
  | _ => none

theorem handlingOf_iff {v : PyVal} {a : FrequencyHandling} : handlingOf v = some a ↔ HandlingName v a := by
  constructor
  · intro h
    cases v with
    | str s =>
      simp only [handlingOf, pyHandling] at h
      split at h
      · rename_i e; subst e; injection h with h; subst h; exact .sum
      split at h
      · rename_i e; subst e; injection h with h; subst h; exact .max
      split at h
      · rename_i e; subst e; injection h with h; subst h; exact .min
      split at h
      · rename_i e; subst e; injection h with h; subst h; exact .replace
      cases h
    | none | bool | int | float | pair | other => cases h
  · intro h; cases h <;> rfl

theorem kindOf_iff {v : PyVal} {a : VocabType} : kindOf v = some a ↔ KindName v a := by
  constructor
  · intro h
    cases v with
    | str s =>
      simp only [kindOf, pyVocabType] at h
      split at h
      · rename_i e; subst e; injection h with h; subst h; exact .none
      split at h
      · rename_i e; subst e; injection h with h; subst h; exact .indexed
      split at h
      · rename_i e; subst e; injection h with h; subst h; exact .transparent
      split at h
      · rename_i e; subst e; injection h with h; subst h; exact .lm
      cases h
    | none | bool | int | float | pair | other => cases h
  · intro h; cases h <;> rfl

theorem setVocabParam_some {p : VocabParams} {k : PyVocabKey} {v : PyVal} :
    (∃ q, setVocabParam p k v = some q) ↔
      (k = .freqhandling ∨ k = .vocabtype → ∃ s, v = .str s) := by
  cases k <;> cases v <;> simp [setVocabParam]

theorem newVocabParams_eq {kwargs : List (PyVocabKey × PyVal)} {p : VocabParams} :
    newVocabParams kwargs = some p ↔
      (∀ a ∈ kwargs, a.1 = .freqhandling ∨ a.1 = .vocabtype → ∃ s, a.2 = .str s) ∧
      kwargs.foldl (fun p a => (setVocabParam p a.1 a.2).getD p) {} = p := by
  unfold newVocabParams
  generalize ({} : VocabParams) = d
  induction kwargs generalizing d with
  | nil => simp
  | cons a kwargs ih =>
    rw [List.foldlM_cons, List.foldl_cons, List.forall_mem_cons, ← setVocabParam_some (p := d)]
    cases hs : setVocabParam d a.1 a.2 with
    | none => simp
    | some q =>
      simp only [Option.bind_eq_bind, Option.bind_some, Option.getD_some]
      rw [ih]
      simp

/-- Whichever way a value for a vocabulary converts. -/
local macro "each_vocab_value" : tactic => `(tactic| (
  first
    | rfl
    | (simp only [setVocabParam, Option.getD_some]
       cases PyVal.asUnsigned 255 _ <;> rfl)
    | (cases ‹PyVal› <;> first
       | rfl
       | (simp only [setVocabParam, Option.getD_some, handlingOf]; cases pyHandling _ <;> rfl)
       | (simp only [setVocabParam, Option.getD_some, kindOf]; cases pyVocabType _ <;> rfl))))

/-- C85: the parameters for a vocabulary are those the keyword arguments ask for, and there is an
exception exactly when a name is asked for but not given as a string. -/
theorem py_vocab_parameters {kwargs : List (PyVocabKey × PyVal)} (hd : (kwargs.map (·.1)).Nodup)
    {p : VocabParams} :
    newVocabParams kwargs = some p ↔
      (∀ a ∈ kwargs, a.1 = .freqhandling ∨ a.1 = .vocabtype → ∃ s, a.2 = .str s) ∧
      VocabArguments kwargs p := by
  rw [newVocabParams_eq]
  refine and_congr_right fun _ => ?_
  have F : ∀ {α : Type} (g : VocabParams → α) (k : PyVocabKey) (conv : PyVal → Option α)
      (c : PyVal → α → Prop) (_ : ∀ v a, conv v = some a ↔ c v a)
      (_ : ∀ p v, g ((setVocabParam p k v).getD p) = (conv v).getD (g p))
      (_ : ∀ p k' v, k' ≠ k → g ((setVocabParam p k' v).getD p) = g p) (r : α),
      g (kwargs.foldl (fun p a => (setVocabParam p a.1 a.2).getD p) {}) = r ↔
        Argument kwargs k c (g {}) r := by
    intro α g k conv c hc hset hother r
    exact (argument_fold hd (fun p k v => (setVocabParam p k v).getD p) g k conv hset hother {} r).trans
      (argument_congr hc)
  have h1 := F (·.textColumn) .textColumn _ _ (fun v a => asUnsigned_iff) (fun p v => by each_vocab_value)
    (fun p k v hk => by cases k <;> first | exact absurd rfl hk | each_vocab_value)
  have h2 := F (·.freqColumn) .freqColumn (fun v => (v.asUnsigned 255).map some)
    (fun v c => ∃ n, Natural 255 v n ∧ c = some n)
    (fun v a => by simp only [Option.map_eq_some_iff, asUnsigned_iff, eq_comm (a := a)])
    (fun p v => by each_vocab_value)
    (fun p k v hk => by cases k <;> first | exact absurd rfl hk | each_vocab_value)
  have h3 := F (·.index) .index _ _ (fun v a => asUnsigned_iff) (fun p v => by each_vocab_value)
    (fun p k v hk => by cases k <;> first | exact absurd rfl hk | each_vocab_value)
  have h4 := F (·.freqHandling) .freqhandling handlingOf HandlingName (fun v a => handlingOf_iff) (fun p v => by each_vocab_value)
    (fun p k v hk => by cases k <;> first | exact absurd rfl hk | each_vocab_value)
  have h5 := F (·.vocabType) .vocabtype kindOf KindName (fun v a => kindOf_iff) (fun p v => by each_vocab_value)
    (fun p k v hk => by cases k <;> first | exact absurd rfl hk | each_vocab_value)
  constructor
  · rintro rfl
    exact ⟨(h1 _).mp rfl, (h2 _).mp rfl, (h3 _).mp rfl, (h4 _).mp rfl, (h5 _).mp rfl⟩
  · intro h
    have e1 := (h1 _).mpr h.text
    have e2 := (h2 _).mpr h.freq
    have e3 := (h3 _).mpr h.index
    have e4 := (h4 _).mpr h.handling
    have e5 := (h5 _).mpr h.kind
    generalize kwargs.foldl (fun p a => (setVocabParam p a.1 a.2).getD p) {} = q at *
    cases p
    cases q
    simp only at e1 e2 e3 e4 e5
    simp only [*]

/-- An assignment does what a keyword argument does, unless it raises an exception. -/
theorem assign_some {x : PyExt} {p q : SearchParameters} {k : PyKey} {v : PyVal}
    (h : x.assign p k v = some q) : q = x.setParam p k v := by
  cases k <;> simp only [PyExt.assign] at h <;>
    first
      | (cases h; done)
      | (cases h
         rfl)
      | (obtain ⟨a, h1, rfl⟩ := Option.map_eq_some_iff.mp h
         simp only [PyExt.setParam, h1, Option.elim])

/-- C86: an assignment raises an exception exactly when the attribute can only be read or the value does
not convert, in which case the keyword argument would have been passed over. -/
theorem assign_none {x : PyExt} {p : SearchParameters} {k : PyKey} {v : PyVal}
    (h : x.assign p k v = none) : k = .scoreThreshold ∨ k = .cutoffThreshold ∨ x.setParam p k v = p := by
  cases k <;> simp only [PyExt.assign] at h <;>
    first
      | exact .inl rfl
      | exact .inr (.inl rfl)
      | cases h
      | (have h1 := Option.map_eq_none_iff.mp h
         exact .inr (.inr (by simp only [PyExt.setParam, h1, Option.elim])))

theorem single_f32 {x : PyExt} {v : PyVal} {q : EFloat} (h : v.asF32 x.f32 x.f64 = some q) :
    IsSingle x.f32 q := by
  rintro a rfl
  rcases asF32_iff.mp h with ⟨b, _, h⟩ | ⟨_, h⟩
  · injection h with h
    rw [h, x.f32.idem]
  · exact absurd rfl (h a)

theorem numberText_le {max : Nat} {s : List Char} {n : Nat} (h : NumberText max s n) : n ≤ max := by
  obtain ⟨_, _, _, _, _, h⟩ := h
  exact h

theorem threshold_fits {x : PyExt} (hf : ∀ s, ';' ∈ s → x.parseF32 s = none)
    (hp : ∀ s q, x.parseF32 s = some q → IsSingle x.f32 q) {v : PyVal} {t : ParsedThreshold}
    (h : extractThreshold x.f32 x.f64 x.parseF32 v = some t) : ThresholdFits x.f32 t := by
  replace h := (extractThreshold_iff hf).mp h
  cases h with
  | absolute h => exact h.2
  | ratio _ h => exact single_f32 (asF32_iff.mpr h)
  | pair h h' => exact ⟨single_f32 (asF32_iff.mpr h), h'.2⟩
  | text h =>
    cases h with
    | absolute h => exact (numberText_le h)
    | ratio _ h => exact hp _ _ h
    | limit h h' => exact ⟨hp _ _ h, numberText_le h'⟩

/-- C86: parameters always fit their types. -/
theorem setParam_fits {x : PyExt} (hf : ∀ s, ';' ∈ s → x.parseF32 s = none)
    (hp : ∀ s q, x.parseF32 s = some q → IsSingle x.f32 q) {p : SearchParameters} (h : ParamsFit x.f32 p)
    (k : PyKey) (v : PyVal) : ParamsFit x.f32 (x.setParam p k v) := by
  cases k with
  | maxAnagramDistance =>
    simp only [PyExt.setParam]
    split
    · rename_i t ht; exact { h with anagram := threshold_fits hf hp ht }
    · exact h
  | maxEditDistance =>
    simp only [PyExt.setParam]
    split
    · rename_i t ht; exact { h with edit := threshold_fits hf hp ht }
    · exact h
  | maxMatches =>
    simp only [PyExt.setParam]
    cases ht : v.asUnsigned (2 ^ 64 - 1) with
    | none => exact h
    | some n => exact { h with «matches» := by have := (asUnsigned_iff.mp ht).2; simp only [Option.elim]; omega }
  | maxSeq =>
    simp only [PyExt.setParam]
    cases ht : v.asUnsigned (2 ^ 64 - 1) with
    | none => exact h
    | some n => exact { h with seq := by have := (asUnsigned_iff.mp ht).2; simp only [Option.elim]; omega }
  | maxNgram =>
    simp only [PyExt.setParam]
    cases ht : v.asUnsigned 255 with
    | none => exact h
    | some n => exact { h with ngram := (asUnsigned_iff.mp ht).2 }
  | scoreThreshold =>
    simp only [PyExt.setParam]
    cases v.asF64 x.f64 with
    | none => exact h
    | some n => exact { h with }
  | cutoffThreshold =>
    simp only [PyExt.setParam]
    cases v.asF64 x.f64 with
    | none => exact h
    | some n => exact { h with }
  | stopAtExactMatch | singleThread | unicodeoffsets | consolidateMatches =>
    simp only [PyExt.setParam]
    cases v.asBool with
    | none => exact h
    | some n => exact { h with }
  | freqWeight =>
    simp only [PyExt.setParam]
    cases ht : v.asF32 x.f32 x.f64 with
    | none => exact h
    | some n => exact { h with freq := single_f32 ht }
  | lmWeight =>
    simp only [PyExt.setParam]
    cases ht : v.asF32 x.f32 x.f64 with
    | none => exact h
    | some n => exact { h with lm := single_f32 ht }
  | contextrulesWeight =>
    simp only [PyExt.setParam]
    cases ht : v.asF32 x.f32 x.f64 with
    | none => exact h
    | some n => exact { h with rules := single_f32 ht }
  | variantmodelWeight =>
    simp only [PyExt.setParam]
    cases ht : v.asF32 x.f32 x.f64 with
    | none => exact h
    | some n => exact { h with variantmodel := single_f32 ht }
  | contextWeight =>
    simp only [PyExt.setParam]
    cases ht : v.asF32 x.f32 x.f64 with
    | none => exact h
    | some n => exact { h with context := single_f32 ht }
  | other => exact h

theorem newParams_fits {x : PyExt} (hf : ∀ s, ';' ∈ s → x.parseF32 s = none)
    (hp : ∀ s q, x.parseF32 s = some q → IsSingle x.f32 q) (h3 : x.f32.rnd 3 = 3)
    (kwargs : List (PyKey × PyVal)) : ParamsFit x.f32 (x.newParams kwargs) := by
  have hd : ParamsFit x.f32 .default := by
    have single : ∀ a, x.f32.rnd a = a → IsSingle x.f32 (.fin a) := by
      rintro a ha b hb
      injection hb with hb
      rw [← hb, ha]
    exact ⟨(by decide : 3 ≤ 255), (by decide : 3 ≤ 255), (by decide : 20 < 2 ^ 64), (by decide : 3 ≤ 255),
      (by decide : 250 < 2 ^ 64), single _ x.f32.zero, single _ h3, single _ x.f32.one, single _ x.f32.one,
      single _ x.f32.zero⟩
  unfold PyExt.newParams
  generalize SearchParameters.default = d at hd
  induction kwargs generalizing d with
  | nil => exact hd
  | cons a kwargs ih => exact ih _ (setParam_fits hf hp hd _ _)

theorem readBack_single {x : PyExt} {q : EFloat} (h : IsSingle x.f32 q) :
    (PyVal.float q).asF32 x.f32 x.f64 = some q := by
  unfold PyVal.asF32 PyVal.asF64
  cases q with
  | fin a => simp only [Option.map_some, roundTo, h a rfl]
  | nan | negInf | posInf => rfl

theorem readBack_unsigned {max n : Nat} (h : n ≤ max) : (PyVal.int n).asUnsigned max = some n :=
  asUnsigned_iff.mpr ⟨.int, h⟩

theorem readBack_threshold {x : PyExt} {t : ParsedThreshold} (h : ThresholdFits x.f32 t)
    {t' : ParsedThreshold} :
    ReadBack t t' ↔ t' = (extractThreshold x.f32 x.f64 x.parseF32 t.toPy).getD (.absolute 3) := by
  cases t with
  | absolute n =>
    have : extractThreshold x.f32 x.f64 x.parseF32 (.int n) = some (.absolute n) := by
      unfold extractThreshold
      simp only [readBack_unsigned (max := 255) h]
    simp only [ParsedThreshold.toPy, this, Option.getD_some, ReadBack]
  | ratio q =>
    have : extractThreshold x.f32 x.f64 x.parseF32 (.float q) = some (.ratio q) := by
      unfold extractThreshold
      have hn : (PyVal.float q).asUnsigned 255 = none := rfl
      simp only [hn, readBack_single h]
    simp only [ParsedThreshold.toPy, this, Option.getD_some, ReadBack]
  | ratioWithLimit q n =>
    have : extractThreshold x.f32 x.f64 x.parseF32 .other = none := rfl
    simp only [ParsedThreshold.toPy, this, Option.getD_none, ReadBack]

/-- C86: parameters made from the dictionary of others are the same but for thresholds that are ratios with
a limit and for when to stop. -/
theorem py_read_back_partial {x : PyExt} {p : SearchParameters} (h : ParamsFit x.f32 p) (ho : p.lmOrder = 3)
    {q : SearchParameters} :
    x.newParams p.toDict = q ↔
      ReadBack p.maxAnagramDistance q.maxAnagramDistance ∧ ReadBack p.maxEditDistance q.maxEditDistance ∧
      q.stopCriterion = .exhaustive ∧
      q = { p with maxAnagramDistance := q.maxAnagramDistance, maxEditDistance := q.maxEditDistance,
                   stopCriterion := q.stopCriterion } := by
  have hm : p.maxMatches ≤ 2 ^ 64 - 1 := by have := h.matches; omega
  have hs : p.maxSeq ≤ 2 ^ 64 - 1 := by have := h.seq; omega
  rw [readBack_threshold h.anagram, readBack_threshold h.edit]
  have key : x.newParams p.toDict =
      { p with
        maxAnagramDistance :=
          (extractThreshold x.f32 x.f64 x.parseF32 p.maxAnagramDistance.toPy).getD (.absolute 3)
        maxEditDistance :=
          (extractThreshold x.f32 x.f64 x.parseF32 p.maxEditDistance.toPy).getD (.absolute 3)
        stopCriterion := .exhaustive } := by
    simp only [PyExt.newParams, SearchParameters.toDict, List.foldl_cons, List.foldl_nil]
    cases h1 : extractThreshold x.f32 x.f64 x.parseF32 p.maxAnagramDistance.toPy <;>
      cases h2 : extractThreshold x.f32 x.f64 x.parseF32 p.maxEditDistance.toPy <;>
      simp only [PyExt.setParam, h1, h2, readBack_unsigned hm, readBack_unsigned hs, readBack_unsigned h.ngram,
        readBack_single h.context, readBack_single h.variantmodel, readBack_single h.lm,
        readBack_single h.rules, readBack_single h.freq, PyVal.asF64, PyVal.asBool, Option.elim,
        SearchParameters.default, Option.getD, ho]
  rw [key]
  constructor
  · rintro rfl
    exact ⟨rfl, rfl, rfl, rfl⟩
  · rintro ⟨h1, h2, h3, h4⟩
    rw [← h1, ← h2, ← h3]
    exact h4.symm

/-! ### Examples -/

/-- Numbers for the examples. -/
def pyExt : PyExt := ⟨.exact, .exact, fun s => if s = "0.5".toList then some (.fin (1 / 2)) else none⟩

theorem pyExt_semicolon : ∀ s, ';' ∈ s → pyExt.parseF32 s = none := by
  intro s hs
  simp only [pyExt]
  split
  · rename_i h; subst h; revert hs; decide
  · rfl

/-- Keyword arguments, one of them unknown and one of them of the wrong type. -/
def pyArgs : List (PyKey × PyVal) :=
  [(.maxEditDistance, .pair (.float (.fin (1 / 2))) (.int 4)), (.maxAnagramDistance, .str "0.5".toList),
   (.maxMatches, .bool true), (.stopAtExactMatch, .bool true), (.singleThread, .int 1), (.other ['q'], .none)]

example : (pyArgs.map (·.1)).Nodup ∧
    (pyExt.newParams pyArgs).maxEditDistance = .ratioWithLimit (.fin (1 / 2)) 4 ∧
    (pyExt.newParams pyArgs).maxAnagramDistance = .ratio (.fin (1 / 2)) ∧
    (pyExt.newParams pyArgs).maxMatches = 1 ∧
    (pyExt.newParams pyArgs).stopCriterion = .stopAtExactMatch ∧
    (pyExt.newParams pyArgs).singleThread = false := by decide +kernel

example : SearchArguments pyExt pyArgs (pyExt.newParams pyArgs) :=
  (py_parameters pyExt_semicolon (by decide)).mp rfl

example : pyExt.newParams pyArgs.reverse = pyExt.newParams pyArgs :=
  (py_parameters_order pyExt_semicolon (by decide) (List.reverse_perm _).symm).symm

/-- C85, disagreement: numbers outside 0 to 1 are taken for ratios, though the message for values that
cannot be converted asks for one in that range. -/
theorem py_ratio_unchecked :
    extractThreshold pyExt.f32 pyExt.f64 pyExt.parseF32 (.int 300) = some (.ratio (.fin 300)) ∧
    extractThreshold pyExt.f32 pyExt.f64 pyExt.parseF32 (.int (-1)) = some (.ratio (.fin (-1))) ∧
    extractThreshold pyExt.f32 pyExt.f64 pyExt.parseF32 (.float .nan) = some (.ratio .nan) := by
  decide +kernel

/-- C85, disagreement: a vocabulary without frequencies cannot be asked for by keyword (it can by
assignment). -/
theorem py_freq_column_none : ∀ p, newVocabParams [(.freqColumn, .none)] = some p → p.freqColumn = some 1 := by
  intro p hp
  have : newVocabParams [(.freqColumn, .none)] = some {} := rfl
  rw [this] at hp
  injection hp with hp
  subst hp
  rfl

example : newVocabParams [(.vocabtype, .str "TRANSPARENT".toList), (.freqhandling, .str "mean".toList),
      (.index, .int 2)] =
    some { vocabType := { indexed := true, transparent := true }, index := 2 } ∧
    newVocabParams [(.freqhandling, .none)] = none ∧
    newVocabParams [(.textColumn, .int 256)] = some {} := by decide +kernel

/-- Parameters with a ratio and a limit, and a search that stops. -/
def pyLimited : List (PyKey × PyVal) :=
  [(.maxEditDistance, .pair (.float (.fin (1 / 2))) (.int 4)), (.stopAtExactMatch, .bool true),
   (.freqWeight, .float (.fin (1 / 4)))]

/-- C86, disagreement: a ratio with a limit and the stop criterion are lost. -/
theorem py_read_back_fails :
    (pyExt.newParams pyLimited).maxEditDistance = .ratioWithLimit (.fin (1 / 2)) 4 ∧
    (pyExt.newParams pyLimited).stopCriterion = .stopAtExactMatch ∧
    (pyExt.newParams (pyExt.newParams pyLimited).toDict).maxEditDistance = .absolute 3 ∧
    (pyExt.newParams (pyExt.newParams pyLimited).toDict).stopCriterion = .exhaustive ∧
    (pyExt.newParams (pyExt.newParams pyLimited).toDict).freqWeight = .fin (1 / 4) := by decide +kernel

example : ParamsFit pyExt.f32 (pyExt.newParams pyLimited) ∧ (pyExt.newParams pyLimited).lmOrder = 3 :=
  ⟨newParams_fits pyExt_semicolon (fun _ _ _ _ _ => rfl) rfl _, rfl⟩

/-- C86, disagreement: the threshold for scores can be given and read but not assigned. -/
theorem py_score_readonly (x : PyExt) (p : SearchParameters) (v : PyVal) :
    x.assign p .scoreThreshold v = none := rfl

example : (pyExt.assign .default .maxNgram (.int 300)).isNone ∧
    (pyExt.assign .default .maxNgram (.int 2)).map (·.maxNgram) = some 2 := by decide +kernel

end Verif.Props
