import Verif.Lemmas.Json
import Verif.Lemmas.Parallel
import Verif.Lemmas.Rules

/-!
# Lemmas about the command line tool
-/
namespace Verif.Lemmas

open Verif.Spec Verif.Model

/-! ## The order of the variants -/

/-- The list without the selected item, from index `i` on. -/
def skipAt {α : Type} (selected : Option Nat) : Nat → List α → List α
  | _, [] => []
  | i, a :: l => if selected ≠ some i then a :: skipAt selected (i + 1) l else skipAt selected (i + 1) l

theorem skipAt_none {α : Type} (i : Nat) (l : List α) : skipAt none i l = l := by
  induction l generalizing i with
  | nil => rfl
  | cons a l ih => rw [skipAt, if_pos (by simp), ih]

theorem skipAt_before {α : Type} (k i : Nat) (l : List α) (h : k < i) : skipAt (some k) i l = l := by
  induction l generalizing i with
  | nil => rfl
  | cons a l ih => rw [skipAt, if_pos (by simp; omega), ih _ (by omega)]

theorem skipAt_some {α : Type} (k i : Nat) (l : List α) (h : i ≤ k) :
    skipAt (some k) i l = l.eraseIdx (k - i) := by
  induction l generalizing i with
  | nil => rfl
  | cons a l ih =>
    rw [skipAt]
    by_cases hk : k = i
    · rw [if_neg (by simp [hk]), skipAt_before _ _ _ (by omega), hk, Nat.sub_self]; rfl
    · rw [if_pos (by simpa using hk), ih _ (by omega)]
      obtain ⟨d, hd⟩ : ∃ d, k - i = d + 1 := ⟨k - i - 1, by omega⟩
      rw [hd, show k - (i + 1) = d by omega]; rfl

theorem skipAt_listed {variants : List VariantResult} {selected : Option Nat} :
    Listed variants selected ((selectedResult selected variants).toList ++ skipAt selected 0 variants) := by
  cases selected with
  | none => exact .inr ⟨by simp, by simp [selectedResult, skipAt_none]⟩
  | some k =>
    rw [skipAt_some _ _ _ (by omega), selectedResult]
    cases hk : variants[k]? with
    | none =>
      refine .inr ⟨by intro i hi; cases hi; exact hk, ?_⟩
      have : variants.length ≤ k := by simpa using hk
      simp [List.eraseIdx_of_length_le this]
    | some r => exact .inl ⟨k, r, rfl, hk, by simp⟩

theorem listed_unique {variants l l' : List VariantResult} {selected : Option Nat}
    (h : Listed variants selected l) (h' : Listed variants selected l') : l = l' := by
  rcases h with ⟨i, r, h1, h2, rfl⟩ | ⟨h1, rfl⟩ <;> rcases h' with ⟨i', r', g1, g2, rfl⟩ | ⟨g1, rfl⟩
  · cases h1.symm.trans g1
    rw [h2] at g2; cases g2; rfl
  · rw [g1 i h1] at h2; cases h2
  · rw [h1 i' g1] at g2; cases g2
  · rfl

theorem othersTsv_ok {o : Printer} {sel : Option Nat} {i : Nat} {rs : List VariantResult}
    {s : List Char} : o.othersTsv sel i rs = .ok s ↔
      ∃ parts, List.Forall₂ (fun r p => o.resultTsv r = .ok p) (skipAt sel i rs) parts ∧
        s = parts.flatten := by
  induction rs generalizing i s with
  | nil => simp [Printer.othersTsv, skipAt, eq_comm]
  | cons r rs ih =>
    rw [Printer.othersTsv, skipAt]
    split
    · simp only [List.forall₂_cons_left_iff]
      constructor
      · intro h
        obtain ⟨p, h1, h⟩ := bind_ok.mp h
        obtain ⟨t, h2, h⟩ := bind_ok.mp h
        obtain ⟨ps, h3, rfl⟩ := ih.mp h2
        exact ⟨p :: ps, ⟨p, ps, h1, h3, rfl⟩, (pure_ok.mp h).symm⟩
      · rintro ⟨_, ⟨p, ps, h1, h3, rfl⟩, rfl⟩
        exact bind_ok.mpr ⟨p, h1, bind_ok.mpr ⟨_, ih.mpr ⟨ps, h3, rfl⟩, pure_ok.mpr rfl⟩⟩
    · exact ih

/-- Texts with a separator before each. -/
def prefixed (sep : List Char) (parts : List (List Char)) : List Char :=
  (parts.map fun p => sep ++ p).flatten

theorem intercalate_cons_prefixed (sep p : List Char) (parts : List (List Char)) :
    sep.intercalate (p :: parts) = p ++ prefixed sep parts := by
  induction parts generalizing p with
  | nil => simp [List.intercalate, prefixed]
  | cons q parts ih =>
    rw [intercalate_cons_cons', ih]
    simp [prefixed]
where
  intercalate_cons_cons' {sep p q : List Char} {l : List (List Char)} :
      sep.intercalate (p :: q :: l) = p ++ sep ++ sep.intercalate (q :: l) := by
    simp [List.intercalate, List.intersperse]

theorem othersJson_ok {o : Printer} {sel : Option Nat} {i : Nat} {wrote : Bool}
    {rs : List VariantResult} {s : List Char} : o.othersJson sel i wrote rs = .ok s ↔
      ∃ parts, List.Forall₂ (fun r p => o.resultJson r = .ok p) (skipAt sel i rs) parts ∧
        s = if wrote then prefixed ",\n".toList parts else ",\n".toList.intercalate parts := by
  induction rs generalizing i wrote s with
  | nil => simp [Printer.othersJson, skipAt, prefixed, List.intercalate, eq_comm]
  | cons r rs ih =>
    rw [Printer.othersJson, skipAt]
    split
    · simp only [List.forall₂_cons_left_iff]
      constructor
      · intro h
        obtain ⟨p, h1, h⟩ := bind_ok.mp h
        obtain ⟨t, h2, h⟩ := bind_ok.mp h
        obtain ⟨ps, h3, rfl⟩ := ih.mp h2
        refine ⟨p :: ps, ⟨p, ps, h1, h3, rfl⟩, (pure_ok.mp h).symm.trans ?_⟩
        cases wrote
        · simp [intercalate_cons_prefixed]
        · simp [prefixed]
      · rintro ⟨_, ⟨p, ps, h1, h3, rfl⟩, rfl⟩
        refine bind_ok.mpr ⟨p, h1, bind_ok.mpr ⟨_, ih.mpr ⟨ps, h3, rfl⟩, pure_ok.mpr ?_⟩⟩
        cases wrote
        · simp [intercalate_cons_prefixed]
        · simp [prefixed]
    · exact ih

theorem variantsTsv_ok {o : Printer} {sel : Option Nat} {rs : List VariantResult} {s : List Char} :
    o.variantsTsv sel rs = .ok s ↔ ∃ l parts, Listed rs sel l ∧
      List.Forall₂ (fun r p => o.resultTsv r = .ok p) l parts ∧ s = parts.flatten := by
  have hl := skipAt_listed (variants := rs) (selected := sel)
  constructor
  · intro h
    rw [Printer.variantsTsv] at h
    cases hs : selectedResult sel rs with
    | none =>
      rw [hs] at h hl
      obtain ⟨parts, h1, h2⟩ := othersTsv_ok.mp h
      exact ⟨_, parts, hl, h1, h2⟩
    | some r =>
      rw [hs] at h hl
      obtain ⟨p, h1, h⟩ := bind_ok.mp h
      obtain ⟨t, h2, h⟩ := bind_ok.mp h
      obtain ⟨ps, h3, rfl⟩ := othersTsv_ok.mp h2
      exact ⟨_, p :: ps, hl, .cons h1 h3, (pure_ok.mp h).symm⟩
  · rintro ⟨l, parts, h1, h2, rfl⟩
    rw [listed_unique h1 hl] at h2
    rw [Printer.variantsTsv]
    cases hs : selectedResult sel rs with
    | none =>
      rw [hs] at h2
      exact othersTsv_ok.mpr ⟨parts, h2, rfl⟩
    | some r =>
      rw [hs] at h2
      cases h2 with
      | cons h3 h4 =>
        exact bind_ok.mpr ⟨_, h3, bind_ok.mpr ⟨_, othersTsv_ok.mpr ⟨_, h4, rfl⟩, pure_ok.mpr rfl⟩⟩

theorem variantsJson_ok {o : Printer} {sel : Option Nat} {rs : List VariantResult} {s : List Char} :
    o.variantsJson sel rs = .ok s ↔ ∃ l parts, Listed rs sel l ∧
      List.Forall₂ (fun r p => o.resultJson r = .ok p) l parts ∧
      s = ",\n".toList.intercalate parts := by
  have hl := skipAt_listed (variants := rs) (selected := sel)
  constructor
  · intro h
    rw [Printer.variantsJson] at h
    cases hs : selectedResult sel rs with
    | none =>
      rw [hs] at h hl
      obtain ⟨parts, h1, h2⟩ := othersJson_ok.mp h
      exact ⟨_, parts, hl, h1, h2⟩
    | some r =>
      rw [hs] at h hl
      obtain ⟨p, h1, h⟩ := bind_ok.mp h
      obtain ⟨t, h2, h⟩ := bind_ok.mp h
      obtain ⟨ps, h3, rfl⟩ := othersJson_ok.mp h2
      refine ⟨_, p :: ps, hl, .cons h1 h3, ?_⟩
      rw [intercalate_cons_prefixed]
      exact (pure_ok.mp h).symm
  · rintro ⟨l, parts, h1, h2, rfl⟩
    rw [listed_unique h1 hl] at h2
    rw [Printer.variantsJson]
    cases hs : selectedResult sel rs with
    | none =>
      rw [hs] at h2
      exact othersJson_ok.mpr ⟨parts, h2, rfl⟩
    | some r =>
      rw [hs] at h2
      cases h2 with
      | cons h3 h4 =>
        refine bind_ok.mpr ⟨_, h3, bind_ok.mpr ⟨_, othersJson_ok.mpr ⟨_, h4, rfl⟩, pure_ok.mpr ?_⟩⟩
        rw [intercalate_cons_prefixed]; rfl

/-! ## Query mode -/

/-- The input together with what is found. -/
def paired (find : List Char → Res (List VariantResult)) (input : List Char) :
    Res (List Char × List VariantResult) := do
  let vs ← find input
  return (input, vs)

theorem process_some {o : Printer} {find : List Char → Res (List VariantResult)} {json : Bool} {n : Nat}
    {lines : List (Option (List Char))} {out : List Char} :
    o.process find json n lines = .ok out ↔
      ∃ ps, collectSeq (paired find) (readable lines) = .ok ps ∧ o.printBatch json n ps = .ok out := by
  induction lines generalizing n out with
  | nil =>
    simp only [Printer.process, readable, List.filterMap_nil, collectSeq]
    constructor
    · rintro h; exact ⟨[], rfl, h⟩
    · rintro ⟨ps, h, h'⟩; cases h; exact h'
  | cons line lines ih =>
    cases line with
    | none => simpa [Printer.process, readable] using ih
    | some line =>
      have hr : readable (some line :: lines) = line :: readable lines := rfl
      rw [Printer.process, hr, collectSeq]
      constructor
      · intro h
        obtain ⟨vs, h1, h⟩ := bind_ok.mp h
        obtain ⟨s, h2, h⟩ := bind_ok.mp h
        obtain ⟨t, h3, h⟩ := bind_ok.mp h
        obtain ⟨ps, h4, h5⟩ := ih.mp h3
        refine ⟨(line, vs) :: ps, bind_ok.mpr ⟨(line, vs), ?_, bind_ok.mpr ⟨ps, h4, rfl⟩⟩, ?_⟩
        · exact bind_ok.mpr ⟨vs, h1, rfl⟩
        · exact bind_ok.mpr ⟨s, h2, bind_ok.mpr ⟨t, h5, h⟩⟩
      · rintro ⟨_, h, h'⟩
        obtain ⟨p, h1, h⟩ := bind_ok.mp h
        obtain ⟨ps, h4, h⟩ := bind_ok.mp h
        obtain ⟨vs, h5, h6⟩ := bind_ok.mp h1
        cases pure_ok.mp h6
        cases pure_ok.mp h
        obtain ⟨s, h2, h'⟩ := bind_ok.mp h'
        obtain ⟨t, h3, h'⟩ := bind_ok.mp h'
        exact bind_ok.mpr ⟨vs, h5, bind_ok.mpr ⟨s, h2, bind_ok.mpr ⟨t, ih.mpr ⟨ps, h4, h3⟩, h'⟩⟩⟩

theorem printBatch_append {o : Printer} {json : Bool} {n : Nat}
    {ps qs : List (List Char × List VariantResult)} {out : List Char} :
    o.printBatch json n (ps ++ qs) = .ok out ↔
      ∃ s t, o.printBatch json n ps = .ok s ∧ o.printBatch json (n + ps.length) qs = .ok t ∧
        out = s ++ t := by
  induction ps generalizing n out with
  | nil =>
    simp only [List.nil_append, Printer.printBatch, List.length_nil, Nat.add_zero]
    constructor
    · intro h; exact ⟨[], out, rfl, h, rfl⟩
    · rintro ⟨s, t, h1, h2, rfl⟩; cases h1; exact h2
  | cons p ps ih =>
    obtain ⟨input, vs⟩ := p
    simp only [List.cons_append, Printer.printBatch, List.length_cons]
    rw [show n + (ps.length + 1) = n + 1 + ps.length by omega]
    constructor
    · intro h
      obtain ⟨s, h1, h⟩ := bind_ok.mp h
      obtain ⟨t, h2, h⟩ := bind_ok.mp h
      obtain ⟨s', t', h3, h4, rfl⟩ := ih.mp h2
      cases pure_ok.mp h
      exact ⟨s ++ s', t', bind_ok.mpr ⟨s, h1, bind_ok.mpr ⟨s', h3, rfl⟩⟩, h4, by simp⟩
    · rintro ⟨s, t, h1, h2, rfl⟩
      obtain ⟨s1, h3, h1⟩ := bind_ok.mp h1
      obtain ⟨s2, h4, h1⟩ := bind_ok.mp h1
      cases pure_ok.mp h1
      exact bind_ok.mpr ⟨s1, h3, bind_ok.mpr ⟨_, ih.mpr ⟨s2, t, h4, h2, rfl⟩, pure_ok.mpr (by simp)⟩⟩

theorem collectSeq_append {α β : Type} {f : α → Res β} {l l' : List α} {out : List β} :
    collectSeq f (l ++ l') = .ok out ↔
      ∃ s t, collectSeq f l = .ok s ∧ collectSeq f l' = .ok t ∧ out = s ++ t := by
  induction l generalizing out with
  | nil =>
    simp only [List.nil_append, collectSeq]
    constructor
    · intro h; exact ⟨[], out, rfl, h, rfl⟩
    · rintro ⟨s, t, h1, h2, rfl⟩; cases h1; exact h2
  | cons a l ih =>
    simp only [List.cons_append, collectSeq]
    constructor
    · intro h
      obtain ⟨b, h1, h⟩ := bind_ok.mp h
      obtain ⟨r, h2, h⟩ := bind_ok.mp h
      obtain ⟨s, t, h3, h4, rfl⟩ := ih.mp h2
      cases pure_ok.mp h
      exact ⟨b :: s, t, bind_ok.mpr ⟨b, h1, bind_ok.mpr ⟨s, h3, rfl⟩⟩, h4, rfl⟩
    · rintro ⟨s, t, h1, h2, rfl⟩
      obtain ⟨b, h3, h1⟩ := bind_ok.mp h1
      obtain ⟨s', h4, h1⟩ := bind_ok.mp h1
      cases pure_ok.mp h1
      exact bind_ok.mpr ⟨b, h3, bind_ok.mpr ⟨_, ih.mpr ⟨s', t, h4, h2, rfl⟩, rfl⟩⟩

theorem readBatch_some (n : Nat) (ls : List (List Char)) :
    readBatch n (ls.map some) = .ok (ls.take n, (ls.drop n).map some, decide (ls.length < n)) := by
  induction n generalizing ls with
  | zero => simp [readBatch]
  | succ n ih =>
    cases ls with
    | nil => simp [readBatch]
    | cons l ls =>
      simp only [List.map_cons, readBatch, ih]
      simp [bind, Except.bind, pure, Except.pure]

theorem parLoop_ok {o : Printer} {find : List Char → Res (List VariantResult)} {sched : Nat → List Nat}
    (hs : ∀ n, (sched n).Perm (List.range n)) {json : Bool} {fuel n : Nat} {ls : List (List Char)}
    (hf : ls.length < fuel) {out : List Char} :
    o.parLoop find sched json fuel n (ls.map some) = .ok out ↔
      ∃ ps, collectSeq (paired find) ls = .ok ps ∧ o.printBatch json n ps = .ok out := by
  induction fuel generalizing n ls out with
  | zero => omega
  | succ fuel ih =>
    rw [Printer.parLoop, readBatch_some]
    simp only [bind, Except.bind]
    have hpar : ∀ l, collectPar (fun input => do let vs ← find input; return (input, vs))
        (sched (ls.take maxBatchsize).length) (ls.take maxBatchsize) = .ok l ↔
        collectSeq (paired find) (ls.take maxBatchsize) = .ok l := fun l => collectPar_perm (hs _)
    have hrest : (ls.drop maxBatchsize).length < fuel ∨ ls.length < maxBatchsize := by
      rw [List.length_drop]
      have : maxBatchsize = 1000 := rfl
      omega
    constructor
    · intro h
      obtain ⟨qs, h1, h⟩ := bind_ok.mp h
      obtain ⟨s, h2, h⟩ := bind_ok.mp h
      have h1 := (hpar _).mp h1
      by_cases he : ls.length < maxBatchsize
      · rw [if_pos (by simpa using he)] at h
        rw [List.take_of_length_le (by omega)] at h1
        exact ⟨qs, h1, by rw [h2]; exact h⟩
      · rw [if_neg (by simpa using he)] at h
        obtain ⟨t, h3, h⟩ := bind_ok.mp h
        obtain ⟨ps, h4, h5⟩ := (ih (hrest.resolve_right he)).mp h3
        cases pure_ok.mp h
        refine ⟨qs ++ ps, ?_, printBatch_append.mpr ⟨s, t, h2, h5, rfl⟩⟩
        rw [← List.take_append_drop maxBatchsize ls]
        exact collectSeq_append.mpr ⟨qs, ps, h1, h4, rfl⟩
    · rintro ⟨ps, h1, h2⟩
      by_cases he : ls.length < maxBatchsize
      · refine bind_ok.mpr ⟨ps, (hpar _).mpr ?_, bind_ok.mpr ⟨out, h2, ?_⟩⟩
        · rwa [List.take_of_length_le (by omega)]
        · rw [if_pos (by simpa using he)]; rfl
      · rw [← List.take_append_drop maxBatchsize ls] at h1
        obtain ⟨qs, rs, h3, h4, rfl⟩ := collectSeq_append.mp h1
        obtain ⟨s, t, h5, h6, rfl⟩ := printBatch_append.mp h2
        refine bind_ok.mpr ⟨qs, (hpar _).mpr h3, bind_ok.mpr ⟨s, h5, ?_⟩⟩
        rw [if_neg (by simpa using he)]
        exact bind_ok.mpr ⟨t, (ih (hrest.resolve_right he)).mpr ⟨rs, h4, h6⟩, rfl⟩

/-! ## Search mode -/

theorem intercalate_append_single {sep : List Char} {pre : List (List Char)} {l : List Char}
    (h : pre ≠ []) : sep.intercalate (pre ++ [l]) = sep.intercalate pre ++ sep ++ l := by
  induction pre with
  | nil => exact absurd rfl h
  | cons p pre ih =>
    cases pre with
    | nil => simp [List.intercalate, List.intersperse]
    | cons q pre =>
      have := ih (by simp)
      simp only [List.cons_append] at *
      rw [intercalate_cons_prefixed, intercalate_cons_prefixed] at *
      simp only [prefixed, List.map_cons, List.map_append, List.flatten_cons, List.flatten_append] at *
      simp

theorem searchBatch_spec {sep : Char} {perLine : Bool} {n i : Nat} {pre : List (List Char)}
    {lines : List (Option (List Char))} (hpre : pre.length = i) :
    ∃ g rest, searchBatch sep perLine n i ([sep].intercalate pre) lines =
        ([sep].intercalate (pre ++ g), rest) ∧
      ((rest.2 = true ∧ untilError lines = g ∧ g.length < n ∧ (∀ l ∈ g, l ≠ []) ∧
          (perLine → g = [])) ∨
        (rest.2 = false ∧ lines = g.map some ++ rest.1 ∧ g.length ≤ n ∧ (∀ l ∈ g.dropLast, l ≠ []) ∧
          (perLine → g.length ≤ 1) ∧
          (g.length = n ∨ ∃ g' l, g = g' ++ [l] ∧ (l = [] ∨ perLine)))) := by
  induction n generalizing i pre lines with
  | zero =>
    exact ⟨[], (lines, false), by simp [searchBatch], .inr ⟨rfl, by simp, by simp, by simp, by simp, .inl rfl⟩⟩
  | succ n ih =>
    cases lines with
    | nil =>
      exact ⟨[], ([], true), by simp [searchBatch], .inl ⟨rfl, rfl, by simp, by simp, by simp⟩⟩
    | cons line lines =>
      cases line with
      | none =>
        exact ⟨[], (lines, true), by simp [searchBatch], .inl ⟨rfl, rfl, by simp, by simp, by simp⟩⟩
      | some input =>
        have hb : (if i > 0 then [sep].intercalate pre ++ [sep] else [sep].intercalate pre) ++ input =
            [sep].intercalate (pre ++ [input]) := by
          by_cases h0 : pre = []
          · have : ¬ i > 0 := by rw [h0] at hpre; simp at hpre; omega
            rw [if_neg this, h0]
            simp [List.intercalate]
          · have : i > 0 := by rw [← hpre]; exact List.length_pos_iff.mpr h0
            rw [if_pos this, intercalate_append_single h0]
        simp only [searchBatch, hb]
        by_cases hstop : input = [] ∨ perLine = true
        · rw [if_pos (by simpa using hstop)]
          refine ⟨[input], (lines, false), rfl, .inr ⟨rfl, rfl, by simp, by simp, by simp, .inr ⟨[], input, rfl, hstop⟩⟩⟩
        · rw [if_neg (by simpa using hstop)]
          simp only [not_or] at hstop
          obtain ⟨g, rest, h1, h2⟩ := ih (i := i + 1) (pre := pre ++ [input]) (lines := lines) (by simp [hpre])
          refine ⟨input :: g, rest, by simpa using h1, ?_⟩
          rcases h2 with ⟨h3, h4, h5, h6, h7⟩ | ⟨h3, h4, h5, h6, h7, h8⟩
          · refine .inl ⟨h3, by rw [← h4]; rfl, by simpa using h5, ?_, fun h => absurd h hstop.2⟩
            intro l hl
            rcases List.mem_cons.mp hl with rfl | hl
            · exact hstop.1
            · exact h6 l hl
          · refine .inr ⟨h3, by rw [h4]; rfl, by simpa using h5, ?_, fun h => absurd h hstop.2, ?_⟩
            · intro l hl
              cases g with
              | nil => simp at hl
              | cons a g =>
                rw [List.dropLast_cons_cons, List.mem_cons] at hl
                rcases hl with rfl | hl
                · exact hstop.1
                · exact h6 l hl
            · rcases h8 with h8 | ⟨g', l, rfl, h8⟩
              · exact .inl (by simp [h8])
              · exact .inr ⟨input :: g', l, rfl, h8⟩

theorem untilError_map_append (g : List (List Char)) (rest : List (Option (List Char))) :
    untilError (g.map some ++ rest) = g ++ untilError rest := by
  induction g with
  | nil => rfl
  | cons l g ih =>
    simp only [untilError, List.map_cons, List.cons_append, List.takeWhile_cons, Option.isSome_some,
      if_true, List.filterMap_cons, id] at *
    rw [ih]

theorem searchBatches_spec {sep : Char} {perLine : Bool} {fuel : Nat}
    {lines : List (Option (List Char))} (hf : lines.length < fuel) :
    ∃ gs, Groups perLine (untilError lines) gs ∧
      searchBatches sep perLine fuel lines = some (gs.map [sep].intercalate) := by
  induction fuel generalizing lines with
  | zero => omega
  | succ fuel ih =>
    obtain ⟨g, ⟨rest, eof⟩, h1, h2⟩ := searchBatch_spec (sep := sep) (perLine := perLine)
      (n := maxBatchsizeSearch) (i := 0) (pre := []) (lines := lines) rfl
    rw [searchBatches]
    have h0 : [sep].intercalate ([] : List (List Char)) = [] := rfl
    rw [h0] at h1
    simp only [h1, List.nil_append]
    rcases h2 with ⟨h3, h4, h5, h6, h7⟩ | ⟨h3, h4, h5, h6, h7, h8⟩
    · simp only at h3
      rw [h4, if_pos h3]
      exact ⟨[g], .last h5 h6 h7, rfl⟩
    · simp only at h3 h4
      rw [if_neg (by simp [h3])]
      have hg : g ≠ [] := by
        rcases h8 with h8 | ⟨g', l, rfl, _⟩
        · intro hn; rw [hn] at h8; simp [maxBatchsizeSearch] at h8
        · simp
      obtain ⟨g', l, rfl⟩ : ∃ g' l, g = g' ++ [l] := ⟨g.dropLast, g.getLast hg, (List.dropLast_append_getLast hg).symm⟩
      have hlen : rest.length < fuel := by
        rw [h4] at hf
        simp at hf
        omega
      obtain ⟨gs, h9, h10⟩ := ih hlen
      refine ⟨(g' ++ [l]) :: gs, ?_, by rw [h10]; rfl⟩
      rw [h4, untilError_map_append, List.append_assoc]
      refine .full (by simpa [maxBatchsizeSearch] using h5) (by simpa using h6) ?_ ?_ h9
      · intro hp
        have := h7 hp
        simpa using this
      · rcases h8 with h8 | ⟨g'', l', he, h8⟩
        · exact .inl (by simpa [maxBatchsizeSearch] using h8)
        · obtain ⟨_, rfl⟩ := List.append_singleton_inj.mp he
          exact .inr h8

end Verif.Lemmas
