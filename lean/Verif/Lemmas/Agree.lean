import Verif.Props.Search
import Verif.Model.LearnSearch

/-!
# What does not matter for the results: the order of the secondary index and of the lookups
-/
namespace Verif.Lemmas

open Verif.Spec Verif.Model Verif.Props

/-- The extension with another order of the lookups. -/
def withLookups (x : TextExt) (lo : LookupOrder) : TextExt :=
  { x with toExt := { x.toExt with lookups := lo } }

theorem lookupLoop_sorted {s s' : HMap Nat (List Nat)} (hs : ∀ n, HMap.get? s n = HMap.get? s' n)
    (l : List (Nat × List Nat)) (nearest : List Nat) : lookupLoop s l nearest = lookupLoop s' l nearest := by
  induction l generalizing nearest with
  | nil => rfl
  | cons a l ih =>
    obtain ⟨k, vs⟩ := a
    simp only [lookupLoop, hs]
    cases HMap.get? s' k with
    | none => exact ih _
    | some c =>
      simp only [bind, Except.bind]
      cases insertionCandidates vs c nearest with
      | error e => rfl
      | ok n => exact ih _

variable (m : Vm) (s : HMap Nat (List Nat))

theorem gatherNode_sorted (isLower : Char → Bool) (w : Weights) (qs : List Nat) (q : List Char) (d : Nat)
    (ids : List Nat) :
    Vm.gatherNode { m with sortedindex := s } isLower w qs q d ids = m.gatherNode isLower w qs q d ids := by
  induction ids with
  | nil => rfl
  | cons id ids ih => simp only [Vm.gatherNode, ih]

theorem gatherInstances_sorted (isLower : Char → Bool) (w : Weights) (qs : List Nat) (q : List Char)
    (d : Nat) (hs : List Nat) :
    Vm.gatherInstances { m with sortedindex := s } isLower w qs q d hs =
      m.gatherInstances isLower w qs q d hs := by
  induction hs with
  | nil => rfl
  | cons h hs ih => simp only [Vm.gatherInstances, gatherNode_sorted, ih]

theorem scoreLoop_sorted (r : Rounding) (w : Weights) (len : Nat) (t : Rat) (l : List (Nat × Distance))
    (rs : List VariantResult) (mf : Rat) (e : Bool) :
    Vm.scoreLoop { m with sortedindex := s } r w len t l rs mf e = m.scoreLoop r w len t l rs mf e := by
  induction l generalizing rs mf e with
  | nil => rfl
  | cons a l ih =>
    obtain ⟨id, d⟩ := a
    simp only [Vm.scoreLoop, ih]

theorem expandRefs_sorted (r : Rounding) (x : VariantResult) (refs : List VariantReference) :
    Vm.expandRefs { m with sortedindex := s } r x refs = m.expandRefs r x refs := by
  induction refs with
  | nil => rfl
  | cons a refs ih => cases a <;> simp only [Vm.expandRefs, ih]

theorem expandVariants_sorted (r : Rounding) (l : List VariantResult) :
    Vm.expandVariants { m with sortedindex := s } r l = m.expandVariants r l := by
  induction l with
  | nil => rfl
  | cons a l ih => simp only [Vm.expandVariants, expandRefs_sorted, ih]

theorem findVariants_sorted (hs : ∀ n, HMap.get? s n = HMap.get? m.sortedindex n) (x : Ext) (cfg : Config)
    (p : Params) (input : List Char) :
    Vm.findVariants { m with sortedindex := s } x cfg p input = m.findVariants x cfg p input := by
  simp only [Vm.findVariants, Vm.findCandidates, Vm.findNearestAnahashes, Vm.exhaustiveSearch,
    lookupLoop_sorted hs, gatherInstances_sorted, Vm.scoreAndRank, scoreLoop_sorted, Vm.rankExpanded,
    expandVariants_sorted, stopsEarly, Vm.alphabetSize]
  rfl

/-! ## Search in text -/

theorem symbolTokens_sorted (isSpace : Char → Bool) (bs : List Match) (os : List OutputSymbol) :
    Vm.symbolTokens { m with sortedindex := s } isSpace bs os = m.symbolTokens isSpace bs os := by
  induction os with
  | nil => rfl
  | cons o os ih =>
    simp only [Vm.symbolTokens, Vm.wordTokens, Vm.itemTokens, Vm.boundaryTokens, intoNgram_sorted, ih]

variable (x : TextExt) (lo : LookupOrder)

theorem lmTokensLoop_sorted (ts : List (Option Nat)) (lp : EFloat) (n : Nat) :
    Vm.lmTokensLoop { m with sortedindex := s } (withLookups x lo) ts lp n = m.lmTokensLoop x ts lp n := by
  induction ts generalizing lp n with
  | nil => rfl
  | cons a ts ih =>
    cases ts with
    | nil => rfl
    | cons b ts =>
      simp only [Vm.lmTokensLoop, ih]
      rfl

theorem lmScore_sorted (os : List OutputSymbol) (bs : List Match) :
    Vm.lmScore { m with sortedindex := s } (withLookups x lo) os bs = m.lmScore x os bs := by
  simp only [Vm.lmScore, symbolTokens_sorted, Vm.lmScoreTokens, lmTokensLoop_sorted]
  rfl

theorem sequencesOf_sorted (cfg : TextConfig) (p : TextParams) (bs : List Match)
    (syms : List OutputSymbol) (paths : List FstPath) :
    Vm.sequencesOf { m with sortedindex := s } (withLookups x lo) cfg p bs syms paths =
      m.sequencesOf x cfg p bs syms paths := by
  induction paths with
  | nil => rfl
  | cons a paths ih =>
    simp only [Vm.sequencesOf, Vm.sequenceOf, lmScore_sorted, ih]
    rfl

omit m s in
theorem variantTrs_lookups (fw : Rat) (mi src next n vi : Nat) (vs : List VariantResult)
    (syms : List OutputSymbol) (trs : List Tr) :
    variantTrs (withLookups x lo) fw mi src next n vi vs syms trs =
      variantTrs x fw mi src next n vi vs syms trs := by
  induction vs generalizing vi syms trs with
  | nil => rfl
  | cons v vs ih =>
    simp only [variantTrs, ih]
    rfl

omit m s in
theorem matchesTrs_lookups (fw : Rat) (bs : List Match) (i : Nat) (ms : List Match)
    (syms : List OutputSymbol) (trs : List Tr) :
    matchesTrs (withLookups x lo) fw bs i ms syms trs = matchesTrs x fw bs i ms syms trs := by
  induction ms generalizing i syms trs with
  | nil => rfl
  | cons a ms ih =>
    simp only [matchesTrs, matchTrs, variantTrs_lookups, ih]
    rfl

theorem mostLikelySequence_sorted (cfg : TextConfig) (p : TextParams) (ms bs : List Match) (e : Nat) :
    Vm.mostLikelySequence { m with sortedindex := s } (withLookups x lo) cfg p ms bs e =
      m.mostLikelySequence x cfg p ms bs e := by
  simp only [Vm.mostLikelySequence, sequencesOf_sorted, buildFst, matchesTrs_lookups]
  rfl

variable (hs : ∀ n, HMap.get? s n = HMap.get? m.sortedindex n)
include hs

theorem processSegment_sorted (cfg : TextConfig) (p : TextParams) (order : Nat) (batch : List Match) :
    Vm.processSegment { m with sortedindex := s } (withLookups x lo) cfg p order batch =
      m.processSegment x cfg p order batch := by
  funext seg
  simp only [Vm.processSegment, findVariants_sorted m s hs]
  have := find_variants_order_independent m x.toExt lo cfg.toConfig p.variant seg.text
  rw [this]
  rfl

theorem gatherSegments_sorted (cfg : TextConfig) (p : TextParams) (text : List Char) (bs : List Match)
    (b e : Nat) (n : Nat) (order : Nat) (batch : List Match) :
    Vm.gatherSegments { m with sortedindex := s } (withLookups x lo) cfg p text bs b e order n batch =
      m.gatherSegments x cfg p text bs b e order n batch := by
  induction n generalizing order batch with
  | zero => rfl
  | succ n ih =>
    simp only [Vm.gatherSegments, processSegment_sorted m s x lo hs, ih]
    rfl

theorem batchLoop_sorted (cfg : TextConfig) (p : TextParams) (text : List Char) (bs : List Match)
    (l : List (Strength × Match)) (i b bi : Nat) (acc : List Match) :
    Vm.batchLoop { m with sortedindex := s } (withLookups x lo) cfg p text bs l i b bi acc =
      m.batchLoop x cfg p text bs l i b bi acc := by
  induction l generalizing i b bi acc with
  | nil => rfl
  | cons a l ih =>
    obtain ⟨st, bd⟩ := a
    simp only [Vm.batchLoop, Vm.batchMatches, gatherSegments_sorted m s x lo hs,
      mostLikelySequence_sorted, ih]

theorem findAllMatches_sorted (cfg : TextConfig) (p : TextParams) (text : List Char) :
    Vm.findAllMatches { m with sortedindex := s } (withLookups x lo) cfg p text =
      m.findAllMatches x cfg p text := by
  simp only [Vm.findAllMatches, batchLoop_sorted m s x lo hs]
  rfl

end Verif.Lemmas
