import Verif.Spec.PyWeights
import Verif.Props.Python
import Verif.Props.Options

/-!
# Weights and attributes in Python (C129)
-/
namespace Verif.Props

open Verif.Spec Verif.Model

/-- **C129**: the weights are those the keyword arguments ask for. -/
theorem py_weights {f64 : Rounding} {kwargs : List (PyWeightKey × PyVal)} (hd : (kwargs.map (·.1)).Nodup)
    {w : PyWeights} : newWeights f64 kwargs = w ↔ WeightArguments f64 kwargs w := by
  have F : ∀ (g : PyWeights → EFloat) (k : PyWeightKey)
      (_ : ∀ p v, g (PyWeights.set f64 p k v) = (v.asF64 f64).getD (g p))
      (_ : ∀ p k' v, k' ≠ k → g (PyWeights.set f64 p k' v) = g p) (r : EFloat),
      g (newWeights f64 kwargs) = r ↔ Argument kwargs k (Double f64) (g .default) r := by
    intro g k hset hother r
    exact (argument_fold hd (PyWeights.set f64) g k _ hset hother .default r).trans
      (argument_congr fun v a => asF64_iff)
  have h1 := F (·.ld) .ld (fun p v => by simp only [PyWeights.set]; cases v.asF64 f64 <;> rfl)
    (fun p k v hk => by cases k <;> first | exact absurd rfl hk | rfl | (simp only [PyWeights.set]; cases v.asF64 f64 <;> rfl))
  have h2 := F (·.lcs) .lcs (fun p v => by simp only [PyWeights.set]; cases v.asF64 f64 <;> rfl)
    (fun p k v hk => by cases k <;> first | exact absurd rfl hk | rfl | (simp only [PyWeights.set]; cases v.asF64 f64 <;> rfl))
  have h3 := F (·.pre) .prefix (fun p v => by simp only [PyWeights.set]; cases v.asF64 f64 <;> rfl)
    (fun p k v hk => by cases k <;> first | exact absurd rfl hk | rfl | (simp only [PyWeights.set]; cases v.asF64 f64 <;> rfl))
  have h4 := F (·.suf) .suffix (fun p v => by simp only [PyWeights.set]; cases v.asF64 f64 <;> rfl)
    (fun p k v hk => by cases k <;> first | exact absurd rfl hk | rfl | (simp only [PyWeights.set]; cases v.asF64 f64 <;> rfl))
  have h5 := F (·.case) .case (fun p v => by simp only [PyWeights.set]; cases v.asF64 f64 <;> rfl)
    (fun p k v hk => by cases k <;> first | exact absurd rfl hk | rfl | (simp only [PyWeights.set]; cases v.asF64 f64 <;> rfl))
  constructor
  · rintro rfl
    exact ⟨(h1 _).mp rfl, (h2 _).mp rfl, (h3 _).mp rfl, (h4 _).mp rfl, (h5 _).mp rfl⟩
  · intro h
    have e1 := (h1 _).mpr h.ld
    have e2 := (h2 _).mpr h.lcs
    have e3 := (h3 _).mpr h.pre
    have e4 := (h4 _).mpr h.suf
    have e5 := (h5 _).mpr h.case
    generalize newWeights f64 kwargs = q at *
    cases w
    cases q
    simp only at e1 e2 e3 e4 e5
    simp only [*]

/-- **C129**: the dictionary of weights, given as keyword arguments, gives the weights again. -/
theorem weights_read_back (f64 : Rounding) (w : PyWeights) : newWeights f64 w.toDict = w := rfl

/-- **C129**: an assignment raises an exception exactly when the attribute is a weight and the value is no
number; otherwise it changes this weight only. -/
theorem weights_assign {f64 : Rounding} {w w' : PyWeights} {k : PyWeightKey} {v : PyVal} :
    w.assign f64 k v = some w' ↔
      ((∃ s, k = .other s) ∧ w' = w) ∨
      ∃ q, Double f64 v q ∧
        ((k = .ld ∧ w' = { w with ld := q }) ∨ (k = .lcs ∧ w' = { w with lcs := q }) ∨
         (k = .prefix ∧ w' = { w with pre := q }) ∨ (k = .suffix ∧ w' = { w with suf := q }) ∨
         (k = .case ∧ w' = { w with case := q })) := by
  cases k <;> simp [PyWeights.assign, asF64_iff, Option.map_eq_some_iff, eq_comm (a := w')]

/-- **C129**: the keyword arguments that stand for the options of a command line give the weights that the
command line asks for; so the default weights are the same. -/
theorem weights_as_python {parseF64 : List Char → Option EFloat} (f64 : Rounding)
    (h5 : parseF64 "0.5".toList = some (.fin (1 / 2))) (h125 : parseF64 "0.125".toList = some (.fin (1 / 8)))
    {c : CommandLine} {kwargs : List (PyWeightKey × PyVal)}
    (hk : WeightKeywords parseF64 c kwargs) {ld lcs pre suf case : EFloat}
    (hw : WeightRequest parseF64 c ld lcs pre suf case) :
    newWeights f64 kwargs = ⟨ld, lcs, pre, suf, case⟩ := by
  have key : ∀ {o : OptName} {k : PyWeightKey} {d : List Char} {q r : EFloat}, weightKey o = some k →
      (∀ o', weightKey o' = some k → o' = o) → parseF64 d = some q →
      (∃ v, InForce c o d v ∧ parseF64 v = some r) → Argument kwargs k (Double f64) q r := by
    rintro o k d q r hok huniq hd ⟨v, hv, hr⟩
    rcases hv with hv | ⟨hv, rfl⟩
    · exact .inl ⟨.float r, (hk.2 _ _).mpr ⟨o, v, r, hv, hok, hr, rfl⟩, .float⟩
    · refine .inr ⟨?_, ?_⟩
      · intro u hu
        obtain ⟨o', s, _, hg, ho', _⟩ := (hk.2 _ _).mp hu
        rw [huniq o' ho'] at hg
        exact absurd ⟨s, hg⟩ hv
      · rw [hd] at hr
        exact (Option.some.inj hr).symm
  refine (py_weights hk.1).mpr ⟨key (o := .weightLd) rfl ?_ h5 hw.ld, key (o := .weightLcs) rfl ?_ h125 hw.lcs,
    key (o := .weightPrefix) rfl ?_ h125 hw.pre, key (o := .weightSuffix) rfl ?_ h125 hw.suf,
    key (o := .weightCase) rfl ?_ h125 hw.case⟩ <;>
    (intro o' h; cases o' <;> first | rfl | cases h)

/-- **C129**: an assignment to an attribute of vocabulary parameters changes this attribute only, and raises an
exception exactly when the value does not convert.  Only the column of frequencies can be `None`. -/
theorem vocab_assign {p p' : VocabParams} {k : PyVocabKey} {v : PyVal} :
    assignVocab p k v = some p' ↔
      ((k = .freqhandling ∨ k = .vocabtype ∨ ∃ s, k = .other s) ∧ p' = p) ∨
      (k = .freqColumn ∧ v = .none ∧ p' = { p with freqColumn := none }) ∨
      ∃ n, Natural 255 v n ∧ ((k = .textColumn ∧ p' = { p with textColumn := n }) ∨
        (k = .freqColumn ∧ p' = { p with freqColumn := some n }) ∨ (k = .index ∧ p' = { p with index := n })) := by
  have hn : ∀ n, ¬ Natural 255 .none n := by
    intro n h
    have := asUnsigned_iff.mpr h
    cases this
  cases k <;> cases v <;>
    simp [assignVocab, asUnsigned_iff, hn, Option.map_eq_some_iff, eq_comm (a := p')]

/-- **C129**: no keyword arguments make a vocabulary without column of frequencies, but an assignment does. -/
theorem no_frequencies_by_assignment :
    (∀ kwargs p, newVocabParams kwargs = some p → p.freqColumn ≠ none) ∧
    ∀ p, ∃ p', assignVocab p .freqColumn .none = some p' ∧ p'.freqColumn = none := by
  refine ⟨?_, fun p => ⟨_, rfl, rfl⟩⟩
  intro kwargs p h
  have step : ∀ (p : VocabParams) k v q, setVocabParam p k v = some q → p.freqColumn ≠ none →
      q.freqColumn ≠ none := by
    intro p k v q h hp
    cases k <;> simp only [setVocabParam] at h
    · cases h; cases v.asUnsigned 255 <;> exact hp
    · cases h
      cases v.asUnsigned 255 with
      | none => exact hp
      | some n => simp [Option.elim]
    · cases h; cases v.asUnsigned 255 <;> exact hp
    · cases v <;> simp at h
      cases h; cases pyHandling _ <;> exact hp
    · cases v <;> simp at h
      cases h; cases pyVocabType _ <;> exact hp
    · cases h; exact hp
  unfold newVocabParams at h
  have : ∀ (l : List (PyVocabKey × PyVal)) (p q : VocabParams), p.freqColumn ≠ none →
      l.foldlM (fun p a => setVocabParam p a.1 a.2) p = some q → q.freqColumn ≠ none := by
    intro l
    induction l with
    | nil => intro p q hp h; cases h; exact hp
    | cons a l ih =>
      intro p q hp h
      rw [List.foldlM_cons] at h
      obtain ⟨p1, h1, h2⟩ := Option.bind_eq_some_iff.mp h
      exact ih p1 q (step _ _ _ _ h1 hp) h2
  exact this kwargs {} p (by decide) h

/-! ### Examples -/

/-- `Weights(ld=1, case=True, lcs="x", foo=0.5)` -/
def exWeightArgs : List (PyWeightKey × PyVal) :=
  [(.ld, .int 1), (.case, .bool true), (.lcs, .str ['x']), (.other "foo".toList, .float (.fin (1 / 2)))]

example : newWeights .exact exWeightArgs = ⟨.fin 1, .fin (1 / 8), .fin (1 / 8), .fin (1 / 8), .fin 1⟩ ∧
    WeightArguments .exact exWeightArgs ⟨.fin 1, .fin (1 / 8), .fin (1 / 8), .fin (1 / 8), .fin 1⟩ := by
  have h : newWeights .exact exWeightArgs = ⟨.fin 1, .fin (1 / 8), .fin (1 / 8), .fin (1 / 8), .fin 1⟩ := by
    decide +kernel
  exact ⟨h, (py_weights (by decide)).mp h⟩

example : newWeights .exact (newWeights .exact exWeightArgs).toDict = newWeights .exact exWeightArgs :=
  weights_read_back _ _

/-- `w.lcs = "x"` is an exception, `w.lcs = 2` is not. -/
example : (newWeights .exact exWeightArgs).assign .exact .lcs (.str ['x']) = none ∧
    (newWeights .exact exWeightArgs).assign .exact .lcs (.int 2) =
      some ⟨.fin 1, .fin 2, .fin (1 / 8), .fin (1 / 8), .fin 1⟩ := by decide +kernel

/-- `--weight-ld 0.0`, and `Weights(ld=0.0)` -/
example : newWeights .exact [(.ld, .float (.fin 0))] =
    ⟨.fin 0, .fin (1 / 8), .fin (1 / 8), .fin (1 / 8), .fin (1 / 8)⟩ := by
  let parse : List Char → Option EFloat := fun s =>
    if s = "0.5".toList then some (.fin (1 / 2)) else if s = "0.125".toList then some (.fin (1 / 8))
    else if s = "0.0".toList then some (.fin 0) else none
  let c : CommandLine := ⟨.query, [(.alphabet, ['a']), (.weightLd, "0.0".toList)], none⟩
  have absent : ∀ o, o ≠ OptName.weightLd → o ≠ .alphabet → ¬ Given c o := by
    rintro o h1 h2 ⟨v, hv⟩
    simp only [c, List.mem_cons, Prod.mk.injEq, List.not_mem_nil, or_false] at hv
    rcases hv with ⟨h, _⟩ | ⟨h, _⟩
    · exact h2 h
    · exact h1 h
  refine weights_as_python (parseF64 := parse) .exact (by decide +kernel) (by decide +kernel) (c := c) ?_
    ⟨⟨"0.0".toList, .inl (by decide), by decide +kernel⟩,
      ⟨_, .inr ⟨absent _ (by decide) (by decide), rfl⟩, by decide +kernel⟩,
      ⟨_, .inr ⟨absent _ (by decide) (by decide), rfl⟩, by decide +kernel⟩,
      ⟨_, .inr ⟨absent _ (by decide) (by decide), rfl⟩, by decide +kernel⟩,
      ⟨_, .inr ⟨absent _ (by decide) (by decide), rfl⟩, by decide +kernel⟩⟩
  refine ⟨by decide, fun k v => ?_⟩
  constructor
  · intro h
    cases List.mem_singleton.mp h
    exact ⟨.weightLd, "0.0".toList, .fin 0, by decide, rfl, by decide +kernel, rfl⟩
  · rintro ⟨o, s, q, hg, hk, hq, rfl⟩
    simp only [c, List.mem_cons, Prod.mk.injEq, List.not_mem_nil, or_false] at hg
    rcases hg with ⟨rfl, rfl⟩ | ⟨rfl, rfl⟩
    · cases hk
    · cases hk
      have : q = .fin 0 := by
        have h : parse "0.0".toList = some (.fin 0) := by decide +kernel
        rw [h] at hq
        exact (Option.some.inj hq).symm
      rw [this]
      exact List.mem_singleton.mpr rfl

/-- `p.index = 300` and `p.text_column = None` are exceptions. -/
example : assignVocab {} .index (.int 300) = none ∧ assignVocab {} .textColumn .none = none ∧
    assignVocab {} .index (.int 30) = some { index := 30 } ∧
    newVocabParams [(.freqColumn, .none)] = some {} := by decide +kernel

end Verif.Props
