import Verif.Props.DividedAll
import Verif.Props.Ieee

/-!
# Texts divided with the arithmetic of IEEE 754 (C117)
-/
namespace Verif.Props

open Verif.Spec Verif.Model Verif.Lemmas

/-! ## Solvers that round sums -/

/-- A result of additions is a number of the format. -/
theorem added_fixed {r : Rounding} {l : List Rat} {s : Rat} (h : Added r l s) : r.rnd s = s := by
  cases h with
  | none => exact r.zero
  | one c => exact r.idem c
  | add _ _ => exact r.idem _

/-- How far sums are off: by a factor for each number. -/
theorem added_close {r : Rounding} {u : Rat} (hu0 : 0 ≤ u) (hu1 : u ≤ 1 / 2)
    (hu : ∀ y, 1 / 20 ≤ y → |r.rnd y - y| ≤ u * y) {l : List Rat} {s : Rat} (h : Added r l s)
    (hl : ∀ c ∈ l, 1 / 20 ≤ c) :
    0 ≤ l.sum ∧ (l ≠ [] → 1 / 40 ≤ s) ∧ (1 - u) ^ l.length * l.sum ≤ s ∧ s ≤ (1 + u) ^ l.length * l.sum := by
  induction h with
  | none => simp
  | one c =>
    have hc := hl c (by simp)
    have := abs_le.mp (hu c hc)
    simp only [List.sum_singleton, List.length_singleton, pow_one]
    refine ⟨by linarith, fun _ => by nlinarith, by linarith, by linarith⟩
  | @add l l' a b ha hb iha ihb =>
    obtain ⟨a0, a1, a2, a3⟩ := iha fun c hc => hl c (List.mem_append_left _ hc)
    obtain ⟨b0, b1, b2, b3⟩ := ihb fun c hc => hl c (List.mem_append_right _ hc)
    by_cases hl0 : l = []
    · subst hl0
      have : a = 0 := by
        simp only [List.sum_nil, mul_zero] at a2 a3
        linarith
      rw [this, zero_add, added_fixed hb]
      exact ⟨b0, b1, b2, b3⟩
    by_cases hl1 : l' = []
    · subst hl1
      have : b = 0 := by
        simp only [List.sum_nil, mul_zero] at b2 b3
        linarith
      rw [this, add_zero, added_fixed ha, List.append_nil]
      exact ⟨a0, a1, a2, a3⟩
    have a1 := a1 hl0
    have b1 := b1 hl1
    have hr := abs_le.mp (hu (a + b) (by linarith))
    rw [List.sum_append, List.length_append]
    have n1 := List.length_pos_iff.mpr hl0
    have n2 := List.length_pos_iff.mpr hl1
    generalize l.length = m at *
    generalize l'.length = n at *
    generalize l.sum = S at *
    generalize l'.sum = T at *
    refine ⟨by linarith, fun _ => by nlinarith, ?_, ?_⟩
    · have e1 : (1 - u) ^ (m + n) ≤ (1 - u) * (1 - u) ^ m := by
        rw [← pow_succ']
        exact pow_le_pow_of_le_one (by linarith) (by linarith) (by omega)
      have e2 : (1 - u) ^ (m + n) ≤ (1 - u) * (1 - u) ^ n := by
        rw [← pow_succ']
        exact pow_le_pow_of_le_one (by linarith) (by linarith) (by omega)
      have f1 := mul_le_mul_of_nonneg_right e1 a0
      have f2 := mul_le_mul_of_nonneg_right e2 b0
      have g1 := mul_le_mul_of_nonneg_left a2 (show 0 ≤ 1 - u by linarith)
      have g2 := mul_le_mul_of_nonneg_left b2 (show 0 ≤ 1 - u by linarith)
      nlinarith
    · have e1 : (1 + u) * (1 + u) ^ m ≤ (1 + u) ^ (m + n) := by
        rw [← pow_succ']
        exact pow_le_pow_right₀ (by linarith) (by omega)
      have e2 : (1 + u) * (1 + u) ^ n ≤ (1 + u) ^ (m + n) := by
        rw [← pow_succ']
        exact pow_le_pow_right₀ (by linarith) (by omega)
      have f1 := mul_le_mul_of_nonneg_right e1 a0
      have f2 := mul_le_mul_of_nonneg_right e2 b0
      have g1 := mul_le_mul_of_nonneg_left a3 (show 0 ≤ 1 + u by linarith)
      have g2 := mul_le_mul_of_nonneg_left b3 (show 0 ≤ 1 + u by linarith)
      nlinarith

/-- The error of a solver that adds rounded numbers, for `n` states. -/
def sumError (u τ : Rat) (n : Nat) : Rat := ((1 + u) ^ 2 / (1 - u)) ^ n * (1 + τ) - 1

/-- Walks forward have at most as many transitions as there are states ahead. -/
theorem walk_length {trs : List Tr} (hf : ∀ t ∈ trs, t.src < t.dst) : ∀ {ts : List Tr} {q q' : Nat},
    Walk trs q ts q' → q + ts.length ≤ q'
  | [], q, q', h => by cases h; simp
  | t :: ts, q, q', ⟨h1, h2, h3⟩ => by
    have := walk_length hf h3
    have := hf t h1
    simp only [List.length_cons]
    omega

/-- The sums along a path, for `n` states. -/
theorem path_close {r : Rounding} {u : Rat} (hu0 : 0 ≤ u) (hu1 : u ≤ 1 / 2)
    (hu : ∀ y, 1 / 20 ≤ y → |r.rnd y - y| ≤ u * y) {f : Fst} (hf : Regular f) {ts : List Tr} (ha : Accepting f ts)
    {s : Rat} (h : Added r (ts.map Tr.cost) s) :
    0 ≤ (ts.map Tr.cost).sum ∧ (ts ≠ [] → 0 < s) ∧ (1 - u) ^ f.states * (ts.map Tr.cost).sum ≤ s ∧
      s ≤ (1 + u) ^ f.states * (ts.map Tr.cost).sum := by
  obtain ⟨q, hq, hw⟩ := ha
  obtain ⟨h1, h2, h3, h4⟩ := added_close hu0 hu1 hu h fun c hc => by
    obtain ⟨t, ht, rfl⟩ := List.mem_map.mp hc
    exact hf.costs t (walk_mem hw t ht)
  have hlen := walk_length hf.forward hw
  have hq := hf.finals q hq
  rw [List.length_map] at h3 h4
  refine ⟨h1, fun hne => lt_of_lt_of_le (by norm_num) (h2 (by simpa using hne)), ?_, ?_⟩
  · exact le_trans (mul_le_mul_of_nonneg_right
      (pow_le_pow_of_le_one (by linarith) (by linarith) (by omega)) h1) h3
  · exact h4.trans (mul_le_mul_of_nonneg_right (pow_le_pow_right₀ (by linarith) (by omega)) h1)

/-- A solver that adds rounded numbers, in any order, makes errors of `sumError` at most. -/
theorem solverAdds_within {r : Rounding} {u τ : Rat} {solve : Fst → Nat → List FstPath} (hu0 : 0 ≤ u) (hu1 : u ≤ 1 / 2)
    (hu : ∀ y, 1 / 20 ≤ y → |r.rnd y - y| ≤ u * y) (hτ : 0 ≤ τ) (h : SolverAdds r τ solve) :
    SolverWithin (sumError u τ) solve := by
  have hR : ∀ n, ((1 + u) ^ 2 / (1 - u)) ^ n = (1 + u) ^ n * (1 + u) ^ n / (1 - u) ^ n := by
    intro n
    rw [div_pow, ← pow_mul, mul_comm 2 n, pow_mul, pow_two]
  have hP : ∀ n, 1 ≤ (1 + u) ^ n := fun n => one_le_pow₀ (by linarith)
  have hQ : ∀ n, 0 < (1 - u) ^ n := fun n => pow_pos (by linarith) n
  have hQ1 : ∀ n, (1 - u) ^ n ≤ 1 := fun n => pow_le_one₀ (by linarith) (by linarith)
  have hPR : ∀ n, (1 + u) ^ n ≤ ((1 + u) ^ 2 / (1 - u)) ^ n := by
    intro n
    rw [hR, le_div_iff₀ (hQ n)]
    have := hP n
    have := hQ1 n
    have := hQ n
    nlinarith
  have bern : ∀ a : Rat, -1 ≤ a → ∀ n : Nat, 1 + n * a ≤ (1 + a) ^ n := by
    intro a ha n
    induction n with
    | zero => simp
    | succ n ih =>
      rw [pow_succ]
      have := mul_le_mul_of_nonneg_right ih (show 0 ≤ 1 + a by linarith)
      have : 0 ≤ (n : Rat) * a ^ 2 := by positivity
      push_cast
      nlinarith
  have key : ∀ {f : Fst} {ts ts' : List Tr} {w a b : Rat}, Regular f → Accepting f ts → Accepting f ts' →
      Added r (ts'.map Tr.cost) w → Added r (ts'.map Tr.cost) a → Added r (ts.map Tr.cost) b → a ≤ b + τ →
      w ≤ (ts.map Tr.cost).sum + sumError u τ f.states * (1 + (ts.map Tr.cost).sum) := by
    intro f ts ts' w a b hf ha ha' h1 h2 h3 h4
    obtain ⟨a0, _, _, a3⟩ := path_close hu0 hu1 hu hf ha' h1
    obtain ⟨_, _, b2, _⟩ := path_close hu0 hu1 hu hf ha' h2
    obtain ⟨c0, _, _, c3⟩ := path_close hu0 hu1 hu hf ha h3
    unfold sumError
    have e := hR f.states
    have p := hP f.states
    have q := hQ f.states
    have pr := hPR f.states
    generalize ((1 + u) ^ 2 / (1 - u)) ^ f.states = R at *
    generalize (1 + u) ^ f.states = P at *
    generalize (1 - u) ^ f.states = Q at *
    generalize (ts.map Tr.cost).sum = S at *
    generalize (ts'.map Tr.cost).sum = S' at *
    have s1 : Q * S' ≤ P * (S + τ) := by nlinarith
    have s2 : w ≤ R * (S + τ) := by
      rw [e, div_mul_eq_mul_div, le_div_iff₀ q]
      have := mul_le_mul_of_nonneg_left s1 (show 0 ≤ P by linarith)
      have := mul_le_mul_of_nonneg_right a3 q.le
      nlinarith
    have : 0 ≤ R * (τ * S) := mul_nonneg (by linarith) (mul_nonneg hτ c0)
    nlinarith
  refine ⟨⟨?_, ?_⟩, ?_, ?_, ?_⟩
  · intro f n π hπ
    obtain ⟨ts, h1, h2, _⟩ := h.sound f n π hπ
    exact ⟨ts, h1, h2⟩
  · intro f n ts hn hf ha he
    obtain ⟨π, hp, _⟩ := h.best f n ts hn hf ha
    rw [he] at hp
    cases hp
  · intro f n π hf hπ
    obtain ⟨ts, h1, h2, h3⟩ := h.sound f n π hπ
    obtain ⟨a0, a1, a2, a3⟩ := path_close hu0 hu1 hu hf h1 h3
    refine ⟨ts, h1, h2, a1, ?_⟩
    have b1 := bern u (by linarith) f.states
    have b2 := bern (-u) (by linarith) f.states
    rw [← sub_eq_add_neg] at b2
    have pr := hPR f.states
    have p := hP f.states
    unfold sumError
    generalize ((1 + u) ^ 2 / (1 - u)) ^ f.states = R at *
    generalize (1 + u) ^ f.states = P at *
    generalize (1 - u) ^ f.states = Q at *
    generalize (ts.map Tr.cost).sum = S at *
    have hd : P - 1 ≤ R * (1 + τ) - 1 := by nlinarith
    have := mul_le_mul_of_nonneg_right hd a0
    have : (1 - Q) * S ≤ (P - 1) * S := mul_le_mul_of_nonneg_right (by linarith) a0
    rw [abs_le]
    constructor <;> nlinarith
  · intro f n ts hn hf ha
    obtain ⟨π, hπ, ts', a, b, h1, h2, h3, h4, h5⟩ := h.best f n ts hn hf.forward ha
    exact ⟨π, hπ, key hf ha h1 h2 h3 h4 h5⟩
  · intro f n ts hs hf ha π hπ
    obtain ⟨ts', a, b, h1, h2, h3, h4, h5⟩ := h.first f n ts hs hf.forward ha π hπ
    exact key hf ha h1 h2 h3 h4 h5

/-! ### An example -/

/-- The costs of a path, added one by one and rounded each time. -/
def roundedSum (r : Rounding) (ts : List Tr) : Rat := added r (ts.map Tr.cost)

theorem added_added (r : Rounding) (l : List Rat) : Added r l (added r l) := by
  induction l using List.reverseRecOn with
  | nil => exact .none
  | append_singleton l c ih =>
    have : added r (l ++ [c]) = r.rnd (added r l + r.rnd c) := by simp [added, List.foldl_append]
    rw [this]
    exact .add ih (.one c)

/-- A solver that adds costs in floating point: of all accepted paths, the `n` with the least sums, in order of
these. -/
def sumSolver (r : Rounding) (f : Fst) (n : Nat) : List FstPath :=
  (((((walks f.trs (f.finals.foldr max 0) 0).filter fun w => f.finals.contains w.2).map fun w =>
    ({ weight := roundedSum r w.1, olabels := outputs w.1 } : FstPath))).insertionSort
      fun a b => a.weight ≤ b.weight).take n

theorem sumSolver_sorted (r : Rounding) (f : Fst) (n : Nat) :
    (sumSolver r f n).Pairwise fun a b => a.weight ≤ b.weight := by
  refine List.Pairwise.sublist (List.take_sublist _ _) ?_
  have : Std.Total (fun a b : FstPath => a.weight ≤ b.weight) := ⟨fun a b => le_total _ _⟩
  have : IsTrans FstPath (fun a b => a.weight ≤ b.weight) := ⟨fun a b c h h' => le_trans h h'⟩
  exact List.pairwise_insertionSort _ _

theorem sumSolver_sound {r : Rounding} {f : Fst} {n : Nat} {π : FstPath} (h : π ∈ sumSolver r f n) :
    ∃ ts, Accepting f ts ∧ π.olabels = outputs ts ∧ π.weight = roundedSum r ts := by
  have h := List.mem_of_mem_take h
  rw [List.mem_insertionSort, List.mem_map] at h
  obtain ⟨w, h1, rfl⟩ := h
  rw [List.mem_filter, List.contains_iff_mem] at h1
  exact ⟨w.1, ⟨w.2, h1.2, walk_of_walks h1.1⟩, rfl, rfl⟩

theorem sumSolver_best {r : Rounding} {f : Fst} {n : Nat} {ts : List Tr} (hn : 1 ≤ n) (hf : Forward f)
    (h : Accepting f ts) : ∃ π, (sumSolver r f n).head? = some π ∧ π.weight ≤ roundedSum r ts := by
  obtain ⟨q, hq, hw⟩ := h
  obtain ⟨h1, _⟩ := walks_of_walk hf (n := f.finals.foldr max 0) hw
    (by have := le_foldr_max hq; omega)
  have hfull : ∃ l : List FstPath, sumSolver r f n = l.take n ∧
      l.Pairwise (fun a b => a.weight ≤ b.weight) ∧ ∃ π ∈ l, π.weight = roundedSum r ts := by
    refine ⟨_, rfl, ?_, { weight := roundedSum r ts, olabels := outputs ts }, ?_, rfl⟩
    · have : Std.Total (fun a b : FstPath => a.weight ≤ b.weight) := ⟨fun a b => le_total _ _⟩
      have : IsTrans FstPath (fun a b => a.weight ≤ b.weight) := ⟨fun a b c h h' => le_trans h h'⟩
      exact List.pairwise_insertionSort _ _
    · rw [List.mem_insertionSort, List.mem_map]
      exact ⟨(ts, q), List.mem_filter.mpr ⟨h1, by simpa using hq⟩, rfl⟩
  obtain ⟨l, e, hs, π, hπ, hπe⟩ := hfull
  cases l with
  | nil => cases hπ
  | cons a l =>
    refine ⟨a, ?_, ?_⟩
    · rw [e]
      obtain ⟨n, rfl⟩ : ∃ n', n = n' + 1 := ⟨n - 1, by omega⟩
      simp
    · rw [← hπe]
      rcases List.mem_cons.mp hπ with rfl | hπ
      · exact le_refl _
      · exact (List.pairwise_cons.mp hs).1 π hπ

/-- It adds rounded numbers, and makes no further errors. -/
theorem sumSolver_adds (r : Rounding) {τ : Rat} (hτ : 0 ≤ τ) : SolverAdds r τ (sumSolver r) := by
  have key : ∀ {f n ts π}, 1 ≤ n → Forward f → Accepting f ts → (sumSolver r f n).head? = some π →
      ∃ ts' a b, Accepting f ts' ∧ Added r (ts'.map Tr.cost) π.weight ∧ Added r (ts'.map Tr.cost) a ∧
        Added r (ts.map Tr.cost) b ∧ a ≤ b + τ := by
    intro f n ts π hn hf ha hπ
    obtain ⟨π', h1, h2⟩ := sumSolver_best (r := r) hn hf ha
    cases Option.some.inj (hπ.symm.trans h1)
    obtain ⟨ts', h3, _, h4⟩ := sumSolver_sound (List.mem_of_mem_head? h1)
    have := added_added r (ts'.map Tr.cost)
    rw [h4] at h2 ⊢
    exact ⟨ts', _, _, h3, this, this, added_added r _, by unfold roundedSum at h2; linarith⟩
  constructor
  · intro f n π hπ
    obtain ⟨ts, h1, h2, h3⟩ := sumSolver_sound hπ
    exact ⟨ts, h1, h2, h3 ▸ added_added r _⟩
  · intro f n ts hn hf ha
    obtain ⟨π, h1, _⟩ := sumSolver_best (r := r) hn hf ha
    exact ⟨π, List.mem_of_mem_head? h1, key hn hf ha h1⟩
  · intro f n ts _ hf ha π hπ
    refine key ?_ hf ha hπ
    rcases n with _ | n
    · cases hπ
    · omega

theorem sumSolver_ok (r : Rounding) : SolverOk (sumSolver r) where
  sound f n π h := by
    obtain ⟨ts, h1, h2, _⟩ := sumSolver_sound h
    exact ⟨ts, h1, h2⟩
  complete f n ts hn hf ha he := by
    obtain ⟨π, hp, _⟩ := sumSolver_best (r := r) hn hf ha
    rw [he] at hp
    cases hp

/-! ## The formats -/

theorem binary32_close (y : Rat) : |Rounding.binary32.rnd y - y| ≤ 2 ^ (-24 : Int) * max 1 |y| := by
  refine (roundBinary_close 24 (-126) y).trans (max_le ?_ ?_)
  · rw [mul_comm]
    exact mul_le_mul_of_nonneg_left (le_max_right _ _) (two_zpow_pos _).le
  · refine le_trans ?_ (mul_le_mul_of_nonneg_left (le_max_left 1 |y|) (two_zpow_pos (-24)).le)
    rw [mul_one]
    exact zpow_le_zpow_right₀ (by norm_num) (by norm_num)

theorem binary64_close (y : Rat) : |Rounding.binary64.rnd y - y| ≤ 2 ^ (-53 : Int) * max 1 |y| := by
  refine (roundBinary_close 53 (-1022) y).trans (max_le ?_ ?_)
  · rw [mul_comm]
    exact mul_le_mul_of_nonneg_left (le_max_right _ _) (two_zpow_pos _).le
  · refine le_trans ?_ (mul_le_mul_of_nonneg_left (le_max_left 1 |y|) (two_zpow_pos (-53)).le)
    rw [mul_one]
    exact zpow_le_zpow_right₀ (by norm_num) (by norm_num)

theorem binary32_relative {y : Rat} (hy : 1 / 20 ≤ y) : |Rounding.binary32.rnd y - y| ≤ 2 ^ (-24 : Int) * y := by
  refine (roundBinary_close 24 (-126) y).trans (max_le ?_ ?_)
  · rw [abs_of_pos (by linarith), mul_comm]
    exact le_refl _
  · refine le_trans ?_ (mul_le_mul_of_nonneg_left hy (two_zpow_pos (-24)).le)
    norm_num

theorem binary32_small (k : Int) (hk : |k| ≤ 2 ^ 24) : Rounding.binary32.rnd k = k := by
  have := roundBinary_exact (prec := 24) (emin := -126) (n := k) (e := 0) (by norm_num) hk (by norm_num)
  simp only [zpow_zero, mul_one] at this
  exact this

/-- Different `f32` numbers differ by a fraction. -/
theorem binary32_apart {a b : Rat} (ha : 0 < a) (hab : a < b) (ha' : Rounding.binary32.rnd a = a)
    (hb' : Rounding.binary32.rnd b = b) : a * (1 + 2 ^ (-24 : Int)) ≤ b := by
  have hp := two_zpow_pos (lastPlace 24 (-126) a)
  have hle : lastPlace 24 (-126) a ≤ lastPlace 24 (-126) b := by
    unfold lastPlace
    rw [abs_of_pos ha, abs_of_pos (ha.trans hab)]
    have := Int.log_mono_right (b := 2) ha hab.le
    omega
  obtain ⟨k, hk⟩ : ∃ k : Int, b = k * 2 ^ lastPlace 24 (-126) a := by
    obtain ⟨e, he⟩ := Int.eq_ofNat_of_zero_le (sub_nonneg.mpr hle)
    refine ⟨nearestEven (b / 2 ^ lastPlace 24 (-126) b) * 2 ^ e, ?_⟩
    have e' : lastPlace 24 (-126) b = e + lastPlace 24 (-126) a := by omega
    have hb' : b = nearestEven (b / 2 ^ lastPlace 24 (-126) b) * 2 ^ lastPlace 24 (-126) b := hb'.symm
    conv_lhs => rw [hb']
    conv_lhs => 
      arg 2
      rw [e', zpow_add₀ two_ne_zero, zpow_natCast]
    push_cast
    ring
  obtain ⟨j, hj⟩ : ∃ j : Int, a = j * 2 ^ lastPlace 24 (-126) a := ⟨_, ha'.symm⟩
  have hu := abs_lt_units 24 (-126) a
  rw [abs_of_pos ha, zpow_add₀ two_ne_zero] at hu
  generalize (2 : Rat) ^ lastPlace 24 (-126) a = z at *
  have hjk : j + 1 ≤ k := by
    have : (j : Rat) < k := by
      rw [hj, hk] at hab
      exact lt_of_mul_lt_mul_right hab hp.le
    exact_mod_cast this
  have hjk' : (j : Rat) + 1 ≤ k := by exact_mod_cast hjk
  have h1 : a + z ≤ b := by
    rw [hj, hk]
    nlinarith
  have h2 : a * 2 ^ (-24 : Int) ≤ z := by
    norm_num at hu ⊢
    linarith
  linarith

/-- By which fraction the costs of a batch of `n` words are off at most, if they are added in `f32`, and the solver
may err by `τ`. -/
def slack32 (τ : Rat) (n : Nat) : Rat := 3 * sumError (2 ^ (-24 : Int)) τ (n + 1) + 14 * 2 ^ (-24 : Int)

theorem slack32_eq (τ : Rat) : slack (2 ^ (-24 : Int)) (sumError (2 ^ (-24 : Int)) τ) = slack32 τ := rfl

/-- The arithmetic of IEEE 754, with logarithms that tell apart numbers that differ by a fraction of `2⁻³⁰`. -/
theorem ieee_reckons {x : TextExt} (h32 : x.f32 = .binary32) (h64 : x.f64 = .binary64)
    (hln : ∀ a b, 0 < a → a * (1 + 2 ^ (-30 : Int)) ≤ b → x.ln64 a < x.ln64 b) {τ : Rat} (hτ : 0 ≤ τ)
    (hsolve : SolverAdds .binary32 τ x.solve) {fw : Rat} (hfw : x.f64.rnd fw = fw) :
    Reckons x fw (2 ^ (-24 : Int)) (sumError (2 ^ (-24 : Int)) τ) where
  close y := by rw [h32]; exact binary32_close y
  close64 y := by
    rw [h64]
    refine (binary64_close y).trans (mul_le_mul_of_nonneg_right ?_ (le_trans zero_le_one (le_max_left _ _)))
    norm_num
  unit := by norm_num
  small k hk := by
    rw [h32]
    exact binary32_small k (hk.trans (by norm_num))
  weight := hfw
  apart c a b hc h1 h2 h3 _ h4 h5 := by
    rw [h32] at h4 h5
    rw [h64]
    have ha := hc.trans_le h1
    have hab := binary32_apart ha h3 h4 h5
    have hA1 : c / a ≤ 1 := (div_le_one ha).mpr h1
    have hA2 : 1 / 300 ≤ c / a := by
      rw [le_div_iff₀ ha]
      linarith
    have hB0 : 0 < c / b := div_pos hc (ha.trans h3)
    have hBA : c / b * (1 + 2 ^ (-24 : Int)) ≤ c / a := by
      rw [div_mul_eq_mul_div, div_le_div_iff₀ (ha.trans h3) ha]
      nlinarith
    have r1 := abs_le.mp (binary64_close (c / a))
    have r2 := abs_le.mp (binary64_close (c / b))
    rw [abs_of_pos (by linarith), max_eq_left (by linarith)] at r1
    have hB1 : c / b ≤ 1 := by
      norm_num at hBA
      linarith
    rw [abs_of_pos hB0, max_eq_left hB1] at r2
    have hnn := rnd_nonneg Rounding.binary64 hB0.le
    generalize Rounding.binary64.rnd (c / a) = A' at *
    generalize Rounding.binary64.rnd (c / b) = B' at *
    generalize c / a = A at *
    generalize c / b = B at *
    norm_num at hBA r1 r2
    refine ⟨by linarith, ?_⟩
    rcases hnn.lt_or_eq with h0 | h0
    · refine .inr (hln _ _ h0 ?_)
      norm_num
      linarith
    · exact .inl h0.ge
  error n := by
    have h1 : (1 : Rat) ≤ ((1 + 2 ^ (-24 : Int)) ^ 2 / (1 - 2 ^ (-24 : Int))) ^ n := one_le_pow₀ (by norm_num)
    unfold sumError
    nlinarith
  solver := solverAdds_within (two_zpow_pos _).le (by norm_num) (fun y hy => binary32_relative hy) hτ hsolve
  single f n π hπ := by
    rw [h32]
    obtain ⟨ts, _, _, h⟩ := hsolve.sound f n π hπ
    exact added_fixed h

theorem pow_small {u : Rat} (hu : 0 ≤ u) (m : Nat) : (1 + u) ^ m * (1 - m * u) ≤ 1 := by
  induction m with
  | zero => simp
  | succ m ih =>
    have hp : 0 ≤ (1 + u) ^ m := pow_nonneg (by linarith) m
    have h2 : 0 ≤ (1 + u) ^ m * ((m + 1) * u ^ 2) := mul_nonneg hp (by positivity)
    have e : (1 + u) ^ (m + 1) * (1 - (m + 1 : Nat) * u) =
        (1 + u) ^ m * (1 - m * u) - (1 + u) ^ m * ((m + 1) * u ^ 2) := by
      push_cast
      ring
    rw [e]
    linarith

/-- The error of a sum of `m` numbers. -/
theorem pow32_le {m : Nat} (hm : m ≤ 2 ^ 20) :
    ((1 + 2 ^ (-24 : Int)) ^ 2 / (1 - 2 ^ (-24 : Int)) : Rat) ^ m * (1 - m * (31 / 10 * 2 ^ (-24 : Int))) ≤ 1 ∧
      m * (31 / 10 * 2 ^ (-24 : Int) : Rat) ≤ 1 / 4 := by
  have h := pow_small (u := 31 / 10 * 2 ^ (-24 : Int)) (by norm_num) m
  have hm' : (m : Rat) ≤ 1048576 := by exact_mod_cast hm
  have hmu : m * (31 / 10 * 2 ^ (-24 : Int) : Rat) ≤ 1 / 4 := by
    norm_num
    linarith
  refine ⟨le_trans (mul_le_mul_of_nonneg_right (pow_le_pow_left₀ (by norm_num) ?_ m) (by linarith)) h, hmu⟩
  norm_num

/-- Some hundred thousandths for twenty words. -/
theorem slack32_le {τ : Rat} (hτ : 0 ≤ τ) {n : Nat} (hn : n < 2 ^ 20) :
    slack32 τ n ≤ (7 * n + 14) * 2 ^ (-23 : Int) + 4 * τ := by
  obtain ⟨h, h'⟩ := pow32_le (m := n + 1) (by omega)
  have e : (2 : Rat) ^ (-23 : Int) = 2 * 2 ^ (-24 : Int) := by norm_num
  have hu := two_zpow_pos (-24)
  have hn0 : (0 : Rat) ≤ n := by positivity
  unfold slack32 sumError
  rw [e]
  push_cast at h h'
  generalize ((1 + 2 ^ (-24 : Int)) ^ 2 / (1 - 2 ^ (-24 : Int)) : Rat) ^ (n + 1) = P at *
  generalize (2 : Rat) ^ (-24 : Int) = u at *
  have hnu : 0 ≤ (n : Rat) * u := mul_nonneg hn0 hu.le
  have hP : P ≤ 4 / 3 := by nlinarith
  have hP' : P - 1 ≤ 4 / 3 * ((n + 1) * (31 / 10 * u)) := by nlinarith
  nlinarith

/-! ## What is found -/

/-- **C117** (divisions): in IEEE 754 arithmetic, without language model and context rules, the matches found in a
text divide each of its batches at least cost, up to the errors of the sums.  (Sane weights, link scores between
0 and 1, confusables that raise a score by at most nine tenths; the solver adds costs in `f32`, in any order, and returns
a path with a least sum, up to `τ`.) -/
theorem search_cheapest_ieee {vm : Vm} {x : TextExt} {cfg : TextConfig} {p : TextParams}
    {text : List Char} {segs : List Seg} {ms : List Match} (hsp : x.isAlpha ' ' = false)
    (hlm : vm.haveLm = false) (hr : cfg.contextRules = [])
    (h32 : x.f32 = .binary32) (h64 : x.f64 = .binary64)
    (hln : ∀ a b, 0 < a → a * (1 + 2 ^ (-30 : Int)) ≤ b → x.ln64 a < x.ln64 b) {τ : Rat} (hτ : 0 ≤ τ)
    (hsolve : SolverAdds .binary32 τ x.solve)
    (hw : x.f64.rnd p.variant.freqWeight = p.variant.freqWeight) (hseq : 1 ≤ p.maxSeq)
    (hngram : 2 ≤ p.maxNgram) (hu : p.unicodeoffsets = false)
    (hwt : WeightsOk x.f64 cfg.weights) (hconf : MildConfusables x.f64 cfg.confusables)
    (hlinks : ∀ v ∈ vm.decoder, ∀ t s, VariantReference.variantOf t s ∈ v.variants.getD [] →
      0 ≤ s ∧ s ≤ 1) (hfw : 0 ≤ p.variant.freqWeight)
    (hi : vm.index.isEmpty = false) (hs : Segmented x.isAlpha text segs)
    (h : vm.findAllMatches x cfg p text = .ok ms) :
    ∃ ls, List.Forall₂ (fun b l => Cheapest (slack32 τ b.2.length)
        (fun t vs => vm.findVariants x.toExt cfg.toConfig p.variant t = .ok vs) VariantResult.distScore
        (VariantResult.score x.f64 p.variant.freqWeight) p.maxNgram b.1 b.2 l)
      (placed 0 (batches [] segs)) ls ∧
      ms.map (fun m => (m.first, m.text, m.selected)) = ls.flatten :=
  (search_cheapest hsp hlm hr (ieee_reckons h32 h64 hln hτ hsolve hw) hseq hngram hu hwt hconf hlinks hfw hi hs h).1

/-- **C117** (words): in IEEE 754 arithmetic, without language model and context rules, no word is lost in batches
of up to 1000 words, if the solver errs by a few hundred thousandths at most. -/
theorem words_covered_ieee {vm : Vm} {x : TextExt} {cfg : TextConfig} {p : TextParams}
    {text : List Char} {segs : List Seg} {ms : List Match} (hsp : x.isAlpha ' ' = false)
    (hlm : vm.haveLm = false) (hr : cfg.contextRules = [])
    (h32 : x.f32 = .binary32) (h64 : x.f64 = .binary64)
    (hln : ∀ a b, 0 < a → a * (1 + 2 ^ (-30 : Int)) ≤ b → x.ln64 a < x.ln64 b) {τ : Rat} (hτ : 0 ≤ τ)
    (hsolve : SolverAdds .binary32 τ x.solve)
    (hw : x.f64.rnd p.variant.freqWeight = p.variant.freqWeight) (hseq : 1 ≤ p.maxSeq)
    (hngram : 1 ≤ p.maxNgram) (hu : p.unicodeoffsets = false)
    (hwt : WeightsOk x.f64 cfg.weights) (hconf : MildConfusables x.f64 cfg.confusables)
    (hlinks : ∀ v ∈ vm.decoder, ∀ t s, VariantReference.variantOf t s ∈ v.variants.getD [] →
      0 ≤ s ∧ s ≤ 1) (hfw : 0 ≤ p.variant.freqWeight)
    (hi : vm.index.isEmpty = false) (hs : Segmented x.isAlpha text segs)
    (hfew : ∀ g ∈ batches [] segs, g.length ≤ 1000) (hτ' : τ ≤ 1 / 20000)
    (h : vm.findAllMatches x cfg p text = .ok ms) :
    ∀ w ∈ runsFrom 1 0 segs, ∃ m ∈ ms, m.first ≤ w.first ∧ w.last ≤ m.last := by
  refine words_covered hsp hlm hr (ieee_reckons h32 h64 hln hτ hsolve hw) hseq hngram hu hwt hconf hlinks hfw hi hs
    ?_ h
  intro g hg
  have hn := hfew g hg
  obtain ⟨hp, hp'⟩ := pow32_le (m := g.length + 1) (by omega)
  have hn' : (g.length : Rat) ≤ 1000 := by exact_mod_cast hn
  have hg0 : (0 : Rat) ≤ g.length := by positivity
  show 200 * (g.length : Rat) * sumError (2 ^ (-24 : Int)) τ (g.length + 1) < 49
  unfold sumError
  push_cast at hp hp'
  have h1 : (1 : Rat) ≤ ((1 + 2 ^ (-24 : Int)) ^ 2 / (1 - 2 ^ (-24 : Int)) : Rat) ^ (g.length + 1) :=
    one_le_pow₀ (by norm_num)
  generalize ((1 + 2 ^ (-24 : Int)) ^ 2 / (1 - 2 ^ (-24 : Int)) : Rat) ^ (g.length + 1) = P at *
  generalize (g.length : Rat) = n at *
  norm_num at hp hp'
  have hs : (n + 1) * (31 / 167772160) ≤ 1 / 5404 := by
    norm_num
    linarith
  have hP : P ≤ 1 + 1 / 5403 := by
    by_contra hc
    have := not_le.mp hc
    nlinarith
  have hd : P * (1 + τ) - 1 ≤ 48 / 200000 := by nlinarith
  have : n * (P * (1 + τ) - 1) ≤ 1000 * (48 / 200000) :=
    mul_le_mul hn' hd (by nlinarith) (by norm_num)
  norm_num at this ⊢
  linarith

theorem clearly_cheapest {α : Type} {e : Nat → Rat} {found : List Char → List α → Prop} {dist score : α → Rat}
    {n : Nat} {bs : List (Nat × List Seg)} {ls ls' : List (List (Nat × List Char × Option Nat))}
    (h : List.Forall₂ (fun b l => Cheapest (e b.2.length) found dist score n b.1 b.2 l) bs ls)
    (h' : List.Forall₂ (fun b l => ClearlyCheapest (e b.2.length) found dist score n b.1 b.2 l) bs ls') :
    ls = ls' := by
  induction h generalizing ls' with
  | nil => cases h'; rfl
  | cons h1 _ ih =>
    cases h' with
    | cons h2 h3 =>
      rw [ih h3]
      congr 1
      obtain ⟨c, hc, hle⟩ := h1
      obtain ⟨c', hc', hlt⟩ := h2
      by_contra hne
      have := hle _ _ hc'
      have := hlt _ _ hc hne
      rw [add_comm c' c] at this
      linarith

/-- **C117** (clear cases): in IEEE 754 arithmetic, if each batch of the text has a division that is cheaper than
any other by more than the errors of the sums, it is found. -/
theorem search_finds_clear {vm : Vm} {x : TextExt} {cfg : TextConfig} {p : TextParams}
    {text : List Char} {segs : List Seg} {ms : List Match} (hsp : x.isAlpha ' ' = false)
    (hlm : vm.haveLm = false) (hr : cfg.contextRules = [])
    (h32 : x.f32 = .binary32) (h64 : x.f64 = .binary64)
    (hln : ∀ a b, 0 < a → a * (1 + 2 ^ (-30 : Int)) ≤ b → x.ln64 a < x.ln64 b) {τ : Rat} (hτ : 0 ≤ τ)
    (hsolve : SolverAdds .binary32 τ x.solve)
    (hw : x.f64.rnd p.variant.freqWeight = p.variant.freqWeight) (hseq : 1 ≤ p.maxSeq)
    (hngram : 2 ≤ p.maxNgram) (hu : p.unicodeoffsets = false)
    (hwt : WeightsOk x.f64 cfg.weights) (hconf : MildConfusables x.f64 cfg.confusables)
    (hlinks : ∀ v ∈ vm.decoder, ∀ t s, VariantReference.variantOf t s ∈ v.variants.getD [] →
      0 ≤ s ∧ s ≤ 1) (hfw : 0 ≤ p.variant.freqWeight)
    (hi : vm.index.isEmpty = false) (hs : Segmented x.isAlpha text segs)
    {ls : List (List (Nat × List Char × Option Nat))}
    (hls : List.Forall₂ (fun b l => ClearlyCheapest (slack32 τ b.2.length)
        (fun t vs => vm.findVariants x.toExt cfg.toConfig p.variant t = .ok vs) VariantResult.distScore
        (VariantResult.score x.f64 p.variant.freqWeight) p.maxNgram b.1 b.2 l)
      (placed 0 (batches [] segs)) ls)
    (h : vm.findAllMatches x cfg p text = .ok ms) :
    ms.map (fun m => (m.first, m.text, m.selected)) = ls.flatten := by
  obtain ⟨ls', h1, h2⟩ := search_cheapest_ieee hsp hlm hr h32 h64 hln hτ hsolve hw hseq hngram hu hwt hconf hlinks hfw
    hi hs h
  rw [h2, clearly_cheapest (e := slack32 τ) h1 hls]

/-! ## Examples -/

/-- The surroundings of the examples, with IEEE 754 arithmetic and a solver that adds in `f32`. -/
def exText32 : TextExt := { exText with f32 := .binary32, f64 := .binary64, solve := sumSolver .binary32 }

theorem exLn32 (a b : Rat) (h0 : 0 < a) (h : a * (1 + 2 ^ (-30 : Int)) ≤ b) : exText32.ln64 a < exText32.ln64 b := by
  show a - 1 < b - 1
  norm_num at h
  linarith

theorem exReckons32 : Reckons exText32 0 (2 ^ (-24 : Int)) (sumError (2 ^ (-24 : Int)) 0) :=
  ieee_reckons rfl rfl exLn32 (le_refl 0) (sumSolver_adds _ (le_refl 0)) (by decide +kernel)

theorem exWeights32 : WeightsOk exText32.f64 exTextConfig.weights := by
  constructor <;> decide +kernel

/-- Two batches; in the second, two words in one match.  The scores are those of `f64`, and not all of them
can be written with few places. -/
example : ∃ ls, List.Forall₂ (fun b l => Cheapest (slack32 0 b.2.length)
        (fun t vs => plain.findVariants exText32.toExt exTextConfig.toConfig exTextParams.variant t = .ok vs)
        VariantResult.distScore (VariantResult.score .binary64 0) 2 b.1 b.2 l)
      [(0, [("ab".toList, " ".toList), ("ba".toList, ", ".toList)]),
       (7, [("a".toList, "-".toList), ("x".toList, " ".toList), ("b".toList, [])])] ls ∧
    [(0, "ab".toList, some 0), (3, "ba".toList, some 0), (7, "a-x".toList, some 0), (11, "b".toList, some 0)] =
      ls.flatten := by
  have hms : (plain.findAllMatches exText32 exTextConfig exTextParams "ab ba, a-x b".toList).toOption.map
      (·.map fun m => (m.first, m.text, m.selected)) = some [(0, "ab".toList, some 0),
        (3, "ba".toList, some 0), (7, "a-x".toList, some 0), (11, "b".toList, some 0)] := by decide +kernel
  cases h : plain.findAllMatches exText32 exTextConfig exTextParams "ab ba, a-x b".toList with
  | error e => rw [h] at hms; cases hms
  | ok ms =>
    rw [h] at hms
    have hms := Option.some.inj hms
    have := search_cheapest_ieee (x := exText32) (segs := [("ab".toList, " ".toList), ("ba".toList, ", ".toList),
      ("a".toList, "-".toList), ("x".toList, " ".toList), ("b".toList, [])]) (by decide +kernel) (by decide +kernel)
      rfl rfl rfl exLn32 (le_refl 0) (sumSolver_adds _ (le_refl 0)) (by decide +kernel) (by decide +kernel) (by decide +kernel) (by decide +kernel)
      exWeights32 (mild_nil _) (by
        have : ∀ v ∈ plain.decoder, v.variants.getD [] = [] := by decide +kernel
        intro v hv t s h
        rw [this v hv] at h
        cases h) (by decide +kernel) (by decide +kernel) ?_ h
    · obtain ⟨ls, h1, h2⟩ := this
      exact ⟨ls, h1, hms.symm.trans h2⟩
    · constructor <;> decide +kernel

/-- One division of a single word is clearly the cheapest, and found. -/
example : List.Forall₂ (fun b l => ClearlyCheapest (slack32 0 b.2.length)
        (fun t vs => plain.findVariants exText32.toExt exTextConfig.toConfig exTextParams.variant t = .ok vs)
        VariantResult.distScore (VariantResult.score .binary64 0) 2 b.1 b.2 l)
      [(0, [("ab".toList, [])])] [[(0, "ab".toList, some 0)]] ∧
    (plain.findAllMatches exText32 exTextConfig exTextParams "ab".toList).toOption.map
      (·.map fun m => (m.first, m.text, m.selected)) = some [(0, "ab".toList, some 0)] := by
  refine ⟨.cons ?_ .nil, by decide +kernel⟩
  have hv : plain.findVariants exText32.toExt exTextConfig.toConfig exTextParams.variant "ab".toList =
      .ok [⟨3, 1, 1, none⟩, ⟨5, 11 / 16, 1, none⟩] := by decide +kernel
  have h0 : VariantResult.score .binary64 0 ⟨3, 1, 1, none⟩ = 1 := by decide +kernel
  have h1 : VariantResult.score .binary64 0 ⟨5, 11 / 16, 1, none⟩ = 11 / 16 := by decide +kernel
  have hsl : slack32 0 1 ≤ 1 / 1000 := (slack32_le (le_refl 0) (by norm_num)).trans (by norm_num)
  have hsl0 : 0 ≤ slack32 0 1 := by unfold slack32 sumError; norm_num
  refine ⟨(1 : Nat) + (1 - 1) + 0, ?_, ?_⟩
  · rw [← h0]
    exact Division.variant (r := [("ab".toList, [])]) (g := []) (by simp) (by decide) (.inl rfl) hv rfl .done
  · intro l' c' hd hne
    show ((1 : Nat) + (1 - 1) + 0 : Rat) + slack32 0 1 * ((1 : Nat) + (1 - 1) + 0 + c' + (1 : Nat)) < c'
    suffices h : c' = 100 ∨ c' = 1 + 5 / 16 by
      rcases h with rfl | rfl <;> norm_num <;> linarith
    dsimp only at hd
    generalize hg : [("ab".toList, ([] : List Char))] = g at hd
    cases hd with
    | done => cases hg
    | skip hd =>
      cases hg
      generalize hg : ([] : List Seg) = g at hd
      cases hd with
      | done => left; norm_num
      | skip => cases hg
      | variant _ hr => 
        rw [eq_comm, List.append_eq_nil_iff] at hg
        exact absurd (by rw [hg.1]; rfl) hr
      | unknown => cases hg
    | @variant _ r g l c vs i v _ hr _ hf hvi hd =>
      cases r with
      | nil => exact absurd rfl hr
      | cons a r =>
        rw [List.cons_append, List.cons.injEq, eq_comm, eq_comm (a := []), List.append_eq_nil_iff] at hg
        obtain ⟨rfl, rfl, rfl⟩ := hg
        cases Except.ok.inj (hv.symm.trans hf)
        generalize hg : ([] : List Seg) = g at hd
        cases hd with
        | done =>
          match i, hvi with
          | 0, hvi => exact absurd rfl hne
          | 1, hvi =>
            cases hvi
            right
            rw [h1]
            norm_num
        | skip => cases hg
        | variant _ hr => 
          rw [eq_comm, List.append_eq_nil_iff] at hg
          exact absurd (by rw [hg.1]; rfl) hr
        | unknown => cases hg
    | unknown _ hf _ =>
      cases hg
      have := Except.ok.inj (hv.symm.trans hf)
      cases this

/-- The surroundings of an earlier example with IEEE 754 arithmetic. -/
def exTool32 : ToolExt := { exToolT exLex6 exText2 with text := exText32 }

/-- The search of `exSearchN_prints`, with stretches of up to two words, in IEEE 754 arithmetic. -/
example : ∃ found, (∀ t, t ≠ [] → ShortEnough exText32 [["a".toList, "A".toList], ["b".toList]]
        (exNumbers exSearchN).variant t →
      Listing exText32 [["a".toList, "A".toList], ["b".toList]]
        [[("ab".toList, some 7, {}), ("ba".toList, some 16, {}), (['a'], some 1, {})]]
        ⟨1 / 2, 1 / 8, 1 / 8, 1 / 8, 1 / 8⟩ (exNumbers exSearchN).variant t (found t)) ∧
    ∃ texts, List.Forall₂ (DividedHits exTool32 exSearchN (slack32 0) [['l']]
        [[("ab".toList, some 7, {}), ("ba".toList, some 16, {}), (['a'], some 1, {})]]
        (exNumbers exSearchN) found) [exText2] texts ∧
      exTool32.main exSearchN [['t']] = .ok (.output texts.flatten []) := by
  obtain ⟨entries, e1, e2, _⟩ := read_alphabet_entries (isSpace := exToolR.load.isSpace) rfl []
    [some "a\tA".toList, some ['b']]
  have he : entries = [["a".toList, "A".toList], ["b".toList]] := by
    rw [List.nil_append] at e2
    rw [← e2]
    decide
  rw [he] at e1
  rw [← slack32_eq]
  refine search_prints_cheapest (x := exTool32) ex_noSemicolon ex_pos ex_marks rfl rfl
    (accepted_of (by decide) (by decide)) rfl (not_given (by decide))
    (by
      have : ∀ o ∈ [OptName.variants, .errors, .confusables, .lm, .contextrules, .stopExact],
          ∀ g ∈ exSearchN.given, g.1 ≠ o := by decide
      exact fun o ho => not_given (this o ho))
    ⟨exUsableN.1, (exUsableN (ts := exText2)).2⟩ ⟨exNumbersN.weights, by decide +kernel, exNumbersN.params, exNumbersN.cutoff,
      exNumbersN.debug⟩ (ieee_reckons rfl rfl exLn32 (le_refl 0) (sumSolver_adds _ (le_refl 0))
      (by decide +kernel)) ?_
    (by decide +kernel) (show 2 ≤ 2 by decide) (by decide +kernel)
    (by decide) (by decide) (afile := ['a']) (by decide) rfl e1 (inputsOf_iff.mp (by decide)) ?_
  · constructor <;> decide +kernel
  intro lines hl text ht segs r hs hr _ _
  cases List.mem_singleton.mp hl
  have h1 := searchedIn_length ht
  have h2 : (stretch r).length ≤ text.length := by
    obtain ⟨a, b, e⟩ := hr
    refine le_trans (stretch_prefix_flat r).length_le ?_
    rw [← hs.text_eq, ← e, flat_append, flat_append]
    simp
    omega
  have h3 : ((untilError exText2).map fun l => l.length + 1).sum ≤ 30 := by decide
  obtain ⟨qs, hqs⟩ := encodes_exists (alphabet := [["a".toList, "A".toList], ["b".toList]])
    (by unfold NoEmpty; decide) 3 (stretch r)
  have hlen := encodes_length hqs
  have ha : (exNumbers exSearchN).variant.maxAnagramDistance = .absolute 3 := rfl
  refine ⟨qs, _, hqs, (allowed_iff ?_).mpr rfl, ?_⟩
  · rw [ha]
    show 3 ≤ 255
    decide
  · have : effectiveDistance exText32.f32 qs.length (.absolute 3) ≤ 3 :=
      (effective_absolute exText32.f32 qs.length 3 (by decide)).1.1
    rw [ha]
    show qs.length + effectiveDistance exText32.f32 qs.length (.absolute 3) ≤ 255
    omega

/-- In a batch of 1000 words, costs are off by less than a thousandth. -/
example : slack32 (1 / 1000000) 1000 ≤ 1 / 1000 := (slack32_le (by norm_num) (by norm_num)).trans (by norm_num)

end Verif.Props
