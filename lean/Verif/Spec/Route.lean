import Verif.Spec.Sequence

/-!
# Specification: ways to read a batch

A route goes through the words of a batch and, at each point, either picks a match that starts there,
with one of its variants (or without one, for a single word that has none), or skips a word.
-/
namespace Verif.Spec

open Verif.Model

/-- One step of a route. -/
inductive Step where
  | skip
  | pick (m : Match) (variant : Option Nat)

/-- `Route x fw o g all q l c`: the steps `l` lead from word `q` of the batch `g` (at byte `o`) to its
end, with matches from `all`, at cost `c`.  Picking a variant costs the number of words plus what its
score (with frequency weight `fw`) lacks to 1, a single word without variants costs 2, and skipping a
word 100 (numbers rounded to `f32`, sums exact). -/
inductive Route (x : TextExt) (fw : Rat) (o : Nat) (g : List Seg) (all : List Match) :
    Nat → List Step → Rat → Prop
  | done : Route x fw o g all g.length [] 0
  | skip {q l c} : q < g.length → Route x fw o g all (q + 1) l c →
      Route x fw o g all q (.skip :: l) (100 + c)
  | variant {q e l c m vs i v} : m ∈ all → Span o g q e m → m.variants = some vs → vs[i]? = some v →
      Route x fw o g all e l c →
      Route x fw o g all q (.pick m (some i) :: l)
        (x.f32.rnd (x.f32.rnd (e - q : Nat) + x.f32.rnd (1 - x.f32.rnd (v.score x.f64 fw))) + c)
  | unknown {q l c m} : m ∈ all → Span o g q (q + 1) m → m.isEmpty = true →
      Route x fw o g all (q + 1) l c →
      Route x fw o g all q (.pick m none :: l) (x.f32.rnd (x.f32.rnd (1 : Nat) + 1) + c)

/-- The matches a route picks, with the variant selected. -/
def picked : List Step → List Match
  | [] => []
  | .skip :: l => picked l
  | .pick m i :: l => { m with selected := i } :: picked l

/-- A stronger requirement on the solver: paths have their costs as weights, and one of the returned
paths is as cheap as any accepted path. -/
structure SolverExact (solve : Fst → Nat → List FstPath) : Prop where
  sound : ∀ f n π, π ∈ solve f n →
    ∃ ts, Accepting f ts ∧ π.olabels = outputs ts ∧ π.weight = (ts.map Tr.cost).sum
  best : ∀ f n ts, 1 ≤ n → Forward f → Accepting f ts →
    ∃ π ∈ solve f n, π.weight ≤ (ts.map Tr.cost).sum

theorem SolverExact.ok {solve : Fst → Nat → List FstPath} (h : SolverExact solve) :
    SolverOk solve where
  sound := fun f n π hp => by
    obtain ⟨ts, h1, h2, _⟩ := h.sound f n π hp
    exact ⟨ts, h1, h2⟩
  complete := fun f n ts hn hf ha he => by
    obtain ⟨π, hp, _⟩ := h.best f n ts hn hf ha
    rw [he] at hp
    cases hp

/-- Where all paths have one transition, the first path the solver returns is a cheapest one.  (In general paths do
not come in order of weight, as a comment says, src/lib.rs:2324.) -/
def SolverFirst (solve : Fst → Nat → List FstPath) : Prop :=
  ∀ f n ts, f.states = 2 → Forward f → Accepting f ts → ∀ π ∈ (solve f n).head?, π.weight ≤ (ts.map Tr.cost).sum

/-- A transducer like those of the searches: transitions lead to later states and cost something, and the final
states exist. -/
structure Regular (f : Fst) : Prop where
  forward : Forward f
  finals : ∀ q ∈ f.finals, q < f.states
  costs : ∀ t ∈ f.trs, 1 / 20 ≤ t.cost

/-- The requirements on a solver that adds costs in floating point: for `n` states, weights of paths differ
from their costs by a fraction `d n` at most (or by `d n`), and one of the returned paths is, as far as can be
told from such sums, as cheap as any accepted path. -/
structure SolverWithin (d : Nat → Rat) (solve : Fst → Nat → List FstPath) : Prop where
  ok : SolverOk solve
  sound : ∀ f n π, Regular f → π ∈ solve f n →
    ∃ ts, Accepting f ts ∧ π.olabels = outputs ts ∧ (ts ≠ [] → 0 < π.weight) ∧
      |π.weight - (ts.map Tr.cost).sum| ≤ d f.states * (1 + (ts.map Tr.cost).sum)
  best : ∀ f n ts, 1 ≤ n → Regular f → Accepting f ts →
    ∃ π ∈ solve f n, π.weight ≤ (ts.map Tr.cost).sum + d f.states * (1 + (ts.map Tr.cost).sum)
  first : ∀ f n ts, f.states = 2 → Regular f → Accepting f ts → ∀ π ∈ (solve f n).head?,
    π.weight ≤ (ts.map Tr.cost).sum + d f.states * (1 + (ts.map Tr.cost).sum)

/-- `Added r l s`: the number `s` comes out if the numbers `l` are added, in some order of the additions, and
rounded each time. -/
inductive Added (r : Rounding) : List Rat → Rat → Prop
  | none : Added r [] 0
  | one (c : Rat) : Added r [c] (r.rnd c)
  | add {l l' a b} : Added r l a → Added r l' b → Added r (l ++ l') (r.rnd (a + b))

/-- Numbers added one by one, rounded each time. -/
def added (r : Rounding) (l : List Rat) : Rat := l.foldl (fun s y => r.rnd (s + r.rnd y)) 0

/-- The requirements on a solver that adds rounded numbers, in any order: weights are such sums, and of one of the
returned paths some sum is at most `τ` greater than some sum of any accepted path.  Where paths have one
transition, this is the first. -/
structure SolverAdds (r : Rounding) (τ : Rat) (solve : Fst → Nat → List FstPath) : Prop where
  sound : ∀ f n π, π ∈ solve f n →
    ∃ ts, Accepting f ts ∧ π.olabels = outputs ts ∧ Added r (ts.map Tr.cost) π.weight
  best : ∀ f n ts, 1 ≤ n → Forward f → Accepting f ts → ∃ π ∈ solve f n, ∃ ts' a b, Accepting f ts' ∧
    Added r (ts'.map Tr.cost) π.weight ∧ Added r (ts'.map Tr.cost) a ∧ Added r (ts.map Tr.cost) b ∧ a ≤ b + τ
  first : ∀ f n ts, f.states = 2 → Forward f → Accepting f ts → ∀ π ∈ (solve f n).head?, ∃ ts' a b, Accepting f ts' ∧
    Added r (ts'.map Tr.cost) π.weight ∧ Added r (ts'.map Tr.cost) a ∧ Added r (ts.map Tr.cost) b ∧ a ≤ b + τ

/-- How a search calculates with scores (with frequency weight `fw`) and costs: `f32` and `f64` have a relative
error of `u` at most (an absolute one below 1), the solver one of `d n` for `n` states, and logarithms tell
different `f32` numbers apart. -/
structure Reckons (x : TextExt) (fw u : Rat) (d : Nat → Rat) : Prop where
  close : ∀ y, |x.f32.rnd y - y| ≤ u * max 1 |y|
  close64 : ∀ y, |x.f64.rnd y - y| ≤ u * max 1 |y|
  unit : u ≤ 1 / 1000
  small : ∀ k : Int, |k| ≤ 2 → x.f32.rnd k = k
  weight : x.f64.rnd fw = fw
  apart : ∀ c a b, 0 < c → c ≤ a → a ≤ 300 * c → a < b → x.f32.rnd c = c → x.f32.rnd a = a → x.f32.rnd b = b →
    0 < x.f64.rnd (c / a) ∧
      (x.f64.rnd (c / b) ≤ 0 ∨ x.ln64 (x.f64.rnd (c / b)) < x.ln64 (x.f64.rnd (c / a)))
  error : ∀ n, 0 ≤ d n
  solver : SolverWithin d x.solve
  single : ∀ f n π, π ∈ x.solve f n → x.f32.rnd π.weight = π.weight

/-- By which fraction (and by how much per word) costs are off at most, for `n` words. -/
def slack (u : Rat) (d : Nat → Rat) (n : Nat) : Rat := 3 * d (n + 1) + 14 * u

end Verif.Spec
