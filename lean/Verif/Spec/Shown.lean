import Verif.Model.Score

/-!
# Specification: what is shown of a ranked list
-/
namespace Verif.Spec

open Verif.Model

/-- How many of the ranked scores are kept with `max_matches = n`: all if there are at most `n`;
otherwise the first `n` if the next one is worse than the last of them; otherwise those that are
better than these two and the first that is not, but at least two. -/
def keptCount (n : Nat) (scores : List Rat) : Nat :=
  match scores[n]? with
  | none => scores.length
  | some s =>
    let better := scores.countP (fun t => s < t)
    if better = n then n else max 2 (better + 1)

/-- The same for scores that count with similarities: if the score of place `n` is that of the one before,
then similarities are compared with it: all are kept if the first similarity is lower, and otherwise the
first, those after it with greater similarity, up to and with one that has not.  Without frequency ranking
this is `keptCount`, see `max_matches_exact`. -/
def keptWith (n : Nat) (scores : List (Rat × Rat)) : Nat :=
  match scores[n - 1]?, scores[n]?, scores with
  | some last, some next, first :: rest =>
    if next.1 < last.1 then n
    else if first.2 < next.1 then scores.length
    else 2 + (rest.takeWhile fun t => next.1 < t.2).length
  | _, _, _ => scores.length

/-- The first ones of a ranked list, as many as `keptWith` says (all for `n = 0`). -/
def firstOnes {α : Type} (n : Nat) (score sim : α → Rat) (l : List α) : List α :=
  if n = 0 then l else l.take (keptWith n (l.map fun a => (score a, sim a)))

/-- With a cutoff of at least 1, the best and those with more than its score divided by the cutoff. -/
def closeOnes {α : Type} (r : Rounding) (cutoff : Rat) (score : α → Rat) (l : List α) : List α :=
  if cutoff < 1 then l
  else match l with
    | [] => []
    | a :: rest => a :: rest.filter fun b => r.rnd (score a / cutoff) < score b

/-- What is shown of a ranked list: of the first ones those that are close to the best. -/
def shown {α : Type} (r : Rounding) (n : Nat) (cutoff : Rat) (score sim : α → Rat) (l : List α) : List α :=
  closeOnes r cutoff score (firstOnes n score sim l)

end Verif.Spec
