import Verif.Spec.Resources
import Verif.Spec.SimilarText

/-!
# Specification: a search by means of queries
-/
namespace Verif.Spec

open Verif.Model

/-- The query with those options of a search that a query has. -/
def asQuery (c : CommandLine) : CommandLine :=
  { c with sub := .query, given := c.given.filter fun g => g.1 ∈ commonOptions }

/-- The same surroundings with other lines on standard input. -/
def withLines (x : ToolExt) (lines : List (List Char)) : ToolExt := { x with stdin := lines.map some }

/-- A query with this line alone as input prints the line with these columns. -/
def QueryPrints (x : ToolExt) (c : CommandLine) (line : List Char) (cols : List (List Char)) : Prop :=
  (withLines x [line]).main c [] = .ok (.output (line ++ cols.flatten ++ ['\n']) [])

/-- A run with these lines alone as input prints this text. -/
def Prints (x : ToolExt) (c : CommandLine) (lines : List (List Char)) (text : List Char) : Prop :=
  (withLines x lines).main c [] = .ok (.output text [])

/-- What a search prints for an input is what it prints for each group of its lines, with an empty line between
what is printed for two groups. -/
def GroupsText (x : ToolExt) (c : CommandLine) (lines : List (Option (List Char))) (text : List Char) : Prop :=
  ∃ perLine gs outs, (perLine = true ↔ Given c .perLine) ∧ Groups perLine (untilError lines) gs ∧
    List.Forall₂ (Prints x c) gs outs ∧ text = ['\n'].intercalate (outs.filter fun o => o ≠ [])

end Verif.Spec
