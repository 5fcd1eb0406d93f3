import Verif.Model.Base
import Verif.Model.Text
import Verif.Model.Distance
import Verif.Model.Anahash
import Verif.Model.HMap
import Verif.Model.NGram
import Verif.Model.Vocab
import Verif.Model.Learn
import Verif.Spec.Edit
import Verif.Spec.Alphabet
import Verif.Spec.Bag
import Verif.Lemmas.HMap
import Verif.Lemmas.Vocab
import Verif.Lemmas.Bag
import Verif.Lemmas.Encode
import Verif.Lemmas.Iter
import Verif.Lemmas.History
import Verif.Lemmas.Index
import Verif.Lemmas.Lm
import Verif.Spec.History
import Verif.Props.Vocab
import Verif.Lemmas.Build
import Verif.Props.Index
import Verif.Lemmas.Learn
import Verif.Props.NGram
import Verif.Props.Learn
import Verif.Lemmas.Edit
import Verif.Lemmas.Levenshtein
import Verif.Lemmas.Damerau
import Verif.Lemmas.Common
import Verif.Props.Distance
import Verif.Props.Anahash
import Verif.Props.DamerauLong
import Verif.Model.Float
import Verif.Model.Nearest
import Verif.Spec.BagDiff
import Verif.Spec.Candidate
import Verif.Lemmas.Built
import Verif.Lemmas.Nearest
import Verif.Lemmas.Gather
import Verif.Props.Nearest
import Verif.Model.Confusable
import Verif.Model.Score
import Verif.Spec.Score
import Verif.Spec.Confusable
import Verif.Lemmas.Score
import Verif.Lemmas.Rank
import Verif.Lemmas.Links
import Verif.Props.Score
import Verif.Props.Rank
import Verif.Props.RankExact
import Verif.Spec.Shown
import Verif.Spec.Similar
import Verif.Spec.SimilarRuns
import Verif.Props.Similar
import Verif.Props.SimilarRuns
import Verif.Props.Tokens
import Verif.Props.Search
import Verif.Props.Sequence
import Verif.Props.Rules
import Verif.Props.Lm
import Verif.Props.RulesFile
import Verif.Props.Confusable
import Verif.Props.Cli
import Verif.Props.Files
import Verif.Props.Total
import Verif.Props.Tags
import Verif.Props.Choice
import Verif.Model.Iter
import Verif.Lemmas.Dfs
import Verif.Props.Iter
import Verif.Props.IterCache
import Verif.Model.Load
import Verif.Spec.Load
import Verif.Lemmas.Load
import Verif.Props.Load
import Verif.Model.Options
import Verif.Spec.Options
import Verif.Props.Options
import Verif.Model.Python
import Verif.Spec.Python
import Verif.Lemmas.Book
import Verif.Props.Python
import Verif.Model.Tool
import Verif.Spec.Tool
import Verif.Lemmas.Agree
import Verif.Lemmas.Run
import Verif.Props.Tool
import Verif.Props.Printed
import Verif.Props.Runs
import Verif.Lemmas.LoadTotal
import Verif.Spec.LoadTotal
import Verif.Props.LoadTotal
import Verif.Spec.RunTotal
import Verif.Props.RunTotal
import Verif.Props.LearnTotal
import Verif.Lemmas.LearnTotal
import Verif.Lemmas.JsonUnique
import Verif.Spec.Document
import Verif.Lemmas.Document
import Verif.Props.Document
import Verif.Spec.SimilarText
import Verif.Props.SimilarText
import Verif.Spec.Rows
import Verif.Props.Rows
import Verif.Spec.Division
import Verif.Props.Division
import Verif.Spec.Divided
import Verif.Props.Divided
import Verif.Spec.Suggest
import Verif.Props.Suggest
import Verif.Spec.Resources
import Verif.Props.Resources
import Verif.Props.DividedAll
import Verif.Spec.Objects
import Verif.Props.Objects
import Verif.Spec.Learned
import Verif.Props.Learned
import Verif.Props.LearnedParts
import Verif.Spec.Reading
import Verif.Lemmas.Reading
import Verif.Props.Reading
import Verif.Spec.Counts
import Verif.Lemmas.Counts
import Verif.Props.Counts
import Verif.Spec.Context
import Verif.Props.Context
import Verif.Spec.Searched
import Verif.Props.Searched
import Verif.Spec.Relevant
import Verif.Props.Relevant
import Verif.Spec.Indexed
import Verif.Props.Indexed
import Verif.Model.Trace
import Verif.Lemmas.Trace
import Verif.Spec.Trace
import Verif.Props.Trace
import Verif.Model.Ieee
import Verif.Spec.Ieee
import Verif.Lemmas.Ieee
import Verif.Props.Ieee
import Verif.Props.Tie
import Verif.Props.Reckon
import Verif.Props.Reload
import Verif.Props.Decimal
import Verif.Props.PySuggest
import Verif.Props.PySearch
import Verif.Lemmas.Weighed
import Verif.Props.Weighed
import Verif.Spec.Weighed
import Verif.Props.WeighedFiles
import Verif.Spec.WeighedFiles
import Verif.Props.TextFile
import Verif.Spec.TextFile
import Verif.Props.Readers
import Verif.Spec.Readers
import Verif.Props.Bindings
import Verif.Spec.Bindings
import Verif.Props.Modes
import Verif.Spec.Modes
import Verif.Props.Spelling
import Verif.Spec.Spelling
import Verif.Model.PyWeights
import Verif.Spec.PyWeights
import Verif.Props.PyWeights
import Verif.Spec.Long
import Verif.Props.Long
import Verif.Props.LongSearch
import Verif.Spec.Unchanged
import Verif.Props.Unchanged
import Verif.Model.Debug
import Verif.Spec.Debug
import Verif.Props.Debug
import Verif.Model.Release
import Verif.Spec.Release
import Verif.Props.Release
import Verif.Spec.SimilarSearch
import Verif.Props.SimilarSearch
import Verif.Spec.Correct
import Verif.Props.Correct
import Verif.Spec.Undivided
import Verif.Props.Undivided
import Verif.Spec.Corrected
import Verif.Props.Corrected
import Verif.Props.CorrectedSearch
import Verif.Props.Unsuggested
import Verif.Spec.Idempotent
import Verif.Props.Idempotent
import Verif.Props.Remaining
import Verif.Props.Accurate
import Verif.Props.RulesRun
import Verif.Props.LmRun
import Verif.Props.TieRun
