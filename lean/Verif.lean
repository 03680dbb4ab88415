import Verif.Spec.BMap
import Verif.Spec.Closure
import Verif.Spec.Distance
import Verif.Spec.Earley
import Verif.Spec.Generate
import Verif.Spec.Grammar
import Verif.Spec.Language
import Verif.Spec.LlParser
import Verif.Spec.Load
import Verif.Spec.LoadAdvanced
import Verif.Spec.Lr0
import Verif.Spec.Macro
import Verif.Spec.Operators
import Verif.Spec.Order
import Verif.Spec.PrecTrees
import Verif.Spec.Precedence
import Verif.Spec.Predict
import Verif.Spec.Regexp
import Verif.Spec.Rename
import Verif.Spec.RustString
import Verif.Spec.Sequence
import Verif.Spec.Session
import Verif.Spec.Trees
import Verif.Spec.Units
import Verif.Spec.Useful
import Verif.Spec.Viable
import Verif.Spec.Weight
import Verif.Model.BMap
import Verif.Model.BitSet
import Verif.Model.Cfg
import Verif.Model.Classify
import Verif.Model.Closure
import Verif.Model.Distance
import Verif.Model.DistanceProfile
import Verif.Model.Earley
import Verif.Model.Generate
import Verif.Model.Genetic
import Verif.Model.History
import Verif.Model.Load
import Verif.Model.LoadAdvanced
import Verif.Model.LoadMessage
import Verif.Model.Lr0
import Verif.Model.Macro
import Verif.Model.Matrix
import Verif.Model.NamedDebug
import Verif.Model.Nulling
import Verif.Model.Precedence
import Verif.Model.PredictSets
import Verif.Model.RecursionDistance
import Verif.Model.Regexp
import Verif.Model.Remap
import Verif.Model.Res
import Verif.Model.Sequence
import Verif.Model.Stringify
import Verif.Model.Symbol
import Verif.Model.ValuesRelease
import Verif.Proofs.BMap
import Verif.Proofs.Basic
import Verif.Proofs.Binarize
import Verif.Proofs.BitSet
import Verif.Proofs.Closure
import Verif.Proofs.Cycles
import Verif.Proofs.Derivation
import Verif.Proofs.Distance
import Verif.Proofs.DistanceProfile
import Verif.Proofs.First
import Verif.Proofs.Follow
import Verif.Proofs.Generate
import Verif.Proofs.Idempotent
import Verif.Proofs.Inline
import Verif.Proofs.Lexer
import Verif.Proofs.Ll
import Verif.Proofs.LlParser
import Verif.Proofs.LlTrees
import Verif.Proofs.LoadAdvBuild
import Verif.Proofs.LoadAdvLex
import Verif.Proofs.LoadAdvLoop
import Verif.Proofs.LoadAdvMeans
import Verif.Proofs.LoadAdvParse
import Verif.Proofs.LoadAdvSplice
import Verif.Proofs.LoadAdvState
import Verif.Proofs.LoadAdvStop
import Verif.Proofs.LoadAdvText
import Verif.Proofs.LoadBnf
import Verif.Proofs.LoadBuild
import Verif.Proofs.LoadLex
import Verif.Proofs.LoadOrigins
import Verif.Proofs.LoadParse
import Verif.Proofs.LoadPrint
import Verif.Proofs.LoadState
import Verif.Proofs.Lr0
import Verif.Proofs.Macro
import Verif.Proofs.MacroMessage
import Verif.Proofs.Matrix
import Verif.Proofs.Nulling
import Verif.Proofs.Operators
import Verif.Proofs.OperatorsMixed
import Verif.Proofs.Pipeline
import Verif.Proofs.PrecMarks
import Verif.Proofs.PrecTrees
import Verif.Proofs.Precedence
import Verif.Proofs.Recursion
import Verif.Proofs.RecursionDistance
import Verif.Proofs.Regexp
import Verif.Proofs.Remap
import Verif.Proofs.SeqLang
import Verif.Proofs.SeqPlan
import Verif.Proofs.SeqTrees
import Verif.Proofs.Sequence
import Verif.Proofs.Session
import Verif.Proofs.Split
import Verif.Proofs.Steps
import Verif.Proofs.Stringify
import Verif.Proofs.Tactics
import Verif.Proofs.Trees
import Verif.Proofs.TreesCut
import Verif.Proofs.TreesFinite
import Verif.Proofs.TreesNulling
import Verif.Proofs.TreesOps
import Verif.Proofs.TreesRelabel
import Verif.Proofs.TreesSplit
import Verif.Proofs.Useful
import Verif.Proofs.Values
import Verif.Proofs.ValuesRelease
import Verif.Proofs.Viable
import Verif.Props.Basic
import Verif.Props.Binarize
import Verif.Props.CycleAnalyses
import Verif.Props.CycleHistory
import Verif.Props.CycleTerminals
import Verif.Props.Cycles
import Verif.Props.CyclesReuse
import Verif.Props.Distance
import Verif.Props.DistanceProfile
import Verif.Props.GenLimit
import Verif.Props.Generate
import Verif.Props.Genetic
import Verif.Props.Idempotent
import Verif.Props.IntWeight
import Verif.Props.Lexer
import Verif.Props.LexerExact
import Verif.Props.LlParser
import Verif.Props.LlRecursion
import Verif.Props.LlTrees
import Verif.Props.Load
import Verif.Props.LoadAdvExact
import Verif.Props.LoadAdvGrammar
import Verif.Props.LoadAdvanced
import Verif.Props.LoadMessage
import Verif.Props.LoadOrigins
import Verif.Props.Lr0
import Verif.Props.Macro
import Verif.Props.MacroMessage
import Verif.Props.Manual
import Verif.Props.Mirror
import Verif.Props.Misc
import Verif.Props.NamedDebug
import Verif.Props.NamedRules
import Verif.Props.Nulling
import Verif.Props.NullingAnalyses
import Verif.Props.NullingHistory
import Verif.Props.Pipeline
import Verif.Props.PipelineAdvCycles
import Verif.Props.PipelineAdvOrigins
import Verif.Props.PipelineAdvanced
import Verif.Props.PipelineCycles
import Verif.Props.PipelineOrigins
import Verif.Props.PrecHistory
import Verif.Props.PrecTrees
import Verif.Props.Precedence
import Verif.Props.Predict
import Verif.Props.Recursion
import Verif.Props.RecursionDistance
import Verif.Props.Regexp
import Verif.Props.RegexpPanics
import Verif.Props.Remap
import Verif.Props.Renumber
import Verif.Props.RenumberLl
import Verif.Props.Retry
import Verif.Props.SameRules
import Verif.Props.SeqHistory
import Verif.Props.Sequence
import Verif.Props.SequenceMany
import Verif.Props.Session
import Verif.Props.Sets
import Verif.Props.Sizes
import Verif.Props.SmallLimit
import Verif.Props.SplitAnalyses
import Verif.Props.SplitGenerate
import Verif.Props.SplitHistory
import Verif.Props.SplitLl
import Verif.Props.Stringify
import Verif.Props.Symbols
import Verif.Props.Trees
import Verif.Props.TreesFinite
import Verif.Props.TreesNulling
import Verif.Props.TreesOps
import Verif.Props.TreesSequence
import Verif.Props.Useful
import Verif.Props.Values
import Verif.Props.ValuesRelease
import Verif.Props.Viable
import Verif.Props.ZeroWeight
