import Verif.Model.AStar
import Verif.Model.AStarAligner
import Verif.Model.AStarCollate
import Verif.Model.Basic
import Verif.Model.Block
import Verif.Model.Collate
import Verif.Model.Display
import Verif.Model.EditGraph
import Verif.Model.Export
import Verif.Model.Find
import Verif.Model.FoldedSlices
import Verif.Model.FromJson
import Verif.Model.Graph
import Verif.Model.Hashed
import Verif.Model.HtmlList
import Verif.Model.JsonText
import Verif.Model.Kahn
import Verif.Model.LinSuffArr
import Verif.Model.NearMatching
import Verif.Model.NearWeights
import Verif.Model.Phrases
import Verif.Model.RangeOps
import Verif.Model.RangeSet
import Verif.Model.Scorer
import Verif.Model.SuffixFile
import Verif.Model.SuffixText
import Verif.Model.TextWrap
import Verif.Model.TokenIndex
import Verif.Model.Transpositions
import Verif.Model.Witness
import Verif.Model.XmlText
import Verif.Proofs.AStar
import Verif.Proofs.AStarAligner
import Verif.Proofs.AStarCollate
import Verif.Proofs.AStarSame
import Verif.Proofs.Again
import Verif.Proofs.Aligner
import Verif.Proofs.Apart
import Verif.Proofs.Beginning
import Verif.Proofs.Best
import Verif.Proofs.Blocks
import Verif.Proofs.Chains
import Verif.Proofs.CollateOK
import Verif.Proofs.Collated
import Verif.Proofs.Columns
import Verif.Proofs.Copies
import Verif.Proofs.Cube
import Verif.Proofs.Cut
import Verif.Proofs.CutMany
import Verif.Proofs.Dict
import Verif.Proofs.Display
import Verif.Proofs.Divide
import Verif.Proofs.DivideSegments
import Verif.Proofs.DivideWork
import Verif.Proofs.Drawing
import Verif.Proofs.Ending
import Verif.Proofs.Export
import Verif.Proofs.Features
import Verif.Proofs.Fields
import Verif.Proofs.Filter
import Verif.Proofs.Find
import Verif.Proofs.Finer
import Verif.Proofs.Fits
import Verif.Proofs.FoldedSlices
import Verif.Proofs.Frequency
import Verif.Proofs.FromJson
import Verif.Proofs.GInv
import Verif.Proofs.Grouping
import Verif.Proofs.Identical
import Verif.Proofs.Index
import Verif.Proofs.Intervals
import Verif.Proofs.Join
import Verif.Proofs.JoinLoop
import Verif.Proofs.JoinStep
import Verif.Proofs.JsonText
import Verif.Proofs.Layout
import Verif.Proofs.Merge
import Verif.Proofs.MergeInv
import Verif.Proofs.NW
import Verif.Proofs.Near
import Verif.Proofs.NearOrder
import Verif.Proofs.NearProgram
import Verif.Proofs.NearRange
import Verif.Proofs.NearStill
import Verif.Proofs.NearTwo
import Verif.Proofs.Nested
import Verif.Proofs.NoTwins
import Verif.Proofs.Opening
import Verif.Proofs.Optimal
import Verif.Proofs.Order
import Verif.Proofs.Passage
import Verif.Proofs.Places
import Verif.Proofs.Placing
import Verif.Proofs.Prefix
import Verif.Proofs.Prelude
import Verif.Proofs.Progressive
import Verif.Proofs.Radix
import Verif.Proofs.RangeSet
import Verif.Proofs.Ranking
import Verif.Proofs.Renaming
import Verif.Proofs.Runs
import Verif.Proofs.SameAnswers
import Verif.Proofs.Sigla
import Verif.Proofs.Sim
import Verif.Proofs.Skew
import Verif.Proofs.SkewMain
import Verif.Proofs.SuffixArray
import Verif.Proofs.SuffixOrder
import Verif.Proofs.SuffixText
import Verif.Proofs.Swapped
import Verif.Proofs.Table
import Verif.Proofs.TextWrap
import Verif.Proofs.Textbook
import Verif.Proofs.TokenIndexOK
import Verif.Proofs.Tokenizer
import Verif.Proofs.Topo
import Verif.Proofs.Transpositions
import Verif.Proofs.TwoRuns
import Verif.Proofs.Untwinned
import Verif.Proofs.Valid
import Verif.Proofs.Variant
import Verif.Proofs.WorkCut
import Verif.Proofs.WorkInduct
import Verif.Proofs.WorkParts
import Verif.Proofs.WorkSegments
import Verif.Proofs.WorkStep
import Verif.Proofs.XmlText
import Verif.Props.AStar
import Verif.Props.AStarAligner
import Verif.Props.AStarCollate
import Verif.Props.AStarSame
import Verif.Props.Again
import Verif.Props.Agreed
import Verif.Props.Alignment
import Verif.Props.Apart
import Verif.Props.Beginning
import Verif.Props.Best
import Verif.Props.ColumnStyles
import Verif.Props.Copied
import Verif.Props.CopiedFourth
import Verif.Props.Copies
import Verif.Props.CsvNewlines
import Verif.Props.Cut
import Verif.Props.CutMany
import Verif.Props.CutSegmented
import Verif.Props.Display
import Verif.Props.Distance
import Verif.Props.Divide
import Verif.Props.Drawing
import Verif.Props.EndToEnd
import Verif.Props.Ending
import Verif.Props.Export
import Verif.Props.Failures
import Verif.Props.Features
import Verif.Props.FewChanges
import Verif.Props.Fields
import Verif.Props.FilterEquiv
import Verif.Props.FilterSeg
import Verif.Props.Find
import Verif.Props.FoldedSlices
import Verif.Props.Frequency
import Verif.Props.FromJson
import Verif.Props.Graph
import Verif.Props.Grouping
import Verif.Props.Hashed
import Verif.Props.HtmlList
import Verif.Props.Identical
import Verif.Props.Index
import Verif.Props.Input
import Verif.Props.JsonText
import Verif.Props.LeaveOut
import Verif.Props.LeaveOutMany
import Verif.Props.Limits
import Verif.Props.Near
import Verif.Props.NearCells
import Verif.Props.NearOrder
import Verif.Props.NearOutputs
import Verif.Props.NearPlaces
import Verif.Props.NearProgram
import Verif.Props.NearRows
import Verif.Props.NearStill
import Verif.Props.NearStillOrder
import Verif.Props.NearWeights
import Verif.Props.Neighbours
import Verif.Props.Nested
import Verif.Props.Opening
import Verif.Props.Options
import Verif.Props.Order
import Verif.Props.Passage
import Verif.Props.Phrases
import Verif.Props.Places
import Verif.Props.Placing
import Verif.Props.PlainText
import Verif.Props.Progressive
import Verif.Props.RangeOps
import Verif.Props.RangeSet
import Verif.Props.Ranking
import Verif.Props.Ranks
import Verif.Props.Renaming
import Verif.Props.Rewording
import Verif.Props.Runs
import Verif.Props.SameAnswers
import Verif.Props.Scorer
import Verif.Props.ScorerBlocks
import Verif.Props.Segmented
import Verif.Props.SingleChange
import Verif.Props.SuffixArray
import Verif.Props.SuffixFile
import Verif.Props.SuffixText
import Verif.Props.Swapped
import Verif.Props.Table
import Verif.Props.Textbook
import Verif.Props.ThreeComputed
import Verif.Props.Transpositions
import Verif.Props.TwoComputed
import Verif.Props.Variant
import Verif.Props.Wider
import Verif.Props.WiderSegmented
import Verif.Props.XmlText
import Verif.Spec.Again
import Verif.Spec.Alignment
import Verif.Spec.Arrangement
import Verif.Spec.Collation
import Verif.Spec.Display
import Verif.Spec.EndToEnd
import Verif.Spec.Export
import Verif.Spec.FromJson
import Verif.Spec.Graph
import Verif.Spec.Json
import Verif.Spec.NearProgram
import Verif.Spec.NearStill
import Verif.Spec.Placing
import Verif.Spec.PlainText
import Verif.Spec.Progressive
import Verif.Spec.Text
import Verif.Spec.Textbook
import Verif.Spec.Tokens
import Verif.Spec.Xml
import Verif.Tests.Repository
