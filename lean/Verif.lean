import Verif.Num
import Verif.Err
import Verif.Pattern
import Verif.Tables
import Verif.Kernel
import Verif.Window
import Verif.Dtw
import Verif.Spec
import Verif.Proofs.KernelProof
import Verif.Proofs.BellmanProof
import Verif.Proofs.BacktrackProof
import Verif.Proofs.DtwProof
import Verif.Proofs.FinishProof
import Verif.Proofs.Closed
import Verif.Proofs.PatternProof
import Verif.Proofs.CurveProof
import Verif.Proofs.OnePer
import Verif.Proofs.Relate
import Verif.Proofs.Core
import Verif.Props.Optimal
import Verif.Props.PathShape
import Verif.Props.Relational
import Verif.Props.Relational2
import Verif.Proofs.OpenBegin
import Verif.Props.Options
import Verif.Props.Options2
import Verif.Props.Patterns
import Verif.Props.Weights
import Verif.NpSum
import Verif.Proofs.NpSumProof
import Verif.CountPaths
import Verif.Proofs.CountProof
import Verif.Proofs.CountGeneral
import Verif.Props.Count
import Verif.Proofs.ReachProof
import Verif.Proofs.SlantedProof
import Verif.Props.Windows
import Verif.Warp
import Verif.Proofs.WarpProof
import Verif.Props.Warp
import Verif.Props.WarpArea
import Verif.Plot
import Verif.Proofs.PlotProof
import Verif.Props.Plot
import Verif.Props.History
import Verif.Props.Layout
import Verif.Props.Cli
import Verif.Binary64
import Verif.Proofs.Binary64Proof
import Verif.SpecDoubles
import Verif.Proofs.Rounding
import Verif.Props.Doubles
import Verif.Props.Slope
import Verif.Props.RabinerJuang
import Verif.SpecTextbook
import Verif.Proofs.TextbookProof
import Verif.Props.Textbook
import Verif.Props.Invariance
import Verif.Props.Concat
import Verif.Props.CountDoubles
import Verif.Props.CountRounding
import Verif.Props.DoublesMore
import Verif.Props.Witnesses
import Verif.Props.Barriers
import Verif.Props.OpenEnd
import Verif.Props.Subsequence
import Verif.Props.AnyEnds
import Verif.Props.Plot2
import Verif.Props.Productions
import Verif.Format
import Verif.SpecText
import Verif.Proofs.FormatProof
import Verif.Props.Texts
import Verif.Props.Accuracy
import Verif.Props.ArrayWindows
import Verif.Props.TextLayout
import Verif.Props.Length
import Verif.Props.Stability
import Verif.SpecSeries
import Verif.Props.Series
import Verif.TextFile
import Verif.SpecFile
import Verif.Proofs.TextFileProof
import Verif.Props.TextFiles
import Verif.SelfTest
import Verif.Props.SelfTests
import Verif.Cdist
import Verif.Proofs.SqrtProof
import Verif.Props.Metric
import Verif.Props.EndToEnd
import Verif.Props.Underscores
import Verif.Props.Search
import Verif.Stored
import Verif.Props.StoredWeights
import Verif.Props.Substructure
import Verif.Props.CommandLine
import Verif.Props.Features
import Verif.RepoTests
import Verif.Threads
import Verif.Proofs.ThreadsProof
import Verif.Props.Threads
import Verif.Imports0
import Verif.Sources
import Verif.Imports
import Verif.ImportStates
import Verif.Props.Imports
import Verif.DemoData
import Verif.Props.Totality
import Verif.Props.SlopeOpen
import Verif.Props.Completions
import Verif.Props.Pruning
import Verif.Props.SeriesDoubles
import Verif.Props.PowersOfTwo
import Verif.Props.Coarse
import Verif.Props.Canonical
import Verif.Props.Mixture
import Verif.Props.Hierarchy
import Verif.Props.Lockstep
import Verif.Props.WarpDoubles
import Verif.Props.Recording
import Verif.Props.Suffix
import Verif.Props.DemoData
import Verif.Props.ReversalOpen
import Verif.Props.Mean
import Verif.Props.Factor
import Verif.Props.Outliers
import Verif.Props.Winner
import Verif.Props.Hold
import Verif.Props.Bits
import Verif.Props.RoundedWinner
import Verif.Props.WarpAreaRounding
import Verif.Props.Warped
import Verif.Props.TextbookDoubles
import Verif.Props.OwnArrays
import Verif.Props.Flat
import Verif.Props.Offsets
import Verif.Props.Metrics
import Verif.Props.Transforms
import Verif.Props.Averaging
import Verif.Props.Anchors
import Verif.Props.Contraction
import Verif.Props.Occurrences
import Verif.Props.Rotations
