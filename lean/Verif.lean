import Verif.Py
import Verif.Model.Graph
import Verif.Model.Assignment
import Verif.Spec.Assignment
import Verif.Lemmas.Assignment
import Verif.Props.Assignment
import Verif.Model.Updaters
import Verif.Model.Heap
import Verif.Spec.Updaters
import Verif.Lemmas.Updaters
import Verif.Lemmas.Heap
import Verif.Lemmas.HeapCompute
import Verif.Lemmas.HeapRun
import Verif.Lemmas.HeapStable
import Verif.Props.Updaters
import Verif.Model.Election
import Verif.Lemmas.Election
import Verif.Props.Election
import Verif.Model.Chain
import Verif.Spec.Chain
import Verif.Props.Chain
import Verif.Model.HeapChain
import Verif.Props.HeapChain
import Verif.Model.Constraints
import Verif.Props.Constraints
import Verif.Spec.Connect
import Verif.Spec.Contiguity
import Verif.Model.Contiguity
import Verif.Lemmas.Contiguity
import Verif.Props.Contiguity
import Verif.Props.SingleFlip
import Verif.Props.EmptyFlip
import Verif.Props.ChainInvariant
import Verif.Model.Splits
import Verif.Lemmas.Splits
import Verif.Props.Splits
import Verif.Model.Locality
import Verif.Props.Locality
import Verif.Model.Tree
import Verif.Spec.Tree
import Verif.Lemmas.Bfs
import Verif.Lemmas.Rooted
import Verif.Lemmas.TreeCuts
import Verif.Lemmas.TreeMemo
import Verif.Props.TreeCuts
import Verif.Model.Bipartition
import Verif.Props.Bipartition
import Verif.Props.Recursive
import Verif.Model.Seed
import Verif.Props.PrimeFactor
import Verif.Props.Seed
import Verif.Model.Spanning
import Verif.Props.Spanning
import Verif.Model.Recom
import Verif.Props.Recom
import Verif.Props.RecomFail
import Verif.Props.RecomChain
import Verif.Props.ReversibleRecom
import Verif.Model.Flips
import Verif.Props.Flips
import Verif.Props.Metagraph
import Verif.Model.Optimizer
import Verif.Props.Optimizer
import Verif.Model.Schedules
import Verif.Props.Schedules
import Verif.Model.Gingleator
import Verif.Props.Gingleator
import Verif.Model.Partisan
import Verif.Props.Partisan
import Verif.Model.Diversity
import Verif.Props.Diversity
import Verif.Model.Grid
import Verif.Props.Grid
import Verif.Model.Utm
import Verif.Props.Utm
import Verif.Model.ClassState
import Verif.Props.ClassState
import Verif.Model.Tape
import Verif.Lemmas.Tape
import Verif.Lemmas.TreeSplit
import Verif.Lemmas.PlanMoves
import Verif.Props.DetailedBalance
import Verif.Model.TreeCount
import Verif.Lemmas.Kirchhoff
import Verif.Props.TreeCount
import Verif.Model.StrictTape
import Verif.Lemmas.StrictTape
import Verif.Lemmas.WalkSeries
import Verif.Lemmas.WilsonSeries
import Verif.Lemmas.Wilson
import Verif.Lemmas.WilsonLimit
import Verif.Props.Wilson
import Verif.Lemmas.Coupling
import Verif.Props.WilsonBalance
import Verif.Props.Stationary
import Verif.Props.Retry
import Verif.Model.FlipWalk
import Verif.Props.FlipWalk
import Verif.Props.FlipStationary
import Verif.Spec.Eigh
import Verif.Model.Spectral
import Verif.Lemmas.Fiedler
import Verif.Lemmas.EighExists
import Verif.Props.Spectral
import Verif.Lemmas.Can
import Verif.Props.RecomSupport
import Verif.Model.Create
import Verif.Props.Create
import Verif.Model.Attributes
import Verif.Props.Attributes
import Verif.Model.Geo
import Verif.Props.Geo
import Verif.Model.Compactness
import Verif.Props.Compactness
import Verif.Props.SharedBound
import Verif.Props.ZeroBound
import Verif.Model.Entropy
import Verif.Props.Entropy
import Verif.Props.SymmetricEntropy
import Verif.Model.Json
import Verif.Props.Json
import Verif.Model.Frozen
import Verif.Props.Frozen
import Verif.Props.FlipBi
import Verif.Model.Annealing
import Verif.Props.Annealing
import Verif.Lemmas.BipLaw
import Verif.Props.RecomLaw
import Verif.Model.Elections
import Verif.Lemmas.Elections
import Verif.Props.Elections
import Verif.Lemmas.KruskalMin
import Verif.Lemmas.KruskalCount
import Verif.Props.KruskalLaw
import Verif.Lemmas.RecomSpan
import Verif.Lemmas.KruskalOrders
import Verif.Props.KruskalRecom
import Verif.Model.OptRuns
import Verif.Props.OptRuns
import Verif.Props.RecSupport
import Verif.Props.OptRefine
import Verif.Props.GenStop
import Verif.Lemmas.CutLaw
import Verif.Props.RecLaw
import Verif.Lemmas.Mixing
import Verif.Lemmas.ChainLaw
import Verif.Props.Ergodic
import Verif.Lemmas.Poisson
import Verif.Lemmas.RetryRun
import Verif.Props.FlipRuns
import Verif.Lemmas.InvariantLaw
import Verif.Lemmas.RecomKernel
import Verif.Lemmas.RecomMove
import Verif.Props.RecomRuns
import Verif.Model.ObjChain
import Verif.Lemmas.ObjChain
import Verif.Props.ObjChain
import Verif.Props.ObjFlips
import Verif.Model.TallyNames
import Verif.Props.TallyNames
import Verif.Lemmas.Bursts
import Verif.Lemmas.BurstLaw
import Verif.Props.BurstRuns
import Verif.Props.BurstRecom
import Verif.Model.Warnings
import Verif.Props.Warnings
import Verif.Model.Views
import Verif.Props.Views
import Verif.Lemmas.Tilted
import Verif.Props.TiltedRuns
import Verif.Lemmas.RateRuns
import Verif.Props.CutRuns
import Verif.Model.Crs
import Verif.Props.Crs
import Verif.Model.Attr
import Verif.Props.Attr
import Verif.Lemmas.Timed
import Verif.Props.AnnealRuns
import Verif.Model.CountyNames
import Verif.Props.CountyNames
import Verif.Model.UtmCoords
import Verif.Props.UtmCoords
import Verif.Lemmas.VarBursts
import Verif.Props.VarBursts
import Verif.Lemmas.GrowBursts
import Verif.Props.VarRecom
import Verif.Props.AnyFlip
import Verif.Props.AnyRuns
import Verif.Props.AnyObj
import Verif.Props.AnyCut
import Verif.Props.Pieces
