import Verif.Props.Graph
import Verif.Props.Eval
import Verif.Props.Reject
import Verif.Props.Meaning
import Verif.Props.Forbid
import Verif.Props.Atomic
import Verif.Props.Check
import Verif.Props.Config
import Verif.Props.Numeric
import Verif.Props.Values
import Verif.Props.Neighbors
import Verif.Props.Construct
import Verif.Props.Distributions
import Verif.Props.Change
import Verif.Props.Sample
import Verif.Props.Exchange
import Verif.Props.Impute
import Verif.Props.Deactivate
import Verif.Props.DeactivateVec
import Verif.Props.Grid
import Verif.Props.Accept
import Verif.Props.Subst
import Verif.Props.Serial
import Verif.Props.Size
import Verif.Props.Equal
import Verif.Props.Pcs
import Verif.Props.Union
import Verif.Props.Alias
import Verif.Props.RandomNeighbor
import Verif.Props.FixTypes
import Verif.Props.FromDict
import Verif.Props.PcsNew
import Verif.Props.Decode
import Verif.Props.SpaceEq
import Verif.Props.Draws
import Verif.Props.Family
import Verif.Props.Positions
import Verif.Props.PcsOld
import Verif.Props.PcsScale
import Verif.Props.Errors
import Verif.Props.F64Log
import Verif.Props.F64Space
import Verif.Props.Prior
import Verif.Props.Density
import Verif.Props.Args
import Verif.Props.SerialPrior
import Verif.Props.DensCache
import Verif.Props.Arrays
import Verif.Props.Grown
import Verif.Props.Heap
import Verif.Props.NeighborValues
import Verif.Props.Raise
import Verif.Props.Weights
import Verif.Props.Ordinal
import Verif.Props.Seeded
import Verif.Props.Scaled
import Verif.Props.Fair
import Verif.Props.Connected
import Verif.Props.ConstArgs
import Verif.Props.FairNeighbor
import Verif.Props.Files
import Verif.Props.JsonText
import Verif.Props.JsonOther
import Verif.Props.SameFile
import Verif.Props.NumNeighbors
import Verif.Props.PcsCut
import Verif.Props.PcsCutAll
import Verif.Props.Rebuild
import Verif.Props.F64Sample
import Verif.Props.AnyNum
import Verif.Props.AnyNumInst
import Verif.Props.AnyNumDraws
import Verif.Props.AnyNumExchange
import Verif.Props.AnyNumExchangeLink
import Verif.Props.F64Neighbors
import Verif.Props.AnyNumNeighbors
import Verif.Props.F64Grid
import Verif.Props.Agree
import Verif.Props.AgreeDoubles
import Verif.Props.Special
import Verif.Props.SpecialInt
import Verif.Props.Keyed
import Verif.Props.Loop
import Verif.Props.Commute
import Verif.Props.CommuteCfg
import Verif.Props.Undo
import Verif.Props.Threads
import Verif.Props.Interrupt
import Verif.Props.AddCut
import Verif.Props.Copies
import Verif.Props.Bounds
import Verif.Props.Codec
import Verif.Props.ClauseEq
import Verif.Props.Choices
import Verif.Props.Named
import Verif.Props.Paused
import Verif.Props.Unchecked
import Verif.Props.PcsNested
import Verif.Props.Print
import Verif.Props.Huge
import Verif.Props.Dtype
import Verif.Props.Caught
import Verif.Props.OldFiles
import Verif.Props.Meanwhile
import Verif.Props.Retry
import Verif.Props.Adders
import Verif.Props.UnionCut
