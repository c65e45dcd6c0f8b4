import Verif.Props.Tree
import Verif.Props.InfMem
import Verif.Props.InfValid
import Verif.Props.Cost
import Verif.Props.Prob
import Verif.Props.Bitset
import Verif.Props.OrderedFrozenSet
import Verif.Props.Path
import Verif.Props.Width
import Verif.Props.FiniteWidth
import Verif.Props.FwValid
import Verif.Props.Pickle
import Verif.Props.MergeSplit
import Verif.Props.Contract
import Verif.Props.RandomPath
import Verif.Props.RandomTensors
import Verif.Props.TreeCheck
import Verif.Props.Fuse
import Verif.Props.Names
import Verif.Props.Decompose
import Verif.Props.Circuit
import Verif.Props.CircuitLoad
import Verif.Props.Sampling
import Verif.Props.Buffer
import Verif.Props.Parallel
import Verif.Props.TensorNetwork
import Verif.Props.FixedFloat
import Verif.Props.Components
import Verif.Props.Anneal
import Verif.Props.LoadText
import Verif.Props.AppIO
import Verif.Props.LoadNet
import Verif.Props.CostModel
import Verif.Props.EndToEnd
import Verif.Props.Simulate
import Verif.Props.LoadObj
import Verif.Props.Svd
import Verif.Props.Sampler
import Verif.Props.Rounding
import Verif.Props.RoundingFw
import Verif.Props.Compare
import Verif.Props.Frameworks
import Verif.Props.NetEq
import Verif.Props.JsonOut
import Verif.Props.Report
import Verif.Props.CostText
import Verif.Props.CostJson
import Verif.Props.Session
import Verif.Props.Program
import Verif.Props.FloatClass
import Verif.Props.Balance
import Verif.Props.Reach
import Verif.Props.Roomy
import Verif.Props.Blocked
import Verif.Props.Blocks
import Verif.Props.RandomDraw
import Verif.Props.Rename
import Verif.Props.Effort
import Verif.Props.Display
import Verif.Props.TimeLimit
import Verif.Props.TraverseTree
import Verif.Props.PathInts
import Verif.Props.Twister
import Verif.Props.PyRandom
import Verif.Props.PyNode
import Verif.Props.Shuffle
import Verif.Props.SliceGrow
import Verif.Props.SliceNeed
import Verif.Props.Repr
