import Verif.Range
import Verif.Props.Range
import Verif.MSort
import Verif.Props.MSort
import Verif.Basic
import Verif.Queue
import Verif.Props.Queue
import Verif.Pool
import Verif.Props.Pool
import Verif.Heap
import Verif.Props.Heap
import Verif.DD
import Verif.BB
import Verif.Spec
import Verif.Arena
import Verif.DDInv
import Verif.DDLink
import Verif.DDVisit
import Verif.DDMerge
import Verif.DDMergeLayer
import Verif.DDLoop
import Verif.DDFinal
import Verif.ResGen
import Verif.Topo
import Verif.Sweep
import Verif.Compile
import Verif.Cut
import Verif.Knapsack
import Verif.Check
import Verif.Props.DD
import Verif.Props.Sweep
import Verif.Width
import Verif.Props.Width
import Verif.Exact
import Verif.Props.Exact
import Verif.Fam
import Verif.BBInv
import Verif.BBOpt
import Verif.Props.BB
import Verif.Props.Sense
import Verif.Vec
import Verif.VecM
import Verif.Props.Vec
import Verif.Props.VecM
import Verif.Hash
import Verif.Props.Hash
import Verif.UF
import Verif.Props.UF
import Verif.ANList
import Verif.Props.ANList
import Verif.NDArray
import Verif.Props.NDArray
import Verif.Alloc
import Verif.Props.Alloc
import Verif.FArr
import Verif.Props.FArr
import Verif.Bits
import Verif.Props.Bits
import Verif.NatSet
import Verif.Props.NatSet
import Verif.GNSet
import Verif.Props.GNSet
import Verif.GNMem
import Verif.Props.GNMem
import Verif.Props.GNValue
import Verif.Knapsack2
import Verif.Props.Knapsack2
import Verif.Tsp
import Verif.Props.Tsp
import Verif.Misp5
import Verif.Props.Misp5
import Verif.Foo
import Verif.Props.Foo
import Verif.Wide
import Verif.Props.Wide
import Verif.Props.Stale
import Verif.Tsp4
import Verif.Props.Kruskal
import Verif.Props.Tsp4
import Verif.Coloring
import Verif.Props.Coloring
import Verif.Gruler
import Verif.Props.Gruler
import Verif.Misp1
import Verif.Props.Misp1
import Verif.Props.Misp5S
import Verif.Misp4
import Verif.Props.Clique
import Verif.Props.LagBound
import Verif.BBState
import Verif.Props.BBState
import Verif.Props.Misp4
import Verif.Misp2
import Verif.Props.Misp2
import Verif.TspV
import Verif.Props.TspV
import Verif.ColoringV
import Verif.Props.ColoringV
import Verif.NoMerge
import Verif.TspToy
import Verif.Props.TspToy
import Verif.Props.TspToy2
import Verif.GrulerMid
import Verif.Props.GrulerMid
import Verif.Props.GrulerMidlb
import Verif.Props.WidthEx
import Verif.Props.TspToyF
import Verif.Same
import Verif.Props.Same
import Verif.Props.OwnEq
import Verif.Props.KnapsackS
import Verif.Istream
import Verif.KnapRead
import Verif.Props.KnapRead
import Verif.Dimacs
import Verif.Props.MispRoom
import Verif.Props.Dimacs
import Verif.Props.PyGraph
import Verif.TspRead
import Verif.Props.TspRead
import Verif.Props.TspRead4
import Verif.Props.TspRoom
import Verif.Props.TspProgram
import Verif.First
import Verif.Short
import Verif.Props.Short
import Verif.Report
import Verif.Props.Report
import Verif.Props.ReportEx
import Verif.Bounds
import Verif.Props.Bounds
import Verif.Props.ReportLines
import Verif.Props.AnyLoc
import Verif.Checkers
import Verif.Props.Checkers
import Verif.TwRead
import Verif.Props.TwRead
import Verif.Save
import Verif.Props.Save
import Verif.Round
import Verif.RoundEq
import Verif.RoundSearch
import Verif.Props.Round
import Verif.Props.RoundId
import Verif.Fl.Engine
import Verif.Fl.Spec
import Verif.Fl.Inv
import Verif.Fl.Link
import Verif.Fl.Visit
import Verif.Fl.Merge
import Verif.Fl.MergeLayer
import Verif.Fl.Loop
import Verif.Fl.Final
import Verif.Fl.Search
import Verif.Fl.Ends
import Verif.Fl.Same
import Verif.Props.Fl
import Verif.Fl.Near
import Verif.Fl.NearSearch
import Verif.Props.Near
import Verif.MispW
import Verif.Props.SameOn
import Verif.Props.GNMask
import Verif.Props.MispW
import Verif.TspW
import Verif.Props.Pull
import Verif.Props.TspW
import Verif.Tsp4W
import Verif.Tsp3W
import Verif.Props.Tsp4W
import Verif.Props.Tsp3W
import Verif.Props.NodeTable
import Verif.Props.NodeTableEx
import Verif.Misp4W
import Verif.Props.Misp4W
import Verif.Labels
import Verif.Props.Labels
import Verif.Props.ReadEdge
import Verif.Props.KnapFl
import Verif.Misp3W
import Verif.Props.Misp3W
import Verif.Misp2W
import Verif.Props.Misp2W
import Verif.Props.Open
import Verif.Misp1W
import Verif.Props.Misp1W
import Verif.StdSet
import Verif.Props.StdSet
