import Verif.Props.Core
import Verif.Props.Search
import Verif.Props.Dfs
import Verif.Props.DisjointSet
import Verif.Props.Kruskal
import Verif.Props.Prim
import Verif.Props.Tarjan
import Verif.Props.MaxFlow
import Verif.Props.FloydWarshall
import Verif.Props.MinCost
import Verif.Props.Tree
import Verif.Props.BinaryTree
import Verif.Props.Misc
import Verif.Props.Random
import Verif.Props.Euclid
import Verif.Props.Reads
import Verif.Props.TreeDepth
import Verif.Props.TreeMore
import Verif.Props.Dot
import Verif.Props.Quoting
import Verif.Props.LabelCorrecting
import Verif.Props.Simplex
import Verif.Props.Preflow
import Verif.Props.Entering
import Verif.Props.DfsT
import Verif.Props.Flatten
import Verif.Props.SearchMore
import Verif.Props.Redraw
import Verif.Props.Display
import Verif.Props.Shown
import Verif.Props.Agree
import Verif.Lemmas.SearchDfs
import Verif.Lemmas.DfsForest
import Verif.Props.DfsTree
import Verif.Props.DfsForest
import Verif.Model.BranchBound
import Verif.Spec.BranchBound
import Verif.Lemmas.BranchBound
import Verif.Lemmas.BranchBound2
import Verif.Lemmas.BranchBound3
import Verif.Lemmas.LinearProgram
import Verif.Props.BranchBound
import Verif.Props.Branching
import Verif.Spec.Preflow
import Verif.Props.HighestLabel
import Verif.Props.SimplexNames
import Verif.Props.SimplexApart
import Verif.Props.SimplexAny
import Verif.Props.FreeArcs
import Verif.Props.Forestry
import Verif.Props.LinearFlow
import Verif.Props.SimplexScript
import Verif.Props.EdmondsKarp
import Verif.Props.GraphType
import Verif.Props.DotSub
import Verif.Props.KruskalWith
import Verif.Props.DfsAgain
import Verif.Props.Depth
import Verif.Props.SearchPic
import Verif.Props.MaxFlowPic
import Verif.Props.DfsPic
import Verif.Props.MstPic
import Verif.Props.PreflowPic
import Verif.Props.SimplexPic
import Verif.Props.SimplexDual
import Verif.Props.PageRank
import Verif.Props.PageRankIter
import Verif.Props.CancelEnds
import Verif.Props.SimpleGraphs
import Verif.Props.Missing
import Verif.Props.Menger
import Verif.Props.Clusters
import Verif.Props.Live
import Verif.Props.Clear
import Verif.Props.Undo
import Verif.Props.SearchTrees
