import Verif.Dict
import Verif.BucketQueue
import Verif.BucketQueueThm
import Verif.Kleene
import Verif.KleeneThm
import Verif.Closure
import Verif.ClosureThm
import Verif.Term
import Verif.Heap
import Verif.HeapLemmas
import Verif.UnifyLemmas
import Verif.UnifyMain
import Verif.UnifyThm
import Verif.Subst
import Verif.SubstThm
import Verif.TermOps
import Verif.TermOpsThm
import Verif.Order
import Verif.OrderThm
import Verif.TermSets
import Verif.TermSetsThm
import Verif.GeneralizeThm
import Verif.Hyper
import Verif.HyperThm
import Verif.Tarjan
import Verif.TarjanThm
import Verif.RuleEq
import Verif.RuleEqThm
import Verif.ProgIndex
import Verif.ProgIndexThm
import Verif.ProgUpdate
import Verif.ProgUpdateThm
import Verif.Chart
import Verif.ChartThm
import Verif.Solver
import Verif.SolverThm
import Verif.Query
import Verif.QueryThm
import Verif.Naive
import Verif.NaiveThm
import Verif.Deriv
import Verif.DerivThm
import Verif.TermTools
import Verif.TermToolsThm
import Verif.Memo
import Verif.MemoThm
import Verif.SnapEq
import Verif.SnapEqThm
import Verif.Sem
import Verif.Unfold
import Verif.UnfoldThm
import Verif.Fold
import Verif.FoldThm
import Verif.SemFold
import Verif.Conserv
import Verif.Hook
import Verif.HookThm
import Verif.Linearize
import Verif.LinearizeThm
import Verif.SemUpdate
import Verif.CFold
import Verif.CFoldThm
import Verif.Elim
import Verif.ElimThm
import Verif.Prune
import Verif.PruneThm
import Verif.UnfoldLift
import Verif.UnfoldMono
import Verif.Graded
import Verif.GradedSem
import Verif.Measure
import Verif.MeasureThm
import Verif.MeasureWit
import Verif.Builtin
import Verif.BuiltinThm
import Verif.Pretty
import Verif.PrettyThm
import Verif.Propagate
import Verif.PropagateThm
import Verif.Rewrites
import Verif.RewritesThm
import Verif.Solver2
import Verif.Solver2Thm
import Verif.Slash
import Verif.SlashSem
import Verif.SlashAlg
import Verif.SlashRun
import Verif.SlashNodes
import Verif.SlashThm
import Verif.Norm
import Verif.NormThm
import Verif.Horn
import Verif.Magic
import Verif.MagicThm
import Verif.LinSolve
import Verif.LinSolveThm
import Verif.Newton
import Verif.NewtonThm
import Verif.TypeAn
import Verif.TypeAnThm
import Verif.Coarse
import Verif.CoarseThm
import Verif.AntiUnify
import Verif.AntiUnifyThm
import Verif.SccSolver
import Verif.SccSolverThm
import Verif.Runtime
import Verif.RuntimeThm
import Verif.PruneTypes
import Verif.PruneTypesThm
import Verif.Abbreviate
import Verif.AbbreviateThm
import Verif.Instantiate
import Verif.InstantiateThm
import Verif.Sld
import Verif.SldThm
import Verif.DUnfold
import Verif.DUnfoldThm
import Verif.Search
import Verif.SearchThm
import Verif.Degree
import Verif.DegreeThm
import Verif.NewtonDim
import Verif.FoldSearch
import Verif.FoldSearchThm
import Verif.ProgGraph
import Verif.ProgGraphThm
import Verif.UnfoldX
import Verif.UnfoldXThm
import Verif.RunB
import Verif.RunBThm
import Verif.Reorder
import Verif.ReorderThm
import Verif.DTransform
import Verif.DTransformThm
import Verif.DFold
import Verif.DFoldThm
import Verif.DSlash
import Verif.DSlashRun
import Verif.DSlashThm
import Verif.SlashMeasure
import Verif.SlashMeasureThm
import Verif.SearchMoves
import Verif.SearchMovesThm
import Verif.DLct
import Verif.DLctRun
import Verif.DLctThm
import Verif.LctMeasureThm
import Verif.Collect
import Verif.CollectThm
import Verif.Race
import Verif.RaceThm
import Verif.SlashAll
import Verif.SlashAllThm
import Verif.UserQuery
import Verif.UserQueryThm
import Verif.LiftSemi
import Verif.LiftSemiThm
import Verif.UnitMeasure
import Verif.UnitMeasureThm
import Verif.SolverFor
import Verif.SolverForThm
import Verif.MagicRange
import Verif.MagicRangeThm
