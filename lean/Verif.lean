import Verif.Outcome
import Verif.Structs.BinHeap
import Verif.Props.BinHeap
import Verif.Structs.Chain
import Verif.Structs.Hash
import Verif.Props.Hash
import Verif.Structs.Intpq
import Verif.Props.Intpq
import Verif.Structs.Djset
import Verif.Props.Djset
import Verif.Structs.Pool
import Verif.Props.Pool
import Verif.Structs.KdTree
import Verif.Props.KdTree
import Verif.Structs.BinHeapFrame
import Verif.Props.HeapOpen
import Verif.Search.BucketOpen
import Verif.Props.BucketOpen
import Verif.Structs.Stn
import Verif.Props.Stn
import Verif.Utils.Encode
import Verif.Props.Encode
import Verif.Utils.SafeOps
import Verif.Props.SafeOps
import Verif.Utils.Math
import Verif.Props.Math
import Verif.Utils.Rand
import Verif.Props.Rand
import Verif.Utils.Rank
import Verif.Props.Rank
import Verif.Search.BestFirst
import Verif.Search.BestFirstThms
import Verif.Search.Algs
import Verif.Search.Idastar
import Verif.Props.Astar
import Verif.Props.Wastar
import Verif.Props.Idastar
import Verif.Arr
import Verif.Search.Heuristic
import Verif.Domains.Pancake
import Verif.Props.Pancake
import Verif.Domains.Tiles
import Verif.Props.Tiles
import Verif.Domains.Pdb
import Verif.Props.Pdb
import Verif.Domains.GridNav
import Verif.Props.GridNav
import Verif.Props.GridSolve
import Verif.Domains.Vacuum
import Verif.Props.Vacuum
import Verif.Search.Restrict
import Verif.Domains.Traffic
import Verif.Props.Traffic
import Verif.Search.Profile
import Verif.Props.Profile
import Verif.Domains.DockRobot
import Verif.Domains.DockRobotLoc
import Verif.Domains.DockRobotDist
import Verif.Domains.DockRobotState
import Verif.Domains.DockRobotPack
import Verif.Domains.Segments
import Verif.Domains.SegmentsThms
import Verif.Domains.SegmentsPath
import Verif.Props.DockRobot
import Verif.Search.Tree
import Verif.Search.Arastar
import Verif.Search.ArastarThms
import Verif.Search.ArastarRun
import Verif.Props.Arastar
import Verif.Utils.Str
import Verif.Utils.Datafile
import Verif.Utils.Path
import Verif.Rdb.Attrs
import Verif.Props.Datafile
import Verif.Props.Path
import Verif.Props.RdbAttrs
import Verif.Props.Segments
import Verif.Props.SegmentsPath
import Verif.Props.RdbStore
import Verif.Props.Rtastar
import Verif.Search.OpenImpl
import Verif.Search.Concrete
import Verif.Props.Concrete
import Verif.Search.Beam
import Verif.Search.BeamThms
import Verif.Props.Beam
import Verif.Search.Lss
import Verif.Search.LssInv
import Verif.Search.LssStrong
import Verif.Search.LssLearn
import Verif.Search.LssRun
import Verif.Search.LssOpt
import Verif.Props.Lss
import Verif.Search.LssSafe
import Verif.Search.Fhat
import Verif.Search.FhatThms
import Verif.Props.Fhat
import Verif.Utils.HashBytes
import Verif.Props.HashBytes
import Verif.Domains.Sliding
import Verif.Domains.TilesSolve
import Verif.Domains.TilesGen
import Verif.Props.TilesSolve
import Verif.Props.TilesGen
import Verif.Props.PancakeSolve
import Verif.Search.Bugsy
import Verif.Search.BugsyRef
import Verif.Props.Bugsy
import Verif.Utils.Geom2d
import Verif.Utils.Geom2dThms
import Verif.Utils.Geom2dPoly
import Verif.Utils.Geom2dMake
import Verif.Props.Geom2d
import Verif.Domains.VisGraph
import Verif.Domains.VisGraphThms
import Verif.Props.VisMap
import Verif.Props.VisNav
import Verif.Domains.Plat
import Verif.Domains.PlatThms
import Verif.Domains.PlatRead
import Verif.Props.Plat
import Verif.Domains.Contour
import Verif.Domains.Grid2Poly
import Verif.Domains.Grid2PolyThms
import Verif.Domains.Grid2PolyComps
import Verif.Domains.Grid2PolyMap
import Verif.Domains.Pbm
import Verif.Props.Grid2Poly
import Verif.Props.Pbm
import Verif.Domains.GridFile
import Verif.Domains.GridFileThms
import Verif.Props.GridFile
import Verif.Search.DtaTable
import Verif.Search.Dta
import Verif.Search.DtaThms
import Verif.Search.DtaInv
import Verif.Search.DtaStep
import Verif.Search.DtaCount
import Verif.Props.Dta
import Verif.Props.DtaSearch
import Verif.Search.Limits
import Verif.Props.Limits
import Verif.Props.LookLimit
import Verif.Search.Tight
import Verif.Search.AstarDump
import Verif.Props.Tight
import Verif.Props.AstarDump
import Verif.Search.Rrt
import Verif.Props.Rrt
import Verif.Search.DtaDump
import Verif.Props.DtaDump
import Verif.Utils.Double
import Verif.Search.Rounded
import Verif.Props.Rounded
import Verif.Domains.Scenario
import Verif.Props.Scenario
import Verif.Domains.VisFile
import Verif.Props.VisFile
import Verif.Rdb.DfTools
import Verif.Props.DfTools
import Verif.Domains.TrafficFile
import Verif.Props.TrafficFile
import Verif.Utils.RandPoly
import Verif.Utils.RandPolyThms
import Verif.Props.RandPoly
import Verif.Domains.SegmentsDist
import Verif.Props.SegmentsDist
import Verif.Domains.SegmentsFile
import Verif.Props.SegmentsFile
import Verif.Domains.Ppm
import Verif.Props.Ppm
import Verif.Domains.SeedInst
import Verif.Props.SeedInst
import Verif.Search.Lms
import Verif.Props.Lms
import Verif.Search.BestWt
import Verif.Props.BestWt
import Verif.Utils.Eps
import Verif.Props.Eps
import Verif.Search.ProfFile
import Verif.Props.ProfFile
import Verif.Utils.Status
import Verif.Props.Status
