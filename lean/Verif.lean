import Verif.Props.Order
import Verif.Props.Relations
import Verif.Props.Curve
import Verif.Props.Neighbor
import Verif.Props.TreeChecks
import Verif.Props.Refine
import Verif.Props.Coarsen
import Verif.Props.Forest
import Verif.Props.Complete
import Verif.Props.Safety
import Verif.Props.Search
import Verif.Props.Partition
import Verif.Props.Neighborhood
import Verif.Props.Repartition
import Verif.Props.PartitionFamily
import Verif.Props.PartitionExt
import Verif.Props.Transfer
import Verif.Props.Checksum
import Verif.Props.New
import Verif.Props.Connectivity
import Verif.Props.FaceNeighbor
import Verif.Props.Inflate
import Verif.Props.Pertree
import Verif.Props.SaveLoad
import Verif.Props.SearchLocal
import Verif.Props.SearchPartition
import Verif.Spec.Balance
import Verif.Model.Balance
import Verif.Lemmas.BalanceGeom
import Verif.Lemmas.BalanceFill
import Verif.Lemmas.BalancePhase
import Verif.Lemmas.BalanceKernel
import Verif.Lemmas.BalanceSub
import Verif.Lemmas.BalanceMerge
import Verif.Props.Balance
import Verif.Model.Build
import Verif.Spec.Build
import Verif.Lemmas.Build
import Verif.Lemmas.BuildRun
import Verif.Props.Build
import Verif.Model.ForestOps
import Verif.Lemmas.ForestOps
import Verif.Props.Revision
import Verif.Props.Profile
import Verif.Props.ProfileLocal
import Verif.Props.RangeBoundaries
import Verif.Props.Ghost
import Verif.Props.CornerCheck
import Verif.Props.GhostCorner
import Verif.Props.SearchReorder
import Verif.Props.GhostExchange
import Verif.Props.Iterate
import Verif.Props.Balanced
import Verif.Props.Mesh
import Verif.Props.MeshNext
import Verif.Props.Canonical
import Verif.Props.NeighborTransform
import Verif.Props.Brick
import Verif.Props.DataFile
import Verif.Props.Wrap
import Verif.Props.WrapReturn
import Verif.Props.WrapNewly
import Verif.Props.WrapLeaf
import Verif.Props.ConnFaces
import Verif.Props.ConnCorners
import Verif.Model.ConnPermute
import Verif.Props.ConnPermute
import Verif.Model.ConnJoin
import Verif.Spec.ConnJoin
import Verif.Lemmas.ConnStore
import Verif.Lemmas.ConnMerge
import Verif.Lemmas.ConnJoin
import Verif.Props.ConnJoin
import Verif.Model.IsValid
import Verif.Spec.IsValid
import Verif.Lemmas.IsValid
import Verif.Props.IsValid
import Verif.Props.IsEqual
import Verif.Model.BalanceSeeds
import Verif.Spec.BalanceSeeds
import Verif.Lemmas.SeedsSplit
import Verif.Lemmas.SeedsReach
import Verif.Lemmas.SeedsArith
import Verif.Lemmas.SeedsKernel
import Verif.Lemmas.SeedsTest
import Verif.Props.BalanceSeeds
import Verif.Lemmas.SeedsForce
import Verif.Lemmas.SeedsNear
import Verif.Lemmas.SeedsCover
import Verif.Lemmas.SeedsDiag
import Verif.Lemmas.SeedsFace3
import Verif.Lemmas.SeedsSide
import Verif.Lemmas.SeedsList
import Verif.Lemmas.SeedsList3
import Verif.Lemmas.SeedsFit3
import Verif.Lemmas.SeedsAll
import Verif.Props.BalanceSeedsList
import Verif.Model.BalanceBorder
import Verif.Spec.BalanceBorder
import Verif.Lemmas.BorderKernel
import Verif.Lemmas.BorderLoop
import Verif.Props.BalanceBorder
import Verif.Model.Overlap
import Verif.Spec.Overlap
import Verif.Lemmas.OverlapSplit
import Verif.Lemmas.OverlapScan
import Verif.Lemmas.OverlapSearch
import Verif.Lemmas.OverlapFold
import Verif.Props.Overlap
import Verif.Model.Uniqify
import Verif.Props.Uniqify
import Verif.Props.BalanceClosed
import Verif.Model.BalanceExchange
import Verif.Lemmas.ExchangeGeom
import Verif.Lemmas.ExchangePart
import Verif.Lemmas.ExchangeRespond
import Verif.Lemmas.ExchangeMerge
import Verif.Props.BalanceShared
import Verif.Model.BalanceReplace
import Verif.Spec.BalanceReplace
import Verif.Lemmas.BalanceReplace
import Verif.Lemmas.ReplaceLog
import Verif.Lemmas.ReplaceMerge
import Verif.Lemmas.ReplaceBorder
import Verif.Props.BalanceReplace
import Verif.Lemmas.ReplaceTwice
import Verif.Model.BalanceExchangeReplace
import Verif.Props.BalanceSharedReplace
import Verif.Model.ShiftCorner
import Verif.Spec.Corner
import Verif.Lemmas.ShiftCorner
import Verif.Props.ShiftCorner
import Verif.Model.ShiftEdge
import Verif.Lemmas.ShiftEdge
import Verif.Props.ShiftEdge
import Verif.Model.AncestorFace
import Verif.Props.AncestorFace
import Verif.Model.ResetData
import Verif.Spec.ResetData
import Verif.Props.ResetData
import Verif.Model.TransformEdge
import Verif.Spec.EdgeAlong
import Verif.Props.TransformEdge
import Verif.Model.ConnEqual
import Verif.Props.ConnEqual
import Verif.Model.RemoveNonowned
import Verif.Spec.Owned
import Verif.Props.RemoveNonowned
