import Verif.Go.Basic
import Verif.Skl.Props
import Verif.Ord.Props
import Verif.SyncMap.Props
import Verif.Linked.Props
import Verif.Ring.Props
import Verif.SliceC.Props
import Verif.Slicex.Props
import Verif.BitSet.Props
import Verif.Functional.Props
import Verif.Lazy.Props
import Verif.Pool.Props
import Verif.Lockx.Props
import Verif.Trunc.Props
import Verif.Sleep.Props
import Verif.Diff.Props
import Verif.Inter.Props
import Verif.GoPool.Props
import Verif.KillSig.Props
import Verif.Param.Props
import Verif.Using.Props
import Verif.CloseMgr.Props
import Verif.Decouple.Props
import Verif.ConvReg.Props
import Verif.ConvNum.Props
import Verif.ConvUtf8.Props
import Verif.PassHash.Props
import Verif.Aes.Props
import Verif.Bcrypt.Props
import Verif.Search.Props
import Verif.SortX.Props
import Verif.ConvFloat.Model
import Verif.ConvFloat.Spec
import Verif.ConvFloat.Lemmas
import Verif.ConvFloat.Props
import Verif.ConvInit.Model
import Verif.ConvInit.Props
import Verif.Skl.Gone
import Verif.Skl.GoneProps
import Verif.Skl.Draws
import Verif.OrdMod.Model
import Verif.OrdMod.Spec
import Verif.OrdMod.Lemmas
import Verif.OrdMod.Props
import Verif.SliceMod.Model
import Verif.SliceMod.Spec
import Verif.SliceMod.Lemmas
import Verif.SliceMod.Props
import Verif.ConvConc.Model
import Verif.ConvConc.Spec
import Verif.ConvConc.Lemmas
import Verif.ConvConc.Props
import Verif.CloseConc.Model
import Verif.CloseConc.Spec
import Verif.CloseConc.Lemmas
import Verif.CloseConc.Rank
import Verif.CloseConc.Props
import Verif.LazyConc.Model
import Verif.LazyConc.Spec
import Verif.LazyConc.Lemmas
import Verif.LazyConc.Rank
import Verif.LazyConc.Props
import Verif.DecPanic.Model
import Verif.DecPanic.Lemmas
import Verif.DecPanic.Props
import Verif.ClosePanic.Model
import Verif.ClosePanic.Spec
import Verif.ClosePanic.Lemmas
import Verif.ClosePanic.Props
import Verif.SlicePanic.Model
import Verif.SlicePanic.Lemmas
import Verif.SlicePanic.Props
import Verif.SyncPanic.Model
import Verif.SyncPanic.Spec
import Verif.SyncPanic.Lemmas
import Verif.SyncPanic.Props
import Verif.SklAny.Spec
import Verif.SklAny.Lemmas
import Verif.SklAny.Props
import Verif.OrdAny.Spec
import Verif.OrdAny.Lemmas
import Verif.OrdAny.Props
import Verif.SyncAny.Model
import Verif.SyncAny.Spec
import Verif.SyncAny.Lemmas
import Verif.SyncAny.Props
import Verif.DequeEnd.Spec
import Verif.DequeEnd.Lemmas
import Verif.DequeEnd.Props
import Verif.AutoCmd.Model
import Verif.AutoCmd.Spec
import Verif.AutoCmd.Lemmas
import Verif.AutoCmd.Props
import Verif.ListExact.Spec
import Verif.ListExact.Lemmas
import Verif.ListExact.Props
import Verif.PoolRace.Spec
import Verif.PoolRace.Lemmas
import Verif.PoolRace.Props
import Verif.DecMem.Model
import Verif.DecMem.Spec
import Verif.DecMem.Lemmas
import Verif.DecMem.Props
import Verif.ListMod.Model
import Verif.ListMod.Spec
import Verif.ListMod.Lemmas
import Verif.ListMod.Only
import Verif.ListMod.Props
import Verif.Conc.RW
import Verif.Conc.RWEnds
import Verif.SyncKey.Model
import Verif.SyncKey.Spec
import Verif.SyncKey.Lemmas
import Verif.SyncKey.Props
import Verif.PoolIdle.Model
import Verif.PoolIdle.Lemmas
import Verif.PoolIdle.Props
import Verif.DecMulti.Model
import Verif.DecMulti.Lemmas
import Verif.DecMulti.Props
import Verif.InterExact.Lemmas
import Verif.InterExact.Props
import Verif.SklClear.Lemmas
import Verif.SklClear.Props
import Verif.SliceParts.Model
import Verif.SliceParts.Spec
import Verif.SliceParts.Lemmas
import Verif.SliceParts.Props
import Verif.DecOrder.Spec
import Verif.DecOrder.Lemmas
import Verif.DecOrder.Props
import Verif.SleepRace.Spec
import Verif.SleepRace.Props
import Verif.SleepUntil.Model
import Verif.SleepUntil.Spec
import Verif.SleepUntil.Props
import Verif.AesCbc.Spec
import Verif.AesCbc.Props
import Verif.ConvMem.Model
import Verif.ConvMem.Spec
import Verif.ConvMem.Props
import Verif.ZeroVal.Model
import Verif.ZeroVal.Spec
import Verif.ZeroVal.Props
import Verif.Dsx.Model
import Verif.Dsx.Spec
import Verif.Dsx.Lemmas
import Verif.Dsx.Props
import Verif.CloseNest.Model
import Verif.CloseNest.Spec
import Verif.CloseNest.Lemmas
import Verif.CloseNest.Props
import Verif.SortSearch.Props
import Verif.LazyPanic.Model
import Verif.LazyPanic.Spec
import Verif.LazyPanic.Lemmas
import Verif.LazyPanic.Props
import Verif.DecNone.Spec
import Verif.DecNone.Props
import Verif.DecAlone.Spec
import Verif.DecAlone.Lemmas
import Verif.DecAlone.Props
import Verif.PoolFair.Spec
import Verif.PoolFair.Lemmas
import Verif.PoolFair.Props
import Verif.PoolDrain.Spec
import Verif.PoolDrain.Lemmas
import Verif.PoolDrain.Extra
import Verif.PoolDrain.Few
import Verif.PoolDrain.Tight
import Verif.PoolDrain.Props
import Verif.SliceAll.Spec
import Verif.SliceAll.Model
import Verif.SliceAll.Lemmas
import Verif.SliceAll.Props
import Verif.SearchCost.Model
import Verif.SearchCost.Lemmas
import Verif.SearchCost.Props
import Verif.SleepFair.Spec
import Verif.SleepFair.Lemmas
import Verif.SleepFair.Props
import Verif.DecFair.Spec
import Verif.DecFair.Lemmas
import Verif.DecFair.Starve
import Verif.DecFair.Marks
import Verif.DecFair.Props
import Verif.InterMove.Spec
import Verif.InterMove.Lemmas
import Verif.InterMove.Props
import Verif.LinkSrc.Spec
import Verif.LinkSrc.Lemmas
import Verif.LinkSrc.Props
import Verif.CloseFind.Model
import Verif.CloseFind.Spec
import Verif.CloseFind.Lemmas
import Verif.CloseFind.Props
import Verif.PoolSerial.Spec
import Verif.PoolSerial.Lemmas
import Verif.PoolSerial.Props
import Verif.ShuffleFair.Spec
import Verif.ShuffleFair.Lemmas
import Verif.ShuffleFair.Props
import Verif.TruncCal.Lemmas
import Verif.TruncCal.Props
import Verif.SklCost.Model
import Verif.SklCost.Spec
import Verif.SklCost.Lemmas
import Verif.SklCost.Props
import Verif.Skl.Height
import Verif.PassCost.Spec
import Verif.PassCost.Props
import Verif.SortedSet.Model
import Verif.SortedSet.Spec
import Verif.SortedSet.Lemmas
import Verif.SortedSet.Props
import Verif.Retain.Spec
import Verif.Retain.Lemmas
import Verif.Retain.Props
import Verif.ConvChain.Spec
import Verif.ConvChain.Lemmas
import Verif.ConvChain.Props
import Verif.PoolTree.Model
import Verif.PoolTree.Spec
import Verif.PoolTree.Lemmas
import Verif.PoolTree.Props
import Verif.ConvPanic.Model
import Verif.ConvPanic.Spec
import Verif.ConvPanic.Lemmas
import Verif.ConvPanic.Props
import Verif.Conc.RWLocal
import Verif.SklShare.Model
import Verif.SklShare.Spec
import Verif.SklShare.Lemmas
import Verif.SklShare.Props
import Verif.KillMany.Model
import Verif.KillMany.Lemmas
import Verif.KillMany.Props
import Verif.SliceUndo.Model
import Verif.SliceUndo.Lemmas
import Verif.SliceUndo.Props
import Verif.InterTrue.Spec
import Verif.InterTrue.Lemmas
import Verif.InterTrue.Props
import Verif.Demo.Model
import Verif.Demo.Props
import Verif.Conc.Track
import Verif.RingPair.Model
import Verif.RingPair.Spec
import Verif.RingPair.Lemmas
import Verif.RingPair.Props
import Verif.SliceSide.Model
import Verif.SliceSide.Spec
import Verif.SliceSide.Lemmas
import Verif.SliceSide.Props
import Verif.SklMean.Model
import Verif.SklMean.Spec
import Verif.SklMean.Count
import Verif.SklMean.Lemmas
import Verif.SklMean.Hist
import Verif.SklMean.Props
import Verif.Footprint.Spec
import Verif.Footprint.Lemmas
import Verif.Footprint.Leak
import Verif.Footprint.Props
import Verif.Go.Str
import Verif.RepoTests.Slicex
import Verif.RepoTests.Skl
import Verif.RepoTests.Rest
import Verif.OrdShare.Model
import Verif.OrdShare.Spec
import Verif.OrdShare.Lemmas
import Verif.OrdShare.Props
import Verif.PoolUse.Model
import Verif.PoolUse.Spec
import Verif.PoolUse.Lemmas
import Verif.PoolUse.Props
import Verif.PoolFull.Spec
import Verif.PoolFull.Lemmas
import Verif.PoolFull.Live
import Verif.PoolFull.Run
import Verif.PoolFull.Props
import Verif.SklTail.Spec
import Verif.SklTail.Lemmas
import Verif.SklTail.Hist
import Verif.SklTail.Props
import Verif.KillClose.Model
import Verif.KillClose.Spec
import Verif.KillClose.Lemmas
import Verif.KillClose.Props
import Verif.HandOut.Model
import Verif.HandOut.Spec
import Verif.HandOut.Lemmas
import Verif.HandOut.Props
import Verif.SlicePar.Model
import Verif.SlicePar.Spec
import Verif.SlicePar.Link
import Verif.SlicePar.Lemmas
import Verif.SlicePar.Props
import Verif.LazyAll.Model
import Verif.LazyAll.Spec
import Verif.LazyAll.Lemmas
import Verif.LazyAll.Ends
import Verif.LazyAll.Props
import Verif.Conc.Prod
import Verif.BitShare.Model
import Verif.BitShare.Spec
import Verif.BitShare.Lemmas
import Verif.BitShare.Props
import Verif.CopyVal.Model
import Verif.CopyVal.Spec
import Verif.CopyVal.Lemmas
import Verif.CopyVal.Props
import Verif.SklWeak.Spec
import Verif.SklWeak.Lemmas
import Verif.SklWeak.Props
import Verif.SortKeys.Spec
import Verif.SortKeys.Lemmas
import Verif.SortKeys.Props
import Verif.MapUpd.Model
import Verif.MapUpd.Spec
import Verif.MapUpd.Lemmas
import Verif.MapUpd.Props
import Verif.Conc.Client
import Verif.MapProg.Props
import Verif.MapCache.Model
import Verif.MapCache.Spec
import Verif.MapCache.Lemmas
import Verif.MapCache.Props
import Verif.MapLoop.Model
import Verif.MapLoop.Spec
import Verif.MapLoop.Lemmas
import Verif.MapLoop.Props
import Verif.SklLoop.Model
import Verif.SklLoop.Spec
import Verif.SklLoop.Lemmas
import Verif.SklLoop.Props
import Verif.ShareProg.Props
import Verif.PoolProg.Model
import Verif.PoolProg.Spec
import Verif.PoolProg.Lemmas
import Verif.PoolProg.Store
import Verif.PoolProg.Fair
import Verif.PoolProg.Props
import Verif.Conc.Sect
import Verif.CritSec.Model
import Verif.CritSec.Spec
import Verif.CritSec.Lemmas
import Verif.CritSec.Props
import Verif.Conc.Many
import Verif.WorkMap.Model
import Verif.WorkMap.Spec
import Verif.WorkMap.Lemmas
import Verif.WorkMap.Props
import Verif.PassText.Model
import Verif.PassText.Spec
import Verif.PassText.Lemmas
import Verif.PassText.Props
import Verif.Conc.RWFair
import Verif.MapFair.Spec
import Verif.MapFair.Lemmas
import Verif.MapFair.Props
import Verif.Conc.Later
import Verif.MapFlag.Spec
import Verif.MapFlag.Lemmas
import Verif.MapFlag.Props
import Verif.ConvServe.Model
import Verif.ConvServe.Spec
import Verif.ConvServe.Lemmas
import Verif.ConvServe.Props
import Verif.CloseServe.Model
import Verif.CloseServe.Spec
import Verif.CloseServe.Lemmas
import Verif.CloseServe.Props
import Verif.SklPage.Model
import Verif.SklPage.Spec
import Verif.SklPage.Lemmas
import Verif.SklPage.Props
import Verif.SklPrio.Model
import Verif.SklPrio.Spec
import Verif.SklPrio.Lemmas
import Verif.SklPrio.Props
import Verif.BitAlloc.Model
import Verif.BitAlloc.Spec
import Verif.BitAlloc.Lemmas
import Verif.BitAlloc.Props
import Verif.UserStore.Model
import Verif.UserStore.Spec
import Verif.UserStore.Lemmas
import Verif.UserStore.Props
import Verif.PassChange.Model
import Verif.PassChange.Spec
import Verif.PassChange.Lemmas
import Verif.PassChange.Props
