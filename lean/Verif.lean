import Verif.Res
import Verif.Bitmap.Props
import Verif.Random.Props
import Verif.Search.Props
import Verif.Serialize.Props
import Verif.Bdcc.Props
import Verif.BTree.Props
import Verif.BTree.RecoverProps
import Verif.FPTree.Props
import Verif.FPTree.SplitCrashProps
import Verif.CrashHistSpec
import Verif.FPTree.InsertCrash
import Verif.FPTree.InsertCrashProps
import Verif.BTree.RecoverShadow
import Verif.FPTree.EraseCrash
import Verif.FPTree.EraseCrashRec
import Verif.FPTree.EraseCrashLoop
import Verif.FPTree.EraseCrashTree
import Verif.FPTree.EraseCrashProps
import Verif.BaseTrie.Props
import Verif.SkipList.Props
import Verif.SkipList.CrashProps
import Verif.WoSkip.Props
import Verif.WoSkip.CrashProps
import Verif.Unsorted.Props
import Verif.Tx.Props
import Verif.BaseTrie.Crash
import Verif.PTable.Props
import Verif.PTable.TableProps
import Verif.PTable.ScanProps
import Verif.PTable.CrashProps
import Verif.PTable.TableCrashProps
import Verif.PTable.TableCrashTotal
import Verif.PTable.Index
import Verif.PTable.IndexProps
import Verif.WBTree.Props
import Verif.WBTree.ScanProps
import Verif.WBTree.GeneralProps
import Verif.WBTree.RangeProps
import Verif.WBTree.EraseTreeProps
import Verif.WBTree.BalanceProps
import Verif.WBTree.RecoverProps
import Verif.WBTree.EraseCrashProps
import Verif.BitTree.Props
import Verif.BitTree.EraseProps
import Verif.BitTree.UnderflowProps
import Verif.BitTree.Deep
import Verif.BitTree.NodeSpec
import Verif.BitTree.DeepLaw
import Verif.BitTree.DeepNode
import Verif.BitTree.DeepErase
import Verif.BitTree.DeepProps
import Verif.BitTree.DeepWrong
import Verif.BitTree.ScanProps
import Verif.BitTree.RecoverProps
import Verif.Patricia.Props
import Verif.Patricia.CountProps
import Verif.Patricia.Crash
import Verif.PString.Props
import Verif.PString.TableInfo
import Verif.Unsorted.IterProps
import Verif.BTree.CrashProps
import Verif.BTree.SplitCrashProps
import Verif.Unsorted.CrashProps
import Verif.Unsorted.SplitCrashProps
import Verif.BitTree.CrashProps
import Verif.BitTree.Iter
import Verif.BitTree.SplitCrash
import Verif.BitTree.SplitCrashLaw
import Verif.BitTree.SplitCrashTree
import Verif.BitTree.SplitCrashProps
import Verif.BitTree.InsertCrash
import Verif.BitTree.InsertCrashTree
import Verif.BitTree.InsertCrashProps
import Verif.Utils.Props
import Verif.BTree.InsertCrash
import Verif.BTree.InsertCrashTree
import Verif.BTree.InsertCrashLevel
import Verif.BTree.InsertCrashProps
import Verif.Unsorted.InsertCrashProps
import Verif.BTree.RecoverFill
import Verif.BTree.RecoverWrong
import Verif.FPTree.RestartProps
import Verif.BTree.RecoverGhost
import Verif.BTree.RestartMin
import Verif.BTree.RestartTree
import Verif.BTree.RestartErase
import Verif.BTree.RestartHist
import Verif.BTree.RestartProps
import Verif.BTree.MergeCrashProps
import Verif.BTree.DropCrashProps
import Verif.BTree.JoinCrashProps
import Verif.BTree.BalCrashProps
import Verif.BTree.BalCrashFar
import Verif.BTree.BalCrashFarProps
import Verif.BTree.RootCrash
import Verif.BTree.RootCrashProps
import Verif.BTree.BalCrashScan
import Verif.BTree.BalCrashScanProps
import Verif.BTree.DropCrashScan
