import Verif.GoMap
import Verif.IdxTable.Model
import Verif.IdxTable.Spec
import Verif.IdxTable.Api
import Verif.IdxTable.Lemmas
import Verif.IdxTable.Refine
import Verif.IdxTable.Props
import Verif.IdxTable.HistProps
import Verif.IdxTable.CopyProps
import Verif.IdxTable.ZeroProps
import Verif.IdxTable.IterProps
import Verif.Ranged.Model
import Verif.Ranged.Spec
import Verif.Ranged.Api
import Verif.Ranged.Refine
import Verif.Ranged.Props
import Verif.Ranged.HistProps
import Verif.Ranged.CopyProps
import Verif.Ranged.FullProps
import Verif.IPTable.Model
import Verif.IPTable.Spec
import Verif.IPTable.Api
import Verif.IPTable.Refine
import Verif.IPTable.Props
import Verif.IPTable.HistProps
import Verif.IPTable.CopyProps
import Verif.IPTable.SlotProps
import Verif.Id.Model
import Verif.Id.Bits
import Verif.Id.Spec
import Verif.Id.Ranges
import Verif.Id.Parse
import Verif.Id.Set
import Verif.Id.Norm
import Verif.Id.Builder
import Verif.Id.Ids64
import Verif.Id.SetExact
import Verif.Id.Props
import Verif.Id.StringProps
import Verif.Id.SetProps
import Verif.Id.SetExactProps
import Verif.Id.PtrProps
import Verif.Id.FreeProps
import Verif.Id.FreeExactProps
import Verif.Tree.Model
import Verif.Tree.Bits
import Verif.Tree.Shape
import Verif.Tree.Rep
import Verif.Tree.AddSpec
import Verif.Tree.DelSpec
import Verif.Tree.DelNode
import Verif.Tree.Vals
import Verif.Tree.Delete
import Verif.Tree.Iter
import Verif.Tree.Refine
import Verif.Tree.Spec
import Verif.Tree.Needs
import Verif.Tree.Runs
import Verif.Tree.IterSame
import Verif.Tree.Props
import Verif.Tree.Leak
import Verif.Tree.Long
import Verif.Tree.Crowd
import Verif.Tree.Viol32
import Verif.GTree.Model
import Verif.GTree.Spec
import Verif.GTree.Refine
import Verif.GTree.Free
import Verif.GTree.Props
import Verif.GTree.Viol32
import Verif.GTree.FreeProps
import Verif.GTree.ClaimProps
import Verif.GTree.AliasProps
import Verif.IPTable.AliasProps
import Verif.IPTable.InvalidProps
import Verif.IPTable.NumberProps
import Verif.IPTable.Text
import Verif.IPTable.TextProps
import Verif.IPTable.TextTable
import Verif.IPTable.Text6
import Verif.IPTable.Text6Props
import Verif.Alloc.TextProps
import Verif.Ranged.WidthProps
import Verif.Ranged.ShiftProps
import Verif.Alloc.Spec
import Verif.Alloc.Props
import Verif.GTree.IterProps
import Verif.GTree.CostProps
import Verif.Id.InvProps
import Verif.Id.RoundProps
import Verif.GTree.InvProps
import Verif.GTree.ExactProps
import Verif.Tree.Cell64
import Verif.Tree.CloneProps
import Verif.Tree.MultiProps
import Verif.Tree.BufferProps
import Verif.Tree.MemProps
import Verif.Tree.ForeignProps
import Verif.Tree.Acyclic
import Verif.Tree.EndProps
import Verif.Tree.CostProps
import Verif.Tree.ValsAll
import Verif.GTree.Cell64Props
import Verif.GTree.CloneProps
import Verif.GTree.HistProps
import Verif.GTree.CopyProps
import Verif.GTree.RangeProps
import Verif.GTree.RoomProps
import Verif.GTree.WidthProps
import Verif.GTree.TableProps
import Verif.GTree.WrapProps
import Verif.GTree.LongProps
import Verif.GTree.DumpModel
import Verif.GTree.DumpProps
import Verif.GTree.EntryProps
import Verif.GTree.EntryStrProps
import Verif.Errs.Model
import Verif.Errs.SlotProps
import Verif.Errs.SetModel
import Verif.Errs.SetProps
import Verif.Errs.Spec
import Verif.Errs.IdxProps
import Verif.Errs.TableProps
import Verif.Errs.TreeProps
import Verif.Conc.Lang
import Verif.Conc.Model
import Verif.Conc.Sim
import Verif.Conc.Safe
import Verif.Conc.Methods
import Verif.Conc.Trace
import Verif.Conc.Realize
import Verif.Conc.Spec
import Verif.Conc.Claims
import Verif.Conc.Tables
import Verif.Conc.Paths
import Verif.Conc.Sched
import Verif.Conc.Points
import Verif.Conc.Props
import Verif.Conc.TableProps
import Verif.Conc.Rely
import Verif.Conc.LabelProps
import Verif.Conc.Lin
import Verif.Conc.LinProps
import Verif.Conc.LinFullProps
import Verif.Conc.TreeModel
import Verif.Conc.TreeProps
import Verif.Conc.TreeRace
import Verif.Conc.TreeRead
import Verif.Conc.TreeSpec
import Verif.Conc.Solo
import Verif.Conc.TreePend
import Verif.Conc.TreeSync
import Verif.Conc.TreeLin
import Verif.Conc.TreeSerial
import Verif.Conc.TreeAtomic
import Verif.Conc.TreeCell
import Verif.Conc.Term
import Verif.Conc.TermProps
import Verif.Conc.Bounded
import Verif.Conc.TreeTidy
import Verif.Conc.TreeEnd
import Verif.Conc.Reads
import Verif.Conc.ReadProps
import Verif.Conc.SlotProps
import Verif.Conc.Keeps
import Verif.Conc.Seen
import Verif.Conc.IterProps
import Verif.Conc.Between
import Verif.Conc.ReplaceProps
import Verif.Conc.CostProps
import Verif.Tests.Model
import Verif.Tests.Props
import Verif.Tests.DemoProps
