import Verif.IndexOps.Props
import Verif.IndexOps.Direct
import Verif.Observer.Props
import Verif.Cache.Props
import Verif.Transform.Props
import Verif.Transform.Singleton
import Verif.Hier.Props
import Verif.Hier.ConProps
import Verif.Hier.TravProps
import Verif.Hier.Witness
import Verif.Hier.CopyProps
import Verif.Opt.Props
import Verif.Notify.Props
import Verif.Names.Props
import Verif.Ravel.Props
import Verif.Concat.Props
import Verif.Opt.FlatNames
import Verif.Opt.Deriv
import Verif.Opt.CheckGrad
import Verif.Opt.CheckGradProps
import Verif.Run.Failures
import Verif.Run.Restarts
import Verif.Run.Lookup
import Verif.Run.Time
import Verif.Run.SCG
import Verif.Mem.Props
import Verif.Mem.ValueProps
import Verif.Mem.CopyProps
import Verif.Run.SharedGrad
import Verif.Run.Records
import Verif.Select.Props
import Verif.Ridge.Props
import Verif.Notify.Told
import Verif.Run.SCGLength
import Verif.Opt.Optimize
import Verif.Opt.OptimizeRestarts
import Verif.Cache.Switch
import Verif.Cache.SwitchProps
import Verif.Notify.Cached
import Verif.Notify.CachedOrder
import Verif.Hier.Alike
import Verif.Hier.Pickle
import Verif.Hier.PickleLemmas
import Verif.Hier.PickleProps
import Verif.Mem.PickleModel
import Verif.Mem.PickleLemmas
import Verif.Mem.PickleProps
import Verif.ObsArray.Model
import Verif.ObsArray.Lemmas
import Verif.ObsArray.Props
import Verif.ObsArray.Witness
import Verif.ObsArray.Cached
import Verif.Concat.Constrain
import Verif.Run.Messages
import Verif.Notify.Display
import Verif.Print.Table
import Verif.Opt.Domain
import Verif.Mem.Domain
import Verif.Opt.Part
import Verif.Mem.Seen
import Verif.Observer.Equality
import Verif.Hier.Families
import Verif.Hier.FamiliesLemmas
import Verif.Hier.FamiliesCopy
import Verif.Hier.FamiliesProps
import Verif.Hier.FamiliesAdd
import Verif.Select.Inplace
import Verif.Select.InplaceProps
import Verif.Mem.GradModel
import Verif.Mem.GradLemmas
import Verif.Mem.GradCopy
import Verif.Mem.GradProps
import Verif.Mem.GradCopyProps
import Verif.Mem.GradLoad
import Verif.Names.Tree
import Verif.Names.TreeSpec
import Verif.Names.TreeLemmas
import Verif.Names.TreeInv
import Verif.Names.TreeProps
import Verif.Names.TreeReturn
import Verif.Names.TreeWitness
import Verif.Cache.Recursive
import Verif.Cache.RecursiveProps
import Verif.Cache.RecursiveMain
import Verif.Run.Parallel
import Verif.Opt.OptimizeParallel
import Verif.Run.SCGWorld
import Verif.Run.FailingRuns
import Verif.Run.FailingStatus
import Verif.Run.SCGWorldPure
import Verif.Mem.Kept
import Verif.Mem.KeptProps
import Verif.Names.Attr
import Verif.Names.AttrProps
import Verif.Select.Save
import Verif.Select.SaveProps
import Verif.Notify.Raising
import Verif.Notify.RaisingProps
import Verif.Mem.Twins
import Verif.Mem.TwinsProps
import Verif.Mem.Loaded
import Verif.Mem.FailingTwins
import Verif.Mem.FailingPure
import Verif.Opt.Watch
import Verif.Opt.WatchProps
import Verif.Opt.WatchFail
import Verif.Mem.Sheet
import Verif.Mem.SheetLemmas
import Verif.Mem.SheetProps
import Verif.Mem.Cut
import Verif.Mem.CutProps
import Verif.Run.Settings
import Verif.Run.SettingsProps
import Verif.Mem.Plan
import Verif.Mem.PlanProps
import Verif.Mem.PlanOff
import Verif.Print.Layout
import Verif.Print.LayoutProps
import Verif.Mem.Alike
import Verif.Mem.AlikeProps
import Verif.Mem.Refuse
import Verif.Print.Drawing
import Verif.Print.DrawingProps
import Verif.Mem.Lend
import Verif.Mem.LendLemmas
import Verif.Mem.LendProps
import Verif.Mem.Beside
import Verif.Mem.BesideProps
import Verif.Notify.Remake
import Verif.Observer.Printed
import Verif.Opt.CheckGradMany
import Verif.IndexOps.Alias
import Verif.IndexOps.Counted
import Verif.Concat.ArrayList
