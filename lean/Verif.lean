import Verif.Model.Key
import Verif.Model.Collections
import Verif.Model.FlameGraph
import Verif.Model.Visitor
import Verif.Model.Builder
import Verif.Model.SizeOf
import Verif.Lemmas.Order
import Verif.Spec.Stack
import Verif.Lemmas.FlameGraph
import Verif.Spec.Records
import Verif.Lemmas.Builder
import Verif.Lemmas.Exec
import Verif.Lemmas.Finish
import Verif.Lemmas.Output
import Verif.Spec.Run
import Verif.Lemmas.Run
import Verif.Props.Examples
import Verif.Props.Core
import Verif.Spec.Parse
import Verif.Lemmas.Parse
import Verif.Props.Text
import Verif.Lemmas.Leak
import Verif.Spec.Events
import Verif.Lemmas.Events
import Verif.Props.Visits
import Verif.Spec.Cut
import Verif.Lemmas.Cut
import Verif.Spec.Totals
import Verif.Lemmas.Totals
import Verif.Spec.SizeOf
import Verif.Lemmas.Calls
import Verif.Props.Totals
import Verif.Spec.Key
import Verif.Props.Keys
import Verif.Props.Objects
import Verif.Model.Usize
import Verif.Model.Impls
import Verif.Props.Golden
import Verif.Model.Derive
import Verif.Spec.Derive
import Verif.Lemmas.Derive
import Verif.Props.Derive
import Verif.Model.Datum
import Verif.Spec.Datum
import Verif.Lemmas.Datum
import Verif.Lemmas.Fits
import Verif.Lemmas.Own
import Verif.Lemmas.Report
import Verif.Props.Data
import Verif.Props.Report
import Verif.Model.Pointers
import Verif.Spec.Pointers
import Verif.Props.Pointers
import Verif.Props.GlobalRoots
import Verif.Props.DerivedReport
import Verif.Spec.Layout
import Verif.Props.Layouts
import Verif.Model.Locks
import Verif.Spec.Locks
import Verif.Lemmas.Locks
import Verif.Props.Locks
import Verif.Model.Registry
import Verif.Props.Registry
import Verif.Model.Machine
import Verif.Spec.Machine
import Verif.Lemmas.Machine
import Verif.Spec.Wrap
import Verif.Lemmas.Wrap
import Verif.Props.Machine
import Verif.Props.Wrap
import Verif.Model.Root
import Verif.Props.Root
import Verif.Spec.Bulk
import Verif.Props.Bulk
import Verif.Model.Unwind
import Verif.Model.Write
import Verif.Model.Session
import Verif.Model.SizeSession
import Verif.Spec.SizeSession
import Verif.Spec.Unwind
import Verif.Lemmas.Unwind
import Verif.Lemmas.Write
import Verif.Lemmas.Session
import Verif.Props.Unwind
import Verif.Spec.Generated
import Verif.Props.Generated
import Verif.Props.DeriveTypes
import Verif.Props.Session
import Verif.Props.SizeSession
import Verif.Model.Alloc
import Verif.Spec.Footprint
import Verif.Lemmas.Footprint
import Verif.Props.Footprint
import Verif.Props.Names
import Verif.Spec.Memory
import Verif.Lemmas.Levels
import Verif.Props.Memory
import Verif.Model.Live
import Verif.Spec.Live
import Verif.Lemmas.Live
import Verif.Lemmas.LiveSize
import Verif.Props.Live
import Verif.Props.LiveRoots
import Verif.Spec.Gaps
import Verif.Lemmas.Gaps
import Verif.Props.Gaps
import Verif.Props.Parts
import Verif.Spec.Merge
import Verif.Props.Merge
import Verif.Spec.Rebuild
import Verif.Props.Rebuild
import Verif.Spec.CarryOver
import Verif.Props.CarryOver
import Verif.Spec.Frames
import Verif.Props.Frames
import Verif.Spec.Reordered
import Verif.Lemmas.Reordered
import Verif.Props.Reproducible
import Verif.Spec.Nesting
import Verif.Props.DepthValues
import Verif.Spec.Local
import Verif.Props.Local
import Verif.Spec.Nested
import Verif.Props.Nested
import Verif.Props.SameNames
import Verif.Props.Retained
import Verif.Props.Showcase
import Verif.Props.Word32
import Verif.Spec.Rename
import Verif.Lemmas.Rename
import Verif.Props.Rename
import Verif.Spec.Growth
import Verif.Props.Growth
import Verif.Spec.Depth
import Verif.Lemmas.Depth
import Verif.Props.Depth
import Verif.Props.DepthOwned
import Verif.Model.MachineSession
import Verif.Lemmas.MachineSession
import Verif.Props.MachineSession
import Verif.Model.MachineLocks
import Verif.Lemmas.MachineLocks
import Verif.Lemmas.MachineLocksStop
import Verif.Lemmas.MachineLocksPanic
import Verif.Props.LiveMachine
import Verif.Model.BuildScript
import Verif.Props.BuildScript
import Verif.Props.Moved
import Verif.Props.LiveMachineRoots
import Verif.Props.DepthAtMost
import Verif.Spec.LiveEvents
import Verif.Lemmas.LiveEvents
import Verif.Props.LiveCost
import Verif.Spec.Confined
import Verif.Model.Threads
import Verif.Lemmas.Threads
import Verif.Spec.Threads
import Verif.Props.Threads
import Verif.Props.ThreadsGuards
import Verif.Props.ThreadsAgree
import Verif.Props.ThreadsSizeOf
import Verif.Model.ThreadsMachine
import Verif.Lemmas.ThreadsMachine
import Verif.Props.ThreadsMachine
import Verif.Props.ThreadsGlobal
import Verif.Props.Confined
