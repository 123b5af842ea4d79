import Verif.Props.Level
import Verif.Props.Numbers
import Verif.Props.Logger
import Verif.Props.Config
import Verif.Props.Concurrent
import Verif.Props.Format
import Verif.Props.Output
import Verif.Props.Async
import Verif.Props.Rolling
import Verif.Props.RollingFiles
import Verif.Props.RollingTime
import Verif.Props.Lingering
import Verif.Lemmas.Retention
import Verif.Props.Retention
import Verif.Lemmas.RetentionOutput
import Verif.Props.RetentionOutput
import Verif.Props.RollingFaults
import Verif.Props.RollingIdle
import Verif.Props.RollingArchive
import Verif.Props.RollingExploded
import Verif.Props.RollingConfig
import Verif.Props.RollingWrites
import Verif.Lemmas.RollRestarts
import Verif.Props.RollingRestarts
import Verif.Props.RollingThreads
import Verif.Props.EndToEnd
import Verif.Props.EndToEndFaults
import Verif.Props.Archive
import Verif.Model.Standard
import Verif.Spec.Standard
import Verif.Lemmas.Standard
import Verif.Props.Standard
import Verif.Model.LogThreads
import Verif.Lemmas.LogThreads
import Verif.Lemmas.LogAtomic
import Verif.Props.LogThreads
import Verif.Model.System
import Verif.Spec.System
import Verif.Lemmas.System
import Verif.Lemmas.SystemInv
import Verif.Lemmas.SystemRuns
import Verif.Lemmas.SystemSync
import Verif.Lemmas.SystemClose
import Verif.Lemmas.SystemReturns
import Verif.Lemmas.SystemAfter
import Verif.Lemmas.SystemFacts
import Verif.Props.System
import Verif.Lemmas.SystemOrder
import Verif.Props.SystemOrder
import Verif.Model.Shared
import Verif.Spec.Shared
import Verif.Lemmas.Shared
import Verif.Lemmas.SharedRuns
import Verif.Lemmas.SharedGrow
import Verif.Lemmas.SharedHomes
import Verif.Lemmas.SharedSim
import Verif.Props.Shared
import Verif.Model.Machine
import Verif.Model.Stderr
import Verif.Model.Syslog
import Verif.Spec.Machine
import Verif.Lemmas.Machine
import Verif.Lemmas.MachineFiles
import Verif.Lemmas.MachineSync
import Verif.Lemmas.MachineClose
import Verif.Lemmas.MachineRuns
import Verif.Props.Machine
import Verif.Lemmas.MachineLive
import Verif.Props.MachineLive
import Verif.Spec.Fair
import Verif.Lemmas.Fair
import Verif.Lemmas.FairSteps
import Verif.Lemmas.FairCalls
import Verif.Lemmas.FairRuns
import Verif.Lemmas.FairWrites
import Verif.Lemmas.FairLoops
import Verif.Props.Fair
import Verif.Props.FairWrites
import Verif.Model.Signals
import Verif.Spec.Signals
import Verif.Spec.SignalFair
import Verif.Lemmas.Signals
import Verif.Lemmas.SignalFair
import Verif.Lemmas.Own
import Verif.Props.Signals
import Verif.Props.SignalFair
import Verif.Spec.Options
import Verif.Lemmas.Options
import Verif.Props.Options
import Verif.Model.Mutable
import Verif.Spec.Mutable
import Verif.Lemmas.Mutable
import Verif.Props.Mutable
import Verif.Model.Handed
import Verif.Spec.Handed
import Verif.Lemmas.Handed
import Verif.Props.Handed
import Verif.Model.Nested
import Verif.Spec.Nested
import Verif.Lemmas.Nested
import Verif.Props.Nested
import Verif.Spec.Refused
import Verif.Lemmas.Refused
import Verif.Props.Refused
import Verif.Model.Slices
import Verif.Spec.Slices
import Verif.Lemmas.Slices
import Verif.Props.Slices
import Verif.Model.Callbacks
import Verif.Spec.Callbacks
import Verif.Lemmas.Callbacks
import Verif.Lemmas.CallbackRuns
import Verif.Lemmas.CallbackHistories
import Verif.Props.Callbacks
import Verif.Spec.Creators
import Verif.Lemmas.Creators
import Verif.Props.Creators
import Verif.Model.Formatters
import Verif.Spec.Formatters
import Verif.Lemmas.Formatters
import Verif.Lemmas.FormatterWorlds
import Verif.Props.Formatters
import Verif.Model.Panicking
import Verif.Spec.Panicking
import Verif.Lemmas.Panicking
import Verif.Props.Panicking
import Verif.Model.GoTime
import Verif.Spec.GoTime
import Verif.Lemmas.GoTime
import Verif.Props.GoTime
import Verif.Lemmas.RollDates
import Verif.Lemmas.RollDates2
import Verif.Lemmas.RollNamed
import Verif.Props.RollDates
import Verif.Spec.RollForced
import Verif.Lemmas.RollForced
import Verif.Props.RollForced
import Verif.Spec.DateNames
import Verif.Lemmas.DateNames
import Verif.Props.DateNames
import Verif.Props.Handles
import Verif.Props.Times
import Verif.Lemmas.RetentionProgram
import Verif.Props.RetentionProgram
import Verif.Model.Stdout
import Verif.Spec.Stdout
import Verif.Lemmas.Stdout
import Verif.Props.Stdout
import Verif.Spec.Space
import Verif.Lemmas.Space
import Verif.Props.Space
import Verif.Spec.Stderr
import Verif.Lemmas.Stderr
import Verif.Props.Stderr
import Verif.Spec.Syslog
import Verif.Lemmas.Syslog
import Verif.Props.Syslog
import Verif.Model.Races
import Verif.Spec.Races
import Verif.Lemmas.Races
import Verif.Lemmas.RacesInv
import Verif.Lemmas.RacesStep
import Verif.Lemmas.RacesExec
import Verif.Lemmas.RacesInfo
import Verif.Lemmas.RacesInfoInv
import Verif.Lemmas.RacesRun
import Verif.Props.Races
import Verif.Model.Nil
import Verif.Spec.Nil
import Verif.Lemmas.Nil
import Verif.Props.Nil
import Verif.Model.ConfigErrors
import Verif.Spec.ConfigErrors
import Verif.Lemmas.ConfigErrors
import Verif.Props.ConfigErrors
import Verif.Spec.Again
import Verif.Lemmas.Again
import Verif.Props.Again
import Verif.Spec.Isolation
import Verif.Lemmas.Isolation
import Verif.Props.Isolation
import Verif.Spec.AnyOrder
import Verif.Lemmas.AnyOrder
import Verif.Props.AnyOrder
import Verif.Spec.Early
import Verif.Lemmas.Early
import Verif.Props.Early
import Verif.Spec.AskedFor
import Verif.Lemmas.AskedFor
import Verif.Props.AskedFor
import Verif.Props.AnyFetch
import Verif.Spec.Shuffled
import Verif.Lemmas.Shuffled
import Verif.Props.Shuffled
import Verif.Spec.Unused
import Verif.Lemmas.Unused
import Verif.Props.Unused
import Verif.Spec.Without
import Verif.Lemmas.Without
import Verif.Props.Without
import Verif.Spec.SetUp
import Verif.Lemmas.SetUp
import Verif.Props.SetUp
import Verif.Spec.Query
import Verif.Lemmas.Query
import Verif.Props.Query
import Verif.Spec.Interleaved
import Verif.Lemmas.Interleaved
import Verif.Props.Interleaved
import Verif.Spec.LastCounts
import Verif.Lemmas.LastCounts
import Verif.Props.LastCounts
import Verif.Spec.Registrations
import Verif.Lemmas.Registrations
import Verif.Props.Registrations
import Verif.Spec.Late
import Verif.Lemmas.Late
import Verif.Props.Late
