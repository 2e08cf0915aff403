import Verif.Props.Event
import Verif.Props.Text
import Verif.Props.Semabin
import Verif.Props.Lifecycle
import Verif.Props.Result
import Verif.Props.Walk
import Verif.Props.Inotify
import Verif.Props.Kernel
import Verif.Props.History
import Verif.Props.Fanotify
import Verif.Props.Darwin
import Verif.Props.Windows
import Verif.Props.Warthog
import Verif.Props.Bindings
import Verif.Props.Cli
import Verif.Props.Adapter
import Verif.Props.FKernel
import Verif.Props.Polled
import Verif.Props.DarwinLife
import Verif.Spec.FWhole
import Verif.Lemmas.FWhole
import Verif.Lemmas.FWhole2
import Verif.Props.FWhole
import Verif.Model.Handle
import Verif.Spec.Handle
import Verif.Lemmas.Handle
import Verif.Lemmas.Handle2
import Verif.Props.Handle
import Verif.Spec.FExact
import Verif.Lemmas.FExact
import Verif.Lemmas.FExact2
import Verif.Props.FExact
import Verif.Model.Program
import Verif.Spec.Program
import Verif.Lemmas.Program
import Verif.Lemmas.Program2
import Verif.Lemmas.Program3
import Verif.Props.Program
import Verif.Lemmas.Text2
import Verif.Props.TextExact
import Verif.Props.WindowsAll
import Verif.Props.WarthogAll
import Verif.Model.WinBytes
import Verif.Spec.WinBytes
import Verif.Lemmas.WinBytes
import Verif.Props.WinBytes
import Verif.Spec.DarwinAll
import Verif.Props.DarwinAll
import Verif.Model.NodeLife
import Verif.Spec.NodeLife
import Verif.Lemmas.NodeLife
import Verif.Lemmas.NodeLife2
import Verif.Props.NodeLife
import Verif.Lemmas.Utf8
import Verif.Props.Utf8
import Verif.Props.ProgramJson
import Verif.Spec.Doomed
import Verif.Props.Doomed
import Verif.Spec.WarthogExact
import Verif.Props.WarthogExact
import Verif.Spec.HandleEnds
import Verif.Props.HandleEnds
import Verif.Model.Wide
import Verif.Spec.Wide
import Verif.Props.Wide
import Verif.Model.Times
import Verif.Spec.Times
import Verif.Lemmas.Times
import Verif.Props.Times
import Verif.Model.Threads
import Verif.Spec.Threads
import Verif.Props.Threads
import Verif.Model.PyLoad
import Verif.Spec.PyLoad
import Verif.Props.PyLoad
import Verif.Model.PyProgram
import Verif.Spec.PyProgram
import Verif.Props.PyProgram
import Verif.Model.PyExit
import Verif.Spec.PyExit
import Verif.Props.PyExit
import Verif.Model.NodeEnd
import Verif.Spec.NodeEnd
import Verif.Props.NodeEnd
import Verif.Model.WalkLimits
import Verif.Spec.WalkLimits
import Verif.Props.WalkLimits
import Verif.Spec.DarwinCreate
import Verif.Props.DarwinCreate
import Verif.Spec.NoMarks
import Verif.Props.NoMarks
import Verif.Model.Signals
import Verif.Model.Throw
import Verif.Spec.Signals
import Verif.Spec.Throw
import Verif.Lemmas.Doom
import Verif.Props.Signals
import Verif.Props.Throw
import Verif.Spec.Naming
import Verif.Props.Naming
import Verif.Spec.Gone
import Verif.Props.Gone
import Verif.Spec.Absolute
import Verif.Props.Absolute
import Verif.Spec.Happens
import Verif.Spec.Memory
import Verif.Spec.MemoryPolled
import Verif.Spec.MemoryDarwin
import Verif.Props.Memory
import Verif.Props.MemoryPolled
import Verif.Props.MemoryDarwin
import Verif.Spec.Types
import Verif.Props.Types
import Verif.Model.ThrowPolled
import Verif.Spec.ThrowPolled
import Verif.Props.ThrowPolled
import Verif.Model.ThrowDarwin
import Verif.Spec.ThrowDarwin
import Verif.Props.ThrowDarwin
import Verif.Model.DarwinRefs
import Verif.Spec.DarwinRefs
import Verif.Props.DarwinRefs
import Verif.Model.ManyFds
import Verif.Spec.ManyFds
import Verif.Props.ManyFds
import Verif.Model.Unmount
import Verif.Props.Unmount
import Verif.Spec.Starve
import Verif.Props.Starve
import Verif.Props.StarveF
import Verif.Props.FSwap
import Verif.Props.StarveWhole
import Verif.Props.StarveFWhole
import Verif.Props.PyLow
import Verif.Props.Start
import Verif.Props.StarveFAlways
import Verif.Props.FAlways
import Verif.Props.FUnmoved
