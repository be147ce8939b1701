import Verif.Bitfield.Props
import Verif.Atomic.Props
import Verif.Stream.Props
import Verif.Heap.Props
import Verif.Heap.ConcProps
import Verif.Heap.TraceProps
import Verif.Heap.GlobalProps
import Verif.LinkedList.Props
import Verif.LinkedList.ConcProps
import Verif.Oneshot.Props
import Verif.Pulse.Props
import Verif.Ring.Props
import Verif.Ring.Props2
import Verif.Mutex.Props
import Verif.Soft.Props
import Verif.Soft.FixProps
import Verif.Soft.LevelProps
import Verif.Soft.WideProps
import Verif.Exec.Props
import Verif.Exec.ChanProps
import Verif.Exec.StrProps
import Verif.Exec.LockProps
import Verif.Exec.PipeProps
import Verif.Fib.ClosureProps
import Verif.Fib.FutureProps
import Verif.Fib.RingProps
import Verif.Fib.PulseProps
import Verif.Platform.IrqProps
import Verif.Inventory.Props
import Verif.ProcLoop.Props
import Verif.CfgCond.Props
import Verif.Macros.KeywordProps
import Verif.Macros.TokensProps
import Verif.Regs.Props
import Verif.Atomic.RefineProps
import Verif.Periph.Props
import Verif.Periph.FieldsProps
import Verif.Oneshot.Loom
import Verif.Pulse.Loom
import Verif.Ring.Loom
import Verif.Mutex.Loom
import Verif.Heap.Loom
import Verif.LinkedList.Loom
import Verif.Print.Props
import Verif.Local.Props
import Verif.Token.Props
import Verif.Bitfield.DeriveProps
import Verif.Pool.Props
import Verif.Regs.DefProps
import Verif.Oneshot.OrderProps
import Verif.Pulse.OrderProps
import Verif.Ring.OrderProps
import Verif.LinkedList.OrderProps
import Verif.Mutex.OrderProps
import Verif.Heap.OrderProps
import Verif.Soft.OrderProps
import Verif.Decl.Props
import Verif.Regs.MarkerProps
import Verif.Gram.Props
import Verif.Bound.Props
import Verif.Loom.Unit
import Verif.Heap.MultiProps
import Verif.Mutex.FairProps
