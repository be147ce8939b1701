import Verif.Heap.GlobalModel
/-!
# What a program expects of a global allocator

An object is a size and its bytes; `none` is a byte that was never written. There are no
addresses. -/
namespace Verif.Heap

structure Obj where
  size : Nat
  bytes : Nat → Option UInt8

/-- The effect of an operation with the given outcome. -/
def ideal (objs : List Obj) : GOp → Bool → List Obj
  | .alloc l, true => ⟨l.size, fun _ => none⟩ :: objs
  | .allocZeroed l, true => ⟨l.size, fun _ => some 0⟩ :: objs
  | .dealloc i, true => objs.eraseIdx i
  | .realloc i n, true =>
    match objs[i]? with
    | none => objs
    | some o => ⟨n, fun x => if x < o.size then o.bytes x else none⟩ :: objs.eraseIdx i
  | .write i off v, true =>
    match objs[i]? with
    | none => objs
    | some o => objs.set i { o with bytes := fun x => if x = off then some v else o.bytes x }
  | _, false => objs

/-- The effect of a run. -/
def idealRun (objs : List Obj) : List GOp → List Bool → List Obj
  | op :: ops, ok :: oks => idealRun (ideal objs op ok) ops oks
  | _, _ => objs

/-- The memory holds the bytes of the objects. -/
def Holds (s : GSys) (objs : List Obj) : Prop :=
  s.live.length = objs.length ∧
  ∀ (i : Nat) (b : GBlock) (o : Obj), s.live[i]? = some b → objs[i]? = some o →
    b.layout.size = o.size ∧ ∀ x v, x < o.size → o.bytes x = some v → s.heap.mem (b.ptr + x) = v

/-- Sum of the sizes of the objects. -/
def liveBytes (objs : List Obj) : Int := (objs.map fun o => (o.size : Int)).sum

/-- The size of the request if it was refused with a null pointer. -/
def refusedBy (objs : List Obj) : GOp → Bool → Int
  | .alloc l, false => l.size
  | .allocZeroed l, false => l.size
  | .realloc i n, false => if i < objs.length then n else 0
  | _, _ => 0

/-- Sum of the sizes of the requests that were refused. -/
def refusedBytes (objs : List Obj) : List GOp → List Bool → Int
  | op :: ops, ok :: oks => refusedBy objs op ok + refusedBytes (ideal objs op ok) ops oks
  | _, _ => 0

/-- The sizes fit into a word. -/
def GOp.small (W : Nat) : GOp → Prop
  | .alloc l => l.size < 256 ^ W
  | .allocZeroed l => l.size < 256 ^ W
  | .realloc _ n => n < 256 ^ W
  | _ => True

end Verif.Heap
