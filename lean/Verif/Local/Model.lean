/-!
# Thread-local storage: `src/thr/mod.rs` 81–166, 203–237, `macros/src/thr_pool.rs` 200–280

Threads of any number of pools preempt each other; code outside of all pools runs below them
or preempts them, too. A thread-local storage need not be `Sync` (`LocalOpaque`, 220–229), so
what is taken from it need not be `Send`: a reference to it, or for example a clone of an `Rc`
in it. Such a thing is called a handle here and is identified with the thread it belongs to.

The type system decides where handles can be: in variables of the running code, and in
fibers. `add_fib` takes only `Send` fibers (195–201), which have no handles; the closure given
to `add_fib_factory` (203–213) is `Send`, but what it returns need not be.
-/
namespace Verif.Local

/-- A thread: pool and index. -/
structure Thr where
  pool : Nat
  idx : Nat
deriving DecidableEq, Repr

/-- Running or preempted code: a thread of a pool, or none of them (main program, interrupt
handler without thread). -/
structure Frame where
  me : Option Thr
  /-- `preempted` (159) -/
  saved : Nat
  /-- handles in variables -/
  vars : List Thr
deriving DecidableEq, Repr

structure State where
  /-- innermost first -/
  stack : List Frame
  /-- the static `CURRENT` of each pool (`thr_pool.rs` 256–261) -/
  current : Nat → Nat
  /-- the fibers of each thread, with the handles they hold -/
  chain : Thr → List (List Thr)

/-- Handle `owner` is used by `by_` (`none`: code outside of all pools). -/
structure Use where
  by_ : Option Thr
  owner : Thr
deriving DecidableEq, Repr

/-- The main program starts; `CURRENT` is 0. -/
def init : State := { stack := [⟨none, 0, []⟩], current := fun _ => 0, chain := fun _ => [] }

inductive Op where
  /-- `Thread::call` (157–165): thread `t` starts, preempting the running code -/
  | call (t : Thr)
  /-- an interrupt handler that is no thread starts -/
  | irq
  /-- the running code returns to the preempted code -/
  | ret
  /-- `Thread::local_checked` of a pool (132–139), the result is kept -/
  | loc (pool : Nat)
  /-- a handle in a variable is used -/
  | use (j : Nat)
  /-- `add_fib` (195–201) to thread `t` -/
  | addFib (t : Thr)
  /-- `add_fib_factory` (207–213) to thread `t`; the factory calls `local_checked` of these
  pools and puts the results into the fiber -/
  | addFactory (t : Thr) (pools : List Nat)
  /-- the running thread advances fiber `j` (`resume`, 147–149): the fiber uses its handles,
  calls `local_checked` of these pools, keeps the results, and stays if `stays` -/
  | fiber (j : Nat) (pools : List Nat) (stays : Bool)
deriving DecidableEq, Repr

def setNat (f : Nat → Nat) (i v : Nat) : Nat → Nat := fun j => if j = i then v else f j

def setChain (f : Thr → List (List Thr)) (t : Thr) (l : List (List Thr)) : Thr → List (List Thr) :=
  fun u => if u = t then l else f u

/-- `local_checked` (132–139): `none` if the index of the pool is 0. -/
def State.localOf (s : State) (pool : Nat) : Option Thr :=
  match s.current pool with
  | 0 => none
  | i + 1 => some ⟨pool, i⟩

/-- One step, and the uses of handles in it. -/
def step (s : State) (op : Op) : State × List Use :=
  match s.stack with
  | [] => (s, [])
  | f :: rest =>
    match op with
    | .call t =>
      -- "The function is not reentrant" (155)
      if s.stack.any (fun g => g.me = some t) then (s, [])
      else ({ s with stack := ⟨some t, s.current t.pool, []⟩ :: s.stack
                     current := setNat s.current t.pool (t.idx + 1) }, [])
    | .irq => ({ s with stack := ⟨none, 0, []⟩ :: s.stack }, [])
    | .ret =>
      match rest with
      | [] => (s, [])
      | _ :: _ =>
        match f.me with
        | none => ({ s with stack := rest }, [])
        | some t => ({ s with stack := rest, current := setNat s.current t.pool f.saved }, [])
    | .loc pool =>
      match s.localOf pool with
      | none => (s, [])
      | some t => ({ s with stack := { f with vars := f.vars ++ [t] } :: rest }, [])
    | .use j =>
      match f.vars[j]? with
      | none => (s, [])
      | some t => (s, [⟨f.me, t⟩])
    | .addFib t => ({ s with chain := setChain s.chain t ([] :: s.chain t) }, [])
    | .addFactory t pools =>
      -- `factory()` is called here (212)
      ({ s with chain := setChain s.chain t (pools.filterMap s.localOf :: s.chain t) }, [])
    | .fiber j pools stays =>
      match f.me with
      | none => (s, [])
      | some t =>
        match (s.chain t)[j]? with
        | none => (s, [])
        | some hs =>
          ({ s with
              chain := setChain s.chain t
                (if stays then (s.chain t).set j (hs ++ pools.filterMap s.localOf) else (s.chain t).eraseIdx j) },
            hs.map fun h => ⟨some t, h⟩)

/-- A program run, collecting the uses. -/
def run (s : State) : List Op → State × List Use
  | [] => (s, [])
  | op :: ops =>
    let (s', e) := step s op
    let (s'', es) := run s' ops
    (s'', e ++ es)

end Verif.Local
