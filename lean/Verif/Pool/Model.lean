/-!
# Model of `thr::pool!` and `thr::soft!`: `macros/src/thr_pool.rs`, `macros/src/thr_soft.rs`

The macros as functions from the parsed input to the items they emit, with the conditions of `cfg`
attributes. Whether the compiler accepts the items is decided by `accepts`.

Simplifications: `C` is the type of configurations, an attribute list is a function `C → Bool`;
`camel` is the conversion `to_upper_camel_case` of the crate `heck`, an arbitrary function; visibilities,
documentation, types and initializers of the user's fields are omitted, also attributes of the
three structs.
-/
namespace Verif.Pool
variable {C : Type}

/-- A field (thr_pool.rs 32–38) or a thread (50–54) of the user. -/
structure Member (C : Type) where
  name : String
  on : C → Bool

/-- `Input` (thr_pool.rs 10–16). -/
structure Input (C : Type) where
  thr : String
  local_ : String
  index : String
  thrFields : List (Member C)
  localFields : List (Member C)
  threads : List (Member C)

/-- A field of a struct; `ty` is its type if that is a generated one. -/
structure Field (C : Type) where
  name : String
  ty : Option String
  on : C → Bool

inductive Item (C : Type) where
  | struct (name : String) (on : C → Bool) (fields : List (Field C))
  /-- `impl trait for type`; `uses`: other types named in it -/
  | impl (trait type : String) (uses : List String)
  /-- an associated type with a bound: `type` has to implement `trait` -/
  | bound (trait type : String)
  /-- a struct literal -/
  | ctor (type : String) (fields : List String)
  /-- a literal of type `u16` -/
  | lit (n : Nat)

def always : C → Bool := fun _ => true

/-- `def_thr` (thr_pool.rs 205–284). The attributes of a field are on its declaration (228) and not in
the constructor (229). -/
def defThr (i : Input C) : List (Item C) :=
  [.struct i.thr always
      ([⟨"fib_chain", none, always⟩, ⟨"local", none, always⟩] ++ i.thrFields.map fun f => ⟨f.name, none, f.on⟩),
   .ctor i.thr (["fib_chain", "local"] ++ i.thrFields.map (·.name)),
   .impl "Thread" i.thr [i.local_],
   .lit i.threads.length] ++
  (List.range i.threads.length).map .lit

/-- `def_local` (thr_pool.rs 286–309). -/
def defLocal (i : Input C) : List (Item C) :=
  [.struct i.local_ always (i.localFields.map fun f => ⟨f.name, none, f.on⟩),
   .ctor i.local_ (i.localFields.map (·.name))]

/-- `def_thr_token` (thr_pool.rs 340–381). The attributes are on the struct and on the field of the
index, and not on the implementations nor in the constructor of the index. -/
def defThrToken (camel : String → String) (i : Input C) (t : Member C) : List (Item C) :=
  [.struct (camel t.name) t.on [⟨"__priv", none, always⟩],
   .impl "Token" (camel t.name) [],
   .ctor (camel t.name) ["__priv"],
   .impl "ThrToken" (camel t.name) [i.thr],
   -- `type Thread: Thread` (src/thr/mod.rs 182), line 366
   .bound "Thread" i.thr]

/-- `def_index` (thr_pool.rs 311–338). -/
def defIndex (camel : String → String) (i : Input C) : List (Item C) :=
  [.struct i.index always (i.threads.map fun t => ⟨t.name, some (camel t.name), t.on⟩),
   .impl "Token" i.index [],
   .ctor i.index (i.threads.map (·.name))] ++
  i.threads.flatMap (defThrToken camel i)

/-- `thr::pool!` (thr_pool.rs 191–203). -/
def pool (camel : String → String) (i : Input C) : List (Item C) :=
  defThr i ++ defLocal i ++ defIndex camel i

/-- `thr::soft!`: the pool with one more field (thr_soft.rs 171–175), and an implementation (201–225). -/
def soft (camel : String → String) (i : Input C) : List (Item C) :=
  pool camel { i with thrFields := ⟨"priority", always⟩ :: i.thrFields } ++ [.impl "SoftThread" i.thr []]

/-! ### The compiler -/

/-- The structs that are compiled, with their compiled fields. -/
def structs (c : C) (items : List (Item C)) : List (String × List (Field C)) :=
  items.filterMap fun
    | .struct name on fields => if on c then some (name, fields.filter (·.on c)) else none
    | _ => none

def impls (items : List (Item C)) : List (String × String) :=
  items.filterMap fun
    | .impl trait type _ => some (trait, type)
    | _ => none

/-- Is an item accepted, given the compiled structs and the implementations? -/
def Item.ok (c : C) (ss : List (String × List (Field C))) (is : List (String × String)) : Item C → Prop
  | .struct _ on fields => on c = true →
      ((fields.filter (·.on c)).map (·.name)).Nodup ∧
      ∀ f ∈ fields.filter (·.on c), ∀ t, f.ty = some t → t ∈ ss.map (·.1)
  | .impl _ type uses => type ∈ ss.map (·.1) ∧ ∀ t ∈ uses, t ∈ ss.map (·.1)
  | .bound trait type => (trait, type) ∈ is
  | .ctor type fields => ∃ fs, (type, fs) ∈ ss ∧ fields.Nodup ∧ ∀ x, x ∈ fields ↔ x ∈ fs.map (·.name)
  | .lit n => n < 65536

/-- The compiler accepts the items in configuration `c`: struct names are unique, a trait is
implemented once for a type, types exist, struct literals have exactly the fields of the struct,
literals fit. -/
def accepts (c : C) (items : List (Item C)) : Prop :=
  ((structs c items).map (·.1)).Nodup ∧ (impls items).Nodup ∧ ∀ it ∈ items, it.ok c (structs c items) (impls items)

/-! ### Values -/

/-- Entry of the array `THREADS` (219–224, 251): an object made by `new(index)` (240–248), with the
argument that the initializers of the local storage see (300–304). -/
structure Entry where
  index : Nat
deriving DecidableEq, Repr

/-- `THREADS` (219–224, 251). -/
def threadsArray (i : Input C) : List Entry := (List.range i.threads.length).map fun k => ⟨k⟩

/-- `THR_IDX` of the token of a thread (352, 374; `enumerate` in 316). -/
def thrIdx (i : Input C) (k : Nat) : Option Nat := i.threads.zipIdx[k]?.map (·.2)

/-- `to_thr` (src/thr/mod.rs 189–192): `none` is an access outside the array. -/
def toThr (i : Input C) (k : Nat) : Option Entry := (thrIdx i k).bind ((threadsArray i)[·]?)

end Verif.Pool
