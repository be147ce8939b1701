import Verif.Pool.Model
/-! # What a declaration of a thread pool has to satisfy -/
namespace Verif.Pool
variable {C : Type}

/-- What a pool declaration has to satisfy. -/
structure Legal (camel : String → String) (i : Input C) (c : C) : Prop where
  threads_on : ∀ t ∈ i.threads, t.on c = true
  thr_on : ∀ f ∈ i.thrFields, f.on c = true
  local_on : ∀ f ∈ i.localFields, f.on c = true
  types : (i.thr :: i.local_ :: i.index :: i.threads.map fun t => camel t.name).Nodup
  threads_names : (i.threads.map (·.name)).Nodup
  thr_names : (["fib_chain", "local"] ++ i.thrFields.map (·.name)).Nodup
  local_names : (i.localFields.map (·.name)).Nodup
  count : i.threads.length < 65536

end Verif.Pool
