import Verif.Mutex.OrderRuns
import Verif.Order.Witness
/-!
# C79: memory orderings of the mutex

Any number of clients lock the mutex, use the data, unlock it, poll and drop lock futures. With the orderings of the source the
accesses to the data are ordered. The only data races are those between the release of a waiter node and accesses of the
future that created it.
-/
namespace Verif.Mutex.Order

open Verif.Order

/-- The accesses to the data are ordered if locking acquires and unlocking releases, whatever the other orderings. -/
theorem C79_mutex_data (o : Ords) (hd : DataOrds o) (tr : List Ev) (ht : (machine o).Trace tr) (i j : Nat) (hr : Race tr i j) :
    ∀ f, tr[j]? = some f → f.loc ≠ dataLoc := by
  intro f hf
  obtain ⟨f', h1, h2⟩ := (soundD hd).races plain ht hr
  rw [hf, Option.some.injEq] at h1
  subst h1
  rcases h2 with h | h
  · exact h
  · have := trace_all (M := machine o) (P := fun e => e.kind ≠ .free) (fun t s a k h => (acc_ok h).free) ht j f hf
    exact absurd h this

/-- With the orderings of the source, all data races are between the release of a node by `unlock` and accesses of the future that
created the node. Missing: that there are none, which is false (`C79_mutex_false`). -/
theorem C79_mutex_partial (tr : List Ev) (ht : (machine ords).Trace tr) (i j : Nat) (hr : Race tr i j) : NodeRace tr i j := by
  exact node_race ⟨rfl, rfl, rfl, rfl, rfl⟩ ht hr

/-- Client 0 locks, uses the data and unlocks; client 1 locks and uses the data. -/
def dataSched : List (PAct OOp) :=
  [.call (.op 0 .tryLock), .step 0 0, .call (.access 0), .step 0 0, .call (.op 0 .unlock), .step 0 0, .step 0 0, .step 0 0, .step 0 0, .step 0 0,
    .call (.op 1 .tryLock), .step 1 0, .call (.access 1), .step 1 0]

/-- Its accesses. -/
def dataTrace (o : Ords) : List Ev :=
  [⟨0, 0, .rmw o.lock.acq o.lock.rel⟩, ⟨0, 1, .write⟩, ⟨0, 2, .rmw o.drain false⟩, ⟨0, 3, .read⟩, ⟨0, 2, .rmw o.iter false⟩, ⟨0, 3, .read⟩,
    ⟨0, 0, .store o.unlock⟩, ⟨1, 0, .rmw o.lock.acq o.lock.rel⟩, ⟨1, 1, .write⟩]

/-- Client 0 locks; client 1 polls a future and pushes a node; client 0 unlocks and finds the node. -/
def drainSched : List (PAct OOp) :=
  [.call (.op 0 .tryLock), .step 0 0, .call (.op 1 .lock), .call (.op 1 (.poll 7)), .step 1 0, .step 1 0, .step 1 0, .step 1 0,
    .call (.op 0 .unlock), .step 0 0, .step 0 0]

@[inherit_doc dataTrace] def drainTrace (o : Ords) : List Ev :=
  [⟨0, 0, .rmw o.lock.acq o.lock.rel⟩, ⟨1, 0, .rmw o.lock.acq o.lock.rel⟩, ⟨1, 4, .write⟩, ⟨1, 5, .write⟩, ⟨1, 2, .rmw o.push.acq o.push.rel⟩,
    ⟨0, 2, .rmw o.drain false⟩, ⟨0, 4, .load o.test 0⟩]

/-- The same, but the node is pushed after the removal of taken nodes. -/
def iterSched : List (PAct OOp) :=
  [.call (.op 0 .tryLock), .step 0 0, .call (.op 0 .unlock), .step 0 0, .step 0 0,
    .call (.op 1 .lock), .call (.op 1 (.poll 7)), .step 1 0, .step 1 0, .step 1 0, .step 1 0, .step 0 0, .step 0 0]

@[inherit_doc dataTrace] def iterTrace (o : Ords) : List Ev :=
  [⟨0, 0, .rmw o.lock.acq o.lock.rel⟩, ⟨0, 2, .rmw o.drain false⟩, ⟨0, 3, .read⟩, ⟨1, 0, .rmw o.lock.acq o.lock.rel⟩, ⟨1, 4, .write⟩, ⟨1, 5, .write⟩,
    ⟨1, 2, .rmw o.push.acq o.push.rel⟩, ⟨0, 2, .rmw o.iter false⟩, ⟨0, 4, .rmw o.take.acq o.take.rel⟩]

/-- Client 0 locks; client 1 polls a future, which pushes a node, and drops it; client 0 unlocks and releases the node. -/
def dropSched : List (PAct OOp) :=
  [.call (.op 0 .tryLock), .step 0 0, .call (.op 1 .lock), .call (.op 1 (.poll 7)), .step 1 0, .step 1 0, .step 1 0, .step 1 0, .step 1 0,
    .call (.op 1 .dropFut), .step 1 0, .step 1 0, .call (.op 0 .unlock), .step 0 0, .step 0 1, .step 0 1, .step 0 0, .step 0 0]

@[inherit_doc dataTrace] def dropTrace (o : Ords) : List Ev :=
  [⟨0, 0, .rmw o.lock.acq o.lock.rel⟩, ⟨1, 0, .rmw o.lock.acq o.lock.rel⟩, ⟨1, 4, .write⟩, ⟨1, 5, .write⟩, ⟨1, 2, .rmw o.push.acq o.push.rel⟩,
    ⟨1, 0, .rmw o.lock.acq o.lock.rel⟩, ⟨1, 4, .rmw o.take.acq o.take.rel⟩, ⟨1, 5, .read⟩, ⟨0, 2, .rmw o.drain false⟩, ⟨0, 4, .load o.test 1⟩,
    ⟨0, 4, .load o.drop 1⟩, ⟨0, 4, .write⟩, ⟨0, 5, .write⟩]

theorem data_trace (o : Ords) : (machine o).Trace (dataTrace o) :=
  have h : ((machine o).prun (machine o).pinit dataSched).map (·.tr) = some (dataTrace o) := by cbv
  ⟨dataSched, Option.map_eq_some_iff.1 h⟩

theorem drain_trace (o : Ords) : (machine o).Trace (drainTrace o) :=
  have h : ((machine o).prun (machine o).pinit drainSched).map (·.tr) = some (drainTrace o) := by cbv
  ⟨drainSched, Option.map_eq_some_iff.1 h⟩

theorem iter_trace (o : Ords) : (machine o).Trace (iterTrace o) :=
  have h : ((machine o).prun (machine o).pinit iterSched).map (·.tr) = some (iterTrace o) := by cbv
  ⟨iterSched, Option.map_eq_some_iff.1 h⟩

theorem drop_trace (o : Ords) : (machine o).Trace (dropTrace o) :=
  have h : ((machine o).prun (machine o).pinit dropSched).map (·.tr) = some (dropTrace o) := by cbv
  ⟨dropSched, Option.map_eq_some_iff.1 h⟩

/-- Without acquiring locks or releasing unlocks there is a race on the data. -/
theorem data_race (o : Ords) (h : ¬DataOrds o) : Race (dataTrace o) 1 8 := by
  by_cases h1 : o.lock.acq = true
  · have h2 : o.unlock = false := by cases hu : o.unlock with
      | false => rfl
      | true => exact absurd ⟨h1, hu⟩ h
    exact race_rel 1 8 (e := ⟨0, 1, .write⟩) (f := ⟨1, 1, .write⟩) (by decide) rfl rfl (by simp [Conflict, Kind.atomic]) (by simp [dataTrace, Ev.rel, h2])
  · exact race_acq 1 8 (e := ⟨0, 1, .write⟩) (f := ⟨1, 1, .write⟩) (by decide) rfl rfl (by simp [Conflict, Kind.atomic]) (by simpa [dataTrace, Ev.acq] using h1)

/-- Without a releasing push or an acquiring removal of taken nodes the node is not known to its reader. -/
theorem drain_race (o : Ords) (h : ¬(o.push.rel = true ∧ o.drain = true)) : Race (drainTrace o) 2 6 := by
  by_cases h1 : o.push.rel = true
  · have h2 : o.drain = false := by cases hu : o.drain with
      | false => rfl
      | true => exact absurd ⟨h1, hu⟩ h
    refine race_acq_init 2 6 (e := ⟨1, 4, .write⟩) (f := ⟨0, 4, .load o.test 0⟩) (by decide) rfl rfl (by simp [Conflict, Kind.atomic]) ?_
    intro m g hm1 hm2 hg ht ha
    have : m = 3 ∨ m = 4 ∨ m = 5 ∨ m = 6 := by omega
    rcases this with rfl | rfl | rfl | rfl <;> simp only [drainTrace, List.getElem?_cons_succ, List.getElem?_cons_zero, Option.some.injEq] at hg <;> subst hg
    · simp at ht
    · simp at ht
    · simp [Ev.acq, h2] at ha
    · rfl
  · exact race_rel 2 6 (e := ⟨1, 4, .write⟩) (f := ⟨0, 4, .load o.test 0⟩) (by decide) rfl rfl (by simp [Conflict, Kind.atomic]) (by simpa [drainTrace, Ev.rel] using h1)

/-- Without an acquiring iteration the nodes that were pushed since the removal of taken nodes are not known. -/
theorem iter_race (o : Ords) (h : o.iter ≠ true) : Race (iterTrace o) 4 8 := by
  refine race_acq_init 4 8 (e := ⟨1, 4, .write⟩) (f := ⟨0, 4, .rmw o.take.acq o.take.rel⟩) (by decide) rfl rfl (by simp [Conflict, Kind.atomic]) ?_
  intro m g hm1 hm2 hg ht ha
  have : m = 5 ∨ m = 6 ∨ m = 7 ∨ m = 8 := by omega
  rcases this with rfl | rfl | rfl | rfl <;> simp only [iterTrace, List.getElem?_cons_succ, List.getElem?_cons_zero, Option.some.injEq] at hg <;> subst hg
  · simp at ht
  · simp at ht
  · simp [Ev.acq, h] at ha
  · rfl

/-- The orderings that the data needs. -/
theorem C79_mutex_data_exact (o : Ords) :
    (∀ tr, (machine o).Trace tr → ∀ i j, Race tr i j → ∀ f, tr[j]? = some f → f.loc ≠ dataLoc) ↔ DataOrds o := by
  refine ⟨fun h => Classical.byContradiction fun hn => ?_, C79_mutex_data o⟩
  exact h _ (data_trace o) 1 8 (data_race o hn) _ rfl rfl

/-- The orderings that the nodes need, too: the push must release, the removal of taken nodes and the iteration must acquire. The
orderings of the flag accesses do not matter. -/
theorem C79_mutex_exact (o : Ords) : (∀ tr, (machine o).Trace tr → ∀ i j, Race tr i j → NodeRace tr i j) ↔ Enough o := by
  refine ⟨fun h => ?_, fun h tr ht i j hr => node_race ⟨h.lock, h.unlock, h.push, h.drain, h.iter⟩ ht hr⟩
  have h1 : DataOrds o := Classical.byContradiction fun hn => by
    obtain ⟨n, p, q, l, k, m, h1, -, -, -, -, -, h2⟩ := h _ (data_trace o) 1 8 (data_race o hn)
    simp only [dataTrace, List.getElem?_cons_succ, List.getElem?_cons_zero, Option.some.injEq, Ev.mk.injEq, tk, wk] at h2 h1
    omega
  have h2 : o.push.rel = true ∧ o.drain = true := Classical.byContradiction fun hn => by
    obtain ⟨n, p, q, l, k, m, -, -, -, -, -, -, h2⟩ := h _ (drain_trace o) 2 6 (drain_race o hn)
    simp [drainTrace] at h2
  have h3 : o.iter = true := Classical.byContradiction fun hn => by
    obtain ⟨n, p, q, l, k, m, -, -, -, -, -, -, h2⟩ := h _ (iter_trace o) 4 8 (iter_race o hn)
    simp [iterTrace] at h2
  exact ⟨h1, h2.1, h2.2, h3⟩

/-- The orderings of the source are enough; `C79_mutex_data` and `C79_mutex_exact` speak of it. -/
example : Enough ords ∧ ¬ Enough { ords with push := ⟨true, false⟩ } ∧ ¬ DataOrds { ords with unlock := false } :=
  ⟨⟨⟨rfl, rfl⟩, rfl, rfl, rfl⟩, fun h => (nomatch h.push), fun h => (nomatch h.unlock)⟩

/-- Two clients use the data in turn. -/
example : (machine ords).Trace (dataTrace ords) ∧ ((dataTrace ords).map fun e => decide (e.loc = dataLoc)).count true = 2 := ⟨data_trace _, by decide⟩

/-- Whatever the orderings are, the release of a node races with the read of the waker by the future that was dropped: the future
sets the flag, and then reads the waker. -/
theorem C79_mutex_false (o : Ords) : ∃ tr i j, (machine o).Trace tr ∧ Race tr i j ∧ tr[i]? = some ⟨1, wk 0, .read⟩ ∧
    tr[j]? = some ⟨0, wk 0, .write⟩ ∧ NodeRace tr i j :=
  ⟨dropTrace o, 7, 12, drop_trace o, race_rel 7 12 (e := ⟨1, 5, .read⟩) (f := ⟨0, 5, .write⟩) (by decide) rfl rfl (by simp [Conflict, Kind.atomic])
    (by simp [dropTrace, Ev.rel]), rfl, rfl, 0, 1, 0, wk 0, .read, 2, .inr rfl, by decide, by decide, rfl, rfl, by simp, rfl⟩

/-- The schedules of `Verif.Mutex.Model` are among those that are meant here. -/
theorem C79_mutex_covers (o : Ords) (acts : List Act) (s : State) (h : run init acts = some s) :
    ∃ as p, (machine o).prun (machine o).pinit as = some p ∧ p.s.base = s :=
  cover acts _ ⟨fun l => rfl, fun t l => by simp [Machine.pinit]⟩ ⟨fun _ => rfl, fun _ => rfl, fun _ => rfl⟩ init_invO init_invN (fun _ _ => rfl) h

/-- A client locks, another one waits, and the first one unlocks. -/
example : (run init [.call 0 .tryLock, .step 0, .call 1 .lock, .call 1 (.poll 7), .step 1, .step 1, .step 1, .call 0 .unlock, .step 0, .step 0, .step 0,
    .step 0, .step 0]).isSome = true := by decide +kernel

end Verif.Mutex.Order
