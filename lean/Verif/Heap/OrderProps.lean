import Verif.Heap.OrderCover
import Verif.Order.Witness
/-!
# C81: memory orderings of the heap pool

The owners of blocks access them without synchronisation. With the orderings of the source there is no data race if one context
alone allocates; any number of contexts may deallocate. With two allocating contexts there is one: `allocate_free` reads the link
of a block that another context has taken in the meantime.
-/
namespace Verif.Heap.Conc.Order

open Verif.Heap.Conc
open Verif.Order

/-- No data race if context `r` alone allocates. Missing: several allocating contexts, where it is false (`C81_pool_false`). -/
theorem C81_pool_partial (address size count : Nat) (link : Nat → Nat) (ha : 0 < address) (hz : 0 < size) (may : Nat → Bool) (r : Nat)
    (hm : ∀ t, may t = true → t = r) (tr : List Ev) (ht : (machine address size count link may ords).Trace tr) (i j : Nat) :
    ¬ Race tr i j :=
  no_races ⟨rfl, rfl⟩ hm ha hz ht i j

/-- Also if loads return old values, no block is handed out twice. Missing: as above (C11). -/
theorem C81_exclusive_partial (address size count : Nat) (link : Nat → Nat) (ha : 0 < address) (hz : 0 < size) (may : Nat → Bool) (r : Nat)
    (hm : ∀ t, may t = true → t = r) (as : List (PAct Op)) (s : HState) (tr : List Ev)
    (h : (machine address size count link may ords).Reaches as s tr) : Exclusive s.base := by
  obtain ⟨p, hp, rfl, -⟩ := h
  exact (run_inv (o := ords) ⟨rfl, rfl⟩ hm (init_inv ha hz) hp).1.2.nodup

/-- Evaluate a schedule. -/
macro "htrace" : tactic => `(tactic| simp [Machine.prun, Machine.pstep, Machine.go, Machine.pinit, machine, stepHw, call, accOf, accTask, ownStep,
  taskStep, Task.fits, cas, init, State.goto, afAfter, auAfter, upd, blk, flg, *])

/-- Context `r` allocates the first block `a` and passes it on to `u`, which deallocates it; then `r` allocates again. -/
def passSched (r u a : Nat) : List (PAct Op) :=
  [.call (.alloc r), .step r 0, .step r 0, .step r 0, .call (.work r (.give a)), .step r 0, .call (.work u (.take a)), .step u 0,
    .call (.dealloc u a), .step u 0, .step u 0, .step u 0, .call (.alloc r), .step r 1, .step r 0]

def passTrace (r u a : Nat) (o : Ords) : List Ev :=
  [⟨r, 0, .load o.afRead 0⟩, ⟨r, 1, .load o.auRead 0⟩, ⟨r, 1, .rmw o.auCas.acq o.auCas.rel⟩, ⟨r, flg a, .rmw false true⟩,
    ⟨u, flg a, .rmw true false⟩, ⟨u, 0, .load o.deRead 0⟩, ⟨u, blk a, .write⟩, ⟨u, 0, .rmw o.deCas.acq o.deCas.rel⟩,
    ⟨r, 0, .load o.afRead 1⟩, ⟨r, blk a, .read⟩]

/-- Context `r` allocates the first block `a` and deallocates it. Context `u` starts to allocate: it loads `free`. Then `r` allocates
`a` again and writes to it, and `u` goes on: it reads the link. -/
def twoSched (r u a : Nat) : List (PAct Op) :=
  [.call (.alloc r), .step r 0, .step r 0, .step r 0, .call (.dealloc r a), .step r 0, .step r 0, .step r 0, .call (.alloc u), .step u 1,
    .call (.alloc r), .step r 1, .step r 0, .step r 0, .call (.work r (.write a 7)), .step r 0, .step u 0]

def twoTrace (r u a : Nat) (o : Ords) : List Ev :=
  [⟨r, 0, .load o.afRead 0⟩, ⟨r, 1, .load o.auRead 0⟩, ⟨r, 1, .rmw o.auCas.acq o.auCas.rel⟩, ⟨r, 0, .load o.deRead 0⟩,
    ⟨r, blk a, .write⟩, ⟨r, 0, .rmw o.deCas.acq o.deCas.rel⟩, ⟨u, 0, .load o.afRead 1⟩, ⟨r, 0, .load o.afRead 1⟩, ⟨r, blk a, .read⟩,
    ⟨r, 0, .rmw o.afCas.acq o.afCas.rel⟩, ⟨r, blk a, .write⟩, ⟨u, blk a, .read⟩]

theorem pass_trace (a size count : Nat) (link : Nat → Nat) (may : Nat → Bool) (o : Ords) (ha : 0 < a) (hz : 0 < size) (hc : 0 < count) (r u : Nat)
    (hr : may r = true) (hru : u ≠ r) : (machine a size count link may o).Trace (passTrace r u a o) := by
  have h : ((machine a size count link may o).prun (machine a size count link may o).pinit (passSched r u a)).map (·.tr) =
      some (passTrace r u a o) := by
    have h1 := hru.symm
    have h0 : a ≠ 0 := by omega
    have h2 : size * count ≠ 0 := Nat.pos_iff_ne_zero.1 (Nat.mul_pos hz hc)
    unfold passSched passTrace
    htrace
  obtain ⟨p, hp, e⟩ := Option.map_eq_some_iff.1 h
  exact ⟨_, p, hp, e⟩

theorem two_trace (a size count : Nat) (link : Nat → Nat) (may : Nat → Bool) (o : Ords) (ha : 0 < a) (hz : 0 < size) (hc : 0 < count) (r u : Nat)
    (hr : may r = true) (hu : may u = true) (hru : u ≠ r) : (machine a size count link may o).Trace (twoTrace r u a o) := by
  have h : ((machine a size count link may o).prun (machine a size count link may o).pinit (twoSched r u a)).map (·.tr) =
      some (twoTrace r u a o) := by
    have h1 := hru.symm
    have h0 : a ≠ 0 := by omega
    have h2 : size * count ≠ 0 := Nat.pos_iff_ne_zero.1 (Nat.mul_pos hz hc)
    unfold twoSched twoTrace
    htrace
  obtain ⟨p, hp, e⟩ := Option.map_eq_some_iff.1 h
  exact ⟨_, p, hp, e⟩

/-- There are no data races if and only if `deallocate` releases, the loads of `free` in `allocate` acquire, and one context alone
allocates. The orderings of the other accesses do not matter. -/
theorem C81_pool_exact (address size count : Nat) (link : Nat → Nat) (ha : 0 < address) (hz : 0 < size) (hc : 0 < count) (may : Nat → Bool)
    (r : Nat) (hr : may r = true) (o : Ords) :
    (∀ tr, (machine address size count link may o).Trace tr → ∀ i j, ¬ Race tr i j) ↔ Enough o ∧ ∀ t, may t = true → t = r := by
  constructor
  · intro h
    have h1 := h _ (pass_trace address size count link may o ha hz hc r (r + 1) hr (by omega)) 6 9
    have c : Conflict ⟨r + 1, blk address, .write⟩ ⟨r, blk address, .read⟩ := ⟨by simp, .inr (.inr ⟨rfl, by simp, by simp [Kind.atomic]⟩)⟩
    refine ⟨⟨?_, ?_⟩, fun u hu => Classical.byContradiction fun hru => ?_⟩
    · cases hb : o.deCas.rel
      · exact absurd (race_rel 6 9 (by decide) rfl rfl c (by simp [passTrace, Ev.rel, hb])) h1
      · rfl
    · cases hb : o.afRead
      · exact absurd (race_acq 6 9 (by decide) rfl rfl c (by simp [passTrace, Ev.acq, hb])) h1
      · rfl
    · have h2 := h _ (two_trace address size count link may o ha hz hc r u hr hu hru) 10 11
      exact h2 (race_rel 10 11 (by decide) rfl rfl ⟨fun e => hru e.symm, .inr (.inr ⟨rfl, by simp, by simp [Kind.atomic]⟩)⟩
        (by simp [twoTrace, Ev.rel]))
  · rintro ⟨ho, hm⟩ tr ht
    exact no_races ho hm ha hz ht

/-- Context 1 reads the link of a block that context 0 owns and writes to. -/
theorem C81_pool_false : ∃ tr i j, (machine 64 8 1 id (fun _ => true) ords).Trace tr ∧ Race tr i j ∧ tr[i]? = some ⟨0, blk 64, .write⟩ ∧
    tr[j]? = some ⟨1, blk 64, .read⟩ := by
  refine ⟨_, 10, 11, two_trace 64 8 1 id (fun _ => true) ords (by decide) (by decide) (by decide) 0 1 rfl rfl (by decide), ?_, rfl, rfl⟩
  exact race_rel 10 11 (by decide) rfl rfl ⟨by simp, .inr (.inr ⟨rfl, by simp, by simp [Kind.atomic]⟩)⟩ (by decide)

/-- The source has the orderings that are needed, and more. -/
example : Enough ords ∧ Enough { ords with deRead := false, deCas := ⟨false, true⟩, afCas := ⟨false, false⟩ } := ⟨⟨rfl, rfl⟩, ⟨rfl, rfl⟩⟩

/-- Context 0 allocates two blocks and passes them on to context 1, which deallocates them. Then context 0 allocates: the load returns
an old value, the compare-exchange fails, and after another load it gets the block that was deallocated last. -/
def oldSched : List (PAct Op) :=
  [.call (.alloc 0), .step 0 0, .step 0 0, .step 0 0, .call (.work 0 (.give 64)), .step 0 0, .call (.alloc 0), .step 0 0, .step 0 1, .step 0 0,
    .call (.work 0 (.give 72)), .step 0 0, .call (.work 1 (.take 64)), .step 1 0, .call (.work 1 (.take 72)), .step 1 0,
    .call (.dealloc 1 64), .step 1 0, .step 1 0, .step 1 0, .call (.dealloc 1 72), .step 1 1, .step 1 0, .step 1 0,
    .call (.alloc 0), .step 0 1, .step 0 0, .call (.choose 0 true), .step 0 2, .call (.choose 0 false), .step 0 0, .step 0 0]

example : ∃ s tr, (machine 64 8 2 id (fun t => decide (t = 0)) ords).Reaches oldSched s tr ∧ s.base.free = 64 ∧ s.base.held = [72] ∧
    ⟨0, 0, .load true 1⟩ ∈ tr ∧ cnt tr 0 = 3 := by
  have h : ((machine 64 8 2 id (fun t => decide (t = 0)) ords).prun (machine 64 8 2 id (fun t => decide (t = 0)) ords).pinit oldSched).map
      (fun p => (p.s.base.free, p.s.base.held, decide (⟨0, 0, .load true 1⟩ ∈ p.tr), cnt p.tr 0)) = some (64, [72], true, 3) := by decide +kernel
  obtain ⟨p, hp, e⟩ := Option.map_eq_some_iff.1 h
  simp only [Prod.mk.injEq, decide_eq_true_eq] at e
  exact ⟨p.s, p.tr, ⟨p, hp, rfl, rfl⟩, e⟩

/-- The schedules of `Verif.Heap.Conc` where context `r` alone allocates are among those that are meant here. -/
theorem C81_pool_covers (address size count : Nat) (link : Nat → Nat) (ha : 0 < address) (hz : 0 < size) (r : Nat) (may : Nat → Bool)
    (hr : may r = true) (o : Ords) (acts : List Act) (h1 : OnlyAllocator r acts) :
    ∃ as p, (machine address size count link may o).prun (machine address size count link may o).pinit as = some p ∧
      p.s.base = run stepHw (init address size count link) acts := by
  obtain ⟨s, ⟨as, p, h, e, -⟩, e', -⟩ := cover ha hz hr acts h1
  exact ⟨as, p, h, e ▸ e'⟩

/-- Context 0 allocates, context 1 deallocates and context 2 writes. -/
example : OnlyAllocator 0 [.alloc 0, .step 0 false, .step 0 false, .step 0 false, .write 64 3, .dealloc 1 64, .step 1 false] ∧
    (run stepHw (init 64 8 1 id) [.alloc 0, .step 0 false, .step 0 false, .step 0 false, .write 64 3, .dealloc 1 64, .step 1 false]).pc 1 =
      .deWrite 64 0 := by
  refine ⟨fun u hu => ?_, by decide⟩
  simpa using hu

end Verif.Heap.Conc.Order
