import Verif.Heap.MultiOwn
/-!
# C86: a heap that several contexts use at the same time
-/
namespace Verif.Heap.Multi

open Verif.Heap (Pool Region regions poolRangeByLayout poolByPtr Legal)

/-- `Empty` is what it says: `Pool::allocate`, running alone, finds nothing. -/
theorem C86_empty (p : Conc.State) (W : Nat) (m : Mem) :
    Empty p ↔ Pool.allocate W m ⟨p.size, p.edge, p.free, p.uninit⟩ = none := by
  unfold Empty Pool.allocate Pool.allocateFree Pool.allocateUninit
  by_cases h1 : p.free = 0 <;> by_cases h2 : p.uninit = p.edge <;> simp [h1, h2]

/-- C86, both builds, any number of contexts: an allocation that fails has found, for every pool with blocks of at least the requested
size, at one moment that nothing had come back and at a later moment that nothing new was left. -/
theorem C86_failed {W base : Nat} {cfg : List (Nat × Nat)} (hl : Legal W base cfg) {b : Build} {s : State} (hs : Reached b base cfg s)
    {t : Tid} {size : Nat} {as : List Act} (hf : Fails b s t size as) {i : Nat} (hi : i < s.n) (hsz : size ≤ (s.pool i).size) :
    Then b s as (fun s => (s.pool i).free = 0) (fun s => (s.pool i).uninit = (s.pool i).edge) := by
  have ok := hs.ok
  have hfi := (first_fit hl ok size hi).mpr hsz
  have := fails_induct ok hf
    (fun k i => (∀ j, poolRangeByLayout s.table size ≤ j → j < i → ∃ a l, a ≤ l ∧ l ≤ k ∧ ((run b s (as.take a)).pool j).free = 0 ∧
        ((run b s (as.take l)).pool j).uninit = ((run b s (as.take l)).pool j).edge) ∧
      (phase (((run b s (as.take k)).pool i).pc t) = .carve → ∃ a ≤ k, ((run b s (as.take a)).pool i).free = 0))
    (fun h => ⟨fun j h1 h2 => by omega, fun h' => by rw [h] at h'; cases h'⟩)
    (fun k i _ ⟨h1, h2⟩ _ h => ⟨fun j g1 g2 => by
        obtain ⟨a, l, x, y, z⟩ := h1 j g1 g2
        exact ⟨a, l, x, by omega, z⟩, fun g => by
        obtain ⟨a, x, y⟩ := h2 (h ▸ g)
        exact ⟨a, by omega, y⟩⟩)
    (fun k i _ ⟨h1, h2⟩ _ _ _ h _ _ => ⟨fun j g1 g2 => by
        obtain ⟨a, l, x, y, z⟩ := h1 j g1 g2
        exact ⟨a, l, x, by omega, z⟩, fun _ => ⟨k, by omega, h⟩⟩)
    (fun k i _ ⟨h1, h2⟩ _ hc hu hn => ⟨fun j g1 g2 => by
        by_cases e : j = i
        · subst e
          obtain ⟨a, x, y⟩ := h2 hc
          exact ⟨a, k, x, by omega, y, hu⟩
        · obtain ⟨a, l, x, y, z⟩ := h1 j g1 (by omega)
          exact ⟨a, l, x, by omega, z⟩, fun g => by rw [hn] at g; cases g⟩)
  rcases this with h | ⟨k, i', hk, ⟨h1, h2⟩, hle, hlt, hge, hc, hu⟩
  · omega
  · by_cases e : i = i'
    · subst e
      obtain ⟨a, x, y⟩ := h2 hc
      exact ⟨a, k, x, by omega, y, hu⟩
    · obtain ⟨a, l, x, y, z⟩ := h1 i hfi (by omega)
      exact ⟨a, l, x, by omega, z⟩

/-- C86, partial: if during the call no block comes back to an empty pool that fits, an allocation fails only if in the end nothing that fits
is left — with any number of contexts and pools, in both builds. (Missing: blocks that come back during the call, where it is false;
see `C86_three_contexts_false` and `C86_two_pools_false`.) -/
theorem C86_no_release_partial {W base : Nat} {cfg : List (Nat × Nat)} (hl : Legal W base cfg) {b : Build} {s : State}
    (hs : Reached b base cfg s) {t : Tid} {size : Nat} {as : List Act} (hf : Fails b s t size as) (hb : NoneBack b s size as) :
    Sometime b s as (Exhausted size) := by
  have ok := hs.ok
  have sizes : ∀ k i, i < s.n → (((run b s (as.take k)).pool i).size = (s.pool i).size) := by
    intro k i hi
    have hi' : i < (regions base cfg).length := by rw [← ok.hn]; exact hi
    have hr := List.getElem?_eq_getElem hi'
    rw [(run_ok b (as.take k) ok).size i _ hr, ok.size i _ hr]
  have keep : ∀ k j, k < as.length → j < s.n → poolRangeByLayout s.table size ≤ j → Ok base cfg (run b s (as.take k)) →
      Empty ((run b s (as.take k)).pool j) → Empty ((run b s (as.take (k + 1))).pool j) := by
    intro k j hk hj hfj okk he
    refine ⟨hb k hk j hj ((first_fit hl ok size hj).mp hfj) he.1, ?_⟩
    rw [run_take_succ b s as hk]
    exact (step_touch b okk _ j).full (okk.good j) he.2
  have := fails_induct ok hf
    (fun k i => (∀ j, poolRangeByLayout s.table size ≤ j → j < i → j < s.n → Empty ((run b s (as.take k)).pool j)) ∧
      (phase (((run b s (as.take k)).pool i).pc t) = .carve → poolRangeByLayout s.table size ≤ i → i < s.n → ((run b s (as.take k)).pool i).free = 0))
    (fun h => ⟨fun j h1 h2 => by omega, fun h' => by rw [h] at h'; cases h'⟩)
    (fun k i hk ⟨h1, h2⟩ okk h => ⟨fun j g1 g2 g3 => keep k j hk g3 g1 okk (h1 j g1 g2 g3), fun g g1 g3 =>
        hb k hk i g3 ((first_fit hl ok size g3).mp g1) (h2 (h ▸ g) g1 g3)⟩)
    (fun k i hk ⟨h1, h2⟩ okk _ _ _ h _ => ⟨fun j g1 g2 g3 => keep k j hk g3 g1 okk (h1 j g1 g2 g3), fun _ _ _ => h⟩)
    (fun k i hk ⟨h1, h2⟩ okk hc hu hn => ⟨fun j g1 g2 g3 => by
        by_cases e : j = i
        · subst e
          exact keep k j hk g3 g1 okk ⟨h2 hc g1 g3, hu⟩
        · exact keep k j hk g3 g1 okk (h1 j g1 (by omega) g3), fun g => by rw [hn] at g; cases g⟩)
  rcases this with h | ⟨k, i, hk, ⟨h1, h2⟩, hle, hlt, hge, hc, hu⟩
  · refine ⟨0, Nat.zero_le _, fun i hi hsz => ?_⟩
    have hi' : i < s.n := hi
    have := (first_fit hl ok size hi').mpr hsz
    omega
  · refine ⟨k, by omega, fun j hj hsz => ?_⟩
    have hj' : j < s.n := by rw [(run_ok b (as.take k) ok).hn] at hj; rw [ok.hn]; exact hj
    rw [sizes k j hj'] at hsz
    have hfj := (first_fit hl ok size hj').mpr hsz
    by_cases e : j = i
    · subst e
      exact ⟨h2 hc hfj hj', hu⟩
    · exact h1 j hfj (by omega) hj'

/-- C86, partial: if only one other context acts during the call, and only one pool has blocks of at least the requested size, an allocation
fails only if at some moment of the call nothing that fits was left. (Missing: a second context, or a second pool; then it is false,
see `C86_three_contexts_false` and `C86_two_pools_false`.) -/
theorem C86_two_contexts_partial {W base : Nat} {cfg : List (Nat × Nat)} (hl : Legal W base cfg) {b : Build} {s : State}
    (hs : Reached b base cfg s) {t u : Tid} {size : Nat} {as : List Act} (hf : Fails b s t size as)
    (hu : ∀ a ∈ as, ∀ v, a.who = some v → v = t ∨ v = u)
    (hone : ∀ i j, i < s.n → j < s.n → size ≤ (s.pool i).size → size ≤ (s.pool j).size → i = j) :
    Sometime b s as (Exhausted size) := by
  have ok := hs.ok
  have sizes : ∀ k i, i < s.n → (((run b s (as.take k)).pool i).size = (s.pool i).size) := by
    intro k i hi
    have hi' : i < (regions base cfg).length := by rw [← ok.hn]; exact hi
    have hr := List.getElem?_eq_getElem hi'
    rw [(run_ok b (as.take k) ok).size i _ hr, ok.size i _ hr]
  have := fails_induct ok hf
    (fun k i => phase (((run b s (as.take k)).pool i).pc t) = .carve →
      (∃ a ≤ k, Empty ((run b s (as.take a)).pool i)) ∨
      (((run b s (as.take k)).pool i).uninit ≠ ((run b s (as.take k)).pool i).edge ∧
        (phase (((run b s (as.take k)).pool i).pc u) = .carve → ((run b s (as.take k)).pool i).free = 0)))
    (fun h h' => by rw [h] at h'; cases h')
    (fun k i hk h okk hph hc => by
      rw [hph] at hc
      rcases h hc with ⟨a, h1, h2⟩ | ⟨h1, h2⟩
      · exact Or.inl ⟨a, by omega, h2⟩
      · have hto := step_touch b okk as[k] i
        rw [← run_take_succ b s as hk] at hto
        have hk' := hto.keeps (okk.good i)
        have hmem : as[k] ∈ as := List.getElem_mem hk
        generalize hp : (run b s (as.take k)).pool i = p at *
        generalize hp' : (run b s (as.take (k + 1))).pool i = p' at *
        have goal : (Empty p') ∨ (p'.uninit ≠ p'.edge ∧ (phase (p'.pc u) = .carve → p'.free = 0)) := by
          cases hto with
          | same e => subst e; exact Or.inr ⟨h1, h2⟩
          | alloc v hw hi e =>
            have hal := alloc_ok b (hp ▸ okk.good i) v hi
            rw [← e] at hal
            refine Or.inr ⟨by rw [hal.2.2.1, hk'.edge]; exact h1, fun g => ?_⟩
            rw [hal.2.1]
            by_cases huv : u = v
            · subst huv; rw [hal.1] at g; cases g
            · rw [hk'.others u (by rw [hw]; simpa using huv)] at g; exact h2 g
          | dealloc v q hw hi hq e =>
            have hal := dealloc_ok b (hp ▸ okk.good i) v q hi hq
            rw [← e] at hal
            refine Or.inr ⟨by rw [hal.2.2.1, hk'.edge]; exact h1, fun g => ?_⟩
            rw [hal.2.1]
            by_cases huv : u = v
            · subst huv; rw [hal.1] at g; cases g
            · rw [hk'.others u (by rw [hw]; simpa using huv)] at g; exact h2 g
          | write q v hw e =>
            have hal := write_ok b (hp ▸ okk.good i) q v
            rw [← e] at hal
            refine Or.inr ⟨by rw [hal.2.1, hk'.edge]; exact h1, fun g => ?_⟩
            rw [hal.1]
            rw [hk'.others u (by rw [hw]; simp)] at g
            exact h2 g
          | step v sp hw hne e =>
            have hm := (step_ok b (hp ▸ okk.good i) v sp).1
            rw [← e] at hm
            have hwho : (as[k]).who = some v := by rw [hw]; rfl
            by_cases hvt : v = t
            · subst hvt
              rw [hph, hc] at hm
              have key : p'.free = p.free ∧ p'.uninit = p.uninit := by
                cases hm with
                | stay _ a b _ => exact ⟨a, b⟩
              refine Or.inr ⟨by rw [key.2, hk'.edge]; exact h1, fun g => ?_⟩
              rw [key.1]
              by_cases huv : u = v
              · subst huv
                exact h2 hc
              · rw [hk'.others u (by rw [hwho]; simpa using huv)] at g; exact h2 g
            · have hvu : v = u := by
                rcases hu _ hmem v hwho with h | h
                · exact absurd h hvt
                · exact h
              subst hvu
              have key : ∀ x y, phase (p.pc v) = x → phase (p'.pc v) = y → Moves p p' x y →
                  Empty p' ∨ (p'.uninit ≠ p'.edge ∧ (phase (p'.pc v) = .carve → p'.free = 0)) := by
                intro x y hx hy hm
                cases hm with
                | stay _ a b _ =>
                  exact Or.inr ⟨by rw [b, hk'.edge]; exact h1, fun g => by rw [a]; exact h2 (by rw [hx, ← hy]; exact g)⟩
                | none a b c _ => exact Or.inr ⟨by rw [c, hk'.edge]; exact h1, fun _ => by rw [b]; exact a⟩
                | pop x a b _ => exact Or.inr ⟨by rw [b, hk'.edge]; exact h1, fun g => by rw [hy] at g; cases g⟩
                | full a _ _ _ => exact absurd a h1
                | carve x a b _ =>
                  by_cases he : p'.uninit = p'.edge
                  · exact Or.inl ⟨by rw [b]; exact h2 hx, he⟩
                  · exact Or.inr ⟨he, fun g => by rw [hy] at g; cases g⟩
                | give a _ => exact Or.inr ⟨by rw [a, hk'.edge]; exact h1, fun g => by rw [hy] at g; cases g⟩
              exact key _ _ rfl rfl hm
        rcases goal with g | g
        · exact Or.inl ⟨k + 1, Nat.le_refl _, by rw [hp']; exact g⟩
        · exact Or.inr g)
    (fun k i hk _ okk hw _ hz hz' hc _ => by
      by_cases he : ((run b s (as.take (k + 1))).pool i).uninit = ((run b s (as.take (k + 1))).pool i).edge
      · exact Or.inl ⟨k + 1, Nat.le_refl _, hz', he⟩
      · exact Or.inr ⟨he, fun _ => hz'⟩)
    (fun k i _ _ _ _ _ hn g => by rw [hn] at g; cases g)
  rcases this with h | ⟨k, i, hk, h1, hle, hlt, hge, hc, hu⟩
  · refine ⟨0, Nat.zero_le _, fun i hi hsz => ?_⟩
    have hi' : i < s.n := hi
    have := (first_fit hl ok size hi').mpr hsz
    omega
  · rcases h1 hc with ⟨a, ha, he⟩ | ⟨h1, -⟩
    · refine ⟨a, by omega, fun j hj hsz => ?_⟩
      have hj' : j < s.n := by rw [(run_ok b (as.take a) ok).hn] at hj; rw [ok.hn]; exact hj
      rw [sizes a j hj'] at hsz
      have := hone i j hlt hj' ((first_fit hl ok size hlt).mp hle) hsz
      subst this
      exact he
    · exact absurd hu h1

/-! ### Counterexamples -/

/-- Step `n` times. -/
def steps (t : Tid) (n : Nat) : List Act := List.replicate n (.step t false)

/-- How many accesses `allocate_uninit` makes. -/
def carves : Build → Nat
  | .hw => 2
  | .soft => 1

/-- How many accesses `deallocate` makes. -/
def gives : Build → Nat
  | .hw => 3
  | .soft => 1

/-- One pool with two blocks of eight bytes; context 1 has the block at 64. -/
def onePool (b : Build) : State := run b (init 64 [(8, 2)] id) (.alloc 1 8 :: steps 1 (1 + carves b))

/-- Context 0 looks at the free list, which is empty, and is interrupted by context 2, which does the same and is interrupted by context 1,
which gives its block back; context 2 goes on and takes the last new block, and context 0 finds no new block. -/
def threeContexts (b : Build) : List Act :=
  .alloc 0 8 :: steps 0 1 ++ .alloc 2 8 :: steps 2 1 ++ .dealloc 1 64 8 :: steps 1 (gives b) ++ steps 2 (carves b) ++ steps 0 1

/-- C86 as stated is false for three contexts, with one pool, in both builds: an allocation fails although at every moment of the call the
pool had a block to give. The contexts interrupt each other like interrupts of increasing priority. -/
theorem C86_three_contexts_false (b : Build) :
    Legal 4 64 [(8, 2)] ∧ Reached b 64 [(8, 2)] (onePool b) ∧ Fails b (onePool b) 0 8 (threeContexts b) ∧
    (∀ a ∈ threeContexts b, ∀ v, a.who = some v → v < 3) ∧ ¬ Sometime b (onePool b) (threeContexts b) (Exhausted 8) := by
  refine ⟨⟨by decide, by decide, by decide, by decide, by decide⟩, ⟨id, _, rfl⟩, ?_, ?_, ?_⟩
  · apply fails_of_test
    cases b <;> decide +kernel
  · cases b <;> simp [threeContexts, steps, Act.who, gives, carves]
  · apply never_of_test
    cases b <;> decide +kernel

/-- Two pools with one block each; context 1 has the small block. -/
def twoPools (b : Build) : State := run b (init 64 [(8, 1), (16, 1)] id) (.alloc 1 8 :: steps 1 (1 + carves b))

/-- Context 0 finds the pool of small blocks empty. Context 1 gives the small block back and then takes the large one. Context 0 finds the pool
of large blocks empty. -/
def twoContexts (b : Build) : List Act :=
  .alloc 0 8 :: steps 0 2 ++ .dealloc 1 64 8 :: steps 1 (gives b) ++ .alloc 1 16 :: steps 1 (1 + carves b) ++ steps 0 2

/-- C86 as stated is false for two contexts, with two pools, in both builds. -/
theorem C86_two_pools_false (b : Build) :
    Legal 4 64 [(8, 1), (16, 1)] ∧ Reached b 64 [(8, 1), (16, 1)] (twoPools b) ∧ Fails b (twoPools b) 0 8 (twoContexts b) ∧
    (∀ a ∈ twoContexts b, ∀ v, a.who = some v → v < 2) ∧ ¬ Sometime b (twoPools b) (twoContexts b) (Exhausted 8) := by
  refine ⟨⟨by decide, by decide, by decide, by decide, by decide⟩, ⟨id, _, rfl⟩, ?_, ?_, ?_⟩
  · apply fails_of_test
    cases b <;> decide +kernel
  · cases b <;> simp [twoContexts, steps, Act.who, gives, carves]
  · apply never_of_test
    cases b <;> decide +kernel

/-- C86 as stated is false in both builds. -/
theorem C86_false (b : Build) : ¬ ∀ (W base : Nat) (cfg : List (Nat × Nat)) (s : State), Legal W base cfg → Reached b base cfg s →
    FailsOnlyExhausted b s := by
  intro h
  obtain ⟨h1, h2, h3, -, h4⟩ := C86_three_contexts_false b
  exact h4 (h _ _ _ _ h1 h2 _ _ _ h3)

/-- The hypotheses of `C86_no_release_partial` and of `C86_two_contexts_partial` can be met: context 1 takes the last new block while context 0
is in its call. -/
example (b : Build) : ∃ as, Fails b (onePool b) 0 8 as ∧ NoneBack b (onePool b) 8 as ∧
    (∀ a ∈ as, ∀ v, a.who = some v → v = 0 ∨ v = 1) ∧ (onePool b).n = 1 ∧ ¬ Exhausted 8 (onePool b) := by
  refine ⟨.alloc 0 8 :: steps 0 1 ++ .alloc 1 8 :: steps 1 (1 + carves b) ++ steps 0 1, ?_, ?_, ?_, ?_, ?_⟩
  · apply fails_of_test
    cases b <;> decide +kernel
  · unfold NoneBack
    cases b <;> decide +kernel
  · cases b <;> simp [steps, Act.who, carves]
  · cases b <;> decide +kernel
  · cases b <;> decide +kernel

/-- The hypotheses of `C86_two_contexts_partial` can be met with a release during the call. -/
example (b : Build) : ∃ as, Fails b (onePool b) 0 8 as ∧ ¬ NoneBack b (onePool b) 8 as ∧
    (∀ a ∈ as, ∀ v, a.who = some v → v = 0 ∨ v = 1) ∧ (onePool b).n = 1 ∧ ¬ Exhausted 8 (onePool b) := by
  refine ⟨.alloc 0 8 :: steps 0 1 ++ .alloc 1 8 :: steps 1 (1 + carves b) ++ .dealloc 1 64 8 :: steps 1 (gives b) ++ steps 0 1, ?_, ?_, ?_, ?_, ?_⟩
  · apply fails_of_test
    cases b <;> decide +kernel
  · unfold NoneBack
    cases b <;> decide +kernel
  · cases b <;> simp [steps, Act.who, carves, gives]
  · cases b <;> decide +kernel
  · cases b <;> decide +kernel

/-! ### Ownership -/

/-- C86, build without `atomics`: whatever the contexts do at the same time, blocks of the heap have one owner each and do not overlap. -/
theorem C86_shared_soft {W base : Nat} {cfg : List (Nat × Nat)} (hl : Legal W base cfg) (link : Nat → Nat) (as : List Act) :
    Shared base cfg (run .soft (init base cfg link) as) :=
  shared_of hl (run_ok .soft as (init_ok base cfg link)) (fun _ _ hr => soft_pools hl link as hr)

/-- C86, build with `atomics`, partial: the same, if no block comes back to a free list while another context is about to compare-exchange with
this block as the old head (missing; it is false then by `C11_lock_free_aba`). -/
theorem C86_shared_partial {W base : Nat} {cfg : List (Nat × Nat)} (hl : Legal W base cfg) (link : Nat → Nat) (as : List Act)
    (hn : NoReturn (init base cfg link) as) : Shared base cfg (run .hw (init base cfg link) as) :=
  shared_of hl (run_ok .hw as (init_ok base cfg link)) (fun _ _ hr => hw_pools hl link as hn hr)

/-- C86, both builds: a block that is handed out is at least as long as requested, the caller is told its length, and they own it from then on. -/
theorem C86_got {W base : Nat} {cfg : List (Nat × Nat)} (hl : Legal W base cfg) {b : Build} {s : State} (hs : Reached b base cfg s) (a : Act)
    {t : Tid} {size ptr len : Nat} (hg : (step b s a).log = .got t size ptr len :: s.log) :
    a.who = some t ∧ ∃ i < s.n, len = (s.pool i).size ∧ size ≤ len ∧ ((step b s a).pool i).held = ptr :: (s.pool i).held := by
  have ok := hs.ok
  have fit : Fit s := by
    obtain ⟨link, as, rfl⟩ := hs
    exact run_fit hl b as _ (init_ok base cfg link) (fun t size i h => by cases h)
  have self : ∀ {e : Event}, s.log ≠ e :: s.log := fun h => by simpa using congrArg List.length h
  have ent : ∀ {s' : State} {t' z i}, s'.log = s.log → (enter b s' t' z i).log ≠ .got t size ptr len :: s.log := by
    intro s' t' z i e h
    rcases enter_log b s' t' z i with h1 | h1 <;> rw [h1, e] at h
    · exact self h
    · cases h
  cases a with
  | alloc u z =>
    simp only [step] at hg
    split at hg
    · exact absurd hg (ent rfl)
    · exact absurd hg self
  | dealloc u q z =>
    simp only [step] at hg
    split at hg
    · exact absurd hg self
    · split at hg <;> exact absurd hg self
  | write q v =>
    simp only [step] at hg
    split at hg <;> exact absurd hg self
  | step u sp =>
    cases hpc : s.pc u with
    | idle => simp only [step, hpc] at hg; exact absurd hg self
    | dealloc i =>
      simp only [step, hpc] at hg
      split at hg <;> exact absurd hg self
    | alloc z i =>
      have hp := ok.placed u
      simp only [Placed, hpc] at hp
      have hm := (step_ok b (ok.good i) u sp).1
      simp only [step, hpc] at hg ⊢
      split at hg
      · rename_i hid
        split at hg
        · exact absurd hg (ent rfl)
        · rename_i hlen
          rw [if_pos hid, if_neg hlen]
          simp only [List.cons.injEq, Event.got.injEq, and_true] at hg
          obtain ⟨rfl, rfl, hq, rfl⟩ := hg
          refine ⟨rfl, i, hp.1, rfl, fit _ _ _ hpc, ?_⟩
          show ((s.setPool i _).pool i).held = _
          rw [setPool_same]
          have key : ∀ {p p' : Conc.State} {x y : Phase}, Moves p p' x y → ¬ p'.held.length = p.held.length → p'.held = p'.held.headD 0 :: p.held := by
            intro p p' x y h hne
            cases h with
            | stay _ _ _ h => exact absurd (by rw [h]) hne
            | none _ _ _ h => exact absurd (by rw [h]) hne
            | pop x _ _ h => rw [h]; rfl
            | full _ _ _ h => exact absurd (by rw [h]) hne
            | carve x _ _ h => rw [h]; rfl
            | give _ h => exact absurd (by rw [h]) hne
          rw [← hq]
          exact key hm hlen
      · exact absurd hg self

/-- The hypotheses of `C86_got` and of `C86_shared_partial` can be met, with two contexts in calls at the same time. -/
example (b : Build) : ∃ as a, Reached b 64 [(8, 1), (16, 1)] (run b (init 64 [(8, 1), (16, 1)] id) as) ∧
    (step b (run b (init 64 [(8, 1), (16, 1)] id) as) a).log = [.got 0 8 72 16, .got 1 8 64 8] := by
  refine ⟨.alloc 0 8 :: steps 0 1 ++ .alloc 1 8 :: steps 1 (1 + carves b) ++ steps 0 (1 + carves b), .step 0 false, ⟨id, _, rfl⟩, ?_⟩
  cases b <;> decide +kernel

/-- The hypothesis of `C86_shared_partial` can be met, with a block that comes back and is taken again while another context is in its call. -/
example : ∃ as, NoReturn (init 64 [(8, 1), (16, 1)] id) as ∧
    (run .hw (init 64 [(8, 1), (16, 1)] id) as).log = [.got 2 8 72 16, .got 1 8 64 8, .got 0 8 64 8] := by
  refine ⟨.alloc 0 8 :: steps 0 3 ++ .alloc 2 8 :: steps 2 2 ++ .dealloc 0 64 8 :: steps 0 3 ++ .alloc 1 8 :: steps 1 3 ++ steps 2 3, ?_, by decide +kernel⟩
  refine noReturn_of_test 3 _ _ (init_ok _ _ _) ?_ (by decide +kernel)
  intro t _ i
  simp only [init]
  split <;> rfl

end Verif.Heap.Multi
