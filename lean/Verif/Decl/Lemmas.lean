import Verif.Decl.Spec
/-! # Parsers that read exactly one form -/
namespace Verif.Decl

/-- The parser reads exactly the texts that `R` relates to the value, whatever follows. -/
def Reads {α : Type} (p : P α) (R : α → List Tok → Prop) : Prop := ∀ ts a rest, p ts = some (a, rest) ↔ ∃ f, R a f ∧ ts = f ++ rest

theorem reads_ident : Reads ident fun s f => f = [.ident s] := by
  intro ts a rest
  unfold ident
  constructor
  · intro h; split at h
    · cases h; exact ⟨_, rfl, rfl⟩
    · cases h
  · rintro ⟨f, rfl, rfl⟩; rfl

theorem reads_int : Reads int fun s f => f = [.int s] := by
  intro ts a rest
  unfold int
  constructor
  · intro h; split at h
    · cases h; exact ⟨_, rfl, rfl⟩
    · cases h
  · rintro ⟨f, rfl, rfl⟩; rfl

theorem reads_bool : Reads bool fun s f => f = [.bool s] := by
  intro ts a rest
  unfold bool
  constructor
  · intro h; split at h
    · cases h; exact ⟨_, rfl, rfl⟩
    · cases h
  · rintro ⟨f, rfl, rfl⟩; rfl

theorem reads_path : Reads path fun s f => f = [.path s] := by
  intro ts a rest
  unfold path
  constructor
  · intro h; split at h
    · cases h; exact ⟨_, rfl, rfl⟩
    · cases h
  · rintro ⟨f, rfl, rfl⟩; rfl

theorem semi_iff {ts rest : List Tok} {u : Unit} : semi ts = some (u, rest) ↔ ts = .semi :: rest := by
  unfold semi
  constructor
  · intro h; split at h
    · cases h; rfl
    · cases h
  · rintro rfl; rfl

theorem arrow_iff {ts rest : List Tok} {u : Unit} : arrow ts = some (u, rest) ↔ ts = .arrow :: rest := by
  unfold arrow
  constructor
  · intro h; split at h
    · cases h; rfl
    · cases h
  · rintro rfl; rfl

/-- Attributes are read up to the first other token. -/
theorem attrs_append (as : List String) {ts : List Tok} (h : ∀ a r, ts ≠ .attr a :: r) : attrs (as.map .attr ++ ts) = (as, ts) := by
  induction as with
  | nil =>
    simp only [List.map_nil, List.nil_append]
    unfold attrs
    split
    · exact absurd rfl (h _ _)
    · rfl
  | cons a as ih => simp only [List.map_cons, List.cons_append, attrs, ih]

theorem attrs_eq (ts : List Tok) : ts = (attrs ts).1.map .attr ++ (attrs ts).2 := by
  induction ts with
  | nil => rfl
  | cons t ts ih =>
    unfold attrs
    split
    · rename_i h; cases h
      simp only [List.map_cons, List.cons_append, List.cons.injEq, true_and]
      exact ih
    · rfl

theorem reads_head (as : List String) : Reads (head as) fun h f => h.attrs = as ∧ f = nameTokens h := by
  intro ts h rest
  constructor
  · intro e
    simp only [head] at e
    cases hi : ident (vis ts).2 with
    | none => rw [hi] at e; cases e
    | some x =>
      obtain ⟨i, ts'⟩ := x
      rw [hi] at e
      cases e
      obtain ⟨f, rfl, e⟩ := (reads_ident _ _ _).1 hi
      refine ⟨_, ⟨rfl, rfl⟩, ?_⟩
      unfold vis at e ⊢
      split at e
      · simp only at e; subst e; rfl
      · exact e
  · rintro ⟨f, ⟨rfl, rfl⟩, rfl⟩
    obtain ⟨a, v, i⟩ := h
    cases v <;> rfl

theorem name_not_attr (h : Head) (r : List Tok) (a : String) (r' : List Tok) : nameTokens h ++ r ≠ .attr a :: r' := by
  obtain ⟨x, v, i⟩ := h
  cases v <;> simp [nameTokens]

theorem reads_thread : Reads thread fun h f => f = threadTokens h := by
  intro ts h rest
  unfold thread
  rw [reads_head]
  constructor
  · rintro ⟨f, ⟨h1, rfl⟩, h2⟩
    refine ⟨_, rfl, ?_⟩
    rw [threadTokens, h1, List.append_assoc, ← h2]
    exact attrs_eq ts
  · rintro ⟨f, rfl, rfl⟩
    have := attrs_append h.attrs (name_not_attr h rest)
    rw [threadTokens, List.append_assoc, this]
    exact ⟨_, ⟨rfl, rfl⟩, rfl⟩

theorem reads_field : Reads field fun x f => f = fieldTokens x := by
  intro ts x rest
  constructor
  · intro e
    simp only [field] at e
    split at e
    · cases e
    rename_i h ts1 h1
    split at e
    · cases e
    rename_i _ ts2 h2
    split at e
    · cases e
    rename_i t ts3 h3
    split at e
    · cases e
    rename_i _ ts4 h4
    split at e
    · cases e
    rename_i i ts5 h5
    cases e
    obtain ⟨f, rfl, e1⟩ := (reads_thread ts h ts1).1 h1
    unfold colon at h2; split at h2 <;> cases h2
    unfold ty at h3; split at h3 <;> cases h3
    unfold eq at h4; split at h4 <;> cases h4
    unfold expr at h5; split at h5 <;> cases h5
    refine ⟨_, rfl, ?_⟩
    rw [e1, fieldTokens, List.append_assoc]
    rfl
  · rintro ⟨f, rfl, rfl⟩
    have := (reads_thread (threadTokens ⟨x.attrs, x.vis, x.ident⟩ ++ ([.colon, .ty x.ty, .eq, .expr x.init] ++ rest)) _ _).2 ⟨_, rfl, rfl⟩
    unfold thread at this
    simp only [field, fieldTokens, List.append_assoc, this]
    rfl

theorem listing_cons {x r : List Tok} {l : List (List Tok)} (h : Listing l r) : Listing (x :: l) (x ++ .semi :: r) := by
  cases l with
  | nil => simp only [Listing] at h; rw [h]; exact .inr rfl
  | cons y l => exact ⟨r, rfl, h⟩

theorem listing_cases {x ts : List Tok} {l : List (List Tok)} (h : Listing (x :: l) ts) : (l = [] ∧ ts = x) ∨ ∃ r, ts = x ++ .semi :: r ∧ Listing l r := by
  cases l with
  | nil => rcases h with h | h
           · exact .inl ⟨rfl, h⟩
           · exact .inr ⟨[], h, rfl⟩
  | cons y l => exact .inr h

/-- The loop reads a listing. -/
theorem many_iff {α : Type} {p : P α} {tk : α → List Tok} (hp : Reads p fun a f => f = tk a) (hne : ∀ a, tk a ≠ []) :
    ∀ n ts l, ts.length ≤ n → (many p n ts = some l ↔ Listing (l.map tk) ts) := by
  intro n
  induction n with
  | zero =>
    intro ts l hn
    have : ts = [] := List.length_eq_zero_iff.1 (by omega)
    subst this
    cases l with
    | nil => simp [many, Listing]
    | cons a l =>
      refine ⟨fun e => by simp [many] at e, fun h => ?_⟩
      rcases listing_cases h with ⟨-, h⟩ | ⟨r, h, -⟩
      · exact absurd h.symm (hne a)
      · simp at h
  | succ n ih =>
    intro ts l hn
    constructor
    · intro e
      cases ts with
      | nil => simp only [many] at e; cases e; rfl
      | cons t0 ts0 =>
        simp only [many] at e
        split at e
        · cases e
        · rename_i a ha
          cases e
          obtain ⟨f, rfl, ef⟩ := (hp _ _ _).1 ha
          exact .inl (by rw [ef]; simp)
        · rename_i a t ts' ha
          split at e
          · cases e
          · rename_i u ts'' hs
            obtain ⟨f, rfl, ef⟩ := (hp _ _ _).1 ha
            rw [semi_iff] at hs
            cases hs
            obtain ⟨l', hl, rfl⟩ := Option.map_eq_some_iff.1 e
            rw [ef] at hn ⊢
            refine listing_cons ((ih _ _ ?_).1 hl)
            have := List.length_pos_iff.2 (hne a)
            simp at hn; omega
    · intro h
      cases l with
      | nil => simp only [List.map_nil, Listing] at h; subst h; rfl
      | cons a l =>
        have hpos := List.length_pos_iff.2 (hne a)
        rcases listing_cases h with ⟨hl, rfl⟩ | ⟨r, rfl, hr⟩
        · have hl : l = [] := by simpa using hl
          subst hl
          have := (hp (tk a) a []).2 ⟨_, rfl, by simp⟩
          cases ht : tk a with
          | nil => exact absurd ht (hne a)
          | cons t ts => rw [ht] at this; simp only [many, this]
        · have := (hp (tk a ++ .semi :: r) a (.semi :: r)).2 ⟨_, rfl, rfl⟩
          have hm := (ih r l (by simp at hn; omega)).2 hr
          cases ht : tk a with
          | nil => exact absurd ht (hne a)
          | cons t ts => rw [ht] at this; simp only [List.cons_append] at this ⊢; simp only [many, this, semi, hm, Option.map_some]

theorem thread_ne (h : Head) : threadTokens h ≠ [] := by simp [threadTokens, nameTokens]

theorem field_ne (x : Field) : fieldTokens x ≠ [] := by simp [fieldTokens]

theorem braced_iff {α : Type} {p : List Tok → Option α} {ts rest : List Tok} {a : α} :
    braced p ts = some (a, rest) ↔ ∃ b, p b = some a ∧ ts = .brace b :: rest := by
  unfold braced
  constructor
  · intro h
    split at h
    · obtain ⟨x, hx, e⟩ := Option.map_eq_some_iff.1 h
      cases e
      exact ⟨_, hx, rfl⟩
    · cases h
  · rintro ⟨b, hb, rfl⟩; simp only [hb, Option.map_some]

/-- What the value parser of a key reads. -/
def ValR (as : List String) : Val → List Tok → Prop
  | .name s, ts => ts = [.ident s]
  | .int n, ts => ts = [.int n]
  | .bool b, ts => ts = [.bool b]
  | .path r, ts => ts = [.path r]
  | .head h, ts => h.attrs = as ∧ ts = nameTokens h
  | .block h fs, ts => h.attrs = as ∧ ∃ b, Listing (fs.map fieldTokens) b ∧ ts = nameTokens h ++ [.brace b]
  | .rawBlock h b, ts => h.attrs = as ∧ ts = nameTokens h ++ [.brace b]
  | .threads l, ts => ∃ b, Listing (l.map threadTokens) b ∧ ts = [.brace b]
  | .rawThreads b, ts => ts = [.brace b]

/-- The kinds of values. -/
inductive Sort_ where
  | name | int | bool | path | head | block | rawBlock | threads | rawThreads
deriving DecidableEq

def sortOf : Val → Sort_
  | .name _ => .name | .int _ => .int | .bool _ => .bool | .path _ => .path | .head _ => .head | .block .. => .block
  | .rawBlock .. => .rawBlock | .threads _ => .threads | .rawThreads _ => .rawThreads

/-- The key has values of this sort. -/
def Key.Good (k : Key) (s : Sort_) : Prop := ∀ as, Reads (k.parse as) fun v f => sortOf v = s ∧ ValR as v f

theorem good_plain {α : Type} {mk : α → Val} {p : P α} {R : α → List Tok → Prop} (hp : Reads p R) (s : Sort_) (h : ∀ a, sortOf (mk a) = s)
    (hv : ∀ v, sortOf v = s → ∃ a, v = mk a) (hr : ∀ as a f, ValR as (mk a) f ↔ R a f) {n : String} {b : Bool} : Key.Good ⟨n, b, plain mk p⟩ s := by
  intro as ts v rest
  simp only [plain, Option.map_eq_some_iff]
  constructor
  · rintro ⟨⟨a, r⟩, ha, e⟩
    cases e
    obtain ⟨f, hf, rfl⟩ := (hp _ _ _).1 ha
    exact ⟨f, ⟨h a, (hr as a f).2 hf⟩, rfl⟩
  · rintro ⟨f, ⟨h1, h2⟩, rfl⟩
    obtain ⟨a, rfl⟩ := hv v h1
    exact ⟨(a, rest), (hp _ _ _).2 ⟨f, (hr as a f).1 h2, rfl⟩, rfl⟩

theorem good_name {n : String} {b : Bool} : Key.Good ⟨n, b, plain .name ident⟩ .name :=
  good_plain (mk := .name) reads_ident .name (fun _ => rfl) (fun v h => by cases v <;> simp only [sortOf, reduceCtorEq] at h <;> exact ⟨_, rfl⟩) fun _ _ _ => Iff.rfl

theorem good_int {n : String} {b : Bool} : Key.Good ⟨n, b, plain .int int⟩ .int :=
  good_plain (mk := .int) reads_int .int (fun _ => rfl) (fun v h => by cases v <;> simp only [sortOf, reduceCtorEq] at h <;> exact ⟨_, rfl⟩) fun _ _ _ => Iff.rfl

theorem good_bool {n : String} {b : Bool} : Key.Good ⟨n, b, plain .bool bool⟩ .bool :=
  good_plain (mk := .bool) reads_bool .bool (fun _ => rfl) (fun v h => by cases v <;> simp only [sortOf, reduceCtorEq] at h <;> exact ⟨_, rfl⟩) fun _ _ _ => Iff.rfl

theorem good_path {n : String} {b : Bool} : Key.Good ⟨n, b, plain .path path⟩ .path :=
  good_plain (mk := .path) reads_path .path (fun _ => rfl) (fun v h => by cases v <;> simp only [sortOf, reduceCtorEq] at h <;> exact ⟨_, rfl⟩) fun _ _ _ => Iff.rfl

theorem good_head {n : String} {b : Bool} : Key.Good ⟨n, b, heads⟩ .head := by
  intro as ts v rest
  simp only [heads, Option.map_eq_some_iff]
  constructor
  · rintro ⟨⟨h, r⟩, hh, e⟩
    cases e
    obtain ⟨f, hf, rfl⟩ := (reads_head as _ _ _).1 hh
    exact ⟨f, ⟨rfl, hf⟩, rfl⟩
  · rintro ⟨f, ⟨h1, h2⟩, rfl⟩
    cases v <;> simp only [sortOf, reduceCtorEq] at h1
    exact ⟨(_, rest), (reads_head as _ _ _).2 ⟨f, h2, rfl⟩, rfl⟩

theorem good_block {n : String} {b : Bool} : Key.Good ⟨n, b, block⟩ .block := by
  intro as ts v rest
  simp only [block]
  constructor
  · intro e
    split at e
    · cases e
    rename_i h ts1 h1
    obtain ⟨⟨fs, r⟩, hb, e⟩ := Option.map_eq_some_iff.1 e
    cases e
    obtain ⟨f, ⟨ha, rfl⟩, rfl⟩ := (reads_head as _ _ _).1 h1
    obtain ⟨x, hx, rfl⟩ := braced_iff.1 hb
    exact ⟨_, ⟨rfl, ha, x, (many_iff reads_field field_ne _ _ _ (Nat.le_refl _)).1 hx, rfl⟩, by simp⟩
  · rintro ⟨f, ⟨h1, h2⟩, rfl⟩
    cases v <;> simp only [sortOf, reduceCtorEq] at h1
    rename_i h fs
    obtain ⟨rfl, x, hx, rfl⟩ := h2
    have := (reads_head h.attrs (nameTokens h ++ .brace x :: rest) h (.brace x :: rest)).2 ⟨_, ⟨rfl, rfl⟩, rfl⟩
    simp only [List.append_assoc, List.cons_append, List.nil_append, this]
    rw [Option.map_eq_some_iff]
    exact ⟨(fs, rest), braced_iff.2 ⟨x, (many_iff reads_field field_ne _ _ _ (Nat.le_refl _)).2 hx, rfl⟩, rfl⟩

theorem good_rawBlock {n : String} {b : Bool} : Key.Good ⟨n, b, rawBlock⟩ .rawBlock := by
  intro as ts v rest
  simp only [rawBlock]
  constructor
  · intro e
    split at e
    · cases e
    rename_i h ts1 h1
    obtain ⟨⟨fs, r⟩, hb, e⟩ := Option.map_eq_some_iff.1 e
    cases e
    obtain ⟨f, ⟨ha, rfl⟩, rfl⟩ := (reads_head as _ _ _).1 h1
    obtain ⟨x, hx, rfl⟩ := braced_iff.1 hb
    cases hx
    exact ⟨_, ⟨rfl, ha, rfl⟩, by simp⟩
  · rintro ⟨f, ⟨h1, h2⟩, rfl⟩
    cases v <;> simp only [sortOf, reduceCtorEq] at h1
    rename_i h x
    obtain ⟨rfl, rfl⟩ := h2
    have := (reads_head h.attrs (nameTokens h ++ .brace x :: rest) h (.brace x :: rest)).2 ⟨_, ⟨rfl, rfl⟩, rfl⟩
    simp only [List.append_assoc, List.cons_append, List.nil_append, this]
    rfl

theorem good_threads {n : String} {b : Bool} : Key.Good ⟨n, b, fun _ => threads⟩ .threads := by
  intro as ts v rest
  simp only [threads, Option.map_eq_some_iff]
  constructor
  · rintro ⟨⟨l, r⟩, hb, e⟩
    cases e
    obtain ⟨x, hx, rfl⟩ := braced_iff.1 hb
    exact ⟨_, ⟨rfl, x, (many_iff reads_thread thread_ne _ _ _ (Nat.le_refl _)).1 hx, rfl⟩, rfl⟩
  · rintro ⟨f, ⟨h1, h2⟩, rfl⟩
    cases v <;> simp only [sortOf, reduceCtorEq] at h1
    rename_i l
    obtain ⟨x, hx, rfl⟩ := h2
    exact ⟨(l, rest), braced_iff.2 ⟨x, (many_iff reads_thread thread_ne _ _ _ (Nat.le_refl _)).2 hx, rfl⟩, rfl⟩

theorem good_rawThreads {n : String} {b : Bool} : Key.Good ⟨n, b, fun _ => rawThreads⟩ .rawThreads := by
  intro as ts v rest
  simp only [rawThreads, Option.map_eq_some_iff]
  constructor
  · rintro ⟨⟨l, r⟩, hb, e⟩
    cases e
    obtain ⟨x, hx, rfl⟩ := braced_iff.1 hb
    cases hx
    exact ⟨_, ⟨rfl, rfl⟩, rfl⟩
  · rintro ⟨f, ⟨h1, h2⟩, rfl⟩
    cases v <;> simp only [sortOf, reduceCtorEq] at h1
    cases h2
    exact ⟨_, rfl, rfl⟩

/-- Keys with these values may have attributes. -/
def takes : Sort_ → Bool
  | .head => true | .block => true | .rawBlock => true | _ => false

theorem spells_iff {k : String} {v : Val} {f : List Tok} : Spells k v f ↔
    ∃ as g, (takes (sortOf v) = true ∨ as = []) ∧ ValR as v g ∧ f = as.map .attr ++ .ident k :: .arrow :: g := by
  cases v <;> simp only [Spells, ValR, takes, sortOf, Bool.false_eq_true, false_or, true_or, true_and]
  case name => exact ⟨fun h => ⟨_, _, rfl, rfl, h⟩, fun ⟨_, _, h1, h2, h3⟩ => by subst h1 h2; exact h3⟩
  case int => exact ⟨fun h => ⟨_, _, rfl, rfl, h⟩, fun ⟨_, _, h1, h2, h3⟩ => by subst h1 h2; exact h3⟩
  case bool => exact ⟨fun h => ⟨_, _, rfl, rfl, h⟩, fun ⟨_, _, h1, h2, h3⟩ => by subst h1 h2; exact h3⟩
  case path => exact ⟨fun h => ⟨_, _, rfl, rfl, h⟩, fun ⟨_, _, h1, h2, h3⟩ => by subst h1 h2; exact h3⟩
  case rawThreads => exact ⟨fun h => ⟨_, _, rfl, rfl, h⟩, fun ⟨_, _, h1, h2, h3⟩ => by subst h1 h2; exact h3⟩
  case head h =>
    exact ⟨fun h => ⟨_, _, ⟨rfl, rfl⟩, by rw [h]; simp⟩, fun ⟨_, _, ⟨h1, h2⟩, h3⟩ => by subst h1 h2; rw [h3]; simp⟩
  case rawBlock =>
    exact ⟨fun h => ⟨_, _, ⟨rfl, rfl⟩, by rw [h]; simp⟩, fun ⟨_, _, ⟨h1, h2⟩, h3⟩ => by subst h1 h2; rw [h3]; simp⟩
  case block =>
    exact ⟨fun ⟨b, hb, h⟩ => ⟨_, _, ⟨rfl, b, hb, rfl⟩, by rw [h]; simp⟩, fun ⟨_, _, ⟨h1, b, hb, h2⟩, h3⟩ => ⟨b, hb, by subst h1 h2; rw [h3]; simp⟩⟩
  case threads =>
    exact ⟨fun ⟨b, hb, h⟩ => ⟨_, _, rfl, ⟨b, hb, rfl⟩, h⟩, fun ⟨_, _, h1, ⟨b, hb, h2⟩, h3⟩ => ⟨b, hb, by subst h1 h2; exact h3⟩⟩

/-- The keys and the sorts of their values. -/
def Table : List Key → List (String × Sort_) → Prop
  | [], tab => tab = []
  | k :: ks, tab => ∃ s tab', tab = (k.name, s) :: tab' ∧ k.attrs = takes s ∧ k.Good s ∧ Table ks tab'

theorem mem_of_lookup {α : Type} {k : String} {v : α} {l : List (String × α)} (h : l.lookup k = some v) : (k, v) ∈ l := by
  induction l with
  | nil => cases h
  | cons e l ih =>
    obtain ⟨a, b⟩ := e
    simp only [List.lookup] at h
    split at h
    · rename_i hk
      cases h
      rw [beq_iff_eq] at hk
      subst hk
      exact .head _
    · exact .tail _ (ih h)

theorem lookup_of_mem {α : Type} {k : String} {v : α} {l : List (String × α)} (hn : (l.map Prod.fst).Nodup) (h : (k, v) ∈ l) :
    l.lookup k = some v := by
  induction l with
  | nil => cases h
  | cons e l ih =>
    obtain ⟨a, b⟩ := e
    simp only [List.map_cons, List.nodup_cons] at hn
    simp only [List.lookup]
    rcases List.mem_cons.1 h with h | h
    · cases h; simp
    · have : k ≠ a := fun e => hn.1 (List.mem_map.2 ⟨_, h, e⟩)
      have : (k == a) = false := by simpa using this
      simp only [this]
      exact ih hn.2 h

theorem lookup_none {α : Type} {k : String} {l : List (String × α)} : l.lookup k = none ↔ k ∉ l.map Prod.fst := by
  induction l with
  | nil => simp
  | cons e l ih =>
    obtain ⟨a, b⟩ := e
    simp only [List.lookup, List.map_cons, List.mem_cons, not_or]
    split
    · rename_i h; rw [beq_iff_eq] at h; simp [h]
    · rename_i h
      have : k ≠ a := by simpa using h
      rw [ih]; simp [this]

theorem nodup_of_map {α : Type} {l : List (String × α)} (h : (l.map Prod.fst).Nodup) : l.Nodup := by
  induction l with
  | nil => exact List.nodup_nil
  | cons e l ih =>
    simp only [List.map_cons, List.nodup_cons] at h ⊢
    exact ⟨fun he => h.1 (List.mem_map.2 ⟨_, he, rfl⟩), ih h.2⟩

/-- Association lists without repeated keys are permutations of each other iff they hold the same values. -/
theorem perm_of_lookup {α : Type} {l l' : List (String × α)} (h : (l.map Prod.fst).Nodup) (h' : (l'.map Prod.fst).Nodup)
    (he : ∀ k, l.lookup k = l'.lookup k) : l.Perm l' := by
  refine (List.perm_ext_iff_of_nodup (nodup_of_map h) (nodup_of_map h')).2 ?_
  rintro ⟨k, v⟩
  exact ⟨fun hm => mem_of_lookup (he k ▸ lookup_of_mem h hm), fun hm => mem_of_lookup (he k ▸ lookup_of_mem h' hm)⟩

theorem lookup_of_perm {α : Type} {l l' : List (String × α)} (h : (l.map Prod.fst).Nodup) (hp : l.Perm l') (k : String) : l.lookup k = l'.lookup k := by
  have h' := (hp.map Prod.fst).nodup h
  cases e : l.lookup k with
  | some v => exact (lookup_of_mem h' (hp.mem_iff.1 (mem_of_lookup e))).symm
  | none =>
    rw [lookup_none] at e
    exact (lookup_none.2 fun hm => e ((hp.map Prod.fst).mem_iff.2 hm)).symm

theorem find_key {ks : List Key} {tab : List (String × Sort_)} (ht : Table ks tab) (hn : (tab.map Prod.fst).Nodup) (b : Bool) (i : String) :
    match tab.lookup i with
    | none => ks.find? (fun k => (k.attrs || b) && k.name == i) = none
    | some s => ∃ k, k.Good s ∧ ks.find? (fun k => (k.attrs || b) && k.name == i) = if takes s || b then some k else none := by
  induction ks generalizing tab with
  | nil => cases ht; rfl
  | cons k ks ih =>
    obtain ⟨s, tab', rfl, ha, hg, ht⟩ := ht
    simp only [List.map_cons, List.nodup_cons] at hn
    have := ih ht hn.2
    simp only [List.lookup, List.find?]
    by_cases hk : k.name = i
    · subst hk
      simp only [beq_self_eq_true, Bool.and_true]
      rw [lookup_none.2 hn.1] at this
      refine ⟨k, hg, ?_⟩
      rw [ha]
      cases takes s <;> cases b <;> simp_all
    · have h1 : (k.name == i) = false := by simpa using hk
      have h2 : (i == k.name) = false := by simpa using fun e => hk e.symm
      simp only [h1, h2, Bool.and_false]
      exact this

/-- One round reads the spelling of one new entry of the table. -/
theorem entry_iff {ks : List Key} {tab : List (String × Sort_)} (ht : Table ks tab) (hn : (tab.map Prod.fst).Nodup) {found : List (String × Val)}
    {ts rest : List Tok} {e : String × Val} : entry ks found ts = some (e, rest) ↔
      tab.lookup e.1 = some (sortOf e.2) ∧ found.lookup e.1 = none ∧ ∃ f, Spells e.1 e.2 f ∧ ts = f ++ rest := by
  constructor
  · intro h
    simp only [entry] at h
    split at h
    · cases h
    rename_i i ts1 h1
    split at h
    · cases h
    rename_i u ts2 h2
    rw [arrow_iff] at h2
    subst h2
    have hf := find_key ht hn (attrs ts).1.isEmpty i
    split at h
    · cases h
    rename_i k hk
    rw [hk] at hf
    split at h
    · cases h
    rename_i hl
    obtain ⟨⟨v, r⟩, hv, he⟩ := Option.map_eq_some_iff.1 h
    cases he
    cases hs : tab.lookup i with
    | none => rw [hs] at hf; cases hf
    | some s =>
      rw [hs] at hf
      obtain ⟨k', hg, hf⟩ := hf
      split at hf
      · rename_i hb
        cases hf
        obtain ⟨f, ⟨hsv, hr⟩, rfl⟩ := (hg _ _ _ _).1 hv
        refine ⟨by rw [hsv], Option.not_isSome_iff_eq_none.1 hl, _, spells_iff.2 ⟨(attrs ts).1, f, ?_, hr, rfl⟩, ?_⟩
        · rw [hsv]
          rcases Bool.or_eq_true _ _ |>.mp hb with hb | hb
          · exact .inl hb
          · exact .inr (by simpa using hb)
        · obtain ⟨g, rfl, hg'⟩ := (reads_ident _ _ _).1 h1
          refine (attrs_eq ts).trans ?_
          rw [hg']
          simp
      · cases hf
  · rintro ⟨h1, h2, f, hf, rfl⟩
    obtain ⟨as, g, ha, hr, rfl⟩ := spells_iff.1 hf
    obtain ⟨i, v⟩ := e
    have hfk := find_key ht hn as.isEmpty i
    simp only at h1 h2
    rw [h1] at hfk
    obtain ⟨k, hg, hfk⟩ := hfk
    have hb : (takes (sortOf v) || as.isEmpty) = true := by
      rcases ha with ha | ha
      · rw [ha]; rfl
      · rw [ha]; simp
    rw [if_pos hb] at hfk
    have := attrs_append as (ts := .ident i :: .arrow :: (g ++ rest)) (by simp)
    simp only [entry, List.append_assoc, List.cons_append, this, ident, arrow, hfk, h2]
    have hp := (hg as (g ++ rest) v rest).2 ⟨g, ⟨rfl, hr⟩, rfl⟩
    simp [hp]

theorem spells_ne {k : String} {v : Val} {f : List Tok} (h : Spells k v f) : f ≠ [] := by
  obtain ⟨as, g, -, -, rfl⟩ := spells_iff.1 h
  simp

/-- The loop reads a listing of new entries of the table. -/
theorem keys_iff {ks : List Key} {tab : List (String × Sort_)} (ht : Table ks tab) (hn : (tab.map Prod.fst).Nodup) :
    ∀ n found ts r, ts.length ≤ n → (keys ks n found ts = some r ↔
      ∃ es l, r = found ++ es ∧ SpellsAll es l ∧ Listing l ts ∧ (∀ e ∈ es, tab.lookup e.1 = some (sortOf e.2) ∧ found.lookup e.1 = none) ∧
        (es.map Prod.fst).Nodup) := by
  intro n
  induction n with
  | zero =>
    intro found ts r hl
    have : ts = [] := List.length_eq_zero_iff.1 (by omega)
    subst this
    simp only [keys]
    constructor
    · intro h; cases h
      exact ⟨[], [], by simp, rfl, rfl, by simp, by simp⟩
    · rintro ⟨es, l, rfl, hs, hl, -, -⟩
      cases es with
      | nil => simp
      | cons e es =>
        obtain ⟨x, l', rfl, hx, -⟩ := hs
        rcases listing_cases hl with ⟨-, h⟩ | ⟨r, h, -⟩
        · exact absurd h.symm (spells_ne hx)
        · simp at h
  | succ n ih =>
    intro found ts r hl
    constructor
    · intro h
      cases ts with
      | nil =>
        simp only [keys] at h; cases h
        exact ⟨[], [], by simp, rfl, rfl, by simp, by simp⟩
      | cons t0 ts0 =>
        simp only [keys] at h
        split at h
        · cases h
        · rename_i e he
          cases h
          obtain ⟨h1, h2, f, hf, ef⟩ := (entry_iff ht hn).1 he
          refine ⟨[e], [f], rfl, ⟨f, [], rfl, hf, rfl⟩, .inl (by simpa using ef), ?_, by simp⟩
          intro e' he'
          cases List.mem_singleton.1 he'
          exact ⟨h1, h2⟩
        · rename_i e t ts' he
          obtain ⟨h1, h2, f, hf, ef⟩ := (entry_iff ht hn).1 he
          split at h
          · cases h
          · rename_i u ts'' hs
            rw [semi_iff] at hs
            cases hs
            have hlen : ts'.length ≤ n := by
              have := List.length_pos_iff.2 (spells_ne hf)
              rw [ef] at hl
              simp at hl; omega
            obtain ⟨es, l, rfl, hs, hli, hm, hd⟩ := (ih _ _ _ hlen).1 h
            refine ⟨e :: es, f :: l, by simp, ⟨f, l, rfl, hf, hs⟩, ef ▸ listing_cons hli, ?_, ?_⟩
            · intro e' he'
              rcases List.mem_cons.1 he' with rfl | he'
              · exact ⟨h1, h2⟩
              · refine ⟨(hm e' he').1, ?_⟩
                have := (hm e' he').2
                rw [lookup_none] at this ⊢
                simp only [List.map_append, List.mem_append, not_or] at this
                exact this.1
            · simp only [List.map_cons, List.nodup_cons]
              refine ⟨fun he => ?_, hd⟩
              obtain ⟨e', he', e2⟩ := List.mem_map.1 he
              have := (hm e' he').2
              rw [lookup_none] at this
              simp [e2] at this
    · rintro ⟨es, l, rfl, hs, hli, hm, hd⟩
      cases es with
      | nil => cases hs; cases hli; simp [keys]
      | cons e es =>
        obtain ⟨x, l', rfl, hx, hs⟩ := hs
        obtain ⟨h1, h2⟩ := hm e (.head _)
        have hpos := List.length_pos_iff.2 (spells_ne hx)
        simp only [List.map_cons, List.nodup_cons] at hd
        rcases listing_cases hli with ⟨rfl, rfl⟩ | ⟨r, rfl, hr⟩
        · have hes : es = [] := by
            cases es with
            | nil => rfl
            | cons e es => obtain ⟨_, _, h, -⟩ := hs; cases h
          subst hes
          have he : entry ks found ts = some (e, []) := (entry_iff ht hn).2 ⟨h1, h2, _, hx, by simp⟩
          cases ts with
          | nil => exact absurd rfl (spells_ne hx)
          | cons t ts => simp only [keys, he]
        · have he : entry ks found (x ++ .semi :: r) = some (e, .semi :: r) := (entry_iff ht hn).2 ⟨h1, h2, _, hx, rfl⟩
          have hk : keys ks n (found ++ [e]) r = some (found ++ e :: es) := by
            refine (ih _ _ _ (by simp at hl; omega)).2 ⟨es, l', by simp, hs, hr, fun e' he' => ⟨(hm e' (.tail _ he')).1, ?_⟩, hd.2⟩
            have := (hm e' (.tail _ he')).2
            rw [lookup_none] at this ⊢
            simp only [List.map_append, List.mem_append, not_or, List.map_cons, List.map_nil, List.mem_singleton]
            exact ⟨this, fun e2 => hd.1 (List.mem_map.2 ⟨e', he', e2⟩)⟩
          cases x with
          | nil => exact absurd rfl (spells_ne hx)
          | cons t x => simp only [List.cons_append] at he ⊢; simp only [keys, he, semi, hk]

/-- The whole input. -/
theorem input_iff {ks : List Key} {tab : List (String × Sort_)} (ht : Table ks tab) (hn : (tab.map Prod.fst).Nodup) {ts : List Tok}
    {es : List (String × Val)} : keys ks ts.length [] ts = some es ↔
      (∃ l, SpellsAll es l ∧ Listing l ts) ∧ (∀ e ∈ es, tab.lookup e.1 = some (sortOf e.2)) ∧ (es.map Prod.fst).Nodup := by
  rw [keys_iff ht hn _ _ _ _ (Nat.le_refl _)]
  constructor
  · rintro ⟨es', l, h1, h2, h3, h4, h5⟩
    rw [List.nil_append] at h1
    subst h1
    exact ⟨⟨l, h2, h3⟩, fun e he => (h4 e he).1, h5⟩
  · rintro ⟨⟨l, h2, h3⟩, h4, h5⟩
    exact ⟨es, l, rfl, h2, h3, fun e he => ⟨h4 e he, rfl⟩, h5⟩

end Verif.Decl
