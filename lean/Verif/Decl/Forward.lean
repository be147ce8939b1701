import Verif.Decl.Inputs
/-! # What `thr::soft!` hands over to `thr::pool!` -/
namespace Verif.Decl

theorem quoteName_eq (h : Head) : quoteName h = nameTokens h := by
  obtain ⟨a, v, i⟩ := h
  cases v <;> rfl

theorem head_quote (h : Head) (rest : List Tok) : head h.attrs (quoteName h ++ rest) = some (h, rest) := by
  rw [quoteName_eq]
  exact (reads_head h.attrs _ h rest).2 ⟨_, ⟨rfl, rfl⟩, rfl⟩

theorem block_quote (h : Head) (b rest : List Tok) :
    block h.attrs (quoteName h ++ .brace b :: rest) = (many field b.length b).map fun fs => (.block h fs, rest) := by
  simp only [block, head_quote, braced, Option.map_map]
  rfl

theorem heads_quote (h : Head) (rest : List Tok) : heads h.attrs (quoteName h ++ rest) = some (.head h, rest) := by
  simp only [heads, head_quote, Option.map_some]

theorem entry_quote {ks : List Key} {found : List (String × Val)} {as : List String} {k : String} {g : List Tok} {key : Key}
    (hk : ks.find? (fun x => (x.attrs || as.isEmpty) && x.name == k) = some key) (hf : found.lookup k = none) :
    entry ks found (quoteKey as k ++ g) = (key.parse as g).map fun x => ((k, x.1), x.2) := by
  have := attrs_append as (ts := .ident k :: .arrow :: g) (by simp)
  simp only [entry, quoteKey, List.append_assoc, List.cons_append, List.nil_append, this, ident, arrow, hk, hf]
  rfl

theorem keys_none {ks : List Key} {n : Nat} {found : List (String × Val)} {ts : List Tok} (hne : ts ≠ []) (h : entry ks found ts = none) :
    keys ks n found ts = none := by
  cases ts with
  | nil => exact absurd rfl hne
  | cons t ts => cases n <;> simp [keys, h]

theorem keys_semi {ks : List Key} {n : Nat} {found : List (String × Val)} {ts r : List Tok} {e : String × Val} (hne : ts ≠ [])
    (h : entry ks found ts = some (e, .semi :: r)) : keys ks (n + 1) found ts = keys ks n (found ++ [e]) r := by
  cases ts with
  | nil => exact absurd rfl hne
  | cons t ts => simp [keys, h, semi]

theorem quote_ne (as : List String) (k : String) (g : List Tok) : quoteKey as k ++ g ≠ [] := by simp [quoteKey]

/-- The field for the priority that `def_pool` adds. -/
def prio : Field := ⟨[], none, "priority", "::drone_core::thr::PriorityState", "::drone_core::thr::PriorityState::new(0)"⟩

theorem many_prio {b : List Tok} {gs : List Field} : many field (fieldTokens prio ++ .semi :: b).length (fieldTokens prio ++ .semi :: b) = some gs ↔
    ∃ fs, gs = prio :: fs ∧ Listing (fs.map fieldTokens) b := by
  have hf := (reads_field (fieldTokens prio ++ .semi :: b) prio (.semi :: b)).2 ⟨_, rfl, rfl⟩
  have : many field (fieldTokens prio ++ .semi :: b).length (fieldTokens prio ++ .semi :: b) =
      (many field (b.length + 5) b).map (prio :: ·) := by
    show many field (b.length + 5 + 1) (.ident "priority" :: _) = _
    have hf' : field (.ident "priority" :: (.colon :: .ty prio.ty :: .eq :: .expr prio.init :: .semi :: b)) = some (prio, .semi :: b) := hf
    show many field (b.length + 5 + 1) (.ident "priority" :: (.colon :: .ty prio.ty :: .eq :: .expr prio.init :: .semi :: b)) = _
    simp only [many, hf', semi]
  rw [this, Option.map_eq_some_iff]
  constructor
  · rintro ⟨fs, h, rfl⟩
    exact ⟨fs, rfl, (many_iff reads_field field_ne _ _ _ (by omega)).1 h⟩
  · rintro ⟨fs, rfl, h⟩
    exact ⟨fs, (many_iff reads_field field_ne _ _ _ (by omega)).2 h, rfl⟩

/-- The result of the pool macro on the forwarded text, by the three blocks. -/
theorem pool_defPool (s : Soft) : pool (defPool s) =
    match many field (fieldTokens prio ++ .semi :: s.thr.2).length (fieldTokens prio ++ .semi :: s.thr.2), many field s.local_.2.length s.local_.2,
      many thread s.threads.length s.threads with
    | some fs, some gs, some ths => some ⟨(s.thr.1, fs), (s.local_.1, gs), s.index, ths, s.resume⟩
    | _, _, _ => none := by
  obtain ⟨⟨t, tb⟩, ⟨l, lb⟩, i, th, r, sp⟩ := s
  simp only
  generalize hE : (match r with | none => [] | some r => [Tok.ident "resume", .arrow, .path r, .semi]) = E
  have hD : defPool ⟨(t, tb), (l, lb), i, th, r, sp⟩ = quoteKey t.attrs "thread" ++ (quoteName t ++ .brace (fieldTokens prio ++ .semi :: tb) :: .semi ::
      (quoteKey l.attrs "local" ++ (quoteName l ++ .brace lb :: .semi :: (quoteKey i.attrs "index" ++ (quoteName i ++ .semi ::
        (quoteKey [] "threads" ++ .brace th :: .semi :: E)))))) := by
    rw [← hE]
    cases r <;> simp [defPool, quoteKey, fieldTokens, prio, threadTokens, nameTokens]
  have hn : ∃ n, (defPool ⟨(t, tb), (l, lb), i, th, r, sp⟩).length = n + 1 + 1 + 1 + 1 + 1 := by
    rw [hD]
    refine ⟨(defPool ⟨(t, tb), (l, lb), i, th, r, sp⟩).length - 5, ?_⟩
    rw [hD]
    simp only [quoteKey, List.length_append, List.length_cons, List.length_map]
    omega
  obtain ⟨n, hn⟩ := hn
  unfold pool
  rw [hn, hD]
  generalize hA : many field (fieldTokens prio ++ .semi :: tb).length (fieldTokens prio ++ .semi :: tb) = A
  generalize hB : many field lb.length lb = B
  generalize hC : many thread th.length th = C
  have k1 : poolKeys.find? (fun x => (x.attrs || t.attrs.isEmpty) && x.name == "thread") = some ⟨"thread", true, block⟩ := rfl
  have k2 : poolKeys.find? (fun x => (x.attrs || l.attrs.isEmpty) && x.name == "local") = some ⟨"local", true, block⟩ := rfl
  have k3 : poolKeys.find? (fun x => (x.attrs || i.attrs.isEmpty) && x.name == "index") = some ⟨"index", true, heads⟩ := rfl
  have k4 : poolKeys.find? (fun x => (x.attrs || ([] : List String).isEmpty) && x.name == "threads") = some ⟨"threads", false, fun _ => threads⟩ := rfl
  have k5 : poolKeys.find? (fun x => (x.attrs || ([] : List String).isEmpty) && x.name == "resume") = some ⟨"resume", false, plain .path path⟩ := rfl
  cases A with
  | none =>
    rw [keys_none (quote_ne _ _ _) (by rw [entry_quote k1 rfl]; simp only [block_quote, hA, Option.map_none])]
  | some fs =>
    rw [keys_semi (quote_ne _ _ _) (by rw [entry_quote k1 rfl]; simp only [block_quote, hA, Option.map_some]; rfl)]
    cases B with
    | none =>
      rw [keys_none (quote_ne _ _ _) (by rw [entry_quote k2 rfl]; simp only [block_quote, hB, Option.map_none])]
    | some gs =>
      rw [keys_semi (quote_ne _ _ _) (by rw [entry_quote k2 rfl]; simp only [block_quote, hB, Option.map_some]; rfl)]
      rw [keys_semi (quote_ne _ _ _) (by rw [entry_quote k3 rfl]; simp only [heads_quote, Option.map_some]; rfl)]
      cases C with
      | none =>
        rw [keys_none (quote_ne _ _ _) (by rw [entry_quote k4 rfl]; simp only [threads, braced, hC, Option.map_none])]
      | some ths =>
        rw [keys_semi (quote_ne _ _ _) (by rw [entry_quote k4 rfl]; simp only [threads, braced, hC, Option.map_some]; rfl)]
        cases r with
        | none => subst hE; rfl
        | some r =>
          have : E = quoteKey [] "resume" ++ [.path r, .semi] := hE.symm
          rw [this]
          rw [keys_semi (quote_ne _ _ _) (by rw [entry_quote k5 rfl]; rfl)]
          cases n <;> rfl

theorem forwards_iff {s : Soft} {p : Pool} : pool (defPool s) = some p ↔ Forwards s p := by
  have h2 : ∀ gs, many field s.local_.2.length s.local_.2 = some gs ↔ _ := fun gs => many_iff reads_field field_ne _ _ gs (Nat.le_refl _)
  have h3 : ∀ gs, many thread s.threads.length s.threads = some gs ↔ _ := fun gs => many_iff reads_thread thread_ne _ _ gs (Nat.le_refl _)
  rw [pool_defPool]
  constructor
  · intro h
    split at h
    · rename_i fs gs ths e1 e2 e3
      cases h
      exact ⟨rfl, many_prio.1 e1, ⟨rfl, (h2 gs).1 e2⟩, rfl, (h3 ths).1 e3, rfl⟩
    · cases h
  · rintro ⟨e1, e2, ⟨e3, e4⟩, e5, e6, e7⟩
    obtain ⟨⟨t, fs⟩, ⟨l, gs⟩, i, ths, r⟩ := p
    rw [many_prio.2 e2, (h2 _).2 e4, (h3 _).2 e6]
    simp only at e1 e3 e5 e7 ⊢
    rw [e1, e3, e5, e7]

end Verif.Decl
