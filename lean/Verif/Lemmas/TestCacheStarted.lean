import Verif.Lemmas.TestCache

/-! More lemmas about the cached results of tests: which directories there are, and what happens to
them. -/

namespace Verif.TestCache

open Verif.TestRun

theorem write_get? (c : Cache) (r : Running) (f : ResultFile) (k : Oid × Text) :
    (c.write r f).dirs.get? k =
      if k = r.key then (c.dirs.get? k).map fun e => if e.1 = r.dir then (e.1, f) else e
      else c.dirs.get? k := by
  unfold Cache.write
  by_cases hk : k = r.key
  · subst hk
    rw [if_pos rfl]
    cases hd : c.dirs.get? r.key with
    | none => simp [hd]
    | some e =>
      obtain ⟨d, g⟩ := e
      simp only [Option.map_some]
      by_cases h : d = r.dir
      · rw [if_pos h, if_pos h]; simp
      · rw [if_neg h, if_neg h, hd]
  · rw [if_neg hk]
    cases hd : c.dirs.get? r.key with
    | none => rfl
    | some e =>
      obtain ⟨d, g⟩ := e
      simp only
      by_cases h : d = r.dir
      · rw [if_pos h]; simp [Ne.symm hk]
      · rw [if_neg h]

/-- What a step does to a directory. -/
theorem step_dirs (c : Cache) (op : Op) (k : Oid × Text) :
    (c.step op).1.dirs.get? k = c.dirs.get? k ∨
    ((c.step op).2 = .cleaned k.1 ∧ (c.step op).1.dirs.get? k = none) ∨
    (c.dirs.get? k = none ∧ ∃ cmd d, (c.step op).2 = .started k.1 cmd ∧ slug cmd = k.2 ∧
      (c.step op).1.dirs.get? k = some (d, .empty)) ∨
    (∃ id r f g, c.running.get? id = some r ∧ r.key = k ∧ c.dirs.get? k = some (r.dir, g) ∧
      (c.step op).1.dirs.get? k = some (r.dir, f)) := by
  have hw : ∀ id r f, c.running.get? id = some r →
      ((c.unlock id).write r f).dirs.get? k = c.dirs.get? k ∨
      ∃ id' r' f' g, c.running.get? id' = some r' ∧ r'.key = k ∧ c.dirs.get? k = some (r'.dir, g) ∧
        ((c.unlock id).write r f).dirs.get? k = some (r'.dir, f') := by
    intro id r f hid
    rw [write_get?]
    simp only [Cache.unlock]
    by_cases hk : k = r.key
    · rw [if_pos hk]
      cases hd : c.dirs.get? k with
      | none => exact .inl rfl
      | some e =>
        obtain ⟨d, g⟩ := e
        simp only [Option.map_some]
        by_cases h : d = r.dir
        · refine .inr ⟨id, r, f, g, hid, hk.symm, by rw [h], ?_⟩
          simp [h]
        · rw [if_neg h]; exact .inl rfl
    · rw [if_neg hk]; exact .inl rfl
  cases op with
  | begin id t cmd i =>
    simp only [Cache.step]
    cases hid : c.running.get? id with
    | some r => exact .inl rfl
    | none =>
      simp only [Cache.begin]
      cases hd : c.dirs.get? (t, slug cmd) with
      | none =>
        simp only [AMap.get?_insert]
        by_cases hk : (t, slug cmd) = k
        · subst hk
          right; right; left
          exact ⟨hd, cmd, c.nextDir, rfl, rfl, by simp⟩
        · rw [if_neg hk]; exact .inl rfl
      | some e =>
        obtain ⟨d, f⟩ := e
        simp only
        by_cases hl : c.locked (t, slug cmd) d = true
        · rw [if_pos hl]; exact .inl rfl
        · rw [if_neg hl]
          cases f <;> exact .inl rfl
  | finish id o =>
    simp only [Cache.step]
    cases hid : c.running.get? id with
    | none => exact .inl rfl
    | some r =>
      simp only
      cases hres : (testCommit r.command r.interactive o).2 with
      | none => exact .inl rfl
      | some res =>
        rcases hw id r (.result res) hid with h | h
        · exact .inl h
        · exact .inr (.inr (.inr h))
  | abandon id =>
    simp only [Cache.step]
    cases hid : c.running.get? id with
    | none => exact .inl rfl
    | some r => exact .inl rfl
  | garble id e =>
    simp only [Cache.step]
    cases hid : c.running.get? id with
    | none => exact .inl rfl
    | some r =>
      rcases hw id r (.unreadable e) hid with h | h
      · exact .inl h
      · exact .inr (.inr (.inr h))
  | clean t =>
    simp only [Cache.step]
    rw [get?_clean]
    by_cases hk : k.1 = t
    · subst hk
      exact .inr (.inl ⟨rfl, by simp⟩)
    · rw [if_pos hk]; exact .inl rfl

/-- What a step which is seen as the end or the start of a test does. -/
theorem step_started {c : Cache} {op : Op} {t cmd} (h : (c.step op).2 = .started t cmd) :
    ∃ id i d, op = .begin id t cmd i ∧ c.running.get? id = none ∧
      (c.step op).1.dirs.get? (t, slug cmd) = some (d, .empty) ∧
      (c.step op).1.running.get? id = some ⟨t, cmd, i, d⟩ ∧
      (c.dirs.get? (t, slug cmd) = none ∨
        c.dirs.get? (t, slug cmd) = some (d, .empty) ∧ c.locked (t, slug cmd) d = false) := by
  cases op with
  | begin id t' cmd' i =>
    simp only [Cache.step] at h ⊢
    cases hid : c.running.get? id with
    | some r => rw [hid] at h; cases h
    | none =>
      rw [hid] at h
      simp only [Cache.begin] at h ⊢
      cases hd : c.dirs.get? (t', slug cmd') with
      | none =>
        rw [hd] at h
        cases h
        simp only [hd]
        exact ⟨id, i, c.nextDir, rfl, hid, by simp, by simp, .inl trivial⟩
      | some e =>
        obtain ⟨d, f⟩ := e
        rw [hd] at h
        simp only at h ⊢
        cases hl : c.locked (t', slug cmd') d with
        | true => rw [hl] at h; cases h
        | false =>
          rw [hl] at h
          cases f with
          | result r => cases h
          | unreadable e => cases h
          | empty =>
            cases h
            exact ⟨id, i, d, rfl, hid, by simpa using hd, by simp, .inr ⟨hd, hl⟩⟩
  | finish id o =>
    simp only [Cache.step] at h
    cases hid : c.running.get? id <;> rw [hid] at h <;> cases h
  | abandon id =>
    simp only [Cache.step] at h
    cases hid : c.running.get? id <;> rw [hid] at h <;> cases h
  | garble id e =>
    simp only [Cache.step] at h
    cases hid : c.running.get? id <;> rw [hid] at h <;> cases h
  | clean t => cases h

theorem step_tested {c : Cache} {op : Op} {t cmd i o st} (h : (c.step op).2 = .tested t cmd i o st) :
    ∃ id r, op = .finish id o ∧ c.running.get? id = some r ∧ r.tree = t ∧ r.command = cmd := by
  cases op with
  | begin id t' cmd' i =>
    simp only [Cache.step] at h
    cases hid : c.running.get? id with
    | some r => rw [hid] at h; cases h
    | none =>
      rw [hid] at h
      simp only [Cache.begin] at h
      cases hd : c.dirs.get? (t', slug cmd') with
      | none => rw [hd] at h; cases h
      | some e =>
        obtain ⟨d, f⟩ := e
        rw [hd] at h
        simp only at h
        cases hl : c.locked (t', slug cmd') d with
        | true => rw [hl] at h; cases h
        | false => rw [hl] at h; cases f <;> cases h
  | finish id o' =>
    simp only [Cache.step] at h
    cases hid : c.running.get? id with
    | none => rw [hid] at h; cases h
    | some r => rw [hid] at h; cases h; exact ⟨id, r, rfl, hid, rfl, rfl⟩
  | abandon id =>
    simp only [Cache.step] at h
    cases hid : c.running.get? id <;> rw [hid] at h <;> cases h
  | garble id e =>
    simp only [Cache.step] at h
    cases hid : c.running.get? id <;> rw [hid] at h <;> cases h
  | clean t => cases h

theorem step_garbled {c : Cache} {op : Op} {t cmd e} (h : (c.step op).2 = .garbled t cmd e) :
    ∃ id r, op = .garble id e ∧ c.running.get? id = some r ∧ r.tree = t ∧ r.command = cmd := by
  cases op with
  | begin id t' cmd' i =>
    simp only [Cache.step] at h
    cases hid : c.running.get? id with
    | some r => rw [hid] at h; cases h
    | none =>
      rw [hid] at h
      simp only [Cache.begin] at h
      cases hd : c.dirs.get? (t', slug cmd') with
      | none => rw [hd] at h; cases h
      | some e =>
        obtain ⟨d, f⟩ := e
        rw [hd] at h
        simp only at h
        cases hl : c.locked (t', slug cmd') d with
        | true => rw [hl] at h; cases h
        | false => rw [hl] at h; cases f <;> cases h
  | finish id o' =>
    simp only [Cache.step] at h
    cases hid : c.running.get? id <;> rw [hid] at h <;> cases h
  | abandon id =>
    simp only [Cache.step] at h
    cases hid : c.running.get? id <;> rw [hid] at h <;> cases h
  | garble id e' =>
    simp only [Cache.step] at h
    cases hid : c.running.get? id with
    | none => rw [hid] at h; cases h
    | some r => rw [hid] at h; cases h; exact ⟨id, r, rfl, hid, rfl, rfl⟩
  | clean t => cases h

/-! ### Which directories there are -/

theorem started_dir {ops c es} (h : History ops c es) {t cmd} (hs : .started t cmd ∈ es)
    (hn : .cleaned t ∉ es) : ∃ e, c.dirs.get? (t, slug cmd) = some e := by
  induction h with
  | nil => cases hs
  | @snoc ops c es op h ih =>
    rw [List.mem_append, List.mem_singleton] at hs hn
    push Not at hn
    rcases hs with hs | hs
    · obtain ⟨e, he⟩ := ih hs hn.1
      rcases step_dirs c op (t, slug cmd) with h1 | ⟨h1, -⟩ | ⟨h1, -⟩ | ⟨-, r, f, -, -, -, -, h1⟩
      · exact ⟨e, h1.trans he⟩
      · exact absurd h1.symm hn.2
      · rw [he] at h1; cases h1
      · exact ⟨_, h1⟩
    · obtain ⟨-, -, d, -, -, hd, -⟩ := step_started hs.symm
      exact ⟨_, hd⟩

theorem dir_started {ops c es} (h : History ops c es) {t s e} (hd : c.dirs.get? (t, s) = some e) :
    ∃ cmd, .started t cmd ∈ es ∧ slug cmd = s := by
  induction h generalizing e with
  | nil => cases hd
  | @snoc ops c es op h ih =>
    rcases step_dirs c op (t, s) with h1 | ⟨-, h1⟩ | ⟨-, cmd, -, h1, h2, -⟩ | ⟨id, r, f, g, -, -, h1, -⟩
    · obtain ⟨cmd, h2, h3⟩ := ih (h1.symm.trans hd)
      exact ⟨cmd, by simp [h2], h3⟩
    · rw [h1] at hd; cases hd
    · exact ⟨cmd, by simp [h1], h2⟩
    · obtain ⟨cmd, h2, h3⟩ := ih h1
      exact ⟨cmd, by simp [h2], h3⟩

theorem garbled_kept {ops c es} (h : History ops c es) {t cmd x} (hs : .garbled t cmd x ∈ es)
    (hn : .cleaned t ∉ es) : ∃ d, c.dirs.get? (t, slug cmd) = some (d, .unreadable x) := by
  induction h with
  | nil => cases hs
  | @snoc ops c es op h ih =>
    rw [List.mem_append, List.mem_singleton] at hs hn
    push Not at hn
    rcases hs with hs | hs
    · obtain ⟨d, he⟩ := ih hs hn.1
      rcases step_dirs c op (t, slug cmd) with h1 | ⟨h1, -⟩ | ⟨h1, -⟩ | ⟨id, r, f, g, h1, h2, h3, h4⟩
      · exact ⟨d, h1.trans he⟩
      · exact absurd h1.symm hn.2
      · rw [he] at h1; cases h1
      · have := (inv_history h).clear id r g h1 (by rw [h2, h3])
        subst this
        rw [he] at h3; cases h3
    · obtain ⟨id, r, rfl, hid, rfl, rfl⟩ := step_garbled hs.symm
      obtain ⟨g, hg⟩ := (inv_history h).live id r hid hn.1
      refine ⟨r.dir, ?_⟩
      simp only [Cache.step, hid]
      have := write_get? { c with running := c.running.erase id } r (.unreadable x) r.key
      unfold Running.key at this hg
      rw [this]
      simp [hg]

/-- A test which is being run was started. -/
theorem running_started {ops c es} (h : History ops c es) {id r} (hr : c.running.get? id = some r) :
    .started r.tree r.command ∈ es := by
  induction h generalizing id with
  | nil => cases hr
  | @snoc ops c es op h ih =>
    by_cases hold : ∃ j, c.running.get? j = some r
    · obtain ⟨j, hj⟩ := hold
      exact List.mem_append_left _ (ih hj)
    · push Not at hold
      have hw : ∀ j r' f, ((c.unlock j).write r' f).running = c.running.erase j := by
        intro j r' f
        unfold Cache.write
        split
        · split <;> rfl
        · rfl
      have herase : ∀ j, (c.running.erase j).get? id ≠ some r := by
        intro j hj
        rw [AMap.get?_erase] at hj
        split at hj
        · cases hj
        · exact hold _ hj
      cases op with
      | begin j t cmd i =>
        simp only [Cache.step] at hr ⊢
        cases hj : c.running.get? j with
        | some r' => rw [hj] at hr; exact absurd hr (hold _)
        | none =>
          rw [hj] at hr
          simp only [Cache.begin] at hr ⊢
          cases hd : c.dirs.get? (t, slug cmd) with
          | none =>
            rw [hd] at hr
            simp only [AMap.get?_insert] at hr
            split at hr
            · cases hr; simp
            · exact absurd hr (hold _)
          | some e =>
            obtain ⟨d, f⟩ := e
            rw [hd] at hr
            simp only at hr ⊢
            cases hl : c.locked (t, slug cmd) d with
            | true => rw [hl] at hr; exact absurd hr (hold _)
            | false =>
              rw [hl] at hr
              cases f with
              | result r => exact absurd hr (hold _)
              | unreadable e => exact absurd hr (hold _)
              | empty =>
                simp only [Bool.false_eq_true, if_false, AMap.get?_insert] at hr
                split at hr
                · cases hr; simp
                · exact absurd hr (hold _)
      | finish j o =>
        simp only [Cache.step] at hr
        cases hj : c.running.get? j with
        | none => rw [hj] at hr; exact absurd hr (hold _)
        | some r' =>
          rw [hj] at hr
          simp only at hr
          cases hres : (testCommit r'.command r'.interactive o).2 with
          | none => rw [hres] at hr; exact absurd hr (herase j)
          | some res =>
            rw [hres] at hr
            have := hw j r' (.result res)
            unfold Cache.unlock at this
            simp only at hr
            rw [this] at hr
            exact absurd hr (herase j)
      | abandon j =>
        simp only [Cache.step] at hr
        cases hj : c.running.get? j with
        | none => rw [hj] at hr; exact absurd hr (hold _)
        | some r' => rw [hj] at hr; exact absurd hr (herase j)
      | garble j e =>
        simp only [Cache.step] at hr
        cases hj : c.running.get? j with
        | none => rw [hj] at hr; exact absurd hr (hold _)
        | some r' =>
          rw [hj] at hr
          have := hw j r' (.unreadable e)
          unfold Cache.unlock at this
          simp only at hr
          rw [this] at hr
          exact absurd hr (herase j)
      | clean t => exact absurd hr (hold _)

theorem mapM_option_none {α β : Type} {f : α → Option β} {l : List α} :
    l.mapM f = none ↔ ∃ a ∈ l, f a = none := by
  induction l with
  | nil => simp
  | cons a l ih =>
    rw [List.mapM_cons]
    cases ha : f a with
    | none => simp [ha]
    | some b =>
      cases hl : l.mapM f with
      | none => simp [ha, ih.1 hl]
      | some bs =>
        have : ¬ ∃ a ∈ l, f a = none := by rw [← ih, hl]; simp
        simp [ha, this]

theorem mem_mapM_option {α β : Type} {f : α → Option β} {l : List α} {bs : List β}
    (h : l.mapM f = some bs) (b : β) : b ∈ bs ↔ ∃ a ∈ l, f a = some b := by
  induction l generalizing bs with
  | nil =>
    simp only [List.mapM_nil, Option.pure_def, Option.some.injEq] at h
    subst h; simp
  | cons a l ih =>
    rw [List.mapM_cons] at h
    simp only [Option.bind_eq_bind, Option.pure_def, Option.bind_eq_some_iff] at h
    obtain ⟨y, hy, ys, hys, h⟩ := h
    cases h
    rw [List.mem_cons, ih hys]
    simp [hy, eq_comm]

theorem begin_free {c : Cache} {id : Nat} (hid : c.running.get? id = none) (t cmd i) :
    c.step (.begin id t cmd i) = c.begin id t cmd i := by
  simp only [Cache.step, hid]

end Verif.TestCache
