import Verif.Lemmas.TestCacheStarted

/-!
C72: the cached results of tests.

The theorems are about every sequence of operations on the cache, by any number of threads and
processes: tests which are started, which end in any way or are stopped, and results which are
removed.
-/

namespace Verif.Props

open Verif.TestRun Verif.TestCache

variable {ops : List Op} {c : Cache} {es : List TestCache.Event}

/-! ### What is told without running the test -/

/-- A status which is told without running the test is that of an earlier test of the same tree,
whose results were not removed since; the command is the same, up to the letters which are not in
the name of a directory. Otherwise such a test is being run now, or its result was not written as a
whole. -/
theorem cache_sound (h : History ops c es) {id t cmd i st}
    (hb : (c.step (.begin id t cmd i)).2 = .reported t cmd st) :
    (st = .alreadyInProgress ∧ ∃ j cmd', c.Testing j t cmd' ∧ slug cmd' = slug cmd) ∨
    (∃ e cmd', st = .readCacheFailed e ∧ slug cmd' = slug cmd ∧ .garbled t cmd' e ∈ es) ∨
    ∃ cmd' i' code fix st', TestedSince es t cmd' i' (.exited code fix) st' ∧ slug cmd' = slug cmd ∧
      st = asCached st' ∧ Means code st' := by
  have inv := inv_history h
  simp only [Cache.step] at hb
  cases hid : c.running.get? id with
  | some r => rw [hid] at hb; cases hb
  | none =>
    rw [hid] at hb
    simp only [Cache.begin] at hb
    cases hd : c.dirs.get? (t, slug cmd) with
    | none => rw [hd] at hb; cases hb
    | some e =>
      obtain ⟨d, f⟩ := e
      rw [hd] at hb
      simp only at hb
      cases hl : c.locked (t, slug cmd) d with
      | true =>
        rw [hl] at hb
        cases hb
        obtain ⟨j, r, h1, h2, -⟩ := (locked_iff inv.wfRunning _ _).1 hl
        unfold Running.key at h2
        simp only [Prod.mk.injEq] at h2
        exact .inl ⟨rfl, j, r.command, ⟨r, h1, h2.1, rfl⟩, h2.2⟩
      | false =>
        rw [hl] at hb
        cases f with
        | empty => cases hb
        | unreadable e =>
          cases hb
          obtain ⟨cmd', h1, h2⟩ := inv.garbled _ _ _ _ hd
          exact .inr (.inl ⟨e, cmd', rfl, h1, h2⟩)
        | result r =>
          cases hb
          obtain ⟨cmd', i', o, st', h1, h2, h3⟩ := inv.stored _ _ _ _ hd
          obtain ⟨code, fix, rfl, -⟩ := testCommit_result (congrArg Prod.snd h3)
          refine .inr (.inr ⟨cmd', i', code, fix, st', h1, h2, readStatus_of h3, ?_⟩)
          have := testCommit_means cmd' i' code fix
          rw [h3] at this
          exact this

/-- If all commands which were run on the tree are made of letters which can be in the name of a
directory, the status is that of the same command.

Missing: other commands, for which this is false (`cache_wrong_command`). -/
theorem cache_same_command_partial (h : History ops c es) {id t cmd i st}
    (hb : (c.step (.begin id t cmd i)).2 = .reported t cmd st)
    (hp : Plain cmd) (hps : ∀ cmd', .started t cmd' ∈ es → Plain cmd')
    (hs : st.Passed ∨ st.Failed) :
    ∃ i' code fix st', TestedSince es t cmd i' (.exited code fix) st' ∧ st = asCached st' ∧
      Means code st' := by
  rcases cache_sound h hb with ⟨rfl, -⟩ | ⟨e, cmd', rfl, -⟩ | ⟨cmd', i', code, fix, st', h1, h2, h3⟩
  · simp [TestStatus.Passed, TestStatus.Failed] at hs
  · simp [TestStatus.Passed, TestStatus.Failed] at hs
  · have hst : .started t cmd' ∈ es := by
      have hm := h1.mem
      clear h1 h3 hb hps
      induction h with
      | nil => cases hm
      | @snoc ops c es op hh ih =>
        rw [List.mem_append, List.mem_singleton] at hm
        rcases hm with hm | hm
        · exact List.mem_append_left _ (ih hm)
        · obtain ⟨id, r, rfl, hid, rfl, rfl⟩ := step_tested hm.symm
          exact List.mem_append_left _ (running_started hh hid)
    rw [slug_plain hp, slug_plain (hps _ hst)] at h2
    subst h2
    exact ⟨i', code, fix, st', h1, h3⟩

/-! ### When the test is run -/

/-- As long as the results of the tree are not removed, a test which ended with an exit code is not
run again: its status is told, also if it says that the commit was skipped (125) or that everything
is to be stopped (127). -/
theorem cache_used (h : History ops c es) {t cmd cmd' i' code fix st' id}
    (ht : .tested t cmd' i' (.exited code fix) st' ∈ es) (hn : .cleaned t ∉ es)
    (hs : slug cmd' = slug cmd) (hid : c.running.get? id = none) (i : Bool) :
    (c.step (.begin id t cmd i)).2 = .reported t cmd (asCached st') := by
  have inv := inv_history h
  obtain ⟨r, hr⟩ := (testCommit_exited_iff cmd' i' (.exited code fix)).2 ⟨_, _, rfl⟩
  obtain ⟨d, hd⟩ := inv.kept _ _ _ _ _ r ht hn hr
  rw [begin_free hid]
  unfold Cache.begin
  rw [hs] at hd
  simp only [hd]
  have hl : ¬ c.locked (t, slug cmd) d = true := by
    rw [locked_iff inv.wfRunning]
    rintro ⟨j, r', h1, h2, h3⟩
    have := inv.clear j r' (.result r) h1 (by rw [h2, hd, h3])
    cases this
  rw [if_neg hl]
  simp only
  rw [inv.honest _ _ _ _ _ ht, readStatus_of (Prod.ext rfl hr)]

/-- Two tests which share a directory are not run at the same time, as long as the results of the
tree are not removed. -/
theorem cache_exclusive (h : History ops c es) {t cmd cmd' i j} (hn : .cleaned t ∉ es)
    (hi : c.Testing i t cmd) (hj : c.Testing j t cmd') (hs : slug cmd = slug cmd') : i = j := by
  have inv := inv_history h
  obtain ⟨r, h1, rfl, rfl⟩ := hi
  obtain ⟨r', h3, h4, rfl⟩ := hj
  obtain ⟨f, hf⟩ := inv.live i r h1 hn
  obtain ⟨f', hf'⟩ := inv.live j r' h3 (by rw [h4]; exact hn)
  have hk : r.key = r'.key := by
    unfold Running.key
    rw [h4, hs]
  rw [hk, hf'] at hf
  simp only [Option.some.injEq, Prod.mk.injEq] at hf
  exact inv.exclusive i j r r' h1 h3 hk hf.1.symm

/-- While such a test is being run, another one is not started, but skipped; also if it is one of
the same command (`git test` with several jobs, for two commits with the same tree). -/
theorem cache_in_progress (h : History ops c es) {t cmd id} (hn : .cleaned t ∉ es)
    (hid : c.running.get? id = none) (i : Bool) :
    (c.step (.begin id t cmd i)).2 = .reported t cmd .alreadyInProgress ↔
      ∃ j cmd', c.Testing j t cmd' ∧ slug cmd' = slug cmd := by
  have inv := inv_history h
  constructor
  · intro hb
    rcases cache_sound h hb with ⟨-, h1⟩ | ⟨e, cmd', h1, -⟩ | ⟨cmd', i', code, fix, st', -, -, h1, hm⟩
    · exact h1
    · cases h1
    · rcases hm with ⟨-, a, b, d, rfl⟩ | ⟨-, rfl⟩ | ⟨-, rfl⟩ | ⟨-, -, -, a, b, d, rfl⟩ <;> cases h1
  · rintro ⟨j, cmd', ⟨r, h1, rfl, rfl⟩, hs⟩
    obtain ⟨f, hf⟩ := inv.live j r h1 hn
    unfold Running.key at hf
    rw [hs] at hf
    rw [begin_free hid]
    unfold Cache.begin
    simp only [hf]
    rw [if_pos]
    rw [locked_iff inv.wfRunning]
    exact ⟨j, r, h1, by unfold Running.key; rw [hs], rfl⟩

/-- Exactly when a test is started. -/
theorem cache_started_iff (h : History ops c es) {t cmd id} (hn : .cleaned t ∉ es)
    (hid : c.running.get? id = none) (i : Bool) :
    (c.step (.begin id t cmd i)).2 = .started t cmd ↔
      ∀ cmd', slug cmd' = slug cmd → (∀ j, ¬ c.Testing j t cmd') ∧ (∀ e, .garbled t cmd' e ∉ es) ∧
        ∀ o, Tested es t cmd' o → ¬ o.Exited := by
  have inv := inv_history h
  constructor
  · intro hb cmd' hs
    refine ⟨?_, ?_, ?_⟩
    · intro j hj
      have := (cache_in_progress h hn hid i).2 ⟨j, cmd', hj, hs⟩
      rw [hb] at this
      cases this
    · intro e he
      obtain ⟨d, hd⟩ := garbled_kept h he hn
      rw [begin_free hid] at hb
      unfold Cache.begin at hb
      rw [hs] at hd
      simp only [hd] at hb
      split at hb <;> cases hb
    · rintro o ⟨i', st, ht⟩ ⟨code, fix, rfl⟩
      have := cache_used h ht hn hs hid i
      rw [hb] at this
      cases this
  · intro hall
    rw [begin_free hid]
    unfold Cache.begin
    cases hd : c.dirs.get? (t, slug cmd) with
    | none => simp only [hd]
    | some e =>
      obtain ⟨d, f⟩ := e
      simp only [hd]
      cases hl : c.locked (t, slug cmd) d with
      | true =>
        obtain ⟨j, r, h1, h2, -⟩ := (locked_iff inv.wfRunning _ _).1 hl
        unfold Running.key at h2
        simp only [Prod.mk.injEq] at h2
        exact absurd ⟨r, h1, h2.1, rfl⟩ ((hall _ h2.2).1 j)
      | false =>
        cases f with
        | empty => rfl
        | unreadable e =>
          obtain ⟨cmd', h1, h2⟩ := inv.garbled _ _ _ _ hd
          exact absurd h2 ((hall _ h1).2.1 e)
        | result r =>
          obtain ⟨cmd', i', o, st', h1, h2, h3⟩ := inv.stored _ _ _ _ hd
          exact absurd ((testCommit_exited_iff cmd' i' o).1 ⟨r, by rw [h3]⟩)
            ((hall _ h2).2.2 o ⟨_, _, h1.mem⟩)

/-- After removing the results of a tree, its tests are run again. -/
theorem cache_cleaned (c : Cache) {t cmd id} (hid : c.running.get? id = none) (i : Bool) :
    ((c.step (.clean t)).1.step (.begin id t cmd i)).2 = .started t cmd := by
  have hid' : (c.step (.clean t)).1.running.get? id = none := hid
  rw [begin_free hid']
  unfold Cache.begin
  have : (c.step (.clean t)).1.dirs.get? (t, slug cmd) = none := by
    simp only [Cache.step]
    rw [get?_clean]
    simp
  simp only [this]

/-! ### What `tests.passed()` and so on see -/

theorem readAll_eq_none {c : Cache} (hw : AMap.WF c.dirs) (t : Oid) :
    c.readAllTestResults t = none ↔ (∀ s, c.dirs.get? (t, s) = none) ∨
      ∃ s d f, c.dirs.get? (t, s) = some (d, f) ∧ ∀ r, f ≠ .result r := by
  have hmem : ∀ e : (Oid × Text) × (Nat × ResultFile), e ∈ (c.dirs.filter fun e => e.1.1 = t) ↔
      c.dirs.get? e.1 = some e.2 ∧ e.1.1 = t := by
    intro e
    rw [List.mem_filter]
    constructor
    · rintro ⟨h1, h2⟩
      exact ⟨AMap.get?_of_mem hw h1, by simpa using h2⟩
    · rintro ⟨h1, h2⟩
      exact ⟨AMap.mem_of_get? h1, by simpa using h2⟩
  unfold Cache.readAllTestResults
  cases hl : c.dirs.filter fun e => e.1.1 = t with
  | nil =>
    simp only [true_iff]
    left
    intro s
    cases hd : c.dirs.get? (t, s) with
    | none => rfl
    | some e =>
      have := (hmem ((t, s), e)).2 ⟨hd, rfl⟩
      rw [hl] at this; cases this
  | cons x xs =>
    simp only
    rw [← hl]
    constructor
    · intro h
      obtain ⟨e, he, hf⟩ := mapM_option_none.1 h
      obtain ⟨⟨t', s⟩, d, f⟩ := e
      obtain ⟨h1, h2⟩ := (hmem _).1 he
      simp only at h2
      subst h2
      refine .inr ⟨s, d, f, h1, ?_⟩
      rintro r rfl
      cases hf
    · rintro (h | ⟨s, d, f, h1, h2⟩)
      · have := (hmem x).1 (by rw [hl]; simp)
        obtain ⟨⟨t', s⟩, e⟩ := x
        simp only at this
        obtain ⟨h3, rfl⟩ := this
        rw [h s] at h3; cases h3
      · refine mapM_option_none.2 ⟨((t, s), (d, f)), (hmem _).2 ⟨h1, rfl⟩, ?_⟩
        cases f with
        | result r => exact absurd rfl (h2 r)
        | empty => rfl
        | unreadable e => rfl

theorem mem_readAll {c : Cache} (hw : AMap.WF c.dirs) {t : Oid} {rs} (h : c.readAllTestResults t = some rs)
    (x : TestResult) : x ∈ rs ↔ ∃ s d r, c.dirs.get? (t, s) = some (d, .result r) ∧
      x = ⟨r.command, r.exitCode, r.snapshotTreeOid.map Oid.val⟩ := by
  unfold Cache.readAllTestResults at h
  have h' : (c.dirs.filter fun e => e.1.1 = t).mapM (fun e =>
      match e.2.2 with
      | .result r => some (⟨r.command, r.exitCode, r.snapshotTreeOid.map Oid.val⟩ : TestResult)
      | .empty | .unreadable _ => none) = some rs := by
    cases hl : c.dirs.filter fun e => e.1.1 = t with
    | nil => rw [hl] at h; cases h
    | cons x xs => rw [hl] at h; exact h
  rw [mem_mapM_option h']
  constructor
  · rintro ⟨⟨⟨t', s⟩, d, f⟩, hm, hf⟩
    rw [List.mem_filter] at hm
    obtain ⟨h1, h2⟩ := hm
    simp only [decide_eq_true_eq] at h2
    subst h2
    cases f with
    | result r =>
      simp only [Option.some.injEq] at hf
      exact ⟨s, d, r, AMap.get?_of_mem hw h1, hf.symm⟩
    | empty => cases hf
    | unreadable e => cases hf
  · rintro ⟨s, d, r, h1, rfl⟩
    exact ⟨((t, s), (d, .result r)), List.mem_filter.2 ⟨AMap.mem_of_get? h1, by simp⟩, rfl⟩

/-- Exactly when the results of a tree are not seen at all: no test of it was started, or there is
one which was started and never ended with an exit code, even if it is one of another command. -/
theorem results_lost_iff (h : History ops c es) {t} (hn : .cleaned t ∉ es) :
    c.readAllTestResults t = none ↔ (∀ cmd, .started t cmd ∉ es) ∨
      ∃ cmd, .started t cmd ∈ es ∧ ∀ cmd' o, slug cmd' = slug cmd → Tested es t cmd' o → ¬ o.Exited := by
  have inv := inv_history h
  rw [readAll_eq_none inv.wfDirs]
  refine or_congr ?_ ?_
  · constructor
    · intro hall cmd hs
      obtain ⟨e, he⟩ := started_dir h hs hn
      rw [hall] at he; cases he
    · intro hall s
      cases hd : c.dirs.get? (t, s) with
      | none => rfl
      | some e =>
        obtain ⟨cmd, h1, -⟩ := dir_started h hd
        exact absurd h1 (hall cmd)
  · constructor
    · rintro ⟨s, d, f, hd, hf⟩
      obtain ⟨cmd, h1, rfl⟩ := dir_started h hd
      refine ⟨cmd, h1, ?_⟩
      rintro cmd' o hs ⟨i, st, ht⟩ ho
      obtain ⟨r, hr⟩ := (testCommit_exited_iff cmd' i o).2 ho
      obtain ⟨d', hd'⟩ := inv.kept _ _ _ _ _ r ht hn hr
      rw [hs, hd] at hd'
      simp only [Option.some.injEq, Prod.mk.injEq] at hd'
      exact hf r hd'.2
    · rintro ⟨cmd, h1, h2⟩
      obtain ⟨⟨d, f⟩, he⟩ := started_dir h h1 hn
      refine ⟨slug cmd, d, f, he, ?_⟩
      rintro r rfl
      obtain ⟨cmd', i, o, st, h3, h4, h5⟩ := inv.stored _ _ _ _ he
      exact h2 cmd' o h4 ⟨i, st, h3.mem⟩ ((testCommit_exited_iff cmd' i o).1 ⟨r, by rw [h5]⟩)

/-- The results which are seen are those of the tests which were run. -/
theorem results_read (h : History ops c es) {t rs} (hn : .cleaned t ∉ es)
    (hr : c.readAllTestResults t = some rs) (x : TestResult) :
    x ∈ rs ↔ ∃ cmd code fix, Tested es t cmd (.exited code fix) ∧ x.command = cmd ∧ x.exitCode = code ∧
      x.snapshotTree = if code = 0 then fix.snapshotTreeOid.map Oid.val else none := by
  have inv := inv_history h
  rw [mem_readAll inv.wfDirs hr]
  constructor
  · rintro ⟨s, d, r, hd, rfl⟩
    obtain ⟨cmd, i, o, st, h1, -, h3⟩ := inv.stored _ _ _ _ hd
    obtain ⟨code, fix, rfl, h4, h5, h6⟩ := testCommit_result (congrArg Prod.snd h3)
    refine ⟨cmd, code, fix, ⟨i, st, h1.mem⟩, h4, h5, ?_⟩
    simp only [h6]
    split <;> rfl
  · rintro ⟨cmd, code, fix, ⟨i, st, ht⟩, h4, h5, h6⟩
    obtain ⟨r, hres⟩ := (testCommit_exited_iff cmd i (.exited code fix)).2 ⟨_, _, rfl⟩
    obtain ⟨d, hd⟩ := inv.kept _ _ _ _ _ r ht hn hres
    obtain ⟨code', fix', h7, h8, h9, h10⟩ := testCommit_result hres
    cases h7
    refine ⟨slug cmd, d, r, hd, ?_⟩
    obtain ⟨x1, x2, x3⟩ := x
    simp only at h4 h5 h6
    subst h4 h5
    rw [h6, h8, h9, h10]
    congr 1
    split <;> rfl

/-- The revset functions `tests.passed`, `tests.failed` and `tests.fixable` hold of a commit exactly
if there was such a test of its tree, provided that every test of the tree which was started has
ended with an exit code.

Missing: a tree with a test for which this is not so; then all the results of the tree are ignored
(`results_lost_iff`, `tests_passed_lost`). -/
theorem tests_revsets_partial (h : History ops c es) {t} (hn : .cleaned t ∉ es)
    (hall : ∀ cmd, .started t cmd ∈ es → ∃ o, Tested es t cmd o ∧ o.Exited) (p : Pattern) :
    (((c.readAllTestResults t).getD []).any (Builtin.testsPassed.acceptsResult p (some t.val)) = true ↔
      ∃ cmd fix, Tested es t cmd (.exited 0 fix) ∧ p.matchesText cmd = true) ∧
    (((c.readAllTestResults t).getD []).any (Builtin.testsFailed.acceptsResult p (some t.val)) = true ↔
      ∃ cmd code fix, Tested es t cmd (.exited code fix) ∧ code ≠ 0 ∧ code ≠ 125 ∧ code ≠ 127 ∧
        p.matchesText cmd = true) ∧
    (((c.readAllTestResults t).getD []).any (Builtin.testsFixable.acceptsResult p (some t.val)) = true ↔
      ∃ cmd fix tree, Tested es t cmd (.exited 0 fix) ∧ p.matchesText cmd = true ∧
        fix.snapshotTreeOid = some tree ∧ tree ≠ t) := by
  have key : ∀ P : TestResult → Bool, ((c.readAllTestResults t).getD []).any P = true ↔
      ∃ cmd code fix, Tested es t cmd (.exited code fix) ∧
        P ⟨cmd, code, if code = 0 then fix.snapshotTreeOid.map Oid.val else none⟩ = true := by
    intro P
    cases hr : c.readAllTestResults t with
    | none =>
      simp only [Option.getD_none, List.any_nil, Bool.false_eq_true, false_iff]
      rintro ⟨cmd, code, fix, ⟨i, st, ht⟩, -⟩
      rcases (results_lost_iff h hn).1 hr with h1 | ⟨cmd', h1, h2⟩
      · obtain ⟨d, hd⟩ := (inv_history h).kept _ _ _ _ _ _ ht hn rfl
        obtain ⟨cmd', h2, -⟩ := dir_started h hd
        exact h1 cmd' h2
      · obtain ⟨o, h3, h4⟩ := hall cmd' h1
        exact h2 cmd' o rfl h3 h4
    | some rs =>
      simp only [Option.getD_some, List.any_eq_true]
      constructor
      · rintro ⟨x, hx, hP⟩
        obtain ⟨cmd, code, fix, h1, h2, h3, h4⟩ := (results_read h hn hr x).1 hx
        refine ⟨cmd, code, fix, h1, ?_⟩
        obtain ⟨x1, x2, x3⟩ := x
        simp only at h2 h3 h4
        subst h2 h3 h4
        exact hP
      · rintro ⟨cmd, code, fix, h1, hP⟩
        exact ⟨_, (results_read h hn hr _).2 ⟨cmd, code, fix, h1, rfl, rfl, rfl⟩, hP⟩
  refine ⟨?_, ?_, ?_⟩
  · rw [key]
    constructor
    · rintro ⟨cmd, code, fix, h1, h2⟩
      simp only [Builtin.acceptsResult, testSuccess, Bool.and_eq_true, decide_eq_true_eq] at h2
      obtain ⟨h0, h2⟩ := h2
      have h0 := of_decide_eq_true h0
      subst h0
      exact ⟨cmd, fix, h1, h2⟩
    · rintro ⟨cmd, fix, h1, h2⟩
      exact ⟨cmd, 0, fix, h1, by simp [Builtin.acceptsResult, testSuccess, h2]⟩
  · rw [key]
    constructor
    · rintro ⟨cmd, code, fix, h1, h2⟩
      simp only [Builtin.acceptsResult, testSuccess, testIndeterminate, testAbort, Bool.and_eq_true,
        decide_eq_true_eq] at h2
      obtain ⟨⟨⟨h2, h3⟩, h4⟩, h5⟩ := h2
      exact ⟨cmd, code, fix, h1, of_decide_eq_true h2, of_decide_eq_true h3, of_decide_eq_true h4, h5⟩
    · rintro ⟨cmd, code, fix, h1, h2, h3, h4, h5⟩
      exact ⟨cmd, code, fix, h1, by
        simp [Builtin.acceptsResult, testSuccess, testIndeterminate, testAbort, h2, h3, h4, h5]⟩
  · rw [key]
    constructor
    · rintro ⟨cmd, code, fix, h1, h2⟩
      simp only [Builtin.acceptsResult, testSuccess, Bool.and_eq_true, decide_eq_true_eq] at h2
      obtain ⟨⟨h0, h2⟩, h3⟩ := h2
      have h0 := of_decide_eq_true h0
      subst h0
      cases hf : fix.snapshotTreeOid with
      | none => rw [hf] at h3; simp at h3
      | some tree =>
        rw [hf] at h3
        simp only [if_true, Option.map_some] at h3
        have h3 := of_decide_eq_true h3
        exact ⟨cmd, fix, tree, h1, h2, hf, fun h => h3 (by rw [h])⟩
    · rintro ⟨cmd, fix, tree, h1, h2, h3, h4⟩
      refine ⟨cmd, 0, fix, h1, ?_⟩
      have : tree.val ≠ t.val := by
        obtain ⟨a, _, _⟩ := tree
        obtain ⟨b, _, _⟩ := t
        intro h
        simp only at h
        subst h
        exact h4 rfl
      simp [Builtin.acceptsResult, testSuccess, h2, h3, this]

/-! ### Cases, and what goes wrong -/

/-- The cache and the events after some operations. -/
def runOps : List Op → Cache × List TestCache.Event → Cache × List TestCache.Event
  | [], x => x
  | op :: ops, x => runOps ops ((x.1.step op).1, x.2 ++ [(x.1.step op).2])

theorem history_runOps (ops' : List Op) {ops c es} (h : History ops c es) :
    History (ops ++ ops') (runOps ops' (c, es)).1 (runOps ops' (c, es)).2 := by
  induction ops' generalizing ops c es with
  | nil => simpa [runOps] using h
  | cons op ops' ih =>
    have := ih (h.snoc op)
    rw [List.append_assoc] at this
    exact this

/-- What there is after the operations. -/
def afterOps (ops : List Op) : Cache × List TestCache.Event := runOps ops (Cache.empty, [])

theorem history_afterOps (ops : List Op) : History ops (afterOps ops).1 (afterOps ops).2 := by
  have := history_runOps ops History.nil
  simpa [afterOps] using this

def exTree : Oid := ⟨1, by decide, by decide⟩
def exTree' : Oid := ⟨2, by decide, by decide⟩
def exFix : FixInfo := ⟨some exTree', some exTree'⟩
def exMake : Text := t!"make test"
def exLint : Text := t!"make lint"

/-- A test which passed and changed some file, and one which failed. -/
def exOps : List Op :=
  [.begin 0 exTree exMake false, .begin 1 exTree exLint false, .finish 0 (.exited 0 exFix),
   .finish 1 (.exited 2 exFix)]

/-- The results are told, and the functions see them. -/
example : History exOps (afterOps exOps).1 (afterOps exOps).2 ∧
    ((afterOps exOps).1.step (.begin 0 exTree exMake true)).2 =
      .reported exTree exMake (.passed true exFix false) ∧
    ((afterOps exOps).1.step (.begin 0 exTree exLint true)).2 =
      .reported exTree exLint (.failed true 2 false) ∧
    ((afterOps exOps).1.step (.begin 0 exTree t!"true" true)).2 = .started exTree t!"true" ∧
    .tested exTree exMake false (.exited 0 exFix) (.passed false exFix false) ∈ (afterOps exOps).2 ∧
    .cleaned exTree ∉ (afterOps exOps).2 ∧
    (afterOps exOps).1.running.get? 0 = none ∧
    ((afterOps exOps).1.readAllTestResults exTree).isSome := by
  refine ⟨history_afterOps _, ?_, ?_, ?_, ?_, ?_, ?_, ?_⟩ <;> decide +kernel

/-- All tests of the tree have ended. -/
example : ∀ cmd, TestCache.Event.started exTree cmd ∈ (afterOps exOps).2 →
    ∃ o, Tested (afterOps exOps).2 exTree cmd o ∧ o.Exited := by
  intro cmd h
  have he : (afterOps exOps).2 =
    [.started exTree exMake, .started exTree exLint,
      .tested exTree exMake false (.exited 0 exFix) (.passed false exFix false),
      .tested exTree exLint false (.exited 2 exFix) (.failed false 2 false)] := by decide +kernel
  rw [he] at h ⊢
  simp only [List.mem_cons, TestCache.Event.started.injEq, true_and, reduceCtorEq, List.not_mem_nil,
    or_false] at h
  rcases h with rfl | rfl
  · exact ⟨.exited 0 exFix, ⟨false, .passed false exFix false, by simp⟩, _, _, rfl⟩
  · exact ⟨.exited 2 exFix, ⟨false, .failed false 2 false, by simp⟩, _, _, rfl⟩

/-- While a test is being run, it is skipped in another thread. -/
example : (afterOps [.begin 0 exTree exMake false]).1.Testing 0 exTree exMake ∧
    ((afterOps [.begin 0 exTree exMake false]).1.step (.begin 1 exTree exMake false)).2 =
      .reported exTree exMake .alreadyInProgress ∧
    counted .alreadyInProgress = .skipped := by
  refine ⟨⟨⟨exTree, exMake, false, 0⟩, ?_, rfl, rfl⟩, ?_, rfl⟩ <;> decide +kernel

/-- A command of letters which can be in the name of a directory. -/
example : Plain t!"make" ∧ ¬ Plain exMake := by
  unfold Plain
  decide +kernel

def exUnit : Text := t!"pytest tests/unit"
def exUnit' : Text := t!"pytest tests unit"

/-- `cache_same_command_partial` is false for other commands: a command which was never run on the
tree is said to have passed, since another one has the same directory. -/
theorem cache_wrong_command :
    ∃ ops c es, History ops c es ∧
      (c.step (.begin 0 exTree exUnit' false)).2 =
        .reported exTree exUnit' (.passed true exFix false) ∧
      ∀ o, ¬ Tested es exTree exUnit' o := by
  refine ⟨_, _, _, history_afterOps [.begin 0 exTree exUnit false, .finish 0 (.exited 0 exFix)], ?_, ?_⟩
  · decide +kernel
  · rintro o ⟨i, st, h⟩
    have he : (afterOps [.begin 0 exTree exUnit false, .finish 0 (.exited 0 exFix)]).2 =
      [.started exTree exUnit, .tested exTree exUnit false (.exited 0 exFix) (.passed false exFix false)] := by
      decide +kernel
    rw [he] at h
    simp only [List.mem_cons, reduceCtorEq, TestCache.Event.tested.injEq, List.not_mem_nil, or_false,
      false_or] at h
    have : exUnit' = exUnit := h.2.1
    revert this
    decide +kernel

/-- The directory of a test which was removed while the test was being run: the same test is run
twice at the same time, so `cache_exclusive` needs its hypothesis; and the result of the first one
is lost. -/
theorem cache_cleaned_while_running :
    ∃ ops c es, History ops c es ∧ c.Testing 0 exTree exMake ∧ c.Testing 1 exTree exMake ∧
      ((c.step (.finish 0 (.exited 0 exFix))).1.step (.begin 2 exTree exMake false)).2 =
        .reported exTree exMake .alreadyInProgress := by
  refine ⟨_, _, _, history_afterOps [.begin 0 exTree exMake false, .clean exTree,
    .begin 1 exTree exMake false], ⟨⟨exTree, exMake, false, 0⟩, ?_, rfl, rfl⟩,
    ⟨⟨exTree, exMake, false, 1⟩, ?_, rfl, rfl⟩, ?_⟩ <;> decide +kernel

/-- `tests.passed()` forgets that a test of the tree passed as soon as another one is asked for with
`git test show`, or was stopped. -/
theorem tests_passed_lost :
    ∃ ops c es, History ops c es ∧ .cleaned exTree ∉ es ∧
      (∃ fix, Tested es exTree exMake (.exited 0 fix)) ∧
      ∀ P : TestResult → Bool, ((c.readAllTestResults exTree).getD []).any P = false := by
  refine ⟨_, _, _, history_afterOps [.begin 0 exTree exMake false, .finish 0 (.exited 0 exFix),
    .begin 0 exTree exLint false, .abandon 0], ?_, ⟨exFix, false, .passed false exFix false, ?_⟩, ?_⟩
  · decide +kernel
  · decide +kernel
  · intro P
    have : (afterOps [.begin 0 exTree exMake false, .finish 0 (.exited 0 exFix),
        .begin 0 exTree exLint false, .abandon 0]).1.readAllTestResults exTree = none := by
      decide +kernel
    rw [this]
    rfl

/-- A result which was not written as a whole is never replaced, whatever is done, unless the
results of the tree are removed. -/
theorem garbled_forever (h : History ops c es) {t cmd x} (hg : .garbled t cmd x ∈ es)
    (hn : .cleaned t ∉ es) {id} (hid : c.running.get? id = none) (i : Bool) :
    (c.step (.begin id t cmd i)).2 = .reported t cmd (.readCacheFailed x) := by
  have inv := inv_history h
  obtain ⟨d, hd⟩ := garbled_kept h hg hn
  rw [begin_free hid]
  unfold Cache.begin
  simp only [hd]
  rw [if_neg]
  rw [locked_iff inv.wfRunning]
  rintro ⟨j, r', h1, h2, h3⟩
  have := inv.clear j r' (.unreadable x) h1 (by rw [h2, hd, h3])
  cases this

example : History [.begin 0 exTree exMake false, .garble 0 t!"EOF"]
      (afterOps [.begin 0 exTree exMake false, .garble 0 t!"EOF"]).1
      (afterOps [.begin 0 exTree exMake false, .garble 0 t!"EOF"]).2 ∧
    .garbled exTree exMake t!"EOF" ∈ (afterOps [.begin 0 exTree exMake false, .garble 0 t!"EOF"]).2 :=
  ⟨history_afterOps _, by decide +kernel⟩

end Verif.Props
