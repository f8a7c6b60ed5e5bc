import Verif.Spec.TestOptions
import Verif.Lemmas.Plan

/-! C85: the options of `git test`. -/

namespace Verif.Props

open Verif Verif.Spec Verif.TestRun Verif.Bisect

theorem resolveCommand_iff {config : TestConfig} {o : RawTestOptions} {t : Text} :
    resolveCommand config o = .ok t ↔ MeansCommand config o t := by
  unfold resolveCommand resolveAlias
  constructor
  · intro h
    split at h
    · rename_i h1 h2; cases h; exact .exec h1 h2
    · rename_i h1 h2
      split at h
      · rename_i h3 h4; cases h; exact .shell h1 h2 h3 h4
      · rename_i h3
        simp only [Option.getD_none] at h
        split at h
        · rename_i h4
          cases h
          refine .default h1 h2 (fun hi => ?_) h4
          cases hs : config.shell with
          | none => rfl
          | some s => exact absurd hs (h3 s hi)
        · cases h
    · rename_i h1 h2
      simp only [Option.getD_some] at h
      split at h
      · rename_i h4; cases h; exact .named h1 h2 h4
      · cases h
    · cases h
  · intro h
    cases h with
    | exec h1 h2 => simp [h1, h2]
    | named h1 h2 h3 => simp [h1, h2, h3]
    | shell h1 h2 h3 h4 => simp [h1, h2, h3, h4]
    | default h1 h2 h3 h4 =>
      rw [h1, h2]
      dsimp only
      split
      · rename_i h5 h6; rw [h3 h5] at h6; cases h6
      · simp [h4]

theorem parse_iff {t : Text} {s : ExecutionStrategy} : ExecutionStrategy.parse t = some s ↔ StrategyName t s := by
  unfold ExecutionStrategy.parse eqIgnoreCase StrategyName
  have e1 : (t!"working-copy").map Char.toLower = t!"working-copy" := by decide +kernel
  have e2 : (t!"worktree").map Char.toLower = t!"worktree" := by decide +kernel
  rw [e1, e2]
  have hne : (t!"working-copy" : Text) ≠ t!"worktree" := by decide +kernel
  simp only [decide_eq_true_eq]
  constructor
  · intro h
    split at h
    · rename_i h1; cases h; exact .inl ⟨rfl, h1.symm⟩
    split at h
    · rename_i h1; cases h; exact .inr ⟨rfl, h1.symm⟩
    · cases h
  · rintro (⟨rfl, h⟩ | ⟨rfl, h⟩)
    · rw [if_pos h.symm]
    · rw [if_neg (by rw [h]; exact hne), if_pos h.symm]

theorem resolve_ok {config : TestConfig} {d : Dag} {commits : List Oid} {o : RawTestOptions}
    {r : ResolvedTestOptions} (h : resolveTestOptions config d commits o = .ok r) :
    ∃ command strategy jobs n strategy' interactive fix, resolveCommand config o = .ok command ∧
      configuredStrategy config o = .ok strategy ∧ configuredJobs config = .ok jobs ∧
      resolveJobs o strategy jobs = .ok (n, strategy', interactive) ∧
      interactive = o.interactive ∧ resolveFix config d commits o = .ok fix ∧
      (if n = 0 then config.cpus else n) ≠ 0 ∧
      r = ⟨command, strategy', if o.bisect then some .binary else o.search, o.dryRun, !o.noCache, o.interactive,
        if n = 0 then config.cpus else n, fix⟩ := by
  unfold resolveTestOptions at h
  split at h
  · cases h
  rename_i command hc
  split at h
  · cases h
  rename_i strategy hs
  split at h
  · cases h
  rename_i jobs hj
  split at h
  · cases h
  rename_i n strategy' interactive hr
  split at h
  · cases h
  rename_i hi
  simp only [ne_eq, not_not] at hi
  dsimp only at h
  by_cases hn : (if n = 0 then config.cpus else n) = 0
  · rw [if_pos hn] at h; cases h
  rw [if_neg hn] at h
  split at h
  · cases h
  rename_i fix hf
  cases h
  subst hi
  exact ⟨command, strategy, jobs, n, strategy', _, fix, hc, hs, hj, hr, rfl, hf, hn, rfl⟩

/-- C85: what the options stand for: the command, where and in how many jobs it is run, and the rest. -/
theorem test_options_exact (config : TestConfig) (d : Dag) (commits : List Oid) (o : RawTestOptions)
    (r : ResolvedTestOptions) (h : resolveTestOptions config d commits o = .ok r) :
    MeansCommand config o r.command ∧ MeansStrategy config o r.strategy ∧
    (∃ n, MeansJobs config o n ∧ r.numJobs = if n = 0 then config.cpus else n) ∧ 0 < r.numJobs ∧
    r.interactive = o.interactive ∧ r.dryRun = o.dryRun ∧ r.useCache = !o.noCache ∧
    r.search = (if o.bisect then some .binary else o.search) ∧
    (∀ p, r.fix = some p ↔ o.applyFixes = true ∧
      verifyRewriteSet d o.moveForceRewritePublicCommits o.moveDetectDuplicateCommits commits = .ok p) := by
  obtain ⟨command, strategy, jobs, n, strategy', interactive, fix, hc, hs, hj, hr, hi', hf, hn, rfl⟩ := resolve_ok h
  refine ⟨resolveCommand_iff.1 hc, ?_, ⟨n, ?_, rfl⟩, Nat.pos_of_ne_zero hn, rfl, rfl, rfl, rfl, ?_⟩
  · dsimp only
    unfold resolveJobs at hr
    unfold configuredStrategy at hs
    split at hr
    · rename_i hj'
      split at hr
      · rename_i h1; cases hr; exact .given h1
      · rename_i h1 h2; cases hr; exact .given h1
      · rename_i h1 h2; cases hr; exact .given h1
      all_goals
        rename_i h1 h2
        cases hr
        rw [h1] at hs
        dsimp only at hs
        split at hs
        · cases hs
        · rename_i h3; cases hs; exact .default h1 (by simp [hj']) h3
        · rename_i t h3
          split at hs
          · rename_i s h4; cases hs; exact .configured h1 (by simp [hj']) h3 (parse_iff.1 h4)
          · cases hs
    · rename_i hj'
      cases hr
      split at hs
      · rename_i h1; cases hs; exact .given h1
      · rename_i h1
        split at hs
        · cases hs
        · rename_i h3; cases hs; exact .default h1 (by simp [hj']) h3
        · rename_i t h3
          split at hs
          · rename_i s h4; cases hs; exact .configured h1 (by simp [hj']) h3 (parse_iff.1 h4)
          · cases hs
    · rename_i m hm hj'
      split at hr
      · cases hr
      split at hr
      · rename_i h1; cases hr; exact .jobs h1 hj' (by rintro rfl; exact hm rfl)
      · rename_i h1; cases hr; exact .given h1
      · cases hr
  · unfold resolveJobs at hr
    have hconf : o.jobs = none → o.interactive = false → o.strategy ≠ some .workingCopy →
        MeansJobs config o (jobs.getD 1) := by
      intro h1 h2 h3
      unfold configuredJobs at hj
      split at hj
      · cases hj
      · rename_i h4; cases hj; exact .default h1 h2 h3 h4
      · rename_i m h4
        split at hj
        · cases hj
        · rename_i h5
          cases hj
          refine .configured h1 h2 h3 ?_
          rw [h4, Option.getD_some, Int.toNat_of_nonneg (by omega)]
    split at hr
    · rename_i hj'
      split at hr
      · rename_i h1; cases hr; exact .single hj' (.inr h1)
      · rename_i h1 h2; cases hr; exact .single hj' (.inl h2)
      · rename_i h1 h2; cases hr; exact hconf hj' h2 (by simp [h1])
      · rename_i h1 h2; cases hr; exact .single hj' (.inl h2)
      · rename_i h1 h2; cases hr; exact hconf hj' h2 (by simp [h1])
    · rename_i hj'; cases hr; exact .given hj'
    · rename_i m hm hj'
      split at hr
      · cases hr
      split at hr
      all_goals first | (cases hr; exact .given hj') | cases hr
  · unfold resolveFix at hf
    dsimp only
    intro p
    split at hf
    · rename_i h1
      split at hf
      · cases hf
      split at hf
      · cases hf
      split at hf
      · cases hf
      · rename_i p' hp
        cases hf
        rw [hp]
        simp [h1]
    · rename_i h1
      cases hf
      simp [h1]

/-- C85: an interactive command is run for one commit at a time. -/
theorem interactive_single (config : TestConfig) (d : Dag) (commits : List Oid) (o : RawTestOptions)
    (r : ResolvedTestOptions) (h : resolveTestOptions config d commits o = .ok r) (hi : r.interactive = true) :
    r.numJobs = 1 := by
  obtain ⟨command, strategy, jobs, n, strategy', interactive, fix, hc, hs, hj, hr, hi', hf, hn, rfl⟩ := resolve_ok h
  dsimp only at hi
  have : n = 1 := by
    unfold resolveJobs at hr
    rw [hi] at hr
    split at hr
    · split at hr
      · cases hr; rfl
      · cases hr; rfl
      · rename_i h2; cases h2
      · cases hr; rfl
      · rename_i h2; cases h2
    · cases hr; rfl
    · rw [if_pos rfl] at hr; cases hr
  simp [this]

/-- C85: several jobs are run in worktrees, not in the working copy. Missing: if the number of jobs is from the
configuration then a strategy has to be given, see `configured_jobs_in_working_copy`. -/
theorem several_jobs_worktree_partial (config : TestConfig) (d : Dag) (commits : List Oid) (o : RawTestOptions)
    (r : ResolvedTestOptions) (h : resolveTestOptions config d commits o = .ok r)
    (hj : config.jobs = some none ∨ o.jobs.isSome ∨ o.strategy.isSome) (hn : 1 < r.numJobs) :
    r.strategy = .worktree := by
  obtain ⟨command, strategy, jobs, n, strategy', interactive, fix, hc, hs, hjobs, hr, hi', hf, hn0, rfl⟩ := resolve_ok h
  dsimp only at hn ⊢
  have hn1 : n ≠ 1 := by rintro rfl; simp at hn
  unfold resolveJobs at hr
  split at hr
  · rename_i hj'
    split at hr
    · cases hr; exact absurd rfl hn1
    · cases hr; rfl
    · cases hr; rfl
    · cases hr; exact absurd rfl hn1
    · rename_i h1 h2
      cases hr
      rcases hj with hj | hj | hj
      · unfold configuredJobs at hjobs
        rw [hj] at hjobs
        cases hjobs
        exact absurd rfl hn1
      · simp [hj'] at hj
      · simp [h1] at hj
  · cases hr; exact absurd rfl hn1
  · split at hr
    · cases hr
    split at hr
    · cases hr; rfl
    · cases hr; rfl
    · cases hr

/-- C85: when the options are accepted. -/
theorem test_options_accepted_iff (config : TestConfig) (hcpus : 0 < config.cpus) (d : Dag) (commits : List Oid)
    (o : RawTestOptions) :
    (∃ r, resolveTestOptions config d commits o = .ok r) ↔
      (∃ t, MeansCommand config o t) ∧
      (o.strategy.isSome ∨ config.strategy = some none ∨
        ∃ t s, config.strategy = some (some t) ∧ StrategyName t s) ∧
      (config.jobs = some none ∨ ∃ n : Nat, config.jobs = some (some (n : Int))) ∧
      (∀ n, o.jobs = some n → n ≠ 1 → o.interactive = false ∧ o.strategy ≠ some .workingCopy) ∧
      (o.applyFixes = true → o.moveOnDisk = false ∧ config.preserveTimestampsOk = true ∧
        ∃ p, verifyRewriteSet d o.moveForceRewritePublicCommits o.moveDetectDuplicateCommits commits = .ok p) := by
  have hstrat : (∃ s, configuredStrategy config o = .ok s) ↔ (o.strategy.isSome ∨ config.strategy = some none ∨
        ∃ t s, config.strategy = some (some t) ∧ StrategyName t s) := by
    unfold configuredStrategy
    constructor
    · rintro ⟨s, h⟩
      split at h
      · rename_i h1; simp [h1]
      · split at h
        · cases h
        · rename_i h2; exact .inr (.inl h2)
        · rename_i t h2
          split at h
          · rename_i s' h3; exact .inr (.inr ⟨t, s', h2, parse_iff.1 h3⟩)
          · cases h
    · intro h
      cases h1 : o.strategy with
      | some s => exact ⟨s, rfl⟩
      | none =>
        rcases h with h | h | ⟨t, s, h2, h3⟩
        · simp [h1] at h
        · simp [h]
        · simp [h2, parse_iff.2 h3]
  have hjobs : (∃ s, configuredJobs config = .ok s) ↔
      (config.jobs = some none ∨ ∃ n : Nat, config.jobs = some (some (n : Int))) := by
    unfold configuredJobs
    constructor
    · rintro ⟨s, h⟩
      split at h
      · cases h
      · rename_i h1; exact .inl h1
      · rename_i n h1
        split at h
        · cases h
        · exact .inr ⟨n.toNat, by rw [h1, Int.toNat_of_nonneg (by omega)]⟩
    · rintro (h | ⟨n, h⟩)
      · simp [h]
      · refine ⟨some n, ?_⟩
        rw [h]
        simp
  have hres : ∀ s j, (∃ x, resolveJobs o s j = .ok x) ↔
      (∀ n, o.jobs = some n → n ≠ 1 → o.interactive = false ∧ o.strategy ≠ some .workingCopy) := by
    intro s j
    unfold resolveJobs
    constructor
    · rintro ⟨x, h⟩ n hn h1
      rw [hn] at h
      split at h
      · rename_i h2; cases h2
      · rename_i h2; cases h2; exact absurd rfl h1
      · split at h
        · cases h
        rename_i h3
        refine ⟨by simpa using h3, fun h4 => ?_⟩
        rw [h4] at h
        cases h
    · intro h
      split
      · split <;> exact ⟨_, rfl⟩
      · exact ⟨_, rfl⟩
      · rename_i n hn1 hn
        obtain ⟨h1, h2⟩ := h n hn (by rintro rfl; exact hn1 rfl)
        rw [if_neg (by simp [h1])]
        split
        · exact ⟨_, rfl⟩
        · exact ⟨_, rfl⟩
        · rename_i h3; exact absurd h3 h2
  have hkeep : ∀ s j n s' i, resolveJobs o s j = .ok (n, s', i) → i = o.interactive := by
    intro s j n s' i h
    unfold resolveJobs at h
    split at h
    · split at h <;> cases h <;> simp_all
    · cases h; rfl
    · split at h
      · cases h
      rename_i h3
      split at h <;> cases h <;> simpa using h3
  have hfix : (∃ x, resolveFix config d commits o = .ok x) ↔
      (o.applyFixes = true → o.moveOnDisk = false ∧ config.preserveTimestampsOk = true ∧
        ∃ p, verifyRewriteSet d o.moveForceRewritePublicCommits o.moveDetectDuplicateCommits commits = .ok p) := by
    unfold resolveFix
    constructor
    · rintro ⟨x, h⟩ ha
      rw [if_pos ha] at h
      split at h
      · cases h
      rename_i h1
      split at h
      · cases h
      rename_i h2
      split at h
      · cases h
      · rename_i p h3
        exact ⟨by simpa using h1, by simpa using h2, p, h3⟩
    · intro h
      by_cases ha : o.applyFixes = true
      · obtain ⟨h1, h2, p, h3⟩ := h ha
        rw [if_pos ha, if_neg (by simp [h1]), if_neg (by simp [h2]), h3]
        exact ⟨_, rfl⟩
      · rw [if_neg ha]; exact ⟨_, rfl⟩
  have hcom : (∃ t, MeansCommand config o t) ↔ ∃ t, resolveCommand config o = .ok t := by
    simp only [resolveCommand_iff]
  rw [hcom, ← hstrat, ← hjobs, ← hfix]
  constructor
  · rintro ⟨r, h⟩
    obtain ⟨command, strategy, jobs, n, strategy', interactive, fix, h1, h2, h3, h4, _, h5, _, rfl⟩ := resolve_ok h
    exact ⟨⟨_, h1⟩, ⟨_, h2⟩, ⟨_, h3⟩, (hres strategy jobs).1 ⟨_, h4⟩, ⟨_, h5⟩⟩
  · rintro ⟨⟨t, h1⟩, ⟨s, h2⟩, ⟨j, h3⟩, h4, ⟨f, h5⟩⟩
    obtain ⟨⟨n, s', i⟩, h6⟩ := (hres s j).2 h4
    unfold resolveTestOptions
    rw [h1, h2, h3]
    simp only [h6, h5]
    rw [if_neg (by simp [hkeep _ _ _ _ _ h6]), if_neg]
    · exact ⟨_, rfl⟩
    · split
      · omega
      · assumption

/-- C85: if two jobs are configured and nothing else is said, they are both run in the working copy. -/
theorem configured_jobs_in_working_copy : ∃ (config : TestConfig) (o : RawTestOptions) (r : ResolvedTestOptions),
    resolveTestOptions config (⟨⟨[]⟩, [], [], [], [], []⟩ : Dag) [] o = .ok r ∧ r.strategy = .workingCopy ∧
      r.numJobs = 2 := by
  exact ⟨⟨fun _ => none, some none, some (some 2), true, none, 4⟩,
    ⟨some t!"make", none, false, none, none, false, false, false, none, false, false, false, false⟩,
    ⟨t!"make", .workingCopy, none, false, true, false, 2, none⟩, rfl, rfl, rfl⟩

/-- Two jobs in worktrees, with fixes. -/
def exTestOptions : RawTestOptions :=
  ⟨some t!"make fmt", none, false, none, some .linear, true, false, false, some 2, true, false, false, false⟩

/-- A configuration with an alias, worktrees and three jobs. -/
def exTestConfig : TestConfig :=
  ⟨fun t => if t = t!"default" then some t!"make check" else none, some (some t!"WorkTree"), some (some 3), true,
    some t!"/bin/sh", 8⟩

example : resolveTestOptions exTestConfig (⟨⟨[]⟩, [], [], [], [], []⟩ : Dag) [] exTestOptions =
    .ok ⟨t!"make fmt", .worktree, some .binary, false, true, false, 2, some ⟨false, []⟩⟩ := by
  rfl
example : resolveTestOptions exTestConfig (⟨⟨[]⟩, [], [], [], [], []⟩ : Dag) []
      { exTestOptions with exec := none, jobs := none, applyFixes := false } =
    .ok ⟨t!"make check", .worktree, some .binary, false, true, false, 3, none⟩ := by
  rfl
example : resolveTestOptions exTestConfig (⟨⟨[]⟩, [], [], [], [], []⟩ : Dag) []
      { exTestOptions with exec := none, jobs := none, applyFixes := false, interactive := true } =
    .ok ⟨t!"/bin/sh", .worktree, some .binary, false, true, true, 1, none⟩ := by
  rfl
example : resolveTestOptions exTestConfig (⟨⟨[]⟩, [], [], [], [], []⟩ : Dag) []
      { exTestOptions with interactive := true } = .error .interactiveJobs := by
  rfl

/-- C85: the output of a command is shown as a whole, or, in the shorter form, at most eleven lines of it: the first five
and the last five lines and how many are between them. -/
theorem abbreviated_lines (full : Bool) (lines : List Text) (hne : lines ≠ []) :
    abbreviateLines full lines = lines ∨
      (full = false ∧ 10 < lines.length ∧ ∃ first middle last, lines = first ++ middle ++ last ∧ first.length = 5 ∧
        last.length = 5 ∧
        abbreviateLines full lines = first ++ [t!"<" ++ natToText middle.length ++ t!" more lines>"] ++ last) := by
  unfold abbreviateLines
  dsimp only
  rw [if_neg (by simpa using hne)]
  by_cases h : (lines.length - 2 * 5 = 0 || full) = true
  · rw [if_pos h]; exact .inl rfl
  · rw [if_neg h]
    simp only [Bool.or_eq_true, decide_eq_true_eq, not_or, Bool.not_eq_true, beq_iff_eq] at h
    obtain ⟨h1, h2⟩ := h
    refine .inr ⟨h2, by omega, lines.take 5, (lines.drop 5).take (lines.length - 10),
      lines.drop (lines.length - 5), ?_, ?_, ?_, ?_⟩
    · have : lines.drop (lines.length - 5) = (lines.drop 5).drop (lines.length - 10) := by
        rw [List.drop_drop]
        congr 1
        omega
      rw [this, List.append_assoc, List.take_append_drop, List.take_append_drop]
    · simp; omega
    · simp; omega
    · have : ((lines.drop 5).take (lines.length - 10)).length = lines.length - 2 * 5 := by simp; omega
      rw [this]

example : abbreviateLines false ((List.range 13).map natToText) =
    [t!"0", t!"1", t!"2", t!"3", t!"4", t!"<3 more lines>", t!"8", t!"9", t!"10", t!"11", t!"12"] := by
  decide +kernel

/-- C85: how a shell reads the argument which is shown in the hint to clear the cached results: it expands variables and
commands in it, and every backslash is doubled. -/
theorem shell_escape_read (s : Text) :
    readDoubleQuoted (shellEscape s) =
      if '$' ∈ s ∨ '`' ∈ s then none else some (s.flatMap fun c => if c = '\\' then ['\\', '\\'] else [c]) := by
  unfold shellEscape readDoubleQuoted
  simp only [List.cons_append, List.nil_append]
  induction s with
  | nil => rfl
  | cons c s ih =>
    simp only [List.flatMap_cons, List.append_assoc]
    by_cases h1 : c = '"'
    · subst h1
      simp only [↓reduceIte, List.cons_append, List.nil_append]
      rw [readQuoted, ih]
      by_cases hs : '$' ∈ s ∨ '`' ∈ s
      · simp [hs]
      · simp [hs]
    by_cases h2 : c = '\\'
    · subst h2
      simp only [↓reduceIte, List.cons_append, List.nil_append, h1]
      rw [readQuoted, readQuoted, ih]
      by_cases hs : '$' ∈ s ∨ '`' ∈ s
      · simp [hs]
      · simp [hs]
    simp only [if_neg h1, if_neg h2, List.cons_append, List.nil_append]
    by_cases h3 : c = '$'
    · subst h3; rw [readQuoted]; simp
    by_cases h4 : c = '`'
    · subst h4; rw [readQuoted]; simp
    rw [readQuoted, ih]
    · by_cases hs : '$' ∈ s ∨ '`' ∈ s
      · have : '$' ∈ c :: s ∨ '`' ∈ c :: s := hs.imp (List.mem_cons_of_mem _) (List.mem_cons_of_mem _)
        rw [if_pos hs, if_pos this]
        rfl
      · have h3' : ¬ '$' = c := fun h => h3 h.symm
        have h4' : ¬ '`' = c := fun h => h4 h.symm
        simp [hs, h3', h4']
    all_goals first | exact h1 | exact h3 | exact h4 | (intro; exact h2) | (intros; simp_all)

/-- C85: the argument of the hint is read back as the revset if this has no backslash, dollar sign or backtick. Missing:
the others, see `shell_escape_read`. -/
theorem shell_escape_partial (s : Text) :
    readDoubleQuoted (shellEscape s) = some s ↔ '\\' ∉ s ∧ '$' ∉ s ∧ '`' ∉ s := by
  rw [shell_escape_read]
  constructor
  · intro h
    split at h
    · cases h
    · rename_i hs
      simp only [not_or] at hs
      refine ⟨fun hb => ?_, hs.1, hs.2⟩
      have hl := congrArg List.length (Option.some.inj h)
      have : ∀ t : Text, t.length ≤ (t.flatMap fun c => if c = '\\' then ['\\', '\\'] else [c]).length := by
        intro t
        induction t with
        | nil => simp
        | cons c t ih => simp only [List.flatMap_cons, List.length_append, List.length_cons]; split <;> simp only [List.length_cons, List.length_nil] <;> omega
      obtain ⟨a, b, rfl⟩ := List.append_of_mem hb
      have ha := this a
      have hb' := this b
      simp only [List.flatMap_append, List.flatMap_cons, List.length_append, List.length_cons, ↓reduceIte] at hl
      simp only [List.length_nil] at hl
      omega
  · rintro ⟨h1, h2, h3⟩
    rw [if_neg (by simp [h2, h3])]
    congr 1
    clear h2 h3
    induction s with
    | nil => rfl
    | cons c s ih =>
      simp only [List.mem_cons, not_or] at h1
      rw [List.flatMap_cons, if_neg (fun h => h1.1 h.symm), ih h1.2]
      rfl

/-- C85: the argument for a revset with a backslash is another revset. -/
theorem shell_escape_backslash :
    readDoubleQuoted (shellEscape t!"paths.changed(regex:a\\.rs)") = some t!"paths.changed(regex:a\\\\.rs)" := by
  decide +kernel

end Verif.Props
