import Verif.Lemmas.InitConfig
import Verif.Lemmas.Lines
import Verif.Props.Init

/-! C92: what `git branchless init` configures, and that uninstalling restores the configuration. -/

namespace Verif.Props

open Verif Verif.Spec

/-! ### the main branch -/

/-- C92: the main branch is the given one, or the detected one. -/
theorem main_branch_chosen (env : InitCommandEnv) (s : InitFiles) (given : Option Text) (name : Text) :
    chooseMainBranch env s given = .ok name ↔ MainIs env (readConfig env s) given name := by
  unfold MainIs
  cases given with
  | some n =>
    simp only [chooseMainBranch, Except.ok.injEq, Option.some.injEq, reduceCtorEq, false_and, or_false]
  | none =>
    simp only [chooseMainBranch, reduceCtorEq, true_and, false_or]
    have hdef : ∀ n, getDefaultBranchName env s = some n ↔
        ValueOf (readConfig env s) t!"init.defaultBranch" n := fun n => getValue_some
    have hfirst : ∀ d, detectMainBranchName env s = some d →
        (∃ n, d = some n ∧ ValueOf (readConfig env s) t!"init.defaultBranch" n ∧ env.findBranch n = some true) ∨
        ((∀ n, ValueOf (readConfig env s) t!"init.defaultBranch" n → env.findBranch n = some false) ∧
          firstBranch env usualMainBranches = some d) := by
      intro d hd
      unfold detectMainBranchName at hd
      cases hg : getDefaultBranchName env s with
      | none =>
        rw [hg] at hd
        refine .inr ⟨?_, hd⟩
        intro n hn
        rw [← hdef, hg] at hn
        cases hn
      | some n =>
        rw [hg] at hd
        simp only at hd
        cases hf : env.findBranch n with
        | none => simp [hf] at hd
        | some b =>
          rw [hf] at hd
          cases b with
          | true =>
            simp only [Option.some.injEq] at hd
            exact .inl ⟨n, hd.symm, (hdef n).1 hg, hf⟩
          | false =>
            refine .inr ⟨?_, hd⟩
            intro m hm
            rw [← hdef, hg] at hm
            cases hm
            exact hf
    constructor
    · intro h
      cases hd : detectMainBranchName env s with
      | none => simp [hd] at h
      | some d =>
        rw [hd] at h
        cases d with
        | some n =>
          simp only [Except.ok.injEq] at h
          subst h
          rcases hfirst _ hd with ⟨m, he, h1, h2⟩ | ⟨h1, h2⟩
          · cases he
            exact .default _ h1 h2
          · obtain ⟨a, b, he, ha, hb⟩ := (firstBranch_some h2).1 _ rfl
            exact .usual a b _ h1 he ha hb
        | none =>
          simp only at h
          by_cases hi : trim env.input = []
          · rw [if_pos hi] at h
            cases h
          · rw [if_neg hi] at h
            cases h
            rcases hfirst _ hd with ⟨m, he, h1, h2⟩ | ⟨h1, h2⟩
            · cases he
            · exact .typed h1 ((firstBranch_some h2).2 rfl) hi
    · have hnot : (∀ n, ValueOf (readConfig env s) t!"init.defaultBranch" n → env.findBranch n = some false) →
          detectMainBranchName env s = firstBranch env usualMainBranches := by
        intro h1
        unfold detectMainBranchName
        cases hg : getDefaultBranchName env s with
        | none => rfl
        | some n =>
          simp only
          rw [h1 n ((hdef n).1 hg)]
      intro h
      cases h with
      | default n h1 h2 =>
        have : detectMainBranchName env s = some (some name) := by
          unfold detectMainBranchName
          rw [(hdef _).2 h1]
          simp only
          rw [h2]
        rw [this]
      | usual a b n h1 h2 h3 h4 =>
        have : firstBranch env usualMainBranches = some (some name) := by
          unfold usualMainBranches
          rw [h2]
          clear h2
          induction a with
          | nil => simp [firstBranch, h4]
          | cons x a ih =>
            simp only [List.cons_append, firstBranch, h3 x (by simp)]
            exact ih fun n hn => h3 n (by simp [hn])
        rw [hnot h1, this]
      | typed h1 h2 h3 =>
        have : ∀ ns : List Text, (∀ n ∈ ns, env.findBranch n = some false) → firstBranch env ns = some none := by
          intro ns hns
          induction ns with
          | nil => rfl
          | cons x ns ih =>
            simp only [firstBranch, hns x (by simp)]
            exact ih fun n hn => hns n (by simp [hn])
        rw [hnot h1, this usualMainBranches h2]
        simp only
        rw [if_neg h3]

/-- C92: it fails for lack of a main branch exactly if none is given, none is found, and a blank line is
typed. -/
theorem main_branch_missing (env : InitCommandEnv) (s : InitFiles) (given : Option Text) (e : InitOutcome)
    (h : chooseMainBranch env s given = .error e) :
    given = none ∧
    ((e = .branchError ∧ ∃ n, env.findBranch n = none ∧
        (ValueOf (readConfig env s) t!"init.defaultBranch" n ∨ n ∈ usualMainBranches)) ∨
      (e = .noMainBranch ∧ (∀ c ∈ env.input, isSpace c = true) ∧ (∀ n ∈ usualMainBranches, env.findBranch n = some false) ∧
        ∀ n, ValueOf (readConfig env s) t!"init.defaultBranch" n → env.findBranch n = some false)) := by
  cases given with
  | some n => cases h
  | none =>
    refine ⟨rfl, ?_⟩
    simp only [chooseMainBranch] at h
    have hdef : ∀ n, getDefaultBranchName env s = some n ↔
        ValueOf (readConfig env s) t!"init.defaultBranch" n := fun n => getValue_some
    cases hd : detectMainBranchName env s with
    | none =>
      rw [hd] at h
      cases h
      refine .inl ⟨rfl, ?_⟩
      unfold detectMainBranchName at hd
      cases hg : getDefaultBranchName env s with
      | none =>
        rw [hg] at hd
        obtain ⟨n, hn, hf⟩ := firstBranch_none hd
        exact ⟨n, hf, .inr hn⟩
      | some n =>
        rw [hg] at hd
        simp only at hd
        cases hf : env.findBranch n with
        | none => exact ⟨n, hf, .inl ((hdef n).1 hg)⟩
        | some b =>
          rw [hf] at hd
          cases b with
          | true => simp at hd
          | false =>
            obtain ⟨m, hm, hf⟩ := firstBranch_none hd
            exact ⟨m, hf, .inr hm⟩
    | some d =>
      rw [hd] at h
      cases d with
      | some n => simp at h
      | none =>
        simp only at h
        by_cases hi : trim env.input = []
        · rw [if_pos hi] at h
          cases h
          unfold detectMainBranchName at hd
          refine .inr ⟨rfl, trim_eq_nil.1 hi, ?_⟩
          cases hg : getDefaultBranchName env s with
          | none =>
            rw [hg] at hd
            refine ⟨(firstBranch_some hd).2 rfl, ?_⟩
            intro n hn
            rw [← hdef, hg] at hn
            cases hn
          | some n =>
            rw [hg] at hd
            simp only at hd
            cases hf : env.findBranch n with
            | none => simp [hf] at hd
            | some b =>
              rw [hf] at hd
              cases b with
              | true => simp at hd
              | false =>
                refine ⟨(firstBranch_some hd).2 rfl, ?_⟩
                intro m hm
                rw [← hdef, hg] at hm
                cases hm
                exact hf
        · rw [if_neg hi] at h
          cases h

/-! ### one command -/

/-- How a successful command goes. -/
theorem commandInit_done {env : InitCommandEnv} {given : Option Text} {s s' : InitFiles} {w : Bool}
    (h : commandInit env given s = (s', .done w)) :
    ∃ main c iso v, chooseMainBranch env { s with repo := setInclude s.repo } given = .ok main ∧
      setValues (s.isolated.getD []) (configValues main) = (c, true) ∧
      installHooks env.hooks s.hooks = (s'.hooks, true) ∧
      installAliasesLoop env.defaults c allAliases = (iso, true) ∧
      s'.isolated = some iso ∧ s'.repo = setInclude s.repo ∧
      (env.gitVersion.bind fun t => parseGitVersion (trim t)) = some v ∧ env.opens = true ∧
      w = versionLt v (2, 29, 0) := by
  unfold commandInit at h
  simp only at h
  cases hm : chooseMainBranch env { s with repo := setInclude s.repo } given with
  | error e =>
    have := main_branch_missing _ _ _ _ hm
    rw [hm] at h
    simp only [Prod.mk.injEq] at h
    rw [h.2] at this
    simp at this
  | ok main =>
    rw [hm] at h
    simp only at h
    cases hc : setValues (s.isolated.getD []) (configValues main) with
    | mk c ok =>
      rw [hc] at h
      cases ok with
      | false => simp at h
      | true =>
        simp only at h
        cases hh : installHooks env.hooks s.hooks with
        | mk hooks ok =>
          rw [hh] at h
          cases ok with
          | false => simp at h
          | true =>
            simp only at h
            cases ha : installAliasesLoop env.defaults c allAliases with
            | mk iso ok =>
              rw [ha] at h
              cases ok with
              | false => simp at h
              | true =>
                simp only at h
                cases hv : env.gitVersion.bind fun t => parseGitVersion (trim t) with
                | none =>
                  rw [hv] at h
                  simp at h
                | some v =>
                  rw [hv] at h
                  simp only at h
                  by_cases ho : env.opens = true
                  · rw [if_pos ho] at h
                    simp only [Prod.mk.injEq, InitOutcome.done.injEq] at h
                    obtain ⟨rfl, rfl⟩ := h
                    exact ⟨main, c, iso, v, rfl, hc, rfl, ha, rfl, rfl, rfl, ho, rfl⟩
                  · rw [if_neg ho] at h
                    simp at h

/-- The configuration file of the repository, however the command ends. -/
theorem commandInit_repo (env : InitCommandEnv) (given : Option Text) (s : InitFiles) :
    (commandInit env given s).1.repo = setInclude s.repo := by
  unfold commandInit
  simp only
  repeat' (first | rfl | split)

theorem configValues_get (main k : Text) :
    getValue (configValues main) k =
      if k = t!"branchless.core.mainBranch" then some main
      else if k = t!"advice.detachedHead" then some t!"false"
      else if k = t!"log.excludeDecoration" then some t!"refs/branchless/*" else none := by
  unfold configValues
  simp only [getValue_cons, getValue_nil]
  by_cases h1 : k = t!"branchless.core.mainBranch"
  · subst h1
    simp
  · by_cases h2 : k = t!"advice.detachedHead"
    · subst h2
      simp
    · by_cases h3 : k = t!"log.excludeDecoration"
      · subst h3
        simp
      · simp [h1, h2, h3, Ne.symm h1, Ne.symm h2, Ne.symm h3, eq_comm]

theorem alias_not_value (a : Text × Text) (main : Text) : getValue (configValues main) (aliasKey a) = none := by
  rw [configValues_get]
  unfold aliasKey
  rw [if_neg (by simp), if_neg (by simp), if_neg (by simp)]

/-- C92: what the isolated file has after a successful command: exactly the values of the program for its own
keys, and the same as before for all others. The hooks are installed, and the user's own entries in the
configuration file of the repository are kept as they are. -/
theorem init_isolated (env : InitCommandEnv) (given : Option Text) (s s' : InitFiles) (w : Bool)
    (h : commandInit env given s = (s', .done w)) :
    ∃ main iso, MainIs env (readConfig env { s with repo := s'.repo }) given main ∧ s'.isolated = some iso ∧
      (∀ k v, OurKey k → (ValueOf iso k v ↔ OurValue env main k v)) ∧
      (∀ k v, ¬OurKey k → (ValueOf iso k v ↔ ValueOf (s.isolated.getD []) k v)) ∧
      ownEntries s'.repo = ownEntries s.repo ∧ installHooks env.hooks s.hooks = (s'.hooks, true) := by
  obtain ⟨main, c, iso, v, h1, h2, h3, h4, h5, h6, h7, h8, h9⟩ := commandInit_done h
  refine ⟨main, iso, ?_, h5, ?_, ?_, ?_, h3⟩
  · rw [← main_branch_chosen, h6]
    exact h1
  · intro k v hk
    rw [← getValue_some]
    by_cases ha : ∃ a ∈ allAliases, k = aliasKey a
    · obtain ⟨a, ha, rfl⟩ := ha
      rw [aliases_value h4 allAliases_nodup ha]
      constructor
      · intro hv
        by_cases hd : (getValue env.defaults (aliasKey a)).isSome
        · rw [if_pos hd] at hv
          cases hv
        · rw [if_neg hd] at hv
          cases hv
          refine .shortcut a.1 a.2 ha (getValue_none.1 ?_)
          show getValue env.defaults (aliasKey a) = none
          simpa using hd
      · intro hv
        generalize hk' : aliasKey a = k' at hv
        cases hv with
        | main => simp [aliasKey] at hk'
        | detachedHead => simp [aliasKey] at hk'
        | decoration => simp [aliasKey] at hk'
        | shortcut sh cmd hm hu =>
          have e : a.1 = sh := List.append_cancel_left hk'
          have e2 : a.2 = cmd := by
            have key : ∀ x ∈ allAliases, ∀ y ∈ allAliases, x.1 = y.1 → x.2 = y.2 := by decide +kernel
            exact key a ha (sh, cmd) hm e
          have hn := getValue_none.2 hu
          rw [if_neg (by rw [hn]; simp), e2]
    · have hother : getValue iso k = getValue c k :=
        aliases_other h4 fun a ha' he => ha ⟨a, ha', he.symm⟩
      rw [hother, setValues_value h2, configValues_get]
      rcases hk with rfl | rfl | rfl | ⟨a, ha', rfl⟩
      · rw [if_pos rfl]
        constructor
        · intro hv
          cases hv
          exact .main
        · intro hv
          generalize hk' : t!"branchless.core.mainBranch" = k' at hv
          cases hv with
          | main => rfl
          | detachedHead => simp at hk'
          | decoration => simp at hk'
          | shortcut sh cmd hm hu => simp at hk'
      · rw [if_neg (by simp), if_pos rfl]
        constructor
        · intro hv
          cases hv
          exact .detachedHead
        · intro hv
          generalize hk' : t!"advice.detachedHead" = k' at hv
          cases hv with
          | main => simp at hk'
          | detachedHead => rfl
          | decoration => simp at hk'
          | shortcut sh cmd hm hu => simp at hk'
      · rw [if_neg (by simp), if_neg (by simp), if_pos rfl]
        constructor
        · intro hv
          cases hv
          exact .decoration
        · intro hv
          generalize hk' : t!"log.excludeDecoration" = k' at hv
          cases hv with
          | main => simp at hk'
          | detachedHead => simp at hk'
          | decoration => rfl
          | shortcut sh cmd hm hu => simp at hk'
      · exact absurd ⟨a, ha', rfl⟩ ha
  · intro k v hk
    apply valueOf_congr
    rw [aliases_other h4 (fun a ha he => hk (.inr (.inr (.inr ⟨a, ha, he.symm⟩)))), setValues_value h2,
      configValues_get, if_neg fun e => hk (.inl e), if_neg fun e => hk (.inr (.inl e)),
      if_neg fun e => hk (.inr (.inr (.inl e)))]
    rfl
  · rw [h6, own_setInclude]

/-! ### what Git then sees -/

theorem repoEntries_append (env : InitCommandEnv) (a b : ConfigFile) (iso : Option ConfigFile) (hooks : HookFiles) :
    repoEntries env ⟨a ++ b, iso, hooks⟩ =
      repoEntries env ⟨a, iso, hooks⟩ ++ repoEntries env ⟨b, iso, hooks⟩ := by
  unfold repoEntries
  rw [List.flatMap_append]
  rfl

theorem repoEntries_own (env : InitCommandEnv) {c : ConfigFile} (h : ∀ e ∈ c, ¬OurInclude e)
    (iso iso' : Option ConfigFile) (hooks hooks' : HookFiles) :
    repoEntries env ⟨c, iso, hooks⟩ = repoEntries env ⟨c, iso', hooks'⟩ := by
  unfold repoEntries
  rw [List.flatMap_def, List.flatMap_def]
  congr 1
  apply List.map_congr_left
  intro e he
  congr 1
  by_cases hi : e.1 = includeKey
  · rw [if_pos hi, if_pos hi]
    unfold includedFile
    have : e.2 ≠ isolatedPath := by
      intro h2
      exact h e he ⟨hi, t!"config", h2⟩
    rw [if_neg this, if_neg this]
  · rw [if_neg hi, if_neg hi]

theorem readConfig_fresh (env : InitCommandEnv) {s : InitFiles} (hf : ∀ e ∈ s.repo, ¬OurInclude e)
    (iso : Option ConfigFile) (hooks : HookFiles) :
    readConfig env ⟨setInclude s.repo, iso, hooks⟩ =
      readConfig env s ++ (includeKey, isolatedPath) :: iso.getD [] := by
  unfold readConfig
  rw [setInclude_fresh hf, repoEntries_append, List.append_assoc]
  congr 1
  rw [repoEntries_own env hf iso s.isolated hooks s.hooks]
  congr 1
  simp [repoEntries, includedFile]

/-- C92: installing the program in a repository. One entry is appended to the configuration file of the
repository. From then on, the keys of the program have their values, in particular the main branch is the
given or the detected one, and all other keys have the same values as before. This includes the aliases
which the user has for all repositories. -/
theorem init_fresh (env : InitCommandEnv) (given : Option Text) (s s' : InitFiles) (w : Bool)
    (hf : NotInstalled s) (h : commandInit env given s = (s', .done w)) :
    s'.repo = s.repo ++ [(t!"include.path", t!"branchless/config")] ∧
    ∃ main, MainIs env (readConfig env s) given main ∧ getMainBranchName env s' = main ∧
      (∀ k v, OurValue env main k v → ValueOf (readConfig env s') k v) ∧
      ∀ k, (∀ v, ¬OurValue env main k v) → k ≠ t!"include.path" →
        ∀ v, ValueOf (readConfig env s') k v ↔ ValueOf (readConfig env s) k v := by
  obtain ⟨main, iso, h1, h2, h3, h4, _, _⟩ := init_isolated env given s s' w h
  have hr := commandInit_repo env given s
  rw [h] at hr
  simp only at hr
  refine ⟨by rw [hr, setInclude_fresh hf.1]; rfl, main, ?_⟩
  have hread : readConfig env s' = readConfig env s ++ (includeKey, isolatedPath) :: iso := by
    have := readConfig_fresh env hf.1 s'.isolated s'.hooks
    rw [← hr, h2] at this
    rw [show s' = ⟨s'.repo, some iso, s'.hooks⟩ from by rw [← h2]]
    exact this
  have hour : ∀ k v, OurValue env main k v → OurKey k := by
    intro k v hv
    cases hv with
    | main => exact .inl rfl
    | detachedHead => exact .inr (.inl rfl)
    | decoration => exact .inr (.inr (.inl rfl))
    | shortcut sh cmd hm hu => exact .inr (.inr (.inr ⟨(sh, cmd), hm, rfl⟩))
  have hset : ∀ k v, OurValue env main k v → ValueOf (readConfig env s') k v := by
    intro k v hv
    have := getValue_some.2 ((h3 k v (hour k v hv)).2 hv)
    rw [← getValue_some, hread, getValue_append, getValue_cons, this]
    rfl
  refine ⟨?_, ?_, hset, ?_⟩
  · have hc : readConfig env { s with repo := s'.repo } = readConfig env s ++ [(includeKey, isolatedPath)] := by
      have := readConfig_fresh env hf.1 s.isolated s.hooks
      rw [← hr] at this
      rw [this, hf.2]
      rfl
    have hv : ∀ n, ValueOf (readConfig env { s with repo := s'.repo }) t!"init.defaultBranch" n ↔
        ValueOf (readConfig env s) t!"init.defaultBranch" n := by
      intro n
      apply valueOf_congr
      rw [hc, getValue_append, getValue_one, if_neg (by decide)]
      rfl
    rcases h1 with h1 | ⟨h1, hd⟩
    · exact .inl h1
    · refine .inr ⟨h1, ?_⟩
      cases hd with
      | default n a b => exact .default _ ((hv _).1 a) b
      | usual a b n c d e f => exact .usual a b _ (fun n hn => c n ((hv n).2 hn)) d e f
      | typed a b c => exact .typed (fun n hn => a n ((hv n).2 hn)) b c
  · unfold getMainBranchName
    rw [getValue_some.2 (hset _ _ .main)]
  · intro k hk hi v
    apply valueOf_congr
    have hn : getValue iso k = none := by
      by_cases ho : OurKey k
      · cases hg : getValue iso k with
        | none => rfl
        | some v => exact absurd ((h3 k v ho).1 (getValue_some.1 hg)) (hk v)
      · cases hg : getValue iso k with
        | none => rfl
        | some v =>
          have := getValue_some.2 ((h4 k v ho).1 (getValue_some.1 hg))
          rw [hf.2] at this
          cases this
    rw [hread, getValue_append, getValue_cons, hn,
      if_neg (show ¬(includeKey, isolatedPath).1 = k from Ne.symm hi)]
    rfl

/-- C92: what the user sets after the entry which includes the isolated file takes precedence, also after the
command is run again. -/
theorem init_user_overrides (env : InitCommandEnv) (given : Option Text) (s : InitFiles) (before after : ConfigFile)
    (e : Text × Text) (k v : Text) (hs : s.repo = before ++ e :: after) (he : OurInclude e)
    (hi : ∀ x ∈ after, x.1 ≠ t!"include.path") (hv : ValueOf after k v) :
    ValueOf (readConfig env (commandInit env given s).1) k v := by
  have hr := commandInit_repo env given s
  generalize (commandInit env given s).1 = s' at hr
  have hafter : ∀ f : Text × Text → Text × Text, (∀ x ∈ after, f x = x) → after.map f = after := by
    intro f hf
    conv_rhs => rw [← List.map_id after]
    exact List.map_congr_left hf
  have hrepo : ∃ b', s'.repo = b' ++ after := by
    rw [hr, hs]
    unfold setInclude
    rw [if_pos (List.any_eq_true.2 ⟨e, by simp, isOurInclude_iff.2 he⟩), List.map_append, List.map_cons, hafter]
    · exact ⟨_ ++ [_], by simp only [List.append_assoc, List.singleton_append]; rfl⟩
    · intro x hx
      rw [if_neg]
      intro ho
      exact hi x hx (isOurInclude_iff.1 ho).1
  obtain ⟨b', hb'⟩ := hrepo
  have hexp : repoEntries env ⟨after, s'.isolated, s'.hooks⟩ = after := by
    have : ∀ x ∈ after, (fun e : Text × Text => e :: if e.1 = includeKey then
        includedFile env ⟨after, s'.isolated, s'.hooks⟩ e.2 else []) x = [x] := by
      intro x hx
      simp only
      rw [if_neg (show ¬x.1 = includeKey from hi x hx)]
    unfold repoEntries
    rw [List.flatMap_def, List.map_congr_left this, ← List.flatMap_def]
    exact List.flatMap_singleton' after
  rw [← getValue_some] at hv ⊢
  rw [show s' = ⟨b' ++ after, s'.isolated, s'.hooks⟩ from by rw [← hb']]
  unfold readConfig
  rw [repoEntries_append, hexp, ← List.append_assoc, getValue_append, hv]
  rfl

/-! ### installing and uninstalling -/

theorem run_own (step : InitStep) (s : InitFiles) : ownEntries (step.run s).repo = ownEntries s.repo := by
  cases step with
  | init env given =>
    simp only [InitStep.run]
    rw [commandInit_repo, own_setInclude]
  | uninstall env =>
    simp only [InitStep.run, commandUninstall]
    rw [removeInclude_eq, own_own]

/-- C92: however often the program is installed and uninstalled, and however the commands end, the user's own
entries of the configuration file of the repository stay as they are. -/
theorem own_entries_kept (steps : List InitStep) (s : InitFiles) :
    ownEntries (steps.foldl (fun s step => step.run s) s).repo = ownEntries s.repo := by
  induction steps generalizing s with
  | nil => rfl
  | cons x steps ih => rw [List.foldl_cons, ih, run_own]

/-- C92: after uninstalling, all keys have the same values as before installing, however often the program was
installed in between, and however the commands ended. -/
theorem uninstall_restores (env : InitCommandEnv) (steps : List InitStep) (s : InitFiles) (hf : NotInstalled s) :
    let s' := (steps ++ [InitStep.uninstall env]).foldl (fun s step => step.run s) s
    s'.repo = s.repo ∧ s'.isolated = none ∧ ∀ env', readConfig env' s' = readConfig env' s := by
  intro s'
  have h1 : s'.repo = s.repo := by
    show ((steps ++ [InitStep.uninstall env]).foldl (fun s step => step.run s) s).repo = s.repo
    rw [List.foldl_append]
    show removeInclude (steps.foldl (fun s step => step.run s) s).repo = s.repo
    rw [removeInclude_eq, own_entries_kept, own_of_none hf.1]
  have h2 : s'.isolated = none := by
    show ((steps ++ [InitStep.uninstall env]).foldl (fun s step => step.run s) s).isolated = none
    rw [List.foldl_append]
    rfl
  refine ⟨h1, h2, ?_⟩
  intro env'
  unfold readConfig
  congr 1
  rw [show s' = ⟨s.repo, s'.isolated, s'.hooks⟩ from by rw [← h1]]
  exact repoEntries_own env' hf.1 _ _ _ _

/-- C92: installing again changes no value. -/
theorem init_again (env : InitCommandEnv) (given : Option Text) (s s1 s2 : InitFiles) (w1 w2 : Bool)
    (hf : NotInstalled s) (h1 : commandInit env given s = (s1, .done w1))
    (h2 : commandInit env given s1 = (s2, .done w2)) :
    s2.repo = s1.repo ∧ w2 = w1 ∧ ∀ k v, ValueOf (readConfig env s2) k v ↔ ValueOf (readConfig env s1) k v := by
  have hr1 := commandInit_repo env given s
  have hr2 := commandInit_repo env given s1
  rw [h1] at hr1
  rw [h2] at hr2
  simp only at hr1 hr2
  have hr : s2.repo = s1.repo := by rw [hr2, hr1, setInclude_idem]
  refine ⟨hr, ?_, ?_⟩
  · obtain ⟨_, _, _, v, _, _, _, _, _, _, hv, _, hw⟩ := commandInit_done h1
    obtain ⟨_, _, _, v', _, _, _, _, _, _, hv', _, hw'⟩ := commandInit_done h2
    rw [hv] at hv'
    cases hv'
    rw [hw, hw']
  · obtain ⟨_, main, m1, _, _, _⟩ := init_fresh env given s s1 w1 hf h1
    obtain ⟨main1, iso1, a1, a2, a3, a4, _, _⟩ := init_isolated env given s s1 w1 h1
    obtain ⟨main2, iso2, b1, b2, b3, b4, _, _⟩ := init_isolated env given s1 s2 w2 h2
    have hread : ∀ (t : InitFiles) (iso : ConfigFile), t.repo = s1.repo → t.isolated = some iso →
        readConfig env t = readConfig env s ++ (includeKey, isolatedPath) :: iso := by
      intro t iso ht hi
      have := readConfig_fresh env hf.1 t.isolated t.hooks
      rw [← hr1, hi, ← ht] at this
      rw [show t = ⟨t.repo, some iso, t.hooks⟩ from by rw [← hi]]
      exact this
    have hdb : ∀ n, ValueOf (readConfig env { s1 with repo := s2.repo }) t!"init.defaultBranch" n ↔
        ValueOf (readConfig env { s with repo := s1.repo }) t!"init.defaultBranch" n := by
      intro n
      apply valueOf_congr
      have e2 := readConfig_fresh env hf.1 s.isolated s.hooks
      rw [← hr1] at e2
      have e3 : readConfig env { s with repo := s1.repo } = readConfig env s ++ [(includeKey, isolatedPath)] := by
        rw [e2, hf.2]
        rfl
      rw [hread { s1 with repo := s2.repo } iso1 hr a2, e3, getValue_append, getValue_append, getValue_cons,
        getValue_one]
      have hiso : getValue iso1 t!"init.defaultBranch" = none := by
        cases hg : getValue iso1 t!"init.defaultBranch" with
        | none => rfl
        | some v =>
          have hnk : ¬OurKey t!"init.defaultBranch" := by
            unfold OurKey
            decide +kernel
          have := getValue_some.2 ((a4 _ v hnk).1 (getValue_some.1 hg))
          rw [hf.2] at this
          cases this
      rw [hiso]
      rfl
    have hmm : main1 = main2 := by
      have hb : MainIs env (readConfig env { s with repo := s1.repo }) given main2 := by
        rcases b1 with b1 | ⟨b1, hd⟩
        · exact .inl b1
        · refine .inr ⟨b1, ?_⟩
          cases hd with
          | default n a b => exact .default _ ((hdb _).1 a) b
          | usual a b n c d e f => exact .usual a b _ (fun n hn => c n ((hdb n).2 hn)) d e f
          | typed a b c => exact .typed (fun n hn => a n ((hdb n).2 hn)) b c
      rw [← main_branch_chosen] at a1 hb
      rw [a1] at hb
      exact Except.ok.inj hb
    intro k v
    apply valueOf_congr
    rw [hread s2 iso2 hr b2, hread s1 iso1 rfl a2, getValue_append, getValue_append, getValue_cons, getValue_cons]
    have hiso : getValue iso2 k = getValue iso1 k := by
      have key : ∀ v, ValueOf iso2 k v ↔ ValueOf iso1 k v := by
        intro v
        by_cases hk : OurKey k
        · rw [b3 k v hk, a3 k v hk, hmm]
        · rw [b4 k v hk, a2]
          rfl
      cases hg : getValue iso1 k with
      | some v => exact getValue_some.2 ((key v).2 (getValue_some.1 hg))
      | none =>
        cases hg2 : getValue iso2 k with
        | none => rfl
        | some v =>
          have := getValue_some.2 ((key v).1 (getValue_some.1 hg2))
          rw [hg] at this
          cases this
    rw [hiso]

/-! ### when it fails -/

theorem hooks_installed {env : InitEnv} {hooks : HookFiles} (h : HooksReadable env hooks) :
    (installHooks env hooks).2 = true := by
  unfold installHooks
  have hnd : (allHooks.map Prod.fst).Nodup := by decide +kernel
  cases hm : env.multiHooks with
  | some dir => exact (installAll_multi hm allHooks hnd hooks).1
  | none =>
    refine (installAll_ok hm allHooks hnd hooks ?_).1
    intro x hx
    unfold newContents hookPath
    cases hg : AMap.get? hooks (env.hooksDir ++ ['/'] ++ x.1) with
    | none => rfl
    | some f =>
      have := h x hx f hg
      cases hc : f.contents with
      | none => exact absurd hc this
      | some t =>
        simp only [hc]
        rfl

/-- C92: the command succeeds if there is a main branch, the isolated file has no key twice, no hook is in the
way, the version of Git is known, and the database can be opened. -/
theorem init_succeeds (env : InitCommandEnv) (given : Option Text) (s : InitFiles) (main : Text) (t : Text)
    (v : Int × Int × Int)
    (hm : MainIs env (readConfig env { s with repo := (commandInit env given s).1.repo }) given main)
    (hu : ∀ c, s.isolated = some c → UniqueKeys c) (hh : HooksReadable env.hooks s.hooks)
    (hv : env.gitVersion = some t) (hp : parseGitVersion (trim t) = some v) (ho : env.opens = true) :
    ∃ w, (commandInit env given s).2 = .done w := by
  rw [commandInit_repo, ← main_branch_chosen] at hm
  have hu' : UniqueKeys (s.isolated.getD []) := by
    cases hi : s.isolated with
    | none => exact List.nodup_nil
    | some c => exact hu c hi
  unfold commandInit
  simp only
  rw [hm]
  simp only
  have h1 := setValues_total (configValues main) hu'
  cases hc : setValues (s.isolated.getD []) (configValues main) with
  | mk c ok =>
    rw [hc] at h1
    cases h1
    simp only
    have h2 := hooks_installed hh
    cases hi : installHooks env.hooks s.hooks with
    | mk hooks ok =>
      rw [hi] at h2
      cases h2
      simp only
      have h3 := aliases_total env.defaults allAliases (setValues_unique hu' (by rw [hc]))
      cases ha : installAliasesLoop env.defaults c allAliases with
      | mk iso ok =>
        rw [ha] at h3
        cases h3
        simp only [hv, Option.bind_some, hp, ho, if_true]
        exact ⟨_, rfl⟩

/-- C92: why the command fails. Whatever the reason is, only the isolated file, the hooks and the entry which
includes the isolated file may have been changed. -/
theorem init_fails (env : InitCommandEnv) (given : Option Text) (s s' : InitFiles) (e : InitOutcome)
    (h : commandInit env given s = (s', e)) :
    ownEntries s'.repo = ownEntries s.repo ∧
    (e = .branchError → given = none ∧ s'.isolated = s.isolated ∧ s'.hooks = s.hooks ∧ ∃ n, env.findBranch n = none) ∧
    (e = .noMainBranch → given = none ∧ s'.isolated = s.isolated ∧ s'.hooks = s.hooks ∧
      (∀ n ∈ usualMainBranches, env.findBranch n = some false) ∧ ∀ c ∈ env.input, isSpace c = true) ∧
    (e = .configError → ∃ c, s.isolated = some c ∧ ¬UniqueKeys c) ∧
    (e = .hookError → ¬HooksReadable env.hooks s.hooks) ∧
    (e = .versionError → ∀ t, env.gitVersion = some t → parseGitVersion (trim t) = none) ∧
    (e = .databaseError → env.opens = false) := by
  have hr := commandInit_repo env given s
  rw [h] at hr
  simp only at hr
  refine ⟨by rw [hr, own_setInclude], ?_⟩
  have huniq : ¬UniqueKeys (s.isolated.getD []) → ∃ c, s.isolated = some c ∧ ¬UniqueKeys c := by
    intro hn
    cases hi : s.isolated with
    | none =>
      rw [hi] at hn
      exact absurd List.nodup_nil hn
    | some c =>
      rw [hi] at hn
      exact ⟨c, rfl, hn⟩
  unfold commandInit at h
  simp only at h
  cases hm : chooseMainBranch env { s with repo := setInclude s.repo } given with
  | error x =>
    have hx := main_branch_missing _ _ _ _ hm
    rw [hm] at h
    simp only [Prod.mk.injEq] at h
    obtain ⟨rfl, rfl⟩ := h
    obtain ⟨hg, ⟨rfl, n, hn, _⟩ | ⟨rfl, hi, hu, _⟩⟩ := hx
    · exact ⟨fun _ => ⟨hg, rfl, rfl, n, hn⟩, by simp, by simp, by simp, by simp, by simp⟩
    · exact ⟨by simp, fun _ => ⟨hg, rfl, rfl, hu, hi⟩, by simp, by simp, by simp, by simp⟩
  | ok main =>
    rw [hm] at h
    simp only at h
    cases hc : setValues (s.isolated.getD []) (configValues main) with
    | mk c ok =>
      rw [hc] at h
      cases ok with
      | false =>
        simp only [Prod.mk.injEq] at h
        obtain ⟨rfl, rfl⟩ := h
        refine ⟨by simp, by simp, fun _ => huniq ?_, by simp, by simp, by simp⟩
        intro hu
        have := setValues_total (configValues main) hu
        rw [hc] at this
        cases this
      | true =>
        simp only at h
        cases hh : installHooks env.hooks s.hooks with
        | mk hooks ok =>
          rw [hh] at h
          cases ok with
          | false =>
            simp only [Prod.mk.injEq] at h
            obtain ⟨rfl, rfl⟩ := h
            refine ⟨by simp, by simp, by simp, fun _ hx => ?_, by simp, by simp⟩
            have := hooks_installed hx
            rw [hh] at this
            cases this
          | true =>
            simp only at h
            cases ha : installAliasesLoop env.defaults c allAliases with
            | mk iso ok =>
              rw [ha] at h
              cases ok with
              | false =>
                simp only [Prod.mk.injEq] at h
                obtain ⟨rfl, rfl⟩ := h
                refine ⟨by simp, by simp, fun _ => huniq ?_, by simp, by simp, by simp⟩
                intro hu
                have := aliases_total env.defaults allAliases
                  (setValues_unique (kvs := configValues main) hu rfl)
                rw [hc] at this
                simp only at this
                rw [ha] at this
                cases this
              | true =>
                simp only at h
                cases hv : env.gitVersion.bind fun t => parseGitVersion (trim t) with
                | none =>
                  rw [hv] at h
                  simp only [Prod.mk.injEq] at h
                  obtain ⟨rfl, rfl⟩ := h
                  refine ⟨by simp, by simp, by simp, by simp, fun _ t ht => ?_, by simp⟩
                  rw [ht] at hv
                  exact hv
                | some v =>
                  rw [hv] at h
                  simp only at h
                  by_cases ho : env.opens = true
                  · rw [if_pos ho] at h
                    simp only [Prod.mk.injEq] at h
                    obtain ⟨rfl, rfl⟩ := h
                    exact ⟨by simp, by simp, by simp, by simp, by simp, by simp⟩
                  · rw [if_neg ho] at h
                    simp only [Prod.mk.injEq] at h
                    obtain ⟨rfl, rfl⟩ := h
                    exact ⟨by simp, by simp, by simp, by simp, by simp, fun _ => by simpa using ho⟩

end Verif.Props
