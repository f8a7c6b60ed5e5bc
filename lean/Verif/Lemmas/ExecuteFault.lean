import Verif.Lemmas.Sync

/-! Why a rebase in memory ends with an error. -/

namespace Verif.Spec

open Verif Verif.RebasePlanBuilder Verif.Constraints Verif.Props

/-- The same repository, except that writing works and errors of cherry-picks are conflicts. -/
def working (ee : ExecEnv) : ExecEnv where
  commits := ee.commits
  createCommit d := some ((ee.createCommit d).getD ⟨1, by decide, by decide⟩)
  cherryPickFast a c := match ee.cherryPickFast a c with
    | .error .other => .error (.conflict [])
    | r => r
  amendFast a c := match ee.amendFast a c with
    | .error .other => .error (.conflict [])
    | r => r
  now := ee.now
  preserveTimestamps := ee.preserveTimestamps

theorem working_works {ee : ExecEnv} {cmds : List RebaseCommand}
    (h1 : ∀ cmd ∈ cmds, ∀ o ∈ mentions cmd, ∃ d, ee.commits o = some d)
    (h2 : ∀ cmd ∈ cmds, ∀ o ∈ messageFrom cmd, ∀ d, ee.commits o = some d → d.message.isSome) :
    Works (working ee) cmds where
  exist := h1
  message := h2
  write _ := rfl
  pick a c h := by
    simp only [working] at h
    split at h
    · simp at h
    · rename_i hne; exact hne h
  amend a c h := by
    simp only [working] at h
    split at h
    · simp at h
    · rename_i hne; exact hne h

theorem pickOne_working {ee : ExecEnv} {cur : Oid} {mk : Nat → CommitData} {s s' : ExecEnv.PickState} {c : Oid}
    (h : ee.pickOne cur mk s c = .ok s') : (working ee).pickOne cur mk s c = .ok s' := by
  unfold ExecEnv.pickOne at h ⊢
  have hf : (working ee).find s.created c = ee.find s.created c := rfl
  rw [hf]
  split at h
  · simp at h
  · split at h
    · simp at h
    · rename_i hp
      simp only [hp, if_false] at h ⊢
      cases hr : s.rebased with
      | none =>
        rw [hr] at h
        simp only [working] at h ⊢
        cases hpk : ee.cherryPickFast c cur with
        | error e => rw [hpk] at h; cases e <;> simp at h
        | ok t =>
          rw [hpk] at h
          simp only at h ⊢
          cases hc : ee.createCommit (mk t) with
          | none => rw [hc] at h; simp at h
          | some o => rw [hc] at h; simpa using h
      | some r =>
        rw [hr] at h
        simp only [working] at h ⊢
        cases hpk : ee.amendFast r.1 c with
        | error e => rw [hpk] at h; cases e <;> simp at h
        | ok t =>
          rw [hpk] at h
          simp only at h ⊢
          cases hc : ee.createCommit (mk t) with
          | none => rw [hc] at h; simp at h
          | some o => rw [hc] at h; simpa using h

theorem foldlM_ok_mono {σ α ε : Type} {f g : σ → α → Except ε σ} (hfg : ∀ s a s', f s a = .ok s' → g s a = .ok s')
    {l : List α} {s s' : σ} (h : l.foldlM f s = .ok s') : l.foldlM g s = .ok s' := by
  induction l generalizing s with
  | nil => exact h
  | cons a l ih =>
    rw [List.foldlM_cons] at h ⊢
    cases ha : f s a with
    | error e => rw [ha] at h; cases h
    | ok s1 =>
      rw [ha] at h
      rw [hfg _ _ _ ha]
      exact ih h

theorem runCommand_working {ee : ExecEnv} {head : Option Oid} {s s' : ExecState} {cmd : RebaseCommand}
    (h : ee.runCommand head s cmd = .ok s') : (working ee).runCommand head s cmd = .ok s' := by
  cases cmd with
  | pick c l =>
    simp only [ExecEnv.runCommand, ExecEnv.runPick] at h ⊢
    have hf : ∀ o, (working ee).find s.created o = ee.find s.created o := fun _ => rfl
    rw [hf, hf]
    split at h
    · split at h
      · simp at h
      · have ht : ∀ t, (working ee).newTime t = ee.newTime t := fun _ => rfl
        rw [ht]
        split at h
        · simp at h
        · simp at h
        · rename_i hfold
          rw [foldlM_ok_mono (fun s a s' => pickOne_working) hfold]
          exact h
    · simp at h
  | replace c r ps =>
    simp only [ExecEnv.runCommand, ExecEnv.runReplace] at h ⊢
    have hf : ∀ o, (working ee).find s.created o = ee.find s.created o := fun _ => rfl
    have hr : (working ee).replaceParent s = ee.replaceParent s := rfl
    rw [hf, hf, hr]
    split at h
    · split at h
      · simp at h
      · split at h
        · simp at h
        · rename_i os hos
          cases hcc : ee.createCommit _ with
          | none => rw [hcc] at h; simp at h
          | some o =>
            rw [hcc] at h
            have hw : ∀ d, ee.createCommit d = some o → (working ee).createCommit d = some o := by
              intro d hd
              simp [working, hd]
            have ht : ∀ t, (working ee).newTime t = ee.newTime t := fun _ => rfl
            rw [ht, hw _ hcc]
            exact h
    · simp at h
  | reset t => cases t <;> exact h
  | _ => exact h

/-- The commands are for commits which are moved. -/
theorem commands_moved {b : RebasePlanBuilder} {k : Constraints} (hk : b.constraintGraph = .ok k)
    (hf : k.fixups = []) {plan : RebasePlan} (h : b.build = .ok (.ok (some plan))) :
    ∀ cmd ∈ plan.commands, (∀ c l, cmd = .pick c l → ∃ p, Moves k p c) ∧
      (∀ c ps, cmd = .merge c ps → ∃ p, Moves k p c) ∧
      ∀ c, cmd = .skipUpstreamAppliedCommit c → ∃ p, Moves k p c := by
  obtain ⟨k', st, h1, h2, h3, h4, h5, h6⟩ := build_ok h
  rw [hk] at h1
  cases h1
  have hw := kwf_constraintGraph hk
  have hmoved : ∀ c, Rewritten k c → ∃ p, Moves k p c := by
    rintro c (h | ⟨fs, h⟩)
    · exact h
    · rw [hf] at h; simp at h
  have hQ := plan_commands hw (Q := fun cmd => (∀ c l, cmd = .pick c l → ∃ p, Moves k p c) ∧
      (∀ c ps, cmd = .merge c ps → ∃ p, Moves k p c) ∧
      ∀ c, cmd = .skipUpstreamAppliedCommit c → ∃ p, Moves k p c) ?_ (by simp) (by simp) (by simp) h4
  · intro cmd hc
    rw [h6] at hc
    rcases List.mem_append.1 hc with hc | hc
    · exact hQ _ hc
    · simp only [List.mem_singleton] at hc
      subst hc
      simp
  · intro up cur s cs _ hcur hcs cmd hcmd
    have := hmoved cur hcur
    rcases commandsFor_cases hcs with ⟨rfl, _⟩ | ⟨rfl, _⟩ | ⟨_, rfl⟩ | ⟨r, _, _, _, rfl⟩ |
      ⟨r, first, rest, _, _, _, rfl⟩ | ⟨first, rest, rfl⟩
    · simp only [List.mem_singleton] at hcmd
      subst hcmd
      exact ⟨by simp, by simp, by rintro c ⟨⟩; exact this⟩
    · simp at hcmd
    · simp only [List.mem_cons, List.not_mem_nil, or_false] at hcmd
      rcases hcmd with rfl | rfl
      · exact ⟨by rintro c l ⟨⟩; exact this, by simp, by simp⟩
      · simp
    · simp only [List.mem_singleton] at hcmd; subst hcmd; simp
    · simp only [List.mem_cons, List.not_mem_nil, or_false] at hcmd
      rcases hcmd with rfl | rfl <;> simp
    · simp only [List.mem_cons, List.not_mem_nil, or_false] at hcmd
      rcases hcmd with rfl | rfl
      · simp
      · exact ⟨by simp, by rintro c l ⟨⟩; exact this, by simp⟩

/-- If a rebase which only moves commits ends with an error, the reason is the repository. -/
theorem error_reason {b : RebasePlanBuilder} (hsort : ∀ s x, x ∈ b.env.sortedCommitSet s ↔ x ∈ s)
    {k : Constraints} (hk : b.constraintGraph = .ok k)
    (hf : k.fixups = []) (hrep : b.replacementCommits = []) {plan : RebasePlan}
    (h : b.build = .ok (.ok (some plan))) {ee : ExecEnv} (hn : NoCollisions ee)
    (ha : ∀ p c, p ∈ b.env.parentOids c ∨ Moves k p c → ∃ d, ee.commits p = some d)
    (hb : ∀ p c, Moves k p c → ∃ d, ee.commits c = some d ∧ d.parents = b.env.dag.graph.parentsOf c)
    {head : Option Oid} {e : InMemoryStop} (he : ∀ info, e ≠ .mergeFailed info)
    (hx : ee.rebaseInMemory head plan = .error e) : ∃ p c, Moves k p c ∧ Faulty ee c := by
  have hpk := (picks_apply b k hk plan h).1
  have hrp := (picks_apply b k hk plan h).2.1
  have hrw := commands_moved hk hf h
  by_cases hmsg : ∃ p c d, Moves k p c ∧ ee.commits c = some d ∧ d.message = none
  · obtain ⟨p, c, d, h1, h2, h3⟩ := hmsg
    exact ⟨p, c, h1, .inl ⟨d, h2, h3⟩⟩
  cases hm : ExecEnv.findMerge plan.commands with
  | some c =>
    unfold ExecEnv.rebaseInMemory at hx
    rw [hm] at hx
    cases hx
    exact absurd rfl (he _)
  | none =>
    have happ : ∀ c, commitsToApply b.env k c = [c] := by
      intro c; unfold commitsToApply; rw [hf]; rfl
    have W : Works (working ee) plan.commands := by
      apply working_works
      · intro cmd hcmd o ho
        cases cmd with
        | pick c l =>
          obtain ⟨p, hp⟩ := (hrw _ hcmd).1 c l rfl
          obtain ⟨rfl, _⟩ := hpk c l hcmd
          rw [happ] at ho
          simp only [mentions, List.mem_cons, List.not_mem_nil, or_false, or_self] at ho
          subst ho
          obtain ⟨d, hd, _⟩ := hb p o hp
          exact ⟨d, hd⟩
        | merge c ps =>
          unfold ExecEnv.findMerge at hm
          rw [List.findSome?_eq_none_iff] at hm
          have := hm _ hcmd
          simp at this
        | replace c r ps =>
          have := hrp c r ps hcmd
          rw [hrep] at this
          simp at this
        | reset t =>
          cases t with
          | label l => simp [mentions] at ho
          | oid q =>
            simp only [mentions, List.mem_singleton] at ho
            subst ho
            obtain ⟨c, hc⟩ := plan_resets hk hf h hcmd
            exact ha _ _ hc
        | skipUpstreamAppliedCommit c =>
          obtain ⟨p, hp⟩ := (hrw _ hcmd).2.2 c rfl
          simp only [mentions, List.mem_singleton] at ho
          subst ho
          obtain ⟨d, hd, _⟩ := hb p o hp
          exact ⟨d, hd⟩
        | _ => simp [mentions] at ho
      · intro cmd hcmd o ho d hd
        cases cmd with
        | pick c l =>
          simp only [messageFrom, List.mem_singleton] at ho
          subst ho
          obtain ⟨p, hp⟩ := (hrw _ hcmd).1 o l rfl
          cases hmm : d.message with
          | none => exact absurd ⟨p, o, d, hp, hd, hmm⟩ hmsg
          | some m => rfl
        | replace c r ps =>
          have := hrp c r ps hcmd
          rw [hrep] at this
          simp at this
        | _ => simp [messageFrom] at ho
    have hgood := in_memory_stops_only_for_merges b hsort plan h (working ee) W head
    unfold ExecEnv.rebaseInMemory at hx hgood
    rw [hm] at hx hgood
    simp only at hx hgood
    cases hfold : plan.commands.foldlM (ee.runCommand head) (ExecEnv.initialState plan) with
    | ok s => rw [hfold] at hx; simp at hx
    | error e' =>
      rw [hfold] at hx
      simp only [Except.error.injEq] at hx
      subst hx
      obtain ⟨pre, cmd, post, s, e1, e2, e3⟩ := foldlM_except_error hfold
      have hcmd : cmd ∈ plan.commands := by rw [e1]; simp
      obtain ⟨new, hnew, hcr⟩ := (runs_frame e2).2.2.1
      have hcr : ∀ x ∈ s.created, ee.createCommit x.2 = some x.1 := by
        rw [hnew]
        simpa [ExecEnv.initialState] using hcr
      have hwk : (working ee).runCommand head s cmd ≠ .error e' := by
        intro hw
        have hall : plan.commands.foldlM ((working ee).runCommand head) (ExecEnv.initialState plan) =
            .error e' := by
          rw [e1, List.foldlM_append, foldlM_ok_mono (fun s a s' => runCommand_working) e2]
          show ((cmd :: post).foldlM ((working ee).runCommand head) s) = _
          rw [List.foldlM_cons, hw]
          rfl
        rw [hall] at hgood
        rcases hgood with ⟨_, _, hg⟩ | ⟨info, hg, _⟩
        · simp at hg
        · simp only [Except.error.injEq] at hg
          exact he info hg
      cases cmd with
      | pick c l =>
        obtain ⟨p, hp⟩ := (hrw _ hcmd).1 c l rfl
        refine ⟨p, c, hp, .inr ⟨s.current, ?_⟩⟩
        obtain ⟨rfl, hnm⟩ := hpk c l hcmd
        rw [happ] at e3 hwk
        obtain ⟨d, hd1, hd2⟩ := hb p c hp
        have hfind := find_original hn hcr hd1
        unfold ExecEnv.runCommand ExecEnv.runPick at e3 hwk
        simp only at e3 hwk
        have hfw : ∀ o, (working ee).find s.created o = ee.find s.created o := fun _ => rfl
        rw [hfw, hfw, hfind] at hwk
        rw [hfind] at e3
        cases hcur : ee.find s.created s.current with
        | none => rw [hcur] at e3 hwk; exact absurd e3 hwk
        | some cur =>
          rw [hcur] at e3 hwk
          simp only at e3 hwk
          cases hmm : d.message with
          | none => rw [hmm] at e3 hwk; exact absurd e3 hwk
          | some msg =>
            rw [hmm] at e3
            simp only at e3
            rw [List.foldlM_cons] at e3
            unfold ExecEnv.pickOne at e3
            simp only [hfind] at e3
            rw [if_neg (by rw [hd2]; exact hnm)] at e3
            cases hpick : ee.cherryPickFast c s.current with
            | error er =>
              cases er with
              | conflict paths =>
                exfalso
                rw [hpick] at e3
                cases e3
                exact he _ rfl
              | other => exact .inl rfl
            | ok tree =>
              refine .inr ⟨d, tree, hd1, rfl, ?_⟩
              rw [hpick] at e3
              simp only at e3
              have hnv : newVersion ee d s.current tree = ⟨[s.current], tree, some msg, d.author, d.committer,
                  ee.newTime d.time⟩ := by
                unfold newVersion
                rw [hmm]
              rw [hnv]
              cases hcc : ee.createCommit ⟨[s.current], tree, some msg, d.author, d.committer,
                  ee.newTime d.time⟩ with
              | none => rfl
              | some o =>
                exfalso
                rw [hcc] at e3
                simp only [List.foldlM_nil, bind, Except.bind, pure, Except.pure] at e3
                split at e3 <;> cases e3
      | merge c ps =>
        cases e3
        exact absurd rfl (he _)
      | replace c r ps =>
        have := hrp c r ps hcmd
        rw [hrep] at this
        simp at this
      | reset t => cases t <;> exact absurd e3 hwk
      | _ => exact absurd e3 hwk

end Verif.Spec
