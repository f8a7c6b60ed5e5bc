import Verif.Lemmas.ExecuteFault

/-! Why a rebase in memory ends with an error, if commits are replaced. -/

namespace Verif.Spec

open Verif Verif.RebasePlanBuilder Verif.Constraints Verif.Props

/-- A replacement which cannot be put on its parents: its message cannot be read, or the new version cannot be
written. -/
def FaultyReplacement (ee : ExecEnv) (r : Oid) : Prop :=
  ∃ d, ee.commits r = some d ∧ (d.message = none ∨
    ∃ ps, ee.createCommit ⟨ps, d.tree, d.message, d.author, d.committer, ee.newTime d.time⟩ = none)

/-- The replaced commits are moved, and the parents are those in the graph or those of the replacement. -/
theorem replaces_moved {b : RebasePlanBuilder} {k : Constraints} (hk : b.constraintGraph = .ok k)
    (hf : k.fixups = []) {plan : RebasePlan} (h : b.build = .ok (.ok (some plan))) {c r : Oid}
    {ps : List OidOrLabel} (hc : .replace c r ps ∈ plan.commands) :
    (∃ p, Moves k p c) ∧ ∀ q, .oid q ∈ ps → q ∈ b.env.replacementParentOids r ∨ q ∈ b.env.parentOids c := by
  obtain ⟨k', st, h1, h2, h3, h4, h5, h6⟩ := build_ok h
  rw [hk] at h1
  cases h1
  have hw := kwf_constraintGraph hk
  have hmoved : ∀ c, Rewritten k c → ∃ p, Moves k p c := by
    rintro c (h | ⟨fs, h⟩)
    · exact h
    · rw [hf] at h; simp at h
  have hQ := plan_commands hw (Q := fun cmd => ∀ c r ps, cmd = .replace c r ps → (∃ p, Moves k p c) ∧
      ∀ q, .oid q ∈ ps → q ∈ b.env.replacementParentOids r ∨ q ∈ b.env.parentOids c)
      ?_ (by simp) (by simp) (by simp) h4
  · rw [h6] at hc
    rcases List.mem_append.1 hc with hc | hc
    · exact hQ _ hc _ _ _ rfl
    · simp at hc
  · intro up cur s cs _ hcur hcs cmd hcmd c r ps he
    subst he
    have := hmoved cur hcur
    rcases commandsFor_cases hcs with ⟨rfl, _⟩ | ⟨rfl, _⟩ | ⟨_, rfl⟩ | ⟨r, _, _, _, rfl⟩ |
      ⟨r, first, rest, _, _, hcm, rfl⟩ | ⟨first, rest, rfl⟩
    · simp at hcmd
    · simp at hcmd
    · simp at hcmd
    · simp only [List.mem_singleton, RebaseCommand.replace.injEq] at hcmd
      obtain ⟨rfl, rfl, rfl⟩ := hcmd
      refine ⟨this, fun q hq => .inl ?_⟩
      unfold replacementParents at hq
      obtain ⟨q', hq', he⟩ := List.mem_map.1 hq
      split at he
      · cases he; exact hq'
      · cases he
    · simp only [List.mem_cons, reduceCtorEq, RebaseCommand.replace.injEq, List.not_mem_nil, or_false,
        false_or] at hcmd
      obtain ⟨rfl, rfl, rfl⟩ := hcmd
      refine ⟨this, fun q hq => .inr ?_⟩
      have hsp := commitsToMerge_spec hcm
      generalize b.env.parentOids c = os at hsp
      generalize first :: rest = l at hsp hq
      clear hcm hcs
      induction hsp with
      | nil => simp at hq
      | cons h7 _ ih =>
        rcases List.mem_cons.1 hq with hq | hq
        · rcases h7 with ⟨_, l, _, h8⟩ | ⟨_, h8⟩
          · rw [h8] at hq; cases hq
          · rw [h8] at hq; cases hq; simp
        · exact List.mem_cons_of_mem _ (ih hq)
    · simp at hcmd

/-- If a rebase ends with an error, and nothing is squashed, the reason is the repository. -/
theorem error_reason_replaced {b : RebasePlanBuilder} (hsort : ∀ s x, x ∈ b.env.sortedCommitSet s ↔ x ∈ s)
    {k : Constraints} (hk : b.constraintGraph = .ok k)
    (hf : k.fixups = []) {plan : RebasePlan}
    (h : b.build = .ok (.ok (some plan))) {ee : ExecEnv} (hn : NoCollisions ee)
    (ha : ∀ p c, p ∈ b.env.parentOids c ∨ Moves k p c → ∃ d, ee.commits p = some d)
    (hb : ∀ p c, Moves k p c → ∃ d, ee.commits c = some d ∧ d.parents = b.env.dag.graph.parentsOf c)
    (hr : ∀ p c r, Moves k p c → AMap.get? b.replacementCommits c = some r →
      (∃ d, ee.commits r = some d) ∧ ∀ q ∈ b.env.replacementParentOids r, ∃ d, ee.commits q = some d)
    {head : Option Oid} {e : InMemoryStop} (he : ∀ info, e ≠ .mergeFailed info)
    (hx : ee.rebaseInMemory head plan = .error e) :
    ∃ p c, Moves k p c ∧ ((AMap.get? b.replacementCommits c = none ∧ Faulty ee c) ∨
      ∃ r, AMap.get? b.replacementCommits c = some r ∧ FaultyReplacement ee r) := by
  have hpk := (picks_apply b k hk plan h).1
  have hrp := (picks_apply b k hk plan h).2.1
  have hrw := commands_moved hk hf h
  have hkinds := (plan_kinds b k hk plan h).1
  by_cases hmsg : ∃ p c d, Moves k p c ∧ AMap.get? b.replacementCommits c = none ∧ ee.commits c = some d ∧
      d.message = none
  · obtain ⟨p, c, d, h1, h2, h3, h4⟩ := hmsg
    exact ⟨p, c, h1, .inl ⟨h2, .inl ⟨d, h3, h4⟩⟩⟩
  by_cases hmsg' : ∃ p c r d, Moves k p c ∧ AMap.get? b.replacementCommits c = some r ∧
      ee.commits r = some d ∧ d.message = none
  · obtain ⟨p, c, r, d, h1, h2, h3, h4⟩ := hmsg'
    exact ⟨p, c, h1, .inr ⟨r, h2, d, h3, .inl h4⟩⟩
  cases hm : ExecEnv.findMerge plan.commands with
  | some c =>
    unfold ExecEnv.rebaseInMemory at hx
    rw [hm] at hx
    cases hx
    exact absurd rfl (he _)
  | none =>
    have happ : ∀ c, commitsToApply b.env k c = [c] := by
      intro c; unfold commitsToApply; rw [hf]; rfl
    have W : Works (working ee) plan.commands := by
      apply working_works
      · intro cmd hcmd o ho
        cases cmd with
        | pick c l =>
          obtain ⟨p, hp⟩ := (hrw _ hcmd).1 c l rfl
          obtain ⟨rfl, _⟩ := hpk c l hcmd
          rw [happ] at ho
          simp only [mentions, List.mem_cons, List.not_mem_nil, or_false, or_self] at ho
          subst ho
          obtain ⟨d, hd, _⟩ := hb p o hp
          exact ⟨d, hd⟩
        | merge c ps =>
          unfold ExecEnv.findMerge at hm
          rw [List.findSome?_eq_none_iff] at hm
          have := hm _ hcmd
          simp at this
        | replace c r ps =>
          obtain ⟨⟨p, hp⟩, hq⟩ := replaces_moved hk hf h hcmd
          obtain ⟨h1, h2⟩ := hr p c r hp (hrp c r ps hcmd)
          simp only [mentions, List.mem_cons, List.mem_filterMap] at ho
          rcases ho with rfl | rfl | ⟨t, h3, h4⟩
          · obtain ⟨d, hd, _⟩ := hb p _ hp
            exact ⟨d, hd⟩
          · exact h1
          · split at h4
            · cases h4
              rcases hq _ h3 with h5 | h5
              · exact h2 _ h5
              · exact ha _ c (.inl h5)
            · cases h4
        | reset t =>
          cases t with
          | label l => simp [mentions] at ho
          | oid q =>
            simp only [mentions, List.mem_singleton] at ho
            subst ho
            obtain ⟨c, hc⟩ := plan_resets hk hf h hcmd
            exact ha _ _ hc
        | skipUpstreamAppliedCommit c =>
          obtain ⟨p, hp⟩ := (hrw _ hcmd).2.2 c rfl
          simp only [mentions, List.mem_singleton] at ho
          subst ho
          obtain ⟨d, hd, _⟩ := hb p o hp
          exact ⟨d, hd⟩
        | _ => simp [mentions] at ho
      · intro cmd hcmd o ho d hd
        cases cmd with
        | pick c l =>
          simp only [messageFrom, List.mem_singleton] at ho
          subst ho
          obtain ⟨p, hp⟩ := (hrw _ hcmd).1 o l rfl
          cases hmm : d.message with
          | none => exact absurd ⟨p, o, d, hp, hkinds _ _ hcmd, hd, hmm⟩ hmsg
          | some m => rfl
        | replace c r ps =>
          simp only [messageFrom, List.mem_singleton] at ho
          subst ho
          obtain ⟨⟨p, hp⟩, _⟩ := replaces_moved hk hf h hcmd
          cases hmm : d.message with
          | none => exact absurd ⟨p, c, o, d, hp, hrp _ _ _ hcmd, hd, hmm⟩ hmsg'
          | some m => rfl
        | _ => simp [messageFrom] at ho
    have hgood := in_memory_stops_only_for_merges b hsort plan h (working ee) W head
    unfold ExecEnv.rebaseInMemory at hx hgood
    rw [hm] at hx hgood
    simp only at hx hgood
    cases hfold : plan.commands.foldlM (ee.runCommand head) (ExecEnv.initialState plan) with
    | ok s => rw [hfold] at hx; simp at hx
    | error e' =>
      rw [hfold] at hx
      simp only [Except.error.injEq] at hx
      subst hx
      obtain ⟨pre, cmd, post, s, e1, e2, e3⟩ := foldlM_except_error hfold
      have hcmd : cmd ∈ plan.commands := by rw [e1]; simp
      obtain ⟨new, hnew, hcr⟩ := (runs_frame e2).2.2.1
      have hcr : ∀ x ∈ s.created, ee.createCommit x.2 = some x.1 := by
        rw [hnew]
        simpa [ExecEnv.initialState] using hcr
      have hwk : (working ee).runCommand head s cmd ≠ .error e' := by
        intro hw
        have hall : plan.commands.foldlM ((working ee).runCommand head) (ExecEnv.initialState plan) =
            .error e' := by
          rw [e1, List.foldlM_append, foldlM_ok_mono (fun s a s' => runCommand_working) e2]
          show ((cmd :: post).foldlM ((working ee).runCommand head) s) = _
          rw [List.foldlM_cons, hw]
          rfl
        rw [hall] at hgood
        rcases hgood with ⟨_, _, hg⟩ | ⟨info, hg, _⟩
        · simp at hg
        · simp only [Except.error.injEq] at hg
          exact he info hg
      cases cmd with
      | pick c l =>
        obtain ⟨p, hp⟩ := (hrw _ hcmd).1 c l rfl
        refine ⟨p, c, hp, .inl ⟨hkinds _ _ hcmd, .inr ⟨s.current, ?_⟩⟩⟩
        obtain ⟨rfl, hnm⟩ := hpk c l hcmd
        rw [happ] at e3 hwk
        obtain ⟨d, hd1, hd2⟩ := hb p c hp
        have hfind := find_original hn hcr hd1
        unfold ExecEnv.runCommand ExecEnv.runPick at e3 hwk
        simp only at e3 hwk
        have hfw : ∀ o, (working ee).find s.created o = ee.find s.created o := fun _ => rfl
        rw [hfw, hfw, hfind] at hwk
        rw [hfind] at e3
        cases hcur : ee.find s.created s.current with
        | none => rw [hcur] at e3 hwk; exact absurd e3 hwk
        | some cur =>
          rw [hcur] at e3 hwk
          simp only at e3 hwk
          cases hmm : d.message with
          | none => rw [hmm] at e3 hwk; exact absurd e3 hwk
          | some msg =>
            rw [hmm] at e3
            simp only at e3
            rw [List.foldlM_cons] at e3
            unfold ExecEnv.pickOne at e3
            simp only [hfind] at e3
            rw [if_neg (by rw [hd2]; exact hnm)] at e3
            cases hpick : ee.cherryPickFast c s.current with
            | error er =>
              cases er with
              | conflict paths =>
                exfalso
                rw [hpick] at e3
                cases e3
                exact he _ rfl
              | other => exact .inl rfl
            | ok tree =>
              refine .inr ⟨d, tree, hd1, rfl, ?_⟩
              rw [hpick] at e3
              simp only at e3
              have hnv : newVersion ee d s.current tree = ⟨[s.current], tree, some msg, d.author, d.committer,
                  ee.newTime d.time⟩ := by
                unfold newVersion
                rw [hmm]
              rw [hnv]
              cases hcc : ee.createCommit ⟨[s.current], tree, some msg, d.author, d.committer,
                  ee.newTime d.time⟩ with
              | none => rfl
              | some o =>
                exfalso
                rw [hcc] at e3
                simp only [List.foldlM_nil, bind, Except.bind, pure, Except.pure] at e3
                split at e3 <;> cases e3
      | merge c ps =>
        cases e3
        exact absurd rfl (he _)
      | replace c r ps =>
        obtain ⟨⟨p, hp⟩, _⟩ := replaces_moved hk hf h hcmd
        have hcr' := hrp c r ps hcmd
        obtain ⟨⟨rep, hrep⟩, _⟩ := hr p c r hp hcr'
        refine ⟨p, c, hp, .inr ⟨r, hcr', rep, hrep, .inr ?_⟩⟩
        have hfind := find_original hn hcr hrep
        obtain ⟨d, hd1, _⟩ := hb p c hp
        have hfc := find_original hn hcr hd1
        simp only [ExecEnv.runCommand, ExecEnv.runReplace] at e3 hwk
        have hfw : ∀ o, (working ee).find s.created o = ee.find s.created o := fun _ => rfl
        have hrw' : (working ee).replaceParent s = ee.replaceParent s := rfl
        have ht : ∀ t, (working ee).newTime t = ee.newTime t := fun _ => rfl
        rw [hfw, hfw, hrw', hfind, hfc] at hwk
        rw [hfind, hfc] at e3
        simp only [ht] at e3 hwk
        cases hmm : rep.message with
        | none => rw [hmm] at e3 hwk; exact absurd e3 hwk
        | some msg =>
          rw [hmm] at e3 hwk
          simp only at e3 hwk
          cases hps : ps.mapM (ee.replaceParent s) with
          | error e => rw [hps] at e3 hwk; exact absurd e3 hwk
          | ok os =>
            rw [hps] at e3
            simp only at e3
            refine ⟨os, ?_⟩
            cases hcc : ee.createCommit ⟨os, rep.tree, some msg, rep.author, rep.committer,
                ee.newTime rep.time⟩ with
            | none => rfl
            | some o => rw [hcc] at e3; cases e3
      | reset t => cases t <;> exact absurd e3 hwk
      | _ => exact absurd e3 hwk

end Verif.Spec
