import Verif.Lemmas.ExecutePlan
import Verif.Lemmas.ExecuteTotal
import Verif.Props.Plan

/-! Theorems about `Verif.Model.Execute` (C20). -/

namespace Verif.Props

open Verif Verif.Spec Verif.Constraints Verif.RebasePlanBuilder

/-- What is to be true after the execution of a plan. -/
structure PlanExecuted (env : PlanEnv) (k : Constraints) (ee : ExecEnv) (plan : RebasePlan)
    (head : Option Oid) (s : ExecState) (newHead : Option Oid) : Prop where
  /-- Every command has its effect. -/
  done : ∀ cmd ∈ plan.commands, CommandDone env k ee s cmd
  /-- All commits to be rewritten are recorded. -/
  recorded : ∀ c, Rewritten k c → ¬ Squashed k c → (AMap.get? s.rewritten c).isSome
  /-- No other commit is recorded. -/
  others : ∀ c, ¬ Rewritten k c → ¬ Squashed k c → AMap.get? s.rewritten c = none
  /-- The recorded new commits are among the created objects. -/
  created : ∀ x ∈ s.created, ee.createCommit x.2 = some x.1
  /-- The commit which is checked out is followed. -/
  head : ∀ h, head = some h → ¬ Squashed k h → ∃ q, newHead = some q ∧ EndsAt env k s.rewritten h q

theorem picksShape_plan {b : RebasePlanBuilder} {plan : RebasePlan} {k : Constraints}
    (hk : b.constraintGraph = .ok k) (hs : ∀ s x, x ∈ b.env.sortedCommitSet s ↔ x ∈ s)
    (h : b.build = .ok (.ok (some plan))) : PicksShape k plan.commands := by
  intro t l hl x hx
  rcases (pick_applies_squashed b plan hs h t l hl x).1 hx with h | h
  · exact .inl h
  · exact .inr ⟨t, (inMap_fixups hk).2 h⟩

theorem rebaseInMemory_ok {ee : ExecEnv} {head : Option Oid} {plan : RebasePlan} {s : ExecState}
    {newHead : Option Oid} (h : ee.rebaseInMemory head plan = .ok (s, newHead)) :
    Runs ee head plan.commands (ExecEnv.initialState plan) s ∧ newHead = ExecEnv.newHeadOid head s := by
  unfold ExecEnv.rebaseInMemory at h
  split at h
  · simp at h
  split at h
  · simp at h
  · rename_i s' hs
    simp only [Except.ok.injEq, Prod.mk.injEq] at h
    obtain ⟨rfl, rfl⟩ := h
    exact ⟨hs, rfl⟩

theorem _root_.Verif.Spec.Sim.executed {b : RebasePlanBuilder} {k : Constraints} {ee : ExecEnv} {head : Option Oid}
    {plan : RebasePlan} {s : ExecState}
    (S : Sim b k ee head plan.commands (ExecEnv.initialState plan) s)
    (hk : b.constraintGraph = .ok k) (h : b.build = .ok (.ok (some plan))) :
    PlanExecuted b.env k ee plan head s (ExecEnv.newHeadOid head s) := by
  have hone := plan_each_once_partial b k hk S.hr plan h
  obtain ⟨k', st, h1, h2, h3, h4, h5, h6⟩ := build_ok h
  rw [hk] at h1
  cases h1
  have hpre : st.2.acc <+: plan.commands := by rw [h6]; exact List.prefix_append _ _
  obtain ⟨e, hg⟩ := S.roots hone.only h4 hpre
  have hlast : Runs ee head [.registerExtraPostRewriteHook] e s := by
    have hrun := S.run
    rw [h6] at hrun
    obtain ⟨e', ha, hb⟩ := runs_append.1 hrun
    have := ha.unique hg.runs
    exact this ▸ hb
  have hes : s = e := by
    have := runs_one.1 hlast
    simp only [ExecEnv.runCommand, Except.ok.injEq] at this
    exact this.symm
  subst hes
  have hcmds : handledCommits plan.commands = handledCommits st.2.acc := by
    rw [h6, handledCommits_append]
    simp [handledCommits, handled]
  have hrec : ∀ c, Rewritten k c → ¬ Squashed k c → (AMap.get? s.rewritten c).isSome := fun c hc hs =>
    (runs_frame S.run).2.2.2.2 c (.inl (hone.complete c hc hs))
  have hoth : ∀ c, ¬ Rewritten k c → ¬ Squashed k c → AMap.get? s.rewritten c = none := fun c hc hs =>
    S.unwritten List.prefix_rfl S.run (fun hm => hc (hone.only c hm)) hs
  refine ⟨?_, hrec, hoth, S.created_ok S.run, ?_⟩
  · intro cmd hcmd
    rw [h6] at hcmd
    rcases List.mem_append.1 hcmd with hcmd | hcmd
    · exact hg.done cmd hcmd
    · simp only [List.mem_singleton] at hcmd
      subst hcmd
      trivial
  · intro x hx hs
    unfold ExecEnv.newHeadOid
    rw [hx]
    simp only
    rcases Classical.em (Rewritten k x) with hrw | hrw
    · obtain ⟨v, hv⟩ := Option.isSome_iff_exists.1 (hrec x hrw hs)
      rw [hv]
      cases v with
      | nonZero n => exact ⟨n, rfl, .new _ _ hrw hs hv⟩
      | zero =>
        obtain ⟨q, hq, hq'⟩ := hg.head2 x hx (hcmds ▸ hone.complete x hrw hs) hs hv
        exact ⟨q, by rw [hq]; rfl, hq'⟩
    · rw [hoth x hrw hs]
      exact ⟨x, rfl, .stays _ hrw⟩

/-- C20: for a regular request, a successful in-memory rebase puts every commit on the new version of
the commit on top of which it was requested, records it, and follows `HEAD`. Missing: requests which
are not regular (C18); plans which go back, by its original id, to a commit which is dropped or is
rewritten only later (`fixup_target_on_dropped`, `fixup_target_on_old_base`); replacement commits which
are to be put elsewhere than on their parents (`replaced_on_old_parent`). -/
theorem in_memory_rebase_partial (b : RebasePlanBuilder) (k : Constraints)
    (hk : b.constraintGraph = .ok k) (hr : Regular b.env k)
    (hsort : ∀ s x, x ∈ b.env.sortedCommitSet s ↔ x ∈ s)
    (hsq : ∀ c, Squashed k c → ¬ IsMerge b.env c) (hrepl : ReplacedOnParents b k) (plan : RebasePlan)
    (h : b.build = .ok (.ok (some plan))) (ee : ExecEnv) (hn : NoCollisions ee) (head : Option Oid)
    (s : ExecState) (newHead : Option Oid) (hx : ee.rebaseInMemory head plan = .ok (s, newHead))
    (hready : ResetsReady k plan.commands s.rewritten) :
    PlanExecuted b.env k ee plan head s newHead := by
  obtain ⟨hrun, rfl⟩ := rebaseInMemory_ok hx
  have S : Sim b k ee head plan.commands (ExecEnv.initialState plan) s :=
    ⟨kwf_constraintGraph hk, hr, (plan_each_once_partial b k hk hr plan h).once,
      labels_distinct b plan h, picksShape_plan hk hsort h, hrun, hn, hready, hrepl, hsq, rfl, rfl, rfl⟩
  exact S.executed hk h

theorem find_created {ee : ExecEnv} (hn : NoCollisions ee) {cr : List (Oid × CommitData)}
    (hcr : ∀ x ∈ cr, ee.createCommit x.2 = some x.1) {o : Oid} {d : CommitData} (h : (o, d) ∈ cr) :
    ee.find cr o = some d := by
  unfold ExecEnv.find
  cases hg : AMap.get? cr o with
  | none =>
    have : o ∈ AMap.keys cr := List.mem_map.2 ⟨_, h, rfl⟩
    rw [AMap.mem_keys_iff, hg] at this
    simp at this
  | some d' =>
    simp only [Option.some.injEq]
    exact hn.new _ _ _ (hcr _ h) (hcr _ (AMap.mem_of_get? hg))

theorem runs_no_merge {ee : ExecEnv} {head : Option Oid} {cs : List RebaseCommand} {e e' : ExecState}
    (h : Runs ee head cs e e') (c : Oid) (ps : List OidOrLabel) : .merge c ps ∉ cs := by
  intro hm
  obtain ⟨pre, post, rfl⟩ := List.append_of_mem hm
  obtain ⟨e1, _, h2⟩ := runs_append.1 h
  obtain ⟨e2, h3, _⟩ := runs_cons.1 h2
  simp [ExecEnv.runCommand] at h3

/-- Without squashed commits, a plan goes back by their ids only to commits which stay. -/
theorem resets_ready {b : RebasePlanBuilder} {k : Constraints} (hk : b.constraintGraph = .ok k)
    (hf : k.fixups = []) {plan : RebasePlan} (h : b.build = .ok (.ok (some plan)))
    (rewritten : AMap Oid MaybeZero) : ResetsReady k plan.commands rewritten := by
  have hw := kwf_constraintGraph hk
  have hns : ∀ c, ¬ Squashed k c := by intro c; unfold Squashed; rw [hf]; simp
  have hrw : ∀ c, Rewritten k c → ∃ p, Moves k p c := by
    intro c; unfold Rewritten; rw [hf]; simp
  obtain ⟨k', st, h1, h2, h3, h4, h5, h6⟩ := build_ok h
  rw [hk] at h1
  cases h1
  have hQ := plan_commands hw (Q := fun cmd => ∀ p, cmd = .reset (.oid p) → ¬ Rewritten k p)
    ?_ (by simp) (by simp) ?_ h4
  · intro pre p post hs
    refine ⟨hns p, fun hr => absurd hr ?_⟩
    have hmem : .reset (.oid p) ∈ plan.commands := by rw [hs]; simp
    rw [h6] at hmem
    rcases List.mem_append.1 hmem with hmem | hmem
    · exact hQ _ hmem p rfl
    · simp at hmem
  · intro up cur st cs _ hcur hcs cmd hcmd p hp
    subst hp
    have hfirst : ∀ first rest, commitsToMerge b.env k st.parentLabels cur = some (first :: rest) →
        first = .oid p → ¬ Rewritten k p := by
      intro first rest hcm hfp hr
      subst hfp
      have := commitsToMerge_spec hcm
      cases hpo : b.env.parentOids cur with
      | nil => rw [hpo] at this; cases this
      | cons q qs =>
        rw [hpo] at this
        cases this with
        | cons h7 _ =>
          rcases h7 with ⟨_, l, _, h8⟩ | ⟨h7, h8⟩
          · cases h8
          · cases h8
            rw [mem_commitsToMove hw.1.1] at h7
            exact h7 (hrw p hr)
    unfold commandsFor at hcs
    split at hcs
    · cases hcs; simp at hcmd
    split at hcs
    · cases hcm : commitsToMerge b.env k st.parentLabels cur with
      | none => rw [hcm] at hcs; simp at hcs
      | some ps =>
        rw [hcm] at hcs
        simp only at hcs
        split at hcs
        · simp at hcs
        cases ps with
        | nil => simp at hcs
        | cons first rest =>
          simp only at hcs
          split at hcs
          all_goals
            cases hcs
            simp only [List.mem_cons, RebaseCommand.reset.injEq, reduceCtorEq, List.not_mem_nil,
              or_false] at hcmd
            exact hfirst first rest hcm hcmd.symm
    split at hcs
    · cases hcs; simp at hcmd
    split at hcs <;> (cases hcs; simp at hcmd)
  · intro r hr p ps c h7 p' hp'
    cases hp'
    rcases mem_findRoots hr with ⟨q, d, rfl, hq, hmq⟩ | ⟨t, rfl, ht⟩
    · simp only [rootEdge, Except.ok.injEq, Prod.mk.injEq, List.cons.injEq] at h7
      obtain ⟨⟨rfl, _⟩, rfl⟩ := h7
      exact ((mem_unconstrainedNodes hw).1 hq).2
    · have := ((mem_unconstrainedFixup hw).1 ht).1
      rw [hf] at this
      simp at this

/-- Commits which are to be replaced are not picked or merged; only merge commits are merged; nothing is
skipped if duplicates are not looked for. -/
theorem plan_kinds (b : RebasePlanBuilder) (k : Constraints) (hk : b.constraintGraph = .ok k)
    (plan : RebasePlan) (h : b.build = .ok (.ok (some plan))) :
    (∀ c l, .pick c l ∈ plan.commands → AMap.get? b.replacementCommits c = none) ∧
    (∀ c ps, .merge c ps ∈ plan.commands → AMap.get? b.replacementCommits c = none ∧ IsMerge b.env c) ∧
    (∀ c, .skipUpstreamAppliedCommit c ∈ plan.commands →
      b.permissions.detectDuplicateCommitsViaPatchId = true) := by
  obtain ⟨k', st, h1, h2, h3, h4, h5, h6⟩ := build_ok h
  rw [hk] at h1
  cases h1
  have hw := kwf_constraintGraph hk
  have hQ := plan_commands hw
    (Q := fun cmd => (∀ c l, cmd = .pick c l → AMap.get? b.replacementCommits c = none) ∧
      (∀ c ps, cmd = .merge c ps → AMap.get? b.replacementCommits c = none ∧ IsMerge b.env c) ∧
      ∀ c, cmd = .skipUpstreamAppliedCommit c → b.permissions.detectDuplicateCommitsViaPatchId = true)
    ?_ (by simp) (by simp) (by simp) h4
  · refine ⟨fun c l hc => ?_, fun c ps hc => ?_, fun c hc => ?_⟩
    all_goals
      rw [h6] at hc
      rcases List.mem_append.1 hc with hc | hc
    · exact (hQ _ hc).1 c l rfl
    · simp at hc
    · exact (hQ _ hc).2.1 c ps rfl
    · simp at hc
    · exact (hQ _ hc).2.2 c rfl
    · simp at hc
  · intro up cur st cs hup hcur hcs cmd hcmd
    unfold commandsFor at hcs
    split at hcs
    · rename_i hpa
      cases hcs
      simp only [List.mem_singleton] at hcmd
      subst hcmd
      refine ⟨by simp, by simp, fun c _ => ?_⟩
      obtain ⟨root, ps, _, hup⟩ := upstreamOf_cases hw hup
      by_contra hd
      rw [if_neg hd] at hup
      subst hup
      unfold patchAlreadyAppliedUpstream at hpa
      split at hpa <;> simp at hpa
    split at hcs
    · rename_i hm
      split at hcs
      · simp at hcs
      split at hcs
      · simp at hcs
      split at hcs
      · simp at hcs
      split at hcs
      · rename_i hrep
        cases hcs
        simp only [List.mem_cons, List.not_mem_nil, or_false] at hcmd
        rcases hcmd with rfl | rfl
        · simp
        · refine ⟨by simp, ?_, by simp⟩
          intro c ps hc
          cases hc
          exact ⟨hrep, hm⟩
      · cases hcs
        simp only [List.mem_cons, List.not_mem_nil, or_false] at hcmd
        rcases hcmd with rfl | rfl <;> simp
    split at hcs
    · cases hcs; simp at hcmd
    split at hcs
    · cases hcs
      simp only [List.mem_singleton] at hcmd
      subst hcmd
      simp
    · rename_i hrep
      cases hcs
      simp only [List.mem_cons, List.not_mem_nil, or_false] at hcmd
      rcases hcmd with rfl | rfl
      · refine ⟨?_, by simp, by simp⟩
        intro c l hc
        cases hc
        exact hrep
      · simp

/-- C20: what an in-memory rebase does for a request without squashed commits, when `M` says which commit is
put on top of which, and some commits are replaced. -/
theorem replaced_rebase_in_memory (b : RebasePlanBuilder) (M : Oid → Oid → Prop) (k : Constraints)
    (hk : b.constraintGraph = .ok k) (hf : k.fixups = []) (hmv : ∀ p c, Moves k p c ↔ M p c)
    (hreg : Regular b.env k) (hrepl : ReplacedOnParents b k) (plan : RebasePlan)
    (h : b.build = .ok (.ok (some plan))) (ee : ExecEnv) (hn : NoCollisions ee) (head : Option Oid)
    (s : ExecState) (newHead : Option Oid) (hx : ee.rebaseInMemory head plan = .ok (s, newHead)) :
    (∀ p c, M p c → AMap.get? b.replacementCommits c = none →
      ∃ q, Lands M s.rewritten p q ∧ ¬ IsMerge b.env c ∧
        ((.skipUpstreamAppliedCommit c ∈ plan.commands ∧ AMap.get? s.rewritten c = some .zero) ∨
          ∃ tree base orig, ee.cherryPickFast c q = .ok tree ∧ ee.find s.created q = some base ∧
            ee.find s.created c = some orig ∧
            if tree = base.tree then AMap.get? s.rewritten c = some .zero
            else ∃ n, AMap.get? s.rewritten c = some (.nonZero n) ∧
              ee.find s.created n = some ⟨[q], tree, orig.message, orig.author, orig.committer,
                ee.newTime orig.time⟩)) ∧
    (∀ p c r, M p c → AMap.get? b.replacementCommits c = some r →
      (.skipUpstreamAppliedCommit c ∈ plan.commands ∧ AMap.get? s.rewritten c = some .zero) ∨
        ∃ n ps rep, List.Forall₂ (Lands M s.rewritten) (newParents b.env c r) ps ∧
          ee.find s.created r = some rep ∧ AMap.get? s.rewritten c = some (.nonZero n) ∧
          ee.find s.created n = some ⟨ps, rep.tree, rep.message, rep.author, rep.committer,
            ee.newTime rep.time⟩) ∧
    (∀ c, (¬ ∃ p, M p c) → AMap.get? s.rewritten c = none) ∧
    (∀ x, head = some x → ∃ q, newHead = some q ∧ Lands M s.rewritten x q) := by
  have hw := kwf_constraintGraph hk
  have hns : ∀ c, ¬ Squashed k c := by intro c; unfold Squashed; rw [hf]; simp
  have hrw : ∀ c, Rewritten k c ↔ ∃ p, M p c := by
    intro c; unfold Rewritten; rw [hf]; simp [hmv]
  have hbase : ∀ c p, Base b.env k c p ↔ M p c := by
    intro c p; unfold Base; rw [hf]; simp [hmv]
  obtain ⟨hrun, rfl⟩ := rebaseInMemory_ok hx
  have hone := plan_each_once_partial b k hk hreg plan h
  obtain ⟨hpk, hpr, hps⟩ := picks_apply b k hk plan h
  obtain ⟨hpk', _, _⟩ := plan_kinds b k hk plan h
  have hpick : ∀ c l, .pick c l ∈ plan.commands → l = [c] := by
    intro c l hc
    rw [(hpk c l hc).1]
    unfold commitsToApply
    rw [hf]; rfl
  have hready := resets_ready hk hf h s.rewritten
  have S : Sim b k ee head plan.commands (ExecEnv.initialState plan) s :=
    ⟨hw, hreg, hone.once, labels_distinct b plan h,
      fun t l hl x hx' => by rw [hpick t l hl] at hx'; exact .inl (by simpa using hx'), hrun,
      hn, hready, hrepl, fun c hc => absurd hc (hns c), rfl, rfl, rfl⟩
  have hex := S.executed hk h
  have hlands : ∀ c q, EndsAt b.env k s.rewritten c q → Lands M s.rewritten c q := by
    intro c q he
    induction he with
    | stays c hc => exact .stays _ fun hp => hc ((hrw c).2 hp)
    | new c n hc _ hz =>
      obtain ⟨p, hp⟩ := (hrw c).1 hc
      exact .new p _ _ hp hz
    | dropped c p q _ hz hb _ ih => exact .dropped p _ _ ((hbase c p).1 hb) hz ih
    | squashed c p q hs => exact absurd hs (hns c)
  refine ⟨?_, ?_, fun c hc => hex.others c (fun hr => hc ((hrw c).1 hr)) (hns c), fun x hx => ?_⟩
  · intro p c hpc hnr
    obtain ⟨cmd, hcmd, hh⟩ := List.mem_filterMap.1 (hone.complete c ((hrw c).2 ⟨p, hpc⟩) (hns c))
    have hd := hex.done cmd hcmd
    have hsame : ¬ IsMerge b.env c → ∀ q, Base b.env k c q → q = p := fun hmg q hq =>
      hreg.one_parent c q p hmg ((hmv q c).2 ((hbase c q).1 hq)) ((hmv p c).2 hpc)
    cases cmd with
    | pick x l =>
      simp only [handled, Option.some.injEq] at hh
      subst hh
      obtain ⟨p', q, h1, h2, tree, base, orig, h4, h5, h3, h6⟩ := hd
      have hnm := (hpk x l hcmd).2
      have := hsame hnm p' h1
      subst this
      have h3' : ee.cherryPickFast x q = .ok tree := by
        rw [hpick x l hcmd] at h3
        exact h3.one
      refine ⟨q, hlands _ _ h2, hnm, .inr ⟨tree, base, orig, h3', h4, h5, ?_⟩⟩
      split at h6
      · rename_i ht; rw [if_pos ht]; exact h6
      · rename_i ht
        rw [if_neg ht]
        obtain ⟨n, h7, h8⟩ := h6
        refine ⟨n, h7, find_created hn hex.created h8⟩
    | merge x ps => exact absurd hcmd (runs_no_merge hrun x ps)
    | replace x r ps =>
      simp only [handled, Option.some.injEq] at hh
      subst hh
      have := hpr x r ps hcmd
      rw [hnr] at this
      simp at this
    | skipUpstreamAppliedCommit x =>
      simp only [handled, Option.some.injEq] at hh
      subst hh
      obtain ⟨⟨p', q, hp', hq'⟩, hz⟩ := hd
      have := hsame (hps x hcmd) p' hp'
      subst this
      exact ⟨q, hlands _ _ hq', hps x hcmd, .inl ⟨hcmd, hz (hns x)⟩⟩
    | createLabel l => simp [handled] at hh
    | reset t => simp [handled] at hh
    | «break» => simp [handled] at hh
    | registerExtraPostRewriteHook => simp [handled] at hh
    | detectEmptyCommit x => simp [handled] at hh
  · intro p c r hpc hcr
    obtain ⟨cmd, hcmd, hh⟩ := List.mem_filterMap.1 (hone.complete c ((hrw c).2 ⟨p, hpc⟩) (hns c))
    have hd := hex.done cmd hcmd
    cases cmd with
    | pick x l =>
      simp only [handled, Option.some.injEq] at hh
      subst hh
      rw [hpk' x l hcmd] at hcr
      simp at hcr
    | merge x ps => exact absurd hcmd (runs_no_merge hrun x ps)
    | replace x r' ps =>
      simp only [handled, Option.some.injEq] at hh
      subst hh
      have := hpr x r' ps hcmd
      rw [hcr] at this
      cases this
      obtain ⟨n, os, rep, h1, h2, h3, h4⟩ := hd
      exact .inr ⟨n, os, rep, h2.imp fun _ _ => hlands _ _, h3, h1, find_created hn hex.created h4⟩
    | skipUpstreamAppliedCommit x =>
      simp only [handled, Option.some.injEq] at hh
      subst hh
      exact .inl ⟨hcmd, hd.2 (hns x)⟩
    | createLabel l => simp [handled] at hh
    | reset t => simp [handled] at hh
    | «break» => simp [handled] at hh
    | registerExtraPostRewriteHook => simp [handled] at hh
    | detectEmptyCommit x => simp [handled] at hh
  · obtain ⟨q, h1, h2⟩ := hex.head x hx (hns x)
    exact ⟨q, h1, hlands _ _ h2⟩

/-- C20: what an in-memory rebase does for a request without squashed commits, when `M` says which commit is
put on top of which (see `subtree_rebase_in_memory`). -/
theorem moves_rebase_in_memory (b : RebasePlanBuilder) (M : Oid → Oid → Prop) (k : Constraints)
    (hk : b.constraintGraph = .ok k) (hf : k.fixups = []) (hmv : ∀ p c, Moves k p c ↔ M p c)
    (hreg : Regular b.env k) (hrep : b.replacementCommits = []) (plan : RebasePlan)
    (h : b.build = .ok (.ok (some plan))) (ee : ExecEnv) (hn : NoCollisions ee) (head : Option Oid)
    (s : ExecState) (newHead : Option Oid) (hx : ee.rebaseInMemory head plan = .ok (s, newHead)) :
    (∀ p c, M p c →
      ∃ q, Lands M s.rewritten p q ∧
        ((.skipUpstreamAppliedCommit c ∈ plan.commands ∧ AMap.get? s.rewritten c = some .zero) ∨
          ∃ tree base orig, ee.cherryPickFast c q = .ok tree ∧ ee.find s.created q = some base ∧
            ee.find s.created c = some orig ∧
            if tree = base.tree then AMap.get? s.rewritten c = some .zero
            else ∃ n, AMap.get? s.rewritten c = some (.nonZero n) ∧
              ee.find s.created n = some ⟨[q], tree, orig.message, orig.author, orig.committer,
                ee.newTime orig.time⟩)) ∧
    (∀ c, (¬ ∃ p, M p c) → AMap.get? s.rewritten c = none) ∧
    (∀ x, head = some x → ∃ q, newHead = some q ∧ Lands M s.rewritten x q) := by
  obtain ⟨h1, _, h2, h3⟩ := replaced_rebase_in_memory b M k hk hf hmv hreg
    (fun c r hr => by rw [hrep] at hr; simp at hr) plan h ee hn head s newHead hx
  refine ⟨fun p c hpc => ?_, h2, h3⟩
  obtain ⟨q, hq, _, hq'⟩ := h1 p c hpc (by rw [hrep]; rfl)
  exact ⟨q, hq, hq'⟩

/-- C20, in terms of the requests: for requests to move subtrees whose roots are no merge commits, a
successful in-memory rebase does the following. Every requested commit `c` and every visible descendant
is cherry-picked onto the new version of the commit on top of which it should be (see `Lands`). The new
commit has that one parent, the tree of the cherry-pick, and message and people of the original; it is
recorded as the new version of `c`. If the tree is not different from the tree of the parent, or the
plan says to skip `c`, then `c` is recorded as dropped. All other commits stay as they are, and the
result names the new version of the checked-out commit. -/
theorem subtree_rebase_in_memory (b : RebasePlanBuilder) (hg : WFGraph b.env.dag.graph)
    (rs : List (Oid × Oid)) (hb : b.initialConstraints = rs.map fun r => .moveSubtree [r.2] r.1)
    (hm : ∀ r ∈ rs, ¬ IsMerge b.env r.1) (hrep : b.replacementCommits = []) (plan : RebasePlan)
    (h : b.build = .ok (.ok (some plan))) (ee : ExecEnv) (hn : NoCollisions ee) (head : Option Oid)
    (s : ExecState) (newHead : Option Oid) (hx : ee.rebaseInMemory head plan = .ok (s, newHead)) :
    (∀ p c, ShouldMove b.env.dag rs p c →
      ∃ q, Lands (ShouldMove b.env.dag rs) s.rewritten p q ∧
        ((.skipUpstreamAppliedCommit c ∈ plan.commands ∧ AMap.get? s.rewritten c = some .zero) ∨
          ∃ tree base orig, ee.cherryPickFast c q = .ok tree ∧ ee.find s.created q = some base ∧
            ee.find s.created c = some orig ∧
            if tree = base.tree then AMap.get? s.rewritten c = some .zero
            else ∃ n, AMap.get? s.rewritten c = some (.nonZero n) ∧
              ee.find s.created n = some ⟨[q], tree, orig.message, orig.author, orig.committer,
                ee.newTime orig.time⟩)) ∧
    (∀ c, (¬ ∃ p, ShouldMove b.env.dag rs p c) → AMap.get? s.rewritten c = none) ∧
    (∀ x, head = some x → ∃ q, newHead = some q ∧ Lands (ShouldMove b.env.dag rs) s.rewritten x q) := by
  obtain ⟨k, hk, hf, hmv⟩ := constraintGraph_subtrees hg hb
  exact moves_rebase_in_memory b _ k hk hf hmv (regular_subtrees hg hm hf hmv) hrep plan h ee hn head s
    newHead hx

/-- C20: a commit `x` which is squashed into `t`, and into no other commit, is recorded with the same new
version as `t`, so that its branches go there. (If nothing is left of `t` then `x` is not recorded:
`empty_squash_not_recorded`.) -/
theorem squashed_recorded_with_target (b : RebasePlanBuilder)
    (hsort : ∀ s x, x ∈ b.env.sortedCommitSet s ↔ x ∈ s) (plan : RebasePlan)
    (h : b.build = .ok (.ok (some plan))) (hone : (handledCommits plan.commands).Nodup) (t x : Oid)
    (hx : .fixUpCommit t x ∈ b.initialConstraints)
    (honly : ∀ t', .fixUpCommit t' x ∈ b.initialConstraints → t' = t)
    (ht : ∀ t', .fixUpCommit t' t ∉ b.initialConstraints)
    (hxh : x ∉ handledCommits plan.commands) (l : List Oid) (hl : .pick t l ∈ plan.commands)
    (ee : ExecEnv) (head : Option Oid) (s : ExecState) (newHead : Option Oid)
    (hr : ee.rebaseInMemory head plan = .ok (s, newHead)) (n : Oid)
    (hn : AMap.get? s.rewritten t = some (.nonZero n)) :
    AMap.get? s.rewritten x = some (.nonZero n) := by
  obtain ⟨hrun, _⟩ := rebaseInMemory_ok hr
  have happ := pick_applies_squashed b plan hsort h
  have hxl : x ∈ l := (happ t l hl x).2 (.inr hx)
  obtain ⟨pre, post, hcs⟩ := List.append_of_mem hl
  rw [hcs] at hone hxh hrun
  obtain ⟨e1, _, hrun2⟩ := runs_append.1 hrun
  obtain ⟨e2, hp, hpost⟩ := runs_cons.1 hrun2
  have htp : t ∉ handledCommits post := by
    rw [handledCommits_append, List.nodup_append] at hone
    have := hone.2.1
    unfold handledCommits at this
    rw [List.filterMap_cons] at this
    simp only [handled, List.nodup_cons] at this
    exact this.1
  have hxp : x ∉ handledCommits post := by
    intro hm
    apply hxh
    rw [handledCommits_append]
    refine List.mem_append_right _ ?_
    unfold handledCommits
    rw [List.filterMap_cons]
    exact List.mem_cons_of_mem _ hm
  have hother : ∀ t' l', .pick t' l' ∈ post → t' ≠ t := by
    rintro t' l' hm rfl
    exact htp (List.mem_filterMap.2 ⟨_, hm, rfl⟩)
  have hmem : ∀ t' l', .pick t' l' ∈ post → .pick t' l' ∈ plan.commands := by
    intro t' l' hm
    rw [hcs]; simp [hm]
  have hframe := (runs_frame hpost).2.1
  rw [hframe t htp (fun t' l' hm hc => by
    rcases (happ t' l' (hmem t' l' hm) t).1 hc with h' | h'
    · exact hother t' l' hm h'.symm
    · exact ht t' h')] at hn
  rw [hframe x hxp (fun t' l' hm hc => by
    rcases (happ t' l' (hmem t' l' hm) x).1 hc with h' | h'
    · subst h'; exact hxp (List.mem_filterMap.2 ⟨_, hm, rfl⟩)
    · exact hother t' l' hm (honly t' h'))]
  simp only [ExecEnv.runCommand] at hp
  obtain ⟨_, _, cur, orig, tree, _, _, _, hres⟩ := runPick_done hp
  rcases hres with ⟨_, _, h4, _⟩ | ⟨_, _, h4, _⟩
  · rw [h4] at hn; simp at hn
  · rw [h4, get?_foldl_insert] at hn ⊢
    rw [if_pos hxl]
    split at hn
    · exact hn
    · simpa using hn

theorem firstDest_reset {b : RebasePlanBuilder} {k : Constraints} {st : Option Oid × BuildState}
    (h : k.findRoots.foldlM (buildRoot b k) (none, ⟨[], [], []⟩) = .ok st) :
    ∀ d, st.1 = some d → .reset (.oid d) ∈ st.2.acc := by
  have := foldlM_except_inv (P := fun _ st => LInv st.2 ∧ ∀ d, st.1 = some d →
    .reset (.oid d) ∈ st.2.acc) ⟨linv_nil, by simp⟩ ?_ h
  · exact this.2
  rintro pre r post st st' _ ⟨hi, hs⟩ hr
  obtain ⟨p, ps, c, up, h1, -, h2, h3⟩ := buildRoot_ok hr
  have hi2 : LInv (push st.2 [.reset (.oid p)]) :=
    hi.push (by simp [labelCreated]) (by simp [labelsUsed, labelOf])
  obtain ⟨hi3, hp3⟩ := linv_visit _ _ _ _ h2 hi2
  refine ⟨hi3, fun d hd => hp3.subset ?_⟩
  rw [h3] at hd
  unfold push
  rw [List.mem_append]
  cases hst : st.1 with
  | none => rw [hst] at hd; cases hd; simp
  | some d' =>
    rw [hst] at hd
    cases hd
    exact .inl (hs _ hst)

/-- C53: if the commits of a plan can be read and objects can be written, then an in-memory rebase
either succeeds or stops for a conflict, or for a merge commit, which it names truthfully. It never
panics, and never fails because of the plan. -/
theorem in_memory_stops_only_for_merges (b : RebasePlanBuilder)
    (hsort : ∀ s x, x ∈ b.env.sortedCommitSet s ↔ x ∈ s) (plan : RebasePlan)
    (h : b.build = .ok (.ok (some plan))) (ee : ExecEnv) (hw : Works ee plan.commands)
    (head : Option Oid) :
    (∃ s newHead, ee.rebaseInMemory head plan = .ok (s, newHead)) ∨
    ∃ info, ee.rebaseInMemory head plan = .error (.mergeFailed info) ∧
      HonestFailure ee plan.commands info := by
  obtain ⟨k, st, h1, h2, h3, h4, h5, h6⟩ := build_ok h
  have hi := buildRoots_linv h4
  have hbef : Before LabelsBefore plan.commands := by
    rw [h6]
    refine before_append labelsBefore_mono hi.before ?_
    intro x hx l hl
    simp only [List.mem_singleton] at hx
    subst hx
    simp [labelsUsed] at hl
  have hbreak : .break ∉ plan.commands := by
    have hQ := plan_commands (kwf_constraintGraph h1) (Q := fun cmd => cmd ≠ .break)
      ?_ (by simp) (by simp) (by simp) h4
    · intro hm
      rw [h6] at hm
      rcases List.mem_append.1 hm with hm | hm
      · exact hQ _ hm rfl
      · simp at hm
    · intro up cur s cs _ _ hcs cmd hcmd
      rcases commandsFor_cases hcs with ⟨rfl, _⟩ | ⟨rfl, _⟩ | ⟨_, rfl⟩ | ⟨r, _, _, _, rfl⟩ |
        ⟨r, first, rest, _, _, _, rfl⟩ | ⟨first, rest, rfl⟩ <;>
      · simp only [List.mem_cons, List.not_mem_nil, or_false] at hcmd
        try rcases hcmd with rfl | rfl
        all_goals simp_all
  have hpick : ∀ c, .pick c [] ∉ plan.commands := by
    intro c hc
    have := (pick_applies_squashed b plan hsort h c [] hc c).2 (.inl rfl)
    simp at this
  have hdest := firstDest_reset h4 _ h5
  have A : Alive ee [] (ExecEnv.initialState plan) := by
    obtain ⟨d, hd⟩ := hw.exist (.reset (.oid plan.firstDestOid))
      (by rw [h6]; exact List.mem_append_left _ hdest) plan.firstDestOid (by simp [mentions])
    exact ⟨find_isSome_of_commits hd, by simp [ExecEnv.initialState], by simp [labelsCreated],
      by simp [ExecEnv.initialState], by simp [ExecEnv.initialState]⟩
  unfold ExecEnv.rebaseInMemory
  cases hm : ExecEnv.findMerge plan.commands with
  | some c =>
    right
    refine ⟨_, rfl, .inl ?_⟩
    unfold ExecEnv.findMerge at hm
    obtain ⟨cmd, hcmd, hc⟩ := List.exists_of_findSome?_eq_some hm
    split at hc
    · rename_i c' ps
      cases hc
      exact ⟨ps, hcmd⟩
    · simp at hc
  | none =>
    rcases runs_total hw (head := head) hbef hbreak hpick (pre := []) (post := plan.commands) rfl A with
      ⟨info, h7, h8⟩ | ⟨e, h7⟩
    · rw [h7]; exact .inr ⟨info, rfl, h8⟩
    · rw [h7]; exact .inl ⟨e, _, rfl⟩

/-! ### examples -/

/-- A repository with the given commits. Only the given objects can be written, and only the given
cherry-picks work. -/
def exExec (commits : List (Oid × CommitData)) (new : List (CommitData × Oid))
    (picks amends : List ((Oid × Oid) × Nat)) : ExecEnv where
  commits := AMap.get? commits
  createCommit := AMap.get? new
  cherryPickFast a c := match AMap.get? picks (a, c) with | some t => .ok t | none => .error (.conflict [])
  amendFast a c := match AMap.get? amends (a, c) with | some t => .ok t | none => .error (.conflict [])
  now := 100
  preserveTimestamps := false

theorem exExec_noCollisions {commits : List (Oid × CommitData)} {new : List (CommitData × Oid)}
    {picks amends : List ((Oid × Oid) × Nat)} (h1 : (new.map Prod.snd).Nodup)
    (h2 : ∀ x ∈ new, x.2 ∉ commits.map Prod.fst) : NoCollisions (exExec commits new picks amends) := by
  constructor
  · intro d d' o h h'
    exact absurd (List.mem_map.2 ⟨_, AMap.mem_of_get? h', rfl⟩) (h2 _ (AMap.mem_of_get? h))
  · intro d d' o h h'
    have := List.inj_on_of_nodup_map h1 (AMap.mem_of_get? h) (AMap.mem_of_get? h') rfl
    simp only [Prod.mk.injEq, and_true] at this
    exact this.symm

/-- A commit of the examples; its tree is `tree`, and its number is used for the message. -/
def exCommit (parents : List Oid) (tree n : Nat) : CommitData := ⟨parents, tree, some (natToText n), 1, 2, n⟩

/-- The same, as it is recreated. -/
def exNew (parents : List Oid) (tree n : Nat) : CommitData := ⟨parents, tree, some (natToText n), 1, 2, 100⟩

/-- Moving `1`, with its child `2`, onto `3`: `8` and `9` are the new versions. `HEAD` was at `2`. -/
example :
    let b := exBuilder [(oidN 3, [oidN 0]), (oidN 2, [oidN 1]), (oidN 1, [oidN 0]), (oidN 0, [])]
      [.moveSubtree [oidN 3] (oidN 1)]
    let ee := exExec [(oidN 0, exCommit [] 10 0), (oidN 1, exCommit [oidN 0] 11 1),
        (oidN 2, exCommit [oidN 1] 12 2), (oidN 3, exCommit [oidN 0] 13 3)]
      [(exNew [oidN 3] 20 1, oidN 8), (exNew [oidN 8] 21 2, oidN 9)]
      [((oidN 1, oidN 3), 20), ((oidN 2, oidN 8), 21)] []
    ∃ plan s, b.build = .ok (.ok (some plan)) ∧ NoCollisions ee ∧
      ee.rebaseInMemory (some (oidN 2)) plan = .ok (s, some (oidN 9)) ∧
      s.rewritten = [(oidN 2, .nonZero (oidN 9)), (oidN 1, .nonZero (oidN 8))] := by
  refine ⟨⟨oidN 3, [.reset (.oid (oidN 3)), .pick (oidN 1) [oidN 1], .detectEmptyCommit (oidN 1),
    .pick (oidN 2) [oidN 2], .detectEmptyCommit (oidN 2), .registerExtraPostRewriteHook]⟩,
    ⟨oidN 9, [], [(oidN 2, .nonZero (oidN 9)), (oidN 1, .nonZero (oidN 8))], none,
      [(oidN 9, exNew [oidN 8] 21 2), (oidN 8, exNew [oidN 3] 20 1)]⟩, ?_, ?_, ?_, rfl⟩
  · decide +kernel
  · exact exExec_noCollisions (by decide) (by decide)
  · decide +kernel

/-- The same, but the change of `1` is already in `3`: then `1` is dropped, and `2` goes to `3`. -/
example :
    let b := exBuilder [(oidN 3, [oidN 0]), (oidN 2, [oidN 1]), (oidN 1, [oidN 0]), (oidN 0, [])]
      [.moveSubtree [oidN 3] (oidN 1)]
    let ee := exExec [(oidN 0, exCommit [] 10 0), (oidN 1, exCommit [oidN 0] 11 1),
        (oidN 2, exCommit [oidN 1] 12 2), (oidN 3, exCommit [oidN 0] 13 3)]
      [(exNew [oidN 3] 13 1, oidN 8), (exNew [oidN 3] 21 2, oidN 9)]
      [((oidN 1, oidN 3), 13), ((oidN 2, oidN 3), 21)] []
    ∃ plan s, b.build = .ok (.ok (some plan)) ∧
      ee.rebaseInMemory (some (oidN 1)) plan = .ok (s, some (oidN 3)) ∧
      s.rewritten = [(oidN 2, .nonZero (oidN 9)), (oidN 1, .zero)] := by
  refine ⟨⟨oidN 3, [.reset (.oid (oidN 3)), .pick (oidN 1) [oidN 1], .detectEmptyCommit (oidN 1),
    .pick (oidN 2) [oidN 2], .detectEmptyCommit (oidN 2), .registerExtraPostRewriteHook]⟩,
    ⟨oidN 9, [], [(oidN 2, .nonZero (oidN 9)), (oidN 1, .zero)], some (oidN 3),
      [(oidN 9, exNew [oidN 3] 21 2), (oidN 8, exNew [oidN 3] 13 1)]⟩, ?_, ?_, rfl⟩
  · decide +kernel
  · decide +kernel

/-- A request with a fixup which meets the hypotheses of `in_memory_rebase_partial`: `1` is squashed
into its descendant `3`; its child `2` goes to `0`. -/
example :
    let b := exBuilder [(oidN 3, [oidN 2]), (oidN 2, [oidN 1]), (oidN 1, [oidN 0]), (oidN 0, [])]
      [.fixUpCommit (oidN 3) (oidN 1)]
    let ee := exExec [(oidN 0, exCommit [] 10 0), (oidN 1, exCommit [oidN 0] 11 1),
        (oidN 2, exCommit [oidN 1] 12 2), (oidN 3, exCommit [oidN 2] 13 3)]
      [(exNew [oidN 0] 22 2, oidN 8), (exNew [oidN 8] 23 3, oidN 9), (exNew [oidN 8] 24 3, oidN 10)]
      [((oidN 2, oidN 0), 22), ((oidN 1, oidN 8), 23)] [((oidN 9, oidN 3), 24)]
    ∃ k plan s, b.constraintGraph = .ok k ∧ b.build = .ok (.ok (some plan)) ∧
      ee.rebaseInMemory (some (oidN 3)) plan = .ok (s, some (oidN 10)) ∧
      s.rewritten = [(oidN 3, .nonZero (oidN 10)), (oidN 1, .nonZero (oidN 10)),
        (oidN 2, .nonZero (oidN 8))] ∧ ResetsReady k plan.commands s.rewritten := by
  refine ⟨⟨[(oidN 0, [oidN 2])], [(oidN 3, [oidN 1])]⟩,
    ⟨oidN 0, [.reset (.oid (oidN 0)), .pick (oidN 2) [oidN 2], .detectEmptyCommit (oidN 2),
      .reset (.oid (oidN 2)), .pick (oidN 3) [oidN 1, oidN 3], .detectEmptyCommit (oidN 3),
      .registerExtraPostRewriteHook]⟩,
    ⟨oidN 10, [], [(oidN 3, .nonZero (oidN 10)), (oidN 1, .nonZero (oidN 10)),
        (oidN 2, .nonZero (oidN 8))], none,
      [(oidN 10, exNew [oidN 8] 24 3), (oidN 9, exNew [oidN 8] 23 3), (oidN 8, exNew [oidN 0] 22 2)]⟩,
    ?_, ?_, ?_, rfl, ?_⟩
  · decide +kernel
  · decide +kernel
  · decide +kernel
  · have hsq : ∀ p, Squashed ⟨[(oidN 0, [oidN 2])], [(oidN 3, [oidN 1])]⟩ p → p = oidN 1 := by
      rintro p ⟨t, fs, h1, h2⟩
      have := AMap.mem_of_get? h1
      simp only [List.mem_singleton, Prod.mk.injEq] at this
      obtain ⟨_, rfl⟩ := this
      simpa using h2
    intro pre p post hs
    rcases pre with _ | ⟨_, _ | ⟨_, _ | ⟨_, _ | ⟨_, _ | ⟨_, _ | ⟨_, _ | ⟨_, pre⟩⟩⟩⟩⟩⟩⟩ <;>
      simp only [List.nil_append, List.cons_append, List.cons.injEq, RebaseCommand.reset.injEq,
        OidOrLabel.oid.injEq, reduceCtorEq, false_and, and_false] at hs
    · obtain ⟨rfl, _⟩ := hs
      refine ⟨fun h => absurd (hsq _ h) (by decide), ?_⟩
      rintro (⟨q, cs, h1, h2⟩ | ⟨fs, h⟩)
      · have := AMap.mem_of_get? h1
        simp only [List.mem_singleton, Prod.mk.injEq] at this
        obtain ⟨_, rfl⟩ := this
        exact absurd h2 (by decide)
      · have : AMap.get? [(oidN 3, [oidN 1])] (oidN 0) = none := by decide
        exact absurd (h.symm.trans this) (by simp)
    · obtain ⟨rfl, rfl, rfl, rfl, _⟩ := hs
      exact ⟨fun h => absurd (hsq _ h) (by decide), fun _ => by decide⟩
    · simp at hs

/-- C20: a commit into which another one is squashed can end on top of a commit which was dropped.
The stack is `0`, `1`, `2`, `3`; `1` is squashed into `3`, so `2` goes to `0`
(`git move --fixup --exact 1 --dest 3`). Without `1` nothing is left of `2` (for example because it
reverts `1`), so that it is dropped. The new version of `3` is put on top of the old `2`, and so
on top of the old `1`, which it was to replace. -/
theorem fixup_target_on_dropped :
    let b := exBuilder [(oidN 3, [oidN 2]), (oidN 2, [oidN 1]), (oidN 1, [oidN 0]), (oidN 0, [])]
      [.fixUpCommit (oidN 3) (oidN 1)]
    let ee := exExec [(oidN 0, exCommit [] 10 0), (oidN 1, exCommit [oidN 0] 11 1),
        (oidN 2, exCommit [oidN 1] 12 2), (oidN 3, exCommit [oidN 2] 13 3)]
      [(exNew [oidN 0] 10 2, oidN 8), (exNew [oidN 2] 23 3, oidN 9), (exNew [oidN 2] 24 3, oidN 10)]
      [((oidN 2, oidN 0), 10), ((oidN 1, oidN 2), 23)] [((oidN 9, oidN 3), 24)]
    ∃ plan s, b.build = .ok (.ok (some plan)) ∧
      ee.rebaseInMemory (some (oidN 3)) plan = .ok (s, some (oidN 10)) ∧
      AMap.get? s.rewritten (oidN 2) = some .zero ∧
      ee.find s.created (oidN 10) = some (exNew [oidN 2] 24 3) := by
  refine ⟨⟨oidN 0, [.reset (.oid (oidN 0)), .pick (oidN 2) [oidN 2], .detectEmptyCommit (oidN 2),
      .reset (.oid (oidN 2)), .pick (oidN 3) [oidN 1, oidN 3], .detectEmptyCommit (oidN 3),
      .registerExtraPostRewriteHook]⟩,
    ⟨oidN 10, [], [(oidN 3, .nonZero (oidN 10)), (oidN 1, .nonZero (oidN 10)), (oidN 2, .zero)], none,
      [(oidN 10, exNew [oidN 2] 24 3), (oidN 9, exNew [oidN 2] 23 3), (oidN 8, exNew [oidN 0] 10 2)]⟩,
    ?_, ?_, ?_, ?_⟩
  · decide +kernel
  · decide +kernel
  · decide +kernel
  · decide +kernel

/-- C20: if commits are squashed into two commits of a stack, the order depends on the object ids. Here
the stack is `0`, `3`, `2`, `4`, `5`; `4` is squashed into `3`, and `5` into `2`. The new version of
`2` is made first, on top of the old version of `3`. -/
theorem fixup_target_on_old_base :
    let b := exBuilder [(oidN 5, [oidN 4]), (oidN 4, [oidN 2]), (oidN 2, [oidN 3]), (oidN 3, [oidN 0]),
      (oidN 0, [])] [.fixUpCommit (oidN 3) (oidN 4), .fixUpCommit (oidN 2) (oidN 5)]
    let ee := exExec [(oidN 0, exCommit [] 10 0), (oidN 3, exCommit [oidN 0] 13 3),
        (oidN 2, exCommit [oidN 3] 12 2), (oidN 4, exCommit [oidN 2] 14 4), (oidN 5, exCommit [oidN 4] 15 5)]
      [(exNew [oidN 3] 22 2, oidN 8), (exNew [oidN 3] 23 2, oidN 9), (exNew [oidN 0] 24 3, oidN 10),
        (exNew [oidN 0] 25 3, oidN 11)]
      [((oidN 2, oidN 3), 22), ((oidN 3, oidN 0), 24)]
      [((oidN 8, oidN 5), 23), ((oidN 10, oidN 4), 25)]
    ∃ plan s head, b.build = .ok (.ok (some plan)) ∧
      ee.rebaseInMemory (some (oidN 5)) plan = .ok (s, head) ∧
      AMap.get? s.rewritten (oidN 2) = some (.nonZero (oidN 9)) ∧
      ee.find s.created (oidN 9) = some (exNew [oidN 3] 23 2) ∧
      AMap.get? s.rewritten (oidN 3) = some (.nonZero (oidN 11)) := by
  refine ⟨⟨oidN 3, [.reset (.oid (oidN 3)), .pick (oidN 2) [oidN 2, oidN 5], .detectEmptyCommit (oidN 2),
      .createLabel t!"label-3", .reset (.label t!"label-3"), .reset (.label t!"label-3"),
      .reset (.oid (oidN 0)), .pick (oidN 3) [oidN 3, oidN 4], .detectEmptyCommit (oidN 3),
      .registerExtraPostRewriteHook]⟩, _, _, ?_, rfl, ?_, ?_, ?_⟩
  · decide +kernel
  · decide +kernel
  · decide +kernel
  · decide +kernel

/-- C20: if nothing is left after squashing, only the target is recorded as dropped; the squashed commit
`2`, whose branches are to move as well, is not recorded. -/
theorem empty_squash_not_recorded :
    let b := exBuilder [(oidN 2, [oidN 1]), (oidN 1, [oidN 0]), (oidN 0, [])]
      [.fixUpCommit (oidN 1) (oidN 2)]
    let ee := exExec [(oidN 0, exCommit [] 10 0), (oidN 1, exCommit [oidN 0] 11 1),
        (oidN 2, exCommit [oidN 1] 10 2)]
      [(exNew [oidN 0] 11 1, oidN 8), (exNew [oidN 0] 10 1, oidN 9)]
      [((oidN 1, oidN 0), 11)] [((oidN 8, oidN 2), 10)]
    ∃ plan s head, b.build = .ok (.ok (some plan)) ∧
      ee.rebaseInMemory (some (oidN 2)) plan = .ok (s, head) ∧
      s.rewritten = [(oidN 1, .zero)] ∧ head = some (oidN 2) := by
  refine ⟨⟨oidN 0, [.reset (.oid (oidN 0)), .pick (oidN 1) [oidN 1, oidN 2], .detectEmptyCommit (oidN 1),
      .registerExtraPostRewriteHook]⟩, _, _, ?_, rfl, ?_, ?_⟩
  · decide +kernel
  · decide +kernel
  · decide +kernel

/-- C20: a commit which is both moved and replaced is not moved: `1` is to be put on top of `3` and
replaced with `4`, but the new commit has the parent `0` of the replacement. (No command of the
program requests both at present.) -/
theorem replaced_on_old_parent :
    let b := { exBuilder [(oidN 4, [oidN 0]), (oidN 3, [oidN 0]), (oidN 1, [oidN 0]), (oidN 0, [])]
      [.moveSubtree [oidN 3] (oidN 1)] with replacementCommits := [(oidN 1, oidN 4)] }
    let ee := exExec [(oidN 0, exCommit [] 10 0), (oidN 1, exCommit [oidN 0] 11 1),
        (oidN 3, exCommit [oidN 0] 13 3), (oidN 4, exCommit [oidN 0] 14 4)]
      [(exNew [oidN 0] 14 4, oidN 8)] [] []
    ∃ plan s head, b.build = .ok (.ok (some plan)) ∧
      ee.rebaseInMemory none plan = .ok (s, head) ∧
      AMap.get? s.rewritten (oidN 1) = some (.nonZero (oidN 8)) ∧
      ee.find s.created (oidN 8) = some (exNew [oidN 0] 14 4) := by
  refine ⟨⟨oidN 3, [.reset (.oid (oidN 3)), .replace (oidN 1) (oidN 4) [.oid (oidN 0)],
      .registerExtraPostRewriteHook]⟩, _, _, ?_, rfl, ?_, ?_⟩
  · decide +kernel
  · decide +kernel
  · decide +kernel

/-- A conflict, with the hypotheses of C53. -/
example :
    let b := exBuilder [(oidN 3, [oidN 0]), (oidN 1, [oidN 0]), (oidN 0, [])]
      [.moveSubtree [oidN 3] (oidN 1)]
    let ee := { exExec [(oidN 0, exCommit [] 10 0), (oidN 1, exCommit [oidN 0] 11 1),
      (oidN 3, exCommit [oidN 0] 13 3)] [] [] [] with createCommit := fun _ => some (oidN 8) }
    ∃ plan, b.build = .ok (.ok (some plan)) ∧ Works ee plan.commands ∧
      ee.rebaseInMemory none plan = .error (.mergeFailed (.conflict (oidN 1) [])) := by
  refine ⟨⟨oidN 3, [.reset (.oid (oidN 3)), .pick (oidN 1) [oidN 1], .detectEmptyCommit (oidN 1),
    .registerExtraPostRewriteHook]⟩, ?_, ⟨?_, ?_, fun _ => rfl, ?_, ?_⟩, ?_⟩
  · decide +kernel
  · have key : ∀ o ∈ [oidN 3, oidN 1], ∃ d, AMap.get? [(oidN 0, exCommit [] 10 0),
        (oidN 1, exCommit [oidN 0] 11 1), (oidN 3, exCommit [oidN 0] 13 3)] o = some d := by
      intro o ho
      simp only [List.mem_cons, List.not_mem_nil, or_false] at ho
      rcases ho with rfl | rfl
      · exact ⟨exCommit [oidN 0] 13 3, by decide⟩
      · exact ⟨exCommit [oidN 0] 11 1, by decide⟩
    intro cmd hcmd o ho
    refine key o ?_
    simp only [List.mem_cons, List.not_mem_nil, or_false] at hcmd
    rcases hcmd with rfl | rfl | rfl | rfl <;> simp_all [mentions]
  · intro cmd hcmd o ho d hd
    have hmem := AMap.mem_of_get? hd
    simp only [List.mem_cons, List.not_mem_nil, or_false, Prod.mk.injEq] at hmem
    rcases hmem with ⟨_, rfl⟩ | ⟨_, rfl⟩ | ⟨_, rfl⟩ <;> rfl
  · intro a c
    simp [exExec, AMap.get?]
  · intro a c
    simp [exExec, AMap.get?]
  · decide +kernel

end Verif.Props
