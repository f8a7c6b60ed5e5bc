import Verif.Lemmas.RewordCommand
import Verif.Lemmas.Smartlog
import Verif.Props.Move

/-! The command `reword`. -/

namespace Verif.Props

open Verif Verif.Spec Verif.RebasePlanBuilder Verif.Constraints

variable {env : RewordEnv} {graph : CommitGraph Oid} {seen : Oid → Prop} {X : List Oid}
  {messages : AMap Oid Text} {b : RebasePlanBuilder} {made : List (Oid × CommitData)} {k : Constraints}

/-- What becomes of the commits. -/
theorem reworded_of_run (S : RewordSetup env graph seen X messages b made k) (hcp : CleanPicks env.exec)
    {plan : RebasePlan} (h : b.build = .ok (.ok (some plan))) {head : Option Oid} {s : ExecState}
    {newHead : Option Oid} (hx : (withMade env.exec made).rebaseInMemory head plan = .ok (s, newHead)) :
    Reworded graph seen X (AMap.get? messages) env.exec (s.created ++ made) s.rewritten head newHead := by
  obtain ⟨h1, h2, h3, h4⟩ := replaced_rebase_in_memory b _ k S.graph_ok S.no_fixups S.moves S.regular
    S.replacedOnParents plan h (withMade env.exec made) S.nc head s newHead hx
  obtain ⟨-, -, hsk⟩ := plan_kinds b k S.graph_ok plan h
  have hrun := (rebaseInMemory_ok hx).1
  obtain ⟨y, T⟩ := (S.tracked hcp h (runs_no_merge hrun) head).2 s newHead hx
  have hsk' : ∀ c, .skipUpstreamAppliedCommit c ∉ plan.commands := by
    intro c hc
    have := hsk c hc
    rw [S.no_detect] at this
    simp at this
  have hsel : ∀ c ∈ X, ∃ d m ps n, env.exec.commits c = some d ∧ AMap.get? messages c = some m ∧
      List.Forall₂ (Lands (InPlace graph (Affected graph seen X)) s.rewritten) (graph.parentsOf c) ps ∧
      AMap.get? s.rewritten c = some (.nonZero n) ∧
      env.exec.find (s.created ++ made) n =
        some ⟨ps, d.tree, some m, d.author, d.committer, env.exec.newTime d.time⟩ := by
    intro c hc
    obtain ⟨p, hp⟩ := (S.moved_iff c).2 (.inl hc)
    obtain ⟨r, hr⟩ := Option.isSome_iff_exists.1 ((S.replaced c).2 hc)
    obtain ⟨m, d, h5, h6, h7⟩ := S.replacement c r hr
    rcases h2 p c r hp hr with ⟨h8, _⟩ | ⟨n, ps, rep, h8, h9, h10, h11⟩
    · exact absurd h8 (hsk' c)
    · rw [S.newParents_eq hr] at h8
      have hrep : rep = { d with message := some m } := by
        have h12 : (withMade env.exec made).commits r = some { d with message := some m } :=
          find_created S.noCollisions S.made_ok h7
        have := find_original S.nc T.created h12
        rw [this] at h9
        exact (Option.some.inj h9).symm
      subst hrep
      rw [withMade_find] at h11
      exact ⟨d, m, ps, n, h6, h5, h8, h10, h11⟩
  have hpicked : ∀ p c, c ∉ X → InPlace graph (Affected graph seen X) p c → ∃ d dp q tree base,
      env.exec.commits c = some d ∧ graph.parentsOf c = [p] ∧ env.exec.commits p = some dp ∧
      Lands (InPlace graph (Affected graph seen X)) s.rewritten p q ∧
      env.exec.cherryPickFast c q = .ok tree ∧ (withMade env.exec made).find s.created q = some base ∧
      if tree = base.tree then AMap.get? s.rewritten c = some .zero
      else ∃ n, AMap.get? s.rewritten c = some (.nonZero n) ∧
        env.exec.find (s.created ++ made) n =
          some ⟨[q], tree, d.message, d.author, d.committer, env.exec.newTime d.time⟩ := by
    intro p c hc hp
    have hnone : AMap.get? b.replacementCommits c = none := by
      rw [← Option.not_isSome_iff_eq_none, S.replaced c]
      exact hc
    obtain ⟨q, h5, h6, h7⟩ := h1 p c hp hnone
    obtain ⟨d, hd, hdp⟩ := S.agrees c hp.2.child_mem
    obtain ⟨dp, hdp', _⟩ := S.agrees p (hp.2.parent_mem S.wf)
    have hone : graph.parentsOf c = [p] := by
      have hlen : ¬ 1 < (b.env.dag.graph.parentsOf c).length := h6
      rw [S.graph_eq] at hlen
      have hmem := (mem_parentsOf S.wf).2 hp.2
      generalize graph.parentsOf c = ps at hlen hmem
      match ps, hlen, hmem with
      | [x], _, hmem => rw [List.mem_singleton] at hmem; rw [hmem]
      | _ :: _ :: _, hlen, _ => simp at hlen
    rcases h7 with ⟨h7, _⟩ | ⟨tree, base, orig, h8, h9, h10, h11⟩
    · exact absurd h7 (hsk' c)
    · rw [find_original S.nc T.created (S.find_old hd)] at h10
      cases h10
      simp only [withMade_find] at h11
      exact ⟨d, dp, q, tree, base, hd, hone, hdp', h5, h8, h9, h11⟩
  have hpick : ∀ {c d p dp q base}, env.exec.commits c = some d → graph.parentsOf c = [p] →
      env.exec.commits p = some dp → (withMade env.exec made).find s.created q = some base →
      base.tree = dp.tree → env.exec.cherryPickFast c q = .ok d.tree := by
    intro c d p dp q base h5 h6 h7 h8 h9
    have hc : c ∈ graph.nodes := by
      have : IsParent graph p c := (mem_parentsOf S.wf).1 (by rw [h6]; simp)
      exact this.child_mem
    obtain ⟨d', h10, h11⟩ := S.agrees c hc
    rw [h5] at h10
    cases h10
    refine hcp c d p dp q base h5 (h11.trans h6) h7 ?_ h9
    rcases find_cases h8 with h12 | h12
    · exact .inr (T.created _ h12)
    · rcases find_cases (ee := env.exec) (cr := made) h12 with h13 | h13
      · exact .inr (S.made_ok _ h13)
      · exact .inl h13
  have htree : ∀ n c, ageOf graph.entries c = n → c ∈ graph.nodes → ∀ q,
      Lands (InPlace graph (Affected graph seen X)) s.rewritten c q →
      SameFiles (withMade env.exec made) s.created q c := by
    intro n
    induction n using Nat.strongRecOn with
    | _ n ih =>
      intro c hn hc q hq
      obtain ⟨d, hd, _⟩ := S.agrees c hc
      cases hq with
      | stays _ _ => exact SameFiles.self S.nc T.created (S.find_old hd)
      | new p _ _ _ hz => exact T.rewritten c q hz
      | dropped p _ _ hp hz hpq =>
        have hcX : c ∉ X := by
          intro hcX
          obtain ⟨_, _, _, _, _, _, _, h5, _⟩ := hsel c hcX
          rw [hz] at h5
          simp at h5
        obtain ⟨d', dp, q', tree, base, h5, h6, h7, h8, h9, h10, h11⟩ := hpicked p c hcX hp
        rw [hd] at h5
        cases h5
        have hlt := age_lt S.wf hp.2
        have hpm := hp.2.parent_mem S.wf
        obtain ⟨x, dx, h12, h13, h14⟩ := ih _ (hn ▸ hlt) p rfl hpm q' h8
        rw [h10] at h12
        cases h12
        rw [S.find_old h7] at h13
        cases h13
        have hp' := hpick hd h6 h7 h10 h14
        rw [h9] at hp'
        cases hp'
        have heq : d.tree = base.tree := by
          by_contra hne
          rw [if_neg hne] at h11
          obtain ⟨n', h15, _⟩ := h11
          rw [hz] at h15
          simp at h15
        obtain ⟨x, dx, h15, h16, h17⟩ := ih _ (hn ▸ hlt) p rfl hpm q hpq
        rw [S.find_old h7] at h16
        cases h16
        exact ⟨x, d, h15, S.find_old hd, by rw [h17, heq, h14]⟩
  refine ⟨hsel, ?_, ?_, h4⟩
  · intro c hcX hA
    obtain ⟨p, hp⟩ := (S.moved_iff c).2 hA
    obtain ⟨d, dp, q, tree, base, h5, h6, h7, h8, h9, h10, h11⟩ := hpicked p c hcX hp
    obtain ⟨x, dx, h12, h13, h14⟩ := htree _ p rfl (hp.2.parent_mem S.wf) q h8
    rw [h10] at h12
    cases h12
    rw [S.find_old h7] at h13
    cases h13
    have hp' := hpick h5 h6 h7 h10 h14
    rw [h9] at hp'
    cases hp'
    rw [h14] at h11
    exact ⟨d, p, dp, q, h5, h6, h7, h8, h11⟩
  · intro c hc
    exact h3 c fun hp => hc ((S.moved_iff c).1 hp)

/-! ### the command -/

/-- The messages from which the new ones are made: those given by the user, or with `--fixup` the one which
refers to that commit. -/
def StartsWith (env : RewordEnv) (graph : CommitGraph Oid) (X : List Oid) (messages : RewordMessages)
    (init : InitialMessages) : Prop :=
  messages = .given init ∨
  ∃ target summary, messages = .fixUp [target] ∧ X ≠ [] ∧ target ∈ graph.nodes ∧
    (∀ x ∈ X, Anc graph target x) ∧ env.summary target = some summary ∧
    init = .messages [t!"fixup! " ++ summary]

theorem rewordMessages_ok {d : Dag} (hg : WFGraph d.graph) {m : RewordMessages} {init : InitialMessages}
    (h : rewordMessages env d X m = .ok (.ok init)) : StartsWith env d.graph X m init := by
  unfold rewordMessages at h
  split at h
  · cases h; exact .inl rfl
  · rename_i target
    split at h
    · rename_i hc
      rw [List.contains_iff_mem, mem_commonAncestors hg] at hc
      split at h
      · simp at h
      · rename_i s hs
        cases h
        exact .inr ⟨target, s, rfl, hc.1, hc.2.1, hc.2.2, hs, rfl⟩
    · simp at h
  · simp at h

/-- The steps up to a plan. -/
structure Planned (env : RewordEnv) (main : Text) (graph : CommitGraph Oid) (w : RepoWorld) (X : List Oid)
    (m : RewordMessages) (r : Replayer) (d : Dag) (perms : RebasePlanPermissions) (init : InitialMessages)
    (cs : List RewordCommit) (ms : AMap Oid Text) : Prop where
  opened : openRepoDag graph main w = some (r, d)
  allowed : verifyRewriteSet d env.forceRewritePublicCommits false X = .ok perms
  start : rewordMessages env d X m = .ok (.ok init)
  commits : rewordCommits env X = some cs
  prepared : prepareMessages env.comment env.template init cs env.edit = .ok (.succeeded ms)

/-- Why the command stops before there is a plan. -/
theorem reword_steps {main : Text} {tx : Option Text} {w : RepoWorld} {m : RewordMessages} :
    (reword env main graph tx w X m = (w, .error)) ∨
    (∃ e, reword env main graph tx w X m = (w, .refused e) ∧
      ((∀ e', e ≠ .planner e') ∨ ∃ r d e', openRepoDag graph main w = some (r, d) ∧ e = .planner e' ∧
        verifyRewriteSet d env.forceRewritePublicCommits false X = .error e')) ∨
    ∃ r d perms init cs ms, Planned env main graph w X m r d perms init cs ms ∧
      reword env main graph tx w X m = executeReword env tx w (rewordPlan env d perms ms X) := by
  unfold reword
  split
  · exact .inl rfl
  rename_i r d hd
  split
  · rename_i e he
    exact .inr (.inl ⟨_, rfl, .inr ⟨r, d, e, hd, rfl, he⟩⟩)
  rename_i perms hp
  split
  · exact .inl rfl
  · rename_i e he
    refine .inr (.inl ⟨e, rfl, .inl ?_⟩)
    rintro e' rfl
    unfold rewordMessages at he
    split at he
    · simp at he
    · split at he
      · split at he <;> simp at he
      · simp at he
    · simp at he
  rename_i init hi
  unfold rewordWith
  split
  · exact .inl rfl
  rename_i cs hc
  split
  · exact .inl rfl
  · exact .inr (.inl ⟨_, rfl, .inl (by simp)⟩)
  · exact .inr (.inl ⟨_, rfl, .inl (by simp)⟩)
  · exact .inr (.inl ⟨_, rfl, .inl (by simp)⟩)
  · rename_i ms hm
    exact .inr (.inr ⟨r, d, perms, init, cs, ms, ⟨hd, hp, hi, hc, hm⟩, rfl⟩)

/-- There is always a plan once the commits were made, unless no commit is selected. -/
theorem reword_plan_exists {main : Text} {w : RepoWorld} (hg : WFGraph graph) (hw : AMap.WF w.git.refs)
    {es : List Event} (he : w.db.getEvents = some es) (hag : Agrees graph env.exec)
    (hn : NoCollisions env.exec) (hX : ∀ x ∈ X, x ∈ graph.nodes) {m : RewordMessages} {r : Replayer} {d : Dag}
    {perms : RebasePlanPermissions} {init : InitialMessages} {cs : List RewordCommit} {ms : AMap Oid Text}
    (P : Planned env main graph w X m r d perms init cs ms) :
    (∃ e, rewordPlan env d perms ms X = .error e) ∨
    (X = [] ∧ ∃ made, rewordPlan env d perms ms X = .ok (.ok none, made)) ∨
    ∃ b made k plan, rewordPlan env d perms ms X = .ok (.ok (some plan), made) ∧
      RewordSetup env graph (Seen graph main w.git es) X ms b made k ∧ b.build = .ok (.ok (some plan)) := by
  obtain ⟨hgr, -⟩ := graph_opened he P.opened
  have hs := seen_opened hg hw he P.opened
  subst hgr
  have hdet : perms.detectDuplicateCommitsViaPatchId = false := by
    have := P.allowed
    unfold verifyRewriteSet at this
    simp only at this
    split at this
    · simp at this
    · cases this; rfl
  have hall := verify_rewrite_set_allows d hg _ _ _ _ P.allowed
  unfold rewordPlan
  split
  · exact .inl ⟨_, rfl⟩
  rename_i b made hb
  obtain ⟨k, S⟩ := rewordSetup hg hs hX hag hn hdet hb
  have hperm : b.permissions = perms := (requested hb).same.2
  obtain ⟨plan, h1, h2⟩ := build_moves S.graph_ok S.no_fixups S.acyclic (by
    intro p c hpc
    rw [S.moves] at hpc
    show c ∈ b.permissions.allowedCommits
    rw [hperm, hall]
    refine ⟨hpc.2.child_mem, ?_⟩
    rcases hpc.1 with h | ⟨_, x, hx, hxc⟩
    · exact ⟨c, h, .refl⟩
    · exact ⟨x, hx, hxc⟩)
  rw [h1]
  right
  cases plan with
  | none =>
    left
    have hno := h2.1 rfl
    refine ⟨?_, made, rfl⟩
    rw [List.eq_nil_iff_forall_not_mem]
    intro x hx
    obtain ⟨p, hp⟩ := (S.moved_iff x).2 (.inl hx)
    exact hno ⟨p, x, (S.moves p x).2 hp⟩
  | some plan => exact .inr ⟨_, made, k, plan, rfl, S, h1⟩

theorem rewordCommits_forall₂ {X : List Oid} {cs : List RewordCommit} (h : rewordCommits env X = some cs) :
    List.Forall₂ (fun c (r : RewordCommit) => ∃ d, env.exec.commits c = some d ∧
      r = ⟨c, env.short c, d.message⟩) X cs := by
  unfold rewordCommits at h
  induction X generalizing cs with
  | nil => cases h; exact .nil
  | cons c X ih =>
    rw [List.mapM_cons] at h
    cases hc : env.exec.commits c with
    | none => rw [hc] at h; simp at h
    | some d =>
      rw [hc] at h
      cases hr : X.mapM (fun c => (env.exec.commits c).map fun d =>
          (⟨c, env.short c, d.message⟩ : RewordCommit)) with
      | none => rw [hr] at h; simp at h
      | some rest =>
        rw [hr] at h
        simp only [Option.map_some, Option.pure_def, Option.bind_eq_bind, Option.bind_some,
          Option.some.injEq] at h
        subst h
        exact .cons ⟨d, hc, rfl⟩ (ih hr)

/-- C65: what `reword` does if it succeeds. The selected commits are not on the main branch, and have no
descendants there, unless this was forced. Each of them has a new message, and their visible descendants were
put on top of the new versions, without any change of files (see `Reworded`). Then the references are updated
(C22, C23, C24). -/
theorem reword_command (graph : CommitGraph Oid) (hg : WFGraph graph) (main : Text) (w : RepoWorld)
    (hw : AMap.WF w.git.refs) (es : List Event) (he : w.db.getEvents = some es) (env : RewordEnv)
    (hag : Agrees graph env.exec) (hn : NoCollisions env.exec) (hcp : CleanPicks env.exec) (tx : Option Text)
    (X : List Oid) (hX : ∀ x ∈ X, x ∈ graph.nodes) (m : RewordMessages) (w' : RepoWorld)
    (h : reword env main graph tx w X m = (w', .done)) :
    (env.forceRewritePublicCommits = true ∨
      ∀ x ∈ X, ∀ c, Anc graph x c → ¬ OnMain graph main w.git c) ∧
    ∃ init cs ms, StartsWith env graph X m init ∧
      List.Forall₂ (fun c (r : RewordCommit) => ∃ d, env.exec.commits c = some d ∧
        r = ⟨c, env.short c, d.message⟩) X cs ∧
      prepareMessages env.comment env.template init cs env.edit = .ok (.succeeded ms) ∧
      ∃ created rewritten newHead ok,
        Reworded graph (Seen graph main w.git es) X (AMap.get? ms) env.exec created rewritten
          w.git.headInfo.oid newHead ∧
        postRebaseInMemory (env.finish created) { w with db := (w.db.makeTransactionId tx t!"reword").2 }
          rewritten newHead = (w', .ok ok) := by
  rcases reword_steps (env := env) (graph := graph) (X := X) (main := main) (tx := tx) (w := w) (m := m) with
    h1 | ⟨e, h1, _⟩ | ⟨r, d, perms, init, cs, ms, P, h1⟩
  · rw [h1] at h; simp at h
  · rw [h1] at h; simp at h
  rw [h1] at h
  obtain ⟨hgr, -⟩ := graph_opened he P.opened
  refine ⟨?_, init, cs, ms, hgr ▸ rewordMessages_ok (hgr ▸ hg) P.start, ?_, P.prepared, ?_⟩
  · refine ((verify_rewrite_set_iff d (hgr ▸ hg) env.forceRewritePublicCommits false X).1
      ⟨perms, P.allowed⟩).imp id fun h2 x hx c hxc hc => ?_
    rw [hgr] at h2
    exact h2 x hx c (hxc.mem_up (hX x hx)) hxc ((public_opened hw he P.opened c).2 hc)
  · have := P.commits
    exact rewordCommits_forall₂ this
  rcases reword_plan_exists hg hw he hag hn hX P with ⟨e, h2⟩ | ⟨_, made, h2⟩ | ⟨b, made, k, plan, h2, S, hb⟩
  · rw [h2] at h; simp [executeReword] at h
  · rw [h2] at h; simp [executeReword] at h
  rw [h2] at h
  simp only [executeReword] at h
  split at h
  · simp at h
  · rename_i w2 x hx
    simp only [Prod.mk.injEq, and_true] at h
    subst h
    obtain ⟨s, newHead, ok, h3, h4⟩ := executeRebasePlan_inMemory ⟨rfl, .inl rfl⟩ hx
    exact ⟨s.created ++ made, s.rewritten, newHead, ok, reworded_of_run S hcp hb h3, h4⟩
  · simp at h
  · simp at h

/-- C65: commits of the main branch are refused, and so are commits with descendants there, unless this was
forced; nothing is changed then. For no other reason does the planner refuse to reword commits. -/
theorem reword_public_exact (graph : CommitGraph Oid) (hg : WFGraph graph) (main : Text) (w : RepoWorld)
    (hw : AMap.WF w.git.refs) (es : List Event) (he : w.db.getEvents = some es) (r : Replayer) (d : Dag)
    (hd : openRepoDag graph main w = some (r, d)) (env : RewordEnv)
    (hag : Agrees graph env.exec) (hn : NoCollisions env.exec) (tx : Option Text)
    (X : List Oid) (hX : ∀ x ∈ X, x ∈ graph.nodes) (m : RewordMessages) :
    (∃ e, (reword env main graph tx w X m).2 = .refused (.planner e)) ↔
      (env.forceRewritePublicCommits = false ∧ ∃ x ∈ X, ∃ c, Anc graph x c ∧ OnMain graph main w.git c) := by
  obtain ⟨hgr, -⟩ := graph_opened he hd
  have hiff := verify_rewrite_set_iff d (hgr ▸ hg) env.forceRewritePublicCommits false X
  have hon : (¬ ∃ p, verifyRewriteSet d env.forceRewritePublicCommits false X = .ok p) ↔
      (env.forceRewritePublicCommits = false ∧ ∃ x ∈ X, ∃ c, Anc graph x c ∧ OnMain graph main w.git c) := by
    rw [hiff, not_or, Bool.not_eq_true, hgr]
    refine and_congr_right fun _ => ?_
    push Not
    constructor
    · rintro ⟨s, h1, c, h2, h3, h4⟩; exact ⟨s, h1, c, h3, (public_opened hw he hd c).1 h4⟩
    · rintro ⟨s, h1, c, h3, h4⟩
      exact ⟨s, h1, c, h3.mem_up (hX s h1), h3, (public_opened hw he hd c).2 h4⟩
  rw [← hon]
  constructor
  · rintro ⟨e, h⟩ ⟨p, hp⟩
    rcases reword_steps (env := env) (graph := graph) (X := X) (main := main) (tx := tx) (w := w) (m := m) with
      h1 | ⟨e', h1, h2⟩ | ⟨r', d', perms, init, cs, ms, P, h1⟩
    · rw [h1] at h; simp at h
    · rw [h1] at h
      simp only [RewordOutcome.refused.injEq] at h
      rcases h2 with h2 | ⟨r', d', e2, h3, _, h4⟩
      · exact h2 e h
      · rw [hd] at h3
        cases h3
        rw [hp] at h4
        simp at h4
    · rw [h1] at h
      rcases reword_plan_exists hg hw he hag hn hX P with ⟨e, h2⟩ | ⟨_, made, h2⟩ |
        ⟨b, made, k, plan, h2, S, hb⟩
      · rw [h2] at h; simp [executeReword] at h
      · rw [h2] at h; simp [executeReword] at h
      · rw [h2] at h
        simp only [executeReword] at h
        split at h <;> simp at h
  · intro h
    cases hv : verifyRewriteSet d env.forceRewritePublicCommits false X with
    | ok p => exact absurd ⟨p, hv⟩ h
    | error e =>
      refine ⟨e, ?_⟩
      unfold reword
      rw [hd]
      simp only
      rw [hv]

/-- C65: nothing is changed when `reword` refuses. -/
theorem reword_refused_unchanged (graph : CommitGraph Oid) (hg : WFGraph graph) (main : Text) (w : RepoWorld)
    (hw : AMap.WF w.git.refs) (es : List Event) (he : w.db.getEvents = some es) (env : RewordEnv)
    (hag : Agrees graph env.exec) (hn : NoCollisions env.exec) (tx : Option Text)
    (X : List Oid) (hX : ∀ x ∈ X, x ∈ graph.nodes) (m : RewordMessages) (w' : RepoWorld) (e : RewordRefusal)
    (h : reword env main graph tx w X m = (w', .refused e)) : w' = w := by
  rcases reword_steps (env := env) (graph := graph) (X := X) (main := main) (tx := tx) (w := w) (m := m) with
    h1 | ⟨e', h1, _⟩ | ⟨r', d', perms, init, cs, ms, P, h1⟩
  · rw [h1] at h; simp at h
  · rw [h1] at h; simp only [Prod.mk.injEq] at h; exact h.1.symm
  · rw [h1] at h
    rcases reword_plan_exists hg hw he hag hn hX P with ⟨e, h2⟩ | ⟨_, made, h2⟩ |
      ⟨b, made, k, plan, h2, S, hb⟩
    · rw [h2] at h; simp [executeReword] at h
    · rw [h2] at h; simp [executeReword] at h
    · rw [h2] at h
      simp only [executeReword] at h
      split at h <;> simp at h

theorem executeRebasePlan_forced {ee : ExecEnv} {finish : List (Oid × CommitData) → FinishEnv}
    {disk : OnDiskEnv} {plan : RebasePlan} {w w' : RepoWorld} {x : Except Failure ExecResult}
    (h : executeRebasePlan ee finish disk ⟨true, false, false⟩ plan w = (w', x)) :
    (∀ code, x ≠ .ok (.failed code)) ∧
    ∀ info, x = .ok (.declinedToMerge info) ↔
      ee.rebaseInMemory w.git.headInfo.oid plan = .error (.mergeFailed info) := by
  unfold executeRebasePlan at h
  simp only [Bool.false_eq_true, if_false] at h
  split at h
  · rename_i hr
    simp only [Prod.mk.injEq] at h
    obtain ⟨rfl, rfl⟩ := h
    simp [hr]
  · rename_i hr
    simp only [Prod.mk.injEq] at h
    obtain ⟨rfl, rfl⟩ := h
    simp [hr]
  · rename_i hr
    split at h <;>
    · simp only [Prod.mk.injEq] at h
      obtain ⟨rfl, rfl⟩ := h
      simp [hr]
  · rename_i info hr
    simp only [Bool.not_false, if_true, Prod.mk.injEq] at h
    obtain ⟨rfl, rfl⟩ := h
    simp [hr, eq_comm]

/-- C65: rewording does not cause merge conflicts. If there are no merge commits among the visible descendants
(those selected aside), it does not end with the message which says that this is a bug. -/
theorem reword_no_conflicts (graph : CommitGraph Oid) (hg : WFGraph graph) (main : Text) (w : RepoWorld)
    (hw : AMap.WF w.git.refs) (es : List Event) (he : w.db.getEvents = some es) (env : RewordEnv)
    (hag : Agrees graph env.exec) (hn : NoCollisions env.exec) (hcp : CleanPicks env.exec) (tx : Option Text)
    (X : List Oid) (hX : ∀ x ∈ X, x ∈ graph.nodes)
    (hm : ∀ c, c ∉ X → Affected graph (Seen graph main w.git es) X c → (graph.parentsOf c).length ≤ 1)
    (m : RewordMessages) (w' : RepoWorld) (o : RewordOutcome)
    (h : reword env main graph tx w X m = (w', o)) :
    o = .error ∨ (∃ e, o = .refused e) ∨ o = .done := by
  rcases reword_steps (env := env) (graph := graph) (X := X) (main := main) (tx := tx) (w := w) (m := m) with
    h1 | ⟨e', h1, _⟩ | ⟨r', d', perms, init, cs, ms, P, h1⟩
  · rw [h1] at h; cases h; simp
  · rw [h1] at h; cases h; simp
  rw [h1] at h
  rcases reword_plan_exists hg hw he hag hn hX P with ⟨e, h2⟩ | ⟨_, made, h2⟩ | ⟨b, made, k, plan, h2, S, hb⟩
  · rw [h2] at h; simp only [executeReword, Prod.mk.injEq] at h; exact .inl h.2.symm
  · rw [h2] at h; simp only [executeReword, Prod.mk.injEq] at h; exact .inl h.2.symm
  rw [h2] at h
  have hnm : ∀ c ps, .merge c ps ∉ plan.commands := by
    intro c ps hc
    obtain ⟨-, h3, -⟩ := plan_kinds b k S.graph_ok plan hb
    obtain ⟨h4, h5⟩ := h3 c ps hc
    have h5 : 1 < (b.env.dag.graph.parentsOf c).length := h5
    rw [S.graph_eq] at h5
    have hcX : c ∉ X := by
      rw [← S.replaced c, h4]; simp
    have hone := plan_each_once_partial b k S.graph_ok S.regular plan hb
    have := hone.only c (List.mem_filterMap.2 ⟨_, hc, rfl⟩)
    have hA : Affected graph (Seen graph main w.git es) X c := by
      rcases this with ⟨p, hp⟩ | ⟨fs, hfs⟩
      · rw [S.moves] at hp; exact hp.1
      · rw [S.no_fixups] at hfs; simp at hfs
    have := hm c hcX hA
    omega
  simp only [executeReword] at h
  split at h
  · cases h; simp
  · cases h; simp
  · rename_i w2 info hx
    exfalso
    exact (S.tracked hcp hb hnm _).1 info (((executeRebasePlan_forced hx).2 info).1 rfl)
  · rename_i w2 code hx
    exact absurd rfl ((executeRebasePlan_forced hx).1 code)

/-- C65: if a visible descendant which is not selected is a merge commit, then `reword` does nothing; if
everything else is all right, it says that there is a bug, for such a merge commit. -/
theorem reword_below_merge (graph : CommitGraph Oid) (hg : WFGraph graph) (main : Text) (w : RepoWorld)
    (hw : AMap.WF w.git.refs) (es : List Event) (he : w.db.getEvents = some es) (env : RewordEnv)
    (hag : Agrees graph env.exec) (hn : NoCollisions env.exec) (tx : Option Text)
    (X : List Oid) (hX : ∀ x ∈ X, x ∈ graph.nodes) (c : Oid) (hc : c ∉ X)
    (hA : Affected graph (Seen graph main w.git es) X c) (hm : 1 < (graph.parentsOf c).length)
    (m : RewordMessages) (w' : RepoWorld) (o : RewordOutcome)
    (h : reword env main graph tx w X m = (w', o)) :
    w'.git = w.git ∧ (o = .error ∨ (∃ e, o = .refused e) ∨
      ∃ x, o = .declined (.cannotRebaseMergeInMemory x) ∧ x ∉ X ∧
        Affected graph (Seen graph main w.git es) X x ∧ 1 < (graph.parentsOf x).length) := by
  rcases reword_steps (env := env) (graph := graph) (X := X) (main := main) (tx := tx) (w := w) (m := m) with
    h1 | ⟨e', h1, _⟩ | ⟨r', d', perms, init, cs, ms, P, h1⟩
  · rw [h1] at h; cases h; simp
  · rw [h1] at h; cases h; simp
  rw [h1] at h
  rcases reword_plan_exists hg hw he hag hn hX P with ⟨e, h2⟩ | ⟨_, made, h2⟩ | ⟨b, made, k, plan, h2, S, hb⟩
  · rw [h2] at h; simp only [executeReword, Prod.mk.injEq] at h; exact ⟨by rw [← h.1], .inl h.2.symm⟩
  · rw [h2] at h; simp only [executeReword, Prod.mk.injEq] at h; exact ⟨by rw [← h.1], .inl h.2.symm⟩
  rw [h2] at h
  have hone := plan_each_once_partial b k S.graph_ok S.regular plan hb
  have hns : ¬ Squashed k c := by unfold Squashed; rw [S.no_fixups]; simp
  obtain ⟨p, hp⟩ := (S.moved_iff c).2 hA
  obtain ⟨cmd, hcmd, hh⟩ := List.mem_filterMap.1
    (hone.complete c (.inl ⟨p, (S.moves p c).2 hp⟩) hns)
  obtain ⟨hpk, hpr, hps⟩ := picks_apply b k S.graph_ok plan hb
  obtain ⟨-, hkm, -⟩ := plan_kinds b k S.graph_ok plan hb
  have hmm : IsMerge b.env c := by
    show 1 < (b.env.dag.graph.parentsOf c).length
    rw [S.graph_eq]; exact hm
  have hmerge : ∃ ps, .merge c ps ∈ plan.commands := by
    cases cmd with
    | pick x l =>
      simp only [handled, Option.some.injEq] at hh
      subst hh
      exact absurd hmm (hpk x l hcmd).2
    | merge x ps =>
      simp only [handled, Option.some.injEq] at hh
      subst hh
      exact ⟨ps, hcmd⟩
    | replace x r ps =>
      simp only [handled, Option.some.injEq] at hh
      subst hh
      exact absurd ((S.replaced x).1 (by rw [hpr x r ps hcmd]; rfl)) hc
    | skipUpstreamAppliedCommit x =>
      simp only [handled, Option.some.injEq] at hh
      subst hh
      exact absurd hmm (hps x hcmd)
    | createLabel l => simp [handled] at hh
    | reset t => simp [handled] at hh
    | «break» => simp [handled] at hh
    | registerExtraPostRewriteHook => simp [handled] at hh
    | detectEmptyCommit x => simp [handled] at hh
  obtain ⟨ps, hps⟩ := hmerge
  have hfm : ∃ x ps, ExecEnv.findMerge plan.commands = some x ∧ .merge x ps ∈ plan.commands := by
    cases hf : ExecEnv.findMerge plan.commands with
    | none =>
      unfold ExecEnv.findMerge at hf
      rw [List.findSome?_eq_none_iff] at hf
      have := hf _ hps
      simp at this
    | some x =>
      unfold ExecEnv.findMerge at hf
      obtain ⟨cmd, h3, h4⟩ := List.exists_of_findSome?_eq_some hf
      split at h4
      · rename_i c' ps'
        cases h4
        exact ⟨x, ps', rfl, h3⟩
      · simp at h4
  obtain ⟨x, ps', hf, hxm⟩ := hfm
  simp only [executeReword] at h
  have hex : executeRebasePlan { env.exec with commits := env.exec.find made }
      (fun created => env.finish (created ++ made)) env.disk ⟨true, false, false⟩ plan
      { w with db := (w.db.makeTransactionId tx t!"reword").2 } =
      ({ w with db := (w.db.makeTransactionId tx t!"reword").2 },
        .ok (.declinedToMerge (.cannotRebaseMergeInMemory x))) := by
    unfold executeRebasePlan ExecEnv.rebaseInMemory
    rw [hf]
    rfl
  rw [hex] at h
  simp only [Prod.mk.injEq] at h
  obtain ⟨rfl, rfl⟩ := h
  refine ⟨rfl, .inr (.inr ⟨x, rfl, ?_⟩)⟩
  obtain ⟨h4, h5⟩ := hkm x ps' hxm
  have h5 : 1 < (b.env.dag.graph.parentsOf x).length := h5
  rw [S.graph_eq] at h5
  refine ⟨by rw [← S.replaced x, h4]; simp, ?_, h5⟩
  rcases hone.only x (List.mem_filterMap.2 ⟨_, hxm, rfl⟩) with ⟨p, hp⟩ | ⟨fs, hfs⟩
  · rw [S.moves] at hp; exact hp.1
  · rw [S.no_fixups] at hfs; simp at hfs

/-- C65: a commit without parents cannot be reworded: the command stops with a panic, unless it was refused
before. -/
theorem reword_root_fails (graph : CommitGraph Oid) (main : Text) (w : RepoWorld) (env : RewordEnv)
    (hag : Agrees graph env.exec) (tx : Option Text) (X : List Oid) (hX : ∀ x ∈ X, x ∈ graph.nodes)
    (x : Oid) (hx : x ∈ X) (hr : graph.parentsOf x = []) (m : RewordMessages) :
    reword env main graph tx w X m = (w, .error) ∨
      ∃ e, reword env main graph tx w X m = (w, .refused e) := by
  rcases reword_steps (env := env) (graph := graph) (X := X) (main := main) (tx := tx) (w := w) (m := m) with
    h1 | ⟨e', h1, _⟩ | ⟨r', d', perms, init, cs, ms, P, h1⟩
  · exact .inl h1
  · exact .inr ⟨e', h1⟩
  left
  rw [h1]
  unfold rewordPlan
  cases hf : X.foldlM (rewordOne env ms) (⟨env.planEnv d' [], perms, [], []⟩, []) with
  | error e => rfl
  | ok s =>
    exfalso
    obtain ⟨_, ⟨f, _, h2⟩, _⟩ := requested (b := s.1) (made := s.2) hf
    obtain ⟨h3, d, h4, h5⟩ := h2 x hx
    obtain ⟨d2, h6, h7⟩ := hag x (hX x hx)
    rw [h4] at h6
    cases h6
    exact h3 (by rw [← h5, h7, hr])

/-- C65: `--fixup` needs one commit, and it has to be an ancestor of all those which are reworded. -/
theorem reword_fixup_exact (graph : CommitGraph Oid) (hg : WFGraph graph) (main : Text) (w : RepoWorld)
    (es : List Event) (he : w.db.getEvents = some es) (r : Replayer) (d : Dag)
    (hd : openRepoDag graph main w = some (r, d)) (env : RewordEnv) (tx : Option Text) (X : List Oid)
    (hX : X ≠ []) (perms : RebasePlanPermissions)
    (hp : verifyRewriteSet d env.forceRewritePublicCommits false X = .ok perms) (targets : List Oid)
    (ht : ∀ t ∈ targets, t ∈ graph.nodes) :
    (targets.length ≠ 1 → reword env main graph tx w X (.fixUp targets) =
      (w, .refused (.fixupCount targets.length))) ∧
    (∀ t, targets = [t] → (¬ ∀ x ∈ X, Anc graph t x) →
      reword env main graph tx w X (.fixUp targets) = (w, .refused .fixupNotAncestor)) ∧
    (∀ t s, targets = [t] → (∀ x ∈ X, Anc graph t x) → env.summary t = some s →
      reword env main graph tx w X (.fixUp targets) =
        reword env main graph tx w X (.given (.messages [t!"fixup! " ++ s]))) := by
  obtain ⟨hgr, -⟩ := graph_opened he hd
  refine ⟨?_, ?_, ?_⟩
  · intro hl
    unfold reword
    rw [hd]
    simp only
    rw [hp]
    simp only
    match targets, hl with
    | [], _ => rfl
    | _ :: _ :: _, _ => rfl
  · rintro t rfl hna
    unfold reword
    rw [hd]
    simp only
    rw [hp]
    simp only [rewordMessages]
    rw [if_neg]
    rw [List.contains_iff_mem, hgr, mem_commonAncestors hg]
    exact fun h => hna h.2.2
  · rintro t s rfl ha hs
    unfold reword
    rw [hd]
    simp only
    rw [hp]
    simp only [rewordMessages]
    rw [if_pos]
    · rw [hs]
    · rw [List.contains_iff_mem, hgr, mem_commonAncestors hg]
      exact ⟨hX, ht t (by simp), ha⟩

end Verif.Props
