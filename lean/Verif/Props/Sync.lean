import Verif.Lemmas.ExecuteFault
import Verif.Props.ExecuteChoice

/-! C67, C68: `sync`. -/

namespace Verif.Props

open Verif Verif.Spec Verif.RebasePlanBuilder

/-! ### the stacks -/

/-- C67: the stacks which are moved. Their first commits are visible and not on the main branch, but all of
their parents are; with arguments, they are below one of the commits for which the arguments stand. -/
theorem sync_roots_exact (graph : CommitGraph Oid) (hg : WFGraph graph) (main : Text) (w : RepoWorld)
    (hw : AMap.WF w.git.refs) (es : List Event) (he : w.db.getEvents = some es) (r : Replayer) (d : Dag)
    (h : openRepoDag graph main w = some (r, d)) (sets : List (List Oid)) (c : Oid) :
    c ∈ stackRoots d sets ↔ StackRoot graph main w.git es sets c :=
  mem_stackRoots hg hw he h sets c

/-- C67: every commit which is visible and not on the main branch is in some stack. -/
theorem sync_roots_cover (graph : CommitGraph Oid) (hg : WFGraph graph) (main : Text) (w : RepoWorld)
    (hw : AMap.WF w.git.refs) (es : List Event) (he : w.db.getEvents = some es) (r : Replayer) (d : Dag)
    (h : openRepoDag graph main w = some (r, d)) (sets : List (List Oid)) (c : Oid)
    (hc : Draft graph main w.git es c) (hsel : sets = [] ∨ ∃ s ∈ sets, c ∈ s) :
    ∃ root, StackRoot graph main w.git es sets root ∧ Anc graph root c := by
  have hdr := mem_draftCommits hg hw he h
  have hroots := mem_stackRoots hg hw he h []
  obtain ⟨hgr, -⟩ := graph_opened he h
  subst hgr
  obtain ⟨root, h1, h2⟩ := exists_root hg ((hdr c).2 hc)
  obtain ⟨h3, h4, _⟩ := (hroots root).1 h1
  refine ⟨root, ⟨h3, h4, hsel.imp id ?_⟩, h2⟩
  rintro ⟨s, hs, hcs⟩
  exact ⟨s, hs, c, hcs, h2⟩

/-! ### the plans -/

/-- What the plan for a stack is. -/
inductive StackPlan (env : MoveCmdEnv) (b : RebasePlanBuilder) (graph : CommitGraph Oid) (dest root : Oid) :
    Option RebasePlan → Prop
  | upToDate : graph.parentsOf root = [dest] → StackPlan env b graph dest root none
  | move {plan} : graph.parentsOf root ≠ [dest] →
      ({ b with initialConstraints := b.initialConstraints ++ [.moveSubtree [dest] root] } :
        RebasePlanBuilder).build = .ok (.ok (some plan)) →
      StackPlan env b graph dest root (some plan)

theorem mapM_except_forall {α β ε : Type} {f : α → Except ε β} {P : α → β → Prop} {l : List α}
    (h : ∀ a ∈ l, ∃ b, f a = .ok b ∧ P a b) : ∃ bs, l.mapM f = .ok bs ∧ List.Forall₂ P l bs := by
  induction l with
  | nil => exact ⟨[], rfl, .nil⟩
  | cons a l ih =>
    obtain ⟨b, hb, hp⟩ := h a (by simp)
    obtain ⟨bs, hbs, hps⟩ := ih fun a ha => h a (List.mem_cons_of_mem _ ha)
    refine ⟨b :: bs, ?_, .cons hp hps⟩
    rw [List.mapM_cons, hb, hbs]
    rfl

/-- There are plans for all the stacks. -/
theorem stackPlans_ok {env : MoveCmdEnv} {b : RebasePlanBuilder} (hg : WFGraph b.env.dag.graph)
    (hb : b.initialConstraints = []) {seen : Oid → Prop}
    (hs : ∀ o, seen o ↔ o ∈ b.env.dag.graph.nodes ∧ ∃ x ∈ b.env.dag.visibleHeads, Anc b.env.dag.graph o x)
    (ha : Agrees b.env.dag.graph env.exec) {dest : Oid} {roots : List Oid}
    (hr : ∀ root ∈ roots, root ∈ b.env.dag.graph.nodes ∧ ¬ Anc b.env.dag.graph root dest ∧
      ∀ c ∈ b.env.dag.graph.nodes, Anc b.env.dag.graph root c → c ∈ b.permissions.allowedCommits) :
    ∃ plans, stackPlans env b dest roots = .ok (.ok plans) ∧
      List.Forall₂ (fun root x => x.1 = root ∧ StackPlan env b b.env.dag.graph dest root x.2) roots plans := by
  obtain ⟨ps, h1, h2⟩ := mapM_except_forall (f := stackPlan env b dest) (l := roots)
    (P := fun root x => ∃ y, x = .ok y ∧ y.1 = root ∧ StackPlan env b b.env.dag.graph dest root y.2) (by
      intro root hroot
      obtain ⟨n1, n2, n3⟩ := hr root hroot
      obtain ⟨data, d1, d2⟩ := ha root n1
      unfold stackPlan
      rw [d1]
      simp only
      rw [d2]
      split
      · rename_i hp
        exact ⟨_, rfl, _, rfl, rfl, .upToDate hp⟩
      · rename_i hp
        obtain ⟨plan, hplan⟩ := subtree_plan (b := { b with
          initialConstraints := b.initialConstraints ++ [.moveSubtree [dest] root] }) hg hs
          (by simp [hb]) n1 n2 n3
        simp only [moveSubtree, List.isEmpty_cons, Bool.false_eq_true, if_false]
        rw [hplan]
        exact ⟨_, rfl, _, rfl, rfl, .move hp hplan⟩)
  have h3 : ∃ plans, ps.mapM id = .ok plans ∧
      List.Forall₂ (fun root x => x.1 = root ∧ StackPlan env b b.env.dag.graph dest root x.2) roots plans := by
    clear h1
    induction h2 with
    | nil => exact ⟨[], rfl, .nil⟩
    | cons h _ ih =>
      obtain ⟨y, rfl, hy1, hy2⟩ := h
      obtain ⟨plans, hp, hp'⟩ := ih fun r h => hr r (List.mem_cons_of_mem _ h)
      refine ⟨y :: plans, ?_, .cons ⟨hy1, hy2⟩ hp'⟩
      rw [List.mapM_cons, hp]
      rfl
  obtain ⟨plans, h3, h4⟩ := h3
  refine ⟨plans, ?_, h4⟩
  unfold stackPlans
  rw [h1]
  simp only
  rw [h3]

/-! ### the execution -/

theorem executeRebasePlan_not_failed {ee : ExecEnv} {finish : List (Oid × CommitData) → FinishEnv}
    {disk : OnDiskEnv} {o : ExecOptions} (ho : InMemoryOnly o) {plan : RebasePlan} {w w' : RepoWorld}
    {code : Nat} : executeRebasePlan ee finish disk o plan w ≠ (w', .ok (.failed code)) := by
  intro h
  unfold executeRebasePlan at h
  simp only at h
  rw [if_neg (by rw [ho.1]; simp)] at h
  split at h
  · simp at h
  · simp at h
  · split at h <;> simp at h
  · rcases ho.2 with h1 | h1
    · rw [h1] at h
      simp only [if_true] at h
      split at h <;> simp at h
    · rw [h1] at h
      simp at h

theorem executeRebasePlan_error {ee : ExecEnv} {finish : List (Oid × CommitData) → FinishEnv}
    {disk : OnDiskEnv} {o : ExecOptions} (ho : InMemoryOnly o) {plan : RebasePlan} {w w' : RepoWorld}
    {f : Failure} (h : executeRebasePlan ee finish disk o plan w = (w', .error f)) :
    (w' = w ∧ ∃ e, ee.rebaseInMemory w.git.headInfo.oid plan = .error e ∧ ∀ info, e ≠ .mergeFailed info) ∨
    ∃ s newHead e, ee.rebaseInMemory w.git.headInfo.oid plan = .ok (s, newHead) ∧
      postRebaseInMemory (finish s.created) w s.rewritten newHead = (w', .error e) := by
  unfold executeRebasePlan at h
  simp only at h
  rw [if_neg (by rw [ho.1]; simp)] at h
  split at h
  · rename_i hx
    cases h
    exact .inl ⟨rfl, _, hx, by simp⟩
  · rename_i hx
    cases h
    exact .inl ⟨rfl, _, hx, by simp⟩
  · rename_i s newHead hx
    split at h
    · rename_i w1 e hp
      cases h
      exact .inr ⟨s, newHead, _, hx, hp⟩
    · simp at h
  · rcases ho.2 with h1 | h1
    · rw [h1] at h
      simp only [if_true] at h
      split at h <;> simp at h
    · rw [h1] at h
      simp at h

/-- One plan. -/
theorem executePlans_one {env : MoveCmdEnv} (ho : InMemoryOnly env.options) (hn : NoCollisions env.exec)
    {b : RebasePlanBuilder} (hg : WFGraph b.env.dag.graph) {dest c : Oid}
    (hb : b.initialConstraints = [.moveSubtree [dest] c])
    (hrep : b.replacementCommits = []) (hpid : b.env.patchId = env.patchId)
    (hdet : b.permissions.detectDuplicateCommitsViaPatchId = env.detectDuplicateCommitsViaPatchId)
    {seen : Oid → Prop}
    (hs : ∀ o, seen o ↔ o ∈ b.env.dag.graph.nodes ∧ ∃ x ∈ b.env.dag.visibleHeads, Anc b.env.dag.graph o x)
    (ha : Agrees b.env.dag.graph env.exec) (hc : c ∈ b.env.dag.graph.nodes)
    (hsort : ∀ s x, x ∈ b.env.sortedCommitSet s ↔ x ∈ s) (hdn : dest ∈ b.env.dag.graph.nodes)
    (hd : ¬ Anc b.env.dag.graph c dest) {plan : RebasePlan} (hplan : b.build = .ok (.ok (some plan)))
    (w : RepoWorld) (report : SyncReport) (rest : List (Oid × Option RebasePlan)) :
    (∃ w', MoveBroke env b.env.dag.graph seen c dest w w' ∧
      executePlans env w report ((c, some plan) :: rest) = (w', .error)) ∨
    (∃ w1, (b.env.dag.graph.parentsOf c).length ≤ 1 ∧
      MovedInMemory env b.env.dag.graph seen c dest w w1 ∧
      executePlans env w report ((c, some plan) :: rest) =
        executePlans env w1 { report with synced := report.synced ++ [c] } rest) ∨
    ((∃ p x, SubtreeMoves b.env.dag.graph seen c dest p x ∧ Stuck b.env.dag.graph env.exec x) ∧
      executePlans env w report ((c, some plan) :: rest) =
        executePlans env w { report with declined := report.declined ++ [c] } rest) := by
  rw [executePlans]
  split
  · rename_i w1 f hx
    refine .inl ⟨w1, ?_, rfl⟩
    rcases executeRebasePlan_error ho hx with ⟨rfl, e, hx, hne⟩ | ⟨s, newHead, e, hrun, hpost⟩
    · obtain ⟨k, hk, hf, -, hmv⟩ := subtree_moves hg hs hb
      obtain ⟨p, x, h1, h2⟩ := error_reason hsort hk hf hrep hplan hn (by
        rintro p x (hp | hp)
        · obtain ⟨d, hd, _⟩ := ha p (((mem_parentsOf hg).1 hp).parent_mem hg)
          exact ⟨d, hd⟩
        · have hpn : p ∈ b.env.dag.graph.nodes := by
            rcases (hmv p x).1 hp with ⟨_, rfl⟩ | ⟨_, _, _, hpar⟩
            · exact hdn
            · exact hpar.parent_mem hg
          obtain ⟨d, hd, _⟩ := ha p hpn
          exact ⟨d, hd⟩) (by
        intro p x hx
        exact ha x (((subtreeMoves_iff hg).1 ⟨p, (hmv p x).1 hx⟩).1.mem_up hc)) hne hx
      exact .inl ⟨rfl, p, x, (hmv p x).1 h1, h2⟩
    · have hrel := subtree_relocated hg hs hb hd hrep hplan hn hrun
      simp only [hpid, hdet] at hrel
      exact .inr ⟨s, newHead, e, hrel.2, hpost⟩
  · rename_i w1 x hx
    obtain ⟨s, newHead, ok, hrun, hpost⟩ := executeRebasePlan_inMemory ho hx
    have hrel := subtree_relocated hg hs hb hd hrep hplan hn hrun
    simp only [hpid, hdet] at hrel
    exact .inr (.inl ⟨w1, hrel.1, ⟨s, newHead, ok, hrel.2, hpost⟩, rfl⟩)
  · rename_i w1 info hx
    obtain ⟨rfl, hx⟩ := declined_changes_nothing _ _ _ _ _ _ _ _ hx
    obtain ⟨k, hk, hf, -, hmv⟩ := subtree_moves hg hs hb
    obtain ⟨p, x, h1, h2⟩ := declined_reason hk hf hrep hplan hn (by
      intro p x hx
      exact ha x (((subtreeMoves_iff hg).1 ⟨p, (hmv p x).1 hx⟩).1.mem_up hc)) hx
    exact .inr (.inr ⟨⟨p, x, (hmv p x).1 h1, h2⟩, rfl⟩)
  · rename_i w1 code hx
    exact absurd hx (executeRebasePlan_not_failed ho)

theorem executePlans_spec {env : MoveCmdEnv} (ho : InMemoryOnly env.options) (hn : NoCollisions env.exec)
    {b : RebasePlanBuilder} (hg : WFGraph b.env.dag.graph) (hb : b.initialConstraints = [])
    (hrep : b.replacementCommits = []) (hpid : b.env.patchId = env.patchId)
    (hdet : b.permissions.detectDuplicateCommitsViaPatchId = env.detectDuplicateCommitsViaPatchId)
    {seen : Oid → Prop}
    (hs : ∀ o, seen o ↔ o ∈ b.env.dag.graph.nodes ∧ ∃ x ∈ b.env.dag.visibleHeads, Anc b.env.dag.graph o x)
    (ha : Agrees b.env.dag.graph env.exec) (hsort : ∀ s x, x ∈ b.env.sortedCommitSet s ↔ x ∈ s)
    {dest : Oid} (hdn : dest ∈ b.env.dag.graph.nodes) {roots : List Oid} {plans : List (Oid × Option RebasePlan)}
    (hr : ∀ root ∈ roots, root ∈ b.env.dag.graph.nodes ∧ ¬ Anc b.env.dag.graph root dest)
    (hp : List.Forall₂ (fun root x => x.1 = root ∧ StackPlan env b b.env.dag.graph dest root x.2) roots plans)
    (w : RepoWorld) (report : SyncReport) :
    ∃ w1 statuses, SyncedStacks (SyncedStack env b.env.dag.graph seen dest) w statuses w1 ∧
      ((statuses.map Prod.fst = roots ∧
        executePlans env w report plans = (w1, .done ⟨report.synced ++ withStatus statuses .synced,
          report.declined ++ withStatus statuses .declined, report.skipped ++ withStatus statuses .skipped⟩)) ∨
      ∃ root rest w', roots = statuses.map Prod.fst ++ root :: rest ∧
        b.env.dag.graph.parentsOf root ≠ [dest] ∧ MoveBroke env b.env.dag.graph seen root dest w1 w' ∧
        executePlans env w report plans = (w', .error)) := by
  induction hp generalizing w report with
  | nil => exact ⟨w, [], .nil w, .inl ⟨rfl, by simp [executePlans, withStatus]⟩⟩
  | @cons root x roots plans hx _ ih =>
    obtain ⟨c, p⟩ := x
    obtain ⟨rfl, hx⟩ := hx
    have ih := ih fun r h => hr r (List.mem_cons_of_mem _ h)
    have next : ∀ w1 status report', SyncedStack env b.env.dag.graph seen dest c w w1 status →
        report' = ⟨report.synced ++ withStatus [(c, status)] .synced,
          report.declined ++ withStatus [(c, status)] .declined,
          report.skipped ++ withStatus [(c, status)] .skipped⟩ →
        executePlans env w report ((c, p) :: plans) = executePlans env w1 report' plans →
        ∃ w1 statuses, SyncedStacks (SyncedStack env b.env.dag.graph seen dest) w statuses w1 ∧
          ((statuses.map Prod.fst = c :: roots ∧
            executePlans env w report ((c, p) :: plans) = (w1, .done
              ⟨report.synced ++ withStatus statuses .synced, report.declined ++ withStatus statuses .declined,
                report.skipped ++ withStatus statuses .skipped⟩)) ∨
          ∃ root rest w', c :: roots = statuses.map Prod.fst ++ root :: rest ∧
            b.env.dag.graph.parentsOf root ≠ [dest] ∧ MoveBroke env b.env.dag.graph seen root dest w1 w' ∧
            executePlans env w report ((c, p) :: plans) = (w', .error)) := by
      rintro w1 status report' h1 rfl h3
      rw [h3]
      obtain ⟨w2, sts, h4, h5⟩ := ih w1 ⟨report.synced ++ withStatus [(c, status)] .synced,
          report.declined ++ withStatus [(c, status)] .declined,
          report.skipped ++ withStatus [(c, status)] .skipped⟩
      refine ⟨w2, (c, status) :: sts, .cons h1 h4, ?_⟩
      rcases h5 with ⟨h5, h6⟩ | ⟨r, rest, w', h5, h6⟩
      · refine .inl ⟨by simp [h5], ?_⟩
        rw [h6]
        cases status <;> simp [withStatus]
      · exact .inr ⟨r, rest, w', by simp [h5], h6⟩
    cases hx with
    | upToDate hpar =>
      refine next w .skipped _ ⟨hpar, rfl⟩ rfl ?_
      rw [executePlans]
      simp [withStatus]
    | @move plan hpar hplan =>
      rcases executePlans_one ho hn (b := { b with
          initialConstraints := b.initialConstraints ++ [.moveSubtree [dest] c] }) hg (by simp [hb]) hrep hpid hdet
          hs ha (hr c (by simp)).1 hsort hdn (hr c (by simp)).2 hplan w report plans with
        ⟨w', hbr, h⟩ | ⟨w1, hl, hm, h⟩ | ⟨hst, h⟩
      · exact ⟨w, [], .nil w, .inr ⟨c, roots, w', rfl, hpar, hbr, h⟩⟩
      · refine next w1 .synced _ ⟨hpar, hl, hm⟩ rfl ?_
        rw [h]
        simp [withStatus]
      · refine next w .declined _ ⟨hpar, rfl, hst⟩ rfl ?_
        rw [h]
        simp [withStatus]

theorem verify_detect {d : Dag} {force detect : Bool} {cs : List Oid} {p : RebasePlanPermissions}
    (h : verifyRewriteSet d force detect cs = .ok p) : p.detectDuplicateCommitsViaPatchId = detect := by
  unfold verifyRewriteSet at h
  simp only at h
  split at h
  · simp at h
  · cases h; rfl

/-- C67: what `sync` does with the stacks, when rebases are made in memory. Each stack (see `StackRoot`) is
dealt with once: it is left alone if it is on the commit of the main branch already, otherwise it is moved
there with all its visible commits, or left alone if one of them has conflicts or is a merge commit. What is
reported is what was done. It stops before the end only if the repository does not work (see `MoveBroke`). The
planner never refuses. -/
theorem sync_stacks_in_memory (graph : CommitGraph Oid) (hg : WFGraph graph) (main : Text) (w : RepoWorld)
    (hw : AMap.WF w.git.refs) (es : List Event) (he : w.db.getEvents = some es) (env : MoveCmdEnv)
    (hc : SetContract env) (ho : InMemoryOnly env.options) (hn : NoCollisions env.exec)
    (ha : Agrees graph env.exec) (hmain : ∀ o, w.git.refs.get? main = some o → o ∈ graph.nodes)
    (sets : List (List Oid)) :
    ((openRepoDag graph main w = none ∨ w.git.refs.get? main = none) ∧
      syncStacks env main graph w sets = (w, .error)) ∨
    ∃ mainOid statuses w1, w.git.refs.get? main = some mainOid ∧
      (statuses.map Prod.fst).Nodup ∧
      SyncedStacks (SyncedStack env graph (Seen graph main w.git es) mainOid) w statuses w1 ∧
      (((∀ c, c ∈ statuses.map Prod.fst ↔ StackRoot graph main w.git es sets c) ∧
        syncStacks env main graph w sets = (w1, .done (reportOf statuses))) ∨
      (∀ c ∈ statuses.map Prod.fst, StackRoot graph main w.git es sets c) ∧
        ∃ root w', StackRoot graph main w.git es sets root ∧ root ∉ statuses.map Prod.fst ∧
          graph.parentsOf root ≠ [mainOid] ∧
          MoveBroke env graph (Seen graph main w.git es) root mainOid w1 w' ∧
          syncStacks env main graph w sets = (w', .error)) := by
  unfold syncStacks
  split
  · rename_i r d mainOid hd hm
    have hroots := mem_stackRoots hg hw he hd sets
    have hs := seen_opened hg hw he hd
    have hpub := public_opened hw he hd
    obtain ⟨hgr, -⟩ := graph_opened he hd
    subst hgr
    cases hv : verifyRewriteSet d env.forceRewritePublicCommits env.detectDuplicateCommitsViaPatchId
        (stackRoots d sets) with
    | error e =>
      exfalso
      have := (verify_rewrite_set_iff d hg env.forceRewritePublicCommits
        env.detectDuplicateCommitsViaPatchId (stackRoots d sets)).2 (.inr (by
          intro s hs' c _ hsc hc
          exact ((hroots s).1 hs').1.2 (onMain_below hsc ((hpub c).1 hc))))
      rw [hv] at this
      simp at this
    | ok perms =>
      simp only
      have hall := verify_rewrite_set_allows d hg _ _ _ _ hv
      have hr : ∀ root ∈ sortedCommitSet env.nav d (stackRoots d sets), root ∈ d.graph.nodes ∧
          ¬ Anc d.graph root mainOid ∧
          ∀ c ∈ d.graph.nodes, Anc d.graph root c → c ∈ perms.allowedCommits := by
        intro root hroot
        rw [mem_sortedCommitSet hc] at hroot
        have hsr := (hroots root).1 hroot
        refine ⟨hsr.1.1.1, fun h => hsr.1.2 ⟨mainOid, hm, h⟩, fun c hcn hrc => ?_⟩
        exact (hall c).2 ⟨hcn, root, hroot, hrc⟩
      obtain ⟨plans, h1, h2⟩ := stackPlans_ok (env := env) (b := ⟨env.planEnv d, perms, [], []⟩) hg rfl hs ha hr
      rw [h1]
      simp only
      obtain ⟨w1, sts, h4, h5⟩ := executePlans_spec ho hn (b := ⟨env.planEnv d, perms, [], []⟩) hg rfl rfl rfl
        (verify_detect hv) hs ha (fun s x => mem_sortedCommitSet hc) (hmain _ hm)
        (fun r h => ⟨(hr r h).1, (hr r h).2.1⟩) h2 w ⟨[], [], []⟩
      have hnd : (sortedCommitSet env.nav d (stackRoots d sets)).Nodup := nodup_sortedCommitSet hc
      have hmem : ∀ c, c ∈ sortedCommitSet env.nav d (stackRoots d sets) ↔
          StackRoot d.graph main w.git es sets c := by
        intro c
        rw [mem_sortedCommitSet hc, hroots]
      rcases h5 with ⟨h5, h6⟩ | ⟨root, rest, w', h5, h6, h7, h8⟩
      · refine .inr ⟨mainOid, sts, w1, hm, h5 ▸ hnd, h4, .inl ⟨fun c => by rw [h5, hmem], ?_⟩⟩
        rw [h6]
        simp [reportOf]
      · rw [h5] at hnd
        refine .inr ⟨mainOid, sts, w1, hm, (List.nodup_append.1 hnd).1, h4, .inr ⟨?_, root, w', ?_, ?_, h6, h7, h8⟩⟩
        · intro c hc'
          rw [← hmem, h5]
          exact List.mem_append_left _ hc'
        · rw [← hmem, h5]
          simp
        · intro hr'
          exact (List.nodup_append.1 hnd).2.2 root hr' root (by simp) rfl
  · rename_i hno
    refine .inl ⟨?_, rfl⟩
    cases h1 : openRepoDag graph main w with
    | none => exact .inl rfl
    | some x =>
      cases h2 : w.git.refs.get? main with
      | none => exact .inr rfl
      | some o => exact absurd h2 (hno x.1 x.2 o h1)

/-! ### the main branch -/

/-- The commits which are only on the local main branch. -/
def LocalOnly (graph : CommitGraph Oid) (localOid upstreamOid c : Oid) : Prop :=
  Anc graph c localOid ∧ ¬ Anc graph c upstreamOid

theorem mem_localOnly {graph : CommitGraph Oid} (hg : WFGraph graph) {l u c : Oid} (hl : l ∈ graph.nodes) :
    c ∈ graph.only [l] [u] ↔ LocalOnly graph l u c := by
  rw [mem_only hg]
  unfold LocalOnly
  simp only [List.mem_singleton, exists_eq_left, forall_eq]
  exact ⟨fun h => h.2, fun h => ⟨h.1.mem hg hl, h⟩⟩

theorem localOnly_empty {graph : CommitGraph Oid} (hg : WFGraph graph) {l u : Oid} (hl : l ∈ graph.nodes) :
    (graph.only [l] [u]).isEmpty = true ↔ Anc graph l u := by
  rw [List.isEmpty_iff, List.eq_nil_iff_forall_not_mem]
  simp only [mem_localOnly hg hl, LocalOnly, not_and, not_not]
  exact ⟨fun h => h l .refl, fun h c hc => hc.trans h⟩

/-- C68: `sync --pull` moves the main branch forward if there are no commits which are only on the local
branch. Nothing else is changed, if the main branch is not checked out. -/
theorem sync_main_fast_forward (graph : CommitGraph Oid) (hg : WFGraph graph) (main : Text) (w : RepoWorld)
    (r : Replayer) (d : Dag) (es : List Event) (he : w.db.getEvents = some es)
    (hd : openRepoDag graph main w = some (r, d)) (env : MoveCmdEnv) (pull : PullEnv) (l u : Oid)
    (hl : w.git.refs.get? main = some l) (hln : l ∈ graph.nodes) (hu : pull.upstream w = .ok (some u))
    (h : Anc graph l u) :
    (w.git.head = .symbolic main → syncMain env pull main graph w = match pull.gitRebase u w with
      | (w, 0) => (w, .done ⟨[], [], []⟩)
      | (w, code) => (w, .failed code)) ∧
    (w.git.head ≠ .symbolic main → (∀ n ∈ w.git.refs.keys, pathConflict main n = false) →
      syncMain env pull main graph w =
        (⟨⟨w.git.refs.insert main u, w.git.head⟩, w.db, w.deferred, w.rebaseDir⟩, .done ⟨[], [], []⟩)) := by
  obtain ⟨hgr, -⟩ := graph_opened he hd
  subst hgr
  have hname : w.git.headInfo.referenceName = some main ↔ w.git.head = .symbolic main := by
    unfold GitState.headInfo
    cases w.git.head <;> simp
  constructor
  · intro hh
    unfold syncMain
    rw [hd, hl, hu]
    simp only
    rw [if_pos ((localOnly_empty hg hln).2 h), if_pos (hname.2 hh)]
    rfl
  · intro hh hv
    unfold syncMain
    rw [hd, hl, hu]
    simp only
    rw [if_pos ((localOnly_empty hg hln).2 h), if_neg (fun h => hh (hname.1 h))]
    unfold createReference
    rw [if_neg]
    · rw [List.any_eq_true]
      rintro ⟨n, hn, hp⟩
      rw [hv n hn] at hp
      simp at hp

/-- C68: if there are commits which are only on the local main branch, with one first commit, they are moved
to the upstream branch in memory, with everything on top of them, unless there are conflicts. If there are
several first commits, nothing is done. What is missing: the commits are moved also if they are on the
upstream commit already (`main_ahead_rewritten`), and with several first commits the main branch does not get
the upstream commit (`main_with_merge_not_synced`). -/
theorem sync_main_diverged_partial (graph : CommitGraph Oid) (hg : WFGraph graph) (main : Text) (w : RepoWorld)
    (hw : AMap.WF w.git.refs) (es : List Event) (he : w.db.getEvents = some es)
    (r : Replayer) (d : Dag) (hd : openRepoDag graph main w = some (r, d)) (env : MoveCmdEnv)
    (hc : SetContract env) (ho : InMemoryOnly env.options) (hn : NoCollisions env.exec)
    (ha : Agrees graph env.exec) (pull : PullEnv) (l u : Oid)
    (hl : w.git.refs.get? main = some l) (hln : l ∈ graph.nodes) (hu : pull.upstream w = .ok (some u))
    (hun : u ∈ graph.nodes) (h : ¬ Anc graph l u) :
    let first := fun root => ∀ c, c = root ↔ Topmost graph (LocalOnly graph l u) c
    ((¬ ∃ root, first root) → syncMain env pull main graph w = (w, .done ⟨[], [], []⟩)) ∧
    ∀ root, first root →
      (∃ w', syncMain env pull main graph w = (w', .error) ∧
        MoveBroke env graph (Seen graph main w.git es) root u w w') ∨
      (∃ w', syncMain env pull main graph w = (w', .done ⟨[root], [], []⟩) ∧
        (graph.parentsOf root).length ≤ 1 ∧
        MovedInMemory env graph (Seen graph main w.git es) root u w w') ∨
      (syncMain env pull main graph w = (w, .done ⟨[], [root], []⟩) ∧
        ∃ p c, SubtreeMoves graph (Seen graph main w.git es) root u p c ∧ Stuck graph env.exec c) := by
  intro first
  have hs := seen_opened hg hw he hd
  obtain ⟨hgr, -⟩ := graph_opened he hd
  subst hgr
  have hmem := fun c => mem_localOnly hg (l := l) (u := u) (c := c) hln
  have hne : ¬ (d.graph.only [l] [u]).isEmpty = true := fun h' => h ((localOnly_empty hg hln).1 h')
  have hv : ∃ perms, verifyRewriteSet d true env.detectDuplicateCommitsViaPatchId (d.graph.only [l] [u]) =
      .ok perms := (verify_rewrite_set_iff d hg _ _ _).2 (.inl rfl)
  obtain ⟨perms, hv⟩ := hv
  have htop : ∀ c, c ∈ d.graph.roots (d.graph.only [l] [u]) ↔ Topmost d.graph (LocalOnly d.graph l u) c := by
    intro c
    rw [mem_roots hg]
    unfold Topmost
    simp only [hmem]
  have hvec : ∀ root, env.nav.toVec (d.graph.roots (d.graph.only [l] [u])) = [root] ↔ first root := by
    intro root
    rw [toVec_singleton hc]
    simp only [htop, first]
    exact forall_congr' fun c => Iff.comm
  unfold syncMain
  rw [hd, hl, hu]
  simp only
  rw [if_neg hne, hv]
  simp only
  constructor
  · intro hno
    split
    · rename_i root hroot
      exact absurd ⟨root, (hvec root).1 hroot⟩ hno
    · rfl
  · intro root hroot
    rw [(hvec root).2 hroot]
    have ht : LocalOnly d.graph l u root := ((hroot root).1 rfl).1
    have hrn : root ∈ d.graph.nodes := ht.1.mem hg hln
    simp only [moveSubtree, List.isEmpty_cons, Bool.false_eq_true, if_false, List.nil_append]
    generalize hb : RebasePlanBuilder.mk (env.planEnv d) perms [.moveSubtree [u] root] [] = b
    have henv : b.env = env.planEnv d := by rw [← hb]
    have hini : b.initialConstraints = [.moveSubtree [u] root] := by rw [← hb]
    have hgb : WFGraph b.env.dag.graph := by rw [henv]; exact hg
    obtain ⟨plan, hplan⟩ := subtree_plan (b := b) hgb (seen := Seen d.graph main w.git es)
      (by rw [henv]; exact hs) hini (by rw [henv]; exact hrn) (by rw [henv]; exact ht.2) (by
        intro c hcn hrc
        rw [henv] at hcn hrc
        rw [← hb]
        exact (verify_rewrite_set_allows d hg _ _ _ _ hv c).2 ⟨hcn, root, (hmem root).2 ht, hrc⟩)
    rw [hplan]
    simp only
    have := executePlans_one ho hn (b := b) hgb hini (by rw [← hb]) (by rw [← hb]; rfl)
      (by rw [← hb]; exact verify_detect hv) (seen := Seen d.graph main w.git es) (by rw [henv]; exact hs)
      (by rw [henv]; exact ha) (by rw [henv]; exact hrn)
      (by rw [henv]; exact fun s x => mem_sortedCommitSet hc) (by rw [henv]; exact hun)
      (by rw [henv]; exact ht.2) hplan w ⟨[], [], []⟩ []
    rw [henv] at this
    rcases this with ⟨w', hbr, h⟩ | ⟨w1, h1, h2, h3⟩ | ⟨h1, h2⟩
    · exact .inl ⟨w', h, hbr⟩
    · exact .inr (.inl ⟨w1, by rw [h3]; rfl, h1, h2⟩)
    · exact .inr (.inr ⟨by rw [h2]; rfl, h1⟩)

/-- C68: without an upstream branch, or if it has no commit, nothing is done. -/
theorem sync_main_no_upstream (graph : CommitGraph Oid) (main : Text) (w : RepoWorld) (r : Replayer) (d : Dag)
    (hd : openRepoDag graph main w = some (r, d)) (env : MoveCmdEnv) (pull : PullEnv) (l : Oid)
    (hl : w.git.refs.get? main = some l) (hu : pull.upstream w = .ok none) :
    syncMain env pull main graph w = (w, .done ⟨[], [], []⟩) := by
  unfold syncMain
  rw [hd, hl, hu]

/-! ### the command -/

/-- C67: without `--pull`, `sync` only moves the stacks. -/
theorem sync_command_in_memory (env : SyncEnv) (main : Text) (tx : Option Text) (w : RepoWorld)
    (hw : AMap.WF w.git.refs) (es : List Event) (he : w.db.getEvents = some es) :
    ∃ db, db.getEvents = some es ∧
      let w0 := { w with db := db }
      let graph := env.graph w0
      let menv := env.repo w0
      WFGraph graph → SetContract menv → InMemoryOnly menv.options → NoCollisions menv.exec →
      Agrees graph menv.exec → (∀ o, w.git.refs.get? main = some o → o ∈ graph.nodes) →
      ((openRepoDag graph main w0 = none ∨ w.git.refs.get? main = none) ∧
        syncCommand env main tx false w = (w0, .error)) ∨
      ∃ mainOid statuses w1, w.git.refs.get? main = some mainOid ∧
        (statuses.map Prod.fst).Nodup ∧
        SyncedStacks (SyncedStack menv graph (Seen graph main w.git es) mainOid) w0 statuses w1 ∧
        (((∀ c, c ∈ statuses.map Prod.fst ↔ StackRoot graph main w.git es (env.sets w0) c) ∧
          syncCommand env main tx false w = (w1, .done (reportOf statuses))) ∨
        (∀ c ∈ statuses.map Prod.fst, StackRoot graph main w.git es (env.sets w0) c) ∧
          ∃ root w', StackRoot graph main w.git es (env.sets w0) root ∧ root ∉ statuses.map Prod.fst ∧
            graph.parentsOf root ≠ [mainOid] ∧
            MoveBroke menv graph (Seen graph main w.git es) root mainOid w1 w' ∧
            syncCommand env main tx false w = (w', .error)) := by
  refine ⟨((w.db.makeTransactionId tx t!"sync fetch").2.makeTransactionId tx t!"sync").2, ?_, ?_⟩
  · rw [(getEvents_makeTransactionId _ _ _).1, (getEvents_makeTransactionId _ _ _).1]; exact he
  · intro w0 graph menv hg hc ho hn ha hmain
    exact sync_stacks_in_memory graph hg main w0 hw es
      (by change Db.getEvents _ = _
          rw [(getEvents_makeTransactionId _ _ _).1, (getEvents_makeTransactionId _ _ _).1]; exact he) menv hc ho hn ha hmain (env.sets w0)

/-- C68: if the fetch fails, or the main branch cannot be synced, the stacks are not touched. -/
theorem sync_pull_stops (env : SyncEnv) (main : Text) (tx : Option Text) (w : RepoWorld) :
    let start := fun (message : Text) (w : RepoWorld) =>
      ({ w with db := (w.db.makeTransactionId tx message).2 } : RepoWorld)
    (∀ w1 code, env.fetch (start t!"sync fetch" w) = (w1, code) → code ≠ 0 →
      syncCommand env main tx true w = (w1, .failed code)) ∧
    ∀ w1, env.fetch (start t!"sync fetch" w) = (w1, 0) →
      let w2 := start t!"sync" w1
      ∀ w3 outcome, syncMain (env.repo w2) env.pull main (env.graph w2) w2 = (w3, outcome) →
        ((∀ report, outcome ≠ .done report) → syncCommand env main tx true w = (w3, outcome)) ∧
        ∀ report, outcome = .done report → syncCommand env main tx true w =
          syncStacks (env.repo w3) main (env.graph w3) w3 (env.sets w3) := by
  intro start
  constructor
  · intro w1 code hf hne
    unfold syncCommand
    simp only [if_true]
    split
    · rename_i w2 h2
      have := hf.symm.trans h2
      simp only [Prod.mk.injEq] at this
      exact absurd this.2 hne
    · rename_i w2 code2 h2
      have := hf.symm.trans h2
      simp only [Prod.mk.injEq] at this
      rw [this.1, this.2]
  · intro w1 hf w2 w3 outcome hm
    have hcmd : syncCommand env main tx true w =
        match syncMain (env.repo w2) env.pull main (env.graph w2) w2 with
        | (w, .done _) => syncStacks (env.repo w) main (env.graph w) w (env.sets w)
        | (w, outcome) => (w, outcome) := by
      unfold syncCommand
      simp only [if_true]
      split
      · rename_i w2' h2
        have := hf.symm.trans h2
        simp only [Prod.mk.injEq, and_true] at this
        subst this
        rfl
      · rename_i w2' code2 hne h2
        have := hf.symm.trans h2
        simp only [Prod.mk.injEq] at this
        exact absurd this.2.symm hne
    rw [hcmd, hm]
    constructor
    · intro hne
      cases outcome with
      | done report => exact absurd rfl (hne report)
      | _ => rfl
    · rintro report rfl
      rfl

end Verif.Props
