import Verif.Lemmas.TestFix
import Verif.Props.Amend

/-!
C73: `git test fix` replaces the files of each commit by those which the command left when it was run on this
commit, and rebases the visible descendants without any change of files. It cannot cause merge conflicts. But a
commit with the same patch as a commit directly below is dropped.
-/

namespace Verif.Props

open Verif Verif.Spec Verif.RebasePlanBuilder Verif.Constraints Verif.TestRun Verif.TestFix

section

variable {env : FixEnv} {graph graph' : CommitGraph Oid} {seen : Oid → Prop} {fixes : List Fix}
  {b : RebasePlanBuilder} {k : Constraints}

/-- A commit which is skipped has the same patch as a commit directly below. -/
theorem fix_skipped (S : FixSetup env graph graph' seen fixes b k) {plan : RebasePlan}
    (h : b.build = .ok (.ok (some plan))) {c : Oid} (hc : .skipUpstreamAppliedCommit c ∈ plan.commands) :
    b.permissions.detectDuplicateCommitsViaPatchId = true ∧
      TwinBelow graph (AffectedBy graph seen (isFixed fixes)) env.patchId c := by
  obtain ⟨h1, root, dest, m, u, h2, h3, h4, h5, h6, h7⟩ := skipped_upstream
    (by rw [S.graph_eq]; exact S.leaves.wf) S.graph_ok S.no_fixups S.moves h hc
  refine ⟨h1, dest, root, h2.1, h2.2, fun hd => h3 ((S.moved_iff dest).2 hd), ?_⟩
  rw [S.graph_eq] at h4 h5 h6
  have hroot := S.affected_mem h2.1
  have hdest := h2.2.parent_mem S.wf
  have hdr : Anc graph' dest root := (S.leaves.anc root hroot dest).2 (.of_parent h2.2)
  have hm : dest = m := h4.2.2.2 dest (S.leaves.nodes _ hdest) hdr .refl h4.2.2.1
  subst hm
  have : u = dest := h6.antisymm S.leaves.wf h5
  rw [S.patch] at h7
  rw [← h7, this]

/-- What becomes of the commits. -/
theorem fixed_of_run (S : FixSetup env graph graph' seen fixes b k) {left : Oid → Nat → Prop}
    (hfix : ∀ c, isFixed fixes c ↔ ToFix env.exec left c)
    (hleft : ∀ f ∈ fixes, left f.original f.data.tree)
    (hfun : ∀ c t t', left c t → left c t' → t = t')
    (hsame : ∀ c t d, left c t → ¬ isFixed fixes c → env.exec.commits c = some d → t = d.tree)
    {plan : RebasePlan} (h : b.build = .ok (.ok (some plan))) {head newHead : Option Oid} {s : ExecState}
    (hx : (withMade env.exec (madeBy fixes)).rebaseInMemory head plan = .ok (s, newHead)) :
    Fixed graph seen left
      (fun c => b.permissions.detectDuplicateCommitsViaPatchId = true ∧
        TwinBelow graph (AffectedBy graph seen (ToFix env.exec left)) env.patchId c)
      env.exec (s.created ++ madeBy fixes) s.rewritten head newHead := by
  have hA : AffectedBy graph seen (ToFix env.exec left) = AffectedBy graph seen (isFixed fixes) := by
    have : ToFix env.exec left = isFixed fixes := by
      funext c; exact propext (hfix c).symm
    rw [this]
  obtain ⟨-, h2, h3, h4⟩ := replaced_rebase_in_memory b _ k S.graph_ok S.no_fixups S.moves S.regular
    S.replacedOnParents plan h (withMade env.exec (madeBy fixes)) S.nc _ s newHead hx
  refine ⟨?_, ?_, ?_, ?_⟩
  · intro c hc
    rw [hA] at hc ⊢
    obtain ⟨p, hp⟩ := (S.moved_iff c).2 hc
    obtain ⟨d, rep, r, h5, h6, h7, h8, h9⟩ := S.replacement hc
    rcases h2 p c r hp h6 with ⟨h10, h11⟩ | ⟨n, ps, rep', h10, h11, h12, h13⟩
    · exact .inl ⟨fix_skipped S h h10, h11⟩
    · right
      rw [S.newParents_eq h6] at h10
      have hcr : ∀ x ∈ s.created, (withMade env.exec (madeBy fixes)).createCommit x.2 = some x.1 := by
        obtain ⟨_, _, ⟨new, h14, h15⟩, _⟩ := runs_frame (rebaseInMemory_ok hx).1
        intro x hx
        rw [h14] at hx
        exact h15 x (by simpa [ExecEnv.initialState] using hx)
      rw [find_original S.nc hcr h7] at h11
      cases h11
      rw [withMade_find, h8] at h13
      refine ⟨d, ps, rep.tree, n, h5, h10, ?_, ?_, h12, h13⟩
      · intro t ht
        rcases h9 with ⟨f, hm, rfl, h14⟩ | ⟨h14, h15⟩
        · rw [h14]; exact hfun _ _ _ (hleft f hm) ht
        · rw [h15]; exact (hsame c t d ht h14 h5).symm
      · intro hno
        rcases h9 with ⟨f, hm, rfl, h14⟩ | ⟨h14, h15⟩
        · exact absurd ⟨_, hleft f hm⟩ hno
        · exact h15
  · intro c hc
    obtain ⟨f, hm, rfl⟩ := (hfix c).2 hc
    exact S.has_parent f hm
  · intro c hc
    rw [hA] at hc
    exact h3 c fun hp => hc ((S.moved_iff c).1 hp)
  · intro x hx'
    rw [hA]
    exact h4 x hx'

/-- Nothing is cherry-picked. -/
theorem fix_no_conflicts (S : FixSetup env graph graph' seen fixes b k) {plan : RebasePlan}
    (h : b.build = .ok (.ok (some plan))) (ee : ExecEnv) (head : Option Oid) (info : FailedMergeInfo) :
    ee.rebaseInMemory head plan ≠ .error (.mergeFailed info) := by
  have hone := plan_each_once_partial b k S.graph_ok S.regular plan h
  obtain ⟨h1, h2, _⟩ := plan_kinds b k S.graph_ok plan h
  have hrep : ∀ c ∈ handledCommits plan.commands, AMap.get? b.replacementCommits c ≠ none := by
    intro c hc he
    have hA : AffectedBy graph seen (isFixed fixes) c := by
      rcases hone.only c hc with ⟨p, hp⟩ | ⟨fs, hfs⟩
      · rw [S.moves] at hp; exact hp.1
      · rw [S.no_fixups] at hfs; simp at hfs
    obtain ⟨_, _, r, _, h6, _⟩ := S.replacement hA
    rw [he] at h6
    simp at h6
  refine no_picks_no_conflicts ?_ ?_ info
  · intro c l hc
    exact hrep c (List.mem_filterMap.2 ⟨_, hc, rfl⟩) (h1 c l hc)
  · intro c ps hc
    exact hrep c (List.mem_filterMap.2 ⟨_, hc, rfl⟩) (h2 c ps hc).1

end

/-! ### the plan -/

/-- The results of the tests, as they are used for the fixes. -/
def outputsOf {commits : List Oid} (p : Params { c // c ∈ commits }) (out : LoopOutput { c // c ∈ commits }) :
    List (Oid × TestStatus) := (testResults p out).outputs.map fun x => (x.1.1, x.2)

theorem mem_outputsOf {commits : List Oid} {p : Params { c // c ∈ commits }}
    {out : LoopOutput { c // c ∈ commits }} {c : Oid} {s : TestStatus} :
    (c, s) ∈ outputsOf p out ↔ ∃ hc : c ∈ commits, ⟨c, hc⟩ ∈ p.commits ∧ out.outputs.get? ⟨c, hc⟩ = some s := by
  unfold outputsOf testResults orderOutputs
  simp only [List.mem_map, List.mem_filterMap, Option.map_eq_some_iff, Prod.mk.injEq]
  constructor
  · rintro ⟨x, ⟨y, h1, o, h2, rfl⟩, rfl, rfl⟩
    exact ⟨y.2, h1, h2⟩
  · rintro ⟨hc, h1, h2⟩
    exact ⟨(⟨c, hc⟩, s), ⟨⟨c, hc⟩, h1, s, h2, rfl⟩, rfl, rfl⟩

/-- There is one result for each commit. -/
theorem outputsOf_unique {commits : List Oid} {p : Params { c // c ∈ commits }}
    {out : LoopOutput { c // c ∈ commits }} {c : Oid} {s s' : TestStatus}
    (h : (c, s) ∈ outputsOf p out) (h' : (c, s') ∈ outputsOf p out) : s = s' := by
  obtain ⟨h1, h2, h3⟩ := mem_outputsOf.1 h
  obtain ⟨h4, h5, h6⟩ := mem_outputsOf.1 h'
  rw [h3] at h6
  exact Option.some.inj h6

theorem leftFiles_unique {commits : List Oid} {p : Params { c // c ∈ commits }}
    {out : LoopOutput { c // c ∈ commits }} {tree : Oid → Option Nat} {c : Oid} {t t' : Nat}
    (h : LeftFiles tree (outputsOf p out) c t) (h' : LeftFiles tree (outputsOf p out) c t') : t = t' := by
  obtain ⟨_, _, o, _, h1, h2⟩ := h
  obtain ⟨_, _, o', _, h3, h4⟩ := h'
  have := outputsOf_unique h1 h3
  simp only [TestStatus.passed.injEq, FixInfo.mk.injEq, Option.some.injEq] at this
  rw [← this.2.1.2, h2] at h4
  exact Option.some.inj h4

/-- The fixes are those of the commits which are to be fixed. -/
theorem fixes_exact {env : FixEnv} (hn : NoCollisions env.exec) {outputs : List (Oid × TestStatus)}
    {fixes : List Fix} (h : makeFixes env (fixedTrees outputs) = some fixes) :
    (∀ c, isFixed fixes c ↔ ToFix env.exec (LeftFiles env.tree outputs) c) ∧
    (∀ f ∈ fixes, LeftFiles env.tree outputs f.original f.data.tree) ∧
    (∀ c t d, LeftFiles env.tree outputs c t → ¬ isFixed fixes c → env.exec.commits c = some d → t = d.tree) ∧
    ∀ f ∈ fixes, ∃ o d t, FixOf env f.original o f d t := by
  obtain ⟨h1, h2⟩ := mem_makeFixes h
  have hleft : ∀ f ∈ fixes, ∀ o d t, (f.original, o) ∈ fixedTrees outputs → FixOf env f.original o f d t →
      LeftFiles env.tree outputs f.original t := by
    intro f _ o d t hm F
    obtain ⟨cached, head, inter, h3⟩ := mem_fixedTrees.1 hm
    exact ⟨cached, head, o, inter, h3, F.tree⟩
  refine ⟨?_, ?_, ?_, ?_⟩
  · intro c
    constructor
    · rintro ⟨f, hm, rfl⟩
      obtain ⟨h3, o, d, t, h4, F⟩ := h2 f hm
      refine ⟨t, d, hleft f hm o d t h4 F, F.commit, ?_⟩
      rw [F.made]
      intro e
      exact h3 (Option.some.inj e)
    · rintro ⟨t, d, ⟨cached, head, o, inter, h3, h4⟩, h5, h6⟩
      obtain ⟨f, d', t', F, hf⟩ := h1 (c, o) (mem_fixedTrees.2 ⟨cached, head, inter, h3⟩)
      have h7 := F.commit
      rw [h5] at h7
      cases h7
      have h8 := F.tree
      rw [h4] at h8
      cases h8
      refine ⟨f, hf ?_, F.original⟩
      intro e
      apply h6
      rw [F.made, e]
  · intro f hm
    obtain ⟨h3, o, d, t, h4, F⟩ := h2 f hm
    have := hleft f hm o d t h4 F
    rw [F.data]
    exact this
  · intro c t d ⟨cached, head, o, inter, h3, h4⟩ hno hd
    obtain ⟨f, d', t', F, hf⟩ := h1 (c, o) (mem_fixedTrees.2 ⟨cached, head, inter, h3⟩)
    have h7 := F.commit
    rw [hd] at h7
    cases h7
    have h8 := F.tree
    rw [h4] at h8
    cases h8
    have he : f.fixed = c := by
      by_contra hne
      exact hno ⟨f, hf hne, F.original⟩
    exact congrArg CommitData.tree (hn.old _ _ _ F.made (by rw [he]; exact hd)).symm
  · intro f hm
    obtain ⟨h3, o, d, t, h4, F⟩ := h2 f hm
    exact ⟨o, d, t, F⟩

/-- There is always a plan if there are fixes, unless something fails. -/
theorem fix_plan_exists {env : FixEnv} {graph : CommitGraph Oid} (hg : WFGraph graph) {main : Text}
    {w : RepoWorld} (hw : AMap.WF w.git.refs) {es : List Event} (he : w.db.getEvents = some es)
    (hsync : Synced graph main w.git es) {r : Replayer} {d : Dag}
    (hd : openRepoDag graph main w = some (r, d)) (hag : Agrees graph env.exec)
    (hnc : NoCollisions env.exec) (hvec : ∀ l x, x ∈ env.toVec l ↔ x ∈ l) {fixes : List Fix}
    {commits : List Oid} (hc : ∀ c ∈ commits, c ∈ graph.nodes) (hin : ∀ f ∈ fixes, f.original ∈ commits)
    (hf : ∀ f ∈ fixes, ∃ o d t, FixOf env f.original o f d t) {force detect : Bool}
    {perms : RebasePlanPermissions} (hv : verifyRewriteSet d force detect commits = .ok perms) :
    ((∃ e, fixPlan env (addFixes d fixes) perms fixes = .error e) ∧ fixes ≠ [] ∧
      ((fixes.map (·.original)).Nodup → (∀ l, (env.toVec l).Nodup) →
        ∃ f ∈ fixes, graph.parentsOf f.original = [])) ∨
    (fixes = [] ∧ fixPlan env (addFixes d fixes) perms fixes = .ok (.ok none)) ∨
    ∃ b k plan, fixPlan env (addFixes d fixes) perms fixes = .ok (.ok (some plan)) ∧ fixes ≠ [] ∧
      FixSetup env graph (addFixes d fixes).graph (Seen graph main w.git es) fixes b k ∧
      b.build = .ok (.ok (some plan)) ∧ b.permissions.detectDuplicateCommitsViaPatchId = detect := by
  obtain ⟨hgr, -⟩ := graph_opened he hd
  have hf' : ∀ f ∈ fixes, f.original ∈ graph.nodes ∧ ∃ o d t, FixOf env f.original o f d t :=
    fun f hm => ⟨hc _ (hin f hm), hf f hm⟩
  obtain ⟨hpar, L, -, habove⟩ := fixGraph hg hw he hsync hd hag hf'
  have hmem : ∀ c, AffectedBy graph (Seen graph main w.git es) (isFixed fixes) c → c ∈ graph.nodes := by
    rintro c (⟨f, hm, rfl⟩ | ⟨h1, _⟩)
    · exact (hf' f hm).1
    · exact h1.1
  unfold fixPlan
  split
  · rename_i e hx
    refine .inl ⟨⟨_, rfl⟩, ?_, ?_⟩
    · rintro rfl
      cases hx
    · intro hnd _
      obtain ⟨f, hm, h1⟩ := fixes_error (env := env) hnd hx
      exact ⟨f, hm, by rw [← hpar f hm, h1]⟩
  rename_i b1 hb1
  split
  · rename_i e hx
    refine .inl ⟨⟨_, rfl⟩, ?_, ?_⟩
    · rintro rfl
      have : env.toVec (commitsAbove (addFixes d []) []) = [] := by
        rw [List.eq_nil_iff_forall_not_mem]
        intro c hc'
        rw [hvec, habove] at hc'
        rcases hc'.1 with ⟨f, hm, _⟩ | ⟨_, x, ⟨f, hm, _⟩, _⟩ <;> simp at hm
      rw [this] at hx
      cases hx
    · intro _ hnd
      exfalso
      refine above_error hb1 (hnd _) ?_ hx
      · intro c hc'
        rw [hvec, habove] at hc'
        refine ⟨hc'.2, ?_⟩
        obtain ⟨d1, h1, h2⟩ := hag c (hmem c hc'.1)
        exact ⟨d1, h1, by rw [h2]; exact parentsOf_above hg hc'.1 hc'.2⟩
  rename_i b hb
  obtain ⟨⟨k, S⟩, hperm⟩ := fixSetup hg hw he hsync hd hag hnc hvec hf' hb1 hb
  have hall := verify_rewrite_set_allows d (hgr ▸ hg) _ _ _ _ hv
  obtain ⟨plan, h1, h2⟩ := build_moves S.graph_ok S.no_fixups S.acyclic (by
    intro p c hpc
    rw [S.moves] at hpc
    rw [hperm, hall, hgr]
    refine ⟨S.affected_mem hpc.1, ?_⟩
    rcases hpc.1 with ⟨f, hm, rfl⟩ | ⟨_, x, ⟨f, hm, rfl⟩, hxc⟩
    · exact ⟨_, hin f hm, .refl⟩
    · exact ⟨_, hin f hm, hxc⟩)
  right
  rw [h1]
  cases plan with
  | none =>
    left
    refine ⟨?_, rfl⟩
    rw [List.eq_nil_iff_forall_not_mem]
    intro f hm
    obtain ⟨p, hp⟩ := (S.moved_iff f.original).2 (.inl ⟨f, hm, rfl⟩)
    exact h2.1 rfl ⟨p, _, (S.moves p _).2 hp⟩
  | some plan =>
    right
    refine ⟨b, k, plan, rfl, ?_, S, h1, by rw [hperm]; exact verified_detect hv⟩
    rintro rfl
    have hno : ¬ ∃ p c, Moves k p c := by
      rintro ⟨p, c, hpc⟩
      rw [S.moves] at hpc
      rcases hpc.1 with ⟨f, hm, _⟩ | ⟨_, x, ⟨f, hm, _⟩, _⟩ <;> simp at hm
    have := h2.2 hno
    simp at this

/-! ### the command -/

section

variable {env : FixEnv} {graph graph' : CommitGraph Oid} {seen : Oid → Prop} {fixes : List Fix}
  {b : RebasePlanBuilder} {k : Constraints}

/-- Why the new versions cannot be made. -/
theorem fix_run_error (S : FixSetup env graph graph' seen fixes b k)
    (hsort : ∀ s x, x ∈ env.sortedCommitSet s ↔ x ∈ s) {plan : RebasePlan}
    (h : b.build = .ok (.ok (some plan))) {head : Option Oid} {e : InMemoryStop}
    (hx : (withMade env.exec (madeBy fixes)).rebaseInMemory head plan = .error e) :
    ∃ c, AffectedBy graph seen (isFixed fixes) c ∧ CannotRewrite env.exec c := by
  have hex : ∀ c ∈ graph.nodes, ∃ d, (withMade env.exec (madeBy fixes)).commits c = some d := by
    intro c hc
    obtain ⟨d, h1, _⟩ := S.agrees c hc
    exact ⟨d, S.find_old h1⟩
  obtain ⟨p, c, h1, h2⟩ := error_reason_replaced (by rw [S.sorted]; exact hsort) S.graph_ok S.no_fixups h S.nc
    (by
      intro p c hpc
      refine hex p ?_
      rcases hpc with h1 | h1
      · have h1 : p ∈ b.env.dag.graph.parentsOf c := h1
        rw [S.graph_eq] at h1
        exact S.leaves.below c p h1
      · rw [S.moves] at h1
        exact h1.2.parent_mem S.wf)
    (by
      intro p c hpc
      rw [S.moves] at hpc
      have hc := S.affected_mem hpc.1
      obtain ⟨d, h1, h2⟩ := S.agrees c hc
      exact ⟨d, S.find_old h1, by rw [h2, S.graph_eq, S.leaves.parents c hc]⟩)
    (by
      intro p c r hpc hr
      rw [S.moves] at hpc
      obtain ⟨d, rep, r', h1, h2, h3, h4, _⟩ := S.replacement hpc.1
      rw [hr] at h2
      cases h2
      refine ⟨⟨rep, h3⟩, fun q hq => hex q ?_⟩
      obtain ⟨d', h5, h6⟩ := S.agrees c (S.affected_mem hpc.1)
      rw [h1] at h5
      cases h5
      rw [S.read] at hq
      have h3 : env.exec.find (madeBy fixes) r = some rep := h3
      simp only at hq
      rw [h3] at hq
      have hq : q ∈ rep.parents := hq
      rw [h4] at hq
      have hq : q ∈ d.parents := hq
      rw [h6] at hq
      exact ((mem_parentsOf S.wf).1 hq).parent_mem S.wf)
    (fun info he => fix_no_conflicts S h _ head info (he ▸ hx)) hx
  rw [S.moves] at h1
  refine ⟨c, h1.1, ?_⟩
  obtain ⟨d, rep, r', h5, h6, h7, h8, _⟩ := S.replacement h1.1
  rcases h2 with ⟨h3, _⟩ | ⟨r, h3, d', h9, h10⟩
  · rw [h3] at h6; simp at h6
  · rw [h3] at h6
    cases h6
    rw [h7] at h9
    cases h9
    refine ⟨d, h5, ?_⟩
    rcases h10 with h10 | ⟨ps, h10⟩
    · rw [h8] at h10; exact .inl h10
    · right
      refine ⟨ps, rep.tree, env.exec.newTime d.time, ?_⟩
      rw [h8] at h10
      exact h10

end

/-- The number of the transaction is of no concern. -/
theorem opened_tx (graph : CommitGraph Oid) (main : Text) (w : RepoWorld) (tx : Option Text) (msg : Text) :
    openRepoDag graph main { w with db := (w.db.makeTransactionId tx msg).2 } = openRepoDag graph main w := by
  unfold openRepoDag
  simp only [(getEvents_makeTransactionId w.db tx msg).1]

/-- The plan is made and executed, or something is refused. -/
theorem testFix_steps (env : FixEnv) (main : Text) (graph : CommitGraph Oid) (tx : Option Text) (w : RepoWorld)
    (commits : List Oid) (p : Params { c // c ∈ commits })
    (run : RepoWorld → RepoWorld × Option (LoopOutput { c // c ∈ commits })) :
    let W := { w with db := (w.db.makeTransactionId tx t!"test run").2 }
    (openRepoDag graph main w = none ∧ testFix env main graph tx w commits p run = (W, .error)) ∨
    ∃ r d, openRepoDag graph main w = some (r, d) ∧
      ((env.forceOnDisk = true ∧ testFix env main graph tx w commits p run = (W, .refused .onDisk)) ∨
      (env.forceOnDisk = false ∧
        ((∃ e, verifyRewriteSet d env.forceRewritePublicCommits env.detectDuplicateCommitsViaPatchId commits =
            .error e ∧ testFix env main graph tx w commits p run = (W, .refused (.planner e))) ∨
        ∃ perms, verifyRewriteSet d env.forceRewritePublicCommits env.detectDuplicateCommitsViaPatchId commits =
            .ok perms ∧ ∃ wt,
          ((run W = (wt, none) ∧ testFix env main graph tx w commits p run = (wt, .error)) ∨
          ∃ out, run W = (wt, some out) ∧
            ((summarySucceeds p (testResults p out) = false ∧
              testFix env main graph tx w commits p run = (wt, .refused .summary)) ∨
            (summarySucceeds p (testResults p out) = true ∧
              testFix env main graph tx w commits p run = applyFixes env wt d perms (outputsOf p out))))))) := by
  intro W
  have hW := opened_tx graph main w tx t!"test run"
  cases ho : openRepoDag graph main w with
  | none =>
    refine .inl ⟨rfl, ?_⟩
    unfold testFix
    simp only [hW, ho]
    rfl
  | some rd =>
    obtain ⟨r, d⟩ := rd
    refine .inr ⟨r, d, rfl, ?_⟩
    unfold testFix
    simp only [hW, ho]
    cases hf : env.forceOnDisk with
    | true => exact .inl ⟨rfl, rfl⟩
    | false =>
      refine .inr ⟨rfl, ?_⟩
      simp only [Bool.false_eq_true, if_false]
      cases hv : verifyRewriteSet d env.forceRewritePublicCommits env.detectDuplicateCommitsViaPatchId
          commits with
      | error e => exact .inl ⟨e, rfl, rfl⟩
      | ok perms =>
        refine .inr ⟨perms, rfl, ?_⟩
        simp only
        cases hr : run W with
        | mk wt o =>
          refine ⟨wt, ?_⟩
          cases o with
          | none => exact .inl ⟨rfl, rfl⟩
          | some out =>
            refine .inr ⟨out, rfl, ?_⟩
            simp only
            cases hs : summarySucceeds p (testResults p out) with
            | false => exact .inl ⟨rfl, rfl⟩
            | true => exact .inr ⟨rfl, rfl⟩

/-- The rebase is done in memory. -/
theorem executeRebasePlan_fix {ee : ExecEnv} {finish : List (Oid × CommitData) → FinishEnv} {disk : OnDiskEnv}
    {plan : RebasePlan} {w : RepoWorld} {m : Bool}
    (hno : ∀ info, ee.rebaseInMemory w.git.headInfo.oid plan ≠ .error (.mergeFailed info)) :
    (∃ e, ee.rebaseInMemory w.git.headInfo.oid plan = .error e ∧
      ∃ e', executeRebasePlan ee finish disk ⟨true, false, m⟩ plan w = (w, .error e')) ∨
    ∃ s newHead, ee.rebaseInMemory w.git.headInfo.oid plan = .ok (s, newHead) ∧
      ((∃ w' e, postRebaseInMemory (finish s.created) w s.rewritten newHead = (w', .error e) ∧
        executeRebasePlan ee finish disk ⟨true, false, m⟩ plan w = (w', .error .error)) ∨
      ∃ w' ok, postRebaseInMemory (finish s.created) w s.rewritten newHead = (w', .ok ok) ∧
        executeRebasePlan ee finish disk ⟨true, false, m⟩ plan w = (w', .ok (.succeeded (some s.rewritten)))) := by
  unfold executeRebasePlan
  simp only [Bool.false_eq_true, if_false]
  cases hr : ee.rebaseInMemory w.git.headInfo.oid plan with
  | error e =>
    cases e with
    | panic => exact .inl ⟨_, rfl, _, rfl⟩
    | error => exact .inl ⟨_, rfl, _, rfl⟩
    | mergeFailed info => exact absurd hr (hno info)
  | ok x =>
    obtain ⟨s, newHead⟩ := x
    refine .inr ⟨s, newHead, rfl, ?_⟩
    simp only
    cases hp : postRebaseInMemory (finish s.created) w s.rewritten newHead with
    | mk w' r =>
      cases r with
      | error e => exact .inl ⟨w', e, rfl, rfl⟩
      | ok ok => exact .inr ⟨w', ok, rfl, rfl⟩

/-- What is reported without new versions. -/
theorem mem_report_none {fixes : List Fix}
    (h : ∀ f ∈ fixes, ∀ g ∈ fixes, f.original = g.original → f.fixed = g.fixed) (c : Oid) (v : MaybeZero) :
    (c, v) ∈ reportFixes fixes none ↔ ∃ f ∈ fixes, f.original = c ∧ v = .nonZero f.fixed := by
  have hget : ∀ f ∈ fixes, AMap.get? (fixes.map fun f => (f.original, MaybeZero.nonZero f.fixed)) f.original =
      some (.nonZero f.fixed) := by
    intro f hf
    have key : ∀ l : List Fix, (∀ g ∈ l, g ∈ fixes) → f ∈ l →
        AMap.get? (l.map fun f => (f.original, MaybeZero.nonZero f.fixed)) f.original =
          some (.nonZero f.fixed) := by
      intro l
      induction l with
      | nil => intro _ h; simp at h
      | cons g l ih =>
        intro hl hm
        simp only [List.map_cons, AMap.get?]
        split
        · rename_i he; rw [h g (hl g (by simp)) f hf he]
        · rename_i hne
          rcases List.mem_cons.1 hm with rfl | hm
          · exact absurd rfl hne
          · exact ih (fun g hg => hl g (List.mem_cons_of_mem _ hg)) hm
    exact key fixes (fun _ h => h) hf
  unfold reportFixes
  simp only [List.mem_map, Prod.mk.injEq]
  constructor
  · rintro ⟨f, hf, rfl, rfl⟩
    exact ⟨f, hf, rfl, by rw [hget f hf]; rfl⟩
  · rintro ⟨f, hf, rfl, rfl⟩
    exact ⟨f, hf, rfl, by rw [hget f hf]; rfl⟩

/-- What is done with the results of the tests. -/
theorem applyFixes_cases (graph : CommitGraph Oid) (hg : WFGraph graph) (main : Text) (w : RepoWorld)
    (hw : AMap.WF w.git.refs) (es : List Event) (he : w.db.getEvents = some es)
    (hsync : Synced graph main w.git es) (r : Replayer) (d : Dag)
    (hd : openRepoDag graph main w = some (r, d)) (env : FixEnv) (hag : Agrees graph env.exec)
    (hn : NoCollisions env.exec) (hvec : ∀ l x, x ∈ env.toVec l ↔ x ∈ l) (hvn : ∀ l, (env.toVec l).Nodup)
    (hsort : ∀ s x, x ∈ env.sortedCommitSet s ↔ x ∈ s) (commits : List Oid)
    (hc : ∀ c ∈ commits, c ∈ graph.nodes) (p : Params { c // c ∈ commits }) (hcn : p.commits.Nodup)
    (out : LoopOutput { c // c ∈ commits }) (perms : RebasePlanPermissions) (force : Bool)
    (hv : verifyRewriteSet d force env.detectDuplicateCommitsViaPatchId commits = .ok perms) (wt : RepoWorld) :
    let left := LeftFiles env.tree (outputsOf p out)
    let seen := Seen graph main w.git es
    (applyFixes env wt d perms (outputsOf p out) = (wt, .error) ∧
      FixBroken graph seen env.tree (outputsOf p out) env.exec) ∨
    (applyFixes env wt d perms (outputsOf p out) = (wt, .nothing) ∧ ¬ ∃ c, ToFix env.exec left c) ∨
    ((∃ c, ToFix env.exec left c) ∧
      ((env.dryRun = true ∧ ∃ report, applyFixes env wt d perms (outputsOf p out) = (wt, .dryRun report) ∧
        ReportedFixes env.exec left (fun c v => ∃ t d n, left c t ∧ env.exec.commits c = some d ∧
          env.exec.createCommit { d with tree := t } = some n ∧ v = .nonZero n) report ∧
        ∀ c, ToFix env.exec left c → graph.parentsOf c ≠ []) ∨
      (env.dryRun = false ∧ ∃ created rewritten newHead w',
        Fixed graph seen left (fun c => env.detectDuplicateCommitsViaPatchId = true ∧
          TwinBelow graph (AffectedBy graph seen (ToFix env.exec left)) env.patchId c)
          env.exec created rewritten wt.git.headInfo.oid newHead ∧
        ((∃ e, postRebaseInMemory (env.finish created) wt rewritten newHead = (w', .error e) ∧
          applyFixes env wt d perms (outputsOf p out) = (w', .error)) ∨
        ∃ ok report, postRebaseInMemory (env.finish created) wt rewritten newHead = (w', .ok ok) ∧
          applyFixes env wt d perms (outputsOf p out) = (w', .done report) ∧
          ReportedFixes env.exec left (fun c v => AMap.get? rewritten c = some v) report)))) := by
  intro left seen
  have hmem : ∀ {c s}, (c, s) ∈ outputsOf p out → c ∈ commits := fun h => (mem_outputsOf.1 h).1
  unfold applyFixes
  cases hfx : makeFixes env (fixedTrees (outputsOf p out)) with
  | none =>
    refine .inl ⟨rfl, ?_⟩
    obtain ⟨c, o, h1, h2⟩ := makeFixes_none hfx
    obtain ⟨cached, head, inter, h3⟩ := mem_fixedTrees.1 h1
    by_cases ht : env.tree o = none
    · exact .inl ⟨c, cached, head, o, inter, h3, ht⟩
    obtain ⟨t, ht⟩ := Option.ne_none_iff_exists'.1 ht
    have hleft : left c t := ⟨cached, head, o, inter, h3, ht⟩
    obtain ⟨d1, h4, h5⟩ := hag c (hc c (hmem h3))
    refine .inr (.inr ⟨c, .inl ⟨t, hleft⟩, d1, h4, ?_⟩)
    rcases h2 with h2 | h2 | ⟨d2, h6, h7⟩
    · rw [ht] at h2; simp at h2
    · rw [h4] at h2; simp at h2
    · rw [h4] at h6
      cases h6
      rcases h7 with h7 | ⟨q, h7, h8⟩ | ⟨t', h7, h8⟩
      · exact .inl h7
      · rw [h5] at h7
        obtain ⟨d2, h9, _⟩ := hag q (((mem_parentsOf hg).1 h7).parent_mem hg)
        rw [h9] at h8
        simp at h8
      · exact .inr ⟨_, _, _, h8⟩
  | some fixes =>
    obtain ⟨h1, h2, h3, h4⟩ := fixes_exact hn hfx
    have hin : ∀ f ∈ fixes, f.original ∈ commits := by
      intro f hm
      obtain ⟨_, _, _, _, h5, _⟩ := h2 f hm
      exact hmem h5
    have hne : fixes ≠ [] → ∃ c, ToFix env.exec left c := by
      intro hne
      obtain ⟨f, l, rfl⟩ := List.exists_cons_of_ne_nil hne
      exact ⟨f.original, (h1 _).1 ⟨f, by simp, rfl⟩⟩
    have hA : AffectedBy graph seen (ToFix env.exec left) = AffectedBy graph seen (isFixed fixes) := by
      have : ToFix env.exec left = isFixed fixes := by
        funext c; exact propext (h1 c).symm
      rw [this]
    have hnodup : (fixes.map (·.original)).Nodup := by
      refine makeFixes_nodup ?_ hfx
      have : (outputsOf p out).map (·.1) = ((testResults p out).outputs.map (·.1)).map (·.1) := by
        unfold outputsOf; simp
      rw [this]
      refine List.Nodup.map (fun _ _ h => Subtype.ext h) ?_
      refine hcn.sublist ?_
      unfold testResults orderOutputs
      generalize p.commits = l
      clear * -
      induction l with
      | nil => exact .slnil
      | cons x xs ih =>
        simp only at ih ⊢
        rw [List.filterMap_cons]
        cases hx : out.outputs.get? x with
        | none => exact ih.cons _
        | some s => exact ih.cons_cons _
    simp only
    rcases fix_plan_exists hg hw he hsync hd hag hn hvec hc hin h4 hv with ⟨⟨e, h5⟩, h6, h7⟩ | ⟨h5, h6⟩ |
      ⟨b, k, plan, h5, h6, S, h7, h8⟩
    · rw [h5]
      refine .inl ⟨rfl, .inr (.inl ?_)⟩
      obtain ⟨f, hm, h8⟩ := h7 hnodup hvn
      exact ⟨f.original, (h1 _).1 ⟨f, hm, rfl⟩, h8⟩
    · rw [h6]
      refine .inr (.inl ⟨rfl, ?_⟩)
      rintro ⟨c, hcf⟩
      obtain ⟨f, hm, _⟩ := (h1 c).2 hcf
      rw [h5] at hm
      simp at hm
    · rw [h5]
      simp only
      cases hdry : env.dryRun with
      | true =>
        refine .inr (.inr ⟨hne h6, .inl ⟨rfl, _, rfl, ?_, ?_⟩⟩)
        swap
        · intro c hcf
          obtain ⟨f, hm, rfl⟩ := (h1 c).2 hcf
          exact S.has_parent f hm
        intro c v
        rw [mem_report_none (by
          intro f hf g hg' he'
          obtain ⟨o, d1, t, F⟩ := h4 f hf
          obtain ⟨o', d2, t', G⟩ := h4 g hg'
          have e1 := F.commit
          rw [he', G.commit] at e1
          cases e1
          have e2 := leftFiles_unique (h2 f hf) (he' ▸ h2 g hg')
          rw [F.data, G.data] at e2
          have e2 : t = t' := e2
          subst e2
          have e3 := F.made
          rw [G.made] at e3
          exact (Option.some.inj e3).symm)]
        rw [← h1 c]
        constructor
        · rintro ⟨f, hm, rfl, rfl⟩
          obtain ⟨o, d1, t, F⟩ := h4 f hm
          have h9 := h2 f hm
          rw [F.data] at h9
          exact ⟨⟨f, hm, rfl⟩, t, d1, f.fixed, h9, F.commit, F.made, rfl⟩
        · rintro ⟨⟨f, hm, rfl⟩, t, d1, n, h9, h10, h11, rfl⟩
          obtain ⟨o, d2, t', F⟩ := h4 f hm
          have h12 := F.commit
          rw [h10] at h12
          cases h12
          have h13 := h2 f hm
          rw [F.data] at h13
          have := leftFiles_unique h9 h13
          have this : t = t' := this
          subst this
          rw [F.made] at h11
          cases h11
          exact ⟨f, hm, rfl, rfl⟩
      | false =>
        simp only [Bool.false_eq_true, if_false]
        rcases executeRebasePlan_fix (ee := withMade env.exec (madeBy fixes))
          (finish := fun created => env.finish (created ++ madeBy fixes)) (disk := env.disk) (plan := plan)
          (w := wt) (m := env.resolveMergeConflicts) (fun info => fix_no_conflicts S h7 _ _ info) with
          ⟨e, h9, e', h10⟩ | ⟨s, newHead, h9, h10⟩
        · left
          obtain ⟨c, h11, h12⟩ := fix_run_error S hsort h7 h9
          refine ⟨?_, .inr (.inr ⟨c, .inr ?_, h12⟩)⟩
          · have h10 : executeRebasePlan { env.exec with commits := env.exec.find (madeBy fixes) }
              (fun created => env.finish (created ++ madeBy fixes)) env.disk
              ⟨true, false, env.resolveMergeConflicts⟩ plan wt = _ := h10
            rw [h10]
          · show AffectedBy graph seen (ToFix env.exec left) c
            rw [hA]; exact h11
        · refine .inr (.inr ⟨hne h6, .inr ⟨by trivial, s.created ++ madeBy fixes, s.rewritten, newHead, ?_⟩⟩)
          have F := fixed_of_run S h1 h2 (fun _ _ _ => leftFiles_unique) h3 h7 h9
          rw [h8] at F
          rcases h10 with ⟨w', e, h10, h11⟩ | ⟨w', ok, h10, h11⟩
          · refine ⟨w', F, .inl ⟨e, h10, ?_⟩⟩
            have h11 : executeRebasePlan { env.exec with commits := env.exec.find (madeBy fixes) }
              (fun created => env.finish (created ++ madeBy fixes)) env.disk
              ⟨true, false, env.resolveMergeConflicts⟩ plan wt = _ := h11
            rw [h11]
          · refine ⟨w', F, .inr ⟨ok, reportFixes fixes (some s.rewritten), h10, ?_, ?_⟩⟩
            · have h11 : executeRebasePlan { env.exec with commits := env.exec.find (madeBy fixes) }
                (fun created => env.finish (created ++ madeBy fixes)) env.disk
                ⟨true, false, env.resolveMergeConflicts⟩ plan wt = _ := h11
              rw [h11]
            · intro c v
              have hsome : ∀ c, isFixed fixes c → ∃ v, AMap.get? s.rewritten c = some v := by
                intro c hcf
                rcases F.versions c (.inl ((h1 c).1 hcf)) with ⟨_, h12⟩ | ⟨_, _, _, n, _, _, _, _, h12, _⟩
                · exact ⟨_, h12⟩
                · exact ⟨_, h12⟩
              rw [← h1 c]
              unfold reportFixes
              simp only [List.mem_map, Prod.mk.injEq]
              constructor
              · rintro ⟨f, hm, rfl, rfl⟩
                obtain ⟨v, hv'⟩ := hsome f.original ⟨f, hm, rfl⟩
                exact ⟨⟨f, hm, rfl⟩, by rw [hv']; rfl⟩
              · rintro ⟨⟨f, hm, rfl⟩, hv'⟩
                exact ⟨f, hm, rfl, by rw [hv']; rfl⟩

/-- The setting: the graph is that of the repository, without hash collisions; the events can be read; and the
commits to be tested are in the graph, none of them twice. -/
structure FixSetting (env : FixEnv) (main : Text) (graph : CommitGraph Oid) (w : RepoWorld) (es : List Event)
    (commits : List Oid) (p : Params { c // c ∈ commits }) : Prop where
  graph_wf : WFGraph graph
  refs_wf : AMap.WF w.git.refs
  events : w.db.getEvents = some es
  synced : Synced graph main w.git es
  agrees : Agrees graph env.exec
  no_collisions : NoCollisions env.exec
  vec : ∀ l x, x ∈ env.toVec l ↔ x ∈ l
  vec_nodup : ∀ l, (env.toVec l).Nodup
  sort : ∀ s x, x ∈ env.sortedCommitSet s ↔ x ∈ s
  commits_mem : ∀ c ∈ commits, c ∈ graph.nodes
  tested_nodup : p.commits.Nodup

section

variable {env : FixEnv} {main : Text} {graph : CommitGraph Oid} {w : RepoWorld} {es : List Event}
  {commits : List Oid} {p : Params { c // c ∈ commits }}

/-- The planner refuses exactly because of the main branch. -/
theorem fix_verify (hs : FixSetting env main graph w es commits p) {r : Replayer} {d : Dag}
    (hd : openRepoDag graph main w = some (r, d)) :
    (∃ perms, verifyRewriteSet d env.forceRewritePublicCommits env.detectDuplicateCommitsViaPatchId commits =
      .ok perms) ↔
    (env.forceRewritePublicCommits = true ∨ ∀ x ∈ commits, ∀ c, Anc graph x c → ¬ OnMain graph main w.git c) := by
  obtain ⟨hgr, -⟩ := graph_opened hs.events hd
  rw [verify_rewrite_set_iff d (hgr ▸ hs.graph_wf), hgr]
  refine or_congr_right ?_
  constructor
  · intro h x hx c hxc hon
    exact h x hx c (hxc.mem_up (hs.commits_mem x hx)) hxc
      ((public_opened hs.refs_wf hs.events hd c).2 hon)
  · intro h x hx c _ hxc hpub
    exact h x hx c hxc ((public_opened hs.refs_wf hs.events hd c).1 hpub)

/-- C73: what `git test fix` does if it was not refused and the tests have been run. If some test did not
pass, nothing is done. Otherwise either the repository does not work, and no commit is rewritten; or there is
nothing to fix; or it is only reported what would be fixed; or the commits are fixed as specified, and the branches
and `HEAD` are moved (C22, C23, C54), and what is reported is true. -/
theorem test_fix (hs : FixSetting env main graph w es commits p) {r : Replayer} {d : Dag}
    (hd : openRepoDag graph main w = some (r, d)) (hdisk : env.forceOnDisk = false)
    (hpub : env.forceRewritePublicCommits = true ∨
      ∀ x ∈ commits, ∀ c, Anc graph x c → ¬ OnMain graph main w.git c) (tx : Option Text)
    (run : RepoWorld → RepoWorld × Option (LoopOutput { c // c ∈ commits })) (wt : RepoWorld)
    (out : LoopOutput { c // c ∈ commits })
    (hrun : run { w with db := (w.db.makeTransactionId tx t!"test run").2 } = (wt, some out)) :
    let left := LeftFiles env.tree (outputsOf p out)
    let seen := Seen graph main w.git es
    let end' := testFix env main graph tx w commits p run
    (summarySucceeds p (testResults p out) = false ∧ end' = (wt, .refused .summary)) ∨
    (summarySucceeds p (testResults p out) = true ∧
      ((FixBroken graph seen env.tree (outputsOf p out) env.exec ∧ end' = (wt, .error)) ∨
      ((¬ ∃ c, ToFix env.exec left c) ∧ end' = (wt, .nothing)) ∨
      ((∃ c, ToFix env.exec left c) ∧
        ((env.dryRun = true ∧ ∃ report, end' = (wt, .dryRun report) ∧
          ReportedFixes env.exec left (fun c v => ∃ t d n, left c t ∧ env.exec.commits c = some d ∧
            env.exec.createCommit { d with tree := t } = some n ∧ v = .nonZero n) report ∧
        ∀ c, ToFix env.exec left c → graph.parentsOf c ≠ []) ∨
        (env.dryRun = false ∧ ∃ created rewritten newHead w',
          Fixed graph seen left (fun c => env.detectDuplicateCommitsViaPatchId = true ∧
            TwinBelow graph (AffectedBy graph seen (ToFix env.exec left)) env.patchId c)
            env.exec created rewritten wt.git.headInfo.oid newHead ∧
          ((∃ e, postRebaseInMemory (env.finish created) wt rewritten newHead = (w', .error e) ∧
            end' = (w', .error)) ∨
          ∃ ok report, postRebaseInMemory (env.finish created) wt rewritten newHead = (w', .ok ok) ∧
            end' = (w', .done report) ∧
            ReportedFixes env.exec left (fun c v => AMap.get? rewritten c = some v) report)))))) := by
  intro left seen end'
  obtain ⟨perms, hv⟩ := (fix_verify hs hd).2 hpub
  rcases testFix_steps env main graph tx w commits p run with ⟨h1, _⟩ | ⟨r', d', h1, h2⟩
  · rw [hd] at h1; simp at h1
  rw [hd] at h1
  cases h1
  rcases h2 with ⟨h2, _⟩ | ⟨_, ⟨e, h2, _⟩ | ⟨perms', h2, wt', h3⟩⟩
  · rw [hdisk] at h2; simp at h2
  · rw [hv] at h2; simp at h2
  rw [hrun] at h3
  simp only [Prod.mk.injEq, Option.some.injEq, reduceCtorEq, and_false, false_and, false_or] at h3
  obtain ⟨out', ⟨rfl, rfl⟩, h3⟩ := h3
  rcases h3 with ⟨h3, h4⟩ | ⟨h3, h4⟩
  · exact .inl ⟨h3, h4⟩
  · refine .inr ⟨h3, ?_⟩
    show _ ∨ (_ ∧ end' = _) ∨ _
    have hend : end' = applyFixes env wt d perms' (outputsOf p out) := h4
    rw [hend]
    rcases applyFixes_cases graph hs.graph_wf main w hs.refs_wf es hs.events hs.synced r d hd env hs.agrees
      hs.no_collisions hs.vec hs.vec_nodup hs.sort commits hs.commits_mem p hs.tested_nodup out perms' _ h2 wt
      with ⟨h5, h6⟩ | ⟨h5, h6⟩ | h5
    · exact .inl ⟨h6, h5⟩
    · exact .inr (.inl ⟨h6, h5⟩)
    · exact .inr (.inr h5)

/-- C73: what is known when commits were fixed. -/
theorem test_fix_done (hs : FixSetting env main graph w es commits p) (tx : Option Text)
    (run : RepoWorld → RepoWorld × Option (LoopOutput { c // c ∈ commits })) (w' : RepoWorld)
    (report : List (Oid × MaybeZero)) (h : testFix env main graph tx w commits p run = (w', .done report)) :
    ∃ wt out, run { w with db := (w.db.makeTransactionId tx t!"test run").2 } = (wt, some out) ∧
      summarySucceeds p (testResults p out) = true ∧ env.forceOnDisk = false ∧ env.dryRun = false ∧
      (env.forceRewritePublicCommits = true ∨
        ∀ x ∈ commits, ∀ c, Anc graph x c → ¬ OnMain graph main w.git c) ∧
      let left := LeftFiles env.tree (outputsOf p out)
      let seen := Seen graph main w.git es
      (∃ c, ToFix env.exec left c) ∧ ∃ created rewritten newHead ok,
        Fixed graph seen left (fun c => env.detectDuplicateCommitsViaPatchId = true ∧
          TwinBelow graph (AffectedBy graph seen (ToFix env.exec left)) env.patchId c)
          env.exec created rewritten wt.git.headInfo.oid newHead ∧
        postRebaseInMemory (env.finish created) wt rewritten newHead = (w', .ok ok) ∧
        ReportedFixes env.exec left (fun c v => AMap.get? rewritten c = some v) report := by
  rcases testFix_steps env main graph tx w commits p run with ⟨_, h1⟩ | ⟨r, d, hd, h2⟩
  · rw [h1] at h; simp at h
  rcases h2 with ⟨_, h2⟩ | ⟨hdisk, ⟨e, _, h2⟩ | ⟨perms, hv, wt, ⟨_, h2⟩ | ⟨out, hrun, h3⟩⟩⟩
  · rw [h2] at h; simp at h
  · rw [h2] at h; simp at h
  · rw [h2] at h; simp at h
  have hpub := (fix_verify hs hd).1 ⟨perms, hv⟩
  refine ⟨wt, out, hrun, ?_⟩
  rcases test_fix hs hd hdisk hpub tx run wt out hrun with ⟨_, h4⟩ | ⟨h4, h5⟩
  · rw [h4] at h; simp at h
  refine ⟨h4, hdisk, ?_⟩
  rcases h5 with ⟨_, h5⟩ | ⟨_, h5⟩ | ⟨h5, ⟨_, rep, h6, _⟩ | ⟨h6, created, rewritten, newHead, w'', h7, h8⟩⟩
  · rw [h5] at h; simp at h
  · rw [h5] at h; simp at h
  · rw [h6] at h; simp at h
  rcases h8 with ⟨e, _, h8⟩ | ⟨ok, rep, h8, h9, h10⟩
  · rw [h8] at h; simp at h
  · rw [h9] at h
    simp only [Prod.mk.injEq, FixOutcome.done.injEq] at h
    obtain ⟨rfl, rfl⟩ := h
    exact ⟨h6, hpub, h5, created, rewritten, newHead, ok, h7, h8, h10⟩

/-- C73: without the detection of duplicates no commit is dropped: each of the commits has a new version, with the
files which the command left, on the new versions of its parents. -/
theorem fixed_nothing_dropped {graph : CommitGraph Oid} (hg : WFGraph graph) {seen : Oid → Prop}
    {left : Oid → Nat → Prop} {ee : ExecEnv} {created : List (Oid × CommitData)} {rewritten : AMap Oid MaybeZero}
    {head newHead : Option Oid} {skip : Oid → Prop} (hskip : ∀ c, ¬ skip c)
    (F : Fixed graph seen left skip ee created rewritten head newHead) :
    (∀ c, AffectedBy graph seen (ToFix ee left) c → ∃ d ps tree n, ee.commits c = some d ∧
      List.Forall₂ (VersionOf rewritten) (graph.parentsOf c) ps ∧
      (∀ t, left c t → tree = t) ∧ ((¬ ∃ t, left c t) → tree = d.tree) ∧
      AMap.get? rewritten c = some (.nonZero n) ∧
      ee.find created n = some ⟨ps, tree, d.message, d.author, d.committer, ee.newTime d.time⟩) ∧
    (∀ c, ¬ AffectedBy graph seen (ToFix ee left) c → AMap.get? rewritten c = none) ∧
    ∀ x, head = some x → ∃ q, newHead = some q ∧ VersionOf rewritten x q := by
  have hpar : ∀ c, AffectedBy graph seen (ToFix ee left) c → ∃ q, IsParent graph q c := by
    intro c hA
    have hne : graph.parentsOf c ≠ [] := by
      by_cases hf : ToFix ee left c
      · exact F.not_root c hf
      · exact parentsOf_above hg hA hf
    obtain ⟨q, l, hq⟩ := List.exists_cons_of_ne_nil hne
    exact ⟨q, (mem_parentsOf hg).1 (by rw [hq]; simp)⟩
  have hver : ∀ c q, Lands (InPlace graph (AffectedBy graph seen (ToFix ee left))) rewritten c q →
      VersionOf rewritten c q := by
    intro c q hl
    cases hl with
    | stays _ hno =>
      refine .inr ⟨F.others c fun hA => hno ?_, rfl⟩
      obtain ⟨q, hq⟩ := hpar c hA
      exact ⟨q, hA, hq⟩
    | new p _ _ _ h => exact .inl h
    | dropped p _ _ hm h _ =>
      rcases F.versions c hm.1 with ⟨h1, _⟩ | ⟨_, _, _, n, _, _, _, _, h1, _⟩
      · exact absurd h1 (hskip c)
      · rw [h] at h1; simp at h1
  refine ⟨?_, F.others, ?_⟩
  · intro c hA
    rcases F.versions c hA with ⟨h1, _⟩ | ⟨d, ps, tree, n, h1, h2, h3⟩
    · exact absurd h1 (hskip c)
    · exact ⟨d, ps, tree, n, h1, h2.imp hver, h3⟩
  · intro x hx
    obtain ⟨q, h1, h2⟩ := F.head x hx
    exact ⟨q, h1, hver x q h2⟩

/-- C73: nothing is reported as a merge conflict, and no rebase on disk is begun: `git test fix` cannot cause
conflicts. -/
theorem test_fix_no_conflicts (hs : FixSetting env main graph w es commits p) (tx : Option Text)
    (run : RepoWorld → RepoWorld × Option (LoopOutput { c // c ∈ commits })) :
    (∀ info, (testFix env main graph tx w commits p run).2 ≠ .declined info) ∧
    ∀ code, (testFix env main graph tx w commits p run).2 ≠ .failed code := by
  rcases testFix_steps env main graph tx w commits p run with ⟨_, h1⟩ | ⟨r, d, hd, h2⟩
  · rw [h1]; simp
  rcases h2 with ⟨_, h2⟩ | ⟨hdisk, ⟨e, _, h2⟩ | ⟨perms, hv, wt, ⟨_, h2⟩ | ⟨out, hrun, h3⟩⟩⟩
  · rw [h2]; simp
  · rw [h2]; simp
  · rw [h2]; simp
  have hpub := (fix_verify hs hd).1 ⟨perms, hv⟩
  rcases test_fix hs hd hdisk hpub tx run wt out hrun with ⟨_, h4⟩ | ⟨h4, h5⟩
  · rw [h4]; simp
  rcases h5 with ⟨_, h5⟩ | ⟨_, h5⟩ | ⟨h5, ⟨_, rep, h6, _⟩ | ⟨h6, created, rewritten, newHead, w'', h7, h8⟩⟩
  · rw [h5]; simp
  · rw [h5]; simp
  · rw [h6]; simp
  rcases h8 with ⟨e, _, h8⟩ | ⟨ok, rep, h8, h9, h10⟩
  · rw [h8]; simp
  · rw [h9]; simp

/-- C73: the planner refuses to fix commits of the main branch, or commits with descendants there, unless this was
forced, before anything is tested; it refuses for no other reason. -/
theorem test_fix_public_exact (hs : FixSetting env main graph w es commits p) {r : Replayer} {d : Dag}
    (hd : openRepoDag graph main w = some (r, d)) (hdisk : env.forceOnDisk = false) (tx : Option Text)
    (run : RepoWorld → RepoWorld × Option (LoopOutput { c // c ∈ commits })) :
    (∃ e, (testFix env main graph tx w commits p run).2 = .refused (.planner e)) ↔
      (env.forceRewritePublicCommits = false ∧
        ∃ x ∈ commits, ∃ c, Anc graph x c ∧ OnMain graph main w.git c) := by
  have hv := fix_verify hs hd
  rcases testFix_steps env main graph tx w commits p run with ⟨h1, _⟩ | ⟨r', d', h1, h2⟩
  · rw [hd] at h1; simp at h1
  rw [hd] at h1
  cases h1
  rcases h2 with ⟨h2, _⟩ | ⟨_, ⟨e, h2, h3⟩ | ⟨perms, h2, wt, h3⟩⟩
  · rw [hdisk] at h2; simp at h2
  · constructor
    · intro _
      have : ¬ ∃ perms, verifyRewriteSet d env.forceRewritePublicCommits env.detectDuplicateCommitsViaPatchId
          commits = .ok perms := by rw [h2]; simp
      rw [hv, not_or, Bool.not_eq_true] at this
      push Not at this
      exact this
    · intro _
      exact ⟨e, by rw [h3]⟩
  · have hpub := hv.1 ⟨perms, h2⟩
    constructor
    · rintro ⟨e, h⟩
      exfalso
      rcases h3 with ⟨_, h3⟩ | ⟨out, hrun, _⟩
      · rw [h3] at h; simp at h
      rcases test_fix hs hd hdisk hpub tx run wt out hrun with ⟨_, h4⟩ | ⟨h4, h5⟩
      · rw [h4] at h; simp at h
      rcases h5 with ⟨_, h5⟩ | ⟨_, h5⟩ | ⟨h5, ⟨_, rep, h6, _⟩ | ⟨h6, created, rewritten, newHead, w'', h7, h8⟩⟩
      · rw [h5] at h; simp at h
      · rw [h5] at h; simp at h
      · rw [h6] at h; simp at h
      rcases h8 with ⟨e, _, h8⟩ | ⟨ok, rep, h8, h9, h10⟩
      · rw [h8] at h; simp at h
      · rw [h9] at h; simp at h
    · rintro ⟨h4, x, h5, c, h6, h7⟩
      rcases hpub with h8 | h8
      · rw [h4] at h8; simp at h8
      · exact absurd h7 (h8 x h5 c h6)

/-- C73: if the command refuses, finds nothing to fix, or only reports what it would do, it changes nothing except
what the tests themselves changed. -/
theorem test_fix_unchanged (hs : FixSetting env main graph w es commits p) (tx : Option Text)
    (run : RepoWorld → RepoWorld × Option (LoopOutput { c // c ∈ commits })) (w' : RepoWorld) (o : FixOutcome)
    (ho : (∃ e, o = .refused e) ∨ o = .nothing ∨ ∃ report, o = .dryRun report)
    (h : testFix env main graph tx w commits p run = (w', o)) :
    let W := { w with db := (w.db.makeTransactionId tx t!"test run").2 }
    ((o = .refused .onDisk ∨ ∃ e, o = .refused (.planner e)) ∧ w' = W) ∨
      (o ≠ .refused .onDisk ∧ (∀ e, o ≠ .refused (.planner e)) ∧ ∃ out, run W = (w', some out)) := by
  intro W
  rcases testFix_steps env main graph tx w commits p run with ⟨_, h1⟩ | ⟨r, d, hd, h2⟩
  · rw [h1] at h
    cases h
    simp at ho
  rcases h2 with ⟨_, h2⟩ | ⟨hdisk, ⟨e, _, h2⟩ | ⟨perms, hv, wt, ⟨_, h2⟩ | ⟨out, hrun, h3⟩⟩⟩
  · rw [h2] at h; cases h; exact .inl ⟨.inl rfl, rfl⟩
  · rw [h2] at h; cases h; exact .inl ⟨.inr ⟨e, rfl⟩, rfl⟩
  · rw [h2] at h; cases h; simp at ho
  have hpub := (fix_verify hs hd).1 ⟨perms, hv⟩
  right
  rcases test_fix hs hd hdisk hpub tx run wt out hrun with ⟨_, h4⟩ | ⟨h4, h5⟩
  · rw [h4] at h; cases h; exact ⟨by simp, by simp, out, hrun⟩
  rcases h5 with ⟨_, h5⟩ | ⟨_, h5⟩ | ⟨h5, ⟨_, rep, h6, _⟩ | ⟨h6, created, rewritten, newHead, w'', h7, h8⟩⟩
  · rw [h5] at h; cases h; simp at ho
  · rw [h5] at h; cases h; exact ⟨by simp, by simp, out, hrun⟩
  · rw [h6] at h; cases h; exact ⟨by simp, by simp, out, hrun⟩
  rcases h8 with ⟨e, _, h8⟩ | ⟨ok, rep, h8, h9, h10⟩
  · rw [h8] at h; cases h; simp at ho
  · rw [h9] at h; cases h; simp at ho

/-- C73: a commit without parents cannot be fixed: the command ends with an error, and fixes no other commit either. -/
theorem test_fix_root_fails (hs : FixSetting env main graph w es commits p) (tx : Option Text)
    (run : RepoWorld → RepoWorld × Option (LoopOutput { c // c ∈ commits })) (wt : RepoWorld)
    (out : LoopOutput { c // c ∈ commits })
    (hrun : run { w with db := (w.db.makeTransactionId tx t!"test run").2 } = (wt, some out))
    (hroot : ∃ c, ToFix env.exec (LeftFiles env.tree (outputsOf p out)) c ∧ graph.parentsOf c = []) :
    testFix env main graph tx w commits p run = (wt, .error) ∨
    (∃ W, testFix env main graph tx w commits p run = (W, .error) ∧ openRepoDag graph main w = none) ∨
    ∃ W e, testFix env main graph tx w commits p run = (W, .refused e) := by
  obtain ⟨c, h1, h2⟩ := hroot
  rcases testFix_steps env main graph tx w commits p run with ⟨h3, h4⟩ | ⟨r, d, hd, h3⟩
  · exact .inr (.inl ⟨_, h4, h3⟩)
  rcases h3 with ⟨_, h3⟩ | ⟨hdisk, ⟨e, _, h3⟩ | ⟨perms, hv, wt', h3⟩⟩
  · exact .inr (.inr ⟨_, _, h3⟩)
  · exact .inr (.inr ⟨_, _, h3⟩)
  have hpub := (fix_verify hs hd).1 ⟨perms, hv⟩
  rcases test_fix hs hd hdisk hpub tx run wt out hrun with ⟨_, h4⟩ | ⟨h4, h5⟩
  · exact .inr (.inr ⟨_, _, h4⟩)
  rcases h5 with ⟨_, h5⟩ | ⟨h5, _⟩ | ⟨h5, ⟨_, _, _, _, h6⟩ | ⟨h6, created, rewritten, newHead, w'', h7, h8⟩⟩
  · exact .inl h5
  · exact absurd ⟨c, h1⟩ h5
  · exact absurd h2 (h6 c h1)
  · exact absurd h2 (h7.not_root c h1)

end

end Verif.Props
