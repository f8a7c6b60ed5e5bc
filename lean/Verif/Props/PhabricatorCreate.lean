import Verif.Lemmas.PhabricatorCreate
import Verif.Props.Phabricator
import Verif.Props.RewordCommand
import Verif.Lemmas.Sync
import Verif.Lemmas.Submit
import Verif.Lemmas.MoveExact

/-! The forge for Phabricator: creating and updating revisions. -/

namespace Verif.Props

open Verif Verif.Spec Verif.RebasePlanBuilder Verif.Constraints Verif.Phabricator Verif.TestRun

variable {env : PhabEnv}

theorem affected_congr {graph : CommitGraph Oid} {seen : Oid → Prop} {X Y : List Oid} (h : ∀ c, c ∈ X ↔ c ∈ Y) :
    Affected graph seen X = Affected graph seen Y := by
  funext c
  unfold Affected
  simp only [h]

theorem uploaded_congr {graph : CommitGraph Oid} {seen : Oid → Prop} {X Y : List Oid} {made : Oid → Oid → Prop}
    {ee : ExecEnv} {created : List (Oid × CommitData)} {rewritten : AMap Oid MaybeZero} {head newHead : Option Oid}
    (h : ∀ c, c ∈ X ↔ c ∈ Y) (H : Uploaded graph seen X made ee created rewritten head newHead) :
    Uploaded graph seen Y made ee created rewritten head newHead := by
  obtain ⟨h1, h2, h3, h4⟩ := H
  rw [affected_congr h] at h1 h2 h3 h4
  exact ⟨fun c hc => h1 c ((h c).2 hc), fun c hc => h2 c fun h5 => hc ((h c).1 h5), h3, h4⟩

/-- There is always a plan if `arc` succeeded for all commits, unless there are none. -/
theorem create_plan_exists {d : Dag} (hg : WFGraph d.graph) {seen : Oid → Prop}
    (hs : ∀ o, seen o ↔ o ∈ d.graph.nodes ∧ ∃ x ∈ d.visibleHeads, Anc d.graph o x)
    {outputs : List (Oid × TestStatus)} (hX : ∀ x ∈ outputs.map Prod.fst, x ∈ d.graph.nodes)
    (hag : Agrees d.graph env.exec) (hn : NoCollisions env.exec) (ha : ArcAmends env.exec outputs)
    {X : List Oid} (hall : ∀ c, c ∈ X ↔ c ∈ outputs.map Prod.fst) {perms : RebasePlanPermissions}
    (hp : verifyRewriteSet d false false X = .ok perms) :
    (createPlan env d perms outputs = .error .error) ∨
    (∃ c ∈ X, createPlan env d perms outputs = .error (.failedFor c)) ∨
    (X = [] ∧ createPlan env d perms outputs = .ok none) ∨
    ∃ b k plan, createPlan env d perms outputs = .ok (some plan) ∧
      ReplaceSetup env.exec d.graph seen (outputs.map Prod.fst) (UploadedAs outputs) b k ∧
      b.build = .ok (.ok (some plan)) := by
  have hdet : perms.detectDuplicateCommitsViaPatchId = false := by
    have := hp
    unfold verifyRewriteSet at this
    simp only at this
    split at this
    · simp at this
    · cases this; rfl
  have hallow := verify_rewrite_set_allows d hg _ _ _ _ hp
  unfold createPlan
  cases hb : outputs.foldlM (requestUploaded env) ⟨env.planEnv d, perms, [], []⟩ with
  | error e =>
    simp only
    obtain ⟨pre, ⟨c, st⟩, post, s, h1, -, h2⟩ := foldlM_except_error hb
    unfold requestUploaded at h2
    simp only at h2
    split at h2
    · cases h2
      exact .inr (.inl ⟨c, (hall c).2 (by rw [h1]; simp), rfl⟩)
    · left
      split at h2
      · cases h2; rfl
      · split at h2
        · cases h2; rfl
        · split at h2
          · cases h2; rfl
          · simp at h2
  | ok b =>
    simp only
    obtain ⟨k, S⟩ := uploadSetup hg hs hX hag hn ha hdet hb
    have hperm : b.permissions = perms := (requestedUploads hb).same.2
    obtain ⟨plan, h1, h2⟩ := build_moves S.graph_ok S.no_fixups S.acyclic (by
      intro p c hpc
      rw [S.moves] at hpc
      rw [hperm, hallow]
      refine ⟨hpc.2.child_mem, ?_⟩
      rcases hpc.1 with h | ⟨_, x, hx, hxc⟩
      · exact ⟨c, (hall c).2 h, .refl⟩
      · exact ⟨x, (hall x).2 hx, hxc⟩)
    rw [h1]
    right; right
    cases plan with
    | none =>
      left
      have hno := h2.1 rfl
      refine ⟨?_, rfl⟩
      rw [List.eq_nil_iff_forall_not_mem]
      intro x hx
      obtain ⟨p, hp⟩ := (S.moved_iff x).2 (.inl ((hall x).1 hx))
      exact hno ⟨p, x, (S.moves p x).2 hp⟩
    | some plan => exact .inr ⟨b, k, plan, rfl, S, h1⟩

theorem executeRebasePlan_succeeded {ee : ExecEnv} {finish : List (Oid × CommitData) → FinishEnv}
    {disk : OnDiskEnv} {plan : RebasePlan} {w w' : RepoWorld} {x : Option (AMap Oid MaybeZero)}
    (h : executeRebasePlan ee finish disk ⟨true, false, false⟩ plan w = (w', .ok (.succeeded x))) :
    ∃ s newHead ok, ee.rebaseInMemory w.git.headInfo.oid plan = .ok (s, newHead) ∧ x = some s.rewritten ∧
      postRebaseInMemory (finish s.created) w s.rewritten newHead = (w', .ok ok) := by
  obtain ⟨s, newHead, ok, h1, h2⟩ := executeRebasePlan_inMemory ⟨rfl, .inl rfl⟩ h
  refine ⟨s, newHead, ok, h1, ?_, h2⟩
  unfold executeRebasePlan at h
  simp only [Bool.false_eq_true, if_false] at h
  rw [h1] at h
  simp only at h
  rw [h2] at h
  simp only [Prod.mk.injEq, Except.ok.injEq, ExecResult.succeeded.injEq] at h
  exact h.2.symm

/-- The steps up to the plan. -/
theorem create_steps {d : Dag} {tx : Option Text} {w w' : PhabWorld} {commits : List Oid}
    {arc : PhabWorld → List Oid → PhabWorld × ArcRun} {x : Except CreateStop (List CreatedRevision)}
    {written : List (Oid × CommitData)} (h : create env d tx w commits arc = (w', x, written)) :
    (w' = w ∧ x = .error .error) ∨
    (∃ e, verifyRewriteSet d false false (env.sort env.exec.commits commits) = .error e ∧
      x = .error (.notAllowed e) ∧ w'.repo.git = w.repo.git ∧ w'.revisions = w.revisions) ∨
    ∃ perms w0 w1 run, verifyRewriteSet d false false (env.sort env.exec.commits commits) = .ok perms ∧
      w0 = { w with repo :=
        { w.repo with db := (w.repo.db.makeTransactionId tx t!"phabricator create").2 } } ∧
      arc w0 (env.sort env.exec.commits commits) = (w1, run) ∧
      ((run = .error ∧ w' = w1 ∧ x = .error .error) ∨ (∃ code, run = .exit code ∧ w' = w1 ∧ x = .error (.arc code)) ∨
        (∃ outputs, run = .results outputs true ∧ w' = w1 ∧ x = .error .aborted) ∨
        ∃ outputs, run = .results outputs false ∧
          createWith env d perms w1 (env.sort env.exec.commits commits) outputs = (w', x, written)) := by
  unfold create at h
  simp only at h
  split at h
  · cases h; exact .inl ⟨rfl, rfl⟩
  split at h
  · rename_i e he
    cases h
    exact .inr (.inl ⟨e, he, rfl, rfl, rfl⟩)
  rename_i perms hp
  refine .inr (.inr ⟨perms, { w with repo :=
    { w.repo with db := (w.repo.db.makeTransactionId tx t!"phabricator create").2 } }, ?_⟩)
  split at h
  · rename_i w1 ha
    cases h
    exact ⟨_, _, hp, rfl, ha, .inl ⟨rfl, rfl, rfl⟩⟩
  · rename_i w1 code ha
    cases h
    exact ⟨_, _, hp, rfl, ha, .inr (.inl ⟨code, rfl, rfl, rfl⟩)⟩
  · rename_i w1 outputs ha
    cases h
    exact ⟨_, _, hp, rfl, ha, .inr (.inr (.inl ⟨outputs, rfl, rfl, rfl⟩))⟩
  · rename_i w1 outputs ha
    exact ⟨w1, _, hp, rfl, ha, .inr (.inr (.inr ⟨outputs, rfl, h⟩))⟩

/-- C84: what submitting commits for the first time does, if it succeeds. The commits are not on the main branch,
and have no descendants there. `arc` was run for all of them. What it made of them was put in their places, with the
visible descendants on top, and no file was changed (see `Uploaded`). The references are updated (C22, C23, C24).
Each commit is reported with the revision which is named in the message that `arc` gave to it (see `ReportedRevisions`).
Then the dependencies of these revisions are brought up to date (C83). -/
theorem phab_create_exact (graph : CommitGraph Oid) (hg : WFGraph graph) (main : Text) (w0 : RepoWorld)
    (hw : AMap.WF w0.git.refs) (es : List Event) (he : w0.db.getEvents = some es) (rp : Replayer) (d : Dag)
    (hd : openRepoDag graph main w0 = some (rp, d)) (env : PhabEnv) (hag : Agrees graph env.exec)
    (hn : NoCollisions env.exec) (hcp : CleanPicks env.exec) (tx : Option Text) (w : PhabWorld)
    (commits X : List Oid) (hX : X = env.sort env.exec.commits commits) (hXn : ∀ x ∈ X, x ∈ graph.nodes)
    (arc : PhabWorld → List Oid → PhabWorld × ArcRun)
    (harc : ∀ w' w1 outputs, arc w' X = (w1, .results outputs false) →
      (∀ c, c ∈ X ↔ c ∈ outputs.map Prod.fst) ∧ ArcAmends env.exec outputs)
    (w' : PhabWorld) (created : List CreatedRevision) (written : List (Oid × CommitData))
    (h : create env d tx w commits arc = (w', .ok created, written)) :
    (∀ x ∈ X, ∀ c, Anc graph x c → ¬ OnMain graph main w0.git c) ∧
    ∃ w1 outputs, arc { w with repo :=
        { w.repo with db := (w.repo.db.makeTransactionId tx t!"phabricator create").2 } } X =
        (w1, .results outputs false) ∧
      ((X = [] ∧ created = [] ∧ w' = w1 ∧ written = []) ∨
      ∃ rewritten newHead ok,
        Uploaded graph (Seen graph main w0.git es) X (UploadedAs outputs) env.exec written rewritten
          w1.repo.git.headInfo.oid newHead ∧
        ReportedRevisions X (UploadedAs outputs) env.exec written rewritten created ∧
        (∀ c ∈ X, graph.parentsOf c ≠ []) ∧
        (∀ c dc, env.exec.commits c = some dc → env.exec.find written c = some dc) ∧
        postRebaseInMemory (env.finish written) w1.repo rewritten newHead = (w'.repo, .ok ok) ∧
        updateDependencies env.conduit (env.exec.find written) (d.draftCommits ++ created.map (·.final))
          w1.revisions (env.sort (env.exec.find written) (created.map (·.final))) =
          (w'.revisions, .ok ())) := by
  obtain ⟨hgr, -⟩ := graph_opened he hd
  have hs := seen_opened hg hw he hd
  subst hgr
  subst hX
  rcases create_steps h with ⟨-, h1⟩ | ⟨e, -, h1, -⟩ | ⟨perms, w0', w1, run, hp, rfl, harun, h1⟩
  · exact nomatch h1
  · exact nomatch h1
  have hpub : ∀ x ∈ env.sort env.exec.commits commits, ∀ c, Anc d.graph x c →
      ¬ OnMain d.graph main w0.git c := by
    rcases (verify_rewrite_set_iff d hg false false _).1 ⟨perms, hp⟩ with h2 | h2
    · exact nomatch h2
    · exact fun x hx c hxc hc =>
        h2 x hx c (hxc.mem_up (hXn x hx)) hxc ((public_opened hw he hd c).2 hc)
  refine ⟨hpub, ?_⟩
  rcases h1 with ⟨-, -, h1⟩ | ⟨code, -, -, h1⟩ | ⟨outputs, -, -, h1⟩ | ⟨outputs, rfl, h1⟩
  · exact nomatch h1
  · exact nomatch h1
  · exact nomatch h1
  refine ⟨w1, outputs, harun, ?_⟩
  obtain ⟨hall, ham⟩ := harc _ _ _ harun
  unfold createWith at h1
  rcases create_plan_exists hg hs (fun x hx => hXn x ((hall x).2 hx)) hag hn ham hall hp with
    h2 | ⟨c, -, h2⟩ | ⟨h3, h2⟩ | ⟨b, k, plan, h2, S, hb⟩
  · rw [h2] at h1; cases h1
  · rw [h2] at h1; cases h1
  · rw [h2] at h1; cases h1; exact .inl ⟨h3, rfl, rfl, rfl⟩
  rw [h2] at h1
  simp only at h1
  right
  split at h1
  · cases h1
  · cases h1
  · cases h1
  rename_i repo rew hex
  obtain ⟨s, newHead, ok, h3, rfl, h4⟩ := executeRebasePlan_succeeded hex
  have hwr : writtenBy env.exec w1.repo.git.headInfo.oid plan = s.created := by
    unfold writtenBy; rw [h3]
  rw [hwr] at h1
  have hU := S.uploaded_of_run hcp hb h3
  have hU' := uploaded_congr (fun c => (hall c).symm) hU
  simp only [Option.getD_some, Prod.mk.injEq] at h1
  obtain ⟨h5, h6, rfl⟩ := h1
  have h7 : finishCreate env d { w1 with repo := repo } s.created s.rewritten
      (env.sort env.exec.commits commits) = (w', .ok created) := Prod.ext h5 h6
  unfold finishCreate at h7
  split at h7
  · cases h7
  rename_i created' hcr
  split at h7
  · cases h7
  rename_i s2 hdep
  cases h7
  refine ⟨s.rewritten, newHead, ok, hU', ⟨?_, ?_⟩, ?_, ?_, h4, hdep⟩
  · have hf := mapM_except_forall₂ hcr
    generalize env.sort env.exec.commits commits = X at hf
    clear hdep hcr h h5 h6
    induction hf with
    | nil => rfl
    | cons hc _ ih =>
      rw [List.map_cons, ih]
      congr 1
      unfold createdRevision at hc
      split at hc
      · cases hc
      · cases hc
      · cases hc; rfl
  · intro x hx
    have hxo : ∃ c ∈ env.sort env.exec.commits commits,
        createdRevision (env.exec.find s.created) s.rewritten c = .ok x :=
      forall₂_origin (mapM_except_forall₂ hcr) hx
    obtain ⟨c, hc, hcx⟩ := hxo
    obtain ⟨r, dr, ps, n, h8, h9, -, h10, h11⟩ := hU'.selected c hc
    have hfin : finalCommit s.rewritten c = n := by unfold finalCommit; rw [h10]
    unfold createdRevision at hcx
    rw [hfin, getRevisionId, h11] at hcx
    simp only [Option.map_some] at hcx
    split at hcx
    · cases hcx
    · cases hcx
    · rename_i id hid
      cases hcx
      simp only [Option.some.injEq] at hid
      have hdf := (revisionId_iff _ _).1 hid
      have hdr : revisionId dr = some id := hid
      exact ⟨h10, r, dr, _, id, h8, h9, (revisionId_iff _ _).1 hdr, rfl, h11, hdf⟩
  · intro c hc
    exact S.has_parent c ((hall c).1 hc)
  · obtain ⟨y, T⟩ := (S.tracked hcp hb (runs_no_merge (rebaseInMemory_ok h3).1) _).2 s newHead h3
    exact fun c dc hc => find_original hn T.created hc

theorem forall₂_image {α β : Type} {R : α → β → Prop} {l : List α} {m : List β} (h : List.Forall₂ R l m)
    {a : α} (ha : a ∈ l) : ∃ b ∈ m, R a b := by
  obtain ⟨b, hb, h1⟩ := forall₂_origin (List.Forall₂.flip h) ha
  exact ⟨b, hb, h1⟩

/-- C84: after revisions were created and Phabricator accepted the changes, each new revision depends on the new
revisions of the parents, and on the revisions of those parents which had one before. Missing: this holds if no parent
of a submitted commit is rewritten without being submitted, see `created_below_submitted_loses_dependency` and
`created_above_submitted_loses_dependency`. -/
theorem phab_create_dependencies_partial (graph : CommitGraph Oid) (hg : WFGraph graph) (main : Text)
    (w0 : RepoWorld) (hw : AMap.WF w0.git.refs) (es : List Event) (he : w0.db.getEvents = some es) (rp : Replayer)
    (d : Dag) (hd : openRepoDag graph main w0 = some (rp, d)) (env : PhabEnv) (hag : Agrees graph env.exec)
    (hn : NoCollisions env.exec) (hcp : CleanPicks env.exec) (tx : Option Text) (w : PhabWorld)
    (commits X : List Oid) (hX : X = env.sort env.exec.commits commits) (hXn : ∀ x ∈ X, x ∈ graph.nodes)
    (arc : PhabWorld → List Oid → PhabWorld × ArcRun)
    (harc : ∀ w' w1 outputs, arc w' X = (w1, .results outputs false) →
      (∀ c, c ∈ X ↔ c ∈ outputs.map Prod.fst) ∧ ArcAmends env.exec outputs ∧ AMap.WF w1.revisions)
    (w' : PhabWorld) (created : List CreatedRevision) (written : List (Oid × CommitData))
    (h : create env d tx w commits arc = (w', .ok created, written))
    (hq : ∀ s i phids, env.conduit.edit s i phids ≠ .refused)
    (hsort : (env.sort (env.exec.find written) (created.map (·.final))).Perm (created.map (·.final)).dedup)
    (hnames : (created.map (·.name)).Nodup) (hnew : ∀ x ∈ created, x.final ∉ graph.nodes)
    (hwhole : ∀ c ∈ X, ∀ p ∈ graph.parentsOf c, Affected graph (Seen graph main w0.git es) X p → p ∈ X) :
    ∀ x ∈ created, ∀ id, x.name = 'D' :: id → ∀ rev, AMap.get? w'.revisions id = some rev →
      ∀ ph, ph ∈ rev.dependsOn ↔ ∃ j rev', AMap.get? w'.revisions j = some rev' ∧ ph = rev'.phid ∧
        ∃ p ∈ graph.parentsOf x.original, (∃ y ∈ created, y.original = p ∧ y.name = 'D' :: j) ∨
          (p ∉ X ∧ p ∈ d.draftCommits ∧ ∃ dp, env.exec.commits p = some dp ∧ RevisionOf dp j) := by
  intro x hx id hid rev hrev ph
  obtain ⟨-, w1, outputs, ha, h1⟩ := phab_create_exact graph hg main w0 hw es he rp d hd env hag hn hcp tx w
    commits X hX hXn arc (fun a b c h => ⟨(harc a b c h).1, (harc a b c h).2.1⟩) w' created written h
  rcases h1 with ⟨-, rfl, -⟩ | ⟨rewritten, newHead, ok, hU, hR, hpar, hold, -, hdep⟩
  · exact nomatch hx
  obtain ⟨-, -, hw1⟩ := harc _ _ _ ha
  have hXc : ∀ p ∈ X, ∃ y ∈ created, y.original = p := by
    intro p hp
    rw [← hR.originals] at hp
    obtain ⟨y, h1, h2⟩ := List.mem_map.1 hp
    exact ⟨y, h1, h2⟩
  have hcX : ∀ y ∈ created, y.original ∈ X := by
    intro y hy
    rw [← hR.originals]
    exact List.mem_map_of_mem hy
  -- the revision of the new version
  have hrevs : ∀ y ∈ created, ∃ df, env.exec.find written y.final = some df ∧
      ∀ j, RevisionOf df j ↔ y.name = 'D' :: j := by
    intro y hy
    obtain ⟨-, r, dr, df, i, -, -, -, h5, h6, h7⟩ := hR.named y hy
    refine ⟨df, h6, fun j => ⟨fun h8 => ?_, fun h8 => ?_⟩⟩
    · rw [h5, revisionOf_unique h7 h8]
    · rw [h5, List.cons.injEq] at h8
      rw [← h8.2]
      exact h7
  obtain ⟨df, hdf, hdfr⟩ := hrevs x hx
  obtain ⟨pre, post, hsplit⟩ := List.append_of_mem (hsort.symm.subset
    (List.mem_dedup.2 (List.mem_map_of_mem (f := (·.final)) hx)))
  have hnd : (pre ++ x.final :: post).Nodup := by
    rw [← hsplit]
    exact (hsort.nodup_iff).2 (List.nodup_dedup _)
  rw [hsplit] at hdep
  have hst := dependencies_exact env.conduit hq (env.exec.find written) (d.draftCommits ++ created.map (·.final))
    w1.revisions hw1 pre post x.final w'.revisions hdep df hdf id ((hdfr id).2 hid) (by
      intro c' hc' d' hd' hr'
      have hmem : c' ∈ created.map (·.final) := by
        rw [← List.mem_dedup]
        refine hsort.subset ?_
        rw [hsplit]
        simp [hc']
      obtain ⟨y, hy, rfl⟩ := List.mem_map.1 hmem
      obtain ⟨dy, h2, h3⟩ := hrevs y hy
      rw [h2] at hd'
      cases hd'
      have hxy : y = x := List.inj_on_of_nodup_map hnames hy hx (by rw [hid, (h3 id).1 hr'])
      subst hxy
      exact (List.nodup_cons.1 (List.nodup_append.1 hnd).2.1).1 hc')
  rw [hst rev hrev ph]
  obtain ⟨hn1, -⟩ := hR.named x hx
  obtain ⟨r, dr, ps, n, -, -, h2, h3, h4⟩ := hU.selected x.original (hcX x hx)
  rw [hn1] at h3
  cases h3
  rw [hdf] at h4
  cases h4
  -- where the parents are
  have hmoved : ∀ p, p ∈ X → ∃ q, InPlace graph (Affected graph (Seen graph main w0.git es) X) q p := by
    intro p hp
    obtain ⟨q, l, hql⟩ := List.exists_cons_of_ne_nil (hpar p hp)
    exact ⟨q, .inl hp, (mem_parentsOf hg).1 (by rw [hql]; simp)⟩
  have hsel : ∀ y ∈ created, ∀ q,
      Lands (InPlace graph (Affected graph (Seen graph main w0.git es) X)) rewritten y.original q → q = y.final := by
    intro y hy q hq
    obtain ⟨h5, -⟩ := hR.named y hy
    generalize hyo : y.original = o at hq h5
    cases hq with
    | stays _ h6 => exact absurd (hmoved _ (hyo ▸ hcX y hy)) h6
    | new p _ _ _ h6 => rw [h5] at h6; cases h6; rfl
    | dropped p _ _ _ h6 _ => rw [h5] at h6; cases h6
  have hstay : ∀ p, p ∈ graph.parentsOf x.original → p ∉ X → ∀ q,
      Lands (InPlace graph (Affected graph (Seen graph main w0.git es) X)) rewritten p q → q = p := by
    intro p hp hpX q hq
    have hna : ¬ Affected graph (Seen graph main w0.git es) X p :=
      fun hA => hpX (hwhole _ (hcX x hx) p hp hA)
    cases hq with
    | stays _ h6 => rfl
    | new p' _ _ h6 _ => exact absurd h6.1 hna
    | dropped p' _ _ h6 _ _ => exact absurd h6.1 hna
  constructor
  · rintro ⟨j, rev', ⟨d', q, dq, h5, h6, h7, h8, h9⟩, h10, h11⟩
    rw [hdf] at h5
    cases h5
    obtain ⟨p, hp, hpq⟩ := forall₂_origin h2 h6
    refine ⟨j, rev', h10, h11, p, hp, ?_⟩
    by_cases hpX : p ∈ X
    · obtain ⟨y, hy, rfl⟩ := hXc p hpX
      obtain rfl := hsel y hy q hpq
      obtain ⟨dy, h12, h13⟩ := hrevs y hy
      rw [h12] at h8
      cases h8
      exact .inl ⟨y, hy, rfl, (h13 j).1 h9⟩
    · obtain rfl := hstay p hp hpX q hpq
      have hpn : q ∈ graph.nodes := ((mem_parentsOf hg).1 hp).parent_mem hg
      obtain ⟨dp, h12, -⟩ := hag q hpn
      rw [hold q dp h12] at h8
      cases h8
      refine .inr ⟨hpX, ?_, dq, h12, h9⟩
      rcases List.mem_append.1 h7 with h7 | h7
      · exact h7
      · obtain ⟨y, hy, h14⟩ := List.mem_map.1 h7
        exact absurd (h14 ▸ hpn) (hnew y hy)
  · rintro ⟨j, rev', h10, h11, p, hp, h12⟩
    obtain ⟨q, hq, hpq⟩ := forall₂_image h2 hp
    rcases h12 with ⟨y, hy, rfl, hyj⟩ | ⟨hpX, hpd, dp, h13, h14⟩
    · obtain rfl := hsel y hy q hpq
      obtain ⟨dy, h12, h13⟩ := hrevs y hy
      exact ⟨j, rev', ⟨_, y.final, dy, hdf, hq, List.mem_append_right _ (List.mem_map_of_mem hy), h12,
        (h13 j).2 hyj⟩, h10, h11⟩
    · obtain rfl := hstay p hp hpX q hpq
      exact ⟨j, rev', ⟨_, q, dp, hdf, hq, List.mem_append_left _ hpd, hold q dp h13, h14⟩, h10, h11⟩

/-! ### when revisions are not created -/

theorem mapM_except_fails {α β ε : Type} {f : α → Except ε β} {l : List α} {e : ε} (h : l.mapM f = .error e) :
    ∃ a ∈ l, f a = .error e := by
  by_contra hno
  induction l with
  | nil => cases h
  | cons a l ih =>
    rw [List.mapM_cons] at h
    cases hf : f a with
    | error e' =>
      rw [hf] at h
      cases h
      exact hno ⟨a, by simp, hf⟩
    | ok b =>
      rw [hf] at h
      cases hl : l.mapM f with
      | error e' =>
        rw [hl] at h
        cases h
        exact ih hl fun ⟨x, h1, h2⟩ => hno ⟨x, by simp [h1], h2⟩
      | ok bs => rw [hl] at h; cases h

/-- C84: if `arc` failed for a commit, no commit is rewritten, and no dependencies are changed: all is as `arc` has
left it. -/
theorem phab_create_all_or_none (env : PhabEnv) (d : Dag) (tx : Option Text) (w : PhabWorld) (commits : List Oid)
    (arc : PhabWorld → List Oid → PhabWorld × ArcRun) (w1 : PhabWorld) (outputs : List (Oid × TestStatus))
    (aborted : Bool)
    (harc : arc { w with repo :=
        { w.repo with db := (w.repo.db.makeTransactionId tx t!"phabricator create").2 } }
      (env.sort env.exec.commits commits) = (w1, .results outputs aborted))
    (hf : aborted = true ∨ ∃ c st, (c, st) ∈ outputs ∧ ∀ cached info interactive, st ≠ .passed cached info interactive)
    (w' : PhabWorld) (x : Except CreateStop (List CreatedRevision)) (written : List (Oid × CommitData))
    (h : create env d tx w commits arc = (w', x, written)) :
    (∃ e, x = .error e) ∧ ((w'.repo.git = w.repo.git ∧ w'.revisions = w.revisions) ∨ w' = w1) := by
  rcases create_steps h with ⟨rfl, rfl⟩ | ⟨e, -, rfl, h1, h2⟩ | ⟨perms, w0', w1', run, hp, rfl, harun, h1⟩
  · exact ⟨⟨_, rfl⟩, .inl ⟨rfl, rfl⟩⟩
  · exact ⟨⟨_, rfl⟩, .inl ⟨h1, h2⟩⟩
  rw [harc] at harun
  cases harun
  rcases h1 with ⟨h1, -⟩ | ⟨code, h1, -⟩ | ⟨o, h1, rfl, rfl⟩ | ⟨o, h1, h2⟩
  · cases h1
  · cases h1
  · exact ⟨⟨_, rfl⟩, .inr rfl⟩
  cases h1
  rcases hf with h3 | ⟨c, st, h3, h4⟩
  · cases h3
  unfold createWith at h2
  have : ∃ e, createPlan env d perms outputs = .error e := by
    unfold createPlan
    cases hb : outputs.foldlM (requestUploaded env) ⟨env.planEnv d, perms, [], []⟩ with
    | error e => exact ⟨e, rfl⟩
    | ok b =>
      exfalso
      have hall : ∀ y ∈ outputs, ∃ r, uploaded y.1 y.2 = some r := by
        refine foldlM_except_inv (P := fun pre _ => ∀ y ∈ pre, ∃ r, uploaded y.1 y.2 = some r)
          (by simp) ?_ hb
        intro pre y post s s' _ hpre hs z hz
        rcases List.mem_append.1 hz with hz | hz
        · exact hpre z hz
        · rw [List.mem_singleton.1 hz]
          unfold requestUploaded at hs
          cases hu : uploaded y.1 y.2 with
          | none => rw [hu] at hs; cases hs
          | some r => exact ⟨r, rfl⟩
      obtain ⟨r, hr⟩ := hall _ h3
      obtain ⟨a1, a2, a3, h5, -⟩ := uploaded_some hr
      exact h4 a1 a2 a3 h5
  obtain ⟨e, he⟩ := this
  rw [he] at h2
  cases h2
  exact ⟨⟨_, rfl⟩, .inr rfl⟩

/-- C84: putting what `arc` made in the places of the commits does not cause conflicts, and the planner does not
refuse it, if there are no merge commits among the visible descendants (those selected aside). -/
theorem phab_create_no_conflicts (graph : CommitGraph Oid) (hg : WFGraph graph) (main : Text) (w0 : RepoWorld)
    (hw : AMap.WF w0.git.refs) (es : List Event) (he : w0.db.getEvents = some es) (rp : Replayer) (d : Dag)
    (hd : openRepoDag graph main w0 = some (rp, d)) (env : PhabEnv) (hag : Agrees graph env.exec)
    (hn : NoCollisions env.exec) (hcp : CleanPicks env.exec) (tx : Option Text) (w : PhabWorld)
    (commits X : List Oid) (hX : X = env.sort env.exec.commits commits) (hXn : ∀ x ∈ X, x ∈ graph.nodes)
    (hm : ∀ c, c ∉ X → Affected graph (Seen graph main w0.git es) X c → (graph.parentsOf c).length ≤ 1)
    (arc : PhabWorld → List Oid → PhabWorld × ArcRun)
    (harc : ∀ w' w1 outputs, arc w' X = (w1, .results outputs false) →
      (∀ c, c ∈ X ↔ c ∈ outputs.map Prod.fst) ∧ ArcAmends env.exec outputs)
    (w' : PhabWorld) (e : CreateStop) (written : List (Oid × CommitData))
    (h : create env d tx w commits arc = (w', .error e, written)) :
    (∀ x, e ≠ .planner x) ∧ (∀ info, e ≠ .declined info) ∧ ∀ code, e ≠ .failed code := by
  obtain ⟨hgr, -⟩ := graph_opened he hd
  have hs := seen_opened hg hw he hd
  subst hgr
  subst hX
  rcases create_steps h with ⟨-, h1⟩ | ⟨e', -, h1, -⟩ | ⟨perms, w0', w1, run, hp, rfl, harun, h1⟩
  · cases h1; simp
  · cases h1; simp
  rcases h1 with ⟨-, -, h1⟩ | ⟨code, -, -, h1⟩ | ⟨outputs, -, -, h1⟩ | ⟨outputs, rfl, h1⟩
  · cases h1; simp
  · cases h1; simp
  · cases h1; simp
  obtain ⟨hall, ham⟩ := harc _ _ _ harun
  unfold createWith at h1
  rcases create_plan_exists hg hs (fun x hx => hXn x ((hall x).2 hx)) hag hn ham hall hp with
    h2 | ⟨c, -, h2⟩ | ⟨h3, h2⟩ | ⟨b, k, plan, h2, S, hb⟩
  · rw [h2] at h1; cases h1; simp
  · rw [h2] at h1; cases h1; simp
  · rw [h2] at h1; cases h1
  rw [h2] at h1
  simp only at h1
  have hnm : ∀ c ps, .merge c ps ∉ plan.commands := by
    intro c ps hc
    obtain ⟨-, h3, -⟩ := plan_kinds b k S.graph_ok plan hb
    obtain ⟨h4, h5⟩ := h3 c ps hc
    have h5 : 1 < (b.env.dag.graph.parentsOf c).length := h5
    rw [S.graph_eq] at h5
    have hcX : c ∉ outputs.map Prod.fst := by
      rw [← S.replaced c, h4]; simp
    have hone := plan_each_once_partial b k S.graph_ok S.regular plan hb
    have := hone.only c (List.mem_filterMap.2 ⟨_, hc, rfl⟩)
    have hA : Affected d.graph (Seen d.graph main w0.git es) (outputs.map Prod.fst) c := by
      rcases this with ⟨p, hp⟩ | ⟨fs, hfs⟩
      · rw [S.moves] at hp; exact hp.1
      · rw [S.no_fixups] at hfs; simp at hfs
    rw [affected_congr fun c => (hall c).symm] at hA
    have := hm c (fun h => hcX ((hall c).1 h)) hA
    omega
  split at h1
  · cases h1; simp
  · rename_i w2 info hx
    exfalso
    exact (S.tracked hcp hb hnm _).1 info (((executeRebasePlan_forced hx).2 info).1 rfl)
  · rename_i w2 code hx
    exact absurd rfl ((executeRebasePlan_forced hx).1 code)
  · rename_i repo rew hex
    simp only [Prod.mk.injEq] at h1
    obtain ⟨-, h6, -⟩ := h1
    unfold finishCreate at h6
    split at h6
    · rename_i e2 hcr
      cases h6
      have hce : ∃ c ∈ env.sort env.exec.commits commits, createdRevision (env.exec.find (writtenBy env.exec w1.repo.git.headInfo.oid plan))
          (rew.getD []) c = .error e := mapM_except_fails hcr
      obtain ⟨c, -, hc⟩ := hce
      unfold createdRevision at hc
      split at hc <;> cases hc <;> simp
    · split at h6 <;> cases h6
      simp

/-! ### updating revisions -/

/-- C84: what updating revisions does. The commits are not on the main branch, and have no descendants there. `arc`
succeeded for all of them; the repository is as `arc` left it; then the dependencies are brought up to date. -/
theorem phab_update_exact (env : PhabEnv) (find : Oid → Option CommitData) (d : Dag) (hg : WFGraph d.graph)
    (tx : Option Text) (w : PhabWorld) (commits : List Oid) (arc : PhabWorld → List Oid → PhabWorld × ArcRun)
    (w' : PhabWorld) (h : update env find d tx w commits arc = (w', .ok ())) :
    (∀ c ∈ env.sort find commits, ∀ c' ∈ d.graph.nodes, Anc d.graph c c' → ¬ Public d c') ∧
    ∃ w1 outputs, arc { w with repo :=
        { w.repo with db := (w.repo.db.makeTransactionId tx t!"phabricator update").2 } } (env.sort find commits) =
        (w1, .results outputs false) ∧
      (∀ x ∈ outputs, ∃ cached info interactive, x.2 = .passed cached info interactive) ∧ w'.repo = w1.repo ∧
      updateDependencies env.conduit find d.draftCommits w1.revisions (env.sort find (outputs.map (·.1))) =
        (w'.revisions, .ok ()) := by
  unfold update at h
  simp only at h
  split at h
  · cases h
  split at h
  · cases h
  rename_i perms hp
  constructor
  · rcases (verify_rewrite_set_iff d hg false false _).1 ⟨perms, hp⟩ with h2 | h2
    · exact nomatch h2
    · exact h2
  split at h
  · cases h
  · cases h
  · cases h
  rename_i w1 outputs ha
  split at h
  · rename_i hfail
    split at h
    · cases h
    · rename_i s hdep
      cases h
      refine ⟨_, outputs, ha, ?_, rfl, hdep⟩
      intro x hx
      rw [List.isEmpty_iff, List.filter_eq_nil_iff] at hfail
      have := hfail x hx
      rw [Option.isNone_iff_eq_none] at this
      obtain ⟨r, hr⟩ := Option.ne_none_iff_exists'.1 this
      obtain ⟨a1, a2, a3, h5, -⟩ := uploaded_some hr
      exact ⟨a1, a2, a3, h5⟩
  · cases h

/-- C84: if `arc` fails for some commits, exactly those are named, and no dependencies are changed. -/
theorem phab_update_failures_exact (env : PhabEnv) (find : Oid → Option CommitData) (d : Dag)
    (tx : Option Text) (w : PhabWorld) (commits : List Oid) (arc : PhabWorld → List Oid → PhabWorld × ArcRun)
    (w' : PhabWorld) (failed : List Oid)
    (h : update env find d tx w commits arc = (w', .error (.failedFor failed))) :
    failed ≠ [] ∧ ∃ outputs, arc { w with repo :=
        { w.repo with db := (w.repo.db.makeTransactionId tx t!"phabricator update").2 } } (env.sort find commits) =
        (w', .results outputs false) ∧
      ∀ c, c ∈ failed ↔ ∃ st, (c, st) ∈ outputs ∧ ∀ cached info interactive, st ≠ .passed cached info interactive := by
  unfold update at h
  simp only at h
  split at h
  · cases h
  split at h
  · cases h
  split at h
  · cases h
  · cases h
  · cases h
  rename_i w1 outputs ha
  split at h
  · split at h <;> cases h
  rename_i hfail
  cases h
  refine ⟨by simpa using hfail, outputs, ha, fun c => ?_⟩
  simp only [List.mem_map, List.mem_filter, Option.isNone_iff_eq_none]
  constructor
  · rintro ⟨⟨c', st⟩, ⟨h1, h2⟩, rfl⟩
    refine ⟨st, h1, ?_⟩
    rintro a1 a2 a3 rfl
    cases h2
  · rintro ⟨st, h1, h2⟩
    refine ⟨(c, st), ⟨h1, ?_⟩, rfl⟩
    cases hu : uploaded c st with
    | none => rfl
    | some r =>
      obtain ⟨a1, a2, a3, h5, -⟩ := uploaded_some hu
      exact absurd h5 (h2 a1 a2 a3)

/-! ### the command -/

/-- C84: a dry run changes nothing. -/
theorem phab_dry_run (env : PhabEnv) (d : Dag) (tx : Option Text) (createNew : Bool) (w w' : PhabWorld)
    (commits : List Oid) (arcCreate arcUpdate : PhabWorld → List Oid → PhabWorld × ArcRun) (o : PhabOutcome)
    (h : phabSubmit env d tx createNew true w commits arcCreate arcUpdate = (w', o)) :
    w' = w ∧ (o = .error ∨ o = .done []) := by
  unfold phabSubmit at h
  split at h
  · cases h; exact ⟨rfl, .inl rfl⟩
  · rw [submitCreatePhab, if_neg (by simp)] at h
    simp only [if_true, Prod.mk.injEq] at h
    obtain ⟨rfl, rfl⟩ := h
    exact ⟨rfl, .inr rfl⟩

theorem mem_phabWithStatus {st : SubmitStatus} {statuses : List (Oid × CommitStatus)} {c : Oid} :
    c ∈ phabWithStatus st statuses ↔ ∃ x, (c, x) ∈ statuses ∧ x.status = st := by
  unfold phabWithStatus
  simp only [List.mem_map, List.mem_filter, decide_eq_true_eq]
  constructor
  · rintro ⟨⟨c', x⟩, ⟨h1, h2⟩, rfl⟩; exact ⟨x, h1, h2⟩
  · rintro ⟨x, h1, h2⟩; exact ⟨(c, x), ⟨h1, h2⟩, rfl⟩

/-- C84: which commits are given to `create` and `update`: those without a revision (only with `--create`), and those
with a revision which is not about them. Those which are up to date are left alone. Only the names of new revisions
are reported. -/
theorem phab_submit_exact (env : PhabEnv) (d : Dag) (tx : Option Text) (createNew : Bool) (w w' : PhabWorld)
    (hs : AMap.WF w.revisions) (commits : List Oid)
    (arcCreate arcUpdate : PhabWorld → List Oid → PhabWorld × ArcRun) (names : List Text)
    (h : phabSubmit env d tx createNew false w commits arcCreate arcUpdate = (w', .done names)) :
    ∃ new changed w1 created written,
      (∀ c, c ∈ new ↔ c ∈ commits ∧ ∃ dc, env.exec.commits c = some dc ∧ ¬ ∃ id, RevisionOf dc id) ∧
      (∀ c, c ∈ changed ↔ c ∈ commits ∧ ∃ dc id, env.exec.commits c = some dc ∧ RevisionOf dc id ∧
        ¬ ∃ r, AMap.get? w.revisions id = some r ∧ RevisionHash r c) ∧
      (if createNew then create env d tx w new arcCreate = (w1, .ok created, written)
        else w1 = w ∧ created = [] ∧ written = []) ∧
      update env (env.exec.find written) d tx w1 changed arcUpdate = (w', .ok ()) ∧
      ∀ name, name ∈ names ↔ ∃ x ∈ created, x.name = name := by
  unfold phabSubmit at h
  split at h
  · cases h
  rename_i statuses hst
  obtain ⟨h1, h2⟩ := phab_status_exact env.conduit w.revisions hs env.exec.commits commits statuses hst
  have hmem : ∀ c, c ∈ commits ↔ ∃ st, (c, st) ∈ statuses := by
    intro c
    rw [← h1, List.mem_map]
    constructor
    · rintro ⟨⟨c', st⟩, h3, rfl⟩; exact ⟨st, h3⟩
    · rintro ⟨st, h3⟩; exact ⟨(c, st), h3, rfl⟩
  have hnew : ∀ c, c ∈ phabWithStatus .unsubmitted statuses ↔
      c ∈ commits ∧ ∃ dc, env.exec.commits c = some dc ∧ ¬ ∃ id, RevisionOf dc id := by
    intro c
    rw [mem_phabWithStatus, hmem]
    constructor
    · rintro ⟨st, h3, h4⟩
      obtain ⟨-, dc, h5, h6, -⟩ := h2 c st h3
      exact ⟨⟨st, h3⟩, dc, h5, h6.1 h4⟩
    · rintro ⟨⟨st, h3⟩, dc, h4, h5⟩
      obtain ⟨-, dc', h6, h7, -⟩ := h2 c st h3
      rw [h4] at h6; cases h6
      exact ⟨st, h3, h7.2 h5⟩
  have hchanged : ∀ c, c ∈ phabWithStatus .needsUpdate statuses ↔
      c ∈ commits ∧ ∃ dc id, env.exec.commits c = some dc ∧ RevisionOf dc id ∧
        ¬ ∃ r, AMap.get? w.revisions id = some r ∧ RevisionHash r c := by
    intro c
    rw [mem_phabWithStatus, hmem]
    constructor
    · rintro ⟨st, h3, h4⟩
      obtain ⟨-, dc, h5, -, -, h6⟩ := h2 c st h3
      obtain ⟨id, h7, h8⟩ := h6.1 h4
      exact ⟨⟨st, h3⟩, dc, id, h5, h7, h8⟩
    · rintro ⟨⟨st, h3⟩, dc, id, h4, h5, h8⟩
      obtain ⟨-, dc', h6, -, -, h7⟩ := h2 c st h3
      rw [h4] at h6; cases h6
      exact ⟨st, h3, h7.2 ⟨id, h5, h8⟩⟩
  split at h
  · cases h
  rename_i w1 created written hcr
  simp only [Bool.false_eq_true, if_false] at h
  split at h
  · cases h
  rename_i w2 hup
  cases h
  refine ⟨_, _, w1, created, written, hnew, hchanged, ?_, hup, ?_⟩
  · unfold submitCreatePhab at hcr
    cases createNew with
    | true => simpa using hcr
    | false =>
      simp only [Bool.false_and, Bool.false_eq_true, if_false, Prod.mk.injEq, Except.ok.injEq] at hcr ⊢
      exact ⟨hcr.1.symm, hcr.2.1.symm, hcr.2.2.symm⟩
  · intro name
    rw [mem_sortedSet, List.mem_map]

end Verif.Props
