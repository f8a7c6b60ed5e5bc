import Verif.Lemmas.GithubCreated

/-!
What `submit` does with pull requests (C74, C75, C76).
-/

namespace Verif.Props

open Verif Verif.Spec

/-! ### what a pull request should say -/

/-- The title has the place of the commit among the commits of its stack which have pull requests, and the text
lists these pull requests, parents first. -/
theorem pr_text {env : ForgeEnv} {w : ForgeWorld} (hu : UsualForge env w) (o : Oid) :
    Wanted env w o (desiredPr env w.repo w.prs o).title (desiredPr env w.repo w.prs o).body := by
  have hg := hu.graph
  obtain ⟨h1, h2, h3⟩ := stackLoop_eq w.repo w.prs o (sort_nodup hg (env.dag.stackCommits [o]))
  have hst := stackPrs_prsOf hu o
  generalize prsOf w.repo w.prs (env.dag.graph.sort (env.dag.stackCommits [o])) = l at h1 h2 h3 hst
  unfold desiredPr
  simp only
  rw [h1, List.length_map, List.map_map]
  unfold prTitle prBody
  cases hi : (stackLoop w.repo w.prs o (env.dag.graph.sort (env.dag.stackCommits [o]))).2 with
  | none =>
    refine ⟨l, t!"?", hst, .inr ⟨h3.1 hi, rfl⟩, rfl, ?_⟩
    rw [List.flatMap_map]
    rfl
  | some i =>
    obtain ⟨j, rfl, hj⟩ := (h2 i).1 hi
    refine ⟨l, natToText (j + 1), hst, .inl ⟨j, hj, rfl⟩, rfl, ?_⟩
    rw [List.flatMap_map]
    rfl

theorem below_sublist (env : ForgeEnv) (o : Oid) :
    (CommitGraph.diff (env.dag.graph.only [o] [env.mainOid]) [o]).Sublist env.dag.graph.nodes := by
  have hsub : ∀ (es : List (Oid × List Oid)) (s : List Oid),
      (CommitGraph.ancestorsIn es s).Sublist (es.map Prod.fst) := by
    intro es
    induction es with
    | nil => intro s; exact List.Sublist.refl _
    | cons e es ih =>
      obtain ⟨c, ps⟩ := e
      intro s
      rw [CommitGraph.ancestorsIn, List.map_cons]
      split
      · exact (ih _).cons_cons _
      · exact (ih _).cons _
  unfold CommitGraph.only CommitGraph.diff CommitGraph.ancestors
  exact List.filter_sublist.trans (List.filter_sublist.trans (hsub _ _))

/-- If the sets of commits were listed with parents first, then the pull request would be based on the nearest
one below. -/
theorem pr_base_nearest_partial {env : ForgeEnv} {w : ForgeWorld} (hu : UsualForge env w)
    (hiter : ∀ s, (env.iter s).Perm s) (horder : ∀ s, s.Sublist env.dag.graph.nodes → ParentsFirst env.dag.graph (env.iter s)) {o : Oid}
    (ho : o ∈ env.dag.graph.nodes) : NearestBase env w o (desiredPr env w.repo w.prs o).base := by
  rcases prBase_order hu hiter ho (horder _ (below_sublist env o)) with ⟨a, p, h1, h2, h3, h4⟩ | h
  · refine .inl ⟨a, p, h1, h2, h3, ?_⟩
    intro c q hc hq hac
    rcases h4 c q hc hq with h | h
    · exact h
    · exact absurd hac h
  · exact .inr h

/-- With children first, as dag.rs:362 says, it is based on the one which is farthest away. -/
theorem pr_base_farthest {env : ForgeEnv} {w : ForgeWorld} (hu : UsualForge env w)
    (hiter : ∀ s, (env.iter s).Perm s)
    (horder : ∀ s, s.Sublist env.dag.graph.nodes → (env.iter s).Pairwise fun a b => ¬ Anc env.dag.graph a b) {o : Oid}
    (ho : o ∈ env.dag.graph.nodes) : FarthestBase env w o (desiredPr env w.repo w.prs o).base := by
  rcases prBase_order hu hiter ho (horder _ (below_sublist env o)) with ⟨a, p, h1, h2, h3, h4⟩ | h
  · refine .inl ⟨a, p, h1, h2, h3, ?_⟩
    intro c q hc hq hac
    rcases h4 c q hc hq with h | h
    · exact h
    · exact absurd hac h
  · exact .inr h

/-- In any order: the base is the branch of a pull request below, or the main branch if there is none. -/
theorem pr_base_below {env : ForgeEnv} {w : ForgeWorld} (hu : UsualForge env w)
    (hiter : ∀ s, (env.iter s).Perm s) {o : Oid} (ho : o ∈ env.dag.graph.nodes) :
    (∃ a p, BelowIn env a o ∧ HasPr w a p ∧ (desiredPr env w.repo w.prs o).base = p.head) ∨
      ((∀ a p, BelowIn env a o → ¬ HasPr w a p) ∧ (desiredPr env w.repo w.prs o).base = env.mainName) :=
  prBase_cases hu hiter ho

/-! ### the status -/

/-- Each of the commits is said to be unsubmitted, to need an update, or to be up to date, and each of this is
true. -/
theorem pr_status {env : ForgeEnv} {w : ForgeWorld} (hu : UsualForge env w) {set : List Oid} {o : Oid}
    (ho : o ∈ set) :
    ∃ s, (queryPrStatus env w set).get? o = some s ∧
      ((s.status = .unsubmitted ∧ NotSubmitted w o) ∨
        (s.status = .needsUpdate ∧ ∃ b, NeedsWork env w o b ∧ s.localName = some b ∧
          s.remoteName = some w.github) ∨
        (s.status = .upToDate ∧ ∃ b, InOrder env w o b ∧ s.localName = some b)) := by
  cases hs : (queryPrStatus env w set).get? o with
  | none =>
    rw [queryPrStatus_get, if_pos ho] at hs
    cases hs
  | some s =>
    refine ⟨s, rfl, ?_⟩
    rcases status_cases hu ho hs with ⟨h1, h2, -⟩ | ⟨b, h, rfl⟩ | ⟨b, h, rfl⟩
    · exact .inl ⟨h1, h2⟩
    · exact .inr (.inl ⟨rfl, b, h, rfl, rfl⟩)
    · exact .inr (.inr ⟨rfl, b, h, rfl⟩)

/-- Other commits have no status. -/
theorem pr_status_only (env : ForgeEnv) (w : ForgeWorld) (set : List Oid) {o : Oid} (ho : o ∉ set) :
    (queryPrStatus env w set).get? o = none := by
  rw [queryPrStatus_get, if_neg ho]

/-- The three cases exclude one another. -/
theorem pr_status_exclusive {env : ForgeEnv} {w : ForgeWorld} (hu : UsualForge env w) {o : Oid} :
    (NotSubmitted w o → ∀ b, ¬ NeedsWork env w o b ∧ ¬ InOrder env w o b) ∧
      (∀ b b', NeedsWork env w o b → ¬ InOrder env w o b') := by
  refine ⟨fun h b => ⟨?_, ?_⟩, ?_⟩
  · rintro ⟨hc, p, hp, he, -⟩
    exact h b p hc hp he
  · rintro ⟨hc, p, hp, he, -⟩
    exact h b p hc hp he
  · rintro b b' ⟨hc, p, hp, rfl, hn⟩ ⟨hc', p', hp', rfl, hy⟩
    have := hu.heads p hp.mem p' hp'.mem (counts_unique hu.refs hc hc')
    subst this
    exact hn hy

/-! ### updating -/

section

variable {env : ForgeEnv} {w : ForgeWorld} (hu : UsualForge env w) (hiter : ∀ s, (env.iter s).Perm s)
  {set : List Oid} (hset : ∀ o ∈ set, o ∈ env.dag.graph.nodes)
  (hmain : ∀ o ∈ set, ¬ BranchAt w.repo env.mainName o)
  {K : List (Oid × Text)} (hK : ∀ o b, (o, b) ∈ K ↔ o ∈ set ∧ NeedsWork env w o b)
  (hw : Willing env w K) (hd : Undisturbed env w K) (draft : Bool)

include hu hiter hset hmain hK hw hd

/-- What the command does if no pull requests are created. -/
theorem submitPrs_eq :
    submitPrs env w set false false draft =
      (forgeState env w (jobsOf env (prsWith .needsUpdate (queryPrStatus env w set)))
          (jobsOf env (prsWith .needsUpdate (queryPrStatus env w set))),
        updateLog env w (jobsOf env (prsWith .needsUpdate (queryPrStatus env w set))),
        some { submitted := []
               updated := prNames (prsWith .needsUpdate (queryPrStatus env w set))
               skipped := prNames (prsWith .upToDate (queryPrStatus env w set))
               unsubmitted := prNames (prsWith .unsubmitted (queryPrStatus env w set)) }) := by
  have hmem : ∀ e, e ∈ jobsOf env (prsWith .needsUpdate (queryPrStatus env w set)) ↔ e ∈ K := by
    rintro ⟨o, b⟩
    rw [needs_jobs hu hset, hK]
  have heq := updatePrs_eq hu hiter (m := prsWith .needsUpdate (queryPrStatus env w set)) (fun o s h => by
    obtain ⟨b, -, -, h⟩ := (needs_created hu).1 h
    exact ⟨b, h⟩) (needs_isJobs hu hset hmain) (hd.congr hmem) (hw.congr fun e he => (hmem e).1 he)
  unfold submitPrs submitCreatePrs submitUpdatePrs
  simp only [Bool.false_eq_true, if_false, heq]
  simp

/-- Exactly the pull requests which need it are updated; all of them stay open, and the others are left. -/
theorem submit_updates_prs :
    Updated env w K (submitPrs env w set false false draft).1 ∧
      UsualForge env (submitPrs env w set false false draft).1 ∧
      ∀ o ∈ set, (NotSubmitted w o ↔ NotSubmitted (submitPrs env w set false false draft).1 o) ∧
        (∀ b, NeedsWork env w o b ∨ InOrder env w o b ↔
          InOrder env (submitPrs env w set false false draft).1 o b) := by
  have hmem : ∀ e, e ∈ jobsOf env (prsWith .needsUpdate (queryPrStatus env w set)) ↔ e ∈ K := by
    rintro ⟨o, b⟩
    rw [needs_jobs hu hset, hK]
  have hJ := needs_isJobs hu hset hmain
  rw [submitPrs_eq hu hiter hset hmain hK hw hd draft]
  refine ⟨(forgeState_updated hJ).congr fun e => (hmem e).symm,
    forgeState_usual hu hiter hJ (hd.congr hmem) hw.main, ?_⟩
  intro o ho
  refine ⟨(forgeState_notSubmitted hJ).symm, ?_⟩
  intro b
  constructor
  · rintro (h | ⟨hc, p, hp, rfl, hcur⟩)
    · exact forgeState_inOrder hu hJ h.1 ((needs_jobs hu hset).2 ⟨ho, h⟩)
    · refine ⟨(forgeState_counts _ _).2 hc, editPr env w _ p, (forgeState_hasPr hJ).2 ⟨p, hp, rfl⟩,
        editPr_head .., (forgeState_current hJ ?_).2 hcur⟩
      intro o' ho'
      obtain ⟨-, hn⟩ := (needs_jobs hu hset).1 ho'
      have e1 := hn.1.1
      have e2 := hc.1
      unfold BranchAt at e1 e2
      rw [e2] at e1
      obtain rfl := Option.some.inj e1
      exact (pr_status_exclusive hu).2 _ _ hn ⟨hc, p, hp, rfl, hcur⟩
  · rintro ⟨hc, p', hp', rfl, -⟩
    rw [forgeState_counts] at hc
    obtain ⟨p, hp, rfl⟩ := (forgeState_hasPr hJ).1 hp'
    rw [editPr_head] at hc ⊢
    by_cases h : PrCurrent env w o p
    · exact .inr ⟨hc, p, hp, rfl, h⟩
    · exact .inl ⟨hc, p, hp, rfl, h⟩

/-- The commands: each branch is pushed and its pull request edited, one after the other. Nothing else is run. -/
theorem submit_update_commands :
    ∃ L cs, (∀ e, e ∈ L ↔ e ∈ K) ∧ (L.Pairwise fun e f => ¬ Anc env.dag.graph f.1 e.1) ∧
      List.Forall₂ (fun (e : Oid × Text) (c : List ForgeCommand) => ∃ p ∈ w.prs, p.head = e.2 ∧
        c = [.git (.pushLease w.github [e.2]), .editPr p.number (desiredPr env w.repo w.prs e.1).base
          (desiredPr env w.repo w.prs e.1).title (desiredPr env w.repo w.prs e.1).body]) L cs ∧
      (submitPrs env w set false false draft).2.1 = cs.flatten := by
  have hmem : ∀ e, e ∈ jobsOf env (prsWith .needsUpdate (queryPrStatus env w set)) ↔ e ∈ K := by
    rintro ⟨o, b⟩
    rw [needs_jobs hu hset, hK]
  have hJ := needs_isJobs hu hset hmain
  refine ⟨jobsOf env (prsWith .needsUpdate (queryPrStatus env w set)),
    (jobsOf env (prsWith .needsUpdate (queryPrStatus env w set))).map fun e => updateLog env w [e], hmem, jobsOf_sorted hu.graph _, ?_, ?_⟩
  · rw [List.forall₂_map_right_iff]
    refine List.forall₂_same.2 fun e he => ?_
    obtain ⟨p, hp, hpe⟩ := hJ.pr e he
    refine ⟨p, hp, hpe, ?_⟩
    unfold updateLog
    rw [List.flatMap_cons, List.flatMap_nil, List.append_nil, (prOf_some hu).2 ⟨hp, hpe⟩]
  · rw [submitPrs_eq hu hiter hset hmain hK hw hd draft]
    simp only
    unfold updateLog
    rw [List.flatMap_def]
    congr 1
    refine List.map_congr_left fun e _ => ?_
    rw [List.flatMap_cons, List.flatMap_nil, List.append_nil]

/-- What is reported. -/
theorem submit_update_report :
    ∃ r, (submitPrs env w set false false draft).2.2 = some r ∧ r.submitted = [] ∧
      (∀ b, b ∈ r.updated ↔ ∃ o ∈ set, NeedsWork env w o b) ∧
      (∀ b, b ∈ r.skipped ↔ ∃ o ∈ set, InOrder env w o b) ∧
      (∀ b, b ∈ r.unsubmitted ↔ ∃ o ∈ set, NotSubmitted w o ∧ Counts w b o) := by
  rw [submitPrs_eq hu hiter hset hmain hK hw hd draft]
  have hwf := wf_queryPrStatus env w set
  have hin : ∀ {o s}, (queryPrStatus env w set).get? o = some s → o ∈ set := by
    intro o s h
    by_contra hn
    rw [queryPrStatus_get, if_neg hn] at h
    cases h
  have hnames : ∀ x b, b ∈ prNames (prsWith x (queryPrStatus env w set)) ↔
      ∃ o s, (queryPrStatus env w set).get? o = some s ∧ s.status = x ∧ s.localName = some b := by
    intro x b
    unfold prNames
    rw [mem_sortedSet, List.mem_filterMap]
    constructor
    · rintro ⟨⟨o, s⟩, h1, h2⟩
      obtain ⟨h3, h4⟩ := (prsWith_get hwf x o).1 (AMap.get?_of_mem (prsWith_wf hwf x) h1)
      exact ⟨o, s, h3, h4, h2⟩
    · rintro ⟨o, s, h1, h2, h3⟩
      exact ⟨(o, s), AMap.mem_of_get? ((prsWith_get hwf x o).2 ⟨h1, h2⟩), h3⟩
  refine ⟨_, rfl, rfl, ?_, ?_, ?_⟩
  · intro b
    simp only
    rw [hnames]
    constructor
    · rintro ⟨o, s, h1, h2, h3⟩
      rcases status_cases hu (hin h1) h1 with h | ⟨b', h, rfl⟩ | ⟨b', h, rfl⟩
      · rw [h.1] at h2; cases h2
      · exact ⟨o, hin h1, Option.some.inj h3 ▸ h⟩
      · cases h2
    · rintro ⟨o, ho, h⟩
      have := (prsWith_get hwf _ _).1 ((needs_created hu).2 ⟨b, ho, h, rfl⟩)
      exact ⟨o, _, this.1, rfl, rfl⟩
  · intro b
    simp only
    rw [hnames]
    constructor
    · rintro ⟨o, s, h1, h2, h3⟩
      rcases status_cases hu (hin h1) h1 with h | ⟨b', h, rfl⟩ | ⟨b', h, rfl⟩
      · rw [h.1] at h2; cases h2
      · cases h2
      · exact ⟨o, hin h1, Option.some.inj h3 ▸ h⟩
    · rintro ⟨o, ho, hc, p, hp, rfl, hcur⟩
      exact ⟨o, _, status_counts hu.refs ho hc, by rw [(branchPrStatus_pr hu hp.mem hp.tracks).1 hcur],
        by rw [(branchPrStatus_pr hu hp.mem hp.tracks).1 hcur]⟩
  · intro b
    simp only
    rw [hnames]
    constructor
    · rintro ⟨o, s, h1, h2, h3⟩
      rcases status_cases hu (hin h1) h1 with h | ⟨b', h, rfl⟩ | ⟨b', h, rfl⟩
      · exact ⟨o, hin h1, h.2.1, h.2.2.1 b h3⟩
      · cases h2
      · cases h2
    · rintro ⟨o, ho, hn, hc⟩
      obtain ⟨h1, h2⟩ := branchPrStatus_none (env := env) hu hc.1 fun p hp => hn b p hc hp
      exact ⟨o, _, status_counts hu.refs ho hc, h1, h2⟩

/-- Submitting again runs no commands and changes nothing. -/
theorem submit_prs_again (draft' : Bool) :
    (submitPrs env (submitPrs env w set false false draft).1 set false false draft').1 =
        (submitPrs env w set false false draft).1 ∧
      (submitPrs env (submitPrs env w set false false draft).1 set false false draft').2.1 = [] := by
  obtain ⟨-, hu', hst⟩ := submit_updates_prs hu hiter hset hmain hK hw hd draft
  have hJ := needs_isJobs hu hset hmain
  generalize hw' : (submitPrs env w set false false draft).1 = w' at *
  have hnone : prsWith .needsUpdate (queryPrStatus env w' set) = [] := by
    rw [List.eq_nil_iff_forall_not_mem]
    rintro ⟨o, s⟩ h
    have h := AMap.get?_of_mem (prsWith_wf (wf_queryPrStatus env w' set) _) h
    obtain ⟨b, ho, hn, -⟩ := (needs_created hu').1 h
    obtain ⟨h1, h2⟩ := hst o ho
    by_cases hns : NotSubmitted w o
    · exact ((pr_status_exclusive hu').1 (h1.1 hns) b).1 hn
    · unfold NotSubmitted at hns
      push Not at hns
      obtain ⟨b', p, hc, hp, he⟩ := hns
      have : InOrder env w' o b' := by
        rw [← h2 b']
        by_cases hcur : PrCurrent env w o p
        · exact .inr ⟨hc, p, hp, he, hcur⟩
        · exact .inl ⟨hc, p, hp, he, hcur⟩
      exact (pr_status_exclusive hu').2 b b' hn this
  unfold submitPrs submitCreatePrs submitUpdatePrs
  simp only [Bool.false_eq_true, if_false, hnone]
  unfold updatePrs sortedStatuses
  have : (env.dag.graph.sort (AMap.keys ([] : AMap Oid PrStatus))).filterMap
      (fun o => (AMap.get? ([] : AMap Oid PrStatus) o).map fun s => (o, s)) = [] := by
    rw [List.filterMap_eq_nil_iff]
    intro o _
    rfl
  rw [this, updatePrLoop]
  exact ⟨rfl, rfl⟩

end

theorem editPr_repo {w w' : ForgeWorld} {n : Nat} {b t x : Text} (h : w.editPr n b t x = some w') :
    w'.repo = w.repo ∧ w'.github = w.github := by
  unfold ForgeWorld.editPr at h
  split at h
  · obtain rfl := Option.some.inj h
    exact ⟨rfl, rfl⟩
  · cases h

/-- Whatever happens otherwise: if the loop ends well, then all branches are pushed. -/
theorem updatePrLoop_pushed {env : ForgeEnv} {infos : List PullRequest} {rest : List (Oid × PrStatus)} :
    ∀ {w w' : ForgeWorld} {log : List ForgeCommand}, updatePrLoop env infos w rest = (w', log, true) →
      w'.repo.refs = w.repo.refs ∧ w'.github = w.github ∧
      (∀ r b, w'.repo.remotes.get? (r, fullName b) = w.repo.refs.get? (fullName b) ∨
        w'.repo.remotes.get? (r, fullName b) = w.repo.remotes.get? (r, fullName b)) ∧
      ∀ e ∈ rest, ∀ p, e.2.remoteCommit.bind (prOf infos) = some p → ∀ r b, e.2.remoteName = some r →
        e.2.localName = some b → r ≠ t!"." →
        w'.repo.remotes.get? (r, fullName b) = w.repo.refs.get? (fullName b) := by
  induction rest with
  | nil =>
    intro w w' log h
    rw [updatePrLoop] at h
    obtain rfl := (Prod.mk.inj h).1
    exact ⟨rfl, rfl, fun _ _ => .inr rfl, fun _ h => absurd h List.not_mem_nil⟩
  | cons e rest ih =>
    obtain ⟨o, s⟩ := e
    intro w w' log h
    rw [updatePrLoop] at h
    cases hp : s.remoteCommit.bind (prOf infos) with
    | none =>
      simp only [hp] at h
      obtain ⟨i1, i2, i3, i4⟩ := ih h
      refine ⟨i1, i2, i3, ?_⟩
      intro e he p hpe
      rcases List.mem_cons.1 he with rfl | he
      · rw [hp] at hpe; cases hpe
      · exact i4 e he p hpe
    | some p =>
      simp only [hp] at h
      have hx := updateAll_done w.repo (updateGroups [s.toCommitStatus])
      have hin : ∀ r b, s.remoteName = some r → s.localName = some b →
          (r, b) ∈ groupPairs (updateGroups [s.toCommitStatus]) := by
        intro r b hr hb
        have : updateGroups [s.toCommitStatus] = [(r, [b])] := by
          rw [show s.toCommitStatus = ⟨s.status, some r, some b⟩ by rw [← hr, ← hb]]
          exact updateGroups_single _ _ _
        rw [this]
        exact List.mem_cons_self
      generalize updateAll w.repo (updateGroups [s.toCommitStatus]) = x at h hx
      split at h
      · rename_i hok
        cases hed : (ForgeWorld.settle { w with repo := x.1 }).editPr p.number (desiredPr env w.repo infos o).base
            (desiredPr env w.repo infos o).title (desiredPr env w.repo infos o).body with
        | none =>
          simp only [hed] at h
          cases (Prod.mk.inj (Prod.mk.inj h).2).2
        | some w2 =>
          simp only [hed] at h
          obtain ⟨hr2, hg2⟩ := editPr_repo hed
          have hr2 : w2.repo = x.1 := hr2
          have hg2 : w2.github = w.github := hg2
          simp only [Prod.mk.injEq] at h
          obtain ⟨h1, -, h3⟩ := h
          obtain ⟨i1, i2, i3, i4⟩ := ih (w := w2) (w' := w')
            (log := (updatePrLoop env infos w2 rest).2.1) (by rw [← h1, ← h3])
          rw [hr2, hx.same.refs] at i1
          rw [hr2, hx.same.refs] at i3
          rw [hr2, hx.same.refs] at i4
          refine ⟨i1, i2.trans hg2, ?_, ?_⟩
          · intro r b
            rcases i3 r b with h | h
            · exact .inl h
            · rw [h]
              exact hx.value r b
          · intro e he p' hpe r b hr hb hdot
            rcases List.mem_cons.1 he with rfl | he
            · have : x.1.remotes.get? (r, fullName b) = w.repo.refs.get? (fullName b) := by
                refine hx.flag hok r b ?_ hdot
                obtain ⟨l, hl, hnil⟩ := hx.lease
                rw [hnil hok, List.append_nil] at hl
                rw [← hl]
                exact hin r b hr hb
              rcases i3 r b with h | h
              · exact h
              · rw [h, this]
            · exact i4 e he p' hpe r b hr hb hdot
      · cases (Prod.mk.inj (Prod.mk.inj h).2).2

/-- Whatever the remote, GitHub and `gh` do: if success is reported, then the branches of all commits which needed
an update are pushed, and they are reported. -/
theorem submit_success_pushed {env : ForgeEnv} {w : ForgeWorld} (hu : UsualForge env w) {set : List Oid}
    (hset : ∀ o ∈ set, o ∈ env.dag.graph.nodes) {draft : Bool} {w' : ForgeWorld} {log : List ForgeCommand}
    {report : SubmitReport} (h : submitPrs env w set false false draft = (w', log, some report)) {o : Oid}
    (ho : o ∈ set) {b : Text} (hn : NeedsWork env w o b) : w'.tip b = some o ∧ b ∈ report.updated := by
  unfold submitPrs submitCreatePrs submitUpdatePrs at h
  simp only [Bool.false_eq_true, if_false] at h
  cases hx : updatePrs env w (prsWith .needsUpdate (queryPrStatus env w set)) with
  | mk w1 x =>
  obtain ⟨log1, ok⟩ := x
  simp only [hx] at h
  cases ok with
  | false => simp at h
  | true =>
  simp only [if_true, Prod.mk.injEq, Option.some.injEq] at h
  obtain ⟨rfl, -, rfl⟩ := h
  have hget := (needs_created hu).2 ⟨b, ho, hn, rfl⟩
  unfold updatePrs at hx
  obtain ⟨-, h2, -, h4⟩ := updatePrLoop_pushed hx
  obtain ⟨hc, p, hp, rfl, -⟩ := hn
  constructor
  · unfold ForgeWorld.tip
    rw [h2, h4 (o, createdStatus w.github p.head) (mem_sortedStatuses.2 ⟨hset o ho, hget⟩) p
      ((prOf_some hu).2 ⟨hp.mem, rfl⟩) w.github p.head rfl rfl hu.notSelf]
    exact hc.1
  · unfold prNames
    rw [mem_sortedSet, List.mem_filterMap]
    exact ⟨_, AMap.mem_of_get? hget, rfl⟩

/-- A dry run runs no commands and changes nothing. -/
theorem submit_prs_dry_run (env : ForgeEnv) (w : ForgeWorld) (set : List Oid) (create draft : Bool) :
    (submitPrs env w set create true draft).1 = w ∧ (submitPrs env w set create true draft).2.1 = [] := by
  unfold submitPrs submitCreatePrs submitUpdatePrs
  cases create <;> exact ⟨rfl, rfl⟩

/-! ### the names of new branches -/

/-- No two hyphens in a row. -/
def NoDoubleHyphen (s : Text) : Prop := ∀ l r, s ≠ l ++ '-' :: '-' :: r

theorem dedupHyphens_head (c : Char) (s : Text) : ∃ t, dedupHyphens (c :: s) = c :: t := by
  induction s generalizing c with
  | nil => exact ⟨[], rfl⟩
  | cons d s ih =>
    rw [dedupHyphens]
    split
    · rename_i h
      obtain ⟨t, ht⟩ := ih d
      rw [ht, h.2, h.1]
      exact ⟨t, rfl⟩
    · exact ⟨_, rfl⟩

theorem dedupHyphens_double (s : Text) : NoDoubleHyphen (dedupHyphens s) := by
  have key : ∀ (s : Text), NoDoubleHyphen (dedupHyphens s) := by
    intro s
    induction s with
    | nil => intro l r h; cases l <;> cases h
    | cons c s ih =>
      cases s with
      | nil => intro l r h; rcases l with _ | ⟨_, _ | _⟩ <;> simp [dedupHyphens] at h
      | cons d s =>
        rw [dedupHyphens]
        split
        · exact ih
        · rename_i hcd
          intro l r h
          cases l with
          | nil =>
            rw [List.nil_append] at h
            obtain ⟨t, ht⟩ := dedupHyphens_head d s
            rw [ht] at h
            simp only [List.cons.injEq] at h
            exact hcd ⟨h.1, h.2.1⟩
          | cons x l =>
            rw [List.cons_append] at h
            exact ih l r (List.cons.inj h).2
  exact key s

theorem dedupHyphens_mem {s : Text} {c : Char} (h : c ∈ dedupHyphens s) : c ∈ s := by
  induction s with
  | nil => exact h
  | cons a s ih =>
    cases s with
    | nil => exact h
    | cons d s =>
      rw [dedupHyphens] at h
      split at h
      · exact List.mem_cons_of_mem _ (ih h)
      · rcases List.mem_cons.1 h with rfl | h
        · exact List.mem_cons_self
        · exact List.mem_cons_of_mem _ (ih h)

theorem trimHyphens_infix (s : Text) : ∃ l r, s = l ++ trimHyphens s ++ r := by
  unfold trimHyphens
  have h1 := List.takeWhile_append_dropWhile (p := fun c => decide (c = '-')) (l := s)
  have h2 := List.takeWhile_append_dropWhile (p := fun c => decide (c = '-'))
    (l := (s.dropWhile fun c => decide (c = '-')).reverse)
  refine ⟨s.takeWhile fun c => decide (c = '-'),
    ((s.dropWhile fun c => decide (c = '-')).reverse.takeWhile fun c => decide (c = '-')).reverse, ?_⟩
  rw [List.append_assoc, ← List.reverse_append, h2, List.reverse_reverse, h1]

theorem dropWhile_first {s : Text} {c : Char} {t : Text} (h : s.dropWhile (fun c => decide (c = '-')) = c :: t) :
    c ≠ '-' := by
  induction s with
  | nil => cases h
  | cons a s ih =>
    rw [List.dropWhile_cons] at h
    split at h
    · exact ih h
    · rename_i hn
      have hac : a = c := (List.cons.inj h).1
      rintro rfl
      exact hn (by rw [hac]; exact decide_eq_true rfl)

theorem trimHyphens_last (s : Text) (t : Text) : trimHyphens s ≠ t ++ ['-'] := by
  unfold trimHyphens
  intro h
  have h := congrArg List.reverse h
  rw [List.reverse_reverse, List.reverse_append] at h
  exact dropWhile_first h rfl

theorem trimHyphens_first (s : Text) (t : Text) : trimHyphens s ≠ '-' :: t := by
  intro h
  unfold trimHyphens at h
  cases hd : s.dropWhile (fun c => decide (c = '-')) with
  | nil =>
    simp only [hd] at h
    cases h
  | cons c r =>
    have hc := dropWhile_first hd
    simp only [hd] at h
    have h2 := List.takeWhile_append_dropWhile (p := fun c => decide (c = '-')) (l := (c :: r).reverse)
    have h3 := congrArg List.reverse h2
    rw [List.reverse_append, h, List.reverse_reverse] at h3
    exact hc (List.cons.inj h3).1.symm

/-- The part of the name of a branch which is made from the first line of a message: it is not empty, does not
begin or end with a hyphen, has no two hyphens in a row, and has only hyphens and lower-case letters and digits of
the line, or else it is a fixed name. -/
theorem summary_slug {env : ForgeEnv} (hl : env.toLowercase '-' = ['-']) (s : Text) :
    summarySlug env s ≠ [] ∧ (∀ t, summarySlug env s ≠ '-' :: t) ∧ (∀ t, summarySlug env s ≠ t ++ ['-']) ∧
      (∀ l r, summarySlug env s ≠ l ++ '-' :: '-' :: r) ∧
      (summarySlug env s = t!"to-review" ∨ ∀ c ∈ summarySlug env s, c = '-' ∨
        ∃ d ∈ s, env.isAlphanumeric d = true ∧ c ∈ env.toLowercase d) := by
  unfold summarySlug
  simp only
  generalize hx : (s.map fun c => if env.isAlphanumeric c then c else '-').flatMap env.toLowercase = x
  split
  · refine ⟨by simp, by simp, ?_, ?_, .inl rfl⟩
    · intro t h
      have := congrArg List.getLast? h
      simp at this
    · intro l r h
      rcases l with _ | ⟨_, _ | ⟨_, _ | ⟨_, _ | ⟨_, _ | ⟨_, _ | ⟨_, _ | ⟨_, _ | ⟨_, _ | ⟨_, _⟩⟩⟩⟩⟩⟩⟩⟩⟩ <;> simp at h
  · rename_i hne
    refine ⟨?_, trimHyphens_first _, trimHyphens_last _, ?_, .inr ?_⟩
    · intro h
      rw [h] at hne
      exact hne rfl
    · intro l r h
      obtain ⟨a, b, hab⟩ := trimHyphens_infix (dedupHyphens x)
      rw [h] at hab
      exact dedupHyphens_double x (a ++ l) (r ++ b) (by rw [hab]; simp)
    · intro c hc
      obtain ⟨a, b, hab⟩ := trimHyphens_infix (dedupHyphens x)
      have h1 : c ∈ dedupHyphens x := by
        rw [hab]
        exact List.mem_append_left _ (List.mem_append_right _ hc)
      have h2 := dedupHyphens_mem h1
      rw [← hx, List.mem_flatMap] at h2
      obtain ⟨d, hd, h3⟩ := h2
      obtain ⟨e, he, rfl⟩ := List.mem_map.1 hd
      split at h3
      · rename_i hal
        exact .inr ⟨e, he, hal, h3⟩
      · rw [hl, List.mem_singleton] at h3
        exact .inl h3

/-- The name of a new branch is not the one of a branch which is there; it is made from the name of the user and
the first line of the message, perhaps with a number. -/
theorem new_branch_name {env : ForgeEnv} {user : Text} {w w' : ForgeWorld} {o : Oid} {s : PrStatus} {b : Text}
    (hs : s.localName = none) (h : localBranchFor env user w o s = some (w', b)) :
    (∀ c, ¬ BranchAt w.repo b c) ∧ BranchAt w'.repo b o ∧
      ∃ base, base = user ++ t!"/" ++ summarySlug env (env.summary o) ∧
        (b = base ∨ ∃ i, 2 ≤ i ∧ i ≤ 5 ∧ b = base ++ t!"-" ++ natToText i) := by
  unfold localBranchFor at h
  rw [hs] at h
  simp only at h
  cases hf : freshName w.repo.refs (user ++ t!"/" ++ summarySlug env (env.summary o)) 5 2
      (user ++ t!"/" ++ summarySlug env (env.summary o)) with
  | none => rw [hf] at h; cases h
  | some b' =>
    rw [hf] at h
    simp only at h
    split at h
    · simp only [Option.some.injEq, Prod.mk.injEq] at h
      obtain ⟨rfl, rfl⟩ := h
      obtain ⟨h1, h2⟩ := freshName_some hf
      refine ⟨?_, ?_, _, rfl, ?_⟩
      · intro c hc
        unfold BranchAt at hc
        unfold fullName at h1
        rw [h1] at hc
        cases hc
      · unfold BranchAt
        simp only
        unfold fullName
        rw [AMap.get?_insert, if_pos rfl]
      · rcases h2 with h2 | ⟨j, h3, h4, h5⟩
        · exact .inl h2
        · exact .inr ⟨j, h3, by omega, h5⟩
    · cases h

/-- It fails only if the branch cannot be made, or if all five names are taken. -/
theorem new_branch_fails {env : ForgeEnv} {user : Text} {w : ForgeWorld} {o : Oid} {s : PrStatus}
    (hcan : ∀ b, env.canCreate b = true) (h : localBranchFor env user w o s = none) :
    ∃ base, base = user ++ t!"/" ++ summarySlug env (env.summary o) ∧ (∃ c, BranchAt w.repo base c) ∧
      ∀ i, 2 ≤ i → i ≤ 5 → ∃ c, BranchAt w.repo (base ++ t!"-" ++ natToText i) c := by
  unfold localBranchFor at h
  cases hs : s.localName with
  | some b => rw [hs] at h; cases h
  | none =>
    rw [hs] at h
    simp only at h
    refine ⟨_, rfl, ?_⟩
    cases hf : freshName w.repo.refs (user ++ t!"/" ++ summarySlug env (env.summary o)) 5 2
        (user ++ t!"/" ++ summarySlug env (env.summary o)) with
    | some b =>
      rw [hf] at h
      simp only at h
      rw [if_pos (hcan b)] at h
      cases h
    | none =>
      obtain ⟨h1, h2⟩ := freshName_none hf
      exact ⟨Option.isSome_iff_exists.1 h1, fun i h3 h4 => Option.isSome_iff_exists.1 (h2 i h3 (by omega))⟩

/-! ### creating -/

/-- The commits which are not submitted, in the order of the loop. -/
theorem unsubmitted_mem {env : ForgeEnv} {w : ForgeWorld} (hu : UsualForge env w) {set : List Oid}
    {e : Oid × PrStatus} (h : e ∈ sortedStatuses env (prsWith .unsubmitted (queryPrStatus env w set))) :
    e.1 ∈ set ∧ e.1 ∈ env.dag.graph.nodes ∧ NotSubmitted w e.1 ∧
      (∀ b, e.2.localName = some b → Counts w b e.1) ∧ (e.2.localName = none → ∀ b, ¬ BranchAt w.repo b e.1) := by
  obtain ⟨h1, h2⟩ := mem_sortedStatuses.1 h
  obtain ⟨h3, h4⟩ := (prsWith_get (wf_queryPrStatus env w set) _ _).1 h2
  have ho : e.1 ∈ set := by
    by_contra hn
    rw [queryPrStatus_get, if_neg hn] at h3
    cases h3
  rcases status_cases hu ho h3 with h | ⟨b, h, e'⟩ | ⟨b, h, e'⟩
  · exact ⟨ho, h1, h.2.1, h.2.2.1, h.2.2.2⟩
  · rw [e'] at h4; cases h4
  · rw [e'] at h4; cases h4

theorem unsubmitted_exists {env : ForgeEnv} {w : ForgeWorld} (hu : UsualForge env w) {set : List Oid}
    (hset : ∀ o ∈ set, o ∈ env.dag.graph.nodes) {o : Oid} (ho : o ∈ set) (hn : NotSubmitted w o) :
    o ∈ (sortedStatuses env (prsWith .unsubmitted (queryPrStatus env w set))).map Prod.fst := by
  obtain ⟨s, hs, h⟩ := pr_status hu ho
  rcases h with ⟨h1, -⟩ | ⟨-, b, h, -⟩ | ⟨-, b, h, -⟩
  · exact List.mem_map.2 ⟨(o, s), mem_sortedStatuses.2 ⟨hset o ho,
      (prsWith_get (wf_queryPrStatus env w set) _ _).2 ⟨hs, h1⟩⟩, rfl⟩
  · exact absurd h ((pr_status_exclusive hu).1 hn b).1
  · exact absurd h ((pr_status_exclusive hu).1 hn b).2

theorem not_submitted_or {env : ForgeEnv} {w : ForgeWorld} {o : Oid} (h : ¬ NotSubmitted w o) :
    ∃ p, HasPr w o p ∧ (NeedsWork env w o p.head ∨ InOrder env w o p.head) := by
  unfold NotSubmitted at h
  push Not at h
  obtain ⟨b, p, hc, hp, rfl⟩ := h
  by_cases hcur : PrCurrent env w o p
  · exact ⟨p, hp, .inr ⟨hc, p, hp, rfl, hcur⟩⟩
  · exact ⟨p, hp, .inl ⟨hc, p, hp, rfl, hcur⟩⟩

theorem createPrs_some {env : ForgeEnv} {draft : Bool} {w : ForgeWorld} {m : AMap Oid PrStatus} {remote user : Text}
    (hr : env.ghRemote.or (w.repo.defaultPushRemote env.mainName) = some remote) (hn : env.username = some user)
    {w' : ForgeWorld} {log : List ForgeCommand} {names : List Text}
    (h : createPrs env draft w m = (w', log, some names)) :
    ∃ w1 logA K w2 logB logC, createBranchLoop env user w (sortedStatuses env m) = (w1, logA, some K) ∧
      createPrLoop env draft w1 K = (w2, logB, true) ∧
      updatePrs env w2 (K.map fun e => (e.1, createdStatus remote e.2)) = (w', logC, true) ∧
      names = K.map Prod.snd := by
  unfold createPrs at h
  simp only [hr, hn] at h
  cases hA : createBranchLoop env user w (sortedStatuses env m) with
  | mk w1 xA =>
  obtain ⟨logA, o⟩ := xA
  simp only [hA] at h
  cases o with
  | none => simp at h
  | some K =>
  simp only at h
  cases hB : createPrLoop env draft w1 K with
  | mk w2 xB =>
  obtain ⟨logB, okB⟩ := xB
  simp only [hB] at h
  cases okB with
  | false => simp at h
  | true =>
  simp only [if_true] at h
  cases hC : updatePrs env w2 (K.map fun e => (e.1, createdStatus remote e.2)) with
  | mk w3 xC =>
  obtain ⟨logC, okC⟩ := xC
  simp only [hC] at h
  cases okC with
  | false => simp at h
  | true =>
  simp only [if_true, Prod.mk.injEq, Option.some.injEq] at h
  obtain ⟨rfl, -, rfl⟩ := h
  exact ⟨w1, logA, K, w2, logB, logC, rfl, hB, hC, rfl⟩

/-- If `submit --create` reports success: there is exactly one new pull request for each of the commits which had
none, no pull request was closed, and the pull requests of all commits which had none or needed an update are as
they should be. -/
theorem submit_creates_prs {env : ForgeEnv} {w : ForgeWorld} (hu : UsualForge env w)
    (hiter : ∀ s, (env.iter s).Perm s) {set : List Oid} (hset : ∀ o ∈ set, o ∈ env.dag.graph.nodes)
    (hmain : ∀ o ∈ set, ¬ BranchAt w.repo env.mainName o) {K2 : List (Oid × Text)}
    (hK2 : ∀ o b, (o, b) ∈ K2 ↔ o ∈ set ∧ NeedsWork env w o b) (hw : Willing env w K2)
    (hd : Undisturbed env w K2) {user : Text} (hs : CreateSetup env w set user) {draft : Bool}
    {w' : ForgeWorld} {log : List ForgeCommand} {report : SubmitReport}
    (h : submitPrs env w set true false draft = (w', log, some report)) :
    UsualForge env w' ∧
      (∃ K : List (Oid × Text), (K.map Prod.fst).Nodup ∧ (∀ o, (∃ b, (o, b) ∈ K) ↔ o ∈ set ∧ NotSubmitted w o) ∧
        (∀ e ∈ K, Candidate env w user e.1 e.2 ∧ BranchAt w'.repo e.2 e.1) ∧
        w'.prs.map (·.head) = w.prs.map (·.head) ++ K.map Prod.snd ∧
        (∀ b ∈ report.submitted, ∃ e ∈ K, e.2 = b)) ∧
      (∀ p ∈ w.prs, ∃ p' ∈ w'.prs, p'.number = p.number ∧ p'.head = p.head) ∧
      (∀ b o, BranchAt w.repo b o → BranchAt w'.repo b o) ∧
      (∀ o ∈ set, ∃ p, HasPr w' o p ∧
        (NotSubmitted w o ∨ (∃ b, NeedsWork env w o b) → PrCurrent env w' o p)) := by
  have hwf := wf_queryPrStatus env w set
  unfold submitPrs submitCreatePrs submitUpdatePrs at h
  simp only [if_true, Bool.false_eq_true, if_false] at h
  have hremote : env.ghRemote.or (w.repo.defaultPushRemote env.mainName) = some w.github := by
    rw [hs.remote]
    rcases hs.gh with h | h
    · rw [h]; rfl
    · rw [h]; rfl
  cases hP : createPrs env draft w (prsWith .unsubmitted (queryPrStatus env w set)) with
  | mk wc xc =>
  obtain ⟨logc, oc⟩ := xc
  simp only [hP] at h
  cases oc with
  | none => simp at h
  | some names =>
  simp only [Option.map_some] at h
  obtain ⟨w1, logA, K, w2, logB, logC, hA, hB, hC', rfl⟩ := createPrs_some hremote hs.name hP
  -- the branches
  have hcand : ∀ e : Oid × PrStatus, e ∈ sortedStatuses env (prsWith .unsubmitted (queryPrStatus env w set)) →
      ∀ b, (e.2.localName = some b ∨ (e.2.localName = none ∧
        ∃ base, base = user ++ t!"/" ++ summarySlug env (env.summary e.1) ∧
          (b = base ∨ ∃ i, 2 ≤ i ∧ i ≤ 5 ∧ b = base ++ t!"-" ++ natToText i))) → Candidate env w user e.1 b := by
    intro e he b hb
    obtain ⟨-, -, -, h4, h5⟩ := unsubmitted_mem hu he
    rcases hb with hb | ⟨hb, hb'⟩
    · exact .inl (h4 b hb)
    · exact .inr ⟨h5 hb, hb'⟩
  have hloop : BranchLoop env user w (sortedStatuses env (prsWith .unsubmitted (queryPrStatus env w set))) := by
    refine ⟨hu.notSelf, hs.remote, hs.main, ?_, ?_, ?_⟩
    · intro e he b hb
      obtain ⟨h1, -, -, h4, -⟩ := unsubmitted_mem hu he
      refine ⟨(h4 b hb).1, ?_⟩
      rintro rfl
      exact hmain _ h1 (h4 _ hb).1
    · intro e he b hb p hp
      obtain ⟨h1, -, h3, -, -⟩ := unsubmitted_mem hu he
      exact hs.free e.1 h1 h3 b (hcand e he b hb) p hp
    · intro p hp
      obtain ⟨a, b, ha, hb, hn⟩ := hu.open_ p hp
      unfold ForgeWorld.merged
      rw [ha, hb]
      exact hn
  obtain ⟨m1, m2, m3, m4, m5, m6⟩ := createBranchLoop_made hloop hA
  have hKin : ∀ e ∈ K, e.1 ∈ set ∧ e.1 ∈ env.dag.graph.nodes ∧ NotSubmitted w e.1 := by
    intro e he
    obtain ⟨s, hs', -⟩ := m4 e he
    obtain ⟨h1, h2, h3, -⟩ := unsubmitted_mem hu hs'
    exact ⟨h1, h2, h3⟩
  have hKcand : ∀ e ∈ K, Candidate env w user e.1 e.2 := by
    intro e he
    obtain ⟨s, hs', h1⟩ := m4 e he
    exact hcand (e.1, s) hs' e.2 h1
  have hKnd : (K.map Prod.fst).Nodup := by
    rw [m3]
    have := sortedStatuses_sorted hu.graph (prsWith .unsubmitted (queryPrStatus env w set))
    refine List.Pairwise.map _ ?_ this
    intro a b hab he
    exact hab (he ▸ .refl)
  -- the pull requests
  obtain ⟨p1, p2, p3, p4, p5⟩ := createPrLoop_made hB
  have hc : Created env w K w2 := by
    have hr : w2.repo = w1.repo := by rw [p1]
    have hgh : w2.github = w.github := by rw [p1, m2]
    have hde : w2.defaultBranch = w.defaultBranch := by rw [p1, m2]
    have hnew : ∀ n (K : List (Oid × Text)), newPrs env w1 n K = newPrs env w2 n K := by
      intro n K
      induction K generalizing n with
      | nil => rfl
      | cons f K ih =>
        rw [newPrs, newPrs, ih]
        congr 2 <;> rw [p1]
    have hprs1 : w1.prs = w.prs := by rw [m2]
    have hnext1 : w1.next = w.next := by rw [m2]
    have hgh1 : w1.github = w.github := by rw [m2]
    refine ⟨hr ▸ m1, hgh, hde, ?_, ⟨w.next, ?_, hs.numbers⟩, ?_, p3, ?_, m5⟩
    · rw [p1, m2]
    · rw [← hnew, ← hnext1, ← hprs1]
      conv_lhs => rw [p1]
    · intro e he p hp
      obtain ⟨h1, -, h3⟩ := hKin e he
      exact hs.free e.1 h1 h3 e.2 (hKcand e he) p hp
    · intro e he d hdd
      have ht1 : ∀ b, w2.tip b = w1.tip b := fun b => by rw [p1]; rfl
      rw [ht1, show w2.defaultBranch = w1.defaultBranch by rw [p1]] at hdd
      have := p4 e he e.1 d (by
        unfold ForgeWorld.tip
        rw [hgh1]
        exact (m1.pushed e he).1) hdd
      rw [m1.same.2.2.2.2] at this
      exact this
  have hu2 := hc.usual hu hs.default
  -- updating the new ones
  have hm3 : ∀ o s, AMap.get? (K.map fun e => (e.1, createdStatus w.github e.2)) o = some s →
      ∃ b, s = createdStatus w2.github b := by
    intro o s hos
    obtain ⟨e, -, he⟩ := List.mem_map.1 (AMap.mem_of_get? hos)
    rw [hc.github]
    exact ⟨e.2, (Prod.mk.inj he).2.symm⟩
  have hKwf : AMap.WF (K.map fun e => (e.1, createdStatus w.github e.2)) := by
    unfold AMap.WF AMap.keys
    rw [List.map_map]
    exact hKnd
  obtain ⟨KC, hKC⟩ : ∃ KC, KC = jobsOf env (K.map fun e => (e.1, createdStatus w.github e.2)) := ⟨_, rfl⟩
  have hKmem : ∀ e, e ∈ KC ↔ e ∈ K := by
    rintro ⟨o, b⟩
    rw [hKC, mem_jobsOf hm3, hc.github]
    constructor
    · rintro ⟨-, h1⟩
      obtain ⟨e, he, hee⟩ := List.mem_map.1 (AMap.mem_of_get? h1)
      simp only [createdStatus, Prod.mk.injEq, PrStatus.mk.injEq, Option.some.injEq] at hee
      obtain ⟨rfl, -, rfl⟩ := hee
      exact he
    · intro he
      exact ⟨(hKin _ he).2.1, AMap.get?_of_mem hKwf (List.mem_map.2 ⟨_, he, rfl⟩)⟩
  have hJ := hc.jobs hKmem (fun e he => (hKin e he).2.1) (by rw [hKC]; exact jobsOf_sorted hu.graph _)
  have hWC := hc.willing hKmem hw.reachable hw.edits hw.main
  have hUC := hc.undisturbed hKmem hu2 (fun e he => hs.onMain e.1 (hKin e he).1 (hKin e he).2.2)
    (fun e he => hs.below e.1 (hKin e he).1 (hKin e he).2.2)
  have hC := updatePrs_eq hu2 hiter hm3 (hKC ▸ hJ) (hKC ▸ hUC) (hKC ▸ hWC)
  rw [← hKC, hC'] at hC
  obtain rfl := (Prod.mk.inj hC).1
  -- updating the old ones
  obtain ⟨w3, hw3⟩ : ∃ w3, w3 = forgeState env w2 KC KC := ⟨_, rfl⟩
  rw [← hw3] at h
  have hu3 : UsualForge env w3 := hw3 ▸ forgeState_usual hu2 hiter hJ hUC hWC.main
  have hgh3 : w3.github = w.github := by rw [hw3]; exact hc.github
  have hmem2 : ∀ e, e ∈ jobsOf env (prsWith .needsUpdate (queryPrStatus env w set)) ↔ e ∈ K2 := by
    rintro ⟨o, b⟩
    rw [needs_jobs hu hset, hK2]
  obtain ⟨L, hL⟩ : ∃ L, L = jobsOf env (prsWith .needsUpdate (queryPrStatus env w set)) := ⟨_, rfl⟩
  have hJ2 : Jobs env w L := hL ▸ needs_isJobs hu hset hmain
  have hJ3 : Jobs env w3 L := hw3 ▸ second_jobs hu hc hKmem hJ hJ2
  have hW3 : Willing env w3 L := hw3 ▸ second_willing hu hc hKmem hJ hJ2
    (hw.congr fun e he => (hmem2 e).1 (hL ▸ he))
  have hU3 : Undisturbed env w3 L := hw3 ▸ second_undisturbed hu hiter hc hu2 hKmem hJ hJ2
    (hd.congr fun e => by rw [hL]; exact hmem2 e)
  have hm4 : ∀ o s, (prsWith .needsUpdate (queryPrStatus env w set)).get? o = some s →
      ∃ b, s = createdStatus w3.github b := by
    intro o s h
    obtain ⟨b, -, -, h⟩ := (needs_created hu).1 h
    rw [hgh3]
    exact ⟨b, h⟩
  have hD := updatePrs_eq hu3 hiter hm4 (hL ▸ hJ3) (hL ▸ hU3) (hL ▸ hW3)
  rw [← hL] at hD
  rw [hD] at h
  simp only [if_true, Prod.mk.injEq, Option.some.injEq] at h
  obtain ⟨rfl, -, hrep⟩ := h
  have hrefs4 : (forgeState env w3 L L).repo.refs = w2.repo.refs := by
    rw [hw3]
    exact (pushedRepo_same _ _ _).1.trans (pushedRepo_same _ _ _).1
  have hheads : ∀ (v : ForgeWorld) (J : List (Oid × Text)), (forgeState env v J J).prs.map (·.head) =
      v.prs.map (·.head) := by
    intro v J
    show (v.prs.map (editPr env v J)).map _ = _
    rw [List.map_map]
    exact List.map_congr_left fun p _ => editPr_head ..
  have hfr := second_fresh hu hc hKmem hJ hJ2
  refine ⟨forgeState_usual hu3 hiter hJ3 hU3 hW3.main, ⟨K, hKnd, ?_, ?_, ?_, ?_⟩, ?_, ?_, ?_⟩
  · intro o
    constructor
    · rintro ⟨b, hb⟩
      exact ⟨(hKin _ hb).1, (hKin _ hb).2.2⟩
    · rintro ⟨ho, hn⟩
      have := unsubmitted_exists hu hset ho hn
      rw [← m3] at this
      obtain ⟨⟨o', b⟩, he, rfl⟩ := List.mem_map.1 this
      exact ⟨b, he⟩
  · intro e he
    refine ⟨hKcand e he, ?_⟩
    have := (hc.branch he e.1).2 rfl
    unfold BranchAt at this ⊢
    rw [hrefs4]
    exact this
  · rw [hheads, hw3, hheads]
    obtain ⟨n, hn, -⟩ := hc.prs
    rw [hn, List.map_append, newPrs_heads]
  · intro b hb
    rw [← hrep] at hb
    simp only at hb
    rw [mem_sortedSet] at hb
    obtain ⟨e, he, rfl⟩ := List.mem_map.1 hb
    exact ⟨e, he, rfl⟩
  · intro p hp
    have h2 := hc.old_prs hp
    have h3 : editPr env w2 KC p ∈ w3.prs := by rw [hw3]; exact List.mem_map.2 ⟨p, h2, rfl⟩
    refine ⟨editPr env w3 L (editPr env w2 KC p), List.mem_map.2 ⟨_, h3, rfl⟩, ?_, ?_⟩
    · rw [editPr_number, editPr_number]
    · rw [editPr_head, editPr_head]
  · intro b o hb
    have := hc.branch_old hb
    unfold BranchAt at this ⊢
    rw [hrefs4]
    exact this
  · intro o ho
    by_cases hn : NotSubmitted w o
    · have := unsubmitted_exists hu hset ho hn
      rw [← m3] at this
      obtain ⟨⟨o', b⟩, he, rfl⟩ := List.mem_map.1 this
      obtain ⟨p, hp, hpe⟩ := hc.new_pr he
      simp only at hpe he
      subst hpe
      have hp2 : HasPr w2 o' p := ⟨hp, (hc.branch he o').2 rfl, hc.tracks he⟩
      have hp3 : HasPr w3 o' (editPr env w2 KC p) := by rw [hw3]; exact (forgeState_hasPr hJ).2 ⟨p, hp2, rfl⟩
      refine ⟨editPr env w3 L (editPr env w2 KC p), (forgeState_hasPr hJ3).2 ⟨_, hp3, rfl⟩, fun _ => ?_⟩
      rw [forgeState_current hJ3, hw3]
      · exact forgeState_prCurrent hJ ((hKmem _).2 he)
      · intro o'' ho''
        rw [editPr_head] at ho''
        exact hfr _ ho'' _ he rfl
    · obtain ⟨p, hp, hcase⟩ := not_submitted_or (env := env) hn
      have hp2 := hc.hasPr_old hp
      have hp3 : HasPr w3 o (editPr env w2 KC p) := by rw [hw3]; exact (forgeState_hasPr hJ).2 ⟨p, hp2, rfl⟩
      refine ⟨editPr env w3 L (editPr env w2 KC p), (forgeState_hasPr hJ3).2 ⟨_, hp3, rfl⟩, ?_⟩
      rintro (h | ⟨b, h⟩)
      · exact absurd h hn
      · apply forgeState_prCurrent hJ3
        rw [editPr_head, hL, needs_jobs hu hset]
        rcases hcase with h' | h'
        · exact ⟨ho, h'⟩
        · exact absurd h' ((pr_status_exclusive hu).2 _ _ h)

end Verif.Props
