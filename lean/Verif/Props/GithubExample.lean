import Verif.Props.Github
import Verif.Props.Plan

/-!
C74-C77: examples for `submit` with pull requests, and where it does not do what one would like.
-/

namespace Verif.Props

open Verif Verif.Spec

/-! ### the repository -/

/-- A stack of five commits 1-5 on the main branch; 6 and 7 are old versions of 2 and 3. -/
def exForgeGraph : CommitGraph Oid :=
  ⟨[(oidN 7, [oidN 6]), (oidN 6, [oidN 1]), (oidN 5, [oidN 4]), (oidN 4, [oidN 3]), (oidN 3, [oidN 2]),
    (oidN 2, [oidN 1]), (oidN 1, [oidN 0]), (oidN 0, [])]⟩

theorem exForgeGraph_wf : WFGraph exForgeGraph := by
  unfold WFGraph exForgeGraph
  repeat (first | exact .nil | refine .cons (by decide) (by decide) ?_)

/-- Whether a commit is below another one. -/
def exBelow (a b : Oid) : Bool := a = b || (exForgeGraph.ancestors [b]).contains a

theorem exBelow_iff (a b : Oid) (hb : b ∈ exForgeGraph.nodes) : exBelow a b = true ↔ Anc exForgeGraph a b := by
  unfold exBelow
  rw [Bool.or_eq_true, decide_eq_true_iff, List.contains_iff_mem, mem_ancestors exForgeGraph_wf]
  constructor
  · rintro (rfl | ⟨-, d, hd, h⟩)
    · exact .refl
    · rw [List.mem_singleton] at hd
      exact hd ▸ h
  · intro h
    exact .inr ⟨h.mem exForgeGraph_wf hb, b, List.mem_singleton.2 rfl, h⟩

/-- The environment; sets are listed with children first. -/
def exForgeEnv : ForgeEnv :=
  { dag :=
      { graph := exForgeGraph
        headCommit := [oidN 5]
        mainBranchCommit := [oidN 0]
        branchCommits := [oidN 0, oidN 1, oidN 2, oidN 3, oidN 4]
        observedCommits := [oidN 1, oidN 2, oidN 3, oidN 4, oidN 5]
        obsoleteCommits := [] }
    mainOid := oidN 0
    mainName := t!"master"
    summary := fun o => t!"Commit " ++ natToText (o.val - 1) ++ t!"!"
    message := fun o => t!"Commit " ++ natToText (o.val - 1) ++ t!"!\n\nText"
    iter := id
    ghRemote := none
    username := some t!"me"
    isAlphanumeric := Char.isAlphanum
    toLowercase := fun c => [c.toLower]
    canCreate := fun _ => true }

/-- The environment, if sets were listed with parents first. -/
def exForgeEnv' : ForgeEnv := { exForgeEnv with iter := List.reverse }

/-- A repository with the given branches, those of them which are on GitHub and where, and the pull requests. -/
def exForgeWith (bs tips : List (Text × Oid)) (prs : List PullRequest) : ForgeWorld :=
  { repo :=
      { refs := bs.map fun e => (fullName e.1, e.2)
        pushRemote := fun _ => none
        pushDefault := none
        remote := tips.map fun e => (e.1, t!"origin")
        merge := tips.map fun e => (e.1, fullName e.1)
        tracking := tips.map fun e => ((t!"origin", fullName e.1), e.2)
        remotes := tips.map fun e => ((t!"origin", fullName e.1), e.2)
        reachable := fun _ => true
        accepts := fun _ _ => true
        isAncestor := exBelow }
    github := t!"origin"
    defaultBranch := t!"master"
    prs := prs
    next := 10
    urlOf := fun n => t!"url" ++ natToText n
    allows := fun _ => true }

theorem exForgeWith_usual {env : ForgeEnv} (he : env.dag.graph = exForgeGraph) {bs tips : List (Text × Oid)}
    {prs : List PullRequest} (hw : ((bs.map fun e => (fullName e.1, e.2)).map Prod.fst).Nodup)
    (hp : ∀ p ∈ prs, ∀ q ∈ prs, p.head = q.head ∨ p.number = q.number → p = q)
    (ho : ∀ p ∈ prs, ((exForgeWith bs tips prs).tip p.head).isSome = true ∧
      ((exForgeWith bs tips prs).tip p.base).isSome = true ∧ (exForgeWith bs tips prs).merged p = false) :
    UsualForge env (exForgeWith bs tips prs) where
  graph := he ▸ exForgeGraph_wf
  refs := hw
  notSelf := show t!"origin" ≠ t!"." by decide
  upstream := by
    intro b r m h1 h2
    have h1 := AMap.mem_of_get? h1
    have h2 := AMap.mem_of_get? h2
    obtain ⟨e, -, he⟩ := List.mem_map.1 h1
    obtain ⟨f, -, hf⟩ := List.mem_map.1 h2
    simp only [Prod.mk.injEq] at he hf
    obtain ⟨rfl, rfl⟩ := hf
    exact ⟨he.2.symm, rfl⟩
  push := by
    intro b r h
    cases h
  heads := fun p h q h' e => hp p h q h' (.inl e)
  numbers := fun p h q h' e => hp p h q h' (.inr e)
  open_ := by
    intro p h
    obtain ⟨h1, h2, h3⟩ := ho p h
    obtain ⟨x, hx⟩ := Option.isSome_iff_exists.1 h1
    obtain ⟨y, hy⟩ := Option.isSome_iff_exists.1 h2
    refine ⟨x, y, hx, hy, ?_⟩
    unfold ForgeWorld.merged at h3
    rw [hx, hy] at h3
    exact h3
  refl := by
    intro o
    show exBelow o o = true
    unfold exBelow
    simp
  ancestor := by
    intro a b hb
    rw [he] at hb ⊢
    exact exBelow_iff a b hb

/-- Children come first. -/
theorem exForge_childrenFirst : ∀ s : List Oid, s.Sublist exForgeGraph.nodes →
    (exForgeEnv.iter s).Pairwise fun a b => ¬ Anc exForgeEnv.dag.graph a b := by
  intro s hs
  exact (nodes_childrenFirst exForgeGraph.entries exForgeGraph_wf).sublist hs

theorem exForge_parentsFirst : ∀ s : List Oid, s.Sublist exForgeGraph.nodes →
    ParentsFirst exForgeEnv'.dag.graph (exForgeEnv'.iter s) := by
  intro s hs
  show (s.reverse).Pairwise _
  rw [List.pairwise_reverse]
  exact (nodes_childrenFirst exForgeGraph.entries exForgeGraph_wf).sublist hs

/-! ### a stack of pull requests -/

/-- The text for a stack. -/
def exBody (urls : List Text) (o : Oid) : Text := prBody urls (exForgeEnv.message o)

def exUrls : List Text := [t!"url1", t!"url2", t!"url3"]

/-- `a`, `b` and `c` are at 1, 2 and 3, with pull requests; 2 and 3 were rewritten; `d` is at 4, and 5 has no
branch. -/
def exForge : ForgeWorld :=
  exForgeWith
    [(t!"a", oidN 1), (t!"b", oidN 2), (t!"c", oidN 3), (t!"d", oidN 4), (t!"master", oidN 0)]
    [(t!"master", oidN 0), (t!"a", oidN 1), (t!"b", oidN 6), (t!"c", oidN 7)]
    [⟨1, t!"url1", t!"a", t!"master", t!"[1/3] Commit 1!", exBody exUrls (oidN 1)⟩,
      ⟨2, t!"url2", t!"b", t!"a", t!"[2/3] Commit 2!", exBody exUrls (oidN 2)⟩,
      ⟨3, t!"url3", t!"c", t!"b", t!"[3/3] Commit 3!", exBody exUrls (oidN 3)⟩]

def exForgeSet : List Oid := [oidN 1, oidN 2, oidN 3, oidN 4, oidN 5]

theorem exForge_usual : UsualForge exForgeEnv exForge :=
  exForgeWith_usual rfl (by decide +kernel) (by decide +kernel) (by decide +kernel)

theorem exForge_set : ∀ o ∈ exForgeSet, o ∈ exForgeEnv.dag.graph.nodes := by decide +kernel

theorem exForge_notMain : ∀ o ∈ exForgeSet, ¬ BranchAt exForge.repo exForgeEnv.mainName o := by
  intro o ho h
  unfold BranchAt at h
  have : exForge.repo.refs.get? (t!"refs/heads/" ++ exForgeEnv.mainName) = some (oidN 0) := by decide +kernel
  rw [this] at h
  obtain rfl := Option.some.inj h
  exact absurd ho (by decide +kernel)

/-- `b` and `c` have to be updated. -/
def exForgeJobs : List (Oid × Text) := [(oidN 2, t!"b"), (oidN 3, t!"c")]

theorem exForge_jobs (o : Oid) (b : Text) :
    (o, b) ∈ exForgeJobs ↔ o ∈ exForgeSet ∧ NeedsWork exForgeEnv exForge o b := by
  rw [← needs_jobs exForge_usual exForge_set]
  have : jobsOf exForgeEnv (prsWith .needsUpdate (queryPrStatus exForgeEnv exForge exForgeSet)) = exForgeJobs := by
    decide +kernel
  rw [this]

theorem exForge_willing : Willing exForgeEnv exForge exForgeJobs where
  reachable := rfl
  lease := by decide +kernel
  edits := fun _ _ _ _ => rfl
  main := ⟨oidN 0, by decide +kernel⟩

theorem exForge_prAt {o : Oid} {p : PullRequest} (h : HasPr exForge o p) :
    (o, p.head) ∈ [(oidN 1, t!"a"), (oidN 2, t!"b"), (oidN 3, t!"c")] := by
  have h1 : ∀ p ∈ exForge.prs, (exForge.repo.refs.get? (t!"refs/heads/" ++ p.head)).map (fun o => (o, p.head)) ∈
      [some (oidN 1, t!"a"), some (oidN 2, t!"b"), some (oidN 3, t!"c")] := by decide +kernel
  have h2 := h1 p h.mem
  have h3 := h.at_
  unfold BranchAt at h3
  rw [h3] at h2
  simpa using h2

theorem exForge_undisturbed : Undisturbed exForgeEnv exForge exForgeJobs where
  old := by
    intro p hp h k hh hk ha
    have key : ∀ p ∈ exForge.prs, ∀ e ∈ exForgeJobs, ∀ h, exForge.tip p.head = some h → p.base = e.2 →
        exForge.repo.isAncestor h e.1 = false := by
      intro p hp e he h hh hb
      have : ∀ p ∈ exForge.prs, ∀ e ∈ exForgeJobs, p.base = e.2 →
          (exForge.tip p.head).all (fun h => !exForge.repo.isAncestor h e.1) = true := by decide +kernel
      have := this p hp e he hb
      rw [hh] at this
      simpa using this
    have := key p hp _ hk h hh rfl
    rw [this] at ha
    cases ha
  new := by
    intro e he _ p hp hpe B hB
    have : ∀ e ∈ exForgeJobs, ∀ p ∈ exForge.prs, p.head = e.2 →
        (exForge.tip p.base).all (fun B => !exForge.repo.isAncestor e.1 B) = true := by decide +kernel
    have := this e he p hp hpe
    rw [hB] at this
    simpa using this
  main := by
    intro e he B hB
    have : ∀ e ∈ exForgeJobs,
        (exForge.tip exForgeEnv.mainName).all (fun B => !exForge.repo.isAncestor e.1 B) = true := by decide +kernel
    have := this e he
    rw [hB] at this
    simpa using this
  below := by
    intro e he a p _ hp hn B hB
    have h1 := exForge_prAt hp
    have h2 : (a, p.head) = (oidN 1, t!"a") := by
      simp only [List.mem_cons, List.not_mem_nil, or_false] at h1
      rcases h1 with h | h | h
      · exact h
      · exact absurd (h ▸ by decide) hn
      · exact absurd (h ▸ by decide) hn
    simp only [Prod.mk.injEq] at h2
    rw [h2.2] at hB
    have : ∀ e ∈ exForgeJobs, (exForge.tip t!"a").all (fun B => !exForge.repo.isAncestor e.1 B) = true := by
      decide +kernel
    have := this e he
    rw [hB] at this
    simpa using this

/-- The hypotheses of the theorems about updating; two branches are pushed, and their pull requests are edited. -/
example : (submitPrs exForgeEnv exForge exForgeSet false false false).2 =
    ([.git (.pushLease t!"origin" [t!"b"]), .editPr 2 t!"a" t!"[2/3] Commit 2!" (exBody exUrls (oidN 2)),
      .git (.pushLease t!"origin" [t!"c"]), .editPr 3 t!"a" t!"[3/3] Commit 3!" (exBody exUrls (oidN 3))],
      some { submitted := [], updated := [t!"b", t!"c"], skipped := [t!"a"], unsubmitted := [t!"d"] }) := by
  decide +kernel

example : UsualForge exForgeEnv (submitPrs exForgeEnv exForge exForgeSet false false false).1 :=
  (submit_updates_prs exForge_usual (fun _ => List.Perm.refl _) exForge_set exForge_notMain exForge_jobs
    exForge_willing exForge_undisturbed false).2.1

/-! ### creating -/

theorem exForge_notSubmitted {o : Oid} (h : o ∈ exForgeSet) (hn : NotSubmitted exForge o) :
    o ∈ [oidN 4, oidN 5] := by
  have := unsubmitted_exists exForge_usual exForge_set h hn
  have e : (sortedStatuses exForgeEnv (prsWith .unsubmitted (queryPrStatus exForgeEnv exForge exForgeSet))).map
      Prod.fst = [oidN 4, oidN 5] := by decide +kernel
  rwa [e] at this

theorem exForge_create : CreateSetup exForgeEnv exForge exForgeSet t!"me" where
  name := rfl
  remote := by decide +kernel
  gh := .inl rfl
  main := ⟨oidN 0, by unfold BranchAt; decide +kernel⟩
  default := ⟨oidN 0, by decide +kernel⟩
  numbers := by decide +kernel
  free := by
    intro o ho hn b hb p hp
    have h1 := exForge_notSubmitted ho hn
    have h2 : ∀ p ∈ exForge.prs, ∃ c ∈ [oidN 0, oidN 1, oidN 2, oidN 3],
        exForge.repo.refs.get? (t!"refs/heads/" ++ p.head) = some c := by decide +kernel
    have h3 : ∀ p ∈ exForge.prs, ∃ c ∈ [oidN 0, oidN 1, oidN 2, oidN 3],
        exForge.repo.refs.get? (t!"refs/heads/" ++ p.base) = some c := by decide +kernel
    have h4 : ∀ p ∈ exForge.prs, p.head.take 3 ≠ t!"me/" ∧ p.base.take 3 ≠ t!"me/" := by decide +kernel
    rcases hb with ⟨hb, -⟩ | ⟨-, base, rfl, hb⟩
    · unfold BranchAt at hb
      have h5 : o ∉ [oidN 0, oidN 1, oidN 2, oidN 3] := by
        simp only [List.mem_cons, List.not_mem_nil, or_false] at h1
        rcases h1 with rfl | rfl <;> decide
      constructor
      · rintro rfl
        obtain ⟨c, hc, he⟩ := h2 p hp
        rw [hb] at he
        exact h5 (Option.some.inj he ▸ hc)
      · rintro rfl
        obtain ⟨c, hc, he⟩ := h3 p hp
        rw [hb] at he
        exact h5 (Option.some.inj he ▸ hc)
    · have h5 : b.take 3 = t!"me/" := by
        rcases hb with rfl | ⟨i, -, -, rfl⟩ <;> rfl
      obtain ⟨h6, h7⟩ := h4 p hp
      exact ⟨fun e => h6 (e ▸ h5), fun e => h7 (e ▸ h5)⟩
  onMain := by
    intro o ho hn B hB
    have h1 := exForge_notSubmitted ho hn
    have : ∀ o ∈ [oidN 4, oidN 5],
        (exForge.tip exForgeEnv.mainName).all (fun B => !exForge.repo.isAncestor o B) = true := by decide +kernel
    have := this o h1
    rw [hB] at this
    simpa using this
  below := by
    intro o ho hn a p _ hp B hB
    have h1 := exForge_notSubmitted ho hn
    have : ∀ o ∈ [oidN 4, oidN 5], ∀ p ∈ exForge.prs,
        (exForge.tip p.head).all (fun B => !exForge.repo.isAncestor o B) = true := by decide +kernel
    have := this o h1 p hp.mem
    rw [hB] at this
    simpa using this

/-- The world after `submit --create`. -/
def exForgeCreated : ForgeWorld := (submitPrs exForgeEnv exForge exForgeSet true false false).1

/-- The hypotheses of `submit_creates_prs`. It succeeds; there are two new pull requests, one of them with a new
branch. -/
theorem exForge_created : ∃ log, submitPrs exForgeEnv exForge exForgeSet true false false =
    (exForgeCreated, log, some (SubmitReport.mk [t!"d", t!"me/commit-5"] [t!"b", t!"c"] [t!"a"] [])) := by
  refine ⟨(submitPrs exForgeEnv exForge exForgeSet true false false).2.1, ?_⟩
  have : (submitPrs exForgeEnv exForge exForgeSet true false false).2.2 =
      some (SubmitReport.mk [t!"d", t!"me/commit-5"] [t!"b", t!"c"] [t!"a"] []) := by decide +kernel
  rw [← this]
  rfl

example : exForgeCreated.prs.map (·.head) = [t!"a", t!"b", t!"c", t!"d", t!"me/commit-5"] := by decide +kernel

theorem exForgeCreated_usual : UsualForge exForgeEnv exForgeCreated := by
  obtain ⟨log, h⟩ := exForge_created
  exact (submit_creates_prs exForge_usual (fun _ => List.Perm.refl _) exForge_set exForge_notMain exForge_jobs
    exForge_willing exForge_undisturbed exForge_create h).1

/-! ### what is not as one would like -/

/-- The pull request for the third commit of a stack is not based on the one for the second commit, which is the
nearest one, but on the one for the first. -/
theorem pr_base_not_nearest : ∃ env w o, UsualForge env w ∧ (∀ s, (env.iter s).Perm s) ∧
    (∀ s, s.Sublist env.dag.graph.nodes → (env.iter s).Pairwise fun a b => ¬ Anc env.dag.graph a b) ∧
    o ∈ env.dag.graph.nodes ∧ ¬ NearestBase env w o (desiredPr env w.repo w.prs o).base := by
  refine ⟨exForgeEnv, exForge, oidN 3, exForge_usual, fun _ => List.Perm.refl _, exForge_childrenFirst,
    by decide +kernel, ?_⟩
  have hb : (desiredPr exForgeEnv exForge.repo exForge.prs (oidN 3)).base = t!"a" := by decide +kernel
  rw [hb]
  rintro (⟨a, p, h1, h2, h3, h4⟩ | ⟨-, h⟩)
  · have h5 := exForge_prAt h2
    rw [← h3] at h5
    have h6 : a = oidN 1 := by
      simp only [List.mem_cons, List.not_mem_nil, or_false, Prod.mk.injEq] at h5
      rcases h5 with h | h | h
      · exact h.1
      · exact absurd h.2 (by decide)
      · exact absurd h.2 (by decide)
    subst h6
    have anc : ∀ a b, b ∈ exForgeGraph.nodes → exBelow a b = true → Anc exForgeGraph a b :=
      fun a b hb h => (exBelow_iff a b hb).1 h
    have := h4 (oidN 2) ⟨2, t!"url2", t!"b", t!"a", t!"[2/3] Commit 2!", exBody exUrls (oidN 2)⟩
      ⟨anc _ _ (by decide +kernel) (by decide +kernel), by decide, fun h =>
        absurd ((exBelow_iff _ _ (by decide +kernel)).2 h) (by decide +kernel)⟩
      ⟨by decide +kernel, by unfold BranchAt; decide +kernel,
        ⟨by decide +kernel, by decide +kernel, ⟨oidN 6, by decide +kernel⟩⟩⟩
      (anc _ _ (by decide +kernel) (by decide +kernel))
    exact absurd this (by decide)
  · exact absurd h (by decide)

/-- With parents first, it would be the nearest one. -/
example : (desiredPr exForgeEnv' exForge.repo exForge.prs (oidN 3)).base = t!"b" ∧
    NearestBase exForgeEnv' exForge (oidN 3) t!"b" := by
  have hb : (desiredPr exForgeEnv' exForge.repo exForge.prs (oidN 3)).base = t!"b" := by decide +kernel
  refine ⟨hb, ?_⟩
  rw [← hb]
  exact pr_base_nearest_partial
    (exForgeWith_usual rfl (by decide +kernel) (by decide +kernel) (by decide +kernel))
    (fun s => List.reverse_perm s) exForge_parentsFirst (by decide +kernel)

/-- The pull request of `a` was as it should be before two more were created on top of it, and is skipped; after
that it is not. -/
theorem create_leaves_stale : ∃ env w set o b w' log report, UsualForge env w ∧ o ∈ set ∧
    submitPrs env w set true false false = (w', log, some report) ∧ UsualForge env w' ∧
    InOrder env w o b ∧ b ∈ report.skipped ∧ NeedsWork env w' o b := by
  obtain ⟨log, h⟩ := exForge_created
  refine ⟨exForgeEnv, exForge, exForgeSet, oidN 1, t!"a", _, log, _, exForge_usual, by decide +kernel, h,
    exForgeCreated_usual, ?_, by decide +kernel, ?_⟩
  · obtain ⟨s, hs, h⟩ := pr_status (set := exForgeSet) (o := oidN 1) exForge_usual (by decide +kernel)
    have e : (queryPrStatus exForgeEnv exForge exForgeSet).get? (oidN 1) =
        some ⟨⟨.upToDate, some t!"origin", some t!"a"⟩, some t!"a"⟩ := by decide +kernel
    rw [e] at hs
    obtain rfl := Option.some.inj hs
    rcases h with ⟨h, -⟩ | ⟨h, -⟩ | ⟨-, b, h1, h2⟩
    · cases h
    · cases h
    · exact Option.some.inj h2 ▸ h1
  · obtain ⟨s, hs, h⟩ := pr_status (set := exForgeSet) (o := oidN 1) exForgeCreated_usual (by decide +kernel)
    have e : (queryPrStatus exForgeEnv exForgeCreated exForgeSet).get? (oidN 1) =
        some ⟨⟨.needsUpdate, some t!"origin", some t!"a"⟩, some t!"a"⟩ := by decide +kernel
    rw [e] at hs
    obtain rfl := Option.some.inj hs
    rcases h with ⟨h, -⟩ | ⟨-, b, h1, h2, -⟩ | ⟨h, -⟩
    · cases h
    · exact Option.some.inj h2 ▸ h1
    · cases h

/-- There are two branches `a` and `z` at the commit 1, and `a` has a pull request. -/
def exForgeTwo : ForgeWorld :=
  exForgeWith [(t!"a", oidN 1), (t!"master", oidN 0), (t!"z", oidN 1)]
    [(t!"master", oidN 0), (t!"a", oidN 1)]
    [⟨1, t!"url1", t!"a", t!"master", t!"[1/1] Commit 1!", exBody [t!"url1"] (oidN 1)⟩]

theorem exForgeTwo_usual : UsualForge exForgeEnv exForgeTwo :=
  exForgeWith_usual rfl (by decide +kernel) (by decide +kernel) (by decide +kernel)

/-- A commit with a pull request is said not to be submitted if there is another branch, and `--create` makes a
second pull request for it. -/
theorem second_pr : ∃ env w o p, UsualForge env w ∧ HasPr w o p ∧
    (queryPrStatus env w [o]).get? o = some ⟨⟨.unsubmitted, none, some t!"z"⟩, none⟩ ∧
    (submitPrs env w [o] true false false).1.prs.map (·.head) = [p.head, t!"z"] :=
  ⟨exForgeEnv, exForgeTwo, oidN 1, ⟨1, t!"url1", t!"a", t!"master", t!"[1/1] Commit 1!",
    exBody [t!"url1"] (oidN 1)⟩, exForgeTwo_usual,
    ⟨by decide +kernel, by unfold BranchAt; decide +kernel, ⟨by decide +kernel, by decide +kernel, oidN 1, by decide +kernel⟩⟩,
    by decide +kernel, by decide +kernel⟩

/-- The branches `a` and `b` were at 1 and 2, with pull requests, and now are the other way round. -/
def exForgeSwap : ForgeWorld :=
  exForgeWith [(t!"a", oidN 2), (t!"b", oidN 1), (t!"master", oidN 0)]
    [(t!"master", oidN 0), (t!"a", oidN 1), (t!"b", oidN 2)]
    [⟨1, t!"url1", t!"a", t!"master", t!"[1/2] Commit 1!", exBody [t!"url1", t!"url2"] (oidN 1)⟩,
      ⟨2, t!"url2", t!"b", t!"a", t!"[2/2] Commit 2!", exBody [t!"url1", t!"url2"] (oidN 2)⟩]

/-- If the branches of two pull requests change places, then submitting them closes one of them: the branch is
pushed before its pull request gets the other base. `Undisturbed` excludes this. -/
theorem swapped_branches_close : ∃ env w set p, UsualForge env w ∧ p ∈ w.prs ∧
    (∀ o ∈ set, o ∈ env.dag.graph.nodes) ∧
    ∀ q ∈ (submitPrs env w set false false false).1.prs, q.number ≠ p.number :=
  ⟨exForgeEnv, exForgeSwap, [oidN 1, oidN 2],
    ⟨2, t!"url2", t!"b", t!"a", t!"[2/2] Commit 2!", exBody [t!"url1", t!"url2"] (oidN 2)⟩,
    exForgeWith_usual rfl (by decide +kernel) (by decide +kernel) (by decide +kernel),
    by decide +kernel, by decide +kernel, by decide +kernel⟩

/-- The main branch is configured as `origin/main`: `get_main_branch_name` has the value as it is, and it is the
name of no branch on GitHub. -/
theorem main_branch_of_remote : ∃ env w set, UsualForge env w ∧ env.mainName = t!"origin/master" ∧
    w.tip t!"master" = some env.mainOid ∧ (∀ o ∈ set, o ∈ env.dag.graph.nodes) ∧
    (submitPrs env w set false false false).2.2 = none :=
  ⟨{ exForgeEnv with mainName := t!"origin/master" }, exForge, exForgeSet,
    exForgeWith_usual rfl (by decide +kernel) (by decide +kernel) (by decide +kernel),
    rfl, by decide +kernel, by decide +kernel, by decide +kernel⟩

/-! ### names -/

example : summarySlug exForgeEnv t!"  Fix: the  *bug* (again)!" = t!"fix-the-bug-again" := by decide +kernel
example : summarySlug exForgeEnv t!"!?" = t!"to-review" := by decide +kernel
example : exForgeEnv.toLowercase '-' = ['-'] := by decide +kernel

/-- The hypothesis of `new_branch_name`. -/
example : ((localBranchFor exForgeEnv t!"me" exForge (oidN 5) ⟨⟨.unsubmitted, none, none⟩, none⟩).map Prod.snd) =
    some t!"me/commit-5" := by decide +kernel

/-- The hypothesis of `new_branch_fails`. -/
example : (localBranchFor exForgeEnv t!"me"
    (exForgeWith [(t!"me/commit-5", oidN 1), (t!"me/commit-5-2", oidN 1), (t!"me/commit-5-3", oidN 1),
      (t!"me/commit-5-4", oidN 1), (t!"me/commit-5-5", oidN 1)] [] []) (oidN 5)
    ⟨⟨.unsubmitted, none, none⟩, none⟩).isNone = true := by decide +kernel

end Verif.Props
