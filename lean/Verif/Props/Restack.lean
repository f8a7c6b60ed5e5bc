import Verif.Model.Restack
import Verif.Spec.Restack
import Verif.Props.Hide
import Verif.Props.Execute
import Verif.Props.Evolve

/-! C44: restacking. -/

namespace Verif.Props

open Verif Verif.Spec

/-! ### the schedule -/

theorem newest_rewrittenTo {es : List Event} {o : Oid} {m : MaybeZero} (h : Newest es o m) :
    ∃ m, RewrittenTo es o m := by
  cases h with
  | dropped h => exact ⟨_, h⟩
  | last h _ => exact ⟨_, h⟩
  | step h _ => exact ⟨_, h⟩

theorem rewrittenTo_hidden {es : List Event} {o : Oid} {m : MaybeZero} (h : RewrittenTo es o m) :
    statusIn es o = some false := by
  obtain ⟨ts, tx, h, hne⟩ := h
  unfold statusIn
  cases hl : lastEffect o es with
  | none => rw [hl] at h; simp at h
  | some x =>
    obtain ⟨e, b⟩ := x
    rw [hl] at h
    simp only [Option.map_some, Option.some.injEq] at h
    subst h
    unfold lastEffect at hl
    obtain ⟨e, -, he⟩ := List.exists_of_findSome?_eq_some hl
    simp only [Option.map_eq_some_iff, Prod.mk.injEq] at he
    obtain ⟨b', h1, rfl, rfl⟩ := he
    simp only [effectOn] at h1
    rw [if_neg hne] at h1
    simpa using h1.symm

/-- The requests which are made: child and destination. -/
def requestsOf (rebases : List (Oid × List Oid)) : List (Oid × Oid) :=
  rebases.flatMap fun x => x.2.map fun child => (child, x.1)

def requestConstraints (rs : List (Oid × Oid)) : List Constraint :=
  rs.map fun r => .moveSubtree [r.2] r.1

theorem addRebases_ok (b : RebasePlanBuilder) (rebases : List (Oid × List Oid)) :
    addRebases b rebases = .ok { b with
      initialConstraints := b.initialConstraints ++ requestConstraints (requestsOf rebases) } := by
  unfold addRebases requestConstraints
  change (requestsOf rebases).foldlM _ _ = _
  generalize requestsOf rebases = l
  induction l generalizing b with
  | nil => simp [pure, Except.pure]
  | cons x l ih =>
    rw [List.foldlM_cons]
    have : b.moveSubtree x.1 [x.2] =
      .ok { b with initialConstraints := b.initialConstraints ++ [.moveSubtree [x.2] x.1] } := rfl
    rw [this]
    simp only [bind, Except.bind]
    rw [ih]
    simp

theorem rewrittenTo_congr {es es' : List Event} (h : ∀ o, lastEffect o es = lastEffect o es') (o : Oid)
    (m : MaybeZero) : RewrittenTo es o m ↔ RewrittenTo es' o m := by
  unfold RewrittenTo
  rw [h]

theorem newest_congr {es es' : List Event} (h : ∀ o, lastEffect o es = lastEffect o es') {o : Oid}
    {m : MaybeZero} (hn : Newest es o m) : Newest es' o m := by
  induction hn with
  | dropped h1 => exact .dropped ((rewrittenTo_congr h _ _).1 h1)
  | last h1 h2 => exact .last ((rewrittenTo_congr h _ _).1 h1) fun m hm => h2 m ((rewrittenTo_congr h _ _).2 hm)
  | step h1 _ ih => exact .step ((rewrittenTo_congr h _ _).1 h1) ih

theorem findRewriteTarget_now (main : Text) (es : List Event) (o : Oid) :
    let r := Replayer.fromEvents main es
    (∀ m, findRewriteTarget r r.makeDefaultCursor o = some m ↔ Newest es o m) ∧
    (findRewriteTarget r r.makeDefaultCursor o = none ↔ ∀ m, ¬ RewrittenTo es o m) := by
  intro r
  have hc : ∀ o, lastEffect o r.events = lastEffect o es := lastEffect_events main es
  have h1 := fun m => find_rewrite_target_exact main es r.events.length o m
  have h2 := find_rewrite_target_none main es r.events.length o
  have hb : before main es r.events.length = r.events := before_now main es
  rw [hb] at h2
  have h1 : ∀ m, _ := fun m => hb ▸ h1 m
  rw [defaultCursor_eq]
  refine ⟨fun m => (h1 m).trans ⟨newest_congr hc, newest_congr fun o => (hc o).symm⟩, h2.trans ?_⟩
  exact forall_congr' fun m => not_congr (rewrittenTo_congr hc _ _)

theorem mem_filterVisible_opened {graph : CommitGraph Oid} (hg : WFGraph graph) {main : Text} {w : RepoWorld}
    (hw : AMap.WF w.git.refs) {es : List Event} (he : w.db.getEvents = some es) {r : Replayer} {d : Dag}
    (h : openRepoDag graph main w = some (r, d)) (s : List Oid) (o : Oid) :
    o ∈ d.filterVisibleCommits s ↔ o ∈ s ∧ Seen graph main w.git es o := by
  obtain ⟨refs, h1, rfl, rfl⟩ := openRepoDag_some he h
  rw [filter_visible_exact graph hg]
  exact and_congr_right fun _ => seen_iff hg hw h1 es o

theorem mem_obsolete_opened {graph : CommitGraph Oid} {main : Text} {w : RepoWorld}
    {es : List Event} (he : w.db.getEvents = some es) {r : Replayer} {d : Dag}
    (h : openRepoDag graph main w = some (r, d)) (o : Oid) :
    o ∈ d.obsoleteCommits ↔ statusIn es o = some false := by
  obtain ⟨refs, h1, rfl, rfl⟩ := openRepoDag_some he h
  exact mem_obsolete_now graph main es refs o

theorem graph_opened {graph : CommitGraph Oid} {main : Text} {w : RepoWorld}
    {es : List Event} (he : w.db.getEvents = some es) {r : Replayer} {d : Dag}
    (h : openRepoDag graph main w = some (r, d)) : d.graph = graph ∧ r = Replayer.fromEvents main es := by
  obtain ⟨refs, h1, rfl, rfl⟩ := openRepoDag_some he h
  exact ⟨rfl, rfl⟩

theorem abandonedDest_iff {main : Text} {es : List Event} {o dest : Oid} :
    let r := Replayer.fromEvents main es
    abandonedDest r r.makeDefaultCursor o = some dest ↔
      Newest es o (.nonZero dest) ∨ (Newest es o .zero ∧ dest = o) := by
  intro r
  obtain ⟨h1, -⟩ := findRewriteTarget_now main es o
  rw [← h1, ← h1]
  unfold abandonedDest
  split
  · rename_i h; rw [h]; simp
  · rename_i h; rw [h]; simp [eq_comm]
  · rename_i h; rw [h]; simp

/-- The requests are exactly those which should be made. -/
theorem mem_requests {graph : CommitGraph Oid} (hg : WFGraph graph) {main : Text} {w : RepoWorld}
    (hw : AMap.WF w.git.refs) {es : List Event} (he : w.db.getEvents = some es) {r : Replayer} {d : Dag}
    (h : openRepoDag graph main w = some (r, d)) {env : RestackEnv} (htv : ∀ l x, x ∈ env.toVec l ↔ x ∈ l)
    (commits : Option (List Oid)) (child dest : Oid) :
    (child, dest) ∈ requestsOf (restackRebases env d r commits) ↔
      Restacked graph main w.git es commits child dest := by
  obtain ⟨hgr, hr⟩ := graph_opened he h
  have hvis := mem_filterVisible_opened hg hw he h
  have hobs := mem_obsolete_opened he h
  unfold requestsOf restackRebases Restacked
  simp only [List.mem_flatMap, List.mem_filterMap, List.mem_map, Prod.mk.injEq]
  constructor
  · rintro ⟨⟨dst, cs⟩, ⟨o, ho, hf⟩, c, hc, rfl, rfl⟩
    unfold findAbandonedChildren at hf
    split at hf
    · simp at hf
    · rename_i dst' hd
      simp only [Option.some.injEq, Prod.mk.injEq] at hf
      obtain ⟨rfl, rfl⟩ := hf
      subst hr
      have hd' := abandonedDest_iff.1 hd
      simp only [mem_diff, hvis, hobs, hgr, mem_children hg, List.mem_singleton, exists_eq_left] at hc
      refine ⟨o, fun l hl => ?_, ⟨hc.1.1, hc.1.2, hc.2, ?_⟩, hd'⟩
      · rw [htv, hl] at ho; exact ho
      · rcases hd' with hd' | hd'
        · exact newest_rewrittenTo hd'
        · exact newest_rewrittenTo hd'.1
  · rintro ⟨o, hch, ha, hn⟩
    subst hr
    refine ⟨(dest, CommitGraph.diff (d.filterVisibleCommits (d.graph.children [o])) d.obsoleteCommits),
      ⟨o, ?_, ?_⟩, child, ?_, rfl, rfl⟩
    rotate_left
    · unfold findAbandonedChildren
      rw [abandonedDest_iff.2 hn]
    · simp only [mem_diff, hvis, hobs, hgr, mem_children hg, List.mem_singleton, exists_eq_left]
      exact ⟨⟨ha.parent, ha.seen⟩, ha.current⟩
    · rw [htv]
      cases commits with
      | none =>
        obtain ⟨m, hm⟩ := ha.rewritten
        exact (hobs o).2 (rewrittenTo_hidden hm)
      | some l => exact hch l rfl

/-- C44: the planner is asked to move exactly the abandoned children of the chosen commits, each onto
the newest version of its parent; but the children of a dropped commit onto their own parent. -/
theorem restack_schedule_exact (graph : CommitGraph Oid) (hg : WFGraph graph) (main : Text) (w : RepoWorld)
    (hw : AMap.WF w.git.refs) (es : List Event) (he : w.db.getEvents = some es) (r : Replayer) (d : Dag)
    (h : openRepoDag graph main w = some (r, d)) (env : RestackEnv) (htv : ∀ l x, x ∈ env.toVec l ↔ x ∈ l)
    (commits : Option (List Oid)) (b : RebasePlanBuilder)
    (hb : restackBuilder env d r commits = .ok (.ok b)) (c : Constraint) :
    c ∈ b.initialConstraints ↔
      ∃ child dest, c = .moveSubtree [dest] child ∧ Restacked graph main w.git es commits child dest := by
  unfold restackBuilder at hb
  simp only at hb
  split at hb
  · simp at hb
  · rw [addRebases_ok] at hb
    simp only [Except.map, Except.ok.injEq] at hb
    subst hb
    simp only [List.nil_append, requestConstraints, List.mem_map, Prod.exists, mem_requests hg hw he h htv]
    constructor
    · rintro ⟨a, b, h1, rfl⟩; exact ⟨a, b, rfl, h1⟩
    · rintro ⟨a, b, rfl, h1⟩; exact ⟨a, b, h1, rfl⟩

/-- C44: it is refused exactly if a public commit would have to be rewritten, and this was not forced. -/
theorem restack_refused_iff (graph : CommitGraph Oid) (hg : WFGraph graph) (main : Text) (w : RepoWorld)
    (hw : AMap.WF w.git.refs) (es : List Event) (he : w.db.getEvents = some es) (r : Replayer) (d : Dag)
    (h : openRepoDag graph main w = some (r, d)) (env : RestackEnv) (htv : ∀ l x, x ∈ env.toVec l ↔ x ∈ l)
    (commits : Option (List Oid)) :
    (∃ e, restackBuilder env d r commits = .ok (.error e)) ↔
      env.forceRewritePublicCommits = false ∧
      ∃ child dest, Restacked graph main w.git es commits child dest ∧
        ∃ c m, w.git.refs.get? main = some m ∧ c ∈ graph.nodes ∧ Anc graph child c ∧ Anc graph c m := by
  obtain ⟨hgr, hr⟩ := graph_opened he h
  have hmain : ∀ m, m ∈ d.mainBranchCommit ↔ w.git.refs.get? main = some m := by
    intro m
    obtain ⟨refs, h1, rfl, rfl⟩ := openRepoDag_some he h
    rw [← (snapshot_anchor hw h1 m).2.1]
    simp [Dag.openWithoutSyncing, eq_comm]
  have hv := verify_rewrite_set_iff d (hgr ▸ hg) env.forceRewritePublicCommits
    env.detectDuplicateCommitsViaPatchId ((restackRebases env d r commits).flatMap Prod.snd)
  have hb : (∃ e, restackBuilder env d r commits = .ok (.error e)) ↔
      ¬ ∃ p, verifyRewriteSet d env.forceRewritePublicCommits env.detectDuplicateCommitsViaPatchId
        ((restackRebases env d r commits).flatMap Prod.snd) = .ok p := by
    unfold restackBuilder
    simp only
    split
    · rename_i e he'
      simp [he']
    · rename_i p hp
      rw [addRebases_ok]
      simp [hp, Except.map]
  rw [hb, hv, not_or, Bool.not_eq_true]
  refine and_congr_right fun _ => ?_
  push Not
  have hmem : ∀ s, s ∈ (restackRebases env d r commits).flatMap Prod.snd ↔
      ∃ dest, Restacked graph main w.git es commits s dest := by
    intro s
    simp only [← mem_requests hg hw he h htv, requestsOf, List.mem_flatMap, List.mem_map, Prod.mk.injEq]
    constructor
    · rintro ⟨x, hx, hs⟩; exact ⟨x.1, x, hx, s, hs, rfl, rfl⟩
    · rintro ⟨dest, x, hx, c, hc, rfl, rfl⟩; exact ⟨x, hx, hc⟩
  simp only [hmem, hgr, Public, hmain]
  constructor
  · rintro ⟨s, ⟨dest, hs⟩, c, hc, ha, m, hm, hcm⟩
    exact ⟨s, dest, hs, c, m, hm, hc, ha, hcm⟩
  · rintro ⟨s, dest, hs, c, m, hm, hc, ha, hcm⟩
    exact ⟨s, ⟨dest, hs⟩, c, hc, ha, m, hm, hcm⟩

/-! ### what becomes of the abandoned commits -/

theorem lastRequest_iff {rs : List (Oid × Oid)} {c : Oid}
    (hu : ∀ p q, (c, p) ∈ rs → (c, q) ∈ rs → p = q) (p : Oid) : LastRequest rs c p ↔ (c, p) ∈ rs := by
  constructor
  · rintro ⟨pre, post, rfl, _⟩; simp
  · intro h
    induction rs with
    | nil => simp at h
    | cons x rs ih =>
      by_cases hc : c ∈ rs.map Prod.fst
      · obtain ⟨⟨c', q⟩, hq, rfl⟩ := List.mem_map.1 hc
        have : p = q := hu _ _ h (List.mem_cons_of_mem _ hq)
        subst this
        obtain ⟨pre, post, h1, h2⟩ :=
          ih (fun a b ha hb => hu a b (List.mem_cons_of_mem _ ha) (List.mem_cons_of_mem _ hb)) hq
        exact ⟨x :: pre, post, by rw [h1]; rfl, h2⟩
      · rcases List.mem_cons.1 h with rfl | h
        · exact ⟨[], rs, rfl, hc⟩
        · exact absurd (List.mem_map.2 ⟨_, h, rfl⟩) hc

theorem newest_unique {es : List Event} {o : Oid} {m m' : MaybeZero} (h : Newest es o m)
    (h' : Newest es o m') : m = m' := by
  obtain ⟨h1, _⟩ := findRewriteTarget_now [] es o
  have a := (h1 m).2 h
  have b := (h1 m').2 h'
  rw [a] at b
  simpa using b

theorem restacked_unique {graph : CommitGraph Oid} (hg : WFGraph graph) {main : Text} {git : GitState}
    {es : List Event} {commits : Option (List Oid)} {c p q : Oid} (hm : (graph.parentsOf c).length ≤ 1)
    (h : Restacked graph main git es commits c p) (h' : Restacked graph main git es commits c q) : p = q := by
  obtain ⟨o, _, ha, hn⟩ := h
  obtain ⟨o', _, ha', hn'⟩ := h'
  have hoo : o = o' := by
    have h1 := (mem_parentsOf hg).2 ha.parent
    have h2 := (mem_parentsOf hg).2 ha'.parent
    match hps : graph.parentsOf c with
    | [] => rw [hps] at h1; simp at h1
    | [x] => rw [hps] at h1 h2; simp at h1 h2; rw [h1, h2]
    | _ :: _ :: _ => rw [hps] at hm; simp at hm
  subst hoo
  rcases hn with hn | ⟨hn, rfl⟩ <;> rcases hn' with hn' | ⟨hn', rfl⟩
  · simpa using newest_unique hn hn'
  · simpa using newest_unique hn hn'
  · simpa using newest_unique hn hn'
  · rfl

theorem shouldMove_restack {graph : CommitGraph Oid} (hg : WFGraph graph) {main : Text} {w : RepoWorld}
    (hw : AMap.WF w.git.refs) {es : List Event} (he : w.db.getEvents = some es) {r : Replayer} {d : Dag}
    (h : openRepoDag graph main w = some (r, d)) {env : RestackEnv} (htv : ∀ l x, x ∈ env.toVec l ↔ x ∈ l)
    {commits : Option (List Oid)}
    (hm : ∀ c dest, Restacked graph main w.git es commits c dest → (graph.parentsOf c).length ≤ 1) :
    ShouldMove d (requestsOf (restackRebases env d r commits)) =
      RestackMoves graph main w.git es commits := by
  have hmem := mem_requests hg hw he h htv commits
  obtain ⟨hgr, -⟩ := graph_opened he h
  have hvis : ∀ o, o ∈ d.visibleCommits ↔ Seen graph main w.git es o := by
    intro o
    obtain ⟨refs, h1, rfl, rfl⟩ := openRepoDag_some he h
    exact seen_iff hg hw h1 es o
  funext p c
  apply propext
  unfold ShouldMove RestackMoves
  have hfst : ∀ x, x ∈ (requestsOf (restackRebases env d r commits)).map Prod.fst ↔
      ∃ dest, Restacked graph main w.git es commits x dest := by
    intro x
    simp only [List.mem_map, Prod.exists, hmem]
    constructor
    · rintro ⟨a, b, hab, rfl⟩; exact ⟨b, hab⟩
    · rintro ⟨b, hb⟩; exact ⟨x, b, hb, rfl⟩
  refine or_congr ?_ (and_congr (not_congr (hfst c)) ?_)
  · rw [lastRequest_iff, hmem]
    intro p q hp hq
    rw [hmem] at hp hq
    exact restacked_unique hg (hm _ _ hp) hp hq
  · rw [hgr]
    constructor
    · rintro ⟨⟨s, hs, hsc⟩, ⟨x, hx, hcx⟩, hp⟩
      obtain ⟨dest, hd⟩ := (hfst s).1 hs
      refine ⟨⟨s, dest, hd, hsc⟩, (hvis c).1 ?_, hp⟩
      unfold Dag.visibleCommits
      rw [hgr, mem_ancestors hg]
      obtain ⟨ps, hps, _⟩ := hp
      exact ⟨List.mem_map.2 ⟨_, hps, rfl⟩, x, hx, hcx⟩
    · rintro ⟨⟨s, dest, hd, hsc⟩, hv, hp⟩
      refine ⟨⟨s, (hfst s).2 ⟨dest, hd⟩, hsc⟩, ?_, hp⟩
      rw [← hvis] at hv
      unfold Dag.visibleCommits at hv
      rw [hgr, mem_ancestors hg] at hv
      exact hv.2

/-- C44: if no abandoned child is a merge commit, a rebase in memory puts every abandoned child, and each
of its visible descendants, where it belongs: on the newest version of its parent, or on what the
restacking makes of that (see `Lands`). The new commit has that one parent, the result of the
cherry-pick as its tree, and message and people of the original; it is dropped if nothing is left of it
(or if the plan says to skip it). No other commit is rewritten.

Missing: merge commits (`merge_child_stays`), and children of dropped commits
(`dropped_parent_never_settles`), whose "newest version" is the dropped commit itself here. -/
theorem restack_in_memory_partial (graph : CommitGraph Oid) (hg : WFGraph graph) (main : Text)
    (w : RepoWorld) (hw : AMap.WF w.git.refs) (es : List Event) (he : w.db.getEvents = some es)
    (r : Replayer) (d : Dag) (h : openRepoDag graph main w = some (r, d)) (env : RestackEnv)
    (htv : ∀ l x, x ∈ env.toVec l ↔ x ∈ l) (commits : Option (List Oid))
    (hm : ∀ c dest, Restacked graph main w.git es commits c dest → (graph.parentsOf c).length ≤ 1)
    (plan : RebasePlan) (hp : restackPlan env d r commits = .ok (.ok (some plan)))
    (hn : NoCollisions env.exec) (head : Option Oid) (s : ExecState) (newHead : Option Oid)
    (hx : env.exec.rebaseInMemory head plan = .ok (s, newHead)) :
    let Moves := RestackMoves graph main w.git es commits
    (∀ p c, Moves p c → ∃ q, Lands Moves s.rewritten p q ∧
      ((.skipUpstreamAppliedCommit c ∈ plan.commands ∧ AMap.get? s.rewritten c = some .zero) ∨
        ∃ tree base orig, env.exec.cherryPickFast c q = .ok tree ∧
          env.exec.find s.created q = some base ∧ env.exec.find s.created c = some orig ∧
          if tree = base.tree then AMap.get? s.rewritten c = some .zero
          else ∃ n, AMap.get? s.rewritten c = some (.nonZero n) ∧
            env.exec.find s.created n = some ⟨[q], tree, orig.message, orig.author, orig.committer,
              env.exec.newTime orig.time⟩)) ∧
    (∀ c, (¬ ∃ p, Moves p c) → AMap.get? s.rewritten c = none) ∧
    (∀ x, head = some x → ∃ q, newHead = some q ∧ Lands Moves s.rewritten x q) := by
  intro Moves
  obtain ⟨hgr, -⟩ := graph_opened he h
  unfold restackPlan at hp
  cases hb : restackBuilder env d r commits with
  | error e => rw [hb] at hp; simp at hp
  | ok b =>
    cases b with
    | error e => rw [hb] at hp; simp at hp
    | ok b =>
      rw [hb] at hp
      simp only at hp
      unfold restackBuilder at hb
      simp only at hb
      split at hb
      · simp at hb
      · rw [addRebases_ok] at hb
        simp only [Except.map, Except.ok.injEq, List.nil_append] at hb
        subst hb
        have := subtree_rebase_in_memory _ (by exact hgr ▸ hg)
          (requestsOf (restackRebases env d r commits)) rfl ?_ rfl plan hp env.exec hn head s newHead hx
        · simp only [RestackEnv.planEnv] at this
          rw [shouldMove_restack hg hw he h htv hm] at this
          exact this
        · rintro ⟨c, dest⟩ hc
          rw [mem_requests hg hw he h htv] at hc
          unfold IsMerge
          simp only [PlanEnv.parentOids, RestackEnv.planEnv, hgr]
          exact Nat.not_lt.2 (hm _ _ hc)

/-! ### branches -/

theorem get?_rewrittenBranchTargets (r : Replayer) (refs : Refs) (name : Text) (o : Oid)
    (hb : IsBranch name) (hn : refs.get? name = some o) :
    AMap.get? (rewrittenBranchTargets r refs) o = findRewriteTarget r r.makeDefaultCursor o := by
  have hloc : ∃ b ∈ localBranches refs, b.2 = o :=
    ⟨(name, o), List.mem_filter.2 ⟨AMap.mem_of_get? hn, isBranch_iff.2 hb⟩, rfl⟩
  unfold rewrittenBranchTargets
  suffices ∀ l : Refs, ∀ m : AMap Oid MaybeZero,
      AMap.get? (l.foldl (fun m b => match findRewriteTarget r r.makeDefaultCursor b.2 with
        | some new => AMap.insert m b.2 new
        | none => m) m) o =
      if ∃ b ∈ l, b.2 = o then (findRewriteTarget r r.makeDefaultCursor o).or (AMap.get? m o)
      else AMap.get? m o by
    have := this (localBranches refs) []
    rw [if_pos hloc, AMap.get?_nil, Option.or_none] at this
    exact this
  intro l
  induction l with
  | nil => intro m; simp
  | cons b l ih =>
    intro m
    rw [List.foldl_cons, ih]
    by_cases h1 : ∃ b ∈ l, b.2 = o
    · have h2 : ∃ b' ∈ b :: l, b'.2 = o := by
        obtain ⟨x, hx, hxo⟩ := h1; exact ⟨x, List.mem_cons_of_mem _ hx, hxo⟩
      rw [if_pos h1, if_pos h2]
      split
      · rename_i new hnew
        rw [AMap.get?_insert]
        split
        · rename_i hbo; subst hbo; rw [hnew]; rfl
        · rfl
      · rfl
    · rw [if_neg h1]
      by_cases hbo : b.2 = o
      · have h2 : ∃ b' ∈ b :: l, b'.2 = o := ⟨b, List.mem_cons_self, hbo⟩
        rw [if_pos h2]
        subst hbo
        split
        · rename_i new hnew
          rw [AMap.get?_insert, hnew]; simp
        · rename_i hnew
          rw [hnew]; simp
      · have h2 : ¬ ∃ b' ∈ b :: l, b'.2 = o := by
          rintro ⟨x, hx, hxo⟩
          rcases List.mem_cons.1 hx with rfl | hx
          · exact hbo hxo
          · exact h1 ⟨x, hx, hxo⟩
        rw [if_neg h2]
        split
        · rw [AMap.get?_insert]; simp [Ne.symm hbo, hbo]
        · rfl

/-- C44: if restacking the branches succeeds, every local branch is at the newest version of its commit;
it is deleted if that was dropped (the main branch goes to its upstream if it has one). All other
references, and branches at commits which were not rewritten, are as before. -/
theorem restack_branches_exact (env : FinishEnv) (w w' : RepoWorld) (hw : AMap.WF w.git.refs)
    (hs : (env.move.shuffle (branchOids w.git.refs)).Perm (branchOids w.git.refs)) (es : List Event)
    (he : w.db.getEvents = some es) (h : restackBranches env w = (w', true)) (name : Text) :
    (∀ o, IsBranch name → w.git.refs.get? name = some o →
      ((∀ m, ¬ RewrittenTo es o m) → w'.git.refs.get? name = some o) ∧
      (∀ n, Newest es o (.nonZero n) → w'.git.refs.get? name = some n) ∧
      (Newest es o .zero → w'.git.refs.get? name =
        if name = env.move.mainBranch then upstreamOf env.move else none)) ∧
    (w.git.refs.get? name = none → w'.git.refs.get? name = none) ∧
    (¬ IsBranch name → w'.git.refs.get? name = w.git.refs.get? name) := by
  unfold restackBranches at h
  rw [he] at h
  cases hmn : w.git.refs.get? env.move.mainBranch with
  | none => rw [hmn] at h; simp at h
  | some mo =>
    rw [hmn] at h
    simp only at h
    have hfind := findRewriteTarget_now env.move.mainBranch es
    have hget := get?_rewrittenBranchTargets (Replayer.fromEvents env.move.mainBranch es) w.git.refs
    generalize Replayer.fromEvents env.move.mainBranch es = r at h hfind hget
    simp only at hfind
    split at h
    · rename_i hemp
      simp only [Prod.mk.injEq, and_true] at h
      subst h
      refine ⟨fun o hb ho => ?_, fun h => h, fun _ => rfl⟩
      have := hget name o hb ho
      rw [List.isEmpty_iff] at hemp
      rw [hemp, AMap.get?_nil] at this
      refine ⟨fun _ => ho, fun n hn => ?_, fun hn => ?_⟩
      all_goals
        have := ((hfind o).1 _).2 hn
        simp_all
    · simp only [Prod.mk.injEq] at h
      obtain ⟨rfl, hok⟩ := h
      obtain ⟨h1, h2⟩ := branches_follow env.move w.git.refs _ hw hs hok name
      refine ⟨fun o hb ho => ?_, fun hn => ?_, h2⟩
      · have hg := hget name o hb ho
        simp only [h1 hb, ho, Option.bind_some, BranchAfter, hg]
        refine ⟨fun hn => ?_, fun n hn => ?_, fun hn => ?_⟩
        · rw [(hfind o).2.2 hn]
        · rw [((hfind o).1 _).2 hn]
        · rw [((hfind o).1 _).2 hn]
      · by_cases hb : IsBranch name
        · rw [h1 hb, hn]; rfl
        · rw [h2 hb, hn]

/-! ### examples -/

/-- The main branch is at `0`. Commits are looked at in the given order. -/
def exRestack (commits : List (Oid × CommitData)) (new : List (CommitData × Oid))
    (picks : List ((Oid × Oid) × Nat)) : RestackEnv :=
  ⟨id, fun c => c.val, fun c => c.val, id, false, false, exExec commits new picks [],
    fun _ => exFinish fun _ => false, ⟨none, false, false, fun w => (w, 0)⟩, ⟨false, false, false⟩⟩

/-- A repository with these events, whose branch `b` is at the given commit. -/
def exRestackWorld (es : List Event) (b : Oid) : RepoWorld :=
  { exWorld [(t!"refs/heads/main", oidN 0), (t!"refs/heads/b", b)] (.symbolic t!"refs/heads/main") with
    db := ({} : Db).addEvents es }

/-- `1` was amended and is `3` now; its child `2` and the grandchild `4` were left behind. -/
def exAmended : List Event :=
  [.commit 1 (.id 1) (oidN 1), .commit 2 (.id 2) (oidN 2), .commit 3 (.id 3) (oidN 4),
    .rewrite 4 (.id 4) (.nonZero (oidN 1)) (.nonZero (oidN 3))]

def exAmendedGraph : CommitGraph Oid :=
  ⟨[(oidN 4, [oidN 2]), (oidN 3, [oidN 0]), (oidN 2, [oidN 1]), (oidN 1, [oidN 0]), (oidN 0, [])]⟩

def exAmendedEnv : RestackEnv :=
  exRestack [(oidN 0, exCommit [] 10 0), (oidN 1, exCommit [oidN 0] 11 1), (oidN 2, exCommit [oidN 1] 12 2),
      (oidN 3, exCommit [oidN 0] 13 3), (oidN 4, exCommit [oidN 2] 14 4)]
    [(exNew [oidN 3] 22 2, oidN 8), (exNew [oidN 8] 24 4, oidN 9)]
    [((oidN 2, oidN 3), 22), ((oidN 4, oidN 8), 24)]

/-- Non-vacuity: `2` is an abandoned child, and its request is the only one. -/
example :
    let w := exRestackWorld exAmended (oidN 1)
    Restacked exAmendedGraph t!"refs/heads/main" w.git exAmended none (oidN 2) (oidN 3) ∧
    ∃ r d b, openRepoDag exAmendedGraph t!"refs/heads/main" w = some (r, d) ∧
      restackBuilder exAmendedEnv d r none = .ok (.ok b) ∧
      b.initialConstraints = [.moveSubtree [oidN 3] (oidN 2)] := by
  refine ⟨⟨oidN 1, by simp [Chosen], ⟨⟨[oidN 1], by decide, by decide⟩, ⟨by decide, oidN 2, .refl,
    .inr (.inr (.inr ?_))⟩, ?_, .nonZero (oidN 3), 4, .id 4, ?_, ?_⟩, .inl (.last ⟨4, .id 4, ?_, ?_⟩ ?_)⟩,
    _, _, _, rfl, rfl, ?_⟩
  · decide +kernel
  · decide +kernel
  · decide +kernel
  · decide +kernel
  · decide +kernel
  · decide +kernel
  · rintro m ⟨ts, tx, h, _⟩
    have : (lastEffect (oidN 3) exAmended).map Prod.fst =
        some (.rewrite 4 (.id 4) (.nonZero (oidN 1)) (.nonZero (oidN 3))) := by decide +kernel
    rw [this] at h
    simp only [Option.some.injEq, Event.rewrite.injEq, MaybeZero.nonZero.injEq] at h
    exact absurd h.2.2.1 (by decide)
  · decide +kernel

example : NoCollisions exAmendedEnv.exec := by
  refine exExec_noCollisions (commits := [(oidN 0, exCommit [] 10 0), (oidN 1, exCommit [oidN 0] 11 1),
    (oidN 2, exCommit [oidN 1] 12 2), (oidN 3, exCommit [oidN 0] 13 3), (oidN 4, exCommit [oidN 2] 14 4)])
    (new := [(exNew [oidN 3] 22 2, oidN 8), (exNew [oidN 8] 24 4, oidN 9)])
    (picks := [((oidN 2, oidN 3), 22), ((oidN 4, oidN 8), 24)]) (amends := []) ?_ ?_
  · decide +kernel
  · decide +kernel

/-- Non-vacuity: the whole command. The commits `2` and `4` become `8` and `9`, on top of `3`, and the
branch, which was left at `1`, goes to `3`. -/
example : ∃ w' es', restack exAmendedEnv (exFinish fun _ => false) exAmendedGraph none
      (exRestackWorld exAmended (oidN 1)) [] = (w', .done) ∧ w'.db.getEvents = some es' ∧
    findRewriteTarget (Replayer.fromEvents t!"refs/heads/main" es') ⟨es'.length⟩ (oidN 2) =
      some (.nonZero (oidN 8)) ∧
    findRewriteTarget (Replayer.fromEvents t!"refs/heads/main" es') ⟨es'.length⟩ (oidN 4) =
      some (.nonZero (oidN 9)) ∧
    w'.git.refs.get? t!"refs/heads/b" = some (oidN 3) := by
  refine ⟨_, _, rfl, rfl, ?_⟩
  decide +kernel

/-- C44 fails: the children of a dropped commit. `1` was dropped (recorded as rewritten to nothing); its
child `2` is "moved" onto `1`, where it is already: it gets a new version `8` with the parent `1`. It is
still abandoned, and the next `git restack` does the same again. -/
theorem dropped_parent_never_settles :
    let es : List Event := [.commit 1 (.id 1) (oidN 1), .commit 2 (.id 2) (oidN 2),
      .rewrite 3 (.id 3) (.nonZero (oidN 1)) .zero]
    let graph : CommitGraph Oid := ⟨[(oidN 2, [oidN 1]), (oidN 1, [oidN 0]), (oidN 0, [])]⟩
    let graph' : CommitGraph Oid :=
      ⟨[(oidN 8, [oidN 1]), (oidN 2, [oidN 1]), (oidN 1, [oidN 0]), (oidN 0, [])]⟩
    let commits := [(oidN 0, exCommit [] 10 0), (oidN 1, exCommit [oidN 0] 11 1),
      (oidN 2, exCommit [oidN 1] 12 2)]
    let env := exRestack commits [(exNew [oidN 1] 12 2, oidN 8)] [((oidN 2, oidN 1), 12)]
    let env' := exRestack (commits ++ [(oidN 8, exNew [oidN 1] 12 2)])
      [(⟨[oidN 1], 12, some (natToText 2), 1, 2, 100⟩, oidN 9)] [((oidN 8, oidN 1), 12)]
    ∃ w1 es1 w2 es2,
      restack env (exFinish fun _ => false) graph none (exRestackWorld es (oidN 0)) [] = (w1, .done) ∧
      w1.db.getEvents = some es1 ∧
      Event.rewrite 50 (.id 7) (.nonZero (oidN 2)) (.nonZero (oidN 8)) ∈ es1 ∧
      restack env' (exFinish fun _ => false) graph' none w1 [] = (w2, .done) ∧
      w2.db.getEvents = some es2 ∧
      Event.rewrite 50 (.id 7) (.nonZero (oidN 8)) (.nonZero (oidN 9)) ∈ es2 := by
  refine ⟨_, _, _, _, rfl, rfl, ?_, rfl, rfl, ?_⟩
  · decide +kernel
  · decide +kernel

/-- C44 fails for merge commits: `3` is a merge of `1` and `2`, and `1` was amended to `4`. The request is
to move `3` onto `4`, but the plan merges the old `1` and `2` again. -/
theorem merge_child_stays :
    let es : List Event := [.commit 1 (.id 1) (oidN 1), .commit 2 (.id 2) (oidN 2), .commit 3 (.id 3) (oidN 3),
      .rewrite 4 (.id 4) (.nonZero (oidN 1)) (.nonZero (oidN 4))]
    let graph : CommitGraph Oid :=
      ⟨[(oidN 4, [oidN 0]), (oidN 3, [oidN 1, oidN 2]), (oidN 2, [oidN 0]), (oidN 1, [oidN 0]), (oidN 0, [])]⟩
    let env := exRestack [] [] []
    ∃ r d b plan, openRepoDag graph t!"refs/heads/main" (exRestackWorld es (oidN 0)) = some (r, d) ∧
      restackBuilder env d r none = .ok (.ok b) ∧
      b.initialConstraints = [.moveSubtree [oidN 4] (oidN 3)] ∧
      restackPlan env d r none = .ok (.ok (some plan)) ∧
      plan.commands = [.reset (.oid (oidN 4)), .reset (.oid (oidN 1)), .merge (oidN 3) [.oid (oidN 2)],
        .registerExtraPostRewriteHook] := by
  refine ⟨_, _, _, ⟨oidN 4, _⟩, rfl, rfl, ?_, ?_, rfl⟩
  · decide +kernel
  · decide +kernel

/-- C44, observation: branches are restacked even if they have nothing to do with the commits which were
given. Only `2` is given, which has no children. -/
theorem branches_not_limited :
    ∃ w', restack exAmendedEnv (exFinish fun _ => false) exAmendedGraph none
      (exRestackWorld exAmended (oidN 1)) [[oidN 2]] = (w', .done) ∧
    w'.git.refs.get? t!"refs/heads/b" = some (oidN 3) := by
  refine ⟨_, rfl, ?_⟩
  decide +kernel

end Verif.Props
