import Verif.Lemmas.Move

/-! C61: `move` with `--source` and `--base`. -/

namespace Verif.Props

open Verif Verif.Spec Verif.RebasePlanBuilder

/-! ### the base of a branch -/

/-- C61: `--base` finds the first commit of a branch which leads to the given commit and starts where the
history of the destination was left. -/
theorem base_exact (env : MoveCmdEnv) (hc : SetContract env) (d : Dag) (hg : WFGraph d.graph) (x dest : Oid)
    (hx : x ∈ d.graph.nodes) :
    IsBase d.graph x dest (resolveBaseCommit env d (d.graph.gcaOne [x, dest]) x) := by
  unfold resolveBaseCommit
  cases hm : d.graph.gcaOne [x, dest] with
  | some m =>
    simp only
    obtain ⟨m1, m2, m3, m4⟩ := gcaOne_some hg hm
    have hroots : ∀ y, y ∈ d.graph.roots (d.graph.range [m] [x]) ↔ y = m := by
      intro y
      rw [mem_roots hg]
      unfold Topmost
      simp only [mem_range hg, List.mem_singleton, exists_eq_left]
      constructor
      · rintro ⟨⟨_, h2, h3⟩, h4⟩
        rcases anc_iff.1 h2 with h | ⟨p, hp, hmp⟩
        · exact h.symm
        · exact absurd ⟨hp.parent_mem hg, hmp, (Anc.of_parent hp).trans h3⟩ (h4 p hp)
      · rintro rfl
        refine ⟨⟨m1, .refl, m2⟩, ?_⟩
        rintro p hp ⟨_, h1, _⟩
        have := h1.antisymm hg (.of_parent hp)
        subst this
        exact not_isParent_self hg hp
    have hmem : ∀ y, y ∈ CommitGraph.inter (d.graph.children (d.graph.roots (d.graph.range [m] [x])))
        (d.graph.range [m] [x]) ↔ IsParent d.graph m y ∧ Anc d.graph y x := by
      intro y
      simp only [mem_inter, mem_children hg, hroots, exists_eq_left, mem_range hg, List.mem_singleton]
      constructor
      · rintro ⟨h1, _, _, h2⟩; exact ⟨h1, h2⟩
      · rintro ⟨h1, h2⟩; exact ⟨h1, h1.child_mem, .of_parent h1, h2⟩
    by_cases hxd : Anc d.graph x dest
    · have hmx : x = m := m4 x hx .refl hxd m2
      left
      refine ⟨hxd, ?_⟩
      cases hf : env.first (CommitGraph.inter (d.graph.children (d.graph.roots (d.graph.range [m] [x])))
        (d.graph.range [m] [x])) with
      | none => rfl
      | some y =>
        obtain ⟨h1, h2⟩ := (hmem y).1 (hc.first_mem _ _ hf)
        subst hmx
        have := h2.antisymm hg (.of_parent h1)
        subst this
        exact absurd h1 (not_isParent_self hg)
    · right
      have hne : CommitGraph.inter (d.graph.children (d.graph.roots (d.graph.range [m] [x])))
          (d.graph.range [m] [x]) ≠ [] := by
        rcases anc_iff_child.1 m2 with h | ⟨y, hy, hyx⟩
        · subst h; exact absurd m3 hxd
        · exact List.ne_nil_of_mem ((hmem y).2 ⟨hy, hyx⟩)
      obtain ⟨y, hy⟩ := Option.isSome_iff_exists.1 (hc.first_some _ hne)
      rw [hy]
      obtain ⟨h1, h2⟩ := (hmem y).1 (hc.first_mem _ _ hy)
      refine ⟨hxd, h2, ?_, .inl ⟨m, ⟨m1, m2, m3, m4⟩, h1⟩⟩
      intro hyd
      have := m4 y h1.child_mem h2 hyd (.of_parent h1)
      subst this
      exact not_isParent_self hg h1
  | none =>
    simp only
    have hno := fun y hy => gcaOne_none hg hm (x := y) hy
    right
    have hne : d.graph.roots (d.graph.ancestors [x]) ≠ [] := by
      obtain ⟨r, hr, _⟩ := exists_root hg (s := d.graph.ancestors [x]) (c := x)
        ((mem_ancestors hg).2 ⟨hx, x, by simp, .refl⟩)
      exact List.ne_nil_of_mem hr
    obtain ⟨y, hy⟩ := Option.isSome_iff_exists.1 (hc.first_some _ hne)
    rw [hy]
    have hy' := (mem_roots hg).1 (hc.first_mem _ _ hy)
    unfold Topmost at hy'
    simp only [mem_ancestors hg, List.mem_singleton, exists_eq_left] at hy'
    obtain ⟨⟨h1, h2⟩, h3⟩ := hy'
    refine ⟨hno x hx .refl, h2, hno y h1 h2, .inr ⟨?_, ?_⟩⟩
    · intro p hp
      exact h3 p hp ⟨hp.parent_mem hg, (Anc.of_parent hp).trans h2⟩
    · rintro ⟨m, hma, hmd⟩
      exact hno m (hma.mem hg hx) hma hmd

/-- C61: if there are no merge commits on the branch, the base is below all of its commits, so that the
whole branch is moved with it. -/
theorem base_whole_branch (graph : CommitGraph Oid) (x dest b : Oid) (hb : IsBase graph x dest b)
    (hm : ∀ y p q, Anc graph y x → ¬ Anc graph y dest → IsParent graph p y → IsParent graph q y → p = q)
    (y : Oid) (hy : Anc graph y x) (hd : ¬ Anc graph y dest) : Anc graph b y := by
  rcases hb with ⟨h, _⟩ | ⟨_, h1, h2, h3⟩
  · exact absurd (hy.trans h) hd
  · have key : ∀ z, Anc graph b z → Anc graph z x → Anc graph y z → Anc graph b y ∨ Anc graph y b := by
      intro z hbz
      induction hbz with
      | refl => intro _ h; exact .inr h
      | @step p c hbp hpc ih =>
        intro hcx hyc
        rcases anc_iff.1 hyc with h | ⟨q, hq, hyq⟩
        · subst h; exact .inl (.step hbp hpc)
        · have hc : ¬ Anc graph c dest := fun h => h2 ((hbp.trans (.of_parent hpc)).trans h)
          have := hm c p q hcx hc hpc hq
          subst this
          exact ih ((Anc.of_parent hpc).trans hcx) hyq
    rcases key x h1 .refl hy with h | h
    · exact h
    · rcases anc_iff.1 h with h | ⟨p, hp, hyp⟩
      · subst h; exact .refl
      · exfalso
        rcases h3 with ⟨m, ⟨_, _, h4, _⟩, h5⟩ | ⟨h4, _⟩
        · have := hm b p m h1 h2 hp h5
          subst this
          exact hd (hyp.trans h4)
        · exact h4 p hp

/-! ### what is requested -/

theorem exactComponents_nil (env : MoveCmdEnv) (d : Dag) (hg : WFGraph d.graph) :
    exactComponents env d [] = .ok (.ok []) := by
  obtain ⟨comps, h1, h2, h3, h4⟩ := components_partition d.graph hg []
  unfold exactComponents
  rw [h1]
  have : comps = [] := by
    rw [List.eq_nil_iff_forall_not_mem]
    intro k hk
    obtain ⟨c, hc, _⟩ := h4 k hk
    exact absurd ((h2 c).2 ⟨k, hk, hc⟩) (by simp)
  rw [this]
  rfl

theorem toVec_singleton {env : MoveCmdEnv} (hc : SetContract env) {l : List Oid} {x : Oid} :
    env.nav.toVec l = [x] ↔ ∀ y, y ∈ l ↔ y = x := by
  constructor
  · intro h y
    rw [← hc.mem l y, h]
    simp
  · intro h
    have hmem : ∀ y, y ∈ env.nav.toVec l ↔ y = x := fun y => (hc.mem l y).trans (h y)
    have hn := hc.nodup l
    match hv : env.nav.toVec l with
    | [] => have := (hmem x).2 rfl; rw [hv] at this; simp at this
    | [y] => have := (hmem y).1 (by rw [hv]; simp); rw [this]
    | y :: z :: rest =>
      have h1 := (hmem y).1 (by rw [hv]; simp)
      have h2 := (hmem z).1 (by rw [hv]; simp)
      rw [hv, h1, h2] at hn
      simp at hn

theorem moveDest_iff {env : MoveCmdEnv} (hc : SetContract env) {args : MoveArgs} {dest : Oid} :
    moveDest env args = .ok dest ↔ IsDest args dest := by
  unfold moveDest IsDest
  cases hd : args.dest with
  | none =>
    cases hh : args.head with
    | none => simp
    | some x => simp
  | some l =>
    simp only [Option.some.injEq, exists_eq_left', reduceCtorEq, false_and, or_false]
    rw [← toVec_singleton hc]
    split
    · rename_i only ho
      rw [ho]
      simp
    · rename_i hn
      simp only [reduceCtorEq, false_iff]
      intro h
      exact hn _ h

theorem moveBases_ok {env : MoveCmdEnv} (hc : SetContract env) {d : Dag} {args : MoveArgs} {dest : Oid}
    {bs : List Oid} (h : moveBases env d args dest = .ok bs) (b : Oid) :
    b ∈ bs ↔ ∃ x, IsBaseArg args x ∧ b = resolveBaseCommit env d (d.graph.gcaOne [x, dest]) x := by
  unfold moveBases at h
  simp only at h
  unfold IsBaseArg
  split at h
  · rename_i hp
    simp only [Except.ok.injEq] at h
    rw [← h, hp]
    simp [hc.mem, eq_comm]
  · rename_i hp
    rw [Bool.not_eq_true] at hp
    split at h
    · simp at h
    · rename_i head hh
      simp only [Except.ok.injEq] at h
      rw [← h, hp, hh]
      simp [hc.mem, eq_comm]

/-- C61: what is moved where. The destination is the one commit for which `--dest` stands, or `HEAD`.
Without `--exact`, the commits to move are the sources and a base of each commit given as such, by default
of `HEAD`. -/
theorem move_inputs_exact (env : MoveCmdEnv) (hc : SetContract env) (d : Dag) (hg : WFGraph d.graph)
    (args : MoveArgs) (hex : args.exacts = []) (hbase : ∀ x, IsBaseArg args x → x ∈ d.graph.nodes)
    (sources : List Oid) (components : AMap Oid (List Oid)) (dest : Oid)
    (h : moveInputs env d args = .ok (.ok (sources, components, dest))) :
    components = [] ∧ IsDest args dest ∧
    ∃ base : Oid → Oid, (∀ x, IsBaseArg args x → IsBase d.graph x dest (base x)) ∧
      ∀ s, s ∈ sources ↔ s ∈ args.sources ∨ ∃ x, IsBaseArg args x ∧ s = base x := by
  unfold moveInputs at h
  rw [hex, exactComponents_nil env d hg] at h
  simp only at h
  cases hd : moveDest env args with
  | error e => rw [hd] at h; simp at h
  | ok dest' =>
    rw [hd] at h
    simp only at h
    cases hb : moveBases env d args dest' with
    | error e => rw [hb] at h; simp at h
    | ok bs =>
      rw [hb] at h
      simp only [Except.ok.injEq, Prod.mk.injEq] at h
      obtain ⟨rfl, rfl, rfl⟩ := h
      refine ⟨rfl, (moveDest_iff hc).1 hd,
        fun x => resolveBaseCommit env d (d.graph.gcaOne [x, dest']) x,
        fun x hx => base_exact env hc d hg x dest' (hbase x hx), fun s => ?_⟩
      rw [List.mem_append, moveBases_ok hc hb]

/-- The requests for the sources. -/
theorem moveRequests_sources {env : MoveCmdEnv} (hc : SetContract env) (d : Dag) (S : List Oid) (dest : Oid) :
    moveRequests env d false false S [] dest = .ok (.ok
      (((env.nav.toVec (d.graph.roots S)).map fun r => (r, dest)).map fun r => .moveSubtree [r.2] r.1)) := by
  unfold moveRequests
  simp only [AMap.keys, List.map_nil]
  rw [sortedCommitSet_nil hc]
  simp only [componentsRequests, List.append_nil, Bool.false_eq_true, if_false]
  unfold sourceRequests
  simp [← List.map_eq_flatMap, Function.comp_def]

theorem sourceRequest_mem {env : MoveCmdEnv} (hc : SetContract env) {d : Dag} (hg : WFGraph d.graph)
    {S : List Oid} {dest : Oid} (p c : Oid) :
    (c, p) ∈ (env.nav.toVec (d.graph.roots S)).map (fun r => (r, dest)) ↔
      SourceRequest d.graph (· ∈ S) dest p c := by
  simp only [List.mem_map, Prod.mk.injEq, hc.mem, mem_roots hg, SourceRequest]
  constructor
  · rintro ⟨r, h, rfl, rfl⟩; exact ⟨h, rfl⟩
  · rintro ⟨h, rfl⟩; exact ⟨c, h, rfl, rfl⟩

theorem sourceRequest_unique {g : CommitGraph Oid} {S : Oid → Prop} {dest p q c : Oid}
    (hp : SourceRequest g S dest p c) (hq : SourceRequest g S dest q c) : p = q :=
  hp.2.trans hq.2.symm

theorem topmost_below {g : CommitGraph Oid} (hg : WFGraph g) {S : List Oid} {s c : Oid} (hs : s ∈ S)
    (h : Anc g s c) : ∃ r, Topmost g (· ∈ S) r ∧ Anc g r c := by
  obtain ⟨r, hr, hrs⟩ := exists_root hg hs
  exact ⟨r, (mem_roots hg).1 hr, hrs.trans h⟩

/-- Whether the destination itself has to be moved. -/
theorem dest_moved_iff {g : CommitGraph Oid} (hg : WFGraph g) {seen : Oid → Prop} {S : List Oid} {dest c : Oid} :
    (∃ p, Carried g seen (SourceRequest g (· ∈ S) dest) p c) ↔
      (∃ s ∈ S, Anc g s c) ∧ (seen c ∨ Topmost g (· ∈ S) c) := by
  constructor
  · rintro ⟨p, ⟨ht, _⟩ | ⟨_, ⟨s, q, ⟨hs, _⟩, hsc⟩, hv, _⟩⟩
    · exact ⟨⟨c, ht.1, .refl⟩, .inr ht⟩
    · exact ⟨⟨s, hs.1, hsc⟩, .inl hv⟩
  · rintro ⟨⟨s, hs, hsc⟩, hv⟩
    by_cases ht : Topmost g (· ∈ S) c
    · exact ⟨dest, .inl ⟨ht, rfl⟩⟩
    · obtain ⟨r, hr, hrc⟩ := topmost_below hg hs hsc
      rcases anc_iff.1 hrc with h | ⟨p, hp, _⟩
      · subst h; exact absurd hr ht
      · exact ⟨p, .inr ⟨fun ⟨q, hq⟩ => ht hq.1, ⟨r, dest, ⟨hr, rfl⟩, hrc⟩, hv.resolve_right ht, hp⟩⟩

/-- There is a cycle exactly if the destination itself has to be moved. -/
theorem source_cycle_iff {g : CommitGraph Oid} (hg : WFGraph g) {seen : Oid → Prop}
    (hsp : ∀ p c, IsParent g p c → seen c → seen p) {S : List Oid} {dest : Oid} :
    (∃ c, Relation.TransGen (Carried g seen (SourceRequest g (· ∈ S) dest)) c c) ↔
      ∃ p, Carried g seen (SourceRequest g (· ∈ S) dest) p dest := by
  constructor
  · rintro ⟨c, hc⟩
    by_contra hn
    have hend : ∀ {a b}, Relation.TransGen (Carried g seen (SourceRequest g (· ∈ S) dest)) a b →
        ∃ p, Carried g seen (SourceRequest g (· ∈ S) dest) p b := by
      intro a b h
      cases h with
      | single h => exact ⟨_, h⟩
      | tail _ h => exact ⟨_, h⟩
    have hedge : ∀ {a b}, (∃ p, Carried g seen (SourceRequest g (· ∈ S) dest) p a) →
        Carried g seen (SourceRequest g (· ∈ S) dest) a b → ageOf g.entries a < ageOf g.entries b := by
      rintro a b ha (⟨_, rfl⟩ | ⟨_, _, _, hp⟩)
      · exact absurd ha hn
      · exact age_lt hg hp
    have hlt : ∀ {a b}, Relation.TransGen (Carried g seen (SourceRequest g (· ∈ S) dest)) a b →
        (∃ p, Carried g seen (SourceRequest g (· ∈ S) dest) p a) →
        ageOf g.entries a < ageOf g.entries b := by
      intro a b h ha
      induction h with
      | single h => exact hedge ha h
      | tail h1 h2 ih => exact ih.trans (hedge (hend h1) h2)
    exact Nat.lt_irrefl _ (hlt hc (hend hc))
  · rintro hd
    have key : ∀ n c, ageOf g.entries c = n →
        (∃ p, Carried g seen (SourceRequest g (· ∈ S) dest) p c) →
        Relation.TransGen (Carried g seen (SourceRequest g (· ∈ S) dest)) dest c := by
      intro n
      induction n using Nat.strongRecOn with
      | _ n ih =>
        rintro c hn hc
        by_cases ht : Topmost g (· ∈ S) c
        · exact .single (.inl ⟨ht, rfl⟩)
        · obtain ⟨⟨s, hs, hsc⟩, hv⟩ := (dest_moved_iff hg).1 hc
          have hv := hv.resolve_right ht
          obtain ⟨r, hr, hrc⟩ := topmost_below hg hs hsc
          rcases anc_iff.1 hrc with h | ⟨p, hp, hrp⟩
          · subst h; exact absurd hr ht
          · refine .tail (ih _ (hn ▸ age_lt hg hp) p rfl ?_) (.inr ⟨fun ⟨q, hq⟩ => ht hq.1,
              ⟨r, dest, ⟨hr, rfl⟩, hrc⟩, hv, hp⟩)
            exact (dest_moved_iff hg).2 ⟨⟨r, hr.1, hrp⟩, .inl (hsp p c hp hv)⟩
    exact ⟨dest, key _ dest rfl hd⟩

theorem movePlan_sources {env : MoveCmdEnv} (hc : SetContract env) (d : Dag) (S : List Oid) (dest : Oid) :
    movePlan env d false false S [] dest =
      match verifyRewriteSet d env.forceRewritePublicCommits env.detectDuplicateCommitsViaPatchId S with
      | .error e => .ok (.error (.planner e))
      | .ok permissions =>
        match (RebasePlanBuilder.mk (env.planEnv d) permissions
          (((env.nav.toVec (d.graph.roots S)).map fun r => (r, dest)).map
            fun r => .moveSubtree [r.2] r.1) []).build with
        | .error e => .error e
        | .ok (.error e) => .ok (.error (.planner e))
        | .ok (.ok plan) => .ok (.ok plan) := by
  unfold movePlan moveBuilder
  rw [moveRequests_sources hc]
  have : commitsToMove d false false S [] dest = S := by simp [commitsToMove]
  rw [this]
  cases verifyRewriteSet d env.forceRewritePublicCommits env.detectDuplicateCommitsViaPatchId S with
  | error e => rfl
  | ok p => rfl

/-- The commits of the main branch, in terms of the opened graph. -/
theorem public_opened {graph : CommitGraph Oid} {main : Text} {w : RepoWorld}
    (hw : AMap.WF w.git.refs) {es : List Event} (he : w.db.getEvents = some es) {r : Replayer} {d : Dag}
    (h : openRepoDag graph main w = some (r, d)) (o : Oid) :
    Public d o ↔ OnMain graph main w.git o := by
  obtain ⟨hgr, hr⟩ := graph_opened he h
  have hmain : ∀ m, m ∈ d.mainBranchCommit ↔ w.git.refs.get? main = some m := by
    intro m
    obtain ⟨refs, h1, rfl, rfl⟩ := openRepoDag_some he h
    rw [← (snapshot_anchor hw h1 m).2.1]
    simp [Dag.openWithoutSyncing, eq_comm]
  unfold Public OnMain
  simp only [hmain, hgr]

theorem verify_error {d : Dag} {force detect : Bool} {cs : List Oid} {e : BuildRebasePlanError}
    (h : verifyRewriteSet d force detect cs = .error e) : ∃ l, e = .movePublicCommits l := by
  unfold verifyRewriteSet at h
  simp only at h
  split at h
  · cases h; exact ⟨_, rfl⟩
  · simp at h

/-- C61: when sources are not moved, and why. If one of them or of their descendants is on the main branch,
this is refused unless forced. If the destination is one of the commits which have to be moved, this is
refused as a cycle. Otherwise there is a plan, unless there is nothing to move. -/
theorem move_sources_plan (graph : CommitGraph Oid) (hg : WFGraph graph) (main : Text) (w : RepoWorld)
    (hw : AMap.WF w.git.refs) (es : List Event) (he : w.db.getEvents = some es) (r : Replayer) (d : Dag)
    (h : openRepoDag graph main w = some (r, d)) (env : MoveCmdEnv) (hc : SetContract env) (S : List Oid)
    (hS : ∀ s ∈ S, s ∈ graph.nodes) (dest : Oid) :
    let onMain := env.forceRewritePublicCommits = false ∧
      ∃ s ∈ S, ∃ c, Anc graph s c ∧ OnMain graph main w.git c
    let cycle := (∃ s ∈ S, Anc graph s dest) ∧
      (Seen graph main w.git es dest ∨ Topmost graph (· ∈ S) dest)
    (onMain → ∃ l, movePlan env d false false S [] dest = .ok (.error (.planner (.movePublicCommits l)))) ∧
    (¬ onMain → cycle →
      ∃ l, movePlan env d false false S [] dest = .ok (.error (.planner (.constraintCycle l)))) ∧
    (¬ onMain → ¬ cycle → ∃ plan, movePlan env d false false S [] dest = .ok (.ok plan) ∧
      (plan = none ↔ S = [])) := by
  intro onMain cycle
  obtain ⟨hgr, -⟩ := graph_opened he h
  have hs : ∀ o, Seen graph main w.git es o ↔ o ∈ d.graph.nodes ∧
      ∃ x ∈ d.visibleHeads, Anc d.graph o x := by rw [hgr]; exact seen_opened hg hw he h
  have hpub := public_opened hw he h
  subst hgr
  have hv := verify_rewrite_set_iff d hg env.forceRewritePublicCommits
    env.detectDuplicateCommitsViaPatchId S
  have hsp : ∀ p c, IsParent d.graph p c → Seen d.graph main w.git es c → Seen d.graph main w.git es p := by
    intro p c hp hv
    rw [hs] at hv ⊢
    obtain ⟨_, x, hx, hcx⟩ := hv
    exact ⟨hp.parent_mem hg, x, hx, (Anc.of_parent hp).trans hcx⟩
  have hon : (¬ ∃ p, verifyRewriteSet d env.forceRewritePublicCommits
      env.detectDuplicateCommitsViaPatchId S = .ok p) ↔ onMain := by
    rw [hv, not_or, Bool.not_eq_true]
    refine and_congr_right fun _ => ?_
    push Not
    constructor
    · rintro ⟨s, h1, c, h2, h3, h4⟩; exact ⟨s, h1, c, h3, (hpub c).1 h4⟩
    · rintro ⟨s, h1, c, h3, h4⟩; exact ⟨s, h1, c, h3.mem_up (hS s h1), h3, (hpub c).2 h4⟩
  rw [movePlan_sources hc]
  cases hv' : verifyRewriteSet d env.forceRewritePublicCommits env.detectDuplicateCommitsViaPatchId S with
  | error e =>
    have hon' : onMain := hon.1 (by rw [hv']; simp)
    obtain ⟨l, rfl⟩ := verify_error hv'
    exact ⟨fun _ => ⟨l, rfl⟩, fun h => absurd hon' h, fun h => absurd hon' h⟩
  | ok perms =>
    have hon' : ¬ onMain := fun h => (hon.2 h) ⟨perms, hv'⟩
    simp only
    generalize hb : RebasePlanBuilder.mk (env.planEnv d) perms
      (((env.nav.toVec (d.graph.roots S)).map fun r => (r, dest)).map fun r => .moveSubtree [r.2] r.1) [] = b
    have henv : b.env.dag = d := by rw [← hb]; rfl
    have hall : b.permissions = perms := by rw [← hb]
    obtain ⟨k, hk, hf, hmv⟩ := constraintGraph_subtrees (b := b) (by rw [henv]; exact hg)
      (rs := (env.nav.toVec (d.graph.roots S)).map fun r => (r, dest)) (by rw [← hb]; rfl)
    rw [henv, shouldMove_carried hs (sourceRequest_mem hc hg)
      (fun p q c => sourceRequest_unique)] at hmv
    have hM : Moves k = Carried d.graph (Seen d.graph main w.git es)
      (SourceRequest d.graph (· ∈ S) dest) := by funext p c; exact propext (hmv p c)
    have hcyc : (∃ c, Relation.TransGen (Moves k) c c) ↔ cycle := by
      rw [hM, source_cycle_iff hg hsp, dest_moved_iff hg]
    refine ⟨fun h => absurd h hon', fun _ hcy => ?_, fun _ hcy => ?_⟩
    · obtain ⟨l, hl⟩ := (build_cycle_iff b k hk).2 (hcyc.2 hcy)
      rw [hl]
      exact ⟨l, rfl⟩
    · obtain ⟨plan, h1, h2⟩ := build_moves hk hf (fun c hcc => hcy (hcyc.1 ⟨c, hcc⟩)) (by
        intro p c hpc
        rw [hall, verify_rewrite_set_allows d hg _ _ _ _ hv']
        have hpc := (hmv p c).1 hpc
        obtain ⟨⟨s, hs', hsc⟩, _⟩ := (dest_moved_iff hg).1 ⟨p, hpc⟩
        exact ⟨hsc.mem_up (hS s hs'), s, hs', hsc⟩)
      rw [h1]
      refine ⟨plan, rfl, h2.trans ?_⟩
      rw [hM]
      constructor
      · intro hn
        rw [List.eq_nil_iff_forall_not_mem]
        intro s hs'
        obtain ⟨r, hr, _⟩ := topmost_below hg hs' (c := s) .refl
        exact hn ⟨dest, r, .inl ⟨hr, rfl⟩⟩
      · rintro rfl ⟨p, c, hpc⟩
        obtain ⟨⟨s, hs', _⟩, _⟩ := (dest_moved_iff hg).1 ⟨p, hpc⟩
        simp at hs'

/-- C61: a rebase in memory moves the sources: those without a parent among the sources are put on the
destination, and their visible descendants go along. Missing: sources which are merge commits (see
`merge_dropped`). -/
theorem move_sources_in_memory_partial (graph : CommitGraph Oid) (hg : WFGraph graph) (main : Text)
    (w : RepoWorld) (hw : AMap.WF w.git.refs) (es : List Event) (he : w.db.getEvents = some es)
    (r : Replayer) (d : Dag) (h : openRepoDag graph main w = some (r, d)) (env : MoveCmdEnv)
    (hc : SetContract env) (S : List Oid) (dest : Oid)
    (hm : ∀ c, Topmost graph (· ∈ S) c → (graph.parentsOf c).length ≤ 1) (plan : RebasePlan)
    (hp : movePlan env d false false S [] dest = .ok (.ok (some plan))) (hn : NoCollisions env.exec)
    (head : Option Oid) (s : ExecState) (newHead : Option Oid)
    (hx : env.exec.rebaseInMemory head plan = .ok (s, newHead)) :
    let moves := Carried graph (Seen graph main w.git es) (SourceRequest graph (· ∈ S) dest)
    Relocated env.exec moves (fun c => env.detectDuplicateCommitsViaPatchId = true ∧
      AppliedUpstream graph env.patchId moves c) s head newHead := by
  intro moves
  obtain ⟨hgr, -⟩ := graph_opened he h
  have hs : ∀ o, Seen graph main w.git es o ↔ o ∈ d.graph.nodes ∧
      ∃ x ∈ d.visibleHeads, Anc d.graph o x := by rw [hgr]; exact seen_opened hg hw he h
  subst hgr
  rw [movePlan_sources hc] at hp
  cases hv' : verifyRewriteSet d env.forceRewritePublicCommits env.detectDuplicateCommitsViaPatchId S with
  | error e => rw [hv'] at hp; simp at hp
  | ok perms =>
    rw [hv'] at hp
    simp only at hp
    have hdet : perms.detectDuplicateCommitsViaPatchId = env.detectDuplicateCommitsViaPatchId := by
      unfold verifyRewriteSet at hv'
      simp only at hv'
      split at hv'
      · simp at hv'
      · cases hv'; rfl
    rw [← hdet]
    generalize hb : RebasePlanBuilder.mk (env.planEnv d) perms
      (((env.nav.toVec (d.graph.roots S)).map fun r => (r, dest)).map fun r => .moveSubtree [r.2] r.1) [] = b
      at hp
    have hbld : b.build = .ok (.ok (some plan)) := by
      cases hbb : b.build with
      | error e => rw [hbb] at hp; simp at hp
      | ok x =>
        rw [hbb] at hp
        cases x with
        | error e => simp at hp
        | ok x => simp only [Except.ok.injEq] at hp; rw [hp]
    obtain ⟨k, hk, hf, hmv⟩ := constraintGraph_subtrees (b := b) (by rw [← hb]; exact hg)
      (rs := (env.nav.toVec (d.graph.roots S)).map fun r => (r, dest)) (by rw [← hb]; rfl)
    have hreg := regular_subtrees (by rw [← hb]; exact hg) (by
      rintro ⟨c, q⟩ hcq
      rw [sourceRequest_mem hc hg] at hcq
      rw [← hb]
      exact Nat.not_lt.2 (hm c hcq.1)) hf hmv
    have henv : b.env.dag = d := by rw [← hb]; rfl
    rw [henv, shouldMove_carried hs (sourceRequest_mem hc hg)
      (fun p q c => sourceRequest_unique)] at hmv
    have := relocated (by rw [← hb]; exact hg) hk hf hmv hreg (by rw [← hb]) hbld hn hx
    rw [← hb] at this
    exact this

/-! ### the command -/

/-- The options say that a rebase is made in memory, or not at all. -/
def InMemoryOnly (o : ExecOptions) : Prop :=
  o.forceOnDisk = false ∧ (o.forceInMemory = true ∨ o.resolveMergeConflicts = false)

theorem executeRebasePlan_inMemory {ee : ExecEnv} {finish : List (Oid × CommitData) → FinishEnv}
    {disk : OnDiskEnv} {o : ExecOptions} (ho : InMemoryOnly o) {plan : RebasePlan} {w w' : RepoWorld}
    {x : Option (AMap Oid MaybeZero)}
    (h : executeRebasePlan ee finish disk o plan w = (w', .ok (.succeeded x))) :
    ∃ s newHead ok, ee.rebaseInMemory w.git.headInfo.oid plan = .ok (s, newHead) ∧
      postRebaseInMemory (finish s.created) w s.rewritten newHead = (w', .ok ok) := by
  unfold executeRebasePlan at h
  simp only at h
  rw [if_neg (by rw [ho.1]; simp)] at h
  split at h
  · simp at h
  · simp at h
  · rename_i s newHead hr
    split at h
    · simp at h
    · rename_i w2 ok hp
      simp only [Prod.mk.injEq, Except.ok.injEq] at h
      obtain ⟨rfl, _⟩ := h
      exact ⟨s, newHead, ok, hr, hp⟩
  · rename_i info hr
    exfalso
    rcases ho.2 with h1 | h1
    · rw [h1] at h
      simp only [if_true] at h
      split at h <;> simp at h
    · rw [h1] at h
      simp at h

theorem executeMove_done {env : MoveCmdEnv} (ho : InMemoryOnly env.options) {w w' : RepoWorld}
    {plan : Except PlanFail (Except MoveRefusal (Option RebasePlan))}
    (h : executeMove env w plan = (w', .done)) :
    (plan = .ok (.ok none) ∧ w' = w) ∨
    ∃ p s newHead ok, plan = .ok (.ok (some p)) ∧
      env.exec.rebaseInMemory w.git.headInfo.oid p = .ok (s, newHead) ∧
      postRebaseInMemory (env.finish s.created) w s.rewritten newHead = (w', .ok ok) := by
  unfold executeMove at h
  split at h
  · simp at h
  · simp at h
  · simp only [Prod.mk.injEq, and_true] at h
    exact .inl ⟨rfl, h.symm⟩
  · rename_i p
    right
    split at h
    · simp at h
    · rename_i w2 x hx
      simp only [Prod.mk.injEq, and_true] at h
      subst h
      obtain ⟨s, newHead, ok, h1, h2⟩ := executeRebasePlan_inMemory ho hx
      exact ⟨p, s, newHead, ok, rfl, h1, h2⟩
    · simp at h
    · simp at h

/-- How the command gets to its plan. -/
theorem moveCommits_cases {env : MoveCmdEnv} {main : Text} {graph : CommitGraph Oid} {tx : Option Text}
    {w w' : RepoWorld} {args : MoveArgs} (h : moveCommits env main graph tx w args = (w', .done)) :
    ∃ r d sources components dest, openRepoDag graph main w = some (r, d) ∧
      moveInputs env d args = .ok (.ok (sources, components, dest)) ∧
      executeMove env { w with db := (w.db.makeTransactionId tx t!"move").2 }
        (movePlan env d args.fixup args.insert sources components dest) = (w', .done) := by
  unfold moveCommits at h
  split at h
  · simp at h
  · split at h
    · simp at h
    · rename_i r d hd
      split at h
      · simp at h
      · simp at h
      · rename_i sources components dest hi
        exact ⟨r, d, sources, components, dest, hd, hi, h⟩

/-- C61: what the whole command does with `--source` and `--base` (or without arguments), if it succeeds
in memory. Every source, and the base of every commit given with `--base`, goes to the destination, and
their visible descendants go along. Then the references are updated (C22, C23, C24), unless there was
nothing to move. Missing: merge commits among those which are put on the destination. -/
theorem move_sources_command_partial (graph : CommitGraph Oid) (hg : WFGraph graph) (main : Text)
    (w : RepoWorld) (hw : AMap.WF w.git.refs) (es : List Event) (he : w.db.getEvents = some es)
    (env : MoveCmdEnv) (hc : SetContract env) (ho : InMemoryOnly env.options) (hn : NoCollisions env.exec)
    (tx : Option Text) (args : MoveArgs) (hex : args.exacts = []) (hfix : args.fixup = false)
    (hins : args.insert = false) (hS : ∀ x ∈ args.sources, x ∈ graph.nodes)
    (hB : ∀ x, IsBaseArg args x → x ∈ graph.nodes)
    (hm : ∀ c, (c ∈ args.sources ∨ ∃ x dest, IsBaseArg args x ∧ IsDest args dest ∧ IsBase graph x dest c) →
      (graph.parentsOf c).length ≤ 1)
    (w' : RepoWorld) (h : moveCommits env main graph tx w args = (w', .done)) :
    ∃ dest, ∃ base : Oid → Oid, IsDest args dest ∧ (∀ x, IsBaseArg args x → IsBase graph x dest (base x)) ∧
      let S := fun s => s ∈ args.sources ∨ ∃ x, IsBaseArg args x ∧ s = base x
      let moves := Carried graph (Seen graph main w.git es) (SourceRequest graph S dest)
      let w0 := { w with db := (w.db.makeTransactionId tx t!"move").2 }
      ((∀ s, ¬ S s) ∧ w' = w0) ∨
      ∃ s newHead ok, Relocated env.exec moves (fun c => env.detectDuplicateCommitsViaPatchId = true ∧
          AppliedUpstream graph env.patchId moves c) s w.git.headInfo.oid newHead ∧
        postRebaseInMemory (env.finish s.created) w0 s.rewritten newHead = (w', .ok ok) := by
  obtain ⟨r, d, sources, components, dest, hd, hi, hx⟩ := moveCommits_cases h
  rw [hfix, hins] at hx
  obtain ⟨hgr, -⟩ := graph_opened he hd
  obtain ⟨rfl, h1, base, h2, h3⟩ := move_inputs_exact env hc d (hgr ▸ hg) args hex (by rw [hgr]; exact hB)
    sources components dest hi
  rw [hgr] at h2
  refine ⟨dest, base, h1, h2, ?_⟩
  have hSe : (fun s => s ∈ args.sources ∨ ∃ x, IsBaseArg args x ∧ s = base x) = (· ∈ sources) := by
    funext s; exact propext (h3 s).symm
  rw [hSe]
  intro S moves w0
  have hnodes : ∀ s ∈ sources, s ∈ graph.nodes := by
    intro s hs
    rcases (h3 s).1 hs with h | ⟨x, hxb, rfl⟩
    · exact hS s h
    · have hxn := hB x hxb
      rcases h2 x hxb with ⟨_, h⟩ | ⟨_, h, _⟩
      · rw [h]; exact hxn
      · exact h.mem hg hxn
  rcases executeMove_done ho hx with ⟨hp, rfl⟩ | ⟨plan, s, newHead, ok, hp, h4, h5⟩
  · left
    refine ⟨?_, rfl⟩
    obtain ⟨p1, p2, p3⟩ := move_sources_plan graph hg main w hw es he r d hd env hc sources hnodes dest
    have : sources = [] := by
      by_contra hne
      by_cases hon : env.forceRewritePublicCommits = false ∧
        ∃ s ∈ sources, ∃ c, Anc graph s c ∧ OnMain graph main w.git c
      · obtain ⟨l, hl⟩ := p1 hon
        rw [hl] at hp
        simp at hp
      · by_cases hcy : (∃ s ∈ sources, Anc graph s dest) ∧
          (Seen graph main w.git es dest ∨ Topmost graph (· ∈ sources) dest)
        · obtain ⟨l, hl⟩ := p2 hon hcy
          rw [hl] at hp
          simp at hp
        · obtain ⟨plan, hl, hl2⟩ := p3 hon hcy
          rw [hl] at hp
          simp only [Except.ok.injEq] at hp
          exact hne (hl2.1 hp)
    intro s
    change ¬ s ∈ sources
    rw [this]
    simp
  · right
    refine ⟨s, newHead, ok, ?_, h5⟩
    exact move_sources_in_memory_partial graph hg main w hw es he r d hd env hc sources dest
      (fun c hcT => hm c (((h3 c).1 hcT.1).imp id fun ⟨x, hxb, e⟩ => ⟨x, dest, hxb, h1, e ▸ h2 x hxb⟩))
      plan hp hn _ s newHead h4

end Verif.Props
