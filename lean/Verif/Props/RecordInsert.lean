import Verif.Lemmas.RecordInsert
import Verif.Props.Record

/-! C70: `record --insert`. -/

namespace Verif.Props

open Verif Verif.Spec Verif.RebasePlanBuilder Verif.Constraints

/-- The execution of a plan which only moves commits, in memory. -/
theorem execute_moves {ee : ExecEnv} {finish : List (Oid × CommitData) → FinishEnv} {disk : OnDiskEnv}
    {o : ExecOptions} (ho : InMemoryOnly o) (hn : NoCollisions ee) {b : RebasePlanBuilder}
    (hg : WFGraph b.env.dag.graph) (hsort : ∀ s x, x ∈ b.env.sortedCommitSet s ↔ x ∈ s)
    {k : Constraints} (hk : b.constraintGraph = .ok k) (hf : k.fixups = []) {M : Oid → Oid → Prop}
    (hmv : ∀ p c, Moves k p c ↔ M p c) (hreg : Regular b.env k) (hrep : b.replacementCommits = [])
    (ha : Agrees b.env.dag.graph ee)
    (hM : ∀ p c, M p c → p ∈ b.env.dag.graph.nodes ∧ c ∈ b.env.dag.graph.nodes)
    {plan : RebasePlan} (hplan : b.build = .ok (.ok (some plan))) (w : RepoWorld) :
    let skip := fun c => b.permissions.detectDuplicateCommitsViaPatchId = true ∧
      AppliedUpstream b.env.dag.graph b.env.patchId M c
    (∃ w' x s newHead ok, executeRebasePlan ee finish disk o plan w = (w', .ok (.succeeded x)) ∧
      (∀ p c, M p c → (b.env.dag.graph.parentsOf c).length ≤ 1) ∧
      Relocated ee M skip s w.git.headInfo.oid newHead ∧
      postRebaseInMemory (finish s.created) w s.rewritten newHead = (w', .ok ok)) ∨
    (∃ info, executeRebasePlan ee finish disk o plan w = (w, .ok (.declinedToMerge info)) ∧
      ∃ p c, M p c ∧ Stuck b.env.dag.graph ee c) ∨
    (∃ f, executeRebasePlan ee finish disk o plan w = (w, .error f) ∧ ∃ p c, M p c ∧ Faulty ee c) ∨
    (∃ w' f s newHead e, executeRebasePlan ee finish disk o plan w = (w', .error f) ∧
      Relocated ee M skip s w.git.headInfo.oid newHead ∧
      postRebaseInMemory (finish s.created) w s.rewritten newHead = (w', .error e)) := by
  intro skip
  have hd : ∀ p c, Moves k p c → ∃ d, ee.commits c = some d ∧ d.parents = b.env.dag.graph.parentsOf c :=
    fun p c h => ha c (hM p c ((hmv p c).1 h)).2
  rcases hx : executeRebasePlan ee finish disk o plan w with ⟨w', f | x | info | code⟩
  · rcases executeRebasePlan_error ho hx with ⟨rfl, e, hx, hne⟩ | ⟨s, newHead, e, hrun, hpost⟩
    · obtain ⟨p, x, h1, h2⟩ := error_reason hsort hk hf hrep hplan hn (by
        rintro p x (hp | hp)
        · obtain ⟨d, hd, _⟩ := ha p (((mem_parentsOf hg).1 hp).parent_mem hg)
          exact ⟨d, hd⟩
        · obtain ⟨d, hd, _⟩ := ha p (hM p x ((hmv p x).1 hp)).1
          exact ⟨d, hd⟩) hd hne hx
      exact .inr (.inr (.inl ⟨f, rfl, p, x, (hmv p x).1 h1, h2⟩))
    · exact .inr (.inr (.inr ⟨w', f, s, newHead, e, rfl, relocated hg hk hf hmv hreg hrep hplan hn hrun, hpost⟩))
  · obtain ⟨s, newHead, ok, hrun, hpost⟩ := executeRebasePlan_inMemory ho hx
    refine .inl ⟨w', x, s, newHead, ok, rfl, ?_, relocated hg hk hf hmv hreg hrep hplan hn hrun, hpost⟩
    intro p c h
    exact Nat.not_lt.1 (no_merge_moved hk hf hreg hrep hplan hrun ((hmv p c).2 h))
  · obtain ⟨rfl, hx⟩ := declined_changes_nothing _ _ _ _ _ _ _ _ hx
    obtain ⟨p, c, h1, h2⟩ := declined_reason hk hf hrep hplan hn hd hx
    exact .inr (.inl ⟨info, rfl, p, c, (hmv p c).1 h1, h2⟩)
  · exact absurd hx (executeRebasePlan_not_failed ho)

/-- C70: what is done with the siblings of the commit at `HEAD`, and when it is not done.
- If one of them or of their descendants is on the main branch, nothing is done.
- If one of them is an ancestor of that commit, it is refused as a cycle.
- Otherwise they are moved on top of it with all visible commits on top of them, in memory; or nothing is done,
because one of these has conflicts or is a merge commit; or the repository does not work. -/
theorem insert_before_siblings (graph : CommitGraph Oid) (hg : WFGraph graph) (main : Text) (w : RepoWorld)
    (hw : AMap.WF w.git.refs) (es : List Event) (he : w.db.getEvents = some es) (hopen : (openRepoDag graph main w).isSome)
    (env : MoveCmdEnv) (hc : SetContract env) (hn : NoCollisions env.exec) (ha : Agrees graph env.exec)
    (head : Oid) (hh : w.git.headInfo.oid = some head) (hhn : head ∈ graph.nodes) :
    let seen := Seen graph main w.git es
    let fixed := fun c => OnMain graph main w.git c ∧ ∃ s, Sibling graph seen head s ∧ Anc graph s c
    let moves := OnSibling graph seen head
    ((∃ c, fixed c) → ∃ l, (∀ c, c ∈ l ↔ fixed c) ∧
      insertBeforeSiblings env main graph w = (w, .publicCommits l)) ∧
    ((¬ ∃ c, fixed c) → (∃ s, Sibling graph seen head s ∧ Anc graph s head) →
      ∃ l, insertBeforeSiblings env main graph w = (w, .refused (.constraintCycle l))) ∧
    ((¬ ∃ c, fixed c) → (∀ s, Sibling graph seen head s → ¬ Anc graph s head) →
      ((∀ s, ¬ Sibling graph seen head s) ∧ insertBeforeSiblings env main graph w = (w, .done)) ∨
      ((∃ s, Sibling graph seen head s) ∧
        ((∃ w', (∀ p c, moves p c → (graph.parentsOf c).length ≤ 1) ∧ RelocatedInMemory env graph moves w w' ∧
          insertBeforeSiblings env main graph w = (w', .done)) ∨
        (∃ info, (∃ p c, moves p c ∧ Stuck graph env.exec c) ∧
          insertBeforeSiblings env main graph w = (w, .declined info)) ∨
        ∃ w', RelocationBroke env graph moves w w' ∧
          insertBeforeSiblings env main graph w = (w', .error)))) := by
  intro seen pub moves
  obtain ⟨⟨r, d⟩, hd⟩ := Option.isSome_iff_exists.1 hopen
  obtain ⟨data, hdata, hpar⟩ := ha head hhn
  obtain ⟨refs, hrefs, -, -⟩ := openRepoDag_some he hd
  have hs := seen_opened hg hw he hd
  have hpub := public_opened hw he hd
  obtain ⟨hgr, -⟩ := graph_opened he hd
  subst hgr
  have hsib := fun c => mem_siblingsOf hg (head := head) (c := c) hs
  have hhs : seen head := ⟨hhn, head, .refl, .inl hh⟩
  have hsp : ∀ a c, Anc d.graph a c → seen c → seen a := by
    rintro a c h1 ⟨h2, x, h3, h4⟩
    exact ⟨h1.mem hg h2, x, h1.trans h3, h4⟩
  have hprog : insertBeforeSiblings env main d.graph w =
      match insertPlan env d head (d.graph.parentsOf head) with
        | .error _ => (w, .error)
        | .ok (.ok none) => (w, .done)
        | .ok (.error (.movePublicCommits commits)) => (w, .publicCommits commits)
        | .ok (.error e) => (w, .refused e)
        | .ok (.ok (some plan)) =>
          match executeRebasePlan env.exec env.finish env.disk ⟨true, false, false⟩ plan w with
          | (w, .error _) => (w, .error)
          | (w, .ok (.succeeded _)) => (w, .done)
          | (w, .ok (.declinedToMerge info)) => (w, .declined info)
          | (w, .ok (.failed code)) => (w, .failed code) := by
    unfold insertBeforeSiblings
    rw [hrefs, he, hh, hd, ← hpar]
    simp only [Option.isNone_some, Bool.or_self, Bool.false_eq_true, if_false]
    rw [hdata]
    rfl
  cases hv : verifyRewriteSet d false true (siblingsOf d head) with
  | error e =>
    have hv' := hv
    unfold verifyRewriteSet at hv'
    simp only [Bool.not_false, Bool.true_and] at hv'
    split at hv'
    · rename_i hne
      cases hv'
      have hl : ∀ c, c ∈ CommitGraph.inter d.publicCommits (d.graph.descendants (siblingsOf d head)) ↔ pub c := by
        intro c
        rw [mem_inter, mem_descendants hg]
        simp only [hsib, pub, ← hpub]
        unfold Dag.publicCommits Public
        rw [mem_ancestors hg]
        constructor
        · rintro ⟨⟨_, h1⟩, _, h2⟩; exact ⟨h1, h2⟩
        · rintro ⟨h1, s, h2, h3⟩
          have := h3.mem_up h2.1.1
          exact ⟨⟨this, h1⟩, this, s, h2, h3⟩
      have hex : ∃ c, pub c := by
        cases hl' : CommitGraph.inter d.publicCommits (d.graph.descendants (siblingsOf d head)) with
        | nil => rw [hl'] at hne; simp at hne
        | cons c l => exact ⟨c, (hl c).1 (by rw [hl']; simp)⟩
      refine ⟨fun _ => ⟨_, hl, ?_⟩, fun h => absurd hex h, fun h => absurd hex h⟩
      rw [hprog]
      unfold insertPlan
      rw [hv]
    · simp at hv'
  | ok perms =>
    have hnp : ¬ ∃ c, pub c := by
      rintro ⟨c, h1, s, h2, h3⟩
      have := (verify_rewrite_set_iff d hg false true (siblingsOf d head)).1 ⟨perms, hv⟩
      simp only [Bool.false_eq_true, false_or] at this
      exact this s ((hsib s).2 h2) c (h3.mem_up h2.1.1) h3 ((hpub c).2 h1)
    refine ⟨fun h => absurd h hnp, fun _ => ?_, fun _ => ?_⟩
    all_goals
      have hX : ∀ c, c ∈ env.nav.toVec (siblingsOf d head) ↔ Sibling d.graph seen head c :=
        fun c => (hc.mem _ c).trans (hsib c)
      have hfold := insertOne_requests (commits := env.exec.commits) (head := head)
        (hps := d.graph.parentsOf head) (parents := d.graph.parentsOf)
        (X := env.nav.toVec (siblingsOf d head)) (by
          intro c hcX
          obtain ⟨h1, _, p, _, h2⟩ := (hX c).1 hcX
          refine ⟨?_, ha c h1.1⟩
          intro e
          have := (mem_parentsOf hg).2 h2
          rw [e] at this
          simp at this) ⟨env.planEnv d, perms, [], []⟩
      have hplan : insertPlan env d head (d.graph.parentsOf head) = (RebasePlanBuilder.mk (env.planEnv d) perms
          ((env.nav.toVec (siblingsOf d head)).map fun c => .moveSubtree
            (insertedParents head (d.graph.parentsOf head) (d.graph.parentsOf c)) c) []).build := by
        unfold insertPlan
        rw [hv]
        simp only
        rw [hfold]
        rfl
      rw [hprog, hplan]
      generalize hb : RebasePlanBuilder.mk (env.planEnv d) perms
          ((env.nav.toVec (siblingsOf d head)).map fun c => .moveSubtree
            (insertedParents head (d.graph.parentsOf head) (d.graph.parentsOf c)) c) [] = b
      have henv : b.env.dag = d := by rw [← hb]; rfl
      have hperm : b.permissions = perms := by rw [← hb]
      have hpid : b.env.patchId = env.patchId := by rw [← hb]; rfl
      have hrep : b.replacementCommits = [] := by rw [← hb]
      have hsort : ∀ s x, x ∈ b.env.sortedCommitSet s ↔ x ∈ s := by
        intro s x
        rw [← hb]
        exact mem_sortedCommitSet hc
      obtain ⟨k, hk, hf, hm1, hm2, hm3, hm4⟩ := insert_moves (b := b) (by rw [henv]; exact hg)
        (seen := seen) (by rw [henv]; exact hs) (head := head) (by rw [henv]; exact hX)
        (by rw [henv, ← hb])
      rw [henv] at hm1 hm2 hm3 hm4
    · rintro ⟨s, hs1, hs2⟩
      have hcy : ∃ c, Relation.TransGen (Moves k) c c :=
        insert_cycle (b := b) (by rw [henv]; exact hg) (by rw [henv]; exact hsp) hhs
          (by rw [henv]; exact hm2) (by rw [henv]; exact hm3) (by rw [henv]; exact hs1) (by rw [henv]; exact hs2)
      obtain ⟨l, hl⟩ := (build_cycle_iff b k hk).2 hcy
      rw [hl]
      exact ⟨l, rfl⟩
    · intro hno
      have hM := hm4 hno
      obtain ⟨plan, hpl, hnone⟩ := build_moves hk hf (by
          have : Moves k = OnSibling d.graph seen head := by funext p c; exact propext (hM p c)
          intro c
          rw [this]
          exact onSibling_acyclic hg hno c) (by
        intro p c hpc
        obtain ⟨s, h1, h2⟩ := hm1 p c hpc
        rw [hperm, verify_rewrite_set_allows d hg _ _ _ _ hv]
        exact ⟨h2.mem_up h1.1.1, s, (hsib s).2 h1, h2⟩)
      rw [hpl]
      cases plan with
      | none =>
        refine .inl ⟨fun s hs => hnone.1 rfl ⟨head, s, hm2 s hs⟩, rfl⟩
      | some plan =>
        have hdet : b.permissions.detectDuplicateCommitsViaPatchId = true := by rw [hperm]; exact verify_detect hv
        have hreg : Regular b.env k := insert_regular (b := b) (by rw [henv]; exact hg) (seen := seen)
          (head := head) (by rw [henv]; exact hno) hf (by rw [henv]; exact hM)
        have hx := execute_moves (ee := env.exec) (finish := env.finish) (disk := env.disk)
          (o := ⟨true, false, false⟩) ⟨rfl, .inl rfl⟩ hn (b := b) (by rw [henv]; exact hg) hsort hk hf hM hreg hrep
          (by rw [henv]; exact ha) (by
            rw [henv]
            rintro p c ⟨⟨⟨h1, _⟩, _⟩, x, hx, ⟨_, rfl⟩ | ⟨_, rfl⟩⟩
            · exact ⟨hhn, h1⟩
            · exact ⟨hx.parent_mem hg, h1⟩) hpl w
        simp only [henv, hpid, hdet, true_and] at hx
        simp only
        have hsome : ∃ s, Sibling d.graph seen head s := by
          by_contra hcon
          have := hnone.2 (by
            rintro ⟨p, c, hpc⟩
            obtain ⟨s, h1, _⟩ := hm1 p c hpc
            exact hcon ⟨s, h1⟩)
          cases this
        refine .inr ⟨hsome, ?_⟩
        rcases hx with ⟨w', x, s, newHead, ok, h1, h2, h3, h4⟩ | ⟨info, h1, h2⟩ | ⟨f, h1, h2⟩ |
          ⟨w', f, s, newHead, e, h1, h2, h3⟩
        · rw [h1]; exact .inl ⟨w', h2, ⟨s, newHead, ok, h3, h4⟩, rfl⟩
        · rw [h1]; exact .inr (.inl ⟨info, h2, rfl⟩)
        · rw [h1]; exact .inr (.inr ⟨w, .inl ⟨rfl, h2⟩, rfl⟩)
        · rw [h1]; exact .inr (.inr ⟨w', .inr ⟨s, newHead, e, h2, h3⟩, rfl⟩)

/-- C70: `record --insert`. The commit is recorded as without the option (C69). Then the visible commits on top of
the one which was checked out are put on top of the new commit.

If one of them is on the main branch, this is not done. It is also not done if one of them has conflicts or is a
merge commit.

Missing: `--stash` (see `stash_insert_moves_siblings`); merge commits, which `git commit` makes if a merge is in
progress (for these, see `insert_before_siblings`). -/
theorem record_insert_partial (env : RecordEnv) (main : Text) (txEnv : Option Text) (args : RecordArgs)
    (w : RepoWorld) (es : List Event) (hp : w.db.pending = none) (he : w.db.getEvents = some es) (n : Int)
    (hn : inIsize n) (htx : (w.db.makeTransactionId txEnv t!"record").1 = .id n) (hrd : w.rebaseDir = none)
    (kind : ChangesType) (hkind : env.status = some kind) (hk : kind = .unstaged ∨ kind = .staged)
    (hi : recordAction args.interactive kind ≠ .refused) (new : Oid)
    (hnew : env.commit (recordAction args.interactive kind) = .ok new)
    (hwk : RecordWorks env main w.git new [])
    (hcreate : ∀ name, args.create = some name → CanCreateBranch env w.git name ∧ args.detach = false ∧
      (w.git.refs.get? main).isSome)
    (hstash : args.stash = false) (hins : args.insert = true)
    (graph : CommitGraph Oid) (hg : WFGraph graph) (h : Oid) (hh : w.git.headInfo.oid = some h)
    (hhn : h ∈ graph.nodes) (hnn : new ∉ graph.nodes) (hmk : main ≠ t!"refs/branchless/" ++ new.toText)
    (hrepo : ∀ w, w.git.headInfo.oid = some new → env.graph w = grown graph new [h] ∧
      SetContract (env.repo w) ∧ NoCollisions (env.repo w).exec ∧
      Agrees (grown graph new [h]) (env.repo w).exec) :
    let above := Above graph (Seen graph main w.git es) h
    let moves := OnAmended graph (Seen graph main w.git es) h new
    let fixed := fun c => above c ∧ OnMain graph main w.git c
    ∃ w1 es1, RecordedRefs w.git w1.git new (recordedHead args w.git new).1 (recordedHead args w.git new).2 ∧
      w1.db.getEvents = some es1 ∧ RecordedEvents es es1 new ∧
      (((∃ c, fixed c) ∧ ∃ l, (∀ c, c ∈ l ↔ fixed c) ∧
        record env main txEnv args w = (w1, .inserted (.publicCommits l))) ∨
      ((∀ c, ¬ above c) ∧ record env main txEnv args w = (w1, .inserted .done)) ∨
      ((¬ ∃ c, fixed c) ∧ (∃ c, above c) ∧
        ((∃ w', (∀ c, above c → (graph.parentsOf c).length ≤ 1) ∧
          RelocatedInMemory (env.repo w1) (grown graph new [h]) moves w1 w' ∧
          record env main txEnv args w = (w', .inserted .done)) ∨
        (∃ info, (∃ c, above c ∧ Stuck graph (env.repo w1).exec c) ∧
          record env main txEnv args w = (w1, .inserted (.declined info))) ∨
        ∃ w', RelocationBroke (env.repo w1) (grown graph new [h]) moves w1 w' ∧
          record env main txEnv args w = (w', .inserted .error)))) := by
  intro above moves fixed
  obtain ⟨w1, h1, ⟨_, es1, h2, h3⟩, _, _, h4, h5⟩ := record_steps hp he hn htx hrd hkind hk hi hnew hwk
    (.inl rfl) (fun name hc => ⟨(hcreate name hc).1, (hcreate name hc).2.1, hstash, (hcreate name hc).2.2⟩)
    (fun _ => by rw [hh]; rfl) (by rw [hstash]; simp)
  refine ⟨w1, es1, h1, h2, h3, ?_⟩
  rw [h5, hins]
  simp only [if_true]
  -- `HEAD` is at the new commit
  have hsym : ∀ name, w.git.head = .symbolic name → w.git.refs.get? name = some h := by
    intro name hs
    simpa [GitState.headInfo, hs] using hh
  have hhead : w1.git.headInfo.oid = some new := by
    have : (recordedHead args w.git new).1 = .detached new ∨ ∃ name,
        (recordedHead args w.git new).1 = .symbolic name ∧ (recordedHead args w.git new).2 = some name := by
      unfold recordedHead
      rw [hstash]
      split
      · exact .inr ⟨_, rfl, rfl⟩
      · simp only [Bool.false_eq_true, if_false]
        split
        · exact .inl rfl
        · split
          · exact .inr ⟨_, rfl, rfl⟩
          · exact .inl rfl
    unfold GitState.headInfo
    rw [h1.head]
    rcases this with h6 | ⟨name, h6, h7⟩
    · rw [h6]
    · rw [h6]
      simp only
      exact h1.moved name h7
  have hbr : ∀ name, (recordedHead args w.git new).2 = some name →
      w.git.refs.get? name = some h ∨ w.git.refs.get? name = none := by
    intro name
    unfold recordedHead
    rw [hstash]
    split
    · rename_i x hx
      rintro ⟨⟩
      right
      cases hr : w.git.refs.get? (t!"refs/heads/" ++ x) with
      | none => rfl
      | some o => exact absurd rfl ((hcreate x hx).1.free _ (by rw [hr]; rfl)).1
    · simp only [Bool.false_eq_true, if_false]
      split
      · simp
      · split
        · rename_i b hb
          rintro ⟨⟩
          exact .inl (hsym _ hb)
        · simp
  obtain ⟨r1, r2, r3, r4⟩ := hrepo w1 hhead
  rw [r1]
  have T := onTop hg hhn hnn
  generalize hG : grown graph new [h] = G at r1 r4 T
  have hmain1 : (w1.git.refs.get? main).isSome := by
    by_cases hm : (recordedHead args w.git new).2 = some main
    · rw [h1.moved main hm]; rfl
    · rw [h1.others main hm hmk]
      rcases hwk.main_exists with h6 | h6
      · exact h6
      · rw [hsym _ h6]; rfl
  have hopen : (openRepoDag G main w1).isSome := by
    obtain ⟨m, hm⟩ := Option.isSome_iff_exists.1 hmain1
    unfold openRepoDag GitState.referencesSnapshot
    rw [hm, h2]
    rfl
  have hs1 : ∀ c, Seen graph main w.git es c → c ∈ graph.nodes := fun c h => h.1
  have hs2 : ∀ c, Seen G main w1.git es1 c → c ∈ G.nodes := fun c h => h.1
  have hsp : ∀ a c, Anc graph a c → Seen graph main w.git es c → Seen graph main w.git es a := by
    rintro a c k1 ⟨k2, x, k3, k4⟩
    exact ⟨k1.mem hg k2, x, k1.trans k3, k4⟩
  have hrec : ∀ c ∈ graph.nodes, c ≠ h → Anc graph h c →
      (Seen G main w1.git es1 c ↔ Seen graph main w.git es c) ∧
      (OnMain G main w1.git c ↔ OnMain graph main w.git c) := by
    intro c k1 k2 k3
    exact seen_recorded T hg hnn hh hhead hbr ⟨rfl, h1.moved, h1.kept, h1.others⟩ hmk h3 k1 k2 k3
  have hs := fun c k1 k2 k3 => (hrec c k1 k2 k3).1
  have habove := fun c => T.above hg hnn hs1 hs2 hsp hs (c := c)
  have hsib := fun c => T.sibling hg hnn hs1 hs2 hs (c := c)
  have hmoves := T.onSibling hg hnn hs1 hs2 hsp hs
  obtain ⟨c1, -, c3⟩ := insert_before_siblings G T.wf main w1 h4 es1 h2 hopen (env.repo w1) r2 r3 r4 new hhead
    ((T.nodes new).2 (.inr rfl))
  rw [hmoves] at c3
  have hfixed : ∀ c, (OnMain G main w1.git c ∧
      ∃ s, Sibling G (Seen G main w1.git es1) new s ∧ Anc G s c) ↔ fixed c := by
    intro c
    constructor
    · rintro ⟨k1, k2⟩
      obtain ⟨s, k3, k4⟩ := id k2
      obtain ⟨m, k5, k6⟩ := id k1
      have := (habove c).1 ⟨k2, k4.mem_up k3.1.1, m, k6, .inr (.inl k5)⟩
      exact ⟨this, (hrec c this.1.1 this.2.1 this.2.2).2.1 k1⟩
    · rintro ⟨k1, k2⟩
      exact ⟨(hrec c k1.1.1 k1.2.1 k1.2.2).2.2 k2, ((habove c).2 k1).1⟩
  simp only [hfixed] at c1 c3
  have hon : ∀ c, above c → ∃ p, moves p c := by
    intro c k1
    rcases anc_iff.1 k1.2.2 with k2 | ⟨x, k2, _⟩
    · exact absurd k2.symm k1.2.1
    · exact ⟨_, k1, x, k2, rfl⟩
  by_cases hf : ∃ c, fixed c
  · obtain ⟨l, k1, k2⟩ := c1 hf
    exact .inl ⟨hf, l, k1, by rw [k2]⟩
  · rcases c3 hf (by
      intro s k1 k2
      obtain ⟨k3, k4⟩ := (hsib s).1 k1
      refine T.not_below hg hnn k3.1 ?_ (.of_parent k4) k2
      rintro rfl
      exact not_isParent_self hg k4) with ⟨k1, k2⟩ | ⟨⟨s, k1⟩, k2⟩
    · refine .inr (.inl ⟨fun c k3 => ?_, by rw [k2]⟩)
      obtain ⟨⟨s, k4, _⟩, _⟩ := (habove c).2 k3
      exact k1 s k4
    · refine .inr (.inr ⟨hf, ⟨s, (habove s).1 ⟨⟨s, k1, .refl⟩, k1.1⟩⟩, ?_⟩)
      rcases k2 with ⟨w', k3, k4, k5⟩ | ⟨info, ⟨p, c, k3, k4⟩, k5⟩ | ⟨w', k3, k4⟩
      · refine .inl ⟨w', fun c k6 => ?_, k4, by rw [k5]⟩
        obtain ⟨p, k7⟩ := hon c k6
        rw [← T.parents c k6.1.1]
        exact k3 p c k7
      · refine .inr (.inl ⟨info, ⟨c, k3.1, ?_⟩, by rw [k5]⟩)
        unfold Stuck at k4 ⊢
        rwa [T.parents c k3.1.1.1] at k4
      · exact .inr (.inr ⟨w', k3, by rw [k4]⟩)

end Verif.Props
