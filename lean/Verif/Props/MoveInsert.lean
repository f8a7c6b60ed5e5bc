import Verif.Lemmas.MoveInsert
import Verif.Props.MoveExact

/-! C63: `move` with `--insert`. -/

namespace Verif.Props

open Verif Verif.Spec

/-! ### sources and bases -/

/-- What is requested with `--source` (or `--base`) and `--insert`. -/
def SourceInsert (graph : CommitGraph Oid) (seen : Oid → Prop) (S : Oid → Prop) (dest head p c : Oid) : Prop :=
  SourceRequest graph S dest p c ∨ InsertRequest graph seen S dest head p c

theorem sourceInsert_unique {g : CommitGraph Oid} {seen S : Oid → Prop} {dest head p q c : Oid}
    (hp : SourceInsert g seen S dest head p c) (hq : SourceInsert g seen S dest head q c) : p = q := by
  rcases hp with hp | hp <;> rcases hq with hq | hq
  · exact sourceRequest_unique hp hq
  · exact absurd hp.1.1 hq.1
  · exact absurd hq.1.1 hp.1
  · exact hp.2.2.2.trans hq.2.2.2.symm

/-- The head of what is moved: the only descendant of the sources without children. -/
theorem sourceHead_sources {env : MoveCmdEnv} (hc : SetContract env) {d : Dag} (hg : WFGraph d.graph)
    (S : List Oid) :
    (∀ h, OnlyHead d.graph (· ∈ S) h → sourceHead env d [] [] S = .ok h) ∧
    ((¬ ∃ h, OnlyHead d.graph (· ∈ S) h) → sourceHead env d [] [] S = .error .severalHeads) := by
  have key : ∀ h, env.nav.toVec (d.graph.heads (d.graph.descendants S) ++ []) = [h] ↔
      OnlyHead d.graph (· ∈ S) h := by
    intro h
    rw [toVec_singleton hc]
    unfold OnlyHead
    refine forall_congr' fun x => ?_
    rw [List.append_nil, mem_heads hg, mem_descendants hg]
    refine (iff_congr ?_ Iff.rfl).trans iff_comm
    constructor
    · rintro ⟨⟨h1, s, hs, hsx⟩, h3⟩
      refine ⟨h1, ⟨s, hs, hsx⟩, fun y hy => h3 y hy ?_⟩
      rw [mem_descendants hg]
      exact ⟨hy.child_mem, s, hs, hsx.trans (.of_parent hy)⟩
    · rintro ⟨h1, h2, h3⟩
      exact ⟨⟨h1, h2⟩, fun y hy => absurd hy (h3 y)⟩
  unfold sourceHead
  simp only [lineageBreak, List.getLast?_nil]
  constructor
  · intro h hh
    rw [(key h).2 hh]
  · intro hn
    split
    · rename_i head hh
      exact absurd ⟨head, (key head).1 hh⟩ hn
    · rfl

theorem moveRequests_insert {env : MoveCmdEnv} (hc : SetContract env) {d : Dag} (hg : WFGraph d.graph)
    {S : List Oid} {seen : Oid → Prop} (hv : ∀ s o, o ∈ d.filterVisibleCommits s ↔ o ∈ s ∧ seen o) {dest : Oid} :
    (∀ head, OnlyHead d.graph (· ∈ S) head → ∃ rs,
      moveRequests env d false true S [] dest = .ok (.ok (subtreeConstraints rs)) ∧
      ∀ p c, (c, p) ∈ rs ↔ SourceInsert d.graph seen (· ∈ S) dest head p c) ∧
    ((¬ ∃ head, OnlyHead d.graph (· ∈ S) head) →
      moveRequests env d false true S [] dest = .ok (.error .severalHeads)) := by
  obtain ⟨k1, k2⟩ := sourceHead_sources hc hg S
  have hnil : sortedCommitSet env.nav d (AMap.keys ([] : AMap Oid (List Oid))) = [] := by
    simp only [AMap.keys, List.map_nil]
    exact sortedCommitSet_nil hc
  constructor
  · intro head hh
    refine ⟨(env.nav.toVec (d.graph.roots S)).map (fun r => (r, dest)) ++
      (env.nav.toVec (d.filterVisibleCommits (CommitGraph.diff (CommitGraph.diff (d.graph.children [dest]) S) []))).map
        (fun c => (c, head)), ?_, ?_⟩
    · unfold moveRequests
      simp only
      rw [hnil]
      simp only [componentsRequests, if_true, k1 head hh]
      unfold sourceRequests insertRequests subtreeConstraints
      simp [← List.map_eq_flatMap, Function.comp_def]
    · intro p c
      rw [List.mem_append, sourceRequest_mem hc hg]
      apply or_congr Iff.rfl
      simp only [List.mem_map, Prod.mk.injEq, hc.mem, hv, mem_diff, mem_children hg, List.mem_singleton,
        exists_eq_left, List.not_mem_nil, not_false_eq_true, and_true, InsertRequest]
      constructor
      · rintro ⟨x, ⟨⟨h1, h2⟩, h3⟩, rfl, rfl⟩; exact ⟨h2, h3, h1, rfl⟩
      · rintro ⟨h1, h2, h3, rfl⟩; exact ⟨c, ⟨⟨h3, h1⟩, h2⟩, rfl, rfl⟩
  · intro hn
    unfold moveRequests
    simp only
    rw [hnil]
    simp only [componentsRequests, if_true, k2 hn]

/-- There is a cycle exactly if the destination itself has to be moved. -/
theorem insert_cycle_iff {g : CommitGraph Oid} (hg : WFGraph g) {seen : Oid → Prop}
    (hsp : ∀ p c, IsParent g p c → seen c → seen p) {S : List Oid} {dest head : Oid}
    (hm : ∀ c s, s ∈ S → Anc g s c → (g.parentsOf c).length ≤ 1) (hh : OnlyHead g (· ∈ S) head) :
    (∃ c, Relation.TransGen (Carried g seen (SourceInsert g seen (· ∈ S) dest head)) c c) ↔
      (∃ s ∈ S, Anc g s dest) ∧ (seen dest ∨ Topmost g (· ∈ S) dest) := by
  have hsa : ∀ {a b}, Anc g a b → seen b → seen a := by
    intro a b h
    induction h with
    | refl => exact id
    | step _ hp ih => exact fun hb => ih (hsp _ _ hp hb)
  have hne : ∀ {c}, IsParent g dest c → ¬ Anc g c dest := by
    intro c hp ha
    have := (Anc.of_parent hp).antisymm hg ha
    subst this
    exact not_isParent_self hg hp
  have hdown : ∀ {y x s}, s ∈ S → Anc g s x → ¬ Topmost g (· ∈ S) x → IsParent g y x → ∃ s ∈ S, Anc g s y := by
    intro y x s hs hsx ht hp
    obtain ⟨r, hr, hrx⟩ := topmost_below hg hs hsx
    rcases anc_iff.1 hrx with h | ⟨p, hp', hrp⟩
    · subst h; exact absurd hr ht
    · rw [parent_unique hg (hm x s hs hsx) hp hp']
      exact ⟨r, hr.1, hrp⟩
  generalize hM : Carried g seen (SourceInsert g seen (· ∈ S) dest head) = M
  constructor
  · rintro ⟨c, hcc⟩
    by_contra hno
    have hA : ∀ {y x}, M y x → (∃ s ∈ S, Anc g s x) →
        y = dest ∨ ((∃ s ∈ S, Anc g s y) ∧ ageOf g.entries y < ageOf g.entries x) := by
      rintro y x h ⟨s, hs, hsx⟩
      rw [← hM] at h
      rcases h with (⟨_, rfl⟩ | ⟨h1, h2, h3, rfl⟩) | ⟨h1, _, hv, hp⟩
      · exact .inl rfl
      · have := hdown hs hsx (fun ht => h1 ht.1) h3
        exact absurd ⟨this, .inl (hsp _ _ h3 h2)⟩ hno
      · exact .inr ⟨hdown hs hsx (fun ht => h1 ⟨dest, .inl ⟨ht, rfl⟩⟩) hp, age_lt hg hp⟩
    have hB : ∀ {y x}, M y x → (¬ ∃ s ∈ S, Anc g s x) →
        (∃ s ∈ S, Anc g s y) ∨ ((¬ ∃ s ∈ S, Anc g s y) ∧ ageOf g.entries y < ageOf g.entries x) := by
      rintro y x h hx
      rw [← hM] at h
      rcases h with (⟨h1, rfl⟩ | ⟨h1, h2, h3, rfl⟩) | ⟨h1, _, hv, hp⟩
      · exact absurd ⟨x, h1.1, .refl⟩ hx
      · exact .inl ((hh y).1 rfl).2.1
      · exact .inr ⟨fun ⟨s, hs, hsy⟩ => hx ⟨s, hs, hsy.trans (.of_parent hp)⟩, age_lt hg hp⟩
    have hC : ∀ y, ¬ M y dest := by
      intro y h
      rw [← hM] at h
      rcases h with (⟨h1, rfl⟩ | ⟨h1, h2, h3, rfl⟩) | ⟨h1, ⟨s, q, hq, hsd⟩, hv, hp⟩
      · exact hno ⟨⟨_, h1.1, .refl⟩, .inr h1⟩
      · exact not_isParent_self hg h3
      · rcases hq with ⟨ht, _⟩ | ⟨_, _, h5, _⟩
        · exact hno ⟨⟨s, ht.1, hsd⟩, .inl hv⟩
        · exact hne h5 hsd
    have hend : ∀ {a b}, Relation.TransGen M a b → ∃ p, M p b := by
      intro a b h
      cases h with
      | single h => exact ⟨_, h⟩
      | tail _ h => exact ⟨_, h⟩
    have hA' : ∀ {a b}, Relation.TransGen M a b → (∃ s ∈ S, Anc g s b) →
        a = dest ∨ ((∃ s ∈ S, Anc g s a) ∧ ageOf g.entries a < ageOf g.entries b) := by
      intro a b h
      induction h with
      | single h => exact hA h
      | tail h1 h2 ih =>
        intro hb
        rcases hA h2 hb with h | ⟨h3, h4⟩
        · subst h
          obtain ⟨p, hp⟩ := hend h1
          exact absurd hp (hC p)
        · exact (ih h3).imp id fun ⟨h5, h6⟩ => ⟨h5, h6.trans h4⟩
    have hB' : ∀ {a b}, Relation.TransGen M a b → (¬ ∃ s ∈ S, Anc g s b) →
        a = dest ∨ (∃ s ∈ S, Anc g s a) ∨ ageOf g.entries a < ageOf g.entries b := by
      intro a b h
      induction h with
      | single h => exact fun hb => .inr ((hB h hb).imp id And.right)
      | tail h1 h2 ih =>
        intro hb
        rcases hB h2 hb with h3 | ⟨h3, h4⟩
        · exact (hA' h1 h3).imp id fun ⟨h5, _⟩ => .inl h5
        · exact (ih h3).imp id (Or.imp id fun h5 => h5.trans h4)
    obtain ⟨p, hp⟩ := hend hcc
    have hcd : c ≠ dest := by rintro rfl; exact hC p hp
    by_cases hD : ∃ s ∈ S, Anc g s c
    · exact (hA' hcc hD).elim hcd fun h => Nat.lt_irrefl _ h.2
    · rcases hB' hcc hD with h | h | h
      · exact hcd h
      · exact hD h
      · exact Nat.lt_irrefl _ h
  · rintro ⟨⟨s, hs, hsd⟩, hv⟩
    by_cases ht : Topmost g (· ∈ S) dest
    · exact ⟨dest, .single (hM ▸ .inl (.inl ⟨ht, rfl⟩))⟩
    have hv := hv.resolve_right ht
    have key : ∀ n c, ageOf g.entries c = n → (∃ s ∈ S, Anc g s c) → Anc g c dest → Relation.TransGen M dest c := by
      intro n
      induction n using Nat.strongRecOn with
      | _ n ih =>
        rintro c hn ⟨s, hs, hsc⟩ hcd
        by_cases ht : Topmost g (· ∈ S) c
        · exact .single (hM ▸ .inl (.inl ⟨ht, rfl⟩))
        · obtain ⟨r, hr, hrc⟩ := topmost_below hg hs hsc
          rcases anc_iff.1 hrc with h | ⟨p, hp, hrp⟩
          · subst h; exact absurd hr ht
          · refine .tail (ih _ (hn ▸ age_lt hg hp) p rfl ⟨r, hr.1, hrp⟩ ((Anc.of_parent hp).trans hcd)) ?_
            rw [← hM]
            refine .inr ⟨?_, ⟨r, dest, .inl ⟨hr, rfl⟩, hrc⟩, hsa hcd hv, hp⟩
            rintro ⟨q, hq | hq⟩
            · exact ht hq.1
            · exact hne hq.2.2.1 hcd
    exact ⟨dest, key _ dest rfl ⟨s, hs, hsd⟩ .refl⟩

/-- C63: when sources are not inserted, and why. It is refused if one of the sources, of the children of
the destination or of their descendants is on the main branch (unless forced); if what is moved does not
have exactly one head (hidden descendants count as well, see `insert_hidden_heads`); or if the destination
itself would have to be moved. Otherwise there is a plan. Missing: merge commits above the sources. -/
theorem move_insert_plan_partial (graph : CommitGraph Oid) (hg : WFGraph graph) (main : Text) (w : RepoWorld)
    (hw : AMap.WF w.git.refs) (es : List Event) (he : w.db.getEvents = some es) (r : Replayer) (d : Dag)
    (h : openRepoDag graph main w = some (r, d)) (env : MoveCmdEnv) (hc : SetContract env) (S : List Oid)
    (hS : ∀ s ∈ S, s ∈ graph.nodes)
    (hm : ∀ c s, s ∈ S → Anc graph s c → (graph.parentsOf c).length ≤ 1) (dest : Oid) :
    let onMain := env.forceRewritePublicCommits = false ∧
      ∃ s c, (s ∈ S ∨ IsParent graph dest s) ∧ Anc graph s c ∧ OnMain graph main w.git c
    let oneHead := ∃ head, OnlyHead graph (· ∈ S) head
    let cycle := (∃ s ∈ S, Anc graph s dest) ∧
      (Seen graph main w.git es dest ∨ Topmost graph (· ∈ S) dest)
    let plan := movePlan env d false true S [] dest
    (onMain → ∃ l, plan = .ok (.error (.planner (.movePublicCommits l)))) ∧
    (¬ onMain → ¬ oneHead → plan = .ok (.error .severalHeads)) ∧
    (¬ onMain → oneHead → cycle → ∃ l, plan = .ok (.error (.planner (.constraintCycle l)))) ∧
    (¬ onMain → oneHead → ¬ cycle → ∃ p, plan = .ok (.ok (some p))) := by
  intro onMain oneHead cycle plan
  obtain ⟨hgr, -⟩ := graph_opened he h
  have hs : ∀ o, Seen graph main w.git es o ↔ o ∈ d.graph.nodes ∧
      ∃ x ∈ d.visibleHeads, Anc d.graph o x := by rw [hgr]; exact seen_opened hg hw he h
  have hpub := public_opened hw he h
  have hvis := mem_filterVisible_opened hg hw he h
  subst hgr
  have hsp : ∀ p c, IsParent d.graph p c → Seen d.graph main w.git es c → Seen d.graph main w.git es p := by
    intro p c hp hv
    rw [hs] at hv ⊢
    obtain ⟨_, x, hx, hcx⟩ := hv
    exact ⟨hp.parent_mem hg, x, hx, (Anc.of_parent hp).trans hcx⟩
  have hmv : ∀ x, x ∈ commitsToMove d false true S [] dest ↔ x ∈ S ∨ IsParent d.graph dest x := by
    intro x
    unfold commitsToMove
    simp [mem_children hg]
  have hon : (¬ ∃ p, verifyRewriteSet d env.forceRewritePublicCommits env.detectDuplicateCommitsViaPatchId
      (commitsToMove d false true S [] dest) = .ok p) ↔ onMain := by
    rw [verify_rewrite_set_iff d hg, not_or, Bool.not_eq_true]
    refine and_congr_right fun _ => ?_
    push Not
    constructor
    · rintro ⟨s, h1, c, h2, h3, h4⟩; exact ⟨s, c, (hmv s).1 h1, h3, (hpub c).1 h4⟩
    · rintro ⟨s, c, h1, h3, h4⟩
      refine ⟨s, (hmv s).2 h1, c, h3.mem_up ?_, h3, (hpub c).2 h4⟩
      exact h1.elim (hS s) fun h => h.child_mem
  obtain ⟨k1, k2⟩ := moveRequests_insert hc hg (S := S) hvis (dest := dest)
  cases hv' : verifyRewriteSet d env.forceRewritePublicCommits env.detectDuplicateCommitsViaPatchId
      (commitsToMove d false true S [] dest) with
  | error e =>
    have hon' : onMain := hon.1 (by rw [hv']; simp)
    exact ⟨fun _ => movePlan_public hv', fun h => absurd hon' h, fun h => absurd hon' h, fun h => absurd hon' h⟩
  | ok perms =>
    have hon' : ¬ onMain := fun h => (hon.2 h) ⟨perms, hv'⟩
    refine ⟨fun h => absurd h hon', fun _ hno => movePlan_refused hv' (k2 hno), ?_, ?_⟩
    · rintro - ⟨head, hh⟩ hcy
      obtain ⟨rs, hcs, hr⟩ := k1 head hh
      exact movePlan_cycle hv' hcs (amountTo_subtrees hg hs hr fun p q c => sourceInsert_unique)
        ((insert_cycle_iff hg hsp hm hh).2 hcy)
    · rintro - ⟨head, hh⟩ hcy
      obtain ⟨rs, hcs, hr⟩ := k1 head hh
      obtain ⟨p, hp1, hp2⟩ := movePlan_planned hv' hcs
        (amountTo_subtrees hg hs hr fun p q c => sourceInsert_unique)
        (fun h => hcy ((insert_cycle_iff hg hsp hm hh).1 h)) (by
          intro p c hpc
          rw [verify_rewrite_set_allows d hg _ _ _ _ hv']
          have hreq : ∀ q c, SourceInsert d.graph (Seen d.graph main w.git es) (· ∈ S) dest head q c →
              c ∈ d.graph.nodes ∧ c ∈ commitsToMove d false true S [] dest := by
            rintro q c (hq | hq)
            · exact ⟨hS c hq.1.1, (hmv c).2 (.inl hq.1.1)⟩
            · exact ⟨hq.2.2.1.child_mem, (hmv c).2 (.inr hq.2.2.1)⟩
          rcases hpc with hpc | ⟨_, ⟨s, q, hq, hsc⟩, _, _⟩
          · obtain ⟨h1, h2⟩ := hreq p c hpc
            exact ⟨h1, c, h2, .refl⟩
          · obtain ⟨h1, h2⟩ := hreq q s hq
            exact ⟨hsc.mem_up h1, s, h2, hsc⟩)
      cases p with
      | some p => exact ⟨p, hp1⟩
      | none =>
        exfalso
        obtain ⟨s, hs', _⟩ := ((hh head).1 rfl).2.1
        obtain ⟨r, hr', _⟩ := topmost_below hg hs' (c := s) .refl
        exact hp2.1 rfl ⟨dest, r, .inl (.inl ⟨hr', rfl⟩)⟩

/-- C63: a rebase in memory inserts the sources: they are put on the destination, and what was on the
destination is put on the head of what is moved. Everything else goes along. Missing: merge commits among
the sources and the children of the destination. -/
theorem move_insert_in_memory_partial (graph : CommitGraph Oid) (hg : WFGraph graph) (main : Text)
    (w : RepoWorld) (hw : AMap.WF w.git.refs) (es : List Event) (he : w.db.getEvents = some es)
    (r : Replayer) (d : Dag) (h : openRepoDag graph main w = some (r, d)) (env : MoveCmdEnv)
    (hc : SetContract env) (S : List Oid) (dest : Oid)
    (hm : ∀ c, Topmost graph (· ∈ S) c → (graph.parentsOf c).length ≤ 1)
    (hm' : ∀ c, IsParent graph dest c → Seen graph main w.git es c → c ∉ S → (graph.parentsOf c).length ≤ 1)
    (plan : RebasePlan) (hp : movePlan env d false true S [] dest = .ok (.ok (some plan)))
    (hn : NoCollisions env.exec) (head : Option Oid) (s : ExecState) (newHead : Option Oid)
    (hx : env.exec.rebaseInMemory head plan = .ok (s, newHead)) :
    ∃ top, OnlyHead graph (· ∈ S) top ∧
      let seen := Seen graph main w.git es
      let moves := Carried graph seen fun p c => SourceRequest graph (· ∈ S) dest p c ∨
        InsertRequest graph seen (· ∈ S) dest top p c
      Relocated env.exec moves (fun c => env.detectDuplicateCommitsViaPatchId = true ∧
        AppliedUpstream graph env.patchId moves c) s head newHead := by
  obtain ⟨hgr, -⟩ := graph_opened he h
  have hs : ∀ o, Seen graph main w.git es o ↔ o ∈ d.graph.nodes ∧
      ∃ x ∈ d.visibleHeads, Anc d.graph o x := by rw [hgr]; exact seen_opened hg hw he h
  have hvis := mem_filterVisible_opened hg hw he h
  subst hgr
  obtain ⟨perms, cs, _, _, hcs, _⟩ := movePlan_some hp
  obtain ⟨k1, k2⟩ := moveRequests_insert hc hg (S := S) hvis (dest := dest)
  by_cases hh : ∃ top, OnlyHead d.graph (· ∈ S) top
  · obtain ⟨top, hh⟩ := hh
    obtain ⟨rs, hcs', hr⟩ := k1 top hh
    refine ⟨top, hh, ?_⟩
    refine movePlan_relocated hg hp hcs' ?_ hs hr (fun p q c => sourceInsert_unique) hn hx
    intro p c hpc
    rcases (hr p c).1 hpc with h1 | h1
    · exact hm c h1.1
    · exact hm' c h1.2.2.1 h1.2.1 h1.1
  · rw [k2 hh] at hcs
    simp at hcs

/-! ### selected commits -/

/-- C63: a rebase in memory inserts the selected commits: they are moved as without `--insert` (see
`move_exact_in_memory_partial`), and what was on the destination is put on the topmost of them. Missing:
merge commits among the selected ones, their children and the children of the destination. The commits
which are put on the destination because they were on top of selected ones stay there, see
`insert_misses_new_child`. -/
theorem move_exact_insert_in_memory_partial (graph : CommitGraph Oid) (hg : WFGraph graph) (main : Text)
    (w : RepoWorld) (hw : AMap.WF w.git.refs) (es : List Event) (he : w.db.getEvents = some es)
    (r : Replayer) (d : Dag) (h : openRepoDag graph main w = some (r, d)) (env : MoveCmdEnv)
    (hc : SetContract env) (X : List Oid) (hn : ∀ x ∈ X, x ∈ graph.nodes)
    (hX : ∀ x ∈ X, (graph.parentsOf x).length ≤ 1)
    (hch : ∀ c x, c ∉ X → Seen graph main w.git es c → x ∈ X → IsParent graph x c →
      (graph.parentsOf c).length ≤ 1)
    (comps : AMap Oid (List Oid)) (hcomps : exactComponents env d X = .ok (.ok comps)) (dest : Oid)
    (hd : dest ∉ X) (hdc : ∀ c, c ∉ X → Seen graph main w.git es c → IsParent graph dest c →
      (graph.parentsOf c).length ≤ 1)
    (plan : RebasePlan) (hp : movePlan env d false true [] comps dest = .ok (.ok (some plan)))
    (hnc : NoCollisions env.exec) (head : Option Oid) (s : ExecState) (newHead : Option Oid)
    (hx : env.exec.rebaseInMemory head plan = .ok (s, newHead)) :
    let seen := Seen graph main w.git es
    let request := ExactRequest graph seen (· ∈ X) dest
    ∃ top, ∃ place : Oid → Oid, ExactHead graph (· ∈ X) top ∧ (∀ p c, request p c → request (place c) c) ∧
      let moves := Carried graph seen fun p c => (request p c ∧ p = place c) ∨
        InsertRequest graph seen (· ∈ X) dest top p c
      Relocated env.exec moves (fun c => env.detectDuplicateCommitsViaPatchId = true ∧
        AppliedUpstream graph env.patchId moves c) s head newHead := by
  intro seen request
  obtain ⟨hgr, -⟩ := graph_opened he h
  have hs : ∀ o, Seen graph main w.git es o ↔ o ∈ d.graph.nodes ∧
      ∃ x ∈ d.visibleHeads, Anc d.graph o x := by rw [hgr]; exact seen_opened hg hw he h
  have hv := mem_filterVisible_opened hg hw he h
  subst hgr
  have hC := exactComponents_ok hc hg hcomps
  obtain ⟨perms, cs, _, _, hcs, _⟩ := movePlan_some hp
  obtain ⟨rs0, rs, top, h0, hsame, htop, hrs, h1, h2, h4, h5⟩ :=
    exact_insert_right hc hg hC hn hX hv hch hd hdc hcs
  have h3 : ∀ p c, request p c → ∃ q, (c, q) ∈ rs0 := by
    rintro p c (⟨ht, _⟩ | ⟨h6, h7, ⟨x, hx, hxc⟩, _⟩)
    · exact h4 c ht
    · exact h5 c x h6 h7 hx hxc
  have hex : ∀ c, ∃ p, ((∃ q, request q c) → (c, p) ∈ rs0) := by
    intro c
    by_cases hq : ∃ q, request q c
    · obtain ⟨q, hq⟩ := hq
      obtain ⟨p, hp⟩ := h3 q c hq
      exact ⟨p, fun _ => hp⟩
    · exact ⟨c, fun h => absurd h hq⟩
  choose place hplace using hex
  refine ⟨top, place, htop, fun p c hpc => h1 _ _ (hplace c ⟨p, hpc⟩), ?_⟩
  have hreq : ∀ p c, (c, p) ∈ rs ↔ (request p c ∧ p = place c) ∨ InsertRequest d.graph seen (· ∈ X) dest top p c := by
    intro p c
    rw [hrs]
    refine or_congr ⟨fun hpc => ?_, ?_⟩ Iff.rfl
    · exact ⟨h1 p c hpc, h2 _ _ _ ((hrs p c).2 (.inl hpc)) ((hrs _ c).2 (.inl (hplace c ⟨p, h1 p c hpc⟩)))⟩
    · rintro ⟨hpc, rfl⟩
      exact hplace c ⟨_, hpc⟩
  refine movePlan_relocated_sameAs hg hp hcs hsame ?_ hs hreq ?_ hnc hx
  · intro p c hpc
    rcases (hrs p c).1 hpc with hpc | ⟨h6, h7, h8, _⟩
    · rcases h1 p c hpc with ⟨ht, _⟩ | ⟨h4, h5, ⟨x, hx, hxc⟩, _⟩
      · exact hX c ht.1
      · exact hch c x h4 h5 hx hxc
    · exact hdc c h6 h7 h8
  · intro p q c hp hq
    exact h2 p q c ((hreq p c).2 hp) ((hreq q c).2 hq)

/-- If the destination is not selected, there is no cycle. -/
theorem exact_insert_acyclic {g : CommitGraph Oid} (hg : WFGraph g) {seen : Oid → Prop} {X : List Oid}
    {dest head : Oid} (hd : dest ∉ X) (hhead : head ∈ X) {req0 req : Oid → Oid → Prop}
    (hreq : ∀ p c, req p c ↔ req0 p c ∨ InsertRequest g seen (· ∈ X) dest head p c)
    (h1 : ∀ p c, req0 p c → ExactRequest g seen (· ∈ X) dest p c)
    (hX : ∀ x ∈ X, (g.parentsOf x).length ≤ 1)
    (h3 : ∀ c x, c ∉ X → seen c → x ∈ X → IsParent g x c → ∃ q, req0 q c)
    (h4 : ∀ c, Topmost g (· ∈ X) c → ∃ q, req0 q c) :
    ¬ ∃ c, Relation.TransGen (Carried g seen req) c c := by
  have hne : ∀ {c}, IsParent g dest c → ¬ Anc g c dest := by
    intro c hp ha
    have := (Anc.of_parent hp).antisymm hg ha
    subst this
    exact not_isParent_self hg hp
  have hout : ∀ {p c}, Carried g seen req p c → c ∉ X →
      (p ∉ X ∧ Anc g p c ∧ ageOf g.entries p < ageOf g.entries c) ∨ (p ∈ X ∧ IsParent g dest c) := by
    rintro p c (h | ⟨h, ⟨s, q, hq, hsc⟩, hv, hp⟩) hc
    · rcases (hreq p c).1 h with h | ⟨_, _, h5, rfl⟩
      · rcases h1 p c h with ⟨ht, _⟩ | ⟨_, _, _, h⟩
        · exact absurd ht.1 hc
        · exact .inl (nearestOutside_below hg h)
      · exact .inr ⟨hhead, h5⟩
    · refine .inl ⟨fun hpX => h ?_, .of_parent hp, age_lt hg hp⟩
      obtain ⟨q, hq⟩ := h3 c p hc hv hpX hp
      exact ⟨q, (hreq q c).2 (.inl hq)⟩
  have hin : ∀ {p c}, Carried g seen req p c → c ∈ X →
      (p ∈ X ∧ ageOf g.entries p < ageOf g.entries c) ∨ p = dest := by
    rintro p c (h | ⟨h, ⟨s, q, hq, hsc⟩, hv, hp⟩) hc
    · rcases (hreq p c).1 h with h | ⟨h5, _⟩
      · rcases h1 p c h with ⟨_, ⟨h5, h6, h7, _⟩ | ⟨h5, _⟩⟩ | ⟨h5, _⟩
        · left
          refine ⟨h5, ?_⟩
          rcases anc_iff.1 h7 with h | ⟨y, hy, hpy⟩
          · exact absurd h h6
          · exact Nat.lt_of_le_of_lt (age_le hg hpy) (age_lt hg hy)
        · exact .inr h5
        · exact absurd hc h5
      · exact absurd hc h5
    · by_cases ht : Topmost g (· ∈ X) c
      · obtain ⟨q, hq⟩ := h4 c ht
        exact absurd ⟨q, (hreq q c).2 (.inl hq)⟩ h
      · left
        refine ⟨?_, age_lt hg hp⟩
        unfold Topmost at ht
        push Not at ht
        obtain ⟨p', hp', hpX⟩ := ht hc
        rwa [parent_unique hg (hX c hc) hp hp']
  have hbelow : ∀ {a b}, Relation.TransGen (Carried g seen req) a b → b ∉ X → Anc g b dest →
      a ∉ X ∧ Anc g a dest ∧ ageOf g.entries a < ageOf g.entries b := by
    intro a b h
    induction h with
    | single h =>
      intro hb hbd
      rcases hout h hb with ⟨h5, h6, h7⟩ | ⟨_, h5⟩
      · exact ⟨h5, h6.trans hbd, h7⟩
      · exact absurd hbd (hne h5)
    | tail _ h ih =>
      intro hb hbd
      rcases hout h hb with ⟨h5, h6, h7⟩ | ⟨_, h5⟩
      · obtain ⟨h8, h9, h10⟩ := ih h5 (h6.trans hbd)
        exact ⟨h8, h9, h10.trans h7⟩
      · exact absurd hbd (hne h5)
  have hin' : ∀ {a b}, Relation.TransGen (Carried g seen req) a b → b ∈ X →
      (a ∈ X ∧ ageOf g.entries a < ageOf g.entries b) ∨ (a ∉ X ∧ Anc g a dest) := by
    intro a b h
    induction h with
    | single h =>
      intro hb
      rcases hin h hb with h | h
      · exact .inl h
      · subst h; exact .inr ⟨hd, .refl⟩
    | tail h' h ih =>
      intro hb
      rcases hin h hb with ⟨h5, h6⟩ | h
      · exact (ih h5).imp (fun ⟨h7, h8⟩ => ⟨h7, h8.trans h6⟩) id
      · subst h
        obtain ⟨h5, h6, _⟩ := hbelow h' hd .refl
        exact .inr ⟨h5, h6⟩
  have hout' : ∀ {a b}, Relation.TransGen (Carried g seen req) a b → b ∉ X →
      ageOf g.entries a < ageOf g.entries b ∨ a ∈ X ∨ (a ∉ X ∧ Anc g a dest) := by
    intro a b h
    induction h with
    | single h =>
      intro hb
      rcases hout h hb with ⟨_, _, h⟩ | ⟨h, _⟩
      · exact .inl h
      · exact .inr (.inl h)
    | tail h' h ih =>
      intro hb
      rcases hout h hb with ⟨h5, _, h6⟩ | ⟨h5, _⟩
      · exact (ih h5).imp (fun h7 => h7.trans h6) id
      · rcases hin' h' h5 with ⟨h7, _⟩ | h7
        · exact .inr (.inl h7)
        · exact .inr (.inr h7)
  rintro ⟨c, hcc⟩
  by_cases hcX : c ∈ X
  · rcases hin' hcc hcX with ⟨_, h⟩ | ⟨h, _⟩
    · exact Nat.lt_irrefl _ h
    · exact h hcX
  · rcases hout' hcc hcX with h | h | ⟨_, h⟩
    · exact Nat.lt_irrefl _ h
    · exact hcX h
    · exact Nat.lt_irrefl _ (hbelow hcc hcX h).2.2

/-- C63: when the selected commits are not inserted, and why. It is refused if one of them, of the children
of the destination or of their descendants is on the main branch (unless forced), if there is no line
through the groups of selected commits, or if the last group has several heads. Otherwise there is a plan.
Missing: merge commits, and the destination is not selected itself. -/
theorem move_exact_insert_plan_partial (graph : CommitGraph Oid) (hg : WFGraph graph) (main : Text)
    (w : RepoWorld) (hw : AMap.WF w.git.refs) (es : List Event) (he : w.db.getEvents = some es)
    (r : Replayer) (d : Dag) (h : openRepoDag graph main w = some (r, d)) (env : MoveCmdEnv)
    (hc : SetContract env) (hsort : SortContract env.nav.sortBy) (X : List Oid)
    (hn : ∀ x ∈ X, x ∈ graph.nodes) (hX : ∀ x ∈ X, (graph.parentsOf x).length ≤ 1)
    (hch : ∀ c x, c ∉ X → Seen graph main w.git es c → x ∈ X → IsParent graph x c →
      (graph.parentsOf c).length ≤ 1)
    (hord : Orderly graph env.nav.time (Topmost graph (· ∈ X)))
    (comps : AMap Oid (List Oid)) (hcomps : exactComponents env d X = .ok (.ok comps)) (dest : Oid)
    (hd : dest ∉ X) (hdc : ∀ c, c ∉ X → Seen graph main w.git es c → IsParent graph dest c →
      (graph.parentsOf c).length ≤ 1) :
    let onMain := env.forceRewritePublicCommits = false ∧
      ∃ s c, (s ∈ X ∨ IsParent graph dest s) ∧ Anc graph s c ∧ OnMain graph main w.git c
    let plan := movePlan env d false true [] comps dest
    (onMain → ∃ l, plan = .ok (.error (.planner (.movePublicCommits l)))) ∧
    (¬ onMain → ¬ OneLine graph X → (∃ c, plan = .ok (.error (.severalDestinations c))) ∨
      ∃ a b, plan = .ok (.error (.noLineage a b))) ∧
    (¬ onMain → OneLine graph X → (¬ ∃ top, ExactHead graph (· ∈ X) top) →
      plan = .ok (.error .severalHeads)) ∧
    (¬ onMain → OneLine graph X → (∃ top, ExactHead graph (· ∈ X) top) →
      ∃ p, plan = .ok (.ok (some p))) := by
  intro onMain plan
  obtain ⟨hgr, -⟩ := graph_opened he h
  have hs : ∀ o, Seen graph main w.git es o ↔ o ∈ d.graph.nodes ∧
      ∃ x ∈ d.visibleHeads, Anc d.graph o x := by rw [hgr]; exact seen_opened hg hw he h
  have hpub := public_opened hw he h
  have hv := mem_filterVisible_opened hg hw he h
  subst hgr
  have hC := exactComponents_ok hc hg hcomps
  have hmv : ∀ x, x ∈ commitsToMove d false true [] comps dest ↔ x ∈ X ∨ IsParent d.graph dest x := by
    intro x
    unfold commitsToMove
    simp only [Bool.or_false, if_true, List.nil_append, List.mem_append, List.mem_flatMap, Prod.exists, hC.cover,
      mem_children hg, List.mem_singleton, exists_eq_left]
  have hon : (¬ ∃ p, verifyRewriteSet d env.forceRewritePublicCommits env.detectDuplicateCommitsViaPatchId
      (commitsToMove d false true [] comps dest) = .ok p) ↔ onMain := by
    rw [verify_rewrite_set_iff d hg, not_or, Bool.not_eq_true]
    refine and_congr_right fun _ => ?_
    push Not
    constructor
    · rintro ⟨s, h1, c, h2, h3, h4⟩; exact ⟨s, c, (hmv s).1 h1, h3, (hpub c).1 h4⟩
    · rintro ⟨s, c, h1, h3, h4⟩
      exact ⟨s, (hmv s).2 h1, c, h3.mem_up (h1.elim (hn s) fun h => h.child_mem), h3, (hpub c).2 h4⟩
  have hkeys : ∀ x, x ∈ comps.keys ↔ Topmost d.graph (· ∈ X) x := by
    intro x
    rw [hC.topmost_iff]
    simp [AMap.keys]
  have hline : lineageBreak d (sortedCommitSet env.nav d comps.keys) = none ↔ OneLine d.graph X := by
    obtain ⟨_, hr, hsd⟩ := sorted_commit_set_sorted env.nav hsort (fun l => ⟨hc.nodup l, hc.mem l⟩) d hg comps.keys
      (fun x hx => hn x ((hkeys x).1 hx).1)
    simp only [hc.exist, and_true, hkeys] at hr hsd
    have hsd := hsd hord
    rw [lineageBreak_none_iff hg fun x hx => hn x ((hr x).1 hx).1]
    constructor
    · intro hp a b ha hb
      by_cases hab : a = b
      · subst hab; exact .inl .refl
      · exact pairwise_either hp ((hr a).2 ha) ((hr b).2 hb) hab
    · intro hl
      refine hsd.imp_of_mem ?_
      intro a b ha hb hab
      rcases hab.2 with h | ⟨h, _⟩
      · exact h
      · exact (hl a b ((hr a).1 ha) ((hr b).1 hb)).resolve_right h
  have hroots : ∀ x, x ∈ sortedCommitSet env.nav d comps.keys ↔ x ∈ comps.keys := fun x => mem_sortedCommitSet hc
  obtain ⟨k1, k2, k3⟩ := moveRequests_exact_insert hc hg hC hv dest
  obtain ⟨hf1, hf2⟩ := exact_fork hc hg hC hn hsort hord dest
  obtain ⟨hh1, hh2⟩ := sourceHead_exact hc hg hC hn hX hroots
  have hnofork : OneLine d.graph X → ¬ Fork d.graph X := by
    rintro hl ⟨a, b, c, ha, hb, _, _, _, _, _, hab, hba⟩
    exact (hl a b ha hb).elim hab hba
  cases hv' : verifyRewriteSet d env.forceRewritePublicCommits env.detectDuplicateCommitsViaPatchId
      (commitsToMove d false true [] comps dest) with
  | error e =>
    have hon' : onMain := hon.1 (by rw [hv']; simp)
    exact ⟨fun _ => movePlan_public hv', fun h => absurd hon' h, fun h => absurd hon' h, fun h => absurd hon' h⟩
  | ok perms =>
    have hon' : ¬ onMain := fun h => (hon.2 h) ⟨perms, hv'⟩
    refine ⟨fun h => absurd h hon', fun _ hl => ?_, fun _ hl hno => ?_, fun _ hl ⟨top, htop⟩ => ?_⟩
    · by_cases hf : Fork d.graph X
      · obtain ⟨c, hcs⟩ := hf1 hf
        exact .inl ⟨c, movePlan_refused hv' (k2 _ hcs)⟩
      · obtain ⟨cs, hcs⟩ := hf2 hf
        rw [← hline] at hl
        cases hlb : lineageBreak d (sortedCommitSet env.nav d comps.keys) with
        | none => exact absurd hlb hl
        | some ab =>
          right
          have : sourceHead env d comps (sortedCommitSet env.nav d comps.keys) [] = .error (.noLineage ab.1 ab.2) := by
            unfold sourceHead
            rw [hlb]
          exact ⟨ab.1, ab.2, movePlan_refused hv' ((k3 cs hcs).1 _ this)⟩
    · obtain ⟨cs, hcs⟩ := hf2 (hnofork hl)
      cases hsh : sourceHead env d comps (sortedCommitSet env.nav d comps.keys) [] with
      | ok top => exact absurd ⟨top, ((hh1 top).1 hsh).2⟩ hno
      | error e =>
        rcases hh2 e hsh with ⟨a, b, h1, _⟩ | ⟨_, rfl⟩
        · rw [hline.2 hl] at h1; simp at h1
        · exact movePlan_refused hv' ((k3 cs hcs).1 _ hsh)
    · obtain ⟨cs, hcs⟩ := hf2 (hnofork hl)
      obtain ⟨cs1, hcs1, -, -⟩ := (k3 cs hcs).2 top ((hh1 top).2 ⟨hline.2 hl, htop⟩)
      obtain ⟨rs0, rs, top', h0, hsame, htop', hrs, h1, h2, h4, h5⟩ :=
        exact_insert_right hc hg hC hn hX hv hch hd hdc hcs1
      have hbelow0 := exact_below (seen := Seen d.graph main w.git es) hn h1
      have hreq : ∀ p c, (c, p) ∈ rs → c ∈ d.graph.nodes ∧
          ∃ s ∈ commitsToMove d false true [] comps dest, Anc d.graph s c := by
        intro p c hpc
        rcases (hrs p c).1 hpc with hpc | ⟨_, _, h8, _⟩
        · obtain ⟨h6, x, hx, hxc⟩ := hbelow0 p c (.inl hpc)
          exact ⟨h6, x, (hmv x).2 (.inl hx), hxc⟩
        · exact ⟨h8.child_mem, c, (hmv c).2 (.inr h8), .refl⟩
      obtain ⟨p, hp1, hp2⟩ := movePlan_planned hv' hcs1
        (amountTo_sameAs hg hsame hs (req := fun p c => (c, p) ∈ rs) (fun p c => Iff.rfl) h2)
        (exact_insert_acyclic hg hd ((htop' top').1 rfl).1 (req0 := fun p c => (c, p) ∈ rs0) hrs h1 hX h5 h4) (by
          intro p c hpc
          rw [verify_rewrite_set_allows d hg _ _ _ _ hv']
          rcases hpc with hpc | ⟨_, ⟨s, q, hq, hsc⟩, _, _⟩
          · exact hreq p c hpc
          · obtain ⟨h6, x, hx, hxs⟩ := hreq q s hq
            exact ⟨hsc.mem_up h6, x, hx, hxs.trans hsc⟩)
      cases p with
      | some p => exact ⟨p, hp1⟩
      | none =>
        exfalso
        obtain ⟨r, hr', _⟩ := topmost_below hg ((htop top).1 rfl).1 (c := top) .refl
        obtain ⟨q, hq⟩ := h4 r hr'
        exact hp2.1 rfl ⟨q, r, .inl ((hrs q r).2 (.inl hq))⟩

/-! ### the command -/

/-- C63: what the whole command does with `--insert` and sources or bases, if it succeeds in memory; see
`move_insert_in_memory_partial`. -/
theorem move_insert_command_partial (graph : CommitGraph Oid) (hg : WFGraph graph) (main : Text)
    (w : RepoWorld) (hw : AMap.WF w.git.refs) (es : List Event) (he : w.db.getEvents = some es)
    (env : MoveCmdEnv) (hc : SetContract env) (ho : InMemoryOnly env.options) (hnc : NoCollisions env.exec)
    (tx : Option Text) (args : MoveArgs) (hex : args.exacts = []) (hfix : args.fixup = false)
    (hins : args.insert = true) (hS : ∀ x ∈ args.sources, x ∈ graph.nodes)
    (hB : ∀ x, IsBaseArg args x → x ∈ graph.nodes)
    (hm : ∀ c, (c ∈ args.sources ∨ ∃ x dest, IsBaseArg args x ∧ IsDest args dest ∧ IsBase graph x dest c) →
      (graph.parentsOf c).length ≤ 1)
    (hm' : ∀ c dest, IsDest args dest → IsParent graph dest c → Seen graph main w.git es c →
      (graph.parentsOf c).length ≤ 1)
    (w' : RepoWorld) (h : moveCommits env main graph tx w args = (w', .done)) :
    ∃ dest, ∃ base : Oid → Oid, IsDest args dest ∧ (∀ x, IsBaseArg args x → IsBase graph x dest (base x)) ∧
      let S := fun s => s ∈ args.sources ∨ ∃ x, IsBaseArg args x ∧ s = base x
      let seen := Seen graph main w.git es
      let w0 := { w with db := (w.db.makeTransactionId tx t!"move").2 }
      ∃ top, OnlyHead graph S top ∧
      let moves := Carried graph seen fun p c => SourceRequest graph S dest p c ∨
        InsertRequest graph seen S dest top p c
      ∃ s newHead ok, Relocated env.exec moves (fun c => env.detectDuplicateCommitsViaPatchId = true ∧
          AppliedUpstream graph env.patchId moves c) s w.git.headInfo.oid newHead ∧
        postRebaseInMemory (env.finish s.created) w0 s.rewritten newHead = (w', .ok ok) := by
  obtain ⟨r, d, sources, components, dest, hd, hi, hx⟩ := moveCommits_cases h
  rw [hfix, hins] at hx
  obtain ⟨hgr, -⟩ := graph_opened he hd
  obtain ⟨rfl, h1, base, h2, h3⟩ := move_inputs_exact env hc d (hgr ▸ hg) args hex (by rw [hgr]; exact hB)
    sources components dest hi
  rw [hgr] at h2
  refine ⟨dest, base, h1, h2, ?_⟩
  have hSe : (fun s => s ∈ args.sources ∨ ∃ x, IsBaseArg args x ∧ s = base x) = (· ∈ sources) := by
    funext s; exact propext (h3 s).symm
  rw [hSe]
  intro S seen w0
  have hnodes : ∀ s ∈ sources, s ∈ graph.nodes := by
    intro s hs
    rcases (h3 s).1 hs with h | ⟨x, hxb, rfl⟩
    · exact hS s h
    · have hxn := hB x hxb
      rcases h2 x hxb with ⟨_, h⟩ | ⟨_, h, _⟩
      · rw [h]; exact hxn
      · exact h.mem hg hxn
  rcases executeMove_done ho hx with ⟨hp, rfl⟩ | ⟨plan, s, newHead, ok, hp, h4, h5⟩
  · exfalso
    have hs : ∀ o, Seen graph main w.git es o ↔ o ∈ d.graph.nodes ∧
        ∃ x ∈ d.visibleHeads, Anc d.graph o x := by rw [hgr]; exact seen_opened hg hw he hd
    have hvis := mem_filterVisible_opened hg hw he hd
    subst hgr
    obtain ⟨perms, cs, hv', _, hcs, hb⟩ := movePlan_ok hp
    obtain ⟨k1, k2⟩ := moveRequests_insert hc hg (S := sources) hvis (dest := dest)
    by_cases hh : ∃ top, OnlyHead d.graph (· ∈ sources) top
    · obtain ⟨top, hh⟩ := hh
      obtain ⟨rs, hcs', hr⟩ := k1 top hh
      obtain ⟨s0, hs0, hs1⟩ := ((hh top).1 rfl).2.1
      obtain ⟨r0, hr0, _⟩ := topmost_below hg hs0 hs1
      refine movePlan_none (M := Carried d.graph (Seen d.graph main w.git es)
        (SourceInsert d.graph (Seen d.graph main w.git es) (· ∈ sources) dest top)) ?_ hp
        ⟨dest, r0, .inl (.inl ⟨hr0, rfl⟩)⟩
      intro perms' cs' hv'' hcs''
      rw [hcs'] at hcs''
      simp only [Except.ok.injEq] at hcs''
      subst hcs''
      refine ⟨amountTo_subtrees hg hs hr fun p q c => sourceInsert_unique, ?_⟩
      intro p c hpc
      have hmv : ∀ x, x ∈ commitsToMove d false true sources [] dest ↔ x ∈ sources ∨ IsParent d.graph dest x := by
        intro x
        unfold commitsToMove
        simp [mem_children hg]
      rw [verify_rewrite_set_allows d hg _ _ _ _ hv'']
      have hreq : ∀ q c, SourceInsert d.graph (Seen d.graph main w.git es) (· ∈ sources) dest top q c →
          c ∈ d.graph.nodes ∧ c ∈ commitsToMove d false true sources [] dest := by
        rintro q c (hq | hq)
        · exact ⟨hnodes c hq.1.1, (hmv c).2 (.inl hq.1.1)⟩
        · exact ⟨hq.2.2.1.child_mem, (hmv c).2 (.inr hq.2.2.1)⟩
      rcases hpc with hpc | ⟨_, ⟨s, q, hq, hsc⟩, _, _⟩
      · obtain ⟨h1, h2⟩ := hreq p c hpc
        exact ⟨h1, c, h2, .refl⟩
      · obtain ⟨h1, h2⟩ := hreq q s hq
        exact ⟨hsc.mem_up h1, s, h2, hsc⟩
    · rw [k2 hh] at hcs
      simp at hcs
  · obtain ⟨top, h6, h7⟩ := move_insert_in_memory_partial graph hg main w hw es he r d hd env hc sources dest
      (fun c hcT => hm c (((h3 c).1 hcT.1).imp id fun ⟨x, hxb, e⟩ => ⟨x, dest, hxb, h1, e ▸ h2 x hxb⟩))
      (fun c hp hs _ => hm' c dest h1 hp hs) plan hp hnc _ s newHead h4
    exact ⟨top, h6, s, newHead, ok, h7, h5⟩

/-- C63: what the whole command does with `--insert` and `--exact`, if it succeeds in memory; see
`move_exact_insert_in_memory_partial`. -/
theorem move_exact_insert_command_partial (graph : CommitGraph Oid) (hg : WFGraph graph) (main : Text)
    (w : RepoWorld) (hw : AMap.WF w.git.refs) (es : List Event) (he : w.db.getEvents = some es)
    (env : MoveCmdEnv) (hc : SetContract env) (ho : InMemoryOnly env.options) (hnc : NoCollisions env.exec)
    (tx : Option Text) (args : MoveArgs) (hs : args.sources = []) (hb : args.bases = [])
    (hp : args.provided = true) (hfix : args.fixup = false) (hins : args.insert = true)
    (hn : ∀ x ∈ args.exacts, x ∈ graph.nodes) (hX : ∀ x ∈ args.exacts, (graph.parentsOf x).length ≤ 1)
    (hch : ∀ c x, c ∉ args.exacts → Seen graph main w.git es c → x ∈ args.exacts → IsParent graph x c →
      (graph.parentsOf c).length ≤ 1)
    (hd : ∀ dest, IsDest args dest → dest ∉ args.exacts)
    (hdc : ∀ c dest, IsDest args dest → c ∉ args.exacts → Seen graph main w.git es c → IsParent graph dest c →
      (graph.parentsOf c).length ≤ 1)
    (w' : RepoWorld) (h : moveCommits env main graph tx w args = (w', .done)) :
    ∃ dest, IsDest args dest ∧
      let X := fun x => x ∈ args.exacts
      let seen := Seen graph main w.git es
      let request := ExactRequest graph seen X dest
      let w0 := { w with db := (w.db.makeTransactionId tx t!"move").2 }
      ∃ top, ∃ place : Oid → Oid, ExactHead graph X top ∧ (∀ p c, request p c → request (place c) c) ∧
        let moves := Carried graph seen fun p c => (request p c ∧ p = place c) ∨
          InsertRequest graph seen X dest top p c
        ∃ s newHead ok, Relocated env.exec moves (fun c => env.detectDuplicateCommitsViaPatchId = true ∧
            AppliedUpstream graph env.patchId moves c) s w.git.headInfo.oid newHead ∧
          postRebaseInMemory (env.finish s.created) w0 s.rewritten newHead = (w', .ok ok) := by
  obtain ⟨r, d, sources, comps, dest, hdag, hi, hx⟩ := moveCommits_cases h
  rw [hfix, hins] at hx
  obtain ⟨hcomps, rfl, hdest⟩ := moveInputs_exact_args hc hs hb hp hi
  refine ⟨dest, hdest, ?_⟩
  intro X seen request w0
  rcases executeMove_done ho hx with ⟨hpl, rfl⟩ | ⟨plan, s, newHead, ok, hpl, h4, h5⟩
  · exfalso
    obtain ⟨hgr, -⟩ := graph_opened he hdag
    have hs' : ∀ o, Seen graph main w.git es o ↔ o ∈ d.graph.nodes ∧
        ∃ x ∈ d.visibleHeads, Anc d.graph o x := by rw [hgr]; exact seen_opened hg hw he hdag
    have hvis := mem_filterVisible_opened hg hw he hdag
    subst hgr
    have hC := exactComponents_ok hc hg hcomps
    obtain ⟨perms, cs, hv', _, hcs, _⟩ := movePlan_ok hpl
    obtain ⟨rs0, rs, top, h0, hsame, htop, hrs, h1, h2, h4, h5⟩ :=
      exact_insert_right hc hg hC hn hX hvis hch (hd dest hdest) (fun c => hdc c dest hdest) hcs
    obtain ⟨r0, hr0, _⟩ := topmost_below hg ((htop top).1 rfl).1 (c := top) .refl
    obtain ⟨q, hq⟩ := h4 r0 hr0
    refine movePlan_none (M := Carried d.graph (Seen d.graph main w.git es) fun p c => (c, p) ∈ rs) ?_ hpl
      ⟨q, r0, .inl ((hrs q r0).2 (.inl hq))⟩
    intro perms' cs' hv'' hcs''
    rw [hcs] at hcs''
    simp only [Except.ok.injEq] at hcs''
    subst hcs''
    refine ⟨amountTo_sameAs hg hsame hs' (fun p c => Iff.rfl) h2, fun p c hpc => ?_⟩
    have hmv : ∀ x, x ∈ commitsToMove d false true [] comps dest ↔ x ∈ args.exacts ∨ IsParent d.graph dest x := by
      intro x
      unfold commitsToMove
      simp only [Bool.or_false, if_true, List.nil_append, List.mem_append, List.mem_flatMap, Prod.exists, hC.cover,
        mem_children hg, List.mem_singleton, exists_eq_left]
    have hreq : ∀ p c, (c, p) ∈ rs → c ∈ d.graph.nodes ∧
        ∃ s ∈ commitsToMove d false true [] comps dest, Anc d.graph s c := by
      intro p c hpc
      rcases (hrs p c).1 hpc with hpc | ⟨_, _, h8, _⟩
      · obtain ⟨h6, x, hx, hxc⟩ := exact_below (seen := Seen d.graph main w.git es) hn h1 p c (.inl hpc)
        exact ⟨h6, x, (hmv x).2 (.inl hx), hxc⟩
      · exact ⟨h8.child_mem, c, (hmv c).2 (.inr h8), .refl⟩
    rw [verify_rewrite_set_allows d hg _ _ _ _ hv'']
    rcases hpc with hpc | ⟨_, ⟨s, q, hq, hsc⟩, _, _⟩
    · exact hreq p c hpc
    · obtain ⟨h6, x, hx, hxs⟩ := hreq q s hq
      exact ⟨hsc.mem_up h6, x, hx, hxs.trans hsc⟩
  · obtain ⟨top, place, h6, h7, h8⟩ := move_exact_insert_in_memory_partial graph hg main w hw es he r d hdag env hc
      args.exacts hn hX hch comps hcomps dest (hd dest hdest) (fun c => hdc c dest hdest) plan hpl hnc _ s newHead h4
    exact ⟨top, place, h6, h7, s, newHead, ok, h8, h5⟩

/-! ### concrete cases -/

/-- `5` is put on `1`, and `2`, `3` and `4` on it. -/
def exInsertEnv : MoveCmdEnv :=
  exMoveEnv exTallCommits
    [(exNew [oidN 1] 25 5, oidN 8), (exNew [oidN 8] 22 2, oidN 9), (exNew [oidN 9] 23 3, oidN 10),
      (exNew [oidN 10] 24 4, oidN 11)]
    [((oidN 5, oidN 1), 25), ((oidN 2, oidN 8), 22), ((oidN 3, oidN 9), 23), ((oidN 4, oidN 10), 24)] []

example : SetContract exInsertEnv ∧ NoCollisions exInsertEnv.exec ∧ InMemoryOnly exInsertEnv.options :=
  ⟨exMoveEnv_set _ _ _ _,
    exExec_noCollisions (commits := exTallCommits)
      (new := [(exNew [oidN 1] 25 5, oidN 8), (exNew [oidN 8] 22 2, oidN 9), (exNew [oidN 9] 23 3, oidN 10),
        (exNew [oidN 10] 24 4, oidN 11)])
      (picks := [((oidN 5, oidN 1), 25), ((oidN 2, oidN 8), 22), ((oidN 3, oidN 9), 23), ((oidN 4, oidN 10), 24)])
      (amends := []) (by decide) (by decide),
    rfl, .inr rfl⟩

/-- Non-vacuity: `move -s 5 -d 1 --insert`. -/
example : ∃ w' es', moveCommits exInsertEnv t!"refs/heads/main" exTallGraph none
      (exRestackWorld exTallEvents (oidN 4))
      ⟨[oidN 5], [], [], true, some [oidN 1], some (oidN 0), false, true⟩ = (w', .done) ∧
    w'.db.getEvents = some es' ∧
    findRewriteTarget (Replayer.fromEvents t!"refs/heads/main" es') ⟨es'.length⟩ (oidN 5) =
      some (.nonZero (oidN 8)) ∧
    findRewriteTarget (Replayer.fromEvents t!"refs/heads/main" es') ⟨es'.length⟩ (oidN 2) =
      some (.nonZero (oidN 9)) ∧
    w'.git.refs.get? t!"refs/heads/b" = some (oidN 11) := by
  refine ⟨_, _, rfl, rfl, ?_⟩
  decide +kernel

/-- Non-vacuity: `move -x 1 -d 3 --insert` in the stack `1`, `2`, `3`, `4` makes it `2`, `3`, `1`, `4`. -/
example : ∃ w' es', moveCommits (exMoveEnv exTallCommits
      [(exNew [oidN 0] 22 2, oidN 8), (exNew [oidN 8] 23 3, oidN 9), (exNew [oidN 9] 21 1, oidN 10),
        (exNew [oidN 10] 24 4, oidN 11)]
      [((oidN 2, oidN 0), 22), ((oidN 3, oidN 8), 23), ((oidN 1, oidN 9), 21), ((oidN 4, oidN 10), 24)] [])
      t!"refs/heads/main" exTallGraph none (exRestackWorld exTallEvents (oidN 4))
      ⟨[], [], [oidN 1], true, some [oidN 3], some (oidN 0), false, true⟩ = (w', .done) ∧
    w'.db.getEvents = some es' ∧
    findRewriteTarget (Replayer.fromEvents t!"refs/heads/main" es') ⟨es'.length⟩ (oidN 1) =
      some (.nonZero (oidN 10)) ∧
    w'.git.refs.get? t!"refs/heads/b" = some (oidN 11) := by
  refine ⟨_, _, rfl, rfl, ?_⟩
  decide +kernel

/-- Non-vacuity of `move_insert_plan_partial` and `move_exact_insert_plan_partial`: the ways to be
refused. -/
example : ∃ r d comps comps', openRepoDag exTallGraph t!"refs/heads/main" (exRestackWorld exTallEvents (oidN 4)) =
      some (r, d) ∧
    movePlan exInsertEnv d false true [oidN 0] [] (oidN 4) =
      .ok (.error (.planner (.movePublicCommits [oidN 0]))) ∧
    movePlan exInsertEnv d false true [oidN 2, oidN 5] [] (oidN 1) = .ok (.error .severalHeads) ∧
    movePlan exInsertEnv d false true [oidN 2] [] (oidN 3) =
      .ok (.error (.planner (.constraintCycle [oidN 2, oidN 3, oidN 2]))) ∧
    exactComponents exInsertEnv d [oidN 2, oidN 5] = .ok (.ok comps) ∧
    movePlan exInsertEnv d false true [] comps (oidN 1) = .ok (.error (.noLineage (oidN 2) (oidN 5))) ∧
    exactComponents exInsertEnv d [oidN 2, oidN 4] = .ok (.ok comps') ∧
    (∃ p, movePlan exInsertEnv d false true [] comps' (oidN 5) = .ok (.ok (some p))) := by
  refine ⟨_, _, _, _, rfl, ?_, ?_, ?_, rfl, ?_, rfl, ⟨_, rfl⟩⟩
  all_goals decide +kernel

/-! ### where it goes wrong -/

/-- C63 fails when there are hidden commits above the source: `2` is a hidden child of the source `1`, and
so it counts as the head of what is moved. It is not moved itself, and the child `4` of the destination
`3` is put on it, instead of on the new version of `1`. -/
theorem insert_on_hidden :
    let graph : CommitGraph Oid := ⟨[(oidN 4, [oidN 3]), (oidN 3, [oidN 0]), (oidN 2, [oidN 1]),
      (oidN 1, [oidN 0]), (oidN 0, [])]⟩
    let es : List Event := [.commit 1 (.id 1) (oidN 1), .commit 2 (.id 2) (oidN 2), .obsolete 3 (.id 3) (oidN 2),
      .commit 4 (.id 4) (oidN 3), .commit 5 (.id 5) (oidN 4)]
    let env := exMoveEnv [(oidN 0, exCommit [] 10 0), (oidN 1, exCommit [oidN 0] 11 1),
        (oidN 2, exCommit [oidN 1] 12 2), (oidN 3, exCommit [oidN 0] 13 3), (oidN 4, exCommit [oidN 3] 14 4)]
      [(exNew [oidN 3] 21 1, oidN 8), (exNew [oidN 2] 24 4, oidN 9)]
      [((oidN 1, oidN 3), 21), ((oidN 4, oidN 2), 24)] []
    ∃ w' es', moveCommits env t!"refs/heads/main" graph none (exRestackWorld es (oidN 0))
        ⟨[oidN 1], [], [], true, some [oidN 3], some (oidN 0), false, true⟩ = (w', .done) ∧
      w'.db.getEvents = some es' ∧
      findRewriteTarget (Replayer.fromEvents t!"refs/heads/main" es') ⟨es'.length⟩ (oidN 1) =
        some (.nonZero (oidN 8)) ∧
      findRewriteTarget (Replayer.fromEvents t!"refs/heads/main" es') ⟨es'.length⟩ (oidN 4) =
        some (.nonZero (oidN 9)) := by
  refine ⟨_, _, rfl, rfl, ?_⟩
  decide +kernel

/-- For the same reason `--insert` is refused as having multiple heads, though only `2` is visible above
the source `1`; `3` is hidden. -/
theorem insert_hidden_heads :
    let graph : CommitGraph Oid := ⟨[(oidN 4, [oidN 0]), (oidN 3, [oidN 1]), (oidN 2, [oidN 1]),
      (oidN 1, [oidN 0]), (oidN 0, [])]⟩
    let es : List Event := [.commit 1 (.id 1) (oidN 1), .commit 2 (.id 2) (oidN 2), .commit 3 (.id 3) (oidN 3),
      .obsolete 4 (.id 4) (oidN 3), .commit 5 (.id 5) (oidN 4)]
    ∃ r d, openRepoDag graph t!"refs/heads/main" (exRestackWorld es (oidN 0)) = some (r, d) ∧
      d.filterVisibleCommits (d.graph.children [oidN 1]) = [oidN 2] ∧
      movePlan exInsertEnv d false true [oidN 1] [] (oidN 4) = .ok (.error .severalHeads) := by
  refine ⟨_, _, rfl, ?_⟩
  decide +kernel

/-- C63 fails when a selected commit is above the destination: in the stack `1`, `2`, `3`, `4` the commits
`1` and `3` are to be inserted after `2`. What was on `3` becomes a child of the destination (`8` is the
new version of `2`), but it is not put on what is inserted: `4` ends up beside `1` and `3`, as `11`. -/
theorem insert_misses_new_child :
    let env := exMoveEnv exTallCommits
      [(exNew [oidN 0] 22 2, oidN 8), (exNew [oidN 8] 21 1, oidN 9), (exNew [oidN 9] 23 3, oidN 10),
        (exNew [oidN 8] 24 4, oidN 11)]
      [((oidN 2, oidN 0), 22), ((oidN 1, oidN 8), 21), ((oidN 3, oidN 9), 23), ((oidN 4, oidN 8), 24)] []
    ∃ w' es', moveCommits env t!"refs/heads/main" exTallGraph none (exRestackWorld exTallEvents (oidN 4))
        ⟨[], [], [oidN 1, oidN 3], true, some [oidN 2], some (oidN 0), false, true⟩ = (w', .done) ∧
      w'.db.getEvents = some es' ∧
      findRewriteTarget (Replayer.fromEvents t!"refs/heads/main" es') ⟨es'.length⟩ (oidN 3) =
        some (.nonZero (oidN 10)) ∧
      findRewriteTarget (Replayer.fromEvents t!"refs/heads/main" es') ⟨es'.length⟩ (oidN 4) =
        some (.nonZero (oidN 11)) := by
  refine ⟨_, _, rfl, rfl, ?_⟩
  decide +kernel

end Verif.Props
