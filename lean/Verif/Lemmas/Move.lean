import Verif.Spec.Move
import Verif.Props.Restack
import Verif.Props.Dag

/-! Lemmas about `move`. -/

namespace Verif.Spec

open Verif Verif.RebasePlanBuilder Verif.Constraints Verif.Props

/-! ### building a plan which moves commits only -/

theorem buildRoot_moves {b : RebasePlanBuilder} {k : Constraints} (hf : k.fixups = [])
    {st : Option Oid × BuildState} {r : Constraint} (hr : r ∈ k.findRoots) {e : PlanFail}
    (h : buildRoot b k st r = .error e) : e = .fuel := by
  rcases mem_findRoots hr with ⟨p, c, rfl, _, _⟩ | ⟨t, rfl, ht⟩
  · unfold buildRoot at h
    simp only [rootEdge] at h
    split at h
    · simpa using h.symm
    · simp at h
  · unfold unconstrainedFixupNodes commitsToFixup at ht
    rw [hf] at ht
    simp [mem_diff, AMap.keys] at ht

theorem foldlM_except_mem {σ α ε : Type} {f : σ → α → Except ε σ} {l : List α} {e : ε}
    (P : ε → Prop) (h : ∀ s, ∀ a ∈ l, ∀ e, f s a = .error e → P e) {s : σ} (he : l.foldlM f s = .error e) :
    P e := by
  induction l generalizing s with
  | nil => cases he
  | cons a l ih =>
    rw [List.foldlM_cons] at he
    cases ha : f s a with
    | error e' =>
      rw [ha] at he
      have : (Except.error e' : Except ε σ) = .error e := he
      cases this
      exact h s a (by simp) _ ha
    | ok s1 =>
      rw [ha] at he
      exact ih (fun s a ha => h s a (List.mem_cons_of_mem _ ha)) he

theorem buildRoot_fst {b : RebasePlanBuilder} {k : Constraints} {st st' : Option Oid × BuildState}
    {r : Constraint} (h : buildRoot b k st r = .ok st') : st'.1.isSome := by
  unfold buildRoot at h
  split at h
  · simp at h
  · split at h
    · simp at h
    · simp only at h
      split at h
      · simp at h
      · simp only [Except.ok.injEq] at h
        rw [← h]; rfl

theorem findRoots_nil_iff {k : Constraints} (hw : KWF k) (hac : Acyclic k) (hf : k.fixups = []) :
    k.findRoots = [] ↔ ¬ ∃ p c, Moves k p c := by
  constructor
  · rintro h ⟨p, c, hpc⟩
    induction p using (wellFounded_moves hac).induction generalizing c with
    | _ p ih =>
      by_cases hp : ∃ q, Moves k q p
      · obtain ⟨q, hq⟩ := hp
        exact ih q hq p hq
      · have hn : ¬ Rewritten k p := by
          rintro (h1 | ⟨fs, h1⟩)
          · exact hp h1
          · rw [hf] at h1; simp at h1
        have := findRoots_move ((mem_unconstrainedNodes hw).2 ⟨hpc.mem_parents, hn⟩) hpc
        rw [h] at this
        simp at this
  · intro h
    rw [List.eq_nil_iff_forall_not_mem]
    intro r hr
    rcases mem_findRoots hr with ⟨p, c, _, _, hm⟩ | ⟨t, rfl, ht⟩
    · exact h ⟨p, c, hm⟩
    · unfold unconstrainedFixupNodes commitsToFixup at ht
      rw [hf] at ht
      simp [mem_diff, AMap.keys] at ht

/-- A request which only moves commits: if there is no cycle, and all the moved commits may be moved, there
is a plan; and it is empty only if no commit is moved. -/
theorem build_moves {b : RebasePlanBuilder} {k : Constraints} (hk : b.constraintGraph = .ok k)
    (hf : k.fixups = []) (hac : Acyclic k) (hp : ∀ p c, Moves k p c → c ∈ b.permissions.allowedCommits) :
    ∃ plan, b.build = .ok (.ok plan) ∧ (plan = none ↔ ¬ ∃ p c, Moves k p c) := by
  have hw := kwf_constraintGraph hk
  have h1 := (cycle_check_iff k).2 hac
  have h2 : k.checkPermissions b.permissions = .ok () := by
    unfold checkPermissions
    simp only
    rw [if_neg]
    simp only [Bool.not_eq_true', List.isEmpty_eq_false_iff, ne_eq, not_not]
    rw [List.eq_nil_iff_forall_not_mem]
    intro c hc
    obtain ⟨hc, hn⟩ := mem_diff.1 hc
    obtain ⟨p, hpc⟩ := (mem_commitsToMove hw.1.1).1 hc
    exact hn (hp p c hpc)
  have h3 : ∃ st, k.findRoots.foldlM (buildRoot b k) (none, ⟨[], [], []⟩) = .ok st := by
    cases h : k.findRoots.foldlM (buildRoot b k) (none, ⟨[], [], []⟩) with
    | ok st => exact ⟨st, rfl⟩
    | error e =>
      have := foldlM_except_mem (fun e => e = .fuel) (fun s a ha e he => buildRoot_moves hf ha he) h
      subst this
      exact absurd h (buildRoots_no_fuel hac _)
  obtain ⟨st, h3⟩ := h3
  refine ⟨st.1.map fun d => ⟨d, st.2.acc ++ [.registerExtraPostRewriteHook]⟩, ?_, ?_⟩
  · unfold build
    rw [hk]
    simp only
    rw [h1]
    simp only
    rw [h2]
    simp only
    unfold buildCommands
    rw [h3]
  · rw [← findRoots_nil_iff hw hac hf, Option.map_eq_none_iff]
    constructor
    · intro hn
      cases hr : k.findRoots with
      | nil => rfl
      | cons r rs =>
        exfalso
        have hs := foldlM_except_inv (P := fun pre st => pre ≠ [] → st.1.isSome) (by simp)
          (fun pre r post st st' _ _ hs _ => buildRoot_fst hs) h3
        rw [hr, hn] at hs
        simp at hs
    · intro hr
      rw [hr] at h3
      cases h3
      rfl

/-! ### requests and what goes along -/

/-- The commits which are visible, in terms of the opened graph. -/
theorem seen_opened {graph : CommitGraph Oid} (hg : WFGraph graph) {main : Text} {w : RepoWorld}
    (hw : AMap.WF w.git.refs) {es : List Event} (he : w.db.getEvents = some es) {r : Replayer} {d : Dag}
    (h : openRepoDag graph main w = some (r, d)) (o : Oid) :
    Seen graph main w.git es o ↔ o ∈ graph.nodes ∧ ∃ x ∈ d.visibleHeads, Anc graph o x := by
  obtain ⟨refs, h1, rfl, rfl⟩ := openRepoDag_some he h
  rw [← seen_iff hg hw h1 es o]
  exact mem_ancestors (g := graph) hg

theorem shouldMove_carried {d : Dag} {rs : List (Oid × Oid)} {req : Oid → Oid → Prop}
    {seen : Oid → Prop} (hs : ∀ o, seen o ↔ o ∈ d.graph.nodes ∧ ∃ x ∈ d.visibleHeads, Anc d.graph o x)
    (hr : ∀ p c, (c, p) ∈ rs ↔ req p c) (hu : ∀ p q c, req p c → req q c → p = q) :
    ShouldMove d rs = Carried d.graph seen req := by
  funext p c
  apply propext
  unfold ShouldMove Carried
  have hfst : ∀ x, x ∈ rs.map Prod.fst ↔ ∃ q, req q x := by
    intro x
    simp only [List.mem_map, Prod.exists, hr]
    constructor
    · rintro ⟨a, b, hab, rfl⟩; exact ⟨b, hab⟩
    · rintro ⟨b, hb⟩; exact ⟨x, b, hb, rfl⟩
  refine or_congr ?_ (and_congr (not_congr (hfst c)) ?_)
  · rw [lastRequest_iff, hr]
    intro p q hp hq
    rw [hr] at hp hq
    exact hu _ _ _ hp hq
  · constructor
    · rintro ⟨⟨s, h1, h2⟩, h3, h4⟩
      obtain ⟨q, hq⟩ := (hfst s).1 h1
      exact ⟨⟨s, q, hq, h2⟩, (hs c).2 ⟨h4.child_mem, h3⟩, h4⟩
    · rintro ⟨⟨s, q, hq, h2⟩, h3, h4⟩
      exact ⟨⟨s, (hfst s).2 ⟨q, hq⟩, h2⟩, ((hs c).1 h3).2, h4⟩

/-- The change of a commit which is skipped is there already. -/
theorem skipped_upstream {b : RebasePlanBuilder} (hg : WFGraph b.env.dag.graph) {M : Oid → Oid → Prop}
    {k : Constraints} (hk : b.constraintGraph = .ok k) (hf : k.fixups = [])
    (hmv : ∀ p c, Moves k p c ↔ M p c) {plan : RebasePlan} (h : b.build = .ok (.ok (some plan))) {c : Oid}
    (h5 : .skipUpstreamAppliedCommit c ∈ plan.commands) :
    b.permissions.detectDuplicateCommitsViaPatchId = true ∧
      AppliedUpstream b.env.dag.graph b.env.patchId M c := by
  obtain ⟨hd, root, dests, u, hr, ht⟩ := skipped_has_twin b hg k hk plan h c h5
  refine ⟨hd, ?_⟩
  rcases hr with ⟨dest, h7, h8, h9⟩ | ⟨⟨fs, h7⟩, _⟩
  · obtain ⟨d1, m, h10, h11, h12⟩ := ht.base
    obtain ⟨d2, h13, h14⟩ := ht.above
    rw [h9] at h10 h13
    subst h10 h13
    refine ⟨root, _, m, u, (hmv _ _).1 h7, ?_, h11, h12, h14, ht.same⟩
    rintro ⟨p, hp⟩
    exact h8 (.inl ⟨p, (hmv _ _).2 hp⟩)
  · rw [hf] at h7
    simp at h7

/-- What a rebase in memory does, for requests which only move commits. -/
theorem relocated {b : RebasePlanBuilder} (hg : WFGraph b.env.dag.graph) {M : Oid → Oid → Prop}
    {k : Constraints} (hk : b.constraintGraph = .ok k) (hf : k.fixups = [])
    (hmv : ∀ p c, Moves k p c ↔ M p c) (hreg : Regular b.env k) (hrep : b.replacementCommits = [])
    {plan : RebasePlan} (h : b.build = .ok (.ok (some plan))) {ee : ExecEnv} (hn : NoCollisions ee)
    {head : Option Oid} {s : ExecState} {newHead : Option Oid}
    (hx : ee.rebaseInMemory head plan = .ok (s, newHead)) :
    Relocated ee M (fun c => b.permissions.detectDuplicateCommitsViaPatchId = true ∧
      AppliedUpstream b.env.dag.graph b.env.patchId M c) s head newHead := by
  obtain ⟨h1, h2, h3⟩ := moves_rebase_in_memory b M k hk hf hmv hreg hrep plan h ee hn head s newHead hx
  refine ⟨?_, h2, h3⟩
  intro p c hpc
  obtain ⟨q, hq, h4⟩ := h1 p c hpc
  refine ⟨q, hq, h4.imp ?_ id⟩
  rintro ⟨h5, h6⟩
  exact ⟨skipped_upstream hg hk hf hmv h h5, h6⟩

/-! ### sets of commits -/

theorem mem_roots {g : CommitGraph Oid} (hg : WFGraph g) {s : List Oid} {c : Oid} :
    c ∈ g.roots s ↔ Topmost g (· ∈ s) c := by
  unfold CommitGraph.roots Topmost
  rw [mem_diff, mem_children hg]
  refine and_congr_right fun _ => ?_
  constructor
  · intro h p hp hps; exact h ⟨p, hps, hp⟩
  · rintro h ⟨p, hps, hp⟩; exact h p hp hps

theorem mem_sortedCommitSet {env : MoveCmdEnv} (hc : SetContract env) {d : Dag} {s : List Oid} {x : Oid} :
    x ∈ sortedCommitSet env.nav d s ↔ x ∈ s := by
  unfold sortedCommitSet
  rw [(hc.sort _ _).mem_iff, List.mem_filter, hc.mem]
  simp [hc.exist]

theorem nodup_sortedCommitSet {env : MoveCmdEnv} (hc : SetContract env) {d : Dag} {s : List Oid} :
    (sortedCommitSet env.nav d s).Nodup := by
  unfold sortedCommitSet
  exact (hc.sort _ _).nodup_iff.2 ((hc.nodup s).filter _)

theorem sortedCommitSet_nil {env : MoveCmdEnv} (hc : SetContract env) {d : Dag} :
    sortedCommitSet env.nav d [] = [] := by
  rw [List.eq_nil_iff_forall_not_mem]
  intro x hx
  rw [mem_sortedCommitSet hc] at hx
  simp at hx

/-- A best common ancestor above any common ancestor. -/
theorem exists_mergeBase {g : CommitGraph Oid} (hg : WFGraph g) {a b x : Oid} (hx : x ∈ g.nodes)
    (ha : Anc g x a) (hb : Anc g x b) : ∃ m, IsMergeBase g a b m ∧ Anc g x m := by
  have key : ∀ n x, x ∈ g.nodes → Anc g x a → Anc g x b → g.entries.length - ageOf g.entries x = n →
      ∃ m, IsMergeBase g a b m ∧ Anc g x m := by
    intro n
    induction n using Nat.strongRecOn with
    | _ n ih =>
      intro x hx ha hb hn
      by_cases h : ∃ y, y ∈ g.nodes ∧ Anc g y a ∧ Anc g y b ∧ Anc g x y ∧ y ≠ x
      · obtain ⟨y, h1, h2, h3, h4, h5⟩ := h
        have hlt : ageOf g.entries x < ageOf g.entries y := by
          rcases anc_iff_child.1 h4 with h | ⟨z, hz, hzy⟩
          · exact absurd h.symm h5
          · exact Nat.lt_of_lt_of_le (age_lt hg hz) (age_le hg hzy)
        have := ageOf_le g.entries y
        obtain ⟨m, h6, h7⟩ := ih _ (by omega) y h1 h2 h3 rfl
        exact ⟨m, h6, h4.trans h7⟩
      · refine ⟨x, ⟨hx, ha, hb, ?_⟩, .refl⟩
        intro y h1 h2 h3 h4
        by_contra h5
        exact h ⟨y, h1, h2, h3, h4, h5⟩
  exact key _ x hx ha hb rfl

theorem gcaOne_some {g : CommitGraph Oid} (hg : WFGraph g) {a b m : Oid} (h : g.gcaOne [a, b] = some m) :
    IsMergeBase g a b m := by
  unfold CommitGraph.gcaOne at h
  exact (mem_gcaAll hg).1 (List.mem_of_mem_head? h)

theorem gcaOne_none {g : CommitGraph Oid} (hg : WFGraph g) {a b x : Oid} (h : g.gcaOne [a, b] = none)
    (hx : x ∈ g.nodes) (ha : Anc g x a) : ¬ Anc g x b := by
  intro hb
  obtain ⟨m, hm, _⟩ := exists_mergeBase hg hx ha hb
  unfold CommitGraph.gcaOne at h
  have := (mem_gcaAll hg).2 hm
  rw [List.head?_eq_none_iff] at h
  rw [h] at this
  simp at this

end Verif.Spec
