import Verif.Lemmas.Revset

/-! Lemmas on the evaluation of revsets: the single functions. -/

namespace Verif.Spec

open Verif Verif.Props

theorem except_map_ok {ε α β : Type} {x : Except ε α} {f : α → β} {b : β} :
    x.map f = .ok b ↔ ∃ a, x = .ok a ∧ f a = b := by
  cases x <;> simp [Except.map]

theorem elim_ok {ε α β : Type} {x : Option α} {e : ε} {f : α → Except ε β} {b : β} :
    x.elim (.error e) f = .ok b ↔ ∃ a, x = some a ∧ f a = .ok b := by
  cases x <;> simp

/-! ### arguments -/

theorem eval0_ok {f : Text} {args : List Expr} {u : Unit} : eval0 f args = .ok u ↔ args = [] := by
  unfold eval0
  split <;> simp_all

theorem eval1_ok {ev : Evaluator} {d : Dag} {f : Text} {args : List Expr} {s : List Oid} :
    eval1 ev d f args = .ok s ↔ ∃ a, args = [a] ∧ ev d a = .ok s := by
  unfold eval1
  split
  · simp
  · next h =>
    simp only [reduceCtorEq, false_iff]
    rintro ⟨a, rfl, _⟩
    exact h a rfl

theorem eval0Or1_ok {ev : Evaluator} {d : Dag} {f : Text} {args : List Expr} {s : Option (List Oid)} :
    eval0Or1 ev d f args = .ok s ↔ (args = [] ∧ s = none) ∨ ∃ a l, args = [a] ∧ ev d a = .ok l ∧ s = some l := by
  unfold eval0Or1
  split
  · simp [eq_comm]
  · simp only [except_map_ok]
    simp [eq_comm]
  · next h1 h2 =>
    simp only [reduceCtorEq, false_iff, not_or, not_exists]
    refine ⟨fun h => h1 h.1, ?_⟩
    rintro a l ⟨rfl, _⟩
    exact h2 a rfl

theorem eval1Pattern_ok {env : RevsetEnv} {f : Text} {args : List Expr} {p : Pattern} :
    eval1Pattern env f args = .ok p ↔ ∃ s, args = [.name s] ∧ IsPattern env s p := by
  unfold eval1Pattern
  split
  · simp [elim_ok, pattern_new_iff]
  · simp
  · next h1 h2 =>
    simp only [reduceCtorEq, false_iff]
    rintro ⟨s, rfl, _⟩
    exact h1 s rfl

theorem eval0Or1Pattern_ok {env : RevsetEnv} {f : Text} {args : List Expr} {p : Option Pattern} :
    eval0Or1Pattern env f args = .ok p ↔
      (args = [] ∧ p = none) ∨ ∃ s q, args = [.name s] ∧ IsPattern env s q ∧ p = some q := by
  unfold eval0Or1Pattern
  split
  · simp [eq_comm]
  · simp only [except_map_ok, eval1Pattern_ok]
    constructor
    · rintro ⟨a, ⟨s, h1, h2⟩, rfl⟩; exact .inr ⟨s, a, h1, h2, rfl⟩
    · rintro (⟨h, _⟩ | ⟨s, a, h1, h2, rfl⟩)
      · cases h
      · exact ⟨a, ⟨s, h1, h2⟩, rfl⟩
  · next h1 h2 =>
    simp only [reduceCtorEq, false_iff, not_or, not_exists]
    refine ⟨fun h => h1 h.1, ?_⟩
    rintro a l ⟨rfl, _⟩
    exact h2 _ rfl

theorem eval2_ok {ev : Evaluator} {d : Dag} {f : Text} {args : List Expr} {s : List Oid × List Oid} :
    eval2 ev d f args = .ok s ↔ ∃ a b, args = [a, b] ∧ ev d a = .ok s.1 ∧ ev d b = .ok s.2 := by
  unfold eval2
  split
  · next l r =>
    simp only [List.cons.injEq, and_true]
    cases hl : ev d l with
    | error e =>
      simp only [reduceCtorEq, false_iff]
      rintro ⟨a, b, ⟨rfl, rfl⟩, h, _⟩
      rw [hl] at h; cases h
    | ok l' =>
      simp only [except_map_ok]
      constructor
      · rintro ⟨r', h, rfl⟩; exact ⟨l, r, ⟨rfl, rfl⟩, hl, h⟩
      · rintro ⟨a, b, ⟨rfl, rfl⟩, h1, h2⟩
        rw [hl] at h1; cases h1
        exact ⟨s.2, h2, rfl⟩
  · next h =>
    simp only [reduceCtorEq, false_iff]
    rintro ⟨a, b, rfl, _⟩
    exact h a b rfl

theorem evalNumberRhs_ok {ev : Evaluator} {d : Dag} {f : Text} {args : List Expr} {s : List Oid × Nat} :
    evalNumberRhs ev d f args = .ok s ↔ ∃ a t, args = [a, .name t] ∧ ev d a = .ok s.1 ∧ IsUsize t s.2 := by
  unfold evalNumberRhs
  split
  · next l n =>
    simp only [List.cons.injEq, Expr.name.injEq, and_true]
    cases hl : ev d l with
    | error e =>
      simp only [reduceCtorEq, false_iff]
      rintro ⟨a, b, ⟨rfl, rfl⟩, h, _⟩
      rw [hl] at h; cases h
    | ok l' =>
      simp only [elim_ok, parseUsize_iff]
      constructor
      · rintro ⟨r', h, h'⟩; cases h'; exact ⟨l, n, ⟨rfl, rfl⟩, hl, h⟩
      · rintro ⟨a, b, ⟨rfl, rfl⟩, h1, h2⟩
        rw [hl] at h1; cases h1
        exact ⟨s.2, h2, rfl⟩
  · simp
  · next h _ =>
    simp only [reduceCtorEq, false_iff]
    rintro ⟨a, b, rfl, _⟩
    exact h a b rfl

theorem evalTestCommandPattern_ok {env : RevsetEnv} {f : Text} {args : List Expr} {p : Pattern} :
    evalTestCommandPattern env f args = .ok p ↔ TestPattern env args p := by
  unfold evalTestCommandPattern
  split
  · next e he =>
    simp only [reduceCtorEq, false_iff]
    intro h
    cases h with
    | latest => rw [(eval0Or1Pattern_ok (p := none)).2 (.inl ⟨rfl, rfl⟩)] at he; cases he
    | given h => rw [eval0Or1Pattern_ok.2 (.inr ⟨_, _, rfl, h, rfl⟩)] at he; cases he
  · next q he =>
    rcases eval0Or1Pattern_ok.1 he with ⟨_, h⟩ | ⟨s, q', rfl, hq, h⟩
    · cases h
    · cases h
      constructor
      · rintro h; cases h; exact .given hq
      · intro h
        cases h with
        | given h =>
          have h1 := pattern_new_iff.2 h
          rw [pattern_new_iff.2 hq] at h1
          cases h1; rfl
  · next he =>
    rcases eval0Or1Pattern_ok.1 he with ⟨rfl, _⟩ | ⟨s, q', rfl, hq, h⟩
    · rw [elim_ok]
      constructor
      · rintro ⟨c, hc, h⟩; cases h; exact .latest hc
      · intro h
        cases h with
        | latest h => exact ⟨_, h, rfl⟩
    · cases h

/-! ### what the functions compute -/

variable {env : RevsetEnv} {d : Dag}

theorem sem_only (hg : WFGraph d.graph) (a b : List Oid) : Sem d (d.graph.only a b)
    (fun o => (∃ x, x ∈ a ∧ Anc d.graph o x) ∧ ∀ x, x ∈ b → ¬ Anc d.graph o x) := by
  intro o ho
  rw [mem_only hg]
  exact ⟨fun h => h.2, fun h => ⟨ho.1, h⟩⟩

theorem sem_range (hg : WFGraph d.graph) (a b : List Oid) : Sem d (d.graph.range a b)
    (fun o => (∃ x, x ∈ a ∧ Anc d.graph x o) ∧ ∃ y, y ∈ b ∧ Anc d.graph o y) := by
  intro o ho
  rw [mem_range hg]
  exact ⟨fun h => h.2, fun h => ⟨ho.1, h⟩⟩

theorem sem_all (hg : WFGraph d.graph) :
    Sem d (d.filterVisibleCommits (d.graph.ancestors d.visibleHeads)) (fun _ => True) := by
  intro o ho
  rw [mem_filterVisibleIn hg]
  exact ⟨fun _ => trivial, fun _ => ⟨(mem_visibleCommits hg).2 ho, ho⟩⟩

theorem sem_not (hg : WFGraph d.graph) (a : List Oid) :
    Sem d (CommitGraph.diff (d.graph.ancestors d.visibleHeads) a) (fun o => ¬ o ∈ a) := by
  intro o ho
  rw [mem_diff]
  exact ⟨fun h => h.2, fun h => ⟨(mem_visibleCommits hg).2 ho, h⟩⟩

theorem firstAncestorNth_iff (hg : WFGraph d.graph) {n : Nat} {x o : Oid} :
    firstAncestorNth d.graph n x = some o ↔ FirstParent d.graph n x o := by
  induction n generalizing x with
  | zero =>
    rw [firstAncestorNth]
    constructor
    · rintro h; cases h; exact .zero
    · intro h; cases h; rfl
  | succ n ih =>
    rw [firstAncestorNth, Option.bind_eq_some_iff]
    constructor
    · rintro ⟨p, hp, h⟩
      unfold CommitGraph.parentsOf at hp
      cases he : AMap.get? d.graph.entries x with
      | none => rw [he] at hp; cases hp
      | some ps =>
        rw [he] at hp
        cases ps with
        | nil => cases hp
        | cons q ps =>
          cases hp
          exact .succ (AMap.mem_of_get? he) (ih.1 h)
    · intro h
      cases h with
      | succ he h =>
        refine ⟨_, ?_, ih.2 h⟩
        unfold CommitGraph.parentsOf
        rw [AMap.get?_of_mem (WFEntries.wf hg) he]
        rfl

theorem sem_nthAncestor (hg : WFGraph d.graph) (a : List Oid) (n : Nat) :
    Sem d (a.filterMap (firstAncestorNth d.graph n)) (fun o => ∃ x, x ∈ a ∧ FirstParent d.graph n x o) := by
  intro o _
  simp only [List.mem_filterMap, firstAncestorNth_iff hg]

theorem sem_parentsNth (hg : WFGraph d.graph) (a : List Oid) (n : Nat) :
    Sem d (a.filterMap fun o => if n = 0 then none else (d.graph.parentsOf o)[n - 1]?)
      (fun o => ∃ x ps, x ∈ a ∧ (x, ps) ∈ d.graph.entries ∧ 1 ≤ n ∧ ps[n - 1]? = some o) := by
  intro o _
  simp only [List.mem_filterMap]
  refine exists_congr fun x => ?_
  constructor
  · rintro ⟨hx, h⟩
    split at h
    · cases h
    · next hn =>
      unfold CommitGraph.parentsOf at h
      cases he : AMap.get? d.graph.entries x with
      | none => rw [he] at h; simp at h
      | some ps =>
        rw [he] at h
        exact ⟨ps, hx, AMap.mem_of_get? he, by omega, h⟩
  · rintro ⟨ps, hx, he, hn, h⟩
    refine ⟨hx, ?_⟩
    rw [if_neg (by omega)]
    unfold CommitGraph.parentsOf
    rw [AMap.get?_of_mem (WFEntries.wf hg) he]
    exact h

theorem mem_localBranchNames {o : Oid} {n : Text} :
    n ∈ localBranchNames env o ↔ t!"refs/heads/" ++ n ∈ env.branchNames o := by
  unfold localBranchNames
  simp only [List.mem_filterMap]
  constructor
  · rintro ⟨m, hm, h⟩
    split at h
    · next hb =>
      cases h
      rw [branch_suffix (isBranch_iff.1 hb)]
      exact hm
    · cases h
  · intro h
    refine ⟨_, h, ?_⟩
    have hb : IsBranch (t!"refs/heads/" ++ n) := List.prefix_append _ _
    rw [if_pos (isBranch_iff.2 hb)]
    have := branch_suffix hb
    exact congrArg some (List.append_cancel_left this)

theorem sem_filter {s : List Oid} {f : Oid → Bool} {P : Oid → Prop} (h : ∀ o, f o = true ↔ P o) :
    Sem d (matcherSet d f (some s)) (fun o => o ∈ s ∧ P o) := by
  intro o _
  unfold matcherSet
  simp [h]

theorem sem_matcher (hg : WFGraph d.graph) {f : Oid → Bool} {P : Oid → Prop} (h : ∀ o, f o = true ↔ P o) :
    Sem d (matcherSet d f none) P := by
  intro o ho
  unfold matcherSet
  simp [h, mem_visibleCommits hg, ho]

theorem currentOf_iff {mb : Text} {es : List Event} {x o : Oid} :
    currentOf (Replayer.fromEvents mb es) x = some o ↔
      Newest (Replayer.fromEvents mb es).events x (.nonZero o) ∨
        (o = x ∧ ∀ m, ¬ RewrittenTo (Replayer.fromEvents mb es).events x m) := by
  have h1 := fun m => find_rewrite_target_exact mb es (Replayer.fromEvents mb es).events.length x m
  have h2 := find_rewrite_target_none mb es (Replayer.fromEvents mb es).events.length x
  rw [before_now] at h1 h2
  unfold currentOf
  have hc : (Replayer.fromEvents mb es).makeDefaultCursor = ⟨(Replayer.fromEvents mb es).events.length⟩ := by
    unfold Replayer.makeDefaultCursor Replayer.makeCursor
    simp only
    rw [if_neg (by omega), if_neg (by omega)]
  rw [hc]
  rw [← h1, ← h2]
  cases h : findRewriteTarget (Replayer.fromEvents mb es) ⟨(Replayer.fromEvents mb es).events.length⟩ x with
  | none => simp [eq_comm]
  | some m =>
    cases m with
    | zero => simp
    | nonZero n => simp

theorem sem_results {p : Pattern} (b : Builtin) {P : Option Nat → TestResult → Prop}
    (hb : ∀ t r, b.acceptsResult p t r = true ↔ TextMatches p r.command ∧ P t r) (o : Oid) :
    ((env.info o).testResults.getD []).any (b.acceptsResult p (env.info o).tree) = true ↔
      ∃ rs, (env.info o).testResults = some rs ∧ ∃ r ∈ rs, TextMatches p r.command ∧ P (env.info o).tree r := by
  cases (env.info o).testResults with
  | none => simp
  | some rs => simp [hb]

theorem sem_subjects (hg : WFGraph d.graph) {p : Pattern} (b : Builtin) {P : Oid → Text → Prop}
    (hb : ∀ o t, t ∈ b.subjects env o ↔ P o t) :
    Sem d (matcherSet d (fun o => (b.subjects env o).any p.matchesText) none) (fun o => ∃ t, P o t ∧ TextMatches p t) := by
  refine sem_matcher hg fun o => ?_
  simp only [List.any_eq_true, matchesText_iff, hb]

theorem sem_ancestors (hg : WFGraph d.graph) (a : List Oid) :
    Sem d (d.graph.ancestors a) (fun o => ∃ x, x ∈ a ∧ Anc d.graph o x) := by
  intro o ho
  rw [mem_ancestors hg]
  exact ⟨fun h => h.2, fun h => ⟨ho.1, h⟩⟩

theorem sem_descendants (hg : WFGraph d.graph) (a : List Oid) :
    Sem d (d.graph.descendants a) (fun o => ∃ x, x ∈ a ∧ Anc d.graph x o) := by
  intro o ho
  rw [mem_descendants hg]
  exact ⟨fun h => h.2, fun h => ⟨ho.1, h⟩⟩

theorem sem_siblings (hg : WFGraph d.graph) (a : List Oid) :
    Sem d (CommitGraph.diff (d.graph.children (d.graph.parents a)) a)
      (fun o => (∃ x p, x ∈ a ∧ IsParent d.graph p x ∧ IsParent d.graph p o) ∧ ¬ o ∈ a) := by
  intro o _
  rw [mem_diff, mem_children hg]
  refine and_congr_left fun _ => ?_
  constructor
  · rintro ⟨p, hp, h⟩
    obtain ⟨x, hx, h'⟩ := (mem_parents hg).1 hp
    exact ⟨x, p, hx, h', h⟩
  · rintro ⟨x, p, hx, h', h⟩
    exact ⟨p, (mem_parents hg).2 ⟨x, hx, h'⟩, h⟩

theorem sem_roots (hg : WFGraph d.graph) (a : List Oid) :
    Sem d (d.graph.roots a) (fun o => o ∈ a ∧ ∀ p, p ∈ a → ¬ IsParent d.graph p o) := by
  intro o _
  unfold CommitGraph.roots
  rw [mem_diff, mem_children hg]
  simp only [not_exists, not_and]

theorem sem_heads (hg : WFGraph d.graph) (a : List Oid) :
    Sem d (d.graph.heads a) (fun o => o ∈ a ∧ ∀ c, c ∈ a → ¬ IsParent d.graph o c) := by
  intro o _
  unfold CommitGraph.heads
  rw [mem_diff, mem_parents hg]
  simp only [not_exists, not_and]

theorem sem_public (hg : WFGraph d.graph) : Sem d d.publicCommits (PublicIn d) := by
  intro o ho
  rw [mem_public hg]
  exact ⟨fun h => h.2, fun h => ⟨ho.1, h⟩⟩

theorem sem_branches (p : Pattern) :
    Sem d (matcherSet d (fun o => (localBranchNames env o).any p.matchesText) (some d.branchCommits))
      (fun o => o ∈ d.branchCommits ∧ ∃ n, t!"refs/heads/" ++ n ∈ env.branchNames o ∧ TextMatches p n) := by
  refine sem_filter fun o => ?_
  simp only [List.any_eq_true, matchesText_iff, mem_localBranchNames]

theorem sem_message (hg : WFGraph d.graph) (p : Pattern) :
    Sem d (matcherSet d (fun o => (Builtin.message.subjects env o).any p.matchesText) none)
      (fun o => ∃ t, (env.info o).message = some t ∧ TextMatches p t) :=
  sem_subjects hg _ fun o t => by simp [Builtin.subjects]

theorem sem_pathsChanged (hg : WFGraph d.graph) (p : Pattern) :
    Sem d (matcherSet d (fun o => (Builtin.pathsChanged.subjects env o).any p.matchesText) none)
      (fun o => ∃ t, some t ∈ (env.info o).touchedPaths ∧ TextMatches p t) :=
  sem_subjects hg _ fun o t => by simp [Builtin.subjects]

theorem sem_authorName (hg : WFGraph d.graph) (p : Pattern) :
    Sem d (matcherSet d (fun o => (Builtin.authorName.subjects env o).any p.matchesText) none)
      (fun o => ∃ t, (env.info o).authorName = some t ∧ TextMatches p t) :=
  sem_subjects hg _ fun o t => by simp [Builtin.subjects]

theorem sem_authorEmail (hg : WFGraph d.graph) (p : Pattern) :
    Sem d (matcherSet d (fun o => (Builtin.authorEmail.subjects env o).any p.matchesText) none)
      (fun o => ∃ t, (env.info o).authorEmail = some t ∧ TextMatches p t) :=
  sem_subjects hg _ fun o t => by simp [Builtin.subjects]

theorem sem_committerName (hg : WFGraph d.graph) (p : Pattern) :
    Sem d (matcherSet d (fun o => (Builtin.committerName.subjects env o).any p.matchesText) none)
      (fun o => ∃ t, (env.info o).committerName = some t ∧ TextMatches p t) :=
  sem_subjects hg _ fun o t => by simp [Builtin.subjects]

theorem sem_committerEmail (hg : WFGraph d.graph) (p : Pattern) :
    Sem d (matcherSet d (fun o => (Builtin.committerEmail.subjects env o).any p.matchesText) none)
      (fun o => ∃ t, (env.info o).committerEmail = some t ∧ TextMatches p t) :=
  sem_subjects hg _ fun o t => by simp [Builtin.subjects]

theorem sem_current {mb : Text} {log : List Event} (hr : env.replayer = Replayer.fromEvents mb log) (a : List Oid) :
    Sem d (a.filterMap (currentOf env.replayer))
      (fun o => ∃ x, x ∈ a ∧ (Newest env.replayer.events x (.nonZero o) ∨
        (o = x ∧ ∀ m, ¬ RewrittenTo env.replayer.events x m))) := by
  intro o _
  rw [hr]
  simp only [List.mem_filterMap, currentOf_iff]

theorem sem_passed (hg : WFGraph d.graph) (p : Pattern) :
    Sem d (matcherSet d (fun o => ((env.info o).testResults.getD []).any
        (Builtin.testsPassed.acceptsResult p (env.info o).tree)) none)
      (fun o => ∃ rs, (env.info o).testResults = some rs ∧ ∃ r ∈ rs, TextMatches p r.command ∧ r.exitCode = 0) :=
  sem_matcher hg fun o => sem_results .testsPassed (P := fun _ r => r.exitCode = 0)
    (fun t r => by
      simp only [Builtin.acceptsResult, Bool.and_eq_true, decide_eq_true_eq, matchesText_iff]
      exact and_comm) o

theorem sem_failed (hg : WFGraph d.graph) (p : Pattern) :
    Sem d (matcherSet d (fun o => ((env.info o).testResults.getD []).any
        (Builtin.testsFailed.acceptsResult p (env.info o).tree)) none)
      (fun o => ∃ rs, (env.info o).testResults = some rs ∧ ∃ r ∈ rs, TextMatches p r.command ∧
        r.exitCode ≠ 0 ∧ r.exitCode ≠ 125 ∧ r.exitCode ≠ 127) :=
  sem_matcher hg fun o => sem_results .testsFailed
    (P := fun _ r => r.exitCode ≠ 0 ∧ r.exitCode ≠ 125 ∧ r.exitCode ≠ 127)
    (fun t r => by
      simp only [Builtin.acceptsResult, Bool.and_eq_true, decide_eq_true_eq, matchesText_iff]
      constructor
      · rintro ⟨⟨⟨h1, h2⟩, h3⟩, h4⟩; exact ⟨h4, h1, h2, h3⟩
      · rintro ⟨h4, h1, h2, h3⟩; exact ⟨⟨⟨h1, h2⟩, h3⟩, h4⟩) o

theorem sem_fixable (hg : WFGraph d.graph) (p : Pattern) :
    Sem d (matcherSet d (fun o => ((env.info o).testResults.getD []).any
        (Builtin.testsFixable.acceptsResult p (env.info o).tree)) none)
      (fun o => ∃ rs, (env.info o).testResults = some rs ∧ ∃ r ∈ rs, TextMatches p r.command ∧ r.exitCode = 0 ∧
        ∃ s t, r.snapshotTree = some s ∧ (env.info o).tree = some t ∧ s ≠ t) :=
  sem_matcher hg fun o => sem_results .testsFixable
    (P := fun tree r => r.exitCode = 0 ∧ ∃ s t, r.snapshotTree = some s ∧ tree = some t ∧ s ≠ t)
    (fun t r => by
      simp only [Builtin.acceptsResult, Bool.and_eq_true, decide_eq_true_eq, matchesText_iff]
      unfold testSuccess
      cases r.snapshotTree <;> cases t <;> simp [and_comm, and_assoc]) o

/-! ### aliases -/

theorem natToText_inj {a b : Nat} (h : natToText a = natToText b) : a = b := by
  have := congrArg parseDec h
  simpa using this

theorem get?_aliasArgs (args : List Expr) (n : Text) (e : Expr) :
    AMap.get? (aliasArgs args) n = some e ↔ ∃ i, n = '$' :: natToText (i + 1) ∧ args[i]? = some e := by
  have key : ∀ (l : List Expr) (k : Nat),
      AMap.get? ((l.zipIdx k).map fun p => ('$' :: natToText (p.2 + 1), p.1)) n = some e ↔
        ∃ i, n = '$' :: natToText (k + i + 1) ∧ l[i]? = some e := by
    intro l
    induction l with
    | nil => intro k; simp
    | cons x l ih =>
      intro k
      rw [List.zipIdx_cons, List.map_cons, AMap.get?_cons]
      split
      · next h =>
        constructor
        · intro hx; exact ⟨0, h.symm, by simpa using hx⟩
        · rintro ⟨i, hi, hx⟩
          have hi' : k + 1 = k + i + 1 := natToText_inj (by rw [hi] at h; exact (List.cons.inj h).2)
          obtain rfl : i = 0 := by omega
          simpa using hx
      · next h =>
        rw [ih]
        constructor
        · rintro ⟨i, hi, hx⟩
          exact ⟨i + 1, by rw [hi]; congr 2; omega, by simpa using hx⟩
        · rintro ⟨i, hi, hx⟩
          cases i with
          | zero => exact absurd hi.symm h
          | succ i => exact ⟨i, by rw [hi]; congr 2; omega, by simpa using hx⟩
  have := key args 0
  simpa [aliasArgs] using this

mutual
theorem subst_replaceNames (args : List Expr) : ∀ e, Subst args e (e.replaceNames (aliasArgs args))
  | .name n => by
    rw [Expr.replaceNames]
    split
    · next e he =>
      obtain ⟨i, rfl, hi⟩ := (get?_aliasArgs args n e).1 he
      exact .arg hi
    · next he =>
      refine .other fun i hi hn => ?_
      have := (get?_aliasArgs args n args[i]).2 ⟨i, hn, List.getElem?_eq_getElem hi⟩
      rw [he] at this; cases this
  | .call f es => by
    rw [Expr.replaceNames]
    exact .call (substList_replaceNames args es)
theorem substList_replaceNames (args : List Expr) :
    ∀ es, SubstList args es (Expr.replaceNamesList (aliasArgs args) es)
  | [] => by rw [Expr.replaceNamesList]; exact .nil
  | e :: es => by
    rw [Expr.replaceNamesList]
    exact .cons (subst_replaceNames args e) (substList_replaceNames args es)
end

theorem Subst.eq {args : List Expr} {e e' : Expr} (h : Subst args e e') :
    e' = e.replaceNames (aliasArgs args) := by
  induction h using Subst.rec
    (motive_2 := fun es es' _ => es' = Expr.replaceNamesList (aliasArgs args) es) with
  | arg hi =>
    rw [Expr.replaceNames, (get?_aliasArgs args _ _).2 ⟨_, rfl, hi⟩]
  | @other n h =>
    rw [Expr.replaceNames]
    split
    · next e he =>
      obtain ⟨i, rfl, hi⟩ := (get?_aliasArgs args n e).1 he
      exact absurd rfl (h i (List.getElem?_eq_some_iff.1 hi).1)
    · rfl
  | call _ ih => rw [Expr.replaceNames, ih]
  | nil => rw [Expr.replaceNamesList]
  | cons _ _ ih1 ih2 => rw [Expr.replaceNamesList, ih1, ih2]

end Verif.Spec
