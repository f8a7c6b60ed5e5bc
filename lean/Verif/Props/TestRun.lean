import Verif.Lemmas.TestRunEnd

/-!
C71: `git test` runs the command on the commits with several threads. Whatever the order in which the
threads run: no commit is tested twice, the run comes to an end, and what it reports does not depend
on the order. One panic in the middle of a test is enough to break the second of these.
-/

namespace Verif.Props

open Verif.Bisect Verif.TestRun Verif.Spec

variable {N : Type} [DecidableEq N]

section

variable {p : Params N} {ls : List (Label N)} {s : State N}

/-- C71: in every execution, each of the commits is tested at most once, and nothing else is. -/
theorem tested_once (hg : p.graph.Lawful) (hcn : p.commits.Nodup) (hp : 0 < p.numJobs)
    (h : Exec p (State.init p) ls s) :
    (started ls).Nodup ∧ (∀ c ∈ started ls, c ∈ p.commits) ∧
    ∀ c o o', Ran ls c o → Ran ls c o' → o = o' :=
  have hi := inv_exec hg hcn hp h
  ⟨hi.startedNodup, fun c hc => hi.accMem c ((hi.started c).2 hc), fun _ _ _ => ran_unique hg hcn hp h⟩

/-- C71: an execution has a bounded number of steps, so that none goes on for ever. -/
theorem run_is_finite (hg : p.graph.Lawful) (hcn : p.commits.Nodup) (hp : 0 < p.numJobs)
    (h : Exec p (State.init p) ls s) : ls.length ≤ 4 * p.commits.length + 2 * p.numJobs + 5 := by
  have := exec_left hg hcn hp h
  omega

/-- C71: as long as no thread panicked in the middle of a test, either all threads have ended or one of
them can go on. -/
theorem never_stuck (hg : p.graph.Lawful) (hcn : p.commits.Nodup) (hp : 0 < p.numJobs)
    (h : Exec p (State.init p) ls s) (hc : ¬ Crashed ls) (result : N → TestStatus) :
    s.Finished ∨ ∃ l s', Ordinary result l ∧ step p s l = some s' :=
  next_step hg hp (inv_exec hg hcn hp h) hc result

theorem ordinary_not_crash {result : N → TestStatus} {l : Label N} (h : Ordinary result l) (w : Nat) (c : N) :
    l ≠ .crash w c := by
  rintro rfl; exact h

theorem exec_append {s1 s2 s3 : State N} {ls1 ls2 : List (Label N)} (h1 : Exec p s1 ls1 s2)
    (h2 : Exec p s2 ls2 s3) : Exec p s1 (ls1 ++ ls2) s3 := by
  induction h2 with
  | nil => rwa [List.append_nil]
  | snoc _ hs ih => rw [← List.append_assoc]; exact .snoc ih hs

/-- C71: so every execution without such a panic is the beginning of one which ends. -/
theorem run_completes (hg : p.graph.Lawful) (hcn : p.commits.Nodup) (hp : 0 < p.numJobs)
    (h : Exec p (State.init p) ls s) (hc : ¬ Crashed ls) (result : N → TestStatus) :
    ∃ ls' s', Exec p s ls' s' ∧ s'.Finished ∧ ∀ l ∈ ls', Ordinary result l := by
  obtain ⟨n, hn⟩ : ∃ n, s.left p = n := ⟨_, rfl⟩
  induction n using Nat.strongRecOn generalizing ls s with
  | ind n ih =>
    rcases never_stuck hg hcn hp h hc result with hf | ⟨l, s1, ho, hs⟩
    · exact ⟨[], s, .nil, hf, by simp⟩
    · have hlt := step_left hg hp (inv_exec hg hcn hp h) hs
      have hc1 : ¬ Crashed (ls ++ [l]) := by
        rintro ⟨w, c, hm⟩
        rcases List.mem_append.1 hm with hm | hm
        · exact hc ⟨w, c, hm⟩
        · simp only [List.mem_singleton] at hm
          exact ordinary_not_crash ho w c hm.symm
      obtain ⟨ls', s', e1, e2, e3⟩ := ih (s1.left p) (by omega) (.snoc h hs) hc1 rfl
      refine ⟨[l] ++ ls', s', exec_append (.snoc (ls := []) .nil hs) e1, e2, ?_⟩
      intro x hx
      rcases List.mem_append.1 hx with hx | hx
      · simp only [List.mem_singleton] at hx; exact hx ▸ ho
      · exact e3 x hx

/-- C71: where an error comes from. -/
theorem errors_explained (hg : p.graph.Lawful) (hcn : p.commits.Nodup) (hp : 0 < p.numJobs)
    (h : Exec p (State.init p) ls s) {e : RunError N} (hf : s.main = .finished (.error e)) :
    (∃ w c, e = .worker w c ∧ Label.fault w c ∈ ls) ∨
    (e = .notify ∧ p.strategy.isSome ∧ Contradictory p ls) ∨
    (e = .panicked ∧ (Crashed ls ∨ ∃ w, Label.setupFailed w ∈ ls)) := by
  have := (inv_exec hg hcn hp h).finished _ hf
  cases e with
  | search => exact this.elim
  | worker w c => exact .inl ⟨w, c, rfl, this⟩
  | notify => exact .inr (.inl ⟨rfl, this⟩)
  | panicked => exact .inr (.inr ⟨rfl, this⟩)

/-- C71: if no thread fails, and the results do not contradict each other (which only matters to a
search), there is no error. -/
theorem undisturbed_ok (hg : p.graph.Lawful) (hcn : p.commits.Nodup) (hp : 0 < p.numJobs)
    (h : Exec p (State.init p) ls s) {r : Except (RunError N) (LoopOutput N)}
    (hf : s.main = .finished r) (hd : ¬ Disturbed ls) (hx : p.strategy.isSome → ¬ Contradictory p ls) :
    ∃ out, r = .ok out := by
  cases r with
  | ok out => exact ⟨out, rfl⟩
  | error e =>
    exfalso
    rcases errors_explained hg hcn hp h hf with ⟨w, c, _, h1⟩ | ⟨_, h1, h2⟩ | ⟨_, h1 | h1⟩
    · exact hd (.inr (.inr ⟨w, c, h1⟩))
    · exact hx h1 h2
    · exact hd (.inl h1)
    · exact hd (.inr (.inl h1))

/-- C71: every result which is reported is that of a test which was run on that commit. -/
theorem reported_ran (hg : p.graph.Lawful) (hcn : p.commits.Nodup) (hp : 0 < p.numJobs)
    (h : Exec p (State.init p) ls s) {out : LoopOutput N} (hf : s.main = .finished (.ok out)) :
    ∀ e ∈ (testResults p out).outputs, Ran ls e.1 e.2 ∧ e.1 ∈ p.commits := by
  have hi := ((inv_exec hg hcn hp h).finished _ hf).1
  rintro ⟨c, o⟩ he
  simp only [testResults, orderOutputs, List.mem_filterMap, Option.map_eq_some_iff, Prod.mk.injEq] at he
  obtain ⟨c', hc, o', ho, rfl, rfl⟩ := he
  exact hi.ran c' o' ho

/-- C71: testing is aborted exactly if one of the results that are reported says so. -/
theorem aborted_iff (hg : p.graph.Lawful) (hcn : p.commits.Nodup) (hp : 0 < p.numJobs)
    (h : Exec p (State.init p) ls s) {out : LoopOutput N} (hf : s.main = .finished (.ok out)) :
    ((testResults p out).aborted.isSome ↔ ∃ c code, (c, TestStatus.abort code) ∈ (testResults p out).outputs) ∧
    ∀ c code, (testResults p out).aborted = some (c, code) →
      (c, TestStatus.abort code) ∈ (testResults p out).outputs := by
  have hi := ((inv_exec hg hcn hp h).finished _ hf).1
  have hmem : ∀ c o, (c, o) ∈ (testResults p out).outputs ↔ out.outputs.get? c = some o := by
    intro c o
    simp only [testResults, orderOutputs, List.mem_filterMap, Option.map_eq_some_iff, Prod.mk.injEq]
    constructor
    · rintro ⟨c', _, o', ho, rfl, rfl⟩; exact ho
    · intro ho; exact ⟨c, (hi.ran c o ho).2, o, ho, rfl, rfl⟩
  have h2 : ∀ c code, (testResults p out).aborted = some (c, code) →
      (c, TestStatus.abort code) ∈ (testResults p out).outputs :=
    fun c code ha => (hmem _ _).2 (hi.aborted c code ha)
  refine ⟨⟨fun ha => ?_, ?_⟩, h2⟩
  · obtain ⟨⟨c, code⟩, ha⟩ := Option.isSome_iff_exists.1 ha
    exact ⟨c, code, h2 c code ha⟩
  · rintro ⟨c, code, hm⟩
    cases ha : out.aborted with
    | some a => simp [testResults, ha]
    | none =>
      have := hi.going ha c _ ((hmem _ _).1 hm)
      simp [abortCode] at this

/-- C71: without a search, unless testing is aborted, there is exactly one result for each of the
commits, and they come in the order of the commits. -/
theorem all_tested (hg : p.graph.Lawful) (hcn : p.commits.Nodup) (hp : 0 < p.numJobs)
    (h : Exec p (State.init p) ls s) (hs : p.strategy = none) {out : LoopOutput N}
    (hf : s.main = .finished (.ok out)) (ha : (testResults p out).aborted = none) :
    (testResults p out).outputs.map Prod.fst = p.commits := by
  have hi := (inv_exec hg hcn hp h).finished _ hf
  have hall : ∀ c ∈ p.commits, (out.outputs.get? c).isSome := by
    rcases hi.2 with h | h
    · simp at h
    · exact h.all hs ha
  have : ∀ cs : List N, (∀ c ∈ cs, (out.outputs.get? c).isSome) →
      (cs.filterMap fun c => (out.outputs.get? c).map fun o => (c, o)).map Prod.fst = cs := by
    intro cs
    induction cs with
    | nil => simp
    | cons c cs ih =>
      intro hc
      obtain ⟨o, ho⟩ := Option.isSome_iff_exists.1 (hc c (by simp))
      simp only [List.filterMap_cons, ho, Option.map_some, List.map_cons]
      rw [ih fun x hx => hc x (by simp [hx])]
  exact this p.commits hall

/-- C71: without a search, if the command does not abort testing, then the report is the same whatever
the order in which the threads ran. -/
theorem report_determined (hg : p.graph.Lawful) (hcn : p.commits.Nodup) (hp : 0 < p.numJobs)
    (h : Exec p (State.init p) ls s) (hs : p.strategy = none) (hd : ¬ Disturbed ls)
    (result : N → TestStatus) (hr : ∀ c o, Ran ls c o → o = result c)
    (hna : ∀ c code, result c ≠ .abort code) {r : Except (RunError N) (LoopOutput N)}
    (hf : s.main = .finished r) :
    ∃ out, r = .ok out ∧ (testResults p out).outputs = p.commits.map (fun c => (c, result c)) ∧
      (testResults p out).aborted = none := by
  obtain ⟨out, rfl⟩ := undisturbed_ok hg hcn hp h hf hd (by simp [hs])
  have hrr := reported_ran hg hcn hp h hf
  have ha : (testResults p out).aborted = none := by
    cases hx : (testResults p out).aborted with
    | none => rfl
    | some a =>
      have := (aborted_iff hg hcn hp h hf).2 a.1 a.2 hx
      exact absurd (hr _ _ (hrr _ this).1).symm (hna a.1 a.2)
  refine ⟨out, rfl, ?_, ha⟩
  have h1 := all_tested hg hcn hp h hs hf ha
  have h2 : (testResults p out).outputs =
      ((testResults p out).outputs.map Prod.fst).map fun c => (c, result c) := by
    rw [List.map_map]
    conv_lhs => rw [← List.map_id (testResults p out).outputs]
    apply List.map_congr_left
    rintro ⟨c, o⟩ he
    simp [hr c o (hrr _ he).1]
  rw [h1] at h2
  exact h2

/-- C71: without a search, the exit code is 0 exactly if the command passes on every one of the
commits. -/
theorem exit_code_iff (hg : p.graph.Lawful) (hcn : p.commits.Nodup) (hp : 0 < p.numJobs)
    (h : Exec p (State.init p) ls s) (hs : p.strategy = none) {out : LoopOutput N}
    (hf : s.main = .finished (.ok out)) :
    summarySucceeds p (testResults p out) = true ↔ ∀ c ∈ p.commits, ∃ o, Ran ls c o ∧ o.Passed := by
  have hrr := reported_ran hg hcn hp h hf
  have hcount : ∀ o, counted o = .passed ↔ o.Passed := by
    intro o
    cases o <;> simp [counted, TestStatus.Passed]
  unfold summarySucceeds
  simp only [hs, Option.isSome_none, Bool.false_eq_true, if_false]
  constructor
  · intro hsum c hc
    split at hsum
    · simp at hsum
    rename_i ha
    have ha : (testResults p out).aborted = none := by simpa using ha
    split at hsum
    · simp at hsum
    rename_i hnum
    simp only [gt_iff_lt, Bool.or_eq_true, decide_eq_true_eq, not_or, Nat.not_lt, Nat.le_zero,
      List.countP_eq_zero] at hnum
    have hc' := hc
    rw [← all_tested hg hcn hp h hs hf ha, List.mem_map] at hc'
    obtain ⟨⟨c', o⟩, he, rfl⟩ := hc'
    refine ⟨o, (hrr _ he).1, (hcount o).1 ?_⟩
    have h1 := hnum.1 _ he
    have h2 := hnum.2 _ he
    cases hco : counted o <;> simp [hco] at h1 h2
    rfl
  · intro hall
    have hp' : ∀ e ∈ (testResults p out).outputs, e.2.Passed := by
      intro e he
      obtain ⟨o, h1, h2⟩ := hall e.1 (hrr e he).2
      rw [ran_unique hg hcn hp h (hrr e he).1 h1]
      exact h2
    rw [if_neg, if_neg]
    · simp only [gt_iff_lt, Bool.or_eq_true, decide_eq_true_eq, not_or, Nat.not_lt, Nat.le_zero,
        List.countP_eq_zero]
      constructor <;>
      · intro e he
        rw [(hcount _).2 (hp' e he)]
        simp
    · intro ha
      obtain ⟨c, code, hm⟩ := (aborted_iff hg hcn hp h hf).1.1 ha
      obtain ⟨_, _, _, hx⟩ := hp' _ hm
      simp at hx

/-- C71: a search. If the command tells of each commit that is tested whether it is good, and if
ancestors of good commits are good, then whatever the order in which the threads run, no error comes
from the search, and the bounds which it reports separate the good commits from the bad ones. -/
theorem search_finds_boundary (hg : p.graph.Lawful) (hcn : p.commits.Nodup) (hp : 0 < p.numJobs)
    (h : Exec p (State.init p) ls s) (hs : p.strategy.isSome) (hd : ¬ Disturbed ls)
    (good : N → Prop) (hmono : ∀ a b, p.graph.Le a b → good b → good a)
    (htrue : ∀ c o, Ran ls c o → (o.Passed ∧ good c) ∨ (o.Failed ∧ ¬ good c))
    {r : Except (RunError N) (LoopOutput N)} (hf : s.main = .finished r) :
    ∃ out, r = .ok out ∧ ∀ c ∈ p.commits,
      (good c ↔ ∃ b ∈ (testResults p out).bounds.success, p.graph.Le c b) ∧
      (¬ good c ↔ ∃ b ∈ (testResults p out).bounds.failure, p.graph.Le b c) := by
  have hexcl : ∀ o : TestStatus, o.Passed → o.Failed → False := by
    rintro o ⟨_, _, _, rfl⟩ ⟨_, _, _, h⟩; simp at h
  obtain ⟨out, rfl⟩ := undisturbed_ok hg hcn hp h hf hd (by
    rintro _ ⟨f, x, o, o', h1, h2, h3, h4, h5⟩
    rcases htrue f o h1 with ⟨e, _⟩ | ⟨_, hbad⟩
    · exact hexcl o e h2
    · rcases htrue x o' h3 with ⟨_, hgood⟩ | ⟨e, _⟩
      · exact hbad (hmono f x h5 hgood)
      · exact hexcl o' h4 e)
  refine ⟨out, rfl, ?_⟩
  have hi := (inv_exec hg hcn hp h).finished _ hf
  have hok := hi.1.search hs
  have hna : out.aborted = none := by
    cases hx : out.aborted with
    | none => rfl
    | some a =>
      have := hi.1.ran _ _ (hi.1.aborted a.1 a.2 hx)
      rcases htrue _ _ this.1 with ⟨⟨_, _, _, e⟩, _⟩ | ⟨⟨_, _, _, e⟩, _⟩ <;> simp at e
  have hdec : ∀ c, ¬ out.search.Undecided c := by
    rcases hi.2 with h | h
    · simp at h
    · exact h.decided hs hna
  have hst : ∀ o : TestStatus, (searchStatus o = .success → o.Passed) ∧ (searchStatus o = .failure → o.Failed) ∧
      (searchStatus o = .indeterminate → ¬ o.Passed ∧ ¬ o.Failed) := by
    intro o
    cases o <;> simp [searchStatus, TestStatus.Passed, TestStatus.Failed]
  have hb : (testResults p out).bounds = out.search.bounds := by
    unfold testResults
    obtain ⟨k, hk⟩ := Option.isSome_iff_exists.1 hs
    simp only [hk]
  rw [hb]
  obtain ⟨reports, hrep, hall⟩ := hok.built
  have hind : ∀ n, ¬ out.search.reported n .indeterminate := by
    intro n hn
    obtain ⟨o, h1, h2⟩ := hok.of_reported hn (by simp)
    have h3 := (hst o).2.2 h2.symm
    rcases htrue n o (hi.1.ran n o h1).1 with ⟨e, _⟩ | ⟨e, _⟩
    · exact h3.1 e
    · exact h3.2 e
  have := boundary_of_decided p.graph hg p.commits reports good hmono (by
    intro r hr
    obtain ⟨o, h1, h2⟩ := hall r hr
    have hro := (hi.1.ran _ _ h1).1
    constructor
    · intro he
      rcases htrue _ _ hro with ⟨_, e⟩ | ⟨e, _⟩
      · exact e
      · exact (hexcl o ((hst o).1 (h2 ▸ he)) e).elim
    · intro he
      rcases htrue _ _ hro with ⟨e, _⟩ | ⟨_, e⟩
      · exact (hexcl o e ((hst o).2.1 (h2 ▸ he))).elim
      · exact e)
  simp only [← hrep] at this
  exact this hdec hind

end

/-! ### The graph of the commits -/

/-- C71: the graph which `git test` searches has what the theorems above need, whichever commits are
given; its order is ancestry in the whole graph. -/
theorem search_graph (g : CommitGraph Oid) (hg : WFGraph g) (commits : List Oid)
    (hc : ∀ c ∈ commits, c ∈ g.nodes) :
    (searchGraph g commits).Lawful ∧ ∀ a b, (searchGraph g commits).Le a b ↔ Anc g a.val b.val :=
  ⟨searchGraph_lawful hg hc, searchGraph_le hg hc⟩

/-! ### A panic -/

/-- Take these steps. -/
def runSteps (p : Params N) (s : State N) : List (Label N) → Option (State N)
  | [] => some s
  | l :: ls =>
    match step p s l with
    | none => none
    | some s' => runSteps p s' ls

theorem exec_runSteps {p : Params N} {s s' : State N} {ls : List (Label N)} (h : runSteps p s ls = some s') :
    Exec p s ls s' := by
  induction ls generalizing s with
  | nil => simp only [runSteps, Option.some.injEq] at h; exact h ▸ .nil
  | cons l ls ih =>
    unfold runSteps at h
    cases hs : step p s l with
    | none => simp [hs] at h
    | some s1 =>
      rw [hs] at h
      exact exec_append (.snoc (ls := []) .nil hs) (ih h)

/-- Two commits, the first of which is the parent of the second. -/
def exPair : Graph Bool := ⟨fun b => if b then [false, true] else [false], fun b => if b then [true] else [false, true]⟩

theorem exPair_lawful : exPair.Lawful := by
  refine ⟨?_, ?_, ?_, ?_⟩ <;> unfold Graph.Le exPair <;> decide

/-- Two jobs, no search. -/
def exParams : Params Bool := ⟨[false, true], exPair, none, 2⟩

def exPassed : TestStatus := .passed false ⟨none, none⟩ false

/-- C71, finding: if one of two threads panics in the middle of a test, the command hangs. The other
thread waits for jobs for as long as the queue is open, the queue is closed only when `event_loop`
has returned, and `event_loop` waits for a result of the commit on which the first thread panicked, since
it is told that none will come only when all the threads have ended. -/
theorem panic_hangs : ∃ (ls : List (Label Bool)) (s : State Bool),
    Exec exParams (State.init exParams) ls s ∧ Crashed ls ∧ ¬ s.Finished ∧
    ∀ l, step exParams s l = none := by
  let ls : List (Label Bool) := [.setup 0, .setup 1, .begin, .turn, .start 0 false, .crash 0 false,
    .start 1 true, .finish 1 true exPassed, .receive, .turn]
  obtain ⟨s, hs⟩ : ∃ s, runSteps exParams (State.init exParams) ls = some s := ⟨_, rfl⟩
  have hw : s.workers = [.panicked, .idle] := by
    have := congrArg (Option.map State.workers) hs
    exact Option.some.inj (this.symm.trans rfl)
  have hq : s.queue.pop = .blocked := by
    have := congrArg (Option.map fun s => s.queue.pop) hs
    exact Option.some.inj (this.symm.trans rfl)
  have hc : s.channel = [] := by
    have := congrArg (Option.map State.channel) hs
    exact Option.some.inj (this.symm.trans rfl)
  obtain ⟨l, hm⟩ : ∃ l, s.main = .waiting l := by
    have := congrArg (Option.map State.main) hs
    exact ⟨_, Option.some.inj (this.symm.trans rfl)⟩
  refine ⟨ls, s, exec_runSteps hs, ⟨0, false, by decide⟩, ?_, ?_⟩
  · rintro ⟨r, hr⟩
    rw [hm] at hr
    simp at hr
  · intro l
    have hget : ∀ w : Nat, s.workers[w]? = some Worker.panicked ∨ s.workers[w]? = some Worker.idle ∨ s.workers[w]? = none := by
      intro w
      rw [hw]
      match w with
      | 0 => simp
      | 1 => simp
      | n + 2 => simp
    cases l with
    | begin | turn | close | join => simp [step, hm]
    | receive => simp [step, hm, hc, hw, Worker.gone]
    | setup w | setupFailed w | finish w _ _ | fault w _ | crash w _ =>
      rcases hget w with h | h | h <;> simp [step, h]
    | start w _ | exit w =>
      rcases hget w with h | h | h <;> simp [step, h, hq]

/-! ### Examples -/

/-- The threads can finish in any order; here the second commit is done first. -/
def exSteps : List (Label Bool) := [.setup 1, .begin, .turn, .start 1 false, .setup 0, .start 0 true,
  .finish 0 true exPassed, .receive, .finish 1 false exPassed, .turn, .receive, .turn, .close, .exit 0, .exit 1,
  .join]

/-- Non-vacuity: the execution ends, and the results are in the order of the commits. -/
example : ∃ s out, Exec exParams (State.init exParams) exSteps s ∧ s.main = .finished (.ok out) ∧
    (testResults exParams out).outputs = [(false, exPassed), (true, exPassed)] := by
  obtain ⟨s, hs⟩ : ∃ s, runSteps exParams (State.init exParams) exSteps = some s := ⟨_, rfl⟩
  obtain ⟨out, hm, ho⟩ : ∃ out, s.main = .finished (.ok out) ∧
      (testResults exParams out).outputs = [(false, exPassed), (true, exPassed)] := by
    have := congrArg (Option.map State.main) hs
    exact ⟨_, Option.some.inj (this.symm.trans rfl), rfl⟩
  exact ⟨s, out, exec_runSteps hs, hm, ho⟩

example : ¬ Disturbed exSteps := by
  simp [Disturbed, Crashed, exSteps]

/-- Non-vacuity of the search: the parent is good, the child is not. -/
def exSearch : Params Bool := ⟨[false, true], exPair, some .binary, 2⟩

def exSearchSteps : List (Label Bool) := [.setup 1, .begin, .turn, .start 1 true, .setup 0,
  .start 0 false, .finish 0 false exPassed, .receive, .turn, .finish 1 true (.failed false 1 false), .receive,
  .turn, .close, .exit 0, .exit 1, .join]

example : ∃ s out, Exec exSearch (State.init exSearch) exSearchSteps s ∧ s.main = .finished (.ok out) ∧
    (testResults exSearch out).bounds = ⟨[false], [true]⟩ := by
  obtain ⟨s, hs⟩ : ∃ s, runSteps exSearch (State.init exSearch) exSearchSteps = some s := ⟨_, rfl⟩
  obtain ⟨out, hm, ho⟩ : ∃ out, s.main = .finished (.ok out) ∧
      (testResults exSearch out).bounds = ⟨[false], [true]⟩ := by
    have := congrArg (Option.map State.main) hs
    exact ⟨_, Option.some.inj (this.symm.trans rfl), rfl⟩
  exact ⟨s, out, exec_runSteps hs, hm, ho⟩

end Verif.Props
