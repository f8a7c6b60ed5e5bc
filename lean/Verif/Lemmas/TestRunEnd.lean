import Verif.Lemmas.TestRunExec
import Verif.Lemmas.Dag

/-! Executions of the tests come to an end. -/

namespace Verif.TestRun

open Verif.Bisect Verif.Props Verif.Spec

variable {N : Type} [DecidableEq N]

/-! ### How many steps there can be -/

def Worker.left : Worker N → Nat
  | .starting => 2
  | .idle => 1
  | .running _ => 4
  | .exited | .panicked => 0

def Main.left : Main N → Nat
  | .begin => 5
  | .top _ => 4
  | .waiting _ => 3
  | .returned _ => 2
  | .closed _ => 1
  | .finished _ => 0

/-- An upper bound for the number of steps that can still be taken. -/
def State.left (p : Params N) (s : State N) : Nat :=
  4 * (p.commits.filter fun c => !s.queue.accepted.contains c).length +
    (s.workers.map Worker.left).sum + 2 * s.channel.length + s.main.left

theorem left_init (p : Params N) : (State.init p).left p = 4 * p.commits.length + 2 * p.numJobs + 5 := by
  have : (p.commits.filter fun c => !(WorkQueue.new (N := N)).accepted.contains c) = p.commits := by
    rw [List.filter_eq_self]; intro a _; simp [WorkQueue.new]
  simp only [State.left, State.init, this, List.map_replicate, List.sum_replicate_nat, List.length_nil,
    Main.left, Worker.left]
  omega

theorem left_accept {commits accepted : List N} {c : N} (hc : c ∈ commits) (ha : c ∉ accepted) :
    (commits.filter fun x => !(accepted.insert c).contains x).length + 1 ≤
      (commits.filter fun x => !accepted.contains x).length := by
  have hsub : (commits.filter fun x => !(accepted.insert c).contains x) =
      (commits.filter fun x => !accepted.contains x).filter fun x => decide (x ≠ c) := by
    rw [List.filter_filter]
    apply List.filter_congr
    intro x _
    by_cases hx : x = c
    · subst hx; simp
    · simp [hx]
  rw [hsub]
  have hmem : c ∈ commits.filter fun x => !accepted.contains x := by
    rw [List.mem_filter]; exact ⟨hc, by simpa using ha⟩
  apply Nat.succ_le_of_lt
  rw [List.length_filter_lt_length_iff_exists]
  exact ⟨c, hmem, by simp⟩

theorem step_left {p : Params N} {ls : List (Label N)} {s s' : State N} {l : Label N}
    (hg : p.graph.Lawful) (hp : 0 < p.numJobs) (h : Inv p ls s)
    (hs : step p s l = some s') : s'.left p + 1 ≤ s.left p := by
  have hst := step_cases hs
  clear hs
  unfold State.left
  cases hst with
  | start hw ha hj =>
    rename_i w c cs ws1 ws2
    have hcj := h.jobs.mem c (by rw [hj]; simp)
    have := left_accept hcj.1 hcj.2
    simp only [hw, List.map_append, List.map_cons, List.sum_append, List.sum_cons, Worker.left]
    omega
  | setup hw | setupFailed hw | crash hw | exit hw _ =>
    simp only [hw, List.map_append, List.map_cons, List.sum_append, List.sum_cons, Worker.left]
    omega
  | finish hw _ | finishLate hw _ | fault hw _ | faultLate hw _ =>
    simp only [hw, List.map_append, List.map_cons, List.sum_append, List.sum_cons, Worker.left,
      List.length_append, List.length_cons, List.length_nil]
    omega
  | begin hm =>
    have hb : (beginLoop p s.queue).2.accepted = s.queue.accepted := by
      unfold beginLoop; cases p.strategy <;> rfl
    simp only [hm, hb, Main.left]
    omega
  | turnWait hm ht =>
    rename_i l l' q
    have hspec := turn_spec hg hp (h.loop l (by rw [hm]; rfl)) h.jobs
    rw [ht] at hspec
    cases hspec with
    | wait t1 t2 t3 t4 t5 t6 =>
      simp only [hm, t3, Main.left]
      omega
  | turnReturn hm ht =>
    rename_i l r q
    have hspec := turn_spec hg hp (h.loop l (by rw [hm]; rfl)) h.jobs
    rw [ht] at hspec
    cases hspec with
    | «return» t1 t2 =>
      simp only [hm, Main.left]
      omega
  | receiveOk hm hc _ | receiveError hm hc _ =>
    simp only [hm, hc, Main.left, List.length_cons]
    omega
  | receiveClosed hm hc _ =>
    simp only [hm, Main.left]
    omega
  | close hm =>
    simp only [hm, Main.left, WorkQueue.close]
    omega
  | join hm _ =>
    simp only [hm, Main.left]
    omega

theorem exec_left {p : Params N} {ls : List (Label N)} {s : State N}
    (hg : p.graph.Lawful) (hcn : p.commits.Nodup) (hp : 0 < p.numJobs)
    (h : Exec p (State.init p) ls s) : ls.length + s.left p ≤ 4 * p.commits.length + 2 * p.numJobs + 5 := by
  induction h with
  | nil => rw [left_init]; simp
  | snoc he hs ih =>
    have := step_left hg hp (inv_exec hg hcn hp he) hs
    simp only [List.length_append, List.length_cons, List.length_nil]
    omega

/-! ### There is always a next step -/

theorem get_of_split {α : Type} {l l1 l2 : List α} {a : α} (h : l = l1 ++ a :: l2) :
    l[l1.length]? = some a := by rw [h]; simp

theorem next_step {p : Params N} {ls : List (Label N)} {s : State N}
    (hg : p.graph.Lawful) (hp : 0 < p.numJobs) (h : Inv p ls s) (hc : ¬ Crashed ls)
    (result : N → TestStatus) :
    s.Finished ∨ ∃ l s', Ordinary result l ∧ step p s l = some s' := by
  have hrun : ∀ c, Worker.running c ∈ s.workers → ∃ l s', Ordinary result l ∧ step p s l = some s' := by
    intro c hm
    obtain ⟨w, hw⟩ := List.mem_iff_getElem?.1 hm
    refine ⟨.finish w c (result c), ?_⟩
    unfold step
    simp only [hw, if_true]
    split
    · exact ⟨_, rfl, rfl⟩
    · exact ⟨_, rfl, rfl⟩
  have hset : Worker.starting ∈ s.workers → ∃ l s', Ordinary result l ∧ step p s l = some s' := by
    intro hm
    obtain ⟨w, hw⟩ := List.mem_iff_getElem?.1 hm
    refine ⟨.setup w, ?_⟩
    unfold step
    simp only [hw]
    exact ⟨_, trivial, rfl⟩
  by_cases hbusy : Worker.starting ∈ s.workers ∨ ∃ c, Worker.running c ∈ s.workers
  · right
    rcases hbusy with hb | ⟨c, hb⟩
    · exact hset hb
    · exact hrun c hb
  push Not at hbusy
  have hcase : ∀ a ∈ s.workers, a = .idle ∨ a.gone = true := by
    intro a ha
    cases a with
    | starting => exact absurd ha hbusy.1
    | running c => exact absurd ha (hbusy.2 c)
    | idle => exact .inl rfl
    | exited | panicked => exact .inr rfl
  cases hm : s.main with
  | begin =>
    right
    refine ⟨.begin, ?_⟩
    unfold step
    simp only [hm]
    exact ⟨_, trivial, rfl⟩
  | top l =>
    right
    have hspec := turn_spec hg hp (h.loop l (by rw [hm]; rfl)) h.jobs
    refine ⟨.turn, ?_⟩
    unfold step
    simp only [hm]
    cases ht : turn p l s.queue with
    | diverge => rw [ht] at hspec; cases hspec
    | wait l' q => exact ⟨_, trivial, rfl⟩
    | «return» r q => exact ⟨_, trivial, rfl⟩
  | waiting l =>
    right
    have hlis : s.main.listening = true := by rw [hm]; rfl
    cases hch : s.channel with
    | cons r ch =>
      refine ⟨.receive, ?_⟩
      unfold step
      simp only [hm, hch]
      cases hr : receive p l r with
      | ok l' => exact ⟨_, trivial, rfl⟩
      | error e => exact ⟨_, trivial, rfl⟩
    | nil =>
      by_cases hidle : Worker.idle ∈ s.workers
      · -- The job which the main thread waits for is still in the queue.
        obtain ⟨c, hsc⟩ := h.waiting l hm
        have hl := h.loop l (by rw [hm]; rfl)
        have hact : s.queue.active = true := by rw [h.active, hm]; rfl
        have hjob : c ∈ s.queue.jobs := by
          rcases hl.sched c hsc with hj | ha
          · exact hj
          · exfalso
            have h1 := h.hereGe hlis hc c ha
            have h2 : (runningJobs s.workers).count c = 0 := by
              rw [List.count_eq_zero]
              unfold runningJobs
              rw [List.mem_filterMap]
              rintro ⟨a, ha1, ha2⟩
              cases a <;> simp [Worker.job] at ha2
              subst ha2
              exact hbusy.2 _ ha1
            have h3 : s.main.received c = 0 := by
              unfold Main.received
              rw [hm]
              simp [Main.loop, LoopState.received, hsc]
            unfold State.here at h1
            rw [h2, h3, hch] at h1
            simp [sentJobs] at h1
        obtain ⟨w, hw⟩ := List.mem_iff_getElem?.1 hidle
        cases hj : s.queue.jobs with
        | nil => rw [hj] at hjob; simp at hjob
        | cons j js =>
          refine ⟨.start w j, ?_⟩
          have hpop : s.queue.pop =
              .job j { s.queue with jobs := js, accepted := s.queue.accepted.insert j } := by
            unfold WorkQueue.pop
            simp [hact, hj]
          unfold step
          simp only [hw, hpop, if_true]
          exact ⟨_, trivial, rfl⟩
      · refine ⟨.receive, ?_⟩
        have hall : s.workers.all Worker.gone = true := by
          rw [List.all_eq_true]
          intro a ha
          rcases hcase a ha with rfl | hga
          · exact absurd ha hidle
          · exact hga
        unfold step
        simp only [hm, hch, hall, if_true]
        exact ⟨_, trivial, rfl⟩
  | returned r =>
    right
    refine ⟨.close, ?_⟩
    unfold step
    simp only [hm]
    exact ⟨_, trivial, rfl⟩
  | closed r =>
    right
    have hact : s.queue.active = false := by rw [h.active, hm]; rfl
    by_cases hidle : Worker.idle ∈ s.workers
    · obtain ⟨w, hw⟩ := List.mem_iff_getElem?.1 hidle
      refine ⟨.exit w, ?_⟩
      unfold step WorkQueue.pop
      simp only [hw, hact]
      exact ⟨_, trivial, rfl⟩
    · refine ⟨.join, ?_⟩
      have hall : s.workers.all Worker.gone = true := by
        rw [List.all_eq_true]
        intro a ha
        rcases hcase a ha with rfl | hga
        · exact absurd ha hidle
        · exact hga
      unfold step
      simp only [hm, hall, if_true]
      exact ⟨_, trivial, rfl⟩
  | finished r => exact .inl ⟨r, hm⟩

/-! ### Each test ends once -/

/-- The commits of which the tests have ended, in whatever way. -/
def ended (ls : List (Label N)) : List N :=
  ls.filterMap fun l => match l with
    | .finish _ job _ => some job
    | .fault _ job => some job
    | .crash _ job => some job
    | _ => none

theorem ended_snoc (ls : List (Label N)) (l : Label N) :
    ended (ls ++ [l]) = ended ls ++ ended [l] := by
  unfold ended; rw [List.filterMap_append]

theorem ended_running {p : Params N} {ls : List (Label N)} {s : State N}
    (h : Exec p (State.init p) ls s) (c : N) :
    (ended ls).count c + (runningJobs s.workers).count c = (started ls).count c := by
  induction h with
  | nil =>
    have : runningJobs (List.replicate p.numJobs (Worker.starting : Worker N)) = [] := by
      unfold runningJobs
      rw [List.filterMap_eq_nil_iff]
      intro a ha
      rw [List.eq_of_mem_replicate ha]; rfl
    simp [ended, started, State.init, this]
  | snoc he hs ih =>
    rw [ended_snoc, started_snoc, List.count_append, List.count_append]
    cases step_cases hs with
    | setup hw | setupFailed hw | exit hw _ | start hw _ _ | finish hw _ | finishLate hw _
    | fault hw _ | faultLate hw _ | crash hw =>
      rw [hw] at ih
      simp only [runningJobs_append, runningJobs_cons, List.count_append, Worker.job, Option.toList,
        List.count_nil, ended, started, List.filterMap_cons, List.filterMap_nil] at ih ⊢
      omega
    | begin _ | turnWait _ _ | turnReturn _ _ | receiveOk _ _ _ | receiveError _ _ _
    | receiveClosed _ _ _ | close _ | join _ _ =>
      simp only [ended, started, List.filterMap_cons, List.filterMap_nil, List.count_nil] at ih ⊢
      omega

theorem two_of_mem {α β : Type} [DecidableEq β] {f : α → Option β} {l : List α} {a b : α} {y : β}
    (ha : a ∈ l) (hb : b ∈ l) (hab : a ≠ b) (hfa : f a = some y) (hfb : f b = some y) :
    2 ≤ (l.filterMap f).count y := by
  induction l with
  | nil => simp at ha
  | cons x l ih =>
    rcases List.mem_cons.1 ha with rfl | ha'
    · rcases List.mem_cons.1 hb with rfl | hb'
      · exact absurd rfl hab
      · have : 1 ≤ (l.filterMap f).count y := List.one_le_count_iff.2 (List.mem_filterMap.2 ⟨b, hb', hfb⟩)
        simp only [List.filterMap_cons, hfa, List.count_cons_self]
        omega
    · rcases List.mem_cons.1 hb with rfl | hb'
      · have : 1 ≤ (l.filterMap f).count y := List.one_le_count_iff.2 (List.mem_filterMap.2 ⟨a, ha', hfa⟩)
        simp only [List.filterMap_cons, hfb, List.count_cons_self]
        omega
      · have := ih ha' hb'
        simp only [List.filterMap_cons]
        split
        · exact this
        · rw [List.count_cons]; omega

theorem ran_unique {p : Params N} {ls : List (Label N)} {s : State N}
    (hg : p.graph.Lawful) (hcn : p.commits.Nodup) (hp : 0 < p.numJobs)
    (h : Exec p (State.init p) ls s) {c : N} {o o' : TestStatus} (h1 : Ran ls c o) (h2 : Ran ls c o') :
    o = o' := by
  by_contra hne
  obtain ⟨w, h1⟩ := h1
  obtain ⟨w', h2⟩ := h2
  have hle := List.nodup_iff_count.1 (inv_exec hg hcn hp h).startedNodup c
  have := ended_running h c
  have h3 : 2 ≤ (ended ls).count c :=
    two_of_mem h1 h2 (by simp; tauto) rfl rfl
  omega

/-! ### The graph of the commits -/

theorem searchGraph_le {g : CommitGraph Oid} (hg : WFGraph g) {commits : List Oid}
    (hc : ∀ c ∈ commits, c ∈ g.nodes) (a b : { c // c ∈ commits }) :
    (searchGraph g commits).Le a b ↔ Anc g a.val b.val := by
  unfold Graph.Le searchGraph
  simp only [List.mem_filterMap]
  constructor
  · rintro ⟨x, hx, he⟩
    split at he
    · simp only [Option.some.injEq] at he
      subst he
      obtain ⟨_, d, hd, ha⟩ := (mem_ancestors hg).1 hx
      simp only [List.mem_singleton] at hd
      exact hd ▸ ha
    · simp at he
  · intro h
    exact ⟨a.val, (mem_ancestors hg).2 ⟨hc _ a.2, b.val, by simp, h⟩, by simp [a.2]⟩

theorem searchGraph_lawful {g : CommitGraph Oid} (hg : WFGraph g) {commits : List Oid}
    (hc : ∀ c ∈ commits, c ∈ g.nodes) : (searchGraph g commits).Lawful where
  refl a := (searchGraph_le hg hc a a).2 .refl
  trans a b c h1 h2 := (searchGraph_le hg hc a c).2
    (((searchGraph_le hg hc a b).1 h1).trans ((searchGraph_le hg hc b c).1 h2))
  antisymm a b h1 h2 := Subtype.ext
    (Anc.antisymm hg ((searchGraph_le hg hc a b).1 h1) ((searchGraph_le hg hc b a).1 h2))
  descendants a b := by
    rw [searchGraph_le hg hc]
    unfold searchGraph
    simp only [List.mem_filterMap]
    constructor
    · rintro ⟨x, hx, he⟩
      split at he
      · simp only [Option.some.injEq] at he
        subst he
        obtain ⟨_, d, hd, ha⟩ := (mem_descendants hg).1 hx
        simp only [List.mem_singleton] at hd
        exact hd ▸ ha
      · simp at he
    · intro h
      exact ⟨b.val, (mem_descendants hg).2 ⟨hc _ b.2, a.val, by simp, h⟩, by simp [b.2]⟩

end Verif.TestRun
