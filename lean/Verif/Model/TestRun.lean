import Verif.Model.Bisect
import Verif.Model.Dag

/-!
Model of how `git test` runs the command on the commits, possibly on several at a time:
git-branchless-test/src/worker.rs and `run_tests_inner`, `event_loop` and `print_summary` in
git-branchless-test/src/lib.rs.

The threads are a transition system: `step` says what one of them does next, and an execution is any
interleaving of such steps. One step is what happens between two uses of something that is shared:
the lock of the work queue, or the channel on which the workers send their results. Waiting (for a
job, for a result, for the threads to end) is a step that cannot be taken yet.

Simplifications: the paths and the temporary directory of a `TestOutput` are left out, only its
status is kept; log messages, the progress meter and the printing are left out; what the command does
and how long it takes is arbitrary (the label of the step says with what status it ended).
-/

namespace Verif.TestRun

open Verif.Bisect

variable {N : Type} [DecidableEq N]

/-- git-branchless-test/src/lib.rs:850-862 `FixInfo`. -/
structure FixInfo where
  headCommitOid : Option Oid
  snapshotTreeOid : Option Oid
deriving DecidableEq, Repr

/-- git-branchless-test/src/lib.rs:789-848 `TestStatus`. -/
inductive TestStatus where
  | checkoutFailed
  | spawnTestFailed (error : Text)
  | terminatedBySignal
  | alreadyInProgress
  | readCacheFailed (error : Text)
  | indeterminate (exitCode : Int)
  | abort (exitCode : Int)
  | failed (cached : Bool) (exitCode : Int) (interactive : Bool)
  | passed (cached : Bool) (fixInfo : FixInfo) (interactive : Bool)
deriving DecidableEq, Repr

/-! ## worker.rs -/

/-- worker.rs:21-26 `WorkQueueState`. The jobs of `git test` are determined by their commit
(lib.rs:1146-1150 `TestJob`, lib.rs:1356-1380), so that a job is given by its commit here. -/
structure WorkQueue (N : Type) where
  jobs : List N
  accepted : List N
  active : Bool

/-- worker.rs:28-36, 45-50 `WorkQueue::new`. -/
def WorkQueue.new : WorkQueue N := ⟨[], [], true⟩

/-- worker.rs:52-59 `WorkQueue::set`. -/
def WorkQueue.set (q : WorkQueue N) (jobs : List N) : WorkQueue N :=
  { q with jobs := jobs.filter fun job => !q.accepted.contains job }

/-- worker.rs:61-66 `WorkQueue::close`. -/
def WorkQueue.close (q : WorkQueue N) : WorkQueue N := { q with jobs := [], active := false }

/-- What `pop_blocking` finds when it holds the lock. -/
inductive Popped (N : Type) where
  /-- The thread waits (`cond_var.wait_while`). -/
  | blocked
  /-- It returns `None`. -/
  | inactive
  /-- It returns the job. -/
  | job (job : N) (queue : WorkQueue N)

/-- worker.rs:68-105 `WorkQueue::pop_blocking`. -/
def WorkQueue.pop (q : WorkQueue N) : Popped N :=
  if !q.active then .inactive
  else
    match q.jobs with
    | [] => .blocked
    | job :: jobs => .job job { q with jobs, accepted := q.accepted.insert job }

/-- worker.rs:15-19 `JobResult`. -/
inductive JobResult (N : Type) where
  | done (job : N) (output : TestStatus)
  | error (worker : Nat) (job : N)

/-- Where a worker (worker.rs:108-161) is. -/
inductive Worker (N : Type) where
  /-- Before the end of `setup` (118-123). -/
  | starting
  /-- About to take a job (142). -/
  | idle
  /-- Running the job (144). -/
  | running (job : N)
  /-- The function has returned. -/
  | exited
  /-- The thread has panicked. -/
  | panicked

/-- The thread has ended, and with it its sender of results is gone. -/
def Worker.gone : Worker N → Bool
  | .exited | .panicked => true
  | .starting | .idle | .running _ => false

/-! ## lib.rs, the main thread -/

/-- lib.rs:1519-1523 `ScheduledJob`. -/
inductive ScheduledJob where
  | scheduled
  | complete (output : TestStatus)
deriving DecidableEq, Repr

/-- The variables of `event_loop` which change (lib.rs:1513, 1524-1525). -/
structure LoopState (N : Type) where
  scheduled : AMap N ScheduledJob
  search : Search N
  aborted : Option (N × Int)

/-- The errors with which `event_loop` and the rest of `run_tests_inner` return. -/
inductive RunError (N : Type) where
  /-- lib.rs:1557, 1584: the search failed. -/
  | search
  /-- lib.rs:1637-1643: a worker reported an error. -/
  | worker (worker : Nat) (job : N)
  /-- lib.rs:1681: the search did not accept the result. -/
  | notify
  /-- lib.rs:1450-1463: one of the threads panicked. -/
  | panicked

/-- lib.rs:1505-1509 `EventLoopOutput`. -/
structure LoopOutput (N : Type) where
  search : Search N
  outputs : AMap N TestStatus
  aborted : Option (N × Int)

/-- lib.rs:1698-1710: the end of `event_loop`. -/
def LoopState.output (l : LoopState N) : LoopOutput N where
  search := l.search
  outputs := l.scheduled.filterMap fun e =>
    match e.2 with
    | .scheduled => none
    | .complete output => some (e.1, output)
  aborted := l.aborted

/-- lib.rs:1161-1186 `SearchGraph`: the commits which are tested, and which of them are ancestors of
which in the whole graph. The nodes are the commits of the set. -/
def searchGraph (g : CommitGraph Oid) (commits : List Oid) : Graph { c // c ∈ commits } where
  ancestors c := (g.ancestors [c.val]).filterMap fun a => if h : a ∈ commits then some ⟨a, h⟩ else none
  descendants c :=
    (g.descendants [c.val]).filterMap fun a => if h : a ∈ commits then some ⟨a, h⟩ else none

/-- What `run_tests_inner` is called with: the commits, in the order of `sorted_commit_set`, the graph
of `SearchGraph` (lib.rs:1161-1186), the search strategy if any, and the number of jobs. -/
structure Params (N : Type) where
  commits : List N
  graph : Graph N
  strategy : Option StrategyKind
  numJobs : Nat

/-- lib.rs:1558-1584: the proposals of the search, of which those that `skip` says are left out
(`filter`), the first `n` (`take`), or the first error (`try_collect`). The argument before `n` bounds
the number of rounds of the search; see `searchRounds`. -/
def takeNext (g : Graph N) (strategy : Strategy N) (skip : N → Bool) :
    Nat → Nat → Iter N → Option (Except (N × Status) (List N))
  | _, 0, _ => some (.ok [])
  | 0, _ + 1, _ => none
  | fuel + 1, n + 1, it =>
    match iterStep g strategy it with
    | .finished => some (.ok [])
    | .already m s => some (.error (m, s))
    | .continue it => takeNext g strategy skip fuel (n + 1) it
    | .item m it =>
      if skip m then takeNext g strategy skip fuel (n + 1) it
      else
        match takeNext g strategy skip fuel n it with
        | none => none
        | some (.error e) => some (.error e)
        | some (.ok ms) => some (.ok (m :: ms))

/-- As many rounds as a search can need (`takeNext_rounds`). -/
def searchRounds (s : Search N) : Nat := 3 ^ s.nodes.length + 1

/-- What the main thread does between two waits. -/
inductive Turn (N : Type) where
  /-- It waits for a result (lib.rs:1627). -/
  | wait (l : LoopState N) (queue : WorkQueue N)
  /-- `event_loop` returns. -/
  | return (result : Except (RunError N) (LoopOutput N)) (queue : WorkQueue N)
  /-- The search does not end (it always does). -/
  | diverge

/-- lib.rs:1608-1630: wait for a result if there is a job to wait for. -/
def waitFor (l : LoopState N) (q : WorkQueue N) : Turn N :=
  if l.scheduled.any fun e => e.2 = .scheduled then .wait l q else .return (.ok l.output) q

/-- lib.rs:1549-1555: only the jobs with a result are kept. -/
def LoopState.forget (l : LoopState N) : LoopState N :=
  { l with scheduled := l.scheduled.filter fun e => e.2 ≠ ScheduledJob.scheduled }

/-- lib.rs:1557-1606: the next jobs of the search. -/
def schedule (p : Params N) (kind : StrategyKind) (l : LoopState N) (q : WorkQueue N) : Turn N :=
  match takeNext p.graph (basicMidpoint kind) (fun c => (l.scheduled.get? c).isSome)
      (searchRounds l.search) p.numJobs l.search.iter with
  | none => .diverge
  | some (.error _) => .return (.error .search) q
  | some (.ok []) => .return (.ok l.output) q
  | some (.ok jobs) =>
    waitFor { l with scheduled := jobs.foldl (fun m job => m.insert job .scheduled) l.scheduled }
      (q.set jobs)

/-- lib.rs:1543-1606: the loop from its top on to where it waits for a result. -/
def turn (p : Params N) (l : LoopState N) (q : WorkQueue N) : Turn N :=
  match l.aborted with
  | some _ => .return (.ok l.output) q
  | none =>
    match p.strategy with
    | none => waitFor l q
    | some kind => schedule p kind l.forget q

/-- lib.rs:1652-1679: what a result means for the search. -/
def searchStatus : TestStatus → Status
  | .checkoutFailed | .spawnTestFailed _ | .terminatedBySignal | .alreadyInProgress
  | .readCacheFailed _ | .indeterminate _ => .indeterminate
  | .abort _ => .indeterminate
  | .failed _ _ _ => .failure
  | .passed _ _ _ => .success

/-- lib.rs:1660-1666: whether the result aborts testing. -/
def abortCode : TestStatus → Option Int
  | .abort code => some code
  | _ => none

/-- lib.rs:1631-1696: what is done with a result. -/
def receive (p : Params N) (l : LoopState N) : JobResult N → Except (RunError N) (LoopState N)
  | .error worker job => .error (.worker worker job)
  | .done job output =>
    let search : Except (RunError N) (Search N) :=
      match p.strategy with
      | none => .ok l.search
      | some _ =>
        match l.search.notify job (searchStatus output) with
        | .error _ => .error .notify
        | .ok search => .ok search
    match search with
    | .error e => .error e
    | .ok search =>
      .ok { search
            scheduled := l.scheduled.insert job (.complete output)
            aborted := match abortCode output with
              | some code => some (job, code)
              | none => l.aborted }

/-- Where the main thread is. -/
inductive Main (N : Type) where
  /-- The threads have been spawned (lib.rs:1437); `event_loop` is about to begin. -/
  | begin
  /-- At the top of the loop (lib.rs:1542). -/
  | top (l : LoopState N)
  /-- Waiting for a result (lib.rs:1627). -/
  | waiting (l : LoopState N)
  /-- `event_loop` has returned, and the receiver of results is gone (lib.rs:1446). -/
  | returned (result : Except (RunError N) (LoopOutput N))
  /-- The work queue is closed (lib.rs:1447); waiting for the threads to end. -/
  | closed (result : Except (RunError N) (LoopOutput N))
  /-- The threads have ended (lib.rs:1462). -/
  | finished (result : Except (RunError N) (LoopOutput N))

/-- Whether results can still be sent. -/
def Main.listening : Main N → Bool
  | .begin | .top _ | .waiting _ => true
  | .returned _ | .closed _ | .finished _ => false

/-- All of what the threads share. -/
structure State (N : Type) where
  queue : WorkQueue N
  workers : List (Worker N)
  /-- The results which were sent and not yet received, the oldest first. -/
  channel : List (JobResult N)
  main : Main N

/-- lib.rs:1388-1437: the state when the threads have been spawned. -/
def State.init (p : Params N) : State N :=
  ⟨.new, List.replicate p.numJobs .starting, [], .begin⟩

/-- What the threads can do. Workers are numbered from 0 here, from 1 in the code. -/
inductive Label (N : Type) where
  /-- The worker opens the repository (worker.rs:118). -/
  | setup (worker : Nat)
  /-- It fails to do so, and panics (worker.rs:120-122). -/
  | setupFailed (worker : Nat)
  /-- It takes this job from the queue and starts the test on this commit. -/
  | start (worker : Nat) (job : N)
  /-- It finds the queue closed, and ends. -/
  | exit (worker : Nat)
  /-- The test of this commit ends with this status. -/
  | finish (worker : Nat) (job : N) (output : TestStatus)
  /-- Running the test fails with an error (the `Err` of worker.rs:151). -/
  | fault (worker : Nat) (job : N)
  /-- The worker panics while it runs the test. -/
  | crash (worker : Nat) (job : N)
  /-- `event_loop` begins (lib.rs:1524-1540). -/
  | begin
  /-- The loop is done from its top to where it waits. -/
  | turn
  /-- A result is received, or is known not to come. -/
  | receive
  /-- lib.rs:1447. -/
  | close
  /-- lib.rs:1448-1463. -/
  | join
deriving DecidableEq

/-- lib.rs:1386, 1511-1540: the variables at the beginning, and the jobs if there is no search. -/
def beginLoop (p : Params N) (q : WorkQueue N) : LoopState N × WorkQueue N :=
  let search := Search.new p.graph p.commits
  match p.strategy with
  | none => (⟨p.commits.foldl (fun m job => m.insert job .scheduled) [], search, none⟩,
      q.set p.commits)
  | some _ => (⟨[], search, none⟩, q)

/-- What `scope` returns (lib.rs:1448-1463): an error if one of the threads panicked, whether it was
joined (1453-1457) or not (1463). -/
def joined (workers : List (Worker N)) (result : Except (RunError N) (LoopOutput N)) :
    Except (RunError N) (LoopOutput N) :=
  if workers.any fun w => match w with | .panicked => true | _ => false then .error .panicked
  else result

/-- One step of one thread; `none` if it cannot be taken. -/
def step (p : Params N) (s : State N) : Label N → Option (State N)
  | .setup w =>
    match s.workers[w]? with
    | some .starting => some { s with workers := s.workers.set w .idle }
    | _ => none
  | .setupFailed w =>
    match s.workers[w]? with
    | some .starting => some { s with workers := s.workers.set w .panicked }
    | _ => none
  | .start w job =>
    match s.workers[w]?, s.queue.pop with
    | some .idle, .job job' queue =>
      if job = job' then some { s with queue, workers := s.workers.set w (.running job) } else none
    | _, _ => none
  | .exit w =>
    match s.workers[w]?, s.queue.pop with
    | some .idle, .inactive => some { s with workers := s.workers.set w .exited }
    | _, _ => none
  | .finish w job output =>
    match s.workers[w]? with
    | some (.running job') =>
      if job = job' then
        -- worker.rs:130-132, 147: the worker ends if the result cannot be sent.
        if s.main.listening then
          some { s with workers := s.workers.set w .idle
                        channel := s.channel ++ [.done job output] }
        else some { s with workers := s.workers.set w .exited }
      else none
    | _ => none
  | .fault w job =>
    match s.workers[w]? with
    | some (.running job') =>
      if job = job' then
        -- worker.rs:153-155: it goes on in any case.
        if s.main.listening then
          some { s with workers := s.workers.set w .idle
                        channel := s.channel ++ [.error w job] }
        else some { s with workers := s.workers.set w .idle }
      else none
    | _ => none
  | .crash w job =>
    match s.workers[w]? with
    | some (.running job') =>
      if job = job' then some { s with workers := s.workers.set w .panicked } else none
    | _ => none
  | .begin =>
    match s.main with
    | .begin =>
      let (l, queue) := beginLoop p s.queue
      some { s with queue, main := .top l }
    | _ => none
  | .turn =>
    match s.main with
    | .top l =>
      match turn p l s.queue with
      | .wait l queue => some { s with queue, main := .waiting l }
      | .return result queue => some { s with queue, main := .returned result }
      | .diverge => none
    | _ => none
  | .receive =>
    match s.main with
    | .waiting l =>
      match s.channel with
      | result :: channel =>
        match receive p l result with
        | .ok l => some { s with channel, main := .top l }
        | .error e => some { s with channel, main := .returned (.error e) }
      | [] =>
        -- lib.rs:1632-1635: all the senders are gone.
        if s.workers.all Worker.gone then some { s with main := .returned (.ok l.output) } else none
    | _ => none
  | .close =>
    match s.main with
    | .returned result => some { s with queue := s.queue.close, main := .closed result }
    | _ => none
  | .join =>
    match s.main with
    | .closed result =>
      if s.workers.all Worker.gone then some { s with main := .finished (joined s.workers result) }
      else none
    | _ => none

/-! ## After the threads have ended -/

/-- lib.rs:1468-1493: the results in the order of the commits. -/
def orderOutputs (p : Params N) (out : LoopOutput N) : List (N × TestStatus) :=
  p.commits.filterMap fun c => (out.outputs.get? c).map fun o => (c, o)

/-- lib.rs:1188-1201 `TestResults`. -/
structure TestResults (N : Type) where
  bounds : Bounds N
  outputs : List (N × TestStatus)
  aborted : Option (N × Int)

/-- lib.rs:1495-1502: what `run_tests_inner` returns. (`search.search(..)?` fails only if the graph
does, which is not modelled.) -/
def testResults (p : Params N) (out : LoopOutput N) : TestResults N where
  bounds := match p.strategy with
    | none => ⟨[], []⟩
    | some _ => out.search.bounds
  outputs := orderOutputs p out
  aborted := out.aborted

/-- lib.rs:1740-1771: what a result is counted as. -/
inductive Counted where
  | passed
  | failed
  | skipped
deriving DecidableEq, Repr

/-- lib.rs:1740-1771. -/
def counted : TestStatus → Counted
  | .checkoutFailed | .spawnTestFailed _ | .alreadyInProgress | .readCacheFailed _
  | .terminatedBySignal | .indeterminate _ => .skipped
  | .abort _ => .failed
  | .failed _ _ _ => .failed
  | .passed _ _ _ => .passed

/-- lib.rs:1713-1910 `print_summary`: whether it returns exit code 0 (else 1). -/
def summarySucceeds (p : Params N) (r : TestResults N) : Bool :=
  let failed := r.outputs.countP fun e => counted e.2 = .failed
  let skipped := r.outputs.countP fun e => counted e.2 = .skipped
  if r.aborted.isSome then false
  else if p.strategy.isSome then true
  else if failed > 0 || skipped > 0 then false
  else true

end Verif.TestRun
