import Mathlib.Tactic.Tauto
import Mathlib.Tactic.Push
import Verif.Spec.TestRun
import Verif.Lemmas.Bisect
import Verif.Props.Bisect

/-! Lemmas for running tests. -/

namespace Verif.TestRun

open Verif.Bisect Verif.Props

variable {N : Type} [DecidableEq N]

/-! ### The search -/

theorem takeNext_of_iterAll {g : Graph N} {strategy : Strategy N} (skip : N → Bool) (fuel : Nat) :
    ∀ (it : Iter N) (ns : List N) (n : Nat), iterAll g strategy fuel it = some (.ok ns) →
      takeNext g strategy skip fuel n it = some (.ok ((ns.filter fun m => !skip m).take n)) := by
  induction fuel with
  | zero => intro it ns n h; simp [iterAll] at h
  | succ fuel ih =>
    intro it ns n h
    cases n with
    | zero => simp [takeNext]
    | succ n =>
      unfold iterAll at h
      unfold takeNext
      cases hs : iterStep g strategy it with
      | finished =>
        rw [hs] at h; simp at h; simp [h]
      | already m s => rw [hs] at h; simp at h
      | «continue» it' =>
        rw [hs] at h
        exact ih it' ns (n + 1) h
      | item m it' =>
        rw [hs] at h
        simp only at h
        cases hr : iterAll g strategy fuel it' with
        | none => rw [hr] at h; simp at h
        | some r =>
          rw [hr] at h
          cases r with
          | error e => simp at h
          | ok ms =>
            simp only [Option.some.injEq, Except.ok.injEq] at h
            subst h
            simp only [ih it' ms n hr, ih it' ms (n + 1) hr]
            by_cases hk : skip m = true <;> simp [hk]

/-- The number of rounds allowed suffices: what is taken are the first of the undecided nodes. -/
theorem takeNext_rounds {s : Search N} (hg : s.graph.Lawful) (hn : s.nodes.NoDup) (kind : StrategyKind)
    (skip : N → Bool) (n : Nat) :
    ∃ ns : List N, ns.Nodup ∧ (∀ x, x ∈ ns ↔ s.Undecided x) ∧
      takeNext s.graph (basicMidpoint kind) skip (searchRounds s) n s.iter =
        some (.ok ((ns.filter fun m => !skip m).take n)) := by
  have hinv : ∀ st ∈ s.iter.states, BasicInv s.graph s.bounds s.nodes st := by
    intro st hst
    simp only [Search.iter, List.mem_singleton] at hst
    subst hst
    exact ⟨hn, fun n h => h⟩
  have hw : weight s.graph (nodesToSearch s.graph s.bounds s.nodes) s.iter.states < searchRounds s := by
    unfold weight searchRounds
    simp only [Search.iter, List.map_cons, List.map_nil, List.sum_cons, List.sum_nil, Nat.add_zero]
    have : ∀ m, m ≤ s.nodes.length → (3 : Nat) ^ m < 3 ^ s.nodes.length + 1 := fun m h =>
      Nat.lt_succ_of_le (Nat.pow_le_pow_right (by decide) h)
    apply this
    refine Nat.le_trans (List.length_filter_le _ _) ?_
    unfold nodesToSearch Statuses.withStatus
    exact Nat.le_trans (List.length_filter_le _ _) (List.length_filterMap_le _ _)
  have hf := enumeration_within hg (basic_bounded hg kind s.bounds s.nodes) _ s.iter hinv hw
  obtain ⟨r, hr⟩ := Option.isSome_iff_exists.1 hf
  obtain ⟨ns, e1, e2, e3, e4⟩ := iterAll_basic hg kind s.bounds s.nodes _ s.iter hinv r hr
  rw [e1] at hr
  refine ⟨ns, e2, fun x => ?_, takeNext_of_iterAll skip _ _ ns n hr⟩
  rw [undecided_iff hg hn]
  constructor
  · exact fun h => (e3 x h).2
  · intro h
    rcases e4 x ⟨⟨s.bounds, s.nodes⟩, by simp [Search.iter], h⟩ with h | h
    · simp [Search.iter] at h
    · exact h

/-! ### The workers -/

theorem set_split {α : Type} {l : List α} {i : Nat} {a : α} (h : l[i]? = some a) :
    ∃ l1 l2, l = l1 ++ a :: l2 ∧ ∀ b, l.set i b = l1 ++ b :: l2 := by
  induction l generalizing i with
  | nil => simp at h
  | cons x l ih =>
    cases i with
    | zero =>
      simp only [List.getElem?_cons_zero, Option.some.injEq] at h
      exact ⟨[], l, by simp [h], fun b => by simp⟩
    | succ i =>
      simp only [List.getElem?_cons_succ] at h
      obtain ⟨l1, l2, e1, e2⟩ := ih h
      exact ⟨x :: l1, l2, by simp [← e1], fun b => by simp [← e2]⟩

/-- The job on which the worker is. -/
def Worker.job : Worker N → Option N
  | .running job => some job
  | _ => none

/-- The jobs which are being run. -/
def runningJobs (ws : List (Worker N)) : List N := ws.filterMap Worker.job

/-- The commit of a result. -/
def JobResult.job : JobResult N → N
  | .done job _ => job
  | .error _ job => job

/-- The commits with results that are not received yet. -/
def sentJobs (ch : List (JobResult N)) : List N := ch.map JobResult.job

/-- The variables of the loop, while it runs. -/
def Main.loop : Main N → Option (LoopState N)
  | .top l => some l
  | .waiting l => some l
  | _ => none

/-- The results which were received. -/
def LoopState.received (l : LoopState N) (c : N) : Option TestStatus :=
  match l.scheduled.get? c with
  | some (.complete o) => some o
  | _ => none

/-- The number of times that a result of the commit was received. -/
def Main.received (m : Main N) (c : N) : Nat :=
  match m.loop with
  | some l => if (l.received c).isSome then 1 else 0
  | none => 0

/-- In how many places there is the job or its result. -/
def State.here (s : State N) (c : N) : Nat :=
  (runningJobs s.workers).count c + (sentJobs s.channel).count c + s.main.received c

theorem runningJobs_append (a b : List (Worker N)) :
    runningJobs (a ++ b) = runningJobs a ++ runningJobs b := by simp [runningJobs]

theorem runningJobs_cons (a : Worker N) (b : List (Worker N)) :
    runningJobs (a :: b) = a.job.toList ++ runningJobs b := by
  unfold runningJobs
  cases h : a.job <;> simp [List.filterMap_cons, h]

/-! ### Steps -/

/-- One step, by cases. -/
inductive Stepped (p : Params N) (s : State N) : Label N → State N → Prop where
  | setup {w ws1 ws2} : s.workers = ws1 ++ .starting :: ws2 →
      Stepped p s (.setup w) { s with workers := ws1 ++ .idle :: ws2 }
  | setupFailed {w ws1 ws2} : s.workers = ws1 ++ .starting :: ws2 →
      Stepped p s (.setupFailed w) { s with workers := ws1 ++ .panicked :: ws2 }
  | start {w c cs ws1 ws2} : s.workers = ws1 ++ .idle :: ws2 → s.queue.active = true →
      s.queue.jobs = c :: cs →
      Stepped p s (.start w c)
        { s with queue := { s.queue with jobs := cs, accepted := s.queue.accepted.insert c }
                 workers := ws1 ++ .running c :: ws2 }
  | exit {w ws1 ws2} : s.workers = ws1 ++ .idle :: ws2 → s.queue.active = false →
      Stepped p s (.exit w) { s with workers := ws1 ++ .exited :: ws2 }
  | finish {w c o ws1 ws2} : s.workers = ws1 ++ .running c :: ws2 → s.main.listening = true →
      Stepped p s (.finish w c o)
        { s with workers := ws1 ++ .idle :: ws2, channel := s.channel ++ [.done c o] }
  | finishLate {w c o ws1 ws2} : s.workers = ws1 ++ .running c :: ws2 → s.main.listening = false →
      Stepped p s (.finish w c o) { s with workers := ws1 ++ .exited :: ws2 }
  | fault {w c ws1 ws2} : s.workers = ws1 ++ .running c :: ws2 → s.main.listening = true →
      Stepped p s (.fault w c)
        { s with workers := ws1 ++ .idle :: ws2, channel := s.channel ++ [.error w c] }
  | faultLate {w c ws1 ws2} : s.workers = ws1 ++ .running c :: ws2 → s.main.listening = false →
      Stepped p s (.fault w c) { s with workers := ws1 ++ .idle :: ws2 }
  | crash {w c ws1 ws2} : s.workers = ws1 ++ .running c :: ws2 →
      Stepped p s (.crash w c) { s with workers := ws1 ++ .panicked :: ws2 }
  | begin : s.main = .begin →
      Stepped p s .begin { s with queue := (beginLoop p s.queue).2, main := .top (beginLoop p s.queue).1 }
  | turnWait {l l' q} : s.main = .top l → turn p l s.queue = .wait l' q →
      Stepped p s .turn { s with queue := q, main := .waiting l' }
  | turnReturn {l r q} : s.main = .top l → turn p l s.queue = .return r q →
      Stepped p s .turn { s with queue := q, main := .returned r }
  | receiveOk {l l' r ch} : s.main = .waiting l → s.channel = r :: ch → receive p l r = .ok l' →
      Stepped p s .receive { s with channel := ch, main := .top l' }
  | receiveError {l e r ch} : s.main = .waiting l → s.channel = r :: ch → receive p l r = .error e →
      Stepped p s .receive { s with channel := ch, main := .returned (.error e) }
  | receiveClosed {l} : s.main = .waiting l → s.channel = [] → s.workers.all Worker.gone = true →
      Stepped p s .receive { s with main := .returned (.ok l.output) }
  | close {r} : s.main = .returned r →
      Stepped p s .close { s with queue := s.queue.close, main := .closed r }
  | join {r} : s.main = .closed r → s.workers.all Worker.gone = true →
      Stepped p s .join { s with main := .finished (joined s.workers r) }

theorem pop_job {q q' : WorkQueue N} {c : N} (h : q.pop = .job c q') :
    ∃ cs, q.active = true ∧ q.jobs = c :: cs ∧
      q' = { q with jobs := cs, accepted := q.accepted.insert c } := by
  unfold WorkQueue.pop at h
  cases ha : q.active with
  | false => simp [ha] at h
  | true =>
    simp only [ha] at h
    cases hj : q.jobs with
    | nil => simp [hj] at h
    | cons j js =>
      simp only [hj] at h
      simp at h
      obtain ⟨rfl, rfl⟩ := h
      exact ⟨js, rfl, rfl, by simp [ha]⟩

theorem pop_inactive {q : WorkQueue N} (h : q.pop = .inactive) : q.active = false := by
  unfold WorkQueue.pop at h
  cases ha : q.active with
  | false => rfl
  | true =>
    simp only [ha] at h
    cases hj : q.jobs <;> simp [hj] at h

theorem step_cases {p : Params N} {s s' : State N} {l : Label N} (h : step p s l = some s') :
    Stepped p s l s' := by
  cases l with
  | setup w =>
    unfold step at h
    cases hw : s.workers[w]? with
    | none => simp [hw] at h
    | some a =>
      cases a <;> simp [hw] at h
      obtain ⟨l1, l2, e1, e2⟩ := set_split hw
      subst h; rw [e2]; exact .setup e1
  | setupFailed w =>
    unfold step at h
    cases hw : s.workers[w]? with
    | none => simp [hw] at h
    | some a =>
      cases a <;> simp [hw] at h
      obtain ⟨l1, l2, e1, e2⟩ := set_split hw
      subst h; rw [e2]; exact .setupFailed e1
  | start w job =>
    unfold step at h
    cases hw : s.workers[w]? with
    | none => simp [hw] at h
    | some a =>
      cases a <;> simp [hw] at h
      obtain ⟨l1, l2, e1, e2⟩ := set_split hw
      cases hq : s.queue.pop with
      | blocked => simp [hq] at h
      | inactive => simp [hq] at h
      | job c q =>
        simp only [hq] at h
        obtain ⟨cs, a1, a2, rfl⟩ := pop_job hq
        split at h
        · rename_i hc
          subst hc
          simp only [Option.some.injEq] at h
          subst h; rw [e2]; exact .start e1 a1 a2
        · simp at h
  | exit w =>
    unfold step at h
    cases hw : s.workers[w]? with
    | none => simp [hw] at h
    | some a =>
      cases a <;> simp [hw] at h
      obtain ⟨l1, l2, e1, e2⟩ := set_split hw
      cases hq : s.queue.pop with
      | blocked => simp [hq] at h
      | job => simp [hq] at h
      | inactive =>
        simp only [hq, Option.some.injEq] at h
        subst h; rw [e2]; exact .exit e1 (pop_inactive hq)
  | finish w job o =>
    unfold step at h
    cases hw : s.workers[w]? with
    | none => simp [hw] at h
    | some a =>
      cases a <;> simp only [hw] at h
      case running c =>
        obtain ⟨l1, l2, e1, e2⟩ := set_split hw
        split at h
        · rename_i hc
          subst hc
          split at h
          · rename_i hl
            simp only [Option.some.injEq] at h
            subst h; rw [e2]; exact .finish e1 hl
          · rename_i hl
            simp only [Option.some.injEq] at h
            subst h; rw [e2]; exact .finishLate e1 (by simpa using hl)
        · simp at h
      all_goals simp at h
  | fault w job =>
    unfold step at h
    cases hw : s.workers[w]? with
    | none => simp [hw] at h
    | some a =>
      cases a <;> simp only [hw] at h
      case running c =>
        obtain ⟨l1, l2, e1, e2⟩ := set_split hw
        split at h
        · rename_i hc
          subst hc
          split at h
          · rename_i hl
            simp only [Option.some.injEq] at h
            subst h; rw [e2]; exact .fault e1 hl
          · rename_i hl
            simp only [Option.some.injEq] at h
            subst h; rw [e2]; exact .faultLate e1 (by simpa using hl)
        · simp at h
      all_goals simp at h
  | crash w job =>
    unfold step at h
    cases hw : s.workers[w]? with
    | none => simp [hw] at h
    | some a =>
      cases a <;> simp only [hw] at h
      case running c =>
        obtain ⟨l1, l2, e1, e2⟩ := set_split hw
        split at h
        · rename_i hc
          subst hc
          simp only [Option.some.injEq] at h
          subst h; rw [e2]; exact .crash e1
        · simp at h
      all_goals simp at h
  | begin =>
    unfold step at h
    cases hm : s.main <;> simp [hm] at h
    subst h
    exact .begin hm
  | turn =>
    unfold step at h
    cases hm : s.main <;> simp only [hm] at h
    case top l =>
      cases ht : turn p l s.queue with
      | diverge => simp [ht] at h
      | wait l' q =>
        simp only [ht, Option.some.injEq] at h
        subst h; exact .turnWait hm ht
      | «return» r q =>
        simp only [ht, Option.some.injEq] at h
        subst h; exact .turnReturn hm ht
    all_goals simp at h
  | receive =>
    unfold step at h
    cases hm : s.main <;> simp only [hm] at h
    case waiting l =>
      cases hc : s.channel with
      | nil =>
        simp only [hc] at h
        split at h
        · rename_i hg
          simp only [Option.some.injEq] at h
          subst h
          have := Stepped.receiveClosed (p := p) hm hc hg
          simpa [hc] using this
        · simp at h
      | cons r ch =>
        simp only [hc] at h
        cases hr : receive p l r with
        | ok l' =>
          simp only [hr, Option.some.injEq] at h
          subst h; exact .receiveOk hm hc hr
        | error e =>
          simp only [hr, Option.some.injEq] at h
          subst h; exact .receiveError hm hc hr
    all_goals simp at h
  | close =>
    unfold step at h
    cases hm : s.main <;> simp [hm] at h
    subst h
    exact .close hm
  | join =>
    unfold step at h
    cases hm : s.main <;> simp [hm] at h
    obtain ⟨hg, rfl⟩ := h
    exact .join hm (by simpa using hg)

end Verif.TestRun
