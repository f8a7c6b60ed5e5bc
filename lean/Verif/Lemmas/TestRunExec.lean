import Verif.Lemmas.TestRunInv

/-! The invariant of the executions of the tests. -/

namespace Verif.TestRun

open Verif.Bisect Verif.Props

variable {N : Type} [DecidableEq N]

/-- The work queue is closed. -/
def Main.over : Main N → Bool
  | .closed _ | .finished _ => true
  | _ => false

/-- Where an error comes from. -/
def ErrorInv (p : Params N) (ls : List (Label N)) : RunError N → Prop
  | .search => False
  | .worker w c => Label.fault w c ∈ ls
  | .notify => p.strategy.isSome ∧ Contradictory p ls
  | .panicked => Crashed ls ∨ ∃ w, Label.setupFailed w ∈ ls

/-- What holds of the result of the loop. -/
def ResultInv (p : Params N) (ls : List (Label N)) (ws : List (Worker N)) :
    Except (RunError N) (LoopOutput N) → Prop
  | .ok out => OutInv p ls out ∧ (Worker.panicked ∈ ws ∨ OutDone p out)
  | .error e => ErrorInv p ls e

/-- Where a result that was sent comes from. -/
def SentInv (ls : List (Label N)) : JobResult N → Prop
  | .done c o => Ran ls c o
  | .error w c => Label.fault w c ∈ ls

structure Inv (p : Params N) (ls : List (Label N)) (s : State N) : Prop where
  started : ∀ c, c ∈ s.queue.accepted ↔ c ∈ started ls
  startedNodup : (TestRun.started ls).Nodup
  accMem : ∀ c ∈ s.queue.accepted, c ∈ p.commits
  jobs : QueueJobs p s.queue
  active : s.queue.active = !s.main.over
  hereLe : s.main.listening = true → ∀ c, s.here c ≤ if c ∈ s.queue.accepted then 1 else 0
  hereGe : s.main.listening = true → ¬ Crashed ls → ∀ c ∈ s.queue.accepted, 1 ≤ s.here c
  exited : s.main.listening = true → Worker.exited ∉ s.workers
  length : s.workers.length = p.numJobs
  panicked : Worker.panicked ∈ s.workers → Crashed ls ∨ ∃ w, Label.setupFailed w ∈ ls
  sent : ∀ r ∈ s.channel, SentInv ls r
  loop : ∀ l, s.main.loop = some l → LoopInv p ls s.queue l
  waiting : ∀ l, s.main = .waiting l → ∃ c, l.scheduled.get? c = some .scheduled
  result : ∀ r, s.main = .returned r ∨ s.main = .closed r → ResultInv p ls s.workers r
  finished : ∀ r, s.main = .finished r → ResultInv p ls [] r

section Mono

variable {p : Params N} {ls ls' : List (Label N)} (hl : ∀ x ∈ ls, x ∈ ls')

include hl

theorem Ran.mono {c : N} {o : TestStatus} (h : Ran ls c o) : Ran ls' c o := h.imp fun _ hw => hl _ hw

theorem Crashed.mono (h : Crashed ls) : Crashed ls' := by
  obtain ⟨w, c, h⟩ := h; exact ⟨w, c, hl _ h⟩

theorem Contradictory.mono (h : Contradictory p ls) : Contradictory p ls' := by
  obtain ⟨f, x, o, o', h1, h2, h3, h4⟩ := h
  exact ⟨f, x, o, o', Ran.mono hl h1, h2, Ran.mono hl h3, h4⟩

theorem panics_mono (h : Crashed ls ∨ ∃ w, Label.setupFailed w ∈ ls) :
    Crashed ls' ∨ ∃ w, Label.setupFailed w ∈ ls' := by
  rcases h with h | ⟨w, h⟩
  · exact .inl (Crashed.mono hl h)
  · exact .inr ⟨w, hl _ h⟩

theorem SentInv.mono {r : JobResult N} (h : SentInv ls r) : SentInv ls' r := by
  cases r with
  | done c o => exact Ran.mono hl h
  | error w c => exact hl _ h

theorem ErrorInv.mono {e : RunError N} (h : ErrorInv p ls e) : ErrorInv p ls' e := by
  cases e with
  | search => exact h
  | worker w c => exact hl _ h
  | notify => exact ⟨h.1, Contradictory.mono hl h.2⟩
  | panicked => exact panics_mono hl h

theorem ResultInv.mono {ws : List (Worker N)} {r : Except (RunError N) (LoopOutput N)}
    (h : ResultInv p ls ws r) : ResultInv p ls' ws r := by
  cases r with
  | ok out => exact ⟨h.1.mono hl, h.2⟩
  | error e => exact ErrorInv.mono hl h

end Mono

theorem ResultInv.workers {p : Params N} {ls : List (Label N)} {ws ws' : List (Worker N)}
    {r : Except (RunError N) (LoopOutput N)} (h : ResultInv p ls ws r)
    (hw : Worker.panicked ∈ ws → Worker.panicked ∈ ws') : ResultInv p ls ws' r := by
  cases r with
  | ok out => exact ⟨h.1, h.2.imp_left hw⟩
  | error e => exact h

theorem mem_snoc {ls : List (Label N)} {l : Label N} : ∀ x ∈ ls, x ∈ ls ++ [l] :=
  fun _ h => List.mem_append_left _ h

theorem started_snoc (ls : List (Label N)) (l : Label N) :
    started (ls ++ [l]) = started ls ++ started [l] := by
  unfold started; rw [List.filterMap_append]

/-- A step which changes only the workers and the channel. -/
theorem Inv.change {p : Params N} {ls : List (Label N)} {s : State N} (h : Inv p ls s) (l : Label N)
    (ws : List (Worker N)) (ch : List (JobResult N)) (hstart : TestRun.started [l] = [])
    (hlen : ws.length = s.workers.length)
    (hex : s.main.listening = true → Worker.exited ∉ ws)
    (hpan1 : Worker.panicked ∈ s.workers → Worker.panicked ∈ ws)
    (hpan2 : Worker.panicked ∈ ws → Worker.panicked ∈ s.workers ∨ Crashed (ls ++ [l]) ∨
      ∃ w, Label.setupFailed w ∈ ls ++ [l])
    (hle : s.main.listening = true → ∀ c, ({ s with workers := ws, channel := ch } : State N).here c ≤ s.here c)
    (hge : s.main.listening = true → ¬ Crashed (ls ++ [l]) →
      ∀ c, s.here c ≤ ({ s with workers := ws, channel := ch } : State N).here c)
    (hsent : ∀ r ∈ ch, SentInv (ls ++ [l]) r) :
    Inv p (ls ++ [l]) { s with workers := ws, channel := ch } where
  started c := by rw [started_snoc, hstart, List.append_nil]; exact h.started c
  startedNodup := by rw [started_snoc, hstart, List.append_nil]; exact h.startedNodup
  accMem := h.accMem
  jobs := h.jobs
  active := h.active
  hereLe hm c := Nat.le_trans (hle hm c) (h.hereLe hm c)
  hereGe hm hc c ha :=
    Nat.le_trans (h.hereGe hm (fun hh => hc (Crashed.mono mem_snoc hh)) c ha) (hge hm hc c)
  exited := hex
  length := hlen.trans h.length
  panicked hp := by
    rcases hpan2 hp with hp | hp
    · exact panics_mono mem_snoc (h.panicked hp)
    · exact hp
  sent := hsent
  loop l' hl := (h.loop l' hl).mono mem_snoc
  waiting := h.waiting
  result r hr := ((h.result r hr).mono mem_snoc).workers hpan1
  finished r hr := (h.finished r hr).mono mem_snoc

/-! ### Receiving a result -/

theorem receive_ok {p : Params N} {ls : List (Label N)} {q : WorkQueue N} {l l' : LoopState N} {c : N}
    {o : TestStatus} (hg : p.graph.Lawful) (h : LoopInv p ls q l) (hc : c ∈ p.commits)
    (hn : l.received c = none) (hr : Ran ls c o) (hrec : receive p l (.done c o) = .ok l') :
    LoopInv p ls q l' ∧ ∀ x, l'.received x = if c = x then some o else l.received x := by
  obtain ⟨search, hsearch, rfl⟩ : ∃ search : Search N,
      (p.strategy.isSome → l.search.notify c (searchStatus o) = .ok search) ∧
      l' = { search := search, scheduled := l.scheduled.insert c (.complete o),
             aborted := match abortCode o with
               | some code => some (c, code)
               | none => l.aborted } := by
    unfold receive at hrec
    cases hs : p.strategy with
    | none =>
      simp only [hs, Except.ok.injEq] at hrec
      exact ⟨l.search, by simp, hrec.symm⟩
    | some kind =>
      simp only [hs] at hrec
      cases hno : l.search.notify c (searchStatus o) with
      | error e => rw [hno] at hrec; simp at hrec
      | ok search =>
        rw [hno] at hrec
        simp only [Except.ok.injEq] at hrec
        exact ⟨search, fun _ => rfl, hrec.symm⟩
  have hreceived : ∀ x, LoopState.received (N := N)
      { search := search, scheduled := l.scheduled.insert c (.complete o),
             aborted := match abortCode o with
               | some code => some (c, code)
               | none => l.aborted } x = if c = x then some o else l.received x := by
    intro x
    unfold LoopState.received
    simp only [AMap.get?_insert]
    by_cases hx : c = x <;> simp [hx]
  refine ⟨⟨AMap.wf_insert h.wf _ _, fun x hx => ?_, fun x o' hx => ?_, fun x hx => ?_, fun hs x hx => ?_,
    fun x k hk => ?_, fun hk x o' hx => ?_, fun hs => ?_⟩, hreceived⟩
  · simp only [AMap.get?_insert] at hx
    by_cases hcx : c = x
    · exact hcx ▸ hc
    · rw [if_neg hcx] at hx; exact h.keys x hx
  · rw [hreceived] at hx
    by_cases hcx : c = x
    · rw [if_pos hcx] at hx
      cases hx; exact hcx ▸ hr
    · rw [if_neg hcx] at hx; exact h.ran x o' hx
  · simp only [AMap.get?_insert] at hx
    by_cases hcx : c = x
    · rw [if_pos hcx] at hx; simp at hx
    · rw [if_neg hcx] at hx; exact h.sched x hx
  · simp only [AMap.get?_insert]
    by_cases hcx : c = x
    · rw [if_pos hcx]; rfl
    · rw [if_neg hcx]; exact h.all hs x hx
  · rw [hreceived]
    simp only at hk
    cases ho : abortCode o with
    | some code =>
      rw [ho] at hk
      simp only [Option.some.injEq, Prod.mk.injEq] at hk
      obtain ⟨rfl, rfl⟩ := hk
      rw [if_pos rfl]
      cases o <;> simp [abortCode] at ho
      rw [ho]
    | none =>
      rw [ho] at hk
      have := h.aborted x k hk
      rw [if_neg]
      · exact this
      · rintro rfl; rw [hn] at this; simp at this
  · rw [hreceived] at hx
    simp only at hk
    cases ho : abortCode o with
    | some code => rw [ho] at hk; simp at hk
    | none =>
      rw [ho] at hk
      by_cases hcx : c = x
      · rw [if_pos hcx] at hx; cases hx; exact ho
      · rw [if_neg hcx] at hx; exact h.going hk x o' hx
  · have := (h.search hs).notify hg hc hn (hsearch hs)
    have he := funext hreceived
    rw [he]
    exact this

theorem failed_of_status {o : TestStatus} (h : searchStatus o = .failure) : o.Failed := by
  cases o <;> simp [searchStatus] at h
  exact ⟨_, _, _, rfl⟩

theorem passed_of_status {o : TestStatus} (h : searchStatus o = .success) : o.Passed := by
  cases o <;> simp [searchStatus] at h
  exact ⟨_, _, _, rfl⟩

theorem receive_error {p : Params N} {ls : List (Label N)} {q : WorkQueue N} {l : LoopState N} {c : N}
    {o : TestStatus} {e : RunError N} (hg : p.graph.Lawful) (h : LoopInv p ls q l) (hc : c ∈ p.commits)
    (hn : l.received c = none) (hr : Ran ls c o) (hrec : receive p l (.done c o) = .error e) :
    ErrorInv p ls e := by
  unfold receive at hrec
  cases hs : p.strategy with
  | none => simp [hs] at hrec
  | some kind =>
    simp only [hs] at hrec
    cases hno : l.search.notify c (searchStatus o) with
    | ok search => rw [hno] at hrec; simp at hrec
    | error e' =>
      rw [hno] at hrec
      simp only [Except.error.injEq] at hrec
      subst hrec
      refine ⟨by simp [hs], ?_⟩
      rcases (h.search (by simp [hs])).notify_error hg hc hn hno with ⟨h1, f, o', h2, h3, h4⟩ |
        ⟨h1, x, o', h2, h3, h4⟩
      · exact ⟨f, c, o', o, h.ran f o' h2, failed_of_status h3, hr, passed_of_status h1, h4⟩
      · exact ⟨c, x, o, o', hr, failed_of_status h1, h.ran x o' h2, passed_of_status h3, h4⟩

/-! ### Every step keeps the invariant -/

theorem inv_init (p : Params N) : Inv p [] (State.init p) where
  started c := by simp [State.init, WorkQueue.new, started]
  startedNodup := .nil
  accMem c h := by simp [State.init, WorkQueue.new] at h
  jobs := ⟨fun c h => by simp [State.init, WorkQueue.new] at h, .nil⟩
  active := rfl
  hereLe _ c := by
    have : runningJobs (List.replicate p.numJobs (Worker.starting : Worker N)) = [] := by
      unfold runningJobs
      rw [List.filterMap_eq_nil_iff]
      intro a ha
      rw [List.eq_of_mem_replicate ha]; rfl
    simp [State.here, State.init, this, sentJobs, Main.received, Main.loop]
  hereGe _ _ c h := by simp [State.init, WorkQueue.new] at h
  exited _ h := by
    have := List.eq_of_mem_replicate h
    simp at this
  length := by simp [State.init]
  panicked h := by
    have := List.eq_of_mem_replicate h
    simp at this
  sent r h := by simp [State.init] at h
  loop l h := by simp [State.init, Main.loop] at h
  waiting l h := by simp [State.init] at h
  result r h := by simp [State.init] at h
  finished r h := by simp [State.init] at h

theorem here_workers (s : State N) (ws1 ws2 : List (Worker N)) (a : Worker N) (h : s.workers = ws1 ++ a :: ws2) (c : N) :
    s.here c = a.job.toList.count c + ((runningJobs ws1).count c + (runningJobs ws2).count c +
      (sentJobs s.channel).count c + s.main.received c) := by
  unfold State.here
  rw [h, runningJobs_append, runningJobs_cons]
  simp only [List.count_append]
  omega

theorem inv_step {p : Params N} {ls : List (Label N)} {s s' : State N} {l : Label N}
    (hg : p.graph.Lawful) (hcn : p.commits.Nodup) (hp : 0 < p.numJobs) (h : Inv p ls s)
    (hs : step p s l = some s') : Inv p (ls ++ [l]) s' := by
  have hst := step_cases hs
  clear hs
  cases hst with
  | setup hw =>
    rename_i w ws1 ws2
    have hh : ∀ c, ({ s with workers := ws1 ++ .idle :: ws2 } : State N).here c = s.here c := by
      intro c
      rw [here_workers s ws1 ws2 _ hw, here_workers _ ws1 ws2 .idle rfl]
      rfl
    refine h.change (.setup w) (ws1 ++ .idle :: ws2) s.channel rfl (by rw [hw]; simp) ?_ ?_ ?_
      (fun _ c => Nat.le_of_eq (hh c)) (fun _ _ c => Nat.le_of_eq (hh c).symm) (fun r hr => (h.sent r hr).mono mem_snoc)
    · intro hm hx; have := h.exited hm; rw [hw] at this; simp at this hx; tauto
    · rw [hw]; simp
    · rw [hw]; simp; tauto
  | setupFailed hw =>
    rename_i w ws1 ws2
    have hh : ∀ c, ({ s with workers := ws1 ++ .panicked :: ws2 } : State N).here c = s.here c := by
      intro c
      rw [here_workers s ws1 ws2 _ hw, here_workers _ ws1 ws2 .panicked rfl]
      rfl
    refine h.change (.setupFailed w) (ws1 ++ .panicked :: ws2) s.channel rfl (by rw [hw]; simp) ?_ ?_ ?_
      (fun _ c => Nat.le_of_eq (hh c)) (fun _ _ c => Nat.le_of_eq (hh c).symm) (fun r hr => (h.sent r hr).mono mem_snoc)
    · intro hm hx; have := h.exited hm; rw [hw] at this; simp at this hx; tauto
    · rw [hw]; simp
    · intro _; exact .inr (.inr ⟨w, by simp⟩)
  | exit hw ha =>
    rename_i w ws1 ws2
    have hnl : s.main.listening = true → False := by
      intro hm
      have := h.active
      rw [ha] at this
      cases hmain : s.main <;> simp [hmain, Main.listening, Main.over] at hm this
    refine h.change (.exit w) (ws1 ++ .exited :: ws2) s.channel rfl (by rw [hw]; simp)
      (fun hm => (hnl hm).elim) ?_ ?_ (fun hm => (hnl hm).elim) (fun hm => (hnl hm).elim)
      (fun r hr => (h.sent r hr).mono mem_snoc)
    · rw [hw]; simp
    · rw [hw]; simp; tauto
  | finish hw hm =>
    rename_i w c o ws1 ws2
    have hh : ∀ x, ({ s with workers := ws1 ++ .idle :: ws2, channel := s.channel ++ [.done c o] } : State N).here x = s.here x := by
      intro x
      rw [here_workers s ws1 ws2 _ hw, here_workers _ ws1 ws2 .idle rfl]
      simp only [Worker.job, sentJobs, List.map_append, List.count_append, JobResult.job, List.map_cons,
        List.map_nil, Option.toList, List.count_nil]
      omega
    refine h.change (.finish w c o) (ws1 ++ .idle :: ws2) (s.channel ++ [.done c o]) rfl (by rw [hw]; simp) ?_ ?_ ?_
      (fun _ c => Nat.le_of_eq (hh c)) (fun _ _ c => Nat.le_of_eq (hh c).symm) ?_
    · intro hm hx; have := h.exited hm; rw [hw] at this; simp at this hx; tauto
    · rw [hw]; simp
    · rw [hw]; simp; tauto
    · intro r hr
      rcases List.mem_append.1 hr with hr | hr
      · exact (h.sent r hr).mono mem_snoc
      · simp only [List.mem_singleton] at hr
        subst hr
        exact ⟨w, by simp⟩
  | finishLate hw hm =>
    rename_i w c o ws1 ws2
    have hnl : s.main.listening = true → False := by rw [hm]; simp
    refine h.change (.finish w c o) (ws1 ++ .exited :: ws2) s.channel rfl (by rw [hw]; simp)
      (fun hm => (hnl hm).elim) ?_ ?_ (fun hm => (hnl hm).elim) (fun hm => (hnl hm).elim)
      (fun r hr => (h.sent r hr).mono mem_snoc)
    · rw [hw]; simp
    · rw [hw]; simp; tauto
  | fault hw hm =>
    rename_i w c ws1 ws2
    have hh : ∀ x, ({ s with workers := ws1 ++ .idle :: ws2, channel := s.channel ++ [.error w c] } : State N).here x = s.here x := by
      intro x
      rw [here_workers s ws1 ws2 _ hw, here_workers _ ws1 ws2 .idle rfl]
      simp only [Worker.job, sentJobs, List.map_append, List.count_append, JobResult.job, List.map_cons,
        List.map_nil, Option.toList, List.count_nil]
      omega
    refine h.change (.fault w c) (ws1 ++ .idle :: ws2) (s.channel ++ [.error w c]) rfl (by rw [hw]; simp) ?_ ?_ ?_
      (fun _ c => Nat.le_of_eq (hh c)) (fun _ _ c => Nat.le_of_eq (hh c).symm) ?_
    · intro hm hx; have := h.exited hm; rw [hw] at this; simp at this hx; tauto
    · rw [hw]; simp
    · rw [hw]; simp; tauto
    · intro r hr
      rcases List.mem_append.1 hr with hr | hr
      · exact (h.sent r hr).mono mem_snoc
      · simp only [List.mem_singleton] at hr
        subst hr
        show Label.fault w c ∈ _
        simp
  | faultLate hw hm =>
    rename_i w c ws1 ws2
    have hnl : s.main.listening = true → False := by rw [hm]; simp
    refine h.change (.fault w c) (ws1 ++ .idle :: ws2) s.channel rfl (by rw [hw]; simp)
      (fun hm => (hnl hm).elim) ?_ ?_ (fun hm => (hnl hm).elim) (fun hm => (hnl hm).elim)
      (fun r hr => (h.sent r hr).mono mem_snoc)
    · rw [hw]; simp
    · rw [hw]; simp; tauto
  | crash hw =>
    rename_i w c ws1 ws2
    have hcr : Crashed (ls ++ [.crash w c]) := ⟨w, c, by simp⟩
    refine h.change (.crash w c) (ws1 ++ .panicked :: ws2) s.channel rfl (by rw [hw]; simp) ?_ ?_ ?_ ?_ ?_
      (fun r hr => (h.sent r hr).mono mem_snoc)
    · intro hm hx; have := h.exited hm; rw [hw] at this; simp at this hx; tauto
    · rw [hw]; simp
    · intro _; exact .inr (.inl hcr)
    · intro _ x
      rw [here_workers s ws1 ws2 _ hw, here_workers _ ws1 ws2 .panicked rfl]
      simp only [Worker.job, Option.toList, List.count_nil]
      omega
    · intro _ hno; exact absurd hcr hno
  | start hw ha hj =>
    rename_i w c cs ws1 ws2
    have hcj := h.jobs.mem c (by rw [hj]; simp)
    have hnd := h.jobs.nodup
    rw [hj, List.nodup_cons] at hnd
    have hst : TestRun.started [Label.start w c] = [c] := rfl
    have hmem : ∀ x, x ∈ s.queue.accepted.insert c ↔ x = c ∨ x ∈ s.queue.accepted := by
      intro x; rw [List.mem_insert_iff]
    have hh : ∀ x, ({ s with queue := { s.queue with jobs := cs, accepted := s.queue.accepted.insert c }
                             workers := ws1 ++ .running c :: ws2 } : State N).here x =
        (if c = x then 1 else 0) + s.here x := by
      intro x
      rw [here_workers s ws1 ws2 _ hw, here_workers _ ws1 ws2 (.running c) rfl]
      simp only [Worker.job, Option.toList, List.count_nil, List.count_cons, beq_iff_eq]
      omega
    refine ⟨?_, ?_, ?_, ⟨?_, hnd.2⟩, h.active, ?_, ?_, ?_, ?_, ?_, ?_, ?_, h.waiting, ?_, ?_⟩
    · intro x
      rw [started_snoc, hst]
      simp only [hmem, List.mem_append, List.mem_singleton, h.started]
      tauto
    · rw [started_snoc, hst, List.nodup_append]
      refine ⟨h.startedNodup, by simp, ?_⟩
      intro a ha b hb
      simp only [List.mem_singleton] at hb
      subst hb
      rintro rfl
      exact hcj.2 ((h.started a).2 ha)
    · intro x hx
      rcases (hmem x).1 hx with rfl | hx
      · exact hcj.1
      · exact h.accMem x hx
    · intro x hx
      refine ⟨(h.jobs.mem x (by rw [hj]; simp [hx])).1, ?_⟩
      simp only [hmem]
      rintro (rfl | hxa)
      · exact hnd.1 hx
      · exact (h.jobs.mem x (by rw [hj]; simp [hx])).2 hxa
    · intro hm x
      rw [hh]
      have := h.hereLe hm x
      simp only [hmem]
      by_cases hx : c = x
      · subst hx
        rw [if_neg hcj.2] at this
        simp; omega
      · rw [if_neg hx]
        by_cases hxa : x ∈ s.queue.accepted
        · rw [if_pos hxa] at this
          rw [if_pos (.inr hxa)]; omega
        · rw [if_neg hxa] at this
          omega
    · intro hm hno x hx
      rw [hh]
      rcases (hmem x).1 hx with rfl | hx
      · simp
      · have := h.hereGe hm (fun hc => hno (hc.mono mem_snoc)) x hx
        omega
    · intro hm hx; have := h.exited hm; rw [hw] at this; simp at this hx; tauto
    · have := h.length; rw [hw] at this; simpa using this
    · intro hx
      exact panics_mono mem_snoc (h.panicked (by rw [hw]; simp at hx ⊢; tauto))
    · exact fun r hr => (h.sent r hr).mono mem_snoc
    · intro l hl
      refine ((h.loop l hl).mono mem_snoc).queue ?_
      intro x hx
      rcases hx with hx | hx
      · rw [hj] at hx
        rcases List.mem_cons.1 hx with rfl | hx
        · exact .inr ((hmem x).2 (.inl rfl))
        · exact .inl hx
      · exact .inr ((hmem x).2 (.inr hx))
    · intro r hr
      refine ((h.result r hr).mono mem_snoc).workers ?_
      rw [hw]; simp
    · exact fun r hr => (h.finished r hr).mono mem_snoc
  | begin hm =>
    obtain ⟨b1, b2, b3, b4, b5⟩ := beginLoop_inv p (ls ++ [.begin]) s.queue h.jobs hcn
    have hlis : s.main.listening = true := by rw [hm]; rfl
    have hh : ∀ x, ({ s with queue := (beginLoop p s.queue).2, main := .top (beginLoop p s.queue).1 } : State N).here x =
        s.here x := by
      intro x
      unfold State.here
      simp only [hm, Main.received, Main.loop, b5]
      rfl
    refine ⟨?_, ?_, ?_, b2, ?_, ?_, ?_, ?_, h.length, ?_, ?_, ?_, ?_, ?_, ?_⟩
    · intro x; rw [started_snoc]; simp only [b3]; simpa [TestRun.started] using h.started x
    · rw [started_snoc]; simpa [TestRun.started] using h.startedNodup
    · simp only [b3]; exact h.accMem
    · simp only [b4, h.active, hm]; rfl
    · intro _ x; rw [hh]; simp only [b3]; exact h.hereLe hlis x
    · intro _ hno x; rw [hh]; simp only [b3]; exact h.hereGe hlis (fun hc => hno (hc.mono mem_snoc)) x
    · intro _; exact h.exited hlis
    · exact fun hx => panics_mono mem_snoc (h.panicked hx)
    · exact fun r hr => (h.sent r hr).mono mem_snoc
    · intro l hl
      simp only [Main.loop, Option.some.injEq] at hl
      subst hl; exact b1
    · intro l hl; simp at hl
    · intro r hr; simp at hr
    · intro r hr; simp at hr
  | turnWait hm ht =>
    rename_i l l' q
    have hlis : s.main.listening = true := by rw [hm]; rfl
    have hl := h.loop l (by rw [hm]; rfl)
    have hspec := turn_spec hg hp (hl.mono (mem_snoc (l := .turn))) h.jobs
    rw [ht] at hspec
    cases hspec with
    | wait t1 t2 t3 t4 t5 t6 =>
    have hh : ∀ x, ({ s with queue := q, main := .waiting l' } : State N).here x = s.here x := by
      intro x
      unfold State.here
      simp only [hm, Main.received, Main.loop, t5]
    refine ⟨?_, ?_, ?_, t2, ?_, ?_, ?_, ?_, h.length, ?_, ?_, ?_, ?_, ?_, ?_⟩
    · intro x; rw [started_snoc]; simp only [t3]; simpa [TestRun.started] using h.started x
    · rw [started_snoc]; simpa [TestRun.started] using h.startedNodup
    · simp only [t3]; exact h.accMem
    · simp only [t4, h.active, hm]; rfl
    · intro _ x; rw [hh]; simp only [t3]; exact h.hereLe hlis x
    · intro _ hno x; rw [hh]; simp only [t3]; exact h.hereGe hlis (fun hc => hno (hc.mono mem_snoc)) x
    · intro _; exact h.exited hlis
    · exact fun hx => panics_mono mem_snoc (h.panicked hx)
    · exact fun r hr => (h.sent r hr).mono mem_snoc
    · intro l hl
      simp only [Main.loop, Option.some.injEq] at hl
      subst hl; exact t1
    · intro l hl; simp only [Main.waiting.injEq] at hl; subst hl; exact t6
    · intro r hr; simp at hr
    · intro r hr; simp at hr
  | turnReturn hm ht =>
    rename_i l r q
    have hl := h.loop l (by rw [hm]; rfl)
    have hspec := turn_spec hg hp (hl.mono (mem_snoc (l := .turn))) h.jobs
    rw [ht] at hspec
    cases hspec with
    | «return» t1 t2 =>
    rename_i out
    refine ⟨?_, ?_, h.accMem, h.jobs, ?_, ?_, ?_, ?_, h.length, ?_, ?_, ?_, ?_, ?_, ?_⟩
    · intro x; rw [started_snoc]; simpa [TestRun.started] using h.started x
    · rw [started_snoc]; simpa [TestRun.started] using h.startedNodup
    · simp only [h.active, hm]; rfl
    · intro hx; simp [Main.listening] at hx
    · intro hx; simp [Main.listening] at hx
    · intro hx; simp [Main.listening] at hx
    · exact fun hx => panics_mono mem_snoc (h.panicked hx)
    · exact fun r hr => (h.sent r hr).mono mem_snoc
    · intro l hl; simp [Main.loop] at hl
    · intro l hl; simp at hl
    · intro r hr
      simp only [Main.returned.injEq, reduceCtorEq, or_false] at hr
      subst hr; exact ⟨t1, .inr t2⟩
    · intro r hr; simp at hr
  | receiveOk hm hc hr =>
    rename_i l l' r ch
    have hlis : s.main.listening = true := by rw [hm]; rfl
    have hl := (h.loop l (by rw [hm]; rfl)).mono (mem_snoc (l := .receive))
    cases r with
    | error w c => simp [receive] at hr
    | done c o =>
      have hhere := h.hereLe hlis c
      have h1 : 1 ≤ (sentJobs s.channel).count c := by
        rw [hc]; simp [sentJobs, JobResult.job]
      have hrecv : s.main.received c = if (l.received c).isSome then 1 else 0 := by
        rw [hm]; rfl
      have hacc : c ∈ s.queue.accepted := by
        by_contra hna
        rw [if_neg hna] at hhere
        unfold State.here at hhere; omega
      have hnone : l.received c = none := by
        cases hrc : l.received c with
        | none => rfl
        | some o' =>
          rw [hrc] at hrecv
          simp at hrecv
          rw [if_pos hacc] at hhere
          unfold State.here at hhere; omega
      have hran := (h.sent (.done c o) (by rw [hc]; simp)).mono (mem_snoc (l := .receive))
      obtain ⟨r1, r2⟩ := receive_ok hg hl (h.accMem c hacc) hnone hran hr
      have hh : ∀ x, ({ s with channel := ch, main := .top l' } : State N).here x = s.here x := by
        intro x
        unfold State.here
        simp only [hm, Main.received, Main.loop, r2, hc, sentJobs, List.map_cons, JobResult.job,
          List.count_cons, beq_iff_eq]
        by_cases hcx : c = x
        · subst hcx; simp [hnone]; omega
        · simp [hcx]
      refine ⟨?_, ?_, h.accMem, h.jobs, ?_, ?_, ?_, ?_, h.length, ?_, ?_, ?_, ?_, ?_, ?_⟩
      · intro x; rw [started_snoc]; simpa [TestRun.started] using h.started x
      · rw [started_snoc]; simpa [TestRun.started] using h.startedNodup
      · simp only [h.active, hm]; rfl
      · intro _ x; rw [hh]; exact h.hereLe hlis x
      · intro _ hno x; rw [hh]; exact h.hereGe hlis (fun hc => hno (hc.mono mem_snoc)) x
      · intro _; exact h.exited hlis
      · exact fun hx => panics_mono mem_snoc (h.panicked hx)
      · exact fun r hr => (h.sent r (by rw [hc]; simp [hr])).mono mem_snoc
      · intro l hl
        simp only [Main.loop, Option.some.injEq] at hl
        subst hl; exact r1
      · intro l hl; simp at hl
      · intro r hr; simp at hr
      · intro r hr; simp at hr
  | receiveError hm hc hr =>
    rename_i l e r ch
    have hlis : s.main.listening = true := by rw [hm]; rfl
    have hl := (h.loop l (by rw [hm]; rfl)).mono (mem_snoc (l := .receive))
    have he : ErrorInv p (ls ++ [.receive]) e := by
      cases r with
      | error w c =>
        simp only [receive, Except.error.injEq] at hr
        subst hr
        exact (h.sent (.error w c) (by rw [hc]; simp)).mono (mem_snoc (l := .receive))
      | done c o =>
        have hhere := h.hereLe hlis c
        have h1 : 1 ≤ (sentJobs s.channel).count c := by
          rw [hc]; simp [sentJobs, JobResult.job]
        have hrecv : s.main.received c = if (l.received c).isSome then 1 else 0 := by
          rw [hm]; rfl
        have hacc : c ∈ s.queue.accepted := by
          by_contra hna
          rw [if_neg hna] at hhere
          unfold State.here at hhere; omega
        have hnone : l.received c = none := by
          cases hrc : l.received c with
          | none => rfl
          | some o' =>
            rw [hrc] at hrecv
            simp at hrecv
            rw [if_pos hacc] at hhere
            unfold State.here at hhere; omega
        have hran := (h.sent (.done c o) (by rw [hc]; simp)).mono (mem_snoc (l := .receive))
        exact receive_error hg hl (h.accMem c hacc) hnone hran hr
    refine ⟨?_, ?_, h.accMem, h.jobs, ?_, ?_, ?_, ?_, h.length, ?_, ?_, ?_, ?_, ?_, ?_⟩
    · intro x; rw [started_snoc]; simpa [TestRun.started] using h.started x
    · rw [started_snoc]; simpa [TestRun.started] using h.startedNodup
    · simp only [h.active, hm]; rfl
    · intro hx; simp [Main.listening] at hx
    · intro hx; simp [Main.listening] at hx
    · intro hx; simp [Main.listening] at hx
    · exact fun hx => panics_mono mem_snoc (h.panicked hx)
    · exact fun r hr => (h.sent r (by rw [hc]; simp [hr])).mono mem_snoc
    · intro l hl; simp [Main.loop] at hl
    · intro l hl; simp at hl
    · intro r hr
      simp only [Main.returned.injEq, reduceCtorEq, or_false] at hr
      subst hr; exact he
    · intro r hr; simp at hr
  | receiveClosed hm hc hw =>
    rename_i l
    have hlis : s.main.listening = true := by rw [hm]; rfl
    have hl := (h.loop l (by rw [hm]; rfl)).mono (mem_snoc (l := .receive))
    have hpan : Worker.panicked ∈ s.workers := by
      have hne : s.workers ≠ [] := by
        intro he
        have := h.length
        rw [he] at this
        simp at this; omega
      obtain ⟨a, ws, haw⟩ := List.exists_cons_of_ne_nil hne
      have hga := List.all_eq_true.1 hw a (by rw [haw]; simp)
      cases a with
      | panicked => rw [haw]; simp
      | exited => exact absurd (by rw [haw]; simp) (h.exited hlis)
      | _ => simp [Worker.gone] at hga
    refine ⟨?_, ?_, h.accMem, h.jobs, ?_, ?_, ?_, ?_, h.length, ?_, ?_, ?_, ?_, ?_, ?_⟩
    · intro x; rw [started_snoc]; simpa [TestRun.started] using h.started x
    · rw [started_snoc]; simpa [TestRun.started] using h.startedNodup
    · simp only [h.active, hm]; rfl
    · intro hx; simp [Main.listening] at hx
    · intro hx; simp [Main.listening] at hx
    · intro hx; simp [Main.listening] at hx
    · exact fun hx => panics_mono mem_snoc (h.panicked hx)
    · exact fun r hr => (h.sent r hr).mono mem_snoc
    · intro l hl; simp [Main.loop] at hl
    · intro l hl; simp at hl
    · intro r hr
      simp only [Main.returned.injEq, reduceCtorEq, or_false] at hr
      subst hr; exact ⟨hl.out, .inl hpan⟩
    · intro r hr; simp at hr
  | close hm =>
    rename_i r
    refine ⟨?_, ?_, h.accMem, ⟨by simp [WorkQueue.close], by simp [WorkQueue.close]⟩, rfl, ?_, ?_, ?_, h.length, ?_, ?_, ?_, ?_, ?_, ?_⟩
    · intro x; rw [started_snoc]; simpa [TestRun.started, WorkQueue.close] using h.started x
    · rw [started_snoc]; simpa [TestRun.started] using h.startedNodup
    · intro hx; simp [Main.listening] at hx
    · intro hx; simp [Main.listening] at hx
    · intro hx; simp [Main.listening] at hx
    · exact fun hx => panics_mono mem_snoc (h.panicked hx)
    · exact fun r hr => (h.sent r hr).mono mem_snoc
    · intro l hl; simp [Main.loop] at hl
    · intro l hl; simp at hl
    · intro r hr
      simp only [Main.closed.injEq, reduceCtorEq, false_or] at hr
      subst hr; exact (h.result r (.inl hm)).mono mem_snoc
    · intro r hr; simp at hr
  | join hm hw =>
    rename_i r
    have hres := (h.result r (.inr hm)).mono (mem_snoc (l := .join))
    refine ⟨?_, ?_, h.accMem, h.jobs, ?_, ?_, ?_, ?_, h.length, ?_, ?_, ?_, ?_, ?_, ?_⟩
    · intro x; rw [started_snoc]; simpa [TestRun.started] using h.started x
    · rw [started_snoc]; simpa [TestRun.started] using h.startedNodup
    · simp only [h.active, hm]; rfl
    · intro hx; simp [Main.listening] at hx
    · intro hx; simp [Main.listening] at hx
    · intro hx; simp [Main.listening] at hx
    · exact fun hx => panics_mono mem_snoc (h.panicked hx)
    · exact fun r hr => (h.sent r hr).mono mem_snoc
    · intro l hl; simp [Main.loop] at hl
    · intro l hl; simp at hl
    · intro r hr; simp at hr
    · intro r' hr
      simp only [Main.finished.injEq] at hr
      subst hr
      unfold joined
      split
      · rename_i hany
        obtain ⟨a, ha1, ha2⟩ := List.any_eq_true.1 hany
        cases a <;> simp at ha2
        exact panics_mono mem_snoc (h.panicked ha1)
      · rename_i hany
        have hnp : Worker.panicked ∉ s.workers := fun hpm => hany (List.any_eq_true.2 ⟨_, hpm, rfl⟩)
        cases r with
        | error e => exact hres
        | ok out => exact ⟨hres.1, .inr (hres.2.resolve_left hnp)⟩

theorem inv_exec {p : Params N} {ls : List (Label N)} {s : State N}
    (hg : p.graph.Lawful) (hcn : p.commits.Nodup) (hp : 0 < p.numJobs)
    (h : Exec p (State.init p) ls s) : Inv p ls s := by
  induction h with
  | nil => exact inv_init p
  | snoc _ hs ih => exact inv_step hg hcn hp ih hs

end Verif.TestRun
