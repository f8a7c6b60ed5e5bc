import Verif.Lemmas.TestRun

/-! What holds in every state that an execution of the tests reaches. -/

namespace Verif.TestRun

open Verif.Bisect Verif.Props

variable {N : Type} [DecidableEq N]

/-! ### The search and the results it was told -/

/-- The search knows of exactly these results. -/
structure SearchOk (p : Params N) (s : Search N) (outs : N → Option TestStatus) : Prop where
  built : ∃ reports : List (N × Status), s = reports.foldl Search.report (Search.new p.graph p.commits) ∧
    ∀ r ∈ reports, ∃ o, outs r.1 = some o ∧ r.2 = searchStatus o
  yes : ∀ c o, outs c = some o → s.reported c (searchStatus o)
  no : ∀ c ∈ p.commits, outs c = none → s.reported c .untested
  only : ∀ c st, s.reported c st → c ∈ p.commits

theorem searchStatus_ne (o : TestStatus) : searchStatus o ≠ .untested := by
  cases o <;> simp [searchStatus]

section

variable {p : Params N} {s s' : Search N} {outs : N → Option TestStatus}

theorem SearchOk.graph (h : SearchOk p s outs) (hg : p.graph.Lawful) : s.graph = p.graph := by
  obtain ⟨rs, rfl, _⟩ := h.built
  exact (reports_invariant p.graph hg p.commits rs).1

theorem SearchOk.noDup (h : SearchOk p s outs) (hg : p.graph.Lawful) : s.nodes.NoDup := by
  obtain ⟨rs, rfl, _⟩ := h.built
  exact (reports_invariant p.graph hg p.commits rs).2.1

theorem SearchOk.of_reported (h : SearchOk p s outs) {c : N} {st : Status} (hr : s.reported c st)
    (hst : st ≠ .untested) : ∃ o, outs c = some o ∧ st = searchStatus o := by
  cases ho : outs c with
  | none =>
    have := h.no c (h.only c st hr) ho
    unfold Search.reported at *
    rw [hr] at this
    exact absurd (Option.some.inj this) hst
  | some o =>
    refine ⟨o, rfl, ?_⟩
    have := h.yes c o ho
    unfold Search.reported at *
    rw [hr] at this
    exact Option.some.inj this

theorem SearchOk.undecided (h : SearchOk p s outs) {c : N} (hu : s.Undecided c) :
    outs c = none ∧ c ∈ p.commits := by
  refine ⟨?_, h.only c _ hu.1⟩
  cases ho : outs c with
  | none => rfl
  | some o =>
    have h1 := h.yes c o ho
    have h2 := hu.1
    unfold Search.reported at *
    rw [h1] at h2
    exact absurd (Option.some.inj h2) (searchStatus_ne o)

theorem searchOk_new (p : Params N) : SearchOk p (Search.new p.graph p.commits) fun _ => none := by
  refine ⟨⟨[], rfl, by simp⟩, by simp, fun c hc _ => ?_, fun c st hr => ?_⟩
  · unfold Search.reported
    rw [(new_spec _ _).2, if_pos hc]
  · unfold Search.reported at hr
    rw [(new_spec _ _).2] at hr
    by_contra hc
    rw [if_neg hc] at hr
    simp at hr

theorem SearchOk.notify (h : SearchOk p s outs) (hg : p.graph.Lawful) {c : N} {o : TestStatus}
    (hc : c ∈ p.commits) (ho : outs c = none) (hn : s.notify c (searchStatus o) = .ok s') :
    SearchOk p s' fun x => if c = x then some o else outs x := by
  have hs' : s' = { s with nodes := Statuses.insert s.nodes c (searchStatus o) } :=
    ((notify_ok_iff s s' (h.graph hg ▸ hg) (h.noDup hg) c (searchStatus o)).1 hn).2.2.2.2
  obtain ⟨rs, h1, h2⟩ := h.built
  refine ⟨⟨rs ++ [(c, searchStatus o)], ?_, ?_⟩, ?_, ?_, ?_⟩
  · rw [List.foldl_append, List.foldl_cons, List.foldl_nil, ← h1]
    unfold Search.report
    simp only [hn]
  · intro r hr
    rcases List.mem_append.1 hr with hr | hr
    · obtain ⟨o', e1, e2⟩ := h2 r hr
      refine ⟨o', ?_, e2⟩
      rw [if_neg]
      · exact e1
      · rintro rfl; rw [ho] at e1; simp at e1
    · simp only [List.mem_singleton] at hr
      subst hr
      exact ⟨o, by simp, rfl⟩
  · intro x o' hx
    unfold Search.reported
    simp only [hs', get?_insert]
    split at hx
    · simp_all
    · rename_i hne
      rw [if_neg hne]
      exact h.yes x o' hx
  · intro x hx hnone
    unfold Search.reported
    simp only [hs', get?_insert]
    split at hnone
    · simp at hnone
    · rename_i hne
      rw [if_neg hne]
      exact h.no x hx hnone
  · intro x st hr
    unfold Search.reported at hr
    simp only [hs', get?_insert] at hr
    split at hr
    · rename_i e; exact e ▸ hc
    · exact h.only x st hr

theorem SearchOk.notify_error (h : SearchOk p s outs) (hg : p.graph.Lawful) {c : N} {o : TestStatus}
    (hc : c ∈ p.commits) (ho : outs c = none) {e : NotifyError N}
    (hn : s.notify c (searchStatus o) = .error e) :
    (searchStatus o = .success ∧ ∃ f o', outs f = some o' ∧ searchStatus o' = .failure ∧ p.graph.Le f c) ∨
    (searchStatus o = .failure ∧ ∃ x o', outs x = some o' ∧ searchStatus o' = .success ∧ p.graph.Le c x) := by
  have hu := h.no c hc ho
  by_contra hcon
  push Not at hcon
  obtain ⟨c1, c2⟩ := hcon
  have hgr := h.graph hg
  have hok : s.notify c (searchStatus o) =
      .ok { s with nodes := Statuses.insert s.nodes c (searchStatus o) } := by
    rw [notify_ok_iff s _ (hgr ▸ hg) (h.noDup hg)]
    unfold Search.reported at *
    refine ⟨fun hh => ?_, fun hh => ?_, fun hs f hf => ?_, fun hs x hx => ?_, rfl⟩
    · rw [hu] at hh; simp at hh
    · rw [hu] at hh; simp at hh
    · obtain ⟨o', e1, e2⟩ := h.of_reported hf (by simp)
      rw [hgr]
      exact c1 hs f o' e1 e2.symm
    · obtain ⟨o', e1, e2⟩ := h.of_reported hx (by simp)
      rw [hgr]
      exact c2 hs x o' e1 e2.symm
  rw [hn] at hok
  simp at hok

end

/-! ### The table of scheduled jobs -/

theorem AMap.get?_filter {α β : Type} [DecidableEq α] (m : AMap α β) (P : β → Bool) (hw : AMap.WF m) (k : α) :
    AMap.get? (m.filter fun e => P e.2) k = (AMap.get? m k).filter P := by
  induction m with
  | nil => simp
  | cons e m ih =>
    have hw' : AMap.WF m := by
      unfold AMap.WF AMap.keys at *
      rw [List.map_cons, List.nodup_cons] at hw
      exact hw.2
    have hnone : AMap.get? m e.1 = none := by
      by_contra h
      obtain ⟨v, hv⟩ := Option.ne_none_iff_exists'.1 h
      unfold AMap.WF AMap.keys at hw
      rw [List.map_cons, List.nodup_cons] at hw
      exact hw.1 (List.mem_map.2 ⟨_, AMap.mem_of_get? hv, rfl⟩)
    obtain ⟨k', v⟩ := e
    simp only [List.filter_cons]
    by_cases hk : k' = k
    · subst hk
      by_cases hP : P v = true
      · simp [hP, AMap.get?_cons, Option.filter]
      · have h1 := ih hw'
        simp only at hnone
        rw [hnone] at h1
        simp [hP, AMap.get?_cons, Option.filter, h1]
    · by_cases hP : P v = true
      · simp [hP, AMap.get?_cons, hk, ih hw']
      · simp [hP, AMap.get?_cons, hk, ih hw']

theorem AMap.wf_filter {α β : Type} [DecidableEq α] {m : AMap α β} (hw : AMap.WF m) (P : α × β → Bool) :
    AMap.WF (m.filter P) := by
  unfold AMap.WF AMap.keys at *
  exact hw.sublist (List.filter_sublist.map _)

theorem AMap.get?_foldl_insert {α β : Type} [DecidableEq α] (v : β) (js : List α) (m : AMap α β) (k : α) :
    AMap.get? (js.foldl (fun m job => m.insert job v) m) k =
      if k ∈ js then some v else AMap.get? m k := by
  induction js generalizing m with
  | nil => simp
  | cons j js ih =>
    rw [List.foldl_cons, ih, AMap.get?_insert]
    by_cases h : k ∈ js
    · simp [h]
    · by_cases hj : j = k
      · simp [hj]
      · simp [h, hj, Ne.symm hj]

theorem AMap.wf_foldl_insert {α β : Type} [DecidableEq α] (v : β) (js : List α) {m : AMap α β} (h : AMap.WF m) :
    AMap.WF (js.foldl (fun m job => m.insert job v) m) := by
  induction js generalizing m with
  | nil => exact h
  | cons j js ih => exact ih (AMap.wf_insert h j v)

theorem output_get? (l : LoopState N) (hw : AMap.WF l.scheduled) (c : N) :
    l.output.outputs.get? c = l.received c := by
  unfold LoopState.output LoopState.received
  simp only
  generalize l.scheduled = m at *
  induction m with
  | nil => simp
  | cons e m ih =>
    have hw' : AMap.WF m := by
      unfold AMap.WF AMap.keys at *
      rw [List.map_cons, List.nodup_cons] at hw
      exact hw.2
    have hnone : AMap.get? m e.1 = none := by
      by_contra h
      obtain ⟨v, hv⟩ := Option.ne_none_iff_exists'.1 h
      unfold AMap.WF AMap.keys at hw
      rw [List.map_cons, List.nodup_cons] at hw
      exact hw.1 (List.mem_map.2 ⟨_, AMap.mem_of_get? hv, rfl⟩)
    have ih := ih hw'
    obtain ⟨k, v⟩ := e
    by_cases hk : k = c
    · subst hk
      cases v with
      | scheduled =>
        simp only [List.filterMap_cons, AMap.get?_cons, if_true]
        rw [ih]; simp only at hnone; simp [hnone]
      | complete o =>
        simp only [List.filterMap_cons, AMap.get?_cons, if_true]
    · cases v with
      | scheduled =>
        simp only [List.filterMap_cons, AMap.get?_cons, hk, if_false]
        exact ih
      | complete o =>
        simp only [List.filterMap_cons, AMap.get?_cons, hk, if_false]
        exact ih

/-! ### The loop -/

/-- What holds of the variables of the loop. -/
structure LoopInv (p : Params N) (ls : List (Label N)) (q : WorkQueue N) (l : LoopState N) : Prop where
  wf : AMap.WF l.scheduled
  keys : ∀ c, (l.scheduled.get? c).isSome → c ∈ p.commits
  ran : ∀ c o, l.received c = some o → Ran ls c o
  sched : ∀ c, l.scheduled.get? c = some .scheduled → c ∈ q.jobs ∨ c ∈ q.accepted
  all : p.strategy = none → ∀ c ∈ p.commits, (l.scheduled.get? c).isSome
  aborted : ∀ c k, l.aborted = some (c, k) → l.received c = some (.abort k)
  going : l.aborted = none → ∀ c o, l.received c = some o → abortCode o = none
  search : p.strategy.isSome → SearchOk p l.search l.received

/-- What holds of the output in any case. -/
structure OutInv (p : Params N) (ls : List (Label N)) (out : LoopOutput N) : Prop where
  ran : ∀ c o, out.outputs.get? c = some o → Ran ls c o ∧ c ∈ p.commits
  aborted : ∀ c k, out.aborted = some (c, k) → out.outputs.get? c = some (.abort k)
  going : out.aborted = none → ∀ c o, out.outputs.get? c = some o → abortCode o = none
  search : p.strategy.isSome → SearchOk p out.search out.outputs.get?

/-- What holds of the output if testing was not aborted. -/
structure OutDone (p : Params N) (out : LoopOutput N) : Prop where
  all : p.strategy = none → out.aborted = none → ∀ c ∈ p.commits, (out.outputs.get? c).isSome
  decided : p.strategy.isSome → out.aborted = none → ∀ c, ¬ out.search.Undecided c

theorem LoopInv.received_mem {p : Params N} {ls : List (Label N)} {q : WorkQueue N} {l : LoopState N}
    (h : LoopInv p ls q l) {c : N} {o : TestStatus} (hr : l.received c = some o) : c ∈ p.commits := by
  apply h.keys
  unfold LoopState.received at hr
  split at hr
  · rename_i he; simp [he]
  · simp at hr

theorem LoopInv.out {p : Params N} {ls : List (Label N)} {q : WorkQueue N} {l : LoopState N}
    (h : LoopInv p ls q l) : OutInv p ls l.output := by
  have hget := output_get? l h.wf
  refine ⟨fun c o ho => ?_, fun c k hk => ?_, fun hn c o ho => ?_, fun hs => ?_⟩
  · rw [hget] at ho; exact ⟨h.ran c o ho, h.received_mem ho⟩
  · rw [hget]; exact h.aborted c k hk
  · rw [hget] at ho; exact h.going hn c o ho
  · have : l.output.outputs.get? = l.received := funext hget
    rw [this]; exact h.search hs

theorem LoopInv.queue {p : Params N} {ls : List (Label N)} {q q' : WorkQueue N} {l : LoopState N}
    (h : LoopInv p ls q l) (hq : ∀ c, c ∈ q.jobs ∨ c ∈ q.accepted → c ∈ q'.jobs ∨ c ∈ q'.accepted) :
    LoopInv p ls q' l :=
  ⟨h.wf, h.keys, h.ran, fun c hc => hq c (h.sched c hc), h.all, h.aborted, h.going, h.search⟩

theorem LoopInv.mono {p : Params N} {ls ls' : List (Label N)} {q : WorkQueue N} {l : LoopState N}
    (h : LoopInv p ls q l) (hl : ∀ x ∈ ls, x ∈ ls') : LoopInv p ls' q l :=
  ⟨h.wf, h.keys, fun c o hc => (h.ran c o hc).imp fun _ hw => hl _ hw, h.sched, h.all, h.aborted,
    h.going, h.search⟩

theorem OutInv.mono {p : Params N} {ls ls' : List (Label N)} {out : LoopOutput N}
    (h : OutInv p ls out) (hl : ∀ x ∈ ls, x ∈ ls') : OutInv p ls' out :=
  ⟨fun c o hc => ⟨(h.ran c o hc).1.imp fun _ hw => hl _ hw, (h.ran c o hc).2⟩, h.aborted, h.going,
    h.search⟩

/-- The jobs of the queue are commits which are not accepted yet, each once. -/
structure QueueJobs (p : Params N) (q : WorkQueue N) : Prop where
  mem : ∀ c ∈ q.jobs, c ∈ p.commits ∧ c ∉ q.accepted
  nodup : q.jobs.Nodup

theorem queueJobs_set (p : Params N) (q : WorkQueue N) (js : List N) (hn : js.Nodup)
    (hc : ∀ c ∈ js, c ∈ p.commits) : QueueJobs p (q.set js) := by
  unfold WorkQueue.set
  refine ⟨fun c hm => ?_, hn.filter _⟩
  simp only [List.mem_filter] at hm
  exact ⟨hc c hm.1, by simpa using hm.2⟩

theorem mem_set (q : WorkQueue N) (js : List N) (c : N) (h : c ∈ js) :
    c ∈ (q.set js).jobs ∨ c ∈ (q.set js).accepted := by
  unfold WorkQueue.set
  by_cases hc : c ∈ q.accepted
  · exact .inr hc
  · left
    simp only [List.mem_filter]
    exact ⟨h, by simpa using hc⟩

theorem beginLoop_inv (p : Params N) (ls : List (Label N)) (q : WorkQueue N) (hq : QueueJobs p q)
    (hn : p.commits.Nodup) :
    LoopInv p ls (beginLoop p q).2 (beginLoop p q).1 ∧ QueueJobs p (beginLoop p q).2 ∧
    (beginLoop p q).2.accepted = q.accepted ∧ (beginLoop p q).2.active = q.active ∧
    ∀ c, (beginLoop p q).1.received c = none := by
  unfold beginLoop
  cases hs : p.strategy with
  | none =>
    simp only
    have hget : ∀ c, AMap.get? (p.commits.foldl (fun m job => m.insert job ScheduledJob.scheduled) []) c =
        if c ∈ p.commits then some .scheduled else none := by
      intro c; rw [AMap.get?_foldl_insert]; simp
    have hrec : ∀ c, LoopState.received (N := N)
        ⟨p.commits.foldl (fun m job => m.insert job .scheduled) [], Search.new p.graph p.commits, none⟩ c = none := by
      intro c
      unfold LoopState.received
      simp only [hget]
      by_cases h : c ∈ p.commits <;> simp [h]
    refine ⟨⟨AMap.wf_foldl_insert _ _ AMap.wf_nil, fun c hc => ?_, fun c o hc => ?_, fun c hc => ?_,
      fun _ c hc => ?_, fun c k hk => by simp at hk, fun _ c o hc => ?_, fun h => by simp [hs] at h⟩,
      queueJobs_set p q _ hn fun c h => h, by trivial, by trivial, hrec⟩
    · simp only [hget] at hc
      by_contra h; simp [h] at hc
    · rw [hrec] at hc; simp at hc
    · apply mem_set
      simp only [hget] at hc
      by_contra h; simp [h] at hc
    · simp [hget, hc]
    · rw [hrec] at hc; simp at hc
  | some kind =>
    simp only
    have hrec : ∀ c, LoopState.received (N := N) ⟨[], Search.new p.graph p.commits, none⟩ c = none := by
      intro c; rfl
    refine ⟨⟨AMap.wf_nil, by simp, fun c o hc => ?_, by simp, fun h => by simp [hs] at h,
      by simp, fun _ c o hc => ?_, fun _ => ?_⟩, hq, by trivial, by trivial, hrec⟩
    · rw [hrec] at hc; simp at hc
    · rw [hrec] at hc; simp at hc
    · have : LoopState.received (N := N) ⟨[], Search.new p.graph p.commits, none⟩ = fun _ => none :=
        funext hrec
      rw [this]; exact searchOk_new p

theorem any_scheduled (l : LoopState N) (hw : AMap.WF l.scheduled) :
    (l.scheduled.any fun e => e.2 = ScheduledJob.scheduled) = true ↔
      ∃ c, l.scheduled.get? c = some .scheduled := by
  simp only [List.any_eq_true, decide_eq_true_eq]
  constructor
  · rintro ⟨⟨c, v⟩, hm, rfl⟩
    exact ⟨c, AMap.get?_of_mem hw hm⟩
  · rintro ⟨c, hc⟩
    exact ⟨(c, .scheduled), AMap.mem_of_get? hc, rfl⟩

/-- What `turn` does: it waits for a job which is in the queue or was accepted, or it returns. -/
inductive TurnSpec (p : Params N) (ls : List (Label N)) (l : LoopState N) (q : WorkQueue N) : Turn N → Prop where
  | wait {l' q'} : LoopInv p ls q' l' → QueueJobs p q' → q'.accepted = q.accepted →
      q'.active = q.active → (∀ c, l'.received c = l.received c) →
      (∃ c, l'.scheduled.get? c = some .scheduled) → TurnSpec p ls l q (.wait l' q')
  | return {out} : OutInv p ls out → OutDone p out →
      TurnSpec p ls l q (.return (.ok out) q)

theorem waitFor_spec {p : Params N} {ls : List (Label N)} {l : LoopState N} {q : WorkQueue N}
    (h : LoopInv p ls q l) :
    ((∃ c, l.scheduled.get? c = some .scheduled) ∧ waitFor l q = .wait l q) ∨
    ((∀ c, l.scheduled.get? c ≠ some .scheduled) ∧ waitFor l q = .return (.ok l.output) q) := by
  unfold waitFor
  by_cases hs : ∃ c, l.scheduled.get? c = some .scheduled
  · left
    rw [if_pos ((any_scheduled l h.wf).2 hs)]
    exact ⟨hs, rfl⟩
  · right
    rw [if_neg fun hc => hs ((any_scheduled l h.wf).1 hc)]
    push Not at hs
    exact ⟨hs, rfl⟩

theorem turn_spec {p : Params N} {ls : List (Label N)} {l : LoopState N} {q : WorkQueue N}
    (hg : p.graph.Lawful) (hp : 0 < p.numJobs) (h : LoopInv p ls q l) (hq : QueueJobs p q) :
    TurnSpec p ls l q (turn p l q) := by
  unfold turn
  cases ha : l.aborted with
  | some a =>
    simp only
    refine .return h.out ⟨fun _ hn => ?_, fun _ hn => ?_⟩ <;>
    · have : l.output.aborted = l.aborted := rfl
      rw [this, ha] at hn
      simp at hn
  | none =>
    simp only
    cases hs : p.strategy with
    | none =>
      simp only
      rcases waitFor_spec h with ⟨h1, h2⟩ | ⟨h1, h2⟩
      · rw [h2]
        exact .wait h hq rfl rfl (fun _ => rfl) h1
      · rw [h2]
        refine .return h.out ⟨fun _ _ c hc => ?_, fun hn => by simp [hs] at hn⟩
        rw [output_get? l h.wf]
        have := h.all hs c hc
        unfold LoopState.received
        obtain ⟨v, hv⟩ := Option.isSome_iff_exists.1 this
        rw [hv]
        cases v with
        | scheduled => exact absurd hv (h1 c)
        | complete o => rfl
    | some kind =>
      simp only
      -- The jobs which are scheduled are forgotten.
      obtain ⟨l0, hl0⟩ : ∃ l0 : LoopState N,
          l0 = l.forget := ⟨_, rfl⟩
      have hget0 : ∀ c, l0.scheduled.get? c =
          (l.scheduled.get? c).filter fun v => decide (v ≠ ScheduledJob.scheduled) := by
        intro c
        rw [hl0]
        exact AMap.get?_filter l.scheduled (fun v => decide (v ≠ ScheduledJob.scheduled)) h.wf c
      have hrec0 : ∀ c, l0.received c = l.received c := by
        intro c
        unfold LoopState.received
        rw [hget0]
        cases hv : l.scheduled.get? c with
        | none => rfl
        | some v => cases v <;> simp [Option.filter]
      have hskip : ∀ c, (l0.scheduled.get? c).isSome = (l.received c).isSome := by
        intro c
        unfold LoopState.received
        rw [hget0]
        cases hv : l.scheduled.get? c with
        | none => rfl
        | some v => cases v <;> simp [Option.filter]
      have hwf0 : AMap.WF l0.scheduled := by
        rw [hl0]; unfold LoopState.forget; exact AMap.wf_filter h.wf _
      have hsearch0 : l0.search = l.search := by rw [hl0]; rfl
      have hab0 : l0.aborted = none := by rw [hl0]; exact ha
      have hok := h.search (by simp [hs])
      have hrecf : l0.received = l.received := funext hrec0
      have h0 : LoopInv p ls q l0 := by
        refine ⟨hwf0, fun c hc => ?_, fun c o hc => ?_, fun c hc => ?_, fun hn => by simp [hs] at hn,
          fun c k hk => ?_, fun _ c o hc => ?_, fun _ => ?_⟩
        · rw [hskip] at hc
          obtain ⟨o, ho⟩ := Option.isSome_iff_exists.1 hc
          exact h.received_mem ho
        · rw [hrec0] at hc; exact h.ran c o hc
        · rw [hget0] at hc
          cases hv : l.scheduled.get? c with
          | none => rw [hv] at hc; simp at hc
          | some v =>
            rw [hv] at hc
            cases v <;> simp [Option.filter] at hc
        · rw [hab0] at hk; simp at hk
        · rw [hrec0] at hc; exact h.going ha c o hc
        · rw [hrecf, hsearch0]; exact hok
      rw [← hl0]
      unfold schedule
      have hgr := hok.graph hg
      obtain ⟨ns, n1, n2, n3⟩ := takeNext_rounds (s := l0.search) (by rw [hsearch0, hgr]; exact hg)
        (by rw [hsearch0]; exact hok.noDup hg) kind (fun c => (l0.scheduled.get? c).isSome) p.numJobs
      rw [hsearch0, hgr] at n3
      rw [hsearch0, n3]
      -- None of the proposals is left out.
      have hfil : (ns.filter fun m => !(l0.scheduled.get? m).isSome) = ns := by
        rw [List.filter_eq_self]
        intro a hm
        rw [n2, hsearch0] at hm
        rw [hskip, (hok.undecided hm).1]
        rfl
      rw [hfil]
      cases hns : ns.take p.numJobs with
      | nil =>
        simp only
        refine .return h0.out ⟨fun hn => by simp [hs] at hn, fun _ _ c hc => ?_⟩
        have : l0.output.search = l.search := by rw [← hsearch0]; rfl
        rw [this, ← hsearch0, ← n2] at hc
        rw [List.take_eq_nil_iff] at hns
        rcases hns with h | h
        · omega
        · rw [h] at hc; simp at hc
      | cons j js =>
        simp only
        have hsub : ∀ c ∈ j :: js, l.search.Undecided c := by
          intro c hc
          rw [← hns] at hc
          have := List.mem_of_mem_take hc
          rw [n2, hsearch0] at this
          exact this
        have hmem : ∀ c ∈ j :: js, c ∈ p.commits ∧ l.received c = none := fun c hc =>
          ⟨(hok.undecided (hsub c hc)).2, (hok.undecided (hsub c hc)).1⟩
        obtain ⟨l1, hl1⟩ : ∃ l1 : LoopState N, l1 =
          { l0 with scheduled := (j :: js).foldl (fun m job => AMap.insert m job ScheduledJob.scheduled)
                      l0.scheduled } := ⟨_, rfl⟩
        have hget1 : ∀ c, l1.scheduled.get? c =
            if c ∈ j :: js then some .scheduled else l0.scheduled.get? c := by
          intro c; rw [hl1]; exact AMap.get?_foldl_insert _ _ _ _
        have hrec1 : ∀ c, l1.received c = l.received c := by
          intro c
          rw [← hrec0]
          unfold LoopState.received
          rw [hget1]
          by_cases hc : c ∈ j :: js
          · rw [if_pos hc]
            have := (hmem c hc).2
            rw [← hrec0] at this
            unfold LoopState.received at this
            rw [this]
          · rw [if_neg hc]
        have hrecf1 : l1.received = l.received := funext hrec1
        have h1 : LoopInv p ls (q.set (j :: js)) l1 := by
          refine ⟨by rw [hl1]; exact AMap.wf_foldl_insert _ _ hwf0, fun c hc => ?_, fun c o hc => ?_,
            fun c hc => ?_, fun hn => by simp [hs] at hn, fun c k hk => ?_, fun _ c o hc => ?_, fun _ => ?_⟩
          · rw [hget1] at hc
            by_cases hcj : c ∈ j :: js
            · exact (hmem c hcj).1
            · rw [if_neg hcj] at hc; exact h0.keys c hc
          · rw [hrec1] at hc; exact h.ran c o hc
          · rw [hget1] at hc
            by_cases hcj : c ∈ j :: js
            · exact mem_set q _ c hcj
            · rw [if_neg hcj] at hc
              exfalso
              have := hskip c
              rw [hget0] at hc
              cases hv : l.scheduled.get? c with
              | none => rw [hv] at hc; simp at hc
              | some v => rw [hv] at hc; cases v <;> simp [Option.filter] at hc
          · rw [hl1] at hk; simp only [hab0] at hk; simp at hk
          · rw [hrec1] at hc; exact h.going ha c o hc
          · rw [hrecf1, hl1]; simp only [hsearch0]; exact hok
        rw [← hsearch0, ← hl1]
        have hq1 : QueueJobs p (q.set (j :: js)) := by
          apply queueJobs_set
          · rw [← hns]; exact n1.sublist (List.take_sublist _ _)
          · exact fun c hc => (hmem c hc).1
        rcases waitFor_spec h1 with ⟨w1, w2⟩ | ⟨w1, w2⟩
        · rw [w2]
          exact .wait h1 hq1 rfl rfl hrec1 w1
        · exfalso
          apply w1 j
          rw [hget1]; simp

end Verif.TestRun
