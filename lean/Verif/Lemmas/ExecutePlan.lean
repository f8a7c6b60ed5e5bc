import Verif.Lemmas.Execute

namespace Verif.Spec

open Verif Verif.Constraints Verif.RebasePlanBuilder

/-- A plan which has been run from `init` to `fin`. -/
structure Sim (b : RebasePlanBuilder) (k : Constraints) (ee : ExecEnv) (head : Option Oid)
    (cmds : List RebaseCommand) (init fin : ExecState) : Prop where
  hw : KWF k
  hr : Regular b.env k
  nodup : (handledCommits cmds).Nodup
  lnodup : (labelsCreated cmds).Nodup
  shape : PicksShape k cmds
  run : Runs ee head cmds init fin
  coll : NoCollisions ee
  ready : ResetsReady k cmds fin.rewritten
  repl : ReplacedOnParents b k
  sqm : ∀ c, Squashed k c → ¬ IsMerge b.env c
  init_created : init.created = []
  init_rewritten : init.rewritten = []
  init_skipped : init.skippedHead = none

variable {b : RebasePlanBuilder} {k : Constraints} {ee : ExecEnv} {head : Option Oid}
  {cmds : List RebaseCommand} {init fin : ExecState}

theorem Sim.at_prefix (S : Sim b k ee head cmds init fin) {pre : List RebaseCommand}
    (h : pre <+: cmds) : ∃ e post, cmds = pre ++ post ∧ Runs ee head pre init e ∧
      Runs ee head post e fin := by
  obtain ⟨post, rfl⟩ := h
  obtain ⟨e, h1, h2⟩ := runs_append.1 S.run
  exact ⟨e, post, rfl, h1, h2⟩

theorem Sim.mid (S : Sim b k ee head cmds init fin) {pre mid : List RebaseCommand} {e : ExecState}
    (h : pre ++ mid <+: cmds) (he : Runs ee head pre init e) :
    ∃ e', Runs ee head mid e e' ∧ Runs ee head (pre ++ mid) init e' := by
  obtain ⟨e', post, h1, h2, h3⟩ := S.at_prefix h
  obtain ⟨e1, h4, h5⟩ := runs_append.1 h2
  have := h4.unique he
  subst this
  exact ⟨e', h5, h2⟩

theorem Sim.final (S : Sim b k ee head cmds init fin) {pre : List RebaseCommand} {e : ExecState}
    (h : pre <+: cmds) (he : Runs ee head pre init e) {c : Oid} (hc : c ∈ handledCommits pre)
    (hs : ¬ Squashed k c) : AMap.get? fin.rewritten c = AMap.get? e.rewritten c := by
  obtain ⟨e', post, h1, h2, h3⟩ := S.at_prefix h
  have := h2.unique he
  subst this
  have hn := S.nodup
  rw [h1, handledCommits_append, List.nodup_append] at hn
  have hcp : c ∉ handledCommits post := fun hm => hn.2.2 c hc c hm rfl
  refine (runs_frame h3).2.1 c hcp ?_
  intro t l hl hx
  rcases S.shape t l (by rw [h1]; exact List.mem_append_right _ hl) c hx with rfl | hx
  · exact hcp (List.mem_filterMap.2 ⟨_, hl, rfl⟩)
  · exact hs hx

theorem Sim.unwritten (S : Sim b k ee head cmds init fin) {pre : List RebaseCommand} {e : ExecState}
    (h : pre <+: cmds) (he : Runs ee head pre init e) {c : Oid} (hc : c ∉ handledCommits pre)
    (hs : ¬ Squashed k c) : AMap.get? e.rewritten c = none := by
  have h1 := (runs_frame he).2.1 c hc ?_
  · rw [h1, S.init_rewritten]; rfl
  · intro t l hl hx
    obtain ⟨post, hp⟩ := h
    rcases S.shape t l (by rw [← hp]; exact List.mem_append_left _ hl) c hx with rfl | hx
    · exact hc (List.mem_filterMap.2 ⟨_, hl, rfl⟩)
    · exact hs hx

theorem Sim.created_ok (S : Sim b k ee head cmds init fin) {pre : List RebaseCommand} {e : ExecState}
    (he : Runs ee head pre init e) : ∀ x ∈ e.created, ee.createCommit x.2 = some x.1 := by
  obtain ⟨new, h1, h2⟩ := (runs_frame he).2.2.1
  rw [S.init_created, List.append_nil] at h1
  rw [h1]; exact h2

theorem Sim.created_sub (S : Sim b k ee head cmds init fin) {pre : List RebaseCommand} {e : ExecState}
    (h : pre <+: cmds) (he : Runs ee head pre init e) :
    ∃ new, fin.created = new ++ e.created ∧ ∀ x ∈ new, ee.createCommit x.2 = some x.1 := by
  obtain ⟨e', post, h1, h2, h3⟩ := S.at_prefix h
  have := h2.unique he
  subst this
  exact (runs_frame h3).2.2.1

theorem Sim.find_final (S : Sim b k ee head cmds init fin) {pre : List RebaseCommand} {e : ExecState}
    (h : pre <+: cmds) (he : Runs ee head pre init e) {o : Oid} {d : CommitData}
    (hf : ee.find e.created o = some d) : ee.find fin.created o = some d := by
  obtain ⟨new, h1, h2⟩ := S.created_sub h he
  rw [h1]
  exact find_mono S.coll (S.created_ok he) h2 hf

theorem Sim.labels_stable (S : Sim b k ee head cmds init fin) {pre mid : List RebaseCommand}
    {e e' : ExecState} (h : pre ++ mid <+: cmds) (he : Runs ee head mid e e') {l : Text}
    (hl : l ∈ labelsCreated pre) : AMap.get? e'.labels l = AMap.get? e.labels l := by
  refine (runs_frame he).1 l ?_
  obtain ⟨post, hp⟩ := h
  have hn := S.lnodup
  unfold labelsCreated at hn hl
  rw [← hp, List.filterMap_append, List.filterMap_append, List.nodup_append, List.nodup_append] at hn
  exact fun hm => hn.1.2.2 l hl l hm rfl

/-- The state of the planner and the state of the execution after the commands planned so far. -/
structure Good (b : RebasePlanBuilder) (k : Constraints) (ee : ExecEnv) (head : Option Oid)
    (init fin : ExecState) (s : BuildState) (e : ExecState) : Prop where
  runs : Runs ee head s.acc init e
  linv : LInv s
  labels : ∀ p l, AMap.get? s.parentLabels p = some l →
    ∃ q, AMap.get? e.labels l = some q ∧ EndsAt b.env k fin.rewritten p q
  done : ∀ cmd ∈ s.acc, CommandDone b.env k ee fin cmd
  head1 : ∀ q, e.skippedHead = some q → ∃ h, head = some h ∧ h ∈ handledCommits s.acc
  head2 : ∀ h, head = some h → h ∈ handledCommits s.acc → ¬ Squashed k h →
    AMap.get? fin.rewritten h = some .zero →
    ∃ q, e.skippedHead = some q ∧ EndsAt b.env k fin.rewritten h q

theorem Good.push_label {s s' : BuildState} {e : ExecState} (h : Good b k ee head init fin s e)
    {stem l : Text} (hc : createLabel s stem = some (l, s')) :
    Good b k ee head init fin s' { e with labels := AMap.insert e.labels l e.current } := by
  obtain ⟨h1, h2, h3, h4⟩ := createLabel_some hc
  have eh : handledCommits s'.acc = handledCommits s.acc := by
    rw [h4, handledCommits_append]; simp [handledCommits, handled]
  refine ⟨?_, (h.linv.createLabel hc).1, ?_, ?_, ?_, ?_⟩
  · rw [h4, runs_append]
    exact ⟨e, h.runs, runs_one.2 rfl⟩
  · intro p x hx
    rw [h3] at hx
    obtain ⟨q, hq, he⟩ := h.labels p x hx
    refine ⟨q, ?_, he⟩
    have hne : l ≠ x := by
      rintro rfl
      exact h1 ((h.linv.used l).2 (h.linv.parents p l hx))
    simp [hne, hq]
  · intro cmd hcmd
    rw [h4] at hcmd
    rcases List.mem_append.1 hcmd with hcmd | hcmd
    · exact h.done cmd hcmd
    · simp only [List.mem_singleton] at hcmd; subst hcmd; trivial
  · rw [eh]; exact h.head1
  · rw [eh]; exact h.head2

theorem Good.push_reset {s : BuildState} {e : ExecState} (h : Good b k ee head init fin s e)
    {t : OidOrLabel} (q : Oid) (hr : ee.runCommand head e (.reset t) = .ok { e with current := q })
    (hl : ∀ l, t = .label l → l ∈ labelsCreated s.acc) :
    Good b k ee head init fin (push s [.reset t]) { e with current := q } := by
  have eh : handledCommits (push s [.reset t]).acc = handledCommits s.acc := by
    unfold push; rw [handledCommits_append]; simp [handledCommits, handled]
  refine ⟨?_, h.linv.push ?_ ?_, h.labels, ?_, ?_, ?_⟩
  · unfold push
    rw [runs_append]
    exact ⟨e, h.runs, runs_one.2 hr⟩
  · simp [labelCreated]
  · intro c hc l hl'
    simp only [List.mem_singleton] at hc
    subst hc
    cases t with
    | oid o => simp [labelsUsed, labelOf] at hl'
    | label x =>
      simp only [labelsUsed, labelOf, List.filterMap_cons, List.filterMap_nil,
        List.mem_singleton] at hl'
      exact hl l (by rw [hl'])
  · intro cmd hcmd
    rcases List.mem_append.1 hcmd with hcmd | hcmd
    · exact h.done cmd hcmd
    · simp only [List.mem_singleton] at hcmd; subst hcmd; trivial
  · rw [eh]; exact h.head1
  · rw [eh]; exact h.head2

theorem replaceParents_spec {s : ExecState} {ps : List OidOrLabel} {os : List Oid}
    (h : ps.mapM (ee.replaceParent s) = .ok os) :
    List.Forall₂ (fun p o => p = .oid o ∨ ∃ l, p = .label l ∧ AMap.get? s.labels l = some o) ps os := by
  induction ps generalizing os with
  | nil =>
    rw [List.mapM_nil] at h
    cases h
    exact .nil
  | cons p ps ih =>
    rw [List.mapM_cons] at h
    cases hp : ee.replaceParent s p with
    | error e => rw [hp] at h; cases h
    | ok o =>
      rw [hp] at h
      cases hps : ps.mapM (ee.replaceParent s) with
      | error e =>
        have : (Except.error e : Except InMemoryStop (List Oid)) = .ok os := by
          rw [hps] at h; exact h
        cases this
      | ok os' =>
        have : (Except.ok (o :: os') : Except InMemoryStop (List Oid)) = .ok os := by
          rw [hps] at h; exact h
        cases this
        refine .cons ?_ (ih hps)
        unfold ExecEnv.replaceParent at hp
        simp only at hp
        split at hp
        · simp at hp
        · rename_i o' ho'
          split at hp
          · simp at hp
          · simp only [Except.ok.injEq] at hp
            subst hp
            cases p with
            | oid x => left; simp only [Option.some.injEq] at ho'; rw [ho']
            | label l => right; exact ⟨l, rfl, ho'⟩

theorem Base.rewritten {env : PlanEnv} {c p : Oid} (h : Base env k c p) : Rewritten k c := by
  rcases h with h | ⟨h, _⟩
  · exact .inl ⟨p, h⟩
  · exact .inr h

/-- The shape of the commands for one commit. -/
theorem commandsFor_cases {up : List Nat} {cur : Oid} {s : BuildState} {cs : List RebaseCommand}
    (h : commandsFor b k up cur s = some cs) :
    (cs = [.skipUpstreamAppliedCommit cur] ∧ ¬ IsMerge b.env cur) ∨
    (cs = [] ∧ cur ∈ k.fixupCommits) ∨
    (cur ∉ k.fixupCommits ∧ cs = [.pick cur (commitsToApply b.env k cur), .detectEmptyCommit cur]) ∨
    (∃ r, AMap.get? b.replacementCommits cur = some r ∧ cur ∉ k.fixupCommits ∧
      ¬ IsMerge b.env cur ∧ cs = [.replace cur r (replacementParents b.env s.parentLabels r)]) ∨
    (∃ r first rest, AMap.get? b.replacementCommits cur = some r ∧ IsMerge b.env cur ∧
      commitsToMerge b.env k s.parentLabels cur = some (first :: rest) ∧
      cs = [.reset first, .replace cur r (first :: rest)]) ∨
    (∃ first rest, cs = [.reset first, .merge cur rest]) := by
  unfold commandsFor at h
  split at h
  · rename_i hp
    cases h
    refine .inl ⟨rfl, fun hm => ?_⟩
    rw [not_patchApplied_of_merge hm] at hp
    simp at hp
  split at h
  · rename_i hm
    cases hc : commitsToMerge b.env k s.parentLabels cur with
    | none => rw [hc] at h; simp at h
    | some ps =>
      rw [hc] at h
      simp only at h
      split at h
      · simp at h
      cases ps with
      | nil => simp at h
      | cons first rest =>
        simp only at h
        split at h
        · cases h; exact .inr (.inr (.inr (.inr (.inr ⟨first, rest, rfl⟩))))
        · rename_i r hrr
          cases h
          exact .inr (.inr (.inr (.inr (.inl ⟨r, first, rest, hrr, hm, rfl, rfl⟩))))
  rename_i hm
  split at h
  · rename_i hf
    cases h
    exact .inr (.inl ⟨rfl, List.contains_iff_mem.1 hf⟩)
  rename_i hf
  have hf' : cur ∉ k.fixupCommits := fun h => hf (List.contains_iff_mem.2 h)
  split at h
  · rename_i r hrr
    cases h
    exact .inr (.inr (.inr (.inl ⟨r, hrr, hf', hm, rfl⟩)))
  · cases h
    exact .inr (.inr (.inl ⟨hf', rfl⟩))

theorem runReplace_spec {e e' : ExecState} {c r : Oid} {ps : List OidOrLabel}
    (h : ee.runReplace e c r ps = .ok e') :
    ∃ os rep, List.Forall₂ (fun p o => p = .oid o ∨ ∃ l, p = .label l ∧ AMap.get? e.labels l = some o) ps os ∧
      ee.find e.created r = some rep ∧ e'.rewritten = AMap.insert e.rewritten c (.nonZero e'.current) ∧
      e'.skippedHead = e.skippedHead ∧ e'.labels = e.labels ∧
      (e'.current, ⟨os, rep.tree, rep.message, rep.author, rep.committer, ee.newTime rep.time⟩) ∈
        e'.created := by
  unfold ExecEnv.runReplace at h
  split at h
  · rename_i orig rep _ hrep
    split at h
    · simp at h
    rename_i msg hmsg
    split at h
    · simp at h
    rename_i os hos
    simp only at h
    split at h
    · simp at h
    cases h
    exact ⟨os, rep, replaceParents_spec hos, hrep, rfl, rfl, rfl, by simp [hmsg]⟩
  · simp at h

theorem not_squashed_of_not_fixup {c : Oid} (hw : KWF k) (h : c ∉ k.fixupCommits) :
    ¬ Squashed k c := fun hs => h ((squashed_iff hw).1 hs)

theorem Good.push_cmds {s : BuildState} {e e1 : ExecState} (h : Good b k ee head init fin s e)
    {up : List Nat} {cur : Oid} {cs : List RebaseCommand} (hc : commandsFor b k up cur s = some cs)
    (hruns : Runs ee head cs e e1) (hlab : e1.labels = e.labels)
    (hdone : ∀ cmd ∈ cs, CommandDone b.env k ee fin cmd)
    (h1 : ∀ q, e1.skippedHead = some q → e.skippedHead = some q ∨
      (head = some cur ∧ cur ∈ handledCommits cs))
    (h2 : head = some cur → cur ∈ handledCommits cs → ¬ Squashed k cur →
      AMap.get? fin.rewritten cur = some .zero →
      ∃ q, e1.skippedHead = some q ∧ EndsAt b.env k fin.rewritten cur q) :
    Good b k ee head init fin (push s cs) e1 := by
  have hh : ∀ x ∈ handledCommits cs, x = cur := by
    intro x hx
    rcases (commandsFor_some hc).1 with h | h
    · rw [h] at hx; simpa using hx
    · rw [h.1] at hx; simp [handledCommits] at hx
  obtain ⟨hl1, hl2⟩ := commandsFor_labels hc
  refine ⟨runs_append.2 ⟨e, h.runs, hruns⟩, h.linv.push hl1 ?_, ?_, ?_, ?_, ?_⟩
  · intro c hc l hl
    obtain ⟨p, hp⟩ := hl2 c hc l hl
    exact h.linv.parents p l hp
  · intro p l hp
    rw [hlab]
    exact h.labels p l hp
  · intro cmd hcmd
    rcases List.mem_append.1 hcmd with hcmd | hcmd
    · exact h.done cmd hcmd
    · exact hdone cmd hcmd
  · intro q hq
    unfold push
    simp only [handledCommits_append, List.mem_append]
    rcases h1 q hq with hq | ⟨hq, hq'⟩
    · obtain ⟨x, hx, hx'⟩ := h.head1 q hq
      exact ⟨x, hx, .inl hx'⟩
    · exact ⟨cur, hq, .inr hq'⟩
  · intro x hx hm hs hz
    unfold push at hm
    simp only [handledCommits_append, List.mem_append] at hm
    rcases hm with hm | hm
    · obtain ⟨q, hq, hq'⟩ := h.head2 x hx hm hs hz
      exact ⟨q, (runs_frame hruns).2.2.2.1 q hq, hq'⟩
    · have := hh x hm
      subst this
      exact h2 hx hm hs hz

/-- The parents of a merge commit. -/
theorem commitsToMerge_spec {labels : AMap Oid Text} {cur : Oid} {ps : List OidOrLabel}
    (h : commitsToMerge b.env k labels cur = some ps) :
    List.Forall₂ (fun p t => (p ∈ k.commitsToMove ∧ ∃ l, AMap.get? labels p = some l ∧ t = .label l) ∨
      (p ∉ k.commitsToMove ∧ t = .oid p)) (b.env.parentOids cur) ps := by
  unfold commitsToMerge at h
  generalize b.env.parentOids cur = os at h
  induction os generalizing ps with
  | nil => simp only [List.mapM_nil, Option.pure_def, Option.some.injEq] at h; subst h; exact .nil
  | cons o os ih =>
    rw [List.mapM_cons] at h
    simp only [Option.bind_eq_bind, Option.pure_def, Option.bind_eq_some_iff] at h
    obtain ⟨y, hy, ys, hys, h⟩ := h
    cases h
    refine .cons ?_ (ih hys)
    split at hy
    · rename_i hm
      rw [Option.map_eq_some_iff] at hy
      obtain ⟨l, hl, rfl⟩ := hy
      exact .inl ⟨List.contains_iff_mem.1 hm, l, hl, rfl⟩
    · rename_i hm
      cases hy
      exact .inr ⟨fun h => hm (List.contains_iff_mem.2 h), rfl⟩

theorem forall₂_trans {α β γ : Type} {R : α → β → Prop} {Q : β → γ → Prop} {T : α → γ → Prop}
    (hT : ∀ a b c, R a b → Q b c → T a c) {as : List α} {bs : List β} {cs : List γ}
    (h1 : List.Forall₂ R as bs) (h2 : List.Forall₂ Q bs cs) : List.Forall₂ T as cs := by
  induction h1 generalizing cs with
  | nil => cases h2; exact .nil
  | cons h _ ih =>
    cases h2 with
    | cons h' h2 => exact .cons (hT _ _ _ h h') (ih h2)

theorem Good.parents {s : BuildState} {e : ExecState} (h : Good b k ee head init fin s e)
    {ps : List Oid} {ts : List OidOrLabel} {os : List Oid} {labels : AMap Text Oid}
    (he : labels = e.labels)
    (h1 : List.Forall₂ (fun p t => (∃ l, AMap.get? s.parentLabels p = some l ∧ t = .label l) ∨
      (¬ Rewritten k p ∧ t = .oid p)) ps ts)
    (h2 : List.Forall₂ (fun p o => p = .oid o ∨ ∃ l, p = .label l ∧ AMap.get? labels l = some o)
      ts os) : List.Forall₂ (EndsAt b.env k fin.rewritten) ps os := by
  subst he
  refine forall₂_trans ?_ h1 h2
  rintro p t o (⟨l, hl, rfl⟩ | ⟨hn, rfl⟩) (ho | ⟨l', hl', ho⟩)
  · cases ho
  · cases hl'
    obtain ⟨q, hq, hq'⟩ := h.labels p l hl
    rw [hq] at ho
    cases ho
    exact hq'
  · cases ho; exact .stays _ hn
  · cases hl'

theorem Sim.replace_done (S : Sim b k ee head cmds init fin) {pre : List RebaseCommand}
    {c r : Oid} {ts : List OidOrLabel} {e e1 : ExecState} (he : Runs ee head pre init e)
    (hpre : pre ++ [.replace c r ts] <+: cmds) (hrun : ee.runReplace e c r ts = .ok e1)
    (hs : ¬ Squashed k c) (hrw : Rewritten k c)
    (hps : ∀ os, List.Forall₂ (fun p o => p = .oid o ∨ ∃ l, p = .label l ∧ AMap.get? e.labels l = some o) ts os →
      List.Forall₂ (EndsAt b.env k fin.rewritten) (newParents b.env c r) os) :
    CommandDone b.env k ee fin (.replace c r ts) ∧ EndsAt b.env k fin.rewritten c e1.current ∧
      AMap.get? fin.rewritten c ≠ some .zero := by
  obtain ⟨os, rep, h1, h2, h3, h4, _, h5⟩ := runReplace_spec hrun
  have hr1 : Runs ee head (pre ++ [.replace c r ts]) init e1 :=
    runs_append.2 ⟨e, he, runs_one.2 hrun⟩
  have hfin : AMap.get? fin.rewritten c = some (.nonZero e1.current) := by
    rw [S.final hpre hr1 (by rw [handledCommits_append]; simp [handledCommits, handled]) hs, h3]
    simp
  refine ⟨⟨e1.current, os, rep, hfin, hps os h1, ?_, ?_⟩, .new _ _ hrw hs hfin, by simp [hfin]⟩
  · exact S.find_final ((List.prefix_append _ _).trans hpre) he h2
  · obtain ⟨new, hn, _⟩ := S.created_sub hpre hr1
    rw [hn]
    exact List.mem_append_right _ h5

/-- The commands for one commit. -/
theorem Good.step (S : Sim b k ee head cmds init fin) {up : List Nat} {cur : Oid} {s : BuildState}
    {e : ExecState} {cs : List RebaseCommand} (h : Good b k ee head init fin s e)
    (hc : commandsFor b k up cur s = some cs) (hpre : s.acc ++ cs <+: cmds)
    (hbase : ∃ p, Base b.env k cur p ∧ EndsAt b.env k fin.rewritten p e.current)
    (hrep : ¬ IsMerge b.env cur → ∀ r, AMap.get? b.replacementCommits cur = some r →
      ∀ p ∈ newParents b.env cur r, Rewritten k p → (AMap.get? s.parentLabels p).isSome) :
    ∃ e1, Good b k ee head init fin (push s cs) e1 ∧ EndsAt b.env k fin.rewritten cur e1.current := by
  obtain ⟨e1, hr1, hr2⟩ := S.mid hpre h.runs
  obtain ⟨p, hb, hp⟩ := hbase
  have hrw := hb.rewritten
  have hnew : cur ∈ handledCommits cs → cur ∉ handledCommits s.acc := by
    intro h1 h2
    have hn := S.nodup
    obtain ⟨post, hpost⟩ := hpre
    rw [← hpost, handledCommits_append, handledCommits_append, List.nodup_append,
      List.nodup_append] at hn
    exact hn.1.2.2 cur h2 cur h1 rfl
  have hnone : cur ∈ handledCommits cs → head = some cur → e.skippedHead = none := by
    intro h1 h2
    cases hsk : e.skippedHead with
    | none => rfl
    | some q =>
      obtain ⟨x, hx, hx'⟩ := h.head1 q hsk
      rw [h2] at hx
      cases hx
      exact absurd hx' (hnew h1)
  have hset : ∀ q, ExecEnv.setSkippedHead head e.skippedHead cur e.current = some q →
      e.skippedHead = some q ∨ head = some cur := by
    intro q hq
    unfold ExecEnv.setSkippedHead at hq
    split at hq
    · rename_i hx; exact .inr hx.symm
    · exact .inl hq
  have hset2 : cur ∈ handledCommits cs → head = some cur →
      ExecEnv.setSkippedHead head e.skippedHead cur e.current = some e.current := by
    intro h1 h2
    unfold ExecEnv.setSkippedHead
    rw [hnone h1 h2, h2]
    simp
  rcases commandsFor_cases hc with ⟨rfl, hm⟩ | ⟨rfl, hf⟩ | ⟨hf, rfl⟩ | ⟨r, hr, hf, hm, rfl⟩ |
    ⟨r, first, rest, hr, hm, hcm, rfl⟩ | ⟨first, rest, rfl⟩
  · -- skipped
    have hrun := runs_one.1 hr1
    simp only [ExecEnv.runCommand] at hrun
    split at hrun
    · simp at hrun
    cases hrun
    have hz : ¬ Squashed k cur → AMap.get? fin.rewritten cur = some .zero := by
      intro hs
      rw [S.final hpre hr2 (by rw [handledCommits_append]; simp [handledCommits, handled]) hs]
      simp
    have hE : EndsAt b.env k fin.rewritten cur e.current := by
      rcases Classical.em (Squashed k cur) with hs | hs
      · exact .squashed _ _ _ hs hb hp
      · exact .dropped _ _ _ hs (hz hs) hb hp
    refine ⟨_, h.push_cmds hc hr1 rfl ?_ ?_ ?_, hE⟩
    · intro cmd hcmd
      simp only [List.mem_singleton] at hcmd
      subst hcmd
      exact ⟨⟨p, e.current, hb, hp⟩, hz⟩
    · intro q hq
      rcases hset q hq with hq | hq
      · exact .inl hq
      · exact .inr ⟨hq, by simp [handledCommits, handled]⟩
    · intro hh hm _ _
      exact ⟨_, hset2 hm hh, hE⟩
  · -- squashed
    rw [runs_nil] at hr1
    subst hr1
    refine ⟨_, h.push_cmds hc (runs_nil.2 rfl) rfl (by simp) (fun q hq => .inl hq) ?_, ?_⟩
    · simp [handledCommits]
    · exact .squashed _ _ _ ((squashed_iff S.hw).2 hf) hb hp
  · -- picked
    have hs := not_squashed_of_not_fixup S.hw hf
    obtain ⟨e2, hrun, hr3⟩ := runs_cons.1 hr1
    have := runs_one.1 hr3
    simp only [ExecEnv.runCommand, Except.ok.injEq] at this
    subst this
    simp only [ExecEnv.runCommand] at hrun
    obtain ⟨hl, hcr, base, orig, tree, hfb, hfo, hl2, hres⟩ := runPick_done hrun
    have hmem : cur ∈ handledCommits [RebaseCommand.pick cur (commitsToApply b.env k cur),
        .detectEmptyCommit cur] := by simp [handledCommits, handled]
    have hfin := S.final hpre hr2 (by rw [handledCommits_append]; exact List.mem_append_right _ hmem) hs
    have hp1 : s.acc <+: cmds := (List.prefix_append _ _).trans hpre
    have hfb' := S.find_final hp1 h.runs hfb
    have hfo' := S.find_final hp1 h.runs hfo
    rcases hres with ⟨ht, hcu, hre, hsk⟩ | ⟨ht, hsk, hre, hin⟩
    · have hz : AMap.get? fin.rewritten cur = some .zero := by rw [hfin, hre]; simp
      have hE : EndsAt b.env k fin.rewritten cur e2.current := by
        rw [hcu]; exact .dropped _ _ _ hs hz hb hp
      refine ⟨_, h.push_cmds hc hr1 hl ?_ ?_ ?_, hE⟩
      · intro cmd hcmd
        simp only [List.mem_cons, List.not_mem_nil, or_false] at hcmd
        rcases hcmd with rfl | rfl
        · exact ⟨p, e.current, hb, hp, tree, base, orig, hfb', hfo', hl2, by rw [if_pos ht]; exact hz⟩
        · trivial
      · intro q hq
        rw [hsk] at hq
        rcases hset q hq with hq | hq
        · exact .inl hq
        · exact .inr ⟨hq, hmem⟩
      · intro hh _ _ _
        refine ⟨e2.current, ?_, hE⟩
        rw [hsk, hset2 hmem hh, hcu]
    · have hz : AMap.get? fin.rewritten cur = some (.nonZero e2.current) := by
        rw [hfin, hre, get?_foldl_insert]
        simp
      refine ⟨_, h.push_cmds hc hr1 hl ?_ ?_ ?_, .new _ _ hrw hs hz⟩
      · intro cmd hcmd
        simp only [List.mem_cons, List.not_mem_nil, or_false] at hcmd
        rcases hcmd with rfl | rfl
        · refine ⟨p, e.current, hb, hp, tree, base, orig, hfb', hfo', hl2, ?_⟩
          rw [if_neg ht]
          refine ⟨_, hz, ?_⟩
          obtain ⟨new, hn, _⟩ := S.created_sub hpre hr2
          rw [hn]
          exact List.mem_append_right _ hin
        · trivial
      · intro q hq
        rw [hsk] at hq
        exact .inl hq
      · intro _ _ _ hz'
        rw [hz] at hz'
        simp at hz'
  · -- replaced
    have hs := not_squashed_of_not_fixup S.hw hf
    have hrun := runs_one.1 hr1
    simp only [ExecEnv.runCommand] at hrun
    obtain ⟨hd, hE, hnz⟩ := S.replace_done h.runs hpre hrun hs hrw (fun os hos => by
      refine h.parents rfl ?_ hos
      have hin1 : newParents b.env cur r = b.env.replacementParentOids r := if_neg hm
      unfold replacementParents
      rw [hin1, List.forall₂_map_right_iff]
      refine List.forall₂_same.2 fun q hq => ?_
      cases hl : AMap.get? s.parentLabels q with
      | some l => exact .inl ⟨l, rfl, rfl⟩
      | none =>
        refine .inr ⟨fun hrq => ?_, rfl⟩
        have := hrep hm r hr q (by rw [hin1]; exact hq) hrq
        rw [hl] at this
        simp at this)
    obtain ⟨_, _, _, _, _, hsk, hlab, _⟩ := runReplace_spec hrun
    refine ⟨_, h.push_cmds hc hr1 hlab ?_ ?_ ?_, hE⟩
    · intro cmd hcmd
      simp only [List.mem_singleton] at hcmd
      subst hcmd
      exact hd
    · intro q hq
      rw [hsk] at hq
      exact .inl hq
    · intro _ _ _ hz; exact absurd hz hnz
  · -- a replaced merge commit
    have hs : ¬ Squashed k cur := fun hs => S.sqm _ hs hm
    obtain ⟨e2, hres, hr3⟩ := runs_cons.1 hr1
    have hrun := runs_one.1 hr3
    simp only [ExecEnv.runCommand] at hrun
    have he2 : e2.labels = e.labels ∧ e2.skippedHead = e.skippedHead := by
      cases first with
      | label l =>
        simp only [ExecEnv.runCommand] at hres
        split at hres
        · cases hres; simp
        · simp at hres
      | oid o =>
        simp only [ExecEnv.runCommand] at hres
        split at hres <;> (cases hres; simp)
    have hra : Runs ee head (s.acc ++ [.reset first]) init e2 :=
      runs_append.2 ⟨e, h.runs, runs_one.2 hres⟩
    obtain ⟨hd, hE, hnz⟩ := S.replace_done hra (by simpa using hpre) hrun hs hrw (fun os hos => by
      refine h.parents he2.1 ?_ hos
      have hin1 : newParents b.env cur r = b.env.parentOids cur := if_pos hm
      rw [hin1]
      have hspec := commitsToMerge_spec hcm
      have hmem : ∀ q ∈ b.env.parentOids cur, q ∉ k.commitsToMove → ¬ Rewritten k q := by
        intro q hq hn hrq
        exact hn ((mem_commitsToMove S.hw.1.1).2 (S.hr.merge_on cur q hm hrw hq hrq).2)
      revert hspec hmem
      generalize b.env.parentOids cur = qs
      generalize first :: rest = ts
      intro hspec hmem
      induction hspec with
      | nil => exact .nil
      | cons hx _ ih =>
        refine .cons ?_ (ih fun q hq => hmem q (List.mem_cons_of_mem _ hq))
        rcases hx with ⟨_, l, hl, rfl⟩ | ⟨hn, rfl⟩
        · exact .inl ⟨l, hl, rfl⟩
        · exact .inr ⟨hmem _ (by simp) hn, rfl⟩)
    obtain ⟨_, _, _, _, _, hsk, hlab, _⟩ := runReplace_spec hrun
    refine ⟨_, h.push_cmds hc hr1 (hlab.trans he2.1) ?_ ?_ ?_, hE⟩
    · intro cmd hcmd
      simp only [List.mem_cons, List.not_mem_nil, or_false] at hcmd
      rcases hcmd with rfl | rfl
      · trivial
      · exact hd
    · intro q hq
      rw [hsk, he2.2] at hq
      exact .inl hq
    · intro _ _ _ hz; exact absurd hz hnz
  · -- a merge commit which is not replaced
    obtain ⟨e2, hres, hr3⟩ := runs_cons.1 hr1
    have := runs_one.1 hr3
    simp [ExecEnv.runCommand] at this

theorem Good.label_stays (S : Sim b k ee head cmds init fin) {s s' : BuildState} {e e' : ExecState}
    (h : Good b k ee head init fin s e) (h' : Good b k ee head init fin s' e')
    (hp : s.acc <+: s'.acc) (hc : s'.acc <+: cmds) {l : Text} (hl : l ∈ labelsCreated s.acc) :
    AMap.get? e'.labels l = AMap.get? e.labels l := by
  obtain ⟨mid, hm⟩ := hp
  rw [← hm] at hc
  obtain ⟨e2, h1, h2⟩ := S.mid hc h.runs
  rw [hm] at h2
  have := h2.unique h'.runs
  subst this
  exact S.labels_stable hc h1 hl

/-- The commands for a commit and everything on top of it. -/
theorem Good.visit (S : Sim b k ee head cmds init fin) {up : List Nat} (fuel : Nat) (cur : Oid)
    (s s' : BuildState) (e : ExecState)
    (hv : makeRebasePlanForCurrentCommit b k up fuel cur s = some s') (hpre : s'.acc <+: cmds)
    (h : Good b k ee head init fin s e)
    (hbase : ∃ p, Base b.env k cur p ∧ EndsAt b.env k fin.rewritten p e.current)
    (hrep : ¬ IsMerge b.env cur → ∀ r, AMap.get? b.replacementCommits cur = some r →
      ∀ p ∈ newParents b.env cur r, Rewritten k p → (AMap.get? s.parentLabels p).isSome) :
    (∃ e', Good b k ee head init fin s' e') ∧
      ∀ p, (AMap.get? s.parentLabels p).isSome → (AMap.get? s'.parentLabels p).isSome := by
  induction fuel generalizing cur s s' e with
  | zero => simp [makeRebasePlanForCurrentCommit] at hv
  | succ n ih =>
    rw [makeRebasePlanForCurrentCommit] at hv
    cases hc : commandsFor b k up cur s with
    | none => rw [hc] at hv; cases hv; exact ⟨⟨e, h⟩, fun _ h => h⟩
    | some cs =>
      rw [hc] at hv
      simp only at hv
      cases hcp : createParentLabel b cur (sortOids (k.commitsToMoveTo cur)) (push s cs) with
      | none => rw [hcp] at hv; simp at hv
      | some s1 =>
        rw [hcp] at hv
        simp only at hv
        obtain ⟨hl1, hl2⟩ := commandsFor_labels hc
        have hpl : LInv (push s cs) := h.linv.push hl1 fun c hc l hl => by
          obtain ⟨p, hp⟩ := hl2 c hc l hl
          exact h.linv.parents p l hp
        obtain ⟨hs1, hpr1⟩ := hpl.createParentLabel hcp
        obtain ⟨hs', hpr2⟩ := hs1.visitChildren (fun c s s' hx hi => linv_visit n c s s' hx hi) hv
        have hpre1 : s1.acc <+: cmds := hpr2.trans hpre
        obtain ⟨e1, hg1, hE⟩ := h.step S hc (hpr1.trans hpre1) hbase hrep
        -- the label for merge commits and replaced commits
        have key : ∃ e2, Good b k ee head init fin s1 e2 ∧ e2.current = e1.current ∧
            (∀ p, (AMap.get? s.parentLabels p).isSome → (AMap.get? s1.parentLabels p).isSome) ∧
            ((∃ c ∈ sortOids (k.commitsToMoveTo cur), (AMap.get? b.replacementCommits c).isSome) →
              (AMap.get? s1.parentLabels cur).isSome) := by
          rcases createParentLabel_some hcp with ⟨rfl, hno⟩ | ⟨l, s2, h2, rfl⟩
          · refine ⟨e1, hg1, rfl, fun _ h => h, ?_⟩
            rintro ⟨c, hc, hc'⟩
            exact absurd ⟨c, hc, .inr hc'⟩ hno
          · have hg2 := hg1.push_label h2
            refine ⟨_, ⟨hg2.runs, hs1, ?_, hg2.done, hg2.head1, hg2.head2⟩, rfl, ?_, by simp⟩
            · intro p x hx
              simp only [AMap.get?_insert] at hx
              split at hx
              · rename_i hpc
                cases hx
                subst hpc
                exact ⟨e1.current, by simp, hE⟩
              · exact hg2.labels p x hx
            · intro p hp
              have := (createLabel_some h2).2.2.1
              simp only [AMap.get?_insert]
              split
              · rfl
              · rw [this]; exact hp
        obtain ⟨e2, hg2, hcur, hlm, hlr⟩ := key
        have hch : ∀ c ∈ sortOids (k.commitsToMoveTo cur), Base b.env k c cur := by
          intro c hc
          rw [mem_sortOids, mem_commitsToMoveTo] at hc
          exact .inl hc
        have hrepc : ∀ (t : BuildState), (∀ p, (AMap.get? s1.parentLabels p).isSome →
            (AMap.get? t.parentLabels p).isSome) → ∀ c ∈ sortOids (k.commitsToMoveTo cur),
            ¬ IsMerge b.env c → ∀ r, AMap.get? b.replacementCommits c = some r →
            ∀ p ∈ newParents b.env c r, Rewritten k p → (AMap.get? t.parentLabels p).isSome := by
          intro t ht c hcm hm r hr' p hp hpr
          have hmv := hcm
          rw [mem_sortOids, mem_commitsToMoveTo] at hmv
          have := S.repl c r hr' (.inl ⟨cur, hmv⟩) p hp hpr
          have := S.hr.one_parent c p cur hm this hmv
          subst this
          exact ht p (hlr ⟨c, hcm, by rw [hr']; rfl⟩)
        have hE2 : EndsAt b.env k fin.rewritten cur e2.current := by rw [hcur]; exact hE
        unfold visitChildren at hv
        split at hv
        · cases hv; exact ⟨⟨e2, hg2⟩, hlm⟩
        · rename_i c hcc
          have hm : c ∈ sortOids (k.commitsToMoveTo cur) := by rw [hcc]; simp
          obtain ⟨h3, h4⟩ := ih c s1 s' e2 hv hpre hg2 ⟨cur, hch c hm, hE2⟩
            (hrepc s1 (fun _ h => h) c hm)
          exact ⟨h3, fun p hp => h4 p (hlm p hp)⟩
        · cases hcl : createLabel s1 t!"label-" with
          | none => rw [hcl] at hv; simp at hv
          | some x =>
            obtain ⟨l, s2⟩ := x
            rw [hcl] at hv
            simp only at hv
            have hg3 := hg2.push_label hcl
            obtain ⟨hs2, hls2⟩ := hs1.createLabel hcl
            have fin' := foldlM_option_inv (P := fun _ t => LInv t ∧ l ∈ labelsCreated t.acc ∧
              (t.acc <+: cmds →
                (∀ p, (AMap.get? s1.parentLabels p).isSome → (AMap.get? t.parentLabels p).isSome) ∧
                ∃ e, Good b k ee head init fin t e ∧ e.current = e2.current ∧
                  AMap.get? e.labels l = some e2.current)) ?_ ?_ hv
            · obtain ⟨_, _, h5⟩ := fin'
              obtain ⟨h6, e', h7, _⟩ := h5 hpre
              exact ⟨⟨e', h7⟩, fun p hp => h6 p (hlm p hp)⟩
            · refine ⟨hs2, hls2, fun _ => ⟨?_, _, hg3, rfl, by simp⟩⟩
              intro p hp
              rw [(createLabel_some hcl).2.2.1]
              exact hp
            · rintro pre a post t t' hsplit ⟨ht1, ht2, ht3⟩ hst
              unfold visitThenReset at hst
              cases hva : makeRebasePlanForCurrentCommit b k up n a t with
              | none => rw [hva] at hst; simp at hst
              | some t1 =>
                rw [hva] at hst
                simp only [Option.map_some, Option.some.injEq] at hst
                subst hst
                obtain ⟨ht4, ht5⟩ := linv_visit n a t t1 hva ht1
                have hlt : l ∈ labelsCreated t1.acc := labelsCreated_prefix ht5 ht2
                refine ⟨ht4.push (by simp [labelCreated]) ?_, ?_, ?_⟩
                · intro c hc l' hl'
                  simp only [List.mem_singleton] at hc
                  subst hc
                  simp only [labelsUsed, labelOf, List.filterMap_cons, List.filterMap_nil,
                    List.mem_singleton] at hl'
                  rw [hl']; exact hlt
                · exact labelsCreated_prefix (List.prefix_append _ _) hlt
                · intro hp
                  have hp1 : t1.acc <+: cmds := (List.prefix_append _ _).trans hp
                  obtain ⟨h6, e3, h7, h8, h9⟩ := ht3 (ht5.trans hp1)
                  have hm : a ∈ sortOids (k.commitsToMoveTo cur) := by rw [hsplit]; simp
                  obtain ⟨⟨e4, h10⟩, h11⟩ := ih a t t1 e3 hva hp1 h7
                    ⟨cur, hch a hm, by rw [h8]; exact hE2⟩ (hrepc t h6 a hm)
                  have h12 := h7.label_stays S h10 ht5 hp1 ht2
                  rw [h9] at h12
                  refine ⟨fun p hp => h11 p (h6 p hp), _, h10.push_reset e2.current ?_ ?_, rfl, ?_⟩
                  · simp [ExecEnv.runCommand, h12]
                  · rintro x hx; cases hx; exact hlt
                  · exact h12

/-- The whole plan. -/
theorem Sim.roots (S : Sim b k ee head cmds init fin)
    (hand : ∀ c ∈ handledCommits cmds, Rewritten k c) {st : Option Oid × BuildState}
    (hb : k.findRoots.foldlM (buildRoot b k) (none, ⟨[], [], []⟩) = .ok st)
    (hpre : st.2.acc <+: cmds) : ∃ e, Good b k ee head init fin st.2 e := by
  have := foldlM_except_inv (P := fun _ st => LInv st.2 ∧ (st.2.acc <+: cmds →
    ∃ e, Good b k ee head init fin st.2 e)) ?_ ?_ hb
  · exact this.2 hpre
  · refine ⟨linv_nil, fun _ => ⟨init, runs_nil.2 rfl, linv_nil, by simp, by simp, ?_, ?_⟩⟩
    · intro q hq; rw [S.init_skipped] at hq; simp at hq
    · simp [handledCommits]
  · rintro pre r post st st' hsplit ⟨hi, hg⟩ hr
    obtain ⟨p, ps, c, up, h1, h0, h2, -⟩ := buildRoot_ok hr
    have hmem : r ∈ k.findRoots := by rw [hsplit]; simp
    have hi2 : LInv (push st.2 [.reset (.oid p)]) :=
      hi.push (by simp [labelCreated]) (by simp [labelsUsed, labelOf])
    obtain ⟨hi3, hp3⟩ := linv_visit _ _ _ _ h2 hi2
    refine ⟨hi3, fun hp => ?_⟩
    have hp2 : st.2.acc ++ [.reset (.oid p)] <+: cmds := hp3.trans hp
    have hp1 : st.2.acc <+: cmds := (List.prefix_append _ _).trans hp2
    obtain ⟨e, hg⟩ := hg hp1
    obtain ⟨rest, hrest⟩ := hp2
    obtain ⟨hs, hready⟩ := S.ready st.2.acc p rest (by rw [← hrest]; simp)
    have key : ∃ q, ee.runCommand head e (.reset (.oid p)) = .ok { e with current := q } ∧
        EndsAt b.env k fin.rewritten p q := by
      rcases Classical.em (Rewritten k p) with hrw | hrw
      · obtain ⟨h3, h4⟩ := hready hrw
        have h5 := S.final hp1 hg.runs h3 hs
        obtain ⟨v, hv⟩ := Option.isSome_iff_exists.1 ((runs_frame hg.runs).2.2.2.2 p (.inl h3))
        rw [hv] at h5
        cases v with
        | zero => exact absurd h5 h4
        | nonZero n => exact ⟨n, by simp [ExecEnv.runCommand, hv], .new _ _ hrw hs h5⟩
      · have h3 : p ∉ handledCommits st.2.acc := by
          intro hm
          refine hrw (hand p ?_)
          rw [← hrest, handledCommits_append, handledCommits_append]
          exact List.mem_append_left _ (List.mem_append_left _ hm)
        have h4 := S.unwritten hp1 hg.runs h3 hs
        exact ⟨p, by simp [ExecEnv.runCommand, h4], .stays _ hrw⟩
    obtain ⟨q, hrun, hE⟩ := key
    have hg2 := hg.push_reset q hrun (by simp)
    refine (hg2.visit S _ c _ _ _ h2 hp ?_ ?_).1
    · refine ⟨p, ?_, hE⟩
      rcases mem_findRoots hmem with ⟨q', d, rfl, hq, hm⟩ | ⟨t, rfl, ht⟩
      · simp only [rootEdge, Except.ok.injEq, Prod.mk.injEq, List.cons.injEq] at h1
        obtain ⟨⟨rfl, _⟩, rfl⟩ := h1
        exact .inl hm
      · simp only [rootEdge, Except.ok.injEq, Prod.mk.injEq] at h1
        obtain ⟨h1, rfl⟩ := h1
        obtain ⟨h5, h6⟩ := (mem_unconstrainedFixup S.hw).1 ht
        exact .inr ⟨h5, h6, by rw [h1]; rfl⟩
    · intro hm rr hrr x hx hxr
      rcases mem_findRoots hmem with ⟨q', d, rfl, hq, hmv⟩ | ⟨t, rfl, ht⟩
      · simp only [rootEdge, Except.ok.injEq, Prod.mk.injEq, List.cons.injEq] at h1
        obtain ⟨⟨rfl, _⟩, rfl⟩ := h1
        have h5 := S.repl d rr hrr (.inl ⟨q', hmv⟩) x hx hxr
        have h6 := S.hr.one_parent d x q' hm h5 hmv
        subst h6
        exact absurd hxr ((mem_unconstrainedNodes S.hw).1 hq).2
      · simp only [rootEdge, Except.ok.injEq, Prod.mk.injEq] at h1
        obtain ⟨h1, rfl⟩ := h1
        obtain ⟨h5, h6⟩ := (mem_unconstrainedFixup S.hw).1 ht
        exact absurd ⟨x, S.repl t rr hrr (.inr h5) x hx hxr⟩ h6

end Verif.Spec
