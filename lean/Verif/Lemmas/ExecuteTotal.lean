import Verif.Lemmas.Execute

namespace Verif.Spec

open Verif Verif.Constraints Verif.RebasePlanBuilder

theorem find_isSome_of_commits {ee : ExecEnv} {cr : List (Oid × CommitData)} {o : Oid} {d : CommitData}
    (h : ee.commits o = some d) : (ee.find cr o).isSome := by
  unfold ExecEnv.find
  cases AMap.get? cr o with
  | none => rw [h]; rfl
  | some d => rfl

theorem find_isSome_append {ee : ExecEnv} {cr new : List (Oid × CommitData)} {o : Oid}
    (h : (ee.find cr o).isSome) : (ee.find (new ++ cr) o).isSome := by
  induction new with
  | nil => exact h
  | cons x new ih =>
    unfold ExecEnv.find at ih ⊢
    obtain ⟨a, d⟩ := x
    rw [List.cons_append, AMap.get?_cons]
    by_cases ha : a = o
    · simp [ha]
    · simp only [ha, if_false]; exact ih

/-- The objects which the variables refer to exist; the labels are those created. -/
structure Alive (ee : ExecEnv) (pre : List RebaseCommand) (e : ExecState) : Prop where
  current : (ee.find e.created e.current).isSome
  labels : ∀ l o, AMap.get? e.labels l = some o → (ee.find e.created o).isSome
  created : ∀ l ∈ labelsCreated pre, (AMap.get? e.labels l).isSome
  made : ∀ x ∈ e.created, ee.createCommit x.2 = some x.1 ∧ x.2.message.isSome
  rewritten : ∀ c n, AMap.get? e.rewritten c = some (.nonZero n) → (ee.find e.created n).isSome

theorem find_head {ee : ExecEnv} {cr : List (Oid × CommitData)} {o : Oid} {d : CommitData} :
    (ee.find ((o, d) :: cr) o).isSome := by
  unfold ExecEnv.find
  simp [AMap.get?_cons]

theorem find_mem {ee : ExecEnv} {cr : List (Oid × CommitData)} {o : Oid} {d : CommitData}
    (h : (o, d) ∈ cr) : (ee.find cr o).isSome := by
  obtain ⟨a, c, rfl⟩ := List.append_of_mem h
  exact find_isSome_append find_head

theorem find_cases {ee : ExecEnv} {cr : List (Oid × CommitData)} {o : Oid} {d : CommitData}
    (h : ee.find cr o = some d) : (o, d) ∈ cr ∨ ee.commits o = some d := by
  unfold ExecEnv.find at h
  split at h
  · rename_i d' hd
    cases h
    exact .inl (AMap.mem_of_get? hd)
  · exact .inr h

/-- The loop of a pick. -/
theorem pickLoop_total {ee : ExecEnv} {cmds : List RebaseCommand} (W : Works ee cmds) {cur : Oid}
    {mk : Nat → CommitData} {l : List Oid} {cr : List (Oid × CommitData)}
    (hmk : ∀ t, (mk t).message.isSome)
    (hcr : ∀ x ∈ cr, ee.createCommit x.2 = some x.1 ∧ x.2.message.isSome)
    (hl : ∀ c ∈ l, ∃ d, ee.commits c = some d) (r : Option (Oid × CommitData)) :
    (∃ info, l.foldlM (ee.pickOne cur mk) ⟨r, cr⟩ = .error (.mergeFailed info) ∧
      HonestFailure ee cmds info) ∨
    ∃ s', l.foldlM (ee.pickOne cur mk) ⟨r, cr⟩ = .ok s' ∧
      (∀ x ∈ s'.created, ee.createCommit x.2 = some x.1 ∧ x.2.message.isSome) ∧
      (l ≠ [] ∨ r.isSome → s'.rebased.isSome) := by
  induction l generalizing r cr with
  | nil => exact .inr ⟨_, rfl, hcr, by simp⟩
  | cons c l ih =>
    rw [List.foldlM_cons]
    obtain ⟨d0, hd0⟩ := hl c (by simp)
    obtain ⟨d, hd⟩ := Option.isSome_iff_exists.1 (find_isSome_of_commits (cr := cr) hd0)
    by_cases hp : d.parents.length > 1
    · left
      refine ⟨.cannotRebaseMergeInMemory c, ?_, .inr ⟨d, ?_, hp⟩⟩
      · have : ee.pickOne cur mk ⟨r, cr⟩ c = .error (.mergeFailed (.cannotRebaseMergeInMemory c)) := by
          simp [ExecEnv.pickOne, hd, hp]
        rw [this]; rfl
      · rcases find_cases hd with h | h
        · exact .inr (hcr _ h).1
        · exact .inl h
    · generalize hm : (match r with
        | none => ee.cherryPickFast c cur
        | some r => ee.amendFast r.1 c) = m
      have hone : ee.pickOne cur mk ⟨r, cr⟩ c = match (generalizing := false) m with
          | .error (.conflict paths) => .error (.mergeFailed (.conflict c paths))
          | .error .other => .error .error
          | .ok tree =>
            match ee.createCommit (mk tree) with
            | none => .error .error
            | some o => .ok ⟨some (o, mk tree), (o, mk tree) :: cr⟩ := by
        cases r <;> (subst hm; simp only [ExecEnv.pickOne, hd, hp, if_false]; rfl)
      rw [hone]
      cases m with
      | error x =>
        cases x with
        | other =>
          exfalso
          cases r with
          | none => exact W.pick _ _ hm
          | some r => exact W.amend _ _ hm
        | conflict paths =>
          left
          refine ⟨.conflict c paths, rfl, ?_⟩
          cases r with
          | none => exact .inl ⟨_, hm⟩
          | some r => exact .inr ⟨_, hm⟩
      | ok tree =>
        obtain ⟨o, ho⟩ := Option.isSome_iff_exists.1 (W.write (mk tree))
        simp only [ho]
        have := ih (cr := (o, mk tree) :: cr) (fun x hx => by
          rcases List.mem_cons.1 hx with rfl | hx
          · exact ⟨ho, hmk tree⟩
          · exact hcr x hx) (fun c hc => hl c (List.mem_cons_of_mem _ hc)) (some (o, mk tree))
        rcases this with h | ⟨s', h1, h2, h3⟩
        · exact .inl h
        · exact .inr ⟨s', h1, h2, fun _ => h3 (.inr rfl)⟩

theorem replaceParents_total {ee : ExecEnv} {e : ExecState} {ps : List OidOrLabel}
    (h : ∀ p ∈ ps, (∃ o, p = .oid o ∧ (ee.find e.created o).isSome) ∨
      ∃ l o, p = .label l ∧ AMap.get? e.labels l = some o ∧ (ee.find e.created o).isSome) :
    ∃ os, ps.mapM (ee.replaceParent e) = .ok os := by
  induction ps with
  | nil => exact ⟨[], rfl⟩
  | cons p ps ih =>
    obtain ⟨os, hos⟩ := ih fun p hp => h p (List.mem_cons_of_mem _ hp)
    have : ∃ o, ee.replaceParent e p = .ok o := by
      rcases h p (by simp) with ⟨o, rfl, ho⟩ | ⟨l, o, rfl, hl, ho⟩
      · obtain ⟨d, hd⟩ := Option.isSome_iff_exists.1 ho
        exact ⟨o, by simp [ExecEnv.replaceParent, hd]⟩
      · obtain ⟨d, hd⟩ := Option.isSome_iff_exists.1 ho
        exact ⟨o, by simp [ExecEnv.replaceParent, hl, hd]⟩
    obtain ⟨o, ho⟩ := this
    refine ⟨o :: os, ?_⟩
    rw [List.mapM_cons, ho]
    show (do let ys ← ps.mapM (ee.replaceParent e); pure (o :: ys)) = _
    rw [hos]; rfl

theorem alive_frame {ee : ExecEnv} {pre : List RebaseCommand} {cmd : RebaseCommand}
    {e e' : ExecState} (A : Alive ee pre e) (hl : labelCreated cmd = none)
    (hlab : e'.labels = e.labels) (hcr : ∃ new, e'.created = new ++ e.created)
    (hmade : ∀ x ∈ e'.created, ee.createCommit x.2 = some x.1 ∧ x.2.message.isSome)
    (hcur : (ee.find e'.created e'.current).isSome)
    (hrew : ∀ c n, AMap.get? e'.rewritten c = some (.nonZero n) →
      n = e'.current ∨ AMap.get? e.rewritten c = some (.nonZero n)) :
    Alive ee (pre ++ [cmd]) e' := by
  obtain ⟨new, hnew⟩ := hcr
  refine ⟨hcur, ?_, ?_, hmade, ?_⟩
  · intro l o ho
    rw [hlab] at ho
    rw [hnew]
    exact find_isSome_append (A.labels l o ho)
  · intro l hl'
    rw [hlab]
    refine A.created l ?_
    unfold labelsCreated at hl' ⊢
    rw [List.filterMap_append] at hl'
    simpa [hl] using hl'
  · intro c n hn
    rcases hrew c n hn with rfl | h
    · exact hcur
    · rw [hnew]; exact find_isSome_append (A.rewritten c n h)

/-- One command. -/
theorem runCommand_total {ee : ExecEnv} {cmds : List RebaseCommand} (W : Works ee cmds)
    {head : Option Oid} {pre : List RebaseCommand} {cmd : RebaseCommand} (hmem : cmd ∈ cmds)
    (hused : ∀ l ∈ labelsUsed cmd, l ∈ labelsCreated pre) (hbreak : cmd ≠ .break)
    (hpick : ∀ c l, cmd = .pick c l → l ≠ []) {e : ExecState} (A : Alive ee pre e) :
    (∃ info, ee.runCommand head e cmd = .error (.mergeFailed info) ∧ HonestFailure ee cmds info) ∨
    ∃ e', ee.runCommand head e cmd = .ok e' ∧ Alive ee (pre ++ [cmd]) e' := by
  have hex := W.exist cmd hmem
  cases cmd with
  | createLabel l =>
    refine .inr ⟨_, rfl, A.current, ?_, ?_, A.made, A.rewritten⟩
    · intro l' o ho
      simp only [AMap.get?_insert] at ho
      split at ho
      · cases ho; exact A.current
      · exact A.labels l' o ho
    · intro l' hl'
      unfold labelsCreated at hl'
      rw [List.filterMap_append] at hl'
      simp only [AMap.get?_insert]
      split
      · rfl
      · rename_i hne
        rcases List.mem_append.1 hl' with hl' | hl'
        · exact A.created l' hl'
        · simp only [List.filterMap_cons, labelCreated, List.filterMap_nil, List.mem_singleton] at hl'
          exact absurd hl'.symm hne
  | reset t =>
    right
    cases t with
    | label l =>
      have := hused l (by simp [labelsUsed, labelOf])
      obtain ⟨o, ho⟩ := Option.isSome_iff_exists.1 (A.created l this)
      exact ⟨{ e with current := o }, by simp [ExecEnv.runCommand, ho],
        alive_frame A rfl rfl ⟨[], rfl⟩ A.made (A.labels l o ho) fun c n h => .inr h⟩
    | oid p =>
      obtain ⟨d, hd⟩ := hex p (by simp [mentions])
      have hp : (ee.find e.created p).isSome := find_isSome_of_commits hd
      cases hr : AMap.get? e.rewritten p with
      | none => exact ⟨{ e with current := p }, by simp [ExecEnv.runCommand, hr],
          alive_frame A rfl rfl ⟨[], rfl⟩ A.made hp fun c n h => .inr h⟩
      | some v =>
        cases v with
        | zero => exact ⟨{ e with current := p }, by simp [ExecEnv.runCommand, hr],
            alive_frame A rfl rfl ⟨[], rfl⟩ A.made hp fun c n h => .inr h⟩
        | nonZero n => exact ⟨{ e with current := n }, by simp [ExecEnv.runCommand, hr],
            alive_frame A rfl rfl ⟨[], rfl⟩ A.made (A.rewritten p n hr) fun c n h => .inr h⟩
  | pick c l =>
    obtain ⟨dc, hdc⟩ := hex c (by simp [mentions])
    have hmsg := W.message _ hmem c (by simp [messageFrom]) dc hdc
    obtain ⟨cur, hcur⟩ := Option.isSome_iff_exists.1 A.current
    obtain ⟨orig, horig⟩ := Option.isSome_iff_exists.1 (find_isSome_of_commits (cr := e.created) hdc)
    have hom : orig.message.isSome := by
      rcases find_cases horig with h | h
      · exact (A.made _ h).2
      · rw [hdc] at h; cases h; exact hmsg
    obtain ⟨msg, hmsg'⟩ := Option.isSome_iff_exists.1 hom
    let mk := fun tree => (⟨[e.current], tree, some msg, orig.author, orig.committer,
        ee.newTime orig.time⟩ : CommitData)
    have hloop := pickLoop_total W (cur := e.current) (mk := mk) (l := l) (cr := e.created)
      (fun t => rfl) A.made (fun x hx => by
        obtain ⟨d, hd⟩ := hex x (by simp [mentions, hx])
        exact ⟨d, hd⟩) none
    have hun : ee.runCommand head e (.pick c l) =
        match l.foldlM (ee.pickOne e.current mk) ⟨none, e.created⟩ with
        | .error e => .error e
        | .ok ⟨none, _⟩ => .error .panic
        | .ok ⟨some (o, d), created⟩ =>
          if d.tree = cur.tree then
            .ok { e with
              rewritten := AMap.insert e.rewritten c .zero
              skippedHead := ExecEnv.setSkippedHead head e.skippedHead c e.current
              created := created }
          else
            .ok { e with
              current := o
              rewritten := l.foldl (fun m x => AMap.insert m x (.nonZero o))
                (AMap.insert e.rewritten c (.nonZero o))
              created := created } := by
      simp only [ExecEnv.runCommand, ExecEnv.runPick, hcur, horig, hmsg']
      rfl
    rw [hun]
    rcases hloop with ⟨info, h1, h2⟩ | ⟨s', h1, h2, h3⟩
    · rw [h1]
      exact .inl ⟨info, rfl, h2⟩
    · right
      obtain ⟨⟨o, d⟩, hr⟩ := Option.isSome_iff_exists.1 (h3 (.inl (hpick c l rfl)))
      obtain ⟨⟨new, hnew, _⟩, hspec⟩ := pickLoop_spec h1
      obtain ⟨rb, cr⟩ := s'
      simp only at hr h2 hnew hspec
      subst hr
      rw [h1]
      simp only
      have hod := (hspec (o, d) rfl).1
      split
      · refine ⟨_, rfl, alive_frame A rfl rfl ⟨new, hnew⟩ h2 ?_ ?_⟩
        · simp only
          rw [hnew]; exact find_isSome_append A.current
        · intro x n hn
          simp only [AMap.get?_insert] at hn
          split at hn
          · simp at hn
          · exact .inr hn
      · refine ⟨_, rfl, alive_frame A rfl rfl ⟨new, hnew⟩ h2 (find_mem hod) ?_⟩
        intro x n hn
        simp only [get?_foldl_insert, AMap.get?_insert] at hn
        split at hn
        · cases hn; exact .inl rfl
        · split at hn
          · cases hn; exact .inl rfl
          · exact .inr hn
  | merge c ps =>
    exact .inl ⟨_, rfl, .inl ⟨ps, hmem⟩⟩
  | replace c r ps =>
    right
    obtain ⟨dc, hdc⟩ := hex c (by simp [mentions])
    obtain ⟨dr, hdr⟩ := hex r (by simp [mentions])
    have hmsg := W.message _ hmem r (by simp [messageFrom]) dr hdr
    obtain ⟨orig, horig⟩ := Option.isSome_iff_exists.1 (find_isSome_of_commits (cr := e.created) hdc)
    obtain ⟨rep, hrep⟩ := Option.isSome_iff_exists.1 (find_isSome_of_commits (cr := e.created) hdr)
    have hom : rep.message.isSome := by
      rcases find_cases hrep with h | h
      · exact (A.made _ h).2
      · rw [hdr] at h; cases h; exact hmsg
    obtain ⟨msg, hmsg'⟩ := Option.isSome_iff_exists.1 hom
    have hps : ∀ p ∈ ps, (∃ o, p = .oid o ∧ (ee.find e.created o).isSome) ∨
        ∃ l o, p = .label l ∧ AMap.get? e.labels l = some o ∧ (ee.find e.created o).isSome := by
      intro p hp
      cases p with
      | oid o =>
        obtain ⟨d, hd⟩ := hex o (by
          simp only [mentions, List.mem_cons, List.mem_filterMap]
          exact .inr (.inr ⟨_, hp, rfl⟩))
        exact .inl ⟨o, rfl, find_isSome_of_commits hd⟩
      | label l =>
        have := hused l (by
          simp only [labelsUsed, List.mem_filterMap]
          exact ⟨_, hp, rfl⟩)
        obtain ⟨o, ho⟩ := Option.isSome_iff_exists.1 (A.created l this)
        exact .inr ⟨l, o, rfl, ho, A.labels l o ho⟩
    obtain ⟨os, hos⟩ := replaceParents_total hps
    obtain ⟨n, hn⟩ := Option.isSome_iff_exists.1 (W.write
      ⟨os, rep.tree, some msg, rep.author, rep.committer, ee.newTime rep.time⟩)
    refine ⟨{ e with
        current := n
        rewritten := AMap.insert e.rewritten c (.nonZero n)
        created := (n, ⟨os, rep.tree, some msg, rep.author, rep.committer, ee.newTime rep.time⟩) ::
          e.created }, ?_, ?_⟩
    · simp [ExecEnv.runCommand, ExecEnv.runReplace, horig, hrep, hmsg', hos, hn]
    · refine alive_frame A rfl rfl ⟨[_], rfl⟩ ?_ find_head ?_
      · intro x hx
        rcases List.mem_cons.1 hx with rfl | hx
        · exact ⟨hn, rfl⟩
        · exact A.made x hx
      · intro x m hm
        simp only [AMap.get?_insert] at hm
        split at hm
        · cases hm; exact .inl rfl
        · exact .inr hm
  | «break» => exact absurd rfl hbreak
  | registerExtraPostRewriteHook =>
    exact .inr ⟨e, rfl, alive_frame A rfl rfl ⟨[], rfl⟩ A.made A.current fun c n h => .inr h⟩
  | detectEmptyCommit c =>
    exact .inr ⟨e, rfl, alive_frame A rfl rfl ⟨[], rfl⟩ A.made A.current fun c n h => .inr h⟩
  | skipUpstreamAppliedCommit c =>
    right
    obtain ⟨dc, hdc⟩ := hex c (by simp [mentions])
    obtain ⟨orig, horig⟩ := Option.isSome_iff_exists.1 (find_isSome_of_commits (cr := e.created) hdc)
    refine ⟨{ e with
        rewritten := AMap.insert e.rewritten c .zero
        skippedHead := ExecEnv.setSkippedHead head e.skippedHead c e.current },
      by simp [ExecEnv.runCommand, horig], alive_frame A rfl rfl ⟨[], rfl⟩ A.made A.current ?_⟩
    intro x n hn
    simp only [AMap.get?_insert] at hn
    split at hn
    · simp at hn
    · exact .inr hn

/-- The loop over the commands. -/
theorem runs_total {ee : ExecEnv} {cmds : List RebaseCommand} (W : Works ee cmds)
    {head : Option Oid} (hused : Before LabelsBefore cmds) (hbreak : .break ∉ cmds)
    (hpick : ∀ c, .pick c [] ∉ cmds) {pre post : List RebaseCommand} (hs : cmds = pre ++ post)
    {e : ExecState} (A : Alive ee pre e) :
    (∃ info, post.foldlM (ee.runCommand head) e = .error (.mergeFailed info) ∧
      HonestFailure ee cmds info) ∨
    ∃ e', post.foldlM (ee.runCommand head) e = .ok e' := by
  induction post generalizing pre e with
  | nil => exact .inr ⟨e, rfl⟩
  | cons cmd post ih =>
    have hmem : cmd ∈ cmds := by rw [hs]; simp
    rw [List.foldlM_cons]
    rcases runCommand_total W (head := head) hmem (hused pre cmd post hs)
      (fun h => hbreak (h ▸ hmem)) (fun c l h hl => hpick c (by rw [← hl, ← h]; exact hmem)) A with
      ⟨info, h1, h2⟩ | ⟨e1, h1, h2⟩
    · rw [h1]; exact .inl ⟨info, rfl, h2⟩
    · rw [h1]
      exact ih (by rw [hs]; simp) h2

end Verif.Spec
