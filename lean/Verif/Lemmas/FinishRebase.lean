import Verif.Spec.FinishRebase
import Verif.Lemmas.PlanLabels

namespace Verif.Spec

open Verif

/-- Both ways in which a fold can end. -/
theorem foldlM_except_cases {σ α ε : Type} {f : σ → α → Except ε σ} {l : List α}
    (P : List α → σ → Prop) (Q : ε → Prop) {s : σ} (h0 : P [] s)
    (hstep : ∀ pre a post s, l = pre ++ a :: post → P pre s →
      (∃ s', f s a = .ok s' ∧ P (pre ++ [a]) s') ∨ ∃ e, f s a = .error e ∧ Q e) :
    (∃ s', l.foldlM f s = .ok s' ∧ P l s') ∨ ∃ e, l.foldlM f s = .error e ∧ Q e := by
  have key : ∀ (post pre : List α) (s : σ), l = pre ++ post → P pre s →
      (∃ s', post.foldlM f s = .ok s' ∧ P l s') ∨ ∃ e, post.foldlM f s = .error e ∧ Q e := by
    intro post
    induction post with
    | nil =>
      intro pre s hl hp
      exact .inl ⟨s, rfl, by simpa [hl] using hp⟩
    | cons a post ih =>
      intro pre s hl hp
      rw [List.foldlM_cons]
      rcases hstep pre a post s hl hp with ⟨s', h1, h2⟩ | ⟨e, h1, h2⟩
      · rw [h1]
        exact ih (pre ++ [a]) s' (by simp [hl]) h2
      · rw [h1]
        exact .inr ⟨e, rfl, h2⟩
  exact key l [] s rfl h0

theorem isBranch_iff {name : Text} : (categorize name).isLocalBranch = true ↔ IsBranch name := by
  unfold categorize IsBranch
  rw [← List.isPrefixOf_iff_prefix]
  split
  · rename_i h; simp [RefCategory.isLocalBranch, h]
  · rename_i h
    split <;> simp [RefCategory.isLocalBranch, h]

theorem stripPrefix?_append (p s : Text) : stripPrefix? p (p ++ s) = some s := by
  induction p with
  | nil => cases s <;> rfl
  | cons a p ih => simp [stripPrefix?, ih]

theorem categorize_branch {name : Text} (h : IsBranch name) : categorize name = .localBranch name := by
  unfold categorize
  rw [if_pos (List.isPrefixOf_iff_prefix.2 h)]

theorem branch_suffix {name : Text} (h : IsBranch name) :
    t!"refs/heads/" ++ (categorize name).renderSuffix = name := by
  rw [categorize_branch h]
  obtain ⟨t, rfl⟩ := h
  unfold RefCategory.renderSuffix
  simp only [RefCategory.pfx, RefCategory.renderFull]
  rw [stripPrefix?_append]
  rfl

theorem mem_localBranches {refs : Refs} {name : Text} {o : Oid} :
    (name, o) ∈ localBranches refs ↔ (name, o) ∈ refs ∧ IsBranch name := by
  unfold localBranches
  rw [List.mem_filter]
  simp only [isBranch_iff]

theorem mem_namesAt {refs : Refs} (hw : AMap.WF refs) {o : Oid} {name : Text} :
    name ∈ namesAt refs o ↔ IsBranch name ∧ refs.get? name = some o := by
  unfold namesAt
  rw [List.mem_insertionSort, List.mem_map]
  constructor
  · rintro ⟨⟨n, o'⟩, h, rfl⟩
    rw [List.mem_filter] at h
    obtain ⟨h1, h2⟩ := h
    have := mem_localBranches.1 h1
    simp only [decide_eq_true_eq] at h2
    subst h2
    exact ⟨this.2, AMap.get?_of_mem hw this.1⟩
  · rintro ⟨h1, h2⟩
    refine ⟨(name, o), ?_, rfl⟩
    rw [List.mem_filter]
    exact ⟨mem_localBranches.2 ⟨AMap.mem_of_get? h2, h1⟩, by simp⟩

theorem nodup_namesAt {refs : Refs} (hw : AMap.WF refs) (o : Oid) : (namesAt refs o).Nodup := by
  unfold namesAt
  rw [(List.perm_insertionSort _ _).nodup_iff]
  unfold AMap.WF AMap.keys at hw
  exact (hw.sublist ((List.filter_sublist.trans List.filter_sublist).map _))

theorem mem_branchOids {refs : Refs} (hw : AMap.WF refs) {o : Oid} :
    o ∈ branchOids refs ↔ ∃ name, IsBranch name ∧ refs.get? name = some o := by
  unfold branchOids
  rw [List.mem_dedup, List.mem_map]
  constructor
  · rintro ⟨⟨n, o'⟩, h, rfl⟩
    have := mem_localBranches.1 h
    exact ⟨n, this.2, AMap.get?_of_mem hw this.1⟩
  · rintro ⟨name, h1, h2⟩
    exact ⟨(name, o), mem_localBranches.2 ⟨AMap.mem_of_get? h2, h1⟩, rfl⟩

/-! ### moving branches -/

/-- What holds during `moveBranches`. -/
structure MoveInv (env : MoveEnv) (refs : Refs) (rewritten : AMap Oid MaybeZero) (s : MoveState) :
    Prop where
  wf : AMap.WF s.refs
  truthful : TruthfulMoves refs.get? s.refs.get? s.moves
  branch : ∀ m ∈ s.moves, IsBranch m.2.2
  after : ∀ m ∈ s.moves, m.2.1.toOption =
    BranchAfter env.mainBranch (upstreamOf env) rewritten.get? m.2.2 m.1
  rewritten : ∀ m ∈ s.moves, (rewritten.get? m.1).isSome
  sub : ∀ a, (s.refs.get? a).isSome → (refs.get? a).isSome

def stopInv (P Q : MoveState → Prop) : MoveStop → Prop
  | .stopped s => P s
  | .aborted s => Q s

theorem MoveInv.push {env : MoveEnv} {refs : Refs} {rewritten : AMap Oid MaybeZero} {s : MoveState}
    (h : MoveInv env refs rewritten s) {name : Text} {old : Oid} {new : MaybeZero} {refs' : Refs}
    (hb : IsBranch name) (hold : refs.get? name = some old)
    (hnew : name ∉ s.moves.map fun m => m.2.2) (hrw : (rewritten.get? old).isSome)
    (ha : new.toOption = BranchAfter env.mainBranch (upstreamOf env) rewritten.get? name old)
    (hwf : AMap.WF refs')
    (hget : ∀ x, refs'.get? x = if x = name then new.toOption else s.refs.get? x) :
    MoveInv env refs rewritten ⟨refs', s.moves ++ [(old, new, name)]⟩ := by
  have ht := h.truthful
  refine ⟨hwf, ⟨?_, ?_, ?_⟩, ?_, ?_, ?_, ?_⟩
  · intro o n x hx
    simp only [List.mem_append, List.mem_singleton, Prod.mk.injEq] at hx
    rcases hx with hx | ⟨rfl, rfl, rfl⟩
    · have hne : x ≠ name := by
        rintro rfl
        exact hnew (List.mem_map.2 ⟨_, hx, rfl⟩)
      obtain ⟨h1, h2⟩ := ht.happened o n x hx
      exact ⟨h1, by rw [hget, if_neg hne]; exact h2⟩
    · exact ⟨hold, by rw [hget, if_pos rfl]⟩
  · simp only [List.map_append, List.map_cons, List.map_nil]
    rw [List.nodup_append]
    refine ⟨ht.once, by simp, ?_⟩
    intro a ha b hb'
    simp only [List.mem_singleton] at hb'
    rintro rfl
    exact hnew (hb' ▸ ha)
  · intro x hx
    simp only [List.map_append, List.map_cons, List.map_nil, List.mem_append, List.mem_singleton,
      not_or] at hx
    rw [hget, if_neg hx.2]
    exact ht.others x hx.1
  · intro m hm
    rcases List.mem_append.1 hm with hm | hm
    · exact h.branch m hm
    · simp only [List.mem_singleton] at hm; subst hm; exact hb
  · intro m hm
    rcases List.mem_append.1 hm with hm | hm
    · exact h.after m hm
    · simp only [List.mem_singleton] at hm; subst hm; exact ha
  · intro m hm
    rcases List.mem_append.1 hm with hm | hm
    · exact h.rewritten m hm
    · simp only [List.mem_singleton] at hm; subst hm; exact hrw
  · intro a haa
    rw [hget] at haa
    split at haa
    · rename_i he; rw [he, hold]; rfl
    · exact h.sub a haa

/-- One branch. -/
theorem MoveInv.one {env : MoveEnv} {refs : Refs} {rewritten : AMap Oid MaybeZero} {s : MoveState}
    (h : MoveInv env refs rewritten s) {name : Text} {old : Oid} {new : MaybeZero}
    (hb : IsBranch name) (hold : refs.get? name = some old)
    (hnew : name ∉ s.moves.map fun m => m.2.2) (hrw : rewritten.get? old = some new) :
    (∃ s' n', moveOne env old new s name = .ok s' ∧ MoveInv env refs rewritten s' ∧
      s'.moves = s.moves ++ [(old, n', name)]) ∨
    (∃ e, moveOne env old new s name = .error e ∧
      stopInv (fun s => MoveInv env refs rewritten s)
        (fun s => MoveInv env refs rewritten s ∧ ((∃ e, env.upstreamTarget = .error e))) e ∧
      (ValidRefs refs → env.refuses name = false → ∃ e, env.upstreamTarget = .error e)) := by
  have hcur : s.refs.get? name = some old := by rw [h.truthful.others name hnew, hold]
  have hsome : (rewritten.get? old).isSome := by rw [hrw]; rfl
  have hmove : ∀ n, (MaybeZero.nonZero n).toOption =
        BranchAfter env.mainBranch (upstreamOf env) rewritten.get? name old →
      (∃ s' n', moveReference env old s name n = .ok s' ∧ MoveInv env refs rewritten s' ∧
        s'.moves = s.moves ++ [(old, n', name)]) ∨
      (∃ e, moveReference env old s name n = .error e ∧
        stopInv (fun s => MoveInv env refs rewritten s)
          (fun s => MoveInv env refs rewritten s ∧ ((∃ e, env.upstreamTarget = .error e))) e ∧
        (ValidRefs refs → env.refuses name = false → ∃ e, env.upstreamTarget = .error e)) := by
    intro n hn
    unfold moveReference
    by_cases hr : env.refuses name = true
    · rw [if_pos hr]
      exact .inr ⟨_, rfl, h, by simp [hr]⟩
    rw [if_neg hr]
    unfold createReference
    by_cases hp : s.refs.keys.any (pathConflict name) = true
    · rw [if_pos hp]
      refine .inr ⟨_, rfl, h, fun hv _ => ?_⟩
      rw [List.any_eq_true] at hp
      obtain ⟨x, hx, hc⟩ := hp
      rw [AMap.mem_keys_iff] at hx
      rw [hv.paths name x (by rw [hold]; rfl) (h.sub x hx)] at hc
      simp at hc
    · rw [if_neg hp]
      refine .inl ⟨_, _, rfl, h.push hb hold hnew hsome hn (AMap.wf_insert h.wf _ _) ?_, rfl⟩
      intro x
      rw [AMap.get?_insert]
      by_cases hx : x = name
      · subst hx; simp
      · simp [hx, Ne.symm hx]
  have hdel : MaybeZero.zero.toOption =
        BranchAfter env.mainBranch (upstreamOf env) rewritten.get? name old →
      (∃ s' n', deleteBranch env old s name = .ok s' ∧ MoveInv env refs rewritten s' ∧
        s'.moves = s.moves ++ [(old, n', name)]) ∨
      (∃ e, deleteBranch env old s name = .error e ∧
        stopInv (fun s => MoveInv env refs rewritten s)
          (fun s => MoveInv env refs rewritten s ∧ ((∃ e, env.upstreamTarget = .error e))) e ∧
        (ValidRefs refs → env.refuses name = false → ∃ e, env.upstreamTarget = .error e)) := by
    intro hn
    unfold deleteBranch
    by_cases hr : env.refuses name = true
    · rw [if_pos hr]
      exact .inr ⟨_, rfl, h, by simp [hr]⟩
    rw [if_neg hr]
    refine .inl ⟨_, _, rfl, h.push hb hold hnew hsome hn (AMap.wf_erase h.wf _) ?_, rfl⟩
    intro x
    unfold deleteReference
    rw [AMap.get?_erase]
    by_cases hx : x = name
    · subst hx; simp
    · simp [hx, Ne.symm hx]
  cases new with
  | nonZero n =>
    simp only [moveOne]
    exact hmove n (by unfold BranchAfter; rw [hrw]; rfl)
  | zero =>
    simp only [moveOne]
    by_cases hm : name = env.mainBranch
    · rw [if_pos hm]
      cases hu : env.upstreamTarget with
      | error e => exact .inr ⟨_, rfl, ⟨h, e, rfl⟩, fun _ _ => ⟨e, rfl⟩⟩
      | ok u =>
        rw [hu] at hmove hdel
        cases u with
        | some t =>
          simp only
          exact hmove t (by unfold BranchAfter upstreamOf; rw [hrw, hu]; simp [hm])
        | none =>
          simp only
          rw [← hm, hcur]
          simp only
          exact hdel (by unfold BranchAfter upstreamOf; rw [hrw, hu]; simp [hm])
    · rw [if_neg hm, branch_suffix hb, hcur, categorize_branch hb]
      simp only
      exact hdel (by unfold BranchAfter; rw [hrw]; simp [hm])

/-- What holds if the loop is left early. -/
def Stopped (env : MoveEnv) (refs : Refs) (rewritten : AMap Oid MaybeZero) (e : MoveStop) : Prop :=
  stopInv (fun s => MoveInv env refs rewritten s)
    (fun s => MoveInv env refs rewritten s ∧ ((∃ e, env.upstreamTarget = .error e))) e ∧
  (MoveWorks env refs rewritten → ∃ e, env.upstreamTarget = .error e)

theorem MoveInv.names {env : MoveEnv} {refs : Refs} {rewritten : AMap Oid MaybeZero} {s : MoveState}
    (hw : AMap.WF refs) {old : Oid} {new : MaybeZero} (hrw : rewritten.get? old = some new)
    (h : MoveInv env refs rewritten s)
    (hfresh : ∀ m ∈ s.moves, m.1 ≠ old) :
    (∃ s', (namesAt refs old).foldlM (moveOne env old new) s = .ok s' ∧
      MoveInv env refs rewritten s' ∧
      ∀ x, x ∈ (s'.moves.map fun m => m.2.2) ↔
        x ∈ (s.moves.map fun m => m.2.2) ∨ (IsBranch x ∧ refs.get? x = some old)) ∨
    ∃ e, (namesAt refs old).foldlM (moveOne env old new) s = .error e ∧ Stopped env refs rewritten e := by
  have hf : ∀ x, refs.get? x = some old → x ∉ s.moves.map fun m => m.2.2 := by
    intro x hx hm
    obtain ⟨m, hm', rfl⟩ := List.mem_map.1 hm
    have := (h.truthful.happened m.1 m.2.1 m.2.2 hm').1
    rw [hx] at this
    exact hfresh m hm' (by injection this with this; exact this.symm)
  have hnd := nodup_namesAt hw old
  rcases foldlM_except_cases (f := moveOne env old new) (l := namesAt refs old) (s := s)
    (fun pre s' => MoveInv env refs rewritten s' ∧ ∀ x, x ∈ (s'.moves.map fun m => m.2.2) ↔
        x ∈ (s.moves.map fun m => m.2.2) ∨ x ∈ pre)
    (Stopped env refs rewritten) ⟨h, by simp⟩ (by
      intro pre name post s' hl ⟨h1, h2⟩
      have hmem : name ∈ namesAt refs old := by rw [hl]; simp
      obtain ⟨hb, hold⟩ := (mem_namesAt hw).1 hmem
      have hnew : name ∉ s'.moves.map fun m => m.2.2 := by
        rw [h2]
        rintro (hx | hx)
        · exact hf name hold hx
        · rw [hl, List.nodup_append] at hnd
          exact hnd.2.2 name hx name (by simp) rfl
      rcases h1.one hb hold hnew hrw with ⟨s'', n', h3, h4, h5⟩ | ⟨e, h3, h4, h5⟩
      · refine .inl ⟨s'', h3, h4, ?_⟩
        intro x
        rw [h5]
        simp only [List.map_append, List.map_cons, List.map_nil, List.mem_append,
          List.mem_singleton, h2]
        tauto
      · exact .inr ⟨e, h3, h4, fun hv => h5 hv.valid (hv.accepts name hb)⟩) with
    ⟨s', h1, h2, h3⟩ | h1
  · refine .inl ⟨s', h1, h2, fun x => ?_⟩
    rw [h3, mem_namesAt hw]
  · exact .inr h1

/-- All branches. -/
theorem moveLoop {env : MoveEnv} {refs : Refs} {rewritten : AMap Oid MaybeZero}
    (hw : AMap.WF refs) (l : List Oid) (hl : l.Nodup) :
    (∃ s', l.foldlM (moveGroup env refs rewritten) ⟨refs, []⟩ = .ok s' ∧
      MoveInv env refs rewritten s' ∧
      ∀ x, x ∈ (s'.moves.map fun m => m.2.2) ↔
        (IsBranch x ∧ ∃ o ∈ l, refs.get? x = some o ∧ (rewritten.get? o).isSome)) ∨
    ∃ e, l.foldlM (moveGroup env refs rewritten) ⟨refs, []⟩ = .error e ∧
      Stopped env refs rewritten e := by
  have h0 : MoveInv env refs rewritten ⟨refs, []⟩ :=
    ⟨hw, ⟨by simp, by simp, by simp⟩, by simp, by simp, by simp, fun _ h => h⟩
  rcases foldlM_except_cases (f := moveGroup env refs rewritten) (l := l) (s := ⟨refs, []⟩)
    (fun pre s' => (MoveInv env refs rewritten s' ∧ ∀ m ∈ s'.moves, m.1 ∈ pre) ∧
      ∀ x, x ∈ (s'.moves.map fun m => m.2.2) ↔
        (IsBranch x ∧ ∃ o ∈ pre, refs.get? x = some o ∧ (rewritten.get? o).isSome))
    (Stopped env refs rewritten) ⟨⟨h0, by simp⟩, by simp⟩ (by
      intro pre old post s' he ⟨⟨h1, h2⟩, h3⟩
      have hfresh : ∀ m ∈ s'.moves, m.1 ≠ old := by
        intro m hm heq
        rw [he, List.nodup_append] at hl
        exact hl.2.2 m.1 (h2 m hm) old (by simp) heq
      have fin : ∀ new, rewritten.get? old = some new → 
          ∀ s'', MoveInv env refs rewritten s'' →
          (∀ x, x ∈ (s''.moves.map fun m => m.2.2) ↔
            x ∈ (s'.moves.map fun m => m.2.2) ∨ (IsBranch x ∧ refs.get? x = some old)) →
          (MoveInv env refs rewritten s'' ∧ ∀ m ∈ s''.moves, m.1 ∈ pre ++ [old]) ∧
          ∀ x, x ∈ (s''.moves.map fun m => m.2.2) ↔
            (IsBranch x ∧ ∃ o ∈ pre ++ [old], refs.get? x = some o ∧ (rewritten.get? o).isSome) := by
        intro new hrw s'' h4 h5
        have h6 : ∀ x, x ∈ (s''.moves.map fun m => m.2.2) ↔
            (IsBranch x ∧ ∃ o ∈ pre ++ [old], refs.get? x = some o ∧ (rewritten.get? o).isSome) := by
          intro x
          rw [h5, h3]
          simp only [List.mem_append, List.mem_singleton]
          constructor
          · rintro (⟨hb, o, ho, h⟩ | ⟨hb, h⟩)
            · exact ⟨hb, o, .inl ho, h⟩
            · exact ⟨hb, old, .inr rfl, h, by rw [hrw]; rfl⟩
          · rintro ⟨hb, o, ho | rfl, h⟩
            · exact .inl ⟨hb, o, ho, h⟩
            · exact .inr ⟨hb, h.1⟩
        refine ⟨⟨h4, fun m hm => ?_⟩, h6⟩
        obtain ⟨_, o, ho, h7, _⟩ := (h6 m.2.2).1 (List.mem_map.2 ⟨m, hm, rfl⟩)
        have h8 := (h4.truthful.happened m.1 m.2.1 m.2.2 hm).1
        rw [h7] at h8
        injection h8 with h8
        exact h8 ▸ ho
      unfold moveGroup
      cases hrw : rewritten.get? old with
      | none =>
        refine .inl ⟨s', rfl, ⟨h1, fun m hm => List.mem_append_left _ (h2 m hm)⟩, fun x => ?_⟩
        rw [h3]
        simp only [List.mem_append, List.mem_singleton]
        constructor
        · rintro ⟨hb, o, ho, h⟩
          exact ⟨hb, o, .inl ho, h⟩
        · rintro ⟨hb, o, ho | rfl, h⟩
          · exact ⟨hb, o, ho, h⟩
          · rw [hrw] at h; simp at h
      | some new =>
        cases new with
        | zero =>
          simp only
          rcases h1.names hw hrw hfresh with ⟨s'', h4, h5, h6⟩ | h4
          · exact .inl ⟨s'', h4, fin _ hrw s'' h5 h6⟩
          · exact .inr h4
        | nonZero n =>
          simp only
          by_cases hc : env.isCommit n = true
          · rw [if_pos hc]
            rcases h1.names hw hrw hfresh with ⟨s'', h4, h5, h6⟩ | h4
            · exact .inl ⟨s'', h4, fin _ hrw s'' h5 h6⟩
            · exact .inr h4
          · rw [if_neg hc]
            exact .inr ⟨_, rfl, h1, fun hv => absurd (hv.exist _ _ hrw) hc⟩) with
    ⟨s', h1, h2, h3⟩ | h1
  · exact .inl ⟨s', h1, h2.1, h3⟩
  · exact .inr h1

end Verif.Spec
