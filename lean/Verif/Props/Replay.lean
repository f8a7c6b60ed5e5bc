import Verif.Lemmas.Replay
import Verif.Props.Cursor

/-!
Properties C06 (commit activity), C07 (reference positions), C08 (internal references), C09
(deletion repair).
-/

namespace Verif.Props

open Verif Spec

/-! ## C06 -/

/-- C06: at every cursor the status of a commit is decided by the last event before the cursor
which has an effect on it, and by nothing else. -/
theorem activity_status_exact (mb : Text) (es : List Event) (c : Nat) (oid : Oid) :
    let r := Replayer.fromEvents mb es
    r.activityStatus ⟨c⟩ oid =
      match lastEffect oid (r.events.take c) with
      | some (_, true) => .active
      | some (_, false) => .obsolete
      | none => .inactive := by
  intro r
  have hr : Replayer.Inv r := Replayer.inv_fromEvents mb es
  unfold Replayer.activityStatus
  rw [Replayer.cursorCommitHistory_eq hr, ← Replayer.getLast?_allInfos]
  generalize (Replayer.allInfos oid (r.events.take c)).getLast? = x
  cases x with
  | none => rfl
  | some x => obtain ⟨i, e, cls⟩ := x; cases cls <;> rfl

/-- C06: the latest event of a commit is that deciding event. -/
theorem latest_event_exact (mb : Text) (es : List Event) (c : Nat) (oid : Oid) :
    let r := Replayer.fromEvents mb es
    r.latestEvent ⟨c⟩ oid = (lastEffect oid (r.events.take c)).map Prod.fst := by
  intro r
  have hr : Replayer.Inv r := Replayer.inv_fromEvents mb es
  unfold Replayer.latestEvent
  rw [Replayer.cursorCommitHistory_eq hr, ← Replayer.getLast?_allInfos]
  generalize (Replayer.allInfos oid (r.events.take c)).getLast? = x
  cases x <;> rfl

/-- No commit occurs twice as a key of the history map. -/
theorem wf_commitHistory_foldl {r : Replayer} (h : AMap.WF r.commitHistory) (es : List Event) :
    AMap.WF (es.foldl Replayer.processEvent r).commitHistory := by
  induction es generalizing r with
  | nil => exact h
  | cons e es ih =>
    refine ih ?_
    have hp : ∀ (m : AMap Oid (List EventInfo)) o x, AMap.WF m → AMap.WF (Replayer.pushHistory m o x) :=
      fun m o x hm => AMap.wf_insert hm _ _
    have hrec : ∀ e, AMap.WF (r.record e).commitHistory := by
      intro e
      unfold Replayer.record
      cases e with
      | rewrite ts tx old new => cases old <;> cases new <;> first | exact h | exact hp _ _ _ (hp _ _ _ h) | exact hp _ _ _ h
      | refUpdate ts tx nm old new m => cases new <;> exact h
      | commit => exact hp _ _ _ h
      | obsolete => exact hp _ _ _ h
      | unobsolete => exact hp _ _ _ h
      | snapshot => exact h
    unfold Replayer.processEvent
    simp only
    split <;> split <;> (try exact h) <;> split <;> first | exact h | exact hrec _

/-- C06: the observed commits at a cursor are exactly those that are not inactive. -/
theorem cursor_oids_exact (mb : Text) (es : List Event) (c : Nat) (oid : Oid) :
    let r := Replayer.fromEvents mb es
    oid ∈ r.cursorOids ⟨c⟩ ↔ r.activityStatus ⟨c⟩ oid ≠ .inactive := by
  intro r
  have hr : Replayer.Inv r := Replayer.inv_fromEvents mb es
  have hw : AMap.WF r.commitHistory := wf_commitHistory_foldl (r := Replayer.new mb) AMap.wf_nil es
  have h1 : oid ∈ r.cursorOids ⟨c⟩ ↔ r.cursorCommitHistory ⟨c⟩ oid ≠ [] := by
    unfold Replayer.cursorOids Replayer.cursorCommitHistory
    simp only [List.mem_filterMap]
    constructor
    · rintro ⟨⟨o, h⟩, hm, he⟩
      simp only at he
      split at he
      · rename_i hany
        simp only [Option.some.injEq] at he
        subst he
        rw [AMap.get?_of_mem hw hm]
        simp only [ne_eq, List.filter_eq_nil_iff]
        simp only [List.any_eq_true] at hany
        obtain ⟨x, hx, hx'⟩ := hany
        intro hall
        exact hall x hx hx'
      · simp at he
    · intro hne
      cases hg : r.commitHistory.get? oid with
      | none => simp [hg] at hne
      | some h =>
        refine ⟨(oid, h), AMap.mem_of_get? hg, ?_⟩
        have : h.any (fun i => decide (i.id < (c : Int))) = true := by
          simp only [hg, ne_eq, List.filter_eq_nil_iff] at hne
          rw [List.any_eq_true]
          exact Classical.byContradiction fun hn => hne fun x hx hx' => hn ⟨x, hx, hx'⟩
        simp [this]
  rw [h1]
  unfold Replayer.activityStatus
  cases hl : (r.cursorCommitHistory ⟨c⟩ oid).getLast? with
  | none => simp [List.getLast?_eq_none_iff.1 hl]
  | some x =>
    have : r.cursorCommitHistory ⟨c⟩ oid ≠ [] := by
      intro h; rw [h] at hl; simp at hl
    obtain ⟨i, e, cls⟩ := x
    cases cls <;> simp [this]

/-- How `process_event` changes the list of events. -/
theorem processEvent_events (r : Replayer) (e : Event) :
    (r.processEvent e).events = r.events ∨
      ∃ e', r.fixEvent e = some e' ∧ (r.processEvent e).events = r.events ++ [e'] := by
  unfold Replayer.processEvent
  simp only
  split <;> split <;> first
    | exact .inl rfl
    | (split
       · exact .inl rfl
       · rename_i e' he; exact .inr ⟨e', he, Replayer.record_events r e'⟩)

/-- Events other than reference updates are always recorded as they are. -/
theorem processEvent_other (r : Replayer) (e : Event)
    (h : ∀ ts tx nm old new m, e ≠ .refUpdate ts tx nm old new m) :
    r.processEvent e = r.record e := by
  cases e with
  | refUpdate ts tx nm old new m => exact absurd rfl (h ts tx nm old new m)
  | _ => rfl

/-- A reference update is recorded as a reference update of the same reference to the same new
position with the same message, or not at all. -/
theorem processEvent_refUpdate (r : Replayer) (ts tx nm old new m) :
    r.processEvent (.refUpdate ts tx nm old new m) = r ∨
      ∃ old', r.processEvent (.refUpdate ts tx nm old new m)
        = r.record (.refUpdate ts tx nm old' new m) := by
  unfold Replayer.processEvent
  simp only
  split
  · exact .inl rfl
  · split
    · exact .inl rfl
    · rename_i e he
      right
      unfold Replayer.fixEvent at he
      have hf : ∃ old', r.fixOldOid (.refUpdate ts tx nm old new m) = .refUpdate ts tx nm old' new m := by
        cases old <;> cases new <;> exact ⟨_, rfl⟩
      obtain ⟨old', hf⟩ := hf
      rw [hf] at he
      refine ⟨old', ?_⟩
      split at he
      · rename_i heq _
        split at he
        · simp at he
        · simp only [Option.some.injEq] at he
          cases heq
          rw [← he]
      · simp only [Option.some.injEq] at he
        rw [← he]

theorem lastEffect_events (mb : Text) (es : List Event) (oid : Oid) :
    lastEffect oid (Replayer.fromEvents mb es).events = lastEffect oid es := by
  induction es using snocInduction with
  | h0 => rfl
  | h1 es e ih =>
    have hf : Replayer.fromEvents mb (es ++ [e]) = (Replayer.fromEvents mb es).processEvent e := by
      simp [Replayer.fromEvents]
    rw [hf, Replayer.lastEffect_append, ← ih]
    by_cases h : ∃ ts tx nm old new m, e = .refUpdate ts tx nm old new m
    · obtain ⟨ts, tx, nm, old, new, m, rfl⟩ := h
      rcases processEvent_refUpdate (Replayer.fromEvents mb es) ts tx nm old new m with h | ⟨old', h⟩
      · rw [h]; rfl
      · rw [h, Replayer.record_events, Replayer.lastEffect_append]; rfl
    · rw [processEvent_other _ _ (fun ts tx nm old new m he => h ⟨ts, tx, nm, old, new, m, he⟩),
        Replayer.record_events, Replayer.lastEffect_append]

/-- C06, for the present: at the end of the log the status is decided by the last event of the
*raw* log that has an effect on the commit. -/
theorem activity_status_now (mb : Text) (es : List Event) (oid : Oid) :
    let r := Replayer.fromEvents mb es
    r.activityStatus r.makeDefaultCursor oid =
      match lastEffect oid es with
      | some (_, true) => .active
      | some (_, false) => .obsolete
      | none => .inactive := by
  intro r
  have hc : r.makeDefaultCursor = ⟨(r.events.length : Nat)⟩ := by
    have := (cursor_moves_exactly r ⟨0⟩ 0).2.2
    cases h : r.makeDefaultCursor; rw [h] at this; simp only at this; rw [this]
  rw [hc]
  have := activity_status_exact mb es r.events.length oid
  simp only at this
  rw [this, List.take_of_length_le (Nat.le_refl _), lastEffect_events]

/-- C06 in words for the three kinds of commits: the created, the rewritten, the hidden. -/
example :
    let es := [.commit 1 (.id 1) oidA, .rewrite 2 (.id 2) (.nonZero oidA) (.nonZero oidB),
      .commit 3 (.id 3) oidC, .obsolete 4 (.id 4) oidC]
    let r := Replayer.fromEvents t!"refs/heads/main" es
    r.activityStatus ⟨1⟩ oidA = .active ∧ r.activityStatus ⟨2⟩ oidA = .obsolete ∧
    r.activityStatus ⟨2⟩ oidB = .active ∧ r.activityStatus ⟨2⟩ oidC = .inactive ∧
    r.activityStatus r.makeDefaultCursor oidC = .obsolete := by decide

/-! ## C07 -/

/-- The events which tell where `HEAD` is: a commit is made at `HEAD`, a snapshot notes it, or the
reference `HEAD` itself is moved to a commit. -/
inductive TellsHead : Event → Oid → Prop
  | update (ts tx old o m) : TellsHead (.refUpdate ts tx t!"HEAD" old (.nonZero o) m) o
  | commit (ts tx o) : TellsHead (.commit ts tx o) o
  | snapshot (ts tx o s nm) : TellsHead (.snapshot ts tx (.nonZero o) s nm) o

theorem headOidOf_iff (e : Event) (o : Oid) : Replayer.headOidOf e = some o ↔ TellsHead e o := by
  constructor
  · intro h
    cases e with
    | refUpdate ts tx nm old new m =>
      cases new with
      | zero => simp [Replayer.headOidOf] at h
      | nonZero p =>
        simp only [Replayer.headOidOf] at h
        split at h
        · rename_i hn; subst hn; cases h; exact .update ..
        · simp at h
    | commit ts tx p => cases h; exact .commit ..
    | snapshot ts tx hd s nm =>
      cases hd with
      | zero => simp [Replayer.headOidOf] at h
      | nonZero p => cases h; exact .snapshot ..
    | _ => simp [Replayer.headOidOf] at h
  · intro h
    cases h <;> simp [Replayer.headOidOf]

/-- `find_map` from the end of a list, characterised by a decomposition. -/
theorem findSome?_reverse_iff {α β : Type} (f : α → Option β) (l : List α) (b : β) :
    l.reverse.findSome? f = some b ↔
      ∃ pre a post, l = pre ++ a :: post ∧ f a = some b ∧ ∀ x ∈ post, f x = none := by
  induction l using snocInduction with
  | h0 => simp
  | h1 l a ih =>
    rw [List.reverse_append, List.reverse_singleton, List.singleton_append, List.findSome?_cons]
    cases h : f a with
    | some c =>
      constructor
      · intro hb
        simp only [Option.some.injEq] at hb
        exact ⟨l, a, [], rfl, by rw [h, hb], by simp⟩
      · rintro ⟨pre, x, post, he, hx, hp⟩
        rcases List.eq_nil_or_concat post with rfl | ⟨post', y, rfl⟩
        · have := List.append_inj' (s₁ := l) (t₁ := [a]) he rfl
          simp only [List.cons.injEq, and_true] at this
          rw [← this.2, h] at hx
          exact hx
        · have he' : l ++ [a] = (pre ++ x :: post') ++ [y] := by simpa using he
          have := List.append_inj' he' rfl
          simp only [List.cons.injEq, and_true] at this
          have := hp y (by simp)
          simp_all
    | none =>
      simp only
      rw [ih]
      constructor
      · rintro ⟨pre, x, post, rfl, hx, hp⟩
        refine ⟨pre, x, post ++ [a], by simp, hx, ?_⟩
        intro y hy
        rcases List.mem_append.1 hy with hy | hy
        · exact hp y hy
        · simp at hy; rw [hy, h]
      · rintro ⟨pre, x, post, he, hx, hp⟩
        rcases List.eq_nil_or_concat post with rfl | ⟨post', y, rfl⟩
        · have := List.append_inj' (s₁ := l) (t₁ := [a]) he rfl
          simp only [List.cons.injEq, and_true] at this
          rw [← this.2, h] at hx
          simp at hx
        · have he' : l ++ [a] = (pre ++ x :: post') ++ [y] := by simpa using he
          have := List.append_inj' he' rfl
          exact ⟨pre, x, post', this.1, hx, fun z hz => hp z (by simp [hz])⟩

/-- C07: the reported `HEAD` is that of the last event before the cursor which tells it. -/
theorem cursor_head_exact (r : Replayer) (c : Nat) (h : c ≤ r.events.length) :
    ∃ res, r.cursorHeadOid ⟨c⟩ = .ok res ∧ ∀ o, res = some o ↔
      ∃ pre e post, r.events.take c = pre ++ e :: post ∧ TellsHead e o ∧
        ∀ e' ∈ post, ∀ o', ¬ TellsHead e' o' := by
  unfold Replayer.cursorHeadOid
  rw [eventsUpTo_ok r h]
  refine ⟨_, rfl, fun o => ?_⟩
  rw [findSome?_reverse_iff]
  simp only [headOidOf_iff]
  have : ∀ e, Replayer.headOidOf e = none ↔ ∀ o', ¬ TellsHead e o' := by
    intro e
    simp only [← headOidOf_iff]
    cases Replayer.headOidOf e <;> simp
  simp only [this]

theorem foldl_stepRefMap (es : List Event) (name : Text) :
    (es.foldl Replayer.stepRefMap []).get? name = lastPosition name es := by
  induction es using snocInduction with
  | h0 => rfl
  | h1 es e ih =>
    rw [List.foldl_append, Replayer.lastPosition_append]
    simp only [List.foldl_cons, List.foldl_nil]
    cases e with
    | refUpdate ts tx nm old new m =>
      cases new with
      | zero => by_cases h : nm = name <;> simp [Replayer.stepRefMap, updateOf, h, ih]
      | nonZero o => by_cases h : nm = name <;> simp [Replayer.stepRefMap, updateOf, h, ih]
    | _ => simpa [Replayer.stepRefMap, updateOf] using ih

theorem wf_foldl_stepRefMap (es : List Event) (m : AMap Text Oid) (h : AMap.WF m) :
    AMap.WF (es.foldl Replayer.stepRefMap m) := by
  induction es generalizing m with
  | nil => exact h
  | cons e es ih =>
    refine ih _ ?_
    cases e with
    | refUpdate ts tx nm old new m' =>
      cases new with
      | zero => exact AMap.wf_erase h _
      | nonZero o => exact AMap.wf_insert h _ _
    | _ => exact h

theorem mem_addName (m : AMap Oid (List Text)) (o oid : Oid) (n name : Text) :
    name ∈ ((Replayer.addName m o n).get? oid).getD [] ↔
      name ∈ (m.get? oid).getD [] ∨ (o = oid ∧ name = n) := by
  unfold Replayer.addName
  simp only [AMap.get?_insert]
  by_cases h : o = oid
  · subst h
    simp only [ite_true, Option.getD_some]
    split
    · rename_i hm
      constructor
      · exact .inl
      · rintro (h | ⟨_, rfl⟩)
        · exact h
        · exact hm
    · simp
  · simp [h]

theorem mem_foldl_addName (l : List (Text × Oid)) (m : AMap Oid (List Text)) (oid : Oid) (name : Text) :
    name ∈ ((l.foldl (fun m (x : Text × Oid) =>
        if (categorize x.1).isLocalBranch then Replayer.addName m x.2 x.1 else m) m).get? oid).getD []
      ↔ name ∈ (m.get? oid).getD [] ∨ ((name, oid) ∈ l ∧ (categorize name).isLocalBranch = true) := by
  induction l generalizing m with
  | nil => simp
  | cons x l ih =>
    rw [List.foldl_cons, ih]
    obtain ⟨n, o⟩ := x
    by_cases h : (categorize n).isLocalBranch = true
    · simp only [h, ite_true, mem_addName, List.mem_cons, Prod.mk.injEq]
      constructor
      · rintro ((h1 | ⟨rfl, rfl⟩) | ⟨h1, h2⟩)
        · exact .inl h1
        · exact .inr ⟨.inl ⟨rfl, rfl⟩, h⟩
        · exact .inr ⟨.inr h1, h2⟩
      · rintro (h1 | ⟨⟨rfl, rfl⟩ | h1, h2⟩)
        · exact .inl (.inl h1)
        · exact .inl (.inr ⟨rfl, rfl⟩)
        · exact .inr ⟨h1, h2⟩
    · simp only [h, Bool.false_eq_true, ite_false, List.mem_cons, Prod.mk.injEq]
      constructor
      · rintro (h1 | ⟨h1, h2⟩)
        · exact .inl h1
        · exact .inr ⟨.inr h1, h2⟩
      · rintro (h1 | ⟨⟨rfl, rfl⟩ | h1, h2⟩)
        · exact .inl h1
        · exact absurd h2 h
        · exact .inr ⟨h1, h2⟩

/-- C07: at every cursor a local branch is listed at a commit iff its last update before the
cursor moved it there; the main branch is additionally listed at the reported main position. -/
theorem cursor_branches_exact (r : Replayer) (repo : Replayer.RepoMain) (c : Nat)
    (h : c ≤ r.events.length) :
    ∃ m mainOid, r.cursorBranchOidToNames ⟨c⟩ repo = .ok m ∧
      r.cursorMainBranchOid ⟨c⟩ repo = .ok mainOid ∧
      ∀ name oid, name ∈ (m.get? oid).getD [] ↔
        (t!"refs/heads/" <+: name ∧ lastPosition name (r.events.take c) = some oid) ∨
        (name = r.mainBranch ∧ oid = mainOid) := by
  have hm : ∃ mainOid, r.cursorMainBranchOid ⟨c⟩ repo = .ok mainOid := by
    unfold Replayer.cursorMainBranchOid Replayer.cursorBranchOid
    rw [eventsUpTo_ok r h]; exact ⟨_, rfl⟩
  obtain ⟨mainOid, hm⟩ := hm
  unfold Replayer.cursorBranchOidToNames
  rw [eventsUpTo_ok r h, hm]
  refine ⟨_, mainOid, rfl, rfl, fun name oid => ?_⟩
  have hcat : (categorize name).isLocalBranch = true ↔ t!"refs/heads/" <+: name := by
    rw [← List.isPrefixOf_iff_prefix]
    unfold categorize
    split
    · rename_i h; simp [RefCategory.isLocalBranch, h]
    · rename_i h
      split <;> simp [RefCategory.isLocalBranch, h]
  rw [mem_addName, mem_foldl_addName]
  simp only [AMap.get?_nil, Option.getD_none, List.not_mem_nil, false_or]
  rw [hcat, ← foldl_stepRefMap]
  have hw := wf_foldl_stepRefMap (r.events.take c) [] AMap.wf_nil
  constructor
  · rintro (⟨h1, h2⟩ | ⟨rfl, rfl⟩)
    · exact .inl ⟨h2, AMap.get?_of_mem hw h1⟩
    · exact .inr ⟨rfl, rfl⟩
  · rintro (⟨h1, h2⟩ | ⟨rfl, rfl⟩)
    · exact .inl ⟨AMap.mem_of_get? h2, h1⟩
    · exact .inr ⟨rfl, rfl⟩

/-- What C07 asks of the main branch: its last recorded position, or the present one if it has
none at the cursor. -/
def MainBranchExact : Prop :=
  ∀ (r : Replayer) (repo : Replayer.RepoMain) (c : Nat), c ≤ r.events.length →
    r.cursorMainBranchOid ⟨c⟩ repo
      = .ok ((lastPosition repo.mainBranchName (r.events.take c)).getD repo.mainBranchOid)

/-- C07, finding: the code does not satisfy `MainBranchExact`. After the main branch has been
deleted, the replayer still reports the position before the deletion (here `A`), even if the
branch was re-created since at another place. -/
theorem main_branch_ignores_deletion : ¬ MainBranchExact := by
  intro h
  let r := Replayer.fromEvents t!"refs/heads/main"
    [.refUpdate 1 (.id 1) t!"refs/heads/main" .zero (.nonZero oidA) none,
     .refUpdate 2 (.id 2) t!"refs/heads/main" (.nonZero oidA) .zero none]
  have := h r ⟨t!"refs/heads/main", oidB⟩ 2 (by decide)
  revert this
  decide

/-- C07: the snapshot of all references at a cursor consists of exactly these three answers, and
never fails. -/
theorem references_snapshot_exact (r : Replayer) (repo : Replayer.RepoMain) (c : Nat)
    (h : c ≤ r.events.length) :
    ∃ snap, r.referencesSnapshot repo ⟨c⟩ = .ok snap ∧
      (∀ o, snap.headOid = some o ↔
        ∃ pre e post, r.events.take c = pre ++ e :: post ∧ TellsHead e o ∧
          ∀ e' ∈ post, ∀ o', ¬ TellsHead e' o') ∧
      r.cursorMainBranchOid ⟨c⟩ repo = .ok snap.mainBranchOid ∧
      ∀ name oid, name ∈ (snap.branchOidToNames.get? oid).getD [] ↔
        (t!"refs/heads/" <+: name ∧ lastPosition name (r.events.take c) = some oid) ∨
        (name = r.mainBranch ∧ oid = snap.mainBranchOid) := by
  obtain ⟨head, h1, h2⟩ := cursor_head_exact r c h
  obtain ⟨m, mainOid, h3, h4, h5⟩ := cursor_branches_exact r repo c h
  refine ⟨⟨head, mainOid, m⟩, ?_, h2, h4, h5⟩
  unfold Replayer.referencesSnapshot
  rw [h1, h4, h3]

/-- C07 (partial: holds if the last update of the main branch before the cursor, if any, is not
a deletion; see `main_branch_ignores_deletion`). -/
theorem main_branch_exact_partial (r : Replayer) (repo : Replayer.RepoMain) (c : Nat)
    (h : c ≤ r.events.length)
    (hdel : (r.events.take c).reverse.findSome? (updateOf repo.mainBranchName) ≠ some none) :
    r.cursorMainBranchOid ⟨c⟩ repo
      = .ok ((lastPosition repo.mainBranchName (r.events.take c)).getD repo.mainBranchOid) := by
  unfold Replayer.cursorMainBranchOid Replayer.cursorBranchOid
  rw [eventsUpTo_ok r h]
  have : (r.events.take c).reverse.findSome? (Replayer.branchOidOf repo.mainBranchName)
      = lastPosition repo.mainBranchName (r.events.take c) := by
    unfold lastPosition
    generalize (r.events.take c).reverse = l at hdel
    induction l with
    | nil => rfl
    | cons e l ih =>
      rw [List.findSome?_cons, List.findSome?_cons]
      rw [List.findSome?_cons] at hdel
      cases e with
      | refUpdate ts tx nm old new m =>
        by_cases hn : nm = repo.mainBranchName
        · cases new with
          | zero => simp [updateOf, hn] at hdel
          | nonZero o => simp [Replayer.branchOidOf, updateOf, hn]
        · simp only [updateOf, hn, ite_false] at hdel ⊢
          cases new <;> simp only [Replayer.branchOidOf, hn, ite_false] <;> exact ih hdel
      | _ => simp only [updateOf] at hdel ⊢; simpa [Replayer.branchOidOf] using ih hdel
  simp [Except.map, this]

/-- Non-vacuity for C07: a history with a moved and a deleted branch. -/
example :
    let r := Replayer.fromEvents t!"refs/heads/main"
      [.refUpdate 1 (.id 1) t!"refs/heads/main" .zero (.nonZero oidA) none,
       .refUpdate 1 (.id 1) t!"refs/heads/x" .zero (.nonZero oidA) none,
       .refUpdate 2 (.id 2) t!"refs/heads/x" (.nonZero oidA) .zero none,
       .commit 3 (.id 3) oidB]
    (r.events.take 4).reverse.findSome? (updateOf t!"refs/heads/main") ≠ some none ∧
    r.cursorHeadOid ⟨4⟩ = .ok (some oidB) ∧
    lastPosition t!"refs/heads/x" (r.events.take 2) = some oidA ∧
    lastPosition t!"refs/heads/x" (r.events.take 3) = none := by decide

/-! ## C08 -/

/-- An update of one of the references which are used internally. -/
def IsInternalUpdate : Event → Bool
  | .refUpdate _ _ name _ _ _ =>
    (t!"refs/branchless/").isPrefixOf name ||
    [t!"ORIG_HEAD", t!"CHERRY_PICK", t!"REBASE_HEAD", t!"CHERRY_PICK_HEAD", t!"AUTO_MERGE",
      t!"FETCH_HEAD"].contains name
  | _ => false

theorem processEvent_internal (r : Replayer) (e : Event) (h : IsInternalUpdate e = true) :
    r.processEvent e = r := by
  cases e with
  | refUpdate ts tx nm old new m =>
    have : shouldIgnoreRefUpdates nm = true := by
      simp only [IsInternalUpdate] at h
      simp only [shouldIgnoreRefUpdates, isGcRef]
      simpa [List.contains_cons, Bool.or_assoc] using h
    simp [Replayer.processEvent, this]
  | _ => simp [IsInternalUpdate] at h

theorem processEvent_not_internal (r : Replayer) (e : Event) (h : IsInternalUpdate e = false) :
    r.processEvent e = match r.fixEvent e with
      | none => r
      | some e => r.record e := by
  cases e with
  | refUpdate ts tx nm old new m =>
    have : shouldIgnoreRefUpdates nm = false := by
      simp only [IsInternalUpdate] at h
      simp only [shouldIgnoreRefUpdates, isGcRef]
      simpa [List.contains_cons, Bool.or_assoc] using h
    unfold Replayer.processEvent
    simp only [this, Bool.false_eq_true, ite_false]
    rfl
  | _ => rfl

/-- C08: removing all updates of internal references from the log gives the same replayer, hence
the same answer to every query at every cursor. -/
theorem internal_refs_have_no_influence (mb : Text) (es : List Event) :
    Replayer.fromEvents mb es
      = Replayer.fromEvents mb (es.filter fun e => !IsInternalUpdate e) := by
  unfold Replayer.fromEvents
  generalize Replayer.new mb = r
  induction es generalizing r with
  | nil => rfl
  | cons e es ih =>
    by_cases h : IsInternalUpdate e = true
    · simp only [List.foldl_cons, processEvent_internal r e h, List.filter_cons, h, Bool.not_true,
        Bool.false_eq_true, ite_false]
      exact ih r
    · simp only [Bool.not_eq_true] at h
      simp only [List.foldl_cons, List.filter_cons, h, Bool.not_false, ite_true]
      exact ih _

example : (([.commit 1 (.id 1) oidA,
      .refUpdate 2 (.id 1) t!"refs/branchless/aa" .zero (.nonZero oidA) none,
      .refUpdate 2 (.id 1) t!"ORIG_HEAD" .zero (.nonZero oidA) none] : List Event).filter
        fun e => !IsInternalUpdate e) = [.commit 1 (.id 1) oidA] := by decide

/-! ## C09 -/

/-- A deletion reported without the old position (first anomaly). -/
def IsZeroedDeletion : Event → Bool
  | .refUpdate _ _ _ .zero .zero _ => true
  | _ => false

/-- `e'` repeats the deletion `e`: same reference, same message (second anomaly). -/
def IsRepeatedDeletion : Event → Event → Bool
  | .refUpdate _ _ n _ .zero m, .refUpdate _ _ n' _ .zero m' => n == n' && m == m'
  | _, _ => false

theorem fixEvent_of_clean (r : Replayer) (e : Event) (hz : IsZeroedDeletion e = false)
    (hd : ∀ l, r.events.getLast? = some l → IsRepeatedDeletion l e = false) :
    r.fixEvent e = some e := by
  have hf : r.fixOldOid e = e := by
    cases e with
    | refUpdate ts tx nm old new m =>
      cases old <;> cases new <;> first | rfl | simp [IsZeroedDeletion] at hz
    | _ => rfl
  unfold Replayer.fixEvent
  rw [hf]
  split
  · rename_i ts tx nm old m _ _ nm' _ m' hl
    have := hd _ hl
    simp only [IsRepeatedDeletion, Bool.and_eq_false_iff, beq_eq_false_iff_ne] at this
    have : ¬ (nm = nm' ∧ m = m') := by
      rintro ⟨rfl, rfl⟩; simp at this
    simp [this]
  · rfl

/-- C09: a log without internal updates and without the two anomalies is replayed as it is. -/
theorem clean_log_is_kept (mb : Text) (es : List Event)
    (hint : ∀ e ∈ es, IsInternalUpdate e = false)
    (hzero : ∀ e ∈ es, IsZeroedDeletion e = false)
    (hrep : ∀ pre a b post, es = pre ++ a :: b :: post → IsRepeatedDeletion a b = false) :
    (Replayer.fromEvents mb es).events = es := by
  induction es using snocInduction with
  | h0 => rfl
  | h1 es e ih =>
    have ih := ih (fun x hx => hint x (by simp [hx])) (fun x hx => hzero x (by simp [hx]))
      (fun pre a b post he => hrep pre a b (post ++ [e]) (by simp [he]))
    have hf : Replayer.fromEvents mb (es ++ [e]) = (Replayer.fromEvents mb es).processEvent e := by
      simp [Replayer.fromEvents]
    rw [hf]
    have hfix : (Replayer.fromEvents mb es).fixEvent e = some e := by
      refine fixEvent_of_clean _ e (hzero e (by simp)) fun l hl => ?_
      rw [ih] at hl
      obtain ⟨pre, rfl⟩ : ∃ pre, es = pre ++ [l] := by
        rcases List.eq_nil_or_concat es with rfl | ⟨pre, x, rfl⟩
        · simp at hl
        · simp at hl; exact ⟨pre, by rw [hl, List.concat_eq_append]⟩
      exact hrep pre l e [] (by simp)
    rw [processEvent_not_internal _ _ (hint e (by simp)), hfix]
    simp only [Replayer.record_events, ih]

example :
    let es : List Event := [.refUpdate 1 (.id 1) t!"refs/heads/x" .zero (.nonZero oidA) none,
      .refUpdate 2 (.id 2) t!"refs/heads/x" (.nonZero oidA) .zero none,
      .refUpdate 2 (.id 2) t!"refs/heads/y" (.nonZero oidA) .zero none]
    (∀ e ∈ es, IsInternalUpdate e = false) ∧ (∀ e ∈ es, IsZeroedDeletion e = false) := by decide

/-- C09: the repair never changes where a (non-internal) reference ends up. -/
theorem repair_keeps_positions (mb : Text) (es : List Event) (name : Text)
    (hn : shouldIgnoreRefUpdates name = false) :
    lastPosition name (Replayer.fromEvents mb es).events = lastPosition name es := by
  induction es using snocInduction with
  | h0 => rfl
  | h1 es e ih =>
    have hf : Replayer.fromEvents mb (es ++ [e]) = (Replayer.fromEvents mb es).processEvent e := by
      simp [Replayer.fromEvents]
    rw [hf, Replayer.lastPosition_append, ← ih]
    generalize hr : Replayer.fromEvents mb es = r
    by_cases h : ∃ ts tx nm old new m, e = .refUpdate ts tx nm old new m
    · obtain ⟨ts, tx, nm, old, new, m, rfl⟩ := h
      by_cases hnm : nm = name
      · subst hnm
        unfold Replayer.processEvent
        simp only [hn, Bool.false_eq_true, ite_false]
        have hf : ∃ old', r.fixOldOid (.refUpdate ts tx nm old new m) = .refUpdate ts tx nm old' new m := by
          cases old <;> cases new <;> exact ⟨_, rfl⟩
        obtain ⟨old', hf⟩ := hf
        unfold Replayer.fixEvent
        rw [hf]
        split
        · -- dropped: the last event is a deletion of the same reference
          rename_i hnone
          split at hnone
          · rename_i heq hl
            cases heq
            split at hnone
            · rename_i hc
              obtain ⟨rfl, rfl⟩ := hc
              obtain ⟨pre, hpre⟩ : ∃ pre x, r.events = pre ++ [x] ∧ r.events.getLast? = some x := by
                rcases List.eq_nil_or_concat r.events with h0 | ⟨pre, x, h0⟩
                · rw [h0] at hl; simp at hl
                · exact ⟨pre, x, by simpa using h0, by rw [h0]; simp⟩
              obtain ⟨x, hpre, hx⟩ := hpre
              rw [hl] at hx
              cases hx
              rw [hpre, Replayer.lastPosition_append]
              simp [updateOf]
            · simp at hnone
          · simp at hnone
        · rename_i e' he
          have : e' = .refUpdate ts tx nm old' new m := by
            split at he
            · rename_i heq _
              split at he
              · simp at he
              · cases heq; simp at he; exact he.symm
            · simp at he; exact he.symm
          rw [this, Replayer.record_events, Replayer.lastPosition_append]
          rfl
      · have hu : ∀ old, updateOf name (.refUpdate ts tx nm old new m) = none := by
          intro old; simp [updateOf, hnm]
        rw [hu]
        rcases processEvent_refUpdate r ts tx nm old new m with h | ⟨old', h⟩
        · rw [h]
        · rw [h, Replayer.record_events, Replayer.lastPosition_append, hu]
    · rw [processEvent_other _ _ (fun ts tx nm old new m he => h ⟨ts, tx, nm, old, new, m, he⟩),
        Replayer.record_events, Replayer.lastPosition_append]

example : shouldIgnoreRefUpdates t!"refs/heads/x" = false := by decide

/-- How Git 2.31 may report a true history (first list) in the log (second list): each event as it
is, or, for a deletion, without the old position; a deletion may be followed by any number of
repetitions with any old position. -/
inductive Reported : List Event → List Event → Prop
  | nil : Reported [] []
  | asIs {T R} (e) : Reported T R → Reported (T ++ [e]) (R ++ [e])
  | zeroed {T R} (ts tx n old m) : Reported T R →
      Reported (T ++ [.refUpdate ts tx n old .zero m]) (R ++ [.refUpdate ts tx n .zero .zero m])
  | repeated {T R} (ts tx n old m ts' tx' old') :
      Reported (T ++ [.refUpdate ts tx n old .zero m]) R →
      Reported (T ++ [.refUpdate ts tx n old .zero m]) (R ++ [.refUpdate ts' tx' n old' .zero m])

/-- Every update in the history starts where the reference was left by the updates before, and a
deletion deletes something. -/
def Truthful (T : List Event) : Prop :=
  ∀ pre ts tx n old new m post, T = pre ++ .refUpdate ts tx n old new m :: post →
    old.toOption = lastPosition n pre ∧ (old ≠ .zero ∨ new ≠ .zero)

theorem Truthful.init {T : List Event} {e : Event} (h : Truthful (T ++ [e])) : Truthful T :=
  fun pre ts tx n old new m post he => h pre ts tx n old new m (post ++ [e]) (by simp [he])

theorem fixEvent_of_truthful (r : Replayer) (e : Event) (h : Truthful (r.events ++ [e])) :
    r.fixEvent e = some e := by
  refine fixEvent_of_clean _ _ ?_ ?_
  · cases e with
    | refUpdate ts tx n old new m =>
      have := h r.events ts tx n old new m [] rfl
      cases old <;> cases new <;> simp_all [IsZeroedDeletion]
    | _ => rfl
  · intro l hl
    cases e with
    | refUpdate ts tx n old new m =>
      have := h r.events ts tx n old new m [] rfl
      obtain ⟨pre, hpre⟩ : ∃ pre, r.events = pre ++ [l] := by
        rcases List.eq_nil_or_concat r.events with h0 | ⟨pre, x, h0⟩
        · rw [h0] at hl; simp at hl
        · rw [h0] at hl; simp at hl; exact ⟨pre, by rw [h0, hl, List.concat_eq_append]⟩
      rw [hpre, Replayer.lastPosition_append] at this
      cases new with
      | nonZero o => cases l <;> simp [IsRepeatedDeletion]
      | zero =>
        cases l with
        | refUpdate ts' tx' n' old' new' m' =>
          cases new' with
          | nonZero o => simp [IsRepeatedDeletion]
          | zero =>
            by_cases hn : n' = n
            · exfalso
              cases old <;> simp_all [updateOf]
            · simp [IsRepeatedDeletion, hn]
        | _ => simp [IsRepeatedDeletion]
    | _ => cases l <;> simp [IsRepeatedDeletion]

/-- C09: from whatever Git 2.31 reported, the replayer recovers exactly the true history: each
real deletion once, with the true old position, and nothing else changed. -/
theorem repair_recovers_history (mb : Text) (T R : List Event) (h : Reported T R)
    (ht : Truthful T) (hint : ∀ e ∈ T, IsInternalUpdate e = false) :
    (Replayer.fromEvents mb R).events = T := by
  have hf : ∀ R e, Replayer.fromEvents mb (R ++ [e]) = (Replayer.fromEvents mb R).processEvent e := by
    intro R e; simp [Replayer.fromEvents]
  induction h with
  | nil => rfl
  | @asIs T R e h ih =>
    have ih := ih ht.init fun e he => hint e (by simp [he])
    rw [hf, processEvent_not_internal _ _ (hint e (by simp)),
      fixEvent_of_truthful _ _ (by rw [ih]; exact ht)]
    simp only [Replayer.record_events, ih]
  | @zeroed T R ts tx n old m h ih =>
    have ih := ih ht.init fun e he => hint e (by simp [he])
    have hi := hint (.refUpdate ts tx n old .zero m) (by simp)
    have h1 := ht T ts tx n old .zero m [] rfl
    have hfix : (Replayer.fromEvents mb R).fixEvent (.refUpdate ts tx n .zero .zero m)
        = (Replayer.fromEvents mb R).fixEvent (.refUpdate ts tx n old .zero m) := by
      have hl := (Replayer.inv_fromEvents mb R).refs n
      rw [ih, ← h1.1] at hl
      have : (Replayer.fromEvents mb R).fixOldOid (.refUpdate ts tx n .zero .zero m)
          = (Replayer.fromEvents mb R).fixOldOid (.refUpdate ts tx n old .zero m) := by
        cases old with
        | zero => rfl
        | nonZero o => simp only [Replayer.fixOldOid, hl]; rfl
      unfold Replayer.fixEvent
      rw [this]
    rw [hf, processEvent_not_internal _ _ (by simpa [IsInternalUpdate] using hi), hfix,
      fixEvent_of_truthful _ _ (by rw [ih]; exact ht)]
    simp only [Replayer.record_events, ih]
  | @repeated T R ts tx n old m ts' tx' old' h ih =>
    have ih := ih ht hint
    have hi := hint (.refUpdate ts tx n old .zero m) (by simp)
    have hfix : (Replayer.fromEvents mb R).fixEvent (.refUpdate ts' tx' n old' .zero m) = none := by
      unfold Replayer.fixEvent
      have : ∃ o, (Replayer.fromEvents mb R).fixOldOid (.refUpdate ts' tx' n old' .zero m)
          = .refUpdate ts' tx' n o .zero m := by
        cases old' <;> exact ⟨_, rfl⟩
      obtain ⟨o, ho⟩ := this
      rw [ho, ih]
      simp
    rw [hf, processEvent_not_internal _ _ (by simpa [IsInternalUpdate] using hi), hfix]
    exact ih

/-- A history with a deletion reported twice, first without the old position. -/
example :
    let T : List Event := [.refUpdate 1 (.id 1) t!"refs/heads/x" .zero (.nonZero oidA) none,
      .refUpdate 2 (.id 2) t!"refs/heads/x" (.nonZero oidA) .zero none]
    let R : List Event := [.refUpdate 1 (.id 1) t!"refs/heads/x" .zero (.nonZero oidA) none,
      .refUpdate 2 (.id 2) t!"refs/heads/x" .zero .zero none,
      .refUpdate 2 (.id 2) t!"refs/heads/x" (.nonZero oidA) .zero none]
    Reported T R ∧ Truthful T ∧ ∀ e ∈ T, IsInternalUpdate e = false := by
  refine ⟨?_, ?_, by decide⟩
  · exact .repeated (T := [_]) (R := [_, _]) _ _ _ _ _ _ _ _
      (.zeroed (T := [_]) (R := [_]) _ _ _ _ _ (.asIs (T := []) (R := []) _ .nil))
  · intro pre ts tx n old new m post h
    match pre, h with
    | [], h => simp at h; obtain ⟨⟨rfl, rfl, rfl, rfl, rfl, rfl⟩, _⟩ := h; decide
    | [a], h => simp at h; obtain ⟨rfl, ⟨rfl, rfl, rfl, rfl, rfl, rfl⟩, _⟩ := h; decide
    | a :: b :: c, h => simp at h

end Verif.Props
