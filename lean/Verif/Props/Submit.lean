import Verif.Lemmas.Submit

/-!
C47: what `submit` pushes.
-/

namespace Verif.Props

open Verif Verif.Spec

/-! ### the statuses -/

section Statuses

variable {w : SubmitWorld} (hw : AMap.WF w.refs) {main : Text} {set : List Oid}
  (h : (fetchAll w (fetchGroups (branchInfos w main set))).2.2 = true)

/-- The repository after fetching. -/
def afterFetch (w : SubmitWorld) (main : Text) (set : List Oid) : SubmitWorld :=
  (fetchAll w (fetchGroups (branchInfos w main set))).1

theorem afterFetch_same (w : SubmitWorld) (main : Text) (set : List Oid) :
    ∃ t, afterFetch w main set = { w with tracking := t } := fetchAll_same w _

/-- The statuses. -/
def statusesOf (w : SubmitWorld) (main : Text) (set : List Oid) : List (Oid × CommitStatus) :=
  commitStatuses (afterFetch w main set) (branchInfos w main set)

include hw h

theorem needsUpdate_iff {c : CommitStatus} : c ∈ commitsWith .needsUpdate (statusesOf w main set) ↔
    ∃ b, OutOfDate w main set b ∧ c = ⟨.needsUpdate, w.pushRemoteName b, some b⟩ := by
  obtain ⟨t, ht⟩ := afterFetch_same w main set
  have hrefs : (afterFetch w main set).refs = w.refs := by rw [ht]
  rw [statusesOf, mem_statuses hw ht (by decide) (by decide)]
  constructor
  · rintro ⟨b, o, hc, ha, hs, rfl⟩
    rw [commitStatus] at hs ⊢
    simp only at hs ⊢
    cases hu : (afterFetch w main set).upstream b with
    | none => rw [hu] at hs; cases hs
    | some u =>
      rw [hu] at hs
      simp only [hrefs] at hs ⊢
      have hat : w.refs.get? (fullName b) = some o := hc.there
      rw [hat] at hs ⊢
      by_cases hne : some o = some u
      · rw [if_pos hne] at hs; cases hs
      · rw [if_neg hne]
        exact ⟨b, ⟨o, u, hc, ha, (upstream_after hw h).1 hu, fun e => hne (by rw [e])⟩, rfl⟩
  · rintro ⟨b, ⟨o, u, hc, ha, hu, hne⟩, rfl⟩
    have hu' : (afterFetch w main set).upstream b = some u := (upstream_after hw h).2 hu
    have hat : w.refs.get? (fullName b) = some o := hc.there
    refine ⟨b, o, hc, ha, rfl, ?_⟩
    rw [commitStatus]
    simp only [hu', hrefs, hat]
    rw [if_neg]
    intro e
    exact hne (Option.some.inj e).symm

theorem upToDate_iff {c : CommitStatus} : c ∈ commitsWith .upToDate (statusesOf w main set) ↔
    ∃ b, UpToDate w main set b ∧ c = ⟨.upToDate, w.pushRemoteName b, some b⟩ := by
  obtain ⟨t, ht⟩ := afterFetch_same w main set
  have hrefs : (afterFetch w main set).refs = w.refs := by rw [ht]
  rw [statusesOf, mem_statuses hw ht (by decide) (by decide)]
  constructor
  · rintro ⟨b, o, hc, ha, hs, rfl⟩
    rw [commitStatus] at hs ⊢
    simp only at hs ⊢
    cases hu : (afterFetch w main set).upstream b with
    | none => rw [hu] at hs; cases hs
    | some u =>
      rw [hu] at hs
      simp only [hrefs] at hs ⊢
      have hat : w.refs.get? (fullName b) = some o := hc.there
      rw [hat] at hs ⊢
      by_cases hne : some o = some u
      · rw [if_pos hne]
        obtain rfl := Option.some.inj hne
        exact ⟨b, ⟨o, hc, ha, (upstream_after hw h).1 hu⟩, rfl⟩
      · rw [if_neg hne] at hs; cases hs
  · rintro ⟨b, ⟨o, hc, ha, hu⟩, rfl⟩
    have hu' : (afterFetch w main set).upstream b = some o := (upstream_after hw h).2 hu
    have hat : w.refs.get? (fullName b) = some o := hc.there
    refine ⟨b, o, hc, ha, rfl, ?_⟩
    rw [commitStatus]
    simp only [hu', hrefs, hat]
    rw [if_pos trivial]

theorem unsubmitted_iff {c : CommitStatus} : c ∈ commitsWith .unsubmitted (statusesOf w main set) ↔
    ∃ b, NotYetThere w main set b ∧ c = ⟨.unsubmitted, none, some b⟩ := by
  obtain ⟨t, ht⟩ := afterFetch_same w main set
  rw [statusesOf, mem_statuses hw ht (by decide) (by decide)]
  constructor
  · rintro ⟨b, o, hc, ha, hs, rfl⟩
    rw [commitStatus] at hs ⊢
    simp only at hs ⊢
    cases hu : (afterFetch w main set).upstream b with
    | none =>
      refine ⟨b, ⟨o, hc, ha, fun u hu' => ?_⟩, rfl⟩
      rw [show (afterFetch w main set).upstream b = some u from (upstream_after hw h).2 hu'] at hu
      cases hu
    | some u =>
      rw [hu] at hs
      simp only at hs
      split at hs <;> cases hs
  · rintro ⟨b, ⟨o, hc, ha, hu⟩, rfl⟩
    have hu' : (afterFetch w main set).upstream b = none := by
      cases hx : (afterFetch w main set).upstream b with
      | none => rfl
      | some u => exact absurd ((upstream_after hw h).1 hx) (hu u)
    refine ⟨b, o, hc, ha, rfl, ?_⟩
    rw [commitStatus]
    simp only [hu']

omit h in
theorem names_nodup (x : SubmitStatus) :
    ((commitsWith x (statusesOf w main set)).filterMap (·.localName)).Nodup := by
  obtain ⟨t, ht⟩ := afterFetch_same w main set
  exact (nodup_names hw (main := main) (set := set) ht).sublist (List.filter_sublist.filterMap _)

theorem unsubmitted_names {b : Text} :
    b ∈ (commitsWith .unsubmitted (statusesOf w main set)).filterMap (·.localName) ↔
      NotYetThere w main set b := by
  rw [List.mem_filterMap]
  constructor
  · rintro ⟨c, hc, hb⟩
    obtain ⟨b', h1, rfl⟩ := (unsubmitted_iff hw h).1 hc
    exact Option.some.inj hb ▸ h1
  · intro h1
    exact ⟨_, (unsubmitted_iff hw h).2 ⟨b, h1, rfl⟩, rfl⟩

theorem needsUpdate_names {b : Text} :
    b ∈ (commitsWith .needsUpdate (statusesOf w main set)).filterMap (·.localName) ↔
      OutOfDate w main set b := by
  rw [List.mem_filterMap]
  constructor
  · rintro ⟨c, hc, hb⟩
    obtain ⟨b', h1, rfl⟩ := (needsUpdate_iff hw h).1 hc
    exact Option.some.inj hb ▸ h1
  · intro h1
    exact ⟨_, (needsUpdate_iff hw h).2 ⟨b, h1, rfl⟩, rfl⟩

theorem upToDate_names {b : Text} :
    b ∈ ((commitsWith .upToDate (statusesOf w main set)).filter fun c => c.localName.isSome).filterMap
      (·.localName) ↔ UpToDate w main set b := by
  rw [List.mem_filterMap]
  constructor
  · rintro ⟨c, hc, hb⟩
    obtain ⟨b', h1, rfl⟩ := (upToDate_iff hw h).1 (List.mem_filter.1 hc).1
    exact Option.some.inj hb ▸ h1
  · intro h1
    exact ⟨_, List.mem_filter.2 ⟨(upToDate_iff hw h).2 ⟨b, h1, rfl⟩, rfl⟩, rfl⟩

theorem update_pairs {r b : Text} :
    (r, b) ∈ groupPairs (updateGroups (commitsWith .needsUpdate (statusesOf w main set))) ↔
      OutOfDate w main set b ∧ PushesTo w b r := by
  rw [mem_groupPairs, mem_updateGroups]
  constructor
  · rintro ⟨c, hc, h1, h2⟩
    obtain ⟨b', h3, rfl⟩ := (needsUpdate_iff hw h).1 hc
    obtain rfl := Option.some.inj h2
    exact ⟨h3, pushRemoteName_iff.1 h1⟩
  · rintro ⟨h1, h2⟩
    exact ⟨_, (needsUpdate_iff hw h).2 ⟨b, h1, rfl⟩, pushRemoteName_iff.2 h2, rfl⟩

theorem update_pairs_nodup :
    ((groupPairs (updateGroups (commitsWith .needsUpdate (statusesOf w main set)))).map Prod.snd).Nodup := by
  have hg := groups_nodup (commitsWith .needsUpdate (statusesOf w main set))
  refine List.Nodup.map_on ?_ ?_
  · rintro ⟨r, b⟩ h1 ⟨r', b'⟩ h2 e
    simp only at e
    subst e
    have e1 := ((update_pairs hw h).1 h1).2
    have e2 := ((update_pairs hw h).1 h2).2
    rw [← pushRemoteName_iff] at e1 e2
    rw [e1] at e2
    rw [Option.some.inj e2]
  · unfold groupPairs
    rw [List.nodup_flatMap]
    constructor
    · intro g hgm
      exact (hg.2 g hgm).map fun a b e => (Prod.mk.inj e).2
    · refine hg.1.imp ?_
      intro g g' hne x hx hx'
      obtain ⟨b, -, rfl⟩ := List.mem_map.1 hx
      obtain ⟨b', -, e⟩ := List.mem_map.1 hx'
      exact hne (Prod.mk.inj e).1.symm

end Statuses

theorem outOfDate_remote {w : SubmitWorld} {main : Text} {set : List Oid} {b : Text}
    (h : OutOfDate w main set b) : ∃ r, PushesTo w b r := by
  obtain ⟨o, u, -, -, ⟨r, m, hr, -, -⟩, -⟩ := h
  cases hp : w.pushRemote b with
  | some r' => exact ⟨r', .inl hp⟩
  | none => exact ⟨r, .inr ⟨hp, hr⟩⟩

/-! ### the pushes -/

theorem pushedNew_append (a b : List GitCommand) : pushedNew (a ++ b) = pushedNew a ++ pushedNew b := by
  unfold pushedNew; rw [List.flatMap_append]

theorem pushedLease_append (a b : List GitCommand) : pushedLease (a ++ b) = pushedLease a ++ pushedLease b := by
  unfold pushedLease; rw [List.flatMap_append]

theorem fetchAll_commands (w : SubmitWorld) (gs : List (Text × List Text)) :
    pushedNew (fetchAll w gs).2.1 = [] ∧ pushedLease (fetchAll w gs).2.1 = [] := by
  induction gs generalizing w with
  | nil => exact ⟨rfl, rfl⟩
  | cons g gs ih =>
    obtain ⟨r, refs⟩ := g
    rw [fetchAll]
    simp only
    split
    · exact ih (w.fetch r refs).1
    · exact ⟨rfl, rfl⟩

/-- What the first part does. -/
structure CreateDone (w : SubmitWorld) (main : Text) (create dry : Bool) (names : List Text)
    (x : SubmitWorld × List GitCommand × Option (List Text × List Text)) : Prop where
  lease : pushedLease x.2.1 = []
  idle : create = false ∨ dry = true → x.2.1 = [] ∧ x.1 = w
  new : pushedNew x.2.1 = [] ∨ ∃ (r : Text) (l : List Text), w.defaultPushRemote main = some r ∧ l.Perm names ∧
    pushedNew x.2.1 = l.map fun b => (r, b)
  same : Pushed w x.1
  others : ∀ r y, (¬ ∃ b, (r, b) ∈ pushedNew x.2.1 ∧ y = fullName b) →
    x.1.remotes.get? (r, y) = w.remotes.get? (r, y)
  value : ∀ r b, x.1.remotes.get? (r, fullName b) = w.refs.get? (fullName b) ∨
    x.1.remotes.get? (r, fullName b) = w.remotes.get? (r, fullName b)
  flag : ∀ s, x.2.2 = some s →
    (∀ b, b ∈ s.1 ↔ create = true ∧ b ∈ names) ∧ (∀ b, b ∈ s.2 ↔ create = false ∧ b ∈ names) ∧
    (create = true → dry = false →
      (∀ b ∈ names, ∃ r, w.defaultPushRemote main = some r ∧ (r, b) ∈ pushedNew x.2.1) ∧
      ∀ r b, (r, b) ∈ pushedNew x.2.1 → r ≠ t!"." →
        x.1.remotes.get? (r, fullName b) = w.refs.get? (fullName b))

theorem create_done (w : SubmitWorld) (main : Text) (create dry : Bool) (cs : List CommitStatus) :
    CreateDone w main create dry (cs.filterMap (·.localName)) (submitCreate w main create dry cs) := by
  unfold submitCreate
  cases create with
  | false =>
    exact ⟨rfl, fun _ => ⟨rfl, rfl⟩, .inl rfl, .refl w, fun _ _ _ => rfl, fun _ _ => .inr rfl,
      fun s hs => by
        obtain rfl := Option.some.inj hs
        exact ⟨fun b => by simp, fun b => by simp [mem_sortedSet], fun h => by cases h⟩⟩
  | true =>
    cases dry with
    | true =>
      exact ⟨rfl, fun _ => ⟨rfl, rfl⟩, .inl rfl, .refl w, fun _ _ _ => rfl, fun _ _ => .inr rfl,
        fun s hs => by
          obtain rfl := Option.some.inj hs
          exact ⟨fun b => by simp [mem_sortedSet], fun b => by simp, fun _ h => by cases h⟩⟩
    | false =>
      simp only [if_true, Bool.false_eq_true, if_false]
      unfold createBranches
      simp only
      cases hd : w.defaultPushRemote main with
      | none =>
        simp only [Option.map_none]
        exact ⟨rfl, fun h => by (rcases h with h | h <;> cases h), .inl rfl, .refl w, fun _ _ _ => rfl,
          fun _ _ => .inr rfl, fun s hs => by cases hs⟩
      | some r =>
        simp only
        by_cases he : ((cs.filterMap (·.localName)).insertionSort (· ≤ ·)).isEmpty = true
        · rw [if_pos he]
          have hnil : cs.filterMap (·.localName) = [] := by
            have := List.isEmpty_iff.1 he
            exact List.Perm.nil_eq (this ▸ (List.perm_insertionSort (· ≤ ·) _)) |>.symm
          refine ⟨rfl, fun h => by (rcases h with h | h <;> cases h), .inl rfl, .refl w, fun _ _ _ => rfl,
            fun _ _ => .inr rfl, fun s hs => ?_⟩
          obtain rfl := Option.some.inj hs
          rw [hnil]
          refine ⟨fun b => by simp [mem_sortedSet], fun b => by simp, fun _ _ => ⟨fun b hb => absurd hb List.not_mem_nil, ?_⟩⟩
          intro r b hb; cases hb
        · rw [if_neg he]
          have hp := push_done pushNewOne_step w r ((cs.filterMap (·.localName)).insertionSort (· ≤ ·))
          generalize hl : (cs.filterMap (·.localName)).insertionSort (· ≤ ·) = l at hp
          have hperm : l.Perm (cs.filterMap (·.localName)) := hl ▸ List.perm_insertionSort _ _
          generalize w.push r l SubmitWorld.pushNewOne = x at hp
          have hn : pushedNew [GitCommand.pushNew r l] = l.map fun b => (r, b) := by simp [pushedNew]
          refine ⟨rfl, fun h => by (rcases h with h | h <;> cases h), .inr ⟨r, l, hd, hperm, hn⟩, hp.same, ?_, ?_, ?_⟩
          · intro r' y hy
            rw [hn] at hy
            refine hp.others _ fun ⟨b, hb, e⟩ => hy ⟨b, ?_, (Prod.mk.inj e).2⟩
            rw [(Prod.mk.inj e).1]
            exact List.mem_map.2 ⟨b, hb, rfl⟩
          · intro r' b
            by_cases hb : ∃ b' ∈ l, (r', fullName b) = (r, fullName b')
            · obtain ⟨b', hb', e⟩ := hb
              obtain ⟨rfl, e2⟩ := Prod.mk.inj e
              obtain rfl := fullName_inj e2
              exact hp.value _ hb'
            · right; exact hp.others _ hb
          · intro s hs
            by_cases hx : x.2 = true
            · simp only [hx, if_true, Option.map_some, Option.some.injEq] at hs
              subst hs
              refine ⟨fun b => by simp [mem_sortedSet], fun b => by simp, fun _ _ => ⟨?_, ?_⟩⟩
              · intro b hb
                refine ⟨r, hd, ?_⟩
                rw [hn]
                exact List.mem_map.2 ⟨b, hperm.mem_iff.2 hb, rfl⟩
              · intro r' b hb hr'
                rw [hn] at hb
                obtain ⟨b', hb', e⟩ := List.mem_map.1 hb
                obtain ⟨rfl, rfl⟩ := Prod.mk.inj e
                exact hp.flag hx hr' b' hb'
            · simp [hx] at hs

/-- What the whole command does after fetching. -/
structure SubmitDone (w : SubmitWorld) (main : Text) (set : List Oid) (create dry : Bool)
    (x : SubmitWorld × List GitCommand × Option SubmitReport) : Prop where
  dryRun : dry = true → pushedNew x.2.1 = [] ∧ pushedLease x.2.1 = []
  new : ∀ r b, (r, b) ∈ pushedNew x.2.1 → create = true ∧ DefaultRemote w main r ∧ NotYetThere w main set b
  lease : ∀ r b, (r, b) ∈ pushedLease x.2.1 → PushesTo w b r ∧ OutOfDate w main set b
  once : ((pushedNew x.2.1 ++ pushedLease x.2.1).map Prod.snd).Nodup
  others : ∀ r y, (¬ ∃ b, ((r, b) ∈ pushedNew x.2.1 ∨ (r, b) ∈ pushedLease x.2.1) ∧ y = fullName b) →
    x.1.remotes.get? (r, y) = w.remotes.get? (r, y)
  refs : x.1.refs = w.refs
  done : ∀ R, x.2.2 = some R →
    (dry = false → (∀ b r, OutOfDate w main set b → PushesTo w b r → (r, b) ∈ pushedLease x.2.1) ∧
      (create = true → ∀ b, NotYetThere w main set b → ∃ r, DefaultRemote w main r ∧ (r, b) ∈ pushedNew x.2.1)) ∧
    (∀ r b, (r, b) ∈ pushedNew x.2.1 ∨ (r, b) ∈ pushedLease x.2.1 → r ≠ t!"." →
      x.1.remotes.get? (r, fullName b) = w.refs.get? (fullName b)) ∧
    (∀ b, b ∈ R.updated ↔ OutOfDate w main set b) ∧ (∀ b, b ∈ R.skipped ↔ UpToDate w main set b) ∧
    (∀ b, b ∈ R.submitted ↔ create = true ∧ NotYetThere w main set b) ∧
    (∀ b, b ∈ R.unsubmitted ↔ create = false ∧ NotYetThere w main set b)

theorem not_both {w : SubmitWorld} {main : Text} {set : List Oid} {b : Text} (h : NotYetThere w main set b)
    (h' : OutOfDate w main set b) : False := by
  obtain ⟨-, -, -, h⟩ := h
  obtain ⟨o, u, -, -, hu, -⟩ := h'
  exact h u hu

theorem defaultPushRemote_fetch (w : SubmitWorld) (main : Text) (set : List Oid) (m : Text) :
    (afterFetch w main set).defaultPushRemote m = w.defaultPushRemote m := by
  obtain ⟨t, ht⟩ := afterFetch_same w main set
  rw [ht]
  rfl

theorem submit_done {w : SubmitWorld} (hw : AMap.WF w.refs) (main : Text) (set : List Oid) (create dry : Bool) :
    SubmitDone w main set create dry (submit w main set create dry) := by
  obtain ⟨t, ht⟩ := afterFetch_same w main set
  have hrefs : (afterFetch w main set).refs = w.refs := by rw [ht]
  have hrem : (afterFetch w main set).remotes = w.remotes := by rw [ht]
  have hcmd := fetchAll_commands w (fetchGroups (branchInfos w main set))
  unfold submit
  simp only
  by_cases h : (fetchAll w (fetchGroups (branchInfos w main set))).2.2 = true
  swap
  · rw [if_neg h]
    refine ⟨fun _ => hcmd, ?_, ?_, ?_, ?_, hrefs, fun R hR => by cases hR⟩
    · intro r b hb; simp only [hcmd.1] at hb; cases hb
    · intro r b hb; simp only [hcmd.2] at hb; cases hb
    · simp only [hcmd.1, hcmd.2]; exact List.nodup_nil
    · intro r y _
      show (afterFetch w main set).remotes.get? (r, y) = _
      rw [hrem]
  · rw [if_pos h]
    show SubmitDone w main set create dry
      ((submitStatuses (afterFetch w main set) main create dry (statusesOf w main set)).1,
        (fetchAll w (fetchGroups (branchInfos w main set))).2.1 ++
          (submitStatuses (afterFetch w main set) main create dry (statusesOf w main set)).2.1,
        (submitStatuses (afterFetch w main set) main create dry (statusesOf w main set)).2.2)
    have hN : ∀ c, pushedNew ((fetchAll w (fetchGroups (branchInfos w main set))).2.1 ++ c) = pushedNew c := by
      intro c; rw [pushedNew_append, hcmd.1]; rfl
    have hL : ∀ c, pushedLease ((fetchAll w (fetchGroups (branchInfos w main set))).2.1 ++ c) = pushedLease c := by
      intro c; rw [pushedLease_append, hcmd.2]; rfl
    have hc := create_done (afterFetch w main set) main create dry
      (commitsWith .unsubmitted (statusesOf w main set))
    have hnm := fun b => unsubmitted_names hw h (b := b)
    have hnd := names_nodup hw (main := main) (set := set) .unsubmitted
    have hdef : ∀ r, (afterFetch w main set).defaultPushRemote main = some r ↔ DefaultRemote w main r := by
      intro r; rw [defaultPushRemote_fetch, defaultPushRemote_iff]
    generalize (afterFetch w main set) = w1 at *
    unfold submitStatuses
    simp only
    generalize (commitsWith .unsubmitted (statusesOf w main set)).filterMap (·.localName) = names at *
    generalize submitCreate w1 main create dry (commitsWith .unsubmitted (statusesOf w main set)) = x at hc
    have newOk : ∀ r b, (r, b) ∈ pushedNew x.2.1 →
        create = true ∧ DefaultRemote w main r ∧ NotYetThere w main set b := by
      intro r b hb
      have hcr : create = true := by
        by_contra hcf
        have := (hc.idle (.inl (by simpa using hcf))).1
        rw [this] at hb; cases hb
      rcases hc.new with hn | ⟨r', l, h1, h2, hn⟩
      · rw [hn] at hb; cases hb
      · rw [hn] at hb
        obtain ⟨b', hb', e⟩ := List.mem_map.1 hb
        obtain ⟨rfl, rfl⟩ := Prod.mk.inj e
        exact ⟨hcr, (hdef _).1 h1, (hnm _).1 (h2.mem_iff.1 hb')⟩
    have newNodup : ((pushedNew x.2.1).map Prod.snd).Nodup := by
      rcases hc.new with hn | ⟨r', l, h1, h2, hn⟩
      · rw [hn]; exact List.nodup_nil
      · rw [hn, List.map_map]
        have : (Prod.snd ∘ fun b : Text => (r', b)) = id := rfl
        rw [this, List.map_id, h2.nodup_iff]
        exact hnd
    cases hx : x.2.2 with
    | none =>
      simp only
      refine ⟨?_, ?_, ?_, ?_, ?_, ?_, fun R hR => by cases hR⟩
      · intro hd
        simp only [hN, hL]
        rw [(hc.idle (.inr hd)).1]
        exact ⟨rfl, rfl⟩
      · intro r b hb
        simp only [hN] at hb
        exact newOk r b hb
      · intro r b hb
        simp only [hL, hc.lease] at hb
        cases hb
      · simp only [hN, hL, hc.lease, List.append_nil]
        exact newNodup
      · intro r y hy
        simp only [hN, hL, hc.lease] at hy
        rw [← hrem]
        refine hc.others r y fun ⟨b, hb, e⟩ => hy ⟨b, .inl hb, e⟩
      · rw [← hrefs]; exact hc.same.refs
    | some names' =>
      simp only
      obtain ⟨f1, f2, f3⟩ := hc.flag _ hx
      unfold submitUpdate
      cases dry with
      | true =>
        simp only [if_true]
        obtain ⟨i1, i2⟩ := hc.idle (.inr rfl)
        refine ⟨?_, ?_, ?_, ?_, ?_, ?_, ?_⟩
        · intro _
          simp only [hN, hL, i1]
          exact ⟨rfl, rfl⟩
        · intro r b hb
          simp only [hN, i1] at hb
          cases hb
        · intro r b hb
          simp only [hL, i1] at hb
          cases hb
        · simp only [hN, hL, i1]
          exact List.nodup_nil
        · intro r y _
          simp only [i2, hrem]
        · simp only [i2, hrefs]
        · intro R hR
          obtain rfl := Option.some.inj hR
          refine ⟨fun h => (by cases h), ?_, ?_, ?_, ?_, ?_⟩
          · intro r b hb
            simp only [hN, hL, i1] at hb
            rcases hb with hb | hb <;> cases hb
          · intro b; rw [mem_sortedSet, needsUpdate_names hw h]
          · intro b; rw [mem_sortedSet, upToDate_names hw h]
          · intro b; rw [f1, hnm]
          · intro b; rw [f2, hnm]
      | false =>
        simp only [Bool.false_eq_true, if_false]
        have hu := updateAll_done x.1 (updateGroups (commitsWith .needsUpdate (statusesOf w main set)))
        have hpairs := fun r b => update_pairs hw h (r := r) (b := b)
        have hpn := update_pairs_nodup hw h
        obtain ⟨rest, hr1, hr2⟩ := hu.lease
        rw [hr1] at hpn
        simp only [hr1] at hpairs
        generalize updateAll x.1 (updateGroups (commitsWith .needsUpdate (statusesOf w main set))) = y at *
        have hN' : pushedNew (x.2.1 ++ y.2.1) = pushedNew x.2.1 := by
          rw [pushedNew_append, hu.new, List.append_nil]
        have hL' : pushedLease (x.2.1 ++ y.2.1) = pushedLease y.2.1 := by
          rw [pushedLease_append, hc.lease, List.nil_append]
        have leaseOk : ∀ r b, (r, b) ∈ pushedLease y.2.1 → OutOfDate w main set b ∧ PushesTo w b r :=
          fun r b hb => (hpairs r b).1 (List.mem_append_left _ hb)
        refine ⟨fun h => (by cases h), ?_, ?_, ?_, ?_, ?_, ?_⟩
        · intro r b hb
          simp only [hN, hN'] at hb
          exact newOk r b hb
        · intro r b hb
          simp only [hL, hL'] at hb
          exact (leaseOk r b hb).symm
        · simp only [hN, hL, hN', hL', List.map_append]
          rw [List.map_append] at hpn
          refine List.Nodup.append newNodup hpn.of_append_left ?_
          intro b h1 h2
          obtain ⟨⟨r1, b1⟩, k1, e1⟩ := List.mem_map.1 h1
          obtain ⟨⟨r2, b2⟩, k2, e2⟩ := List.mem_map.1 h2
          obtain rfl : b1 = b := e1
          obtain rfl : b2 = b1 := e2
          exact not_both (newOk _ _ k1).2.2 (leaseOk _ _ k2).1
        · intro r z hz
          simp only [hN, hL, hN', hL'] at hz
          rw [← hrem]
          exact (hu.others r z fun ⟨b, hb, e⟩ => hz ⟨b, .inr hb, e⟩).trans
            (hc.others r z fun ⟨b, hb, e⟩ => hz ⟨b, .inl hb, e⟩)
        · rw [← hrefs]; exact hu.same.refs.trans hc.same.refs
        · intro R hR
          by_cases hy : y.2.2 = true
          · simp only [hy, if_true, Option.some.injEq] at hR
            subst hR
            have hrest := hr2 hy
            subst hrest
            rw [List.append_nil] at hpairs
            refine ⟨fun _ => ⟨?_, ?_⟩, ?_, ?_, ?_, ?_, ?_⟩
            · intro b r h1 h2
              simp only [hL, hL']
              exact (hpairs r b).2 ⟨h1, h2⟩
            · intro hcr b hb
              obtain ⟨r, h1, h2⟩ := (f3 hcr rfl).1 b ((hnm b).2 hb)
              simp only [hN, hN']
              exact ⟨r, (hdef r).1 h1, h2⟩
            · intro r b hb hr
              simp only [hN, hL, hN', hL'] at hb
              rw [← hrefs]
              rcases hb with hb | hb
              · have h1 := (f3 (newOk r b hb).1 rfl).2 r b hb hr
                rcases hu.value r b with hv | hv
                · exact hv.trans (by rw [hc.same.refs])
                · exact hv.trans h1
              · exact (hu.flag hy r b hb hr).trans (by rw [hc.same.refs])
            · intro b; rw [mem_sortedSet, needsUpdate_names hw h]
            · intro b; rw [mem_sortedSet, upToDate_names hw h]
            · intro b; rw [f1, hnm]
            · intro b; rw [f2, hnm]
          · simp [hy] at hR

/-! ### success -/

theorem fetchAll_ok_iff (w : SubmitWorld) (gs : List (Text × List Text)) :
    (fetchAll w gs).2.2 = true ↔ ∀ g ∈ gs, (g.1 = t!"." ∧ ∀ x ∈ g.2, (w.refs.get? x).isSome) ∨
      (g.1 ≠ t!"." ∧ w.reachable g.1 = true ∧ ∀ x ∈ g.2, (w.remotes.get? (g.1, x)).isSome) := by
  induction gs generalizing w with
  | nil => exact ⟨fun _ _ h => absurd h List.not_mem_nil, fun _ => rfl⟩
  | cons g gs ih =>
    obtain ⟨r, refs⟩ := g
    obtain ⟨t, ht⟩ := fetch_same w r refs
    have h1 : (w.fetch r refs).2 = true ↔ (r = t!"." ∧ ∀ x ∈ refs, (w.refs.get? x).isSome) ∨
        (r ≠ t!"." ∧ w.reachable r = true ∧ ∀ x ∈ refs, (w.remotes.get? (r, x)).isSome) := by
      unfold SubmitWorld.fetch
      by_cases hr : r = t!"."
      · rw [if_pos hr]
        simp [hr]
      · rw [if_neg hr]
        split
        · rename_i hc
          simp only [Bool.and_eq_true, List.all_eq_true] at hc
          simp [hr, hc.1]
          exact fun a ha => by simpa using hc.2 a ha
        · rename_i hc
          simp only [Bool.and_eq_true, List.all_eq_true] at hc
          simp only [Bool.false_eq_true, false_iff]
          rintro (h | h)
          · exact hr h.1
          · exact hc h.2
    rw [fetchAll]
    simp only
    by_cases hf : (w.fetch r refs).2 = true
    · rw [if_pos hf]
      simp only
      rw [ih, ht]
      simp only [List.mem_cons, forall_eq_or_imp]
      exact ⟨fun h => ⟨h1.1 hf, h⟩, fun h => h.2⟩
    · rw [if_neg hf]
      simp only [List.mem_cons, forall_eq_or_imp, Bool.false_eq_true, false_iff]
      exact fun h => hf (h1.2 h.1)

theorem fetch_ok_iff {w : SubmitWorld} (hw : AMap.WF w.refs) {main : Text} {set : List Oid} :
    (fetchAll w (fetchGroups (branchInfos w main set))).2.2 = true ↔ CanFetch w main set := by
  rw [fetchAll_ok_iff]
  constructor
  · intro h r x hx hr
    obtain ⟨g, hg, rfl, hx'⟩ := (mem_fetchGroups hw).2 hx
    rcases h g hg with h | h
    · exact absurd h.1 hr
    · exact ⟨h.2.1, h.2.2 x hx'⟩
  · intro h g hg
    by_cases hr : g.1 = t!"."
    · left
      refine ⟨hr, fun x hx => ?_⟩
      obtain ⟨b, o, hc, -, rfl⟩ := (mem_fetchGroups hw).1 ⟨g, hg, rfl, hx⟩
      rw [hc.there]; rfl
    · right
      have h1 := fun x hx => h g.1 x ((mem_fetchGroups hw).1 ⟨g, hg, rfl, hx⟩) hr
      refine ⟨hr, ?_, fun x hx => (h1 x hx).2⟩
      obtain ⟨r, hr', rfl⟩ := List.mem_map.1 hg
      rw [mem_sortedSet, List.mem_filterMap] at hr'
      obtain ⟨i, hi, hir⟩ := hr'
      exact (h1 i.ref (mem_sortedSet.2 (List.mem_map.2
        ⟨i, List.mem_filter.2 ⟨hi, by simpa using hir⟩, rfl⟩))).1

theorem report_fetch {w : SubmitWorld} {main : Text} {set : List Oid} {create dry : Bool} {R : SubmitReport}
    (h : (submit w main set create dry).2.2 = some R) :
    (fetchAll w (fetchGroups (branchInfos w main set))).2.2 = true := by
  by_contra hf
  unfold submit at h
  simp only at h
  rw [if_neg hf] at h
  cases h

/-- What pushing does not change. -/
structure Still (w w' : SubmitWorld) : Prop where
  refs : w'.refs = w.refs
  accepts : w'.accepts = w.accepts
  reachable : w'.reachable = w.reachable
  isAncestor : w'.isAncestor = w.isAncestor
  lease : ∀ k, w.remotes.get? k = w.tracking.get? k → w'.remotes.get? k = w'.tracking.get? k

theorem Still.refl (w : SubmitWorld) : Still w w := ⟨rfl, rfl, rfl, rfl, fun _ h => h⟩

theorem Still.trans {a b c : SubmitWorld} (h : Still a b) (h' : Still b c) : Still a c :=
  ⟨h'.refs.trans h.refs, h'.accepts.trans h.accepts, h'.reachable.trans h.reachable,
    h'.isAncestor.trans h.isAncestor, fun k hk => h'.lease k (h.lease k hk)⟩

theorem pushOne_still (w : SubmitWorld) (r x : Text) (o : Oid) (a : Bool) : Still w (w.pushOne r x o a).1 := by
  have put : Still w (w.putRemote r x o) := by
    refine ⟨rfl, rfl, rfl, rfl, fun k hk => ?_⟩
    unfold SubmitWorld.putRemote
    simp only
    rw [AMap.get?_insert, AMap.get?_insert, hk]
  unfold SubmitWorld.pushOne
  split
  · exact put
  · split
    · exact put
    · exact .refl w

theorem pushNewOne_still (r : Text) (s : SubmitWorld × Bool) (b : Text) :
    Still s.1 (SubmitWorld.pushNewOne r s b).1 := by
  unfold SubmitWorld.pushNewOne
  split
  · exact .refl _
  · rename_i o ho
    simp only
    have h := pushOne_still s.1 r (fullName b) o (s.1.fastForward r (fullName b) o)
    split
    · exact ⟨h.refs, h.accepts, h.reachable, h.isAncestor, h.lease⟩
    · exact h

theorem pushLeaseOne_still (r : Text) (s : SubmitWorld × Bool) (b : Text) :
    Still s.1 (SubmitWorld.pushLeaseOne r s b).1 := by
  unfold SubmitWorld.pushLeaseOne
  split
  · exact .refl _
  · exact pushOne_still ..

theorem push_still {one : Text → SubmitWorld × Bool → Text → SubmitWorld × Bool}
    (hone : ∀ r s b, Still s.1 (one r s b).1) (w : SubmitWorld) (r : Text) (bs : List Text) :
    Still w (w.push r bs one).1 := by
  have fold : ∀ (bs : List Text) (s : SubmitWorld × Bool), Still s.1 (bs.foldl (one r) s).1 := by
    intro bs
    induction bs with
    | nil => intro s; exact .refl _
    | cons b bs ih => intro s; exact (hone r s b).trans (ih _)
  unfold SubmitWorld.push
  split
  · exact .refl _
  · split
    · exact fold bs (w, true)
    · exact .refl _

theorem pushOne_ok {w : SubmitWorld} {r x : Text} {o : Oid} {a : Bool} (h1 : a = true)
    (h2 : w.accepts r x = true) : (w.pushOne r x o a).2 = true := by
  unfold SubmitWorld.pushOne
  split
  · rfl
  · simp [h1, h2]

theorem pushLease_ok {w : SubmitWorld} {r : Text} {bs : List Text} (hr : r = t!"." ∨ w.reachable r = true)
    (h : ∀ b ∈ bs, (w.refs.get? (fullName b)).isSome ∧ (r ≠ t!"." → w.accepts r (fullName b) = true ∧
      w.remotes.get? (r, fullName b) = w.tracking.get? (r, fullName b))) :
    (w.push r bs SubmitWorld.pushLeaseOne).2 = true := by
  unfold SubmitWorld.push
  by_cases hd : r = t!"."
  · rw [if_pos hd]
  · rw [if_neg hd, if_pos (hr.resolve_left hd)]
    have fold : ∀ (bs : List Text) (s : SubmitWorld × Bool), s.2 = true → (∀ b ∈ bs,
        (s.1.refs.get? (fullName b)).isSome ∧ s.1.accepts r (fullName b) = true ∧
        s.1.remotes.get? (r, fullName b) = s.1.tracking.get? (r, fullName b)) →
        (bs.foldl (SubmitWorld.pushLeaseOne r) s).2 = true := by
      intro bs
      induction bs with
      | nil => intro s hs _; exact hs
      | cons b bs ih =>
        intro s hs hb
        rw [List.foldl_cons]
        have hst := pushLeaseOne_still r s b
        refine ih _ ?_ ?_
        · obtain ⟨h1, h2, h3⟩ := hb b List.mem_cons_self
          obtain ⟨o, ho⟩ := Option.isSome_iff_exists.1 h1
          unfold SubmitWorld.pushLeaseOne
          rw [ho]
          simp only
          rw [hs, pushOne_ok (by unfold SubmitWorld.lease; simpa using h3) h2]
          rfl
        · intro b' hb'
          obtain ⟨h1, h2, h3⟩ := hb b' (List.mem_cons_of_mem _ hb')
          exact ⟨hst.refs ▸ h1, hst.accepts ▸ h2, hst.lease _ h3⟩
    exact fold bs (w, true) rfl fun b hb => ⟨(h b hb).1, (h b hb).2 hd⟩

theorem pushNew_ok {w : SubmitWorld} {r : Text} {bs : List Text} (hr : r = t!"." ∨ w.reachable r = true)
    (hn : bs.Nodup)
    (h : ∀ b ∈ bs, ∃ o, w.refs.get? (fullName b) = some o ∧ w.accepts r (fullName b) = true ∧
      ∀ old, w.remotes.get? (r, fullName b) = some old → w.isAncestor old o = true) :
    (w.push r bs SubmitWorld.pushNewOne).2 = true := by
  unfold SubmitWorld.push
  by_cases hd : r = t!"."
  · rw [if_pos hd]
  · rw [if_neg hd, if_pos (hr.resolve_left hd)]
    have fold : ∀ (bs : List Text) (s : SubmitWorld × Bool), s.2 = true → bs.Nodup → (∀ b ∈ bs,
        ∃ o, s.1.refs.get? (fullName b) = some o ∧ s.1.accepts r (fullName b) = true ∧
        ∀ old, s.1.remotes.get? (r, fullName b) = some old → s.1.isAncestor old o = true) →
        (bs.foldl (SubmitWorld.pushNewOne r) s).2 = true := by
      intro bs
      induction bs with
      | nil => intro s hs _ _; exact hs
      | cons b bs ih =>
        intro s hs hnd hb
        rw [List.foldl_cons]
        rw [List.nodup_cons] at hnd
        have hst := pushNewOne_still r s b
        have hstep := pushNewOne_step r s b
        refine ih _ ?_ hnd.2 ?_
        · obtain ⟨o, ho, h2, h3⟩ := hb b List.mem_cons_self
          unfold SubmitWorld.pushNewOne
          rw [ho]
          simp only
          rw [if_pos]
          · exact hs
          · refine pushOne_ok ?_ h2
            unfold SubmitWorld.fastForward
            split
            · rename_i old hold
              exact h3 old hold
            · rfl
        · intro b' hb'
          obtain ⟨o, h1, h2, h3⟩ := hb b' (List.mem_cons_of_mem _ hb')
          refine ⟨o, hst.refs ▸ h1, hst.accepts ▸ h2, ?_⟩
          intro old hold
          rw [hstep.others _ fun e => hnd.1 (fullName_inj (Prod.mk.inj e).2 ▸ hb')] at hold
          rw [hst.isAncestor]
          exact h3 old hold
    exact fold bs (w, true) rfl hn h

theorem updateAll_ok {w : SubmitWorld} {gs : List (Text × List Text)}
    (h : ∀ g ∈ gs, (g.1 = t!"." ∨ w.reachable g.1 = true) ∧ ∀ b ∈ g.2, (w.refs.get? (fullName b)).isSome ∧
      (g.1 ≠ t!"." → w.accepts g.1 (fullName b) = true ∧
        w.remotes.get? (g.1, fullName b) = w.tracking.get? (g.1, fullName b))) :
    (updateAll w gs).2.2 = true := by
  induction gs generalizing w with
  | nil => rfl
  | cons g gs ih =>
    obtain ⟨r, bs⟩ := g
    obtain ⟨h1, h2⟩ := h (r, bs) List.mem_cons_self
    have hst := push_still pushLeaseOne_still w r bs
    rw [updateAll]
    simp only
    rw [if_pos (pushLease_ok h1 h2)]
    refine ih fun g hg => ?_
    obtain ⟨k1, k2⟩ := h g (List.mem_cons_of_mem _ hg)
    refine ⟨hst.reachable ▸ k1, fun b hb => ⟨hst.refs ▸ (k2 b hb).1, fun hne => ?_⟩⟩
    exact ⟨hst.accepts ▸ ((k2 b hb).2 hne).1, hst.lease _ ((k2 b hb).2 hne).2⟩

theorem updateGroups_nonempty {cs : List CommitStatus} {g : Text × List Text} (hg : g ∈ updateGroups cs) :
    ∃ b, b ∈ g.2 := by
  obtain ⟨r, hr, rfl⟩ := List.mem_map.1 hg
  rw [mem_sortedSet, List.mem_map] at hr
  obtain ⟨⟨r', b⟩, hm, rfl⟩ := hr
  refine ⟨b, ?_⟩
  rw [mem_sortedSet, List.mem_map]
  exact ⟨(r', b), List.mem_filter.2 ⟨hm, by simp⟩, rfl⟩

/-- C47: the command succeeds if the remotes let it. In particular, the lease of `--force-with-lease` does
not fail, as it was just fetched. -/
theorem submit_succeeds {w : SubmitWorld} (hw : AMap.WF w.refs) {main : Text} {set : List Oid}
    {create dry : Bool} (hf : CanFetch w main set) (hu : CanUpdate w main set)
    (hc : create = true → CanCreate w main set) : ∃ R, (submit w main set create dry).2.2 = some R := by
  have h := (fetch_ok_iff hw).2 hf
  obtain ⟨t, ht⟩ := afterFetch_same w main set
  have htr := fun k hk => fetchAll_tracking h k hk
  unfold submit
  simp only
  rw [if_pos h]
  show ∃ R, (submitStatuses (afterFetch w main set) main create dry (statusesOf w main set)).2.2 = some R
  have hnm := fun b => unsubmitted_names hw h (b := b)
  have hnd := names_nodup hw (main := main) (set := set) .unsubmitted
  have hdef : ∀ r, (afterFetch w main set).defaultPushRemote main = some r ↔ DefaultRemote w main r := by
    intro r; rw [defaultPushRemote_fetch, defaultPushRemote_iff]
  have hlease : ∀ r x, r ≠ t!"." → Fetched w main set r x →
      (afterFetch w main set).remotes.get? (r, x) = (afterFetch w main set).tracking.get? (r, x) := by
    intro r x hr hx
    have h1 := (htr (r, x) hr).1 ((mem_fetchGroups hw).2 hx)
    have h2 : (afterFetch w main set).remotes = w.remotes := by rw [ht]
    rw [h2]
    exact h1.symm
  have hrefs : (afterFetch w main set).refs = w.refs := by rw [ht]
  have hrem : (afterFetch w main set).remotes = w.remotes := by rw [ht]
  have hacc : (afterFetch w main set).accepts = w.accepts := by rw [ht]
  have hrea : (afterFetch w main set).reachable = w.reachable := by rw [ht]
  have hanc : (afterFetch w main set).isAncestor = w.isAncestor := by rw [ht]
  have hgrp := fun r b => update_pairs hw h (r := r) (b := b)
  generalize afterFetch w main set = w1 at *
  unfold submitStatuses
  simp only
  have first : Still w1 (submitCreate w1 main create dry (commitsWith .unsubmitted (statusesOf w main set))).1 ∧
      ∃ names, (submitCreate w1 main create dry (commitsWith .unsubmitted (statusesOf w main set))).2.2 =
        some names := by
    generalize commitsWith .unsubmitted (statusesOf w main set) = cs at *
    unfold submitCreate
    cases create with
    | false => exact ⟨.refl _, _, rfl⟩
    | true =>
      cases dry with
      | true => exact ⟨.refl _, _, rfl⟩
      | false =>
        simp only [if_true, Bool.false_eq_true, if_false]
        obtain ⟨r, hr, hall⟩ := hc rfl
        unfold createBranches
        simp only
        rw [(hdef r).2 hr]
        simp only
        split
        · exact ⟨.refl _, _, rfl⟩
        · rename_i hne
          refine ⟨push_still pushNewOne_still _ _ _, ?_⟩
          have hperm := List.perm_insertionSort (· ≤ ·) (cs.filterMap (·.localName))
          generalize (cs.filterMap (·.localName)).insertionSort (· ≤ ·) = l at hperm hne
          have hmem : ∀ b ∈ l, NotYetThere w main set b := fun b hb => (hnm b).1 (hperm.mem_iff.1 hb)
          have hok : (w1.push r l SubmitWorld.pushNewOne).2 = true := by
            refine pushNew_ok ?_ (hperm.nodup_iff.2 hnd) ?_
            · obtain ⟨b, hb⟩ := List.exists_mem_of_ne_nil l (by simpa using hne)
              rw [hrea]
              exact (hall b (hmem b hb)).1
            · intro b hb
              have hnb := hmem b hb
              obtain ⟨-, k2, k3⟩ := hall b hnb
              obtain ⟨o, ho, -⟩ := hnb
              refine ⟨o, hrefs ▸ ho.there, hacc ▸ k2, ?_⟩
              intro old hold
              rw [hanc]
              rw [hrem] at hold
              exact k3 o old ho.there hold
          simp only [hok, if_true, Option.map_some]
          exact ⟨_, rfl⟩
  obtain ⟨hst, names, hnames⟩ := first
  generalize submitCreate w1 main create dry (commitsWith .unsubmitted (statusesOf w main set)) = x at *
  rw [hnames]
  simp only
  have second : (submitUpdate x.1 dry (commitsWith .needsUpdate (statusesOf w main set))).2.2 = true := by
    unfold submitUpdate
    cases dry with
    | true => rfl
    | false =>
      simp only [Bool.false_eq_true, if_false]
      refine updateAll_ok fun g hg => ?_
      have hb : ∀ b ∈ g.2, OutOfDate w main set b ∧ PushesTo w b g.1 := fun b hb =>
        (hgrp g.1 b).1 (mem_groupPairs.2 ⟨g, hg, rfl, hb⟩)
      have hfet : ∀ b, OutOfDate w main set b → PushesTo w b g.1 → Fetched w main set g.1 (fullName b) := by
        rintro b ⟨o, u, ho, -⟩ hp
        exact ⟨b, o, ho, hp, rfl⟩
      constructor
      · by_cases hd : g.1 = t!"."
        · exact .inl hd
        · right
          obtain ⟨b, hbm⟩ := updateGroups_nonempty hg
          obtain ⟨k1, k2⟩ := hb b hbm
          rw [hst.reachable, hrea]
          exact (hf _ _ (hfet b k1 k2) hd).1
      · intro b hbm
        obtain ⟨k1, k2⟩ := hb b hbm
        refine ⟨?_, fun hd => ⟨?_, ?_⟩⟩
        · obtain ⟨o, u, ho, -⟩ := k1
          rw [hst.refs, hrefs]
          unfold fullName
          rw [ho.there]
          rfl
        · rw [hst.accepts, hacc]; exact hu b g.1 k1 k2
        · exact hst.lease _ (hlease _ _ hd (hfet b k1 k2))
  rw [second]
  exact ⟨_, rfl⟩

/-! ### C47 -/

/-- C47: what is pushed. In a dry run, nothing; new branches only with `--create`, to the remote for new
branches; others only if they are out of date, to their remote; and no branch is pushed twice. -/
theorem submit_pushes {w : SubmitWorld} (hw : AMap.WF w.refs) (main : Text) (set : List Oid)
    (create dry : Bool) :
    let cmds := (submit w main set create dry).2.1
    (dry = true → pushedNew cmds = [] ∧ pushedLease cmds = []) ∧
    (∀ r b, (r, b) ∈ pushedNew cmds → create = true ∧ DefaultRemote w main r ∧ NotYetThere w main set b) ∧
    (∀ r b, (r, b) ∈ pushedLease cmds → PushesTo w b r ∧ OutOfDate w main set b) ∧
    ((pushedNew cmds ++ pushedLease cmds).map Prod.snd).Nodup := by
  have h := submit_done hw main set create dry
  exact ⟨h.dryRun, h.new, h.lease, h.once⟩

theorem upstream_unique {w : SubmitWorld} {main : Text} {set : List Oid} {b : Text} {u u' : Oid}
    (h : UpstreamAt w main set b u) (h' : UpstreamAt w main set b u') : u = u' := by
  obtain ⟨r, m, h1, h2, h3⟩ := h
  obtain ⟨r', m', h1', h2', h3'⟩ := h'
  rw [h1] at h1'
  rw [h2] at h2'
  obtain rfl := Option.some.inj h1'
  obtain rfl := Option.some.inj h2'
  have key : ∀ {a : Option Oid}, a = some u → a = some u' → u = u' := by
    intro a e e'
    rw [e] at e'
    exact Option.some.inj e'
  rcases h3 with ⟨hr, h3⟩ | ⟨hr, h3⟩ <;> rcases h3' with ⟨hr', h3'⟩ | ⟨hr', h3'⟩
  · exact key h3 h3'
  · exact absurd hr hr'
  · exact absurd hr' hr
  · rcases h3 with ⟨hf, h3⟩ | ⟨hf, h3⟩ <;> rcases h3' with ⟨hf', h3'⟩ | ⟨hf', h3'⟩
    · exact key h3 h3'
    · exact absurd hf hf'
    · exact absurd hf' hf
    · exact key h3 h3'

theorem branchAt_unique {w : SubmitWorld} {b : Text} {o o' : Oid} (h : BranchAt w b o) (h' : BranchAt w b o') :
    o = o' := by
  unfold BranchAt at h h'
  rw [h] at h'
  exact Option.some.inj h'

/-- C47: a branch which is up to date is not pushed, and without `--create` neither is one which is not yet
at the remote. -/
theorem submit_leaves {w : SubmitWorld} (hw : AMap.WF w.refs) (main : Text) (set : List Oid)
    (create dry : Bool) {r b : Text}
    (h : UpToDate w main set b ∨ (create = false ∧ NotYetThere w main set b)) :
    let cmds := (submit w main set create dry).2.1
    (r, b) ∉ pushedNew cmds ∧ (r, b) ∉ pushedLease cmds := by
  have hd := submit_done hw main set create dry
  constructor
  · intro hb
    obtain ⟨h1, -, o, -, -, hn⟩ := hd.new r b hb
    rcases h with ⟨o', -, -, hu⟩ | ⟨h, -⟩
    · exact hn _ hu
    · rw [h] at h1; cases h1
  · intro hb
    obtain ⟨-, o, u, hc, -, hu, hne⟩ := hd.lease r b hb
    rcases h with ⟨o', hc', -, hu'⟩ | ⟨-, o', -, -, hn⟩
    · obtain rfl := branchAt_unique hc.there hc'.there
      exact hne (upstream_unique hu hu')
    · exact hn _ hu

/-- C47: when the command succeeds, every branch which is out of date was pushed exactly once, and to its
remote; and with `--create` every branch which is not yet there was. Missing for the full claim: branches
which share their commit with another branch (`shared_commit_ignored`), and those whose upstream branch is not
the branch to which they are pushed (`fork_left_out_of_date`). -/
theorem submit_pushes_all_partial {w : SubmitWorld} (hw : AMap.WF w.refs) {main : Text} {set : List Oid}
    {create : Bool} {R : SubmitReport} (hR : (submit w main set create false).2.2 = some R) :
    let cmds := (submit w main set create false).2.1
    (∀ b, OutOfDate w main set b → ∃ r, PushesTo w b r ∧
      (pushedNew cmds ++ pushedLease cmds).filter (fun e => e.2 = b) = [(r, b)]) ∧
    (create = true → ∀ b, NotYetThere w main set b → ∃ r, DefaultRemote w main r ∧
      (pushedNew cmds ++ pushedLease cmds).filter (fun e => e.2 = b) = [(r, b)]) := by
  have hd := submit_done hw main set create false
  obtain ⟨hall, -⟩ := hd.done R hR
  obtain ⟨h1, h2⟩ := hall rfl
  have once : ∀ (l : List (Text × Text)) (r b : Text), (l.map Prod.snd).Nodup → (r, b) ∈ l →
      l.filter (fun e => e.2 = b) = [(r, b)] := by
    intro l r b hn hm
    induction l with
    | nil => cases hm
    | cons e l ih =>
      rw [List.map_cons, List.nodup_cons] at hn
      rcases List.mem_cons.1 hm with rfl | hm
      · rw [List.filter_cons_of_pos (by simp)]
        congr 1
        rw [List.filter_eq_nil_iff]
        intro e he
        simp only [decide_eq_true_eq]
        exact fun h => hn.1 (List.mem_map.2 ⟨e, he, h⟩)
      · rw [List.filter_cons_of_neg]
        · exact ih hn.2 hm
        · simp only [decide_eq_true_eq]
          exact fun h => hn.1 (List.mem_map.2 ⟨_, hm, h.symm⟩)
  constructor
  · intro b hb
    obtain ⟨r, hr⟩ := outOfDate_remote hb
    exact ⟨r, hr, once _ r b hd.once (List.mem_append_right _ (h1 b r hb hr))⟩
  · intro hc b hb
    obtain ⟨r, hr, hm⟩ := h2 hc b hb
    exact ⟨r, hr, once _ r b hd.once (List.mem_append_left _ hm)⟩

/-- C47: what is reported, also in a dry run. -/
theorem submit_report {w : SubmitWorld} (hw : AMap.WF w.refs) {main : Text} {set : List Oid}
    {create dry : Bool} {R : SubmitReport} (hR : (submit w main set create dry).2.2 = some R) (b : Text) :
    (b ∈ R.updated ↔ OutOfDate w main set b) ∧ (b ∈ R.skipped ↔ UpToDate w main set b) ∧
    (b ∈ R.submitted ↔ create = true ∧ NotYetThere w main set b) ∧
    (b ∈ R.unsubmitted ↔ create = false ∧ NotYetThere w main set b) := by
  obtain ⟨-, -, h1, h2, h3, h4⟩ := (submit_done hw main set create dry).done R hR
  exact ⟨h1 b, h2 b, h3 b, h4 b⟩

/-- C47: what changes at the remotes and in the repository. Even if the command fails, no local reference
changes, and no reference of a remote except for the branches which are pushed; and if it succeeds, then
these are as in the repository. -/
theorem submit_effect {w : SubmitWorld} (hw : AMap.WF w.refs) (main : Text) (set : List Oid)
    (create dry : Bool) :
    let x := submit w main set create dry
    x.1.refs = w.refs ∧
    (∀ r y, (¬ ∃ b, ((r, b) ∈ pushedNew x.2.1 ∨ (r, b) ∈ pushedLease x.2.1) ∧ y = t!"refs/heads/" ++ b) →
      x.1.remotes.get? (r, y) = w.remotes.get? (r, y)) ∧
    (∀ R, x.2.2 = some R → ∀ r b, (r, b) ∈ pushedNew x.2.1 ∨ (r, b) ∈ pushedLease x.2.1 → r ≠ t!"." →
      ∀ o, BranchAt w b o → x.1.remotes.get? (r, t!"refs/heads/" ++ b) = some o) := by
  have hd := submit_done hw main set create dry
  refine ⟨hd.refs, hd.others, fun R hR r b hb hr o ho => ?_⟩
  exact ((hd.done R hR).2.1 r b hb hr).trans ho

/-- C47: with the usual configuration, after the command has succeeded, the remote has the branch where it is
in the repository. -/
theorem usual_submit {w : SubmitWorld} (hw : AMap.WF w.refs) {main : Text} {set : List Oid} {create : Bool}
    {R : SubmitReport} (hR : (submit w main set create false).2.2 = some R) {b r : Text} {o : Oid}
    (hc : Selected w main set b o) (ha : Alone w main b o) (hu : UsualUpstream w b r) :
    (submit w main set create false).1.remotes.get? (r, t!"refs/heads/" ++ b) = some o := by
  have hp : PushesTo w b r := by
    rcases hu.push with h | h
    · exact .inr ⟨h, hu.remote⟩
    · exact .inl h
  have hf : Fetched w main set r (t!"refs/heads/" ++ b) := ⟨b, o, hc, hp, rfl⟩
  obtain ⟨u, hru⟩ := Option.isSome_iff_exists.1 (((fetch_ok_iff hw).1 (report_fetch hR) r _ hf hu.notSelf).2)
  have hup : UpstreamAt w main set b u := ⟨r, _, hu.remote, hu.merge, .inr ⟨hu.notSelf, .inl ⟨hf, hru⟩⟩⟩
  obtain ⟨-, h2, h3⟩ := submit_effect hw main set create false
  by_cases huo : u = o
  · subst huo
    rw [h2 r]
    · exact hru
    · rintro ⟨b', hb', e⟩
      obtain rfl := List.append_cancel_left e
      have := submit_leaves hw main set create false (r := r) (b := b) (.inl ⟨u, hc, ha, hup⟩)
      rcases hb' with h | h
      · exact this.1 h
      · exact this.2 h
  · obtain ⟨h4, -⟩ := submit_pushes_all_partial hw hR
    obtain ⟨r', hr', hm⟩ := h4 b ⟨o, u, hc, ha, hup, huo⟩
    have hrr : r' = r := by
      rw [← pushRemoteName_iff] at hp hr'
      rw [hp] at hr'
      exact (Option.some.inj hr').symm
    subst hrr
    have hmem : (r', b) ∈ pushedNew (submit w main set create false).2.1 ++
        pushedLease (submit w main set create false).2.1 :=
      List.mem_of_mem_filter (p := fun e => decide (e.2 = b)) (by rw [hm]; exact List.mem_singleton.2 rfl)
    exact h3 R hR r' b (List.mem_append.1 hmem) hu.notSelf o hc.there

/-- C47: with `--create`, after the command has succeeded, the remote for new branches has each branch which
was not yet there. -/
theorem create_submit {w : SubmitWorld} (hw : AMap.WF w.refs) {main : Text} {set : List Oid}
    {R : SubmitReport} (hR : (submit w main set true false).2.2 = some R) {b r : Text} {o : Oid}
    (ho : BranchAt w b o) (hb : NotYetThere w main set b) (hr : DefaultRemote w main r) (hne : r ≠ t!".") :
    (submit w main set true false).1.remotes.get? (r, t!"refs/heads/" ++ b) = some o := by
  obtain ⟨-, h4⟩ := submit_pushes_all_partial hw hR
  obtain ⟨r', hr', hm⟩ := h4 rfl b hb
  have hrr : r' = r := by
    rw [← defaultPushRemote_iff] at hr hr'
    rw [hr] at hr'
    exact (Option.some.inj hr').symm
  subst hrr
  have hmem : (r', b) ∈ pushedNew (submit w main set true false).2.1 ++
      pushedLease (submit w main set true false).2.1 :=
    List.mem_of_mem_filter (p := fun e => decide (e.2 = b)) (by rw [hm]; exact List.mem_singleton.2 rfl)
  exact (submit_effect hw main set true false).2.2 R hR r' b (List.mem_append.1 hmem) hne o ho

/-! ### what is not as one would like -/

/-- When two branches are at the same commit, none of them is ever pushed, and none is mentioned. -/
theorem shared_commit_ignored {w : SubmitWorld} (hw : AMap.WF w.refs) {main : Text} (set : List Oid)
    (create dry : Bool) {b b' : Text} {o : Oid} (h : BranchAt w b o) (h' : BranchAt w b' o) (hne : b ≠ b')
    (hm : b' ≠ main) :
    let x := submit w main set create dry
    (∀ r, (r, b) ∉ pushedNew x.2.1 ∧ (r, b) ∉ pushedLease x.2.1) ∧
    (∀ R, x.2.2 = some R → b ∉ R.updated ∧ b ∉ R.skipped ∧ b ∉ R.submitted ∧ b ∉ R.unsubmitted) := by
  have no : ∀ o', Selected w main set b o' → Alone w main b o' → False := by
    intro o' hc ha
    obtain rfl := branchAt_unique h hc.there
    exact hne (ha b' h' hm).symm
  have n1 : ¬ OutOfDate w main set b := fun ⟨o', _, hc, ha, _⟩ => no o' hc ha
  have n2 : ¬ UpToDate w main set b := fun ⟨o', hc, ha, _⟩ => no o' hc ha
  have n3 : ¬ NotYetThere w main set b := fun ⟨o', hc, ha, _⟩ => no o' hc ha
  obtain ⟨-, p2, p3, -⟩ := submit_pushes hw main set create dry
  refine ⟨fun r => ⟨fun hb => n3 (p2 r b hb).2.2, fun hb => n1 (p3 r b hb).2⟩, fun R hR => ?_⟩
  obtain ⟨r1, r2, r3, r4⟩ := submit_report hw hR b
  exact ⟨fun hb => n1 (r1.1 hb), fun hb => n2 (r2.1 hb), fun hb => n3 (r3.1 hb).2, fun hb => n3 (r4.1 hb).2⟩

/-- When a remote does not have a branch of the name of one of the chosen branches which has this remote in
its configuration, as after it was deleted there, nothing at all is pushed, and the command fails. -/
theorem deleted_upstream_fails {w : SubmitWorld} (hw : AMap.WF w.refs) {main : Text} {set : List Oid}
    (create dry : Bool) {b r : Text} {o : Oid} (hc : Selected w main set b o) (hp : PushesTo w b r)
    (hr : r ≠ t!".") (hm : w.remotes.get? (r, t!"refs/heads/" ++ b) = none) :
    let x := submit w main set create dry
    x.2.2 = none ∧ pushedNew x.2.1 = [] ∧ pushedLease x.2.1 = [] ∧ x.1.remotes = w.remotes := by
  have h : ¬ (fetchAll w (fetchGroups (branchInfos w main set))).2.2 = true := by
    rw [fetch_ok_iff hw]
    intro h
    have := (h r _ ⟨b, o, hc, hp, rfl⟩ hr).2
    rw [hm] at this
    cases this
  obtain ⟨h1, h2⟩ := fetchAll_commands w (fetchGroups (branchInfos w main set))
  obtain ⟨t, ht⟩ := afterFetch_same w main set
  unfold submit
  simp only
  rw [if_neg h]
  refine ⟨rfl, h1, h2, ?_⟩
  show (afterFetch w main set).remotes = w.remotes
  rw [ht]

end Verif.Props
