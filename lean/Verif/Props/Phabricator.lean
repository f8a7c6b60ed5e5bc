import Verif.Lemmas.Phabricator
import Verif.Lemmas.PlanDfs
import Verif.Props.Execute

/-! The forge for Phabricator: the statuses of commits, and the dependencies of revisions. -/

namespace Verif.Props

open Verif Verif.Spec Verif.Phabricator

variable {q : Conduit} {find : Oid → Option CommitData} {draft : List Oid}

/-! ### statuses -/

theorem forall₂_origin {α β : Type} {R : α → β → Prop} {l : List α} {m : List β} (h : List.Forall₂ R l m)
    {b : β} (hb : b ∈ m) : ∃ a ∈ l, R a b := by
  induction h with
  | nil => exact nomatch hb
  | cons h1 _ ih =>
    rcases List.mem_cons.1 hb with rfl | hb
    · exact ⟨_, by simp, h1⟩
    · obtain ⟨a, h2, h3⟩ := ih hb
      exact ⟨a, by simp [h2], h3⟩

/-- C82: the status of a commit. It was not submitted if its message names no revision. It is up to date if it is
the commit for which Phabricator has that revision, and else needs to be updated. -/
theorem phab_status_exact (q : Conduit) (s : Revisions) (hs : AMap.WF s) (find : Oid → Option CommitData)
    (commits : List Oid) (statuses : List (Oid × CommitStatus))
    (h : queryStatus q s find commits = some statuses) :
    statuses.map Prod.fst = commits ∧ ∀ c st, (c, st) ∈ statuses → st.localName = none ∧
      ∃ d, find c = some d ∧
        (st.status = .unsubmitted ↔ ¬ ∃ id, RevisionOf d id) ∧
        (st.status = .upToDate ↔ ∃ id r, RevisionOf d id ∧ AMap.get? s id = some r ∧ RevisionHash r c) ∧
        (st.status = .needsUpdate ↔
          ∃ id, RevisionOf d id ∧ ¬ ∃ r, AMap.get? s id = some r ∧ RevisionHash r c) := by
  unfold queryStatus at h
  split at h
  · exact nomatch h
  rename_i ids hids
  split at h
  · exact nomatch h
  rename_i rs hrs
  cases h
  rw [mapM_some_iff] at hids
  constructor
  · rw [List.map_map]
    clear hrs
    induction hids with
    | nil => rfl
    | cons h1 _ ih =>
      rw [Option.map_eq_some_iff] at h1
      obtain ⟨_, _, rfl⟩ := h1
      simp only [List.map_cons, Function.comp, List.cons.injEq, true_and]
      exact ih
  intro c st hst
  obtain ⟨⟨c', id⟩, h1, h2⟩ := List.mem_map.1 hst
  simp only [Prod.mk.injEq] at h2
  obtain ⟨rfl, rfl⟩ := h2
  refine ⟨rfl, ?_⟩
  have hfind : ∃ d, find c' = some d ∧ revisionId d = id := by
    obtain ⟨x, -, hx⟩ := forall₂_origin hids h1
    rw [Option.map_eq_some_iff] at hx
    obtain ⟨y, hy, hxy⟩ := hx
    simp only [Prod.mk.injEq] at hxy
    obtain ⟨rfl, rfl⟩ := hxy
    unfold getRevisionId at hy
    rwa [Option.map_eq_some_iff] at hy
  obtain ⟨d, hd, hid⟩ := hfind
  refine ⟨d, hd, ?_⟩
  cases id with
  | none =>
    have hno := (revisionId_none d).1 hid
    refine ⟨⟨fun _ => hno, fun _ => rfl⟩, ⟨nofun, ?_⟩, ⟨nofun, ?_⟩⟩
    · rintro ⟨i, _, h2, _⟩; exact absurd ⟨i, h2⟩ hno
    · rintro ⟨i, h2, _⟩; exact absurd ⟨i, h2⟩ hno
  | some i =>
    have hi := (revisionId_iff d i).1 hid
    have hmem : i ∈ ids.filterMap (·.2) := List.mem_filterMap.2 ⟨_, h1, rfl⟩
    have hget : AMap.get? rs i = AMap.get? s i ∧ AMap.WF rs := by
      unfold queryRevisions at hrs
      rw [if_neg (by rw [List.isEmpty_iff]; rintro he; rw [he] at hmem; exact nomatch hmem)] at hrs
      by_cases hf : q.queryFails s (ids.filterMap (·.2)) = true
      · rw [if_pos hf] at hrs; exact nomatch hrs
      · rw [if_neg hf] at hrs
        cases hrs
        exact ⟨get?_filter_ids hs hmem, List.Nodup.sublist (List.filter_sublist.map _) hs⟩
    have hhash : ∀ o, AMap.get? (commitHashes rs) i = some o ↔
        ∃ r, AMap.get? s i = some r ∧ RevisionHash r o := by
      intro o
      rw [commitHashes_iff hget.2, hget.1]
      simp only [commitHash_iff]
    have hup : statusOf (commitHashes rs) c' (some i) = .upToDate ↔
        ∃ r, AMap.get? s i = some r ∧ RevisionHash r c' := by
      rw [← hhash]
      unfold statusOf
      cases hg : AMap.get? (commitHashes rs) i with
      | none => simp [hg]
      | some o =>
        by_cases ho : o = c'
        · simp [hg, ho]
        · simp [hg, ho]
    have hcases : statusOf (commitHashes rs) c' (some i) = .upToDate ∨
        statusOf (commitHashes rs) c' (some i) = .needsUpdate := by
      unfold statusOf
      cases hg : AMap.get? (commitHashes rs) i with
      | none => simp [hg]
      | some o => by_cases ho : o = c' <;> simp [hg, ho]
    refine ⟨⟨?_, fun hno => absurd ⟨i, hi⟩ hno⟩, ?_, ?_⟩
    · intro hu
      simp only at hu
      rcases hcases with h2 | h2 <;> rw [h2] at hu <;> exact nomatch hu
    · rw [hup]
      constructor
      · rintro ⟨r, h2, h3⟩; exact ⟨i, r, hi, h2, h3⟩
      · rintro ⟨j, r, h2, h3, h4⟩
        rw [revisionOf_unique hi h2]
        exact ⟨r, h3, h4⟩
    · constructor
      · intro hu
        refine ⟨i, hi, fun hr => ?_⟩
        rw [← hup] at hr
        simp only at hu
        rw [hr] at hu
        exact nomatch hu
      · rintro ⟨j, h2, h3⟩
        rw [← revisionOf_unique hi h2] at h3
        rcases hcases with h4 | h4
        · exact absurd (hup.1 h4) h3
        · exact h4

/-- C82: the statuses are known unless a commit cannot be found or Phabricator does not answer; it is not asked if no
commit has a revision. -/
theorem phab_status_known (q : Conduit) (s : Revisions) (find : Oid → Option CommitData) (commits : List Oid)
    (hf : ∀ c ∈ commits, ∃ d, find c = some d)
    (hq : (∀ ids, q.queryFails s ids = false) ∨ ∀ c ∈ commits, ∀ d, find c = some d → ¬ ∃ id, RevisionOf d id) :
    ∃ statuses, queryStatus q s find commits = some statuses := by
  unfold queryStatus
  cases hids : commits.mapM fun c => (getRevisionId find c).map fun id => (c, id) with
  | none =>
    obtain ⟨c, hc, h⟩ := mapM_none hids
    obtain ⟨d, hd⟩ := hf c hc
    simp [getRevisionId, hd] at h
  | some ids =>
    simp only
    have : ∃ rs, queryRevisions q s (ids.filterMap (·.2)) = some rs := by
      unfold queryRevisions
      rcases hq with hq | hq
      · by_cases he : (ids.filterMap (·.2)).isEmpty = true
        · exact ⟨_, if_pos he⟩
        · rw [if_neg he, hq]
          exact ⟨_, rfl⟩
      · refine ⟨_, if_pos ?_⟩
        rw [List.isEmpty_iff, List.filterMap_eq_nil_iff]
        rintro ⟨c, id⟩ hc
        rw [mapM_some_iff] at hids
        obtain ⟨x, hx1, hx⟩ := forall₂_origin hids hc
        rw [Option.map_eq_some_iff] at hx
        obtain ⟨y, hy, hxy⟩ := hx
        simp only [Prod.mk.injEq] at hxy
        obtain ⟨rfl, rfl⟩ := hxy
        obtain ⟨d, hd⟩ := hf x hx1
        simp only [getRevisionId, hd, Option.map_some, Option.some.injEq] at hy
        rw [← hy]
        exact (revisionId_none d).2 (hq x hx1 d hd)
    obtain ⟨rs, hrs⟩ := this
    rw [hrs]
    exact ⟨_, rfl⟩

/-- C82: of commits with the same revision, at most one is up to date. -/
theorem phab_one_up_to_date (q : Conduit) (s : Revisions) (hs : AMap.WF s) (find : Oid → Option CommitData)
    (commits : List Oid) (statuses : List (Oid × CommitStatus))
    (h : queryStatus q s find commits = some statuses) (c c' : Oid) (st st' : CommitStatus)
    (hc : (c, st) ∈ statuses) (hc' : (c', st') ∈ statuses) (hu : st.status = .upToDate)
    (hu' : st'.status = .upToDate) (d d' : CommitData) (hd : find c = some d) (hd' : find c' = some d')
    (id : Text) (hi : RevisionOf d id) (hi' : RevisionOf d' id) : c = c' := by
  obtain ⟨-, h1⟩ := phab_status_exact q s hs find commits statuses h
  obtain ⟨-, d1, e1, -, h2, -⟩ := h1 c st hc
  obtain ⟨-, d2, e2, -, h3, -⟩ := h1 c' st' hc'
  rw [hd] at e1; cases e1
  rw [hd'] at e2; cases e2
  obtain ⟨i, r, h4, h5, h6⟩ := h2.1 hu
  obtain ⟨j, r', h7, h8, h9⟩ := h3.1 hu'
  rw [revisionOf_unique h4 hi] at h5
  rw [revisionOf_unique h7 hi', h5] at h8
  cases h8
  rw [← commitHash_iff] at h6 h9
  rw [h6] at h9
  exact Option.some.inj h9

/-! ### dependencies -/

theorem updateDependencies_cons {s s' : Revisions} {x : Except PhabStop Unit} {c : Oid} {rest : List Oid}
    (hw : AMap.WF s) (h : updateDependencies q find draft s (c :: rest) = (s', x)) :
    (s' = s ∧ ∃ e, x = .error e) ∨ ∃ d, find c = some d ∧
      (((¬ ∃ i, RevisionOf d i) ∧ updateDependencies q find draft s rest = (s', x)) ∨
      ∃ i phids, RevisionOf d i ∧
        (∀ ph, ph ∈ phids ↔ ∃ j r, StackedOn find (· ∈ draft) c j ∧ AMap.get? s j = some r ∧ ph = r.phid) ∧
        ((q.edit s i phids = .applied ∧
            updateDependencies q find draft (setParents s i phids) rest = (s', x)) ∨
          (q.edit s i phids = .refused ∧ updateDependencies q find draft s rest = (s', x)))) := by
  unfold updateDependencies at h
  cases hd : find c with
  | none => rw [hd] at h; cases h; exact .inl ⟨rfl, _, rfl⟩
  | some d =>
    rw [hd] at h
    simp only at h
    cases hr : revisionId d with
    | none =>
      rw [hr] at h
      exact .inr ⟨d, rfl, .inl ⟨(revisionId_none d).1 hr, h⟩⟩
    | some i =>
      rw [hr] at h
      simp only at h
      cases hp : parentRevisions find draft d.parents with
      | none => rw [hp] at h; cases h; exact .inl ⟨rfl, _, rfl⟩
      | some parents =>
        rw [hp] at h
        simp only at h
        have hi := (revisionId_iff d i).1 hr
        have hst : ∀ j, j ∈ parents ↔ StackedOn find (· ∈ draft) c j := by
          intro j
          rw [parentRevisions_mem hp]
          constructor
          · rintro ⟨p, h1, h2, dp, h3, h4⟩; exact ⟨d, p, dp, hd, h1, h2, h3, h4⟩
          · rintro ⟨d', p, dp, h0, h1, h2, h3, h4⟩
            rw [hd] at h0; cases h0
            exact ⟨p, h1, h2, dp, h3, h4⟩
        cases hx : setDependencies q s i parents with
        | mk s1 y =>
          rw [hx] at h
          rcases setDependencies_cases hw hx with ⟨rfl, e, rfl⟩ | ⟨phids, h1, h2⟩
          · cases h; exact .inl ⟨rfl, _, rfl⟩
          simp only [hst] at h1
          rcases h2 with ⟨h3, rfl, rfl⟩ | ⟨h3, rfl, rfl⟩ | ⟨-, rfl, e, rfl⟩
          · exact .inr ⟨d, rfl, .inr ⟨i, phids, hi, h1, .inl ⟨h3, h⟩⟩⟩
          · exact .inr ⟨d, rfl, .inr ⟨i, phids, hi, h1, .inr ⟨h3, h⟩⟩⟩
          · cases h; exact .inl ⟨rfl, _, rfl⟩

/-- C83: nothing but dependencies is changed, and only those of the revisions of the given commits. -/
theorem dependencies_others (q : Conduit) (find : Oid → Option CommitData) (draft : List Oid) (s : Revisions)
    (hw : AMap.WF s) (commits : List Oid) (s' : Revisions) (x : Except PhabStop Unit)
    (h : updateDependencies q find draft s commits = (s', x)) :
    AMap.WF s' ∧
    (∀ i, (AMap.get? s' i).map (fun r => (r.phid, r.hashes)) =
      (AMap.get? s i).map fun r => (r.phid, r.hashes)) ∧
    ∀ i, (∀ c ∈ commits, ∀ d, find c = some d → ¬ RevisionOf d i) → AMap.get? s' i = AMap.get? s i := by
  induction commits generalizing s with
  | nil => cases h; exact ⟨hw, fun _ => rfl, fun _ _ => rfl⟩
  | cons c rest ih =>
    rcases updateDependencies_cons hw h with ⟨rfl, _⟩ | ⟨d, hd, ⟨-, h1⟩ | ⟨i, phids, hi, hp, h1⟩⟩
    · exact ⟨hw, fun _ => rfl, fun _ _ => rfl⟩
    · obtain ⟨h2, h3, h4⟩ := ih s hw h1
      exact ⟨h2, h3, fun j hj => h4 j fun c hc => hj c (by simp [hc])⟩
    · rcases h1 with ⟨-, h1⟩ | ⟨-, h1⟩
      · obtain ⟨h2, h3, h4⟩ := ih _ (wf_setParents hw i phids) h1
        refine ⟨h2, fun j => ?_, fun j hj => ?_⟩
        · rw [h3, get?_setParents, Option.map_map]
          congr 1
          funext r
          simp only [Function.comp]
          split <;> rfl
        · rw [h4 j fun c hc => hj c (by simp [hc]), get?_setParents]
          have hne : j ≠ i := by rintro rfl; exact hj c (by simp) d hd hi
          simp [hne]
      · obtain ⟨h2, h3, h4⟩ := ih s hw h1
        exact ⟨h2, h3, fun j hj => h4 j fun c hc => hj c (by simp [hc])⟩

theorem phid_same {s s' : Revisions}
    (h : ∀ i, (AMap.get? s' i).map (fun r => (r.phid, r.hashes)) =
      (AMap.get? s i).map fun r => (r.phid, r.hashes)) (ph : Text) (P : Text → Prop) :
    (∃ j r, P j ∧ AMap.get? s j = some r ∧ ph = r.phid) ↔
      ∃ j r, P j ∧ AMap.get? s' j = some r ∧ ph = r.phid := by
  have key : ∀ {s s' : Revisions}, (∀ i, (AMap.get? s' i).map (fun r => (r.phid, r.hashes)) =
      (AMap.get? s i).map fun r => (r.phid, r.hashes)) →
      (∃ j r, P j ∧ AMap.get? s j = some r ∧ ph = r.phid) →
      ∃ j r, P j ∧ AMap.get? s' j = some r ∧ ph = r.phid := by
    rintro s s' h ⟨j, r, h1, h2, h3⟩
    have := h j
    rw [h2, Option.map_some, Option.map_eq_some_iff] at this
    obtain ⟨r', h4, h5⟩ := this
    simp only [Prod.mk.injEq] at h5
    exact ⟨j, r', h1, h4, by rw [h3, h5.1]⟩
  exact ⟨key h, key fun i => (h i).symm⟩

/-- Going through the commits before a given one. -/
theorem updateDependencies_append {s s' : Revisions} {pre post : List Oid} (hw : AMap.WF s)
    (h : updateDependencies q find draft s (pre ++ post) = (s', .ok ())) :
    ∃ s1, updateDependencies q find draft s pre = (s1, .ok ()) ∧
      updateDependencies q find draft s1 post = (s', .ok ()) := by
  induction pre generalizing s with
  | nil => exact ⟨s, rfl, h⟩
  | cons c pre ih =>
    rw [List.cons_append] at h
    rw [updateDependencies] at h
    rw [updateDependencies]
    cases hd : find c with
    | none => rw [hd] at h; cases h
    | some d =>
      rw [hd] at h
      simp only at h ⊢
      cases hr : revisionId d with
      | none =>
        rw [hr] at h
        exact ih hw h
      | some i =>
        rw [hr] at h
        simp only at h ⊢
        cases hp : parentRevisions find draft d.parents with
        | none => rw [hp] at h; cases h
        | some parents =>
          rw [hp] at h
          simp only at h ⊢
          cases hx : setDependencies q s i parents with
          | mk s1 y =>
            rw [hx] at h
            rcases setDependencies_cases hw hx with ⟨rfl, e, rfl⟩ | ⟨phids, h1, h2⟩
            · cases h
            rcases h2 with ⟨h3, rfl, rfl⟩ | ⟨h3, rfl, rfl⟩ | ⟨-, rfl, e, rfl⟩
            · exact ih (wf_setParents hw _ _) h
            · exact ih hw h
            · cases h

/-- C83: if Phabricator accepts the changes, the revision of each commit depends on the revisions of its parents (as
far as they are drafts) and on nothing else. If several commits have the same revision, the last one counts. -/
theorem dependencies_exact (q : Conduit) (hq : ∀ s i phids, q.edit s i phids ≠ .refused)
    (find : Oid → Option CommitData) (draft : List Oid) (s : Revisions) (hw : AMap.WF s) (pre post : List Oid)
    (c : Oid) (s' : Revisions) (h : updateDependencies q find draft s (pre ++ c :: post) = (s', .ok ()))
    (d : CommitData) (hd : find c = some d) (i : Text) (hi : RevisionOf d i)
    (hl : ∀ c' ∈ post, ∀ d', find c' = some d' → ¬ RevisionOf d' i) :
    Stacked find (· ∈ draft) s' c i := by
  obtain ⟨s1, h1, h2⟩ := updateDependencies_append hw h
  have hw1 := (dependencies_others q find draft s hw pre s1 _ h1).1
  rcases updateDependencies_cons hw1 h2 with ⟨-, e, he⟩ | ⟨d', hd', ⟨hno, -⟩ | ⟨j, phids, hj, hp, h3⟩⟩
  · exact nomatch he
  · rw [hd] at hd'; cases hd'; exact absurd ⟨i, hi⟩ hno
  rw [hd] at hd'; cases hd'
  obtain rfl := revisionOf_unique hi hj
  rcases h3 with ⟨-, h3⟩ | ⟨h3, -⟩
  · obtain ⟨-, h4, h5⟩ := dependencies_others q find draft _ (wf_setParents hw1 i phids) post s' _ h3
    intro r hr ph
    rw [h5 i hl, get?_setParents, Option.map_eq_some_iff] at hr
    obtain ⟨r0, h6, h7⟩ := hr
    rw [if_pos rfl] at h7
    subst h7
    simp only
    rw [hp, ← phid_same h4 ph, ← phid_same (s := s1) (s' := setParents s1 i phids)]
    intro k
    rw [get?_setParents, Option.map_map]
    congr 1
    funext r
    simp only [Function.comp]
    split <;> rfl
  · exact absurd h3 (hq _ _ _)

theorem setParents_info (s : Revisions) (i : Text) (phids : List Text) (j : Text) :
    (AMap.get? (setParents s i phids) j).map (fun r => (r.phid, r.hashes)) =
      (AMap.get? s j).map fun r => (r.phid, r.hashes) := by
  rw [get?_setParents, Option.map_map]
  congr 1
  funext r
  simp only [Function.comp]
  split <;> rfl

theorem setParents_absent {s : Revisions} (hw : AMap.WF s) {i : Text} (h : AMap.get? s i = none)
    (phids : List Text) : setParents s i phids = s := by
  unfold setParents
  conv_rhs => rw [← List.map_id s]
  apply List.map_congr_left
  intro x hx
  rw [if_neg]
  · rfl
  · rintro rfl
    rw [AMap.get?_of_mem hw hx] at h
    exact nomatch h

theorem distinctPhids_setParents {s : Revisions} (h : DistinctPhids s) (i : Text) (phids : List Text) :
    DistinctPhids (setParents s i phids) := by
  intro j k r r' hj hk he
  have h1 := setParents_info s i phids j
  have h2 := setParents_info s i phids k
  rw [hj, Option.map_some, eq_comm, Option.map_eq_some_iff] at h1
  rw [hk, Option.map_some, eq_comm, Option.map_eq_some_iff] at h2
  obtain ⟨r1, h3, h4⟩ := h1
  obtain ⟨r2, h5, h6⟩ := h2
  simp only [Prod.mk.injEq] at h4 h6
  exact h j k r1 r2 h3 h5 (by rw [h4.1, h6.1, he])

/-- If a revision is made to depend only on revisions from where it cannot be reached, there is no new cycle. -/
theorem noCycle_setParents {s : Revisions} {i : Text} {phids : List Text} {P : Text → Prop} (hn : NoCycle s)
    (hi : ¬ P i) (hc : ∀ a b, P a → DependsOn s a b → P b)
    (hp : ∀ j r, AMap.get? s j = some r → r.phid ∈ phids → P j) : NoCycle (setParents s i phids) := by
  have step : ∀ a b, DependsOn (setParents s i phids) a b → (a = i ∧ P b) ∨ (a ≠ i ∧ DependsOn s a b) := by
    rintro a b ⟨r, r', h1, h2, h3⟩
    have h4 := setParents_info s i phids b
    rw [h2, Option.map_some, eq_comm, Option.map_eq_some_iff] at h4
    obtain ⟨rb, h5, h6⟩ := h4
    simp only [Prod.mk.injEq] at h6
    rw [get?_setParents, Option.map_eq_some_iff] at h1
    obtain ⟨ra, h7, h8⟩ := h1
    by_cases ha : a = i
    · rw [if_pos ha] at h8
      subst h8
      exact .inl ⟨ha, hp b rb h5 (by rw [h6.1]; exact h3)⟩
    · rw [if_neg ha] at h8
      subst h8
      exact .inr ⟨ha, ra, rb, h7, h5, by rw [h6.1]; exact h3⟩
  have inside : ∀ a b, P a → Relation.TransGen (DependsOn (setParents s i phids)) a b →
      P b ∧ Relation.TransGen (DependsOn s) a b := by
    intro a b ha h
    have stepP : ∀ x y, P x → DependsOn (setParents s i phids) x y → P y ∧ DependsOn s x y := by
      intro x y hx hxy
      rcases step x y hxy with ⟨rfl, _⟩ | ⟨_, h1⟩
      · exact absurd hx hi
      · exact ⟨hc x y hx h1, h1⟩
    induction h with
    | single h1 => exact ⟨(stepP _ _ ha h1).1, .single (stepP _ _ ha h1).2⟩
    | tail _ h1 ih => exact ⟨(stepP _ _ ih.1 h1).1, .tail ih.2 (stepP _ _ ih.1 h1).2⟩
  have split : ∀ a b, Relation.TransGen (DependsOn (setParents s i phids)) a b →
      P b ∨ Relation.TransGen (DependsOn s) a b := by
    intro a b h
    induction h with
    | single h1 =>
      rcases step _ _ h1 with ⟨_, h2⟩ | ⟨_, h2⟩
      · exact .inl h2
      · exact .inr (.single h2)
    | tail _ h1 ih =>
      rcases step _ _ h1 with ⟨_, h2⟩ | ⟨_, h2⟩
      · exact .inl h2
      · rcases ih with h3 | h3
        · exact .inl (hc _ _ h3 h2)
        · exact .inr (.tail h3 h2)
  intro k hk
  rcases split k k hk with h1 | h1
  · exact hn k (inside k k h1 hk).2
  · exact hn k h1

theorem stacked_setParents {s : Revisions} {c : Oid} {i j : Text} {phids : List Text} {P : Oid → Prop}
    (hne : i ≠ j) (h : Stacked find P s c j) : Stacked find P (setParents s i phids) c j := by
  intro r hr ph
  rw [get?_setParents, Option.map_eq_some_iff] at hr
  obtain ⟨r0, h1, h2⟩ := hr
  rw [if_neg (Ne.symm hne)] at h2
  subst h2
  rw [h r0 h1 ph]
  exact phid_same (setParents_info s i phids) ph _

/-- C83: if the whole stack is submitted, with older commits first, then Phabricator has no reason to refuse a
change. So afterwards the revision of each commit depends exactly on the revisions of its parents, and there is no
cycle. -/
theorem stack_dependencies_exact (q : Conduit) (hq : RefusesOnlyCycles q) (find : Oid → Option CommitData)
    (draft : List Oid) (s : Revisions) (hw : AMap.WF s) (hp : DistinctPhids s) (hn : NoCycle s)
    (order : List Oid) (ho : OldestFirst find order) (hd : DifferentRevisions find order)
    (hirr : ∀ c d, find c = some d → c ∉ d.parents)
    (hstack : ∀ c ∈ order, ∀ d, find c = some d → ∀ p ∈ d.parents, p ∈ draft →
      ∀ dp, find p = some dp → (∃ i, RevisionOf dp i) → p ∈ order)
    (s' : Revisions) (h : updateDependencies q find draft s order = (s', .ok ())) :
    NoCycle s' ∧ ∀ c ∈ order, ∀ d, find c = some d → ∀ i, RevisionOf d i → Stacked find (· ∈ draft) s' c i := by
  suffices key : ∀ (rest pre : List Oid) (s : Revisions), pre ++ rest = order → AMap.WF s → DistinctPhids s →
      NoCycle s →
      (∀ i j, (∃ c ∈ pre, ∃ d, find c = some d ∧ RevisionOf d i) → DependsOn s i j →
        ∃ c ∈ pre, ∃ d, find c = some d ∧ RevisionOf d j) →
      (∀ c ∈ pre, ∀ d, find c = some d → ∀ i, RevisionOf d i → Stacked find (· ∈ draft) s c i) →
      updateDependencies q find draft s rest = (s', .ok ()) →
      NoCycle s' ∧ ∀ c ∈ order, ∀ d, find c = some d → ∀ i, RevisionOf d i →
        Stacked find (· ∈ draft) s' c i by
    exact key order [] s rfl hw hp hn (by rintro i j ⟨c, hc, _⟩; exact nomatch hc)
      (by intro c hc; exact nomatch hc) h
  intro rest
  induction rest with
  | nil =>
    intro pre s hpre _ _ hn _ hst h
    cases h
    rw [List.append_nil] at hpre
    subst hpre
    exact ⟨hn, hst⟩
  | cons c rest ih =>
    intro pre s hpre hw hp hn hclosed hst h
    rcases updateDependencies_cons hw h with ⟨-, e, he⟩ | ⟨d, hdc, ⟨hno, h1⟩ | ⟨i, phids, hi, hph, h1⟩⟩
    · exact nomatch he
    · refine ih (pre ++ [c]) s (by simpa using hpre) hw hp hn ?_ ?_ h1
      · rintro a b ⟨x, hx, dx, hdx, hxa⟩ hab
        rcases List.mem_append.1 hx with hx | hx
        · obtain ⟨y, hy, hy'⟩ := hclosed a b ⟨x, hx, dx, hdx, hxa⟩ hab
          exact ⟨y, by simp [hy], hy'⟩
        · rw [List.mem_singleton.1 hx, hdc] at hdx
          cases hdx
          exact absurd ⟨a, hxa⟩ hno
      · intro x hx dx hdx a ha
        rcases List.mem_append.1 hx with hx | hx
        · exact hst x hx dx hdx a ha
        · rw [List.mem_singleton.1 hx, hdc] at hdx
          cases hdx
          exact absurd ⟨a, ha⟩ hno
    -- the commits that were looked at before have other revisions
    have hother : ¬ ∃ x ∈ pre, ∃ dx, find x = some dx ∧ RevisionOf dx i := by
      rintro ⟨x, hx, dx, hdx, hxi⟩
      unfold DifferentRevisions at hd
      rw [← hpre] at hd
      exact (List.pairwise_append.1 hd).2.2 x hx c (by simp) dx d i hdx hdc hxi hi
    -- the revisions of the parents were looked at before
    have hparents : ∀ j, StackedOn find (· ∈ draft) c j →
        ∃ x ∈ pre, ∃ dx, find x = some dx ∧ RevisionOf dx j := by
      rintro j ⟨d', p, dp, h2, h3, h4, h5, h6⟩
      rw [hdc] at h2; cases h2
      have hpo := hstack c (by rw [← hpre]; simp) d hdc p h3 h4 dp h5 ⟨j, h6⟩
      rw [← hpre] at hpo
      rcases List.mem_append.1 hpo with h7 | h7
      · exact ⟨p, h7, dp, h5, h6⟩
      rcases List.mem_cons.1 h7 with rfl | h7
      · exact absurd h3 (hirr p d hdc)
      · unfold OldestFirst at ho
        rw [← hpre] at ho
        exact absurd h3 ((List.pairwise_cons.1 (List.pairwise_append.1 ho).2.1).1 p h7 d hdc)
    have hnew : ∀ j r, AMap.get? s j = some r → r.phid ∈ phids →
        ∃ x ∈ pre, ∃ dx, find x = some dx ∧ RevisionOf dx j := by
      intro j r hj hr
      obtain ⟨k, r', h2, h3, h4⟩ := (hph _).1 hr
      rw [hp j k r r' hj h3 h4]
      exact hparents k h2
    have hn1 : NoCycle (setParents s i phids) := noCycle_setParents hn hother hclosed hnew
    have h2 : updateDependencies q find draft (setParents s i phids) rest = (s', .ok ()) := by
      rcases h1 with ⟨-, h1⟩ | ⟨hr, h1⟩
      · exact h1
      · rcases hq s i phids hw hr with h3 | h3
        · rw [setParents_absent hw h3]; exact h1
        · exact absurd hn1 h3
    refine ih (pre ++ [c]) _ (by simpa using hpre) (wf_setParents hw i phids) (distinctPhids_setParents hp i phids)
      hn1 ?_ ?_ h2
    · rintro a b ⟨x, hx, dx, hdx, hxa⟩ ⟨r, r', h3, h4, h5⟩
      have h6 := setParents_info s i phids b
      rw [h4, Option.map_some, eq_comm, Option.map_eq_some_iff] at h6
      obtain ⟨rb, h6, h7⟩ := h6
      simp only [Prod.mk.injEq] at h7
      rw [get?_setParents, Option.map_eq_some_iff] at h3
      obtain ⟨ra, h8, h9⟩ := h3
      have hfin : ∃ y ∈ pre, ∃ dy, find y = some dy ∧ RevisionOf dy b := by
        by_cases hai : a = i
        · rw [if_pos hai] at h9
          subst h9
          exact hnew b rb h6 (by rw [h7.1]; exact h5)
        · rw [if_neg hai] at h9
          subst h9
          rcases List.mem_append.1 hx with hx | hx
          · exact hclosed a b ⟨x, hx, dx, hdx, hxa⟩ ⟨ra, rb, h8, h6, by rw [h7.1]; exact h5⟩
          · rw [List.mem_singleton.1 hx, hdc] at hdx
            cases hdx
            exact absurd (revisionOf_unique hxa hi) hai
      obtain ⟨y, hy, hy'⟩ := hfin
      exact ⟨y, by simp [hy], hy'⟩
    · intro x hx dx hdx a ha
      rcases List.mem_append.1 hx with hx | hx
      · have hne : i ≠ a := by rintro rfl; exact hother ⟨x, hx, dx, hdx, ha⟩
        exact stacked_setParents hne (hst x hx dx hdx a ha)
      · rw [List.mem_singleton.1 hx, hdc] at hdx
        cases hdx
        obtain rfl := revisionOf_unique hi ha
        rw [List.mem_singleton.1 hx]
        intro r hr ph
        rw [get?_setParents, Option.map_eq_some_iff] at hr
        obtain ⟨r0, h6, h7⟩ := hr
        rw [if_pos rfl] at h7
        subst h7
        simp only
        rw [hph]
        exact phid_same (setParents_info s i phids) ph _

/-- C83: the dependencies are brought up to date unless a commit cannot be found or `arc` fails. -/
theorem dependencies_known (q : Conduit) (find : Oid → Option CommitData) (draft : List Oid)
    (hq : ∀ s ids, q.queryFails s ids = false)
    (he : ∀ s i phids, q.edit s i phids = .applied ∨ q.edit s i phids = .refused) (order : List Oid)
    (hf : ∀ c ∈ order, ∃ d, find c = some d ∧ ∀ p ∈ d.parents, p ∈ draft → ∃ dp, find p = some dp)
    (s : Revisions) : ∃ s', updateDependencies q find draft s order = (s', .ok ()) := by
  induction order generalizing s with
  | nil => exact ⟨s, rfl⟩
  | cons c rest ih =>
    have ih' := ih fun x hx => hf x (by simp [hx])
    obtain ⟨d, hd, hps⟩ := hf c (by simp)
    have hp : ∀ ps : List Oid, (∀ p ∈ ps, p ∈ draft → ∃ dp, find p = some dp) →
        ∃ parents, parentRevisions find draft ps = some parents := by
      intro ps h
      induction ps with
      | nil => exact ⟨[], rfl⟩
      | cons p ps ihp =>
        obtain ⟨parents, h1⟩ := ihp fun x hx => h x (by simp [hx])
        unfold parentRevisions
        by_cases hpd : draft.contains p = true
        · obtain ⟨dp, h2⟩ := h p (by simp) (List.contains_iff_mem.1 hpd)
          rw [if_pos hpd, getRevisionId, h2, h1]
          simp only [Option.map_some]
          cases revisionId dp with
          | none => exact ⟨_, rfl⟩
          | some i => exact ⟨_, rfl⟩
        · rw [if_neg hpd]; exact ⟨_, h1⟩
    obtain ⟨parents, hp⟩ := hp d.parents hps
    rw [updateDependencies, hd]
    simp only
    cases hr : revisionId d with
    | none => exact ih' s
    | some i =>
      simp only [hp]
      have hquery : ∃ rs, queryRevisions q s parents = some rs := by
        unfold queryRevisions
        by_cases hemp : parents.isEmpty = true
        · exact ⟨_, if_pos hemp⟩
        · rw [if_neg hemp, hq]; exact ⟨_, rfl⟩
      obtain ⟨rs, hrs⟩ := hquery
      unfold setDependencies
      rw [hrs]
      simp only
      rcases he s i (rs.map (·.2.phid)) with h1 | h1
      · rw [h1]; exact ih' _
      · rw [h1]; exact ih' _

/-! ### examples -/

/-- A commit with a revision. -/
def exPhabCommit (parents : List Oid) (id : Nat) : CommitData :=
  ⟨parents, 10 + id, some (t!"Title\n\nDifferential Revision: https://phab/D" ++ natToText id), 1, 2, 5⟩

/-- A Phabricator which accepts everything. -/
def exAccepts : Conduit := ⟨fun _ _ => false, fun _ _ _ => .applied⟩

/-- A Phabricator which answers with an error message. -/
def exRefuses : Conduit := ⟨fun _ _ => false, fun _ _ _ => .refused⟩

/-- `1` (with revision 1), and on it `2` (with revision 2), and on it `3` without revision. -/
def exPhabFind : Oid → Option CommitData :=
  AMap.get? [(oidN 0, exCommit [] 10 0), (oidN 1, exPhabCommit [oidN 0] 1), (oidN 2, exPhabCommit [oidN 1] 2),
    (oidN 3, exCommit [oidN 2] 13 3)]

/-- Revision 1 is about `1`, and revision 2 about another commit. -/
def exPhabRevisions : Revisions :=
  [(t!"1", ⟨t!"PHID-1", [(t!"gttr", t!"0"), (t!"gtcm", (oidN 1).toText)], []⟩),
   (t!"2", ⟨t!"PHID-2", [(t!"gtcm", (oidN 9).toText)], []⟩)]

/-- The statuses of these commits. -/
example : queryStatus exAccepts exPhabRevisions exPhabFind [oidN 1, oidN 2, oidN 3] =
    some [(oidN 1, ⟨.upToDate, none, none⟩), (oidN 2, ⟨.needsUpdate, none, none⟩),
      (oidN 3, ⟨.unsubmitted, none, none⟩)] := by decide +kernel

/-- The hypotheses of `phab_one_up_to_date` can be met only by the same commit; those of `phab_status_exact` here. -/
example : AMap.WF exPhabRevisions ∧
    ∃ statuses, queryStatus exAccepts exPhabRevisions exPhabFind [oidN 1, oidN 2, oidN 3] = some statuses := by
  refine ⟨by unfold AMap.WF; decide +kernel, ?_⟩
  rw [← Option.isSome_iff_exists]
  decide +kernel

/-- Revision 2 is made to depend on revision 1. -/
example : updateDependencies exAccepts exPhabFind [oidN 1, oidN 2, oidN 3] exPhabRevisions
      [oidN 1, oidN 2, oidN 3] =
    ([(t!"1", ⟨t!"PHID-1", [(t!"gttr", t!"0"), (t!"gtcm", (oidN 1).toText)], []⟩),
      (t!"2", ⟨t!"PHID-2", [(t!"gtcm", (oidN 9).toText)], [t!"PHID-1"]⟩)], .ok ()) := by decide +kernel

theorem exPhabFind_cases {c : Oid} {d : CommitData} (h : exPhabFind c = some d) :
    (c = oidN 0 ∧ d = exCommit [] 10 0) ∨ (c = oidN 1 ∧ d = exPhabCommit [oidN 0] 1) ∨
      (c = oidN 2 ∧ d = exPhabCommit [oidN 1] 2) ∨ (c = oidN 3 ∧ d = exCommit [oidN 2] 13 3) := by
  have := AMap.mem_of_get? h
  simpa using this

/-- The hypotheses of `stack_dependencies_exact`. -/
example :
    RefusesOnlyCycles exAccepts ∧ AMap.WF exPhabRevisions ∧ DistinctPhids exPhabRevisions ∧
    NoCycle exPhabRevisions ∧ OldestFirst exPhabFind [oidN 1, oidN 2, oidN 3] ∧
    DifferentRevisions exPhabFind [oidN 1, oidN 2, oidN 3] ∧
    (∀ c d, exPhabFind c = some d → c ∉ d.parents) ∧
    ∀ c ∈ [oidN 1, oidN 2, oidN 3], ∀ d, exPhabFind c = some d → ∀ p ∈ d.parents,
      p ∈ [oidN 1, oidN 2, oidN 3] → ∀ dp, exPhabFind p = some dp → (∃ i, RevisionOf dp i) →
      p ∈ [oidN 1, oidN 2, oidN 3] := by
  refine ⟨fun s i phids _ h => (nomatch h), by unfold AMap.WF; decide +kernel, ?_, ?_, ?_, ?_, ?_, ?_⟩
  · intro i j r r' h1 h2 h3
    have : ∀ x ∈ exPhabRevisions, ∀ y ∈ exPhabRevisions, x.2.phid = y.2.phid → x.1 = y.1 := by decide +kernel
    exact this _ (AMap.mem_of_get? h1) _ (AMap.mem_of_get? h2) h3
  · have hno : ∀ i j, ¬ DependsOn exPhabRevisions i j := by
      rintro i j ⟨r, r', h1, _, h3⟩
      have : ∀ x ∈ exPhabRevisions, x.2.dependsOn = [] := by decide +kernel
      rw [this _ (AMap.mem_of_get? h1)] at h3
      exact nomatch h3
    intro i hi
    cases hi with
    | single h => exact hno _ _ h
    | tail _ h => exact hno _ _ h
  · refine .cons ?_ (.cons ?_ (.cons (by simp) .nil))
    · intro b hb d hd
      cases hd
      revert b
      decide +kernel
    · intro b hb d hd
      cases hd
      revert b
      decide +kernel
  · unfold DifferentRevisions
    simp only [← revisionId_iff]
    have h3 : revisionId (exCommit [oidN 2] 13 3) = none := by decide +kernel
    refine .cons ?_ (.cons ?_ (.cons (by simp) .nil))
    · intro b hb da db i h1 h2 h4 h5
      cases h1
      rcases List.mem_cons.1 hb with rfl | hb
      · cases h2
        have e1 : revisionId (exPhabCommit [oidN 0] 1) = some t!"1" := by decide +kernel
        have e2 : revisionId (exPhabCommit [oidN 1] 2) = some t!"2" := by decide +kernel
        rw [e1] at h4
        rw [e2, ← h4] at h5
        exact absurd h5 (by decide +kernel)
      · rw [List.mem_singleton.1 hb] at h2
        cases h2
        rw [h3] at h5
        exact nomatch h5
    · intro b hb da db i h1 h2 h4 h5
      rw [List.mem_singleton.1 hb] at h2
      cases h2
      rw [h3] at h5
      exact nomatch h5
  · intro c d h
    rcases exPhabFind_cases h with ⟨rfl, rfl⟩ | ⟨rfl, rfl⟩ | ⟨rfl, rfl⟩ | ⟨rfl, rfl⟩ <;> decide +kernel
  · exact fun _ _ _ _ _ _ h _ _ _ => h

/-- C83: if Phabricator answers with an error message, this is not noticed: revision 2 does not depend on revision 1,
and the command says that all is well. -/
theorem refused_dependency_unnoticed :
    ∃ s', updateDependencies exRefuses exPhabFind [oidN 1, oidN 2, oidN 3] exPhabRevisions
        [oidN 1, oidN 2, oidN 3] = (s', .ok ()) ∧
      RevisionOf (exPhabCommit [oidN 1] 2) t!"2" ∧ exPhabFind (oidN 2) = some (exPhabCommit [oidN 1] 2) ∧
      ¬ Stacked exPhabFind (· ∈ [oidN 1, oidN 2, oidN 3]) s' (oidN 2) t!"2" := by
  refine ⟨exPhabRevisions, by decide +kernel, (revisionId_iff _ _).1 (by decide +kernel), by decide +kernel, ?_⟩
  intro h
  have := (h _ (by rfl) t!"PHID-1").2 ⟨t!"1", _, ⟨_, oidN 1, exPhabCommit [oidN 0] 1, rfl, by decide +kernel,
    by decide +kernel, by decide +kernel, (revisionId_iff _ _).1 (by decide +kernel)⟩, rfl, rfl⟩
  exact absurd this (by decide +kernel)

/-- The two commits in the other order, after they were submitted: `2` on `0`, and `1` on `2`. -/
def exPhabReordered : Oid → Option CommitData :=
  AMap.get? [(oidN 0, exCommit [] 10 0), (oidN 2, exPhabCommit [oidN 0] 2), (oidN 1, exPhabCommit [oidN 2] 1)]

/-- C83: if only a part of a stack is submitted after its commits were reordered, the revisions depend on each other
(or, if Phabricator refuses this, the revision does not depend on that of the parent). So it is needed above that the
whole stack is submitted. -/
theorem part_of_stack_makes_cycle :
    ∃ s s', AMap.WF s ∧ NoCycle s ∧
      updateDependencies exAccepts exPhabReordered [oidN 1, oidN 2] s [oidN 1] = (s', .ok ()) ∧ ¬ NoCycle s' := by
  refine ⟨[(t!"1", ⟨t!"PHID-1", [], []⟩), (t!"2", ⟨t!"PHID-2", [], [t!"PHID-1"]⟩)],
    [(t!"1", ⟨t!"PHID-1", [], [t!"PHID-2"]⟩), (t!"2", ⟨t!"PHID-2", [], [t!"PHID-1"]⟩)],
    by unfold AMap.WF; decide +kernel, ?_,
    by decide +kernel, ?_⟩
  · have hdep : ∀ i j, DependsOn [(t!"1", ⟨t!"PHID-1", [], []⟩), (t!"2", ⟨t!"PHID-2", [], [t!"PHID-1"]⟩)] i j →
        i = t!"2" ∧ j = t!"1" := by
      rintro i j ⟨r, r', h1, h2, h3⟩
      have h1 := AMap.mem_of_get? h1
      have h2 := AMap.mem_of_get? h2
      simp only [List.mem_cons, Prod.mk.injEq, List.not_mem_nil, or_false] at h1 h2
      rcases h1 with ⟨rfl, rfl⟩ | ⟨rfl, rfl⟩
      · exact nomatch h3
      · rcases h2 with ⟨rfl, rfl⟩ | ⟨rfl, rfl⟩
        · exact ⟨rfl, rfl⟩
        · exact absurd h3 (by decide +kernel)
    have htrans : ∀ i j, Relation.TransGen (DependsOn [(t!"1", ⟨t!"PHID-1", [], []⟩),
        (t!"2", ⟨t!"PHID-2", [], [t!"PHID-1"]⟩)]) i j → i = t!"2" ∧ j = t!"1" := by
      intro i j h
      induction h with
      | single h => exact hdep _ _ h
      | tail _ h ih => exact ⟨ih.1, (hdep _ _ h).2⟩
    intro i hi
    obtain ⟨h1, h2⟩ := htrans i i hi
    rw [h1] at h2
    exact absurd h2 (by decide +kernel)
  · intro h
    refine h t!"1" (.tail (.single (b := t!"2") ⟨_, _, rfl, rfl, by decide +kernel⟩) ⟨_, _, rfl, rfl, by decide +kernel⟩)

end Verif.Props
