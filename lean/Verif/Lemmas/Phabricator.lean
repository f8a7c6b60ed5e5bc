import Verif.Spec.Phabricator
import Verif.Props.SmartlogText

/-! Lemmas about the statuses of commits and the dependencies of revisions in Phabricator. -/

namespace Verif.Spec

open Verif Verif.Phabricator Verif.Props

theorem get?_ofList_iff {α β : Type} [DecidableEq α] {l : List (α × β)} {k : α} {v : β} :
    AMap.get? (AMap.ofList l) k = some v ↔
      ∃ before after, l = before ++ (k, v) :: after ∧ ∀ x ∈ after, x.1 ≠ k := by
  induction l using List.reverseRecOn with
  | nil => simp [AMap.ofList]
  | append_singleton l x ih =>
    unfold AMap.ofList at ih ⊢
    rw [List.foldl_append, List.foldl_cons, List.foldl_nil, AMap.get?_insert]
    by_cases hx : x.1 = k
    · rw [if_pos hx]
      constructor
      · intro h
        cases h
        refine ⟨l, [], ?_, by simp⟩
        rw [← hx]
      · rintro ⟨before, after, h1, h2⟩
        rcases List.eq_nil_or_concat after with rfl | ⟨after', y, rfl⟩
        · have := List.append_inj' h1 rfl
          simp only [List.cons.injEq, and_true] at this
          rw [this.2]
        · exfalso
          rw [List.concat_eq_append, ← List.cons_append, ← List.append_assoc] at h1
          have := List.append_inj' h1 rfl
          simp only [List.cons.injEq, and_true] at this
          exact h2 y (by simp) (this.2 ▸ hx)
    · rw [if_neg hx, ih]
      constructor
      · rintro ⟨before, after, rfl, h2⟩
        refine ⟨before, after ++ [x], by simp, ?_⟩
        intro y hy
        rcases List.mem_append.1 hy with hy | hy
        · exact h2 y hy
        · rw [List.mem_singleton] at hy; subst hy; exact hx
      · rintro ⟨before, after, h1, h2⟩
        rcases List.eq_nil_or_concat after with rfl | ⟨after', y, rfl⟩
        · have := List.append_inj' h1 rfl
          simp only [List.cons.injEq, and_true] at this
          rw [this.2] at hx
          exact absurd rfl hx
        · rw [List.concat_eq_append, ← List.cons_append, ← List.append_assoc] at h1
          have := List.append_inj' h1 rfl
          exact ⟨before, after', this.1, fun z hz => h2 z (by simp [hz])⟩

theorem revisionId_iff (d : CommitData) (id : Text) : revisionId d = some id ↔ RevisionOf d id := by
  unfold revisionId RevisionOf
  cases d.message with
  | none => simp
  | some m =>
    simp only [Option.bind_some, Option.some.injEq]
    have key : (extractDiffNumber m).map (·.drop 1) = some id ↔ extractDiffNumber m = some ('D' :: id) := by
      constructor
      · intro h
        rw [Option.map_eq_some_iff] at h
        obtain ⟨r, h1, h2⟩ := h
        obtain ⟨_, _, _, _, ⟨⟨ds, _, _, rfl⟩, _⟩, _⟩ := (revision_exact m r).1 h1
        rw [h1, ← h2]
        rfl
      · intro h
        rw [h]
        rfl
    rw [key, revision_exact]
    constructor
    · rintro ⟨a, b, c, h1, h2, h3⟩
      exact ⟨m, a, b, c, rfl, h1, h2, h3⟩
    · rintro ⟨_, a, b, c, rfl, h1, h2, h3⟩
      exact ⟨a, b, c, h1, h2, h3⟩

theorem revisionOf_unique {d : CommitData} {i j : Text} (h1 : RevisionOf d i) (h2 : RevisionOf d j) : i = j := by
  rw [← revisionId_iff] at h1 h2
  rw [h1] at h2
  exact Option.some.inj h2

theorem revisionId_none (d : CommitData) : revisionId d = none ↔ ¬ ∃ id, RevisionOf d id := by
  constructor
  · rintro h ⟨id, hid⟩
    rw [(revisionId_iff d id).2 hid] at h
    exact nomatch h
  · intro h
    cases hr : revisionId d with
    | none => rfl
    | some id => exact absurd ⟨id, (revisionId_iff d id).1 hr⟩ h

theorem commitHash_iff (r : Revision) (c : Oid) : commitHash r = some c ↔ RevisionHash r c := by
  unfold commitHash RevisionHash
  constructor
  · intro h
    split at h
    · exact nomatch h
    · rename_i x hx
      obtain ⟨a, b, h1, h2⟩ := get?_ofList_iff.1 hx
      exact ⟨a, b, x, h1, h2, h⟩
  · rintro ⟨a, b, x, h1, h2, h3⟩
    rw [get?_ofList_iff.2 ⟨a, b, h1, h2⟩]
    exact h3

theorem commitHashes_iff {rs : List (Text × Revision)} (hw : AMap.WF rs) (id : Text) (c : Oid) :
    AMap.get? (commitHashes rs) id = some c ↔ ∃ r, AMap.get? rs id = some r ∧ commitHash r = some c := by
  unfold commitHashes
  have hmem : ∀ v, (id, v) ∈ (rs.filterMap fun x => (commitHash x.2).map fun o => (x.1, o)) ↔
      ∃ r, AMap.get? rs id = some r ∧ commitHash r = some v := by
    intro v
    rw [List.mem_filterMap]
    constructor
    · rintro ⟨⟨i, r⟩, h1, h2⟩
      rw [Option.map_eq_some_iff] at h2
      obtain ⟨o, h3, h4⟩ := h2
      simp only [Prod.mk.injEq] at h4
      obtain ⟨rfl, rfl⟩ := h4
      exact ⟨r, AMap.get?_of_mem hw h1, h3⟩
    · rintro ⟨r, h1, h2⟩
      exact ⟨(id, r), AMap.mem_of_get? h1, by simp [h2]⟩
  rw [get?_ofList_iff]
  constructor
  · rintro ⟨a, b, h1, h2⟩
    exact (hmem c).1 (by rw [h1]; simp)
  · intro h
    obtain ⟨a, b, hab⟩ := List.append_of_mem ((hmem c).2 h)
    refine ⟨a, b, hab, ?_⟩
    have hnd : ((rs.filterMap fun x => (commitHash x.2).map fun o => (x.1, o)).map Prod.fst).Nodup := by
      refine List.Nodup.sublist ?_ hw
      unfold AMap.keys
      clear hab h hmem hw
      induction rs with
      | nil => exact .slnil
      | cons x rs ih =>
        rw [List.filterMap_cons]
        cases hx : commitHash x.2 with
        | none => simpa [hx] using ih.cons _
        | some o => simpa [hx] using ih.cons_cons x.1
    rw [hab] at hnd
    rintro ⟨i, v⟩ hv rfl
    rw [List.map_append, List.map_cons, List.nodup_append] at hnd
    have := hnd.2.1
    rw [List.nodup_cons] at this
    exact this.1 (List.mem_map.2 ⟨_, hv, rfl⟩)

theorem get?_filter_ids {s : Revisions} (hw : AMap.WF s) {ids : List Text} {id : Text} (h : id ∈ ids) :
    AMap.get? (s.filter fun x => ids.contains x.1) id = AMap.get? s id := by
  cases hs : AMap.get? s id with
  | some r =>
    refine AMap.get?_of_mem ?_ ?_
    · exact List.Nodup.sublist (List.filter_sublist.map _) hw
    · exact List.mem_filter.2 ⟨AMap.mem_of_get? hs, by simpa using h⟩
  | none =>
    cases hf : AMap.get? (s.filter fun x => ids.contains x.1) id with
    | none => rfl
    | some r =>
      have := List.mem_of_mem_filter (AMap.mem_of_get? hf)
      rw [AMap.get?_of_mem hw this] at hs
      exact nomatch hs

/-! ### dependencies -/

theorem get?_setParents (s : Revisions) (i : Text) (phids : List Text) (j : Text) :
    AMap.get? (setParents s i phids) j =
      (AMap.get? s j).map fun r => if j = i then { r with dependsOn := phids } else r := by
  unfold setParents
  induction s with
  | nil => rfl
  | cons x s ih =>
    obtain ⟨k, r⟩ := x
    rw [List.map_cons]
    by_cases hk : k = i
    · rw [if_pos hk, AMap.get?_cons, AMap.get?_cons, ih]
      by_cases hj : k = j
      · subst hj hk; simp
      · rw [if_neg hj, if_neg hj]
    · rw [if_neg hk, AMap.get?_cons, AMap.get?_cons, ih]
      by_cases hj : k = j
      · subst hj; simp [hk]
      · rw [if_neg hj, if_neg hj]

theorem wf_setParents {s : Revisions} (h : AMap.WF s) (i : Text) (phids : List Text) :
    AMap.WF (setParents s i phids) := by
  have : AMap.keys (setParents s i phids) = AMap.keys s := by
    unfold setParents AMap.keys
    rw [List.map_map]
    refine List.map_congr_left fun x _ => ?_
    simp only [Function.comp]
    split <;> rfl
  unfold AMap.WF
  rw [this]
  exact h

theorem parentRevisions_mem {find : Oid → Option CommitData} {draft ps : List Oid} {ids : List Text}
    (h : parentRevisions find draft ps = some ids) (j : Text) :
    j ∈ ids ↔ ∃ p ∈ ps, p ∈ draft ∧ ∃ dp, find p = some dp ∧ RevisionOf dp j := by
  induction ps generalizing ids with
  | nil => cases h; simp
  | cons p ps ih =>
    unfold parentRevisions at h
    by_cases hp : draft.contains p = true
    · rw [if_pos hp] at h
      have hp' : p ∈ draft := by simpa using hp
      cases hg : find p with
      | none => simp [getRevisionId, hg] at h
      | some dp =>
        cases hr : revisionId dp with
        | none =>
          simp only [getRevisionId, hg, Option.map_some, hr] at h
          rw [ih h]
          constructor
          · rintro ⟨p', h1, h2⟩; exact ⟨p', by simp [h1], h2⟩
          · rintro ⟨p', h1, h2, dp', h3, h4⟩
            rcases List.mem_cons.1 h1 with rfl | h1
            · rw [hg] at h3; cases h3
              exact absurd ⟨j, h4⟩ ((revisionId_none _).1 hr)
            · exact ⟨p', h1, h2, dp', h3, h4⟩
        | some id =>
          simp only [getRevisionId, hg, Option.map_some, hr, Option.map_eq_some_iff] at h
          obtain ⟨l, h1, rfl⟩ := h
          rw [List.mem_cons, ih h1]
          constructor
          · rintro (rfl | ⟨p', h2, h3⟩)
            · exact ⟨p, by simp, hp', dp, hg, (revisionId_iff _ _).1 hr⟩
            · exact ⟨p', by simp [h2], h3⟩
          · rintro ⟨p', h2, h3, dp', h4, h5⟩
            rcases List.mem_cons.1 h2 with rfl | h2
            · rw [hg] at h4; cases h4
              exact .inl (revisionOf_unique h5 ((revisionId_iff _ _).1 hr))
            · exact .inr ⟨p', h2, h3, dp', h4, h5⟩
    · rw [if_neg hp] at h
      have hp' : p ∉ draft := by simpa using hp
      rw [ih h]
      constructor
      · rintro ⟨p', h1, h2⟩; exact ⟨p', by simp [h1], h2⟩
      · rintro ⟨p', h1, h2, h3⟩
        rcases List.mem_cons.1 h1 with rfl | h1
        · exact absurd h2 hp'
        · exact ⟨p', h1, h2, h3⟩

/-- What is asked of Phabricator for a commit. -/
theorem setDependencies_cases {q : Conduit} {s s' : Revisions} {i : Text} {parents : List Text}
    {x : Except PhabStop Unit} (hw : AMap.WF s) (h : setDependencies q s i parents = (s', x)) :
    (s' = s ∧ ∃ e, x = .error e) ∨
    ∃ phids, (∀ ph, ph ∈ phids ↔ ∃ j r, j ∈ parents ∧ AMap.get? s j = some r ∧ ph = r.phid) ∧
      ((q.edit s i phids = .applied ∧ s' = setParents s i phids ∧ x = .ok ()) ∨
        (q.edit s i phids = .refused ∧ s' = s ∧ x = .ok ()) ∨
        ((∀ a, q.edit s i phids = a → a ≠ .applied ∧ a ≠ .refused) ∧ s' = s ∧ ∃ e, x = .error e)) := by
  unfold setDependencies at h
  cases hq : queryRevisions q s parents with
  | none => rw [hq] at h; cases h; exact .inl ⟨rfl, _, rfl⟩
  | some rs =>
    rw [hq] at h
    right
    refine ⟨rs.map (·.2.phid), ?_, ?_⟩
    · intro ph
      have hrs : ∀ j r, (j, r) ∈ rs ↔ j ∈ parents ∧ AMap.get? s j = some r := by
        intro j r
        unfold queryRevisions at hq
        by_cases he : parents.isEmpty = true
        · rw [if_pos he] at hq
          cases hq
          rw [List.isEmpty_iff] at he
          simp [he]
        · rw [if_neg he] at hq
          by_cases hf : q.queryFails s parents = true
          · rw [if_pos hf] at hq; exact nomatch hq
          · rw [if_neg hf] at hq
            cases hq
            rw [List.mem_filter]
            constructor
            · rintro ⟨h1, h2⟩; exact ⟨by simpa using h2, AMap.get?_of_mem hw h1⟩
            · rintro ⟨h1, h2⟩; exact ⟨AMap.mem_of_get? h2, by simpa using h1⟩
      constructor
      · intro h1
        obtain ⟨⟨j, r⟩, h2, rfl⟩ := List.mem_map.1 h1
        exact ⟨j, r, ((hrs j r).1 h2).1, ((hrs j r).1 h2).2, rfl⟩
      · rintro ⟨j, r, h1, h2, rfl⟩
        exact List.mem_map.2 ⟨(j, r), (hrs j r).2 ⟨h1, h2⟩, rfl⟩
    · simp only at h
      cases he : q.edit s i (rs.map (·.2.phid)) with
      | applied => rw [he] at h; cases h; exact .inl ⟨rfl, rfl, rfl⟩
      | refused => rw [he] at h; cases h; exact .inr (.inl ⟨rfl, rfl, rfl⟩)
      | failed code =>
        rw [he] at h; cases h
        exact .inr (.inr ⟨by rintro a rfl; exact ⟨nofun, nofun⟩, rfl, _, rfl⟩)
      | notRun =>
        rw [he] at h; cases h
        exact .inr (.inr ⟨by rintro a rfl; exact ⟨nofun, nofun⟩, rfl, _, rfl⟩)

end Verif.Spec
