import Verif.Lemmas.GithubUpdate
import Verif.Lemmas.TestRunInv

/-! Lemmas about the status of pull requests. -/

namespace Verif.Spec

open Verif

/-! ### the map of statuses -/

theorem wf_queryPrStatus (env : ForgeEnv) (w : ForgeWorld) (set : List Oid) :
    AMap.WF (queryPrStatus env w set) := by
  unfold queryPrStatus
  simp only
  have h1 : ∀ (l : List (Text × Oid)) (m : AMap Oid PrStatus), AMap.WF m →
      AMap.WF (l.foldl (fun (m : AMap Oid PrStatus) e =>
        if set.contains e.2 then m.insert e.2 (branchPrStatus env w (categorize e.1).renderSuffix e.2)
        else m) m) := by
    intro l
    induction l with
    | nil => exact fun m h => h
    | cons e l ih =>
      intro m h
      rw [List.foldl_cons]
      apply ih
      split
      · exact AMap.wf_insert h _ _
      · exact h
  have h2 : ∀ (l : List Oid) (m : AMap Oid PrStatus), AMap.WF m →
      AMap.WF (l.foldl (fun (m : AMap Oid PrStatus) o =>
        match m.get? o with
        | some _ => m
        | none => m.insert o ⟨⟨.unsubmitted, none, none⟩, none⟩) m) := by
    intro l
    induction l with
    | nil => exact fun m h => h
    | cons o l ih =>
      intro m h
      rw [List.foldl_cons]
      apply ih
      split
      · exact h
      · exact AMap.wf_insert h _ _
  exact h2 _ _ (h1 _ _ AMap.wf_nil)

/-- The entries of the branches at a commit. -/
def branchesAt (refs : Refs) (o : Oid) : Refs := (localBranches refs).filter fun e => e.2 = o

theorem queryPrStatus_get (env : ForgeEnv) (w : ForgeWorld) (set : List Oid) (o : Oid) :
    (queryPrStatus env w set).get? o =
      if o ∈ set then some (match (branchesAt w.repo.refs o).getLast? with
        | some e => branchPrStatus env w (categorize e.1).renderSuffix o
        | none => ⟨⟨.unsubmitted, none, none⟩, none⟩) else none := by
  unfold queryPrStatus
  simp only
  have h1 : ∀ (l : List (Text × Oid)) (m : AMap Oid PrStatus),
      AMap.get? (l.foldl (fun (m : AMap Oid PrStatus) e =>
        if set.contains e.2 then m.insert e.2 (branchPrStatus env w (categorize e.1).renderSuffix e.2)
        else m) m) o =
      if o ∈ set then ((l.filter fun e => e.2 = o).getLast?.map fun e =>
        branchPrStatus env w (categorize e.1).renderSuffix o).or (m.get? o) else m.get? o := by
    intro l
    induction l with
    | nil =>
      intro m
      rw [List.foldl_nil]
      split <;> rfl
    | cons e l ih =>
      intro m
      rw [List.foldl_cons, ih]
      by_cases ho : o ∈ set
      · rw [if_pos ho, if_pos ho, List.filter_cons]
        by_cases he : e.2 = o
        · rw [if_pos (by rw [List.contains_iff_mem, he]; exact ho), AMap.get?_insert, if_pos he,
            if_pos (decide_eq_true he), List.getLast?_cons]
          cases (List.filter (fun e => decide (e.2 = o)) l).getLast? with
          | none => simp [he]
          | some f => simp
        · rw [if_neg (c := decide (e.2 = o) = true) (fun h => he (of_decide_eq_true h))]
          congr 1
          split
          · rw [AMap.get?_insert, if_neg he]
          · rfl
      · rw [if_neg ho, if_neg ho]
        split
        · rename_i hc
          rw [AMap.get?_insert, if_neg]
          rintro rfl
          exact ho (List.contains_iff_mem.1 hc)
        · rfl
  have h2 : ∀ (l : List Oid) (m : AMap Oid PrStatus),
      AMap.get? (l.foldl (fun (m : AMap Oid PrStatus) o =>
        match m.get? o with
        | some _ => m
        | none => m.insert o ⟨⟨.unsubmitted, none, none⟩, none⟩) m) o =
      (m.get? o).or (if o ∈ l then some ⟨⟨.unsubmitted, none, none⟩, none⟩ else none) := by
    intro l
    induction l with
    | nil => intro m; simp
    | cons c l ih =>
      intro m
      rw [List.foldl_cons, ih]
      cases hc : m.get? c with
      | some s =>
        simp only
        by_cases ho : o = c
        · subst ho; rw [hc]; rfl
        · congr 1
          simp [ho]
      | none =>
        simp only
        rw [AMap.get?_insert]
        by_cases ho : c = o
        · subst ho; rw [if_pos rfl, hc]; simp
        · rw [if_neg ho]
          congr 1
          simp [Ne.symm ho]
  refine (h2 _ _).trans ?_
  rw [h1]
  by_cases ho : o ∈ set
  · rw [if_pos ho, if_pos ho, if_pos ho]
    unfold branchesAt
    cases (List.filter (fun e => decide (e.2 = o)) (localBranches w.repo.refs)).getLast? with
    | none => rfl
    | some e => rfl
  · rw [if_neg ho, if_neg ho, if_neg ho]
    rfl

/-! ### the branch which counts -/

theorem mem_branchesAt {refs : Refs} (hw : AMap.WF refs) {o : Oid} {e : Text × Oid} :
    e ∈ branchesAt refs o ↔ ∃ b, e = (fullName b, o) ∧ refs.get? (fullName b) = some o := by
  unfold branchesAt localBranches
  rw [List.mem_filter, List.mem_filter]
  constructor
  · rintro ⟨⟨h1, h2⟩, h3⟩
    have h3 := of_decide_eq_true h3
    obtain ⟨x, o'⟩ := e
    simp only at h3
    subst h3
    have hb : IsBranch x := by
      have := (mem_namesAt' (refs := refs) hw (o := o') (x := x)).1 (by
        unfold namesAt localBranches
        rw [List.mem_insertionSort, List.mem_map]
        exact ⟨(x, o'), List.mem_filter.2 ⟨List.mem_filter.2 ⟨h1, h2⟩, decide_eq_true rfl⟩, rfl⟩)
      obtain ⟨b, rfl, -⟩ := this
      exact isBranch_fullName b
    obtain ⟨b, rfl, -⟩ := branch_parts hb
    exact ⟨b, rfl, AMap.get?_of_mem hw h1⟩
  · rintro ⟨b, rfl, h⟩
    have h1 := (mem_namesAt' hw (o := o) (x := fullName b)).2 ⟨b, rfl, h⟩
    unfold namesAt localBranches at h1
    rw [List.mem_insertionSort, List.mem_map] at h1
    obtain ⟨⟨x, o'⟩, h1, h2⟩ := h1
    simp only at h2
    subst h2
    rw [List.mem_filter, List.mem_filter] at h1
    obtain ⟨⟨h3, h4⟩, h5⟩ := h1
    have h5 := of_decide_eq_true h5
    simp only at h5
    subst h5
    exact ⟨⟨h3, h4⟩, decide_eq_true rfl⟩

theorem last_counts {w : ForgeWorld} (hw : AMap.WF w.repo.refs) {o : Oid} {b : Text} :
    (branchesAt w.repo.refs o).getLast? = some (fullName b, o) ↔ Counts w b o := by
  have hsub : ((branchesAt w.repo.refs o).map Prod.fst).Sublist (w.repo.refs.map Prod.fst) := by
    unfold branchesAt localBranches
    exact (List.filter_sublist.trans List.filter_sublist).map _
  have hnd : (w.repo.refs.map Prod.fst).Nodup := hw
  constructor
  · intro h
    obtain ⟨l, hl⟩ := List.getLast?_eq_some_iff.1 h
    have hmem : (fullName b, o) ∈ branchesAt w.repo.refs o := by rw [hl]; simp
    obtain ⟨b', hb', hat⟩ := (mem_branchesAt hw).1 hmem
    obtain rfl := fullName_inj (Prod.mk.inj hb').1
    refine ⟨hat, ?_⟩
    intro b' hb' hne
    have h2 : (fullName b', o) ∈ branchesAt w.repo.refs o := (mem_branchesAt hw).2 ⟨b', rfl, hb'⟩
    rw [hl, List.mem_append, List.mem_singleton] at h2
    have h3 : (fullName b', o) ∈ l := h2.resolve_right fun h =>
      hne (fullName_inj (Prod.mk.inj h).1)
    refine List.Sublist.trans ?_ hsub
    rw [hl, List.map_append]
    have : [fullName b'].Sublist (l.map Prod.fst) :=
      List.singleton_sublist.2 (List.mem_map.2 ⟨_, h3, rfl⟩)
    exact this.append (List.Sublist.refl [fullName b])
  · rintro ⟨h1, h2⟩
    have hmem : (fullName b, o) ∈ branchesAt w.repo.refs o := (mem_branchesAt hw).2 ⟨b, rfl, h1⟩
    cases hl : (branchesAt w.repo.refs o).getLast? with
    | none =>
      rw [List.getLast?_eq_none_iff] at hl
      rw [hl] at hmem
      cases hmem
    | some e =>
      obtain ⟨l, hl'⟩ := List.getLast?_eq_some_iff.1 hl
      have he : e ∈ branchesAt w.repo.refs o := by rw [hl']; simp
      obtain ⟨b', rfl, hb'⟩ := (mem_branchesAt hw).1 he
      by_cases hbb : b' = b
      · rw [hbb]
      · exfalso
        have h3 := h2 b' hb' hbb
        -- the other order holds, too
        rw [hl', List.mem_append, List.mem_singleton] at hmem
        have h4 : (fullName b, o) ∈ l := hmem.resolve_right fun h =>
          hbb (fullName_inj (Prod.mk.inj h).1).symm
        have h5 : [fullName b, fullName b'].Sublist (w.repo.refs.map Prod.fst) := by
          refine List.Sublist.trans ?_ hsub
          rw [hl', List.map_append]
          have : [fullName b].Sublist (l.map Prod.fst) :=
            List.singleton_sublist.2 (List.mem_map.2 ⟨_, h4, rfl⟩)
          exact this.append (List.Sublist.refl [fullName b'])
        -- in a list without duplicates this cannot be
        have key : ∀ (l : List Text) (x y : Text), l.Nodup → x ≠ y → [x, y].Sublist l → ¬ [y, x].Sublist l := by
          intro l x y hl hxy h h'
          have := hl.sublist h
          have p1 := h
          induction l with
          | nil => cases h
          | cons a l ih =>
            by_cases hax : a = x
            · subst hax
              rcases h' with _ | h' | h'
              · rename_i h'
                exact (List.nodup_cons.1 hl).1 (h'.subset (by simp))
              · exact hxy rfl
            · by_cases hay : a = y
              · subst hay
                rcases h with _ | h | h
                · rename_i h
                  exact (List.nodup_cons.1 hl).1 (h.subset (by simp))
                · exact hax rfl
              · have e1 : [x, y].Sublist l := by
                  rcases h with _ | h | h
                  · assumption
                  · exact absurd rfl hax
                have e2 : [y, x].Sublist l := by
                  rcases h' with _ | h' | h'
                  · assumption
                  · exact absurd rfl hay
                exact ih (List.nodup_cons.1 hl).2 e1 e2 e1
        exact key _ _ _ hnd (fun h => hbb (fullName_inj h)) h3 h5

theorem counts_unique {w : ForgeWorld} (hw : AMap.WF w.repo.refs) {o : Oid} {b b' : Text} (h : Counts w b o)
    (h' : Counts w b' o) : b = b' := by
  rw [← last_counts hw] at h h'
  rw [h] at h'
  exact fullName_inj (Prod.mk.inj (Option.some.inj h')).1

theorem counts_exists {w : ForgeWorld} (hw : AMap.WF w.repo.refs) {o : Oid} {b : Text}
    (h : BranchAt w.repo b o) : ∃ b', Counts w b' o := by
  have hmem : (fullName b, o) ∈ branchesAt w.repo.refs o := (mem_branchesAt hw).2 ⟨b, rfl, h⟩
  cases hl : (branchesAt w.repo.refs o).getLast? with
  | none =>
    rw [List.getLast?_eq_none_iff] at hl
    rw [hl] at hmem
    cases hmem
  | some e =>
    obtain ⟨l, hl'⟩ := List.getLast?_eq_some_iff.1 hl
    have he : e ∈ branchesAt w.repo.refs o := by rw [hl']; simp
    obtain ⟨b', rfl, -⟩ := (mem_branchesAt hw).1 he
    exact ⟨b', (last_counts hw).1 hl⟩

/-- The status of a commit. -/
theorem status_counts {env : ForgeEnv} {w : ForgeWorld} (hw : AMap.WF w.repo.refs) {set : List Oid} {o : Oid}
    (ho : o ∈ set) {b : Text} (h : Counts w b o) :
    (queryPrStatus env w set).get? o = some (branchPrStatus env w b o) := by
  rw [queryPrStatus_get, if_pos ho, (last_counts hw).2 h]
  simp only
  rw [fullName_suffix]

theorem status_no_branch {env : ForgeEnv} {w : ForgeWorld} (hw : AMap.WF w.repo.refs) {set : List Oid} {o : Oid}
    (ho : o ∈ set) (h : ∀ b, ¬ BranchAt w.repo b o) :
    (queryPrStatus env w set).get? o = some ⟨⟨.unsubmitted, none, none⟩, none⟩ := by
  rw [queryPrStatus_get, if_pos ho]
  cases hl : (branchesAt w.repo.refs o).getLast? with
  | none => rfl
  | some e =>
    obtain ⟨l, hl'⟩ := List.getLast?_eq_some_iff.1 hl
    have he : e ∈ branchesAt w.repo.refs o := by rw [hl']; simp
    obtain ⟨b', -, hb'⟩ := (mem_branchesAt hw).1 he
    exact absurd hb' (h b')

theorem fieldsToUpdate_empty {a : PrArgs} {t : Option Oid} {p : PullRequest} :
    (fieldsToUpdate a t p).isEmpty = true ↔
      t = some a.headOid ∧ p.base = a.base ∧ p.title = a.title ∧ p.body = a.body := by
  unfold fieldsToUpdate
  rw [List.isEmpty_iff, List.append_eq_nil_iff, List.append_eq_nil_iff, List.append_eq_nil_iff]
  constructor
  · rintro ⟨⟨⟨h1, h2⟩, h3⟩, h4⟩
    refine ⟨?_, ?_, ?_, ?_⟩
    · by_contra h; rw [if_neg h] at h1; cases h1
    · by_contra h; rw [if_neg h] at h2; cases h2
    · by_contra h; rw [if_neg h] at h3; cases h3
    · by_contra h; rw [if_neg h] at h4; cases h4
  · rintro ⟨h1, h2, h3, h4⟩
    rw [if_pos h1, if_pos h2, if_pos h3, if_pos h4]
    exact ⟨⟨⟨rfl, rfl⟩, rfl⟩, rfl⟩

theorem branchPrStatus_pr {env : ForgeEnv} {w : ForgeWorld} (hu : UsualForge env w) {o : Oid}
    {p : PullRequest} (hp : p ∈ w.prs) (ht : TracksSame w p.head) :
    (PrCurrent env w o p → branchPrStatus env w p.head o = ⟨⟨.upToDate, some w.github, some p.head⟩, some p.head⟩) ∧
    (¬ PrCurrent env w o p → branchPrStatus env w p.head o = createdStatus w.github p.head) := by
  have hname : w.repo.upstreamName p.head = some p.head := (upstreamName_some hu).2 ⟨rfl, ht⟩
  have hpr : (w.repo.upstreamName p.head).bind (prOf w.prs) = some p := (branchPr_some hu).2 ⟨hp, rfl, ht⟩
  have hpush : w.repo.pushRemoteName p.head = some w.github := by
    unfold SubmitWorld.pushRemoteName
    cases hq : w.repo.pushRemote p.head with
    | some q => simp only; rw [hu.push _ q hq]
    | none => exact ht.remote
  have hiff : (fieldsToUpdate (desiredPr env w.repo w.prs o) (w.tip p.head) p).isEmpty = true ↔
      PrCurrent env w o p := by
    rw [fieldsToUpdate_empty]
    exact ⟨fun ⟨h1, h2, h3, h4⟩ => ⟨h1, h2, h3, h4⟩, fun h => ⟨h.tip, h.base, h.title, h.body⟩⟩
  unfold branchPrStatus createdStatus
  rw [hpr, hpush, hname]
  simp only
  constructor
  · intro h
    rw [if_pos (hiff.2 h)]
  · intro h
    rw [if_neg (fun h' => h (hiff.1 h'))]

theorem branchPrStatus_none {env : ForgeEnv} {w : ForgeWorld} (hu : UsualForge env w) {o : Oid} {b : Text}
    (hb : BranchAt w.repo b o) (h : ∀ p, HasPr w o p → p.head ≠ b) :
    (branchPrStatus env w b o).status = .unsubmitted ∧ (branchPrStatus env w b o).localName = some b := by
  have hpr : (w.repo.upstreamName b).bind (prOf w.prs) = none := by
    cases hp : (w.repo.upstreamName b).bind (prOf w.prs) with
    | none => rfl
    | some p =>
      obtain ⟨h1, rfl, h3⟩ := (branchPr_some hu).1 hp
      exact absurd rfl (h p ⟨h1, hb, h3⟩)
  unfold branchPrStatus
  rw [hpr]
  exact ⟨rfl, rfl⟩

/-- The status of each commit. -/
theorem status_cases {env : ForgeEnv} {w : ForgeWorld} (hu : UsualForge env w) {set : List Oid} {o : Oid}
    (ho : o ∈ set) {s : PrStatus} (hs : (queryPrStatus env w set).get? o = some s) :
    (s.status = .unsubmitted ∧ NotSubmitted w o ∧ (∀ b, s.localName = some b → Counts w b o) ∧
      (s.localName = none → ∀ b, ¬ BranchAt w.repo b o)) ∨
    (∃ b, NeedsWork env w o b ∧ s = createdStatus w.github b) ∨
    (∃ b, InOrder env w o b ∧ s = ⟨⟨.upToDate, some w.github, some b⟩, some b⟩) := by
  by_cases hex : ∃ b, BranchAt w.repo b o
  · obtain ⟨b0, hb0⟩ := hex
    obtain ⟨b, hb⟩ := counts_exists hu.refs hb0
    rw [status_counts hu.refs ho hb] at hs
    obtain rfl := Option.some.inj hs
    by_cases hp : ∃ p, HasPr w o p ∧ p.head = b
    · obtain ⟨p, hp, rfl⟩ := hp
      by_cases hc : PrCurrent env w o p
      · exact .inr (.inr ⟨p.head, ⟨hb, p, hp, rfl, hc⟩, (branchPrStatus_pr hu hp.mem hp.tracks).1 hc⟩)
      · exact .inr (.inl ⟨p.head, ⟨hb, p, hp, rfl, hc⟩, (branchPrStatus_pr hu hp.mem hp.tracks).2 hc⟩)
    · push Not at hp
      obtain ⟨h1, h2⟩ := branchPrStatus_none (env := env) hu hb.1 hp
      refine .inl ⟨h1, ?_, ?_, ?_⟩
      · intro b' p hb' hp' e
        rw [counts_unique hu.refs hb' hb] at e
        exact hp p hp' e
      · intro b' e
        rw [h2] at e
        exact Option.some.inj e ▸ hb
      · intro e
        rw [h2] at e
        cases e
  · push Not at hex
    rw [status_no_branch hu.refs ho hex] at hs
    obtain rfl := Option.some.inj hs
    refine .inl ⟨rfl, ?_, ?_, fun _ => hex⟩
    · intro b p hb
      exact absurd hb.1 (hex b)
    · intro b h
      cases h

/-! ### the commits with a status -/

theorem prsWith_get {m : AMap Oid PrStatus} (hm : AMap.WF m) (x : SubmitStatus) (o : Oid) {s : PrStatus} :
    (prsWith x m).get? o = some s ↔ m.get? o = some s ∧ s.status = x := by
  have hw : AMap.WF (prsWith x m) := by
    unfold prsWith AMap.WF AMap.keys at *
    exact hm.sublist (List.filter_sublist.map _)
  constructor
  · intro h
    have := List.mem_filter.1 (AMap.mem_of_get? h)
    exact ⟨AMap.get?_of_mem hm this.1, of_decide_eq_true this.2⟩
  · rintro ⟨h1, h2⟩
    exact AMap.get?_of_mem hw (List.mem_filter.2 ⟨AMap.mem_of_get? h1, decide_eq_true h2⟩)

theorem prsWith_wf {m : AMap Oid PrStatus} (hm : AMap.WF m) (x : SubmitStatus) : AMap.WF (prsWith x m) := by
  unfold prsWith AMap.WF AMap.keys at *
  exact hm.sublist (List.filter_sublist.map _)

theorem mem_sortedStatuses {env : ForgeEnv} {m : AMap Oid PrStatus} {e : Oid × PrStatus} :
    e ∈ sortedStatuses env m ↔ e.1 ∈ env.dag.graph.nodes ∧ m.get? e.1 = some e.2 := by
  unfold sortedStatuses
  rw [List.mem_filterMap]
  constructor
  · rintro ⟨o, ho, h⟩
    rw [Option.map_eq_some_iff] at h
    obtain ⟨s, hs, rfl⟩ := h
    exact ⟨(mem_sort.1 ho).1, hs⟩
  · rintro ⟨h1, h2⟩
    refine ⟨e.1, mem_sort.2 ⟨h1, (AMap.mem_keys_iff _ _).2 (by rw [h2]; rfl)⟩, ?_⟩
    rw [h2]
    rfl

theorem sortedStatuses_sorted {env : ForgeEnv} (hg : WFGraph env.dag.graph) (m : AMap Oid PrStatus) :
    (sortedStatuses env m).Pairwise fun e f => ¬ Anc env.dag.graph f.1 e.1 := by
  unfold sortedStatuses
  have := sort_parentsFirst hg m.keys
  unfold ParentsFirst at this
  rw [List.pairwise_filterMap]
  refine this.imp ?_
  intro a b hab x hx y hy
  rw [Option.map_eq_some_iff] at hx hy
  obtain ⟨s, -, rfl⟩ := hx
  obtain ⟨t, -, rfl⟩ := hy
  exact hab

end Verif.Spec
