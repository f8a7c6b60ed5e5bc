import Verif.Spec.Submit
import Verif.Lemmas.FinishRebase

/-! Lemmas about `submit`. -/

namespace Verif.Spec

open Verif

theorem mem_sortedSet {l : List Text} {x : Text} : x ∈ sortedSet l ↔ x ∈ l := by
  unfold sortedSet
  rw [List.mem_insertionSort, List.mem_dedup]

theorem nodup_sortedSet (l : List Text) : (sortedSet l).Nodup := by
  unfold sortedSet
  rw [(List.perm_insertionSort _ _).nodup_iff]
  exact List.nodup_dedup l

theorem filterMap_single {α β : Type} {f : α → Option β} {l : List α} {y : β} (h : l.filterMap f = [y]) :
    ∃ x ∈ l, f x = some y ∧ ∀ x' ∈ l, f x' ≠ none → x' = x := by
  induction l with
  | nil => cases h
  | cons a l ih =>
    rw [List.filterMap_cons] at h
    cases hf : f a with
    | none =>
      rw [hf] at h
      obtain ⟨x, hx, h1, h2⟩ := ih h
      refine ⟨x, List.mem_cons_of_mem _ hx, h1, ?_⟩
      intro x' hx' hne
      rcases List.mem_cons.1 hx' with rfl | hx'
      · exact absurd hf hne
      · exact h2 x' hx' hne
    | some z =>
      rw [hf] at h
      simp only [List.cons.injEq] at h
      obtain ⟨rfl, h⟩ := h
      refine ⟨a, List.mem_cons_self, hf, ?_⟩
      intro x' hx' hne
      rcases List.mem_cons.1 hx' with rfl | hx'
      · rfl
      · obtain ⟨v, hv⟩ := Option.ne_none_iff_exists'.1 hne
        have : v ∈ l.filterMap f := List.mem_filterMap.2 ⟨x', hx', hv⟩
        rw [h] at this
        cases this

theorem filterMap_single_of {α β : Type} {f : α → Option β} {l : List α} (hn : l.Nodup) {x : α} {y : β}
    (hx : x ∈ l) (hf : f x = some y) (hu : ∀ x' ∈ l, f x' ≠ none → x' = x) : l.filterMap f = [y] := by
  induction l with
  | nil => cases hx
  | cons a l ih =>
    rw [List.filterMap_cons]
    rw [List.nodup_cons] at hn
    rcases List.mem_cons.1 hx with rfl | hx
    · rw [hf]
      simp only [List.cons.injEq, true_and]
      rw [List.filterMap_eq_nil_iff]
      intro a ha
      by_contra hne
      have := hu a (List.mem_cons_of_mem _ ha) hne
      exact hn.1 (this ▸ ha)
    · have : f a = none := by
        by_contra hne
        have := hu a List.mem_cons_self hne
        exact hn.1 (this ▸ hx)
      rw [this]
      exact ih hn.2 hx fun x' hx' => hu x' (List.mem_cons_of_mem _ hx')

theorem pushRemoteName_iff {w : SubmitWorld} {b r : Text} : w.pushRemoteName b = some r ↔ PushesTo w b r := by
  unfold SubmitWorld.pushRemoteName PushesTo
  cases h : w.pushRemote b with
  | some r' => simp
  | none => simp

theorem defaultPushRemote_iff {w : SubmitWorld} {main r : Text} :
    w.defaultPushRemote main = some r ↔ DefaultRemote w main r := by
  unfold SubmitWorld.defaultPushRemote DefaultRemote
  cases h : w.pushRemoteName main with
  | some r' =>
    have h' := pushRemoteName_iff.1 h
    simp only [Option.some.injEq]
    constructor
    · rintro rfl; exact .inl h'
    · rintro (h2 | ⟨h2, -⟩)
      · rw [pushRemoteName_iff.2 h2] at h
        exact (Option.some.inj h).symm
      · exact absurd h' (h2 _)
  | none =>
    constructor
    · intro h2
      refine .inr ⟨fun r' hr' => ?_, h2⟩
      rw [pushRemoteName_iff.2 hr'] at h
      cases h
    · rintro (h2 | ⟨-, h2⟩)
      · rw [pushRemoteName_iff.2 h2] at h; cases h
      · exact h2

/-! ### the chosen branches -/

theorem branch_parts {ref : Text} (h : IsBranch ref) : ∃ b, ref = fullName b ∧ (categorize ref).renderSuffix = b :=
  ⟨_, (branch_suffix h).symm, rfl⟩

theorem isBranch_fullName (b : Text) : IsBranch (fullName b) := ⟨b, rfl⟩

theorem fullName_suffix (b : Text) : (categorize (fullName b)).renderSuffix = b :=
  List.append_cancel_left (branch_suffix (isBranch_fullName b))

theorem fullName_inj {a b : Text} (h : fullName a = fullName b) : a = b := List.append_cancel_left h

theorem branchInfo_eq (w : SubmitWorld) (main b : Text) :
    branchInfo w main (fullName b) = if b = main then none else some ⟨fullName b, b, w.pushRemoteName b⟩ := by
  unfold branchInfo
  rw [isBranch_iff.2 (isBranch_fullName b), fullName_suffix]
  simp

theorem mem_namesAt' {refs : Refs} (hw : AMap.WF refs) {o : Oid} {x : Text} :
    x ∈ namesAt refs o ↔ ∃ b, x = fullName b ∧ refs.get? (fullName b) = some o := by
  rw [mem_namesAt hw]
  constructor
  · rintro ⟨h1, h2⟩
    obtain ⟨b, rfl, -⟩ := branch_parts h1
    exact ⟨b, rfl, h2⟩
  · rintro ⟨b, rfl, h⟩
    exact ⟨isBranch_fullName b, h⟩

theorem mem_branchInfos {w : SubmitWorld} (hw : AMap.WF w.refs) {main : Text} {set : List Oid} {i : BranchInfo} :
    i ∈ branchInfos w main set ↔
      ∃ b o, Selected w main set b o ∧ i = ⟨fullName b, b, w.pushRemoteName b⟩ := by
  unfold branchInfos
  rw [List.mem_filterMap]
  constructor
  · rintro ⟨x, hx, hi⟩
    obtain ⟨o, ho, hx⟩ := List.mem_flatMap.1 hx
    obtain ⟨b, rfl, hb⟩ := (mem_namesAt' hw).1 hx
    rw [branchInfo_eq] at hi
    split at hi
    · cases hi
    · rename_i hne
      exact ⟨b, o, ⟨hb, ho, hne⟩, (Option.some.inj hi).symm⟩
  · rintro ⟨b, o, h, rfl⟩
    refine ⟨fullName b, List.mem_flatMap.2 ⟨o, h.mem, (mem_namesAt' hw).2 ⟨b, rfl, h.there⟩⟩, ?_⟩
    rw [branchInfo_eq, if_neg h.notMain]

theorem chosen_oid {w : SubmitWorld} {main : Text} {set : List Oid} {b : Text} {o o' : Oid}
    (h : Selected w main set b o) (h' : BranchAt w b o') : o = o' := by
  have := h.there
  unfold BranchAt at *
  rw [h'] at this
  exact (Option.some.inj this).symm

/-- What is found for a branch at the commit `o`. -/
theorem find_info {w : SubmitWorld} (hw : AMap.WF w.refs) {main : Text} {set : List Oid} {b : Text} {o : Oid}
    (hb : BranchAt w b o) :
    ((branchInfos w main set).find? fun i => i.ref = fullName b) =
      if o ∈ set ∧ b ≠ main then some ⟨fullName b, b, w.pushRemoteName b⟩ else none := by
  cases hf : (branchInfos w main set).find? fun i => i.ref = fullName b with
  | some i =>
    have h1 := List.find?_some hf
    obtain ⟨b', o', hc, rfl⟩ := (mem_branchInfos hw).1 (List.mem_of_find?_eq_some hf)
    simp only [decide_eq_true_eq] at h1
    obtain rfl := fullName_inj h1
    have := chosen_oid hc hb
    subst this
    rw [if_pos ⟨hc.mem, hc.notMain⟩]
  | none =>
    rw [if_neg]
    rintro ⟨h1, h2⟩
    rw [List.find?_eq_none] at hf
    exact hf _ ((mem_branchInfos hw).2 ⟨b, o, ⟨hb, h1, h2⟩, rfl⟩) (by simp)

/-- The branches at a commit, and what is known of them. -/
def infosAt (w : SubmitWorld) (infos : List BranchInfo) (o : Oid) : List BranchInfo :=
  (namesAt w.refs o).filterMap fun r => infos.find? fun i => i.ref = r

theorem infosAt_single {w : SubmitWorld} (hw : AMap.WF w.refs) {main : Text} {set : List Oid} {o : Oid}
    {i : BranchInfo} : infosAt w (branchInfos w main set) o = [i] ↔
      ∃ b, Selected w main set b o ∧ Alone w main b o ∧ i = ⟨fullName b, b, w.pushRemoteName b⟩ := by
  unfold infosAt
  constructor
  · intro h
    obtain ⟨x, hx, hf, hu⟩ := filterMap_single h
    obtain ⟨b, rfl, hb⟩ := (mem_namesAt' hw).1 hx
    rw [find_info hw hb] at hf
    split at hf
    · rename_i hc
      refine ⟨b, ⟨hb, hc.1, hc.2⟩, ?_, (Option.some.inj hf).symm⟩
      intro b' hb' hm
      refine fullName_inj (hu _ ((mem_namesAt' hw).2 ⟨b', rfl, hb'⟩) ?_)
      rw [find_info hw hb', if_pos ⟨hc.1, hm⟩]
      exact Option.some_ne_none _
    · cases hf
  · rintro ⟨b, hc, ha, rfl⟩
    refine filterMap_single_of (nodup_namesAt hw o) ((mem_namesAt' hw).2 ⟨b, rfl, hc.there⟩) ?_ ?_
    · rw [find_info hw hc.there, if_pos ⟨hc.mem, hc.notMain⟩]
    · intro x' hx' hne
      obtain ⟨b', rfl, hb'⟩ := (mem_namesAt' hw).1 hx'
      rw [find_info hw hb'] at hne
      split at hne
      · rename_i h2
        rw [ha b' hb' h2.2]
      · exact absurd rfl hne

/-! ### fetching -/

theorem fetch_same (w : SubmitWorld) (r : Text) (refs : List Text) :
    ∃ t, (w.fetch r refs).1 = { w with tracking := t } := by
  unfold SubmitWorld.fetch
  split
  · exact ⟨_, rfl⟩
  · split
    · exact ⟨_, rfl⟩
    · exact ⟨_, rfl⟩

theorem fetchAll_same (w : SubmitWorld) (gs : List (Text × List Text)) :
    ∃ t, (fetchAll w gs).1 = { w with tracking := t } := by
  induction gs generalizing w with
  | nil => exact ⟨_, rfl⟩
  | cons g gs ih =>
    obtain ⟨r, refs⟩ := g
    obtain ⟨t, ht⟩ := fetch_same w r refs
    rw [fetchAll]
    simp only
    split
    · obtain ⟨t', ht'⟩ := ih (w.fetch r refs).1
      refine ⟨t', ?_⟩
      rw [ht', ht]
    · exact ⟨t, ht⟩

theorem fold_tracking (remotes : AMap (Text × Text) Oid) (r : Text) (refs : List Text)
    (t : AMap (Text × Text) Oid) (hall : ∀ x ∈ refs, remotes.get? (r, x) ≠ none) (k : Text × Text) :
    (refs.foldl (fun t x => match remotes.get? (r, x) with
      | some o => t.insert (r, x) o
      | none => t) t).get? k =
      if k.1 = r ∧ k.2 ∈ refs then remotes.get? k else t.get? k := by
  induction refs generalizing t with
  | nil => simp
  | cons x refs ih =>
    rw [List.foldl_cons, ih _ fun y hy => hall y (List.mem_cons_of_mem _ hy)]
    obtain ⟨o, ho⟩ := Option.ne_none_iff_exists'.1 (hall x List.mem_cons_self)
    rw [ho]
    simp only
    by_cases h1 : k.1 = r ∧ k.2 ∈ refs
    · rw [if_pos h1, if_pos ⟨h1.1, List.mem_cons_of_mem _ h1.2⟩]
    · rw [if_neg h1, AMap.get?_insert]
      by_cases h2 : (r, x) = k
      · subst h2
        rw [if_pos rfl, if_pos ⟨rfl, List.mem_cons_self⟩, ho]
      · rw [if_neg h2, if_neg]
        rintro ⟨h3, h4⟩
        rcases List.mem_cons.1 h4 with h4 | h4
        · exact h2 (by rw [← h3, ← h4])
        · exact h1 ⟨h3, h4⟩

theorem fetch_tracking {w : SubmitWorld} {r : Text} {refs : List Text} (h : (w.fetch r refs).2 = true)
    (k : Text × Text) (hk : k.1 ≠ t!".") : (w.fetch r refs).1.tracking.get? k =
      if k.1 = r ∧ k.2 ∈ refs then w.remotes.get? k else w.tracking.get? k := by
  unfold SubmitWorld.fetch at h ⊢
  by_cases hr : r = t!"."
  · rw [if_pos hr]
    rw [if_neg]
    rintro ⟨h1, -⟩
    exact hk (h1.trans hr)
  · rw [if_neg hr] at h ⊢
    by_cases hc : (w.reachable r && refs.all fun x => (w.remotes.get? (r, x)).isSome) = true
    · rw [if_pos hc]
      refine fold_tracking _ _ _ _ (fun x hx => ?_) k
      rw [Bool.and_eq_true, List.all_eq_true] at hc
      exact Option.isSome_iff_ne_none.1 (hc.2 x hx)
    · rw [if_neg hc] at h
      cases h

theorem fetchAll_tracking {w : SubmitWorld} {gs : List (Text × List Text)} (h : (fetchAll w gs).2.2 = true)
    (k : Text × Text) (hk : k.1 ≠ t!".") :
    ((∃ g ∈ gs, g.1 = k.1 ∧ k.2 ∈ g.2) → (fetchAll w gs).1.tracking.get? k = w.remotes.get? k) ∧
    ((¬ ∃ g ∈ gs, g.1 = k.1 ∧ k.2 ∈ g.2) → (fetchAll w gs).1.tracking.get? k = w.tracking.get? k) := by
  induction gs generalizing w with
  | nil => exact ⟨fun ⟨_, h, _⟩ => absurd h List.not_mem_nil, fun _ => rfl⟩
  | cons g gs ih =>
    obtain ⟨r, refs⟩ := g
    rw [fetchAll] at h ⊢
    simp only at h ⊢
    by_cases hf : (w.fetch r refs).2 = true
    · rw [if_pos hf] at h ⊢
      have h1 := fetch_tracking hf k hk
      have h2 := ih h
      obtain ⟨t, ht⟩ := fetch_same w r refs
      have hrem : (w.fetch r refs).1.remotes = w.remotes := by rw [ht]
      rw [hrem] at h2
      constructor
      · intro hex
        by_cases hin : ∃ g ∈ gs, g.1 = k.1 ∧ k.2 ∈ g.2
        · exact h2.1 hin
        · rw [h2.2 hin, h1, if_pos]
          obtain ⟨g, hg, h3⟩ := hex
          rcases List.mem_cons.1 hg with rfl | hg
          · exact ⟨h3.1.symm, h3.2⟩
          · exact absurd ⟨g, hg, h3⟩ hin
      · intro hex
        rw [h2.2 fun ⟨g, hg, h3⟩ => hex ⟨g, List.mem_cons_of_mem _ hg, h3⟩, h1, if_neg]
        rintro ⟨h3, h4⟩
        exact hex ⟨_, List.mem_cons_self, h3.symm, h4⟩
    · rw [if_neg hf] at h
      cases h

theorem mem_fetchGroups {w : SubmitWorld} (hw : AMap.WF w.refs) {main : Text} {set : List Oid} {r x : Text} :
    (∃ g ∈ fetchGroups (branchInfos w main set), g.1 = r ∧ x ∈ g.2) ↔ Fetched w main set r x := by
  unfold fetchGroups
  constructor
  · rintro ⟨g, hg, rfl, hx⟩
    obtain ⟨r, -, rfl⟩ := List.mem_map.1 hg
    rw [mem_sortedSet, List.mem_map] at hx
    obtain ⟨i, hi, rfl⟩ := hx
    rw [List.mem_filter] at hi
    obtain ⟨b, o, hc, rfl⟩ := (mem_branchInfos hw).1 hi.1
    exact ⟨b, o, hc, pushRemoteName_iff.1 (of_decide_eq_true hi.2), rfl⟩
  · rintro ⟨b, o, hc, hp, rfl⟩
    have hm := (mem_branchInfos hw).2 ⟨b, o, hc, rfl⟩
    have hp' := pushRemoteName_iff.2 hp
    refine ⟨_, List.mem_map.2 ⟨r, mem_sortedSet.2 (List.mem_filterMap.2 ⟨_, hm, hp'⟩), rfl⟩, rfl, ?_⟩
    rw [mem_sortedSet, List.mem_map]
    exact ⟨_, List.mem_filter.2 ⟨hm, decide_eq_true hp'⟩, rfl⟩

theorem upstream_after {w : SubmitWorld} (hw : AMap.WF w.refs) {main : Text} {set : List Oid}
    (h : (fetchAll w (fetchGroups (branchInfos w main set))).2.2 = true) {b : Text} {u : Oid} :
    (fetchAll w (fetchGroups (branchInfos w main set))).1.upstream b = some u ↔ UpstreamAt w main set b u := by
  obtain ⟨t, ht⟩ := fetchAll_same w (fetchGroups (branchInfos w main set))
  have htr := fun k hk => fetchAll_tracking h k hk
  rw [ht] at htr ⊢
  unfold SubmitWorld.upstream UpstreamAt
  simp only at htr ⊢
  cases h1 : w.remote.get? b with
  | none => simp
  | some r =>
    cases h2 : w.merge.get? b with
    | none => simp
    | some m =>
      simp only [Option.some.injEq]
      have key : (if r = t!"." then w.refs.get? m else t.get? (r, m)) = some u ↔
          (r = t!"." ∧ w.refs.get? m = some u) ∨ (r ≠ t!"." ∧ KnownAt w main set r m u) := by
        by_cases hr : r = t!"."
        · rw [if_pos hr]; simp [hr]
        · rw [if_neg hr]
          have h3 := htr (r, m) hr
          simp only [mem_fetchGroups hw] at h3
          unfold KnownAt
          by_cases hF : Fetched w main set r m
          · rw [h3.1 hF]; simp [hr, hF]
          · rw [h3.2 hF]; simp [hr, hF]
      rw [key]
      constructor
      · intro h; exact ⟨r, m, rfl, rfl, h⟩
      · rintro ⟨r', m', rfl, rfl, h⟩; exact h

/-! ### the statuses -/

theorem mem_statuses {w : SubmitWorld} (hw : AMap.WF w.refs) {main : Text} {set : List Oid}
    {w1 : SubmitWorld} {t : AMap (Text × Text) Oid} (h1 : w1 = { w with tracking := t })
    {s : SubmitStatus} (hs : s ≠ .local) (hs' : s ≠ .unknown) {c : CommitStatus} :
    c ∈ commitsWith s (commitStatuses w1 (branchInfos w main set)) ↔
      ∃ b o, Selected w main set b o ∧ Alone w main b o ∧ c.status = s ∧
        c = commitStatus w1 [⟨fullName b, b, w.pushRemoteName b⟩] := by
  subst h1
  have hrefs : ∀ o, (namesAt w.refs o).filterMap (fun r => (branchInfos w main set).find? fun i => i.ref = r)
      = infosAt w (branchInfos w main set) o := fun o => rfl
  unfold commitsWith commitStatuses
  simp only [List.mem_filter, List.map_map, List.mem_map, Function.comp, decide_eq_true_eq, hrefs]
  constructor
  · rintro ⟨⟨o, ho, rfl⟩, hst⟩
    cases hi : infosAt w (branchInfos w main set) o with
    | nil => rw [hi] at hst; exact absurd hst.symm hs
    | cons i l =>
      cases l with
      | cons j l => rw [hi] at hst; exact absurd hst.symm hs'
      | nil =>
        obtain ⟨b, hc, ha, rfl⟩ := (infosAt_single hw).1 hi
        rw [hi] at hst
        exact ⟨b, o, hc, ha, hst, rfl⟩
  · rintro ⟨b, o, hc, ha, hst, rfl⟩
    refine ⟨⟨o, (mem_branchOids hw).2 ⟨fullName b, isBranch_fullName b, hc.there⟩, ?_⟩, hst⟩
    rw [(infosAt_single hw).2 ⟨b, hc, ha, rfl⟩]

theorem nodup_names {w : SubmitWorld} (hw : AMap.WF w.refs) {main : Text} {set : List Oid}
    {w1 : SubmitWorld} {t : AMap (Text × Text) Oid} (h1 : w1 = { w with tracking := t }) :
    (((commitStatuses w1 (branchInfos w main set)).map Prod.snd).filterMap (·.localName)).Nodup := by
  subst h1
  unfold commitStatuses
  rw [List.map_map, List.filterMap_map]
  have hn : (branchOids w.refs).Nodup := List.nodup_dedup _
  have key : ∀ o b, (((fun c : CommitStatus => c.localName) ∘ Prod.snd ∘ fun o =>
      (o, commitStatus { w with tracking := t } ((namesAt w.refs o).filterMap fun r =>
        (branchInfos w main set).find? fun i => i.ref = r))) o = some b) → BranchAt w b o := by
    intro o b h
    simp only [Function.comp] at h
    have hrefs : (namesAt w.refs o).filterMap (fun r => (branchInfos w main set).find? fun i => i.ref = r)
      = infosAt w (branchInfos w main set) o := rfl
    rw [hrefs] at h
    cases hi : infosAt w (branchInfos w main set) o with
    | nil => rw [hi] at h; cases h
    | cons i l =>
      cases l with
      | cons j l => rw [hi] at h; cases h
      | nil =>
        obtain ⟨b', hc, ha, rfl⟩ := (infosAt_single hw).1 hi
        rw [hi, commitStatus] at h
        have : b' = b := by
          split at h
          · exact Option.some.inj h
          · exact Option.some.inj h
        exact this ▸ hc.there
  refine List.Nodup.filterMap ?_ hn
  intro o o' b hb hb'
  have e1 := key o b hb
  have e2 := key o' b hb'
  unfold BranchAt at e1 e2
  rw [e1] at e2
  exact Option.some.inj e2

/-! ### pushing -/

/-- Two worlds in which only what a push may change is different. -/
structure Pushed (w w' : SubmitWorld) : Prop where
  refs : w'.refs = w.refs
  pushRemote : w'.pushRemote = w.pushRemote
  pushDefault : w'.pushDefault = w.pushDefault

theorem Pushed.refl (w : SubmitWorld) : Pushed w w := ⟨rfl, rfl, rfl⟩

theorem Pushed.trans {a b c : SubmitWorld} (h : Pushed a b) (h' : Pushed b c) : Pushed a c :=
  ⟨h'.refs.trans h.refs, h'.pushRemote.trans h.pushRemote, h'.pushDefault.trans h.pushDefault⟩

theorem pushOne_spec (w : SubmitWorld) (r x : Text) (o : Oid) (a : Bool) :
    Pushed w (w.pushOne r x o a).1 ∧
    (∀ k, k ≠ (r, x) → (w.pushOne r x o a).1.remotes.get? k = w.remotes.get? k) ∧
    ((w.pushOne r x o a).1.remotes.get? (r, x) = some o ∨
      (w.pushOne r x o a).1.remotes.get? (r, x) = w.remotes.get? (r, x)) ∧
    ((w.pushOne r x o a).2 = true → (w.pushOne r x o a).1.remotes.get? (r, x) = some o) := by
  have put : Pushed w (w.putRemote r x o) ∧ (∀ k, k ≠ (r, x) → (w.putRemote r x o).remotes.get? k = w.remotes.get? k) ∧
      (w.putRemote r x o).remotes.get? (r, x) = some o := by
    refine ⟨⟨rfl, rfl, rfl⟩, ?_, ?_⟩
    · intro k hk
      unfold SubmitWorld.putRemote
      simp only
      rw [AMap.get?_insert, if_neg (Ne.symm hk)]
    · unfold SubmitWorld.putRemote
      simp only
      rw [AMap.get?_insert, if_pos rfl]
  unfold SubmitWorld.pushOne
  split
  · exact ⟨put.1, put.2.1, .inl put.2.2, fun _ => put.2.2⟩
  · split
    · exact ⟨put.1, put.2.1, .inl put.2.2, fun _ => put.2.2⟩
    · exact ⟨.refl w, fun _ _ => rfl, .inr rfl, fun h => by cases h⟩

/-- What a push of one branch does. -/
structure PushStep (r b : Text) (s s' : SubmitWorld × Bool) : Prop where
  same : Pushed s.1 s'.1
  others : ∀ k, k ≠ (r, fullName b) → s'.1.remotes.get? k = s.1.remotes.get? k
  value : s'.1.remotes.get? (r, fullName b) = s.1.refs.get? (fullName b) ∨
    s'.1.remotes.get? (r, fullName b) = s.1.remotes.get? (r, fullName b)
  flag : s'.2 = true → s.2 = true ∧ s'.1.remotes.get? (r, fullName b) = s.1.refs.get? (fullName b)

theorem pushNewOne_step (r : Text) (s : SubmitWorld × Bool) (b : Text) :
    PushStep r b s (SubmitWorld.pushNewOne r s b) := by
  unfold SubmitWorld.pushNewOne
  split
  · exact ⟨.refl _, fun _ _ => rfl, .inr rfl, fun h => by cases h⟩
  · rename_i o ho
    obtain ⟨h1, h2, h3, h4⟩ := pushOne_spec s.1 r (fullName b) o (s.1.fastForward r (fullName b) o)
    simp only
    split
    · rename_i hx
      exact ⟨⟨h1.refs, h1.pushRemote, h1.pushDefault⟩, h2, by rw [ho]; exact h3,
        fun h => ⟨h, by rw [ho]; exact h4 hx⟩⟩
    · exact ⟨h1, h2, by rw [ho]; exact h3, fun h => by cases h⟩

theorem pushLeaseOne_step (r : Text) (s : SubmitWorld × Bool) (b : Text) :
    PushStep r b s (SubmitWorld.pushLeaseOne r s b) := by
  unfold SubmitWorld.pushLeaseOne
  split
  · exact ⟨.refl _, fun _ _ => rfl, .inr rfl, fun h => by cases h⟩
  · rename_i o ho
    obtain ⟨h1, h2, h3, h4⟩ := pushOne_spec s.1 r (fullName b) o (s.1.lease r (fullName b))
    simp only
    refine ⟨h1, h2, by rw [ho]; exact h3, fun h => ?_⟩
    rw [Bool.and_eq_true] at h
    exact ⟨h.1, by rw [ho]; exact h4 h.2⟩

/-- What a push does. -/
structure PushDone (r : Text) (bs : List Text) (w w' : SubmitWorld) (ok : Bool) : Prop where
  same : Pushed w w'
  others : ∀ k, (¬ ∃ b ∈ bs, k = (r, fullName b)) → w'.remotes.get? k = w.remotes.get? k
  value : ∀ b ∈ bs, w'.remotes.get? (r, fullName b) = w.refs.get? (fullName b) ∨
    w'.remotes.get? (r, fullName b) = w.remotes.get? (r, fullName b)
  flag : ok = true → r ≠ t!"." → ∀ b ∈ bs, w'.remotes.get? (r, fullName b) = w.refs.get? (fullName b)

theorem push_done {one : Text → SubmitWorld × Bool → Text → SubmitWorld × Bool}
    (hone : ∀ r s b, PushStep r b s (one r s b)) (w : SubmitWorld) (r : Text) (bs : List Text) :
    PushDone r bs w (w.push r bs one).1 (w.push r bs one).2 := by
  have fold : ∀ (bs : List Text) (s : SubmitWorld × Bool),
      Pushed s.1 (bs.foldl (one r) s).1 ∧
      (∀ k, (¬ ∃ b ∈ bs, k = (r, fullName b)) → (bs.foldl (one r) s).1.remotes.get? k = s.1.remotes.get? k) ∧
      (∀ b, (bs.foldl (one r) s).1.remotes.get? (r, fullName b) = s.1.refs.get? (fullName b) ∨
        (bs.foldl (one r) s).1.remotes.get? (r, fullName b) = s.1.remotes.get? (r, fullName b)) ∧
      ((bs.foldl (one r) s).2 = true → s.2 = true ∧
        ∀ b ∈ bs, (bs.foldl (one r) s).1.remotes.get? (r, fullName b) = s.1.refs.get? (fullName b)) := by
    intro bs
    induction bs with
    | nil =>
      intro s
      exact ⟨.refl _, fun _ _ => rfl, fun _ => .inr rfl, fun h => ⟨h, fun _ hb => absurd hb List.not_mem_nil⟩⟩
    | cons b bs ih =>
      intro s
      rw [List.foldl_cons]
      have h1 := hone r s b
      obtain ⟨i1, i2, i3, i4⟩ := ih (one r s b)
      refine ⟨h1.same.trans i1, ?_, ?_, ?_⟩
      · intro k hk
        rw [i2 k fun ⟨b', hb', e⟩ => hk ⟨b', List.mem_cons_of_mem _ hb', e⟩,
          h1.others k fun e => hk ⟨b, List.mem_cons_self, e⟩]
      · intro b'
        rcases i3 b' with h | h
        · left; rw [h, h1.same.refs]
        · rw [h]
          by_cases hb : b' = b
          · subst hb; exact h1.value
          · right
            exact h1.others _ fun e => hb (fullName_inj (Prod.mk.inj e).2)
      · intro hok
        obtain ⟨j1, j2⟩ := i4 hok
        obtain ⟨k1, k2⟩ := h1.flag j1
        refine ⟨k1, fun b' hb' => ?_⟩
        rw [h1.same.refs] at j2 i3
        rcases List.mem_cons.1 hb' with rfl | hb'
        · rcases i3 b' with h | h
          · exact h
          · rw [h, k2]
        · exact j2 b' hb'
  unfold SubmitWorld.push
  split
  · rename_i hr
    exact ⟨.refl _, fun _ _ => rfl, fun _ _ => .inr rfl, fun _ h => absurd hr h⟩
  · split
    · obtain ⟨h1, h2, h3, h4⟩ := fold bs (w, true)
      exact ⟨h1, h2, fun b _ => h3 b, fun h _ => (h4 h).2⟩
    · exact ⟨.refl _, fun _ _ => rfl, fun _ _ => .inr rfl, fun h => by cases h⟩

theorem mem_updateGroups {commits : List CommitStatus} {r b : Text} :
    (∃ g ∈ updateGroups commits, g.1 = r ∧ b ∈ g.2) ↔
      ∃ c ∈ commits, c.remoteName = some r ∧ c.localName = some b := by
  have ht : ∀ c : CommitStatus, updateTarget c = some (r, b) ↔ c.remoteName = some r ∧ c.localName = some b := by
    intro c
    unfold updateTarget
    split
    · rename_i r' b' h1 h2
      rw [h1, h2]
      simp
    · rename_i h
      constructor
      · intro h'; cases h'
      · rintro ⟨h1, h2⟩; exact absurd h2 (h r b h1)
  unfold updateGroups
  constructor
  · rintro ⟨g, hg, rfl, hb⟩
    obtain ⟨r, -, rfl⟩ := List.mem_map.1 hg
    rw [mem_sortedSet, List.mem_map] at hb
    obtain ⟨⟨r', b'⟩, he, rfl⟩ := hb
    rw [List.mem_filter, List.mem_filterMap] at he
    obtain ⟨⟨c, hc, he⟩, hr⟩ := he
    simp only [decide_eq_true_eq] at hr
    subst hr
    exact ⟨c, hc, (ht c).1 he⟩
  · rintro ⟨c, hc, h⟩
    have hm : (r, b) ∈ commits.filterMap updateTarget := List.mem_filterMap.2 ⟨c, hc, (ht c).2 h⟩
    refine ⟨_, List.mem_map.2 ⟨r, mem_sortedSet.2 (List.mem_map.2 ⟨_, hm, rfl⟩), rfl⟩, rfl, ?_⟩
    rw [mem_sortedSet, List.mem_map]
    exact ⟨(r, b), List.mem_filter.2 ⟨hm, by simp⟩, rfl⟩

/-- The pairs which are pushed. -/
def groupPairs (gs : List (Text × List Text)) : List (Text × Text) := gs.flatMap fun g => g.2.map fun b => (g.1, b)

theorem mem_groupPairs {gs : List (Text × List Text)} {r b : Text} :
    (r, b) ∈ groupPairs gs ↔ ∃ g ∈ gs, g.1 = r ∧ b ∈ g.2 := by
  unfold groupPairs
  simp only [List.mem_flatMap, List.mem_map, Prod.mk.injEq]
  constructor
  · rintro ⟨g, hg, b', hb, rfl, rfl⟩; exact ⟨g, hg, rfl, hb⟩
  · rintro ⟨g, hg, rfl, hb⟩; exact ⟨g, hg, b, hb, rfl, rfl⟩

theorem groups_nodup (commits : List CommitStatus) :
    (updateGroups commits).Pairwise (fun g g' => g.1 ≠ g'.1) ∧ ∀ g ∈ updateGroups commits, g.2.Nodup := by
  unfold updateGroups
  constructor
  · rw [List.pairwise_map]
    exact (nodup_sortedSet _)
  · intro g hg
    obtain ⟨r, -, rfl⟩ := List.mem_map.1 hg
    exact nodup_sortedSet _

/-- The loop of the updates. -/
structure UpdatesDone (gs : List (Text × List Text)) (w : SubmitWorld)
    (x : SubmitWorld × List GitCommand × Bool) : Prop where
  new : pushedNew x.2.1 = []
  lease : ∃ rest, groupPairs gs = pushedLease x.2.1 ++ rest ∧ (x.2.2 = true → rest = [])
  only : ∀ c ∈ x.2.1, ∃ r bs, c = .pushLease r bs
  same : Pushed w x.1
  others : ∀ r y, (¬ ∃ b, (r, b) ∈ pushedLease x.2.1 ∧ y = fullName b) →
    x.1.remotes.get? (r, y) = w.remotes.get? (r, y)
  value : ∀ r b, x.1.remotes.get? (r, fullName b) = w.refs.get? (fullName b) ∨
    x.1.remotes.get? (r, fullName b) = w.remotes.get? (r, fullName b)
  flag : x.2.2 = true → ∀ r b, (r, b) ∈ pushedLease x.2.1 → r ≠ t!"." →
    x.1.remotes.get? (r, fullName b) = w.refs.get? (fullName b)

theorem pushedLease_cons (r : Text) (bs : List Text) (cs : List GitCommand) :
    pushedLease (.pushLease r bs :: cs) = bs.map (fun b => (r, b)) ++ pushedLease cs := rfl

theorem updateAll_done (w : SubmitWorld) (gs : List (Text × List Text)) : UpdatesDone gs w (updateAll w gs) := by
  induction gs generalizing w with
  | nil =>
    exact ⟨rfl, ⟨[], rfl, fun _ => rfl⟩, fun c hc => absurd hc List.not_mem_nil, .refl _, fun _ _ _ => rfl,
      fun _ _ => .inr rfl, fun _ _ _ h => absurd h List.not_mem_nil⟩
  | cons g gs ih =>
    obtain ⟨r, bs⟩ := g
    have hp := push_done pushLeaseOne_step w r bs
    rw [updateAll]
    simp only
    generalize w.push r bs SubmitWorld.pushLeaseOne = x at hp
    by_cases hx : x.2 = true
    · rw [if_pos hx]
      have h := ih x.1
      generalize updateAll x.1 gs = y at h
      have hl : pushedLease (GitCommand.pushLease r bs :: y.2.1) = bs.map (fun b => (r, b)) ++ pushedLease y.2.1 := rfl
      have others : ∀ r' y', (¬ ∃ b, (r', b) ∈ pushedLease (GitCommand.pushLease r bs :: y.2.1) ∧ y' = fullName b) →
          y.1.remotes.get? (r', y') = w.remotes.get? (r', y') := by
        intro r' y' hn
        rw [hl] at hn
        rw [h.others r' y' fun ⟨b, hb, e⟩ => hn ⟨b, List.mem_append_right _ hb, e⟩]
        refine hp.others _ fun ⟨b, hb, e⟩ => hn ⟨b, List.mem_append_left _ ?_, (Prod.mk.inj e).2⟩
        rw [(Prod.mk.inj e).1]
        exact List.mem_map.2 ⟨b, hb, rfl⟩
      have value : ∀ r' b, y.1.remotes.get? (r', fullName b) = w.refs.get? (fullName b) ∨
          y.1.remotes.get? (r', fullName b) = w.remotes.get? (r', fullName b) := by
        intro r' b
        rcases h.value r' b with hv | hv
        · left; rw [hv, hp.same.refs]
        · rw [hv]
          by_cases hb : ∃ b' ∈ bs, (r', fullName b) = (r, fullName b')
          · obtain ⟨b', hb', e⟩ := hb
            obtain ⟨rfl, e2⟩ := Prod.mk.inj e
            obtain rfl := fullName_inj e2
            exact hp.value _ hb'
          · right; exact hp.others _ hb
      refine ⟨h.new, ?_, ?_, hp.same.trans h.same, others, value, ?_⟩
      · obtain ⟨rest, h1, h2⟩ := h.lease
        refine ⟨rest, ?_, h2⟩
        rw [hl, List.append_assoc, ← h1]
        rfl
      · intro c hc
        rcases List.mem_cons.1 hc with rfl | hc
        · exact ⟨r, bs, rfl⟩
        · exact h.only c hc
      · intro hok r' b hb hr'
        rw [hl, List.mem_append] at hb
        by_cases hin : (r', b) ∈ pushedLease y.2.1
        · rw [h.flag hok r' b hin hr', hp.same.refs]
        · rcases hb with hb | hb
          · obtain ⟨b', hb', e⟩ := List.mem_map.1 hb
            obtain ⟨rfl, rfl⟩ := Prod.mk.inj e
            have := hp.flag hx hr' b' hb'
            rcases h.value r b' with hv | hv
            · rw [hv, hp.same.refs]
            · rw [hv, this]
          · exact absurd hb hin
    · rw [if_neg hx]
      have hl : pushedLease [GitCommand.pushLease r bs] = bs.map fun b => (r, b) := by
        rw [pushedLease_cons]; simp [pushedLease]
      refine ⟨rfl, ⟨groupPairs gs, ?_, fun h => by cases h⟩, ?_, hp.same, ?_, ?_, fun h => by cases h⟩
      · simp only [hl]; rfl
      · intro c hc
        exact ⟨r, bs, List.mem_singleton.1 hc⟩
      · intro r' y' hn
        simp only [hl] at hn
        refine hp.others _ fun ⟨b, hb, e⟩ => hn ⟨b, List.mem_map.2 ⟨b, hb, ?_⟩, (Prod.mk.inj e).2⟩
        rw [(Prod.mk.inj e).1]
      · intro r' b
        by_cases hb : ∃ b' ∈ bs, (r', fullName b) = (r, fullName b')
        · obtain ⟨b', hb', e⟩ := hb
          obtain ⟨rfl, e2⟩ := Prod.mk.inj e
          obtain rfl := fullName_inj e2
          exact hp.value _ hb'
        · right; exact hp.others _ hb

end Verif.Spec
