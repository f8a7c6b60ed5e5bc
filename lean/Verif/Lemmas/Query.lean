import Verif.Model.Query
import Verif.Spec.Query
import Verif.Lemmas.Hide
import Verif.Props.Switch

namespace Verif.Props

open Verif Verif.Spec

/-- Commits which are added on top of a graph do not change what is below the known ones. -/
theorem anc_append (new : List (Oid × List Oid)) (es : List (Oid × List Oid)) (hw : WFEntries (new ++ es))
    {a d : Oid} (hd : d ∈ es.map Prod.fst) : Anc ⟨new ++ es⟩ a d ↔ Anc ⟨es⟩ a d := by
  induction new with
  | nil => rfl
  | cons e rest ih =>
    obtain ⟨c, ps⟩ := e
    obtain ⟨h1, h2, h3⟩ := (wfEntries_cons (rest := rest ++ es)).1 hw
    have hne : d ≠ c := by
      rintro rfl
      exact h1 (by rw [List.map_append]; exact List.mem_append_right _ hd)
    rw [List.cons_append, anc_cons_of_ne (rest := rest ++ es) hw hne]
    exact ih h3

theorem wf_append (new : List (Oid × List Oid)) (es : List (Oid × List Oid)) (hw : WFEntries (new ++ es)) :
    WFEntries es := by
  induction new with
  | nil => exact hw
  | cons e rest ih =>
    obtain ⟨c, ps⟩ := e
    exact ih ((wfEntries_cons (rest := rest ++ es)).1 hw).2.2

theorem dagSort_some {g : CommitGraph Oid} {s os : List Oid} :
    dagSort g s = some os ↔ (∀ o ∈ s, o ∈ g.nodes) ∧ os = g.sort s := by
  unfold dagSort
  split
  · next h => simp only [List.all_eq_true, List.contains_iff_mem] at h; simp [h, eq_comm]; exact fun _ => h
  · next h => simp only [List.all_eq_true, List.contains_iff_mem] at h; simp [h]

theorem dagSort_none {g : CommitGraph Oid} {s : List Oid} :
    dagSort g s = none ↔ ∃ o ∈ s, o ∉ g.nodes := by
  unfold dagSort
  split
  · next h => simp only [List.all_eq_true, List.contains_iff_mem] at h; simpa using h
  · next h => simp only [List.all_eq_true, List.contains_iff_mem] at h; simpa using h

theorem printCommits_raw (env : DescribeEnv) (os : List Oid) :
    printCommits env true os = ⟨os.map Oid.toText, .done⟩ := by
  induction os with
  | nil => rfl
  | cons o os ih => simp [printCommits, ih]

theorem printCommits_done (env : DescribeEnv) (os : List Oid) (h : ∀ o ∈ os, (env.commit o).isSome) :
    ∃ lines, printCommits env false os = ⟨lines, .done⟩ ∧ List.Forall₂ (DescribedBy env) os lines := by
  induction os with
  | nil => exact ⟨[], rfl, .nil⟩
  | cons o os ih =>
    obtain ⟨lines, h1, h2⟩ := ih fun x hx => h x (List.mem_cons_of_mem _ hx)
    obtain ⟨c, hc⟩ := Option.isSome_iff_exists.1 (h o List.mem_cons_self)
    refine ⟨friendlyCommit c :: lines, ?_, .cons ⟨c, hc, ?_⟩ h2⟩
    · simp [printCommits, hc, h1]
    · simp [friendlyCommit]

theorem printCommits_error (env : DescribeEnv) (before : List Oid) (o : Oid) (after : List Oid)
    (h : ∀ o ∈ before, (env.commit o).isSome) (ho : env.commit o = none) :
    ∃ lines, printCommits env false (before ++ o :: after) = ⟨lines, .error⟩ ∧
      List.Forall₂ (DescribedBy env) before lines := by
  induction before with
  | nil => exact ⟨[], by simp [printCommits, ho], .nil⟩
  | cons x os ih =>
    obtain ⟨lines, h1, h2⟩ := ih fun x hx => h x (List.mem_cons_of_mem _ hx)
    obtain ⟨c, hc⟩ := Option.isSome_iff_exists.1 (h x List.mem_cons_self)
    refine ⟨friendlyCommit c :: lines, ?_, .cons ⟨c, hc, ?_⟩ h2⟩
    · simp [printCommits, hc, h1]
    · simp [friendlyCommit]

/-- The first commit of a list which is not found. -/
theorem first_missing (env : DescribeEnv) (os : List Oid) (h : ¬ ∀ o ∈ os, (env.commit o).isSome) :
    ∃ before o after, os = before ++ o :: after ∧ (∀ o ∈ before, (env.commit o).isSome) ∧ env.commit o = none := by
  induction os with
  | nil => exact absurd (by simp) h
  | cons x os ih =>
    cases hx : env.commit x with
    | none => exact ⟨[], x, os, rfl, by simp, hx⟩
    | some c =>
      have : ¬ ∀ o ∈ os, (env.commit o).isSome := by
        intro h'
        exact h (by simpa [hx] using h')
      obtain ⟨b, o, a, rfl, h1, h2⟩ := ih this
      exact ⟨x :: b, o, a, rfl, by simpa [hx] using h1, h2⟩

theorem snapshot_names {git : GitState} (hw : AMap.WF git.refs) {mb : Text} {refs : Replayer.RefsSnapshot}
    (h : git.referencesSnapshot mb = some refs) (o : Oid) (ho : o ∈ refs.branchOidToNames.keys) :
    refs.branchOidToNames.get? o = some (namesAt git.refs o) := by
  unfold GitState.referencesSnapshot at h
  cases hm : git.refs.get? mb with
  | none => rw [hm] at h; simp at h
  | some m =>
    rw [hm] at h
    simp only [Option.some.injEq] at h
    subst h
    simp only at ho ⊢
    refine AMap.get?_of_mem ?_ ?_
    · unfold AMap.WF AMap.keys
      rw [List.map_map]
      have : (Prod.fst ∘ fun o => (o, namesAt git.refs o)) = (id : Oid → Oid) := rfl
      rw [this, List.map_id]
      exact List.nodup_dedup _
    · unfold AMap.keys at ho
      rw [List.map_map] at ho
      have : (Prod.fst ∘ fun o => (o, namesAt git.refs o)) = (id : Oid → Oid) := rfl
      rw [this, List.map_id] at ho
      exact List.mem_map.2 ⟨o, ho, rfl⟩

theorem mem_snapshot_keys {git : GitState} (hw : AMap.WF git.refs) {mb : Text} {refs : Replayer.RefsSnapshot}
    (h : git.referencesSnapshot mb = some refs) (o : Oid) :
    o ∈ refs.branchOidToNames.keys ↔ ∃ n, git.refs.get? (t!"refs/heads/" ++ n) = some o := by
  unfold GitState.referencesSnapshot at h
  cases hm : git.refs.get? mb with
  | none => rw [hm] at h; simp at h
  | some m =>
    rw [hm] at h
    simp only [Option.some.injEq] at h
    subst h
    simp only
    unfold AMap.keys
    rw [List.map_map]
    have : (Prod.fst ∘ fun o => (o, namesAt git.refs o)) = (id : Oid → Oid) := rfl
    rw [this, List.map_id, mem_branchOids hw]
    constructor
    · rintro ⟨name, ⟨n, rfl⟩, h2⟩; exact ⟨n, h2⟩
    · rintro ⟨n, h2⟩; exact ⟨_, ⟨n, rfl⟩, h2⟩

end Verif.Props
