import Verif.Spec.Snapshot
import Verif.Lemmas.TreePick
import Verif.Props.Tree

/-!
Lemmas about the trees of snapshots and about `git update-index`.
-/

namespace Verif.Spec

open Verif Verif.Props

/-! ### maps -/

theorem get?_filter_key {α β : Type} [DecidableEq α] (m : AMap α β) (f : α → Bool) (k : α) :
    AMap.get? (m.filter fun e => f e.1) k = if f k then AMap.get? m k else none := by
  induction m with
  | nil => simp
  | cons e m ih =>
    obtain ⟨a, b⟩ := e
    rw [List.filter_cons]
    by_cases h : a = k
    · subst h
      by_cases hf : f a = true
      · simp [hf, AMap.get?_cons]
      · simp only [hf]
        rw [if_neg (by simp), ih]
        simp [hf]
    · by_cases hf : f a = true
      · simp only [hf, if_true, AMap.get?_cons, h, if_false, ih]
      · simp only [hf, AMap.get?_cons, h, if_false]
        rw [if_neg (by simp), ih]

theorem amap_as_map {β : Type} (m : AMap TreePath (Option β)) (hw : AMap.WF m) :
    m = (AMap.keys m).map fun p => (p, (AMap.get? m p).getD none) := by
  unfold AMap.keys
  rw [List.map_map]
  conv_lhs => rw [← List.map_id m]
  refine List.map_congr_left fun e he => ?_
  obtain ⟨k, v⟩ := e
  simp [AMap.get?_of_mem hw he]

/-! ### writing to trees -/

/-- The entries are files, or removals. -/
def FileEntries (m : AMap TreePath (Option Node)) : Prop :=
  ∀ p x, AMap.get? m p = some (some x) → ∃ md o, x = .leaf md o

theorem fileAt_hydrateTree {t : Tree} {m : AMap TreePath (Option Node)} (hw : AMap.WF m)
    (h0 : [] ∉ AMap.keys m) (ha : Apart (· ∈ AMap.keys m) t) (hv : FileEntries m) (q : TreePath) :
    fileAt (hydrateTree t m) q =
      match AMap.get? m q with
      | some v => fileOf v
      | none => fileAt t q := by
  rw [amap_as_map m hw, fileAt_hydrate hw h0 ha]
  · rw [← amap_as_map m hw]
    by_cases hq : q ∈ AMap.keys m
    · rw [if_pos hq]
      rw [AMap.mem_keys_iff] at hq
      cases e : AMap.get? m q with
      | none => simp [e] at hq
      | some v => rfl
    · rw [if_neg hq, (get?_eq_none_iff m q).2 hq]
  · intro p _ n r
    cases e : AMap.get? m p with
    | none => rfl
    | some v =>
      cases v with
      | none => rfl
      | some x =>
        obtain ⟨md, o, rfl⟩ := hv p x e
        rfl

theorem nodeAt_hydrateTree_given {t : Tree} {m : AMap TreePath (Option Node)} (hw : AMap.WF m)
    {p : TreePath} (hp : p ≠ []) {v : Option Node} (hv : AMap.get? m p = some v)
    (hb : ∀ q ∈ AMap.keys m, ¬ Below p q) : nodeAt (hydrateTree t m) p = v := by
  have := hydrate_given t m hw p v hp (AMap.mem_of_get? hv) []
    (fun r' h1 h2 => absurd (List.prefix_nil.1 h2) h1) (by simpa using hb)
  rw [List.append_nil] at this
  rw [this]
  cases v <;> rfl

theorem overlay_cases {es : TreePath → Option (Option Node)} {x : Option Node} {q : TreePath} {y : Node}
    (h : overlay es x q = some y) : x.bind (inside · q) = some y ∨
      ∃ p r v, q = p ++ r ∧ p ≠ [] ∧ es p = some v ∧ v.bind (inside · r) = some y := by
  induction q generalizing es x with
  | nil =>
    left
    simp only [overlay] at h
    subst h
    simp
  | cons n q ih =>
    rw [overlay] at h
    rcases ih h with h1 | ⟨p, r, v, rfl, h1, h2, h3⟩
    · cases e : es [n] with
      | none =>
        rw [e] at h1
        left
        cases x with
        | none => simp at h1
        | some x =>
          simp only [Option.getD_none, Option.bind_some] at h1 ⊢
          rw [show n :: q = [n] ++ q from rfl, inside_append]
          exact h1
      | some v =>
        rw [e] at h1
        exact .inr ⟨[n], q, v, rfl, by simp, e, h1⟩
    · exact .inr ⟨n :: p, r, v, rfl, by simp, h2, h3⟩

/-- Everything in a tree after writing. -/
theorem nodeAt_hydrateTree_cases {t : Tree} {m : AMap TreePath (Option Node)} (hw : AMap.WF m)
    {q : TreePath} (hq : q ≠ []) {y : Node} (h : nodeAt (hydrateTree t m) q = some y) :
    nodeAt t q = some y ∨ (∃ es', es' ≠ [] ∧ y = .dir modeTree es') ∨
      ∃ p r v, q = p ++ r ∧ p ≠ [] ∧ AMap.get? m p = some (some v) ∧ inside v r = some y := by
  by_cases hb : ∃ p ∈ AMap.keys m, Below q p
  · exact .inr (.inl (hydrate_above t m hw q hq hb y h))
  · unfold hydrateTree at h
    rw [nodeAt_hydrate _ hq _ _ _ hw (hydrateTree_fuel m) (fun p hp hpb => hb ⟨p, hp, hpb⟩)] at h
    rcases overlay_cases h with h1 | ⟨p, r, v, h1, h2, h3, h4⟩
    · exact .inl h1
    · cases v with
      | none => simp at h4
      | some v => exact .inr (.inr ⟨p, r, v, h1, h2, h3, h4⟩)

theorem plain_hydrateTree {t : Tree} {m : AMap TreePath (Option Node)} (hw : AMap.WF m) (ht : Plain t)
    (hv : ∀ p x, AMap.get? m p = some (some x) → ∃ md o, x = .leaf md o ∧ md ∈ fileModes) :
    Plain (hydrateTree t m) := by
  constructor
  · intro p md es h
    cases p with
    | nil =>
      simp only [nodeAt, inside, Option.some.injEq, Node.dir.injEq] at h
      exact h.1.symm
    | cons n p =>
      rcases nodeAt_hydrateTree_cases hw (by simp) h with h1 | ⟨es', -, h1⟩ | ⟨p', r, v, h1, h2, h3, h4⟩
      · exact ht.dirs _ _ _ h1
      · cases h1; rfl
      · obtain ⟨md', o, rfl, -⟩ := hv _ _ h3
        cases r with
        | nil => simp at h4
        | cons a r => simp at h4
  · intro p md o h
    cases p with
    | nil => simp [nodeAt, inside] at h
    | cons n p =>
      rcases nodeAt_hydrateTree_cases hw (by simp) h with h1 | ⟨es', -, h1⟩ | ⟨p', r, v, h1, h2, h3, h4⟩
      · exact ht.files _ _ _ h1
      · cases h1
      · obtain ⟨md', o', rfl, hm⟩ := hv _ _ h3
        cases r with
        | nil => simp only [inside_nil, Option.some.injEq, Node.leaf.injEq] at h4; rw [← h4.1]; exact hm
        | cons a r => simp at h4

theorem solid_hydrateTree {t : Tree} {m : AMap TreePath (Option Node)} (hw : AMap.WF m) (ht : Solid t)
    (hv : FileEntries m) : Solid (hydrateTree t m) := by
  intro p md es hp h
  rcases nodeAt_hydrateTree_cases hw hp h with h1 | ⟨es', h2, h1⟩ | ⟨p', r, v, h1, h2, h3, h4⟩
  · exact ht _ _ _ hp h1
  · cases h1; exact ⟨rfl, h2⟩
  · obtain ⟨md', o, rfl⟩ := hv _ _ h3
    cases r with
    | nil => simp at h4
    | cons a r => simp at h4

/-! ### the trees of the stages -/

theorem components_ne_nil (s : Text) : components s ≠ [] := by
  unfold components
  cases s with
  | nil => simp [splitChar]
  | cons c s =>
    rw [splitChar]
    split
    · simp
    · split <;> simp

theorem mode_roundtrip {m : Nat} (h : m ∈ fileModes) : (FileMode.ofI32 (m : Int)).toI32.toNat = m := by
  have : ∀ m ∈ fileModes, (FileMode.ofI32 (m : Int)).toI32.toNat = m := by decide
  exact this m h

theorem mode_roundtrip' {m : Nat} (h : m ∈ fileModes) :
    (FileMode.ofI32 (normalizeMode m : Int)).toI32.toNat = m := by
  rw [normalizeMode_fileModes h, mode_roundtrip h]

/-- An entry of the index as a file. -/
def fileOfEntry : Option (Nat × MaybeZero) → Option File
  | some (m, .nonZero o) => some (m, o)
  | _ => none

theorem ValidIndex.entryOf {index : GitIndex} (hi : ValidIndex index) (k : TreePath × Stage) :
    Verif.Spec.entryOf (fileOfEntry (AMap.get? index k)) = AMap.get? index k := by
  cases e : AMap.get? index k with
  | none => rfl
  | some v =>
    obtain ⟨m, o⟩ := v
    cases o with
    | zero => exact absurd rfl (hi.entries _ _ _ e).2
    | nonZero o => rfl

theorem entryOf_injective {f g : Option File} (h : entryOf f = entryOf g) : f = g := by
  cases f with
  | none => cases g with
    | none => rfl
    | some g => simp [entryOf] at h
  | some f => cases g with
    | none => simp [entryOf] at h
    | some g =>
      simp only [entryOf, Option.map_some, Option.some.injEq, Prod.mk.injEq, MaybeZero.nonZero.injEq] at h
      rw [Prod.ext h.1 h.2]

theorem addStage_get? {index : GitIndex} {stage : Stage} {G : TreePath → Option (Option Node)}
    {es : List StatusEntry} (hG : ∀ e ∈ es, stageEntry index stage e = G (components e.path))
    (m : AMap TreePath (Option Node)) (hm : AMap.WF m) (p : TreePath) :
    AMap.WF (es.foldl (addStageEntry index stage) m) ∧
    AMap.get? (es.foldl (addStageEntry index stage) m) p =
      if p ∈ es.map (fun e => components e.path) then (G p).or (AMap.get? m p) else AMap.get? m p := by
  induction es generalizing m with
  | nil => exact ⟨hm, rfl⟩
  | cons e es ih =>
    rw [List.foldl_cons]
    have he := hG e List.mem_cons_self
    have hstep : AMap.WF (addStageEntry index stage m e) ∧
        AMap.get? (addStageEntry index stage m e) p =
          if components e.path = p then (G p).or (AMap.get? m p) else AMap.get? m p := by
      unfold addStageEntry
      rw [he]
      cases hg : G (components e.path) with
      | none =>
        refine ⟨hm, ?_⟩
        simp only
        by_cases h : components e.path = p
        · rw [if_pos h, ← h, hg]; rfl
        · rw [if_neg h]
      | some v =>
        refine ⟨AMap.wf_insert hm _ _, ?_⟩
        simp only [AMap.get?_insert]
        split
        · rename_i h; rw [← h, hg]; rfl
        · rfl
    obtain ⟨h1, h2⟩ := ih (fun e he => hG e (List.mem_cons_of_mem _ he)) _ hstep.1
    refine ⟨h1, ?_⟩
    rw [h2, hstep.2, List.map_cons]
    by_cases hp : p ∈ es.map (fun e => components e.path)
    · rw [if_pos hp, if_pos (List.mem_cons_of_mem _ hp)]
      split
      · cases G p <;> rfl
      · rfl
    · rw [if_neg hp]
      by_cases hc : components e.path = p
      · rw [if_pos hc, if_pos (by simp [hc])]
      · rw [if_neg hc, if_neg (by simp only [List.mem_cons, not_or]; exact ⟨Ne.symm hc, hp⟩)]

open Classical in
/-- What is written for a path to the tree of a stage; `none` if nothing is. -/
noncomputable def stageValue (index : GitIndex) (stage : Stage) (p : TreePath) : Option (Option Node) :=
  match AMap.get? index (p, stage) with
  | some (m, .nonZero o) => some (some (.leaf m o))
  | some (_, .zero) => some none
  | none => if stage = .stage0 ∨ Conflicted index p then some none else none

theorem stageEntry_eq {head : Tree} {index : GitIndex} {es : List StatusEntry} (hi : ValidIndex index)
    (hr : ReportsIndex head index es) (stage : Stage) (e : StatusEntry) (he : e ∈ es) :
    stageEntry index stage e = stageValue index stage (components e.path) := by
  unfold stageEntry stageValue getEntryInStage
  cases h : AMap.get? index (components e.path, stage) with
  | none =>
    simp only [Option.map_none, ← hr.unmerged e he]
    by_cases h1 : stage = .stage0 <;> by_cases h2 : e.indexStatus = .unmerged <;> simp [h1, h2]
  | some v =>
    obtain ⟨m, o⟩ := v
    cases o with
    | zero => rfl
    | nonZero o =>
      simp only [Option.map_some, Option.some.injEq, Node.leaf.injEq, and_true]
      exact mode_roundtrip (hi.entries _ _ _ h).1

/-- The paths of the entries. -/
def reported (es : List StatusEntry) : List TreePath := es.map fun e => components e.path

theorem stageEntries_get? {head : Tree} {index : GitIndex} {es : List StatusEntry} (hi : ValidIndex index)
    (hr : ReportsIndex head index es) (stage : Stage) (p : TreePath) :
    AMap.WF (stageEntries index stage es) ∧
    AMap.get? (stageEntries index stage es) p =
      if p ∈ reported es then stageValue index stage p else none := by
  obtain ⟨h1, h2⟩ := addStage_get? (fun e he => stageEntry_eq hi hr stage e he) [] AMap.wf_nil p
  refine ⟨h1, ?_⟩
  unfold stageEntries reported
  rw [h2]
  simp

theorem stageEntries_files {head : Tree} {index : GitIndex} {es : List StatusEntry} (hi : ValidIndex index)
    (hr : ReportsIndex head index es) (stage : Stage) :
    ∀ p x, AMap.get? (stageEntries index stage es) p = some (some x) →
      ∃ md o, x = .leaf md o ∧ md ∈ fileModes := by
  intro p x h
  rw [(stageEntries_get? hi hr stage p).2] at h
  split at h
  · unfold stageValue at h
    split at h
    · rename_i m o hg
      cases h
      exact ⟨m, o, rfl, (hi.entries _ _ _ hg).1⟩
    · simp at h
    · split at h <;> simp at h
  · simp at h

theorem reported_of_key {head : Tree} {index : GitIndex} {es : List StatusEntry} (hi : ValidIndex index)
    (hr : ReportsIndex head index es) (stage : Stage) {p : TreePath}
    (h : p ∈ AMap.keys (stageEntries index stage es)) : p ∈ reported es := by
  by_contra hne
  rw [AMap.mem_keys_iff, (stageEntries_get? hi hr stage p).2, if_neg hne] at h
  simp at h

theorem tracked_of_reported {head : Tree} {index : GitIndex} {es : List StatusEntry}
    (hr : ReportsIndex head index es) {p : TreePath} (h : p ∈ reported es) : Tracked head index p := by
  obtain ⟨e, he, rfl⟩ := List.mem_map.1 h
  exact hr.tracked e he

theorem reported_ne_nil {es : List StatusEntry} {p : TreePath} (h : p ∈ reported es) : p ≠ [] := by
  obtain ⟨e, he, rfl⟩ := List.mem_map.1 h
  exact components_ne_nil _

theorem apart_of_tracked {head : Tree} {index : GitIndex} (hn : NoNesting head index)
    {C : TreePath → Prop} (hC : ∀ p, C p → Tracked head index p) : Apart C head := by
  constructor
  · intro p q hp hq
    exact hn p q (hC p hp) (hC q hq)
  · intro p q hp hb
    by_contra hne
    exact hn q p (.inl hne) (hC p hp) hb
  · intro p q hp hb
    by_contra hne
    exact hn p q (hC p hp) (.inl hne) hb

/-- A path which is not reported is in no conflict and is as in `HEAD`. -/
theorem unreported {head : Tree} {index : GitIndex} {es : List StatusEntry}
    (hr : ReportsIndex head index es) (hn : NoRenames es) {p : TreePath} (h : p ∉ reported es) :
    ¬ Conflicted index p ∧ AMap.get? index (p, .stage0) = entryOf (fileAt head p) := by
  have key : ¬ (Conflicted index p ∨ AMap.get? index (p, .stage0) ≠ entryOf (fileAt head p)) := by
    intro hc
    obtain ⟨e, he, q, hq, rfl⟩ := hr.complete p hc
    rw [StatusEntry.paths, hn e he] at hq
    simp only [Option.toList_none, List.mem_cons, List.not_mem_nil, or_false] at hq
    exact h (List.mem_map.2 ⟨e, he, by rw [hq]⟩)
  rw [not_or, not_not] at key
  exact key

open Classical in
/-- The files of a stage commit. -/
theorem fileAt_stageTree {head : Tree} {index : GitIndex} {es : List StatusEntry} (hi : ValidIndex index)
    (hr : ReportsIndex head index es) (hnr : NoRenames es) (hn : NoNesting head index) (stage : Stage)
    (q : TreePath) :
    fileAt (hydrateTree head (stageEntries index stage es)) q =
      if stage = .stage0 ∨ Conflicted index q then fileOfEntry (AMap.get? index (q, stage))
      else fileAt head q := by
  have hw := (stageEntries_get? hi hr stage q).1
  rw [fileAt_hydrateTree hw
    (fun h => reported_ne_nil (reported_of_key hi hr stage h) rfl)
    (apart_of_tracked hn fun p hp => tracked_of_reported hr (reported_of_key hi hr stage hp))
    (fun p x h => by obtain ⟨md, o, h1, -⟩ := stageEntries_files hi hr stage p x h; exact ⟨md, o, h1⟩)]
  rw [(stageEntries_get? hi hr stage q).2]
  by_cases hq : q ∈ reported es
  · rw [if_pos hq]
    unfold stageValue
    cases e : AMap.get? index (q, stage) with
    | none =>
      simp only
      by_cases hc : stage = .stage0 ∨ Conflicted index q
      · rw [if_pos hc, if_pos hc]; rfl
      · rw [if_neg hc, if_neg hc]
    | some v =>
      have hc : stage = .stage0 ∨ Conflicted index q := by
        by_cases h0 : stage = .stage0
        · exact .inl h0
        · exact .inr ⟨stage, h0, by rw [e]; simp⟩
      obtain ⟨m, o⟩ := v
      cases o <;> simp only [if_pos hc] <;> rfl
  · rw [if_neg hq]
    obtain ⟨h1, h2⟩ := unreported hr hnr hq
    by_cases hc : stage = .stage0 ∨ Conflicted index q
    · rw [if_pos hc]
      rcases hc with rfl | hc
      · apply entryOf_injective
        rw [hi.entryOf, h2]
      · exact absurd hc h1
    · rw [if_neg hc]

theorem plain_stageTree {head : Tree} {index : GitIndex} {es : List StatusEntry} (hi : ValidIndex index)
    (hr : ReportsIndex head index es) (hp : Plain head) (stage : Stage) :
    Plain (hydrateTree head (stageEntries index stage es)) :=
  plain_hydrateTree (stageEntries_get? hi hr stage []).1 hp (stageEntries_files hi hr stage)

theorem solid_stageTree {head : Tree} {index : GitIndex} {es : List StatusEntry} (hi : ValidIndex index)
    (hr : ReportsIndex head index es) (hp : Solid head) (stage : Stage) :
    Solid (hydrateTree head (stageEntries index stage es)) :=
  solid_hydrateTree (stageEntries_get? hi hr stage []).1 hp fun p x h => by
    obtain ⟨md, o, h1, -⟩ := stageEntries_files hi hr stage p x h
    exact ⟨md, o, h1⟩

/-! ### `git update-index` -/

/-- The entries of a path. -/
def entriesAt (index : GitIndex) (p : TreePath) : Stage → Option (Nat × MaybeZero) :=
  fun s => AMap.get? index (p, s)

/-- A command, seen from its path. -/
def localApply (f : Stage → Option (Nat × MaybeZero)) :
    Option (Stage × Nat × Oid) → Stage → Option (Nat × MaybeZero)
  | none => fun _ => none
  | some (s, m, o) => fun t =>
    if t = s then some (m, .nonZero o) else if s = .stage0 ∧ f .stage0 = none then none else f t

/-- The path of a command, and what it does there. -/
def IndexCommand.split : IndexCommand → TreePath × Option (Stage × Nat × Oid)
  | .delete p => (p, none)
  | .update p s m o => (p, some (s, m, o))

theorem mem_index_of_get? {index : GitIndex} {k : TreePath × Stage} {v} (h : AMap.get? index k = some v) :
    k ∈ AMap.keys index := by
  rw [AMap.mem_keys_iff, h]; rfl

theorem apply_entriesAt {index : GitIndex} {c : IndexCommand} {p : TreePath}
    {x : Option (Stage × Nat × Oid)} (hc : IndexCommand.split c = (p, x))
    (hn : ∀ q s, AMap.get? index (q, s) ≠ none → ¬ Below q p ∧ ¬ Below p q) (q : TreePath) (t : Stage) :
    entriesAt (applyIndexCommand index c) q t =
      if q = p then localApply (entriesAt index q) x t else entriesAt index q t := by
  cases c with
  | delete p =>
    cases hc
    simp only [entriesAt, applyIndexCommand]
    rw [get?_filter_key index (fun k => decide (k.1 ≠ p))]
    by_cases h : q = p <;> simp [h, localApply]
  | update p s m o =>
    cases hc
    simp only [entriesAt, applyIndexCommand]
    have hfil : ∀ (ix : GitIndex), (∀ k, AMap.get? ix k ≠ none → AMap.get? index k ≠ none) → ∀ k,
        AMap.get? (ix.filter fun e => !(decide (e.1.2 = s) &&
          (strictlyBelow p e.1.1 || strictlyBelow e.1.1 p))) k = AMap.get? ix k := by
      intro ix hix k
      rw [get?_filter_key ix (fun k => !(decide (k.2 = s) && (strictlyBelow p k.1 || strictlyBelow k.1 p)))]
      split
      · rfl
      · rename_i h
        cases e : AMap.get? ix k with
        | none => rfl
        | some v =>
          exfalso
          have h1 := hn k.1 k.2 (hix k (by rw [e]; simp))
          apply h
          have h2 : strictlyBelow p k.1 = false := by
            rw [Bool.eq_false_iff]; exact fun hx => h1.2 (strictlyBelow_iff.1 hx)
          have h3 : strictlyBelow k.1 p = false := by
            rw [Bool.eq_false_iff]; exact fun hx => h1.1 (strictlyBelow_iff.1 hx)
          simp [h2, h3]
    split
    · rename_i hs
      rw [AMap.get?_insert]
      by_cases hq : q = p
      · subst hq
        simp only [Prod.mk.injEq, true_and, if_true, localApply]
        by_cases ht : t = s
        · subst ht; simp
        · rw [if_neg (Ne.symm ht), if_neg ht, if_neg (c := s = .stage0 ∧ _)]
          · rfl
          · rintro ⟨rfl, h⟩
            simp only [entriesAt] at h
            rw [h] at hs
            simp at hs
      · rw [if_neg (by simp only [Prod.mk.injEq, not_and]; intro h; exact absurd h.symm hq), if_neg hq]
    · rename_i hs
      rw [AMap.get?_insert, hfil]
      · by_cases hq : q = p
        · subst hq
          simp only [Prod.mk.injEq, true_and, if_true, localApply]
          by_cases ht : t = s
          · subst ht; simp
          · rw [if_neg (Ne.symm ht), if_neg ht]
            by_cases h0 : s = .stage0
            · subst h0
              rw [if_pos rfl, if_pos]
              · rw [get?_filter_key index (fun k => decide (k.1 ≠ q))]
                simp
              · refine ⟨rfl, ?_⟩
                simpa [entriesAt] using hs
            · rw [if_neg h0, if_neg (fun h => h0 h.1)]
              rfl
        · rw [if_neg (by simp only [Prod.mk.injEq, not_and]; intro h; exact absurd h.symm hq), if_neg hq]
          by_cases h0 : s = .stage0
          · rw [if_pos h0, get?_filter_key index (fun k => decide (k.1 ≠ p))]
            simp [hq]
          · rw [if_neg h0]
      · intro k hk
        split at hk
        · rw [get?_filter_key index (fun k => decide (k.1 ≠ p))] at hk
          split at hk
          · exact hk
          · exact absurd rfl hk
        · exact hk

/-- The paths of an index are among given ones, none of which is below another. -/
def Within (T : TreePath → Prop) (index : GitIndex) : Prop := ∀ q s, AMap.get? index (q, s) ≠ none → T q

theorem apply_within {T : TreePath → Prop} (hT : ∀ p q, T p → T q → ¬ Below p q) {index : GitIndex}
    (hi : Within T index) {c : IndexCommand} (hc : T (IndexCommand.split c).1) :
    Within T (applyIndexCommand index c) := by
  intro q s h
  have := apply_entriesAt (c := c) (p := (IndexCommand.split c).1) (x := (IndexCommand.split c).2) rfl (fun q s h => ⟨hT _ _ (hi q s h) hc, hT _ _ hc (hi q s h)⟩) q s
  by_cases hq : q = (IndexCommand.split c).1
  · rw [hq]; exact hc
  · rw [if_neg hq] at this
    simp only [entriesAt] at this
    rw [this] at h
    exact hi q s h

/-- Commands for distinct paths. -/
theorem foldl_entriesAt {T : TreePath → Prop} (hT : ∀ p q, T p → T q → ¬ Below p q)
    (f : TreePath → IndexCommand) (hf : ∀ p, (IndexCommand.split (f p)).1 = p) (ps : List TreePath)
    (hps : ∀ p ∈ ps, T p) (hnd : ps.Nodup) (index : GitIndex) (hi : Within T index) :
    Within T ((ps.map f).foldl applyIndexCommand index) ∧
    ∀ q, entriesAt ((ps.map f).foldl applyIndexCommand index) q =
      if q ∈ ps then localApply (entriesAt index q) (IndexCommand.split (f q)).2 else entriesAt index q := by
  induction ps generalizing index with
  | nil => exact ⟨hi, fun q => by simp⟩
  | cons p ps ih =>
    have hp := hps p List.mem_cons_self
    have hc : T (IndexCommand.split (f p)).1 := by rw [hf]; exact hp
    obtain ⟨h1, h2⟩ := ih (fun p hp => hps p (List.mem_cons_of_mem _ hp)) (List.nodup_cons.1 hnd).2 _
      (apply_within hT hi hc)
    refine ⟨h1, fun q => ?_⟩
    have hstep : entriesAt (applyIndexCommand index (f p)) q =
        if q = p then localApply (entriesAt index q) (IndexCommand.split (f p)).2 else entriesAt index q := by
      funext t
      rw [apply_entriesAt (c := f p) (p := p) (x := (IndexCommand.split (f p)).2)
        (Prod.ext (hf p) rfl) (fun q s h => ⟨hT _ _ (hi q s h) hp, hT _ _ hp (hi q s h)⟩)]
      split <;> rfl
    rw [List.map_cons, List.foldl_cons, h2, hstep]
    by_cases hq : q = p
    · subst hq
      rw [if_neg (List.nodup_cons.1 hnd).1, if_pos rfl, if_pos List.mem_cons_self]
    · rw [if_neg hq]
      by_cases hm : q ∈ ps
      · rw [if_pos hm, if_pos (List.mem_cons_of_mem _ hm)]
      · rw [if_neg hm, if_neg (by simp only [List.mem_cons, not_or]; exact ⟨hq, hm⟩)]

theorem entriesAt_indexOfTree (t : Tree) (p : TreePath) (s : Stage) :
    entriesAt (indexOfTree t) p s = if s = .stage0 then entryOf (fileAt t p) else none := by
  unfold entriesAt indexOfTree
  have key : ∀ ps : List TreePath, ps.Nodup →
      AMap.get? (ps.filterMap fun p =>
        (getFile t p).map fun f => ((p, Stage.stage0), ((f.1, .nonZero f.2) : Nat × MaybeZero))) (p, s) =
      if s = .stage0 ∧ p ∈ ps then entryOf (fileAt t p) else none := by
    intro ps hps
    induction ps with
    | nil => simp
    | cons q ps ih =>
      rw [List.filterMap_cons]
      have hq := (List.nodup_cons.1 hps).1
      cases e : getFile t q with
      | none =>
        simp only [Option.map_none]
        rw [ih (List.nodup_cons.1 hps).2]
        by_cases hpq : p = q
        · subst hpq
          rw [getFile_eq] at e
          rw [e]
          simp [entryOf]
        · simp [hpq]
      | some f =>
        simp only [Option.map_some]
        rw [AMap.get?_cons, ih (List.nodup_cons.1 hps).2]
        by_cases hpq : q = p
        · subst hpq
          rw [getFile_eq] at e
          by_cases hs : s = .stage0
          · subst hs; simp [e, entryOf]
          · rw [if_neg (by simp [Ne.symm hs]), if_neg (by simp [hs]), if_neg (by simp [hs])]
        · rw [if_neg (by simp [hpq])]
          simp [Ne.symm hpq]
  rw [key _ (List.nodup_dedup _)]
  by_cases hs : s = .stage0
  · subst hs
    simp only [true_and, List.mem_dedup, if_true]
    split
    · rfl
    · rename_i h
      by_cases hf : fileAt t p = none
      · rw [hf]; rfl
      · exact absurd (mem_treeFilePaths hf) h
  · simp [hs]

end Verif.Spec
