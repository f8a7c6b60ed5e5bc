import Verif.Lemmas.Tree
import Verif.Props.Plan

/-!
C33 and C34: writing entries to a tree, and the paths which differ between two trees.
-/

namespace Verif.Props

open Verif Verif.Spec

/-! ## C33 -/

/-- C33: what is at a path which was written, or below it: what was given, unless another entry says
something about that path, one between, or one further down. (With `r = []`, this is the path itself.) -/
theorem hydrate_given (t : Tree) (es : AMap TreePath (Option Node)) (hw : AMap.WF es) (p : TreePath)
    (v : Option Node) (hp : p ≠ []) (hv : (p, v) ∈ es) (r : TreePath)
    (h1 : ∀ r', r' ≠ [] → r' <+: r → p ++ r' ∉ AMap.keys es)
    (h2 : ∀ q ∈ AMap.keys es, ¬ Below (p ++ r) q) :
    nodeAt (hydrateTree t es) (p ++ r) = v.bind (inside · r) := by
  unfold hydrateTree
  rw [nodeAt_hydrate _ (by simp [hp]) _ _ _ hw (hydrateTree_fuel es) h2]
  refine overlay_append hp (AMap.get?_of_mem hw hv) r ?_ _
  intro r' h3 h4
  rw [get?_eq_none_iff]
  exact h1 r' h3 h4

/-- C33: every path which is neither above, nor at, nor below a path which was written is unchanged. -/
theorem hydrate_unchanged (t : Tree) (es : AMap TreePath (Option Node)) (hw : AMap.WF es) (q : TreePath)
    (hq : q ≠ []) (h1 : ∀ p ∈ AMap.keys es, p ≠ [] → ¬ p <+: q) (h2 : ∀ p ∈ AMap.keys es, ¬ Below q p) :
    nodeAt (hydrateTree t es) q = nodeAt t q := by
  unfold hydrateTree
  rw [nodeAt_hydrate _ hq _ _ _ hw (hydrateTree_fuel es) h2, overlay_prefix]
  · rfl
  · intro p h3 h4
    rw [get?_eq_none_iff]
    exact fun h5 => h1 p h5 h3 h4

/-- C33: above the paths which were written there are only directories, and none of them is empty. -/
theorem hydrate_above (t : Tree) (es : AMap TreePath (Option Node)) (hw : AMap.WF es) (q : TreePath)
    (hq : q ≠ []) (h : ∃ p ∈ AMap.keys es, Below q p) (x : Node)
    (hx : nodeAt (hydrateTree t es) q = some x) : ∃ es', es' ≠ [] ∧ x = .dir modeTree es' :=
  nodeAt_hydrate_above q hq _ t es hw (hydrateTree_fuel es) h x hx

/-- A file for examples. -/
def exFile (n : Fin 16) : Node := .leaf 0o100644 (oidN n)

/-- C33 fails if a directory is replaced by a file, i.e. if the file is written and the former contents of
the directory are removed: the file is not in the result. -/
theorem replacing_file_lost :
    ∃ (t : Tree) (es : AMap TreePath (Option Node)), AMap.WF es ∧
      nodeAt t [t!"a", t!"b"] = some (exFile 1) ∧
      es = [([t!"a"], some (exFile 2)), ([t!"a", t!"b"], none)] ∧
      nodeAt (hydrateTree t es) [t!"a"] = none := by
  refine ⟨[(t!"a", .dir modeTree [(t!"b", exFile 1)])], _, ?_, ?_, rfl, ?_⟩
  · unfold AMap.WF; decide
  · decide +kernel
  · decide +kernel

/-- A file is removed by removing a path below it, where there is nothing. -/
theorem file_removed_from_above :
    ∃ (t : Tree) (es : AMap TreePath (Option Node)), AMap.WF es ∧ nodeAt t [t!"a"] = some (exFile 1) ∧
      es = [([t!"a", t!"b"], none)] ∧ nodeAt t [t!"a", t!"b"] = none ∧
      nodeAt (hydrateTree t es) [t!"a"] = none := by
  refine ⟨[(t!"a", exFile 1)], _, ?_, ?_, rfl, ?_, ?_⟩
  · unfold AMap.WF; decide
  · decide +kernel
  · decide +kernel
  · decide +kernel

/-- Non-vacuity: a file is changed, another one is removed together with its directory, a third one is
added in a new directory. -/
example :
    let t : Tree := [(t!"a", exFile 1), (t!"d", .dir modeTree [(t!"e", exFile 2)]), (t!"z", exFile 3)]
    let es : AMap TreePath (Option Node) := [([t!"a"], some (exFile 4)), ([t!"d", t!"e"], none),
      ([t!"n", t!"m"], some (exFile 5))]
    AMap.WF es ∧ nodeAt (hydrateTree t es) [t!"a"] = some (exFile 4) ∧
    nodeAt (hydrateTree t es) [t!"d"] = none ∧
    nodeAt (hydrateTree t es) [t!"n", t!"m"] = some (exFile 5) ∧
    nodeAt (hydrateTree t es) [t!"z"] = some (exFile 3) := by
  refine ⟨?_, ?_, ?_, ?_, ?_⟩
  · unfold AMap.WF; decide
  all_goals decide +kernel

/-! ## C34 -/

/-- C34: exactly the paths are found at which the files differ (in contents or mode, or because there is
only one), and those at which there are directories with different modes. -/
theorem changed_paths_exact (l r : Tree) (p : TreePath) :
    p ∈ getChangedPathsBetweenTrees l r ↔ NodeDiffers (nodeAt l p) (nodeAt r p) :=
  mem_getChangedPathsBetweenTrees l r p

/-- C34: between trees with the usual modes, exactly the files which differ are found. -/
theorem changed_files_exact (l r : Tree) (hl : ∀ p m es, nodeAt l p = some (.dir m es) → m = modeTree)
    (hr : ∀ p m es, nodeAt r p = some (.dir m es) → m = modeTree) (p : TreePath) :
    p ∈ getChangedPathsBetweenTrees l r ↔ fileAt l p ≠ fileAt r p := by
  rw [changed_paths_exact]
  constructor
  · rintro (h | ⟨m, es, m', es', h1, h2, hne⟩)
    · exact h
    · exact absurd ((hl _ _ _ h1).trans (hr _ _ _ h2).symm) hne
  · exact .inl

/-- C34: the paths touched by a commit are those at which it differs from one of its parents, or from the
empty tree if there are none. -/
theorem touched_exact (c : TreeCommit) (p : TreePath) :
    p ∈ c.pathsTouched ↔ TouchedBy c p := by
  unfold TreeCommit.pathsTouched TouchedBy
  split
  · rename_i h
    rw [changed_paths_exact]
    simp [h]
  · rename_i h
    rw [List.mem_dedup, List.mem_flatMap]
    simp only [changed_paths_exact]
    simp [h]

/-- Non-vacuity: a change, an addition, a removal, and a directory replaced by a file. -/
example :
    let l : Tree := [(t!"a", exFile 1), (t!"b", exFile 2), (t!"d", .dir modeTree [(t!"e", exFile 2)])]
    let r : Tree := [(t!"a", exFile 3), (t!"c", exFile 2), (t!"d", exFile 4)]
    ∀ p, p ∈ getChangedPathsBetweenTrees l r ↔
      p ∈ [[t!"a"], [t!"b"], [t!"c"], [t!"d"], [t!"d", t!"e"]] := by
  intro l r
  have e : (getChangedPathsBetweenTrees l r).all
      (fun p => [[t!"a"], [t!"b"], [t!"c"], [t!"d"], [t!"d", t!"e"]].contains p) = true ∧
      [[t!"a"], [t!"b"], [t!"c"], [t!"d"], [t!"d", t!"e"]].all
        (fun p => (getChangedPathsBetweenTrees l r).contains p) = true := by decide +kernel
  intro p
  constructor
  · intro hp
    have := List.all_eq_true.1 e.1 p hp
    simpa using this
  · intro hp
    have := List.all_eq_true.1 e.2 p hp
    simpa using this

end Verif.Props
