import Verif.Props.RebaseFiles
import Verif.Props.MoveExample

/-! A concrete case for C90. -/

namespace Verif.Props

open Verif Verif.Spec

/-- The file with one of the names `a`, `b`, `c`, `d`. -/
def exFileNumber (c : Char) : Fin 16 := if c = 'a' then 1 else if c = 'b' then 2 else if c = 'c' then 3 else 4

/-- A tree with these files. -/
def exLetters (s : List Char) : Tree := exFlat (s.map fun c => ([c], exFileNumber c))

/-- The trees of the example: those of the commits, and those which cherry-picks make of them. -/
def exLetterTrees : List (List Char) :=
  [t!"a", t!"ab", t!"abc", t!"ad", t!"bad", t!"cbad", t!"ba", t!"bac", t!"bcad", t!"ca", t!"cab", t!"cad", t!"dab", t!"dabc",
    t!"da", t!"dba", t!"dcba", t!"abd", t!"acbd"]

/-- The tree with a number; all others are made up. -/
def exLetterTree (n : Nat) : Tree :=
  match exLetterTrees[n]? with
  | some s => exLetters s
  | none => [(List.replicate n 'x', .leaf 0o100644 (oidN 0))]

/-- Cherry-picks of the commits `0` to `3`, onto these and onto `8` and `9`. -/
def exLetterPicks : List ((Oid × Oid) × Nat) :=
  let onto := fun (c : Nat) (ts : List Nat) =>
    ([0, 1, 2, 3, 8, 9].zip ts).map fun e => ((oidN (Fin.ofNat _ c), oidN (Fin.ofNat _ e.1)), e.2)
  onto 0 [0, 1, 2, 3, 17, 18] ++ onto 1 [1, 6, 7, 4, 4, 8] ++ onto 2 [9, 2, 10, 11, 5, 5] ++ onto 3 [3, 12, 13, 14, 15, 16]

def exLetterCommits : List (Oid × CommitData) :=
  [(oidN 0, exCommit [] 0 0), (oidN 1, exCommit [oidN 0] 1 1), (oidN 2, exCommit [oidN 1] 2 2), (oidN 3, exCommit [oidN 0] 3 3)]

def exLetterNew : List (CommitData × Oid) := [(exNew [oidN 3] 4 1, oidN 8), (exNew [oidN 8] 5 2, oidN 9)]

/-- The commit `0` has the file `a`, `1` adds `b` and `2` adds `c`, and `3` adds `d` on top of `0`. -/
def exLetterEnv : MoveCmdEnv := exMoveEnv exLetterCommits exLetterNew exLetterPicks []

theorem exLetterTree_keys (n : Nat) : (exLetterTree n).map Prod.fst =
    match exLetterTrees[n]? with
    | some s => s.map fun c => [c]
    | none => [List.replicate n 'x'] := by
  unfold exLetterTree
  cases exLetterTrees[n]? with
  | none => rfl
  | some s => simp [exLetters, exFlat, Function.comp_def]

theorem exLetterTree_injective (a b : Nat) (h : exLetterTree a = exLetterTree b) : a = b := by
  have hk := congrArg (List.map Prod.fst) h
  rw [exLetterTree_keys, exLetterTree_keys] at hk
  have hlen : exLetterTrees.length = 19 := rfl
  have hin : ∀ n s, exLetterTrees[n]? = some s → n < 19 := by
    intro n s hs
    exact hlen ▸ (List.getElem?_eq_some_iff.1 hs).1
  have hout : ∀ n, exLetterTrees[n]? = none → 19 ≤ n := by
    intro n hs
    exact hlen ▸ List.getElem?_eq_none_iff.1 hs
  have hmix : ∀ (s : List Char) (n : Nat), 19 ≤ n → s.map (fun c => [c]) ≠ [List.replicate n 'x'] := by
    intro s n hn hs
    have : List.replicate n 'x' ∈ s.map fun c => [c] := by rw [hs]; simp
    obtain ⟨c, -, hc⟩ := List.mem_map.1 this
    have := congrArg List.length hc
    simp at this
    omega
  cases ha : exLetterTrees[a]? with
  | none =>
    cases hb : exLetterTrees[b]? with
    | none =>
      rw [ha, hb] at hk
      simp only [List.cons.injEq, and_true] at hk
      simpa using congrArg List.length hk
    | some s =>
      rw [ha, hb] at hk
      exact absurd hk.symm (hmix s a (hout a ha))
  | some s =>
    cases hb : exLetterTrees[b]? with
    | none =>
      rw [ha, hb] at hk
      exact absurd hk (hmix s b (hout b hb))
    | some s' =>
      rw [ha, hb] at hk
      have hss : s = s' := by
        have : Function.Injective fun c : Char => [c] := fun x y h => by simpa using h
        exact List.map_injective_iff.2 this hk
      subst hss
      have hnd : exLetterTrees.Nodup := by decide
      exact (List.getElem?_inj (hlen ▸ hin a s ha) hnd).1 (ha.trans hb.symm)

theorem exLetter_fromTrees : FromTrees noContent exLetterTree exLetterEnv.exec := by
  refine ⟨exLetterTree_injective, ?_⟩
  intro c d ps q x hc hps hq
  have hq' : (q, x.tree) ∈ [(oidN 0, 0), (oidN 1, 1), (oidN 2, 2), (oidN 3, 3), (oidN 8, 4), (oidN 9, 5)] := by
    rcases hq with hq | hq
    · have := AMap.mem_of_get? (m := exLetterCommits) hq
      simp only [exLetterCommits, List.mem_cons, Prod.mk.injEq, List.not_mem_nil, or_false] at this
      rcases this with ⟨rfl, rfl⟩ | ⟨rfl, rfl⟩ | ⟨rfl, rfl⟩ | ⟨rfl, rfl⟩ <;> decide
    · have := AMap.mem_of_get? (m := exLetterNew) hq
      simp only [exLetterNew, List.mem_cons, Prod.mk.injEq, List.not_mem_nil, or_false] at this
      rcases this with ⟨rfl, rfl⟩ | ⟨rfl, rfl⟩ <;> decide
  generalize x.tree = xt at hq'
  have hc' := AMap.mem_of_get? (m := exLetterCommits) hc
  simp only [exLetterCommits, List.mem_cons, Prod.mk.injEq, List.not_mem_nil, or_false] at hc' hq'
  rcases hc' with ⟨rfl, rfl⟩ | ⟨rfl, rfl⟩ | ⟨rfl, rfl⟩ | ⟨rfl, rfl⟩ <;>
    (cases hps
     rcases hq' with ⟨rfl, rfl⟩ | ⟨rfl, rfl⟩ | ⟨rfl, rfl⟩ | ⟨rfl, rfl⟩ | ⟨rfl, rfl⟩ | ⟨rfl, rfl⟩ <;>
      exact rfl)

theorem exLetter_noCollisions : NoCollisions exLetterEnv.exec :=
  exExec_noCollisions (commits := exLetterCommits) (new := exLetterNew) (picks := exLetterPicks) (amends := [])
    (by decide) (by decide)

theorem exLetter_agrees : Agrees exStackGraph exLetterEnv.exec := by
  intro c hc
  have : c ∈ [oidN 3, oidN 2, oidN 1, oidN 0] := hc
  simp only [List.mem_cons, List.not_mem_nil, or_false] at this
  rcases this with rfl | rfl | rfl | rfl <;> exact ⟨_, rfl, rfl⟩

theorem exLetter_plain (c : Oid) (d : CommitData) (h : exLetterEnv.exec.commits c = some d) : Plain (exLetterTree d.tree) := by
  have hc := AMap.mem_of_get? (m := exLetterCommits) h
  simp only [exLetterCommits, List.mem_cons, Prod.mk.injEq, List.not_mem_nil, or_false] at hc
  rcases hc with ⟨rfl, rfl⟩ | ⟨rfl, rfl⟩ | ⟨rfl, rfl⟩ | ⟨rfl, rfl⟩ <;> exact plain_flat _

/-- The files of the commits. -/
theorem exLetter_file (c : Oid) (path : TreePath) (h : path.length ≠ 1) : commitFile exLetterTree exLetterEnv.exec c path = none := by
  unfold commitFile
  cases hc : exLetterEnv.exec.commits c with
  | none => rfl
  | some d =>
    have hc := AMap.mem_of_get? (m := exLetterCommits) hc
    simp only [exLetterCommits, List.mem_cons, Prod.mk.injEq, List.not_mem_nil, or_false] at hc
    have key : ∀ es, fileAt (exFlat es) path = none := by
      intro es
      by_contra hne
      exact h (flat_length es path hne)
    rcases hc with ⟨rfl, rfl⟩ | ⟨rfl, rfl⟩ | ⟨rfl, rfl⟩ | ⟨rfl, rfl⟩ <;> exact key _

theorem exLetter_name (c : Oid) (s : List Char) (hs : ∃ d, exLetterEnv.exec.commits c = some d ∧ exLetterTree d.tree = exLetters s)
    (n : Text) : commitFile exLetterTree exLetterEnv.exec c [n] =
      (AMap.get? (s.map fun c => ([c], exFileNumber c)) n).map fun f => (0o100644, oidN f) := by
  obtain ⟨d, hd, ht⟩ := hs
  unfold commitFile
  rw [hd]
  simp only [Option.bind_some, ht]
  unfold exLetters
  generalize s.map (fun c => ([c], exFileNumber c)) = es
  unfold exFlat fileAt
  rw [nodeAt_cons]
  induction es with
  | nil => rfl
  | cons e es ih =>
    obtain ⟨m, f⟩ := e
    simp only [List.map_cons, AMap.get?_cons] at ih ⊢
    by_cases hn : m = n
    · simp [hn, fileOf]
    · simpa [hn] using ih

/-- The commits which are moved with `1` onto `3`. -/
theorem exLetter_moves {seen : Oid → Prop} {p c : Oid} (h : SubtreeMoves exStackGraph seen (oidN 1) (oidN 3) p c) :
    (p = oidN 3 ∧ c = oidN 1) ∨ (p = oidN 1 ∧ c = oidN 2) := by
  rcases h with ⟨rfl, rfl⟩ | ⟨h1, ⟨s, q, ⟨rfl, rfl⟩, h2⟩, -, h3⟩
  · exact .inl ⟨rfl, rfl⟩
  · right
    have hc : c ∈ [oidN 3, oidN 2, oidN 1, oidN 0] := h3.child_mem
    have hp := (mem_parentsOf exStackGraph_wf).2 h3
    simp only [List.mem_cons, List.not_mem_nil, or_false] at hc
    rcases hc with rfl | rfl | rfl | rfl
    · exact absurd h2 (not_isAnc_of exStackGraph_wf (by decide) (by decide +kernel))
    · have : p ∈ [oidN 1] := hp
      exact ⟨by simpa using this, rfl⟩
    · exact absurd ⟨oidN 3, rfl, rfl⟩ h1
    · have : p ∈ ([] : List Oid) := hp
      simp at this

theorem exLetter_disjoint (seen : Oid → Prop) : DisjointChanges exLetterTree exLetterEnv.exec exStackGraph
    (SubtreeMoves exStackGraph seen (oidN 1) (oidN 3)) (oidN 0) (oidN 3) := by
  have hlen : ∀ c path, Changes exLetterTree exLetterEnv.exec exStackGraph c path → path.length = 1 := by
    rintro c path ⟨o, -, h⟩
    by_contra hne
    exact h (by rw [exLetter_file _ _ hne, exLetter_file _ _ hne])
  have hb : ∀ p q : TreePath, p.length = 1 → Below p q → q.length ≠ 1 := by
    rintro p q h ⟨n, r, rfl⟩
    simp only [List.length_append, List.length_cons]
    omega
  have ha : ∀ p q : TreePath, p.length = 1 → Below q p → q.length ≠ 1 := by
    rintro p q h ⟨n, r, rfl⟩
    simp only [List.length_append, List.length_cons] at h
    omega
  constructor
  · intro p c path hm hch
    have hl := hlen c path hch
    match path, hl with
    | [n], _ =>
      obtain ⟨o, hpo, hne⟩ := hch
      rw [exLetter_name (oidN 0) t!"a" ⟨_, rfl, rfl⟩, exLetter_name (oidN 3) t!"ad" ⟨_, rfl, rfl⟩]
      have hpo := (mem_parentsOf exStackGraph_wf).2 hpo
      have hnd : n ≠ ['d'] := by
        rintro rfl
        rcases exLetter_moves hm with ⟨rfl, rfl⟩ | ⟨rfl, rfl⟩
        · have : o ∈ [oidN 0] := hpo
          obtain rfl := List.mem_singleton.1 this
          exact hne (by decide +kernel)
        · have : o ∈ [oidN 1] := hpo
          obtain rfl := List.mem_singleton.1 this
          exact hne (by decide +kernel)
      simp only [List.map_cons, List.map_nil, AMap.get?_cons, AMap.get?_nil]
      split
      · rfl
      · simp [Ne.symm hnd]
  · intro p c x hm hx
    exact ⟨fun a b h1 h2 h3 => hb a b (hlen c a h1) h3 (hlen c b h2),
      fun a b h1 h2 => exLetter_file x b (ha a b (hlen c a h1) h2),
      fun a b h1 h2 => exLetter_file x b (hb a b (hlen c a h1) h2)⟩

/-- Non-vacuity of `disjoint_move_command`, `moved_files_merged` and `clean_picks_from_trees`: all the suppositions about
the repository hold, and `move -s 1 -d 3` makes `8` with the files `a`, `b`, `d` and `9` with all four. -/
example :
    let args : MoveArgs := ⟨[oidN 1], [], [], true, some [oidN 3], some (oidN 0), false, false⟩
    let w := exRestackWorld exStackEvents (oidN 2)
    (FromTrees noContent exLetterTree exLetterEnv.exec ∧ KeepsModes noContent ∧ NoCollisions exLetterEnv.exec ∧
      Agrees exStackGraph exLetterEnv.exec ∧ SetContract exLetterEnv ∧ IsDest args (oidN 3) ∧
      (∀ c d, exLetterEnv.exec.commits c = some d → Plain (exLetterTree d.tree)) ∧
      (∀ seen p c, SubtreeMoves exStackGraph seen (oidN 1) (oidN 3) p c → ∃ o, exStackGraph.parentsOf c = [o]) ∧
      ∀ seen, DisjointChanges exLetterTree exLetterEnv.exec exStackGraph
        (SubtreeMoves exStackGraph seen (oidN 1) (oidN 3)) (oidN 0) (oidN 3)) ∧
    ∃ w' es', moveCommits exLetterEnv t!"refs/heads/main" exStackGraph none w args = (w', .done) ∧
      w'.db.getEvents = some es' ∧
      findRewriteTarget (Replayer.fromEvents t!"refs/heads/main" es') ⟨es'.length⟩ (oidN 2) = some (.nonZero (oidN 9)) ∧
      (carriedFile exLetterTree exLetterEnv.exec (oidN 0) (oidN 3) (oidN 2)) [t!"d"] = some (0o100644, oidN 4) ∧
      (carriedFile exLetterTree exLetterEnv.exec (oidN 0) (oidN 3) (oidN 1)) [t!"c"] = none := by
  refine ⟨⟨exLetter_fromTrees, fun b o t r h => (nomatch h), exLetter_noCollisions, exLetter_agrees, exMoveEnv_set _ _ _ _,
    .inl ⟨_, rfl, by simp⟩, exLetter_plain, ?_, exLetter_disjoint⟩, ?_⟩
  · intro seen p c h
    rcases exLetter_moves h with ⟨-, rfl⟩ | ⟨-, rfl⟩ <;> exact ⟨_, rfl⟩
  · refine ⟨_, _, rfl, rfl, ?_⟩
    decide +kernel

end Verif.Props
