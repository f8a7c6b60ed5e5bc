import Verif.Model.Args
import Verif.Lemmas.Lines
import Verif.Lemmas.Revset

/-! C89: how a subcommand may be called. -/

namespace Verif.Props

open Verif Verif.Spec

/-- The name of a program in some directory. -/
theorem pathFileName_dir (dir name : Text) (hd : dir = [] ∨ ∃ d, dir = d ++ t!"/") (hn : '/' ∉ name)
    (h1 : name ≠ []) (h2 : name ≠ t!".") (h3 : name ≠ t!"..") : pathFileName (dir ++ name) = some name := by
  have hlast : ∀ d : Text, ∃ l, splitChar '/' (d ++ '/' :: name) = l ++ [name] := by
    intro d
    induction d with
    | nil =>
      refine ⟨[[]], ?_⟩
      rw [List.nil_append, splitChar, if_pos rfl, splitChar_of_not_mem hn]
      rfl
    | cons x d ih =>
      obtain ⟨l, hl⟩ := ih
      rw [List.cons_append, splitChar]
      split
      · exact ⟨[] :: l, by rw [hl]; rfl⟩
      · rw [hl]
        cases l with
        | nil =>
          exfalso
          have := congrArg List.length hl
          have h2 : 2 ≤ (splitChar '/' (d ++ '/' :: name)).length := by
            clear hl this
            induction d with
            | nil => rw [List.nil_append, splitChar, if_pos rfl, splitChar_of_not_mem hn]; simp
            | cons y d ih' =>
              rw [List.cons_append, splitChar]
              split
              · simp only [List.length_cons]; omega
              · split
                · rename_i h; rw [h] at ih'; simp at ih'
                · rename_i h; rw [h] at ih'; simpa using ih'
          simp at this
          omega
        | cons a l => exact ⟨(x :: a) :: l, rfl⟩
  unfold pathFileName
  have hf : ((splitChar '/' (dir ++ name)).filter fun c => c ≠ [] ∧ c ≠ t!".").getLast? = some name := by
    rcases hd with rfl | ⟨d, rfl⟩
    · rw [List.nil_append, splitChar_of_not_mem hn]
      simp [h1, h2]
    · obtain ⟨l, hl⟩ := hlast d
      rw [List.append_assoc]
      show ((splitChar '/' (d ++ '/' :: name)).filter fun c => c ≠ [] ∧ c ≠ t!".").getLast? = some name
      rw [hl, List.filter_append]
      simp [h1, h2]
  rw [hf]
  simp [h3]

/-- C89: a program with the name of a subcommand in any directory stands for this subcommand. -/
theorem called_by_name (dir s : Text) (hd : dir = [] ∨ ∃ d, dir = d ++ t!"/") (hs : '/' ∉ s) (rest : List OsArg) :
    rewriteArgs (.text (dir ++ (t!"git-branchless-" ++ s)) :: rest) =
      .text t!"git-branchless" :: .text s :: rest := by
  have hname : pathFileName (dir ++ (t!"git-branchless-" ++ s)) = some (t!"git-branchless-" ++ s) := by
    refine pathFileName_dir dir _ hd ?_ (by simp) (by simp) (by simp)
    simp [hs]
  unfold rewriteArgs
  simp only [hname]
  have h1 : stripPrefix? t!"git-branchless-" (t!"git-branchless-" ++ s) = some s := stripPrefix?_iff.2 rfl
  rw [h1]
  dsimp only
  rw [if_neg]
  intro h
  have := congrArg List.length h
  simp at this

/-- C89: `git-branchless` itself stays, and its directory is removed; the older names of the hooks are replaced. -/
theorem called_directly (dir : Text) (hd : dir = [] ∨ ∃ d, dir = d ++ t!"/") (s : Text) (rest : List OsArg) :
    rewriteArgs (.text (dir ++ t!"git-branchless") :: .text s :: rest) =
      .text t!"git-branchless" ::
        ((match stripPrefix? t!"hook-" s with
          | some hook => [.text t!"hook", .text hook]
          | none => [.text s]) ++ rest) := by
  have hname : pathFileName (dir ++ t!"git-branchless") = some t!"git-branchless" :=
    pathFileName_dir dir _ hd (by decide +kernel) (by simp) (by simp) (by simp)
  unfold rewriteArgs
  simp only [hname]
  have h1 : stripPrefix? t!"git-branchless-" t!"git-branchless" = none := by decide +kernel
  rw [h1]
  simp only [↓reduceIte]
  cases stripPrefix? t!"hook-" s <;> rfl

/-- C89: a subcommand can be called in both ways. Missing: the older names of the hooks, which are replaced only in the
second one, though the code says that they are in the first. -/
theorem called_either_way_partial (dir dir' s : Text) (hd : dir = [] ∨ ∃ d, dir = d ++ t!"/")
    (hd' : dir' = [] ∨ ∃ d, dir' = d ++ t!"/") (hs : '/' ∉ s) (rest : List OsArg) :
    rewriteArgs (.text (dir ++ (t!"git-branchless-" ++ s)) :: rest) =
        rewriteArgs (.text (dir' ++ t!"git-branchless") :: .text s :: rest) ↔ ¬ t!"hook-" <+: s := by
  rw [called_by_name dir s hd hs, called_directly dir' hd' s]
  constructor
  · rintro h ⟨hook, rfl⟩
    have h1 : stripPrefix? t!"hook-" (t!"hook-" ++ hook) = some hook := stripPrefix?_iff.2 rfl
    rw [h1] at h
    have := congrArg List.length h
    simp at this
  · intro h
    rw [stripPrefix?_none.2 h]
    rfl

/-- C89: the example in the comment of the code is not as the code is. -/
theorem hook_by_name_unknown :
    rewriteArgs [.text t!"git-branchless-hook-post-commit", .text t!"x"] =
      [.text t!"git-branchless", .text t!"hook-post-commit", .text t!"x"] := by
  decide +kernel

/-- C89: no other argument is changed, added or removed. -/
theorem arguments_kept (first : OsArg) (rest : List OsArg) :
    ∃ name front, rewriteArgs (first :: rest) = name :: (front ++ rest) ∨
      ∃ s hook, rest = .text (t!"hook-" ++ hook) :: s ∧
        rewriteArgs (first :: rest) = [name, .text t!"hook", .text hook] ++ s := by
  unfold rewriteArgs
  cases first with
  | other n => exact ⟨.other n, [], .inl rfl⟩
  | text t =>
    dsimp only
    split
    · exact ⟨.text t, [], .inl rfl⟩
    · rename_i exe hexe
      cases hp : stripPrefix? t!"git-branchless-" exe with
      | some sub =>
        have hne : exe ≠ t!"git-branchless" := by
          rintro rfl
          have : stripPrefix? t!"git-branchless-" t!"git-branchless" = none := by decide +kernel
          rw [this] at hp
          cases hp
        dsimp only
        rw [if_neg hne]
        exact ⟨.text t!"git-branchless", [.text sub], .inl rfl⟩
      | none =>
        dsimp only
        cases rest with
        | nil => exact ⟨.text exe, [], .inl rfl⟩
        | cons s rest =>
          dsimp only
          split
          · cases s with
            | other n => exact ⟨.text exe, [], .inl rfl⟩
            | text s =>
              dsimp only
              cases hh : stripPrefix? t!"hook-" s with
              | none => exact ⟨.text exe, [], .inl rfl⟩
              | some hook =>
                rw [stripPrefix?_iff] at hh
                subst hh
                exact ⟨.text exe, [], .inr ⟨rest, hook, rfl, rfl⟩⟩
          · exact ⟨.text exe, [], .inl rfl⟩

example : rewriteArgs [.text t!"/usr/bin/git-branchless-smartlog", .text t!"foo", .other 1] =
    [.text t!"git-branchless", .text t!"smartlog", .text t!"foo", .other 1] := by
  decide +kernel
example : rewriteArgs [.text t!"bin/git-branchless", .text t!"hook-post-checkout", .text t!"3"] =
    [.text t!"git-branchless", .text t!"hook", .text t!"post-checkout", .text t!"3"] := by
  decide +kernel

end Verif.Props
