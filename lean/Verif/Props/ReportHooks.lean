import Verif.Spec.ReportHooks
import Verif.Props.Prompt

/-! C104 (the hooks in a bug report). -/

namespace Verif.Props

open Verif Spec

theorem readHooks_code {name : Text} {code : List Text} (h : t!"```" ∉ code) (acc rest : List Text) :
    readHooks (.inside name acc) (code ++ t!"```" :: rest) = (name, codeText (acc ++ code)) :: readHooks .outside rest := by
  induction code generalizing acc with
  | nil => simp [readHooks]
  | cons l ls ih =>
    rw [List.mem_cons, not_or] at h
    rw [List.cons_append, readHooks, if_neg (Ne.symm h.1), ih h.2]
    simp

/-- The lines of code for a hook, taken apart. -/
def codeLines (contents : Text) : List Text :=
  match stripNl contents with
  | some c => splitNl c
  | none => splitNl contents ++ [t!"<missing newline>"]

theorem splitNl_append_nl (t : Text) : splitNl (t ++ ['\n']) = splitNl t ++ [[]] := by
  have := splitNl_joinNl (ls := splitNl t) (splitNl_lines t) (splitNl_ne_nil t) []
  rwa [joinNl_splitNl] at this

theorem stripNl_some {t c : Text} : stripNl t = some c ↔ t = c ++ ['\n'] := by
  unfold stripNl
  constructor
  · intro h
    split at h
    · rename_i hl
      cases h
      exact (List.dropLast_append_getLast? _ hl).symm
    · simp at h
  · rintro rfl
    simp

theorem joinNl_append_nl {ls : List Text} (h : ls ≠ []) (l : Text) : joinNl (ls ++ [l]) = joinNl ls ++ '\n' :: l := by
  induction ls with
  | nil => exact absurd rfl h
  | cons a ls ih =>
    cases hls : ls with
    | nil => rfl
    | cons b bs =>
      rw [← hls, List.cons_append, joinNl_cons _ (by simp), joinNl_cons _ (by simp [hls]), ih (by simp [hls])]
      simp

theorem codeText_codeLines {c : Text} (h : Reportable c) : codeText (codeLines c) = c := by
  unfold codeLines
  cases hs : stripNl c with
  | none =>
    simp [codeText, joinNl_splitNl]
  | some d =>
    rw [stripNl_some] at hs
    subst hs
    simp only
    unfold codeText
    rw [if_neg, joinNl_splitNl]
    intro hl
    have h1 := (List.dropLast_append_getLast? _ hl).symm
    have h2 := joinNl_splitNl d
    rw [h1] at h2
    by_cases hd : (splitNl d).dropLast = []
    · rw [hd] at h2
      apply (h.2 []).2
      rw [← h2]
      rfl
    · rw [joinNl_append_nl hd] at h2
      generalize joinNl (splitNl d).dropLast = x at h2
      apply (h.2 x).1
      rw [← h2]
      simp

theorem codeLines_no_fence {c : Text} (h : Reportable c) : t!"```" ∉ codeLines c := by
  unfold codeLines
  cases hs : stripNl c with
  | none =>
    simp only [List.mem_append, not_or]
    exact ⟨h.1, by decide⟩
  | some d =>
    rw [stripNl_some] at hs
    have := h.1
    rw [hs, splitNl_append_nl] at this
    exact fun hm => this (List.mem_append_left _ hm)

theorem splitNl_text (t rest : Text) : splitNl (t ++ '\n' :: rest) = splitNl t ++ splitNl rest := by
  have := splitNl_joinNl (ls := splitNl t) (splitNl_lines t) (splitNl_ne_nil t) rest
  rwa [joinNl_splitNl] at this

/-- Joining and taking apart: lines which consist of several lines are taken apart. -/
theorem splitNl_joinNl_flat {ls : List Text} (hn : ls ≠ []) (rest : Text) :
    splitNl (joinNl ls ++ '\n' :: rest) = ls.flatMap splitNl ++ splitNl rest := by
  induction ls with
  | nil => exact absurd rfl hn
  | cons l ls ih =>
    cases hls : ls with
    | nil =>
      rw [show joinNl [l] = l from rfl, splitNl_text]
      simp
    | cons a as =>
      rw [← hls, joinNl_cons _ (by simp [hls]), List.append_assoc, List.cons_append, splitNl_text,
        ih (by simp [hls])]
      simp

theorem hookLines_split {h : Text × Text} (hn : '\n' ∉ h.1) :
    (hookLines h).flatMap splitNl =
      (t!"##### Hook `" ++ h.1 ++ t!"`") :: [] :: t!"```" :: (codeLines h.2 ++ [t!"```"]) := by
  have h1 : splitNl (t!"##### Hook `" ++ h.1 ++ t!"`") = [t!"##### Hook `" ++ h.1 ++ t!"`"] :=
    splitNl_single (by simpa using hn)
  unfold hookLines codeLines
  have h2 : splitNl t!"```" = [t!"```"] := by decide
  have h3 : splitNl t!"<missing newline>" = [t!"<missing newline>"] := by decide
  have h4 : splitNl [] = [[]] := rfl
  generalize t!"##### Hook `" ++ h.1 ++ t!"`" = title at h1
  cases stripNl h.2 <;>
    simp only [List.flatMap_append, List.flatMap_cons, List.flatMap_nil, h1, h2, h3, h4, List.append_nil,
      List.cons_append, List.nil_append, List.append_assoc]

theorem read_hooks_lines (hooks : List (Text × Text)) (hn : ∀ h ∈ hooks, '\n' ∉ h.1)
    (hr : ∀ h ∈ hooks, Reportable h.2) (rest : List Text) :
    readHooks .outside ((hooks.flatMap hookLines).flatMap splitNl ++ rest) = hooks ++ readHooks .outside rest := by
  induction hooks with
  | nil => rfl
  | cons h hooks ih =>
    have ht : titleName (t!"##### Hook `" ++ h.1 ++ t!"`") = some h.1 := by
      unfold titleName
      rw [if_pos (by rfl)]
      simp
    have hr1 := hr h (by simp)
    rw [List.flatMap_cons, List.flatMap_append, hookLines_split (hn h (by simp)), List.append_assoc]
    generalize t!"##### Hook `" ++ h.1 ++ t!"`" = title at ht
    simp only [List.cons_append, List.append_assoc, List.nil_append]
    rw [readHooks]
    simp only [ht]
    rw [readHooks, if_neg (by decide), readHooks, if_pos rfl, readHooks_code (codeLines_no_fence hr1), List.nil_append,
      codeText_codeLines hr1, ih (fun x hx => hn x (by simp [hx])) (fun x hx => hr x (by simp [hx]))]

/-- C104: whoever reads the report as Markdown finds each hook with exactly its contents, from the file which git
runs, and nothing else; whether or not there is a line break at the end. Missing: hooks with a line of three
backticks, or of `<missing newline>` at the end, see `fence_in_hook` and `missing_newline_unclear`. -/
theorem report_hooks_read_partial (env : InitEnv) (fs : HookFiles) (dir : Text) (hd : '\n' ∉ dir) (report : Text)
    (hr : ∀ h ∈ allHooks, ∀ c, hookSays fs (hookFileOf env h.1) = some c → Reportable c)
    (h : collectHooks env fs dir = some report) :
    (readHooks .outside (splitNl report)).map (fun x => (x.1, some x.2)) =
      allHooks.map fun h => (h.1, hookSays fs (hookFileOf env h.1)) := by
  have hsame : ∀ n, reportedContents fs (determineHookPath env n) = hookSays fs (hookFileOf env n) := by
    intro n
    unfold determineHookPath hookFileOf
    cases env.multiHooks <;> rfl
  unfold collectHooks at h
  simp only [Option.bind_eq_bind, Option.bind_eq_some_iff, Option.some.injEq] at h
  obtain ⟨hooks, hm, rfl⟩ := h
  have key : ∀ (l : List (Text × Text)) (r : List (Text × Text)),
      (l.mapM fun h => (reportedContents fs (determineHookPath env h.1)).bind fun a => some (h.1, a)) = some r →
      r.map (fun x => (x.1, some x.2)) = l.map fun h => (h.1, hookSays fs (hookFileOf env h.1)) := by
    intro l
    induction l with
    | nil => intro r h; rw [List.mapM_nil] at h; cases h; rfl
    | cons a l ih =>
      intro r h
      rw [List.mapM_cons] at h
      simp only [Option.bind_eq_bind, Option.bind_eq_some_iff, Option.pure_def, Option.some.injEq] at h
      obtain ⟨b, ⟨c, hc, rfl⟩, bs, hbs, rfl⟩ := h
      rw [List.map_cons, List.map_cons, ih _ hbs, ← hsame, hc]
  have hk := key _ _ hm
  have hmem : ∀ x ∈ hooks, ∃ h ∈ allHooks, x.1 = h.1 ∧ hookSays fs (hookFileOf env h.1) = some x.2 := by
    intro x hx
    have : (x.1, some x.2) ∈ hooks.map fun x => (x.1, some x.2) := List.mem_map.2 ⟨x, hx, rfl⟩
    rw [hk] at this
    obtain ⟨h, hh, he⟩ := List.mem_map.1 this
    simp only [Prod.mk.injEq] at he
    exact ⟨h, hh, he.1.symm, he.2⟩
  rw [← hk]
  congr 1
  have hne : hooks.flatMap hookLines ≠ [] := by
    cases hooks with
    | nil => 
      have h0 : 0 = allHooks.length := by simpa using congrArg List.length hk
      exact absurd h0 (by decide)
    | cons a l => simp [hookLines]
  have hnames : ∀ h ∈ allHooks, '\n' ∉ h.1 := by decide +kernel
  have hdig : '\n' ∉ natToText hooks.length := by
    have : hooks.length = allHooks.length := by simpa using congrArg List.length hk
    rw [this]
    decide +kernel
  have e : t!"\nHooks directory: `" ++ dir ++ t!"`\n\n<details>\n<summary>Show " ++ natToText hooks.length ++
      t!" hooks</summary>\n\n" ++ joinNl (hooks.flatMap hookLines) ++ t!"\n\n</details>" =
      [] ++ '\n' :: ((t!"Hooks directory: `" ++ dir ++ t!"`") ++ '\n' :: ([] ++ '\n' :: (t!"<details>" ++ '\n' ::
      ((t!"<summary>Show " ++ natToText hooks.length ++ t!" hooks</summary>") ++ '\n' :: ([] ++ '\n' ::
      (joinNl (hooks.flatMap hookLines) ++ '\n' :: t!"\n</details>")))))) := by
    simp
  rw [e, splitNl_no_nl (by simp), splitNl_no_nl (by simpa using hd), splitNl_no_nl (by simp),
    splitNl_no_nl (by decide), splitNl_no_nl (by simpa using hdig), splitNl_no_nl (by simp),
    splitNl_joinNl_flat hne]
  have t1 : titleName [] = none := by decide
  have t2 : titleName (t!"Hooks directory: `" ++ dir ++ t!"`") = none := by
    unfold titleName
    rw [if_neg (by intro hc; exact absurd (congrArg (List.take 1) hc) (by simp))]
  have t3 : titleName t!"<details>" = none := by decide
  have t4 : titleName (t!"<summary>Show " ++ natToText hooks.length ++ t!" hooks</summary>") = none := by
    unfold titleName
    rw [if_neg (by intro hc; exact absurd (congrArg (List.take 1) hc) (by simp))]
  simp only [readHooks, t1, t2, t3, t4]
  rw [read_hooks_lines hooks]
  · have : readHooks .outside (splitNl t!"\n</details>") = [] := by decide +kernel
    rw [this, List.append_nil]
  · intro x hx
    obtain ⟨h, hh, he, _⟩ := hmem x hx
    rw [he]
    exact hnames h hh
  · intro x hx
    obtain ⟨h, hh, _, he⟩ := hmem x hx
    exact hr h hh _ he

/-- C104: there is no report exactly if the file of a hook is there but is no text. -/
theorem no_report_iff (env : InitEnv) (fs : HookFiles) (dir : Text) :
    collectHooks env fs dir = none ↔ ∃ h ∈ allHooks, hookSays fs (hookFileOf env h.1) = none := by
  have hsame : ∀ n, reportedContents fs (determineHookPath env n) = hookSays fs (hookFileOf env n) := by
    intro n
    unfold determineHookPath hookFileOf
    cases env.multiHooks <;> rfl
  have key : ∀ l : List (Text × Text),
      (l.mapM fun h => (reportedContents fs (determineHookPath env h.1)).bind fun a => some (h.1, a)) = none ↔
      ∃ h ∈ l, hookSays fs (hookFileOf env h.1) = none := by
    intro l
    induction l with
    | nil => simp
    | cons a l ih =>
      rw [List.mapM_cons, List.exists_mem_cons_iff, ← ih, ← hsame]
      cases reportedContents fs (determineHookPath env a.1) with
      | none => simp
      | some c =>
        simp only [Option.bind_eq_bind, Option.bind_some, reduceCtorEq, false_or]
        cases (l.mapM fun h => (reportedContents fs (determineHookPath env h.1)).bind fun a => some (h.1, a)) <;> simp
  rw [← key]
  unfold collectHooks
  simp only [Option.bind_eq_bind]
  cases (allHooks.mapM fun h => (reportedContents fs (determineHookPath env h.1)).bind fun a => some (h.1, a)) <;> simp

/-- C104: a hook with a line of three backticks (say in a comment) is cut there, and the code of the rest is read as
text. -/
theorem fence_in_hook :
    readHooks .outside ((hookLines (t!"post-commit", t!"a\n```\nb\n")).flatMap splitNl) = [(t!"post-commit", t!"a\n")] := by
  decide +kernel

/-- C104: two different files look the same in the report; and so do a file which is not there and one with
`<not found>` in it. -/
theorem missing_newline_unclear :
    joinNl (hookLines (t!"post-commit", t!"a\n<missing newline>\n")) = joinNl (hookLines (t!"post-commit", t!"a")) ∧
    reportedContents [] (.regular t!"h") = reportedContents [(t!"h", ⟨some t!"<not found>", 0o755⟩)] (.regular t!"h") := by
  decide +kernel

/-- A report with one hook which is there, without a line break at its end. -/
example (env : InitEnv) (h1 : env.multiHooks = none) (h2 : env.hooksDir = t!"h") :
    (∃ report, collectHooks env [(t!"h/post-commit", ⟨some t!"#!/bin/sh\ntrue", 0o755⟩)] t!"h" = some report ∧
      (t!"post-commit", t!"#!/bin/sh\ntrue") ∈ readHooks .outside (splitNl report)) ∧
    Reportable t!"#!/bin/sh\ntrue" ∧ Reportable t!"<not found>" := by
  refine ⟨?_, ?_, ?_⟩
  · unfold collectHooks determineHookPath
    simp only [h1, h2]
    refine ⟨_, rfl, ?_⟩
    decide +kernel
  · refine ⟨by decide, fun t => ⟨fun h => ?_, by decide⟩⟩
    have := congrArg List.getLast? h
    simp at this
  · refine ⟨by decide, fun t => ⟨fun h => ?_, by decide⟩⟩
    have := congrArg List.getLast? h
    simp at this

end Verif.Props
