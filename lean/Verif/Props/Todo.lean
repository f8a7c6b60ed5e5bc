import Verif.Props.ExecuteChoice
import Verif.Spec.Todo

/-!
C55: the todo list which is handed to `git rebase` means the plan.
-/

namespace Verif.Props

open Verif Verif.Spec Verif.RebasePlanBuilder

theorem _root_.Verif.Spec.LabelName.chars {l : Text} (h : LabelName l) : ' ' ∉ l ∧ '\n' ∉ l := by
  obtain ⟨stem, n, k, hs, rfl⟩ := h
  have hd : ∀ d, d < 10 → Char.ofNat (48 + d) ≠ ' ' ∧ Char.ofNat (48 + d) ≠ '\n' := by decide
  have hn : ' ' ∉ natToText n ∧ '\n' ∉ natToText n := by
    constructor <;> intro hm <;> obtain ⟨d, h1, h2⟩ := mem_natToText hm
    · exact (hd d h1).1 h2.symm
    · exact (hd d h1).2 h2.symm
  have hk : ' ' ∉ List.replicate k '\'' ∧ '\n' ∉ List.replicate k '\'' := by
    simp [List.mem_replicate]
  have hst : ' ' ∉ stem ∧ '\n' ∉ stem := by
    rcases hs with rfl | rfl <;> decide
  simp only [List.mem_append, not_or]
  exact ⟨⟨⟨hst.1, hn.1⟩, hk.1⟩, ⟨⟨hst.2, hn.2⟩, hk.2⟩⟩

theorem toText_chars (o : Oid) : ' ' ∉ o.toText ∧ '\n' ∉ o.toText := by
  constructor <;> intro hm <;> obtain ⟨d, h1, h2⟩ := Oid.mem_toText hm
  · exact (hexDigit_ne h1).1 h2.symm
  · exact (hexDigit_ne h1).2.1 h2.symm

theorem labelName_ne_toText {l : Text} (h : LabelName l) (o : Oid) : l ≠ o.toText := by
  intro e
  have hm : '-' ∈ o.toText := by
    rw [← e]
    obtain ⟨stem, n, k, hs, rfl⟩ := h
    rcases hs with rfl | rfl <;> simp
  obtain ⟨d, h1, h2⟩ := Oid.mem_toText hm
  have : ∀ d, d < 16 → hexDigit d ≠ '-' := by decide
  exact this d h1 h2.symm

/-- The names written for commits and labels contain no blanks and can be read back. -/
theorem readName_toText {labels : List Text} (hn : ∀ l ∈ labels, LabelName l) (t : OidOrLabel)
    (ht : ∀ l, t = .label l → l ∈ labels) :
    readName labels t.toText = some t ∧ ' ' ∉ t.toText ∧ '\n' ∉ t.toText := by
  cases t with
  | oid o =>
    refine ⟨?_, toText_chars o⟩
    have h1 : o.toText ∉ labels := fun hm => labelName_ne_toText (hn _ hm) o rfl
    simp only [OidOrLabel.toText, readName, if_neg h1, Oid.length_toText, if_true, Oid.parse_toText,
      Option.map_some]
  | label l =>
    have h1 := ht l rfl
    refine ⟨?_, (hn _ h1).chars⟩
    show (if l ∈ labels then some (OidOrLabel.label l) else _) = _
    rw [if_pos h1]

theorem splitChar_intercalate {ws : List Text} (hne : ws ≠ []) (h : ∀ w ∈ ws, ' ' ∉ w) :
    splitChar ' ' (t!" ".intercalate ws) = ws := by
  induction ws with
  | nil => exact absurd rfl hne
  | cons w ws ih =>
    cases ws with
    | nil =>
      simp only [List.intercalate, List.intersperse_singleton, List.flatten_cons, List.flatten_nil,
        List.append_nil]
      exact splitChar_of_not_mem (h w (by simp))
    | cons v vs =>
      have := ih (by simp) fun x hx => h x (by simp [hx])
      simp only [List.intercalate, List.intersperse_cons₂, List.flatten_cons] at this ⊢
      have e : w ++ (t!" " ++ (v :: vs |>.intersperse t!" ").flatten) =
          w ++ ' ' :: ((v :: vs).intersperse t!" ").flatten := rfl
      rw [e, splitChar_append_sep (h w (by simp)), this]

theorem not_mem_intercalate {c : Char} (hc : c ≠ ' ') {ws : List Text} (h : ∀ w ∈ ws, c ∉ w) :
    c ∉ t!" ".intercalate ws := by
  induction ws with
  | nil => simp [List.intercalate]
  | cons w ws ih =>
    cases ws with
    | nil =>
      simp only [List.intercalate, List.intersperse_singleton, List.flatten_cons, List.flatten_nil,
        List.append_nil]
      exact h w (by simp)
    | cons v vs =>
      have := ih fun x hx => h x (by simp [hx])
      simp only [List.intercalate, List.intersperse_cons₂, List.flatten_cons] at this ⊢
      simp only [List.mem_append, not_or]
      refine ⟨h w (by simp), ?_, this⟩
      simp [hc]

theorem mapM_readName {labels : List Text} (hn : ∀ l ∈ labels, LabelName l) (ps : List OidOrLabel)
    (hp : ∀ l ∈ ps.filterMap labelOf, l ∈ labels) :
    (ps.map OidOrLabel.toText).mapM (readName labels) = some ps := by
  induction ps with
  | nil => rfl
  | cons p ps ih =>
    rw [List.map_cons, List.mapM_cons, (readName_toText hn p ?_).1, ih ?_]
    · rfl
    · intro l hl
      refine hp l ?_
      rw [List.filterMap_cons]
      split
      · exact hl
      · exact List.mem_cons_of_mem _ hl
    · rintro l rfl
      exact hp l (by simp [labelOf])

/-- Commands which can be written. -/
def Writable : RebaseCommand → Prop
  | .createLabel l => LabelName l
  | .merge _ ps => ps ≠ []
  | .replace _ _ _ => False
  | _ => True

/-- One command. -/
theorem readItem_toRebaseCommand {labels : List Text} (hn : ∀ l ∈ labels, LabelName l)
    {cmd : RebaseCommand} (hw : Writable cmd) (hu : ∀ l ∈ labelsUsed cmd, l ∈ labels) {line : Text}
    (h : cmd.toRebaseCommand = .ok line) :
    '\n' ∉ line ∧
    ((line = [] ∧ todoMeaning cmd = none) ∨
      ∃ item, line ≠ [] ∧ todoMeaning cmd = some item ∧
        readItem labels (splitChar ' ' line) = some item ∧
        item.registers = (labelCreated cmd).toList) := by
  have two : ∀ (w a : Text), ' ' ∉ w → ' ' ∉ a → splitChar ' ' (w ++ ' ' :: a) = [w, a] := by
    intro w a h1 h2
    rw [splitChar_append_sep h1, splitChar_of_not_mem h2]
  cases cmd with
  | createLabel l =>
    have hc := (show LabelName l from hw).chars
    simp only [RebaseCommand.toRebaseCommand, Except.ok.injEq] at h
    have e : line = t!"label" ++ ' ' :: l := h.symm
    refine ⟨?_, .inr ⟨.label l, by rw [e]; simp, rfl, ?_, rfl⟩⟩
    · rw [e]; simp [hc.2]
    · rw [e, two _ _ (by decide) hc.1]; rfl
  | reset t =>
    obtain ⟨h1, h2, h3⟩ := readName_toText hn t fun l hl => hu l (by simp [labelsUsed, hl, labelOf])
    simp only [RebaseCommand.toRebaseCommand, Except.ok.injEq] at h
    generalize t.toText = x at h h1 h2 h3
    have e : line = t!"reset" ++ ' ' :: x := h.symm
    refine ⟨?_, .inr ⟨.reset t, by rw [e]; simp, rfl, ?_, rfl⟩⟩
    · rw [e]; simp [h3]
    · rw [e, two _ _ (by decide) h2]
      show (readName labels x).map TodoItem.reset = _
      rw [h1]; rfl
  | pick c l =>
    match l with
    | [] =>
      simp only [RebaseCommand.toRebaseCommand, Except.ok.injEq] at h
      rw [← h]
      exact ⟨by simp, .inl ⟨rfl, rfl⟩⟩
    | [o] =>
      simp only [RebaseCommand.toRebaseCommand, Except.ok.injEq] at h
      have hc := toText_chars o
      have hp := Oid.parse_toText o
      generalize o.toText = x at h hc hp
      have e : line = t!"pick" ++ ' ' :: x := h.symm
      refine ⟨?_, .inr ⟨.pick o, by rw [e]; simp, rfl, ?_, rfl⟩⟩
      · rw [e]; simp [hc.2]
      · rw [e, two _ _ (by decide) hc.1]
        show (Oid.parse x).map TodoItem.pick = _
        rw [hp]; rfl
    | _ :: _ :: _ => simp [RebaseCommand.toRebaseCommand] at h
  | merge c ps =>
    have hne : ps ≠ [] := hw
    simp only [RebaseCommand.toRebaseCommand, Except.ok.injEq] at h
    have hc := toText_chars c
    have hp := Oid.parse_toText c
    generalize c.toText = x at h hc hp
    have hps : ∀ w ∈ ps.map OidOrLabel.toText, ' ' ∉ w ∧ '\n' ∉ w := by
      intro w hw
      obtain ⟨p, hp, rfl⟩ := List.mem_map.1 hw
      refine (readName_toText hn p ?_).2
      rintro l rfl
      exact hu l (by simp only [labelsUsed]; exact List.mem_filterMap.2 ⟨_, hp, rfl⟩)
    have hne' : ps.map OidOrLabel.toText ≠ [] := by simpa using hne
    have hm := mapM_readName hn ps hu
    generalize ps.map OidOrLabel.toText = ws at h hps hne' hm
    have e : line = t!"merge" ++ ' ' :: (t!"-C" ++ ' ' :: (x ++ ' ' :: t!" ".intercalate ws)) := by
      rw [← h]; simp
    refine ⟨?_, .inr ⟨.merge c ps, by rw [e]; simp, rfl, ?_, rfl⟩⟩
    · rw [e]
      simp only [List.mem_append, List.mem_cons, not_or]
      exact ⟨by decide, by decide, by decide, by decide, hc.2, by decide,
        not_mem_intercalate (by decide) fun w hw => (hps w hw).2⟩
    · rw [e, splitChar_append_sep (by decide), splitChar_append_sep (by decide),
        splitChar_append_sep hc.1, splitChar_intercalate hne' fun w hw => (hps w hw).1]
      have key : readItem labels (t!"merge" :: t!"-C" :: x :: ws) =
          if t!"-C" = t!"-C" ∧ ws ≠ [] then
            match Oid.parse x, ws.mapM (readName labels) with
            | some m, some os => some (.merge m os)
            | _, _ => none
          else none := rfl
      rw [key, if_pos ⟨rfl, hne'⟩, hp, hm]
  | replace _ _ _ => exact absurd hw (by simp [Writable])
  | «break» =>
    simp only [RebaseCommand.toRebaseCommand, Except.ok.injEq] at h
    rw [← h]
    exact ⟨by decide, .inr ⟨.break, by decide, rfl, rfl, rfl⟩⟩
  | registerExtraPostRewriteHook =>
    simp only [RebaseCommand.toRebaseCommand, Except.ok.injEq] at h
    rw [← h]
    exact ⟨by decide, .inr ⟨_, by decide, rfl, rfl, rfl⟩⟩
  | detectEmptyCommit c =>
    have hc := toText_chars c
    simp only [RebaseCommand.toRebaseCommand, Except.ok.injEq] at h
    simp only [todoMeaning]
    generalize c.toText = x at h hc
    have e : line = t!"exec" ++ ' ' :: (t!"git" ++ ' ' :: (t!"branchless" ++ ' ' ::
        (t!"hook-detect-empty-commit" ++ ' ' :: x))) := h.symm
    refine ⟨?_, .inr ⟨_, by rw [e]; simp, rfl, ?_, rfl⟩⟩
    · rw [e]; simp [hc.2]
    · rw [e, splitChar_append_sep (by decide), splitChar_append_sep (by decide),
        splitChar_append_sep (by decide), splitChar_append_sep (by decide), splitChar_of_not_mem hc.1]
      rfl
  | skipUpstreamAppliedCommit c =>
    have hc := toText_chars c
    simp only [RebaseCommand.toRebaseCommand, Except.ok.injEq] at h
    simp only [todoMeaning]
    generalize c.toText = x at h hc
    have e : line = t!"exec" ++ ' ' :: (t!"git" ++ ' ' :: (t!"branchless" ++ ' ' ::
        (t!"hook-skip-upstream-applied-commit" ++ ' ' :: x))) := h.symm
    refine ⟨?_, .inr ⟨_, by rw [e]; simp, rfl, ?_, rfl⟩⟩
    · rw [e]; simp [hc.2]
    · rw [e, splitChar_append_sep (by decide), splitChar_append_sep (by decide),
        splitChar_append_sep (by decide), splitChar_append_sep (by decide), splitChar_of_not_mem hc.1]
      rfl

/-- The lines of a list of commands. -/
theorem readLines_commands (cs : List RebaseCommand) {labels : List Text}
    (hn : ∀ l ∈ labels, LabelName l) (hw : ∀ c ∈ cs, Writable c)
    (hu : ∀ pre c post, cs = pre ++ c :: post → ∀ l ∈ labelsUsed c, l ∈ labels ++ labelsCreated pre)
    {lines : List Text} (h : cs.mapM RebaseCommand.toRebaseCommand = .ok lines) :
    (∀ l ∈ lines, '\n' ∉ l) ∧ readLines labels lines = some (cs.filterMap todoMeaning) := by
  induction cs generalizing labels lines with
  | nil => 
    have : lines = [] := by
      simp only [List.mapM_nil] at h
      exact (Except.ok.inj h).symm
    subst this
    exact ⟨by simp, rfl⟩
  | cons c cs ih =>
    rw [List.mapM_cons] at h
    cases h1 : c.toRebaseCommand with
    | error e => rw [h1] at h; cases h
    | ok line =>
      cases h2 : cs.mapM RebaseCommand.toRebaseCommand with
      | error e => rw [h1, h2] at h; cases h
      | ok rest =>
        rw [h1, h2] at h
        have h : line :: rest = lines := Except.ok.inj h
        subst h
        have hc : ∀ l ∈ labelsUsed c, l ∈ labels := by
          intro l hl
          simpa [labelsCreated] using hu [] c cs rfl l hl
        obtain ⟨hnl, hi⟩ := readItem_toRebaseCommand hn (hw c (by simp)) hc h1
        have hn' : ∀ l ∈ labels ++ (labelCreated c).toList, LabelName l := by
          intro l hl
          rcases List.mem_append.1 hl with hl | hl
          · exact hn l hl
          · have := hw c (by simp)
            cases c <;> simp [labelCreated] at hl
            subst hl
            exact this
        have hrec := ih (labels := labels ++ (labelCreated c).toList) hn'
          (fun x hx => hw x (by simp [hx])) (fun pre x post e l hl => by
            have := hu (c :: pre) x post (by rw [e]; rfl) l hl
            simp only [labelsCreated, List.filterMap_cons] at this ⊢
            cases hlc : labelCreated c <;> rw [hlc] at this <;> simpa using this) h2
        refine ⟨fun l hl => ?_, ?_⟩
        · rcases List.mem_cons.1 hl with rfl | hl
          · exact hnl
          · exact hrec.1 l hl
        · rw [List.filterMap_cons, readLines]
          rcases hi with ⟨e1, e2⟩ | ⟨item, e1, e2, e3, e4⟩
          · rw [if_pos e1, e2]
            have : labelCreated c = none := by
              cases c <;> first | rfl | simp [todoMeaning] at e2
            rw [this] at hrec
            simpa using hrec.2
          · rw [if_neg e1, e2, e3]
            simp only
            rw [e4, hrec.2]
            rfl

theorem commandsFor_writable {b : RebasePlanBuilder} {k : Constraints} {up : List Nat} {cur : Oid}
    {s : BuildState} {cs : List RebaseCommand} (h : commandsFor b k up cur s = some cs)
    (hr : ∀ c r ps, .replace c r ps ∉ cs) : ∀ c ∈ cs, Writable c := by
  unfold commandsFor at h
  split at h
  · cases h; simp [Writable]
  · split at h
    · rename_i hlen
      split at h
      · cases h
      · rename_i ps hps
        split at h
        · cases h
        · split at h
          · cases h
          · rename_i first rest
            split at h
            · cases h
              intro c hc
              simp only [List.mem_cons, List.not_mem_nil, or_false] at hc
              rcases hc with rfl | rfl
              · trivial
              · intro hrest
                subst hrest
                have := (mapM_some hps).2
                simp only [List.length_singleton] at this
                omega
            · cases h
              rename_i r _
              exact absurd (by simp) (hr cur r (first :: rest))
    · split at h
      · cases h; simp
      · split at h
        · cases h
          exact absurd (List.mem_singleton.2 rfl) (hr cur _ _)
        · cases h; simp [Writable]

/-- C55: the file which `git rebase` is given contains, one after the other and as git reads them, the
commands of the plan; the names in it mean the commits and labels of the plan. (Plans with replaced
commits are not covered: what is written for them does not replace anything, see
`replaced_not_applied`.) -/
theorem todo_list_means_plan (b : RebasePlanBuilder) (plan : RebasePlan)
    (hb : b.build = .ok (.ok (some plan))) (hr : ∀ c r ps, .replace c r ps ∉ plan.commands)
    (disk : OnDiskEnv) (w w' : RepoWorld)
    (h : writeRebaseStateToDisk disk plan w = (w', .ok (.ok ()))) :
    ∃ text, w'.rebaseDir = some (some text) ∧
      readTodo text = some (plan.commands.filterMap todoMeaning) := by
  unfold writeRebaseStateToDisk at h
  split at h
  · simp at h
  · split at h
    · simp at h
    · simp only at h
      split at h
      · simp at h
      · split at h
        · simp at h
        · rename_i lines hl
          simp only [Prod.mk.injEq, and_true] at h
          subst h
          refine ⟨_, rfl, ?_⟩
          have hw : ∀ c ∈ plan.commands, Writable c := by
            obtain ⟨k, st, hk, _, _, h4, _, h6⟩ := build_ok hb
            have hQ := plan_commands_labels (kwf_constraintGraph hk)
              (Q := fun c => (∀ c' r ps, c ≠ .replace c' r ps) → Writable c)
              (fun up cur s cs _ _ hcs c hc hne => by
                by_cases hrep : ∃ c' r ps, .replace c' r ps ∈ cs
                · rcases commandsFor_cases hcs with ⟨rfl, _⟩ | ⟨rfl, _⟩ | ⟨_, rfl⟩ | ⟨r, _, _, _, rfl⟩ |
                    ⟨r, first, rest, _, _, _, rfl⟩ | ⟨first, rest, rfl⟩
                  all_goals simp only [List.mem_cons, List.not_mem_nil, or_false] at hc
                  all_goals first
                    | exact (hne _ _ _ hc).elim
                    | (rcases hc with rfl | rfl
                       · trivial
                       · first | trivial | exact (hne _ _ _ rfl).elim | simp at hrep)
                    | (subst hc; trivial)
                · exact commandsFor_writable hcs (fun c' r ps hm => hrep ⟨c', r, ps, hm⟩) c hc)
              (fun l hl _ => hl) (fun _ _ => trivial) (fun _ _ _ _ _ _ _ => trivial) h4
            intro c hc
            have hne : ∀ c' r ps, c ≠ .replace c' r ps := by
              rintro c' r ps rfl
              exact hr _ _ _ hc
            rw [h6] at hc
            rcases List.mem_append.1 hc with hc | hc
            · exact hQ c hc hne
            · simp only [List.mem_singleton] at hc
              subst hc
              trivial
          obtain ⟨h1, h2⟩ := readLines_commands plan.commands (labels := []) (by simp) hw
            (fun pre c post e l hl => by
              have := labels_defined b plan hb pre post c e l hl
              exact List.mem_filterMap.2 ⟨_, this, rfl⟩) hl
          unfold readTodo
          rw [splitTerminated_lines lines h1, h2]

/-- Non-vacuity: a merge commit and its two parents are moved. -/
example :
    let b := exBuilder [(oidN 6, [oidN 0]), (oidN 4, [oidN 2, oidN 3]), (oidN 3, [oidN 1]),
      (oidN 2, [oidN 1]), (oidN 1, [oidN 0]), (oidN 0, [])] [.moveSubtree [oidN 6] (oidN 1)]
    ∃ plan w, b.build = .ok (.ok (some plan)) ∧
      writeRebaseStateToDisk (exDisk false) plan (exWorld [] (.detached (oidN 4))) = (w, .ok (.ok ())) ∧
      .merge (oidN 4) [.label t!"parent-10"] ∈ plan.commands := by
  refine ⟨⟨oidN 6, [.reset (.oid (oidN 6)), .pick (oidN 1) [oidN 1], .detectEmptyCommit (oidN 1),
    .createLabel t!"label-3", .pick (oidN 2) [oidN 2], .detectEmptyCommit (oidN 2),
    .createLabel t!"parent-6", .reset (.label t!"label-3"), .pick (oidN 3) [oidN 3],
    .detectEmptyCommit (oidN 3), .createLabel t!"parent-10", .reset (.label t!"parent-6"),
    .merge (oidN 4) [.label t!"parent-10"], .reset (.label t!"label-3"),
    .registerExtraPostRewriteHook]⟩, _, ?_, rfl, ?_⟩
  · decide +kernel
  · decide

/-- Commits which are replaced are lost in an on-disk rebase: `1` is to be replaced by `4` and moved onto
`3`. Nothing in the todo list ever moves `HEAD` away from `3`; `git commit-tree` creates an object and
prints its name, which nobody reads. (The comment at plan.rs:167-170 says that it is untested, and that
no command makes such a plan.) -/
theorem replaced_not_applied :
    let b := { exBuilder [(oidN 4, [oidN 0]), (oidN 3, [oidN 0]), (oidN 1, [oidN 0]), (oidN 0, [])]
      [.moveSubtree [oidN 3] (oidN 1)] with replacementCommits := [(oidN 1, oidN 4)] }
    ∃ plan w text items, b.build = .ok (.ok (some plan)) ∧
      writeRebaseStateToDisk (exDisk false) plan (exWorld [] (.detached (oidN 1))) = (w, .ok (.ok ())) ∧
      w.rebaseDir = some (some text) ∧ readTodo text = some items ∧
      handledCommits plan.commands = [oidN 1] ∧
      ∀ item ∈ items, item = .reset (.oid (oidN 3)) ∨
        (∃ ws, item = .exec (t!"git" :: t!"branchless" :: ws)) ∨
        item = .exec [t!"git", t!"show", t!"-s", t!"--format=%B", (oidN 4).toText, t!"|", t!"git",
          t!"commit-tree", t!"-p", (oidN 0).toText, (oidN 4).toText ++ t!"^{tree}"] := by
  refine ⟨⟨oidN 3, [.reset (.oid (oidN 3)), .replace (oidN 1) (oidN 4) [.oid (oidN 0)],
      .registerExtraPostRewriteHook]⟩, _, _, [.reset (.oid (oidN 3)),
      .exec [t!"git", t!"show", t!"-s", t!"--format=%B", (oidN 4).toText, t!"|", t!"git",
          t!"commit-tree", t!"-p", (oidN 0).toText, (oidN 4).toText ++ t!"^{tree}"],
      .exec [t!"git", t!"branchless", t!"hook-register-extra-post-rewrite-hook"]], ?_, rfl, rfl, ?_, ?_, ?_⟩
  · decide +kernel
  · decide +kernel
  · decide +kernel
  · intro item hi
    simp only [List.mem_cons, List.not_mem_nil, or_false] at hi
    rcases hi with hi | hi | hi
    · exact .inl hi
    · exact .inr (.inr hi)
    · exact .inr (.inl ⟨_, hi⟩)

end Verif.Props
