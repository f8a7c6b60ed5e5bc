import Verif.Spec.Init
import Verif.Lemmas.Prettify

/-! C64: installing and uninstalling hooks. -/

namespace Verif.Props

open Verif Verif.Spec

theorem strLines_unlines (ls : List Text) (h : ∀ l ∈ ls, '\n' ∉ l ∧ l.getLast? ≠ some '\r') :
    strLines (unlines ls) = ls := by
  unfold strLines
  simp only [splitChar_unlines ls fun l hl => (h l hl).1, List.dropLast_concat, List.getLast?_append_of_ne_nil,
    ne_eq, not_false_eq_true]
  have : ls.map stripCr = ls := by
    conv => rhs; rw [← List.map_id ls]
    apply List.map_congr_left
    intro l hl
    simp [stripCr, (h l hl).2]
  simp [this]

theorem strLines_of_lines {t : Text} {ls : List Text} (hl : HasLines t ls)
    (h : ∀ l ∈ ls, '\n' ∉ l ∧ l.getLast? ≠ some '\r') : strLines t = ls := by
  rcases hl with rfl | ⟨h1, h2⟩
  · exact strLines_unlines ls h
  · rcases List.eq_nil_or_concat ls with rfl | ⟨init, last, rfl⟩
    · simp [unlines] at h2
    · rw [List.concat_eq_append] at h h1 h2 ⊢
      rw [unlines_append] at h2
      have ht : t = unlines init ++ last := by
        have : unlines [last] = last ++ ['\n'] := by simp [unlines]
        rw [this, ← List.append_assoc] at h2
        exact List.append_cancel_right h2
      have hs : splitChar '\n' t = init ++ [last] := by
        rw [ht]
        have key : ∀ (init : List Text), (∀ l ∈ init, '\n' ∉ l) →
            splitChar '\n' (unlines init ++ last) = init ++ [last] := by
          intro init
          induction init with
          | nil =>
            intro _
            simp only [unlines, List.flatMap_nil, List.nil_append]
            exact splitChar_of_not_mem (h last (by simp)).1
          | cons l ls ih =>
            intro hi
            have : unlines (l :: ls) ++ last = l ++ '\n' :: (unlines ls ++ last) := by simp [unlines]
            rw [this, splitChar_append_sep (hi l (by simp)), ih fun l hl => hi l (by simp [hl])]
            rfl
        exact key init fun l hl => (h l (by simp [hl])).1
      unfold strLines
      simp only [hs, List.dropLast_concat]
      have : init.map stripCr = init := by
        conv => rhs; rw [← List.map_id init]
        apply List.map_congr_left
        intro l hl
        simp [stripCr, (h l (by simp [hl])).2]
      rw [this]
      have h1' : last ≠ [] := by simpa using h1
      simp [h1']

theorem unlines_cons (l : Text) (ls : List Text) : unlines (l :: ls) = l ++ ['\n'] ++ unlines ls := rfl

theorem appendHook_unlines (a : Text) (new : List Text) :
    appendHook a (unlines new) = a ++ unlines (marked new) := by
  unfold appendHook marked
  rw [List.cons_append, unlines_cons, unlines_append]
  simp [unlines]

/-- The lines of the updated hook. -/
def updatedLines (new : List Text) : Bool → List Text → List Text
  | _, [] => []
  | ignoring, l :: ls =>
    if l = markerStart then marked new ++ updatedLines new true ls
    else if l = markerEnd then updatedLines new false ls
    else if ignoring then updatedLines new true ls
    else l :: updatedLines new false ls

theorem foldl_updateLine (new : List Text) (ls : List Text) (acc : Text) (found ignoring : Bool) :
    (ls.foldl (updateLine (unlines new)) ⟨acc, found, ignoring⟩).newLines =
      acc ++ unlines (updatedLines new ignoring ls) ∧
    (ls.foldl (updateLine (unlines new)) ⟨acc, found, ignoring⟩).foundMarker =
      (found || ls.contains markerStart) := by
  induction ls generalizing acc found ignoring with
  | nil => simp [updatedLines, unlines]
  | cons l ls ih =>
    simp only [List.foldl_cons, updateLine, updatedLines]
    by_cases h1 : l = markerStart
    · simp only [h1, if_true, appendHook_unlines]
      rw [(ih _ _ _).1, (ih _ _ _).2, unlines_append]
      simp
    · have h1' := Ne.symm h1
      simp only [h1, if_false]
      by_cases h2 : l = markerEnd
      · simp only [h2, if_true]
        rw [(ih _ _ _).1, (ih _ _ _).2]
        simp [show ¬ markerStart = markerEnd by decide]
      · simp only [h2, if_false]
        cases ignoring
        · simp only [Bool.not_false, if_true, Bool.false_eq_true, if_false]
          rw [(ih _ _ _).1, (ih _ _ _).2, unlines_cons]
          simp [h1']
        · simp only [Bool.not_true, Bool.false_eq_true, if_false, if_true]
          rw [(ih _ _ _).1, (ih _ _ _).2]
          simp [h1']

theorem update_eq (t : Text) (new : List Text) :
    updateBetweenLines t (unlines new) = unlines (updatedLines new false (strLines t) ++
      if markerStart ∈ strLines t then [] else marked new) := by
  unfold updateBetweenLines
  simp only
  obtain ⟨h1, h2⟩ := foldl_updateLine new (strLines t) [] false false
  by_cases hm : markerStart ∈ strLines t
  · rw [if_pos hm]
    have : (List.foldl (updateLine (unlines new)) ⟨[], false, false⟩ (strLines t)).foundMarker = true := by
      rw [h2]; simpa using hm
    rw [this, h1]
    simp
  · rw [if_neg hm]
    have hi : ∀ (ls : List Text) acc found, markerStart ∉ ls →
        (List.foldl (updateLine (unlines new)) ⟨acc, found, false⟩ ls).isIgnoringLines = false := by
      intro ls
      induction ls with
      | nil => intros; rfl
      | cons l ls ih =>
        intro acc found hls
        simp only [List.mem_cons, not_or] at hls
        simp only [List.foldl_cons, updateLine, if_neg (Ne.symm hls.1)]
        split
        · exact ih _ _ hls.2
        · simpa using ih _ _ hls.2
    have : (List.foldl (updateLine (unlines new)) ⟨[], false, false⟩ (strLines t)).foundMarker = false := by
      rw [h2]; simpa using hm
    rw [hi _ _ _ hm, this, h1, unlines_append]
    simp [appendHook_unlines]

theorem updatedLines_plain {new ls rest : List Text} (h : ∀ l ∈ ls, PlainLine l) :
    updatedLines new false (ls ++ rest) = ls ++ updatedLines new false rest ∧
    updatedLines new true (ls ++ rest) = updatedLines new true rest := by
  induction ls with
  | nil => simp
  | cons l ls ih =>
    obtain ⟨-, -, h1, h2⟩ := h l (by simp)
    obtain ⟨h3, h4⟩ := ih fun l hl => h l (by simp [hl])
    simp [updatedLines, h1, h2, h3, h4]

theorem plain_unix {ls : List Text} (h : ∀ l ∈ ls, PlainLine l) :
    ∀ l ∈ ls, '\n' ∉ l ∧ l.getLast? ≠ some '\r' := fun l hl => ⟨(h l hl).1, (h l hl).2.1⟩

theorem marked_unix {ls : List Text} (h : ∀ l ∈ ls, PlainLine l) :
    ∀ l ∈ marked ls, '\n' ∉ l ∧ l.getLast? ≠ some '\r' := by
  intro l hl
  simp only [marked, List.cons_append, List.mem_cons, List.mem_append, List.not_mem_nil, or_false] at hl
  rcases hl with rfl | hl | rfl
  · decide
  · exact plain_unix h l hl
  · decide

/-- C64: updating a hook replaces what is between the marker lines, or adds it at the end. The user's own
lines stay exactly as they are. -/
theorem hook_updated (before after new : List Text) (hb : ∀ l ∈ before, PlainLine l)
    (ha : ∀ l ∈ after, PlainLine l) (t : Text) (ht : HookText before after t) :
    updateBetweenLines t (unlines new) = unlines (before ++ marked new ++ after) := by
  rw [update_eq]
  cases ht with
  | without h hl =>
    subst h
    have hn : markerStart ∉ before := fun h => (hb _ h).2.2.1 rfl
    rw [strLines_of_lines hl (plain_unix hb), if_neg hn]
    have := (updatedLines_plain (new := new) (rest := []) hb).1
    simp only [List.append_nil, updatedLines] at this
    rw [this, List.append_nil]
  | «with» old ho hl =>
    rw [strLines_of_lines hl]
    · rw [if_pos (by simp [marked]), List.append_nil, List.append_assoc]
      rw [(updatedLines_plain hb).1]
      have h2 : updatedLines new false (marked old ++ after) = marked new ++ after := by
        unfold marked
        simp only [List.cons_append, List.append_assoc, updatedLines, if_true]
        rw [(updatedLines_plain ho).2]
        simp only [List.nil_append, updatedLines, show ¬ markerEnd = markerStart by decide, if_false, if_true]
        have := (updatedLines_plain (new := new) (rest := []) ha).1
        simp only [List.append_nil, updatedLines] at this
        rw [this]
        simp [marked]
      rw [h2, List.append_assoc]
    · intro l hl
      rw [List.mem_append, List.mem_append] at hl
      rcases hl with (hl | hl) | hl
      · exact plain_unix hb l hl
      · exact marked_unix ho l hl
      · exact plain_unix ha l hl

theorem outside_plain {ls rest : List Text} (h : ∀ l ∈ ls, PlainLine l) :
    outside true (ls ++ rest) = outside true rest := by
  induction ls with
  | nil => rfl
  | cons l ls ih =>
    obtain ⟨-, -, h1, h2⟩ := h l (by simp)
    simp [outside, h1, h2, ih fun l hl => h l (by simp [hl])]

theorem outside_marked {new : List Text} (h : ∀ l ∈ new, PlainLine l) (b : Bool) (rest : List Text) :
    outside b (marked new ++ rest) = outside false rest := by
  unfold marked
  simp only [List.cons_append, List.append_assoc, outside, if_true]
  rw [outside_plain h]
  simp [outside, show ¬ markerEnd = markerStart by decide]

theorem outside_updated {new : List Text} (h : ∀ l ∈ new, PlainLine l) (b : Bool) (ls rest : List Text) :
    outside false (updatedLines new b ls ++ rest) = outside b ls ++ outside false rest := by
  induction ls generalizing b with
  | nil => simp [updatedLines, outside]
  | cons l ls ih =>
    simp only [updatedLines, outside]
    by_cases h1 : l = markerStart
    · simp only [h1, if_true, List.append_assoc]
      rw [outside_marked h, ih]
    · by_cases h2 : l = markerEnd
      · simp [h2, show ¬ markerEnd = markerStart by decide, ih]
      · cases b <;> simp [h1, h2, outside, ih]

theorem sections_marked {new : List Text} (h : ∀ l ∈ new, PlainLine l) : sections (marked new) = 1 := by
  unfold sections marked
  have : new.count markerStart = 0 := List.count_eq_zero.2 fun h' => (h _ h').2.2.1 rfl
  simp [List.count_append, this, List.count_cons, show (markerEnd == markerStart) = false by decide]

theorem sections_updated {new : List Text} (h : ∀ l ∈ new, PlainLine l) (b : Bool) (ls : List Text) :
    sections (updatedLines new b ls) = sections ls := by
  have hm := sections_marked h
  unfold sections at hm ⊢
  induction ls generalizing b with
  | nil => rfl
  | cons l ls ih =>
    simp only [updatedLines]
    by_cases h1 : l = markerStart
    · simp [h1, List.count_append, hm, ih, Nat.add_comm]
    · have h1' : (l == markerStart) = false := by simpa using h1
      by_cases h2 : l = markerEnd
      · simp [h2, show ¬ markerEnd = markerStart by decide, ih, List.count_cons,
          show (markerEnd == markerStart) = false by decide]
      · cases b <;> simp [h1, h2, ih, List.count_cons]

/-- C64, for any hook: the lines outside of sections stay as they are, in their order, and there are as many
sections as before, or one if there was none. (Nothing is said about the rest of a section without end
marker, see `unterminated_section_lost`.) -/
theorem own_lines_kept (t : Text) (new : List Text) (hn : ∀ l ∈ new, PlainLine l)
    (ht : ∀ l ∈ strLines t, '\n' ∉ l ∧ l.getLast? ≠ some '\r') :
    outside false (strLines (updateBetweenLines t (unlines new))) = outside false (strLines t) ∧
    sections (strLines (updateBetweenLines t (unlines new))) = max 1 (sections (strLines t)) := by
  have hup : ∀ (ls : List Text) b, (∀ l ∈ ls, '\n' ∉ l ∧ l.getLast? ≠ some '\r') →
      ∀ l ∈ updatedLines new b ls, '\n' ∉ l ∧ l.getLast? ≠ some '\r' := by
    intro ls
    induction ls with
    | nil => intro b _ l hl; simp [updatedLines] at hl
    | cons x ls ih =>
      intro b hx l hl
      have hx' : ∀ l ∈ ls, '\n' ∉ l ∧ l.getLast? ≠ some '\r' := fun l hl => hx l (by simp [hl])
      simp only [updatedLines] at hl
      split at hl
      · rw [List.mem_append] at hl
        exact hl.elim (marked_unix hn l) (ih _ hx' l)
      · split at hl
        · exact ih _ hx' l hl
        · split at hl
          · exact ih _ hx' l hl
          · rcases List.mem_cons.1 hl with rfl | hl
            · exact hx _ (by simp)
            · exact ih _ hx' l hl
  rw [update_eq, strLines_unlines]
  · rw [outside_updated hn]
    constructor
    · split
      · simp [outside]
      · have := outside_marked hn false []
        simp only [List.append_nil, outside] at this
        rw [this, List.append_nil]
    · have h1 := sections_updated hn false (strLines t)
      have h2 := sections_marked hn
      unfold sections at h1 h2 ⊢
      rw [List.count_append, h1]
      by_cases hm : markerStart ∈ strLines t
      · have := List.count_pos_iff.2 hm
        rw [if_pos hm]
        simp only [List.count_nil, Nat.add_zero]
        omega
      · rw [if_neg hm, h2, List.count_eq_zero.2 hm]
        rfl
  · intro l hl
    rw [List.mem_append] at hl
    rcases hl with hl | hl
    · exact hup _ _ ht l hl
    · split at hl
      · simp at hl
      · exact marked_unix hn l hl

/-! ### the files -/

/-- What `init` and `init --uninstall` put between the marker lines. -/
def scriptOf (install : Bool) (hook : Text × Text) : Text := if install then hook.2 else uninstalledScript

theorem scriptOf_lines (install : Bool) (hook : Text × Text) (h : hook ∈ allHooks) :
    ∃ script, scriptOf install hook = unlines script ∧ ∀ l ∈ script, PlainLine l := by
  have key : ∀ x ∈ uninstalledScript :: allHooks.map Prod.snd,
      x = unlines (strLines x) ∧ ∀ l ∈ strLines x, PlainLine l := by
    unfold PlainLine
    decide +kernel
  refine ⟨strLines (scriptOf install hook), ?_⟩
  apply key
  cases install
  · exact List.mem_cons_self
  · exact List.mem_cons_of_mem _ (List.mem_map.2 ⟨_, h, rfl⟩)

/-- `git branchless init` (true) or `git branchless init --uninstall` (false). -/
def initOnce (env : InitEnv) (fs : HookFiles) (install : Bool) : HookFiles × Bool :=
  if install then installHooks env fs else uninstallHooks env fs

theorem initOnce_eq (env : InitEnv) (fs : HookFiles) (install : Bool) :
    initOnce env fs install = installAll env fs (allHooks.map fun h => (h.1, scriptOf install h)) := by
  cases install
  · rfl
  · rfl

/-- A sequence of such commands, which stops at the first one which fails. -/
def initMany (env : InitEnv) : HookFiles → List Bool → HookFiles × Bool
  | fs, [] => (fs, true)
  | fs, op :: ops =>
    match initOnce env fs op with
    | (fs, true) => initMany env fs ops
    | (fs, false) => (fs, false)

/-- The path of a hook. -/
def hookPath (env : InitEnv) (name : Text) : Text := env.hooksDir ++ ['/'] ++ name

theorem hookPath_inj {env : InitEnv} {a b : Text} (h : hookPath env a = hookPath env b) : a = b := by
  unfold hookPath at h
  exact List.append_cancel_left h

/-- The new contents of a hook. -/
def newContents (old : Option HookFile) (script : Text) : Option Text :=
  match old with
  | none => some (shebang ++ ['\n'] ++ markerStart ++ ['\n'] ++ script ++ ['\n'] ++ markerEnd ++ ['\n'])
  | some f => f.contents.map fun t => updateBetweenLines t script

theorem installHook_eq {env : InitEnv} (hm : env.multiHooks = none) (fs : HookFiles) (h : Text × Text) :
    installHook env fs h = (newContents (AMap.get? fs (hookPath env h.1)) h.2).map
      (writeScript env fs (hookPath env h.1)) := by
  unfold installHook determineHookPath updateHookContents newContents
  rw [hm]
  simp only [hookPath]
  cases hg : AMap.get? fs (env.hooksDir ++ ['/'] ++ h.1) with
  | none => rfl
  | some f =>
    obtain ⟨c, m⟩ := f
    cases c <;> rfl

theorem installAll_ok {env : InitEnv} (hm : env.multiHooks = none) (hs : List (Text × Text))
    (hd : (hs.map Prod.fst).Nodup) (fs : HookFiles)
    (hr : ∀ h ∈ hs, (newContents (AMap.get? fs (hookPath env h.1)) h.2).isSome) :
    (installAll env fs hs).2 = true ∧
    (∀ h ∈ hs, AMap.get? (installAll env fs hs).1 (hookPath env h.1) =
      some ⟨newContents (AMap.get? fs (hookPath env h.1)) h.2,
        (((AMap.get? fs (hookPath env h.1)).map HookFile.mode).getD env.newMode) ||| 0o111⟩) ∧
    ∀ p, (∀ h ∈ hs, p ≠ hookPath env h.1) → AMap.get? (installAll env fs hs).1 p = AMap.get? fs p := by
  induction hs generalizing fs with
  | nil => exact ⟨rfl, by simp, fun _ _ => rfl⟩
  | cons x hs ih =>
    simp only [List.map_cons, List.nodup_cons] at hd
    obtain ⟨c, hc⟩ := Option.isSome_iff_exists.1 (hr x (by simp))
    have hne : ∀ h ∈ hs, hookPath env h.1 ≠ hookPath env x.1 := by
      intro h hh he
      exact hd.1 (List.mem_map.2 ⟨h, hh, hookPath_inj he⟩)
    have hget : ∀ p, p ≠ hookPath env x.1 →
        AMap.get? (writeScript env fs (hookPath env x.1) c) p = AMap.get? fs p := by
      intro p hp
      unfold writeScript
      simp only
      rw [AMap.get?_insert, if_neg (Ne.symm hp)]
    have hx : AMap.get? (writeScript env fs (hookPath env x.1) c) (hookPath env x.1) =
        some ⟨some c, (((AMap.get? fs (hookPath env x.1)).map HookFile.mode).getD env.newMode) ||| 0o111⟩ := by
      unfold writeScript
      simp only
      rw [AMap.get?_insert, if_pos rfl]
      cases AMap.get? fs (hookPath env x.1) <;> rfl
    have hi : installAll env fs (x :: hs) = installAll env (writeScript env fs (hookPath env x.1) c) hs := by
      simp only [installAll]
      rw [installHook_eq hm, hc]
      rfl
    obtain ⟨h1, h2, h3⟩ := ih hd.2 (writeScript env fs (hookPath env x.1) c) (by
      intro h hh
      rw [hget _ (hne h hh)]
      exact hr h (by simp [hh]))
    rw [hi]
    refine ⟨h1, ?_, ?_⟩
    · intro h hh
      rcases List.mem_cons.1 hh with rfl | hh
      · rw [h3 _ fun y hy => (hne y hy).symm, hx, hc]
      · rw [h2 h hh, hget _ (hne h hh)]
    · intro p hp
      rw [h3 p fun y hy => hp y (by simp [hy]), hget p (hp x (by simp))]

/-- The hook before: there is none, or it can be updated. -/
def HookBefore (own : List Text × List Text) : Option HookFile → Prop
  | none => own = ([shebang], [])
  | some f => ∃ t, f.contents = some t ∧ HookText own.1 own.2 t

/-- C64: however often hooks are installed and uninstalled, the last command counts: the script of the last
one is between the marker lines (and perhaps a blank line after it), all the user's own lines of every hook
stay exactly as they are, and a hook which was not there starts with the shebang line. The hooks can be
executed, their permissions are kept otherwise, and no other file is changed. -/
theorem hooks_after (env : InitEnv) (hm : env.multiHooks = none) (fs : HookFiles)
    (own : Text → List Text × List Text)
    (hplain : ∀ h ∈ allHooks, (∀ l ∈ (own h.1).1, PlainLine l) ∧ ∀ l ∈ (own h.1).2, PlainLine l)
    (hbefore : ∀ h ∈ allHooks, HookBefore (own h.1) (AMap.get? fs (env.hooksDir ++ ['/'] ++ h.1)))
    (ops : List Bool) (last : Bool) :
    let r := initMany env fs (ops ++ [last])
    r.2 = true ∧
    (∀ h ∈ allHooks, ∃ script blank, (if last then h.2 else uninstalledScript) = unlines script ∧
      (blank = [] ∨ blank = [[]]) ∧
      AMap.get? r.1 (env.hooksDir ++ ['/'] ++ h.1) =
        some ⟨some (unlines ((own h.1).1 ++ marked (script ++ blank) ++ (own h.1).2)),
          (((AMap.get? fs (env.hooksDir ++ ['/'] ++ h.1)).map HookFile.mode).getD env.newMode) ||| 0o111⟩) ∧
    ∀ p, (∀ h ∈ allHooks, p ≠ env.hooksDir ++ ['/'] ++ h.1) → AMap.get? r.1 p = AMap.get? fs p := by
  intro r
  have hnd : ∀ op, ((allHooks.map fun h => (h.1, scriptOf op h)).map Prod.fst).Nodup := by
    intro op
    rw [List.map_map]
    exact (by decide +kernel : (allHooks.map Prod.fst).Nodup)
  have hblank : PlainLine [] := by unfold PlainLine; decide
  -- one command
  have one : ∀ (fs : HookFiles) (op : Bool),
      (∀ h ∈ allHooks, HookBefore (own h.1) (AMap.get? fs (hookPath env h.1))) →
      (initOnce env fs op).2 = true ∧
      (∀ h ∈ allHooks, ∃ script blank, scriptOf op h = unlines script ∧ (∀ l ∈ script ++ blank, PlainLine l) ∧
        (blank = [] ∨ blank = [[]]) ∧
        AMap.get? (initOnce env fs op).1 (hookPath env h.1) =
          some ⟨some (unlines ((own h.1).1 ++ marked (script ++ blank) ++ (own h.1).2)),
            (((AMap.get? fs (hookPath env h.1)).map HookFile.mode).getD env.newMode) ||| 0o111⟩) ∧
      ∀ p, (∀ h ∈ allHooks, p ≠ hookPath env h.1) → AMap.get? (initOnce env fs op).1 p = AMap.get? fs p := by
    intro fs op hb
    have hcont : ∀ h ∈ allHooks, ∃ script blank, scriptOf op h = unlines script ∧
        (∀ l ∈ script ++ blank, PlainLine l) ∧ (blank = [] ∨ blank = [[]]) ∧
        newContents (AMap.get? fs (hookPath env h.1)) (scriptOf op h) =
          some (unlines ((own h.1).1 ++ marked (script ++ blank) ++ (own h.1).2)) := by
      intro h hh
      obtain ⟨script, hs, hsp⟩ := scriptOf_lines op h hh
      have := hb h hh
      cases hg : AMap.get? fs (hookPath env h.1) with
      | none =>
        rw [hg] at this
        refine ⟨script, [[]], hs, ?_, .inr rfl, ?_⟩
        · intro l hl
          rcases List.mem_append.1 hl with hl | hl
          · exact hsp l hl
          · rw [List.mem_singleton] at hl; subst hl; exact hblank
        · rw [show own h.1 = ([shebang], []) from this, hs]
          simp [newContents, marked, unlines]
      | some f =>
        rw [hg] at this
        obtain ⟨t, ht, htext⟩ := this
        refine ⟨script, [], hs, by simpa using hsp, .inl rfl, ?_⟩
        simp only [newContents, ht, Option.map_some, hs, List.append_nil]
        rw [hook_updated _ _ script (hplain h hh).1 (hplain h hh).2 t htext]
    obtain ⟨h1, h2, h3⟩ := installAll_ok hm (allHooks.map fun h => (h.1, scriptOf op h)) (hnd op) fs (by
      intro h hh
      obtain ⟨h', hh', rfl⟩ := List.mem_map.1 hh
      obtain ⟨_, _, _, _, _, he⟩ := hcont h' hh'
      rw [he]; rfl)
    rw [initOnce_eq]
    refine ⟨h1, ?_, ?_⟩
    · intro h hh
      obtain ⟨script, blank, e1, e2, e3, e4⟩ := hcont h hh
      refine ⟨script, blank, e1, e2, e3, ?_⟩
      rw [h2 (h.1, scriptOf op h) (List.mem_map.2 ⟨h, hh, rfl⟩), e4]
    · intro p hp
      apply h3
      intro h hh
      obtain ⟨h', hh', rfl⟩ := List.mem_map.1 hh
      exact hp h' hh'
  have many : ∀ (ops : List Bool) (fs : HookFiles),
      (∀ h ∈ allHooks, HookBefore (own h.1) (AMap.get? fs (hookPath env h.1))) →
      (initMany env fs (ops ++ [last])).2 = true ∧
      (∀ h ∈ allHooks, ∃ script blank, scriptOf last h = unlines script ∧ (blank = [] ∨ blank = [[]]) ∧
        AMap.get? (initMany env fs (ops ++ [last])).1 (hookPath env h.1) =
          some ⟨some (unlines ((own h.1).1 ++ marked (script ++ blank) ++ (own h.1).2)),
            (((AMap.get? fs (hookPath env h.1)).map HookFile.mode).getD env.newMode) ||| 0o111⟩) ∧
      ∀ p, (∀ h ∈ allHooks, p ≠ hookPath env h.1) →
        AMap.get? (initMany env fs (ops ++ [last])).1 p = AMap.get? fs p := by
    intro ops
    induction ops with
    | nil =>
      intro fs hb
      obtain ⟨h1, h2, h3⟩ := one fs last hb
      have he : initMany env fs ([] ++ [last]) = ((initOnce env fs last).1, true) := by
        simp only [List.nil_append, initMany]
        rw [show initOnce env fs last = ((initOnce env fs last).1, true) from Prod.ext rfl h1]
      rw [he]
      refine ⟨rfl, fun h hh => ?_, h3⟩
      obtain ⟨script, blank, e1, -, e3, e4⟩ := h2 h hh
      exact ⟨script, blank, e1, e3, e4⟩
    | cons op ops ih =>
      intro fs hb
      obtain ⟨h1, h2, h3⟩ := one fs op hb
      have he : initMany env fs (op :: ops ++ [last]) = initMany env (initOnce env fs op).1 (ops ++ [last]) := by
        simp only [List.cons_append, initMany]
        rw [show initOnce env fs op = ((initOnce env fs op).1, true) from Prod.ext rfl h1]
      rw [he]
      obtain ⟨k1, k2, k3⟩ := ih (initOnce env fs op).1 (by
        intro h hh
        obtain ⟨script, blank, e1, e2, e3, e4⟩ := h2 h hh
        rw [e4]
        exact ⟨_, rfl, .with _ e2 (.inl rfl)⟩)
      refine ⟨k1, fun h hh => ?_, fun p hp => (k3 p hp).trans (h3 p hp)⟩
      obtain ⟨script, blank, e1, e3, e4⟩ := k2 h hh
      refine ⟨script, blank, e1, e3, ?_⟩
      obtain ⟨_, _, _, _, _, e5⟩ := h2 h hh
      rw [e4, e5]
      simp [Nat.or_assoc]
  exact many ops fs hbefore

/-- C64: an uninstalled hook does nothing of its own: only comments and blank lines are between the marker
lines. -/
theorem uninstalled_comments : ∃ script, uninstalledScript = unlines script ∧ ∀ l ∈ script, Comment l := by
  refine ⟨strLines uninstalledScript, by decide +kernel, ?_⟩
  unfold Comment
  decide +kernel

/-- C64: if a hook cannot be read, the command fails, and the hooks after it are not changed. -/
theorem unreadable_hook (env : InitEnv) (hm : env.multiHooks = none) (fs : HookFiles) (pre post : List (Text × Text))
    (h : Text × Text) (hs : pre ++ h :: post = allHooks)
    (hr : ∀ x ∈ pre, ∀ f, AMap.get? fs (env.hooksDir ++ ['/'] ++ x.1) = some f → f.contents.isSome)
    (m : Nat) (hu : AMap.get? fs (env.hooksDir ++ ['/'] ++ h.1) = some ⟨none, m⟩) :
    (installHooks env fs).2 = false ∧
    ∀ x ∈ h :: post, AMap.get? (installHooks env fs).1 (env.hooksDir ++ ['/'] ++ x.1) =
      AMap.get? fs (env.hooksDir ++ ['/'] ++ x.1) := by
  have hnd : (allHooks.map Prod.fst).Nodup := by decide +kernel
  rw [← hs, List.map_append, List.nodup_append] at hnd
  obtain ⟨hn1, hn2, hn3⟩ := hnd
  obtain ⟨h1, h2, h3⟩ := installAll_ok hm pre hn1 fs (by
    intro x hx
    unfold newContents hookPath
    cases hg : AMap.get? fs (env.hooksDir ++ ['/'] ++ x.1) with
    | none => rfl
    | some f => simpa using hr x hx f hg)
  have happ : ∀ (pre post : List (Text × Text)) (fs : HookFiles), (installAll env fs pre).2 = true →
      installAll env fs (pre ++ post) = installAll env (installAll env fs pre).1 post := by
    intro pre
    induction pre with
    | nil => intros; rfl
    | cons x pre ih =>
      intro post fs h
      simp only [List.cons_append, installAll] at h ⊢
      cases hi : installHook env fs x with
      | none => rw [hi] at h; simp at h
      | some fs' => rw [hi] at h; exact ih post fs' h
  have hkeep : ∀ x ∈ h :: post, AMap.get? (installAll env fs pre).1 (hookPath env x.1) =
      AMap.get? fs (hookPath env x.1) := by
    intro x hx
    apply h3
    intro y hy he
    exact hn3 y.1 (List.mem_map.2 ⟨y, hy, rfl⟩) x.1 (List.mem_map.2 ⟨x, hx, rfl⟩) (hookPath_inj he).symm
  have hfin : installHooks env fs = ((installAll env fs pre).1, false) := by
    unfold installHooks
    rw [← hs, happ pre _ fs h1]
    simp only [installAll]
    rw [installHook_eq hm, hkeep h (by simp), show AMap.get? fs (hookPath env h.1) = some ⟨none, m⟩ from hu]
    rfl
  rw [hfin]
  exact ⟨rfl, hkeep⟩

/-- C64: every hook runs the program once, for itself and with all of its arguments; it does nothing else
but to write messages. -/
theorem hooks_call (h : Text × Text) (hh : h ∈ allHooks) :
    ((strLines h.2).filter fun l => t!"git " <+: l).length = 1 ∧
    ∀ l ∈ strLines h.2, Comment l ∨ callOf h.1 <+: l ∨ t!"echo " <+: l ∨ l = t!")" := by
  have key : ∀ h ∈ allHooks, ((strLines h.2).filter fun l => t!"git " <+: l).length = 1 ∧
      ∀ l ∈ strLines h.2, (l = [] ∨ l.head? = some '#') ∨ callOf h.1 <+: l ∨ t!"echo " <+: l ∨ l = t!")" := by
    decide +kernel
  exact key h hh

theorem installAll_multi {env : InitEnv} {dir : Text} (hm : env.multiHooks = some dir) (hs : List (Text × Text))
    (hd : (hs.map Prod.fst).Nodup) (fs : HookFiles) :
    (installAll env fs hs).2 = true ∧
    (∀ h ∈ hs, AMap.get? (installAll env fs hs).1 (dir ++ ['/'] ++ h.1 ++ t!".d/00_local_branchless") =
      some ⟨some (shebang ++ ['\n'] ++ h.2),
        (((AMap.get? fs (dir ++ ['/'] ++ h.1 ++ t!".d/00_local_branchless")).map HookFile.mode).getD
          env.newMode) ||| 0o111⟩) ∧
    ∀ p, (∀ h ∈ hs, p ≠ dir ++ ['/'] ++ h.1 ++ t!".d/00_local_branchless") →
      AMap.get? (installAll env fs hs).1 p = AMap.get? fs p := by
  induction hs generalizing fs with
  | nil => exact ⟨rfl, by simp, fun _ _ => rfl⟩
  | cons x hs ih =>
    simp only [List.map_cons, List.nodup_cons] at hd
    have hne : ∀ h ∈ hs, dir ++ ['/'] ++ h.1 ++ t!".d/00_local_branchless" ≠
        dir ++ ['/'] ++ x.1 ++ t!".d/00_local_branchless" := by
      intro h hh he
      exact hd.1 (List.mem_map.2 ⟨h, hh, List.append_cancel_left (List.append_cancel_right he)⟩)
    have hi : installAll env fs (x :: hs) = installAll env (writeScript env fs
        (dir ++ ['/'] ++ x.1 ++ t!".d/00_local_branchless") (shebang ++ ['\n'] ++ x.2)) hs := by
      simp only [installAll, installHook, determineHookPath, hm, updateHookContents]
    have hget : ∀ p, AMap.get? (writeScript env fs
        (dir ++ ['/'] ++ x.1 ++ t!".d/00_local_branchless") (shebang ++ ['\n'] ++ x.2)) p =
        if dir ++ ['/'] ++ x.1 ++ t!".d/00_local_branchless" = p then
          some ⟨some (shebang ++ ['\n'] ++ x.2), (((AMap.get? fs
            (dir ++ ['/'] ++ x.1 ++ t!".d/00_local_branchless")).map HookFile.mode).getD env.newMode) ||| 0o111⟩
        else AMap.get? fs p := by
      intro p
      unfold writeScript
      simp only
      rw [AMap.get?_insert]
      cases AMap.get? fs (dir ++ ['/'] ++ x.1 ++ t!".d/00_local_branchless") <;> rfl
    obtain ⟨h1, h2, h3⟩ := ih hd.2 (writeScript env fs
        (dir ++ ['/'] ++ x.1 ++ t!".d/00_local_branchless") (shebang ++ ['\n'] ++ x.2))
    rw [hi]
    refine ⟨h1, ?_, ?_⟩
    · intro h hh
      rcases List.mem_cons.1 hh with rfl | hh
      · rw [h3 _ fun y hy => (hne y hy).symm, hget, if_pos rfl]
      · rw [h2 h hh, hget, if_neg (hne h hh).symm]
    · intro p hp
      rw [h3 p fun y hy => hp y (by simp [hy]), hget, if_neg (hp x (by simp)).symm]

/-- C64, for repositories with a directory `hooks_multi`: each hook has its own file there, which consists of
the shebang line and the script of the last command. Nothing else is changed, so that the user's hooks are
not touched at all. -/
theorem multi_hooks_after (env : InitEnv) (dir : Text) (hm : env.multiHooks = some dir) (fs : HookFiles)
    (ops : List Bool) (last : Bool) :
    let r := initMany env fs (ops ++ [last])
    r.2 = true ∧
    (∀ h ∈ allHooks, AMap.get? r.1 (dir ++ ['/'] ++ h.1 ++ t!".d/00_local_branchless") =
      some ⟨some (shebang ++ ['\n'] ++ if last then h.2 else uninstalledScript),
        (((AMap.get? fs (dir ++ ['/'] ++ h.1 ++ t!".d/00_local_branchless")).map HookFile.mode).getD
          env.newMode) ||| 0o111⟩) ∧
    ∀ p, (∀ h ∈ allHooks, p ≠ dir ++ ['/'] ++ h.1 ++ t!".d/00_local_branchless") →
      AMap.get? r.1 p = AMap.get? fs p := by
  have hnd : ∀ op, ((allHooks.map fun h => (h.1, scriptOf op h)).map Prod.fst).Nodup := by
    intro op
    rw [List.map_map]
    exact (by decide +kernel : (allHooks.map Prod.fst).Nodup)
  have one : ∀ (fs : HookFiles) (op : Bool),
      (initOnce env fs op).2 = true ∧
      (∀ h ∈ allHooks, AMap.get? (initOnce env fs op).1 (dir ++ ['/'] ++ h.1 ++ t!".d/00_local_branchless") =
        some ⟨some (shebang ++ ['\n'] ++ scriptOf op h),
          (((AMap.get? fs (dir ++ ['/'] ++ h.1 ++ t!".d/00_local_branchless")).map HookFile.mode).getD
            env.newMode) ||| 0o111⟩) ∧
      ∀ p, (∀ h ∈ allHooks, p ≠ dir ++ ['/'] ++ h.1 ++ t!".d/00_local_branchless") →
        AMap.get? (initOnce env fs op).1 p = AMap.get? fs p := by
    intro fs op
    obtain ⟨h1, h2, h3⟩ := installAll_multi hm (allHooks.map fun h => (h.1, scriptOf op h)) (hnd op) fs
    rw [initOnce_eq]
    refine ⟨h1, fun h hh => h2 (h.1, scriptOf op h) (List.mem_map.2 ⟨h, hh, rfl⟩), fun p hp => h3 p ?_⟩
    intro h hh
    obtain ⟨h', hh', rfl⟩ := List.mem_map.1 hh
    exact hp h' hh'
  intro r
  change (initMany env fs (ops ++ [last])).2 = true ∧ (∀ h ∈ allHooks, AMap.get? (initMany env fs (ops ++ [last])).1 _
    = some ⟨some (shebang ++ ['\n'] ++ scriptOf last h), _⟩) ∧ ∀ p, _ → AMap.get? (initMany env fs (ops ++ [last])).1 p = _
  clear r
  induction ops generalizing fs with
  | nil =>
    obtain ⟨h1, h2, h3⟩ := one fs last
    have he : initMany env fs ([] ++ [last]) = ((initOnce env fs last).1, true) := by
      simp only [List.nil_append, initMany]
      rw [show initOnce env fs last = ((initOnce env fs last).1, true) from Prod.ext rfl h1]
    rw [he]
    exact ⟨rfl, h2, h3⟩
  | cons op ops ih =>
    obtain ⟨h1, h2, h3⟩ := one fs op
    have he : initMany env fs (op :: ops ++ [last]) = initMany env (initOnce env fs op).1 (ops ++ [last]) := by
      simp only [List.cons_append, initMany]
      rw [show initOnce env fs op = ((initOnce env fs op).1, true) from Prod.ext rfl h1]
    rw [he]
    obtain ⟨k1, k2, k3⟩ := ih (initOnce env fs op).1
    refine ⟨k1, fun h hh => ?_, fun p hp => (k3 p hp).trans (h3 p hp)⟩
    rw [k2 h hh, h2 h hh]
    simp [Nat.or_assoc]

/-! ### examples, and where it goes wrong -/

def exInitEnv : InitEnv := ⟨t!".git/hooks", none, 0o644⟩

/-- Non-vacuity: the user has a hook `post-commit`, installs, installs again and uninstalls. -/
example : let fs : HookFiles := [(t!".git/hooks/post-commit", ⟨some t!"#!/bin/sh\necho hi\n", 0o600⟩)]
    AMap.get? (initMany exInitEnv fs [true, true, false]).1 t!".git/hooks/post-commit" =
      some ⟨some t!"#!/bin/sh\necho hi\n## START BRANCHLESS CONFIG\n\n# This hook has been uninstalled.\n# Run `git branchless init` to reinstall.\n## END BRANCHLESS CONFIG\n",
        0o711⟩ := by
  decide +kernel

/-- Non-vacuity of `multi_hooks_after`: own files, and the hook of the user is not touched. -/
example : let fs : HookFiles := [(t!".git/hooks/post-commit", ⟨some t!"#!/bin/sh\necho hi\n", 0o600⟩)]
    let r := initMany ⟨t!".git/hooks", some t!".git/hooks_multi", 0o644⟩ fs [true, false]
    AMap.get? r.1 t!".git/hooks/post-commit" = AMap.get? fs t!".git/hooks/post-commit" ∧
    AMap.get? r.1 t!".git/hooks_multi/post-commit.d/00_local_branchless" = some ⟨some
      t!"#!/bin/sh\n\n# This hook has been uninstalled.\n# Run `git branchless init` to reinstall.\n", 0o755⟩ := by
  decide +kernel

/-- A hook without newline at its end. -/
example : HookText [t!"#!/bin/sh", t!"echo hi"] [] t!"#!/bin/sh\necho hi" :=
  .without rfl (.inr (by decide))

example : HookBefore ([t!"#!/bin/sh", t!"echo hi"], []) (some ⟨some t!"#!/bin/sh\necho hi\n", 0o600⟩) ∧
    HookBefore ([shebang], []) none ∧ ∀ l ∈ [t!"#!/bin/sh", t!"echo hi"], PlainLine l := by
  refine ⟨⟨_, rfl, .without rfl (.inl rfl)⟩, rfl, ?_⟩
  unfold PlainLine
  decide

/-- Non-vacuity of `own_lines_kept`: two sections, with lines around them. -/
example : outside false (strLines t!"a\n## START BRANCHLESS CONFIG\nx\n## END BRANCHLESS CONFIG\nb\n## START BRANCHLESS CONFIG\n## END BRANCHLESS CONFIG\nc") =
    [t!"a", t!"b", t!"c"] := by decide

/-- C64 fails if the second marker line was removed: all the user's lines after the first one are lost. -/
theorem unterminated_section_lost :
    updateBetweenLines t!"#!/bin/sh\n## START BRANCHLESS CONFIG\ngit branchless hook post-commit\necho mine\n" t!"new\n" =
      t!"#!/bin/sh\n## START BRANCHLESS CONFIG\nnew\n## END BRANCHLESS CONFIG\n" := by
  decide +kernel

/-- A marker line is not recognized with a space after it. Then the old section becomes part of the user's
own lines and there is a second one, so that the hook is run twice. -/
theorem changed_marker_doubles :
    updateBetweenLines t!"## START BRANCHLESS CONFIG \nrun\n## END BRANCHLESS CONFIG\n" t!"run\n" =
      t!"## START BRANCHLESS CONFIG \nrun\n## START BRANCHLESS CONFIG\nrun\n## END BRANCHLESS CONFIG\n" := by
  decide +kernel

/-- The user's own lines do not stay as they are if they have Windows line endings. -/
theorem carriage_returns_lost :
    updateBetweenLines t!"echo a\r\necho b\r\n" t!"new\n" =
      t!"echo a\necho b\n## START BRANCHLESS CONFIG\nnew\n## END BRANCHLESS CONFIG\n" := by
  decide +kernel

/-- Uninstalling creates hooks which were not there. -/
theorem uninstall_creates_hooks :
    (uninstallHooks exInitEnv []).1.length = 7 := by
  decide +kernel

end Verif.Props
