import Verif.Lemmas.Progress
import Mathlib.Data.List.Induction

/-!
# C100: nothing which is printed is lost, and the time shown is the time spent
-/

namespace Verif.Props

open Verif Verif.Spec

/-! ### the time shown -/

/-- An event, with the functions of `Effects`. -/
def opStep (ts : List OpTree) (e : Nat × OpEvent) : List OpTree :=
  match e with
  | (t, .start k) => startOperation .stdout t k.dropLast (k.getLastD []) ts
  | (t, .stop k) => dropHandle .stdout t k ts

def opRun (es : List (Nat × OpEvent)) : List OpTree := es.foldl opStep []

theorem opRun_snoc (es : List (Nat × OpEvent)) (e : Nat × OpEvent) : opRun (es ++ [e]) = opStep (opRun es) e := by
  simp [opRun]

theorem runTime_snoc (key : List Text) (h : List (Nat × OpEvent)) (e : Nat × OpEvent) (s : List Nat × Nat) :
    runTime key (h ++ [e]) s = stepTime key (runTime key h s) e := by
  simp [runTime]

theorem stop_type (t : Nat) (d : OpData) : ((d.stop t).getD d).opType = d.opType := by
  unfold OpData.stop
  cases removeMax d.starts with
  | none => rfl
  | some p => rfl

theorem stop_time (t : Nat) (d : OpData) :
    (((d.stop t).getD d).starts, ((d.stop t).getD d).elapsed) = stopTime t (d.starts, d.elapsed) := by
  unfold OpData.stop stopTime
  cases removeMax d.starts with
  | none => rfl
  | some p => rfl

theorem stop_none {t : Nat} {d : OpData} : d.stop t = none ↔ d.starts = [] := by
  unfold OpData.stop
  rw [← removeMax_eq_none]
  cases removeMax d.starts with
  | none => simp
  | some p => simp

theorem timeAt_some {key : List Text} {ts : List OpTree} {t : OpTree} (h : getChild key ts = some t) :
    timeAt key ts = (t.data.starts, t.data.elapsed) := by
  simp [timeAt, h]

theorem timeAt_nil (key : List Text) : timeAt key [] = ([], 0) := by
  cases key <;> rfl

theorem stepTime_stop_self (t : Nat) (k : List Text) (key : List Text) (s : List Nat × Nat) :
    stepTime key s (t, .stop k) = if k = key then stopTime t s else s := rfl

theorem opStep_start (t : Nat) (k : List Text) (hne : k ≠ []) (ts : List OpTree) (key : List Text) :
    timeAt key (opStep ts (t, .start k)) = stepTime key (timeAt key ts) (t, .start k) := by
  have hk : k.dropLast ++ [k.getLastD []] = k := by
    rw [List.getLastD_eq_getLast?, List.getLast?_eq_some_getLast hne, Option.getD_some]
    exact List.dropLast_concat_getLast hne
  simp only [opStep, startOperation, hk, stepTime]
  exact timeAt_getOrCreate (f := fun d => { d with starts := d.starts ++ [t] }) (T := fun s => (s.1 ++ [t], s.2))
    (fun _ => rfl) (fun _ => rfl) hne key ts

/-- What a run of the model knows of the times is what the events since the last clearing say. -/
theorem opRun_inv {es h : List (Nat × OpEvent)} (hs : SinceCleared es h) (hk : ∀ e ∈ es, e.2.key ≠ []) :
    TopNodup (opRun es) ∧ ∀ key, timeAt key (opRun es) = runTime key h ([], 0) := by
  induction hs with
  | nil => exact ⟨by simp [TopNodup, opRun], fun key => timeAt_nil key⟩
  | @start es h t k hs ih =>
    obtain ⟨h1, h2⟩ := ih fun e he => hk e (by simp [he])
    have hne : k ≠ [] := hk (t, .start k) (by simp)
    refine ⟨?_, fun key => ?_⟩
    · rw [opRun_snoc]
      exact getOrCreate_nodup (f := fun d => { d with starts := d.starts ++ [t] }) (fun _ => rfl) _ h1
    · rw [opRun_snoc, opStep_start t k hne, runTime_snoc, h2]
  | @unknown es h t k hs h0 ih =>
    obtain ⟨h1, h2⟩ := ih fun e he => hk e (by simp [he])
    have hz : (timeAt k (opRun es)).1 = [] := by
      rw [h2, ← List.length_eq_zero_iff, runTime_running]
      exact h0
    have hst : opStep (opRun es) (t, .stop k) = opRun es := by
      simp only [opStep, dropHandle]
      cases hg : getChild k (opRun es) with
      | none => rfl
      | some u =>
        rw [timeAt_some hg] at hz
        simp [stop_none.2 hz]
    refine ⟨by rw [opRun_snoc, hst]; exact h1, fun key => ?_⟩
    rw [opRun_snoc, hst, runTime_snoc, ← h2, stepTime_stop_self]
    split
    · rename_i hkk
      subst hkk
      simp only [stopTime, removeMax_eq_none.2 hz]
    · rfl
  | @stop es h t k hs h0 hq ih =>
    obtain ⟨h1, h2⟩ := ih fun e he => hk e (by simp [he])
    have hne : k ≠ [] := hk (t, .stop k) (by simp)
    have hn : ∀ key, timeAt key (getOrCreateChild (fun d => (d.stop t).getD d) k (opRun es)) =
        runTime key (h ++ [(t, .stop k)]) ([], 0) := by
      intro key
      rw [timeAt_getOrCreate (stop_type t) (stop_time t) hne, runTime_snoc, stepTime_stop_self, h2]
    have hnd := getOrCreate_nodup (stop_type t) k h1
    have hst : opStep (opRun es) (t, .stop k) =
        clearIfFinished (getOrCreateChild (fun d => (d.stop t).getD d) k (opRun es)) := by
      simp only [opStep, dropHandle]
      have hz : (timeAt k (opRun es)).1 ≠ [] := by
        rw [h2, ← List.length_pos_iff, runTime_running]
        exact Nat.pos_of_ne_zero h0
      cases hg : getChild k (opRun es) with
      | none => simp [timeAt, hg] at hz
      | some u =>
        rw [timeAt_some hg] at hz
        cases hd : u.data.stop t with
        | none => exact absurd (stop_none.1 hd) hz
        | some d => simp [hd]
    have hc : clearIfFinished (getOrCreateChild (fun d => (d.stop t).getD d) k (opRun es)) =
        getOrCreateChild (fun d => (d.stop t).getD d) k (opRun es) := by
      unfold clearIfFinished
      rw [if_neg]
      intro ha
      rw [all_quiet_iff hnd] at ha
      apply hq
      intro k'
      have := ha k'
      rw [hn, ← List.length_eq_zero_iff, runTime_running] at this
      exact this
    rw [opRun_snoc, hst, hc]
    exact ⟨hnd, hn⟩
  | @cleared es h t k hs h0 hq ih =>
    obtain ⟨h1, h2⟩ := ih fun e he => hk e (by simp [he])
    have hne : k ≠ [] := hk (t, .stop k) (by simp)
    have hn : ∀ key, timeAt key (getOrCreateChild (fun d => (d.stop t).getD d) k (opRun es)) =
        runTime key (h ++ [(t, .stop k)]) ([], 0) := by
      intro key
      rw [timeAt_getOrCreate (stop_type t) (stop_time t) hne, runTime_snoc, stepTime_stop_self, h2]
    have hnd := getOrCreate_nodup (stop_type t) k h1
    have hst : opStep (opRun es) (t, .stop k) =
        clearIfFinished (getOrCreateChild (fun d => (d.stop t).getD d) k (opRun es)) := by
      simp only [opStep, dropHandle]
      have hz : (timeAt k (opRun es)).1 ≠ [] := by
        rw [h2, ← List.length_pos_iff, runTime_running]
        exact Nat.pos_of_ne_zero h0
      cases hg : getChild k (opRun es) with
      | none => simp [timeAt, hg] at hz
      | some u =>
        rw [timeAt_some hg] at hz
        cases hd : u.data.stop t with
        | none => exact absurd (stop_none.1 hd) hz
        | some d => simp [hd]
    have hc : clearIfFinished (getOrCreateChild (fun d => (d.stop t).getD d) k (opRun es)) = [] := by
      unfold clearIfFinished
      rw [if_pos]
      rw [all_quiet_iff hnd]
      intro k'
      rw [hn, ← List.length_eq_zero_iff, runTime_running]
      exact hq k'
    rw [opRun_snoc, hst, hc]
    exact ⟨by simp [TopNodup], fun key => timeAt_nil key⟩

/-- There is always such a list of events. -/
theorem sinceCleared_total (es : List (Nat × OpEvent)) : ∃ h, SinceCleared es h := by
  induction es using List.reverseRecOn with
  | nil => exact ⟨_, .nil⟩
  | append_singleton es e ih =>
    obtain ⟨h, ih⟩ := ih
    obtain ⟨t, k | k⟩ := e
    · exact ⟨_, .start ih⟩
    · by_cases h0 : running k h 0 = 0
      · exact ⟨_, .unknown ih h0⟩
      · by_cases hq : AllQuiet (h ++ [(t, .stop k)])
        · exact ⟨_, .cleared ih h0 hq⟩
        · exact ⟨_, .stop ih h0 hq⟩

theorem inOrder_suffix {a b : List (Nat × OpEvent)} {now : Nat} (last : Nat) (h : TimesInOrder (a ++ b) last now) :
    ∃ last', TimesInOrder b last' now := by
  induction a generalizing last with
  | nil => exact ⟨last, h⟩
  | cons e a ih => exact ih e.1 h.2

theorem sinceCleared_suffix {es h : List (Nat × OpEvent)} (hs : SinceCleared es h) : ∃ a, es = a ++ h := by
  induction hs with
  | nil => exact ⟨[], rfl⟩
  | start _ ih => obtain ⟨a, rfl⟩ := ih; exact ⟨a, by simp⟩
  | unknown _ _ ih => obtain ⟨a, rfl⟩ := ih; exact ⟨a, by simp⟩
  | stop _ _ _ ih => obtain ⟨a, rfl⟩ := ih; exact ⟨a, by simp⟩
  | cleared _ _ _ _ => exact ⟨_, (List.append_nil _).symm⟩

theorem busyTime_zero_last (key : List Text) (es : List (Nat × OpEvent)) (a b now : Nat) :
    busyTime key es 0 a now = busyTime key es 0 b now := by
  cases es with
  | nil => rfl
  | cons e es => obtain ⟨t, k | k⟩ := e <;> simp [busyTime]

/-- The time shown for an operation is the wall-clock time during which at least one run of it was going on, since the meters
were cleared last, for all sequences of starts and ends of operations at any places of the hierarchy, which may overlap. -/
theorem shown_time {es h : List (Nat × OpEvent)} (hs : SinceCleared es h) (hk : ∀ e ∈ es, e.2.key ≠ []) {now : Nat}
    (ho : TimesInOrder es 0 now) {key : List Text} {t : OpTree} (ht : getChild key (opRun es) = some t) :
    t.data.shown now = busyTime key h 0 0 now ∧ t.data.starts.length = running key h 0 := by
  obtain ⟨_, h2⟩ := opRun_inv hs hk
  have e := h2 key
  rw [timeAt_some ht] at e
  obtain ⟨a, ha⟩ := sinceCleared_suffix hs
  rw [ha] at ho
  obtain ⟨last, hl⟩ := inOrder_suffix 0 ho
  constructor
  · have := runTime_shown key h ([], 0) last now (by simp) hl
    rw [← e] at this
    have e2 : t.data.shown now = shownOf now (t.data.starts, t.data.elapsed) := rfl
    rw [e2, this]
    simp only [shownOf, List.min?_nil, List.length_nil, Nat.zero_add]
    exact busyTime_zero_last key h last 0 now
  · have := congrArg (fun s : List Nat × Nat => s.1.length) e
    simp only [runTime_running] at this
    exact this

/-- Whatever is running (since the last clearing) has a meter. -/
theorem running_has_meter {es h : List (Nat × OpEvent)} (hs : SinceCleared es h) (hk : ∀ e ∈ es, e.2.key ≠ [])
    {key : List Text} (hr : running key h 0 ≠ 0) : ∃ t, getChild key (opRun es) = some t ∧ t.data.starts ≠ [] := by
  obtain ⟨_, h2⟩ := opRun_inv hs hk
  have e := h2 key
  have hl : (timeAt key (opRun es)).1.length ≠ 0 := by
    rw [e, runTime_running]
    exact hr
  cases hg : getChild key (opRun es) with
  | none => simp [timeAt, hg] at hl
  | some t =>
    rw [timeAt_some hg] at hl
    exact ⟨t, rfl, fun e => hl (by simp [e])⟩

/-- When everything at the top has ended, no meter is left. -/
theorem quiet_no_meters {es h : List (Nat × OpEvent)} {t : Nat} {k : List Text} (hs : SinceCleared es h)
    (hk : ∀ e ∈ es, e.2.key ≠ []) (hne : k ≠ []) (hr : running k h 0 ≠ 0) (hq : AllQuiet (h ++ [(t, .stop k)])) :
    opRun (es ++ [(t, .stop k)]) = [] := by
  obtain ⟨h1, h2⟩ := opRun_inv hs hk
  obtain ⟨u, hu, hst⟩ := running_has_meter hs hk hr
  have hnd := getOrCreate_nodup (stop_type t) k h1
  rw [opRun_snoc]
  simp only [opStep, dropHandle, hu]
  cases hd : u.data.stop t with
  | none => exact absurd (stop_none.1 hd) hst
  | some d =>
    simp only [clearIfFinished]
    rw [if_pos]
    rw [all_quiet_iff hnd]
    intro k'
    rw [timeAt_getOrCreate (stop_type t) (stop_time t) hne, h2, ← stepTime_stop_self, ← runTime_snoc,
      ← List.length_eq_zero_iff, runTime_running]
    exact hq k'

/-! ### the symbol -/

/-- An operation without a message of its own which is running has a spinner or a bar. -/
theorem running_symbol {d : OpData} (hi : d.icon = .inProgress) :
    (d.starts ≠ [] ↔ d.symbol = .spinner ∨ d.symbol = .bar) ∧ (d.starts = [] ↔ d.symbol = .blank) := by
  unfold OpData.symbol
  rw [hi]
  cases d.starts with
  | nil => simp
  | cons a l => cases d.hasMeter <;> simp

theorem get_modify {f : OpData → OpData} (hf : ∀ d, (f d).opType = d.opType) (ks : List Text) {t u : OpTree}
    (h : t.get ks = some u) : ((t.modify f ks).get ks).map OpTree.data = some (f u.data) := by
  induction ks generalizing t with
  | nil =>
    cases t
    simp only [OpTree.get, Option.some.injEq] at h
    subst h
    rfl
  | cons k ks ih =>
    cases t with
    | node d cs =>
      simp only [OpTree.modify, OpTree.get, find_modifyFirst (OpTree.modify_type hf ks), if_true] at h ⊢
      cases hc : cs.find? (·.data.opType = k) with
      | none => simp [hc] at h
      | some c =>
        rw [hc] at h
        simp only [Option.getD_some]
        exact ih h

theorem getChild_getOrCreate {f : OpData → OpData} (hf : ∀ d, (f d).opType = d.opType) (key : List Text)
    {ts : List OpTree} {u : OpTree} (h : getChild key ts = some u) :
    (getChild key (getOrCreateChild f key ts)).map OpTree.data = some (f u.data) := by
  cases key with
  | nil => simp [getChild] at h
  | cons k ks =>
    simp only [getOrCreateChild, getChild, find_modifyFirst (OpTree.modify_type hf ks), if_true] at h ⊢
    cases hc : ts.find? (·.data.opType = k) with
    | none => simp [hc] at h
    | some c =>
      rw [hc] at h
      simp only [Option.getD_some]
      exact get_modify hf ks h

/-- A message and an icon for a known operation are shown, and times are not changed by it, for any operation. -/
theorem message_shown {key : List Text} {ts : List OpTree} {u : OpTree} (h : getChild key ts = some u) (icon : OpIcon)
    (message : Text) :
    (getChild key (setMessage .stdout key icon message ts)).map OpTree.data = some { u.data with icon, message } ∧
      ∀ key', timeAt key' (setMessage .stdout key icon message ts) = timeAt key' ts := by
  simp only [setMessage, h]
  refine ⟨getChild_getOrCreate (f := fun d => { d with icon, message }) (fun _ => rfl) key h, fun key' => ?_⟩
  have hne : key ≠ [] := by
    rintro rfl
    simp [getChild] at h
  rw [timeAt_getOrCreate (f := fun d => { d with icon, message }) (T := fun s => s) (fun _ => rfl) (fun _ => rfl) hne]
  split <;> rfl

/-- For an operation which is not known (any more) nothing happens. -/
theorem message_unknown {key : List Text} {ts : List OpTree} (h : getChild key ts = none) (icon : OpIcon) (message : Text) :
    setMessage .stdout key icon message ts = ts := by
  simp [setMessage, h]

/-- Contrary to the comment of `start_operation`, an operation which has ended with an icon keeps it when it is started again: it
does not look as if it were in progress. -/
theorem restarted_keeps_icon {d : OpData} (hi : d.icon ≠ .inProgress) (now : Nat) :
    ({ d with starts := d.starts ++ [now] } : OpData).symbol = d.symbol ∧
      ({ d with starts := d.starts ++ [now] } : OpData).symbol ≠ .spinner ∧
      ({ d with starts := d.starts ++ [now] } : OpData).symbol ≠ .bar := by
  unfold OpData.symbol
  cases h : d.icon <;> simp_all

/-- A warning looks like a failure. -/
theorem warning_shown_as_failure (d : OpData) :
    ({ d with icon := .warning } : OpData).symbol = ({ d with icon := .failure } : OpData).symbol ∧
      ({ d with icon := .warning } : OpData).symbol ≠ .exclamation := ⟨rfl, by simp [OpData.symbol]⟩

/-! ### output -/

theorem completeLines_join (s : Text) :
    (completeLines s).1.flatMap (fun l => l ++ ['\n']) ++ (completeLines s).2 = s ∧ '\n' ∉ (completeLines s).2 ∧
      ∀ l ∈ (completeLines s).1, '\n' ∉ l := by
  induction s with
  | nil => simp [completeLines]
  | cons c cs ih =>
    obtain ⟨h1, h2, h3⟩ := ih
    simp only [completeLines]
    split
    · rename_i hc
      subst hc
      refine ⟨by simp [h1], h2, ?_⟩
      intro l hl
      rcases List.mem_cons.1 hl with rfl | hl
      · simp
      · exact h3 l hl
    · rename_i hc
      split
      · rename_i he
        rw [he] at h1
        refine ⟨by simpa using h1, ?_, by simp⟩
        simp only [List.mem_cons, not_or]
        exact ⟨fun e => hc e.symm, h2⟩
      · rename_i l ls he
        rw [he] at h1 h3
        refine ⟨by simpa using h1, h2, ?_⟩
        intro x hx
        rcases List.mem_cons.1 hx with rfl | hx
        · simp only [List.mem_cons, not_or]
          exact ⟨fun e => hc e.symm, h3 l (by simp)⟩
        · exact h3 x (by simp [hx])

/-- The text which has arrived, with that of the buffer. -/
def Stream.all (s : Stream) : Text := s.written.flatMap Piece.text ++ s.buffer

theorem flush_all (m : MeterMode) (s : Stream) : Stream.all (s.flush m) = Stream.all s := by
  unfold Stream.flush Stream.all
  split
  · simp
  · split
    · simp
    · split
      · simp
      · simp only [List.flatMap_append, List.append_assoc]
        congr 1
        rw [List.flatMap_map]
        exact (completeLines_join s.buffer).1

/-- Some writes to a stream, while the meters come and go. -/
def writes (s : Stream) (ws : List (MeterMode × Text)) : Stream := ws.foldl (fun s w => s.write .stdout w.1 w.2) s

/-- What is written arrives in the same order and without changes (but for dimming), except for what is still in the
buffer. -/
theorem written_in_order (isErr : Bool) (ws : List (MeterMode × Text)) :
    (writes ⟨isErr, [], []⟩ ws).written.flatMap Piece.text ++ (writes ⟨isErr, [], []⟩ ws).buffer =
      ws.flatMap (·.2) := by
  have key : ∀ s : Stream, Stream.all (writes s ws) = Stream.all s ++ ws.flatMap (·.2) := by
    induction ws with
    | nil => intro s; simp [writes]
    | cons w ws ih =>
      intro s
      have : Stream.all (s.write .stdout w.1 w.2) = Stream.all s ++ w.2 := by
        simp only [Stream.write, flush_all]
        simp [Stream.all]
      simp only [writes, List.foldl_cons] at ih ⊢
      rw [ih, this]
      simp
  have := key ⟨isErr, [], []⟩
  simpa [Stream.all] using this

theorem flush_buffer (m : MeterMode) (s : Stream) : '\n' ∉ (s.flush m).buffer ∧
    (s.buffer = [] → (s.flush m).buffer = []) ∧ (∀ a, s.buffer = a ++ ['\n'] → (s.flush m).buffer = []) := by
  unfold Stream.flush
  split
  · simp
  · split
    · simp
    · split
      · simp
      · obtain ⟨h1, h2, _⟩ := completeLines_join s.buffer
        refine ⟨h2, ?_, ?_⟩
        · intro h
          simp [h, completeLines]
        · intro a ha
          simp only
          cases hc : (completeLines s.buffer).2 using List.reverseRecOn with
          | nil => rfl
          | append_singleton l c _ =>
            rw [hc] at h1 h2
            rw [ha, ← List.append_assoc] at h1
            have := List.append_inj_right' h1 rfl
            simp only [List.cons.injEq, and_true] at this
            exact absurd (by simp [this]) h2

/-- If the last text ends its line, everything has arrived when the stream is dropped, whatever the meters do. -/
theorem whole_lines_arrive_partial (isErr : Bool) (ws : List (MeterMode × Text)) (m m' : MeterMode) (line : Text) :
    ((writes ⟨isErr, [], []⟩ (ws ++ [(m, line ++ ['\n'])])).drop m').written.flatMap Piece.text =
      (ws ++ [(m, line ++ ['\n'])]).flatMap (·.2) := by
  have h := written_in_order isErr (ws ++ [(m, line ++ ['\n'])])
  have hb : (writes ⟨isErr, [], []⟩ (ws ++ [(m, line ++ ['\n'])])).buffer = [] := by
    simp only [writes, List.foldl_append, List.foldl_cons, List.foldl_nil, Stream.write]
    exact (flush_buffer m _).2.2 _ (by simp only; rw [← List.append_assoc])
  rw [hb, List.append_nil] at h
  unfold Stream.drop
  rw [hb]
  exact h

/-- And so it is if no meter is shown when the stream is dropped. -/
theorem no_meters_arrive (isErr : Bool) (ws : List (MeterMode × Text)) (m : MeterMode)
    (hm : m.operations = false ∨ m.attended = false ∨ m.visible = false) :
    ((writes ⟨isErr, [], []⟩ ws).drop m).written.flatMap Piece.text = ws.flatMap (·.2) := by
  have h := written_in_order isErr ws
  unfold Stream.drop
  split
  · rename_i he
    rw [List.isEmpty_iff.1 he, List.append_nil] at h
    exact h
  · have e := flush_all m (writes ⟨isErr, [], []⟩ ws)
    have hb : ((writes ⟨isErr, [], []⟩ ws).flush m).buffer = [] := by
      unfold Stream.flush
      rcases hm with hm | hm | hm <;> (repeat' split) <;> simp_all
    unfold Stream.all at e
    rw [hb, List.append_nil] at e
    rw [e, h]

/-- A text without the end of its line, written while meters are shown, never arrives. -/
theorem unfinished_line_lost (isErr : Bool) (text : Text) (h : '\n' ∉ text) (m : MeterMode)
    (hm : m.operations = true ∧ m.attended = true ∧ m.visible = true) :
    ((writes ⟨isErr, [], []⟩ [(m, text)]).drop m).written = [] := by
  have hc : ∀ t : Text, '\n' ∉ t → completeLines t = ([], t) := by
    intro t ht
    induction t with
    | nil => rfl
    | cons c cs ih =>
      simp only [List.mem_cons, not_or] at ht
      simp [completeLines, ih ht.2, Ne.symm ht.1]
  simp only [writes, List.foldl_cons, List.foldl_nil, Stream.write, Stream.flush, hm, Stream.drop, List.nil_append,
    Bool.not_true, Bool.false_eq_true, if_false, hc text h, List.map_nil]
  split <;> simp [hc text h]

/-- Everything goes to the right stream, unchanged or dimmed, unless meters are shown. -/
theorem right_stream_partial (isErr : Bool) (ws : List (MeterMode × Text))
    (hm : ∀ w ∈ ws, w.1.operations = false ∨ w.1.attended = false ∨ w.1.visible = false) :
    ∀ p ∈ (writes ⟨isErr, [], []⟩ ws).written, p.toStderr = isErr := by
  have key : ∀ s : Stream, s.isStderr = isErr → (∀ p ∈ s.written, p.toStderr = isErr) →
      ∀ p ∈ (writes s ws).written, p.toStderr = isErr := by
    induction ws with
    | nil => intro s _ h; exact h
    | cons w ws ih =>
      intro s h1 h2
      simp only [writes, List.foldl_cons] at ih ⊢
      have hw := hm w (by simp)
      refine ih (fun w hw => hm w (by simp [hw])) _ ?_ ?_
      · simp only [Stream.write, Stream.flush]
        repeat' split
        all_goals exact h1
      · simp only [Stream.write, Stream.flush]
        split
        · intro p hp
          rcases List.mem_append.1 hp with hp | hp
          · exact h2 p hp
          · rw [List.mem_singleton.1 hp]; exact h1
        · split
          · intro p hp
            rcases List.mem_append.1 hp with hp | hp
            · exact h2 p hp
            · rw [List.mem_singleton.1 hp]; exact h1
          · split
            · intro p hp
              rcases List.mem_append.1 hp with hp | hp
              · exact h2 p hp
              · rw [List.mem_singleton.1 hp]; exact h1
            · exfalso
              simp_all
  exact key _ rfl (by simp)

/-- While meters are shown (on stderr, a terminal), lines for stdout go to stderr: if stdout is a file or a pipe, they are not in
it. -/
theorem output_goes_to_stderr (lines : List Text) (h : ∀ l ∈ lines, '\n' ∉ l) (m : MeterMode)
    (hm : m.operations = true ∧ m.attended = true ∧ m.visible = true) :
    (writes ⟨false, [], []⟩ [(m, lines.flatMap fun l => l ++ ['\n'])]).written =
      lines.map fun l => ⟨true, true, l ++ ['\n']⟩ := by
  have hline : ∀ (l : Text) (rest : Text), '\n' ∉ l →
      completeLines (l ++ '\n' :: rest) = (l :: (completeLines rest).1, (completeLines rest).2) := by
    intro l rest hl
    induction l with
    | nil => simp [completeLines]
    | cons c l ih =>
      simp only [List.mem_cons, not_or] at hl
      simp [completeLines, ih hl.2, Ne.symm hl.1]
  have hc : completeLines (lines.flatMap fun l => l ++ ['\n']) = (lines, []) := by
    induction lines with
    | nil => rfl
    | cons l ls ih =>
      have := ih fun x hx => h x (by simp [hx])
      simp only [List.flatMap_cons, List.append_assoc, List.cons_append, List.nil_append]
      rw [hline l _ (h l (by simp)), this]
  simp [writes, Stream.write, Stream.flush, hm, hc]

/-- Nothing is shown if output is suppressed. -/
theorem suppressed (m : MeterMode) (text : Text) (s : Stream) (now : Nat) (key : List Text) (k : Text)
    (ts : List OpTree) : s.write .suppress m text = s ∧ startOperation .suppress now key k ts = ts ∧
      dropHandle .suppress now key ts = ts := ⟨rfl, rfl, rfl⟩

end Verif.Props
