import Verif.Lemmas.RunProcess

/-!
C95: running git and hooks. It does not hang, apart from one exactly described case; all output arrives; the exit
code is that of the program.
-/

namespace Verif.Props

open Verif Verif.Spec

/-! ### hanging -/

theorem noStep_main {σ : Type} {env : RunEnv} {p : Proc σ} {s : RunState σ} (h : ∀ s', ¬ RunStep env p s s') :
    mainStep env s = none := by
  cases hm : mainStep env s with
  | none => rfl
  | some s' => exact absurd (.inr (.inl hm)) (h s')

theorem noStep_proc {σ : Type} {env : RunEnv} {p : Proc σ} {s : RunState σ} (h : ∀ s', ¬ RunStep env p s s') :
    procStep env p s = none := by
  cases hm : procStep env p s with
  | none => rfl
  | some s' => exact absurd (.inl hm) (h s')

theorem noStep_reader {σ : Type} {env : RunEnv} {p : Proc σ} {s : RunState σ} (h : ∀ s', ¬ RunStep env p s s')
    (stream : OutStream) : readerStep env s stream = none := by
  cases hm : readerStep env s stream with
  | none => rfl
  | some s' => exact absurd (.inr (.inr ⟨stream, hm⟩)) (h s')

/-- A process which can do nothing waits for input or writes to a full pipe. -/
theorem procStep_none {σ : Type} {env : RunEnv} {p : Proc σ} {s : RunState σ} {c : σ} (hc : s.proc = some c)
    (he : s.phase.isEnded = false) (h : procStep env p s = none) :
    (s.reads = true ∧ s.input = [] ∧ s.phase.isWriting = true) ∨
      ∃ stream b k, p.act c = .write stream b k ∧ (s.rd stream).mode ≠ .panicked ∧
        env.capacity ≤ (s.rd stream).pipe.length := by
  unfold procStep at h
  rw [hc] at h
  simp only [he, Bool.false_eq_true, if_false] at h
  cases ha : p.act c with
  | read k =>
    rw [ha] at h
    simp only at h
    split at h
    · rename_i hr
      cases hin : s.input with
      | cons b rest => rw [hin] at h; cases h
      | nil =>
        rw [hin] at h
        simp only at h
        split at h
        · rename_i hw
          exact .inl ⟨hr, rfl, hw⟩
        · cases h
    · cases h
  | think c' => rw [ha] at h; cases h
  | closeInput c' => rw [ha] at h; cases h
  | exit st left => rw [ha] at h; cases h
  | write stream b k =>
    rw [ha] at h
    simp only at h
    split at h
    · cases h
    · rename_i hm
      split at h
      · cases h
      · rename_i hcap
        exact .inr ⟨stream, b, k, rfl, hm, Nat.le_of_not_lt hcap⟩

/-- While it is waited for the process, something can be done. -/
theorem waiting_moves {σ : Type} {env : RunEnv} (hcap : 0 < env.capacity) {p : Proc σ} {start : σ} {input : List UInt8}
    {h : ProcHistory} {s : RunState σ} (hi : RunInv env p start input h s) (hw : s.phase = .waiting) :
    ∃ s', RunStep env p s s' := by
  by_contra hno
  have hno' : ∀ s', ¬ RunStep env p s s' := fun s' hs => hno ⟨s', hs⟩
  have hrd := noStep_reader hno'
  have hr : ∀ stream, (s.rd stream).mode = .reading → (s.rd stream).pipe = [] ∧ s.proc ≠ none := by
    intro stream hm
    have := hrd stream
    unfold readerStep at this
    simp only [hw, hm] at this
    cases hp : (s.rd stream).pipe with
    | cons b rest => rw [hp] at this; cases this
    | nil =>
      rw [hp] at this
      simp only at this
      split at this
      · cases this
      · rename_i hn
        refine ⟨rfl, fun h0 => hn ?_⟩
        rw [h0]; rfl
  cases hc : s.proc with
  | none =>
    obtain ⟨st, hst⟩ := Option.ne_none_iff_exists'.1 (hi.gone hc)
    have hm := noStep_main hno'
    unfold mainStep at hm
    rw [hw] at hm
    simp only [hst] at hm
    have hout : (s.rd .out).mode ≠ .reading := fun h0 => (hr _ h0).2 hc
    have herr : (s.rd .err).mode ≠ .reading := fun h0 => (hr _ h0).2 hc
    rw [if_neg (by simp [hout, herr])] at hm
    split at hm <;> cases hm
  | some c =>
    rcases procStep_none hc (by rw [hw]; rfl) (noStep_proc hno') with ⟨-, -, h3⟩ | ⟨stream, b, k, -, h2, h3⟩
    · rw [hw] at h3; cases h3
    · cases hm : (s.rd stream).mode with
      | panicked => exact h2 hm
      | finished =>
        have := ((hi.waiting hw stream).finished hm).1
        rw [hc] at this
        cases this
      | reading =>
        rw [(hr stream hm).1] at h3
        simp at h3
        omega

/-- What is known if it hangs. -/
theorem hang_inv {σ : Type} {env : RunEnv} (hcap : 0 < env.capacity) {p : Proc σ} {start : σ} {input : List UInt8}
    {s : RunState σ} (hr : RunReaches env p start input s) (hs : RunHangs env p s) :
    env.kind ≠ .shown ∧ Clogs p start env.capacity input := by
  obtain ⟨h, hi⟩ := runInv_of_reaches hr
  obtain ⟨hno, hne⟩ := hs
  cases hph : s.phase with
  | ended o => exact absurd hph (hne o)
  | waiting =>
    obtain ⟨s', hs'⟩ := waiting_moves hcap hi hph
    exact absurd hs' (hno s')
  | writing rest =>
    obtain ⟨h1, h2, h3, h4, h5, h6, h7⟩ := hi.writing rest hph
    have hm := noStep_main hno
    unfold mainStep at hm
    rw [hph] at hm
    cases rest with
    | nil => cases hm
    | cons b0 rest =>
      simp only at hm
      split at hm
      · cases hm
      · rename_i hbr
        rw [Bool.or_eq_true, not_or] at hbr
        split at hm
        · cases hm
        · rename_i hfull
          cases hc : s.proc with
          | none => rw [hc] at hbr; simp at hbr
          | some c =>
            have hcl : h.closed = false := by
              have := hbr.2
              rw [hi.reads] at this
              simpa using this
            rcases procStep_none hc (by rw [hph]; rfl) (noStep_proc hno) with ⟨-, g2, -⟩ | ⟨stream, b, k, g1, g2, g3⟩
            · rw [g2] at hfull
              simp at hfull
              omega
            · refine ⟨h1, h, c, stream, b, k, hc ▸ hi.behaves, g1, ⟨s.input ++ (b0 :: rest), by rw [← h2]; simp⟩, ?_, ?_, h6, h3,
                hcl, h4⟩
              · have := congrArg List.length h2
                simp only [List.length_append, List.length_cons] at this
                omega
              · rw [h5 stream] at g3
                exact Nat.le_antisymm (h6 stream) g3

/-- **C95.** Running git with its output shown never hangs. -/
theorem run_never_hangs {σ : Type} {env : RunEnv} (hcap : 0 < env.capacity) (hk : env.kind = .shown) {p : Proc σ}
    {start : σ} {input : List UInt8} {s : RunState σ} (hr : RunReaches env p start input s) : ¬ RunHangs env p s :=
  fun hs => (hang_inv hcap hr hs).1 hk

/-- The states on the way to a full pipe. -/
theorem reaches_behaviour {σ : Type} {env : RunEnv} (hcap : 0 < env.capacity) (hk : env.kind ≠ .shown) {p : Proc σ}
    {start : σ} {input : List UInt8} {h : ProcHistory} {c : Option σ} (hb : Behaves p start h c) :
    h.took <+: input → (∀ stream, (h.wrote stream).length ≤ env.capacity) → h.sawEnd = false → h.closed = false →
      h.broken = false →
      RunReaches env p start input
        { proc := c, status := h.status, input := [], reads := true, phase := .writing (input.drop h.took.length),
          rd := fun stream => { pipe := h.wrote stream } } := by
  induction hb with
  | start =>
    intro _ _ _ _ _
    unfold RunReaches RunState.init
    simp only [hk, if_false, List.length_nil, List.drop_zero]
    exact .refl
  | @read h c k b hb ha ho ih =>
    intro h1 h2 h3 h4 h5
    obtain ⟨rest, hrest⟩ := h1
    simp only at hrest
    have hpre := ih ⟨b :: rest, by rw [← hrest]; simp⟩ h2 h3 h4 h5
    have hdrop : input.drop h.took.length = b :: rest := by rw [← hrest]; simp
    have hdrop' : input.drop (h.took ++ [b]).length = rest := by rw [← hrest]; simp
    rw [hdrop] at hpre
    have hmid : RunReaches env p start input
        { proc := some c, status := h.status, input := [b], reads := true, phase := .writing rest,
          rd := fun stream => { pipe := h.wrote stream } } :=
      hpre.tail (.inr (.inl (by simp [mainStep, hcap])))
    refine hmid.tail (.inl ?_)
    simp only [hdrop']
    simp [procStep, ha, RunPhase.isEnded]
  | inputEnds hb ha ho ih => intro _ _ h3; cases h3
  | inputClosed hb ha ho ih => intro _ _ _ h4; rw [ho] at h4; cases h4
  | @write h c stream b k hb ha ih =>
    intro h1 h2 h3 h4 h5
    have hlen : (h.wrote stream).length < env.capacity := by
      have := h2 stream
      simp only [Function.update_self, List.length_append, List.length_singleton] at this
      omega
    have hpre := ih h1 (fun st => by
      by_cases hst : st = stream
      · subst hst; omega
      · have := h2 st
        simpa only [Function.update_of_ne hst] using this) h3 h4 h5
    refine hpre.tail (.inl ?_)
    simp only [procStep, ha, RunPhase.isEnded, Bool.false_eq_true, if_false, hlen, if_true, reduceCtorEq]
    congr 2
    funext st
    by_cases hst : st = stream
    · subst hst; simp
    · simp [Function.update_of_ne hst]
  | writeFails hb ha ih => intro _ _ _ _ h5; cases h5
  | think hb ha ih =>
    intro h1 h2 h3 h4 h5
    exact (ih h1 h2 h3 h4 h5).tail (.inl (by simp [procStep, ha, RunPhase.isEnded]))
  | closeInput hb ha ih => intro _ _ _ h4; cases h4
  | exit hb ha ih =>
    intro h1 h2 h3 h4 h5
    exact (ih h1 h2 h3 h4 h5).tail (.inl (by simp [procStep, ha, RunPhase.isEnded]))

/-- The pipe to the process is filled. -/
theorem fill_input {σ : Type} {env : RunEnv} {p : Proc σ} (s : RunState σ) (hc : s.proc ≠ none) (hr : s.reads = true)
    (bs rest : List UInt8) :
    ∀ i, i.length + bs.length ≤ env.capacity →
      Relation.ReflTransGen (RunStep env p) { s with input := i, phase := .writing (bs ++ rest) }
        { s with input := i ++ bs, phase := .writing rest } := by
  induction bs with
  | nil => intro i _; simp only [List.append_nil, List.nil_append]; exact .refl
  | cons b bs ih =>
    intro i hi
    simp only [List.length_cons] at hi
    have hn : s.proc.isNone = false := by
      cases h : s.proc with
      | none => exact absurd h hc
      | some _ => rfl
    refine .head (.inr (.inl ?_)) (List.append_assoc i [b] bs ▸ ih (i ++ [b]) ?_)
    · simp only [mainStep, List.cons_append, hn, hr, Bool.not_true, Bool.or_self, Bool.false_eq_true, if_false]
      rw [if_pos (by omega)]
    · simp only [List.length_append, List.length_singleton]; omega

/-- **C95.** `run_silent` and `run_hook` hang for some order of the steps exactly if the program fills a pipe with its
output and goes on writing, while it has left so much of its input that this fills the pipe, too. -/
theorem hangs_iff {σ : Type} {env : RunEnv} (hcap : 0 < env.capacity) (hk : env.kind ≠ .shown) {p : Proc σ} {start : σ}
    {input : List UInt8} :
    (∃ s, RunReaches env p start input s ∧ RunHangs env p s) ↔ Clogs p start env.capacity input := by
  constructor
  · rintro ⟨s, hr, hs⟩
    exact (hang_inv hcap hr hs).2
  · rintro ⟨h, c, stream, b, k, hb, ha, h1, h2, h3, h4, h5, h6, h7⟩
    have hreach := reaches_behaviour (input := input) hcap hk hb h1 h4 h5 h6 h7
    have hlen : (input.drop h.took.length).length = input.length - h.took.length := List.length_drop ..
    have hsplit : input.drop h.took.length =
        (input.drop h.took.length).take env.capacity ++ (input.drop h.took.length).drop env.capacity :=
      (List.take_append_drop _ _).symm
    have htl : ((input.drop h.took.length).take env.capacity).length = env.capacity := by
      rw [List.length_take, hlen]; omega
    have hfill := fill_input (env := env) (p := p)
      { proc := some c, status := h.status, input := [], reads := true, phase := .writing (input.drop h.took.length),
        rd := fun stream => { pipe := h.wrote stream } } (by simp) rfl
      ((input.drop h.took.length).take env.capacity) ((input.drop h.took.length).drop env.capacity) []
      (by rw [htl]; simp)
    rw [← hsplit] at hfill
    refine ⟨_, hreach.trans hfill, ?_, ?_⟩
    · rintro s' (hs | hs | ⟨st, hs⟩)
      · simp only [procStep, RunPhase.isEnded, Bool.false_eq_true, if_false, ha, reduceCtorEq, h3, Nat.lt_irrefl] at hs
      · obtain ⟨b', rest', hd⟩ : ∃ b' rest', (input.drop h.took.length).drop env.capacity = b' :: rest' := by
          cases hd : (input.drop h.took.length).drop env.capacity with
          | nil =>
            have := congrArg List.length hd
            rw [List.length_drop, hlen] at this
            simp only [List.length_nil] at this
            omega
          | cons b' rest' => exact ⟨b', rest', rfl⟩
        simp only [mainStep, hd, Option.isNone_some, Bool.not_true, Bool.or_self, Bool.false_eq_true, if_false,
          List.nil_append, htl, Nat.lt_irrefl, reduceCtorEq] at hs
      · simp [readerStep] at hs
    · intro o hph
      cases hph

/-- **C95.** It does not hang if the input fits into a pipe. -/
theorem small_input_never_hangs {σ : Type} {env : RunEnv} (hcap : 0 < env.capacity) {p : Proc σ} {start : σ}
    {input : List UInt8} (hin : input.length ≤ env.capacity) {s : RunState σ} (hr : RunReaches env p start input s) :
    ¬ RunHangs env p s := by
  intro hs
  obtain ⟨-, h, c, stream, b, k, -, -, -, h2, -⟩ := hang_inv hcap hr hs
  omega

/-- **C95.** It does not hang if the program reads all its input before it writes. -/
theorem readsFirst_never_hangs {σ : Type} {env : RunEnv} (hcap : 0 < env.capacity) {p : Proc σ} {start : σ}
    (hp : ReadsFirst p start) {input : List UInt8} {s : RunState σ} (hr : RunReaches env p start input s) :
    ¬ RunHangs env p s := by
  intro hs
  obtain ⟨-, h, c, stream, b, k, hb, -, -, -, h3, -, h4, -⟩ := hang_inv hcap hr hs
  have := hp h _ hb ⟨stream, fun h0 => by rw [h0] at h3; simp at h3; omega⟩
  rw [h4] at this
  cases this

/-! ### coming to an end -/

/-- How many steps git-branchless itself can still take. -/
def ownWork {σ : Type} (s : RunState σ) : Nat :=
  (match s.phase with
    | .writing rest => rest.length + 2
    | .waiting => 1
    | .ended _ => 0) +
  (((s.rd .out).pipe.length + if (s.rd .out).mode = .reading then 1 else 0) +
    ((s.rd .err).pipe.length + if (s.rd .err).mode = .reading then 1 else 0))

theorem ownStep_decreases {σ : Type} {env : RunEnv} {s s' : RunState σ} (h : OwnStep env s s') :
    ownWork s' < ownWork s := by
  rcases h with h | ⟨stream, h⟩
  · unfold mainStep at h
    split at h
    · rename_i hp
      cases h
      simp only [ownWork, hp, List.length_nil]
      omega
    · rename_i b rest hp
      split at h
      · cases h
        simp only [ownWork, hp, List.length_cons]
        omega
      · split at h
        · cases h
          simp only [ownWork, hp, List.length_cons]
          omega
        · cases h
    · rename_i hp
      split at h
      · cases h
      · split at h
        · cases h
        · split at h <;>
          · cases h
            simp only [ownWork, hp]
            omega
    · cases h
  · unfold readerStep at h
    simp only at h
    split at h
    · rename_i hp hm
      have key : ∀ r : PipeReader, r.pipe.length + (if r.mode = .reading then 1 else 0) <
          (s.rd stream).pipe.length + (if (s.rd stream).mode = .reading then 1 else 0) →
          ownWork { s with rd := Function.update s.rd stream r } < ownWork s := by
        intro r hr
        unfold ownWork
        simp only [hp]
        cases stream with
        | out =>
          simp only [Function.update_self, Function.update_of_ne (show OutStream.err ≠ OutStream.out by decide)]
          omega
        | err =>
          simp only [Function.update_self, Function.update_of_ne (show OutStream.out ≠ OutStream.err by decide)]
          omega
      split at h
      · rename_i b rest hpipe
        cases h
        apply key
        rw [hpipe, hm]
        unfold PipeReader.take
        split
        · simp [hm]
        · split
          · split
            · simp [hm]
            · simp only [reduceCtorEq, if_false, List.length_cons, if_true]
              omega
          · simp [hm]
      · rename_i hpipe
        split at h
        · cases h
          apply key
          rw [hpipe, hm]
          unfold PipeReader.finish
          split
          · simp [hpipe]
          · split <;> simp [hpipe]
        · cases h
    · cases h

/-- **C95.** git-branchless itself does not loop: an execution without end has infinitely many steps of the program. -/
theorem endless_only_by_program {σ : Type} {env : RunEnv} {p : Proc σ} (f : Nat → RunState σ)
    (hf : ∀ n, RunStep env p (f n) (f (n + 1))) (n : Nat) : ∃ m ≥ n, procStep env p (f m) = some (f (m + 1)) := by
  by_contra hno
  have hown : ∀ m ≥ n, OwnStep env (f m) (f (m + 1)) := by
    intro m hm
    rcases hf m with h | h
    · exact absurd ⟨m, hm, h⟩ hno
    · exact h
  have key : ∀ i, ownWork (f (n + i)) + i ≤ ownWork (f n) := by
    intro i
    induction i with
    | zero => simp
    | succ i ih =>
      have := ownStep_decreases (hown (n + i) (by omega))
      rw [show n + i + 1 = n + (i + 1) from rfl] at this
      omega
  have := key (ownWork (f n) + 1)
  omega

/-! ### what it ends with -/

/-- **C95.** If the function returns an exit code, then it is the one of the program; all processes which it started
are gone, too; `run_silent` returns exactly what was written; the output which is shown is what was written, apart
from the ends of lines, and is UTF-8. -/
theorem run_exited {σ : Type} {env : RunEnv} {p : Proc σ} {start : σ} {input : List UInt8} {s : RunState σ}
    (hr : RunReaches env p start input s) {st : ExitStatus} (he : s.phase = .ended (.exited st)) :
    ∃ h, Behaves p start h none ∧ h.status = some st ∧
      (env.kind = .silent → ∀ stream, (s.rd stream).got = h.wrote stream) ∧
      (env.kind ≠ .silent → ∀ stream, LinesUtf8 env.isUtf8 (h.wrote stream) ∧
        (s.rd stream).got = tidyLines (h.wrote stream)) := by
  obtain ⟨h, hi⟩ := runInv_of_reaches hr
  obtain ⟨h1, h2⟩ := hi.exited st he
  have hgone : s.proc = none := ((h2 .out).2.finished (h2 .out).1).1
  refine ⟨h, hgone ▸ hi.behaves, by rw [← hi.status, h1], ?_, ?_⟩
  · intro hk stream
    obtain ⟨g1, g2⟩ := h2 stream
    have := (g2.silent hk).1
    rw [(g2.finished g1).2.1, List.append_nil] at this
    exact this
  · intro hk stream
    obtain ⟨g1, g2⟩ := h2 stream
    exact (g2.finished g1).2.2 hk

/-- **C95.** Success is reported only if the program which was started exited with code 0. If it was killed, then this
is reported as exit code 1. -/
theorem run_reported {σ : Type} {env : RunEnv} {p : Proc σ} {start : σ} {input : List UInt8} {s : RunState σ}
    (hr : RunReaches env p start input s) {st : ExitStatus} (he : s.phase = .ended (.exited st)) :
    ∃ h, Behaves p start h none ∧ (st.isSuccess = true ↔ h.status = some (.code 0)) ∧
      (∀ n, h.status = some (.code n) → st.toCode = n) ∧ ∀ n, h.status = some (.signal n) → st.toCode = 1 := by
  obtain ⟨h, h1, h2, -⟩ := run_exited hr he
  refine ⟨h, h1, ?_, ?_, ?_⟩
  · rw [h2]
    cases st with
    | code n =>
      simp only [ExitStatus.isSuccess, ExitStatus.toCode, Option.some.injEq, ExitStatus.code.injEq]
      exact decide_eq_true_iff
    | signal n => simp [ExitStatus.isSuccess, ExitStatus.toCode]
  · intro n hn
    rw [h2] at hn
    cases hn
    rfl
  · intro n hn
    rw [h2] at hn
    cases hn
    rfl

/-- **C95, as far as it fails.** It panics only if a line of the output is not UTF-8, and not in `run_silent`. -/
theorem run_panicked {σ : Type} {env : RunEnv} {p : Proc σ} {start : σ} {input : List UInt8} {s : RunState σ}
    (hr : RunReaches env p start input s) (he : s.phase = .ended .panicked) :
    env.kind ≠ .silent ∧ ∃ h, Behaves p start h s.proc ∧ ∃ stream, ¬ LinesUtf8 env.isUtf8 (h.wrote stream) := by
  obtain ⟨h, hi⟩ := runInv_of_reaches hr
  obtain ⟨stream, h1, h2⟩ := hi.panicked he
  exact ⟨fun hk => (h2.silent hk).2.2 h1, h, hi.behaves, stream, h2.panicked h1⟩

/-- **C95, as far as it fails.** It ends with an error only if the program left or closed its input, and did not read
all of it. -/
theorem run_brokenPipe {σ : Type} {env : RunEnv} {p : Proc σ} {start : σ} {input : List UInt8} {s : RunState σ}
    (hr : RunReaches env p start input s) (he : s.phase = .ended .brokenPipe) :
    env.kind ≠ .shown ∧ ∃ h, Behaves p start h s.proc ∧ (s.proc = none ∨ h.closed = true) ∧ h.took <+: input ∧
      h.took ≠ input := by
  obtain ⟨h, hi⟩ := runInv_of_reaches hr
  obtain ⟨h1, h2, h3, b, rest, h4⟩ := hi.brokenPipe he
  refine ⟨h1, h, hi.behaves, h2, ⟨s.input ++ b :: rest, by rw [← h4]; simp⟩, fun h0 => ?_⟩
  have := congrArg List.length h4
  rw [h0] at this
  simp only [List.length_append, List.length_cons] at this
  omega

/-- **C95.** There is no such error if the program reads all its input. -/
theorem readsAll_no_brokenPipe {σ : Type} {env : RunEnv} {p : Proc σ} {start : σ} (hp : ReadsAll p start)
    {input : List UInt8} {s : RunState σ} (hr : RunReaches env p start input s) : s.phase ≠ .ended .brokenPipe := by
  intro he
  obtain ⟨h, hi⟩ := runInv_of_reaches hr
  obtain ⟨-, h2, h3, -⟩ := hi.brokenPipe he
  have := hp h _ hi.behaves h2
  rw [h3] at this
  cases this

/-- **C95.** A program which reads all its input before it writes anything and before it leaves is run to the end,
if it does come to an end: wherever the execution stops, an exit code was returned, unless a line of the output is
not UTF-8. -/
theorem wellBehaved_run {σ : Type} {env : RunEnv} (hcap : 0 < env.capacity) {p : Proc σ} {start : σ}
    (hp : ReadsFirst p start) (hq : ReadsAll p start) {input : List UInt8} {s : RunState σ}
    (hr : RunReaches env p start input s) (hs : ∀ s', ¬ RunStep env p s s') :
    (∃ st, s.phase = .ended (.exited st)) ∨ (s.phase = .ended .panicked ∧ env.kind ≠ .silent) := by
  by_cases hex : ∃ o, s.phase = .ended o
  · obtain ⟨o, ho⟩ := hex
    cases o with
    | exited st => exact .inl ⟨st, ho⟩
    | brokenPipe => exact absurd ho (readsAll_no_brokenPipe hq hr)
    | panicked => exact .inr ⟨ho, (run_panicked hr ho).1⟩
  · exact absurd ⟨hs, fun o ho => hex ⟨o, ho⟩⟩ (readsFirst_never_hangs hcap hp hr)

end Verif.Props
