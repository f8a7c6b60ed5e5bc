import Verif.Spec.RunProcess
import Mathlib.Data.List.Induction
import Mathlib.Order.Basic

/-!
Lemmas about running programs.
-/

namespace Verif.Spec

open Verif

/-! ### lines -/

theorem byteLines_snoc (t : List UInt8) (b : UInt8) :
    byteLines (t ++ [b]) =
      if b = 10 then ((byteLines t).1 ++ [(byteLines t).2], []) else ((byteLines t).1, (byteLines t).2 ++ [b]) := by
  induction t with
  | nil =>
    simp only [List.nil_append, byteLines]
  | cons a t ih =>
    simp only [List.cons_append, byteLines]
    rw [ih]
    by_cases hb : b = 10
    · simp only [hb, if_true]
      by_cases ha : a = 10
      · simp [ha]
      · simp only [ha, if_false]
        cases (byteLines t).1 <;> simp
    · simp only [hb, if_false]
      by_cases ha : a = 10
      · simp [ha]
      · simp only [ha, if_false]
        cases (byteLines t).1 <;> simp

theorem byteLines_prefix (t u : List UInt8) : (byteLines t).1 <+: (byteLines (t ++ u)).1 := by
  induction u using List.reverseRecOn with
  | nil => simp
  | append_singleton u b ih =>
    rw [← List.append_assoc, byteLines_snoc]
    refine ih.trans ?_
    split
    · exact List.prefix_append _ _
    · exact List.prefix_rfl

/-- What was shown of a text which is not yet complete. -/
def shownLines (ls : List (List UInt8)) : List UInt8 := (ls.map fun l => chompCr l ++ [10]).flatten

theorem shownLines_snoc (ls : List (List UInt8)) (l : List UInt8) :
    shownLines (ls ++ [l]) = shownLines ls ++ (chompCr l ++ [10]) := by
  unfold shownLines
  rw [List.map_append, List.flatten_append]
  simp

/-! ### a thread which reads -/

/-- What is known of a pipe into which `w` was written. -/
structure ReaderInv (env : RunEnv) (gone : Prop) (r : PipeReader) (w : List UInt8) : Prop where
  silent : env.kind = .silent → r.got ++ r.pipe = w ∧ r.line = [] ∧ r.mode ≠ .panicked
  reading : env.kind ≠ .silent → r.mode = .reading →
    ∃ t, t ++ r.pipe = w ∧ r.line = (byteLines t).2 ∧ r.got = shownLines (byteLines t).1 ∧
      ∀ l ∈ (byteLines t).1, env.isUtf8 l = true
  finished : r.mode = .finished → gone ∧ r.pipe = [] ∧
    (env.kind ≠ .silent → LinesUtf8 env.isUtf8 w ∧ r.got = tidyLines w)
  panicked : r.mode = .panicked → ¬ LinesUtf8 env.isUtf8 w

theorem ReaderInv.start (env : RunEnv) (gone : Prop) (w : List UInt8) : ReaderInv env gone { pipe := w } w := by
  refine ⟨fun _ => ⟨rfl, rfl, by simp⟩, fun _ _ => ⟨[], rfl, rfl, rfl, by simp [byteLines]⟩, ?_, ?_⟩
  · intro h; cases h
  · intro h; cases h

theorem ReaderInv.written {env : RunEnv} {gone gone' : Prop} {r : PipeReader} {w : List UInt8} (h : ReaderInv env gone r w)
    (hg : ¬ gone) (b : UInt8) (hm : r.mode ≠ .panicked) :
    ReaderInv env gone' { r with pipe := r.pipe ++ [b] } (w ++ [b]) := by
  refine ⟨?_, ?_, ?_, ?_⟩
  · intro hk
    obtain ⟨h1, h2, h3⟩ := h.silent hk
    exact ⟨by rw [← h1, List.append_assoc], h2, h3⟩
  · intro hk hm
    obtain ⟨t, h1, h2, h3, h4⟩ := h.reading hk hm
    exact ⟨t, by rw [← h1, List.append_assoc], h2, h3, h4⟩
  · intro hm
    exact absurd (h.finished hm).1 hg
  · intro hm'; exact absurd hm' hm

theorem ReaderInv.mono {env : RunEnv} {gone gone' : Prop} {r : PipeReader} {w : List UInt8} (h : ReaderInv env gone r w)
    (hg : gone → gone') : ReaderInv env gone' r w :=
  ⟨h.silent, h.reading, fun hm => ⟨hg (h.finished hm).1, (h.finished hm).2⟩, h.panicked⟩

theorem ReaderInv.taken {env : RunEnv} {gone : Prop} {r : PipeReader} {w : List UInt8} (h : ReaderInv env gone r w)
    {b : UInt8} {rest : List UInt8} (hp : r.pipe = b :: rest) (hm : r.mode = .reading) :
    ReaderInv env gone (r.take env b rest) w := by
  unfold PipeReader.take
  by_cases hk : env.kind = .silent
  · rw [if_pos hk]
    obtain ⟨h1, h2, h3⟩ := h.silent hk
    refine ⟨fun _ => ⟨?_, h2, h3⟩, fun hk' => absurd hk hk', ?_, ?_⟩
    · rw [← h1, hp]; simp
    · intro hf
      rw [show r.mode = .finished from hf] at hm
      cases hm
    · intro hf; exact absurd hf h3
  · rw [if_neg hk]
    obtain ⟨t, h1, h2, h3, h4⟩ := h.reading hk hm
    rw [hp] at h1
    by_cases hb : b = 10
    · rw [if_pos hb]
      subst hb
      by_cases hu : env.isUtf8 r.line = true
      · rw [if_pos hu]
        refine ⟨fun hk' => absurd hk' hk, fun _ _ => ⟨t ++ [10], ?_, ?_, ?_, ?_⟩, ?_, ?_⟩
        · rw [← h1]; simp
        · rw [byteLines_snoc, if_pos rfl]
        · rw [byteLines_snoc, if_pos rfl]
          simp only
          rw [shownLines_snoc, h3, h2]
        · rw [byteLines_snoc, if_pos rfl]
          intro l hl
          rw [List.mem_append, List.mem_singleton] at hl
          rcases hl with hl | rfl
          · exact h4 l hl
          · rw [← h2]; exact hu
        · intro hf; rw [show r.mode = .finished from hf] at hm; cases hm
        · intro hf; rw [show r.mode = .panicked from hf] at hm; cases hm
      · rw [if_neg hu]
        refine ⟨fun hk' => absurd hk' hk, fun _ hf => (by cases hf), fun hf => (by cases hf), fun _ hl => ?_⟩
        have hpre := byteLines_prefix (t ++ [10]) rest
        rw [byteLines_snoc, if_pos rfl, List.append_assoc, List.singleton_append, h1] at hpre
        apply hu
        rw [h2]
        exact hl.1 _ (hpre.subset (List.mem_append_right _ (List.mem_singleton.2 rfl)))
    · rw [if_neg hb]
      refine ⟨fun hk' => absurd hk' hk, fun _ _ => ⟨t ++ [b], ?_, ?_, ?_, ?_⟩, ?_, ?_⟩
      · rw [← h1]; simp
      · rw [byteLines_snoc, if_neg hb]
        simp only
        rw [h2]
      · rw [byteLines_snoc, if_neg hb]; exact h3
      · rw [byteLines_snoc, if_neg hb]; exact h4
      · intro hf; rw [show r.mode = .finished from hf] at hm; cases hm
      · intro hf; rw [show r.mode = .panicked from hf] at hm; cases hm

theorem tidyLines_eq (w : List UInt8) : tidyLines w =
    shownLines (byteLines w).1 ++ (if (byteLines w).2 = [] then [] else (byteLines w).2 ++ [10]) := rfl

theorem ReaderInv.ended {env : RunEnv} {gone : Prop} {r : PipeReader} {w : List UInt8} (h : ReaderInv env gone r w)
    (hg : gone) (hp : r.pipe = []) (hm : r.mode = .reading) : ReaderInv env gone (r.finish env) w := by
  unfold PipeReader.finish
  by_cases hk : env.kind = .silent
  · obtain ⟨h1, h2, h3⟩ := h.silent hk
    rw [if_pos h2]
    exact ⟨fun _ => ⟨h1, h2, by simp⟩, fun hk' => absurd hk hk', fun _ => ⟨hg, hp, fun hk' => absurd hk hk'⟩,
      fun hf => (by cases hf)⟩
  · obtain ⟨t, h1, h2, h3, h4⟩ := h.reading hk hm
    rw [hp, List.append_nil] at h1
    subst h1
    by_cases hl : r.line = []
    · rw [if_pos hl]
      rw [h2] at hl
      refine ⟨fun hk' => absurd hk' hk, fun _ hf => (by cases hf), fun _ => ⟨hg, hp, fun _ => ⟨⟨h4, fun hne => absurd hl hne⟩, ?_⟩⟩,
        fun hf => (by cases hf)⟩
      rw [tidyLines_eq, if_pos hl, List.append_nil]
      exact h3
    · rw [if_neg hl]
      by_cases hu : env.isUtf8 r.line = true
      · rw [if_pos hu]
        refine ⟨fun hk' => absurd hk' hk, fun _ hf => (by cases hf), fun _ => ⟨hg, hp, fun _ => ⟨⟨h4, fun _ => ?_⟩, ?_⟩⟩,
          fun hf => (by cases hf)⟩
        · rw [← h2]; exact hu
        · rw [tidyLines_eq, if_neg (by rw [← h2]; exact hl), ← h2]
          show r.got ++ _ = _
          rw [h3]
      · rw [if_neg hu]
        refine ⟨fun hk' => absurd hk' hk, fun _ hf => (by cases hf), fun hf => (by cases hf), fun _ hall => hu ?_⟩
        rw [h2]
        exact hall.2 (by rw [← h2]; exact hl)

/-! ### the invariant -/

/-- What is known of a reachable state; `h` is what the process did. -/
structure RunInv {σ : Type} (env : RunEnv) (p : Proc σ) (start : σ) (input : List UInt8) (h : ProcHistory)
    (s : RunState σ) : Prop where
  behaves : Behaves p start h s.proc
  reads : s.reads = !h.closed
  status : s.status = h.status
  gone : s.proc = none → s.status ≠ none
  writing : ∀ rest, s.phase = .writing rest → env.kind ≠ .shown ∧ h.took ++ s.input ++ rest = input ∧ h.sawEnd = false ∧
    h.broken = false ∧ (∀ stream, s.rd stream = { pipe := h.wrote stream }) ∧
    (∀ stream, (h.wrote stream).length ≤ env.capacity) ∧ s.input.length ≤ env.capacity
  waiting : s.phase = .waiting → ∀ stream, ReaderInv env (s.proc = none) (s.rd stream) (h.wrote stream)
  exited : ∀ st, s.phase = .ended (.exited st) → s.status = some st ∧
    ∀ stream, (s.rd stream).mode = .finished ∧ ReaderInv env (s.proc = none) (s.rd stream) (h.wrote stream)
  panicked : s.phase = .ended .panicked → ∃ stream, (s.rd stream).mode = .panicked ∧
    ReaderInv env (s.proc = none) (s.rd stream) (h.wrote stream)
  brokenPipe : s.phase = .ended .brokenPipe → env.kind ≠ .shown ∧ (s.proc = none ∨ h.closed = true) ∧ h.sawEnd = false ∧
    ∃ b rest, h.took ++ s.input ++ (b :: rest) = input

theorem RunInv.init {σ : Type} (env : RunEnv) (p : Proc σ) (start : σ) (input : List UInt8) :
    RunInv env p start input {} (RunState.init env start input) := by
  unfold RunState.init
  by_cases hk : env.kind = .shown
  · simp only [hk, if_true]
    exact ⟨.start, rfl, rfl, (by intro h; cases h), (by intro r h; cases h), fun _ _ => ReaderInv.start _ _ _,
      (by intro r h; cases h), (by intro h; cases h), (by intro h; cases h)⟩
  · simp only [hk, if_false]
    refine ⟨.start, rfl, rfl, (by intro h; cases h), ?_, (by intro h; cases h),
      (by intro r h; cases h), (by intro h; cases h), (by intro h; cases h)⟩
    intro rest hr
    cases hr
    exact ⟨hk, rfl, rfl, rfl, fun _ => rfl, fun _ => Nat.zero_le _, Nat.zero_le _⟩

/-- The process did something, and nothing else changed but the input. -/
theorem RunInv.procMoves {σ : Type} {env : RunEnv} {p : Proc σ} {start : σ} {input : List UInt8} {h h' : ProcHistory}
    {s s' : RunState σ} (hi : RunInv env p start input h s) (he : s.phase.isEnded = false)
    (hc : s.proc ≠ none) (hb : Behaves p start h' s'.proc) (hr : s'.reads = !h'.closed) (hst : s'.status = h'.status)
    (hg : s'.proc = none → s'.status ≠ none) (hp : s'.phase = s.phase) (hrd : s'.rd = s.rd) (hw : h'.wrote = h.wrote)
    (htook : h'.took ++ s'.input = h.took ++ s.input) (hlen : s'.input.length ≤ s.input.length)
    (hbr : ∀ rest, s.phase = .writing rest → h'.sawEnd = h.sawEnd ∧ h'.broken = h.broken) :
    RunInv env p start input h' s' := by
  refine ⟨hb, hr, hst, hg, ?_, ?_, ?_, ?_, ?_⟩
  · intro rest hph
    rw [hp] at hph
    obtain ⟨h1, h2, h3, h4, h5, h6, h7⟩ := hi.writing rest hph
    obtain ⟨g1, g2⟩ := hbr rest hph
    rw [hw, hrd, htook, g1, g2]
    exact ⟨h1, h2, h3, h4, h5, h6, Nat.le_trans hlen h7⟩
  · intro hph stream
    rw [hp] at hph
    rw [hrd, hw]
    exact (hi.waiting hph stream).mono fun h0 => absurd h0 hc
  all_goals
    intros
    rename_i hph
    rw [hp] at hph
    rw [hph] at he
    cases he

theorem RunInv.procStep {σ : Type} {env : RunEnv} {p : Proc σ} {start : σ} {input : List UInt8} {h : ProcHistory}
    {s s' : RunState σ} (hi : RunInv env p start input h s) (hs : procStep env p s = some s') :
    ∃ h', RunInv env p start input h' s' := by
  unfold Verif.procStep at hs
  cases hc : s.proc with
  | none => rw [hc] at hs; cases hs
  | some c =>
    rw [hc] at hs
    simp only at hs
    have hbeh := hi.behaves
    rw [hc] at hbeh
    have hne : s.proc ≠ none := by rw [hc]; simp
    cases he : s.phase.isEnded with
    | true => rw [he] at hs; cases hs
    | false =>
    rw [he] at hs
    simp only [Bool.false_eq_true, if_false] at hs
    cases ha : p.act c with
    | read k =>
      rw [ha] at hs
      simp only at hs
      by_cases hr : s.reads = true
      · have hcl : h.closed = false := by
          have := hi.reads
          rw [hr] at this
          simpa using this.symm
        rw [if_pos hr] at hs
        cases hin : s.input with
        | cons b rest =>
          rw [hin] at hs
          cases hs
          refine ⟨_, hi.procMoves he hne (.read b hbeh ha hcl) hi.reads hi.status (by intro h0; cases h0) rfl rfl rfl ?_ ?_
            (fun _ _ => ⟨rfl, rfl⟩)⟩
          · simp [hin]
          · simp [hin]
        | nil =>
          rw [hin] at hs
          simp only at hs
          split at hs
          · cases hs
          · rename_i hw
            cases hs
            refine ⟨_, hi.procMoves he hne (.inputEnds hbeh ha hcl) hi.reads hi.status (by intro h0; cases h0) rfl rfl rfl
              (by simp [hin]) (by simp) ?_⟩
            intro rest hph
            rw [hph] at hw
            exact absurd rfl hw
      · rw [if_neg hr] at hs
        cases hs
        have hcl : h.closed = true := by
          have := hi.reads
          rw [Bool.not_eq_true _ |>.mp hr] at this
          simpa using this.symm
        exact ⟨h, hi.procMoves he hne (.inputClosed hbeh ha hcl) hi.reads hi.status (by intro h0; cases h0) rfl rfl rfl
          rfl (Nat.le_refl _) (fun _ _ => ⟨rfl, rfl⟩)⟩
    | think c' =>
      rw [ha] at hs
      cases hs
      exact ⟨h, hi.procMoves he hne (.think hbeh ha) hi.reads hi.status (by intro h0; cases h0) rfl rfl rfl rfl (Nat.le_refl _)
        (fun _ _ => ⟨rfl, rfl⟩)⟩
    | closeInput c' =>
      rw [ha] at hs
      cases hs
      exact ⟨_, hi.procMoves he hne (.closeInput hbeh ha) rfl hi.status (by intro h0; cases h0) rfl rfl rfl rfl (Nat.le_refl _)
        (fun _ _ => ⟨rfl, rfl⟩)⟩
    | exit st left =>
      rw [ha] at hs
      cases hs
      exact ⟨_, hi.procMoves he hne (.exit hbeh ha) hi.reads (by rw [hi.status]) (fun _ => by simp) rfl rfl rfl rfl (Nat.le_refl _)
        (fun _ _ => ⟨rfl, rfl⟩)⟩
    | write stream b k =>
      rw [ha] at hs
      simp only at hs
      split at hs
      · rename_i hm
        cases hs
        refine ⟨_, hi.procMoves he hne (.writeFails hbeh ha) hi.reads hi.status (by intro h0; cases h0) rfl rfl rfl rfl (Nat.le_refl _)
          ?_⟩
        intro rest hph
        obtain ⟨-, -, -, -, h5, -⟩ := hi.writing rest hph
        rw [h5 stream] at hm
        cases hm
      · rename_i hm
        split at hs
        · rename_i hcap
          cases hs
          refine ⟨_, .write hbeh ha, hi.reads, hi.status, (by intro h0; cases h0), ?_, ?_, ?_, ?_, ?_⟩
          · intro rest hph
            obtain ⟨h1, h2, h3, h4, h5, h6, h7⟩ := hi.writing rest hph
            refine ⟨h1, h2, h3, h4, ?_, ?_, h7⟩
            · intro st
              by_cases hst : st = stream
              · subst hst
                simp only [Function.update_self]
                rw [h5]
              · simp only [Function.update_of_ne hst]
                exact h5 st
            · intro st
              by_cases hst : st = stream
              · subst hst
                simp only [Function.update_self]
                rw [h5] at hcap
                simp only [List.length_append, List.length_singleton]
                exact hcap
              · simp only [Function.update_of_ne hst]
                exact h6 st
          · intro hph st
            by_cases hst : st = stream
            · subst hst
              simp only [Function.update_self]
              exact (hi.waiting hph st).written hne b hm
            · simp only [Function.update_of_ne hst]
              exact (hi.waiting hph st).mono fun h0 => absurd h0 hne
          all_goals
            intros
            rename_i hph
            rw [show s.phase = _ from hph] at he
            cases he
        · cases hs

theorem RunInv.mainStep {σ : Type} {env : RunEnv} {p : Proc σ} {start : σ} {input : List UInt8} {h : ProcHistory}
    {s s' : RunState σ} (hi : RunInv env p start input h s) (hs : mainStep env s = some s') :
    RunInv env p start input h s' := by
  unfold Verif.mainStep at hs
  cases hph : s.phase with
  | ended o => rw [hph] at hs; cases hs
  | writing rest =>
    obtain ⟨h1, h2, h3, h4, h5, h6, h7⟩ := hi.writing rest hph
    rw [hph] at hs
    cases rest with
    | nil =>
      cases hs
      refine ⟨hi.behaves, hi.reads, hi.status, hi.gone, (by intro r h; cases h), ?_, (by intro r h; cases h),
        (by intro h; cases h), (by intro h; cases h)⟩
      intro _ stream
      show ReaderInv env _ (s.rd stream) _
      rw [h5 stream]
      exact ReaderInv.start _ _ _
    | cons b rest =>
      simp only at hs
      split at hs
      · rename_i hbr
        cases hs
        refine ⟨hi.behaves, hi.reads, hi.status, hi.gone, (by intro r h; cases h), (by intro h; cases h),
          (by intro r h; cases h), (by intro h; cases h), fun _ => ⟨h1, ?_, h3, b, rest, h2⟩⟩
        rw [Bool.or_eq_true, Option.isNone_iff_eq_none, hi.reads] at hbr
        simpa using hbr
      · split at hs
        · rename_i hcap
          cases hs
          refine ⟨hi.behaves, hi.reads, hi.status, hi.gone, ?_, (by intro h; cases h), (by intro r h; cases h),
            (by intro h; cases h), (by intro h; cases h)⟩
          intro rest' hr
          cases hr
          refine ⟨h1, by rw [← h2]; simp, h3, h4, h5, h6, ?_⟩
          simp only [List.length_append, List.length_singleton]
          exact hcap
        · cases hs
  | waiting =>
    have hw := hi.waiting hph
    rw [hph] at hs
    simp only at hs
    split at hs
    · cases hs
    · rename_i st hst
      split at hs
      · cases hs
      · rename_i hnr
        rw [Bool.or_eq_true, decide_eq_true_eq, decide_eq_true_eq, not_or] at hnr
        split at hs
        · rename_i hpa
          cases hs
          refine ⟨hi.behaves, hi.reads, hi.status, hi.gone, (by intro r h; cases h), (by intro h; cases h),
            (by intro r h; cases h), fun _ => ?_, (by intro h; cases h)⟩
          rw [Bool.or_eq_true, decide_eq_true_eq, decide_eq_true_eq] at hpa
          rcases hpa with hpa | hpa
          · exact ⟨.out, hpa, hw _⟩
          · exact ⟨.err, hpa, hw _⟩
        · rename_i hpa
          rw [Bool.or_eq_true, decide_eq_true_eq, decide_eq_true_eq, not_or] at hpa
          cases hs
          refine ⟨hi.behaves, hi.reads, hi.status, hi.gone, (by intro r h; cases h), (by intro h; cases h), ?_,
            (by intro h; cases h), (by intro h; cases h)⟩
          intro st' hr
          cases hr
          refine ⟨hst, fun stream => ⟨?_, hw stream⟩⟩
          show (s.rd stream).mode = _
          cases stream with
          | out => cases hm : (s.rd .out).mode <;> simp_all
          | err => cases hm : (s.rd .err).mode <;> simp_all

theorem RunInv.readerStep {σ : Type} {env : RunEnv} {p : Proc σ} {start : σ} {input : List UInt8} {h : ProcHistory}
    {s s' : RunState σ} {stream : OutStream} (hi : RunInv env p start input h s)
    (hs : readerStep env s stream = some s') : RunInv env p start input h s' := by
  unfold Verif.readerStep at hs
  simp only at hs
  split at hs
  · rename_i hph hm
    have hw := hi.waiting hph
    have key : ∀ r, ReaderInv env (s.proc = none) r (h.wrote stream) →
        RunInv env p start input h { s with rd := Function.update s.rd stream r } := by
      intro r hr
      refine ⟨hi.behaves, hi.reads, hi.status, hi.gone, ?_, ?_, ?_, ?_, ?_⟩
      · intro rest h'
        rw [show s.phase = _ from h'] at hph; cases hph
      · intro _ st
        by_cases hst : st = stream
        · subst hst
          simp only [Function.update_self]
          exact hr
        · simp only [Function.update_of_ne hst]
          exact hw st
      all_goals
        intros
        rename_i h'
        rw [show s.phase = _ from h'] at hph; cases hph
    split at hs
    · rename_i b rest hp
      cases hs
      exact key _ ((hw stream).taken hp hm)
    · rename_i hp
      split at hs
      · rename_i hn
        cases hs
        exact key _ ((hw stream).ended (Option.isNone_iff_eq_none.1 hn) hp hm)
      · cases hs
  · cases hs

theorem runInv_of_reaches {σ : Type} {env : RunEnv} {p : Proc σ} {start : σ} {input : List UInt8} {s : RunState σ}
    (hr : RunReaches env p start input s) : ∃ h, RunInv env p start input h s := by
  unfold RunReaches at hr
  induction hr with
  | refl => exact ⟨_, RunInv.init env p start input⟩
  | tail _ hs ih =>
    obtain ⟨h, hi⟩ := ih
    rcases hs with hs | hs | ⟨stream, hs⟩
    · exact hi.procStep hs
    · exact ⟨h, hi.mainStep hs⟩
    · exact ⟨h, hi.readerStep hs⟩

end Verif.Spec
