import Verif.Props.GithubClient
import Verif.Props.GithubExample

/-! Concrete cases for the theorems about what is asked of `gh`. -/

namespace Verif.Props

open Verif Verif.Spec

/-- The branch `a` at 1 has the oldest of 31 pull requests, which is as it should be. The others are for branches which are not in the
local repository. -/
def exManyPrs : ForgeWorld :=
  let names := (List.range 30).map fun i => t!"other" ++ natToText i
  { exForgeWith [(t!"a", oidN 1), (t!"master", oidN 0)]
      ([(t!"master", oidN 0), (t!"a", oidN 1)] ++ names.map fun b => (b, oidN 6))
      (⟨1, t!"url1", t!"a", t!"master", t!"[1/1] Commit 1!", exBody [t!"url1"] (oidN 1)⟩ ::
        (List.range 30).map fun i =>
          ⟨i + 2, t!"url" ++ natToText (i + 2), t!"other" ++ natToText i, t!"master", t!"t", t!"b"⟩) with
    next := 40 }

theorem exManyPrs_usual : UsualForge exForgeEnv exManyPrs := by
  have h := exForgeWith_usual (env := exForgeEnv) rfl
    (bs := [(t!"a", oidN 1), (t!"master", oidN 0)])
    (tips := [(t!"master", oidN 0), (t!"a", oidN 1)] ++
      ((List.range 30).map fun i => t!"other" ++ natToText i).map fun b => (b, oidN 6))
    (prs := ⟨1, t!"url1", t!"a", t!"master", t!"[1/1] Commit 1!", exBody [t!"url1"] (oidN 1)⟩ ::
        (List.range 30).map fun i =>
          ⟨i + 2, t!"url" ++ natToText (i + 2), t!"other" ++ natToText i, t!"master", t!"t", t!"b"⟩)
    (by decide +kernel) (by decide +kernel) (by decide +kernel)
  exact { graph := h.graph, refs := h.refs, notSelf := h.notSelf, upstream := h.upstream, push := h.push, heads := h.heads
          numbers := h.numbers, open_ := h.open_, refl := h.refl, ancestor := h.ancestor }

/-- Violation of C101: the commit 1 has a pull request which is as it should be, so that with all pull requests it is up to date. With
the 30 which are listed, it is not submitted, and `submit --create` fails: it asks for a second pull request for the same
branch. -/
theorem old_pr_created_again : ∃ env w o, UsualForge env w ∧ MadeInOrder w.prs ∧
    (∃ s, (queryPrStatus env w [o]).get? o = some s ∧ s.status = .upToDate) ∧
    (∃ s, (queryPrStatus env w.asListed [o]).get? o = some s ∧ s.status = .unsubmitted) ∧
    ∃ p ∈ w.prs, ∃ w' before,
      submitCreatePrs env w true false false (prsWith .unsubmitted (queryPrStatus env w.asListed [o])) =
        (w', before ++ [.createPr p.head (env.summary o) (env.message o) false], none) := by
  refine ⟨exForgeEnv, exManyPrs, oidN 1, exManyPrs_usual, by unfold MadeInOrder; decide +kernel, ?_, ?_,
    ⟨1, t!"url1", t!"a", t!"master", t!"[1/1] Commit 1!", exBody [t!"url1"] (oidN 1)⟩, by decide +kernel, ?_⟩
  · exact ⟨_, rfl, by decide +kernel⟩
  · exact ⟨_, rfl, by decide +kernel⟩
  · refine ⟨_, [.git (.pushNew t!"origin" [t!"a"])], Prod.ext rfl ?_⟩
    decide +kernel

/-- The hypotheses of `old_pr_unknown`. -/
example : MadeInOrder exManyPrs.prs ∧ ∃ p, HasPr exManyPrs (oidN 1) p ∧ Counts exManyPrs p.head (oidN 1) ∧
    30 ≤ (newer exManyPrs.prs p).length := by
  have hc : Counts exManyPrs t!"a" (oidN 1) := (last_counts exManyPrs_usual.refs).1 (by decide +kernel)
  refine ⟨by unfold MadeInOrder; decide +kernel,
    ⟨1, t!"url1", t!"a", t!"master", t!"[1/1] Commit 1!", exBody [t!"url1"] (oidN 1)⟩,
    ⟨by decide +kernel, hc.1, by decide +kernel, by decide +kernel, oidN 1, by decide +kernel⟩, hc, by decide +kernel⟩

/-- A title which is like an option is a title. -/
example : ((clientCreate [] [] t!"/tmp/x" exManyPrs t!"b" t!"--draft" t!"text" false).map fun x => x.2) = none ∧
    ((clientCreate [] [] t!"/tmp/x" { exManyPrs with prs := [], defaultBranch := t!"master" } t!"other1" t!"--draft" t!"text" false).map
      fun x => (x.1.prs, x.2)) =
      some ([⟨40, t!"url40", t!"other1", t!"master", t!"--draft", t!"text"⟩], t!"url40") ∧
    (∀ c ∈ exManyPrs.urlOf exManyPrs.next, isSpace c = false) := by
  decide +kernel

/-- Editing a pull request; and one which is not open. -/
example : ((clientUpdate [] [] t!"/tmp/x" exForge 2 t!"master" t!"--title" t!"text").map fun w =>
      (w.prs.map (·.title))) = some [t!"[1/3] Commit 1!", t!"--title", t!"[3/3] Commit 3!"] ∧
    (clientUpdate [] [] t!"/tmp/x" exForge 7 t!"master" t!"t" t!"text").isNone = true := by
  decide +kernel

/-- Of two pull requests for one branch the older one counts; those of others do not. -/
example : (clientInfos [⟨9, t!"u9", t!"b", t!"master", [], []⟩] [] { exForge with prs :=
      [⟨1, t!"u1", t!"a", t!"master", [], []⟩, ⟨2, t!"u2", t!"a", t!"b", [], []⟩] }).map
      (fun m => ((m.get? t!"a").map (·.number), (m.get? t!"b").map (·.number))) = some (some 1, none) ∧
    exForge.prs.length ≤ 30 := by
  decide +kernel

/-- The second remote was chosen with `gh repo set-default`; and `.arcconfig` is there. -/
example : githubPushRemote (fun k => if k = t!"remote.up.gh-resolved" then some t!"base" else none)
      [t!"origin", t!"up"] = some t!"up" ∧
    selectForge none (some true) (some t!"up") = .phabricator ∧ selectForge none none (some t!"up") = .branch := by
  decide +kernel

end Verif.Props
