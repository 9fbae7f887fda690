import Verif.Lemmas.Retry
import Verif.Props.Caught

/-!
# C122, continued: adding a rejected condition again

A condition that is rejected because one of its later parents is unknown stays in the space in part
(`C122_half_condition_stays`).  Adding it again, once the parent is there, completes it: nothing of the first attempt is
left.
-/

set_option autoImplicit false

namespace Verif
open Spec

/-- **C122** (adding the rejected condition again). A call is rejected for an unknown parent, the calls after it
succeed, and they bring a condition for the child of every condition of the rejected call that names that parent (the
same condition again, say). Then the space is the one that a single successful call builds from the parts that stayed:
of the calls up to the rejected one the longest part that fits what was there, and all of the later calls. -/
theorem C122_retry_repairs {hist later : List (Call × Option Err)} {s : Space} {k : Call} {p : Name}
    (h : Attempts (hist ++ (k, some (.parentNotFound p)) :: later) s) (hh : ∀ x ∈ hist, NotHalf x.1 x.2)
    (hl : ∀ x ∈ later, x.2 = none) (hne : later ≠ [])
    (hr : ∀ c ∈ k.conds, p ∈ c.parents → ∃ x ∈ later, ∃ d ∈ x.1.conds, childName d = childName c) :
    ∃ kept, Stayed (hist.map Prod.fst ++ [k]) kept ∧ Fits [] (together (kept ++ later.map Prod.fst)) ∧
      (OwnClauses (kept ++ later.map Prod.fst) →
      ∃ t, Reach [together (kept ++ later.map Prod.fst)] t ∧
        s.com.map (fun x => (x.hp, x.depth, x.cond)) = t.com.map (fun x => (x.hp, x.depth, x.cond)) ∧
        s.len = t.len ∧ s.forbs.Perm t.forbs ∧ s.minConds = t.minConds ∧ s.lookup = t.lookup ∧
        (∀ n x, x ∈ s.childrenOf n ↔ x ∈ t.childrenOf n) ∧
        (∀ v al, s.check v al = t.check v al) ∧ (∀ d al, Config.ofValues s d al = Config.ofValues t d al) ∧
        s.defaultConfig = t.defaultConfig) := by
  rcases Retry.attempts_either h hh hl with ⟨_, h0⟩ | ⟨kept, h1, h2, c, hc, hp, chp, hchp, _, h4⟩
  · exact absurd h0 hne
  obtain ⟨x, hx, d, hd, he⟩ := hr c hc hp
  obtain ⟨pr, hlk, hdef⟩ := h4 hne ⟨d, by
    simp only [allConds, List.mem_flatMap]
    exact ⟨x.1, by simp only [List.mem_append, List.mem_map]; exact .inr ⟨x, hx, rfl⟩, hd⟩, by
    have : childName c = some chp.name := by simp [childName, hchp]
    rw [this] at he
    exact he⟩
  have hwt : ∀ c ∈ (together (kept ++ later.map Prod.fst)).conds, c.wf = true := by
    intro x hx
    simp only [together, allConds, List.mem_flatMap] at hx
    obtain ⟨k, hk, hx⟩ := hx
    exact (h2 k hk).2.1 x hx
  obtain ⟨eH, eC, eF⟩ := Caught.together_all (kept ++ later.map Prod.fst)
  refine ⟨kept, h1, fits_of_hinv (g := s.dag) (by rw [List.nil_append, eH, eC, eF]; exact pr.hist) hwt, fun hown => ?_⟩
  obtain ⟨t, ht, hcore, hf, k1, k2, k3⟩ := Caught.combined h2 pr hdef hown
  have it := sinv_of_reach ht
  have hm : s.minConds = t.minConds := by rw [pr.mins, it.mins, minCondsSorted_core hcore]
  refine ⟨t, ht, hcore, ?_, hf, hm, ?_, ?_, k1, k2, k3⟩
  · rw [pr.len, it.len]
    simpa using congrArg List.length hcore
  · rw [hlk, it.lookup, hm]
    unfold changeLookup shallowest
    rw [depthOf_core hcore]
  · intro n x
    have pt := pre_of_reach ht
    have hns : NInv s.com := pr.com ▸ pr.hist.ninv
    have hnt : NInv t.com := pt.com ▸ pt.hist.ninv
    have hcs : condAt s.com x = condAt t.com x := by
      rw [← pr.com, ← pt.com, pr.hist.cond, pt.hist.cond, eC]
    change Edge s.com n x ↔ Edge t.com n x
    simp only [edge_iff_childAt, Option.isSome_iff_exists, hns.child, hnt.child, hcs]

namespace ExCa

/-! The conjunction of which only the second parent was unknown, added again. -/
def h4 : Call := ⟨[], [half], []⟩
def t4 : Space := (t3.add h4.hps h4.conds h4.forbs).1
theorem hok4 : t3.add h4.hps h4.conds h4.forbs = (t4, none) := by
  have h : (t3.add h4.hps h4.conds h4.forbs).2 = none := by decide +kernel
  unfold t4
  exact pair h
theorem hretried : Attempts ([(h1, none)] ++ (h2, some (.parentNotFound "q")) :: [(h3, none), (h4, none)]) t4 :=
  .snoc (hist := [(h1, none), (h2, some (.parentNotFound "q")), (h3, none)]) htried (by decide +kernel) hok4

end ExCa

/-- After `half` was rejected, its missing parent added and `half` added again, both parents have the child, and the
space is one of successful calls. -/
example : ExCa.t4.childrenOf "q" = ["b"] ∧ ExCa.t4.childrenOf "alg" = ["b"] ∧
    ∃ kept t, Stayed [ExCa.h1, ExCa.h2] kept ∧ Reach [together (kept ++ [ExCa.h3, ExCa.h4])] t ∧
      ∀ v al, ExCa.t4.check v al = t.check v al := by
  refine ⟨by decide +kernel, by decide +kernel, ?_⟩
  obtain ⟨kept, h1, _, h3⟩ := C122_retry_repairs (hist := [(ExCa.h1, none)]) (later := [(ExCa.h3, none), (ExCa.h4, none)])
    ExCa.hretried (by
      intro x hx
      simp only [List.mem_singleton] at hx
      subst hx
      simp [NotHalf]) (by simp) (by simp) (by
      intro c hc _
      have : c = ExCa.half := by simpa [ExCa.h2] using hc
      subst this
      exact ⟨(ExCa.h4, none), by simp, ExCa.half, by simp [ExCa.h4], rfl⟩)
  obtain ⟨t, ht, _, _, _, _, _, _, hc, _⟩ := h3 (by
    intro f hf
    have : f ∈ allForbs kept := by simpa [allForbs, ExCa.h3, ExCa.h4] using hf
    have := Caught.stayed_forbs h1 f this
    simp [allForbs, ExCa.h1, ExCa.h2] at this)
  exact ⟨kept, t, h1, ht, hc⟩

end Verif
