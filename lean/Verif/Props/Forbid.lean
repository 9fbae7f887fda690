import Verif.Lemmas.Opt
import Verif.Lemmas.Reject
import Verif.Props.Graph

/-!
# C09, C10, C50: forbidden clauses and re-indexing
-/

set_option autoImplicit false

namespace Verif
open Verif.Spec

/-- **C09.** The clauses of the space are the added ones, each as often as it was added; a clause is kept
among the unconditional ones exactly when no hyperparameter it is about has a condition (no matter when the
condition was added). -/
theorem C09_clauses_kept_and_classified {calls : List Call} {s : Space} (h : Reach calls s) :
    s.forbs.Perm (allForbs calls) ∧ s.forbs = s.dag.uncond ++ s.dag.condF ∧
    (∀ f ∈ s.dag.uncond, ∀ x ∈ clauseHps f, ¬ Conditional calls x.name) ∧
    (∀ f ∈ s.dag.condF, ∃ x ∈ clauseHps f, Conditional calls x.name) := by
  have hi := sinv_of_reach h
  have hk : ∀ f ∈ s.forbs, ∀ x ∈ clauseHps f, Known calls x.name := by
    intro f hf x hx
    have := hi.hist.forbNames f (hi.hist.forbs.mem_iff.1 hf) x.name (by rw [names_eq]; exact List.mem_map.2 ⟨x, hx, rfl⟩)
    rw [hi.com] at this
    exact (reach_isNode h _).1 this
  refine ⟨hi.hist.forbs, rfl, ?_, ?_⟩
  · intro f hf x hx
    have := hi.uncond f hf
    simp only [isUncondForb, List.all_eq_true, decide_eq_true_eq] at this
    have hr := this x.name (by rw [names_eq]; exact List.mem_map.2 ⟨x, hx, rfl⟩)
    exact ((C06_roots_no_condition h _).1 hr).2
  · intro f hf
    have := hi.condF f hf
    simp only [isUncondForb, List.all_eq_false, decide_eq_true_eq] at this
    obtain ⟨n, hn, hr⟩ := this
    rw [names_eq] at hn
    obtain ⟨x, hx, rfl⟩ := List.mem_map.1 hn
    refine ⟨x, hx, ?_⟩
    by_cases hc : Conditional calls x.name
    · exact hc
    · exact absurd ((C06_roots_no_condition h _).2
        ⟨hk f (List.mem_append.2 (.inr hf)) x hx, hc⟩) hr

example : Ex.sp2.dag.uncond.length = 1 ∧ Ex.sp2.dag.condF.length = 2 ∧
    (∀ f ∈ Ex.sp2.dag.condF, ∃ x ∈ clauseHps f, Conditional [Ex.call1, Ex.call2] x.name) :=
  ⟨by decide +kernel, by decide +kernel, (C09_clauses_kept_and_classified Ex.reach2).2.2.2⟩

/-- Hyperparameters of one history are determined by their names. -/
theorem reach_hp_inj {calls : List Call} {s : Space} (h : Reach calls s) :
    ∀ x ∈ allHps calls, ∀ y ∈ allHps calls, x.name = y.name → x = y := by
  have hi := sinv_of_reach h
  intro x hx y hy e
  have h1 := hi.hist.hp.2 ⟨hx, rfl⟩
  have h2 := hi.hist.hp.2 ⟨hy, e.symm⟩
  rw [h1] at h2
  exact Option.some.inj h2

theorem forb_any_iff {fs : List Forb} {idx : Name → Nat} {v : Vec} :
    (fs.any (fun f => f.onVec idx v)) = true ↔ ∃ f ∈ fs, Forbids (asg idx v) f := by
  simp only [List.any_eq_true, onVec_iff]

theorem forbids_represents {calls : List Call} {s : Space} (h : Reach calls s) {v : Vec} {a : Assign}
    (hv : Represents s v a) {f : Forb} (hf : f ∈ allForbs calls) :
    Forbids (asg s.idx v) f ↔ Forbids a f := by
  have hi := sinv_of_reach h
  refine forbids_congr f (fun x hx => asg_of_represents hv ?_)
  have := hi.hist.forbNames f hf x.name
    (by rw [names_eq]; exact List.mem_map.2 ⟨x, hx, rfl⟩)
  rw [hi.com] at this
  exact this

/-- **C10.** The merged clauses that validation uses forbid a vector exactly when one of the added clauses
forbids it. -/
theorem C10_merged_clauses_equivalent {calls : List Call} {s : Space} (h : Reach calls s)
    (hown : OwnClauses calls) {v : Vec} {a : Assign} (hv : Represents s v a) :
    (s.fast.any (fun f => f.onVec s.idx v)) = true ↔ ∃ f ∈ allForbs calls, Forbids a f := by
  have hi := sinv_of_reach h
  have hmem : ∀ f, f ∈ s.dag.uncond ++ s.dag.condF ↔ f ∈ allForbs calls :=
    fun f => hi.hist.forbs.mem_iff
  rw [forb_any_iff, optimizedForbs_on (reach_hp_inj h)
    (fun f hf => hown f ((hmem f).1 hf)) (fun f hf => hi.hist.forbWf f ((hmem f).1 hf)) hi.fast]
  constructor
  · rintro ⟨f, hf, hfa⟩
    have hf' := (hmem f).1 hf
    exact ⟨f, hf', (forbids_represents h hv hf').1 hfa⟩
  · rintro ⟨f, hf, hfa⟩
    exact ⟨f, (hmem f).2 hf, (forbids_represents h hv hf).2 hfa⟩

/-- Everything in the example is built from the hyperparameters of the space. -/
theorem Ex.own2 : OwnClauses [Ex.call1, Ex.call2] := by
  intro f hf h hh
  simp only [allForbs, Ex.call1, Ex.call2, List.flatMap_cons, List.flatMap_nil, List.append_nil,
    List.cons_append, List.nil_append, List.mem_cons, List.not_mem_nil, or_false] at hf
  rcases hf with rfl | rfl | rfl <;>
  · simp only [Ex.forb1, Ex.forb2, Ex.forb3, clauseHps, clauseHpsL, List.cons_append, List.nil_append,
      List.mem_cons, List.not_mem_nil, or_false] at hh
    rcases hh with rfl | rfl <;> simp [allHps, Ex.call1, Ex.call2]

/-- `alg = "b"`, `o = "hi"` in the example: two of the three clauses were merged into one. -/
example : Ex.sp2.fast.length = 2 ∧
    (Ex.sp2.fast.any (fun f => f.onVec Ex.sp2.idx [some 1, some 0, none, some 2, none])) = true := by
  refine ⟨by decide +kernel, ?_⟩
  rw [C10_merged_clauses_equivalent Ex.reach2 Ex.own2 (a := asg Ex.sp2.idx [some 1, some 0, none, some 2, none])
    ⟨by decide +kernel, fun i n hin => by
      have hn := reach_ninv Ex.reach2
      simp only [asg, Space.idx, idx_unique hn.nodup hin]⟩]
  refine ⟨Ex.forb1, by simp [allForbs, Ex.call1, Ex.call2], ?_⟩
  rw [← onVec_iff]
  decide +kernel

namespace Ex
def hpAA : HP := ⟨"aa", .const (.int 7), .int 7⟩
def hpM : HP := ⟨"m", .cat [.str "a", .str "b", .str "z"], .str "z"⟩
/-- Another hyperparameter object with the same name and another order of the choices. -/
def hpM' : HP := ⟨"m", .cat [.str "b", .str "a", .str "z"], .str "z"⟩
def callF : Call := ⟨[hpAA, hpM], [], [.and [.eq hpAA (.int 7) 1, .eq hpM (.str "a") 0],
  .and [.eq hpAA (.int 7) 1, .eq hpM' (.str "b") 0]]⟩
def spF : Space := committed {} callF
theorem reachF : Reach [callF] spF :=
  Reach.snoc (calls := []) .nil (by decide +kernel)
    (add_of_stages [("aa", some (.int 7)), ("m", some (.str "z"))] [some 1, some 2]
      [("aa", .int 7), ("m", .str "z")]
      (by decide +kernel) (by decide +kernel) (by decide +kernel)
      (by decide +kernel) (by decide +kernel) (by decide +kernel))
end Ex

/-- The restriction in C10 is needed: `add` only compares names, so a clause built from another object with the
name of a hyperparameter of the space is accepted, and merging then forbids vectors that no clause
forbids. -/
theorem C10_foreign_hyperparameter_differs :
    ∃ calls s v, Reach calls s ∧ (s.fast.any (fun f => f.onVec s.idx v)) = true ∧
      ∀ f ∈ allForbs calls, f.onVec s.idx v = false :=
  ⟨[Ex.callF], Ex.spF, [some 1, some 1], Ex.reachF, by decide +kernel, by decide +kernel⟩

/-- **C50.** Adding to a space does not change what earlier conditions and clauses say: in the new
layout they give the result that they gave in the old layout on the part of the configuration that
existed before. -/
theorem C50_meaning_kept {calls : List Call} {s s' : Space} {k : Call} (h : Reach calls s) (hk : k.wf)
    (hadd : s.add k.hps k.conds k.forbs = (s', none)) {v v' : Vec} {a : Assign}
    (hv : Represents s v a) (hv' : Represents s' v' a) :
    (∀ c ∈ allConds calls, c.satVec s.idx v = c.satVec s'.idx v') ∧
    (∀ f ∈ allForbs calls, f.onVec s.idx v = f.onVec s'.idx v') := by
  have h' : Reach (calls ++ [k]) s' := .snoc h hk hadd
  have hi := sinv_of_reach h
  have hsub : ∀ n ∈ s.names, n ∈ s'.names := by
    intro n hn
    have h1 : Known calls n := (reach_isNode h n).1 hn
    refine (reach_isNode h' n).2 ?_
    obtain ⟨x, hx, e⟩ := h1
    exact ⟨x, by simp [allHps] at hx ⊢; exact .inl hx, e⟩
  constructor
  · intro c hc
    rw [Bool.eq_iff_iff, satVec_iff, satVec_iff]
    refine holds_congr c (fun p hp => ?_)
    have hpn : p ∈ s.names := by
      obtain ⟨ch, hch⟩ := wf_child ((reach_wf h).2.1 c hc)
      have : Edge s.com p ch.name := (reach_edge h p ch.name).2
        ⟨c, hc, by simp [childName, hch], by simpa [Cond.parents] using hp⟩
      exact ((reach_ninv h).edges _ _ this).1
    rw [asg_of_represents hv hpn, asg_of_represents hv' (hsub p hpn)]
  · intro f hf
    rw [Bool.eq_iff_iff, onVec_iff, onVec_iff]
    rw [forbids_represents h hv hf, forbids_represents h' hv' (by simp [allForbs] at hf ⊢; exact .inl hf)]

/-- `sp2` is `sp1` with one more clause; the same holds for the step that adds a hyperparameter. -/
example : ∀ c ∈ allConds [Ex.call1a, Ex.call1b],
    c.satVec Ex.sp1b.idx [some 0, some 1, some (2/9), some 1]
      = c.satVec Ex.sp1c.idx [some 0, some 1, some (2/9), some 1, some (1/2)] := by
  have hn := reach_ninv Ex.reach1b
  have hn' := reach_ninv Ex.reach1c
  have hc : ∀ i n, At Ex.sp1b.names i n → At Ex.sp1c.names i n := by
    have e1 : Ex.sp1b.names = ["alg", "c", "k", "o"] := by decide +kernel
    have e2 : Ex.sp1c.names = ["alg", "c", "k", "o", "x"] := by decide +kernel
    rw [e1, e2]
    intro i n hin
    unfold At at hin ⊢
    have : i < 4 := by
      have := (List.getElem?_eq_some_iff.1 hin).1
      simpa using this
    have e : ["alg", "c", "k", "o", "x"] = ["alg", "c", "k", "o"] ++ ["x"] := rfl
    rw [e, List.getElem?_append_left (by simpa using this)]
    exact hin
  refine (C50_meaning_kept (k := Ex.call1c) Ex.reach1b (by decide +kernel) Ex.add1c
    (a := asg Ex.sp1c.idx [some 0, some 1, some (2/9), some 1, some (1/2)]) ⟨by decide +kernel, ?_⟩
    ⟨by decide +kernel, fun i n hin => by simp only [asg, Space.idx, idx_unique hn'.nodup hin]⟩).1
  intro i n hin
  simp only [asg, Space.idx, idx_unique hn'.nodup (hc i n hin)]
  have : i < 4 := by
    have e1 : Ex.sp1b.names = ["alg", "c", "k", "o"] := by decide +kernel
    rw [e1] at hin
    have := (List.getElem?_eq_some_iff.1 hin).1
    simpa using this
  match i, this with
  | 0, _ => rfl
  | 1, _ => rfl
  | 2, _ => rfl
  | 3, _ => rfl

end Verif
