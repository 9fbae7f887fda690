import Verif.Lemmas.Build
import Verif.Props.Config
import Verif.Props.Change
import Verif.Props.Exchange
import Verif.Spec.Util

/-!
# C41: imputation of inactive values
-/

set_option autoImplicit false

namespace Verif
open Verif.Spec

variable {calls : List Call} {s : Space}

/-- The dictionary that imputation builds. -/
theorem imputeValues_spec {c : Config} {st : Strategy} (f : Node → Val) : ∀ {xs : List Node},
    (∀ x ∈ xs, Imputable s c st x.hp (f x)) →
    imputeValues s c st xs = .ok (xs.map (fun x => (x.name, some (f x)))) := by
  intro xs
  induction xs with
  | nil => intro _; rfl
  | cons x xs ih =>
    intro hall
    have h1 := ih (fun y hy => hall y (List.mem_cons_of_mem x hy))
    obtain ⟨h2, _⟩ := hall x (by simp)
    unfold imputeValues
    rcases h2 with h2 | ⟨h2, h3⟩
    · rw [show x.hp.name = x.name from rfl] at h2
      rw [h2, h1]; rfl
    · rw [show x.hp.name = x.name from rfl] at h2
      rw [h2, h1]
      cases st with
      | default => simp only [fallback, Option.some.injEq] at h3; simp [h3]
      | number q => simp only [fallback, Option.some.injEq] at h3; simp [h3]
      | other => simp [fallback] at h3

theorem lookup_map_nodes {β : Type} (f : Node → β) : ∀ {xs : List Node}, (xs.map Node.name).Nodup → ∀ {x : Node}, x ∈ xs →
    (xs.map (fun x => (x.name, f x))).lookup x.name = some (f x) := by
  intro xs
  induction xs with
  | nil => intro _ x hx; simp at hx
  | cons y ys ih =>
    intro hnd x hx
    simp only [List.map_cons, List.nodup_cons] at hnd
    simp only [List.map_cons, List.lookup_cons]
    rcases List.mem_cons.1 hx with rfl | hx
    · simp
    · have : (x.name == y.name) = false := by
        simp only [beq_eq_false_iff_ne, ne_eq]
        intro e
        exact hnd.1 (e ▸ List.mem_map.2 ⟨x, hx, rfl⟩)
      rw [this]
      exact ih hnd.2 hx

/-- **C41.** Let `f` give, for each hyperparameter, the value of the configuration if it has one and otherwise what the
strategy puts there (the default value, or the number); all these values are legal.  If no clause forbids the completed
configuration, `impute_inactive_values` returns it: reading gives the values of `f` (floats rounded), in
particular the active values are unchanged.  If a clause forbids it, the function raises `ForbiddenValueError`. -/
theorem C41_impute (h : Reach calls s) (hown : OwnClauses calls) (c : Config) (st : Strategy) (f : HP → Val)
    (hf : ∀ x ∈ allHps calls, Imputable s c st x (f x)) :
    ∃ b : Assign, (∀ x ∈ allHps calls, b x.name = x.kind.toVec (roundVal x.kind (f x))) ∧
      (NotForbidden calls b → ∃ c', impute s c st = .ok c' ∧ Represents s c'.vec b ∧
        ∀ x ∈ allHps calls, (c'.getItem s x.name).1 = .ok (roundVal x.kind (f x))) ∧
      (¬ NotForbidden calls b → impute s c st = .error .forbidden) := by
  have hi := sinv_of_reach h
  have hn := reach_ninv h
  have hd := imputeValues_spec (s := s) (c := c) (st := st) (fun x => f x.hp) (xs := s.com)
    (fun x hx => hf _ (node_hp h hx))
  have hlk : ∀ x ∈ s.com, (s.com.map (fun x => (x.name, some (f x.hp)))).lookup x.name = some (some (f x.hp)) :=
    fun x hx => lookup_map_nodes (fun x => some (f x.hp)) hn.nodup hx
  -- the vector of the completed configuration
  let v : Vec := s.com.map (fun x => x.hp.kind.toVec (roundVal x.hp.kind (f x.hp)))
  have hvl : v.length = s.len := by simp [v, hi.len]
  have hvat : ∀ x ∈ s.com, v.at (s.idx x.name) = x.hp.kind.toVec (roundVal x.hp.kind (f x.hp)) := by
    intro x hx
    have hlt : s.idx x.name < s.com.length := by
      have := idx_lt h (mem_names hx); rw [hi.len] at this; exact this
    have hx' : s.com[s.idx x.name] = x := by
      have h1 := (idx_spec (mem_names hx)).1
      unfold At at h1
      obtain ⟨_, h1⟩ := List.getElem?_eq_some_iff.1 h1
      have h2 : (s.com[s.idx x.name]).name = x.name := by
        simpa [namesOf, Space.idx] using h1
      have k1 := findNode_of_mem hn.nodup hx
      have k2 := findNode_of_mem hn.nodup (List.getElem_mem hlt)
      rw [h2, k1] at k2
      exact (Option.some.inj k2).symm
    simp [v, Vec.at, hlt, hx']
  have hv := represents_asg h hvl
  have hb : ∀ x ∈ s.com, asg s.idx v x.name = x.hp.kind.toVec (roundVal x.hp.kind (f x.hp)) := hvat
  obtain ⟨vals, hof, hfill, _⟩ := ofValues_eq h (d := s.com.map (fun x => (x.name, some (f x.hp)))) (v := v)
    (by
      intro kv hkv
      obtain ⟨x, hx, rfl⟩ := List.mem_map.1 hkv
      exact mem_names hx) hvl (by
      intro x hx
      obtain ⟨_, k2, _⟩ := hf x.hp (node_hp h hx)
      obtain ⟨q, hq⟩ := legal_toVec (roundVal_legal (node_wf h hx) k2)
      exact .inl ⟨f x.hp, q, hlk x hx, k2, hq, by rw [hvat x hx, hq]⟩) true
  have himp : impute s c st = (match s.check v true with
      | some e => .error e
      | none => .ok ⟨v, some vals, true⟩) := by
    unfold impute
    rw [hi.com, hd]
    exact hof
  obtain ⟨hc1, hc2⟩ := check_allow_full h hown hv (by
    intro x hx
    obtain ⟨y, hy, rfl⟩ := node_of_hp h hx
    obtain ⟨_, k2, k3⟩ := hf y.hp hx
    obtain ⟨q, hq⟩ := legal_toVec (roundVal_legal (node_wf h hy) k2)
    refine ⟨q, by rw [show y.hp.name = y.name from rfl, hb y hy, hq], ?_⟩
    exact toVec_legal (node_wf h hy) (roundVal_legal (node_wf h hy) k2) hq (roundVal_exact k3))
  refine ⟨asg s.idx v, ?_, ?_, ?_⟩
  · intro x hx
    obtain ⟨y, hy, rfl⟩ := node_of_hp h hx
    exact hb y hy
  · intro hnf
    rw [hc1 hnf] at himp
    refine ⟨_, himp, hv, ?_⟩
    intro x hx
    obtain ⟨y, hy, rfl⟩ := node_of_hp h hx
    rcases hfill y hy with ⟨w, q, k1, _, _, _, k5⟩ | ⟨k1, _, _⟩
    · rw [hlk y hy] at k1
      cases k1
      unfold Config.getItem
      simp only [Option.getD_some, show y.hp.name = y.name from rfl, k5]
    · rw [hlk y hy] at k1
      rcases k1 with k1 | k1 <;> cases k1
  · intro hnf
    rw [hc2 hnf] at himp
    exact himp

/-- **C41**, the default strategy for a configuration built from a dictionary (with integers for integer ranges).  The
completed configuration has the entries of the given one where it has them, and the vector value of the default
elsewhere.  It is returned unless a clause forbids it; reading it gives the values of the given configuration where it
has them, and the default elsewhere. -/
theorem C41_impute_default (h : Reach calls s) (hown : OwnClauses calls) {d : Dict} {al : Bool} {c : Config}
    (hc : Config.ofValues s d al = .ok c)
    (he : ∀ x ∈ allHps calls, ∀ w, d.lookup x.name = some (some w) → ExactInt x.kind w) :
    ∃ b : Assign,
      (∀ x ∈ allHps calls, b x.name = match c.vec.at (s.idx x.name) with
        | some q => some q
        | none => x.kind.toVec x.default) ∧
      (NotForbidden calls b → ∃ c', impute s c .default = .ok c' ∧ Represents s c'.vec b ∧
        ∀ x ∈ allHps calls, (c'.getItem s x.name).1 = match (c.getItem s x.name).1 with
          | .ok w => .ok w
          | .error _ => .ok x.default) ∧
      (¬ NotForbidden calls b → impute s c .default = .error .forbidden) := by
  obtain ⟨_, _, hall⟩ := C21_values_kept h hc
  obtain ⟨b, h1, h2, h3⟩ := C41_impute h hown c .default
    (fun x => match (c.getItem s x.name).1 with | .ok w => w | .error _ => x.default) (by
      intro x hx
      have hw := (reach_wf h).1 x hx
      rcases hall x hx with ⟨w, k1, k2, k3, k4⟩ | ⟨_, _, k4⟩
      · rw [k4]
        exact ⟨.inl k4, roundVal_legal hw k2, roundVal_exact (he x hx w k1)⟩
      · rw [k4]
        exact ⟨.inr ⟨k4, rfl⟩, HP.wf_legal hw, HP.wf_default_exact hw⟩)
  refine ⟨b, ?_, ?_, h3⟩
  · intro x hx
    rw [h1 x hx]
    have hw := (reach_wf h).1 x hx
    rcases hall x hx with ⟨w, k1, k2, k3, k4⟩ | ⟨_, k3, k4⟩
    · obtain ⟨q, hq⟩ := legal_toVec (roundVal_legal hw k2)
      rw [k4, k3, hq]
      simp only
      rw [roundVal_idem, hq]
    · rw [k4, k3]
      simp only
      rw [HP.wf_default_round hw]
  · intro hnf
    obtain ⟨c', k1, k2, k3⟩ := h2 hnf
    refine ⟨c', k1, k2, ?_⟩
    intro x hx
    rw [k3 x hx]
    have hw := (reach_wf h).1 x hx
    rcases hall x hx with ⟨w, _, _, _, k4⟩ | ⟨_, _, k4⟩
    · rw [k4]; simp only; rw [roundVal_idem]
    · rw [k4]; simp only; rw [HP.wf_default_round hw]

theorem fillValues_illegal {d : Dict} : ∀ {xs : List Node} {v : Vec} {vals : List (Name × Val)},
    (∀ x ∈ xs, x.hp.wf = true) →
    (∃ x ∈ xs, ∃ w, d.lookup x.name = some (some w) ∧ x.hp.kind.legalValue w = false) →
    ∃ n, fillValues s d xs v vals = .error (.illegalValue n) := by
  intro xs
  induction xs with
  | nil => intro v vals _ ⟨x, hx, _⟩; simp at hx
  | cons x xs ih =>
    intro v vals hw ⟨y, hy, w, hl, hi⟩
    have hw' := fun y hy => hw y (List.mem_cons_of_mem x hy)
    unfold fillValues
    by_cases hxl : ∃ u, d.lookup x.name = some (some u) ∧ x.hp.kind.legalValue u = false
    · obtain ⟨u, h1, h2⟩ := hxl
      exact ⟨x.name, by simp [h1, h2]⟩
    · have hys : y ∈ xs := by
        rcases List.mem_cons.1 hy with rfl | hy
        · exact absurd ⟨w, hl, hi⟩ hxl
        · exact hy
      have := fun v vals => ih (v := v) (vals := vals) hw' ⟨y, hys, w, hl, hi⟩
      cases hd : d.lookup x.name with
      | none => exact this _ _
      | some o =>
        cases o with
        | none => exact this _ _
        | some u =>
          have hu : x.hp.kind.legalValue u = true := by
            cases e : x.hp.kind.legalValue u with
            | true => rfl
            | false => exact absurd ⟨u, hd, e⟩ hxl
          obtain ⟨q, hq⟩ := legal_toVec (roundVal_legal (hw x (by simp)) hu)
          simp only [hu, hq, Bool.not_true, Bool.false_eq_true, if_false]
          exact this _ _

/-- **C41**, a number as strategy: if some hyperparameter without value does not allow the number, the call raises
`IllegalValueError` for some hyperparameter.  (In particular the number recommended by the documentation, one outside the range
of the values, is never accepted.) -/
theorem C41_number_must_be_legal (h : Reach calls s) {c : Config} (hc : CfgReach s c) {q : Rat}
    (hdec : ∀ x ∈ allHps calls, (c.getItem s x.name).1 ≠ .error .valueError)
    {x : HP} (hx : x ∈ allHps calls) (hun : c.vec.at (s.idx x.name) = none)
    (hill : x.kind.legalValue (.flt q) = false) :
    ∃ n, impute s c (.number q) = .error (.illegalValue n) := by
  have hi := sinv_of_reach h
  have hn := reach_ninv h
  have hco := cacheOk h hc
  let f : Node → Val := fun y => match (c.getItem s y.name).1 with | .ok w => w | .error _ => .flt q
  have hd : ∀ xs : List Node, (∀ y ∈ xs, y ∈ s.com) →
      imputeValues s c (.number q) xs = .ok (xs.map (fun x => (x.name, some (f x)))) := by
    intro xs
    induction xs with
    | nil => intro _; rfl
    | cons y ys ih =>
      intro hall
      have h1 := ih (fun z hz => hall z (List.mem_cons_of_mem y hz))
      have hy := hall y (by simp)
      unfold imputeValues
      rcases getItem_cases h hco hy with ⟨_, hg⟩ | ⟨q', hq', ⟨w, hg, _⟩ | ⟨_, hg⟩⟩
      · rw [hg, h1]; simp [f, hg]
      · rw [hg, h1]; simp [f, hg]
      · exact absurd hg (hdec y.hp (node_hp h hy))
  obtain ⟨y, hy, rfl⟩ := node_of_hp h hx
  have hg : (c.getItem s y.name).1 = .error .keyError := by
    rcases getItem_cases h hco hy with ⟨_, hg⟩ | ⟨q', hq', _⟩
    · exact hg
    · rw [show y.hp.name = y.name from rfl, hq'] at hun; cases hun
  obtain ⟨n, hfill⟩ := fillValues_illegal (s := s) (d := s.com.map (fun x => (x.name, some (f x)))) (xs := s.com)
    (v := List.replicate s.len none) (vals := []) (fun z hz => node_wf h hz)
    ⟨y, hy, .flt q, by rw [lookup_map_nodes (fun x => some (f x)) hn.nodup hy]; simp [f, hg], hill⟩
  refine ⟨n, ?_⟩
  unfold impute
  rw [hi.com, hd s.com (fun _ hz => hz)]
  simp only
  unfold Config.ofValues
  rw [if_neg, hi.com, hfill]
  simp only [List.any_eq_true, Bool.and_eq_true, decide_eq_true_eq, not_exists, not_and]
  intro kv hkv hm
  obtain ⟨z, hz, rfl⟩ := List.mem_map.1 hkv
  exact absurd (by rw [hi.com]; exact mem_names hz) hm

namespace Ex
/-- `{"p": "b"}` in the chain `x | p == "a"`, `y | x == "a"`. -/
def cfgB : Config := ⟨[some 1, none, none], some [("p", .str "b")], false⟩
theorem cfgB_eq : Config.ofValues spL [("p", some (.str "b"))] = .ok cfgB :=
  ofValues_stages _ _ (by decide +kernel) (by decide +kernel) (by decide +kernel)

/-- The default configuration of `spFN`. -/
def cfgFN : Config := ⟨[some 0, some 0, none], some [("p", .str "a"), ("r", .str "a")], false⟩
theorem cfgFN_eq : Config.ofValues spFN [("p", some (.str "a")), ("r", some (.str "a"))] = .ok cfgFN :=
  ofValues_stages _ _ (by decide +kernel) (by decide +kernel) (by decide +kernel)
theorem ownFN : OwnClauses [callFN] := by
  have : ∀ f ∈ allForbs [callFN], ∀ h ∈ clauseHps f, h ∈ allHps [callFN] := by decide +kernel
  exact this
end Ex

/-- The chain meets the hypotheses of C41: `x` and `y` get their defaults, `p` keeps its value. -/
example : ∃ c', impute Ex.spL Ex.cfgB .default = .ok c' ∧ c'.vec = [some 1, some 0, some 0] ∧
    (c'.getItem Ex.spL "p").1 = .ok (.str "b") ∧ (c'.getItem Ex.spL "y").1 = .ok (.str "a") := by
  obtain ⟨b, h1, h2, _⟩ := C41_impute_default Ex.reachL (by intro f hf; simp [allForbs, Ex.callL] at hf) Ex.cfgB_eq
    (by intro x hx w _ l u e
        simp only [allHps, Ex.callL, List.flatMap_cons, List.flatMap_nil, List.append_nil, List.mem_cons,
          List.not_mem_nil, or_false] at hx
        rcases hx with rfl | rfl | rfl <;> cases e)
  obtain ⟨c', k1, k2, k3⟩ := h2 (by intro f hf; simp [allForbs, Ex.callL] at hf)
  refine ⟨c', k1, ?_, ?_, ?_⟩
  · obtain ⟨e1, e2⟩ := k2
    have a0 := e2 0 "p" (by unfold At; decide +kernel)
    have a1 := e2 1 "x" (by unfold At; decide +kernel)
    have a2 := e2 2 "y" (by unfold At; decide +kernel)
    have b0 := h1 (Ex.ab "p") (by simp [allHps, Ex.callL])
    have b1 := h1 (Ex.ab "x") (by simp [allHps, Ex.callL])
    have b2 := h1 (Ex.ab "y") (by simp [allHps, Ex.callL])
    rw [show Ex.spL.len = 3 by decide +kernel] at e1
    refine vec_ext e1 (by rfl) ?_
    intro i hi
    match i, hi with
    | 0, _ => rw [a0]; exact b0.trans (by decide +kernel)
    | 1, _ => rw [a1]; exact b1.trans (by decide +kernel)
    | 2, _ => rw [a2]; exact b2.trans (by decide +kernel)
  · have := k3 (Ex.ab "p") (by simp [allHps, Ex.callL])
    exact this.trans (by decide +kernel)
  · have := k3 (Ex.ab "y") (by simp [allHps, Ex.callL])
    exact this.trans (by decide +kernel)

/-- A configuration that is valid may have no imputation: the default of an inactive hyperparameter violates a clause
together with an active value. -/
theorem C41_imputation_forbidden : ∃ calls s d c, Reach calls s ∧ OwnClauses calls ∧ Config.ofValues s d = .ok c ∧
    s.check c.vec = none ∧ impute s c .default = .error .forbidden := by
  refine ⟨[Ex.callFN], Ex.spFN, _, Ex.cfgFN, Ex.reachFN, Ex.ownFN, Ex.cfgFN_eq, by decide +kernel, ?_⟩
  obtain ⟨b, h1, _, h3⟩ := C41_impute_default Ex.reachFN Ex.ownFN Ex.cfgFN_eq
    (by intro x hx w _ l u e
        simp only [allHps, Ex.callFN, List.flatMap_cons, List.flatMap_nil, List.append_nil, List.mem_cons,
          List.not_mem_nil, or_false] at hx
        rcases hx with rfl | rfl | rfl <;> cases e)
  refine h3 ?_
  intro hn
  have b1 := h1 (Ex.ab "r") (by simp [allHps, Ex.callFN])
  have b2 := h1 (Ex.ab "x") (by simp [allHps, Ex.callFN])
  refine hn (.and [.eq (Ex.ab "x") (.str "a") 0, .eq (Ex.ab "r") (.str "a") 0]) (by simp [allForbs, Ex.callFN]) ?_
  refine .and ?_
  intro f hf
  simp only [List.mem_cons, List.not_mem_nil, or_false] at hf
  rcases hf with rfl | rfl
  · exact .eq (b2.trans (by decide +kernel))
  · exact .eq (b1.trans (by decide +kernel))

/-- With the number `-1`, which is outside all ranges, the chain raises `IllegalValueError`. -/
example : ∃ n, impute Ex.spL Ex.cfgB (.number (-1)) = .error (.illegalValue n) :=
  C41_number_must_be_legal Ex.reachL (.values Ex.cfgB_eq) (by decide +kernel) (x := Ex.ab "x")
    (by simp [allHps, Ex.callL]) (by decide +kernel) (by decide +kernel)

end Verif
