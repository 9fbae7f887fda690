import Verif.Lemmas.Struct
import Verif.Lemmas.Eq

/-!
# Invariant of built spaces
-/

set_option autoImplicit false

namespace Verif
open Verif.Spec

/-! ## Equal conditions have the same parents -/

/-- Parents of a list of components. -/
def parentsL (cs : List Cond) : List Name := (Cond.dlcsL cs).map (fun l => l.parent.name)

theorem parents_and (cs : List Cond) : (Cond.and cs).parents = parentsL cs := by
  simp [Cond.parents, Cond.dlcs, parentsL]

theorem parents_or (cs : List Cond) : (Cond.or cs).parents = parentsL cs := by
  simp [Cond.parents, Cond.dlcs, parentsL]

theorem parentsL_cons (c : Cond) (cs : List Cond) :
    parentsL (c :: cs) = c.parents ++ parentsL cs := by
  simp [Cond.parents, Cond.dlcsL, parentsL]

theorem mem_parentsL {cs : List Cond} {q : Name} :
    q ∈ parentsL cs ↔ ∃ c ∈ cs, q ∈ c.parents := by
  induction cs with
  | nil => simp [parentsL, Cond.dlcsL]
  | cons c cs ih => simp [parentsL_cons, ih]

mutual
theorem pyEq_parents : ∀ (c d : Cond), c.pyEq d = true → ∀ q, q ∈ c.parents ↔ q ∈ d.parents
  | .lit a, .lit b, h, q => by
    simp only [Cond.pyEq, Lit.pyEq, Bool.and_eq_true] at h
    simp [Cond.parents, Cond.dlcs, HP.pyEq_name h.1.2]
  | .and cs, .and ds, h, q => by
    simp only [Cond.pyEq, Bool.and_eq_true, List.all_eq_true] at h
    rw [parents_and, parents_and]
    exact ⟨allIn_parents cs ds h.1.2 q, fun hq => by
      obtain ⟨d, hd, hqd⟩ := mem_parentsL.1 hq
      exact anyEq_parents cs d (h.2 d hd) q hqd⟩
  | .or cs, .or ds, h, q => by
    simp only [Cond.pyEq, Bool.and_eq_true, List.all_eq_true] at h
    rw [parents_or, parents_or]
    exact ⟨allIn_parents cs ds h.1.2 q, fun hq => by
      obtain ⟨d, hd, hqd⟩ := mem_parentsL.1 hq
      exact anyEq_parents cs d (h.2 d hd) q hqd⟩
  | .lit _, .and _, h, _ => by simp [Cond.pyEq] at h
  | .lit _, .or _, h, _ => by simp [Cond.pyEq] at h
  | .and _, .lit _, h, _ => by simp [Cond.pyEq] at h
  | .and _, .or _, h, _ => by simp [Cond.pyEq] at h
  | .or _, .lit _, h, _ => by simp [Cond.pyEq] at h
  | .or _, .and _, h, _ => by simp [Cond.pyEq] at h
theorem allIn_parents : ∀ (cs ds : List Cond), Cond.allIn cs ds = true →
    ∀ q, q ∈ parentsL cs → q ∈ parentsL ds
  | [], _, _, q, hq => by simp [parentsL, Cond.dlcsL] at hq
  | c :: cs, ds, h, q, hq => by
    simp only [Cond.allIn, Bool.and_eq_true, List.any_eq_true] at h
    rw [parentsL_cons, List.mem_append] at hq
    rcases hq with hq | hq
    · obtain ⟨d, hd, hcd⟩ := h.1
      exact mem_parentsL.2 ⟨d, hd, (pyEq_parents c d hcd q).1 hq⟩
    · exact allIn_parents cs ds h.2 q hq
theorem anyEq_parents : ∀ (cs : List Cond) (d : Cond), Cond.anyEq cs d = true →
    ∀ q, q ∈ d.parents → q ∈ parentsL cs
  | [], _, h, _, _ => by simp [Cond.anyEq] at h
  | c :: cs, d, h, q, hq => by
    simp only [Cond.anyEq, Bool.or_eq_true] at h
    rw [parentsL_cons, List.mem_append]
    rcases h with h | h
    · exact .inl ((pyEq_parents c d h q).2 hq)
    · exact .inr (anyEq_parents cs d h q hq)
end

mutual
/-- A condition built by the constructors has a literal. -/
theorem wf0_dlcs_ne : ∀ c : Cond, c.wf0 = true → c.dlcs ≠ []
  | .lit l, _ => by simp [Cond.dlcs]
  | .and cs, h => by
    simp only [Cond.wf0, Bool.and_eq_true, decide_eq_true_eq] at h
    rw [Cond.dlcs]
    exact wf0L_dlcs_ne cs h.2 (by intro h0; simp [h0] at h)
  | .or cs, h => by
    simp only [Cond.wf0, Bool.and_eq_true, decide_eq_true_eq] at h
    rw [Cond.dlcs]
    exact wf0L_dlcs_ne cs h.2 (by intro h0; simp [h0] at h)
theorem wf0L_dlcs_ne : ∀ cs : List Cond, Cond.wf0L cs = true → cs ≠ [] → Cond.dlcsL cs ≠ []
  | [], _, h => absurd rfl h
  | c :: cs, h, _ => by
    simp only [Cond.wf0L, Bool.and_eq_true] at h
    rw [Cond.dlcsL]
    intro h0
    exact wf0_dlcs_ne c h.1 (List.append_eq_nil_iff.1 h0).1
end

theorem wf_parents_ne {c : Cond} (h : c.wf = true) : c.parents ≠ [] := by
  simp only [Cond.wf, Bool.and_eq_true] at h
  simp [Cond.parents, wf0_dlcs_ne c h.1]

/-! ## The loop of `add_condition` -/

theorem addCondLoop_ok {ch : Name} {c : Cond} : ∀ (ps : List Name) {ns ns' : Nodes}, DInv ns →
    IsNode ns ch → addCondLoop ns ch c ps = (ns', none) →
    DInv ns' ∧ namesOf ns' = namesOf ns ∧ (∀ n, hpAt ns' n = hpAt ns n) ∧
    (∀ p ∈ ps, IsNode ns p) ∧
    (∀ n, condAt ns' n = if n = ch ∧ ps ≠ [] then some c else condAt ns n) ∧
    (∀ q x, childAt ns' q x = if q ∈ ps ∧ x = ch then some c else childAt ns q x) ∧
    (∀ n q, parentAt ns' n q = if n = ch ∧ q ∈ ps then some c else parentAt ns n q) := by
  intro ps
  induction ps with
  | nil =>
    intro ns ns' hi hch h
    simp only [addCondLoop, Prod.mk.injEq, and_true] at h
    subst h
    simp [hi]
  | cons p ps ih =>
    intro ns ns' hi hch h
    unfold addCondLoop at h
    cases h1 : addCondParent ns ch c p with
    | mk ns1 e =>
      rw [h1] at h
      cases e with
      | some e => simp at h
      | none =>
        obtain ⟨hp, hL, hD, _⟩ := addCondParent_ok hi hch h1
        have hch1 : IsNode ns1 ch := by unfold IsNode; rw [hL.names]; exact hch
        obtain ⟨k1, k2, k3, k4, k5, k6, k7⟩ := ih hD hch1 h
        refine ⟨k1, k2.trans hL.names, fun n => (k3 n).trans (hL.hp n), ?_, ?_, ?_, ?_⟩
        · intro q hq
          rcases List.mem_cons.1 hq with rfl | hq
          · exact hp
          · have := k4 q hq
            unfold IsNode at this ⊢; rwa [hL.names] at this
        · intro n
          rw [k5, hL.cond]
          by_cases h : n = ch
          · by_cases h' : ps = [] <;> simp [h, h']
          · simp [h]
        · intro q x
          rw [k6, hL.child]
          by_cases hx : x = ch
          · by_cases hq : q ∈ ps
            · simp [hx, hq]
            · simp [hx, hq]
          · simp [hx]
        · intro n q
          rw [k7, hL.parent]
          by_cases hx : n = ch
          · by_cases hq : q ∈ ps
            · simp [hx, hq]
            · simp [hx, hq]
          · simp [hx]

/-! ## Structural invariant of the nodes -/

/-- The invariant that holds after every successful operation. -/
structure NInv (ns : Nodes) : Prop extends DInv ns where
  child : ∀ p ch c, childAt ns p ch = some c ↔ condAt ns ch = some c ∧ p ∈ c.parents
  parent : ∀ ch p c, parentAt ns ch p = some c ↔ condAt ns ch = some c ∧ p ∈ c.parents
  cond : ∀ ch c, condAt ns ch = some c →
    c.wf = true ∧ (c.child?.map HP.name = some ch) ∧ ∀ p ∈ c.parents, IsNode ns p
  hpwf : ∀ n h, hpAt ns n = some h → h.wf = true

theorem condAt_isNode {ns : Nodes} {n : Name} {c : Cond} (h : condAt ns n = some c) :
    IsNode ns n := by
  unfold condAt at h
  cases hn : findNode ns n with
  | none => simp [hn] at h
  | some x => exact mem_namesOf_of_find hn

theorem addCondNodes_ok {ns ns' : Nodes} {c : Cond} (hi : NInv ns) (hc : c.wf = true)
    (h : addCondNodes ns c = (ns', none)) :
    ∃ chp, c.child? = some chp ∧ IsNode ns chp.name ∧ NInv ns' ∧ namesOf ns' = namesOf ns ∧
      (∀ n, hpAt ns' n = hpAt ns n) ∧
      (∀ n, condAt ns' n = if n = chp.name then some c else condAt ns n) ∧
      (∀ e, condAt ns chp.name = some e → c.pyEq e = true) ∧
      (∀ p ∈ c.parents, IsNode ns p) := by
  unfold addCondNodes at h
  cases hchild : c.child? with
  | none => simp [hchild] at h
  | some chp =>
    simp only [hchild] at h
    cases hf : findNode ns chp.name with
    | none => simp [hf] at h
    | some cn =>
      simp only [hf] at h
      split at h
      · simp at h
      · rename_i hamb
        have hch : IsNode ns chp.name := mem_namesOf_of_find hf
        have hcn : condAt ns chp.name = cn.cond := by simp [condAt, hf]
        have hpy : ∀ e, condAt ns chp.name = some e → c.pyEq e = true := by
          intro e he
          rw [hcn] at he
          simpa [he] using hamb
        obtain ⟨k1, k2, k3, k4, k5, k6, k7⟩ := addCondLoop_ok c.parents hi.toDInv hch h
        have hne := wf_parents_ne hc
        have k5' : ∀ n, condAt ns' n = if n = chp.name then some c else condAt ns n := by
          intro n; rw [k5]; simp [hne]
        refine ⟨chp, rfl, hch, ⟨k1, ?_, ?_, ?_, ?_⟩, k2, k3, k5', hpy, k4⟩
        · intro p x d
          rw [k6, k5']
          by_cases hx : x = chp.name
          · subst hx
            by_cases hp : p ∈ c.parents
            · simp only [hp, and_true, if_true]
              constructor
              · intro h; cases h; exact ⟨rfl, hp⟩
              · exact fun h => h.1
            · simp only [hp, false_and, if_false, if_true]
              constructor
              · intro h
                obtain ⟨h1, h2⟩ := (hi.child p _ d).1 h
                exact absurd ((pyEq_parents c d (hpy d h1) p).2 h2) hp
              · rintro ⟨h1, h2⟩; cases h1; exact absurd h2 hp
          · simp only [hx, and_false, if_false]
            exact hi.child p x d
        · intro x p d
          rw [k7, k5']
          by_cases hx : x = chp.name
          · subst hx
            by_cases hp : p ∈ c.parents
            · simp only [hp, and_true, if_true]
              constructor
              · intro h; cases h; exact ⟨rfl, hp⟩
              · exact fun h => h.1
            · simp only [hp, and_false, if_false, if_true]
              constructor
              · intro h
                obtain ⟨h1, h2⟩ := (hi.parent _ p d).1 h
                exact absurd ((pyEq_parents c d (hpy d h1) p).2 h2) hp
              · rintro ⟨h1, h2⟩; cases h1; exact absurd h2 hp
          · simp only [hx, false_and, if_false]
            exact hi.parent x p d
        · intro x d hd
          rw [k5'] at hd
          have hV : IsNode ns' = IsNode ns := by funext n; simp only [IsNode, k2]
          rw [hV]
          by_cases hx : x = chp.name
          · simp only [hx, if_true] at hd
            cases hd
            exact ⟨hc, by rw [hchild, hx]; rfl, k4⟩
          · simp only [hx, if_false] at hd
            exact hi.cond x d hd
        · intro n hh he
          rw [k3] at he
          exact hi.hpwf n hh he

/-! ## Adding a hyperparameter -/

theorem findNode_append (ns : Nodes) (x : Node) (n : Name) :
    findNode (ns ++ [x]) n
      = (findNode ns n).or (if x.name = n then some x else none) := by
  unfold findNode
  rw [List.find?_append]
  congr 1
  by_cases h : x.name = n <;> simp [h]

/-- The node created for a new hyperparameter. -/
def newNode (h : HP) : Node := { hp := h, depth := 1, children := [], parents := [], cond := none }

theorem ninv_append {ns : Nodes} (hi : NInv ns) {h : HP} (hw : h.wf = true)
    (hnew : findNode ns h.name = none) :
    NInv (ns ++ [newNode h]) ∧
      (∀ n, condAt (ns ++ [newNode h]) n = condAt ns n) ∧
      (∀ n, hpAt (ns ++ [newNode h]) n = if n = h.name then some h else hpAt ns n) := by
  have hname : (newNode h).name = h.name := rfl
  have hf := findNode_append ns (newNode h)
  rw [hname] at hf
  have hnames : namesOf (ns ++ [newNode h]) = namesOf ns ++ [h.name] := by
    simp [namesOf, hname]
  have hnot : h.name ∉ namesOf ns := findNode_none.1 hnew
  have hcond : ∀ n, condAt (ns ++ [newNode h]) n = condAt ns n := by
    intro n
    unfold condAt
    rw [hf]
    by_cases hn : h.name = n
    · subst hn; simp [hnew, newNode]
    · simp [hn]
  have hhp : ∀ n, hpAt (ns ++ [newNode h]) n = if n = h.name then some h else hpAt ns n := by
    intro n
    unfold hpAt
    rw [hf]
    by_cases hn : n = h.name
    · subst hn; simp [hnew, newNode]
    · have hn' : ¬ h.name = n := fun e => hn e.symm
      simp [hn, hn']
  have hchild : ∀ p ch, childAt (ns ++ [newNode h]) p ch = childAt ns p ch := by
    intro p ch
    unfold childAt
    rw [hf]
    by_cases hn : h.name = p
    · subst hn; simp [hnew, newNode]
    · simp [hn]
  have hparent : ∀ p ch, parentAt (ns ++ [newNode h]) p ch = parentAt ns p ch := by
    intro p ch
    unfold parentAt
    rw [hf]
    by_cases hn : h.name = p
    · subst hn; simp [hnew, newNode]
    · simp [hn]
  have hE : Edge (ns ++ [newNode h]) = Edge ns := by
    funext p c; simp only [edge_iff_childAt, hchild]
  have hV : ∀ n, IsNode (ns ++ [newNode h]) n ↔ IsNode ns n ∨ n = h.name := by
    intro n; simp [IsNode, hnames]
  have hdep : ∀ n, depthOf (ns ++ [newNode h]) n = if n = h.name then 1 else depthOf ns n := by
    intro n
    unfold depthOf
    rw [hf]
    by_cases hn : n = h.name
    · subst hn; simp [hnew, newNode]
    · have hn' : ¬ h.name = n := fun e => hn e.symm
      simp [hn, hn']
  refine ⟨⟨⟨?_, ?_, ?_, ?_, ?_⟩, ?_, ?_, ?_, ?_⟩, hcond, hhp⟩
  · rw [hnames, List.nodup_append]
    refine ⟨hi.nodup, by simp, ?_⟩
    intro a ha b hb
    simp at hb
    subst hb
    exact fun e => hnot (e ▸ ha)
  · intro x hx
    rcases List.mem_append.1 hx with hx | hx
    · exact hi.keys x hx
    · simp at hx; subst hx; simp [newNode]
  · rw [hE]
    intro p c he
    have := hi.edges p c he
    exact ⟨(hV p).2 (.inl this.1), (hV c).2 (.inl this.2)⟩
  · intro p c he
    rw [hE] at he
    have hpc := hi.edges p c he
    have h1 : p ≠ h.name := fun e => hnot (e ▸ hpc.1)
    have h2 : c ≠ h.name := fun e => hnot (e ▸ hpc.2)
    rw [hdep, hdep, if_neg h1, if_neg h2]
    exact hi.good p c he
  · intro n hn
    rw [hE, hdep]
    by_cases he : n = h.name
    · rw [if_pos he]
      exact .one hn
    · rw [if_neg he]
      have hn' : IsNode ns n := ((hV n).1 hn).resolve_right he
      exact (hi.chain n hn').mono (fun a ha => (hV a).2 (.inl ha)) (fun _ _ h => h)
  · intro p ch c; rw [hchild, hcond]; exact hi.child p ch c
  · intro p ch c; rw [hparent, hcond]; exact hi.parent p ch c
  · intro ch c hc
    rw [hcond] at hc
    have := hi.cond ch c hc
    exact ⟨this.1, this.2.1, fun p hp => (hV p).2 (.inl (this.2.2 p hp))⟩
  · intro n k hk
    rw [hhp] at hk
    by_cases he : n = h.name
    · rw [if_pos he] at hk; cases hk; exact hw
    · rw [if_neg he] at hk; exact hi.hpwf n k hk

/-! ## Sorting the nodes -/

theorem findNode_perm {ns ns' : Nodes} (hp : ns'.Perm ns) (hnd : (namesOf ns).Nodup) (n : Name) :
    findNode ns' n = findNode ns n := by
  have hnd' : (namesOf ns').Nodup := (hp.map Node.name).nodup_iff.2 hnd
  cases h : findNode ns n with
  | some x =>
    obtain ⟨h1, h2⟩ := findNode_some h
    rw [← h2]
    exact findNode_of_mem hnd' (hp.mem_iff.2 h1)
  | none =>
    rw [findNode_none] at h ⊢
    intro h'
    exact h ((hp.map Node.name).mem_iff.1 h')

theorem ninv_perm {ns ns' : Nodes} (hp : ns'.Perm ns) (hi : NInv ns) : NInv ns' := by
  have hf := findNode_perm hp hi.nodup
  have h1 : ∀ n, condAt ns' n = condAt ns n := fun n => by simp [condAt, hf]
  have h2 : ∀ n, hpAt ns' n = hpAt ns n := fun n => by simp [hpAt, hf]
  have h3 : ∀ p c, childAt ns' p c = childAt ns p c := fun n _ => by simp [childAt, hf]
  have h4 : ∀ p c, parentAt ns' p c = parentAt ns p c := fun n _ => by simp [parentAt, hf]
  have h5 : ∀ n, depthOf ns' n = depthOf ns n := fun n => by simp [depthOf, hf]
  have hE : Edge ns' = Edge ns := by funext p c; simp only [edge_iff_childAt, h3]
  have hV : IsNode ns' = IsNode ns := by
    funext n
    exact propext (hp.map Node.name).mem_iff
  refine ⟨⟨(hp.map Node.name).nodup_iff.2 hi.nodup, fun x hx => hi.keys x (hp.mem_iff.1 hx), ?_, ?_,
    ?_⟩, ?_, ?_, ?_, ?_⟩
  · rw [hE, hV]; exact hi.edges
  · intro p c; rw [hE, h5, h5]; exact hi.good p c
  · intro n; rw [hE, hV, h5]; exact hi.chain n
  · intro p c d; rw [h3, h1]; exact hi.child p c d
  · intro p c d; rw [h4, h1]; exact hi.parent p c d
  · intro n c; rw [h1, hV]; exact hi.cond n c
  · intro n c; rw [h2]; exact hi.hpwf n c

end Verif
