import Verif.Lemmas.EvalVal
import Verif.Lemmas.History
import Verif.Spec.Valid

/-!
# Evaluation on vectors and the specification on assignments
-/

set_option autoImplicit false

namespace Verif
open Verif.Spec

/-- The assignment that a vector stands for under a layout. -/
def asg (idx : Name → Nat) (v : Vec) : Assign := fun n => v.at (idx n)

theorem onEntry_iff (l : Lit) (idx : Name → Nat) (v : Vec) :
    l.test.onEntry (v.at (idx l.parent.name)) = true ↔ LitHolds (asg idx v) l := by
  unfold LitHolds asg
  generalize v.at (idx l.parent.name) = e
  cases l.test with
  | bin op w x =>
    cases op <;> cases e <;> simp [Test.onEntry]
  | isIn ws xs => cases e <;> simp [Test.onEntry]

theorem holds_lit {a : Assign} {l : Lit} : Holds a (.lit l) ↔ LitHolds a l :=
  ⟨fun h => by cases h; assumption, .lit⟩

theorem holds_and {a : Assign} {cs : List Cond} : Holds a (.and cs) ↔ ∀ c ∈ cs, Holds a c :=
  ⟨fun h => by cases h; assumption, .and⟩

theorem holds_or {a : Assign} {cs : List Cond} : Holds a (.or cs) ↔ ∃ c ∈ cs, Holds a c :=
  ⟨fun h => by cases h with | or h1 h2 => exact ⟨_, h1, h2⟩, fun ⟨_, h1, h2⟩ => .or h1 h2⟩

theorem satVec_iff (c : Cond) (idx : Name → Nat) (v : Vec) :
    c.satVec idx v = true ↔ Holds (asg idx v) c := by
  induction c using Cond.induct with
  | hl l => rw [holds_lit]; exact onEntry_iff l idx v
  | ha cs ih =>
    rw [holds_and]; simp only [Cond.satVec]; rw [satVecAll_iff]
    exact ⟨fun h c hc => (ih c hc).1 (h c hc), fun h c hc => (ih c hc).2 (h c hc)⟩
  | ho cs ih =>
    rw [holds_or]; simp only [Cond.satVec]; rw [satVecAny_iff]
    exact ⟨fun ⟨c, hc, h⟩ => ⟨c, hc, (ih c hc).1 h⟩, fun ⟨c, hc, h⟩ => ⟨c, hc, (ih c hc).2 h⟩⟩

theorem litHolds_congr {a b : Assign} {l : Lit} (h : a l.parent.name = b l.parent.name) :
    LitHolds a l ↔ LitHolds b l := by
  unfold LitHolds; rw [h]

/-- A condition only depends on the values of its parents. -/
theorem holds_congr {a b : Assign} (c : Cond) (h : ∀ p ∈ c.parents, a p = b p) :
    Holds a c ↔ Holds b c := by
  induction c using Cond.induct with
  | hl l => rw [holds_lit, holds_lit]; exact litHolds_congr (h _ (by simp [Cond.parents, Cond.dlcs]))
  | ha cs ih =>
    rw [holds_and, holds_and]
    have hh : ∀ c ∈ cs, Holds a c ↔ Holds b c := fun c hc => ih c hc (fun p hp => h p (by
      rw [parents_and, mem_parentsL]; exact ⟨c, hc, hp⟩))
    exact ⟨fun k c hc => (hh c hc).1 (k c hc), fun k c hc => (hh c hc).2 (k c hc)⟩
  | ho cs ih =>
    rw [holds_or, holds_or]
    have hh : ∀ c ∈ cs, Holds a c ↔ Holds b c := fun c hc => ih c hc (fun p hp => h p (by
      rw [parents_or, mem_parentsL]; exact ⟨c, hc, hp⟩))
    exact ⟨fun ⟨c, hc, k⟩ => ⟨c, hc, (hh c hc).1 k⟩, fun ⟨c, hc, k⟩ => ⟨c, hc, (hh c hc).2 k⟩⟩

/-! ## Clauses -/

/-- Induction over clauses. -/
theorem Forb.induct {P : Forb → Prop} (he : ∀ h w x, P (.eq h w x)) (hi : ∀ h ws xs, P (.isIn h ws xs))
    (hr : ∀ op l r, P (.rel op l r)) (ha : ∀ cs, (∀ c ∈ cs, P c) → P (.and cs)) : ∀ f, P f
  | .eq h w x => he h w x
  | .isIn h ws xs => hi h ws xs
  | .rel op l r => hr op l r
  | .and cs => ha cs (go cs)
where
  go : ∀ cs : List Forb, ∀ c ∈ cs, P c
    | [], _, h => by cases h
    | d :: ds, c, h => by
      cases h with
      | head => exact Forb.induct he hi hr ha d
      | tail _ h' => exact go ds c h'

theorem onVecAll_iff {idx : Name → Nat} {v : Vec} {cs : List Forb} :
    Forb.onVecAll idx v cs = true ↔ ∀ c ∈ cs, c.onVec idx v = true := by
  induction cs with
  | nil => simp [Forb.onVecAll]
  | cons c cs ih => simp [Forb.onVecAll, ih]

theorem forbids_and {a : Assign} {fs : List Forb} : Forbids a (.and fs) ↔ ∀ f ∈ fs, Forbids a f :=
  ⟨fun h => by cases h; assumption, .and⟩

theorem forbids_eq {a : Assign} {h : HP} {w : Val} {x : Rat} :
    Forbids a (.eq h w x) ↔ a h.name = some x :=
  ⟨fun h => by cases h; assumption, .eq⟩

theorem forbids_isIn {a : Assign} {h : HP} {ws : List Val} {xs : List Rat} :
    Forbids a (.isIn h ws xs) ↔ ∃ q ∈ xs, a h.name = some q :=
  ⟨fun h => by cases h with | isIn h1 h2 => exact ⟨_, h2, h1⟩, fun ⟨_, h1, h2⟩ => .isIn h2 h1⟩

theorem onVec_iff (f : Forb) (idx : Name → Nat) (v : Vec) :
    f.onVec idx v = true ↔ Forbids (asg idx v) f := by
  induction f using Forb.induct with
  | he h w x =>
    rw [forbids_eq]; unfold asg
    simp only [Forb.onVec]
    cases v.at (idx h.name) <;> simp
  | hi h ws xs =>
    rw [forbids_isIn]; unfold asg
    simp only [Forb.onVec]
    cases v.at (idx h.name) <;> simp
  | hr op l r =>
    simp only [Forb.onVec, relOnEntries]
    constructor
    · intro h
      split at h
      · rename_i x y hx hy
        split at h
        · rename_i u w hu hw
          exact .rel hx hy hu hw h
        · cases h
      · cases h
    · intro h
      cases h with
      | rel h1 h2 h3 h4 h5 =>
        unfold asg at h1 h2
        simp [h1, h2, h3, h4, h5]
  | ha cs ih =>
    rw [forbids_and]; simp only [Forb.onVec]; rw [onVecAll_iff]
    exact ⟨fun h c hc => (ih c hc).1 (h c hc), fun h c hc => (ih c hc).2 (h c hc)⟩

theorem names_eq : ∀ f : Forb, f.names = (clauseHps f).map HP.name
  | .eq h w x => rfl
  | .isIn h ws xs => rfl
  | .rel op l r => rfl
  | .and cs => by simp only [Forb.names, clauseHps]; exact go cs
where
  go : ∀ cs : List Forb, Forb.namesL cs = (clauseHpsL cs).map HP.name
    | [] => rfl
    | c :: cs => by simp [Forb.namesL, clauseHpsL, names_eq c, go cs]

theorem mem_clauseHpsL {cs : List Forb} {h : HP} :
    h ∈ clauseHpsL cs ↔ ∃ c ∈ cs, h ∈ clauseHps c := by
  induction cs with
  | nil => simp [clauseHpsL]
  | cons c cs ih => simp [clauseHpsL, ih]

/-- A clause only depends on the values of the hyperparameters it is about. -/
theorem forbids_congr {a b : Assign} (f : Forb) (h : ∀ x ∈ clauseHps f, a x.name = b x.name) :
    Forbids a f ↔ Forbids b f := by
  induction f using Forb.induct with
  | he x w q => rw [forbids_eq, forbids_eq, h x (by simp [clauseHps])]
  | hi x ws qs => rw [forbids_isIn, forbids_isIn, h x (by simp [clauseHps])]
  | hr op l r =>
    have hl := h l (by simp [clauseHps])
    have hr := h r (by simp [clauseHps])
    constructor <;> intro k <;> cases k with
    | rel h1 h2 h3 h4 h5 => exact .rel (by simp_all) (by simp_all) h3 h4 h5
  | ha cs ih =>
    rw [forbids_and, forbids_and]
    have hh : ∀ c ∈ cs, Forbids a c ↔ Forbids b c := fun c hc => ih c hc (fun p hp => h p (by
      simp only [clauseHps]; rw [mem_clauseHpsL]; exact ⟨c, hc, hp⟩))
    exact ⟨fun k c hc => (hh c hc).1 (k c hc), fun k c hc => (hh c hc).2 (k c hc)⟩

/-! ## Vectors of a space -/

theorem asg_of_represents {s : Space} {v : Vec} {a : Assign} (h : Represents s v a) {n : Name}
    (hn : n ∈ s.names) : asg s.idx v n = a n :=
  h.2 _ _ (idx_spec hn).1

end Verif
