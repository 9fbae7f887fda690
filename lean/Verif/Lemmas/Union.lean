import Verif.Model.Union
import Verif.Spec.Union
import Verif.Lemmas.Subst
import Verif.Props.Accept

/-!
# Lemmas about renaming
-/

set_option autoImplicit false

namespace Verif
open Verif.Spec

/-! ## New names -/

theorem str_append_ne {p d x : String} (hx : x ≠ "") : p ++ d ++ x ≠ p := by
  intro h
  have := congrArg String.length h
  simp only [String.length_append] at this
  apply hx
  rw [← String.length_eq_zero_iff]
  omega

theorem str_append_ne_empty {p d x : String} (hx : x ≠ "") : p ++ d ++ x ≠ "" := by
  intro h
  have := congrArg String.length h
  simp only [String.length_append, String.length_empty] at this
  apply hx
  rw [← String.length_eq_zero_iff]
  omega

theorem append_prefix (p x : String) : p.toList <+: (p ++ x).toList := by
  rw [String.toList_append]
  exact List.prefix_append _ _

theorem str_append_cancel {p x y : String} (h : p ++ x = p ++ y) : x = y := by
  have := congrArg String.toList h
  rw [String.toList_append, String.toList_append] at this
  exact String.toList_inj.1 (List.append_cancel_left this)

variable {pfx delim : String}

theorem newName_special {n : Name} (h : n = "" ∨ n = pfx) : newName pfx delim n = pfx := by
  unfold newName; rw [if_pos h]

theorem newName_kept {n : Name} (h : ¬ (n = "" ∨ n = pfx)) (hp : (pfx ++ delim).toList <+: n.toList) :
    newName pfx delim n = n := by
  unfold newName
  rw [if_neg h, if_pos (List.isPrefixOf_iff_prefix.2 hp)]

theorem newName_new {n : Name} (h : ¬ (n = "" ∨ n = pfx)) (hp : ¬ (pfx ++ delim).toList <+: n.toList) :
    newName pfx delim n = pfx ++ delim ++ n := by
  unfold newName
  rw [if_neg h, if_neg (fun e => hp (List.isPrefixOf_iff_prefix.1 e))]

theorem newName_eq_iff {x y : Name} :
    newName pfx delim x = newName pfx delim y ↔ x = y ∨ Clash pfx delim x y ∨ Clash pfx delim y x := by
  by_cases hx : x = "" ∨ x = pfx
  · rw [newName_special hx]
    by_cases hy : y = "" ∨ y = pfx
    · rw [newName_special hy]
      simp only [true_iff]
      rcases hx with rfl | rfl <;> rcases hy with rfl | rfl
      · exact .inl rfl
      · exact .inr (.inl (.inl ⟨rfl, rfl⟩))
      · exact .inr (.inr (.inl ⟨rfl, rfl⟩))
      · exact .inl rfl
    · have hne : y ≠ "" := fun e => hy (.inl e)
      have hr : ¬ (x = y ∨ Clash pfx delim x y ∨ Clash pfx delim y x) := by
        rintro (rfl | (⟨_, e⟩ | ⟨e, h1, h2, _⟩) | (⟨e, _⟩ | ⟨e, h1, h2, _⟩))
        · exact hy hx
        · exact hy (.inr e)
        · rcases hx with e' | e'
          · exact h1 e'
          · exact h2 e'
        · exact hne e
        · rcases hx with e' | e'
          · exact str_append_ne_empty h1 (e.symm.trans e')
          · exact str_append_ne h1 (e.symm.trans e')
      refine iff_of_false ?_ hr
      by_cases hp : (pfx ++ delim).toList <+: y.toList
      · rw [newName_kept hy hp]
        exact fun e => hy (.inr e.symm)
      · rw [newName_new hy hp]
        exact fun e => str_append_ne hne e.symm
  · have hxe : x ≠ "" := fun e => hx (.inl e)
    have hxp : x ≠ pfx := fun e => hx (.inr e)
    by_cases hy : y = "" ∨ y = pfx
    · rw [newName_special hy]
      have hr : ¬ (x = y ∨ Clash pfx delim x y ∨ Clash pfx delim y x) := by
        rintro (rfl | (⟨e, _⟩ | ⟨e, h1, h2, _⟩) | (⟨_, e⟩ | ⟨e, h1, h2, _⟩))
        · exact hx hy
        · exact hxe e
        · rcases hy with e' | e'
          · exact str_append_ne_empty h1 (e.symm.trans e')
          · exact str_append_ne h1 (e.symm.trans e')
        · exact hxp e
        · rcases hy with e' | e'
          · exact h1 e'
          · exact h2 e'
      refine iff_of_false ?_ hr
      by_cases hp : (pfx ++ delim).toList <+: x.toList
      · rw [newName_kept hx hp]
        exact hxp
      · rw [newName_new hx hp]
        exact str_append_ne hxe
    · have hye : y ≠ "" := fun e => hy (.inl e)
      have hyp : y ≠ pfx := fun e => hy (.inr e)
      by_cases hpx : (pfx ++ delim).toList <+: x.toList <;> by_cases hpy : (pfx ++ delim).toList <+: y.toList
      · rw [newName_kept hx hpx, newName_kept hy hpy]
        constructor
        · exact .inl
        · rintro (e | (⟨e, _⟩ | ⟨_, _, _, e⟩) | (⟨e, _⟩ | ⟨_, _, _, e⟩))
          · exact e
          · exact absurd e hxe
          · exact absurd hpx e
          · exact absurd e hye
          · exact absurd hpy e
      · rw [newName_kept hx hpx, newName_new hy hpy]
        constructor
        · intro e
          exact .inr (.inr (.inr ⟨e, hye, hyp, hpy⟩))
        · rintro (e | (⟨e, _⟩ | ⟨_, _, _, e⟩) | (⟨e, _⟩ | ⟨e, _⟩))
          · exact absurd (e ▸ hpx) hpy
          · exact absurd e hxe
          · exact absurd hpx e
          · exact absurd e hye
          · exact e
      · rw [newName_new hx hpx, newName_kept hy hpy]
        constructor
        · intro e
          exact .inr (.inl (.inr ⟨e.symm, hxe, hxp, hpx⟩))
        · rintro (e | (⟨e, _⟩ | ⟨e, _⟩) | (⟨e, _⟩ | ⟨_, _, _, e⟩))
          · exact absurd (e ▸ hpy) hpx
          · exact absurd e hxe
          · exact e.symm
          · exact absurd e hye
          · exact absurd hpy e
      · rw [newName_new hx hpx, newName_new hy hpy]
        constructor
        · intro e
          exact .inl (str_append_cancel e)
        · rintro (e | (⟨e, _⟩ | ⟨e, _⟩) | (⟨e, _⟩ | ⟨e, _⟩))
          · rw [e]
          · exact absurd e hxe
          · exact absurd (e ▸ append_prefix _ _) hpy
          · exact absurd e hye
          · exact absurd (e ▸ append_prefix _ _) hpx

theorem newName_idem (n : Name) : newName pfx delim (newName pfx delim n) = newName pfx delim n := by
  by_cases hn : n = "" ∨ n = pfx
  · rw [newName_special hn, newName_special (.inr rfl)]
  · by_cases hp : (pfx ++ delim).toList <+: n.toList
    · rw [newName_kept hn hp, newName_kept hn hp]
    · rw [newName_new hn hp]
      have hne : n ≠ "" := fun e => hn (.inl e)
      refine newName_kept ?_ (append_prefix _ _)
      rintro (e | e)
      · exact str_append_ne_empty hne e
      · exact str_append_ne hne e

/-! ## Renamed conditions and clauses -/

variable {r : Name → Name}

theorem renameL_eq {cs : List Cond} : Cond.renameL r cs = cs.map (Cond.rename r) := by
  induction cs with
  | nil => rfl
  | cons c cs ih => simp [Cond.renameL, ih]

theorem forb_renameL_eq {fs : List Forb} : Forb.renameL r fs = fs.map (Forb.rename r) := by
  induction fs with
  | nil => rfl
  | cons c cs ih => simp [Forb.renameL, ih]

theorem rename_dlcs (c : Cond) : (c.rename r).dlcs = c.dlcs.map (Lit.rename r) := by
  induction c using Cond.induct with
  | hl l => rfl
  | ha cs ih =>
    simp only [Cond.rename, Cond.dlcs]
    induction cs with
    | nil => rfl
    | cons c cs ihc =>
      simp only [Cond.renameL, Cond.dlcsL, List.map_append]
      rw [ih c (by simp), ihc (fun d hd => ih d (by simp [hd]))]
  | ho cs ih =>
    simp only [Cond.rename, Cond.dlcs]
    induction cs with
    | nil => rfl
    | cons c cs ihc =>
      simp only [Cond.renameL, Cond.dlcsL, List.map_append]
      rw [ih c (by simp), ihc (fun d hd => ih d (by simp [hd]))]

theorem rename_child (c : Cond) : (c.rename r).child? = c.child?.map (HP.rename r) := by
  unfold Cond.child?
  rw [rename_dlcs]
  cases c.dlcs with
  | nil => rfl
  | cons l ls => rfl

theorem rename_childName (c : Cond) : childName (c.rename r) = (childName c).map r := by
  unfold childName
  rw [rename_child]
  cases c.child? with
  | none => rfl
  | some h => rfl

theorem rename_hps (f : Forb) : clauseHps (f.rename r) = (clauseHps f).map (HP.rename r) := by
  induction f using Forb.induct with
  | he h w x => rfl
  | hi h ws xs => rfl
  | hr op a b => rfl
  | ha fs ih =>
    simp only [Forb.rename, clauseHps]
    induction fs with
    | nil => rfl
    | cons c cs ihc =>
      simp only [Forb.renameL, clauseHpsL, List.map_append]
      rw [ih c (by simp), ihc (fun d hd => ih d (by simp [hd]))]

theorem rename_lit_holds {a : Assign} (l : Lit) : LitHolds a (l.rename r) ↔ LitHolds (a.part r) l := by
  obtain ⟨ch, p, t⟩ := l
  cases t with
  | bin op v x => cases op <;> exact Iff.rfl
  | isIn vs xs => exact Iff.rfl

theorem rename_holds {a : Assign} (c : Cond) : Holds a (c.rename r) ↔ Holds (a.part r) c := by
  induction c using Cond.induct with
  | hl l =>
    constructor
    · intro h
      cases h with
      | lit h => exact .lit ((rename_lit_holds l).1 h)
    · intro h
      cases h with
      | lit h => exact .lit ((rename_lit_holds l).2 h)
  | ha cs ih =>
    simp only [Cond.rename]
    rw [renameL_eq]
    constructor
    · intro h
      cases h with
      | and h => exact .and fun c hc => (ih c hc).1 (h _ (List.mem_map.2 ⟨c, hc, rfl⟩))
    · intro h
      cases h with
      | and h =>
        refine .and fun d hd => ?_
        obtain ⟨c, hc, rfl⟩ := List.mem_map.1 hd
        exact (ih c hc).2 (h c hc)
  | ho cs ih =>
    simp only [Cond.rename]
    rw [renameL_eq]
    constructor
    · intro h
      cases h with
      | or hm h =>
        obtain ⟨c, hc, rfl⟩ := List.mem_map.1 hm
        exact .or hc ((ih c hc).1 h)
    · intro h
      cases h with
      | or hm h => exact .or (List.mem_map.2 ⟨_, hm, rfl⟩) ((ih _ hm).2 h)

theorem rename_forbids {a : Assign} (f : Forb) : Forbids a (f.rename r) ↔ Forbids (a.part r) f := by
  induction f using Forb.induct with
  | he h w x =>
    constructor
    · intro hh; cases hh with
      | eq h1 => exact .eq h1
    · intro hh; cases hh with
      | eq h1 => exact .eq h1
  | hi h ws xs =>
    constructor
    · intro hh; cases hh with
      | isIn h1 h2 => exact .isIn h1 h2
    · intro hh; cases hh with
      | isIn h1 h2 => exact .isIn h1 h2
  | hr op x y =>
    constructor
    · intro hh; cases hh with
      | rel h1 h2 h3 h4 h5 => exact .rel h1 h2 h3 h4 h5
    · intro hh; cases hh with
      | rel h1 h2 h3 h4 h5 => exact .rel (l := x.rename r) (r := y.rename r) h1 h2 h3 h4 h5
  | ha fs ih =>
    simp only [Forb.rename]
    rw [forb_renameL_eq]
    constructor
    · intro h
      cases h with
      | and h => exact .and fun c hc => (ih c hc).1 (h _ (List.mem_map.2 ⟨c, hc, rfl⟩))
    · intro h
      cases h with
      | and h =>
        refine .and fun d hd => ?_
        obtain ⟨c, hc, rfl⟩ := List.mem_map.1 hd
        exact (ih c hc).2 (h c hc)

theorem rename_hp_wf {h : HP} (hw : h.wf = true) : (h.rename r).wf = true := hw

theorem rename_hp_pyEq {a b : HP} (h : a.pyEq b = true) : (a.rename r).pyEq (b.rename r) = true := by
  have hn := HP.pyEq_name h
  unfold HP.pyEq HP.rename at *
  simp only [Bool.and_eq_true, decide_eq_true_eq] at h ⊢
  exact ⟨⟨by rw [hn], h.1.2⟩, h.2⟩

theorem of_rename_hp_pyEq {a b : HP} (hr : r a.name = r b.name → a.name = b.name) (h : (a.rename r).pyEq (b.rename r) = true) :
    a.pyEq b = true := by
  have hn := HP.pyEq_name h
  unfold HP.pyEq HP.rename at *
  simp only [Bool.and_eq_true, decide_eq_true_eq] at h ⊢
  exact ⟨⟨hr hn, h.1.2⟩, h.2⟩

theorem rename_lit_wf {l : Lit} (hw : l.wf = true) (hr : r l.child.name = r l.parent.name → l.child.name = l.parent.name) :
    (l.rename r).wf = true := by
  unfold Lit.wf at hw ⊢
  simp only [Bool.and_eq_true, Bool.not_eq_true'] at hw ⊢
  refine ⟨⟨⟨?_, hw.1.1.2⟩, hw.1.2⟩, hw.2⟩
  by_contra e
  rw [Bool.not_eq_false] at e
  have := of_rename_hp_pyEq hr e
  rw [hw.1.1.1] at this
  cases this

theorem rename_wf0 {c : Cond} (hw : c.wf0 = true)
    (hr : ∀ l ∈ c.dlcs, r l.child.name = r l.parent.name → l.child.name = l.parent.name) : (c.rename r).wf0 = true := by
  induction c using Cond.induct with
  | hl l => exact rename_lit_wf hw (hr l (by simp [Cond.dlcs]))
  | ha cs ih =>
    simp only [Cond.wf0, Cond.rename, Bool.and_eq_true, decide_eq_true_eq] at hw ⊢
    rw [renameL_eq, wf0L_iff]
    refine ⟨by simpa using hw.1, ?_⟩
    intro d hd
    obtain ⟨c, hc, rfl⟩ := List.mem_map.1 hd
    exact ih c hc (wf0L_iff.1 hw.2 c hc) fun l hl => hr l (by rw [Cond.dlcs]; exact mem_dlcsL.2 ⟨c, hc, hl⟩)
  | ho cs ih =>
    simp only [Cond.wf0, Cond.rename, Bool.and_eq_true, decide_eq_true_eq] at hw ⊢
    rw [renameL_eq, wf0L_iff]
    refine ⟨by simpa using hw.1, ?_⟩
    intro d hd
    obtain ⟨c, hc, rfl⟩ := List.mem_map.1 hd
    exact ih c hc (wf0L_iff.1 hw.2 c hc) fun l hl => hr l (by rw [Cond.dlcs]; exact mem_dlcsL.2 ⟨c, hc, hl⟩)

theorem rename_wf {c : Cond} (hw : c.wf = true)
    (hr : ∀ l ∈ c.dlcs, r l.child.name = r l.parent.name → l.child.name = l.parent.name) : (c.rename r).wf = true := by
  simp only [Cond.wf, Bool.and_eq_true] at hw ⊢
  refine ⟨rename_wf0 hw.1 hr, ?_⟩
  have h2 := hw.2
  rw [rename_dlcs]
  cases hd : c.dlcs with
  | nil => rfl
  | cons l ls =>
    rw [hd] at h2
    simp only [sameChild, List.all_eq_true, List.map_cons] at h2 ⊢
    intro m hm
    obtain ⟨m', hm', rfl⟩ := List.mem_map.1 hm
    exact rename_hp_pyEq (h2 m' hm')

theorem rename_forb_wf {f : Forb} (hw : f.wf = true) : (f.rename r).wf = true := by
  induction f using Forb.induct with
  | he h w x => exact hw
  | hi h ws xs => exact hw
  | hr op a b => exact hw
  | ha fs ih =>
    simp only [Forb.rename, Forb.wf] at hw ⊢
    rw [forb_renameL_eq]
    rw [wfL_iff'] at hw ⊢
    intro d hd
    obtain ⟨c, hc, rfl⟩ := List.mem_map.1 hd
    exact ih c hc (hw c hc)

end Verif
