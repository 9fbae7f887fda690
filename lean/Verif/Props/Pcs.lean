import Verif.Spec.Pcs
import Verif.Lemmas.Subst
import Verif.Props.Impute

/-!
# C46: forbidden clauses in the pcs formats
-/

set_option autoImplicit false

namespace Verif
open Verif.Spec

variable {calls : List Call} {s : Space}

theorem mem_forbDlcsL {fs : List Forb} {g : Forb} : g ∈ Forb.dlcsL fs ↔ ∃ f ∈ fs, g ∈ f.dlcs := by
  induction fs with
  | nil => simp [Forb.dlcsL]
  | cons f fs ih => simp [Forb.dlcsL, ih]

theorem forbids_dlcs {d : Values} (f : Forb) : ForbidsValues d f ↔ ∀ g ∈ f.dlcs, ForbidsValues d g := by
  induction f using Forb.induct with
  | he h w x => simp [Forb.dlcs]
  | hi h ws xs => simp [Forb.dlcs]
  | hr op l r => simp [Forb.dlcs]
  | ha fs ih =>
    simp only [Forb.dlcs]
    constructor
    · intro h g hg
      cases h with
      | and hall =>
        obtain ⟨f, hf, hgf⟩ := mem_forbDlcsL.1 hg
        exact (ih f hf).1 (hall f hf) g hgf
    · intro h
      exact .and fun f hf => (ih f hf).2 fun g hg => h g (mem_forbDlcsL.2 ⟨f, hf, hg⟩)

theorem relation_dlcs (f : Forb) : HasRelation f ↔ ∃ op l r, Forb.rel op l r ∈ f.dlcs := by
  induction f using Forb.induct with
  | he h w x => exact ⟨fun h => (by cases h), fun ⟨_, _, _, h⟩ => (by simp [Forb.dlcs] at h)⟩
  | hi h ws xs => exact ⟨fun h => (by cases h), fun ⟨_, _, _, h⟩ => (by simp [Forb.dlcs] at h)⟩
  | hr op l r => exact ⟨fun _ => ⟨op, l, r, by simp [Forb.dlcs]⟩, fun _ => .rel⟩
  | ha fs ih =>
    simp only [Forb.dlcs]
    constructor
    · intro h
      cases h with
      | and hm hr =>
        obtain ⟨op, l, r, hh⟩ := (ih _ hm).1 hr
        exact ⟨op, l, r, mem_forbDlcsL.2 ⟨_, hm, hh⟩⟩
    · rintro ⟨op, l, r, hh⟩
      obtain ⟨f, hf, hg⟩ := mem_forbDlcsL.1 hh
      exact .and hf ((ih f hf).2 ⟨op, l, r, hg⟩)

theorem dlcs_lit (f : Forb) : ∀ g ∈ f.dlcs, ∀ fs, g ≠ .and fs := by
  induction f using Forb.induct with
  | he h w x => simp [Forb.dlcs]
  | hi h ws xs => simp [Forb.dlcs]
  | hr op l r => simp [Forb.dlcs]
  | ha fs ih =>
    intro g hg
    simp only [Forb.dlcs] at hg
    obtain ⟨f, hf, hgf⟩ := mem_forbDlcsL.1 hg
    exact ih f hf g hgf

theorem dlcs_forb_wf (f : Forb) (hw : f.wf = true) : ∀ g ∈ f.dlcs, g.wf = true := by
  induction f using Forb.induct with
  | he h w x => simpa [Forb.dlcs] using hw
  | hi h ws xs => simpa [Forb.dlcs] using hw
  | hr op l r => simpa [Forb.dlcs] using hw
  | ha fs ih =>
    intro g hg
    simp only [Forb.dlcs] at hg
    obtain ⟨f, hf, hgf⟩ := mem_forbDlcsL.1 hg
    exact ih f hf (wfL_iff'.1 hw f hf) g hgf

/-- `build_forbidden` writes equality clauses, and nothing else. -/
theorem buildForbidden_eqs : ∀ {fs : List Forb}, (∀ f ∈ fs, ∃ h w x, f = .eq h w x) →
    ∃ l, buildForbidden fs = .ok l ∧ ∀ d, Matches d l ↔ ∀ f ∈ fs, ForbidsValues d f
  | [], _ => ⟨[], rfl, fun d => by simp [Matches]⟩
  | f :: fs, hf => by
    obtain ⟨h, w, x, rfl⟩ := hf f (by simp)
    obtain ⟨l, hl, hm⟩ := buildForbidden_eqs (fs := fs) fun g hg => hf g (by simp [hg])
    refine ⟨(h.name, w) :: l, by simp only [buildForbidden, hl], fun d => ?_⟩
    have e : Matches d ((h.name, w) :: l) ↔ (∃ u, d.lookup h.name = some u ∧ u.pyEq w = true) ∧ Matches d l := by
      simp [Matches]
    rw [e, hm d, List.forall_mem_cons]
    refine and_congr_left fun _ => ?_
    constructor
    · rintro ⟨u, h1, h2⟩; exact .eq h1 h2
    · intro hh
      cases hh with
      | eq h1 h2 => exact ⟨_, h1, h2⟩

theorem mapExcept_forall {α β : Type} {f : α → Except Err β} {P : α → β → Prop} : ∀ {xs : List α},
    (∀ x ∈ xs, ∃ y, f x = .ok y ∧ P x y) → ∃ ys, mapExcept f xs = .ok ys ∧ List.Forall₂ P xs ys
  | [], _ => ⟨[], rfl, .nil⟩
  | x :: xs, h => by
    obtain ⟨y, hy, hp⟩ := h x (by simp)
    obtain ⟨ys, hys, hps⟩ := mapExcept_forall (xs := xs) fun z hz => h z (by simp [hz])
    exact ⟨y :: ys, by simp only [mapExcept, hy, hys], .cons hp hps⟩

/-- The alternatives for the in-clauses: the equality clauses whose disjunction the in-clause is. -/
theorem inStatements_ok : ∀ {fs : List Forb}, (∀ f ∈ fs, f.wf = true) → ∃ ls, inStatements fs = .ok ls ∧
    (ls = [] ↔ ∀ f ∈ fs, ∀ h ws xs, f ≠ .isIn h ws xs) ∧
    (∀ l ∈ ls, ∀ g ∈ l, ∃ h w x, g = .eq h w x) ∧
    ∀ d, (∀ l ∈ ls, ∃ g ∈ l, ForbidsValues d g) ↔ ∀ f ∈ fs, (∃ h ws xs, f = .isIn h ws xs) → ForbidsValues d f
  | [], _ => ⟨[], rfl, by simp, by simp, fun d => by simp⟩
  | f :: fs, hw => by
    obtain ⟨ls, hls, hnil, heq, hiff⟩ := inStatements_ok (fs := fs) fun g hg => hw g (by simp [hg])
    cases f with
    | isIn h ws xs =>
      have hwf := hw _ List.mem_cons_self
      simp only [Forb.wf, Bool.and_eq_true, List.all_eq_true, decide_eq_true_eq] at hwf
      obtain ⟨l, hl, hl2⟩ := mapExcept_forall (f := fun w => mkForbEq h w) (P := fun w g => ∃ x, g = Forb.eq h w x)
        (xs := ws) (by
          intro w hwm
          have hlv := hwf.1.2 w hwm
          obtain ⟨x, hx⟩ := legal_toVec hlv
          exact ⟨.eq h w x, by simp [mkForbEq, hlv, hx], x, rfl⟩)
      refine ⟨l :: ls, by simp only [inStatements, hl, hls], by simp, ?_, ?_⟩
      · intro l' hl' g hg
        rcases List.mem_cons.1 hl' with rfl | hl'
        · obtain ⟨i, hi, rfl⟩ := List.getElem_of_mem hg
          obtain ⟨hlen, hget⟩ := List.forall₂_iff_get.1 hl2
          obtain ⟨x, hx⟩ := hget i (hlen ▸ hi) hi
          exact ⟨h, _, x, hx⟩
        · exact heq l' hl' g hg
      · intro d
        have e : (∃ g ∈ l, ForbidsValues d g) ↔ ForbidsValues d (.isIn h ws xs) := by
          obtain ⟨hlen, hget⟩ := List.forall₂_iff_get.1 hl2
          constructor
          · rintro ⟨g, hg, hf⟩
            obtain ⟨i, hi, rfl⟩ := List.getElem_of_mem hg
            obtain ⟨x, hx⟩ := hget i (hlen ▸ hi) hi
            simp only [List.get_eq_getElem] at hx
            rw [hx] at hf
            cases hf with
            | eq h1 h2 => exact .isIn h1 (List.getElem_mem (hlen ▸ hi)) h2
          · intro hf
            cases hf with
            | isIn h1 h2 h3 =>
              obtain ⟨i, hi, rfl⟩ := List.getElem_of_mem h2
              obtain ⟨x, hx⟩ := hget i hi (hlen ▸ hi)
              simp only [List.get_eq_getElem] at hx
              exact ⟨_, List.getElem_mem (hlen ▸ hi), by rw [hx]; exact .eq h1 h3⟩
        rw [List.forall_mem_cons, List.forall_mem_cons, e, hiff d]
        refine and_congr_left fun _ => ?_
        exact ⟨fun h _ => h, fun h => h ⟨_, _, _, rfl⟩⟩
    | eq h w x =>
      refine ⟨ls, by simp only [inStatements, hls], by simpa using hnil, heq, fun d => ?_⟩
      rw [hiff d, List.forall_mem_cons]
      exact ⟨fun hh => ⟨fun ⟨_, _, _, e⟩ => (by cases e), hh⟩, fun hh => hh.2⟩
    | rel op l r =>
      refine ⟨ls, by simp only [inStatements, hls], by simpa using hnil, heq, fun d => ?_⟩
      rw [hiff d, List.forall_mem_cons]
      exact ⟨fun hh => ⟨fun ⟨_, _, _, e⟩ => (by cases e), hh⟩, fun hh => hh.2⟩
    | and gs =>
      refine ⟨ls, by simp only [inStatements, hls], by simpa using hnil, heq, fun d => ?_⟩
      rw [hiff d, List.forall_mem_cons]
      exact ⟨fun hh => ⟨fun ⟨_, _, _, e⟩ => (by cases e), hh⟩, fun hh => hh.2⟩

theorem productF_mem : ∀ {ls : List (List Forb)} {p : List Forb}, p ∈ productF ls ↔ List.Forall₂ (fun f l => f ∈ l) p ls
  | [], p => by
    simp only [productF, List.mem_singleton]
    constructor
    · rintro rfl; exact .nil
    · intro h; cases h; rfl
  | l :: ls, p => by
    simp only [productF, List.mem_flatMap, List.mem_map]
    constructor
    · rintro ⟨q, hq, v', hv', rfl⟩
      exact .cons hq (productF_mem.1 hv')
    · intro h
      cases h with
      | cons hq hv' => exact ⟨_, hq, _, productF_mem.2 hv', rfl⟩

theorem productF_exists {P : Forb → Prop} : ∀ {ls : List (List Forb)},
    (∃ p ∈ productF ls, ∀ g ∈ p, P g) ↔ ∀ l ∈ ls, ∃ g ∈ l, P g
  | [] => by simp [productF]
  | l :: ls => by
    rw [List.forall_mem_cons, ← productF_exists (ls := ls)]
    simp only [productF, List.mem_flatMap, List.mem_map]
    constructor
    · rintro ⟨p, ⟨g, hg, q, hq, rfl⟩, hp⟩
      exact ⟨⟨g, hg, hp g (by simp)⟩, q, hq, fun x hx => hp x (by simp [hx])⟩
    · rintro ⟨⟨g, hg, hpg⟩, q, hq, hpq⟩
      exact ⟨g :: q, ⟨g, hg, q, hq, rfl⟩, List.forall_mem_cons.2 ⟨hpg, hpq⟩⟩

theorem onValAll_iff {d : Values} : ∀ {fs : List Forb}, Forb.onValAll d fs = true ↔ ∀ f ∈ fs, f.onVal d = true
  | [] => by simp [Forb.onValAll]
  | f :: fs => by simp [Forb.onValAll, onValAll_iff (fs := fs)]

/-- `is_forbidden_value` decides whether the clause forbids the values. -/
theorem C46_is_forbidden_value {d : Values} (f : Forb) : f.onVal d = true ↔ ForbidsValues d f := by
  induction f using Forb.induct with
  | he h w x =>
    simp only [Forb.onVal, Dict.get?]
    constructor
    · intro hh
      split at hh
      · rename_i u hu; exact .eq hu hh
      · cases hh
    · intro hh
      cases hh with
      | eq h1 h2 => rw [h1]; exact h2
  | hi h ws xs =>
    simp only [Forb.onVal, Dict.get?]
    constructor
    · intro hh
      split at hh
      · rename_i u hu
        obtain ⟨w, hw, hp⟩ := List.any_eq_true.1 hh
        exact .isIn hu hw (Val.pyEq_symm hp)
      · cases hh
    · intro hh
      cases hh with
      | isIn h1 h2 h3 => rw [h1]; exact List.any_eq_true.2 ⟨_, h2, Val.pyEq_symm h3⟩
  | hr op l r =>
    simp only [Forb.onVal, Dict.get?]
    constructor
    · intro hh
      split at hh
      · rename_i u w hu hw; exact .rel hu hw hh
      · cases hh
    · intro hh
      cases hh with
      | rel h1 h2 h3 => rw [h1, h2]; exact h3
  | ha fs ih =>
    simp only [Forb.onVal]
    rw [onValAll_iff]
    constructor
    · intro hh; exact .and fun f hf => (ih f hf).1 (hh f hf)
    · intro hh
      cases hh with
      | and hall => exact fun f hf => (ih f hf).2 (hall f hf)

/-- **C46.** Every clause without a relation, nested to any depth, is written as lines of equalities, and the values
that match one of these lines are exactly those that the clause forbids. -/
theorem C46_lines_equivalent {f : Forb} (hw : f.wf = true) (hr : ¬ HasRelation f) :
    ∃ ls, pcsLines f = .ok ls ∧ ∀ d, (∃ l ∈ ls, Matches d l) ↔ ForbidsValues d f := by
  have hwf := dlcs_forb_wf f hw
  rw [relation_dlcs] at hr
  obtain ⟨ins, hins, hnil, heq, hiff⟩ := inStatements_ok hwf
  have hkind : ∀ g ∈ f.dlcs, (∃ h w x, g = .eq h w x) ∨ ∃ h ws xs, g = .isIn h ws xs := by
    intro g hg
    cases g with
    | eq h w x => exact .inl ⟨h, w, x, rfl⟩
    | isIn h ws xs => exact .inr ⟨h, ws, xs, rfl⟩
    | rel op l r => exact absurd ⟨op, l, r, hg⟩ hr
    | and fs => exact absurd rfl (dlcs_lit f _ hg fs)
  unfold pcsLines
  simp only [hins]
  by_cases he : ins = []
  · subst he
    have hall : ∀ g ∈ f.dlcs, ∃ h w x, g = .eq h w x := by
      intro g hg
      rcases hkind g hg with h | ⟨h, ws, xs, e⟩
      · exact h
      · exact absurd e (hnil.1 rfl g hg h ws xs)
    obtain ⟨l, hl, hm⟩ := buildForbidden_eqs hall
    refine ⟨[l], by simp [hl], fun d => ?_⟩
    rw [forbids_dlcs, ← hm d]
    simp
  · have hoth : ∀ g ∈ otherStatements f.dlcs, ∃ h w x, g = .eq h w x := by
      intro g hg
      obtain ⟨hg1, hg2⟩ := List.mem_filter.1 hg
      rcases hkind g hg1 with h | ⟨h, ws, xs, rfl⟩
      · exact h
      · simp at hg2
    have hprod : ∀ p ∈ productF ins, ∀ g ∈ p, ∃ h w x, g = .eq h w x := by
      intro p hp g hg
      have := productF_mem.1 hp
      obtain ⟨i, hi, rfl⟩ := List.getElem_of_mem hg
      obtain ⟨hlen, hget⟩ := List.forall₂_iff_get.1 this
      have := hget i hi (hlen ▸ hi)
      exact heq _ (List.getElem_mem (hlen ▸ hi)) _ this
    obtain ⟨ls, hls, hls2⟩ := mapExcept_forall (f := fun p => buildForbidden (p ++ otherStatements f.dlcs))
      (P := fun p l => ∀ d, Matches d l ↔ ∀ g ∈ p ++ otherStatements f.dlcs, ForbidsValues d g)
      (xs := productF ins) (by
        intro p hp
        refine buildForbidden_eqs fun g hg => ?_
        rcases List.mem_append.1 hg with hg | hg
        · exact hprod p hp g hg
        · exact hoth g hg)
    refine ⟨ls, by rw [if_neg (by simpa using he)]; exact hls, fun d => ?_⟩
    obtain ⟨hlen, hget⟩ := List.forall₂_iff_get.1 hls2
    have h1 : (∃ l ∈ ls, Matches d l) ↔ ∃ p ∈ productF ins, ∀ g ∈ p ++ otherStatements f.dlcs, ForbidsValues d g := by
      constructor
      · rintro ⟨l, hl, hm⟩
        obtain ⟨i, hi, rfl⟩ := List.getElem_of_mem hl
        exact ⟨_, List.getElem_mem (hlen ▸ hi), (hget i (hlen ▸ hi) hi d).1 hm⟩
      · rintro ⟨p, hp, hm⟩
        obtain ⟨i, hi, rfl⟩ := List.getElem_of_mem hp
        exact ⟨_, List.getElem_mem (hlen ▸ hi), (hget i hi (hlen ▸ hi) d).2 hm⟩
    rw [h1]
    have h2 : (∃ p ∈ productF ins, ∀ g ∈ p ++ otherStatements f.dlcs, ForbidsValues d g) ↔
        (∃ p ∈ productF ins, ∀ g ∈ p, ForbidsValues d g) ∧ ∀ g ∈ otherStatements f.dlcs, ForbidsValues d g := by
      constructor
      · rintro ⟨p, hp, hm⟩
        exact ⟨⟨p, hp, fun g hg => hm g (by simp [hg])⟩, fun g hg => hm g (by simp [hg])⟩
      · rintro ⟨⟨p, hp, h3⟩, h4⟩
        refine ⟨p, hp, fun g hg => ?_⟩
        rcases List.mem_append.1 hg with hg | hg
        · exact h3 g hg
        · exact h4 g hg
    rw [h2, productF_exists, hiff d, forbids_dlcs]
    constructor
    · rintro ⟨h3, h4⟩ g hg
      rcases hkind g hg with ⟨h, w, x, rfl⟩ | hi
      · exact h4 _ (List.mem_filter.2 ⟨hg, rfl⟩)
      · exact h3 g hg hi
    · intro h3
      exact ⟨fun g hg _ => h3 g hg, fun g hg => h3 g (List.mem_filter.1 hg).1⟩

/-- **C46.** A clause with a relation in it is not written with another meaning: writing it raises, unless it has an
in-clause without values. -/
theorem C46_relation_raises {f : Forb} (hw : f.wf = true) (hr : HasRelation f)
    (hne : ∀ h xs, Forb.isIn h [] xs ∉ f.dlcs) : ∃ e, pcsLines f = .error e := by
  have hwf := dlcs_forb_wf f hw
  rw [relation_dlcs] at hr
  obtain ⟨op, l, r, hm⟩ := hr
  have herr : ∀ fs : List Forb, Forb.rel op l r ∈ fs → ∃ e, buildForbidden fs = .error e := by
    intro fs
    induction fs with
    | nil => intro h; cases h
    | cons g fs ih =>
      intro h
      cases g with
      | eq h' w x =>
        obtain ⟨e, he⟩ := ih (by simpa using h)
        exact ⟨e, by simp only [buildForbidden, he]⟩
      | isIn h' ws xs => exact ⟨_, rfl⟩
      | rel op' l' r' => exact ⟨_, rfl⟩
      | and gs => exact ⟨_, rfl⟩
  have hpos : ∀ {fs : List Forb} {ls : List (List Forb)}, (∀ h xs, Forb.isIn h [] xs ∉ fs) →
      inStatements fs = .ok ls → ∀ x ∈ ls, x ≠ [] := by
    intro fs
    induction fs with
    | nil => intro ls _ h; cases h; simp
    | cons g fs ih =>
      intro ls hn h
      have hn' : ∀ h xs, Forb.isIn h [] xs ∉ fs := fun h xs hh => hn h xs (by simp [hh])
      cases g with
      | isIn h' ws xs =>
        simp only [inStatements] at h
        split at h
        · cases h
        · rename_i l' hl'
          split at h
          · cases h
          · rename_i ls' hls'
            cases h
            intro x hx
            rcases List.mem_cons.1 hx with rfl | hx
            · rintro rfl
              cases ws with
              | nil => exact hn h' xs (by simp)
              | cons w ws =>
                simp only [mapExcept] at hl'
                split at hl'
                · cases hl'
                · split at hl' <;> cases hl'
            · exact ih hn' hls' x hx
      | eq h' w x => exact ih hn' h
      | rel op' l' r' => exact ih hn' h
      | and gs => exact ih hn' h
  obtain ⟨ins, hins, _, _, _⟩ := inStatements_ok hwf
  unfold pcsLines
  simp only [hins]
  split
  · obtain ⟨e, he⟩ := herr _ hm
    exact ⟨e, by simp only [he]⟩
  · have hp : ∃ p ps, productF ins = p :: ps := by
      have := (productF_exists (P := fun _ => True) (ls := ins)).2 fun l hl => by
        cases hl' : l with
        | nil => exact absurd hl' (hpos hne hins l hl)
        | cons g gs => exact ⟨g, by simp, trivial⟩
      obtain ⟨p, hp, _⟩ := this
      cases hq : productF ins with
      | nil => rw [hq] at hp; cases hp
      | cons a b => exact ⟨a, b, rfl⟩
    obtain ⟨p, ps, hp⟩ := hp
    obtain ⟨e, he⟩ := herr (p ++ otherStatements f.dlcs)
      (List.mem_append.2 (.inr (List.mem_filter.2 ⟨hm, rfl⟩)))
    exact ⟨e, by rw [hp]; simp only [mapExcept, he]⟩

namespace Ex

/-- `alg in {"a", "b"} && (o == "lo" && k in {1, 2})` -/
def forbPcs : Forb := .and [.isIn hpAlg [.str "a", .str "b"] [0, 1],
  .and [.eq hpO (.str "lo") 0, .isIn hpK [.int 1, .int 2] [0, 1 / 9]]]

example : pcsLines forbPcs = .ok
    [[("alg", .str "a"), ("k", .int 1), ("o", .str "lo")], [("alg", .str "a"), ("k", .int 2), ("o", .str "lo")],
     [("alg", .str "b"), ("k", .int 1), ("o", .str "lo")], [("alg", .str "b"), ("k", .int 2), ("o", .str "lo")]] := by decide +kernel

example : ∃ ls, pcsLines forbPcs = .ok ls ∧ ∀ d, (∃ l ∈ ls, Matches d l) ↔ ForbidsValues d forbPcs :=
  C46_lines_equivalent (by decide +kernel) (by
    rw [relation_dlcs]
    rintro ⟨op, l, r, h⟩
    simp [forbPcs, Forb.dlcs, Forb.dlcsL] at h)

end Ex

/-- A conjunction with a relation in it cannot be written. -/
example : ∃ e, pcsLines (.and [.rel .lt ⟨"k", .int 1 10, .int 5⟩ ⟨"j", .int 1 10, .int 5⟩, .eq Ex.hpAlg (.str "a") 0]) = .error e :=
  C46_relation_raises (by decide +kernel) (by
    rw [relation_dlcs]
    exact ⟨.lt, _, _, by simp [Forb.dlcs, Forb.dlcsL]; exact ⟨rfl, rfl⟩⟩) (by
    intro h xs hm
    simp [Forb.dlcs, Forb.dlcsL] at hm)

end Verif
