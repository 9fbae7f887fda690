import Verif.Model.Named
import Verif.Props.SpaceEq
import Verif.Props.Subst

/-!
# C116: name and meta data of a space
-/

set_option autoImplicit false

namespace Verif
open Verif.Spec

variable {M : Type} {calls : List Call} {f g : FSpace}

/-- Decoding does not look at the name for anything else. -/
theorem fromDict_name (a b : Json) (fs : Fields) : fromDict (.obj (("name", a) :: fs)) = fromDict (.obj (("name", b) :: fs)) := by
  simp [fromDict, listField, List.lookup_cons]

/-- **C116, guarded.** A space that is written and read again has the name that it had, whatever the name is, and the same
hyperparameters, conditions and clauses; it accepts the same vectors. (Guards as in C42.) -/
theorem C116_name_kept_partial (n : NSpace M) (h : Reach calls n.space.space) (hoc : OwnConds calls) (hown : OwnClauses calls)
    (hp : PrintApart calls) (w : Name → Option (List Rat)) (ver : String)
    (hb : ∀ x ∈ allHps calls, ∀ cs, x.kind = .cat cs → badWeights cs (w x.name) = false)
    (hn : ∀ x ∈ allHps calls, (∀ cs, x.kind ≠ .cat cs) → w x.name = none) :
    ∃ s', readNamed M (n.toDict w ver) = .ok (n.name, none, s') ∧
      s'.com.map Node.hp = n.space.space.com.map Node.hp ∧ s'.com.map Node.cond = n.space.space.com.map Node.cond ∧
      s'.forbs = n.space.space.forbs ∧ ∀ v al, s'.check v al = n.space.space.check v al := by
  obtain ⟨s', h1, h2, h3, h4, h5, -⟩ := C42_round_trip_partial h hoc hown hp w ver hb hn
  refine ⟨s', ?_, h2, h3, h4, h5⟩
  unfold Space.toDict at h1
  rw [fromDict_name _ (nameJson n.name)] at h1
  unfold NSpace.toDict readNamed
  simp only [h1]
  cases n.name <;> simp [readName, nameJson, Json.str]

example : ∃ s', readNamed Nat ((⟨some "mine", some 7, ExE.fOne⟩ : NSpace Nat).toDict (fun _ => none) "1.2") = .ok (some "mine", none, s') := by
  obtain ⟨s', h, -⟩ := C116_name_kept_partial (⟨some "mine", some 7, ExE.fOne⟩ : NSpace Nat) ExE.rOne.reach
    (by unfold OwnConds; decide +kernel) (by unfold OwnClauses; decide +kernel)
    (C59_plain_names_print_apart ExE.rOne.reach (by unfold OwnConds; decide +kernel) (by unfold PlainName; decide +kernel))
    (fun _ => none) "1.2" (by intro x hx cs e; rfl) (by intros; rfl)
  exact ⟨s', h⟩

/-- **C116.** Adding to a space keeps name and meta data, also if the call is rejected. -/
theorem C116_add_keeps (n : NSpace M) (k : Call) : (n.add k).1.name = n.name ∧ (n.add k).1.info = n.info := ⟨rfl, rfl⟩

example : ((⟨some "mine", some 7, ExE.fOne⟩ : NSpace Nat).add ExE.kOne).1.name = some "mine" :=
  (C116_add_keeps _ _).1

/-- **C116 is false of the code** for meta data: they are not written, so that no space with meta data is equal to what is read
from its own dictionary, however the lists of its nodes come out. -/
theorem C116_meta_lost [DecidableEq M] (n : NSpace M) (hi : n.info ≠ none) (w : Name → Option (List Rat)) (ver : String)
    {name : Option String} {info : Option M} {s' : Space} (h : readNamed M (n.toDict w ver) = .ok (name, info, s')) (nf : NodeForbs) :
    info = none ∧ n.eq ⟨name, info, ⟨s', nf⟩⟩ = false ∧ (⟨name, info, ⟨s', nf⟩⟩ : NSpace M).eq n = false := by
  have hi' : info = none := by
    unfold NSpace.toDict readNamed at h
    dsimp only at h
    generalize readName _ = q at h
    generalize fromDict _ = r at h
    cases q with
    | error e => cases h
    | ok q =>
      cases r with
      | error e => cases h
      | ok r =>
        simp only [Except.ok.injEq, Prod.mk.injEq] at h
        exact h.2.1.symm
  subst hi'
  refine ⟨rfl, ?_, ?_⟩
  · simp [NSpace.eq, hi]
  · simp [NSpace.eq, Ne.symm hi]

example : ∃ s', readNamed Nat ((⟨none, some 7, ExE.fOne⟩ : NSpace Nat).toDict (fun _ => none) "1.2") = .ok (none, none, s') ∧
    ∀ nf, (⟨none, some 7, ExE.fOne⟩ : NSpace Nat).eq ⟨none, none, ⟨s', nf⟩⟩ = false := by
  obtain ⟨s', h, -⟩ := C116_name_kept_partial (⟨none, some 7, ExE.fOne⟩ : NSpace Nat) ExE.rOne.reach
    (by unfold OwnConds; decide +kernel) (by unfold OwnClauses; decide +kernel)
    (C59_plain_names_print_apart ExE.rOne.reach (by unfold OwnConds; decide +kernel) (by unfold PlainName; decide +kernel))
    (fun _ => none) "1.2" (by intro x hx cs e; rfl) (by intros; rfl)
  exact ⟨s', h, fun nf => (C116_meta_lost _ (by simp) (fun _ => none) "1.2" h nf).2.1⟩

/-- **C116.** Two spaces are equal exactly if their names, their meta data and their contents are. -/
theorem C116_equal_iff [DecidableEq M] (a b : NSpace M) :
    a.eq b = true ↔ a.name = b.name ∧ a.info = b.info ∧ a.space.eq b.space = true := by
  simp [NSpace.eq, and_assoc]

example : (⟨some "a", none, ExE.fOne⟩ : NSpace Nat).eq ⟨some "b", none, ExE.fOne⟩ = false := by
  rw [Bool.eq_false_iff, ne_eq, C116_equal_iff]
  simp

/-- **C116 is false of the code** for `remove_hyperparameter_priors`: the result has no name and no meta data, so that a space with a
name is not equal to it, even if there was no prior to remove. -/
theorem C116_priors_drop_name [DecidableEq M] (n : NSpace M) (hn : n.name ≠ none ∨ n.info ≠ none) {name : Option String}
    {info : Option M} {s' : Space} (h : n.removePriors = .ok (name, info, s')) (nf : NodeForbs) :
    name = none ∧ info = none ∧ n.eq ⟨name, info, ⟨s', nf⟩⟩ = false := by
  unfold NSpace.removePriors at h
  cases e : n.space.space.removePriors with
  | error x => rw [e] at h; cases h
  | ok s =>
    rw [e] at h
    simp only [Except.ok.injEq, Prod.mk.injEq] at h
    obtain ⟨rfl, rfl, rfl⟩ := h
    refine ⟨rfl, rfl, ?_⟩
    rcases hn with hn | hn <;> simp [NSpace.eq, hn]

example : ∃ s', (⟨some "mine", none, ExE.fOne⟩ : NSpace Nat).removePriors = .ok (none, none, s') ∧
    ∀ nf, (⟨some "mine", none, ExE.fOne⟩ : NSpace Nat).eq ⟨none, none, ⟨s', nf⟩⟩ = false := by
  obtain ⟨s', h, -⟩ := C59_remove_priors_partial ExE.rOne.reach
    (by unfold OwnConds; decide +kernel) (by unfold OwnClauses; decide +kernel)
    (C59_plain_names_print_apart ExE.rOne.reach (by unfold OwnConds; decide +kernel) (by unfold PlainName; decide +kernel))
    (by
      intro c hc
      simp only [allConds, ExE.kOne, List.flatMap_cons, List.flatMap_nil, List.append_nil, List.mem_cons, List.not_mem_nil,
        or_false] at hc
      subst hc
      exact Flat.lit _)
  have h' : (⟨some "mine", none, ExE.fOne⟩ : NSpace Nat).removePriors = .ok (none, none, s') := by
    simp [NSpace.removePriors, h]
  exact ⟨s', h', fun nf => (C116_priors_drop_name _ (.inl (by simp)) h' nf).2.2⟩

end Verif
