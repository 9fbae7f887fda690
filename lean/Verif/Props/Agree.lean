import Verif.Lemmas.Agree

/-!
# C110: two arithmetics that order the values alike decide alike
-/

set_option autoImplicit false

namespace Verif.AnyNum
open Verif Verif.Spec.Any
open Verif.Spec (NamedValues)

variable {α β α' β' : Type} [DecidableEq α] [DecidableEq α'] {A : Arith α β} {B : Arith α' β'} {P : HP → Val → Prop}
variable {calls : List Call} {s : Space}

/-- **C110**: whatever the two arithmetics are, if they say the same about single values and about the pairs of values that clauses
compare, then both validators and the list of active hyperparameters give the same on the two vectors of the same values. -/
theorem C110_validators (hr : Reach calls s) (hg : Agree A B calls P) {a : NamedValues} (ha : GoodAll B P calls a) {v : AVec α} {w : AVec α'}
    (hv : VectorOf A calls s a v) (hw : VectorOf B calls s a w) (al : Bool) :
    check A s v al = check B s w al ∧ checkRigorous A s v al = checkRigorous B s w al ∧ activeNames A s v = activeNames B s w :=
  have h := agreeVec_of ha hv hw
  ⟨check_agree hr hg h al, checkRigorous_agree hr hg h al, activeNames_agree hr hg h⟩

/-- **C110**: assigning a value raises the same exception, if any, and the new vectors are again the two vectors of the same values. -/
theorem C110_assign (hr : Reach calls s) (hg : Agree A B calls P) {a : NamedValues} (ha : GoodAll B P calls a) {v : AVec α} {w : AVec α'}
    (hv : VectorOf A calls s a v) (hw : VectorOf B calls s a w) {n : Name} {x : Val} (hx : ∀ h ∈ allHps calls, h.name = n → P h x) :
    (setItem A s v n x).2 = (setItem B s w n x).2 ∧
    ∃ b, GoodAll B P calls b ∧ VectorOf A calls s b (setItem A s v n x).1 ∧ VectorOf B calls s b (setItem B s w n x).1 := by
  obtain ⟨h1, h2⟩ := setItem_agree hr hg (agreeVec_of ha hv hw) hx
  exact ⟨h2, of_agreeVec hr h1⟩

/-- **C110**: a user who makes a configuration of values and then assigns items sees the same: the same exceptions at the same steps, and the
same names set after each of them. -/
theorem C110_session (hr : Reach calls s) (hg : Agree A B calls P) {k k' : HP → Val → Val} (hk : Keeps A B calls P k k') {d : Dict}
    (hd : ∀ h ∈ allHps calls, ∀ w, d.lookup h.name = some (some w) → P h w) (al : Bool) {steps : List (Name × Val)}
    (hs : ∀ n x, (n, x) ∈ steps → ∀ h ∈ allHps calls, h.name = n → P h x) : session A k s d al steps = session B k' s d al steps := by
  have go : ∀ (steps : List (Name × Val)) (v : AVec α) (w : AVec α'), AgreeVec A B P calls s v w →
      (∀ n x, (n, x) ∈ steps → ∀ h ∈ allHps calls, h.name = n → P h x) → session.go A s v steps = session.go B s w steps := by
    intro steps
    induction steps with
    | nil => exact fun _ _ _ _ => rfl
    | cons p rest ih =>
      obtain ⟨n, x⟩ := p
      intro v w h hs
      obtain ⟨h1, h2⟩ := setItem_agree hr hg h (hs n x (by simp))
      simp only [session.go, h2, keys_agree hr h1]
      rw [ih _ _ h1 (fun m y hm => hs m y (by simp [hm]))]
  unfold session
  rcases ofValues_agree hr hg hk hd al with ⟨e, e1, e2⟩ | ⟨u, u', e1, e2, hu⟩
  · rw [e1, e2]
  · rw [e1, e2]
    simp only
    rw [keys_agree hr hu, go steps u u' hu hs]

end Verif.AnyNum
