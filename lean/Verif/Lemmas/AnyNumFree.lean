import Verif.Lemmas.AnyNumSample

/-!
# Sampling does not look at `legal_vector`
-/

set_option autoImplicit false

namespace Verif.AnyNum
open Verif

variable {α β : Type} [DecidableEq α] (A : Arith α β) (g : HP → α → Bool)

/-- The same arithmetic with other legal entries. -/
abbrev Arith.withLegal (A : Arith α β) (g : HP → α → Bool) : Arith α β := { A with legalVec := g }

mutual
theorem satArr_free (idx : Name → Nat) (w : Nat) (m : AMat α) : ∀ c, satArr (A.withLegal g) idx w m c = satArr A idx w m c
  | .lit _ => rfl
  | .and cs => satArrAll_free idx w m _ cs
  | .or cs => satArrAny_free idx w m _ cs
theorem satArrAll_free (idx : Name → Nat) (w : Nat) (m : AMat α) (acc : List Bool) : ∀ cs,
    satArrAll (A.withLegal g) idx w m acc cs = satArrAll A idx w m acc cs
  | [] => rfl
  | c :: cs => by
    simp only [satArrAll]
    rw [satArr_free idx w m c, satArrAll_free idx w m _ cs]
theorem satArrAny_free (idx : Name → Nat) (w : Nat) (m : AMat α) (acc : List Bool) : ∀ cs,
    satArrAny (A.withLegal g) idx w m acc cs = satArrAny A idx w m acc cs
  | [] => rfl
  | c :: cs => by
    simp only [satArrAny]
    rw [satArr_free idx w m c, satArrAny_free idx w m _ cs]
end

mutual
theorem onArr_free (idx : Name → Nat) (w : Nat) (m : AMat α) : ∀ f, onArr (A.withLegal g) idx w m f = onArr A idx w m f
  | .eq _ _ _ => rfl
  | .isIn _ _ _ => rfl
  | .rel _ _ _ => rfl
  | .and cs => onArrAll_free idx w m _ cs
theorem onArrAll_free (idx : Name → Nat) (w : Nat) (m : AMat α) (acc : List Bool) : ∀ cs,
    onArrAll (A.withLegal g) idx w m acc cs = onArrAll A idx w m acc cs
  | [] => rfl
  | c :: cs => by
    simp only [onArrAll]
    rw [onArr_free idx w m c, onArrAll_free idx w m _ cs]
end

theorem sampleBatch_free (s : Space) (w : Nat) (m : AMat α) : sampleBatch (A.withLegal g) s w m = sampleBatch A s w m := by
  unfold sampleBatch forbMask
  simp only [satArr_free, onArr_free]

theorem sampleLoop_free (s : Space) (rng : Nat → Nat → AMat α) (size : Nat) : ∀ fuel b need acc,
    sampleLoop (A.withLegal g) s rng size fuel b need acc = sampleLoop A s rng size fuel b need acc
  | 0, _, _, _ => rfl
  | fuel + 1, b, need, acc => by
    unfold sampleLoop
    simp only [sampleBatch_free, sampleLoop_free s rng size fuel]

/-- Sampling does not look at the legality of entries. -/
theorem sample_free (s : Space) (rng : Nat → Nat → AMat α) (fuel size : Nat) :
    sample (A.withLegal g) s rng fuel size = sample A s rng fuel size := by
  unfold sample
  rw [sampleLoop_free]

end Verif.AnyNum
