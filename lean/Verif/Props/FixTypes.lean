import Verif.Lemmas.Grid
import Verif.Lemmas.GridCheck
import Mathlib.Data.Rat.Encodable
import Std.Data.String.ToInt
import Verif.Props.Deactivate
import Verif.Spec.FixTypes

/-!
# Properties of `fix_types`

C65 the function restores the values of a dictionary whose values were turned into text, changes nothing else, and raises
exactly when a value cannot be attributed.
-/

set_option autoImplicit false

namespace Verif
open Verif.Spec

variable {calls : List Call} {s : Space} {T : PyText} {uniform : Name → Bool}

theorem fixFromCandidates_iff {cs : List Val} (hd : cs.Nodup) {w w' : Val} :
    fixFromCandidates T w cs = .ok w' ↔ w' ∈ cs ∧ T.str w' = T.str w ∧ ∀ c ∈ cs, T.str c = T.str w → c = w' := by
  unfold fixFromCandidates
  have hnd := hd.filter (fun c => T.str w == T.str c)
  have hm : ∀ c, c ∈ cs.filter (fun c => T.str w == T.str c) ↔ c ∈ cs ∧ T.str c = T.str w := by
    intro c
    rw [List.mem_filter, beq_iff_eq]
    exact ⟨fun h => ⟨h.1, h.2.symm⟩, fun h => ⟨h.1, h.2.symm⟩⟩
  generalize cs.filter (fun c => T.str w == T.str c) = l at hnd hm
  match l, hnd, hm with
  | [], _, hm =>
    refine ⟨fun e => (by cases e), ?_⟩
    rintro ⟨h1, h2, _⟩
    exact absurd ((hm w').2 ⟨h1, h2⟩) (by simp)
  | [c], _, hm =>
    constructor
    · intro e
      simp only [Except.ok.injEq] at e
      subst e
      obtain ⟨h1, h2⟩ := (hm c).1 (by simp)
      exact ⟨h1, h2, fun c' h3 h4 => by simpa using (hm c').2 ⟨h3, h4⟩⟩
    · rintro ⟨h1, h2, _⟩
      have := (hm w').2 ⟨h1, h2⟩
      simp only [List.mem_singleton] at this
      rw [this]
  | a :: b :: l, hnd, hm =>
    refine ⟨fun e => (by cases e), ?_⟩
    rintro ⟨h1, h2, h3⟩
    have ha := (hm a).1 (by simp)
    have hb := (hm b).1 (by simp)
    have : a = b := (h3 a ha.1 ha.2).trans (h3 b hb.1 hb.2).symm
    subst this
    simp at hnd

theorem choices_nodup {cs : List Val} (h : distinctVals cs = true) : cs.Nodup := by
  refine (distinctVals_pairwise h).imp ?_
  intro a b e e'
  subst e'
  rw [Val.pyEq_refl] at e
  cases e

theorem wf_cat {h : HP} (hw : h.wf = true) {cs : List Val} (hk : h.kind = .cat cs ∨ h.kind = .ord cs) : cs.Nodup := by
  unfold HP.wf at hw
  rcases hk with hk | hk <;>
  · rw [hk] at hw
    simp only [Bool.and_eq_true] at hw
    exact choices_nodup hw.1.2

/-- One value. -/
theorem fixValue_iff {h : HP} (hw : h.wf = true) (hs : Supported uniform h) {w w' : Val} :
    fixValue T uniform h w = .ok w' ↔ Fixed T h w w' := by
  unfold fixValue Fixed
  unfold Supported at hs
  cases hk : h.kind with
  | cat cs => exact fixFromCandidates_iff (wf_cat hw (.inl hk))
  | ord cs => exact fixFromCandidates_iff (wf_cat hw (.inr hk))
  | const c =>
    simp only
    rw [fixFromCandidates_iff (by simp)]
    constructor
    · rintro ⟨h1, h2, _⟩
      have e : w' = c := by simpa using h1
      subst e
      exact ⟨rfl, h2⟩
    · rintro ⟨rfl, h2⟩
      exact ⟨by simp, h2, fun c' hc' _ => by simpa using hc'⟩
  | flt l u =>
    rw [hk] at hs
    simp only at hs ⊢
    rw [if_pos hs]
    cases T.float w with
    | none => simp
    | some q => simp [eq_comm]
  | int l u =>
    rw [hk] at hs
    simp only at hs ⊢
    rw [if_pos hs]
    cases T.int w with
    | none => simp
    | some q => simp [eq_comm]

theorem fixValue_unsupported {h : HP} (hs : ¬ Supported uniform h) (w : Val) : fixValue T uniform h w = .error .typeError := by
  unfold fixValue
  unfold Supported at hs
  split <;> simp_all

/-- The loop, as a function of the nodes left. -/
theorem fixLoop_ok : ∀ {xs : List Node} {d d' : Dict}, (xs.map Node.name).Nodup → fixLoop T uniform xs d = (d', none) →
    d'.map Prod.fst = d.map Prod.fst ∧ (∀ n, (∀ x ∈ xs, x.name ≠ n) → d'.lookup n = d.lookup n) ∧
    ∀ x ∈ xs, (∀ w, d.lookup x.name = some (some w) → ∃ w', fixValue T uniform x.hp w = .ok w' ∧
        d'.lookup x.name = some (some w')) ∧
      ((∀ w, d.lookup x.name ≠ some (some w)) → d'.lookup x.name = d.lookup x.name) := by
  intro xs
  induction xs with
  | nil => intro d d' _ h; simp only [fixLoop, Prod.mk.injEq] at h; obtain ⟨rfl, _⟩ := h; simp
  | cons x xs ih =>
    intro d d' hnd h
    simp only [List.map_cons, List.nodup_cons] at hnd
    have hx : ∀ y ∈ xs, y.name ≠ x.name := fun y hy e => hnd.1 (e ▸ List.mem_map.2 ⟨y, hy, rfl⟩)
    simp only [fixLoop] at h
    split at h
    · rename_i w hw
      split at h
      · rename_i w' hw'
        obtain ⟨i1, i2, i3⟩ := ih hnd.2 h
        have hmem : x.name ∈ d.map Prod.fst := by
          by_contra hc
          rw [lookup_none_iff.2 hc] at hw
          cases hw
        refine ⟨?_, ?_, ?_⟩
        · rw [i1, dictSet_keys, if_pos hmem]
        · intro n hn
          rw [i2 n (fun y hy => hn y (List.mem_cons_of_mem _ hy)), dictSet_lookup, if_neg]
          exact fun e => hn x (List.mem_cons_self ..) e.symm
        · intro y hy
          rcases List.mem_cons.1 hy with e | hy'
          · subst e
            have hl : d'.lookup y.name = some (some w') := by
              rw [i2 y.name hx, dictSet_lookup, if_pos rfl]
            refine ⟨?_, ?_⟩
            · intro w1 h1
              rw [hw] at h1
              simp only [Option.some.injEq] at h1
              subst h1
              exact ⟨w', hw', hl⟩
            · intro h1; exact absurd hw (h1 w)
          · have hne := hx y hy'
            have := i3 y hy'
            rw [dictSet_lookup, if_neg hne] at this
            exact this
      · simp at h
    · rename_i hw
      obtain ⟨i1, i2, i3⟩ := ih hnd.2 h
      refine ⟨i1, ?_, ?_⟩
      · intro n hn
        exact i2 n (fun y hy => hn y (List.mem_cons_of_mem _ hy))
      · intro y hy
        rcases List.mem_cons.1 hy with e | hy'
        · subst e
          refine ⟨fun w h1 => absurd h1 (hw w), fun _ => i2 y.name hx⟩
        · exact i3 y hy'

theorem fixLoop_none : ∀ {xs : List Node} {d : Dict}, (xs.map Node.name).Nodup →
    (∀ x ∈ xs, ∀ w, d.lookup x.name = some (some w) → ∃ w', fixValue T uniform x.hp w = .ok w') →
    (fixLoop T uniform xs d).2 = none := by
  intro xs
  induction xs with
  | nil => intro d _ _; rfl
  | cons x xs ih =>
    intro d hnd h
    simp only [List.map_cons, List.nodup_cons] at hnd
    have hx : ∀ y ∈ xs, y.name ≠ x.name := fun y hy e => hnd.1 (e ▸ List.mem_map.2 ⟨y, hy, rfl⟩)
    simp only [fixLoop]
    split
    · rename_i w hw
      obtain ⟨w', hw'⟩ := h x (List.mem_cons_self ..) w hw
      rw [hw']
      refine ih hnd.2 ?_
      intro y hy w1 h1
      rw [dictSet_lookup, if_neg (hx y hy)] at h1
      exact h y (List.mem_cons_of_mem _ hy) w1 h1
    · exact ih hnd.2 (fun y hy => h y (List.mem_cons_of_mem _ hy))

theorem com_nodup (h : Reach calls s) : (s.com.map Node.name).Nodup := (sinv_of_reach h).com ▸ (reach_ninv h).nodup

/-- **C65.** If no exception is raised, the dictionary has the same keys in the same order, the entries of unknown keys
and empty entries are untouched, and every other value has become the one that the hyperparameter knows under the same text
(or the number). -/
theorem C65_result (h : Reach calls s) (hs : ∀ x ∈ allHps calls, Supported uniform x) {d d' : Dict}
    (hr : fixTypes T uniform s d = (d', none)) :
    d'.map Prod.fst = d.map Prod.fst ∧ (∀ n, ¬ Known calls n → d'.lookup n = d.lookup n) ∧
    ∀ x ∈ allHps calls, (∀ w, d.lookup x.name = some (some w) → ∃ w', Fixed T x w w' ∧ d'.lookup x.name = some (some w')) ∧
      ((∀ w, d.lookup x.name ≠ some (some w)) → d'.lookup x.name = d.lookup x.name) := by
  obtain ⟨i1, i2, i3⟩ := fixLoop_ok (com_nodup h) hr
  refine ⟨i1, ?_, ?_⟩
  · intro n hn
    exact i2 n (fun x hx e => hn ⟨x.hp, node_hp h hx, e⟩)
  · intro x hx
    obtain ⟨y, hy, rfl⟩ := node_of_hp h hx
    obtain ⟨k1, k2⟩ := i3 y hy
    refine ⟨?_, k2⟩
    intro w hw
    obtain ⟨w', e1, e2⟩ := k1 w hw
    exact ⟨w', (fixValue_iff (node_wf h hy) (hs _ hx)).1 e1, e2⟩

/-- **C65**, errors. An exception is raised exactly when some value cannot be attributed. -/
theorem C65_raises_iff (h : Reach calls s) (hs : ∀ x ∈ allHps calls, Supported uniform x) (d : Dict) :
    (fixTypes T uniform s d).2 ≠ none ↔
      ∃ x ∈ allHps calls, ∃ w, d.lookup x.name = some (some w) ∧ ¬ ∃ w', Fixed T x w w' := by
  constructor
  · intro hne
    by_contra hc
    apply hne
    apply fixLoop_none (com_nodup h)
    intro x hx w hw
    by_contra hc2
    apply hc
    refine ⟨x.hp, node_hp h hx, w, hw, ?_⟩
    rintro ⟨w', hw'⟩
    exact hc2 ⟨w', (fixValue_iff (node_wf h hx) (hs _ (node_hp h hx))).2 hw'⟩
  · rintro ⟨x, hx, w, hw, hno⟩ e
    obtain ⟨_, _, i3⟩ := C65_result h hs (d := d) (d' := (fixTypes T uniform s d).1) (by rw [← e])
    obtain ⟨w', h1, _⟩ := (i3 x hx).1 w hw
    exact hno ⟨w', h1⟩

theorem dict_ext {β : Type} : ∀ {d e : List (Name × β)}, d.map Prod.fst = e.map Prod.fst → (d.map Prod.fst).Nodup →
    (∀ n, d.lookup n = e.lookup n) → d = e
  | [], [], _, _, _ => rfl
  | [], _ :: _, h, _, _ => by simp at h
  | _ :: _, [], h, _, _ => by simp at h
  | (a, v) :: d, (b, w) :: e, h, hnd, hl => by
    simp only [List.map_cons, List.cons.injEq] at h
    obtain ⟨rfl, h2⟩ := h
    simp only [List.map_cons, List.nodup_cons] at hnd
    have h0 := hl a
    simp only [List.lookup_cons, beq_self_eq_true, Option.some.injEq] at h0
    subst h0
    rw [dict_ext h2 hnd.2]
    intro n
    have := hl n
    by_cases e' : n = a
    · subst e'
      have n1 : d.lookup n = none := lookup_none_iff.2 hnd.1
      have n2 : e.lookup n = none := lookup_none_iff.2 (h2 ▸ hnd.1)
      rw [n1, n2]
    · have hb : (n == a) = false := by simpa using e'
      simpa [List.lookup_cons, hb] using this

/-- **C65**, round trip. If values of a dictionary with well typed values have been replaced by their texts, then the
function gives the original dictionary back — provided that different choices have different texts. -/
theorem C65_restores (h : Reach calls s) (hT : RoundTrip T) (hs : ∀ x ∈ allHps calls, Supported uniform x)
    (hap : ∀ x ∈ allHps calls, TextApart T x) {d d' : Dict} (hnd : (d.map Prod.fst).Nodup)
    (hty : ∀ x ∈ allHps calls, ∀ w, d.lookup x.name = some (some w) → Typed x w) (htx : Texted T calls d d') :
    fixTypes T uniform s d' = (d, none) := by
  obtain ⟨t1, t2⟩ := htx
  have key : ∀ x ∈ allHps calls, ∀ w, d.lookup x.name = some (some w) → ∀ u, d'.lookup x.name = some (some u) →
      ∀ w', Fixed T x u w' ↔ w' = w := by
    intro x hx w hw u hu w'
    have hty' := hty x hx w hw
    have hap' := hap x hx
    have hu' : u = w ∨ u = .str (T.str w) := by
      rcases t2 x.name with e | ⟨_, w1, e1, e2⟩
      · rw [hu, hw] at e
        simp only [Option.some.injEq] at e
        exact .inl e
      · rw [hw] at e1
        rw [hu] at e2
        simp only [Option.some.injEq] at e1 e2
        subst e1
        exact .inr e2
    have hstr : T.str u = T.str w := by rcases hu' with rfl | rfl <;> rfl
    unfold Fixed
    unfold Typed at hty'
    unfold TextApart at hap'
    cases hk : x.kind with
    | cat cs =>
      rw [hk] at hty' hap'
      simp only at hty' hap' ⊢
      rw [hstr]
      exact ⟨fun h => hap' _ h.1 _ hty' h.2.1, fun e => by subst e; exact ⟨hty', rfl, fun c hc e => hap' _ hc _ hty' e⟩⟩
    | ord cs =>
      rw [hk] at hty' hap'
      simp only at hty' hap' ⊢
      rw [hstr]
      exact ⟨fun h => hap' _ h.1 _ hty' h.2.1, fun e => by subst e; exact ⟨hty', rfl, fun c hc e => hap' _ hc _ hty' e⟩⟩
    | const c =>
      rw [hk] at hty'
      simp only at hty' ⊢
      subst hty'
      rw [hstr]
      simp
    | flt l u' =>
      rw [hk] at hty'
      simp only at hty' ⊢
      obtain ⟨q, rfl⟩ := hty'
      have : T.float u = some q := by
        rcases hu' with rfl | rfl
        · rfl
        · exact hT.float q
      rw [this]
      simp [eq_comm]
    | int l u' =>
      rw [hk] at hty'
      simp only at hty' ⊢
      obtain ⟨n, rfl⟩ := hty'
      have : T.int u = some n := by
        rcases hu' with rfl | rfl
        · rfl
        · exact hT.int n
      rw [this]
      simp [eq_comm]
  have hsome : ∀ n u, d'.lookup n = some (some u) → ∃ w, d.lookup n = some (some w) := by
    intro n u hu
    rcases t2 n with e | ⟨_, w, e, _⟩
    · exact ⟨u, e ▸ hu⟩
    · exact ⟨w, e⟩
  have hno : (fixTypes T uniform s d').2 = none := by
    by_contra hne
    obtain ⟨x, hx, u, hu, hf⟩ := (C65_raises_iff h hs d').1 hne
    obtain ⟨w, hw⟩ := hsome _ _ hu
    exact hf ⟨w, (key x hx w hw u hu w).2 rfl⟩
  have hr : fixTypes T uniform s d' = ((fixTypes T uniform s d').1, none) := by rw [← hno]
  obtain ⟨i1, i2, i3⟩ := C65_result h hs hr
  rw [hr]
  congr 1
  refine dict_ext (i1.trans t1) (by rw [i1, t1]; exact hnd) ?_
  intro n
  by_cases hk : Known calls n
  · obtain ⟨x, hx, rfl⟩ := hk
    by_cases hu : ∃ u, d'.lookup x.name = some (some u)
    · obtain ⟨u, hu⟩ := hu
      obtain ⟨w, hw⟩ := hsome _ _ hu
      obtain ⟨w', e1, e2⟩ := (i3 x hx).1 u hu
      rw [e2, hw, (key x hx w hw u hu w').1 e1]
    · have hu' : ∀ w, d'.lookup x.name ≠ some (some w) := fun w e => hu ⟨w, e⟩
      rw [(i3 x hx).2 hu']
      rcases t2 x.name with e | ⟨_, w, _, e⟩
      · exact e
      · exact absurd e (hu' _)
  · rw [i2 n hk]
    rcases t2 n with e | ⟨hk', _⟩
    · exact e
    · exact absurd hk' hk

/-- **C65**, for the hyperparameters with a normal or beta distribution. They always raise a `TypeError`. -/
theorem C65_other_distributions (h : Reach calls s) {d d' : Dict} {x : HP} (hx : x ∈ allHps calls)
    (hn : ¬ Supported uniform x) {w : Val} (hw : d.lookup x.name = some (some w)) : fixTypes T uniform s d ≠ (d', none) := by
  intro e
  obtain ⟨y, hy, rfl⟩ := node_of_hp h hx
  obtain ⟨w', h1, _⟩ := ((fixLoop_ok (com_nodup h) e).2.2 y hy).1 w hw
  rw [fixValue_unsupported hn] at h1
  cases h1

/-! ## Counterexamples and examples -/

theorem texted_all {d : Dict} (hk : ∀ kv ∈ d, kv.2 = none ∨ Known calls kv.1) :
    Texted T calls d (d.map (fun kv => (kv.1, kv.2.map (fun w => Val.str (T.str w))))) := by
  refine ⟨by simp, ?_⟩
  intro n
  induction d with
  | nil => exact .inl rfl
  | cons kv d ih =>
    obtain ⟨k, o⟩ := kv
    simp only [List.map_cons, List.lookup_cons]
    by_cases e : n = k
    · subst e
      simp only [beq_self_eq_true]
      cases o with
      | none => exact .inl rfl
      | some w =>
        rcases hk _ (List.mem_cons_self ..) with h0 | h0
        · cases h0
        · exact .inr ⟨h0, w, rfl, rfl⟩
    · have hb : (n == k) = false := by simpa using e
      rw [hb]
      exact ih (fun kv hkv => hk kv (List.mem_cons_of_mem _ hkv))

namespace ExT
open Ex

/-- Some way to write floats that can be read back. -/
def text : PyText where
  strFloat q := Int.repr (Encodable.encode q : Nat)
  parseFloat t := t.toInt?.bind (fun n => Encodable.decode n.toNat)
  parseInt t := t.toInt?

theorem text_ok : RoundTrip text := by
  refine ⟨?_, ?_⟩
  · intro q
    show ((Int.repr ((Encodable.encode q : Nat) : Int)).toInt?).bind _ = _
    rw [Int.toInt?_repr]
    simp [Encodable.encodek]
  · intro n
    exact Int.toInt?_repr n

/-- `c` with the choices `1` and `"1"`. -/
def callA : Call := ⟨[⟨"c", .cat [.int 1, .str "1"], .int 1⟩], [], []⟩
def spA : Space := committed {} callA
theorem reachA : Reach [callA] spA := Reach.snoc (calls := []) .nil (by decide +kernel)
  (add_of_stages [("c", some (.int 1))] [some 0] [("c", .int 1)]
    (by decide +kernel) (by decide +kernel) (by decide +kernel) (by decide +kernel) (by decide +kernel)
    (by decide +kernel))
theorem cfgA_eq : Config.ofValues spA [("c", some (.int 1))] = .ok ⟨[some 0], some [("c", .int 1)], false⟩ :=
  ofValues_stages _ _ (by decide +kernel) (by decide +kernel) (by decide +kernel)

/-- An integer `i` in `[0, 9]` and the choice `p`. -/
def callI : Call := ⟨[⟨"i", .int 0 9, .int 3⟩, ab "p"], [], []⟩
def spI : Space := committed {} callI
theorem reachI : Reach [callI] spI := Reach.snoc (calls := []) .nil (by decide +kernel)
  (add_of_stages [("i", some (.int 3)), ("p", some (.str "a"))] [some (1 / 3), some 0] [("i", .int 3), ("p", .str "a")]
    (by decide +kernel) (by decide +kernel) (by decide +kernel) (by decide +kernel) (by decide +kernel)
    (by decide +kernel))

theorem com_eq : spI.com.map Node.hp = [⟨"i", .int 0 9, .int 3⟩, ab "p"] := by decide +kernel

/-- The loop on the space with `i` and `p`. -/
theorem fixTypes_spI (T : PyText) (uniform : Name → Bool) (d : Dict) : ∃ x y : Node, x.hp = ⟨"i", .int 0 9, .int 3⟩ ∧
    y.hp = ab "p" ∧ fixTypes T uniform spI d = fixLoop T uniform [x, y] d := by
  unfold fixTypes
  have h := com_eq
  match e : spI.com, h with
  | [x, y], h =>
    simp only [List.map_cons, List.map_nil, List.cons.injEq, and_true] at h
    exact ⟨x, y, h.1, h.2, rfl⟩
  | [], h => simp at h
  | [_], h => simp at h
  | _ :: _ :: _ :: _, h => simp at h

/-- All choices are strings. -/
def strChoices (h : HP) : Bool := match h.kind with
  | .cat cs => cs.all (fun c => c.num?.isNone)
  | .ord cs => cs.all (fun c => c.num?.isNone)
  | _ => true

theorem textApart_of (T : PyText) {h : HP} (hs : strChoices h = true) : TextApart T h := by
  have key : ∀ cs : List Val, cs.all (fun c => c.num?.isNone) = true → ∀ a ∈ cs, ∀ b ∈ cs, T.str a = T.str b → a = b := by
    intro cs hc a ha b hb e
    rw [List.all_eq_true] at hc
    have h1 := hc a ha
    have h2 := hc b hb
    cases a with
    | int _ => cases h1
    | flt _ => cases h1
    | str t => cases b with
      | int _ => cases h2
      | flt _ => cases h2
      | str u => exact congrArg _ e
  unfold TextApart
  unfold strChoices at hs
  split <;> rename_i hk
  · rw [hk] at hs; exact key _ hs
  · rw [hk] at hs; exact key _ hs
  · trivial

/-- A decidable form of `Typed`. -/
def typedB (h : HP) (w : Val) : Bool := match h.kind, w with
  | .cat cs, w => decide (w ∈ cs)
  | .ord cs, w => decide (w ∈ cs)
  | .const c, w => decide (w = c)
  | .flt _ _, .flt _ => true
  | .int _ _, .int _ => true
  | _, _ => false

theorem typed_of {h : HP} {w : Val} (ht : typedB h w = true) : Typed h w := by
  unfold typedB at ht
  unfold Typed
  split at ht <;> rename_i hk <;> first | rw [hk] | skip
  · simpa using ht
  · simpa using ht
  · simpa using ht
  · exact ⟨_, rfl⟩
  · exact ⟨_, rfl⟩
  · cases ht

def dictT : Dict := [("alg", some (.str "a")), ("c", some (.int 7)), ("k", some (.int 3)), ("o", some (.str "lo")),
  ("x", some (.flt (1 / 8))), ("other", none)]

end ExT

/-- Two choices with the same text: the function refuses even the values of a valid configuration. -/
theorem C65_ambiguous_text : ∃ calls s d c, Reach calls s ∧ Config.ofValues s d = .ok c ∧
    ∀ T uniform, fixTypes T uniform s d = (d, some .valueError) := by
  refine ⟨_, _, _, _, ExT.reachA, ExT.cfgA_eq, ?_⟩
  intro T uniform
  unfold fixTypes
  have h : ExT.spA.com.map Node.hp = [⟨"c", .cat [.int 1, .str "1"], .int 1⟩] := by decide +kernel
  match e : ExT.spA.com, h with
  | [x], h =>
    simp only [List.map_cons, List.map_nil, List.cons.injEq, and_true] at h
    have hn : x.name = "c" := by unfold Node.name; rw [h]
    have hs : T.str (.int 1) = T.str (.str "1") := by
      show toString (1 : Int) = "1"
      decide +kernel
    simp only [fixLoop, hn, List.lookup_cons, beq_self_eq_true, fixValue, h, fixFromCandidates, List.filter_cons,
      List.filter_nil, hs, if_true]
  | [], h => simp at h
  | _ :: _ :: _, h => simp at h

/-- The dictionary is changed in place: when the function raises, some values may have been replaced already. -/
theorem C65_partial_change : ∃ calls s d d', Reach calls s ∧ d' ≠ d ∧ ∀ T uniform, RoundTrip T → uniform "i" = true →
    fixTypes T uniform s d = (d', some .valueError) := by
  refine ⟨_, _, [("i", some (.str "5")), ("p", some (.str "z"))], [("i", some (.int 5)), ("p", some (.str "z"))],
    ExT.reachI, by decide, ?_⟩
  intro T uniform hT hu
  obtain ⟨x, y, hx, hy, e⟩ := ExT.fixTypes_spI T uniform [("i", some (.str "5")), ("p", some (.str "z"))]
  have hxn : x.name = "i" := by unfold Node.name; rw [hx]
  have hyn : y.name = "p" := by unfold Node.name; rw [hy]; rfl
  have h5 : T.int (.str "5") = some 5 := by
    have := hT.int 5
    rwa [show toString (5 : Int) = "5" by decide +kernel] at this
  have h1 : fixValue T uniform x.hp (.str "5") = .ok (.int 5) := by
    rw [hx]; simp only [fixValue, hu, if_true, h5]
  have h2 : fixValue T uniform y.hp (.str "z") = .error .valueError := by
    rw [hy]
    show fixFromCandidates T (.str "z") [.str "a", .str "b"] = _
    simp [fixFromCandidates, PyText.str]
  rw [e]
  simp only [fixLoop, hxn, hyn]
  rw [show (([("i", some (.str "5")), ("p", some (.str "z"))] : Dict).lookup "i") = some (some (.str "5")) from rfl]
  simp only [h1]
  rw [show ((dictSet ([("i", some (.str "5")), ("p", some (.str "z"))] : Dict) "i" (some (.int 5))).lookup "p") =
    some (some (.str "z")) from rfl]
  simp only [h2]
  rfl

/-- Floats are silently truncated for an integer hyperparameter, and values outside of the range are let through. -/
theorem C65_truncates : ∃ calls s d d', Reach calls s ∧ (∃ e, Config.ofValues s d = .error e) ∧
    (∃ e, Config.ofValues s d' = .error e) ∧ ∀ T uniform, uniform "i" = true → fixTypes T uniform s d = (d', none) := by
  refine ⟨_, _, [("i", some (.flt (131 / 10))), ("p", some (.str "a"))], [("i", some (.int 13)), ("p", some (.str "a"))],
    ExT.reachI, ?_, ?_, ?_⟩
  · have : (Config.ofValues ExT.spI [("i", some (.flt (131 / 10))), ("p", some (.str "a"))]).toOption.isNone = true := by
      decide +kernel
    cases e0 : Config.ofValues ExT.spI [("i", some (.flt (131 / 10))), ("p", some (.str "a"))] with
    | error e => exact ⟨e, rfl⟩
    | ok c => rw [e0] at this; cases this
  · have : (Config.ofValues ExT.spI [("i", some (.int 13)), ("p", some (.str "a"))]).toOption.isNone = true := by
      decide +kernel
    cases e0 : Config.ofValues ExT.spI [("i", some (.int 13)), ("p", some (.str "a"))] with
    | error e => exact ⟨e, rfl⟩
    | ok c => rw [e0] at this; cases this
  · intro T uniform hu
    obtain ⟨x, y, hx, hy, e⟩ := ExT.fixTypes_spI T uniform [("i", some (.flt (131 / 10))), ("p", some (.str "a"))]
    have hxn : x.name = "i" := by unfold Node.name; rw [hx]
    have hyn : y.name = "p" := by unfold Node.name; rw [hy]; rfl
    have h1 : fixValue T uniform x.hp (.flt (131 / 10)) = .ok (.int 13) := by
      rw [hx]; simp only [fixValue, hu, if_true, PyText.int]
      rw [show trunc (131 / 10) = 13 by decide +kernel]
    have h2 : fixValue T uniform y.hp (.str "a") = .ok (.str "a") := by
      rw [hy]
      show fixFromCandidates T (.str "a") [.str "a", .str "b"] = _
      simp [fixFromCandidates, PyText.str]
    rw [e]
    simp only [fixLoop, hxn, hyn]
    rw [show (([("i", some (.flt (131 / 10))), ("p", some (.str "a"))] : Dict).lookup "i") =
      some (some (.flt (131 / 10))) from rfl]
    simp only [h1]
    rw [show ((dictSet ([("i", some (.flt (131 / 10))), ("p", some (.str "a"))] : Dict) "i" (some (.int 13))).lookup "p") =
      some (some (.str "a")) from rfl]
    simp only [h2]
    rfl

/-- The five-hyperparameter example meets the hypotheses of C65: all values are recovered from their texts. -/
example : fixTypes ExT.text (fun _ => true) Ex.sp1
    (("alg", some (.str "a")) :: ExT.dictT.tail.map (fun kv => (kv.1, kv.2.map (fun w => Val.str (ExT.text.str w))))) =
    (ExT.dictT, none) := by
  refine C65_restores Ex.reach1 ExT.text_ok ?_ ?_ (by decide +kernel) ?_ ?_
  · intro x _
    unfold Supported
    split <;> trivial
  · have : ∀ x ∈ allHps [Ex.call1], ExT.strChoices x = true := by decide +kernel
    exact fun x hx => ExT.textApart_of _ (this x hx)
  · have : ∀ x ∈ allHps [Ex.call1], (match ExT.dictT.lookup x.name with
      | some (some w) => ExT.typedB x w
      | _ => true) = true := by decide +kernel
    intro x hx w hw
    have := this x hx
    rw [hw] at this
    exact ExT.typed_of this
  · have hk : ∀ kv ∈ ExT.dictT, kv.2 = none ∨ ∃ x ∈ allHps [Ex.call1], x.name = kv.1 := by decide +kernel
    exact texted_all (d := ExT.dictT) (T := ExT.text) hk

/-- An integer that is not uniform: the call fails on every dictionary with a value for it. -/
example (d' : Dict) : fixTypes ExT.text (fun _ => false) ExT.spI [("i", some (.int 5))] ≠ (d', none) :=
  C65_other_distributions ExT.reachI (x := ⟨"i", .int 0 9, .int 3⟩) (by simp [allHps, ExT.callI]) (by simp [Supported]) (w := .int 5) rfl

end Verif
