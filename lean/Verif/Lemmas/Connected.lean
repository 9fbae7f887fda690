import Verif.Spec.Connected
import Verif.Props.Exchange
import Verif.Props.Size
import Mathlib.Logic.Relation

/-!
# Moving from one valid configuration to another by changing single values
-/

set_option autoImplicit false

namespace Verif.Conn
open Verif Verif.Spec Relation

variable {calls : List Call} {s : Space}

/-- Changing a set value to another one keeps a configuration valid, if there are no clauses. -/
theorem change_valid (h : Reach calls s) (hsep : Separable calls) (hl : WeaklyLayered calls) (hf : allForbs calls = [])
    {v : Vec} (hv : ValidVec calls s v) {y : HP} (hy : y ∈ allHps calls) {q q' : Rat}
    (hq : v.at (s.idx y.name) = some q) (hq' : EntryOf y q') :
    ValidVec calls s (s.changeHp v y.name q' (s.idx y.name)) ∧
    (s.changeHp v y.name q' (s.idx y.name)).at (s.idx y.name) = some q' ∧
    ∀ m, m ∈ s.names → m ≠ y.name → ¬ Path (ParentOf calls) y.name m →
      (s.changeHp v y.name q' (s.idx y.name)).at (s.idx m) = v.at (s.idx m) := by
  obtain ⟨a, ha, hval, hex⟩ := hv
  have hyn := (reach_isNode h y.name).2 ⟨y, hy, rfl⟩
  have hset : ∃ q, a y.name = some q := ⟨q, by rw [← at_idx ha hyn, hq]⟩
  refine ⟨?_, changeHp_at h ha.1 hyn, fun m hm hne hp => changeHp_other h ha.1 hyn hm hne hp⟩
  obtain ⟨b, k1, k2, k3, k4, k5, k6⟩ := C23_change_reestablishes_activity_partial h hsep hl ha hval.active
    (n := y.name) ⟨y, hy, rfl⟩ hset q'
  have hent : Exact calls b := by
    intro z hz p hp
    by_cases e : z.name = y.name
    · rw [e, k2] at hp
      cases hp
      rw [reach_hp_inj h z hz y hy e]
      exact hq'
    · rcases k6 z hz e p hp with hz' | rfl
      · exact hex z hz p hz'
      · exact defVec_entry ((reach_wf h).1 z hz)
  refine ⟨b, k1, ⟨k4 hval.roots, k3, ?_, ?_⟩, hent⟩
  · intro z hz p hp
    exact entryOf_legal ((reach_wf h).1 z hz) (hent z hz p hp)
  · intro f hff
    rw [hf] at hff
    cases hff

variable {Move : HP → Rat → Rat → Prop} {R : Vec → Vec → Prop}

/-- Several moves of one value. -/
theorem moves (h : Reach calls s) (hsep : Separable calls) (hl : WeaklyLayered calls) (hf : allForbs calls = [])
    (hR : ∀ v y q q', ValidVec calls s v → y ∈ allHps calls → v.at (s.idx y.name) = some q → EntryOf y q → EntryOf y q' →
      Move y q q' → R v (s.changeHp v y.name q' (s.idx y.name)))
    (hM : ∀ y ∈ allHps calls, ∀ q q', Move y q q' → EntryOf y q') {y : HP} (hy : y ∈ allHps calls) {q q' : Rat} (hm : ReflTransGen (Move y) q q')
    {v : Vec} (hv : ValidVec calls s v) (hq : v.at (s.idx y.name) = some q) :
    ∃ w, ReflTransGen R v w ∧ ValidVec calls s w ∧ w.at (s.idx y.name) = some q' ∧
      ∀ m, m ∈ s.names → m ≠ y.name → ¬ Path (ParentOf calls) y.name m → w.at (s.idx m) = v.at (s.idx m) := by
  induction hm with
  | refl => exact ⟨v, .refl, hv, hq, fun _ _ _ _ => rfl⟩
  | @tail p p' hp hs ih =>
    obtain ⟨w, w1, w2, w3, w4⟩ := ih
    have he := (exact_at h w2).2 y hy p w3
    obtain ⟨k1, k2, k3⟩ := change_valid h hsep hl hf w2 hy w3 (hM y hy _ _ hs)
    refine ⟨_, w1.tail (hR w y p p' w2 hy w3 he (hM y hy _ _ hs) hs), k1, k2, ?_⟩
    intro m hm hne hp
    rw [k3 m hm hne hp, w4 m hm hne hp]

/-- Which positions are set is determined by the positions before. -/
theorem set_iff (h : Reach calls s) {v w : Vec} (hv : ValidVec calls s v) (hw : ValidVec calls s w) {i : Nat}
    (hi : i < s.com.length) (he : ∀ j, j < i → v.at j = w.at j) : (∃ q, v.at i = some q) → ∃ q, w.at i = some q := by
  obtain ⟨a, ha, hva, _⟩ := hv
  obtain ⟨b, hb, hvb, _⟩ := hw
  obtain ⟨hat, hidx⟩ := at_com h hi
  have hmem : s.com[i].name ∈ s.names := List.mem_of_getElem? hat
  rw [ha.2 i _ hat, hb.2 i _ hat]
  intro hq
  by_cases hc : Conditional calls s.com[i].name
  · obtain ⟨c, hc, hch⟩ := hc
    refine (hvb.active c hc _ hch).2 ((holds_congr c ?_).1 ((hva.active c hc _ hch).1 hq))
    intro p hp
    have hpn := cond_parents_known h hc hp
    rw [← at_idx ha hpn, ← at_idx hb hpn]
    exact he _ (parent_before h hi hc hch hp)
  · exact hvb.roots _ ((C02_names_index_bijection h).2.1 _ |>.1 hmem) hc

/-- Dependants stand behind. -/
theorem path_lt (h : Reach calls s) {a b : Name} (hp : Path (ParentOf calls) a b) : s.idx a < s.idx b := by
  induction hp with
  | edge e =>
    obtain ⟨i, j, _, _, hij, e1, e2⟩ := C01_parents_before_children h e
    omega
  | cons e _ ih =>
    obtain ⟨i, j, _, _, hij, e1, e2⟩ := C01_parents_before_children h e
    omega

/-- If all values of a hyperparameter are connected by moves, all valid configurations are. -/
theorem connect (h : Reach calls s) (hsep : Separable calls) (hl : WeaklyLayered calls) (hf : allForbs calls = [])
    (hR : ∀ v y q q', ValidVec calls s v → y ∈ allHps calls → v.at (s.idx y.name) = some q → EntryOf y q → EntryOf y q' →
      Move y q q' → R v (s.changeHp v y.name q' (s.idx y.name)))
    (hM : ∀ y ∈ allHps calls, ∀ q q', Move y q q' → EntryOf y q')
    (hC : ∀ y ∈ allHps calls, ∀ q q', EntryOf y q → EntryOf y q' → ReflTransGen (Move y) q q')
    {v w : Vec} (hv : ValidVec calls s v) (hw : ValidVec calls s w) : ReflTransGen R v w := by
  have key : ∀ i, i ≤ s.com.length → ∃ u, ReflTransGen R v u ∧ ValidVec calls s u ∧ ∀ j, j < i → u.at j = w.at j := by
    intro i
    induction i with
    | zero => intro _; exact ⟨v, .refl, hv, fun j hj => absurd hj (Nat.not_lt_zero j)⟩
    | succ i ih =>
      intro hi
      have hi' : i < s.com.length := hi
      obtain ⟨u, u1, u2, u3⟩ := ih (Nat.le_of_succ_le hi)
      obtain ⟨hat, hidx⟩ := at_com h hi'
      have hy := node_hp h (List.getElem_mem hi')
      have hname : s.com[i].hp.name = s.com[i].name := rfl
      have hyn : s.com[i].name ∈ s.names := List.mem_of_getElem? hat
      cases hu : u.at i with
      | none =>
        refine ⟨u, u1, u2, ?_⟩
        intro j hj
        rcases Nat.lt_succ_iff_lt_or_eq.1 hj with hj | rfl
        · exact u3 j hj
        · cases hwj : w.at j with
          | none => exact hu
          | some q =>
            obtain ⟨q', hq'⟩ := set_iff h hw u2 hi' (fun k hk => (u3 k hk).symm) ⟨q, hwj⟩
            rw [hu] at hq'
            cases hq'
      | some q =>
        obtain ⟨q', hq'⟩ := set_iff h u2 hw hi' u3 ⟨q, hu⟩
        have hqi : u.at (s.idx s.com[i].hp.name) = some q := by rw [hname, hidx]; exact hu
        have hqi' : w.at (s.idx s.com[i].hp.name) = some q' := by rw [hname, hidx]; exact hq'
        have e1 := (exact_at h u2).2 _ hy q hqi
        have e2 := (exact_at h hw).2 _ hy q' hqi'
        obtain ⟨u', p1, p2, p3, p4⟩ := moves h hsep hl hf hR hM hy (hC _ hy _ _ e1 e2) u2 hqi
        refine ⟨u', u1.trans p1, p2, ?_⟩
        intro j hj
        rcases Nat.lt_succ_iff_lt_or_eq.1 hj with hj | rfl
        · have hj' : j < s.com.length := Nat.lt_trans hj hi'
          obtain ⟨jat, jidx⟩ := at_com h hj'
          have := p4 s.com[j].name (List.mem_of_getElem? jat) (by
            intro e
            rw [e, hname, hidx] at jidx
            omega) (by
            intro hp
            have := path_lt h hp
            rw [hname, hidx, jidx] at this
            omega)
          rw [jidx] at this
          rw [this]
          exact u3 j hj
        · rw [hname, hidx] at p3
          rw [p3, hq']
  obtain ⟨u, u1, u2, u3⟩ := key _ (Nat.le_refl _)
  have : u = w := by
    have l1 := (exact_at h u2).1.trans (len_com h)
    have l2 := (exact_at h hw).1.trans (len_com h)
    refine List.ext_getElem (by rw [l1, l2]) fun i h1 h2 => ?_
    have := u3 i (l1 ▸ h1)
    rwa [at_getElem h1, at_getElem h2] at this
  rw [← this]
  exact u1

end Verif.Conn
