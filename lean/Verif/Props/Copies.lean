import Verif.Model.Copies
import Verif.Props.Interrupt

/-!
# C134: copies of a configuration are independent
-/

set_option autoImplicit false

namespace Verif.Copies
open Threads (getItem_fst setItem_same_vec setItem_vals)

variable {s : Space}

/-! ## What copies should be: values of their own -/

/-- Configurations as values: reading changes none, assigning changes the one it is done to, a copy is a new value. -/
def value (s : Space) (cs : List Config) : Act → List Config × Threads.Out
  | .read i n => match cs[i]? with
    | none => (cs, .ok none)
    | some c => (cs, (c.getItem s n).1.map some)
  | .write i n w => match cs[i]? with
    | none => (cs, .ok none)
    | some c => match c.setItem s n w with
      | (_, some e) => (cs, .error e)
      | (c', none) => (cs.set i c', .ok none)
  | .copy i => match cs[i]? with
    | none => (cs, .ok none)
    | some c => (cs ++ [c], .ok none)

def values (s : Space) : List Config → List Act → List Threads.Out
  | _, [] => []
  | cs, a :: l => (value s cs a).2 :: values s (value s cs a).1 l

/-! ## The dictionaries hold right values -/

/-- The dictionary is right for the configuration, and has at least what was cached. -/
structure Good (s : Space) (c : Config) (D : List (Name × Val)) : Prop where
  right : ∀ n w, D.lookup n = some w → (c.getItem s n).1 = .ok w
  keys : ∀ n, ((c.vals.getD []).lookup n).isSome → (D.lookup n).isSome

structure Inv (s : Space) (h : Heap) (cs : List Config) : Prop where
  len : h.objs.length = cs.length
  obj : ∀ (i : Nat) (o : Obj) (c : Config), h.objs[i]? = some o → cs[i]? = some c → o.vec = c.vec ∧ o.allow = c.allow ∧
    (o.ref = none → c.vals = none) ∧ ∀ d, o.ref = some d → d < h.dicts.length ∧ Good s c (h.dicts.getD d [])
  share : ∀ (i j : Nat) (o o' : Obj) (c c' : Config) (d : Nat), h.objs[i]? = some o → h.objs[j]? = some o' → cs[i]? = some c → cs[j]? = some c' →
    o.ref = some d → o'.ref = some d → c = c'

/-- What reading does to the cache. -/
theorem getItem_snd (c : Config) (n : Name) : (c.getItem s n).2 = c ∨
    ∃ w, (c.getItem s n).1 = .ok w ∧ (c.getItem s n).2.vals = some (dictSet (c.vals.getD []) n w) := by
  unfold Config.getItem
  cases (c.vals.getD []).lookup n with
  | some w => exact .inl rfl
  | none =>
    simp only
    cases findNode s.dag.nodes n with
    | none => exact .inl rfl
    | some x =>
      simp only
      cases c.vec.at (s.idx n) with
      | none => exact .inl rfl
      | some q =>
        simp only
        cases x.hp.kind.toVal q with
        | none => exact .inl rfl
        | some w => exact .inr ⟨_, rfl, rfl⟩

theorem good_reads {c : Config} {D : List (Name × Val)} (hg : Good s c D) {v : Vec} (hv : v = c.vec) (a : Bool) (n : Name) :
    (Config.getItem s ⟨v, some D, a⟩ n).1 = (c.getItem s n).1 := by
  subst hv
  rw [getItem_fst ⟨c.vec, some D, a⟩ n]
  simp only [Option.getD_some]
  cases hl : D.lookup n with
  | some w => exact (hg.right n w hl).symm
  | none =>
    rw [getItem_fst c n]
    cases hc : (c.vals.getD []).lookup n with
    | none => rfl
    | some u =>
      have := hg.keys n (by rw [hc]; rfl)
      rw [hl] at this
      cases this

theorem good_set {c : Config} {D : List (Name × Val)} (hg : Good s c D) {n : Name} {w : Val} (hw : (c.getItem s n).1 = .ok w) :
    Good s c (dictSet D n w) := by
  refine ⟨?_, ?_⟩
  · intro k u hk
    rw [dictSet_lookup] at hk
    split at hk
    · rename_i e
      rw [e, ← Option.some.inj hk]
      exact hw
    · exact hg.right k u hk
  · intro k hk
    rw [dictSet_lookup]
    split
    · rfl
    · exact hg.keys k hk

theorem getElem?_of_lt {α : Type} {l : List α} {i : Nat} (h : i < l.length) : ∃ x, l[i]? = some x := ⟨l[i], List.getElem?_eq_getElem h⟩

theorem read_inv {h : Heap} {cs : List Config} (hi : Inv s h cs) {i : Nat} {n : Name} {o : Obj} {c : Config} (ho : h.objs[i]? = some o)
    (hc : cs[i]? = some c) : (act s h (.read i n)).2 = (c.getItem s n).1.map some ∧ Inv s (act s h (.read i n)).1 cs := by
  obtain ⟨hv, ha, hn, hd⟩ := hi.obj i o c ho hc
  simp only [act, ho]
  cases hr : o.ref with
  | none =>
    have hcv := hn hr
    have hcfg : h.config o = c := by
      unfold Heap.config
      rw [hr, hv, ha]
      cases c
      simp only at hcv
      subst hcv
      rfl
    rw [hcfg]
    rcases getItem_snd (s := s) c n with e | ⟨w, hw, e⟩
    · rw [e, hcv]
      exact ⟨rfl, hi⟩
    · rw [e]
      simp only
      refine ⟨trivial, ⟨by simpa using hi.len, ?_, ?_⟩⟩
      · intro j p c' hp hc'
        by_cases e2 : i = j
        · subst e2
          rw [List.getElem?_set_self (List.getElem?_eq_some_iff.1 ho).1] at hp
          cases hp
          rw [hc] at hc'
          cases hc'
          refine ⟨hv, ha, nofun, ?_⟩
          intro d hd'
          cases hd'
          refine ⟨by simp, ?_⟩
          rw [List.getD, List.getElem?_append_right (Nat.le_refl _)]
          simp only [Nat.sub_self, List.getElem?_cons_zero, Option.getD_some]
          refine good_set ⟨?_, ?_⟩ hw
          · intro k u hk
            rw [hcv] at hk
            cases hk
          · intro k hk
            exact hk
        · rw [List.getElem?_set_ne e2] at hp
          obtain ⟨h1, h2, h3, h4⟩ := hi.obj j p c' hp hc'
          refine ⟨h1, h2, h3, ?_⟩
          intro d hd'
          obtain ⟨h5, h6⟩ := h4 d hd'
          refine ⟨by simp; omega, ?_⟩
          rw [List.getD, List.getElem?_append_left h5]
          exact h6
      · intro j k p p' c1 c2 d hp hp' h1 h2 hd1 hd2
        by_cases e2 : i = j <;> by_cases e3 : i = k
        · subst e2
          subst e3
          rw [h1] at h2
          exact Option.some.inj h2
        · subst e2
          rw [List.getElem?_set_self (List.getElem?_eq_some_iff.1 ho).1] at hp
          cases hp
          cases hd1
          rw [List.getElem?_set_ne e3] at hp'
          exact absurd ((hi.obj k p' c2 hp' h2).2.2.2 _ hd2).1 (Nat.lt_irrefl _)
        · subst e3
          rw [List.getElem?_set_self (List.getElem?_eq_some_iff.1 ho).1] at hp'
          cases hp'
          cases hd2
          rw [List.getElem?_set_ne e2] at hp
          exact absurd ((hi.obj j p c1 hp h1).2.2.2 _ hd1).1 (Nat.lt_irrefl _)
        · rw [List.getElem?_set_ne e2] at hp
          rw [List.getElem?_set_ne e3] at hp'
          exact hi.share j k p p' c1 c2 d hp hp' h1 h2 hd1 hd2
  | some d =>
    obtain ⟨hlt, hg⟩ := hd d hr
    have hcfg : h.config o = ⟨c.vec, some (h.dicts.getD d []), o.allow⟩ := by
      unfold Heap.config
      rw [hr, hv]
      rfl
    have hres := good_reads hg (v := c.vec) rfl o.allow n
    rw [hcfg, hres]
    have key : ∀ D, Good s c D → Inv s { h with dicts := h.dicts.set d D } cs := by
      intro D hD
      refine ⟨hi.len, ?_, hi.share⟩
      intro j p c' hp hc'
      obtain ⟨h1, h2, h3, h4⟩ := hi.obj j p c' hp hc'
      refine ⟨h1, h2, h3, ?_⟩
      intro d' hd'
      obtain ⟨h5, h6⟩ := h4 d' hd'
      refine ⟨by simpa using h5, ?_⟩
      by_cases e : d = d'
      · subst e
        have : c = c' := hi.share i j o p c c' d ho hp hc hc' hr hd'
        subst this
        simp only
        rw [List.getD, List.getElem?_set_self hlt]
        exact hD
      · simp only
        rw [List.getD, List.getElem?_set_ne e]
        exact h6
    rcases getItem_snd (s := s) ⟨c.vec, some (h.dicts.getD d []), o.allow⟩ n with e | ⟨w, hw, e⟩
    · rw [e]
      exact ⟨rfl, key _ hg⟩
    · rw [e]
      exact ⟨rfl, key _ (good_set hg (hres ▸ hw))⟩

theorem act_value {h : Heap} {cs : List Config} (hi : Inv s h cs) (a : Act) :
    (act s h a).2 = (value s cs a).2 ∧ Inv s (act s h a).1 (value s cs a).1 := by
  have none_iff : ∀ i : Nat, h.objs[i]? = none → cs[i]? = none := by
    intro i hn
    rw [List.getElem?_eq_none_iff] at hn ⊢
    rw [← hi.len]
    exact hn
  have some_iff : ∀ (i : Nat) (o : Obj), h.objs[i]? = some o → ∃ c, cs[i]? = some c := by
    intro i o ho
    exact getElem?_of_lt (by rw [← hi.len]; exact (List.getElem?_eq_some_iff.1 ho).1)
  cases a with
  | read i n =>
    cases ho : h.objs[i]? with
    | none =>
      simp only [act, value, ho, none_iff i ho]
      exact ⟨trivial, hi⟩
    | some o =>
      obtain ⟨c, hc⟩ := some_iff i o ho
      obtain ⟨h1, h2⟩ := read_inv hi (n := n) ho hc
      simp only [value, hc]
      exact ⟨h1, h2⟩
  | write i n w =>
    cases ho : h.objs[i]? with
    | none =>
      simp only [act, value, ho, none_iff i ho]
      exact ⟨trivial, hi⟩
    | some o =>
      obtain ⟨c, hc⟩ := some_iff i o ho
      obtain ⟨hv, ha, -, -⟩ := hi.obj i o c ho hc
      obtain ⟨k1, k2⟩ := setItem_same_vec (s := s) (c := h.config o) (d := c) hv (n := n) (w := w)
      simp only [act, value, ho, hc]
      cases e1 : (h.config o).setItem s n w with
      | mk c1 x1 =>
        cases e2 : c.setItem s n w with
        | mk c2 x2 =>
          rw [e1, e2] at k1 k2
          simp only at k1 k2
          subst k1
          cases x2 with
          | some e => exact ⟨rfl, hi⟩
          | none =>
            refine ⟨rfl, ⟨by simpa using hi.len, ?_, ?_⟩⟩
            · intro j p c' hp hc'
              by_cases e3 : i = j
              · subst e3
                simp only at hp
                rw [List.getElem?_set_self (List.getElem?_eq_some_iff.1 ho).1] at hp
                rw [List.getElem?_set_self (List.getElem?_eq_some_iff.1 hc).1] at hc'
                cases hp
                cases hc'
                obtain ⟨x, q, -, -, -, -, h6⟩ := Commute.setItem_is e2
                refine ⟨(k2 rfl).symm, ?_, ?_, nofun⟩
                · rw [h6]
                  exact ha
                · intro _
                  rw [h6]
              · simp only at hp
                rw [List.getElem?_set_ne e3] at hp hc'
                exact hi.obj j p c' hp hc'
            · intro j k p p' c1' c2' d hp hp' h1 h2 hd1 hd2
              simp only at hp hp'
              have hj : i ≠ j := by
                rintro rfl
                rw [List.getElem?_set_self (List.getElem?_eq_some_iff.1 ho).1] at hp
                cases hp
                cases hd1
              have hk : i ≠ k := by
                rintro rfl
                rw [List.getElem?_set_self (List.getElem?_eq_some_iff.1 ho).1] at hp'
                cases hp'
                cases hd2
              rw [List.getElem?_set_ne hj] at hp h1
              rw [List.getElem?_set_ne hk] at hp' h2
              exact hi.share j k p p' c1' c2' d hp hp' h1 h2 hd1 hd2
  | copy i =>
    cases ho : h.objs[i]? with
    | none =>
      simp only [act, value, ho, none_iff i ho]
      exact ⟨trivial, hi⟩
    | some o =>
      obtain ⟨c, hc⟩ := some_iff i o ho
      simp only [act, value, ho, hc]
      -- The new object stands at the end; it is like the object it was copied from.
      have old : ∀ (j : Nat) (p : Obj) (c' : Config), (h.objs ++ [o])[j]? = some p → (cs ++ [c])[j]? = some c' →
          ∃ j' : Nat, h.objs[j']? = some p ∧ cs[j']? = some c' := by
        intro j p c' hp hc'
        by_cases hj : j < h.objs.length
        · rw [List.getElem?_append_left hj] at hp
          rw [List.getElem?_append_left (by rw [← hi.len]; exact hj)] at hc'
          exact ⟨j, hp, hc'⟩
        · rw [List.getElem?_append_right (by omega)] at hp
          rw [List.getElem?_append_right (by rw [← hi.len]; omega)] at hc'
          have h0 : j - h.objs.length = 0 := by
            have := (List.getElem?_eq_some_iff.1 hp).1
            simp only [List.length_singleton] at this
            omega
          rw [h0] at hp
          rw [← hi.len, h0] at hc'
          cases hp
          cases hc'
          exact ⟨i, ho, hc⟩
      refine ⟨trivial, ⟨by simp [hi.len], ?_, ?_⟩⟩
      · intro j p c' hp hc'
        obtain ⟨j', h1, h2⟩ := old j p c' hp hc'
        exact hi.obj j' p c' h1 h2
      · intro j k p p' c1 c2 d hp hp' h1 h2 hd1 hd2
        obtain ⟨j', a1, a2⟩ := old j p c1 hp h1
        obtain ⟨k', b1, b2⟩ := old k p' c2 hp' h2
        exact hi.share j' k' p p' c1 c2 d a1 b1 a2 b2 hd1 hd2

theorem inv_single (c : Config) : Inv s (single c) [c] := by
  unfold single
  cases hv : c.vals with
  | none =>
    refine ⟨rfl, ?_, ?_⟩
    · intro i o c' ho hc
      cases i with
      | zero =>
        cases ho
        cases hc
        exact ⟨rfl, rfl, fun _ => hv, nofun⟩
      | succ i => cases ho
    · intro i j o o' c1 c2 d ho ho' h1 h2 hd
      cases i with
      | zero => cases ho; cases hd
      | succ i => cases ho
  | some D =>
    refine ⟨rfl, ?_, ?_⟩
    · intro i o c' ho hc
      cases i with
      | zero =>
        cases ho
        cases hc
        refine ⟨rfl, rfl, nofun, ?_⟩
        intro d hd
        cases hd
        refine ⟨by simp, ⟨?_, ?_⟩⟩
        · intro n w hw
          rw [getItem_fst c n, hv]
          simp only [List.getD_cons_zero] at hw
          rw [Option.getD_some, hw]
        · intro n hn
          rw [hv] at hn
          exact hn
      | succ i => cases ho
    · intro i j o o' c1 c2 d ho ho' h1 h2 hd hd'
      cases i with
      | succ i => cases ho
      | zero =>
        cases j with
        | succ j => cases ho'
        | zero =>
          cases h1
          cases h2
          rfl

/-- **C134.** A configuration is copied with `copy.copy`, copies are copied, all of them are read from and assigned to in any order.  Every
read and every assignment has the outcome it has if each copy is a value of its own, which only assignments to itself change. -/
theorem C134_copies_independent (c : Config) (l : List Act) : acts s (single c) l = values s [c] l := by
  have key : ∀ (l : List Act) {h : Heap} {cs : List Config}, Inv s h cs → acts s h l = values s cs l := by
    intro l
    induction l with
    | nil => intro h cs _; rfl
    | cons a l ih =>
      intro h cs hi
      obtain ⟨h1, h2⟩ := act_value hi a
      simp only [acts, values]
      rw [h1, ih h2]
  exact key l (inv_single c)

namespace ExCy
open Commute.ExCm

/-- A copy is made after `p` was read, so that both have one dictionary; the copy is changed, both are read, and so is a copy of the copy. -/
def program : List Act := [.read 0 "p", .copy 0, .read 1 "q", .write 1 "p" (.str "b"), .read 0 "p", .read 1 "p", .read 0 "x", .read 1 "x",
  .copy 1, .write 2 "p" (.str "a"), .read 1 "p", .read 2 "x", .read 0 "q"]
example : acts spS (single startS) program = values spS [startS] program := C134_copies_independent startS program
example : acts spS (single startS) program = [.ok (some (.str "a")), .ok none, .ok (some (.str "b")), .ok none, .ok (some (.str "a")),
    .ok (some (.str "b")), .ok (some (.str "w")), .error .keyError, .ok none, .ok none, .ok (some (.str "b")), .ok (some (.str "u")),
    .ok (some (.str "b"))] := by decide +kernel

end ExCy

end Verif.Copies
