import Verif.Model.Loop
import Verif.Lemmas.Change
import Verif.Props.Graph
import Verif.Props.Config

/-!
# C128: loops over a configuration that assign to it
-/

set_option autoImplicit false

namespace Verif.Loop

open Spec

variable {calls : List Call} {s : Space}

theorem path_idx (h : Reach calls s) {a b : Name} (hp : Path (ParentOf calls) a b) : s.idx a < s.idx b := by
  induction hp with
  | edge e =>
    obtain ⟨i, j, -, -, hij, rfl, rfl⟩ := C01_parents_before_children h e
    exact hij
  | cons e _ ih =>
    obtain ⟨i, j, -, -, hij, rfl, rfl⟩ := C01_parents_before_children h e
    exact hij.trans ih

theorem names_idx (h : Reach calls s) : s.names.Pairwise (fun a b => s.idx a < s.idx b) := by
  obtain ⟨-, -, -, -, -, hu⟩ := C02_names_index_bijection h
  rw [List.pairwise_iff_getElem]
  intro i j hi hj hij
  rw [hu i _ (List.getElem?_eq_getElem hi), hu j _ (List.getElem?_eq_getElem hj)]
  exact hij

/-- The body assigns to the name that is visited, or not at all. -/
def OnlyVisited (f : Name → Config → Option (Name × Val)) : Prop := ∀ n c m w, f n c = some (m, w) → m = n

theorem set_other (h : Reach calls s) {c c' : Config} (hc : CfgReach s c) {n m : Name} {w : Val} (hs : c.setItem s n w = (c', none))
    (hm : m ∈ s.names) (hlt : s.idx m < s.idx n) : c'.vec.at (s.idx m) = c.vec.at (s.idx m) := by
  obtain ⟨x, q, hf, -, -, hv, -⟩ := setItem_ok hs
  obtain ⟨hx, rfl⟩ := findNode_name hf
  have hn : x.name ∈ s.names := by
    have hi := sinv_of_reach h
    rw [hi.com] at hx
    exact List.mem_map.2 ⟨x, hx, rfl⟩
  rw [hv]
  refine changeHp_other h (cacheOk h hc).len hn hm ?_ ?_
  · rintro rfl
    exact lt_irrefl _ hlt
  · intro hp
    have := path_idx h hp
    omega

theorem set_self (h : Reach calls s) {c c' : Config} (hc : CfgReach s c) {n : Name} {w : Val} (hs : c.setItem s n w = (c', none)) :
    ∃ x ∈ allHps calls, x.name = n ∧ x.kind.legalValue w = true ∧ isSet (c'.vec.at (s.idx n)) = true ∧
      c'.vec.at (s.idx n) = x.kind.toVec w := by
  obtain ⟨x, q, hf, hl, hq, hv, -⟩ := setItem_ok hs
  obtain ⟨hx, rfl⟩ := findNode_name hf
  have hi := sinv_of_reach h
  rw [hi.com] at hx
  have hn : x.name ∈ s.names := List.mem_map.2 ⟨x, hx, rfl⟩
  have := changeHp_at h (cacheOk h hc).len hn (x := q)
  refine ⟨x.hp, node_hp h hx, rfl, hl, ?_, ?_⟩
  · rw [hv, this]
    rfl
  · rw [hv, this, hq]

/-- The loop over the remaining names changes nothing that comes before them. -/
theorem loopFrom_spec (h : Reach calls s) {f : Name → Config → Option (Name × Val)} (hf : OnlyVisited f) : ∀ {ns pre : List Name} {c c' : Config}
    {vis : List Name} {e : Option Err}, s.names = pre ++ ns → CfgReach s c → loopFrom s f ns c = (vis, c', e) →
    CfgReach s c' ∧ (∀ m ∈ pre, c'.vec.at (s.idx m) = c.vec.at (s.idx m)) ∧ (e = none → vis = ns.filter (fun n => isSet (c'.vec.at (s.idx n))))
  | [], pre, c, c', vis, e, _, hc, hl => by
    simp only [loopFrom, Prod.mk.injEq] at hl
    obtain ⟨rfl, rfl, rfl⟩ := hl
    exact ⟨hc, fun _ _ => rfl, fun _ => rfl⟩
  | n :: ns, pre, c, c', vis, e, hp, hc, hl => by
    have hp' : s.names = (pre ++ [n]) ++ ns := by rw [hp]; simp
    have hpw := names_idx h
    have hmem : ∀ m ∈ pre, m ∈ s.names ∧ s.idx m < s.idx n := by
      intro m hm
      rw [hp] at hpw
      refine ⟨by rw [hp]; exact List.mem_append_left _ hm, ?_⟩
      exact (List.pairwise_append.1 hpw).2.2 m hm n (by simp)
    simp only [loopFrom] at hl
    split at hl
    · rename_i hset
      split at hl
      · -- nothing is assigned
        cases hr : loopFrom s f ns c with
        | mk v r =>
          obtain ⟨c1, e1⟩ := r
          rw [hr] at hl
          simp only [Prod.mk.injEq] at hl
          obtain ⟨rfl, rfl, rfl⟩ := hl
          obtain ⟨a, b, d⟩ := loopFrom_spec h hf hp' hc hr
          refine ⟨a, fun m hm => b m (List.mem_append_left _ hm), fun he => ?_⟩
          rw [List.filter_cons_of_pos, d he]
          rw [b n (by simp)]
          exact hset
      · rename_i m w hfm
        obtain rfl := hf n c m w hfm
        split at hl
        · rename_i c1 e1 hs
          simp only [Prod.mk.injEq] at hl
          obtain ⟨rfl, rfl, rfl⟩ := hl
          rw [setItem_err hs]
          exact ⟨hc, fun _ _ => rfl, fun he => by cases he⟩
        · rename_i c1 hs
          have hc1 : CfgReach s c1 := by
            have := CfgReach.set (n := m) (w := w) hc
            rwa [hs] at this
          cases hr : loopFrom s f ns c1 with
          | mk v r =>
            obtain ⟨c2, e2⟩ := r
            rw [hr] at hl
            simp only [Prod.mk.injEq] at hl
            obtain ⟨rfl, rfl, rfl⟩ := hl
            obtain ⟨a, b, d⟩ := loopFrom_spec h hf hp' hc1 hr
            refine ⟨a, fun k hk => ?_, fun he => ?_⟩
            · rw [b k (List.mem_append_left _ hk)]
              exact set_other h hc hs (hmem k hk).1 (hmem k hk).2
            · rw [List.filter_cons_of_pos, d he]
              rw [b m (by simp)]
              obtain ⟨-, -, -, -, h1, -⟩ := set_self h hc hs
              exact h1
    · rename_i hset
      obtain ⟨a, b, d⟩ := loopFrom_spec h hf hp' hc hl
      refine ⟨a, fun m hm => b m (List.mem_append_left _ hm), fun he => ?_⟩
      rw [List.filter_cons_of_neg, d he]
      rw [b n (by simp)]
      exact hset

/-- **C128.** A loop `for n in config` whose body assigns only to `config[n]` (whatever it assigns, depending on anything) and that ends
without an exception has visited exactly the hyperparameters that are active afterwards, each once, in the order of the space. -/
theorem C128_visits_active_partial (h : Reach calls s) {f : Name → Config → Option (Name × Val)} (hf : OnlyVisited f) {c c' : Config}
    (hc : CfgReach s c) {vis : List Name} (hl : loop s f c = (vis, c', none)) : vis = c'.keys s :=
  (loopFrom_spec h hf (pre := []) rfl hc hl).2.2 rfl

theorem loopFrom_values (h : Reach calls s) {g : Name → Val} : ∀ {ns pre : List Name} {c c' : Config} {vis : List Name},
    s.names = pre ++ ns → CfgReach s c → loopFrom s (fun n _ => some (n, g n)) ns c = (vis, c', none) →
    ∀ n ∈ ns, isSet (c'.vec.at (s.idx n)) = true → ∃ x ∈ allHps calls, x.name = n ∧ x.kind.legalValue (g n) = true ∧
      c'.vec.at (s.idx n) = x.kind.toVec (g n)
  | [], _, _, _, _, _, _, _, n, hn => by cases hn
  | k :: ns, pre, c, c', vis, hp, hc, hl, n, hn => by
    have hp' : s.names = (pre ++ [k]) ++ ns := by rw [hp]; simp
    have hf : OnlyVisited (fun n (_ : Config) => some (n, g n)) := by
      intro n c m w he
      simp only [Option.some.injEq, Prod.mk.injEq] at he
      exact he.1.symm
    intro hset
    simp only [loopFrom] at hl
    split at hl
    · split at hl
      · simp only [Prod.mk.injEq] at hl
        cases hl.2.2
      · rename_i c1 hs
        have hc1 : CfgReach s c1 := by
          have := CfgReach.set (n := k) (w := g k) hc
          rwa [hs] at this
        cases hr : loopFrom s (fun n _ => some (n, g n)) ns c1 with
        | mk v r =>
          obtain ⟨c2, e2⟩ := r
          rw [hr] at hl
          simp only [Prod.mk.injEq] at hl
          obtain ⟨rfl, rfl, rfl⟩ := hl
          rcases List.mem_cons.1 hn with rfl | hn
          · obtain ⟨x, hx, hxn, hleg, -, hq⟩ := set_self h hc hs
            refine ⟨x, hx, hxn, hleg, ?_⟩
            rw [(loopFrom_spec h hf hp' hc1 hr).2.1 n (by simp), hq]
          · exact loopFrom_values h hp' hc1 hr n hn hset
    · rename_i hns
      rcases List.mem_cons.1 hn with rfl | hn
      · rw [(loopFrom_spec h hf hp' hc hl).2.1 n (by simp)] at hset
        exact absurd hset hns
      · exact loopFrom_values h hp' hc hl n hn hset

/-- **C128.** After `for n in config: config[n] = g(n)` without an exception, every active hyperparameter has the value that the loop gave to
it: nothing that was assigned is overwritten by a later assignment, and nothing active was left out. -/
theorem C128_values_partial (h : Reach calls s) {g : Name → Val} {c c' : Config} (hc : CfgReach s c) {vis : List Name}
    (hl : loop s (fun n _ => some (n, g n)) c = (vis, c', none)) :
    ∀ n ∈ c'.keys s, ∃ x ∈ allHps calls, x.name = n ∧ x.kind.legalValue (g n) = true ∧ c'.vec.at (s.idx n) = x.kind.toVec (g n) := by
  intro n hn
  obtain ⟨h1, h2⟩ := List.mem_filter.1 hn
  exact loopFrom_values h (pre := []) rfl hc hl n h1 h2

theorem loopFrom_sublist {f : Name → Config → Option (Name × Val)} : ∀ {ns : List Name} {c : Config}, (loopFrom s f ns c).1.Sublist ns
  | [], _ => List.Sublist.refl _
  | n :: ns, c => by
    simp only [loopFrom]
    split
    · split
      · exact loopFrom_sublist.cons_cons _
      · split
        · exact (List.nil_sublist _).cons_cons _
        · exact loopFrom_sublist.cons_cons _
    · exact loopFrom_sublist.cons _

/-- **C128.** Whatever the body assigns to, no name is visited twice, and the names come in the order of the space, so the loop ends. -/
theorem C128_each_once (h : Reach calls s) {f : Name → Config → Option (Name × Val)} {c : Config} :
    (loop s f c).1.Sublist s.names ∧ (loop s f c).1.Nodup :=
  ⟨loopFrom_sublist, loopFrom_sublist.nodup (C02_names_index_bijection h).1⟩

theorem loopFrom_reach {f : Name → Config → Option (Name × Val)} : ∀ {ns : List Name} {c : Config}, CfgReach s c →
    CfgReach s (loopFrom s f ns c).2.1
  | [], _, hc => hc
  | n :: ns, c, hc => by
    simp only [loopFrom]
    split
    · split
      · exact loopFrom_reach (ns := ns) hc
      · rename_i m w _
        have hset := CfgReach.set (n := m) (w := w) hc
        split
        · rename_i hs
          rw [hs] at hset
          exact hset
        · rename_i hs
          rw [hs] at hset
          exact loopFrom_reach (ns := ns) hset
    · exact loopFrom_reach (ns := ns) hc

theorem loopFrom_stop {f : Name → Config → Option (Name × Val)} : ∀ {ns : List Name} {c c' : Config} {vis : List Name} {e : Err},
    loopFrom s f ns c = (vis, c', some e) → ∃ n m w, vis.getLast? = some n ∧ f n c' = some (m, w) ∧ c'.setItem s m w = (c', some e)
  | [], _, _, _, _, hl => by simp [loopFrom] at hl
  | n :: ns, c, c', vis, e, hl => by
    have last : ∀ {k : Name} {l : List Name}, l.getLast? = some k → (n :: l).getLast? = some k := by
      intro k l hk
      cases l with
      | nil => cases hk
      | cons a l => rw [List.getLast?_cons_cons]; exact hk
    simp only [loopFrom] at hl
    split at hl
    · split at hl
      · simp only [Prod.mk.injEq] at hl
        obtain ⟨rfl, hr⟩ := hl
        obtain ⟨k, m, w, h1, h2⟩ := loopFrom_stop (ns := ns) (c := c) (c' := c') (e := e) (Prod.ext rfl hr)
        exact ⟨k, m, w, last h1, h2⟩
      · rename_i m w hfm
        split at hl
        · rename_i c1 e1 hs
          simp only [Prod.mk.injEq, Option.some.injEq] at hl
          obtain ⟨rfl, rfl, rfl⟩ := hl
          obtain rfl := setItem_err hs
          exact ⟨n, m, w, rfl, hfm, hs⟩
        · rename_i c1 hs
          simp only [Prod.mk.injEq] at hl
          obtain ⟨rfl, hr⟩ := hl
          obtain ⟨k, m, w, h1, h2⟩ := loopFrom_stop (ns := ns) (c := c1) (c' := c') (e := e) (Prod.ext rfl hr)
          exact ⟨k, m, w, last h1, h2⟩
    · exact loopFrom_stop hl

/-- **C128.** If an assignment in the body fails, whatever the body assigns to, the configuration is the one before this assignment: it is a
configuration of the space, and it is the one from which the body, at the name visited last, makes the assignment that fails. -/
theorem C128_exception {f : Name → Config → Option (Name × Val)} {c c' : Config} (hc : CfgReach s c) {vis : List Name} {e : Err}
    (hl : loop s f c = (vis, c', some e)) :
    CfgReach s c' ∧ ∃ n m w, vis.getLast? = some n ∧ f n c' = some (m, w) ∧ c'.setItem s m w = (c', some e) := by
  refine ⟨?_, loopFrom_stop hl⟩
  have := loopFrom_reach (f := f) (ns := s.names) hc
  unfold loop at hl
  rwa [hl] at this

namespace ExLp
open Ex

def hpP : HP := ⟨"p", .cat [.str "a", .str "b"], .str "a"⟩
def hpX : HP := ⟨"x", .cat [.str "u", .str "w"], .str "u"⟩
def hpY : HP := ⟨"y", .cat [.str "u", .str "w"], .str "u"⟩
/-- `x` if `p == "a"`, `y` if `p == "b"`. -/
def callL : Call := ⟨[hpP, hpX, hpY], [.lit ⟨hpX, hpP, .bin .eq (.str "a") 0⟩, .lit ⟨hpY, hpP, .bin .eq (.str "b") 1⟩], []⟩
def spL : Space := committed {} callL
theorem reachL : Reach [callL] spL :=
  Reach.snoc (calls := []) .nil (by decide +kernel)
    (add_of_stages [("p", some (.str "a")), ("x", some (.str "u")), ("y", none)] [some 0, some 0, none] [("p", .str "a"), ("x", .str "u")]
      (by decide +kernel) (by decide +kernel) (by decide +kernel)
      (by decide +kernel) (by decide +kernel) (by decide +kernel))

def start : Config := ⟨[some 0, some 0, none], some [("p", .str "a"), ("x", .str "u")], false⟩
/-- `Configuration(space, values={"p": "a", "x": "u"})`. -/
theorem start_eq : Config.ofValues spL [("p", some (.str "a")), ("x", some (.str "u"))] = .ok start := by
  have h1 : fillValues spL [("p", some (.str "a")), ("x", some (.str "u"))] spL.dag.nodes (List.replicate spL.len none) [] =
      .ok (start.vec, start.vals.getD []) := by decide +kernel
  have h2 : spL.check start.vec false = none := by decide +kernel
  unfold Config.ofValues
  rw [if_neg (by decide +kernel), h1]
  simp only [h2]
  rfl
theorem start_reach : CfgReach spL start := .values start_eq

/-- Assign to everything: `p` becomes "b". -/
def g (n : Name) : Val := if n = "p" then .str "b" else .str "w"
/-- While `x` is visited, `p` is assigned to. -/
def back (n : Name) (_ : Config) : Option (Name × Val) := if n = "x" then some ("p", .str "b") else none

def after : Config := (loop spL (fun n _ => some (n, g n)) start).2.1
theorem loop_eq : loop spL (fun n _ => some (n, g n)) start = (["p", "y"], after, none) := by
  have h1 : (loop spL (fun n _ => some (n, g n)) start).1 = ["p", "y"] := by decide +kernel
  have h2 : (loop spL (fun n _ => some (n, g n)) start).2.2 = none := by decide +kernel
  rw [← h1, ← h2]
  rfl
def turned : Config := (loop spL back start).2.1
theorem back_eq : loop spL back start = (["p", "x", "y"], turned, none) := by
  have h1 : (loop spL back start).1 = ["p", "x", "y"] := by decide +kernel
  have h2 : (loop spL back start).2.2 = none := by decide +kernel
  rw [← h1, ← h2]
  rfl

-- The loop changes which names it visits: `x` is active before and not visited, `y` the other way round.
example : start.keys spL = ["p", "x"] ∧ after.keys spL = ["p", "y"] := by decide +kernel
example : ["p", "y"] = after.keys spL :=
  C128_visits_active_partial reachL (fun n c m w he => by simp only [Option.some.injEq, Prod.mk.injEq] at he; exact he.1.symm) start_reach loop_eq
example : ∃ x ∈ allHps [callL], x.name = "y" ∧ x.kind.legalValue (.str "w") = true ∧ after.vec.at (spL.idx "y") = x.kind.toVec (.str "w") :=
  C128_values_partial reachL start_reach loop_eq "y" (by decide +kernel)
example : (loop spL back start).1.Nodup := (C128_each_once reachL).2

/-- The second assignment is of an illegal value. -/
def bad (n : Name) (_ : Config) : Option (Name × Val) := some (n, if n = "p" then .str "b" else .str "z")
def stopped : Config := (loop spL bad start).2.1
theorem bad_eq : loop spL bad start = (["p", "y"], stopped, some (.illegalValue "y")) := by
  have h1 : (loop spL bad start).1 = ["p", "y"] := by decide +kernel
  have h2 : (loop spL bad start).2.2 = some (.illegalValue "y") := by decide +kernel
  rw [← h1, ← h2]
  rfl
example : CfgReach spL stopped := (C128_exception start_reach bad_eq).1
example : stopped.keys spL = ["p", "y"] := by decide +kernel
end ExLp

/-- **C128, false of the code** for a body that assigns to another name: a hyperparameter that was visited is not active when the loop has
ended, though no assignment failed. -/
theorem C128_earlier_assigned : ∃ calls s c f c' vis n, Reach calls s ∧ CfgReach s c ∧ loop s f c = (vis, c', none) ∧
    n ∈ vis ∧ n ∉ c'.keys s :=
  ⟨_, _, _, _, _, _, "x", ExLp.reachL, ExLp.start_reach, ExLp.back_eq, by decide +kernel, by decide +kernel⟩

/-- **C128, false of the code** for a loop over the names that were collected before: with the same values for which the loop over the
configuration itself ends well, `for n in list(config): config[n] = g(n)` raises, and leaves a configuration in which a part of the values
has been assigned, and an active hyperparameter that has not. -/
theorem C128_snapshot_raises : ∃ calls s c g, Reach calls s ∧ CfgReach s c ∧ (loop s (fun n _ => some (n, g n)) c).2.2 = none ∧
    (snapshot s g (c.keys s) c).2 ≠ none ∧
    (∃ n ∈ c.keys s, (snapshot s g (c.keys s) c).1.vec.at (s.idx n) ≠ c.vec.at (s.idx n)) ∧
    ∃ n ∈ (snapshot s g (c.keys s) c).1.keys s, n ∉ c.keys s :=
  ⟨_, _, _, ExLp.g, ExLp.reachL, ExLp.start_reach, by decide +kernel, by decide +kernel, ⟨"p", by decide +kernel⟩, ⟨"y", by decide +kernel⟩⟩

end Verif.Loop
