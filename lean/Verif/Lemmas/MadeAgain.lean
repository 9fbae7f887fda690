import Verif.Lemmas.Round13
import Verif.Lemmas.F64Config
import Verif.Model.Rebuild
import Verif.Spec.Rebuild

/-!
# Storing and rebuilding configurations
-/

set_option autoImplicit false

namespace Verif.F64
open Verif Verif.Spec

variable {calls : List Call} {s : Space}

/-! ## Filling the vector -/

/-- What `Configuration(values=d)` stores for a hyperparameter: value and entry. -/
def put (d : Dict) (x : Node) : Option (Val × Rat) :=
  match d.lookup x.name with
  | some (some w) => (toVec64 x.hp.kind (roundVal64 x.hp.kind w)).map (fun q => (roundVal64 x.hp.kind w, q))
  | _ => none

theorem put_lookup {d : Dict} {x : Node} {o : Option Val} (h : d.lookup x.name = o.map some) :
    put d x = o.bind (fun w => (toVec64 x.hp.kind (roundVal64 x.hp.kind w)).map (fun q => (roundVal64 x.hp.kind w, q))) := by
  unfold put
  rw [h]
  cases o <;> rfl

/-- Nothing is wrong with what is given for a hyperparameter. -/
def Fits (d : Dict) (x : Node) : Prop :=
  ∀ w, d.lookup x.name = some (some w) → legalValue64 x.hp.kind w = true ∧ (toVec64 x.hp.kind (roundVal64 x.hp.kind w)).isSome = true

/-- Setting the entries one after the other. -/
def setAll (s : Space) (G : Node → NV) (xs : List Node) (v : Vec) : Vec := xs.foldl (fun v x => v.set (s.idx x.name) (G x)) v

/-- The loop succeeds exactly if nothing is wrong, and then it stores what `put` says. -/
theorem fill64_iff {d : Dict} : ∀ {xs : List Node} {v : Vec} {l : List (Name × Val)} {r : Vec × List (Name × Val)},
    fillValues64 s d xs v l = .ok r ↔ (∀ x ∈ xs, Fits d x) ∧
      r = (setAll s (fun x => (put d x).map Prod.snd) xs v, l ++ xs.filterMap (fun x => (put d x).map (fun p => (x.name, p.1))))
  | [], v, l, r => by
    simp only [fillValues64, setAll, List.foldl_nil, List.filterMap_nil, List.append_nil, Except.ok.injEq]
    constructor
    · intro h; exact ⟨by simp, h.symm⟩
    · intro h; exact h.2.symm
  | x :: xs, v, l, r => by
    unfold fillValues64
    simp only [List.mem_cons, forall_eq_or_imp]
    have hset : ∀ G : Node → NV, setAll s G (x :: xs) v = setAll s G xs (v.set (s.idx x.name) (G x)) := fun G => rfl
    rw [hset, List.filterMap_cons]
    cases hd : d.lookup x.name with
    | none =>
      have hp : put d x = none := by unfold put; rw [hd]
      have hf : Fits d x := by intro w hw; rw [hd] at hw; cases hw
      simp only [hp, Option.map_none]
      rw [fill64_iff]
      simp [hf]
    | some o =>
      cases o with
      | none =>
        have hp : put d x = none := by unfold put; rw [hd]
        have hf : Fits d x := by intro w hw; rw [hd] at hw; cases hw
        simp only [hp, Option.map_none]
        rw [fill64_iff]
        simp [hf]
      | some w =>
        cases hl : legalValue64 x.hp.kind w with
        | false =>
          have hf : ¬ Fits d x := fun h => by have := (h w hd).1; rw [hl] at this; cases this
          simp [hf, hl]
        | true =>
          cases hq : toVec64 x.hp.kind (roundVal64 x.hp.kind w) with
          | none =>
            have hf : ¬ Fits d x := fun h => by have := (h w hd).2; rw [hq] at this; cases this
            simp [hf, hl, hq]
          | some q =>
            have hp : put d x = some (roundVal64 x.hp.kind w, q) := by unfold put; rw [hd]; simp [hq]
            have hf : Fits d x := by
              intro w' hw'
              rw [hd] at hw'
              cases hw'
              exact ⟨hl, by rw [hq]; rfl⟩
            simp only [hl, hq, hp, Option.map_some, Bool.not_true, Bool.false_eq_true, if_false]
            rw [fill64_iff]
            simp [hf]

theorem setAll_length (G : Node → NV) (xs : List Node) (v : Vec) : (setAll s G xs v).length = v.length := by
  unfold setAll
  induction xs generalizing v with
  | nil => rfl
  | cons x xs ih => simp [ih]

theorem setAll_other (G : Node → NV) {xs : List Node} {v : Vec} {i : Nat} (h : i ∉ xs.map (fun x => s.idx x.name)) :
    (setAll s G xs v).at i = v.at i := by
  unfold setAll
  induction xs generalizing v with
  | nil => rfl
  | cons x xs ih =>
    simp only [List.map_cons, List.mem_cons, not_or] at h
    rw [List.foldl_cons, ih h.2, at_set_ne (fun e => h.1 e.symm)]

theorem setAll_at (G : Node → NV) {xs : List Node} {v : Vec} (hn : (xs.map (fun x => s.idx x.name)).Nodup)
    (hl : ∀ x ∈ xs, s.idx x.name < v.length) {x : Node} (hx : x ∈ xs) : (setAll s G xs v).at (s.idx x.name) = G x := by
  induction xs generalizing v with
  | nil => cases hx
  | cons y xs ih =>
    simp only [List.map_cons, List.nodup_cons] at hn
    have hset : setAll s G (y :: xs) v = setAll s G xs (v.set (s.idx y.name) (G y)) := rfl
    rw [hset]
    rcases List.mem_cons.1 hx with rfl | hx
    · rw [setAll_other G hn.1, at_set_eq (hl _ (by simp))]
    · exact ih hn.2 (fun z hz => by rw [List.length_set]; exact hl z (by simp [hz])) hx

/-! ## Dictionaries -/

theorem lookup_filterMap {β : Type} {G : Node → Option β} {xs : List Node} (hn : (xs.map Node.name).Nodup) {x : Node} (hx : x ∈ xs) :
    (xs.filterMap (fun y => (G y).map (fun b => (y.name, b)))).lookup x.name = G x := by
  induction xs with
  | nil => cases hx
  | cons y xs ih =>
    simp only [List.map_cons, List.nodup_cons] at hn
    rw [List.filterMap_cons]
    rcases List.mem_cons.1 hx with rfl | hx
    · cases hG : G x with
      | some b => simp
      | none =>
        simp only [Option.map_none]
        have : ∀ p ∈ xs.filterMap (fun y => (G y).map (fun b => (y.name, b))), x.name ≠ p.1 := by
          intro p hp e
          obtain ⟨y, hy, hy2⟩ := List.mem_filterMap.1 hp
          cases hG2 : G y with
          | none => simp [hG2] at hy2
          | some b =>
            simp only [hG2, Option.map_some, Option.some.injEq] at hy2
            subst hy2
            exact hn.1 (e ▸ List.mem_map.2 ⟨y, hy, rfl⟩)
        rw [List.lookup_eq_none_iff]
        intro p hp
        simpa using this p hp
    · have hne : (x.name == y.name) = false := by
        have : x.name ≠ y.name := fun e => hn.1 (e ▸ List.mem_map.2 ⟨x, hx, rfl⟩)
        simpa using this
      cases hG : G y with
      | none => simp only [Option.map_none]; exact ih hn.2 hx
      | some b => simp only [Option.map_some, List.lookup_cons, hne]; exact ih hn.2 hx

theorem items64_eq {c : Config} {G : Node → Option Val} : ∀ {xs : List Node},
    (∀ x ∈ xs, isSet (c.vec.at (s.idx x.name)) = (G x).isSome) →
    (∀ x ∈ xs, ∀ w, G x = some w → (getItem64 s c x.name).1 = .ok w) →
    items64 s c ((xs.map Node.name).filter (fun n => isSet (c.vec.at (s.idx n)))) =
      .ok (xs.filterMap (fun x => (G x).map (fun w => (x.name, some w))))
  | [], _, _ => rfl
  | x :: xs, h1, h2 => by
    have ih := items64_eq (xs := xs) (fun y hy => h1 y (by simp [hy])) (fun y hy => h2 y (by simp [hy]))
    rw [List.map_cons, List.filter_cons, h1 x (by simp), List.filterMap_cons]
    cases hG : G x with
    | none => simpa using ih
    | some w =>
      simp only [Option.isSome_some, if_true, Option.map_some]
      unfold items64
      rw [h2 x (by simp) w hG, ih]

/-! ## Values -/

theorem kept_fixed {q : Rat} (h : Kept q) : round13 (rd q) = rd q := by
  obtain ⟨x, hx, e⟩ := h
  rw [e, round13_idem hx]

/-- Rounding again changes nothing. -/
theorem roundVal64_idem (k : Kind) (w : Val) : roundVal64 k (roundVal64 k w) = roundVal64 k w := by
  unfold roundVal64
  by_cases hf : k.isFloat = true
  · rw [if_pos hf]
    cases hq : w.num? with
    | none => simp [hf, hq]
    | some q =>
      simp only [hf, if_true]
      have e : (Val.flt (round13 (rd q))).num? = some (round13 (rd q)) := rfl
      have h1 : rd (round13 (rd q)) = round13 (rd q) := by
        unfold round13
        exact rd_rd _
      rw [e]
      simp only [h1, round13_idem (isF64_rd q)]
  · simp [hf]

/-- A legal value stays legal when it is rounded. -/
theorem round_legal64 {k : Kind} (hk : ∀ l u, k = .flt l u → Kept l ∧ Kept u) {w : Val} (h : legalValue64 k w = true) :
    legalValue64 k (roundVal64 k w) = true := by
  cases k with
  | cat cs => exact h
  | ord cs => exact h
  | const c => exact h
  | int l u => exact h
  | flt l u =>
    obtain ⟨h1, h2⟩ := hk l u rfl
    cases hq : w.num? with
    | none => simp [legalValue64, hq] at h
    | some q =>
      simp only [legalValue64, hq, Bool.and_eq_true, decide_eq_true_eq] at h
      have e : roundVal64 (.flt l u) w = .flt (round13 (rd q)) := by simp [roundVal64, Kind.isFloat, hq]
      have e2 : (Val.flt (round13 (rd q))).num? = some (round13 (rd q)) := rfl
      have e3 : rd (round13 (rd q)) = round13 (rd q) := by
        unfold round13
        exact rd_rd _
      rw [e]
      simp only [legalValue64, e2, e3, Bool.and_eq_true, decide_eq_true_eq]
      have a := round13_mono h.1
      have b := round13_mono h.2
      rw [kept_fixed h1] at a
      rw [kept_fixed h2] at b
      exact ⟨a, b⟩

/-! ## Configurations made from a dictionary -/

theorem nodes_names (hr : Reach calls s) : s.names = s.dag.nodes.map Node.name ∧ (s.dag.nodes.map Node.name).Nodup ∧
    (s.dag.nodes.map (fun x => s.idx x.name)).Nodup ∧ (∀ x ∈ s.dag.nodes, s.idx x.name < s.len) := by
  have hi := sinv_of_reach hr
  have e : s.dag.nodes = s.com := hi.com
  rw [e]
  exact ⟨rfl, (reach_ninv hr).nodup, idx_nodup hr, fun x hx => idx_lt hr (mem_names hx)⟩

theorem findNode_dag (hr : Reach calls s) {x : Node} (hx : x ∈ s.dag.nodes) : findNode s.dag.nodes x.name = some x :=
  findNode_of_mem (nodes_names hr).2.1 hx

/-- What a configuration that was made from a dictionary looks like. -/
theorem created {d : Dict} {al : Bool} {c : Config} (h : ofValues64 s d al = .ok c) :
    (∀ x ∈ s.dag.nodes, Fits d x) ∧ check64 s c.vec al = none ∧
    c = ⟨setAll s (fun x => (put d x).map Prod.snd) s.dag.nodes (List.replicate s.len none),
      some (s.dag.nodes.filterMap (fun x => (put d x).map (fun p => (x.name, p.1)))), al⟩ := by
  unfold ofValues64 at h
  split at h
  · cases h
  · cases hf : fillValues64 s d s.dag.nodes (List.replicate s.len none) [] with
    | error e => rw [hf] at h; cases h
    | ok r =>
      obtain ⟨v, vals⟩ := r
      rw [hf] at h
      obtain ⟨h1, h2⟩ := fill64_iff.1 hf
      simp only at h
      cases hc : check64 s v al with
      | some e => rw [hc] at h; cases h
      | none =>
        rw [hc] at h
        simp only [Except.ok.injEq] at h
        subst h
        simp only [List.nil_append, Prod.mk.injEq] at h2
        obtain ⟨rfl, rfl⟩ := h2
        exact ⟨h1, hc, rfl⟩

/-- A dictionary that stores the same for every hyperparameter makes the same configuration. -/
theorem create_same (hr : Reach calls s) {d d' : Dict} {al : Bool} {c : Config} (h : ofValues64 s d al = .ok c)
    (hk : ∀ kv ∈ d', kv.1 ∈ s.names) (hf : ∀ x ∈ s.dag.nodes, Fits d' x) (hp : ∀ x ∈ s.dag.nodes, put d' x = put d x) :
    ofValues64 s d' al = .ok c := by
  obtain ⟨-, h2, h3⟩ := created h
  have hany : d'.any (fun kv => decide (kv.1 ∉ s.dag.nodes.map Node.name) && kv.1 != "") = false := by
    rw [List.any_eq_false]
    intro kv hkv
    have := hk kv hkv
    rw [(nodes_names hr).1] at this
    simp [List.mem_map.1 this]
  unfold ofValues64
  rw [hany, fill64_iff.2 ⟨hf, rfl⟩]
  have e1 : setAll s (fun x => (put d' x).map Prod.snd) s.dag.nodes (List.replicate s.len none) = c.vec := by
    rw [h3]
    unfold setAll
    refine List.foldl_ext _ _ _ (fun v x hx => ?_)
    simp only [hp x hx]
  have e2 : s.dag.nodes.filterMap (fun x => (put d' x).map (fun p => (x.name, p.1))) =
      s.dag.nodes.filterMap (fun x => (put d x).map (fun p => (x.name, p.1))) :=
    List.filterMap_congr (fun x hx => by rw [hp x hx])
  simp only [e1, h2, List.nil_append, e2]
  rw [h3]
  simp

/-- The dictionary of a configuration that was made from a dictionary. -/
theorem created_dict (hr : Reach calls s) {d : Dict} {al : Bool} {c : Config} (h : ofValues64 s d al = .ok c) :
    dict64 s c = .ok (s.dag.nodes.filterMap (fun x => ((put d x).map Prod.fst).map (fun w => (x.name, some w)))) := by
  obtain ⟨-, -, h3⟩ := created h
  obtain ⟨n1, n2, n3, n4⟩ := nodes_names hr
  unfold dict64 Config.keys
  rw [n1]
  refine items64_eq ?_ ?_
  · intro x hx
    rw [h3]
    simp only
    rw [setAll_at _ n3 (fun y hy => by rw [List.length_replicate]; exact n4 y hy) hx]
    cases put d x <;> rfl
  · intro x hx w hw
    have hlk : (c.vals.getD []).lookup x.name = some w := by
      rw [h3]
      simp only [Option.getD_some]
      have := lookup_filterMap (G := fun x => (put d x).map Prod.fst) n2 hx
      rw [hw] at this
      rw [← this]
      congr 1
      refine List.filterMap_congr (fun y _ => ?_)
      cases put d y <;> rfl
    unfold getItem64
    rw [hlk]

/-- Making a configuration again from its dictionary gives the same configuration. -/
theorem rebuild_created (hr : Reach calls s) (hb : KeptBounds calls) {d : Dict} {al : Bool} {c : Config} (h : ofValues64 s d al = .ok c) :
    rebuild64 s c al = .ok c := by
  obtain ⟨h1, -, -⟩ := created h
  obtain ⟨n1, n2, -, -⟩ := nodes_names hr
  unfold rebuild64
  rw [created_dict hr h]
  have hlk : ∀ x ∈ s.dag.nodes, (s.dag.nodes.filterMap (fun x => ((put d x).map Prod.fst).map (fun w => (x.name, some w)))).lookup x.name =
      ((put d x).map Prod.fst).map some := by
    intro x hx
    have := lookup_filterMap (G := fun x => ((put d x).map Prod.fst).map some) n2 hx
    rw [← this]
    congr 1
    refine List.filterMap_congr (fun y _ => ?_)
    cases put d y <;> rfl
  have hx' : ∀ x ∈ s.dag.nodes, ∀ w, (put d x).map Prod.fst = some w → ∃ w0, d.lookup x.name = some (some w0) ∧
      w = roundVal64 x.hp.kind w0 := by
    intro x hx w hw
    unfold put at hw
    cases hd : d.lookup x.name with
    | none => rw [hd] at hw; cases hw
    | some o =>
      cases o with
      | none => rw [hd] at hw; cases hw
      | some w0 =>
        rw [hd] at hw
        simp only [Option.map_map] at hw
        cases hq : toVec64 x.hp.kind (roundVal64 x.hp.kind w0) with
        | none => rw [hq] at hw; cases hw
        | some q =>
          rw [hq] at hw
          simp only [Option.map_some, Function.comp, Option.some.injEq] at hw
          exact ⟨w0, rfl, hw.symm⟩
  refine create_same hr h ?_ ?_ ?_
  · intro kv hkv
    obtain ⟨x, hx, e⟩ := List.mem_filterMap.1 hkv
    cases hp : put d x with
    | none => simp [hp] at e
    | some p =>
      simp only [hp, Option.map_some, Option.some.injEq] at e
      subst e
      rw [n1]
      exact List.mem_map.2 ⟨x, hx, rfl⟩
  · intro x hx w hw
    rw [hlk x hx] at hw
    have hw' : (put d x).map Prod.fst = some w := by
      cases hp : (put d x).map Prod.fst with
      | none => rw [hp] at hw; cases hw
      | some w' => rw [hp] at hw; simpa using hw
    obtain ⟨w0, hd, rfl⟩ := hx' x hx w hw'
    obtain ⟨g1, g2⟩ := h1 x hx w0 hd
    rw [roundVal64_idem]
    refine ⟨round_legal64 (fun l u hk => ?_) g1, g2⟩
    have hi := sinv_of_reach hr
    have hxc : x ∈ s.com := by rw [← hi.com]; exact hx
    have := hb _ (node_hp hr hxc).1 l u hk
    exact ⟨this.1, this.2.1⟩
  · intro x hx
    have e := put_lookup (hlk x hx)
    rw [e]
    cases hp : (put d x).map Prod.fst with
    | none =>
      cases hp' : put d x with
      | none => rfl
      | some p => rw [hp'] at hp; cases hp
    | some w =>
      obtain ⟨w0, hd, rfl⟩ := hx' x hx w hp
      simp only [Option.bind_some, roundVal64_idem]
      unfold put
      rw [hd]

/-! ## What conditions and clauses look at -/

theorem satVec_congr (c : Cond) (idx : Name → Nat) (v w : Vec) (h : ∀ l ∈ c.dlcs, w.at (idx l.parent.name) = v.at (idx l.parent.name)) :
    (cond64 c).satVec idx w = (cond64 c).satVec idx v := by
  induction c using Cond.induct with
  | hl l => simp only [cond64, Cond.satVec, h l (by simp [Cond.dlcs])]
  | ha cs ih =>
    simp only [cond64, Cond.satVec]
    have h' : ∀ c ∈ cs, (cond64 c).satVec idx w = (cond64 c).satVec idx v := fun c hc =>
      ih c hc (fun l hl => h l (by simp only [Cond.dlcs]; exact mem_dlcsL.2 ⟨c, hc, hl⟩))
    clear ih h
    induction cs with
    | nil => rfl
    | cons c cs ihc =>
      simp only [cond64L, Cond.satVecAll]
      rw [h' c (by simp), ihc (fun d hd => h' d (by simp [hd]))]
  | ho cs ih =>
    simp only [cond64, Cond.satVec]
    have h' : ∀ c ∈ cs, (cond64 c).satVec idx w = (cond64 c).satVec idx v := fun c hc =>
      ih c hc (fun l hl => h l (by simp only [Cond.dlcs]; exact mem_dlcsL.2 ⟨c, hc, hl⟩))
    clear ih h
    induction cs with
    | nil => rfl
    | cons c cs ihc =>
      simp only [cond64L, Cond.satVecAny]
      rw [h' c (by simp), ihc (fun d hd => h' d (by simp [hd]))]

theorem onVec64_congr (f : Forb) (idx : Name → Nat) (v w : Vec) (h : ∀ g ∈ clauseHps f, w.at (idx g.name) = v.at (idx g.name)) :
    onVec64 idx w f = onVec64 idx v f := by
  induction f using Forb.induct with
  | he g u x => simp only [onVec64, h g (by simp [clauseHps])]
  | hi g us xs => simp only [onVec64, h g (by simp [clauseHps])]
  | hr op l r => simp only [onVec64, h l (by simp [clauseHps]), h r (by simp [clauseHps])]
  | ha cs ih =>
    simp only [onVec64]
    have h' : ∀ c ∈ cs, onVec64 idx w c = onVec64 idx v c := fun c hc =>
      ih c hc (fun g hg => h g (by simp only [clauseHps]; exact mem_clauseHpsL.2 ⟨c, hc, hg⟩))
    clear ih h
    induction cs with
    | nil => rfl
    | cons c cs ihc =>
      simp only [onVecAll64]
      rw [h' c (by simp), ihc (fun d hd => h' d (by simp [hd]))]

theorem clauseHps_forb64 (f : Forb) : clauseHps (forb64 f) = clauseHps f := by
  induction f using Forb.induct with
  | he g u x => rfl
  | hi g us xs => rfl
  | hr op l r => rfl
  | ha cs ih =>
    simp only [forb64, clauseHps]
    induction cs with
    | nil => rfl
    | cons c cs ihc =>
      simp only [forb64L, clauseHpsL]
      rw [ih c (by simp), ihc (fun d hd => ih d (by simp [hd]))]

/-- The merged clauses mention no other hyperparameters. -/
theorem fast64_hps {f : Forb} (hf : f ∈ fast64 s) {h : HP} (hh : h ∈ clauseHps f) : ∃ f0 ∈ s.forbs, h ∈ clauseHps f0 := by
  unfold fast64 at hf
  cases ho : optimizedForbs64 s.idx (s.forbs.map forb64) with
  | error e => rw [ho] at hf; cases hf
  | ok fs =>
    rw [ho] at hf
    simp only at hf
    unfold optimizedForbs64 at ho
    simp only at ho
    split at ho
    · cases ho
    · rename_i gs hgs
      have hall := optGroups_all (P := fun p => ∃ f0 ∈ s.forbs, p.hp ∈ clauseHps f0) ?_ (by simp) (by simp) hgs
      · split at ho
        · cases ho
        · rename_i cs hcs
          cases ho
          rcases List.mem_append.1 hf with hf | hf
          · obtain ⟨f0, h0, rfl⟩ := List.mem_map.1 (List.mem_filter.1 hf).1
            rw [clauseHps_forb64] at hh
            exact ⟨f0, h0, hh⟩
          · clear hgs
            induction gs generalizing cs with
            | nil =>
              simp only [mapExcept, Except.ok.injEq] at hcs
              subst hcs
              cases hf
            | cons g gs ih =>
              simp only [mapExcept] at hcs
              split at hcs
              · cases hcs
              · rename_i y hy
                split at hcs
                · cases hcs
                · rename_i ys hys
                  cases hcs
                  rcases List.mem_cons.1 hf with rfl | hf
                  · obtain ⟨-, g2, g3⟩ := hall g (by simp)
                    unfold optEmit64 at hy
                    simp only at hy
                    have hmem : ∀ c : Forb, h ∈ clauseHps (.and (g.2.firsts.map (fun p => Forb.eq p.hp p.value p.vval) ++ [c])) →
                        (∃ f0 ∈ s.forbs, h ∈ clauseHps f0) ∨ h ∈ clauseHps c := by
                      intro c hc
                      simp only [clauseHps] at hc
                      obtain ⟨e, he, hhe⟩ := mem_clauseHpsL.1 hc
                      rcases List.mem_append.1 he with he | he
                      · obtain ⟨p, hp, rfl⟩ := List.mem_map.1 he
                        simp only [clauseHps, List.mem_singleton] at hhe
                        subst hhe
                        exact .inl (g2 p hp)
                      · rw [List.mem_singleton.1 he] at hhe
                        exact .inr hhe
                    cases hl : g.2.lasts with
                    | nil => rw [hl] at hy; cases hy
                    | cons l ls =>
                      have hlm := g3 l (by rw [hl]; simp)
                      rw [hl] at hy
                      cases ls with
                      | nil =>
                        cases hy
                        rcases hmem _ hh with h1 | h1
                        · exact h1
                        · simp only [clauseHps, List.mem_singleton] at h1
                          subst h1
                          exact hlm
                      | cons l2 ls =>
                        cases hm : mkForbIn64 l.hp ((l :: l2 :: ls).map (fun p => p.value)) with
                        | error e =>
                          simp only [hm] at hy
                          cases hy
                        | ok c =>
                          simp only [hm] at hy
                          cases hy
                          rcases hmem _ hh with h1 | h1
                          · exact h1
                          · unfold mkForbIn64 at hm
                            split at hm
                            · cases hm
                              simp only [clauseHps, List.mem_singleton] at h1
                              subst h1
                              exact hlm
                            · cases hm
                  · exact ih (fun kg hkg => hall kg (by simp [hkg])) _ hys (List.mem_append_right _ hf) hf
      · intro p hp e he
        obtain ⟨q, hq, rfl⟩ := List.mem_map.1 hp
        rw [mem_sortBy] at he
        obtain ⟨f1, hf1, hfq⟩ := List.mem_filterMap.1 hq
        obtain ⟨f0, h0, rfl⟩ := List.mem_map.1 hf1
        refine ⟨f0, h0, ?_⟩
        rw [← clauseHps_forb64, eqConj_some hfq]
        simp only [clauseHps]
        exact mem_clauseHpsL.2 ⟨_, List.mem_map.2 ⟨e, he, rfl⟩, by simp [clauseHps]⟩

/-! ## Checking a vector whose floats were rounded -/

section Checks
variable {v w : Vec} (hr : Reach calls s) (hff : FloatFree calls) (hs : SameButFloats calls s v w)
  (hv : ∀ h ∈ allHps calls, h.kind.isFloat = true → ∀ q, v.at (s.idx h.name) = some q → 0 ≤ q ∧ q ≤ 1)
  (hw : ∀ h ∈ allHps calls, h.kind.isFloat = true → ∀ q, w.at (s.idx h.name) = some q → 0 ≤ q ∧ q ≤ 1)
include hr hs

theorem isSet_but {n : Name} (hn : n ∈ s.names) : isSet (w.at (s.idx n)) = isSet (v.at (s.idx n)) := by
  obtain ⟨h, hh, rfl⟩ := (reach_isNode hr n).1 hn
  exact (hs h hh).1

theorem firstWith_but (p : Bool → Bool) {ns : List Name} (hn : ∀ n ∈ ns, n ∈ s.names) :
    firstWith (fun e => p (isSet e)) s w ns = firstWith (fun e => p (isSet e)) s v ns := by
  unfold firstWith
  induction ns with
  | nil => rfl
  | cons n ns ih =>
    simp only [List.find?_cons, isSet_but hr hs (hn n (by simp)), ih (fun m hm => hn m (by simp [hm]))]

include hff in
theorem cond_but {c : Cond} (hc : c ∈ allConds calls) : (cond64 c).satVec s.idx w = (cond64 c).satVec s.idx v := by
  refine satVec_congr c s.idx v w (fun l hl => ?_)
  have hn : l.parent.name ∈ s.names := cond_parents_known hr hc (by unfold Cond.parents; exact List.mem_map.2 ⟨l, hl, rfl⟩)
  obtain ⟨h, hh, e⟩ := (reach_isNode hr _).1 hn
  rw [← e]
  refine (hs h hh).2 ?_
  by_contra hfl
  exact (hff h hh (by simpa using hfl)).1 c hc l hl e.symm

include hff in
theorem fast_but (hk : ∀ f ∈ allForbs calls, ∀ g ∈ clauseHps f, g.name ∈ s.names) :
    (fast64 s).any (fun f => onVec64 s.idx w f) = (fast64 s).any (fun f => onVec64 s.idx v f) := by
  have hi := sinv_of_reach hr
  have hmem : ∀ f, f ∈ s.forbs ↔ f ∈ allForbs calls := fun f => hi.hist.forbs.mem_iff
  have key : ∀ f ∈ fast64 s, onVec64 s.idx w f = onVec64 s.idx v f := by
    intro f hf
    refine onVec64_congr f s.idx v w (fun g hg => ?_)
    obtain ⟨f0, h0, hg0⟩ := fast64_hps hf hg
    have h0' := (hmem f0).1 h0
    obtain ⟨h, hh, e⟩ := (reach_isNode hr _).1 (hk f0 h0' g hg0)
    rw [← e]
    refine (hs h hh).2 ?_
    by_contra hfl
    exact (hff h hh (by simpa using hfl)).2 f0 h0' g hg0 e.symm
  rw [Bool.eq_iff_iff, List.any_eq_true, List.any_eq_true]
  constructor
  · rintro ⟨f, hf, h⟩
    exact ⟨f, hf, by rw [← key f hf]; exact h⟩
  · rintro ⟨f, hf, h⟩
    exact ⟨f, hf, by rw [key f hf]; exact h⟩

include hv hw in
theorem legalAt_but {n : Name} (hn : n ∈ s.names) : legalAt64 s w n = legalAt64 s v n := by
  obtain ⟨h, hh, rfl⟩ := (reach_isNode hr n).1 hn
  unfold legalAt64
  rw [(hp_of hr).2 ⟨hh, rfl⟩]
  obtain ⟨h1, h2⟩ := hs h hh
  cases hf : h.kind.isFloat with
  | false => rw [h2 hf]
  | true =>
    obtain ⟨l, u, hk⟩ : ∃ l u, h.kind = .flt l u := by
      cases hk : h.kind with
      | flt l u => exact ⟨l, u, rfl⟩
      | _ => simp [hk, Kind.isFloat] at hf
    have hl : ∀ q : Rat, 0 ≤ q ∧ q ≤ 1 → legalVec64 h.kind q = true := by
      intro q hq
      rw [hk]
      simp [legalVec64, Kind.legalVec, hq]
    cases ev : v.at (s.idx h.name) with
    | none =>
      cases ew : w.at (s.idx h.name) with
      | none => rfl
      | some q => rw [ev, ew] at h1; cases h1
    | some q =>
      cases ew : w.at (s.idx h.name) with
      | none => rw [ev, ew] at h1; cases h1
      | some q' => simp only [hl q (hv h hh hf q ev), hl q' (hw h hh hf q' ew)]

include hff hv hw in
theorem checkConds_but (al : Bool) : ∀ {cs : List CNode}, (∀ g ∈ cs, g.cond ∈ allConds calls ∧ ∀ n ∈ g.kids, n ∈ s.names) →
    checkConds64 s w al cs = checkConds64 s v al cs
  | [], _ => rfl
  | g :: cs, hg => by
    obtain ⟨h1, h2⟩ := hg g (by simp)
    have ih := checkConds_but al (cs := cs) (fun g hgm => hg g (by simp [hgm]))
    have f1 : firstWith (fun e => !isSet e) s w g.kids = firstWith (fun e => !isSet e) s v g.kids := firstWith_but hr hs (fun b => !b) h2
    have f2 : firstWith isSet s w g.kids = firstWith isSet s v g.kids := firstWith_but hr hs (fun b => b) h2
    have f3 : g.kids.find? (fun n => !legalAt64 s w n) = g.kids.find? (fun n => !legalAt64 s v n) := by
      have : ∀ ns : List Name, (∀ n ∈ ns, n ∈ s.names) →
          ns.find? (fun n => !legalAt64 s w n) = ns.find? (fun n => !legalAt64 s v n) := by
        intro ns hn
        induction ns with
        | nil => rfl
        | cons n ns ihn =>
          rw [List.find?_cons, List.find?_cons, legalAt_but hr hs hv hw (hn n (by simp)), ihn (fun m hm => hn m (by simp [hm]))]
      exact this _ h2
    unfold checkConds64
    rw [cond_but hr hff hs h1, f1, f2, f3, ih]
    split
    · rfl
    · split
      · rfl
      · cases hfw : firstWith isSet s v g.kids with
        | none => rfl
        | some n =>
          have hn : n ∈ s.names := h2 n (List.mem_of_find?_eq_some hfw)
          obtain ⟨h, hh, rfl⟩ := (reach_isNode hr n).1 hn
          simp only [(hp_of hr).2 ⟨hh, rfl⟩]
          obtain ⟨s1, s2⟩ := hs h hh
          cases hf : h.kind.isFloat with
          | false => rw [s2 hf]
          | true =>
            obtain ⟨l, u, hk⟩ : ∃ l u, h.kind = .flt l u := by
              cases hk : h.kind with
              | flt l u => exact ⟨l, u, rfl⟩
              | _ => simp [hk, Kind.isFloat] at hf
            cases ev : v.at (s.idx h.name) with
            | none =>
              cases ew : w.at (s.idx h.name) with
              | none => rfl
              | some q => rw [ev, ew] at s1; cases s1
            | some q =>
              cases ew : w.at (s.idx h.name) with
              | none => rw [ev, ew] at s1; cases s1
              | some q' => simp only [hk, toVal64]

include hff hv hw in
theorem check_but (hk : ∀ f ∈ allForbs calls, ∀ g ∈ clauseHps f, g.name ∈ s.names) (al : Bool) : check64 s w al = check64 s v al := by
  have hroots : ∀ n ∈ s.dag.roots, n ∈ s.names := fun n hn =>
    (reach_isNode hr n).2 ((C06_roots_no_condition hr n).1 hn).1
  unfold check64
  rw [firstWith_but hr hs (fun b => !b) hroots, checkConds_but hr hff hs hv hw al (fun g hg => minConds_known hr hg),
    fast_but hr hff hs hk]

end Checks

/-! ## Drawn entries -/

theorem choice_back {cs : List Val} (hd : distinctVals cs = true) {i : Nat} (hi : i < cs.length) :
    (if Verif.closeToInt ((i : Nat) : Rat) then Kind.pyIndex cs (rint ((i : Nat) : Rat)) else none) = some cs[i] ∧
      cs[i].pyIn cs = true ∧ (seqIndex cs cs[i]).map (fun i : Nat => (i : Rat)) = some ((i : Nat) : Rat) := by
  refine ⟨?_, pyIn_iff.2 ⟨_, List.getElem_mem hi, Val.pyEq_refl _⟩, ?_⟩
  · simp [closeToInt_nat, rint_nat, pyIndex_nat, hi]
  · rw [seqIndex_getElem hd (List.getElem?_eq_getElem hi)]
    rfl

/-- Reading a drawn entry gives a legal value, whose entry is the drawn one; for floats it is within the unit interval. -/
theorem drawn_back {h : HP} (hw : h.wf = true) (hb : ∀ l u, h.kind = .flt l u → Kept l ∧ Kept u ∧ rd l < rd u)
    (hs : ∀ l u, h.kind = .int l u → |l| < 2 ^ 49 ∧ |u| < 2 ^ 49) {q : Rat} (hq : Drawn h.kind q) :
    ∃ w q', toVal64 h.kind q = some w ∧ legalValue64 h.kind (roundVal64 h.kind w) = true ∧
      toVec64 h.kind (roundVal64 h.kind w) = some q' ∧ (h.kind.isFloat = false → q' = q) ∧
      (h.kind.isFloat = true → 0 ≤ q' ∧ q' ≤ 1) := by
  cases hk : h.kind with
  | cat cs =>
    rw [hk] at hq
    obtain ⟨i, hi, rfl⟩ := hq
    have hd : distinctVals cs = true := by
      simp only [HP.wf, hk, Bool.and_eq_true] at hw
      exact hw.1.2
    obtain ⟨h1, h2, h3⟩ := choice_back hd hi
    exact ⟨cs[i], i, h1, h2, h3, fun _ => rfl, fun hf => by cases hf⟩
  | ord cs =>
    rw [hk] at hq
    obtain ⟨i, hi, rfl⟩ := hq
    have hd : distinctVals cs = true := by
      simp only [HP.wf, hk, Bool.and_eq_true] at hw
      exact hw.1.2
    obtain ⟨h1, h2, h3⟩ := choice_back hd hi
    exact ⟨cs[i], i, h1, h2, h3, fun _ => rfl, fun hf => by cases hf⟩
  | const c =>
    rw [hk] at hq
    refine ⟨c, 1, rfl, Val.pyEq_refl c, ?_, fun _ => hq.symm, fun hf => by cases hf⟩
    show some (if c.pyEq c then (1 : Rat) else 0) = some 1
    rw [Val.pyEq_refl, if_pos rfl]
  | int l u =>
    rw [hk] at hq
    obtain ⟨n, h1, h2, rfl⟩ := hq
    obtain ⟨hl, hu⟩ := hs l u hk
    have hlu := wf_int' hw hk
    have e : toVal64 (.int l u) (F64.toVecInt l u n) = some (.int n) := by
      show some (Val.int (toValInt l u (F64.toVecInt l u n))) = _
      rw [C75_int_round_trip hl hu hlu h1 h2]
    refine ⟨.int n, _, e, ?_, rfl, fun _ => rfl, fun hf => by cases hf⟩
    show decide (F64.legalInt l u (rd ((n : Int) : Rat))) = true
    exact decide_eq_true ((legalInt_iff hl hu).2 ⟨h1, h2⟩)
  | flt l u =>
    obtain ⟨kl, ku, hlu⟩ := hb l u hk
    have hin := (C75_value_in_bounds (isF64_rd l) hlu q).1
    have hx : IsF64 (toValFlt (rd l) (rd u) q) := by rw [← rd_toValFlt]; exact isF64_rd _
    have hrv : roundVal64 (.flt l u) (.flt (toValFlt (rd l) (rd u) q)) = .flt (round13 (toValFlt (rd l) (rd u) q)) := by
      show Val.flt (round13 (rd (toValFlt (rd l) (rd u) q))) = _
      rw [rd_toValFlt]
    have hleg : legalValue64 (.flt l u) (.flt (round13 (toValFlt (rd l) (rd u) q))) = true := by
      rw [← hrv]
      refine round_legal64 (fun l' u' e => by cases e; exact ⟨kl, ku⟩) ?_
      show (decide (rd l ≤ rd (toValFlt (rd l) (rd u) q)) && decide (rd (toValFlt (rd l) (rd u) q) ≤ rd u)) = true
      rw [rd_toValFlt]
      simp [hin.1, hin.2]
    refine ⟨_, _, rfl, by rw [hrv]; exact hleg, by rw [hrv]; rfl, (fun hf => by cases hf), fun _ => ?_⟩
    have h3 : (decide (rd l ≤ rd (round13 (toValFlt (rd l) (rd u) q))) && decide (rd (round13 (toValFlt (rd l) (rd u) q)) ≤ rd u)) =
        true := hleg
    simp only [Bool.and_eq_true, decide_eq_true_eq] at h3
    exact C75_vector_in_unit (isF64_rd l) (isF64_rd u) hlu h3.1 h3.2

/-- The value that is read at a node. -/
def readAt (s : Space) (v : Vec) (x : Node) : Option Val :=
  (v.at (s.idx x.name)).bind (fun q => (toVal64 x.hp.kind q).map (roundVal64 x.hp.kind))

/-- A drawn configuration can be made again from its dictionary if its conditions and clauses do not look at floats. -/
theorem rebuild_drawn (hr : Reach calls s) (hb : KeptBounds calls) (hsm : SmallInts calls) (hff : FloatFree calls)
    (hk : ∀ f ∈ allForbs calls, ∀ g ∈ clauseHps f, g.name ∈ s.names) {v : Vec} (hv : DrawnVector calls s v) {al : Bool}
    (hc : check64 s v al = none) {c : Config} (hcv : c.vec = v) (hcn : c.vals = none) :
    ∃ d c', dict64 s c = .ok d ∧ ofValues64 s d al = .ok c' ∧ dict64 s c' = .ok d ∧ SameButFloats calls s v c'.vec := by
  obtain ⟨n1, n2, n3, n4⟩ := nodes_names hr
  have hi := sinv_of_reach hr
  have hnode : ∀ x ∈ s.dag.nodes, x.hp ∈ allHps calls ∧ x.hp.name = x.name := by
    intro x hx
    have hxc : x ∈ s.com := by rw [← hi.com]; exact hx
    exact ⟨(node_hp hr hxc).1, (node_hp hr hxc).2.1⟩
  have hback : ∀ x ∈ s.dag.nodes, ∀ q, v.at (s.idx x.name) = some q → ∃ w q', toVal64 x.hp.kind q = some w ∧
      legalValue64 x.hp.kind (roundVal64 x.hp.kind w) = true ∧ toVec64 x.hp.kind (roundVal64 x.hp.kind w) = some q' ∧
      (x.hp.kind.isFloat = false → q' = q) ∧ (x.hp.kind.isFloat = true → 0 ≤ q' ∧ q' ≤ 1) := by
    intro x hx q hq
    obtain ⟨h1, h2⟩ := hnode x hx
    exact drawn_back ((reach_wf hr).1 _ h1) (hb _ h1) (hsm _ h1) (hv.2 _ h1 q (by rw [h2]; exact hq))
  have hread : ∀ x ∈ s.dag.nodes, isSet (v.at (s.idx x.name)) = (readAt s v x).isSome := by
    intro x hx
    unfold readAt
    cases hq : v.at (s.idx x.name) with
    | none => rfl
    | some q =>
      obtain ⟨w, q', e, -⟩ := hback x hx q hq
      simp [e, isSet]
  have hd : dict64 s c = .ok (s.dag.nodes.filterMap (fun x => (readAt s v x).map (fun w => (x.name, some w)))) := by
    unfold dict64 Config.keys
    rw [n1]
    refine items64_eq ?_ ?_
    · intro x hx
      rw [hcv]
      exact hread x hx
    · intro x hx w hw
      unfold getItem64
      rw [hcn, findNode_dag hr hx, hcv]
      unfold readAt at hw
      cases hq : v.at (s.idx x.name) with
      | none => rw [hq] at hw; cases hw
      | some q =>
        obtain ⟨w0, q', e, -⟩ := hback x hx q hq
        simp only [hq, e, Option.bind_some, Option.map_some, Option.some.injEq] at hw
        subst hw
        simp [e]
  generalize hd' : s.dag.nodes.filterMap (fun x => (readAt s v x).map (fun w => (x.name, some w))) = d at hd
  have hlk : ∀ x ∈ s.dag.nodes, d.lookup x.name = (readAt s v x).map some := by
    intro x hx
    rw [← hd', ← lookup_filterMap (G := fun x => (readAt s v x).map some) n2 hx]
    congr 1
    refine List.filterMap_congr (fun y _ => ?_)
    cases readAt s v y <;> rfl
  have hput : ∀ x ∈ s.dag.nodes, ∀ q, v.at (s.idx x.name) = some q → ∃ w q', readAt s v x = some w ∧ put d x = some (w, q') ∧
      legalValue64 x.hp.kind w = true ∧ roundVal64 x.hp.kind w = w ∧ (x.hp.kind.isFloat = false → q' = q) ∧
      (x.hp.kind.isFloat = true → 0 ≤ q' ∧ q' ≤ 1) := by
    intro x hx q hq
    obtain ⟨w, q', e1, e2, e3, e4, e5⟩ := hback x hx q hq
    have er : readAt s v x = some (roundVal64 x.hp.kind w) := by
      unfold readAt
      simp [hq, e1]
    refine ⟨roundVal64 x.hp.kind w, q', er, ?_, e2, roundVal64_idem _ _, e4, e5⟩
    rw [put_lookup (hlk x hx), er, Option.bind_some, roundVal64_idem, e3, Option.map_some]
  have hput0 : ∀ x ∈ s.dag.nodes, v.at (s.idx x.name) = none → put d x = none ∧ readAt s v x = none := by
    intro x hx hq
    have er : readAt s v x = none := by unfold readAt; rw [hq]; rfl
    refine ⟨?_, er⟩
    rw [put_lookup (hlk x hx), er]
    rfl
  have hfits : ∀ x ∈ s.dag.nodes, Fits d x := by
    intro x hx w hw
    rw [hlk x hx] at hw
    cases hq : v.at (s.idx x.name) with
    | none => rw [(hput0 x hx hq).2] at hw; cases hw
    | some q =>
      obtain ⟨w', q', e1, e2, e3, e4, -⟩ := hput x hx q hq
      rw [e1] at hw
      simp only [Option.map_some, Option.some.injEq] at hw
      subst hw
      refine ⟨e3, ?_⟩
      rw [put_lookup (hlk x hx), e1, Option.bind_some] at e2
      cases ht : toVec64 x.hp.kind (roundVal64 x.hp.kind w') with
      | none => rw [ht] at e2; cases e2
      | some _ => rfl
  have hvec : ∀ x ∈ s.dag.nodes, (setAll s (fun x => (put d x).map Prod.snd) s.dag.nodes (List.replicate s.len none)).at (s.idx x.name) =
      (put d x).map Prod.snd := fun x hx =>
    setAll_at (fun x => (put d x).map Prod.snd) n3 (fun y hy => by rw [List.length_replicate]; exact n4 y hy) hx
  generalize hw : setAll s (fun x => (put d x).map Prod.snd) s.dag.nodes (List.replicate s.len none) = w at hvec
  have hnd : ∀ h ∈ allHps calls, ∃ x ∈ s.dag.nodes, x.hp = h ∧ x.name = h.name := by
    intro h hh
    have hp' := (hp_of hr).2 ⟨hh, rfl⟩
    unfold Space.hp? at hp'
    cases hf : findNode s.com h.name with
    | none => simp [hf] at hp'
    | some y =>
      simp only [hf, Option.map_some, Option.some.injEq] at hp'
      have hm := findNode_some hf
      exact ⟨y, by rw [hi.com]; exact hm.1, hp', hm.2⟩
  have hsame : SameButFloats calls s v w := by
    intro h hh
    obtain ⟨x, hx, rfl, e⟩ := hnd h hh
    rw [← e, hvec x hx]
    cases hq : v.at (s.idx x.name) with
    | none => rw [(hput0 x hx hq).1]; exact ⟨rfl, fun _ => rfl⟩
    | some q =>
      obtain ⟨w', q', -, e2, -, -, e5, -⟩ := hput x hx q hq
      rw [e2]
      exact ⟨rfl, fun hf => by rw [e5 hf]; rfl⟩
  have hwu : ∀ h ∈ allHps calls, h.kind.isFloat = true → ∀ q, w.at (s.idx h.name) = some q → 0 ≤ q ∧ q ≤ 1 := by
    intro h hh hf q hq
    obtain ⟨x, hx, rfl, e⟩ := hnd h hh
    rw [← e, hvec x hx] at hq
    cases hq0 : v.at (s.idx x.name) with
    | none => rw [(hput0 x hx hq0).1] at hq; cases hq
    | some q0 =>
      obtain ⟨w', q', -, e2, -, -, -, e6⟩ := hput x hx q0 hq0
      rw [e2] at hq
      cases hq
      exact e6 hf
  have hvu : ∀ h ∈ allHps calls, h.kind.isFloat = true → ∀ q, v.at (s.idx h.name) = some q → 0 ≤ q ∧ q ≤ 1 := by
    intro h hh hf q hq
    have := hv.2 h hh q hq
    cases hk : h.kind with
    | flt l u => rw [hk] at this; exact this.2
    | _ => simp [hk, Kind.isFloat] at hf
  have hchk : check64 s w al = none := by rw [check_but hr hff hsame hvu hwu hk al]; exact hc
  have hof : ofValues64 s d al = .ok ⟨w, some (s.dag.nodes.filterMap (fun x => (put d x).map (fun p => (x.name, p.1)))), al⟩ := by
    have hany : d.any (fun kv => decide (kv.1 ∉ s.dag.nodes.map Node.name) && kv.1 != "") = false := by
      rw [List.any_eq_false]
      intro kv hkv
      rw [← hd'] at hkv
      obtain ⟨x, hx, e⟩ := List.mem_filterMap.1 hkv
      cases hp : readAt s v x with
      | none => simp [hp] at e
      | some p =>
        simp only [hp, Option.map_some, Option.some.injEq] at e
        subst e
        have : x.name ∈ s.dag.nodes.map Node.name := List.mem_map.2 ⟨x, hx, rfl⟩
        simp only [this, not_true_eq_false, decide_false, Bool.false_and, Bool.false_eq_true, not_false_eq_true]
    unfold ofValues64
    rw [hany, fill64_iff.2 ⟨hfits, rfl⟩, hw]
    simp only [hchk, List.nil_append]
    rfl
  refine ⟨d, _, hd, hof, ?_, hsame⟩
  rw [created_dict hr hof, ← hd']
  congr 1
  refine List.filterMap_congr (fun x hx => ?_)
  rw [hd']
  cases hq : v.at (s.idx x.name) with
  | none => rw [(hput0 x hx hq).1, (hput0 x hx hq).2]; rfl
  | some q =>
    obtain ⟨w', q', e1, e2, -⟩ := hput x hx q hq
    rw [e1, e2]
    rfl

end Verif.F64
