import Verif.Spec.SameFile
import Verif.Lemmas.Seeded
import Verif.Lemmas.SpaceEq
import Verif.Props.JsonOther
import Verif.Props.SpaceEq

/-!
# C124: the file of a space depends on what is in the space, not on how it came there
-/

set_option autoImplicit false

namespace Verif.JText
open Verif Spec

section

variable {T : PyText} {calls calls' : List Call} {s s' : Space}

/-- The dictionary of a space depends on its hyperparameters, conditions and clauses only. -/
theorem toDict_congr {w w' : Name → Option (List Rat)} {ver : String} (h1 : s'.com.map Node.hp = s.com.map Node.hp)
    (h2 : s'.com.map Node.cond = s.com.map Node.cond) (h3 : s'.forbs = s.forbs) (hw : ∀ x ∈ s.com, w' x.name = w x.name) :
    s'.toDict w' ver = s.toDict w ver := by
  have e1 : ∀ (t : Nodes) (u : Name → Option (List Rat)),
      t.map (fun x => encHP x.hp (u x.name)) = (t.map Node.hp).map (fun h => encHP h (u h.name)) := by
    intro t u
    rw [List.map_map]
    rfl
  have e2 : s'.conditions = s.conditions := by
    have k : ∀ t : Nodes, t.filterMap Node.cond = (t.map Node.cond).filterMap id := by
      intro t
      rw [List.filterMap_map]
      rfl
    unfold Space.conditions
    rw [k, k, h2]
  unfold Space.toDict
  rw [e1, e1, e2, h3, h1, List.map_map, List.map_map]
  have e3 : s.com.map ((fun h => encHP h (w' h.name)) ∘ Node.hp) = s.com.map ((fun h => encHP h (w h.name)) ∘ Node.hp) :=
    List.map_congr_left fun x hx => by
      show encHP x.hp (w' x.name) = encHP x.hp (w x.name)
      rw [hw x hx]
  rw [e3]

theorem weightsIn_nodes (w : Name → Option (List Rat)) {x : Node} (hx : x ∈ s.com) :
    weightsIn (s.com.map (fun x => (x.name, w x.name))) x.name = w x.name := by
  unfold weightsIn
  have key : ∀ ns : Nodes, x ∈ ns → (ns.map (fun x => (x.name, w x.name))).lookup x.name = some (w x.name) := by
    intro ns
    induction ns with
    | nil => intro hx; cases hx
    | cons y ys ih =>
      intro hx
      rw [List.map_cons, List.lookup_cons]
      by_cases e : x.name = y.name
      · rw [e]; simp
      · rw [beq_false_of_ne e]
        rcases List.mem_cons.1 hx with rfl | hx
        · exact absurd rfl e
        · exact ih hx
  rw [key _ hx]
  rfl

/-! ## Loading and saving -/

/-- **C124.** Loading the file of a space whose conditions print differently and saving it again gives the same file, character by
character. -/
theorem C124_saved_again_partial (hT : FloatTexts T) (h : Reach calls s) (hoc : OwnConds calls) (hown : OwnClauses calls)
    (hp : PrintApart calls) (k : Lit → Files.SeqKind) (w : Name → Option (List Rat)) (ver : String)
    (hb : ∀ x ∈ allHps calls, ∀ cs, x.kind = .cat cs → badWeights cs (w x.name) = false)
    (hn : ∀ x ∈ allHps calls, (∀ cs, x.kind ≠ .cat cs) → w x.name = none) :
    Resaved T ver (toJson T s k w ver) (toJson T s k w ver) := by
  obtain ⟨s', h1, h2, h3, h4, -⟩ := C101_json_text_round_trip_partial hT h hoc hown hp k w ver hb hn
  refine ⟨s', _, h1, fun k' => ?_⟩
  rw [toJson_eq, toJson_eq, toDict_congr h2 h3 h4 fun x hx => weightsIn_nodes w hx]

theorem resaved_unique {ver : String} {t u v : Chars} (h1 : Resaved T ver t u) (h2 : Resaved T ver t v) : u = v := by
  obtain ⟨s, ws, a, b⟩ := h1
  obtain ⟨s', ws', a', b'⟩ := h2
  rw [a] at a'
  cases a'
  rw [← b (fun _ => .list), b' (fun _ => .list)]

/-- **C124.** However often the file is loaded and saved, it stays the same. -/
theorem C124_any_number_of_rounds_partial (hT : FloatTexts T) (h : Reach calls s) (hoc : OwnConds calls) (hown : OwnClauses calls)
    (hp : PrintApart calls) (k : Lit → Files.SeqKind) (w : Name → Option (List Rat)) (ver : String)
    (hb : ∀ x ∈ allHps calls, ∀ cs, x.kind = .cat cs → badWeights cs (w x.name) = false)
    (hn : ∀ x ∈ allHps calls, (∀ cs, x.kind ≠ .cat cs) → w x.name = none) (n : Nat) (t : Chars) :
    Rounds T ver (toJson T s k w ver) n t ↔ t = toJson T s k w ver := by
  have hs := C124_saved_again_partial hT h hoc hown hp k w ver hb hn
  constructor
  · intro hr
    induction hr with
    | zero => rfl
    | succ _ h1 ih => rw [ih] at h1; exact (resaved_unique hs h1).symm
  · rintro rfl
    induction n with
    | zero => exact .zero
    | succ n ih => exact .succ ih hs

/-! ## The order in which a space is defined -/

/-- **C124.** Two programs that define the same hyperparameters, conditions and clauses, in any order and in any number of calls,
write the same file, if no child is given two conditions that only differ in their order and different clauses print differently. -/
theorem C124_order_of_definition_partial (h : Reach calls s) (h' : Reach calls' s') (hs : SameParts calls calls')
    (h1 : OneCondition calls) (hown : OwnClauses calls) (hap : ClausesApart (allForbs calls)) (k k' : Lit → Files.SeqKind)
    (w : Name → Option (List Rat)) (ver : String) : toJson T s k w ver = toJson T s' k' w ver := by
  have a := alike h h' hs h1 hown
  have c : ∀ {f : Space} {cs : List Call}, Reach cs f → ∀ x, x ∈ f.dag.uncond ++ f.dag.condF ↔ x ∈ allForbs cs := fun hr x =>
    (sinv_of_reach hr).hist.forbs.mem_iff
  have srt : ∀ {f : Space} {cs : List Call}, Reach cs f → f.dag.uncond.Pairwise (fun a b => a.render ≤ b.render) ∧
      f.dag.condF.Pairwise (fun a b => a.render ≤ b.render) := fun hr =>
    ⟨(clauses_sorted hr).1.imp fun h => of_decide_eq_true h, (clauses_sorted hr).2.imp fun h => of_decide_eq_true h⟩
  have e1 : s.dag.uncond = s'.dag.uncond := sorted_unique a.uncond
    (fun f hf g hg => hap f ((c h f).1 (List.mem_append_left _ hf)) g ((c h g).1 (List.mem_append_left _ hg))) (srt h).1 (srt h').1
  have e2 : s.dag.condF = s'.dag.condF := sorted_unique a.condF
    (fun f hf g hg => hap f ((c h f).1 (List.mem_append_right _ hf)) g ((c h g).1 (List.mem_append_right _ hg))) (srt h).2 (srt h').2
  have hf : s'.forbs = s.forbs := by unfold Space.forbs; rw [e1, e2]
  have m1 : s'.com.map Node.hp = s.com.map Node.hp := by
    have := congrArg (List.map (fun c : HP × Nat × Option Cond => c.1)) a.core
    rw [List.map_map, List.map_map] at this
    exact this.symm
  have m2 : s'.com.map Node.cond = s.com.map Node.cond := by
    have := congrArg (List.map (fun c : HP × Nat × Option Cond => c.2.2)) a.core
    rw [List.map_map, List.map_map] at this
    exact this.symm
  rw [toJson_eq, toJson_eq, toDict_congr m1 m2 hf fun _ _ => rfl]

/-! ## What is loaded from the file of any space -/

theorem fromDict_toDict (s : Space) (w : Name → Option (List Rat)) (ver : String) :
    fromDict (s.toDict w ver) = match mapExcept decHP (s.com.map (fun x => encHP x.hp (w x.name))) with
      | .error e => .error e
      | .ok hps => match ({} : Space).add (hps.map Prod.fst) [] [] with
        | (_, some e) => .error e
        | (s1, none) => match decConds s1 (encConds s.conditions) with
          | .error e => .error e
          | .ok conds => match decForbs s1 (encForbs s.forbs) with
            | .error e => .error e
            | .ok forbs => match s1.add [] conds forbs with
              | (_, some e) => .error e
              | (s2, none) => .ok (s2, hps.map (fun p => (p.1.name, p.2))) := rfl

theorem hps_decoded (h : Reach calls s) (w : Name → Option (List Rat))
    (hb : ∀ x ∈ allHps calls, ∀ cs, x.kind = .cat cs → badWeights cs (w x.name) = false)
    (hn : ∀ x ∈ allHps calls, (∀ cs, x.kind ≠ .cat cs) → w x.name = none) :
    mapExcept decHP (s.com.map (fun x => encHP x.hp (w x.name))) = .ok (s.com.map (fun x => (x.hp, w x.name))) := by
  have : ∀ ns : Nodes, (∀ x ∈ ns, x ∈ s.com) → mapExcept decHP (ns.map (fun x => encHP x.hp (w x.name))) =
      .ok (ns.map (fun x => (x.hp, w x.name))) := by
    intro ns
    induction ns with
    | nil => intro _; rfl
    | cons x ns ih =>
      intro hns
      have hx : x.hp ∈ allHps calls := node_hp h (hns x (by simp))
      simp only [List.map_cons, mapExcept]
      rw [show x.name = x.hp.name from rfl, C42_hyperparameter ((reach_wf h).1 _ hx) (hb _ hx) (hn _ hx),
        ih (fun y hy => hns y (by simp [hy]))]
  exact this s.com (fun x hx => hx)

end

namespace ExJt
open Ex

/-- The name of the first hyperparameter in a dictionary. -/
def firstName : Json → Option String
  | .obj fs => match fs.lookup "hyperparameters" with
    | some (.arr (.obj gs :: _)) => match gs.lookup "name" with
      | some (.val (.str n)) => some n
      | _ => none
    | _ => none
  | _ => none

/-- The space that is loaded from the file of `spP`. -/
def kP1 : Call := ⟨spP.com.map Node.hp, [], []⟩
def kP2 : Call := ⟨[], [condP1], []⟩
def loadP1 : Space := committed {} kP1
def loadP2 : Space := committed loadP1 kP2

theorem addP1 : ({} : Space).add kP1.hps [] [] = (loadP1, none) :=
  add_of_stages [("a", some (.int 0)), ("a | b", some (.int 0)), ("b | c", some (.int 0)), ("c", some (.int 0))]
    [some 0, some 0, some 0, some 0] [("a", .int 0), ("a | b", .int 0), ("b | c", .int 0), ("c", .int 0)]
    (by decide +kernel) (by decide +kernel) (by decide +kernel) (by decide +kernel) (by decide +kernel) (by decide +kernel)

theorem addP2 : loadP1.add [] [condP1] [] = (loadP2, none) :=
  add_of_stages (c := kP2) [("a | b", some (.int 0)), ("b | c", some (.int 0)), ("c", some (.int 0)), ("a", none)]
    [some 0, some 0, some 0, none] [("a | b", .int 0), ("b | c", .int 0), ("c", .int 0)]
    (by decide +kernel) (by decide +kernel) (by decide +kernel) (by decide +kernel) (by decide +kernel) (by decide +kernel)

theorem reachP1 : Reach [kP1] loadP1 := Reach.snoc (calls := []) .nil (by decide +kernel) addP1

theorem loadedP (ver : String) : fromDict (spP.toDict (fun _ => none) ver) = .ok (loadP2, spP.com.map (fun x => (x.name, none))) := by
  have ec : spP.conditions = [condP1] := by
    obtain ⟨c, hc⟩ : ∃ c, spP.conditions = [c] := List.length_eq_one_iff.1 (by decide +kernel)
    have h1 : spP.conditions.map childName = [some "a"] := by decide +kernel
    rw [hc] at h1 ⊢
    have hm : c ∈ spP.com.filterMap Node.cond :=
      (uniqueBy_mem (key := Cond.render) (seen := []) (hc ▸ List.mem_cons_self : c ∈ spP.conditions)).1
    obtain ⟨_, _, _, h2, _⟩ := mem_nodeConds reachP hm
    have h3 : c = condP1 ∨ c = condP2 := by simpa [allConds, callP] using h2
    rcases h3 with rfl | rfl
    · rfl
    · exact absurd h1 (by decide +kernel)
  have e2 : decConds loadP1 (encConds spP.conditions) = .ok [condP1] := by
    rw [ec]
    apply decConds_encConds
    intro c hc
    simp only [List.mem_cons, List.not_mem_nil, or_false] at hc
    subst hc
    refine decCond_encCond (looked reachP1) (by decide +kernel) ?_
    intro l hl
    have : ∀ l ∈ condP1.dlcs, l.parent ∈ loadP1.com.map Node.hp ∧ l.child ∈ loadP1.com.map Node.hp := by decide +kernel
    exact this l hl
  have e3 : spP.forbs = [] := by decide +kernel
  have ha : ({} : Space).add ((spP.com.map (fun x => ((x.hp, none) : HP × Option (List Rat)))).map Prod.fst) [] [] = (loadP1, none) := by
    rw [List.map_map]
    exact addP1
  rw [fromDict_toDict, hps_decoded reachP (fun _ => none) (fun _ _ _ _ => rfl) (fun _ _ _ => rfl)]
  simp only [ha, e2, e3]
  rw [show decForbs loadP1 (encForbs []) = .ok [] from rfl]
  simp only [addP2]
  rw [List.map_map]
  rfl

/-- A clause on a value and a relation that print alike: the second hyperparameter is called `1`. -/
def ia : HP := ⟨"a", .ord [.int 0, .int 1, .int 2], .int 0⟩
def i1 : HP := ⟨"1", .ord [.int 0, .int 1, .int 2], .int 2⟩
def kFG : Call := ⟨[ia, i1], [], [.eq ia (.int 1) 1, .rel .eq ia i1]⟩
def kGF : Call := ⟨[ia, i1], [], [.rel .eq ia i1, .eq ia (.int 1) 1]⟩
def spFG : Space := committed {} kFG
def spGF : Space := committed {} kGF
theorem reachFG : Reach [kFG] spFG := Reach.snoc (calls := []) .nil (by decide +kernel)
  (add_of_stages [("1", some (.int 2)), ("a", some (.int 0))] [some 2, some 0] [("1", .int 2), ("a", .int 0)]
    (by decide +kernel) (by decide +kernel) (by decide +kernel) (by decide +kernel) (by decide +kernel) (by decide +kernel))
theorem reachGF : Reach [kGF] spGF := Reach.snoc (calls := []) .nil (by decide +kernel)
  (add_of_stages [("1", some (.int 2)), ("a", some (.int 0))] [some 2, some 0] [("1", .int 2), ("a", .int 0)]
    (by decide +kernel) (by decide +kernel) (by decide +kernel) (by decide +kernel) (by decide +kernel) (by decide +kernel))


/-- The type of the first clause in a dictionary. -/
def firstClause : Json → Option String
  | .obj fs => match fs.lookup "forbiddens" with
    | some (.arr (.obj gs :: _)) => match gs.lookup "type" with
      | some (.val (.str n)) => some n
      | _ => none
    | _ => none
  | _ => none

/-- The first choice of the first hyperparameter. -/
def firstChoice : Json → Option String
  | .obj fs => match fs.lookup "hyperparameters" with
    | some (.arr (.obj gs :: _)) => match gs.lookup "choices" with
      | some (.arr (.val (.str n) :: _)) => some n
      | _ => none
    | _ => none
  | _ => none

end ExJt

section

variable {T : PyText}

/-- **C124** is false of the code if two conditions print alike: the file of such a space has only one of them, so that loading it
and saving it again gives another file. -/
theorem C124_file_changes (hT : FloatTexts T) (k : Lit → Files.SeqKind) : ∃ (calls : List Call) (s : Space) (t : Chars),
    Reach calls s ∧ OwnConds calls ∧ OwnClauses calls ∧ Resaved T "1.2.0" (toJson T s k (fun _ => none) "1.2.0") t ∧
    t ≠ toJson T s k (fun _ => none) "1.2.0" := by
  refine ⟨_, _, text T (ExJt.loadP2.toDict (fun _ => none) "1.2.0"), Ex.reachP, ?_, ?_, ⟨ExJt.loadP2, Ex.spP.com.map (fun x => (x.name, none)), ?_, ?_⟩, ?_⟩
  · intro c hc l hl
    have : ∀ c ∈ [Ex.condP1, Ex.condP2], ∀ l ∈ c.dlcs, l.parent ∈ Ex.callP.hps ∧ l.child ∈ Ex.callP.hps := by decide +kernel
    simpa [allHps] using this c (by simpa [allConds, Ex.callP] using hc) l hl
  · intro f hf
    simp [allForbs, Ex.callP] at hf
  · rw [toJson_eq]
    unfold fromJson
    rw [load_text hT (dk_toDict _ _ _)]
    dsimp only
    rw [ExJt.loadedP]
  · intro k'
    rw [toJson_eq]
    congr 2
    funext n
    unfold weightsIn
    have : ∀ ns : Nodes, ((ns.map (fun x => ((x.name, none) : Name × Option (List Rat)))).lookup n).getD none = none := by
      intro ns
      induction ns with
      | nil => rfl
      | cons x ns ih =>
        rw [List.map_cons, List.lookup_cons]
        cases n == x.name
        · exact ih
        · rfl
    exact this _
  · rw [toJson_eq]
    intro e
    have := congrArg ExJt.firstName (C101_texts_differ hT (dk_toDict _ _ _) (dk_toDict _ _ _) e)
    exact absurd this (by decide +kernel)

/-- **C124** is false of the code if two clauses print alike: here the order in which they were added decides. -/
theorem C124_clauses_that_print_alike (hT : FloatTexts T) (k k' : Lit → Files.SeqKind) :
    ∃ (calls calls' : List Call) (s s' : Space), Reach calls s ∧ Reach calls' s' ∧ SameParts calls calls' ∧ OneCondition calls ∧
      OwnClauses calls ∧ toJson T s k (fun _ => none) "1.2.0" ≠ toJson T s' k' (fun _ => none) "1.2.0" := by
  refine ⟨_, _, _, _, ExJt.reachFG, ExJt.reachGF, ⟨.refl _, fun _ => Iff.rfl, List.Perm.swap _ _ _⟩, ?_, ?_, ?_⟩
  · intro c hc
    simp [allConds, ExJt.kFG] at hc
  · have : ∀ f ∈ ExJt.kFG.forbs, ∀ x ∈ clauseHps f, x ∈ ExJt.kFG.hps := by decide +kernel
    intro f hf x hx
    simpa [allHps] using this f (by simpa [allForbs] using hf) x hx
  · rw [toJson_eq, toJson_eq]
    intro e
    have := congrArg ExJt.firstClause (C101_texts_differ hT (dk_toDict _ _ _) (dk_toDict _ _ _) e)
    exact absurd this (by decide +kernel)

/-- **C124** is false of the code for spaces that compare equal: the order of the choices is not compared, but it is written. -/
theorem C124_equal_spaces_other_files (hT : FloatTexts T) (k k' : Lit → Files.SeqKind) :
    ∃ (calls calls' : List Call) (f g : FSpace), ReachF calls f ∧ ReachF calls' g ∧ f.eq g = true ∧ g.eq f = true ∧
      toJson T f.space k (fun _ => none) "1.2.0" ≠ toJson T g.space k' (fun _ => none) "1.2.0" := by
  refine ⟨_, _, _, _, ExE.rO, ExE.rO', by decide +kernel, by decide +kernel, ?_⟩
  rw [toJson_eq, toJson_eq]
  intro e
  have := congrArg ExJt.firstChoice (C101_texts_differ hT (dk_toDict _ _ _) (dk_toDict _ _ _) e)
  exact absurd this (by decide +kernel)

end

namespace ExJt

/-- A space with conditions and clauses stays the same file. -/
example (n : Nat) : Rounds textJ "1.2.0" (toJson textJ Ex.sp1 (fun _ => .list) (fun _ => none) "1.2.0") n
    (toJson textJ Ex.sp1 (fun _ => .list) (fun _ => none) "1.2.0") :=
  (C124_any_number_of_rounds_partial floats Ex.reach1 Ex.ownC1 Ex.own1 Ex.apart1 (fun _ => .list) (fun _ => none) "1.2.0"
    (fun _ _ _ _ => rfl) (fun _ _ _ => rfl) n _).2 rfl

/-- One call, or two with the hyperparameters and the clauses in another order. -/
example : toJson textJ ExE.fOne.space (fun _ => .list) (fun _ => none) "1.2.0" =
    toJson textJ ExE.fTwo.space (fun _ => .list) (fun _ => none) "1.2.0" :=
  C124_order_of_definition_partial ExE.rOne.reach ExE.rTwo.reach ⟨List.Perm.swap _ _ _, fun _ => Iff.rfl, List.Perm.swap _ _ _⟩ (by
    intro c hc d hd _
    have h1 : c = ExE.onlyC := by simpa [allConds, ExE.kOne] using hc
    have h2 : d = ExE.onlyC := by simpa [allConds, ExE.kOne] using hd
    rw [h1, h2]) (by
    have : ∀ f ∈ ExE.kOne.forbs, ∀ x ∈ clauseHps f, x ∈ ExE.kOne.hps := by decide +kernel
    intro f hf x hx
    simpa [allHps] using this f (by simpa [allForbs] using hf) x hx) (ExE.apart (by decide +kernel)) _ _ _ _

end ExJt

end Verif.JText
