import Verif.Lemmas.Raise
import Verif.Lemmas.Rebuild
import Verif.Props.Sample

/-!
# Checks, constructions and histories with exceptions
-/

set_option autoImplicit false

namespace Verif
open Verif.Spec

theorem hasRel_mem {op : RelOp} {l r : HP} {f : Forb} (h : HasRel op l r f) : l ∈ clauseHps f ∧ r ∈ clauseHps f := by
  induction h with
  | here => simp [clauseHps]
  | inside hc _ ih =>
    simp only [clauseHps]
    exact ⟨mem_clauseHpsL.2 ⟨_, hc, ih.1⟩, mem_clauseHpsL.2 ⟨_, hc, ih.2⟩⟩

theorem hasRel_wf {op : RelOp} {l r : HP} {f : Forb} (h : HasRel op l r f) (hw : f.wf = true) :
    l.wf = true ∧ r.wf = true := by
  induction h with
  | here => simpa [Forb.wf] using hw
  | inside hc _ ih =>
    simp only [Forb.wf] at hw
    exact ih (wfL_iff.1 hw _ hc)

/-! ## Merged clauses -/

theorem noRel_eq {op : RelOp} {l r h : HP} {v : Val} {x : Rat} : ¬ HasRel op l r (.eq h v x) := by
  intro k; cases k

theorem optEmit_noRel {op : RelOp} {l r : HP} {g : OptGroup} {f : Forb} (h : optEmit g = .ok f) : ¬ HasRel op l r f := by
  unfold optEmit at h
  simp only at h
  split at h
  · cases h
    intro k
    cases k with
    | inside hc k' =>
      simp only [List.mem_append, List.mem_map, List.mem_singleton] at hc
      rcases hc with ⟨p, _, rfl⟩ | rfl <;> exact noRel_eq k'
  · cases h
  · simp only [bind, Except.bind] at h
    split at h
    · cases h
    · rename_i c hc
      cases h
      intro k
      cases k with
      | inside hc' k' =>
        simp only [List.mem_append, List.mem_map, List.mem_singleton] at hc'
        rcases hc' with ⟨p, _, rfl⟩ | rfl
        · exact noRel_eq k'
        · unfold mkForbIn at hc
          split at hc
          · cases hc; cases k'
          · cases hc

theorem fast_rel {op : RelOp} {l r : HP} {idx : Name → Nat} {fs fast : List Forb} (h : optimizedForbs idx fs = .ok fast)
    {f : Forb} (hf : f ∈ fast) (hr : HasRel op l r f) : f ∈ fs := by
  unfold optimizedForbs at h
  simp only at h
  split at h
  · cases h
  · split at h
    · cases h
    · rename_i cs hcs
      simp only [Except.ok.injEq] at h
      subst h
      rcases List.mem_append.1 hf with hf | hf
      · exact (List.mem_filter.1 hf).1
      · obtain ⟨m1, _⟩ := mapExcept_on hcs
        obtain ⟨kg, _, e⟩ := m1 f hf
        exact absurd hr (optEmit_noRel e)

theorem rel_fast {idx : Name → Nat} {fs fast : List Forb} (h : optimizedForbs idx fs = .ok fast)
    {f : Forb} (hf : f ∈ fs) (hr : f.eqConj? = none) : f ∈ fast := by
  unfold optimizedForbs at h
  simp only at h
  split at h
  · cases h
  · split at h
    · cases h
    · simp only [Except.ok.injEq] at h
      subst h
      refine List.mem_append.2 (.inl (List.mem_filter.2 ⟨hf, by simp [hr]⟩))

/-! ## The loops over the clauses -/

theorem clausesE_cases {s : Space} {v : Vec} : ∀ (fs : List Forb), (∀ f ∈ fs, DecAt s.idx v f) →
    (clausesE s v fs = some .typeError ∨
      clausesE s v fs = if fs.any (fun f => f.onVec s.idx v) then some .forbidden else none) ∧
    ((∀ f ∈ fs, Comparable f) → clausesE s v fs = if fs.any (fun f => f.onVec s.idx v) then some .forbidden else none)
  | [], _ => ⟨.inr rfl, fun _ => rfl⟩
  | f :: fs, hd => by
    have h1 := onVecE_cases f (hd f (by simp))
    have h2 := clausesE_cases fs (fun g hg => hd g (by simp [hg]))
    have hstep : ∀ b, f.onVec s.idx v = b → f.onVecE s.idx v = .ok b →
        (clausesE s v (f :: fs) = if b then some .forbidden else clausesE s v fs) ∧
        (if (f :: fs).any (fun f => f.onVec s.idx v) then some Err.forbidden else none) =
          if b then some .forbidden else (if fs.any (fun f => f.onVec s.idx v) then some .forbidden else none) := by
      intro b hb e
      cases b <;> simp [clausesE, e, hb]
    refine ⟨?_, fun hc => ?_⟩
    · rcases h1.1 with e | e
      · left; simp only [clausesE, e]
      · obtain ⟨k1, k2⟩ := hstep _ rfl e
        rw [k1, k2]
        cases f.onVec s.idx v with
        | true => right; rfl
        | false => exact h2.1
    · obtain ⟨k1, k2⟩ := hstep _ rfl (h1.2 (hc f (by simp)))
      rw [k1, k2, h2.2 (fun g hg => hc g (by simp [hg]))]

theorem checkE_cases {s : Space} {v : Vec} {al : Bool} (hd : ∀ f ∈ s.fast, DecAt s.idx v f) :
    (s.checkE v al = some .typeError ∨ s.checkE v al = s.check v al) ∧
    ((∀ f ∈ s.fast, Comparable f) → s.checkE v al = s.check v al) := by
  have := clausesE_cases s.fast hd
  unfold Space.checkE Space.check
  cases firstWith (fun e => !isSet e) s v s.dag.roots with
  | some n => exact ⟨.inr rfl, fun _ => rfl⟩
  | none =>
    cases checkConds s v al s.minConds with
    | some n => exact ⟨.inr rfl, fun _ => rfl⟩
    | none => exact this

theorem checkRigorousE_cases {s : Space} {v : Vec} {al : Bool} (hd : ∀ f ∈ s.forbs, DecAt s.idx v f) :
    (s.checkRigorousE v al = some .typeError ∨ s.checkRigorousE v al = s.checkRigorous v al) ∧
    ((∀ f ∈ s.forbs, Comparable f) → s.checkRigorousE v al = s.checkRigorous v al) := by
  have := clausesE_cases s.forbs hd
  unfold Space.checkRigorousE Space.checkRigorous
  cases rigorousLoop s v al s.dag.nodes with
  | some n => exact ⟨.inr rfl, fun _ => rfl⟩
  | none => exact this

/-! ## Configurations from values -/

section
variable {s : Space} {H : List HP} {C : List Cond} {F : List Forb}

theorem pre_idx_nodup (p : Pre s H C F) : (s.com.map (fun x => s.idx x.name)).Nodup := by
  have hn := p.hist.ninv
  rw [p.com] at hn
  have h1 : s.com.map (fun x => s.idx x.name) = (s.com.map Node.name).map s.idx := by simp
  rw [h1]
  refine List.Nodup.map_on ?_ hn.nodup
  intro a ha b hb e
  exact (List.idxOf_inj ha).1 e

/-- Vectors made of values decode. -/
theorem fill_dec (p : Pre s H C F) {d : Dict} {v : Vec} {vals : List (Name × Val)}
    (hf : fillValues s d s.dag.nodes (List.replicate s.len none) [] = .ok (v, vals)) {x : HP} (hx : x ∈ H) {q : Rat}
    (hq : v.at (s.idx x.name) = some q) : ∃ w, x.kind.toVal q = some w := by
  have hn := p.hist.ninv
  rw [p.com] at hn hf
  obtain ⟨_, h2, _, _⟩ := fillValues_spec hf (pre_idx_nodup p) hn.nodup (by
    intro x hx
    rw [List.length_replicate, p.len]
    have : x.name ∈ s.com.map Node.name := List.mem_map.2 ⟨x, hx, rfl⟩
    simpa [Space.idx, idxOf] using List.idxOf_lt_length_of_mem this) (by simp)
  obtain ⟨y, hy, rfl⟩ := List.mem_map.1 (p.hist.hps.mem_iff.2 hx)
  rw [p.com] at hy
  have hq : v.at (s.idx y.name) = some q := hq
  rcases h2 y hy with ⟨w, q', _, _, e3, e, _⟩ | ⟨_, e, _⟩
  · rw [e] at hq
    cases hq
    exact toVec_decodes (h := y.hp) e3
  · rw [e] at hq
    cases hq

theorem own_of_same (p : Pre s H C F) (hs : ∀ f ∈ F, ∀ h ∈ clauseHps f, ∀ x ∈ H, x.name = h.name → x = h) {f : Forb}
    (hf : f ∈ F) {h : HP} (hh : h ∈ clauseHps f) : h ∈ H := by
  have hnode := p.hist.forbNames f hf h.name (by rw [names_eq]; exact List.mem_map.2 ⟨h, hh, rfl⟩)
  obtain ⟨y, hy, e⟩ := List.mem_map.1 hnode
  have hyH : y.hp ∈ H := p.hist.hps.mem_iff.1 (List.mem_map.2 ⟨y, hy, rfl⟩)
  exact hs f hf h hh y.hp hyH e ▸ hyH

theorem decAt_of {v : Vec} (hv : ∀ x ∈ H, ∀ q, v.at (s.idx x.name) = some q → ∃ w, x.kind.toVal q = some w)
    (hown : ∀ f ∈ F, ∀ h ∈ clauseHps f, h ∈ H) {f : Forb} (hf : f ∈ F) : DecAt s.idx v f := by
  intro op l r hr
  obtain ⟨h1, h2⟩ := hasRel_mem hr
  exact ⟨hv l (hown f hf l h1), hv r (hown f hf r h2)⟩

theorem fast_in (p : Pre s H C F) {op : RelOp} {l r : HP} {f : Forb} (hf : f ∈ s.fast) (hr : HasRel op l r f) : f ∈ F :=
  p.hist.forbs.mem_iff.1 (fast_rel p.fast hf hr)

theorem fast_dec (p : Pre s H C F) {v : Vec}
    (hv : ∀ x ∈ H, ∀ q, v.at (s.idx x.name) = some q → ∃ w, x.kind.toVal q = some w)
    (hown : ∀ f ∈ F, ∀ h ∈ clauseHps f, h ∈ H) {f : Forb} (hf : f ∈ s.fast) : DecAt s.idx v f :=
  fun op l r hr => decAt_of hv hown (fast_in p hf hr) op l r hr

theorem fast_comparable (p : Pre s H C F) (hc : ∀ f ∈ F, Comparable f) {f : Forb} (hf : f ∈ s.fast) : Comparable f :=
  fun op l r hr => hc f (fast_in p hf hr) op l r hr

theorem ofValuesE_cases (p : Pre s H C F) (hown : ∀ f ∈ F, ∀ h ∈ clauseHps f, h ∈ H) (d : Dict) (al : Bool) :
    (Config.ofValuesE s d al = .error .typeError ∨ Config.ofValuesE s d al = Config.ofValues s d al) ∧
    ((∀ f ∈ F, Comparable f) → Config.ofValuesE s d al = Config.ofValues s d al) := by
  unfold Config.ofValuesE Config.ofValues
  by_cases hb : (d.any (fun kv => decide (kv.1 ∉ s.dag.nodes.map Node.name) && kv.1 != "")) = true
  · rw [if_pos hb, if_pos hb]
    exact ⟨.inr rfl, fun _ => rfl⟩
  · rw [if_neg hb, if_neg hb]
    cases hf : fillValues s d s.dag.nodes (List.replicate s.len none) [] with
    | error e => exact ⟨.inr rfl, fun _ => rfl⟩
    | ok vv =>
      obtain ⟨v, vals⟩ := vv
      simp only
      have := checkE_cases (s := s) (v := v) (al := al) (fun f hf' =>
        fast_dec p (fun x hx q hq => fill_dec p hf hx hq) hown hf')
      refine ⟨?_, fun hc => ?_⟩
      · rcases this.1 with e | e
        · left; rw [e]
        · right; rw [e]; rfl
      · rw [this.2 (fun f hf' => fast_comparable p hc hf')]; rfl

theorem defaultConfigE_cases (p : Pre s H C F) (hown : ∀ f ∈ F, ∀ h ∈ clauseHps f, h ∈ H) :
    (s.defaultConfigE = .error .typeError ∨ s.defaultConfigE = s.defaultConfig) ∧
    ((∀ f ∈ F, Comparable f) → s.defaultConfigE = s.defaultConfig) := by
  unfold Space.defaultConfigE Space.defaultConfig
  cases defaultValues s.dag.nodes [] with
  | error e => exact ⟨.inr rfl, fun _ => rfl⟩
  | ok d => exact ofValuesE_cases p hown _ _

end

theorem addE_cases {calls : List Call} {s : Space} (h : Reach calls s) {k : Call} (hk : k.wf)
    (hs : SameNamed (calls ++ [k])) :
    (s.addE k.hps k.conds k.forbs = ((s.add k.hps k.conds k.forbs).1, some .typeError) ∨
      s.addE k.hps k.conds k.forbs = s.add k.hps k.conds k.forbs) ∧
    ((∀ f ∈ allForbs (calls ++ [k]), Comparable f) → s.addE k.hps k.conds k.forbs = s.add k.hps k.conds k.forbs) := by
  unfold Space.addE Space.add
  cases hg : s.dag.addAll k.hps k.conds k.forbs with
  | mk g o =>
    cases o with
    | some e => exact ⟨.inr rfl, fun _ => rfl⟩
    | none =>
      simp only
      have hi := (sinv_of_reach h).hist.addAll hk hg
      cases hs1 : s.commit g with
      | mk s1 o =>
        cases o with
        | some e => exact ⟨.inr rfl, fun _ => rfl⟩
        | none =>
          obtain ⟨m1, m2, m3, m4, m5, m6, m7, m8, m9⟩ := commit_ok hi hs1
          have p : Pre { s1 with len := s1.dag.nodes.length } (allHps calls ++ k.hps) (allConds calls ++ k.conds)
              (allForbs calls ++ k.forbs) := by
            refine ⟨m1, m2, ?_, m4, ?_, m7, m8⟩
            · simp only [m3]
              exact sortBy_pairwise
                (le := fun a b : Node => keyLe (a.depth, a.name) (b.depth, b.name))
                (fun a b => keyLe_total _ _) (fun a b c => keyLe_trans _ _ _) _
            · simp only [m2]
          have hF : allForbs (calls ++ [k]) = allForbs calls ++ k.forbs := by simp [allForbs]
          have hH : allHps (calls ++ [k]) = allHps calls ++ k.hps := by simp [allHps]
          unfold SameNamed at hs
          rw [hF, hH] at hs
          rw [hF]
          have := defaultConfigE_cases p (fun f hf x hx => own_of_same p hs hf hx)
          simp only
          refine ⟨?_, fun hc => ?_⟩
          · rcases this.1 with e | e
            · left; rw [e]
              cases Space.defaultConfig { s1 with len := s1.dag.nodes.length } <;> rfl
            · right; rw [e]; rfl
          · rw [this.2 hc]; rfl

theorem sameNamed_prefix {calls : List Call} {k : Call} (h : SameNamed (calls ++ [k])) : SameNamed calls := by
  intro f hf x hx y hy e
  refine h f ?_ x hx y ?_ e
  · simp only [allForbs, List.flatMap_append, List.mem_append] at hf ⊢
    exact .inl hf
  · simp only [allHps, List.flatMap_append, List.mem_append] at hy ⊢
    exact .inl hy

/-! ## Sampling -/

variable {calls : List Call} {s : Space}

theorem row_ofCols {n i : Nat} {vs : List Vec} (hi : i < n) : (ofCols n vs).row i = vs.map (fun v => v.at i) := by
  simp [Mat.row, ofCols, hi]

theorem decRows_ofCols (h : Reach calls s) (hown : OwnClauses calls) {vs : List Vec}
    (hd : ∀ v ∈ vs, Decodable calls s v) {f : Forb} (hf : f ∈ allForbs calls) : DecRows s.idx (ofCols s.len vs) f := by
  intro op l r hr
  obtain ⟨h1, h2⟩ := hasRel_mem hr
  have key : ∀ x ∈ clauseHps f, ∀ q, some q ∈ (ofCols s.len vs).row (s.idx x.name) → ∃ w, x.kind.toVal q = some w := by
    intro x hx q hq
    rw [row_ofCols (idx_lt h (forb_known h hf hx))] at hq
    obtain ⟨v, hv, e⟩ := List.mem_map.1 hq
    exact hd v hv x (hown f hf x hx) q e
  exact ⟨hasRel_wf hr ((sinv_of_reach h).hist.forbWf f hf), key l h1, key r h2⟩

theorem decodable_mask (h : Reach calls s) {v : Vec} (hd : Decodable calls s v) : Decodable calls s (maskCol s v) := by
  intro x hx q hq
  have hxn := (reach_isNode h x.name).2 ⟨x, hx, rfl⟩
  rcases maskFold_values h hxn s.minConds v (fun _ hc => hc) with k | k
  · rw [show (maskCol s v).at (s.idx x.name) = none from k] at hq; cases hq
  · rw [show (maskCol s v).at (s.idx x.name) = _ from k] at hq
    exact hd x hx q hq

theorem sampleBatchE_cases (h : Reach calls s) (hown : OwnClauses calls) {w : Nat} {m : Mat} (hr : Rect m w)
    (hm : m.length = s.len) (hd : ∀ v ∈ m.cols w, Decodable calls s v) :
    (s.sampleBatchE w m = .error .typeError ∨ s.sampleBatchE w m = .ok (s.sampleBatch w m)) ∧
    ((∀ f ∈ allForbs calls, Comparable f) → s.sampleBatchE w m = .ok (s.sampleBatch w m)) ∧
    (∀ op l r, ∀ f ∈ allForbs calls, HasRel op l r f → Clash op l r → s.sampleBatchE w m = .error .typeError) := by
  have hi := sinv_of_reach h
  have hmem : ∀ f, f ∈ s.dag.uncond ++ s.dag.condF ↔ f ∈ allForbs calls := fun f => hi.hist.forbs.mem_iff
  have hlen := cols_length_mem (m := m) (w := w)
  rw [hm] at hlen
  have hw : (m.cols w).length = w := by simp [Mat.cols]
  have hmm : m = ofCols s.len (m.cols w) := by rw [← hm, ofCols_cols hr]
  generalize m.cols w = vs at hlen hw hmm hd
  subst hw
  subst hmm
  have c1 := forbMaskE_cases (s := s) (w := vs.length) (m := ofCols s.len vs) s.dag.uncond
    (fun f hf => decRows_ofCols h hown hd ((hmem f).1 (by simp [hf])))
  unfold Space.sampleBatchE Space.sampleBatch
  simp only
  -- the second matrix
  have hl1 : ∀ v ∈ vs.filter (fun v => !(s.dag.uncond.any (fun f => f.onVec s.idx v))), v.length = s.len :=
    fun v hv => hlen v (List.mem_filter.1 hv).1
  have hd1 : ∀ v ∈ vs.filter (fun v => !(s.dag.uncond.any (fun f => f.onVec s.idx v))), Decodable calls s v :=
    fun v hv => hd v (List.mem_filter.1 hv).1
  have hm2 : s.minConds.foldl (fun m c => maskKids s m c (c.cond.satArr s.idx
        (numTrue ((forbMask s vs.length (ofCols s.len vs) s.dag.uncond).map not)) m))
        ((ofCols s.len vs).keepCols ((forbMask s vs.length (ofCols s.len vs) s.dag.uncond).map not)) =
      ofCols s.len ((vs.filter (fun v => !(s.dag.uncond.any (fun f => f.onVec s.idx v)))).map (maskCol s)) := by
    rw [forbMask_ofCols h hlen (fun f hf => (hmem f).1 (by simp [hf])), List.map_map]
    simp only [Function.comp_def]
    rw [keepCols_ofCols, numTrue_map (fun x => !(s.dag.uncond.any (fun f => f.onVec s.idx x))),
      maskFold_ofCols h s.minConds _ (fun c hc => hc) hl1]
    rfl
  have c2 := forbMaskE_cases (s := s) (w := numTrue ((forbMask s vs.length (ofCols s.len vs) s.dag.uncond).map not))
    (m := ofCols s.len ((vs.filter (fun v => !(s.dag.uncond.any (fun f => f.onVec s.idx v)))).map (maskCol s))) s.dag.condF
    (fun f hf => decRows_ofCols h hown (by
      intro v hv
      obtain ⟨u, hu, rfl⟩ := List.mem_map.1 hv
      exact decodable_mask h (hd1 u hu)) ((hmem f).1 (by simp [hf])))
  rw [← hm2] at c2
  refine ⟨?_, ?_, ?_⟩
  · rcases c1.1 with e | e
    · left; rw [e]; rfl
    · rw [e]
      simp only [bind, Except.bind]
      rcases c2.1 with e | e
      · left; rw [e]
      · right; rw [e]
  · intro hc
    rw [c1.2.1 (fun f hf => hc f ((hmem f).1 (by simp [hf])))]
    simp only [bind, Except.bind]
    rw [c2.2.1 (fun f hf => hc f ((hmem f).1 (by simp [hf])))]
  · intro op l r f hf hh hcl
    rcases List.mem_append.1 ((hmem f).2 hf) with hf' | hf'
    · rw [c1.2.2 op l r f hf' hh hcl]; rfl
    · rcases c1.1 with e | e
      · rw [e]; rfl
      · rw [e]
        simp only [bind, Except.bind]
        rw [c2.2.2 op l r f hf' hh hcl]


end Verif
