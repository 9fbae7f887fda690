import Verif.Lemmas.PcsForb
import Verif.Props.Accept

/-!
# A file in the new pcs format, line by line
-/

set_option autoImplicit false

namespace Verif
open Verif.Spec

theorem catText_shape {n d : Chars} {ty : String} {ws : List Chars} (hn : Plain n) (hd : Plain d)
    (hty : ∀ c ∈ ty.toList, parChar c = true) (hw : ∀ w ∈ ws, Plain w) :
    ∃ c cs, catText n ty ws d = c :: (cs ++ [']']) ∧ nameChar c = true ∧ ∀ x ∈ cs, parChar x = true := by
  obtain ⟨c, n', rfl⟩ := List.exists_cons_of_ne_nil hn.1
  refine ⟨c, n' ++ ' ' :: (ty.toList ++ ' ' :: '{' :: (joinWith ", ".toList ws ++ '}' :: ' ' :: '[' :: d)), ?_, ?_, ?_⟩
  · simp [catText]
  · exact hn.name c (by simp)
  · have hp : ∀ {w : Chars}, Plain w → ∀ x ∈ w, parChar x = true := fun h x hx => nameChar_par (h.name x hx)
    intro x hx
    simp only [List.mem_append, List.mem_cons] at hx
    rcases hx with hx | rfl | hx | rfl | rfl | hx | rfl | rfl | rfl | hx
    · exact hp hn x (by simp [hx])
    · decide
    · exact hty x hx
    · decide
    · decide
    · rcases mem_joinWith hx with hx | ⟨w, hw', hx⟩
      · exact (by decide : ∀ x ∈ ", ".toList, parChar x = true) x hx
      · exact hp (hw w hw') x hx
    · decide
    · decide
    · decide
    · exact hp hd x hx

theorem contText_shape {n l u d : Chars} {ty : String} (hn : Plain n) (hl : Plain l) (hu : Plain u) (hd : Plain d)
    (hty : ∀ c ∈ ty.toList, parChar c = true) :
    ∃ c cs, contText n ty l u d = c :: (cs ++ [']']) ∧ nameChar c = true ∧ ∀ x ∈ cs, parChar x = true := by
  obtain ⟨c, n', rfl⟩ := List.exists_cons_of_ne_nil hn.1
  refine ⟨c, n' ++ ' ' :: (ty.toList ++ ' ' :: '[' :: (l ++ ',' :: ' ' :: (u ++ ']' :: ' ' :: '[' :: d))), ?_, ?_, ?_⟩
  · simp [contText]
  · exact hn.name c (by simp)
  · have hp : ∀ {w : Chars}, Plain w → ∀ x ∈ w, parChar x = true := fun h x hx => nameChar_par (h.name x hx)
    intro x hx
    simp only [List.mem_append, List.mem_cons] at hx
    rcases hx with hx | rfl | hx | rfl | rfl | hx | rfl | rfl | hx | rfl | rfl | rfl | hx
    · exact hp hn x (by simp [hx])
    · decide
    · exact hty x hx
    · decide
    · decide
    · exact hp hl x hx
    · decide
    · decide
    · exact hp hu x hx
    · decide
    · decide
    · decide
    · exact hp hd x hx

/-- The line of a hyperparameter. -/
theorem hp_line {T : PyText} (hT : NumberTexts T) {weighted : Name → Bool} {h : HP} (hw : h.wf = true) (hh : WritableHP h)
    (hwt : weighted h.name = false) :
    ∃ c cs, buildParam T weighted h = .ok (c :: (cs ++ [']'])) ∧ nameChar c = true ∧ (∀ x ∈ cs, parChar x = true) ∧
      readParam T (c :: (cs ++ [']'])) = .ok h := by
  obtain ⟨hn, hk'⟩ := hh
  cases hk : h.kind with
  | cat cs =>
    rw [hk] at hk'
    simp only at hk'
    obtain ⟨-, hp⟩ := words_back T hk'
    have hd : h.default ∈ cs := pyIn_words hk' (by
      simp only [HP.wf, hk, Bool.and_eq_true] at hw
      exact hw.2)
    obtain ⟨c, cs', e, h1, h2⟩ := catText_shape (ty := "categorical") hn (hp (T.chars h.default) (List.mem_map.2 ⟨_, hd, rfl⟩)) (by decide) hp
    refine ⟨c, cs', ?_, h1, h2, ?_⟩
    · rw [← e]
      unfold buildParam
      simp [hk, hwt, catText]
    · rw [← e]
      exact readParam_cat hw hn hk hk'
  | ord cs =>
    rw [hk] at hk'
    simp only at hk'
    have hv' : ∀ v ∈ cs, ∃ t, v = .str t ∧ Plain t.toList := fun v hm => (hk'.1 v hm).imp fun t ht => ⟨ht.1, ht.2.1⟩
    obtain ⟨-, hp⟩ := words_back T hv'
    have hd : h.default ∈ cs := pyIn_words hv' (by
      simp only [HP.wf, hk, Bool.and_eq_true] at hw
      exact hw.2)
    obtain ⟨c, cs', e, h1, h2⟩ := catText_shape (ty := "ordinal") hn (hp (T.chars h.default) (List.mem_map.2 ⟨_, hd, rfl⟩)) (by decide) hp
    refine ⟨c, cs', ?_, h1, h2, ?_⟩
    · rw [← e]
      unfold buildParam
      simp [hk, catText]
    · rw [← e]
      exact readParam_ord hw hn hk hk'.1 hk'.2
  | const v => rw [hk] at hk'; exact hk'.elim
  | int l u =>
    obtain ⟨m, hm, h2⟩ := remake_int hw hk
    obtain ⟨c, cs', e, h1, h3⟩ := contText_shape (ty := "integer") hn (numberText_int l).plain (numberText_int u).plain
      (numberText_int m).plain (by decide)
    refine ⟨c, cs', ?_, h1, h3, ?_⟩
    · rw [← e]
      unfold buildParam
      simp [hk, hm, contText, Val.num?, trunc_int', PyText.chars, PyText.str]
    · rw [← e]
      exact readParam_int hT hn h2
  | flt l u =>
    obtain ⟨m, hm, h2⟩ := remake_flt hw hk
    obtain ⟨c, cs', e, h1, h3⟩ := contText_shape (ty := "real") hn (hT.shape l).plain (hT.shape u).plain
      (hT.shape m).plain (by decide)
    refine ⟨c, cs', ?_, h1, h3, ?_⟩
    · rw [← e]
      unfold buildParam
      simp [hk, hm, contText, PyText.chars, PyText.str]
    · rw [← e]
      exact readParam_flt hT hn h2

/-! ## Reading the lines -/

/-- A hyperparameter for each call. -/
def singles (hs : List HP) : List Call := hs.map (fun h => ⟨[h], [], []⟩)

theorem readLines_params {T : PyText} : ∀ (hs : List HP) (ls : List Chars) {calls : List Call} {s : Space}, Reach calls s →
    allConds calls = [] → allForbs calls = [] → (∀ h ∈ hs, h.wf = true) → ((allHps calls ++ hs).map HP.name).Nodup →
    List.Forall₂ (fun h l => ∃ c cs, l = c :: (cs ++ [']']) ∧ nameChar c = true ∧ (∀ x ∈ cs, parChar x = true) ∧ readParam T l = .ok h) hs ls →
    ∃ s', readLines T { space := s } ls = .ok { space := s' } ∧ Reach (calls ++ singles hs) s'
  | [], _, calls, s, h, _, _, _, _, .nil => ⟨s, rfl, by simpa [singles] using h⟩
  | x :: hs, l :: ls, calls, s, h, hc, hf, hw, hnd, .cons ⟨c, cs, e, h1, h2, h3⟩ ht => by
    have ha := C58_fresh_hyperparameters h hc hf [x] (by simpa using hw x (by simp)) (by
      have : (allHps calls ++ x :: hs).map HP.name = (allHps calls ++ [x]).map HP.name ++ hs.map HP.name := by simp
      rw [this] at hnd
      exact hnd.of_append_left)
    have hadd : s.add [x] [] [] = ((s.add [x] [] []).1, none) := by rw [← ha]
    have hr : Reach (calls ++ [⟨[x], [], []⟩]) (s.add [x] [] []).1 :=
      Reach.snoc h ⟨by simpa using hw x (by simp), by simp, by simp⟩ hadd
    obtain ⟨s', k1, k2⟩ := readLines_params hs ls hr (by rw [allConds_snoc, hc]; rfl) (by rw [allForbs_snoc, hf]; rfl)
      (fun y hy => hw y (by simp [hy])) (by rw [allHps_snoc]; simpa using hnd) ht
    refine ⟨s', ?_, by simpa [singles] using k2⟩
    rw [readLines, e, readLine_par h1 h2, ← e, h3]
    simp only
    rw [hadd]
    exact k1

theorem readLines_conds {T : PyText} : ∀ (tks : List (List Chars)) (ls : List Chars) {f : PcsFile},
    List.Forall₂ (fun tk l => Line okChar l ∧ '|' ∈ l ∧ ppCondition l = some (tk, [])) tks ls →
    readLines T f ls = .ok { f with conds := f.conds ++ tks }
  | [], _, f, .nil => by simp [readLines]
  | tk :: tks, l :: ls, f, .cons ⟨h1, h2, h3⟩ ht => by
    rw [readLines, readLine_cond h1.1 h1.ends.1 h1.ends.2 h2 h3]
    simp only
    rw [readLines_conds tks ls ht]
    simp

theorem readLines_forbs {T : PyText} : ∀ (ls : List Chars) {f : PcsFile},
    (∀ l ∈ ls, ∃ cs, l = '{' :: (cs ++ ['}']) ∧ ∀ x ∈ cs, parChar x = true) →
    readLines T f ls = .ok { f with forbs := f.forbs ++ ls }
  | [], f, _ => by simp [readLines]
  | l :: ls, f, h => by
    obtain ⟨cs, e, h1⟩ := h l (by simp)
    rw [readLines, e, readLine_forb h1]
    simp only
    rw [readLines_forbs ls (fun x hx => h x (by simp [hx]))]
    simp

/-! ## One line for each child -/

theorem groupByChild_id {cs : List (List Chars)} (h : (cs.map (fun c => c.getD 0 [])).Nodup) : groupByChild cs = cs := by
  unfold groupByChild
  rw [uniqueBy_eq (by simp)]
  · have key : ∀ (l : List (List Chars)) (m : List (List Chars)), (l.map (fun c => c.getD 0 [])).Nodup → l.Sublist m →
        (m.map (fun c => c.getD 0 [])).Nodup →
        (l.map (fun c => c.getD 0 [])).flatMap (fun n => m.filter (fun c => c.getD 0 [] == n)) = l := by
      intro l m hl hs hm
      induction l with
      | nil => rfl
      | cons x l ih =>
        rw [List.map_cons, List.flatMap_cons, ih (by simp only [List.map_cons, List.nodup_cons] at hl; exact hl.2)
          ((List.sublist_cons_self _ _).trans hs)]
        have hx : x ∈ m := hs.subset (by simp)
        have : m.filter (fun c => c.getD 0 [] == x.getD 0 []) = [x] := by
          clear ih hs hl
          induction m with
          | nil => cases hx
          | cons y m ih =>
            simp only [List.map_cons, List.nodup_cons] at hm
            by_cases hy : y.getD 0 [] = x.getD 0 []
            · have hxy : x = y := by
                rcases List.mem_cons.1 hx with e | hxm
                · exact e
                · exact absurd (List.mem_map.2 ⟨x, hxm, hy.symm⟩) hm.1
              subst hxy
              rw [List.filter_cons_of_pos (by simp), List.filter_eq_nil_iff.2]
              intro z hz e
              exact hm.1 (List.mem_map.2 ⟨z, hz, by simpa using e⟩)
            · rw [List.filter_cons_of_neg (by simpa using hy)]
              refine ih hm.2 ?_
              rcases List.mem_cons.1 hx with e | hxm
              · exact absurd (by rw [e]) hy
              · exact hxm
        rw [this]
        rfl
    exact key cs cs h (List.Sublist.refl _) h
  · rw [List.map_map]
    have := h.map (f := String.ofList) (fun a b e => by simpa using congrArg String.toList e)
    rwa [List.map_map] at this

/-! ## Sorting -/

theorem perm_map {α β : Type} {f : α → β} : ∀ {l : List β} {a : List α}, l.Perm (a.map f) → ∃ a' : List α, a'.Perm a ∧ l = a'.map f
  | [], a, h => ⟨a, List.Perm.refl _, h.nil_eq⟩
  | b :: l, a, h => by
    obtain ⟨x, hx, rfl⟩ := List.mem_map.1 (h.subset (by simp) : b ∈ a.map f)
    obtain ⟨a1, a2, rfl⟩ := List.append_of_mem hx
    have h1 : (f x :: l).Perm (f x :: (a1 ++ a2).map f) := h.trans (by simpa using List.perm_middle)
    obtain ⟨a', h2, rfl⟩ := perm_map (List.Perm.cons_inv h1)
    exact ⟨x :: a', (List.Perm.cons x h2).trans List.perm_middle.symm, rfl⟩

/-! ## Building the space from the parts of the file -/

theorem allHps_singles (hs : List HP) : allHps (singles hs) = hs := by
  induction hs with
  | nil => rfl
  | cons x hs ih => simpa [singles, allHps] using ih

theorem allConds_singles (hs : List HP) : allConds (singles hs) = [] := by
  induction hs with
  | nil => rfl
  | cons x hs ih => simpa [singles, allConds] using ih

theorem allForbs_singles (hs : List HP) : allForbs (singles hs) = [] := by
  induction hs with
  | nil => rfl
  | cons x hs ih => simpa [singles, allForbs] using ih

/-- Adding clauses that forbid the same to a space with the same hyperparameters: the default configuration, with all
hyperparameters active, is checked. -/
theorem add_clauses {calls : List Call} {s s1 : Space} (h : Reach calls s)
    (h1 : Reach (singles (s.com.map Node.hp)) s1) {F : List Forb} (hwF : ∀ f ∈ F, f.wf = true)
    (hoF : ∀ f ∈ F, ∀ x ∈ clauseHps f, x ∈ s.com.map Node.hp) (hne : NoEmptyClause F)
    (hF : ∀ a : Assign, (∃ f ∈ allForbs calls, Forbids a f) ↔ ∃ f ∈ F, Forbids a f) :
    (DefaultsAllowed calls → ∃ s2, s1.add [] [] F = (s2, none) ∧ Reach (singles (s.com.map Node.hp) ++ [⟨[], [], F⟩]) s2) ∧
    (¬ DefaultsAllowed calls → ∃ s2, s1.add [] [] F = (s2, some .forbidden)) := by
  have hp := hps_perm h
  have kF : Call.wf ⟨[], [], F⟩ := ⟨by simp, by simp, hwF⟩
  have eH : allHps (singles (s.com.map Node.hp) ++ [⟨[], [], F⟩]) = s.com.map Node.hp := by
    rw [allHps_snoc, allHps_singles, List.append_nil]
  have eC : allConds (singles (s.com.map Node.hp) ++ [⟨[], [], F⟩]) = [] := by
    rw [allConds_snoc, allConds_singles, List.append_nil]
  have eF : allForbs (singles (s.com.map Node.hp) ++ [⟨[], [], F⟩]) = F := by
    rw [allForbs_snoc, allForbs_singles, List.nil_append]
  have hfit : Fits (singles (s.com.map Node.hp)) ⟨[], [], F⟩ := by
    refine ⟨by rw [eH]; exact hps_nodup h, by simp, by simp, by simp, ?_, ?_⟩
    · rw [← parentRel_iff, eC, ← allConds_singles (s.com.map Node.hp)]
      exact (sinv_of_reach h1).hist.acyclic
    · intro f hf n hn
      rw [names_eq] at hn
      obtain ⟨x, hx, rfl⟩ := List.mem_map.1 hn
      unfold Known
      rw [eH]
      exact ⟨x, hoF f hf x hx, rfl⟩
  obtain ⟨s2, p2, ha2⟩ := add_candidate h1 kF hfit (by
    unfold OwnClauses
    rw [eF, eH]
    exact hoF) (by rw [eF]; exact hne)
  rw [eH, eC, eF] at p2
  have hwH : ∀ x ∈ s.com.map Node.hp, x.wf = true := fun x hx => (reach_wf h).1 x (hp.mem_iff.1 hx)
  constructor
  · intro hda
    obtain ⟨c2, hc2⟩ := uncond_default p2 hwH hoF (by
      intro a hall f hf hb
      obtain ⟨g, hg, hg'⟩ := (hF a).2 ⟨f, hf, hb⟩
      exact hda a (fun x hx => hall x (hp.mem_iff.2 hx)) g hg hg')
    rw [hc2] at ha2
    exact ⟨s2, ha2, Reach.snoc h1 kF ha2⟩
  · intro hda
    unfold DefaultsAllowed at hda
    simp only [not_forall, not_not] at hda
    obtain ⟨a, hall, g, hg, hb⟩ := hda
    obtain ⟨f, hf, hb⟩ := (hF a).1 ⟨g, hg, hb⟩
    rw [uncond_forbidden p2 hwH hoF (fun x hx => hall x (hp.mem_iff.1 hx)) hf hb] at ha2
    exact ⟨s2, ha2⟩

/-- Then the conditions can be added, and the result cannot be told from the original. -/
theorem rebuild_parts {calls : List Call} {s s2 : Space} (h : Reach calls s) (hown : OwnClauses calls) {F : List Forb}
    (hr2 : Reach (singles (s.com.map Node.hp) ++ [⟨[], [], F⟩]) s2)
    (hoF : ∀ f ∈ F, ∀ x ∈ clauseHps f, x ∈ s.com.map Node.hp) (hne : NoEmptyClause F)
    (hF : ∀ a : Assign, (∃ f ∈ allForbs calls, Forbids a f) ↔ ∃ f ∈ F, Forbids a f) :
    ∃ s3,
      s2.add [] (s.com.filterMap Node.cond) [] = (s3, none) ∧
      Reach (singles (s.com.map Node.hp) ++ [⟨[], [], F⟩] ++ [⟨[], s.com.filterMap Node.cond, []⟩]) s3 ∧
      s3.com.map Node.core = s.com.map Node.core ∧
      (∀ v al, s3.check v al = s.check v al) ∧ (∀ d al, Config.ofValues s3 d al = Config.ofValues s d al) ∧
      s3.defaultConfig = s.defaultConfig := by
  have hp := hps_perm h
  have hr := rebuild_fits h
  have eH0 : allHps ([s.hpCall] ++ [s.ruleCall]) = s.com.map Node.hp := by simp [allHps, Space.hpCall, Space.ruleCall]
  have eC0 : allConds ([s.hpCall] ++ [s.ruleCall]) = s.com.filterMap Node.cond := by
    simp [allConds, Space.hpCall, Space.ruleCall]
  have eH : allHps (singles (s.com.map Node.hp) ++ [⟨[], [], F⟩]) = s.com.map Node.hp := by
    rw [allHps_snoc, allHps_singles, List.append_nil]
  have eC : allConds (singles (s.com.map Node.hp) ++ [⟨[], [], F⟩]) = [] := by
    rw [allConds_snoc, allConds_singles, List.append_nil]
  have eF : allForbs (singles (s.com.map Node.hp) ++ [⟨[], [], F⟩]) = F := by
    rw [allForbs_snoc, allForbs_singles, List.nil_append]
  -- the conditions
  have kC : Call.wf ⟨[], s.com.filterMap Node.cond, []⟩ := ⟨by simp, (ruleCall_wf h).2.1, by simp⟩
  have gH : allHps (singles (s.com.map Node.hp) ++ [⟨[], [], F⟩] ++ [⟨[], s.com.filterMap Node.cond, []⟩]) = s.com.map Node.hp := by
    rw [allHps_snoc, eH, List.append_nil]
  have gC : allConds (singles (s.com.map Node.hp) ++ [⟨[], [], F⟩] ++ [⟨[], s.com.filterMap Node.cond, []⟩]) =
      s.com.filterMap Node.cond := by
    rw [allConds_snoc, eC, List.nil_append]
  have gF : allForbs (singles (s.com.map Node.hp) ++ [⟨[], [], F⟩] ++ [⟨[], s.com.filterMap Node.cond, []⟩]) = F := by
    rw [allForbs_snoc, eF, List.append_nil]
  have hkn : ∀ n, Known ([s.hpCall] ++ [s.ruleCall]) n →
      Known (singles (s.com.map Node.hp) ++ [⟨[], [], F⟩] ++ [⟨[], s.com.filterMap Node.cond, []⟩]) n := by
    intro n hn
    unfold Known at hn ⊢
    rw [eH0] at hn
    rwa [gH]
  have hfit3 : Fits (singles (s.com.map Node.hp) ++ [⟨[], [], F⟩]) ⟨[], s.com.filterMap Node.cond, []⟩ := by
    refine ⟨by rw [gH]; exact hps_nodup h, fun c hc n hn => hkn n (hr.children c hc n hn),
      fun c hc l hl => hkn _ (hr.parents c hc l hl), ?_, ?_, by simp⟩
    · intro c hc x hx e
      rw [gC] at hx
      exact hr.single c hc x (by rw [eC0]; exact hx) e
    · have := hr.acyclic
      rw [← parentRel_iff, eC0] at this
      rw [← parentRel_iff, gC]
      exact this
  obtain ⟨s3, p3, ha3⟩ := add_candidate hr2 kC hfit3 (by
    unfold OwnClauses
    rw [gF, gH]
    exact hoF) (by rw [gF]; exact hne)
  rw [gH, gC, gF] at p3
  have p := pre_of_reach h
  have hcore : s.com.map Node.core = s3.com.map Node.core :=
    core_eq p p3 hp.symm (parentRel_nodeConds h).symm (fun n => (lastCond_nodeConds h n).symm)
  obtain ⟨k1, k2, k3⟩ := same_default_on p p3 hp.symm hown hoF hF hcore
  obtain ⟨c, hc⟩ := (sinv_of_reach h).default
  rw [k3] at hc
  rw [hc] at ha3
  exact ⟨s3, ha3, Reach.snoc hr2 kC ha3, hcore.symm, fun v al => (k1 v al).symm, fun d al => (k2 d al).symm, k3.symm⟩

end Verif
