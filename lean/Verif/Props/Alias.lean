import Verif.Lemmas.Alias
import Verif.Props.Union

/-!
# C63: objects that two spaces share after `add_configuration_space`
-/

set_option autoImplicit false

namespace Verif
open Spec

/-- The objects that the added space refers to. -/
def OSpace.objs (o : OSpace) : List Nat :=
  o.hps ++ o.conds.flatMap (fun t => t.leaves.flatMap OLit.objs) ++ o.forbs.flatMap (fun t => t.leaves.flatMap OFLit.objs)

/-- The object of an equals or in clause. -/
def OFLit.shared : OFLit → List Nat
  | .eq o _ _ => [o]
  | .isIn o _ _ => [o]
  | .rel _ _ _ => []

/-- The objects of the equals and in clauses of a space, also inside conjunctions. -/
def clauseObjs (fs : List (Tree OFLit)) : List Nat := fs.flatMap (fun t => t.leaves.flatMap OFLit.shared)

/-- The objects that were there at the beginning, after the clauses with the objects `S` were processed. -/
def Low (f : Name → Name) (h0 : Heap) (S : List Nat) (h : Heap) : Prop :=
  h0.next ≤ h.next ∧ ∀ i, i < h0.next → h.get i = if i ∈ S then (h0.get i).rename f else h0.get i

variable {f : Name → Name} {h0 : Heap}

theorem Low.ren {S : List Nat} {h : Heap} (hf : ∀ n, f (f n) = f n) (hl : Low f h0 S h) {i : Nat} (hi : i < h0.next) :
    (h.get i).rename f = (h0.get i).rename f := by
  rw [hl.2 i hi]
  split
  · exact rename_rename hf _
  · rfl

/-- A renamed copy of the object `o`. -/
def Fresh (f : Name → Name) (h0 h : Heap) (o o' : Nat) : Prop :=
  h0.next ≤ o' ∧ o' < h.next ∧ h.get o' = (h0.get o).rename f

theorem Fresh.ext {h h' : Heap} (he : h.Ext h0.next h') {o o' : Nat} (hr : Fresh f h0 h o o') : Fresh f h0 h' o o' :=
  ⟨hr.1, Nat.lt_of_lt_of_le hr.2.1 he.1, by rw [he.2 o' hr.1 hr.2.1]; exact hr.2.2⟩

theorem oneHp_rel (hf : ∀ n, f (f n) = f n) {S : List Nat} {h : Heap} (hl : Low f h0 S h) {o : Nat} (ho : o < h0.next) :
    Low f h0 S (OSpace.oneHp f h o).1 ∧ h.Ext h0.next (OSpace.oneHp f h o).1 ∧
      Fresh f h0 (OSpace.oneHp f h o).1 o (OSpace.oneHp f h o).2 := by
  have hn := hl.1
  refine ⟨⟨by simp only [OSpace.oneHp, Heap.copy, Heap.rename]; omega, ?_⟩, ⟨by simp [OSpace.oneHp, Heap.copy, Heap.rename], ?_⟩,
    by simp only [OSpace.oneHp, Heap.copy]; exact hn, by simp [OSpace.oneHp, Heap.copy, Heap.rename], ?_⟩
  · intro i hi
    simp only [OSpace.oneHp, Heap.copy, Heap.rename]
    rw [if_neg (by omega), if_neg (by omega)]
    exact hl.2 i hi
  · intro i _ hi
    simp only [OSpace.oneHp, Heap.copy, Heap.rename]
    rw [if_neg (by omega), if_neg (by omega)]
  · simp only [OSpace.oneHp, Heap.copy, Heap.rename, if_pos]
    exact hl.ren hf ho

/-- A copy that has not been renamed yet; `hs` is the heap before copying. -/
def Copied (hs h : Heap) (o o' : Nat) : Prop := hs.next ≤ o' ∧ o' < h.next ∧ h.get o' = hs.get o

theorem Copied.grow {hs h h' : Heap} (hg : h.Grow h') {o o' : Nat} (hc : Copied hs h o o') : Copied hs h' o o' :=
  ⟨hc.1, Nat.lt_of_lt_of_le hc.2.1 hg.1, by rw [hg.2 o' hc.2.1]; exact hc.2.2⟩

theorem copied_copy {hs h : Heap} (hg : hs.Grow h) {o : Nat} (ho : o < hs.next) :
    Copied hs (h.copy o).1 o (h.copy o).2 :=
  ⟨hg.1, Nat.lt_succ_self _, by rw [h.copy_get, hg.2 o ho]⟩

theorem oneCond_rel (hf : ∀ n, f (f n) = f n) {S : List Nat} {h : Heap} (hl : Low f h0 S h) {t : Tree OLit}
    (ht : ∀ o ∈ t.leaves.flatMap OLit.objs, o < h0.next) :
    Low f h0 S (OSpace.oneCond f h t).1 ∧ h.Ext h0.next (OSpace.oneCond f h t).1 ∧
      t.Rel (fun l l' => l'.test = l.test ∧ Fresh f h0 (OSpace.oneCond f h t).1 l.child l'.child ∧
        Fresh f h0 (OSpace.oneCond f h t).1 l.parent l'.parent) (OSpace.oneCond f h t).2 := by
  have hlt : ∀ l ∈ t.leaves, l.child < h0.next ∧ l.parent < h0.next := fun l hm =>
    ⟨ht _ (List.mem_flatMap.2 ⟨l, hm, by simp [OLit.objs]⟩), ht _ (List.mem_flatMap.2 ⟨l, hm, by simp [OLit.objs]⟩)⟩
  have hn := hl.1
  obtain ⟨g1, g2⟩ := mapAcc_rel (g := OLit.copy) (hs := h)
    (P := fun h' l l' => l'.test = l.test ∧ Copied h h' l.child l'.child ∧ Copied h h' l.parent l'.parent)
    (fun a b x y hg hp => ⟨hp.1, hp.2.1.grow hg, hp.2.2.grow hg⟩) t h (by
      intro l hm h' hg
      obtain ⟨k1, k2⟩ := hlt l hm
      have c1 := copied_copy hg (Nat.lt_of_lt_of_le k1 hn)
      have c2 := copied_copy (hg.trans (h'.grow_copy l.child)) (Nat.lt_of_lt_of_le k2 hn)
      exact ⟨(h'.grow_copy _).trans (Heap.grow_copy _ _), rfl, c1.grow (Heap.grow_copy _ _), c2⟩) (.refl h)
  have hos : ∀ o ∈ (t.mapAcc OLit.copy h).2.leaves.flatMap OLit.objs, h.next ≤ o := by
    intro o ho
    obtain ⟨l', hl', ho⟩ := List.mem_flatMap.1 ho
    obtain ⟨l, _, _, hc1, hc2⟩ := Tree.Rel.leaf_of t g2 l' hl'
    simp only [OLit.objs, List.mem_cons, List.not_mem_nil, or_false] at ho
    rcases ho with rfl | rfl
    · exact hc1.1
    · exact hc2.1
  have hget : ∀ i, i < h.next → (OSpace.oneCond f h t).1.get i = h.get i := by
    intro i hi
    simp only [OSpace.oneCond]
    rw [Heap.renameAll_get hf, if_neg (fun hm => by have := hos i hm; omega), g1.2 i hi]
  have hnext : h.next ≤ (OSpace.oneCond f h t).1.next := by
    simp only [OSpace.oneCond]
    rw [Heap.renameAll_next]
    exact g1.1
  refine ⟨⟨by omega, fun i hi => by rw [hget i (by omega)]; exact hl.2 i hi⟩, ⟨hnext, fun i _ hi => hget i hi⟩, ?_⟩
  refine Tree.Rel.imp t ?_ g2
  rintro l hm l' hm0 ⟨e, c1, c2⟩
  have hm' : l' ∈ (t.mapAcc OLit.copy h).2.leaves := hm0
  obtain ⟨k1, k2⟩ := hlt l hm
  refine ⟨e, ⟨le_trans hn c1.1, ?_, ?_⟩, ⟨le_trans hn c2.1, ?_, ?_⟩⟩
  · simp only [OSpace.oneCond]; rw [Heap.renameAll_next]; exact c1.2.1
  · simp only [OSpace.oneCond]
    rw [Heap.renameAll_get hf, if_pos (List.mem_flatMap.2 ⟨l', hm', by simp [OLit.objs]⟩), c1.2.2, hl.ren hf k1]
  · simp only [OSpace.oneCond]; rw [Heap.renameAll_next]; exact c2.2.1
  · simp only [OSpace.oneCond]
    rw [Heap.renameAll_get hf, if_pos (List.mem_flatMap.2 ⟨l', hm', by simp [OLit.objs]⟩), c2.2.2, hl.ren hf k2]

/-- What becomes of a literal clause: the object of an equals or in clause is the same, those of a relation are
copies. -/
def CopyLit (R : Nat → Nat → Prop) : OFLit → OFLit → Prop
  | .eq o v x, .eq o' v' x' => o' = o ∧ v' = v ∧ x' = x
  | .isIn o v x, .isIn o' v' x' => o' = o ∧ v' = v ∧ x' = x
  | .rel op l r, .rel op' l' r' => op' = op ∧ R l l' ∧ R r r'
  | _, _ => False

theorem CopyLit.imp {R Q : Nat → Nat → Prop} {x y : OFLit} (h : ∀ o ∈ x.objs, ∀ o' ∈ y.objs, R o o' → Q o o')
    (hc : CopyLit R x y) : CopyLit Q x y := by
  cases x <;> cases y <;> simp only [CopyLit] at hc ⊢ <;> try exact hc
  rename_i op l r op' l' r'
  exact ⟨hc.1, h l (by simp [OFLit.objs]) l' (by simp [OFLit.objs]) hc.2.1,
    h r (by simp [OFLit.objs]) r' (by simp [OFLit.objs]) hc.2.2⟩

theorem oneForb_rel (hf : ∀ n, f (f n) = f n) {S : List Nat} {h : Heap} (hl : Low f h0 S h) {t : Tree OFLit}
    (ht : ∀ o ∈ t.leaves.flatMap OFLit.objs, o < h0.next) :
    Low f h0 (S ++ t.leaves.flatMap OFLit.shared) (OSpace.oneForb f h t).1 ∧ h.Ext h0.next (OSpace.oneForb f h t).1 ∧
      t.Rel (CopyLit (Fresh f h0 (OSpace.oneForb f h t).1)) (OSpace.oneForb f h t).2 := by
  have hlt : ∀ l ∈ t.leaves, ∀ o ∈ l.objs, o < h0.next := fun l hm o ho => ht o (List.mem_flatMap.2 ⟨l, hm, ho⟩)
  have hn := hl.1
  obtain ⟨g1, g2⟩ := mapAcc_rel (g := OFLit.copy) (hs := h) (P := fun h' => CopyLit (Copied h h'))
    (fun a b x y hg hp => hp.imp fun _ _ _ _ hc => hc.grow hg) t h (by
      intro l hm h' hg
      cases l with
      | eq o v x => exact ⟨.refl _, rfl, rfl, rfl⟩
      | isIn o v x => exact ⟨.refl _, rfl, rfl, rfl⟩
      | rel op l r =>
        have k1 := hlt _ hm l (by simp [OFLit.objs])
        have k2 := hlt _ hm r (by simp [OFLit.objs])
        have c1 := copied_copy hg (Nat.lt_of_lt_of_le k1 hn)
        have c2 := copied_copy (hg.trans (h'.grow_copy l)) (Nat.lt_of_lt_of_le k2 hn)
        exact ⟨(h'.grow_copy _).trans (Heap.grow_copy _ _), rfl, c1.grow (Heap.grow_copy _ _), c2⟩) (.refl h)
  have hos : ∀ o, o ∈ (t.mapAcc OFLit.copy h).2.leaves.flatMap OFLit.objs →
      h.next ≤ o ∨ (o < h0.next ∧ o ∈ t.leaves.flatMap OFLit.shared) := by
    intro o ho
    obtain ⟨l', hl', ho⟩ := List.mem_flatMap.1 ho
    obtain ⟨l, hm, hc⟩ := Tree.Rel.leaf_of t g2 l' hl'
    cases l <;> cases l' <;> simp only [CopyLit] at hc
    · obtain ⟨rfl, _, _⟩ := hc
      simp only [OFLit.objs, List.mem_cons, List.not_mem_nil, or_false] at ho
      subst ho
      exact .inr ⟨hlt _ hm _ (by simp [OFLit.objs]), List.mem_flatMap.2 ⟨_, hm, by simp [OFLit.shared]⟩⟩
    · obtain ⟨rfl, _, _⟩ := hc
      simp only [OFLit.objs, List.mem_cons, List.not_mem_nil, or_false] at ho
      subst ho
      exact .inr ⟨hlt _ hm _ (by simp [OFLit.objs]), List.mem_flatMap.2 ⟨_, hm, by simp [OFLit.shared]⟩⟩
    · simp only [OFLit.objs, List.mem_cons, List.not_mem_nil, or_false] at ho
      rcases ho with rfl | rfl
      · exact .inl hc.2.1.1
      · exact .inl hc.2.2.1
  have hsh : ∀ o ∈ t.leaves.flatMap OFLit.shared, o ∈ (t.mapAcc OFLit.copy h).2.leaves.flatMap OFLit.objs := by
    intro o ho
    obtain ⟨l, hm, ho⟩ := List.mem_flatMap.1 ho
    obtain ⟨l', hm', hc⟩ := Tree.Rel.leaf_to t g2 l hm
    refine List.mem_flatMap.2 ⟨l', hm', ?_⟩
    cases l <;> cases l' <;> simp only [CopyLit] at hc
    · obtain ⟨rfl, _, _⟩ := hc; simpa [OFLit.objs, OFLit.shared] using ho
    · obtain ⟨rfl, _, _⟩ := hc; simpa [OFLit.objs, OFLit.shared] using ho
    · simp [OFLit.shared] at ho
  have hnext : h.next ≤ (OSpace.oneForb f h t).1.next := by
    simp only [OSpace.oneForb]
    rw [Heap.renameAll_next]
    exact g1.1
  refine ⟨⟨by omega, fun i hi => ?_⟩, ⟨hnext, fun i hi1 hi2 => ?_⟩, ?_⟩
  · simp only [OSpace.oneForb]
    rw [Heap.renameAll_get hf, g1.2 i (by omega), hl.2 i hi]
    by_cases h1 : i ∈ t.leaves.flatMap OFLit.shared
    · rw [if_pos (hsh i h1), if_pos (List.mem_append.2 (.inr h1))]
      split
      · exact rename_rename hf _
      · rfl
    · rw [if_neg (fun hm => by
        rcases hos i hm with h2 | h2
        · omega
        · exact h1 h2.2)]
      by_cases h2 : i ∈ S
      · rw [if_pos h2, if_pos (List.mem_append.2 (.inl h2))]
      · rw [if_neg h2, if_neg (fun hm => (List.mem_append.1 hm).elim h2 h1)]
  · simp only [OSpace.oneForb]
    rw [Heap.renameAll_get hf, if_neg (fun hm => by rcases hos i hm with h2 | h2 <;> omega), g1.2 i hi2]
  · refine Tree.Rel.imp t ?_ g2
    intro l hm l' hm0 hc
    have hm' : l' ∈ (t.mapAcc OFLit.copy h).2.leaves := hm0
    refine hc.imp fun o ho o' ho' hcp => ⟨le_trans hn hcp.1, ?_, ?_⟩
    · simp only [OSpace.oneForb]; rw [Heap.renameAll_next]; exact hcp.2.1
    · simp only [OSpace.oneForb]
      rw [Heap.renameAll_get hf, if_pos (List.mem_flatMap.2 ⟨l', hm', ho'⟩), hcp.2.2, hl.ren hf (hlt l hm o ho)]

/-- Everything about the lists that are passed to `add`. -/
theorem renamed_rel (hf : ∀ n, f (f n) = f n) {sub : OSpace} (ho : ∀ o ∈ sub.objs, o < h0.next) :
    Low f h0 (clauseObjs sub.forbs) (sub.renamed f h0).1 ∧
    List.Forall₂ (Fresh f h0 (sub.renamed f h0).1) sub.hps (sub.renamed f h0).2.hps ∧
    List.Forall₂ (Tree.Rel (fun l l' => l'.test = l.test ∧ Fresh f h0 (sub.renamed f h0).1 l.child l'.child ∧
        Fresh f h0 (sub.renamed f h0).1 l.parent l'.parent)) sub.conds (sub.renamed f h0).2.conds ∧
    List.Forall₂ (Tree.Rel (CopyLit (Fresh f h0 (sub.renamed f h0).1))) sub.forbs (sub.renamed f h0).2.forbs := by
  obtain ⟨a1, a2, a3⟩ := loop_rel (g := OSpace.oneHp f) (n := h0.next) (Inv := fun _ h => Low f h0 [] h)
    (P := fun _ h o o' => Fresh f h0 h o o') (fun _ _ h h' x y he hp => hp.ext he) sub.hps [] h0 (by
      intro x hx _ h hi
      exact oneHp_rel hf hi (ho x (by simp [OSpace.objs, hx])))
    ⟨le_refl _, fun i _ => by simp⟩
  obtain ⟨b1, b2, b3⟩ := loop_rel (g := OSpace.oneCond f) (n := h0.next) (Inv := fun _ h => Low f h0 [] h)
    (P := fun _ h => Tree.Rel (fun l l' => l'.test = l.test ∧ Fresh f h0 h l.child l'.child ∧ Fresh f h0 h l.parent l'.parent))
    (fun _ _ h h' x y he hp => Tree.Rel.imp x (fun _ _ _ _ hq => ⟨hq.1, hq.2.1.ext he, hq.2.2.ext he⟩) hp)
    sub.conds [] _ (by
      intro t ht _ h hi
      exact oneCond_rel hf hi fun o hm => ho o (by
        unfold OSpace.objs
        exact List.mem_append.2 (.inl (List.mem_append.2 (.inr (List.mem_flatMap.2 ⟨t, ht, hm⟩))))))
    a1
  obtain ⟨c1, c2, c3⟩ := loop_rel (g := OSpace.oneForb f) (n := h0.next) (Inv := fun done h => Low f h0 (clauseObjs done) h)
    (P := fun _ h => Tree.Rel (CopyLit (Fresh f h0 h)))
    (fun _ _ h h' x y he hp => Tree.Rel.imp x (fun _ _ _ _ hq => hq.imp fun _ _ _ _ hr => hr.ext he) hp)
    sub.forbs [] _ (by
      intro t ht done h hi
      have := oneForb_rel hf hi (t := t) fun o hm => ho o (by
        unfold OSpace.objs
        exact List.mem_append.2 (.inr (List.mem_flatMap.2 ⟨t, ht, hm⟩)))
      refine ⟨?_, this.2⟩
      have e : clauseObjs (done ++ [t]) = clauseObjs done ++ t.leaves.flatMap OFLit.shared := by
        simp [clauseObjs]
      rw [e]
      exact this.1)
    b1
  refine ⟨c1, ?_, ?_, c3⟩
  · exact a3.imp fun _ _ hr => (hr.ext b2).ext c2
  · exact b3.imp fun t _ hr => Tree.Rel.imp t (fun _ _ _ _ hq => ⟨hq.1, hq.2.1.ext c2, hq.2.2.ext c2⟩) hr

theorem condL_map (h : Heap) (ts : List (Tree OLit)) : h.condL ts = ts.map h.cond := by
  induction ts with
  | nil => rfl
  | cons t ts ih => simp [Heap.condL, ih]

theorem forbL_map (h : Heap) (ts : List (Tree OFLit)) : h.forbL ts = ts.map h.forb := by
  induction ts with
  | nil => rfl
  | cons t ts ih => simp [Heap.forbL, ih]

theorem map_of_forall₂ {α β γ : Type} {R : α → β → Prop} {p : α → γ} {q : β → γ} : ∀ {xs : List α} {ys : List β},
    (∀ x ∈ xs, ∀ y, R x y → q y = p x) → List.Forall₂ R xs ys → ys.map q = xs.map p
  | _, _, _, .nil => rfl
  | _, _, h, .cons h1 h2 => by
    simp [h _ (by simp) _ h1, map_of_forall₂ (fun x hx => h x (by simp [hx])) h2]

theorem cond_read {h h' : Heap} (t : Tree OLit) : ∀ {t' : Tree OLit},
    t.Rel (fun l l' => h'.lit l' = (h.lit l).rename f) t' → h'.cond t' = (h.cond t).rename f := by
  induction t using Tree.induct with
  | hl x =>
    intro t' hr
    cases t' with
    | leaf y => simp only [Tree.Rel] at hr; simp [Heap.cond, Cond.rename, hr]
    | node k us => exact hr.elim
  | hn k ts ih =>
    intro t' hr
    cases t' with
    | leaf y => exact hr.elim
    | node k' us =>
      simp only [Tree.Rel, Tree.relL_iff] at hr
      obtain ⟨rfl, hr⟩ := hr
      have e : us.map h'.cond = (ts.map h.cond).map (Cond.rename f) := by
        induction hr with
        | nil => rfl
        | @cons t u ts us h1 h2 ih2 => simp [ih t (by simp) h1, ih2 (fun t ht => ih t (by simp [ht]))]
      cases k <;> simp [Heap.cond, Cond.rename, condL_map, renameL_eq, e]

theorem forb_read {h h' : Heap} (t : Tree OFLit) : ∀ {t' : Tree OFLit},
    t.Rel (fun l l' => h'.flit l' = (h.flit l).rename f) t' → h'.forb t' = (h.forb t).rename f := by
  induction t using Tree.induct with
  | hl x =>
    intro t' hr
    cases t' with
    | leaf y => simp only [Tree.Rel] at hr; simp only [Heap.forb, hr]
    | node k us => exact hr.elim
  | hn k ts ih =>
    intro t' hr
    cases t' with
    | leaf y => exact hr.elim
    | node k' us =>
      simp only [Tree.Rel, Tree.relL_iff] at hr
      obtain ⟨rfl, hr⟩ := hr
      have e : us.map h'.forb = (ts.map h.forb).map (Forb.rename f) := by
        induction hr with
        | nil => rfl
        | @cons t u ts us h1 h2 ih2 => simp [ih t (by simp) h1, ih2 (fun t ht => ih t (by simp [ht]))]
      simp [Heap.forb, Forb.rename, forbL_map, forb_renameL_eq, e]

theorem flit_read {h h' : Heap} {l l' : OFLit} (hc : CopyLit (fun o o' => h'.get o' = (h.get o).rename f) l l')
    (hs : ∀ o ∈ l.shared, h'.get o = (h.get o).rename f) : h'.flit l' = (h.flit l).rename f := by
  cases l <;> cases l' <;> simp only [CopyLit] at hc
  · obtain ⟨rfl, rfl, rfl⟩ := hc
    simp only [OFLit.shared, List.mem_cons, List.not_mem_nil, or_false, forall_eq] at hs
    simp [Heap.flit, Forb.rename, hs]
  · obtain ⟨rfl, rfl, rfl⟩ := hc
    simp only [OFLit.shared, List.mem_cons, List.not_mem_nil, or_false, forall_eq] at hs
    simp [Heap.flit, Forb.rename, hs]
  · obtain ⟨rfl, h1, h2⟩ := hc
    simp [Heap.flit, Forb.rename, h1, h2]

variable {pfx delim : String}

theorem clauseObjs_lt {sub : OSpace} {n : Nat} (ho : ∀ o ∈ sub.objs, o < n) {o : Nat} (hs : o ∈ clauseObjs sub.forbs) :
    o < n := by
  obtain ⟨t, ht, hs⟩ := List.mem_flatMap.1 hs
  obtain ⟨l, hl, hs⟩ := List.mem_flatMap.1 hs
  refine ho o (List.mem_append.2 (.inr (List.mem_flatMap.2 ⟨t, ht, List.mem_flatMap.2 ⟨l, hl, ?_⟩⟩)))
  cases l <;> simp_all [OFLit.shared, OFLit.objs]

/-- **C63.** In spite of the sharing, what is passed to `add` is what `Model/Union.lean` says: the renamed
hyperparameters, conditions and clauses of the added space.  In particular it does not matter that an object is renamed
several times. -/
theorem C63_same_call {sub : OSpace} (ho : ∀ o ∈ sub.objs, o < h0.next) :
    (sub.renamed (newName pfx delim) h0).1.call (sub.renamed (newName pfx delim) h0).2 =
      ⟨(h0.call sub).hps.map (HP.rename (newName pfx delim)), (h0.call sub).conds.map (Cond.rename (newName pfx delim)),
        (h0.call sub).forbs.map (Forb.rename (newName pfx delim))⟩ := by
  obtain ⟨hl, r1, r2, r3⟩ := renamed_rel (f := newName pfx delim) newName_idem ho
  simp only [Heap.call, Call.mk.injEq, List.map_map]
  refine ⟨map_of_forall₂ (fun x _ y hr => hr.2.2) r1, ?_, ?_⟩
  · refine map_of_forall₂ (fun t _ t' hr => cond_read t (Tree.Rel.imp t ?_ hr)) r2
    rintro l _ l' _ ⟨e, e1, e2⟩
    simp [Heap.lit, Lit.rename, e, e1.2.2, e2.2.2]
  · refine map_of_forall₂ (fun t ht t' hr => forb_read t (Tree.Rel.imp t ?_ hr)) r3
    intro l hm l' hm' hc
    refine flit_read (hc.imp fun o _ o' _ hfr => hfr.2.2) fun o hs => ?_
    have hsh : o ∈ clauseObjs sub.forbs := List.mem_flatMap.2 ⟨t, ht, List.mem_flatMap.2 ⟨l, hm, hs⟩⟩
    rw [hl.2 o (clauseObjs_lt ho hsh), if_pos hsh]

/-- **C63.** The side effect, exactly: of the objects that were there before, those in equals and in clauses of the
added space get the new name, and nothing else changes. -/
theorem C63_side_effect {sub : OSpace} (ho : ∀ o ∈ sub.objs, o < h0.next) {i : Nat} (hi : i < h0.next) :
    (sub.renamed (newName pfx delim) h0).1.get i =
      if i ∈ clauseObjs sub.forbs then (h0.get i).rename (newName pfx delim) else h0.get i :=
  (renamed_rel (f := newName pfx delim) newName_idem ho).1.2 i hi

/-- **C63.** Adding a space leaves its hyperparameters as they are if and only if the ones in its equals and in clauses
have the prefix already. -/
theorem C63_unchanged_iff {sub : OSpace} (ho : ∀ o ∈ sub.objs, o < h0.next) :
    (∀ i, i < h0.next → (sub.renamed (newName pfx delim) h0).1.get i = h0.get i) ↔
      ∀ i ∈ clauseObjs sub.forbs, newName pfx delim (h0.get i).name = (h0.get i).name := by
  constructor
  · intro h i hi
    have := h i (clauseObjs_lt ho hi)
    rw [C63_side_effect ho (clauseObjs_lt ho hi), if_pos hi] at this
    have := congrArg HP.name this
    simpa [HP.rename] using this
  · intro h i hi
    rw [C63_side_effect ho hi]
    split
    · rename_i hm
      have := h i hm
      cases hx : h0.get i with
      | mk n k d =>
        rw [hx] at this
        simp only at this
        simp [HP.rename, this]
    · rfl

/-- The hyperparameters in `L` are objects of the heap. -/
def Heap.Has (h : Heap) (L : List HP) : Prop := ∀ x ∈ L, ∃ i, i < h.next ∧ h.get i = x

theorem reads_list {α β : Type} {r : Heap → Tree α → β} {objs : α → List Nat} : ∀ {ys : List β},
    (∀ y ∈ ys, ∃ L, ∀ h : Heap, h.Has L → ∃ t : Tree α, (∀ o ∈ t.leaves.flatMap objs, o < h.next) ∧ r h t = y) →
    ∃ L, ∀ h : Heap, h.Has L → ∃ ts : List (Tree α), (∀ t ∈ ts, ∀ o ∈ t.leaves.flatMap objs, o < h.next) ∧ ts.map (r h) = ys
  | [], _ => ⟨[], fun h _ => ⟨[], by simp, rfl⟩⟩
  | y :: ys, hy => by
    obtain ⟨L1, h1⟩ := hy y (by simp)
    obtain ⟨L2, h2⟩ := reads_list (ys := ys) fun y hm => hy y (by simp [hm])
    refine ⟨L1 ++ L2, fun h hh => ?_⟩
    obtain ⟨t, ho, e⟩ := h1 h fun x hx => hh x (by simp [hx])
    obtain ⟨ts, hos, es⟩ := h2 h fun x hx => hh x (by simp [hx])
    refine ⟨t :: ts, fun t' ht' => ?_, by simp [e, es]⟩
    rcases List.mem_cons.1 ht' with rfl | hm
    · exact ho
    · exact hos t' hm

theorem mem_leaves_node {α : Type} {k : Bool} {ts : List (Tree α)} {objs : α → List Nat} {n : Nat}
    (h : ∀ t ∈ ts, ∀ o ∈ t.leaves.flatMap objs, o < n) : ∀ o ∈ (Tree.node k ts).leaves.flatMap objs, o < n := by
  intro o ho
  obtain ⟨l, hl, ho⟩ := List.mem_flatMap.1 ho
  simp only [Tree.leaves] at hl
  obtain ⟨t, ht, hl⟩ := Tree.mem_leavesL.1 hl
  exact h t ht o (List.mem_flatMap.2 ⟨l, hl, ho⟩)

theorem reads_cond (c : Cond) : ∃ L, ∀ h : Heap, h.Has L →
    ∃ t : Tree OLit, (∀ o ∈ t.leaves.flatMap OLit.objs, o < h.next) ∧ h.cond t = c := by
  induction c using Cond.induct with
  | hl l =>
    refine ⟨[l.child, l.parent], fun h hh => ?_⟩
    obtain ⟨i, hi, ei⟩ := hh l.child (by simp)
    obtain ⟨j, hj, ej⟩ := hh l.parent (by simp)
    refine ⟨.leaf ⟨i, j, l.test⟩, by simp [Tree.leaves, OLit.objs, hi, hj], ?_⟩
    simp [Heap.cond, Heap.lit, ei, ej]
  | ha cs ih =>
    obtain ⟨L, hL⟩ := reads_list (r := Heap.cond) ih
    refine ⟨L, fun h hh => ?_⟩
    obtain ⟨ts, ho, e⟩ := hL h hh
    exact ⟨.node true ts, mem_leaves_node ho, by rw [Heap.cond, condL_map, e]⟩
  | ho cs ih =>
    obtain ⟨L, hL⟩ := reads_list (r := Heap.cond) ih
    refine ⟨L, fun h hh => ?_⟩
    obtain ⟨ts, ho, e⟩ := hL h hh
    exact ⟨.node false ts, mem_leaves_node ho, by rw [Heap.cond, condL_map, e]⟩

theorem reads_forb (f : Forb) : ∃ L, ∀ h : Heap, h.Has L →
    ∃ t : Tree OFLit, (∀ o ∈ t.leaves.flatMap OFLit.objs, o < h.next) ∧ h.forb t = f := by
  induction f using Forb.induct with
  | he x v y =>
    refine ⟨[x], fun h hh => ?_⟩
    obtain ⟨i, hi, ei⟩ := hh x (by simp)
    exact ⟨.leaf (.eq i v y), by simp [Tree.leaves, OFLit.objs, hi], by simp [Heap.forb, Heap.flit, ei]⟩
  | hi x vs ys =>
    refine ⟨[x], fun h hh => ?_⟩
    obtain ⟨i, hi, ei⟩ := hh x (by simp)
    exact ⟨.leaf (.isIn i vs ys), by simp [Tree.leaves, OFLit.objs, hi], by simp [Heap.forb, Heap.flit, ei]⟩
  | hr op a b =>
    refine ⟨[a, b], fun h hh => ?_⟩
    obtain ⟨i, hi, ei⟩ := hh a (by simp)
    obtain ⟨j, hj, ej⟩ := hh b (by simp)
    exact ⟨.leaf (.rel op i j), by simp [Tree.leaves, OFLit.objs, hi, hj], by simp [Heap.forb, Heap.flit, ei, ej]⟩
  | ha cs ih =>
    obtain ⟨L, hL⟩ := reads_list (r := Heap.forb) ih
    refine ⟨L, fun h hh => ?_⟩
    obtain ⟨ts, ho, e⟩ := hL h hh
    exact ⟨.node true ts, mem_leaves_node ho, by rw [Heap.forb, forbL_map, e]⟩

/-- **C63.** The objects are no restriction: whatever hyperparameters, conditions (also nested disjunctions and conjunctions) and clauses a space
consists of, there are objects that are read as just these, so the other theorems are about every space that can be added. -/
theorem C63_every_space (c : Call) : ∃ (h : Heap) (sub : OSpace), (∀ o ∈ sub.objs, o < h.next) ∧ h.call sub = c := by
  obtain ⟨L1, h1⟩ := reads_list (r := Heap.cond) (ys := c.conds) fun c _ => reads_cond c
  obtain ⟨L2, h2⟩ := reads_list (r := Heap.forb) (ys := c.forbs) fun f _ => reads_forb f
  let L := c.hps ++ (L1 ++ L2)
  let h : Heap := ⟨fun i => L.getD i ⟨"", .int 0 0, .int 0⟩, L.length⟩
  have has : h.Has L := fun x hx => by
    obtain ⟨i, hi, e⟩ := List.mem_iff_getElem.1 hx
    exact ⟨i, hi, by simp [h, hi, e]⟩
  obtain ⟨cs, o1, e1⟩ := h1 h fun x hx => has x (by simp [L, hx])
  obtain ⟨fs, o2, e2⟩ := h2 h fun x hx => has x (by simp [L, hx])
  refine ⟨h, ⟨List.range c.hps.length, cs, fs⟩, ?_, ?_⟩
  · intro o ho
    simp only [OSpace.objs, List.mem_append, List.mem_range] at ho
    rcases ho with (ho | ho) | ho
    · show o < L.length
      simp only [L, List.length_append]
      omega
    · obtain ⟨t, ht, ho⟩ := List.mem_flatMap.1 ho
      exact o1 t ht o ho
    · obtain ⟨t, ht, ho⟩ := List.mem_flatMap.1 ho
      exact o2 t ht o ho
  · simp only [Heap.call, e1, e2]
    have : (List.range c.hps.length).map h.get = c.hps := by
      apply List.ext_getElem
      · simp
      · intro i hi hj
        simp only [List.getElem_map, List.getElem_range, h, L]
        rw [List.getD_eq_getElem?_getD, List.getElem?_append_left hj, List.getElem?_eq_getElem hj]
        rfl
    rw [this]

/-- No clause is a relation. -/
def NoRelation (fs : List (Tree OFLit)) : Prop := ∀ t ∈ fs, ∀ l ∈ t.leaves, ∀ op a b, l ≠ .rel op a b

theorem copy_same {R : Nat → Nat → Prop} (t : Tree OFLit) : ∀ {t' : Tree OFLit},
    (∀ l ∈ t.leaves, ∀ op a b, l ≠ .rel op a b) → t.Rel (CopyLit R) t' → t' = t := by
  induction t using Tree.induct with
  | hl x =>
    intro t' hn hr
    cases t' with
    | leaf y =>
      simp only [Tree.Rel] at hr
      have hn := hn x (by simp [Tree.leaves])
      cases x <;> cases y <;> simp only [CopyLit] at hr
      · obtain ⟨rfl, rfl, rfl⟩ := hr; rfl
      · obtain ⟨rfl, rfl, rfl⟩ := hr; rfl
      · exact absurd rfl (hn _ _ _)
    | node k us => exact hr.elim
  | hn k ts ih =>
    intro t' hn hr
    cases t' with
    | leaf y => exact hr.elim
    | node k' us =>
      simp only [Tree.Rel, Tree.relL_iff] at hr
      obtain ⟨rfl, hr⟩ := hr
      simp only [Tree.leaves] at hn
      congr 1
      induction hr with
      | nil => rfl
      | @cons t u ts us h1 h2 ih2 =>
        rw [ih t (by simp) (fun l hl => hn l (Tree.mem_leavesL.2 ⟨t, by simp, hl⟩)) h1,
          ih2 (fun t ht => ih t (by simp [ht])) (fun l hl => by
            obtain ⟨t', ht', hl⟩ := Tree.mem_leavesL.1 hl
            exact hn l (Tree.mem_leavesL.2 ⟨t', by simp [ht'], hl⟩))]

theorem forbs_same {sub : OSpace} (ho : ∀ o ∈ sub.objs, o < h0.next) (hn : NoRelation sub.forbs) :
    (sub.renamed (newName pfx delim) h0).2.forbs = sub.forbs := by
  obtain ⟨_, _, _, r3⟩ := renamed_rel (f := newName pfx delim) newName_idem ho
  have := map_of_forall₂ (p := id) (q := id) (fun t ht t' hr => copy_same t (hn t ht) hr) r3
  simpa using this

/-- **C63, what the sharing does.** The same space is added twice, under the prefixes `pfx` and `pfx'`; its clauses are
not relations.  Afterwards the hyperparameters of the first copy have the names they got, but the clauses that came
with the first copy are those of the second copy: they are about the hyperparameters with both prefixes. -/
theorem C63_twice {sub : OSpace} {pfx' : String} (ho : ∀ o ∈ sub.objs, o < h0.next) (hn : NoRelation sub.forbs) :
    let fst := sub.renamed (newName pfx delim) h0
    let snd := sub.renamed (newName pfx' delim) fst.1
    (snd.1.call fst.2).hps = (h0.call sub).hps.map (HP.rename (newName pfx delim)) ∧
    (snd.1.call fst.2).forbs = (snd.1.call snd.2).forbs ∧
    (snd.1.call fst.2).forbs =
      ((h0.call sub).forbs.map (Forb.rename (newName pfx delim))).map (Forb.rename (newName pfx' delim)) := by
  intro fst snd
  have hl := (renamed_rel (f := newName pfx delim) newName_idem ho)
  have ho' : ∀ o ∈ sub.objs, o < fst.1.next := fun o hm => Nat.lt_of_lt_of_le (ho o hm) hl.1.1
  have e1 : fst.2.forbs = sub.forbs := forbs_same ho hn
  have e2 : snd.2.forbs = sub.forbs := forbs_same ho' hn
  have c1 := C63_same_call (pfx := pfx) (delim := delim) ho
  have c2 := C63_same_call (pfx := pfx') (delim := delim) ho'
  have f1 : (fst.1.call fst.2).forbs = (h0.call sub).forbs.map (Forb.rename (newName pfx delim)) := by
    show ((sub.renamed (newName pfx delim) h0).1.call (sub.renamed (newName pfx delim) h0).2).forbs = _
    rw [c1]
  have f2 : (snd.1.call snd.2).forbs = (fst.1.call sub).forbs.map (Forb.rename (newName pfx' delim)) := by
    show ((sub.renamed (newName pfx' delim) fst.1).1.call (sub.renamed (newName pfx' delim) fst.1).2).forbs = _
    rw [c2]
  have f3 : (fst.1.call sub).forbs = (fst.1.call fst.2).forbs := by simp [Heap.call, e1]
  have f4 : (snd.1.call fst.2).forbs = (snd.1.call snd.2).forbs := by simp [Heap.call, e1, e2]
  refine ⟨?_, f4, ?_⟩
  · simp only [Heap.call, List.map_map]
    refine map_of_forall₂ (fun o _ o' hr => ?_) hl.2.1
    show snd.1.get o' = _
    have := C63_side_effect (pfx := pfx') (delim := delim) ho' (i := o') hr.2.1
    show (sub.renamed (newName pfx' delim) fst.1).1.get o' = _
    rw [this, if_neg (fun hm => by have := clauseObjs_lt ho hm; have := hr.1; omega)]
    exact hr.2.2
  · rw [f4, f2, f3, f1]

namespace ExA

/-- An integer `x` and the clause `x == 5`, about the same object. -/
def heap : Heap := ⟨fun _ => ⟨"x", .int 0 9, .int 0⟩, 1⟩
def sub : OSpace := ⟨[0], [], [.leaf (.eq 0 (.int 5) (5/9))]⟩
theorem small : ∀ o ∈ sub.objs, o < heap.next := by decide
theorem noRel : NoRelation sub.forbs := by
  intro t ht l hl op a b e
  simp only [sub, List.mem_cons, List.not_mem_nil, or_false] at ht
  subst ht
  simp only [Tree.leaves, List.mem_cons, List.not_mem_nil, or_false] at hl
  subst hl
  cases e

def fst : Heap × OSpace := sub.renamed (newName "a" ":") heap
def snd : Heap × OSpace := sub.renamed (newName "b" ":") fst.1

end ExA

/-- The hypotheses are met. -/
example := C63_same_call (pfx := "a") (delim := ":") ExA.small
example := C63_twice (pfx := "a") (pfx' := "b") (delim := ":") ExA.small ExA.noRel

/-- **C63, false of the code.** After the first call the added space itself is changed, and after adding it again
under another prefix, the first copy has lost its clause: nothing forbids the value 5 for `a:x`. -/
theorem C63_added_space_changes :
    ((ExA.heap.call ExA.sub).hps.map HP.name, (ExA.fst.1.call ExA.sub).hps.map HP.name) = (["x"], ["a:x"]) ∧
    (ExA.snd.1.call ExA.fst.2).hps.map HP.name = ["a:x"] ∧ (ExA.snd.1.call ExA.snd.2).hps.map HP.name = ["b:a:x"] ∧
    (∃ a : Assign, a "a:x" = some (5/9) ∧ (∃ f ∈ (ExA.fst.1.call ExA.fst.2).forbs, Forbids a f) ∧
      ∀ f ∈ (ExA.snd.1.call ExA.fst.2).forbs ++ (ExA.snd.1.call ExA.snd.2).forbs, ¬ Forbids a f) := by
  have e1 : (ExA.fst.1.call ExA.fst.2).forbs = [.eq ⟨"a:x", .int 0 9, .int 0⟩ (.int 5) (5/9)] := by rfl
  have e2 : (ExA.snd.1.call ExA.fst.2).forbs = [.eq ⟨"b:a:x", .int 0 9, .int 0⟩ (.int 5) (5/9)] := by rfl
  have e3 : (ExA.snd.1.call ExA.snd.2).forbs = [.eq ⟨"b:a:x", .int 0 9, .int 0⟩ (.int 5) (5/9)] := by rfl
  refine ⟨by decide +kernel, by decide +kernel, by decide +kernel, fun n => if n = "a:x" then some (5/9) else none, rfl, ?_, ?_⟩
  · rw [e1]
    exact ⟨_, List.mem_singleton.2 rfl, .eq rfl⟩
  · rw [e2, e3]
    intro f hf hh
    simp only [List.cons_append, List.nil_append, List.mem_cons, List.not_mem_nil, or_false, or_self] at hf
    subst hf
    cases hh with
    | eq h => simp at h

/-- The added space is changed, since its clause is about `x`. -/
example : ¬ ∀ i, i < ExA.heap.next → (ExA.sub.renamed (newName "a" ":") ExA.heap).1.get i = ExA.heap.get i := by
  rw [C63_unchanged_iff ExA.small]
  intro h
  exact absurd (h 0 (by simp [clauseObjs, ExA.sub, Tree.leaves, OFLit.shared])) (by decide +kernel)

end Verif
