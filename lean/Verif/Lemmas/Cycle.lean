import Verif.Model.Dag
import Verif.Spec.Graph

/-!
# The depth-first cycle check is correct

`cycleSearch` never runs out of fuel, answers `cyclic` only if there is a cycle, and when it answers
`done` the explored list is a reverse topological order.
-/

set_option autoImplicit false

namespace Verif
open Verif.Spec

variable {succ : Name → List Name}

/-- Edge relation given by the successor function. -/
def SuccEdge (succ : Name → List Name) (a b : Name) : Prop := b ∈ succ a

/-- Shape of the stack.  `P` are the open nodes (seen, not explored), most recent first; above each
open node lie pending children of it; each child of it is explored, pending, or the open node that
was entered from it (`nxt`). -/
inductive Stk (succ : Name → List Name) (explored : List Name) :
    Option Name → List Name → List Name → Prop where
  | nil (nxt : Option Name) (pend : List Name) : Stk succ explored nxt [] pend
  | cons (nxt : Option Name) (w : Name) (P f pend : List Name) : Stk succ explored (some w) P f →
      (∀ u ∈ P.head?, w ∈ succ u) → (∀ x ∈ pend, x ∈ succ w) → (∀ x ∈ pend, x ∉ w :: P) →
      (∀ c ∈ succ w, c ∈ explored ∨ c ∈ pend ∨ some c = nxt) →
      Stk succ explored nxt (w :: P) (pend ++ w :: f)

/-- Every explored node has all its children explored before it. -/
inductive Expl (succ : Name → List Name) : List Name → Prop where
  | nil : Expl succ []
  | cons (w : Name) (l : List Name) : Expl succ l → (∀ c ∈ succ w, c ∈ l) → w ∉ l →
      Expl succ (w :: l)

theorem Stk.mono {e e' P f : List Name} {nxt : Option Name} (h : Stk succ e nxt P f)
    (he : ∀ x ∈ e, x ∈ e') : Stk succ e' nxt P f := by
  induction h with
  | nil nxt pend => exact .nil nxt pend
  | cons nxt w P f pend _ h1 h2 h3 h4 ih =>
    refine .cons nxt w P f pend ih h1 h2 h3 ?_
    intro c hc
    rcases h4 c hc with h | h
    · exact Or.inl (he _ h)
    · exact Or.inr h

/-- Replacing the entered node by an explored one, or by another top entry. -/
theorem Stk.close {e P f : List Name} {w : Name} (h : Stk succ e (some w) P f) :
    Stk succ (w :: e) none P f := by
  cases h with
  | nil => exact .nil _ _
  | cons _ w' P f pend h0 h1 h2 h3 h4 =>
    refine .cons none w' P f pend (h0.mono (fun x hx => by simp [hx])) h1 h2 h3 ?_
    intro c hc
    rcases h4 c hc with h | h | h
    · exact Or.inl (by simp [h])
    · exact Or.inr (Or.inl h)
    · injection h with h; subst h; exact Or.inl (by simp)

theorem Stk.empty {e P f : List Name} {nxt : Option Name} (h : Stk succ e nxt P f)
    (hf : f = []) : P = [] := by
  cases h with
  | nil => rfl
  | cons _ w P f pend => simp at hf

theorem Stk.popExplored {e P rest : List Name} {w : Name} (h : Stk succ e none P (w :: rest))
    (hw : w ∈ e) (hopen : ∀ x ∈ P, x ∉ e) : Stk succ e none P rest := by
  generalize hf : w :: rest = f at h
  cases h with
  | nil => exact .nil _ _
  | cons _ w' P' f' pend h0 h1 h2 h3 h4 =>
    cases pend with
    | nil =>
      simp at hf
      exact absurd hw (by rw [hf.1]; exact hopen w' (by simp))
    | cons x pend' =>
      simp at hf
      obtain ⟨rfl, rfl⟩ := hf
      refine .cons _ w' P' f' pend' h0 h1 (fun y hy => h2 y (by simp [hy]))
        (fun y hy => h3 y (by simp [hy])) ?_
      intro c hcs
      rcases h4 c hcs with h | h | h
      · exact Or.inl h
      · rcases List.mem_cons.1 h with rfl | h
        · exact Or.inl hw
        · exact Or.inr (Or.inl h)
      · simp at h

theorem Stk.top {e P rest : List Name} {w : Name} (h : Stk succ e none P (w :: rest)) :
    (w ∉ P ∧ (∀ u ∈ P.head?, w ∈ succ u) ∧ Stk succ e (some w) P rest) ∨
    (∃ P', P = w :: P' ∧ Stk succ e (some w) P' rest ∧ ∀ c ∈ succ w, c ∈ e) := by
  generalize hf : w :: rest = f at h
  cases h with
  | nil => left; exact ⟨by simp, by simp, .nil _ _⟩
  | cons _ w' P' f' pend h0 h1 h2 h3 h4 =>
    cases pend with
    | nil =>
      right
      simp at hf
      obtain ⟨rfl, rfl⟩ := hf
      refine ⟨P', rfl, h0, ?_⟩
      intro c hcs
      simpa using h4 c hcs
    | cons x pend' =>
      left
      simp at hf
      obtain ⟨rfl, rfl⟩ := hf
      refine ⟨h3 w (by simp), ?_, ?_⟩
      · intro u hu
        simp at hu
        subst hu
        exact h2 w (by simp)
      · refine .cons _ w' P' f' pend' h0 h1 (fun y hy => h2 y (by simp [hy]))
          (fun y hy => h3 y (by simp [hy])) ?_
        intro c hcs
        rcases h4 c hcs with h | h | h
        · exact Or.inl h
        · rcases List.mem_cons.1 h with rfl | h
          · exact Or.inr (Or.inr rfl)
          · exact Or.inr (Or.inl h)
        · simp at h

/-- All open nodes reach the most recent one. -/
theorem Stk.reach {e P f : List Name} {nxt : Option Name} (h : Stk succ e nxt P f) :
    ∀ w Q, P = w :: Q → ∀ o ∈ Q, Path (SuccEdge succ) o w := by
  induction h with
  | nil nxt pend => intro w Q h; simp at h
  | cons nxt w P f pend _ h1 h2 h3 h4 ih =>
    intro w' Q hQ o ho
    injection hQ with hw hPQ
    subst hw; subst hPQ
    cases P with
    | nil => simp at ho
    | cons u P' =>
      have hu : w ∈ succ u := h1 u (by simp)
      rcases List.mem_cons.1 ho with rfl | ho'
      · exact .edge hu
      · exact (ih u P' rfl o ho').trans (.edge hu)

/-- The part of the invariant that relates the sets. -/
structure Inv (succ : Name → List Name) (P fringe seen explored : List Name) : Prop where
  stk : Stk succ explored none P fringe
  expl : Expl succ explored
  seen_sub : ∀ x ∈ seen, x ∈ explored ∨ x ∈ P
  sub_seen : ∀ x ∈ P, x ∈ seen
  open_ : ∀ x ∈ P, x ∉ explored
  nodup : P.Nodup

/-- Cost that decreases with every iteration. -/
def cost (succ : Name → List Name) (names fringe seen : List Name) : Nat :=
  fringe.length + ((names.filter (fun n => n ∉ seen)).map (fun n => (succ n).length + 1)).sum

theorem sum_filter_le (succ : Name → List Name) (w : Name) (seen l : List Name) :
    ((l.filter (fun n => n ∉ w :: seen)).map (fun n => (succ n).length + 1)).sum
      ≤ ((l.filter (fun n => n ∉ seen)).map (fun n => (succ n).length + 1)).sum := by
  induction l with
  | nil => simp
  | cons b l ihl =>
    by_cases hb : b ∈ seen
    · simp only [List.filter_cons, List.mem_cons, hb, or_true, not_true, decide_false]
      simpa using ihl
    · by_cases hba : b = w
      · subst hba
        simp only [List.filter_cons, List.mem_cons, true_or, not_true, decide_false, hb,
          not_false_iff, decide_true, if_true, List.map_cons, List.sum_cons]
        have := ihl
        simp only [List.mem_cons] at this
        simp only [Bool.false_eq_true, if_false]
        omega
      · simp only [List.filter_cons, List.mem_cons, hba, hb, or_self, not_false_iff,
          decide_true, if_true, List.map_cons, List.sum_cons]
        have := ihl
        simp only [List.mem_cons] at this
        omega

theorem sum_filter_lt (succ : Name → List Name) (names : List Name) (w : Name) (seen : List Name)
    (hw : w ∈ names) (hs : w ∉ seen) :
    ((names.filter (fun n => n ∉ w :: seen)).map (fun n => (succ n).length + 1)).sum
      + ((succ w).length + 1)
      ≤ ((names.filter (fun n => n ∉ seen)).map (fun n => (succ n).length + 1)).sum := by
  induction names with
  | nil => simp at hw
  | cons a l ih =>
    by_cases haw : a = w
    · subst haw
      have hle := sum_filter_le succ a seen
      simp only [List.filter_cons, List.mem_cons, true_or, not_true, decide_false, hs,
        not_false_iff, decide_true, if_true, List.map_cons, List.sum_cons, Bool.false_eq_true,
        if_false]
      have := hle l
      simp only [List.mem_cons] at this
      omega
    · have hwl : w ∈ l := by
        rcases List.mem_cons.1 hw with h | h
        · exact absurd h.symm haw
        · exact h
      have := ih hwl
      by_cases ha : a ∈ seen
      · simp only [List.filter_cons, List.mem_cons, ha, or_true, not_true, decide_false,
          Bool.false_eq_true, if_false]
        simpa using this
      · simp only [List.filter_cons, List.mem_cons, haw, ha, or_self, not_false_iff, decide_true,
          if_true, List.map_cons, List.sum_cons]
        simp only [List.mem_cons] at this
        omega

/-- What a run of the inner loop guarantees. -/
def LoopPost (succ : Name → List Name) (fringe explored : List Name) : Search → Prop
  | .cyclic => ∃ a, Path (SuccEdge succ) a a
  | .outOfFuel => False
  | .done seen' explored' => Expl succ explored' ∧ (∀ x ∈ seen', x ∈ explored') ∧
      (∀ x ∈ explored, x ∈ explored') ∧ (∀ x ∈ fringe, x ∈ explored')

theorem LoopPost.imp {succ : Name → List Name} {f e f' e' : List Name} {r : Search}
    (h : LoopPost succ f e r) (he : ∀ x ∈ e', x ∈ e) (hf : ∀ x ∈ f', x ∈ f ∨ x ∈ e) :
    LoopPost succ f' e' r := by
  cases r with
  | cyclic => exact h
  | outOfFuel => exact h
  | done s' e'' =>
    obtain ⟨h1, h2, h3, h4⟩ := h
    refine ⟨h1, h2, fun x hx => h3 x (he x hx), ?_⟩
    intro x hx
    rcases hf x hx with h | h
    · exact h4 x h
    · exact h3 x h

theorem cycleLoop_post (names : List Name) (hsucc : ∀ n, ∀ c ∈ succ n, c ∈ names) :
    ∀ fuel P fringe seen explored, Inv succ P fringe seen explored →
      (∀ x ∈ fringe, x ∈ names) → cost succ names fringe seen < fuel →
      LoopPost succ fringe explored (cycleLoop succ fuel fringe seen explored) := by
  intro fuel
  induction fuel with
  | zero => intro P fringe seen explored _ _ hc; omega
  | succ k ih =>
    intro P fringe seen explored inv hfn hc
    cases fringe with
    | nil =>
      simp only [cycleLoop, LoopPost]
      have hP : P = [] := inv.stk.empty rfl
      refine ⟨inv.expl, ?_, fun x h => h, by simp⟩
      intro x hx
      rcases inv.seen_sub x hx with h | h
      · exact h
      · simp [hP] at h
    | cons w rest =>
      simp only [cycleLoop]
      by_cases hwe : w ∈ explored
      · -- already explored: pop
        rw [if_pos hwe]
        have := ih P rest seen explored
          ⟨inv.stk.popExplored hwe inv.open_, inv.expl, inv.seen_sub, inv.sub_seen, inv.open_, inv.nodup⟩
          (fun x hx => hfn x (by simp [hx])) (by simp [cost] at hc ⊢; omega)
        refine this.imp (fun x hx => hx) ?_
        intro x hx
        rcases List.mem_cons.1 hx with rfl | hx
        · exact Or.inr hwe
        · exact Or.inl hx
      · rw [if_neg hwe]
        rcases inv.stk.top with ⟨hwP, hhead, hstk⟩ | ⟨P', hP, hstk, hexp⟩
        · -- fresh node
          have hws : w ∉ seen := by
            intro h
            rcases inv.seen_sub w h with h | h
            · exact hwe h
            · exact hwP h
          by_cases hcyc : ((succ w).filter (fun c => c ∉ explored)).any (fun c => c ∈ w :: seen) = true
          · rw [if_pos hcyc]
            simp only [LoopPost]
            simp only [List.any_eq_true, List.mem_filter, decide_eq_true_eq] at hcyc
            obtain ⟨c, ⟨hcw, hce⟩, hcs⟩ := hcyc
            rcases List.mem_cons.1 hcs with rfl | hcs
            · exact ⟨c, .edge hcw⟩
            · rcases inv.seen_sub c hcs with h | h
              · exact absurd h hce
              · refine ⟨c, ?_⟩
                cases hPc : P with
                | nil => simp [hPc] at h
                | cons u Q =>
                  have huw : w ∈ succ u := hhead u (by simp [hPc])
                  rw [hPc] at h
                  rcases List.mem_cons.1 h with rfl | hQ
                  · exact (Path.edge huw).trans (.edge hcw)
                  · exact ((inv.stk.reach u Q hPc c hQ).trans (.edge huw)).trans (.edge hcw)
          · rw [if_neg hcyc]
            simp only [List.any_eq_true, List.mem_filter, decide_eq_true_eq, not_exists, not_and] at hcyc
            have hcost := sum_filter_lt succ names w seen (hfn w (by simp)) hws
            by_cases hnew : ((succ w).filter (fun c => c ∉ explored)).isEmpty = true
            · rw [if_pos hnew]
              have hall : ∀ c ∈ succ w, c ∈ explored := by
                intro c hc
                simp only [List.isEmpty_iff, List.filter_eq_nil_iff, decide_eq_true_eq,
                  Decidable.not_not] at hnew
                exact hnew c hc
              have := ih P rest (w :: seen) (w :: explored)
                ⟨hstk.close, .cons w _ inv.expl hall hwe, by
                  intro x hx
                  rcases List.mem_cons.1 hx with rfl | hx
                  · simp
                  · rcases inv.seen_sub x hx with h | h
                    · simp [h]
                    · simp [h],
                  fun x hx => by simp [inv.sub_seen x hx], by
                  intro x hx h
                  rcases List.mem_cons.1 h with rfl | h
                  · exact hwP hx
                  · exact inv.open_ x hx h, inv.nodup⟩
                (fun x hx => hfn x (by simp [hx]))
                (by simp only [cost, List.length_cons] at hc ⊢; omega)
              refine this.imp (fun x hx => by simp [hx]) ?_
              intro x hx
              rcases List.mem_cons.1 hx with rfl | hx
              · simp
              · exact Or.inl hx
            · rw [if_neg hnew]
              have hstk2 : Stk succ explored none (w :: P)
                  (((succ w).filter (fun c => c ∉ explored)).reverse ++ w :: rest) := by
                refine .cons none w P rest _ hstk hhead ?_ ?_ ?_
                · intro x hx
                  simp at hx
                  exact hx.1
                · intro x hx h
                  simp at hx
                  refine hcyc x ⟨hx.1, hx.2⟩ ?_
                  rcases List.mem_cons.1 h with rfl | h
                  · simp
                  · simp [inv.sub_seen x h]
                · intro c hcs
                  by_cases h : c ∈ explored
                  · exact Or.inl h
                  · right; left; simp [hcs, h]
              have hlen : ((succ w).filter (fun c => c ∉ explored)).length ≤ (succ w).length :=
                List.length_filter_le _ _
              have := ih (w :: P) _ (w :: seen) explored
                ⟨hstk2, inv.expl, by
                  intro x hx
                  rcases List.mem_cons.1 hx with rfl | hx
                  · simp
                  · rcases inv.seen_sub x hx with h | h
                    · simp [h]
                    · simp [h], by
                  intro x hx
                  rcases List.mem_cons.1 hx with rfl | hx
                  · simp
                  · simp [inv.sub_seen x hx], by
                  intro x hx
                  rcases List.mem_cons.1 hx with rfl | hx
                  · exact hwe
                  · exact inv.open_ x hx, List.nodup_cons.2 ⟨hwP, inv.nodup⟩⟩
                (by
                  intro x hx
                  simp only [List.mem_append, List.mem_reverse, List.mem_filter] at hx
                  rcases hx with hx | hx
                  · exact hsucc w x hx.1
                  · exact hfn x hx)
                (by
                  simp only [cost, List.length_cons, List.length_append, List.length_reverse] at hc ⊢
                  omega)
              refine this.imp (fun x hx => hx) ?_
              intro x hx
              left; simp only [List.mem_append]; exact Or.inr hx
        · -- open node whose children are all explored
          subst hP
          have hnil : (succ w).filter (fun c => c ∉ explored) = [] := by
            simp only [List.filter_eq_nil_iff, decide_eq_true_eq, Decidable.not_not]
            exact hexp
          rw [hnil]
          simp only [List.any_nil, Bool.false_eq_true, if_false, List.isEmpty_nil, if_true]
          have hwP' : w ∉ P' := (List.nodup_cons.1 inv.nodup).1
          have := ih P' rest (w :: seen) (w :: explored)
            ⟨hstk.close, .cons w _ inv.expl hexp hwe, by
              intro x hx
              rcases List.mem_cons.1 hx with rfl | hx
              · simp
              · rcases inv.seen_sub x hx with h | h
                · simp [h]
                · rcases List.mem_cons.1 h with rfl | h
                  · simp
                  · simp [h],
              fun x hx => by simp [inv.sub_seen x (by simp [hx])], by
              intro x hx h
              rcases List.mem_cons.1 h with rfl | h
              · exact hwP' hx
              · exact inv.open_ x (by simp [hx]) h, (List.nodup_cons.1 inv.nodup).2⟩
            (fun x hx => hfn x (by simp [hx]))
            (by
              have := sum_filter_le succ w seen names
              simp only [cost, List.length_cons] at hc ⊢; omega)
          refine this.imp (fun x hx => by simp [hx]) ?_
          intro x hx
          rcases List.mem_cons.1 hx with rfl | hx
          · simp
          · exact Or.inl hx

/-- Result of the outer loop. -/
theorem cycleOuter_post (names : List Name) (hsucc : ∀ n, ∀ c ∈ succ n, c ∈ names) (fuel : Nat)
    (hfuel : cycleFuel succ names ≤ fuel) :
    ∀ todo seen explored, (∀ x ∈ todo, x ∈ names) → Expl succ explored →
      (∀ x ∈ seen, x ∈ explored) →
      LoopPost succ todo explored (cycleOuter succ fuel todo seen explored) := by
  intro todo
  induction todo with
  | nil =>
    intro seen explored _ he hs
    exact ⟨he, hs, fun x h => h, by simp⟩
  | cons n ns ih =>
    intro seen explored hn he hs
    simp only [cycleOuter]
    by_cases hne : n ∈ explored
    · rw [if_pos hne]
      refine (ih seen explored (fun x hx => hn x (by simp [hx])) he hs).imp (fun x hx => hx) ?_
      intro x hx
      rcases List.mem_cons.1 hx with rfl | hx
      · exact Or.inr hne
      · exact Or.inl hx
    · rw [if_neg hne]
      have hcost : cost succ names [n] seen < fuel := by
        have h1 : ∀ l : List Name, ((l.filter (fun n => n ∉ seen)).map
            (fun n => (succ n).length + 1)).sum ≤ (l.map (fun n => (succ n).length + 1)).sum := by
          intro l
          induction l with
          | nil => simp
          | cons b l ihl =>
            by_cases hb : b ∈ seen
            · simp [hb]; simp at ihl; omega
            · simp [hb]; simp at ihl; omega
        have := h1 names
        simp only [cost, cycleFuel, List.length_cons, List.length_nil] at hfuel ⊢
        omega
      have hl := cycleLoop_post names hsucc fuel [] [n] seen explored
        ⟨.nil _ _, he, fun x hx => Or.inl (hs x hx), by simp, by simp, List.nodup_nil⟩
        (by intro x hx; simp at hx; subst hx; exact hn _ (by simp)) hcost
      revert hl
      cases cycleLoop succ fuel [n] seen explored with
      | cyclic => exact fun h => h
      | outOfFuel => exact fun h => h
      | done s' e' =>
        rintro ⟨h1, h2, h3, h4⟩
        refine (ih s' e' (fun x hx => hn x (by simp [hx])) h1 h2).imp h3 ?_
        intro x hx
        rcases List.mem_cons.1 hx with rfl | hx
        · exact Or.inr (h4 _ (by simp))
        · exact Or.inl hx

theorem cycleSearch_post (names : List Name) (hsucc : ∀ n, ∀ c ∈ succ n, c ∈ names) :
    LoopPost succ names [] (cycleSearch succ names) :=
  cycleOuter_post names hsucc _ (Nat.le_refl _) names [] [] (fun _ h => h) .nil (by simp)

/-- The search always terminates within its fuel. -/
theorem cycleSearch_total (names : List Name) (hsucc : ∀ n, ∀ c ∈ succ n, c ∈ names) :
    cycleSearch succ names ≠ .outOfFuel := by
  intro h
  have := cycleSearch_post names hsucc
  rw [h] at this
  exact this

/-- A reverse topological order yields a rank bounded by its length. -/
theorem Expl.rank {l : List Name} (h : Expl succ l) :
    ∃ r : Name → Nat, (∀ x ∈ l, r x < l.length) ∧ ∀ x ∈ l, ∀ c ∈ succ x, r c < r x := by
  induction h with
  | nil => exact ⟨fun _ => 0, by simp, by simp⟩
  | cons w l hl hc hw ih =>
    obtain ⟨r, h1, h2⟩ := ih
    have hin : ∀ x ∈ l, ∀ c ∈ succ x, c ∈ l := by
      clear h1 h2 hc hw
      induction hl with
      | nil => simp
      | cons u l' _ hcu _ ih' =>
        intro x hx c hcx
        rcases List.mem_cons.1 hx with rfl | hx
        · simp [hcu c hcx]
        · simp [ih' x hx c hcx]
    refine ⟨fun x => if x = w then l.length else r x, ?_, ?_⟩
    · intro x hx
      by_cases hxw : x = w
      · simp [hxw]
      · have hxl : x ∈ l := by simpa [hxw] using hx
        have := h1 x hxl
        simp [hxw]; omega
    · intro x hx c hcx
      by_cases hxw : x = w
      · subst hxw
        have hcl := hc c hcx
        have hcw : c ≠ x := fun h => hw (h ▸ hcl)
        simp [hcw, h1 c hcl]
      · have hxl : x ∈ l := by simpa [hxw] using hx
        have hcl := hin x hxl c hcx
        have hcw : c ≠ w := fun h => hw (h ▸ hcl)
        simp [hcw, hxw, h2 x hxl c hcx]

theorem Expl.nodup {l : List Name} (h : Expl succ l) : l.Nodup := by
  induction h with
  | nil => exact List.nodup_nil
  | cons w l _ _ hw ih => exact List.nodup_cons.2 ⟨hw, ih⟩

theorem countP_lt_countP {l : List Name} {p q : Name → Bool} (h : ∀ y, p y = true → q y = true)
    {a : Name} (ha : a ∈ l) (hq : q a = true) (hp : p a = false) :
    l.countP p < l.countP q := by
  have hle : ∀ l : List Name, l.countP p ≤ l.countP q := by
    intro l
    exact List.countP_mono_left (fun x _ hx => h x hx)
  induction l with
  | nil => simp at ha
  | cons b l ih =>
    rcases List.mem_cons.1 ha with rfl | hal
    · have := hle l
      simp [hq, hp]; omega
    · have := ih hal
      by_cases hb : p b = true
      · simp [hb, h b hb]; omega
      · by_cases hb' : q b = true
        · simp [hb, hb']; omega
        · simp [hb, hb']; omega

/-- If the search finishes, there is a rank below the number of names that strictly decreases
along every edge. -/
theorem cycleSearch_done_rank (names : List Name) (hsucc : ∀ n, ∀ c ∈ succ n, c ∈ names)
    {s e : List Name} (h : cycleSearch succ names = .done s e) :
    ∃ r : Name → Nat, (∀ x ∈ names, r x < names.length) ∧
      ∀ x ∈ names, ∀ c ∈ succ x, r c < r x := by
  have hp := cycleSearch_post names hsucc
  rw [h] at hp
  obtain ⟨h1, _, _, h4⟩ := hp
  obtain ⟨r, _, hr⟩ := h1.rank
  refine ⟨fun x => names.countP (fun y => decide (r y < r x)), ?_, ?_⟩
  · intro x hx
    have := countP_lt_countP (l := names) (p := fun y => decide (r y < r x)) (q := fun _ => true)
      (fun _ _ => rfl) hx rfl (by simp)
    simpa using this
  · intro x hx c hc
    have hlt := hr x (h4 x hx) c hc
    refine countP_lt_countP (a := c) ?_ (hsucc x c hc) (by simpa using hlt) (by simp)
    intro y hy
    simp at hy ⊢
    omega

/-- The search raises exactly when there is a cycle. -/
theorem cycleSearch_cyclic_iff (names : List Name) (hsucc : ∀ n, ∀ c ∈ succ n, c ∈ names)
    (hnames : ∀ n, succ n ≠ [] → n ∈ names) :
    cycleSearch succ names = .cyclic ↔ ¬ Acyclic (SuccEdge succ) := by
  constructor
  · intro h hac
    have hp := cycleSearch_post names hsucc
    rw [h] at hp
    obtain ⟨a, ha⟩ := hp
    exact hac a ha
  · intro hcyc
    cases h : cycleSearch succ names with
    | cyclic => rfl
    | outOfFuel => exact absurd h (cycleSearch_total names hsucc)
    | done s e =>
      exfalso
      apply hcyc
      obtain ⟨r, _, hr⟩ := cycleSearch_done_rank names hsucc h
      refine acyclic_of_rank r ?_
      intro a b hab
      refine hr a (hnames a ?_) b hab
      intro h0
      rw [SuccEdge, h0] at hab
      simp at hab

end Verif
