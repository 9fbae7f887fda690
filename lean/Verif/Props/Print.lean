import Verif.Model.Print
import Verif.Props.Seeded

/-!
# C119: what is printed for a space
-/

set_option autoImplicit false

namespace Verif
open Verif.Spec

variable {calls calls' : List Call} {s s' : Space}

/-! ## Specification -/

namespace Spec

/-- The lines of a part: a title if there is one, and every text on a line of its own behind four blanks. -/
def section_ (title : List String) (ts : List String) : List String :=
  if ts = [] then [] else title ++ ts.map ("    " ++ ·)

/-- The text with these lines. -/
def ofLines : List String → String
  | [] => ""
  | l :: ls => l ++ "\n" ++ ofLines ls

end Spec

/-! ## Proofs -/

theorem ofLines_append (ls ms : List String) : ofLines (ls ++ ms) = ofLines ls ++ ofLines ms := by
  induction ls with
  | nil => simp [ofLines]
  | cons l ls ih =>
    rw [List.cons_append, ofLines, ofLines, ih]
    simp only [String.append_assoc]

theorem joinTexts_lines : ∀ (t : String) (ts : List String),
    "    " ++ joinTexts "\n    " (t :: ts) ++ "\n" = ofLines ((t :: ts).map ("    " ++ ·))
  | t, [] => by simp [joinTexts, ofLines]
  | t, u :: ts => by
    have ih := joinTexts_lines u ts
    rw [List.map_cons, ofLines, ← ih]
    have e : "\n    " = "\n" ++ "    " := by decide
    simp only [joinTexts, e, String.append_assoc]

theorem printPart_lines (title : String) (tl : List String) (h : title = ofLines tl) (ts : List String) :
    printPart title ts = ofLines (section_ tl ts) := by
  cases ts with
  | nil => simp [printPart, section_, ofLines]
  | cons t ts =>
    unfold printPart section_
    rw [if_neg (by simp), if_neg (by simp), ofLines_append, ← joinTexts_lines, h]
    simp only [String.append_assoc]

theorem sorted_texts {α : Type} {key : α → String} {l l' : List α} (hp : l.Perm l')
    (h : l.Pairwise (fun a b => key a ≤ key b)) (h' : l'.Pairwise (fun a b => key a ≤ key b)) :
    l.map key = l'.map key :=
  List.Perm.eq_of_pairwise (le := fun a b : String => a ≤ b) (fun _ _ _ _ h1 h2 => String.le_antisymm h1 h2)
    (List.pairwise_map.2 h) (List.pairwise_map.2 h') (hp.map key)

theorem sorted_by {α : Type} (key : α → String) (l : List α) :
    (sortBy (fun a b => decide (key a ≤ key b)) l).Pairwise (fun a b => key a ≤ key b) := by
  have := sortBy_pairwise (le := fun a b : α => decide (key a ≤ key b))
    (fun a b => by simpa using String.le_total _ _)
    (fun a b c => by simpa using fun h1 h2 => String.le_trans h1 h2) l
  exact this.imp fun h => by simpa using h

theorem lt_text {a b : String} (h : a ≤ b) (hn : a ≠ b) : a < b := by
  by_contra h'
  exact hn (String.le_antisymm h (String.not_lt.1 h'))

/-- **C119, the lines.** The text of a space is: the two lines of its title; its name if it has one; one line for every
hyperparameter; if there are conditions a title and one line for every condition; if there are clauses a title and one line
for every clause. -/
theorem C119_lines (str : Val → String) (name : Option String) (s : Space) :
    s.print str name = ofLines (["Configuration space object:", "  Hyperparameters:"] ++ name.toList ++
      section_ [] ((printedHps s).map (HP.print str)) ++
      section_ ["  Conditions:"] ((printedConds s).map Cond.render) ++
      section_ ["  Forbidden Clauses:"] (s.forbs.map Forb.render)) := by
  unfold Space.print
  rw [ofLines_append, ofLines_append, ofLines_append, ofLines_append,
    printPart_lines "" [] (by simp [ofLines]), printPart_lines "  Conditions:\n" ["  Conditions:"] (by decide +kernel),
    printPart_lines "  Forbidden Clauses:\n" ["  Forbidden Clauses:"] (by decide +kernel)]
  have e : "Configuration space object:\n  Hyperparameters:\n" = ofLines ["Configuration space object:", "  Hyperparameters:"] := by
    decide +kernel
  rw [e]
  cases name with
  | none => simp [ofLines]
  | some n => simp [ofLines]

/-- **C119, which lines.** The hyperparameters that were added have one line each, in the order of their names; the
conditions in effect have one line each, in the order of their texts (conditions with the same text share a line); the
clauses that were added have one line each, those about unconditional hyperparameters only before the others, and each of
the two groups in the order of their texts. -/
theorem C119_each_once (h : Reach calls s) :
    (printedHps s).Perm (allHps calls) ∧ (printedHps s).Pairwise (fun a b => a.name < b.name) ∧
    (∀ t, t ∈ (printedConds s).map Cond.render ↔ ∃ n c, lastCond (allConds calls) n = some c ∧ t = c.render) ∧
    ((printedConds s).map Cond.render).Pairwise (· < ·) ∧
    s.forbs.Perm (allForbs calls) ∧
    ∃ us cs, s.forbs = us ++ cs ∧ us.Pairwise (fun a b => a.render ≤ b.render) ∧ cs.Pairwise (fun a b => a.render ≤ b.render) ∧
      (∀ f ∈ us, ∀ n ∈ f.names, ¬ Conditional calls n) ∧ ∀ f ∈ cs, ∃ n ∈ f.names, Conditional calls n := by
  have i := sinv_of_reach h
  have hperm : (printedHps s).Perm (s.com.map Node.hp) := sortBy_perm _ _
  have hnd : (s.com.map Node.hp).Pairwise (fun a b => a.name ≠ b.name) := by
    have := (reach_ninv h).nodup
    unfold namesOf at this
    rw [List.nodup_iff_pairwise_ne, List.pairwise_map] at this
    exact List.pairwise_map.2 this
  have hcp : (printedConds s).Perm s.conditions := sortBy_perm _ _
  refine ⟨hperm.trans (hps_perm h), ?_, fun t => ?_, ?_, i.hist.forbs, s.dag.uncond, s.dag.condF, rfl,
    (forbs_sorted h).1, (forbs_sorted h).2, fun f hf n hn hc => ?_, fun f hf => ?_⟩
  · have h1 := sorted_by HP.name (s.com.map Node.hp)
    have h2 : (printedHps s).Pairwise (fun a b => a.name ≠ b.name) :=
      (hperm.pairwise_iff (fun h => fun e => h e.symm)).2 hnd
    exact (h1.and h2).imp fun ⟨x, y⟩ => lt_text x y
  · rw [(hcp.map Cond.render).mem_iff]
    constructor
    · intro ht
      obtain ⟨c, hc, rfl⟩ := List.mem_map.1 ht
      have hm := (uniqueBy_mem hc).1
      obtain ⟨x, hx, e, _, h2⟩ := mem_nodeConds h hm
      refine ⟨x.name, c, ?_, rfl⟩
      rw [← i.hist.cond, i.com]
      simp [condAt, findNode_of_mem (reach_ninv h).nodup hx, e]
    · rintro ⟨n, c, hc, rfl⟩
      rw [← lastCond_nodeConds h] at hc
      rcases uniqueBy_key (key := Cond.render) (seen := []) (lastCond_some hc).1 with h0 | ⟨y, hy, e⟩
      · simp at h0
      · exact List.mem_map.2 ⟨y, hy, e⟩
  · have h1 := List.pairwise_map.2 (sorted_by Cond.render s.conditions)
    have h2 : ((printedConds s).map Cond.render).Nodup := (hcp.map Cond.render).nodup_iff.2 uniqueBy_nodup
    exact (h1.and h2).imp fun ⟨x, y⟩ => lt_text x y
  · obtain ⟨hiff, hpm⟩ := C06_conditional_iff h
    have hr := of_decide_eq_true (List.all_eq_true.1 (i.uncond f hf) n hn)
    have hnd' : (s.dag.roots ++ s.condNames).Nodup := hpm.nodup_iff.2 (reach_ninv h).nodup
    have hk : Known calls n := (reach_isNode h n).1 (i.com ▸ i.hist.forbNames f (i.hist.forbs.mem_iff.1
      (List.mem_append_left _ hf)) n hn)
    exact List.disjoint_of_nodup_append hnd' hr ((hiff n).2 ⟨hk, hc⟩)
  · obtain ⟨hiff, hpm⟩ := C06_conditional_iff h
    have := i.condF f hf
    unfold isUncondForb at this
    rw [List.all_eq_false] at this
    obtain ⟨n, hn, hne⟩ := this
    refine ⟨n, hn, ?_⟩
    have hm : n ∈ s.names := (show IsNode s.com n from i.com ▸ i.hist.forbNames f (i.hist.forbs.mem_iff.1
      (List.mem_append_right _ hf)) n hn)
    rcases List.mem_append.1 (hpm.mem_iff.2 hm) with h1 | h1
    · simp [h1] at hne
    · exact ((hiff n).1 h1).2

/-- **C119, the order of construction does not show.** Two spaces made of the same hyperparameters, conditions and clauses,
added in any order and in any number of calls, print the same text. -/
theorem C119_same_text (h : Reach calls s) (h' : Reach calls' s') (hp : SameParts calls calls') (h1 : OneCondition calls)
    (str : Val → String) (name : Option String) : s.print str name = s'.print str name := by
  have i := sinv_of_reach h
  have i' := sinv_of_reach h'
  have hE : parentRel (allConds calls) = parentRel (allConds calls') := by
    funext a b
    exact propext ⟨parentRel_mono (fun c hc => (hp.conds c).1 hc) a b, parentRel_mono (fun c hc => (hp.conds c).2 hc) a b⟩
  have hcore := core_eq (pre_of_reach h) (pre_of_reach h') hp.hps hE (lastCond_same h1 hp)
  have hroots : s.dag.roots = s'.dag.roots := by rw [i.roots, i'.roots, rootNames_core hcore]
  have hf : s.forbs.Perm s'.forbs := i.hist.forbs.trans (hp.forbs.trans i'.hist.forbs.symm)
  have hhps : s.com.map Node.hp = s'.com.map Node.hp := map_of_core (fun t => t.1) hcore
  have hconds : s.com.filterMap Node.cond = s'.com.filterMap Node.cond := by
    have := congrArg (List.filterMap (fun t : HP × Nat × Option Cond => t.2.2)) hcore
    rwa [List.filterMap_map, List.filterMap_map] at this
  have hu : s.dag.uncond.Perm s'.dag.uncond := by
    rw [(uncond_eq_filter h).1, (uncond_eq_filter h').1, hroots]
    exact hf.filter _
  have hc : s.dag.condF.Perm s'.dag.condF := by
    rw [(uncond_eq_filter h).2, (uncond_eq_filter h').2, hroots]
    exact hf.filter _
  have t1 := sorted_texts hu (forbs_sorted h).1 (forbs_sorted h').1
  have t2 := sorted_texts hc (forbs_sorted h).2 (forbs_sorted h').2
  unfold Space.print printedHps printedConds Space.conditions
  rw [hhps, hconds]
  have : s.forbs.map Forb.render = s'.forbs.map Forb.render := by
    unfold Space.forbs
    rw [List.map_append, List.map_append, t1, t2]
  rw [this]

/-- The text of a value: `str` of an integer and of a string. -/
def StrOf (str : Val → String) : Prop := (∀ n, str (.int n) = toString n) ∧ ∀ t, str (.str t) = t

namespace ExPt

/-- The choices 1 and 2. -/
def hpN : HP := ⟨"d", .cat [.int 1, .int 2], .int 1⟩
/-- The choices "1" and "2". -/
def hpT : HP := ⟨"d", .cat [.str "1", .str "2"], .str "1"⟩
def callN : Call := ⟨[hpN], [], []⟩
def callT : Call := ⟨[hpT], [], []⟩
def spN : Space := Ex.committed {} callN
def spT : Space := Ex.committed {} callT

theorem reachN : Reach [callN] spN :=
  Reach.snoc (calls := []) .nil (by decide +kernel)
    (Ex.add_of_stages [("d", some (.int 1))] [some 0] [("d", .int 1)]
      (by decide +kernel) (by decide +kernel) (by decide +kernel)
      (by decide +kernel) (by decide +kernel) (by decide +kernel))

theorem reachT : Reach [callT] spT :=
  Reach.snoc (calls := []) .nil (by decide +kernel)
    (Ex.add_of_stages [("d", some (.str "1"))] [some 0] [("d", .str "1")]
      (by decide +kernel) (by decide +kernel) (by decide +kernel)
      (by decide +kernel) (by decide +kernel) (by decide +kernel))

end ExPt

/-- **C119, false of the code:** the text does not determine the space.  A hyperparameter with the choices 1 and 2 prints
like one with the choices "1" and "2", although the two are different and accept different values. -/
theorem C119_two_spaces_one_text (str : Val → String) (hs : StrOf str) (name : Option String) :
    ∃ h h' s s', Reach [⟨[h], [], []⟩] s ∧ Reach [⟨[h'], [], []⟩] s' ∧ s.print str name = s'.print str name ∧
      h.pyEq h' = false ∧ h.kind.legalValue (.int 1) = true ∧ h'.kind.legalValue (.int 1) = false := by
  refine ⟨ExPt.hpN, ExPt.hpT, ExPt.spN, ExPt.spT, ExPt.reachN, ExPt.reachT, ?_, by decide +kernel, by decide +kernel,
    by decide +kernel⟩
  have e1 : printedHps ExPt.spN = [ExPt.hpN] := by decide +kernel
  have e2 : printedHps ExPt.spT = [ExPt.hpT] := by decide +kernel
  have e3 : (printedConds ExPt.spN).map Cond.render = (printedConds ExPt.spT).map Cond.render := by decide +kernel
  have e4 : ExPt.spN.forbs.map Forb.render = ExPt.spT.forbs.map Forb.render := by decide +kernel
  have n1 : toString (1 : Int) = "1" := by decide +kernel
  have n2 : toString (2 : Int) = "2" := by decide +kernel
  have hp : HP.print str ExPt.hpN = HP.print str ExPt.hpT := by
    unfold HP.print ExPt.hpN ExPt.hpT
    simp only [List.map_cons, List.map_nil, hs.1, hs.2, n1, n2]
  unfold Space.print
  rw [e1, e2, e3, e4, List.map_cons, List.map_cons, hp]

/-! ## Examples -/

/-- Texts of values: of integers and strings as in Python. -/
def ExPt.str : Val → String
  | .int n => toString n
  | .flt q => toString q
  | .str t => t

example : StrOf ExPt.str := ⟨fun _ => rfl, fun _ => rfl⟩
example : Ex.sp1.print ExPt.str (some "demo") = Ex.sp1c.print ExPt.str (some "demo") :=
  C119_same_text Ex.reach1 Ex.reach1c ExK.parts ExK.one _ _
example := C119_each_once Ex.reach1
example : Ex.sp1.print ExPt.str (some "demo") = "Configuration space object:\n  Hyperparameters:\ndemo\n" ++
    "    alg, Type: Categorical, Choices: {a, b}, Default: a\n    c, Type: Constant, Value: 7\n" ++
    "    k, Type: UniformInteger, Range: [1, 10], Default: 3\n    o, Type: Ordinal, Sequence: {lo, mid, hi}, Default: mid\n" ++
    "    x, Type: UniformFloat, Range: [0, 2], Default: 1\n  Conditions:\n" ++
    "    (x | k > 2 && x | alg == 'a')\n    k | alg == 'a'\n    o | alg in {'a', 'b'}\n  Forbidden Clauses:\n" ++
    "    (Forbidden: alg == 'b' && Forbidden: o == 'hi')\n    (Forbidden: alg == 'b' && Forbidden: o == 'lo')\n" := by
  decide +kernel

end Verif
