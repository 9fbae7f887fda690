import Verif.Lemmas.PcsCond
import Verif.Props.Pcs

/-!
# Reading the lines of a forbidden clause
-/

set_option autoImplicit false

namespace Verif
open Verif.Spec

/-! ## The equality clauses of the lines -/

/-- The clause is an equality that can be written and read. -/
def GoodEq (T : PyText) (hs : List HP) (g : Forb) : Prop :=
  ∃ h v x, g = .eq h v x ∧ g.wf = true ∧ WritableValue T h v ∧ h ∈ hs

/-- The pairs of names and values. -/
def pairsOf : List Forb → PcsLine
  | [] => []
  | .eq h v _ :: gs => (h.name, v) :: pairsOf gs
  | _ :: gs => pairsOf gs

theorem buildForbidden_pairs {T : PyText} {hs : List HP} : ∀ {gs : List Forb}, (∀ g ∈ gs, GoodEq T hs g) →
    buildForbidden gs = .ok (pairsOf gs)
  | [], _ => rfl
  | g :: gs, h => by
    obtain ⟨hp, v, x, rfl, -⟩ := h g (by simp)
    rw [buildForbidden, buildForbidden_pairs (fun k hk => h k (by simp [hk]))]
    rfl

theorem writable_dlcs {T : PyText} (f : Forb) (hf : WritableForb T f) : f.dlcs ≠ [] ∧ ∀ g ∈ f.dlcs, WritableForb T g ∧
    (∀ h ∈ clauseHps g, h ∈ clauseHps f) ∧ ((∃ h v x, g = .eq h v x) ∨ ∃ h vs xs, g = .isIn h vs xs) := by
  induction f using Forb.induct with
  | he h w x => simpa [Forb.dlcs] using hf
  | hi h ws xs => simpa [Forb.dlcs] using hf
  | hr op l r => cases hf
  | ha fs ih =>
    cases hf with
    | @and f fs hfs =>
      refine ⟨?_, ?_⟩
      · simp only [Forb.dlcs, Forb.dlcsL, ne_eq, List.append_eq_nil_iff, not_and]
        intro e
        exact absurd e (ih f (by simp) (hfs f (by simp))).1
      · intro g hg
        simp only [Forb.dlcs] at hg
        obtain ⟨k, hk, hgk⟩ := mem_forbDlcsL.1 hg
        obtain ⟨h1, h2, h3⟩ := (ih k hk (hfs k hk)).2 g hgk
        refine ⟨h1, ?_, h3⟩
        intro h hh
        simp only [clauseHps]
        exact mem_clauseHpsL.2 ⟨k, hk, h2 h hh⟩

theorem onVec_dlcs {idx : Name → Nat} {v : Vec} (f : Forb) : f.onVec idx v = true ↔ ∀ g ∈ f.dlcs, g.onVec idx v = true := by
  induction f using Forb.induct with
  | he h w x => simp [Forb.dlcs]
  | hi h ws xs => simp [Forb.dlcs]
  | hr op l r => simp [Forb.dlcs]
  | ha fs ih =>
    simp only [Forb.dlcs, Forb.onVec, onVecAll_iff]
    constructor
    · intro h g hg
      obtain ⟨k, hk, hgk⟩ := mem_forbDlcsL.1 hg
      exact (ih k hk).1 (h k hk) g hgk
    · intro h k hk
      exact (ih k hk).2 fun g hg => h g (mem_forbDlcsL.2 ⟨k, hk, hg⟩)

theorem inStatements_good {T : PyText} {hs : List HP} : ∀ {fs : List Forb}, (∀ f ∈ fs, f.wf = true ∧ WritableForb T f ∧
    (∀ h ∈ clauseHps f, h ∈ hs) ∧ ((∃ h v x, f = .eq h v x) ∨ ∃ h vs xs, f = .isIn h vs xs)) →
    ∃ ls, inStatements fs = .ok ls ∧ (∀ l ∈ ls, ∀ g ∈ l, GoodEq T hs g) ∧
      (ls = [] → otherStatements fs = fs) ∧ (∀ g ∈ otherStatements fs, GoodEq T hs g) ∧
      ∀ idx v, ((∀ l ∈ ls, ∃ g ∈ l, g.onVec idx v = true) ∧ ∀ g ∈ otherStatements fs, g.onVec idx v = true) ↔
        ∀ f ∈ fs, f.onVec idx v = true
  | [], _ => ⟨[], rfl, by simp, fun _ => rfl, by simp [otherStatements], by simp [otherStatements]⟩
  | f :: fs, hf => by
    obtain ⟨ls, hls, hgood, hnil, hoth, hiff⟩ := inStatements_good (T := T) (hs := hs) (fs := fs) fun g hg => hf g (by simp [hg])
    obtain ⟨hw, hwr, hh, hk⟩ := hf f (by simp)
    rcases hk with ⟨h, v, x, rfl⟩ | ⟨h, vs, xs, rfl⟩
    · have e : otherStatements (.eq h v x :: fs) = .eq h v x :: otherStatements fs := rfl
      refine ⟨ls, by simp only [inStatements, hls], hgood, fun h0 => by rw [e, hnil h0], ?_, ?_⟩
      · rw [e]
        intro g hg
        rcases List.mem_cons.1 hg with rfl | hg
        · cases hwr with
          | eq hv => exact ⟨h, v, x, rfl, hw, hv, hh h (by simp [clauseHps])⟩
        · exact hoth g hg
      · intro idx vec
        rw [e, List.forall_mem_cons, List.forall_mem_cons, ← hiff idx vec]
        exact ⟨fun ⟨a, b, c⟩ => ⟨b, a, c⟩, fun ⟨b, a, c⟩ => ⟨a, b, c⟩⟩
    · have e : otherStatements (.isIn h vs xs :: fs) = otherStatements fs := rfl
      simp only [Forb.wf, Bool.and_eq_true, List.all_eq_true, decide_eq_true_eq] at hw
      have hwv : ∀ v ∈ vs, WritableValue T h v := by cases hwr; assumption
      obtain ⟨l, hl, hl2⟩ := mapExcept_forall (f := fun w => mkForbEq h w)
        (P := fun w g => ∃ x, g = Forb.eq h w x ∧ h.kind.toVec w = some x) (xs := vs) (by
          intro w hwm
          have hlv := hw.1.2 w hwm
          obtain ⟨x, hx⟩ := legal_toVec hlv
          exact ⟨.eq h w x, by simp [mkForbEq, hlv, hx], x, rfl, hx⟩)
      obtain ⟨hlen, hget⟩ := List.forall₂_iff_get.1 hl2
      have hmem : ∀ g, g ∈ l ↔ ∃ w ∈ vs, ∃ x, g = Forb.eq h w x ∧ h.kind.toVec w = some x := by
        intro g
        constructor
        · intro hg
          obtain ⟨i, hi, rfl⟩ := List.getElem_of_mem hg
          obtain ⟨x, hx⟩ := hget i (hlen ▸ hi) hi
          exact ⟨_, List.getElem_mem (hlen ▸ hi), x, hx⟩
        · rintro ⟨w, hwm, x, rfl, hx⟩
          obtain ⟨i, hi, rfl⟩ := List.getElem_of_mem hwm
          obtain ⟨y, hy, hy2⟩ := hget i hi (hlen ▸ hi)
          simp only [List.get_eq_getElem] at hy hy2
          rw [hx] at hy2
          cases hy2
          rw [← hy]
          exact List.getElem_mem _
      refine ⟨l :: ls, by simp only [inStatements, hl, hls], ?_, by simp, by rw [e]; exact hoth, ?_⟩
      · intro l' hl' g hg
        rcases List.mem_cons.1 hl' with rfl | hl'
        · obtain ⟨w, hwm, x, rfl, hx⟩ := (hmem g).1 hg
          exact ⟨h, w, x, rfl, by simp [Forb.wf, hw.1.1, hw.1.2 w hwm, hx], hwv w hwm, hh h (by simp [clauseHps])⟩
        · exact hgood l' hl' g hg
      · intro idx vec
        have e2 : (∃ g ∈ l, g.onVec idx vec = true) ↔ (Forb.isIn h vs xs).onVec idx vec = true := by
          simp only [hmem, Forb.onVec]
          cases hv : vec.at (idx h.name) with
          | none =>
            simp only [Bool.false_eq_true, iff_false]
            rintro ⟨g, ⟨w, -, x, rfl, -⟩, hg⟩
            simp [Forb.onVec, hv] at hg
          | some q =>
            simp only [decide_eq_true_eq, hw.2, List.mem_filterMap]
            constructor
            · rintro ⟨g, ⟨w, hwm, x, rfl, hx⟩, hg⟩
              simp only [Forb.onVec, hv, decide_eq_true_eq] at hg
              subst hg
              exact ⟨w, hwm, hx⟩
            · rintro ⟨w, hwm, hx⟩
              exact ⟨_, ⟨w, hwm, q, rfl, hx⟩, by simp [Forb.onVec, hv]⟩
        rw [List.forall_mem_cons, List.forall_mem_cons, e, e2, ← hiff idx vec]
        exact and_assoc

/-- The lines of a clause, as lists of equalities. -/
theorem forb_lines {T : PyText} {f : Forb} (hw : f.wf = true) (hf : WritableForb T f) :
    ∃ gss : List (List Forb), pcsLines f = .ok (gss.map pairsOf) ∧ (∀ gs ∈ gss, gs ≠ [] ∧ ∀ g ∈ gs, GoodEq T (clauseHps f) g) ∧
      ∀ idx v, f.onVec idx v = true ↔ ∃ gs ∈ gss, (Forb.and gs).onVec idx v = true := by
  obtain ⟨hne, hd⟩ := writable_dlcs f hf
  have hwf := dlcs_forb_wf f hw
  obtain ⟨ins, hins, hgood, hnil, hoth, hiff⟩ := inStatements_good (T := T) (hs := clauseHps f) (fs := f.dlcs)
    fun g hg => ⟨hwf g hg, (hd g hg).1, (hd g hg).2.1, (hd g hg).2.2⟩
  unfold pcsLines
  simp only [hins]
  cases ins with
  | nil =>
    have e := hnil rfl
    rw [e] at hoth
    refine ⟨[f.dlcs], ?_, ?_, ?_⟩
    · simp only [List.isEmpty_nil, if_true]
      rw [buildForbidden_pairs hoth]
      rfl
    · intro gs hgs
      rw [List.mem_singleton.1 hgs]
      exact ⟨hne, hoth⟩
    · intro idx v
      simp only [List.mem_singleton, exists_eq_left, Forb.onVec, onVecAll_iff]
      exact onVec_dlcs f
  | cons l ls =>
    have hall : ∀ p ∈ productF (l :: ls), p ++ otherStatements f.dlcs ≠ [] ∧ ∀ g ∈ p ++ otherStatements f.dlcs, GoodEq T (clauseHps f) g := by
      intro p hp
      have h2 := productF_mem.1 hp
      refine ⟨?_, ?_⟩
      · have := h2.length_eq
        intro e
        rw [List.append_eq_nil_iff.1 e |>.1] at this
        simp at this
      · intro g hg
        rcases List.mem_append.1 hg with hg | hg
        · obtain ⟨hlen, hget⟩ := List.forall₂_iff_get.1 h2
          obtain ⟨i, hi, rfl⟩ := List.getElem_of_mem hg
          exact hgood _ (List.getElem_mem (hlen ▸ hi)) _ (hget i hi (hlen ▸ hi))
        · exact hoth g hg
    refine ⟨(productF (l :: ls)).map (· ++ otherStatements f.dlcs), ?_, ?_, ?_⟩
    · simp only [List.isEmpty_cons, Bool.false_eq_true, if_false]
      have key : ∀ ps : List (List Forb), (∀ p ∈ ps, ∀ g ∈ p ++ otherStatements f.dlcs, GoodEq T (clauseHps f) g) →
          mapExcept (fun p => buildForbidden (p ++ otherStatements f.dlcs)) ps =
            .ok ((ps.map (· ++ otherStatements f.dlcs)).map pairsOf) := by
        intro ps
        induction ps with
        | nil => intro _; rfl
        | cons p ps ih =>
          intro h
          rw [mapExcept, buildForbidden_pairs (h p (by simp))]
          simp only
          rw [ih (fun q hq => h q (by simp [hq]))]
          rfl
      exact key _ fun p hp => (hall p hp).2
    · intro gs hgs
      obtain ⟨p, hp, rfl⟩ := List.mem_map.1 hgs
      exact hall p hp
    · intro idx v
      rw [onVec_dlcs f, ← hiff idx v, ← productF_exists (P := fun g => g.onVec idx v = true)]
      simp only [List.mem_map, exists_exists_and_eq_and, Forb.onVec, onVecAll_iff, List.mem_append]
      constructor
      · rintro ⟨⟨p, hp, h1⟩, h2⟩
        exact ⟨p, hp, fun g hg => hg.elim (h1 g) (h2 g)⟩
      · rintro ⟨p, hp, h1⟩
        exact ⟨⟨p, hp, fun g hg => h1 g (.inl hg)⟩, fun g hg => h1 g (.inr hg)⟩

/-! ## Reading a line -/

theorem ppNumber_none {t r : Chars} (hp : Plain t)
    (h : ∀ c, t.head? = some c → c.isDigit = false ∧ c ≠ '+' ∧ c ≠ '-' ∧ c ≠ '.') : ppNumber (t ++ r) = none := by
  cases t with
  | nil => exact absurd rfl hp.1
  | cons c t =>
    obtain ⟨h1, h2, h3, h4⟩ := h c rfl
    have hs : rSign (c :: (t ++ r)) = none := by
      unfold rSign rAlt
      rw [rLit_none (by simpa using h2), rLit_none (by simpa using h3)]
    have ho : rOpt rSign (c :: (t ++ r)) = some ([], c :: (t ++ r)) := by unfold rOpt; rw [hs]
    have hd : rWord Char.isDigit (c :: (t ++ r)) = none := rWord_none (ends_cons h1)
    have hi : rInt (c :: (t ++ r)) = none := by unfold rInt rSeq; rw [ho]; simp only [hd]
    have ho' : rOpt rInt (c :: (t ++ r)) = some ([], c :: (t ++ r)) := by unfold rOpt; rw [hi]
    have hf : rFloat (c :: (t ++ r)) = none := by
      unfold rFloat rSeq
      rw [ho]
      simp only [ho', rLit_none (c := '.') (t := []) (r := c :: (t ++ r)) (by simpa using h4)]
    have he : rENotation (c :: (t ++ r)) = none := by
      unfold rENotation rSeq rAlt
      simp only [hf, hi]
    refine tok_none (ends_cons (hp.ws c (by simp))) ?_
    show rAlt rENotation (rAlt rFloat rInt) (c :: (t ++ r)) = none
    unfold rAlt
    simp only [he, hf, hi]

theorem ppNumberOrName_ok {t r : Chars} (hp : Plain t) (h : ClauseWord t) (hr : NumEnd r) (hr' : Ends nameChar r) :
    ppNumberOrName (t ++ r) = some ([t], r) := by
  unfold ppNumberOrName pAlt
  rcases h with h | h
  · rw [ppNumber_ok h hr]
  · rw [ppNumber_none hp h]
    exact ppName_ok hp hr'

/-- What may follow a pair. -/
def PairEnd (r : Chars) : Prop := NumEnd r ∧ Ends nameChar r

theorem pairEnd_brace (r : Chars) : PairEnd ('}' :: r) := ⟨numEnd_cons (by decide), ends_cons (by decide)⟩
theorem pairEnd_comma (r : Chars) : PairEnd (',' :: r) := ⟨numEnd_cons (by decide), ends_cons (by decide)⟩

/-- The pairs of the line are words. -/
def GoodPair (T : PyText) (nv : Name × Val) : Prop :=
  Plain nv.1.toList ∧ Plain (T.chars nv.2) ∧ ClauseWord (T.chars nv.2)

/-- The tokens of the pairs. -/
def pairToks (T : PyText) : PcsLine → List Chars
  | [] => []
  | (n, v) :: ps => n.toList :: ['='] :: T.chars v :: ps.flatMap (fun nv => [[','], nv.1.toList, ['='], T.chars nv.2])

theorem ppPair_ok {T : PyText} {nv : Name × Val} (h : GoodPair T nv) {r : Chars} (hr : PairEnd r) {ps : List Parser} :
    pSeq (ppName :: pLit "=" :: ppNumberOrName :: ps) (nv.1.toList ++ '=' :: (T.chars nv.2 ++ r)) =
      (pSeq ps r).map (fun x => ([nv.1.toList, ['='], T.chars nv.2] ++ x.1, x.2)) := by
  rw [pSeq_step (ppName_ok h.1 (ends_cons (by decide))),
    pSeq_step (lit_char (t := "=") (c := '=') rfl (by decide)),
    pSeq_step (ppNumberOrName_ok h.2.1 h.2.2 hr.1 hr.2)]
  cases pSeq ps r <;> simp

theorem ppForbidden_ok {T : PyText} {p : Name × Val} {ps : PcsLine} (h : ∀ nv ∈ p :: ps, GoodPair T nv) :
    ppForbidden (forbText T (p :: ps)) = some (['{'] :: (pairToks T (p :: ps) ++ [['}']]), []) := by
  have hm := pMany_ok (p := pSeq [pLit ",", ppName, pLit "=", ppNumberOrName])
    (txt := fun nv : Name × Val => ',' :: ' ' :: (nv.1.toList ++ '=' :: T.chars nv.2))
    (tks := fun nv => [[','], nv.1.toList, ['='], T.chars nv.2]) (G := PairEnd) (rest := ['}']) (pairEnd_brace _)
    (pSeq_fail (lit_char_none (t := ",") (c := ',') rfl (by decide) (by decide))) ps (by
      intro nv hnv r hr
      show pSeq _ (',' :: ' ' :: ((nv.1.toList ++ '=' :: T.chars nv.2) ++ r)) = _
      rw [pSeq_step (lit_char (t := ",") (c := ',') rfl (by decide))]
      have hsp : ∀ x : Chars, pSeq [ppName, pLit "=", ppNumberOrName] (' ' :: x) = pSeq [ppName, pLit "=", ppNumberOrName] x := by
        intro x
        rw [pSeq, pSeq, show ppName (' ' :: x) = ppName x from tok_space _ _]
      rw [hsp, List.append_assoc, List.cons_append, ppPair_ok (h nv (by simp [hnv])) hr, pSeq_nil]
      simp) (fun nv _ r => pairEnd_comma _) (by simp)
  have e : forbText T (p :: ps) = '{' :: (p.1.toList ++ '=' :: (T.chars p.2 ++
      (ps.flatMap (fun nv : Name × Val => ',' :: ' ' :: (nv.1.toList ++ '=' :: T.chars nv.2)) ++ ['}']))) := by
    unfold forbText
    rw [List.map_cons, joinWith_cons, List.flatMap_map]
    simp
  have hend : PairEnd (ps.flatMap (fun nv : Name × Val => ',' :: ' ' :: (nv.1.toList ++ '=' :: T.chars nv.2)) ++ ['}']) := by
    cases ps with
    | nil => exact pairEnd_brace _
    | cons q ps => exact pairEnd_comma _
  rw [e]
  unfold ppForbidden
  rw [pSeq_step (lit_char (t := "{") (c := '{') rfl (by decide)), ppPair_ok (h p (by simp)) hend, pSeq_step hm,
    pSeq_step (lit_char (t := "}") (c := '}') rfl (by decide)), pSeq_nil]
  simp [pairToks]

theorem forbValue_ok {T : PyText} (hT : NumberTexts T) {h : HP} (hh : WritableHP h) {v : Val} {x : Rat}
    (hw : (Forb.eq h v x).wf = true) (hv : Typed h v) : forbValue T h (T.chars v) = .ok v := by
  simp only [Forb.wf, Bool.and_eq_true, decide_eq_true_eq] at hw
  have hl := hw.1.2
  have hc := (value_text hT hh hv).2
  unfold WritableHP at hh
  unfold Typed at hv
  unfold condValue at hc
  unfold forbValue
  cases hk : h.kind with
  | cat cs =>
    rw [hk] at hc hl
    simp only [Except.ok.injEq] at hc
    simp only [Kind.legalValue] at hl
    simp only [hc, hl, if_true]
  | ord cs =>
    rw [hk] at hc hl
    simp only [Except.ok.injEq] at hc
    simp only [Kind.legalValue] at hl
    simp only [hc, hl, if_true]
  | const c => rw [hk] at hh; exact hh.2.elim
  | int l u =>
    rw [hk] at hv hl
    obtain ⟨n, rfl⟩ := hv
    simp only [PyText.readInt, PyText.chars, PyText.str, String.ofList_toList, hT.int]
    simp only [Kind.legalValue, Val.num?, Bool.and_eq_true, decide_eq_true_eq, rint_int] at hl
    rw [if_neg (by omega)]
  | flt l u =>
    rw [hk] at hv hl
    obtain ⟨q, rfl⟩ := hv
    simp only [PyText.readFloat, PyText.chars, PyText.str, String.ofList_toList, hT.float]
    simp only [Kind.legalValue, Val.num?, Bool.and_eq_true, decide_eq_true_eq] at hl
    rw [if_neg (by rintro (h | h)
                   · exact absurd hl.1 (Rat.not_le.2 h)
                   · exact absurd hl.2 (Rat.not_le.2 h))]

theorem goodEq_pair {T : PyText} (hT : NumberTexts T) {hs : List HP} (hh : ∀ h ∈ hs, WritableHP h) {gs : List Forb}
    (hg : ∀ g ∈ gs, GoodEq T hs g) : ∀ nv ∈ pairsOf gs, GoodPair T nv := by
  induction gs with
  | nil => intro nv h; cases h
  | cons g gs ih =>
    obtain ⟨h, v, x, rfl, hw, hv, hm⟩ := hg g (by simp)
    intro nv hnv
    rcases List.mem_cons.1 hnv with rfl | hnv
    · exact ⟨(hh h hm).1, (value_text hT (hh h hm) hv.1).1, hv.2⟩
    · exact ih (fun k hk => hg k (by simp [hk])) nv hnv

theorem forbClauses_ok {T : PyText} (hT : NumberTexts T) {hs : List HP} (hh : ∀ h ∈ hs, WritableHP h) {s : Space} (hlk : Looked s)
    (hin : ∀ h ∈ hs, h ∈ s.com.map Node.hp) : ∀ {g : Forb} {gs : List Forb}, (∀ k ∈ g :: gs, GoodEq T hs k) →
    forbClauses T s (pairToks T (pairsOf (g :: gs)) ++ [['}']]) = .ok (g :: gs) := by
  intro g gs
  induction gs generalizing g with
  | nil =>
    intro hg
    obtain ⟨h, v, x, rfl, hw, hv, hm⟩ := hg g (by simp)
    simp only [pairsOf, pairToks, List.flatMap_nil, List.cons_append, List.nil_append, forbClauses]
    rw [if_pos (by decide), String.ofList_toList, getHP_ok hlk (hin h hm)]
    simp only
    rw [forbValue_ok hT (hh h hm) hw hv.1]
    simp only
    rw [mkForbEq_own hw]
  | cons k gs ih =>
    intro hg
    obtain ⟨h, v, x, rfl, hw, hv, hm⟩ := hg g (by simp)
    have hrest := ih (g := k) (fun j hj => hg j (by simp [hj]))
    obtain ⟨h', v', x', rfl, -⟩ := hg k (by simp)
    simp only [pairsOf, pairToks, List.flatMap_cons, List.cons_append, List.nil_append] at hrest ⊢
    rw [forbClauses]
    rw [if_pos (by decide), String.ofList_toList, getHP_ok hlk (hin h hm)]
    simp only
    rw [forbValue_ok hT (hh h hm) hw hv.1]
    simp only
    rw [mkForbEq_own hw, hrest]

theorem readForbidden_ok {T : PyText} (hT : NumberTexts T) {hs : List HP} (hh : ∀ h ∈ hs, WritableHP h) {s : Space} (hlk : Looked s)
    (hin : ∀ h ∈ hs, h ∈ s.com.map Node.hp) {gs : List Forb} (hne : gs ≠ []) (hg : ∀ k ∈ gs, GoodEq T hs k) :
    readForbidden T s (forbText T (pairsOf gs)) = .ok (.and gs) := by
  cases gs with
  | nil => exact absurd rfl hne
  | cons g gs =>
    have hp := goodEq_pair hT hh hg
    have hc := forbClauses_ok hT hh hlk hin hg
    obtain ⟨h, v, x, rfl, -⟩ := hg g (by simp)
    unfold readForbidden
    rw [show pairsOf (.eq h v x :: gs) = (h.name, v) :: pairsOf gs from rfl] at hp hc ⊢
    rw [ppForbidden_ok hp]
    simp only [List.drop_succ_cons, List.drop_zero]
    rw [hc]

/-- The form of a line of a clause. -/
theorem forbText_line {T : PyText} {ps : PcsLine} (h : ∀ nv ∈ ps, GoodPair T nv) :
    ∃ cs, forbText T ps = '{' :: (cs ++ ['}']) ∧ ∀ c ∈ cs, parChar c = true := by
  refine ⟨joinWith ", ".toList (ps.map (fun nv => nv.1.toList ++ "=".toList ++ T.chars nv.2)), by simp [forbText], ?_⟩
  have hcm : ∀ c ∈ ", ".toList, parChar c = true := by decide
  have heq : ∀ c ∈ "=".toList, parChar c = true := by decide
  intro c hc
  rcases mem_joinWith hc with hc | ⟨w, hw, hc⟩
  · exact hcm c hc
  · obtain ⟨nv, hnv, rfl⟩ := List.mem_map.1 hw
    obtain ⟨h1, h2, -⟩ := h nv hnv
    rcases List.mem_append.1 hc with hc | hc
    · rcases List.mem_append.1 hc with hc | hc
      · exact h1.par c hc
      · exact heq c hc
    · exact h2.par c hc

end Verif
