import Verif.Spec.Args
import Verif.Props.Graph
import Verif.Props.Atomic

/-!
# Arguments of `add` (C81) and the space as a mapping (C82)
-/

set_option autoImplicit false

namespace Verif
open Verif.Spec

/-! ## Flattening -/

theorem leaves_iter (xs : List Arg) : leaves (.iter xs) = xs.flatMap leaves := by
  rw [leaves]
  simp [List.flatMap]

theorem depth_iter (xs : List Arg) : depth (.iter xs) = 1 + (xs.map depth).foldr max 0 := by
  rw [depth]
  simp

/-- A list of objects put behind what was collected before. -/
def Call.put (k : Call) (xs : List Arg) : Call :=
  ⟨k.hps ++ hpsOf xs, k.conds ++ condsOf xs, k.forbs ++ forbsOf xs⟩

theorem Call.put_nil (k : Call) : k.put [] = k := by
  simp [Call.put, hpsOf, condsOf, forbsOf]

theorem Call.put_append (k : Call) (xs ys : List Arg) : k.put (xs ++ ys) = (k.put xs).put ys := by
  simp [Call.put, hpsOf, condsOf, forbsOf]

/-- An induction principle for nested arguments. -/
theorem Arg.induct {P : Arg → Prop} (hp : ∀ h, P (.hp h)) (cond : ∀ c, P (.cond c)) (forb : ∀ f, P (.forb f))
    (iter : ∀ xs : List Arg, (∀ x ∈ xs, P x) → P (.iter xs)) (text : ∀ s, P (.text s)) (other : P .other) : ∀ x, P x
  | .hp h => hp h
  | .cond c => cond c
  | .forb f => forb f
  | .iter xs => iter xs fun x _ => Arg.induct hp cond forb iter text other x
  | .text s => text s
  | .other => other

theorem foldr_max_le {xs : List Nat} {n : Nat} : xs.foldr max 0 ≤ n ↔ ∀ x ∈ xs, x ≤ n := by
  induction xs with
  | nil => simp
  | cons x xs ih => simp [ih, Nat.max_le]

theorem putToList_ok : ∀ (x : Arg) (n : Nat) (k k' : Call),
    putToList n k x = .ok k' ↔ (depth x ≤ n ∧ ∀ y ∈ leaves x, Proper y) ∧ k' = k.put (leaves x) := by
  intro x
  induction x using Arg.induct with
  | hp h =>
    intro n k k'
    cases n with
    | zero => simp [putToList, depth]
    | succ n =>
      simp only [putToList, depth, leaves, Except.ok.injEq]
      simp [Proper, Call.put, hpsOf, condsOf, forbsOf, eq_comm]
  | cond h =>
    intro n k k'
    cases n with
    | zero => simp [putToList, depth]
    | succ n =>
      simp only [putToList, depth, leaves, Except.ok.injEq]
      simp [Proper, Call.put, hpsOf, condsOf, forbsOf, eq_comm]
  | forb h =>
    intro n k k'
    cases n with
    | zero => simp [putToList, depth]
    | succ n =>
      simp only [putToList, depth, leaves, Except.ok.injEq]
      simp [Proper, Call.put, hpsOf, condsOf, forbsOf, eq_comm]
  | other =>
    intro n k k'
    cases n with
    | zero => simp [putToList, depth]
    | succ n => simp [putToList, leaves, Proper]
  | text s =>
    intro n k k'
    have hone : ∀ (m : Nat) (k k' : Call) (c : Char), putToList m k (.text [c]) ≠ .ok k' := by
      intro m
      induction m with
      | zero => intro k k' c; simp [putToList]
      | succ m ih =>
        intro k k' c h
        simp only [putToList, List.foldlM_cons, List.foldlM_nil] at h
        cases hx : putToList m k (.text [c]) with
        | error e => rw [hx] at h; cases h
        | ok k2 => exact ih _ _ _ hx
    cases n with
    | zero => simp [putToList, depth]
    | succ n =>
      cases s with
      | nil =>
        simp only [putToList, List.foldlM_nil, leaves, depth, Call.put_nil]
        constructor
        · intro h; cases h; exact ⟨⟨by omega, by simp⟩, rfl⟩
        · rintro ⟨_, rfl⟩; rfl
      | cons c s =>
        constructor
        · intro h
          simp only [putToList, List.foldlM_cons] at h
          cases hx : putToList n k (.text [c]) with
          | error e => rw [hx] at h; cases h
          | ok k2 => exact absurd hx (hone _ _ _ _)
        · rintro ⟨⟨_, h⟩, _⟩
          exact absurd (h (.text (c :: s)) (by simp [leaves])) (by simp [Proper])
  | iter xs ih =>
    intro n k k'
    cases n with
    | zero => simp [putToList, depth_iter]
    | succ n =>
      rw [putToList, leaves_iter, depth_iter]
      have e : 1 + (xs.map depth).foldr max 0 ≤ n + 1 ↔ ∀ x ∈ xs, depth x ≤ n := by
        rw [Nat.add_comm, Nat.add_le_add_iff_right, foldr_max_le]
        simp
      rw [e]
      clear e
      induction xs generalizing k with
      | nil =>
        simp only [List.foldlM_nil, List.flatMap_nil, Call.put_nil]
        constructor
        · intro h; cases h; exact ⟨⟨by simp, by simp⟩, rfl⟩
        · rintro ⟨_, rfl⟩; rfl
      | cons x xs ihx =>
        simp only [List.foldlM_cons, List.flatMap_cons, Call.put_append]
        constructor
        · intro h
          cases hx : putToList n k x with
          | error e => rw [hx] at h; cases h
          | ok k2 =>
            rw [hx] at h
            obtain ⟨⟨a, b⟩, rfl⟩ := (ih x (List.mem_cons_self ..) n k k2).1 hx
            obtain ⟨⟨c, d⟩, hk⟩ := (ihx (fun y hy => ih y (List.mem_cons_of_mem _ hy)) _).1 h
            refine ⟨⟨?_, ?_⟩, hk⟩
            · intro y hy
              rcases List.mem_cons.1 hy with rfl | hy
              · exact a
              · exact c y hy
            · intro y hy
              rcases List.mem_append.1 hy with hy | hy
              · exact b y hy
              · exact d y hy
        · rintro ⟨⟨a, b⟩, hk⟩
          rw [(ih x (List.mem_cons_self ..) n k _).2 ⟨⟨a x (List.mem_cons_self ..), fun y hy => b y (List.mem_append_left _ hy)⟩, rfl⟩]
          exact (ihx (fun y hy => ih y (List.mem_cons_of_mem _ hy)) _).2
            ⟨⟨fun y hy => a y (List.mem_cons_of_mem _ hy), fun y hy => b y (List.mem_append_right _ hy)⟩, hk⟩

theorem putAll_eq (limit : Nat) (args : List Arg) :
    args.foldlM (fun k x => putToList limit k x) ({} : Call) = putToList (limit + 1) {} (.iter args) := by
  rw [putToList]

/-- What a call of `add` adds: the objects in the arguments, sorted by kind. -/
def argsCall (args : List Arg) : Call :=
  ⟨hpsOf (args.flatMap leaves), condsOf (args.flatMap leaves), forbsOf (args.flatMap leaves)⟩

theorem putAll_ok (limit : Nat) (args : List Arg) (k : Call) :
    args.foldlM (fun k x => putToList limit k x) ({} : Call) = .ok k ↔
      ((∀ x ∈ args, depth x ≤ limit) ∧ ∀ y ∈ args.flatMap leaves, Proper y) ∧ k = argsCall args := by
  rw [putAll_eq, putToList_ok, leaves_iter, depth_iter, Nat.add_comm, Nat.add_le_add_iff_right, foldr_max_le]
  simp [Call.put, argsCall]

/-- **C81**: however the arguments are nested and in whatever order the kinds come, `add` adds the hyperparameters, then the
conditions, then the clauses that they contain, each in the order in which they are written. -/
theorem C81_nesting_is_irrelevant (limit : Nat) (s : Space) (args : List Arg) (hd : ∀ x ∈ args, depth x ≤ limit)
    (hp : ∀ y ∈ args.flatMap leaves, Proper y) :
    s.addArgs limit args =
      s.add (hpsOf (args.flatMap leaves)) (condsOf (args.flatMap leaves)) (forbsOf (args.flatMap leaves)) := by
  unfold Space.addArgs
  rw [(putAll_ok limit args _).2 ⟨⟨hd, hp⟩, rfl⟩]
  rfl

/-- **C81**: two calls with the same hyperparameters, conditions and clauses, each kind in the same order, do the same: only the
order within a kind can matter. -/
theorem C81_same_content_same_result (limit : Nat) (s : Space) (args args' : List Arg)
    (hd : ∀ x ∈ args ++ args', depth x ≤ limit) (hp : ∀ y ∈ (args ++ args').flatMap leaves, Proper y)
    (h1 : hpsOf (args.flatMap leaves) = hpsOf (args'.flatMap leaves))
    (h2 : condsOf (args.flatMap leaves) = condsOf (args'.flatMap leaves))
    (h3 : forbsOf (args.flatMap leaves) = forbsOf (args'.flatMap leaves)) :
    s.addArgs limit args = s.addArgs limit args' := by
  rw [List.flatMap_append] at hp
  rw [C81_nesting_is_irrelevant limit s args (fun x hx => hd x (List.mem_append_left _ hx))
      (fun y hy => hp y (List.mem_append_left _ hy)),
    C81_nesting_is_irrelevant limit s args' (fun x hx => hd x (List.mem_append_right _ hx))
      (fun y hy => hp y (List.mem_append_right _ hy)), h1, h2, h3]

/-- **C81**: arguments that contain anything else (or are nested too deeply) raise before anything is added. -/
theorem C81_improper_arguments_change_nothing (limit : Nat) (s : Space) (args : List Arg)
    (h : (∃ x ∈ args, limit < depth x) ∨ ∃ y ∈ args.flatMap leaves, ¬ Proper y) :
    (s.addArgs limit args).1 = s ∧ ((s.addArgs limit args).2 = some .typeError ∨ (s.addArgs limit args).2 = some .runtimeError) := by
  have herr : ∀ (n : Nat) (x : Arg) (k : Call) (e : Err), putToList n k x = .error e → e = .typeError ∨ e = .runtimeError := by
    intro n
    induction n with
    | zero => intro x k e he; simp [putToList] at he; exact .inr he.symm
    | succ n ih =>
      have hfold : ∀ (xs : List Arg) (k : Call) (e : Err), xs.foldlM (fun k x => putToList n k x) k = .error e →
          e = .typeError ∨ e = .runtimeError := by
        intro xs
        induction xs with
        | nil => intro k e he; cases he
        | cons x xs ihx =>
          intro k e he
          simp only [List.foldlM_cons] at he
          cases hx : putToList n k x with
          | error e' => rw [hx] at he; cases he; exact ih _ _ _ hx
          | ok k' => rw [hx] at he; exact ihx _ _ he
      intro x k e he
      cases x with
      | hp h => simp [putToList] at he
      | cond h => simp [putToList] at he
      | forb h => simp [putToList] at he
      | other => simp [putToList] at he; exact .inl he.symm
      | iter xs => exact hfold xs k e (by simpa [putToList] using he)
      | text t =>
        refine hfold (t.map fun c => .text [c]) k e ?_
        rw [List.foldlM_map]
        simpa [putToList] using he
  unfold Space.addArgs
  cases hx : args.foldlM (fun k x => putToList limit k x) ({} : Call) with
  | ok k =>
    exfalso
    obtain ⟨⟨a, b⟩, _⟩ := (putAll_ok limit args k).1 hx
    rcases h with ⟨x, hx, hl⟩ | ⟨y, hy, hn⟩
    · have := a x hx; omega
    · exact hn (b y hy)
  | error e =>
    refine ⟨rfl, ?_⟩
    rw [putAll_eq] at hx
    rcases herr _ _ _ _ hx with rfl | rfl
    · exact .inl rfl
    · exact .inr rfl

/-- **C81**: an object that does not belong into a space raises a `TypeError` when what comes before it is proper and there are
calls left. -/
theorem C81_type_error (limit : Nat) (s : Space) (before after : List Arg) (hl : 0 < limit) (hd : ∀ x ∈ before, depth x ≤ limit)
    (hp : ∀ y ∈ before.flatMap leaves, Proper y) : s.addArgs limit (before ++ .other :: after) = (s, some .typeError) := by
  unfold Space.addArgs
  rw [List.foldlM_append, (putAll_ok limit before _).2 ⟨⟨hd, hp⟩, rfl⟩]
  obtain ⟨n, rfl⟩ : ∃ n, limit = n + 1 := ⟨limit - 1, by omega⟩
  rfl

/-- C81, false of the code: a text is not reported as an object of an unknown type.  Its characters are texts again, so that the
collection never ends: whatever the limit of nested calls is, it is exceeded (`RecursionError`).  The empty text is accepted. -/
theorem C81_text_recurses (limit : Nat) (s : Space) (c : Char) (t : List Char) :
    s.addArgs limit [.text (c :: t)] = (s, some .runtimeError) ∧ s.addArgs (limit + 1) [.text []] = s.add [] [] [] := by
  have hone : ∀ (m : Nat) (k : Call) (t : List Char), putToList m k (.text (c :: t)) = .error .runtimeError := by
    intro m
    induction m with
    | zero => intro k t; rfl
    | succ m ih =>
      intro k t
      simp only [putToList, List.foldlM_cons]
      rw [ih k []]
      rfl
  constructor
  · unfold Space.addArgs
    simp only [List.foldlM_cons]
    rw [hone]
    rfl
  · rfl

example : ∃ args : List Arg, (∀ x ∈ args, depth x ≤ 100) ∧ (∀ y ∈ args.flatMap leaves, Proper y) ∧
    (({} : Space).addArgs 100 args).2 = none ∧ (({} : Space).addArgs 100 args).1.names = ["alg", "k"] :=
  ⟨[.cond Ex.condK, .iter [.hp Ex.hpK, .iter [.hp Ex.hpAlg], .text []]], by simp [depth_iter, depth],
    by simp [leaves_iter, leaves, Proper], by decide +kernel, by decide +kernel⟩

/-! ## The space as a mapping -/

theorem find_name {ns : List Node} (hnd : (ns.map Node.name).Nodup) {x : Node} (hx : x ∈ ns) :
    ns.find? (fun y => y.name == x.name) = some x := by
  induction ns with
  | nil => cases hx
  | cons y ys ih =>
    simp only [List.map_cons, List.nodup_cons] at hnd
    rcases List.mem_cons.1 hx with rfl | hx
    · simp
    · have : y.name ≠ x.name := fun e => hnd.1 (e ▸ List.mem_map.2 ⟨x, hx, rfl⟩)
      rw [List.find?_cons_of_neg (by simpa using this)]
      exact ih hnd.2 hx

/-- **C82**: a space behaves like a dictionary from the names to the hyperparameters that were added: the keys are the names, each
once; their number is `len(space)`; `space[name]` is the hyperparameter that was added under this name, and a `KeyError` if there is
none; `items()` and `values()` list the same hyperparameters in the order of the keys; `at` is the list of keys and `index_of` its
inverse. -/
theorem C82_mapping {calls : List Call} {s : Space} (h : Reach calls s) :
    s.keys.Nodup ∧ (∀ n, n ∈ s.keys ↔ ∃ x ∈ allHps calls, x.name = n) ∧ s.length = s.keys.length ∧
    (∀ n x, s.getHp? n = some x ↔ x ∈ allHps calls ∧ x.name = n) ∧
    s.items.map Prod.fst = s.keys ∧ (∀ p ∈ s.items, s.getHp? p.1 = some p.2) ∧
    s.hpValues = s.items.map (fun p => some p.2) ∧
    (∀ i, s.at? i = s.keys[i]?) ∧ (∀ n i, s.indexOf? n = some i ↔ s.at? i = some n) := by
  have hi := sinv_of_reach h
  have hn := reach_ninv h
  obtain ⟨c1, c2, c3, c4, c5, c6⟩ := C02_names_index_bijection h
  have hk : s.keys = s.names := by unfold Space.keys Space.names; rw [hi.com]
  have hnd : (s.dag.nodes.map Node.name).Nodup := by
    have : s.keys.Nodup := by rw [hk]; exact c1
    exact this
  have hperm : (s.dag.nodes.map Node.hp).Perm (allHps calls) := by
    have := hi.hist.hps
    exact this
  have hget : ∀ x ∈ s.dag.nodes, s.getHp? x.name = some x.hp := by
    intro x hx
    unfold Space.getHp?
    rw [find_name hnd hx]; rfl
  have hiff : ∀ n x, s.getHp? n = some x ↔ x ∈ allHps calls ∧ x.name = n := by
    intro n x
    constructor
    · intro he
      unfold Space.getHp? at he
      cases hf : s.dag.nodes.find? (fun y => y.name == n) with
      | none => rw [hf] at he; cases he
      | some y =>
        rw [hf] at he; cases he
        have h1 := List.mem_of_find?_eq_some hf
        have h2 := List.find?_some hf
        exact ⟨hperm.subset (List.mem_map.2 ⟨y, h1, rfl⟩), show y.name = n by simpa using h2⟩
    · rintro ⟨hx, rfl⟩
      obtain ⟨y, hy, rfl⟩ := List.mem_map.1 (hperm.symm.subset hx)
      exact hget y hy
  refine ⟨hnd, ?_, ?_, hiff, ?_, ?_, ?_, ?_, ?_⟩
  · intro n
    rw [hk, c2]
    rfl
  · rw [hk]; exact c4
  · unfold Space.items Space.keys; simp [Function.comp_def]
  · intro p hp
    obtain ⟨x, hx, rfl⟩ := List.mem_map.1 hp
    exact hget x hx
  · unfold Space.hpValues Space.items Space.keys
    rw [List.map_map, List.map_map]
    apply List.map_congr_left
    intro x hx
    exact hget x hx
  · intro i; unfold Space.at?; rw [hk]
  · intro n i
    unfold Space.indexOf? Space.at?
    constructor
    · intro he
      split at he
      · rename_i hm
        cases he
        exact c5 n hm
      · cases he
    · intro he
      have hm : n ∈ s.names := List.mem_of_getElem? he
      rw [if_pos hm, c6 i n he]

/-- C82, false of the code after a rejected call: the keys already contain a hyperparameter of the rejected call, which is neither
counted by `len` nor has it a position. -/
theorem C82_rejected_call_breaks_mapping :
    ∃ (s s' : Space) (k : Call) (e : Err), Built s ∧ k.wf ∧ s.add k.hps k.conds k.forbs = (s', some e) ∧
      s'.length ≠ s'.keys.length ∧ ∃ n ∈ s'.keys, s'.indexOf? n = none :=
  ⟨{}, _, ⟨[Ex.hpX, Ex.hpK, Ex.hpK], [], []⟩, .alreadyExists "k", ⟨[], .nil⟩, by decide +kernel, rfl, by decide +kernel,
    "x", by decide +kernel, by decide +kernel⟩

/-- Nesting, a third argument that is no iterable, and a text, on the same arguments. -/
example (s : Space) : s.addArgs 100 [.cond Ex.condK, .iter [.hp Ex.hpK, .iter [.hp Ex.hpAlg], .text []]] =
    s.add [Ex.hpK, Ex.hpAlg] [Ex.condK] [] :=
  (C81_nesting_is_irrelevant 100 s [.cond Ex.condK, .iter [.hp Ex.hpK, .iter [.hp Ex.hpAlg], .text []]] (by simp [depth_iter, depth])
    (by simp [leaves_iter, leaves, Proper])).trans (by simp [leaves_iter, leaves, Spec.hpsOf, Spec.condsOf, Spec.forbsOf])

example (s : Space) : s.addArgs 100 [.cond Ex.condK, .iter [.hp Ex.hpK, .iter [.hp Ex.hpAlg]]] =
    s.addArgs 100 [.hp Ex.hpK, .iter [.cond Ex.condK], .hp Ex.hpAlg] :=
  C81_same_content_same_result 100 s _ _ (by simp [depth_iter, depth]) (by simp [leaves_iter, leaves, Proper]) (by simp [leaves_iter, leaves, Spec.hpsOf])
    (by simp [leaves_iter, leaves, Spec.condsOf]) (by simp [leaves_iter, leaves, Spec.forbsOf])

example (s : Space) : (s.addArgs 100 [.hp Ex.hpK, .iter [.cond Ex.condK, .other]]).1 = s :=
  (C81_improper_arguments_change_nothing 100 s _ (.inr ⟨.other, by simp [leaves_iter, leaves], by simp [Proper]⟩)).1

example (s : Space) : s.addArgs 100 [.iter [.hp Ex.hpK, .hp Ex.hpAlg], .other, .cond Ex.condK] = (s, some .typeError) :=
  C81_type_error 100 s [.iter [.hp Ex.hpK, .hp Ex.hpAlg]] [.cond Ex.condK] (by decide) (by simp [depth_iter, depth])
    (by simp [leaves_iter, leaves, Proper])

example : Ex.sp2.length = Ex.sp2.keys.length ∧ Ex.sp2.getHp? "k" = some Ex.hpK :=
  ⟨(C82_mapping Ex.reach2).2.2.1, ((C82_mapping Ex.reach2).2.2.2.1 "k" Ex.hpK).2 ⟨by simp [allHps, Ex.call1], rfl⟩⟩

end Verif
