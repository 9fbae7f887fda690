import Verif.Model.Space

/-!
# A call of `add` that is interrupted
-/

set_option autoImplicit false

namespace Verif

/-- What is left when `ConfigurationSpace.add` is interrupted in its transaction (KeyboardInterrupt, an exception of a signal handler) after it
entered the given items, before the next one or before the transaction stores what it computes (configuration_space.py:340-348).  The exception goes
through `DAG.update`, which only resets its flag (_condition_tree.py:451-459): nothing is taken back, and nothing of what follows
(_condition_tree.py:461-) is done.  Simplified: a node that was entered has the position `len(nodes)` until the transaction ends
(_condition_tree.py:657), so that the validator raises IndexError for it (util.py:579); here it has a position outside of every array too, and the
validator says that its value is missing. -/
def Space.addInterrupted (s : Space) (hps : List HP) (cs : List Cond) (fs : List Forb) : Space :=
  { s with dag := (s.dag.addAll hps cs fs).1 }

/-- What is left when `ConfigurationSpace.add` is interrupted while its transaction stores what it computes from the graph `g`, or after that and before
the length is stored (_condition_tree.py:461-633, configuration_space.py:350).  `n` counts what is stored, in this order: the nodes and the roots
(_condition_tree.py:483-488), the clauses on roots alone (_condition_tree.py:528), the other clauses (_condition_tree.py:529), the clauses in the form in
which they are checked (_condition_tree.py:533), the minimum conditions (_condition_tree.py:595), what an exchange looks at
(_condition_tree.py:619-633).  Simplified: the nodes and all that is computed from them alone are stored in one step, and so is what an exchange looks
at; the clauses that the nodes themselves keep are not part of the model (they are made unique whenever they are stored, _condition_tree.py:526). -/
def Space.storeInterrupted (s : Space) (g : Dag) (n : Nat) : Space :=
  let ns := sortNodes g.nodes
  let roots := rootNames ns
  let fs := sortForbs (g.uncond ++ g.condF)
  let uncond := fs.filter (isUncondForb roots)
  let condF := fs.filter (fun f => !isUncondForb roots f)
  let cs := minCondsSorted ns
  { s with
    dag := {
      nodes := if 1 ≤ n then ns else g.nodes
      roots := if 1 ≤ n then roots else g.roots
      uncond := if 2 ≤ n then uncond else g.uncond
      condF := if 3 ≤ n then condF else g.condF }
    com := if 1 ≤ n then ns else s.com
    fast := if 4 ≤ n then (match optimizedForbs (idxOf ns) (uncond ++ condF) with | .ok fast => fast | .error _ => s.fast) else s.fast
    minConds := if 5 ≤ n then cs else s.minConds
    lookup := if 6 ≤ n then changeLookup ns cs else s.lookup }

end Verif
