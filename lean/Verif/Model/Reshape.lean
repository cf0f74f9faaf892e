/-
Changing the shape of a collection: fewer or more channels, another length of the Fock state, merging of duplicates.
Models src/fock_state_circuit/collection_of_states.py 737-1063.
Exceptions are `none`. Simplification: `auxiliary_information` is handed through unchanged by the code and not modelled.
-/
import Verif.Model.Collection

namespace Verif

/-- A collection together with the settings it takes from its circuit (collection_of_states.py 290-322). -/
structure Collection where
  g : Cfg
  /-- number of classical channels -/
  m : ℕ
  /-- threshold_probability_for_setting_to_zero -/
  thr : ℝ
  states : Coll

open Classical in
/-- state.py 119-178: construction of a `State` from a dictionary; `none`: 'invalid state'. -/
noncomputable def newState (thr : ℝ) (m : ℕ) (q : QState) : Option QState := if CheckValid thr m q then some q else none

/-- collection_of_states.py 787: the values of the kept channels, in the given order. -/
def keepVals (keep : List ℕ) (v : Vals) : Vals := keep.map (fun c => v.getD c 0)

/-- collection_of_states.py 789: the values of the other channels. -/
def dropVals (g : Cfg) (keep : List ℕ) (v : Vals) : Vals := ((List.range g.C).filter (fun c => c ∉ keep)).map (fun c => v.getD c 0)

/-- collection_of_states.py 790: the name of the traced-out values. -/
def dropName (g : Cfg) (keep : List ℕ) (v : Vals) : List Char := ((dropVals g keep v).map (fmt g.digits)).flatten

/-- collection_of_states.py 785-791 and 794-803: sort the components by the name of the traced-out values
(`none`: KeyError of the lookup table). -/
def groupTraced (g : Cfg) (keep : List ℕ) (c : Comps) : Option (Dict (List Char) Comps) :=
  c.foldlM (fun (d : Dict (List Char) Comps) p => do
    let v ← g.parse p.1
    if g.containsVals v then
      let s ← (⟨g.L, keep.length, g.left⟩ : Cfg).render (keepVals keep v)
      some (d.set (dropName g keep v) (((d.get? (dropName g keep v)).getD []).set s p.2))
    else none) []

/-- collection_of_states.py 806-825: the new state for one traced-out value (`none`: division by zero or invalid state). -/
noncomputable def reducedState (thr : ℝ) (m' : ℕ) (ckeep : List ℕ) (q : QState) (comps : Comps) : Option QState := do
  let prob : ℝ := (comps.map (fun p => ‖p.2.amp‖ ^ 2)).sum
  if prob = 0 then none
  let f : ℂ := ((Real.sqrt (1 / prob) : ℝ) : ℂ)
  let comps' := comps.map (fun p => (p.1, (⟨p.2.amp * f, ‖p.2.amp * f‖ ^ 2⟩ : Comp)))
  let classical ← ckeep.mapM (fun n => q.classical[n]?)
  newState thr m' ⟨q.initial, q.cum * prob, comps', classical, q.results⟩

/-- collection_of_states.py 793-825 for one state. -/
noncomputable def reduceState (g : Cfg) (thr : ℝ) (keep ckeep : List ℕ) (i : List Char) (q : QState) :
    Option (List (List Char × QState)) := do
  let d ← groupTraced g keep q.comps
  d.mapM (fun tc => (reducedState thr ckeep.length ckeep q tc.2).map (fun q' => (i ++ tc.1, q')))

/-- collection_of_states.py 737-835: `reduce`. The attributes of the collection are only updated inside the loop over its
states (827-833), so an empty collection keeps its channel numbers. -/
noncomputable def reduceColl (cl : Collection) (keep ckeep : List ℕ) : Option Collection := do
  let keep := if keep = [] then List.range cl.g.C else keep
  let ckeep := if ckeep = [] then List.range cl.m else ckeep
  if ¬ keep.all (· < cl.g.C) ∨ ¬ ckeep.all (· < cl.m) then none
  let g' : Cfg := ⟨cl.g.L, keep.length, cl.g.left⟩
  if ¬ g'.Ok then none
  let out ← cl.states.foldlM (fun (out : Coll) p =>
    (reduceState cl.g cl.thr keep ckeep p.1 p.2).map (fun l => l.foldl (fun (out : Coll) e => out.set e.1 e.2) out)) []
  if cl.states = [] then some cl else some ⟨g', ckeep.length, cl.thr, out⟩

/-- collection_of_states.py 844-903: `adjust_length_of_fock_state`. -/
noncomputable def adjustLength (cl : Collection) (newL : ℕ) : Option Collection := do
  let newL := if newL = 0 then cl.g.L else newL
  let g' : Cfg := ⟨newL, cl.g.C, cl.g.left⟩
  if ¬ g'.Ok then none
  let out ← cl.states.foldlM (fun (out : Coll) p => do
    let comps ← p.2.comps.foldlM (fun (d : Comps) c => do
      let v ← cl.g.parse c.1
      let s ← g'.render (v.map (· % newL))
      some (d.set s c.2)) ([] : Comps)
    let q ← newState cl.thr cl.m { p.2 with comps := comps }
    some (out.set p.1 q)) []
  some ⟨g', cl.m, cl.thr, out⟩

/-- collection_of_states.py 1019-1028: probabilities and photon numbers for the extra channels, keyed by name. -/
noncomputable def extraValues (g : Cfg) (dist : List ℝ) : ℕ → Option (Dict Name (ℝ × Vals))
  | 0 => some [("initial_value".toList, (1, []))]
  | n + 1 => do
    let old ← extraValues g dist n
    old.foldlM (fun (d : Dict Name (ℝ × Vals)) p =>
      (List.range g.L).foldlM (fun (d : Dict Name (ℝ × Vals)) x => do
        let s ← (⟨g.L, (p.2.2 ++ [x]).length, g.left⟩ : Cfg).render (p.2.2 ++ [x])
        let y ← dist[x]?
        some (d.set s (y * p.2.1, p.2.2 ++ [x]))) d) []

/-- collection_of_states.py 1032-1046: the extended state for one choice of the extra values. -/
noncomputable def extendedState (g g' : Cfg) (ec : ℕ) (q : QState) (prob : ℝ) (vals : Vals) : Option QState := do
  let comps ← q.comps.foldlM (fun (d : Comps) c => do
    let v ← g.parse c.1
    let s ← g'.render (v ++ vals)
    some (d.set s c.2)) ([] : Comps)
  some ⟨q.initial, q.cum * prob, comps, q.classical ++ List.replicate ec 0, q.results⟩

open Classical in
/-- collection_of_states.py 955-1063: `extend` by `eo` optical and `ec` classical channels; `r k`: random numbers for the identifier of
the `k`-th new state. -/
noncomputable def extendColl (cl : Collection) (eo ec : ℕ) (dist : List ℝ) (r : ℕ → ℕ → ℕ) : Option Collection := do
  let dist := if dist = [] then (1 : ℝ) :: List.replicate (cl.g.L - 1) 0 else dist
  if dist.length ≠ cl.g.L then none
  if eo = 0 ∧ ec = 0 then some cl else
  let g' : Cfg := ⟨cl.g.L, cl.g.C + eo, cl.g.left⟩
  if ¬ g'.Ok then none
  let extra ← extraValues cl.g dist eo
  let out ← extra.foldlM (fun (out : Coll) e => cl.states.foldlM (fun (out : Coll) p => do
    let q ← extendedState cl.g g' ec p.2 e.2.1 e.2.2
    if q.cum ≥ cl.thr then
      let q' ← newState cl.thr (cl.m + ec) q
      some (addState out q' none (r out.length))
    else some out) out) []
  some ⟨g', cl.m + ec, cl.thr, out⟩

open Classical in
/-- collection_of_states.py 927-940: rescale the states with the label and sort them into groups of similar states; the groups are
keyed by the identifier of their first state. -/
noncomputable def cleanGroups (thr : ℝ) (label : List Char) (states : Coll) : Option (Coll × Dict (List Char) (List (List Char))) :=
  (states.map Prod.fst).foldlM (fun (sg : Coll × Dict (List Char) (List (List Char))) i => do
    let q ← sg.1.get? i
    if q.initial = label then
      let comps ← rescale thr q.comps
      let q' : QState := { q with comps := comps }
      let states' := sg.1.set i q'
      match sg.2.find? (fun o => decide (∃ k, states'.get? o.1 = some k ∧ identicalComps thr q'.comps k.comps)) with
      | some o => some (states', sg.2.set o.1 (o.2 ++ [i]))
      | none => some (states', sg.2.set i [])
    else some sg) (states, [])

/-- collection_of_states.py 942-951: merge each group into its first state. -/
noncomputable def mergeGroups (thr : ℝ) (groups : Dict (List Char) (List (List Char))) (states : Coll) : Option Coll :=
  groups.foldlM (fun (states : Coll) ig => do
    let q ← states.get? ig.1
    let sc ← ig.2.foldlM (fun (sc : Coll × ℝ) j => do
      let k ← sc.1.get? j
      some (sc.1.erase j, sc.2 + k.cum)) (states, q.cum)
    if sc.2 ≥ thr then
      let cum ← setCum sc.2
      let q' ← sc.1.get? ig.1
      some (sc.1.set ig.1 { q' with cum := cum })
    else some (sc.1.erase ig.1)) states

/-- collection_of_states.py 906-953: `clean_up`, for the labels in the given order (one label if given as argument, else all labels
present, in the unspecified order of a Python set). -/
noncomputable def cleanUp (cl : Collection) (labels : List (List Char)) : Option Collection := do
  let states ← labels.foldlM (fun states label => do
    let sg ← cleanGroups cl.thr label states
    mergeGroups cl.thr sg.2 sg.1) cl.states
  some { cl with states := states }

end Verif
