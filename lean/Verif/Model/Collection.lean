/-
Collections of states.  Models src/fock_state_circuit/collection_of_states.py 274-735 (without the functions that change the
number of channels, see Model/Reshape).
A collection is the dictionary `Coll` from identifiers to states; the configuration `g`, the number of classical channels `m`
and the threshold `thr` of its circuit are passed separately. States are values here; sharing of state objects between
collections is the subject of Model/Heap. Exceptions are `none`.
-/
import Verif.Model.Measurement

namespace Verif

/-- collection_of_states.py 412 and 456: lower case letters and digits. -/
def alphabet : List Char := "abcdefghijklmnopqrstuvwxyz0123456789".toList

/-- `alphabet[random.randint(0, len(alphabet)-1)]`, where `n` is the number drawn. Numbers `≥ 36` are never drawn; they are
mapped to 'a' to keep the function total. -/
def letter (n : ℕ) : Char := alphabet.getD n 'a'

/-- collection_of_states.py 414-415: `while identifier in keys: identifier += letter`. `r n` is the `n`-th random number.
The loop is cut off after `fuel` rounds; `freshId_not_mem` shows that it never gets that far. -/
def extendId (keys : List (List Char)) (r : ℕ → ℕ) : (fuel n : ℕ) → List Char → List Char
  | 0, _, s => s
  | fuel + 1, n, s => if s ∈ keys then extendId keys r fuel (n + 1) (s ++ [letter (r n)]) else s

/-- collection_of_states.py 412-415: a random identifier that is not one of `keys`. -/
def freshId (keys : List (List Char)) (r : ℕ → ℕ) : List Char :=
  extendId keys r keys.length 1 ("identifier_".toList ++ [letter (r 0)])

/-- collection_of_states.py 404-419: `add_state`. `r`: random numbers drawn during this call. -/
def addState (coll : Coll) (q : QState) (identifier : Option (List Char)) (r : ℕ → ℕ) : Coll :=
  coll.set (identifier.getD (freshId coll.keys r)) q

/-- collection_of_states.py 421-442: `get_state`. -/
def getState (coll : Coll) (identifier initial : Option (List Char)) : Option QState :=
  match identifier.bind (fun i => coll.get? i) with
  | some q => some q
  | none => initial.bind (fun s => (coll.find? (fun p => p.2.initial = s)).map Prod.snd)

/-- collection_of_states.py 477-495: `delete_state`. -/
def deleteState (coll : Coll) (identifier initial : Option (List Char)) : Coll :=
  if (identifier.map (fun i => coll.has i)).getD false then coll.erase (identifier.getD [])
  else match initial with
    | none => coll
    | some s => match coll.find? (fun p => p.2.initial = s) with
      | none => coll
      | some p => coll.erase p.1

open Classical in
/-- collection_of_states.py 444-475: `set_collection_as_statistical_mixture` on a collection `coll`. `s0`: the random label,
`r k`: the random numbers drawn for the `k`-th pair. New identifiers are compared with the keys of the OLD collection.
Simplification: the states of the list are distinct objects. -/
noncomputable def setMixture (thr : ℝ) (m : ℕ) (coll : Coll) (s0 : List Char) (r : ℕ → ℕ → ℕ) (l : List (QState × ℝ)) : Option Coll :=
  l.zipIdx.foldlM (fun (mix : Coll) p =>
    if CheckValid thr m p.1.1 then
      (setCum p.1.2).map (fun w => mix.set (freshId coll.keys (r p.2)) { p.1.1 with cum := w, initial := s0 })
    else some mix) []

/-- collection_of_states.py 545-552 and 565-573, 585-591, 607-612: the loop shared by the filters and `copy`: keep (a copy of) every
state that satisfies the condition. -/
noncomputable def selectStates (thr : ℝ) (m : ℕ) (cond : List Char × QState → Option Bool) (coll : Coll) : Option Coll :=
  coll.foldlM (fun (new : Coll) p => do
    if (← cond p) then
      let q ← copyState thr m p.2
      some (new.set p.1 q)
    else some new) []

/-- collection_of_states.py 535-553: `filter_on_initial_state` with a list. -/
noncomputable def filterInitial (thr : ℝ) (m : ℕ) (labels : List (List Char)) (coll : Coll) : Option Coll :=
  selectStates thr m (fun p => some (labels.contains p.2.initial)) coll

/-- collection_of_states.py 555-574: `filter_on_identifier` with a list. -/
noncomputable def filterIdentifier (thr : ℝ) (m : ℕ) (ids : List (List Char)) (coll : Coll) : Option Coll :=
  selectStates thr m (fun p => some (ids.contains p.1)) coll

open Classical in
/-- collection_of_states.py 576-594: `filter_on_classical_channel` (`none`: channel number out of range). -/
noncomputable def filterClassical (thr : ℝ) (m : ℕ) (channels : List ℕ) (values : List ℝ) (coll : Coll) : Option Coll :=
  selectStates thr m (fun p => do
    let l ← (channels.zip values).mapM (fun cv => (p.2.classical[cv.1]?).map (fun x => decide (x = cv.2)))
    some (l.all id)) coll

/-- collection_of_states.py 596-614: `copy`. -/
noncomputable def copyColl (thr : ℝ) (m : ℕ) (coll : Coll) : Option Coll := selectStates thr m (fun _ => some true) coll

/-- state.py 478-499: `initialize_this_state`: the vacuum, all classical channels 0. -/
noncomputable def defaultState (g : Cfg) (m : ℕ) : Option QState :=
  (g.nameAt 0).map (fun s => ⟨s, 1, [(s, ⟨1, 1⟩)], List.replicate m 0, []⟩)

/-- collection_of_states.py 626-662: `initialize_to_default`; `names`: the component names in the order of the table. -/
noncomputable def defaultColl (g : Cfg) (m : ℕ) (names : List Name) : Option Coll :=
  names.zipIdx.foldlM (fun (coll : Coll) ni => do
    let q ← defaultState g m
    let comps ← setFromDict g [(ni.1, ⟨1, 1⟩)]
    some (coll.set ("identifier_".toList ++ fmt (pyStr names.length).length ni.2) { q with initial := ni.1, comps := comps })) []

/-- collection_of_states.py 672-697: `_group_states_together_by_photon_number`; the key '=n' is `(n, true)`, '<=n' is `(n, false)`. -/
def groupByPhotons (g : Cfg) (coll : Coll) : Option (Dict (ℕ × Bool) (List (List Char))) :=
  coll.foldlM (fun (d : Dict (ℕ × Bool) (List (List Char))) p =>
    (photonNumber g p.2.comps).map (fun key => d.set key (((d.get? key).getD []) ++ [p.1]))) []

/-- collection_of_states.py 721-727: the density matrix of the states with the given label. -/
noncomputable def densityMatrix (g : Cfg) (coll : Coll) (label : List Char) : Option (ℕ → ℕ → ℂ) :=
  coll.foldlM (fun dm p =>
    if p.2.initial = label then
      (toVector g p.2.comps).map (fun x => fun i j => dm i j + (p.2.cum : ℂ) * (star (x i) * x j))
    else some dm) (fun _ _ => 0)

/-- `np.round(x, 2)`. -/
noncomputable def round2 (x : ℝ) : ℝ := (roundHalfEven (x * 100) : ℝ) / 100

/-- collection_of_states.py 729: the reported trace (with the default of two decimals). -/
noncomputable def reportedTrace (g : Cfg) (dm : ℕ → ℕ → ℂ) : ℝ := round2 ‖∑ i ∈ Finset.range g.size, dm i i‖

/-- collection_of_states.py 730: the reported trace of the square. -/
noncomputable def reportedTraceSq (g : Cfg) (dm : ℕ → ℕ → ℂ) : ℝ :=
  round2 ‖∑ i ∈ Finset.range g.size, ∑ j ∈ Finset.range g.size, dm i j * dm j i‖

end Verif
