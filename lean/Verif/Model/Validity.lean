/-
Creating and checking states and collections.  Models src/fock_state_circuit/state.py 119-178, 203-228, 337-354, 372-418, 501-530 and
src/fock_state_circuit/collection_of_states.py 274-335, 497-537.
Exceptions are `none`. Dictionaries are lists of entries in order. The values inside the dictionary of a state have the right Python types
(the type checks of state.py 389-413 are not modelled).
-/
import Verif.Model.Reshape

namespace Verif

/-- A key of a Python dictionary: a string or something else (a number, a tuple, ...). -/
inductive PyKey
  | str (s : List Char)
  | other (n : ℕ)
deriving DecidableEq

/-- state.py 170-173: a dictionary with some of the keys of a state (`none`: the key is absent). Other keys are ignored by the constructor. -/
structure StateDict where
  initial : Option (List Char)
  cum : Option ℝ
  comps : Option Comps
  classical : Option (List ℝ)
  results : Option (List MRes)

/-- A value of a dictionary given to a collection: a `State`, a dictionary, or something else. -/
inductive PyVal
  | state (q : QState)
  | dict (d : StateDict)
  | other

/-- state.py 478-499: `initialize_this_state`; the name of the vacuum is at index 0 (`none`: not reached). -/
noncomputable def initState (g : Cfg) (m : ℕ) : Option QState :=
  (g.nameAt 0).map (fun s => ⟨s, 1, [(s, ⟨1, 1⟩)], List.replicate m 0, []⟩)

/-- state.py 169-178: the constructor with a dictionary: the given entries replace the default ones, then the state is checked. -/
noncomputable def stateFromDict (g : Cfg) (thr : ℝ) (m : ℕ) (d : StateDict) : Option QState := do
  let q ← initState g m
  newState thr m ⟨d.initial.getD q.initial, d.cum.getD q.cum, d.comps.getD q.comps, d.classical.getD q.classical, d.results.getD q.results⟩

/-- state.py 501-530: `create_initialized_state`. -/
noncomputable def createInitialized (g : Cfg) (thr : ℝ) (m : ℕ) : Option QState :=
  (g.nameAt 0).bind (fun s => stateFromDict g thr m ⟨some s, some 1, some [(s, ⟨1, 1⟩)], some (List.replicate m 0), some []⟩)

open Classical in
/-- collection_of_states.py 517-537: `__check_valid_dictionary`; line 534 reads `not a and b and c`, which Python takes as
`(not a) and b and c`. The check of a `State` itself is state.py 337-346. -/
noncomputable def validDict (thr : ℝ) (m : ℕ) (l : List (PyKey × PyVal)) : Bool :=
  l.all (fun e => match e.1, e.2 with
    | .other _, .state q => !decide (CheckValid thr m q)
    | _, _ => true)

/-- collection_of_states.py 508-515: `bool(collection)` (the states of a collection are `State` objects; its keys can be anything). -/
noncomputable def collBool (thr : ℝ) (m : ℕ) (l : List (PyKey × QState)) : Bool := validDict thr m (l.map (fun e => (e.1, .state e.2)))

/-- collection_of_states.py 497-506: `collection_from_dict`: the content afterwards (nothing is returned or raised). -/
noncomputable def loadDict (thr : ℝ) (m : ℕ) (old new : List (PyKey × PyVal)) : List (PyKey × PyVal) := if validDict thr m new then new else old

/-- collection_of_states.py 323-335: the constructor with a dictionary that is not None: `State` values are taken over, dictionaries become
states, other values are left out. -/
noncomputable def collFromDict (g : Cfg) (thr : ℝ) (m : ℕ) (l : List (PyKey × PyVal)) : Option (List (PyKey × QState)) :=
  if l = [] then some []
  else if validDict thr m l = false then none
  else l.foldlM (fun (acc : List (PyKey × QState)) e => match e.2 with
    | .state q => some (acc ++ [(e.1, q)])
    | .dict d => (stateFromDict g thr m d).map (fun q => acc ++ [(e.1, q)])
    | .other => some acc) []

/-- state.py 352-354: `int(state)`. -/
def stateInt (g : Cfg) (q : QState) : Option ℕ := (photonNumber g q.comps).map Prod.fst

/-- state.py 348-350: `state == number`. -/
def stateEqNum (g : Cfg) (q : QState) (n : ℕ) : Option Bool := (stateInt g q).map (fun k => n == k)

/-- state.py 348-350 with another state as argument: `other == int(state)` calls the same method of the other state with a number. -/
def stateEqState (g : Cfg) (q q' : QState) : Option Bool := (stateInt g q).bind (fun k => stateEqNum g q' k)

end Verif
