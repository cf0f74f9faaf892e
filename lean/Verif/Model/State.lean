/-
States and their optical components.  Models src/fock_state_circuit/state.py.
Component-table lookups are the stateless translations `Cfg.parse` / `Cfg.render` (history independence: C04).
Floats are idealised to `ℝ`, complex doubles to `ℂ`. Exceptions are `none`.
-/
import Verif.Model.Fock
import Mathlib.Analysis.Complex.Norm

namespace Verif

/-- state.py 93-95: one entry `{'amplitude': .., 'probability': ..}`. -/
structure Comp where
  amp : ℂ
  prob : ℝ

/-- state.py: `optical_components`, a dictionary from component names to amplitude and probability. -/
abbrev Comps := Dict Name Comp

/-- One entry of `measurement_results` (state.py 96-97, circuit.py 682). -/
structure MRes where
  vals : List ℝ
  prob : ℝ

/-- state.py 88-98: the dictionary `state`. Simplification: `auxiliary_information` is not modelled here
(see Model/Columns and Model/Spectral for the part that uses it); object identity of the inner lists is modelled in Model/Heap. -/
structure QState where
  initial : List Char
  cum : ℝ
  comps : Comps
  classical : List ℝ
  results : List MRes

/-- state.py 203-228, list branch of the `optical_components` setter: amplitudes of repeated names are summed.
`none`: 'Invalid dictionary for optical_components'. -/
noncomputable def setFromList (g : Cfg) (l : List (Name × ℂ)) : Option Comps :=
  l.foldlM (fun (d : Comps) na =>
    if g.containsName na.1 = some true then
      match d.get? na.1 with
      | none => some (d.set na.1 ⟨na.2, ‖na.2‖ ^ 2⟩)
      | some old => some (d.set na.1 ⟨old.amp + na.2, ‖old.amp + na.2‖ ^ 2⟩)
    else none) []

/-- state.py 356-370: `photon_number` (`none`: `max` of an empty list, or an unreadable name). -/
def photonNumber (g : Cfg) (c : Comps) : Option (ℕ × Bool) := do
  let l ← c.keys.mapM (fun s => (g.parse s).map List.sum)
  let mx ← l.max?
  let mn ← l.min?
  if mx = mn then some (mx, true) else some (mx, false)

/-- state.py 532-546: `translate_state_components_to_vector` (`none`: index out of range). -/
noncomputable def toVector (g : Cfg) (c : Comps) : Option (ℕ → ℂ) :=
  c.foldlM (fun x p => do
    let i ← g.indexOfName p.1
    if i < g.size then some (Function.update x i p.2.amp) else none) (fun _ => 0)

/-- state.py 548-567: `set_state_components_from_vector` with threshold `thr`, for a vector of length `size_of_basis`. -/
noncomputable def fromVector (g : Cfg) (thr : ℝ) (x : ℕ → ℂ) : Option Comps :=
  (List.range g.size).foldlM (fun (d : Comps) i =>
    if ‖x i‖ ^ 2 < thr then some d
    else do
      let s ← g.nameAt i
      some (d.set s ⟨x i, ‖x i‖ ^ 2⟩)) []

/-- state.py 616-631: `inner`, two nested loops. -/
noncomputable def inner (c₁ c₂ : Comps) : ℂ :=
  c₁.foldl (fun r p => c₂.foldl (fun r q => if p.1 = q.1 then r + star p.2.amp * q.2.amp else r) r) 0

/-- state.py 633-644: `outer` = `np.outer(conj(v1), v2)`. -/
noncomputable def outer (g : Cfg) (c₁ c₂ : Comps) : Option (ℕ → ℕ → ℂ) := do
  let x ← toVector g c₁
  let y ← toVector g c₂
  some (fun i j => star (x i) * y j)

/-- state.py 569-592: `_rescale_optical_components` with threshold `thr`
(`none`: division by zero when everything is below the threshold). -/
noncomputable def rescale (thr : ℝ) (c : Comps) : Option Comps :=
  let c' := c.map (fun p => if p.2.prob < thr then (p.1, (⟨0, 0⟩ : Comp)) else p)
  let total := (c.map (fun p => if p.2.prob < thr then 0 else ‖p.2.amp‖ ^ 2)).sum
  if |total - 1| ≥ thr then
    if Real.sqrt total = 0 then none
    else
      let f : ℂ := ((1 / Real.sqrt total : ℝ) : ℂ)
      some (c'.foldl (fun (d : Comps) p =>
        if ‖f * p.2.amp‖ ^ 2 ≥ thr then d.set p.1 ⟨f * p.2.amp, ‖f * p.2.amp‖ ^ 2⟩ else d) [])
  else some c'

/-- state.py 594-614: `_identical_optical_components` with threshold `thr` (only looks at the components of `c₁`). -/
noncomputable def identicalComps (thr : ℝ) (c₁ c₂ : Comps) : Prop :=
  ∀ p ∈ c₁, ∃ k, c₂.get? p.1 = some k ∧ |p.2.prob - k.prob| < thr ∧ ‖p.2.amp - k.amp‖ ^ 2 < thr

/-- state.py 666-678: `tensor` with a `State` argument: `g₁`, `g₂` are the configurations of the two states, names of the
result are formed with the length and notation of the first (`none`: photon number not below the first length). -/
noncomputable def tensor (g₁ g₂ : Cfg) (c₁ c₂ : Comps) : Option Comps :=
  let g : Cfg := ⟨g₁.L, g₁.C + g₂.C, g₁.left⟩
  c₁.foldlM (fun d p => c₂.foldlM (fun (d : Comps) q => do
    let v₁ ← g₁.parse p.1
    let v₂ ← g₂.parse q.1
    let s ← g.render (v₁ ++ v₂)
    some (d.set s ⟨p.2.amp * q.2.amp, ‖p.2.amp * q.2.amp‖ ^ 2⟩)) d) []

/-- state.py 680-691: `tensor` with a list of (name, amplitude): names are concatenated. -/
noncomputable def tensorNames (g : Cfg) (c : Comps) (l : List (Name × ℂ)) : Comps :=
  c.foldl (fun d p => l.foldl (fun (d : Comps) q =>
    d.set (if g.left then p.1 ++ q.1 else q.1 ++ p.1) ⟨p.2.amp * q.2, ‖p.2.amp * q.2‖ ^ 2⟩) d) []

/-- circuit.py 724-752 for one state: choose the selection (727-735), build the matrix, apply, translate back.
`keys`: current enumeration of the basis; `nodes`: the first and the further optical nodes. -/
noncomputable def applyOptical (g : Cfg) (thr : ℝ) (useFull : Bool) (keys : List Vals) (node : Opt × List ℕ)
    (nodes : List (Opt × List ℕ)) (c : Comps) : Option Comps := do
  let sel ← if useFull then some Sel.all else
    (photonNumber g c).map (fun ne => if ne.2 then Sel.eq ne.1 else Sel.le ne.1)
  let x ← toVector g c
  fromVector g thr (applyReduced (fockNodes g keys sel node nodes) x)

/-- circuit.py 363-376 for one state: a custom Fock matrix node. -/
noncomputable def applyCustom (g : Cfg) (thr : ℝ) (F : SqArr) (c : Comps) : Option Comps := do
  let x ← toVector g c
  fromVector g thr (F.mulVec x)

end Verif
