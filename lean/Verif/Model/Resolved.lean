/-
Photon-resolved measurement and the overlap of photons. Models interference_group.py 590-975 and temporal_functions.py 254-274 in
src/fock_state_circuit/temporal_and_spectral_gate_functionality/, and spectral_nodes.py 287-321.
Exceptions (and results that are not a number) are `none`. The conventions of Model/Columns hold. Only the default `list_of_projections = None` is modelled.
-/
import Verif.Model.Columns

namespace Verif

/-- A photon: channel and photon information. -/
abbrev Photon := ℕ × Option PInfo

/-- temporal_functions.py 254-274: `photon_probability_function`. Without information about one of the photons the dictionary access raises an exception and
the result is 1. Simplification: both pulse widths zero (division by zero in numpy) is not modelled, the theorems about overlaps and measured probabilities exclude it. -/
noncomputable def photonOverlap : Option PInfo → Option PInfo → ℝ
  | some a, some b => Real.exp (-1 * Real.log 2 * ((a.delay - b.delay) / Real.sqrt (a.width ^ 2 + b.width ^ 2)) ^ 2)
  | _, _ => 1

/-- column_of_states.py 569-589: `list_of_photons` (the first component of every state). -/
def listOfPhotons (g : Cfg) (c : Column) : Option (List Photon) :=
  (c.states.mapM (fun s => (firstValues g s).map (fun v => (photonChannels v).map (fun ch => (ch, s.info))))).map List.flatten

/-- interference_group.py 657: the positions in the photon list with channel `p`. -/
def matchIndices (chs : List ℕ) (p : ℕ) : List ℕ := (List.range chs.length).filter (fun i => chs.getD i 0 == p)

/-- interference_group.py 616-667: `_valid_combinations`: all ways to assign different photons (positions in the photon list) to the channels of the projection.
The reassignment of the list inside the loop (line 664) does not change the iteration. -/
def validCombinations (proj chs : List ℕ) : List (List ℕ) :=
  (proj.foldl (fun combos p => combos.flatMap (fun vc => ((matchIndices chs p).filter (fun o => !vc.contains o)).map (fun o => vc ++ [o]))) [[]]).filter
    (fun vc => vc.length == proj.length)

/-- interference_group.py 669-705: `_find_valid_photon_pairs_for_projection`. -/
def photonPairs (proj chsBra chsKet : List ℕ) : List (List (ℕ × ℕ)) :=
  (validCombinations proj chsBra).flatMap (fun b => (validCombinations proj chsKet).map (fun k => b.zip k))

/-- interference_group.py 707-738: `_calculate_probability_for_photon_sequence`. The positions are in range, so the default of `getD` is not used. -/
noncomputable def sequenceOverlap (bra ket : List Photon) (s : List (ℕ × ℕ)) : ℝ :=
  (s.map (fun p => photonOverlap (bra.getD p.1 (0, none)).2 (ket.getD p.2 (0, none)).2)).prod

/-- interference_group.py 784-839: `_calculate_probability_for_this_projection_for_these_state_columns`, for the projection on photon numbers `v`
(`_measurement_projection`, 740-782, gives the channels and the boson factor). `some none`: the function returns `None`. A boson factor zero (division by zero) does not
occur. -/
noncomputable def pairProbability (g : Cfg) (v : Vals) (bra ket : Column) : Option (Option ℂ) :=
  (listOfPhotons g bra).bind (fun b => (listOfPhotons g ket).map (fun k =>
    let seqs := photonPairs (photonChannels v) (b.map Prod.fst) (k.map Prod.fst)
    if seqs = [] then none
    else some ((starRingEnd ℂ ket.amp * bra.amp) / ((bosonOf v * bosonOf v : ℝ) : ℂ) / ((ket.boson * bra.boson : ℝ) : ℂ) *
      (((seqs.map (sequenceOverlap b k)).sum : ℝ) : ℂ))))

/-- interference_group.py 889-904: `_probability_column_list`: the columns all have the photon numbers `v`. -/
noncomputable def columnListProbability (g : Cfg) (v : Vals) (cols : List Column) : Option ℝ :=
  ((cols.flatMap (fun b => cols.map (fun k => (b, k)))).mapM (fun p => (pairProbability g v p.1 p.2).map (fun o => o.getD 0))).map (fun l => ‖l.sum‖)

/-- interference_group.py 590-597: `rescale_column_amplitudes` (`none`: division by zero). -/
noncomputable def rescaleAmplitudes (cols : List Column) : Option (List Column) :=
  let s := (cols.map (fun c => ‖c.amp‖ ^ 2)).sum
  if s = 0 then none else some (cols.map (fun c => { c with amp := c.amp / ((Real.sqrt s : ℝ) : ℂ) }))

/-- interference_group.py 603-613: one column of `rescale_boson_factors` (`none`: no valid component name, no result, division by zero, or a negative number under the root). -/
noncomputable def rescaleBoson (g : Cfg) (c : Column) : Option Column :=
  (columnValues g c).bind (fun v => (g.render v).bind (fun _ => (pairProbability g v c c).bind (fun o => o.bind (fun p =>
    if p = 0 ∨ c.amp = 0 ∨ ‖c.amp‖ ^ 2 / p.re < 0 then none
    else some { c with boson := c.boson / Real.sqrt (‖c.amp‖ ^ 2 / p.re) }))))

/-- interference_group.py 599-613: `rescale_boson_factors`. -/
noncomputable def rescaleBosons (g : Cfg) (cols : List Column) : Option (List Column) := cols.mapM (rescaleBoson g)

/-- interference_group.py 940: the label of a partial outcome: the decimal numbers of the measured channels one after the other (`none`: IndexError). -/
def outcomeLabel (opt : List ℕ) (v : Vals) : Option (List Char) := (opt.mapM (fun ch => (v[ch]?).map pyStr)).map List.flatten

/-- interference_group.py 967-970: write the values to the classical channels (`none`: IndexError). -/
def writeMeasured (cls : List ℕ) (o : List ℕ) (values : List ℝ) : Option (List ℝ) :=
  o.zipIdx.foldlM (fun (vals : List ℝ) xi => (cls[xi.2]?).bind (fun ch => if ch < vals.length then some (vals.set ch (xi.1 : ℝ)) else none)) values

/-- interference_group.py 966-971: the state after the measurement. The entry of the measurement history is appended inside the loop over the
measured values, once per measured channel; all entries refer to the same list of classical values. -/
def writeState (cls : List ℕ) (o : List ℕ) (p : ℝ) (s : PState) : Option PState :=
  (writeMeasured cls o s.q.classical).map (fun vals =>
    { s with q := { s.q with classical := vals, results := s.q.results ++ List.replicate o.length ⟨vals, p⟩ } })

/-- interference_group.py 946-973: the new group for one partial outcome. `cols`: the columns with this partial outcome and their photon numbers, not empty. All columns of a
group have the same `group_cumulative_probability` and different identifiers, which are kept. -/
noncomputable def outcomeGroup (g : Cfg) (opt cls : List ℕ) (cols : List (Column × Vals)) : Option (List Column) :=
  match cols with
  | [] => none
  | (c0, v0) :: _ =>
    ((groupBy (fun x : Column × Vals => g.render x.2) cols).mapM (fun (e : Option Name × List (Column × Vals)) => e.1.bind (fun _ => (e.2.head?).bind (fun x => columnListProbability g x.2 (e.2.map Prod.fst))))).bind
      (fun probs =>
        let p := probs.sum
        (rescaleAmplitudes (cols.map (fun x => { x.1 with gprob := c0.gprob * p }))).bind (fun l =>
          (rescaleBosons g l).bind (fun l =>
            (opt.mapM (fun ch => v0[ch]?)).bind (fun o =>
              l.mapM (fun c => (c.states.mapM (writeState cls o p)).map (fun sts => { c with states := sts }))))))

/-- interference_group.py 906-975: `measure_interference_group_alternative` (called by `measure_interference_group`, 979-997): one new group per label, in order of first appearance. -/
noncomputable def measureGroup (g : Cfg) (opt cls : List ℕ) (cols : List Column) : Option (List (List Column)) :=
  (cols.mapM (fun c => (columnValues g c).bind (fun v => (outcomeLabel opt v).map (fun lab => (lab, c, v))))).bind (fun l =>
    (groupBy (fun x : List Char × Column × Vals => x.1) l).mapM (fun (e : List Char × List (List Char × Column × Vals)) => outcomeGroup g opt cls (e.2.map Prod.snd)))

/-- spectral_nodes.py 312-321, collection_of_state_columns.py 235-266: photon-resolved measurement of a list of interference groups (of one collection): split, expand into
single photons, measure every group. The result is the list of the new groups. -/
noncomputable def measureGroups (g : Cfg) (fuel : ℕ) (opt cls : List ℕ) (groups : List (List Column)) : Option (List (List Column)) :=
  (groups.mapM (fun cols => (splitColumns g fuel cols).bind (fun cols => (cols.mapM (Column.singlePhotonStates g)).bind (measureGroup g opt cls)))).map List.flatten

end Verif
