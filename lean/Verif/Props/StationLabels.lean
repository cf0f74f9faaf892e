/-
Property C144: the labels of the channels in the drawings of the stations.
-/
import Verif.Lemmas.StationLabels

namespace Verif.Props
open Verif

theorem startLabels_length {kind : List Char} {n : ℕ} : (startLabels kind n none).length = n := by simp [startLabels]

theorem nodup_index {l : List ℕ} (h : l.Nodup) {i j x : ℕ} (hi : l[i]? = some x) (hj : l[j]? = some x) : i = j := by
  have h1 := (List.getElem?_eq_some_iff.1 hi).1
  exact (List.getElem?_inj h1 h).1 (hi.trans hj.symm)

/-- **C144** Without labels in the settings, for stations that have no channel in common, the channel with number `j` of a station is labelled with the name of the station
and `j`, in the drawing of the station and in the drawing of the total circuit; channels of no station keep the default label. (The part proved: no labels of the user.) -/
theorem C144_labels_partial (a c : ℕ) (all : List Station) (hn : "total_circuit".toList ∉ all.map Station.name)
    (hr : ∀ s ∈ all, (∀ ch ∈ s.optical, ch < a) ∧ ∀ ch ∈ s.classical, ch < c) (ho : (all.flatMap Station.optical).Nodup) (hk : (all.flatMap Station.classical).Nodup) :
    ∃ r o k, stationSettings a c all none none = some (r, o, k) ∧ o.length = a ∧ k.length = c ∧
      (∀ (i : ℕ) (s : Station), all[i]? = some s → ∃ lo lk, r[i]? = some (lo, lk) ∧ lo.length = s.optical.length ∧ lk.length = s.classical.length ∧
        (∀ j ch : ℕ, s.optical[j]? = some ch → lo[j]? = some (s.name ++ ", Opt.".toList ++ pyStr j) ∧ o[ch]? = lo[j]?) ∧
        (∀ j ch : ℕ, s.classical[j]? = some ch → lk[j]? = some (s.name ++ ", Clas.".toList ++ pyStr j) ∧ k[ch]? = lk[j]?)) ∧
      (∀ ch < a, (∀ s ∈ all, ch ∉ s.optical) → o[ch]? = some ("optical ".toList ++ pyStr ch)) ∧
      (∀ ch < c, (∀ s ∈ all, ch ∉ s.classical) → k[ch]? = some ("classical ".toList ++ pyStr ch)) := by
  have range : ∀ (kind : List Char) (channels : Station → List ℕ) (n : ℕ), (∀ s ∈ all, ∀ ch ∈ channels s, ch < n) →
      ∀ p ∈ stationAssignments kind channels all, p.1 < n := by
    intro kind channels n h p hp
    have : p.1 ∈ (stationAssignments kind channels all).map Prod.fst := List.mem_map_of_mem hp
    rw [assignments_fst, List.mem_flatMap] at this
    obtain ⟨s, hs, hc⟩ := this
    exact h s hs _ hc
  obtain ⟨o, o1, o2, o3, o4⟩ := setLabels_ok (stationAssignments ", Opt.".toList Station.optical all) (startLabels "optical ".toList a none)
    (by rw [startLabels_length]; exact range _ _ _ (fun s hs => (hr s hs).1))
  obtain ⟨k, k1, k2, k3, k4⟩ := setLabels_ok (stationAssignments ", Clas.".toList Station.classical all) (startLabels "classical ".toList c none)
    (by rw [startLabels_length]; exact range _ _ _ (fun s hs => (hr s hs).2))
  rw [assignments_fst] at o3 o4 k3 k4
  rw [startLabels_length] at o2 k2
  obtain ⟨r, e1, -, e3⟩ := stationSettings_ok (a := a) (c := c) (userO := none) (userK := none) (o := o) (k := k) hn o1 k1
    (by rw [o2, k2]; exact hr)
  refine ⟨r, o, k, e1, o2, k2, fun i s hs => ?_, fun ch hch hno => ?_, fun ch hch hno => ?_⟩
  · obtain ⟨lo, lk, g1, g2, g3, g4, g5⟩ := e3 i s hs
    have hm := List.mem_of_getElem? hs
    refine ⟨lo, lk, g1, g2, g3, fun j ch h => ?_, fun j ch h => ?_⟩
    · have := o4 ho _ (mem_assignments (kind := ", Opt.".toList) hm h)
      exact ⟨(g4 j ch h).trans this, (g4 j ch h).symm⟩
    · have := k4 hk _ (mem_assignments (kind := ", Clas.".toList) hm h)
      exact ⟨(g5 j ch h).trans this, (g5 j ch h).symm⟩
  · rw [o3 ch (by simp only [List.mem_flatMap, not_exists, not_and]; exact hno)]
    simp [startLabels, hch, defaultLabel]
  · rw [k3 ch (by simp only [List.mem_flatMap, not_exists, not_and]; exact hno)]
    simp [startLabels, hch, defaultLabel]

/-- **C144** The labels tell the station and the number of the channel: different stations or different numbers have different labels. -/
theorem C144_distinct (name name' : List Char) (i j : ℕ) :
    (name ++ ", Opt.".toList ++ pyStr i = name' ++ ", Opt.".toList ++ pyStr j → name = name' ∧ i = j) ∧
    (name ++ ", Clas.".toList ++ pyStr i = name' ++ ", Clas.".toList ++ pyStr j → name = name' ∧ i = j) :=
  ⟨fun h => stationLabel_inj (pre := ", Opt".toList) h, fun h => stationLabel_inj (pre := ", Clas".toList) h⟩

/-- **C144** Labels in the settings, for the optical and the classical channels, are not changed: each channel of a station has the label the user gave it. -/
theorem C144_user_partial (a c : ℕ) (all : List Station) (uo uk : List ChanLabel) (hn : "total_circuit".toList ∉ all.map Station.name)
    (hr : ∀ s ∈ all, (∀ ch ∈ s.optical, ch < uo.length) ∧ ∀ ch ∈ s.classical, ch < uk.length) :
    ∃ r, stationSettings a c all (some uo) (some uk) = some (r, uo, uk) ∧
      ∀ (i : ℕ) (s : Station), all[i]? = some s → ∃ lo lk, r[i]? = some (lo, lk) ∧ lo.length = s.optical.length ∧ lk.length = s.classical.length ∧
        (∀ j ch : ℕ, s.optical[j]? = some ch → lo[j]? = uo[ch]?) ∧ (∀ j ch : ℕ, s.classical[j]? = some ch → lk[j]? = uk[ch]?) := by
  obtain ⟨r, e1, -, e3⟩ := stationSettings_ok (a := a) (c := c) (all := all) (userO := some uo) (userK := some uk) (o := uo) (k := uk) hn rfl rfl hr
  exact ⟨r, e1, e3⟩

/-- **C144 fails** for labels of the classical channels only: they are replaced (in the list of the user itself), although the labels of the user are not to be changed. -/
theorem C144_fails : ∃ (a c : ℕ) (all : List Station) (uk : List ChanLabel) (r : List (List ChanLabel × List ChanLabel)) (o k : List ChanLabel),
    (∀ s ∈ all, (∀ ch ∈ s.optical, ch < a) ∧ ∀ ch ∈ s.classical, ch < uk.length) ∧ uk.length = c ∧
    stationSettings a c all none (some uk) = some (r, o, k) ∧ k ≠ uk ∧ r ≠ [([o.getD 0 []], [uk.getD 0 []])] := by
  refine ⟨1, 1, [⟨['b', 'o', 'b'], [0], [0]⟩], [['k', 'e', 'y']], [(["bob, Opt.0".toList], ["bob, Clas.0".toList])], ["bob, Opt.0".toList], ["bob, Clas.0".toList], ?_, rfl, ?_, ?_, ?_⟩
  · simp
  · decide
  · decide
  · decide

/-! ### The hypotheses are met -/

section NonVacuity

private def twoStations : List Station := [⟨['b'], [0, 3], [0]⟩, ⟨['a'], [2], []⟩]

example : stationSettings 4 2 twoStations none none =
    some ([(["b, Opt.0".toList, "b, Opt.1".toList], ["b, Clas.0".toList]), (["a, Opt.0".toList], [])],
      ["b, Opt.0".toList, "optical 1".toList, "a, Opt.0".toList, "b, Opt.1".toList], ["b, Clas.0".toList, "classical 1".toList]) := by
  decide

example : ∃ r o k, stationSettings 4 2 twoStations none none = some (r, o, k) ∧ o.length = 4 ∧ o[1]? = some ("optical ".toList ++ pyStr 1) := by
  obtain ⟨r, o, k, h1, h2, -, -, h3, -⟩ := C144_labels_partial 4 2 twoStations (by decide) (by decide) (by decide) (by decide)
  exact ⟨r, o, k, h1, h2, h3 1 (by norm_num) (by decide)⟩

example : ∃ r, stationSettings 4 2 twoStations (some ["h".toList, "v".toList, "x".toList, "y".toList]) (some ["p".toList, "q".toList]) = some r := by
  obtain ⟨r, h, -⟩ := C144_user_partial 4 2 twoStations ["h".toList, "v".toList, "x".toList, "y".toList] ["p".toList, "q".toList] (by decide) (by decide)
  exact ⟨_, h⟩

end NonVacuity

end Verif.Props
