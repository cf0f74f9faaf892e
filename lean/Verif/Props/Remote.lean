/-
Property C135: whatever is done with some channels does not show in the others.
-/
import Verif.Lemmas.Remote

namespace Verif.Props
open Verif Spec

/-- **C135 (partial)** Let a circuit (any list of its nodes, in any order) do nothing with the channels `keep`: its optical elements and its wave plates controlled by classical values are on other channels,
its custom nodes given by Fock matrices and its generic nodes (`shift_direct`, for example: `C135_direct_shifts`) act on other channels only, it measures other channels, and it has any classical nodes. Then the reduced density matrix of the channels `keep`, for every initial state, is the same after the evaluation as before, provided
that the threshold removed nothing (the states carry the same probability as before). So nothing that is measured elsewhere, and no choice made elsewhere, also not one that depends on earlier
results, can be seen in these channels. Missing: elements given on a first channel >= 2 and second channel 0, which the code applies to other channels (`C07_addressing_fails`, `C112_statistics_fails`). -/
theorem C135_reduced_state_partial (env : ℕ → Circ) (rnd : ℕ → ℕ → Bool → ℕ → ℕ → ℕ) (k : ℕ) (hg : (env k).g.Ok) (ht : 0 ≤ (env k).thr) (keep : List ℕ) (hr : ∀ j ∈ keep, j < (env k).g.C) (l : List ℕ)
    (hl : ∀ i ∈ l, ∀ n, (env k).nodes[i]? = some n → LeavesAlone (env k).g (env k).m keep n) (coll out : Coll) (hc : Sound (env k).g (env k).m coll) (fuel : ℕ)
    (h : evalNodes env rnd fuel k l coll = some out) (label : List Char) (hloss : carried label out = carried label coll) :
    ∃ dm dm', densityMatrix (env k).g coll label = some dm ∧ densityMatrix (env k).g out label = some dm' ∧ ∀ a b, reducedEntry (env k).g keep dm' a b = reducedEntry (env k).g keep dm a b := by
  have hs := eval_remote hg ht hr fuel l coll out hl hc h
  obtain ⟨dm, d1, -⟩ := densityMatrix_eq hg.1 (fun p hp => (hc.states p hp).wf) label
  obtain ⟨dm', d2, -⟩ := densityMatrix_eq hg.1 (fun p hp => (hs.sound.states p hp).wf) label
  refine ⟨dm, dm', d1, d2, fun a b => ?_⟩
  rw [reducedEntry_dm hg.1 (fun p hp => (hc.states p hp).wf) d1, reducedEntry_dm hg.1 (fun p hp => (hs.sound.states p hp).wf) d2]
  exact hs.same label hloss a b

/-- **C135 (partial)** Whatever the threshold: the probability to find given photon numbers in the channels `keep` does not grow, and decreases by no more than the probability that the threshold
removed, which is at most `L^C * threshold` per node. -/
theorem C135_statistics_partial (env : ℕ → Circ) (rnd : ℕ → ℕ → Bool → ℕ → ℕ → ℕ) (k : ℕ) (hg : (env k).g.Ok) (ht : 0 ≤ (env k).thr) (keep : List ℕ) (hr : ∀ j ∈ keep, j < (env k).g.C) (l : List ℕ)
    (hl : ∀ i ∈ l, ∀ n, (env k).nodes[i]? = some n → LeavesAlone (env k).g (env k).m keep n) (coll out : Coll) (hc : Sound (env k).g (env k).m coll) (fuel : ℕ)
    (h : evalNodes env rnd fuel k l coll = some out) (label : List Char) (o : List ℕ) :
    chance (env k).g label keep out o ≤ chance (env k).g label keep coll o ∧
    chance (env k).g label keep coll o - (carried label coll - carried label out) ≤ chance (env k).g label keep out o ∧
    carried label coll - carried label out ≤ l.length * ((env k).g.L ^ (env k).g.C : ℕ) * (env k).thr * listed label coll := by
  have hs := eval_remote hg ht hr fuel l coll out hl hc h
  refine ⟨hs.low label o, by linarith [hs.high label o], ?_⟩
  have hl' : ∀ i ∈ l, ∀ n, (env k).nodes[i]? = some n → Lossless (env k).g (env k).m n := by
    intro i hi n hn
    have := hl i hi n hn
    cases n with
    | optical M tl =>
      obtain ⟨h1, x, y, hxy, -⟩ := this
      exact ⟨h1, x, y, hxy.first, hxy.second, hxy.differ, hxy.list⟩
    | fockMatrix F => exact this.unitary
    | classical f v a => trivial
    | measurement opt cls => exact this.1
    | controlled a b c tl =>
      obtain ⟨x, y, hxy, -⟩ := this
      exact ⟨x, y, hxy.first, hxy.second, hxy.differ, hxy.list⟩
    | generic f =>
      intro a b ha hab
      obtain ⟨h1, h2⟩ := this a b ha hab
      exact ⟨h1, fun label => ⟨(h2 label).1, (h2 label).2.1⟩⟩
    | bridge n => exact absurd this (by simp [LeavesAlone])
  have := ((C80_conserved k hg ht l hl' coll out hc fuel h).2 label).2
  linarith

/-- **C135 (partial)** Two experimenters: one of them chooses between two circuits (two lists of nodes, also of different circuits with the same settings) for the channels outside `keep`. When the
threshold removes nothing the choice makes no difference for the probabilities of the channels `keep`. -/
theorem C135_free_choice_partial (env : ℕ → Circ) (rnd rnd' : ℕ → ℕ → Bool → ℕ → ℕ → ℕ) (k k' : ℕ) (hk : (env k').g = (env k).g ∧ (env k').m = (env k).m) (hg : (env k).g.Ok)
    (ht : 0 ≤ (env k).thr) (ht' : 0 ≤ (env k').thr) (keep : List ℕ) (hr : ∀ j ∈ keep, j < (env k).g.C) (l l' : List ℕ)
    (hl : ∀ i ∈ l, ∀ n, (env k).nodes[i]? = some n → LeavesAlone (env k).g (env k).m keep n) (hl' : ∀ i ∈ l', ∀ n, (env k').nodes[i]? = some n → LeavesAlone (env k).g (env k).m keep n)
    (coll out out' : Coll) (hc : Sound (env k).g (env k).m coll) (fuel fuel' : ℕ) (h : evalNodes env rnd fuel k l coll = some out) (h' : evalNodes env rnd' fuel' k' l' coll = some out')
    (label : List Char) (hloss : carried label out = carried label coll) (hloss' : carried label out' = carried label coll) (o : List ℕ) :
    chance (env k).g label keep out o = chance (env k).g label keep out' o := by
  have a := eval_remote hg ht hr fuel l coll out hl hc h
  have b := eval_remote (keep := keep) (by rw [hk.1]; exact hg) ht' (by rw [hk.1]; exact hr) fuel' l' coll out' (by rw [hk.1, hk.2]; exact hl') (by rw [hk.1, hk.2]; exact hc) h'
  rw [hk.1, hk.2] at b
  have a1 := a.low label o
  have a2 := a.high label o
  have b1 := b.low label o
  have b2 := b.high label o
  rw [hloss] at a2
  rw [hloss'] at b2
  linarith

/-- **C135** The nodes `shift` and `c_shift` of the library are such nodes: a shift of channels outside `keep`, and a shift of channels outside `keep` by the photon numbers of channels outside
`keep`, leave the channels `keep` alone. -/
theorem C135_shifts (g : Cfg) (m : ℕ) (hg : g.Ok) (keep : List ℕ) :
    (∀ (targets : List ℕ) (shifts : List ℤ), shifts.length = targets.length → targets ≠ [] → (∀ t ∈ targets, t < g.C ∧ t ∉ keep) →
      ∃ M, shiftMatrix g (standardKeys g) targets shifts = some M ∧ LeavesAlone g m keep (.fockMatrix M)) ∧
    (∀ (controls targets : List ℕ), controls.length = targets.length → targets ≠ [] → (∀ t ∈ targets, t < g.C ∧ t ∉ keep) → (∀ t ∈ controls, t < g.C ∧ t ∉ keep) →
      (∀ q ∈ controls.zip targets, q.1 ≠ q.2) →
      ∃ M, cShiftMatrix g (standardKeys g) controls targets = some M ∧ LeavesAlone g m keep (.fockMatrix M)) := by
  constructor
  · intro targets shifts hlen hne ht
    have hz : ∀ q ∈ shifts.zip targets, q.2 < g.C ∧ q.2 ∉ keep := fun q hq => ht _ (List.of_mem_zip (by exact hq)).2
    obtain ⟨M, h1, h2⟩ := shiftMatrix_moves hg.1 targets shifts (by
      intro e
      have := congrArg List.length e
      rw [List.length_zip, hlen, Nat.min_self] at this
      exact hne (List.eq_nil_of_length_eq_zero this)) (fun q hq => (hz q hq).1)
    exact ⟨M, h1, moves_elsewhere hg (movesElsewhere_foldl (sStep g.L) _ fun q hq => sStep_elsewhere hg.1 (hz q hq).1 (hz q hq).2)
      (fun v w hv hw e => shiftAll_inj hg.1 _ (fun q hq => (hz q hq).1) hv hw e) h2⟩
  · intro controls targets hlen hne ht hc hd
    have hz : ∀ q ∈ controls.zip targets, (q.1 < g.C ∧ q.2 < g.C) ∧ q.1 ∉ keep ∧ q.2 ∉ keep := fun q hq =>
      have h := List.of_mem_zip (by exact hq)
      ⟨⟨(hc _ h.1).1, (ht _ h.2).1⟩, (hc _ h.1).2, (ht _ h.2).2⟩
    obtain ⟨M, h1, h2⟩ := cShiftMatrix_moves hg.1 controls targets (by
      intro e
      have := congrArg List.length e
      rw [List.length_zip, hlen, Nat.min_self] at this
      exact hne (List.eq_nil_of_length_eq_zero this)) (fun q hq => (hz q hq).1)
    have hz' : ∀ q ∈ (controls.zip targets).reverse, (q.1 < g.C ∧ q.2 < g.C) ∧ q.1 ∉ keep ∧ q.2 ∉ keep := fun q hq => hz q (List.mem_reverse.1 hq)
    exact ⟨M, h1, moves_elsewhere hg (movesElsewhere_foldl (cStep g.L) _ fun q hq => cStep_elsewhere hg.1 (hz' q hq).1 (hz' q hq).2)
      (fun v w hv hw e => cShiftAll_inj hg.1 _ (fun q hq => (hz' q hq).1) (fun q hq => hd q (List.mem_reverse.1 hq)) hv hw e) h2⟩

/-- **C135** The same for `shift_direct` and `c_shift_direct`, which rewrite the components one by one. -/
theorem C135_direct_shifts (c : Circ) (hg : c.g.Ok) (keep : List ℕ) (hr : ∀ j ∈ keep, j < c.g.C) (r : ℕ → ℕ → ℕ) :
    (∀ (targets : List ℕ) (shifts : List ℤ), (∀ t ∈ targets, t < c.g.C ∧ t ∉ keep) → LeavesAlone c.g c.m keep (shiftDirectNode c targets shifts r)) ∧
    (∀ (controls targets : List ℕ), (∀ t ∈ targets, t < c.g.C ∧ t ∉ keep) → (∀ t ∈ controls, t < c.g.C ∧ t ∉ keep) → (∀ q ∈ controls.zip targets, q.1 ≠ q.2) →
      LeavesAlone c.g c.m keep (cShiftDirectNode c controls targets r)) := by
  constructor
  · intro targets shifts ht
    have hz : ∀ q ∈ shifts.zip targets, q.2 < c.g.C ∧ q.2 ∉ keep := fun q hq => ht _ (List.of_mem_zip (by exact hq)).2
    exact move_elsewhere hg hr (fun v hv => shiftValues_eq hg.1 targets shifts (fun q hq => (hz q hq).1) hv)
      (movesElsewhere_foldl (sStep c.g.L) _ fun q hq => sStep_elsewhere hg.1 (hz q hq).1 (hz q hq).2) (fun v w hv hw e => shiftAll_inj hg.1 _ (fun q hq => (hz q hq).1) hv hw e) r
  · intro controls targets ht hc hd
    have hz : ∀ q ∈ controls.zip targets, (q.1 < c.g.C ∧ q.2 < c.g.C) ∧ q.1 ∉ keep ∧ q.2 ∉ keep := fun q hq =>
      have h := List.of_mem_zip (by exact hq)
      ⟨⟨(hc _ h.1).1, (ht _ h.2).1⟩, (hc _ h.1).2, (ht _ h.2).2⟩
    exact move_elsewhere hg hr (fun v hv => cShiftValues_eq hg.1 controls targets (fun q hq => (hz q hq).1) hv)
      (movesElsewhere_foldl (cStep c.g.L) _ fun q hq => cStep_elsewhere hg.1 (hz q hq).1 (hz q hq).2)
      (fun v w hv hw e => cShiftAll_inj hg.1 _ (fun q hq => (hz q hq).1) hd hv hw e) r

/-- a concrete case: channel 0 is left alone by a direct shift of channel 2 by the photon number of channel 1 -/
example (r : ℕ → ℕ → ℕ) : LeavesAlone ⟨3, 3, true⟩ 2 [0] (cShiftDirectNode ⟨⟨3, 3, true⟩, 2, 1 / 10000, true, []⟩ [1] [2] r) :=
  (C135_direct_shifts ⟨⟨3, 3, true⟩, 2, 1 / 10000, true, []⟩ (by decide) [0] (by decide) r).2 [1] [2] (by decide) (by decide) (by decide)

/-- a concrete case: channel 0 is left alone by a shift of channels 1 and 2 (by 1 and by -1), and by a shift of channel 2 by the photon number of channel 1 -/
example : ∃ M N, shiftMatrix ⟨3, 3, true⟩ (standardKeys ⟨3, 3, true⟩) [1, 2] [1, -1] = some M ∧ LeavesAlone ⟨3, 3, true⟩ 2 [0] (.fockMatrix M) ∧
    cShiftMatrix ⟨3, 3, true⟩ (standardKeys ⟨3, 3, true⟩) [1] [2] = some N ∧ LeavesAlone ⟨3, 3, true⟩ 2 [0] (.fockMatrix N) := by
  obtain ⟨h1, h2⟩ := C135_shifts ⟨3, 3, true⟩ 2 (by decide) [0]
  obtain ⟨M, m1, m2⟩ := h1 [1, 2] [1, -1] rfl (by decide) (by decide)
  obtain ⟨N, n1, n2⟩ := h2 [1] [2] rfl (by decide) (by decide) (by decide) (by decide)
  exact ⟨M, N, m1, m2, n1, n2⟩

/-! ### The hypotheses are met -/

section NonVacuity

/-- two photons, one in channel 0 and one in channel 1, in a superposition with both in channel 2 -/
private noncomputable def remotePair : QState := ⟨['p'], 1, [(['1', '1', '0'], ⟨(3 / 5 : ℝ), 9 / 25⟩), (['0', '0', '2'], ⟨(4 / 5 : ℝ), 16 / 25⟩)], [0, 0], []⟩

private def remoteCfg : Cfg := ⟨3, 3, true⟩

/-- A cross-Kerr medium for channels 1 and 2: the phase of a basis state is proportional to the product of the two photon numbers. No optical element does this. -/
private noncomputable def kerr (χ : ℝ) : SqArr :=
  ⟨remoteCfg.size, fun i j => if i = j then Complex.exp (Complex.I * (χ * ((remoteCfg.valuesFromIndex i).getD 1 0 * (remoteCfg.valuesFromIndex i).getD 2 0 : ℕ) : ℝ)) else 0⟩

private theorem kerr_elsewhere (χ : ℝ) : ActsElsewhere remoteCfg [0] (kerr χ) := by
  have hinj : ∀ v w : Vals, Valid remoteCfg v → Valid remoteCfg w → remoteCfg.indexOf v = remoteCfg.indexOf w → v = w := by
    intro v w hv hw e
    rw [← remoteCfg.valuesFromIndex_indexOf hv, e, remoteCfg.valuesFromIndex_indexOf hw]
  refine ⟨rfl, ?_, ?_, ?_⟩
  · have e : toMatrix (kerr χ) = Matrix.diagonal (fun i : Fin (kerr χ).size => (kerr χ).at_ i i) := by
      ext i j
      by_cases h : i = j
      · subst h; simp [toMatrix]
      · rw [Matrix.diagonal_apply_ne _ h]
        simp only [toMatrix, kerr]
        rw [if_neg (fun e => h (Fin.ext e))]
    unfold IsUnitary
    rw [Matrix.mem_unitaryGroup_iff', e, Matrix.star_eq_conjTranspose, Matrix.diagonal_conjTranspose, Matrix.diagonal_mul_diagonal, ← Matrix.diagonal_one]
    congr 1
    funext i
    show star ((kerr χ).at_ i i) * (kerr χ).at_ i i = 1
    simp only [kerr, if_true]
    rw [Complex.star_def, ← Complex.normSq_eq_conj_mul_self, Complex.normSq_eq_norm_sq, mul_comm Complex.I, Complex.norm_exp_ofReal_mul_I]
    simp
  · rintro v w hv hw ⟨j, -, hne⟩
    simp only [kerr]
    rw [if_neg]
    intro e
    exact hne (by rw [hinj v w hv hw e])
  · intro v w v' w' hv hw hv' hw' hk ho
    have hiff : remoteCfg.indexOf v' = remoteCfg.indexOf w' ↔ remoteCfg.indexOf v = remoteCfg.indexOf w := by
      constructor
      · intro e
        have e := hinj v' w' hv' hw' e
        congr 1
        refine ext_getD hv.1 hw.1 fun j hj => ?_
        by_cases hjk : j ∈ [0]
        · exact (hk j hjk).1
        · rw [← (ho j hj hjk).1, ← (ho j hj hjk).2, e]
      · intro e
        have e := hinj v w hv hw e
        congr 1
        refine ext_getD hv'.1 hw'.1 fun j hj => ?_
        by_cases hjk : j ∈ [0]
        · exact (hk j hjk).2
        · rw [(ho j hj hjk).1, (ho j hj hjk).2, e]
    simp only [kerr, hiff]
    rw [remoteCfg.valuesFromIndex_indexOf hv, remoteCfg.valuesFromIndex_indexOf hv', (ho 1 (by decide) (by decide)).1, (ho 2 (by decide) (by decide)).1]

/-- the matrix is not the identity: it changes the relative phase of the components -/
example : (kerr Real.pi).at_ (remoteCfg.indexOf [0, 1, 1]) (remoteCfg.indexOf [0, 1, 1]) = -1 := by
  have hv : Valid remoteCfg [0, 1, 1] := by decide
  simp only [kerr, if_true]
  rw [remoteCfg.valuesFromIndex_indexOf hv]
  simp [mul_comm Complex.I, Complex.exp_pi_mul_I]

/-- A beam splitter on channels 1 and 2, a cross-Kerr medium for them, a measurement of channel 1, a classical node and a wave plate on channels 1 and 2 that is set to the measured value leave channel 0 alone. -/
private noncomputable def aliceCircuit : Circ := ⟨remoteCfg, 2, 1 / 10000, true, [.optical (genericMatrix 1 2) [1, 2, 0], .fockMatrix (kerr 1), .measurement [1] [0], .classical (fun v _ _ => some v) [] [], .controlled [.theta] [0] [(.phi, 0)] [1, 2, 0]]⟩

private theorem aliceLocal : ∀ i ∈ List.range aliceCircuit.nodes.length, ∀ n, aliceCircuit.nodes[i]? = some n → LeavesAlone remoteCfg 2 [0] n := by
  intro i hi n hn
  have hon : ∀ M : Opt, AwayFrom remoteCfg [0] (M, [1, 2, 0]) := fun M =>
    ⟨1, 2, ⟨(by decide : 1 < remoteCfg.C), (by decide : 2 < remoteCfg.C), by decide, by decide, (show tensorList 3 [1, 2] = some [1, 2, 0] by decide)⟩, by decide, by decide⟩
  have hi : i < 5 := by simpa [aliceCircuit] using hi
  rcases (by omega : i = 0 ∨ i = 1 ∨ i = 2 ∨ i = 3 ∨ i = 4) with rfl | rfl | rfl | rfl | rfl
  · obtain rfl : Node.optical (genericMatrix 1 2) [1, 2, 0] = n := by simpa [aliceCircuit] using hn
    exact ⟨(C17_wave_plate 1 2 0).1, hon _⟩
  · obtain rfl : Node.fockMatrix (kerr 1) = n := by simpa [aliceCircuit] using hn
    exact kerr_elsewhere 1
  · obtain rfl : Node.measurement [1] [0] = n := by simpa [aliceCircuit] using hn
    exact ⟨rfl, by decide⟩
  · obtain rfl : Node.classical (fun v _ _ => some v) [] [] = n := by simpa [aliceCircuit] using hn
    trivial
  · obtain rfl : Node.controlled [.theta] [0] [(.phi, 0)] [1, 2, 0] = n := by simpa [aliceCircuit] using hn
    exact hon _

private theorem remotePair_normalised : Normalised remoteCfg 2 [(['x'], remotePair)] := by
  have hv1 : Valid remoteCfg [1, 1, 0] := by decide
  have hn1 : IsName remoteCfg [1, 1, 0] ['1', '1', '0'] := (isName_iff hv1).2 (by decide)
  have hv2 : Valid remoteCfg [0, 0, 2] := by decide
  have hn2 : IsName remoteCfg [0, 0, 2] ['0', '0', '2'] := (isName_iff hv2).2 (by decide)
  have ht : totalProb remotePair.comps = 1 := by
    simp only [remotePair, totalProb, List.map_cons, List.map_nil, List.sum_cons, List.sum_nil, Complex.norm_real]
    norm_num
  refine ⟨by simp, fun p hp => ?_⟩
  rw [List.mem_singleton.1 hp]
  refine ⟨⟨⟨by simp [remotePair], ?_⟩, ?_, ht.le, by norm_num [remotePair], by norm_num [remotePair], by simp [remotePair]⟩, ht⟩
  · intro p hp
    simp only [remotePair, List.mem_cons, List.not_mem_nil, or_false] at hp
    rcases hp with rfl | rfl
    · exact ⟨_, hv1, hn1⟩
    · exact ⟨_, hv2, hn2⟩
  · intro p hp
    simp only [remotePair, List.mem_cons, List.not_mem_nil, or_false] at hp
    rcases hp with rfl | rfl <;> simp only [Complex.norm_real] <;> norm_num

private theorem remotePair_noZeros : NoZeros [(['x'], remotePair)] := by
  intro p hp e he
  rw [List.mem_singleton.1 hp] at he
  simp only [remotePair, List.mem_cons, List.not_mem_nil, or_false] at he
  rcases he with rfl | rfl <;> simp

/-- the circuit evaluates for this state, and the statistics of channel 0 changes by at most 5 * 27 / 10000 -/
example (rnd : ℕ → ℕ → Bool → ℕ → ℕ → ℕ) (o : List ℕ) : ∃ out, evalNodes (fun _ => aliceCircuit) rnd 7 0 [0, 1, 2, 3, 4] [(['x'], remotePair)] = some out ∧
    chance remoteCfg ['p'] [0] out o ≤ chance remoteCfg ['p'] [0] [(['x'], remotePair)] o ∧ chance remoteCfg ['p'] [0] [(['x'], remotePair)] o - 5 * 27 / 10000 ≤ chance remoteCfg ['p'] [0] out o := by
  have hl := aliceLocal
  rw [show List.range aliceCircuit.nodes.length = [0, 1, 2, 3, 4] from rfl] at hl
  have t : TwoChannels remoteCfg [1, 2, 0] := ⟨1, 2, by decide, by decide, by decide, (show tensorList 3 [1, 2] = some [1, 2, 0] by decide)⟩
  have hs : Sound remoteCfg 2 [(['x'], remotePair)] := ⟨remotePair_normalised.ids, fun p hp => (remotePair_normalised.states p hp).1⟩
  obtain ⟨out, h⟩ := C81_evaluates_partial (env := fun _ => aliceCircuit) (rnd := rnd) 0 (by decide) (by norm_num [aliceCircuit]) [0, 1, 2, 3, 4] (by simp [aliceCircuit])
    (by
      intro i hi n hn
      simp only [List.mem_cons, List.not_mem_nil, or_false] at hi
      rcases hi with rfl | rfl | rfl | rfl | rfl <;> obtain rfl := Option.some.inj hn
      · exact ⟨⟨(C17_wave_plate 1 2 0).1, t⟩, trivial⟩
      · exact ⟨(kerr_elsewhere 1).unitary, rfl⟩
      · exact ⟨rfl, (show ∀ n ∈ [0], n < 2 by decide)⟩
      · exact ⟨trivial, fun vals hv => ⟨vals, rfl, hv⟩⟩
      · refine ⟨t, rfl, ?_, fun a => by cases a <;> simp⟩
        intro ch hch
        obtain rfl : ch = 0 := by simpa using hch
        simp [aliceCircuit]) [(['x'], remotePair)] remotePair_normalised remotePair_noZeros (by norm_num [aliceCircuit, remoteCfg]) 7 (by simp)
  obtain ⟨h1, h2, h3⟩ := C135_statistics_partial (fun _ => aliceCircuit) rnd 0 (by decide) (by norm_num [aliceCircuit]) [0] (by decide) [0, 1, 2, 3, 4] hl _ out hs 7 h ['p'] o
  refine ⟨out, h, h1, ?_⟩
  have e : listed ['p'] [(['x'], remotePair)] = 1 := by simp [listed, sumFrom, remotePair]
  rw [e] at h3
  norm_num [aliceCircuit, remoteCfg] at h3
  change chance remoteCfg ['p'] [0] [(['x'], remotePair)] o - (carried ['p'] [(['x'], remotePair)] - carried ['p'] out) ≤ chance remoteCfg ['p'] [0] out o at h2
  linarith

/-- For every unitary element on channels 1 and 2 followed by a measurement of channel 1 there is a threshold with which nothing is removed, so that the reduced state of channel 0 stays the same. -/
example (M : Opt) (hM : M ∈ Matrix.unitaryGroup (Fin 2) ℂ) (rnd : ℕ → ℕ → Bool → ℕ → ℕ → ℕ) : ∃ (c : Circ) (out : Coll) (dm dm' : ℕ → ℕ → ℂ),
    c.nodes = opticals [(M, [1, 2, 0])] ++ [.measurement [1] [0]] ∧ evalAll (fun _ => c) rnd 4 0 [(['x'], remotePair)] = some out ∧ carried ['p'] out = carried ['p'] [(['x'], remotePair)] ∧
    densityMatrix remoteCfg [(['x'], remotePair)] ['p'] = some dm ∧ densityMatrix remoteCfg out ['p'] = some dm' ∧ ∀ a b, reducedEntry remoteCfg [0] dm' a b = reducedEntry remoteCfg [0] dm a b := by
  have t : TwoChannels remoteCfg [1, 2, 0] := ⟨1, 2, by decide, by decide, by decide, (show tensorList 3 [1, 2] = some [1, 2, 0] by decide)⟩
  have hs : Sound remoteCfg 2 [(['x'], remotePair)] := ⟨remotePair_normalised.ids, fun p hp => (remotePair_normalised.states p hp).1⟩
  have hok : remoteCfg.Ok := by decide
  obtain ⟨t0, ht0, hsmall⟩ := C113_small_thresholds remoteCfg hok true (M, [1, 2, 0]) [] (by
    intro k hk
    rw [List.mem_singleton.1 hk]
    exact ⟨t, hM⟩) [(['x'], remotePair)] (fun p hp => by
      rw [List.mem_singleton.1 hp]
      exact ⟨(remotePair_normalised.states _ (by simp)).1.wf, by simp [remotePair]⟩)
  set c : Circ := ⟨remoteCfg, 2, min t0 (1 / 1000), true, opticals [(M, [1, 2, 0])] ++ [.measurement [1] [0]]⟩ with hcdef
  have hct : 0 < c.thr := lt_min ht0 (by norm_num)
  have hct' : c.thr ≤ 1 / 1000 := min_le_right _ _
  have hnodes : ∀ i ∈ [0, 1], ∀ n, c.nodes[i]? = some n → LeavesAlone remoteCfg 2 [0] n ∧ Lossless remoteCfg 2 n ∧ Fits remoteCfg 2 n := by
    intro i hi n hn
    simp only [List.mem_cons, List.not_mem_nil, or_false] at hi
    rcases hi with rfl | rfl <;> obtain rfl := Option.some.inj hn
    · exact ⟨⟨hM, 1, 2, ⟨(by decide : 1 < remoteCfg.C), (by decide : 2 < remoteCfg.C), by decide, by decide, (show tensorList 3 [1, 2] = some [1, 2, 0] by decide)⟩, by decide, by decide⟩, ⟨hM, t⟩, trivial⟩
    · exact ⟨⟨rfl, by decide⟩, rfl, (show ∀ n ∈ [0], n < 2 by decide)⟩
  obtain ⟨out, h⟩ := C81_evaluates_partial (env := fun _ => c) (rnd := rnd) 0 hok hct [0, 1] (by simp [hcdef, opticals]) (fun i hi n hn => (hnodes i hi n hn).2) [(['x'], remotePair)]
    remotePair_normalised remotePair_noZeros (by
      show ((2 : ℕ) : ℝ) * ((3 ^ 3 : ℕ) : ℝ) * c.thr < 1
      push_cast
      linarith) 4 (by simp)
  have h' : evalAll (fun _ => c) rnd 4 0 [(['x'], remotePair)] = some out := h
  have hloss : carried ['p'] out = carried ['p'] [(['x'], remotePair)] := by
    rw [eval_optics_then_measure (fun _ => c) rnd 0 (M, [1, 2, 0]) [] [1] [0] rfl 4 (by simp)] at h'
    obtain ⟨mid, h1, h2⟩ := Option.bind_eq_some_iff.1 h'
    have hk := conserves_optical (c := c) hok hct.le (n := (M, [1, 2, 0])) (l := []) (by
      intro k hk
      rw [List.mem_singleton.1 hk]
      exact ⟨t, hM⟩) hs h1
    have e1 : carried ['p'] mid = carried ['p'] [(['x'], remotePair)] := by
      obtain ⟨-, hf⟩ := (opticalColl_iff c (M, [1, 2, 0]) [] _ hs.ids mid).1 h1
      cases hf with
      | cons a b =>
        cases b
        obtain ⟨d, hd, rfl⟩ := a
        have := hsmall c.thr (min_le_left _ _) _ (by simp) d hd
        simp only [carried, sumFrom, List.map_cons, List.map_nil, List.sum_cons, List.sum_nil]
        rw [this]
    have hm := conserves_measure (c := c) (opt := [1]) (cls := [0]) rfl hk.sound h2
    have a := hm.le ['p']
    have b := hm.ge ['p']
    rw [zero_mul, sub_zero] at b
    rw [← e1]
    exact le_antisymm a b
  obtain ⟨dm, dm', d1, d2, d3⟩ := C135_reduced_state_partial (fun _ => c) rnd 0 hok hct.le [0] (show ∀ j ∈ [0], j < remoteCfg.C by decide) [0, 1] (fun i hi n hn => (hnodes i hi n hn).1) _ out hs 4 h ['p'] hloss
  exact ⟨c, out, dm, dm', rfl, h, hloss, d1, d2, d3⟩

end NonVacuity

end Verif.Props
