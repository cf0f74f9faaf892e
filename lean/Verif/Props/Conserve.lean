/-
Properties C80, C81: circuits conserve probability, and evaluate without exceptions.
-/
import Verif.Lemmas.Progress

namespace Verif.Props
open Verif Spec

variable {env : ℕ → Circ} {rnd : ℕ → ℕ → Bool → ℕ → ℕ → ℕ}

theorem eval_conserves {k : ℕ} (hg : (env k).g.Ok) (ht : 0 ≤ (env k).thr) : ∀ (fuel : ℕ) (l : List ℕ) (coll out : Coll),
    (∀ i ∈ l, ∀ n, (env k).nodes[i]? = some n → Lossless (env k).g (env k).m n) → Sound (env k).g (env k).m coll →
    evalNodes env rnd fuel k l coll = some out →
    Conserves (env k).g (env k).m (l.length * ((env k).g.size * (env k).thr)) coll out := by
  intro fuel
  induction fuel with
  | zero => intro l coll out _ _ h; cases h
  | succ fuel ih =>
    intro l coll out hl hc h
    have hst : 0 ≤ ((env k).g.size : ℝ) * (env k).thr := by positivity
    cases l with
    | nil =>
      obtain rfl := Option.some.inj h
      simpa using Conserves.refl hc
    | cons i rest =>
      by_cases hv : ∀ j ∈ i :: rest, j < (env k).nodes.length
      swap
      · rw [evalNodes_invalid (by push Not at hv; exact hv)] at h; cases h
      have next : ∀ (loss : ℝ) (done : List ℕ) (mid : Coll), done ≠ [] → loss ≤ (env k).g.size * (env k).thr →
          Conserves (env k).g (env k).m loss coll mid → evalNodes env rnd fuel k (remaining done (i :: rest)) mid = some out →
          Conserves (env k).g (env k).m ((i :: rest).length * ((env k).g.size * (env k).thr)) coll out := by
        intro loss done mid hd hloss hcm he
        have h2 := ih _ mid out (fun j hj => hl j (remaining_subset _ _ hj)) hcm.sound he
        have h3 := Conserves.trans (by positivity) hcm h2
        refine h3.mono hc ?_
        have := remaining_length done (i :: rest) hd (by simp)
        have h4 : ((remaining done (i :: rest)).length : ℝ) + 1 ≤ ((i :: rest).length : ℝ) := by exact_mod_cast this
        nlinarith
      by_cases ho : isOpt (env k) i = true
      · rw [evalNodes_run hv ho] at h
        obtain ⟨mid, h1, h2⟩ := Option.bind_eq_some_iff.1 h
        refine next _ _ mid ?_ le_rfl ?_ h2
        · rw [List.takeWhile_cons, if_pos ho]; simp
        · unfold runEff at h1
          split at h1
          · cases h1
          · rename_i n ns hns
            refine conserves_optical hg ht ?_ hc h1
            intro m hm
            rw [← hns] at hm
            obtain ⟨j, hj, hjm⟩ := List.mem_filterMap.1 hm
            have hjl : j ∈ i :: rest := (List.takeWhile_sublist _).subset hj
            cases hnode : (env k).nodes[j]? with
            | none => rw [hnode] at hjm; cases hjm
            | some nd =>
              rw [hnode] at hjm
              cases nd with
              | optical M tl =>
                obtain rfl := Option.some.inj hjm
                obtain ⟨h3, h4⟩ := hl j hjl _ hnode
                exact ⟨h4, h3⟩
              | _ => cases hjm
      · have ho : isOpt (env k) i = false := by simpa using ho
        have hb : ∀ n, (env k).nodes[i]? ≠ some (.bridge n) := fun n hn => hl i (by simp) _ hn
        rw [evalNodes_node hv hb ho] at h
        obtain ⟨mid, h1, h2⟩ := Option.bind_eq_some_iff.1 h
        have hn := hl i (by simp)
        unfold nodeEff at h1
        split at h1
        · rename_i F hF
          exact next _ _ mid (by simp) le_rfl (conserves_custom hg ht (hn _ hF) _ hc h1) h2
        · exact next 0 _ mid (by simp) hst (conserves_classical hc h1) h2
        · rename_i opt cls hm
          exact next 0 _ mid (by simp) hst (conserves_measure (hn _ hm) hc h1) h2
        · rename_i hm
          exact next _ _ mid (by simp) le_rfl (conserves_controlled hg ht (hn _ hm) hc h1) h2
        · rename_i f hm
          obtain ⟨h3, h4⟩ := hn _ hm coll mid hc h1
          refine next 0 _ mid (by simp) hst ⟨h3, fun label => (h4 label).1.le, fun label => ?_, fun label => (h4 label).2⟩ h2
          rw [(h4 label).1]; simp
        · cases h1

/-- **C80** Evaluating any list of lossless nodes of a circuit leaves a collection of valid states and does not create probability: for every
initial state the probability carried by its states does not grow. What is lost is at most `L^C * threshold` per node, relative to the
summed cumulative probability. -/
theorem C80_conserved (k : ℕ) (hg : (env k).g.Ok) (ht : 0 ≤ (env k).thr) (l : List ℕ)
    (hl : ∀ i ∈ l, ∀ n, (env k).nodes[i]? = some n → Lossless (env k).g (env k).m n) (coll out : Coll)
    (hc : Sound (env k).g (env k).m coll) (fuel : ℕ) (h : evalNodes env rnd fuel k l coll = some out) :
    Sound (env k).g (env k).m out ∧ ∀ label, carried label out ≤ carried label coll ∧
      carried label coll - l.length * ((env k).g.L ^ (env k).g.C : ℕ) * (env k).thr * listed label coll ≤ carried label out := by
  have h1 := eval_conserves hg ht fuel l coll out hl hc h
  refine ⟨h1.sound, fun label => ⟨h1.le label, ?_⟩⟩
  have := h1.ge label
  rw [← mul_assoc] at this
  exact this

/-- **C80** With threshold 0 the probability carried by the states of each initial state is exactly conserved. -/
theorem C80_exact (k : ℕ) (hg : (env k).g.Ok) (ht : (env k).thr = 0) (l : List ℕ)
    (hl : ∀ i ∈ l, ∀ n, (env k).nodes[i]? = some n → Lossless (env k).g (env k).m n) (coll out : Coll)
    (hc : Sound (env k).g (env k).m coll) (fuel : ℕ) (h : evalNodes env rnd fuel k l coll = some out) (label : List Char) :
    carried label out = carried label coll := by
  obtain ⟨-, h1⟩ := C80_conserved k hg ht.ge l hl coll out hc fuel h
  obtain ⟨h2, h3⟩ := h1 label
  rw [ht] at h3
  simp at h3
  exact le_antisymm h2 h3

theorem eval_runs {k : ℕ} (hg : (env k).g.Ok) (ht : 0 < (env k).thr) : ∀ (fuel : ℕ) (l : List ℕ) (coll : Coll) (t : ℝ),
    (∀ i ∈ l, i < (env k).nodes.length) →
    (∀ i ∈ l, ∀ n, (env k).nodes[i]? = some n → Lossless (env k).g (env k).m n ∧ Fits (env k).g (env k).m n) → Sound (env k).g (env k).m coll →
    Alive t coll → t ≤ 1 → l.length * ((env k).g.size * (env k).thr) < t → l.length < fuel →
    ∃ out, evalNodes env rnd fuel k l coll = some out ∧ Alive (t - l.length * ((env k).g.size * (env k).thr)) out := by
  intro fuel
  induction fuel with
  | zero => intro l coll t _ _ _ _ _ _ h; omega
  | succ fuel ih =>
    intro l coll t hv hl hc ha h1 hlt hfuel
    have hst : 0 ≤ ((env k).g.size : ℝ) * (env k).thr := by positivity
    have h0 : 0 < t := lt_of_le_of_lt (by positivity) hlt
    cases l with
    | nil => exact ⟨coll, rfl, ⟨fun p hp => by have := ha.total p hp; simpa using this, ha.nz⟩⟩
    | cons i rest =>
      have next : ∀ (t' : ℝ) (done : List ℕ) (mid : Coll), done ≠ [] → t - (env k).g.size * (env k).thr ≤ t' → t' ≤ 1 →
          Sound (env k).g (env k).m mid → Alive t' mid →
          ∃ out, evalNodes env rnd fuel k (remaining done (i :: rest)) mid = some out ∧
            Alive (t - (i :: rest).length * ((env k).g.size * (env k).thr)) out := by
        intro t' done mid hd ht' h1' hs hal
        have hrl := remaining_length done (i :: rest) hd (by simp)
        have h4 : ((remaining done (i :: rest)).length : ℝ) + 1 ≤ ((i :: rest).length : ℝ) := by exact_mod_cast hrl
        obtain ⟨out, h5, h6⟩ := ih _ mid t' (fun j hj => hv j (remaining_subset _ _ hj)) (fun j hj => hl j (remaining_subset _ _ hj)) hs hal h1'
          (by nlinarith) (by omega)
        refine ⟨out, h5, ⟨fun p hp => le_trans ?_ (h6.total p hp), h6.nz⟩⟩
        nlinarith
      by_cases ho : isOpt (env k) i = true
      · rw [evalNodes_run hv ho]
        have hex : ∃ n ns, opticalNodes (env k) ((i :: rest).takeWhile (isOpt (env k))) = n :: ns := by
          have hin : (env k).nodes[i]?.isSome := by simp [hv i (by simp)]
          obtain ⟨M, tl, hM⟩ := isOpt_iff.1 ho
          rw [List.takeWhile_cons, if_pos ho]
          unfold opticalNodes
          rw [List.filterMap_cons, hM]
          exact ⟨_, _, rfl⟩
        obtain ⟨n, ns, hns⟩ := hex
        have hn : ∀ m ∈ n :: ns, OnChannels (env k).g m ∧ m.1 ∈ Matrix.unitaryGroup (Fin 2) ℂ := by
          intro m hm
          rw [← hns] at hm
          obtain ⟨j, hj, hjm⟩ := List.mem_filterMap.1 hm
          have hjl : j ∈ i :: rest := (List.takeWhile_sublist _).subset hj
          cases hnode : (env k).nodes[j]? with
          | none => rw [hnode] at hjm; cases hjm
          | some nd =>
            rw [hnode] at hjm
            cases nd with
            | optical M tl =>
              obtain rfl := Option.some.inj hjm
              obtain ⟨h3, h4⟩ := (hl j hjl _ hnode).1
              exact ⟨h4, h3⟩
            | _ => cases hjm
        obtain ⟨mid, hmid, hs, hal⟩ := runs_optical hg ht hn hc h0 ha
        rw [runEff, hns]
        simp only [hmid, Option.bind_some]
        refine next _ _ mid ?_ le_rfl (by linarith) hs hal
        rw [List.takeWhile_cons, if_pos ho]; simp
      · have ho : isOpt (env k) i = false := by simpa using ho
        have hb : ∀ n, (env k).nodes[i]? ≠ some (.bridge n) := fun n hn => (hl i (by simp) _ hn).1
        rw [evalNodes_node hv hb ho]
        have hn := hl i (by simp)
        obtain ⟨nd, hnd⟩ : ∃ nd, (env k).nodes[i]? = some nd := ⟨_, List.getElem?_eq_getElem (hv i (by simp))⟩
        obtain ⟨hls, hft⟩ := hn nd hnd
        unfold nodeEff
        rw [hnd]
        cases nd with
        | optical M tl => rw [isOpt, hnd] at ho; cases ho
        | fockMatrix F =>
          obtain ⟨mid, hmid, hs, hal⟩ := runs_custom hg ht hls hft (rnd k i true) hc ha
          simp only [hmid, Option.bind_some]
          exact next _ _ mid (by simp) le_rfl (by linarith) hs hal
        | classical f v a =>
          obtain ⟨mid, hmid, hs, hal⟩ := runs_classical hft hc ha
          simp only [hmid, Option.bind_some]
          exact next _ _ mid (by simp) (by linarith) h1 hs hal
        | measurement opt cls =>
          obtain ⟨mid, hmid, hs, hal⟩ := runs_measure ht.le (kinds := (env k).nodes.map Node.isMeasurement) (idx := i) hls hft hc ha h1
          simp only [hmid, Option.bind_some]
          exact next _ _ mid (by simp) (by linarith) h1 hs hal
        | controlled vars channels defaults tl =>
          obtain ⟨mid, hmid, hs, hal⟩ := runs_controlled hg ht hls hft.1 hft.2.1 hft.2.2 hc h0 ha
          simp only [hmid, Option.bind_some]
          exact next _ _ mid (by simp) le_rfl (by linarith) hs hal
        | generic f =>
          obtain ⟨mid, hmid, hz, hto⟩ := hft coll hc ha.nz
          simp only [hmid, Option.bind_some]
          exact next t _ mid (by simp) (by linarith) h1 (hls coll mid hc hmid).1 ⟨hto t ha.total, hz⟩
        | bridge n => exact hft.elim

/-- **C81** (partial: without bridges, see `C81_compound_partial`; and see `C81_fails`) A circuit whose nodes fit its channels evaluates without an exception on every collection of valid normalised
states, for every list of existing nodes, whatever the measurement outcomes are - as long as the number of nodes times `L^C` times the
threshold is below 1 (otherwise the threshold can remove a whole state). -/
theorem C81_evaluates_partial (k : ℕ) (hg : (env k).g.Ok) (ht : 0 < (env k).thr) (l : List ℕ) (hv : ∀ i ∈ l, i < (env k).nodes.length)
    (hl : ∀ i ∈ l, ∀ n, (env k).nodes[i]? = some n → Lossless (env k).g (env k).m n ∧ Fits (env k).g (env k).m n) (coll : Coll)
    (hc : Normalised (env k).g (env k).m coll) (hz : NoZeros coll)
    (hN : l.length * ((env k).g.L ^ (env k).g.C : ℕ) * (env k).thr < 1) (fuel : ℕ) (hf : l.length < fuel) :
    ∃ out, evalNodes env rnd fuel k l coll = some out :=
  (eval_runs hg ht fuel l coll 1 hv hl ⟨hc.ids, fun p hp => (hc.states p hp).1⟩ ⟨fun p hp => (hc.states p hp).2.ge, hz⟩ le_rfl
    (by rw [mul_assoc] at hN; exact hN) hf).imp fun _ h => h.1

/-! ### a concrete circuit -/

/-- half-wave plate, classical setter, controlled phase, custom Fock matrix, measurement -/
noncomputable def fiveNodes : Circ := ⟨⟨2, 2, true⟩, 1, 0.0001, false,
  [.optical (genericMatrix 1 Real.pi) [0, 1], .classical (fun _ new _ => some new) [1] [0],
   .controlled [.phi] [0] [(.theta, 0), (.phi, 0)] [1, 0], .fockMatrix ⟨4, fun i j => if i = j then 1 else 0⟩, .measurement [1] [0]]⟩

theorem fiveNodes_ok : ∀ i ∈ [0, 1, 2, 3, 4], ∀ n, fiveNodes.nodes[i]? = some n →
    Lossless fiveNodes.g fiveNodes.m n ∧ Fits fiveNodes.g fiveNodes.m n := by
  intro i hi n hn
  have t1 : TwoChannels ⟨2, 2, true⟩ [0, 1] := ⟨0, 1, by decide, by decide, by decide, by decide⟩
  have t2 : TwoChannels ⟨2, 2, true⟩ [1, 0] := ⟨1, 0, by decide, by decide, by decide, by decide⟩
  simp only [List.mem_cons, List.not_mem_nil, or_false] at hi
  rcases hi with rfl | rfl | rfl | rfl | rfl <;> obtain rfl := Option.some.inj hn
  · exact ⟨⟨(C17_wave_plate 1 Real.pi 0).1, t1⟩, trivial⟩
  · exact ⟨trivial, fun vals _ => ⟨[1], rfl, rfl⟩⟩
  · refine ⟨t2, rfl, ?_, ?_⟩
    · intro ch hch
      obtain rfl : ch = 0 := by simpa using hch
      simp [fiveNodes]
    · intro a; cases a <;> simp
  · refine ⟨?_, rfl⟩
    show toMatrix _ ∈ _
    have : toMatrix (⟨4, fun i j => if i = j then 1 else 0⟩ : SqArr) = 1 := by
      ext i j
      simp [toMatrix, Matrix.one_apply, Fin.ext_iff]
    rw [this]; exact one_mem _
  · refine ⟨rfl, ?_⟩
    intro n hn
    obtain rfl : n = 0 := by simpa using hn
    simp [fiveNodes]

/-- non-vacuity of C80 and C81: the circuit above evaluates, and at most 20 * 0.0001 of the probability is lost -/
example (rnd : ℕ → ℕ → Bool → ℕ → ℕ → ℕ) : ∃ out, evalNodes (fun _ => fiveNodes) rnd 6 0 [0, 1, 2, 3, 4] oneState = some out ∧
    carried ['0', '0'] out ≤ 1 ∧ 1 - 20 * 0.0001 ≤ carried ['0', '0'] out := by
  have hz : NoZeros oneState := by
    intro p hp e he
    obtain rfl : p = (['a'], ⟨['0', '0'], 1, [(['0', '0'], ⟨1, 1⟩)], [0], []⟩) := by simpa [oneState] using hp
    obtain rfl : e = (['0', '0'], ⟨1, 1⟩) := by simpa using he
    simp
  have hs : Sound ⟨2, 2, true⟩ 1 oneState := ⟨oneState_normalised.ids, fun p hp => (oneState_normalised.states p hp).1⟩
  obtain ⟨out, h⟩ := C81_evaluates_partial (env := fun _ => fiveNodes) (rnd := rnd) 0 (by decide) (by norm_num [fiveNodes]) [0, 1, 2, 3, 4]
    (by simp [fiveNodes]) fiveNodes_ok oneState oneState_normalised hz (by norm_num [fiveNodes]) 6 (by simp)
  obtain ⟨-, h2⟩ := C80_conserved (env := fun _ => fiveNodes) 0 (by decide) (by norm_num [fiveNodes]) [0, 1, 2, 3, 4]
    (fun i hi n hn => (fiveNodes_ok i hi n hn).1) oneState out hs 6 h
  have h3 := h2 ['0', '0']
  have e1 : carried ['0', '0'] oneState = 1 := by simp [carried, sumFrom, oneState, totalProb]
  have e2 : listed ['0', '0'] oneState = 1 := by simp [listed, sumFrom, oneState]
  rw [e1, e2] at h3
  refine ⟨out, h, h3.1, le_trans (le_of_eq ?_) h3.2⟩
  norm_num [fiveNodes]

end Verif.Props
