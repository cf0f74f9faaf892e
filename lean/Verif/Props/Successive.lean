/-
Properties C115, C116: several measurements one after the other.
-/
import Verif.Lemmas.Successive

namespace Verif.Props
open Verif Spec

/-- **C115** Two measurements one after the other are one joint measurement: for every collection of measurable states either both fail
(`none`, e.g. division by zero for an outcome of zero probability) or both succeed and give the same states up to their order, where
the probabilities of the two recorded results multiply to the one of the joint result. The lengths agree because the node is refused
otherwise (measurement_nodes.py 35-37); `kinds`, `idx` only enter the identifiers. -/
theorem C115_joint (g : Cfg) (thr : ℝ) (ht : 0 ≤ thr) (m : ℕ) (opt₁ cls₁ opt₂ cls₂ : List ℕ) (hlen₁ : cls₁.length = opt₁.length)
    (hlen₂ : cls₂.length = opt₂.length) (coll : Coll) (hid : (coll.map Prod.fst).Nodup) (hq : ∀ p ∈ coll, Measurable g m p.2)
    (kinds₁ kinds₂ kinds : List Bool) (idx₁ idx₂ idx : ℕ) :
    Option.Rel (Corresponding SameAsJoint)
      (((measureColl g thr m (measurementId kinds₁ idx₁) opt₁ cls₁ coll).bind (measureColl g thr m (measurementId kinds₂ idx₂) opt₂ cls₂)).map statesOf)
      ((measureColl g thr m (measurementId kinds idx) (opt₁ ++ opt₂) (cls₁ ++ cls₂) coll).map statesOf) :=
  collection_rel ((actsPerState_measure g thr m kinds₁ idx₁ opt₁ cls₁).comp (actsPerState_measure g thr m kinds₂ idx₂ opt₂ cls₂))
    (actsPerState_measure g thr m kinds idx _ _) hid (fun p hp => measureTwice_joint ht (hq p hp) hlen₁ hlen₂)

/-- **C116** The order of two measurements that write to different classical channels does not matter (also if they measure the same
optical channels): either both orders fail or both give the same states up to order. -/
theorem C116_order (g : Cfg) (thr : ℝ) (ht : 0 ≤ thr) (m : ℕ) (opt₁ cls₁ opt₂ cls₂ : List ℕ) (hlen₁ : cls₁.length = opt₁.length)
    (hlen₂ : cls₂.length = opt₂.length) (hd : ∀ n ∈ cls₁, n ∉ cls₂) (coll : Coll) (hid : (coll.map Prod.fst).Nodup)
    (hq : ∀ p ∈ coll, Measurable g m p.2) (kinds₁ kinds₂ kinds₃ kinds₄ : List Bool) (idx₁ idx₂ idx₃ idx₄ : ℕ) :
    Option.Rel (Corresponding SameInOtherOrder)
      (((measureColl g thr m (measurementId kinds₁ idx₁) opt₁ cls₁ coll).bind (measureColl g thr m (measurementId kinds₂ idx₂) opt₂ cls₂)).map statesOf)
      (((measureColl g thr m (measurementId kinds₃ idx₃) opt₂ cls₂ coll).bind (measureColl g thr m (measurementId kinds₄ idx₄) opt₁ cls₁)).map statesOf) :=
  collection_rel ((actsPerState_measure g thr m kinds₁ idx₁ opt₁ cls₁).comp (actsPerState_measure g thr m kinds₂ idx₂ opt₂ cls₂))
    ((actsPerState_measure g thr m kinds₃ idx₃ opt₂ cls₂).comp (actsPerState_measure g thr m kinds₄ idx₄ opt₁ cls₁)) hid
    (fun p hp => measureTwice_order ht (hq p hp) hlen₁ hlen₂ hd)

theorem eval_one_measurement {env : ℕ → Circ} {rnd : ℕ → ℕ → Bool → ℕ → ℕ → ℕ} {k : ℕ} {opt cls : List ℕ} (hk : (env k).nodes = [.measurement opt cls])
    {fuel : ℕ} (hf : 1 < fuel) (coll : Coll) :
    ∃ kinds idx, evalAll env rnd fuel k coll = measureColl (env k).g (env k).thr (env k).m (measurementId kinds idx) opt cls coll := by
  obtain ⟨f, rfl⟩ : ∃ f, fuel = f + 1 := ⟨fuel - 1, by omega⟩
  obtain ⟨f, rfl⟩ : ∃ f', f = f' + 1 := ⟨f - 1, by omega⟩
  have h0 : (env k).nodes[0]? = some (.measurement opt cls) := by rw [hk]; rfl
  refine ⟨(env k).nodes.map Node.isMeasurement, 0, ?_⟩
  unfold evalAll
  rw [show List.range (env k).nodes.length = [0] by rw [hk]; rfl,
    evalNodes_sorted_node (by simp) (by simp [hk]) (by rw [h0]; simp) (by simp [isOpt, h0, Node.isOptical])]
  simp only [nodeEff, h0]
  cases measureColl (env k).g (env k).thr (env k).m (measurementId ((env k).nodes.map Node.isMeasurement) 0) opt cls coll <;> rfl

theorem eval_two_measurements {env : ℕ → Circ} {rnd : ℕ → ℕ → Bool → ℕ → ℕ → ℕ} {k : ℕ} {opt₁ cls₁ opt₂ cls₂ : List ℕ}
    (hk : (env k).nodes = [.measurement opt₁ cls₁, .measurement opt₂ cls₂]) {fuel : ℕ} (hf : 2 < fuel) (coll : Coll) :
    ∃ kinds idx kinds' idx', evalAll env rnd fuel k coll = (measureColl (env k).g (env k).thr (env k).m (measurementId kinds idx) opt₁ cls₁ coll).bind
      (measureColl (env k).g (env k).thr (env k).m (measurementId kinds' idx') opt₂ cls₂) := by
  obtain ⟨f, rfl⟩ : ∃ f, fuel = f + 1 := ⟨fuel - 1, by omega⟩
  obtain ⟨f, rfl⟩ : ∃ f', f = f' + 1 := ⟨f - 1, by omega⟩
  obtain ⟨f, rfl⟩ : ∃ f', f = f' + 1 := ⟨f - 1, by omega⟩
  have h0 : (env k).nodes[0]? = some (.measurement opt₁ cls₁) := by rw [hk]; rfl
  have h1 : (env k).nodes[1]? = some (.measurement opt₂ cls₂) := by rw [hk]; rfl
  refine ⟨(env k).nodes.map Node.isMeasurement, 0, (env k).nodes.map Node.isMeasurement, 1, ?_⟩
  unfold evalAll
  rw [show List.range (env k).nodes.length = [0, 1] by rw [hk]; rfl,
    evalNodes_sorted_node (by simp) (by simp [hk]) (by rw [h0]; simp) (by simp [isOpt, h0, Node.isOptical])]
  simp only [nodeEff, h0]
  congr 1
  funext coll'
  rw [evalNodes_sorted_node (by simp) (by simp [hk]) (by rw [h1]; simp) (by simp [isOpt, h1, Node.isOptical])]
  simp only [nodeEff, h1]
  cases measureColl (env k).g (env k).thr (env k).m (measurementId ((env k).nodes.map Node.isMeasurement) 1) opt₂ cls₂ coll' <;> rfl

/-- **C115** The same for circuits: one with two measurement nodes and one, with the same settings, with a single measurement node. -/
theorem C115_circuits (a b : Circ) (hs : b.g = a.g ∧ b.m = a.m ∧ b.thr = a.thr) (ht : 0 ≤ a.thr) (opt₁ cls₁ opt₂ cls₂ : List ℕ)
    (hlen₁ : cls₁.length = opt₁.length) (hlen₂ : cls₂.length = opt₂.length)
    (ha : a.nodes = [.measurement opt₁ cls₁, .measurement opt₂ cls₂]) (hb : b.nodes = [.measurement (opt₁ ++ opt₂) (cls₁ ++ cls₂)])
    (coll : Coll) (hid : (coll.map Prod.fst).Nodup) (hq : ∀ p ∈ coll, Measurable a.g a.m p.2) (rnd rnd' : ℕ → ℕ → Bool → ℕ → ℕ → ℕ)
    (fuel : ℕ) (hf : 2 < fuel) :
    Option.Rel (Corresponding SameAsJoint) ((evalAll (fun _ => a) rnd fuel 0 coll).map statesOf) ((evalAll (fun _ => b) rnd' fuel 0 coll).map statesOf) := by
  obtain ⟨k1, i1, k2, i2, e1⟩ := eval_two_measurements (env := fun _ => a) (rnd := rnd) (k := 0) ha hf coll
  obtain ⟨k3, i3, e2⟩ := eval_one_measurement (env := fun _ => b) (rnd := rnd') (k := 0) hb (by omega : 1 < fuel) coll
  rw [e1, e2, hs.1, hs.2.1, hs.2.2]
  exact C115_joint a.g a.thr ht a.m opt₁ cls₁ opt₂ cls₂ hlen₁ hlen₂ coll hid hq _ _ _ _ _ _

/-- **C116** The same for circuits: two circuits with the same settings and two measurement nodes, in different order. -/
theorem C116_circuits (a b : Circ) (hs : b.g = a.g ∧ b.m = a.m ∧ b.thr = a.thr) (ht : 0 ≤ a.thr) (opt₁ cls₁ opt₂ cls₂ : List ℕ)
    (hlen₁ : cls₁.length = opt₁.length) (hlen₂ : cls₂.length = opt₂.length) (hd : ∀ n ∈ cls₁, n ∉ cls₂)
    (ha : a.nodes = [.measurement opt₁ cls₁, .measurement opt₂ cls₂]) (hb : b.nodes = [.measurement opt₂ cls₂, .measurement opt₁ cls₁])
    (coll : Coll) (hid : (coll.map Prod.fst).Nodup) (hq : ∀ p ∈ coll, Measurable a.g a.m p.2) (rnd rnd' : ℕ → ℕ → Bool → ℕ → ℕ → ℕ)
    (fuel : ℕ) (hf : 2 < fuel) :
    Option.Rel (Corresponding SameInOtherOrder) ((evalAll (fun _ => a) rnd fuel 0 coll).map statesOf) ((evalAll (fun _ => b) rnd' fuel 0 coll).map statesOf) := by
  obtain ⟨k1, i1, k2, i2, e1⟩ := eval_two_measurements (env := fun _ => a) (rnd := rnd) (k := 0) ha hf coll
  obtain ⟨k3, i3, k4, i4, e2⟩ := eval_two_measurements (env := fun _ => b) (rnd := rnd') (k := 0) hb hf coll
  rw [e1, e2, hs.1, hs.2.1, hs.2.2]
  exact C116_order a.g a.thr ht a.m opt₁ cls₁ opt₂ cls₂ hlen₁ hlen₂ hd coll hid hq _ _ _ _ _ _ _ _

/-! ### the hypotheses are met and the measurements succeed -/

/-- two optical channels, photon numbers 0 and 1 -/
private def gm : Cfg := ⟨2, 2, true⟩

private noncomputable def uneven : VComps := [([0, 1], ⟨3 / 5, 9 / 25⟩), ([1, 0], ⟨4 / 5, 16 / 25⟩)]

/-- `3/5 |0,1⟩ + 4/5 |1,0⟩` with two classical channels -/
private noncomputable def unevenState : QState := ⟨"psi".toList, 1 / 2, enc gm uneven, [0, 0], []⟩

private theorem uneven_ok : VOk gm uneven := by
  refine ⟨by simp [uneven], ?_⟩
  intro p hp
  simp only [uneven, List.mem_cons, List.not_mem_nil, or_false] at hp
  rcases hp with rfl | rfl <;> exact ⟨rfl, by decide⟩

private theorem n35 : ‖(3 / 5 : ℂ)‖ ^ 2 = 9 / 25 := by rw [norm_div]; norm_num
private theorem n45 : ‖(4 / 5 : ℂ)‖ ^ 2 = 16 / 25 := by rw [norm_div]; norm_num

private theorem uneven_measurable : Measurable gm 2 unevenState := by
  refine ⟨wf_enc uneven_ok, ?_, ?_, by norm_num [unevenState], by norm_num [unevenState], rfl⟩
  · intro p hp
    obtain ⟨r, hr, rfl⟩ := List.mem_map.1 hp
    simp only [uneven, List.mem_cons, List.not_mem_nil, or_false] at hr
    rcases hr with rfl | rfl
    · exact n35.symm
    · exact n45.symm
  · rw [unevenState, totalProb_enc, uneven]
    simp only [List.map_cons, List.map_nil, List.sum_cons, List.sum_nil, n35, n45]
    norm_num

/-- Measuring channel 0 and then channel 1 of this state succeeds, in this and in the other order, and so does the joint measurement. -/
example : ∃ a b c : Coll,
    (measureColl gm 0 2 (measurementId [true, true] 0) [0] [0] [("a".toList, unevenState)]).bind (measureColl gm 0 2 (measurementId [true, true] 1) [1] [1]) = some a ∧
    (measureColl gm 0 2 (measurementId [true, true] 0) [1] [1] [("a".toList, unevenState)]).bind (measureColl gm 0 2 (measurementId [true, true] 1) [0] [0]) = some b ∧
    measureColl gm 0 2 (measurementId [true] 0) [0, 1] [0, 1] [("a".toList, unevenState)] = some c ∧
    Corresponding SameAsJoint (statesOf a) (statesOf c) ∧ Corresponding SameInOtherOrder (statesOf a) (statesOf b) := by
  have hid : (([("a".toList, unevenState)] : Coll).map Prod.fst).Nodup := by decide
  have hq : ∀ p ∈ ([("a".toList, unevenState)] : Coll), Measurable gm 2 p.2 := by
    intro p hp
    obtain rfl : p = ("a".toList, unevenState) := by simpa using hp
    exact uneven_measurable
  obtain ⟨qs, hqs⟩ := C26_success gm 0 le_rfl 2 unevenState [0, 1] [0, 1] uneven_measurable rfl (by simp) (by
    intro o ho
    rw [unevenState, occurs_iff uneven_ok] at ho
    rw [unevenState, outcomeProb_eq uneven_ok]
    obtain ⟨p, hp, rfl⟩ := mem_outcomes.1 ho
    simp only [uneven, List.mem_cons, List.not_mem_nil, or_false] at hp
    rcases hp with rfl | rfl <;> simp [probAt, itemsAt, itemsOf, outcomeOf, uneven])
  obtain ⟨c, hc⟩ : ∃ c, measureColl gm 0 2 (measurementId [true] 0) [0, 1] [0, 1] [("a".toList, unevenState)] = some c := by
    rw [measureColl]
    simp only [List.foldlM_cons, List.foldlM_nil, hqs, Option.bind_eq_bind, Option.bind_some]
    exact ⟨_, rfl⟩
  have h1 := C115_joint gm 0 le_rfl 2 [0] [0] [1] [1] rfl rfl _ hid hq [true, true] [true, true] [true] 0 1 0
  have h2 := C116_order gm 0 le_rfl 2 [0] [0] [1] [1] rfl rfl (by simp) _ hid hq [true, true] [true, true] [true, true] [true, true] 0 1 0 1
  rw [show ([0] ++ [1] : List ℕ) = [0, 1] from rfl, hc] at h1
  generalize (measureColl gm 0 2 (measurementId [true, true] 0) [0] [0] [("a".toList, unevenState)]).bind (measureColl gm 0 2 (measurementId [true, true] 1) [1] [1]) = A at h1 h2 ⊢
  generalize (measureColl gm 0 2 (measurementId [true, true] 0) [1] [1] [("a".toList, unevenState)]).bind (measureColl gm 0 2 (measurementId [true, true] 1) [0] [0]) = B at h2 ⊢
  cases A with
  | none => cases h1
  | some a =>
    cases B with
    | none => cases h2
    | some b =>
      cases h1 with
      | some h1 =>
        cases h2 with
        | some h2 => exact ⟨a, b, c, rfl, rfl, hc, h1, h2⟩

end Verif.Props
