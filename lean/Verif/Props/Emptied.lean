/-
C81: a high threshold stops an evaluation.
-/
import Verif.Props.Conserve
import Verif.Props.Compound

namespace Verif.Props
open Verif Spec

/-- A circuit with threshold 7/10, the identity as Fock matrix and an optical node that does nothing. -/
noncomputable def emptying : Circ := ⟨⟨2, 2, true⟩, 0, 7 / 10, false, [.fockMatrix identity4, .optical 1 [0, 1]]⟩

theorem identity_empties (r : ℕ → ℕ → ℕ) : ∃ i q, customColl emptying identity4 r threeFour = some [(i, q)] ∧ q.comps = [] := by
  have hi : Cfg.indexOfName ⟨2, 2, true⟩ ['0', '0'] = some 0 := by decide
  have hj : Cfg.indexOfName ⟨2, 2, true⟩ ['0', '1'] = some 2 := by decide
  have hk : Cfg.size ⟨2, 2, true⟩ = 4 := by decide
  have hr : List.range 4 = [0, 1, 2, 3] := rfl
  have hq : copyState emptying.thr emptying.m ⟨['0', '0'], 1, [(['0', '0'], ⟨3 / 5, 9 / 25⟩), (['0', '1'], ⟨4 / 5, 16 / 25⟩)], [], []⟩ =
      some ⟨['0', '0'], 1, [(['0', '0'], ⟨3 / 5, 9 / 25⟩), (['0', '1'], ⟨4 / 5, 16 / 25⟩)], [], []⟩ := by
    norm_num [copyState, CheckValid, emptying]
  have hc : applyCustom emptying.g emptying.thr identity4 [(['0', '0'], ⟨3 / 5, 9 / 25⟩), (['0', '1'], ⟨4 / 5, 16 / 25⟩)] = some [] := by
    norm_num [applyCustom, emptying, toVector, fromVector, hi, hj, hk, hr, SqArr.mulVec, identity4, Finset.sum_range_succ, Function.update]
  have hout : customColl emptying identity4 r threeFour = some (addState [] ⟨['0', '0'], 1, [], [], []⟩ none (r 0)) := by
    rw [customColl, threeFour, List.foldlM_cons]
    dsimp only
    rw [hq, hc]
    rfl
  rw [hout]
  exact ⟨_, ⟨['0', '0'], 1, [], [], []⟩, rfl, rfl⟩

/-- **C81** fails without the bound on the threshold: with threshold 7/10 the identity removes both components of 3/5 |00> + 4/5 |01>, and the
optical node after it raises an exception (`max` of an empty list) although all its arguments are right. -/
theorem C81_fails : ∃ (c : Circ) (coll : Coll), c.g.Ok ∧ 0 < c.thr ∧ c.thr < 1 ∧
    (∀ n ∈ c.nodes, Lossless c.g c.m n ∧ Fits c.g c.m n) ∧ Normalised c.g c.m coll ∧ NoZeros coll ∧
    ∀ rnd fuel, evalAll (fun _ => c) rnd fuel 0 coll = none := by
  refine ⟨emptying, threeFour, by decide, by norm_num [emptying], by norm_num [emptying], ?_, threeFour_normalised, ?_, ?_⟩
  · intro n hn
    have t1 : TwoChannels ⟨2, 2, true⟩ [0, 1] := ⟨0, 1, by decide, by decide, by decide, by decide⟩
    simp only [emptying, List.mem_cons, List.not_mem_nil, or_false] at hn
    rcases hn with rfl | rfl
    · refine ⟨?_, rfl⟩
      show toMatrix _ ∈ _
      have : toMatrix identity4 = 1 := by
        ext i j
        rw [Matrix.one_apply]
        show (if (i : ℕ) = (j : ℕ) then (1 : ℂ) else 0) = _
        simp only [Fin.val_inj]
      rw [this]; exact one_mem _
    · exact ⟨⟨one_mem _, t1⟩, trivial⟩
  · intro p hp e he
    obtain rfl : p = (['a'], ⟨['0', '0'], 1, [(['0', '0'], ⟨3 / 5, 9 / 25⟩), (['0', '1'], ⟨4 / 5, 16 / 25⟩)], [], []⟩) := by simpa [threeFour] using hp
    have : e = (['0', '0'], ⟨3 / 5, 9 / 25⟩) ∨ e = (['0', '1'], ⟨4 / 5, 16 / 25⟩) := by simpa using he
    rcases this with rfl | rfl <;> norm_num
  · intro rnd fuel
    have hr : List.range emptying.nodes.length = [0, 1] := rfl
    rw [evalAll, hr]
    cases fuel with
    | zero => rfl
    | succ fuel =>
      rw [evalNodes_node (by simp [emptying]) (by simp [emptying]) (by simp [isOpt, emptying, Node.isOptical])]
      obtain ⟨i, q, h, he⟩ := identity_empties (rnd 0 0 true)
      have hn : nodeEff (fun _ => emptying) rnd 0 0 threeFour = some [(i, q)] := h
      rw [hn, Option.bind_some]
      have hrem : remaining [0] [0, 1] = [1] := by decide
      rw [hrem]
      cases fuel with
      | zero => rfl
      | succ fuel =>
        rw [evalNodes_run (by simp [emptying]) (by simp [isOpt, emptying, Node.isOptical])]
        have : ∀ a b, opticalColl emptying a b [(i, q)] = none := by
          intro a b
          rw [opticalColl]
          cases hcp : copyColl emptying.thr emptying.m [(i, q)] with
          | none => rfl
          | some coll =>
            obtain ⟨-, rfl⟩ := (copyColl_iff (by simp)).1 hcp
            have : opticalGroups emptying [(i, q)] = none := by
              rw [opticalGroups, if_neg (by simp [emptying]), groupByPhotons]
              simp [photonNumber, he, Dict.keys]
            simp only [Option.bind_eq_bind, Option.bind_some, this, Option.bind_none]
        have : runEff emptying [1] [(i, q)] = none := by
          simp [runEff, opticalNodes, emptying] at this ⊢
          exact this _ _ _
        simp [List.takeWhile, isOpt, emptying, Node.isOptical] at this ⊢
        simp [this]

end Verif.Props
