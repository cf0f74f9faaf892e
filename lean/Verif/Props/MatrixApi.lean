/-
Property C82: the Fock matrix returned for a circuit is the one used by its evaluation.
-/
import Verif.Model.MatrixApi
import Verif.Spec.MatrixApi
import Verif.Props.Evaluate
import Verif.Props.Collection
import Verif.Props.OpticalNodes

namespace Verif.Props
open Verif Spec

variable {env : ℕ → Circ} {rnd : ℕ → ℕ → Bool → ℕ → ℕ → ℕ}

theorem multipliedBy_intro {g : Cfg} (hg : g.Ok) {thr : ℝ} {F : SqArr} {q : QState} (hw : WellFormed g q.comps) {x : ℕ → ℂ} {comps : Comps}
    (hx : toVector g q.comps = some x) (hc : fromVector g thr (F.mulVec x) = some comps) :
    MultipliedBy g thr F q { q with comps := comps } := by
  refine ⟨rfl, rfl, rfl, rfl, x, ?_, ?_⟩
  · obtain ⟨x', hx', h⟩ := C22_to_vector g hg q.comps hw
    rw [hx] at hx'
    obtain rfl := Option.some.inj hx'
    exact h
  · obtain ⟨c, hc', -, -, h⟩ := C22_from_vector g hg thr (F.mulVec x)
    rw [hc] at hc'
    obtain rfl := Option.some.inj hc'
    exact h

theorem optical_list {c : Circ} {l : List ℕ} (h : ∀ i ∈ l, IsOptical c i) :
    ∃ ns : List (Opt × List ℕ), List.Forall₂ (fun i n => c.nodes[i]? = some (.optical n.1 n.2)) l ns := by
  induction l with
  | nil => exact ⟨[], List.Forall₂.nil⟩
  | cons i l ih =>
    obtain ⟨ns, hns⟩ := ih (fun j hj => h j (by simp [hj]))
    obtain ⟨M, tl, hi⟩ := h i (by simp)
    exact ⟨(M, tl) :: ns, List.Forall₂.cons hi hns⟩

theorem generateMatrix_some {c : Circ} {arg : NodeArg} {F : SqArr} (h : generateMatrix c arg = some F) :
    arg.toList c ≠ [] ∧ ∃ (n : Opt × List ℕ) (ns : List (Opt × List ℕ)),
      List.Forall₂ (fun i n => c.nodes[i]? = some (.optical n.1 n.2)) (arg.toList c) (n :: ns) ∧
      F = (fockNodes c.g (standardKeys c.g) .all n ns).1 := by
  unfold generateMatrix at h
  split at h
  · rename_i hall
    obtain ⟨ns, hns⟩ := optical_list (c := c) (l := arg.toList c) (fun i hi => isOpt_iff.1 ((List.all_eq_true.1 hall) i hi))
    rw [opticalNodes_eq hns] at h
    cases ns with
    | nil => cases h
    | cons n ns => exact ⟨(by intro e; rw [e] at hns; cases hns), n, ns, hns, (Option.some.inj h).symm⟩
  · cases h

theorem generateMatrix_eq {c : Circ} {arg : NodeArg} (h : ∀ i ∈ arg.toList c, IsOptical c i) (hne : arg.toList c ≠ []) :
    ∃ F, generateMatrix c arg = some F := by
  obtain ⟨ns, hns⟩ := optical_list h
  have hall : ((arg.toList c).all fun i => ((c.nodes[i]?).map Node.isOptical).getD false) = true :=
    List.all_eq_true.2 fun i hi => isOpt_iff.2 (h i hi)
  unfold generateMatrix
  rw [if_pos hall, opticalNodes_eq hns]
  cases ns with
  | nil =>
    rcases h' : arg.toList c with _ | ⟨i, l⟩
    · exact absurd h' hne
    · rw [h'] at hns; cases hns
  | cons n ns => exact ⟨_, rfl⟩

theorem getFock_cases {c : Circ} {arg : NodeArg} {F : SqArr} (h : getFockStateMatrix c arg = some F) :
    (∃ i, arg = .list [i] ∧ c.nodes[i]? = some (.fockMatrix F)) ∨ generateMatrix c arg = some F := by
  unfold getFockStateMatrix at h
  split at h
  · rename_i i
    split at h
    · cases h
    · rename_i F' hF'
      obtain rfl := Option.some.inj h
      exact Or.inl ⟨i, rfl, hF'⟩
    · exact Or.inr h
  · exact Or.inr h

theorem custom_states {c : Circ} (hg : c.g.Ok) (ht : 0 ≤ c.thr) {F : SqArr} (hs : F.size = c.g.size) (r : ℕ → ℕ → ℕ) {coll : Coll}
    (hc : ∀ p ∈ coll, Measurable c.g c.m p.2) : ∃ out, customColl c F r coll = some out ∧
      List.Forall₂ (fun p p' => MultipliedBy c.g c.thr F p.2 p'.2) coll out := by
  have key : ∀ (coll acc : Coll), (∀ p ∈ coll, Measurable c.g c.m p.2) →
      ∃ tail, coll.foldlM (fun (out : Coll) p => do
        let q ← copyState c.thr c.m p.2
        if F.size ≠ c.g.size then none
        let comps ← applyCustom c.g c.thr F p.2.comps
        some (addState out { q with comps := comps } none (r out.length))) acc = some (acc ++ tail) ∧
        List.Forall₂ (fun p p' => MultipliedBy c.g c.thr F p.2 p'.2) coll tail := by
    intro coll
    induction coll with
    | nil => intro acc _; exact ⟨[], by simp, List.Forall₂.nil⟩
    | cons p coll ih =>
      intro acc hm
      have hp := hm p (by simp)
      obtain ⟨x, hx, hxi⟩ := toVector_spec hg.1 hp.wf
      obtain ⟨c', hc', -⟩ := fromVector_spec hg.1 c.thr (F.mulVec x)
      obtain ⟨i, hi, hadd⟩ := C33_random_identifier acc { p.2 with comps := c' } (r acc.length)
      obtain ⟨tail, h1, h2⟩ := ih (acc ++ [(i, { p.2 with comps := c' })]) (fun q hq => hm q (by simp [hq]))
      refine ⟨(i, { p.2 with comps := c' }) :: tail, ?_, List.Forall₂.cons (multipliedBy_intro hg hp.wf hx hc') h2⟩
      rw [List.foldlM_cons, copyState, if_pos (measurable_check hp ht)]
      simp only [Option.bind_eq_bind, Option.bind_some, hs, ne_eq, not_true_eq_false, if_false, applyCustom, hx, hc'] at h1 ⊢
      rw [hadd, h1]
      simp
  obtain ⟨tail, h1, h2⟩ := key coll [] hc
  rw [List.nil_append] at h1
  exact ⟨tail, h1, h2⟩

/-- **C82** The matrix returned for a selection of nodes is the matrix by which the evaluation of these nodes multiplies every state of a
collection of valid normalised states (optical nodes on existing channels; a custom matrix must have the size of the basis). -/
theorem C82_matrix_is_evaluation (k : ℕ) (hg : (env k).g.Ok) (ht : 0 ≤ (env k).thr) (arg : NodeArg) (F : SqArr)
    (hF : getFockStateMatrix (env k) arg = some F)
    (hch : ∀ i ∈ arg.toList (env k), ∀ M tl, (env k).nodes[i]? = some (.optical M tl) → OnChannels (env k).g (M, tl))
    (hs : ∀ i ∈ arg.toList (env k), ∀ F', (env k).nodes[i]? = some (.fockMatrix F') → F'.size = (env k).g.L ^ (env k).g.C)
    (coll : Coll) (hc : Normalised (env k).g (env k).m coll) (fuel : ℕ) (hf : 2 ≤ fuel) :
    ∃ out, evalNodes env rnd fuel k (arg.toList (env k)) coll = some out ∧
      List.Forall₂ (fun p p' => MultipliedBy (env k).g (env k).thr F p.2 p'.2) coll out := by
  rcases getFock_cases hF with ⟨i, rfl, hi⟩ | h
  · obtain ⟨out, h1, h2⟩ := custom_states hg ht (hs i (by simp [NodeArg.toList]) F hi) (rnd k i true) (fun p hp => (hc.states p hp).1)
    refine ⟨out, ?_, h2⟩
    obtain ⟨f, rfl⟩ : ∃ f, fuel = f + 2 := ⟨fuel - 2, by omega⟩
    have hlt : i < (env k).nodes.length := by
      by_contra hlt
      rw [List.getElem?_eq_none (by omega)] at hi; cases hi
    show evalNodes env rnd (f + 2) k [i] coll = _
    rw [evalNodes]
    simp only [List.all_cons, List.all_nil, hlt, decide_true, Bool.and_true, not_true_eq_false, if_false, hi, h1, Option.bind_some]
    simp [remaining, evalNodes]
  · obtain ⟨hne, n, ns, hns, rfl⟩ := generateMatrix_some h
    obtain ⟨out, h1, h2⟩ := C31_optical_run (rnd := rnd) k hg ht _ (n :: ns) hns hne (by
      intro m hm
      obtain ⟨i, hi, hi'⟩ := forall₂_mem_right hns hm
      exact hch i hi m.1 m.2 hi') coll hc fuel hf
    refine ⟨out, h1, (forall₂_mem_congr (R := fun p p' => p ∈ coll →
      MultipliedBy (env k).g (env k).thr (fockNodes (env k).g (standardKeys (env k).g) .all n ns).1 p.2 p'.2)
      (fun p p' hp => ⟨fun h => h hp, fun h _ => h⟩)).1 (h2.imp ?_)⟩
    · rintro p p' ⟨-, x, comps, hx, hcs, e⟩ hp
      rw [e]
      refine multipliedBy_intro hg (hc.states p hp).1.wf hx ?_
      rw [← hcs]
      apply fromVector_congr
      intro i _
      exact fockNodes_sequential _ _ _ _ _

/-- **C82** When the matrix is available: for a single custom Fock matrix, and for every non-empty selection of optical nodes; every other
selection (also the default 'all' for a circuit that contains a custom matrix) is refused. -/
theorem C82_available (c : Circ) (arg : NodeArg) :
    (∃ F, getFockStateMatrix c arg = some F) ↔
      (∃ i F, arg = .list [i] ∧ c.nodes[i]? = some (.fockMatrix F)) ∨ (arg.toList c ≠ [] ∧ ∀ i ∈ arg.toList c, IsOptical c i) := by
  constructor
  · rintro ⟨F, h⟩
    rcases getFock_cases h with ⟨i, e, hi⟩ | h
    · exact Or.inl ⟨i, F, e, hi⟩
    · obtain ⟨hne, n, ns, hns, -⟩ := generateMatrix_some h
      refine Or.inr ⟨hne, fun i hi => ?_⟩
      obtain ⟨m, -, hm⟩ := forall₂_mem_left' hns hi
      exact ⟨_, _, hm⟩
  · rintro (⟨i, F, rfl, hi⟩ | ⟨hne, h⟩)
    · exact ⟨F, by simp [getFockStateMatrix, hi]⟩
    · obtain ⟨F, hF⟩ := generateMatrix_eq h hne
      refine ⟨F, ?_⟩
      unfold getFockStateMatrix
      split
      · rename_i i
        obtain ⟨M, tl, hi⟩ := h i (by simp [NodeArg.toList])
        rw [hi]
        exact hF
      · exact hF

theorem isUnitary_mul {A B : SqArr} (h : A.size = B.size) (hA : IsUnitary A) (hB : IsUnitary B) : IsUnitary (A.mul B) := by
  obtain ⟨s, B⟩ := B
  obtain ⟨s', A⟩ := A
  obtain rfl : s' = s := h
  have e : toMatrix (SqArr.mul ⟨s', A⟩ ⟨s', B⟩) = toMatrix ⟨s', A⟩ * toMatrix ⟨s', B⟩ := by
    refine Matrix.ext fun (i j : Fin s') => ?_
    refine Eq.trans ?_ (Matrix.mul_apply (M := toMatrix ⟨s', A⟩) (N := toMatrix ⟨s', B⟩)).symm
    exact (Fin.sum_univ_eq_sum_range (fun k => A i k * B k j) s').symm
  unfold IsUnitary
  rw [e]
  exact mul_mem hA hB

/-- **C82** The matrix of unitary optical nodes is a unitary matrix on the complete basis. -/
theorem C82_unitary (c : Circ) (hg : c.g.Ok) (arg : NodeArg) (F : SqArr) (hF : getFockStateMatrix c arg = some F)
    (hu : ∀ i ∈ arg.toList c, ∃ M h d tl, c.nodes[i]? = some (.optical M tl) ∧ M ∈ Matrix.unitaryGroup (Fin 2) ℂ ∧
      h < c.g.C ∧ d < c.g.C ∧ h ≠ d ∧ tensorList c.g.C [h, d] = some tl) :
    F.size = c.g.L ^ c.g.C ∧ IsUnitary F := by
  rcases getFock_cases hF with ⟨i, rfl, hi⟩ | h
  · obtain ⟨M, h, d, tl, h', -⟩ := hu i (by simp [NodeArg.toList])
    rw [hi] at h'; cases h'
  · obtain ⟨hne, n, ns, hns, rfl⟩ := generateMatrix_some h
    have hall : ∀ m ∈ n :: ns, OnChannels c.g m ∧ m.1 ∈ Matrix.unitaryGroup (Fin 2) ℂ := by
      intro m hm
      obtain ⟨i, hi, hi'⟩ := forall₂_mem_right hns hm
      obtain ⟨M, h, d, tl, h', hM, h1, h2, h3, h4⟩ := hu i hi
      rw [hi'] at h'
      cases h'
      exact ⟨⟨h, d, h1, h2, h3, h4⟩, hM⟩
    clear hns h hF hu hne
    induction ns using List.reverseRecOn with
    | nil =>
      obtain ⟨⟨h, d, h1, h2, h3, h4⟩, hM⟩ := hall n (by simp)
      exact C09_unitary c.g hg n.1 hM h d h1 h2 h3 _ ⟨n.2, h4, rfl⟩
    | append_singleton ns m ih =>
      obtain ⟨i1, i2⟩ := ih (fun m hm => hall m (by
        rcases List.mem_cons.1 hm with rfl | hm
        · simp
        · simp [hm]))
      obtain ⟨⟨h, d, h1, h2, h3, h4⟩, hM⟩ := hall m (by simp)
      obtain ⟨j1, j2⟩ := C09_unitary c.g hg m.1 hM h d h1 h2 h3 _ ⟨m.2, h4, rfl⟩
      rw [fockNodes_concat]
      exact ⟨j1, isUnitary_mul (j1.trans i1.symm) j2 i2⟩

/-! ### a concrete circuit -/

/-- two wave plates and a custom matrix -/
noncomputable def plates : Circ := ⟨⟨3, 2, true⟩, 0, 0.0001, false,
  [.optical (genericMatrix 1 Real.pi) [0, 1], .optical (genericMatrix 2 Real.pi) [1, 0], .fockMatrix ⟨9, fun i j => if i = j then 1 else 0⟩]⟩

theorem plates_ok : ∀ i ∈ [1, 0, 1], ∃ M h d tl, plates.nodes[i]? = some (.optical M tl) ∧ M ∈ Matrix.unitaryGroup (Fin 2) ℂ ∧
    h < plates.g.C ∧ d < plates.g.C ∧ h ≠ d ∧ tensorList plates.g.C [h, d] = some tl := by
  intro i hi
  have : i = 1 ∨ i = 0 := by simp at hi; omega
  rcases this with rfl | rfl
  · exact ⟨_, 1, 0, _, rfl, (C17_wave_plate 2 Real.pi 0).1, by decide, by decide, by decide, by decide⟩
  · exact ⟨_, 0, 1, _, rfl, (C17_wave_plate 1 Real.pi 0).1, by decide, by decide, by decide, by decide⟩

/-- **C82** Without a selection (or with 'all') the matrix is that of all nodes in the order they were added; for a circuit with a single node that is a custom matrix it is refused, although
the selection of that node is answered. -/
theorem C82_all (c : Circ) :
    (∀ i, NodeArg.all.toList c = (NodeArg.list (List.range c.nodes.length)).toList c ∧ (NodeArg.list i).toList c = i) ∧
    ((∀ F, c.nodes ≠ [.fockMatrix F]) → getFockStateMatrix c .all = getFockStateMatrix c (.list (List.range c.nodes.length))) ∧
    ∀ F, c.nodes = [.fockMatrix F] → getFockStateMatrix c .all = none ∧ getFockStateMatrix c (.list [0]) = some F := by
  have hg : ∀ l, generateMatrix c .all = generateMatrix c (.list l) ∨ l ≠ List.range c.nodes.length := by
    intro l
    by_cases h : l = List.range c.nodes.length
    · left; subst h; rfl
    · right; exact h
  refine ⟨fun i => ⟨rfl, rfl⟩, ?_, ?_⟩
  · intro h
    show generateMatrix c .all = _
    match hn : c.nodes, h with
    | [], _ => rcases hg [] with h | h
               · exact h
               · exact absurd (by rw [hn]; rfl) h
    | [n], h =>
      have e : getFockStateMatrix c (.list [0]) = generateMatrix c (.list [0]) := by
        unfold getFockStateMatrix
        simp only [hn, List.getElem?_cons_zero]
        cases n with
        | fockMatrix F => exact absurd rfl (h F)
        | _ => rfl
      rcases hg [0] with h | h
      · rw [h]; exact e.symm
      · exact absurd (by rw [hn]; rfl) h
    | n :: n' :: l, _ =>
      rcases hg (0 :: 1 :: (List.range (l.length)).map (· + 2)) with h | h
      · rw [h]
        have e : List.range (n :: n' :: l).length = 0 :: 1 :: (List.range (l.length)).map (· + 2) := by
          simp [List.range_succ_eq_map, Function.comp_def]
        rw [e]; rfl
      · refine absurd ?_ h
        rw [hn]
        simp [List.range_succ_eq_map, Function.comp_def]
  · intro F hF
    constructor
    · show generateMatrix c .all = none
      have e : ((NodeArg.all).toList c).all (fun i => ((c.nodes[i]?).map Node.isOptical).getD false) = false := by
        simp [NodeArg.toList, hF, Node.isOptical]
      rw [generateMatrix, e]; rfl
    · simp [getFockStateMatrix, hF]

/-- non-vacuity: a list of optical nodes out of order and with a repetition, the custom matrix alone, and a refusal -/
example : (∃ F, getFockStateMatrix plates (.list [1, 0, 1]) = some F ∧ F.size = 9 ∧ IsUnitary F) ∧
    (∃ F, getFockStateMatrix plates (.list [2]) = some F) ∧ getFockStateMatrix plates .all = none := by
  refine ⟨?_, ?_, ?_⟩
  · obtain ⟨F, hF⟩ := (C82_available plates (.list [1, 0, 1])).2 (Or.inr ⟨by simp [NodeArg.toList], fun i hi => by
      obtain ⟨M, h, d, tl, h', -⟩ := plates_ok i hi
      exact ⟨M, tl, h'⟩⟩)
    exact ⟨F, hF, C82_unitary plates (by decide) _ F hF plates_ok⟩
  · exact (C82_available plates (.list [2])).2 (Or.inl ⟨2, _, rfl, rfl⟩)
  · by_contra h
    rcases (C82_available plates .all).1 (Option.ne_none_iff_exists'.1 h) with ⟨i, F, h', -⟩ | ⟨-, h'⟩
    · cases h'
    · obtain ⟨M, tl, h2⟩ := h' 2 (by simp [NodeArg.toList, plates])
      simp [plates] at h2

end Verif.Props
