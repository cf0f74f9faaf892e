/-
Properties C14 - C16: applying optical nodes to states.
-/
import Verif.Props.State
import Verif.Props.Fock

namespace Verif.Props
open Verif Spec

/-- An optical node on two different existing channels: its tensor list is the one computed by the node list. -/
def OnChannels (g : Cfg) (n : Opt × List ℕ) : Prop :=
  ∃ h c, h < g.C ∧ c < g.C ∧ h ≠ c ∧ tensorList g.C [h, c] = some n.2

theorem OnChannels.perm {g : Cfg} {n : Opt × List ℕ} (h : OnChannels g n) : n.2.Perm (List.range g.C) := by
  obtain ⟨h, c, hh, hc, hne, e⟩ := h
  obtain ⟨tl, e', hp, -⟩ := tensorList_two hh hc hne
  rw [e] at e'
  obtain rfl := Option.some.inj e'
  exact hp

/-- The vector obtained by multiplying with the full matrix of one node after the other. -/
noncomputable def oneByOne (g : Cfg) (nodes : List (Opt × List ℕ)) (x : ℕ → ℂ) : ℕ → ℂ :=
  nodes.foldl (fun y n => (fockNode g (standardKeys g) n.1 n.2 .all).1.mulVec y) x

theorem mulVec_all_congr {g : Cfg} {n : Opt × List ℕ} {x y : ℕ → ℂ} (h : ∀ i < g.size, x i = y i) (i : ℕ) :
    (fockNode g (standardKeys g) n.1 n.2 .all).1.mulVec x i = (fockNode g (standardKeys g) n.1 n.2 .all).1.mulVec y i :=
  mulVec_congr (by rw [fockNode_all_size]; exact h) i

theorem oneByOne_congr {g : Cfg} (nodes : List (Opt × List ℕ)) {x y : ℕ → ℂ} (h : ∀ i < g.size, x i = y i) :
    ∀ i < g.size, oneByOne g nodes x i = oneByOne g nodes y i := by
  induction nodes generalizing x y with
  | nil => exact h
  | cons n l ih => exact ih (fun i _ => mulVec_all_congr h i)

theorem applyOptical_eq {g : Cfg} (hg : g.Ok) (thr : ℝ) (useFull : Bool) (n : Opt × List ℕ) (l : List (Opt × List ℕ))
    (hn : OnChannels g n) (hl : ∀ m ∈ l, OnChannels g m) {c : Comps} (h : WellFormed g c) (hne : c ≠ []) :
    applyOptical g thr useFull (standardKeys g) n l c = fromVector g thr (oneByOne g (n :: l) (vec g c)) := by
  obtain ⟨x, hx, hxi⟩ := toVector_spec hg.1 h
  have main : ∀ sel : Sel, (∀ i < g.size, ¬ sel.ok (g.valuesFromIndex i).sum → x i = 0) →
      fromVector g thr (applyReduced (fockNodes g (standardKeys g) sel n l) x)
        = fromVector g thr (oneByOne g (n :: l) (vec g c)) := by
    intro sel hsel
    apply fromVector_congr
    intro i hi
    rw [applyReduced_fockNodes hg sel n l hn.perm (fun m hm => (hl m hm).perm) x hsel hi, fockNodes_sequential]
    exact oneByOne_congr (n :: l) hxi i hi
  unfold applyOptical
  cases useFull with
  | true =>
    rw [if_pos rfl, hx]
    exact main .all (fun i _ hno => absurd trivial hno)
  | false =>
    rw [if_neg (by simp)]
    obtain ⟨N, e, hN, hNp⟩ := photonNumber_spec h hne
    rw [hN, hx]
    simp only [Option.map_some, Option.bind_eq_bind, Option.bind_some]
    cases e with
    | true =>
      rw [if_pos rfl]
      apply main
      intro i hi hno
      rw [hxi i hi]
      exact vec_zero_of_photonNumber (P := fun k => k = N) (fun p hp v hv e => (hNp p hp v hv e).2 rfl) hg.1 hno
    | false =>
      rw [if_neg (by simp)]
      apply main
      intro i hi hno
      rw [hxi i hi]
      exact vec_zero_of_photonNumber (P := fun k => k ≤ N) (fun p hp v hv e => (hNp p hp v hv e).1) hg.1 hno

/-- **C14** The setting `use_full_fock_matrix` does not change the result, for any list of optical nodes (any optical
matrices) and any non-empty valid state. -/
theorem C14_full_or_reduced (g : Cfg) (hg : g.Ok) (thr : ℝ) (n : Opt × List ℕ) (l : List (Opt × List ℕ))
    (hn : OnChannels g n) (hl : ∀ m ∈ l, OnChannels g m) (c : Comps) (h : WellFormed g c) (hne : c ≠ []) :
    applyOptical g thr true (standardKeys g) n l c = applyOptical g thr false (standardKeys g) n l c ∧
    ∃ c', applyOptical g thr false (standardKeys g) n l c = some c' ∧ WellFormed g c' := by
  rw [applyOptical_eq hg thr true n l hn hl h hne, applyOptical_eq hg thr false n l hn hl h hne]
  obtain ⟨c', hc, hw, -⟩ := fromVector_spec hg.1 thr (oneByOne g (n :: l) (vec g c))
  exact ⟨rfl, c', hc, hw⟩

/-- **C15** A list of optical nodes evaluated together gives the vector obtained by applying the matrices of the nodes one
after the other in the listed order (for both settings of `use_full_fock_matrix`). -/
theorem C15_grouped_equals_sequential (g : Cfg) (hg : g.Ok) (thr : ℝ) (useFull : Bool) (n : Opt × List ℕ)
    (l : List (Opt × List ℕ)) (hn : OnChannels g n) (hl : ∀ m ∈ l, OnChannels g m) (c : Comps) (h : WellFormed g c)
    (hne : c ≠ []) (x : ℕ → ℂ) (hx : toVector g c = some x) :
    applyOptical g thr useFull (standardKeys g) n l c = fromVector g thr
      ((n :: l).foldl (fun y m => (fockNode g (standardKeys g) m.1 m.2 .all).1.mulVec y) x) := by
  rw [applyOptical_eq hg thr useFull n l hn hl h hne]
  apply fromVector_congr
  intro i hi
  obtain ⟨x', hx', hxi⟩ := toVector_spec hg.1 h
  rw [hx] at hx'
  obtain rfl := Option.some.inj hx'
  exact (oneByOne_congr (n :: l) hxi i hi).symm

/-- **C15** Evaluating the nodes one by one, translating to components in between, gives the same final components,
provided no non-zero amplitude is pruned on the way and no intermediate state is empty. -/
theorem C15_one_by_one_states (g : Cfg) (hg : g.Ok) (thr : ℝ) (useFull : Bool) (n : Opt × List ℕ)
    (l : List (Opt × List ℕ)) (hn : OnChannels g n) (hl : ∀ m ∈ l, OnChannels g m) (c : Comps) (h : WellFormed g c)
    (hne : c ≠ []) (x : ℕ → ℂ) (hx : toVector g c = some x)
    (hkeep : ∀ k < l.length + 1, (∃ i < g.L ^ g.C, thr ≤ ‖oneByOne g ((n :: l).take (k + 1)) x i‖ ^ 2) ∧
      ∀ i < g.L ^ g.C, ‖oneByOne g ((n :: l).take (k + 1)) x i‖ ^ 2 < thr → oneByOne g ((n :: l).take (k + 1)) x i = 0) :
    (n :: l).foldlM (fun c m => applyOptical g thr useFull (standardKeys g) m [] c) c
      = applyOptical g thr useFull (standardKeys g) n l c := by
  have key : ∀ (done : List (Opt × List ℕ)), done ≠ [] → (∃ k, k < l.length + 1 ∧ done = (n :: l).take (k + 1)) →
      ∃ c', done.foldlM (fun c m => applyOptical g thr useFull (standardKeys g) m [] c) c = some c' ∧
        WellFormed g c' ∧ fromVector g thr (oneByOne g done x) = some c' := by
    intro done
    induction done using List.reverseRecOn with
    | nil => intro h; exact absurd rfl h
    | append_singleton done m ih =>
      rintro - ⟨k, hk, e⟩
      have hlen : k = done.length := by
        have := congrArg List.length e
        simp at this; omega
      have htake : done = (n :: l).take k := by
        have h1 : (done ++ [m]).take k = ((n :: l).take (k + 1)).take k := by rw [e]
        rw [List.take_take, Nat.min_eq_left (by omega), hlen, List.take_left'] at h1
        · rw [hlen]; exact h1
        · rfl
      have hm : OnChannels g m := by
        have : m ∈ (n :: l) := List.mem_of_mem_take (e ▸ (by simp : m ∈ done ++ [m]))
        rcases List.mem_cons.1 this with h | h
        · rw [h]; exact hn
        · exact hl m h
      rw [List.foldlM_append]
      obtain ⟨c₁, hc₁, hw₁, hne₁, hv₁⟩ : ∃ c₁, done.foldlM (fun c m => applyOptical g thr useFull (standardKeys g) m [] c) c
          = some c₁ ∧ WellFormed g c₁ ∧ c₁ ≠ [] ∧ ∀ i < g.size, vec g c₁ i = oneByOne g done x i := by
        by_cases hd : done = []
        · subst hd
          refine ⟨c, rfl, h, hne, ?_⟩
          obtain ⟨x', hx', hxi⟩ := toVector_spec hg.1 h
          rw [hx] at hx'
          obtain rfl := Option.some.inj hx'
          intro i hi; exact (hxi i hi).symm
        · have hk1 : 1 ≤ k := by
            rw [hlen]; exact List.length_pos_of_ne_nil hd
          obtain ⟨c₁, hc₁, hw₁, hf⟩ := ih hd ⟨k - 1, by omega, by rw [show k - 1 + 1 = k by omega]; exact htake⟩
          have hkk := hkeep (k - 1) (by omega)
          rw [show k - 1 + 1 = k by omega, ← htake] at hkk
          refine ⟨c₁, hc₁, hw₁, ?_, ?_⟩
          · obtain ⟨⟨i, hi, hge⟩, -⟩ := hkk
            obtain ⟨c'', hc'', -, -, hgt⟩ := fromVector_spec hg.1 thr (oneByOne g done x)
            rw [hf] at hc''
            obtain rfl := Option.some.inj hc''
            have := hgt i hi
            rw [if_neg (not_lt.2 hge)] at this
            rintro rfl
            simp [Dict.get?] at this
          · intro i hi
            rw [vec_fromVector hg.1 hf hi]
            split
            · rename_i hlt; exact (hkk.2 i hi hlt).symm
            · rfl
      rw [hc₁, Option.bind_eq_bind, Option.bind_some, List.foldlM_cons,
        applyOptical_eq hg thr useFull m [] hm (by simp) hw₁ hne₁]
      obtain ⟨c', hc', hw', -⟩ := fromVector_spec hg.1 thr (oneByOne g [m] (vec g c₁))
      refine ⟨c', by rw [hc']; rfl, hw', ?_⟩
      rw [← hc']
      apply fromVector_congr
      intro i hi
      have : oneByOne g (done ++ [m]) x = oneByOne g [m] (oneByOne g done x) := by
        simp [oneByOne, List.foldl_append]
      rw [this]
      exact (oneByOne_congr [m] hv₁ i hi).symm
  obtain ⟨c', h1, -, h2⟩ := key (n :: l) (by simp) ⟨l.length, by omega, by simp⟩
  rw [h1, C15_grouped_equals_sequential g hg thr useFull n l hn hl c h hne x hx]
  exact h2.symm

/-- **C16** Applying gates with unitary optical matrices does not change the sum of the squared amplitudes of the vector;
the total probability of the resulting state is that of the input minus what is pruned by the threshold. -/
theorem C16_norm_preserved (g : Cfg) (hg : g.Ok) (thr : ℝ) (useFull : Bool) (n : Opt × List ℕ)
    (l : List (Opt × List ℕ)) (hn : OnChannels g n) (hl : ∀ m ∈ l, OnChannels g m)
    (hu : ∀ m ∈ n :: l, m.1 ∈ Matrix.unitaryGroup (Fin 2) ℂ) (c c' : Comps) (h : WellFormed g c) (hne : c ≠ [])
    (x : ℕ → ℂ) (hx : toVector g c = some x)
    (hc : applyOptical g thr useFull (standardKeys g) n l c = some c') :
    (∑ i ∈ Finset.range (g.L ^ g.C), ‖oneByOne g (n :: l) x i‖ ^ 2 = totalProb c) ∧
    totalProb c' = totalProb c - ∑ i ∈ (Finset.range (g.L ^ g.C)).filter (fun i => ‖oneByOne g (n :: l) x i‖ ^ 2 < thr),
      ‖oneByOne g (n :: l) x i‖ ^ 2 := by
  obtain ⟨x', hx', hxi⟩ := toVector_spec hg.1 h
  rw [hx] at hx'
  obtain rfl := Option.some.inj hx'
  have norm : ∀ (nodes : List (Opt × List ℕ)) (y : ℕ → ℂ), (∀ m ∈ nodes, OnChannels g m ∧ m.1 ∈ Matrix.unitaryGroup (Fin 2) ℂ) →
      ∑ i ∈ Finset.range g.size, ‖oneByOne g nodes y i‖ ^ 2 = ∑ i ∈ Finset.range g.size, ‖y i‖ ^ 2 := by
    intro nodes
    induction nodes with
    | nil => intros; rfl
    | cons m nodes ih =>
      intro y hm
      have e : oneByOne g (m :: nodes) y
          = oneByOne g nodes ((fockNode g (standardKeys g) m.1 m.2 .all).1.mulVec y) := rfl
      rw [e, ih _ (fun m' hm' => hm m' (by simp [hm']))]
      have hs := fockNode_all_size g (standardKeys g) m.1 m.2
      have huu : IsUnitary (fockNode g (standardKeys g) m.1 m.2 .all).1 :=
        toMatrix_unitary_iff _ g.size hs (nodeMat_unitary hg (hm m (by simp)).2 (hm m (by simp)).1.perm)
      have := unitary_mulVec_norm huu y
      rwa [hs] at this
  have h1 : ∑ i ∈ Finset.range g.size, ‖oneByOne g (n :: l) x i‖ ^ 2 = totalProb c := by
    rw [norm (n :: l) x, totalProb_eq hg.1 h]
    · exact Finset.sum_congr rfl fun i hi => by rw [hxi i (Finset.mem_range.1 hi)]
    · intro m hm
      refine ⟨?_, hu m hm⟩
      rcases List.mem_cons.1 hm with e | e
      · rw [e]; exact hn
      · exact hl m e
  refine ⟨h1, ?_⟩
  rw [C15_grouped_equals_sequential g hg thr useFull n l hn hl c h hne x hx] at hc
  change fromVector g thr (oneByOne g (n :: l) x) = some c' at hc
  obtain ⟨c'', hc'', hw, -, -⟩ := fromVector_spec hg.1 thr (oneByOne g (n :: l) x)
  rw [hc] at hc''
  obtain rfl := Option.some.inj hc''
  rw [← h1, totalProb_eq hg.1 hw, eq_sub_iff_add_eq, Finset.sum_filter]
  change _ + ∑ a ∈ Finset.range g.size, _ = _
  rw [← Finset.sum_add_distrib]
  refine Finset.sum_congr rfl fun i hi => ?_
  rw [vec_fromVector hg.1 hc (Finset.mem_range.1 hi)]
  by_cases ht : ‖oneByOne g (n :: l) x i‖ ^ 2 < thr
  · simp [ht]
  · simp [ht]

/-- non-vacuity: a two-node circuit and a state meeting the hypotheses of C14 - C16. -/
example : ∃ (g : Cfg) (n m : Opt × List ℕ) (c : Comps), g.Ok ∧ OnChannels g n ∧ OnChannels g m ∧
    n.1 ∈ Matrix.unitaryGroup (Fin 2) ℂ ∧ WellFormed g c ∧ c ≠ [] :=
  ⟨⟨3, 2, true⟩, (1, [0, 1]), (1, [1, 0]), [(['2', '0'], ⟨3 / 5, 9 / 25⟩), (['0', '1'], ⟨4 / 5, 16 / 25⟩)], by decide,
    ⟨0, 1, by decide, by decide, by decide, by decide⟩, ⟨1, 0, by decide, by decide, by decide, by decide⟩,
    one_mem _, example_state, by simp⟩

end Verif.Props
