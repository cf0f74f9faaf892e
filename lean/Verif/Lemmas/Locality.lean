/-
Lemmas on the locality of optical nodes (properties C111 - C113).
-/
import Verif.Props.Apply
import Verif.Props.Measurement
import Verif.Props.OpticalNodes
import Verif.Spec.Locality

namespace Verif
open Spec Props

theorem _root_.Verif.Spec.GivenOn.onChannels {g : Cfg} {n : Opt × List ℕ} {h c : ℕ} (hn : GivenOn g n h c) : OnChannels g n :=
  ⟨h, c, hn.first, hn.second, hn.differ, hn.list⟩

theorem _root_.Verif.Spec.AwayFrom.onChannels {g : Cfg} {n : Opt × List ℕ} {away : List ℕ} (hn : AwayFrom g away n) : OnChannels g n := by
  obtain ⟨h, c, hh, -⟩ := hn
  exact hh.onChannels

theorem givenOn_entry {g : Cfg} (hg : g.Ok) {n : Opt × List ℕ} {h c : ℕ} (hn : GivenOn g n h c) {v w : Vals} (hv : Valid g v)
    (hw : Valid g w) : (FullMatrix g n).at_ (g.indexOf v) (g.indexOf w) =
      if ∀ i < g.C, i ≠ h → i ≠ c → v.getD i 0 = w.getD i 0 then
        gateAmp g.L n.1 (v.getD h 0) (v.getD c 0) (w.getD h 0) (w.getD c 0) else 0 :=
  gate_entry hg hn.first hn.second hn.differ hn.right ⟨n.2, hn.list, rfl⟩ hv hw

theorem valid_getD_below {g : Cfg} {v : Vals} (hv : Valid g v) (hL : 1 ≤ g.L) (i : ℕ) : v.getD i 0 < g.L := by
  by_cases h : i < v.length
  · rw [List.getD_eq_getElem _ _ h]; exact hv.2 _ (List.getElem_mem h)
  · rw [List.getD_eq_default _ _ (by omega)]; exact hL

/-- the matrix product of two nodes on disjoint channels -/
theorem local_product {g : Cfg} (hg : g.Ok) {n m : Opt × List ℕ} {h₁ c₁ h₂ c₂ : ℕ} (hn : GivenOn g n h₁ c₁) (hm : GivenOn g m h₂ c₂)
    (d1 : h₁ ≠ h₂) (d2 : h₁ ≠ c₂) (d3 : c₁ ≠ h₂) (d4 : c₁ ≠ c₂) {v u : Vals} (hv : Valid g v) (hu : Valid g u) :
    ∑ k ∈ Finset.range g.size, (FullMatrix g n).at_ (g.indexOf v) k * (FullMatrix g m).at_ k (g.indexOf u) =
      if ∀ i < g.C, i ≠ h₁ → i ≠ c₁ → i ≠ h₂ → i ≠ c₂ → v.getD i 0 = u.getD i 0 then
        gateAmp g.L n.1 (v.getD h₁ 0) (v.getD c₁ 0) (u.getD h₁ 0) (u.getD c₁ 0) *
          gateAmp g.L m.1 (v.getD h₂ 0) (v.getD c₂ 0) (u.getD h₂ 0) (u.getD c₂ 0) else 0 := by
  have hw : Valid g ((List.range g.C).map (fun i => if i = h₁ ∨ i = c₁ then u.getD i 0 else v.getD i 0)) := by
    refine ⟨by simp, ?_⟩
    intro x hx
    obtain ⟨i, -, rfl⟩ := List.mem_map.1 hx
    split
    · exact valid_getD_below hu hg.1 i
    · exact valid_getD_below hv hg.1 i
  set w : Vals := (List.range g.C).map (fun i => if i = h₁ ∨ i = c₁ then u.getD i 0 else v.getD i 0) with hwdef
  have hwi : ∀ i < g.C, w.getD i 0 = if i = h₁ ∨ i = c₁ then u.getD i 0 else v.getD i 0 := by
    intro i hi
    rw [hwdef, List.getD_eq_getElem _ _ (by simpa using hi)]
    simp
  rw [Finset.sum_eq_single (g.indexOf w)]
  · have e1 : w.getD h₁ 0 = u.getD h₁ 0 := by rw [hwi h₁ hn.first, if_pos (Or.inl rfl)]
    have e2 : w.getD c₁ 0 = u.getD c₁ 0 := by rw [hwi c₁ hn.second, if_pos (Or.inr rfl)]
    have e3 : w.getD h₂ 0 = v.getD h₂ 0 := by
      rw [hwi h₂ hm.first, if_neg (by rintro (e | e); exacts [d1 e.symm, d3 e.symm])]
    have e4 : w.getD c₂ 0 = v.getD c₂ 0 := by
      rw [hwi c₂ hm.second, if_neg (by rintro (e | e); exacts [d2 e.symm, d4 e.symm])]
    rw [givenOn_entry hg hn hv hw, givenOn_entry hg hm hw hu, e1, e2, e3, e4, if_pos (c := ∀ i < g.C, i ≠ h₁ → i ≠ c₁ → _)]
    · by_cases hall : ∀ i < g.C, i ≠ h₁ → i ≠ c₁ → i ≠ h₂ → i ≠ c₂ → v.getD i 0 = u.getD i 0
      · rw [if_pos hall, if_pos]
        intro i hi e1 e2
        rw [hwi i hi]
        split
        · rfl
        · rename_i hne
          push Not at hne
          exact hall i hi hne.1 hne.2 e1 e2
      · rw [if_neg hall, if_neg, mul_zero]
        intro hcon
        apply hall
        intro i hi a1 a2 a3 a4
        have := hcon i hi a3 a4
        rw [hwi i hi, if_neg (by rintro (e | e); exacts [a1 e, a2 e])] at this
        exact this
    · intro i hi e1 e2
      rw [hwi i hi, if_neg (by rintro (e | e); exacts [e1 e, e2 e])]
  · intro k hk hne
    rw [Finset.mem_range] at hk
    have hkv := g.valid_valuesFromIndex hg.1 k
    have hki := g.indexOf_valuesFromIndex hk
    rw [← hki, givenOn_entry hg hn hv hkv, givenOn_entry hg hm hkv hu]
    by_contra hcon
    have hA := left_ne_zero_of_mul hcon
    have hB := right_ne_zero_of_mul hcon
    have hA' := (ne_zero_of_ite hA).1
    have hB' := (ne_zero_of_ite hB).1
    apply hne
    rw [← hki]
    congr 1
    apply ext_getD hkv.1 hw.1
    intro i hi
    rw [hwi i hi]
    split
    · rename_i hor
      refine hB' i hi ?_ ?_
      · rintro rfl; rcases hor with e | e; exacts [d1 e.symm, d3 e.symm]
      · rintro rfl; rcases hor with e | e; exacts [d2 e.symm, d4 e.symm]
    · rename_i hor
      push Not at hor
      exact (hA' i hi hor.1 hor.2).symm
  · intro hno
    exact absurd (Finset.mem_range.2 (g.indexOf_lt hw)) hno

theorem fullMatrix_size (g : Cfg) (n : Opt × List ℕ) : (FullMatrix g n).size = g.size := fockNode_all_size _ _ _ _

/-- nodes on disjoint channels commute on vectors -/
theorem mulVec_comm {g : Cfg} (hg : g.Ok) {n m : Opt × List ℕ} {h₁ c₁ h₂ c₂ : ℕ} (hn : GivenOn g n h₁ c₁) (hm : GivenOn g m h₂ c₂)
    (d1 : h₁ ≠ h₂) (d2 : h₁ ≠ c₂) (d3 : c₁ ≠ h₂) (d4 : c₁ ≠ c₂) (x : ℕ → ℂ) {i : ℕ} (hi : i < g.size) :
    (FullMatrix g m).mulVec ((FullMatrix g n).mulVec x) i = (FullMatrix g n).mulVec ((FullMatrix g m).mulVec x) i := by
  have hs : (FullMatrix g m).size = (FullMatrix g n).size := by rw [fullMatrix_size, fullMatrix_size]
  rw [← mul_mulVec hs, ← mul_mulVec hs.symm]
  simp only [SqArr.mulVec, SqArr.mul, fullMatrix_size]
  refine Finset.sum_congr rfl fun j hj => ?_
  congr 1
  have hj := Finset.mem_range.1 hj
  have hiv := g.valid_valuesFromIndex hg.1 i
  have hjv := g.valid_valuesFromIndex hg.1 j
  have a := local_product hg hm hn d1.symm d3.symm d2.symm d4.symm hiv hjv
  have b := local_product hg hn hm d1 d2 d3 d4 hiv hjv
  rw [g.indexOf_valuesFromIndex hi, g.indexOf_valuesFromIndex hj] at a b
  rw [a, b, mul_comm]
  congr 1
  apply propext
  constructor
  · intro h i hi a1 a2 a3 a4; exact h i hi a3 a4 a1 a2
  · intro h i hi a1 a2 a3 a4; exact h i hi a3 a4 a1 a2

/-- exchanging two neighbours in a list of nodes -/
theorem oneByOne_swap {g : Cfg} (hg : g.Ok) (pre post : List (Opt × List ℕ)) {n m : Opt × List ℕ} {h₁ c₁ h₂ c₂ : ℕ}
    (hn : GivenOn g n h₁ c₁) (hm : GivenOn g m h₂ c₂)
    (d1 : h₁ ≠ h₂) (d2 : h₁ ≠ c₂) (d3 : c₁ ≠ h₂) (d4 : c₁ ≠ c₂) (x : ℕ → ℂ) : ∀ i < g.size,
    oneByOne g (pre ++ n :: m :: post) x i = oneByOne g (pre ++ m :: n :: post) x i := by
  have e : ∀ (a b : Opt × List ℕ), oneByOne g (pre ++ a :: b :: post) x =
      oneByOne g post ((FullMatrix g b).mulVec ((FullMatrix g a).mulVec (oneByOne g pre x))) := by
    intro a b
    simp only [oneByOne, List.foldl_append, List.foldl_cons]
    rfl
  rw [e, e]
  exact oneByOne_congr post (fun i hi => mulVec_comm hg hn hm d1 d2 d3 d4 _ hi)

/-! ### projections on outcomes -/

/-- the part of a vector with outcome `o` -/
noncomputable def part (g : Cfg) (opt o : List ℕ) (x : ℕ → ℂ) : ℕ → ℂ := fun i => if outcomeOf opt (g.valuesFromIndex i) = o then x i else 0

theorem outcomeOf_congr {C : ℕ} {opt : List ℕ} {v w : Vals} (hr : ∀ n ∈ opt, n < C) (h : ∀ i < C, i ∈ opt → v.getD i 0 = w.getD i 0) :
    outcomeOf opt v = outcomeOf opt w := by
  unfold outcomeOf
  apply List.map_congr_left
  intro n hn
  exact h n (hr n hn) hn

theorem part_mulVec {g : Cfg} (hg : g.Ok) {opt : List ℕ} (hr : ∀ n ∈ opt, n < g.C) {n : Opt × List ℕ} (hn : AwayFrom g opt n) (o : List ℕ)
    (x : ℕ → ℂ) {i : ℕ} (hi : i < g.size) :
    (FullMatrix g n).mulVec (part g opt o x) i = part g opt o ((FullMatrix g n).mulVec x) i := by
  obtain ⟨h, c, hh, a1, a2⟩ := hn
  have key : ∀ k < g.size, (FullMatrix g n).at_ i k ≠ 0 → outcomeOf opt (g.valuesFromIndex k) = outcomeOf opt (g.valuesFromIndex i) := by
    intro k hk hne
    have hiv := g.valid_valuesFromIndex hg.1 i
    have hkv := g.valid_valuesFromIndex hg.1 k
    have := givenOn_entry hg hh hiv hkv
    rw [g.indexOf_valuesFromIndex hi, g.indexOf_valuesFromIndex hk] at this
    rw [this] at hne
    have h' := (ne_zero_of_ite hne).1
    apply outcomeOf_congr hr
    intro j hj hjo
    refine (h' j hj ?_ ?_).symm
    · rintro rfl; exact a1 hjo
    · rintro rfl; exact a2 hjo
  unfold part
  simp only [SqArr.mulVec, fullMatrix_size]
  split
  · rename_i ho
    refine Finset.sum_congr rfl fun k hk => ?_
    by_cases hz : (FullMatrix g n).at_ i k = 0
    · rw [hz, zero_mul, zero_mul]
    · rw [if_pos ((key k (Finset.mem_range.1 hk) hz).trans ho)]
  · rename_i ho
    apply Finset.sum_eq_zero
    intro k hk
    by_cases hz : (FullMatrix g n).at_ i k = 0
    · rw [hz, zero_mul]
    · rw [if_neg, mul_zero]
      intro e
      exact ho ((key k (Finset.mem_range.1 hk) hz).symm.trans e)

theorem part_oneByOne {g : Cfg} (hg : g.Ok) {opt : List ℕ} (hr : ∀ n ∈ opt, n < g.C) (nodes : List (Opt × List ℕ))
    (hn : ∀ n ∈ nodes, AwayFrom g opt n) (o : List ℕ) (x : ℕ → ℂ) : ∀ i < g.size,
    oneByOne g nodes (part g opt o x) i = part g opt o (oneByOne g nodes x) i := by
  induction nodes generalizing x with
  | nil => intro i _; rfl
  | cons m nodes ih =>
    intro i hi
    have e : ∀ y, oneByOne g (m :: nodes) y = oneByOne g nodes ((FullMatrix g m).mulVec y) := fun _ => rfl
    rw [e, e, ← ih (fun n hn' => hn n (by simp [hn']))  _ i hi]
    exact oneByOne_congr nodes (fun j hj => part_mulVec hg hr (hn m (by simp)) o x hj) i hi

theorem oneByOne_smul {g : Cfg} (nodes : List (Opt × List ℕ)) (a : ℂ) (x : ℕ → ℂ) :
    oneByOne g nodes (fun i => x i / a) = fun i => oneByOne g nodes x i / a := by
  induction nodes generalizing x with
  | nil => rfl
  | cons m nodes ih =>
    have e : ∀ y, oneByOne g (m :: nodes) y = oneByOne g nodes ((FullMatrix g m).mulVec y) := fun _ => rfl
    rw [e, e, ← ih]
    congr 1
    funext i
    simp only [SqArr.mulVec]
    rw [div_eq_mul_inv, Finset.sum_mul]
    exact Finset.sum_congr rfl fun k _ => by rw [div_eq_mul_inv, mul_assoc]

theorem oneByOne_norm {g : Cfg} (hg : g.Ok) (nodes : List (Opt × List ℕ)) (y : ℕ → ℂ)
    (hm : ∀ m ∈ nodes, OnChannels g m ∧ m.1 ∈ Matrix.unitaryGroup (Fin 2) ℂ) :
    ∑ i ∈ Finset.range g.size, ‖oneByOne g nodes y i‖ ^ 2 = ∑ i ∈ Finset.range g.size, ‖y i‖ ^ 2 := by
  induction nodes generalizing y with
  | nil => rfl
  | cons m nodes ih =>
    have e : oneByOne g (m :: nodes) y
        = oneByOne g nodes ((fockNode g (standardKeys g) m.1 m.2 .all).1.mulVec y) := rfl
    rw [e, ih _ (fun m' hm' => hm m' (by simp [hm']))]
    have hs := fockNode_all_size g (standardKeys g) m.1 m.2
    have huu : IsUnitary (fockNode g (standardKeys g) m.1 m.2 .all).1 :=
      toMatrix_unitary_iff _ g.size hs (nodeMat_unitary hg (hm m (by simp)).2 (hm m (by simp)).1.perm)
    have := unitary_mulVec_norm huu y
    rwa [hs] at this

/-- Born probability of an outcome from the vector -/
theorem outcomeProb_vec {g : Cfg} (hL : 1 ≤ g.L) {opt : List ℕ} {c : Comps} (h : WellFormed g c) (o : List ℕ) :
    outcomeProb g opt c o = ∑ i ∈ Finset.range g.size, ‖part g opt o (vec g c) i‖ ^ 2 := by
  classical
  have := sum_comps hL (fun (s : Name) (a : ℂ) => if ∃ v, Valid g v ∧ IsName g v s ∧ Reads opt v o then ‖a‖ ^ 2 else 0) (by simp) h
  unfold outcomeProb
  rw [show (c.map (fun p => if ∃ v, Valid g v ∧ IsName g v p.1 ∧ Reads opt v o then ‖p.2.amp‖ ^ 2 else 0)).sum = _ from this]
  refine Finset.sum_congr rfl fun i hi => ?_
  have hv := g.valid_valuesFromIndex hL i
  have key : (∃ v, Valid g v ∧ IsName g v (g.nm i) ∧ Reads opt v o) ↔ outcomeOf opt (g.valuesFromIndex i) = o := by
    constructor
    · rintro ⟨v, hv', hn, hr⟩
      rw [isName_iff hv'] at hn
      have : g.valuesFromIndex i = v := g.stdName_inj hv.2 hv'.2 hn
      rw [this]; exact hr.symm
    · intro e; exact ⟨_, hv, (isName_iff hv).2 rfl, e.symm⟩
  simp only [part, key]
  split <;> simp [vec]

/-! ### components in index order -/

/-- the components listed by `fromVector`, with photon numbers instead of names -/
noncomputable def vlist (g : Cfg) (thr : ℝ) (x : ℕ → ℂ) (n : ℕ) : VComps :=
  ((List.range n).filter (fun i => ¬ ‖x i‖ ^ 2 < thr)).map (fun i => (g.valuesFromIndex i, ⟨x i, ‖x i‖ ^ 2⟩))

theorem vlist_ok {g : Cfg} (hL : 1 ≤ g.L) (thr : ℝ) (x : ℕ → ℂ) {n : ℕ} (hn : n ≤ g.size) : VOk g (vlist g thr x n) := by
  refine ⟨?_, ?_⟩
  · rw [vlist, List.map_map]
    refine List.Nodup.map_on ?_ (List.nodup_range.filter _)
    intro i hi j hj e
    have hi := List.mem_range.1 (List.mem_filter.1 hi).1
    have hj := List.mem_range.1 (List.mem_filter.1 hj).1
    have := congrArg g.indexOf e
    simp only [Function.comp_def] at this
    rwa [g.indexOf_valuesFromIndex (by omega), g.indexOf_valuesFromIndex (by omega)] at this
  · intro p hp
    obtain ⟨i, -, rfl⟩ := List.mem_map.1 hp
    exact g.valid_valuesFromIndex hL i

theorem fromVector_vlist {g : Cfg} (hL : 1 ≤ g.L) (thr : ℝ) (x : ℕ → ℂ) : fromVector g thr x = some (enc g (vlist g thr x g.size)) := by
  have key : ∀ n ≤ g.size, (List.range n).foldlM (fun (d : Comps) i =>
      if ‖x i‖ ^ 2 < thr then some d
      else do
        let s ← g.nameAt i
        some (d.set s ⟨x i, ‖x i‖ ^ 2⟩)) [] = some (enc g (vlist g thr x n)) := by
    intro n
    induction n with
    | zero => intro _; rfl
    | succ n ih =>
      intro hn
      rw [List.range_succ, List.foldlM_append, ih (by omega)]
      simp only [Option.bind_eq_bind, Option.bind_some, List.foldlM_cons, List.foldlM_nil]
      by_cases ht : ‖x n‖ ^ 2 < thr
      · rw [if_pos ht]
        simp only [Option.pure_def, Option.bind_some, vlist, List.range_succ, List.filter_append, List.map_append]
        simp [ht]
      · rw [if_neg ht, nameAt_eq hL]
        have hnew : g.nm n ∉ Dict.keys (enc g (vlist g thr x n)) := by
          intro hm
          have hok := vlist_ok hL thr x (n := n) (by omega)
          have := (stdName_mem_enc hok.valid (g.valid_valuesFromIndex hL n)).1 hm
          rw [vlist, List.map_map] at this
          obtain ⟨j, hj, e⟩ := List.mem_map.1 this
          have hj := List.mem_range.1 (List.mem_filter.1 hj).1
          have := congrArg g.indexOf e
          simp only [Function.comp_def] at this
          rw [g.indexOf_valuesFromIndex (by omega), g.indexOf_valuesFromIndex (by omega)] at this
          omega
        simp only [Option.bind_some, Option.pure_def]
        rw [Dict.set_of_not_mem _ hnew]
        congr 1
        simp only [vlist, List.range_succ, List.filter_append, List.map_append, enc]
        simp [not_lt.1 ht, Cfg.nm]
  exact key g.size le_rfl

end Verif
