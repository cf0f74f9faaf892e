/-
Lemmas for C135: reduced density matrices of channels that a circuit leaves alone.
-/
import Verif.Props.Superposition
import Verif.Props.Conserve
import Verif.Props.Shift
import Verif.Lemmas.PerturbTree
import Verif.Spec.Remote

namespace Verif
open Spec Props

/-! ### Putting photon numbers into channels -/

/-- `w` with the photon numbers of `v` in the channels `keep` -/
def put (g : Cfg) (keep : List ℕ) (v w : Vals) : Vals := (List.range g.C).map (fun i => if i ∈ keep then v.getD i 0 else w.getD i 0)

theorem put_valid {g : Cfg} (hL : 1 ≤ g.L) (keep : List ℕ) {v w : Vals} (hv : Valid g v) (hw : Valid g w) : Valid g (put g keep v w) := by
  refine ⟨by simp [put], ?_⟩
  intro x hx
  obtain ⟨i, -, rfl⟩ := List.mem_map.1 hx
  split
  · exact valid_getD_below hv hL i
  · exact valid_getD_below hw hL i

theorem put_getD {g : Cfg} (keep : List ℕ) (v w : Vals) {i : ℕ} (hi : i < g.C) : (put g keep v w).getD i 0 = if i ∈ keep then v.getD i 0 else w.getD i 0 := by
  unfold put
  rw [List.getD_eq_getElem _ _ (by simpa using hi)]
  simp

theorem select_eq_iff {keep : List ℕ} {v w : Vals} : select keep v = select keep w ↔ ∀ i ∈ keep, v.getD i 0 = w.getD i 0 := by
  unfold select
  exact List.map_inj_left

theorem select_put {g : Cfg} {keep : List ℕ} (hr : ∀ n ∈ keep, n < g.C) (v w : Vals) : select keep (put g keep v w) = select keep v :=
  select_eq_iff.2 fun i hi => by rw [put_getD keep v w (hr i hi), if_pos hi]

/-- the vector whose part with photon numbers `a` in the channels `keep` is the part of `x` with those of `v` -/
noncomputable def moved (g : Cfg) (keep : List ℕ) (a : Vals) (v : Vals) (x : ℕ → ℂ) : ℕ → ℂ :=
  fun i => if select keep (g.valuesFromIndex i) = a then x (g.indexOf (put g keep v (g.valuesFromIndex i))) else 0

theorem moved_mulVec {g : Cfg} (hg : g.Ok) {keep : List ℕ} (hr : ∀ n ∈ keep, n < g.C) {n : Opt × List ℕ} (hn : AwayFrom g keep n) {u v : Vals} (hu : Valid g u) (hv : Valid g v)
    (x : ℕ → ℂ) {i : ℕ} (hi : i < g.size) :
    (FullMatrix g n).mulVec (moved g keep (select keep u) v x) i = moved g keep (select keep u) v ((FullMatrix g n).mulVec x) i := by
  obtain ⟨h, c, hh, a1, a2⟩ := hn
  have hiv := g.valid_valuesFromIndex hg.1 i
  have key : ∀ (p : Vals), Valid g p → ∀ k < g.size, (FullMatrix g n).at_ (g.indexOf p) k ≠ 0 → select keep (g.valuesFromIndex k) = select keep p := by
    intro p hp k hk hne
    have hkv := g.valid_valuesFromIndex hg.1 k
    have := givenOn_entry hg hh hp hkv
    rw [g.indexOf_valuesFromIndex hk] at this
    rw [this] at hne
    have h' := (ne_zero_of_ite hne).1
    refine select_eq_iff.2 fun j hj => (h' j (hr j hj) ?_ ?_).symm
    · rintro rfl; exact a1 hj
    · rintro rfl; exact a2 hj
  have keyi : ∀ k < g.size, (FullMatrix g n).at_ i k ≠ 0 → select keep (g.valuesFromIndex k) = select keep (g.valuesFromIndex i) := by
    intro k hk hne
    refine key _ hiv k hk ?_
    rwa [g.indexOf_valuesFromIndex hi]
  unfold moved
  simp only [SqArr.mulVec, fullMatrix_size]
  split
  · rename_i ho
    have hpv := put_valid hg.1 keep hv hiv
    have e1 : ∑ k ∈ Finset.range g.size, (FullMatrix g n).at_ i k * (if select keep (g.valuesFromIndex k) = select keep u then x (g.indexOf (put g keep v (g.valuesFromIndex k))) else 0) =
        ∑ k ∈ (Finset.range g.size).filter (fun k => select keep (g.valuesFromIndex k) = select keep u), (FullMatrix g n).at_ i k * x (g.indexOf (put g keep v (g.valuesFromIndex k))) := by
      rw [Finset.sum_filter]
      exact Finset.sum_congr rfl fun k _ => by split <;> simp
    have e2 : ∑ k ∈ Finset.range g.size, (FullMatrix g n).at_ (g.indexOf (put g keep v (g.valuesFromIndex i))) k * x k =
        ∑ k ∈ (Finset.range g.size).filter (fun k => select keep (g.valuesFromIndex k) = select keep v), (FullMatrix g n).at_ (g.indexOf (put g keep v (g.valuesFromIndex i))) k * x k := by
      rw [Finset.sum_filter]
      refine Finset.sum_congr rfl fun k hk => ?_
      split
      · rfl
      · rename_i hne
        by_cases hz : (FullMatrix g n).at_ (g.indexOf (put g keep v (g.valuesFromIndex i))) k = 0
        · rw [hz, zero_mul]
        · exact absurd ((key _ hpv k (Finset.mem_range.1 hk) hz).trans (select_put hr _ _)) hne
    rw [e1, e2]
    have back : ∀ (p q : Vals) (k : ℕ), Valid g p → Valid g q → k < g.size → select keep (g.valuesFromIndex k) = select keep p →
        g.indexOf (put g keep p (g.valuesFromIndex (g.indexOf (put g keep q (g.valuesFromIndex k))))) = k := by
      intro p q k hp hq hk hs
      have hkv := g.valid_valuesFromIndex hg.1 k
      rw [g.valuesFromIndex_indexOf (put_valid hg.1 keep hq hkv)]
      conv_rhs => rw [← g.indexOf_valuesFromIndex hk]
      congr 1
      refine ext_getD (put_valid hg.1 keep hp (put_valid hg.1 keep hq hkv)).1 hkv.1 fun j hj => ?_
      rw [put_getD _ _ _ hj, put_getD _ _ _ hj]
      by_cases hjk : j ∈ keep
      · rw [if_pos hjk, select_eq_iff.1 hs j hjk]
      · rw [if_neg hjk, if_neg hjk]
    refine Finset.sum_nbij' (fun k => g.indexOf (put g keep v (g.valuesFromIndex k))) (fun k => g.indexOf (put g keep u (g.valuesFromIndex k))) ?_ ?_ ?_ ?_ ?_
    · intro k hk
      have hkv := g.valid_valuesFromIndex hg.1 k
      rw [Finset.mem_filter]
      refine ⟨Finset.mem_range.2 (g.indexOf_lt (put_valid hg.1 keep hv hkv)), ?_⟩
      rw [g.valuesFromIndex_indexOf (put_valid hg.1 keep hv hkv), select_put hr]
    · intro k hk
      have hkv := g.valid_valuesFromIndex hg.1 k
      rw [Finset.mem_filter]
      refine ⟨Finset.mem_range.2 (g.indexOf_lt (put_valid hg.1 keep hu hkv)), ?_⟩
      rw [g.valuesFromIndex_indexOf (put_valid hg.1 keep hu hkv), select_put hr]
    · intro k hk
      rw [Finset.mem_filter, Finset.mem_range] at hk
      exact back u v k hu hv hk.1 hk.2
    · intro k hk
      rw [Finset.mem_filter, Finset.mem_range] at hk
      exact back v u k hv hu hk.1 hk.2
    · intro k hk
      rw [Finset.mem_filter, Finset.mem_range] at hk
      have hkv := g.valid_valuesFromIndex hg.1 k
      congr 1
      have A := givenOn_entry hg hh hiv hkv
      rw [g.indexOf_valuesFromIndex hi, g.indexOf_valuesFromIndex hk.1] at A
      rw [A, givenOn_entry hg hh hpv (put_valid hg.1 keep hv hkv), put_getD _ _ _ hh.first, put_getD _ _ _ hh.second, put_getD _ _ _ hh.first, put_getD _ _ _ hh.second, if_neg a1, if_neg a2, if_neg a1, if_neg a2]
      congr 1
      apply propext
      constructor
      · intro hall j hj j1 j2
        rw [put_getD _ _ _ hj, put_getD _ _ _ hj, hall j hj j1 j2]
      · intro hall j hj j1 j2
        by_cases hjk : j ∈ keep
        · exact (select_eq_iff.1 ho j hjk).trans (select_eq_iff.1 hk.2 j hjk).symm
        · have := hall j hj j1 j2
          rwa [put_getD _ _ _ hj, put_getD _ _ _ hj, if_neg hjk, if_neg hjk] at this
  · rename_i ho
    apply Finset.sum_eq_zero
    intro k hk
    by_cases hz : (FullMatrix g n).at_ i k = 0
    · rw [hz, zero_mul]
    · rw [if_neg, mul_zero]
      intro e
      exact ho ((keyi k (Finset.mem_range.1 hk) hz).symm.trans e)

theorem moved_oneByOne {g : Cfg} (hg : g.Ok) {keep : List ℕ} (hr : ∀ n ∈ keep, n < g.C) (nodes : List (Opt × List ℕ)) (hn : ∀ n ∈ nodes, AwayFrom g keep n) {u v : Vals} (hu : Valid g u)
    (hv : Valid g v) (x : ℕ → ℂ) : ∀ i < g.size, oneByOne g nodes (moved g keep (select keep u) v x) i = moved g keep (select keep u) v (oneByOne g nodes x) i := by
  induction nodes generalizing x with
  | nil => intro i _; rfl
  | cons m nodes ih =>
    intro i hi
    have e : ∀ y, oneByOne g (m :: nodes) y = oneByOne g nodes ((FullMatrix g m).mulVec y) := fun _ => rfl
    rw [e, e, ← ih (fun n hn' => hn n (by simp [hn'])) _ i hi]
    exact oneByOne_congr nodes (fun j hj => moved_mulVec hg hr (hn m (by simp)) hu hv x hj) i hi

/-! ### Reduced density matrix of a vector -/

/-- the reduced density matrix of a pure state -/
noncomputable def reducedVec (g : Cfg) (keep : List ℕ) (x : ℕ → ℂ) (a b : Vals) : ℂ := reducedEntry g keep (fun i j => star (x i) * x j) a b

theorem reducedVec_inner {g : Cfg} (hg : g.Ok) {keep : List ℕ} (hr : ∀ n ∈ keep, n < g.C) {u v : Vals} (hv : Valid g v) (x : ℕ → ℂ) :
    reducedVec g keep x (select keep u) (select keep v) = ∑ i ∈ Finset.range g.size, star (part g keep (select keep u) x i) * moved g keep (select keep u) v x i := by
  unfold reducedVec reducedEntry
  refine Finset.sum_congr rfl fun i hi => ?_
  have hi := Finset.mem_range.1 hi
  have hiv := g.valid_valuesFromIndex hg.1 i
  have hpv := put_valid hg.1 keep hv hiv
  unfold part moved
  by_cases ho : select keep (g.valuesFromIndex i) = select keep u
  · rw [if_pos ho, if_pos (show outcomeOf keep (g.valuesFromIndex i) = select keep u from ho), Finset.sum_eq_single (g.indexOf (put g keep v (g.valuesFromIndex i)))]
    · rw [if_pos]
      rw [g.valuesFromIndex_indexOf hpv, select_put hr]
      refine ⟨ho, rfl, fun j hj hjk => ?_⟩
      rw [put_getD _ _ _ hj, if_neg hjk]
    · intro j hj hne
      rw [if_neg]
      rintro ⟨-, h2, h3⟩
      apply hne
      have hj := Finset.mem_range.1 hj
      conv_lhs => rw [← g.indexOf_valuesFromIndex hj]
      congr 1
      refine ext_getD (g.valid_valuesFromIndex hg.1 j).1 hpv.1 fun k hk => ?_
      rw [put_getD _ _ _ hk]
      by_cases hkk : k ∈ keep
      · rw [if_pos hkk]; exact select_eq_iff.1 h2 k hkk
      · rw [if_neg hkk]; exact (h3 k hk hkk).symm
    · intro hno
      exact absurd (Finset.mem_range.2 (g.indexOf_lt hpv)) hno
  · rw [if_neg (show ¬ outcomeOf keep (g.valuesFromIndex i) = select keep u from ho), star_zero, zero_mul]
    exact Finset.sum_eq_zero fun j _ => by rw [if_neg (fun h => ho h.1)]

/-- photon numbers that do not occur give 0 -/
theorem reducedEntry_absent {g : Cfg} (hg : g.Ok) {keep : List ℕ} (dm : ℕ → ℕ → ℂ) {a b : Vals} (h : ¬ ((∃ u, Valid g u ∧ select keep u = a) ∧ ∃ v, Valid g v ∧ select keep v = b)) :
    reducedEntry g keep dm a b = 0 := by
  unfold reducedEntry
  refine Finset.sum_eq_zero fun i _ => Finset.sum_eq_zero fun j _ => if_neg ?_
  rintro ⟨h1, h2, -⟩
  exact h ⟨⟨_, g.valid_valuesFromIndex hg.1 i, h1⟩, ⟨_, g.valid_valuesFromIndex hg.1 j, h2⟩⟩

theorem reducedVec_congr {g : Cfg} {keep : List ℕ} {x y : ℕ → ℂ} (h : ∀ i < g.size, x i = y i) (a b : Vals) : reducedVec g keep x a b = reducedVec g keep y a b := by
  unfold reducedVec reducedEntry
  refine Finset.sum_congr rfl fun i hi => Finset.sum_congr rfl fun j hj => ?_
  beta_reduce
  rw [h i (Finset.mem_range.1 hi), h j (Finset.mem_range.1 hj)]

/-- unitary nodes on other channels -/
theorem reducedVec_oneByOne {g : Cfg} (hg : g.Ok) {keep : List ℕ} (hr : ∀ n ∈ keep, n < g.C) {nodes : List (Opt × List ℕ)} (hn : Elsewhere g keep nodes) (x : ℕ → ℂ) (a b : Vals) :
    reducedVec g keep (oneByOne g nodes x) a b = reducedVec g keep x a b := by
  by_cases h : (∃ u, Valid g u ∧ select keep u = a) ∧ ∃ v, Valid g v ∧ select keep v = b
  · obtain ⟨⟨u, hu, rfl⟩, v, hv, rfl⟩ := h
    have hm : ∀ m ∈ nodes, OnChannels g m ∧ m.1 ∈ Matrix.unitaryGroup (Fin 2) ℂ := fun m hm => ⟨(hn m hm).1.onChannels, (hn m hm).2⟩
    rw [reducedVec_inner hg hr hv, reducedVec_inner hg hr hv, ← oneByOne_inner hg nodes hm (part g keep (select keep u) x)]
    refine Finset.sum_congr rfl fun i hi => ?_
    have hi := Finset.mem_range.1 hi
    rw [part_oneByOne hg hr nodes (fun n h => (hn n h).1) _ x i hi, moved_oneByOne hg hr nodes (fun n h => (hn n h).1) hu hv x i hi]
  · unfold reducedVec
    rw [reducedEntry_absent hg _ h, reducedEntry_absent hg _ h]

/-! ### Collections -/

open Classical in
/-- the reduced density matrix of the states with a label -/
noncomputable def reducedColl (g : Cfg) (keep : List ℕ) (label : List Char) (coll : Coll) (a b : Vals) : ℂ :=
  (coll.map (fun p => if p.2.initial = label then (p.2.cum : ℂ) * reducedVec g keep (vec g p.2.comps) a b else 0)).sum

theorem reducedEntry_add {g : Cfg} {keep : List ℕ} (c : ℂ) (f f' : ℕ → ℕ → ℂ) (a b : Vals) :
    reducedEntry g keep (fun i j => c * f i j + f' i j) a b = c * reducedEntry g keep f a b + reducedEntry g keep f' a b := by
  unfold reducedEntry
  rw [Finset.mul_sum, ← Finset.sum_add_distrib]
  refine Finset.sum_congr rfl fun i _ => ?_
  rw [Finset.mul_sum, ← Finset.sum_add_distrib]
  refine Finset.sum_congr rfl fun j _ => ?_
  split <;> simp

theorem reducedEntry_congr {g : Cfg} {keep : List ℕ} {f f' : ℕ → ℕ → ℂ} (h : ∀ i < g.size, ∀ j < g.size, f i j = f' i j) (a b : Vals) : reducedEntry g keep f a b = reducedEntry g keep f' a b := by
  unfold reducedEntry
  refine Finset.sum_congr rfl fun i hi => Finset.sum_congr rfl fun j hj => ?_
  rw [h i (Finset.mem_range.1 hi) j (Finset.mem_range.1 hj)]

theorem reducedEntry_zero {g : Cfg} {keep : List ℕ} (a b : Vals) : reducedEntry g keep (fun _ _ => 0) a b = 0 := by
  unfold reducedEntry
  exact Finset.sum_eq_zero fun i _ => Finset.sum_eq_zero fun j _ => by split <;> rfl

theorem reducedEntry_dm {g : Cfg} (hL : 1 ≤ g.L) {keep : List ℕ} {coll : Coll} (hw : ∀ p ∈ coll, WellFormed g p.2.comps) {label : List Char} {dm : ℕ → ℕ → ℂ}
    (h : densityMatrix g coll label = some dm) (a b : Vals) : reducedEntry g keep dm a b = reducedColl g keep label coll a b := by
  classical
  obtain ⟨dm', h', hd⟩ := densityMatrix_eq hL hw label
  obtain rfl := Option.some.inj (h'.symm.trans h)
  rw [reducedEntry_congr hd]
  clear hd h h' hw
  unfold reducedColl
  induction coll with
  | nil => simpa using reducedEntry_zero a b
  | cons p coll ih =>
    rw [List.map_cons, List.sum_cons, ← ih, List.filter_cons]
    by_cases hl : p.2.initial = label
    · rw [if_pos (by simpa using hl), if_pos hl]
      simp only [List.map_cons, List.sum_cons]
      exact reducedEntry_add _ _ _ a b
    · rw [if_neg (by simpa using hl), if_neg hl, zero_add]

theorem reducedVec_diagonal {g : Cfg} (hg : g.Ok) {keep : List ℕ} {c : Comps} (hw : WellFormed g c) (o : Vals) : reducedVec g keep (vec g c) o o = (outcomeProb g keep c o : ℂ) := by
  unfold reducedVec reducedEntry
  rw [outcomeProb_vec hg.1 hw, Complex.ofReal_sum]
  refine Finset.sum_congr rfl fun i hi => ?_
  have hi' := Finset.mem_range.1 hi
  have hiv := g.valid_valuesFromIndex hg.1 i
  unfold part
  by_cases ho : select keep (g.valuesFromIndex i) = o
  · rw [if_pos (show outcomeOf keep (g.valuesFromIndex i) = o from ho), Finset.sum_eq_single i]
    · rw [if_pos ⟨ho, ho, fun _ _ _ => rfl⟩, ← Complex.normSq_eq_norm_sq, Complex.normSq_eq_conj_mul_self]; rfl
    · intro j hj hne
      rw [if_neg]
      rintro ⟨-, h2, h3⟩
      apply hne
      have hj := Finset.mem_range.1 hj
      rw [← g.indexOf_valuesFromIndex hj, ← g.indexOf_valuesFromIndex hi']
      congr 1
      refine ext_getD (g.valid_valuesFromIndex hg.1 j).1 hiv.1 fun k hk => ?_
      by_cases hkk : k ∈ keep
      · exact select_eq_iff.1 (h2.trans ho.symm) k hkk
      · exact (h3 k hk hkk).symm
    · intro hno; exact absurd hi hno
  · rw [if_neg (show ¬ outcomeOf keep (g.valuesFromIndex i) = o from ho)]
    simp only [norm_zero, ne_eq, OfNat.ofNat_ne_zero, not_false_eq_true, zero_pow, Complex.ofReal_zero]
    exact Finset.sum_eq_zero fun j _ => by rw [if_neg (fun h => ho h.1)]

theorem chance_reduced {g : Cfg} (hg : g.Ok) {keep : List ℕ} {coll : Coll} (hw : ∀ p ∈ coll, WellFormed g p.2.comps) (label : List Char) (o : Vals) :
    reducedColl g keep label coll o o = (chance g label keep coll o : ℂ) := by
  unfold reducedColl chance sumFrom
  induction coll with
  | nil => simp
  | cons p coll ih =>
    rw [List.map_cons, List.sum_cons, ih (fun q hq => hw q (by simp [hq])), List.map_cons, List.sum_cons, Complex.ofReal_add]
    congr 1
    split
    · rw [reducedVec_diagonal hg (hw p (by simp)), Complex.ofReal_mul]
    · simp

/-- one state that stays one state -/
structure RemoteState (g : Cfg) (m : ℕ) (keep : List ℕ) (q q' : QState) : Prop where
  initial : q'.initial = q.initial
  cum : q'.cum = q.cum
  meas : Measurable g m q'
  le : totalProb q'.comps ≤ totalProb q.comps
  same : totalProb q'.comps = totalProb q.comps → ∀ a b, reducedVec g keep (vec g q'.comps) a b = reducedVec g keep (vec g q.comps) a b
  low : ∀ o, outcomeProb g keep q'.comps o ≤ outcomeProb g keep q.comps o
  high : ∀ o, outcomeProb g keep q.comps o ≤ outcomeProb g keep q'.comps o + (totalProb q.comps - totalProb q'.comps)

/-- one step -/
structure RemoteStep (g : Cfg) (m : ℕ) (keep : List ℕ) (coll out : Coll) : Prop where
  sound : Sound g m out
  le : ∀ label, carried label out ≤ carried label coll
  same : ∀ label, carried label out = carried label coll → ∀ a b, reducedColl g keep label out a b = reducedColl g keep label coll a b
  low : ∀ label o, chance g label keep out o ≤ chance g label keep coll o
  high : ∀ label o, chance g label keep coll o ≤ chance g label keep out o + (carried label coll - carried label out)

theorem remote_of_forall₂ {g : Cfg} {m : ℕ} {keep : List ℕ} {coll out : Coll} (hc : Sound g m coll) (hn : (out.map Prod.fst).Nodup)
    (h : List.Forall₂ (fun p p' => RemoteState g m keep p.2 p'.2) coll out) : RemoteStep g m keep coll out := by
  have key : ∀ label, carried label out ≤ carried label coll ∧ (carried label out = carried label coll → ∀ a b, reducedColl g keep label out a b = reducedColl g keep label coll a b) := by
    intro label
    have hm := hc.states
    clear hn hc
    unfold carried sumFrom reducedColl
    induction h with
    | nil => exact ⟨le_rfl, fun _ _ _ => rfl⟩
    | @cons p p' coll out h1 h2 ih =>
      obtain ⟨ih1, ih2⟩ := ih (fun q hq => hm q (by simp [hq]))
      have hp := hm p (by simp)
      have h0 := hp.cum0
      simp only [List.map_cons, List.sum_cons, h1.initial, h1.cum]
      by_cases hl : p.2.initial = label
      · simp only [hl, if_true]
        have hle : p.2.cum * totalProb p'.2.comps ≤ p.2.cum * totalProb p.2.comps := mul_le_mul_of_nonneg_left h1.le h0
        refine ⟨add_le_add hle ih1, fun he a b => ?_⟩
        rw [ih2 (by linarith) a b]
        have e : p.2.cum * totalProb p'.2.comps = p.2.cum * totalProb p.2.comps := by linarith
        rcases mul_eq_mul_left_iff.1 e with e | e
        · rw [h1.same e a b]
        · rw [e]; simp
      · simp only [hl, if_false, zero_add]
        exact ⟨ih1, ih2⟩
  have key' : ∀ label o, chance g label keep out o ≤ chance g label keep coll o ∧ chance g label keep coll o ≤ chance g label keep out o + (carried label coll - carried label out) := by
    intro label o
    have hm := hc.states
    clear hn hc key
    unfold carried chance sumFrom
    induction h with
    | nil => simp
    | @cons p p' coll out h1 h2 ih =>
      obtain ⟨ih1, ih2⟩ := ih (fun q hq => hm q (by simp [hq]))
      have hp := hm p (by simp)
      have h0 := hp.cum0
      simp only [List.map_cons, List.sum_cons, h1.initial, h1.cum]
      by_cases hl : p.2.initial = label
      · simp only [hl, if_true]
        have hlo := mul_le_mul_of_nonneg_left (h1.low o) h0
        have hhi := mul_le_mul_of_nonneg_left (h1.high o) h0
        constructor <;> linarith
      · simp only [hl, if_false, zero_add]
        exact ⟨ih1, ih2⟩
  refine ⟨⟨hn, ?_⟩, fun label => (key label).1, fun label => (key label).2, fun label o => (key' label o).1, fun label o => (key' label o).2⟩
  intro p' hp'
  obtain ⟨p, -, hk⟩ := forall₂_mem_right h hp'
  exact hk.meas

theorem RemoteStep.refl {g : Cfg} {m : ℕ} {keep : List ℕ} {coll : Coll} (h : Sound g m coll) : RemoteStep g m keep coll coll :=
  ⟨h, fun _ => le_rfl, fun _ _ _ _ => rfl, fun _ _ => le_rfl, fun _ _ => by simp⟩

theorem RemoteStep.trans {g : Cfg} {m : ℕ} {keep : List ℕ} {coll mid out : Coll} (h : RemoteStep g m keep coll mid) (h' : RemoteStep g m keep mid out) : RemoteStep g m keep coll out := by
  refine ⟨h'.sound, fun label => (h'.le label).trans (h.le label), fun label e a b => ?_, fun label o => (h'.low label o).trans (h.low label o), fun label o => by
    have := h.high label o
    have := h'.high label o
    linarith⟩
  have h1 := h.le label
  have h2 := h'.le label
  rw [h'.same label (by linarith) a b, h.same label (by linarith) a b]

theorem vec_zero_of_total {g : Cfg} (hL : 1 ≤ g.L) {c : Comps} (hw : WellFormed g c) (h : totalProb c = 0) : ∀ i < g.size, vec g c i = 0 := by
  intro i hi
  rw [totalProb_eq hL hw] at h
  have := (Finset.sum_eq_zero_iff_of_nonneg (fun i _ => by positivity)).1 h i (Finset.mem_range.2 hi)
  exact norm_eq_zero.1 (pow_eq_zero_iff two_ne_zero |>.1 this)

theorem remote_state_optical {c : Circ} (hg : c.g.Ok) (ht : 0 ≤ c.thr) {keep : List ℕ} (hr : ∀ j ∈ keep, j < c.g.C) {n : Opt × List ℕ} {l : List (Opt × List ℕ)} (hn : Elsewhere c.g keep (n :: l))
    {q : QState} (hq : Measurable c.g c.m q) {comps : Comps} (h : applyOptical c.g c.thr c.full (basisKeys c.g) n l q.comps = some comps) :
    RemoteState c.g c.m keep q { q with comps := comps } := by
  have hu : ∀ m ∈ n :: l, OnChannels c.g m ∧ m.1 ∈ Matrix.unitaryGroup (Fin 2) ℂ := fun m hm => ⟨(hn m hm).1.onChannels, (hn m hm).2⟩
  have hk := keeps_optical hg ht hu hq h
  have hstat : ∀ o, outcomeProb c.g keep comps o ≤ outcomeProb c.g keep q.comps o ∧ outcomeProb c.g keep q.comps o ≤ outcomeProb c.g keep comps o + (totalProb q.comps - totalProb comps) := by
    intro o
    by_cases hne : q.comps = []
    · have h0 : totalProb q.comps = 0 := by rw [hne]; simp [totalProb]
      have hle := hk.le
      have hz : ∀ d : Comps, WellFormed c.g d → (∀ i < c.g.size, vec c.g d i = 0) → outcomeProb c.g keep d o = 0 := by
        intro d hd hv
        rw [outcomeProb_vec hg.1 hd]
        refine Finset.sum_eq_zero fun i hi => ?_
        unfold part
        rw [hv i (Finset.mem_range.1 hi)]
        simp
      have hnn : 0 ≤ totalProb comps := by rw [totalProb_eq hg.1 hk.meas.wf]; positivity
      have h1 : totalProb comps = 0 := le_antisymm (h0 ▸ hle) hnn
      rw [hz _ hq.wf (vec_zero_of_total hg.1 hq.wf h0), hz _ hk.meas.wf (vec_zero_of_total hg.1 hk.meas.wf h1), h0, h1]
      simp
    · obtain ⟨a, b, -⟩ := C112_statistics_partial c.g hg c.thr ht c.full keep hr n l hn q.comps comps hq.wf hne h o
      exact ⟨a, b⟩
  refine ⟨hk.initial, hk.cum, hk.meas, hk.le, fun he a b => ?_, fun o => (hstat o).1, fun o => (hstat o).2⟩
  by_cases hne : q.comps = []
  · have h0 : totalProb q.comps = 0 := by rw [hne]; simp [totalProb]
    refine reducedVec_congr (fun i hi => ?_) a b
    rw [vec_zero_of_total hg.1 hq.wf h0 i hi]
    exact vec_zero_of_total hg.1 hk.meas.wf (he.trans h0) i hi
  · obtain ⟨-, hv⟩ := optical_vec_exact hg hu hq.wf hne h he
    rw [← reducedVec_oneByOne hg hr hn (vec c.g q.comps)]
    exact reducedVec_congr hv a b

theorem remote_optical {c : Circ} (hg : c.g.Ok) (ht : 0 ≤ c.thr) {keep : List ℕ} (hr : ∀ j ∈ keep, j < c.g.C) {n : Opt × List ℕ} {l : List (Opt × List ℕ)} (hn : Elsewhere c.g keep (n :: l))
    {coll out : Coll} (hc : Sound c.g c.m coll) (h : opticalColl c n l coll = some out) : RemoteStep c.g c.m keep coll out := by
  obtain ⟨-, hf⟩ := (opticalColl_iff c n l coll hc.ids out).1 h
  refine remote_of_forall₂ hc ?_ ?_
  · have : out.map Prod.fst = coll.map Prod.fst := by
      clear h hc
      induction hf with
      | nil => rfl
      | cons h1 _ ih => obtain ⟨comps, -, rfl⟩ := h1; simp [ih]
    rw [this]; exact hc.ids
  · refine (forall₂_mem_congr (fun p p' hp => ?_)).1 (hf.imp (S := fun p p' => p ∈ coll → RemoteState c.g c.m keep p.2 p'.2) ?_)
    · exact ⟨fun h => h hp, fun h _ => h⟩
    · rintro p p' ⟨comps, h1, rfl⟩ hp
      exact remote_state_optical hg ht hr hn (hc.states p hp) h1

theorem remote_classical {c : Circ} {keep : List ℕ} {f : List ℝ → List ℝ → List ℤ → Option (List ℝ)} {v : List ℝ} {a : List ℤ} {coll out : Coll} (hc : Sound c.g c.m coll)
    (h : classicalColl c f v a coll = some out) : RemoteStep c.g c.m keep coll out := by
  unfold classicalColl at h
  have hf := mapM_some_iff.1 h
  have hf' : List.Forall₂ (fun (p p' : List Char × QState) => p'.1 = p.1 ∧ ∃ vals, vals.length = c.m ∧ p'.2 = { p.2 with classical := vals }) coll out := by
    refine hf.imp ?_
    intro p p' h
    simp only [Option.bind_eq_bind] at h
    obtain ⟨vals, -, h⟩ := Option.bind_eq_some_iff.1 h
    split at h
    · rename_i hl
      obtain rfl := Option.some.inj h
      exact ⟨rfl, vals, hl, rfl⟩
    · cases h
  refine remote_of_forall₂ hc ?_ ?_
  · have : out.map Prod.fst = coll.map Prod.fst := by
      clear h hc hf
      induction hf' with
      | nil => rfl
      | cons h1 _ ih => simp [ih, h1.1]
    rw [this]; exact hc.ids
  · refine (forall₂_mem_congr (fun p p' hp => ?_)).1 (hf'.imp (S := fun p p' => p ∈ coll → RemoteState c.g c.m keep p.2 p'.2) ?_)
    · exact ⟨fun h => h hp, fun h _ => h⟩
    · rintro p p' ⟨-, vals, hl, e⟩ hp
      have hm := hc.states p hp
      rw [e]
      exact ⟨rfl, rfl, ⟨hm.wf, hm.probs, hm.total, hm.cum0, hm.cum1, hl⟩, le_rfl, fun _ _ _ => rfl, fun _ => le_rfl, fun _ => by simp⟩

theorem remote_measure {c : Circ} (hg : c.g.Ok) {keep : List ℕ} {kinds : List Bool} {idx : ℕ} {opt cls : List ℕ} (hlen : cls.length = opt.length) (hopt : ∀ j ∈ opt, j < c.g.C ∧ j ∉ keep)
    {coll out : Coll} (hc : Sound c.g c.m coll) (h : measureColl c.g c.thr c.m (measurementId kinds idx) opt cls coll = some out) : RemoteStep c.g c.m keep coll out := by
  have hk := conserves_measure hlen hc h
  have key : ∀ label a b, reducedColl c.g keep label out a b = reducedColl c.g keep label coll a b := by
    intro label a b
    obtain ⟨dm, dm', h1, h2, h3⟩ := C129_no_signalling c.g hg c.thr c.m kinds idx opt cls hlen coll out hc.ids hc.states h label keep hopt
    rw [← reducedEntry_dm hg.1 (fun p hp => (hc.states p hp).wf) h1, ← reducedEntry_dm hg.1 (fun p hp => (hk.sound.states p hp).wf) h2]
    exact h3 a b
  have hch : ∀ label o, chance c.g label keep out o = chance c.g label keep coll o := by
    intro label o
    have := key label o o
    rw [chance_reduced hg (fun p hp => (hc.states p hp).wf), chance_reduced hg (fun p hp => (hk.sound.states p hp).wf)] at this
    exact_mod_cast this
  refine ⟨hk.sound, hk.le, fun label _ a b => key label a b, fun label o => (hch label o).le, fun label o => ?_⟩
  have := hk.le label
  rw [hch]
  linarith

theorem remote_controlled {c : Circ} (hg : c.g.Ok) (ht : 0 ≤ c.thr) {keep : List ℕ} (hr : ∀ j ∈ keep, j < c.g.C) {vars : List Angle} {channels : List ℤ} {defaults : List (Angle × ℝ)} {tl : List ℕ}
    (htl : AwayFrom c.g keep (1, tl)) {coll out : Coll} (hc : Sound c.g c.m coll) (h : controlledColl c vars channels defaults tl coll = some out) : RemoteStep c.g c.m keep coll out := by
  unfold controlledColl at h
  simp only [Option.bind_eq_bind] at h
  by_cases hlen : vars.length ≠ channels.length
  · simp [hlen] at h
  rw [if_neg hlen] at h
  have key : ∀ (coll acc : Coll) (tp : Option ℝ × Option ℝ) (r : Coll × (Option ℝ × Option ℝ)), (coll.map Prod.fst).Nodup →
      (∀ p ∈ coll, Measurable c.g c.m p.2) → (∀ p ∈ coll, p.1 ∉ acc.map Prod.fst) →
      coll.foldlM (fun (s : Coll × (Option ℝ × Option ℝ)) p =>
          ((vars.zip channels).mapM (m := Option) (fun vc => (pyGet p.2.classical vc.2).map (fun x => (vc.1, x)))).bind (fun read =>
          (setAngles read s.2).1.bind (fun th => (setAngles read s.2).2.bind (fun ph =>
          (opticalColl c (genericMatrix th ph, tl) [] [p]).bind (fun single =>
          some (single.foldl (fun (out : Coll) e => out.set e.1 e.2) s.1, setAngles read s.2)))))) (acc, tp) = some r →
      ∃ tail, r.1 = acc ++ tail ∧ tail.map Prod.fst = coll.map Prod.fst ∧
        List.Forall₂ (fun p p' => RemoteState c.g c.m keep p.2 p'.2) coll tail := by
    intro coll
    induction coll with
    | nil =>
      intro acc tp r _ _ _ h
      obtain rfl := Option.some.inj h
      exact ⟨[], by simp, rfl, List.Forall₂.nil⟩
    | cons p coll ih =>
      intro acc tp r hn hm hno h
      rw [List.map_cons, List.nodup_cons] at hn
      rw [List.foldlM_cons, Option.bind_eq_bind] at h
      obtain ⟨s, h1, h2⟩ := Option.bind_eq_some_iff.1 h
      obtain ⟨read, -, h1⟩ := Option.bind_eq_some_iff.1 h1
      obtain ⟨th, -, h1⟩ := Option.bind_eq_some_iff.1 h1
      obtain ⟨ph, -, h1⟩ := Option.bind_eq_some_iff.1 h1
      obtain ⟨single, hs, h1⟩ := Option.bind_eq_some_iff.1 h1
      obtain rfl := Option.some.inj h1
      obtain ⟨-, hf⟩ := (opticalColl_iff c _ [] [p] (by simp) single).1 hs
      cases hf with
      | cons h3 h4 =>
        cases h4
        obtain ⟨comps, hco, rfl⟩ := h3
        have hset := foldl_set_append acc (p.1, { p.2 with comps := comps }) (hno p (by simp))
        simp only at h2 hset
        rw [hset] at h2
        obtain ⟨tail, e1, e2, hf⟩ := ih _ _ r hn.2 (fun q hq => hm q (by simp [hq])) (by
          intro q hq
          rw [List.map_append, List.mem_append, not_or]
          refine ⟨hno q (by simp [hq]), ?_⟩
          simp only [List.map_cons, List.map_nil, List.mem_singleton]
          intro e
          exact hn.1 (e ▸ List.mem_map.2 ⟨q, hq, rfl⟩)) h2
        refine ⟨_, by rw [e1, List.append_assoc]; rfl, by simp [e2], List.Forall₂.cons ?_ hf⟩
        refine remote_state_optical hg ht hr ?_ (hm p (by simp)) hco
        intro m' hm'
        obtain rfl : m' = (genericMatrix th ph, tl) := by simpa using hm'
        obtain ⟨x, y, hxy, hx, hy⟩ := htl
        exact ⟨⟨x, y, ⟨hxy.first, hxy.second, hxy.differ, hxy.right, hxy.list⟩, hx, hy⟩, (C17_wave_plate th ph 0).1⟩
  obtain ⟨r, hr, e⟩ := Option.bind_eq_some_iff.1 h
  obtain rfl := Option.some.inj e
  obtain ⟨tail, e1, e2, hf⟩ := key coll [] _ r hc.ids hc.states (by simp) hr
  rw [List.nil_append] at e1
  rw [e1]
  exact remote_of_forall₂ hc (by rw [e2]; exact hc.ids) hf

/-! ### Custom nodes -/

theorem elsewhere_select {g : Cfg} (hg : g.Ok) {keep : List ℕ} {F : SqArr} (hF : ActsElsewhere g keep F) {i k : ℕ} (hi : i < g.size) (hk : k < g.size) (h : F.at_ i k ≠ 0) :
    select keep (g.valuesFromIndex k) = select keep (g.valuesFromIndex i) := by
  refine select_eq_iff.2 fun j hj => ?_
  by_contra hne
  apply h
  have := hF.keeps _ _ (g.valid_valuesFromIndex hg.1 i) (g.valid_valuesFromIndex hg.1 k) ⟨j, hj, fun e => hne e.symm⟩
  rwa [g.indexOf_valuesFromIndex hi, g.indexOf_valuesFromIndex hk] at this

theorem part_custom {g : Cfg} (hg : g.Ok) {keep : List ℕ} {F : SqArr} (hF : ActsElsewhere g keep F) (o : Vals) (x : ℕ → ℂ) {i : ℕ} (hi : i < g.size) :
    F.mulVec (part g keep o x) i = part g keep o (F.mulVec x) i := by
  unfold part
  simp only [SqArr.mulVec, hF.size]
  split
  · rename_i ho
    refine Finset.sum_congr rfl fun k hk => ?_
    by_cases hz : F.at_ i k = 0
    · rw [hz, zero_mul, zero_mul]
    · rw [if_pos ((show outcomeOf keep (g.valuesFromIndex k) = outcomeOf keep (g.valuesFromIndex i) from elsewhere_select hg hF hi (Finset.mem_range.1 hk) hz).trans ho)]
  · rename_i ho
    apply Finset.sum_eq_zero
    intro k hk
    by_cases hz : F.at_ i k = 0
    · rw [hz, zero_mul]
    · rw [if_neg, mul_zero]
      intro e
      exact ho ((show outcomeOf keep (g.valuesFromIndex k) = outcomeOf keep (g.valuesFromIndex i) from elsewhere_select hg hF hi (Finset.mem_range.1 hk) hz).symm.trans e)

theorem moved_custom {g : Cfg} (hg : g.Ok) {keep : List ℕ} (hr : ∀ n ∈ keep, n < g.C) {F : SqArr} (hF : ActsElsewhere g keep F) {u v : Vals} (hu : Valid g u) (hv : Valid g v)
    (x : ℕ → ℂ) {i : ℕ} (hi : i < g.size) : F.mulVec (moved g keep (select keep u) v x) i = moved g keep (select keep u) v (F.mulVec x) i := by
  have hiv := g.valid_valuesFromIndex hg.1 i
  unfold moved
  simp only [SqArr.mulVec, hF.size]
  split
  · rename_i ho
    have hpv := put_valid hg.1 keep hv hiv
    have hpi := g.indexOf_lt hpv
    have e1 : ∑ k ∈ Finset.range g.size, F.at_ i k * (if select keep (g.valuesFromIndex k) = select keep u then x (g.indexOf (put g keep v (g.valuesFromIndex k))) else 0) =
        ∑ k ∈ (Finset.range g.size).filter (fun k => select keep (g.valuesFromIndex k) = select keep u), F.at_ i k * x (g.indexOf (put g keep v (g.valuesFromIndex k))) := by
      rw [Finset.sum_filter]
      exact Finset.sum_congr rfl fun k _ => by split <;> simp
    have e2 : ∑ k ∈ Finset.range g.size, F.at_ (g.indexOf (put g keep v (g.valuesFromIndex i))) k * x k =
        ∑ k ∈ (Finset.range g.size).filter (fun k => select keep (g.valuesFromIndex k) = select keep v), F.at_ (g.indexOf (put g keep v (g.valuesFromIndex i))) k * x k := by
      rw [Finset.sum_filter]
      refine Finset.sum_congr rfl fun k hk => ?_
      split
      · rfl
      · rename_i hne
        by_cases hz : F.at_ (g.indexOf (put g keep v (g.valuesFromIndex i))) k = 0
        · rw [hz, zero_mul]
        · refine absurd ((elsewhere_select hg hF hpi (Finset.mem_range.1 hk) hz).trans ?_) hne
          rw [g.valuesFromIndex_indexOf hpv, select_put hr]
    rw [e1, e2]
    have back : ∀ (p q : Vals) (k : ℕ), Valid g p → Valid g q → k < g.size → select keep (g.valuesFromIndex k) = select keep p →
        g.indexOf (put g keep p (g.valuesFromIndex (g.indexOf (put g keep q (g.valuesFromIndex k))))) = k := by
      intro p q k hp hq hk hs
      have hkv := g.valid_valuesFromIndex hg.1 k
      rw [g.valuesFromIndex_indexOf (put_valid hg.1 keep hq hkv)]
      conv_rhs => rw [← g.indexOf_valuesFromIndex hk]
      congr 1
      refine ext_getD (put_valid hg.1 keep hp (put_valid hg.1 keep hq hkv)).1 hkv.1 fun j hj => ?_
      rw [put_getD _ _ _ hj, put_getD _ _ _ hj]
      by_cases hjk : j ∈ keep
      · rw [if_pos hjk, select_eq_iff.1 hs j hjk]
      · rw [if_neg hjk, if_neg hjk]
    refine Finset.sum_nbij' (fun k => g.indexOf (put g keep v (g.valuesFromIndex k))) (fun k => g.indexOf (put g keep u (g.valuesFromIndex k))) ?_ ?_ ?_ ?_ ?_
    · intro k hk
      have hkv := g.valid_valuesFromIndex hg.1 k
      rw [Finset.mem_filter]
      refine ⟨Finset.mem_range.2 (g.indexOf_lt (put_valid hg.1 keep hv hkv)), ?_⟩
      rw [g.valuesFromIndex_indexOf (put_valid hg.1 keep hv hkv), select_put hr]
    · intro k hk
      have hkv := g.valid_valuesFromIndex hg.1 k
      rw [Finset.mem_filter]
      refine ⟨Finset.mem_range.2 (g.indexOf_lt (put_valid hg.1 keep hu hkv)), ?_⟩
      rw [g.valuesFromIndex_indexOf (put_valid hg.1 keep hu hkv), select_put hr]
    · intro k hk
      rw [Finset.mem_filter, Finset.mem_range] at hk
      exact back u v k hu hv hk.1 hk.2
    · intro k hk
      rw [Finset.mem_filter, Finset.mem_range] at hk
      exact back v u k hv hu hk.1 hk.2
    · intro k hk
      rw [Finset.mem_filter, Finset.mem_range] at hk
      have hkv := g.valid_valuesFromIndex hg.1 k
      congr 1
      have := hF.blind _ _ _ _ hiv hkv hpv (put_valid hg.1 keep hv hkv) (fun j hj => ?_) (fun j hj hjk => ?_)
      · rw [this, g.indexOf_valuesFromIndex hi, g.indexOf_valuesFromIndex hk.1]
      · rw [put_getD _ _ _ (hr j hj), put_getD _ _ _ (hr j hj), if_pos hj, if_pos hj]
        exact ⟨(select_eq_iff.1 ho j hj).trans (select_eq_iff.1 hk.2 j hj).symm, rfl⟩
      · rw [put_getD _ _ _ hj, put_getD _ _ _ hj, if_neg hjk, if_neg hjk]
        exact ⟨rfl, rfl⟩
  · rename_i ho
    apply Finset.sum_eq_zero
    intro k hk
    by_cases hz : F.at_ i k = 0
    · rw [hz, zero_mul]
    · rw [if_neg, mul_zero]
      intro e
      exact ho ((elsewhere_select hg hF hi (Finset.mem_range.1 hk) hz).symm.trans e)

theorem unitary_mulVec_inner {A : SqArr} (h : IsUnitary A) (x y : ℕ → ℂ) :
    ∑ i ∈ Finset.range A.size, star (A.mulVec x i) * A.mulVec y i = ∑ i ∈ Finset.range A.size, star (x i) * y i := by
  have h' := (Matrix.mem_unitaryGroup_iff').1 h
  have e : ∀ x y : ℕ → ℂ, (∑ i ∈ Finset.range A.size, star (x i) * y i) = star (fun i : Fin A.size => x i) ⬝ᵥ (fun i : Fin A.size => y i) := by
    intro x y
    rw [dotProduct, ← Fin.sum_univ_eq_sum_range (fun i => star (x i) * y i)]
    rfl
  have e2 : ∀ x : ℕ → ℂ, (fun i : Fin A.size => A.mulVec x i) = (toMatrix A).mulVec (fun i : Fin A.size => x i) := by
    intro x
    funext i
    simp only [SqArr.mulVec, Matrix.mulVec, dotProduct]
    rw [← Fin.sum_univ_eq_sum_range (fun k => A.at_ i k * x k)]
    rfl
  rw [e, e, e2, e2, Matrix.star_mulVec, Matrix.dotProduct_mulVec, Matrix.vecMul_vecMul, ← Matrix.star_eq_conjTranspose, h', Matrix.vecMul_one]

theorem reducedVec_custom {g : Cfg} (hg : g.Ok) {keep : List ℕ} (hr : ∀ n ∈ keep, n < g.C) {F : SqArr} (hF : ActsElsewhere g keep F) (x : ℕ → ℂ) (a b : Vals) :
    reducedVec g keep (F.mulVec x) a b = reducedVec g keep x a b := by
  by_cases h : (∃ u, Valid g u ∧ select keep u = a) ∧ ∃ v, Valid g v ∧ select keep v = b
  · obtain ⟨⟨u, hu, rfl⟩, v, hv, rfl⟩ := h
    have hin := unitary_mulVec_inner hF.unitary (part g keep (select keep u) x) (moved g keep (select keep u) v x)
    rw [hF.size] at hin
    rw [reducedVec_inner hg hr hv, reducedVec_inner hg hr hv, ← hin]
    refine Finset.sum_congr rfl fun i hi => ?_
    have hi := Finset.mem_range.1 hi
    rw [part_custom hg hF _ x hi, moved_custom hg hr hF hu hv x hi]
  · unfold reducedVec
    rw [reducedEntry_absent hg _ h, reducedEntry_absent hg _ h]

theorem part_custom_norm {g : Cfg} (hg : g.Ok) {keep : List ℕ} {F : SqArr} (hF : ActsElsewhere g keep F) (x : ℕ → ℂ) (o : Vals) :
    ∑ i ∈ Finset.range g.size, ‖part g keep o (F.mulVec x) i‖ ^ 2 = ∑ i ∈ Finset.range g.size, ‖part g keep o x i‖ ^ 2 := by
  have := unitary_mulVec_norm hF.unitary (part g keep o x)
  rw [hF.size] at this
  rw [← this]
  exact Finset.sum_congr rfl fun i hi => by rw [part_custom hg hF o x (Finset.mem_range.1 hi)]

/-- the state that a custom node gives -/
theorem custom_state {c : Circ} (hg : c.g.Ok) {F : SqArr} {q q' : QState} (hw : WellFormed c.g q.comps) (h : customOne c F q = some q') :
    ∃ (comps : Comps) (y : ℕ → ℂ), q' = { q with comps := comps } ∧ fromVector c.g c.thr y = some comps ∧ ∀ i < c.g.size, y i = F.mulVec (vec c.g q.comps) i := by
  unfold customOne copyState at h
  split at h
  swap
  · cases h
  rw [Option.bind_some] at h
  by_cases hs : F.size ≠ c.g.size
  · rw [if_pos hs] at h; cases h
  rw [if_neg hs] at h
  have hs : F.size = c.g.size := not_not.1 hs
  obtain ⟨comps, h1, rfl⟩ := Option.map_eq_some_iff.1 h
  unfold applyCustom at h1
  simp only [Option.bind_eq_bind] at h1
  obtain ⟨x, hx, hc⟩ := Option.bind_eq_some_iff.1 h1
  obtain ⟨x', hx', hxi⟩ := toVector_spec hg.1 hw
  obtain rfl := Option.some.inj (hx.symm.trans hx')
  refine ⟨comps, F.mulVec x, rfl, hc, fun i _ => ?_⟩
  simp only [SqArr.mulVec]
  exact Finset.sum_congr rfl fun k hk => by rw [hxi k (hs ▸ Finset.mem_range.1 hk)]

theorem remote_custom_state {c : Circ} (hg : c.g.Ok) (ht : 0 ≤ c.thr) {keep : List ℕ} (hr : ∀ j ∈ keep, j < c.g.C) {F : SqArr} (hF : ActsElsewhere c.g keep F) {q q' : QState}
    (hq : Measurable c.g c.m q) (h : customOne c F q = some q') : RemoteState c.g c.m keep q q' := by
  obtain ⟨comps, y, rfl, h2, h3⟩ := custom_state hg hq.wf h
  have hs : ∑ i ∈ Finset.range c.g.size, ‖y i‖ ^ 2 = totalProb q.comps := by
    have := unitary_mulVec_norm hF.unitary (vec c.g q.comps)
    rw [hF.size] at this
    rw [totalProb_eq hg.1 hq.wf, ← this]
    exact Finset.sum_congr rfl fun i hi => by rw [h3 i (Finset.mem_range.1 hi)]
  obtain ⟨hw, hp, hle, -⟩ := fromVector_total hg.1 ht h2
  rw [hs] at hle
  have hv : ∀ i < c.g.size, vec c.g comps i = if ‖y i‖ ^ 2 < c.thr then 0 else y i := fun i hi => vec_fromVector hg.1 h2 hi
  have hpart : ∀ o, outcomeProb c.g keep q.comps o = ∑ i ∈ Finset.range c.g.size, ‖part c.g keep o y i‖ ^ 2 := by
    intro o
    rw [outcomeProb_vec hg.1 hq.wf, ← part_custom_norm hg hF]
    refine Finset.sum_congr rfl fun i hi => ?_
    unfold part
    rw [h3 i (Finset.mem_range.1 hi)]
  have hlow : ∀ o, ∀ i ∈ Finset.range c.g.size, ‖part c.g keep o (vec c.g comps) i‖ ^ 2 ≤ ‖part c.g keep o y i‖ ^ 2 := by
    intro o i hi
    unfold part
    rw [hv i (Finset.mem_range.1 hi)]
    by_cases ho : outcomeOf keep (c.g.valuesFromIndex i) = o <;> by_cases hl : ‖y i‖ ^ 2 < c.thr <;> simp [ho, hl]
  refine ⟨rfl, rfl, ⟨hw, hp, hle.trans hq.total, hq.cum0, hq.cum1, hq.classical⟩, hle, fun e a b => ?_, fun o => ?_, fun o => ?_⟩
  · have hz := pruned_zero hg h2 (e.trans hs.symm)
    rw [← reducedVec_custom hg hr hF (vec c.g q.comps)]
    refine reducedVec_congr (fun i hi => ?_) a b
    show vec c.g comps i = _
    rw [hv i hi, ← h3 i hi]
    split
    · rename_i hlt; exact (hz i hi hlt).symm
    · rfl
  · show outcomeProb c.g keep comps o ≤ _
    rw [hpart, outcomeProb_vec hg.1 hw]
    exact Finset.sum_le_sum (hlow o)
  · show _ ≤ outcomeProb c.g keep comps o + (totalProb q.comps - totalProb comps)
    rw [hpart, outcomeProb_vec hg.1 hw, ← hs, totalProb_eq hg.1 hw, ← Finset.sum_sub_distrib, ← Finset.sum_add_distrib]
    refine Finset.sum_le_sum fun i hi => ?_
    unfold part
    rw [hv i (Finset.mem_range.1 hi)]
    by_cases ho : outcomeOf keep (c.g.valuesFromIndex i) = o <;> by_cases hl : ‖y i‖ ^ 2 < c.thr <;> simp [ho, hl]

theorem remote_custom {c : Circ} (hg : c.g.Ok) (ht : 0 ≤ c.thr) {keep : List ℕ} (hr : ∀ j ∈ keep, j < c.g.C) {F : SqArr} (hF : ActsElsewhere c.g keep F) (r : ℕ → ℕ → ℕ)
    {coll out : Coll} (hc : Sound c.g c.m coll) (h : customColl c F r coll = some out) : RemoteStep c.g c.m keep coll out := by
  have hA := actsPerState_custom c F r
  have hf : List.Forall₂ (fun q q' => RemoteState c.g c.m keep q q') (statesOf coll) (statesOf out) := by
    refine forall₂_mem_follow (one_by_one hA hc.ids h) fun q hq q' _ hqq => ?_
    obtain ⟨p, hp, rfl⟩ := List.mem_map.1 hq
    exact remote_custom_state hg ht hr hF (hc.states p hp) hqq
  unfold statesOf at hf
  rw [List.forall₂_map_left_iff, List.forall₂_map_right_iff] at hf
  exact remote_of_forall₂ hc (hA.identifiers coll out hc.ids h) hf

/-! ### Shifts of other channels -/

/-- two lists of photon numbers agree outside `keep` -/
def AgreeOutside (g : Cfg) (keep : List ℕ) (v w : Vals) : Prop := ∀ j < g.C, j ∉ keep → v.getD j 0 = w.getD j 0

/-- a change of photon numbers that neither changes nor uses those of `keep` -/
structure MovesElsewhere (g : Cfg) (keep : List ℕ) (F : Vals → Vals) : Prop where
  valid : ∀ v, Valid g v → Valid g (F v)
  same : ∀ v, Valid g v → ∀ j ∈ keep, (F v).getD j 0 = v.getD j 0
  blind : ∀ v w, Valid g v → Valid g w → AgreeOutside g keep v w → AgreeOutside g keep (F v) (F w)

theorem MovesElsewhere.id {g : Cfg} {keep : List ℕ} : MovesElsewhere g keep (fun v => v) := ⟨fun _ h => h, fun _ _ _ _ => rfl, fun _ _ _ _ h => h⟩

theorem MovesElsewhere.comp {g : Cfg} {keep : List ℕ} {F G : Vals → Vals} (hF : MovesElsewhere g keep F) (hG : MovesElsewhere g keep G) : MovesElsewhere g keep (fun v => G (F v)) :=
  ⟨fun v hv => hG.valid _ (hF.valid v hv), fun v hv j hj => (hG.same _ (hF.valid v hv) j hj).trans (hF.same v hv j hj),
    fun v w hv hw h => hG.blind _ _ (hF.valid v hv) (hF.valid w hw) (hF.blind v w hv hw h)⟩

theorem movesElsewhere_foldl {g : Cfg} {keep : List ℕ} {α : Type*} (step : α → Vals → Vals) : ∀ (l : List α), (∀ q ∈ l, MovesElsewhere g keep (step q)) →
    MovesElsewhere g keep (fun v => l.foldl (fun v q => step q v) v) := by
  intro l
  induction l with
  | nil => intro _; exact MovesElsewhere.id
  | cons q l ih => intro h; exact (h q (by simp)).comp (ih fun r hr => h r (by simp [hr]))

theorem sStep_elsewhere {g : Cfg} (hL : 1 ≤ g.L) {keep : List ℕ} {q : ℤ × ℕ} (h1 : q.2 < g.C) (h2 : q.2 ∉ keep) : MovesElsewhere g keep (sStep g.L q) := by
  have hget : ∀ v, Valid g v → ∀ j, (sStep g.L q v).getD j 0 = if j = q.2 then addMod g.L q.1 (v.getD q.2 0) else v.getD j 0 :=
    fun v hv j => getD_set v (by rw [hv.1]; exact h1) _ _
  refine ⟨fun v hv => sStep_valid hL q hv, fun v hv j hj => ?_, fun v w hv hw h j hj hjk => ?_⟩
  · rw [hget v hv, if_neg]
    rintro rfl; exact h2 hj
  · rw [hget v hv, hget w hw, h _ h1 h2, h j hj hjk]

theorem cStep_elsewhere {g : Cfg} (hL : 1 ≤ g.L) {keep : List ℕ} {q : ℕ × ℕ} (h1 : q.1 < g.C ∧ q.2 < g.C) (h2 : q.1 ∉ keep ∧ q.2 ∉ keep) : MovesElsewhere g keep (cStep g.L q) := by
  have hget : ∀ v, Valid g v → ∀ j, (cStep g.L q v).getD j 0 = if j = q.2 then (v.getD q.1 0 + v.getD q.2 0) % g.L else v.getD j 0 :=
    fun v hv j => getD_set v (by rw [hv.1]; exact h1.2) _ _
  refine ⟨fun v hv => cStep_valid hL q hv, fun v hv j hj => ?_, fun v w hv hw h j hj hjk => ?_⟩
  · rw [hget v hv, if_neg]
    rintro rfl; exact h2.2 hj
  · rw [hget v hv, hget w hw, h _ h1.1 h2.1, h _ h1.2 h2.2, h j hj hjk]

theorem moves_elsewhere {g : Cfg} (hg : g.Ok) {keep : List ℕ} {F : Vals → Vals} (hF : MovesElsewhere g keep F)
    (hi : ∀ v w, Valid g v → Valid g w → F v = F w → v = w) {M : SqArr} (hM : MovesBy g F M) : ActsElsewhere g keep M := by
  have hent : ∀ v w, Valid g v → Valid g w → M.at_ (g.indexOf v) (g.indexOf w) = if v = F w then 1 else 0 := by
    intro v w hv hw
    have := hM.2 _ (g.indexOf_lt hv) _ (g.indexOf_lt hw)
    rwa [g.valuesFromIndex_indexOf hv, g.valuesFromIndex_indexOf hw] at this
  refine ⟨hM.1, movesBy_unitary hg.1 hF.valid hi hM, ?_, ?_⟩
  · rintro v w hv hw ⟨j, hj, hne⟩
    rw [hent v w hv hw, if_neg]
    rintro rfl
    exact hne (hF.same w hw j hj)
  · intro v w v' w' hv hw hv' hw' hk ho
    rw [hent v w hv hw, hent v' w' hv' hw']
    have hww : AgreeOutside g keep w' w := fun j hj hjk => (ho j hj hjk).2
    have hFF := hF.blind w' w hw' hw hww
    congr 1
    apply propext
    constructor
    · intro e
      refine ext_getD hv.1 (hF.valid w hw).1 fun j hj => ?_
      by_cases hjk : j ∈ keep
      · rw [hF.same w hw j hjk, (hk j hjk).1]
      · rw [← (ho j hj hjk).1, e, hFF j hj hjk]
    · intro e
      refine ext_getD hv'.1 (hF.valid w' hw').1 fun j hj => ?_
      by_cases hjk : j ∈ keep
      · rw [hF.same w' hw' j hjk, (hk j hjk).2]
      · rw [(ho j hj hjk).1, e, hFF j hj hjk]

/-! ### Generic nodes -/

theorem remote_generic {c : Circ} (hg : c.g.Ok) {keep : List ℕ} {f : Coll → Option Coll} (hf : FunctionElsewhere c.g c.m keep f) {coll out : Coll} (hc : Sound c.g c.m coll)
    (h : f coll = some out) : RemoteStep c.g c.m keep coll out := by
  obtain ⟨hs, hl⟩ := hf coll out hc h
  have key : ∀ label a b, reducedColl c.g keep label out a b = reducedColl c.g keep label coll a b := by
    intro label a b
    obtain ⟨dm, d1, -⟩ := densityMatrix_eq hg.1 (fun p hp => (hc.states p hp).wf) label
    obtain ⟨dm', d2, -⟩ := densityMatrix_eq hg.1 (fun p hp => (hs.states p hp).wf) label
    rw [← reducedEntry_dm hg.1 (fun p hp => (hc.states p hp).wf) d1, ← reducedEntry_dm hg.1 (fun p hp => (hs.states p hp).wf) d2]
    exact (hl label).2.2 dm dm' d1 d2 a b
  have hch : ∀ label o, chance c.g label keep out o = chance c.g label keep coll o := by
    intro label o
    have := key label o o
    rw [chance_reduced hg (fun p hp => (hc.states p hp).wf), chance_reduced hg (fun p hp => (hs.states p hp).wf)] at this
    exact_mod_cast this
  refine ⟨hs, fun label => (hl label).1.le, fun label _ a b => key label a b, fun label o => (hch label o).le, fun label o => ?_⟩
  rw [hch, (hl label).1]
  linarith

/-- the state that `moveComps` gives -/
theorem remote_move_state {c : Circ} (hg : c.g.Ok) {keep : List ℕ} (hr : ∀ j ∈ keep, j < c.g.C) {move : Vals → Option Vals} {F : Vals → Vals} (hm : ∀ v, Valid c.g v → move v = some (F v))
    (hF : MovesElsewhere c.g keep F) (hi : ∀ v w, Valid c.g v → Valid c.g w → F v = F w → v = w) {q q' : QState} (hq : Measurable c.g c.m q) (h : moveOne c move q = some q') :
    RemoteState c.g c.m keep q q' ∧ totalProb q'.comps = totalProb q.comps := by
  unfold moveOne copyState at h
  split at h
  swap
  · cases h
  rw [Option.bind_some] at h
  obtain ⟨d, hd, rfl⟩ := Option.map_eq_some_iff.1 h
  obtain ⟨d', hd', hw, htot, hget⟩ := moveComps_spec hm hF.valid hi hq.wf
  obtain rfl := Option.some.inj (hd.symm.trans hd')
  have hp : ProbsAgree d := by
    obtain ⟨l, hl, e⟩ := exists_enc hq.wf
    have h1 := (moveComps_eq hm hF.valid hi hl).1
    rw [← e, hd] at h1
    obtain rfl := Option.some.inj h1
    intro p hp
    obtain ⟨x, hx, rfl⟩ := List.mem_map.1 hp
    obtain ⟨y, hy, rfl⟩ := List.mem_map.1 hx
    exact hq.probs (c.g.stdName y.1, y.2) (by rw [e]; exact List.mem_map.2 ⟨y, hy, rfl⟩)
  obtain ⟨M, hM⟩ : ∃ M, MovesBy c.g F M := ⟨⟨c.g.size, fun o i => if c.g.valuesFromIndex o = F (c.g.valuesFromIndex i) then 1 else 0⟩, rfl, fun _ _ _ _ => rfl⟩
  have hA := moves_elsewhere hg hF hi hM
  have hv : ∀ i < c.g.size, vec c.g d i = M.mulVec (vec c.g q.comps) i := by
    intro i hi'
    obtain ⟨v, hv, e⟩ := surj_of_inj hg.1 hF.valid hi (c.g.valid_valuesFromIndex hg.1 i)
    have hFv := hF.valid v hv
    have ei : i = c.g.indexOf (F v) := by rw [e, c.g.indexOf_valuesFromIndex hi']
    rw [ei, vec_index hFv]
    unfold SqArr.mulVec
    rw [hM.1, Finset.sum_eq_single (c.g.indexOf v)]
    · rw [hM.2 _ (c.g.indexOf_lt hFv) _ (c.g.indexOf_lt hv), c.g.valuesFromIndex_indexOf hFv, c.g.valuesFromIndex_indexOf hv, if_pos rfl, one_mul, vec_index hv]
      exact congrArg (fun o : Option Comp => o.elim 0 Comp.amp) (hget v hv)
    · intro k hk hne
      have hk := Finset.mem_range.1 hk
      rw [hM.2 _ (c.g.indexOf_lt hFv) _ hk, if_neg, zero_mul]
      rw [c.g.valuesFromIndex_indexOf hFv]
      intro e'
      apply hne
      rw [hi _ _ hv (c.g.valid_valuesFromIndex hg.1 k) e', c.g.indexOf_valuesFromIndex hk]
    · intro h; exact absurd (Finset.mem_range.2 (c.g.indexOf_lt hv)) h
  have hout : ∀ o, outcomeProb c.g keep d o = outcomeProb c.g keep q.comps o := by
    intro o
    rw [outcomeProb_vec hg.1 hq.wf, outcomeProb_vec hg.1 hw, ← part_custom_norm hg hA (vec c.g q.comps)]
    refine Finset.sum_congr rfl fun i hi => ?_
    unfold part
    rw [hv i (Finset.mem_range.1 hi)]
  refine ⟨⟨rfl, rfl, ⟨hw, hp, htot.le.trans hq.total, hq.cum0, hq.cum1, hq.classical⟩, htot.le, fun _ a b => ?_, fun o => (hout o).le, fun o => ?_⟩, htot⟩
  · rw [← reducedVec_custom hg hr hA (vec c.g q.comps)]
    exact reducedVec_congr hv a b
  · show _ ≤ outcomeProb c.g keep d o + (totalProb q.comps - totalProb d)
    rw [hout, htot]
    linarith

theorem move_elsewhere {c : Circ} (hg : c.g.Ok) {keep : List ℕ} (hr : ∀ j ∈ keep, j < c.g.C) {move : Vals → Option Vals} {F : Vals → Vals} (hm : ∀ v, Valid c.g v → move v = some (F v))
    (hF : MovesElsewhere c.g keep F) (hi : ∀ v w, Valid c.g v → Valid c.g w → F v = F w → v = w) (r : ℕ → ℕ → ℕ) : FunctionElsewhere c.g c.m keep (moveColl c move r) := by
  intro coll out hc h
  have hA := actsPerState_move c move r
  have hf : List.Forall₂ (fun q q' => RemoteState c.g c.m keep q q' ∧ KeepsState c.g c.m 0 q q') (statesOf coll) (statesOf out) := by
    refine forall₂_mem_follow (one_by_one hA hc.ids h) fun q hq q' _ hqq => ?_
    obtain ⟨p, hp, rfl⟩ := List.mem_map.1 hq
    obtain ⟨h1, h2⟩ := remote_move_state hg hr hm hF hi (hc.states p hp) hqq
    exact ⟨h1, h1.initial, h1.cum, h1.meas, h1.le, by rw [h2, sub_zero]⟩
  unfold statesOf at hf
  rw [List.forall₂_map_left_iff, List.forall₂_map_right_iff] at hf
  have hn := hA.identifiers coll out hc.ids h
  have R := remote_of_forall₂ hc hn (hf.imp fun _ _ h => h.1)
  have K := conserves_of_forall₂ hc hn (hf.imp fun _ _ h => h.2)
  have hcar : ∀ label, carried label out = carried label coll := by
    intro label
    have := K.ge label
    rw [zero_mul, sub_zero] at this
    exact le_antisymm (K.le label) this
  refine ⟨K.sound, fun label => ⟨hcar label, K.listed label, fun dm dm' d1 d2 a b => ?_⟩⟩
  rw [reducedEntry_dm hg.1 (fun p hp => (hc.states p hp).wf) d1, reducedEntry_dm hg.1 (fun p hp => (K.sound.states p hp).wf) d2]
  exact R.same label (hcar label) a b

theorem eval_remote {env : ℕ → Circ} {rnd : ℕ → ℕ → Bool → ℕ → ℕ → ℕ} {k : ℕ} (hg : (env k).g.Ok) (ht : 0 ≤ (env k).thr) {keep : List ℕ} (hr : ∀ j ∈ keep, j < (env k).g.C) :
    ∀ (fuel : ℕ) (l : List ℕ) (coll out : Coll), (∀ i ∈ l, ∀ n, (env k).nodes[i]? = some n → LeavesAlone (env k).g (env k).m keep n) → Sound (env k).g (env k).m coll →
    evalNodes env rnd fuel k l coll = some out → RemoteStep (env k).g (env k).m keep coll out := by
  intro fuel
  induction fuel with
  | zero => intro l coll out _ _ h; cases h
  | succ fuel ih =>
    intro l coll out hl hc h
    cases l with
    | nil =>
      obtain rfl := Option.some.inj h
      exact RemoteStep.refl hc
    | cons i rest =>
      by_cases hv : ∀ j ∈ i :: rest, j < (env k).nodes.length
      swap
      · rw [evalNodes_invalid (by push Not at hv; exact hv)] at h; cases h
      have next : ∀ (done : List ℕ) (mid : Coll), RemoteStep (env k).g (env k).m keep coll mid → evalNodes env rnd fuel k (remaining done (i :: rest)) mid = some out →
          RemoteStep (env k).g (env k).m keep coll out :=
        fun done mid hcm he => hcm.trans (ih _ mid out (fun j hj => hl j (remaining_subset _ _ hj)) hcm.sound he)
      by_cases ho : isOpt (env k) i = true
      · rw [evalNodes_run hv ho] at h
        obtain ⟨mid, h1, h2⟩ := Option.bind_eq_some_iff.1 h
        refine next _ mid ?_ h2
        unfold runEff at h1
        split at h1
        · cases h1
        · rename_i n ns hns
          refine remote_optical hg ht hr ?_ hc h1
          intro m hm
          rw [← hns] at hm
          obtain ⟨j, hj, hjm⟩ := List.mem_filterMap.1 hm
          have hjl : j ∈ i :: rest := (List.takeWhile_sublist _).subset hj
          cases hnode : (env k).nodes[j]? with
          | none => rw [hnode] at hjm; cases hjm
          | some nd =>
            rw [hnode] at hjm
            cases nd with
            | optical M tl =>
              obtain rfl := Option.some.inj hjm
              obtain ⟨h3, h4⟩ := hl j hjl _ hnode
              exact ⟨h4, h3⟩
            | _ => cases hjm
      · have ho : isOpt (env k) i = false := by simpa using ho
        have hb : ∀ n, (env k).nodes[i]? ≠ some (.bridge n) := fun n hn => hl i (by simp) _ hn
        rw [evalNodes_node hv hb ho] at h
        obtain ⟨mid, h1, h2⟩ := Option.bind_eq_some_iff.1 h
        have hn := hl i (by simp)
        unfold nodeEff at h1
        split at h1
        · rename_i F hF
          exact next _ mid (remote_custom hg ht hr (hn _ hF) _ hc h1) h2
        · exact next _ mid (remote_classical hc h1) h2
        · rename_i opt cls hm
          exact next _ mid (remote_measure hg (hn _ hm).1 (hn _ hm).2 hc h1) h2
        · rename_i hm
          exact next _ mid (remote_controlled hg ht hr (hn _ hm) hc h1) h2
        · rename_i f hm
          exact next _ mid (remote_generic hg (hn _ hm) hc h1) h2
        · cases h1

end Verif
