/-
C139: the threshold is a small perturbation also of the statistics of measurements.
-/
import Verif.Lemmas.PerturbTree
import Verif.Props.Perturb

namespace Verif.Props
open Verif Spec

theorem weightedAmp_vec (g : Cfg) (coll : Coll) (label : List Char) (r : List (List ℝ)) (i : ℕ) : weightedAmp coll label r (g.nm i) = branchVec g label (statesOf coll) r i := by
  unfold weightedAmp branchVec onBranch statesOf
  rw [List.map_map]
  rfl

theorem weightedAmp_named {g : Cfg} {m : ℕ} {coll : Coll} (hc : Sound g m coll) {label : List Char} {r : List (List ℝ)} {s : Name} (h : weightedAmp coll label r s ≠ 0) : ∃ i < g.size, g.nm i = s := by
  by_contra hno
  apply h
  unfold weightedAmp
  refine List.sum_eq_zero fun x hx => ?_
  obtain ⟨p, hp, rfl⟩ := List.mem_map.1 hx
  split
  · have : ampOf p.2.comps s = 0 := by
      by_contra h0
      exact hno (ampOf_named (hc.states p hp).wf h0)
    rw [this, mul_zero]
  · rfl

open Classical in
/-- the branches of a collection whose states differ in label or record -/
noncomputable def startTree (g : Cfg) (label : List Char) (coll : Coll) : Tree := fun r =>
  ((statesOf coll).find? (fun q => decide (q.initial = label ∧ recordOf q = r))).map (fun q => (q.classical, fun i => (Real.sqrt q.cum : ℂ) * vec g q.comps i))

theorem start_follows (g : Cfg) (label : List Char) {coll : Coll} (hk : (coll.map (fun p => (p.2.initial, recordOf p.2))).Nodup) :
    Follows g label 0 (statesOf coll) (startTree g label coll) := by
  classical
  have hk' : ((statesOf coll).map bkey).Nodup := by
    unfold statesOf
    rw [List.map_map]
    exact hk
  have found : ∀ q ∈ statesOf coll, q.initial = label → startTree g label coll (recordOf q) = some (q.classical, fun i => (Real.sqrt q.cum : ℂ) * vec g q.comps i) := by
    intro q hq hl
    unfold startTree
    cases hf : (statesOf coll).find? (fun q' => decide (q'.initial = label ∧ recordOf q' = recordOf q)) with
    | none =>
      have := List.find?_eq_none.1 hf q hq
      simp [hl] at this
    | some q' =>
      have h1 := List.find?_some hf
      rw [decide_eq_true_eq] at h1
      have h2 := List.mem_of_find?_eq_some hf
      have : q' = q := key_unique hk' h2 hq (by unfold bkey; rw [h1.1, h1.2, hl])
      subst this
      rfl
  refine ⟨le_rfl, hk', fun q hq hl => ⟨_, found q hq hl⟩, fun R => ?_⟩
  refine le_of_eq ?_
  rw [zero_pow two_ne_zero]
  refine Finset.sum_eq_zero fun r _ => ?_
  have : ∀ i, branchVec g label (statesOf coll) r i - treeVec (startTree g label coll) r i = 0 := by
    intro i
    by_cases hex : ∃ q ∈ statesOf coll, q.initial = label ∧ recordOf q = r
    · obtain ⟨q, hq, hl, rfl⟩ := hex
      have e1 : branchVec g label (statesOf coll) (recordOf q) i = (Real.sqrt q.cum : ℂ) * vec g q.comps i := onBranch_one _ hk' hq hl
      rw [e1, treeVec, found q hq hl]
      exact sub_self ((Real.sqrt q.cum : ℂ) * vec g q.comps i)
    · have hno : ∀ q ∈ statesOf coll, ¬ (q.initial = label ∧ recordOf q = r) := fun q hq hh => hex ⟨q, hq, hh⟩
      have e1 : branchVec g label (statesOf coll) r i = 0 := onBranch_none _ hno
      have e2 : startTree g label coll r = none := by
        unfold startTree
        rw [List.find?_eq_none.2 fun q hq => by simpa using fun e1 e2 => hno q hq ⟨e1, e2⟩]
        rfl
      rw [e1, treeVec, e2]
      exact sub_zero 0
  rw [nrm_congr (y := fun _ => 0) fun i _ => this i]
  simp [nrm]

theorem calls_follow {g : Cfg} (hg : g.Ok) {m : ℕ} {label : List Char} {w : ℝ} {rnd : ℕ → ℕ → ℕ → Bool → ℕ → ℕ → ℕ} : ∀ (cs : List Circ) (δ : ℝ) (coll out : Coll) (T : Tree),
    (∀ c ∈ cs, c.g = g ∧ c.m = m ∧ 0 ≤ c.thr ∧ ∀ n ∈ c.nodes, SteadyOrMeasured g m n) → Sound g m coll → listed label coll ≤ w → Follows g label δ (statesOf coll) T → inCalls rnd cs coll = some out →
    Sound g m out ∧ listed label out ≤ w ∧ Follows g label (δ + cutError cs * Real.sqrt w) (statesOf out) (treeRun g m (cs.flatMap Circ.nodes) T) := by
  intro cs
  induction cs with
  | nil =>
    intro δ coll out T _ hc hw hT h
    obtain rfl := Option.some.inj h
    exact ⟨hc, hw, by simpa [cutError, treeRun] using hT⟩
  | cons c cs ih =>
    intro δ coll out T hcs hc hw hT h
    obtain ⟨mid, h1, h2⟩ := Option.bind_eq_some_iff.1 h
    obtain ⟨rfl, rfl, ht, hn⟩ := hcs c (by simp)
    have hst : ∀ i ∈ List.range c.nodes.length, ∀ n, c.nodes[i]? = some n → SteadyOrMeasured c.g c.m n := fun i _ n hi => hn n (List.mem_of_getElem? hi)
    have hco := eval_conserves (env := fun _ => c) (k := 0) hg ht _ _ coll mid (fun i hi n hin => (hst i hi n hin).lossless) hc h1
    have h4 := eval_follows (env := fun _ => c) (k := 0) hg ht _ _ δ coll mid T List.pairwise_lt_range hst hc hw hT h1
    have e : (List.range c.nodes.length).filterMap (fun i => c.nodes[i]?) = c.nodes := by
      refine List.ext_getElem? fun j => ?_
      have : ∀ n, (List.range n).filterMap (fun i => c.nodes[i]?) = c.nodes.take n := by
        intro n
        induction n with
        | zero => simp
        | succ n ih => rw [List.range_succ, List.filterMap_append, ih, List.take_add_one]; cases hcn : c.nodes[n]? <;> simp [hcn]
      rw [this, List.take_length]
    rw [show (List.range c.nodes.length).filterMap (fun i => ((fun _ => c) 0 : Circ).nodes[i]?) = c.nodes from e] at h4
    obtain ⟨hso', hw', h6⟩ := ih _ mid out _ (fun c' hc' => hcs c' (by simp [hc'])) hco.sound ((hco.listed label).trans hw) h4 h2
    refine ⟨hso', hw', ?_⟩
    rw [List.flatMap_cons, treeRun_append]
    refine h6.mono (le_of_eq ?_)
    simp only [cutError, List.map_cons, List.sum_cons, List.length_range]
    rw [show c.g.size = c.g.L ^ c.g.C from rfl]
    ring

theorem listed_nonneg {g : Cfg} {m : ℕ} {coll : Coll} (hc : Sound g m coll) (label : List Char) : 0 ≤ listed label coll := by
  unfold listed sumFrom
  refine List.sum_nonneg fun x hx => ?_
  obtain ⟨p, hp, rfl⟩ := List.mem_map.1 hx
  split
  · exact (hc.states p hp).cum0
  · exact le_rfl

/-- both results near the same branches -/
theorem both_follow {g : Cfg} (hg : g.Ok) {m : ℕ} {label : List Char} {rnd rnd' : ℕ → ℕ → ℕ → Bool → ℕ → ℕ → ℕ} {cs cs' : List Circ}
    (hcs : ∀ c ∈ cs ++ cs', c.g = g ∧ c.m = m ∧ 0 ≤ c.thr ∧ ∀ n ∈ c.nodes, SteadyOrMeasured g m n) (hsame : cs.flatMap Circ.nodes = cs'.flatMap Circ.nodes) {coll out out' : Coll} (hc : Sound g m coll)
    (hk : (coll.map (fun p => (p.2.initial, recordOf p.2))).Nodup) (h : inCalls rnd cs coll = some out) (h' : inCalls rnd' cs' coll = some out') :
    Sound g m out ∧ Sound g m out' ∧ listed label out ≤ listed label coll ∧ listed label out' ≤ listed label coll ∧
      ∃ T, Follows g label (cutError cs * Real.sqrt (listed label coll)) (statesOf out) T ∧ Follows g label (cutError cs' * Real.sqrt (listed label coll)) (statesOf out') T := by
  have hT := start_follows g label hk
  obtain ⟨a1, a2, a3⟩ := calls_follow hg cs 0 coll out _ (fun c hc' => hcs c (by simp [hc'])) hc le_rfl hT h
  obtain ⟨b1, b2, b3⟩ := calls_follow hg cs' 0 coll out' _ (fun c hc' => hcs c (by simp [hc'])) hc le_rfl hT h'
  rw [← hsame, zero_add] at b3
  rw [zero_add] at a3
  exact ⟨a1, b1, a2, b2, _, a3, b3⟩

theorem branch_diff {g : Cfg} {label : List Char} {δ δ' : ℝ} {L L' : List QState} {T : Tree} (h : Follows g label δ L T) (h' : Follows g label δ' L' T) (R : Finset (List (List ℝ))) :
    ∑ r ∈ R, nrm g.size (fun i => branchVec g label L r i - branchVec g label L' r i) ^ 2 ≤ (δ + δ') ^ 2 := by
  refine (Finset.sum_le_sum fun r _ => pow_le_pow_left₀ (nrm_nonneg _ _) ?_ 2).trans (sum_sq_add R h.nonneg h'.nonneg (h.close R) (h'.close R))
  refine (nrm_triangle g.size _ (treeVec T r) _).trans ?_
  rw [nrm_symm g.size (treeVec T r)]

/-- **C139** Evaluate the same nodes, which may include measurements into different classical channels, divided over calls of `evaluate_circuit` in two ways, with any thresholds and either setting of
`use_full_fock_matrix`, from the same collection (valid states that differ in label or record). Compare the amplitudes weighted with the root of the cumulative probability: over any
set of records and any set of component names the squared differences add up to at most the square of the sum over all calls of the number of nodes times the root of `L^C * threshold`, times the
cumulative probability the input collection lists for the label. -/
theorem C139_amplitudes (g : Cfg) (hg : g.Ok) (m : ℕ) (rnd rnd' : ℕ → ℕ → ℕ → Bool → ℕ → ℕ → ℕ) (cs cs' : List Circ)
    (hcs : ∀ c ∈ cs ++ cs', c.g = g ∧ c.m = m ∧ 0 ≤ c.thr ∧ ∀ n ∈ c.nodes, SteadyOrMeasured g m n) (hsame : cs.flatMap Circ.nodes = cs'.flatMap Circ.nodes) (coll out out' : Coll) (hc : Sound g m coll)
    (hk : (coll.map (fun p => (p.2.initial, recordOf p.2))).Nodup) (h : inCalls rnd cs coll = some out) (h' : inCalls rnd' cs' coll = some out') (label : List Char)
    (R : Finset (List (List ℝ))) (S : Finset Name) :
    ∑ r ∈ R, ∑ s ∈ S, ‖weightedAmp out label r s - weightedAmp out' label r s‖ ^ 2 ≤ (cutError cs + cutError cs') ^ 2 * listed label coll := by
  obtain ⟨s1, s2, -, -, T, h1, h2⟩ := both_follow (label := label) hg hcs hsame hc hk h h'
  have h3 := branch_diff h1 h2 R
  rw [← add_mul, mul_pow, Real.sq_sqrt (listed_nonneg hc label)] at h3
  refine (Finset.sum_le_sum fun r _ => ?_).trans h3
  refine (sum_names_le hg.1 (fun s => weightedAmp out label r s - weightedAmp out' label r s) (fun s hs => ?_) S).trans (le_of_eq ?_)
  · by_cases h0 : weightedAmp out label r s = 0
    · exact weightedAmp_named (label := label) (r := r) s2 (fun h1 => hs (by simp [h0, h1]))
    · exact weightedAmp_named s1 h0
  · rw [nrm_sq]
    refine Finset.sum_congr rfl fun i _ => ?_
    show ‖weightedAmp out label r (g.nm i) - weightedAmp out' label r (g.nm i)‖ ^ 2 = _
    rw [weightedAmp_vec, weightedAmp_vec]

/-- **C139** States of both results with the same label and the same record have the same classical values. -/
theorem C139_classical (g : Cfg) (hg : g.Ok) (m : ℕ) (rnd rnd' : ℕ → ℕ → ℕ → Bool → ℕ → ℕ → ℕ) (cs cs' : List Circ)
    (hcs : ∀ c ∈ cs ++ cs', c.g = g ∧ c.m = m ∧ 0 ≤ c.thr ∧ ∀ n ∈ c.nodes, SteadyOrMeasured g m n) (hsame : cs.flatMap Circ.nodes = cs'.flatMap Circ.nodes) (coll out out' : Coll) (hc : Sound g m coll)
    (hk : (coll.map (fun p => (p.2.initial, recordOf p.2))).Nodup) (h : inCalls rnd cs coll = some out) (h' : inCalls rnd' cs' coll = some out') :
    ∀ p ∈ out, ∀ p' ∈ out', p.2.initial = p'.2.initial → recordOf p.2 = recordOf p'.2 → p.2.classical = p'.2.classical := by
  intro p hp p' hp' hl hr
  obtain ⟨-, -, -, -, T, h1, h2⟩ := both_follow (label := p.2.initial) hg hcs hsame hc hk h h'
  obtain ⟨v, e1⟩ := h1.on p.2 (List.mem_map_of_mem hp) rfl
  obtain ⟨v', e2⟩ := h2.on p'.2 (List.mem_map_of_mem hp') hl.symm
  rw [hr, e2] at e1
  exact (Prod.mk.inj (Option.some.inj e1)).1.symm

open Classical in
theorem sum_onBranch (label : List Char) (f : QState → ℝ) (L : List QState) (R : Finset (List (List ℝ))) (hR : ∀ q ∈ L, recordOf q ∈ R) :
    ∑ r ∈ R, onBranch label r f L = (L.map (fun q => if q.initial = label then f q else 0)).sum := by
  induction L with
  | nil => simp [onBranch]
  | cons q L ih =>
    have e : ∀ r, onBranch label r f (q :: L) = (if q.initial = label ∧ recordOf q = r then f q else 0) + onBranch label r f L := by
      intro r
      unfold onBranch
      rw [List.map_cons, List.sum_cons]
    rw [Finset.sum_congr rfl fun r _ => e r, Finset.sum_add_distrib, ih fun q' hq' => hR q' (by simp [hq']), List.map_cons, List.sum_cons]
    congr 1
    by_cases hl : q.initial = label
    · simp only [hl, true_and, if_true]
      rw [Finset.sum_ite_eq, if_pos (hR q (by simp))]
    · simp [hl]

open Classical in
theorem eventProb_branches {g : Cfg} (hL : 1 ≤ g.L) {m : ℕ} {coll : Coll} (hc : Sound g m coll) (hk : ((statesOf coll).map bkey).Nodup) (label : List Char) (P : List (List ℝ) → Name → Prop)
    (R : Finset (List (List ℝ))) (hR : ∀ q ∈ statesOf coll, recordOf q ∈ R) :
    eventProb coll label P = ∑ r ∈ R, ∑ i ∈ Finset.range g.size, if P r (g.nm i) then ‖branchVec g label (statesOf coll) r i‖ ^ 2 else 0 := by
  have h1 : ∀ r, (∑ i ∈ Finset.range g.size, if P r (g.nm i) then ‖branchVec g label (statesOf coll) r i‖ ^ 2 else 0)
      = onBranch label r (fun q => q.cum * (q.comps.map (fun e => if P (recordOf q) e.1 then ‖e.2.amp‖ ^ 2 else 0)).sum) (statesOf coll) := by
    intro r
    by_cases hex : ∃ q ∈ statesOf coll, q.initial = label ∧ recordOf q = r
    · obtain ⟨q, hq, hl, rfl⟩ := hex
      rw [onBranch_one _ hk hq hl]
      have hm := states_mem hc hq
      have := sum_comps hL (fun (s : Name) (a : ℂ) => if P (recordOf q) s then ‖a‖ ^ 2 else 0) (by simp) hm.wf
      rw [show (q.comps.map (fun e => if P (recordOf q) e.1 then ‖e.2.amp‖ ^ 2 else 0)).sum = _ from this, Finset.mul_sum]
      refine Finset.sum_congr rfl fun i _ => ?_
      have hb : branchVec g label (statesOf coll) (recordOf q) i = (Real.sqrt q.cum : ℂ) * vec g q.comps i := onBranch_one _ hk hq hl
      rw [hb]
      split
      · rw [norm_mul, mul_pow, Complex.norm_real, Real.norm_eq_abs, sq_abs, Real.sq_sqrt hm.cum0]
      · rw [mul_zero]
    · have hno : ∀ q ∈ statesOf coll, ¬ (q.initial = label ∧ recordOf q = r) := fun q hq hh => hex ⟨q, hq, hh⟩
      rw [onBranch_none _ hno]
      refine Finset.sum_eq_zero fun i _ => ?_
      have hb : branchVec g label (statesOf coll) r i = 0 := onBranch_none _ hno
      rw [hb]
      simp
  rw [Finset.sum_congr rfl fun r _ => h1 r, sum_onBranch label _ _ R hR]
  unfold eventProb sumFrom statesOf
  rw [List.map_map]
  rfl

theorem branch_total {g : Cfg} (hL : 1 ≤ g.L) {m : ℕ} {coll : Coll} (hc : Sound g m coll) (hk : ((statesOf coll).map bkey).Nodup) (label : List Char)
    (R : Finset (List (List ℝ))) (hR : ∀ q ∈ statesOf coll, recordOf q ∈ R) : ∑ r ∈ R, nrm g.size (branchVec g label (statesOf coll) r) ^ 2 ≤ listed label coll := by
  have h := eventProb_branches hL hc hk label (fun _ _ => True) R hR
  simp only [if_true] at h
  rw [Finset.sum_congr rfl fun r _ => nrm_sq g.size _, ← h]
  unfold eventProb listed sumFrom
  refine List.sum_le_sum fun p hp => ?_
  split
  · have hm := hc.states p hp
    have : (p.2.comps.map (fun e => if True then ‖e.2.amp‖ ^ 2 else 0)).sum ≤ 1 := by simpa [totalProb] using hm.total
    have := mul_le_mul_of_nonneg_left this hm.cum0
    rw [mul_one] at this
    simpa using this
  · exact le_rfl

/-- **C139** The probability of every event — any relation between the recorded values and the component found afterwards — differs by at most twice the sum over all calls of the number of nodes times the root of
`L^C * threshold`, times the cumulative probability the input collection lists for the label. -/
theorem C139_events (g : Cfg) (hg : g.Ok) (m : ℕ) (rnd rnd' : ℕ → ℕ → ℕ → Bool → ℕ → ℕ → ℕ) (cs cs' : List Circ)
    (hcs : ∀ c ∈ cs ++ cs', c.g = g ∧ c.m = m ∧ 0 ≤ c.thr ∧ ∀ n ∈ c.nodes, SteadyOrMeasured g m n) (hsame : cs.flatMap Circ.nodes = cs'.flatMap Circ.nodes) (coll out out' : Coll) (hc : Sound g m coll)
    (hk : (coll.map (fun p => (p.2.initial, recordOf p.2))).Nodup) (h : inCalls rnd cs coll = some out) (h' : inCalls rnd' cs' coll = some out') (label : List Char)
    (event : List (List ℝ) → Name → Prop) :
    |eventProb out label event - eventProb out' label event| ≤ 2 * (cutError cs + cutError cs') * listed label coll := by
  classical
  obtain ⟨s1, s2, l1, l2, T, h1, h2⟩ := both_follow (label := label) hg hcs hsame hc hk h h'
  set w := listed label coll
  have hw : 0 ≤ w := listed_nonneg hc label
  have hE : 0 ≤ cutError cs + cutError cs' := add_nonneg (cutError_nonneg _) (cutError_nonneg _)
  let R : Finset (List (List ℝ)) := ((statesOf out).map recordOf ++ (statesOf out').map recordOf).toFinset
  have hR : ∀ q ∈ statesOf out, recordOf q ∈ R := fun q hq => by
    rw [List.mem_toFinset, List.mem_append]; exact .inl (List.mem_map_of_mem hq)
  have hR' : ∀ q ∈ statesOf out', recordOf q ∈ R := fun q hq => by
    rw [List.mem_toFinset, List.mem_append]; exact .inr (List.mem_map_of_mem hq)
  rw [eventProb_branches hg.1 s1 h1.keys label event R hR, eventProb_branches hg.1 s2 h2.keys label event R hR']
  set x := branchVec g label (statesOf out)
  set y := branchVec g label (statesOf out')
  have t1 : ∑ r ∈ R, nrm g.size (x r) ^ 2 ≤ Real.sqrt w ^ 2 := by rw [Real.sq_sqrt hw]; exact (branch_total hg.1 s1 h1.keys label R hR).trans l1
  have t2 : ∑ r ∈ R, nrm g.size (y r) ^ 2 ≤ Real.sqrt w ^ 2 := by rw [Real.sq_sqrt hw]; exact (branch_total hg.1 s2 h2.keys label R hR').trans l2
  have t3 : ∑ r ∈ R, nrm g.size (fun i => x r i - y r i) ^ 2 ≤ ((cutError cs + cutError cs') * Real.sqrt w) ^ 2 := by
    rw [add_mul]; exact branch_diff h1 h2 R
  -- all pairs of a record and an index
  let I := R ×ˢ Finset.range g.size
  have pairs : ∀ f : List (List ℝ) → ℕ → ℝ, ∑ r ∈ R, ∑ i ∈ Finset.range g.size, f r i = ∑ z ∈ I, f z.1 z.2 := fun f => by rw [Finset.sum_product]
  simp only [nrm_sq] at t1 t2 t3
  rw [pairs] at t1 t2 t3
  rw [pairs, pairs, ← Finset.sum_sub_distrib]
  have hs := sum_sq_add I (Real.sqrt_nonneg w) (Real.sqrt_nonneg w) t1 t2
  have hcs := Finset.sum_mul_sq_le_sq_mul_sq I (fun z => ‖x z.1 z.2 - y z.1 z.2‖) (fun z => ‖x z.1 z.2‖ + ‖y z.1 z.2‖)
  have hD : (∑ z ∈ I, ‖x z.1 z.2 - y z.1 z.2‖ * (‖x z.1 z.2‖ + ‖y z.1 z.2‖)) ^ 2 ≤ (2 * (cutError cs + cutError cs') * w) ^ 2 := by
    refine hcs.trans ((mul_le_mul t3 hs (Finset.sum_nonneg fun _ _ => by positivity) (by positivity)).trans (le_of_eq ?_))
    rw [← mul_pow, show (cutError cs + cutError cs') * Real.sqrt w * (Real.sqrt w + Real.sqrt w) = 2 * (cutError cs + cutError cs') * (Real.sqrt w * Real.sqrt w) by ring, Real.mul_self_sqrt hw]
  have hD' := abs_le_of_sq_le_sq hD (by positivity)
  refine (Finset.abs_sum_le_sum_abs _ _).trans (le_trans (Finset.sum_le_sum fun z _ => ?_) ((le_abs_self _).trans hD'))
  split
  · have e : ‖x z.1 z.2‖ ^ 2 - ‖y z.1 z.2‖ ^ 2 = (‖x z.1 z.2‖ - ‖y z.1 z.2‖) * (‖x z.1 z.2‖ + ‖y z.1 z.2‖) := by ring
    rw [e, abs_mul, abs_of_nonneg (add_nonneg (norm_nonneg (x z.1 z.2)) (norm_nonneg (y z.1 z.2)))]
    exact mul_le_mul_of_nonneg_right (abs_norm_sub_norm_le _ _) (by positivity)
  · simp only [sub_self, abs_zero]
    positivity

/-- **C139** The statistics converge: there are weighted amplitudes that depend only on the nodes and on the collection, from which those of every evaluation, in any number of calls and with any thresholds, differ by
at most the sum over the calls of the number of nodes times the root of `L^C * threshold`, times the root of the listed cumulative probability. -/
theorem C139_limit (g : Cfg) (hg : g.Ok) (m : ℕ) (nodes : List Node) (hn : ∀ n ∈ nodes, SteadyOrMeasured g m n) (coll : Coll) (hc : Sound g m coll)
    (hk : (coll.map (fun p => (p.2.initial, recordOf p.2))).Nodup) (label : List Char) :
    ∃ A : List (List ℝ) → Name → ℂ, ∀ (rnd : ℕ → ℕ → ℕ → Bool → ℕ → ℕ → ℕ) (cs : List Circ) (out : Coll), (∀ c ∈ cs, c.g = g ∧ c.m = m ∧ 0 ≤ c.thr) → cs.flatMap Circ.nodes = nodes →
      inCalls rnd cs coll = some out → ∀ (R : Finset (List (List ℝ))) (S : Finset Name), ∑ r ∈ R, ∑ s ∈ S, ‖weightedAmp out label r s - A r s‖ ^ 2 ≤ cutError cs ^ 2 * listed label coll := by
  classical
  refine ⟨fun r s => if h : ∃ i < g.size, g.nm i = s then treeVec (treeRun g m nodes (startTree g label coll)) r h.choose else 0, ?_⟩
  rintro rnd cs out hcs rfl h R S
  obtain ⟨s1, -, h1⟩ := calls_follow hg cs 0 coll out _ (fun c hc' => ⟨(hcs c hc').1, (hcs c hc').2.1, (hcs c hc').2.2, fun n hn' => hn n (List.mem_flatMap.2 ⟨c, hc', hn'⟩)⟩) hc le_rfl (start_follows g label hk) h
  rw [zero_add] at h1
  have h3 := h1.close R
  rw [mul_pow, Real.sq_sqrt (listed_nonneg hc label)] at h3
  refine (Finset.sum_le_sum fun r _ => ?_).trans h3
  refine (sum_names_le hg.1 (fun s => weightedAmp out label r s - (if h : ∃ i < g.size, g.nm i = s then treeVec (treeRun g m (cs.flatMap Circ.nodes) (startTree g label coll)) r h.choose else 0)) (fun s hs => ?_) S).trans (le_of_eq ?_)
  · by_contra hno
    simp only [dif_neg hno, sub_zero] at hs
    exact hno (weightedAmp_named (label := label) (r := r) s1 hs)
  · rw [nrm_sq]
    refine Finset.sum_congr rfl fun i hi => ?_
    have hi := Finset.mem_range.1 hi
    have hex : ∃ i' < g.size, g.nm i' = g.nm i := ⟨i, hi, rfl⟩
    simp only [dif_pos hex]
    rw [weightedAmp_vec, show hex.choose = i from nm_inj hg.1 hex.choose_spec.1 hi hex.choose_spec.2]

/-! ### a concrete circuit -/

theorem fiveNodes_steady : ∀ n ∈ fiveNodes.nodes, SteadyOrMeasured ⟨2, 2, true⟩ 1 n := by
  intro n hn
  obtain ⟨i, hi⟩ := List.getElem?_of_mem hn
  have hlt : i < 5 := (List.getElem?_eq_some_iff.1 hi).1
  have h1 := (fiveNodes_ok i (by simp; omega) n hi).1
  have h2 : n = .measurement [1] [0] ∨ ∀ opt cls, n ≠ .measurement opt cls := by
    simp only [fiveNodes, List.mem_cons, List.not_mem_nil, or_false] at hn
    rcases hn with rfl | rfl | rfl | rfl | rfl
    all_goals simp
  rcases h2 with rfl | h2
  · exact ⟨rfl, by simp, by simp⟩
  · cases n with
    | measurement opt cls => exact absurd rfl (h2 opt cls)
    | generic f =>
      simp only [fiveNodes, List.mem_cons, List.not_mem_nil, or_false] at hn
      rcases hn with h | h | h | h | h <;> cases h
    | _ => exact h1

/-- non-vacuity: five nodes, the last one a measurement, evaluated in one call with threshold 0.0001 and with threshold 0.000001 -/
example (rnd rnd' : ℕ → ℕ → ℕ → Bool → ℕ → ℕ → ℕ) : Cfg.Ok ⟨2, 2, true⟩ ∧
    (∀ c ∈ [fiveNodes] ++ [{ fiveNodes with thr := 0.000001 }], c.g = ⟨2, 2, true⟩ ∧ c.m = 1 ∧ 0 ≤ c.thr ∧ ∀ n ∈ c.nodes, SteadyOrMeasured ⟨2, 2, true⟩ 1 n) ∧
    [fiveNodes].flatMap Circ.nodes = [{ fiveNodes with thr := 0.000001 }].flatMap Circ.nodes ∧ Sound ⟨2, 2, true⟩ 1 oneState ∧ (oneState.map (fun p => (p.2.initial, recordOf p.2))).Nodup ∧
    listed ['0', '0'] oneState = 1 ∧ (∃ opt cls, Node.measurement opt cls ∈ fiveNodes.nodes) ∧
    ∃ out out', inCalls rnd [fiveNodes] oneState = some out ∧ inCalls rnd' [{ fiveNodes with thr := 0.000001 }] oneState = some out' := by
  have hz : NoZeros oneState := by
    intro p hp e he
    obtain rfl : p = (['a'], ⟨['0', '0'], 1, [(['0', '0'], ⟨1, 1⟩)], [0], []⟩) := by simpa [oneState] using hp
    obtain rfl : e = (['0', '0'], ⟨1, 1⟩) := by simpa using he
    simp
  have hs : Sound ⟨2, 2, true⟩ 1 oneState := ⟨oneState_normalised.ids, fun p hp => (oneState_normalised.states p hp).1⟩
  obtain ⟨out, h⟩ := C81_evaluates_partial (env := fun _ => fiveNodes) (rnd := rnd 0) 0 (by decide) (by norm_num [fiveNodes]) [0, 1, 2, 3, 4]
    (by simp [fiveNodes]) fiveNodes_ok oneState oneState_normalised hz (by norm_num [fiveNodes]) 6 (by simp)
  obtain ⟨out', h'⟩ := C81_evaluates_partial (env := fun _ => { fiveNodes with thr := 0.000001 }) (rnd := rnd' 0) 0 (by decide) (by norm_num) [0, 1, 2, 3, 4]
    (by simp [fiveNodes]) fiveNodes_ok oneState oneState_normalised hz (by norm_num [fiveNodes]) 6 (by simp)
  refine ⟨by decide, ?_, rfl, hs, by simp [oneState], by simp [listed, sumFrom, oneState], ⟨[1], [0], by simp [fiveNodes]⟩, out, out', ?_, ?_⟩
  · intro c hc
    rw [List.cons_append, List.nil_append, List.mem_cons, List.mem_singleton] at hc
    rcases hc with rfl | rfl
    · exact ⟨rfl, rfl, by norm_num [fiveNodes], fiveNodes_steady⟩
    · exact ⟨rfl, rfl, by norm_num, fiveNodes_steady⟩
  · show (evalNodes (fun _ => fiveNodes) (rnd 0) 6 0 [0, 1, 2, 3, 4] oneState).bind _ = _
    rw [h]; rfl
  · show (evalNodes (fun _ => { fiveNodes with thr := 0.000001 }) (rnd' 0) 6 0 [0, 1, 2, 3, 4] oneState).bind _ = _
    rw [h']; rfl

end Verif.Props
