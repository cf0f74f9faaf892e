/-
Property C141: coupling channels to an empty environment.
-/
import Verif.Lemmas.Environment
import Verif.Lemmas.PerturbTree
import Verif.Props.MatrixApi

namespace Verif.Props
open Verif Spec

variable {env : ℕ → Circ} {rnd : ℕ → ℕ → Bool → ℕ → ℕ → ℕ}

theorem environment_pairs {g : Cfg} {controls targets : List ℕ} (he : Environment g controls targets) :
    PairsOk g (controls.zip targets) ∧ (controls.zip targets).map Prod.snd = targets ∧ (controls.zip targets).map Prod.fst = controls := by
  have e1 : (controls.zip targets).map Prod.snd = targets := List.map_snd_zip he.pairs.ge
  have e2 : (controls.zip targets).map Prod.fst = controls := List.map_fst_zip he.pairs.le
  refine ⟨⟨fun q hq => ?_, fun q hq r hr e => ?_, by rw [e1]; exact he.once⟩, e1, e2⟩
  · exact ⟨he.first _ (e2 ▸ List.mem_map_of_mem hq), he.second _ (e1 ▸ List.mem_map_of_mem hq)⟩
  · exact he.apart _ (e2 ▸ List.mem_map_of_mem hq) (e ▸ e1 ▸ List.mem_map_of_mem hr)

/-- the node exists: there is a coupling matrix -/
theorem environment_matrix {g : Cfg} {controls targets : List ℕ} (he : Environment g controls targets) (σ : ℝ) :
    ∃ M, couplingMatrix g (standardKeys g) σ controls targets = some M := by
  unfold couplingMatrix
  rw [if_pos]
  · exact ⟨_, rfl⟩
  · rw [List.all_eq_true]
    intro q hq
    simpa using (environment_pairs he).1.below q hq

theorem emptyIn_noneIn {g : Cfg} {targets : List ℕ} {c : Comps} (h : EmptyIn g targets c) {t : ℕ} (ht : t ∈ targets) : NoneIn g t (vec g c) := by
  intro w hw hne
  unfold vec at hne
  have e : IsName g w (g.nm (g.indexOf w)) := (isName_iff hw).2 (by unfold Cfg.nm; rw [g.valuesFromIndex_indexOf hw])
  exact h w _ hw e hne t ht

/-- one state -/
theorem coupled_state {c : Circ} (hg : c.g.Ok) {σ : ℝ} {controls targets : List ℕ} {M : SqArr}
    (hM : couplingMatrix c.g (standardKeys c.g) σ controls targets = some M) {q q' : QState} (hw : WellFormed c.g q.comps) (h : customOne c M q = some q') :
    ∃ (comps : Comps) (y : ℕ → ℂ), q' = { q with comps := comps } ∧ fromVector c.g c.thr y = some comps ∧
      ∀ i < c.g.size, y i = coupled c.g σ (controls.zip targets) (vec c.g q.comps) i := by
  unfold customOne copyState at h
  split at h
  swap
  · cases h
  rw [Option.bind_some] at h
  by_cases hs : M.size ≠ c.g.size
  · rw [if_pos hs] at h; cases h
  rw [if_neg hs] at h
  have hs : M.size = c.g.size := not_not.1 hs
  obtain ⟨comps, h1, rfl⟩ := Option.map_eq_some_iff.1 h
  unfold applyCustom at h1
  simp only [Option.bind_eq_bind] at h1
  obtain ⟨x, hx, hc⟩ := Option.bind_eq_some_iff.1 h1
  obtain ⟨x', hx', hxi⟩ := toVector_spec hg.1 hw
  obtain rfl := Option.some.inj (hx.symm.trans hx')
  refine ⟨comps, M.mulVec x, rfl, hc, fun i hi => ?_⟩
  rw [mulVec_ext (fun k hk => hxi k (hs ▸ hk)) i]
  exact (couplingMatrix_mulVec hM _ hi).2

theorem eval_one_custom {k i : ℕ} {M : SqArr} (hn : (env k).nodes[i]? = some (.fockMatrix M)) {fuel : ℕ} {coll out : Coll}
    (h : evalNodes env rnd fuel k [i] coll = some out) : customColl (env k) M (rnd k i true) coll = some out := by
  cases fuel with
  | zero => cases h
  | succ fuel =>
    have hi : i < (env k).nodes.length := (List.getElem?_eq_some_iff.1 hn).1
    rw [evalNodes_node (by simpa using hi) (by intro n e; rw [hn] at e; cases e) (by simp [isOpt, hn]; rfl)] at h
    unfold nodeEff at h
    rw [hn] at h
    obtain ⟨mid, h1, h2⟩ := Option.bind_eq_some_iff.1 h
    have h1' : customColl (env k) M (rnd k i true) coll = some mid := h1
    have e : remaining [i] [i] = [] := by simp [remaining]
    rw [e] at h2
    cases fuel with
    | zero => cases h2
    | succ fuel => rw [evalNodes_nil] at h2; rw [h1', h2]

/-- **C141** The evaluation of a `channel_coupling` node raises no exception. -/
theorem C141_evaluates (k i : ℕ) (hg : (env k).g.Ok) (ht : 0 ≤ (env k).thr) (σ : ℝ) (controls targets : List ℕ) (M : SqArr)
    (hM : couplingMatrix (env k).g (standardKeys (env k).g) σ controls targets = some M) (hn : (env k).nodes[i]? = some (.fockMatrix M))
    (coll : Coll) (hc : Sound (env k).g (env k).m coll) (fuel : ℕ) (hf : 1 < fuel) : ∃ out, evalNodes env rnd fuel k [i] coll = some out := by
  obtain ⟨fuel, rfl⟩ : ∃ n, fuel = n + 2 := ⟨fuel - 2, by omega⟩
  have hs : M.size = (env k).g.size := (couplingMatrix_mulVec hM (fun _ => 0) (i := 0) (by unfold Cfg.size; exact Nat.pos_of_ne_zero (pow_ne_zero _ (by have := hg.1; omega)))).1
  obtain ⟨out, h1, -⟩ := custom_states hg ht hs (rnd k i true) hc.states
  have hi : i < (env k).nodes.length := (List.getElem?_eq_some_iff.1 hn).1
  refine ⟨out, ?_⟩
  rw [evalNodes_node (by simpa using hi) (by intro n e; rw [hn] at e; cases e) (by simp [isOpt, hn]; rfl)]
  unfold nodeEff
  rw [hn]
  have e : remaining [i] [i] = [] := by simp [remaining]
  show (customColl (env k) M (rnd k i true) coll).bind _ = _
  rw [h1, Option.bind_some, e, evalNodes_nil]

/-- **C141** All amplitudes after the coupling: the amplitude of a basis state is the amplitude that its photon numbers had with an empty environment,
multiplied for every environment channel with the amplitude `spread` to find its photon number there (amplitudes below the threshold are
removed); label, probability, classical values and history of the states are kept. -/
theorem C141_amplitudes (k i : ℕ) (hg : (env k).g.Ok) (σ : ℝ) (controls targets : List ℕ) (he : Environment (env k).g controls targets) (M : SqArr)
    (hM : couplingMatrix (env k).g (standardKeys (env k).g) σ controls targets = some M) (hn : (env k).nodes[i]? = some (.fockMatrix M))
    (coll out : Coll) (hc : Sound (env k).g (env k).m coll) (hempty : ∀ p ∈ coll, EmptyIn (env k).g targets p.2.comps) (fuel : ℕ)
    (h : evalNodes env rnd fuel k [i] coll = some out) :
    List.Forall₂ (fun q q' : QState => q'.initial = q.initial ∧ q'.cum = q.cum ∧ q'.classical = q.classical ∧ q'.results = q.results ∧
      ∀ (v w : Vals) (s s' : Name), Valid (env k).g v → Valid (env k).g w → Emptied (env k).g targets v w → IsName (env k).g v s → IsName (env k).g w s' →
        ∀ z : ℂ, z = (((controls.zip targets).map (fun at_ => spread σ (v.getD at_.1 0) (v.getD at_.2 0))).prod : ℝ) * ampOf q.comps s' →
          ampOf q'.comps s = if ‖z‖ ^ 2 < (env k).thr then 0 else z) (statesOf coll) (statesOf out) := by
  have hf := one_by_one (actsPerState_custom (env k) M (rnd k i true)) hc.ids (eval_one_custom hn h)
  refine forall₂_mem_follow hf fun q hq q' _ hqq => ?_
  obtain ⟨p, hp, rfl⟩ := List.mem_map.1 hq
  obtain ⟨comps, y, rfl, h1, h2⟩ := coupled_state hg hM (hc.states p hp).wf hqq
  refine ⟨rfl, rfl, rfl, rfl, fun v w s s' hv hw hvw hs hs' z hz => ?_⟩
  obtain ⟨hp1, hp2, -⟩ := environment_pairs he
  have hi := (env k).g.indexOf_lt hv
  have e1 := vec_fromVector hg.1 h1 hi
  have e2 := h2 _ hi
  rw [coupled_amp hg σ hp1 (fun q hq => emptyIn_noneIn (hempty p hp) (hp2 ▸ List.mem_map_of_mem hq)) v w hv hw (by rw [hp2]; exact hvw)] at e2
  have nm : ∀ {v : Vals} {s : Name}, Valid (env k).g v → IsName (env k).g v s → (env k).g.nm ((env k).g.indexOf v) = s := by
    intro v s hv hs
    rw [(isName_iff hv).1 hs]
    unfold Cfg.nm
    rw [(env k).g.valuesFromIndex_indexOf hv]
  unfold vec at e1 e2
  rw [nm hv hs] at e1
  rw [nm hw hs'] at e2
  rw [e1, e2, ← hz]

/-- one state, when the environment is empty -/
structure CoherentState (g : Cfg) (m : ℕ) (loss : ℝ) (keep : List ℕ) (u v : Vals) (z : ℂ) (q q' : QState) : Prop where
  keeps : KeepsState g m loss q q'
  same : totalProb q'.comps = totalProb q.comps →
    reducedVec g keep (vec g q'.comps) (select keep u) (select keep v) = z * reducedVec g keep (vec g q.comps) (select keep u) (select keep v)

theorem coupled_keeps {c : Circ} (hg : c.g.Ok) (ht : 0 ≤ c.thr) {σ : ℝ} (h0 : 0 ≤ σ) (h1 : σ ≤ 1) {controls targets : List ℕ} (he : Environment c.g controls targets)
    {M : SqArr} (hM : couplingMatrix c.g (standardKeys c.g) σ controls targets = some M) {q q' : QState} (hq : Measurable c.g c.m q)
    (hempty : EmptyIn c.g targets q.comps) (h : customOne c M q = some q') : KeepsState c.g c.m (c.g.size * c.thr) q q' ∧
      (totalProb q'.comps = totalProb q.comps → ∀ i < c.g.size, vec c.g q'.comps i = coupled c.g σ (controls.zip targets) (vec c.g q.comps) i) := by
  obtain ⟨hp1, hp2, -⟩ := environment_pairs he
  have hx : ∀ r ∈ controls.zip targets, NoneIn c.g r.2 (vec c.g q.comps) := fun r hr => emptyIn_noneIn hempty (hp2 ▸ List.mem_map_of_mem hr)
  obtain ⟨comps, y, rfl, h2, h3⟩ := coupled_state hg hM hq.wf h
  have hs : ∑ i ∈ Finset.range c.g.size, ‖y i‖ ^ 2 = totalProb q.comps := by
    rw [totalProb_eq hg.1 hq.wf, ← coupled_norm hg h0 h1 hp1 hx]
    exact Finset.sum_congr rfl fun i hi => by rw [h3 i (Finset.mem_range.1 hi)]
  obtain ⟨hw, hp, hle, hge⟩ := fromVector_total hg.1 ht h2
  rw [hs] at hle hge
  refine ⟨⟨rfl, rfl, ⟨hw, hp, hle.trans hq.total, hq.cum0, hq.cum1, hq.classical⟩, hle, hge⟩, fun e i hi => ?_⟩
  have hz := pruned_zero hg h2 (e.trans hs.symm) i hi
  show vec c.g comps i = _
  rw [vec_fromVector hg.1 h2 hi, ← h3 i hi]
  split
  · rename_i hlt; exact (hz hlt).symm
  · rfl

theorem coherent_of_forall₂ {g : Cfg} {m : ℕ} {loss : ℝ} {keep : List ℕ} {u v : Vals} {z : ℂ} {coll out : Coll} (hc : ∀ p ∈ coll, Measurable g m p.2)
    (h : List.Forall₂ (fun p p' => CoherentState g m loss keep u v z p.2 p'.2) coll out) (label : List Char) :
    carried label out ≤ carried label coll ∧ (carried label out = carried label coll →
      reducedColl g keep label out (select keep u) (select keep v) = z * reducedColl g keep label coll (select keep u) (select keep v)) := by
  unfold carried sumFrom reducedColl
  induction h with
  | nil => exact ⟨le_rfl, fun _ => by simp⟩
  | @cons p p' coll out h1 h2 ih =>
    obtain ⟨ih1, ih2⟩ := ih (fun q hq => hc q (by simp [hq]))
    have hp := hc p (by simp)
    have h0 := hp.cum0
    simp only [List.map_cons, List.sum_cons, h1.keeps.initial, h1.keeps.cum]
    by_cases hl : p.2.initial = label
    · simp only [hl, if_true]
      have hle : p.2.cum * totalProb p'.2.comps ≤ p.2.cum * totalProb p.2.comps := mul_le_mul_of_nonneg_left h1.keeps.le h0
      refine ⟨add_le_add hle ih1, fun he => ?_⟩
      rw [ih2 (by linarith)]
      have e : p.2.cum * totalProb p'.2.comps = p.2.cum * totalProb p.2.comps := by linarith
      rcases mul_eq_mul_left_iff.1 e with e | e
      · rw [h1.same e]; ring
      · rw [e]; simp
    · simp only [hl, if_false, zero_add]
      exact ⟨ih1, ih2⟩

/-- **C141** The coupling conserves probability, for every strength between 0 and 1, if the environment is empty (for other environments see
`C56_fails`): what is lost is at most `L^C * threshold`, relative to the summed cumulative probability. -/
theorem C141_conserved (k i : ℕ) (hg : (env k).g.Ok) (ht : 0 ≤ (env k).thr) (σ : ℝ) (h0 : 0 ≤ σ) (h1 : σ ≤ 1) (controls targets : List ℕ)
    (he : Environment (env k).g controls targets) (M : SqArr)
    (hM : couplingMatrix (env k).g (standardKeys (env k).g) σ controls targets = some M) (hn : (env k).nodes[i]? = some (.fockMatrix M))
    (coll out : Coll) (hc : Sound (env k).g (env k).m coll) (hempty : ∀ p ∈ coll, EmptyIn (env k).g targets p.2.comps) (fuel : ℕ)
    (h : evalNodes env rnd fuel k [i] coll = some out) :
    Sound (env k).g (env k).m out ∧ ∀ label, carried label out ≤ carried label coll ∧
      carried label coll - (((env k).g.L ^ (env k).g.C : ℕ) : ℝ) * (env k).thr * listed label coll ≤ carried label out := by
  have h' := eval_one_custom hn h
  have hA := actsPerState_custom (env k) M (rnd k i true)
  have hf : List.Forall₂ (fun q q' => KeepsState (env k).g (env k).m ((env k).g.size * (env k).thr) q q') (statesOf coll) (statesOf out) := by
    refine forall₂_mem_follow (one_by_one hA hc.ids h') fun q hq q' _ hqq => ?_
    obtain ⟨p, hp, rfl⟩ := List.mem_map.1 hq
    exact (coupled_keeps hg ht h0 h1 he hM (hc.states p hp) (hempty p hp) hqq).1
  unfold statesOf at hf
  rw [List.forall₂_map_left_iff, List.forall₂_map_right_iff] at hf
  have hr := conserves_of_forall₂ hc (hA.identifiers coll out hc.ids h') hf
  refine ⟨hr.sound, fun label => ⟨hr.le label, ?_⟩⟩
  have := hr.ge label
  unfold Cfg.size at this
  exact this

/-- **C141** Decoherence: the entry of the reduced density matrix of the system (all channels but the environment) between the photon numbers `u` and
`v` is multiplied by `remainingCoherence`, if the threshold removed nothing. -/
theorem C141_coherence (k i : ℕ) (hg : (env k).g.Ok) (ht : 0 ≤ (env k).thr) (σ : ℝ) (h0 : 0 ≤ σ) (h1 : σ ≤ 1) (controls targets keep : List ℕ)
    (he : Environment (env k).g controls targets) (hk : System (env k).g targets keep) (M : SqArr)
    (hM : couplingMatrix (env k).g (standardKeys (env k).g) σ controls targets = some M) (hn : (env k).nodes[i]? = some (.fockMatrix M))
    (coll out : Coll) (hc : Sound (env k).g (env k).m coll) (hempty : ∀ p ∈ coll, EmptyIn (env k).g targets p.2.comps) (fuel : ℕ)
    (h : evalNodes env rnd fuel k [i] coll = some out) (label : List Char) (hloss : carried label out = carried label coll) :
    ∃ dm dm', densityMatrix (env k).g coll label = some dm ∧ densityMatrix (env k).g out label = some dm' ∧
      ∀ u v, Valid (env k).g u → Valid (env k).g v →
        reducedEntry (env k).g keep dm' (select keep u) (select keep v) = (remainingCoherence σ controls u v : ℂ) * reducedEntry (env k).g keep dm (select keep u) (select keep v) := by
  obtain ⟨hp1, hp2, hp3⟩ := environment_pairs he
  have h' := eval_one_custom hn h
  have hs := (C141_conserved k i hg ht σ h0 h1 controls targets he M hM hn coll out hc hempty fuel h).1
  obtain ⟨dm, d1, -⟩ := densityMatrix_eq hg.1 (fun p hp => (hc.states p hp).wf) label
  obtain ⟨dm', d2, -⟩ := densityMatrix_eq hg.1 (fun p hp => (hs.states p hp).wf) label
  refine ⟨dm, dm', d1, d2, fun u v hu hv => ?_⟩
  rw [reducedEntry_dm hg.1 (fun p hp => (hc.states p hp).wf) d1, reducedEntry_dm hg.1 (fun p hp => (hs.states p hp).wf) d2]
  refine (coherent_of_forall₂ (m := (env k).m) (loss := (env k).g.size * (env k).thr) hc.states ?_ label).2 hloss
  have hf : List.Forall₂ (fun q q' => CoherentState (env k).g (env k).m ((env k).g.size * (env k).thr) keep u v (remainingCoherence σ controls u v : ℂ) q q') (statesOf coll) (statesOf out) := by
    refine forall₂_mem_follow (one_by_one (actsPerState_custom (env k) M (rnd k i true)) hc.ids h') fun q hq q' _ hqq => ?_
    obtain ⟨p, hp, rfl⟩ := List.mem_map.1 hq
    obtain ⟨k1, k2⟩ := coupled_keeps hg ht h0 h1 he hM (hc.states p hp) (hempty p hp) hqq
    refine ⟨k1, fun e => ?_⟩
    rw [reducedVec_congr (k2 e), coupled_reduced hg h0 h1 hk.1 hu hv hp1 ?_ (fun r hr => emptyIn_noneIn (hempty p hp) (hp2 ▸ List.mem_map_of_mem hr))]
    · unfold remainingCoherence
      conv_rhs => rw [← hp3]
      rw [List.map_map]
      rfl
    · intro r hr
      have m1 : r.1 ∈ controls := hp3 ▸ List.mem_map_of_mem hr
      have m2 : r.2 ∈ targets := hp2 ▸ List.mem_map_of_mem hr
      exact ⟨(hk.2 _ (he.first _ m1)).2 (he.apart _ m1), fun hm => (hk.2 _ (he.second _ m2)).1 hm m2⟩
  unfold statesOf at hf
  rwa [List.forall₂_map_left_iff, List.forall₂_map_right_iff] at hf

/-- no coherence is lost between equal photon numbers -/
theorem remaining_same (σ : ℝ) (controls : List ℕ) (u v : Vals) (h : ∀ a ∈ controls, u.getD a 0 = v.getD a 0) : remainingCoherence σ controls u v = 1 := by
  unfold remainingCoherence
  apply List.prod_eq_one
  intro x hx
  obtain ⟨a, ha, rfl⟩ := List.mem_map.1 hx
  unfold coherence
  rw [if_pos (h a ha)]

theorem remaining_lost (controls : List ℕ) (u v : Vals) (h : ∃ a ∈ controls, u.getD a 0 ≠ v.getD a 0) : remainingCoherence 1 controls u v = 0 := by
  obtain ⟨a, ha, hne⟩ := h
  unfold remainingCoherence
  refine List.prod_eq_zero (List.mem_map.2 ⟨a, ha, ?_⟩)
  unfold coherence
  rw [if_neg hne]
  split <;> simp

theorem remaining_zero (controls : List ℕ) (u v : Vals) : remainingCoherence 0 controls u v = 1 := by
  unfold remainingCoherence
  apply List.prod_eq_one
  intro x hx
  obtain ⟨a, ha, rfl⟩ := List.mem_map.1 hx
  unfold coherence
  split
  · rfl
  · split <;> simp

theorem remaining_two {σ : ℝ} (h1 : σ ≤ 1) {controls : List ℕ} (hd : controls.Nodup) {a b : ℕ} (ha : a ∈ controls) (hb : b ∈ controls) (hab : a ≠ b) {u v : Vals}
    (hua : u.getD a 0 ≠ v.getD a 0) (hub : u.getD b 0 ≠ v.getD b 0) (hza : u.getD a 0 = 0 ∨ v.getD a 0 = 0) (hzb : u.getD b 0 = 0 ∨ v.getD b 0 = 0)
    (hrest : ∀ c ∈ controls, c ≠ a → c ≠ b → u.getD c 0 = v.getD c 0) : remainingCoherence σ controls u v = 1 - σ := by
  have hb' : b ∈ controls.erase a := (List.Nodup.mem_erase_iff hd).2 ⟨hab.symm, hb⟩
  have hp : controls.Perm (a :: b :: (controls.erase a).erase b) := (List.perm_cons_erase ha).trans ((List.perm_cons_erase hb').cons a)
  unfold remainingCoherence
  rw [(hp.map _).prod_eq, List.map_cons, List.map_cons, List.prod_cons, List.prod_cons]
  have e := remaining_same σ ((controls.erase a).erase b) u v (fun c hc => by
    have m1 := (List.Nodup.mem_erase_iff (hd.erase a)).1 hc
    have m2 := (List.Nodup.mem_erase_iff hd).1 m1.2
    exact hrest c m2.2 m2.1 m1.1)
  unfold remainingCoherence at e
  rw [e]
  unfold coherence
  rw [if_neg hua, if_pos hza, if_neg hub, if_pos hzb, mul_one, Real.mul_self_sqrt (by linarith)]

/-- **C141** The photon numbers of the system are not disturbed: the probabilities to find them (the diagonal of its reduced density matrix) stay
the same, and so do all entries if the strength is 0; with strength 1 the entries between photon numbers that differ in a control channel vanish:
the environment has measured them. -/
theorem C141_extremes (k i : ℕ) (hg : (env k).g.Ok) (ht : 0 ≤ (env k).thr) (σ : ℝ) (h0 : 0 ≤ σ) (h1 : σ ≤ 1) (controls targets keep : List ℕ)
    (he : Environment (env k).g controls targets) (hk : System (env k).g targets keep) (M : SqArr)
    (hM : couplingMatrix (env k).g (standardKeys (env k).g) σ controls targets = some M) (hn : (env k).nodes[i]? = some (.fockMatrix M))
    (coll out : Coll) (hc : Sound (env k).g (env k).m coll) (hempty : ∀ p ∈ coll, EmptyIn (env k).g targets p.2.comps) (fuel : ℕ)
    (h : evalNodes env rnd fuel k [i] coll = some out) (label : List Char) (hloss : carried label out = carried label coll) :
    ∃ dm dm', densityMatrix (env k).g coll label = some dm ∧ densityMatrix (env k).g out label = some dm' ∧
      ∀ u v, Valid (env k).g u → Valid (env k).g v →
        ((∀ a ∈ controls, u.getD a 0 = v.getD a 0) ∨ σ = 0 →
          reducedEntry (env k).g keep dm' (select keep u) (select keep v) = reducedEntry (env k).g keep dm (select keep u) (select keep v)) ∧
        ((∃ a ∈ controls, u.getD a 0 ≠ v.getD a 0) → σ = 1 → reducedEntry (env k).g keep dm' (select keep u) (select keep v) = 0) := by
  obtain ⟨dm, dm', d1, d2, d3⟩ := C141_coherence (rnd := rnd) k i hg ht σ h0 h1 controls targets keep he hk M hM hn coll out hc hempty fuel h label hloss
  refine ⟨dm, dm', d1, d2, fun u v hu hv => ⟨fun hs => ?_, fun hd e => ?_⟩⟩
  · rw [d3 u v hu hv]
    rcases hs with hs | rfl
    · rw [remaining_same σ controls u v hs]; simp
    · rw [remaining_zero]; simp
  · subst e
    rw [d3 u v hu hv, remaining_lost controls u v hd]; simp

/-- **C141** Interference of one path with another: between photon numbers that differ in two control channels (in each of them one of the two numbers
is 0, as for a photon that is in the one or in the other channel) the entry of the reduced density matrix is multiplied by `1 - strength`: this is
the visibility of the interference. -/
theorem C141_visibility (k i : ℕ) (hg : (env k).g.Ok) (ht : 0 ≤ (env k).thr) (σ : ℝ) (h0 : 0 ≤ σ) (h1 : σ ≤ 1) (controls targets keep : List ℕ)
    (he : Environment (env k).g controls targets) (hk : System (env k).g targets keep) (M : SqArr)
    (hM : couplingMatrix (env k).g (standardKeys (env k).g) σ controls targets = some M) (hn : (env k).nodes[i]? = some (.fockMatrix M))
    (coll out : Coll) (hc : Sound (env k).g (env k).m coll) (hempty : ∀ p ∈ coll, EmptyIn (env k).g targets p.2.comps) (fuel : ℕ)
    (h : evalNodes env rnd fuel k [i] coll = some out) (label : List Char) (hloss : carried label out = carried label coll)
    (hd : controls.Nodup) (a b : ℕ) (ha : a ∈ controls) (hb : b ∈ controls) (hab : a ≠ b) :
    ∃ dm dm', densityMatrix (env k).g coll label = some dm ∧ densityMatrix (env k).g out label = some dm' ∧
      ∀ u v, Valid (env k).g u → Valid (env k).g v → u.getD a 0 ≠ v.getD a 0 → u.getD b 0 ≠ v.getD b 0 → (u.getD a 0 = 0 ∨ v.getD a 0 = 0) →
        (u.getD b 0 = 0 ∨ v.getD b 0 = 0) → (∀ c ∈ controls, c ≠ a → c ≠ b → u.getD c 0 = v.getD c 0) →
        reducedEntry (env k).g keep dm' (select keep u) (select keep v) = (1 - σ : ℝ) * reducedEntry (env k).g keep dm (select keep u) (select keep v) := by
  obtain ⟨dm, dm', d1, d2, d3⟩ := C141_coherence (rnd := rnd) k i hg ht σ h0 h1 controls targets keep he hk M hM hn coll out hc hempty fuel h label hloss
  refine ⟨dm, dm', d1, d2, fun u v hu hv x1 x2 x3 x4 x5 => ?_⟩
  rw [d3 u v hu hv, remaining_two h1 hd ha hb hab x1 x2 x3 x4 x5]

/-! ### The hypotheses are met -/

section NonVacuity

private def fourCfg : Cfg := ⟨2, 4, true⟩

/-- a photon in a superposition of channel 0 and channel 1; channels 2 and 3 are empty -/
private noncomputable def pathState : QState := ⟨['p'], 1, [(['1', '0', '0', '0'], ⟨(3 / 5 : ℝ), 9 / 25⟩), (['0', '1', '0', '0'], ⟨(4 / 5 : ℝ), 16 / 25⟩)], [], []⟩

private theorem name_eq {g : Cfg} {v w : Vals} {s : Name} (hv : Valid g v) (hw : Valid g w) (h : IsName g v s) (h' : IsName g w s) : v = w :=
  g.stdName_inj hv.2 hw.2 (((isName_iff hv).1 h).symm.trans ((isName_iff hw).1 h'))

private theorem pathState_sound : Sound fourCfg 0 [(['x'], pathState)] := by
  have hv1 : Valid fourCfg [1, 0, 0, 0] := by decide
  have hn1 : IsName fourCfg [1, 0, 0, 0] ['1', '0', '0', '0'] := (isName_iff hv1).2 (by decide)
  have hv2 : Valid fourCfg [0, 1, 0, 0] := by decide
  have hn2 : IsName fourCfg [0, 1, 0, 0] ['0', '1', '0', '0'] := (isName_iff hv2).2 (by decide)
  have ht : totalProb pathState.comps = 1 := by
    simp only [pathState, totalProb, List.map_cons, List.map_nil, List.sum_cons, List.sum_nil, Complex.norm_real]
    norm_num
  refine ⟨by simp, fun p hp => ?_⟩
  rw [List.mem_singleton.1 hp]
  refine ⟨⟨by simp [pathState], ?_⟩, ?_, ht.le, by norm_num [pathState], by norm_num [pathState], by simp [pathState]⟩
  · intro p hp
    simp only [pathState, List.mem_cons, List.not_mem_nil, or_false] at hp
    rcases hp with rfl | rfl
    · exact ⟨_, hv1, hn1⟩
    · exact ⟨_, hv2, hn2⟩
  · intro p hp
    simp only [pathState, List.mem_cons, List.not_mem_nil, or_false] at hp
    rcases hp with rfl | rfl <;> simp only [Complex.norm_real] <;> norm_num

private theorem pathState_empty : EmptyIn fourCfg [2, 3] pathState.comps := by
  intro v s hv hs hne
  have hv1 : Valid fourCfg [1, 0, 0, 0] := by decide
  have hn1 : IsName fourCfg [1, 0, 0, 0] ['1', '0', '0', '0'] := (isName_iff hv1).2 (by decide)
  have hv2 : Valid fourCfg [0, 1, 0, 0] := by decide
  have hn2 : IsName fourCfg [0, 1, 0, 0] ['0', '1', '0', '0'] := (isName_iff hv2).2 (by decide)
  have : v = [1, 0, 0, 0] ∨ v = [0, 1, 0, 0] := by
    simp only [pathState, ampOf_cons, ampOf_nil] at hne
    split at hne
    · rename_i e; subst e; left; exact name_eq hv hv1 hs hn1
    · split at hne
      · rename_i e; subst e; right; exact name_eq hv hv2 hs hn2
      · exact absurd rfl hne
  rcases this with rfl | rfl <;> decide

/-- A photon in two paths, each coupled to its own empty environment channel with strength 1/4: the node evaluates, the probability is conserved and
the visibility is 3/4. -/
example (rnd : ℕ → ℕ → Bool → ℕ → ℕ → ℕ) : ∃ (M : SqArr) (out : Coll) (dm dm' : ℕ → ℕ → ℂ),
    couplingMatrix fourCfg (standardKeys fourCfg) (1 / 4) [0, 1] [2, 3] = some M ∧
    evalAll (fun _ => ⟨fourCfg, 0, 0, true, [.fockMatrix M]⟩) rnd 2 0 [(['x'], pathState)] = some out ∧ carried ['p'] out = 1 ∧
    densityMatrix fourCfg [(['x'], pathState)] ['p'] = some dm ∧ densityMatrix fourCfg out ['p'] = some dm' ∧
    reducedEntry fourCfg [0, 1] dm' [1, 0] [0, 1] = (3 / 4 : ℝ) * reducedEntry fourCfg [0, 1] dm [1, 0] [0, 1] := by
  have he : Environment fourCfg [0, 1] [2, 3] := ⟨rfl, by decide, by decide, by decide, by decide⟩
  have hk : System fourCfg [2, 3] [0, 1] := ⟨by decide, by decide⟩
  obtain ⟨M, hM⟩ := environment_matrix he (1 / 4)
  have hempty : ∀ p ∈ [((['x'] : List Char), pathState)], EmptyIn fourCfg [2, 3] p.2.comps := by
    intro p hp
    rw [List.mem_singleton.1 hp]
    exact pathState_empty
  have hs := pathState_sound
  obtain ⟨out, ho⟩ := C141_evaluates (env := fun _ => ⟨fourCfg, 0, 0, true, [.fockMatrix M]⟩) (rnd := rnd) 0 0 (show fourCfg.Ok by decide) le_rfl (1 / 4) _ _ M hM rfl _ hs 2 (by norm_num)
  have hcons := (C141_conserved (rnd := rnd) 0 0 (show fourCfg.Ok by decide) le_rfl (1 / 4) (by norm_num) (by norm_num) _ _ he M hM rfl _ out hs hempty 2 ho).2 ['p']
  have hloss : carried ['p'] out = carried ['p'] [(['x'], pathState)] := le_antisymm hcons.1 (by simpa using hcons.2)
  obtain ⟨dm, dm', d1, d2, d3⟩ := C141_visibility (rnd := rnd) 0 0 (show fourCfg.Ok by decide) le_rfl (1 / 4) (by norm_num) (by norm_num) _ _ [0, 1] he hk M hM rfl _ out hs hempty 2 ho ['p'] hloss
    (by decide) 0 1 (by decide) (by decide) (by decide)
  refine ⟨M, out, dm, dm', hM, ho, ?_, d1, d2, ?_⟩
  · rw [hloss]
    simp only [carried, sumFrom, pathState, totalProb, List.map_cons, List.map_nil, List.sum_cons, List.sum_nil, Complex.norm_real]
    norm_num
  · have := d3 [1, 0, 0, 0] [0, 1, 0, 0] (show Valid fourCfg _ by decide) (show Valid fourCfg _ by decide) (by decide) (by decide) (by decide) (by decide) (by decide)
    rw [show (1 : ℝ) - 1 / 4 = 3 / 4 by norm_num] at this
    exact this

end NonVacuity

end Verif.Props
