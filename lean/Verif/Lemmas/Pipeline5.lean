/-
Lemmas for circuits with optical elements and time delays: optical elements on input states without photon information.
-/
import Verif.Lemmas.Pipeline4
import Verif.Lemmas.Conserve

namespace Verif
open Spec Props MvPolynomial

theorem gates_unitary {g : Cfg} {gates : List Gate} {nodes : List (Opt × List ℕ)} (h : List.Forall₂ (GateNode g) gates nodes) (hu : ∀ e ∈ gates, e.M ∈ Matrix.unitaryGroup (Fin 2) ℂ) :
    ∀ n ∈ nodes, OnChannels g n ∧ n.1 ∈ Matrix.unitaryGroup (Fin 2) ℂ := by
  induction h with
  | nil => simp
  | @cons e n gates nodes h1 _ ih =>
    intro m hm
    rcases List.mem_cons.1 hm with rfl | hm
    · exact ⟨h1.onChannels, by rw [h1.matrix]; exact hu e List.mem_cons_self⟩
    · exact ih (fun e he => hu e (List.mem_cons_of_mem _ he)) m hm

theorem oneByOne_support {g : Cfg} (hg : g.Ok) {gates : List Gate} {nodes : List (Opt × List ℕ)} (h : List.Forall₂ (GateNode g) gates nodes) {N : ℕ} (x : ℕ → ℂ)
    (hx : ∀ v, Valid g v → x (g.indexOf v) ≠ 0 → v.sum < N) : ∀ v, Valid g v → oneByOne g nodes x (g.indexOf v) ≠ 0 → v.sum < N := by
  induction h generalizing x with
  | nil => exact hx
  | @cons e n gates nodes h1 _ ih =>
    exact ih ((fockNode g (standardKeys g) n.1 n.2 .all).1.mulVec x) (fun v hv h0 => gate_support hg h1.h h1.c h1.ne h1.order h1.list x hx hv h0)

theorem constant_gate (M : Opt) (h c : ℕ) (P : MvPolynomial Mode ℂ) : constantCoeff (gateSubst M h c P) = constantCoeff P := by
  have : (constantCoeff.comp (gateSubst M h c).toRingHom : MvPolynomial Mode ℂ →+* ℂ) = constantCoeff := by
    refine MvPolynomial.ringHom_ext ?_ ?_
    · intro r
      simp [gateSubst]
    · intro i
      simp only [gateSubst, AlgHom.toRingHom_eq_coe, RingHom.coe_comp, RingHom.coe_coe, Function.comp_apply, aeval_X, constantCoeff_X]
      split
      · simp
      · split <;> simp
  exact congrArg (fun f : MvPolynomial Mode ℂ →+* ℂ => f P) this

theorem constant_optics (gates : List Gate) (P : MvPolynomial Mode ℂ) : constantCoeff (opticsSubst gates P) = constantCoeff P := by
  induction gates generalizing P with
  | nil => rfl
  | cons e gates ih =>
    have e2 : ∀ P, opticsSubst (e :: gates) P = opticsSubst gates (gateSubst e.M e.h e.c P) := fun P => rfl
    rw [e2, ih, constant_gate]

theorem constant_amplitude {g : Cfg} (P : MvPolynomial Mode ℂ) (info : Option PInfo) : amplitudeIn P info (List.replicate g.C 0) = constantCoeff P := by
  have hm : monoOf info (List.replicate g.C 0) = 0 := by
    unfold monoOf
    refine Finset.sum_eq_zero (fun i _ => ?_)
    simp
  unfold amplitudeIn
  rw [hm, constantCoeff_eq]
  simp

/-- Amplitude of the vacuum. -/
theorem constant_state {g : Cfg} (hg : g.Ok) {s : PState} (h : WellFormed g s.q.comps) : constantCoeff (statePoly g s) = ampOf s.q.comps (g.stdName (List.replicate g.C 0)) := by
  have hz := zeros_valid hg.1
  rw [← constant_amplitude (g := g) _ s.info, statePoly_vec hg.1 s h, amplitudeIn_vec hg s.info _ hz, vec_index hz]

theorem fresh_optics {g : Cfg} (hg : g.Ok) {m : ℕ} {thr : ℝ} (ht : 0 < thr) (useFull : Bool) {gates : List Gate} {n : Opt × List ℕ} {l : List (Opt × List ℕ)} (hgn : List.Forall₂ (GateNode g) gates (n :: l))
    (hu : ∀ e ∈ gates, e.M ∈ Matrix.unitaryGroup (Fin 2) ℂ) {s : AState} (hs : FreshState g m s)
    (hthr : ∀ w, Valid g w → ‖amplitudeIn (opticsSubst gates (statePoly g ⟨s.q, none⟩)) none w‖ ^ 2 < thr → amplitudeIn (opticsSubst gates (statePoly g ⟨s.q, none⟩)) none w = 0) :
    ∃ c', applyOptical g thr useFull (standardKeys g) n l s.q.comps = some c' ∧ FreshState g m ⟨{ s.q with comps := c' }, none⟩ ∧
      statePoly g ⟨{ s.q with comps := c' }, none⟩ = opticsSubst gates (statePoly g ⟨s.q, none⟩) := by
  have hne : s.q.comps ≠ [] := by
    intro h0
    have := hs.norm
    rw [h0] at this
    simp [totalProb] at this
  have hcut : ∀ p ∈ s.q.comps, ∀ v, IsName g v p.1 → Valid g v → v.sum < g.L := fun p hp v hn hv => hs.few p hp v hv hn
  obtain ⟨c', h1, h2, h3, h4⟩ := C100_state_partial g hg thr useFull gates n l hgn ⟨s.q, none⟩ hs.wf hne hcut hthr
  have hp := h4 ⟨{ s.q with comps := c' }, none⟩ rfl rfl
  have hnz := applied_nonzero hg ht (gates_onChannels hgn) hs.wf hne h1
  have hvec : ∀ i < g.size, vec g c' i = oneByOne g (n :: l) (vec g s.q.comps) i := by
    have hsub := oneByOne_subst hg hgn none _ (fun v hv => support_comps hcut hv)
    intro i hi
    have hv := g.valid_valuesFromIndex hg.1 i
    have e := congrArg (fun P => amplitudeIn P none (g.valuesFromIndex i)) hp
    simp only at e
    rw [statePoly_vec hg.1 (⟨{ s.q with comps := c' }, none⟩ : PState) h2, statePoly_vec hg.1 (⟨s.q, none⟩ : PState) hs.wf, ← hsub, amplitudeIn_vec hg none _ hv, amplitudeIn_vec hg none _ hv,
      g.indexOf_valuesFromIndex hi] at e
    exact e
  have hnorm : totalProb c' = 1 := by
    rw [totalProb_eq hg.1 h2, ← hs.norm, totalProb_eq hg.1 hs.wf, ← oneByOne_norm hg (n :: l) (vec g s.q.comps) (gates_unitary hgn hu)]
    exact Finset.sum_congr rfl (fun i hi => by rw [hvec i (Finset.mem_range.1 hi)])
  refine ⟨c', h1, ⟨rfl, h2, h3, hnorm, hnz, ?_, ?_, hs.cum, hs.classical⟩, hp⟩
  · intro p hp' v hv hn
    refine oneByOne_support hg hgn (vec g s.q.comps) (fun w hw => support_comps hcut hw) v hv ?_
    rw [← hvec _ (g.indexOf_lt hv), vec_index hv, ← (isName_iff hv).1 hn, ampOf_mem h2 hp']
    exact hnz p hp'
  · intro p hc v hv hn hv0
    have hc : c' = [p] := hc
    have e : v = List.replicate g.C 0 := by rw [← hv.1]; exact sum_zero_replicate (by omega)
    have hz := zeros_valid hg.1
    have hamp : ampOf c' (g.stdName v) = p.2.amp := by rw [← (isName_iff hv).1 hn]; exact ampOf_mem h2 (by rw [hc]; simp)
    have hcc := congrArg constantCoeff hp
    rw [constant_optics, constant_state hg h2, constant_state hg hs.wf, ← e] at hcc
    have hcc : ampOf c' (g.stdName v) = ampOf s.q.comps (g.stdName v) := hcc
    have hp1 : ‖p.2.amp‖ = 1 := by
      rw [hc] at hnorm
      simp only [totalProb, List.map_cons, List.map_nil, List.sum_cons, List.sum_nil, add_zero] at hnorm
      have := norm_nonneg p.2.amp
      nlinarith
    have h0 : ampOf s.q.comps (g.stdName v) ≠ 0 := by
      rw [← hcc, hamp]
      intro h0
      rw [h0] at hp1
      simp at hp1
    obtain ⟨q, hq, q1, q2⟩ := mem_of_ampOf h0
    have hsingle : s.q.comps = [q] := by
      have hall : ∀ r ∈ s.q.comps, r = q := by
        intro r hr
        by_contra hrq
        have hsum := hs.norm
        obtain ⟨a, b, hab⟩ := List.append_of_mem hq
        rw [hab] at hsum hr
        have hr' : r ∈ a ∨ r ∈ b := by
          rcases List.mem_append.1 hr with h | h
          · exact Or.inl h
          · rcases List.mem_cons.1 h with h | h
            · exact absurd h hrq
            · exact Or.inr h
        have hq1 : ‖q.2.amp‖ = 1 := by rw [q2, ← hcc, hamp, hp1]
        have hr0 : 0 < ‖r.2.amp‖ ^ 2 := by
          have : r.2.amp ≠ 0 := hs.nonzero r (by rw [hab]; exact hr)
          positivity
        have pos : ∀ l : Comps, 0 ≤ (l.map (fun p => ‖p.2.amp‖ ^ 2)).sum := fun l => List.sum_nonneg (by
          intro x hx
          obtain ⟨p, _, rfl⟩ := List.mem_map.1 hx
          positivity)
        have big : ∀ l : Comps, r ∈ l → 0 < (l.map (fun p => ‖p.2.amp‖ ^ 2)).sum := by
          intro l hl
          have : ‖r.2.amp‖ ^ 2 ≤ (l.map (fun p => ‖p.2.amp‖ ^ 2)).sum := List.single_le_sum (by
            intro x hx
            obtain ⟨p, _, rfl⟩ := List.mem_map.1 hx
            positivity) _ (List.mem_map.2 ⟨r, hl, rfl⟩)
          linarith
        unfold totalProb at hsum
        rw [List.map_append, List.map_cons, List.sum_append, List.sum_cons, hq1] at hsum
        have ha := pos a
        have hb := pos b
        rcases hr' with h | h
        · have := big a h
          linarith
        · have := big b h
          linarith
      have hnd := hs.wf.nodup
      rcases hcs : s.q.comps with _ | ⟨x, _ | ⟨y, t⟩⟩
      · rw [hcs] at hq; cases hq
      · rw [hall x (by rw [hcs]; simp)]
      · rw [hcs, hall x (by rw [hcs]; simp), hall y (by rw [hcs]; simp)] at hnd
        simp at hnd
    have := hs.vacuum q hsingle v hv (by rw [q1]; exact (isName_iff hv).2 rfl) hv0
    rw [← hamp, hcc, ← q2]
    exact this

end Verif
