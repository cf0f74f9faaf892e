/-
Property C100: optical nodes replace creation operators.
-/
import Verif.Lemmas.Creation
import Verif.Props.Transition
import Verif.Props.Columns

namespace Verif.Props
open Verif Spec MvPolynomial

theorem _root_.Verif.Spec.GateNode.onChannels {g : Cfg} {e : Gate} {n : Opt × List ℕ} (h : GateNode g e n) : OnChannels g n := ⟨e.h, e.c, h.h, h.c, h.ne, h.list⟩

theorem gates_onChannels {g : Cfg} {gates : List Gate} {nodes : List (Opt × List ℕ)} (h : List.Forall₂ (GateNode g) gates nodes) : ∀ n ∈ nodes, OnChannels g n := by
  induction h with
  | nil => simp
  | cons h1 _ ih =>
    intro n hn
    rcases List.mem_cons.1 hn with rfl | hn
    · exact h1.onChannels
    · exact ih n hn

theorem oneByOne_subst {g : Cfg} (hg : g.Ok) {gates : List Gate} {nodes : List (Opt × List ℕ)} (h : List.Forall₂ (GateNode g) gates nodes) (info : Option PInfo) (x : ℕ → ℂ)
    (hx : ∀ v, Valid g v → x (g.indexOf v) ≠ 0 → v.sum < g.L) :
    vecPoly g info (oneByOne g nodes x) = opticsSubst gates (vecPoly g info x) := by
  induction h generalizing x with
  | nil => rfl
  | @cons e n gates nodes h1 _ ih =>
    have e1 : oneByOne g (n :: nodes) x = oneByOne g nodes ((fockNode g (standardKeys g) n.1 n.2 .all).1.mulVec x) := rfl
    have e2 : ∀ P, opticsSubst (e :: gates) P = opticsSubst gates (gateSubst e.M e.h e.c P) := fun P => rfl
    rw [e1, e2, ih _ (fun v hv h0 => gate_support hg h1.h h1.c h1.ne h1.order h1.list x hx hv h0), h1.matrix,
      vecPoly_gate hg h1.h h1.c h1.ne h1.order h1.list info x (fun v hv h0 => lt_of_le_of_lt (getD_le_sum v h1.ne) (hx v hv h0))]

theorem support_comps {g : Cfg} {c : Comps} (hc : ∀ p ∈ c, ∀ v, IsName g v p.1 → Valid g v → v.sum < g.L) {v : Vals} (hv : Valid g v) (h0 : vec g c (g.indexOf v) ≠ 0) : v.sum < g.L := by
  rw [vec_index hv, ampOf] at h0
  cases hk : Dict.get? c (g.stdName v) with
  | none => rw [hk] at h0; exact absurd rfl h0
  | some k => exact hc _ (Dict.get?_mem hk) v ((isName_iff hv).2 rfl) hv

/-- **C100** Optical nodes replace creation operators: the amplitude of every basis state after a list of optical nodes is its amplitude in the polynomial of the input state with the
creation operators replaced, node by node (amplitudes below the threshold are dropped). The photon numbers of the input are below the cutoff. -/
theorem C100_optics_partial (g : Cfg) (hg : g.Ok) (thr : ℝ) (useFull : Bool) (gates : List Gate) (n : Opt × List ℕ) (l : List (Opt × List ℕ)) (hgn : List.Forall₂ (GateNode g) gates (n :: l))
    (s : PState) (h : WellFormed g s.q.comps) (hne : s.q.comps ≠ []) (hcut : ∀ p ∈ s.q.comps, ∀ v, IsName g v p.1 → Valid g v → v.sum < g.L) (c' : Comps)
    (hc : applyOptical g thr useFull (standardKeys g) n l s.q.comps = some c') (w : Vals) (hw : Valid g w) (nm : Name) (hnm : IsName g w nm) :
    ampOf c' nm = prune thr (amplitudeIn (opticsSubst gates (statePoly g s)) s.info w) := by
  have hon := gates_onChannels hgn
  rw [applyOptical_eq hg thr useFull n l (hon n (by simp)) (fun m hm => hon m (by simp [hm])) h hne] at hc
  have hi := g.indexOf_lt hw
  have hv := vec_fromVector hg.1 hc hi
  rw [vec_index hw, ← (isName_iff hw).1 hnm] at hv
  rw [hv, statePoly_vec hg.1 s h, ← oneByOne_subst hg hgn s.info _ (fun v hv => support_comps hcut hv), amplitudeIn_vec hg s.info _ hw]
  rfl

/-- **C100** When no amplitude other than zero is dropped, the polynomial of the new state is that of the input with the creation operators replaced. -/
theorem C100_state_partial (g : Cfg) (hg : g.Ok) (thr : ℝ) (useFull : Bool) (gates : List Gate) (n : Opt × List ℕ) (l : List (Opt × List ℕ)) (hgn : List.Forall₂ (GateNode g) gates (n :: l))
    (s : PState) (h : WellFormed g s.q.comps) (hne : s.q.comps ≠ []) (hcut : ∀ p ∈ s.q.comps, ∀ v, IsName g v p.1 → Valid g v → v.sum < g.L)
    (hthr : ∀ w, Valid g w → ‖amplitudeIn (opticsSubst gates (statePoly g s)) s.info w‖ ^ 2 < thr → amplitudeIn (opticsSubst gates (statePoly g s)) s.info w = 0) :
    ∃ c', applyOptical g thr useFull (standardKeys g) n l s.q.comps = some c' ∧ WellFormed g c' ∧ ProbsAgree c' ∧
      ∀ s' : PState, s'.q.comps = c' → s'.info = s.info → statePoly g s' = opticsSubst gates (statePoly g s) := by
  have hon := gates_onChannels hgn
  have he := applyOptical_eq hg thr useFull n l (hon n (by simp)) (fun m hm => hon m (by simp [hm])) h hne
  obtain ⟨c', hc', hw', hp', -⟩ := fromVector_spec hg.1 thr (oneByOne g (n :: l) (vec g s.q.comps))
  refine ⟨c', by rw [he, hc'], hw', hp', ?_⟩
  intro s' hs' hi'
  subst hs'
  have hsub := oneByOne_subst hg hgn s.info _ (fun v hv => support_comps hcut hv)
  rw [statePoly_vec hg.1 s' hw', hi', statePoly_vec hg.1 s h, ← hsub]
  refine vecPoly_congr (fun k hk => ?_)
  rw [vec_fromVector hg.1 hc' hk]
  split
  · rename_i hlt
    have := hthr (g.valuesFromIndex k) (g.valid_valuesFromIndex hg.1 k)
    rw [statePoly_vec hg.1 s h, ← hsub, amplitudeIn_vec hg s.info _ (g.valid_valuesFromIndex hg.1 k), g.indexOf_valuesFromIndex hk] at this
    exact (this hlt).symm
  · rfl

/-! ### The hypotheses are met -/

section NonVacuity

theorem colSum {v : Vals} (n : Name) (hn : n ∈ colState3.q.comps.map Prod.fst) (h : IsName colCfg v n) (hv : Valid colCfg v) : v.sum < 3 := by
  have h := (isName_iff hv).1 h
  have : v = [2, 0] ∨ v = [1, 1] ∨ v = [0, 2] := by
    simp only [colState3, List.map_cons, List.map_nil, List.mem_cons, List.not_mem_nil, or_false] at hn
    rcases hn with rfl | rfl | rfl
    · exact Or.inl (colCfg.stdName_inj hv.2 (by decide) (by rw [← h]; decide))
    · exact Or.inr (Or.inl (colCfg.stdName_inj hv.2 (by decide) (by rw [← h]; decide)))
    · exact Or.inr (Or.inr (colCfg.stdName_inj hv.2 (by decide) (by rw [← h]; decide)))
  rcases this with rfl | rfl | rfl <;> decide

theorem colGate (M : Opt) : GateNode colCfg ⟨M, 0, 1⟩ (M, [0, 1]) := ⟨(by simp [colCfg]), (by simp [colCfg]), (by simp [colCfg]), (by simp), rfl, (show tensorList 2 [0, 1] = some [0, 1] by decide)⟩

/-- C100: two elements (any matrices) on a state with three components, two photons. -/
example (M M' : Opt) (thr : ℝ) (c' : Comps) (hc : applyOptical colCfg thr true (standardKeys colCfg) (M, [0, 1]) [(M', [0, 1])] colState3.q.comps = some c') :
    ampOf c' "11".toList = prune thr (amplitudeIn (opticsSubst [⟨M, 0, 1⟩, ⟨M', 0, 1⟩] (statePoly colCfg colState3)) (some ⟨0, 1⟩) [1, 1]) :=
  C100_optics_partial colCfg (by decide) thr true [⟨M, 0, 1⟩, ⟨M', 0, 1⟩] _ _ (.cons (colGate M) (.cons (colGate M') .nil)) colState3 colState3_ok.1 (by simp [colState3])
    (fun p hp v h hv => colSum p.1 (List.mem_map_of_mem hp) h hv) c' hc [1, 1] (by decide) _ ((isName_iff (by decide)).2 (by decide))
example (M : Opt) : ∃ c', applyOptical colCfg 0 true (standardKeys colCfg) (M, [0, 1]) [] colState3.q.comps = some c' ∧ WellFormed colCfg c' ∧ ProbsAgree c' ∧
    ∀ s' : PState, s'.q.comps = c' → s'.info = colState3.info → statePoly colCfg s' = opticsSubst [⟨M, 0, 1⟩] (statePoly colCfg colState3) :=
  C100_state_partial colCfg (by decide) 0 true [⟨M, 0, 1⟩] _ _ (.cons (colGate M) .nil) colState3 colState3_ok.1 (by simp [colState3])
    (fun p hp v h hv => colSum p.1 (List.mem_map_of_mem hp) h hv) (fun w _ h => absurd h (not_lt.2 (sq_nonneg _)))

end NonVacuity

end Verif.Props
