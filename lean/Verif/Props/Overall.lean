/-
Property C119: only the overall transformation of the fields matters.
-/
import Verif.Lemmas.Overall
import Verif.Props.Born

namespace Verif.Props
open Verif Spec

/-- a circuit of optical nodes only -/
theorem eval_optics (env : ℕ → Circ) (rnd : ℕ → ℕ → Bool → ℕ → ℕ → ℕ) (k : ℕ) (n : Opt × List ℕ) (l : List (Opt × List ℕ))
    (hk : (env k).nodes = opticals (n :: l)) (fuel : ℕ) (hf : 2 ≤ fuel) (coll : Coll) :
    evalAll env rnd fuel k coll = opticalColl (env k) n l coll := by
  have hlen : (env k).nodes.length = l.length + 1 := by rw [hk]; simp [opticals]
  have hfa : List.Forall₂ (fun i (n : Opt × List ℕ) => (env k).nodes[i]? = some (.optical n.1 n.2)) (List.range (l.length + 1)) (n :: l) := by
    rw [List.forall₂_iff_get]
    refine ⟨by simp, ?_⟩
    intro i h1 h2
    rw [hk]
    simpa using opticals_get (n :: l) i h2
  unfold evalAll
  rw [hlen, eval_optical_list (ns := n :: l) hfa (by simp) _ hf, runEff, opticalNodes_eq hfa]

/-- **C119 (partial)** Two circuits of optical elements that have the same effect on every classical field give exactly the same result for every collection -
also for superpositions of several photons per channel - if the inputs are below the cutoff. The settings of the circuits agree except for use_full_fock_matrix.
Missing: inputs at or above the cutoff (`C119_cutoff_fails`), channel pairs with first channel >= 2 and second channel 0 (C07). -/
theorem C119_same_partial (a b : Circ) (hab : a.g = b.g ∧ a.m = b.m ∧ a.thr = b.thr) (hg : a.g.Ok) (gates gates' : List Gate) (n n' : Opt × List ℕ) (l l' : List (Opt × List ℕ))
    (h : List.Forall₂ (GateNode a.g) gates (n :: l)) (h' : List.Forall₂ (GateNode a.g) gates' (n' :: l'))
    (hs : ∀ (u : ℕ → ℂ), ∀ j < a.g.C, fieldAfter gates u j = fieldAfter gates' u j) (ha : a.nodes = opticals (n :: l)) (hb : b.nodes = opticals (n' :: l'))
    (coll : Coll) (hid : (coll.map Prod.fst).Nodup) (hq : ∀ p ∈ coll, Sendable a.g a.m p.2)
    (rnd rnd' : ℕ → ℕ → Bool → ℕ → ℕ → ℕ) (fuel fuel' : ℕ) (hf : 2 ≤ fuel) (hf' : 2 ≤ fuel') :
    evalAll (fun _ => a) rnd fuel 0 coll = evalAll (fun _ => b) rnd' fuel' 0 coll := by
  rw [eval_optics (fun _ => a) rnd 0 n l ha fuel hf, eval_optics (fun _ => b) rnd' 0 n' l' hb fuel' hf']
  exact overall_coll hab hg h h' hs hid hq

/-- **C119 (partial)** The same with a measurement at the end: the same states in the same order (the identifiers contain the number of the node).
Missing: as in `C119_same_partial`. -/
theorem C119_measured_partial (a b : Circ) (hab : a.g = b.g ∧ a.m = b.m ∧ a.thr = b.thr) (hg : a.g.Ok) (gates gates' : List Gate) (n n' : Opt × List ℕ) (l l' : List (Opt × List ℕ))
    (h : List.Forall₂ (GateNode a.g) gates (n :: l)) (h' : List.Forall₂ (GateNode a.g) gates' (n' :: l'))
    (hs : ∀ (u : ℕ → ℂ), ∀ j < a.g.C, fieldAfter gates u j = fieldAfter gates' u j) (opt cls : List ℕ)
    (ha : a.nodes = opticals (n :: l) ++ [.measurement opt cls]) (hb : b.nodes = opticals (n' :: l') ++ [.measurement opt cls])
    (coll : Coll) (hid : (coll.map Prod.fst).Nodup) (hq : ∀ p ∈ coll, Sendable a.g a.m p.2)
    (rnd rnd' : ℕ → ℕ → Bool → ℕ → ℕ → ℕ) (fuel fuel' : ℕ) (hf : l.length + 2 < fuel) (hf' : l'.length + 2 < fuel') :
    (evalAll (fun _ => a) rnd fuel 0 coll).map (List.map Prod.snd) = (evalAll (fun _ => b) rnd' fuel' 0 coll).map (List.map Prod.snd) := by
  rw [eval_optics_then_measure (fun _ => a) rnd 0 n l opt cls ha fuel hf, eval_optics_then_measure (fun _ => b) rnd' 0 n' l' opt cls hb fuel' hf']
  have e := overall_coll hab hg h h' hs hid hq
  show ((opticalColl a n l coll).bind _).map _ = ((opticalColl b n' l' coll).bind _).map _
  rw [e]
  cases ho : opticalColl b n' l' coll with
  | none => rfl
  | some mid =>
    obtain ⟨e1, e2, e3⟩ := hab
    simp only [Option.bind_some]
    rw [e1, e2, e3]
    exact measureColl_ids _ _ _ _ (opticalColl_ids hid ho)

/-- **C119 (partial)** If the elements leave every classical field as it is, every state keeps its amplitudes (those below the threshold are dropped).
Missing: as in `C119_same_partial`. -/
theorem C119_identity_partial (c : Circ) (hg : c.g.Ok) (gates : List Gate) (n : Opt × List ℕ) (l : List (Opt × List ℕ)) (h : List.Forall₂ (GateNode c.g) gates (n :: l))
    (hs : ∀ (u : ℕ → ℂ), ∀ j < c.g.C, fieldAfter gates u j = u j) (hc : c.nodes = opticals (n :: l))
    (coll : Coll) (hid : (coll.map Prod.fst).Nodup) (hq : ∀ p ∈ coll, Sendable c.g c.m p.2) (ht : 0 ≤ c.thr) (rnd : ℕ → ℕ → Bool → ℕ → ℕ → ℕ) (fuel : ℕ) (hf : 2 ≤ fuel) :
    ∃ out, evalAll (fun _ => c) rnd fuel 0 coll = some out ∧ List.Forall₂ (fun p p' => p'.1 = p.1 ∧ p'.2.initial = p.2.initial ∧ p'.2.cum = p.2.cum ∧ p'.2.classical = p.2.classical ∧ p'.2.results = p.2.results ∧
      WellFormed c.g p'.2.comps ∧ ∀ v nm, Valid c.g v → IsName c.g v nm → ampOf p'.2.comps nm = if ‖ampOf p.2.comps nm‖ ^ 2 < c.thr then 0 else ampOf p.2.comps nm) coll out := by
  rw [eval_optics (fun _ => c) rnd 0 n l hc fuel hf]
  have key : ∀ p ∈ coll, ∃ d, applyOptical c.g c.thr c.full (basisKeys c.g) n l p.2.comps = some d ∧ WellFormed c.g d ∧
      ∀ v nm, Valid c.g v → IsName c.g v nm → ampOf d nm = if ‖ampOf p.2.comps nm‖ ^ 2 < c.thr then 0 else ampOf p.2.comps nm := by
    intro p hp
    have hon := gates_onChannels h
    have hw := (hq p hp).measurable.wf
    have he := applyOptical_eq hg c.thr c.full n l (hon n (by simp)) (fun m hm => hon m (by simp [hm])) hw (hq p hp).nonempty
    obtain ⟨d, hd', hw', -, -⟩ := fromVector_spec hg.1 c.thr (oneByOne c.g (n :: l) (vec c.g p.2.comps))
    have hd := he.trans hd'
    refine ⟨d, hd, hw', ?_⟩
    intro v nm hv hn
    rw [C100_optics_partial c.g hg c.thr c.full gates n l h ⟨p.2, none⟩ hw (hq p hp).nonempty (hq p hp).few d hd v hv nm hn, statePoly_vec hg.1 ⟨p.2, none⟩ hw]
    have hid' : opticsSubst gates (vecPoly c.g none (vec c.g p.2.comps)) = vecPoly c.g none (vec c.g p.2.comps) := by
      obtain ⟨F, hF⟩ := opticsSubst_hom gates
      rw [hF]
      refine hom_vecPoly (G := AlgHom.id ℂ _) hg.1 (fun j hj => ?_) _
      rw [← hF, X_field hj, opticsSubst_field h, fieldPoly_congr (hs _)]
      rfl
    show prune c.thr (amplitudeIn (opticsSubst gates (vecPoly c.g none (vec c.g p.2.comps))) none v) = _
    rw [hid', amplitudeIn_vec hg none _ hv, vec_index hv, ← (isName_iff hv).1 hn]
    rfl
  have hex : ∀ cs : Coll, (∀ p ∈ cs, p ∈ coll) → ∃ out : Coll, List.Forall₂ (fun p p' => ∃ comps, applyOptical c.g c.thr c.full (basisKeys c.g) n l p.2.comps = some comps ∧
        p' = (p.1, { p.2 with comps := comps })) cs out ∧ List.Forall₂ (fun p p' => p'.1 = p.1 ∧ p'.2.initial = p.2.initial ∧ p'.2.cum = p.2.cum ∧ p'.2.classical = p.2.classical ∧
          p'.2.results = p.2.results ∧ WellFormed c.g p'.2.comps ∧
          ∀ v nm, Valid c.g v → IsName c.g v nm → ampOf p'.2.comps nm = if ‖ampOf p.2.comps nm‖ ^ 2 < c.thr then 0 else ampOf p.2.comps nm) cs out := by
    intro cs hcs
    induction cs with
    | nil => exact ⟨[], .nil, .nil⟩
    | cons p cs ih =>
      obtain ⟨out, o1, o2⟩ := ih (fun p hp => hcs p (by simp [hp]))
      obtain ⟨d, hd, k1, k2⟩ := key p (hcs p (by simp))
      exact ⟨(p.1, { p.2 with comps := d }) :: out, .cons ⟨d, hd, rfl⟩ o1, .cons ⟨rfl, rfl, rfl, rfl, rfl, k1, k2⟩ o2⟩
  obtain ⟨out, o1, o2⟩ := hex coll (fun p hp => hp)
  exact ⟨out, (opticalColl_iff c n l coll hid out).2 ⟨fun p hp => measurable_check (hq p hp).measurable ht, o1⟩, o2⟩

/-- **C119** An element followed by the inverse element on the same channels leaves every field as it is, so that `C119_identity_partial` applies. -/
theorem C119_inverse (M M' : Opt) (hM : M * M' = 1) (h c : ℕ) (hne : h ≠ c) (u : ℕ → ℂ) (j : ℕ) : fieldAfter [⟨M, h, c⟩, ⟨M', h, c⟩] u j = u j := by
  have e : ∀ i k, (M * M') i k = M i 0 * M' 0 k + M i 1 * M' 1 k := by
    intro i k; rw [Matrix.mul_apply, Fin.sum_univ_two]
  rw [hM] at e
  have e00 := e 0 0
  have e01 := e 0 1
  have e10 := e 1 0
  have e11 := e 1 1
  simp only [Matrix.one_apply_eq, Matrix.one_apply_ne (show (0 : Fin 2) ≠ 1 by decide), Matrix.one_apply_ne (show (1 : Fin 2) ≠ 0 by decide)] at e00 e01 e10 e11
  show fieldStep (fieldStep u ⟨M, h, c⟩) ⟨M', h, c⟩ j = u j
  by_cases h1 : j = h
  · subst h1
    simp only [fieldStep, if_true, if_neg hne.symm]
    linear_combination (-u j) * e00 - u c * e10
  · by_cases h2 : j = c
    · subst h2
      simp only [fieldStep, if_true, if_neg hne.symm]
      linear_combination (-u h) * e01 - u j * e11
    · simp only [fieldStep, if_neg h1, if_neg h2]

/-! ### The cutoff -/

/-- a sign in the first channel of an element -/
def signMatrix : Opt := !![-1, 0; 0, 1]

/-- three channels, at most one photon each -/
def signCfg : Cfg := ⟨2, 3, true⟩

theorem sign_column (c : ℕ) (hc : c < 3) (h0 : c ≠ 0) (tl : List ℕ) (ht : tensorList 3 [0, c] = some tl) (x : ℂ)
    (hx : gateAmp 2 signMatrix 1 ([1, 1, 0].getD c 0) 1 ([1, 1, 0].getD c 0) = x) (hn : ‖x‖ = 1) (q : Comps) (hq : q = [(['1', '1', '0'], ⟨1, 1⟩)]) :
    ∃ c', applyOptical signCfg (1 / 10) true (standardKeys signCfg) (signMatrix, tl) [] q = some c' ∧ ampOf c' ['1', '1', '0'] = x := by
  have hg : signCfg.Ok := by decide
  have hv : Valid signCfg [1, 1, 0] := by decide
  have hnm : signCfg.stdName [1, 1, 0] = ['1', '1', '0'] := by decide
  have hw : WellFormed signCfg q := by
    subst hq
    refine ⟨by simp, ?_⟩
    intro p hp
    rw [List.mem_singleton.1 hp]
    exact ⟨_, hv, (isName_iff hv).2 hnm.symm⟩
  have hon : OnChannels signCfg (signMatrix, tl) := ⟨0, c, by decide, hc, Ne.symm h0, ht⟩
  obtain ⟨c', hc', -⟩ := fromVector_spec (g := signCfg) hg.1 (1 / 10) (oneByOne signCfg [(signMatrix, tl)] (vec signCfg q))
  refine ⟨c', by rw [applyOptical_eq hg _ _ _ [] hon (by simp) hw (by simp [hq]), hc'], ?_⟩
  have hi := signCfg.indexOf_lt hv
  have hvec : ∀ k < signCfg.size, vec signCfg q k = if k = signCfg.indexOf [1, 1, 0] then 1 else 0 := by
    intro k hk
    have hvk := signCfg.valid_valuesFromIndex hg.1 k
    have e := vec_index hvk q
    rw [signCfg.indexOf_valuesFromIndex hk] at e
    rw [e, ampOf, hq]
    by_cases h : k = signCfg.indexOf [1, 1, 0]
    · rw [if_pos h, h, signCfg.valuesFromIndex_indexOf hv, hnm]; simp [Dict.get?]
    · rw [if_neg h]
      have : signCfg.stdName (signCfg.valuesFromIndex k) ≠ ['1', '1', '0'] := by
        intro e'
        rw [← hnm] at e'
        apply h
        rw [← signCfg.stdName_inj hvk.2 hv.2 e', signCfg.indexOf_valuesFromIndex hk]
      simp [Dict.get?, Ne.symm this]
  have hy : oneByOne signCfg [(signMatrix, tl)] (vec signCfg q) (signCfg.indexOf [1, 1, 0]) = x := by
    show (FullMatrix signCfg (signMatrix, tl)).mulVec (vec signCfg q) _ = x
    rw [SqArr.mulVec, fullMatrix_size, Finset.sum_eq_single (signCfg.indexOf [1, 1, 0])]
    · rw [hvec _ hi, if_pos rfl, mul_one]
      have := gate_entry hg (h := 0) (c := c) (M := signMatrix) (by decide) hc (Ne.symm h0) (by omega) ⟨tl, ht, rfl⟩ hv hv
      rw [if_pos (fun _ _ _ _ => rfl)] at this
      exact this.trans hx
    · intro k hk hne
      rw [hvec k (Finset.mem_range.1 hk), if_neg hne, mul_zero]
    · intro h; exact absurd (Finset.mem_range.2 hi) h
  have := vec_fromVector hg.1 hc' hi
  rw [hy, vec_index hv, hnm, if_neg (by rw [hn]; norm_num)] at this
  exact this

/-- **C119 fails** at the cutoff: a change of sign in channel 0 made by an element on channels 0 and 1 or by one on channels 0 and 2 is the same for every field. For one photon in channel 0 and
one in channel 1 (with cutoff 2) the first one does nothing, the second one changes the sign. -/
theorem C119_cutoff_fails : ∃ (g : Cfg) (e e' : Gate) (n n' : Opt × List ℕ) (q c c' : Comps), g.Ok ∧ GateNode g e n ∧ GateNode g e' n' ∧
    (∀ (u : ℕ → ℂ) (j : ℕ), fieldAfter [e] u j = fieldAfter [e'] u j) ∧ WellFormed g q ∧ totalProb q = 1 ∧
    applyOptical g (1 / 10) true (standardKeys g) n [] q = some c ∧ applyOptical g (1 / 10) true (standardKeys g) n' [] q = some c' ∧
    ampOf c ['1', '1', '0'] = 1 ∧ ampOf c' ['1', '1', '0'] = -1 := by
  obtain ⟨c, hc, hc1⟩ := sign_column 1 (by decide) (by decide) [0, 1, 2] (by decide) 1 (by simp [gateAmp]) (by simp) [(['1', '1', '0'], ⟨1, 1⟩)] rfl
  obtain ⟨c', hc', hc1'⟩ := sign_column 2 (by decide) (by decide) [0, 2, 1] (by decide) (-1)
    ((C11_vacuum_and_single_photon 2 le_rfl signMatrix).2.1.trans (by simp [signMatrix])) (by simp) [(['1', '1', '0'], ⟨1, 1⟩)] rfl
  have hv : Valid signCfg [1, 1, 0] := by decide
  refine ⟨signCfg, ⟨signMatrix, 0, 1⟩, ⟨signMatrix, 0, 2⟩, (signMatrix, [0, 1, 2]), (signMatrix, [0, 2, 1]), [(['1', '1', '0'], ⟨1, 1⟩)], c, c', by decide,
    ⟨(by decide : 0 < 3), (by decide : 1 < 3), (by decide : 0 ≠ 1), (by decide : ¬ (2 ≤ 0 ∧ 1 = 0)), rfl, (show tensorList 3 [0, 1] = _ by decide)⟩,
    ⟨(by decide : 0 < 3), (by decide : 2 < 3), (by decide : 0 ≠ 2), (by decide : ¬ (2 ≤ 0 ∧ 2 = 0)), rfl, (show tensorList 3 [0, 2] = _ by decide)⟩, ?_, ⟨by simp, ?_⟩, by simp [totalProb], hc, hc', hc1, hc1'⟩
  · intro u j
    show fieldStep u _ j = fieldStep u _ j
    by_cases h0 : j = 0
    · subst h0; simp [fieldStep, signMatrix]
    · by_cases h1 : j = 1
      · subst h1; simp [fieldStep, signMatrix]
      · by_cases h2 : j = 2
        · subst h2; simp [fieldStep, signMatrix]
        · simp [fieldStep, h0, h1, h2]
  · intro p hp
    rw [List.mem_singleton.1 hp]
    exact ⟨_, hv, (isName_iff hv).2 (by decide)⟩

/-! ### The hypotheses are met -/

section NonVacuity

/-- C119: a half-wave plate applied twice (any angle) leaves a photon in channel 1 as it is. -/
example (θ : ℝ) (plate : Opt × List ℕ) (hp : halfWavePlate bornCfg 1 2 θ = some plate) :
    ∃ s, evalAll (fun _ => ⟨bornCfg, 2, 1 / 1000, true, opticals [plate, plate]⟩) (fun _ _ _ _ _ => 0) 3 0 [(['x'], bornState)] = some [(['x'], s)] ∧ ampOf s.comps ['0', '1', '0'] = 1 ∧ ampOf s.comps ['0', '0', '1'] = 0 := by
  have hn := gateNode_of (g := bornCfg) (h := 1) (c := 2) (by decide) (by decide) (by decide) (by decide) hp
  obtain ⟨hm, hs⟩ := bornState_ok
  obtain ⟨out, ho, this⟩ := C119_identity_partial ⟨bornCfg, 2, 1 / 1000, true, opticals [plate, plate]⟩ bornOk _ plate [plate] (.cons hn (.cons hn .nil))
    (fun u j _ => C119_inverse _ _ (C17_wave_plate θ 0 0).2.2.2.1 1 2 (by decide) u j) rfl [(['x'], bornState)] (by simp)
    (by intro p hp; rw [List.mem_singleton.1 hp]; exact ⟨hm, by simp [bornState], fun p hp v hv hval => by rw [hs.one p hp v hval hv]; exact (by decide : 1 < bornCfg.L)⟩) (by norm_num) _ 3 (by decide)
  cases this with
  | @cons a b la lb h1 h2 =>
    cases h2
    obtain ⟨i, s⟩ := b
    obtain ⟨rfl, -, -, -, -, -, h⟩ := h1
    refine ⟨s, ho, ?_, ?_⟩
    · rw [h [0, 1, 0] _ (by decide : Valid bornCfg [0, 1, 0]) ((isName_iff (by decide : Valid bornCfg [0, 1, 0])).2 (by decide : ['0', '1', '0'] = bornCfg.stdName [0, 1, 0]))]
      simp [ampOf, bornState, Dict.get?]
      norm_num
    · rw [h [0, 0, 1] _ (by decide : Valid bornCfg [0, 0, 1]) ((isName_iff (by decide : Valid bornCfg [0, 0, 1])).2 (by decide : ['0', '0', '1'] = bornCfg.stdName [0, 0, 1]))]
      simp [ampOf, bornState, Dict.get?]

/-- C119: two or four plates give the same. -/
example (θ : ℝ) (plate : Opt × List ℕ) (hp : halfWavePlate bornCfg 1 2 θ = some plate) :
    evalAll (fun _ => ⟨bornCfg, 2, 1 / 1000, true, opticals [plate, plate]⟩) (fun _ _ _ _ _ => 0) 3 0 [(['x'], bornState)]
      = evalAll (fun _ => ⟨bornCfg, 2, 1 / 1000, false, opticals [plate, plate, plate, plate]⟩) (fun _ _ _ _ _ => 0) 3 0 [(['x'], bornState)] := by
  have hn := gateNode_of (g := bornCfg) (h := 1) (c := 2) (by decide) (by decide) (by decide) (by decide) hp
  obtain ⟨hm, hs⟩ := bornState_ok
  have hi := fun u j => C119_inverse _ _ (C17_wave_plate θ 0 0).2.2.2.1 1 2 (by decide) u j
  exact C119_same_partial ⟨bornCfg, 2, 1 / 1000, true, opticals [plate, plate]⟩ ⟨bornCfg, 2, 1 / 1000, false, opticals [plate, plate, plate, plate]⟩ ⟨rfl, rfl, rfl⟩ bornOk _ _ plate plate [plate]
    [plate, plate, plate] (.cons hn (.cons hn .nil)) (.cons hn (.cons hn (.cons hn (.cons hn .nil))))
    (fun u j _ => by
      rw [hi]
      exact ((hi (fieldAfter [⟨genericMatrix θ Real.pi, 1, 2⟩, ⟨genericMatrix θ Real.pi, 1, 2⟩] u) j).trans (hi u j)).symm) rfl rfl [(['x'], bornState)] (by simp)
    (by intro p hp; rw [List.mem_singleton.1 hp]; exact ⟨hm, by simp [bornState], fun p hp v hv hval => by rw [hs.one p hp v hval hv]; exact (by decide : 1 < bornCfg.L)⟩) _ _ 3 3 (by decide) (by decide)

end NonVacuity

end Verif.Props
