/-
State-level consequences of C18 - C21 (what happens to the amplitudes of a state) and property C54 (direction of the
transition: the optical matrix is applied transposed).
-/
import Verif.Props.OpticalNodes

namespace Verif.Props
open Verif Spec

/-- An amplitude after pruning: amplitudes with squared modulus below the threshold are dropped. -/
noncomputable def prune (thr : ℝ) (a : ℂ) : ℂ := if ‖a‖ ^ 2 < thr then 0 else a

/-- the amplitudes after one optical node, as a sum over the basis -/
theorem applied_amp {g : Cfg} (hg : g.Ok) {thr : ℝ} {useFull : Bool} {n : Opt × List ℕ} (hn : OnChannels g n)
    {c c' : Comps} (h : WellFormed g c) (hne : c ≠ [])
    (hc : applyOptical g thr useFull (standardKeys g) n [] c = some c') {w : Vals} (hw : Valid g w) :
    ampOf c' (g.stdName w)
      = prune thr (∑ i ∈ Finset.range g.size, (FullMatrix g n).at_ (g.indexOf w) i * vec g c i) := by
  rw [applyOptical_eq hg thr useFull n [] hn (by simp) h hne] at hc
  rw [← vec_index hw, vec_fromVector hg.1 hc (g.indexOf_lt hw)]
  have : oneByOne g [n] (vec g c) (g.indexOf w)
      = ∑ i ∈ Finset.range g.size, (FullMatrix g n).at_ (g.indexOf w) i * vec g c i := by
    show (fockNode g (standardKeys g) n.1 n.2 .all).1.mulVec (vec g c) (g.indexOf w) = _
    rw [SqArr.mulVec, fockNode_all_size]; rfl
  rw [this]; rfl

theorem sum_single {g : Cfg} (hg : g.Ok) {c : Comps} {F : ℕ → ℂ} {v : Vals} (hv : Valid g v)
    (h0 : ∀ u, Valid g u → u ≠ v → F (g.indexOf u) = 0 ∨ ampOf c (g.stdName u) = 0) :
    ∑ i ∈ Finset.range g.size, F i * vec g c i = F (g.indexOf v) * ampOf c (g.stdName v) := by
  rw [Finset.sum_eq_single (g.indexOf v), vec_index hv]
  · intro i hi hne
    have hi := Finset.mem_range.1 hi
    have hu := g.valid_valuesFromIndex hg.1 i
    have e := g.indexOf_valuesFromIndex hi
    have := h0 _ hu (by rintro rfl; exact hne e.symm)
    rw [e] at this
    rcases this with h | h
    · rw [h, zero_mul]
    · rw [show vec g c i = ampOf c (g.stdName (g.valuesFromIndex i)) from rfl, h, mul_zero]
  · intro hi
    exact absurd (Finset.mem_range.2 (g.indexOf_lt hv)) hi

theorem sum_two {g : Cfg} (hg : g.Ok) {c : Comps} {F : ℕ → ℂ} {v v' : Vals} (hv : Valid g v) (hv' : Valid g v')
    (hne : v ≠ v') (h0 : ∀ u, Valid g u → u ≠ v → u ≠ v' → F (g.indexOf u) = 0) :
    ∑ i ∈ Finset.range g.size, F i * vec g c i
      = F (g.indexOf v) * ampOf c (g.stdName v) + F (g.indexOf v') * ampOf c (g.stdName v') := by
  rw [Finset.sum_eq_add (g.indexOf v) (g.indexOf v'), vec_index hv, vec_index hv']
  · exact fun e => hne (g.indexOf_inj hv hv' e)
  · intro i hi hni
    have hi := Finset.mem_range.1 hi
    have hu := g.valid_valuesFromIndex hg.1 i
    have e := g.indexOf_valuesFromIndex hi
    have := h0 _ hu (by rintro rfl; exact hni.1 e.symm) (by rintro rfl; exact hni.2 e.symm)
    rw [e] at this
    rw [this, zero_mul]
  · intro hi
    exact absurd (Finset.mem_range.2 (g.indexOf_lt hv)) hi
  · intro hi
    exact absurd (Finset.mem_range.2 (g.indexOf_lt hv')) hi

theorem Swapped.unique {g : Cfg} {a b : ℕ} {v w u : Vals} (hw : Valid g w) (hu : Valid g u) (h1 : Swapped g.C a b v w)
    (h2 : Swapped g.C a b v u) : w = u := by
  apply ext_getD hw.1 hu.1
  intro i hi
  by_cases ea : i = a
  · rw [ea, h1.1, h2.1]
  · by_cases eb : i = b
    · rw [eb, h1.2.1, h2.2.1]
    · rw [h1.2.2 i hi ea eb, h2.2.2 i hi ea eb]

theorem rotation_onChannels {g : Cfg} {h c : ℕ} (hh : h < g.C) (hc : c < g.C) (hne : h ≠ c) {θ φ : ℝ} {n : Opt × List ℕ}
    (hn : genericRotation g h c θ φ = some n) : OnChannels g n := by
  unfold genericRotation at hn
  obtain ⟨tl, e, rfl⟩ := Option.map_eq_some_iff.1 hn
  exact ⟨h, c, hh, hc, hne, e⟩

theorem swap_onChannels {g : Cfg} {a b : ℕ} (ha : a < g.C) (hb : b < g.C) (hne : a ≠ b) {n : Opt × List ℕ}
    (hn : swapNode g a b = some n) : OnChannels g n := by
  unfold swapNode at hn
  split at hn
  · exact rotation_onChannels hb ha hne.symm hn
  · exact rotation_onChannels ha hb hne hn

/-- **C18 (partial), on states** Applying `swap` to any valid state: the amplitude of every basis state `w` with fewer than
`L` photons in the two channels becomes the old amplitude of the exchanged basis state; all other amplitudes stay (they
should be exchanged as well: `C18_swap_fails`). Amplitudes below the pruning threshold are dropped. -/
theorem C18_swap_state_partial (g : Cfg) (hg : g.Ok) (a b : ℕ) (ha : a < g.C) (hb : b < g.C) (hne : a ≠ b)
    (n : Opt × List ℕ) (hn : swapNode g a b = some n) (thr : ℝ) (useFull : Bool) (c c' : Comps) (h : WellFormed g c)
    (hc0 : c ≠ []) (hc : applyOptical g thr useFull (standardKeys g) n [] c = some c') (w w' : Vals) (s s' : Name)
    (hw : Valid g w) (hw' : Valid g w') (hs : IsName g w s) (hs' : IsName g w' s') (hsw : Swapped g.C a b w w') :
    (w.getD a 0 + w.getD b 0 < g.L → ampOf c' s = prune thr (ampOf c s')) ∧
    (g.L ≤ w.getD a 0 + w.getD b 0 → ampOf c' s = prune thr (ampOf c s)) := by
  rw [isName_iff hw] at hs
  rw [isName_iff hw'] at hs'
  subst hs hs'
  rw [applied_amp hg (swap_onChannels ha hb hne hn) h hc0 hc hw]
  constructor
  · intro hlt
    rw [sum_single hg hw', ((swap_entry hg ha hb hne hn hw hw').1 hlt).1 hsw, one_mul]
    intro u hu hne'
    left
    apply ((swap_entry hg ha hb hne hn hw hu).1 hlt).2
    exact fun h' => hne' (Swapped.unique hu hw' h' hsw)
  · intro hge
    rw [sum_single hg hw, (swap_entry hg ha hb hne hn hw hw).2 hge, if_pos rfl, one_mul]
    intro u hu hne'
    left
    rw [(swap_entry hg ha hb hne hn hw hu).2 hge, if_neg (Ne.symm hne')]

theorem phase_onChannels {g : Cfg} (hg : g.Ok) {c : ℕ} (hc : c < g.C) {φ : ℝ} {n : Opt × List ℕ}
    (hn : phaseShift g c φ = some n) : OnChannels g n := by
  have h2 := hg.2
  unfold phaseShift at hn
  split at hn
  · obtain ⟨tl, e, rfl⟩ := Option.map_eq_some_iff.1 hn
    exact ⟨1, 0, by omega, by omega, by omega, e⟩
  · obtain ⟨tl, e, rfl⟩ := Option.map_eq_some_iff.1 hn
    exact ⟨0, c, by omega, by omega, by omega, e⟩

/-- **C19 (partial), on states** Applying the phase shift of channel `k` to any valid state multiplies the amplitude of
every basis state by `exp(i n φ)`, `n` its photon number in the channel, as long as the channel and its partner hold fewer
than `L` photons together; the amplitudes of the other basis states stay without phase (`C19_phase_fails`). -/
theorem C19_phase_state_partial (g : Cfg) (hg : g.Ok) (k : ℕ) (hk : k < g.C) (φ : ℝ)
    (n : Opt × List ℕ) (hn : phaseShift g k φ = some n) (thr : ℝ) (useFull : Bool) (c c' : Comps) (h : WellFormed g c)
    (hc0 : c ≠ []) (hc : applyOptical g thr useFull (standardKeys g) n [] c = some c') (w : Vals) (s : Name)
    (hw : Valid g w) (hs : IsName g w s) :
    (w.getD k 0 + w.getD (if k = 0 then 1 else 0) 0 < g.L →
      ampOf c' s = prune thr (Complex.exp (Complex.I * (w.getD k 0 : ℂ) * φ) * ampOf c s)) ∧
    (g.L ≤ w.getD k 0 + w.getD (if k = 0 then 1 else 0) 0 → ampOf c' s = prune thr (ampOf c s)) := by
  rw [isName_iff hw] at hs
  subst hs
  rw [applied_amp hg (phase_onChannels hg hk hn) h hc0 hc hw]
  rw [sum_single hg hw (fun u hu hne' => Or.inl (by rw [phase_entry hg hk hn hw hu, if_neg (Ne.symm hne')]))]
  rw [phase_entry hg hk hn hw hw, if_pos rfl]
  constructor
  · intro hlt
    rw [if_pos (show w.getD k 0 + w.getD (partner k) 0 < g.L from hlt)]
  · intro hge
    rw [if_neg (show ¬ w.getD k 0 + w.getD (partner k) 0 < g.L from not_lt.2 hge), one_mul]

/-! ### C54: the optical matrix is applied transposed -/

/-- the node that `custom_optical_node` (custom_nodes.py 98-141) stores for the matrix `M` on channels `h`, `k` -/
def IsCustomNode (g : Cfg) (M : Opt) (h k : ℕ) (n : Opt × List ℕ) : Prop :=
  n.1 = M ∧ tensorList g.C [h, k] = some n.2

theorem custom_entry {g : Cfg} (hg : g.Ok) {M : Opt} {h k : ℕ} (hh : h < g.C) (hk : k < g.C) (hne : h ≠ k)
    (hbug : ¬ (2 ≤ h ∧ k = 0)) {n : Opt × List ℕ} (hn : IsCustomNode g M h k n) {v w : Vals}
    (hv : Valid g v) (hw : Valid g w) :
    (FullMatrix g n).at_ (g.indexOf v) (g.indexOf w) = if ∀ i < g.C, i ≠ h → i ≠ k → v.getD i 0 = w.getD i 0 then
        gateAmp g.L M (v.getD h 0) (v.getD k 0) (w.getD h 0) (w.getD k 0) else 0 := by
  obtain ⟨rfl, e⟩ := hn
  exact gate_entry hg hh hk hne hbug ⟨n.2, e, rfl⟩ hv hw

theorem custom_zero {g : Cfg} (hg : g.Ok) {M : Opt} {h k : ℕ} (hh : h < g.C) (hk : k < g.C) (hne : h ≠ k)
    (hbug : ¬ (2 ≤ h ∧ k = 0)) (hL : 2 ≤ g.L) {n : Opt × List ℕ} (hn : IsCustomNode g M h k n) {v w u : Vals}
    (hv : Valid g v) (hw : Valid g w) (hu : Valid g u) (hs : Swapped g.C h k v w) (h1 : v.getD h 0 + v.getD k 0 = 1)
    (hv' : u ≠ v) (hw' : u ≠ w) : (FullMatrix g n).at_ (g.indexOf v) (g.indexOf u) = 0 := by
  rw [custom_entry hg hh hk hne hbug hn hv hu]
  by_cases hag : ∀ i < g.C, i ≠ h → i ≠ k → v.getD i 0 = u.getD i 0
  · rw [if_pos hag, gateAmp, if_pos (by omega), bosonAmp, if_neg]
    intro hsum
    have hcase : (u.getD h 0 = v.getD h 0 ∧ u.getD k 0 = v.getD k 0) ∨ (u.getD h 0 = v.getD k 0 ∧ u.getD k 0 = v.getD h 0) := by
      omega
    rcases hcase with ⟨e1, e2⟩ | ⟨e1, e2⟩
    · apply hv'
      apply ext_getD hu.1 hv.1
      intro i hi
      by_cases ea : i = h
      · rw [ea, e1]
      · by_cases eb : i = k
        · rw [eb, e2]
        · exact (hag i hi ea eb).symm
    · exact hw' (Swapped.unique hu hw ⟨e1, e2, fun i hi h1 h2 => (hag i hi h1 h2).symm⟩ hs)
  · rw [if_neg hag]

/-- **C54, actual behaviour** One photon in the two channels of a custom optical node: `vh` and `vk` are the basis states
with the photon in the first and in the second channel (the other channels hold the same). The new amplitudes are
`M[0][0] x + M[1][0] y` and `M[0][1] x + M[1][1] y`: the TRANSPOSED matrix is applied to the pair `(x, y)`. -/
theorem C54_field_actual (g : Cfg) (hg : g.Ok) (hL : 2 ≤ g.L) (M : Opt) (h k : ℕ) (hh : h < g.C) (hk : k < g.C)
    (hne : h ≠ k) (hbug : ¬ (2 ≤ h ∧ k = 0)) (n : Opt × List ℕ) (hn : IsCustomNode g M h k n) (thr : ℝ) (useFull : Bool)
    (c c' : Comps) (hwf : WellFormed g c) (hc0 : c ≠ [])
    (hc : applyOptical g thr useFull (standardKeys g) n [] c = some c') (vh vk : Vals) (sh sk : Name)
    (hvh : Valid g vh) (hvk : Valid g vk) (hsh : IsName g vh sh) (hsk : IsName g vk sk)
    (h1 : vh.getD h 0 = 1) (h2 : vh.getD k 0 = 0) (hsw : Swapped g.C h k vh vk) :
    ampOf c' sh = prune thr (M 0 0 * ampOf c sh + M 1 0 * ampOf c sk) ∧
    ampOf c' sk = prune thr (M 0 1 * ampOf c sh + M 1 1 * ampOf c sk) := by
  rw [isName_iff hvh] at hsh
  rw [isName_iff hvk] at hsk
  subst hsh hsk
  have hon : OnChannels g n := ⟨h, k, hh, hk, hne, hn.2⟩
  have hne' : vh ≠ vk := by
    rintro rfl
    have := hsw.1
    omega
  have hsw' : Swapped g.C h k vk vh := ⟨hsw.2.1.symm, hsw.1.symm, fun i hi a b => (hsw.2.2 i hi a b).symm⟩
  obtain ⟨-, g1, g2, g3, g4⟩ := C11_vacuum_and_single_photon g.L hL M
  have a1 := hsw.1
  have a2 := hsw.2.1
  rw [h2] at a1
  rw [h1] at a2
  rw [applied_amp hg hon hwf hc0 hc hvh, applied_amp hg hon hwf hc0 hc hvk]
  rw [sum_two hg hvh hvk hne' (fun u hu e1 e2 => custom_zero hg hh hk hne hbug hL hn hvh hvk hu hsw (by omega) e1 e2)]
  rw [sum_two hg hvh hvk hne' (fun u hu e1 e2 => custom_zero hg hh hk hne hbug hL hn hvk hvh hu hsw' (by omega) e2 e1)]
  rw [custom_entry hg hh hk hne hbug hn hvh hvh, custom_entry hg hh hk hne hbug hn hvh hvk,
    custom_entry hg hh hk hne hbug hn hvk hvh, custom_entry hg hh hk hne hbug hn hvk hvk,
    if_pos (fun _ _ _ _ => rfl), if_pos (fun i hi e1 e2 => (hsw.2.2 i hi e1 e2).symm), if_pos hsw.2.2,
    if_pos (fun _ _ _ _ => rfl), h1, h2, a1, a2, g1, g2, g3, g4]
  exact ⟨rfl, rfl⟩

/-- **C54 (partial)** For a symmetric optical matrix the pair of one-photon amplitudes `(x, y)` is mapped to `M (x, y)`, as
documented for the electric fields. All built-in elements have symmetric matrices (C17). Missing: non-symmetric matrices
(`C54_field_fails`). -/
theorem C54_field_partial (g : Cfg) (hg : g.Ok) (hL : 2 ≤ g.L) (M : Opt) (hM : M 0 1 = M 1 0) (h k : ℕ) (hh : h < g.C)
    (hk : k < g.C) (hne : h ≠ k) (hbug : ¬ (2 ≤ h ∧ k = 0)) (n : Opt × List ℕ) (hn : IsCustomNode g M h k n) (thr : ℝ)
    (useFull : Bool) (c c' : Comps) (hwf : WellFormed g c) (hc0 : c ≠ [])
    (hc : applyOptical g thr useFull (standardKeys g) n [] c = some c') (vh vk : Vals) (sh sk : Name)
    (hvh : Valid g vh) (hvk : Valid g vk) (hsh : IsName g vh sh) (hsk : IsName g vk sk)
    (h1 : vh.getD h 0 = 1) (h2 : vh.getD k 0 = 0) (hsw : Swapped g.C h k vh vk) :
    ampOf c' sh = prune thr (M.mulVec ![ampOf c sh, ampOf c sk] 0) ∧
    ampOf c' sk = prune thr (M.mulVec ![ampOf c sh, ampOf c sk] 1) := by
  obtain ⟨e1, e2⟩ := C54_field_actual g hg hL M h k hh hk hne hbug n hn thr useFull c c' hwf hc0 hc vh vk sh sk hvh hvk hsh
    hsk h1 h2 hsw
  rw [e1, e2]
  simp [Matrix.mulVec, dotProduct, Fin.sum_univ_two, hM]

/-- **C54 fails** for a non-symmetric (also unitary) matrix: with the rotation matrix `((3/5, 4/5), (-4/5, 3/5))` a photon
entering the first channel leaves through the second one with amplitude `4/5`, while `M` applied to the field `(1, 0)` has
second entry `-4/5`. -/
theorem C54_field_fails : ∃ (M : Opt), M ∈ Matrix.unitaryGroup (Fin 2) ℂ ∧ ∀ (useFull : Bool),
    ∃ c', applyOptical ⟨2, 2, true⟩ (1 / 1000) useFull (standardKeys ⟨2, 2, true⟩) (M, [0, 1]) []
        [(['1', '0'], ⟨1, 1⟩)] = some c' ∧
      IsCustomNode ⟨2, 2, true⟩ M 0 1 (M, [0, 1]) ∧
      ampOf c' ['0', '1'] = 4 / 5 ∧ M.mulVec ![1, 0] 1 = -(4 / 5) := by
  set g : Cfg := ⟨2, 2, true⟩ with hgdef
  have hg : g.Ok := by decide
  refine ⟨!![(3/5 : ℂ), 4/5; -4/5, 3/5], ?_, fun useFull => ?_⟩
  · rw [Matrix.mem_unitaryGroup_iff]
    ext i j
    fin_cases i <;> fin_cases j <;>
      simp [Matrix.mul_apply, Matrix.star_apply, Complex.conj_ofNat] <;> norm_num
  · set M : Opt := !![(3/5 : ℂ), 4/5; -4/5, 3/5] with hM
    have hv1 : Valid g [1, 0] := by decide
    have hv2 : Valid g [0, 1] := by decide
    have n1 : IsName g [1, 0] ['1', '0'] := (isName_iff hv1).2 (by decide)
    have n2 : IsName g [0, 1] ['0', '1'] := (isName_iff hv2).2 (by decide)
    have hwf : WellFormed g [(['1', '0'], ⟨1, 1⟩)] := by
      refine wf_cons.2 ⟨by simp [Dict.keys], ⟨[1, 0], hv1, (isName_iff hv1).1 n1⟩, wf_nil _⟩
    have hcn : IsCustomNode g M 0 1 (M, [0, 1]) := ⟨rfl, by decide⟩
    have hon : OnChannels g (M, [0, 1]) := ⟨0, 1, by decide, by decide, by decide, by decide⟩
    obtain ⟨c', hc', -⟩ := (C14_full_or_reduced g hg (1 / 1000) (M, [0, 1]) [] hon (by simp) _ hwf (by simp)).2
    have hc : applyOptical g (1 / 1000) useFull (standardKeys g) (M, [0, 1]) [] [(['1', '0'], ⟨1, 1⟩)] = some c' := by
      cases useFull
      · exact hc'
      · rw [(C14_full_or_reduced g hg (1 / 1000) (M, [0, 1]) [] hon (by simp) _ hwf (by simp)).1]; exact hc'
    refine ⟨c', hc, hcn, ?_, ?_⟩
    · have := (C54_field_actual g hg (by decide) M 0 1 (by decide) (by decide) (by decide) (by decide) _ hcn _ _ _ _ hwf
        (by simp) hc [1, 0] [0, 1] _ _ hv1 hv2 n1 n2 rfl rfl (by
          refine ⟨rfl, rfl, ?_⟩
          intro i hi a b
          have : i < 2 := hi
          omega)).2
      rw [this]
      have e1 : ampOf [(['1', '0'], ⟨1, 1⟩)] ['1', '0'] = 1 := by simp [ampOf_cons]
      have e2 : ampOf [(['1', '0'], ⟨1, 1⟩)] ['0', '1'] = 0 := by simp [ampOf_cons, ampOf_nil]
      rw [e1, e2, prune, hM]
      simp
      norm_num
    · simp [Matrix.mulVec, dotProduct, Fin.sum_univ_two, hM]
      norm_num

/-- **C20 (partial), on states** A single photon entering a 50/50 element in channel `a` is found afterwards in either
channel with probability exactly 1/2 (for a threshold of at most 1/2). Missing: the misaddressed pairs of C07. -/
theorem C20_single_photon_state_partial (g : Cfg) (hg : g.Ok) (hL : 2 ≤ g.L) (a b : ℕ) (ha : a < g.C) (hb : b < g.C)
    (hne : a ≠ b) (hbug : ¬ (2 ≤ a ∧ b = 0)) (n : Opt × List ℕ) (hn : mix5050 g a b = some n) (thr : ℝ)
    (hthr : thr ≤ 1 / 2) (useFull : Bool) (x : Comp) (hx : ‖x.amp‖ = 1) (c' : Comps) (va vb : Vals) (sa sb : Name)
    (hva : Valid g va) (hvb : Valid g vb) (hsa : IsName g va sa) (hsb : IsName g vb sb)
    (h1 : va.getD a 0 = 1) (h2 : va.getD b 0 = 0) (hsw : Swapped g.C a b va vb)
    (hc : applyOptical g thr useFull (standardKeys g) n [] [(sa, x)] = some c') :
    ‖ampOf c' sa‖ ^ 2 = 1 / 2 ∧ ‖ampOf c' sb‖ ^ 2 = 1 / 2 := by
  have hwf : WellFormed g [(sa, x)] := wf_cons.2 ⟨by simp [Dict.keys], ⟨va, hva, (isName_iff hva).1 hsa⟩, wf_nil _⟩
  have hne' : sa ≠ sb := by
    rw [isName_iff hva] at hsa
    rw [isName_iff hvb] at hsb
    rintro rfl
    have := g.stdName_inj hva.2 hvb.2 (hsa ▸ hsb)
    subst this
    have := hsw.1
    omega
  have hn' := hn
  unfold mix5050 genericRotation at hn'
  obtain ⟨tl, e, rfl⟩ := Option.map_eq_some_iff.1 hn'
  obtain ⟨e1, e2⟩ := C54_field_actual g hg hL _ a b ha hb hne hbug _ ⟨rfl, e⟩ thr useFull _ c' hwf (by simp) hc va vb sa sb hva
    hvb hsa hsb h1 h2 hsw
  have f1 : ampOf [(sa, x)] sa = x.amp := by simp [ampOf_cons]
  have f2 : ampOf [(sa, x)] sb = 0 := by simp [ampOf_cons, ampOf_nil, hne']
  have hp : ∀ y : ℂ, ‖y‖ ^ 2 = 1 / 2 → ‖prune thr (y * x.amp)‖ ^ 2 = 1 / 2 := by
    intro y hy
    rw [prune, if_neg, norm_mul, hx, mul_one, hy]
    rw [norm_mul, hx, mul_one, hy]; exact not_lt.2 hthr
  rw [e1, e2, f1, f2, mixMatrix]
  simp only [mul_zero, add_zero]
  exact ⟨hp _ norm_half, hp _ norm_half⟩

/-- **C20 (partial), on states** Hong-Ou-Mandel: if every component of a state has exactly one photon in each of the two
channels (length at least 3), no component of the resulting state has one photon in each.
Missing: the misaddressed pairs of C07. -/
theorem C20_hong_ou_mandel_state_partial (g : Cfg) (hg : g.Ok) (hL : 3 ≤ g.L) (a b : ℕ) (ha : a < g.C) (hb : b < g.C)
    (hne : a ≠ b) (hbug : ¬ (2 ≤ a ∧ b = 0)) (n : Opt × List ℕ) (hn : mix5050 g a b = some n) (thr : ℝ)
    (useFull : Bool) (c c' : Comps) (hwf : WellFormed g c) (hc0 : c ≠ [])
    (h11 : ∀ v s, Valid g v → IsName g v s → ¬ (v.getD a 0 = 1 ∧ v.getD b 0 = 1) → ampOf c s = 0)
    (hc : applyOptical g thr useFull (standardKeys g) n [] c = some c') (w : Vals) (s : Name) (hw : Valid g w)
    (hs : IsName g w s) (hw1 : w.getD a 0 = 1) (hw2 : w.getD b 0 = 1) : ampOf c' s = 0 := by
  rw [isName_iff hw] at hs
  subst hs
  obtain ⟨n', hn', hz⟩ := C20_hong_ou_mandel_partial g hg hL a b ha hb hne hbug
  rw [hn] at hn'
  obtain rfl := Option.some.inj hn'
  rw [applied_amp hg (rotation_onChannels ha hb hne hn) hwf hc0 hc hw, Finset.sum_eq_zero, prune]
  · simp
  · intro i hi
    have hi := Finset.mem_range.1 hi
    have hu := g.valid_valuesFromIndex hg.1 i
    by_cases h : (g.valuesFromIndex i).getD a 0 = 1 ∧ (g.valuesFromIndex i).getD b 0 = 1
    · have := hz w _ hw hu hw1 hw2 h.1 h.2
      rw [g.indexOf_valuesFromIndex hi] at this
      rw [this, zero_mul]
    · rw [show vec g c i = ampOf c (g.stdName (g.valuesFromIndex i)) from rfl, h11 _ _ hu ((isName_iff hu).2 rfl) h, mul_zero]

/-- non-vacuity: `|1,1>` for length 3 -/
example : ∃ c : Comps, WellFormed ⟨3, 2, true⟩ c ∧ c ≠ [] ∧ ∀ v s, Valid ⟨3, 2, true⟩ v → IsName ⟨3, 2, true⟩ v s →
    ¬ (v.getD 0 0 = 1 ∧ v.getD 1 0 = 1) → ampOf c s = 0 := by
  have hv : Valid ⟨3, 2, true⟩ [1, 1] := by decide
  have e : Cfg.stdName ⟨3, 2, true⟩ [1, 1] = ['1', '1'] := by decide
  refine ⟨[(['1', '1'], ⟨1, 1⟩)], wf_cons.2 ⟨by simp [Dict.keys], ⟨[1, 1], hv, e.symm⟩, wf_nil _⟩, by simp, ?_⟩
  intro v s hv' hs hno
  rw [isName_iff hv'] at hs
  rw [ampOf_cons, if_neg, ampOf_nil]
  intro h
  have h : ['1', '1'] = s := h
  rw [hs, ← e] at h
  have := Cfg.stdName_inj _ hv.2 hv'.2 h
  subst this
  exact hno ⟨rfl, rfl⟩

end Verif.Props
