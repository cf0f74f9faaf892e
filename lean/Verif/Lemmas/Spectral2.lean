/- Helper lemmas about spectral nodes: splitting and single photons in proper groups. -/
import Verif.Lemmas.Spectral
import Verif.Lemmas.Resolved6

namespace Verif
open Spec Props

theorem nextColumnId_fresh (cols : List Column) : nextColumnId cols ∉ cols.map (fun c => c.id) := by
  unfold nextColumnId
  rcases h : (List.range (cols.length + 1)).find? (fun n => !(cols.map (·.id)).contains n) with _ | n
  · exfalso
    rw [List.find?_eq_none] at h
    have hsub : List.range (cols.length + 1) ⊆ cols.map (·.id) := by
      intro n hn
      simpa using h n hn
    have hle := (List.nodup_range (n := cols.length + 1)).subperm hsub |>.length_le
    simp at hle
  · have := List.find?_some h
    rw [h, Option.getD_some]
    simpa using this

/-- A state without its optical components. -/
def skel (s : PState) : QState × Option PInfo := ({ s.q with comps := [] }, s.info)

/-- A column that was made from a column of `cols` by changing optical components only. -/
def Derived (cols : List Column) (d : Column) : Prop := ∃ c ∈ cols, d.states.map skel = c.states.map skel ∧ d.gprob = c.gprob ∧ d.boson = c.boson

theorem split_skel {g : Cfg} {c new rem : Column} (h : c.split g = some (some (new, rem))) (hw : ∀ s ∈ c.states, WellFormed g s.q.comps) :
    (new.states.map skel = c.states.map skel ∧ new.gprob = c.gprob ∧ new.boson = c.boson) ∧ (rem.states.map skel = c.states.map skel ∧ rem.gprob = c.gprob ∧ rem.boson = c.boson) ∧ rem.id = c.id := by
  rcases split_cases h hw with ⟨h0, _⟩ | ⟨pre, s, post, s0, k0, s1, k1, rest, r', e, _, _, hh⟩
  · cases h0
  · rcases hh with ⟨f, _, hr, _⟩ | ⟨_, hr, _⟩
    all_goals
      obtain ⟨rfl, rfl⟩ := Prod.mk.inj (Option.some.inj hr)
      rw [e]
      simp [skel]

theorem splitOnce_skel {g : Cfg} {cols cols' : List Column} {new : Column} (h : splitOnce g cols = some (some (cols', new))) (hw : WfCols g cols) :
    Derived cols new ∧ (∀ d ∈ cols', Derived cols d) ∧ cols'.map (fun c => c.id) = cols.map (fun c => c.id) := by
  induction cols generalizing cols' with
  | nil => cases h
  | cons c cols ih =>
    unfold splitOnce at h
    have hwc : WfCols g cols := fun d hd => hw d (List.mem_cons_of_mem _ hd)
    have hw0 := hw c List.mem_cons_self
    rcases hc : c.split g with _ | _ | ⟨n, rem⟩
    · rw [hc] at h; cases h
    · rw [hc] at h
      simp only [Option.bind_some] at h
      rcases ho : splitOnce g cols with _ | _ | ⟨d, n⟩
      · rw [ho] at h; cases h
      · rw [ho] at h; cases h
      · rw [ho] at h
        obtain ⟨rfl, rfl⟩ := Prod.mk.inj (Option.some.inj (Option.some.inj h))
        obtain ⟨⟨x, hx, h1⟩, h2, h3⟩ := ih ho hwc
        refine ⟨⟨x, List.mem_cons_of_mem _ hx, h1⟩, ?_, by rw [List.map_cons, List.map_cons, h3]⟩
        intro y hy
        rcases List.mem_cons.1 hy with rfl | hy
        · exact ⟨_, List.mem_cons_self, rfl, rfl, rfl⟩
        · obtain ⟨z, hz, e⟩ := h2 y hy
          exact ⟨z, List.mem_cons_of_mem _ hz, e⟩
    · rw [hc] at h
      obtain ⟨rfl, rfl⟩ := Prod.mk.inj (Option.some.inj (Option.some.inj h))
      obtain ⟨h1, h2, h3⟩ := split_skel hc hw0
      refine ⟨⟨c, List.mem_cons_self, h1⟩, ?_, by rw [List.map_cons, List.map_cons, h3]⟩
      intro y hy
      rcases List.mem_cons.1 hy with rfl | hy
      · exact ⟨c, List.mem_cons_self, h2⟩
      · exact ⟨y, List.mem_cons_of_mem _ hy, rfl, rfl, rfl⟩

theorem splitColumns_skel {g : Cfg} (fuel : ℕ) {cols out : List Column} (h : splitColumns g fuel cols = some out) (hw : WfCols g cols) (hn : (cols.map (fun c => c.id)).Nodup) :
    (∀ d ∈ out, Derived cols d) ∧ (out.map (fun c => c.id)).Nodup ∧ cols.length ≤ out.length := by
  induction fuel generalizing cols with
  | zero => cases h
  | succ fuel ih =>
    unfold splitColumns at h
    rcases ho : splitOnce g cols with _ | _ | ⟨cols', new⟩
    · rw [ho] at h; cases h
    · rw [ho] at h
      obtain rfl := Option.some.inj h
      exact ⟨fun d hd => ⟨d, hd, rfl, rfl, rfl⟩, hn, le_refl _⟩
    · rw [ho] at h
      simp only [Option.bind_some] at h
      obtain ⟨_, w2, w3⟩ := splitOnce_poly ho hw
      obtain ⟨k1, k2, k3⟩ := splitOnce_skel ho hw
      have hlen : cols'.length = cols.length := by simpa using congrArg List.length k3
      obtain ⟨e1, e2, e3⟩ := ih h (by
        intro d hd
        rcases List.mem_append.1 hd with hd | hd
        · exact w2 d hd
        · obtain rfl := List.mem_singleton.1 hd
          exact w3) (by
        rw [List.map_append, List.nodup_append]
        refine ⟨by rw [k3]; exact hn, by simp, ?_⟩
        intro a ha b hb e
        simp only [List.map_cons, List.map_nil, List.mem_singleton] at hb
        rw [e, hb] at ha
        exact nextColumnId_fresh cols' ha)
      refine ⟨?_, e2, by simp at e3; omega⟩
      intro d hd
      obtain ⟨x, hx, f1, f2, f3⟩ := e1 d hd
      rcases List.mem_append.1 hx with hx | hx
      · obtain ⟨y, hy, i1, i2, i3⟩ := k2 x hx
        exact ⟨y, hy, f1.trans i1, f2.trans i2, f3.trans i3⟩
      · obtain rfl := List.mem_singleton.1 hx
        obtain ⟨y, hy, i1, i2, i3⟩ := k1
        exact ⟨y, hy, f1.trans i1, f2.trans i2, f3.trans i3⟩

/-- A state with one component that has at most one photon. -/
def PhotonState (g : Cfg) (s : PState) : Prop := ∃ v a, Valid g v ∧ v.sum ≤ 1 ∧ s.q.comps = [(g.stdName v, ⟨a, ‖a‖ ^ 2⟩)]

theorem photonChannels_length (v : Vals) : (photonChannels v).length = v.sum := by
  have key : ∀ (v : Vals) (k : ℕ), ((v.zipIdx k).flatMap (fun p => List.replicate p.1 p.2)).length = v.sum := by
    intro v
    induction v with
    | nil => intro k; rfl
    | cons n v ih => intro k; rw [List.zipIdx_cons, List.flatMap_cons, List.length_append, ih]; simp
  exact key v 0

theorem sum_one_oneHot {v : Vals} (h : v.sum = 1) : ∃ ch, photonChannels v = [ch] ∧ v = oneHot v.length ch := by
  obtain ⟨ch, hch⟩ := List.length_eq_one_iff.1 ((photonChannels_length v).trans h)
  refine ⟨ch, hch, ?_⟩
  have := fold_oneHot hch
  simpa using this.symm

theorem oneHot_sum {n ch : ℕ} (h : ch < n) : (oneHot n ch).sum = 1 := by
  unfold oneHot
  rw [List.sum_set]
  simp [h]

theorem singlePhotons_photon {g : Cfg} {s : PState} (h : PhotonState g s) : singlePhotons g s = some ([s], 1) := by
  obtain ⟨v, a, hv, hs, hc⟩ := h
  rw [singlePhotons_eq hv hc]
  have hone : oneComp s (g.stdName v) a = s := by
    unfold oneComp
    rw [← hc]
  by_cases h1 : v.sum > 0
  · obtain ⟨ch, h2, h3⟩ := sum_one_oneHot (v := v) (by omega)
    rw [if_pos h1, h2, List.map_cons, List.map_nil, ← h3, hone, h3, bosonOf_oneHot]
  · rw [if_neg h1, hone, sum_zero_replicate h1, bosonOf_zero]

theorem singleStates_photon {g : Cfg} {c : Column} (h : ∀ s ∈ c.states, PhotonState g s) : c.singlePhotonStates g = some c := by
  unfold Column.singlePhotonStates
  have : c.states.mapM (singlePhotons g) = some (c.states.map (fun s => ([s], 1))) := by
    rw [mapM_some_iff, List.forall₂_map_right_iff, List.forall₂_same]
    exact fun s hs => singlePhotons_photon (h s hs)
  rw [this]
  obtain ⟨sts, a, b, p, i⟩ := c
  simp only [Option.map_some, List.map_map, Option.some.injEq, Column.mk.injEq, true_and, and_true]
  constructor
  · clear this h
    induction sts with
    | nil => rfl
    | cons s sts ih => simpa using ih
  · simp [Function.comp_def]

theorem PhotonState.length {g : Cfg} {s : PState} (h : PhotonState g s) : s.q.comps.length = 1 := by
  obtain ⟨v, a, _, _, hc⟩ := h
  rw [hc]; rfl

/-- Columns of single photons are not changed by splitting and expanding. -/
theorem toPhotons_photon {g : Cfg} (fuel : ℕ) {cols : List Column} (h : ∀ c ∈ cols, ∀ s ∈ c.states, PhotonState g s) : toPhotons g (fuel + 1) cols = some cols := by
  unfold toPhotons
  rw [splitColumns_all_single fuel (fun c hc s hs => (h c hc s hs).length), Option.bind_some]
  rw [mapM_some_iff, List.forall₂_same]
  exact fun c hc => singleStates_photon (h c hc)

/-- A photon state that comes from the state `s`. -/
theorem singlePhotons_out {g : Cfg} {s : PState} (hw : WellFormed g s.q.comps) (h1 : s.q.comps.length = 1) {l : List PState} {b : ℝ} (h : singlePhotons g s = some (l, b)) :
    l ≠ [] ∧ ∀ t ∈ l, PhotonState g t ∧ skel t = skel s := by
  obtain ⟨p, hp⟩ := List.length_eq_one_iff.1 h1
  obtain ⟨v, hv, hn⟩ := (wf_iff.1 hw).2 p (by rw [hp]; simp)
  obtain ⟨nm, k⟩ := p
  simp only at hn
  subst hn
  rw [singlePhotons_eq hv hp] at h
  obtain ⟨rfl, rfl⟩ := Prod.mk.inj (Option.some.inj h)
  by_cases hs : v.sum > 0
  · rw [if_pos hs]
    constructor
    · intro h0
      have := photonChannels_length v
      rw [List.map_eq_nil_iff.1 h0] at this
      simp at this
      omega
    · intro t ht
      obtain ⟨ch, hch, rfl⟩ := List.mem_map.1 ht
      have hlt := (mem_photonChannels hch).1
      exact ⟨⟨oneHot v.length ch, k.amp, valid_oneHot hv hch, (oneHot_sum hlt).le, rfl⟩, rfl⟩
  · rw [if_neg hs]
    refine ⟨by simp, ?_⟩
    intro t ht
    obtain rfl := List.mem_singleton.1 ht
    exact ⟨⟨v, k.amp, hv, by omega, rfl⟩, rfl⟩

end Verif
