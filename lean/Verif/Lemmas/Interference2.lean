/-
Lemmas for the Born rule: splitting a group into columns of single photons.
-/
import Verif.Lemmas.Interference
import Verif.Lemmas.PlotResolved

namespace Verif
open Spec Props MvPolynomial

theorem numbersPhase_norm {α : ℕ → ℂ} (hα : ∀ ch, ‖α ch‖ = 1) (v : Vals) : ‖numbersPhase α v‖ = 1 := by
  unfold numbersPhase
  rw [norm_prod]
  exact Finset.prod_eq_one (fun ch _ => by rw [norm_pow, hα, one_pow])

/-- The factor only depends on the numbers in the channels. -/
theorem numbersPhase_eq {g : Cfg} (α : ℕ → ℂ) {v : Vals} (hv : v.length = g.C) : numbersPhase α v = ∏ ch ∈ Finset.range g.C, α ch ^ (v.getD ch 0) := by
  unfold numbersPhase
  rw [hv]

theorem numbersPhase_sum {g : Cfg} (α : ℕ → ℂ) {V : Vals} {vs : List Vals} (hV : V.length = g.C) (hl : ∀ w ∈ vs, w.length = g.C)
    (h : ∀ ch < g.C, V.getD ch 0 = (vs.map (fun w => w.getD ch 0)).sum) : numbersPhase α V = (vs.map (numbersPhase α)).prod := by
  rw [numbersPhase_eq α hV]
  have : ∀ l : List Vals, (∀ w ∈ l, w.length = g.C) → (l.map (numbersPhase α)).prod = ∏ ch ∈ Finset.range g.C, α ch ^ ((l.map (fun w => w.getD ch 0)).sum) := by
    intro l
    induction l with
    | nil => intro _; simp
    | cons w l ih =>
      intro hl
      rw [List.map_cons, List.prod_cons, ih (fun x hx => hl x (List.mem_cons_of_mem _ hx)), numbersPhase_eq α (hl w List.mem_cons_self), ← Finset.prod_mul_distrib]
      refine Finset.prod_congr rfl (fun ch _ => ?_)
      rw [List.map_cons, List.sum_cons, pow_add]
  rw [this vs hl]
  exact Finset.prod_congr rfl (fun ch hch => by rw [h ch (Finset.mem_range.1 hch)])

/-- The photon numbers of a column are the sums of those of its states. -/
theorem columnValues_sum {g : Cfg} {c : Column} {vs : List Vals} (h : c.states.mapM (firstValues g) = some vs) (hne : vs ≠ []) (hl : ∀ w ∈ vs, w.length = g.C) :
    ∃ V : Vals, columnValues g c = some V ∧ V.length = g.C ∧ ∀ ch, V.getD ch 0 = (vs.map (fun w => w.getD ch 0)).sum := by
  rcases vs with _ | ⟨v, vs⟩
  · exact absurd rfl hne
  · refine ⟨_, columnValues_eq h, (fold_getD vs v (hl v List.mem_cons_self) (fun w hw => hl w (List.mem_cons_of_mem _ hw)) 0).2, ?_⟩
    intro ch
    rw [(fold_getD vs v (hl v List.mem_cons_self) (fun w hw => hl w (List.mem_cons_of_mem _ hw)) ch).1, List.map_cons, List.sum_cons]

theorem valid_of_lt {g : Cfg} {v : Vals} (hl : v.length = g.C) (h : ∀ ch < g.C, v.getD ch 0 < g.L) : Valid g v := by
  refine ⟨hl, ?_⟩
  intro x hx
  obtain ⟨i, hi, rfl⟩ := List.mem_iff_getElem.1 hx
  have := h i (by rw [← hl]; exact hi)
  rwa [List.getD_eq_getElem _ _ hi] at this

/-- A column of a group that can be measured. -/
structure InterferingColumn (g : Cfg) (m : ℕ) (gp : ℝ) (α : ℕ → ℂ) (c : Column) : Prop where
  states : ∀ s ∈ c.states, InterferingState g α s
  fits : ∀ ws : List Vals, List.Forall₂ (fun (s : PState) w => ∃ p ∈ s.q.comps, IsName g w p.1 ∧ Valid g w) c.states ws → ∀ ch < g.C, (ws.map (fun w => w.getD ch 0)).sum < g.L
  nonempty : c.states ≠ []
  amp : c.amp ≠ 0
  boson : 0 < c.boson
  gprob : c.gprob = gp
  classical : ∀ s ∈ c.states, s.q.classical.length = m

theorem interfering_unit {g : Cfg} {α : ℕ → ℂ} (s : PState) {nm : Name} (q : ℝ) (h : ∃ v, Valid g v ∧ IsName g v nm) (hα : ∀ v, Valid g v → IsName g v nm → numbersPhase α v = 1) :
    InterferingState g α { s with q := { s.q with comps := [(nm, ⟨1, q⟩)] } } := by
  refine ⟨splits_unit q h, ?_, ?_⟩
  · intro v n k e hv hn
    obtain ⟨rfl, rfl⟩ := Prod.mk.inj (List.cons.inj e).1
    exact ⟨(hα v hv hn).symm, Or.inr rfl⟩
  · intro h2; simp at h2

theorem interfering_split {g : Cfg} {m : ℕ} {gp : ℝ} {α : ℕ → ℂ} (c new rem : Column) (hc : InterferingColumn g m gp α c) (h : c.split g = some (some (new, rem))) :
    InterferingColumn g m gp α new ∧ InterferingColumn g m gp α rem := by
  rcases split_cases h (fun s hs' => (hc.states s hs').splits.wf) with ⟨h0, _⟩ | ⟨pre, s, post, s0, k0, s1, k1, rest, r', e, _, hcc, hcase⟩
  · cases h0
  have hs := hc.states s (by rw [e]; simp)
  have hsev := hs.several (by rw [hcc]; simp)
  have hws : WellFormed g s.q.comps := hs.splits.wf
  obtain ⟨ht, ha⟩ := hs.splits.norm (by rw [hcc]; simp)
  have key : ∀ (comps : Comps) (d : Column), (∀ p ∈ comps, ∃ p' ∈ s.q.comps, p'.1 = p.1) → InterferingState g α { s with q := { s.q with comps := comps } } →
      d.states = pre ++ { s with q := { s.q with comps := comps } } :: post → d.amp ≠ 0 → d.boson = c.boson → d.gprob = c.gprob → InterferingColumn g m gp α d := by
    intro comps d hcomp hint hst hamp hbos hgp
    have hmem : ∀ t ∈ d.states, t = { s with q := { s.q with comps := comps } } ∨ t ∈ c.states := by
      intro t ht
      rw [hst] at ht
      rcases List.mem_append.1 ht with h | h
      · exact Or.inr (by rw [e]; simp [h])
      · rcases List.mem_cons.1 h with rfl | h
        · exact Or.inl rfl
        · exact Or.inr (by rw [e]; simp [h])
    refine ⟨?_, ?_, by rw [hst]; simp, hamp, by rw [hbos]; exact hc.boson, by rw [hgp]; exact hc.gprob, ?_⟩
    · intro t ht
      rcases hmem t ht with rfl | h
      · exact hint
      · exact hc.states t h
    · intro ws hf
      refine hc.fits ws ?_
      rw [e]
      rw [hst] at hf
      refine forall₂_mid ?_ hf
      rintro w ⟨p, hp, hw⟩
      obtain ⟨p', hp', hn⟩ := hcomp p hp
      exact ⟨p', hp', by rw [hn]; exact hw⟩
    · intro t ht
      rcases hmem t ht with rfl | h
      · exact hc.classical s (by rw [e]; simp)
      · exact hc.classical t h
  have m0 : (s0, k0) ∈ s.q.comps := by rw [hcc]; simp
  have m1 : (s1, k1) ∈ s.q.comps := by rw [hcc]; simp
  have i0 : InterferingState g α { s with q := { s.q with comps := [(s0, ⟨1, ‖(1 : ℂ)‖ ^ 2⟩)] } } :=
    interfering_unit s _ (hws.named _ m0) (fun v hv hn => hsev _ m0 v hv hn)
  have hk0 : ∀ p ∈ [(s0, (⟨1, ‖(1 : ℂ)‖ ^ 2⟩ : Comp))], ∃ p' ∈ s.q.comps, p'.1 = p.1 := by
    intro p hp
    obtain rfl := List.mem_singleton.1 hp
    exact ⟨_, m0, rfl⟩
  rcases hcase with ⟨f, hf, hr, hrest, hfe, hr'⟩ | ⟨hrest, hr, hr'⟩
  · obtain ⟨rfl, rfl⟩ := Prod.mk.inj (Option.some.inj hr)
    refine ⟨key _ _ hk0 i0 rfl (mul_ne_zero hc.amp (ha _ m0)) rfl rfl, key r' _ ?_ ?_ rfl (mul_ne_zero hc.amp hf) rfl rfl⟩
    · intro p hp
      rw [hr'] at hp
      obtain ⟨q, hq, rfl⟩ := List.mem_map.1 hp
      exact ⟨q, by rw [hcc]; exact List.mem_cons_of_mem _ hq, rfl⟩
    · obtain ⟨_, hrem, _⟩ := split_prob h (fun s hs' => (hc.states s hs').splits) (fun _ => True) splits_ignore
      have hsp : Splits g r' := hrem { s with q := { s.q with comps := r' } } (by simp)
      have h2 : ∀ p ∈ r', ∀ v : Vals, Valid g v → IsName g v p.1 → numbersPhase α v = 1 := by
        intro p hp v hv hn
        rw [hr'] at hp
        obtain ⟨q, hq, rfl⟩ := List.mem_map.1 hp
        exact hsev q (by rw [hcc]; exact List.mem_cons_of_mem _ hq) v hv hn
      refine ⟨hsp, ?_, fun _ => h2⟩
      intro v n k e1
      exfalso
      have e2 := congrArg List.length e1
      simp only [hr', List.length_map, List.length_cons, List.length_nil] at e2
      exact hrest (List.length_eq_zero_iff.1 (by omega))
  · obtain ⟨rfl, rfl⟩ := Prod.mk.inj (Option.some.inj hr)
    refine ⟨key _ _ hk0 i0 rfl (mul_ne_zero hc.amp (ha _ m0)) rfl rfl, key r' _ ?_ ?_ rfl (mul_ne_zero hc.amp (ha _ m1)) rfl rfl⟩
    · intro p hp
      rw [hr'] at hp
      obtain rfl := List.mem_singleton.1 hp
      exact ⟨_, m1, rfl⟩
    · rw [hr']
      exact interfering_unit s _ (hws.named _ m1) (fun v hv hn => hsev _ m1 v hv hn)

theorem interfering_columns {g : Cfg} {m : ℕ} {gp : ℝ} {α : ℕ → ℂ} (fuel : ℕ) {cols out : List Column} (h : splitColumns g fuel cols = some out)
    (hs : ∀ c ∈ cols, InterferingColumn g m gp α c) : ∀ c ∈ out, InterferingColumn g m gp α c :=
  splitColumns_inv interfering_split (fun _ _ hc => ⟨hc.states, hc.fits, hc.nonempty, hc.amp, hc.boson, hc.gprob, hc.classical⟩) fuel h hs

/-! ### Single photons -/

theorem singlePhotons_all {g : Cfg} {α : ℕ → ℂ} {s : PState} (h : InterferingState g α s) (h1 : s.q.comps.length = 1) :
    ∃ (v : Vals) (l : List PState) (b : ℝ) (ws : List Vals), HasNums g s v ∧ singlePhotons g s = some (l, b) ∧ 0 < b ∧ l ≠ [] ∧
      (l.map (statePoly g)).prod = C (b : ℂ) * statePoly g s ∧ (l.map headAmp).prod = numbersPhase α v ∧
      l.mapM (firstValues g) = some ws ∧ (∀ w ∈ ws, w.length = g.C) ∧ (∀ ch, v.getD ch 0 = (ws.map (fun w => w.getD ch 0)).sum) ∧
      ∀ t ∈ l, PhotonState g t ∧ skel t = skel s := by
  obtain ⟨⟨nm, k⟩, hp⟩ := List.length_eq_one_iff.1 h1
  obtain ⟨v, hv, hn⟩ := (wf_iff.1 h.splits.wf).2 (nm, k) (by rw [hp]; simp)
  simp only at hn
  subst hn
  have hk := h.single v _ k hp hv ((isName_iff hv).2 rfl)
  have he := singlePhotons_eq hv hp
  generalize hl : (if v.sum > 0 then (photonChannels v).map (fun ch => oneComp s (g.stdName (oneHot v.length ch)) k.amp) else [oneComp s (g.stdName v) k.amp]) = l at he
  obtain ⟨hne, hout⟩ := singlePhotons_out h.splits.wf h1 he
  have hvals : ∃ ws, l.mapM (firstValues g) = some ws ∧ (∀ w ∈ ws, w.length = g.C) ∧ ∀ ch, v.getD ch 0 = (ws.map (fun w => w.getD ch 0)).sum := by
    by_cases hs : v.sum > 0
    · rw [if_pos hs] at hl
      refine ⟨(photonChannels v).map (oneHot v.length), ?_, ?_, ?_⟩
      · rw [← hl, mapM_some_iff, List.forall₂_map_left_iff, List.forall₂_map_right_iff, List.forall₂_same]
        exact fun ch hch => firstValues_nums ⟨valid_oneHot hv hch, _, rfl⟩
      · intro w hw
        obtain ⟨ch, hch, rfl⟩ := List.mem_map.1 hw
        exact (valid_oneHot hv hch).1
      · intro ch
        rw [List.map_map, ← count_channels v ch]
        have hlt : ∀ x ∈ photonChannels v, x < v.length := fun x hx => (mem_photonChannels hx).1
        generalize photonChannels v = cs at hlt
        induction cs with
        | nil => rfl
        | cons x cs ih =>
          rw [List.count_cons, ih (fun y hy => hlt y (List.mem_cons_of_mem _ hy)), List.map_cons, List.sum_cons, add_comm]
          congr 1
          simp only [Function.comp_apply, oneHot]
          have hx := hlt x List.mem_cons_self
          by_cases e : x = ch
          · subst e
            rw [getD_set_self (by simpa using hx)]
            simp
          · rw [getD_set_ne e]
            simp [e]
    · rw [if_neg hs] at hl
      refine ⟨[v], ?_, ?_, ?_⟩
      · rw [← hl, mapM_some_iff]
        exact .cons (firstValues_nums ⟨hv, _, rfl⟩) .nil
      · intro w hw
        obtain rfl := List.mem_singleton.1 hw
        exact hv.1
      · intro ch; simp
  obtain ⟨ws, w1, w2, w3⟩ := hvals
  refine ⟨v, l, bosonOf v, ws, ⟨hv, k, hp⟩, he, bosonOf_pos v, hne, ?_, ?_, w1, w2, w3, hout⟩
  · rcases hk.2 with hle | hone
    · have hsame : l = [oneComp s (g.stdName v) k.amp] ∧ bosonOf v = 1 := by
        by_cases hs : v.sum > 0
        · obtain ⟨ch, h2, h3⟩ := sum_one_oneHot (v := v) (by omega)
          refine ⟨?_, by rw [h3, bosonOf_oneHot]⟩
          rw [← hl, if_pos hs, h2, List.map_cons, List.map_nil, ← h3]
        · refine ⟨by rw [← hl, if_neg hs], by rw [sum_zero_replicate hs, bosonOf_zero]⟩
      rw [hsame.1, hsame.2]
      simp only [List.map_cons, List.map_nil, List.prod_cons, List.prod_nil, mul_one, Complex.ofReal_one, C_1, one_mul]
      rw [statePoly_single s hv hp, statePoly_single (oneComp s (g.stdName v) k.amp) hv rfl]
      rfl
    · exact (singlePhotons_poly hv hp hone he).1
  · rcases hk.2 with hle | hone
    · have hsame : l = [oneComp s (g.stdName v) k.amp] := by
        by_cases hs : v.sum > 0
        · obtain ⟨ch, h2, h3⟩ := sum_one_oneHot (v := v) (by omega)
          rw [← hl, if_pos hs, h2, List.map_cons, List.map_nil, ← h3]
        · rw [← hl, if_neg hs]
      rw [hsame]
      simp [headAmp, oneComp, hk.1]
    · rw [← hk.1, hone]
      refine List.prod_eq_one ?_
      intro x hx
      obtain ⟨t, ht, rfl⟩ := List.mem_map.1 hx
      rw [← hl, hone] at ht
      split at ht
      · obtain ⟨ch, _, rfl⟩ := List.mem_map.1 ht
        simp [headAmp, oneComp]
      · obtain rfl := List.mem_singleton.1 ht
        simp [headAmp, oneComp]

end Verif
