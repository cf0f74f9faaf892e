/-
Property C125: quantum teleportation.
-/
import Verif.Lemmas.Teleport

namespace Verif.Props
open Verif Spec MvPolynomial

/-- the teleportation circuit: two beam splitters, measurement of the four channels, classical rule, wave plate on Bob's photon -/
structure TeleportCircuit (c : Circ) (sH sV aH aV bH bV k₀ k₁ k₂ k₃ x y : ℕ) (f : List ℝ → List ℝ → List ℤ → Option (List ℝ)) (nv : List ℝ) (af : List ℤ) : Prop where
  ok : c.g.Ok
  thr : 0 < c.thr
  channels : TeleportChannels c.g.C sH sV aH aV bH bV
  results : [k₀, k₁, k₂, k₃].Nodup ∧ ∀ k ∈ [k₀, k₁, k₂, k₃], k < c.m
  rule : TeleportRule c.m k₀ k₁ k₂ k₃ x y (fun vals => f vals nv af)
  nodes : ∃ mixH mixV ctl, mix5050 c.g sH aH = some mixH ∧ mix5050 c.g sV aV = some mixV ∧ wavePlateControl c.g c.m bH bV x y = some ctl ∧
    c.nodes = opticals [mixH, mixV] ++ [.measurement [sH, sV, aH, aV] [k₀, k₁, k₂, k₃], .classical f nv af, ctl]

/-- the gates of the circuit -/
noncomputable def teleportGates (sH sV aH aV : ℕ) : List Gate := [⟨genericMatrix (Real.pi / 8) Real.pi, sH, aH⟩, ⟨genericMatrix (Real.pi / 8) Real.pi, sV, aV⟩]

theorem shown_numbers {cls o : List ℕ} {q : QState} (hl : o.length = cls.length) (hs : ∀ i x : ℕ, cls[i]? = some x → q.classical[x]? = (o[i]?).map (fun n : ℕ => (n : ℝ))) (v : List ℕ) :
    Shown (cls.map (fun n : ℕ => (n : ℤ))) q (v.map (fun n : ℕ => (n : ℝ))) ↔ v = o := by
  unfold Shown
  rw [List.forall₂_iff_get]
  simp only [List.length_map, List.get_eq_getElem, List.getElem_map, pyGet_nat]
  constructor
  · rintro ⟨h1, h2⟩
    apply List.ext_getElem (by omega)
    intro i l1 l2
    have := h2 i (by omega) l1
    rw [hs i _ (List.getElem?_eq_getElem (by omega)), List.getElem?_eq_getElem l2] at this
    simpa using this.symm
  · rintro rfl
    refine ⟨by omega, fun i l1 l2 => ?_⟩
    rw [hs i _ (List.getElem?_eq_getElem (by omega)), List.getElem?_eq_getElem (by omega)]
    rfl

/-- everything about the final states -/
theorem teleport_main (env : ℕ → Circ) (rnd : ℕ → ℕ → Bool → ℕ → ℕ → ℕ) (j : ℕ) (c : Circ) (hc : env j = c) (sH sV aH aV bH bV k₀ k₁ k₂ k₃ x y : ℕ)
    (f : List ℝ → List ℝ → List ℤ → Option (List ℝ)) (nv : List ℝ) (af : List ℤ) (hT : TeleportCircuit c sH sV aH aV bH bV k₀ k₁ k₂ k₃ x y f nv af)
    (id : List Char) (q : QState) (hq : Sendable c.g c.m q) (A B : MvPolynomial Mode ℂ) (hA : Without [sH, sV, aH, aV, bH, bV] A) (hB : Without [sH, sV, aH, aV, bH, bV] B)
    (hP : statePolynomial c.g q = teleportIn sH sV aH aV bH bV A B) (hd : NotDropped c.g c.thr (opticsSubst (teleportGates sH sV aH aV) (teleportIn sH sV aH aV bH bV A B)))
    (fuel : ℕ) (hf : 5 < fuel) :
    ∃ out, evalAll env rnd fuel j [(id, q)] = some out ∧
      ∃ os : List (List ℕ), os.Nodup ∧ (∀ o, o ∈ os ↔ findProb c.g 0 (opticsSubst (teleportGates sH sV aH aV) (teleportIn sH sV aH aV bH bV A B)) [sH, sV, aH, aV] o ≠ 0) ∧
      List.Forall₂ (fun o p => (∀ v : List ℕ, Shown ([k₀, k₁, k₂, k₃].map (fun n : ℕ => (n : ℤ))) p.2 (v.map (fun n : ℕ => (n : ℝ))) ↔ v = o) ∧ p.2.initial = q.initial ∧
        p.2.cum = q.cum * findProb c.g 0 (opticsSubst (teleportGates sH sV aH aV) (teleportIn sH sV aH aV bH bV A B)) [sH, sV, aH, aV] o ∧
        ∀ pr ∈ teleportPairs sH sV aH aV, o = foundPair [sH, sV, aH, aV] pr.1 pr.2 → ∃ κ : ℂ, κ ≠ 0 ∧
          statePolynomial c.g p.2 = C κ * (addPhoton pr.1 * addPhoton pr.2) * (addPhoton bH * A + addPhoton bV * B)) os out := by
  obtain ⟨mixH, mixV, ctl, hm1, hm2, hctl, hk⟩ := hT.nodes
  obtain ⟨o1, o2, o3⟩ := hT.channels.order
  have hex := hT.channels.exist
  have hdiff := hT.channels.different
  have hd' := hdiff
  simp only [List.nodup_cons, List.mem_cons, List.not_mem_nil, or_false, not_or, not_false_eq_true, List.nodup_nil, and_true] at hd'
  obtain ⟨⟨h1, h2, h3, h4, h5⟩, ⟨h6, h7, h8, h9⟩, ⟨h10, h11, h12⟩, ⟨h13, h14⟩, h15⟩ := hd'
  have hA4 : Without [sH, sV, aH, aV] A := without_mono (by simp +contextual [or_imp]) hA
  have hB4 : Without [sH, sV, aH, aV] B := without_mono (by simp +contextual [or_imp]) hB
  have hA2 : Without [bH, bV] A := without_mono (by simp +contextual [or_imp]) hA
  have hB2 : Without [bH, bV] B := without_mono (by simp +contextual [or_imp]) hB
  have hu : LosslessElements c.g (teleportGates sH sV aH aV) [mixH, mixV] := by
    refine ⟨.cons (gateNode_of (hex _ (by simp)) (hex _ (by simp)) h2 o1 hm1) (.cons (gateNode_of (hex _ (by simp)) (hex _ (by simp)) h7 o2 hm2) .nil), ?_⟩
    intro e he
    simp only [teleportGates, List.mem_cons, List.not_mem_nil, or_false] at he
    rcases he with rfl | rfl <;> exact (C17_wave_plate _ _ 0).1
  set E := opticsSubst (teleportGates sH sV aH aV) (teleportIn sH sV aH aV bH bV A B) with hE
  have hEq : opticsSubst (teleportGates sH sV aH aV) (statePolynomial c.g q) = E := by rw [hP]
  have hdq : NotDropped c.g c.thr (opticsSubst (teleportGates sH sV aH aV) (statePolynomial c.g q)) := by rw [hEq]; exact hd
  have hle := fun o => findProb_le_one hT.ok hT.thr hu hq hdq [sH, sV, aH, aV] o
  rw [hEq] at hle
  have hrule := hT.rule
  obtain ⟨out, hout, idx, i1, i2, i3⟩ := C124_feed_forward_partial env rnd j c hc hT.ok hT.thr (teleportGates sH sV aH aV) mixH [mixV] hu [sH, sV, aH, aV] [k₀, k₁, k₂, k₃] rfl
    hT.results.1 hT.results.2 f nv af bH bV x y (hex _ (by simp)) (hex _ (by simp)) h15 o3 ctl hctl hk [(id, q)] (by simp) (by simpa using hq)
    (by intro p hp; rw [List.mem_singleton.1 hp]; exact hdq)
    (by
      intro p hp o q₁ hfs
      rw [List.mem_singleton.1 hp] at hfs
      rw [hEq] at hfs
      obtain ⟨vals', r1, r2, -, r4, r5, r6⟩ := hrule q₁.classical (hfs.length.trans hq.measurable.classical)
      obtain ⟨φ, hφ, hφ'⟩ : ∃ φ, vals'[y]? = some φ ∧ (φ = 0 ∨ φ = Real.pi) := by
        by_cases hcs : (q₁.classical[k₀]? = some 1 ∧ q₁.classical[k₁]? = some 1 ∨ q₁.classical[k₂]? = some 1 ∧ q₁.classical[k₃]? = some 1)
        · exact ⟨_, r5 hcs, .inr rfl⟩
        · exact ⟨_, r6 hcs, .inl rfl⟩
      refine ⟨vals', 0, φ, r1, r2, r4, hφ, notDropped_plate h15 ?_ φ hφ'⟩
      rw [hfs.poly]
      exact notDropped_found hd _ _ (lt_of_le_of_ne (findProb_nonneg hT.ok.1 _ _ _ _) hfs.possible.symm) (hle o))
    fuel (by simpa using hf)
  refine ⟨out, hout, idx.map Prod.snd, ?_, ?_, ?_⟩
  · refine List.Nodup.map_on ?_ i1
    intro a ha b hb e
    have e1 := ((i2 a).1 ha).1
    have e2 := ((i2 b).1 hb).1
    rw [List.mem_singleton] at e1 e2
    exact Prod.ext (e1.trans e2.symm) e
  · intro o
    rw [List.mem_map]
    constructor
    · rintro ⟨a, ha, rfl⟩
      obtain ⟨e1, e2⟩ := (i2 a).1 ha
      rw [List.mem_singleton.1 e1, hEq] at e2
      exact e2
    · intro ho
      exact ⟨((id, q), o), (i2 _).2 ⟨by simp, by rw [hEq]; exact ho⟩, rfl⟩
  · rw [List.forall₂_map_left_iff]
    refine forall₂_mem_imp_left ?_ i3
    intro i p hi
    have hi1 := ((i2 i).1 hi).1
    rw [List.mem_singleton] at hi1
    obtain ⟨i, o⟩ := i
    obtain rfl : i = (id, q) := hi1
    simp only [hEq]
    rintro ⟨q₁, hfs, fed⟩
    obtain ⟨vals', r1, r2, r3, r4, r5, r6⟩ := hrule q₁.classical (hfs.length.trans hq.measurable.classical)
    obtain rfl : vals' = p.2.classical := Option.some.inj (r1.symm.trans fed.classical)
    have holen : o.length = [k₀, k₁, k₂, k₃].length := by
      obtain ⟨w, -, e⟩ := findProb_reads hT.ok.1 hfs.possible
      rw [← e]; simp [outcomeOf]
    refine ⟨shown_numbers holen (fun a b hab => ?_), fed.initial.trans hfs.initial, fed.cum.trans hfs.cum, ?_⟩
    · rw [r3 b (List.mem_of_getElem? hab), hfs.shown a b hab]
    intro pr hpr ho
    obtain ⟨θ, φ, f1, f2, f3⟩ := fed.poly
    obtain rfl : θ = 0 := Option.some.inj (f1.symm.trans r4)
    obtain ⟨κ, hκ, hpoly⟩ : ∃ κ : ℂ, κ ≠ 0 ∧ statePolynomial c.g q₁ = C κ * (addPhoton pr.1 * (addPhoton pr.2 *
        (C (teleportSign sH sV aH aV pr).1 * (addPhoton bH * A) + C (teleportSign sH sV aH aV pr).2 * (addPhoton bV * B)))) := by
      have hpos := hfs.possible
      have e := hfs.poly
      rw [ho] at e hpos
      have hpos' : 0 < findProb c.g 0 E [sH, sV, aH, aV] (foundPair [sH, sV, aH, aV] pr.1 pr.2) := lt_of_le_of_ne (findProb_nonneg hT.ok.1 _ _ _ _) hpos.symm
      refine ⟨1 / (Real.sqrt (findProb c.g 0 E [sH, sV, aH, aV] (foundPair [sH, sV, aH, aV] pr.1 pr.2)) : ℂ) * (((Real.sqrt 2 / 2 : ℝ) : ℂ) / 2), ?_, ?_⟩
      · have : Real.sqrt 2 ≠ 0 := by simp
        simp [Real.sqrt_ne_zero'.2 hpos', this]
      · rw [e]
        conv_lhs => rw [hE, teleportGates, teleport_found hdiff hA4 hB4 pr hpr]
        rw [hE, teleportGates, C_mul]
        ring
    have hκ2 : -κ ≠ 0 := neg_ne_zero.2 hκ
    have s0 := hfs.shown 0 k₀ rfl
    have s1 := hfs.shown 1 k₁ rfl
    have s2 := hfs.shown 2 k₂ rfl
    have s3 := hfs.shown 3 k₃ rfl
    rw [ho] at s0 s1 s2 s3
    have pl : ∀ M : Opt, gateSubst M bH bV A = A := fun M => gateSubst_without hA2
    have pl' : ∀ M : Opt, gateSubst M bH bV B = B := fun M => gateSubst_without hB2
    rw [f3, hpoly]
    simp only [teleportPairs, List.mem_cons, List.not_mem_nil, or_false] at hpr
    rcases hpr with rfl | rfl | rfl | rfl
    · simp [foundPair, h1, h2, h3, h6, h7, h10, Ne.symm h1, Ne.symm h2, Ne.symm h3, Ne.symm h6, Ne.symm h7, Ne.symm h10] at s0 s1 s2 s3
      obtain rfl : φ = Real.pi := Option.some.inj (f2.symm.trans (r5 (by simp [s0, s1, s2, s3])))
      refine ⟨-κ, hκ2, ?_⟩
      simp only [map_mul, map_add, gateSubst_C, pl, pl', gateSubst_addPhoton_h, gateSubst_addPhoton_c h15, gateSubst_addPhoton_other h4 h5, gateSubst_addPhoton_other h8 h9, piMatrix]
      simp [teleportSign, -one_div]
      ring
    · simp [foundPair, h1, h2, h3, h6, h7, h10, Ne.symm h1, Ne.symm h2, Ne.symm h3, Ne.symm h6, Ne.symm h7, Ne.symm h10] at s0 s1 s2 s3
      obtain rfl : φ = 0 := Option.some.inj (f2.symm.trans (r6 (by simp [s0, s1, s2, s3])))
      refine ⟨κ, hκ, ?_⟩
      rw [plate_zero]
      simp [teleportSign, h7, Ne.symm h7, -one_div]
      ring
    · simp [foundPair, h1, h2, h3, h6, h7, h10, Ne.symm h1, Ne.symm h2, Ne.symm h3, Ne.symm h6, Ne.symm h7, Ne.symm h10] at s0 s1 s2 s3
      obtain rfl : φ = 0 := Option.some.inj (f2.symm.trans (r6 (by simp [s0, s1, s2, s3])))
      refine ⟨-κ, hκ2, ?_⟩
      rw [plate_zero]
      simp [teleportSign, h2, Ne.symm h2, -one_div]
      ring
    · simp [foundPair, h1, h2, h3, h6, h7, h10, Ne.symm h1, Ne.symm h2, Ne.symm h3, Ne.symm h6, Ne.symm h7, Ne.symm h10] at s0 s1 s2 s3
      obtain rfl : φ = Real.pi := Option.some.inj (f2.symm.trans (r5 (by simp [s0, s1, s2, s3])))
      refine ⟨κ, hκ, ?_⟩
      simp only [map_mul, map_add, gateSubst_C, pl, pl', gateSubst_addPhoton_h, gateSubst_addPhoton_c h15, gateSubst_addPhoton_other h11 h12, gateSubst_addPhoton_other h13 h14, piMatrix]
      simp [teleportSign, h2, Ne.symm h2, h7, Ne.symm h7, -one_div]
      ring

/-- **C125 (partial)** Teleportation: whenever the two photons are found in one of the four pairs of channels `teleportPairs`, Bob's photon is in the state of the photon that was sent, including
its entanglement with other photons: where the input has `sH A + sV B`, the final state has `bH A + bV B`, up to a factor. This holds for all amplitudes, all channels and all states of
the other photons.
Missing: inputs at or above the cutoff, channel pairs with first channel >= 2 and second channel 0 (C07), non-zero amplitudes below the threshold. -/
theorem C125_teleport_partial (env : ℕ → Circ) (rnd : ℕ → ℕ → Bool → ℕ → ℕ → ℕ) (j : ℕ) (c : Circ) (hc : env j = c) (sH sV aH aV bH bV k₀ k₁ k₂ k₃ x y : ℕ)
    (f : List ℝ → List ℝ → List ℤ → Option (List ℝ)) (nv : List ℝ) (af : List ℤ) (hT : TeleportCircuit c sH sV aH aV bH bV k₀ k₁ k₂ k₃ x y f nv af)
    (id : List Char) (q : QState) (hq : Sendable c.g c.m q) (A B : MvPolynomial Mode ℂ) (hA : Without [sH, sV, aH, aV, bH, bV] A) (hB : Without [sH, sV, aH, aV, bH, bV] B)
    (hP : statePolynomial c.g q = teleportIn sH sV aH aV bH bV A B) (hd : NotDropped c.g c.thr (opticsSubst (teleportGates sH sV aH aV) (teleportIn sH sV aH aV bH bV A B)))
    (fuel : ℕ) (hf : 5 < fuel) :
    ∃ out, evalAll env rnd fuel j [(id, q)] = some out ∧ ∀ p ∈ out, ∀ pr ∈ teleportPairs sH sV aH aV,
      Shown ([k₀, k₁, k₂, k₃].map (fun n : ℕ => (n : ℤ))) p.2 ((foundPair [sH, sV, aH, aV] pr.1 pr.2).map (fun n : ℕ => (n : ℝ))) →
      ∃ κ : ℂ, κ ≠ 0 ∧ statePolynomial c.g p.2 = C κ * (addPhoton pr.1 * addPhoton pr.2) * (addPhoton bH * A + addPhoton bV * B) := by
  obtain ⟨out, h1, os, -, -, h2⟩ := teleport_main env rnd j c hc sH sV aH aV bH bV k₀ k₁ k₂ k₃ x y f nv af hT id q hq A B hA hB hP hd fuel hf
  refine ⟨out, h1, fun p hp pr hpr hs => ?_⟩
  obtain ⟨o, -, e1, -, -, e4⟩ := forall₂_mem_right h2 hp
  exact e4 pr hpr ((e1 _).1 hs).symm

theorem teleportSign_norm (sH sV aH aV : ℕ) (p : ℕ × ℕ) : ‖(teleportSign sH sV aH aV p).1‖ = 1 ∧ ‖(teleportSign sH sV aH aV p).2‖ = 1 := by
  unfold teleportSign
  split_ifs <;> simp

theorem teleport_prob {g : Cfg} (hg : g.Ok) (hL : 4 ≤ g.L) {sH sV aH aV bH bV : ℕ} (hch : TeleportChannels g.C sH sV aH aV bH bV) {α β : ℂ} (h1 : ‖α‖ ^ 2 + ‖β‖ ^ 2 = 1)
    (pr : ℕ × ℕ) (hpr : pr ∈ teleportPairs sH sV aH aV) :
    findProb g 0 (opticsSubst (teleportGates sH sV aH aV) (teleportIn sH sV aH aV bH bV (C α) (C β))) [sH, sV, aH, aV] (foundPair [sH, sV, aH, aV] pr.1 pr.2) = 1 / 8 := by
  have hf := teleport_found hch.different (without_C _ α) (without_C _ β) pr hpr
  have hex := hch.exist
  have hd' := hch.different
  simp only [List.nodup_cons, List.mem_cons, List.not_mem_nil, or_false, not_or, not_false_eq_true, List.nodup_nil, and_true] at hd'
  obtain ⟨⟨h1', h2, h3, h4, h5⟩, ⟨h6, h7, h8, h9⟩, ⟨h10, h11, h12⟩, ⟨h13, h14⟩, h15⟩ := hd'
  have key : pr.1 < g.C ∧ pr.2 < g.C ∧ pr.1 ≠ pr.2 ∧ pr.1 ≠ bH ∧ pr.2 ≠ bH ∧ pr.1 ≠ bV ∧ pr.2 ≠ bV := by
    have hpr' := hpr
    simp only [teleportPairs, List.mem_cons, List.not_mem_nil, or_false] at hpr'
    rcases hpr' with rfl | rfl | rfl | rfl <;> simp [hex, *] <;> exact fun e => ‹¬ _ = _› e.symm
  obtain ⟨k1, k2, k3, k4, k5, k6, k7⟩ := key
  rw [teleportGates, findProb_two (κ := ((Real.sqrt 2 / 2 : ℝ) : ℂ) / 2) (u := (teleportSign sH sV aH aV pr).1 * α) (v := (teleportSign sH sV aH aV pr).2 * β) hg (by omega) k1 k2
    (hex bH (by simp)) (hex bV (by simp)) k3 k4 k5 k6 k7 h15 (hf.trans (by simp only [C_mul]; ring))]
  have := half_norm_sq 1
  rw [mul_one, norm_one] at this
  rw [this, norm_mul, norm_mul, (teleportSign_norm sH sV aH aV pr).1, (teleportSign_norm sH sV aH aV pr).2, one_mul, one_mul, h1]
  norm_num

theorem teleport_outcomes_nodup {sH sV aH aV bH bV : ℕ} (hd : [sH, sV, aH, aV, bH, bV].Nodup) :
    ((teleportPairs sH sV aH aV).map (fun pr => foundPair [sH, sV, aH, aV] pr.1 pr.2)).Nodup := by
  simp only [List.nodup_cons, List.mem_cons, List.not_mem_nil, or_false, not_or, not_false_eq_true, List.nodup_nil, and_true] at hd
  obtain ⟨⟨h1, h2, h3, h4, h5⟩, ⟨h6, h7, h8, h9⟩, ⟨h10, h11, h12⟩, ⟨h13, h14⟩, h15⟩ := hd
  simp [teleportPairs, foundPair, h1, h2, h3, h6, h7, h10, Ne.symm h1, Ne.symm h2, Ne.symm h3, Ne.symm h6, Ne.symm h7, Ne.symm h10]

theorem filter_forall₂ {α β γ : Type*} {R : α → β → Prop} (P : α → Bool) (Q : β → Bool) (u : α → γ) (w : β → γ) {l : List α} {l' : List β} (h : List.Forall₂ R l l')
    (hPQ : ∀ a b, R a b → P a = Q b) (huw : ∀ a b, R a b → u a = w b) : (l'.filter Q).map w = (l.filter P).map u := by
  induction h with
  | nil => rfl
  | cons hab _ ih =>
    rename_i a b l₁ l₂ _
    rw [List.filter_cons, List.filter_cons, hPQ a b hab]
    split
    · rw [List.map_cons, List.map_cons, huw a b hab, ih]
    · exact ih

open Classical in
/-- **C125 (partial)** Teleportation of a photon with the amplitudes α, β in H, V: each of the four pairs of channels is found with probability 1/8, so teleportation succeeds with
probability 1/2 in total, and then Bob's photon has the amplitudes α, β in H, V up to a common factor.
Missing: as for `C125_teleport_partial`. -/
theorem C125_success_partial (env : ℕ → Circ) (rnd : ℕ → ℕ → Bool → ℕ → ℕ → ℕ) (j : ℕ) (c : Circ) (hc : env j = c) (sH sV aH aV bH bV k₀ k₁ k₂ k₃ x y : ℕ)
    (f : List ℝ → List ℝ → List ℤ → Option (List ℝ)) (nv : List ℝ) (af : List ℤ) (hT : TeleportCircuit c sH sV aH aV bH bV k₀ k₁ k₂ k₃ x y f nv af) (hL : 4 ≤ c.g.L)
    (id : List Char) (q : QState) (hq : Sendable c.g c.m q) (α β : ℂ) (h1 : ‖α‖ ^ 2 + ‖β‖ ^ 2 = 1) (hα : α = 0 ∨ c.thr ≤ ‖α‖ ^ 2 / 8) (hβ : β = 0 ∨ c.thr ≤ ‖β‖ ^ 2 / 8)
    (hP : statePolynomial c.g q = teleportIn sH sV aH aV bH bV (C α) (C β)) (fuel : ℕ) (hf : 5 < fuel) :
    ∃ out, evalAll env rnd fuel j [(id, q)] = some out ∧
      (∀ pr ∈ teleportPairs sH sV aH aV, ∃ p ∈ out, Shown ([k₀, k₁, k₂, k₃].map (fun n : ℕ => (n : ℤ))) p.2 ((foundPair [sH, sV, aH, aV] pr.1 pr.2).map (fun n : ℕ => (n : ℝ))) ∧
        p.2.cum = q.cum / 8 ∧
        ∃ κ : ℂ, κ ≠ 0 ∧ statePolynomial c.g p.2 = C κ * (addPhoton pr.1 * addPhoton pr.2) * (addPhoton bH * C α + addPhoton bV * C β)) ∧
      ((out.filter (fun p => ∃ pr ∈ teleportPairs sH sV aH aV, Shown ([k₀, k₁, k₂, k₃].map (fun n : ℕ => (n : ℤ))) p.2
        ((foundPair [sH, sV, aH, aV] pr.1 pr.2).map (fun n : ℕ => (n : ℝ))))).map (fun p => p.2.cum)).sum = q.cum / 2 := by
  have hdiff := hT.channels.different
  obtain ⟨out, e1, os, o1, o2, o3⟩ := teleport_main env rnd j c hc sH sV aH aV bH bV k₀ k₁ k₂ k₃ x y f nv af hT id q hq (C α) (C β) (without_C _ _) (without_C _ _) hP
    (teleport_notDropped hdiff hα hβ) fuel hf
  have hprob := fun pr hpr => teleport_prob hT.ok hL hT.channels h1 pr hpr
  have hin : ∀ pr ∈ teleportPairs sH sV aH aV, foundPair [sH, sV, aH, aV] pr.1 pr.2 ∈ os := fun pr hpr => (o2 _).2 (by rw [hprob pr hpr]; norm_num)
  refine ⟨out, e1, fun pr hpr => ?_, ?_⟩
  · obtain ⟨p, hp, s1, -, s3, s4⟩ := forall₂_mem_left' o3 (hin pr hpr)
    exact ⟨p, hp, (s1 _).2 rfl, by rw [s3, hprob pr hpr]; ring, s4 pr hpr rfl⟩
  · rw [filter_forall₂ (R := _) (P := fun o => decide (o ∈ (teleportPairs sH sV aH aV).map (fun pr => foundPair [sH, sV, aH, aV] pr.1 pr.2))) _
      (u := fun o => q.cum * findProb c.g 0 (opticsSubst (teleportGates sH sV aH aV) (teleportIn sH sV aH aV bH bV (C α) (C β))) [sH, sV, aH, aV] o) _ o3 ?_ (fun o p h => h.2.2.1.symm)]
    · have hperm : (os.filter (fun o => decide (o ∈ (teleportPairs sH sV aH aV).map (fun pr => foundPair [sH, sV, aH, aV] pr.1 pr.2)))).Perm
          ((teleportPairs sH sV aH aV).map (fun pr => foundPair [sH, sV, aH, aV] pr.1 pr.2)) := by
        rw [List.perm_ext_iff_of_nodup (o1.filter _) (teleport_outcomes_nodup hdiff)]
        intro o
        rw [List.mem_filter, decide_eq_true_iff]
        refine ⟨And.right, fun h => ⟨?_, h⟩⟩
        obtain ⟨pr, hpr, rfl⟩ := List.mem_map.1 h
        exact hin pr hpr
      rw [(hperm.map _).sum_eq, List.map_map, List.map_congr_left (g := fun _ => q.cum / 8) (fun pr hpr => by
        simp only [Function.comp_apply]
        rw [hprob pr hpr]; ring)]
      simp [teleportPairs]
      ring
    · intro o p h
      simp only [decide_eq_decide, List.mem_map]
      constructor
      · rintro ⟨pr, hpr, e⟩
        exact ⟨pr, hpr, (h.1 _).2 e⟩
      · rintro ⟨pr, hpr, e⟩
        exact ⟨pr, hpr, (h.1 _).1 e⟩

section NonVacuity

/-- six channels, cutoff 4 -/
def teleportCfg : Cfg := ⟨4, 6, true⟩

/-- a photon with the amplitudes 3/5, 4/5 and the entangled pair -/
noncomputable def teleportState : QState :=
  ⟨['p'], 1, [(['1', '0', '1', '0', '0', '1'], ⟨((3 / 5 * (Real.sqrt 2 / 2) : ℝ) : ℂ), 9 / 50⟩), (['1', '0', '0', '1', '1', '0'], ⟨((-(3 / 5) * (Real.sqrt 2 / 2) : ℝ) : ℂ), 9 / 50⟩),
    (['0', '1', '1', '0', '0', '1'], ⟨((4 / 5 * (Real.sqrt 2 / 2) : ℝ) : ℂ), 16 / 50⟩), (['0', '1', '0', '1', '1', '0'], ⟨((-(4 / 5) * (Real.sqrt 2 / 2) : ℝ) : ℂ), 16 / 50⟩)], [0, 0, 0, 0, 0, 0], []⟩

open Classical in
/-- the classical rule of the notebook -/
noncomputable def teleportRule : List ℝ → List ℝ → List ℤ → Option (List ℝ) := fun vals _ _ =>
  some ((vals.set 4 0).set 5 (if vals[0]? = some 1 ∧ vals[1]? = some 1 ∨ vals[2]? = some 1 ∧ vals[3]? = some 1 then Real.pi else 0))

theorem teleportRule_ok : TeleportRule 6 0 1 2 3 4 5 (fun vals => teleportRule vals [] []) := by
  intro vals hl
  refine ⟨_, rfl, by simp [hl], ?_, ?_, ?_, ?_⟩
  · intro k hk
    simp only [List.mem_cons, List.not_mem_nil, or_false] at hk
    rcases hk with rfl | rfl | rfl | rfl <;> simp [List.getElem?_set]
  · simp [List.getElem?_set, hl]
  · intro h
    rw [if_pos h]
    simp [hl]
  · intro h
    rw [if_neg h]
    simp [hl]

theorem teleportState_ok : Sendable teleportCfg 6 teleportState ∧ statePolynomial teleportCfg teleportState = teleportIn 0 1 2 3 4 5 (C (3 / 5)) (C (4 / 5)) := by
  have names : ∀ v ∈ [[1, 0, 1, 0, 0, 1], [1, 0, 0, 1, 1, 0], [0, 1, 1, 0, 0, 1], [0, 1, 0, 1, 1, 0]], Valid teleportCfg v ∧ v.sum < teleportCfg.L ∧
      IsName teleportCfg v (teleportCfg.stdName v) := by
    intro v hv
    have hval : Valid teleportCfg v := by fin_cases hv <;> decide
    exact ⟨hval, by fin_cases hv <;> decide, (isName_iff hval).2 rfl⟩
  have hmem : ∀ p ∈ teleportState.comps, ∃ v ∈ [[1, 0, 1, 0, 0, 1], [1, 0, 0, 1, 1, 0], [0, 1, 1, 0, 0, 1], [0, 1, 0, 1, 1, 0]], p.1 = teleportCfg.stdName v := by
    intro p hp
    simp only [teleportState, List.mem_cons, List.not_mem_nil, or_false] at hp
    rcases hp with rfl | rfl | rfl | rfl
    exacts [⟨[1, 0, 1, 0, 0, 1], by simp, by decide⟩, ⟨[1, 0, 0, 1, 1, 0], by simp, by decide⟩, ⟨[0, 1, 1, 0, 0, 1], by simp, by decide⟩, ⟨[0, 1, 0, 1, 1, 0], by simp, by decide⟩]
  have hsq : ∀ a : ℝ, ‖((a * (Real.sqrt 2 / 2) : ℝ) : ℂ)‖ ^ 2 = a ^ 2 / 2 := by
    intro a
    rw [Complex.norm_real, Real.norm_eq_abs, sq_abs, mul_pow, div_pow, Real.sq_sqrt (by norm_num)]; ring
  refine ⟨⟨⟨⟨by simp [teleportState], ?_⟩, ?_, ?_, by norm_num [teleportState], by norm_num [teleportState], by simp [teleportState]⟩, by simp [teleportState], ?_⟩, ?_⟩
  · intro p hp
    obtain ⟨v, hv, e⟩ := hmem p hp
    exact ⟨v, (names v hv).1, e ▸ (names v hv).2.2⟩
  · intro p hp
    simp only [teleportState, List.mem_cons, List.not_mem_nil, or_false] at hp
    rcases hp with rfl | rfl | rfl | rfl <;> simp only [hsq] <;> norm_num
  · simp only [teleportState, totalProb, List.map_cons, List.map_nil, List.sum_cons, List.sum_nil, hsq]
    norm_num
  · intro p hp v hn hv
    obtain ⟨w, hw, e⟩ := hmem p hp
    have : v = w := teleportCfg.stdName_inj hv.2 (names w hw).1.2 (by rw [← (isName_iff hv).1 hn, e])
    rw [this]
    exact (names w hw).2.1
  · unfold statePolynomial
    rw [statePoly_eq]
    unfold compsPoly
    simp only [teleportState, List.map_cons, List.map_nil, List.sum_cons, List.sum_nil,
      show teleportCfg.parse ['1', '0', '1', '0', '0', '1'] = some [1, 0, 1, 0, 0, 1] by decide, show teleportCfg.parse ['1', '0', '0', '1', '1', '0'] = some [1, 0, 0, 1, 1, 0] by decide,
      show teleportCfg.parse ['0', '1', '1', '0', '0', '1'] = some [0, 1, 1, 0, 0, 1] by decide, show teleportCfg.parse ['0', '1', '0', '1', '1', '0'] = some [0, 1, 0, 1, 1, 0] by decide,
      Option.map_some, Option.getD_some]
    unfold ketPoly teleportIn addPhoton
    simp [List.zipIdx]
    ring

/-- C124, C125: the circuit of the notebook with the photon 3/5 H + 4/5 V. -/
example : ∃ (c : Circ) (out : Coll), TeleportCircuit c 0 1 2 3 4 5 0 1 2 3 4 5 teleportRule [] [] ∧ evalAll (fun _ => c) (fun _ _ _ _ _ => 0) 6 0 [(['x'], teleportState)] = some out ∧
    ∃ p ∈ out, p.2.cum = 1 / 8 ∧ ∃ κ : ℂ, κ ≠ 0 ∧ statePolynomial c.g p.2 = C κ * (addPhoton 0 * addPhoton 3) * (addPhoton 4 * C (3 / 5) + addPhoton 5 * C (4 / 5)) := by
  obtain ⟨mixH, h1⟩ : ∃ mix, mix5050 teleportCfg 0 2 = some mix := ⟨_, rfl⟩
  obtain ⟨mixV, h2⟩ : ∃ mix, mix5050 teleportCfg 1 3 = some mix := ⟨_, rfl⟩
  obtain ⟨ctl, h3⟩ : ∃ ctl, wavePlateControl teleportCfg 6 4 5 4 5 = some ctl := ⟨_, rfl⟩
  have hT : TeleportCircuit ⟨teleportCfg, 6, 1 / 1000, true, opticals [mixH, mixV] ++ [.measurement [0, 1, 2, 3] [0, 1, 2, 3], .classical teleportRule [] [], ctl]⟩ 0 1 2 3 4 5 0 1 2 3 4 5
      teleportRule [] [] :=
    ⟨(by decide : teleportCfg.Ok), by norm_num, ⟨by decide, (by decide : ∀ ch ∈ [0, 1, 2, 3, 4, 5], ch < 6), by decide⟩, ⟨by decide, (by decide : ∀ k ∈ [0, 1, 2, 3], k < 6)⟩, teleportRule_ok, mixH, mixV, ctl, h1, h2, h3, rfl⟩
  obtain ⟨out, e1, e2, -⟩ := C125_success_partial (fun _ => _) (fun _ _ _ _ _ => 0) 0 _ rfl 0 1 2 3 4 5 0 1 2 3 4 5 teleportRule [] [] hT (by decide : 4 ≤ 4) ['x'] teleportState teleportState_ok.1 (3 / 5) (4 / 5)
    (by norm_num) (.inr (by norm_num)) (.inr (by norm_num)) teleportState_ok.2 6 (by norm_num)
  obtain ⟨p, hp, -, hc, hk⟩ := e2 (0, 3) (by simp [teleportPairs])
  exact ⟨_, out, hT, e1, p, hp, hc, hk⟩

/-- C124: the measurement behind the two beam splitters. The feed-forward theorem is used with this circuit, wave plate included, in the example above. -/
example : ∃ (c : Circ) (out : Coll), evalAll (fun _ => c) (fun _ _ _ _ _ => 0) 4 0 [(['x'], teleportState)] = some out ∧
    ∃ p ∈ out, FoundState c.g [0, 1, 2, 3] [0, 1, 2, 3] (opticsSubst (teleportGates 0 1 2 3) (statePolynomial c.g teleportState)) teleportState [1, 0, 0, 1] p.2 := by
  obtain ⟨mixH, h1⟩ : ∃ mix, mix5050 teleportCfg 0 2 = some mix := ⟨_, rfl⟩
  obtain ⟨mixV, h2⟩ : ∃ mix, mix5050 teleportCfg 1 3 = some mix := ⟨_, rfl⟩
  have hch : TeleportChannels teleportCfg.C 0 1 2 3 4 5 := ⟨by decide, by decide, by decide⟩
  have hu : LosslessElements teleportCfg (teleportGates 0 1 2 3) [mixH, mixV] := by
    refine ⟨.cons (gateNode_of (by decide) (by decide) (by decide) (by decide) h1) (.cons (gateNode_of (by decide) (by decide) (by decide) (by decide) h2) .nil), ?_⟩
    intro e he
    simp only [teleportGates, List.mem_cons, List.not_mem_nil, or_false] at he
    rcases he with rfl | rfl <;> exact (C17_wave_plate _ _ 0).1
  obtain ⟨out, e1, idx, -, e3, e4⟩ := C124_collapse_partial (fun _ => ⟨teleportCfg, 6, 1 / 1000, true, opticals [mixH, mixV] ++ [.measurement [0, 1, 2, 3] [0, 1, 2, 3]]⟩) (fun _ _ _ _ _ => 0) 0 _ rfl
    (by decide : teleportCfg.Ok) (by norm_num) (teleportGates 0 1 2 3) mixH [mixV] hu [0, 1, 2, 3] [0, 1, 2, 3] rfl rfl (by decide) (by decide : ∀ k ∈ [0, 1, 2, 3], k < 6) [(['x'], teleportState)] (by simp)
    (by intro p hp; rw [List.mem_singleton.1 hp]; exact teleportState_ok.1)
    (by
      intro p hp; rw [List.mem_singleton.1 hp, teleportState_ok.2]
      exact teleport_notDropped hch.different (.inr (by norm_num)) (.inr (by norm_num))) 4 (by simp)
  have hx : ((['x'], teleportState), [1, 0, 0, 1]) ∈ idx := by
    rw [e3]
    refine ⟨by simp, ?_⟩
    have := teleport_prob (α := 3 / 5) (β := 4 / 5) (by decide : teleportCfg.Ok) (by decide) hch (by norm_num) (0, 3) (by simp [teleportPairs])
    simp only [teleportState_ok.2]
    rw [show [1, 0, 0, 1] = foundPair [0, 1, 2, 3] 0 3 by decide, this]
    norm_num
  obtain ⟨p, hp, hf⟩ := forall₂_mem_left' e4 hx
  exact ⟨_, out, e1, p, hp, hf⟩

end NonVacuity

end Verif.Props
