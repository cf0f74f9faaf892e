/-
Property C124: what is left after a measurement, and feed-forward of the result.
-/
import Verif.Lemmas.Feed

namespace Verif.Props
open Verif Spec MvPolynomial

/-- **C124 (partial)** What a measurement after optical elements leaves, for a whole circuit and any collection of states: exactly one state for each input state and each result that can
be found in it. Its polynomial in the creation operators consists of the terms with the photon numbers found, rescaled; its probability is that of the Born rule; label and classical
values are as they should be.
Missing: inputs at or above the cutoff, channel pairs with first channel >= 2 and second channel 0 (C07), non-zero amplitudes below the threshold. -/
theorem C124_collapse_partial (env : ℕ → Circ) (rnd : ℕ → ℕ → Bool → ℕ → ℕ → ℕ) (j : ℕ) (c : Circ) (hc : env j = c) (hg : c.g.Ok) (ht : 0 < c.thr)
    (gates : List Gate) (n : Opt × List ℕ) (l : List (Opt × List ℕ)) (hu : LosslessElements c.g gates (n :: l))
    (opt cls : List ℕ) (hk : c.nodes = opticals (n :: l) ++ [.measurement opt cls]) (hlen : cls.length = opt.length) (hnd : cls.Nodup) (hcls : ∀ x ∈ cls, x < c.m)
    (coll : Coll) (hid : (coll.map Prod.fst).Nodup) (hq : ∀ p ∈ coll, Sendable c.g c.m p.2)
    (hd : ∀ p ∈ coll, NotDropped c.g c.thr (opticsSubst gates (statePolynomial c.g p.2))) (fuel : ℕ) (hf : l.length + 2 < fuel) :
    ∃ out, evalAll env rnd fuel j coll = some out ∧
      ∃ idx : List ((List Char × QState) × List ℕ), idx.Nodup ∧
        (∀ x, x ∈ idx ↔ x.1 ∈ coll ∧ findProb c.g 0 (opticsSubst gates (statePolynomial c.g x.1.2)) opt x.2 ≠ 0) ∧
        List.Forall₂ (fun x p => FoundState c.g opt cls (opticsSubst gates (statePolynomial c.g x.1.2)) x.1.2 x.2 p.2) idx out := by
  subst hc
  rw [eval_optics_then_measure env rnd j n l opt cls hk fuel hf]
  obtain ⟨out, h1, -, -, h2⟩ := found_coll hg ht gates n l hu opt cls hlen hnd hcls ((env j).nodes.map Node.isMeasurement) (l.length + 1) coll hid hq hd
  exact ⟨out, h1, h2⟩

/-- optics, a measurement, a classical function and a controlled element -/
theorem eval_feed (env : ℕ → Circ) (rnd : ℕ → ℕ → Bool → ℕ → ℕ → ℕ) (k : ℕ) (n : Opt × List ℕ) (l : List (Opt × List ℕ))
    (opt cls : List ℕ) (f : List ℝ → List ℝ → List ℤ → Option (List ℝ)) (nv : List ℝ) (af : List ℤ) (vars : List Angle) (channels : List ℤ) (defaults : List (Angle × ℝ)) (tl : List ℕ)
    (hk : (env k).nodes = opticals (n :: l) ++ [.measurement opt cls, .classical f nv af, .controlled vars channels defaults tl]) (fuel : ℕ) (hf : l.length + 4 < fuel) (coll : Coll) :
    evalAll env rnd fuel k coll = (((opticalColl (env k) n l coll).bind
      (measureColl (env k).g (env k).thr (env k).m (measurementId ((opticals (n :: l) ++ [Node.measurement opt cls]).map Node.isMeasurement) (l.length + 1)) opt cls)).bind
        (classicalColl (env k) f nv af)).bind (controlledColl (env k) vars channels defaults tl) := by
  have hlen : (env k).nodes.length = l.length + 4 := by rw [hk]; simp [opticals]
  have hnode : ∀ i, (env k).nodes[l.length + 1 + i]? = [Node.measurement opt cls, .classical f nv af, .controlled vars channels defaults tl][i]? := by
    intro i
    rw [hk, List.getElem?_append_right (by simp [opticals])]
    simp only [opticals, List.length_map, List.length_cons]
    congr 1; omega
  have h0 := hnode 0
  have h1 := hnode 1
  have h2 := hnode 2
  simp only [List.getElem?_cons_zero, List.getElem?_cons_succ, Nat.add_zero] at h0 h1 h2
  have hopt : ∀ i < l.length + 1, ∃ M tl, (env k).nodes[i]? = some (.optical M tl) := by
    intro i hi
    rw [hk, List.getElem?_append_left (by simp [opticals]; omega)]
    exact ⟨_, _, opticals_get (n :: l) i (by simp; omega)⟩
  set c' : Circ := { env k with nodes := opticals (n :: l) ++ [.measurement opt cls] } with hc'
  have hlen' : c'.nodes.length = l.length + 2 := by simp [hc', opticals]
  have hnb : ∀ i < l.length + 4, ∀ b, (env k).nodes[i]? ≠ some (.bridge b) := by
    intro i hi b
    rcases Nat.lt_or_ge i (l.length + 1) with h | h
    · obtain ⟨M, t, e⟩ := hopt i h
      rw [e]; simp
    · obtain ⟨d, rfl⟩ : ∃ d, i = l.length + 1 + d := ⟨i - (l.length + 1), by omega⟩
      have : d < 3 := by omega
      interval_cases d
      · rw [Nat.add_zero, h0]; simp
      · rw [h1]; simp
      · rw [h2]; simp
  have first : evalNodes env rnd fuel k (List.range (l.length + 2)) coll = evalAll (fun _ => c') (fun _ => rnd k) fuel 0 coll := by
    unfold evalAll
    rw [hlen']
    refine evalNodes_congr (env := fun _ => c') (env' := env) (extra := [.classical f nv af, .controlled vars channels defaults tl]) ?_ ?_ fuel _ ?_ ?_ (fun _ => rnd k) rfl coll
    · intro x hx
      simp only [List.mem_cons, List.not_mem_nil, or_false] at hx
      rcases hx with rfl | rfl <;> rfl
    · have : (env k).nodes = c'.nodes ++ [.classical f nv af, .controlled vars channels defaults tl] := by rw [hk, hc']; simp
      rw [← this]
    · intro i hi
      rw [hlen']; exact List.mem_range.1 hi
    · intro i hi b
      have hi' := List.mem_range.1 hi
      have : c'.nodes[i]? = (env k).nodes[i]? := by
        have e : (env k).nodes = c'.nodes ++ [.classical f nv af, .controlled vars channels defaults tl] := by rw [hk, hc']; simp
        rw [e]
        exact (List.getElem?_append_left (by rw [hlen']; exact hi')).symm
      rw [this]
      exact hnb i (by omega) b
  have hr : List.range (l.length + 4) = List.range (l.length + 2) ++ [l.length + 2, l.length + 3] := by
    rw [List.range_succ, List.range_succ]; simp
  have hall : evalAll env rnd fuel k coll = (evalNodes env rnd fuel k (List.range (l.length + 2)) coll).bind (evalNodes env rnd 3 k [l.length + 2, l.length + 3]) := by
    unfold evalAll
    rw [hlen, hr]
    refine evalNodes_append _ _ ?_ ?_ ?_ ?_ fuel fuel 3 ?_ ?_ (by simp) coll
    · rw [← hr]; exact List.pairwise_lt_range
    · rw [← hr, hlen]; intro i hi; exact List.mem_range.1 hi
    · rw [← hr]; intro i hi; exact hnb i (List.mem_range.1 hi)
    · intro i _ i' hi'
      simp only [List.head?_cons, Option.mem_def, Option.some.injEq] at hi'
      subst hi'
      have : isOpt (env k) (l.length + 2) = false := by
        unfold isOpt
        rw [show l.length + 2 = l.length + 1 + 1 by omega, h1]; rfl
      simp [this]
    · simp; omega
    · simp; omega
  rw [hall, first, eval_optics_then_measure (fun _ => c') (fun _ => rnd k) 0 n l opt cls rfl fuel (by omega)]
  have e1 : opticalColl c' n l coll = opticalColl (env k) n l coll := rfl
  rw [e1]
  conv_rhs => rw [Option.bind_assoc]
  congr 1
  funext coll'
  have o1 : isOpt (env k) (l.length + 2) = false := by
    unfold isOpt
    rw [show l.length + 2 = l.length + 1 + 1 by omega, h1]; rfl
  have o2 : isOpt (env k) (l.length + 3) = false := by
    unfold isOpt
    rw [show l.length + 3 = l.length + 1 + 2 by omega, h2]; rfl
  rw [evalNodes_sorted_node (by simp) (by intro i hi; rw [hlen]; simp at hi; omega) (hnb _ (by omega)) o1]
  have n1 : nodeEff env rnd k (l.length + 2) coll' = classicalColl (env k) f nv af coll' := by
    unfold nodeEff
    rw [show l.length + 2 = l.length + 1 + 1 by omega, h1]
  rw [n1]
  congr 1
  funext coll2
  rw [evalNodes_sorted_node (by simp) (by intro i hi; rw [hlen]; simp at hi; omega) (hnb _ (by omega)) o2]
  have n2 : nodeEff env rnd k (l.length + 3) coll2 = controlledColl (env k) vars channels defaults tl coll2 := by
    unfold nodeEff
    rw [show l.length + 3 = l.length + 1 + 2 by omega, h2]
  rw [n2]
  cases controlledColl (env k) vars channels defaults tl coll2 <;> rfl

/-- **C124 (partial)** Feed-forward: optical elements, a measurement, a classical function and a wave plate whose two angles are read from the classical channels, for a whole circuit and any
collection of states. There is exactly one final state for each input state and each result that can be found in it; it comes from what the measurement leaves (`FoundState`) by the
wave plate with the angles computed from this result (`FedState`).
Missing: inputs at or above the cutoff, channel pairs with first channel >= 2 and second channel 0 (C07), non-zero amplitudes below the threshold. -/
theorem C124_feed_forward_partial (env : ℕ → Circ) (rnd : ℕ → ℕ → Bool → ℕ → ℕ → ℕ) (j : ℕ) (c : Circ) (hc : env j = c) (hg : c.g.Ok) (ht : 0 < c.thr)
    (gates : List Gate) (n : Opt × List ℕ) (l : List (Opt × List ℕ)) (hu : LosslessElements c.g gates (n :: l))
    (opt cls : List ℕ) (hlen : cls.length = opt.length) (hnd : cls.Nodup) (hcls : ∀ x ∈ cls, x < c.m)
    (f : List ℝ → List ℝ → List ℤ → Option (List ℝ)) (nv : List ℝ) (af : List ℤ)
    (h v x y : ℕ) (hh : h < c.g.C) (hv : v < c.g.C) (hne : h ≠ v) (ho : ¬ (2 ≤ h ∧ v = 0)) (ctl : Node) (hctl : wavePlateControl c.g c.m h v x y = some ctl)
    (hk : c.nodes = opticals (n :: l) ++ [.measurement opt cls, .classical f nv af, ctl])
    (coll : Coll) (hid : (coll.map Prod.fst).Nodup) (hq : ∀ p ∈ coll, Sendable c.g c.m p.2)
    (hd : ∀ p ∈ coll, NotDropped c.g c.thr (opticsSubst gates (statePolynomial c.g p.2)))
    (hfun : ∀ p ∈ coll, ∀ o q₁, FoundState c.g opt cls (opticsSubst gates (statePolynomial c.g p.2)) p.2 o q₁ → ∃ vals θ φ, f q₁.classical nv af = some vals ∧ vals.length = c.m ∧
      vals[x]? = some θ ∧ vals[y]? = some φ ∧ NotDropped c.g c.thr (gateSubst (genericMatrix θ φ) h v (statePolynomial c.g q₁)))
    (fuel : ℕ) (hf : l.length + 4 < fuel) :
    ∃ out, evalAll env rnd fuel j coll = some out ∧
      ∃ idx : List ((List Char × QState) × List ℕ), idx.Nodup ∧
        (∀ x, x ∈ idx ↔ x.1 ∈ coll ∧ findProb c.g 0 (opticsSubst gates (statePolynomial c.g x.1.2)) opt x.2 ≠ 0) ∧
        List.Forall₂ (fun i p => ∃ q₁, FoundState c.g opt cls (opticsSubst gates (statePolynomial c.g i.1.2)) i.1.2 i.2 q₁ ∧
          FedState c.g (fun vals => f vals nv af) h v x y q₁ p.2) idx out := by
  subst hc
  set c := env j with hcdef
  obtain ⟨vars, channels, defaults, tl, rfl⟩ : ∃ vars channels defaults tl, ctl = .controlled vars channels defaults tl := by
    obtain ⟨vars, channels, defaults, tl, e, -⟩ := C45_wave_plate c h v x y ctl hctl [] (by simp)
    exact ⟨vars, channels, defaults, tl, e⟩
  rw [eval_feed env rnd j n l opt cls f nv af vars channels defaults tl hk fuel hf]
  obtain ⟨out1, h1, hid1, hs1, idx, i1, i2, i3⟩ := found_coll hg ht gates n l hu opt cls hlen hnd hcls ((opticals (n :: l) ++ [Node.measurement opt cls]).map Node.isMeasurement) (l.length + 1) coll hid hq hd
  rw [← hcdef, h1, Option.bind_some]
  -- one state
  have step : ∀ (p : List Char × QState), p ∈ out1 → ∀ i ∈ idx, FoundState c.g opt cls (opticsSubst gates (statePolynomial c.g i.1.2)) i.1.2 i.2 p.2 →
      ∃ (p2 p3 : List Char × QState), (∃ vals, f p.2.classical nv af = some vals ∧ vals.length = c.m ∧ p2 = (p.1, { p.2 with classical := vals })) ∧
        (∃ θ φ w, pyGet p2.2.classical (x : ℤ) = some θ ∧ pyGet p2.2.classical (y : ℤ) = some φ ∧ wavePlate c.g h v θ φ = some w ∧ opticalColl c w [] [p2] = some [p3]) ∧
        FedState c.g (fun vals => f vals nv af) h v x y p.2 p3.2 := by
    intro p hp i hi hfs
    have hsend := hs1 p hp
    obtain ⟨vals, θ, φ, f1, f2, f3, f4, f5⟩ := hfun i.1 ((i2 i).1 hi).1 i.2 p.2 hfs
    set q2 : QState := { p.2 with classical := vals } with hq2
    have hsend2 : Sendable c.g c.m q2 :=
      ⟨⟨hsend.measurable.wf, hsend.measurable.probs, hsend.measurable.total, hsend.measurable.cum0, hsend.measurable.cum1, f2⟩, hsend.nonempty, hsend.few⟩
    have hpoly : statePolynomial c.g q2 = statePolynomial c.g p.2 := rfl
    obtain ⟨w, hw⟩ : ∃ w, wavePlate c.g h v θ φ = some w := by
      unfold wavePlate genericRotation
      unfold wavePlateControl at hctl
      split at hctl
      · cases hctl
      · split at hctl
        · cases hctl
        · obtain ⟨tl', htl, -⟩ := Option.map_eq_some_iff.1 hctl
          exact ⟨(genericMatrix θ φ, tl'), by rw [htl]; rfl⟩
    have hgn : GateNode c.g ⟨genericMatrix θ φ, h, v⟩ w := gateNode_of hh hv hne ho hw
    have hu2 : LosslessElements c.g [⟨genericMatrix θ φ, h, v⟩] [w] := by
      refine ⟨.cons hgn .nil, ?_⟩
      intro e he
      rw [List.mem_singleton.1 he]
      exact (C17_wave_plate _ _ 0).1
    obtain ⟨d, hd', -, -⟩ := sent_measurable (full := c.full) hg ht hu2 hsend2
    have hnd2 : NotDropped c.g c.thr (opticsSubst [⟨genericMatrix θ φ, h, v⟩] (statePolynomial c.g q2)) := f5
    have hp3 := (sent_poly hg ht hu2 hsend2 hnd2 hd').1
    refine ⟨(p.1, q2), (p.1, { q2 with comps := d }), ⟨vals, f1, f2, rfl⟩, ⟨θ, φ, w, ?_, ?_, hw, ?_⟩, ⟨f1, ⟨θ, φ, f3, f4, hp3⟩, rfl, rfl⟩⟩
    · rw [pyGet_nat]; exact f3
    · rw [pyGet_nat]; exact f4
    · rw [opticalColl_iff c w [] [(p.1, q2)] (by simp)]
      refine ⟨?_, .cons ⟨d, hd', rfl⟩ .nil⟩
      intro r hr
      rw [List.mem_singleton.1 hr]
      exact measurable_check hsend2.measurable ht.le
  have all : ∃ out2 out3 : Coll,
      List.Forall₂ (fun p p2 => ∃ vals, f p.2.classical nv af = some vals ∧ vals.length = c.m ∧ p2 = (p.1, { p.2 with classical := vals })) out1 out2 ∧
      List.Forall₂ (fun p2 p3 => ∃ θ φ w, pyGet p2.2.classical (x : ℤ) = some θ ∧ pyGet p2.2.classical (y : ℤ) = some φ ∧ wavePlate c.g h v θ φ = some w ∧ opticalColl c w [] [p2] = some [p3]) out2 out3 ∧
      List.Forall₂ (fun i p => ∃ q₁, FoundState c.g opt cls (opticsSubst gates (statePolynomial c.g i.1.2)) i.1.2 i.2 q₁ ∧
          FedState c.g (fun vals => f vals nv af) h v x y q₁ p.2) idx out3 := by
    clear h1 hid1 i1 hs1
    have hi : ∀ i ∈ idx, i ∈ idx := fun _ h => h
    revert hi step
    generalize hI : idx = I
    intro step
    rw [hI] at i3
    have : ∀ (ix : List ((List Char × QState) × List ℕ)) (o : Coll), List.Forall₂ (fun x p => FoundState c.g opt cls (opticsSubst gates (statePolynomial c.g x.1.2)) x.1.2 x.2 p.2) ix o →
        (∀ i ∈ ix, i ∈ I) → (∀ p ∈ o, p ∈ out1) → ∃ out2 out3 : Coll,
      List.Forall₂ (fun p p2 => ∃ vals, f p.2.classical nv af = some vals ∧ vals.length = c.m ∧ p2 = (p.1, { p.2 with classical := vals })) o out2 ∧
      List.Forall₂ (fun p2 p3 => ∃ θ φ w, pyGet p2.2.classical (x : ℤ) = some θ ∧ pyGet p2.2.classical (y : ℤ) = some φ ∧ wavePlate c.g h v θ φ = some w ∧ opticalColl c w [] [p2] = some [p3]) out2 out3 ∧
      List.Forall₂ (fun i p => ∃ q₁, FoundState c.g opt cls (opticsSubst gates (statePolynomial c.g i.1.2)) i.1.2 i.2 q₁ ∧
          FedState c.g (fun vals => f vals nv af) h v x y q₁ p.2) ix out3 := by
      intro ix o hfa
      induction hfa with
      | nil => intro _ _; exact ⟨[], [], .nil, .nil, .nil⟩
      | @cons i p ix o ha _ ih =>
        intro k1 k2
        obtain ⟨o2, o3, g1, g2, g3⟩ := ih (fun i hi => k1 i (by simp [hi])) (fun p hp => k2 p (by simp [hp]))
        obtain ⟨p2, p3, e1, e2, e3⟩ := step p (k2 p (by simp)) i (k1 i (by simp)) ha
        exact ⟨p2 :: o2, p3 :: o3, .cons e1 g1, .cons e2 g2, .cons ⟨p.2, ha, e3⟩ g3⟩
    intro hi
    exact this I out1 i3 hi (fun _ h => h)
  obtain ⟨out2, out3, a1, a2, a3⟩ := all
  have hcl : classicalColl c f nv af out1 = some out2 := by
    unfold classicalColl
    rw [mapM_some_iff]
    refine a1.imp ?_
    rintro p p2 ⟨vals, b1, b2, rfl⟩
    simp only [b1, Option.bind_eq_bind, Option.bind_some, if_pos b2]
  have hid2 : (out2.map Prod.fst).Nodup := by
    have : out2.map Prod.fst = out1.map Prod.fst := by
      clear a2 a3 hcl h1 i3 hs1 hid1 step
      induction a1 with
      | nil => rfl
      | cons b _ ih =>
        obtain ⟨vals, -, -, rfl⟩ := b
        rw [List.map_cons, List.map_cons, ih]
    rw [this]; exact hid1
  rw [hcl, Option.bind_some]
  obtain ⟨vars', channels', defaults', tl', e, hC⟩ := C45_wave_plate c h v x y _ hctl out2 hid2
  cases e
  exact ⟨out3, (hC out3).2 a2, idx, i1, i2, a3⟩

end Verif.Props
