/-
Properties C44, C45: setting classical channels; classically controlled gates.
-/
import Verif.Model.Classical
import Verif.Lemmas.HeapEval
import Verif.Props.Heap
import Verif.Props.Evaluate

namespace Verif.Props
open Verif Spec

/-! ### C44 -/

theorem pyIndex_nonneg {n : ℕ} {i : ℤ} (h0 : 0 ≤ i) (h1 : i < n) : pyIndex n i = some i.toNat := by
  rw [pyIndex, if_pos h0, if_pos h1]

theorem pyMax_le {l : List ℤ} {mx : ℤ} (h : pyMax l = some mx) : (∀ c ∈ l, c ≤ mx) ∧ mx ∈ l := by
  cases l with
  | nil => cases h
  | cons a l =>
    obtain rfl := Option.some.inj h
    have gen : ∀ (l : List ℤ) (a : ℤ), a ≤ l.foldl max a ∧ (∀ c ∈ l, c ≤ l.foldl max a) ∧ (l.foldl max a = a ∨ l.foldl max a ∈ l) := by
      intro l
      induction l with
      | nil => intro a; simp
      | cons b l ih =>
        intro a
        obtain ⟨h1, h2, h3⟩ := ih (max a b)
        rw [List.foldl_cons]
        refine ⟨le_trans (le_max_left _ _) h1, ?_, ?_⟩
        · intro c hc
          rcases List.mem_cons.1 hc with rfl | hc
          · exact le_trans (le_max_right _ _) h1
          · exact h2 c hc
        · rcases h3 with h3 | h3
          · rcases max_choice a b with h4 | h4
            · left; rw [h3, h4]
            · right; rw [h3, h4]; simp
          · right; simp [h3]
    obtain ⟨h1, h2, h3⟩ := gen l a
    refine ⟨?_, ?_⟩
    · intro c hc
      rcases List.mem_cons.1 hc with rfl | hc
      · exact h1
      · exact h2 c hc
    · rcases h3 with h3 | h3
      · rw [h3]; simp
      · simp [h3]

theorem setClassicalNode_iff {m : ℕ} {values : List ℝ} {channels : List ℤ} {n : HNode} :
    setClassicalNode m values channels = some n ↔
      channels ≠ [] ∧ values.length = channels.length ∧ (∀ c ∈ channels, c < m) ∧ n = .classical setChannelsEffect values channels := by
  unfold setClassicalNode
  constructor
  · intro h
    obtain ⟨mx, hm, h⟩ := Option.bind_eq_some_iff.1 h
    split at h
    · cases h
    · rename_i hc
      push Not at hc
      obtain ⟨h1, h2⟩ := pyMax_le hm
      refine ⟨(by rintro rfl; cases h2), hc.1, fun c hcm => lt_of_le_of_lt (h1 c hcm) hc.2, (Option.some.inj h).symm⟩
  · rintro ⟨h1, h2, h3, rfl⟩
    cases hm : pyMax channels with
    | none => cases channels with
      | nil => exact absurd rfl h1
      | cons a l => cases hm
    | some mx =>
      rw [Option.bind_some, if_neg]
      rintro (h | h)
      · exact h h2
      · have := h3 mx (pyMax_le hm).2
        omega

/-- the writes of `set_classical_channels`, from position `k` of the list of values on -/
theorem setChannels_spec {m : ℕ} {values : List ℝ} (channels : List ℤ) (hc : ∀ c ∈ channels, 0 ≤ c ∧ c < m) :
    ∀ (k : ℕ), k + channels.length ≤ values.length → ∀ (vals : List ℝ), vals.length = m →
    ∃ out, (channels.zipIdx k).foldlM (fun (vals : List ℝ) ci =>
        (pyIndex vals.length ci.1).bind (fun j => (values[ci.2]?).map (fun x => vals.set j x))) vals = some out ∧ out.length = m ∧
      (∀ j : ℕ, (j : ℤ) ∉ channels → out[j]? = vals[j]?) ∧
      (∀ i : ℕ, i < channels.length → (∀ i' : ℕ, i < i' → channels[i']? ≠ channels[i]?) → ∀ j : ℕ, channels[i]? = some (j : ℤ) → out[j]? = values[k + i]?) := by
  induction channels with
  | nil => intro k _ vals hv; exact ⟨vals, rfl, hv, fun _ _ => rfl, fun i hi => by simp at hi⟩
  | cons c channels ih =>
    intro k hk vals hv
    rw [List.zipIdx_cons, List.foldlM_cons]
    obtain ⟨h0, h1⟩ := hc c (by simp)
    simp only [List.length_cons] at hk
    have hval : values[k]? = some (values[k]'(by omega)) := List.getElem?_eq_getElem _
    rw [pyIndex_nonneg h0 (by rw [hv]; exact h1), Option.bind_some, hval, Option.map_some]
    obtain ⟨out, he, hl, hother, hlast⟩ := ih (fun c hc' => hc c (by simp [hc'])) (k + 1) (by omega) (vals.set c.toNat (values[k]'(by omega))) (by simpa using hv)
    refine ⟨out, he, hl, ?_, ?_⟩
    · intro j hj
      rw [List.mem_cons, not_or] at hj
      rw [hother j hj.2, List.getElem?_set, if_neg]
      intro e
      apply hj.1
      omega
    · intro i hi hlst j hj
      cases i with
      | zero =>
        have hcj : c = j := by simpa using hj
        have hnot : (j : ℤ) ∉ channels := by
          intro hmem
          obtain ⟨i', hi', he⟩ := List.mem_iff_getElem.1 hmem
          refine hlst (i' + 1) (by omega) ?_
          rw [List.getElem?_cons_succ, List.getElem?_eq_getElem hi', he]
          simp [hcj]
        rw [hother j hnot, List.getElem?_set, if_pos (by omega), if_pos (by omega), Nat.add_zero, hval]
      | succ i =>
        have := hlast i (by simpa using hi) (by
          intro i' hi' e
          refine hlst (i' + 1) (by omega) ?_
          simpa using e) j (by simpa using hj)
        rw [this]; congr 1; omega

/-- **C44** (partial: no negative channel numbers) A node that was accepted never fails on states with the right number of classical values; it
keeps the number of values, the values of the channels that are not listed, and writes into each listed channel the value of its last
occurrence. -/
theorem C44_values_partial (m : ℕ) (values : List ℝ) (channels : List ℤ) (n : HNode) (hn : setClassicalNode m values channels = some n)
    (hpos : ∀ c ∈ channels, 0 ≤ c) : ∃ f, n = .classical f values channels ∧ ∀ vals : List ℝ, vals.length = m →
    ∃ r : ClsEffect, f vals values channels = some r ∧ (r.ret.getD r.arg).length = m ∧
      (∀ j : ℕ, (j : ℤ) ∉ channels → (r.ret.getD r.arg)[j]? = vals[j]?) ∧
      (∀ i j : ℕ, channels[i]? = some (j : ℤ) → (∀ i' : ℕ, i < i' → channels[i']? ≠ channels[i]?) → (r.ret.getD r.arg)[j]? = values[i]?) := by
  obtain ⟨h1, h2, h3, rfl⟩ := setClassicalNode_iff.1 hn
  refine ⟨setChannelsEffect, rfl, ?_⟩
  intro vals hv
  obtain ⟨out, he, hl, ho, hlast⟩ := setChannels_spec (values := values) channels (fun c hc => ⟨hpos c hc, h3 c hc⟩) 0 (by omega) vals hv
  refine ⟨⟨out, none⟩, ?_, hl, ho, ?_⟩
  · rw [setChannelsEffect, setChannels, he]; rfl
  · intro i j hj hlst
    have hi : i < channels.length := (List.getElem?_eq_some_iff.1 hj).1
    have := hlast i hi hlst j hj
    rwa [Nat.zero_add] at this

/-- **C44** (partial: negative channel numbers are accepted) Lists of different lengths, the empty list and lists with a channel number that is
too large are refused when the node is built; with non-negative channel numbers nothing else is refused. -/
theorem C44_refused_partial (m : ℕ) (values : List ℝ) (channels : List ℤ) (hpos : ∀ c ∈ channels, 0 ≤ c) :
    setClassicalNode m values channels = none ↔
      (channels = [] ∨ values.length ≠ channels.length ∨ ∃ c ∈ channels, ¬ (0 ≤ c ∧ c < m)) := by
  rw [Option.eq_none_iff_forall_ne_some]
  constructor
  · intro h
    by_contra hc
    push Not at hc
    exact h _ (setClassicalNode_iff.2 ⟨hc.1, hc.2.1, fun c hcm => (hc.2.2 c hcm).2, rfl⟩)
  · rintro h n hn
    obtain ⟨h1, h2, h3, -⟩ := setClassicalNode_iff.1 hn
    rcases h with h | h | ⟨c, hc, h⟩
    · exact h1 h
    · exact h h2
    · exact h ⟨hpos c hc, h3 c hc⟩

/-- **C44** fails for negative channel numbers: channel -1 is accepted and writes into the last channel; channel -2 of a circuit with one
channel is accepted, and the function raises on every state. -/
theorem C44_fails : (∃ n, setClassicalNode 3 [5] [-1] = some n ∧ n = .classical setChannelsEffect [5] [-1] ∧
      ∀ x y z, setChannelsEffect [x, y, z] [5] [-1] = some ⟨[x, y, 5], none⟩) ∧
    (∃ n, setClassicalNode 1 [5] [-2] = some n ∧ n = .classical setChannelsEffect [5] [-2] ∧ ∀ x, setChannelsEffect [x] [5] [-2] = none) := by
  refine ⟨⟨_, setClassicalNode_iff.2 ⟨by simp, rfl, by simp, rfl⟩, rfl, ?_⟩, ⟨_, setClassicalNode_iff.2 ⟨by simp, rfl, by simp, rfl⟩, rfl, ?_⟩⟩
  · intro x y z
    simp [setChannelsEffect, setChannels, pyIndex]
  · intro x
    simp [setChannelsEffect, setChannels, pyIndex]

/-- non-vacuity of C44: channel 2 is listed twice, the second value counts. -/
example : ∃ n, setClassicalNode 3 [5, 6, 7] [2, 0, 2] = some n ∧ ∀ c ∈ ([2, 0, 2] : List ℤ), 0 ≤ c :=
  ⟨_, setClassicalNode_iff.2 ⟨by simp, rfl, by simp, rfl⟩, by simp⟩

/-! ### C45 -/

theorem foldl_set_append (coll : Coll) (p' : List Char × QState) (hno : p'.1 ∉ coll.map Prod.fst) :
    [p'].foldl (fun (out : Coll) e => out.set e.1 e.2) coll = coll ++ [p'] := by
  simp only [List.foldl_cons, List.foldl_nil]
  rw [Dict.set_of_not_mem p'.2 (by simpa [Dict.keys] using hno)]

/-- controlled nodes, when all angles are determined by the classical values of the state -/
theorem controlledColl_iff (c : Circ) (vars : List Angle) (channels : List ℤ) (defaults : List (Angle × ℝ)) (tl : List ℕ)
    (ang : QState → Option (ℝ × ℝ)) (T : Option ℝ × Option ℝ → Prop) (hlen : vars.length = channels.length)
    (h0 : T (setAngles defaults (none, none)))
    (hread : ∀ q : QState, ∀ tp, T tp →
      (((vars.zip channels).mapM (m := Option) (fun vc => (pyGet q.classical vc.2).map (fun x => (vc.1, x)))).map (fun read => setAngles read tp))
        = (ang q).map (fun ab => (some ab.1, some ab.2)))
    (hT : ∀ q : QState, ∀ ab, ang q = some ab → T (some ab.1, some ab.2))
    (coll : Coll) (hids : (coll.map Prod.fst).Nodup) (out : Coll) :
    controlledColl c vars channels defaults tl coll = some out ↔
      List.Forall₂ (fun p p' => ∃ ab, ang p.2 = some ab ∧ opticalColl c (genericMatrix ab.1 ab.2, tl) [] [p] = some [p']) coll out := by
  unfold controlledColl
  simp only [Option.bind_eq_bind]
  rw [if_neg (not_not.2 hlen)]
  have single : ∀ (n : Opt × List ℕ) (p : List Char × QState) (o : Coll), opticalColl c n [] [p] = some o → ∃ p', o = [p'] ∧ p'.1 = p.1 := by
    intro n p o h
    obtain ⟨-, hf⟩ := (opticalColl_iff c n [] [p] (by simp) o).1 h
    cases hf with
    | cons h1 h2 =>
      cases h2
      obtain ⟨comps, -, rfl⟩ := h1
      exact ⟨_, rfl, rfl⟩
  have gen : ∀ (coll acc : Coll) (tp : Option ℝ × Option ℝ), T tp → (coll.map Prod.fst).Nodup → (∀ p ∈ coll, p.1 ∉ acc.map Prod.fst) → ∀ r,
      (coll.foldlM (fun (s : Coll × (Option ℝ × Option ℝ)) p =>
          ((vars.zip channels).mapM (m := Option) (fun vc => (pyGet p.2.classical vc.2).map (fun x => (vc.1, x)))).bind (fun read =>
          (setAngles read s.2).1.bind (fun th => (setAngles read s.2).2.bind (fun ph =>
          (opticalColl c (genericMatrix th ph, tl) [] [p]).bind (fun single =>
          some (single.foldl (fun (out : Coll) e => out.set e.1 e.2) s.1, setAngles read s.2)))))) (acc, tp)).map Prod.fst = some r ↔
      ∃ out, List.Forall₂ (fun p p' => ∃ ab, ang p.2 = some ab ∧ opticalColl c (genericMatrix ab.1 ab.2, tl) [] [p] = some [p']) coll out ∧
        r = acc ++ out := by
    intro coll
    induction coll with
    | nil =>
      intro acc tp _ _ _ r
      rw [List.foldlM_nil]
      constructor
      · intro h; obtain rfl := Option.some.inj h; exact ⟨[], List.Forall₂.nil, by simp⟩
      · rintro ⟨out, h, rfl⟩; cases h; simp
    | cons p coll ih =>
      intro acc tp htp hn hno r
      rw [List.map_cons, List.nodup_cons] at hn
      rw [List.foldlM_cons]
      have hr := hread p.2 tp htp
      simp only [Option.bind_eq_bind]
      cases ha : ang p.2 with
      | none =>
        rw [ha, Option.map_none, Option.map_eq_none_iff] at hr
        rw [hr]
        constructor
        · intro h; cases h
        · rintro ⟨out, h, -⟩
          cases h with
          | cons h1 _ => obtain ⟨ab, h1, -⟩ := h1; rw [ha] at h1; cases h1
      | some ab =>
        rw [ha, Option.map_some] at hr
        obtain ⟨read, hr1, hr2⟩ := Option.map_eq_some_iff.1 hr
        rw [hr1]
        simp only [Option.bind_some, hr2]
        cases ho : opticalColl c (genericMatrix ab.1 ab.2, tl) [] [p] with
        | none =>
          constructor
          · intro h; cases h
          · rintro ⟨out, h, -⟩
            cases h with
            | cons h1 _ =>
              obtain ⟨ab', h1, h2⟩ := h1
              rw [ha] at h1; obtain rfl := Option.some.inj h1
              rw [ho] at h2; cases h2
        | some o =>
          obtain ⟨p', rfl, hp'⟩ := single _ _ _ ho
          simp only [Option.bind_some]
          rw [foldl_set_append acc p' (by rw [hp']; exact hno p (by simp))]
          rw [ih (acc ++ [p']) (some ab.1, some ab.2) (hT p.2 ab ha) hn.2 (by
            intro q hq
            rw [List.map_append, List.mem_append, not_or]
            refine ⟨hno q (by simp [hq]), ?_⟩
            simp only [List.map_cons, List.map_nil, List.mem_singleton]
            rw [hp']
            intro e
            exact hn.1 (e ▸ List.mem_map.2 ⟨q, hq, rfl⟩))]
          constructor
          · rintro ⟨out, hf, rfl⟩
            exact ⟨p' :: out, List.Forall₂.cons ⟨ab, ha, ho⟩ hf, by simp⟩
          · rintro ⟨out, hf, rfl⟩
            cases hf with
            | @cons _ p'' _ out h1 h2 =>
              obtain ⟨ab', h1, h3⟩ := h1
              rw [ha] at h1; obtain rfl := Option.some.inj h1
              rw [ho] at h3
              have : p' = p'' := by simpa using h3
              subst this
              exact ⟨out, h2, by simp⟩
  have := gen coll [] (setAngles defaults (none, none)) h0 hids (by simp) out
  simp only [List.nil_append] at this
  rw [show (∃ o, List.Forall₂ (fun (p p' : List Char × QState) => ∃ ab, ang p.2 = some ab ∧ opticalColl c (genericMatrix ab.1 ab.2, tl) [] [p] = some [p']) coll o ∧ out = o) ↔
    List.Forall₂ (fun (p p' : List Char × QState) => ∃ ab, ang p.2 = some ab ∧ opticalColl c (genericMatrix ab.1 ab.2, tl) [] [p] = some [p']) coll out from
    ⟨fun ⟨o, h, e⟩ => e ▸ h, fun h => ⟨out, h, rfl⟩⟩] at this
  rw [← this]
  constructor
  · intro h
    obtain ⟨r, hr, e⟩ := Option.bind_eq_some_iff.1 h
    obtain rfl := Option.some.inj e
    rw [hr]; rfl
  · intro h
    obtain ⟨r, hr, rfl⟩ := Option.map_eq_some_iff.1 h
    rw [hr]; rfl

/-- **C45** `wave_plate_classical_control` does to every state what `wave_plate` with the angles in this state's own classical channels does
(and fails if this fails for some state). -/
theorem C45_wave_plate (c : Circ) (h v : ℕ) (orientation shift : ℤ) (n : Node) (hn : wavePlateControl c.g c.m h v orientation shift = some n)
    (coll : Coll) (hids : (coll.map Prod.fst).Nodup) : ∃ vars channels defaults tl, n = .controlled vars channels defaults tl ∧
    ∀ out, controlledColl c vars channels defaults tl coll = some out ↔
      List.Forall₂ (fun p p' => ∃ θ φ w, pyGet p.2.classical orientation = some θ ∧ pyGet p.2.classical shift = some φ ∧
        wavePlate c.g h v θ φ = some w ∧ opticalColl c w [] [p] = some [p']) coll out := by
  unfold wavePlateControl at hn
  split at hn
  · cases hn
  · split at hn
    · cases hn
    · obtain ⟨tl, htl, rfl⟩ := Option.map_eq_some_iff.1 hn
      refine ⟨_, _, _, tl, rfl, ?_⟩
      intro out
      rw [controlledColl_iff c _ _ _ tl (fun q => (pyGet q.classical orientation).bind (fun a => (pyGet q.classical shift).map (fun b => (a, b))))
        (fun _ => True) rfl trivial ?_ (fun _ _ _ => trivial) coll hids out]
      · apply forall₂_mem_congr
        intro p p' _
        constructor
        · rintro ⟨ab, h1, h2⟩
          obtain ⟨a, ha, h1⟩ := Option.bind_eq_some_iff.1 h1
          obtain ⟨b, hb, rfl⟩ := Option.map_eq_some_iff.1 h1
          exact ⟨a, b, _, ha, hb, by rw [wavePlate, genericRotation, htl]; rfl, h2⟩
        · rintro ⟨a, b, w, ha, hb, hw, h2⟩
          rw [wavePlate, genericRotation, htl] at hw
          obtain rfl := Option.some.inj hw
          exact ⟨(a, b), by rw [ha, hb]; rfl, h2⟩
      · intro q tp _
        simp only [List.zip_cons_cons, List.zip_nil_right, List.mapM_cons, List.mapM_nil]
        cases pyGet q.classical orientation with
        | none => rfl
        | some a => cases pyGet q.classical shift with
          | none => rfl
          | some b => rfl

/-- **C45** `phase_shift_single_channel_classical_control` does to every state what `phase_shift_single_channel` with the phase in this state's
own classical channel does (and fails if this fails for some state). -/
theorem C45_phase_shift (c : Circ) (ch : ℕ) (classical : ℤ) (n : Node) (hn : phaseShiftControl c.g c.m ch classical = some n)
    (coll : Coll) (hids : (coll.map Prod.fst).Nodup) : ∃ vars channels defaults tl, n = .controlled vars channels defaults tl ∧
    ∀ out, controlledColl c vars channels defaults tl coll = some out ↔
      List.Forall₂ (fun p p' => ∃ φ w, pyGet p.2.classical classical = some φ ∧
        phaseShift c.g ch φ = some w ∧ opticalColl c w [] [p] = some [p']) coll out := by
  unfold phaseShiftControl at hn
  split at hn
  · cases hn
  · split at hn
    · cases hn
    · obtain ⟨tl, htl, rfl⟩ := Option.map_eq_some_iff.1 hn
      have hps : ∀ φ, phaseShift c.g ch φ = some (genericMatrix 0 φ, tl) := by
        intro φ
        unfold phaseShift genericRotation
        by_cases h0 : ch = 0
        · rw [if_pos h0] at htl ⊢; rw [htl]; rfl
        · rw [if_neg h0] at htl ⊢; rw [htl]; rfl
      refine ⟨_, _, _, tl, rfl, ?_⟩
      intro out
      rw [controlledColl_iff c _ _ _ tl (fun q => (pyGet q.classical classical).map (fun b => (0, b)))
        (fun tp => tp.1 = some 0) rfl rfl ?_ ?_ coll hids out]
      · apply forall₂_mem_congr
        intro p p' _
        constructor
        · rintro ⟨ab, h1, h2⟩
          obtain ⟨b, hb, rfl⟩ := Option.map_eq_some_iff.1 h1
          exact ⟨b, _, hb, hps b, h2⟩
        · rintro ⟨b, w, hb, hw, h2⟩
          rw [hps b] at hw
          obtain rfl := Option.some.inj hw
          exact ⟨(0, b), by rw [hb]; rfl, h2⟩
      · intro q tp htp
        obtain ⟨t1, t2⟩ := tp
        obtain rfl : t1 = some 0 := htp
        simp only [List.zip_cons_cons, List.zip_nil_right, List.mapM_cons, List.mapM_nil]
        cases pyGet q.classical classical with
        | none => rfl
        | some a => rfl
      · intro q ab h
        obtain ⟨b, -, rfl⟩ := Option.map_eq_some_iff.1 h
        rfl

theorem pyGet_none {l : List ℝ} {i : ℤ} (h : (l.length : ℤ) ≤ i) : pyGet l i = none := by
  rw [pyGet, pyIndex, if_pos (by omega), if_neg (by omega)]; rfl

theorem pyGet_some {l : List ℝ} {i : ℕ} (h : i < l.length) : pyGet l i = l[i]? := by
  rw [pyGet, pyIndex, if_pos (by omega), if_pos (by omega)]; simp

/-- **C45** With existing channels (numbered from 0) the values are those of exactly these channels. -/
theorem C45_value (classical : List ℝ) (i : ℕ) (h : i < classical.length) : pyGet classical i = some classical[i] := by
  rw [pyGet_some h, List.getElem?_eq_getElem h]

/-- **C45** (partial: the number of channels itself, and negative numbers, are not refused) Classical channel numbers above the number of
channels are refused when the node is built. -/
theorem C45_refused_partial (g : Cfg) (m : ℕ) (h v ch : ℕ) (i j : ℤ) :
    ((m < i ∨ m < j) → wavePlateControl g m h v i j = none) ∧ (m < i → phaseShiftControl g m ch i = none) := by
  constructor
  · intro hc
    rw [wavePlateControl, if_pos]
    rcases hc with hc | hc
    · exact lt_of_lt_of_le hc (le_max_right _ _)
    · exact lt_of_lt_of_le hc (le_max_left _ _)
  · intro hc
    rw [phaseShiftControl, if_pos hc]

/-- **C45** Optical channels that do not exist, and equal ones, are refused when the node is built. -/
theorem C45_optical_refused (g : Cfg) (hg : g.Ok) (m : ℕ) (h v ch : ℕ) (i j : ℤ) :
    ((g.C ≤ h ∨ g.C ≤ v ∨ h = v) → wavePlateControl g m h v i j = none) ∧ (g.C ≤ ch → phaseShiftControl g m ch i = none) := by
  have hC : 2 ≤ g.C := hg.2
  have hsw : ∀ l : List ℕ, ∀ a b, l.length = g.C → (g.C ≤ a ∨ g.C ≤ b) → swapAt l a b = none := by
    intro l a b hl hab
    unfold swapAt
    rcases hab with hab | hab
    · rw [List.getElem?_eq_none (by omega)]
    · rw [List.getElem?_eq_none (i := b) (by omega)]
      cases l[a]? <;> rfl
  have htl : ∀ h v, (g.C ≤ h ∨ g.C ≤ v ∨ h = v) → tensorList g.C [h, v] = none := by
    intro h v hc
    unfold tensorList
    simp only
    by_cases e : h = v
    · rw [if_pos e]
    · rw [if_neg e, if_neg (by omega), if_neg (by omega)]
      by_cases hh : g.C ≤ h
      · rw [hsw _ _ _ (by simp) (Or.inr hh)]; rfl
      · have hv : g.C ≤ v := by omega
        have : swapAt (List.range g.C) 0 h = some (((List.range g.C).set 0 h).set h 0) := by
          unfold swapAt
          rw [List.getElem?_range (by omega), List.getElem?_range (by omega)]
        rw [this, Option.bind_some]
        exact hsw _ _ _ (by simp) (Or.inr hv)
  constructor
  · intro hc
    unfold wavePlateControl
    rw [htl h v hc]
    simp
  · intro hc
    unfold phaseShiftControl
    rw [if_neg (show ¬ ch = 0 by omega), htl 0 ch (Or.inr (Or.inl hc))]
    simp

/-- **C45** fails for the classical channel with number `m` of a circuit with `m` classical channels (and for negative numbers): the node is
built, and evaluation fails for every non-empty collection of valid states (or reads another channel). -/
theorem C45_fails (g : Cfg) (hg : g.Ok) (m : ℕ) : (∃ n, wavePlateControl g m 0 1 m 0 = some n) ∧
    (∃ n, phaseShiftControl g m 1 m = some n) ∧ (∃ n, phaseShiftControl g m 1 (-1) = some n) ∧
    (∀ c : Circ, c.g = g → c.m = m → ∀ coll : Coll, (coll.map Prod.fst).Nodup → coll ≠ [] → (∀ p ∈ coll, p.2.classical.length = m) →
      ∀ vars channels defaults tl, phaseShiftControl g m 1 m = some (.controlled vars channels defaults tl) →
        controlledColl c vars channels defaults tl coll = none) := by
  have htl : tensorList g.C [0, 1] = some (List.range g.C) := by simp [tensorList]
  have hC : 2 ≤ g.C := hg.2
  refine ⟨?_, ?_, ?_, ?_⟩
  · rw [wavePlateControl, if_neg (by simp), if_neg (by simp; omega), htl]; exact ⟨_, rfl⟩
  · rw [phaseShiftControl, if_neg (by simp), if_neg (by omega), if_neg (by decide), htl]; exact ⟨_, rfl⟩
  · rw [phaseShiftControl, if_neg (by omega), if_neg (by omega), if_neg (by decide), htl]; exact ⟨_, rfl⟩
  · rintro c rfl rfl coll hids hne hm vars channels defaults tl hn
    obtain ⟨_, _, _, _, e, hiff⟩ := C45_phase_shift c 1 c.m _ hn coll hids
    rw [Node.controlled.injEq] at e
    obtain ⟨rfl, rfl, rfl, rfl⟩ := e
    rw [Option.eq_none_iff_forall_ne_some]
    intro out ho
    have hf := (hiff out).1 ho
    obtain ⟨p, hp⟩ := List.exists_mem_of_ne_nil _ hne
    obtain ⟨p', -, φ, w, h1, -⟩ := forall₂_mem_left' hf hp
    rw [pyGet_none (by rw [hm p hp])] at h1
    cases h1

/-- non-vacuity of C45: nodes that can be built, and a collection on which a controlled node succeeds. -/
example : (∃ n, wavePlateControl ⟨2, 3, true⟩ 2 0 2 0 1 = some n) ∧ ∃ out, controlledColl ⟨⟨2, 2, true⟩, 1, 0, true, []⟩ [.phi] [0] [(.theta, 0), (.phi, 0)] [0, 1]
    oneState = some out := by
  constructor
  · rw [wavePlateControl, if_neg (by decide), if_neg (by decide)]
    simp [tensorList, swapAt]
  · have hn : phaseShiftControl ⟨2, 2, true⟩ 1 1 0 = some (.controlled [.phi] [0] [(.theta, 0), (.phi, 0)] [0, 1]) := by
      rw [phaseShiftControl, if_neg (by decide), if_neg (by decide)]
      rfl
    have hon : OnChannels ⟨2, 2, true⟩ (genericMatrix 0 0, [0, 1]) := ⟨0, 1, by decide, by decide, by decide, by decide⟩
    obtain ⟨_, _, _, _, e, hiff⟩ := C45_phase_shift ⟨⟨2, 2, true⟩, 1, 0, true, []⟩ 1 0 _ hn oneState oneState_normalised.ids
    rw [Node.controlled.injEq] at e
    obtain ⟨rfl, rfl, rfl, rfl⟩ := e
    have := opticalColl_map (c := ⟨⟨2, 2, true⟩, 1, 0, true, []⟩) (by decide) le_rfl (n := (genericMatrix 0 0, [0, 1])) (l := []) (by
      intro m hm; obtain rfl := List.mem_singleton.1 hm; exact hon) oneState_normalised
    refine ⟨_, (hiff _).2 (List.Forall₂.cons ⟨0, (genericMatrix 0 0, [0, 1]), ?_, ?_, this⟩ List.Forall₂.nil)⟩
    · simp [pyGet, pyIndex]
    · rfl

end Verif.Props
