/-
C89, C93: the deprecated interface for Popescu-Rohrlich pairs.
-/
import Verif.Model.NoSignalling
import Verif.Props.PRGate

namespace Verif.Props
open Verif Spec

/-! ### C89 -/

/-- **C89** (partial) Only the first state of the collection matters: the node makes of it what the Popescu-Rohrlich gate makes of it, and drops the other states. Missing: the contents of
the first state do matter, see `C89_fails`. -/
theorem C89_first_state_partial {g : Cfg} (hL : 2 ≤ g.L) {thr : ℝ} {m : ℕ} {boxes : List Box} (hok : BoxesOk g boxes) (ident : ℕ) (st : PRState)
    (hv : CheckValid thr m st.q) (hw : WellFormed g st.q.comps) (hd : DifferOutside g boxes st.q.comps) :
    ∃ out, GateResult g boxes ident st out ∧ ∀ others, noSignallingBoxes g thr m boxes ident (st :: others) = some out := by
  obtain ⟨out, h1, h2⟩ := createPR_spec hL hok ident hv hw hd
  exact ⟨out, h2, fun others => h1⟩

/-- (partial) If the pairs use all channels, then the optical content of the result does not depend on the first state either: its component with amplitude 1 becomes, in
the state of each configuration, the component with the photons of the pairs. -/
theorem C89_all_channels_partial {g : Cfg} (hL : 2 ≤ g.L) {thr : ℝ} {m : ℕ} {boxes : List Box} (hok : BoxesOk g boxes) (hall : ∀ i < g.C, ∃ b ∈ boxes, i ∈ b.channels)
    (ident : ℕ) (st st' : PRState) (others others' : List PRState) (hv : CheckValid thr m st.q) (hv' : CheckValid thr m st'.q)
    {v v' : Vals} (hvv : Valid g v) (hvv' : Valid g v') {s s' : Name} (hs : IsName g v s) (hs' : IsName g v' s')
    {p p' : ℝ} (hc : st.q.comps = [(s, ⟨1, p⟩)]) (hc' : st'.q.comps = [(s', ⟨1, p'⟩)]) :
    ∃ out out', noSignallingBoxes g thr m boxes ident (st :: others) = some out ∧ noSignallingBoxes g thr m boxes ident (st' :: others') = some out' ∧
      out.length = 4 ^ boxes.length ∧ out'.length = 4 ^ boxes.length ∧
      ∀ a ∈ out, ∀ a' ∈ out', configuration a = configuration a' → a.q.comps = a'.q.comps ∧ a.q.cum = a'.q.cum := by
  have one : ∀ (st : PRState) (v : Vals) (s : Name) (p : ℝ), Valid g v → IsName g v s → st.q.comps = [(s, ⟨1, p⟩)] →
      WellFormed g st.q.comps ∧ DifferOutside g boxes st.q.comps := by
    intro st v s p hv hs hc
    rw [hc]
    refine ⟨⟨by simp, ?_⟩, ?_⟩
    · intro e he
      obtain rfl : e = (s, ⟨1, p⟩) := by simpa using he
      exact ⟨v, hv, hs⟩
    · intro e he e' he' hne
      obtain rfl : e = (s, ⟨1, p⟩) := by simpa using he
      obtain rfl : e' = (s, ⟨1, p⟩) := by simpa using he'
      exact absurd rfl hne
  obtain ⟨w1, d1⟩ := one st v s p hvv hs hc
  obtain ⟨w2, d2⟩ := one st' v' s' p' hvv' hs' hc'
  obtain ⟨out, r1, h1⟩ := C89_first_state_partial hL hok ident st hv w1 d1
  obtain ⟨out', r2, h2⟩ := C89_first_state_partial hL hok ident st' hv' w2 d2
  refine ⟨out, out', h1 others, h2 others', r1.count, r2.count, ?_⟩
  intro a ha a' ha' hcf
  refine ⟨?_, by rw [(r1.kept a ha).2.2.2, (r2.kept a' ha').2.2.2]⟩
  have f1 := r1.components a ha
  have f2 := r2.components a' ha'
  rw [hc] at f1
  rw [hc'] at f2
  obtain ⟨e, he⟩ : ∃ e, a.q.comps = [e] := by
    generalize a.q.comps = l at f1
    cases f1 with
    | cons _ h => cases h; exact ⟨_, rfl⟩
  obtain ⟨e', he'⟩ : ∃ e', a'.q.comps = [e'] := by
    generalize a'.q.comps = l at f2
    cases f2 with
    | cons _ h => cases h; exact ⟨_, rfl⟩
  rw [he] at f1
  rw [he'] at f2
  cases f1 with
  | cons g1 _ =>
  cases f2 with
  | cons g2 _ =>
  obtain ⟨a1, b1, v1, x1, -, hx1, -, n1, o1⟩ := g1
  obtain ⟨a2, b2, v2, x2, -, hx2, -, n2, o2⟩ := g2
  have hx : x1 = x2 := by
    apply List.ext_getElem?
    intro i
    by_cases hi : i < g.C
    · obtain ⟨b, hb, hib⟩ := hall i hi
      obtain ⟨k, hk⟩ := List.mem_iff_getElem?.1 hb
      obtain ⟨j, hj⟩ := List.mem_iff_getElem?.1 hib
      have hkl : k < boxes.length := (List.getElem?_eq_some_iff.1 hk).1
      have hlen : ∀ c ∈ out, (configuration c).length = boxes.length := by
        intro c hcm
        exact r1.complete.len c hcm
      obtain ⟨q, hq⟩ : ∃ q, (configuration a)[k]? = some q := ⟨_, List.getElem?_eq_getElem (by rw [hlen a ha]; exact hkl)⟩
      rw [o1.pair k b q hk hq j i hj, o2.pair k b q hk (hcf ▸ hq) j i hj]
    · rw [List.getElem?_eq_none (by rw [hx1.1]; omega), List.getElem?_eq_none (by rw [hx2.1]; omega)]
  subst hx
  rw [isName_iff hx1] at n1 n2
  obtain ⟨k, c, pr⟩ := e
  obtain ⟨k', c', pr'⟩ := e'
  rw [he, he']
  simp only at a1 b1 a2 b2 n1 n2
  simp_all

/-- A state of the circuit with six channels with one component. -/
noncomputable def basisPR (label : List Char) (s : Name) (cum : ℝ) : PRState := ⟨⟨label, cum, [(s, ⟨1, 1⟩)], [], []⟩, none⟩

theorem basisPR_ok {label : List Char} {v : Vals} (hv : Valid sixChannels v) {s : Name} (hs : IsName sixChannels v s) {cum : ℝ} (h0 : 0 ≤ cum) (h1 : cum ≤ 1) :
    CheckValid (1 / 1000) 0 (basisPR label s cum).q ∧ WellFormed sixChannels (basisPR label s cum).q.comps ∧
      DifferOutside sixChannels [lateBox] (basisPR label s cum).q.comps := by
  refine ⟨⟨by simp only [basisPR]; linarith, by simp only [basisPR]; linarith, ?_, rfl⟩, ⟨by simp [basisPR], ?_⟩, ?_⟩
  · intro p hp
    obtain rfl : p = (s, ⟨1, 1⟩) := by simpa [basisPR] using hp
    norm_num
  · intro e he
    obtain rfl : e = (s, ⟨1, 1⟩) := by simpa [basisPR] using he
    exact ⟨v, hv, hs⟩
  · intro e he e' he' hne
    obtain rfl : e = (s, ⟨1, 1⟩) := by simpa [basisPR] using he
    obtain rfl : e' = (s, ⟨1, 1⟩) := by simpa [basisPR] using he'
    exact absurd rfl hne

/-- **C89** fails: what happens before the node does matter. For two states of one circuit (a photon in channel 0 or not) all results differ in their components, the probability stored for
the measurement is that of the state before the node, and the label is the label of that state, not 'no_signalling_boxes'. -/
theorem C89_fails : ∃ (g : Cfg) (boxes : List Box) (st st' : PRState), BoxesOk g boxes ∧ CheckValid (1 / 1000) 0 st.q ∧ CheckValid (1 / 1000) 0 st'.q ∧
    totalProb st.q.comps = 1 ∧ totalProb st'.q.comps = 1 ∧
    ∀ ident, ∃ out out', noSignallingBoxes g (1 / 1000) 0 boxes ident [st] = some out ∧ noSignallingBoxes g (1 / 1000) 0 boxes ident [st'] = some out' ∧
      out.length = 4 ∧ out'.length = 4 ∧ (∀ a ∈ out, ∀ a' ∈ out', a.q.comps ≠ a'.q.comps) ∧
      (∀ a ∈ out, a.q.initial ≠ "no_signalling_boxes".toList ∧ a.pr.map PRInfo.initialOut ≠ some "no_signalling_boxes".toList) ∧
      (∀ a ∈ out, a.pr.map PRInfo.origCum = some 1) ∧ ∀ a' ∈ out', a'.pr.map PRInfo.origCum = some (1 / 2) := by
  have hv : Valid sixChannels [0, 0, 0, 0, 0, 0] := ⟨rfl, by decide⟩
  have hv' : Valid sixChannels [1, 0, 0, 0, 0, 0] := ⟨rfl, by decide⟩
  have hn : IsName sixChannels [0, 0, 0, 0, 0, 0] "000000".toList := (isName_iff hv).2 (by decide)
  have hn' : IsName sixChannels [1, 0, 0, 0, 0, 0] "100000".toList := (isName_iff hv').2 (by decide)
  have hok : BoxesOk sixChannels [lateBox] := ⟨by simp [lateBox], by simp [lateBox], by simp [lateBox, sixChannels]⟩
  obtain ⟨c1, w1, d1⟩ := basisPR_ok (label := "in".toList) hv hn (cum := 1) (by norm_num) (by norm_num)
  obtain ⟨c2, w2, d2⟩ := basisPR_ok (label := "in".toList) hv' hn' (cum := 1 / 2) (by norm_num) (by norm_num)
  refine ⟨sixChannels, [lateBox], _, _, hok, c1, c2, by simp [basisPR, totalProb], by simp [basisPR, totalProb], ?_⟩
  intro ident
  obtain ⟨out, r1, h1⟩ := C89_first_state_partial (by decide) hok ident _ c1 w1 d1
  obtain ⟨out', r2, h2⟩ := C89_first_state_partial (by decide) hok ident _ c2 w2 d2
  refine ⟨out, out', h1 [], h2 [], r1.count, r2.count, ?_, ?_, ?_, ?_⟩
  · intro a ha a' ha' he
    have f1 := r1.components a ha
    have f2 := r2.components a' ha'
    rw [he] at f1
    simp only [basisPR] at f1 f2
    generalize a'.q.comps = l at f1 f2
    cases f1 with
    | cons g1 _ =>
    cases f2 with
    | cons g2 _ =>
    obtain ⟨-, -, v1, x1, hv1, hx1, m1, n1, o1⟩ := g1
    obtain ⟨-, -, v2, x2, hv2, hx2, m2, n2, o2⟩ := g2
    rw [isName_iff hx1] at n1
    rw [isName_iff hx2] at n2
    rw [isName_iff hv1, ← (isName_iff hv).1 hn |>.symm] at m1
    rw [isName_iff hv2, ← (isName_iff hv').1 hn' |>.symm] at m2
    have ex : x1 = x2 := sixChannels.stdName_inj hx1.2 hx2.2 (n1.symm.trans n2)
    have e1 := o1.rest 0 (by simp [lateBox])
    have e2 := o2.rest 0 (by simp [lateBox])
    have ev1 : v1 = [0, 0, 0, 0, 0, 0] := sixChannels.stdName_inj hv1.2 hv.2 m1.symm
    have ev2 : v2 = [1, 0, 0, 0, 0, 0] := sixChannels.stdName_inj hv2.2 hv'.2 m2.symm
    rw [ex, ev1] at e1
    rw [ev2, e1] at e2
    cases e2
  · intro a ha
    obtain ⟨i, hi, -, hl, -⟩ := r1.complete.info a ha
    refine ⟨?_, ?_⟩
    · rw [(r1.kept a ha).1]; simp only [basisPR]; decide
    · rw [hi, Option.map_some, hl]; simp only [basisPR]; decide
  · intro a ha
    obtain ⟨i, hi, -, -, hl⟩ := r1.complete.info a ha
    rw [hi, Option.map_some, hl]; rfl
  · intro a ha
    obtain ⟨i, hi, -, -, hl⟩ := r2.complete.info a ha
    rw [hi, Option.map_some, hl]; rfl

/-- non-vacuity of C89_all_channels_partial: a pair in the four channels of a circuit, starting from '0000' or from '1001' -/
example : ∃ out out', noSignallingBoxes fourChannels (1 / 1000) 0 [⟨[0, 1, 2, 3], 1⟩] 0 [basisPR "a".toList "0000".toList 1] = some out ∧
    noSignallingBoxes fourChannels (1 / 1000) 0 [⟨[0, 1, 2, 3], 1⟩] 0 [basisPR "b".toList "1001".toList 1] = some out' ∧
      out.length = 4 ∧ ∀ a ∈ out, ∀ a' ∈ out', configuration a = configuration a' → a.q.comps = a'.q.comps := by
  have hv : Valid fourChannels [0, 0, 0, 0] := ⟨rfl, by decide⟩
  have hv' : Valid fourChannels [1, 0, 0, 1] := ⟨rfl, by decide⟩
  obtain ⟨out, out', h1, h2, h3, -, h4⟩ := C89_all_channels_partial (g := fourChannels) (by decide) (thr := 1 / 1000) (m := 0) (boxes := [⟨[0, 1, 2, 3], 1⟩])
    ⟨by simp, by simp, by simp [fourChannels]⟩ (by intro i hi; refine ⟨⟨[0, 1, 2, 3], 1⟩, by simp, ?_⟩; have : i < 4 := hi; simp; omega) 0
    (basisPR "a".toList "0000".toList 1) (basisPR "b".toList "1001".toList 1) [] []
    (by norm_num [basisPR, CheckValid]) (by norm_num [basisPR, CheckValid]) hv hv' ((isName_iff hv).2 (by decide)) ((isName_iff hv').2 (by decide)) rfl rfl
  exact ⟨out, out', h1, h2, h3, fun a ha a' ha' h => (h4 a ha a' ha' h).1⟩

/-! ### C93 -/

open Classical in
/-- Total probability of the outcomes with a property. -/
noncomputable def probWhere (P : Name × ℝ → Prop) (outcomes : List (Name × ℝ)) : ℝ := (outcomes.map (fun op => if P op then op.2 else 0)).sum

/-- Outcome `op` has the same photon number in both channels. -/
def Same (g : Cfg) (combi : ℕ × ℕ) (op : Name × ℝ) : Prop := ∀ v, Valid g v → IsName g v op.1 → v[combi.1]? = v[combi.2]?

/-- **C93** For every list of outcomes with total probability different from 0 and every pair of existing channels the correlation is the probability to find equal photon
numbers minus the probability to find different ones, divided by the total; if no probability is negative it lies between -1 and 1. -/
theorem C93_correlation {g : Cfg} {outcomes : List (Name × ℝ)} (hn : ∀ op ∈ outcomes, ∃ v, Valid g v ∧ IsName g v op.1) {combi : ℕ × ℕ}
    (h1 : combi.1 < g.C) (h2 : combi.2 < g.C) (htot : (outcomes.map Prod.snd).sum ≠ 0) :
    ∃ e, correlationNS g outcomes combi = some e ∧
      e = (probWhere (Same g combi) outcomes - probWhere (fun op => ¬ Same g combi op) outcomes) / (outcomes.map Prod.snd).sum ∧
      ((∀ op ∈ outcomes, 0 ≤ op.2) → -1 ≤ e ∧ e ≤ 1) := by
  have key : ∀ (l : List (Name × ℝ)) (cc : ℝ × ℝ), (∀ op ∈ l, ∃ v, Valid g v ∧ IsName g v op.1) →
      l.foldlM (fun (cc : ℝ × ℝ) op => do
        let v ← g.parse op.1
        let x ← v[combi.1]?
        let y ← v[combi.2]?
        some (if x = y then cc.1 + op.2 else cc.1 - op.2, cc.2 + op.2)) cc =
      some (cc.1 + (probWhere (Same g combi) l - probWhere (fun op => ¬ Same g combi op) l), cc.2 + (l.map Prod.snd).sum) := by
    intro l
    induction l with
    | nil => intro cc _; simp [probWhere]
    | cons op l ih =>
      intro cc hl
      obtain ⟨v, hv, hs⟩ := hl op (by simp)
      have hs' := (isName_iff hv).1 hs
      have hx : v[combi.1]? = some (v[combi.1]'(by rw [hv.1]; exact h1)) := List.getElem?_eq_getElem _
      have hy : v[combi.2]? = some (v[combi.2]'(by rw [hv.1]; exact h2)) := List.getElem?_eq_getElem _
      have hsame : Same g combi op ↔ v[combi.1]'(by rw [hv.1]; exact h1) = v[combi.2]'(by rw [hv.1]; exact h2) := by
        constructor
        · intro h
          have := h v hv hs
          rw [hx, hy] at this
          exact Option.some.inj this
        · intro h w hw hws
          have : w = v := g.stdName_inj hw.2 hv.2 (((isName_iff hw).1 hws).symm.trans hs')
          subst this
          rw [hx, hy, h]
      rw [List.foldlM_cons]
      have hp : g.parse op.1 = some v := by rw [hs', g.parse_stdName hv.2]
      simp only [Option.bind_eq_bind, hp, Option.bind_some, hx, hy]
      have := ih
      simp only [Option.bind_eq_bind] at this
      rw [this _ (fun o ho => hl o (List.mem_cons_of_mem _ ho))]
      simp only [probWhere, List.map_cons, List.sum_cons, hsame]
      by_cases e : v[combi.1]'(by rw [hv.1]; exact h1) = v[combi.2]'(by rw [hv.1]; exact h2)
      · simp only [e, if_true, not_true, if_false]
        congr 2 <;> ring
      · simp only [e, if_false, not_false_eq_true, if_true]
        congr 2 <;> ring
  refine ⟨_, ?_, rfl, ?_⟩
  · unfold correlationNS
    rw [key outcomes (0, 0) hn]
    simp only [Option.bind_eq_bind, Option.bind_some, zero_add]
    rw [if_neg htot]
  · intro hpos
    have hS : ∀ (P : Name × ℝ → Prop), 0 ≤ probWhere P outcomes := by
      intro P
      refine List.sum_nonneg ?_
      intro x hx
      obtain ⟨op, hop, rfl⟩ := List.mem_map.1 hx
      split_ifs
      · exact hpos op hop
      · exact le_rfl
    have hsum : probWhere (Same g combi) outcomes + probWhere (fun op => ¬ Same g combi op) outcomes = (outcomes.map Prod.snd).sum := by
      clear hn htot hpos hS
      induction outcomes with
      | nil => simp [probWhere]
      | cons op l ih =>
        simp only [probWhere, List.map_cons, List.sum_cons] at ih ⊢
        rw [← ih]
        by_cases h : Same g combi op <;> simp only [h, not_true, not_false_eq_true, if_true, if_false] <;> ring
    have ht : 0 < (outcomes.map Prod.snd).sum := by
      refine lt_of_le_of_ne ?_ (Ne.symm htot)
      rw [← hsum]
      exact add_nonneg (hS _) (hS _)
    rw [le_div_iff₀ ht, div_le_iff₀ ht, ← hsum]
    exact ⟨by linarith [hS (Same g combi), hS (fun op => ¬ Same g combi op)], by linarith [hS (Same g combi), hS (fun op => ¬ Same g combi op)]⟩

/-- non-vacuity: equal polarizations with probability 3/4, different ones with probability 1/4 -/
example : ∃ e, correlationNS ⟨2, 4, true⟩ [("1010".toList, 3 / 8), ("1001".toList, 1 / 4), ("0101".toList, 3 / 8)] (0, 2) = some e ∧ e = 1 / 2 := by
  have h1 : Cfg.parse ⟨2, 4, true⟩ "1010".toList = some [1, 0, 1, 0] := by decide
  have h2 : Cfg.parse ⟨2, 4, true⟩ "1001".toList = some [1, 0, 0, 1] := by decide
  have h3 : Cfg.parse ⟨2, 4, true⟩ "0101".toList = some [0, 1, 0, 1] := by decide
  refine ⟨_, ?_, rfl⟩
  simp only [correlationNS, List.foldlM_cons, List.foldlM_nil, Option.bind_eq_bind, h1, h2, h3, Option.bind_some]
  norm_num

end Verif.Props
