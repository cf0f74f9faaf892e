/- Helper lemmas about Popescu-Rohrlich pairs: the gate. -/
import Verif.Lemmas.PR4
import Verif.Spec.PRGate
import Verif.Lemmas.Columns

namespace Verif
open Spec

theorem configValues_get (q : Fin 4) (j : ℕ) (hj : j < 4) : (configValues q)[j]? = some (pairPhotons q j) := by
  obtain rfl | rfl | rfl | rfl : j = 0 ∨ j = 1 ∨ j = 2 ∨ j = 3 := by omega
  all_goals (fin_cases q <;> rfl)

theorem pairPhotons_le (q : Fin 4) (j : ℕ) : pairPhotons q j ≤ 1 := by
  unfold pairPhotons
  split_ifs <;> omega

theorem length_four {α : Type*} {l : List α} (h : l.length = 4) : ∃ a b c d, l = [a, b, c, d] := by
  match l, h with
  | [a, b, c, d], _ => exact ⟨a, b, c, d, rfl⟩

/-- Writing one pair. -/
theorem writeBox_spec {C : ℕ} {b : Box} (h4 : b.channels.length = 4) (hn : b.channels.Nodup) (hC : ∀ c ∈ b.channels, c < C) (q : Fin 4) {v : Vals}
    (hv : v.length = C) : ∃ w, writeBox b q v = some w ∧ w.length = C ∧ (∀ j c, b.channels[j]? = some c → w[c]? = some (pairPhotons q j)) ∧
      (∀ i, i ∉ b.channels → w[i]? = v[i]?) ∧ (∀ x ∈ w, x ∈ v ∨ x ≤ 1) := by
  obtain ⟨a0, a1, a2, a3, e⟩ := length_four h4
  rw [e] at hn hC
  have h0 : a0 < C := hC a0 (by simp)
  have h1 : a1 < C := hC a1 (by simp)
  have h2 : a2 < C := hC a2 (by simp)
  have h3 : a3 < C := hC a3 (by simp)
  simp only [List.nodup_cons, List.mem_cons, not_or, List.not_mem_nil, not_false_eq_true, List.nodup_nil, and_true] at hn
  obtain ⟨⟨n01, n02, n03⟩, ⟨n12, n13⟩, n23⟩ := hn
  refine ⟨(((v.set a0 (pairPhotons q 0)).set a1 (pairPhotons q 1)).set a2 (pairPhotons q 2)).set a3 (pairPhotons q 3), ?_, ?_, ?_, ?_, ?_⟩
  · unfold writeBox
    rw [e]
    simp [List.zipIdx_cons, List.foldlM_cons, configValues_get, hv, h0, h1, h2, h3]
  · simp [hv]
  · intro j c hj
    rw [e] at hj
    have hj4 : j < 4 := by
      by_contra hc
      rw [List.getElem?_eq_none (by simpa using hc)] at hj
      exact absurd hj (by simp)
    obtain rfl | rfl | rfl | rfl : j = 0 ∨ j = 1 ∨ j = 2 ∨ j = 3 := by omega
    · simp at hj; subst hj
      simp only [List.getElem?_set, List.length_set, hv]
      simp [h0, Ne.symm n01, Ne.symm n02, Ne.symm n03]
    · simp at hj; subst hj
      simp only [List.getElem?_set, List.length_set, hv]
      simp [h1, Ne.symm n12, Ne.symm n13]
    · simp at hj; subst hj
      simp only [List.getElem?_set, List.length_set, hv]
      simp [h2, Ne.symm n23]
    · simp at hj; subst hj
      simp only [List.getElem?_set, List.length_set, hv]
      simp [h3]
  · intro i hi
    rw [e] at hi
    simp only [List.mem_cons, not_or, List.not_mem_nil, not_false_eq_true, and_true] at hi
    obtain ⟨i0, i1, i2, i3⟩ := hi
    simp [List.getElem?_set, Ne.symm i0, Ne.symm i1, Ne.symm i2, Ne.symm i3]
  · intro x hx
    rcases List.mem_or_eq_of_mem_set hx with hx | rfl
    · rcases List.mem_or_eq_of_mem_set hx with hx | rfl
      · rcases List.mem_or_eq_of_mem_set hx with hx | rfl
        · rcases List.mem_or_eq_of_mem_set hx with hx | rfl
          · exact Or.inl hx
          · exact Or.inr (pairPhotons_le _ _)
        · exact Or.inr (pairPhotons_le _ _)
      · exact Or.inr (pairPhotons_le _ _)
    · exact Or.inr (pairPhotons_le _ _)

/-- Writing all pairs. -/
theorem writeBoxes_spec {g : Cfg} {boxes : List Box} : ∀ {x : List (Fin 4)} {v : Vals}, BoxesOk g boxes → x.length = boxes.length → v.length = g.C →
    ∃ w, writeBoxes boxes x v = some w ∧ Overwritten boxes x v w ∧ (∀ y ∈ w, y ∈ v ∨ y ≤ 1) := by
  induction boxes with
  | nil =>
    intro x v _ hx hv
    obtain rfl : x = [] := List.eq_nil_of_length_eq_zero (by simpa using hx)
    exact ⟨v, rfl, ⟨rfl, by simp, by simp⟩, fun y hy => Or.inl hy⟩
  | cons b boxes ih =>
    intro x v hok hx hv
    obtain ⟨q, x, rfl⟩ : ∃ q x', x = q :: x' := by
      cases x with
      | nil => simp at hx
      | cons q x => exact ⟨q, x, rfl⟩
    have hd := hok.distinct
    rw [List.flatMap_cons, List.nodup_append] at hd
    obtain ⟨w1, e1, l1, p1, r1, m1⟩ := writeBox_spec (hok.four b List.mem_cons_self) hd.1 (hok.exist b List.mem_cons_self) q hv
    obtain ⟨w, e2, ⟨l2, p2, r2⟩, m2⟩ := ih (x := x) (v := w1) ⟨fun b hb => hok.four b (List.mem_cons_of_mem _ hb), hd.2.1, fun b hb => hok.exist b (List.mem_cons_of_mem _ hb)⟩
      (by simpa using hx) l1
    refine ⟨w, ?_, ⟨by rw [l2, l1, hv], ?_, ?_⟩, ?_⟩
    · unfold writeBoxes at *
      rw [List.zip_cons_cons, List.foldlM_cons, e1]
      exact e2
    · intro k b' q' hb' hq' j c hj
      cases k with
      | zero =>
        simp at hb' hq'
        subst hb' hq'
        rw [r2 c ?_]
        · exact p1 j c hj
        · intro b'' hb'' hc
          exact hd.2.2 c (List.mem_of_getElem? hj) c (List.mem_flatMap.mpr ⟨b'', hb'', hc⟩) rfl
      | succ k => exact p2 k b' q' (by simpa using hb') (by simpa using hq') j c hj
    · intro i hi
      rw [r2 i (fun b hb => hi b (List.mem_cons_of_mem _ hb)), r1 i (hi b List.mem_cons_self)]
    · intro y hy
      rcases m2 y hy with h | h
      · exact m1 y h
      · exact Or.inr h

theorem length_configOf (n m : ℕ) : (configOf n m).length = n := by simp [configOf]

theorem configOf_inj {n m m' : ℕ} (hm : m < 4 ^ n) (hm' : m' < 4 ^ n) (h : configOf n m = configOf n m') : m = m' := by
  have key : ∀ i < n, m / 4 ^ i % 4 = m' / 4 ^ i % 4 := by
    intro i hi
    have h1 := congrArg (fun l => l[n - 1 - i]?) h
    have hlt : n - 1 - i < n := by omega
    simp only [configOf, List.getElem?_map, List.getElem?_range hlt, Option.map_some, Option.some.injEq, Fin.mk.injEq] at h1
    rwa [show n - 1 - (n - 1 - i) = i by omega] at h1
  clear h
  induction n generalizing m m' with
  | zero => simp at hm hm'; omega
  | succ n ih =>
    have h0 := key 0 (by omega)
    simp at h0
    have : m / 4 = m' / 4 := by
      refine ih (by rw [pow_succ] at hm; omega) (by rw [pow_succ] at hm'; omega) (fun i hi => ?_)
      have := key (i + 1) (by omega)
      rwa [pow_succ', ← Nat.div_div_eq_div_mul, ← Nat.div_div_eq_div_mul] at this
    omega

theorem configs_nodup (n : ℕ) : (configs n).Nodup := by
  unfold configs
  refine List.Nodup.map_on ?_ List.nodup_range
  intro x hx y hy h
  exact configOf_inj (List.mem_range.mp hx) (List.mem_range.mp hy) h

theorem mem_configs {n : ℕ} (x : Fin n → Fin 4) : List.ofFn x ∈ configs n := by
  -- n-tuples and configurations are equally many
  have hcard : (configs n).toFinset = Finset.univ.image (fun x : Fin n → Fin 4 => List.ofFn x) := by
    apply Finset.eq_of_subset_of_card_le
    · intro l hl
      rw [List.mem_toFinset] at hl
      unfold configs at hl
      obtain ⟨m, -, rfl⟩ := List.mem_map.mp hl
      rw [Finset.mem_image]
      refine ⟨fun i => (configOf n m).get (i.cast (length_configOf n m).symm), Finset.mem_univ _, ?_⟩
      apply List.ext_getElem
      · simp [length_configOf]
      · intro i h1 h2
        simp
    · rw [Finset.card_image_of_injective _ List.ofFn_injective, List.toFinset_card_of_nodup (configs_nodup n)]
      simp [configs]
  have : List.ofFn x ∈ (configs n).toFinset := by
    rw [hcard]
    exact Finset.mem_image.mpr ⟨x, Finset.mem_univ _, rfl⟩
  exact List.mem_toFinset.mp this

theorem copyState_some {thr : ℝ} {m : ℕ} {q : QState} (h : CheckValid thr m q) : copyState thr m q = some q := by
  unfold copyState
  rw [if_pos h]

theorem setCum_half (n : ℕ) : setCum ((1 / 2 : ℝ) ^ n) = some ((1 / 2 : ℝ) ^ n) := by
  unfold setCum
  rw [if_pos ⟨by positivity, pow_le_one₀ (by norm_num) (by norm_num)⟩]

/-- One configuration. -/
theorem prepare_spec {g : Cfg} (hL : 2 ≤ g.L) {thr : ℝ} {m : ℕ} {boxes : List Box} (hok : BoxesOk g boxes) (ident : ℕ) {st : PRState}
    (hv : CheckValid thr m st.q) (hw : WellFormed g st.q.comps) (hdiff : DifferOutside g boxes st.q.comps) {x : List (Fin 4)} (hx : x.length = boxes.length) :
    ∃ comps, prepare g thr m boxes ident st x =
        some ⟨⟨st.q.initial, (1 / 2 : ℝ) ^ boxes.length, comps, st.q.classical, st.q.results⟩, some ⟨ident, x, boxes.map Box.K, st.q.initial, st.q.cum⟩⟩ ∧
      (comps.map Prod.fst).Nodup ∧
      List.Forall₂ (fun p p' => p'.2.amp = p.2.amp ∧ p'.2.prob = ‖p.2.amp‖ ^ 2 ∧
        ∃ v w, Valid g v ∧ Valid g w ∧ IsName g v p.1 ∧ IsName g w p'.1 ∧ Overwritten boxes x v w) st.q.comps comps := by
  have hname : ∀ p ∈ st.q.comps, ∃ v w, Valid g v ∧ Valid g w ∧ p.1 = g.stdName v ∧ Overwritten boxes x v w ∧ writeBoxes boxes x v = some w := by
    intro p hp
    obtain ⟨v, hv1, hv2⟩ := (wf_iff.mp hw).2 p hp
    obtain ⟨w, e, ho, hmem⟩ := writeBoxes_spec hok hx hv1.1
    refine ⟨v, w, hv1, ⟨ho.len.trans hv1.1, fun y hy => ?_⟩, hv2, ho, e⟩
    rcases hmem y hy with h | h
    · exact hv1.2 y h
    · omega
  have hV : ∀ s : Name, ∃ vw : Vals × Vals, (∃ p ∈ st.q.comps, p.1 = s) → Valid g vw.1 ∧ Valid g vw.2 ∧ s = g.stdName vw.1 ∧ Overwritten boxes x vw.1 vw.2 ∧ writeBoxes boxes x vw.1 = some vw.2 := by
    intro s
    by_cases h : ∃ p ∈ st.q.comps, p.1 = s
    · obtain ⟨p, hp, rfl⟩ := h
      obtain ⟨v, w, h⟩ := hname p hp
      exact ⟨(v, w), fun _ => h⟩
    · exact ⟨([], []), fun h' => absurd h' h⟩
  choose vw hvw using hV
  have hvw' : ∀ p ∈ st.q.comps, _ := fun p hp => hvw p.1 ⟨p, hp, rfl⟩
  set l : List (Name × ℂ) := st.q.comps.map (fun p => (g.stdName (vw p.1).2, p.2.amp)) with hl
  have hmap : st.q.comps.mapM (fun p => do
      let v ← g.parse p.1
      let v' ← writeBoxes boxes x v
      let s ← g.render v'
      some (s, p.2.amp)) = some l := by
    rw [hl]
    refine mapM_some_of (fun p hp => ?_)
    obtain ⟨h1, h2, h3, h4, h5⟩ := hvw' p hp
    rw [h3, g.parse_stdName h1.2, ← h3]
    simp only [Option.bind_eq_bind, Option.bind_some, h5, g.render_of_valid h2]
  have hlnodup : (l.map Prod.fst).Nodup := by
    rw [hl, List.map_map]
    refine List.Nodup.map_on ?_ (List.Nodup.of_map _ hw.nodup)
    intro p hp p' hp' he
    obtain ⟨h1, h2, h3, h4, _⟩ := hvw' p hp
    obtain ⟨h1', h2', h3', h4', _⟩ := hvw' p' hp'
    have hww := g.stdName_inj h2.2 h2'.2 he
    by_cases hpp : p.1 = p'.1
    · exact List.inj_on_of_nodup_map hw.nodup hp hp' hpp
    · obtain ⟨i, hi, hout, hne⟩ := hdiff p hp p' hp' hpp _ _ h1 h1' ((isName_iff h1).mpr h3) ((isName_iff h1').mpr h3')
      exact absurd ((h4.rest i hout).symm.trans ((congrArg (fun z : Vals => z[i]?) hww).trans (h4'.rest i hout))) hne
  have hset := setFromList_nodup (g := g) l (by
    intro p hp
    rw [hl, List.mem_map] at hp
    obtain ⟨p0, hp0, rfl⟩ := hp
    obtain ⟨h1, h2, h3, h4, _⟩ := hvw' p0 hp0
    exact ⟨_, h2, (isName_iff h2).mpr rfl⟩) hlnodup
  refine ⟨l.map (fun p => (p.1, (⟨p.2, ‖p.2‖ ^ 2⟩ : Comp))), ?_, ?_, ?_⟩
  · unfold prepare
    rw [copyState_some hv, setCum_half]
    simp only [Option.bind_eq_bind, Option.bind_some]
    simp only [Option.bind_eq_bind] at hmap
    rw [hmap]
    simp only [Option.bind_some]
    rw [hset]
    rfl
  · rw [List.map_map]
    exact hlnodup
  · rw [hl, List.map_map, List.forall₂_map_right_iff, List.forall₂_same]
    intro p hp
    obtain ⟨h1, h2, h3, h4, _⟩ := hvw' p hp
    exact ⟨rfl, rfl, _, _, h1, h2, (isName_iff h1).mpr h3, (isName_iff h2).mpr rfl, h4⟩

/-- All configurations of one state. -/
theorem createPR_spec {g : Cfg} (hL : 2 ≤ g.L) {thr : ℝ} {m : ℕ} {boxes : List Box} (hok : BoxesOk g boxes) (ident : ℕ) {st : PRState}
    (hv : CheckValid thr m st.q) (hw : WellFormed g st.q.comps) (hdiff : DifferOutside g boxes st.q.comps) :
    ∃ out, createPR g thr m boxes ident st = some out ∧ GateResult g boxes ident st out := by
  have hex : ∀ x : List (Fin 4), ∃ comps : Comps, x.length = boxes.length → _ := fun x => by
    by_cases hx : x.length = boxes.length
    · obtain ⟨comps, h⟩ := prepare_spec hL hok ident hv hw hdiff hx
      exact ⟨comps, fun _ => h⟩
    · exact ⟨[], fun h => absurd h hx⟩
  choose comps hcomps using hex
  have hlen : ∀ x ∈ configs boxes.length, x.length = boxes.length := by
    intro x hx
    unfold configs at hx
    obtain ⟨k, -, rfl⟩ := List.mem_map.mp hx
    exact length_configOf _ _
  set mk : List (Fin 4) → PRState := fun x => ⟨⟨st.q.initial, (1 / 2 : ℝ) ^ boxes.length, comps x, st.q.classical, st.q.results⟩,
    some ⟨ident, x, boxes.map Box.K, st.q.initial, st.q.cum⟩⟩ with hmk
  have hmem : ∀ s ∈ (configs boxes.length).map mk, ∃ x ∈ configs boxes.length, s = mk x := by
    intro s hs
    obtain ⟨x, hx, rfl⟩ := List.mem_map.mp hs
    exact ⟨x, hx, rfl⟩
  refine ⟨(configs boxes.length).map mk, mapM_some_of (fun x hx => (hcomps x (hlen x hx)).1), ?_⟩
  refine ⟨by simp [configs], ⟨?_, ?_, ?_, ?_, ?_⟩, ?_, ?_, ?_⟩
  · intro s hs
    obtain ⟨x, hx, rfl⟩ := hmem s hs
    refine ⟨_, rfl, ?_, rfl, rfl⟩
    show boxes.map Box.K = List.ofFn (fun k => (boxes.get k).K)
    conv_lhs => rw [← List.ofFn_get boxes]
    rw [List.map_ofFn]
    rfl
  · intro s hs
    obtain ⟨x, hx, rfl⟩ := hmem s hs
    exact (hcomps x (hlen x hx)).2.1
  · intro x
    exact ⟨mk (List.ofFn x), List.mem_map.mpr ⟨_, mem_configs x, rfl⟩, rfl⟩
  · intro s hs
    obtain ⟨x, hx, rfl⟩ := hmem s hs
    exact hlen x hx
  · rw [List.map_map]
    have : (configuration ∘ mk) = id := by funext x; rfl
    rw [this, List.map_id]
    exact configs_nodup _
  · intro s hs
    obtain ⟨x, hx, rfl⟩ := hmem s hs
    rfl
  · intro s hs
    obtain ⟨x, hx, rfl⟩ := hmem s hs
    exact ⟨rfl, rfl, rfl, rfl⟩
  · intro s hs
    obtain ⟨x, hx, rfl⟩ := hmem s hs
    exact (hcomps x (hlen x hx)).2.2

end Verif
