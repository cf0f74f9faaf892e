/- Helper lemmas about Popescu-Rohrlich pairs: the probability of one outcome, grouping of the amplitudes. -/
import Verif.Lemmas.PR2
import Verif.Lemmas.State

namespace Verif
open Spec

theorem sum_pol {M : Type*} [AddCommMonoid M] (F : Fin 2 → Fin 2 → M) : ∑ q : Fin 4, F (polA q) (polB q) = ∑ i, ∑ j, F i j := by
  rw [Fin.sum_univ_four, Fin.sum_univ_two, Fin.sum_univ_two, Fin.sum_univ_two]
  show F 0 0 + F 0 1 + F 1 0 + F 1 1 = _
  rw [add_assoc (F 0 0 + F 0 1)]

/-- Total polWeight of a product array. -/
theorem sum_prod_array {d : ℕ} {T : (Fin d → Fin 4) → ℂ} {c : ℂ} {a b : Fin d → Fin 2 → ℂ}
    (hT : ∀ x, T x = c * ∏ k, (a k (polA (x k)) * b k (polB (x k)))) :
    ∑ x, ‖T x‖ ^ 2 = ‖c‖ ^ 2 * ∏ k, (polWeight (a k) * polWeight (b k)) := by
  have h1 : ∀ x : Fin d → Fin 4, ‖T x‖ ^ 2 = ‖c‖ ^ 2 * ∏ k, ‖a k (polA (x k)) * b k (polB (x k))‖ ^ 2 := by
    intro x
    rw [hT, Complex.norm_mul, mul_pow, norm_prod, Finset.prod_pow]
  simp only [h1]
  rw [← Finset.mul_sum]
  congr 1
  rw [← Fintype.piFinset_univ, ← Finset.prod_univ_sum (t := fun _ => Finset.univ) (f := fun (k : Fin d) (q : Fin 4) => ‖a k (polA q) * b k (polB q)‖ ^ 2)]
  refine Finset.prod_congr rfl (fun k _ => ?_)
  rw [sum_pol (fun i j => ‖a k i * b k j‖ ^ 2)]
  simp only [Fin.sum_univ_two, Complex.norm_mul, mul_pow]
  unfold polWeight
  ring

theorem foldlM_mul {β : Type*} (l : List β) (F : ℝ → β → Option ℝ) (h : β → ℝ) (hF : ∀ p, ∀ x ∈ l, F p x = some (p * h x)) (p : ℝ) :
    l.foldlM F p = some (p * (l.map h).prod) := by
  induction l generalizing p with
  | nil => simp
  | cons x l ih =>
    rw [List.foldlM_cons, hF p x List.mem_cons_self]
    simp only [Option.bind_eq_bind, Option.bind_some]
    rw [ih (fun p y hy => hF p y (List.mem_cons_of_mem _ hy)), List.map_cons, List.prod_cons, mul_assoc]

theorem ofFn_zipIdx {α : Type*} {n : ℕ} (f : Fin n → α) : (List.ofFn f).zipIdx = List.ofFn (fun i => (f i, i.val)) := by
  apply List.ext_getElem
  · simp
  · intro i h1 h2
    simp

/-- Value of an array made from a dictionary with one more entry. -/
theorem sum_dict {d : ℕ} {e : Dict (List (Fin 4)) ℂ} (hn : e.keys.Nodup) (hl : ∀ p ∈ e, p.1.length = d) :
    (e.map (fun p => ‖p.2‖ ^ 2)).sum = ∑ x : Fin d → Fin 4, ‖(e.get? (List.ofFn x)).getD 0‖ ^ 2 := by
  induction e with
  | nil => simp
  | cons p e ih =>
    have hn' : p.1 ∉ Dict.keys e ∧ (Dict.keys e).Nodup := List.nodup_cons.mp hn
    obtain ⟨x₀, hx₀⟩ : ∃ x₀ : Fin d → Fin 4, List.ofFn x₀ = p.1 := by
      have := hl p List.mem_cons_self
      subst this
      exact ⟨fun i => p.1.get i, List.ofFn_get p.1⟩
    rw [List.map_cons, List.sum_cons, ih hn'.2 (fun q hq => hl q (List.mem_cons_of_mem _ hq))]
    have h0 : (Dict.get? e p.1).getD 0 = 0 := by rw [Dict.get?_eq_none.mpr hn'.1]; rfl
    rw [← Finset.add_sum_erase _ _ (Finset.mem_univ x₀), ← Finset.add_sum_erase (a := x₀) (f := fun x : Fin d → Fin 4 => ‖(Dict.get? (p :: e) (List.ofFn x)).getD 0‖ ^ 2) _ (Finset.mem_univ x₀)]
    rw [hx₀, h0, Dict.get?_cons, if_pos rfl]
    simp only [norm_zero, Option.getD_some]
    rw [zero_pow two_ne_zero, zero_add]
    congr 1
    refine Finset.sum_congr rfl (fun x hx => ?_)
    rw [Dict.get?_cons, if_neg]
    rw [← hx₀]
    intro h
    exact (Finset.mem_erase.mp hx).1 (List.ofFn_injective h).symm

/-- Probability of one outcome whose amplitudes are a product over pairs and over the two photons of each pair. -/
theorem prOutcomeProb_prod {d : ℕ} {e : Dict (List (Fin 4)) ℂ} (hn : e.keys.Nodup) (hl : ∀ p ∈ e, p.1.length = d + 1)
    {Ks : Fin (d + 1) → ℝ} (hK : ∀ k, 0 < Ks k) {c : ℂ} {a b : Fin (d + 1) → Fin 2 → ℂ}
    (hT : ∀ x : Fin (d + 1) → Fin 4, (e.get? (List.ofFn x)).getD 0 = c * ∏ k, (a k (polA (x k)) * b k (polB (x k))))
    (hne : c ≠ 0) (ha : ∀ k, 0 < polWeight (a k)) (hb : ∀ k, 0 < polWeight (b k)) (P : ℝ) :
    prOutcomeProb (List.ofFn Ks) P e =
      some (P * (‖c‖ ^ 2 * ∏ k, (polWeight (a k) * polWeight (b k) * ((1 + pairCorrelation (Ks k) (a k) (b k)) / 2)))) := by
  set T : (Fin (d + 1) → Fin 4) → ℂ := fun x => (e.get? (List.ofFn x)).getD 0 with hTdef
  obtain ⟨f, hf⟩ : ∃ f : Fin (d + 1) → Fin 4 → ℂ, ∀ k q, f k q = a k (polA q) * b k (polB q) := ⟨fun k q => a k (polA q) * b k (polB q), fun _ _ => rfl⟩
  have hT' : ∀ x, T x = c * ∏ k, f k (x k) := by
    intro x
    simp only [hf]
    exact hT x
  have hne' : ∃ x, T x ≠ 0 := by
    rw [exists_ne_of_prod hT']
    refine ⟨hne, fun k => ?_⟩
    obtain ⟨i, hi⟩ := exists_of_weight (ha k)
    obtain ⟨j, hj⟩ := exists_of_weight (hb k)
    refine ⟨pol i j, ?_⟩
    have h1 : polA (pol i j) = i := Fin.ext (by show (2 * i.val + j.val) / 2 = _; omega)
    have h2 : polB (pol i j) = j := Fin.ext (by show (2 * i.val + j.val) % 2 = _; omega)
    rw [hf, h1, h2]
    exact mul_ne_zero hi hj
  have hen : e ≠ [] := by
    rintro rfl
    obtain ⟨x, hx⟩ := hne'
    exact hx rfl
  obtain ⟨p₀, e', rfl⟩ : ∃ p e', e = p :: e' := List.exists_cons_of_ne_nil hen
  have hlen : p₀.1.length = d + 1 := hl p₀ List.mem_cons_self
  have hmat : matrixFromDict (d + 1) (p₀ :: e') = some T := by
    unfold matrixFromDict
    rw [if_pos]
    rw [List.all_eq_true]
    intro p hp
    simp [hl p hp]
  have halign : ∀ k : Fin (d + 1), alignment (stokes (photonAmps (pairVectors T k) 0)) (stokes (photonAmps (pairVectors T k) 1)) (Ks k)
      = (1 + pairCorrelation (Ks k) (a k) (b k)) / 2 := by
    intro k
    obtain ⟨l, hl0, hlv⟩ := pairVectors_prod hT' hne' k
    have hvne : ∃ q, pairVectors T k q ≠ 0 := by
      obtain ⟨j, hj⟩ := ((exists_ne_of_prod hT').mp hne').2 k
      exact ⟨j, by rw [hlv]; exact mul_ne_zero hl0 hj⟩
    simp only [hf] at hlv
    obtain ⟨l0, hl00, hA⟩ := photonAmps_prod hlv hvne 0
    obtain ⟨l1, hl10, hB⟩ := photonAmps_prod hlv hvne 1
    have hA' : photonAmps (pairVectors T k) 0 = fun i => l0 * a k i := funext hA
    have hB' : photonAmps (pairVectors T k) 1 = fun i => l1 * b k i := funext hB
    rw [hA', hB', alignment_stokes (hK k)]
    · unfold pairCorrelation
      rw [overlap_smul hl00 hl10]
    · rw [polWeight_smul]
      exact mul_pos (pow_pos (norm_pos_iff.mpr hl00) 2) (ha k)
    · rw [polWeight_smul]
      exact mul_pos (pow_pos (norm_pos_iff.mpr hl10) 2) (hb k)
  unfold prOutcomeProb
  simp only [List.head?_cons, Option.bind_eq_bind, Option.bind_some, hlen, hmat]
  rw [if_neg (by push Not; exact hne')]
  rw [if_neg (fun h => h.1 (dictFactorable_prod hT' hne'))]
  rw [ofFn_zipIdx]
  rw [foldlM_mul _ _ (fun Kn : ℝ × ℕ => if h : Kn.2 < d + 1 then (1 + pairCorrelation Kn.1 (a ⟨Kn.2, h⟩) (b ⟨Kn.2, h⟩)) / 2 else 1)]
  · simp only [Option.bind_some]
    congr 1
    rw [List.map_ofFn, List.prod_ofFn, sum_dict hn hl, sum_prod_array hT]
    have : ∀ k : Fin (d + 1), ((fun Kn : ℝ × ℕ => if h : Kn.2 < d + 1 then (1 + pairCorrelation Kn.1 (a ⟨Kn.2, h⟩) (b ⟨Kn.2, h⟩)) / 2 else 1) ∘
        fun i : Fin (d + 1) => (Ks i, i.val)) k = (1 + pairCorrelation (Ks k) (a k) (b k)) / 2 := by
      intro k
      rw [Function.comp_apply, dif_pos k.isLt]
    simp only [this]
    rw [Finset.prod_mul_distrib (f := fun k => polWeight (a k) * polWeight (b k)) (g := fun k => (1 + pairCorrelation (Ks k) (a k) (b k)) / 2)]
    ring
  · intro p x hx
    rw [List.mem_ofFn] at hx
    obtain ⟨k, rfl⟩ := hx
    simp only [k.isLt, dite_true]
    rw [if_neg (not_le.mpr (hK k))]
    simp only [Fin.eta]
    rw [halign]

/-! Grouping -/

/-- What the outcome `s` should have collected. -/
noncomputable def entryOf (coll : List PRState) (s : Name) : Dict (List (Fin 4)) ℂ :=
  coll.filterMap (fun st => (st.q.comps.get? s).map (fun k => ((st.pr.map PRInfo.config).getD [], k.amp * (Real.sqrt st.q.cum : ℂ))))

theorem entryOf_append (l l' : List PRState) (s : Name) : entryOf (l ++ l') s = entryOf l s ++ entryOf l' s := by
  unfold entryOf
  rw [List.filterMap_append]

theorem groupConfigs_state {info : PRInfo} (c : Comps) (cum : ℝ) (hn : c.keys.Nodup) (d : Dict Name (Dict (List (Fin 4)) ℂ)) (hd : d.keys.Nodup) :
    ∃ d', c.foldlM (fun (d : Dict Name (Dict (List (Fin 4)) ℂ)) p => do
      let info ← some info
      let a : ℂ := p.2.amp * (Real.sqrt cum : ℂ)
      match d.get? p.1 with
      | some e => some (d.set p.1 (e.set info.config a))
      | none => some (d.set p.1 [(info.config, a)])) d = some d' ∧ d'.keys.Nodup ∧
      (∀ s, d'.get? s = match c.get? s with
        | none => d.get? s
        | some k => some (((d.get? s).getD []).set info.config (k.amp * (Real.sqrt cum : ℂ)))) ∧
      (∃ new, d'.keys = d.keys ++ new) := by
  induction c generalizing d with
  | nil => exact ⟨d, rfl, hd, fun s => rfl, [], by simp⟩
  | cons p c ih =>
    have hn' : p.1 ∉ Dict.keys c ∧ (Dict.keys c).Nodup := List.nodup_cons.mp hn
    set d1 := d.set p.1 (((d.get? p.1).getD []).set info.config (p.2.amp * (Real.sqrt cum : ℂ))) with hd1
    obtain ⟨d', h1, h2, h3, new, h4⟩ := ih hn'.2 d1 (Dict.nodup_keys_set hd _ _)
    refine ⟨d', ?_, h2, ?_, ?_⟩
    · rw [List.foldlM_cons]
      have : (do
          let info ← some info
          let a : ℂ := p.2.amp * (Real.sqrt cum : ℂ)
          match d.get? p.1 with
          | some e => some (d.set p.1 (e.set info.config a))
          | none => some (d.set p.1 [(info.config, a)])) = some d1 := by
        simp only [Option.bind_eq_bind, Option.bind_some]
        rw [hd1]
        cases hg : d.get? p.1 with
        | none => rfl
        | some e => rfl
      rw [this]
      exact h1
    · intro s
      rw [h3, Dict.get?_cons]
      by_cases hs : p.1 = s
      · subst hs
        rw [if_pos rfl, Dict.get?_eq_none.mpr hn'.1]
        simp only
        rw [hd1, Dict.get?_set, if_pos rfl]
      · rw [if_neg hs]
        have : d1.get? s = d.get? s := by rw [hd1, Dict.get?_set, if_neg hs]
        rw [this]
    · by_cases hm : p.1 ∈ Dict.keys d
      · exact ⟨new, by rw [h4, hd1, Dict.keys_set_of_mem _ hm]⟩
      · exact ⟨p.1 :: new, by rw [h4, hd1, Dict.keys_set_of_not_mem _ hm]; simp⟩

theorem set_entryOf {info : PRInfo} {done : List PRState} {s : Name}
    (hc : info.config ∉ done.map (fun st => (st.pr.map PRInfo.config).getD [])) (a : ℂ) :
    (entryOf done s).set info.config a = entryOf done s ++ [(info.config, a)] := by
  apply Dict.set_of_not_mem
  intro hm
  unfold entryOf Dict.keys at hm
  rw [List.mem_map] at hm
  obtain ⟨p, hp, hpe⟩ := hm
  rw [List.mem_filterMap] at hp
  obtain ⟨st', hst', h⟩ := hp
  rw [Option.map_eq_some_iff] at h
  obtain ⟨k, _, rfl⟩ := h
  exact hc (List.mem_map.mpr ⟨st', hst', hpe⟩)

theorem groupConfigs_aux (coll : List PRState) : ∀ (done : List PRState) (d : Dict Name (Dict (List (Fin 4)) ℂ)),
    (∀ st ∈ coll, st.pr.isSome ∧ st.q.comps.keys.Nodup) →
    ((done ++ coll).map (fun st => (st.pr.map PRInfo.config).getD [])).Nodup → d.keys.Nodup →
    (∀ s, d.get? s = if entryOf done s = [] then none else some (entryOf done s)) →
    ∃ d', coll.foldlM (fun d st => st.q.comps.foldlM (fun (d : Dict Name (Dict (List (Fin 4)) ℂ)) p => do
      let info ← st.pr
      let a : ℂ := p.2.amp * (Real.sqrt st.q.cum : ℂ)
      match d.get? p.1 with
      | some e => some (d.set p.1 (e.set info.config a))
      | none => some (d.set p.1 [(info.config, a)])) d) d = some d' ∧ d'.keys.Nodup ∧
      ∀ s, d'.get? s = if entryOf (done ++ coll) s = [] then none else some (entryOf (done ++ coll) s) := by
  induction coll with
  | nil =>
    intro done d _ _ hd hg
    exact ⟨d, rfl, hd, by simpa using hg⟩
  | cons st coll ih =>
    intro done d hst hn hd hg
    obtain ⟨hsome, hkn⟩ := hst st List.mem_cons_self
    obtain ⟨info, hi⟩ := Option.isSome_iff_exists.mp hsome
    obtain ⟨d1, h1, h2, h3, _⟩ := groupConfigs_state (info := info) st.q.comps st.q.cum hkn d hd
    have hc : info.config ∉ done.map (fun st => (st.pr.map PRInfo.config).getD []) := by
      rw [List.map_append, List.nodup_append] at hn
      intro hm
      exact hn.2.2 _ hm info.config (by simp [hi]) rfl
    have hg1 : ∀ s, d1.get? s = if entryOf (done ++ [st]) s = [] then none else some (entryOf (done ++ [st]) s) := by
      intro s
      rw [h3, entryOf_append]
      cases hk : st.q.comps.get? s with
      | none =>
        have : entryOf [st] s = [] := by simp [entryOf, hk]
        rw [this, List.append_nil]
        exact hg s
      | some k =>
        have : entryOf [st] s = [(info.config, k.amp * (Real.sqrt st.q.cum : ℂ))] := by simp [entryOf, hk, hi]
        rw [this]
        simp only
        rw [if_neg (by simp)]
        have hgd : (d.get? s).getD [] = entryOf done s := by
          rw [hg]
          by_cases he : entryOf done s = []
          · rw [if_pos he, he]; rfl
          · rw [if_neg he]; rfl
        rw [hgd, set_entryOf hc]
    obtain ⟨d', h4, h5, h6⟩ := ih (done ++ [st]) d1 (fun s hs => hst s (List.mem_cons_of_mem _ hs)) (by simpa using hn) h2 hg1
    refine ⟨d', ?_, h5, by simpa using h6⟩
    rw [List.foldlM_cons]
    simp only [hi]
    rw [h1]
    exact h4

/-- The amplitudes of each outcome, collected per configuration. -/
theorem groupConfigs_spec {coll : List PRState} (hst : ∀ st ∈ coll, st.pr.isSome ∧ st.q.comps.keys.Nodup)
    (hn : (coll.map (fun st => (st.pr.map PRInfo.config).getD [])).Nodup) :
    ∃ G, groupConfigs coll = some G ∧ G.keys.Nodup ∧ ∀ s, G.get? s = if entryOf coll s = [] then none else some (entryOf coll s) := by
  obtain ⟨d', h1, h2, h3⟩ := groupConfigs_aux coll [] [] hst (by simpa using hn) List.nodup_nil (fun s => by simp [entryOf])
  exact ⟨d', h1, h2, by simpa using h3⟩

theorem keys_entryOf {coll : List PRState} {s : Name} :
    ∀ x ∈ (entryOf coll s).keys, x ∈ coll.map (fun st => (st.pr.map PRInfo.config).getD []) := by
  intro x hx
  unfold entryOf Dict.keys at hx
  rw [List.mem_map] at hx
  obtain ⟨p, hp, rfl⟩ := hx
  rw [List.mem_filterMap] at hp
  obtain ⟨st, hst, h⟩ := hp
  rw [Option.map_eq_some_iff] at h
  obtain ⟨k, _, rfl⟩ := h
  exact List.mem_map.mpr ⟨st, hst, rfl⟩

theorem nodup_entryOf {coll : List PRState} (hn : (coll.map (fun st => (st.pr.map PRInfo.config).getD [])).Nodup) (s : Name) :
    (entryOf coll s).keys.Nodup := by
  induction coll with
  | nil => exact List.nodup_nil
  | cons st coll ih =>
    rw [List.map_cons, List.nodup_cons] at hn
    have h := ih hn.2
    unfold entryOf
    rw [List.filterMap_cons]
    cases hk : st.q.comps.get? s with
    | none => exact h
    | some k =>
      simp only [Option.map_some]
      exact List.nodup_cons.mpr ⟨fun hm => hn.1 (keys_entryOf _ hm), h⟩

/-- The amplitude collected for the configuration of a state is its amplitude times the root of its probability. -/
theorem get_entryOf {coll : List PRState} (hn : (coll.map (fun st => (st.pr.map PRInfo.config).getD [])).Nodup) {st : PRState} (hst : st ∈ coll) (s : Name) :
    ((entryOf coll s).get? ((st.pr.map PRInfo.config).getD [])).getD 0 = ampOf st.q.comps s * (Real.sqrt st.q.cum : ℂ) := by
  unfold ampOf
  cases hk : st.q.comps.get? s with
  | none =>
    have : (entryOf coll s).get? ((st.pr.map PRInfo.config).getD []) = none := by
      rw [Dict.get?_eq_none]
      intro hm
      unfold entryOf Dict.keys at hm
      rw [List.mem_map] at hm
      obtain ⟨p, hp, hpe⟩ := hm
      rw [List.mem_filterMap] at hp
      obtain ⟨st', hst', h⟩ := hp
      rw [Option.map_eq_some_iff] at h
      obtain ⟨k, hk', rfl⟩ := h
      have := List.inj_on_of_nodup_map hn hst' hst hpe
      rw [this, hk] at hk'
      exact absurd hk' (by simp)
    rw [this]
    simp
  | some k =>
    have : (entryOf coll s).get? ((st.pr.map PRInfo.config).getD []) = some (k.amp * (Real.sqrt st.q.cum : ℂ)) := by
      apply Dict.get?_of_mem (nodup_entryOf hn s)
      unfold entryOf
      rw [List.mem_filterMap]
      exact ⟨st, hst, by rw [hk]; rfl⟩
    rw [this]
    rfl

end Verif
