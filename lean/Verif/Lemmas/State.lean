/- States, components and vectors. -/
import Verif.Spec.State
import Verif.Lemmas.Reduced
import Verif.Lemmas.Dict
import Verif.Props.Names

namespace Verif
open Spec

/-- name of the basis state with index `i` -/
def Cfg.nm (g : Cfg) (i : ℕ) : Name := g.stdName (g.valuesFromIndex i)

theorem isName_iff {g : Cfg} {v : Vals} (hv : Valid g v) {s : Name} : IsName g v s ↔ s = g.stdName v :=
  ⟨Props.isName_unique g hv.2, fun h => h ▸ Props.isName_stdName g hv.2⟩

theorem Spec.WellFormed.named' {g : Cfg} {c : Comps} (h : WellFormed g c) {p : Name × Comp} (hp : p ∈ c) :
    ∃ v, Valid g v ∧ p.1 = g.stdName v := by
  obtain ⟨v, hv, hn⟩ := h.named p hp
  exact ⟨v, hv, (isName_iff hv).1 hn⟩

theorem wf_iff {g : Cfg} {c : Comps} : WellFormed g c ↔ c.keys.Nodup ∧ ∀ p ∈ c, ∃ v, Valid g v ∧ p.1 = g.stdName v := by
  constructor
  · intro h; exact ⟨h.nodup, fun p hp => h.named' hp⟩
  · rintro ⟨h1, h2⟩
    refine ⟨h1, fun p hp => ?_⟩
    obtain ⟨v, hv, e⟩ := h2 p hp
    exact ⟨v, hv, (isName_iff hv).2 e⟩

theorem wf_nil (g : Cfg) : WellFormed g [] := ⟨by simp, by simp⟩

theorem wf_cons {g : Cfg} {p : Name × Comp} {c : Comps} : WellFormed g (p :: c) ↔
    p.1 ∉ Dict.keys c ∧ (∃ v, Valid g v ∧ p.1 = g.stdName v) ∧ WellFormed g c := by
  rw [wf_iff, wf_iff]
  simp only [Dict.keys, List.map_cons, List.nodup_cons, List.forall_mem_cons]
  tauto

theorem indexOfName_stdName {g : Cfg} {v : Vals} (hv : Valid g v) : g.indexOfName (g.stdName v) = some (g.indexOf v) := by
  rw [Cfg.indexOfName, g.parse_stdName hv.2]; rfl

theorem nm_indexOf {g : Cfg} {v : Vals} (hv : Valid g v) : g.nm (g.indexOf v) = g.stdName v := by
  rw [Cfg.nm, g.valuesFromIndex_indexOf hv]

theorem nm_inj {g : Cfg} (hL : 1 ≤ g.L) {i j : ℕ} (hi : i < g.size) (hj : j < g.size) (h : g.nm i = g.nm j) : i = j := by
  have h1 := g.valid_valuesFromIndex hL i
  have h2 := g.valid_valuesFromIndex hL j
  have := g.stdName_inj h1.2 h2.2 h
  rw [← g.indexOf_valuesFromIndex hi, this, g.indexOf_valuesFromIndex hj]

theorem stdName_eq_nm_iff {g : Cfg} (hL : 1 ≤ g.L) {v : Vals} (hv : Valid g v) {i : ℕ} (hi : i < g.size) :
    g.stdName v = g.nm i ↔ g.indexOf v = i := by
  rw [← nm_indexOf hv]
  exact ⟨nm_inj hL (g.indexOf_lt hv) hi, fun h => by rw [h]⟩

theorem nameAt_eq {g : Cfg} (hL : 1 ≤ g.L) (i : ℕ) : g.nameAt i = some (g.nm i) :=
  g.render_of_valid (g.valid_valuesFromIndex hL i)

theorem Cfg.Ok.L_pos {g : Cfg} (h : g.Ok) : 1 ≤ g.L := h.1

/-- a valid photon-number list in a circuit with at least one channel forces `1 ≤ L` -/
theorem valid_L {g : Cfg} {v : Vals} (hv : Valid g v) (hC : 1 ≤ g.C) : 1 ≤ g.L := by
  have hl := hv.1
  match v with
  | [] => simp at hl; omega
  | a :: v => have := hv.2 a (by simp); omega

theorem ampOf_nil (s : Name) : ampOf [] s = 0 := rfl

theorem ampOf_cons (p : Name × Comp) (c : Comps) (s : Name) :
    ampOf (p :: c) s = if p.1 = s then p.2.amp else ampOf c s := by
  unfold ampOf
  rw [show Dict.get? (p :: c) s = if p.1 = s then some p.2 else Dict.get? c s from Dict.get?_cons _ _ _ _]
  split <;> rfl

theorem ampOf_of_not_mem {c : Comps} {s : Name} (h : s ∉ Dict.keys c) : ampOf c s = 0 := by
  unfold ampOf; rw [Dict.get?_eq_none.2 h]; rfl

theorem ampOf_of_mem {c : Comps} {p : Name × Comp} (hn : (Dict.keys c).Nodup) (h : p ∈ c) : ampOf c p.1 = p.2.amp := by
  unfold ampOf
  rw [Dict.get?_of_mem hn (show (p.1, p.2) ∈ c from h)]; rfl

/-- the vector of a component dictionary -/
noncomputable def vec (g : Cfg) (c : Comps) (i : ℕ) : ℂ := ampOf c (g.nm i)

theorem vec_nil (g : Cfg) (i : ℕ) : vec g [] i = 0 := rfl

theorem vec_cons {g : Cfg} (hL : 1 ≤ g.L) {p : Name × Comp} {c : Comps} {v : Vals} (hv : Valid g v)
    (hp : p.1 = g.stdName v) {i : ℕ} (hi : i < g.size) :
    vec g (p :: c) i = if g.indexOf v = i then p.2.amp else vec g c i := by
  unfold vec
  rw [ampOf_cons, hp]
  simp only [stdName_eq_nm_iff hL hv hi]

theorem vec_index {g : Cfg} {v : Vals} (hv : Valid g v) (c : Comps) : vec g c (g.indexOf v) = ampOf c (g.stdName v) := by
  rw [vec, nm_indexOf hv]

/-- sums over the listed components are sums over the basis -/
theorem sum_comps {g : Cfg} (hL : 1 ≤ g.L) {M : Type*} [AddCommMonoid M] (f : Name → ℂ → M) (hf : ∀ s, f s 0 = 0)
    {c : Comps} (h : WellFormed g c) :
    (c.map (fun p => f p.1 p.2.amp)).sum = ∑ i ∈ Finset.range g.size, f (g.nm i) (vec g c i) := by
  induction c with
  | nil => simp [vec_nil, hf]
  | cons p c ih =>
    obtain ⟨hnm, ⟨v, hv, hp⟩, hc⟩ := wf_cons.1 h
    rw [List.map_cons, List.sum_cons, ih hc]
    have hlt := g.indexOf_lt hv
    rw [← Finset.add_sum_erase _ _ (Finset.mem_range.2 hlt), ← Finset.add_sum_erase _ _ (Finset.mem_range.2 hlt)]
    have h0 : vec g c (g.indexOf v) = 0 := by
      rw [vec_index hv, ← hp]; exact ampOf_of_not_mem hnm
    rw [h0, hf, zero_add, vec_cons hL hv hp hlt, if_pos rfl, nm_indexOf hv, ← hp]
    congr 1
    refine Finset.sum_congr rfl fun i hi => ?_
    rw [Finset.mem_erase, Finset.mem_range] at hi
    rw [vec_cons hL hv hp hi.2, if_neg (fun e => hi.1 e.symm)]

theorem totalProb_eq {g : Cfg} (hL : 1 ≤ g.L) {c : Comps} (h : WellFormed g c) :
    totalProb c = ∑ i ∈ Finset.range g.size, ‖vec g c i‖ ^ 2 :=
  sum_comps hL (fun _ a => ‖a‖ ^ 2) (by simp) h

/-! ### to and from vectors -/

theorem toVector_spec {g : Cfg} (hL : 1 ≤ g.L) {c : Comps} (h : WellFormed g c) :
    ∃ x, toVector g c = some x ∧ ∀ i < g.size, x i = vec g c i := by
  have key : ∀ (c : Comps) (x₀ : ℕ → ℂ), WellFormed g c → ∃ x, c.foldlM (fun x p => do
      let i ← g.indexOfName p.1
      if i < g.size then some (Function.update x i p.2.amp) else none) x₀ = some x ∧
      ∀ i < g.size, x i = if g.nm i ∈ Dict.keys c then vec g c i else x₀ i := by
    intro c
    induction c with
    | nil => intro x₀ _; exact ⟨x₀, rfl, by intro i _; simp [Dict.keys]⟩
    | cons p c ih =>
      intro x₀ hw
      obtain ⟨hnm, ⟨v, hv, hp⟩, hc⟩ := wf_cons.1 hw
      have hlt := g.indexOf_lt hv
      obtain ⟨x, hx, hxi⟩ := ih (Function.update x₀ (g.indexOf v) p.2.amp) hc
      refine ⟨x, ?_, ?_⟩
      · rw [List.foldlM_cons, hp, indexOfName_stdName hv]
        simp only [Option.bind_eq_bind, Option.bind_some]
        rw [if_pos hlt]
        exact hx
      · intro i hi
        rw [hxi i hi, vec_cons hL hv hp hi]
        have hk : g.nm i ∈ Dict.keys (p :: c) ↔ g.indexOf v = i ∨ g.nm i ∈ Dict.keys c := by
          rw [← stdName_eq_nm_iff hL hv hi, ← hp]
          simp only [Dict.keys, List.map_cons, List.mem_cons, eq_comm]
        by_cases e : g.indexOf v = i
        · have : g.nm i ∉ Dict.keys c := by rw [← e, nm_indexOf hv, ← hp]; exact hnm
          rw [if_neg this, if_pos (hk.2 (Or.inl e)), if_pos e, ← e, Function.update_self]
        · rw [if_neg e, Function.update_of_ne (fun h => e h.symm)]
          by_cases hm : g.nm i ∈ Dict.keys c
          · rw [if_pos hm, if_pos (hk.2 (Or.inr hm))]
          · rw [if_neg hm, if_neg (by rw [hk]; tauto)]
  obtain ⟨x, hx, hxi⟩ := key c (fun _ => 0) h
  refine ⟨x, hx, fun i hi => ?_⟩
  rw [hxi i hi]
  split
  · rfl
  · rename_i hn; exact (ampOf_of_not_mem hn).symm

theorem fromVector_spec {g : Cfg} (hL : 1 ≤ g.L) (thr : ℝ) (x : ℕ → ℂ) :
    ∃ c, fromVector g thr x = some c ∧ WellFormed g c ∧ ProbsAgree c ∧
      ∀ i < g.size, Dict.get? c (g.nm i) = if ‖x i‖ ^ 2 < thr then none else some ⟨x i, ‖x i‖ ^ 2⟩ := by
  have key : ∀ n ≤ g.size, ∃ c : Comps, (List.range n).foldlM (fun (d : Comps) i =>
      if ‖x i‖ ^ 2 < thr then some d
      else do
        let s ← g.nameAt i
        some (d.set s ⟨x i, ‖x i‖ ^ 2⟩)) [] = some c ∧ WellFormed g c ∧ ProbsAgree c ∧
      ∀ i < g.size, Dict.get? c (g.nm i) =
        if i < n then if ‖x i‖ ^ 2 < thr then none else some ⟨x i, ‖x i‖ ^ 2⟩ else none := by
    intro n
    induction n with
    | zero => intro _; exact ⟨[], rfl, wf_nil g, (by intro p hp; cases hp), by intro i _; simp [Dict.get?]⟩
    | succ n ih =>
      intro hn
      obtain ⟨c, hc, hw, hp, hg⟩ := ih (by omega)
      rw [List.range_succ, List.foldlM_append, hc]
      simp only [Option.bind_eq_bind, Option.bind_some, List.foldlM_cons, List.foldlM_nil]
      by_cases ht : ‖x n‖ ^ 2 < thr
      · refine ⟨c, by rw [if_pos ht]; rfl, hw, hp, ?_⟩
        intro i hi
        rw [hg i hi]
        by_cases e : i = n
        · subst e; simp [ht]
        · have : (i < n) ↔ (i < n + 1) := by omega
          simp only [this]
      · refine ⟨Dict.set c (g.nm n) ⟨x n, ‖x n‖ ^ 2⟩, by rw [if_neg ht, nameAt_eq hL]; rfl, ?_, ?_, ?_⟩
        · rw [wf_iff] at hw ⊢
          refine ⟨Dict.nodup_keys_set hw.1 _ _, ?_⟩
          intro p hp'
          rcases Dict.mem_set hp' with h | h
          · exact hw.2 p h
          · rw [h]; exact ⟨_, g.valid_valuesFromIndex hL n, rfl⟩
        · intro p hp'
          rcases Dict.mem_set hp' with h | h
          · exact hp p h
          · rw [h]
        · intro i hi
          rw [Dict.get?_set, hg i hi]
          by_cases e : i = n
          · subst e; simp [ht]
          · rw [if_neg (fun h => e (nm_inj hL hi (by omega) h.symm))]
            have : (i < n) ↔ (i < n + 1) := by omega
            simp only [this]
  obtain ⟨c, hc, hw, hp, hg⟩ := key g.size le_rfl
  refine ⟨c, hc, hw, hp, fun i hi => ?_⟩
  rw [hg i hi, if_pos hi]

theorem fromVector_congr {g : Cfg} (thr : ℝ) {x y : ℕ → ℂ} (h : ∀ i < g.size, x i = y i) :
    fromVector g thr x = fromVector g thr y := by
  unfold fromVector
  have : ∀ (l : List ℕ) (d : Comps), (∀ i ∈ l, i < g.size) →
      l.foldlM (fun (d : Comps) i => if ‖x i‖ ^ 2 < thr then some d else do
        let s ← g.nameAt i
        some (d.set s ⟨x i, ‖x i‖ ^ 2⟩)) d =
      l.foldlM (fun (d : Comps) i => if ‖y i‖ ^ 2 < thr then some d else do
        let s ← g.nameAt i
        some (d.set s ⟨y i, ‖y i‖ ^ 2⟩)) d := by
    intro l
    induction l with
    | nil => intros; rfl
    | cons a l ih =>
      intro d hl
      rw [List.foldlM_cons, List.foldlM_cons, h a (hl a (by simp))]
      congr 1
      funext d'
      exact ih d' (fun i hi => hl i (by simp [hi]))
  exact this _ _ (fun i hi => List.mem_range.1 hi)

theorem vec_fromVector {g : Cfg} (hL : 1 ≤ g.L) {thr : ℝ} {x : ℕ → ℂ} {c : Comps} (h : fromVector g thr x = some c)
    {i : ℕ} (hi : i < g.size) : vec g c i = if ‖x i‖ ^ 2 < thr then 0 else x i := by
  obtain ⟨c', hc, -, -, hg⟩ := fromVector_spec hL thr x
  rw [h] at hc
  obtain rfl := Option.some.inj hc
  unfold vec ampOf
  rw [hg i hi]
  split <;> rfl

/-! ### inner products -/

theorem foldl_inner (p : Name × Comp) (c : Comps) (r : ℂ) :
    c.foldl (fun r (q : Name × Comp) => if p.1 = q.1 then r + star p.2.amp * q.2.amp else r) r
      = r + (c.map (fun q => if p.1 = q.1 then star p.2.amp * q.2.amp else 0)).sum := by
  induction c generalizing r with
  | nil => simp
  | cons q c ih =>
    rw [List.foldl_cons, ih, List.map_cons, List.sum_cons]
    split <;> ring

theorem sum_match {c : Comps} (hn : (Dict.keys c).Nodup) (s : Name) (a : ℂ) :
    (c.map (fun q => if s = q.1 then a * q.2.amp else 0)).sum = a * ampOf c s := by
  induction c with
  | nil => simp [ampOf_nil]
  | cons q c ih =>
    simp only [Dict.keys, List.map_cons, List.nodup_cons] at hn
    rw [List.map_cons, List.sum_cons, ih hn.2, ampOf_cons]
    by_cases e : s = q.1
    · rw [if_pos e, if_pos e.symm, ampOf_of_not_mem (by rw [e]; exact hn.1)]; simp
    · rw [if_neg e, if_neg (fun h => e h.symm), zero_add]

theorem inner_eq_sum {c₁ c₂ : Comps} (h2 : (Dict.keys c₂).Nodup) :
    inner c₁ c₂ = (c₁.map (fun p => star p.2.amp * ampOf c₂ p.1)).sum := by
  have key : ∀ (c₁ : Comps) (r : ℂ), c₁.foldl (fun r p => c₂.foldl (fun r q =>
      if p.1 = q.1 then r + star p.2.amp * q.2.amp else r) r) r =
      r + (c₁.map (fun p => star p.2.amp * ampOf c₂ p.1)).sum := by
    intro c₁
    induction c₁ with
    | nil => intro r; simp
    | cons p c₁ ih =>
      intro r
      rw [List.foldl_cons, ih, foldl_inner, sum_match h2, List.map_cons, List.sum_cons]
      ring
  have := key c₁ 0
  rw [zero_add] at this
  exact this

theorem inner_eq {g : Cfg} (hL : 1 ≤ g.L) {c₁ c₂ : Comps} (h1 : WellFormed g c₁) (h2 : WellFormed g c₂) :
    inner c₁ c₂ = ∑ i ∈ Finset.range g.size, star (vec g c₁ i) * vec g c₂ i := by
  rw [inner_eq_sum h2.nodup]
  exact sum_comps hL (fun s a => star a * ampOf c₂ s) (by simp) h1

/-! ### photon number -/

theorem photonNumber_spec {g : Cfg} {c : Comps} (h : WellFormed g c) (hne : c ≠ []) :
    ∃ n e, photonNumber g c = some (n, e) ∧ ∀ p ∈ c, ∀ v, Valid g v → p.1 = g.stdName v →
      v.sum ≤ n ∧ (e = true → v.sum = n) := by
  have hm : c.keys.mapM (fun s => (g.parse s).map List.sum)
      = some (c.keys.map (fun s => ((g.parse s).map List.sum).getD 0)) := by
    apply mapM_some_of
    intro s hs
    obtain ⟨p, hp, rfl⟩ := List.mem_map.1 hs
    obtain ⟨v, hv, e⟩ := h.named' hp
    rw [e, g.parse_stdName hv.2]; rfl
  unfold photonNumber
  rw [hm]
  set l := c.keys.map (fun s => ((g.parse s).map List.sum).getD 0) with hl
  have hlne : l ≠ [] := by simpa [hl, Dict.keys] using hne
  obtain ⟨mx, hmx⟩ : ∃ m, l.max? = some m := by
    rw [← Option.isSome_iff_exists, List.isSome_max?_iff]; exact hlne
  obtain ⟨mn, hmn⟩ : ∃ m, l.min? = some m := by
    rw [← Option.isSome_iff_exists, List.isSome_min?_iff]; exact hlne
  simp only [Option.bind_eq_bind, Option.bind_some, hmx, hmn]
  have h1 := (List.max?_eq_some_iff.1 hmx).2
  have h2 := (List.min?_eq_some_iff.1 hmn).2
  have hmem : ∀ p ∈ c, ∀ v, Valid g v → p.1 = g.stdName v → v.sum ∈ l := by
    intro p hp v hv e
    rw [hl]
    refine List.mem_map.2 ⟨p.1, List.mem_map.2 ⟨p, hp, rfl⟩, ?_⟩
    rw [e, g.parse_stdName hv.2]; rfl
  by_cases e : mx = mn
  · rw [if_pos e]
    refine ⟨mx, true, rfl, ?_⟩
    intro p hp v hv he
    have a := h1 _ (hmem p hp v hv he)
    have b := h2 _ (hmem p hp v hv he)
    exact ⟨a, fun _ => by omega⟩
  · rw [if_neg e]
    refine ⟨mx, false, rfl, ?_⟩
    intro p hp v hv he
    exact ⟨h1 _ (hmem p hp v hv he), by simp⟩

theorem vec_zero_of_photonNumber {g : Cfg} {c : Comps} {P : ℕ → Prop}
    (h : ∀ p ∈ c, ∀ v, Valid g v → p.1 = g.stdName v → P v.sum) (hL : 1 ≤ g.L) {i : ℕ}
    (hP : ¬ P (g.valuesFromIndex i).sum) : vec g c i = 0 := by
  apply ampOf_of_not_mem
  intro hm
  obtain ⟨p, hp, e⟩ := List.mem_map.1 hm
  exact hP (h p hp _ (g.valid_valuesFromIndex hL i) e)

end Verif
