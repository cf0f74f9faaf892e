/- Helper lemmas about tensor products of states. -/
import Verif.Lemmas.Decode

namespace Verif
open Spec

/-- the tensor product on photon numbers -/
noncomputable def tensorV (l₁ l₂ : VComps) : VComps :=
  l₁.flatMap (fun p => l₂.map (fun q => (p.1 ++ q.1, ⟨p.2.amp * q.2.amp, ‖p.2.amp * q.2.amp‖ ^ 2⟩)))

/-- configuration of the product -/
def tensorCfg (g₁ g₂ : Cfg) : Cfg := ⟨g₁.L, g₁.C + g₂.C, g₁.left⟩

theorem valid_tensor {g₁ g₂ : Cfg} (hL : g₂.L ≤ g₁.L) {v₁ v₂ : Vals} (h₁ : Valid g₁ v₁) (h₂ : Valid g₂ v₂) :
    Valid (tensorCfg g₁ g₂) (v₁ ++ v₂) := by
  refine ⟨by simp [tensorCfg, h₁.1, h₂.1], ?_⟩
  intro x hx
  show x < g₁.L
  rcases List.mem_append.1 hx with h | h
  · exact h₁.2 x h
  · exact lt_of_lt_of_le (h₂.2 x h) hL

theorem tensorV_ok {g₁ g₂ : Cfg} (hL : g₂.L ≤ g₁.L) {l₁ l₂ : VComps} (h₁ : VOk g₁ l₁) (h₂ : VOk g₂ l₂) :
    VOk (tensorCfg g₁ g₂) (tensorV l₁ l₂) := by
  constructor
  · have e : (tensorV l₁ l₂).map Prod.fst = (l₁.map Prod.fst).flatMap (fun v => (l₂.map Prod.fst).map (fun w => v ++ w)) := by
      simp [tensorV, List.map_flatMap, List.flatMap_map, Function.comp_def]
    rw [e]
    have hn₁ := h₁.nodup
    have hv₁ : ∀ v ∈ l₁.map Prod.fst, v.length = g₁.C := by
      intro v hv
      obtain ⟨p, hp, rfl⟩ := List.mem_map.1 hv
      exact (h₁.valid p hp).1
    rw [List.nodup_flatMap]
    constructor
    · intro v _
      exact h₂.nodup.map (fun a b h => List.append_cancel_left h)
    · rw [List.Nodup] at hn₁
      apply List.Pairwise.imp_of_mem _ hn₁
      intro a b ha hb hab
      rw [Function.onFun, List.disjoint_left]
      intro x hx hx'
      obtain ⟨w, _, rfl⟩ := List.mem_map.1 hx
      obtain ⟨w', _, e'⟩ := List.mem_map.1 hx'
      exact hab (List.append_inj_left e' (by rw [hv₁ a ha, hv₁ b hb])).symm
  · intro p hp
    obtain ⟨p₁, hp₁, hq⟩ := List.mem_flatMap.1 hp
    obtain ⟨p₂, hp₂, rfl⟩ := List.mem_map.1 hq
    exact valid_tensor hL (h₁.valid p₁ hp₁) (h₂.valid p₂ hp₂)

theorem tensor_enc {g₁ g₂ : Cfg} (hL : g₂.L ≤ g₁.L) {l₁ l₂ : VComps} (h₁ : VOk g₁ l₁) (h₂ : VOk g₂ l₂) :
    tensor g₁ g₂ (enc g₁ l₁) (enc g₂ l₂) = some (enc (tensorCfg g₁ g₂) (tensorV l₁ l₂)) := by
  have hok := tensorV_ok hL h₁ h₂
  rw [← foldl_set_enc_nodup _ hok]
  unfold tensor
  rw [foldlM_eq_some (h := fun d p => (enc g₂ l₂).foldl (fun (d : Comps) q =>
    d.set ((tensorCfg g₁ g₂).stdName ((g₁.parse p.1).getD [] ++ (g₂.parse q.1).getD []))
      ⟨p.2.amp * q.2.amp, ‖p.2.amp * q.2.amp‖ ^ 2⟩) d)]
  · rw [foldl_nested (fun (d : Comps) (p q : Name × Comp) => d.set ((tensorCfg g₁ g₂).stdName ((g₁.parse p.1).getD [] ++ (g₂.parse q.1).getD []))
      ⟨p.2.amp * q.2.amp, ‖p.2.amp * q.2.amp‖ ^ 2⟩)]
    congr 1
    have : ∀ d : Comps, ((enc g₁ l₁).flatMap (fun a => (enc g₂ l₂).map (fun b => (a, b)))).foldl
        (fun (c : Comps) p => c.set ((tensorCfg g₁ g₂).stdName ((g₁.parse p.1.1).getD [] ++ (g₂.parse p.2.1).getD []))
          ⟨p.1.2.amp * p.2.2.amp, ‖p.1.2.amp * p.2.2.amp‖ ^ 2⟩) d
        = (((enc g₁ l₁).flatMap (fun a => (enc g₂ l₂).map (fun b => (a, b)))).map (fun p =>
            ((g₁.parse p.1.1).getD [] ++ (g₂.parse p.2.1).getD [],
              (⟨p.1.2.amp * p.2.2.amp, ‖p.1.2.amp * p.2.2.amp‖ ^ 2⟩ : Comp)))).foldl
            (fun d p => Dict.set d ((tensorCfg g₁ g₂).stdName p.1) p.2) d := by
      intro d; rw [List.foldl_map]
    rw [this]
    congr 1
    simp only [enc, List.flatMap_map, List.map_flatMap, List.map_map, tensorV, Function.comp_def]
    apply List.flatMap_congr
    intro p hp
    apply List.map_congr_left
    intro q hq
    rw [parse_enc h₁.valid p hp, parse_enc h₂.valid q hq]
    rfl
  · intro d p hp
    apply foldlM_eq_some
    intro d q hq
    obtain ⟨p', hp', rfl⟩ := List.mem_map.1 hp
    obtain ⟨q', hq', rfl⟩ := List.mem_map.1 hq
    simp only [parse_enc h₁.valid p' hp', parse_enc h₂.valid q' hq', Option.bind_eq_bind, Option.bind_some, Option.getD_some]
    have := (tensorCfg g₁ g₂).render_of_valid (valid_tensor hL (h₁.valid p' hp') (h₂.valid q' hq'))
    unfold tensorCfg at this
    rw [this]; rfl

theorem ampV_tensor {g₁ g₂ : Cfg} {l₁ l₂ : VComps} (hL : g₂.L ≤ g₁.L) (h₁ : VOk g₁ l₁) (h₂ : VOk g₂ l₂) {v₁ v₂ : Vals}
    (hv₁ : Valid g₁ v₁) : ampV (tensorV l₁ l₂) (v₁ ++ v₂) = ampV l₁ v₁ * ampV l₂ v₂ := by
  have hok := tensorV_ok hL h₁ h₂
  by_cases m₁ : v₁ ∈ l₁.map Prod.fst
  · by_cases m₂ : v₂ ∈ l₂.map Prod.fst
    · obtain ⟨p, hp, rfl⟩ := List.mem_map.1 m₁
      obtain ⟨q, hq, rfl⟩ := List.mem_map.1 m₂
      rw [ampV_of_mem h₁.nodup hp, ampV_of_mem h₂.nodup hq]
      have : (p.1 ++ q.1, (⟨p.2.amp * q.2.amp, ‖p.2.amp * q.2.amp‖ ^ 2⟩ : Comp)) ∈ tensorV l₁ l₂ :=
        List.mem_flatMap.2 ⟨p, hp, List.mem_map.2 ⟨q, hq, rfl⟩⟩
      exact ampV_of_mem hok.nodup this
    · rw [ampV_of_not_mem m₂, mul_zero]
      apply ampV_of_not_mem
      intro hm
      obtain ⟨r, hr, e⟩ := List.mem_map.1 hm
      obtain ⟨p, hp, hr'⟩ := List.mem_flatMap.1 hr
      obtain ⟨q, hq, rfl⟩ := List.mem_map.1 hr'
      have := List.append_inj_right e (by rw [(h₁.valid p hp).1, hv₁.1])
      exact m₂ (this ▸ List.mem_map.2 ⟨q, hq, rfl⟩)
  · rw [ampV_of_not_mem m₁, zero_mul]
    apply ampV_of_not_mem
    intro hm
    obtain ⟨r, hr, e⟩ := List.mem_map.1 hm
    obtain ⟨p, hp, hr'⟩ := List.mem_flatMap.1 hr
    obtain ⟨q, hq, rfl⟩ := List.mem_map.1 hr'
    have := List.append_inj_left e (by rw [(h₁.valid p hp).1, hv₁.1])
    exact m₁ (this ▸ List.mem_map.2 ⟨p, hp, rfl⟩)

theorem sum_tensorV (l₁ l₂ : VComps) : ((tensorV l₁ l₂).map (fun p => ‖p.2.amp‖ ^ 2)).sum
    = (l₁.map (fun p => ‖p.2.amp‖ ^ 2)).sum * (l₂.map (fun p => ‖p.2.amp‖ ^ 2)).sum := by
  induction l₁ with
  | nil => simp [tensorV]
  | cons p l ih =>
    have e : tensorV (p :: l) l₂ = l₂.map (fun q => (p.1 ++ q.1, ⟨p.2.amp * q.2.amp, ‖p.2.amp * q.2.amp‖ ^ 2⟩))
        ++ tensorV l l₂ := by simp [tensorV]
    rw [e, List.map_append, List.sum_append, ih, List.map_cons, List.sum_cons, add_mul, List.map_map]
    congr 1
    simp only [Function.comp_def, Complex.norm_mul, mul_pow]
    rw [List.sum_map_mul_left]

theorem stdName_tensor {g₁ g₂ : Cfg} (hL : g₂.L = g₁.L) (hl : g₂.left = g₁.left) (v₁ v₂ : Vals) :
    (tensorCfg g₁ g₂).stdName (v₁ ++ v₂)
      = if g₁.left then g₁.stdName v₁ ++ g₂.stdName v₂ else g₂.stdName v₂ ++ g₁.stdName v₁ := by
  have d1 : (tensorCfg g₁ g₂).digits = g₁.digits := rfl
  have d2 : g₂.digits = g₁.digits := by unfold Cfg.digits; rw [hL]
  unfold Cfg.stdName
  rw [d1, d2, hl, show (tensorCfg g₁ g₂).left = g₁.left from rfl]
  cases g₁.left <;> simp

theorem tensorNames_enc {g₁ g₂ : Cfg} (hL : g₂.L = g₁.L) (hl : g₂.left = g₁.left) {l₁ l₂ : VComps} (h₁ : VOk g₁ l₁)
    (h₂ : VOk g₂ l₂) :
    tensorNames g₁ (enc g₁ l₁) ((enc g₂ l₂).map (fun q => (q.1, q.2.amp))) = enc (tensorCfg g₁ g₂) (tensorV l₁ l₂) := by
  have hok := tensorV_ok hL.le h₁ h₂
  rw [← foldl_set_enc_nodup _ hok]
  unfold tensorNames
  rw [foldl_nested (fun (d : Comps) (p : Name × Comp) (q : Name × ℂ) =>
    d.set (if g₁.left then p.1 ++ q.1 else q.1 ++ p.1) ⟨p.2.amp * q.2, ‖p.2.amp * q.2‖ ^ 2⟩)]
  simp only [enc, tensorV, List.flatMap_map, List.map_map, Function.comp_def]
  rw [List.foldl_flatMap, List.foldl_flatMap]
  congr 1
  funext d p
  rw [List.foldl_map, List.foldl_map]
  congr 1
  funext d q
  rw [stdName_tensor hL hl]

end Verif
