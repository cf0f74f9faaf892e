/-
Property C55: tensor products of states.
-/
import Verif.Lemmas.Tensor

namespace Verif.Props
open Verif Spec

/-- **C55** The tensor product of two valid states (the second one with a length not above the first): it succeeds, is a
valid dictionary for the sum of the channels, gives to every pair of photon-number lists the product of the amplitudes, the
stored probabilities are squared moduli and the total probability is the product. -/
theorem C55_tensor_state (g₁ g₂ : Cfg) (hL : g₂.L ≤ g₁.L) (c₁ c₂ : Comps) (h₁ : WellFormed g₁ c₁) (h₂ : WellFormed g₂ c₂) :
    ∃ d, tensor g₁ g₂ c₁ c₂ = some d ∧ WellFormed ⟨g₁.L, g₁.C + g₂.C, g₁.left⟩ d ∧ ProbsAgree d ∧
      totalProb d = totalProb c₁ * totalProb c₂ ∧
      ∀ v₁ v₂ s₁ s₂ s, Valid g₁ v₁ → Valid g₂ v₂ → IsName g₁ v₁ s₁ → IsName g₂ v₂ s₂ →
        IsName ⟨g₁.L, g₁.C + g₂.C, g₁.left⟩ (v₁ ++ v₂) s → ampOf d s = ampOf c₁ s₁ * ampOf c₂ s₂ := by
  obtain ⟨l₁, o₁, rfl⟩ := exists_enc h₁
  obtain ⟨l₂, o₂, rfl⟩ := exists_enc h₂
  have hok := tensorV_ok hL o₁ o₂
  refine ⟨_, tensor_enc hL o₁ o₂, wf_enc hok, ?_, ?_, ?_⟩
  · intro p hp
    obtain ⟨q, hq, rfl⟩ := List.mem_map.1 hp
    obtain ⟨p₁, -, hq'⟩ := List.mem_flatMap.1 hq
    obtain ⟨p₂, -, rfl⟩ := List.mem_map.1 hq'
    rfl
  · rw [totalProb_enc, totalProb_enc, totalProb_enc, sum_tensorV]
  · intro v₁ v₂ s₁ s₂ s hv₁ hv₂ n₁ n₂ n
    have hv := valid_tensor hL hv₁ hv₂
    rw [isName_iff hv₁] at n₁
    rw [isName_iff hv₂] at n₂
    have n' := (isName_iff hv).1 n
    subst n₁ n₂ n'
    rw [ampOf_enc hok.valid hv, ampOf_enc o₁.valid hv₁, ampOf_enc o₂.valid hv₂, ampV_tensor hL o₁ o₂ hv₁]

/-- **C55** If the second state has a component with a photon number the first one cannot express, the product is refused
(for a non-empty first state). -/
theorem C55_tensor_refused (g₁ g₂ : Cfg) (c₁ c₂ : Comps) (h₁ : WellFormed g₁ c₁) (hne : c₁ ≠ [])
    (p : Name × Comp) (hp : p ∈ c₂) (v : Vals) (hv : Valid g₂ v) (hn : IsName g₂ v p.1) (x : ℕ) (hx : x ∈ v)
    (hbig : g₁.L ≤ x) : tensor g₁ g₂ c₁ c₂ = none := by
  obtain ⟨l₁, o₁, rfl⟩ := exists_enc h₁
  cases l₁ with
  | nil => exact absurd rfl hne
  | cons p₁ l₁ =>
    rw [isName_iff hv] at hn
    unfold tensor
    show (List.foldlM _ _ ((g₁.stdName p₁.1, p₁.2) :: enc g₁ l₁)) = none
    rw [List.foldlM_cons]
    have : ∀ d : Comps, c₂.foldlM (fun (d : Comps) q => do
        let v₁ ← g₁.parse (g₁.stdName p₁.1)
        let v₂ ← g₂.parse q.1
        let s ← Cfg.render ⟨g₁.L, g₁.C + g₂.C, g₁.left⟩ (v₁ ++ v₂)
        some (d.set s ⟨p₁.2.amp * q.2.amp, ‖p₁.2.amp * q.2.amp‖ ^ 2⟩)) d = none := by
      induction c₂ with
      | nil => simp at hp
      | cons q c₂ ih =>
        intro d
        rw [List.foldlM_cons]
        rcases List.mem_cons.1 hp with rfl | hp'
        · rw [hn, g₂.parse_stdName hv.2, parse_enc o₁.valid p₁ (by simp)]
          simp only [Option.bind_eq_bind, Option.bind_some]
          cases hr : Cfg.render ⟨g₁.L, g₁.C + g₂.C, g₁.left⟩ (p₁.1 ++ v) with
          | none => rfl
          | some s =>
            have := (Cfg.render_some _ hr).1 x (by simp [hx])
            exact absurd this (not_lt.2 hbig)
        · cases hq : (do
            let v₁ ← g₁.parse (g₁.stdName p₁.1)
            let v₂ ← g₂.parse q.1
            let s ← Cfg.render ⟨g₁.L, g₁.C + g₂.C, g₁.left⟩ (v₁ ++ v₂)
            some (Dict.set d s ⟨p₁.2.amp * q.2.amp, ‖p₁.2.amp * q.2.amp‖ ^ 2⟩)) with
          | none => rfl
          | some d' => exact ih hp' d'
    rw [this []]; rfl

/-- **C55** Passing the components of the second state as a dictionary or list instead of a state gives the same result, if
the two have the same length and notation. -/
theorem C55_tensor_names (g₁ g₂ : Cfg) (hL : g₂.L = g₁.L) (hl : g₂.left = g₁.left) (c₁ c₂ : Comps)
    (h₁ : WellFormed g₁ c₁) (h₂ : WellFormed g₂ c₂) :
    tensor g₁ g₂ c₁ c₂ = some (tensorNames g₁ c₁ (c₂.map (fun q => (q.1, q.2.amp)))) := by
  obtain ⟨l₁, o₁, rfl⟩ := exists_enc h₁
  obtain ⟨l₂, o₂, rfl⟩ := exists_enc h₂
  rw [tensor_enc hL.le o₁ o₂, tensorNames_enc hL hl o₁ o₂]

/-- non-vacuity of C55 -/
example : WellFormed ⟨3, 2, false⟩ [(['2', '0'], ⟨3 / 5, 9 / 25⟩), (['0', '1'], ⟨4 / 5, 16 / 25⟩)] := by
  refine wf_cons.2 ⟨by decide, ⟨[0, 2], by decide, by decide⟩, wf_cons.2 ⟨by decide, ⟨[1, 0], by decide, by decide⟩, wf_nil _⟩⟩

end Verif.Props
