/-
C71: the gate that adds Popescu-Rohrlich pairs.
-/
import Verif.Lemmas.PR5

namespace Verif.Props
open Verif Spec

/-! ### C71 -/

/-- C71 (partial: for states whose components still differ outside the channels of the pairs; without this the claim is false, see below):
the gate turns every state of the collection, in order, into the `4^n` states of all configurations, under an identifier of its own. -/
theorem C71_gate_partial {g : Cfg} (hL : 2 ≤ g.L) {thr : ℝ} {m : ℕ} {boxes : List Box} (hok : BoxesOk g boxes) (ids : ℕ → ℕ) {coll : List PRState}
    (hv : ∀ st ∈ coll, CheckValid thr m st.q ∧ WellFormed g st.q.comps ∧ DifferOutside g boxes st.q.comps) :
    ∃ outs : List (List PRState), prGate g thr m boxes ids coll = some outs.flatten ∧ outs.length = coll.length ∧
      ∀ (k : ℕ) (st : PRState), coll[k]? = some st → ∃ out, outs[k]? = some out ∧ GateResult g boxes (ids k) st out := by
  have hex : ∀ sk : PRState × ℕ, ∃ out : List PRState, sk.1 ∈ coll → createPR g thr m boxes (ids sk.2) sk.1 = some out ∧ GateResult g boxes (ids sk.2) sk.1 out := by
    intro sk
    by_cases h : sk.1 ∈ coll
    · obtain ⟨h1, h2, h3⟩ := hv _ h
      obtain ⟨out, h4⟩ := createPR_spec hL hok (ids sk.2) h1 h2 h3
      exact ⟨out, fun _ => h4⟩
    · exact ⟨[], fun h' => absurd h' h⟩
  choose F hF using hex
  have hmem : ∀ sk ∈ coll.zipIdx, sk.1 ∈ coll := by
    rintro ⟨s, k⟩ h
    exact List.mem_of_getElem? (List.mem_zipIdx_iff_getElem?.mp h)
  refine ⟨coll.zipIdx.map F, ?_, by simp, ?_⟩
  · unfold prGate
    rw [mapM_some_of (g := F) (fun sk hsk => (hF sk (hmem sk hsk)).1)]
    rfl
  · intro k st hk
    refine ⟨F (st, k), ?_, (hF (st, k) (List.mem_of_getElem? hk)).2⟩
    rw [List.getElem?_map, List.getElem?_zipIdx, hk]
    simp

/-- Six channels, photon numbers up to 2. -/
def sixChannels : Cfg := ⟨3, 6, true⟩

/-- One pair in channels 2..5 (first photon in channels 2 and 3). -/
def lateBox : Box := ⟨[2, 3, 4, 5], 5⟩

/-- A superposition in the channels 0 and 1 with left-over photons in the channels of the pair. -/
noncomputable def beforeGate : PRState where
  q := { initial := "in".toList, cum := 1 / 3, comps := [("200100".toList, ⟨3 / 5, 9 / 25⟩), ("110010".toList, ⟨4 / 5, 16 / 25⟩)], classical := [7], results := [] }
  pr := none

theorem beforeGate_wf : WellFormed sixChannels beforeGate.q.comps := by
  refine ⟨by simp only [beforeGate]; decide, ?_⟩
  intro p hp
  simp only [beforeGate, List.mem_cons, List.not_mem_nil, or_false] at hp
  rcases hp with rfl | rfl
  · exact ⟨[2, 0, 0, 1, 0, 0], ⟨rfl, by simp [sixChannels]⟩, (isName_iff ⟨rfl, by simp [sixChannels]⟩).mpr (by decide)⟩
  · exact ⟨[1, 1, 0, 0, 1, 0], ⟨rfl, by simp [sixChannels]⟩, (isName_iff ⟨rfl, by simp [sixChannels]⟩).mpr (by decide)⟩

example : ∃ out, prGate sixChannels (1 / 1000) 1 [lateBox] (fun k => k) [beforeGate] = some out ∧ out.length = 4 := by
  have hname : ∀ p ∈ beforeGate.q.comps, ∀ v, Valid sixChannels v → IsName sixChannels v p.1 →
      v[0]? = if p.1 = "200100".toList then some 2 else some 1 := by
    intro p hp v hv hn
    rw [isName_iff hv] at hn
    simp only [beforeGate, List.mem_cons, List.not_mem_nil, or_false] at hp
    rcases hp with rfl | rfl
    · have : v = [2, 0, 0, 1, 0, 0] := sixChannels.stdName_inj hv.2 (by simp [sixChannels]) (hn.symm.trans (by decide))
      subst this
      rfl
    · have : v = [1, 1, 0, 0, 1, 0] := sixChannels.stdName_inj hv.2 (by simp [sixChannels]) (hn.symm.trans (by decide))
      subst this
      rfl
  obtain ⟨outs, h1, h2, h3⟩ := C71_gate_partial (g := sixChannels) (thr := 1 / 1000) (m := 1) (boxes := [lateBox]) (by decide)
    ⟨by simp [lateBox], by simp [lateBox], by simp [lateBox, sixChannels]⟩ (fun k => k) (coll := [beforeGate]) (by
      intro st hst
      obtain rfl : st = beforeGate := by simpa using hst
      refine ⟨⟨by norm_num [beforeGate], by norm_num [beforeGate], ?_, rfl⟩, beforeGate_wf, ?_⟩
      · intro p hp
        simp only [beforeGate, List.mem_cons, List.not_mem_nil, or_false] at hp
        rcases hp with rfl | rfl <;> norm_num
      · intro p hp p' hp' hne v v' hv hv' hn hn'
        refine ⟨0, by decide, by simp [lateBox], ?_⟩
        rw [hname p hp v hv hn, hname p' hp' v' hv' hn']
        simp only [beforeGate, List.mem_cons, List.not_mem_nil, or_false] at hp hp'
        rcases hp with rfl | rfl <;> rcases hp' with rfl | rfl
        · exact absurd rfl hne
        · decide
        · decide
        · exact absurd rfl hne)
  obtain ⟨out, h4, h5⟩ := h3 0 beforeGate rfl
  refine ⟨_, h1, ?_⟩
  match outs, h2 with
  | [o], _ =>
    obtain rfl : o = out := by simpa using h4
    simpa using h5.count

/-- Four channels, photon numbers up to 1. -/
def fourChannels : Cfg := ⟨2, 4, true⟩

/-- A valid, normalised superposition (3/5) '1000' + (4/5) '0100'. -/
noncomputable def superposed : PRState where
  q := { initial := "in".toList, cum := 1, comps := [("1000".toList, ⟨3 / 5, 9 / 25⟩), ("0100".toList, ⟨4 / 5, 16 / 25⟩)], classical := [], results := [] }
  pr := none

/-- C71 fails if components of a state differ only in channels that the pairs overwrite: from the normalised state
(3/5) '1000' + (4/5) '0100' and a pair in the channels 0..3 the gate makes states with one component of amplitude 7/5, so of total
probability 49/25, and copying such a state (which every further use does) raises. -/
theorem C71_gate_fails : WellFormed fourChannels superposed.q.comps ∧ totalProb superposed.q.comps = 1 ∧ CheckValid (1 / 1000) 0 superposed.q ∧
    ∃ out, createPR fourChannels (1 / 1000) 0 [⟨[0, 1, 2, 3], 1⟩] 0 superposed = some out ∧ out.length = 4 ∧
      ∀ s ∈ out, totalProb s.q.comps = 49 / 25 ∧ copyState (1 / 1000) 0 s.q = none := by
  have hcv : CheckValid (1 / 1000) 0 superposed.q := by
    refine ⟨by norm_num [superposed], by norm_num [superposed], ?_, rfl⟩
    intro p hp
    simp only [superposed, List.mem_cons, List.not_mem_nil, or_false] at hp
    rcases hp with rfl | rfl <;> norm_num
  refine ⟨⟨by simp only [superposed]; decide, ?_⟩, ?_, hcv, ?_⟩
  · intro p hp
    simp only [superposed, List.mem_cons, List.not_mem_nil, or_false] at hp
    rcases hp with rfl | rfl
    · exact ⟨[1, 0, 0, 0], ⟨rfl, by simp [fourChannels]⟩, (isName_iff ⟨rfl, by simp [fourChannels]⟩).mpr (by decide)⟩
    · exact ⟨[0, 1, 0, 0], ⟨rfl, by simp [fourChannels]⟩, (isName_iff ⟨rfl, by simp [fourChannels]⟩).mpr (by decide)⟩
  · simp [totalProb, superposed]
    norm_num
  · set nm : Fin 4 → Name := fun q => (["1010".toList, "1001".toList, "0110".toList, "0101".toList] : List Name).getD q.val [] with hnm
    set F : List (Fin 4) → PRState := fun x => ⟨⟨"in".toList, 1 / 2, [(nm (x.headD 0), ⟨3 / 5 + 4 / 5, ‖(3 / 5 + 4 / 5 : ℂ)‖ ^ 2⟩)], [], []⟩,
      some ⟨0, x, [1], "in".toList, 1⟩⟩ with hF
    have hc : configs 1 = [[0], [1], [2], [3]] := by decide
    have hone : ∀ x ∈ configs 1, prepare fourChannels (1 / 1000) 0 [⟨[0, 1, 2, 3], 1⟩] 0 superposed x = some (F x) := by
      intro x hx
      have hw : ∀ v ∈ ([[1, 0, 0, 0], [0, 1, 0, 0]] : List Vals), (writeBoxes [⟨[0, 1, 2, 3], 1⟩] x v).bind fourChannels.render = some (nm (x.headD 0)) := by
        rw [hc] at hx
        simp only [List.mem_cons, List.not_mem_nil, or_false] at hx
        intro v hv
        simp only [List.mem_cons, List.not_mem_nil, or_false] at hv
        rcases hx with rfl | rfl | rfl | rfl <;> rcases hv with rfl | rfl <;> rfl
      have hcn : fourChannels.containsName (nm (x.headD 0)) = some true := by
        rw [hc] at hx
        simp only [List.mem_cons, List.not_mem_nil, or_false] at hx
        rcases hx with rfl | rfl | rfl | rfl <;> decide
      have h1 := hw [1, 0, 0, 0] (by simp)
      have h2 := hw [0, 1, 0, 0] (by simp)
      have p1 : fourChannels.parse "1000".toList = some [1, 0, 0, 0] := by decide
      have p2 : fourChannels.parse "0100".toList = some [0, 1, 0, 0] := by decide
      unfold prepare
      rw [copyState_some hcv, setCum_half]
      simp only [superposed, List.mapM_cons, List.mapM_nil, p1, p2, Option.bind_eq_bind, Option.bind_some]
      obtain ⟨w1, e1, r1⟩ := Option.bind_eq_some_iff.mp h1
      obtain ⟨w2, e2, r2⟩ := Option.bind_eq_some_iff.mp h2
      rw [e1, e2]
      simp only [Option.bind_some, r1, r2, Option.pure_def]
      rw [setFromList]
      simp only [hF]
      generalize nm (x.headD 0) = s at hcn ⊢
      simp [hcn, Dict.get?, Dict.set]
    refine ⟨(configs 1).map F, mapM_some_of hone, by rw [hc]; rfl, ?_⟩
    intro s hs
    obtain ⟨x, -, rfl⟩ := List.mem_map.mp hs
    have hnn : ‖(3 / 5 + 4 / 5 : ℂ)‖ ^ 2 = 49 / 25 := by
      rw [show (3 / 5 + 4 / 5 : ℂ) = ((7 / 5 : ℝ) : ℂ) by push_cast; norm_num, Complex.norm_real]
      norm_num
    refine ⟨?_, ?_⟩
    · simp only [hF, totalProb, List.map_cons, List.map_nil, List.sum_cons, List.sum_nil, hnn]
      norm_num
    · unfold copyState
      rw [if_neg]
      rintro ⟨-, -, h, -⟩
      have := (h _ List.mem_cons_self).2
      simp only [hnn] at this
      norm_num at this

end Verif.Props
