/-
Properties C20, C21 for the beam splitters that are made of two elements.
-/
import Verif.Props.Transition

namespace Verif.Props
open Verif Spec

/-- The matrix of the node `n₁` followed by the node `n₂`. -/
noncomputable def thenMatrix (g : Cfg) (n₁ n₂ : Opt × List ℕ) : SqArr := (FullMatrix g n₂).mul (FullMatrix g n₁)

theorem mul_entry {g : Cfg} {n₁ n₂ : Opt × List ℕ} (i j : ℕ) :
    (thenMatrix g n₁ n₂).at_ i j
      = ∑ k ∈ Finset.range g.size, (FullMatrix g n₂).at_ i k * (FullMatrix g n₁).at_ k j := by
  rw [thenMatrix, SqArr.mul]
  simp only [FullMatrix, fockNode_all_size]

/-- on basis states without photons in its channels an element acts as the identity (rows and columns) -/
theorem vacuum_entry {g : Cfg} (hg : g.Ok) {h k : ℕ} (hh : h < g.C) (hk : k < g.C) (hne : h ≠ k)
    (hbug : ¬ (2 ≤ h ∧ k = 0)) {θ φ : ℝ} {n : Opt × List ℕ} (hn : genericRotation g h k θ φ = some n) {v u : Vals}
    (hv : Valid g v) (hu : Valid g u) (h1 : v.getD h 0 = 0) (h2 : v.getD k 0 = 0) :
    (FullMatrix g n).at_ (g.indexOf v) (g.indexOf u) = (if v = u then 1 else 0) ∧
    (FullMatrix g n).at_ (g.indexOf u) (g.indexOf v) = (if v = u then 1 else 0) := by
  have key : ∀ x y : ℕ, (∀ i < g.C, i ≠ h → i ≠ k → v.getD i 0 = u.getD i 0) → u.getD h 0 + u.getD k 0 = 0 → v = u := by
    intro _ _ hag hz
    apply ext_getD hv.1 hu.1
    intro i hi
    by_cases ea : i = h
    · rw [ea, h1]; omega
    · by_cases eb : i = k
      · rw [eb, h2]; omega
      · exact hag i hi ea eb
  have hL := hg.1
  have hz : gateAmp g.L (genericMatrix θ φ) 0 0 0 0 = 1 := by
    rw [gateAmp, if_pos (by omega)]; simp [bosonAmp, genPoly]
  constructor
  · rw [rotation_entry hg hh hk hne hbug hn hv hu]
    by_cases e : v = u
    · subst e
      rw [if_pos rfl, if_pos (fun _ _ _ _ => rfl), h1, h2, hz]
    · rw [if_neg e]
      by_cases hag : ∀ i < g.C, i ≠ h → i ≠ k → v.getD i 0 = u.getD i 0
      · rw [if_pos hag, gateAmp, if_pos (by omega), bosonAmp, if_neg]
        intro hs
        exact e (key 0 0 hag (by omega))
      · rw [if_neg hag]
  · rw [rotation_entry hg hh hk hne hbug hn hu hv]
    by_cases e : v = u
    · subst e
      rw [if_pos rfl, if_pos (fun _ _ _ _ => rfl), h1, h2, hz]
    · rw [if_neg e]
      by_cases hag : ∀ i < g.C, i ≠ h → i ≠ k → u.getD i 0 = v.getD i 0
      · rw [if_pos hag, gateAmp, h1, h2]
        by_cases hlt : u.getD h 0 + u.getD k 0 < g.L
        · rw [if_pos hlt, bosonAmp, if_neg]
          intro hs
          exact e (key 0 0 (fun i hi a b => (hag i hi a b).symm) (by omega))
        · rw [if_neg hlt, if_neg]; omega
      · rw [if_neg hag]

theorem sum_delta {g : Cfg} (hg : g.Ok) {F : ℕ → ℂ} {δ : ℕ → ℂ} {v : Vals} (hv : Valid g v)
    (h0 : ∀ u, Valid g u → δ (g.indexOf u) = if v = u then 1 else 0) :
    ∑ i ∈ Finset.range g.size, δ i * F i = F (g.indexOf v) := by
  rw [Finset.sum_eq_single (g.indexOf v), h0 v hv, if_pos rfl, one_mul]
  · intro i hi hne
    have hi := Finset.mem_range.1 hi
    have hu := g.valid_valuesFromIndex hg.1 i
    have e := g.indexOf_valuesFromIndex hi
    have := h0 _ hu
    rw [e, if_neg (by rintro rfl; exact hne e.symm)] at this
    rw [this, zero_mul]
  · intro hi
    exact absurd (Finset.mem_range.2 (g.indexOf_lt hv)) hi

/-- two elements on disjoint pairs of channels: on states where one pair is empty the combination acts like the other
element -/
theorem then_entry {g : Cfg} (hg : g.Ok) {a b a' b' : ℕ} (ha : a < g.C) (hb : b < g.C) (ha' : a' < g.C) (hb' : b' < g.C)
    (hne : a ≠ b) (hne' : a' ≠ b') (hbug : ¬ (2 ≤ a ∧ b = 0)) (hbug' : ¬ (2 ≤ a' ∧ b' = 0)) {θ φ θ' φ' : ℝ}
    {n₁ n₂ : Opt × List ℕ} (hn₁ : genericRotation g a b θ φ = some n₁) (hn₂ : genericRotation g a' b' θ' φ' = some n₂)
    {v w : Vals} (hv : Valid g v) (hw : Valid g w) :
    (w.getD a' 0 = 0 → w.getD b' 0 = 0 →
      (thenMatrix g n₁ n₂).at_ (g.indexOf w) (g.indexOf v) = (FullMatrix g n₁).at_ (g.indexOf w) (g.indexOf v)) ∧
    (v.getD a 0 = 0 → v.getD b 0 = 0 →
      (thenMatrix g n₁ n₂).at_ (g.indexOf w) (g.indexOf v) = (FullMatrix g n₂).at_ (g.indexOf w) (g.indexOf v)) := by
  rw [mul_entry]
  constructor
  · intro h1 h2
    exact sum_delta hg (δ := fun k => (FullMatrix g n₂).at_ (g.indexOf w) k)
      (F := fun k => (FullMatrix g n₁).at_ k (g.indexOf v)) hw
      (fun u hu => (vacuum_entry hg ha' hb' hne' hbug' hn₂ hw hu h1 h2).1)
  · intro h1 h2
    rw [Finset.sum_congr rfl (fun k _ => mul_comm _ _)]
    exact sum_delta hg (δ := fun k => (FullMatrix g n₁).at_ k (g.indexOf v))
      (F := fun k => (FullMatrix g n₂).at_ (g.indexOf w) k) hv
      (fun u hu => (vacuum_entry hg ha hb hne hbug hn₁ hv hu h1 h2).2)

/-- the two pairs of channels of a beam splitter are mixed in the same way: `(x, y)` is one pair and `(x', y')` the other -/
def IsPort (a b : ℕ × ℕ) (x y x' y' : ℕ) : Prop :=
  (x = a.1 ∧ y = b.1 ∧ x' = a.2 ∧ y' = b.2) ∨ (x = a.2 ∧ y = b.2 ∧ x' = a.1 ∧ y' = b.1)

theorem Swapped.symm' {C a b : ℕ} {v w : Vals} (h : Swapped C a b v w) : Swapped C a b w v :=
  ⟨h.2.1.symm, h.1.symm, fun i hi h1 h2 => (h.2.2 i hi h1 h2).symm⟩

/-- from two mixing elements to the beam splitter made of them -/
theorem splitter {g : Cfg} (hg : g.Ok) {a b : ℕ × ℕ} (ha : a.1 < g.C ∧ a.2 < g.C) (hb : b.1 < g.C ∧ b.2 < g.C)
    (hd : [a.1, a.2, b.1, b.2].Nodup) (hbug : ¬ (2 ≤ a.1 ∧ b.1 = 0)) (hbug' : ¬ (2 ≤ a.2 ∧ b.2 = 0)) {θ φ : ℝ}
    {n₁ n₂ : Opt × List ℕ} (h₁ : genericRotation g a.1 b.1 θ φ = some n₁) (h₂ : genericRotation g a.2 b.2 θ φ = some n₂)
    {p q : ℝ}
    (hp₁ : ∀ v w, Valid g v → Valid g w → Swapped g.C a.1 b.1 v w → v.getD a.1 0 + v.getD b.1 0 = 1 →
      ‖(FullMatrix g n₁).at_ (g.indexOf v) (g.indexOf v)‖ ^ 2 = p ∧
      ‖(FullMatrix g n₁).at_ (g.indexOf v) (g.indexOf w)‖ ^ 2 = q)
    (hp₂ : ∀ v w, Valid g v → Valid g w → Swapped g.C a.2 b.2 v w → v.getD a.2 0 + v.getD b.2 0 = 1 →
      ‖(FullMatrix g n₂).at_ (g.indexOf v) (g.indexOf v)‖ ^ 2 = p ∧
      ‖(FullMatrix g n₂).at_ (g.indexOf v) (g.indexOf w)‖ ^ 2 = q)
    (x y x' y' : ℕ) (hport : IsPort a b x y x' y') (v w : Vals) (hv : Valid g v) (hw : Valid g w)
    (hs : Swapped g.C x y v w) (h1 : v.getD x 0 + v.getD y 0 = 1) (h2 : v.getD x' 0 = 0) (h3 : v.getD y' 0 = 0) :
    ‖(thenMatrix g n₁ n₂).at_ (g.indexOf v) (g.indexOf v)‖ ^ 2 = p ∧
    ‖(thenMatrix g n₁ n₂).at_ (g.indexOf w) (g.indexOf v)‖ ^ 2 = q := by
  have d : a.1 ≠ a.2 ∧ a.1 ≠ b.1 ∧ a.1 ≠ b.2 ∧ a.2 ≠ b.1 ∧ a.2 ≠ b.2 ∧ b.1 ≠ b.2 := by
    simp only [List.nodup_cons, List.mem_cons, List.not_mem_nil, or_false, not_or, List.nodup_nil, and_true] at hd
    obtain ⟨⟨d1, d2, d3⟩, ⟨d4, d5⟩, d6, -⟩ := hd
    exact ⟨d1, d2, d3, d4, d5, d6⟩
  obtain ⟨d1, d2, d3, d4, d5, d6⟩ := d
  have hwsum : w.getD x 0 + w.getD y 0 = 1 := by rw [hs.1, hs.2.1]; omega
  have T := @then_entry g hg a.1 b.1 a.2 b.2 ha.1 hb.1 ha.2 hb.2 d2 d5 hbug hbug' θ φ θ φ n₁ n₂ h₁ h₂
  rcases hport with ⟨rfl, rfl, rfl, rfl⟩ | ⟨rfl, rfl, rfl, rfl⟩
  · have w2 : w.getD a.2 0 = 0 := by rw [hs.2.2 a.2 ha.2 d1.symm d4, h2]
    have w3 : w.getD b.2 0 = 0 := by rw [hs.2.2 b.2 hb.2 d3.symm d6.symm, h3]
    rw [(T hv hv).1 h2 h3, (T hv hw).1 w2 w3]
    exact ⟨(hp₁ v w hv hw hs h1).1, (hp₁ w v hw hv hs.symm' hwsum).2⟩
  · rw [(T hv hv).2 h2 h3, (T hv hw).2 h2 h3]
    exact ⟨(hp₂ v w hv hw hs h1).1, (hp₂ w v hw hv hs.symm' hwsum).2⟩

/-- **C20 (partial)** The non-polarizing 50/50 beam splitter with four different channels (ports `a`, `b`, two
polarizations): a single photon in any of the four channels keeps its polarization and is found at either port with
probability exactly 1/2. `v` is the input, `w` the state with the photon at the other port.
Missing: the misaddressed pairs of C07. -/
theorem C20_beamsplitter_partial (g : Cfg) (hg : g.Ok) (hL : 2 ≤ g.L) (hC : 4 ≤ g.C) (a b : ℕ × ℕ)
    (ha : a.1 < g.C ∧ a.2 < g.C) (hb : b.1 < g.C ∧ b.2 < g.C) (hd : [a.1, a.2, b.1, b.2].Nodup)
    (hbug : ¬ (2 ≤ a.1 ∧ b.1 = 0)) (hbug' : ¬ (2 ≤ a.2 ∧ b.2 = 0)) :
    ∃ n₁ n₂, npbs5050 g a b = some [n₁, n₂] ∧ ∀ x y x' y', IsPort a b x y x' y' → ∀ v w, Valid g v → Valid g w →
      Swapped g.C x y v w → v.getD x 0 + v.getD y 0 = 1 → v.getD x' 0 = 0 → v.getD y' 0 = 0 →
      ‖(thenMatrix g n₁ n₂).at_ (g.indexOf v) (g.indexOf v)‖ ^ 2 = 1 / 2 ∧
      ‖(thenMatrix g n₁ n₂).at_ (g.indexOf w) (g.indexOf v)‖ ^ 2 = 1 / 2 := by
  have d2 : a.1 ≠ b.1 := by rintro e; simp [e] at hd
  have d5 : a.2 ≠ b.2 := by rintro e; simp [e] at hd
  obtain ⟨n₁, h₁, hp₁⟩ := C20_equal_split_partial g hg hL a.1 b.1 ha.1 hb.1 d2 hbug
  obtain ⟨n₂, h₂, hp₂⟩ := C20_equal_split_partial g hg hL a.2 b.2 ha.2 hb.2 d5 hbug'
  refine ⟨n₁, n₂, ?_, ?_⟩
  · rw [npbs5050, if_neg (by omega), h₁, h₂]; rfl
  · intro x y x' y' hport v w hv hw hs h1 h2 h3
    exact splitter hg ha hb hd hbug hbug' h₁ h₂ hp₁ hp₂ x y x' y' hport v w hv hw hs h1 h2 h3

/-- **C21, actual behaviour of `non_polarizing_beamsplitter`** Both polarizations are treated alike; a single photon moves
to the other port with probability `4 r t` and stays with probability `(t - r)²`. -/
theorem C21_beamsplitter_actual (g : Cfg) (hg : g.Ok) (hL : 2 ≤ g.L) (hC : 4 ≤ g.C) (a b : ℕ × ℕ)
    (ha : a.1 < g.C ∧ a.2 < g.C) (hb : b.1 < g.C ∧ b.2 < g.C) (hd : [a.1, a.2, b.1, b.2].Nodup)
    (hbug : ¬ (2 ≤ a.1 ∧ b.1 = 0)) (hbug' : ¬ (2 ≤ a.2 ∧ b.2 = 0)) (r t : ℝ) (hr : 0 ≤ r) (ht : 0 ≤ t) (h : r + t = 1) :
    ∃ n₁ n₂, npbs g a b r t = some [n₁, n₂] ∧ ∀ x y x' y', IsPort a b x y x' y' → ∀ v w, Valid g v → Valid g w →
      Swapped g.C x y v w → v.getD x 0 + v.getD y 0 = 1 → v.getD x' 0 = 0 → v.getD y' 0 = 0 →
      ‖(thenMatrix g n₁ n₂).at_ (g.indexOf v) (g.indexOf v)‖ ^ 2 = (t - r) ^ 2 ∧
      ‖(thenMatrix g n₁ n₂).at_ (g.indexOf w) (g.indexOf v)‖ ^ 2 = 4 * (r * t) := by
  have d2 : a.1 ≠ b.1 := by rintro e; simp [e] at hd
  have d5 : a.2 ≠ b.2 := by rintro e; simp [e] at hd
  obtain ⟨n₁, h₁, hp₁⟩ := C21_actual_probabilities g hg hL a.1 b.1 ha.1 hb.1 d2 hbug r t hr ht h
  obtain ⟨n₂, h₂, hp₂⟩ := C21_actual_probabilities g hg hL a.2 b.2 ha.2 hb.2 d5 hbug' r t hr ht h
  refine ⟨n₁, n₂, ?_, ?_⟩
  · rw [npbs, if_neg (by omega), h₁, h₂]; rfl
  · intro x y x' y' hport v w hv hw hs h1 h2 h3
    rw [mixGeneric_eq hr ht h] at h₁ h₂
    exact splitter hg ha hb hd hbug hbug' h₁ h₂ hp₁ hp₂ x y x' y' hport v w hv hw hs h1 h2 h3

/-- non-vacuity: ports (0,1) and (2,3), photon in channel 1 -/
example : Cfg.Ok ⟨2, 4, true⟩ ∧ IsPort (0, 1) (2, 3) 1 3 0 2 ∧ Valid ⟨2, 4, true⟩ [0, 1, 0, 0] ∧
    Valid ⟨2, 4, true⟩ [0, 0, 0, 1] ∧ Swapped 4 1 3 [0, 1, 0, 0] [0, 0, 0, 1] := by
  refine ⟨by decide, by simp [IsPort], by decide, by decide, rfl, rfl, ?_⟩
  intro i hi h1 h2
  have : i = 0 ∨ i = 2 := by omega
  rcases this with rfl | rfl <;> rfl

end Verif.Props
