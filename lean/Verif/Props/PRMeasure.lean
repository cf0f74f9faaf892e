/-
C78, C79: what a measurement of Popescu-Rohrlich pairs returns, and what it does to the collection it is given.
-/
import Verif.Lemmas.PR6
import Verif.Props.PR
import Mathlib.Analysis.CStarAlgebra.Matrix

namespace Verif.Props
open Verif Spec

/-! ### C78 -/

/-- C78: measuring a collection of one or more sets of states gives, set by set, one collapsed state per listed outcome. -/
theorem C78_measurement {g : Cfg} {thr : ℝ} {m : ℕ} {opt cls : List ℕ} (hn : cls.Nodup) (hc : ∀ c ∈ cls, c < m) (ho : ∀ o ∈ opt, o < g.C)
    {coll : List PRState} (hst : ∀ st ∈ coll, st.pr.isSome ∧ CheckValid thr m st.q) (histo : ℕ → List (Name × ℝ))
    (hh : ∀ st ∈ coll, measurePRGroup (coll.filter (fun s => setId s = setId st)) = some (histo (setId st)) ∧
      ∀ op ∈ histo (setId st), 0 ≤ op.2 ∧ op.2 ≤ 1 ∧ ∃ v, Valid g v ∧ IsName g v op.1) :
    ∃ (ids : List ℕ) (outs : List (List PRState)) (after : List PRState), measurePR g thr m opt cls coll = some (outs.flatten, after) ∧
      ids.Nodup ∧ (∀ i, i ∈ ids ↔ ∃ st ∈ coll, setId st = i) ∧
      List.Forall₂ (fun i out => ∀ first info, (coll.filter (fun s => setId s = i)).head? = some first → first.pr = some info →
        List.Forall₂ (PRCollapsed g opt cls first.q info.initialOut) (histo i) out) ids outs := by
  set gs := groupBy setId coll with hgs
  have hkeys : ∀ i, i ∈ Dict.keys gs ↔ ∃ st ∈ coll, setId st = i := by
    intro i
    rw [hgs, groupBy_mem_keys, List.mem_map]
  have hgeq : gs = (Dict.keys gs).map (fun i => (i, coll.filter (fun s => setId s = i))) := groupBy_eq setId coll
  have hone : ∀ i ∈ Dict.keys gs, ∃ out, measurePROne g thr m opt cls (coll.filter (fun s => setId s = i)) = some out ∧
      ∀ first info, (coll.filter (fun s => setId s = i)).head? = some first → first.pr = some info →
        List.Forall₂ (PRCollapsed g opt cls first.q info.initialOut) (histo i) out := by
    intro i hi
    obtain ⟨st, hst1, rfl⟩ := (hkeys i).mp hi
    have hmem : st ∈ coll.filter (fun s => setId s = setId st) := List.mem_filter.mpr ⟨hst1, by simp⟩
    cases hfl : coll.filter (fun s => setId s = setId st) with
    | nil => rw [hfl] at hmem; exact absurd hmem (by simp)
    | cons first rest =>
      have hf : first ∈ coll := (List.mem_filter.mp (hfl ▸ List.mem_cons_self)).1
      obtain ⟨h1, h2⟩ := hst first hf
      obtain ⟨info, hinfo⟩ := Option.isSome_iff_exists.mp h1
      have h3 := hh st hst1
      rw [hfl] at h3
      obtain ⟨out, h4, h5⟩ := measurePROne_spec hinfo h2 hn hc ho h3.1 h3.2
      refine ⟨out, h4, ?_⟩
      intro first' info' e1 e2
      obtain rfl : first = first' := by simpa using e1
      obtain rfl : info = info' := Option.some.inj (hinfo.symm.trans e2)
      exact h5
  obtain ⟨outs, h1, h2⟩ := exists_forall₂_of hone
  refine ⟨Dict.keys gs, outs, markFirst [] coll, ?_, groupBy_nodup _ _, hkeys, h2⟩
  have hcopy : coll.mapM (fun s => copyState thr m s.q) = some (coll.map PRState.q) := mapM_some_of (fun s hs => copyState_some (hst s hs).2)
  have hpr : prGroups coll = some gs := by
    unfold prGroups hasPR
    rw [if_pos (List.all_eq_true.mpr (fun s hs => (hst s hs).1))]
    rfl
  have houts : gs.mapM (fun ig : ℕ × List PRState => measurePROne g thr m opt cls ig.2) = some outs := by
    rw [hgeq, List.mapM_map]
    exact h1
  unfold measurePR
  rw [hcopy, hpr]
  simp only [Option.bind_eq_bind, Option.bind_some, houts]

/-- The collapsed states of one set carry the listed probabilities. -/
theorem C78_cum {g : Cfg} {opt cls : List ℕ} {q : QState} {init : List Char} {histo : List (Name × ℝ)} {out : List PRState}
    (h : List.Forall₂ (PRCollapsed g opt cls q init) histo out) : out.map (fun s => s.q.cum) = histo.map Prod.snd := by
  induction h with
  | nil => rfl
  | cons h _ ih => rw [List.map_cons, List.map_cons, h.cum, ih]

/-- C78, C73 end to end: a set of states after local optics is measured without error into one collapsed state per listed outcome, and the
probabilities add up to the probability of the state the pairs were added to. -/
theorem C78_collapsed {g : Cfg} {thr : ℝ} {m : ℕ} {opt cls : List ℕ} (hn : cls.Nodup) (hc : ∀ c ∈ cls, c < m) (ho : ∀ o ∈ opt, o < g.C)
    {d : ℕ} {R : Type} [Fintype R] {Ks : Fin (d + 1) → ℝ} {init : List Char} {P : ℝ} (hP0 : 0 ≤ P) (hP1 : P ≤ 1) {coll : List PRState}
    (h : PRSet (d + 1) Ks init P coll) (hK : ∀ k, 0 < Ks k) {U V : Fin (d + 1) → Matrix (Fin 2) (Fin 2) ℂ} {γ : R → ℂ}
    {name : R → (Fin (d + 1) → Fin 4) → Name} (hl : LocalRun coll U V γ name) (hγ : ∑ r, ‖γ r‖ ^ 2 = 1) (hname : ∀ r o, ∃ v, Valid g v ∧ IsName g v (name r o))
    (i : ℕ) (hi : ∀ st ∈ coll, setId st = i) (hcv : ∀ st ∈ coll, CheckValid thr m st.q) :
    ∃ histo first out after, measurePRGroup coll = some histo ∧ first ∈ coll ∧ measurePR g thr m opt cls coll = some (out, after) ∧
      (out.map (fun s => s.q.cum)).sum = P ∧ List.Forall₂ (PRCollapsed g opt cls first.q init) histo out := by
  obtain ⟨histo, h1, h2, h3, h4⟩ := C72_local_optics h hK hl
  obtain ⟨histo', h1', htot⟩ := C73_total_probability_partial h hK hl
  obtain rfl : histo = histo' := Option.some.inj (h1.symm.trans h1')
  rw [hγ, mul_one] at htot
  have hnn : ∀ op ∈ histo, 0 ≤ op.2 := by
    intro op hop
    obtain ⟨r, o, e⟩ := (h3 op.1).mp (List.mem_map.mpr ⟨op, hop, rfl⟩)
    have h5 : op.2 = listedProb histo (name r o) := by
      unfold listedProb
      rw [← e, Dict.get?_of_mem (v := op.2) h2 hop]
      rfl
    rw [h5, h4]
    refine mul_nonneg (mul_nonneg hP0 (by positivity)) (Finset.prod_nonneg (fun k _ => ?_))
    have := pairCorrelation_abs_le (hK k) (a := U k (polA (o k))) (b := V k (polB (o k))) (by rw [polWeight_row (hl.unitA k)]; norm_num) (by rw [polWeight_row (hl.unitB k)]; norm_num)
    have := (abs_le.mp this).1
    linarith
  have hle : ∀ op ∈ histo, op.2 ≤ 1 := by
    intro op hop
    have := List.single_le_sum (l := histo.map Prod.snd) (by
      intro x hx
      obtain ⟨op', h5, rfl⟩ := List.mem_map.mp hx
      exact hnn op' h5) op.2 (List.mem_map.mpr ⟨op, hop, rfl⟩)
    linarith
  have hfil : coll.filter (fun s => setId s = i) = coll := by
    rw [List.filter_eq_self]
    intro s hs
    simpa using hi s hs
  obtain ⟨ids, outs, after, h5, h6, h7, h8⟩ := C78_measurement hn hc ho (coll := coll) (fun st hst => ⟨by
      obtain ⟨j, hj, -⟩ := h.info st hst
      rw [hj]
      rfl, hcv st hst⟩) (fun _ => histo) (by
    intro st hst
    rw [hi st hst, hfil]
    refine ⟨h1, fun op hop => ⟨hnn op hop, hle op hop, ?_⟩⟩
    obtain ⟨r, o, e⟩ := (h3 op.1).mp (List.mem_map.mpr ⟨op, hop, rfl⟩)
    rw [e]
    exact hname r o)
  obtain ⟨first, hfirst, -⟩ := h.all (fun _ => 0)
  obtain rfl : ids = [i] := by
    have hmem : ∀ j, j ∈ ids ↔ j = i := by
      intro j
      rw [h7]
      constructor
      · rintro ⟨st, hst, rfl⟩
        exact hi st hst
      · rintro rfl
        exact ⟨first, hfirst, hi first hfirst⟩
    exact (List.perm_singleton.mp ((List.perm_ext_iff_of_nodup h6 (by simp)).mpr (by simpa using hmem)))
  cases h8 with
  | cons h9 h10 =>
    rename_i out outs
    cases h10
    cases hcoll : coll with
    | nil => rw [hcoll] at hfirst; exact absurd hfirst (by simp)
    | cons first' rest =>
      have hf' : first' ∈ coll := by rw [hcoll]; exact List.mem_cons_self
      obtain ⟨j, hj, -, hinit, -⟩ := h.info first' hf'
      have h11 := h9 first' j (by rw [hfil, hcoll]; rfl) hj
      rw [hcoll] at h5
      refine ⟨histo, first', _, _, hcoll ▸ h1, List.mem_cons_self, h5, ?_, ?_⟩
      · rw [List.flatten_singleton, C78_cum h11, htot]
      · rw [List.flatten_singleton, ← hinit]
        exact h11

/-- C78, C73 end to end: a set of states after local optics is measured without error into states whose probabilities add up to the
probability of the state the pairs were added to. -/
theorem C78_total {g : Cfg} {thr : ℝ} {m : ℕ} {opt cls : List ℕ} (hn : cls.Nodup) (hc : ∀ c ∈ cls, c < m) (ho : ∀ o ∈ opt, o < g.C)
    {d : ℕ} {R : Type} [Fintype R] {Ks : Fin (d + 1) → ℝ} {init : List Char} {P : ℝ} (hP0 : 0 ≤ P) (hP1 : P ≤ 1) {coll : List PRState}
    (h : PRSet (d + 1) Ks init P coll) (hK : ∀ k, 0 < Ks k) {U V : Fin (d + 1) → Matrix (Fin 2) (Fin 2) ℂ} {γ : R → ℂ}
    {name : R → (Fin (d + 1) → Fin 4) → Name} (hl : LocalRun coll U V γ name) (hγ : ∑ r, ‖γ r‖ ^ 2 = 1) (hname : ∀ r o, ∃ v, Valid g v ∧ IsName g v (name r o))
    (i : ℕ) (hi : ∀ st ∈ coll, setId st = i) (hcv : ∀ st ∈ coll, CheckValid thr m st.q) :
    ∃ out after, measurePR g thr m opt cls coll = some (out, after) ∧ (out.map (fun s => s.q.cum)).sum = P ∧
      ∀ s ∈ out, s.q.initial = init ∧ s.pr = none ∧ ∃ r o, s.q.comps = [(name r o, ⟨1, 1⟩)] := by
  obtain ⟨histo, h1, -, h3, -⟩ := C72_local_optics h hK hl
  obtain ⟨histo', first, out, after, h1', -, h5, h6, h11⟩ := C78_collapsed hn hc ho hP0 hP1 h hK hl hγ hname i hi hcv
  obtain rfl : histo = histo' := Option.some.inj (h1.symm.trans h1')
  refine ⟨out, after, h5, h6, fun s hs => ?_⟩
  obtain ⟨op, hop, h12⟩ : ∃ op ∈ histo, PRCollapsed g opt cls first.q init op s := by
    clear h5 h6 h1 h1' h3
    induction h11 with
    | nil => exact absurd hs (by simp)
    | cons hx _ ih =>
      rcases List.mem_cons.mp hs with rfl | hs
      · exact ⟨_, List.mem_cons_self, hx⟩
      · obtain ⟨op, h1, h2⟩ := ih hs
        exact ⟨op, List.mem_cons_of_mem _ h1, h2⟩
  obtain ⟨r, o, e⟩ := (h3 op.1).mp (List.mem_map.mpr ⟨op, hop, rfl⟩)
  exact ⟨h12.label, h12.plain, r, o, by rw [h12.single, e]⟩

theorem pairNames_valid (r : Unit) (o : Fin 1 → Fin 4) : ∃ v, Valid ⟨2, 4, true⟩ v ∧ IsName ⟨2, 4, true⟩ v (pairNames r o) := by
  have key : ∀ q : Fin 4, ∃ v, Valid ⟨2, 4, true⟩ v ∧ IsName ⟨2, 4, true⟩ v (pairName q) := by
    intro q
    refine ⟨configValues q, ?_, ?_⟩
    · constructor <;> (fin_cases q <;> simp [configValues])
    · rw [isName_iff (by constructor <;> (fin_cases q <;> simp [configValues]))]
      fin_cases q <;> decide
  exact key (o 0)

theorem pairRun_valid {U V : Matrix (Fin 2) (Fin 2) ℂ} (hU : U ∈ Matrix.unitaryGroup (Fin 2) ℂ) (hV : V ∈ Matrix.unitaryGroup (Fin 2) ℂ) (K P : ℝ) :
    ∀ st ∈ pairRun U V K P, CheckValid (1 / 1000) 4 st.q := by
  intro st hst
  obtain ⟨x, -, rfl⟩ := List.mem_map.mp hst
  refine ⟨by norm_num [pairState], by norm_num [pairState], ?_, rfl⟩
  intro p hp
  obtain ⟨o, -, rfl⟩ := List.mem_map.mp hp
  have entry : ∀ {W : Matrix (Fin 2) (Fin 2) ℂ}, W ∈ Matrix.unitaryGroup (Fin 2) ℂ → ∀ i j, ‖W i j‖ ≤ 1 := by
    intro W hW i j
    exact entry_norm_bound_of_unitary hW i j
  have h1 : ‖U (polA o) (polA x) * V (polB o) (polB x)‖ ≤ 1 := by
    rw [Complex.norm_mul]
    exact mul_le_one₀ (entry hU _ _) (norm_nonneg _) (entry hV _ _)
  have h2 : ‖U (polA o) (polA x) * V (polB o) (polB x)‖ ^ 2 ≤ 1 := pow_le_one₀ (norm_nonneg _) h1
  constructor
  · exact le_trans (by norm_num) (by positivity : (0 : ℝ) ≤ ‖U (polA o) (polA x) * V (polB o) (polB x)‖ ^ 2)
  · exact h2.trans (by norm_num)

/-- The hypotheses are met: one pair, one photon rotated, all four channels measured. -/
example : ∃ out after, measurePR ⟨2, 4, true⟩ (1 / 1000) 4 [0, 1, 2, 3] [0, 1, 2, 3] (pairRun (rotation 1) 1 5 (1 / 3)) = some (out, after) ∧
    (out.map (fun s => s.q.cum)).sum = 1 / 3 := by
  obtain ⟨out, after, h1, h2, -⟩ := C78_total (g := ⟨2, 4, true⟩) (thr := 1 / 1000) (m := 4) (opt := [0, 1, 2, 3]) (cls := [0, 1, 2, 3]) (by decide) (by decide) (by decide)
    (by norm_num) (by norm_num) (pairRun_set (rotation 1) 1 5 (1 / 3)) (fun _ => by norm_num) (pairRun_local (rotation_unitary 1) one_unitary 5 (1 / 3))
    (by simp) pairNames_valid 7 (by
      intro st hst
      obtain ⟨x, -, rfl⟩ := List.mem_map.mp hst
      rfl) (pairRun_valid (rotation_unitary 1) one_unitary 5 (1 / 3))
  exact ⟨out, after, h1, h2⟩

/-! ### C79 -/

/-- C79 fails: 'measuring leaves the measured collection as it was'. The first state of every set loses its pair information and gets
another label. So the collection no longer counts as one with pairs, and measuring it once more raises. This holds for every non-empty
collection that can be measured. -/
theorem C79_argument_unchanged_fails {g : Cfg} {thr : ℝ} {m : ℕ} {opt cls : List ℕ} {coll out after : List PRState} (hne : coll ≠ [])
    (h : measurePR g thr m opt cls coll = some (out, after)) :
    hasPR coll = true ∧ hasPR after = false ∧ after ≠ coll ∧ ∀ thr' m' opt' cls', measurePR g thr' m' opt' cls' after = none := by
  unfold measurePR at h
  simp only [Option.bind_eq_bind, Option.bind_eq_some_iff] at h
  obtain ⟨_, -, gs, h1, outs, -, h2⟩ := h
  have hpr : hasPR coll = true := by
    unfold prGroups at h1
    by_contra hc
    rw [if_neg hc] at h1
    exact absurd h1 (by simp)
  obtain rfl : markFirst [] coll = after := by simpa using congrArg Prod.snd (Option.some.inj h2)
  have hfalse : hasPR (markFirst [] coll) = false := by
    cases coll with
    | nil => exact absurd rfl hne
    | cons s rest =>
      have hs : s.pr.isSome := by
        unfold hasPR at hpr
        exact List.all_eq_true.mp hpr s List.mem_cons_self
      obtain ⟨info, hinfo⟩ := Option.isSome_iff_exists.mp hs
      unfold markFirst
      rw [hinfo]
      simp [hasPR]
  refine ⟨hpr, hfalse, ?_, ?_⟩
  · intro e
    rw [e, hpr] at hfalse
    exact absurd hfalse (by simp)
  · intro thr' m' opt' cls'
    unfold measurePR prGroups
    rw [hfalse]
    simp

/-- Such a collection exists. -/
example : ∃ out after, measurePR ⟨2, 4, true⟩ (1 / 1000) 4 [0, 1, 2, 3] [0, 1, 2, 3] (pairRun 1 1 5 1) = some (out, after) ∧ hasPR after = false := by
  obtain ⟨out, after, h1, -⟩ := C78_total (g := ⟨2, 4, true⟩) (thr := 1 / 1000) (m := 4) (opt := [0, 1, 2, 3]) (cls := [0, 1, 2, 3]) (by decide) (by decide) (by decide)
    (by norm_num) (by norm_num) (pairRun_set 1 1 5 1) (fun _ => by norm_num) (pairRun_local one_unitary one_unitary 5 1)
    (by simp) pairNames_valid 7 (by
      intro st hst
      obtain ⟨x, -, rfl⟩ := List.mem_map.mp hst
      rfl) (pairRun_valid one_unitary one_unitary 5 1)
  exact ⟨out, after, h1, (C79_argument_unchanged_fails (by simp [pairRun, List.finRange]) h1).2.1⟩

end Verif.Props
