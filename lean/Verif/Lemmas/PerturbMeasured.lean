/-
Lemmas for C139: every branch of an evaluation with measurements stays close to an evaluation without threshold.
-/
import Verif.Spec.PerturbMeasured
import Verif.Lemmas.Perturb
import Verif.Lemmas.Locality
import Verif.Lemmas.Independent

namespace Verif
open Spec Props

/-- label and record of a state -/
abbrev BKey := List Char × List (List ℝ)

def bkey (q : QState) : BKey := (q.initial, recordOf q)

/-- classical values and amplitudes of the branches of one initial label -/
abbrev Tree := List (List ℝ) → Option (List ℝ × (ℕ → ℂ))

/-- amplitudes of a branch -/
noncomputable def treeVec (T : Tree) (r : List (List ℝ)) : ℕ → ℂ := (T r).elim (fun _ => 0) Prod.snd

open Classical in
/-- the states with a label and a record -/
noncomputable def onBranch {M : Type*} [AddCommMonoid M] (label : List Char) (r : List (List ℝ)) (f : QState → M) (L : List QState) : M :=
  (L.map (fun q => if q.initial = label ∧ recordOf q = r then f q else 0)).sum

theorem onBranch_none {M : Type*} [AddCommMonoid M] {label : List Char} {r : List (List ℝ)} (f : QState → M) {L : List QState} (h : ∀ q ∈ L, ¬ (q.initial = label ∧ recordOf q = r)) : onBranch label r f L = 0 := by
  unfold onBranch
  rw [List.sum_eq_zero]
  intro x hx
  obtain ⟨q, hq, rfl⟩ := List.mem_map.1 hx
  rw [if_neg (h q hq)]

theorem onBranch_one {M : Type*} [AddCommMonoid M] {label : List Char} (f : QState → M) {L : List QState} (hk : (L.map bkey).Nodup) {q : QState} (hq : q ∈ L) (hl : q.initial = label) : onBranch label (recordOf q) f L = f q := by
  induction L with
  | nil => cases hq
  | cons p L ih =>
    rw [List.map_cons, List.nodup_cons] at hk
    have e : onBranch label (recordOf q) f (p :: L) = (if p.initial = label ∧ recordOf p = recordOf q then f p else 0) + onBranch label (recordOf q) f L := by
      unfold onBranch
      rw [List.map_cons, List.sum_cons]
    rw [e]
    rcases List.mem_cons.1 hq with rfl | hq
    · rw [if_pos ⟨hl, rfl⟩, onBranch_none, add_zero]
      intro q' hq' hh
      refine hk.1 (List.mem_map.2 ⟨q', hq', ?_⟩)
      unfold bkey
      rw [hh.1, hh.2, hl]
    · rw [ih hk.2 hq, if_neg, zero_add]
      intro hh
      refine hk.1 (List.mem_map.2 ⟨q, hq, ?_⟩)
      unfold bkey
      rw [hl, hh.1, hh.2]

/-- amplitudes of the states with a label and a record, times the root of the cumulative probability -/
noncomputable def branchVec (g : Cfg) (label : List Char) (L : List QState) (r : List (List ℝ)) : ℕ → ℂ := fun i => onBranch label r (fun q => (Real.sqrt q.cum : ℂ) * vec g q.comps i) L

open Classical in
noncomputable def cumFrom (label : List Char) (L : List QState) : ℝ := (L.map (fun q => if q.initial = label then q.cum else 0)).sum

theorem branch_cum (label : List Char) {L : List QState} (h0 : ∀ q ∈ L, 0 ≤ q.cum) (R : Finset (List (List ℝ))) : ∑ r ∈ R, onBranch label r QState.cum L ≤ cumFrom label L := by
  classical
  induction L with
  | nil => simp [onBranch, cumFrom]
  | cons q L ih =>
    have e : ∀ r, onBranch label r QState.cum (q :: L) = (if q.initial = label ∧ recordOf q = r then q.cum else 0) + onBranch label r QState.cum L := by
      intro r
      unfold onBranch
      rw [List.map_cons, List.sum_cons]
    have e2 : cumFrom label (q :: L) = (if q.initial = label then q.cum else 0) + cumFrom label L := by
      unfold cumFrom
      rw [List.map_cons, List.sum_cons]
    rw [Finset.sum_congr rfl fun r _ => e r, Finset.sum_add_distrib, e2]
    refine add_le_add ?_ (ih fun q hq => h0 q (by simp [hq]))
    have hq := h0 q (by simp)
    by_cases hl : q.initial = label
    · simp only [hl, true_and, if_true]
      rw [Finset.sum_ite_eq]
      split
      · exact le_rfl
      · exact hq
    · simp [hl]

/-- Minkowski -/
theorem sum_sq_add {ι : Type*} (R : Finset ι) {a b : ι → ℝ} {A B : ℝ} (hA : 0 ≤ A) (hB : 0 ≤ B) (ha : ∑ r ∈ R, a r ^ 2 ≤ A ^ 2) (hb : ∑ r ∈ R, b r ^ 2 ≤ B ^ 2) : ∑ r ∈ R, (a r + b r) ^ 2 ≤ (A + B) ^ 2 := by
  have h1 := Finset.sum_mul_sq_le_sq_mul_sq R a b
  have h2 : (∑ r ∈ R, a r * b r) ^ 2 ≤ (A * B) ^ 2 := by
    rw [mul_pow]
    exact h1.trans (mul_le_mul ha hb (Finset.sum_nonneg fun _ _ => by positivity) (by positivity))
  have h3 : ∑ r ∈ R, a r * b r ≤ A * B := le_trans (le_abs_self _) (by rw [← abs_of_nonneg (mul_nonneg hA hB)]; exact sq_le_sq.1 h2)
  have e : ∑ r ∈ R, (a r + b r) ^ 2 = ∑ r ∈ R, a r ^ 2 + 2 * ∑ r ∈ R, a r * b r + ∑ r ∈ R, b r ^ 2 := by
    rw [Finset.mul_sum, ← Finset.sum_add_distrib, ← Finset.sum_add_distrib]
    exact Finset.sum_congr rfl fun _ _ => by ring
  rw [e]
  nlinarith

/-- linear and not increasing distances -/
structure Contr (g : Cfg) (K : (ℕ → ℂ) → ℕ → ℂ) : Prop where
  dist : ∀ x y, nrm g.size (fun i => K x i - K y i) ≤ nrm g.size (fun i => x i - y i)
  smul : ∀ (a : ℂ) x, ∀ i < g.size, K (fun i => a * x i) i = a * K x i

theorem Contr.nrm_le {g : Cfg} {K : (ℕ → ℂ) → ℕ → ℂ} (h : Contr g K) (x : ℕ → ℂ) : nrm g.size (K x) ≤ nrm g.size x := by
  have h1 := h.dist x (fun i => 0 * x i)
  have e1 : nrm g.size (fun i => K x i - K (fun i => 0 * x i) i) = nrm g.size (K x) := nrm_congr fun i hi => by rw [h.smul 0 x i hi]; ring
  have e2 : nrm g.size (fun i => x i - 0 * x i) = nrm g.size x := nrm_congr fun i _ => by ring
  rwa [e1, e2] at h1

theorem nrm_smul {N : ℕ} (a : ℝ) (ha : 0 ≤ a) (x : ℕ → ℂ) : nrm N (fun i => (a : ℂ) * x i) = a * nrm N x := by
  unfold nrm
  rw [← Real.sqrt_sq ha, ← Real.sqrt_mul (sq_nonneg a), Finset.mul_sum]
  congr 1
  refine Finset.sum_congr rfl fun i _ => ?_
  rw [norm_mul, mul_pow, Complex.norm_real, Real.norm_eq_abs, sq_abs, Real.sqrt_sq ha]

/-- states and what they should be -/
structure Follows (g : Cfg) (label : List Char) (δ : ℝ) (L : List QState) (T : Tree) : Prop where
  nonneg : 0 ≤ δ
  keys : (L.map bkey).Nodup
  on : ∀ q ∈ L, q.initial = label → ∃ v, T (recordOf q) = some (q.classical, v)
  close : ∀ R : Finset (List (List ℝ)), ∑ r ∈ R, nrm g.size (fun i => branchVec g label L r i - treeVec T r i) ^ 2 ≤ δ ^ 2

theorem Follows.mono {g : Cfg} {label : List Char} {δ δ' : ℝ} {L : List QState} {T : Tree} (h : Follows g label δ L T) (hd : δ ≤ δ') : Follows g label δ' L T :=
  ⟨h.nonneg.trans hd, h.keys, h.on, fun R => (h.close R).trans (pow_le_pow_left₀ h.nonneg hd 2)⟩

/-- the effect of a node on one branch -/
abbrev Act := List ℝ → Option (List ℝ × ((ℕ → ℂ) → ℕ → ℂ))

noncomputable def actOn (F : Act) (T : Tree) : Tree := fun r => (T r).bind (fun e => (F e.1).map (fun f => (f.1, f.2 e.2)))

/-- a state changed by a node that is no measurement -/
def Acted (g : Cfg) (ε : ℝ) (F : Act) (q q' : QState) : Prop :=
  q'.initial = q.initial ∧ q'.cum = q.cum ∧ q'.results = q.results ∧ ∃ K, F q.classical = some (q'.classical, K) ∧ nrm g.size (fun i => vec g q'.comps i - K (vec g q.comps) i) ≤ ε

theorem follows_act {g : Cfg} {label : List Char} {δ ε w : ℝ} (hε : 0 ≤ ε) {F : Act} (hF : ∀ vals f, F vals = some f → Contr g f.2) {L L' : List QState} (h : List.Forall₂ (Acted g ε F) L L')
    (hcum : ∀ q ∈ L, 0 ≤ q.cum) (hw : cumFrom label L ≤ w) {T : Tree} (hT : Follows g label δ L T) : Follows g label (δ + ε * Real.sqrt w) L' (actOn F T) := by
  have hkey : L'.map bkey = L.map bkey := by
    clear hcum hT hw
    induction h with
    | nil => rfl
    | cons h1 _ ih =>
      rw [List.map_cons, List.map_cons, ih]
      congr 1
      unfold bkey recordOf
      rw [h1.1, h1.2.2.1]
  have hkeys : (L'.map bkey).Nodup := hkey ▸ hT.keys
  have hw0 : 0 ≤ cumFrom label L := by
    unfold cumFrom
    refine List.sum_nonneg fun x hx => ?_
    obtain ⟨q, hq, rfl⟩ := List.mem_map.1 hx
    split
    · exact hcum q hq
    · exact le_rfl
  refine ⟨add_nonneg hT.nonneg (mul_nonneg hε (Real.sqrt_nonneg _)), hkeys, fun q' hq' hl => ?_, fun R => ?_⟩
  · obtain ⟨q, hq, h2, h3, h4, K, h5, h6⟩ := forall₂_mem_left' h.flip hq'
    obtain ⟨v, h7⟩ := hT.on q hq (h2 ▸ hl)
    refine ⟨K v, ?_⟩
    unfold actOn
    rw [show recordOf q' = recordOf q by unfold recordOf; rw [h4], h7, Option.bind_some, h5]
    rfl
  · have key : ∀ r, nrm g.size (fun i => branchVec g label L' r i - treeVec (actOn F T) r i) ≤
        nrm g.size (fun i => branchVec g label L r i - treeVec T r i) + ε * Real.sqrt (onBranch label r QState.cum L) := by
      intro r
      by_cases hex : ∃ q' ∈ L', q'.initial = label ∧ recordOf q' = r
      · obtain ⟨q', hq', hl, rfl⟩ := hex
        obtain ⟨q, hq, h2, h3, h4, K, h5, h6⟩ := forall₂_mem_left' h.flip hq'
        have hl' : q.initial = label := h2 ▸ hl
        have hr : recordOf q' = recordOf q := by unfold recordOf; rw [h4]
        obtain ⟨v, h7⟩ := hT.on q hq hl'
        have hK : Contr g K := hF _ _ h5
        have t1 : treeVec T (recordOf q) = v := by unfold treeVec; rw [h7]; rfl
        have t2 : treeVec (actOn F T) (recordOf q') = K v := by
          unfold treeVec actOn
          rw [hr, h7, Option.bind_some, h5]; rfl
        have b1 : branchVec g label L (recordOf q) = fun i => (Real.sqrt q.cum : ℂ) * vec g q.comps i := by
          funext i
          exact onBranch_one _ hT.keys hq hl'
        have b2 : branchVec g label L' (recordOf q') = fun i => (Real.sqrt q'.cum : ℂ) * vec g q'.comps i := by
          funext i
          exact onBranch_one _ hkeys hq' hl
        have b3 : onBranch label (recordOf q) QState.cum L = q.cum := onBranch_one _ hT.keys hq hl'
        rw [t2, b2, hr, t1, b1, b3]
        have hs0 : 0 ≤ Real.sqrt q.cum := Real.sqrt_nonneg _
        refine (nrm_triangle g.size _ (K (fun i => (Real.sqrt q.cum : ℂ) * vec g q.comps i)) _).trans ?_
        rw [add_comm]
        refine add_le_add (hK.dist _ _) ?_
        have e : nrm g.size (fun i => (Real.sqrt q'.cum : ℂ) * vec g q'.comps i - K (fun i => (Real.sqrt q.cum : ℂ) * vec g q.comps i) i)
            = nrm g.size (fun i => (Real.sqrt q.cum : ℂ) * (vec g q'.comps i - K (vec g q.comps) i)) := by
          refine nrm_congr fun i hi => ?_
          rw [hK.smul _ _ i hi, h3, mul_sub]
        rw [e, nrm_smul _ hs0, mul_comm]
        exact mul_le_mul_of_nonneg_right h6 hs0
      · have hex' : ∀ q ∈ L, ¬ (q.initial = label ∧ recordOf q = r) := by
          intro q hq hh
          obtain ⟨q', hq', h1⟩ := forall₂_mem_left' h hq
          exact hex ⟨q', hq', h1.1.trans hh.1, by rw [← hh.2]; unfold recordOf; rw [h1.2.2.1]⟩
        have b2 : branchVec g label L' r = fun i => 0 := by
          funext i
          exact onBranch_none _ fun q hq hh => hex ⟨q, hq, hh⟩
        have b1 : branchVec g label L r = fun i => 0 := by
          funext i
          exact onBranch_none _ hex'
        rw [b1, b2, nrm_symm, nrm_symm g.size _ (treeVec T r)]
        simp only [sub_zero]
        have h1 : nrm g.size (treeVec (actOn F T) r) ≤ nrm g.size (treeVec T r) := by
          unfold treeVec actOn
          cases T r with
          | none => exact le_rfl
          | some e =>
            rw [Option.bind_some]
            cases hFe : F e.1 with
            | none =>
              show nrm g.size (fun _ => 0) ≤ _
              simp only [nrm, norm_zero]
              simp
            | some f => exact (hF _ _ hFe).nrm_le _
        have h2 : 0 ≤ ε * Real.sqrt (onBranch label r QState.cum L) := mul_nonneg hε (Real.sqrt_nonneg _)
        show nrm g.size (treeVec (actOn F T) r) ≤ nrm g.size (treeVec T r) + _
        linarith
    refine (Finset.sum_le_sum fun r _ => pow_le_pow_left₀ (nrm_nonneg _ _) (key r) 2).trans ?_
    refine sum_sq_add R hT.nonneg (mul_nonneg hε (Real.sqrt_nonneg _)) (hT.close R) ?_
    have h0 : ∀ r, 0 ≤ onBranch label r QState.cum L := by
      intro r
      unfold onBranch
      refine List.sum_nonneg fun x hx => ?_
      obtain ⟨q, hq, rfl⟩ := List.mem_map.1 hx
      split
      · exact hcum q hq
      · exact le_rfl
    rw [mul_pow, Real.sq_sqrt (hw0.trans hw)]
    rw [Finset.sum_congr rfl fun r _ => by rw [mul_pow, Real.sq_sqrt (h0 r)], ← Finset.mul_sum]
    exact mul_le_mul_of_nonneg_left ((branch_cum label hcum R).trans hw) (by positivity)

/-! ### measurements -/

/-- classical values after an outcome -/
def Wrote (cls : List ℕ) (vals : List ℝ) (o : List ℕ) (vals' : List ℝ) : Prop :=
  (∀ (i x : ℕ), cls[i]? = some x → vals'[x]? = (o[i]?).map (fun n : ℕ => (n : ℝ))) ∧ ∀ n : ℕ, n ∉ cls → vals'[n]? = vals[n]?

theorem Wrote.outcome_unique {cls : List ℕ} {vals vals₂ : List ℝ} {o o' : List ℕ} {vals' : List ℝ} (hl : o.length = cls.length) (hl' : o'.length = cls.length) (h : Wrote cls vals o vals') (h' : Wrote cls vals₂ o' vals') : o = o' := by
  refine List.ext_getElem? fun i => ?_
  by_cases hi : i < cls.length
  · have h1 := h.1 i _ (List.getElem?_eq_getElem hi)
    have h2 := h'.1 i _ (List.getElem?_eq_getElem hi)
    rw [h1] at h2
    rw [List.getElem?_eq_getElem (hl ▸ hi), List.getElem?_eq_getElem (hl' ▸ hi)] at h2 ⊢
    simpa using h2
  · rw [List.getElem?_eq_none (by omega), List.getElem?_eq_none (by omega)]

open Classical in
noncomputable def measureTree (g : Cfg) (opt cls : List ℕ) (T : Tree) : Tree := fun r =>
  (r.getLast?).bind (fun vals' => (T r.dropLast).bind (fun e =>
    if h : ∃ o : List ℕ, o.length = opt.length ∧ vals'.length = e.1.length ∧ Wrote cls e.1 o vals' then some (vals', part g opt h.choose e.2) else none))

theorem part_contr (g : Cfg) (opt o : List ℕ) : Contr g (part g opt o) := by
  refine ⟨fun x y => ?_, fun a x i _ => ?_⟩
  · refine Real.sqrt_le_sqrt (Finset.sum_le_sum fun i _ => ?_)
    unfold part
    dsimp only
    split <;> simp
  · unfold part
    dsimp only
    split <;> simp

/-- amplitudes after a measurement -/
theorem produced_vec {g : Cfg} (hL : 1 ≤ g.L) {opt cls o : List ℕ} {q q' : QState} (hc : 0 ≤ q.cum) (h : Produced g opt cls q o q') (i : ℕ) :
    (Real.sqrt q'.cum : ℂ) * vec g q'.comps i = (Real.sqrt q.cum : ℂ) * part g opt o (vec g q.comps) i := by
  have hv := g.valid_valuesFromIndex hL i
  have hn : IsName g (g.valuesFromIndex i) (g.nm i) := (isName_iff hv).2 rfl
  unfold part
  split
  · rename_i ho
    have hr : Reads opt (g.valuesFromIndex i) o := ho.symm
    have ha := h.amp _ _ hv hn hr
    have ha' : vec g q'.comps i = vec g q.comps i / (Real.sqrt (outcomeProb g opt q.comps o) : ℂ) := ha
    rw [ha', h.cum, Real.sqrt_mul hc]
    have hp : 0 ≤ outcomeProb g opt q.comps o := by
      unfold outcomeProb
      refine List.sum_nonneg fun x hx => ?_
      obtain ⟨p, -, rfl⟩ := List.mem_map.1 hx
      split <;> positivity
    have hne : (Real.sqrt (outcomeProb g opt q.comps o) : ℂ) ≠ 0 := by
      rw [Complex.ofReal_ne_zero]
      exact fun h0 => h.pos ((Real.sqrt_eq_zero hp).1 h0)
    push_cast
    field_simp
  · rename_i ho
    have hno : g.nm i ∉ q'.comps.map Prod.fst := fun hmem => ho ((h.mem _ _ hv hn).1 hmem).2.symm
    have : vec g q'.comps i = 0 := by
      unfold vec ampOf
      rw [Dict.get?_eq_none.2 hno]; rfl
    rw [this]; simp

/-- an outcome that does not occur -/
theorem part_absent {g : Cfg} (hL : 1 ≤ g.L) {opt o : List ℕ} {c : Comps} (h : ¬ Occurs g opt c o) (i : ℕ) : part g opt o (vec g c) i = 0 := by
  unfold part
  split
  · rename_i ho
    have hv := g.valid_valuesFromIndex hL i
    have hn : IsName g (g.valuesFromIndex i) (g.nm i) := (isName_iff hv).2 rfl
    have hno : g.nm i ∉ c.map Prod.fst := fun hmem => h ⟨_, _, hv, hn, hmem, ho.symm⟩
    unfold vec ampOf
    rw [Dict.get?_eq_none.2 hno]; rfl
  · rfl

/-- the classical values of a measured state -/
theorem produced_wrote {g : Cfg} (_hL : 1 ≤ g.L) {opt cls o : List ℕ} {q q' : QState} (hlen : cls.length = opt.length) (hnd : cls.Nodup) (ho : Occurs g opt q.comps o) (h : Produced g opt cls q o q') :
    o.length = opt.length ∧ Wrote cls q.classical o q'.classical := by
  obtain ⟨v, s, hv, hn, hs, hr⟩ := ho
  have hol : o.length = opt.length := by rw [hr, List.length_map]
  refine ⟨hol, fun i x hi => ?_, h.kept⟩
  have hi' : i < cls.length := (List.getElem?_eq_some_iff.1 hi).1
  have hi2 : i < opt.length := by rw [← hlen]; exact hi'
  have hopt : opt[i]? = some opt[i] := List.getElem?_eq_getElem hi2
  have e3 : o[i]? = some (v.getD opt[i] 0) := by rw [hr, List.getElem?_map, hopt]; rfl
  have := h.written i x _ hi hopt (fun j hj hjx => by
    have hj' : j < cls.length := (List.getElem?_eq_some_iff.1 hjx).1
    have e1 := (List.getElem?_eq_some_iff.1 hi).2
    have e2 := (List.getElem?_eq_some_iff.1 hjx).2
    have := (List.Nodup.getElem_inj_iff hnd (hi := hi') (hj := hj')).1 (e1.trans e2.symm)
    omega) v s hv hn ((h.mem v s hv hn).2 ⟨hs, hr⟩)
  rw [this, e3]
  rfl

theorem Wrote.vals_unique {cls : List ℕ} {vals vals₁ vals₂ : List ℝ} {o : List ℕ} (h1 : Wrote cls vals o vals₁) (h2 : Wrote cls vals o vals₂) : vals₁ = vals₂ := by
  refine List.ext_getElem? fun x => ?_
  by_cases hx : x ∈ cls
  · obtain ⟨i, hi⟩ := List.getElem?_of_mem hx
    rw [h1.1 i x hi, h2.1 i x hi]
  · rw [h1.2 x hx, h2.2 x hx]

theorem measure_key {opt cls o : List ℕ} {g : Cfg} {q q' : QState} (h : Produced g opt cls q o q') : bkey q' = (q.initial, recordOf q ++ [q'.classical]) := by
  unfold bkey recordOf
  rw [h.initial, h.results, List.map_append]
  rfl

theorem measureTree_key {g : Cfg} {opt cls : List ℕ} {T : Tree} {r : List (List ℝ)} {vals vals' : List ℝ} {v : ℕ → ℂ} (hT : T r = some (vals, v)) {o : List ℕ}
    (ho : o.length = opt.length) (hlen : cls.length = opt.length) (hl : vals'.length = vals.length) (hw : Wrote cls vals o vals') : measureTree g opt cls T (r ++ [vals']) = some (vals', part g opt o v) := by
  unfold measureTree
  have hex : ∃ o : List ℕ, o.length = opt.length ∧ vals'.length = vals.length ∧ Wrote cls vals o vals' := ⟨o, ho, hl, hw⟩
  simp only [List.getLast?_append, List.getLast?_singleton, Option.some_or, Option.bind_some, List.dropLast_concat, hT]
  rw [dif_pos hex]
  have := hw.outcome_unique (by omega) (by rw [hex.choose_spec.1]; omega) hex.choose_spec.2.2
  rw [← this]

theorem key_unique {L : List QState} (hk : (L.map bkey).Nodup) {q q' : QState} (hq : q ∈ L) (hq' : q' ∈ L) (h : bkey q = bkey q') : q = q' := List.inj_on_of_nodup_map hk hq hq' h

theorem follows_measure {g : Cfg} (hg : g.Ok) {label : List Char} {thr : ℝ} {m : ℕ} {opt cls : List ℕ} (hlen : cls.length = opt.length) (hnd : cls.Nodup) {δ : ℝ} {L : List QState} {qss : List (List QState)} (hm : ∀ q ∈ L, Measurable g m q)
    (hout : ∀ qs ∈ qss, ∀ q ∈ qs, q.classical.length = m) (h : List.Forall₂ (fun q qs => measure g thr m q opt cls = some qs) L qss) {T : Tree} (hT : Follows g label δ L T) :
    Follows g label δ qss.flatten (measureTree g opt cls T) := by
  have hprod : ∀ q ∈ L, ∀ qs, measure g thr m q opt cls = some qs → ∃ outs : List (List ℕ), outs.Nodup ∧ (∀ o, o ∈ outs ↔ Occurs g opt q.comps o) ∧ List.Forall₂ (Produced g opt cls q) outs qs :=
    fun q hq qs h1 => C26_outcomes g thr m q opt cls (hm q hq) hlen qs h1
  have hchild : ∀ q' ∈ qss.flatten, ∃ q ∈ L, ∃ o, Occurs g opt q.comps o ∧ Produced g opt cls q o q' := by
    intro q' hq'
    obtain ⟨qs, hqs, hq'⟩ := List.mem_flatten.1 hq'
    obtain ⟨q, hq, h1⟩ := forall₂_mem_left' h.flip hqs
    obtain ⟨outs, -, h3, h4⟩ := hprod q hq qs h1
    obtain ⟨o, ho, hp⟩ := forall₂_mem_left' h4.flip hq'
    exact ⟨q, hq, o, (h3 o).1 ho, hp⟩
  have hborn : ∀ q ∈ L, ∀ o, Occurs g opt q.comps o → ∃ q' ∈ qss.flatten, Produced g opt cls q o q' := by
    intro q hq o ho
    obtain ⟨qs, hqs, h5⟩ := forall₂_mem_left' h hq
    obtain ⟨outs, -, o2, o3⟩ := hprod q hq qs h5
    obtain ⟨q', hq', hp⟩ := forall₂_mem_left' o3 ((o2 o).2 ho)
    exact ⟨q', List.mem_flatten.2 ⟨qs, hqs, hq'⟩, hp⟩
  have hol : ∀ q' ∈ qss.flatten, q'.classical.length = m := by
    intro q' hq'
    obtain ⟨qs, hqs, hq'⟩ := List.mem_flatten.1 hq'
    exact hout qs hqs q' hq'
  have hkeys : (qss.flatten.map bkey).Nodup := by
    have gen : ∀ (L : List QState) (qss : List (List QState)), (L.map bkey).Nodup → (∀ q ∈ L, Measurable g m q) → List.Forall₂ (fun q qs => measure g thr m q opt cls = some qs) L qss →
        (qss.flatten.map bkey).Nodup ∧ ∀ q' ∈ qss.flatten, ∃ q ∈ L, ∃ vals, bkey q' = (q.initial, recordOf q ++ [vals]) := by
      intro L qss hk hm h
      induction h with
      | nil => simp
      | @cons q qs L qss h1 h2 ih =>
        rw [List.map_cons, List.nodup_cons] at hk
        obtain ⟨i1, i2⟩ := ih hk.2 (fun q hq => hm q (by simp [hq]))
        obtain ⟨outs, o1, o2, o3⟩ := C26_outcomes g thr m q opt cls (hm q (by simp)) hlen qs h1
        have hkey : ∀ q' ∈ qs, bkey q' = (q.initial, recordOf q ++ [q'.classical]) := by
          intro q' hq'
          obtain ⟨o, -, hp⟩ := forall₂_mem_left' o3.flip hq'
          exact measure_key hp
        refine ⟨?_, ?_⟩
        · rw [List.flatten_cons, List.map_append, List.nodup_append]
          refine ⟨?_, i1, ?_⟩
          · clear ih i1 i2 h1 h2
            induction o3 with
            | nil => simp
            | @cons o q' outs qs hp hps ih =>
              rw [List.nodup_cons] at o1
              rw [List.map_cons, List.nodup_cons]
              refine ⟨?_, ?_⟩
              · intro hmem
                obtain ⟨q₂, hq₂, e⟩ := List.mem_map.1 hmem
                obtain ⟨o₂, ho₂, hp₂⟩ := forall₂_mem_left' hps.flip hq₂
                rw [measure_key hp, measure_key hp₂] at e
                have e' : q₂.classical = q'.classical := by simpa using e
                obtain ⟨l1, w1⟩ := produced_wrote hg.1 hlen hnd ((o2 o).1 (by simp)) hp
                obtain ⟨l2, w2⟩ := produced_wrote hg.1 hlen hnd ((o2 o₂).1 (by simp [ho₂])) hp₂
                rw [e'] at w2
                have := w1.outcome_unique (by omega) (by omega) w2
                exact o1.1 (this ▸ ho₂)
              · have : ∀ o ∈ outs, Occurs g opt q.comps o := fun o ho => (o2 o).1 (by simp [ho])
                clear ih
                have gen2 : ∀ (outs : List (List ℕ)) (qs : List QState), outs.Nodup → (∀ o ∈ outs, Occurs g opt q.comps o) → List.Forall₂ (Produced g opt cls q) outs qs → (qs.map bkey).Nodup := by
                  intro outs qs hn hocc hf
                  induction hf with
                  | nil => simp
                  | @cons o q' outs qs hp hps ih =>
                    rw [List.nodup_cons] at hn
                    rw [List.map_cons, List.nodup_cons]
                    refine ⟨?_, ih hn.2 (fun o ho => hocc o (by simp [ho]))⟩
                    intro hmem
                    obtain ⟨q₂, hq₂, e⟩ := List.mem_map.1 hmem
                    obtain ⟨o₂, ho₂, hp₂⟩ := forall₂_mem_left' hps.flip hq₂
                    rw [measure_key hp, measure_key hp₂] at e
                    have e' : q₂.classical = q'.classical := by simpa using e
                    obtain ⟨l1, w1⟩ := produced_wrote hg.1 hlen hnd (hocc o (by simp)) hp
                    obtain ⟨l2, w2⟩ := produced_wrote hg.1 hlen hnd (hocc o₂ (by simp [ho₂])) hp₂
                    rw [e'] at w2
                    have := w1.outcome_unique (by omega) (by omega) w2
                    exact hn.1 (this ▸ ho₂)
                exact gen2 outs qs o1.2 this hps
          · intro a ha b hb hab
            subst hab
            obtain ⟨q', hq', e1⟩ := List.mem_map.1 ha
            obtain ⟨q₂, hq₂, e2⟩ := List.mem_map.1 hb
            obtain ⟨q₃, hq₃, vals, e3⟩ := i2 q₂ hq₂
            have := (hkey q' hq').symm.trans (e1.trans (e2.symm.trans e3))
            have e4 : bkey q = bkey q₃ := by
              unfold bkey
              rw [Prod.mk.injEq] at this ⊢
              refine ⟨this.1, ?_⟩
              have h5 := congrArg List.dropLast this.2
              simpa using h5
            exact hk.1 (e4 ▸ List.mem_map_of_mem hq₃)
        · intro q' hq'
          rw [List.flatten_cons, List.mem_append] at hq'
          rcases hq' with hq' | hq'
          · exact ⟨q, by simp, _, hkey q' hq'⟩
          · obtain ⟨q₃, hq₃, r⟩ := i2 q' hq'
            exact ⟨q₃, by simp [hq₃], r⟩
    exact (gen L qss hT.keys hm h).1
  -- what is known of the children of a branch
  have hch : ∀ q ∈ L, q.initial = label → ∀ q' ∈ qss.flatten, ∀ o, Occurs g opt q.comps o → Produced g opt cls q o q' →
      q'.initial = label ∧ recordOf q' = recordOf q ++ [q'.classical] ∧ o.length = opt.length ∧ q'.classical.length = q.classical.length ∧ Wrote cls q.classical o q'.classical := by
    intro q hq hl q' hq' o ho hp
    have h1 := measure_key hp
    unfold bkey at h1
    obtain ⟨l1, w1⟩ := produced_wrote hg.1 hlen hnd ho hp
    exact ⟨hp.initial.trans hl, (Prod.mk.inj h1).2, l1, (hol q' hq').trans (hm q hq).classical.symm, w1⟩
  refine ⟨hT.nonneg, hkeys, ?_, ?_⟩
  · intro q' hq' hl
    obtain ⟨q, hq, o, ho, hp⟩ := hchild q' hq'
    have hl' : q.initial = label := hp.initial ▸ hl
    obtain ⟨-, h2, h3, h4, h5⟩ := hch q hq hl' q' hq' o ho hp
    obtain ⟨v, h6⟩ := hT.on q hq hl'
    exact ⟨_, by rw [h2]; exact measureTree_key h6 h3 hlen h4 h5⟩
  intro R
  have claim : ∀ r', (∀ i < g.size, branchVec g label qss.flatten r' i - treeVec (measureTree g opt cls T) r' i = 0) ∨ ∃ vals v vals' o, r' = r'.dropLast ++ [vals'] ∧ T r'.dropLast = some (vals, v) ∧
      Wrote cls vals o vals' ∧ ∀ i < g.size, branchVec g label qss.flatten r' i - treeVec (measureTree g opt cls T) r' i = part g opt o (fun i => branchVec g label L r'.dropLast i - treeVec T r'.dropLast i) i := by
    intro r'
    cases hm' : measureTree g opt cls T r' with
    | none =>
      left
      intro i _
      have h1 : branchVec g label qss.flatten r' i = 0 := by
        refine onBranch_none _ fun q' hq' hh => ?_
        obtain ⟨q, hq, o, ho, hp⟩ := hchild q' hq'
        have hl' : q.initial = label := hp.initial ▸ hh.1
        obtain ⟨-, h2, h3, h4, h5⟩ := hch q hq hl' q' hq' o ho hp
        obtain ⟨v, h6⟩ := hT.on q hq hl'
        have := measureTree_key (g := g) h6 h3 hlen h4 h5
        rw [← h2, hh.2, hm'] at this
        cases this
      rw [h1, treeVec, hm']
      exact sub_zero _
    | some e =>
      right
      have he := hm'
      unfold measureTree at he
      obtain ⟨vals', h1, h2⟩ := Option.bind_eq_some_iff.1 he
      obtain ⟨⟨vals, v⟩, h3, h4⟩ := Option.bind_eq_some_iff.1 h2
      split at h4
      swap
      · cases h4
      rename_i hex
      obtain rfl := Option.some.inj h4
      obtain ⟨l1, l2, w1⟩ := hex.choose_spec
      change vals'.length = vals.length at l2
      generalize hex.choose = o at *
      have hr : r' = r'.dropLast ++ [vals'] := (List.dropLast_append_getLast? vals' h1).symm
      refine ⟨vals, v, vals', o, hr, h3, w1, fun i hi => ?_⟩
      have t1 : treeVec (measureTree g opt cls T) r' i = part g opt o v i := by rw [treeVec, hm']; rfl
      have t2 : treeVec T r'.dropLast = v := by rw [treeVec, h3]; rfl
      have t3 : branchVec g label qss.flatten r' i = part g opt o (branchVec g label L r'.dropLast) i := by
        -- a state of this branch after the measurement comes from the branch before
        have back : ∀ q' ∈ qss.flatten, q'.initial = label ∧ recordOf q' = r' → ∃ q ∈ L, q.initial = label ∧ recordOf q = r'.dropLast ∧ Occurs g opt q.comps o ∧ Produced g opt cls q o q' := by
          rintro q' hq' ⟨e1, e2⟩
          obtain ⟨q, hq, o', ho, hp⟩ := hchild q' hq'
          have hl' : q.initial = label := hp.initial ▸ e1
          obtain ⟨-, h5, h6, h7, h8⟩ := hch q hq hl' q' hq' o' ho hp
          have hrq : recordOf q = r'.dropLast := by rw [← e2, h5, List.dropLast_concat]
          have hcl : q'.classical = vals' := by
            rw [← e2, h5, List.getLast?_concat] at h1
            exact Option.some.inj h1
          obtain ⟨v', h9⟩ := hT.on q hq hl'
          rw [hrq, h3] at h9
          have hv := (Prod.mk.inj (Option.some.inj h9)).1
          rw [hcl] at h8
          have := h8.outcome_unique (by omega) (by omega) w1
          subst this
          exact ⟨q, hq, hl', hrq, ho, hp⟩
        by_cases hq : ∃ q ∈ L, q.initial = label ∧ recordOf q = r'.dropLast
        · obtain ⟨q, hq, hl, hrq⟩ := hq
          have b1 : branchVec g label L r'.dropLast = fun i => (Real.sqrt q.cum : ℂ) * vec g q.comps i := by
            funext i
            rw [← hrq]
            exact onBranch_one _ hT.keys hq hl
          rw [b1, (part_contr g opt o).smul _ _ i hi]
          by_cases ho : Occurs g opt q.comps o
          · obtain ⟨q', hq', hp⟩ := hborn q hq o ho
            obtain ⟨e1, e2, -, e3, e4⟩ := hch q hq hl q' hq' o ho hp
            obtain ⟨v', h9⟩ := hT.on q hq hl
            rw [hrq, h3] at h9
            have hv := (Prod.mk.inj (Option.some.inj h9)).1
            rw [← hv] at e4
            have e5 : recordOf q' = r' := by rw [e2, e4.vals_unique w1, hrq, ← hr]
            rw [← produced_vec hg.1 (hm q hq).cum0 hp, ← e5]
            exact onBranch_one _ hkeys hq' e1
          · rw [part_absent hg.1 ho, mul_zero]
            refine onBranch_none _ fun q' hq' hh => ?_
            obtain ⟨q₂, hq₂, e1, e2, e3, -⟩ := back q' hq' hh
            have : q = q₂ := key_unique hT.keys hq hq₂ (by unfold bkey; rw [hl, e1, hrq, e2])
            exact ho (this ▸ e3)
        · have b1 : branchVec g label L r'.dropLast = fun i => 0 := by
            funext i
            exact onBranch_none _ fun q hq' hh => hq ⟨q, hq', hh⟩
          have b2 : branchVec g label qss.flatten r' i = 0 := onBranch_none _ fun q' hq' hh => by
            obtain ⟨q, hq', e1, e2, -⟩ := back q' hq' hh
            exact hq ⟨q, hq', e1, e2⟩
          rw [b1, b2]
          unfold part
          split <;> rfl
      rw [t1, t2, t3]
      unfold part
      dsimp only
      split
      · rfl
      · exact sub_zero _
  refine le_trans ?_ (hT.close (R.image List.dropLast))
  rw [← Finset.sum_fiberwise_of_maps_to (t := R.image List.dropLast) (g := List.dropLast) (fun r hr => Finset.mem_image_of_mem _ hr)]
  refine Finset.sum_le_sum fun r _ => ?_
  rw [Finset.sum_congr rfl fun r' _ => nrm_sq g.size _, nrm_sq, Finset.sum_comm]
  refine Finset.sum_le_sum fun i hi => ?_
  have hi := Finset.mem_range.1 hi
  by_cases hex : ∃ r₀ ∈ R.filter (fun r' => r'.dropLast = r), branchVec g label qss.flatten r₀ i - treeVec (measureTree g opt cls T) r₀ i ≠ 0
  · obtain ⟨r₀, hr₀, hne⟩ := hex
    have hd := (Finset.mem_filter.1 hr₀).2
    rcases claim r₀ with h0 | ⟨vals, v, vals', o, a1, a2, a3, a4⟩
    · exact absurd (h0 i hi) hne
    rw [Finset.sum_eq_single_of_mem r₀ hr₀]
    · rw [a4 i hi, hd]
      unfold part
      split <;> simp
    · intro r₁ hr₁ hdiff
      have hd₁ := (Finset.mem_filter.1 hr₁).2
      rcases claim r₁ with h0 | ⟨vals₁, v₁, vals₁', o₁, c1, c2, c3, c4⟩
      · rw [h0 i hi]; simp
      · rw [c4 i hi]
        by_cases hz : part g opt o₁ (fun i => branchVec g label L r₁.dropLast i - treeVec T r₁.dropLast i) i = 0
        · rw [hz]; simp
        · exfalso
          rw [a4 i hi] at hne
          have x1 : outcomeOf opt (g.valuesFromIndex i) = o := by
            by_contra hno
            exact hne (if_neg hno)
          have x2 : outcomeOf opt (g.valuesFromIndex i) = o₁ := by
            by_contra hno
            exact hz (if_neg hno)
          have x3 : o = o₁ := x1.symm.trans x2
          subst x3
          rw [hd] at a2
          rw [hd₁, a2] at c2
          obtain ⟨rfl, rfl⟩ := Prod.mk.inj (Option.some.inj c2)
          apply hdiff
          rw [a1, c1, hd, hd₁, a3.vals_unique c3]
  · refine le_trans (le_of_eq (Finset.sum_eq_zero fun r₁ hr₁ => ?_)) (by positivity)
    have : branchVec g label qss.flatten r₁ i - treeVec (measureTree g opt cls T) r₁ i = 0 := by
      by_contra hne
      exact hex ⟨r₁, hr₁, hne⟩
    rw [this]; simp

end Verif
