/-
Lemmas for C138: distance of the amplitudes to those of an evaluation without threshold.
-/
import Mathlib.Analysis.InnerProductSpace.PiL2
import Verif.Spec.Perturb
import Verif.Props.Conserve
import Verif.Props.MatrixApi
import Verif.Props.Superposition

namespace Verif
open Spec Props

/-- norm of the first `N` entries -/
noncomputable def nrm (N : ℕ) (x : ℕ → ℂ) : ℝ := Real.sqrt (∑ i ∈ Finset.range N, ‖x i‖ ^ 2)

theorem nrm_nonneg (N : ℕ) (x : ℕ → ℂ) : 0 ≤ nrm N x := Real.sqrt_nonneg _

theorem nrm_sq (N : ℕ) (x : ℕ → ℂ) : nrm N x ^ 2 = ∑ i ∈ Finset.range N, ‖x i‖ ^ 2 := Real.sq_sqrt (Finset.sum_nonneg fun _ _ => by positivity)

theorem nrm_congr {N : ℕ} {x y : ℕ → ℂ} (h : ∀ i < N, x i = y i) : nrm N x = nrm N y := by
  unfold nrm
  rw [Finset.sum_congr rfl fun i hi => by rw [h i (Finset.mem_range.1 hi)]]

theorem nrm_eq (N : ℕ) (x : ℕ → ℂ) : nrm N x = ‖(WithLp.toLp 2 (fun i : Fin N => x i) : EuclideanSpace ℂ (Fin N))‖ := by
  rw [EuclideanSpace.norm_eq, nrm, ← Fin.sum_univ_eq_sum_range (fun i => ‖x i‖ ^ 2)]

theorem nrm_add_le (N : ℕ) (x y : ℕ → ℂ) : nrm N (fun i => x i + y i) ≤ nrm N x + nrm N y := by
  rw [nrm_eq, nrm_eq, nrm_eq]
  exact norm_add_le (WithLp.toLp 2 (fun i : Fin N => x i) : EuclideanSpace ℂ (Fin N)) (WithLp.toLp 2 (fun i : Fin N => y i))

theorem nrm_triangle (N : ℕ) (x y z : ℕ → ℂ) : nrm N (fun i => x i - z i) ≤ nrm N (fun i => x i - y i) + nrm N (fun i => y i - z i) := by
  refine le_trans (le_of_eq ?_) (nrm_add_le N _ _)
  exact nrm_congr fun i _ => by ring

theorem nrm_symm (N : ℕ) (x y : ℕ → ℂ) : nrm N (fun i => x i - y i) = nrm N (fun i => y i - x i) := by
  unfold nrm
  simp only [norm_sub_rev]

theorem nrm_le_of {N : ℕ} {x : ℕ → ℂ} {thr : ℝ} (ht : 0 ≤ thr) (h : ∀ i < N, ‖x i‖ ≤ Real.sqrt thr) : nrm N x ≤ Real.sqrt (N * thr) := by
  refine Real.sqrt_le_sqrt ?_
  calc ∑ i ∈ Finset.range N, ‖x i‖ ^ 2 ≤ ∑ _i ∈ Finset.range N, thr := by
        refine Finset.sum_le_sum fun i hi => ?_
        have := h i (Finset.mem_range.1 hi)
        calc ‖x i‖ ^ 2 ≤ Real.sqrt thr ^ 2 := by gcongr
          _ = thr := Real.sq_sqrt ht
    _ = N * thr := by simp

/-! ### What the nodes do without a threshold -/

/-- contents of a state without its amplitudes, and amplitudes -/
abbrev Ideal := List (QState × (ℕ → ℂ))

noncomputable def idealTurn (g : Cfg) (ns : List (Opt × List ℕ)) (I : Ideal) : Ideal := I.map (fun e => (e.1, oneByOne g ns e.2))

noncomputable def idealNode (g : Cfg) (m : ℕ) : Node → Ideal → Option Ideal
  | .optical M tl, I => some (idealTurn g [(M, tl)] I)
  | .fockMatrix F, I => some (I.map (fun e => (e.1, F.mulVec e.2)))
  | .classical f v a, I => I.mapM (fun e => (f e.1.classical v a).bind (fun vals => if vals.length = m then some ({ e.1 with classical := vals }, e.2) else none))
  | .controlled vars channels defaults tl, I => (I.foldlM (fun (s : Ideal × (Option ℝ × Option ℝ)) e =>
      ((vars.zip channels).mapM (m := Option) (fun vc => (pyGet e.1.classical vc.2).map (fun x => (vc.1, x)))).bind (fun read =>
      (setAngles read s.2).1.bind (fun th => (setAngles read s.2).2.bind (fun ph =>
        some (s.1 ++ [(e.1, oneByOne g [(genericMatrix th ph, tl)] e.2)], setAngles read s.2))))) ([], setAngles defaults (none, none))).map Prod.fst
  | _, _ => none

noncomputable def idealRun (g : Cfg) (m : ℕ) (nodes : List Node) (I : Ideal) : Option Ideal := nodes.foldlM (fun I n => idealNode g m n I) I

theorem idealRun_append (g : Cfg) (m : ℕ) (a b : List Node) (I : Ideal) : idealRun g m (a ++ b) I = (idealRun g m a I).bind (idealRun g m b) := by
  unfold idealRun
  rw [List.foldlM_append]; rfl

/-- a state and what it should be -/
def Tracks (g : Cfg) (δ : ℝ) (p : List Char × QState) (e : QState × (ℕ → ℂ)) : Prop :=
  { p.2 with comps := [] } = e.1 ∧ nrm g.size (fun i => vec g p.2.comps i - e.2 i) ≤ δ

theorem Tracks.mono {g : Cfg} {δ δ' : ℝ} (h : δ ≤ δ') {p : List Char × QState} {e : QState × (ℕ → ℂ)} (hp : Tracks g δ p e) : Tracks g δ' p e := ⟨hp.1, hp.2.trans h⟩

theorem nrm_oneByOne {g : Cfg} (hg : g.Ok) {ns : List (Opt × List ℕ)} (hn : ∀ m ∈ ns, OnChannels g m ∧ m.1 ∈ Matrix.unitaryGroup (Fin 2) ℂ) (x y : ℕ → ℂ) :
    nrm g.size (fun i => oneByOne g ns x i - oneByOne g ns y i) = nrm g.size (fun i => x i - y i) := by
  have h1 : nrm g.size (oneByOne g ns (fun i => x i - y i)) = nrm g.size (fun i => x i - y i) := by
    unfold nrm; rw [oneByOne_norm hg ns _ hn]
  rw [← h1]
  refine nrm_congr fun i hi => ?_
  rw [oneByOne_linear g ns 1 (-1) x y (fun i => x i - y i) (fun i _ => by ring) i hi]; ring

/-- amplitudes of the result of optical nodes, also for a state without components -/
theorem optical_raw {g : Cfg} (hg : g.Ok) {thr : ℝ} {full : Bool} {n : Opt × List ℕ} {l : List (Opt × List ℕ)}
    (hn : ∀ m ∈ n :: l, OnChannels g m ∧ m.1 ∈ Matrix.unitaryGroup (Fin 2) ℂ) {c c' : Comps} (hw : WellFormed g c) (h : applyOptical g thr full (basisKeys g) n l c = some c') :
    ∀ i < g.size, vec g c' i = if ‖oneByOne g (n :: l) (vec g c) i‖ ^ 2 < thr then 0 else oneByOne g (n :: l) (vec g c) i := by
  by_cases hne : c = []
  · subst hne
    have hz : ∀ i < g.size, oneByOne g (n :: l) (vec g []) i = 0 := by
      have h0 : ∑ i ∈ Finset.range g.size, ‖oneByOne g (n :: l) (vec g []) i‖ ^ 2 = 0 := by
        rw [oneByOne_norm hg _ _ hn]; simp [vec_nil]
      intro i hi
      have := (Finset.sum_eq_zero_iff_of_nonneg (fun _ _ => by positivity)).1 h0 i (Finset.mem_range.2 hi)
      simpa using this
    have hf : full = true := by
      by_contra hf
      rw [applyOptical, if_neg hf] at h
      simp [photonNumber, Dict.keys] at h
    rw [applyOptical, if_pos hf] at h
    simp only [Option.bind_eq_bind, Option.bind_some] at h
    obtain ⟨x, hx, h⟩ := Option.bind_eq_some_iff.1 h
    have hx0 : x = fun _ => 0 := by simpa [toVector] using hx.symm
    have hv : applyReduced (fockNodes g (basisKeys g) .all n l) x = fun _ => 0 := by
      rw [hx0]
      simp only [applyReduced, SqArr.mulVec, mul_zero, Finset.sum_const_zero]
      have : ∀ l : List (ℕ × ℕ), l.foldl (fun (acc : ℕ → ℂ) p => Function.update acc p.1 0) (fun _ => 0) = fun _ => 0 := by
        intro l
        induction l with
        | nil => rfl
        | cons p l ih =>
          rw [List.foldl_cons, show Function.update (fun _ : ℕ => (0 : ℂ)) p.1 0 = fun _ => 0 from Function.update_eq_self p.1 (fun _ => (0 : ℂ))]
          exact ih
      exact this _
    rw [hv] at h
    intro i hi
    rw [vec_fromVector hg.1 h hi, hz i hi]
  · have h' := (applyOptical_eq hg thr full n l (hn n (by simp)).1 (fun m hm => (hn m (by simp [hm])).1) hw hne).symm.trans h
    intro i hi
    exact vec_fromVector hg.1 h' hi

theorem tracks_optical {g : Cfg} (hg : g.Ok) {thr : ℝ} (ht : 0 ≤ thr) {full : Bool} {n : Opt × List ℕ} {l : List (Opt × List ℕ)}
    (hn : ∀ m ∈ n :: l, OnChannels g m ∧ m.1 ∈ Matrix.unitaryGroup (Fin 2) ℂ) {δ : ℝ} {p : List Char × QState} {e : QState × (ℕ → ℂ)} (hw : WellFormed g p.2.comps) (hp : Tracks g δ p e)
    {comps : Comps} (h : applyOptical g thr full (basisKeys g) n l p.2.comps = some comps) (i : List Char) :
    Tracks g (δ + Real.sqrt (g.size * thr)) (i, { p.2 with comps := comps }) (e.1, oneByOne g (n :: l) e.2) := by
  refine ⟨hp.1, ?_⟩
  refine (nrm_triangle g.size _ (oneByOne g (n :: l) (vec g p.2.comps)) _).trans ?_
  rw [nrm_oneByOne hg hn, add_comm]
  refine add_le_add hp.2 (nrm_le_of ht fun i hi => ?_)
  show ‖vec g comps i - _‖ ≤ _
  rw [optical_raw hg hn hw h i hi]
  exact cut_close _

theorem forall₂_map_right {α β γ : Type*} {R : α → γ → Prop} {f : β → γ} {l : List α} {m : List β} (h : List.Forall₂ (fun a b => R a (f b)) l m) : List.Forall₂ R l (m.map f) := by
  induction h with
  | nil => exact .nil
  | cons h _ ih => exact .cons h ih

/-- two lists related to the same one -/
theorem forall₂_join {α β γ : Type*} {R : α → β → Prop} {S : α → γ → Prop} {T : β → γ → Prop} {l : List α} {m : List β} {o : List γ} (h : List.Forall₂ R l m) (h' : List.Forall₂ S l o)
    (hi : ∀ a ∈ l, ∀ b c, R a b → S a c → T b c) : List.Forall₂ T m o := by
  induction h generalizing o with
  | nil => cases h'; exact .nil
  | cons h1 _ ih =>
    cases h' with
    | cons h2 h3 => exact .cons (hi _ (by simp) _ _ h1 h2) (ih h3 (fun a ha => hi a (by simp [ha])))

variable {g : Cfg} {δ : ℝ} {coll out : Coll} {I : Ideal}

theorem track_optical {c : Circ} (hg : c.g.Ok) (ht : 0 ≤ c.thr) {n : Opt × List ℕ} {l : List (Opt × List ℕ)}
    (hn : ∀ m ∈ n :: l, OnChannels c.g m ∧ m.1 ∈ Matrix.unitaryGroup (Fin 2) ℂ) (hc : Sound c.g c.m coll) (hI : List.Forall₂ (Tracks c.g δ) coll I)
    (h : opticalColl c n l coll = some out) : List.Forall₂ (Tracks c.g (δ + Real.sqrt (c.g.size * c.thr))) out (idealTurn c.g (n :: l) I) := by
  obtain ⟨-, hf⟩ := (opticalColl_iff c n l coll hc.ids out).1 h
  refine forall₂_map_right (forall₂_join hf hI ?_)
  rintro p hp p' e ⟨comps, h1, rfl⟩ h2
  exact tracks_optical hg ht hn (hc.states p hp).wf h2 h1 _

theorem track_custom {c : Circ} (hg : c.g.Ok) (ht : 0 ≤ c.thr) {F : SqArr} (hF : IsUnitary F) (r : ℕ → ℕ → ℕ) (hc : Sound c.g c.m coll) (hI : List.Forall₂ (Tracks c.g δ) coll I)
    (h : customColl c F r coll = some out) : List.Forall₂ (Tracks c.g (δ + Real.sqrt (c.g.size * c.thr))) out (I.map (fun e => (e.1, F.mulVec e.2))) := by
  cases hcoll : coll with
  | nil =>
    subst hcoll
    cases hI
    obtain rfl : [] = out := Option.some.inj h
    exact .nil
  | cons p₀ coll₀ =>
  have hs : F.size = c.g.size := by
    by_contra hs
    rw [hcoll, customColl, List.foldlM_cons] at h
    obtain ⟨a, h1, -⟩ := Option.bind_eq_some_iff.1 h
    obtain ⟨q, -, h1⟩ := Option.bind_eq_some_iff.1 h1
    rw [if_pos hs] at h1
    cases h1
  obtain ⟨out', h1, h2⟩ := custom_states hg ht hs r (coll := coll) hc.states
  obtain rfl : out' = out := Option.some.inj (h1.symm.trans h)
  refine forall₂_map_right (forall₂_join h2 hI ?_)
  rintro p hp p' e ⟨h3, h4, h5, h6, x, hx, hv⟩ h7
  refine ⟨?_, ?_⟩
  · rw [← h7.1]
    simp only [h3, h4, h5, h6]
  · have hx' : ∀ i < c.g.size, x i = vec c.g p.2.comps i := by
      intro i hi
      have hval := c.g.valid_valuesFromIndex hg.1 i
      have := hx _ (c.g.nm i) hval ((isName_iff hval).2 rfl)
      rw [c.g.indexOf_valuesFromIndex hi] at this
      exact this
    refine (nrm_triangle c.g.size _ (F.mulVec (vec c.g p.2.comps)) _).trans ?_
    rw [add_comm]
    refine add_le_add ?_ (nrm_le_of ht fun i hi => ?_)
    · have e1 : nrm c.g.size (F.mulVec (fun i => vec c.g p.2.comps i - e.2 i)) = nrm c.g.size (fun i => vec c.g p.2.comps i - e.2 i) := by
        unfold nrm; rw [← hs, unitary_mulVec_norm hF]
      refine le_trans (le_of_eq ?_) h7.2
      rw [← e1]
      refine nrm_congr fun i _ => ?_
      simp only [SqArr.mulVec, mul_sub, Finset.sum_sub_distrib]
    · have hval := c.g.valid_valuesFromIndex hg.1 i
      have := hv _ (c.g.nm i) hval ((isName_iff hval).2 rfl)
      rw [c.g.indexOf_valuesFromIndex hi] at this
      have e2 : ∑ j ∈ Finset.range F.size, F.at_ i j * x j = F.mulVec (vec c.g p.2.comps) i := by
        unfold SqArr.mulVec
        refine Finset.sum_congr rfl fun j hj => ?_
        rw [hx' j (by rw [← hs]; exact Finset.mem_range.1 hj)]
      rw [e2] at this
      have e3 : vec c.g p'.2.comps i = if ‖F.mulVec (vec c.g p.2.comps) i‖ ^ 2 < c.thr then 0 else F.mulVec (vec c.g p.2.comps) i := by
        show (Dict.get? p'.2.comps (c.g.nm i)).elim 0 Comp.amp = _
        rw [this]
        split <;> rfl
      rw [e3]
      exact cut_close _

theorem track_classical {c : Circ} {f : List ℝ → List ℝ → List ℤ → Option (List ℝ)} {v : List ℝ} {a : List ℤ} (hI : List.Forall₂ (Tracks g δ) coll I)
    (h : classicalColl c f v a coll = some out) : ∃ J, idealNode g c.m (.classical f v a) I = some J ∧ List.Forall₂ (Tracks g δ) out J := by
  unfold classicalColl at h
  induction hI generalizing out with
  | nil => obtain rfl : [] = out := Option.some.inj h; exact ⟨[], rfl, .nil⟩
  | @cons p e coll I h1 h2 ih =>
    rw [List.mapM_cons] at h
    obtain ⟨p', h3, h4⟩ := Option.bind_eq_some_iff.1 h
    obtain ⟨tail, h5, h6⟩ := Option.bind_eq_some_iff.1 h4
    obtain rfl := Option.some.inj h6
    obtain ⟨J, h7, h8⟩ := ih h5
    obtain ⟨vals, h9, h10⟩ := Option.bind_eq_some_iff.1 h3
    by_cases hl : vals.length = c.m
    swap
    · rw [if_neg hl] at h10; cases h10
    rw [if_pos hl] at h10
    obtain rfl := Option.some.inj h10
    have hcl : e.1.classical = p.2.classical := by rw [← h1.1]
    refine ⟨({ e.1 with classical := vals }, e.2) :: J, ?_, .cons ⟨?_, h1.2⟩ h8⟩
    · show List.mapM _ (e :: I) = _
      have h7' : List.mapM (m := Option) _ I = _ := h7
      rw [List.mapM_cons, hcl, h9, h7']
      simp [hl]
    · rw [← h1.1]

theorem track_controlled {c : Circ} (hg : c.g.Ok) (ht : 0 ≤ c.thr) {vars : List Angle} {channels : List ℤ} {defaults : List (Angle × ℝ)} {tl : List ℕ} (htl : TwoChannels c.g tl)
    (hc : Sound c.g c.m coll) (hI : List.Forall₂ (Tracks c.g δ) coll I) (h : controlledColl c vars channels defaults tl coll = some out) :
    ∃ J, idealNode c.g c.m (.controlled vars channels defaults tl) I = some J ∧ List.Forall₂ (Tracks c.g (δ + Real.sqrt (c.g.size * c.thr))) out J := by
  unfold controlledColl at h
  simp only [Option.bind_eq_bind] at h
  by_cases hlen : vars.length ≠ channels.length
  · simp [hlen] at h
  rw [if_neg hlen] at h
  have key : ∀ (coll : Coll) (I : Ideal) (acc : Coll) (accI : Ideal) (tp : Option ℝ × Option ℝ) (r : Coll × (Option ℝ × Option ℝ)), (coll.map Prod.fst).Nodup →
      (∀ p ∈ coll, Measurable c.g c.m p.2) → (∀ p ∈ coll, p.1 ∉ acc.map Prod.fst) → List.Forall₂ (Tracks c.g δ) coll I →
      List.Forall₂ (Tracks c.g (δ + Real.sqrt (c.g.size * c.thr))) acc accI →
      coll.foldlM (fun (s : Coll × (Option ℝ × Option ℝ)) p =>
          ((vars.zip channels).mapM (m := Option) (fun vc => (pyGet p.2.classical vc.2).map (fun x => (vc.1, x)))).bind (fun read =>
          (setAngles read s.2).1.bind (fun th => (setAngles read s.2).2.bind (fun ph =>
          (opticalColl c (genericMatrix th ph, tl) [] [p]).bind (fun single =>
          some (single.foldl (fun (out : Coll) e => out.set e.1 e.2) s.1, setAngles read s.2)))))) (acc, tp) = some r →
      ∃ J, I.foldlM (fun (s : Ideal × (Option ℝ × Option ℝ)) e =>
        ((vars.zip channels).mapM (m := Option) (fun vc => (pyGet e.1.classical vc.2).map (fun x => (vc.1, x)))).bind (fun read =>
        (setAngles read s.2).1.bind (fun th => (setAngles read s.2).2.bind (fun ph =>
          some (s.1 ++ [(e.1, oneByOne c.g [(genericMatrix th ph, tl)] e.2)], setAngles read s.2))))) (accI, tp) = some J ∧
        List.Forall₂ (Tracks c.g (δ + Real.sqrt (c.g.size * c.thr))) r.1 J.1 := by
    intro coll
    induction coll with
    | nil =>
      intro I acc accI tp r _ _ _ hI hacc h
      cases hI
      obtain rfl := Option.some.inj h
      exact ⟨(accI, tp), rfl, hacc⟩
    | cons p coll ih =>
      intro I acc accI tp r hn hm hno hI hacc h
      cases hI with
      | @cons _ e _ I hpe hI =>
      rw [List.map_cons, List.nodup_cons] at hn
      rw [List.foldlM_cons, Option.bind_eq_bind] at h
      obtain ⟨s, h1, h2⟩ := Option.bind_eq_some_iff.1 h
      obtain ⟨read, hr, h1⟩ := Option.bind_eq_some_iff.1 h1
      obtain ⟨th, hth, h1⟩ := Option.bind_eq_some_iff.1 h1
      obtain ⟨ph, hph, h1⟩ := Option.bind_eq_some_iff.1 h1
      obtain ⟨single, hs, h1⟩ := Option.bind_eq_some_iff.1 h1
      obtain rfl := Option.some.inj h1
      obtain ⟨-, hf⟩ := (opticalColl_iff c _ [] [p] (by simp) single).1 hs
      cases hf with
      | cons h3 h4 =>
        cases h4
        obtain ⟨comps, hco, rfl⟩ := h3
        have hset := foldl_set_append acc (p.1, { p.2 with comps := comps }) (hno p (by simp))
        simp only at h2 hset
        rw [hset] at h2
        have hcl : e.1.classical = p.2.classical := by rw [← hpe.1]
        have hnew := tracks_optical hg ht (n := (genericMatrix th ph, tl)) (l := []) (by
          intro m' hm'
          obtain rfl : m' = (genericMatrix th ph, tl) := by simpa using hm'
          exact ⟨htl, (C17_wave_plate th ph 0).1⟩) (hm p (by simp)).wf hpe hco p.1
        obtain ⟨J, e1, e2⟩ := ih I _ (accI ++ [(e.1, oneByOne c.g [(genericMatrix th ph, tl)] e.2)]) _ r hn.2 (fun q hq => hm q (by simp [hq])) (by
          intro q hq
          rw [List.map_append, List.mem_append, not_or]
          refine ⟨hno q (by simp [hq]), ?_⟩
          simp only [List.map_cons, List.map_nil, List.mem_singleton]
          intro e
          exact hn.1 (e ▸ List.mem_map.2 ⟨q, hq, rfl⟩)) hI (List.rel_append hacc (.cons hnew .nil)) h2
        refine ⟨J, ?_, e2⟩
        rw [List.foldlM_cons, hcl, hr]
        simp only [Option.bind_eq_bind, Option.bind_some, hth, hph]
        exact e1
  obtain ⟨r, hr, e⟩ := Option.bind_eq_some_iff.1 h
  obtain rfl := Option.some.inj e
  obtain ⟨J, e1, e2⟩ := key coll I [] [] _ r hc.ids hc.states (by simp) hI .nil hr
  refine ⟨J.1, ?_, e2⟩
  show Option.map Prod.fst _ = _
  rw [e1]; rfl

theorem idealRun_optical (g : Cfg) (m : ℕ) (ns : List (Opt × List ℕ)) (I : Ideal) : idealRun g m (ns.map (fun n => Node.optical n.1 n.2)) I = some (idealTurn g ns I) := by
  induction ns generalizing I with
  | nil => show some I = some (I.map _); congr 1; simp [oneByOne]
  | cons n ns ih =>
    rw [List.map_cons]
    show (idealNode g m (.optical n.1 n.2) I).bind (idealRun g m _) = _
    show (some (idealTurn g [(n.1, n.2)] I)).bind (idealRun g m _) = _
    rw [Option.bind_some, ih]
    simp [idealTurn, oneByOne]

theorem _root_.Verif.Spec.Steady.lossless {m : ℕ} {n : Node} (h : Steady g n) : Lossless g m n := by
  cases n <;> first | exact h | exact h.elim

/-- evaluation of increasing node numbers follows the evaluation without threshold -/
theorem eval_tracks {env : ℕ → Circ} {rnd : ℕ → ℕ → Bool → ℕ → ℕ → ℕ} {k : ℕ} (hg : (env k).g.Ok) (ht : 0 ≤ (env k).thr) : ∀ (fuel : ℕ) (l : List ℕ) (δ : ℝ) (coll out : Coll) (I : Ideal),
    l.Pairwise (· < ·) → (∀ i ∈ l, ∀ n, (env k).nodes[i]? = some n → Steady (env k).g n) → Sound (env k).g (env k).m coll → List.Forall₂ (Tracks (env k).g δ) coll I →
    evalNodes env rnd fuel k l coll = some out →
    ∃ J, idealRun (env k).g (env k).m (l.filterMap (fun i => (env k).nodes[i]?)) I = some J ∧ List.Forall₂ (Tracks (env k).g (δ + l.length * Real.sqrt ((env k).g.size * (env k).thr))) out J := by
  intro fuel
  induction fuel with
  | zero => intro l δ coll out I _ _ _ _ h; cases h
  | succ fuel ih =>
    intro l δ coll out I hs hl hc hI h
    have hst : 0 ≤ Real.sqrt ((env k).g.size * (env k).thr) := Real.sqrt_nonneg _
    cases l with
    | nil =>
      obtain rfl := Option.some.inj h
      exact ⟨I, rfl, by simpa using hI⟩
    | cons i rest =>
      by_cases hv : ∀ j ∈ i :: rest, j < (env k).nodes.length
      swap
      · rw [evalNodes_invalid (by push Not at hv; exact hv)] at h; cases h
      by_cases ho : isOpt (env k) i = true
      · rw [evalNodes_sorted_run hs hv ho] at h
        obtain ⟨mid, h1, h2⟩ := Option.bind_eq_some_iff.1 h
        have happ : (i :: rest).takeWhile (isOpt (env k)) ++ (i :: rest).dropWhile (isOpt (env k)) = i :: rest := List.takeWhile_append_dropWhile
        have hne : 1 ≤ ((i :: rest).takeWhile (isOpt (env k))).length := by rw [List.takeWhile_cons, if_pos ho]; simp
        have hsub : ∀ j ∈ (i :: rest).takeWhile (isOpt (env k)), j ∈ i :: rest := fun j hj => (List.takeWhile_sublist _).subset hj
        have hmid : ∀ j ∈ (i :: rest).takeWhile (isOpt (env k)), isOpt (env k) j = true := fun j hj => List.mem_takeWhile_imp hj
        generalize (i :: rest).takeWhile (isOpt (env k)) = A at *
        generalize (i :: rest).dropWhile (isOpt (env k)) = B at *
        have hlen : (i :: rest).length = A.length + B.length := by rw [← happ, List.length_append]
        unfold runEff at h1
        split at h1
        · cases h1
        · rename_i n ns hns
          have hu : ∀ m ∈ n :: ns, OnChannels (env k).g m ∧ m.1 ∈ Matrix.unitaryGroup (Fin 2) ℂ := by
            intro m hm
            rw [← hns] at hm
            obtain ⟨j, hj, hjm⟩ := List.mem_filterMap.1 hm
            cases hnode : (env k).nodes[j]? with
            | none => rw [hnode] at hjm; cases hjm
            | some nd =>
              rw [hnode] at hjm
              cases nd with
              | optical M tl =>
                obtain rfl := Option.some.inj hjm
                obtain ⟨h3, h4⟩ := hl j (hsub j hj) _ hnode
                exact ⟨h4, h3⟩
              | _ => cases hjm
          have hA : A.filterMap (fun i => (env k).nodes[i]?) = (n :: ns).map (fun n => Node.optical n.1 n.2) := by
            rw [← hns]
            clear hns hu h1 happ hlen hne hsub h h2
            induction A with
            | nil => rfl
            | cons j A ihA =>
              have hj := hmid j (by simp)
              have ih' := ihA (fun j hj => hmid j (by simp [hj]))
              unfold opticalNodes at ih' ⊢
              cases hnode : (env k).nodes[j]? with
              | none => simp [isOpt, hnode] at hj
              | some nd =>
                cases nd with
                | optical M tl =>
                  rw [List.filterMap_cons_some hnode, List.filterMap_cons_some (b := (M, tl)) (by simp only [hnode]), List.map_cons, ih']
                | _ => simp [isOpt, hnode, Node.isOptical] at hj
          have hB : B.Pairwise (· < ·) := by rw [← happ] at hs; exact (List.pairwise_append.1 hs).2.1
          obtain ⟨J, h3, h4⟩ := ih B _ mid out _ hB (fun j hj => hl j (by rw [← happ]; simp [hj])) (conserves_optical hg ht hu hc h1).sound (track_optical hg ht hu hc hI h1) h2
          refine ⟨J, ?_, ?_⟩
          · rw [← happ, List.filterMap_append, idealRun_append, hA, idealRun_optical]
            exact h3
          · refine h4.imp fun _ _ => Tracks.mono ?_
            rw [hlen]
            push_cast
            have : (1 : ℝ) ≤ A.length := by exact_mod_cast hne
            nlinarith
      · have ho : isOpt (env k) i = false := by simpa using ho
        have hn := hl i (by simp)
        have hb : ∀ n, (env k).nodes[i]? ≠ some (.bridge n) := fun n h => hn _ h
        rw [evalNodes_sorted_node hs hv hb ho] at h
        obtain ⟨mid, h1, h2⟩ := Option.bind_eq_some_iff.1 h
        have next : ∀ (nd : Node) (J : Ideal), (env k).nodes[i]? = some nd → idealNode (env k).g (env k).m nd I = some J → Sound (env k).g (env k).m mid →
            List.Forall₂ (Tracks (env k).g (δ + Real.sqrt ((env k).g.size * (env k).thr))) mid J →
            ∃ J, idealRun (env k).g (env k).m ((i :: rest).filterMap (fun i => (env k).nodes[i]?)) I = some J ∧
              List.Forall₂ (Tracks (env k).g (δ + (i :: rest).length * Real.sqrt ((env k).g.size * (env k).thr))) out J := by
          intro nd J hnd hJ hso hT
          obtain ⟨J', h3, h4⟩ := ih rest _ mid out J (List.pairwise_cons.1 hs).2 (fun j hj => hl j (by simp [hj])) hso hT h2
          refine ⟨J', ?_, ?_⟩
          · rw [List.filterMap_cons_some hnd]
            show (idealNode _ _ nd I).bind (idealRun _ _ _) = _
            rw [hJ]; exact h3
          · refine h4.imp fun _ _ => Tracks.mono (le_of_eq ?_)
            simp only [List.length_cons]; push_cast; ring
        unfold nodeEff at h1
        split at h1
        · rename_i F hF
          exact next _ _ hF rfl (conserves_custom hg ht (hn _ hF) _ hc h1).sound (track_custom hg ht (hn _ hF) _ hc hI h1)
        · rename_i hF
          obtain ⟨J, h3, h4⟩ := track_classical hI h1
          exact next _ J hF h3 (conserves_classical hc h1).sound (h4.imp fun _ _ => Tracks.mono (by linarith))
        · rename_i hF; exact (hn _ hF).elim
        · rename_i hF
          obtain ⟨J, h3, h4⟩ := track_controlled hg ht (hn _ hF) hc hI h1
          exact next _ J hF h3 (conserves_controlled hg ht (hn _ hF) hc h1).sound h4
        · rename_i hF; exact (hn _ hF).elim
        · cases h1

end Verif
