/-
Photon numbers and pulse widths in a circuit; the norm of the input state. Lemmas for C104.
-/
import Verif.Lemmas.FockForm4
import Mathlib.Algebra.MvPolynomial.Supported
import Mathlib.Algebra.MvPolynomial.Degrees

namespace Verif.Fockform
open MvPolynomial Spec

theorem supported_aeval {σ τ : Type} {S : Set σ} {T : Set τ} (f : σ → MvPolynomial τ ℂ) (hf : ∀ m ∈ S, f m ∈ supported ℂ T) {P : MvPolynomial σ ℂ} (hP : P ∈ supported ℂ S) : aeval f P ∈ supported ℂ T := by
  rw [supported_eq_adjoin_X] at hP
  induction hP using Algebra.adjoin_induction with
  | mem x hx =>
    obtain ⟨m, hm, rfl⟩ := hx
    rw [aeval_X]
    exact hf m hm
  | algebraMap r => rw [AlgHom.commutes]; exact Subalgebra.algebraMap_mem _ _
  | add x y _ _ hx hy => rw [map_add]; exact Subalgebra.add_mem _ hx hy
  | mul x y _ _ hx hy => rw [map_mul]; exact Subalgebra.mul_mem _ hx hy

theorem supported_rename {σ τ : Type} {S : Set σ} {T : Set τ} (f : σ → τ) (hf : ∀ m ∈ S, f m ∈ T) {P : MvPolynomial σ ℂ} (hP : P ∈ supported ℂ S) : rename f P ∈ supported ℂ T := by
  have : rename f P = aeval (fun m => (X (f m) : MvPolynomial τ ℂ)) P := by
    rw [show rename f = (aeval (fun m => (X (f m) : MvPolynomial τ ℂ))) from algHom_ext (fun i => by rw [rename_X, aeval_X])]
  rw [this]
  exact supported_aeval _ (fun m hm => X_mem_supported.2 (hf m hm)) hP

theorem degree_aeval {σ τ : Type} (f : σ → MvPolynomial τ ℂ) (hf : ∀ m, (f m).totalDegree ≤ 1) (P : MvPolynomial σ ℂ) : (aeval f P).totalDegree ≤ P.totalDegree := by
  conv_lhs => rw [P.as_sum, map_sum]
  refine totalDegree_finsetSum_le (fun a ha => ?_)
  rw [aeval_monomial]
  refine (totalDegree_mul _ _).trans ?_
  rw [algebraMap_eq, totalDegree_C, zero_add]
  unfold Finsupp.prod
  refine (totalDegree_finsetProd _ _).trans (le_trans ?_ (le_totalDegree ha))
  refine Finset.sum_le_sum (fun m _ => (totalDegree_pow _ _).trans ?_)
  calc a m * (f m).totalDegree ≤ a m * 1 := Nat.mul_le_mul_left _ (hf m)
    _ = a m := mul_one _

theorem degree_gate (M : Opt) (h c : ℕ) (P : MvPolynomial Mode ℂ) : (gateSubst M h c P).totalDegree ≤ P.totalDegree := by
  refine degree_aeval _ (fun m => ?_) P
  have hx : ∀ (z : ℂ) (k : Mode), (C z * X k : MvPolynomial Mode ℂ).totalDegree ≤ 1 := fun z k => (totalDegree_mul _ _).trans (by rw [totalDegree_C, totalDegree_X])
  split_ifs
  · exact (totalDegree_add _ _).trans (max_le (hx _ _) (hx _ _))
  · exact (totalDegree_add _ _).trans (max_le (hx _ _) (hx _ _))
  · rw [totalDegree_X]

theorem supported_gate {S : Set Mode} (M : Opt) {h c : ℕ} (hS : ∀ m ∈ S, (h, m.2) ∈ S ∧ (c, m.2) ∈ S) {P : MvPolynomial Mode ℂ} (hP : P ∈ supported ℂ S) : gateSubst M h c P ∈ supported ℂ S := by
  refine supported_aeval _ (fun m hm => ?_) hP
  have hx : ∀ (z : ℂ) (k : Mode), k ∈ S → (C z * X k : MvPolynomial Mode ℂ) ∈ supported ℂ S := fun z k hk => by
    rw [C_mul']
    exact Subalgebra.smul_mem _ (X_mem_supported.2 hk) z
  split_ifs
  · exact Subalgebra.add_mem _ (hx _ _ (hS m hm).1) (hx _ _ (hS m hm).2)
  · exact Subalgebra.add_mem _ (hx _ _ (hS m hm).1) (hx _ _ (hS m hm).2)
  · exact X_mem_supported.2 hm

theorem optics_keep {S : Set Mode} {gates : List Gate} (hS : ∀ e ∈ gates, ∀ m ∈ S, (e.h, m.2) ∈ S ∧ (e.c, m.2) ∈ S) {P : MvPolynomial Mode ℂ} (hP : P ∈ supported ℂ S) :
    opticsSubst gates P ∈ supported ℂ S ∧ (opticsSubst gates P).totalDegree ≤ P.totalDegree := by
  unfold opticsSubst
  induction gates generalizing P with
  | nil => exact ⟨hP, le_rfl⟩
  | cons e gates ih =>
    rw [List.foldl_cons]
    obtain ⟨h1, h2⟩ := ih (fun x hx => hS x (List.mem_cons_of_mem _ hx)) (supported_gate e.M (hS e List.mem_cons_self) hP)
    exact ⟨h1, h2.trans (degree_gate _ _ _ _)⟩

/-- The elements of a circuit: the channels exist, pulse widths are set for all channels. -/
def TotalElement (g : Cfg) : Element → Prop
  | .optics gates => ∀ e ∈ gates, e.h < g.C ∧ e.c < g.C
  | .delay _ _ _ => True
  | .width chs _ => ∀ ch < g.C, ch ∈ chs

/-- The element sets the pulse width. -/
def SetsWidth : Element → Prop
  | .optics _ => False
  | _ => True

/-- Photons in existing channels. -/
def inChannels (g : Cfg) : Set Mode := {m | m.1 < g.C}

/-- Photons in existing channels with the pulse width `w`. -/
def withWidth (g : Cfg) (w : ℝ) : Set Mode := {m | m.1 < g.C ∧ ∃ d, m.2 = some ⟨d, w⟩}

theorem withWidth_sub (g : Cfg) (w : ℝ) : withWidth g w ⊆ inChannels g := fun _ h => h.1

theorem element_width {g : Cfg} {e : Element} (he : TotalElement g e) (cl : List ℝ) {P : MvPolynomial Mode ℂ} (hP : P ∈ supported ℂ (inChannels g)) :
    elementSubst cl P e ∈ supported ℂ (inChannels g) ∧ (elementSubst cl P e).totalDegree ≤ P.totalDegree ∧
      (((∃ w, P ∈ supported ℂ (withWidth g w)) ∨ SetsWidth e) → ∃ w, elementSubst cl P e ∈ supported ℂ (withWidth g w)) := by
  cases e with
  | optics gates =>
    obtain ⟨h1, h2⟩ := optics_keep (S := inChannels g) (fun x hx m _ => he x hx) hP
    refine ⟨h1, h2, ?_⟩
    rintro (⟨w, hw⟩ | h)
    · exact ⟨w, (optics_keep (S := withWidth g w) (fun x hx m hm => ⟨⟨(he x hx).1, hm.2⟩, ⟨(he x hx).2, hm.2⟩⟩) hw).1⟩
    · exact h.elim
  | delay chs d w =>
    have hm : ∀ m ∈ inChannels g, delayMode chs (delayFor cl d) w m ∈ withWidth g w := fun m hm => ⟨hm, _, rfl⟩
    have h : rename (delayMode chs (delayFor cl d) w) P ∈ supported ℂ (withWidth g w) := supported_rename _ hm hP
    exact ⟨supported_mono (withWidth_sub g w) h, totalDegree_rename_le _ _, fun _ => ⟨w, h⟩⟩
  | width chs w =>
    have hm : ∀ m ∈ inChannels g, widthMode chs w m ∈ withWidth g w := by
      intro m hm
      refine ⟨hm, delayOf m.2, ?_⟩
      unfold widthMode
      rw [if_pos (he _ hm)]
    have h : rename (widthMode chs w) P ∈ supported ℂ (withWidth g w) := supported_rename _ hm hP
    exact ⟨supported_mono (withWidth_sub g w) h, totalDegree_rename_le _ _, fun _ => ⟨w, h⟩⟩

theorem circuit_width {g : Cfg} {es : List Element} (he : ∀ e ∈ es, TotalElement g e) (cl : List ℝ) {P : MvPolynomial Mode ℂ} (hP : P ∈ supported ℂ (inChannels g)) :
    circuitSubst cl es P ∈ supported ℂ (inChannels g) ∧ (circuitSubst cl es P).totalDegree ≤ P.totalDegree ∧
      (((∃ w, P ∈ supported ℂ (withWidth g w)) ∨ ∃ e ∈ es, SetsWidth e) → ∃ w, circuitSubst cl es P ∈ supported ℂ (withWidth g w)) := by
  unfold circuitSubst
  induction es generalizing P with
  | nil =>
    refine ⟨hP, le_rfl, ?_⟩
    rintro (h | ⟨e, h, _⟩)
    · exact h
    · cases h
  | cons e es ih =>
    rw [List.foldl_cons]
    obtain ⟨h1, h2, h3⟩ := element_width (he e List.mem_cons_self) cl hP
    obtain ⟨k1, k2, k3⟩ := ih (fun x hx => he x (List.mem_cons_of_mem _ hx)) h1
    refine ⟨k1, k2.trans h2, ?_⟩
    rintro (h | ⟨e', h, h'⟩)
    · exact k3 (.inl (h3 (.inl h)))
    · rcases List.mem_cons.1 h with rfl | h
      · exact k3 (.inl (h3 (.inr h')))
      · exact k3 (.inr ⟨e', h, h'⟩)

theorem mem_photonList {a : Mode →₀ ℕ} {m : Mode} : m ∈ photonList a ↔ m ∈ a.support := by
  unfold photonList
  rw [Multiset.mem_toList, Finsupp.mem_toMultiset]

theorem length_photonList (a : Mode →₀ ℕ) : (photonList a).length = a.sum (fun _ n => n) := by
  unfold photonList
  rw [Multiset.length_toList, Finsupp.card_toMultiset]
  rfl

theorem supported_mem {S : Set Mode} {P : MvPolynomial Mode ℂ} (hP : P ∈ supported ℂ S) {a : Mode →₀ ℕ} (ha : a ∈ P.support) {m : Mode} (hm : m ∈ photonList a) : m ∈ S :=
  mem_supported.1 hP ((mem_vars_iff_mem_support m).2 ⟨a, ha, mem_photonList.1 hm⟩)

theorem valid_numbers {g : Cfg} {P : MvPolynomial Mode ℂ} (hP : P ∈ supported ℂ (inChannels g)) (hd : P.totalDegree < g.L) {a : Mode →₀ ℕ} (ha : a ∈ P.support) : ∃ v, Valid g v ∧ HasNumbers v a := by
  refine ⟨(List.range g.C).map (fun ch => Finsupp.mapDomain Prod.fst a ch), ⟨by simp, ?_⟩, fun ch => ?_⟩
  · intro n hn
    obtain ⟨ch, _, rfl⟩ := List.mem_map.1 hn
    rw [numbers_photonList]
    refine lt_of_le_of_lt List.count_le_length ?_
    rw [List.length_map, length_photonList]
    exact lt_of_le_of_lt (le_totalDegree ha) hd
  · by_cases h : ch < g.C
    · rw [List.getD_eq_getElem _ _ (by simpa using h)]
      simp
    · rw [List.getD_eq_default _ _ (by simpa using h), numbers_photonList, List.count_eq_zero]
      intro hm
      obtain ⟨m, hm', rfl⟩ := List.mem_map.1 hm
      exact h (supported_mem hP ha hm')

/-! ### The input state -/

theorem ket_mono (info : Option PInfo) (v : Vals) : ketPoly info v = C (1 / (bosonOf v : ℂ)) * monomial (monoL ((photonChannels v).map (fun ch => (ch, info)))) 1 := by
  rw [ketPoly_eq, ← prod_X, List.map_map, ← photonChannels_prod]
  rfl

theorem ket_norm (κ : ℝ) {g : Cfg} {v w : Vals} (hv : Valid g v) (hw : Valid g w) : form (ker κ) (ketPoly none v) (ketPoly none w) = if v = w then 1 else 0 := by
  rw [ket_mono, ket_mono, form_C_left, form_C_right]
  by_cases h : v = w
  · subst h
    have hp : PhotonsIn v (photonList (monoL ((photonChannels v).map (fun ch => (ch, (none : Option PInfo)))))) := by
      unfold PhotonsIn
      refine ((photonList_monoL _).map Prod.fst).trans ?_
      rw [List.map_map]
      have : (photonChannels v).map (Prod.fst ∘ fun ch => (ch, (none : Option PInfo))) = photonChannels v := by
        simp [Function.comp_def]
      rw [this]
    have hn : ∀ p ∈ photonList (monoL ((photonChannels v).map (fun ch => (ch, (none : Option PInfo))))), p.2 = none := by
      intro p hp
      obtain ⟨_, _, rfl⟩ := List.mem_map.1 ((photonList_monoL _).mem_iff.1 hp)
      rfl
    rw [if_pos rfl, form_mono rfl, overlapPermanent_identical hp hp]
    · have := (bosonOf_pos v).ne'
      have h2 : (bosonOf v : ℂ) ≠ 0 := by exact_mod_cast this
      push_cast
      field_simp
    · intro p hp q hq
      rw [hn p hp, hn q hq]
      rfl
    · intro p hp q hq
      unfold ker gauss photonInner
      rw [hn p hp, hn q hq]
      by_cases e : p.1 = q.1
      · rw [if_pos e, if_pos e]
        simp [photonOverlap]
      · rw [if_neg e, if_neg e]
  · rw [if_neg h, form_numbers, mul_zero, mul_zero]
    intro e
    apply h
    have hc : ∀ u : Vals, ∀ ch, Finsupp.mapDomain Prod.fst (monoL ((photonChannels u).map (fun ch => (ch, (none : Option PInfo))))) ch = u.getD ch 0 := by
      intro u ch
      rw [monoL_numbers, List.map_map]
      have : (photonChannels u).map (Prod.fst ∘ fun ch => (ch, (none : Option PInfo))) = photonChannels u := by
        simp [Function.comp_def]
      rw [this, count_channels]
    refine valid_ext hv hw (fun i _ => ?_)
    rw [← hc, ← hc, e]

theorem sq_state {g : Cfg} (hL : 1 ≤ g.L) (κ : ℝ) (q : QState) (h : WellFormed g q.comps) : sq (ker κ) (statePoly g ⟨q, none⟩) = (totalProb q.comps : ℂ) := by
  rw [statePoly_vec hL _ h, totalProb_eq hL h]
  unfold vecPoly sq
  rw [form_sum_right]
  push_cast
  refine Finset.sum_congr rfl (fun k hk => ?_)
  rw [form_C_right, conj_sum, form_sum_left, Finset.sum_eq_single k]
  · have hconj : conj (ketPoly none (g.valuesFromIndex k)) = ketPoly none (g.valuesFromIndex k) := by
      rw [ket_mono, conj_mul, conj_C, conj_monomial]
      simp
    rw [conj_mul, conj_C, form_C_left, hconj, ket_norm κ (g.valid_valuesFromIndex hL k) (g.valid_valuesFromIndex hL k), if_pos rfl, mul_one, Complex.mul_conj']
  · intro j hj hjk
    have hconj : conj (ketPoly none (g.valuesFromIndex j)) = ketPoly none (g.valuesFromIndex j) := by
      rw [ket_mono, conj_mul, conj_C, conj_monomial]
      simp
    rw [conj_mul, conj_C, form_C_left, hconj, ket_norm κ (g.valid_valuesFromIndex hL j) (g.valid_valuesFromIndex hL k), if_neg, mul_zero]
    intro e
    apply hjk
    rw [← g.indexOf_valuesFromIndex (Finset.mem_range.1 hj), e, g.indexOf_valuesFromIndex (Finset.mem_range.1 hk)]
  · intro h; exact absurd hk h

theorem state_few {g : Cfg} (hg : g.Ok) (q : QState) (h : WellFormed g q.comps) (hf : ∀ p ∈ q.comps, ∀ v, Valid g v → IsName g v p.1 → v.sum < g.L) (info : Option PInfo) :
    statePoly g ⟨q, info⟩ ∈ supported ℂ (inChannels g) ∧ (statePoly g ⟨q, info⟩).totalDegree < g.L := by
  have key : ∀ p ∈ q.comps, (C p.2.amp * ((g.parse p.1).map (ketPoly info)).getD 0) ∈ supported ℂ (inChannels g) ∧ (C p.2.amp * ((g.parse p.1).map (ketPoly info)).getD 0).totalDegree < g.L := by
    intro p hp
    obtain ⟨v, hv, e⟩ := h.named' hp
    have hn : IsName g v p.1 := (isName_iff hv).2 e
    rw [e, g.parse_stdName hv.2, Option.map_some, Option.getD_some, ket_mono, ← prod_X]
    have hX : ((photonChannels v).map (fun ch => (ch, info)) |>.map (fun p => (X p : MvPolynomial Mode ℂ))).prod ∈ supported ℂ (inChannels g) := by
      refine Subalgebra.list_prod_mem _ (fun x hx => ?_)
      obtain ⟨m, hm, rfl⟩ := List.mem_map.1 hx
      obtain ⟨ch, hch, rfl⟩ := List.mem_map.1 hm
      refine X_mem_supported.2 ?_
      have := (mem_photonChannels hch).1
      rw [hv.1] at this
      exact this
    have hc : ∀ z : ℂ, (C z : MvPolynomial Mode ℂ) ∈ supported ℂ (inChannels g) := fun z => Subalgebra.algebraMap_mem _ z
    refine ⟨Subalgebra.mul_mem _ (hc _) (Subalgebra.mul_mem _ (hc _) hX), ?_⟩
    refine lt_of_le_of_lt ((totalDegree_mul _ _).trans (Nat.add_le_add_left (totalDegree_mul _ _) _)) ?_
    rw [totalDegree_C, totalDegree_C, zero_add, zero_add]
    refine lt_of_le_of_lt (totalDegree_list_prod _) (lt_of_le_of_lt ?_ (hf p hp v hv hn))
    rw [List.map_map, List.map_map]
    refine le_of_eq ?_
    rw [← photonChannels_length v]
    induction photonChannels v with
    | nil => rfl
    | cons x l ih => rw [List.map_cons, List.sum_cons, ih, List.length_cons, add_comm]; simp [totalDegree_X]
  unfold statePoly
  simp only
  generalize q.comps = l at key
  clear h hf
  induction l with
  | nil =>
    refine ⟨by simp, ?_⟩
    simp
    exact hg.1
  | cons p l ih =>
    obtain ⟨h1, h2⟩ := ih (fun p hp => key p (List.mem_cons_of_mem _ hp))
    obtain ⟨h3, h4⟩ := key p List.mem_cons_self
    rw [List.map_cons, List.sum_cons]
    exact ⟨Subalgebra.add_mem _ h3 h1, lt_of_le_of_lt (totalDegree_add _ _) (max_lt h4 h2)⟩

/-! ### The sum over the outcomes -/

theorem valid_finset (g : Cfg) (hL : 1 ≤ g.L) : ∃ V : Finset Vals, ∀ v, v ∈ V ↔ Valid g v := by
  classical
  refine ⟨(Finset.range g.size).image g.valuesFromIndex, fun v => ?_⟩
  rw [Finset.mem_image]
  constructor
  · rintro ⟨k, _, rfl⟩
    exact g.valid_valuesFromIndex hL k
  · intro hv
    exact ⟨g.indexOf v, Finset.mem_range.2 (g.indexOf_lt hv), g.valuesFromIndex_indexOf hv⟩

theorem sum_outcomes {g : Cfg} {V : Finset Vals} (hV : ∀ v, v ∈ V ↔ Valid g v) (opt : List ℕ) (P : MvPolynomial Mode ℂ) {outs : List (List ℕ)} (hn : outs.Nodup) (h0 : ∀ o, o ∉ outs → bornOutcome g opt o P = 0) :
    (outs.map (fun o => bornOutcome g opt o P)).sum = ∑ v ∈ V, bornProb v P := by
  classical
  have hb : ∀ o, bornOutcome g opt o P = ∑ v ∈ V.filter (fun v => opt.map (fun n => v.getD n 0) = o), bornProb v P := by
    intro o
    unfold bornOutcome
    rw [finsum_cond_eq_sum_of_cond_iff (t := V.filter (fun v => opt.map (fun n => v.getD n 0) = o)) (f := fun v => bornProb v P) (p := fun v => Valid g v ∧ opt.map (fun n => v.getD n 0) = o)]
    intro v _
    rw [Finset.mem_filter, hV]
  rw [← List.sum_toFinset _ hn, ← Finset.sum_fiberwise_of_maps_to (s := V) (t := V.image (fun v => opt.map (fun n => v.getD n 0)) ∪ outs.toFinset) (g := fun v => opt.map (fun n => v.getD n 0))
    (fun v hv => Finset.mem_union_left _ (Finset.mem_image_of_mem _ hv))]
  rw [Finset.sum_congr rfl (fun o _ => (hb o).symm)]
  refine Finset.sum_subset Finset.subset_union_right (fun o _ ho => h0 o (fun h => ho (List.mem_toFinset.2 h)))

/-- The outcomes of a circuit: the Born probabilities of all photon numbers add up to 1. -/
theorem total_one {g : Cfg} (hg : g.Ok) {q : QState} (h : WellFormed g q.comps) (hn : totalProb q.comps = 1) (hf : ∀ p ∈ q.comps, ∀ v, Valid g v → IsName g v p.1 → v.sum < g.L) (cl : List ℝ) {es : List Element}
    (h1 : ∀ e ∈ es, LosslessElement e) (h2 : ∀ e ∈ es, TotalElement g e) (h3 : ∃ e ∈ es, SetsWidth e) {V : Finset Vals} (hV : ∀ v, v ∈ V ↔ Valid g v) :
    ∑ v ∈ V, bornProb v (circuitSubst cl es (statePoly g ⟨q, none⟩)) = 1 := by
  obtain ⟨s1, s2⟩ := state_few hg q h hf none
  obtain ⟨k1, k2, k3⟩ := circuit_width h2 cl s1
  obtain ⟨w, hw⟩ := k3 (.inr h3)
  have hW : AllWidth w (circuitSubst cl es (statePoly g ⟨q, none⟩)) := fun a ha m hm => (supported_mem hw ha hm).2
  have hs := sq_sum_parts (kappa w) (circuitSubst cl es (statePoly g ⟨q, none⟩)) V (fun a ha => by
    obtain ⟨v, hv, hn⟩ := valid_numbers k1 (lt_of_le_of_lt k2 s2) ha
    exact ⟨v, (hV v).2 hv, hn⟩) (fun v hv v' hv' a ha ha' => valid_ext ((hV v).1 hv) ((hV v').1 hv') (fun i _ => by rw [← ha i, ← ha' i]))
  rw [sq_circuit _ _ h1, sq_state hg.1 _ _ h, hn, Finset.sum_congr rfl (fun v _ => (bornProb_real hW v).symm)] at hs
  exact_mod_cast hs.symm

end Verif.Fockform
