/-
Property C138: the threshold is a small perturbation.
-/
import Verif.Lemmas.Perturb
import Verif.Lemmas.Locality
import Verif.Props.Compound

namespace Verif.Props
open Verif Spec

/-- sums over any names are bounded by the sum over the basis -/
theorem sum_names_le {g : Cfg} (hL : 1 ≤ g.L) (f : Name → ℂ) (hf : ∀ s, f s ≠ 0 → ∃ i < g.size, g.nm i = s) (S : Finset Name) :
    ∑ s ∈ S, ‖f s‖ ^ 2 ≤ ∑ i ∈ Finset.range g.size, ‖f (g.nm i)‖ ^ 2 := by
  classical
  have e : ∑ i ∈ Finset.range g.size, ‖f (g.nm i)‖ ^ 2 = ∑ s ∈ (Finset.range g.size).image g.nm, ‖f s‖ ^ 2 := by
    rw [Finset.sum_image]
    intro i hi j hj h
    exact nm_inj hL (Finset.mem_range.1 hi) (Finset.mem_range.1 hj) h
  rw [e, ← Finset.sum_filter_add_sum_filter_not S (fun s => f s ≠ 0)]
  have h0 : ∑ s ∈ S.filter (fun s => ¬ f s ≠ 0), ‖f s‖ ^ 2 = 0 := by
    refine Finset.sum_eq_zero fun s hs => ?_
    have := (Finset.mem_filter.1 hs).2
    rw [not_not] at this
    rw [this]; simp
  rw [h0, add_zero]
  refine Finset.sum_le_sum_of_subset_of_nonneg (fun s hs => ?_) (fun _ _ _ => by positivity)
  obtain ⟨i, hi, rfl⟩ := hf s (Finset.mem_filter.1 hs).2
  exact Finset.mem_image_of_mem _ (Finset.mem_range.2 hi)

theorem ampOf_named {g : Cfg} {c : Comps} (h : WellFormed g c) {s : Name} (hs : ampOf c s ≠ 0) : ∃ i < g.size, g.nm i = s := by
  unfold ampOf at hs
  cases hg : Dict.get? c s with
  | none => rw [hg] at hs; exact absurd rfl hs
  | some a =>
    have hmem := Dict.get?_mem hg
    obtain ⟨v, hv, hn⟩ := h.named _ hmem
    exact ⟨g.indexOf v, g.indexOf_lt hv, by rw [nm_indexOf hv]; exact ((isName_iff hv).1 hn).symm⟩

/-- calls follow the evaluation without threshold -/
theorem calls_track {g : Cfg} (hg : g.Ok) {m : ℕ} {rnd : ℕ → ℕ → ℕ → Bool → ℕ → ℕ → ℕ} : ∀ (cs : List Circ) (δ : ℝ) (coll out : Coll) (I : Ideal),
    (∀ c ∈ cs, c.g = g ∧ c.m = m ∧ 0 ≤ c.thr ∧ ∀ n ∈ c.nodes, Steady g n) → Sound g m coll → List.Forall₂ (Tracks g δ) coll I → inCalls rnd cs coll = some out →
    Sound g m out ∧ ∃ J, idealRun g m (cs.flatMap Circ.nodes) I = some J ∧ List.Forall₂ (Tracks g (δ + cutError cs)) out J := by
  intro cs
  induction cs with
  | nil =>
    intro δ coll out I _ hc hI h
    obtain rfl := Option.some.inj h
    exact ⟨hc, I, rfl, by simpa [cutError] using hI⟩
  | cons c cs ih =>
    intro δ coll out I hcs hc hI h
    obtain ⟨mid, h1, h2⟩ := Option.bind_eq_some_iff.1 h
    obtain ⟨rfl, rfl, ht, hn⟩ := hcs c (by simp)
    have hst : ∀ i ∈ List.range c.nodes.length, ∀ n, c.nodes[i]? = some n → Steady c.g n := fun i _ n hi => hn n (List.mem_of_getElem? hi)
    have hso := (eval_conserves (env := fun _ => c) (k := 0) hg ht _ _ coll mid (fun i hi n hin => (hst i hi n hin).lossless) hc h1).sound
    obtain ⟨J, h3, h4⟩ := eval_tracks (env := fun _ => c) (k := 0) hg ht _ _ δ coll mid I List.pairwise_lt_range hst hc hI h1
    have e : (List.range c.nodes.length).filterMap (fun i => c.nodes[i]?) = c.nodes := by
      refine List.ext_getElem? fun j => ?_
      have : ∀ n, (List.range n).filterMap (fun i => c.nodes[i]?) = c.nodes.take n := by
        intro n
        induction n with
        | zero => simp
        | succ n ih => rw [List.range_succ, List.filterMap_append, ih, List.take_add_one]; cases hcn : c.nodes[n]? <;> simp [hcn]
      rw [this, List.take_length]
    rw [show (List.range c.nodes.length).filterMap (fun i => ((fun _ => c) 0 : Circ).nodes[i]?) = c.nodes from e] at h3
    obtain ⟨hso', K, h5, h6⟩ := ih _ mid out J (fun c' hc' => hcs c' (by simp [hc'])) hso h4 h2
    refine ⟨hso', K, ?_, ?_⟩
    · rw [List.flatMap_cons, idealRun_append]
      rw [show idealRun c.g c.m c.nodes I = some J from h3]
      exact h5
    · refine h6.imp fun _ _ => Tracks.mono (le_of_eq ?_)
      simp only [cutError, List.map_cons, List.sum_cons, List.length_range]
      rw [show c.g.size = c.g.L ^ c.g.C from rfl]
      ring

theorem cutError_nonneg (cs : List Circ) : 0 ≤ cutError cs := by
  unfold cutError
  refine List.sum_nonneg fun x hx => ?_
  obtain ⟨c, -, rfl⟩ := List.mem_map.1 hx
  positivity

theorem start_tracks (g : Cfg) (coll : Coll) : List.Forall₂ (Tracks g 0) coll (coll.map (fun p => ({ p.2 with comps := [] }, vec g p.2.comps))) := by
  induction coll with
  | nil => exact .nil
  | cons p coll ih => exact .cons ⟨rfl, by simp [nrm]⟩ ih

theorem tracks_pair {g : Cfg} {cs cs' : List Circ} {out out' : Coll} {J : Ideal} (h : List.Forall₂ (Tracks g (0 + cutError cs)) out J) (h' : List.Forall₂ (Tracks g (0 + cutError cs')) out' J) :
    List.Forall₂ (fun p p' => ({ p.2 with comps := [] } : QState) = { p'.2 with comps := [] } ∧ nrm g.size (fun i => vec g p.2.comps i - vec g p'.2.comps i) ≤ cutError cs + cutError cs') out out' := by
  refine forall₂_join (R := fun e p => Tracks g (0 + cutError cs) p e) (S := fun e p => Tracks g (0 + cutError cs') p e) h.flip h'.flip ?_
  rintro e _ p p' h1 h2
  refine ⟨h1.1.trans h2.1.symm, (nrm_triangle g.size _ e.2 _).trans ?_⟩
  rw [nrm_symm g.size e.2]
  have := h1.2
  have := h2.2
  linarith

theorem forall₂_mem_congr' {α β : Type*} {R S : α → β → Prop} {l : List α} {m : List β} (h : List.Forall₂ R l m) (hi : ∀ a ∈ l, ∀ b ∈ m, R a b → S a b) : List.Forall₂ S l m := by
  induction h with
  | nil => exact .nil
  | cons h1 _ ih => exact .cons (hi _ (by simp) _ (by simp) h1) (ih fun a ha b hb => hi a (by simp [ha]) b (by simp [hb]))

theorem calls_pair {g : Cfg} (hg : g.Ok) {m : ℕ} {rnd rnd' : ℕ → ℕ → ℕ → Bool → ℕ → ℕ → ℕ} {cs cs' : List Circ}
    (hcs : ∀ c ∈ cs ++ cs', c.g = g ∧ c.m = m ∧ 0 ≤ c.thr ∧ ∀ n ∈ c.nodes, Steady g n) (hsame : cs.flatMap Circ.nodes = cs'.flatMap Circ.nodes) {coll out out' : Coll} (hc : Sound g m coll)
    (h : inCalls rnd cs coll = some out) (h' : inCalls rnd' cs' coll = some out') :
    Sound g m out ∧ Sound g m out' ∧ List.Forall₂ (fun p p' => ({ p.2 with comps := [] } : QState) = { p'.2 with comps := [] } ∧ nrm g.size (fun i => vec g p.2.comps i - vec g p'.2.comps i) ≤ cutError cs + cutError cs') out out' := by
  obtain ⟨s1, J, h1, h2⟩ := calls_track hg cs 0 coll out _ (fun c hc' => hcs c (by simp [hc'])) hc (start_tracks g coll) h
  obtain ⟨s2, J', h3, h4⟩ := calls_track hg cs' 0 coll out' _ (fun c hc' => hcs c (by simp [hc'])) hc (start_tracks g coll) h'
  rw [← hsame, h1] at h3
  obtain rfl := Option.some.inj h3
  exact ⟨s1, s2, tracks_pair h2 h4⟩

/-- **C138** Evaluate the same nodes, divided over calls of `evaluate_circuit` in two ways, with any thresholds and either setting of `use_full_fock_matrix`, from the same collection. The nodes are unitary
optical nodes, unitary Fock matrices, classical functions and controlled wave plates. Both give states in the same order with the same history, cumulative probability and classical values, and the
amplitudes differ, in the Euclidean norm, by at most the sum over all calls of the number of nodes times the root of `L^C * threshold`. -/
theorem C138_close (g : Cfg) (hg : g.Ok) (m : ℕ) (rnd rnd' : ℕ → ℕ → ℕ → Bool → ℕ → ℕ → ℕ) (cs cs' : List Circ)
    (hcs : ∀ c ∈ cs ++ cs', c.g = g ∧ c.m = m ∧ 0 ≤ c.thr ∧ ∀ n ∈ c.nodes, Steady g n) (hsame : cs.flatMap Circ.nodes = cs'.flatMap Circ.nodes) (coll out out' : Coll) (hc : Sound g m coll)
    (h : inCalls rnd cs coll = some out) (h' : inCalls rnd' cs' coll = some out') :
    List.Forall₂ (fun p p' => CloseStates (cutError cs + cutError cs') p.2 p'.2) out out' := by
  obtain ⟨s1, s2, hf⟩ := calls_pair hg hcs hsame hc h h'
  refine (forall₂_mem_congr' hf (fun p hp p' hp' h => ?_))
  obtain ⟨he, hd⟩ := h
  have e := he
  simp only [QState.mk.injEq] at e
  refine ⟨e.1, e.2.1, e.2.2.2.1, e.2.2.2.2, fun S => ?_⟩
  refine (sum_names_le hg.1 (fun s => ampOf p.2.comps s - ampOf p'.2.comps s) (fun s hs => ?_) S).trans ?_
  · by_cases h0 : ampOf p.2.comps s = 0
    · exact ampOf_named (s2.states p' hp').wf (fun h1 => hs (by simp [h0, h1]))
    · exact ampOf_named (s1.states p hp).wf h0
  · rw [← nrm_sq g.size (fun i => ampOf p.2.comps (g.nm i) - ampOf p'.2.comps (g.nm i))]
    exact pow_le_pow_left₀ (nrm_nonneg _ _) hd 2

/-- **C138** The probability to find any photon numbers in any channels differs by at most twice as much. -/
theorem C138_outcomes (g : Cfg) (hg : g.Ok) (m : ℕ) (rnd rnd' : ℕ → ℕ → ℕ → Bool → ℕ → ℕ → ℕ) (cs cs' : List Circ)
    (hcs : ∀ c ∈ cs ++ cs', c.g = g ∧ c.m = m ∧ 0 ≤ c.thr ∧ ∀ n ∈ c.nodes, Steady g n) (hsame : cs.flatMap Circ.nodes = cs'.flatMap Circ.nodes) (coll out out' : Coll) (hc : Sound g m coll)
    (h : inCalls rnd cs coll = some out) (h' : inCalls rnd' cs' coll = some out') (opt o : List ℕ) :
    List.Forall₂ (fun p p' => |outcomeProb g opt p.2.comps o - outcomeProb g opt p'.2.comps o| ≤ 2 * (cutError cs + cutError cs')) out out' := by
  obtain ⟨s1, s2, hf⟩ := calls_pair hg hcs hsame hc h h'
  refine (forall₂_mem_congr' hf (fun p hp p' hp' h => ?_))
  obtain ⟨-, hd⟩ := h
  rw [outcomeProb_vec hg.1 (s1.states p hp).wf, outcomeProb_vec hg.1 (s2.states p' hp').wf, ← nrm_sq, ← nrm_sq]
  set x := vec g p.2.comps
  set y := vec g p'.2.comps
  have hpart : ∀ z : ℕ → ℂ, nrm g.size (part g opt o z) ≤ nrm g.size z := by
    intro z
    refine Real.sqrt_le_sqrt (Finset.sum_le_sum fun i _ => ?_)
    unfold part
    split <;> simp
  have hone : ∀ q : QState, Measurable g m q → nrm g.size (vec g q.comps) ≤ 1 := by
    intro q hq
    have : nrm g.size (vec g q.comps) ^ 2 ≤ 1 := by rw [nrm_sq, ← totalProb_eq hg.1 hq.wf]; exact hq.total
    nlinarith [nrm_nonneg g.size (vec g q.comps)]
  have hx := (hpart x).trans (hone _ (s1.states p hp))
  have hy := (hpart y).trans (hone _ (s2.states p' hp'))
  have hsub : ∀ a b : ℕ → ℂ, nrm g.size (part g opt o a) - nrm g.size (part g opt o b) ≤ nrm g.size (fun i => a i - b i) := by
    intro a b
    have e : nrm g.size (part g opt o (fun i => a i - b i)) = nrm g.size (fun i => part g opt o a i - part g opt o b i) := by
      refine nrm_congr fun i _ => ?_
      unfold part
      split <;> simp
    have := nrm_triangle g.size (part g opt o a) (part g opt o b) (fun _ => 0)
    simp only [sub_zero] at this
    have := hpart (fun i => a i - b i)
    rw [e] at this
    linarith
  have h1 := hsub x y
  have h2 := hsub y x
  rw [nrm_symm g.size y x] at h2
  have hd0 := nrm_nonneg g.size (fun i => x i - y i)
  have hx0 := nrm_nonneg g.size (part g opt o x)
  have hy0 := nrm_nonneg g.size (part g opt o y)
  rw [abs_le]
  constructor <;> nlinarith

/-- **C138** The results converge: there are amplitudes that depend only on the nodes and on the collection, from which the amplitudes of every evaluation, in any number of calls and with any thresholds,
differ in the Euclidean norm by at most the sum over the calls of the number of nodes times the root of `L^C * threshold`. -/
theorem C138_limit (g : Cfg) (hg : g.Ok) (m : ℕ) (nodes : List Node) (hn : ∀ n ∈ nodes, Steady g n) (coll : Coll) (hc : Sound g m coll) :
    ∃ A : ℕ → Name → ℂ, ∀ (rnd : ℕ → ℕ → ℕ → Bool → ℕ → ℕ → ℕ) (cs : List Circ) (out : Coll), (∀ c ∈ cs, c.g = g ∧ c.m = m ∧ 0 ≤ c.thr) → cs.flatMap Circ.nodes = nodes →
      inCalls rnd cs coll = some out → ∀ j p, out[j]? = some p → ∀ S : Finset Name, ∑ s ∈ S, ‖ampOf p.2.comps s - A j s‖ ^ 2 ≤ cutError cs ^ 2 := by
  classical
  refine ⟨fun j s => if ∃ i < g.size, g.nm i = s then
    ((((idealRun g m nodes (coll.map (fun p => ({ p.2 with comps := [] }, vec g p.2.comps)))).getD [])[j]?).map (fun e => e.2 (if h : ∃ i < g.size, g.nm i = s then h.choose else 0))).getD 0 else 0, ?_⟩
  rintro rnd cs out hcs rfl h j p hj S
  obtain ⟨s1, J, h1, h2⟩ := calls_track hg cs 0 coll out _ (fun c hc' => ⟨(hcs c hc').1, (hcs c hc').2.1, (hcs c hc').2.2, fun n hn' => hn n (List.mem_flatMap.2 ⟨c, hc', hn'⟩)⟩) hc (start_tracks g coll) h
  rw [h1]
  simp only [Option.getD_some]
  have hlen := h2.length_eq
  have hjl : j < out.length := (List.getElem?_eq_some_iff.1 hj).1
  have hpj : out[j] = p := (List.getElem?_eq_some_iff.1 hj).2
  have hT := List.forall₂_iff_get.1 h2 |>.2 j hjl (hlen ▸ hjl)
  simp only [List.get_eq_getElem, hpj] at hT
  rw [List.getElem?_eq_getElem (hlen ▸ hjl)]
  set e := J[j]'(hlen ▸ hjl)
  refine (sum_names_le hg.1 (fun s => ampOf p.2.comps s - _) (fun s hs => ?_) S).trans ?_
  · by_contra hno
    rw [if_neg hno, sub_zero] at hs
    exact hno (ampOf_named (s1.states p (List.mem_of_getElem? hj)).wf hs)
  · have : ∑ i ∈ Finset.range g.size, ‖ampOf p.2.comps (g.nm i) - (if ∃ i' < g.size, g.nm i' = g.nm i then (Option.map (fun e : QState × (ℕ → ℂ) => e.2 (if h : ∃ i' < g.size, g.nm i' = g.nm i then h.choose else 0)) (some e)).getD 0 else 0)‖ ^ 2
        = nrm g.size (fun i => vec g p.2.comps i - e.2 i) ^ 2 := by
      rw [nrm_sq]
      refine Finset.sum_congr rfl fun i hi => ?_
      have hi := Finset.mem_range.1 hi
      have hex : ∃ i' < g.size, g.nm i' = g.nm i := ⟨i, hi, rfl⟩
      rw [if_pos hex]
      simp only [Option.map_some, Option.getD_some, dif_pos hex]
      rw [show hex.choose = i from nm_inj hg.1 hex.choose_spec.1 hi hex.choose_spec.2]
      rfl
    rw [this]
    have h3 := hT.2
    rw [zero_add] at h3
    exact pow_le_pow_left₀ (nrm_nonneg _ _) h3 2

private theorem identity4_run {c : Circ} {thr : ℝ} (h0 : 0 ≤ thr) (hc : c = ⟨⟨2, 2, true⟩, 0, thr, false, [.fockMatrix identity4]⟩) (rnd : ℕ → ℕ → ℕ → Bool → ℕ → ℕ → ℕ) :
    ∃ i q, inCalls rnd [c] threeFour = some [(i, q)] ∧ q.comps.get? ['0', '0'] = if (9 : ℝ) / 25 < thr then none else some ⟨3 / 5, 9 / 25⟩ := by
  subst hc
  obtain ⟨i, q, h1, h2⟩ := identity_keeps h0 (rnd 0 0 0 true)
  refine ⟨i, q, ?_, h2⟩
  have h1' : customColl ⟨⟨2, 2, true⟩, 0, thr, false, [.fockMatrix identity4]⟩ identity4 (rnd 0 0 0 true) threeFour = some [(i, q)] := h1
  show ((customColl ⟨⟨2, 2, true⟩, 0, thr, false, [.fockMatrix identity4]⟩ identity4 (rnd 0 0 0 true) threeFour).bind _).bind _ = _
  rw [h1']
  rfl

/-- non-vacuity: a matrix on the state `3/5 |00> + 4/5 |01>` evaluated with threshold 1/2, which removes a component, and with threshold 1/10000, which removes nothing -/
example (rnd rnd' : ℕ → ℕ → ℕ → Bool → ℕ → ℕ → ℕ) : Cfg.Ok ⟨2, 2, true⟩ ∧ (∀ c ∈ [coarse] ++ [fine], c.g = ⟨2, 2, true⟩ ∧ c.m = 0 ∧ 0 ≤ c.thr ∧ ∀ n ∈ c.nodes, Steady ⟨2, 2, true⟩ n) ∧
    [coarse].flatMap Circ.nodes = [fine].flatMap Circ.nodes ∧ Sound ⟨2, 2, true⟩ 0 threeFour ∧
    ∃ i q i' q', inCalls rnd [coarse] threeFour = some [(i, q)] ∧ inCalls rnd' [fine] threeFour = some [(i', q')] ∧ q.comps.get? ['0', '0'] = none ∧ q'.comps.get? ['0', '0'] = some ⟨3 / 5, 9 / 25⟩ := by
  obtain ⟨i, q, h1, h2⟩ := identity4_run (c := coarse) (thr := 1 / 2) (by norm_num) rfl rnd
  obtain ⟨i', q', h3, h4⟩ := identity4_run (c := fine) (thr := 1 / 10000) (by norm_num) rfl rnd'
  rw [if_pos (by norm_num)] at h2
  rw [if_neg (by norm_num)] at h4
  refine ⟨by decide, ?_, rfl, ⟨by simp [threeFour], fun p hp => (threeFour_normalised.states p hp).1⟩, i, q, i', q', h1, h3, h2, h4⟩
  intro c hc
  rw [List.cons_append, List.nil_append, List.mem_cons, List.mem_singleton] at hc
  have hn : ∀ n ∈ [Node.fockMatrix identity4], Steady ⟨2, 2, true⟩ n := by
    intro n hn
    obtain rfl := List.mem_singleton.1 hn
    show (Matrix.of fun i j : Fin 4 => if (i : ℕ) = (j : ℕ) then (1 : ℂ) else 0) ∈ _
    have : (Matrix.of fun i j : Fin 4 => if (i : ℕ) = (j : ℕ) then (1 : ℂ) else 0) = 1 := by
      ext i j
      simp [Matrix.one_apply, Fin.ext_iff]
    rw [this]
    exact one_mem _
  rcases hc with rfl | rfl
  · exact ⟨rfl, rfl, by norm_num [coarse], hn⟩
  · exact ⟨rfl, rfl, by norm_num [fine], hn⟩

end Verif.Props
