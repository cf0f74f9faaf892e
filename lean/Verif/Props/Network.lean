/-
Properties C140, C81: circuits connected by bridges conserve probability, and compound circuits evaluate without exceptions.
-/
import Verif.Lemmas.Network2
import Verif.Spec.Network
import Verif.Props.Conserve

namespace Verif.Props
open Verif Spec

variable {env : ℕ → Circ} {rnd : ℕ → ℕ → Bool → ℕ → ℕ → ℕ}

theorem run_conserves {k : ℕ} (hg : (env k).g.Ok) (ht : 0 ≤ (env k).thr) {l : List ℕ}
    (hl : ∀ i ∈ l, ∀ M tl, (env k).nodes[i]? = some (.optical M tl) → Lossless (env k).g (env k).m (.optical M tl)) {coll mid : Coll}
    (hc : Sound (env k).g (env k).m coll) (h : runEff (env k) l coll = some mid) :
    Conserves (env k).g (env k).m ((env k).g.size * (env k).thr) coll mid := by
  unfold runEff at h
  split at h
  · cases h
  · rename_i n ns hns
    refine conserves_optical hg ht ?_ hc h
    intro m hm
    rw [← hns] at hm
    obtain ⟨j, hj, hjm⟩ := List.mem_filterMap.1 hm
    cases hnode : (env k).nodes[j]? with
    | none => rw [hnode] at hjm; cases hjm
    | some nd =>
      rw [hnode] at hjm
      cases nd with
      | optical M tl =>
        obtain rfl := Option.some.inj hjm
        obtain ⟨h3, h4⟩ := hl j hj _ _ hnode
        exact ⟨h4, h3⟩
      | _ => cases hjm

theorem node_conserves {k i : ℕ} (hg : (env k).g.Ok) (ht : 0 ≤ (env k).thr) {n : Node} (hn : (env k).nodes[i]? = some n) (hl : Lossless (env k).g (env k).m n)
    {coll mid : Coll} (hc : Sound (env k).g (env k).m coll) (h : nodeEff env rnd k i coll = some mid) :
    Conserves (env k).g (env k).m ((env k).g.size * (env k).thr) coll mid := by
  have hst : 0 ≤ ((env k).g.size : ℝ) * (env k).thr := by positivity
  unfold nodeEff at h
  rw [hn] at h
  cases n with
  | optical M tl => cases h
  | fockMatrix F => exact conserves_custom hg ht hl _ hc h
  | classical f v a => exact (conserves_classical hc h).mono hc hst
  | measurement opt cls => exact (conserves_measure hl hc h).mono hc hst
  | controlled vars channels defaults tl => exact conserves_controlled hg ht hl hc h
  | generic f =>
    obtain ⟨h3, h4⟩ := hl coll mid hc h
    have e : Conserves (env k).g (env k).m 0 coll mid := ⟨h3, fun label => (h4 label).1.le, fun label => by rw [(h4 label).1]; simp, fun label => (h4 label).2⟩
    exact e.mono hc hst
  | bridge n => cases h

theorem network_conserves (hnet : LosslessNetwork env) : ∀ (fuel k : ℕ) (l : List ℕ) (coll out : Coll), Sound (env k).g (env k).m coll →
    evalNodes env rnd fuel k l coll = some out →
    ∃ j, Sound (env j).g (env j).m out ∧ (∀ label, carried label out ≤ carried label coll) ∧
      ((∀ i, (env i).thr = 0) → ∀ label, carried label out = carried label coll) := by
  intro fuel
  induction fuel with
  | zero => intro k l coll out _ h; cases h
  | succ fuel ih =>
    intro k l coll out hc h
    obtain ⟨hg, ht⟩ := hnet.ok k
    cases l with
    | nil =>
      obtain rfl := Option.some.inj h
      exact ⟨k, hc, fun _ => le_rfl, fun _ _ => rfl⟩
    | cons i rest =>
      by_cases hv : ∀ j ∈ i :: rest, j < (env k).nodes.length
      swap
      · rw [evalNodes_invalid (by push Not at hv; exact hv)] at h; cases h
      -- one step, then the rest
      have next : ∀ (j : ℕ) (l' : List ℕ) (mid : Coll), Sound (env j).g (env j).m mid → (∀ label, carried label mid ≤ carried label coll) →
          ((∀ i, (env i).thr = 0) → ∀ label, carried label coll ≤ carried label mid) → evalNodes env rnd fuel j l' mid = some out →
          ∃ j, Sound (env j).g (env j).m out ∧ (∀ label, carried label out ≤ carried label coll) ∧
            ((∀ i, (env i).thr = 0) → ∀ label, carried label out = carried label coll) := by
        intro j l' mid hs h1 h2 he
        obtain ⟨j', k1, k2, k3⟩ := ih j l' mid out hs he
        refine ⟨j', k1, fun label => (k2 label).trans (h1 label), fun h0 label => ?_⟩
        rw [k3 h0]
        exact le_antisymm (h1 label) (h2 h0 label)
      have own : ∀ (l' : List ℕ) (mid : Coll), Conserves (env k).g (env k).m ((env k).g.size * (env k).thr) coll mid → evalNodes env rnd fuel k l' mid = some out →
          ∃ j, Sound (env j).g (env j).m out ∧ (∀ label, carried label out ≤ carried label coll) ∧
            ((∀ i, (env i).thr = 0) → ∀ label, carried label out = carried label coll) := by
        intro l' mid hcm he
        refine next k l' mid hcm.sound hcm.le (fun h0 label => ?_) he
        have := hcm.ge label
        rw [h0 k] at this
        simpa using this
      have hmem : ∀ (j : ℕ) (n : Node), (env k).nodes[j]? = some n → n ∈ (env k).nodes := fun j n hn => List.mem_of_getElem? hn
      by_cases ho : isOpt (env k) i = true
      · rw [evalNodes_run hv ho] at h
        obtain ⟨mid, h1, h2⟩ := Option.bind_eq_some_iff.1 h
        refine own _ mid (run_conserves hg ht ?_ hc h1) h2
        intro j _ M tl hM
        rcases hnet.nodes k _ (hmem _ _ hM) with ⟨_, e, _⟩ | e
        · cases e
        · exact e
      · have ho : isOpt (env k) i = false := by simpa using ho
        obtain ⟨nd, hnd⟩ : ∃ nd, (env k).nodes[i]? = some nd := ⟨_, List.getElem?_eq_getElem (hv i (by simp))⟩
        by_cases hb : ∃ n, nd = .bridge n
        · obtain ⟨n, rfl⟩ := hb
          rw [evalNodes_bridge hv hnd] at h
          obtain ⟨d, h1, h2⟩ := Option.bind_eq_some_iff.1 h
          rcases hnet.nodes k _ (hmem _ _ hnd) with ⟨j, e, hto⟩ | e
          · cases e
            have hh := hands_reshape hg (hnet.ok n).1 hto.naming hto.photons hto.classical ht hc h1
            refine next n _ d.states hh.sound hh.le (fun h0 label => ?_) h2
            have := hh.ge (Or.inl (h0 k)) label
            simpa using this
          · exact e.elim
        · have hb' : ∀ n, (env k).nodes[i]? ≠ some (.bridge n) := by
            intro n hn
            rw [hnd] at hn
            exact hb ⟨n, Option.some.inj hn⟩
          rw [evalNodes_node hv hb' ho] at h
          obtain ⟨mid, h1, h2⟩ := Option.bind_eq_some_iff.1 h
          refine own _ mid (node_conserves hg ht hnd ?_ hc h1) h2
          rcases hnet.nodes k _ (hmem _ _ hnd) with ⟨j, e, _⟩ | e
          · exact (hb ⟨j, e⟩).elim
          · exact e

/-- **C140** Circuits connected by bridges in any way, evaluated from any list of nodes of any of them: the states at the end are valid for one of the
circuits, and for no initial state has the probability carried by its states grown; with threshold 0 it is exactly conserved. -/
theorem C140_network (hnet : LosslessNetwork env) (k : ℕ) (l : List ℕ) (coll out : Coll) (hc : Sound (env k).g (env k).m coll) (fuel : ℕ)
    (h : evalNodes env rnd fuel k l coll = some out) :
    ∃ j, Sound (env j).g (env j).m out ∧ (∀ label, carried label out ≤ carried label coll) ∧
      ((∀ i, (env i).thr = 0) → ∀ label, carried label out = carried label coll) :=
  network_conserves hnet fuel k l coll out hc h

/-! ### compound circuits -/

/-- what one circuit may lose -/
noncomputable def circLoss (c : Circ) : ℝ := (c.nodes.length : ℝ) * (((c.g.L ^ c.g.C : ℕ) : ℝ) * c.thr)

theorem circLoss_nonneg {c : Circ} (h : 0 ≤ c.thr) : 0 ≤ circLoss c := by unfold circLoss; positivity

theorem getD_mem' {d : Circ} {cs : List Circ} {i : ℕ} (hi : i < cs.length) : cs.getD i d ∈ cs := by
  rw [List.getD_eq_getElem _ _ hi]; exact List.getElem_mem hi

/-- the stages of a compound circuit -/
noncomputable def chainRun (d : Circ) (cs : List Circ) (rnd : ℕ → ℕ → Bool → ℕ → ℕ → ℕ) (i : ℕ) (coll : Coll) : Option Coll :=
  evalAll (fun j => cs.getD j d) rnd ((cs.getD i d).nodes.length + 1) i coll

noncomputable def chainBridge (d : Circ) (cs : List Circ) (rnd : ℕ → ℕ → Bool → ℕ → ℕ → ℕ) (i : ℕ) (coll : Coll) : Option Coll :=
  (reshape (cs.getD i d) (cs.getD (i + 1) d) (rnd i (cs.getD i d).nodes.length true) (rnd i (cs.getD i d).nodes.length false) coll).map Collection.states

theorem chain_takes {d : Circ} {cs : List Circ} (hcs : LosslessChain cs) {i : ℕ} (hi : i + 1 < cs.length) : TakesOver (cs.getD i d) (cs.getD (i + 1) d) := by
  refine hcs.takes i _ _ ?_ ?_
  · rw [List.getD_eq_getElem _ _ (by omega)]; exact List.getElem?_eq_getElem (by omega)
  · rw [List.getD_eq_getElem _ _ hi]; exact List.getElem?_eq_getElem hi

theorem chain_run_conserves {d : Circ} {cs : List Circ} (hcs : LosslessChain cs) {i : ℕ} (hi : i < cs.length) {coll mid : Coll}
    (hc : Sound (cs.getD i d).g (cs.getD i d).m coll) (h : chainRun d cs rnd i coll = some mid) :
    Conserves (cs.getD i d).g (cs.getD i d).m (circLoss (cs.getD i d)) coll mid := by
  have hm := getD_mem' (d := d) hi
  have := eval_conserves (env := fun j => cs.getD j d) (rnd := rnd) (k := i) (hcs.ok _ hm).1 (hcs.ok _ hm).2 _ _ coll mid
    (fun j _ n hn => hcs.nodes _ hm n (List.mem_of_getElem? hn)) hc h
  simpa [circLoss, Cfg.size] using this

theorem chain_conserves {d : Circ} {cs : List Circ} (hcs : LosslessChain cs) : ∀ (n i : ℕ) (coll out : Coll), i + n < cs.length →
    Sound (cs.getD i d).g (cs.getD i d).m coll → stages (chainRun d cs rnd) (chainBridge d cs rnd) i n coll = some out →
    Hands (∀ j, i ≤ j → j < i + n → (cs.getD j d).thr = 0 ∨ NoNewChannels (cs.getD j d) (cs.getD (j + 1) d)) (cs.getD (i + n) d).g (cs.getD (i + n) d).m
      (((List.range (n + 1)).map (fun j => circLoss (cs.getD (i + j) d))).sum) coll out := by
  intro n
  induction n with
  | zero =>
    intro i coll out hi hc h
    have := chain_run_conserves hcs (by omega) hc h
    simpa using this.hands
  | succ n ih =>
    intro i coll out hi hc h
    rw [stages] at h
    obtain ⟨mid, h1, h⟩ := Option.bind_eq_some_iff.1 h
    obtain ⟨mid', h2, h3⟩ := Option.bind_eq_some_iff.1 h
    obtain ⟨o, h4, rfl⟩ := Option.map_eq_some_iff.1 h2
    have hm := getD_mem' (d := d) (show i < cs.length by omega)
    have hm' := getD_mem' (d := d) (show i + 1 < cs.length by omega)
    have k1 := chain_run_conserves hcs (by omega) hc h1
    have hto := chain_takes (d := d) hcs (show i + 1 < cs.length by omega)
    have k2 := hands_reshape (hcs.ok _ hm).1 (hcs.ok _ hm').1 hto.naming hto.photons hto.classical (hcs.ok _ hm).2 k1.sound h4
    have k3 := ih (i + 1) o.states out (by omega) k2.sound h3
    have hnn : 0 ≤ ((List.range (n + 1)).map (fun j => circLoss (cs.getD (i + 1 + j) d))).sum := by
      apply List.sum_nonneg
      intro x hx
      obtain ⟨j, hj, rfl⟩ := List.mem_map.1 hx
      exact circLoss_nonneg (hcs.ok _ (getD_mem' (by have := List.mem_range.1 hj; omega))).2
    have k4 := (k1.hands (P := True)).trans (R := (cs.getD i d).thr = 0 ∨ NoNewChannels (cs.getD i d) (cs.getD (i + 1) d)) le_rfl k2 (fun h => ⟨trivial, h⟩)
    have k5 := k4.trans (R := ∀ j, i ≤ j → j < i + (n + 1) → (cs.getD j d).thr = 0 ∨ NoNewChannels (cs.getD j d) (cs.getD (j + 1) d)) hnn k3
      (fun h => ⟨h i le_rfl (by omega), fun j h1 h2 => h j (by omega) (by omega)⟩)
    have e1 : i + 1 + n = i + (n + 1) := by omega
    rw [e1] at k5
    have e2 : circLoss (cs.getD i d) + 0 + ((List.range (n + 1)).map (fun j => circLoss (cs.getD (i + 1 + j) d))).sum
        = ((List.range (n + 1 + 1)).map (fun j => circLoss (cs.getD (i + j) d))).sum := by
      rw [List.range_succ_eq_map (n := n + 1), List.map_cons, List.sum_cons, List.map_map, add_zero, add_zero]
      congr 2
      apply List.map_congr_left
      intro j _
      simp only [Function.comp_def]
      congr 2
      omega
    rw [e2] at k5
    exact k5

theorem lossBound_eq (d : Circ) (cs : List Circ) : ((List.range cs.length).map (fun j => circLoss (cs.getD (0 + j) d))).sum = lossBound cs := by
  unfold lossBound
  congr 1
  apply List.ext_getElem
  · simp
  · intro i h1 h2
    simp only [List.length_map, List.length_range] at h1
    simp [circLoss, List.getElem?_eq_getElem h1]

theorem chain_no_bridge {cs : List Circ} (hcs : LosslessChain cs) : ∀ c ∈ cs, ∀ i, ¬ IsBridge c i := by
  rintro c hc i ⟨k, hk⟩
  exact hcs.nodes c hc _ (List.mem_of_getElem? hk)

/-- **C140** A compound circuit of lossless circuits that can take over each other's states: evaluating it does not create probability for any
initial state; and if no circuit has channels that the one before does not have (or the threshold is 0), what is lost is at most
`L^C * threshold` for every node of every circuit, relative to the summed cumulative probability. -/
theorem C140_compound (d : Circ) (cs : List Circ) (hne : cs ≠ []) (hcs : LosslessChain cs) :
    ∃ F, ∀ fuel ≥ F, ∀ coll out, Sound (cs.getD 0 d).g (cs.getD 0 d).m coll → evalCompound d cs rnd fuel coll = some out →
      Sound (cs.getD (cs.length - 1) d).g (cs.getD (cs.length - 1) d).m out ∧ (∀ label, carried label out ≤ carried label coll) ∧
      ((∀ (i : ℕ) (c next : Circ), cs[i]? = some c → cs[i + 1]? = some next → c.thr = 0 ∨ NoNewChannels c next) →
        ∀ label, carried label coll - lossBound cs * listed label coll ≤ carried label out) := by
  obtain ⟨F, hF⟩ := C46_composition (rnd := rnd) d cs hne (chain_no_bridge hcs)
  refine ⟨F, fun fuel hf coll out hc h => ?_⟩
  rw [hF fuel hf] at h
  have hpos : 0 < cs.length := List.length_pos_iff.2 hne
  have k := chain_conserves (rnd := rnd) hcs (cs.length - 1) 0 coll out (by omega) hc h
  have e : cs.length - 1 + 1 = cs.length := by omega
  rw [e, lossBound_eq, Nat.zero_add] at k
  refine ⟨k.sound, k.le, fun hn => k.ge ?_⟩
  intro j _ hj
  refine hn j _ _ ?_ ?_
  · rw [List.getD_eq_getElem _ _ (by omega)]; exact List.getElem?_eq_getElem (by omega)
  · rw [List.getD_eq_getElem _ _ (by omega)]; exact List.getElem?_eq_getElem (by omega)

/-- **C140** With threshold 0 in all circuits a compound circuit conserves the probability of every initial state exactly. -/
theorem C140_compound_exact (d : Circ) (cs : List Circ) (hne : cs ≠ []) (hcs : LosslessChain cs) (h0 : ∀ c ∈ cs, c.thr = 0) :
    ∃ F, ∀ fuel ≥ F, ∀ coll out, Sound (cs.getD 0 d).g (cs.getD 0 d).m coll → evalCompound d cs rnd fuel coll = some out →
      ∀ label, carried label out = carried label coll := by
  obtain ⟨F, hF⟩ := C140_compound (rnd := rnd) d cs hne hcs
  refine ⟨F, fun fuel hf coll out hc h label => ?_⟩
  obtain ⟨-, h1, h2⟩ := hF fuel hf coll out hc h
  have h3 := h2 (fun i c next hi _ => Or.inl (h0 c (List.mem_of_getElem? hi))) label
  have h4 : lossBound cs = 0 := by
    unfold lossBound
    apply List.sum_eq_zero
    intro x hx
    obtain ⟨c, hc, rfl⟩ := List.mem_map.1 hx
    rw [h0 c hc]; simp
  rw [h4] at h3
  exact le_antisymm (h1 label) (by simpa using h3)

theorem chain_evaluates {d : Circ} {cs : List Circ} (hcs : LosslessChain cs) (ht : ∀ c ∈ cs, 0 < c.thr) (hfit : ∀ c ∈ cs, ∀ n ∈ c.nodes, Fits c.g c.m n) :
    ∀ (n i : ℕ) (coll : Coll) (t : ℝ), i + n < cs.length → Sound (cs.getD i d).g (cs.getD i d).m coll → Alive t coll → t ≤ 1 →
    ((List.range (n + 1)).map (fun j => circLoss (cs.getD (i + j) d))).sum < t →
    ∃ out, stages (chainRun d cs rnd) (chainBridge d cs rnd) i n coll = some out := by
  have one : ∀ (i : ℕ) (coll : Coll) (t : ℝ), i < cs.length → Sound (cs.getD i d).g (cs.getD i d).m coll → Alive t coll → t ≤ 1 → circLoss (cs.getD i d) < t →
      ∃ out, chainRun d cs rnd i coll = some out ∧ Alive (t - circLoss (cs.getD i d)) out := by
    intro i coll t hi hc ha h1 hlt
    have hm := getD_mem' (d := d) hi
    obtain ⟨out, k1, k2⟩ := eval_runs (env := fun j => cs.getD j d) (rnd := rnd) (k := i) (hcs.ok _ hm).1 (ht _ hm) ((cs.getD i d).nodes.length + 1)
      (List.range (cs.getD i d).nodes.length) coll t (fun j hj => List.mem_range.1 hj)
      (fun j _ n hn => ⟨hcs.nodes _ hm n (List.mem_of_getElem? hn), hfit _ hm n (List.mem_of_getElem? hn)⟩) hc ha h1
      (by simpa [circLoss, Cfg.size] using hlt) (by simp)
    refine ⟨out, k1, ?_⟩
    simpa [circLoss, Cfg.size] using k2
  intro n
  induction n with
  | zero =>
    intro i coll t hi hc ha h1 hlt
    obtain ⟨out, k1, -⟩ := one i coll t (by omega) hc ha h1 (by simpa using hlt)
    exact ⟨out, k1⟩
  | succ n ih =>
    intro i coll t hi hc ha h1 hlt
    have hm := getD_mem' (d := d) (show i < cs.length by omega)
    have hm' := getD_mem' (d := d) (show i + 1 < cs.length by omega)
    have hsum : ((List.range (n + 1 + 1)).map (fun j => circLoss (cs.getD (i + j) d))).sum
        = circLoss (cs.getD i d) + ((List.range (n + 1)).map (fun j => circLoss (cs.getD (i + 1 + j) d))).sum := by
      rw [List.range_succ_eq_map (n := n + 1), List.map_cons, List.sum_cons, List.map_map, add_zero]
      congr 2
      apply List.map_congr_left
      intro j _
      simp only [Function.comp_def]
      congr 2
      omega
    rw [hsum] at hlt
    have hnn : 0 ≤ ((List.range (n + 1)).map (fun j => circLoss (cs.getD (i + 1 + j) d))).sum := by
      apply List.sum_nonneg
      intro x hx
      obtain ⟨j, hj, rfl⟩ := List.mem_map.1 hx
      exact circLoss_nonneg (hcs.ok _ (getD_mem' (by have := List.mem_range.1 hj; omega))).2
    have hcl := circLoss_nonneg (hcs.ok _ hm).2
    obtain ⟨mid, k1, k2⟩ := one i coll t (by omega) hc ha h1 (by linarith)
    have s1 := (chain_run_conserves hcs (by omega) hc k1).sound
    have hto := chain_takes (d := d) hcs (show i + 1 < cs.length by omega)
    obtain ⟨o, k3, k4⟩ := runs_reshape (hcs.ok _ hm).1 (hcs.ok _ hm').1 hto.photons hto.classical (hcs.ok _ hm).2 (by linarith) s1 k2
      (rnd i (cs.getD i d).nodes.length true) (rnd i (cs.getD i d).nodes.length false)
    have s2 := (hands_reshape (hcs.ok _ hm).1 (hcs.ok _ hm').1 hto.naming hto.photons hto.classical (hcs.ok _ hm).2 s1 k3).sound
    obtain ⟨out, k5⟩ := ih (i + 1) o.states _ (by omega) s2 k4 (by linarith) (by linarith)
    refine ⟨out, ?_⟩
    rw [stages, k1, Option.bind_some]
    have k6 : chainBridge d cs rnd i mid = some o.states := by
      unfold chainBridge
      rw [k3]; rfl
    rw [k6, Option.bind_some, k5]

/-- **C81** (partial: bridges only between circuits that take over each other's states) A compound circuit whose circuits take over each other's states and whose nodes fit their circuits
evaluates without an exception on every collection of valid normalised states, whatever the measurement outcomes are, as long as the number of
nodes times `L^C` times the threshold, summed over the circuits, is below 1. -/
theorem C81_compound_partial (d : Circ) (cs : List Circ) (hne : cs ≠ []) (hcs : LosslessChain cs) (ht : ∀ c ∈ cs, 0 < c.thr)
    (hfit : ∀ c ∈ cs, ∀ n ∈ c.nodes, Fits c.g c.m n) (hN : lossBound cs < 1) :
    ∃ F, ∀ fuel ≥ F, ∀ coll, Normalised (cs.getD 0 d).g (cs.getD 0 d).m coll → NoZeros coll → ∃ out, evalCompound d cs rnd fuel coll = some out := by
  obtain ⟨F, hF⟩ := C46_composition (rnd := rnd) d cs hne (chain_no_bridge hcs)
  refine ⟨F, fun fuel hf coll hc hz => ?_⟩
  rw [hF fuel hf]
  have hpos : 0 < cs.length := List.length_pos_iff.2 hne
  have e : cs.length - 1 + 1 = cs.length := by omega
  exact chain_evaluates hcs ht hfit (cs.length - 1) 0 coll 1 (by omega) ⟨hc.ids, fun p hp => (hc.states p hp).1⟩
    ⟨fun p hp => (hc.states p hp).2.ge, hz⟩ le_rfl (by rw [e, lossBound_eq]; exact hN)

/-! ### concrete circuits -/

/-- two channels with up to two photons, no further nodes but a swap of the channels and a measurement -/
noncomputable def secondCirc : Circ := ⟨⟨3, 2, true⟩, 1, 0.0001, false, [.optical (genericMatrix 1 Real.pi) [0, 1], .measurement [0] [0]]⟩

theorem twoCircs_ok : LosslessChain [fiveNodes, secondCirc] ∧ (∀ c ∈ [fiveNodes, secondCirc], 0 < c.thr) ∧
    (∀ c ∈ [fiveNodes, secondCirc], ∀ n ∈ c.nodes, Fits c.g c.m n) ∧ lossBound [fiveNodes, secondCirc] = 38 * 0.0001 := by
  have hfive : ∀ n ∈ fiveNodes.nodes, Lossless fiveNodes.g fiveNodes.m n ∧ Fits fiveNodes.g fiveNodes.m n := by
    intro n hn
    obtain ⟨i, hi, e⟩ := List.mem_iff_getElem.1 hn
    have hi' : i < 5 := hi
    exact fiveNodes_ok i (by simp; omega) n (by rw [List.getElem?_eq_getElem hi, e])
  have hsecond : ∀ n ∈ secondCirc.nodes, Lossless secondCirc.g secondCirc.m n ∧ Fits secondCirc.g secondCirc.m n := by
    intro n hn
    have : n = .optical (genericMatrix 1 Real.pi) [0, 1] ∨ n = .measurement [0] [0] := by simpa [secondCirc] using hn
    rcases this with rfl | rfl
    · exact ⟨⟨(C17_wave_plate 1 Real.pi 0).1, 0, 1, by decide, by decide, by decide, by decide⟩, trivial⟩
    · refine ⟨rfl, ?_⟩
      intro x hx
      obtain rfl : x = 0 := by simpa using hx
      simp [secondCirc]
  refine ⟨⟨?_, ?_, ?_⟩, ?_, ?_, ?_⟩
  · intro c hc
    have : c = fiveNodes ∨ c = secondCirc := by simpa using hc
    rcases this with rfl | rfl
    · exact ⟨by decide, by norm_num [fiveNodes]⟩
    · exact ⟨by decide, by norm_num [secondCirc]⟩
  · intro c hc n hn
    have : c = fiveNodes ∨ c = secondCirc := by simpa using hc
    rcases this with rfl | rfl
    · exact (hfive n hn).1
    · exact (hsecond n hn).1
  · intro i c next h1 h2
    have hi : i = 0 := by
      have := (List.getElem?_eq_some_iff.1 h2).1
      simp at this
      omega
    subst hi
    obtain rfl := Option.some.inj h1
    obtain rfl := Option.some.inj h2
    exact ⟨rfl, by decide, Or.inl (by simp [secondCirc])⟩
  · intro c hc
    have : c = fiveNodes ∨ c = secondCirc := by simpa using hc
    rcases this with rfl | rfl
    · norm_num [fiveNodes]
    · norm_num [secondCirc]
  · intro c hc n hn
    have : c = fiveNodes ∨ c = secondCirc := by simpa using hc
    rcases this with rfl | rfl
    · exact (hfive n hn).2
    · exact (hsecond n hn).2
  · norm_num [lossBound, fiveNodes, secondCirc]

/-- non-vacuity: the compound circuit of the two evaluates, and at most 38 * 0.0001 of the probability is lost -/
example (rnd : ℕ → ℕ → Bool → ℕ → ℕ → ℕ) : ∃ F, ∀ fuel ≥ F, ∃ out, evalCompound fiveNodes [fiveNodes, secondCirc] rnd fuel oneState = some out ∧
    carried ['0', '0'] out ≤ 1 ∧ 1 - 38 * 0.0001 ≤ carried ['0', '0'] out := by
  have hz : NoZeros oneState := by
    intro p hp e he
    obtain rfl : p = (['a'], ⟨['0', '0'], 1, [(['0', '0'], ⟨1, 1⟩)], [0], []⟩) := by simpa [oneState] using hp
    obtain rfl : e = (['0', '0'], ⟨1, 1⟩) := by simpa using he
    simp
  have hs : Sound ⟨2, 2, true⟩ 1 oneState := ⟨oneState_normalised.ids, fun p hp => (oneState_normalised.states p hp).1⟩
  obtain ⟨h1, h2, h3, h4⟩ := twoCircs_ok
  obtain ⟨F, hF⟩ := C81_compound_partial (rnd := rnd) fiveNodes _ (by simp) h1 h2 h3 (by rw [h4]; norm_num)
  obtain ⟨F', hF'⟩ := C140_compound (rnd := rnd) fiveNodes _ (by simp) h1
  refine ⟨max F F', fun fuel hf => ?_⟩
  obtain ⟨out, ho⟩ := hF fuel (le_trans (le_max_left _ _) hf) oneState oneState_normalised hz
  obtain ⟨-, k1, k2⟩ := hF' fuel (le_trans (le_max_right _ _) hf) oneState out hs ho
  have e1 : carried ['0', '0'] oneState = 1 := by simp [carried, sumFrom, oneState, totalProb]
  have e2 : listed ['0', '0'] oneState = 1 := by simp [listed, sumFrom, oneState]
  have k3 := k1 ['0', '0']
  have k4 := k2 (by
    intro i c next h5 h6
    have hi : i = 0 := by
      have := (List.getElem?_eq_some_iff.1 h6).1
      simp at this
      omega
    subst hi
    obtain rfl := Option.some.inj h5
    obtain rfl := Option.some.inj h6
    exact Or.inr ⟨by decide, by simp [fiveNodes, secondCirc]⟩) ['0', '0']
  rw [e1] at k3
  rw [e1, e2, h4, mul_one] at k4
  exact ⟨out, ho, k3, k4⟩

/-- the circuits of a compound circuit with their bridges are a network in the sense of C140 -/
theorem twoCircs_network : LosslessNetwork (compoundEnv fiveNodes [fiveNodes, secondCirc]) := by
  obtain ⟨h1, -, -, -⟩ := twoCircs_ok
  have hmem : ∀ k, [fiveNodes, secondCirc].getD k fiveNodes ∈ [fiveNodes, secondCirc] := by
    intro k
    rcases k with _ | _ | k <;> simp
  refine ⟨fun k => ⟨(h1.ok _ (hmem k)).1, (h1.ok _ (hmem k)).2⟩, fun k n hn => ?_⟩
  unfold compoundEnv at hn
  by_cases hk : k + 1 < [fiveNodes, secondCirc].length
  · have hn' : n ∈ ([fiveNodes, secondCirc].getD k fiveNodes).nodes ++ [.bridge (k + 1)] := by rw [if_pos hk] at hn; exact hn
    rcases List.mem_append.1 hn' with h | h
    · exact Or.inr (h1.nodes _ (hmem k) n h)
    · obtain rfl : n = .bridge (k + 1) := by simpa using h
      exact Or.inl ⟨k + 1, rfl, by
        obtain ⟨a, b, c⟩ := chain_takes (d := fiveNodes) h1 hk
        exact ⟨a, b, c⟩⟩
  · have hn' : n ∈ ([fiveNodes, secondCirc].getD k fiveNodes).nodes := by rw [if_neg hk] at hn; exact hn
    exact Or.inr (h1.nodes _ (hmem k) n hn')

/-- non-vacuity: such a network of circuits with a bridge, the evaluation of which ends -/
example (rnd : ℕ → ℕ → Bool → ℕ → ℕ → ℕ) : LosslessNetwork (compoundEnv fiveNodes [fiveNodes, secondCirc]) ∧
    ∃ fuel l out, evalNodes (compoundEnv fiveNodes [fiveNodes, secondCirc]) rnd fuel 0 l oneState = some out ∧ carried ['0', '0'] out ≤ 1 := by
  refine ⟨twoCircs_network, ?_⟩
  have hz : NoZeros oneState := by
    intro p hp e he
    obtain rfl : p = (['a'], ⟨['0', '0'], 1, [(['0', '0'], ⟨1, 1⟩)], [0], []⟩) := by simpa [oneState] using hp
    obtain rfl : e = (['0', '0'], ⟨1, 1⟩) := by simpa using he
    simp
  obtain ⟨h1, h2, h3, h4⟩ := twoCircs_ok
  obtain ⟨F, hF⟩ := C81_compound_partial (rnd := rnd) fiveNodes _ (by simp) h1 h2 h3 (by rw [h4]; norm_num)
  obtain ⟨out, ho⟩ := hF F le_rfl oneState oneState_normalised hz
  have hs : Sound (compoundEnv fiveNodes [fiveNodes, secondCirc] 0).g (compoundEnv fiveNodes [fiveNodes, secondCirc] 0).m oneState :=
    ⟨oneState_normalised.ids, fun p hp => (oneState_normalised.states p hp).1⟩
  obtain ⟨j, -, k1, -⟩ := C140_network (rnd := rnd) twoCircs_network 0 _ oneState out hs F ho
  have e1 : carried ['0', '0'] oneState = 1 := by simp [carried, sumFrom, oneState, totalProb]
  exact ⟨F, _, out, ho, by have := k1 ['0', '0']; rwa [e1] at this⟩

end Verif.Props
