/-
Property theorem for C87: in a compound circuit every circuit works with its own settings.
-/
import Verif.Lemmas.Compound
import Verif.Props.Evaluate
import Verif.Props.MatrixApi

namespace Verif.Props
open Verif Spec

/-- **C87 (partial)** Circuits connected by bridges, with the settings the collection and its states really carry along: if all circuits use the
same naming convention and the default threshold, and all or none of them have classical channels, then every circuit works with its own
settings: the states are those of the evaluation in which each circuit uses its own settings. Missing: other thresholds
(`C87_threshold_fails`), different naming conventions (`C88_names_fails`), and circuits with and without classical channels. -/
theorem C87_bridges_partial (env : ℕ → Circ) (rnd : ℕ → ℕ → Bool → ℕ → ℕ → ℕ)
    (hgen : ∀ (k i : ℕ) (f : Coll → Option Coll), (env k).nodes[i]? = some (Node.generic f) → ∀ out, f [] = some out → out = [])
    (hg : ∀ k, (env k).g.Ok) (hleft : ∀ k k', (env k).g.left = (env k').g.left) (hthr : ∀ k, (env k).thr = 1 / 10000)
    (hm : (∀ k, 0 < (env k).m) ∨ ∀ k, (env k).m = 0) (fuel k : ℕ) (coll out : Coll) (hne : out ≠ []) :
    (∃ h, evalHeld env rnd fuel k (List.range (env k).nodes.length) ⟨(env k).settings, (env k).settings, coll⟩ = some h ∧ h.states = out) ↔
      evalAll env rnd fuel k coll = some out := by
  refine (evalHeld_iff hgen hg hleft hthr ?_ fuel k _ coll out hne).symm
  intro k k'
  rcases hm with h | h
  · exact Or.inl (h k')
  · exact Or.inr (h k)

/-- **C87 (partial)** The same for a compound circuit: the result is that of its circuits one after the other, each with its own settings, with the
reshaping for a bridge in between. Missing: as for `C87_bridges_partial`. -/
theorem C87_compound_partial (d : Circ) (cs : List Circ) (hd : d ∈ cs) (rnd : ℕ → ℕ → Bool → ℕ → ℕ → ℕ)
    (hb : ∀ c ∈ cs, ∀ i, ¬ IsBridge c i)
    (hgen : ∀ c ∈ cs, ∀ f, Node.generic f ∈ c.nodes → ∀ out, f [] = some out → out = [])
    (hg : ∀ c ∈ cs, c.g.Ok) (hleft : ∀ c ∈ cs, ∀ c' ∈ cs, c.g.left = c'.g.left) (hthr : ∀ c ∈ cs, c.thr = 1 / 10000)
    (hm : (∀ c ∈ cs, 0 < c.m) ∨ ∀ c ∈ cs, c.m = 0) :
    ∃ F, ∀ fuel ≥ F, ∀ coll out, out ≠ [] →
      ((∃ h, evalCompoundHeld d cs rnd fuel ⟨(cs.getD 0 d).settings, (cs.getD 0 d).settings, coll⟩ = some h ∧ h.states = out) ↔
        stages (fun i coll => evalAll (fun j => cs.getD j d) rnd ((cs.getD i d).nodes.length + 1) i coll)
          (fun i coll => (reshape (cs.getD i d) (cs.getD (i + 1) d) (rnd i (cs.getD i d).nodes.length true)
            (rnd i (cs.getD i d).nodes.length false) coll).map Collection.states)
          0 (cs.length - 1) coll = some out) := by
  obtain ⟨F, hF⟩ := C46_composition (rnd := rnd) d cs (List.ne_nil_of_mem hd) hb
  refine ⟨F, ?_⟩
  intro fuel hf coll out hne
  have hmem : ∀ k, cs.getD k d ∈ cs := by
    intro k
    by_cases h : k < cs.length
    · rw [List.getD_eq_getElem _ _ h]; exact List.getElem_mem h
    · rw [List.getD_eq_default _ _ (by omega)]; exact hd
  have key := C87_bridges_partial (compoundEnv d cs) rnd ?_ (fun k => hg (cs.getD k d) (hmem k)) (fun k k' => hleft (cs.getD k d) (hmem k) (cs.getD k' d) (hmem k'))
    (fun k => hthr (cs.getD k d) (hmem k))
    (by rcases hm with h | h
        · exact Or.inl (fun k => h (cs.getD k d) (hmem k))
        · exact Or.inr (fun k => h (cs.getD k d) (hmem k))) fuel 0 coll out hne
  · rw [← hF fuel hf coll]
    exact key
  · intro k i f hf' out' ho
    refine hgen _ (hmem k) f ?_ out' ho
    have := List.mem_of_getElem? hf'
    simp only [compoundEnv] at this
    split at this
    · rcases List.mem_append.1 this with h | h
      · exact h
      · simp at h
    · exact this

/-- The identity as custom Fock matrix. -/
noncomputable def identity4 : SqArr := ⟨4, fun i j => if i = j then 1 else 0⟩

/-- A circuit without nodes and with the default threshold. -/
noncomputable def idle : Circ := ⟨⟨2, 2, true⟩, 0, 1 / 10000, false, []⟩

/-- A circuit with the identity and threshold 1/2. -/
noncomputable def coarse : Circ := ⟨⟨2, 2, true⟩, 0, 1 / 2, false, [.fockMatrix identity4]⟩

/-- A circuit with the identity and the default threshold. -/
noncomputable def fine : Circ := ⟨⟨2, 2, true⟩, 0, 1 / 10000, false, [.fockMatrix identity4]⟩

/-- A state 3/5 |00> + 4/5 |01>. -/
noncomputable def threeFour : Coll := [(['a'], ⟨['0', '0'], 1, [(['0', '0'], ⟨3 / 5, 9 / 25⟩), (['0', '1'], ⟨4 / 5, 16 / 25⟩)], [], []⟩)]

theorem threeFour_normalised : Normalised ⟨2, 2, true⟩ 0 threeFour := by
  refine ⟨by simp [threeFour], ?_⟩
  intro p hp
  obtain rfl : p = (['a'], ⟨['0', '0'], 1, [(['0', '0'], ⟨3 / 5, 9 / 25⟩), (['0', '1'], ⟨4 / 5, 16 / 25⟩)], [], []⟩) := by simpa [threeFour] using hp
  have ht : totalProb [((['0', '0'] : List Char), (⟨3 / 5, 9 / 25⟩ : Comp)), (['0', '1'], ⟨4 / 5, 16 / 25⟩)] = 1 := by
    norm_num [totalProb]
  refine ⟨⟨?_, ?_, le_of_eq ht, by simp, by simp, by simp⟩, ht⟩
  · exact wf_enc (g := ⟨2, 2, true⟩) (l := [([0, 0], ⟨3 / 5, 9 / 25⟩), ([0, 1], ⟨4 / 5, 16 / 25⟩)])
      ⟨by simp, by intro p hp; simp at hp; rcases hp with rfl | rfl <;> exact ⟨rfl, by decide⟩⟩
  · intro p hp
    have : p = (['0', '0'], ⟨3 / 5, 9 / 25⟩) ∨ p = (['0', '1'], ⟨4 / 5, 16 / 25⟩) := by simpa using hp
    rcases this with rfl | rfl <;> norm_num

example : ∃ (d : Circ) (cs : List Circ), 1 < cs.length ∧ d ∈ cs ∧ (∀ c ∈ cs, ∀ i, ¬ IsBridge c i) ∧
    (∀ c ∈ cs, ∀ f, Node.generic f ∈ c.nodes → ∀ out, f [] = some out → out = []) ∧
    (∀ c ∈ cs, c.g.Ok) ∧ (∀ c ∈ cs, ∀ c' ∈ cs, c.g.left = c'.g.left) ∧ (∀ c ∈ cs, c.thr = 1 / 10000) ∧ ((∀ c ∈ cs, 0 < c.m) ∨ ∀ c ∈ cs, c.m = 0) := by
  refine ⟨idle, [idle, fine], by simp, by simp, ?_, ?_, ?_, ?_, ?_, Or.inr ?_⟩
  · intro c hc i
    rintro ⟨k, hk⟩
    have := List.mem_of_getElem? hk
    simp at hc
    rcases hc with rfl | rfl <;> simp [idle, fine] at this
  · intro c hc f hf
    simp at hc
    rcases hc with rfl | rfl <;> simp [idle, fine] at hf
  · intro c hc; simp at hc; rcases hc with rfl | rfl <;> decide
  · intro c hc c' hc'; simp at hc hc'; rcases hc with rfl | rfl <;> rcases hc' with rfl | rfl <;> rfl
  · intro c hc; simp at hc; rcases hc with rfl | rfl <;> rfl
  · intro c hc; simp at hc; rcases hc with rfl | rfl <;> rfl

theorem identity_keeps {thr : ℝ} (h0 : 0 ≤ thr) (r : ℕ → ℕ → ℕ) : ∃ i q, customColl ⟨⟨2, 2, true⟩, 0, thr, false, []⟩ identity4 r threeFour = some [(i, q)] ∧
    q.comps.get? ['0', '0'] = if (9 : ℝ) / 25 < thr then none else some ⟨3 / 5, 9 / 25⟩ := by
  obtain ⟨out, h1, h2⟩ := custom_states (c := ⟨⟨2, 2, true⟩, 0, thr, false, []⟩) (show Cfg.Ok ⟨2, 2, true⟩ by decide) h0 (F := identity4) rfl r
    (fun p hp => (threeFour_normalised.states p hp).1)
  cases h2 with
  | cons hr ht =>
    cases ht
    rename_i p'
    refine ⟨p'.1, p'.2, h1, ?_⟩
    obtain ⟨-, -, -, -, x, hx, hq⟩ := hr
    have hv : Valid ⟨2, 2, true⟩ [0, 0] := ⟨rfl, by decide⟩
    have hn : IsName ⟨2, 2, true⟩ [0, 0] ['0', '0'] := (isName_iff hv).2 rfl
    have hx0 : x 0 = 3 / 5 := by
      have := hx [0, 0] ['0', '0'] hv hn
      simpa [Cfg.indexOf, ampOf, Dict.get?] using this
    have hs : (∑ j ∈ Finset.range identity4.size, identity4.at_ (Cfg.indexOf ⟨2, 2, true⟩ [0, 0]) j * x j) = 3 / 5 := by
      have hi : Cfg.indexOf ⟨2, 2, true⟩ [0, 0] = 0 := by decide
      rw [hi]
      simp [identity4, hx0]
    have := hq [0, 0] ['0', '0'] hv hn
    rw [hs] at this
    have hno : ‖(3 / 5 : ℂ)‖ ^ 2 = 9 / 25 := by norm_num
    rw [hno] at this
    exact this

/-- **C87** fails for thresholds: the second circuit of a compound circuit does not use its own threshold but that of the first one. A component
with probability 9/25 survives the identity with threshold 1/2, while the second circuit on its own removes it. -/
theorem C87_threshold_fails : ∃ (d : Circ) (cs : List Circ) (coll : Coll), d ∈ cs ∧ (∀ c ∈ cs, c.g.Ok ∧ 0 ≤ c.thr ∧ ∀ i, ¬ IsBridge c i) ∧
    Normalised d.g d.m coll ∧ ∀ rnd fuel, 3 ≤ fuel → ∃ (i i' : List Char) (q q' : QState) (h : Held),
      evalCompoundHeld d cs rnd fuel ⟨(cs.getD 0 d).settings, (cs.getD 0 d).settings, coll⟩ = some h ∧ h.states = [(i, q)] ∧
      q.comps.get? ['0', '0'] = some ⟨3 / 5, 9 / 25⟩ ∧
      stages (fun i coll => evalAll (fun j => cs.getD j d) rnd ((cs.getD i d).nodes.length + 1) i coll)
          (fun i coll => (reshape (cs.getD i d) (cs.getD (i + 1) d) (rnd i (cs.getD i d).nodes.length true)
            (rnd i (cs.getD i d).nodes.length false) coll).map Collection.states)
          0 (cs.length - 1) coll = some [(i', q')] ∧ q'.comps.get? ['0', '0'] = none := by
  refine ⟨idle, [idle, coarse], threeFour, by simp, ?_, threeFour_normalised, ?_⟩
  · intro c hc
    simp at hc
    rcases hc with rfl | rfl
    · exact ⟨by decide, by norm_num [idle], by rintro i ⟨k, hk⟩; simp [idle] at hk⟩
    · refine ⟨by decide, by norm_num [coarse], ?_⟩
      rintro i ⟨k, hk⟩
      have := List.mem_of_getElem? hk
      simp [coarse] at this
  intro rnd fuel hf
  obtain ⟨f, rfl⟩ : ∃ f, fuel = f + 3 := ⟨fuel - 3, by omega⟩
  have hcp : copyColl (1 / 10000) 0 threeFour = some threeFour := by
    refine (copyColl_iff (by simp [threeFour])).2 ⟨?_, rfl⟩
    intro p hp
    obtain rfl : p = (['a'], ⟨['0', '0'], 1, [(['0', '0'], ⟨3 / 5, 9 / 25⟩), (['0', '1'], ⟨4 / 5, 16 / 25⟩)], [], []⟩) := by simpa [threeFour] using hp
    norm_num [CheckValid]
  have h1 : Cfg.parse ⟨2, 2, true⟩ ['0', '0'] = some [0, 0] := by decide
  have h2 : Cfg.render ⟨2, 2, true⟩ [0, 0] = some ['0', '0'] := by decide
  have h3 : Cfg.parse ⟨2, 2, true⟩ ['0', '1'] = some [0, 1] := by decide
  have h4 : Cfg.render ⟨2, 2, true⟩ [0, 1] = some ['0', '1'] := by decide
  have ha : adjustLength ⟨⟨2, 2, true⟩, 0, 1 / 10000, threeFour⟩ 2 = some ⟨⟨2, 2, true⟩, 0, 1 / 10000, threeFour⟩ := by
    norm_num [adjustLength, threeFour, newState, Cfg.Ok, h1, h2, h3, h4, Dict.set, CheckValid, show ¬ ('0' = '1') by decide]
  have hr : ∀ r r', reshape idle coarse r r' threeFour = some ⟨⟨2, 2, true⟩, 0, 1 / 10000, threeFour⟩ := by
    intro r r'
    exact reshape_parts.2 ⟨threeFour, _, _, hcp, by rw [if_neg (by decide), if_neg (by decide)],
      by rw [if_neg (by simp [coarse, idle]), if_neg (by simp [coarse, idle])]; rfl, ha⟩
  obtain ⟨i, q, hk1, hk2⟩ := identity_keeps (thr := 1 / 10000) (by norm_num) (rnd 1 0 true)
  obtain ⟨i', q', hk3, hk4⟩ := identity_keeps (thr := 1 / 2) (by norm_num) (rnd 1 0 true)
  have hbridge : (compoundEnv idle [idle, coarse] 0).nodes = [.bridge 1] := by simp [compoundEnv, idle]
  have hone : compoundEnv idle [idle, coarse] 1 = coarse := by simp [compoundEnv]
  have hzero : (compoundEnv idle [idle, coarse] 0).settings = idle.settings := by simp [compoundEnv, Circ.settings]
  have hre : ∀ r r', reshapeHeld (compoundEnv idle [idle, coarse] 0) coarse r r' ⟨idle.settings, idle.settings, threeFour⟩
      = some ⟨⟨⟨2, 2, true⟩, 0, defaultThr⟩, ⟨⟨2, 2, true⟩, 0, 1 / 10000⟩, threeFour⟩ := by
    intro r r'
    have e : reshapeHeld (compoundEnv idle [idle, coarse] 0) coarse r r' ⟨idle.settings, idle.settings, threeFour⟩
        = reshapeHeld idle coarse r r' ⟨idle.settings, idle.settings, threeFour⟩ := rfl
    rw [e, reshapeHeld_settings, hr]
    rfl
  refine ⟨i, i', q, q', ⟨coarse.settings, ⟨⟨2, 2, true⟩, 0, 1 / 10000⟩, [(i, q)]⟩, ?_, rfl, ?_, ?_, ?_⟩
  · have hrange : List.range (compoundEnv idle [idle, coarse] 0).nodes.length = [0] := by rw [hbridge]; rfl
    have hrange' : List.range coarse.nodes.length = [0] := rfl
    rw [evalCompoundHeld, hrange, evalHeld_bridge (n := 1) (by rw [hbridge]; simp) (by rw [hbridge]; rfl), hone,
      show (List.getD [idle, coarse] 0 idle).settings = idle.settings from rfl, hre, Option.bind_some, hrange',
      evalHeld_node (n := .fockMatrix identity4) (by rw [hone]; simp [coarse]) (by rw [hone]; rfl) rfl (by intro j h; cases h), hone]
    have hc : customHeld ⟨⟨2, 2, true⟩, 0, 1 / 10000⟩ identity4 (rnd 1 0 true) threeFour = some [(i, q)] := hk1
    rw [nodeHeld, hc]
    rfl
  · rw [hk2, if_neg (by norm_num)]
  · have hlen : [idle, coarse].length - 1 = 1 := rfl
    rw [hlen]
    simp only [stages]
    have e0 : evalAll (fun j => [idle, coarse].getD j idle) rnd (([idle, coarse].getD 0 idle).nodes.length + 1) 0 threeFour = some threeFour := rfl
    rw [e0, Option.bind_some]
    have e1 : reshape ([idle, coarse].getD 0 idle) ([idle, coarse].getD (0 + 1) idle) (rnd 0 ([idle, coarse].getD 0 idle).nodes.length true)
        (rnd 0 ([idle, coarse].getD 0 idle).nodes.length false) threeFour = some ⟨⟨2, 2, true⟩, 0, 1 / 10000, threeFour⟩ := hr _ _
    rw [e1]
    have hrange' : List.range ([idle, coarse].getD 1 idle).nodes.length = [0] := rfl
    have hl : ([idle, coarse].getD 1 idle).nodes.length + 1 = 1 + 1 := rfl
    simp only [Option.map_some, Option.bind_some, Nat.zero_add]
    rw [evalAll, hrange', hl, evalNodes_node (by simp [coarse]) (by simp [coarse]) (by simp [isOpt, coarse, Node.isOptical])]
    have hc : nodeEff (fun j => [idle, coarse].getD j idle) rnd 1 0 threeFour = some [(i', q')] := hk3
    rw [hc]
    rfl
  · rw [hk4, if_pos (by norm_num)]

end Verif.Props
