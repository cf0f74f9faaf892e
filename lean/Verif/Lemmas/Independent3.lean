/- Helper lemmas: reshaping for a bridge and compound circuits treat every state on its own. -/
import Verif.Lemmas.Independent2
import Verif.Props.Evaluate

namespace Verif
open Spec Props

/-- an operation that treats every state on its own leaves the empty collection empty -/
theorem _root_.Verif.Spec.ActsPerState.empty {s : Coll → Option Collection} {f : QState → Option (List QState)}
    (h : ActsPerState (fun st => (s st).map Collection.states) f) : ∃ out, s [] = some out ∧ out.states = [] := by
  have := h.states [] (by simp)
  cases hs : s [] with
  | none => rw [hs] at this; cases this
  | some out =>
    rw [hs] at this
    refine ⟨out, rfl, ?_⟩
    have h1 : statesOf out.states = [] := Option.some.inj this
    exact List.map_eq_nil_iff.1 h1

/-- two steps that change the settings of the collection -/
theorem actsPerState_chain {s : Coll → Option Collection} {t : Collection → Option Collection} {g : Cfg} {m : ℕ} {thr : ℝ}
    {f f' : QState → Option (List QState)} (h1 : ActsPerState (fun st => (s st).map Collection.states) f)
    (hs : ∀ st out, s st = some out → out = ⟨g, m, thr, out.states⟩ ∨ (out.states = [] ∧ ∃ out', t out = some out' ∧ out'.states = []))
    (h2 : ActsPerState (fun st => (t ⟨g, m, thr, st⟩).map Collection.states) f') :
    ActsPerState (fun st => ((s st).bind t).map Collection.states) (fun q => (f q).bind (fun qs => (qs.mapM f').map List.flatten)) := by
  refine (h1.comp h2).congr ?_
  intro coll _
  cases hc : s coll with
  | none => rfl
  | some out =>
    simp only [Option.bind_some, Option.map_some]
    rcases hs coll out hc with e | ⟨e, out', ho, e'⟩
    · rw [e]
    · obtain ⟨o2, h3, h4⟩ := ActsPerState.empty (s := fun st => t ⟨g, m, thr, st⟩) h2
      rw [ho, e, h3, Option.map_some, Option.map_some, e', h4]

/-- circuit.py 566-572: the second part of the reshaping -/
noncomputable def reshapeTail (m' L' m : ℕ) (r' : ℕ → ℕ → ℕ) (b : Collection) : Option Collection :=
  (if m' > m then extendColl b 0 (m' - m) [] r' else if m' < m then reduceColl b [] (List.range m') else some b).bind (fun d => adjustLength d L')

theorem actsPerState_tail {g : Cfg} (hg : g.Ok) (m m' : ℕ) {L' : ℕ} (hL : 1 ≤ L') {thr : ℝ} (ht : 0 < thr) :
    ∃ f, KeepsLabel f ∧ ∀ r', ActsPerState (fun st => (reshapeTail m' L' m r' ⟨g, m, thr, st⟩).map Collection.states) f := by
  have hadj : ∀ m0, ActsPerState (fun st => (adjustLength ⟨g, m0, thr, st⟩ L').map Collection.states) (fun q => (adjustOne g m0 thr L' q).map (fun q' => [q'])) :=
    fun m0 => actsPerState_adjust hL hg.2
  unfold reshapeTail
  by_cases h1 : m' > m
  · simp only [if_pos h1]
    obtain ⟨f, hk, hf⟩ := actsPerState_extend hg m ht 0 (m' - m)
    refine ⟨_, hk.comp (keepsLabel_adjust g m' thr L'), fun r' => ?_⟩
    refine actsPerState_chain (t := fun d => adjustLength d L') (hf r') (g := g) (m := m') (thr := thr) ?_ (hadj m')
    intro st out h
    left
    obtain ⟨e1, e2, e3, -⟩ := extendColl_shape h
    obtain ⟨og, om, ot, os⟩ := out
    simp only at e1 e2 e3
    rw [e1, e2, e3]
    have : m + (m' - m) = m' := by omega
    rw [this]
    rfl
  simp only [if_neg h1]
  by_cases h2 : m' < m
  · simp only [if_pos h2]
    have k1 : ∀ c ∈ orAll g.C [], c < g.C := by intro c hc; simpa [orAll] using hc
    have k2 : ∀ c ∈ orAll m (List.range m'), c < m := by
      intro c hc
      unfold orAll at hc
      split at hc
      · simpa using hc
      · have : c < m' := by simpa using hc
        omega
    have k3 : (keptCfg g (orAll g.C [])).Ok := by
      refine ⟨hg.1, ?_⟩
      have := hg.2
      simpa [keptCfg, orAll] using this
    have hr := actsPerState_reduce (thr := thr) k1 k2 k3
    refine ⟨_, (reduceOne_label (g := g) (thr := thr) (keep := orAll g.C []) (ckeep := orAll m (List.range m'))).comp
      (keepsLabel_adjust g (if List.range m' = [] then m else (List.range m').length) thr L'), fun r' => ?_⟩
    refine actsPerState_chain (t := fun d => adjustLength d L') hr (g := g) (thr := thr) ?_ (hadj _)
    intro st out h
    obtain ⟨e1, e2, e3⟩ := reduceColl_shape h
    by_cases hst : st = []
    · right
      have := e2 hst
      subst hst
      rw [this]
      exact ⟨rfl, ActsPerState.empty (s := fun st => adjustLength ⟨g, m, thr, st⟩ L') (hadj m)⟩
    · left
      obtain ⟨e4, e5⟩ := e3 hst
      obtain ⟨og, om, ot, os⟩ := out
      simp only at e1 e4 e5
      rw [e1, e4, e5]
      simp
  · simp only [if_neg h2]
    exact ⟨_, keepsLabel_adjust g m thr L', fun r' => hadj m⟩

theorem reshape_eq (c next : Circ) (r r' : ℕ → ℕ → ℕ) (coll : Coll) :
    reshape c next r r' coll = (copyColl c.thr c.m coll).bind (fun st =>
      (if next.g.C > c.g.C then extendColl ⟨c.g, c.m, c.thr, st⟩ (next.g.C - c.g.C) 0 [] r
        else if next.g.C < c.g.C then reduceColl ⟨c.g, c.m, c.thr, st⟩ (List.range next.g.C) [] else some ⟨c.g, c.m, c.thr, st⟩).bind
        (reshapeTail next.m next.g.L c.m r')) := by
  unfold reshape reshapeTail
  simp only [Option.bind_eq_bind]
  congr 1
  funext st
  split_ifs <;> simp

theorem actsPerState_reshape {c next : Circ} (hc : c.g.Ok) (hn : next.g.Ok) (ht : 0 < c.thr) :
    ∃ f, KeepsLabel f ∧ ∀ r r', ActsPerState (fun coll => (reshape c next r r' coll).map Collection.states) f := by
  -- the first step
  have key : ∃ f, KeepsLabel f ∧ ∀ r r', ActsPerState (fun st => ((if next.g.C > c.g.C then extendColl ⟨c.g, c.m, c.thr, st⟩ (next.g.C - c.g.C) 0 [] r
        else if next.g.C < c.g.C then reduceColl ⟨c.g, c.m, c.thr, st⟩ (List.range next.g.C) [] else some ⟨c.g, c.m, c.thr, st⟩).bind
        (reshapeTail next.m next.g.L c.m r')).map Collection.states) f := by
    by_cases h1 : next.g.C > c.g.C
    · simp only [if_pos h1]
      obtain ⟨f, hk, hf⟩ := actsPerState_extend hc c.m ht (next.g.C - c.g.C) 0
      obtain ⟨f2, hk2, hf2⟩ := actsPerState_tail (g := ⟨c.g.L, next.g.C, c.g.left⟩) ⟨hc.1, hn.2⟩ c.m next.m hn.1 ht
      refine ⟨_, hk.comp hk2, fun r r' => actsPerState_chain (hf r) ?_ (hf2 r')⟩
      intro st out h
      left
      obtain ⟨e1, e2, e3, -⟩ := extendColl_shape h
      obtain ⟨og, om, ot, os⟩ := out
      simp only at e1 e2 e3
      rw [e1, e2, e3]
      have : c.g.C + (next.g.C - c.g.C) = next.g.C := by omega
      rw [this]
      rfl
    simp only [if_neg h1]
    by_cases h2 : next.g.C < c.g.C
    · simp only [if_pos h2]
      have hC := hn.2
      have hne : List.range next.g.C ≠ [] := by
        intro h
        have := congrArg List.length h
        simp at this
        omega
      have k1 : ∀ i ∈ orAll c.g.C (List.range next.g.C), i < c.g.C := by
        intro i hi
        unfold orAll at hi
        rw [if_neg hne, List.mem_range] at hi
        omega
      have k2 : ∀ i ∈ orAll c.m [], i < c.m := by intro i hi; simpa [orAll] using hi
      have k3 : (keptCfg c.g (orAll c.g.C (List.range next.g.C))).Ok := by
        unfold orAll
        rw [if_neg hne]
        exact ⟨hc.1, by simpa [keptCfg] using hC⟩
      have hr := actsPerState_reduce (thr := c.thr) k1 k2 k3
      obtain ⟨f2, hk2, hf2⟩ := actsPerState_tail (g := ⟨c.g.L, next.g.C, c.g.left⟩) ⟨hc.1, hn.2⟩ c.m next.m hn.1 ht
      obtain ⟨f3, hk3, hf3⟩ := actsPerState_tail hc c.m next.m hn.1 ht
      refine ⟨_, (reduceOne_label (g := c.g) (thr := c.thr) (keep := orAll c.g.C (List.range next.g.C)) (ckeep := orAll c.m [])).comp hk2,
        fun r r' => actsPerState_chain hr ?_ (hf2 r')⟩
      intro st out h
      obtain ⟨e1, e2, e3⟩ := reduceColl_shape h
      by_cases hst : st = []
      · right
        have := e2 hst
        subst hst
        rw [this]
        exact ⟨rfl, ActsPerState.empty (s := fun st => reshapeTail next.m next.g.L c.m r' ⟨c.g, c.m, c.thr, st⟩) (hf3 r')⟩
      · left
        obtain ⟨e4, e5⟩ := e3 hst
        obtain ⟨og, om, ot, os⟩ := out
        simp only at e1 e4 e5
        rw [e1, e4, e5]
        simp [hne]
    · simp only [if_neg h2, Option.bind_some]
      obtain ⟨f2, hk2, hf2⟩ := actsPerState_tail hc c.m next.m hn.1 ht
      exact ⟨f2, hk2, fun r r' => hf2 r'⟩
  obtain ⟨f, hk, hf⟩ := key
  have hcopy : KeepsLabel (fun q => (copyState c.thr c.m q).map (fun q' => [q'])) := by
    apply keepsLabel_single
    intro q q' h
    unfold copyState at h
    split at h
    · obtain rfl := Option.some.inj h; rfl
    · cases h
  refine ⟨_, hcopy.comp hk, fun r r' => ((actsPerState_copy c.thr c.m).comp (hf r r')).congr ?_⟩
  intro coll _
  rw [reshape_eq]
  cases copyColl c.thr c.m coll <;> rfl

/-- one circuit after the other -/
theorem actsPerState_stages {G : Prop} {run between : (ℕ → ℕ → Bool → ℕ → ℕ → ℕ) → ℕ → Coll → Option Coll} (n i : ℕ)
    (h1 : ∀ j, i ≤ j → j ≤ i + n → ∃ f, (G → KeepsLabel f) ∧ ∀ rnd, ActsPerState (run rnd j) f)
    (h2 : ∀ j, i ≤ j → j < i + n → ∃ f, KeepsLabel f ∧ ∀ rnd, ActsPerState (between rnd j) f) :
    ∃ f, (G → KeepsLabel f) ∧ ∀ rnd, ActsPerState (stages (run rnd) (between rnd) i n) f := by
  induction n generalizing i with
  | zero => exact h1 i le_rfl (by omega)
  | succ n ih =>
    obtain ⟨f, hk, hf⟩ := h1 i le_rfl (by omega)
    obtain ⟨f2, hk2, hf2⟩ := h2 i le_rfl (by omega)
    obtain ⟨f3, hk3, hf3⟩ := ih (i + 1) (fun j a b => h1 j (by omega) (by omega)) (fun j a b => h2 j (by omega) (by omega))
    exact ⟨_, fun hg => (hk hg).comp (hk2.comp (hk3 hg)), fun rnd => (hf rnd).comp ((hf2 rnd).comp (hf3 rnd))⟩

/-- a compound circuit -/
theorem compound_perState (d : Circ) (cs : List Circ) (hne : cs ≠ []) (hp : ∀ c ∈ cs, PlainNodes c (List.range c.nodes.length))
    (hg : ∀ c ∈ cs, c.g.Ok) (ht : ∀ c ∈ cs, 0 < c.thr) :
    ∃ f, ((∀ c ∈ cs, ∀ (i : ℕ) h, c.nodes[i]? ≠ some (Node.generic h)) → KeepsLabel f) ∧
      ∀ rnd, ∃ F, ∀ fuel ≥ F, ActsPerState (evalCompound d cs rnd fuel) f := by
  have hlen : 0 < cs.length := List.length_pos_iff.2 hne
  have hmem : ∀ i < cs.length, cs.getD i d ∈ cs := by
    intro i hi
    rw [List.getD_eq_getElem _ _ hi]; exact List.getElem_mem hi
  obtain ⟨f, hk, hf⟩ := actsPerState_stages (G := ∀ c ∈ cs, ∀ (i : ℕ) h, c.nodes[i]? ≠ some (Node.generic h))
    (run := fun rnd i coll => evalAll (fun j => cs.getD j d) rnd ((cs.getD i d).nodes.length + 1) i coll)
    (between := fun rnd i coll => (reshape (cs.getD i d) (cs.getD (i + 1) d) (rnd i (cs.getD i d).nodes.length true)
        (rnd i (cs.getD i d).nodes.length false) coll).map Collection.states) (cs.length - 1) 0 (by
      intro j _ hj
      have hm := hmem j (by omega)
      obtain ⟨f, hk, hf⟩ := eval_perState (fun j => cs.getD j d) j ((cs.getD j d).nodes.length + 1) (List.range (cs.getD j d).nodes.length)
        (hp _ hm) (by simp)
      exact ⟨f, fun hG => hk (fun i _ h => hG _ hm i h), hf⟩) (by
      intro j _ hj
      have hm := hmem j (by omega)
      have hm' := hmem (j + 1) (by omega)
      obtain ⟨f, hk, hf⟩ := actsPerState_reshape (hg _ hm) (hg _ hm') (ht _ hm)
      exact ⟨f, hk, fun rnd => hf _ _⟩)
  refine ⟨f, hk, fun rnd => ?_⟩
  obtain ⟨F, hF⟩ := C46_composition (rnd := rnd) d cs hne (by
    rintro c hc i ⟨n, hn⟩
    have hi : i < c.nodes.length := (List.getElem?_eq_some_iff.1 hn).1
    exact (hp c hc).bridges i (by simpa using hi) n hn)
  refine ⟨F, fun fuel hfu => (hf rnd).congr ?_⟩
  intro coll _
  exact hF fuel hfu coll

/-- the states with one label can be treated alone -/
theorem _root_.Verif.Spec.ActsPerState.labels {F F' : Coll → Option Coll} {f : QState → Option (List QState)} (hF : ActsPerState F f) (hF' : ActsPerState F' f)
    (hk : KeepsLabel f) (coll out : Coll) (hid : (coll.map Prod.fst).Nodup) (h : F coll = some out) (label : List Char) :
    ∃ out', F' (coll.filter (fun p => p.2.initial = label)) = some out' ∧ statesOf out' = (statesOf out).filter (fun q => q.initial = label) := by
  have h1 := hF.states coll hid
  rw [h] at h1
  obtain ⟨qss, hq, e⟩ := Option.map_eq_some_iff.1 h1.symm
  have hid' : ((coll.filter (fun p => p.2.initial = label)).map Prod.fst).Nodup := hid.sublist (List.filter_sublist.map _)
  have h2 := hF'.states _ hid'
  have key : ∀ (l : List QState) (qss : List (List QState)), List.Forall₂ (fun q qs => f q = some qs) l qss →
      ((l.filter (fun q => q.initial = label)).mapM f).map List.flatten = some (qss.flatten.filter (fun q => q.initial = label)) := by
    intro l qss hl
    induction hl with
    | nil => rfl
    | cons ha htail ih =>
      rename_i q qs l qss
      rw [List.flatten_cons, List.filter_append]
      by_cases hlab : q.initial = label
      · rw [List.filter_cons_of_pos (by simpa using hlab), mapM_cons_opt, ha, Option.bind_some]
        obtain ⟨y, hy, e⟩ := Option.map_eq_some_iff.1 ih
        rw [hy, Option.map_some, Option.map_some, List.flatten_cons, e]
        congr 2
        symm
        rw [List.filter_eq_self]
        intro q' hq'
        rw [hk q qs ha q' hq', hlab]
        simp
      · rw [List.filter_cons_of_neg (by simpa using hlab), ih]
        congr 1
        have : qs.filter (fun q => q.initial = label) = [] := by
          rw [List.filter_eq_nil_iff]
          intro q' hq'
          rw [hk q qs ha q' hq']
          simpa using hlab
        rw [this, List.nil_append]
  have h3 := key _ _ ((forall₂_mapM _ _ _).1 hq)
  have h4 : statesOf (coll.filter (fun p => p.2.initial = label)) = (statesOf coll).filter (fun q => q.initial = label) := by
    unfold statesOf
    rw [List.filter_map]
    rfl
  rw [h4, h3] at h2
  obtain ⟨out', ho, e'⟩ := Option.map_eq_some_iff.1 h2
  exact ⟨out', ho, by rw [e', e]⟩

end Verif
