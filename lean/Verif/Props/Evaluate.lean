/-
Properties C31, C46, C47: evaluation of circuits.
-/
import Verif.Spec.Evaluate
import Verif.Lemmas.Evaluate
import Verif.Props.Apply
import Verif.Props.Measurement

namespace Verif.Props
open Verif Spec

variable {env : ℕ → Circ} {rnd : ℕ → ℕ → Bool → ℕ → ℕ → ℕ}

theorem isOpt_iff {c : Circ} {i : ℕ} : isOpt c i = true ↔ IsOptical c i := by
  unfold isOpt IsOptical
  cases h : c.nodes[i]? with
  | none => simp
  | some n => cases n <;> simp [Node.isOptical]

/-- **C31** (partial: the list must be increasing) Evaluating an increasing list of existing nodes in two parts gives the same as evaluating it
at once, as long as the list is not cut between two optical nodes. -/
theorem C31_split_partial (k : ℕ) (l₁ l₂ : List ℕ) (hs : (l₁ ++ l₂).Pairwise (· < ·)) (hv : ValidNodes (env k) (l₁ ++ l₂))
    (hcut : ∀ i ∈ l₁.getLast?, ∀ j ∈ l₂.head?, ¬ (IsOptical (env k) i ∧ IsOptical (env k) j))
    (fuel : ℕ) (hf : (l₁ ++ l₂).length < fuel) (coll : Coll) :
    evalNodes env rnd fuel k (l₁ ++ l₂) coll = (evalNodes env rnd fuel k l₁ coll).bind (evalNodes env rnd fuel k l₂) := by
  rw [List.length_append] at hf
  refine evalNodes_append l₁ l₂ hs (fun j hj => (hv j hj).1) ?_ ?_ _ _ _ hf (by omega) (by omega) coll
  · intro i hi n hn
    exact (hv i hi).2 ⟨n, hn⟩
  · intro i hi j hj
    rw [isOpt_iff, isOpt_iff]
    exact hcut i hi j hj

/-- **C31** (partial: increasing, no two optical nodes next to each other) The listed nodes are applied one by one, each once, in the listed order. -/
theorem C31_in_order_partial (k : ℕ) (l : List ℕ) (hs : l.Pairwise (· < ·)) (hv : ValidNodes (env k) l)
    (hadj : l.IsChain (fun i j => ¬ (IsOptical (env k) i ∧ IsOptical (env k) j)))
    (fuel : ℕ) (hf : l.length + 1 < fuel) (coll : Coll) :
    evalNodes env rnd fuel k l coll = l.foldlM (fun coll i => evalNodes env rnd fuel k [i] coll) coll := by
  induction l generalizing coll with
  | nil =>
    obtain ⟨f, rfl⟩ : ∃ f, fuel = f + 1 := ⟨fuel - 1, by omega⟩
    rfl
  | cons i l ih =>
    rw [List.length_cons] at hf
    rw [List.foldlM_cons, ← List.singleton_append, C31_split_partial k [i] l (by simpa using hs) (by simpa using hv) ?_ fuel (by simp; omega)]
    · congr 1
      funext coll
      refine ih (List.pairwise_cons.1 hs).2 (fun j hj => hv j (by simp [hj])) ?_ (by omega) coll
      exact hadj.tail
    · intro a ha b hb
      obtain rfl : i = a := by simpa using ha
      cases l with
      | nil => cases hb
      | cons j l =>
        obtain rfl : j = b := by simpa using hb
        exact (List.isChain_cons_cons.1 hadj).1

/-- **C31** A list with an index that does not exist is refused. -/
theorem C31_refused (k : ℕ) (l : List ℕ) (h : ∃ i ∈ l, (env k).nodes.length ≤ i) (fuel : ℕ) (coll : Coll) :
    evalNodes env rnd fuel k l coll = none := evalNodes_invalid h

/-- **C31** An empty list returns the input. -/
theorem C31_nothing (k fuel : ℕ) (coll : Coll) : evalNodes env rnd (fuel + 1) k [] coll = some coll := rfl


/-! ### a run of optical nodes -/

theorem comps_ne_nil {c : Comps} (h : totalProb c = 1) : c ≠ [] := by
  rintro rfl
  simp [totalProb] at h

/-- the state after a run of optical nodes -/
noncomputable def afterRun (g : Cfg) (thr : ℝ) (ns : List (Opt × List ℕ)) (q : QState) : QState :=
  { q with comps := (fromVector g thr (oneByOne g ns (vec g q.comps))).getD [] }

theorem opticalColl_map {c : Circ} (hg : c.g.Ok) (ht : 0 ≤ c.thr) {n : Opt × List ℕ} {l : List (Opt × List ℕ)}
    (hn : ∀ m ∈ n :: l, OnChannels c.g m) {coll : Coll} (hc : Normalised c.g c.m coll) :
    opticalColl c n l coll = some (coll.map (fun p => (p.1, afterRun c.g c.thr (n :: l) p.2))) := by
  rw [opticalColl_iff c n l coll hc.ids]
  refine ⟨fun p hp => measurable_check (hc.states p hp).1 ht, ?_⟩
  rw [List.forall₂_map_right_iff, List.forall₂_same]
  intro p hp
  obtain ⟨hm, h1⟩ := hc.states p hp
  obtain ⟨c', hc', -⟩ := fromVector_spec hg.1 c.thr (oneByOne c.g (n :: l) (vec c.g p.2.comps))
  refine ⟨c', ?_, ?_⟩
  · rw [← hc']
    exact applyOptical_eq hg c.thr c.full n l (hn n (by simp)) (fun m hm => hn m (by simp [hm])) hm.wf (comps_ne_nil h1)
  · rw [afterRun, hc']; rfl

/-- no non-zero amplitude of the vector is below the threshold -/
def Keeps (g : Cfg) (thr : ℝ) (x : ℕ → ℂ) : Prop := ∀ i < g.L ^ g.C, ‖x i‖ ^ 2 < thr → x i = 0

theorem afterRun_vec {g : Cfg} (hg : g.Ok) {thr : ℝ} {ns : List (Opt × List ℕ)} {q : QState}
    (hk : Keeps g thr (oneByOne g ns (vec g q.comps))) {i : ℕ} (hi : i < g.size) :
    vec g (afterRun g thr ns q).comps i = oneByOne g ns (vec g q.comps) i := by
  obtain ⟨c', hc', -⟩ := fromVector_spec hg.1 thr (oneByOne g ns (vec g q.comps))
  rw [afterRun, hc', Option.getD_some, vec_fromVector hg.1 hc' hi]
  split
  · rename_i h; exact (hk i hi h).symm
  · rfl

theorem afterRun_normalised {c : Circ} (hg : c.g.Ok) {n : Opt × List ℕ} {l : List (Opt × List ℕ)}
    (hn : ∀ m ∈ n :: l, OnChannels c.g m ∧ m.1 ∈ Matrix.unitaryGroup (Fin 2) ℂ) {q : QState} (hm : Measurable c.g c.m q)
    (h1 : totalProb q.comps = 1) (hk : Keeps c.g c.thr (oneByOne c.g (n :: l) (vec c.g q.comps))) :
    Measurable c.g c.m (afterRun c.g c.thr (n :: l) q) ∧ totalProb (afterRun c.g c.thr (n :: l) q).comps = 1 := by
  obtain ⟨c', hc', hw, hp, -⟩ := fromVector_spec hg.1 c.thr (oneByOne c.g (n :: l) (vec c.g q.comps))
  obtain ⟨x, hx, hxi⟩ := toVector_spec hg.1 hm.wf
  have ho : ∀ i < c.g.size, oneByOne c.g (n :: l) x i = oneByOne c.g (n :: l) (vec c.g q.comps) i :=
    oneByOne_congr _ hxi
  have hc := (C16_norm_preserved c.g hg c.thr true n l (hn n (by simp)).1 (fun m hm => (hn m (by simp [hm])).1)
    (fun m hm => (hn m hm).2) q.comps c' hm.wf (comps_ne_nil h1) x hx (by
      rw [applyOptical_eq hg c.thr true n l (hn n (by simp)).1 (fun m hm => (hn m (by simp [hm])).1) hm.wf (comps_ne_nil h1)]
      exact hc')).2
  have h0 : ∑ i ∈ (Finset.range (c.g.L ^ c.g.C)).filter (fun i => ‖oneByOne c.g (n :: l) x i‖ ^ 2 < c.thr),
      ‖oneByOne c.g (n :: l) x i‖ ^ 2 = 0 := by
    apply Finset.sum_eq_zero
    intro i hi
    obtain ⟨hi, hlt⟩ := Finset.mem_filter.1 hi
    have hi := Finset.mem_range.1 hi
    rw [ho i hi] at hlt ⊢
    rw [hk i hi hlt]; simp
  rw [h0, h1, sub_zero] at hc
  have e : (afterRun c.g c.thr (n :: l) q).comps = c' := by rw [afterRun, hc']; rfl
  refine ⟨⟨by rw [e]; exact hw, by rw [e]; exact hp, by rw [e, hc], hm.cum0, hm.cum1, hm.classical⟩, by rw [e]; exact hc⟩

theorem oneByOne_cons (g : Cfg) (n : Opt × List ℕ) (l : List (Opt × List ℕ)) (x : ℕ → ℂ) :
    oneByOne g (n :: l) x = oneByOne g l (oneByOne g [n] x) := by
  unfold oneByOne
  rw [List.foldl_cons, List.foldl_cons, List.foldl_nil]

theorem opticalColl_cons {c : Circ} (hg : c.g.Ok) (ht : 0 ≤ c.thr) {n m : Opt × List ℕ} {l : List (Opt × List ℕ)}
    (hn : ∀ m' ∈ n :: m :: l, OnChannels c.g m' ∧ m'.1 ∈ Matrix.unitaryGroup (Fin 2) ℂ) {coll : Coll} (hc : Normalised c.g c.m coll)
    (hk : ∀ p ∈ coll, Keeps c.g c.thr (oneByOne c.g [n] (vec c.g p.2.comps))) :
    opticalColl c n (m :: l) coll = (opticalColl c n [] coll).bind (opticalColl c m l) ∧
    ∃ coll', opticalColl c n [] coll = some coll' ∧ Normalised c.g c.m coll' ∧
      ∀ p' ∈ coll', ∃ p ∈ coll, ∀ i < c.g.size, vec c.g p'.2.comps i = oneByOne c.g [n] (vec c.g p.2.comps) i := by
  have e1 := opticalColl_map hg ht (n := n) (l := []) (fun m' hm' => (hn m' (by simp at hm'; simp [hm'])).1) hc
  have hc' : Normalised c.g c.m (coll.map (fun p => (p.1, afterRun c.g c.thr [n] p.2))) := by
    refine ⟨by rw [List.map_map]; exact hc.ids, ?_⟩
    intro p hp
    obtain ⟨p₀, hp₀, rfl⟩ := List.mem_map.1 hp
    exact afterRun_normalised hg (fun m' hm' => hn m' (by simp at hm'; simp [hm'])) (hc.states p₀ hp₀).1 (hc.states p₀ hp₀).2 (hk p₀ hp₀)
  refine ⟨?_, _, e1, hc', ?_⟩
  · rw [e1, Option.bind_some, opticalColl_map hg ht (fun m' hm' => (hn m' (by simp only [List.mem_cons] at hm' ⊢; exact Or.inr hm')).1) hc',
      opticalColl_map hg ht (fun m' hm' => (hn m' hm').1) hc, List.map_map]
    congr 1
    apply List.map_congr_left
    intro p hp
    simp only [Function.comp, Prod.mk.injEq, true_and]
    unfold afterRun
    congr 2
    apply fromVector_congr
    intro i hi
    rw [oneByOne_cons]
    exact oneByOne_congr _ (fun j hj => (afterRun_vec hg (hk p hp) hj).symm) i hi
  · intro p' hp'
    obtain ⟨p, hp, rfl⟩ := List.mem_map.1 hp'
    exact ⟨p, hp, fun i hi => afterRun_vec hg (hk p hp) hi⟩

theorem opticalNodes_eq {c : Circ} {l : List ℕ} {ns : List (Opt × List ℕ)}
    (h : List.Forall₂ (fun i n => c.nodes[i]? = some (.optical n.1 n.2)) l ns) : opticalNodes c l = ns := by
  induction h with
  | nil => rfl
  | cons h _ ih =>
    unfold opticalNodes at ih ⊢
    rw [List.filterMap_cons, h, ih]

theorem eval_optical_list {k : ℕ} {l : List ℕ} {ns : List (Opt × List ℕ)}
    (h : List.Forall₂ (fun i n => (env k).nodes[i]? = some (.optical n.1 n.2)) l ns) (hne : l ≠ []) (fuel : ℕ) (hf : 2 ≤ fuel) (coll : Coll) :
    evalNodes env rnd fuel k l coll = runEff (env k) l coll := by
  obtain ⟨f, rfl⟩ : ∃ f, fuel = f + 2 := ⟨fuel - 2, by omega⟩
  have hopt : ∀ i ∈ l, isOpt (env k) i = true ∧ i < (env k).nodes.length := by
    intro i hi
    obtain ⟨n, -, hn⟩ := forall₂_mem_left' h hi
    refine ⟨isOpt_iff.2 ⟨_, _, hn⟩, ?_⟩
    by_contra hlt
    rw [List.getElem?_eq_none (by omega)] at hn; cases hn
  cases l with
  | nil => exact absurd rfl hne
  | cons i r =>
    rw [evalNodes_run (fun j hj => (hopt j hj).2) (hopt i (by simp)).1]
    have e : (i :: r).takeWhile (isOpt (env k)) = i :: r := by
      have : ∀ l : List ℕ, (∀ j ∈ l, isOpt (env k) j = true) → l.takeWhile (isOpt (env k)) = l := by
        intro l hl
        induction l with
        | nil => rfl
        | cons a l ih => rw [List.takeWhile_cons, if_pos (hl a (by simp)), ih (fun j hj => hl j (by simp [hj]))]
      exact this _ (fun j hj => (hopt j hj).1)
    rw [e]
    have e2 : remaining (i :: r) (i :: r) = [] := by simp [remaining]
    rw [e2]
    cases runEff (env k) (i :: r) coll <;> rfl

/-- **C31** A run of optical nodes (in any order, also with repetitions) acts on every state of the collection independently of the
other states and does not change anything but the optical components; the components are those obtained by applying the node
matrices one after the other in the listed order. -/
theorem C31_optical_run (k : ℕ) (hg : (env k).g.Ok) (ht : 0 ≤ (env k).thr) (l : List ℕ) (ns : List (Opt × List ℕ))
    (h : List.Forall₂ (fun i n => (env k).nodes[i]? = some (.optical n.1 n.2)) l ns) (hne : l ≠ [])
    (hch : ∀ n ∈ ns, OnChannels (env k).g n) (coll : Coll) (hc : Normalised (env k).g (env k).m coll) (fuel : ℕ) (hf : 2 ≤ fuel) :
    ∃ out, evalNodes env rnd fuel k l coll = some out ∧
      List.Forall₂ (fun p p' => p'.1 = p.1 ∧ ∃ x comps, toVector (env k).g p.2.comps = some x ∧
        fromVector (env k).g (env k).thr
          (ns.foldl (fun y m => (fockNode (env k).g (standardKeys (env k).g) m.1 m.2 .all).1.mulVec y) x) = some comps ∧
        p'.2 = { p.2 with comps := comps }) coll out := by
  rw [eval_optical_list h hne fuel hf, runEff, opticalNodes_eq h]
  cases ns with
  | nil => cases h; exact absurd rfl hne
  | cons n ns =>
    refine ⟨_, opticalColl_map hg ht hch hc, ?_⟩
    rw [List.forall₂_map_right_iff, List.forall₂_same]
    intro p hp
    refine ⟨rfl, ?_⟩
    obtain ⟨x, hx, hxi⟩ := toVector_spec hg.1 (hc.states p hp).1.wf
    obtain ⟨c', hc', -⟩ := fromVector_spec hg.1 (env k).thr (oneByOne (env k).g (n :: ns) (vec (env k).g p.2.comps))
    refine ⟨x, c', hx, ?_, ?_⟩
    · rw [← hc']
      apply fromVector_congr
      exact fun i hi => oneByOne_congr (n :: ns) hxi i hi
    · simp only [afterRun, hc', Option.getD_some]

/-- **C31** A run of optical nodes with unitary matrices gives the same collection as evaluating the nodes separately one after the other,
provided no non-zero amplitude falls below the threshold on the way. -/
theorem C31_optical_one_by_one (k : ℕ) (hg : (env k).g.Ok) (ht : 0 ≤ (env k).thr) (l : List ℕ) (ns : List (Opt × List ℕ))
    (h : List.Forall₂ (fun i n => (env k).nodes[i]? = some (.optical n.1 n.2)) l ns) (hne : l ≠ [])
    (hch : ∀ n ∈ ns, OnChannels (env k).g n ∧ n.1 ∈ Matrix.unitaryGroup (Fin 2) ℂ) (coll : Coll)
    (hc : Normalised (env k).g (env k).m coll) (fuel : ℕ) (hf : 2 ≤ fuel)
    (hk : ∀ p ∈ coll, ∀ x, toVector (env k).g p.2.comps = some x → ∀ j, 0 < j → j < ns.length →
      ∀ i < (env k).g.L ^ (env k).g.C, ‖oneByOne (env k).g (ns.take j) x i‖ ^ 2 < (env k).thr → oneByOne (env k).g (ns.take j) x i = 0) :
    evalNodes env rnd fuel k l coll = l.foldlM (fun coll i => evalNodes env rnd fuel k [i] coll) coll := by
  have hk' : ∀ p ∈ coll, ∀ j, 0 < j → j < ns.length → Keeps (env k).g (env k).thr (oneByOne (env k).g (ns.take j) (vec (env k).g p.2.comps)) := by
    intro p hp j h0 hj i hi hlt
    obtain ⟨x, hx, hxi⟩ := toVector_spec hg.1 (hc.states p hp).1.wf
    have e := oneByOne_congr (g := (env k).g) (ns.take j) hxi i hi
    rw [← e] at hlt ⊢
    exact hk p hp x hx j h0 hj i hi hlt
  clear hk
  rw [eval_optical_list h hne fuel hf]
  induction h generalizing coll with
  | nil => exact absurd rfl hne
  | @cons i n l ns hin hrest ih =>
    have single : ∀ coll, evalNodes env rnd fuel k [i] coll = opticalColl (env k) n [] coll := by
      intro coll
      rw [eval_optical_list (ns := [n]) (by simpa using hin) (by simp) fuel hf, runEff, opticalNodes_eq (ns := [n]) (by simpa using hin)]
    rw [List.foldlM_cons, runEff, opticalNodes_eq (List.Forall₂.cons hin hrest), single]
    cases hrest with
    | nil =>
      simp only [List.foldlM_nil]
      cases opticalColl (env k) n [] coll <;> rfl
    | @cons i' m l' ns' hin' hrest' =>
      obtain ⟨e1, coll', e2, hc', hv⟩ := opticalColl_cons hg ht hch hc (fun p hp => hk' p hp 1 (by omega) (by simp))
      simp only
      rw [e1, e2]
      simp only [Option.bind_some, Option.bind_eq_bind]
      have := ih (by simp) (fun n' hn' => hch n' (by simp only [List.mem_cons] at hn' ⊢; exact Or.inr hn')) coll' hc' ?_
      · rw [← this, runEff, opticalNodes_eq (List.Forall₂.cons hin' hrest')]
      · intro p' hp' j h0 hj t ht' hlt
        obtain ⟨p, hp, hpv⟩ := hv p' hp'
        have e := oneByOne_congr (g := (env k).g) ((m :: ns').take j) hpv t ht'
        have e3 : oneByOne (env k).g ((m :: ns').take j) (oneByOne (env k).g [n] (vec (env k).g p.2.comps))
            = oneByOne (env k).g ((n :: m :: ns').take (j + 1)) (vec (env k).g p.2.comps) := by
          rw [List.take_succ_cons, ← oneByOne_cons]
        rw [e, e3] at hlt ⊢
        exact hk' p hp (j + 1) (by omega) (by simpa using hj) t ht' hlt


/-! ### unsorted lists, bridges, compound circuits -/

/-- **C31** violated in general: when the first node to be evaluated is the one with the largest index, all others are silently skipped. -/
theorem C31_skipped (k i : ℕ) (rest : List ℕ) (hv : ValidNodes (env k) (i :: rest)) (ho : ¬ IsOptical (env k) i)
    (hmax : ∀ j ∈ rest, j ≤ i) (fuel : ℕ) (hf : 2 ≤ fuel) (coll : Coll) :
    evalNodes env rnd fuel k (i :: rest) coll = evalNodes env rnd fuel k [i] coll := by
  obtain ⟨f, rfl⟩ : ∃ f, fuel = f + 2 := ⟨fuel - 2, by omega⟩
  have ho' : isOpt (env k) i = false := by
    rw [Bool.eq_false_iff]; exact fun h => ho (isOpt_iff.1 h)
  have hb : ∀ n, (env k).nodes[i]? ≠ some (.bridge n) := fun n hn => (hv i (by simp)).2 ⟨n, hn⟩
  rw [evalNodes_node (fun j hj => (hv j hj).1) hb ho', evalNodes_node (rest := []) (fun j hj => (hv j (by simp at hj; simp [hj])).1) hb ho']
  have e1 : remaining [i] (i :: rest) = [] := by
    unfold remaining
    rw [if_pos]
    refine foldr_max_le.2 ?_
    intro j hj
    rcases List.mem_cons.1 hj with h | h
    · simp [h]
    · have := hmax j h
      simp; omega
  have e2 : remaining [i] [i] = [] := by simp [remaining]
  rw [e1, e2]

/-- two classical nodes that set the only classical channel to 1 and to 2 -/
noncomputable def twoSetters : Circ := ⟨⟨2, 2, true⟩, 1, 0, false,
  [.classical (fun _ new _ => some new) [1] [0], .classical (fun _ new _ => some new) [2] [0]]⟩

/-- one state, with classical value 0 -/
noncomputable def oneState : Coll := [(['a'], ⟨['0', '0'], 1, [(['0', '0'], ⟨1, 1⟩)], [0], []⟩)]

theorem oneState_normalised : Normalised ⟨2, 2, true⟩ 1 oneState := by
  refine ⟨by simp [oneState], ?_⟩
  intro p hp
  obtain rfl : p = (['a'], ⟨['0', '0'], 1, [(['0', '0'], ⟨1, 1⟩)], [0], []⟩) := by simpa [oneState] using hp
  refine ⟨⟨?_, ?_, by simp [totalProb], by simp, by simp, by simp⟩, by simp [totalProb]⟩
  · exact wf_enc (g := ⟨2, 2, true⟩) (l := [([0, 0], ⟨1, 1⟩)]) ⟨by simp, by intro p hp; simp at hp; subst hp; exact ⟨rfl, by decide⟩⟩
  · intro p hp
    obtain rfl : p = (['0', '0'], ⟨1, 1⟩) := by simpa using hp
    simp

/-- **C31** fails for lists that are not increasing: evaluating nodes `[1, 0]` of a circuit is not the same as evaluating node 1 and then
node 0 (node 0 is silently skipped). -/
theorem C31_fails : ∃ (c : Circ) (l : List ℕ) (coll : Coll), ValidNodes c l ∧ c.g.Ok ∧ Normalised c.g c.m coll ∧
    ∀ rnd fuel, 2 ≤ fuel → ∃ out, evalNodes (fun _ => c) rnd fuel 0 l coll = some out ∧
      some out ≠ l.foldlM (fun coll i => evalNodes (fun _ => c) rnd fuel 0 [i] coll) coll := by
  refine ⟨twoSetters, [1, 0], oneState, ?_, by decide, ?_, ?_⟩
  · intro i hi
    have : i = 1 ∨ i = 0 := by simpa using hi
    rcases this with rfl | rfl
    · exact ⟨by simp [twoSetters], by rintro ⟨k, hk⟩; simp [twoSetters] at hk⟩
    · exact ⟨by simp [twoSetters], by rintro ⟨k, hk⟩; simp [twoSetters] at hk⟩
  · exact oneState_normalised
  · intro rnd fuel hf
    obtain ⟨f, rfl⟩ : ∃ f, fuel = f + 2 := ⟨fuel - 2, by omega⟩
    refine ⟨[(['a'], ⟨['0', '0'], 1, [(['0', '0'], ⟨1, 1⟩)], [2], []⟩)], ?_, ?_⟩
    · simp [evalNodes, twoSetters, classicalColl, oneState, remaining]
    · simp [evalNodes, twoSetters, classicalColl, oneState, remaining]

/-- **C47** violated in general: the nodes after a bridge are never evaluated, whatever they are. -/
theorem C47_ignored (k b n : ℕ) (hb : (env k).nodes[b]? = some (.bridge n)) (fuel : ℕ) (coll : Coll) :
    evalAll env rnd fuel k coll = evalNodes env rnd fuel k (List.range (b + 1)) coll := by
  have hlt : b < (env k).nodes.length := by
    by_contra h
    rw [List.getElem?_eq_none (by omega)] at hb; cases hb
  have e : List.range (env k).nodes.length = List.range b ++ b :: (List.range' (b + 1) ((env k).nodes.length - (b + 1))) := by
    rw [List.range_eq_range', List.range_eq_range', ← List.range'_succ, show (env k).nodes.length = b + ((env k).nodes.length - (b + 1) + 1) by omega]
    have := @List.range'_append 0 b ((env k).nodes.length - (b + 1) + 1) 1
    simp only [Nat.zero_add, Nat.one_mul] at this
    rw [← this]
    congr 2
    omega
  have hs : (List.range (env k).nodes.length).Pairwise (· < ·) := List.pairwise_lt_range
  have hv : ∀ j ∈ List.range (env k).nodes.length, j < (env k).nodes.length := fun j hj => List.mem_range.1 hj
  rw [e] at hs hv
  rw [evalAll, e, evalNodes_after_bridge hb fuel (List.range b) _ hs hv, List.range_succ]

/-- a circuit with a bridge followed by a node that sets the classical channel to 1 -/
noncomputable def bridgeFirst : Circ := ⟨⟨2, 2, true⟩, 1, 0, false, [.bridge 1, .classical (fun _ new _ => some new) [1] [0]]⟩

/-- an empty circuit -/
noncomputable def emptyCirc : Circ := ⟨⟨2, 2, true⟩, 1, 0, false, []⟩

theorem reshape_same (r r' : ℕ → ℕ → ℕ) : reshape bridgeFirst emptyCirc r r' oneState = some ⟨⟨2, 2, true⟩, 1, 0, oneState⟩ := by
  have hc : copyColl 0 1 oneState = some oneState := by
    refine (copyColl_iff (by simp [oneState])).2 ⟨?_, rfl⟩
    intro p hp
    obtain rfl : p = (['a'], ⟨['0', '0'], 1, [(['0', '0'], ⟨1, 1⟩)], [0], []⟩) := by simpa [oneState] using hp
    simp [CheckValid]
  have h1 : Cfg.parse ⟨2, 2, true⟩ ['0', '0'] = some [0, 0] := by decide
  have h2 : Cfg.render ⟨2, 2, true⟩ [0, 0] = some ['0', '0'] := by decide
  have ha : adjustLength ⟨⟨2, 2, true⟩, 1, 0, oneState⟩ 2 = some ⟨⟨2, 2, true⟩, 1, 0, oneState⟩ := by
    simp [adjustLength, oneState, newState, Cfg.Ok, h1, h2, Dict.set, CheckValid]
  simp [reshape, bridgeFirst, emptyCirc, hc, ha]

/-- **C47** fails: the result of a circuit with a bridge differs from the result of its nodes one after the other. -/
theorem C47_fails : ∃ (env : ℕ → Circ) (coll : Coll), (∀ k, (env k).g.Ok) ∧ ∀ rnd fuel, 3 ≤ fuel →
    ∃ out, evalAll env rnd fuel 0 coll = some out ∧
      some out ≠ (List.range (env 0).nodes.length).foldlM (fun coll i => evalNodes env rnd fuel 0 [i] coll) coll := by
  refine ⟨fun k => if k = 0 then bridgeFirst else emptyCirc, oneState, ?_, ?_⟩
  · intro k; by_cases h : k = 0
    · simp only [if_pos h]; decide
    · simp only [if_neg h]; decide
  · intro rnd fuel hf
    obtain ⟨f, rfl⟩ : ∃ f, fuel = f + 3 := ⟨fuel - 3, by omega⟩
    have hb : ∀ (rest : List ℕ), (∀ j ∈ rest, j < 2) →
        evalNodes (fun k => if k = 0 then bridgeFirst else emptyCirc) rnd (f + 3) 0 (0 :: rest) oneState = some oneState := by
      intro rest hrest
      rw [evalNodes_bridge (n := 1) (rest := rest) (by
        intro j hj
        rcases List.mem_cons.1 hj with h | h
        · rw [h]; simp [bridgeFirst]
        · simpa [bridgeFirst] using hrest j h) (by simp [bridgeFirst])]
      rw [if_pos rfl, if_neg (by decide), reshape_same]
      simp [emptyCirc, evalNodes_nil]
    refine ⟨oneState, hb [1] (by simp), ?_⟩
    have e : (List.range bridgeFirst.nodes.length) = [0, 1] := by simp [bridgeFirst, List.range_succ]
    simp only [if_pos]
    rw [e, List.foldlM_cons, hb [] (by simp), Option.bind_eq_bind, Option.bind_some, List.foldlM_cons,
      evalNodes_node (by simp [bridgeFirst]) (by simp [bridgeFirst]) (by simp [isOpt, bridgeFirst, Node.isOptical])]
    simp [nodeEff, bridgeFirst, classicalColl, oneState, remaining, evalNodes_nil]

/-- **C46** A compound circuit evaluates its circuits one after the other, with the reshaping for a bridge in between; each circuit
does exactly what it does on its own. -/
theorem C46_composition (d : Circ) (cs : List Circ) (hne : cs ≠ []) (hb : ∀ c ∈ cs, ∀ i, ¬ IsBridge c i) :
    ∃ F, ∀ fuel ≥ F, ∀ coll, evalCompound d cs rnd fuel coll = stages
      (fun i coll => evalAll (fun j => cs.getD j d) rnd ((cs.getD i d).nodes.length + 1) i coll)
      (fun i coll => (reshape (cs.getD i d) (cs.getD (i + 1) d) (rnd i (cs.getD i d).nodes.length true)
        (rnd i (cs.getD i d).nodes.length false) coll).map Collection.states)
      0 (cs.length - 1) coll := by
  have hnb : ∀ i < cs.length, NoBridge (cs.getD i d) (List.range (cs.getD i d).nodes.length) := by
    intro i hi j _ n hn
    have hmem : cs.getD i d ∈ cs := by
      rw [List.getD_eq_getElem _ _ hi]; exact List.getElem_mem hi
    exact hb _ hmem j ⟨n, hn⟩
  have key : ∀ n i, i + n + 1 = cs.length → ∃ F, ∀ fuel ≥ F, ∀ coll, evalAll (compoundEnv d cs) rnd fuel i coll = stages
      (fun i coll => evalAll (fun j => cs.getD j d) rnd ((cs.getD i d).nodes.length + 1) i coll)
      (fun i coll => (reshape (cs.getD i d) (cs.getD (i + 1) d) (rnd i (cs.getD i d).nodes.length true)
        (rnd i (cs.getD i d).nodes.length false) coll).map Collection.states)
      i n coll := by
    intro n
    induction n with
    | zero =>
      intro i hi
      refine ⟨(cs.getD i d).nodes.length + 1, ?_⟩
      intro fuel hf coll
      have he : compoundEnv d cs i = { cs.getD i d with nodes := (cs.getD i d).nodes ++ [] } := by
        rw [compoundEnv, if_neg (by omega), List.append_nil]
      have hlen : (compoundEnv d cs i).nodes.length = (cs.getD i d).nodes.length := by rw [he]; simp
      rw [evalAll, hlen, evalNodes_congr (env := fun j => cs.getD j d) (k' := i) (extra := []) (by simp) he fuel _
        (fun j hj => List.mem_range.1 hj) (hnb i (by omega)) rnd rfl coll]
      exact evalNodes_fuel _ _ le_rfl (hnb i (by omega)) _ _ (by simpa using hf) (by simp) coll
    | succ n ih =>
      intro i hi
      obtain ⟨F, hF⟩ := ih (i + 1) (by omega)
      have he : compoundEnv d cs i = { cs.getD i d with nodes := (cs.getD i d).nodes ++ [.bridge (i + 1)] } := by
        rw [compoundEnv, if_pos (by omega)]
      have hlen : (compoundEnv d cs i).nodes.length = (cs.getD i d).nodes.length + 1 := by rw [he]; simp
      refine ⟨(cs.getD i d).nodes.length + (F + 1), ?_⟩
      intro fuel hf coll
      rw [evalAll, hlen, List.range_succ, stages]
      have hb' : (compoundEnv d cs i).nodes[(cs.getD i d).nodes.length]? = some (.bridge (i + 1)) := by rw [he]; simp
      have hnb' : NoBridge (compoundEnv d cs i) (List.range (cs.getD i d).nodes.length) := by
        intro j hj n hn
        have hj' := List.mem_range.1 hj
        rw [he] at hn
        simp only at hn
        rw [List.getElem?_append_left hj'] at hn
        exact hnb i (by omega) j hj n hn
      have hs : (List.range (cs.getD i d).nodes.length ++ [(cs.getD i d).nodes.length]).Pairwise (· < ·) := by
        rw [← List.range_succ]; exact List.pairwise_lt_range
      have hv : ∀ j ∈ List.range (cs.getD i d).nodes.length ++ [(cs.getD i d).nodes.length], j < (compoundEnv d cs i).nodes.length := by
        intro j hj
        rw [← List.range_succ] at hj
        rw [hlen]; exact List.mem_range.1 hj
      rw [evalNodes_append' (F + 1) (fun coll => (reshape (cs.getD i d) (cs.getD (i + 1) d) (rnd i (cs.getD i d).nodes.length true)
          (rnd i (cs.getD i d).nodes.length false) coll).bind (fun e => stages
            (fun i coll => evalAll (fun j => cs.getD j d) rnd ((cs.getD i d).nodes.length + 1) i coll)
            (fun i coll => (reshape (cs.getD i d) (cs.getD (i + 1) d) (rnd i (cs.getD i d).nodes.length true)
              (rnd i (cs.getD i d).nodes.length false) coll).map Collection.states) (i + 1) n e.states))
        _ _ _ le_rfl hs hv hnb' ?_ ?_ fuel ((cs.getD i d).nodes.length + 1) (by simpa using hf) (by simp)]
      · rw [evalNodes_congr (env := fun j => cs.getD j d) (k' := i) (extra := [.bridge (i + 1)]) (by simp [Node.isMeasurement]) he _ _
          (fun j hj => List.mem_range.1 hj) (hnb i (by omega)) rnd rfl coll]
        show Option.bind (evalAll _ _ _ _ _) _ = Option.bind (evalAll _ _ _ _ _) _
        congr 1
        funext c
        cases reshape (cs.getD i d) (cs.getD (i + 1) d) (rnd i (cs.getD i d).nodes.length true)
          (rnd i (cs.getD i d).nodes.length false) c <;> rfl
      · intro a _ b hb''
        obtain rfl : (cs.getD i d).nodes.length = b := by simpa using hb''
        rintro ⟨-, h2⟩
        rw [isOpt, hb'] at h2; cases h2
      · intro f hf' coll
        obtain ⟨f, rfl⟩ : ∃ g, f = g + 1 := ⟨f - 1, by omega⟩
        rw [evalNodes_bridge (fun j hj => by rw [hlen, List.mem_singleton.1 hj]; omega) hb']
        have er : reshape (compoundEnv d cs i) (compoundEnv d cs (i + 1)) = reshape (cs.getD i d) (cs.getD (i + 1) d) := by
          funext r r' coll
          rfl
        rw [er]
        congr 1
        funext e
        exact hF f (by omega) e.states
  obtain ⟨F, hF⟩ := key (cs.length - 1) 0 (by have := List.length_pos_of_ne_nil hne; omega)
  exact ⟨F, hF⟩


/-- non-vacuity of C31: an increasing list of nodes of a circuit with optical nodes and a measurement; and of C46: two circuits. -/
example : ∃ (c : Circ) (l : List ℕ), l.Pairwise (· < ·) ∧ ValidNodes c l ∧ l.length = 2 ∧
    l.IsChain (fun i j => ¬ (IsOptical c i ∧ IsOptical c j)) ∧ ∃ i, IsOptical c i := by
  refine ⟨⟨⟨2, 2, true⟩, 1, 0, false, [.optical 1 [0, 1], .measurement [0] [0], .optical 1 [0, 1]]⟩, [1, 2], by simp, ?_, rfl, ?_, 0, 1, [0, 1], rfl⟩
  · intro i hi
    have : i = 1 ∨ i = 2 := by simpa using hi
    rcases this with rfl | rfl
    · exact ⟨by simp, by rintro ⟨k, hk⟩; simp at hk⟩
    · exact ⟨by simp, by rintro ⟨k, hk⟩; simp at hk⟩
  · simp [IsOptical]

/-- non-vacuity of C31_optical_run and C31_optical_one_by_one: two nodes (the second one listed twice) on a normalised collection. -/
example : ∃ (c : Circ) (l : List ℕ) (ns : List (Opt × List ℕ)) (coll : Coll), c.g.Ok ∧ 0 ≤ c.thr ∧ l = [1, 0, 1] ∧
    List.Forall₂ (fun i n => c.nodes[i]? = some (.optical n.1 n.2)) l ns ∧
    (∀ n ∈ ns, OnChannels c.g n ∧ n.1 ∈ Matrix.unitaryGroup (Fin 2) ℂ) ∧ Normalised c.g c.m coll ∧ coll ≠ [] := by
  refine ⟨⟨⟨2, 2, true⟩, 1, 0, false, [.optical 1 [0, 1], .optical 1 [1, 0]]⟩, _, [(1, [1, 0]), (1, [0, 1]), (1, [1, 0])], oneState, by decide, le_rfl,
    rfl, by simp, ?_, ?_, by simp [oneState]⟩
  · have h1 : OnChannels ⟨2, 2, true⟩ ((1 : Opt), [0, 1]) := ⟨0, 1, by decide, by decide, by decide, by decide⟩
    have h2 : OnChannels ⟨2, 2, true⟩ ((1 : Opt), [1, 0]) := ⟨1, 0, by decide, by decide, by decide, by decide⟩
    intro n hn
    simp only [List.mem_cons, List.not_mem_nil, or_false] at hn
    rcases hn with rfl | rfl | rfl
    · exact ⟨h2, one_mem _⟩
    · exact ⟨h1, one_mem _⟩
    · exact ⟨h2, one_mem _⟩
  · exact oneState_normalised

/-- non-vacuity of C46 and C47: circuits without bridges; a circuit with a node after a bridge. -/
example : (∀ c ∈ [twoSetters, emptyCirc], ∀ i, ¬ IsBridge c i) ∧ bridgeFirst.nodes[0]? = some (.bridge 1) ∧ bridgeFirst.nodes.length = 2 := by
  refine ⟨?_, rfl, rfl⟩
  intro c hc i hi
  obtain ⟨k, hk⟩ := hi
  rcases List.mem_cons.1 hc with rfl | hc
  · have hm := List.mem_of_getElem? hk
    simp [twoSetters] at hm
  · obtain rfl := List.mem_singleton.1 hc
    simp [emptyCirc] at hk

end Verif.Props
