/-
Lemmas for C139: the nodes of a circuit on the branches of an evaluation.
-/
import Verif.Lemmas.PerturbMeasured

namespace Verif
open Spec Props

theorem forall₂_mem_follow {α β : Type*} {R S : α → β → Prop} {l : List α} {m : List β} (h : List.Forall₂ R l m) (hi : ∀ a ∈ l, ∀ b ∈ m, R a b → S a b) : List.Forall₂ S l m := by
  induction h with
  | nil => exact .nil
  | cons h1 _ ih => exact .cons (hi _ (by simp) _ (by simp) h1) (ih fun a ha b hb => hi a (by simp [ha]) b (by simp [hb]))

theorem one_by_one {G : Coll → Option Coll} {h : QState → Option QState} (hA : ActsPerState G (fun q => (h q).map (fun q' => [q']))) {coll out : Coll} (hn : (coll.map Prod.fst).Nodup)
    (hG : G coll = some out) : List.Forall₂ (fun q q' => h q = some q') (statesOf coll) (statesOf out) := by
  have h1 := hA.states coll hn
  rw [hG] at h1
  obtain ⟨qss, h2, h3⟩ := Option.map_eq_some_iff.1 h1.symm
  rw [← h3]
  have h4 := (forall₂_mapM _ _ _).1 h2
  clear h1 h2 h3 hG hn
  generalize statesOf coll = L at h4
  induction h4 with
  | nil => exact .nil
  | cons h5 _ ih =>
    obtain ⟨x, hx, rfl⟩ := Option.map_eq_some_iff.1 h5
    exact .cons hx ih

noncomputable def actOptical (g : Cfg) (ns : List (Opt × List ℕ)) : Act := fun vals => some (vals, oneByOne g ns)

open Classical in
noncomputable def actMatrix (g : Cfg) (F : SqArr) : Act := fun vals => if F.size = g.size then some (vals, F.mulVec) else none

noncomputable def actClassical (m : ℕ) (f : List ℝ → List ℝ → List ℤ → Option (List ℝ)) (v : List ℝ) (a : List ℤ) : Act :=
  fun vals => (f vals v a).bind (fun w => if w.length = m then some (w, id) else none)

noncomputable def actControlled (g : Cfg) (vars : List Angle) (channels : List ℤ) (defaults : List (Angle × ℝ)) (tl : List ℕ) : Act := fun vals =>
  ((vars.zip channels).mapM (m := Option) (fun vc => (pyGet vals vc.2).map (fun x => (vc.1, x)))).bind (fun read =>
    (setAngles read (setAngles defaults (none, none))).1.bind (fun th => (setAngles read (setAngles defaults (none, none))).2.bind (fun ph =>
      some (vals, oneByOne g [(genericMatrix th ph, tl)]))))

theorem contr_oneByOne {g : Cfg} (hg : g.Ok) {ns : List (Opt × List ℕ)} (hn : ∀ m ∈ ns, OnChannels g m ∧ m.1 ∈ Matrix.unitaryGroup (Fin 2) ℂ) : Contr g (oneByOne g ns) := by
  refine ⟨fun x y => le_of_eq (nrm_oneByOne hg hn x y), fun a x i hi => ?_⟩
  have := oneByOne_linear g ns a 0 x x (fun i => a * x i) (fun i _ => by ring) i hi
  rw [this]; ring

theorem contr_mulVec {g : Cfg} {F : SqArr} (hs : F.size = g.size) (hF : IsUnitary F) : Contr g F.mulVec := by
  refine ⟨fun x y => le_of_eq ?_, fun a x i _ => ?_⟩
  · have e1 : nrm g.size (F.mulVec (fun i => x i - y i)) = nrm g.size (fun i => x i - y i) := by
      unfold nrm; rw [← hs, unitary_mulVec_norm hF]
    rw [← e1]
    refine nrm_congr fun i _ => ?_
    simp only [SqArr.mulVec, mul_sub, Finset.sum_sub_distrib]
  · simp only [SqArr.mulVec, Finset.mul_sum]
    exact Finset.sum_congr rfl fun j _ => by ring

theorem contr_id {g : Cfg} : Contr g id := ⟨fun _ _ => le_rfl, fun _ _ _ _ => rfl⟩

theorem acted_optical {c : Circ} (hg : c.g.Ok) (ht : 0 ≤ c.thr) {n : Opt × List ℕ} {l : List (Opt × List ℕ)}
    (hn : ∀ m ∈ n :: l, OnChannels c.g m ∧ m.1 ∈ Matrix.unitaryGroup (Fin 2) ℂ) {F : Act} {q q' : QState} (hF : F q.classical = some (q.classical, oneByOne c.g (n :: l)))
    (hw : WellFormed c.g q.comps) (h : opticalOne c n l q = some q') : Acted c.g (Real.sqrt (c.g.size * c.thr)) F q q' := by
  unfold opticalOne at h
  split at h
  swap
  · cases h
  obtain ⟨comps, h1, rfl⟩ := Option.map_eq_some_iff.1 h
  refine ⟨rfl, rfl, rfl, _, hF, nrm_le_of ht fun i hi => ?_⟩
  show ‖vec c.g comps i - _‖ ≤ _
  rw [optical_raw hg hn hw h1 i hi]
  exact cut_close _

theorem acted_custom {c : Circ} (hg : c.g.Ok) (ht : 0 ≤ c.thr) {F : SqArr} {q q' : QState} (hw : WellFormed c.g q.comps) (h : customOne c F q = some q') :
    Acted c.g (Real.sqrt (c.g.size * c.thr)) (actMatrix c.g F) q q' := by
  unfold customOne copyState at h
  split at h
  swap
  · cases h
  rw [Option.bind_some] at h
  by_cases hs : F.size ≠ c.g.size
  · rw [if_pos hs] at h; cases h
  rw [if_neg hs] at h
  have hs : F.size = c.g.size := not_not.1 hs
  obtain ⟨comps, h1, rfl⟩ := Option.map_eq_some_iff.1 h
  unfold applyCustom at h1
  simp only [Option.bind_eq_bind] at h1
  obtain ⟨x, hx, hc⟩ := Option.bind_eq_some_iff.1 h1
  obtain ⟨-, -, -, -, x, hx, hv⟩ := multipliedBy_intro hg (thr := c.thr) (F := F) (q := q) hw hx hc
  refine ⟨rfl, rfl, rfl, F.mulVec, by rw [actMatrix, if_pos hs], nrm_le_of ht fun i hi => ?_⟩
  have hx' : ∀ i < c.g.size, x i = vec c.g q.comps i := by
    intro i hi
    have hval := c.g.valid_valuesFromIndex hg.1 i
    have := hx _ (c.g.nm i) hval ((isName_iff hval).2 rfl)
    rw [c.g.indexOf_valuesFromIndex hi] at this
    exact this
  have hval := c.g.valid_valuesFromIndex hg.1 i
  have := hv _ (c.g.nm i) hval ((isName_iff hval).2 rfl)
  rw [c.g.indexOf_valuesFromIndex hi] at this
  have e2 : ∑ j ∈ Finset.range F.size, F.at_ i j * x j = F.mulVec (vec c.g q.comps) i := by
    unfold SqArr.mulVec
    refine Finset.sum_congr rfl fun j hj => ?_
    rw [hx' j (by rw [← hs]; exact Finset.mem_range.1 hj)]
  rw [e2] at this
  have e3 : vec c.g comps i = if ‖F.mulVec (vec c.g q.comps) i‖ ^ 2 < c.thr then 0 else F.mulVec (vec c.g q.comps) i := by
    show (Dict.get? comps (c.g.nm i)).elim 0 Comp.amp = _
    rw [this]
    split <;> rfl
  show ‖vec c.g comps i - _‖ ≤ _
  rw [e3]
  exact cut_close _

/-! ### runs of nodes -/

noncomputable def treeNode (g : Cfg) (m : ℕ) : Node → Tree → Tree
  | .optical M tl => actOn (actOptical g [(M, tl)])
  | .fockMatrix F => actOn (actMatrix g F)
  | .classical f v a => actOn (actClassical m f v a)
  | .controlled vars channels defaults tl => actOn (actControlled g vars channels defaults tl)
  | .measurement opt cls => measureTree g opt cls
  | _ => id

noncomputable def treeRun (g : Cfg) (m : ℕ) (nodes : List Node) (T : Tree) : Tree := nodes.foldl (fun T n => treeNode g m n T) T

theorem treeRun_append (g : Cfg) (m : ℕ) (a b : List Node) (T : Tree) : treeRun g m (a ++ b) T = treeRun g m b (treeRun g m a T) := List.foldl_append

theorem treeRun_optical (g : Cfg) (m : ℕ) (ns : List (Opt × List ℕ)) (T : Tree) : treeRun g m (ns.map (fun n => Node.optical n.1 n.2)) T = actOn (actOptical g ns) T := by
  induction ns generalizing T with
  | nil =>
    funext r
    show T r = (T r).bind _
    cases T r <;> simp [actOptical, oneByOne]
  | cons n ns ih =>
    rw [List.map_cons]
    show treeRun g m _ (actOn (actOptical g [(n.1, n.2)]) T) = _
    rw [ih]
    funext r
    show ((T r).bind _).bind _ = (T r).bind _
    cases T r <;> simp [actOptical, oneByOne]

variable {g : Cfg} {label : List Char} {δ w : ℝ} {coll out : Coll} {T : Tree}

theorem cums {m : ℕ} (hc : Sound g m coll) : ∀ q ∈ statesOf coll, 0 ≤ q.cum := by
  intro q hq
  obtain ⟨p, hp, rfl⟩ := List.mem_map.1 hq
  exact (hc.states p hp).cum0

theorem cumFrom_listed (label : List Char) (coll : Coll) : cumFrom label (statesOf coll) = listed label coll := by
  unfold cumFrom listed sumFrom statesOf
  rw [List.map_map]
  rfl

theorem states_mem {m : ℕ} (hc : Sound g m coll) {q : QState} (hq : q ∈ statesOf coll) : Measurable g m q := by
  obtain ⟨p, hp, rfl⟩ := List.mem_map.1 hq
  exact hc.states p hp

theorem follow_optical {c : Circ} (hg : c.g.Ok) (ht : 0 ≤ c.thr) {n : Opt × List ℕ} {l : List (Opt × List ℕ)}
    (hn : ∀ m ∈ n :: l, OnChannels c.g m ∧ m.1 ∈ Matrix.unitaryGroup (Fin 2) ℂ) (hc : Sound c.g c.m coll) (hw : listed label coll ≤ w) (hT : Follows c.g label δ (statesOf coll) T)
    (h : opticalColl c n l coll = some out) : Follows c.g label (δ + Real.sqrt (c.g.size * c.thr) * Real.sqrt w) (statesOf out) (actOn (actOptical c.g (n :: l)) T) := by
  refine follows_act (Real.sqrt_nonneg _) ?_ (forall₂_mem_follow (one_by_one (actsPerState_optical c n l) hc.ids h) fun q hq q' _ hqq => ?_) (cums hc) (cumFrom_listed label coll ▸ hw) hT
  · intro vals f hf
    obtain rfl := Option.some.inj hf
    exact contr_oneByOne hg hn
  · exact acted_optical hg ht hn rfl (states_mem hc hq).wf hqq

theorem follow_custom {c : Circ} (hg : c.g.Ok) (ht : 0 ≤ c.thr) {F : SqArr} (hF : IsUnitary F) (r : ℕ → ℕ → ℕ) (hc : Sound c.g c.m coll) (hw : listed label coll ≤ w) (hT : Follows c.g label δ (statesOf coll) T)
    (h : customColl c F r coll = some out) : Follows c.g label (δ + Real.sqrt (c.g.size * c.thr) * Real.sqrt w) (statesOf out) (actOn (actMatrix c.g F) T) := by
  refine follows_act (Real.sqrt_nonneg _) ?_ (forall₂_mem_follow (one_by_one (actsPerState_custom c F r) hc.ids h) fun q hq q' _ hqq => ?_) (cums hc) (cumFrom_listed label coll ▸ hw) hT
  · intro vals f hf
    unfold actMatrix at hf
    split at hf
    · rename_i hs
      obtain rfl := Option.some.inj hf
      exact contr_mulVec hs hF
    · cases hf
  · exact acted_custom hg ht (states_mem hc hq).wf hqq

theorem follow_classical {c : Circ} {f : List ℝ → List ℝ → List ℤ → Option (List ℝ)} {v : List ℝ} {a : List ℤ} (hc : Sound c.g c.m coll) (hw : listed label coll ≤ w) (hT : Follows c.g label δ (statesOf coll) T)
    (h : classicalColl c f v a coll = some out) : Follows c.g label δ (statesOf out) (actOn (actClassical c.m f v a) T) := by
  rw [show δ = δ + 0 * Real.sqrt w by ring]
  refine follows_act le_rfl ?_ (forall₂_mem_follow (one_by_one (actsPerState_classical c f v a) hc.ids h) fun q hq q' _ hqq => ?_) (cums hc) (cumFrom_listed label coll ▸ hw) hT
  · intro vals fx hf
    obtain ⟨w, -, h2⟩ := Option.bind_eq_some_iff.1 hf
    split at h2
    · obtain rfl := Option.some.inj h2
      exact contr_id
    · cases h2
  · obtain ⟨w, h1, h2⟩ := Option.bind_eq_some_iff.1 hqq
    split at h2
    · rename_i hl
      obtain rfl := Option.some.inj h2
      refine ⟨rfl, rfl, rfl, id, ?_, ?_⟩
      · unfold actClassical
        rw [h1, Option.bind_some, if_pos hl]
      · simp [nrm]
    · cases h2

theorem follow_controlled {c : Circ} (hg : c.g.Ok) (ht : 0 ≤ c.thr) {vars : List Angle} {channels : List ℤ} {defaults : List (Angle × ℝ)} {tl : List ℕ} (htl : TwoChannels c.g tl)
    (hc : Sound c.g c.m coll) (hw : listed label coll ≤ w) (hT : Follows c.g label δ (statesOf coll) T) (h : controlledColl c vars channels defaults tl coll = some out) :
    Follows c.g label (δ + Real.sqrt (c.g.size * c.thr) * Real.sqrt w) (statesOf out) (actOn (actControlled c.g vars channels defaults tl) T) := by
  have hlen : vars.length = channels.length := by
    by_contra hlen
    unfold controlledColl at h
    simp only [Option.bind_eq_bind] at h
    rw [if_pos hlen] at h
    cases h
  have hu : ∀ th ph : ℝ, ∀ m ∈ [(genericMatrix th ph, tl)], OnChannels c.g m ∧ m.1 ∈ Matrix.unitaryGroup (Fin 2) ℂ := by
    intro th ph m' hm'
    obtain rfl : m' = (genericMatrix th ph, tl) := by simpa using hm'
    exact ⟨htl, (C17_wave_plate th ph 0).1⟩
  refine follows_act (Real.sqrt_nonneg _) ?_ (forall₂_mem_follow (one_by_one (actsPerState_controlled c hlen defaults tl) hc.ids h) fun q hq q' _ hqq => ?_) (cums hc) (cumFrom_listed label coll ▸ hw) hT
  · intro vals f hf
    obtain ⟨read, -, hf⟩ := Option.bind_eq_some_iff.1 hf
    obtain ⟨th, -, hf⟩ := Option.bind_eq_some_iff.1 hf
    obtain ⟨ph, -, hf⟩ := Option.bind_eq_some_iff.1 hf
    obtain rfl := Option.some.inj hf
    exact contr_oneByOne hg (hu th ph)
  · unfold controlledOne at hqq
    obtain ⟨read, h1, hf⟩ := Option.bind_eq_some_iff.1 hqq
    obtain ⟨th, h2, hf⟩ := Option.bind_eq_some_iff.1 hf
    obtain ⟨ph, h3, hf⟩ := Option.bind_eq_some_iff.1 hf
    refine acted_optical hg ht (hu th ph) ?_ (states_mem hc hq).wf hf
    unfold actControlled
    rw [h1, Option.bind_some, h2, Option.bind_some, h3, Option.bind_some]

theorem follow_measure {c : Circ} (hg : c.g.Ok) {kinds : List Bool} {idx : ℕ} {opt cls : List ℕ} (hlen : cls.length = opt.length) (hnd : cls.Nodup)
    (hc : Sound c.g c.m coll) (hT : Follows c.g label δ (statesOf coll) T) (h : measureColl c.g c.thr c.m (measurementId kinds idx) opt cls coll = some out) :
    Follows c.g label δ (statesOf out) (measureTree c.g opt cls T) := by
  have hso := (conserves_measure hlen hc h).sound
  obtain ⟨-, qss, hf, e⟩ := C29_no_state_lost c.g c.thr c.m kinds idx opt cls coll out hc.ids h
  have e : statesOf out = qss.flatten := e
  rw [e]
  refine follows_measure hg hlen hnd (fun q hq => states_mem hc hq) ?_ (thr := c.thr) (m := c.m) ?_ hT
  · intro qs hqs q hq
    exact (states_mem hso (e ▸ List.mem_flatten.2 ⟨qs, hqs, hq⟩)).classical
  · unfold statesOf
    rw [List.forall₂_map_left_iff]
    exact hf

theorem _root_.Verif.Spec.SteadyOrMeasured.lossless {m : ℕ} {n : Node} (h : SteadyOrMeasured g m n) : Lossless g m n := by
  cases n <;> first | exact h | exact h.elim | exact ⟨h.1, h.2.2⟩ | exact h.1

theorem eval_follows {env : ℕ → Circ} {rnd : ℕ → ℕ → Bool → ℕ → ℕ → ℕ} {k : ℕ} (hg : (env k).g.Ok) (ht : 0 ≤ (env k).thr) : ∀ (fuel : ℕ) (l : List ℕ) (δ : ℝ) (coll out : Coll) (T : Tree),
    l.Pairwise (· < ·) → (∀ i ∈ l, ∀ n, (env k).nodes[i]? = some n → SteadyOrMeasured (env k).g (env k).m n) → Sound (env k).g (env k).m coll → listed label coll ≤ w → Follows (env k).g label δ (statesOf coll) T →
    evalNodes env rnd fuel k l coll = some out →
    Follows (env k).g label (δ + l.length * (Real.sqrt ((env k).g.size * (env k).thr) * Real.sqrt w)) (statesOf out) (treeRun (env k).g (env k).m (l.filterMap (fun i => (env k).nodes[i]?)) T) := by
  intro fuel
  induction fuel with
  | zero => intro l δ coll out T _ _ _ _ _ h; cases h
  | succ fuel ih =>
    intro l δ coll out T hs hl hc hw hT h
    have hst : 0 ≤ Real.sqrt ((env k).g.size * (env k).thr) * Real.sqrt w := mul_nonneg (Real.sqrt_nonneg _) (Real.sqrt_nonneg _)
    cases l with
    | nil =>
      obtain rfl := Option.some.inj h
      simpa [treeRun] using hT
    | cons i rest =>
      by_cases hv : ∀ j ∈ i :: rest, j < (env k).nodes.length
      swap
      · rw [evalNodes_invalid (by push Not at hv; exact hv)] at h; cases h
      by_cases ho : isOpt (env k) i = true
      · rw [evalNodes_sorted_run hs hv ho] at h
        obtain ⟨mid, h1, h2⟩ := Option.bind_eq_some_iff.1 h
        have happ : (i :: rest).takeWhile (isOpt (env k)) ++ (i :: rest).dropWhile (isOpt (env k)) = i :: rest := List.takeWhile_append_dropWhile
        have hne : 1 ≤ ((i :: rest).takeWhile (isOpt (env k))).length := by rw [List.takeWhile_cons, if_pos ho]; simp
        have hsub : ∀ j ∈ (i :: rest).takeWhile (isOpt (env k)), j ∈ i :: rest := fun j hj => (List.takeWhile_sublist _).subset hj
        have hmid : ∀ j ∈ (i :: rest).takeWhile (isOpt (env k)), isOpt (env k) j = true := fun j hj => List.mem_takeWhile_imp hj
        generalize (i :: rest).takeWhile (isOpt (env k)) = A at *
        generalize (i :: rest).dropWhile (isOpt (env k)) = B at *
        have hlen : (i :: rest).length = A.length + B.length := by rw [← happ, List.length_append]
        unfold runEff at h1
        split at h1
        · cases h1
        · rename_i n ns hns
          have hu : ∀ m ∈ n :: ns, OnChannels (env k).g m ∧ m.1 ∈ Matrix.unitaryGroup (Fin 2) ℂ := by
            intro m hm
            rw [← hns] at hm
            obtain ⟨j, hj, hjm⟩ := List.mem_filterMap.1 hm
            cases hnode : (env k).nodes[j]? with
            | none => rw [hnode] at hjm; cases hjm
            | some nd =>
              rw [hnode] at hjm
              cases nd with
              | optical M tl =>
                obtain rfl := Option.some.inj hjm
                obtain ⟨h3, h4⟩ := hl j (hsub j hj) _ hnode
                exact ⟨h4, h3⟩
              | _ => cases hjm
          have hA : A.filterMap (fun i => (env k).nodes[i]?) = (n :: ns).map (fun n => Node.optical n.1 n.2) := by
            rw [← hns]
            clear hns hu h1 happ hlen hne hsub h h2
            induction A with
            | nil => rfl
            | cons j A ihA =>
              have hj := hmid j (by simp)
              have ih' := ihA (fun j hj => hmid j (by simp [hj]))
              unfold opticalNodes at ih' ⊢
              cases hnode : (env k).nodes[j]? with
              | none => simp [isOpt, hnode] at hj
              | some nd =>
                cases nd with
                | optical M tl =>
                  rw [List.filterMap_cons_some hnode, List.filterMap_cons_some (b := (M, tl)) (by simp only [hnode]), List.map_cons, ih']
                | _ => simp [isOpt, hnode, Node.isOptical] at hj
          have hB : B.Pairwise (· < ·) := by rw [← happ] at hs; exact (List.pairwise_append.1 hs).2.1
          have h4 := ih B _ mid out _ hB (fun j hj => hl j (by rw [← happ]; simp [hj])) (conserves_optical hg ht hu hc h1).sound (((conserves_optical hg ht hu hc h1).listed label).trans hw) (follow_optical hg ht hu hc hw hT h1) h2
          rw [← happ, List.filterMap_append, treeRun_append, hA, treeRun_optical, happ]
          refine h4.mono ?_
          rw [hlen]
          push_cast
          have : (1 : ℝ) ≤ A.length := by exact_mod_cast hne
          nlinarith
      · have ho : isOpt (env k) i = false := by simpa using ho
        have hn := hl i (by simp)
        have hb : ∀ n, (env k).nodes[i]? ≠ some (.bridge n) := fun n h => hn _ h
        rw [evalNodes_sorted_node hs hv hb ho] at h
        obtain ⟨mid, h1, h2⟩ := Option.bind_eq_some_iff.1 h
        have next : ∀ (nd : Node), (env k).nodes[i]? = some nd → ∀ loss, Conserves (env k).g (env k).m loss coll mid →
            Follows (env k).g label (δ + Real.sqrt ((env k).g.size * (env k).thr) * Real.sqrt w) (statesOf mid) (treeNode (env k).g (env k).m nd T) →
              Follows (env k).g label (δ + (i :: rest).length * (Real.sqrt ((env k).g.size * (env k).thr) * Real.sqrt w)) (statesOf out) (treeRun (env k).g (env k).m ((i :: rest).filterMap (fun i => (env k).nodes[i]?)) T) := by
          intro nd hnd loss hso hT
          have h4 := ih rest _ mid out _ (List.pairwise_cons.1 hs).2 (fun j hj => hl j (by simp [hj])) hso.sound ((hso.listed label).trans hw) hT h2
          rw [List.filterMap_cons_some hnd]
          refine Follows.mono h4 (le_of_eq ?_)
          simp only [List.length_cons]; push_cast; ring
        unfold nodeEff at h1
        split at h1
        · rename_i F hF
          exact next _ hF _ (conserves_custom hg ht (hn _ hF) _ hc h1) (follow_custom hg ht (hn _ hF) _ hc hw hT h1)
        · rename_i hF
          exact next _ hF _ (conserves_classical hc h1) ((follow_classical hc hw hT h1).mono (by linarith))
        · rename_i hF
          obtain ⟨m1, m2, m3⟩ := hn _ hF
          exact next _ hF _ (conserves_measure m1 hc h1) ((follow_measure hg m1 m2 hc hT h1).mono (by linarith))
        · rename_i hF
          exact next _ hF _ (conserves_controlled hg ht (hn _ hF) hc h1) (follow_controlled hg ht (hn _ hF) hc hw hT h1)
        · rename_i hF; exact (hn _ hF).elim
        · cases h1

end Verif
