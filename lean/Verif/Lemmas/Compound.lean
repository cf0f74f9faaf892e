/-
Lemmas for the evaluation with settings kept by collections and states.
-/
import Verif.Model.Compound
import Verif.Lemmas.Evaluate

namespace Verif

variable {env : ℕ → Circ} {rnd : ℕ → ℕ → Bool → ℕ → ℕ → ℕ}

theorem opticalHeld_settings (c : Circ) (n : Opt × List ℕ) (l : List (Opt × List ℕ)) (coll : Coll) :
    opticalHeld c c.settings n l coll = opticalColl c n l coll := rfl

theorem customHeld_settings (c : Circ) (F : SqArr) (r : ℕ → ℕ → ℕ) (coll : Coll) : customHeld c.settings F r coll = customColl c F r coll := rfl

theorem measureCollHeld_settings (c : Circ) (mid : List Char) (opt cls : List ℕ) (coll : Coll) :
    measureCollHeld c.g c.settings mid opt cls coll = measureColl c.g c.thr c.m mid opt cls coll := rfl

theorem controlledHeld_settings (c : Circ) (vars : List Angle) (channels : List ℤ) (defaults : List (Angle × ℝ)) (tl : List ℕ) (coll : Coll) :
    controlledHeld c c.settings vars channels defaults tl coll = controlledColl c vars channels defaults tl coll := rfl

theorem reshapeHeld_settings (c next : Circ) (r r' : ℕ → ℕ → ℕ) (coll : Coll) :
    reshapeHeld c next r r' ⟨c.settings, c.settings, coll⟩
      = (reshape c next r r' coll).map (fun e => ⟨⟨e.g, e.m, defaultThr⟩, ⟨e.g, e.m, e.thr⟩, e.states⟩) := by
  unfold reshapeHeld reshape
  simp only [Circ.settings, Option.bind_eq_bind, Option.map_bind]
  congr 1
  funext states
  simp only [Function.comp_def]
  split_ifs <;> simp only [Function.comp_def, Option.bind_some, Option.map_eq_bind, Option.bind_assoc]

theorem nodeHeld_settings (k i : ℕ) (coll : Coll) (n : Node) (hn : (env k).nodes[i]? = some n) (ho : n.isOptical = false) (hb : ∀ j, n ≠ .bridge j) :
    nodeHeld (env k) i (rnd k i true) ⟨(env k).settings, (env k).settings, coll⟩ n
      = (nodeEff env rnd k i coll).map (fun out => ⟨(env k).settings, (env k).settings, out⟩) := by
  unfold nodeEff
  rw [hn]
  cases n with
  | optical M tl => cases ho
  | bridge j => exact absurd rfl (hb j)
  | _ => rfl

theorem evalHeld_nil (fuel k : ℕ) (h : Held) : evalHeld env rnd (fuel + 1) k [] h = some h := rfl

theorem evalHeld_invalid {fuel k : ℕ} {l : List ℕ} {h : Held} (hi : ∃ i ∈ l, (env k).nodes.length ≤ i) :
    evalHeld env rnd fuel k l h = none := by
  obtain ⟨j, hj, hle⟩ := hi
  cases fuel with
  | zero => rfl
  | succ fuel =>
    cases l with
    | nil => cases hj
    | cons i rest =>
      rw [evalHeld, if_pos]
      intro hall
      have := List.all_eq_true.1 hall j hj
      simp at this; omega

theorem evalHeld_bridge {fuel k i n : ℕ} {rest : List ℕ} {h : Held} (hv : ∀ j ∈ i :: rest, j < (env k).nodes.length)
    (hb : (env k).nodes[i]? = some (.bridge n)) :
    evalHeld env rnd (fuel + 1) k (i :: rest) h = (reshapeHeld (env k) (env n) (rnd k i true) (rnd k i false) h).bind
          (fun d => evalHeld env rnd fuel n (List.range (env n).nodes.length) d) := by
  rw [evalHeld, if_neg (by simpa using hv), hb]

theorem evalHeld_node {fuel k i : ℕ} {rest : List ℕ} {h : Held} {n : Node} (hv : ∀ j ∈ i :: rest, j < (env k).nodes.length)
    (hn : (env k).nodes[i]? = some n) (ho : n.isOptical = false) (hb : ∀ j, n ≠ .bridge j) :
    evalHeld env rnd (fuel + 1) k (i :: rest) h
      = (nodeHeld (env k) i (rnd k i true) h n).bind (evalHeld env rnd fuel k (remaining [i] (i :: rest))) := by
  rw [evalHeld, if_neg (by simpa using hv), hn]
  cases n with
  | optical M tl => cases ho
  | bridge j => exact absurd rfl (hb j)
  | _ => rfl

/-- effect of a run of optical nodes on a collection with settings -/
noncomputable def runHeld (c : Circ) (run : List ℕ) (h : Held) : Option Held :=
  match opticalNodes c run with
  | [] => none
  | n :: l => (opticalHeld c h.own n l h.states).map (fun out => ⟨c.settings, h.own, out⟩)

theorem evalHeld_run {fuel k i : ℕ} {rest : List ℕ} {h : Held} (hv : ∀ j ∈ i :: rest, j < (env k).nodes.length)
    (ho : isOpt (env k) i = true) :
    evalHeld env rnd (fuel + 1) k (i :: rest) h
      = (runHeld (env k) ((i :: rest).takeWhile (isOpt (env k))) h).bind
        (evalHeld env rnd fuel k (remaining ((i :: rest).takeWhile (isOpt (env k))) (i :: rest))) := by
  rw [evalHeld, if_neg (by simpa using hv)]
  have hi := hv i (by simp)
  cases hn : (env k).nodes[i]? with
  | none => rw [List.getElem?_eq_none_iff] at hn; omega
  | some n =>
    cases n with
    | optical M tl =>
      simp only [opticalRun_eq, runHeld]
      cases opticalNodes (env k) ((i :: rest).takeWhile (isOpt (env k))) with
      | nil => rfl
      | cons n l =>
        simp only
        cases opticalHeld (env k) h.own n l h.states <;> rfl
    | _ => simp [isOpt, hn, Node.isOptical] at ho

theorem runHeld_settings (c : Circ) (run : List ℕ) (coll : Coll) :
    runHeld c run ⟨c.settings, c.settings, coll⟩ = (runEff c run coll).map (fun out => ⟨c.settings, c.settings, out⟩) := by
  unfold runHeld runEff
  cases opticalNodes c run with
  | nil => rfl
  | cons n l => rfl

/-! ### empty collections stay empty -/

theorem opticalColl_empty {c : Circ} {n : Opt × List ℕ} {l : List (Opt × List ℕ)} {out : Coll} (h : opticalColl c n l [] = some out) : out = [] := by
  unfold opticalColl at h
  have hc : copyColl c.thr c.m [] = some [] := rfl
  have hg : opticalGroups c [] = some (if c.full then [(Sel.all, [])] else []) := by
    unfold opticalGroups
    split <;> rfl
  rw [hc, Option.bind_eq_bind, Option.bind_some, hg, Option.bind_eq_bind, Option.bind_some] at h
  split at h <;> exact (Option.some.inj h).symm

theorem nodeEff_empty {k i : ℕ} (hgen : ∀ f : Coll → Option Coll, (env k).nodes[i]? = some (Node.generic f) → ∀ out, f [] = some out → out = []) {out : Coll}
    (h : nodeEff env rnd k i [] = some out) : out = [] := by
  unfold nodeEff at h
  split at h
  · exact (Option.some.inj h).symm
  · exact (Option.some.inj h).symm
  · exact (Option.some.inj h).symm
  · unfold controlledColl at h
    split at h
    · cases h
    · exact (Option.some.inj h).symm
  · rename_i f hf
    exact hgen f hf out h
  · cases h

theorem extendColl_unfold (cl : Collection) (eo ec : ℕ) (dist : List ℝ) (r : ℕ → ℕ → ℕ) : ∃ step : Coll → List Char × QState → Name × ℝ × Vals → Option Coll,
    extendColl cl eo ec dist r = if (if dist = [] then (1 : ℝ) :: List.replicate (cl.g.L - 1) 0 else dist).length ≠ cl.g.L then none else
      if eo = 0 ∧ ec = 0 then some cl else if ¬ (⟨cl.g.L, cl.g.C + eo, cl.g.left⟩ : Cfg).Ok then none else
      (extraValues cl.g (if dist = [] then (1 : ℝ) :: List.replicate (cl.g.L - 1) 0 else dist) eo).bind (fun extra =>
        (extra.foldlM (fun (out : Coll) e => cl.states.foldlM (fun (out : Coll) p => step out p e) out) []).bind
          (fun out => some ⟨⟨cl.g.L, cl.g.C + eo, cl.g.left⟩, cl.m + ec, cl.thr, out⟩)) := by
  refine ⟨fun out p e => do
    let q ← extendedState cl.g ⟨cl.g.L, cl.g.C + eo, cl.g.left⟩ ec p.2 e.2.1 e.2.2
    if q.cum ≥ cl.thr then
      let q' ← newState cl.thr (cl.m + ec) q
      some (addState out q' none (r out.length))
    else some out, ?_⟩
  rfl

theorem extendColl_shape {cl out : Collection} {eo ec : ℕ} {dist : List ℝ} {r : ℕ → ℕ → ℕ} (h : extendColl cl eo ec dist r = some out) :
    out.g = ⟨cl.g.L, cl.g.C + eo, cl.g.left⟩ ∧ out.m = cl.m + ec ∧ out.thr = cl.thr ∧ (cl.states = [] → out.states = []) := by
  obtain ⟨step, e⟩ := extendColl_unfold cl eo ec dist r
  rw [e] at h
  generalize (if dist = [] then (1 : ℝ) :: List.replicate (cl.g.L - 1) 0 else dist) = dd at h
  split at h
  · cases h
  split at h
  · rename_i h0
    obtain rfl := Option.some.inj h
    obtain ⟨rfl, rfl⟩ := h0
    exact ⟨rfl, rfl, rfl, fun h => h⟩
  split at h
  · cases h
  obtain ⟨extra, h1, h'⟩ := Option.bind_eq_some_iff.1 h
  obtain ⟨st, h2, h''⟩ := Option.bind_eq_some_iff.1 h'
  obtain rfl := Option.some.inj h''
  refine ⟨rfl, rfl, rfl, ?_⟩
  intro he
  simp only at he ⊢
  rw [he] at h2
  clear h1 h h' h''
  induction extra with
  | nil => exact (Option.some.inj h2).symm
  | cons e extra ih => exact ih h2

theorem reduceColl_shape {cl out : Collection} {keep ckeep : List ℕ} (h : reduceColl cl keep ckeep = some out) :
    out.thr = cl.thr ∧ (cl.states = [] → out = cl) ∧ (cl.states ≠ [] → out.g = ⟨cl.g.L, if keep = [] then cl.g.C else keep.length, cl.g.left⟩ ∧
      out.m = if ckeep = [] then cl.m else ckeep.length) := by
  have e0 : reduceColl cl keep ckeep =
    if ¬ (if keep = [] then List.range cl.g.C else keep).all (· < cl.g.C) ∨ ¬ (if ckeep = [] then List.range cl.m else ckeep).all (· < cl.m) then none else
    if ¬ (⟨cl.g.L, (if keep = [] then List.range cl.g.C else keep).length, cl.g.left⟩ : Cfg).Ok then none else
    (cl.states.foldlM (fun (out : Coll) p =>
      (reduceState cl.g cl.thr (if keep = [] then List.range cl.g.C else keep) (if ckeep = [] then List.range cl.m else ckeep) p.1 p.2).map
        (fun l => l.foldl (fun (out : Coll) e => out.set e.1 e.2) out)) []).bind (fun out =>
    if cl.states = [] then some cl else some ⟨⟨cl.g.L, (if keep = [] then List.range cl.g.C else keep).length, cl.g.left⟩,
      (if ckeep = [] then List.range cl.m else ckeep).length, cl.thr, out⟩) := rfl
  rw [e0] at h
  by_cases c1 : ¬ (if keep = [] then List.range cl.g.C else keep).all (· < cl.g.C) ∨ ¬ (if ckeep = [] then List.range cl.m else ckeep).all (· < cl.m)
  · rw [if_pos c1] at h; cases h
  rw [if_neg c1] at h
  by_cases c2 : ¬ (⟨cl.g.L, (if keep = [] then List.range cl.g.C else keep).length, cl.g.left⟩ : Cfg).Ok
  · rw [if_pos c2] at h; cases h
  rw [if_neg c2] at h
  obtain ⟨st, h2, h⟩ := Option.bind_eq_some_iff.1 h
  by_cases he : cl.states = []
  · rw [if_pos he] at h
    obtain rfl := Option.some.inj h
    exact ⟨rfl, fun _ => rfl, fun h => absurd he h⟩
  · rw [if_neg he] at h
    obtain rfl := Option.some.inj h
    refine ⟨rfl, fun h => absurd h he, fun _ => ⟨?_, ?_⟩⟩
    · by_cases hk : keep = [] <;> simp [hk]
    · by_cases hk : ckeep = [] <;> simp [hk]

theorem adjustLength_shape {cl out : Collection} {n : ℕ} (hn : n ≠ 0) (h : adjustLength cl n = some out) :
    out.g = ⟨n, cl.g.C, cl.g.left⟩ ∧ out.m = cl.m ∧ out.thr = cl.thr ∧ (cl.states = [] → out.states = []) := by
  unfold adjustLength at h
  simp only [Option.bind_eq_bind, if_neg hn, ite_not] at h
  split at h
  swap; · cases h
  obtain ⟨st, h2, h⟩ := Option.bind_eq_some_iff.1 h
  obtain rfl := Option.some.inj h
  refine ⟨rfl, rfl, rfl, ?_⟩
  intro he
  simp only at he ⊢
  rw [he] at h2
  exact (Option.some.inj h2).symm

theorem copyColl_empty {thr : ℝ} {m : ℕ} {coll : Coll} (h : copyColl thr m [] = some coll) : coll = [] := (Option.some.inj h).symm

theorem reshape_parts {c next : Circ} {r r' : ℕ → ℕ → ℕ} {coll : Coll} {out : Collection} :
    reshape c next r r' coll = some out ↔ ∃ states b d, copyColl c.thr c.m coll = some states ∧
      (if next.g.C > c.g.C then extendColl ⟨c.g, c.m, c.thr, states⟩ (next.g.C - c.g.C) 0 [] r
        else if next.g.C < c.g.C then reduceColl ⟨c.g, c.m, c.thr, states⟩ (List.range next.g.C) [] else some ⟨c.g, c.m, c.thr, states⟩) = some b ∧
      (if next.m > c.m then extendColl b 0 (next.m - c.m) [] r'
        else if next.m < c.m then reduceColl b [] (List.range next.m) else some b) = some d ∧ adjustLength d next.g.L = some out := by
  unfold reshape
  simp only [Option.bind_eq_bind, Option.bind_eq_some_iff]
  constructor
  · rintro ⟨states, h1, h⟩
    refine ⟨states, ?_⟩
    split_ifs at h ⊢ <;> simp only [Option.bind_eq_some_iff] at h <;> simp_all
  · rintro ⟨states, b, d, h1, h2, h3, h4⟩
    refine ⟨states, h1, ?_⟩
    split_ifs at h2 h3 ⊢ <;> simp only [Option.bind_eq_some_iff] <;> simp_all

theorem reshape_empty {c next : Circ} {r r' : ℕ → ℕ → ℕ} {out : Collection} (hL : next.g.L ≠ 0) (h : reshape c next r r' [] = some out) : out.states = [] := by
  obtain ⟨states, b, d, h1, h2, h3, h4⟩ := reshape_parts.1 h
  obtain rfl := copyColl_empty h1
  have hb : b.states = [] := by
    split at h2
    · exact (extendColl_shape h2).2.2.2 rfl
    · split at h2
      · rw [(reduceColl_shape h2).2.1 rfl]
      · obtain rfl := Option.some.inj h2; rfl
  have hd : d.states = [] := by
    split at h3
    · exact (extendColl_shape h3).2.2.2 hb
    · split at h3
      · rw [(reduceColl_shape h3).2.1 hb]; exact hb
      · obtain rfl := Option.some.inj h3; exact hb
  exact (adjustLength_shape hL h4).2.2.2 hd

/-- The shape of a collection after a bridge. -/
theorem reshape_shape {c next : Circ} {r r' : ℕ → ℕ → ℕ} {coll : Coll} {out : Collection} (hg' : next.g.Ok) (hm : 0 < next.m ∨ c.m = 0)
    (h : reshape c next r r' coll = some out) (hne : out.states ≠ []) :
    out.g = ⟨next.g.L, next.g.C, c.g.left⟩ ∧ out.m = next.m ∧ out.thr = c.thr := by
  have hL : next.g.L ≠ 0 := by have := hg'.1; omega
  have hC : next.g.C ≠ 0 := by have := hg'.2; omega
  obtain ⟨states, b, d, h1, h2, h3, h4⟩ := reshape_parts.1 h
  obtain ⟨a1, a2, a3, a4⟩ := adjustLength_shape hL h4
  have hd : d.states ≠ [] := fun he => hne (a4 he)
  have hb : b.states ≠ [] ∧ d.g = b.g ∧ d.thr = b.thr ∧ (b.m = c.m → d.m = next.m) := by
    split at h3
    · rename_i hlt
      obtain ⟨e1, e2, e3, e4⟩ := extendColl_shape h3
      exact ⟨fun he => hd (e4 he), e1.trans rfl, e3, fun hbm => by omega⟩
    · split at h3
      · rename_i hlt
        obtain ⟨e1, e2, e3⟩ := reduceColl_shape h3
        have hbn : b.states ≠ [] := fun he => hd (by rw [e2 he]; exact he)
        obtain ⟨e4, e5⟩ := e3 hbn
        refine ⟨hbn, by rw [e4]; simp, e1, fun _ => ?_⟩
        rw [e5, if_neg (by simp; omega), List.length_range]
      · obtain rfl := Option.some.inj h3
        exact ⟨hd, rfl, rfl, fun h => by omega⟩
  have hs : b.g = ⟨c.g.L, next.g.C, c.g.left⟩ ∧ b.m = c.m ∧ b.thr = c.thr := by
    split at h2
    · obtain ⟨e1, e2, e3, e4⟩ := extendColl_shape h2
      refine ⟨?_, e2, e3⟩
      rw [e1]
      simp only [Cfg.mk.injEq, true_and, and_true]
      omega
    · split at h2
      · obtain ⟨e1, e2, e3⟩ := reduceColl_shape h2
        have hsn : states ≠ [] := by
          rintro rfl
          exact hb.1 (by rw [e2 rfl])
        obtain ⟨e4, e5⟩ := e3 hsn
        refine ⟨?_, ?_, e1⟩
        · rw [e4, if_neg (by simp; omega), List.length_range]
        · rw [e5]; simp
      · obtain rfl := Option.some.inj h2
        refine ⟨?_, rfl, rfl⟩
        have : next.g.C = c.g.C := by omega
        rw [this]
  refine ⟨?_, ?_, ?_⟩
  · rw [a1, hb.2.1, hs.1]
  · rw [a2]; exact hb.2.2.2 hs.2.1
  · rw [a3, hb.2.2.1, hs.2.2]

theorem evalNodes_empty (hgen : ∀ (k i : ℕ) (f : Coll → Option Coll), (env k).nodes[i]? = some (Node.generic f) → ∀ out, f [] = some out → out = []) (hg : ∀ k, (env k).g.Ok) :
    ∀ fuel k l out, evalNodes env rnd fuel k l [] = some out → out = [] := by
  intro fuel
  induction fuel with
  | zero => intro k l out h; cases h
  | succ fuel ih =>
    intro k l out h
    cases l with
    | nil => exact (Option.some.inj h).symm
    | cons i rest =>
      by_cases hv : ∀ j ∈ i :: rest, j < (env k).nodes.length
      swap
      · rw [evalNodes_invalid (by push Not at hv; exact hv)] at h; cases h
      by_cases ho : isOpt (env k) i = true
      · rw [evalNodes_run hv ho] at h
        obtain ⟨mid, h1, h2⟩ := Option.bind_eq_some_iff.1 h
        have : mid = [] := by
          unfold runEff at h1
          split at h1
          · cases h1
          · exact opticalColl_empty h1
        subst this
        exact ih _ _ _ h2
      · have ho : isOpt (env k) i = false := by simpa using ho
        by_cases hb : ∃ n, (env k).nodes[i]? = some (.bridge n)
        · obtain ⟨n, hb⟩ := hb
          rw [evalNodes_bridge hv hb] at h
          obtain ⟨mid, h1, h2⟩ := Option.bind_eq_some_iff.1 h
          rw [reshape_empty (by have := (hg n).1; omega) h1] at h2
          exact ih _ _ _ h2
        · push Not at hb
          rw [evalNodes_node hv hb ho] at h
          obtain ⟨mid, h1, h2⟩ := Option.bind_eq_some_iff.1 h
          obtain rfl := nodeEff_empty (hgen k i) h1
          exact ih _ _ _ h2

theorem opticalHeld_empty {c : Circ} {own : Settings} {n : Opt × List ℕ} {l : List (Opt × List ℕ)} {out : Coll}
    (h : opticalHeld c own n l [] = some out) : out = [] := by
  unfold opticalHeld at h
  have hc : copyColl own.thr own.m [] = some [] := rfl
  have hg : heldGroups c own [] = some (if c.full then [(Sel.all, [])] else []) := by
    unfold heldGroups
    split <;> rfl
  rw [hc, Option.bind_eq_bind, Option.bind_some, hg, Option.bind_eq_bind, Option.bind_some] at h
  split at h <;> exact (Option.some.inj h).symm

theorem nodeHeld_empty {c : Circ} {i : ℕ} {r : ℕ → ℕ → ℕ} {n : Node} (hgen : ∀ f : Coll → Option Coll, n = .generic f → ∀ out, f [] = some out → out = [])
    {circ own : Settings} {out : Held} (h : nodeHeld c i r ⟨circ, own, []⟩ n = some out) : out.states = [] := by
  cases n with
  | optical M tl => cases h
  | bridge j => cases h
  | generic f =>
    obtain ⟨o, h1, rfl⟩ := Option.map_eq_some_iff.1 h
    exact hgen f rfl o h1
  | controlled vars ch df tl =>
    obtain ⟨o, h1, rfl⟩ := Option.map_eq_some_iff.1 h
    unfold controlledHeld at h1
    split at h1
    · cases h1
    · exact (Option.some.inj h1).symm
  | _ => obtain rfl := Option.some.inj h; rfl

theorem reshapeHeld_parts {c next : Circ} {r r' : ℕ → ℕ → ℕ} {h out : Held} :
    reshapeHeld c next r r' h = some out ↔ ∃ states b d e, copyColl h.own.thr h.own.m h.states = some states ∧
      (if next.g.C > c.g.C then extendColl ⟨h.circ.g, h.circ.m, h.circ.thr, states⟩ (next.g.C - c.g.C) 0 [] r
        else if next.g.C < c.g.C then reduceColl ⟨h.circ.g, h.circ.m, h.circ.thr, states⟩ (List.range next.g.C) []
        else some ⟨h.circ.g, h.circ.m, h.circ.thr, states⟩) = some b ∧
      (if next.m > c.m then extendColl b 0 (next.m - c.m) [] r'
        else if next.m < c.m then reduceColl b [] (List.range next.m) else some b) = some d ∧ adjustLength d next.g.L = some e ∧
      out = ⟨⟨e.g, e.m, defaultThr⟩, ⟨e.g, e.m, e.thr⟩, e.states⟩ := by
  unfold reshapeHeld
  simp only [Option.bind_eq_bind, Option.bind_eq_some_iff]
  constructor
  · rintro ⟨states, h1, h⟩
    refine ⟨states, ?_⟩
    split_ifs at h ⊢ <;> simp only [Option.bind_eq_some_iff] at h <;> simp_all [eq_comm]
  · rintro ⟨states, b, d, e, h1, h2, h3, h4, h5⟩
    refine ⟨states, h1, ?_⟩
    split_ifs at h2 h3 ⊢ <;> simp only [Option.bind_eq_some_iff] <;> simp_all

theorem reshapeHeld_empty {c next : Circ} {r r' : ℕ → ℕ → ℕ} {circ own : Settings} {out : Held} (hL : next.g.L ≠ 0)
    (h : reshapeHeld c next r r' ⟨circ, own, []⟩ = some out) : out.states = [] := by
  obtain ⟨states, b, d, e, h1, h2, h3, h4, rfl⟩ := reshapeHeld_parts.1 h
  obtain rfl := copyColl_empty h1
  have hb : b.states = [] := by
    split at h2
    · exact (extendColl_shape h2).2.2.2 rfl
    · split at h2
      · rw [(reduceColl_shape h2).2.1 rfl]
      · obtain rfl := Option.some.inj h2; rfl
  have hd : d.states = [] := by
    split at h3
    · exact (extendColl_shape h3).2.2.2 hb
    · split at h3
      · rw [(reduceColl_shape h3).2.1 hb]; exact hb
      · obtain rfl := Option.some.inj h3; exact hb
  exact (adjustLength_shape hL h4).2.2.2 hd

theorem evalHeld_empty (hgen : ∀ (k i : ℕ) (f : Coll → Option Coll), (env k).nodes[i]? = some (Node.generic f) → ∀ out, f [] = some out → out = [])
    (hg : ∀ k, (env k).g.Ok) :
    ∀ fuel k l h out, h.states = [] → evalHeld env rnd fuel k l h = some out → out.states = [] := by
  intro fuel
  induction fuel with
  | zero => intro k l h out _ h'; cases h'
  | succ fuel ih =>
    rintro k l ⟨circ, own, states⟩ out he h
    obtain rfl : states = [] := he
    cases l with
    | nil => obtain rfl := Option.some.inj h; rfl
    | cons i rest =>
      by_cases hv : ∀ j ∈ i :: rest, j < (env k).nodes.length
      swap
      · rw [evalHeld_invalid (by push Not at hv; exact hv)] at h; cases h
      by_cases ho : isOpt (env k) i = true
      · rw [evalHeld_run hv ho] at h
        obtain ⟨mid, h1, h2⟩ := Option.bind_eq_some_iff.1 h
        refine ih _ _ _ _ ?_ h2
        unfold runHeld at h1
        split at h1
        · cases h1
        · obtain ⟨o, h3, rfl⟩ := Option.map_eq_some_iff.1 h1
          exact opticalHeld_empty h3
      · have ho : isOpt (env k) i = false := by simpa using ho
        by_cases hb : ∃ n, (env k).nodes[i]? = some (.bridge n)
        · obtain ⟨n, hb⟩ := hb
          rw [evalHeld_bridge hv hb] at h
          obtain ⟨mid, h1, h2⟩ := Option.bind_eq_some_iff.1 h
          exact ih _ _ _ _ (reshapeHeld_empty (by have := (hg n).1; omega) h1) h2
        · push Not at hb
          have hi := hv i (by simp)
          have hn : (env k).nodes[i]? = some ((env k).nodes[i]) := List.getElem?_eq_getElem hi
          rw [evalHeld_node hv hn (by simpa [isOpt, hn] using ho) (fun j hj => hb j (by rw [hn, hj]))] at h
          obtain ⟨mid, h1, h2⟩ := Option.bind_eq_some_iff.1 h
          exact ih _ _ _ _ (nodeHeld_empty (fun f hf => hgen k i f (by rw [hn, hf])) h1) h2

/-- With equal settings both evaluations give the same states (as long as any are left). -/
theorem evalHeld_iff (hgen : ∀ (k i : ℕ) (f : Coll → Option Coll), (env k).nodes[i]? = some (Node.generic f) → ∀ out, f [] = some out → out = [])
    (hg : ∀ k, (env k).g.Ok) (hleft : ∀ k k', (env k).g.left = (env k').g.left) (hthr : ∀ k, (env k).thr = defaultThr)
    (hm : ∀ k k', 0 < (env k').m ∨ (env k).m = 0) :
    ∀ fuel k l coll out, out ≠ [] → (evalNodes env rnd fuel k l coll = some out ↔
      ∃ h, evalHeld env rnd fuel k l ⟨(env k).settings, (env k).settings, coll⟩ = some h ∧ h.states = out) := by
  intro fuel
  induction fuel with
  | zero => 
    intro k l coll out _
    constructor
    · intro h; cases h
    · rintro ⟨h, h', _⟩; cases h'
  | succ fuel ih =>
    intro k l coll out hne
    cases l with
    | nil =>
      rw [evalNodes_nil, evalHeld_nil]
      constructor
      · intro h; exact ⟨_, rfl, Option.some.inj h⟩
      · rintro ⟨h, h', rfl⟩; obtain rfl := Option.some.inj h'; rfl
    | cons i rest =>
      by_cases hv : ∀ j ∈ i :: rest, j < (env k).nodes.length
      swap
      · rw [evalNodes_invalid (by push Not at hv; exact hv), evalHeld_invalid (by push Not at hv; exact hv)]
        simp
      by_cases ho : isOpt (env k) i = true
      · rw [evalNodes_run hv ho, evalHeld_run hv ho, runHeld_settings]
        cases runEff (env k) ((i :: rest).takeWhile (isOpt (env k))) coll with
        | none => simp
        | some mid => exact ih _ _ _ _ hne
      · have ho : isOpt (env k) i = false := by simpa using ho
        by_cases hb : ∃ n, (env k).nodes[i]? = some (.bridge n)
        · obtain ⟨n, hb⟩ := hb
          rw [evalNodes_bridge hv hb, evalHeld_bridge hv hb, reshapeHeld_settings]
          cases hr : reshape (env k) (env n) (rnd k i true) (rnd k i false) coll with
          | none => simp
          | some e =>
            simp only [Option.bind_some, Option.map_some]
            by_cases he : e.states = []
            · rw [he]
              constructor
              · intro h; exact absurd (evalNodes_empty hgen hg _ _ _ _ h) hne
              · rintro ⟨h, h', rfl⟩; exact absurd (evalHeld_empty hgen hg _ _ _ _ _ rfl h') hne
            · obtain ⟨s1, s2, s3⟩ := reshape_shape (hg n) (hm k n) hr he
              have hs : (⟨e.g, e.m, e.thr⟩ : Settings) = (env n).settings := by
                rw [s1, s2, s3, hthr k, ← hthr n, hleft k n]; rfl
              have hs' : (⟨e.g, e.m, defaultThr⟩ : Settings) = (env n).settings := by
                rw [← hs, s3, hthr k]
              rw [hs, hs']
              exact ih _ _ _ _ hne
        · push Not at hb
          have hi := hv i (by simp)
          have hn : (env k).nodes[i]? = some ((env k).nodes[i]) := List.getElem?_eq_getElem hi
          have ho' : ((env k).nodes[i]).isOptical = false := by simpa [isOpt, hn] using ho
          have hb' : ∀ j, (env k).nodes[i] ≠ .bridge j := fun j hj => hb j (by rw [hn, hj])
          rw [evalNodes_node hv hb ho, evalHeld_node hv hn ho' hb', nodeHeld_settings k i coll _ hn ho' hb']
          cases nodeEff env rnd k i coll with
          | none => simp
          | some mid => exact ih _ _ _ _ hne

end Verif
