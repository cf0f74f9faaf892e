/- Helper lemmas about adding channels. -/
import Verif.Lemmas.ReduceColl

namespace Verif
open Spec

theorem mem_allLists {L n : ℕ} {e : Vals} : e ∈ allLists L n ↔ e.length = n ∧ ∀ x ∈ e, x < L := by
  induction n generalizing e with
  | zero =>
    simp only [allLists, List.mem_singleton]
    constructor
    · rintro rfl; simp
    · rintro ⟨h, -⟩; exact List.length_eq_zero_iff.1 h
  | succ n ih =>
    simp only [allLists, List.mem_flatMap, List.mem_map, List.mem_range]
    constructor
    · rintro ⟨e, he, x, hx, rfl⟩
      obtain ⟨h1, h2⟩ := ih.1 he
      refine ⟨by simp [h1], ?_⟩
      intro y hy
      rcases List.mem_append.1 hy with hy | hy
      · exact h2 y hy
      · simp at hy; omega
    · rintro ⟨h1, h2⟩
      have hne : e ≠ [] := by rintro rfl; simp at h1
      refine ⟨e.dropLast, ih.2 ⟨by simp [h1], fun x hx => h2 x (List.mem_of_mem_dropLast hx)⟩, e.getLast hne, h2 _ (List.getLast_mem hne),
        List.dropLast_append_getLast hne⟩

theorem nodup_allLists (L n : ℕ) : (allLists L n).Nodup := by
  induction n with
  | zero => simp [allLists]
  | succ n ih =>
    rw [allLists, List.nodup_flatMap]
    constructor
    · intro e _
      exact List.nodup_range.map_on (fun a _ b _ h => by simpa using h)
    · refine List.Pairwise.imp_of_mem ?_ ih
      intro a b _ _ hab
      rw [Function.onFun, List.disjoint_left]
      intro x hx hx'
      obtain ⟨y, _, rfl⟩ := List.mem_map.1 hx
      obtain ⟨z, _, h⟩ := List.mem_map.1 hx'
      exact hab (List.append_inj' h rfl).1.symm

theorem weight_append (dist : List ℝ) (e : Vals) (x : ℕ) : weight dist (e ++ [x]) = dist.getD x 0 * weight dist e := by
  simp [weight, mul_comm]

/-- name of the extra values -/
def extraName (g : Cfg) (e : Vals) : Name := g.stdName e

theorem extraValues_succ {g : Cfg} {dist : List ℝ} (hd : dist.length = g.L) (n : ℕ) (old : Dict Name (ℝ × Vals))
    (ho : old.map Prod.snd = (allLists g.L n).map (fun e => (weight dist e, e))) :
    old.foldlM (fun (d : Dict Name (ℝ × Vals)) p =>
      (List.range g.L).foldlM (fun (d : Dict Name (ℝ × Vals)) x => do
        let s ← (⟨g.L, (p.2.2 ++ [x]).length, g.left⟩ : Cfg).render (p.2.2 ++ [x])
        let y ← dist[x]?
        some (d.set s (y * p.2.1, p.2.2 ++ [x]))) d) []
    = some ((allLists g.L (n + 1)).map (fun e => (g.stdName e, (weight dist e, e)))) := by
  have hstd : ∀ (C : ℕ) e, (⟨g.L, C, g.left⟩ : Cfg).stdName e = g.stdName e := fun _ _ => rfl
  rw [foldlM_eq_some (h := fun (d : Dict Name (ℝ × Vals)) p => (List.range g.L).foldl (fun (d : Dict Name (ℝ × Vals)) x =>
      d.set (g.stdName (p.2.2 ++ [x])) (weight dist (p.2.2 ++ [x]), p.2.2 ++ [x])) d)]
  · have e1 : old.foldl (fun (d : Dict Name (ℝ × Vals)) p => (List.range g.L).foldl (fun (d : Dict Name (ℝ × Vals)) x =>
        d.set (g.stdName (p.2.2 ++ [x])) (weight dist (p.2.2 ++ [x]), p.2.2 ++ [x])) d) []
        = ((allLists g.L (n + 1)).map (fun e => (g.stdName e, (weight dist e, e)))).foldl (fun (d : Dict Name (ℝ × Vals)) kv => d.set kv.1 kv.2) [] := by
      have e2 : old.foldl (fun (d : Dict Name (ℝ × Vals)) p => (List.range g.L).foldl (fun (d : Dict Name (ℝ × Vals)) x =>
        d.set (g.stdName (p.2.2 ++ [x])) (weight dist (p.2.2 ++ [x]), p.2.2 ++ [x])) d) []
        = (old.map Prod.snd).foldl (fun (d : Dict Name (ℝ × Vals)) p => (List.range g.L).foldl (fun (d : Dict Name (ℝ × Vals)) x =>
        d.set (g.stdName (p.2 ++ [x])) (weight dist (p.2 ++ [x]), p.2 ++ [x])) d) [] := by rw [List.foldl_map]
      rw [e2, ho, List.foldl_map, List.foldl_map, allLists, List.foldl_flatMap]
      simp only [List.foldl_map]
    rw [e1]
    congr 1
    apply Dict.ofList_of_nodup
    rw [List.map_map]
    refine (nodup_allLists _ _).map_on ?_
    intro a ha b hb h
    exact g.stdName_inj (mem_allLists.1 ha).2 (mem_allLists.1 hb).2 h
  · intro d p hp
    have hm : p.2 ∈ (allLists g.L n).map (fun e => (weight dist e, e)) := by rw [← ho]; exact List.mem_map.2 ⟨p, hp, rfl⟩
    obtain ⟨e, he, hpe⟩ := List.mem_map.1 hm
    apply foldlM_eq_some
    intro d x hx
    have hx := List.mem_range.1 hx
    have hv : ∀ y ∈ p.2.2 ++ [x], y < g.L := by
      intro y hy
      rcases List.mem_append.1 hy with hy | hy
      · rw [← hpe] at hy; exact (mem_allLists.1 he).2 y hy
      · simp at hy; omega
    rw [Cfg.render_of_lt (⟨g.L, (p.2.2 ++ [x]).length, g.left⟩ : Cfg) hv, List.getElem?_eq_getElem (by omega)]
    simp only [Option.bind_eq_bind, Option.bind_some]
    rw [hstd, weight_append, List.getD_eq_getElem?_getD, List.getElem?_eq_getElem (by omega), Option.getD_some, ← hpe]

theorem extraValues_spec {g : Cfg} {dist : List ℝ} (hd : dist.length = g.L) (n : ℕ) :
    ∃ d, extraValues g dist n = some d ∧ d.map Prod.snd = (allLists g.L n).map (fun e => (weight dist e, e)) := by
  induction n with
  | zero => exact ⟨_, rfl, by simp [allLists, weight]⟩
  | succ n ih =>
    obtain ⟨old, h1, h2⟩ := ih
    rw [extraValues, h1]
    refine ⟨_, extraValues_succ hd n old h2, ?_⟩
    rw [List.map_map]
    rfl

/-- configuration after adding optical channels -/
def extCfg (g : Cfg) (eo : ℕ) : Cfg := ⟨g.L, g.C + eo, g.left⟩

/-- the extended state in terms of photon numbers -/
noncomputable def extState (g : Cfg) (eo ec : ℕ) (q : QState) (l : VComps) (w : ℝ) (e : Vals) : QState :=
  ⟨q.initial, q.cum * w, enc (extCfg g eo) (l.map (fun p => (p.1 ++ e, p.2))), q.classical ++ List.replicate ec 0, q.results⟩

theorem append_valid {g : Cfg} {eo : ℕ} {e v : Vals} (he : e ∈ allLists g.L eo) (hv : Valid g v) : Valid (extCfg g eo) (v ++ e) := by
  obtain ⟨h1, h2⟩ := mem_allLists.1 he
  refine ⟨by simp [extCfg, hv.1, h1], ?_⟩
  intro x hx
  rcases List.mem_append.1 hx with hx | hx
  · exact hv.2 x hx
  · exact h2 x hx

theorem ext_ok {g : Cfg} {eo : ℕ} {e : Vals} {l : VComps} (he : e ∈ allLists g.L eo) (hl : VOk g l) :
    VOk (extCfg g eo) (l.map (fun p => (p.1 ++ e, p.2))) := by
  constructor
  · rw [List.map_map]
    have : l.map (Prod.fst ∘ fun p : Vals × Comp => (p.1 ++ e, p.2)) = (l.map Prod.fst).map (· ++ e) := by rw [List.map_map]; rfl
    rw [this]
    exact hl.nodup.map (fun a b h => List.append_cancel_right h)
  · intro p hp
    obtain ⟨r, hr, rfl⟩ := List.mem_map.1 hp
    exact append_valid he (hl.valid r hr)

theorem extendedState_enc {g : Cfg} {eo ec : ℕ} {e : Vals} {l : VComps} {q : QState} {w : ℝ} (he : e ∈ allLists g.L eo) (hl : VOk g l)
    (hq : q.comps = enc g l) : extendedState g (extCfg g eo) ec q w e = some (extState g eo ec q l w e) := by
  unfold extendedState
  have hfold : q.comps.foldlM (fun (d : Comps) c => do
      let v ← g.parse c.1
      let s ← (extCfg g eo).render (v ++ e)
      some (d.set s c.2)) ([] : Comps) = some (enc (extCfg g eo) (l.map (fun p => (p.1 ++ e, p.2)))) := by
    rw [hq, enc, List.foldlM_map]
    rw [foldlM_eq_some (h := fun (d : Comps) c => d.set ((extCfg g eo).stdName (c.1 ++ e)) c.2)]
    · have := foldl_set_enc_nodup (l.map (fun p => (p.1 ++ e, p.2))) (ext_ok he hl)
      rw [List.foldl_map] at this
      rw [this]
    · intro d p hp
      rw [g.parse_stdName (hl.valid p hp).2]
      simp only [Option.bind_eq_bind, Option.bind_some]
      rw [(extCfg g eo).render_of_valid (append_valid he (hl.valid p hp))]
      rfl
  rw [hfold]
  rfl

/-- what a pair of a state and extra photon numbers turns into -/
def ExtendedTo (g : Cfg) (eo ec : ℕ) (dist : List ℝ) (pe : (List Char × QState) × Vals) (e' : List Char × QState) : Prop :=
  ∃ l, VOk g l ∧ pe.1.2.comps = enc g l ∧ pe.2 ∈ allLists g.L eo ∧ e'.2 = extState g eo ec pe.1.2 l (weight dist pe.2) pe.2

open Classical in
/-- the pairs that are kept -/
noncomputable def extPairs (cl : Collection) (dist : List ℝ) (eo : ℕ) : List ((List Char × QState) × Vals) :=
  (allLists cl.g.L eo).flatMap (fun e => (cl.states.filter (fun p => cl.thr ≤ p.2.cum * weight dist e)).map (fun p => (p, e)))

theorem addState_none_nodup {coll : Coll} (hn : (coll.map Prod.fst).Nodup) (q : QState) (r : ℕ → ℕ) :
    ∃ i, ((coll ++ [(i, q)]).map Prod.fst).Nodup ∧ addState coll q none r = coll ++ [(i, q)] := by
  refine ⟨freshId coll.keys r, ?_, Dict.set_of_not_mem q (freshId_not_mem _ _)⟩
  rw [List.map_append, List.nodup_append]
  refine ⟨hn, by simp, ?_⟩
  intro a ha b hb hab
  simp at hb
  subst hab hb
  exact freshId_not_mem _ _ ha

open Classical in
theorem extend_inner {cl : Collection} {eo ec : ℕ} {dist : List ℝ} {r : ℕ → ℕ → ℕ} {e : Vals} (he : e ∈ allLists cl.g.L eo)
    (hwt : 0 ≤ weight dist e ∧ weight dist e ≤ 1) (hthr : 0 ≤ cl.thr) (states : Coll)
    (hs : ∀ p ∈ states, WellFormed cl.g p.2.comps ∧ CheckValid cl.thr cl.m p.2) (acc : Coll) (ha : (acc.map Prod.fst).Nodup) :
    ∃ new, states.foldlM (fun (out : Coll) p => do
      let q ← extendedState cl.g (extCfg cl.g eo) ec p.2 (weight dist e) e
      if q.cum ≥ cl.thr then
        let q' ← newState cl.thr (cl.m + ec) q
        some (addState out q' none (r out.length))
      else some out) acc = some (acc ++ new) ∧ ((acc ++ new).map Prod.fst).Nodup ∧
      List.Forall₂ (ExtendedTo cl.g eo ec dist) ((states.filter (fun p => cl.thr ≤ p.2.cum * weight dist e)).map (fun p => (p, e))) new ∧
      ∀ x ∈ new, CheckValid cl.thr (cl.m + ec) x.2 := by
  induction states generalizing acc with
  | nil => exact ⟨[], by simp, by simpa using ha, by simp, by simp⟩
  | cons p states ih =>
    obtain ⟨hwf, hv⟩ := hs p (by simp)
    obtain ⟨l, hl, hle⟩ := exists_enc hwf
    rw [List.foldlM_cons, extendedState_enc he hl hle]
    simp only [Option.bind_eq_bind, Option.bind_some]
    have hcum : (extState cl.g eo ec p.2 l (weight dist e) e).cum = p.2.cum * weight dist e := rfl
    by_cases hc : cl.thr ≤ p.2.cum * weight dist e
    · rw [hcum, if_pos hc]
      have hval : CheckValid cl.thr (cl.m + ec) (extState cl.g eo ec p.2 l (weight dist e) e) := by
        obtain ⟨v1, v2, v3, v4⟩ := hv
        refine ⟨by rw [hcum]; linarith, ?_, ?_, ?_⟩
        · rw [hcum]
          by_cases h0 : 0 ≤ p.2.cum
          · nlinarith [hwt.1, hwt.2]
          · nlinarith [hwt.1, hwt.2]
        · intro x hx
          obtain ⟨y, hy, rfl⟩ := List.mem_map.1 (show x ∈ enc _ _ from hx)
          obtain ⟨z, hz, rfl⟩ := List.mem_map.1 hy
          exact v3 (cl.g.stdName z.1, z.2) (by rw [hle]; exact List.mem_map.2 ⟨z, hz, rfl⟩)
        · simp [extState, v4]
      obtain ⟨i, hi1, hi2⟩ := addState_none_nodup ha (extState cl.g eo ec p.2 l (weight dist e) e) (r acc.length)
      rw [newState, if_pos hval]
      simp only [Option.bind_some]
      rw [hi2]
      obtain ⟨new, h1, h2, h3, h4⟩ := ih (fun p hp => hs p (by simp [hp])) _ hi1
      refine ⟨(i, extState cl.g eo ec p.2 l (weight dist e) e) :: new, ?_, ?_, ?_, ?_⟩
      · simp only [Option.bind_eq_bind] at h1
        rw [h1]; simp
      · simpa using h2
      · rw [List.filter_cons, if_pos (by simpa using hc), List.map_cons]
        exact List.Forall₂.cons ⟨l, hl, hle, he, rfl⟩ h3
      · intro x hx
        rcases List.mem_cons.1 hx with rfl | hx
        · exact hval
        · exact h4 x hx
    · rw [hcum, if_neg hc]
      simp only [Option.bind_some]
      obtain ⟨new, h1, h2, h3, h4⟩ := ih (fun p hp => hs p (by simp [hp])) acc ha
      refine ⟨new, ?_, h2, ?_, h4⟩
      · simp only [Option.bind_eq_bind] at h1
        exact h1
      · rw [List.filter_cons, if_neg (by simpa using hc)]
        exact h3

theorem weight_bounds {dist : List ℝ} (hd : ∀ x ∈ dist, 0 ≤ x ∧ x ≤ 1) (e : Vals) : 0 ≤ weight dist e ∧ weight dist e ≤ 1 := by
  have hx : ∀ x, 0 ≤ dist.getD x 0 ∧ dist.getD x 0 ≤ 1 := by
    intro x
    by_cases h : x < dist.length
    · rw [List.getD_eq_getElem?_getD, List.getElem?_eq_getElem h, Option.getD_some]
      exact hd _ (List.getElem_mem h)
    · rw [List.getD_eq_getElem?_getD, List.getElem?_eq_none (by omega)]
      simp
  induction e with
  | nil => simp [weight]
  | cons x e ih =>
    have e1 : weight dist (x :: e) = dist.getD x 0 * weight dist e := by simp [weight]
    rw [e1]
    exact ⟨mul_nonneg (hx x).1 ih.1, mul_le_one₀ (hx x).2 ih.1 ih.2⟩

theorem extend_outer {cl : Collection} {eo ec : ℕ} {dist : List ℝ} {r : ℕ → ℕ → ℕ} (hd : ∀ x ∈ dist, 0 ≤ x ∧ x ≤ 1) (hthr : 0 ≤ cl.thr)
    (hs : ∀ p ∈ cl.states, WellFormed cl.g p.2.comps ∧ CheckValid cl.thr cl.m p.2) (es : Dict Name (ℝ × Vals)) (us : List Vals)
    (hes : es.map Prod.snd = us.map (fun e => (weight dist e, e))) (hus : ∀ e ∈ us, e ∈ allLists cl.g.L eo) (acc : Coll) (ha : (acc.map Prod.fst).Nodup) :
    open Classical in
    ∃ new, es.foldlM (fun (out : Coll) e => cl.states.foldlM (fun (out : Coll) p => do
      let q ← extendedState cl.g (extCfg cl.g eo) ec p.2 e.2.1 e.2.2
      if q.cum ≥ cl.thr then
        let q' ← newState cl.thr (cl.m + ec) q
        some (addState out q' none (r out.length))
      else some out) out) acc = some (acc ++ new) ∧ ((acc ++ new).map Prod.fst).Nodup ∧
      List.Forall₂ (ExtendedTo cl.g eo ec dist) (us.flatMap (fun e => (cl.states.filter (fun p => cl.thr ≤ p.2.cum * weight dist e)).map (fun p => (p, e)))) new ∧
      ∀ x ∈ new, CheckValid cl.thr (cl.m + ec) x.2 := by
  classical
  induction es generalizing us acc with
  | nil =>
    cases us with
    | nil => exact ⟨[], by simp, by simpa using ha, by simp, by simp⟩
    | cons u us => simp at hes
  | cons e es ih =>
    cases us with
    | nil => simp at hes
    | cons u us =>
      rw [List.map_cons, List.map_cons, List.cons.injEq] at hes
      obtain ⟨he, hes⟩ := hes
      obtain ⟨new, h1, h2, h3, h4⟩ := extend_inner (ec := ec) (r := r) (hus u (by simp)) (weight_bounds hd u) hthr cl.states hs acc ha
      obtain ⟨new', k1, k2, k3, k4⟩ := ih us hes (fun e he => hus e (by simp [he])) (acc ++ new) h2
      refine ⟨new ++ new', ?_, by simpa using k2, ?_, ?_⟩
      · rw [List.foldlM_cons, he]
        rw [h1]
        simp only [Option.bind_eq_bind, Option.bind_some] at k1 ⊢
        rw [k1, List.append_assoc]
      · rw [List.flatMap_cons]
        exact List.rel_append h3 k3
      · intro x hx
        rcases List.mem_append.1 hx with hx | hx
        · exact h4 x hx
        · exact k4 x hx

theorem extendColl_spec {cl : Collection} {eo ec : ℕ} {dist : List ℝ} {r : ℕ → ℕ → ℕ} (hg : cl.g.Ok) (hthr : 0 ≤ cl.thr)
    (hlen : (orVacuum cl.g.L dist).length = cl.g.L) (hd : ∀ x ∈ dist, 0 ≤ x ∧ x ≤ 1)
    (hs : ∀ p ∈ cl.states, WellFormed cl.g p.2.comps ∧ CheckValid cl.thr cl.m p.2) (hne : ¬ (eo = 0 ∧ ec = 0)) :
    ∃ new, extendColl cl eo ec dist r = some ⟨extCfg cl.g eo, cl.m + ec, cl.thr, new⟩ ∧ (new.map Prod.fst).Nodup ∧
      List.Forall₂ (ExtendedTo cl.g eo ec (orVacuum cl.g.L dist)) (extPairs cl (orVacuum cl.g.L dist) eo) new ∧
      ∀ x ∈ new, CheckValid cl.thr (cl.m + ec) x.2 := by
  classical
  have hd' : ∀ x ∈ orVacuum cl.g.L dist, 0 ≤ x ∧ x ≤ 1 := by
    intro x hx
    unfold orVacuum at hx
    split at hx
    · rcases List.mem_cons.1 hx with rfl | hx
      · simp
      · rw [List.eq_of_mem_replicate hx]; simp
    · exact hd x hx
  obtain ⟨d, h1, h2⟩ := extraValues_spec hlen eo
  obtain ⟨new, k1, k2, k3, k4⟩ := extend_outer (eo := eo) (ec := ec) (r := r) hd' hthr hs d _ h2 (fun e he => he) [] (by simp)
  refine ⟨new, ?_, by simpa using k2, k3, k4⟩
  have e0 : extendColl cl eo ec dist r = (do
    if (orVacuum cl.g.L dist).length ≠ cl.g.L then none
    if eo = 0 ∧ ec = 0 then some cl else
    if ¬ (extCfg cl.g eo).Ok then none
    let extra ← extraValues cl.g (orVacuum cl.g.L dist) eo
    let out ← extra.foldlM (fun (out : Coll) e => cl.states.foldlM (fun (out : Coll) p => do
      let q ← extendedState cl.g (extCfg cl.g eo) ec p.2 e.2.1 e.2.2
      if q.cum ≥ cl.thr then
        let q' ← newState cl.thr (cl.m + ec) q
        some (addState out q' none (r out.length))
      else some out) out) []
    some ⟨extCfg cl.g eo, cl.m + ec, cl.thr, out⟩) := rfl
  rw [e0, if_neg (not_not.2 hlen), if_neg hne, if_neg, h1]
  · simp only [Option.bind_eq_bind, Option.bind_some] at k1 ⊢
    rw [k1]
    simp
  · have : 2 ≤ cl.g.C + eo := le_trans hg.2 (Nat.le_add_right _ _)
    exact not_not.2 ⟨hg.1, this⟩

end Verif
