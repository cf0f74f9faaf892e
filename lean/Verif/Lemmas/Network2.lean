/-
Helper lemmas: reshaping for a bridge succeeds.
-/
import Verif.Lemmas.Network

namespace Verif
open Spec Props

theorem noZeros_enc {g g' : Cfg} {l : VComps} : (∀ p ∈ enc g l, p.2.amp ≠ 0) → ∀ p ∈ enc g' l, p.2.amp ≠ 0 := by
  intro h p hp
  obtain ⟨x, hx, rfl⟩ := List.mem_map.1 hp
  exact h (g.stdName x.1, x.2) (List.mem_map.2 ⟨x, hx, rfl⟩)

theorem runs_adjust {g : Cfg} {m n : ℕ} {thr t : ℝ} (ht : 0 ≤ thr) (hn : 1 ≤ n) (hC : 2 ≤ g.C) (hL : g.L ≤ n) {coll : Coll} (hc : Sound g m coll) (ha : Alive t coll) :
    ∃ out, adjustLength ⟨g, m, thr, coll⟩ n = some out ∧ Alive t out.states := by
  have hw := fun p hp => (hc.states p hp).wf
  obtain ⟨new, hf⟩ := forall₂_exists (R := AdjustedTo g thr m n) (l := coll) (by
    intro p hp
    obtain ⟨l, hl, he⟩ := exists_enc (hw p hp)
    exact ⟨(p.1, { p.2 with comps := enc (lenCfg g n) (wrapComps n l) }), l, hl, he, rfl, rfl, measurable_check (adjust_state hL (hc.states p hp) hl he).1 ht⟩)
  refine ⟨⟨lenCfg g n, m, thr, new⟩, (adjustLength_iff (cl := ⟨g, m, thr, coll⟩) hn hC hc.ids hw).2 ⟨new, hf, rfl⟩, ⟨?_, ?_⟩⟩
  · intro p' hp'
    obtain ⟨p, hp, l, hl, he, -, e, -⟩ := forall₂_mem_right hf hp'
    rw [e]
    show t ≤ totalProb (enc _ _)
    rw [(adjust_state hL (hc.states p hp) hl he).2]
    exact ha.total p hp
  · intro p' hp'
    obtain ⟨p, hp, l, hl, he, -, e, -⟩ := forall₂_mem_right hf hp'
    rw [e]
    show ∀ c ∈ enc _ _, _
    rw [wrap_fits hl hL]
    refine noZeros_enc (g := g) ?_
    rw [← he]
    exact ha.nz p hp

theorem runs_reduce {g : Cfg} {m : ℕ} {thr t : ℝ} (ht : 0 ≤ thr) (h1 : t ≤ 1) {keep ckeep : List ℕ} {coll : Coll} (hc : Sound g m coll) (ha : Alive t coll) (hne : coll ≠ [])
    (hk : ∀ c ∈ orAll g.C keep, c < g.C) (hck : ∀ c ∈ orAll m ckeep, c < m) (hok : (keptCfg g (orAll g.C keep)).Ok) :
    ∃ out, reduceColl ⟨g, m, thr, coll⟩ keep ckeep = some out ∧ Alive t out.states := by
  have hw := fun p hp => (hc.states p hp).wf
  have hpos : ∀ (p : List Char × QState) (l : VComps) (s : List Char), p ∈ coll → p.2.comps = enc g l → s ∈ tracedKeys g (orAll g.C keep) l →
      tracedProb g (orAll g.C keep) l s ≠ 0 := by
    intro p l s hp he hs
    obtain ⟨x, hx, e⟩ := mem_tracedKeys.1 hs
    have hm : x ∈ tracedItems g (orAll g.C keep) l s := List.mem_filter.2 ⟨hx, by simp [e]⟩
    have h1 : ‖x.2.amp‖ ^ 2 ≤ tracedProb g (orAll g.C keep) l s := List.single_le_sum (by
      intro y hy
      obtain ⟨z, _, rfl⟩ := List.mem_map.1 hy
      positivity) _ (List.mem_map.2 ⟨x, hm, rfl⟩)
    have h2 : 0 < ‖x.2.amp‖ := norm_pos_iff.2 (ha.nz p hp (g.stdName x.1, x.2) (by rw [he]; exact List.mem_map.2 ⟨x, hx, rfl⟩))
    have h3 : 0 < ‖x.2.amp‖ ^ 2 := by positivity
    linarith
  obtain ⟨lss, hf⟩ := forall₂_exists (R := ReducedTo g thr (orAll g.C keep) (orAll m ckeep)) (l := coll) (by
    intro p hp
    obtain ⟨l, hl, he⟩ := exists_enc (hw p hp)
    have hm := hc.states p hp
    have hcl : (orAll m ckeep).mapM (fun n => p.2.classical[n]?) = some ((orAll m ckeep).map (fun n => p.2.classical.getD n 0)) := by
      apply mapM_some_of
      intro n hn
      have hn' : n < p.2.classical.length := by rw [hm.classical]; exact hck n hn
      rw [List.getElem?_eq_getElem hn', List.getD_eq_getElem?_getD, List.getElem?_eq_getElem hn', Option.getD_some]
    exact ⟨_, l, _, hl, he, fun _ => hcl, fun s hs => ⟨hpos p l s hp he hs,
      measurable_check (traced_measurable hk hm hl he (by simp) (hpos p l s hp he hs)) ht⟩, rfl⟩)
  refine ⟨_, (reduceColl_iff (cl := ⟨g, m, thr, coll⟩) hne hc.ids hw).2 ⟨hk, hck, hok, lss, hf, rfl⟩, ⟨?_, ?_⟩⟩
  all_goals
    intro e he
    obtain ⟨ls, hls, hm⟩ := List.mem_flatten.1 he
    obtain ⟨p, hp, l, cl, hl, hle, -, h2, rfl⟩ := forall₂_mem_right hf hls
    obtain ⟨s, hs, rfl⟩ := List.mem_map.1 hm
  · show t ≤ totalProb (tracedState g (orAll g.C keep) cl p.2 l s).comps
    rw [traced_total (hpos p l s hp hle hs)]
    exact h1
  · intro x hx
    obtain ⟨y, hy, rfl⟩ := List.mem_map.1 (show x ∈ enc _ _ from hx)
    obtain ⟨z, hz, rfl⟩ := List.mem_map.1 hy
    obtain ⟨w, hw', rfl⟩ := List.mem_map.1 hz
    refine mul_ne_zero ?_ ?_
    · exact ha.nz p hp (g.stdName w.1, w.2) (by rw [hle]; exact List.mem_map.2 ⟨w, (List.mem_filter.1 hw').1, rfl⟩)
    · have h0 := tracedProb_nonneg g (orAll g.C keep) l s
      have h0' : 0 < tracedProb g (orAll g.C keep) l s := lt_of_le_of_ne h0 (Ne.symm (hpos p l s hp hle hs))
      have : 0 < Real.sqrt (1 / tracedProb g (orAll g.C keep) l s) := Real.sqrt_pos.2 (by positivity)
      exact_mod_cast this.ne'

theorem runs_extend {g : Cfg} {m eo ec : ℕ} {thr t : ℝ} (hg : g.Ok) (hthr : 0 ≤ thr) (h0 : ¬ (eo = 0 ∧ ec = 0)) {coll : Coll} (hc : Sound g m coll) (ha : Alive t coll)
    (r : ℕ → ℕ → ℕ) : ∃ out, extendColl ⟨g, m, thr, coll⟩ eo ec [] r = some out ∧ Alive t out.states := by
  have hlen : (orVacuum g.L []).length = g.L := by
    have := hg.1
    simp [orVacuum]; omega
  obtain ⟨new, h1, h2, h3, h4⟩ := extendColl_spec (cl := ⟨g, m, thr, coll⟩) (r := r) (eo := eo) (ec := ec) hg hthr hlen (by simp)
    (fun p hp => ⟨(hc.states p hp).wf, measurable_check (hc.states p hp) hthr⟩) h0
  have hpe : ∀ pe ∈ extPairs ⟨g, m, thr, coll⟩ (orVacuum g.L []) eo, pe.1 ∈ coll := by
    intro pe hpe
    obtain ⟨e, _, hm⟩ := List.mem_flatMap.1 hpe
    obtain ⟨p, hp, rfl⟩ := List.mem_map.1 hm
    exact (List.mem_filter.1 hp).1
  refine ⟨_, h1, ⟨?_, ?_⟩⟩
  all_goals
    intro x hx
    obtain ⟨pe, hpm, l, hl, hle, he, e⟩ := forall₂_mem_right h3 hx
    rw [e]
  · have h5 : totalProb (enc (extCfg g eo) (l.map (fun p => (p.1 ++ pe.2, p.2)))) = totalProb pe.1.2.comps := by
      rw [hle, totalProb_enc, totalProb_enc, List.map_map]; rfl
    show t ≤ totalProb (enc _ _)
    rw [h5]
    exact ha.total _ (hpe pe hpm)
  · intro c hcc
    obtain ⟨y, hy, rfl⟩ := List.mem_map.1 (show c ∈ enc _ _ from hcc)
    obtain ⟨z, hz, rfl⟩ := List.mem_map.1 hy
    exact ha.nz _ (hpe pe hpm) (g.stdName z.1, z.2) (by rw [hle]; exact List.mem_map.2 ⟨z, hz, rfl⟩)

theorem runs_reshape {c next : Circ} {t : ℝ} (hg : c.g.Ok) (hg' : next.g.Ok) (hL : c.g.L ≤ next.g.L) (hm : 0 < next.m ∨ c.m = 0)
    (ht : 0 ≤ c.thr) (h1 : t ≤ 1) {coll : Coll} (hc : Sound c.g c.m coll) (ha : Alive t coll) (r r' : ℕ → ℕ → ℕ) :
    ∃ out, reshape c next r r' coll = some out ∧ Alive t out.states := by
  have hC2 : 2 ≤ next.g.C := hg'.2
  have hr : List.range next.g.C ≠ [] := by
    intro he
    have := congrArg List.length he
    simp at this
    omega
  -- optical channels: the collection after the first step is sound and alive
  have s1 : ∃ st, (if next.g.C > c.g.C then extendColl ⟨c.g, c.m, c.thr, coll⟩ (next.g.C - c.g.C) 0 [] r
        else if next.g.C < c.g.C then reduceColl ⟨c.g, c.m, c.thr, coll⟩ (List.range next.g.C) [] else some ⟨c.g, c.m, c.thr, coll⟩) = some st ∧
        Alive t st.states ∧ st.thr = c.thr ∧ (st.states ≠ [] ∨ (next.g.C ≥ c.g.C) → st.g = ⟨c.g.L, next.g.C, c.g.left⟩) ∧ st.m = c.m ∧ Sound ⟨c.g.L, next.g.C, c.g.left⟩ c.m st.states ∧
        st.g.Ok ∧ (st.states = [] → st.g.L = c.g.L) := by
    by_cases hC : next.g.C > c.g.C
    · rw [if_pos hC]
      obtain ⟨out, k1, k2⟩ := runs_extend hg ht (eo := next.g.C - c.g.C) (ec := 0) (by omega) hc ha r
      obtain ⟨e1, e2, e3, e4⟩ := hands_extend hg ht (by omega) hc k1
      have hcfg : extCfg c.g (next.g.C - c.g.C) = ⟨c.g.L, next.g.C, c.g.left⟩ := by
        have : c.g.C + (next.g.C - c.g.C) = next.g.C := by omega
        simp only [extCfg, this]
      rw [hcfg] at e1 e4
      exact ⟨out, k1, k2, e3, fun _ => e1, by simpa using e2, by simpa using e4.sound, by rw [e1]; exact ⟨hg.1, hC2⟩, fun _ => by rw [e1]⟩
    · rw [if_neg hC]
      by_cases hC' : next.g.C < c.g.C
      · rw [if_pos hC']
        have ho : orAll c.g.C (List.range next.g.C) = List.range next.g.C := orAll_range _ _ (Or.inl (by omega))
        by_cases hne : coll = []
        · subst hne
          have hok : (keptCfg c.g (List.range next.g.C)).Ok := ⟨hg.1, by simpa [keptCfg] using hC2⟩
          have h3 : reduceColl ⟨c.g, c.m, c.thr, []⟩ (List.range next.g.C) [] = some ⟨c.g, c.m, c.thr, []⟩ := by
            unfold reduceColl
            simp only [if_neg hr, if_true, List.foldlM_nil, Option.bind_eq_bind]
            rw [if_neg, if_neg]
            · rfl
            · exact not_not.2 hok
            · simp; intro x hx; omega
          exact ⟨_, h3, ha, rfl, fun h => by rcases h with h | h; exact absurd rfl h; omega, rfl, ⟨by simp, by simp⟩, hg, fun _ => rfl⟩
        · obtain ⟨out, k1, k2⟩ := runs_reduce (thr := c.thr) (keep := List.range next.g.C) (ckeep := []) ht h1 hc ha hne
            (by rw [ho]; intro x hx; have := List.mem_range.1 hx; omega) (by intro x hx; simpa [orAll] using hx)
            (by rw [ho]; exact ⟨hg.1, by simpa [keptCfg] using hC2⟩)
          have e4 : Hands True _ _ 0 coll out.states := hands_reduce hc hne k1
          obtain ⟨e3, -, e5⟩ := reduceColl_shape k1
          obtain ⟨e6, e7⟩ := e5 hne
          rw [if_neg hr] at e6
          simp only [List.length_range] at e6
          have e8 := e4.sound
          rw [ho] at e8
          refine ⟨out, k1, k2, e3, fun _ => e6, by simpa using e7, by simpa [keptCfg, orAll] using e8, by rw [e6]; exact ⟨hg.1, hC2⟩, fun _ => by rw [e6]⟩
      · rw [if_neg hC']
        have hC : next.g.C = c.g.C := by omega
        have hcfg : (⟨c.g.L, next.g.C, c.g.left⟩ : Cfg) = c.g := by rw [hC]
        rw [hcfg]
        exact ⟨_, rfl, ha, rfl, fun _ => rfl, rfl, hc, hg, fun _ => rfl⟩
  obtain ⟨⟨g1, m1, t1, st1⟩, k1, a1, e1, e2, e3, so1, ok1, l1⟩ := s1
  simp only at a1 e1 e2 e3 so1 ok1 l1
  subst e1 e3
  have so1' : Sound g1 c.m st1 := by
    by_cases hst : st1 = []
    · rw [hst]; exact ⟨by simp, by simp⟩
    · rw [e2 (Or.inl hst)]; exact so1
  have s2 : ∃ d, (if next.m > c.m then extendColl ⟨g1, c.m, c.thr, st1⟩ 0 (next.m - c.m) [] r'
        else if next.m < c.m then reduceColl ⟨g1, c.m, c.thr, st1⟩ [] (List.range next.m) else some ⟨g1, c.m, c.thr, st1⟩) = some d ∧
        Alive t d.states ∧ d.thr = c.thr ∧ d.g = g1 ∧ Sound g1 d.m d.states := by
    by_cases hM : next.m > c.m
    · rw [if_pos hM]
      obtain ⟨out, k3, k4⟩ := runs_extend ok1 ht (eo := 0) (ec := next.m - c.m) (by omega) so1' a1 r'
      obtain ⟨f1, f2, f3, f4⟩ := hands_extend ok1 ht (by omega) so1' k3
      have f5 : Sound g1 out.m out.states := by rw [f2]; exact f4.sound
      exact ⟨out, k3, k4, f3, f1, f5⟩
    · rw [if_neg hM]
      by_cases hM' : next.m < c.m
      · rw [if_pos hM']
        have ho : orAll c.m (List.range next.m) = List.range next.m := orAll_range _ _ hm
        by_cases hne : st1 = []
        · subst hne
          have h3 : reduceColl ⟨g1, c.m, c.thr, []⟩ [] (List.range next.m) = some ⟨g1, c.m, c.thr, []⟩ := by
            have hrm : List.range next.m ≠ [] := by
              intro he
              have := congrArg List.length he
              simp at this
              omega
            unfold reduceColl
            simp only [if_neg hrm, if_true, List.foldlM_nil, Option.bind_eq_bind]
            rw [if_neg, if_neg]
            · rfl
            · have := ok1.2
              exact not_not.2 ⟨ok1.1, by simpa using this⟩
            · simp; intro x hx; omega
          exact ⟨_, h3, a1, rfl, rfl, so1'⟩
        · obtain ⟨out, k3, k4⟩ := runs_reduce (thr := c.thr) (keep := []) (ckeep := List.range next.m) ht h1 so1' a1 hne
            (by intro x hx; simpa [orAll] using hx)
            (by rw [ho]; intro x hx; have := List.mem_range.1 hx; omega)
            (by have := ok1.2; exact ⟨ok1.1, by simpa [keptCfg, orAll] using this⟩)
          have f4 : Hands True _ _ 0 st1 out.states := hands_reduce so1' hne k3
          obtain ⟨f3, -, f5⟩ := reduceColl_shape k3
          obtain ⟨f6, f7⟩ := f5 hne
          have f8 : out.m = (orAll c.m (List.range next.m)).length := by
            rw [ho, f7]
            split
            · rename_i he
              have := congrArg List.length he
              simp at this
              omega
            · rfl
          have f6' : out.g = g1 := by rw [f6]; rfl
          have f9 := f4.sound
          have fk : keptCfg g1 (orAll g1.C []) = g1 := by simp [keptCfg, orAll]
          rw [fk, ← f8] at f9
          exact ⟨out, k3, k4, f3, f6', f9⟩
      · rw [if_neg hM']
        exact ⟨_, rfl, a1, rfl, rfl, so1'⟩
  obtain ⟨⟨g2, m2, t2, st2⟩, k3, a2, e4, e5, so2⟩ := s2
  simp only at a2 e4 e5 so2
  subst e4 e5
  have hlen : g2.L ≤ next.g.L := by
    by_cases hst : st1 = []
    · rw [l1 hst]; exact hL
    · rw [e2 (Or.inl hst)]; exact hL
  obtain ⟨out, k5, k6⟩ := runs_adjust (n := next.g.L) ht hg'.1 ok1.2 hlen so2 a2
  exact ⟨out, reshape_parts.2 ⟨coll, _, _, (copyColl_iff hc.ids).2 ⟨hc.check ht, rfl⟩, k1, k3, k5⟩, k6⟩

end Verif
