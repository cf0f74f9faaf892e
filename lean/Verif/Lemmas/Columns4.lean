/- Helper lemmas about photon columns: from a state to single photons and back. -/
import Verif.Lemmas.Columns3

namespace Verif
open Spec MvPolynomial Props

/-- Two states that agree on everything but the components and the probability. -/
def SameRest (q r : QState) : Prop := q.initial = r.initial ∧ q.classical = r.classical ∧ q.results = r.results

theorem single_condense {g : Cfg} {d : Column} {t : PState} {v : Vals} (hd : d.states = [t]) (ht : HasVals g t v)
    (hp : 0 ≤ d.gprob * ‖d.amp‖ ^ 2 ∧ d.gprob * ‖d.amp‖ ^ 2 ≤ 1) :
    ∃ d', d.singlePhotonStates g = some d' ∧ d'.states ≠ [] ∧ d'.amp = d.amp ∧ d'.gprob = d.gprob ∧ (∀ u ∈ d'.states, u.q.comps.length = 1) ∧
      ∃ d'' u, d'.condense g = some d'' ∧ d''.states = [u] ∧ u.q.comps = [(g.stdName v, ⟨1, ‖(1 : ℂ)‖ ^ 2⟩)] ∧ SameRest u.q t.q ∧ d''.boson = d.boson := by
  obtain ⟨hv, k, hc, hk⟩ := ht
  have hsp := singlePhotons_eq hv hc
  rw [hk] at hsp
  have hb := (bosonOf_pos v).ne'
  have hsingle : d.singlePhotonStates g = some { d with states := (if v.sum > 0 then (photonChannels v).map (fun ch => oneComp t (g.stdName (oneHot v.length ch)) 1) else [oneComp t (g.stdName v) 1]), boson := d.boson * bosonOf v } := by
    unfold Column.singlePhotonStates
    rw [hd]
    simp [hsp]
  refine ⟨_, hsingle, ?_⟩
  by_cases h : v.sum > 0
  · simp only [if_pos h]
    rcases hpc : photonChannels v with _ | ⟨c0, l⟩
    · exfalso
      have hz : ∀ i, v.getD i 0 = 0 := by
        intro i
        have := count_photonChannels v 0 i
        unfold photonChannels at hpc
        rw [hpc] at this
        simp at this
        simpa using this.symm
      have : v.sum = 0 := List.sum_eq_zero (by
        intro x hx
        obtain ⟨i, hi, rfl⟩ := List.mem_iff_getElem.1 hx
        have := hz i
        rwa [List.getD_eq_getElem _ _ hi] at this)
      omega
    refine ⟨by simp, trivial, trivial, ?_, ?_⟩
    · intro u hu
      obtain ⟨ch, _, rfl⟩ := List.mem_map.1 hu
      rfl
    · have hval : ∀ ch ∈ c0 :: l, Valid g (oneHot v.length ch) := fun ch hch => valid_oneHot hv (hpc ▸ hch)
      have hmap : ((c0 :: l).map (fun ch => oneComp t (g.stdName (oneHot v.length ch)) 1)).mapM (firstValues g) = some ((c0 :: l).map (oneHot v.length)) := by
        rw [mapM_some_iff, List.forall₂_map_left_iff, List.forall₂_map_right_iff, List.forall₂_same]
        intro ch hch
        exact firstValues_of ⟨hval ch hch, _, rfl, rfl⟩
      obtain ⟨last, hlast⟩ : ∃ ch, (c0 :: l).getLast? = some ch := ⟨_, List.getLast?_eq_some_getLast (by simp)⟩
      have hcond := condense_eq (g := g) (c := { d with states := (c0 :: l).map (fun ch => oneComp t (g.stdName (oneHot v.length ch)) 1), boson := d.boson * bosonOf v })
        (v := v) hmap (by rw [columnValues_eq hmap, fold_oneHot hpc]) hv (by rw [List.getLast?_map, hlast]; rfl) hp
      refine ⟨_, _, hcond, rfl, rfl, ⟨rfl, rfl, rfl⟩, ?_⟩
      have : ((c0 :: l).map (oneHot v.length)).map bosonOf = (c0 :: l).map (fun _ => 1) := by
        rw [List.map_map]
        exact List.map_congr_left (fun ch _ => bosonOf_oneHot _ _)
      simp only [this]
      rw [List.map_const', List.prod_replicate, one_pow, mul_one, mul_div_cancel_right₀ _ hb]
  · simp only [if_neg h]
    refine ⟨by simp, trivial, trivial, ?_, ?_⟩
    · intro u hu
      obtain rfl := List.mem_singleton.1 hu
      rfl
    · have hmap : [oneComp t (g.stdName v) 1].mapM (firstValues g) = some [v] := by
        rw [mapM_some_iff]
        exact List.Forall₂.cons (firstValues_of ⟨hv, _, rfl, rfl⟩) List.Forall₂.nil
      have hcond := condense_eq (g := g) (c := { d with states := [oneComp t (g.stdName v) 1], boson := d.boson * bosonOf v })
        (v := v) hmap (by rw [columnValues_eq hmap]; rfl) hv rfl hp
      refine ⟨_, _, hcond, rfl, rfl, ⟨rfl, rfl, rfl⟩, ?_⟩
      simp only [List.map_singleton, List.prod_singleton]
      rw [sum_zero_replicate h, bosonOf_zero]
      simp

/-- A column that stands for one component of the state `q`. -/
def StandsFor (g : Cfg) (q : QState) (gp : ℝ) (d : Column) (p : Name × Comp) : Prop :=
  (∃ t, d.states = [t] ∧ (∃ v, p.1 = g.stdName v ∧ HasVals g t v) ∧ SameRest t.q q) ∧ d.amp = p.2.amp ∧ d.gprob = gp

theorem merge_cols {g : Cfg} {q : QState} {gp : ℝ} {out : List Column} {L : Comps} (h : List.Forall₂ (StandsFor g q gp) out L)
    (hp : ∀ p ∈ L, 0 ≤ gp * ‖p.2.amp‖ ^ 2 ∧ gp * ‖p.2.amp‖ ^ 2 ≤ 1) (hn : L.keys.Nodup) (x : Comps × Option QState × Option ℝ)
    (hx : ∀ p ∈ L, p.1 ∉ x.1.keys) :
    ∃ single, out.mapM (Column.singlePhotonStates g) = some single ∧ (∀ c ∈ single, ∀ s ∈ c.states, s.q.comps.length = 1) ∧
      ∃ y, single.foldlM (m := Option) (fun (x : Comps × Option QState × Option ℝ) c =>
        if c.states = [] then some (x.1, x.2.1, some c.gprob)
        else (c.condense g).bind (fun c' => (c'.states.head?).map (fun s =>
          (s.q.comps.foldl (fun (d : Comps) p => d.set p.1 ⟨c.amp * p.2.amp, ‖c.amp * p.2.amp‖ ^ 2⟩) x.1, some s.q, some c.gprob)))) x = some y ∧
      y.1 = x.1 ++ L.map (fun p => (p.1, (⟨p.2.amp, ‖p.2.amp‖ ^ 2⟩ : Comp))) ∧
      (L ≠ [] → (∃ r, y.2.1 = some r ∧ SameRest r q) ∧ y.2.2 = some gp) := by
  induction h generalizing x with
  | nil => exact ⟨[], rfl, by simp, x, rfl, by simp, by simp⟩
  | @cons d p out L h1 htail ih =>
    obtain ⟨⟨t, hd, ⟨v, hpv, htv⟩, hsr⟩, ha, hg⟩ := h1
    obtain ⟨d', e1, e2, e3, e4, e5, d'', u, e6, e7, e8, e9, _⟩ := single_condense hd htv (by rw [ha, hg]; exact hp p List.mem_cons_self)
    have hn' : p.1 ∉ Dict.keys L ∧ (Dict.keys L).Nodup := by simpa [Dict.keys] using hn
    have hpx := hx p List.mem_cons_self
    obtain ⟨single, f1, f2, y, f3, f4, f5⟩ := ih (fun p' hp' => hp p' (List.mem_cons_of_mem _ hp')) hn'.2
      (x.1 ++ [(p.1, (⟨p.2.amp, ‖p.2.amp‖ ^ 2⟩ : Comp))], some u.q, some gp) (by
        intro p' hp'
        have h1 := hx p' (List.mem_cons_of_mem _ hp')
        simp only [Dict.keys, List.map_append, List.mem_append, List.map_cons, List.map_nil, List.mem_singleton, not_or]
        refine ⟨h1, fun e => hn'.1 ?_⟩
        rw [← e]
        exact List.mem_map_of_mem hp')
    refine ⟨d' :: single, ?_, ?_, y, ?_, ?_, ?_⟩
    · rw [mapM_some_iff] at f1 ⊢
      exact List.Forall₂.cons e1 f1
    · intro c hc
      rcases List.mem_cons.1 hc with rfl | hc
      · exact e5
      · exact f2 c hc
    · rw [List.foldlM_cons, if_neg e2, e6, Option.bind_some, e7, List.head?_cons, Option.map_some, e8, List.foldl_cons, List.foldl_nil]
      simp only [Option.bind_eq_bind, Option.bind_some, mul_one]
      rw [← hpv, e3, ha, e4, hg, Dict.set_of_not_mem _ hpx]
      exact f3
    · rw [f4, List.append_assoc]
      rfl
    · intro _
      by_cases hL : L = []
      · subst hL
        rw [List.forall₂_nil_right_iff.1 htail, List.mapM_nil] at f1
        obtain rfl := Option.some.inj f1
        obtain rfl := Option.some.inj f3
        exact ⟨⟨u.q, rfl, e9.1.trans hsr.1, e9.2.1.trans hsr.2.1, e9.2.2.trans hsr.2.2⟩, rfl⟩
      · exact f5 hL

theorem ampOf_perm {c c' : Comps} (h : c.Perm c') (hn : c.keys.Nodup) (nm : Name) : ampOf c nm = ampOf c' nm := by
  unfold ampOf
  have hn' : c'.keys.Nodup := (h.map Prod.fst).nodup_iff.1 hn
  rcases hg : c.get? nm with _ | k
  · rw [Dict.get?_eq_none.2]
    intro hm
    rw [Dict.get?_eq_none] at hg
    exact hg ((h.map Prod.fst).mem_iff.2 hm)
  · rw [Dict.get?_of_mem hn' (h.mem_iff.1 (Dict.get?_mem hg))]

theorem ampOf_reprob (c : Comps) (nm : Name) : ampOf (c.map (fun p => (p.1, (⟨p.2.amp, ‖p.2.amp‖ ^ 2⟩ : Comp)))) nm = ampOf c nm := by
  unfold ampOf
  induction c with
  | nil => rfl
  | cons p c ih =>
    obtain ⟨k, v⟩ := p
    rw [List.map_cons, Dict.get?_cons, Dict.get?_cons]
    by_cases h : k = nm
    · simp [h]
    · simp only [if_neg h]
      exact ih

theorem amp_le_totalProb {c : Comps} {p : Name × Comp} (hp : p ∈ c) : ‖p.2.amp‖ ^ 2 ≤ totalProb c := by
  unfold totalProb
  exact List.single_le_sum (by
    intro x hx
    obtain ⟨r, _, rfl⟩ := List.mem_map.1 hx
    positivity) _ (List.mem_map_of_mem hp)

/-- As `StandsFor`, with the boson factor and the photon information. -/
def StandsForAll (g : Cfg) (s : PState) (d : Column) (p : Name × Comp) : Prop := StandsFor g s.q s.q.cum d p ∧ d.boson = 1 ∧ ∀ t ∈ d.states, t.info = s.info

/-- The columns after splitting, each standing for one component. -/
theorem split_stands_all {g : Cfg} {s : PState} (hsp : Splittable g s.q.comps) (h1 : s.q.comps.length = 1 → ∀ p ∈ s.q.comps, p.2.amp = 1) :
    ∃ out L, splitColumns g (s.q.comps.length + 1) (groupOfState s) = some out ∧ L.Perm s.q.comps ∧ List.Forall₂ (StandsForAll g s) out L := by
  rcases hc : s.q.comps with _ | ⟨p0, rest⟩
  · exact absurd hc hsp.ne
  · by_cases hr : rest = []
    · subst hr
      have hamp := h1 (by rw [hc]; rfl) p0 (by rw [hc]; simp)
      obtain ⟨v, hv, e⟩ := hsp.wf.named' (p := p0) (by rw [hc]; simp)
      refine ⟨groupOfState s, [p0], ?_, List.Perm.refl _, ?_⟩
      · refine splitColumns_all_single _ ?_
        intro c hcm t ht
        obtain rfl := List.mem_singleton.1 hcm
        obtain rfl := List.mem_singleton.1 ht
        rw [hc]; rfl
      · refine List.Forall₂.cons ⟨⟨⟨s, rfl, ⟨v, e, hv, p0.2, ?_, hamp⟩, rfl, rfl, rfl⟩, hamp.symm, rfl⟩, rfl, (by simp)⟩ List.Forall₂.nil
        rw [hc, ← e]
    · obtain ⟨n, hn⟩ : ∃ n, rest.length = n + 1 := ⟨rest.length - 1, by have := List.length_pos_iff.2 hr; omega⟩
      obtain ⟨out, e1, init, last, e2, e3⟩ := splitColumns_chain (g := g) n (rest.length + 2) (c := { states := [s], amp := 1, boson := 1, gprob := s.q.cum, id := 0 })
        (s := s) (done := []) rfl hc hn hsp (by simp) (by omega)
      refine ⟨out, last :: init, ?_, ?_, ?_⟩
      · exact e1
      · rw [e2]
        exact (List.perm_append_singleton last init).symm
      · have hL : ∀ p ∈ last :: init, p ∈ s.q.comps := by
          intro p hp
          rw [hc, e2]
          rcases List.mem_cons.1 hp with rfl | hp <;> simp_all
        have e3' : out.map Column.shape = (last :: init).map (unitShape { states := [s], amp := 1, boson := 1, gprob := s.q.cum, id := 0 } s) := by
          rw [e3]; simp
        clear e1 e2 e3
        generalize hM : last :: init = M at *
        clear hM
        induction M generalizing out with
        | nil =>
          have : out = [] := by simpa using e3'
          rw [this]; exact List.Forall₂.nil
        | cons p M ih =>
          rcases out with _ | ⟨d, out⟩
          · simp at e3'
          · simp only [List.map_cons, List.cons.injEq] at e3'
            refine List.Forall₂.cons ?_ (ih out (fun q hq => hL q (List.mem_cons_of_mem _ hq)) e3'.2)
            obtain ⟨v, hv, e⟩ := hsp.wf.named' (hL p List.mem_cons_self)
            have hsh := e3'.1
            unfold Column.shape unitShape at hsh
            simp only [Prod.mk.injEq] at hsh
            refine ⟨⟨⟨_, hsh.1, ⟨v, e, hv, ⟨1, ‖(1 : ℂ)‖ ^ 2⟩, ?_, rfl⟩, rfl, rfl, rfl⟩, ?_, hsh.2.2.2⟩, hsh.2.2.1, (by rw [hsh.1]; simp [oneComp])⟩
            · unfold oneComp
              rw [e]
            · rw [hsh.2.1, one_mul]

/-- The columns after splitting, each standing for one component. -/
theorem split_stands {g : Cfg} {s : PState} (hsp : Splittable g s.q.comps) (h1 : s.q.comps.length = 1 → ∀ p ∈ s.q.comps, p.2.amp = 1) :
    ∃ out L, splitColumns g (s.q.comps.length + 1) (groupOfState s) = some out ∧ L.Perm s.q.comps ∧ List.Forall₂ (StandsFor g s.q s.q.cum) out L := by
  obtain ⟨out, L, h1, h2, h3⟩ := split_stands_all hsp h1
  exact ⟨out, L, h1, h2, h3.imp (fun _ _ h => h.1)⟩

end Verif
