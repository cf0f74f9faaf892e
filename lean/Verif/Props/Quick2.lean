/-
C66 for collections, C68: when delays succeed; non-vacuity for C50 and C67-C70.
-/
import Verif.Props.Quick
import Verif.Props.Resolved3

namespace Verif.Props
open Verif Spec

/-- **C68** A delay of existing channels always succeeds on a collection of single-photon states. -/
theorem C68_defined (g : Cfg) (fuel : ℕ) (chs : List ℕ) (t w : ℝ) (G : Groups) (hG : Proper G) (hph : ∀ e ∈ G, ∀ x ∈ e.2, ∀ c ∈ x.2, ∀ s ∈ c.states, PhotonState g s) (hch : ∀ ch ∈ chs, ch < g.C) :
    ∃ l', timeDelayFull g (fuel + 1) chs (.value t) w (writeGroups G) = some l' := by
  have hstate : ∀ s, PhotonState g s → ∃ s', delayState g chs (.value t) w s = some s' := by
    rintro s ⟨v, a, hv, _, hc⟩
    have hfv : firstValues g s = some v := by
      unfold firstValues
      rw [hc]
      simp [g.parse_stdName hv.2]
    obtain ⟨b, hb⟩ := photonIn_defined (v := v) (chs := chs) (by rw [hv.1]; exact hch)
    unfold delayState
    simp only [DelaySource.read, Option.bind_some]
    rw [hfv, Option.bind_some, hb, Option.map_some]
    exact ⟨_, rfl⟩
  have mapM_def : ∀ {α β : Type} {f : α → Option β} (l : List α), (∀ x ∈ l, ∃ y, f x = some y) → ∃ r, l.mapM f = some r := by
    intro α β f l
    induction l with
    | nil => intro _; exact ⟨[], rfl⟩
    | cons x l ih =>
      intro h
      obtain ⟨y, hy⟩ := h x List.mem_cons_self
      obtain ⟨r, hr⟩ := ih (fun z hz => h z (List.mem_cons_of_mem _ hz))
      exact ⟨y :: r, by rw [List.mapM_cons, hy, hr]; rfl⟩
  unfold timeDelayFull
  rw [read_write hG, Option.bind_some]
  have hcols : ∀ cols : List Column, (∀ c ∈ cols, ∀ s ∈ c.states, PhotonState g s) → ∃ y, (toPhotons g (fuel + 1) cols).bind (mapStates (delayState g chs (.value t) w)) = some y := by
    intro cols h
    rw [toPhotons_photon fuel h, Option.bind_some]
    unfold mapStates
    refine mapM_def _ ?_
    intro c hc
    obtain ⟨sts, hs⟩ := mapM_def c.states (fun s hs => hstate s (h c hc s hs))
    exact ⟨{ c with states := sts }, by rw [hs]; rfl⟩
  have hall : ∃ G', G.mapM (fun cols => (toPhotons g (fuel + 1) cols).bind (mapStates (delayState g chs (.value t) w))) = some G' := by
    unfold Groups.mapM
    refine mapM_def _ ?_
    intro e he
    obtain ⟨r, hr⟩ := mapM_def (f := fun (x : ℕ × List Column) => ((toPhotons g (fuel + 1) x.2).bind (mapStates (delayState g chs (.value t) w))).map (fun y => (x.1, y))) e.2 (by
      intro x hx
      obtain ⟨y, hy⟩ := hcols x.2 (hph e he x hx)
      exact ⟨(x.1, y), by rw [hy]; rfl⟩)
    exact ⟨(e.1, r), by rw [hr]; rfl⟩
  obtain ⟨G', hG'⟩ := hall
  exact ⟨writeGroups G', by rw [hG']; rfl⟩

theorem measured_proper {g : Cfg} {opt cls : List ℕ} {cols grp : List Column} {o : List ℕ} {ini : List Char} (hp : ProperGroup ini cols) (h : MeasuredGroup g opt cls cols o grp)
    (hne : ∃ c ∈ cols, ∃ v, columnValues g c = some v ∧ o = opt.map (fun n => v.getD n 0)) : ProperGroup ini grp := by
  obtain ⟨p, _, hf⟩ := h
  have hsub : ∀ c ∈ columnsReading g opt o cols, c ∈ cols := fun c hc => (List.mem_filter.1 hc).1
  have hids : grp.map (fun c => c.id) = (columnsReading g opt o cols).map (fun c => c.id) := by
    generalize (List.map (fun c : Column => ‖c.amp‖ ^ 2) (columnsReading g opt o cols)).sum = S at hf
    generalize columnsReading g opt o cols = rd at hf
    clear hsub hne
    induction hf with
    | nil => rfl
    | cons h _ ih => rw [List.map_cons, List.map_cons, ih, h.id]
  refine ⟨?_, ?_, ?_, ?_⟩
  · intro h0
    rw [h0] at hf
    have hz := List.forall₂_nil_right_iff.1 hf
    obtain ⟨c, hc, v, hv, ho⟩ := hne
    have : c ∈ columnsReading g opt o cols := by
      unfold columnsReading
      rw [List.mem_filter]
      refine ⟨hc, ?_⟩
      rw [hv, ho]
      simp
    rw [hz] at this
    cases this
  · rw [hids]
    exact hp.ids.sublist (List.Sublist.map _ List.filter_sublist)
  · intro c' hc' h0
    obtain ⟨c, hc, e⟩ := forall2_left_mem hf.flip c' hc'
    have := e.states
    rw [h0] at this
    exact hp.columns c (hsub c hc) (List.forall₂_nil_right_iff.1 this)
  · intro c' hc' s' hs'
    obtain ⟨c, hc, e⟩ := forall2_left_mem hf.flip c' hc'
    obtain ⟨s, hs, es⟩ := forall2_left_mem e.states.flip s' hs'
    rw [es.initial]
    exact hp.initial c (hsub c hc) s hs

/-- **C66** Photon-resolved measurement of a whole collection of single-photon states: every group is replaced by one group per possible outcome; the groups of the result can be read back
from the new collection and are those of C66_measure_partial. -/
theorem C66_collection_partial (g : Cfg) (hL : g.L ≤ 10) (fuel m : ℕ) (opt cls : List ℕ) (G : Groups) (hG : Proper G) (hph : ∀ e ∈ G, ∀ x ∈ e.2, ∀ c ∈ x.2, ∀ s ∈ c.states, PhotonState g s)
    (hm : ∀ e ∈ G, ∀ x ∈ e.2, MeasurableGroup g m x.2) (_hwid : ∀ e ∈ G, ∀ x ∈ e.2, RealWidths x.2) (hopt : ∀ ch ∈ opt, ch < g.C) (hcls : cls.length = opt.length) (hclm : ∀ n ∈ cls, n < m) :
    ∃ l' G', measureCollection g (fuel + 1) opt cls (writeGroups G) = some l' ∧ readGroups l' = some G' ∧
      GroupsReplaced (fun cols ys => ∃ outs : List (List ℕ), outs.Nodup ∧ (∀ o, o ∈ outs ↔ ∃ c ∈ cols, ∃ v, columnValues g c = some v ∧ o = opt.map (fun n => v.getD n 0)) ∧
        List.Forall₂ (MeasuredGroup g opt cls cols) outs ys) G G' := by
  have hspec : ∀ cols ∈ allGroups G, ∃ ys, ((splitColumns g (fuel + 1) cols).bind (fun cols => (cols.mapM (Column.singlePhotonStates g)).bind (measureGroup g opt cls))) = some ys ∧
      ∃ outs : List (List ℕ), outs.Nodup ∧ (∀ o, o ∈ outs ↔ ∃ c ∈ cols, ∃ v, columnValues g c = some v ∧ o = opt.map (fun n => v.getD n 0)) ∧ List.Forall₂ (MeasuredGroup g opt cls cols) outs ys := by
    intro cols hc
    obtain ⟨e, he, x, hx, rfl⟩ := mem_allGroups.1 hc
    obtain ⟨ys, outs, k1, k2, k3, k4⟩ := measureGroup_spec hL (hm e he x hx) hopt hcls hclm
    refine ⟨ys, ?_, outs, k2, k3, k4⟩
    have h := toPhotons_photon fuel (hph e he x hx)
    unfold toPhotons at h
    rw [← Option.bind_assoc, h, Option.bind_some, k1]
  have hr : ∃ r, (allGroups G).mapM (fun cols => (splitColumns g (fuel + 1) cols).bind (fun cols => (cols.mapM (Column.singlePhotonStates g)).bind (measureGroup g opt cls))) = some r ∧
      List.Forall₂ (fun cols ys => ∃ outs : List (List ℕ), outs.Nodup ∧ (∀ o, o ∈ outs ↔ ∃ c ∈ cols, ∃ v, columnValues g c = some v ∧ o = opt.map (fun n => v.getD n 0)) ∧
        List.Forall₂ (MeasuredGroup g opt cls cols) outs ys) (allGroups G) r := by
    generalize allGroups G = L at hspec
    induction L with
    | nil => exact ⟨[], rfl, List.Forall₂.nil⟩
    | cons cols L ih =>
      obtain ⟨r, r1, r2⟩ := ih (fun c hc => hspec c (List.mem_cons_of_mem _ hc))
      obtain ⟨ys, y1, y2⟩ := hspec cols List.mem_cons_self
      exact ⟨ys :: r, by rw [List.mapM_cons, y1, r1]; rfl, List.Forall₂.cons y2 r2⟩
  obtain ⟨r, r1, r2⟩ := hr
  obtain ⟨G', q1, _, q3⟩ := replaced_read hG r2 (by
    rintro e he x hx y ⟨outs, _, ho, hy⟩
    have hpg := (hG.groups e he).2.2 x hx
    have hmem : ∀ grp ∈ y, ProperGroup e.1 grp := by
      intro grp hg
      obtain ⟨o, ho', hh⟩ := forall2_left_mem hy.flip grp hg
      exact measured_proper hpg hh ((ho o).1 ho')
    refine ⟨?_, hmem⟩
    intro h0
    rw [h0] at hy
    have hz := List.forall₂_nil_right_iff.1 hy
    obtain ⟨c, hc⟩ := List.exists_mem_of_ne_nil _ hpg.nonempty
    obtain ⟨v, hv⟩ := (hm e he x hx).columns c hc
    have := (ho (opt.map (fun n => v.getD n 0))).2 ⟨c, hc, v, hv.values, rfl⟩
    rw [hz] at this
    cases this) 0
  refine ⟨(r.flatten.zipIdx 0).flatMap (fun x => writeGroup x.2 x.1), G', ?_, q1, q3⟩
  unfold measureCollection measureGroups
  rw [read_write hG, Option.bind_some]
  have r1' : (List.flatMap (fun (e : List Char × Dict ℕ (List Column)) => e.2.map Prod.snd) G).mapM
      (fun cols => (splitColumns g (fuel + 1) cols).bind (fun cols => (cols.mapM (Column.singlePhotonStates g)).bind (measureGroup g opt cls))) = some r := r1
  rw [r1']
  rfl

/-! ### Non-vacuity: the two photons behind a beam splitter. -/

noncomputable def homGroups : Groups := [("initial".toList, [(3, homGroup)])]

theorem homMem {c : Column} (hc : c ∈ homGroup) : c = homColumn "10" "10" (1/2) 0 ∨ c = homColumn "10" "01" (-1/2) 1 ∨ c = homColumn "01" "10" (1/2) 2 ∨ c = homColumn "01" "01" (-1/2) 3 := by
  simpa [homGroup] using hc

theorem homGroups_widths : ∀ e ∈ homGroups, ∀ x ∈ e.2, RealWidths x.2 := by
  intro e he x hx
  obtain rfl := List.mem_singleton.1 he
  obtain rfl := List.mem_singleton.1 hx
  exact homWidths

theorem homProper : Proper homGroups := by
  refine ⟨by simp [homGroups], ?_⟩
  intro e he
  obtain rfl := List.mem_singleton.1 he
  refine ⟨by simp, by simp, ?_⟩
  intro x hx
  obtain rfl := List.mem_singleton.1 hx
  refine ⟨by simp [homGroup], by simp [homGroup, homColumn], ?_, ?_⟩
  · intro c hc
    rcases homMem hc with rfl | rfl | rfl | rfl <;> simp [homColumn]
  · intro c hc s hs
    rcases homMem hc with rfl | rfl | rfl | rfl <;>
    · rcases List.mem_cons.1 hs with rfl | hs
      · rfl
      · obtain rfl := List.mem_singleton.1 hs
        rfl

theorem homPhotonState : ∀ e ∈ homGroups, ∀ x ∈ e.2, ∀ c ∈ x.2, ∀ s ∈ c.states, PhotonState colCfg s ∧ ∃ t, s.info = some ⟨t, 1⟩ := by
  intro e he x hx c hc s hs
  obtain rfl := List.mem_singleton.1 he
  obtain rfl := List.mem_singleton.1 hx
  have h10 : ∀ t, PhotonState colCfg (homPhoton "10" t) := fun t => ⟨[1, 0], 1, val10, by decide, by rw [name10]; simp [homPhoton]⟩
  have h01 : ∀ t, PhotonState colCfg (homPhoton "01" t) := fun t => ⟨[0, 1], 1, val01, by decide, by rw [name01]; simp [homPhoton]⟩
  rcases homMem hc with rfl | rfl | rfl | rfl <;>
  · rcases List.mem_cons.1 hs with rfl | hs
    · exact ⟨by first | exact h10 _ | exact h01 _, _, rfl⟩
    · obtain rfl := List.mem_singleton.1 hs
      exact ⟨by first | exact h10 _ | exact h01 _, _, rfl⟩

theorem homAllWf : WellFormedAll colCfg (writeGroups homGroups) := by
  intro s hs
  obtain ⟨e, he, hs⟩ := List.mem_flatMap.1 hs
  obtain ⟨x, hx, hs⟩ := List.mem_flatMap.1 hs
  obtain ⟨c, hc, hs⟩ := List.mem_flatMap.1 hs
  obtain ⟨t, ht, rfl⟩ := List.mem_map.1 hs
  obtain ⟨⟨v, a, hv, _, h⟩, _⟩ := homPhotonState e he x hx c hc t ht
  show WellFormed colCfg t.q.comps
  rw [h]
  exact ⟨by simp, by
    intro p hp
    obtain rfl := List.mem_singleton.1 hp
    exact ⟨v, hv, (isName_iff hv).2 rfl⟩⟩

/-- C50: equal pulses at different times. -/
example : photonOverlap (some ⟨0, 1⟩) (some ⟨1, 1⟩) ≠ 1 := fun h => absurd ((C50_one_iff ⟨0, 1⟩ ⟨1, 1⟩ one_pos one_pos).1 h) (by norm_num)
example : quickOverlap 1 1 = photonOverlap (some ⟨0, 1⟩) (some ⟨0 + 1, 1⟩) ^ 2 := (C50_quick 1 1 0 one_pos).2.2.2
/-- C67: eight states in four columns. -/
example : (writeGroups homGroups).length = 8 ∧ readGroups (writeGroups homGroups) = some homGroups := ⟨rfl, C67_store _ homProper⟩
example : ∃ G, readGroups [⟨colState3.q, none⟩, ⟨colState3.q, none⟩] = some G ∧ ∃ e ∈ G, e.1 = colState3.q.initial := by
  obtain ⟨G, h1, h2, _⟩ := C67_fresh [⟨colState3.q, none⟩, ⟨colState3.q, none⟩] (by simp)
  obtain ⟨e, he, h3, _⟩ := h2 _ List.mem_cons_self
  exact ⟨G, h1, e, he, h3⟩
/-- C68: delay channel 0 by 2, then by -2. -/
example : ∃ l', timeDelayFull colCfg 1 [0] (.value 2) 1 (writeGroups homGroups) = some l' ∧ timeDelayFull colCfg 1 [0] (.value (-2)) 1 l' = some (writeGroups homGroups) ∧
    ∃ G', readGroups l' = some G' ∧ GroupsRel (List.Forall₂ (SameColumn (DelayedState colCfg [0] (.value 2) 1))) homGroups G' := by
  obtain ⟨l', h⟩ := C68_defined colCfg 0 [0] 2 1 homGroups homProper (fun e he x hx c hc s hs => (homPhotonState e he x hx c hc s hs).1) (by decide)
  refine ⟨l', h, ?_, ?_⟩
  · rw [C68_cancel colCfg 1 0 [0] 2 1 _ l' homAllWf h]
    exact C68_zero colCfg 0 [0] 1 homGroups homProper homPhotonState (by decide)
  · obtain ⟨G, P, G', h1, h2, h3, h4⟩ := C68_delay colCfg 1 [0] (.value 2) 1 _ l' homAllWf h
    rw [C67_store _ homProper] at h1
    obtain rfl := Option.some.inj h1
    have hP : P = homGroups := by
      have e1 := groups_mapM.2 h2
      have e2 : homGroups.mapM (toPhotons colCfg 1) = some homGroups := by
        rw [groups_mapM]
        unfold GroupsRel
        rw [List.forall₂_same]
        intro e he
        refine ⟨rfl, ?_⟩
        rw [List.forall₂_same]
        exact fun x hx => ⟨rfl, toPhotons_photon 0 (fun c hc s hs => (homPhotonState e he x hx c hc s hs).1)⟩
      rw [e1] at e2
      exact Option.some.inj e2
    rw [hP] at h4
    exact ⟨G', h3, h4⟩
/-- C68: a common delay. -/
noncomputable def homDelayed (n n' : String) (a : ℂ) (i : ℕ) : Column := ⟨[⟨(homPhoton n 0).q, some ⟨0 - 5, 1⟩⟩, ⟨(homPhoton n' 1).q, some ⟨1 - 5, 1⟩⟩], a, 1, 1, i⟩
theorem homDelayed_same {n n' : String} {v v' : Vals} (a : ℂ) (i : ℕ) (hv : Valid colCfg v) (hn : colCfg.stdName v = n.toList) (hv' : Valid colCfg v') (hn' : colCfg.stdName v' = n'.toList)
    (h1 : HasPhotonIn v [0, 1]) (h2 : HasPhotonIn v' [0, 1]) : SameColumn (DelayedState colCfg [0, 1] (.value 5) 1) (homColumn n n' a i) (homDelayed n n' a i) := by
  refine ⟨rfl, rfl, rfl, rfl, List.Forall₂.cons ⟨rfl, v, 5, homFirst 0 hv hn, rfl, ?_⟩ (List.Forall₂.cons ⟨rfl, v', 5, homFirst 1 hv' hn', rfl, ?_⟩ List.Forall₂.nil)⟩
  · rw [if_pos h1]; rfl
  · rw [if_pos h2]; rfl
example : crossTerm colCfg (homDelayed "10" "01" (-1/2) 1) (homDelayed "01" "10" (1/2) 2) = crossTerm colCfg (homColumn "10" "01" (-1/2) 1) (homColumn "01" "10" (1/2) 2) := by
  have p10 : HasPhotonIn [1, 0] [0, 1] := ⟨0, by simp, by simp⟩
  have p01 : HasPhotonIn [0, 1] [0, 1] := ⟨1, by simp, by simp⟩
  refine C68_common colCfg [0, 1] 5 1 one_ne_zero (by decide) [1, 1] _ _ _ _ hom1 hom2 ?_ ?_ (homDelayed_same _ _ val10 name10 val01 name01 p10 p01) (homDelayed_same _ _ val01 name01 val10 name10 p01 p10)
  all_goals
    intro s hs
    rcases List.mem_cons.1 hs with rfl | hs
    · exact ⟨_, rfl⟩
    · obtain rfl := List.mem_singleton.1 hs
      exact ⟨_, rfl⟩
/-- C69: a collection without photon information. -/
example : ∃ l', setPulseWidth colCfg 5 [0, 1] 2 [⟨colState3.q, none⟩] = some l' ∧ measureCollection colCfg 5 [0] [0] l' = none := by
  obtain ⟨l', h1, _, _, h4⟩ := C69_fails colCfg 5 2 (by decide) [⟨colState3.q, none⟩] (by simp) (by simp)
  exact ⟨l', h1, h4 5 [0] [0]⟩
/-- C66 for a collection. -/
example : ∃ l' G', measureCollection colCfg 1 [0, 1] [0, 1] (writeGroups homGroups) = some l' ∧ readGroups l' = some G' ∧ G'.map Prod.fst = ["initial".toList] := by
  obtain ⟨l', G', h1, h2, h3⟩ := C66_collection_partial colCfg (by decide) 0 2 [0, 1] [0, 1] homGroups homProper (fun e he x hx c hc s hs => (homPhotonState e he x hx c hc s hs).1)
    (by
      intro e he x hx
      obtain rfl := List.mem_singleton.1 he
      obtain rfl := List.mem_singleton.1 hx
      exact homMeasurable) homGroups_widths (by decide) rfl (by decide)
  refine ⟨l', G', h1, h2, ?_⟩
  unfold GroupsReplaced homGroups at h3
  rcases h3 with _ | ⟨h, h3⟩
  obtain rfl := List.forall₂_nil_left_iff.1 h3
  simp [h.1]

end Verif.Props
