/-
C68, C69: common delays; pulse widths.
-/
import Verif.Props.Spectral

namespace Verif.Props
open Verif Spec

/-- **C68** Delaying photons that already have the width `w` by 0 changes nothing. -/
theorem C68_zero (g : Cfg) (fuel : ℕ) (chs : List ℕ) (w : ℝ) (G : Groups) (hG : Proper G) (hph : ∀ e ∈ G, ∀ x ∈ e.2, ∀ c ∈ x.2, ∀ s ∈ c.states, PhotonState g s ∧ ∃ t, s.info = some ⟨t, w⟩)
    (hch : ∀ ch ∈ chs, ch < g.C) : timeDelayFull g (fuel + 1) chs (.value 0) w (writeGroups G) = some (writeGroups G) := by
  unfold timeDelayFull
  rw [read_write hG, Option.bind_some]
  have hstate : ∀ s, PhotonState g s → (∃ t, s.info = some ⟨t, w⟩) → delayState g chs (.value 0) w s = some s := by
    rintro s ⟨v, a, hv, _, hc⟩ ⟨t, ht⟩
    have hfv : firstValues g s = some v := by
      unfold firstValues
      rw [hc]
      simp [g.parse_stdName hv.2]
    obtain ⟨b, hb⟩ := photonIn_defined (v := v) (chs := chs) (by rw [hv.1]; exact hch)
    unfold delayState
    simp only [DelaySource.read, Option.bind_some]
    rw [hfv, Option.bind_some, hb, Option.map_some]
    obtain ⟨q, i⟩ := s
    simp only at ht
    subst ht
    simp
  have hmap : G.mapM (fun cols => (toPhotons g (fuel + 1) cols).bind (mapStates (delayState g chs (.value 0) w))) = some G := by
    rw [groups_mapM]
    unfold GroupsRel
    rw [List.forall₂_same]
    intro e he
    refine ⟨rfl, ?_⟩
    rw [List.forall₂_same]
    intro x hx
    refine ⟨rfl, ?_⟩
    have h := hph e he x hx
    beta_reduce
    rw [toPhotons_photon fuel (fun c hc s hs => (h c hc s hs).1), Option.bind_some, mapStates_some, List.forall₂_same]
    intro c hc
    refine ⟨rfl, rfl, rfl, rfl, ?_⟩
    rw [List.forall₂_same]
    intro s hs
    exact hstate s (h c hc s hs).1 (h c hc s hs).2
  rw [hmap, Option.map_some]

/-- The photons of a column after all channels were delayed by `t`. -/
theorem photons_shift {g : Cfg} {chs : List ℕ} {t w : ℝ} (hall : ∀ ch < g.C, ch ∈ chs) {c c' : Column} (h : SameColumn (DelayedState g chs (.value t) w) c c')
    (hv : ∀ s ∈ c.states, ∃ v, Valid g v ∧ firstValues g s = some v) : photonsOf g c' = (photonsOf g c).map (fun p => (p.1, some ⟨delayOf p.2 - t, w⟩)) := by
  unfold photonsOf listOfPhotons
  have key : ∀ sts sts' : List PState, List.Forall₂ (DelayedState g chs (.value t) w) sts sts' → (∀ s ∈ sts, ∃ v, Valid g v ∧ firstValues g s = some v) →
      ∃ l, sts.mapM (fun s => (firstValues g s).map (fun v => (photonChannels v).map (fun ch => ((ch, s.info) : Photon)))) = some l ∧
        sts'.mapM (fun s => (firstValues g s).map (fun v => (photonChannels v).map (fun ch => ((ch, s.info) : Photon)))) = some (l.map (List.map (fun p => (p.1, some ⟨delayOf p.2 - t, w⟩)))) := by
    intro sts sts' hf
    induction hf with
    | nil => intro _; exact ⟨[], rfl, rfl⟩
    | @cons s s' sts sts' hs _ ih =>
      intro hv
      obtain ⟨l, l1, l2⟩ := ih (fun x hx => hv x (List.mem_cons_of_mem _ hx))
      obtain ⟨v, hval, hfv⟩ := hv s List.mem_cons_self
      obtain ⟨hq, v', t', hv', ht', hi⟩ := hs
      rw [hfv] at hv'
      obtain rfl := Option.some.inj hv'
      have ht' : t' = t := ht'
      subst ht'
      have hfv' : firstValues g s' = some v := by
        unfold firstValues
        rw [hq]
        exact hfv
      refine ⟨(photonChannels v).map (fun ch => (ch, s.info)) :: l, ?_, ?_⟩
      · rw [List.mapM_cons, hfv, l1]; rfl
      · rw [List.mapM_cons, hfv', l2]
        simp only [Option.map_some, Option.bind_eq_bind, Option.bind_some, Option.pure_def, List.map_cons, Option.some.injEq, List.cons.injEq, and_true, List.map_map]
        refine List.map_congr_left ?_
        intro ch hch
        have hm := mem_photonChannels hch
        have hh : HasPhotonIn v chs := ⟨ch, hall ch (by rw [← hval.1]; exact hm.1), by omega⟩
        rw [if_pos hh] at hi
        simp [hi]
  obtain ⟨l, l1, l2⟩ := key c.states c'.states h.states hv
  have e1 : c.states.mapM (fun s => (firstValues g s).map (fun v => (photonChannels v).map (fun ch => (ch, s.info)))) = some l := l1
  have e2 : c'.states.mapM (fun s => (firstValues g s).map (fun v => (photonChannels v).map (fun ch => (ch, s.info)))) = some (l.map (List.map (fun p => (p.1, some ⟨delayOf p.2 - t, w⟩)))) := l2
  rw [e1, e2]
  simp [List.map_flatten]

theorem overlapPermanent_map (f : Option PInfo → Option PInfo) (hf : ∀ a b, photonOverlap (f a) (f b) = photonOverlap a b) (b k : List Photon) (hl : b.length = k.length) :
    overlapPermanent (b.map (fun p => (p.1, f p.2))) (k.map (fun p => (p.1, f p.2))) = overlapPermanent b k := by
  unfold overlapPermanent
  have hlen : (b.map (fun p => (p.1, f p.2))).length = b.length := List.length_map _
  have key : ∀ (n m : ℕ) (hnm : n = m) (A : Fin n → Fin n → ℝ) (B : Fin m → Fin m → ℝ), (∀ i j : Fin n, A i j = B (Fin.cast hnm i) (Fin.cast hnm j)) → Matrix.permanent (Matrix.of A) = Matrix.permanent (Matrix.of B) := by
    intro n m hnm A B h
    subst hnm
    congr 1
    ext i j
    exact h i j
  refine key _ _ hlen _ _ ?_
  intro i j
  have hi : (i : ℕ) < k.length := lt_of_lt_of_eq i.2 (hlen.trans hl)
  have hik : (i : ℕ) < (k.map (fun p => (p.1, f p.2))).length := lt_of_lt_of_eq hi (List.length_map _).symm
  rw [List.getD_eq_getElem _ _ hik]
  simp only [List.get_eq_getElem, List.getElem_map, Fin.val_cast]
  rw [List.getD_eq_getElem _ _ hi]
  unfold photonInner
  simp only [hf]

/-- **C68** A delay of all channels changes no detection probability: the contribution of every pair of columns with the same photon numbers is the same. -/
theorem C68_common (g : Cfg) (chs : List ℕ) (t w : ℝ) (_hwid : w ≠ 0) (hall : ∀ ch < g.C, ch ∈ chs) (v : Vals) (b k b' k' : Column) (hb : ColumnWith g b v) (hk : ColumnWith g k v)
    (hbw : ∀ s ∈ b.states, ∃ x, s.info = some ⟨x, w⟩) (hkw : ∀ s ∈ k.states, ∃ x, s.info = some ⟨x, w⟩)
    (h1 : SameColumn (DelayedState g chs (.value t) w) b b') (h2 : SameColumn (DelayedState g chs (.value t) w) k k') : crossTerm g b' k' = crossTerm g b k := by
  have hvb : ∀ s ∈ b.states, ∃ v, Valid g v ∧ firstValues g s = some v := fun s hs => by
    obtain ⟨u, hu⟩ := hb.hasVals s hs
    exact ⟨u, hu.1, firstValues_nums hu⟩
  have hvk : ∀ s ∈ k.states, ∃ v, Valid g v ∧ firstValues g s = some v := fun s hs => by
    obtain ⟨u, hu⟩ := hk.hasVals s hs
    exact ⟨u, hu.1, firstValues_nums hu⟩
  have hinfo : ∀ c : Column, ColumnWith g c v → (∀ s ∈ c.states, ∃ x, s.info = some ⟨x, w⟩) → ∀ p ∈ photonsOf g c, ∃ x, p.2 = some ⟨x, w⟩ := by
    intro c hc hcw p hp
    have h := hc.photons.1
    unfold listOfPhotons at h
    obtain ⟨l, h3, h4⟩ := Option.map_eq_some_iff.1 h
    rw [← h4] at hp
    obtain ⟨y, hy, hpy⟩ := List.mem_flatten.1 hp
    obtain ⟨s, hs, e⟩ := forall2_left_mem (mapM_some_iff.1 h3).flip y hy
    obtain ⟨u, _, e⟩ := Option.map_eq_some_iff.1 e
    rw [← e] at hpy
    obtain ⟨ch, _, rfl⟩ := List.mem_map.1 hpy
    exact hcw s hs
  -- a function that shifts every delay
  set f : Option PInfo → Option PInfo := fun i => i.map (fun x => ⟨x.delay + -t, x.width⟩) with hf
  have hov : ∀ a b, photonOverlap (f a) (f b) = photonOverlap a b := by
    intro a b
    rcases a with _ | a
    · rfl
    · rcases b with _ | b
      · rfl
      · exact overlap_shift a b (-t)
  have hsh : ∀ c c' : Column, ColumnWith g c v → (∀ s ∈ c.states, ∃ x, s.info = some ⟨x, w⟩) → (∀ s ∈ c.states, ∃ v, Valid g v ∧ firstValues g s = some v) →
      SameColumn (DelayedState g chs (.value t) w) c c' → photonsOf g c' = (photonsOf g c).map (fun p => (p.1, f p.2)) := by
    intro c c' hc hcw hcv h
    rw [photons_shift hall h hcv]
    refine List.map_congr_left ?_
    intro p hp
    obtain ⟨x, hx⟩ := hinfo c hc hcw p hp
    simp [hx, hf, delayOf, sub_eq_add_neg]
  unfold crossTerm
  rw [hsh b b' hb hbw hvb h1, hsh k k' hk hkw hvk h2, overlapPermanent_map f hov _ _ ?_, h1.amp, h1.boson, h2.amp, h2.boson]
  have e1 := hb.photons.2.1.length_eq
  have e2 := hk.photons.2.1.length_eq
  rw [List.length_map] at e1 e2
  rw [e1, e2]

/-! ### C69: the pulse width -/

/-- **C69** Setting the width of all channels: every state gets the width and keeps everything else. -/
theorem C69_all (g : Cfg) (fuel : ℕ) (chs : List ℕ) (w : ℝ) (l : List AState) (hne : chs ≠ []) (hall : ∀ n < g.C, n ∈ chs) (honly : ∀ n ∈ chs, n < g.C) :
    ∃ l', setPulseWidth g fuel chs w l = some l' ∧ List.Forall₂ (fun s s' : AState => s'.q = s.q ∧ s'.aux.bind Aux.info = some ⟨delayOf (s.aux.bind Aux.info), w⟩ ∧
      s'.aux.bind Aux.col = s.aux.bind Aux.col) l l' := by
  refine ⟨l.map (widthAll w), ?_, ?_⟩
  · unfold setPulseWidth
    rw [if_neg hne, if_pos ⟨hall, honly⟩]
  · rw [List.forall₂_map_right_iff, List.forall₂_same]
    rintro ⟨q, aux⟩ _
    rcases aux with _ | ⟨_ | i, col⟩ <;> exact ⟨rfl, rfl, rfl⟩

/-- **C69** Setting the width of some channels: the groups are those of before, in single photons; photons in the given channels get the width, the others keep theirs. -/
theorem C69_some (g : Cfg) (fuel : ℕ) (chs : List ℕ) (w : ℝ) (l l' : List AState) (hw : WellFormedAll g l) (hne : chs ≠ []) (hnot : ∃ n < g.C, n ∉ chs)
    (h : setPulseWidth g fuel chs w l = some l') :
    ∃ G P G', readGroups l = some G ∧ GroupsRel (fun cols ph => toPhotons g fuel cols = some ph) G P ∧ readGroups l' = some G' ∧
      GroupsRel (List.Forall₂ (SameColumn (WidenedState g chs w))) P G' := by
  unfold setPulseWidth at h
  obtain ⟨n, hn, hn'⟩ := hnot
  rw [if_neg hne, if_neg (fun hh => hn' (hh.1 n hn))] at h
  obtain ⟨G, P, G', h1, h2, _, _, h3, _, h4, _⟩ := photon_node hw (f := widthState g chs w) (fun s s' e => (widthState_some e).1) h
  exact ⟨G, P, G', h1, h2, h4, h3.imp (fun x y hxy => hxy.imp (fun c c' hc => sameColumn_imp hc (fun s s' e => widthState_some e)))⟩

/-- **C69** An empty list of channels changes nothing. -/
theorem C69_none (g : Cfg) (fuel : ℕ) (w : ℝ) (l : List AState) : setPulseWidth g fuel [] w l = some l := rfl

theorem readGroups_bad {l : List AState} (hne : l ≠ []) (h : ∀ s ∈ l, ∃ i, s.aux = some ⟨i, none⟩) : readGroups l = none := by
  rcases l with _ | ⟨⟨q, aux⟩, l⟩
  · exact absurd rfl hne
  · obtain ⟨i, hi⟩ := h _ List.mem_cons_self
    simp only at hi
    subst hi
    unfold readGroups
    rw [List.foldlM_cons]
    rfl

/-- **C69** The full claim fails: after setting the pulse width of all channels of any collection without photon information (for instance at the start of a circuit) the collection cannot be
used: the next time delay, measurement or pulse width for some channels raises an exception. -/
theorem C69_fails (g : Cfg) (fuel : ℕ) (w : ℝ) (hC : 0 < g.C) (l : List AState) (hl : l ≠ []) (hfresh : ∀ s ∈ l, s.aux = none) :
    ∃ l', setPulseWidth g fuel (List.range g.C) w l = some l' ∧ (∀ fuel' chs d w', timeDelayFull g fuel' chs d w' l' = none) ∧ (∀ fuel' chs d w', timeDelayQuick g fuel' chs d w' l' = none) ∧
      (∀ fuel' opt cls, measureCollection g fuel' opt cls l' = none) := by
  have hne : List.range g.C ≠ [] := by simp; omega
  refine ⟨l.map (widthAll w), ?_, ?_⟩
  · unfold setPulseWidth
    rw [if_neg hne, if_pos ⟨by simp, by simp⟩]
  · have hr : readGroups (l.map (widthAll w)) = none := by
      refine readGroups_bad (by simpa using hl) ?_
      intro s hs
      obtain ⟨s0, hs0, rfl⟩ := List.mem_map.1 hs
      unfold widthAll
      rw [hfresh s0 hs0]
      exact ⟨_, rfl⟩
    refine ⟨?_, ?_, ?_⟩
    · intro _ _ _ _; unfold timeDelayFull; rw [hr]; rfl
    · intro _ _ _ _; unfold timeDelayQuick; rw [hr]; rfl
    · intro _ _ _; unfold measureCollection; rw [hr]; rfl

end Verif.Props
