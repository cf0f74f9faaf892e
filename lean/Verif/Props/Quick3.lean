/-
C70: when the quick delay succeeds; non-vacuity.
-/
import Verif.Props.Quick2

namespace Verif.Props
open Verif Spec

theorem mapM_defined {α β : Type*} {f : α → Option β} (l : List α) (h : ∀ x ∈ l, ∃ y, f x = some y) : ∃ r, l.mapM f = some r := by
  induction l with
  | nil => exact ⟨[], rfl⟩
  | cons x l ih =>
    obtain ⟨y, hy⟩ := h x List.mem_cons_self
    obtain ⟨r, hr⟩ := ih (fun z hz => h z (List.mem_cons_of_mem _ hz))
    exact ⟨y :: r, by rw [List.mapM_cons, hy, hr]; rfl⟩

theorem partState_defined {g : Cfg} {keep : ℕ → Bool} {t p : ℝ} {s : PState} {v : Vals} {k : Comp} (hv : Valid g v) (hc : s.q.comps = [(g.stdName v, k)]) (hp : 0 ≤ p ∧ p ≤ 1)
    (hcum : 0 ≤ s.q.cum ∧ s.q.cum ≤ 1) : ∃ s', partState g keep t p s = some s' := by
  have hkv := keepChannels_valid (keep := keep) hv
  unfold partState
  rw [hc, List.mapM_cons]
  simp only
  rw [g.parse_stdName hv.2, Option.bind_some, g.render_of_valid hkv]
  simp only [Option.map_some, List.mapM_nil, Option.pure_def, Option.bind_eq_bind, Option.bind_some]
  rw [setFromList_nodup (g := g) [(g.stdName (keepChannels keep v), k.amp)] (by
    intro p hp
    obtain rfl := List.mem_singleton.1 hp
    exact ⟨_, hkv, (isName_iff hkv).2 rfl⟩) (by simp), Option.bind_some]
  unfold setCum
  rw [if_pos ⟨mul_nonneg hcum.1 hp.1, mul_le_one₀ hcum.2 hp.1 hp.2⟩]
  exact ⟨_, rfl⟩

/-- **C70** The quick delay succeeds on every collection of photon states with probabilities between 0 and 1, for every delay and every pulse width that is not 0. -/
theorem C70_defined (g : Cfg) (fuel : ℕ) (chs : List ℕ) (t w : ℝ) (G : Groups) (hG : Proper G) (hph : ∀ e ∈ G, ∀ x ∈ e.2, ∀ c ∈ x.2, ∀ s ∈ c.states, PhotonState g s)
    (hcum : ∀ e ∈ G, ∀ x ∈ e.2, ∀ c ∈ x.2, ∀ s ∈ c.states, 0 ≤ s.q.cum ∧ s.q.cum ≤ 1) (hw : w ≠ 0) : ∃ l', timeDelayQuick g (fuel + 1) chs (.value t) w (writeGroups G) = some l' := by
  have hlog : 0 < Real.log 2 := Real.log_pos (by norm_num)
  have hp : 0 ≤ quickOverlap t w ∧ quickOverlap t w ≤ 1 := by
    rw [quickOverlap_eq]
    refine ⟨(Real.exp_pos _).le, ?_⟩
    rw [Real.exp_le_one_iff]
    nlinarith [sq_nonneg (t / w)]
  unfold timeDelayQuick
  rw [read_write hG, Option.bind_some]
  obtain ⟨r, hr⟩ := mapM_defined (f := quickGroup g (fuel + 1) chs (.value t) w) (allGroups G) (by
    intro cols hc
    obtain ⟨e, he, x, hx, rfl⟩ := mem_allGroups.1 hc
    have hph := hph e he x hx
    have hcum := hcum e he x hx
    have hpg := (hG.groups e he).2.2 x hx
    unfold quickGroup
    rw [splitColumns_all_single fuel (fun c hc s hs => (hph c hc s hs).length), Option.bind_some]
    obtain ⟨s, hs⟩ : ∃ s, (x.2.flatMap (fun c => c.states)).head? = some s := by
      obtain ⟨c, hc⟩ := List.exists_mem_of_ne_nil _ hpg.nonempty
      obtain ⟨s, hs⟩ := List.exists_mem_of_ne_nil _ (hpg.columns c hc)
      have hm : s ∈ x.2.flatMap (fun c => c.states) := List.mem_flatMap.2 ⟨c, hc, hs⟩
      rcases hz : x.2.flatMap (fun c => c.states) with _ | ⟨s', _⟩
      · rw [hz] at hm; cases hm
      · exact ⟨s', by rw [hz]; rfl⟩
    rw [hs]
    simp only [DelaySource.read, Option.bind_some]
    rw [if_neg hw]
    obtain ⟨A, hA⟩ := mapM_defined (f := overlapColumn (quickOverlap t w)) x.2 (by
      intro c hc
      unfold overlapColumn
      obtain ⟨sts, hsts⟩ := mapM_defined (f := fun (s : PState) => (setCum (s.q.cum * quickOverlap t w)).map (fun cum => ({ q := { s.q with cum := cum }, info := some ⟨0, 1⟩ } : PState))) c.states (by
        intro s hs
        have h := hcum c hc s hs
        unfold setCum
        rw [if_pos ⟨mul_nonneg h.1 hp.1, mul_le_one₀ h.2 hp.1 hp.2⟩]
        exact ⟨_, rfl⟩)
      rw [hsts]
      exact ⟨_, rfl⟩)
    obtain ⟨B, hB⟩ := mapM_defined (f := separateColumn g chs (1 - quickOverlap t w)) x.2 (by
      intro c hc
      unfold separateColumn
      obtain ⟨sts, hsts⟩ := mapM_defined (f := fun (s : PState) => (partState g (fun ch => !chs.contains ch) (-100) (1 - quickOverlap t w) s).bind (fun b =>
          (partState g (fun ch => chs.contains ch) 100 (1 - quickOverlap t w) s).map (fun a => [b, a]))) c.states (by
        intro s hs
        obtain ⟨v, a, hv, _, hcomps⟩ := hph c hc s hs
        obtain ⟨b, hb⟩ := partState_defined (keep := fun ch => !chs.contains ch) (t := -100) (p := 1 - quickOverlap t w) hv hcomps ⟨by linarith [hp.2], by linarith [hp.1]⟩ (hcum c hc s hs)
        obtain ⟨a, ha⟩ := partState_defined (keep := fun ch => chs.contains ch) (t := 100) (p := 1 - quickOverlap t w) hv hcomps ⟨by linarith [hp.2], by linarith [hp.1]⟩ (hcum c hc s hs)
        exact ⟨[b, a], by rw [hb, Option.bind_some, ha]; rfl⟩)
      rw [hsts]
      exact ⟨_, rfl⟩)
    rw [hA, Option.bind_some, hB]
    exact ⟨_, rfl⟩)
  have hr' : (List.flatMap (fun (e : List Char × Dict ℕ (List Column)) => e.2.map Prod.snd) G).mapM (quickGroup g (fuel + 1) chs (.value t) w) = some r := hr
  rw [hr']
  exact ⟨_, rfl⟩

/-- C70: the quick delay of channel 0 by 1 for the two photons behind a beam splitter. -/
theorem homQuick : ∃ l' G', timeDelayQuick colCfg 1 [0] (.value 1) 1 (writeGroups homGroups) = some l' ∧ readGroups l' = some G' ∧
    ∃ over sep, QuickParts colCfg 1 [0] (.value 1) 1 homGroup over sep ∧ List.map (fun (e : List Char × Dict ℕ (List Column)) => (e.1, e.2.map Prod.snd)) G' = [("initial".toList, [over, sep])] := by
  obtain ⟨l', h⟩ := C70_defined colCfg 0 [0] 1 1 homGroups homProper (fun e he x hx c hc s hs => (homPhotonState e he x hx c hc s hs).1) (by
    intro e he x hx c hc s hs
    obtain rfl := List.mem_singleton.1 he
    obtain rfl := List.mem_singleton.1 hx
    rcases homMem hc with rfl | rfl | rfl | rfl <;>
    · rcases List.mem_cons.1 hs with rfl | hs
      · simp [homPhoton]
      · obtain rfl := List.mem_singleton.1 hs
        simp [homPhoton]) one_ne_zero
  obtain ⟨G, G', h1, h2, h3⟩ := C70_quick colCfg 1 [0] (.value 1) 1 _ l' homAllWf h
  rw [C67_store _ homProper] at h1
  obtain rfl := Option.some.inj h1
  refine ⟨l', G', h, h2, ?_⟩
  unfold GroupsReplaced homGroups at h3
  rcases h3 with _ | ⟨h, h3⟩
  obtain rfl := List.forall₂_nil_left_iff.1 h3
  obtain ⟨e1, ys, e2, e3⟩ := h
  rcases e2 with _ | ⟨⟨over, sep, rfl, hq⟩, e2⟩
  obtain rfl := List.forall₂_nil_left_iff.1 e2
  exact ⟨over, sep, hq, by simp [e1, e3]⟩

example : ∃ over sep, QuickParts colCfg 1 [0] (.value 1) 1 homGroup over sep ∧ over.length = 4 ∧ (∀ c ∈ over, c.gprob = 1 / 2) ∧ ∀ c ∈ sep, c.gprob = 1 / 2 ∧ c.states.length = 4 := by
  obtain ⟨_, _, _, _, over, sep, hq, _⟩ := homQuick
  refine ⟨over, sep, hq, ?_⟩
  obtain ⟨sp, t, h1, ⟨c0, hc0, s0, hs0, ht⟩, hA, hB⟩ := hq
  rw [splitColumns_all_single 0 (fun c hc s hs => ((homPhotonState _ List.mem_cons_self _ List.mem_cons_self c hc s hs).1).length)] at h1
  obtain rfl := Option.some.inj h1
  have ht : t = 1 := ht
  subst ht
  have he : Real.exp (-Real.log 2 * (1 / 1) ^ 2) = 1 / 2 := by
    rw [div_one, one_pow, mul_one, Real.exp_neg, Real.exp_log (by norm_num)]; norm_num
  rw [he] at hA hB
  have hg : ∀ c ∈ homGroup, c.gprob = 1 ∧ c.states.length = 2 := by
    intro c hc
    rcases homMem hc with rfl | rfl | rfl | rfl <;> exact ⟨rfl, rfl⟩
  refine ⟨hA.length_eq.symm, ?_, ?_⟩
  · intro c' hc'
    obtain ⟨c, hc, e⟩ := forall2_left_mem hA.flip c' hc'
    rw [e.gprob, (hg c hc).1]; norm_num
  · intro c' hc'
    obtain ⟨c, hc, e⟩ := forall2_left_mem hB.flip c' hc'
    refine ⟨by rw [e.gprob, (hg c hc).1]; norm_num, ?_⟩
    obtain ⟨pairs, e1, e2⟩ := e.states
    have := e2.length_eq
    rw [(hg c hc).2] at this
    rw [e1, List.length_flatMap]
    simp [← this]

end Verif.Props
