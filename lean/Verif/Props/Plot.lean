/-
C48, C49: histogram and correlations.
-/
import Verif.Lemmas.Plot

namespace Verif.Props
open Verif Spec

theorem hist_selected (initials : List (List Char)) (s : QState) :
    (decide (initials.length = 0) || decide (s.initial ∈ initials)) = true ↔ Asked initials s := by
  simp [Asked, List.length_eq_zero_iff]

/-- the items of the histogram, and the relation with the states -/
theorem histogram_some {g : Cfg} {m : ℕ} {initials : List (List Char)} {channels : List ℤ} {coll : Coll}
    {d : Dict (List Char) (List (Name × ℝ))} (h : histogram g m initials channels coll = some d) :
    ∃ items, List.Forall₂ (fun (p : Name × QState) (it : List Char × Name × ℝ) =>
        ∃ v, Shown (shownChannels m channels) p.2 v ∧ it = (p.2.initial, outcomeName g v, p.2.cum))
        (coll.filter (fun p => decide (initials.length = 0) || decide (p.2.initial ∈ initials))) items ∧
      d = (collectBars items).map (fun kb => (kb.1, padBars (allOutcomes (collectBars items)) kb.2)) := by
  unfold histogram at h
  simp only [Option.bind_eq_bind, Option.bind_eq_some_iff] at h
  obtain ⟨items, hi, hd⟩ := h
  refine ⟨items, ?_, (Option.some.inj hd).symm⟩
  rw [mapM_some_iff] at hi
  refine hi.imp fun p it hp => ?_
  rw [Option.map_eq_some_iff] at hp
  obtain ⟨v, hv, rfl⟩ := hp
  exact ⟨v, mapM_some_iff.1 hv, rfl⟩

theorem shown_unique {ch : List ℤ} {s : QState} {v w : List ℝ} (hv : Shown ch s v) (hw : Shown ch s w) : v = w := by
  unfold Shown at hv hw
  rw [← mapM_some_iff] at hv hw
  exact Option.some.inj (hv.symm.trans hw)

theorem hist_sum {g : Cfg} {ch : List ℤ} {coll : Coll} {sel : Name × QState → Bool} {items : List (List Char × Name × ℝ)}
    (hi : List.Forall₂ (fun (p : Name × QState) (it : List Char × Name × ℝ) =>
        ∃ v, Shown ch p.2 v ∧ it = (p.2.initial, outcomeName g v, p.2.cum)) (coll.filter sel) items)
    {A : QState → Prop} (hA : ∀ p, sel p = true ↔ A p.2) (Q : List Char × Name × ℝ → Bool) (P : QState → Prop)
    (hPA : ∀ s, P s → A s)
    (hPQ : ∀ p ∈ coll, ∀ v, Shown ch p.2 v → (Q (p.2.initial, outcomeName g v, p.2.cum) = true ↔ P p.2)) :
    ((items.filter Q).map (fun it => it.2.2)).sum = probOf coll P := by
  classical
  induction coll generalizing items with
  | nil =>
    simp only [List.filter_nil] at hi
    cases hi; simp [probOf]
  | cons p coll ih =>
    have ih' : ∀ {items}, _ → _ := fun {items} h => ih (items := items) h (fun q hq => hPQ q (List.mem_cons_of_mem _ hq))
    have hcons : probOf (p :: coll) P = (if P p.2 then p.2.cum else 0) + probOf coll P := by
      unfold probOf
      rw [List.filter_cons]
      by_cases hP : P p.2 <;> simp [hP]
    rw [hcons]
    by_cases hs : sel p = true
    · rw [List.filter_cons_of_pos hs] at hi
      cases hi with
      | cons h1 h2 =>
        rename_i it items'
        obtain ⟨v, hv, rfl⟩ := h1
        rw [List.filter_cons]
        have := hPQ p List.mem_cons_self v hv
        by_cases hP : P p.2
        · rw [if_pos (this.2 hP), if_pos hP, List.map_cons, List.sum_cons, ih' h2]
        · rw [if_neg (fun h => hP (this.1 h)), if_neg hP, ih' h2]; simp
    · rw [List.filter_cons_of_neg hs] at hi
      rw [ih' hi, if_neg (fun hP => hs ((hA p).2 (hPA _ hP)))]; simp

/-- C48: the histogram has exactly one entry for each initial state asked for that occurs. For each of them: the labels are distinct; the labels
are those of all outcomes of all states asked for (so every state's outcome has a bar, for every initial state); the height of each bar is the
summed cumulative probability of the states with that initial state and that label; the bars add up to the summed cumulative probability of the
states with that initial state. -/
theorem C48_bars {g : Cfg} {m : ℕ} {initials : List (List Char)} {channels : List ℤ} {coll : Coll}
    {d : Dict (List Char) (List (Name × ℝ))} (h : histogram g m initials channels coll = some d) :
    d.keys.Nodup ∧ (∀ k, k ∈ d.keys ↔ ∃ p ∈ coll, Asked initials p.2 ∧ p.2.initial = k) ∧
    ∀ k bars, (k, bars) ∈ d →
      (bars.map Prod.fst).Nodup ∧
      (∀ o, o ∈ bars.map Prod.fst ↔
        ∃ p ∈ coll, Asked initials p.2 ∧ ∃ v, Shown (shownChannels m channels) p.2 v ∧ outcomeName g v = o) ∧
      (∀ o x, (o, x) ∈ bars →
        x = probOf coll (fun s => s.initial = k ∧ ∃ v, Shown (shownChannels m channels) s v ∧ outcomeName g v = o)) ∧
      (bars.map Prod.snd).sum = probOf coll (fun s => s.initial = k) := by
  obtain ⟨items, hi, rfl⟩ := histogram_some h
  obtain ⟨hk, hg⟩ := collectBars_spec items
  have hkeys : Dict.keys ((collectBars items).map (fun kb => (kb.1, padBars (allOutcomes (collectBars items)) kb.2)))
      = (collectBars items).keys := by
    unfold Dict.keys; rw [List.map_map]; rfl
  have hsel : ∀ p : Name × QState, (decide (initials.length = 0) || decide (p.2.initial ∈ initials)) = true ↔ Asked initials p.2 :=
    fun p => hist_selected _ _
  have hmem : ∀ k o, (∃ x, (k, o, x) ∈ items) ↔
      ∃ p ∈ coll, Asked initials p.2 ∧ p.2.initial = k ∧ ∃ v, Shown (shownChannels m channels) p.2 v ∧ outcomeName g v = o := by
    intro k o
    constructor
    · rintro ⟨x, hx⟩
      obtain ⟨i, hi', e⟩ := List.getElem_of_mem hx
      obtain ⟨hl, hf⟩ := List.forall₂_iff_get.1 hi
      obtain ⟨v, hv, he⟩ := hf i (hl ▸ hi') hi'
      simp only [List.get_eq_getElem] at hv he
      rw [e] at he
      obtain ⟨hp, hs⟩ := List.mem_filter.1 (List.getElem_mem (hl ▸ hi'))
      simp only [Prod.mk.injEq] at he
      exact ⟨_, hp, (hsel _).1 hs, he.1.symm, v, hv, he.2.1.symm⟩
    · rintro ⟨p, hp, hs, hk, v, hv, ho⟩
      have hp' := List.mem_filter (p := fun p : Name × QState => decide (initials.length = 0) || decide (p.2.initial ∈ initials)) |>.2 ⟨hp, (hsel p).2 hs⟩
      obtain ⟨i, hi', e⟩ := List.getElem_of_mem hp'
      obtain ⟨hl, hf⟩ := List.forall₂_iff_get.1 hi
      obtain ⟨w, hw, he⟩ := hf i hi' (hl ▸ hi')
      simp only [List.get_eq_getElem] at hw he
      rw [e] at hw he
      have : w = v := shown_unique hw hv
      subst this
      rw [hk, ho] at he
      exact ⟨_, he ▸ List.getElem_mem _⟩
  have hmemk : ∀ k, k ∈ (collectBars items).keys ↔ k ∈ items.map Prod.fst := by
    intro k
    rw [Dict.mem_keys_iff]
    rw [hg k]
    by_cases hk : k ∈ items.map Prod.fst <;> simp [hk]
  have hmemk2 : ∀ k, k ∈ items.map Prod.fst ↔ ∃ p ∈ coll, Asked initials p.2 ∧ p.2.initial = k := by
    intro k
    constructor
    · intro hk
      obtain ⟨⟨k', o, x⟩, hx, rfl⟩ := List.mem_map.1 hk
      obtain ⟨p, hp, hs, hk, _⟩ := (hmem k' o).1 ⟨x, hx⟩
      exact ⟨p, hp, hs, hk⟩
    · rintro ⟨p, hp, hs, hk⟩
      have hp' := List.mem_filter (p := fun p : Name × QState => decide (initials.length = 0) || decide (p.2.initial ∈ initials)) |>.2 ⟨hp, (hsel p).2 hs⟩
      obtain ⟨i, hi', e⟩ := List.getElem_of_mem hp'
      obtain ⟨hl, hf⟩ := List.forall₂_iff_get.1 hi
      obtain ⟨w, hw, he⟩ := hf i hi' (hl ▸ hi')
      simp only [List.get_eq_getElem] at hw he
      rw [e] at hw he
      obtain ⟨x, hx⟩ := (hmem k (outcomeName g w)).2 ⟨p, hp, hs, hk, w, hw, rfl⟩
      exact List.mem_map.2 ⟨_, hx, rfl⟩
  refine ⟨hkeys ▸ hk, fun k => by rw [hkeys, hmemk, hmemk2], ?_⟩
  intro k bars hb
  obtain ⟨⟨k', bars'⟩, hb', he⟩ := List.mem_map.1 hb
  simp only [Prod.mk.injEq] at he
  obtain ⟨rfl, rfl⟩ := he
  have hkm : k' ∈ items.map Prod.fst := (hmemk k').1 (List.mem_map.2 ⟨_, hb', rfl⟩)
  have hb2 := Dict.get?_of_mem hk hb'
  rw [hg k', if_pos hkm] at hb2
  obtain rfl := Option.some.inj hb2
  obtain ⟨s1, s2, s3, s4⟩ := barsOf_spec items k'
  have hnd := padBars_nodup (nodup_allOutcomes (collectBars items)) s1
  have hask : ∀ s : QState, s.initial = k' → Asked initials s := by
    intro s hs
    obtain ⟨p, _, ha, hp⟩ := (hmemk2 k').1 hkm
    unfold Asked at ha ⊢
    rw [hs, ← hp]; exact ha
  refine ⟨hnd, ?_, ?_, ?_⟩
  · intro o
    rw [padBars_names, List.mem_append, List.mem_filter, mem_allOutcomes]
    have hall : (∃ kb ∈ collectBars items, o ∈ kb.2.map Prod.fst) ↔
        ∃ p ∈ coll, Asked initials p.2 ∧ ∃ v, Shown (shownChannels m channels) p.2 v ∧ outcomeName g v = o := by
      constructor
      · rintro ⟨⟨k2, b2⟩, hkb, ho⟩
        have h3 := Dict.get?_of_mem hk hkb
        have hkm2 : k2 ∈ items.map Prod.fst := (hmemk k2).1 (List.mem_map.2 ⟨_, hkb, rfl⟩)
        rw [hg k2, if_pos hkm2] at h3
        obtain rfl := Option.some.inj h3
        obtain ⟨p, hp, hs, _, hv⟩ := (hmem k2 o).1 (((barsOf_spec items k2).2.1 o).1 ho)
        exact ⟨p, hp, hs, hv⟩
      · rintro ⟨p, hp, hs, v, hv⟩
        have hx := (hmem p.2.initial o).2 ⟨p, hp, hs, rfl, v, hv⟩
        have hkm2 : p.2.initial ∈ items.map Prod.fst := by
          obtain ⟨x, hx⟩ := hx; exact List.mem_map.2 ⟨_, hx, rfl⟩
        have h3 := hg p.2.initial
        rw [if_pos hkm2] at h3
        exact ⟨_, Dict.get?_mem h3, ((barsOf_spec items _).2.1 o).2 hx⟩
    rw [← hall]
    constructor
    · rintro (h | h)
      · exact ⟨_, hb', h⟩
      · exact h.1
    · intro h
      by_cases ho : o ∈ (barsOf items k').map Prod.fst
      · exact Or.inl ho
      · exact Or.inr ⟨h, by simpa using ho⟩
  · intro o x hx
    rw [← height_of_mem hnd hx, padBars_height, s3]
    refine hist_sum hi hsel _ _ (fun s hs => hask s hs.1) ?_
    intro p hp v hv
    simp only [decide_eq_true_eq]
    constructor
    · rintro ⟨h1, h2⟩; exact ⟨h1, v, hv, h2⟩
    · rintro ⟨h1, w, hw, h2⟩; exact ⟨h1, shown_unique hv hw ▸ h2⟩
  · rw [padBars_sum, s4]
    exact hist_sum hi hsel _ _ hask (fun p hp v hv => by simp)

theorem pyTrunc_nat (n : ℕ) : pyTrunc (n : ℝ) = n := by
  unfold pyTrunc
  rw [if_pos (Nat.cast_nonneg n), Int.floor_natCast]

theorem outcomeName_nat (g : Cfg) {v : List ℕ} (hv : ∀ n ∈ v, n < g.L) :
    outcomeName g (v.map (fun n : ℕ => (n : ℝ))) =
      if g.left then ({ g with left := true } : Cfg).stdName v else (({ g with left := true } : Cfg).stdName v).reverse := by
  have : (v.map (fun n : ℕ => (n : ℝ))).map (fun x => fmt g.digits (pyTrunc x % (g.L : ℤ)).natAbs) = v.map (fmt g.digits) := by
    rw [List.map_map]
    apply List.map_congr_left
    intro n hn
    have : ((n : ℤ) % (g.L : ℤ)).natAbs = n := by
      rw [Int.emod_eq_of_lt (by omega) (by exact_mod_cast hv n hn)]; simp
    simp only [Function.comp, pyTrunc_nat, this]
  unfold outcomeName Cfg.stdName
  simp only [this, if_true]
  rfl

theorem outcomeName_inj (g : Cfg) {v w : List ℕ} (hv : ∀ n ∈ v, n < g.L) (hw : ∀ n ∈ w, n < g.L)
    (h : outcomeName g (v.map (fun n : ℕ => (n : ℝ))) = outcomeName g (w.map (fun n : ℕ => (n : ℝ)))) : v = w := by
  rw [outcomeName_nat g hv, outcomeName_nat g hw] at h
  refine Cfg.stdName_inj { g with left := true } hv hw ?_
  cases hl : g.left <;> simp [hl] at h <;> exact h

theorem shownNat_unique {L : ℕ} {ch : List ℤ} {s : QState} {v w : List ℕ} (hv : ShownNat L ch s v)
    (hw : Shown ch s (w.map (fun n : ℕ => (n : ℝ)))) : v = w :=
  List.map_injective_iff.2 (fun _ _ h => by exact_mod_cast h) (shown_unique hv.1 hw)

/-- C48: if all states asked for show natural numbers below the length of the Fock state (photon numbers), the bars correspond to the outcomes: for every
initial state and every tuple of numbers shown by a state asked for there is exactly one bar, its height is the summed cumulative probability of the states
with that initial state and these numbers, and different tuples have different bars. Missing (false, see C48_fails): other values. -/
theorem C48_outcomes_partial {g : Cfg} {m : ℕ} {initials : List (List Char)} {channels : List ℤ} {coll : Coll}
    {d : Dict (List Char) (List (Name × ℝ))} (h : histogram g m initials channels coll = some d)
    (hn : ∀ p ∈ coll, Asked initials p.2 → ∃ v, ShownNat g.L (shownChannels m channels) p.2 v) :
    ∀ k bars, (k, bars) ∈ d → ∃ label : List ℕ → Name, (∀ v w, (∀ n ∈ v, n < g.L) → (∀ n ∈ w, n < g.L) → label v = label w → v = w) ∧
      (∀ p ∈ coll, Asked initials p.2 → ∀ v, ShownNat g.L (shownChannels m channels) p.2 v →
        (label v, probOf coll (fun s => s.initial = k ∧ ShownNat g.L (shownChannels m channels) s v)) ∈ bars) ∧
      (∀ b ∈ bars, ∃ p ∈ coll, Asked initials p.2 ∧ ∃ v, ShownNat g.L (shownChannels m channels) p.2 v ∧ b.1 = label v) := by
  intro k bars hb
  obtain ⟨_, hk, hbars⟩ := C48_bars h
  obtain ⟨h1, h2, h3, h4⟩ := hbars k bars hb
  refine ⟨fun v => outcomeName g (v.map (fun n : ℕ => (n : ℝ))), fun v w hv hw => outcomeName_inj g hv hw, ?_, ?_⟩
  · intro p hp ha v hv
    obtain ⟨⟨o, x⟩, hx, ho⟩ := List.mem_map.1 ((h2 (outcomeName g (v.map (fun n : ℕ => (n : ℝ))))).2 ⟨p, hp, ha, _, hv.1, rfl⟩)
    simp only at ho
    subst ho
    have := h3 _ _ hx
    have e : probOf coll (fun s => s.initial = k ∧ ∃ w, Shown (shownChannels m channels) s w ∧
        outcomeName g w = outcomeName g (v.map (fun n : ℕ => (n : ℝ)))) =
        probOf coll (fun s => s.initial = k ∧ ShownNat g.L (shownChannels m channels) s v) := by
      classical
      unfold probOf
      congr 2
      apply List.filter_congr
      intro q hq
      rw [decide_eq_decide]
      have hqa : q.2.initial = k → Asked initials q.2 := by
        intro hqk
        obtain ⟨p', _, ha', hp'⟩ := (hk k).1 (List.mem_map.2 ⟨_, hb, rfl⟩)
        unfold Asked at ha' ⊢
        rw [hqk, ← hp']; exact ha'
      constructor
      · rintro ⟨hqk, w, hw, he⟩
        obtain ⟨u, hu⟩ := hn q hq (hqa hqk)
        have := shown_unique hw hu.1
        subst this
        have := outcomeName_inj g hu.2 hv.2 he
        subst this
        exact ⟨hqk, hu⟩
      · rintro ⟨hqk, hw⟩
        exact ⟨hqk, _, hw.1, rfl⟩
    rw [← e, ← this]
    exact hx
  · intro b hb'
    obtain ⟨p, hp, ha, v, hv, ho⟩ := (h2 b.1).1 (List.mem_map.2 ⟨_, hb', rfl⟩)
    obtain ⟨u, hu⟩ := hn p hp ha
    have := shown_unique hv hu.1
    subst this
    exact ⟨p, hp, ha, u, hu, ho.symm⟩

/-- C48: with channel 0 on the left (or one digit per channel) the label of photon numbers is their component name. -/
theorem C48_label_partial {g : Cfg} {v : List ℕ} (hv : ∀ n ∈ v, n < g.L) (hl : g.left = true ∨ g.L ≤ 10) :
    g.render v = some (outcomeName g (v.map (fun n : ℕ => (n : ℝ)))) := by
  rw [g.render_of_lt hv, outcomeName_nat g hv]
  cases h : g.left
  · simp only [Bool.false_eq_true, if_false]
    have h10 : g.L ≤ 10 := by rcases hl with hl | hl; · rw [h] at hl; cases hl
                              · exact hl
    have hd : g.digits = 1 := by
      have h9 : (pyStr (g.L - 1)).length ≤ (pyStr 9).length := pyStr_length_mono (by omega)
      have : (pyStr 9).length = 1 := by decide
      have := g.digits_pos
      unfold Cfg.digits at *
      omega
    have hone : ∀ l : List ℕ, (∀ n ∈ l, n < g.L) → ((l.map (fmt g.digits)).flatten).reverse = (l.reverse.map (fmt g.digits)).flatten := by
      intro l hl
      rw [List.reverse_flatten, List.map_map, List.map_reverse]
      congr 2
      apply List.map_congr_left
      intro n hn
      have := g.length_fmt (hl n hn)
      rw [hd] at this
      obtain ⟨c, hc⟩ := List.length_eq_one_iff.1 this
      simp only [Function.comp, hd, hc]; rfl
    unfold Cfg.stdName
    simp only [h, Bool.false_eq_true, if_false, if_true]
    rw [← hone v hv]
    rfl
  · rw [if_pos rfl]
    have : ({ g with left := true } : Cfg) = g := by rw [← h]
    rw [this]

/-- C48: the histogram is refused exactly if a state asked for does not have one of the channels. -/
theorem C48_defined (g : Cfg) (m : ℕ) (initials : List (List Char)) (channels : List ℤ) (coll : Coll) :
    (∃ d, histogram g m initials channels coll = some d) ↔
      ∀ p ∈ coll, Asked initials p.2 → ∃ v, Shown (shownChannels m channels) p.2 v := by
  constructor
  · rintro ⟨d, h⟩ p hp ha
    obtain ⟨items, hi, _⟩ := histogram_some h
    have hp' := List.mem_filter (p := fun p : Name × QState => decide (initials.length = 0) || decide (p.2.initial ∈ initials))
      |>.2 ⟨hp, (hist_selected _ _).2 ha⟩
    obtain ⟨i, hi', e⟩ := List.getElem_of_mem hp'
    obtain ⟨hl, hf⟩ := List.forall₂_iff_get.1 hi
    obtain ⟨w, hw, he⟩ := hf i hi' (hl ▸ hi')
    simp only [List.get_eq_getElem] at hw he
    rw [e] at hw
    exact ⟨w, hw⟩
  · intro h
    unfold histogram
    simp only [Option.bind_eq_bind]
    have : ∃ items, (coll.filter (fun p => decide (initials.length = 0) || decide (p.2.initial ∈ initials))).mapM (fun p =>
        ((shownChannels m channels).mapM (m := Option) (pyGet p.2.classical)).map (fun vals => (p.2.initial, outcomeName g vals, p.2.cum)))
        = some items := by
      have hall : ∀ l : Coll, (∀ p ∈ l, ∃ v, Shown (shownChannels m channels) p.2 v) → ∃ items, l.mapM (fun p =>
          ((shownChannels m channels).mapM (m := Option) (pyGet p.2.classical)).map (fun vals => (p.2.initial, outcomeName g vals, p.2.cum)))
          = some items := by
        intro l hl
        choose! f hf using hl
        refine ⟨_, mapM_some_of (g := fun p => (p.2.initial, outcomeName g (f p), p.2.cum)) ?_⟩
        intro p hp
        rw [mapM_some_iff.2 (hf p hp)]; rfl
      refine hall _ fun p hp => ?_
      obtain ⟨h1, h2⟩ := List.mem_filter.1 hp
      exact h p h1 ((hist_selected _ _).1 h2)
    obtain ⟨items, hi⟩ := this
    unfold shownChannels at hi
    rw [hi]
    exact ⟨_, rfl⟩

def plotCfg : Cfg := ⟨2, 2, true⟩
def plotState (vals : List ℝ) (p : ℝ) : QState := ⟨['0', '0'], p, [], vals, []⟩

theorem plot_digits : fmt plotCfg.digits 0 = ['0'] ∧ fmt plotCfg.digits 1 = ['1'] := by decide

theorem outcome_two : outcomeName plotCfg [2, 0] = ['0', '0'] := by
  have h2 : pyTrunc 2 = 2 := by exact_mod_cast pyTrunc_nat 2
  have h0 : pyTrunc 0 = 0 := by exact_mod_cast pyTrunc_nat 0
  simp only [outcomeName, List.map_cons, List.map_nil, h2, h0]
  decide

theorem outcome_zero : outcomeName plotCfg [0, 0] = ['0', '0'] := by
  have h0 : pyTrunc 0 = 0 := by exact_mod_cast pyTrunc_nat 0
  simp only [outcomeName, List.map_cons, List.map_nil, h0]
  decide

/-- Finding: C48 does not hold for classical values outside 0..L-1: with length 2 the outcomes (2,0) and (0,0), of probability 1/4 and 3/4,
are shown as one bar '00' of height 1. -/
theorem C48_fails : ∃ d, histogram plotCfg 2 [] [] [(['a'], plotState [2, 0] (1/4)), (['b'], plotState [0, 0] (3/4))] = some d ∧
    d = [(['0', '0'], [(['0', '0'], 1)])] := by
  refine ⟨_, ?_, rfl⟩
  have e : ∀ a b p, (((List.range 2).map (fun n : ℕ => (n : ℤ))).mapM (m := Option) (pyGet (plotState [a, b] p).classical)) = some [a, b] := by
    intro a b p
    rfl
  unfold histogram
  simp only [if_true, List.length_nil, decide_true, Bool.true_or, List.filter_true, Option.bind_eq_bind, List.mapM_cons, List.mapM_nil,
    e, Option.map_some, Option.bind_some, outcome_two, outcome_zero, Option.pure_def]
  simp [collectBars, plotState, addBar, allOutcomes, Dict.set, Dict.get?]
  norm_num

/-! ### C49 -/

theorem corr_fold {g : Cfg} {ab : ℤ × ℤ} (bars : List (Name × ℝ)) (s r : ℝ × ℝ)
    (h : bars.foldlM (m := Option) (fun (s : ℝ × ℝ) b => (nameValues g b.1).bind (fun vals => (pyGet vals ab.1).bind (fun x =>
      (pyGet vals ab.2).bind (fun y => some (if x = y then s.1 + b.2 else s.1 - b.2, s.2 + b.2))))) s = some r) (F : Name → ℝ)
    (hF : ∀ b ∈ bars, ∀ vals x y, nameValues g b.1 = some vals → pyGet vals ab.1 = some x → pyGet vals ab.2 = some y →
      F b.1 = if x = y then 1 else -1) :
    r.1 = s.1 + (bars.map (fun b => F b.1 * b.2)).sum ∧ r.2 = s.2 + (bars.map Prod.snd).sum := by
  induction bars generalizing s with
  | nil =>
    simp only [List.foldlM_nil, Option.pure_def, Option.some.injEq] at h
    subst h; simp
  | cons b bars ih =>
    simp only [List.foldlM_cons, Option.bind_eq_bind, Option.bind_eq_some_iff] at h
    obtain ⟨t, ⟨vals, hv, x, hx, y, hy, ht⟩, h⟩ := h
    obtain ⟨h1, h2⟩ := ih t h (fun b hb => hF b (List.mem_cons_of_mem _ hb))
    have hb := hF b List.mem_cons_self vals x y hv hx hy
    simp only [Option.some.injEq] at ht
    subst ht
    rw [h1, h2, List.map_cons, List.map_cons, List.sum_cons, List.sum_cons, hb]
    by_cases hxy : x = y
    · simp only [hxy, if_true]; constructor <;> ring
    · simp only [hxy, if_false]; constructor <;> ring

/-- the sign given to a name -/
noncomputable def nameSign (g : Cfg) (ab : ℤ × ℤ) (o : Name) : ℝ :=
  open Classical in if ∃ vals x, nameValues g o = some vals ∧ pyGet vals ab.1 = some x ∧ pyGet vals ab.2 = some x then 1 else -1

theorem correlation_value {g : Cfg} {bars : List (Name × ℝ)} {ab : ℤ × ℤ} {c : ℝ} (h : correlation g bars ab = some c) :
    (bars.map Prod.snd).sum ≠ 0 ∧ c = (bars.map (fun b => nameSign g ab b.1 * b.2)).sum / (bars.map Prod.snd).sum := by
  unfold correlation at h
  simp only [Option.bind_eq_bind, Option.bind_eq_some_iff] at h
  obtain ⟨r, hr, h⟩ := h
  obtain ⟨h1, h2⟩ := corr_fold bars (0, 0) r hr (nameSign g ab) (by
    intro b _ vals x y hv hx hy
    unfold nameSign
    by_cases hxy : x = y
    · rw [if_pos hxy, if_pos ⟨vals, x, hv, hx, hxy ▸ hy⟩]
    · rw [if_neg hxy, if_neg]
      rintro ⟨vals', x', hv', hx', hy'⟩
      rw [hv] at hv'
      obtain rfl := Option.some.inj hv'
      rw [hx] at hx'; rw [hy] at hy'
      exact hxy ((Option.some.inj hx').trans (Option.some.inj hy').symm))
  simp only [zero_add] at h1 h2
  by_cases h0 : r.2 = 0
  · rw [if_pos h0] at h; cases h
  · rw [if_neg h0] at h
    rw [← h1, ← h2]
    exact ⟨h0, (Option.some.inj h).symm⟩

theorem signed_le (bars : List (Name × ℝ)) (hb : ∀ b ∈ bars, 0 ≤ b.2) (F : Name → ℝ) (hF : ∀ o, F o = 1 ∨ F o = -1) :
    0 ≤ (bars.map Prod.snd).sum ∧ (bars.map (fun b => F b.1 * b.2)).sum ≤ (bars.map Prod.snd).sum ∧
      -(bars.map Prod.snd).sum ≤ (bars.map (fun b => F b.1 * b.2)).sum := by
  induction bars with
  | nil => simp
  | cons b bars ih =>
    obtain ⟨h1, h2, h3⟩ := ih (fun b h => hb b (List.mem_cons_of_mem _ h))
    have h0 := hb b List.mem_cons_self
    simp only [List.map_cons, List.sum_cons]
    rcases hF b.1 with h | h <;> rw [h] <;> refine ⟨?_, ?_, ?_⟩ <;> linarith

theorem probOf_nonneg {coll : Coll} (hc : ∀ p ∈ coll, 0 ≤ p.2.cum) (P : QState → Prop) : 0 ≤ probOf coll P := by
  unfold probOf
  apply List.sum_nonneg
  intro x hx
  obtain ⟨p, hp, rfl⟩ := List.mem_map.1 hx
  exact hc p (List.mem_of_mem_filter hp)

theorem correlations_some {g : Cfg} {m : ℕ} {coll : Coll} {combis : List (ℤ × ℤ)} {d : Dict (List Char) (List ℝ)}
    (h : correlations g m coll combis = some d) :
    ∃ hist, histogram g m [] [] coll = some hist ∧
      List.Forall₂ (fun kb kl => kb.1 = kl.1 ∧ List.Forall₂ (fun ab c => correlation g kb.2 ab = some c) combis kl.2) hist d := by
  unfold correlations at h
  simp only [Option.bind_eq_bind, Option.bind_eq_some_iff] at h
  obtain ⟨hist, hh, h⟩ := h
  refine ⟨hist, hh, (mapM_some_iff.1 h).imp fun kb kl hkl => ?_⟩
  rw [Option.map_eq_some_iff] at hkl
  obtain ⟨l, hl, rfl⟩ := hkl
  exact ⟨rfl, mapM_some_iff.1 hl⟩

theorem forall₂_mem_right_exists {α β : Type*} {R : α → β → Prop} {l : List α} {r : List β} (h : List.Forall₂ R l r) {b : β} (hb : b ∈ r) :
    ∃ a ∈ l, R a b := by
  induction h with
  | nil => cases hb
  | cons h1 h2 ih =>
    rcases List.mem_cons.1 hb with rfl | hb
    · exact ⟨_, List.mem_cons_self, h1⟩
    · obtain ⟨a, ha, hr⟩ := ih hb
      exact ⟨a, List.mem_cons_of_mem _ ha, hr⟩

/-- C49: every correlation lies between -1 and 1 (cumulative probabilities are not negative). -/
theorem C49_range {g : Cfg} {m : ℕ} {coll : Coll} {combis : List (ℤ × ℤ)} {d : Dict (List Char) (List ℝ)}
    (h : correlations g m coll combis = some d) (hc : ∀ p ∈ coll, 0 ≤ p.2.cum) :
    ∀ k l, (k, l) ∈ d → l.length = combis.length ∧ ∀ c ∈ l, -1 ≤ c ∧ c ≤ 1 := by
  intro k l hl
  obtain ⟨hist, hh, hf⟩ := correlations_some h
  obtain ⟨⟨k', bars⟩, hb, _, hr⟩ := forall₂_mem_right_exists hf hl
  refine ⟨hr.length_eq.symm, fun c hcl => ?_⟩
  obtain ⟨ab, _, hab⟩ := forall₂_mem_right_exists hr hcl
  obtain ⟨h0, rfl⟩ := correlation_value hab
  have hpos : ∀ b ∈ bars, 0 ≤ b.2 := by
    intro b hb'
    rw [((C48_bars hh).2.2 _ _ hb).2.2.1 b.1 b.2 hb']
    exact probOf_nonneg hc _
  obtain ⟨h1, h2, h3⟩ := signed_le bars hpos (nameSign g ab) (fun o => by unfold nameSign; split <;> simp)
  have hp : 0 < (bars.map Prod.snd).sum := lt_of_le_of_ne h1 (Ne.symm h0)
  rw [le_div_iff₀ hp, div_le_iff₀ hp]
  constructor <;> linarith

theorem weighted_addBar (F : Name → ℝ) (o : Name) (p : ℝ) (l : List (Name × ℝ)) :
    ((addBar o p l).map (fun b => F b.1 * b.2)).sum = (l.map (fun b => F b.1 * b.2)).sum + F o * p := by
  induction l with
  | nil => simp [addBar]
  | cons b l ih =>
    obtain ⟨n, q⟩ := b
    unfold addBar
    by_cases h : o = n
    · rw [if_pos h]; simp [h]; ring
    · rw [if_neg h]; simp [ih]; ring

theorem weighted_barsOf (F : Name → ℝ) (items : List (List Char × Name × ℝ)) (k : List Char) :
    ((barsOf items k).map (fun b => F b.1 * b.2)).sum =
      ((items.filter (fun it => decide (it.1 = k))).map (fun it => F it.2.1 * it.2.2)).sum := by
  induction items using List.reverseRecOn with
  | nil => simp [barsOf]
  | append_singleton items it ih =>
    rw [barsOf_append, List.filter_append]
    by_cases h : it.1 = k
    · rw [if_pos h, weighted_addBar, ih]; simp [h]
    · rw [if_neg h, ih]; simp [h]

theorem weighted_pad (F : Name → ℝ) (outs : List Name) (bars : List (Name × ℝ)) :
    ((padBars outs bars).map (fun b => F b.1 * b.2)).sum = (bars.map (fun b => F b.1 * b.2)).sum := by
  unfold padBars
  rw [List.map_append, List.sum_append, List.map_map]
  have : ∀ l : List Name, (l.map ((fun b : Name × ℝ => F b.1 * b.2) ∘ (fun o => ((o, 0) : Name × ℝ)))).sum = 0 := by
    intro l; induction l <;> simp_all
  rw [this]; simp

theorem weighted_items {g : Cfg} {ch : List ℤ} {l : Coll} {items : List (List Char × Name × ℝ)}
    (hi : List.Forall₂ (fun (p : Name × QState) (it : List Char × Name × ℝ) =>
        ∃ v, Shown ch p.2 v ∧ it = (p.2.initial, outcomeName g v, p.2.cum)) l items)
    (F : Name → ℝ) (k : List Char) (P : QState → Prop)
    (hF : ∀ p ∈ l, ∀ v, Shown ch p.2 v → (P p.2 → F (outcomeName g v) = 1) ∧ (¬ P p.2 → F (outcomeName g v) = -1)) :
    ((items.filter (fun it => decide (it.1 = k))).map (fun it => F it.2.1 * it.2.2)).sum =
      probOf l (fun s => s.initial = k ∧ P s) - probOf l (fun s => s.initial = k ∧ ¬ P s) := by
  classical
  induction hi with
  | nil => simp [probOf]
  | @cons p it l items h1 h2 ih =>
    obtain ⟨v, hv, rfl⟩ := h1
    have ih' := ih (fun p hp => hF p (List.mem_cons_of_mem _ hp))
    have hFp := hF p List.mem_cons_self v hv
    have hcons : ∀ P : QState → Prop, probOf (p :: l) P = (if P p.2 then p.2.cum else 0) + probOf l P := by
      intro P
      unfold probOf
      rw [List.filter_cons]
      by_cases hP : P p.2 <;> simp [hP]
    rw [hcons, hcons, List.filter_cons]
    by_cases hk : p.2.initial = k
    · by_cases hP : P p.2
      · simp only [hk, decide_true, if_true, List.map_cons, List.sum_cons, ih', hP, hFp.1 hP, not_true, and_false, if_false, and_true]; ring
      · simp only [hk, decide_true, if_true, List.map_cons, List.sum_cons, ih', hP, hFp.2 hP, not_false_eq_true, and_true, if_false, and_false,
          ]; ring
    · simp only [hk, decide_false, Bool.false_eq_true, if_false, ih', false_and]; ring

theorem shown_all {L m : ℕ} {s : QState} {v : List ℕ} (h : HasNats L m s v) {w : List ℝ}
    (hw : Shown (shownChannels m []) s w) : w = v.map (fun n : ℕ => (n : ℝ)) := by
  obtain ⟨h1, h2, _⟩ := h
  refine shown_unique hw ?_
  unfold Shown shownChannels
  rw [if_pos rfl, List.forall₂_iff_get]
  refine ⟨by simp [h2], fun i hi hi' => ?_⟩
  simp only [List.length_map, List.length_range] at hi
  simp only [List.get_eq_getElem, List.getElem_map, List.getElem_range, h1]
  unfold pyGet pyIndex
  simp [h2, hi]

theorem nameValues_left (g : Cfg) (hl : g.left = true) {v : List ℕ} (hv : ∀ n ∈ v, n < g.L) :
    nameValues g (outcomeName g (v.map (fun n : ℕ => (n : ℝ)))) = some v := by
  have h1 := outcomeName_nat g hv
  have e : ({ g with left := true } : Cfg) = g := by rw [← hl]
  rw [if_pos hl, e] at h1
  rw [h1]
  have := g.parse_stdName hv
  unfold Cfg.parse at this
  rw [hl] at this
  simpa [nameValues] using this

theorem nameValues_right (g : Cfg) (hl : g.left = false) (h10 : g.L ≤ 10) {v : List ℕ} (hv : ∀ n ∈ v, n < g.L) :
    nameValues g (outcomeName g (v.map (fun n : ℕ => (n : ℝ)))) = some v.reverse := by
  have h1 := C48_label_partial hv (Or.inr h10)
  rw [g.render_of_lt hv] at h1
  rw [← Option.some.inj h1]
  have := g.parse_stdName hv
  unfold Cfg.parse at this
  rw [hl] at this
  rw [Option.map_eq_some_iff] at this
  obtain ⟨w, hw, he⟩ := this
  simp only [Bool.false_eq_true, if_false] at he
  have e : v.reverse = w := by rw [← he, List.reverse_reverse]
  rw [e]
  exact hw

theorem pyGet_map {α β : Type*} (f : α → β) (l : List α) (i : ℤ) : pyGet (l.map f) i = (pyGet l i).map f := by
  unfold pyGet
  rw [List.length_map]
  cases pyIndex l.length i <;> simp

theorem corr_value_aux {g : Cfg} {m : ℕ} {coll : Coll} {combis : List (ℤ × ℤ)} {d : Dict (List Char) (List ℝ)}
    (h : correlations g m coll combis = some d) (hn : ∀ p ∈ coll, ∃ v, HasNats g.L m p.2 v) (σ : List ℕ → List ℕ) (τ : List ℝ → List ℝ)
    (hτ : ∀ v : List ℕ, τ (v.map (fun n : ℕ => (n : ℝ))) = (σ v).map (fun n : ℕ => (n : ℝ)))
    (hσ : ∀ v : List ℕ, (∀ n ∈ v, n < g.L) → nameValues g (outcomeName g (v.map (fun n : ℕ => (n : ℝ)))) = some (σ v)) :
    ∀ k l, (k, l) ∈ d → List.Forall₂ (fun ab c => c =
      (probOf coll (fun s => s.initial = k ∧ pyGet (τ s.classical) ab.1 = pyGet (τ s.classical) ab.2)
        - probOf coll (fun s => s.initial = k ∧ ¬ pyGet (τ s.classical) ab.1 = pyGet (τ s.classical) ab.2))
      / probOf coll (fun s => s.initial = k)) combis l := by
  intro k l hl
  obtain ⟨hist, hh, hf⟩ := correlations_some h
  obtain ⟨⟨k', bars⟩, hb, hk, hr⟩ := forall₂_mem_right_exists hf hl
  simp only at hk
  subst hk
  have hsum := ((C48_bars hh).2.2 _ _ hb).2.2.2
  have hnames := ((C48_bars hh).2.2 _ _ hb).2.1
  refine hr.imp fun ab c hab => ?_
  obtain ⟨h0, rfl⟩ := correlation_value hab
  rw [hsum]
  congr 1
  obtain ⟨items, hi, rfl⟩ := histogram_some hh
  obtain ⟨⟨k2, bars'⟩, hb', he⟩ := List.mem_map.1 hb
  simp only [Prod.mk.injEq] at he
  obtain ⟨rfl, rfl⟩ := he
  obtain ⟨hkn, hg⟩ := collectBars_spec items
  have hb2 := Dict.get?_of_mem hkn hb'
  rw [hg k2] at hb2
  have hb3 : barsOf items k2 = bars' := by
    split at hb2
    · exact Option.some.inj hb2
    · cases hb2
  subst hb3
  rw [weighted_pad, weighted_barsOf]
  have hfil : coll.filter (fun p => decide (([] : List (List Char)).length = 0) || decide (p.2.initial ∈ ([] : List (List Char)))) = coll := by
    simp
  rw [hfil] at hi
  refine weighted_items hi _ _ (fun s => pyGet (τ s.classical) ab.1 = pyGet (τ s.classical) ab.2) ?_
  intro p hp w hw
  obtain ⟨v, hv⟩ := hn p hp
  obtain rfl := shown_all hv hw
  -- the correlation of this bar was computed, so both channels exist
  have hdef : ∃ x y, pyGet (σ v) ab.1 = some x ∧ pyGet (σ v) ab.2 = some y := by
    have hmem := (hnames (outcomeName g (v.map (fun n : ℕ => (n : ℝ))))).2 ⟨p, hp, Or.inl rfl, _, hw, rfl⟩
    obtain ⟨b, hbm, hbn⟩ := List.mem_map.1 hmem
    unfold correlation at hab
    simp only [Option.bind_eq_bind, Option.bind_eq_some_iff] at hab
    obtain ⟨r, hr, _⟩ := hab
    have hgen : ∀ (bars : List (Name × ℝ)) (s : ℝ × ℝ), bars.foldlM (m := Option) (fun (s : ℝ × ℝ) b => (nameValues g b.1).bind (fun vals => (pyGet vals ab.1).bind (fun x =>
      (pyGet vals ab.2).bind (fun y => some (if x = y then s.1 + b.2 else s.1 - b.2, s.2 + b.2))))) s = some r → b ∈ bars →
      ∃ vals x y, nameValues g b.1 = some vals ∧ pyGet vals ab.1 = some x ∧ pyGet vals ab.2 = some y := by
      intro bars
      induction bars with
      | nil => intro _ _ hb; cases hb
      | cons b' bars ih =>
        intro s h hb
        simp only [List.foldlM_cons, Option.bind_eq_bind, Option.bind_eq_some_iff] at h
        obtain ⟨t, ⟨vals, hv, x, hx, y, hy, ht⟩, h⟩ := h
        rcases List.mem_cons.1 hb with rfl | hb
        · exact ⟨vals, x, y, hv, hx, hy⟩
        · exact ih t h hb
    obtain ⟨vals, x, y, hv', hx, hy⟩ := hgen _ _ hr hbm
    rw [hbn, hσ v hv.2.2] at hv'
    obtain rfl := Option.some.inj hv'
    exact ⟨x, y, hx, hy⟩
  obtain ⟨x, y, hx, hy⟩ := hdef
  have hcl : (pyGet (τ p.2.classical) ab.1 = pyGet (τ p.2.classical) ab.2) ↔ x = y := by
    rw [hv.1, hτ, pyGet_map, pyGet_map, hx, hy]
    simp
  unfold nameSign
  rw [hσ v hv.2.2]
  constructor
  · intro hP
    rw [if_pos]
    have := hcl.1 hP
    exact ⟨_, x, rfl, hx, this ▸ hy⟩
  · intro hP
    rw [if_neg]
    rintro ⟨vals, z, hv', hz, hz'⟩
    obtain rfl := Option.some.inj hv'
    rw [hx] at hz; rw [hy] at hz'
    exact hP (hcl.2 ((Option.some.inj hz).trans (Option.some.inj hz').symm))

/-- C49: with channel 0 on the left, and natural numbers below the length in all classical channels, each correlation is the probability that the two
channels have equal values minus the probability that they have different values, relative to the total probability of the states with that initial state.
Missing (false, see C49_fails): channel 0 on the right, other classical values. -/
theorem C49_value_partial {g : Cfg} {m : ℕ} {coll : Coll} {combis : List (ℤ × ℤ)} {d : Dict (List Char) (List ℝ)}
    (h : correlations g m coll combis = some d) (hl : g.left = true) (hn : ∀ p ∈ coll, ∃ v, HasNats g.L m p.2 v) :
    ∀ k l, (k, l) ∈ d → List.Forall₂ (fun ab c => c =
      (probOf coll (fun s => s.initial = k ∧ pyGet s.classical ab.1 = pyGet s.classical ab.2)
        - probOf coll (fun s => s.initial = k ∧ ¬ pyGet s.classical ab.1 = pyGet s.classical ab.2))
      / probOf coll (fun s => s.initial = k)) combis l :=
  corr_value_aux h hn id id (fun _ => rfl) (fun _ hv => nameValues_left g hl hv)

/-- C49: with channel 0 on the right and one digit per channel, each correlation is that of the channels counted from the other end. -/
theorem C49_reversed {g : Cfg} {m : ℕ} {coll : Coll} {combis : List (ℤ × ℤ)} {d : Dict (List Char) (List ℝ)}
    (h : correlations g m coll combis = some d) (hl : g.left = false) (h10 : g.L ≤ 10) (hn : ∀ p ∈ coll, ∃ v, HasNats g.L m p.2 v) :
    ∀ k l, (k, l) ∈ d → List.Forall₂ (fun ab c => c =
      (probOf coll (fun s => s.initial = k ∧ pyGet s.classical.reverse ab.1 = pyGet s.classical.reverse ab.2)
        - probOf coll (fun s => s.initial = k ∧ ¬ pyGet s.classical.reverse ab.1 = pyGet s.classical.reverse ab.2))
      / probOf coll (fun s => s.initial = k)) combis l :=
  corr_value_aux h hn List.reverse List.reverse (fun _ => by rw [List.map_reverse]) (fun _ hv => nameValues_right g hl h10 hv)

/-- **C49** When the correlations can be computed: natural numbers below the length in all classical channels, existing channels (negative numbers count from the end), one digit per channel or
channel 0 on the left, and for every initial state a total probability that is not zero. There is then one list for each initial state. -/
theorem C49_defined {g : Cfg} {m : ℕ} {coll : Coll} {combis : List (ℤ × ℤ)} (hname : g.left = true ∨ g.L ≤ 10) (hn : ∀ p ∈ coll, ∃ v, HasNats g.L m p.2 v)
    (hab : ∀ ab ∈ combis, -(m : ℤ) ≤ ab.1 ∧ ab.1 < m ∧ -(m : ℤ) ≤ ab.2 ∧ ab.2 < m) (hpos : ∀ p ∈ coll, probOf coll (fun s => s.initial = p.2.initial) ≠ 0) :
    ∃ d, correlations g m coll combis = some d ∧ d.keys.Nodup ∧ (∀ k, k ∈ d.keys ↔ ∃ p ∈ coll, p.2.initial = k) ∧ ∀ k l, (k, l) ∈ d → l.length = combis.length := by
  have hsh : ∀ p ∈ coll, ∀ v, HasNats g.L m p.2 v → Shown (shownChannels m []) p.2 (v.map (fun n : ℕ => (n : ℝ))) := by
    intro p _ v ⟨h1, h2, _⟩
    unfold Shown shownChannels
    rw [if_pos rfl, List.forall₂_iff_get]
    refine ⟨by simp [h2], fun i hi hi' => ?_⟩
    simp only [List.length_map, List.length_range] at hi
    simp only [List.get_eq_getElem, List.getElem_map, List.getElem_range, h1]
    unfold pyGet pyIndex
    simp [h2, hi]
  obtain ⟨hist, hh⟩ := (C48_defined g m [] [] coll).2 (fun p hp _ => by
    obtain ⟨v, hv⟩ := hn p hp
    exact ⟨_, hsh p hp v hv⟩)
  obtain ⟨b1, b2, b3⟩ := C48_bars hh
  have hget : ∀ (v : List ℕ) (i : ℤ), v.length = m → -(m : ℤ) ≤ i → i < m → ∃ x, pyGet v i = some x := by
    intro v i hv h1 h2
    unfold pyGet pyIndex
    rw [hv]
    by_cases h : 0 ≤ i
    · rw [if_pos h, if_pos h2]
      exact ⟨v[i.toNat]'(by omega), by simp only [Option.bind_some]; rw [List.getElem?_eq_getElem]⟩
    · rw [if_neg h, if_pos h1]
      exact ⟨v[(i + m).toNat]'(by omega), by simp only [Option.bind_some]; rw [List.getElem?_eq_getElem]⟩
  have hvals : ∀ k bars, (k, bars) ∈ hist → ∀ b ∈ bars, ∃ v : List ℕ, v.length = m ∧ nameValues g b.1 = some v := by
    intro k bars hk b hb
    obtain ⟨p, hp, -, w, hw, e⟩ := ((b3 k bars hk).2.1 b.1).1 (List.mem_map_of_mem hb)
    obtain ⟨v, hv⟩ := hn p hp
    obtain rfl := shown_all hv hw
    rw [← e]
    rcases Bool.eq_false_or_eq_true g.left with hl | hl
    · exact ⟨v, hv.2.1, nameValues_left g hl hv.2.2⟩
    · exact ⟨v.reverse, by simpa using hv.2.1, nameValues_right g hl (hname.resolve_left (by simp [hl])) hv.2.2⟩
  have hcorr : ∀ k bars, (k, bars) ∈ hist → ∀ ab ∈ combis, ∃ c, correlation g bars ab = some c := by
    intro k bars hk ab hm
    obtain ⟨i1, i2, i3, i4⟩ := hab ab hm
    have hfold : ∀ (bs : List (Name × ℝ)) (s : ℝ × ℝ), (∀ b ∈ bs, b ∈ bars) → ∃ r : ℝ × ℝ, bs.foldlM (m := Option) (fun (s : ℝ × ℝ) b => (nameValues g b.1).bind (fun vals =>
        (pyGet vals ab.1).bind (fun x => (pyGet vals ab.2).bind (fun y => some (if x = y then s.1 + b.2 else s.1 - b.2, s.2 + b.2))))) s = some r ∧ r.2 = s.2 + (bs.map Prod.snd).sum := by
      intro bs
      induction bs with
      | nil => intro s _; exact ⟨s, rfl, by simp⟩
      | cons b bs ih =>
        intro s hbs
        obtain ⟨v, hv, e⟩ := hvals k bars hk b (hbs b (by simp))
        obtain ⟨x, hx⟩ := hget v ab.1 hv i1 i2
        obtain ⟨y, hy⟩ := hget v ab.2 hv i3 i4
        obtain ⟨r, hr, hr2⟩ := ih (if x = y then s.1 + b.2 else s.1 - b.2, s.2 + b.2) (fun b hb => hbs b (by simp [hb]))
        refine ⟨r, ?_, by rw [hr2]; simp; ring⟩
        rw [List.foldlM_cons, e]
        simp only [Option.bind_eq_bind, Option.bind_some, hx, hy]
        exact hr
    obtain ⟨r, hr, hr2⟩ := hfold bars (0, 0) (fun b hb => hb)
    obtain ⟨p, hp, -, hpk⟩ := (b2 k).1 (List.mem_map_of_mem hk)
    have h0 : r.2 ≠ 0 := by
      rw [hr2, zero_add, (b3 k bars hk).2.2.2, ← hpk]
      exact hpos p hp
    refine ⟨r.1 / r.2, ?_⟩
    unfold correlation
    simp only [Option.bind_eq_bind]
    rw [hr]
    simp only [Option.bind_some, if_neg h0]
  have hall : ∀ (h : Dict (List Char) (List (Name × ℝ))), (∀ e ∈ h, e ∈ hist) → ∃ d : Dict (List Char) (List ℝ), h.mapM (m := Option) (fun kb => (combis.mapM (m := Option) (correlation g kb.2)).map (fun l => (kb.1, l))) = some d ∧
      d.map Prod.fst = h.map Prod.fst ∧ ∀ k l, (k, l) ∈ d → l.length = combis.length := by
    intro h
    induction h with
    | nil => intro _; exact ⟨[], rfl, rfl, by simp⟩
    | cons e h ih =>
      intro hm
      obtain ⟨d, hd, hk, hl⟩ := ih (fun e he => hm e (by simp [he]))
      have hc := hcorr e.1 e.2 (hm e (by simp))
      choose! f hf using hc
      have hm2 : combis.mapM (m := Option) (correlation g e.2) = some (combis.map f) := mapM_some_of hf
      refine ⟨(e.1, combis.map f) :: d, ?_, by simp [hk], ?_⟩
      · rw [List.mapM_cons, hm2, hd]; rfl
      · intro k l hkl
        rcases List.mem_cons.1 hkl with h | h
        · cases h; simp
        · exact hl k l h
  obtain ⟨d, hd, hk, hl⟩ := hall hist (fun e he => he)
  refine ⟨d, ?_, ?_, ?_, hl⟩
  · unfold correlations
    rw [hh]
    exact hd
  · show (d.map Prod.fst).Nodup
    rw [hk]; exact b1
  · intro k
    show k ∈ d.map Prod.fst ↔ _
    rw [hk]
    refine (b2 k).trans ⟨?_, ?_⟩
    · rintro ⟨p, hp, -, e⟩; exact ⟨p, hp, e⟩
    · rintro ⟨p, hp, e⟩; exact ⟨p, hp, .inl rfl, e⟩

/-- length 11 (two digits), channel 0 on the right -/
def plotCfg11 : Cfg := ⟨11, 2, false⟩

/-- Finding: with two digits per channel and channel 0 on the right the label is reversed digit by digit: the outcome (1, 0) is labelled '0010', which
is the component name of the photon numbers (10, 0). -/
theorem C48_label_fails : outcomeName plotCfg11 [1, 0] = ['0', '0', '1', '0'] ∧ plotCfg11.parse ['0', '0', '1', '0'] = some [10, 0] := by
  have h1 : pyTrunc 1 = 1 := by exact_mod_cast pyTrunc_nat 1
  have h0 : pyTrunc 0 = 0 := by exact_mod_cast pyTrunc_nat 0
  constructor
  · simp only [outcomeName, List.map_cons, List.map_nil, h1, h0]
    decide
  · decide

/-- three classical channels, channel 0 on the right -/
def plotCfgR : Cfg := ⟨2, 2, false⟩

theorem outcome_three : outcomeName plotCfgR [0, 0, 1] = ['1', '0', '0'] := by
  have h1 : pyTrunc 1 = 1 := by exact_mod_cast pyTrunc_nat 1
  have h0 : pyTrunc 0 = 0 := by exact_mod_cast pyTrunc_nat 0
  simp only [outcomeName, List.map_cons, List.map_nil, h1, h0]
  decide

/-- Finding: C49 does not hold with channel 0 on the right: one state with classical values 0, 0, 1; the channels 0 and 1 always have the same value, but
their correlation is reported as -1. -/
theorem C49_fails : correlations plotCfgR 3 [(['a'], plotState [0, 0, 1] 1)] [(0, 1)] = some [(['0', '0'], [-1])] := by
  have e : (((List.range 3).map (fun n : ℕ => (n : ℤ))).mapM (m := Option) (pyGet (plotState [0, 0, 1] 1).classical)) = some [0, 0, 1] := rfl
  have hv : nameValues plotCfgR ['1', '0', '0'] = some [1, 0, 0] := by decide
  have hh : histogram plotCfgR 3 [] [] [(['a'], plotState [0, 0, 1] 1)] = some [(['0', '0'], [(['1', '0', '0'], 1)])] := by
    unfold histogram
    simp only [if_true, List.length_nil, decide_true, Bool.true_or, List.filter_true, Option.bind_eq_bind, List.mapM_cons, List.mapM_nil,
      e, Option.map_some, Option.bind_some, outcome_three, Option.pure_def]
    simp [collectBars, plotState, addBar, allOutcomes, Dict.set, Dict.get?]
  unfold correlations
  rw [hh]
  have hc : correlation plotCfgR [(['1', '0', '0'], 1)] (0, 1) = some (-1) := by
    unfold correlation
    simp only [List.foldlM_cons, List.foldlM_nil, hv, Option.bind_eq_bind, Option.bind_some]
    simp [pyGet, pyIndex]
  simp only [Option.bind_eq_bind, Option.bind_some, List.mapM_cons, List.mapM_nil, hc]
  simp

/-- Non-vacuity of C48_bars, C48_outcomes_partial, C49_range, C49_value_partial: two states with the same initial state. -/
example : ∃ d h, histogram plotCfg 2 [] [] [(['a'], plotState [1, 0] (1/4)), (['b'], plotState [0, 0] (3/4))] = some h ∧
    (∀ p ∈ [(['a'], plotState [1, 0] (1/4)), (['b'], plotState [0, 0] (3/4))], ∃ v, HasNats plotCfg.L 2 p.2 v) ∧
    correlations plotCfg 2 [(['a'], plotState [1, 0] (1/4)), (['b'], plotState [0, 0] (3/4))] [(0, 1)] = some d ∧ d ≠ [] := by
  have e : ∀ a b p, (((List.range 2).map (fun n : ℕ => (n : ℤ))).mapM (m := Option) (pyGet (plotState [a, b] p).classical)) = some [a, b] := by
    intro a b p
    rfl
  have o1 : outcomeName plotCfg [1, 0] = ['1', '0'] := by
    have h1 : pyTrunc 1 = 1 := by exact_mod_cast pyTrunc_nat 1
    have h0 : pyTrunc 0 = 0 := by exact_mod_cast pyTrunc_nat 0
    simp only [outcomeName, List.map_cons, List.map_nil, h1, h0]
    decide
  have hh : histogram plotCfg 2 [] [] [(['a'], plotState [1, 0] (1/4)), (['b'], plotState [0, 0] (3/4))] =
      some [(['0', '0'], [(['1', '0'], 1/4), (['0', '0'], 3/4)])] := by
    unfold histogram
    simp only [if_true, List.length_nil, decide_true, Bool.true_or, List.filter_true, Option.bind_eq_bind, List.mapM_cons, List.mapM_nil,
      e, Option.map_some, Option.bind_some, o1, outcome_zero, Option.pure_def]
    simp [collectBars, plotState, addBar, allOutcomes, Dict.set, Dict.get?]
  have hv : nameValues plotCfg ['1', '0'] = some [1, 0] := by decide
  have hv0 : nameValues plotCfg ['0', '0'] = some [0, 0] := by decide
  have hc : correlation plotCfg [(['1', '0'], 1/4), (['0', '0'], 3/4)] (0, 1) = some (1/2) := by
    unfold correlation
    simp only [List.foldlM_cons, List.foldlM_nil, hv, hv0, Option.bind_eq_bind, Option.bind_some]
    simp [pyGet, pyIndex]
    norm_num
  refine ⟨[(['0', '0'], [1/2])], _, hh, ?_, ?_, List.cons_ne_nil _ _⟩
  · intro p hp
    simp only [List.mem_cons, List.not_mem_nil, or_false] at hp
    rcases hp with rfl | rfl
    · exact ⟨[1, 0], by simp [HasNats, plotState, plotCfg]⟩
    · exact ⟨[0, 0], by simp [HasNats, plotState, plotCfg]⟩
  · unfold correlations
    rw [hh]
    simp only [Option.bind_eq_bind, Option.bind_some, List.mapM_cons, List.mapM_nil, hc]
    rfl

end Verif.Props
