/-
Properties C33 - C37: collections of states.
-/
import Verif.Lemmas.Collection
import Verif.Spec.Measurement
import Mathlib.Tactic.FinCases

namespace Verif.Props
open Verif Spec

/-! ### C33 adding states -/

/-- **C33** Adding a state without identifier: whatever random numbers are drawn, the search for an identifier ends and the
state is appended under an identifier that was not in use; all existing entries stay. -/
theorem C33_random_identifier (coll : Coll) (q : QState) (r : ℕ → ℕ) :
    ∃ i, i ∉ coll.map Prod.fst ∧ addState coll q none r = coll ++ [(i, q)] :=
  ⟨freshId coll.keys r, freshId_not_mem _ _, Dict.set_of_not_mem q (freshId_not_mem _ _)⟩

/-- **C33** Adding with an explicit identifier: the entry under that identifier is the new state, every other one is unchanged. -/
theorem C33_explicit_identifier (coll : Coll) (q : QState) (r : ℕ → ℕ) (i j : List Char) :
    Dict.get? (addState coll q (some i) r) j = if i = j then some q else Dict.get? coll j :=
  Dict.get?_set _ _ _ _

/-- **C33** the order and identifiers of the other entries do not change either. -/
theorem C33_explicit_keys (coll : Coll) (q : QState) (r : ℕ → ℕ) (i : List Char) (hn : (coll.map Prod.fst).Nodup) :
    ((addState coll q (some i) r).map Prod.fst).Nodup ∧
    (addState coll q (some i) r).filter (fun p => p.1 ≠ i) = coll.filter (fun p => p.1 ≠ i) := by
  refine ⟨Dict.nodup_keys_set hn _ _, ?_⟩
  show (Dict.set coll i q).filter _ = _
  clear hn
  induction coll with
  | nil => simp [Dict.set]
  | cons p coll ih =>
    obtain ⟨k, x⟩ := p
    rw [Dict.set]
    split
    · rename_i h; subst h; simp
    · rw [List.filter_cons, List.filter_cons, ih]

/-! ### C34 statistical mixtures -/

/-- The entries a statistical mixture should consist of: for each pair the state with the given weight and the common label. -/
def mixtureEntry (s0 : List Char) (p : QState × ℝ) : QState := { p.1 with cum := p.2, initial := s0 }

theorem mixture_fold {thr : ℝ} {m : ℕ} {coll : Coll} {s0 : List Char} {r : ℕ → ℕ → ℕ} {l : List (QState × ℝ)}
    (hv : ∀ p ∈ l, CheckValid thr m p.1 ∧ 0 ≤ p.2 ∧ p.2 ≤ 1) :
    setMixture thr m coll s0 r l = some (Dict.ofList (l.zipIdx.map (fun p => (freshId coll.keys (r p.2), mixtureEntry s0 p.1)))) := by
  rw [setMixture, Dict.ofList, List.foldl_map]
  rw [foldlM_eq_some (h := fun (mix : Coll) p => mix.set (freshId coll.keys (r p.2)) (mixtureEntry s0 p.1))]
  intro mix p hp
  obtain ⟨h1, h2, h3⟩ := hv p.1 (by
    have := List.mem_zipIdx_iff_getElem?.1 (show (p.1, p.2) ∈ l.zipIdx from hp)
    exact List.mem_of_getElem? this)
  rw [if_pos h1, setCum, if_pos ⟨h2, h3⟩]
  rfl

/-- **C34 (partial)** If the random identifiers happen to be pairwise different, the mixture consists of all pairs, in order.
Missing: nothing prevents two pairs from getting the same identifier (`C34_mixture_fails`, `C34_at_most_36`). -/
theorem C34_mixture_partial (thr : ℝ) (m : ℕ) (coll : Coll) (s0 : List Char) (r : ℕ → ℕ → ℕ) (l : List (QState × ℝ))
    (hv : ∀ p ∈ l, CheckValid thr m p.1 ∧ 0 ≤ p.2 ∧ p.2 ≤ 1)
    (hd : ((List.range l.length).map (fun k => freshId coll.keys (r k))).Nodup) :
    ∃ out, setMixture thr m coll s0 r l = some out ∧ (out.map Prod.fst).Nodup ∧ out.map Prod.snd = l.map (mixtureEntry s0) := by
  have e : (l.zipIdx.map (fun p => (freshId coll.keys (r p.2), mixtureEntry s0 p.1))).map Prod.fst
      = (List.range l.length).map (fun k => freshId coll.keys (r k)) := by
    rw [List.map_map, List.zipIdx_eq_zip_range']
    rw [show (Prod.fst ∘ fun p : (QState × ℝ) × ℕ => (freshId coll.keys (r p.2), mixtureEntry s0 p.1))
      = (fun k => freshId coll.keys (r k)) ∘ Prod.snd from rfl, ← List.map_map, List.map_snd_zip (by simp), List.range_eq_range']
  rw [← e] at hd
  refine ⟨_, mixture_fold hv, Dict.nodup_keys_ofList _, ?_⟩
  rw [Dict.ofList_of_nodup _ hd, List.map_map, List.zipIdx_eq_zip_range']
  rw [show (Prod.snd ∘ fun p : (QState × ℝ) × ℕ => (freshId coll.keys (r p.2), mixtureEntry s0 p.1))
      = mixtureEntry s0 ∘ Prod.fst from rfl, ← List.map_map, List.map_fst_zip (by simp)]

theorem extendId_of_not_mem (keys : List (List Char)) (r : ℕ → ℕ) (fuel n : ℕ) (s : List Char) (h : s ∉ keys) :
    extendId keys r fuel n s = s := by
  cases fuel with
  | zero => rfl
  | succ f => rw [extendId, if_neg h]

/-- **C34 fails** For every collection and every two valid states with weights there are random numbers (the same ones drawn twice)
for which only the second of the two states is in the mixture; the weight of the first is lost. -/
theorem C34_mixture_fails (thr : ℝ) (m : ℕ) (coll : Coll) (s0 : List Char) (p₁ p₂ : QState × ℝ)
    (h1 : CheckValid thr m p₁.1 ∧ 0 ≤ p₁.2 ∧ p₁.2 ≤ 1) (h2 : CheckValid thr m p₂.1 ∧ 0 ≤ p₂.2 ∧ p₂.2 ≤ 1) :
    ∃ r : ℕ → ℕ → ℕ, (∀ k n, r k n < 36) ∧ ∃ out, setMixture thr m coll s0 r [p₁, p₂] = some out ∧
      out.map Prod.snd = [mixtureEntry s0 p₂] := by
  refine ⟨fun _ _ => 0, by simp, _, mixture_fold ?_, ?_⟩
  · intro p hp
    simp at hp
    rcases hp with rfl | rfl
    · exact h1
    · exact h2
  · simp [Dict.ofList, Dict.set]

/-- **C34 fails** systematically: on a collection that has no identifier of the short form in use (for instance an empty one) the
mixture contains at most 36 states, however many pairs are given and whatever random numbers are drawn. -/
theorem C34_at_most_36 (thr : ℝ) (m : ℕ) (coll : Coll) (s0 : List Char) (r : ℕ → ℕ → ℕ) (l : List (QState × ℝ))
    (hv : ∀ p ∈ l, CheckValid thr m p.1 ∧ 0 ≤ p.2 ∧ p.2 ≤ 1)
    (hk : ∀ c : Char, "identifier_".toList ++ [c] ∉ coll.map Prod.fst) :
    ∃ out, setMixture thr m coll s0 r l = some out ∧ out.length ≤ 36 := by
  refine ⟨_, mixture_fold hv, ?_⟩
  set out := Dict.ofList (l.zipIdx.map (fun p => (freshId coll.keys (r p.2), mixtureEntry s0 p.1))) with hout
  have hn : (Dict.keys out).Nodup := Dict.nodup_keys_ofList _
  have hsub : ∀ k ∈ Dict.keys out, k ∈ alphabet.map (fun c => "identifier_".toList ++ [c]) := by
    have gen : ∀ (ps : List (List Char × QState)) (d : Coll), (∀ k ∈ Dict.keys d, k ∈ alphabet.map (fun c => "identifier_".toList ++ [c])) →
        (∀ p ∈ ps, p.1 ∈ alphabet.map (fun c => "identifier_".toList ++ [c])) →
        ∀ k ∈ Dict.keys (ps.foldl (fun d kv => Dict.set d kv.1 kv.2) d), k ∈ alphabet.map (fun c => "identifier_".toList ++ [c]) := by
      intro ps
      induction ps with
      | nil => intro d hd _; exact hd
      | cons p ps ih =>
        intro d hd hps
        apply ih
        · intro k hk
          rcases Dict.mem_keys_set.1 hk with rfl | hk
          · exact hps p (by simp)
          · exact hd k hk
        · exact fun q hq => hps q (by simp [hq])
    apply gen _ [] (by simp [Dict.keys])
    intro p hp
    obtain ⟨x, _, rfl⟩ := List.mem_map.1 hp
    show freshId coll.keys (r x.2) ∈ _
    rw [freshId, extendId_of_not_mem coll.keys _ _ _ _ (hk _)]
    refine List.mem_map.2 ⟨letter (r x.2 0), ?_, rfl⟩
    unfold letter
    by_cases hlt : r x.2 0 < alphabet.length
    · rw [List.getD_eq_getElem?_getD, List.getElem?_eq_getElem hlt, Option.getD_some]
      exact List.getElem_mem hlt
    · rw [List.getD_eq_getElem?_getD, List.getElem?_eq_none (by omega)]
      decide
  have hle := (List.subperm_of_subset hn hsub).length_le
  simp only [Dict.keys, List.length_map] at hle
  have h36 : alphabet.length = 36 := rfl
  omega

/-! ### C35 filters and deletion -/

/-- **C35** Filtering on labels: succeeds when the kept states are valid, and keeps exactly the states whose label is listed,
unchanged and in order; filtering again changes nothing. -/
theorem C35_filter_label (thr : ℝ) (m : ℕ) (labels : List (List Char)) (coll : Coll) (hn : (coll.map Prod.fst).Nodup)
    (hv : ∀ p ∈ coll, CheckValid thr m p.2) :
    ∃ out, filterInitial thr m labels coll = some out ∧ out = coll.filter (fun p => p.2.initial ∈ labels) ∧
      filterInitial thr m labels out = some out := by
  have key : ∀ coll : Coll, (coll.map Prod.fst).Nodup → (∀ p ∈ coll, CheckValid thr m p.2) →
      filterInitial thr m labels coll = some (coll.filter (fun p => p.2.initial ∈ labels)) := by
    intro coll hn hv
    refine (selectStates_eq (f := fun p => decide (p.2.initial ∈ labels)) hn ?_).2 ⟨fun p hp _ => hv p hp, rfl⟩
    intro p _; simp [List.contains_eq_mem]
  refine ⟨_, key coll hn hv, rfl, ?_⟩
  rw [key _ (hn.sublist (List.Sublist.map _ List.filter_sublist)) (fun p hp => hv p (List.mem_filter.1 hp).1), List.filter_filter]
  simp

/-- **C35** Filtering on identifiers. -/
theorem C35_filter_identifier (thr : ℝ) (m : ℕ) (ids : List (List Char)) (coll : Coll) (hn : (coll.map Prod.fst).Nodup)
    (hv : ∀ p ∈ coll, CheckValid thr m p.2) :
    ∃ out, filterIdentifier thr m ids coll = some out ∧ out = coll.filter (fun p => p.1 ∈ ids) ∧
      filterIdentifier thr m ids out = some out := by
  have key : ∀ coll : Coll, (coll.map Prod.fst).Nodup → (∀ p ∈ coll, CheckValid thr m p.2) →
      filterIdentifier thr m ids coll = some (coll.filter (fun p => p.1 ∈ ids)) := by
    intro coll hn hv
    refine (selectStates_eq (f := fun p => decide (p.1 ∈ ids)) hn ?_).2 ⟨fun p hp _ => hv p hp, rfl⟩
    intro p _; simp [List.contains_eq_mem]
  refine ⟨_, key coll hn hv, rfl, ?_⟩
  rw [key _ (hn.sublist (List.Sublist.map _ List.filter_sublist)) (fun p hp => hv p (List.mem_filter.1 hp).1), List.filter_filter]
  simp

open Classical in
/-- **C35** Filtering on classical channels: keeps exactly the states that have value `values[i]` in channel `channels[i]` for
every `i` for which both are given. -/
theorem C35_filter_classical (thr : ℝ) (m : ℕ) (channels : List ℕ) (values : List ℝ) (coll : Coll)
    (hn : (coll.map Prod.fst).Nodup) (hv : ∀ p ∈ coll, CheckValid thr m p.2) (hc : ∀ c ∈ channels, c < m) :
    ∃ out, filterClassical thr m channels values coll = some out ∧
      out = coll.filter (fun p => ∀ (i c : ℕ) (x : ℝ), channels[i]? = some c → values[i]? = some x → p.2.classical[c]? = some x) ∧
      filterClassical thr m channels values out = some out := by
  have key : ∀ coll : Coll, (coll.map Prod.fst).Nodup → (∀ p ∈ coll, CheckValid thr m p.2) →
      filterClassical thr m channels values coll = some (coll.filter
        (fun p => ∀ (i c : ℕ) (x : ℝ), channels[i]? = some c → values[i]? = some x → p.2.classical[c]? = some x)) := by
    intro coll hn hv
    refine (selectStates_eq (f := fun p => decide (∀ (i c : ℕ) (x : ℝ), channels[i]? = some c → values[i]? = some x → p.2.classical[c]? = some x))
      hn ?_).2 ⟨fun p hp _ => hv p hp, rfl⟩
    intro p hp
    have hlen := (hv p hp).2.2.2
    rw [mapM_some_of (g := fun cv => decide (p.2.classical[cv.1]? = some cv.2))]
    · simp only [Option.bind_eq_bind, Option.bind_some, Option.some.injEq]
      rw [Bool.eq_iff_iff, List.all_eq_true, decide_eq_true_iff]
      constructor
      · intro h i c x h1 h2
        have := h (decide (p.2.classical[c]? = some x)) (List.mem_map.2 ⟨(c, x), ?_, rfl⟩)
        · simpa using this
        · exact List.mem_of_getElem? (List.getElem?_zip_eq_some.2 ⟨h1, h2⟩)
      · intro h b hb
        obtain ⟨⟨c, x⟩, hcx, rfl⟩ := List.mem_map.1 hb
        obtain ⟨i, hi⟩ := List.mem_iff_getElem?.1 hcx
        obtain ⟨h1, h2⟩ := List.getElem?_zip_eq_some.1 hi
        simpa using h i c x h1 h2
    · intro cv hcv
      have hlt : cv.1 < p.2.classical.length := by rw [hlen]; exact hc _ (List.of_mem_zip hcv).1
      rw [List.getElem?_eq_getElem hlt]
      simp
  refine ⟨_, key coll hn hv, rfl, ?_⟩
  rw [key _ (hn.sublist (List.Sublist.map _ List.filter_sublist)) (fun p hp => hv p (List.mem_filter.1 hp).1), List.filter_filter]
  simp

/-- **C35** A copy of a collection of valid states has the same content. -/
theorem C35_copy (thr : ℝ) (m : ℕ) (coll : Coll) (hn : (coll.map Prod.fst).Nodup) (hv : ∀ p ∈ coll, CheckValid thr m p.2) :
    copyColl thr m coll = some coll := by
  refine (selectStates_eq (f := fun _ => true) hn (fun _ _ => rfl)).2 ⟨fun p hp _ => hv p hp, by simp⟩

/-- **C35** Deleting: by an existing identifier removes exactly that entry; otherwise by label removes exactly the first entry with
that label; if neither is present nothing changes. -/
theorem C35_delete (coll : Coll) (hn : (coll.map Prod.fst).Nodup) (identifier initial : Option (List Char)) :
    (∀ i, identifier = some i → i ∈ coll.map Prod.fst → deleteState coll identifier initial = coll.filter (fun p => p.1 ≠ i)) ∧
    ((∀ i, identifier = some i → i ∉ coll.map Prod.fst) → ∀ s, initial = some s →
      ∀ (pre post : Coll) (p : List Char × QState), coll = pre ++ p :: post → p.2.initial = s → (∀ q ∈ pre, q.2.initial ≠ s) →
        deleteState coll identifier initial = pre ++ post) ∧
    ((∀ i, identifier = some i → i ∉ coll.map Prod.fst) → (∀ s, initial = some s → ∀ q ∈ coll, q.2.initial ≠ s) →
      deleteState coll identifier initial = coll) := by
  have hno : (∀ i, identifier = some i → i ∉ coll.map Prod.fst) → (identifier.map (fun i => Dict.has coll i)).getD false = false := by
    intro h
    cases identifier with
    | none => rfl
    | some i =>
      have : ¬ Dict.has coll i = true := fun hh => h i rfl (Dict.has_iff.1 hh)
      simpa using this
  refine ⟨?_, ?_, ?_⟩
  · rintro i rfl hi
    have : Dict.has coll i = true := Dict.has_iff.2 hi
    simp only [deleteState, Option.map_some, this, Option.getD_some, if_true]
    exact erase_eq_filter hn i
  · rintro h s rfl pre post p hcoll hp hpre
    have hh := hno h
    have hf : coll.find? (fun p => decide (p.2.initial = s)) = some p := by
      rw [hcoll, List.find?_append, List.find?_eq_none.2 (by intro q hq; simpa using hpre q hq), List.find?_cons]
      simp [hp]
    simp only [deleteState, hh, Bool.false_eq_true, if_false, hf]
    rw [erase_eq_filter hn, hcoll]
    rw [hcoll, List.map_append, List.map_cons, List.nodup_append, List.nodup_cons] at hn
    rw [List.filter_append, List.filter_cons]
    simp only [ne_eq, not_true_eq_false, decide_false, Bool.false_eq_true, if_false]
    congr 1
    · rw [List.filter_eq_self]
      intro q hq
      simp only [decide_not, Bool.not_eq_true', decide_eq_false_iff_not]
      exact hn.2.2 q.1 (List.mem_map.2 ⟨q, hq, rfl⟩) p.1 (by simp)
    · rw [List.filter_eq_self]
      intro q hq
      simp only [decide_not, Bool.not_eq_true', decide_eq_false_iff_not]
      intro e
      exact hn.2.1.1 (e ▸ List.mem_map.2 ⟨q, hq, rfl⟩)
  · intro h h2
    have hh := hno h
    simp only [deleteState, hh, Bool.false_eq_true, if_false]
    cases initial with
    | none => rfl
    | some s =>
      have hf : coll.find? (fun p => decide (p.2.initial = s)) = none :=
        List.find?_eq_none.2 (by intro q hq; simpa using h2 s rfl q hq)
      simp only [hf]

/-- **C35** Looking a state up: an existing identifier gives its state; otherwise the first state with the label is found. -/
theorem C35_get (coll : Coll) (hn : (coll.map Prod.fst).Nodup) (identifier initial : Option (List Char)) :
    (∀ i q, identifier = some i → (i, q) ∈ coll → getState coll identifier initial = some q) ∧
    ((∀ i, identifier = some i → i ∉ coll.map Prod.fst) → ∀ s, initial = some s →
      ∀ (pre post : Coll) (p : List Char × QState), coll = pre ++ p :: post → p.2.initial = s → (∀ q ∈ pre, q.2.initial ≠ s) →
        getState coll identifier initial = some p.2) := by
  refine ⟨?_, ?_⟩
  · rintro i q rfl hq
    rw [getState]
    simp only [Option.bind_some]
    rw [Dict.get?_of_mem hn hq]
  · rintro h s rfl pre post p hcoll hp hpre
    have e : identifier.bind (fun i => Dict.get? coll i) = none := by
      cases identifier with
      | none => rfl
      | some i => exact Dict.get?_eq_none.2 (h i rfl)
    have hf : coll.find? (fun p => decide (p.2.initial = s)) = some p := by
      rw [hcoll, List.find?_append, List.find?_eq_none.2 (by intro q hq; simpa using hpre q hq), List.find?_cons]
      simp [hp]
    rw [getState, e]
    simp only [Option.bind_some, hf, Option.map_some]

/-! ### C36 the default collection -/

/-- **C36** For any enumeration `names` of the basis (every basis state exactly once): the default collection has `L ^ C` states with
pairwise different identifiers, in the order of the enumeration; each is the basis state itself with amplitude and
probability 1, cumulative probability 1, its name as label, zeros in all classical channels and no history. -/
theorem C36_default (g : Cfg) (hg : g.Ok) (m : ℕ) (names : List Name) (hn : names.Nodup)
    (hall : ∀ s, s ∈ names ↔ ∃ v, Valid g v ∧ IsName g v s) :
    ∃ coll, defaultColl g m names = some coll ∧ coll.length = g.L ^ g.C ∧ (coll.map Prod.fst).Nodup ∧
      coll.map Prod.snd = names.map (fun s => (⟨s, 1, [(s, ⟨1, 1⟩)], List.replicate m 0, []⟩ : QState)) := by
  obtain ⟨q0, hq0⟩ : ∃ s0, g.nameAt 0 = some s0 := by
    rw [nameAt_eq hg.1]; exact ⟨_, rfl⟩
  have hset : ∀ s ∈ names, setFromDict g [(s, (⟨1, 1⟩ : Comp))] = some [(s, ⟨1, 1⟩)] := by
    intro s hs
    obtain ⟨v, hv, hsn⟩ := (hall s).1 hs
    rw [isName_iff hv] at hsn
    subst hsn
    exact setFromDict_enc (l := [(v, ⟨1, 1⟩)]) (by simpa using hv)
  set ent : Name × ℕ → List Char × QState := fun ni =>
    ("identifier_".toList ++ fmt (pyStr names.length).length ni.2, ⟨ni.1, 1, [(ni.1, ⟨1, 1⟩)], List.replicate m 0, []⟩) with hent
  have hfold : defaultColl g m names = some (Dict.ofList (names.zipIdx.map ent)) := by
    rw [defaultColl, Dict.ofList, List.foldl_map]
    rw [foldlM_eq_some (h := fun (coll : Coll) ni => coll.set (ent ni).1 (ent ni).2)]
    intro coll ni hni
    have hs : ni.1 ∈ names := List.mem_of_getElem? (List.mem_zipIdx_iff_getElem?.1 (show (ni.1, ni.2) ∈ names.zipIdx from hni))
    rw [defaultState, hq0, hset ni.1 hs]
    rfl
  have hk : (names.zipIdx.map ent).map Prod.fst
      = (List.range names.length).map (fun k => "identifier_".toList ++ fmt (pyStr names.length).length k) := by
    rw [List.map_map, List.zipIdx_eq_zip_range']
    rw [show (Prod.fst ∘ ent) = (fun k => "identifier_".toList ++ fmt (pyStr names.length).length k) ∘ Prod.snd from rfl,
      ← List.map_map, List.map_snd_zip (by simp), List.range_eq_range']
  have hnod : ((names.zipIdx.map ent).map Prod.fst).Nodup := by
    rw [hk]
    exact List.nodup_range.map_on (fun a _ b _ e => fmt_inj (List.append_cancel_left e))
  have hlen : names.length = g.L ^ g.C := by
    have hperm : names.Perm ((List.range g.size).map g.nm) := by
      rw [List.perm_ext_iff_of_nodup hn]
      · intro s
        rw [hall, List.mem_map]
        constructor
        · rintro ⟨v, hv, hs⟩
          rw [isName_iff hv] at hs
          exact ⟨g.indexOf v, List.mem_range.2 (g.indexOf_lt hv), by rw [nm_indexOf hv, hs]⟩
        · rintro ⟨i, hi, rfl⟩
          exact ⟨g.valuesFromIndex i, g.valid_valuesFromIndex hg.1 i, (isName_iff (g.valid_valuesFromIndex hg.1 i)).2 rfl⟩
      · refine List.nodup_range.map_on ?_
        intro a ha b hb e
        exact nm_inj hg.1 (List.mem_range.1 ha) (List.mem_range.1 hb) e
    rw [hperm.length_eq]; simp [Cfg.size]
  refine ⟨_, hfold, ?_, Dict.nodup_keys_ofList _, ?_⟩
  · rw [Dict.ofList_of_nodup _ hnod]; simp [hlen]
  · rw [Dict.ofList_of_nodup _ hnod, List.map_map, List.zipIdx_eq_zip_range']
    rw [show (Prod.snd ∘ ent) = (fun s => (⟨s, 1, [(s, ⟨1, 1⟩)], List.replicate m 0, []⟩ : QState)) ∘ Prod.fst from rfl,
      ← List.map_map, List.map_fst_zip (by simp)]

/-! ### C37 density matrices -/

/-- **C37** Entries: the density matrix of a label adds up, over the states with that label, cumulative probability times the
conjugated amplitude of the row component times the amplitude of the column component. -/
theorem C37_entries (g : Cfg) (hg : g.Ok) (coll : Coll) (hw : ∀ p ∈ coll, WellFormed g p.2.comps) (label : List Char) :
    ∃ dm, densityMatrix g coll label = some dm ∧ ∀ v w s t, Valid g v → IsName g v s → Valid g w → IsName g w t →
      dm (g.indexOf v) (g.indexOf w) = ((coll.filter (fun p => p.2.initial = label)).map
        (fun p => (p.2.cum : ℂ) * (star (ampOf p.2.comps s) * ampOf p.2.comps t))).sum := by
  obtain ⟨dm, h1, h2⟩ := densityMatrix_eq hg.1 hw label
  refine ⟨dm, h1, ?_⟩
  intro v w s t hv hs hw' ht
  rw [isName_iff hv] at hs
  rw [isName_iff hw'] at ht
  subst hs ht
  rw [h2 _ (g.indexOf_lt hv) _ (g.indexOf_lt hw')]
  simp only [vec_index hv, vec_index hw']

theorem star_sum_list (l : List ℂ) : star l.sum = (l.map star).sum := by
  induction l with
  | nil => simp
  | cons a l ih => simp [ih]

/-- **C37** The density matrix is Hermitian, positive semidefinite when all cumulative probabilities are non-negative, and its trace is
the sum of cumulative probability times total probability. -/
theorem C37_density (g : Cfg) (hg : g.Ok) (coll : Coll) (hw : ∀ p ∈ coll, WellFormed g p.2.comps)
    (hc : ∀ p ∈ coll, 0 ≤ p.2.cum) (label : List Char) (dm : ℕ → ℕ → ℂ) (h : densityMatrix g coll label = some dm) :
    (∀ i < g.size, ∀ j < g.size, dm j i = star (dm i j)) ∧
    (∀ x : ℕ → ℂ, ∃ y : ℝ, 0 ≤ y ∧ ∑ i ∈ Finset.range g.size, ∑ j ∈ Finset.range g.size, star (x i) * dm i j * x j = (y : ℂ)) ∧
    ∑ i ∈ Finset.range g.size, dm i i
      = (((coll.filter (fun p => p.2.initial = label)).map (fun p => p.2.cum * totalProb p.2.comps)).sum : ℝ) := by
  obtain ⟨dm', h1, h2⟩ := densityMatrix_eq hg.1 hw label
  rw [h] at h1
  obtain rfl := Option.some.inj h1
  set l := coll.filter (fun p => p.2.initial = label) with hl
  have hlw : ∀ p ∈ l, WellFormed g p.2.comps := fun p hp => hw p (List.mem_filter.1 hp).1
  have hlc : ∀ p ∈ l, 0 ≤ p.2.cum := fun p hp => hc p (List.mem_filter.1 hp).1
  clear_value l
  clear hl h hw hc
  refine ⟨?_, ?_, ?_⟩
  · intro i hi j hj
    rw [h2 i hi j hj, h2 j hj i hi, star_sum_list, List.map_map]
    congr 1
    apply List.map_congr_left
    intro p _
    simp only [Function.comp_def, star_mul', star_star]
    rw [show star ((p.2.cum : ℝ) : ℂ) = (p.2.cum : ℂ) from Complex.conj_ofReal _]
    ring
  · intro x
    refine ⟨(l.map (fun p => p.2.cum * ‖∑ j ∈ Finset.range g.size, vec g p.2.comps j * x j‖ ^ 2)).sum, ?_, ?_⟩
    · apply List.sum_nonneg
      intro y hy
      obtain ⟨p, hp, rfl⟩ := List.mem_map.1 hy
      have := hlc p hp
      positivity
    · have e : ∑ i ∈ Finset.range g.size, ∑ j ∈ Finset.range g.size, star (x i) * dm i j * x j
          = ∑ i ∈ Finset.range g.size, ∑ j ∈ Finset.range g.size, (l.map (fun p => (p.2.cum : ℂ) *
            (star (vec g p.2.comps i * x i) * (vec g p.2.comps j * x j)))).sum := by
        apply Finset.sum_congr rfl
        intro i hi
        apply Finset.sum_congr rfl
        intro j hj
        rw [h2 i (Finset.mem_range.1 hi) j (Finset.mem_range.1 hj), ← List.sum_map_mul_left, ← List.sum_map_mul_right]
        congr 1
        apply List.map_congr_left
        intro p _
        rw [star_mul']
        ring
      rw [e]
      clear e h2 hlw hlc
      induction l with
      | nil => simp
      | cons p l ih =>
        simp only [List.map_cons, List.sum_cons, Finset.sum_add_distrib]
        rw [ih]
        push_cast
        congr 1
        have hb : ((‖∑ j ∈ Finset.range g.size, vec g p.2.comps j * x j‖ : ℝ) : ℂ) ^ 2
            = star (∑ j ∈ Finset.range g.size, vec g p.2.comps j * x j) * ∑ j ∈ Finset.range g.size, vec g p.2.comps j * x j := by
          rw [← Complex.conj_mul']; rfl
        rw [hb, star_sum, Finset.sum_mul, Finset.mul_sum]
        apply Finset.sum_congr rfl
        intro i _
        rw [Finset.mul_sum, Finset.mul_sum]
  · have e : ∑ i ∈ Finset.range g.size, dm i i = ∑ i ∈ Finset.range g.size,
        (((l.map (fun p => p.2.cum * ‖vec g p.2.comps i‖ ^ 2)).sum : ℝ) : ℂ) := by
      apply Finset.sum_congr rfl
      intro i hi
      rw [h2 i (Finset.mem_range.1 hi) i (Finset.mem_range.1 hi)]
      clear h2 hlw hlc
      induction l with
      | nil => simp
      | cons p l ih =>
        rw [List.map_cons, List.sum_cons, ih, List.map_cons, List.sum_cons]
        push_cast
        congr 2
        rw [← Complex.conj_mul']; rfl
    rw [e, ← Complex.ofReal_sum]
    congr 1
    clear e h2 hlc
    induction l with
    | nil => simp
    | cons p l ih =>
      simp only [List.map_cons, List.sum_cons, Finset.sum_add_distrib]
      rw [ih (fun q hq => hlw q (by simp [hq])), totalProb_eq hg.1 (hlw p (by simp)), Finset.mul_sum]

/-- **C37** The reported trace of a label whose (normalised) states have cumulative probabilities adding up to 1 is 1. -/
theorem C37_trace_one (g : Cfg) (hg : g.Ok) (coll : Coll) (hw : ∀ p ∈ coll, WellFormed g p.2.comps ∧ totalProb p.2.comps = 1)
    (hc : ∀ p ∈ coll, 0 ≤ p.2.cum) (label : List Char)
    (hs : ((coll.filter (fun p => p.2.initial = label)).map (fun p => p.2.cum)).sum = 1)
    (dm : ℕ → ℕ → ℂ) (h : densityMatrix g coll label = some dm) : reportedTrace g dm = 1 := by
  have ht := (C37_density g hg coll (fun p hp => (hw p hp).1) hc label dm h).2.2
  have e : (coll.filter (fun p => p.2.initial = label)).map (fun p => p.2.cum * totalProb p.2.comps)
      = (coll.filter (fun p => p.2.initial = label)).map (fun p => p.2.cum) := by
    apply List.map_congr_left
    intro p hp
    rw [(hw p (List.mem_filter.1 hp).1).2, mul_one]
  rw [e, hs] at ht
  rw [reportedTrace, ht]
  simp only [Complex.ofReal_one, norm_one, round2, one_mul, roundHalfEven]
  have : ⌊(100 : ℝ)⌋ = 100 := by norm_num
  rw [this]
  norm_num

/-- **C37** Purity: the trace of the square is real, at most the square of the trace, and equal to it for a single state. -/
theorem C37_purity (g : Cfg) (hg : g.Ok) (coll : Coll) (hw : ∀ p ∈ coll, WellFormed g p.2.comps)
    (hc : ∀ p ∈ coll, 0 ≤ p.2.cum) (label : List Char) (dm : ℕ → ℕ → ℂ) (h : densityMatrix g coll label = some dm) :
    ∃ y : ℝ, ∑ i ∈ Finset.range g.size, ∑ j ∈ Finset.range g.size, dm i j * dm j i = (y : ℂ) ∧ 0 ≤ y ∧
      y ≤ ((coll.filter (fun p => p.2.initial = label)).map (fun p => p.2.cum * totalProb p.2.comps)).sum ^ 2 ∧
      ((coll.filter (fun p => p.2.initial = label)).length = 1 →
        y = ((coll.filter (fun p => p.2.initial = label)).map (fun p => p.2.cum * totalProb p.2.comps)).sum ^ 2) := by
  obtain ⟨hherm, -, htr⟩ := C37_density g hg coll hw hc label dm h
  obtain ⟨dm', h1, h2⟩ := densityMatrix_eq hg.1 hw label
  rw [h] at h1
  obtain rfl := Option.some.inj h1
  set l := coll.filter (fun p => p.2.initial = label) with hl
  have hlc : ∀ p ∈ l, 0 ≤ p.2.cum := fun p hp => hc p (List.mem_filter.1 hp).1
  clear_value l
  have hd : ∀ i < g.size, dm i i = (((l.map (fun p => p.2.cum * ‖vec g p.2.comps i‖ ^ 2)).sum : ℝ) : ℂ) := by
    intro i hi
    rw [h2 i hi i hi]
    clear h2 hlc htr hl
    induction l with
    | nil => simp
    | cons p l ih =>
      rw [List.map_cons, List.sum_cons, ih, List.map_cons, List.sum_cons]
      push_cast
      congr 2
      rw [← Complex.conj_mul']; rfl
  set D : ℕ → ℝ := fun i => (l.map (fun p => p.2.cum * ‖vec g p.2.comps i‖ ^ 2)).sum with hD
  have hsum : ∑ i ∈ Finset.range g.size, D i = (l.map (fun p => p.2.cum * totalProb p.2.comps)).sum := by
    have : ∑ i ∈ Finset.range g.size, dm i i = ((∑ i ∈ Finset.range g.size, D i : ℝ) : ℂ) := by
      rw [Complex.ofReal_sum]
      exact Finset.sum_congr rfl (fun i hi => hd i (Finset.mem_range.1 hi))
    rw [this] at htr
    exact_mod_cast htr
  have hnorm : ∀ i < g.size, ∀ j < g.size, dm i j * dm j i = ((‖dm i j‖ ^ 2 : ℝ) : ℂ) := by
    intro i hi j hj
    rw [hherm i hi j hj, mul_comm]
    rw [show star (dm i j) * dm i j = _ from Complex.conj_mul' _]
    push_cast; rfl
  have hle : ∀ i < g.size, ∀ j < g.size, ‖dm i j‖ ^ 2 ≤ D i * D j := by
    intro i hi j hj
    have hb : ‖dm i j‖ ≤ (l.map (fun p => (Real.sqrt p.2.cum * ‖vec g p.2.comps i‖) * (Real.sqrt p.2.cum * ‖vec g p.2.comps j‖))).sum := by
      rw [h2 i hi j hj]
      clear h2 htr hl hd hsum hnorm hD
      induction l with
      | nil => simp
      | cons p l ih =>
        simp only [List.map_cons, List.sum_cons]
        refine (norm_add_le _ _).trans (add_le_add ?_ (ih (fun q hq => hlc q (by simp [hq]))))
        rw [norm_mul, norm_mul, norm_star, Complex.norm_real, Real.norm_eq_abs, abs_of_nonneg (hlc p (by simp))]
        have := Real.mul_self_sqrt (hlc p (by simp))
        calc p.2.cum * (‖vec g p.2.comps i‖ * ‖vec g p.2.comps j‖)
            = (Real.sqrt p.2.cum * Real.sqrt p.2.cum) * (‖vec g p.2.comps i‖ * ‖vec g p.2.comps j‖) := by rw [this]
          _ ≤ _ := le_of_eq (by ring)
    have hcs := list_cauchy l (fun p => Real.sqrt p.2.cum * ‖vec g p.2.comps i‖) (fun p => Real.sqrt p.2.cum * ‖vec g p.2.comps j‖)
    have hDi : ∀ i, (l.map (fun p => (Real.sqrt p.2.cum * ‖vec g p.2.comps i‖) ^ 2)).sum = D i := by
      intro i
      rw [hD]
      congr 1
      apply List.map_congr_left
      intro p hp
      rw [mul_pow, Real.sq_sqrt (hlc p hp)]
    rw [hDi, hDi] at hcs
    exact (pow_le_pow_left₀ (norm_nonneg _) hb 2).trans hcs
  have hcomp : ∑ i ∈ Finset.range g.size, ∑ j ∈ Finset.range g.size, dm i j * dm j i
      = ((∑ i ∈ Finset.range g.size, ∑ j ∈ Finset.range g.size, ‖dm i j‖ ^ 2 : ℝ) : ℂ) := by
    rw [Complex.ofReal_sum]
    apply Finset.sum_congr rfl
    intro i hi
    rw [Complex.ofReal_sum]
    apply Finset.sum_congr rfl
    intro j hj
    exact hnorm i (Finset.mem_range.1 hi) j (Finset.mem_range.1 hj)
  have hprod : ∑ i ∈ Finset.range g.size, ∑ j ∈ Finset.range g.size, D i * D j
      = (l.map (fun p => p.2.cum * totalProb p.2.comps)).sum ^ 2 := by
    rw [← hsum, pow_two, Finset.sum_mul]
    apply Finset.sum_congr rfl
    intro i _
    rw [Finset.mul_sum]
  refine ⟨_, hcomp, Finset.sum_nonneg (fun i _ => Finset.sum_nonneg (fun j _ => by positivity)), ?_, ?_⟩
  · rw [← hprod]
    apply Finset.sum_le_sum
    intro i hi
    apply Finset.sum_le_sum
    intro j hj
    exact hle i (Finset.mem_range.1 hi) j (Finset.mem_range.1 hj)
  · intro hlen
    rw [← hprod]
    obtain ⟨p, hp⟩ := List.length_eq_one_iff.1 hlen
    apply Finset.sum_congr rfl
    intro i hi
    apply Finset.sum_congr rfl
    intro j hj
    rw [h2 i (Finset.mem_range.1 hi) j (Finset.mem_range.1 hj)]
    simp only [hD, hp, List.map_cons, List.map_nil, List.sum_cons, List.sum_nil, add_zero]
    rw [norm_mul, norm_mul, norm_star, Complex.norm_real, Real.norm_eq_abs, mul_pow, mul_pow, sq_abs]
    ring

/-- Rounding to two decimals: a multiple of 1/100, at most 1/200 away. -/
theorem round2_near (x : ℝ) : |round2 x - x| ≤ 1 / 200 ∧ ∃ k : ℤ, round2 x = k / 100 := by
  refine ⟨?_, _, rfl⟩
  unfold round2 roundHalfEven
  have h1 := Int.floor_le (x * 100)
  have h2 := Int.lt_floor_add_one (x * 100)
  rw [abs_le]
  split_ifs <;> push_cast <;> constructor <;> linarith

/-- **C37** The two reported numbers are the trace (for each initial state the probability carried by its states) and the trace of the square
(the sum of the squared moduli of all entries), rounded to two decimals. -/
theorem C37_reported (g : Cfg) (hg : g.Ok) (coll : Coll) (hw : ∀ p ∈ coll, WellFormed g p.2.comps)
    (hc : ∀ p ∈ coll, 0 ≤ p.2.cum) (label : List Char) (dm : ℕ → ℕ → ℂ) (h : densityMatrix g coll label = some dm) :
    |reportedTrace g dm - ((coll.filter (fun p => p.2.initial = label)).map (fun p => p.2.cum * totalProb p.2.comps)).sum| ≤ 1 / 200 ∧
    (∃ k : ℤ, reportedTrace g dm = k / 100) ∧
    |reportedTraceSq g dm - ∑ i ∈ Finset.range g.size, ∑ j ∈ Finset.range g.size, ‖dm i j‖ ^ 2| ≤ 1 / 200 ∧
    ∃ k : ℤ, reportedTraceSq g dm = k / 100 := by
  obtain ⟨hherm, -, htr⟩ := C37_density g hg coll hw hc label dm h
  have hsq : ∑ i ∈ Finset.range g.size, ∑ j ∈ Finset.range g.size, dm i j * dm j i
      = ((∑ i ∈ Finset.range g.size, ∑ j ∈ Finset.range g.size, ‖dm i j‖ ^ 2 : ℝ) : ℂ) := by
    rw [Complex.ofReal_sum]
    refine Finset.sum_congr rfl (fun i hi => ?_)
    rw [Complex.ofReal_sum]
    refine Finset.sum_congr rfl (fun j hj => ?_)
    rw [hherm i (Finset.mem_range.1 hi) j (Finset.mem_range.1 hj), mul_comm, show star (dm i j) * dm i j = _ from Complex.conj_mul' _]
    push_cast; rfl
  have hnn : 0 ≤ ((coll.filter (fun p => p.2.initial = label)).map (fun p => p.2.cum * totalProb p.2.comps)).sum := by
    apply List.sum_nonneg
    intro x hx
    obtain ⟨p, hp, rfl⟩ := List.mem_map.1 hx
    refine mul_nonneg (hc p (List.mem_filter.1 hp).1) (List.sum_nonneg ?_)
    intro y hy
    obtain ⟨q, -, rfl⟩ := List.mem_map.1 hy
    positivity
  have hnn' : 0 ≤ ∑ i ∈ Finset.range g.size, ∑ j ∈ Finset.range g.size, ‖dm i j‖ ^ 2 :=
    Finset.sum_nonneg (fun i _ => Finset.sum_nonneg (fun j _ => by positivity))
  unfold reportedTrace reportedTraceSq
  rw [htr, hsq, Complex.norm_real, Complex.norm_real, Real.norm_eq_abs, Real.norm_eq_abs, abs_of_nonneg hnn, abs_of_nonneg hnn']
  exact ⟨(round2_near _).1, (round2_near _).2, (round2_near _).1, (round2_near _).2⟩

/-- **C37** The reported trace of the square is 1 for a single normalised state with probability 1. -/
theorem C37_pure_one (g : Cfg) (hg : g.Ok) (coll : Coll) (hw : ∀ p ∈ coll, WellFormed g p.2.comps)
    (hc : ∀ p ∈ coll, 0 ≤ p.2.cum) (label : List Char) (dm : ℕ → ℕ → ℂ) (h : densityMatrix g coll label = some dm)
    (h1 : ∃ p, coll.filter (fun p => p.2.initial = label) = [p] ∧ p.2.cum = 1 ∧ totalProb p.2.comps = 1) : reportedTraceSq g dm = 1 := by
  obtain ⟨y, hy, -, -, hone⟩ := C37_purity g hg coll hw hc label dm h
  obtain ⟨p, hp, hcum, htot⟩ := h1
  have := hone (by rw [hp]; rfl)
  rw [hp] at this
  simp only [List.map_cons, List.map_nil, List.sum_cons, List.sum_nil, hcum, htot] at this
  rw [reportedTraceSq, hy, this]
  norm_num [round2, roundHalfEven]

/-! Non-vacuity -/
section NonVacuity

private def g₂ : Cfg := ⟨2, 2, true⟩

private noncomputable def q₁ : QState := ⟨"a".toList, 1 / 4, [(['0', '1'], ⟨1, 1⟩)], [3, 5], []⟩
private noncomputable def q₂ : QState := ⟨"a".toList, 3 / 4, [(['1', '0'], ⟨1, 1⟩)], [3, 4], []⟩
private noncomputable def col : Coll := [("x".toList, q₁), ("y".toList, q₂)]

private theorem col_ok : (col.map Prod.fst).Nodup ∧ (∀ p ∈ col, CheckValid 0 2 p.2) ∧ (∀ p ∈ col, 0 ≤ p.2.cum) ∧
    (∀ p ∈ col, WellFormed g₂ p.2.comps ∧ totalProb p.2.comps = 1) := by
  have w1 : WellFormed g₂ q₁.comps :=
    wf_enc (g := g₂) (l := [([0, 1], ⟨1, 1⟩)]) ⟨by simp, by intro p hp; simp at hp; subst hp; exact ⟨rfl, by decide⟩⟩
  have w2 : WellFormed g₂ q₂.comps :=
    wf_enc (g := g₂) (l := [([1, 0], ⟨1, 1⟩)]) ⟨by simp, by intro p hp; simp at hp; subst hp; exact ⟨rfl, by decide⟩⟩
  refine ⟨by simp [col], ?_, ?_, ?_⟩
  · intro p hp
    simp only [col, List.mem_cons, List.not_mem_nil, or_false] at hp
    rcases hp with rfl | rfl <;> (refine ⟨?_, ?_, ?_, rfl⟩ <;> norm_num [q₁, q₂])
  · intro p hp
    simp only [col, List.mem_cons, List.not_mem_nil, or_false] at hp
    rcases hp with rfl | rfl <;> norm_num [q₁, q₂]
  · intro p hp
    simp only [col, List.mem_cons, List.not_mem_nil, or_false] at hp
    rcases hp with rfl | rfl
    · exact ⟨w1, by simp [totalProb, q₁]⟩
    · exact ⟨w2, by simp [totalProb, q₂]⟩

/-- filtering on channel 1 having value 5 keeps the first state only -/
example : ∃ out, filterClassical 0 2 [0, 1] [3, 5] col = some out ∧ out.map Prod.fst = ["x".toList] := by
  obtain ⟨out, h1, h2, -⟩ := C35_filter_classical 0 2 [0, 1] [3, 5] col col_ok.1 col_ok.2.1 (by decide)
  refine ⟨out, h1, ?_⟩
  rw [h2, col, List.filter_cons, if_pos, List.filter_cons, if_neg]
  · rfl
  · simp only [decide_eq_true_eq, not_forall]
    exact ⟨1, 1, 5, rfl, rfl, by norm_num [q₂]⟩
  · simp only [decide_eq_true_eq]
    intro i c x h1 h2
    match i with
    | 0 => simp at h1 h2; subst h1 h2; rfl
    | 1 => simp at h1 h2; subst h1 h2; rfl
    | i + 2 => simp at h1

/-- the mixture of 1/4 and 3/4 has trace 1 -/
example : ∃ dm, densityMatrix g₂ col "a".toList = some dm ∧ reportedTrace g₂ dm = 1 := by
  obtain ⟨dm, h, -⟩ := C37_entries g₂ (by decide) col (fun p hp => (col_ok.2.2.2 p hp).1) "a".toList
  refine ⟨dm, h, C37_trace_one g₂ (by decide) col col_ok.2.2.2 col_ok.2.2.1 _ ?_ dm h⟩
  norm_num [col, q₁, q₂]

/-- the first state alone is pure -/
example : ∃ dm, densityMatrix g₂ [("x".toList, { q₁ with cum := 1 })] "a".toList = some dm ∧ reportedTraceSq g₂ dm = 1 := by
  have hw : ∀ p ∈ ([("x".toList, { q₁ with cum := 1 })] : Coll), WellFormed g₂ p.2.comps := by
    intro p hp
    obtain rfl := List.mem_singleton.1 hp
    exact (col_ok.2.2.2 ("x".toList, q₁) (by simp [col])).1
  obtain ⟨dm, h, -⟩ := C37_entries g₂ (by decide) _ hw "a".toList
  exact ⟨dm, h, C37_pure_one g₂ (by decide) _ hw (by simp) _ dm h ⟨("x".toList, { q₁ with cum := 1 }), by simp [q₁], rfl, by simp [totalProb, q₁]⟩⟩

/-- distinct identifiers are possible for a mixture -/
example : ((List.range 2).map (fun k => freshId (Dict.keys col) (fun _ => k))).Nodup := by decide

/-- the four names of the two-channel, one-photon basis are an enumeration of the basis -/
example : ∃ coll, defaultColl g₂ 3 ["00".toList, "10".toList, "01".toList, "11".toList] = some coll ∧ coll.length = 4 := by
  obtain ⟨coll, h1, h2, -⟩ := C36_default g₂ (by decide) 3 ["00".toList, "10".toList, "01".toList, "11".toList] (by decide) (by
    intro s
    constructor
    · intro hs
      fin_cases hs
      · exact ⟨[0, 0], ⟨rfl, by decide⟩, (isName_iff ⟨rfl, by decide⟩).2 rfl⟩
      · exact ⟨[1, 0], ⟨rfl, by decide⟩, (isName_iff ⟨rfl, by decide⟩).2 rfl⟩
      · exact ⟨[0, 1], ⟨rfl, by decide⟩, (isName_iff ⟨rfl, by decide⟩).2 rfl⟩
      · exact ⟨[1, 1], ⟨rfl, by decide⟩, (isName_iff ⟨rfl, by decide⟩).2 rfl⟩
    · rintro ⟨v, hv, hs⟩
      rw [isName_iff hv] at hs
      subst hs
      obtain ⟨hl, hb⟩ := hv
      match v, hl with
      | [a, b], _ =>
        have ha := hb a (by simp)
        have hb' := hb b (by simp)
        simp only [g₂] at ha hb'
        interval_cases a <;> interval_cases b <;> decide)
  exact ⟨coll, h1, h2⟩

end NonVacuity

end Verif.Props
