/- Helper lemmas: numbering groups; the quick delay. -/
import Verif.Lemmas.Spectral3
import Verif.Spec.Quick

namespace Verif
open Spec Props

theorem assemble (E : List (List Char × List (List Column))) (b : ℕ) (hn : (E.map Prod.fst).Nodup) (hE : ∀ e ∈ E, e.2 ≠ [] ∧ ∀ cols ∈ e.2, ProperGroup e.1 cols) :
    ∃ G' : Groups, Proper G' ∧ List.map (fun (e : List Char × Dict ℕ (List Column)) => (e.1, e.2.map Prod.snd)) G' = E ∧
      writeGroups G' = ((E.flatMap Prod.snd).zipIdx b).flatMap (fun x => writeGroup x.2 x.1) := by
  induction E generalizing b with
  | nil => exact ⟨[], ⟨List.nodup_nil, by simp⟩, rfl, rfl⟩
  | cons e E ih =>
    rw [List.map_cons, List.nodup_cons] at hn
    obtain ⟨G', h1, h2, h3⟩ := ih (b + e.2.length) hn.2 (fun x hx => hE x (List.mem_cons_of_mem _ hx))
    have hsnd : ((e.2.zipIdx b).map Prod.swap).map Prod.snd = e.2 := by
      rw [List.map_map]
      exact List.zipIdx_map_fst b e.2
    have hfst : ((e.2.zipIdx b).map Prod.swap).map Prod.fst = List.range' b e.2.length := by
      rw [List.map_map]
      exact List.zipIdx_map_snd b e.2
    obtain ⟨q1, q2⟩ := hE e List.mem_cons_self
    refine ⟨(e.1, (e.2.zipIdx b).map Prod.swap) :: G', ⟨?_, ?_⟩, ?_, ?_⟩
    · have hk : List.map Prod.fst G' = E.map Prod.fst := by
        rw [← h2, List.map_map]; rfl
      rw [List.map_cons, List.nodup_cons, hk]
      exact hn
    · intro y hy
      rcases List.mem_cons.1 hy with rfl | hy
      · refine ⟨?_, ?_, ?_⟩
        · simpa using q1
        · show (((e.2.zipIdx b).map Prod.swap).map Prod.fst).Nodup
          rw [hfst]
          exact List.nodup_range'
        · intro x hx
          refine q2 x.2 ?_
          rw [← hsnd]
          exact List.mem_map_of_mem hx
      · exact h1.groups y hy
    · rw [List.map_cons, h2]
      simp only [hsnd]
    · unfold writeGroups at h3 ⊢
      rw [List.flatMap_cons, h3, List.flatMap_cons, List.zipIdx_append, List.flatMap_append]
      congr 1
      simp [List.flatMap_map]

theorem zipIdx_pairs {α β : Type*} (r : List (α × α)) (f : ℕ → α → List β) (b : ℕ) :
    (r.zipIdx b).flatMap (fun x => f (2 * x.2 + 1) x.1.1 ++ f (2 * x.2 + 2) x.1.2) = ((r.flatMap (fun y => [y.1, y.2])).zipIdx (2 * b + 1)).flatMap (fun x => f x.2 x.1) := by
  induction r generalizing b with
  | nil => rfl
  | cons y r ih =>
    rw [List.zipIdx_cons, List.flatMap_cons, ih]
    simp only [List.flatMap_cons, List.cons_append, List.nil_append, List.zipIdx_cons, List.append_assoc]
    rfl

/-- Split a list of results along the entries of the groups. -/
theorem flatMap_mapM {α β γ : Type*} {f : β → Option γ} (h : α → List β) (l : List α) {r : List γ} (hr : (l.flatMap h).mapM f = some r) :
    ∃ rs : List (List γ), rs.flatten = r ∧ List.Forall₂ (fun a ys => List.Forall₂ (fun x y => f x = some y) (h a) ys) l rs := by
  induction l generalizing r with
  | nil =>
    obtain rfl : [] = r := by simpa using hr
    exact ⟨[], rfl, List.Forall₂.nil⟩
  | cons a l ih =>
    rw [mapM_some_iff, List.flatMap_cons] at hr
    have hl := hr.length_eq
    rw [List.length_append] at hl
    have h1 := List.forall₂_take (h a).length hr
    have h2 := List.forall₂_drop (h a).length hr
    rw [List.take_left] at h1
    rw [List.drop_left, ← mapM_some_iff] at h2
    obtain ⟨rs, e, hf⟩ := ih h2
    exact ⟨r.take (h a).length :: rs, by rw [List.flatten_cons, e, List.take_append_drop], List.Forall₂.cons h1 hf⟩

theorem keepChannels_getD (keep : ℕ → Bool) (v : Vals) (ch : ℕ) : (keepChannels keep v).getD ch 0 = if keep ch then v.getD ch 0 else 0 := by
  unfold keepChannels
  by_cases h : ch < v.length
  · rw [List.getD_eq_getElem _ _ (by simpa using h), List.getD_eq_getElem _ _ h]
    simp
  · rw [List.getD_eq_default _ _ (by simpa using h), List.getD_eq_default _ _ (by simpa using h)]
    simp

theorem keepChannels_valid {g : Cfg} {keep : ℕ → Bool} {v : Vals} (hv : Valid g v) : Valid g (keepChannels keep v) := by
  refine ⟨?_, ?_⟩
  · unfold keepChannels; simp [hv.1]
  · intro x hx
    unfold keepChannels at hx
    obtain ⟨y, hy, rfl⟩ := List.mem_map.1 hx
    have hm : y.1 ∈ v := by
      have := List.mem_map_of_mem (f := Prod.fst) hy
      rwa [List.zipIdx_map_fst] at this
    have := hv.2 _ hm
    split
    · exact this
    · omega

theorem setCum_some {x y : ℝ} (h : setCum x = some y) : y = x ∧ 0 ≤ x ∧ x ≤ 1 := by
  unfold setCum at h
  by_cases hx : 0 ≤ x ∧ x ≤ 1
  · rw [if_pos hx] at h
    exact ⟨(Option.some.inj h).symm, hx⟩
  · rw [if_neg hx] at h; cases h

theorem partState_some {g : Cfg} {keep : ℕ → Bool} {t p : ℝ} {s s' : PState} (hw : WellFormed g s.q.comps) (h1 : s.q.comps.length = 1) (h : partState g keep t p s = some s') :
    StatePart g (fun ch => keep ch = true) t p s s' := by
  obtain ⟨⟨n, k⟩, hc⟩ := List.length_eq_one_iff.1 h1
  obtain ⟨hw2, hw1⟩ := hw
  obtain ⟨v, hv, hn⟩ : ∃ v, Valid g v ∧ IsName g v n := hw1 (n, k) (by rw [hc]; exact List.mem_singleton_self _)
  have hst := (isName_iff hv).1 hn
  have hkv := keepChannels_valid (keep := keep) hv
  unfold partState at h
  rw [hc] at h
  obtain ⟨l, h2, h⟩ := Option.bind_eq_some_iff.1 h
  obtain ⟨comps, h3, h⟩ := Option.bind_eq_some_iff.1 h
  obtain ⟨cum, h4, h⟩ := Option.map_eq_some_iff.1 h
  have hl : l = [(g.stdName (keepChannels keep v), k.amp)] := by
    rw [List.mapM_cons] at h2
    simp only at h2
    rw [hst, g.parse_stdName hv.2, Option.bind_some, g.render_of_valid hkv] at h2
    simpa using h2.symm
  subst hl
  have hset := setFromList_nodup (g := g) [(g.stdName (keepChannels keep v), k.amp)] (by
    intro p hp
    obtain rfl := List.mem_singleton.1 hp
    exact ⟨_, hkv, (isName_iff hkv).2 rfl⟩) (by simp)
  rw [h3] at hset
  obtain rfl := Option.some.inj hset
  obtain ⟨rfl, _⟩ := setCum_some h4
  subst h
  refine ⟨rfl, rfl, rfl, rfl, rfl, v, keepChannels keep v, n, _, k, _, hv, hkv, hn, (isName_iff hkv).2 rfl, hc, rfl, rfl, ?_⟩
  intro ch
  rw [keepChannels_getD]
  by_cases hk : keep ch = true <;> simp [hk]

theorem overlapColumn_some {p : ℝ} {c c' : Column} (h : overlapColumn p c = some c') : OverlapPart p c c' := by
  unfold overlapColumn at h
  obtain ⟨sts, h1, rfl⟩ := Option.map_eq_some_iff.1 h
  refine ⟨rfl, rfl, rfl, rfl, ?_⟩
  rw [mapM_some_iff] at h1
  refine h1.imp ?_
  intro s s' e
  obtain ⟨cum, e1, rfl⟩ := Option.map_eq_some_iff.1 e
  obtain ⟨rfl, _⟩ := setCum_some e1
  exact ⟨rfl, rfl, rfl, rfl, rfl, rfl⟩

theorem _root_.Verif.Spec.StatePart.congr {g : Cfg} {k k' : ℕ → Prop} {t p : ℝ} {s s' : PState} (h : StatePart g k t p s s') (hk : ∀ ch, k ch ↔ k' ch) : StatePart g k' t p s s' := by
  have : k = k' := funext fun ch => propext (hk ch)
  rw [← this]; exact h

theorem separateColumn_some {g : Cfg} {chs : List ℕ} {p : ℝ} {c c' : Column} (hw : ∀ s ∈ c.states, WellFormed g s.q.comps) (h1 : ∀ s ∈ c.states, s.q.comps.length = 1)
    (h : separateColumn g chs p c = some c') : SeparatedPart g chs p c c' := by
  unfold separateColumn at h
  obtain ⟨l, h2, rfl⟩ := Option.map_eq_some_iff.1 h
  refine ⟨rfl, rfl, rfl, rfl, ?_⟩
  rw [mapM_some_iff] at h2
  show ∃ pairs : List (PState × PState), l.flatten = pairs.flatMap (fun x => [x.1, x.2]) ∧ _
  generalize c.states = sts at hw h1 h2 ⊢
  clear h
  induction h2 with
  | nil => exact ⟨[], rfl, List.Forall₂.nil⟩
  | @cons s y sts l hs _ ih =>
    obtain ⟨pairs, e1, e2⟩ := ih (fun x hx => hw x (List.mem_cons_of_mem _ hx)) (fun x hx => h1 x (List.mem_cons_of_mem _ hx))
    obtain ⟨b, hb, hs⟩ := Option.bind_eq_some_iff.1 hs
    obtain ⟨a, ha, rfl⟩ := Option.map_eq_some_iff.1 hs
    refine ⟨(b, a) :: pairs, by rw [List.flatten_cons, e1, List.flatMap_cons], List.Forall₂.cons ⟨?_, ?_⟩ e2⟩
    · exact (partState_some (hw s List.mem_cons_self) (h1 s List.mem_cons_self) hb).congr (by simp)
    · exact (partState_some (hw s List.mem_cons_self) (h1 s List.mem_cons_self) ha).congr (by simp)

end Verif
