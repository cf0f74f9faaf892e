/- Helper lemmas about storing interference groups in a collection. -/
import Verif.Spec.Spectral
import Verif.Lemmas.Dict

namespace Verif
open Spec

theorem Dict.set_set {α β : Type*} [DecidableEq α] (d : Dict α β) (k : α) (v v' : β) : (d.set k v).set k v' = d.set k v' := by
  induction d with
  | nil => simp [Dict.set]
  | cons p d ih =>
    obtain ⟨k', x⟩ := p
    by_cases h : k' = k
    · simp [Dict.set, h]
    · simp [Dict.set, h, ih]

/-- The column parameters of a column of group `gid`. -/
def colInfo (gid : ℕ) (c : Column) : ColInfo := { gid := gid, cid := c.id, amp := c.amp, boson := c.boson, gprob := c.gprob }

/-- A state with its column parameters. -/
def tagged (x : PState × ColInfo) : AState := { q := x.1.q, aux := some ⟨x.1.info, some x.2⟩ }

def tags (gid : ℕ) (cols : List Column) : List (PState × ColInfo) := cols.flatMap (fun c => c.states.map (fun s => (s, colInfo gid c)))

theorem writeGroup_tags (gid : ℕ) (cols : List Column) : writeGroup gid cols = (tags gid cols).map tagged := by
  unfold writeGroup tags writeColumn
  rw [List.map_flatMap]
  congr 1
  funext c
  rw [List.map_map]
  rfl

theorem readState_tagged (G : Groups) (x : PState × ColInfo) : readState G (tagged x) =
    some (G.set x.1.q.initial (((G.get? x.1.q.initial).getD []).set x.2.gid (addToColumns x.1 x.2 ((((G.get? x.1.q.initial).getD []).get? x.2.gid).getD [])))) := rfl

theorem foldlM_tagged (ini : List Char) (gid : ℕ) (l : List (PState × ColInfo)) (hl : ∀ x ∈ l, x.1.q.initial = ini ∧ x.2.gid = gid) (hne : l ≠ []) (G : Groups) :
    (l.map tagged).foldlM readState G = some (G.set ini (((G.get? ini).getD []).set gid
      (l.foldl (fun acc x => addToColumns x.1 x.2 acc) ((((G.get? ini).getD []).get? gid).getD [])))) := by
  induction l generalizing G with
  | nil => exact absurd rfl hne
  | cons x l ih =>
    obtain ⟨h1, h2⟩ := hl x List.mem_cons_self
    rw [List.map_cons, List.foldlM_cons, readState_tagged, h1, h2]
    simp only [Option.bind_eq_bind, Option.bind_some, List.foldl_cons]
    by_cases hn : l = []
    · rw [hn]; rfl
    · rw [ih (fun y hy => hl y (List.mem_cons_of_mem _ hy)) hn]
      simp only [Dict.get?_set, if_true, Option.getD_some, Dict.set_set]

theorem addToColumns_new (s : PState) (ci : ColInfo) (cols : List Column) (h : ∀ c ∈ cols, c.id ≠ ci.cid) :
    addToColumns s ci cols = cols ++ [{ states := [s], amp := ci.amp, boson := ci.boson, gprob := ci.gprob, id := ci.cid }] := by
  induction cols with
  | nil => rfl
  | cons c cols ih =>
    rw [addToColumns, if_neg (h c List.mem_cons_self), ih (fun d hd => h d (List.mem_cons_of_mem _ hd))]
    rfl

theorem addToColumns_old (s : PState) (ci : ColInfo) (cols : List Column) (h : ∀ c ∈ cols, c.id ≠ ci.cid) (c : Column) (hc : c.id = ci.cid) :
    addToColumns s ci (cols ++ [c]) = cols ++ [{ c with states := c.states ++ [s] }] := by
  induction cols with
  | nil => simp [addToColumns, hc]
  | cons d cols ih =>
    rw [List.cons_append, addToColumns, if_neg (h d List.mem_cons_self), ih (fun d hd => h d (List.mem_cons_of_mem _ hd))]
    rfl

theorem fold_states (cols : List Column) (ci : ColInfo) (h : ∀ c ∈ cols, c.id ≠ ci.cid) (l pre : List PState) :
    (l.map (fun s => (s, ci))).foldl (fun acc x => addToColumns x.1 x.2 acc) (cols ++ [{ states := pre, amp := ci.amp, boson := ci.boson, gprob := ci.gprob, id := ci.cid }]) =
      cols ++ [{ states := pre ++ l, amp := ci.amp, boson := ci.boson, gprob := ci.gprob, id := ci.cid }] := by
  induction l generalizing pre with
  | nil => simp
  | cons s l ih =>
    rw [List.map_cons, List.foldl_cons]
    rw [addToColumns_old s ci cols h _ rfl, ih]
    simp

theorem fold_tags (gid : ℕ) (cols acc : List Column) (hid : ((acc ++ cols).map (fun c => c.id)).Nodup) (hne : ∀ c ∈ cols, c.states ≠ []) :
    (tags gid cols).foldl (fun acc x => addToColumns x.1 x.2 acc) acc = acc ++ cols := by
  induction cols generalizing acc with
  | nil => simp [tags]
  | cons c cols ih =>
    have htags : tags gid (c :: cols) = c.states.map (fun s => (s, colInfo gid c)) ++ tags gid cols := rfl
    have hfresh : ∀ d ∈ acc, d.id ≠ (colInfo gid c).cid := by
      intro d hd e
      rw [List.map_append, List.nodup_append] at hid
      exact hid.2.2 d.id (List.mem_map_of_mem hd) c.id (by simp) e
    rw [htags, List.foldl_append]
    rcases hst : c.states with _ | ⟨s, sts⟩
    · exact absurd hst (hne c List.mem_cons_self)
    · rw [List.map_cons, List.foldl_cons]
      dsimp only
      rw [addToColumns_new s _ acc hfresh, fold_states acc _ hfresh sts [s]]
      have hc : ({ states := [s] ++ sts, amp := (colInfo gid c).amp, boson := (colInfo gid c).boson, gprob := (colInfo gid c).gprob, id := (colInfo gid c).cid } : Column) = c := by
        obtain ⟨st, a, b, p, i⟩ := c
        simp only at hst
        rw [hst]
        rfl
      rw [hc, ih (acc ++ [c]) (by simpa using hid) (fun d hd => hne d (List.mem_cons_of_mem _ hd))]
      simp

theorem tags_ne {gid : ℕ} {ini : List Char} {cols : List Column} (h : ProperGroup ini cols) : tags gid cols ≠ [] := by
  rcases cols with _ | ⟨c, cols⟩
  · exact absurd rfl h.nonempty
  · have := h.columns c List.mem_cons_self
    unfold tags
    simp [this]

theorem read_group {ini : List Char} {gid : ℕ} {cols : List Column} (h : ProperGroup ini cols) (G : Groups) (hg : ((G.get? ini).getD []).get? gid = none) :
    (writeGroup gid cols).foldlM readState G = some (G.set ini (((G.get? ini).getD []).set gid cols)) := by
  rw [writeGroup_tags, foldlM_tagged ini gid _ _ (tags_ne h), hg, Option.getD_none, fold_tags gid cols [] (by simpa using h.ids) h.columns]
  · rfl
  · intro x hx
    obtain ⟨c, hc, hx⟩ := List.mem_flatMap.1 hx
    obtain ⟨s, hs, rfl⟩ := List.mem_map.1 hx
    exact ⟨h.initial c hc s hs, rfl⟩

theorem read_initial {ini : List Char} (d : Dict ℕ (List Column)) (hd : ∀ x ∈ d, ProperGroup ini x.2) (hne : d ≠ []) (G : Groups)
    (hn : ((((G.get? ini).getD []) ++ d).map Prod.fst).Nodup) :
    (d.flatMap (fun x => writeGroup x.1 x.2)).foldlM readState G = some (G.set ini (((G.get? ini).getD []) ++ d)) := by
  induction d generalizing G with
  | nil => exact absurd rfl hne
  | cons x d ih =>
    have hfresh : x.1 ∉ Dict.keys ((G.get? ini).getD []) := by
      rw [List.map_append, List.nodup_append] at hn
      intro hm
      exact hn.2.2 x.1 hm x.1 (by simp) rfl
    rw [List.flatMap_cons, List.foldlM_append, read_group (hd x List.mem_cons_self) G (Dict.get?_eq_none.2 hfresh)]
    simp only [Option.bind_eq_bind, Option.bind_some]
    rw [Dict.set_of_not_mem _ hfresh]
    by_cases h0 : d = []
    · rw [h0]; rfl
    · rw [ih (fun y hy => hd y (List.mem_cons_of_mem _ hy)) h0]
      · simp only [Dict.get?_set, if_true, Option.getD_some, Dict.set_set]
        simp
      · simp only [Dict.get?_set, if_true, Option.getD_some]
        simpa using hn

theorem read_all (G H : Groups) (hp : Proper H) (hn : ((G ++ H).map Prod.fst).Nodup) : (writeGroups H).foldlM readState G = some (G ++ H) := by
  induction H generalizing G with
  | nil => simp [writeGroups]
  | cons e H ih =>
    obtain ⟨h1, h2, h3⟩ := hp.groups e List.mem_cons_self
    have hfresh : e.1 ∉ Dict.keys G := by
      rw [List.map_append, List.nodup_append] at hn
      intro hm
      exact hn.2.2 e.1 hm e.1 (by simp) rfl
    have hget : G.get? e.1 = none := Dict.get?_eq_none.2 hfresh
    have : writeGroups (e :: H) = e.2.flatMap (fun x => writeGroup x.1 x.2) ++ writeGroups H := rfl
    rw [this, List.foldlM_append, read_initial e.2 h3 h1 G (by rw [hget]; simpa using h2), hget]
    simp only [Option.bind_eq_bind, Option.bind_some, Option.getD_none, List.nil_append]
    rw [Dict.set_of_not_mem _ hfresh, ih (G ++ [(e.1, e.2)])]
    · simp
    · exact ⟨(List.nodup_cons.1 hp.initials).2, fun e' he' => hp.groups e' (List.mem_cons_of_mem _ he')⟩
    · simpa using hn

/-- Storing groups and reading them back. -/
theorem read_write {G : Groups} (h : Proper G) : readGroups (writeGroups G) = some G := by
  unfold readGroups
  rw [read_all [] G h (by simpa using h.initials)]
  rfl

/-! Reading gives proper groups. -/

theorem addToColumns_proper {ini : List Char} {s : PState} {ci : ColInfo} {cols : List Column} (hs : s.q.initial = ini) (h : cols = [] ∨ ProperGroup ini cols) :
    ProperGroup ini (addToColumns s ci cols) := by
  have key : ∀ cols : List Column, (cols.map (fun c => c.id)).Nodup → (∀ c ∈ cols, c.states ≠ []) → (∀ c ∈ cols, ∀ s ∈ c.states, s.q.initial = ini) →
      ((addToColumns s ci cols).map (fun c => c.id)).Nodup ∧ (∀ c ∈ addToColumns s ci cols, c.states ≠ []) ∧ (∀ c ∈ addToColumns s ci cols, ∀ s ∈ c.states, s.q.initial = ini) ∧
      (∀ c ∈ addToColumns s ci cols, c.id = ci.cid ∨ ∃ d ∈ cols, d.id = c.id) ∧ addToColumns s ci cols ≠ [] := by
    intro cols
    induction cols with
    | nil =>
      intro _ _ _
      simp [addToColumns, hs]
    | cons c cols ih =>
      intro h1 h2 h3
      rw [List.map_cons, List.nodup_cons] at h1
      unfold addToColumns
      by_cases e : c.id = ci.cid
      · rw [if_pos e]
        refine ⟨?_, ?_, ?_, ?_, by simp⟩
        · rw [List.map_cons, List.nodup_cons]; exact h1
        · intro d hd
          rcases List.mem_cons.1 hd with rfl | hd
          · simp
          · exact h2 d (List.mem_cons_of_mem _ hd)
        · intro d hd t ht
          rcases List.mem_cons.1 hd with rfl | hd
          · simp only [List.mem_append, List.mem_singleton] at ht
            rcases ht with ht | rfl
            · exact h3 c List.mem_cons_self t ht
            · exact hs
          · exact h3 d (List.mem_cons_of_mem _ hd) t ht
        · intro d hd
          rcases List.mem_cons.1 hd with rfl | hd
          · exact Or.inl e
          · exact Or.inr ⟨d, List.mem_cons_of_mem _ hd, rfl⟩
      · rw [if_neg e]
        obtain ⟨k1, k2, k3, k4, k5⟩ := ih h1.2 (fun d hd => h2 d (List.mem_cons_of_mem _ hd)) (fun d hd => h3 d (List.mem_cons_of_mem _ hd))
        refine ⟨?_, ?_, ?_, ?_, by simp⟩
        · rw [List.map_cons, List.nodup_cons]
          refine ⟨?_, k1⟩
          intro hm
          obtain ⟨d, hd, ed⟩ := List.mem_map.1 hm
          rcases k4 d hd with h | ⟨d', hd', h⟩
          · exact e (by rw [← ed, h])
          · exact h1.1 (List.mem_map.2 ⟨d', hd', by rw [h, ed]⟩)
        · intro d hd
          rcases List.mem_cons.1 hd with rfl | hd
          · exact h2 _ List.mem_cons_self
          · exact k2 d hd
        · intro d hd
          rcases List.mem_cons.1 hd with rfl | hd
          · exact h3 _ List.mem_cons_self
          · exact k3 d hd
        · intro d hd
          rcases List.mem_cons.1 hd with rfl | hd
          · exact Or.inr ⟨_, List.mem_cons_self, rfl⟩
          · rcases k4 d hd with h | ⟨d', hd', h⟩
            · exact Or.inl h
            · exact Or.inr ⟨d', List.mem_cons_of_mem _ hd', h⟩
  rcases h with rfl | h
  · obtain ⟨k1, k2, k3, _, k5⟩ := key [] (by simp) (by simp) (by simp)
    exact ⟨k5, k1, k2, k3⟩
  · obtain ⟨k1, k2, k3, _, k5⟩ := key cols h.ids h.columns h.initial
    exact ⟨k5, k1, k2, k3⟩

theorem groupOfState_proper (s : PState) : ProperGroup s.q.initial (groupOfState s) := by
  refine ⟨by simp [groupOfState], by simp [groupOfState], ?_, ?_⟩
  · intro c hc
    obtain rfl := List.mem_singleton.1 hc
    simp
  · intro c hc t ht
    obtain rfl := List.mem_singleton.1 hc
    rw [List.mem_singleton.1 ht]

theorem set_proper {G : Groups} (hG : Proper G) {ini : List Char} {gid : ℕ} {cols : List Column} (hc : ProperGroup ini cols) :
    Proper (G.set ini (((G.get? ini).getD []).set gid cols)) := by
  have hold : ∀ x ∈ (G.get? ini).getD [], ProperGroup ini x.2 := by
    intro x hx
    rcases hg : G.get? ini with _ | d
    · rw [hg] at hx; cases hx
    · rw [hg] at hx
      exact ((hG.groups (ini, d) (Dict.get?_mem hg)).2.2) x hx
  have hnd : ((((G.get? ini).getD [] : Dict ℕ (List Column))).map Prod.fst).Nodup := by
    rcases hg : G.get? ini with _ | d
    · simp
    · exact (hG.groups (ini, d) (Dict.get?_mem hg)).2.1
  refine ⟨Dict.nodup_keys_set hG.initials _ _, ?_⟩
  intro e he
  rcases Dict.mem_set he with h | rfl
  · exact hG.groups e h
  · refine ⟨?_, Dict.nodup_keys_set hnd _ _, ?_⟩
    · intro h0
      have : (gid, cols) ∈ (Dict.set ((G.get? ini).getD []) gid cols) := Dict.get?_mem (by rw [Dict.get?_set, if_pos rfl])
      dsimp only at h0
      rw [h0] at this
      cases this
    · intro x hx
      rcases Dict.mem_set hx with h | rfl
      · exact hold x h
      · exact hc

theorem readState_proper {G G' : Groups} {s : AState} (hG : Proper G) (h : readState G s = some G') : Proper G' := by
  obtain ⟨q, aux⟩ := s
  unfold readState at h
  rcases aux with _ | ⟨info, _ | ci⟩
  · simp only [Option.some.injEq] at h
    rw [← h]
    exact set_proper hG (groupOfState_proper ⟨q, none⟩)
  · simp at h
  · simp only [Option.some.injEq] at h
    rw [← h]
    refine set_proper hG (addToColumns_proper rfl ?_)
    rcases hg : G.get? q.initial with _ | d
    · left; rfl
    · rcases hd : d.get? ci.gid with _ | cols
      · left; simp [hd]
      · right
        simp only [Option.getD_some, hd]
        exact (hG.groups (q.initial, d) (Dict.get?_mem hg)).2.2 (ci.gid, cols) (Dict.get?_mem hd)

/-- Reading a collection gives proper groups. -/
theorem readGroups_proper {l : List AState} {G : Groups} (h : readGroups l = some G) : Proper G := by
  have key : ∀ (l : List AState) (G0 G : Groups), Proper G0 → l.foldlM readState G0 = some G → Proper G := by
    intro l
    induction l with
    | nil =>
      intro G0 G h0 h
      simp only [List.foldlM_nil, Option.pure_def, Option.some.injEq] at h
      rw [← h]; exact h0
    | cons s l ih =>
      intro G0 G h0 h
      rw [List.foldlM_cons] at h
      obtain ⟨G1, h1, h2⟩ := Option.bind_eq_some_iff.1 h
      exact ih G1 G (readState_proper h0 h1) h2
  exact key l [] G ⟨by simp, by simp⟩ h

end Verif
