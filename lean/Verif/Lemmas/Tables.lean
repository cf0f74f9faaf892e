/- Helper lemmas about the cached name tables. -/
import Verif.Spec.Tables
import Mathlib.Data.List.GetD
import Verif.Lemmas.Dict
import Verif.Lemmas.Names
import Verif.Props.Names

namespace Verif.Tables
open Verif Spec

/-- references are valid and all entries satisfy a predicate -/
structure AllInv (QN : Name → Vals → Prop) (QV : Vals → Name → Prop) (t : Tables) : Prop where
  bN1 : t.cnN < t.nd.length
  bN2 : t.ovN < t.nd.length
  bV1 : t.cnV < t.vd.length
  bV2 : t.ovV < t.vd.length
  hN : ∀ d ∈ t.nd, ∀ p ∈ d, QN p.1 p.2
  hV : ∀ d ∈ t.vd, ∀ p ∈ d, QV p.1 p.2

variable {g : Cfg} {QN : Name → Vals → Prop} {QV : Vals → Name → Prop} {t : Tables}

theorem N_mem {r : ℕ} (h : r < t.nd.length) : t.N r ∈ t.nd := by
  unfold N; rw [List.getD_eq_getElem _ _ h]; exact List.getElem_mem h

theorem V_mem {r : ℕ} (h : r < t.vd.length) : t.V r ∈ t.vd := by
  unfold V; rw [List.getD_eq_getElem _ _ h]; exact List.getElem_mem h

theorem AllInv.updN (h : AllInv QN QV t) {r : ℕ} (hr : r < t.nd.length) {s v} (hq : QN s v) :
    AllInv QN QV (t.updN r s v) := by
  refine ⟨by simpa [Tables.updN] using h.bN1, by simpa [Tables.updN] using h.bN2, h.bV1, h.bV2, ?_, h.hV⟩
  intro d hd p hp
  rcases List.mem_or_eq_of_mem_set hd with hd | rfl
  · exact h.hN d hd p hp
  · rcases Dict.mem_set hp with hp | rfl
    · exact h.hN _ (N_mem hr) p hp
    · exact hq

theorem AllInv.updV (h : AllInv QN QV t) {r : ℕ} (hr : r < t.vd.length) {s v} (hq : QV v s) :
    AllInv QN QV (t.updV r v s) := by
  refine ⟨h.bN1, h.bN2, by simpa [Tables.updV] using h.bV1, by simpa [Tables.updV] using h.bV2, h.hN, ?_⟩
  intro d hd p hp
  rcases List.mem_or_eq_of_mem_set hd with hd | rfl
  · exact h.hV d hd p hp
  · rcases Dict.mem_set hp with hp | rfl
    · exact h.hV _ (V_mem hr) p hp
    · exact hq

theorem AllInv.getName (h : AllInv QN QV t) {s : Name} (hq : ∀ v, g.parse s = some v → QN s v ∧ QV v s) :
    AllInv QN QV (Tables.getName g t s).1 := by
  unfold Tables.getName
  split
  · exact h
  · split
    · exact h
    · rename_i v hv
      exact (h.updN h.bN1 (hq v hv).1).updV h.bV1 (hq v hv).2

theorem AllInv.getVals (h : AllInv QN QV t) {v : Vals} (hq : ∀ s, g.render v = some s → QN s v ∧ QV v s) :
    AllInv QN QV (Tables.getVals g t v).1 := by
  unfold Tables.getVals
  split
  · exact h
  · split
    · exact h
    · rename_i s hs
      exact (h.updV h.bV2 (hq s hs).2).updN h.bN2 (hq s hs).1

theorem size_pos_or (g : Cfg) (h : 0 < g.L ^ g.C) : 1 ≤ g.L ∨ g.C = 0 := by
  by_contra hc
  push Not at hc
  rw [show g.L = 0 by omega, zero_pow hc.2] at h
  omega

theorem mem_listOfFockStates {v : Vals} : v ∈ listOfFockStates g ↔ Valid g v := by
  unfold listOfFockStates
  rw [List.mem_map]
  constructor
  · rintro ⟨n, hn, rfl⟩
    rw [List.mem_range] at hn
    rcases size_pos_or g (by omega) with h | h
    · exact g.valid_valuesFromIndex h n
    · simp [Cfg.valuesFromIndex, h, Valid]
  · intro h
    exact ⟨g.indexOf v, List.mem_range.2 (g.indexOf_lt h), g.valuesFromIndex_indexOf h⟩

theorem nodup_listOfFockStates (g : Cfg) : (listOfFockStates g).Nodup := by
  unfold listOfFockStates
  refine (List.nodup_map_iff_inj_on List.nodup_range).2 ?_
  intro a ha b hb h
  rw [List.mem_range] at ha hb
  rw [← g.indexOf_valuesFromIndex ha, h, g.indexOf_valuesFromIndex hb]

theorem length_listOfFockStates (g : Cfg) : (listOfFockStates g).length = g.size := by
  simp [listOfFockStates, Cfg.size]

/-- the rebuilt dictionary is the list of all standard pairs -/
theorem rebuilt_eq (g : Cfg) : rebuilt g = (listOfFockStates g).map (fun v => (g.stdName v, v)) := by
  unfold rebuilt
  have e : (listOfFockStates g).map (fun v => ((g.render v).getD [], v))
      = (listOfFockStates g).map (fun v => (g.stdName v, v)) := by
    apply List.map_congr_left
    intro v hv
    rw [g.render_of_valid (mem_listOfFockStates.1 hv)]; rfl
  rw [e, Dict.ofList_of_nodup]
  rw [List.map_map]
  refine (List.nodup_map_iff_inj_on (nodup_listOfFockStates g)).2 ?_
  intro a ha b hb h
  exact g.stdName_inj (mem_listOfFockStates.1 ha).2 (mem_listOfFockStates.1 hb).2 h

/-- the standard photon numbers -> name dictionary -/
def stdV (g : Cfg) : Dict Vals Name := (listOfFockStates g).map (fun v => (v, g.stdName v))

theorem stdV_eq (g : Cfg) : Dict.ofList ((rebuilt g).map (fun kv => (kv.2, kv.1))) = stdV g := by
  rw [rebuilt_eq, List.map_map]
  rw [Dict.ofList_of_nodup]
  · rfl
  · rw [List.map_map]
    have : (Prod.fst ∘ (fun kv : Name × Vals => (kv.2, kv.1)) ∘ fun v => (g.stdName v, v)) = id := rfl
    rw [this, List.map_id]
    exact nodup_listOfFockStates g

theorem AllInv.iterNames (h : AllInv QN QV t) (hq : ∀ v, Valid g v → QN (g.stdName v) v) :
    AllInv QN QV (Tables.iterNames g t).1 := by
  unfold Tables.iterNames
  split
  · exact h
  · refine ⟨by simp, by simpa using Nat.lt_succ_of_lt h.bN2, h.bV1, h.bV2, ?_, h.hV⟩
    intro d hd p hp
    rcases List.mem_append.1 hd with hd | hd
    · exact h.hN d hd p hp
    · rw [List.mem_singleton] at hd
      subst hd
      rw [rebuilt_eq] at hp
      obtain ⟨v, hv, rfl⟩ := List.mem_map.1 hp
      exact hq v (mem_listOfFockStates.1 hv)

theorem AllInv.iterVals (h : AllInv QN QV t) (hq : ∀ v, Valid g v → QN (g.stdName v) v)
    (hs : ∀ s v, QN s v → QV v s) :
    AllInv QN QV (Tables.iterVals g t).1 := by
  unfold Tables.iterVals
  split
  · exact h
  · have h' : AllInv QN QV (Tables.itemsNames g t).1 := h.iterNames hq
    refine ⟨h'.bN1, h'.bN2, by simpa using Nat.lt_succ_of_lt h'.bV1, by simp, h'.hN, ?_⟩
    intro d hd p hp
    rcases List.mem_append.1 hd with hd | hd
    · exact h'.hV d hd p hp
    · rw [List.mem_singleton] at hd
      subst hd
      have : ∀ (l : List (Vals × Name)) (d : Dict Vals Name), p ∈ l.foldl (fun d kv => Dict.set d kv.1 kv.2) d →
          p ∈ d ∨ p ∈ l := by
        intro l
        induction l with
        | nil => intro d hp; exact .inl hp
        | cons a l ih =>
          intro d hp
          rcases ih _ hp with hp | hp
          · rcases Dict.mem_set hp with hp | hp
            · exact .inl hp
            · right; rw [hp]; simp
          · right; simp [hp]
      rcases this _ _ hp with hp | hp
      · cases hp
      · obtain ⟨q, hq1, rfl⟩ := List.mem_map.1 hp
        exact hs _ _ (h'.hN _ (N_mem h'.bN1) q hq1)

theorem AllInv.new : AllInv QN QV Tables.new := by
  refine ⟨?_, ?_, ?_, ?_, ?_, ?_⟩ <;> simp [Tables.new]

/-- condition on an operation under which the entry predicates are kept -/
def OpOk (g : Cfg) (QN : Name → Vals → Prop) (QV : Vals → Name → Prop) : Op → Prop
  | .getName s | .containsName s | .indexOfName s => ∀ v, g.parse s = some v → QN s v ∧ QV v s
  | .getVals v => ∀ s, g.render v = some s → QN s v ∧ QV v s
  | _ => True

theorem AllInv.step (h : AllInv QN QV t) (hq : ∀ v, Valid g v → QN (g.stdName v) v)
    (hs : ∀ s v, QN s v → QV v s) (o : Op) (ho : OpOk g QN QV o) : AllInv QN QV (Tables.step g t o) := by
  cases o with
  | getName s => exact h.getName ho
  | getVals v => exact h.getVals ho
  | containsName s => exact h.getName ho
  | indexOfName s => exact h.getName ho
  | iterNames => exact h.iterNames hq
  | itemsNames => exact h.iterNames hq
  | iterVals => exact h.iterVals hq hs
  | itemsVals => exact h.iterVals hq hs

theorem AllInv.run (hq : ∀ v, Valid g v → QN (g.stdName v) v) (hs : ∀ s v, QN s v → QV v s)
    (hz : ∀ s, g.render (List.replicate g.C 0) = some s → QN s (List.replicate g.C 0) ∧ QV (List.replicate g.C 0) s)
    (l : List Op) (hl : ∀ o ∈ l, OpOk g QN QV o) : AllInv QN QV (Tables.run g l) := by
  have : ∀ t, AllInv QN QV t → AllInv QN QV (l.foldl (Tables.step g) t) := by
    intro t ht
    induction l generalizing t with
    | nil => exact ht
    | cons o l ih =>
      exact ih (fun o ho => hl o (by simp [ho])) _ (ht.step hq hs o (hl o (by simp)))
  exact this _ (AllInv.new.getVals hz)

/-- name entries agree with the parser, for every history -/
theorem run_names_sound (g : Cfg) (l : List Op) :
    AllInv (fun s v => g.parse s = some v) (fun _ _ => True) (Tables.run g l) := by
  apply AllInv.run
  · intro v hv; exact g.parse_stdName hv.2
  · intros; trivial
  · intro s hs
    obtain ⟨h1, rfl⟩ := g.render_some hs
    exact ⟨g.parse_stdName h1, trivial⟩
  · intro o _
    cases o <;> simp only [OpOk, and_true, imp_self, implies_true]
    intro s hs
    obtain ⟨h1, rfl⟩ := g.render_some hs
    exact g.parse_stdName h1

theorem run_vals_sound (g : Cfg) (l : List Op) (hl : ∀ o ∈ l, FullWidthOp g o) :
    AllInv (fun s v => s = g.stdName v) (fun v s => s = g.stdName v) (Tables.run g l) := by
  apply AllInv.run
  · intros; rfl
  · intro s v h; exact h
  · intro s hs
    have := (g.render_some hs).2
    exact ⟨this, this⟩
  · intro o ho
    have := hl o ho
    cases o <;> simp only [OpOk, FullWidthOp, and_self] at *
    case getName s => obtain ⟨k, hk⟩ := this; intro v hv; exact (g.stdName_parse hk hv).symm
    case containsName s => obtain ⟨k, hk⟩ := this; intro v hv; exact (g.stdName_parse hk hv).symm
    case indexOfName s => obtain ⟨k, hk⟩ := this; intro v hv; exact (g.stdName_parse hk hv).symm
    case getVals v => intro s hs; exact (g.render_some hs).2

/-! ### enumeration -/

theorem Dict.set_same {α β : Type*} [DecidableEq α] {d : Dict α β} {k : α} {v : β} (h : Dict.get? d k = some v) :
    Dict.set d k v = d := by
  induction d with
  | nil => cases h
  | cons p d ih =>
    obtain ⟨a, b⟩ := p
    rw [Dict.get?_cons] at h
    rw [Dict.set]
    split at h
    · rename_i e; cases h; subst e; simp
    · rename_i e; rw [if_neg e, ih h]

theorem keys_rebuilt_nodup (g : Cfg) : (Dict.keys (rebuilt g)).Nodup := Dict.nodup_keys_ofList _

theorem get_rebuilt {v : Vals} (hv : Valid g v) : Dict.get? (rebuilt g) (g.stdName v) = some v := by
  apply Dict.get?_of_mem (keys_rebuilt_nodup g)
  rw [rebuilt_eq]
  exact List.mem_map.2 ⟨v, mem_listOfFockStates.2 hv, rfl⟩

theorem keys_stdV (g : Cfg) : Dict.keys (stdV g) = listOfFockStates g := by
  simp [Dict.keys, stdV, Function.comp_def]

theorem get_stdV {v : Vals} (hv : Valid g v) : Dict.get? (stdV g) v = some (g.stdName v) := by
  apply Dict.get?_of_mem
  · rw [keys_stdV]; exact nodup_listOfFockStates g
  · exact List.mem_map.2 ⟨v, mem_listOfFockStates.2 hv, rfl⟩

theorem length_rebuilt (g : Cfg) : (rebuilt g).length = g.size := by
  rw [rebuilt_eq, List.length_map, length_listOfFockStates]

theorem length_stdV (g : Cfg) : (stdV g).length = g.size := by
  rw [stdV, List.length_map, length_listOfFockStates]

/-- both tables hold the standard enumeration -/
def Full (g : Cfg) (t : Tables) : Prop := t.N t.cnN = rebuilt g ∧ t.V t.ovV = stdV g

theorem Full.getName (h : Full g t) {s : Name} {v : Vals} (hv : Valid g v) (hs : IsName g v s) :
    Tables.getName g t s = (t, some v) := by
  rw [Tables.getName, h.1, Props.isName_unique g hv.2 hs, get_rebuilt hv]

theorem Full.step (h : Full g t) {o : Op} (ho : StandardOp g o) : Tables.step g t o = t := by
  have hn : Tables.iterNames g t = (t, (t.V t.cnV).keys.map Sum.inr) := by
    rw [Tables.iterNames, if_pos (by rw [h.1, length_rebuilt])]
  have hv : Tables.iterVals g t = (t, (t.V t.ovV).keys) := by
    rw [Tables.iterVals, if_pos (by rw [h.2, length_stdV])]
  cases o with
  | getName s => obtain ⟨v, hv, hs⟩ := ho; simp [Tables.step, h.getName hv hs]
  | containsName s => obtain ⟨v, hv, hs⟩ := ho; simp [Tables.step, Tables.containsName, h.getName hv hs]
  | indexOfName s => obtain ⟨v, hv, hs⟩ := ho; simp [Tables.step, Tables.indexOfName, h.getName hv hs]
  | getVals v => simp [Tables.step, Tables.getVals, h.2, get_stdV ho]
  | iterNames => simp [Tables.step, hn]
  | itemsNames => simp [Tables.step, Tables.itemsNames, hn]
  | iterVals => simp [Tables.step, hv]
  | itemsVals => simp [Tables.step, Tables.itemsVals, hv]

theorem Full.foldl (h : Full g t) (l : List Op) (hl : ∀ o ∈ l, StandardOp g o) : l.foldl (Tables.step g) t = t := by
  induction l with
  | nil => rfl
  | cons o l ih =>
    rw [List.foldl_cons, h.step (hl o (by simp))]
    exact ih (fun o ho => hl o (by simp [ho]))

/-- invariant before the first enumeration: `w` was never looked up -/
structure PreInv (g : Cfg) (w : Vals) (t : Tables) : Prop where
  all : AllInv (fun s v => s = g.stdName v ∧ Valid g v) (fun v s => s = g.stdName v ∧ Valid g v) t
  nN : ∀ d ∈ t.nd, (Dict.keys d).Nodup
  nV : ∀ d ∈ t.vd, (Dict.keys d).Nodup
  cN : t.N t.cnN = rebuilt g ∨ g.stdName w ∉ Dict.keys (t.N t.cnN)
  cV : t.V t.ovV = stdV g ∨ w ∉ Dict.keys (t.V t.ovV)

theorem N_updN (t : Tables) (r r' : ℕ) (s : Name) (v : Vals) (h : r < t.nd.length) :
    (t.updN r s v).N r' = if r = r' then (t.N r).set s v else t.N r' := by
  unfold updN N
  simp only [List.getD_eq_getElem?_getD, List.getElem?_set]
  by_cases e : r = r'
  · subst e; simp [h]
  · simp [e]

theorem V_updV (t : Tables) (r r' : ℕ) (s : Name) (v : Vals) (h : r < t.vd.length) :
    (t.updV r v s).V r' = if r = r' then (t.V r).set v s else t.V r' := by
  unfold updV V
  simp only [List.getD_eq_getElem?_getD, List.getElem?_set]
  by_cases e : r = r'
  · subst e; simp [h]
  · simp [e]

variable {w : Vals}

theorem PreInv.updN (h : PreInv g w t) {r : ℕ} (hr : r < t.nd.length) {v : Vals} (hv : Valid g v) (hw : Valid g w)
    (hne : v ≠ w) : PreInv g w (t.updN r (g.stdName v) v) := by
  refine ⟨h.all.updN hr ⟨rfl, hv⟩, ?_, h.nV, ?_, h.cV⟩
  · intro d hd
    rcases List.mem_or_eq_of_mem_set hd with hd | rfl
    · exact h.nN d hd
    · exact Dict.nodup_keys_set (h.nN _ (N_mem hr)) _ _
  · show (t.updN r (g.stdName v) v).N t.cnN = _ ∨ _ ∉ Dict.keys ((t.updN r (g.stdName v) v).N t.cnN)
    rw [N_updN _ _ _ _ _ hr]
    split
    · rename_i e
      rw [e]
      rcases h.cN with h | h
      · left; rw [h, Dict.set_same (get_rebuilt hv)]
      · right
        rw [Dict.mem_keys_set]
        rintro (h' | h')
        · exact hne (g.stdName_inj hw.2 hv.2 h').symm
        · exact h h'
    · exact h.cN

theorem PreInv.updV (h : PreInv g w t) {r : ℕ} (hr : r < t.vd.length) {v : Vals} (hv : Valid g v)
    (hne : v ≠ w) : PreInv g w (t.updV r v (g.stdName v)) := by
  refine ⟨h.all.updV hr ⟨rfl, hv⟩, h.nN, ?_, h.cN, ?_⟩
  · intro d hd
    rcases List.mem_or_eq_of_mem_set hd with hd | rfl
    · exact h.nV d hd
    · exact Dict.nodup_keys_set (h.nV _ (V_mem hr)) _ _
  · show (t.updV r v (g.stdName v)).V t.ovV = _ ∨ _ ∉ Dict.keys ((t.updV r v (g.stdName v)).V t.ovV)
    rw [V_updV _ _ _ _ _ hr]
    split
    · rename_i e
      rw [e]
      rcases h.cV with h | h
      · left; rw [h, Dict.set_same (get_stdV hv)]
      · right
        rw [Dict.mem_keys_set]
        rintro (h' | h')
        · exact hne h'.symm
        · exact h h'
    · exact h.cV

theorem PreInv.getName (h : PreInv g w t) (hw : Valid g w) {s : Name} {v : Vals} (hv : Valid g v)
    (hs : IsName g v s) (hne : v ≠ w) : PreInv g w (Tables.getName g t s).1 := by
  unfold Tables.getName
  split
  · exact h
  · have := Props.isName_unique g hv.2 hs
    subst this
    rw [g.parse_stdName hv.2]
    exact (h.updN h.all.bN1 hv hw hne).updV h.all.bV1 hv hne

theorem PreInv.getVals (h : PreInv g w t) (hw : Valid g w) {v : Vals} (hv : Valid g v)
    (hne : v ≠ w) : PreInv g w (Tables.getVals g t v).1 := by
  unfold Tables.getVals
  split
  · exact h
  · rw [g.render_of_valid hv]
    exact (h.updV h.all.bV2 hv hne).updN h.all.bN2 hv hw hne

theorem length_lt_of_missing {l : List Vals} (hn : l.Nodup) (hl : ∀ v ∈ l, Valid g v) (hw : Valid g w) (hm : w ∉ l) :
    l.length < g.size := by
  have : (w :: l).Subperm (listOfFockStates g) := by
    apply List.Nodup.subperm (List.nodup_cons.2 ⟨hm, hn⟩)
    intro v hv
    rw [mem_listOfFockStates]
    rcases List.mem_cons.1 hv with rfl | hv
    · exact hw
    · exact hl v hv
  have := this.length_le
  rw [length_listOfFockStates] at this
  simpa using this

theorem PreInv.N_cases (h : PreInv g w t) (hw : Valid g w) :
    t.N t.cnN = rebuilt g ∨ (t.N t.cnN).length ≠ g.size := by
  rcases h.cN with h1 | h1
  · exact .inl h1
  · right
    have hm := N_mem h.all.bN1
    have hk : (t.N t.cnN).map Prod.snd |>.Nodup := by
      have h2 := h.nN _ hm
      have : Dict.keys (t.N t.cnN) = ((t.N t.cnN).map Prod.snd).map g.stdName := by
        rw [Dict.keys, List.map_map]
        apply List.map_congr_left
        intro p hp
        exact (h.all.hN _ hm p hp).1
      rw [this] at h2
      exact List.Nodup.of_map _ h2
    have := length_lt_of_missing (w := w) hk (fun v hv => by
      obtain ⟨p, hp, rfl⟩ := List.mem_map.1 hv
      exact (h.all.hN _ hm p hp).2) hw (fun hc => by
        obtain ⟨p, hp, he⟩ := List.mem_map.1 hc
        apply h1
        have := (h.all.hN _ hm p hp).1
        rw [he] at this
        rw [← this]
        exact List.mem_map.2 ⟨p, hp, rfl⟩)
    rw [List.length_map] at this
    omega

theorem PreInv.V_cases (h : PreInv g w t) (hw : Valid g w) :
    t.V t.ovV = stdV g ∨ (t.V t.ovV).length ≠ g.size := by
  rcases h.cV with h1 | h1
  · exact .inl h1
  · right
    have hm := V_mem h.all.bV2
    have := length_lt_of_missing (w := w) (h.nV _ hm) (fun v hv => by
      obtain ⟨p, hp, rfl⟩ := List.mem_map.1 hv
      exact (h.all.hV _ hm p hp).2) hw h1
    simp [Dict.keys] at this
    omega

theorem PreInv.iterNames (h : PreInv g w t) (hw : Valid g w) :
    PreInv g w (Tables.iterNames g t).1 ∧
      (Tables.iterNames g t).1.N (Tables.iterNames g t).1.cnN = rebuilt g := by
  unfold Tables.iterNames
  rcases h.N_cases hw with h1 | h1
  · rw [if_pos (by rw [h1, length_rebuilt])]
    exact ⟨h, h1⟩
  · rw [if_neg h1]
    have key : (t.nd ++ [rebuilt g]).getD t.nd.length [] = rebuilt g := by simp
    refine ⟨⟨⟨by simp, by simpa using Nat.lt_succ_of_lt h.all.bN2, h.all.bV1, h.all.bV2, ?_, h.all.hV⟩,
      ?_, h.nV, .inl key, h.cV⟩, key⟩
    · intro d hd p hp
      rcases List.mem_append.1 hd with hd | hd
      · exact h.all.hN d hd p hp
      · rw [List.mem_singleton] at hd
        subst hd
        rw [rebuilt_eq] at hp
        obtain ⟨v, hv, rfl⟩ := List.mem_map.1 hp
        exact ⟨rfl, mem_listOfFockStates.1 hv⟩
    · intro d hd
      rcases List.mem_append.1 hd with hd | hd
      · exact h.nN d hd
      · rw [List.mem_singleton] at hd
        subst hd
        exact keys_rebuilt_nodup g

theorem iterVals_rebuild {h1 : (t.V t.ovV).length ≠ g.size} :
    (Tables.iterVals g t).1 = { (Tables.iterNames g t).1 with
      vd := (Tables.iterNames g t).1.vd ++
        [Dict.ofList (((Tables.iterNames g t).1.N (Tables.iterNames g t).1.cnN).map (fun kv => (kv.2, kv.1)))],
      ovV := (Tables.iterNames g t).1.vd.length } := by
  rw [Tables.iterVals, if_neg h1]; rfl

theorem PreInv.iterVals (h : PreInv g w t) (hw : Valid g w) :
    PreInv g w (Tables.iterVals g t).1 ∧
      (Tables.iterVals g t).1.V (Tables.iterVals g t).1.ovV = stdV g := by
  rcases h.V_cases hw with h1 | h1
  · rw [Tables.iterVals, if_pos (by rw [h1, length_stdV])]
    exact ⟨h, h1⟩
  · rw [iterVals_rebuild (h1 := h1)]
    obtain ⟨h2, h3⟩ := h.iterNames hw
    rw [h3, stdV_eq]
    generalize (Tables.iterNames g t).1 = t' at h2 h3
    have key : (t'.vd ++ [stdV g]).getD t'.vd.length [] = stdV g := by simp
    refine ⟨⟨⟨h2.all.bN1, h2.all.bN2, by simpa using Nat.lt_succ_of_lt h2.all.bV1, by simp, h2.all.hN, ?_⟩,
      h2.nN, ?_, h2.cN, .inl key⟩, key⟩
    · intro d hd p hp
      rcases List.mem_append.1 hd with hd | hd
      · exact h2.all.hV d hd p hp
      · rw [List.mem_singleton] at hd
        subst hd
        obtain ⟨v, hv, rfl⟩ := List.mem_map.1 hp
        exact ⟨rfl, mem_listOfFockStates.1 hv⟩
    · intro d hd
      rcases List.mem_append.1 hd with hd | hd
      · exact h2.nV d hd
      · rw [List.mem_singleton] at hd
        subst hd
        rw [keys_stdV]; exact nodup_listOfFockStates g

theorem PreInv.step (h : PreInv g w t) (hw : Valid g w) {o : Op} (ho : StandardOp g o) (hl : ¬ LooksUp g w o) :
    PreInv g w (Tables.step g t o) := by
  have aux : ∀ s, (∃ v, Valid g v ∧ IsName g v s) → ¬ IsName g w s → PreInv g w (Tables.getName g t s).1 := by
    rintro s ⟨v, hv, hs⟩ hn
    exact h.getName hw hv hs (fun e => hn (e ▸ hs))
  cases o with
  | getName s => exact aux s ho hl
  | containsName s => exact aux s ho hl
  | indexOfName s => exact aux s ho hl
  | getVals v => exact h.getVals hw ho hl
  | iterNames => exact (h.iterNames hw).1
  | itemsNames => exact (h.iterNames hw).1
  | iterVals => exact (h.iterVals hw).1
  | itemsVals => exact (h.iterVals hw).1

theorem PreInv.run (hg : g.Ok) (hw : Valid g w) (hz : w ≠ List.replicate g.C 0) (l : List Op)
    (h1 : ∀ o ∈ l, StandardOp g o) (h2 : ∀ o ∈ l, ¬ LooksUp g w o) : PreInv g w (Tables.run g l) := by
  have hzero : Valid g (List.replicate g.C 0) := by
    refine ⟨by simp, ?_⟩
    intro x hx
    have := (List.mem_replicate.1 hx).2
    have := hg.1
    omega
  have h0 : PreInv g w (Tables.init g) := by
    refine PreInv.getVals ?_ hw hzero hz.symm
    refine ⟨AllInv.new, ?_, ?_, .inr ?_, .inr ?_⟩ <;> simp [Tables.new, N, V, Dict.keys]
  have : ∀ t, PreInv g w t → PreInv g w (l.foldl (Tables.step g) t) := by
    intro t ht
    induction l generalizing t with
    | nil => exact ht
    | cons o l ih =>
      exact ih (fun o ho => h1 o (by simp [ho])) (fun o ho => h2 o (by simp [ho])) _
        (ht.step hw (h1 o (by simp)) (h2 o (by simp)))
  exact this _ h0

end Verif.Tables
