/- Helper lemmas about the collection given to a spectral node. -/
import Verif.Model.Spoiled
import Verif.Lemmas.Spectral3

namespace Verif
open Spec

/-- The same column up to the amplitude and the components of its states. -/
def SameSlots (c c' : Column) : Prop :=
  c'.boson = c.boson ∧ c'.gprob = c.gprob ∧ c'.id = c.id ∧
    List.Forall₂ (fun s s' : PState => ∃ comps : Comps, s' = { s with q := { s.q with comps := comps } }) c.states c'.states

theorem slots_refl (l : List PState) : List.Forall₂ (fun s s' : PState => ∃ comps : Comps, s' = { s with q := { s.q with comps := comps } }) l l :=
  List.forall₂_same.2 (fun s _ => ⟨s.q.comps, rfl⟩)

theorem sameSlots_refl (c : Column) : SameSlots c c := ⟨rfl, rfl, rfl, slots_refl _⟩

theorem slots_trans {a b c : List PState} (h : List.Forall₂ (fun s s' : PState => ∃ comps : Comps, s' = { s with q := { s.q with comps := comps } }) a b)
    (h' : List.Forall₂ (fun s s' : PState => ∃ comps : Comps, s' = { s with q := { s.q with comps := comps } }) b c) :
    List.Forall₂ (fun s s' : PState => ∃ comps : Comps, s' = { s with q := { s.q with comps := comps } }) a c := by
  induction h generalizing c with
  | nil => cases h'; exact .nil
  | cons h1 _ ih =>
    cases h' with
    | cons h2 h3 =>
      obtain ⟨x, rfl⟩ := h1
      obtain ⟨y, rfl⟩ := h2
      exact .cons ⟨y, rfl⟩ (ih h3)

theorem sameSlots_trans {a b c : Column} (h : SameSlots a b) (h' : SameSlots b c) : SameSlots a c :=
  ⟨h'.1.trans h.1, h'.2.1.trans h.2.1, h'.2.2.1.trans h.2.2.1, slots_trans h.2.2.2 h'.2.2.2⟩

theorem forall₂_slots_trans {a b c : List Column} (h : List.Forall₂ SameSlots a b) (h' : List.Forall₂ SameSlots b c) : List.Forall₂ SameSlots a c := by
  induction h generalizing c with
  | nil => cases h'; exact .nil
  | cons h1 _ ih =>
    cases h' with
    | cons h2 h3 => exact .cons (sameSlots_trans h1 h2) (ih h3)

theorem split_slots {g : Cfg} {c new rem : Column} (h : c.split g = some (some (new, rem))) (hw : ∀ s ∈ c.states, WellFormed g s.q.comps) : SameSlots c rem := by
  rcases split_cases h hw with ⟨h0, _⟩ | ⟨pre, s, post, s0, k0, s1, k1, rest, r', e, _, hc, h1⟩
  · cases h0
  · have key : ∀ comps : Comps, List.Forall₂ (fun s s' : PState => ∃ comps : Comps, s' = { s with q := { s.q with comps := comps } }) c.states
        (pre ++ { s with q := { s.q with comps := comps } } :: post) := by
      intro comps
      rw [e]
      exact List.rel_append (slots_refl pre) (.cons ⟨comps, rfl⟩ (slots_refl post))
    rcases h1 with ⟨f, _, h1, _⟩ | ⟨_, h1, _⟩
    · obtain ⟨_, rfl⟩ := Prod.mk.inj (Option.some.inj h1)
      exact ⟨rfl, rfl, rfl, key r'⟩
    · obtain ⟨_, rfl⟩ := Prod.mk.inj (Option.some.inj h1)
      exact ⟨rfl, rfl, rfl, key r'⟩

theorem splitOnce_slots {g : Cfg} {cols cols' : List Column} {new : Column} (h : splitOnce g cols = some (some (cols', new))) (hw : WfCols g cols) :
    List.Forall₂ SameSlots cols cols' := by
  induction cols generalizing cols' with
  | nil => cases h
  | cons c cols ih =>
    unfold splitOnce at h
    rcases hc : c.split g with _ | _ | ⟨n, rem⟩
    · rw [hc] at h; cases h
    · rw [hc] at h
      simp only [Option.bind_some] at h
      rcases ho : splitOnce g cols with _ | _ | ⟨d, n⟩
      · rw [ho] at h; cases h
      · rw [ho] at h; cases h
      · rw [ho] at h
        obtain ⟨rfl, rfl⟩ := Prod.mk.inj (Option.some.inj (Option.some.inj h))
        exact .cons (sameSlots_refl c) (ih ho (fun d hd => hw d (List.mem_cons_of_mem _ hd)))
    · rw [hc] at h
      obtain ⟨rfl, rfl⟩ := Prod.mk.inj (Option.some.inj (Option.some.inj h))
      exact .cons (split_slots hc (hw c List.mem_cons_self)) (List.forall₂_same.2 (fun d _ => sameSlots_refl d))

theorem splitColumns_slots {g : Cfg} (fuel : ℕ) {cols out : List Column} (h : splitColumns g fuel cols = some out) (hw : WfCols g cols) :
    List.Forall₂ SameSlots cols (out.take cols.length) := by
  induction fuel generalizing cols with
  | zero => cases h
  | succ fuel ih =>
    unfold splitColumns at h
    rcases ho : splitOnce g cols with _ | _ | ⟨cols', new⟩
    · rw [ho] at h; cases h
    · rw [ho] at h
      obtain rfl := Option.some.inj h
      rw [List.take_length]
      exact List.forall₂_same.2 (fun d _ => sameSlots_refl d)
    · rw [ho] at h
      simp only [Option.bind_some] at h
      obtain ⟨_, h2, h3⟩ := splitOnce_poly ho hw
      have h1 := splitOnce_slots ho hw
      have := ih h (by
        intro d hd
        rcases List.mem_append.1 hd with hd | hd
        · exact h2 d hd
        · obtain rfl := List.mem_singleton.1 hd
          exact h3)
      have hl := h1.length_eq
      have h4 := List.forall₂_take cols'.length this
      rw [List.take_append_of_le_length le_rfl, List.take_length, List.take_take, List.length_append, min_eq_left (by simp)] at h4
      rw [hl]
      exact forall₂_slots_trans h1 h4

theorem leftColumns_spec {g : Cfg} {fuel : ℕ} {cols left : List Column} (h : leftColumns g fuel cols = some left) (hw : WfCols g cols) :
    List.Forall₂ SameSlots cols left ∧ ∀ c ∈ left, ∀ s ∈ c.states, s.q.comps.length = 1 := by
  unfold leftColumns at h
  obtain ⟨out, ho, rfl⟩ := Option.map_eq_some_iff.1 h
  exact ⟨splitColumns_slots fuel ho hw, fun c hc => (splitColumns_poly fuel ho hw).2.2 c (List.mem_of_mem_take hc)⟩

/-- A column of states with one component each is not touched. -/
theorem splitColumns_first {g : Cfg} (fuel : ℕ) (c : Column) (cols : List Column) {out : List Column} (hs : ∀ s ∈ c.states, s.q.comps.length = 1)
    (h : splitColumns g fuel (c :: cols) = some out) : ∃ rest, out = c :: rest := by
  have hsp : c.split g = some none := by
    unfold Column.split
    have : splitIndex c.states = none := by
      unfold splitIndex
      rw [List.findIdx?_eq_none_iff]
      intro s hx
      simp [hs s hx]
    rw [this]
  induction fuel generalizing cols with
  | zero => cases h
  | succ fuel ih =>
    unfold splitColumns splitOnce at h
    rw [hsp] at h
    simp only [Option.bind_some] at h
    rcases ho : splitOnce g cols with _ | _ | ⟨d, n⟩
    · rw [ho] at h; cases h
    · rw [ho] at h
      obtain rfl := Option.some.inj h
      exact ⟨cols, rfl⟩
    · rw [ho] at h
      simp only [Option.map_some, Option.bind_some, List.cons_append] at h
      exact ih _ h

/-- The first column of a group with one state in it: splitting leaves the last component. -/
theorem split_last {g : Cfg} (fuel : ℕ) (c : Column) (s : PState) (cols out : List Column) (hs : c.states = [s]) (hw : WfCols g (c :: cols))
    (h : splitColumns g fuel (c :: cols) = some out) (pre : Comps) (p : Name × Comp) (hc : s.q.comps = pre ++ [p]) (hp : pre ≠ []) :
    ∃ rest, out = { c with states := [{ s with q := { s.q with comps := [(p.1, ⟨1, 1⟩)] } }], amp := c.amp * p.2.amp } :: rest := by
  induction fuel generalizing c s cols pre p with
  | zero => cases h
  | succ fuel ih =>
    unfold splitColumns at h
    have hw0 := hw c List.mem_cons_self
    rcases hcs : c.split g with _ | r
    · unfold splitOnce at h
      rw [hcs] at h
      cases h
    · rcases split_cases hcs hw0 with ⟨_, h0⟩ | ⟨pr, t, post, s0, k0, s1, k1, rest, r', e, _, hct, h1⟩
      · have := h0 s (by rw [hs]; simp)
        rw [hc] at this
        have : pre.length = 0 := by simpa using this
        exact absurd (List.length_eq_zero_iff.1 this) hp
      · obtain ⟨rfl, rfl, rfl⟩ : pr = [] ∧ t = s ∧ post = [] := by
          rw [hs] at e
          rcases pr with _ | ⟨a, pr⟩
          · simp at e; exact ⟨rfl, e.1.symm, e.2⟩
          · simp at e
        rcases h1 with ⟨f, hf, h1, hr, hff, hr'⟩ | ⟨hr, h1, hr'⟩
        · -- three or more components
          subst h1
          unfold splitOnce at h
          rw [hcs] at h
          simp only [Option.bind_some, List.cons_append] at h
          have hspl := split_poly hcs hw0
          have e2 : (s1, k1) :: rest = pre.tail ++ [p] := by
            rw [hct] at hc
            rcases pre with _ | ⟨a, pre⟩
            · exact absurd rfl hp
            · simp at hc; simpa using hc.2
          obtain ⟨rest', h'⟩ := ih _ { t with q := { t.q with comps := r' } } _ rfl (by
              intro d hd
              rcases List.mem_cons.1 hd with rfl | hd
              · exact hspl.2.2
              · rcases List.mem_append.1 hd with hd | hd
                · exact hw d (List.mem_cons_of_mem _ hd)
                · obtain rfl := List.mem_singleton.1 hd
                  exact hspl.2.1) h (pre.tail.map (fun p => (p.1, (⟨p.2.amp / f, ‖p.2.amp / f‖ ^ 2⟩ : Comp)))) (p.1, ⟨p.2.amp / f, ‖p.2.amp / f‖ ^ 2⟩) (by
              simp only [hr', e2, List.map_append, List.map_cons, List.map_nil]) (by
              intro h0
              have : pre.tail = [] := List.map_eq_nil_iff.1 h0
              rw [this] at e2
              simp at e2
              exact hr e2.2)
          refine ⟨rest', ?_⟩
          rw [h']
          simp only [List.cons.injEq, and_true]
          congr 1
          field_simp
        · subst h1 hr hr'
          have e2 : p = (s1, k1) := by
            rw [hct] at hc
            rcases pre with _ | ⟨a, _ | ⟨b, pre⟩⟩
            · exact absurd rfl hp
            · simp at hc; exact hc.2.symm
            · simp at hc
          subst e2
          unfold splitOnce at h
          rw [hcs] at h
          simp only [Option.bind_some, List.nil_append, List.cons_append] at h
          have hspl := split_poly hcs hw0
          have h2 := splitColumns_first fuel _ _ (by simp) h
          obtain ⟨rest', h'⟩ := h2
          refine ⟨rest', ?_⟩
          rw [h']
          norm_num

end Verif
