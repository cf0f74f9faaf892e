/-
Property C102: circuits of optical elements, time delays and pulse widths with a measurement at the end follow the Born rule.
-/
import Verif.Lemmas.Pipeline10

namespace Verif.Props
open Verif Spec MvPolynomial

theorem stagesOf_measure (nodes : List SNode) (opt cls : List ℕ) : stagesOf (nodes ++ [.measure opt cls]) = stagesOf nodes ++ [.measure opt cls] := by
  induction nodes with
  | nil => rfl
  | cons x nodes ih =>
    cases x with
    | optical M tl =>
      rw [List.cons_append, stagesOf, stagesOf, ih]
      cases stagesOf nodes with
      | nil => rfl
      | cons y ys => cases y <;> rfl
    | delay chs d w => rw [List.cons_append, stagesOf, stagesOf, ih]; rfl
    | quick chs d w => rw [List.cons_append, stagesOf, stagesOf, ih]; rfl
    | width chs w => rw [List.cons_append, stagesOf, stagesOf, ih]; rfl
    | measure opt cls => rw [List.cons_append, stagesOf, stagesOf, ih]; rfl

/-- **C102** A circuit of lossless optical elements, time delays and pulse widths, followed by a measurement, on a collection of states without photon information: every input state gives one
group per outcome with the probability of the Born rule for the polynomial that the elements make, by substitution of creation operators, of the polynomial of the input state. -/
theorem C102_collection_partial (c : Circ) (hg : c.g.Ok) (hL : c.g.L ≤ 10) (ht : 0 < c.thr) (nodes : List SNode) (es : List Element) (hes : List.Forall₂ (ElementStage c.g c.m) es (stagesOf nodes))
    (hst : StartsResolved c.g es) (l : List AState) (hl : ∀ s ∈ l, FreshState c.g c.m s) (hk : KeepsAll c es (stagesOf nodes) l) (opt cls : List ℕ) (hopt : ∀ ch ∈ opt, ch < c.g.C)
    (hcls : cls.length = opt.length) (hclm : ∀ n ∈ cls, n < c.m) :
    ∃ G, readGroups l = some G ∧ ∃ N, ∀ fuel ≥ N, ∃ l' G', evalSpectral c fuel (nodes ++ [.measure opt cls]) l = some l' ∧ readGroups l' = some G' ∧ Proper G' ∧
      GroupsReplaced (fun cols ys => ∃ q, cols = groupOfState ⟨q, none⟩ ∧ BornGroups c.g opt cls q.cum (circuitSubst q.classical es (statePoly c.g ⟨q, none⟩)) ys) G G' := by
  obtain ⟨G, N1, l1, h1, h2, h3⟩ := fresh_run hg ht hes hst (fresh_start hl) (N0 := 0) (fun k gates h fuel _ l' hl' => hk k gates h fuel l' hl')
  obtain ⟨N2, h4⟩ := lit_measure hg hL h3 hopt hcls hclm
  refine ⟨G, h1, max N1 N2, fun fuel hf => ?_⟩
  obtain ⟨l', G', a1, a2, a3, a4⟩ := h4 fuel (le_trans (le_max_right _ _) hf)
  refine ⟨l', G', ?_, a2, a3, ?_⟩
  · unfold evalSpectral
    rw [stagesOf_measure]
    have := h2 fuel (le_trans (le_max_left _ _) hf)
    unfold runStages at this ⊢
    rw [List.foldlM_append, this]
    simp only [Option.bind_eq_bind, Option.bind_some, List.foldlM_cons, List.foldlM_nil, a1]
    rfl
  · refine List.Forall₂.imp ?_ a4
    rintro e e' ⟨b1, ys, b2, b3⟩
    refine ⟨b1, ys, b2.imp ?_, b3⟩
    rintro x y ⟨q0, _, r1, r2⟩
    exact ⟨q0, r1, by rw [List.nil_append] at r2; exact r2⟩

/-- **C102** One input state: the groups of the result are given by the Born rule. -/
theorem C102_state_partial (c : Circ) (hg : c.g.Ok) (hL : c.g.L ≤ 10) (ht : 0 < c.thr) (nodes : List SNode) (es : List Element) (hes : List.Forall₂ (ElementStage c.g c.m) es (stagesOf nodes))
    (hst : StartsResolved c.g es) (q : QState) (hq : FreshState c.g c.m ⟨q, none⟩) (hk : KeepsAll c es (stagesOf nodes) [⟨q, none⟩]) (opt cls : List ℕ) (hopt : ∀ ch ∈ opt, ch < c.g.C)
    (hcls : cls.length = opt.length) (hclm : ∀ n ∈ cls, n < c.m) :
    ∃ N, ∀ fuel ≥ N, ∃ l' d, evalSpectral c fuel (nodes ++ [.measure opt cls]) [⟨q, none⟩] = some l' ∧ readGroups l' = some [(q.initial, d)] ∧
      BornGroups c.g opt cls q.cum (circuitSubst q.classical es (statePoly c.g ⟨q, none⟩)) (d.map Prod.snd) := by
  obtain ⟨G, h1, N, h2⟩ := C102_collection_partial c hg hL ht nodes es hes hst [⟨q, none⟩] (by intro s hs; obtain rfl := List.mem_singleton.1 hs; exact hq) hk opt cls hopt hcls hclm
  refine ⟨N, fun fuel hf => ?_⟩
  obtain ⟨l', G', a1, a2, _, a4⟩ := h2 fuel hf
  have hG : G = [(q.initial, [(0, groupOfState ⟨q, none⟩)])] := by
    have : readGroups [⟨q, none⟩] = some [(q.initial, [(0, groupOfState ⟨q, none⟩)])] := rfl
    rw [h1] at this
    exact Option.some.inj this
  subst hG
  cases a4 with
  | @cons _ e' _ G'' b hrest =>
    cases hrest
    obtain ⟨b1, ys, b2, b3⟩ := b
    simp only [List.map_cons, List.map_nil] at b2
    cases b2 with
    | @cons _ y _ ys' x hx =>
      cases hx
      obtain ⟨q', e1, e2⟩ := x
      have hqq : q' = q := by
        unfold groupOfState at e1
        simp only [List.cons.injEq, Column.mk.injEq, PState.mk.injEq, and_true] at e1
        exact e1.1.symm
      subst hqq
      refine ⟨l', e'.2, a1, ?_, ?_⟩
      · simp only at b1
        rw [a2, ← b1]
      · rw [b3]
        simpa using e2

/-- **C102** The same for a condition on the circuit only: it starts with a delay or with a pulse width for some channels; every pulse width is for some channels but not all; and seen by a
single photon, no optical element has a transition probability between 0 and the threshold. -/
theorem C102_circuit_partial (c : Circ) (hg : c.g.Ok) (hL : c.g.L ≤ 10) (ht : 0 < c.thr) (ht1 : c.thr ≤ 1) (nodes : List SNode) (es : List Element)
    (hes : List.Forall₂ (ElementStage c.g c.m) es (stagesOf nodes)) (hfirst : ∃ e es', es = e :: es' ∧ MakesPhotons c.g e) (hwidth : ∀ chs w, .width chs w ∈ es → ∃ ch < c.g.C, ch ∉ chs)
    (hkeep : ∀ gates, .optics gates ∈ es → SinglePhotonKeeps c.thr gates) (l : List AState) (hl : ∀ s ∈ l, FreshState c.g c.m s) (opt cls : List ℕ) (hopt : ∀ ch ∈ opt, ch < c.g.C)
    (hcls : cls.length = opt.length) (hclm : ∀ n ∈ cls, n < c.m) :
    ∃ G, readGroups l = some G ∧ ∃ N, ∀ fuel ≥ N, ∃ l' G', evalSpectral c fuel (nodes ++ [.measure opt cls]) l = some l' ∧ readGroups l' = some G' ∧ Proper G' ∧
      GroupsReplaced (fun cols ys => ∃ q, cols = groupOfState ⟨q, none⟩ ∧ BornGroups c.g opt cls q.cum (circuitSubst q.classical es (statePoly c.g ⟨q, none⟩)) ys) G G' := by
  obtain ⟨e0, es', rfl, he0⟩ := hfirst
  have hst : StartsResolved c.g (e0 :: es') := by
    cases e0 with
    | optics _ => exact he0.elim
    | delay _ _ _ => exact trivial
    | width _ _ => exact he0
  refine C102_collection_partial c hg hL ht nodes _ hes hst l hl (keepsAll_of hg ht ht1 hes hst hl ?_ ?_) opt cls hopt hcls hclm
  · intro gates h
    rw [List.getElem?_cons_zero] at h
    rw [Option.some.inj h] at he0
    exact he0.elim
  · intro k gates hk
    refine ⟨hkeep gates (List.mem_of_getElem? hk), fun e he => ?_⟩
    cases e with
    | optics gates' =>
      obtain ⟨st1, s1, t1⟩ := forall2_get hes he
      obtain ⟨st2, s2, t2⟩ := forall2_get hes hk
      cases st1 <;> first | exact t1.elim | skip
      cases st2 <;> first | exact t2.elim | skip
      exact (stagesOf_alternate nodes k _ _ _ _ s1 s2).elim
    | delay _ _ _ => exact trivial
    | width chs w => exact hwidth chs w (List.mem_of_getElem? he)

/-- The elements of the nodes, taken together, are the elements of the stages. -/
theorem merge_stages {g : Cfg} {m : ℕ} : ∀ {es : List Element} {nodes : List SNode}, List.Forall₂ (ElementNode g m) es nodes →
    List.Forall₂ (ElementStage g m) (mergeOptics es) (stagesOf nodes)
  | _, _, .nil => .nil
  | _, _, @List.Forall₂.cons _ _ _ e n es nodes h hs => by
    have ih := merge_stages hs
    cases e with
    | optics gates =>
      cases n <;> first | exact h.elim | skip
      obtain ⟨e, rfl, h1, h2⟩ := h
      rw [mergeOptics, stagesOf]
      generalize mergeOptics es = E at ih
      generalize stagesOf nodes = S at ih
      cases ih with
      | nil => exact .cons ⟨.cons h1 .nil, by simpa using h2⟩ .nil
      | @cons e2 s2 E S hh ih =>
        cases e2 <;> cases s2 <;> first | exact hh.elim | skip
        · refine .cons ⟨.cons h1 hh.1, ?_⟩ ih
          intro e' he'
          rcases List.mem_cons.1 he' with rfl | he'
          · exact h2
          · exact hh.2 _ he'
        · exact .cons ⟨.cons h1 .nil, by simpa using h2⟩ (.cons hh ih)
        · exact .cons ⟨.cons h1 .nil, by simpa using h2⟩ (.cons hh ih)
    | delay chs d w =>
      cases n <;> first | exact h.elim | skip
      exact .cons h ih
    | width chs w =>
      cases n <;> first | exact h.elim | skip
      exact .cons h ih

/-- Taking optical elements together does not change the substitution. -/
theorem circuitSubst_merge (cl : List ℝ) : ∀ (es : List Element) (P : MvPolynomial Mode ℂ), circuitSubst cl (mergeOptics es) P = circuitSubst cl es P
  | [], _ => rfl
  | .optics a :: rest, P => by
    have ih := circuitSubst_merge cl rest (opticsSubst a P)
    rw [mergeOptics]
    generalize mergeOptics rest = E at ih
    have h2 : circuitSubst cl (.optics a :: rest) P = circuitSubst cl rest (opticsSubst a P) := rfl
    rw [h2, ← ih]
    cases E with
    | nil => rfl
    | cons e2 E =>
      cases e2 with
      | optics b =>
        show circuitSubst cl E (opticsSubst (a ++ b) P) = circuitSubst cl E (opticsSubst b (opticsSubst a P))
        unfold opticsSubst
        rw [List.foldl_append]
      | delay _ _ _ => rfl
      | width _ _ => rfl
  | .delay chs d w :: rest, P => circuitSubst_merge cl rest _
  | .width chs w :: rest, P => circuitSubst_merge cl rest _

/-- **C102** Node by node: the nodes of the circuit are the elements `es`, in this order, and the groups of the result are given by the Born rule for the polynomial that the elements `es` make
of the polynomial of the input state. -/
theorem C102_nodes_partial (c : Circ) (hg : c.g.Ok) (hL : c.g.L ≤ 10) (ht : 0 < c.thr) (ht1 : c.thr ≤ 1) (nodes : List SNode) (es : List Element)
    (hes : List.Forall₂ (ElementNode c.g c.m) es nodes) (hfirst : ∃ e es', es = e :: es' ∧ MakesPhotons c.g e) (hwidth : ∀ chs w, .width chs w ∈ es → ∃ ch < c.g.C, ch ∉ chs)
    (hkeep : ∀ gates, .optics gates ∈ mergeOptics es → SinglePhotonKeeps c.thr gates) (l : List AState) (hl : ∀ s ∈ l, FreshState c.g c.m s) (opt cls : List ℕ)
    (hopt : ∀ ch ∈ opt, ch < c.g.C) (hcls : cls.length = opt.length) (hclm : ∀ n ∈ cls, n < c.m) :
    ∃ G, readGroups l = some G ∧ ∃ N, ∀ fuel ≥ N, ∃ l' G', evalSpectral c fuel (nodes ++ [.measure opt cls]) l = some l' ∧ readGroups l' = some G' ∧ Proper G' ∧
      GroupsReplaced (fun cols ys => ∃ q, cols = groupOfState ⟨q, none⟩ ∧ BornGroups c.g opt cls q.cum (circuitSubst q.classical es (statePoly c.g ⟨q, none⟩)) ys) G G' := by
  have hmem : ∀ (es : List Element) (e : Element), e ∈ mergeOptics es → (∃ gates, e = .optics gates) ∨ e ∈ es := by
    intro es
    induction es with
    | nil => intro e he; exact absurd he (by simp [mergeOptics])
    | cons x es ih =>
      intro e he
      cases x with
      | optics a =>
        rw [mergeOptics] at he
        split at he
        · next b E hE =>
          rcases List.mem_cons.1 he with rfl | he
          · exact Or.inl ⟨_, rfl⟩
          · rcases ih e (by rw [hE]; exact List.mem_cons_of_mem _ he) with h | h
            · exact Or.inl h
            · exact Or.inr (List.mem_cons_of_mem _ h)
        · rcases List.mem_cons.1 he with rfl | he
          · exact Or.inl ⟨_, rfl⟩
          · rcases ih e he with h | h
            · exact Or.inl h
            · exact Or.inr (List.mem_cons_of_mem _ h)
      | delay chs d w =>
        rcases List.mem_cons.1 he with rfl | he
        · exact Or.inr List.mem_cons_self
        · rcases ih e he with h | h
          · exact Or.inl h
          · exact Or.inr (List.mem_cons_of_mem _ h)
      | width chs w =>
        rcases List.mem_cons.1 he with rfl | he
        · exact Or.inr List.mem_cons_self
        · rcases ih e he with h | h
          · exact Or.inl h
          · exact Or.inr (List.mem_cons_of_mem _ h)
  have h := C102_circuit_partial c hg hL ht ht1 nodes (mergeOptics es) (merge_stages hes) ?_ ?_ hkeep l hl opt cls hopt hcls hclm
  · simp only [circuitSubst_merge] at h
    exact h
  · obtain ⟨e, es', rfl, he⟩ := hfirst
    cases e with
    | optics _ => exact he.elim
    | delay chs d w => exact ⟨_, _, rfl, trivial⟩
    | width chs w => exact ⟨_, _, rfl, he⟩
  · intro chs w h
    rcases hmem es _ h with ⟨_, h⟩ | h
    · exact absurd h (by simp)
    · exact hwidth chs w h

end Verif.Props
