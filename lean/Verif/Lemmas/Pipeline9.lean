/-
Lemmas for circuits with optical elements and time delays: the evaluation of a whole circuit.
-/
import Verif.Lemmas.Pipeline8
import Verif.Props.Interference

namespace Verif
open Spec Props MvPolynomial

/-- `KeepsAll` for enough splitting rounds. -/
def KeepsFrom (c : Circ) (N : ℕ) (es : List Element) (stages : List Stage) (l : List AState) : Prop :=
  ∀ (k : ℕ) (gates : List Gate), es[k]? = some (.optics gates) → ∀ fuel ≥ N, ∀ l' : List AState, runStages c fuel (stages.take k) l = some l' → NothingDropped c.g c.thr gates l'

theorem runStages_cons {c : Circ} {fuel : ℕ} {st : Stage} {stages : List Stage} {l l1 : List AState} (h : runStage c fuel l st = some l1) :
    runStages c fuel (st :: stages) l = runStages c fuel stages l1 := by
  unfold runStages
  rw [List.foldlM_cons, h]
  rfl

theorem KeepsFrom.tail {c : Circ} {N N1 : ℕ} {e : Element} {es : List Element} {st : Stage} {stages : List Stage} {l l1 : List AState} (h : KeepsFrom c N (e :: es) (st :: stages) l)
    (h1 : ∀ fuel ≥ N1, runStage c fuel l st = some l1) : KeepsFrom c (max N N1) es stages l1 := by
  intro k gates hk fuel hf l' hl
  refine h (k + 1) gates hk fuel (le_trans (le_max_left _ _) hf) l' ?_
  rw [List.take_succ_cons, runStages_cons (h1 fuel (le_trans (le_max_right _ _) hf))]
  exact hl

theorem KeepsFrom.head {c : Circ} {N : ℕ} {gates : List Gate} {es : List Element} {stages : List Stage} {l : List AState} (h : KeepsFrom c N (.optics gates :: es) stages l) : NothingDropped c.g c.thr gates l :=
  h 0 gates rfl N le_rfl l rfl

theorem setPulseWidth_all {g : Cfg} {fuel : ℕ} {chs : List ℕ} {w : ℝ} {l : List AState} (hne : chs ≠ []) (h1 : ∀ n < g.C, n ∈ chs) (h2 : ∀ n ∈ chs, n < g.C) :
    setPulseWidth g fuel chs w l = some (l.map (widthAll w)) := by
  unfold setPulseWidth
  rw [if_neg hne, if_pos ⟨h1, h2⟩]

/-- The elements of a circuit on a collection with photon information. -/
theorem lit_run {c : Circ} (hg : c.g.Ok) (ht : 0 < c.thr) {es : List Element} {stages : List Stage} (hes : List.Forall₂ (ElementStage c.g c.m) es stages) {G0 : Groups} {done : List Element} {l : List AState}
    (h : Lit c.g c.m done G0 l) {N0 : ℕ} (hk : KeepsFrom c N0 es stages l) : ∃ N l', (∀ fuel ≥ N, runStages c fuel stages l = some l') ∧ Lit c.g c.m (done ++ es) G0 l' := by
  induction hes generalizing done l N0 with
  | nil => exact ⟨0, l, fun _ _ => rfl, by rw [List.append_nil]; exact h⟩
  | @cons e st es stages he _ ih =>
    have step : ∃ N1 l1, (∀ fuel ≥ N1, runStage c fuel l st = some l1) ∧ Lit c.g c.m (done ++ [e]) G0 l1 := by
      cases e with
      | optics gates =>
        cases st with
        | optics n ns =>
          obtain ⟨l1, a, b⟩ := lit_optics hg ht h he.1 he.2 hk.head
          exact ⟨0, l1, fun _ _ => a, b⟩
        | delay _ _ _ => exact he.elim
        | width _ _ => exact he.elim
        | quick _ _ _ => exact he.elim
        | measure _ _ => exact he.elim
      | delay chs d w =>
        cases st with
        | delay chs' d' w' =>
          obtain ⟨rfl, rfl, rfl, h1, h2, -⟩ := he
          obtain ⟨G, r1, r2⟩ := h.ready hg
          exact delay_step r1 r2 w' h1 h2
        | optics _ _ => exact he.elim
        | width _ _ => exact he.elim
        | quick _ _ _ => exact he.elim
        | measure _ _ => exact he.elim
      | width chs w =>
        cases st with
        | width chs' w' =>
          obtain ⟨rfl, rfl, h1, h2, -⟩ := he
          by_cases hall : ∀ ch < c.g.C, ch ∈ chs'
          · exact ⟨0, _, fun _ _ => setPulseWidth_all h2 hall h1, lit_widthAll hg h w' hall⟩
          · push Not at hall
            obtain ⟨G, r1, r2⟩ := h.ready hg
            exact width_step r1 r2 w' h1 h2 hall
        | optics _ _ => exact he.elim
        | delay _ _ _ => exact he.elim
        | quick _ _ _ => exact he.elim
        | measure _ _ => exact he.elim
    obtain ⟨N1, l1, a, b⟩ := step
    obtain ⟨N2, l', a', b'⟩ := ih b (hk.tail a)
    refine ⟨max N1 N2, l', fun fuel hf => ?_, by rw [List.append_assoc] at b'; exact b'⟩
    rw [runStages_cons (a fuel (le_trans (le_max_left _ _) hf))]
    exact a' fuel (le_trans (le_max_right _ _) hf)

/-- The elements of a circuit on a collection without photon information. -/
theorem fresh_run {c : Circ} (hg : c.g.Ok) (ht : 0 < c.thr) {es : List Element} {stages : List Stage} (hes : List.Forall₂ (ElementStage c.g c.m) es stages) (hst : StartsResolved c.g es) {done : List Element}
    {l0 l : List AState} (h : List.Forall₂ (FreshStep c.g c.m done) l0 l) {N0 : ℕ} (hk : KeepsFrom c N0 es stages l) :
    ∃ G0 N l', readGroups l0 = some G0 ∧ (∀ fuel ≥ N, runStages c fuel stages l = some l') ∧ Lit c.g c.m (done ++ es) G0 l' := by
  induction hes generalizing done l N0 with
  | nil => exact hst.elim
  | @cons e st es stages he hes' ih =>
    have fin : ∀ G0, readGroups l0 = some G0 → (∃ N1 l1, (∀ fuel ≥ N1, runStage c fuel l st = some l1) ∧ Lit c.g c.m (done ++ [e]) G0 l1) →
        ∃ G0 N l', readGroups l0 = some G0 ∧ (∀ fuel ≥ N, runStages c fuel (st :: stages) l = some l') ∧ Lit c.g c.m (done ++ (e :: es)) G0 l' := by
      rintro G0 hG0 ⟨N1, l1, a, b⟩
      obtain ⟨N2, l', a', b'⟩ := lit_run hg ht hes' b (hk.tail a)
      refine ⟨G0, max N1 N2, l', hG0, fun fuel hf => ?_, by rw [List.append_assoc] at b'; exact b'⟩
      rw [runStages_cons (a fuel (le_trans (le_max_left _ _) hf))]
      exact a' fuel (le_trans (le_max_right _ _) hf)
    obtain ⟨G0, G, r0, r1, r2⟩ := fresh_ready hg h
    cases e with
    | optics gates =>
      cases st with
      | optics n ns =>
        obtain ⟨l1, a, b⟩ := fresh_step hg ht h he.1 he.2 hk.head
        have a1 : ∀ fuel ≥ 0, runStage c fuel l (.optics n ns) = some l1 := fun _ _ => a
        obtain ⟨G0, N2, l', q, a', b'⟩ := ih hst b (hk.tail a1)
        refine ⟨G0, N2, l', q, fun fuel hf => ?_, by rw [List.append_assoc] at b'; exact b'⟩
        rw [runStages_cons (a1 fuel (Nat.zero_le _))]
        exact a' fuel hf
      | delay _ _ _ => exact he.elim
      | width _ _ => exact he.elim
      | quick _ _ _ => exact he.elim
      | measure _ _ => exact he.elim
    | delay chs d w =>
      cases st with
      | delay chs' d' w' =>
        obtain ⟨rfl, rfl, rfl, h1, h2, -⟩ := he
        exact fin G0 r0 (delay_step r1 r2 w' h1 h2)
      | optics _ _ => exact he.elim
      | width _ _ => exact he.elim
      | quick _ _ _ => exact he.elim
      | measure _ _ => exact he.elim
    | width chs w =>
      cases st with
      | width chs' w' =>
        obtain ⟨rfl, rfl, h1, h2, -⟩ := he
        exact fin G0 r0 (width_step r1 r2 w' h1 h2 hst)
      | optics _ _ => exact he.elim
      | delay _ _ _ => exact he.elim
      | quick _ _ _ => exact he.elim
      | measure _ _ => exact he.elim

theorem fresh_start {g : Cfg} {m : ℕ} {l0 : List AState} (h : ∀ s ∈ l0, FreshState g m s) : List.Forall₂ (FreshStep g m []) l0 l0 := by
  rw [List.forall₂_same]
  intro s hs
  exact ⟨h s hs, h s hs, rfl, rfl, rfl, rfl⟩

/-! ### Measurement -/

theorem bornProb_phase {z : ℂ} (hz : ‖z‖ = 1) (v : Vals) (P : MvPolynomial Mode ℂ) : bornProb v (C z * P) = bornProb v P := by
  classical
  have hz0 : z ≠ 0 := by
    rintro rfl
    simp at hz
  have hs : (C z * P).support = P.support := by
    ext a
    rw [mem_support_iff, mem_support_iff, coeff_C_mul]
    simp [hz0]
  have hzz : starRingEnd ℂ z * z = 1 := by
    rw [Complex.conj_mul', hz]
    simp
  unfold bornProb
  rw [hs]
  congr 1
  refine Finset.sum_congr rfl (fun a _ => Finset.sum_congr rfl (fun b _ => ?_))
  rw [coeff_C_mul, coeff_C_mul, map_mul]
  linear_combination (starRingEnd ℂ (P.coeff b) * P.coeff a * ((overlapPermanent (photonList a) (photonList b) : ℝ) : ℂ)) * hzz

theorem bornOutcome_phase {z : ℂ} (hz : ‖z‖ = 1) (g : Cfg) (opt o : List ℕ) (P : MvPolynomial Mode ℂ) : bornOutcome g opt o (C z * P) = bornOutcome g opt o P := by
  unfold bornOutcome
  refine finsum_congr (fun v => finsum_congr (fun _ => bornProb_phase hz v P))

theorem LightGroup.interfering {g : Cfg} (hg : g.Ok) {q0 : QState} {P : MvPolynomial Mode ℂ} {cols : List Column} (h : LightGroup g q0 P cols) :
    InterferingGroup g q0.classical.length q0.cum cols ∧ ∃ z : ℂ, ‖z‖ = 1 ∧ groupPoly g cols = C z * P := by
  obtain ⟨W, z, hW, hz, hp, hc⟩ := h
  have hK : ∀ x, KeepsOf q0 x → x.1.classical.length = q0.classical.length := fun x hx => by rw [hx.1]
  have hi := fun c hc' => (frame_interfering hg hW hK (hc c hc')).1
  exact ⟨⟨⟨framePhase W, framePhase_norm W, fun c hc' => (hi c hc').states⟩, fun c hc' => (hi c hc').fits, fun c hc' => (hi c hc').nonempty, fun c hc' => (hi c hc').amp,
    fun c hc' => (hi c hc').boson, fun c hc' => (hi c hc').gprob, fun c hc' => (hi c hc').classical⟩, z, hz, hp⟩

theorem replaced_trans {A : List Column → List Column → Prop} {B D : List Column → List (List Column) → Prop} {G0 G G' : Groups} (h1 : GroupsRel A G0 G) (h2 : GroupsReplaced B G G')
    (h : ∀ x y z, A x y → B y z → D x z) : GroupsReplaced D G0 G' := by
  have trans : ∀ {α β γ : Type} {A : α → β → Prop} {B : β → γ → Prop} {D : α → γ → Prop} (_ : ∀ x y z, A x y → B y z → D x z) {l1 : List α} {l2 : List β} {l3 : List γ},
      List.Forall₂ A l1 l2 → List.Forall₂ B l2 l3 → List.Forall₂ D l1 l3 := by
    intro α β γ A B D hD l1 l2 l3 h1
    induction h1 generalizing l3 with
    | nil => intro h2; cases h2; exact .nil
    | cons a _ ih =>
      intro h2
      cases h2 with
      | cons b h2 => exact .cons (hD _ _ _ a b) (ih h2)
  refine trans ?_ h1 h2
  rintro e e' e'' ⟨a1, a2⟩ ⟨b1, ys, b2, b3⟩
  refine ⟨b1.trans a1, ys, ?_, b3⟩
  have a3 : List.Forall₂ A (e.2.map Prod.snd) (e'.2.map Prod.snd) := by
    rw [List.forall₂_map_left_iff, List.forall₂_map_right_iff]
    exact a2.imp (fun _ _ hx => hx.2)
  exact trans h a3 b2

theorem isPhotonResolved_write (G : Groups) : isPhotonResolved (writeGroups G) = true := by
  unfold isPhotonResolved
  rw [List.all_eq_true]
  intro s hs
  obtain ⟨_, _, _, _, _, _, _, _, rfl⟩ := mem_writeGroups.1 hs
  rfl

/-- Measurement of a collection with photon information. -/
theorem lit_measure {c : Circ} (hg : c.g.Ok) (hL : c.g.L ≤ 10) {es : List Element} {G0 : Groups} {l : List AState} (h : Lit c.g c.m es G0 l) {opt cls : List ℕ} (hopt : ∀ ch ∈ opt, ch < c.g.C)
    (hcls : cls.length = opt.length) (hclm : ∀ n ∈ cls, n < c.m) :
    ∃ N, ∀ fuel ≥ N, ∃ l' G', runStage c fuel l (.measure opt cls) = some l' ∧ readGroups l' = some G' ∧ Proper G' ∧
      GroupsReplaced (fun cols ys => ∃ q0, FreshState c.g c.m ⟨q0, none⟩ ∧ cols = groupOfState ⟨q0, none⟩ ∧
        BornGroups c.g opt cls q0.cum (circuitSubst q0.classical es (statePoly c.g ⟨q0, none⟩)) ys) G0 G' := by
  obtain ⟨G, rfl, hG, hrel, -⟩ := h
  let gp : List Column → ℝ := fun cols => ((cols.head?).map (fun c => c.gprob)).getD 0
  have hgp : ∀ (m : ℕ) (p : ℝ) (cols : List Column), cols ≠ [] → InterferingGroup c.g m p cols → gp cols = p := by
    intro m p cols hne hi
    cases cols with
    | nil => exact absurd rfl hne
    | cons c' cols => exact hi.gprob c' List.mem_cons_self
  obtain ⟨N, hN⟩ := born_collection c.g hL c.m opt cls G hG gp (by
    intro e he x hx
    obtain ⟨y0, q0, r1, r2, r3⟩ := groupsRel_right hrel e he x hx
    have hi := (r3.interfering hg).1
    rw [hgp _ _ _ ((hG.groups e he).2.2 x hx).nonempty hi]
    have : q0.classical.length = c.m := r1.classical
    rw [← this]
    exact hi) hopt hcls hclm
  refine ⟨N, fun fuel hf => ?_⟩
  obtain ⟨l', G', a1, a2, a3, a4⟩ := hN fuel hf
  refine ⟨l', G', ?_, a2, a3, ?_⟩
  · unfold runStage
    simp only [isPhotonResolved_write]
    exact a1
  · have hrel' : GroupsRel (fun cols0 cols => cols ≠ [] ∧ Origin c.g c.m es cols0 cols) G0 G := by
      have : ∀ e ∈ G, ∀ x ∈ e.2, x.2 ≠ [] := fun e he x hx => ((hG.groups e he).2.2 x hx).nonempty
      clear a4 hN hG a1
      induction hrel with
      | nil => exact .nil
      | @cons e e' G0 G a _ ih =>
        refine .cons ⟨a.1, ?_⟩ (ih (fun e he => this e (List.mem_cons_of_mem _ he)))
        have h2 := this e' List.mem_cons_self
        have a2 := a.2
        generalize e.2 = d at a2
        generalize e'.2 = d' at a2 h2
        induction a2 with
        | nil => exact .nil
        | @cons x x' d d' b _ ihb => exact .cons ⟨b.1, h2 x' List.mem_cons_self, b.2⟩ (ihb (fun x hx => h2 x (List.mem_cons_of_mem _ hx)))
    refine replaced_trans hrel' a4 ?_
    rintro x y ys ⟨hy, q0, r1, r2, r3⟩ hb
    refine ⟨q0, r1, r2, ?_⟩
    obtain ⟨hi, z, hz, hp⟩ := r3.interfering hg
    rw [hgp _ _ _ hy hi, hp] at hb
    obtain ⟨outs, o1, ol, o2, o3⟩ := hb
    refine ⟨outs, o1, ol, fun o ho => by rw [← bornOutcome_phase hz]; exact o2 o ho, o3.imp ?_⟩
    rintro o grp ⟨q1, q2⟩
    exact ⟨q1, fun c' hc' => by rw [← bornOutcome_phase hz]; exact q2 c' hc'⟩

end Verif
