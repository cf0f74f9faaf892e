/-
C108: the arguments of the spectral nodes.
-/
import Verif.Spec.SpectralArgs
import Verif.Props.QuickPipe

namespace Verif.Props
open Verif Spec MvPolynomial

theorem pyGet_neg {α : Type*} (l : List α) (k : ℤ) (h : -(l.length : ℤ) ≤ k) : pyGet l k = l[channelNumber l.length k]? := by
  unfold pyGet pyIndex channelNumber
  by_cases h0 : 0 ≤ k
  · rw [if_pos h0, if_neg (show ¬ k < 0 by omega)]
    by_cases h1 : k < l.length
    · rw [if_pos h1]; rfl
    · rw [if_neg h1, List.getElem?_eq_none (by omega)]; rfl
  · rw [if_neg h0, if_pos h, if_pos (by omega), add_comm]; rfl

theorem pyGet_nat {α : Type*} (l : List α) (n : ℕ) : pyGet l (n : ℤ) = l[n]? := by
  rw [pyGet_neg l n (by omega)]
  unfold channelNumber
  rw [if_neg (by omega), Int.toNat_natCast]

theorem delay_read {d : DelayArg} {d' : DelaySource} (h : DelayMeans d d') (q : QState) : d.read q = d'.read q := by
  cases d <;> cases d'
  · exact congrArg some h
  · exact h.elim
  · exact h.elim
  · show pyGet q.classical _ = _
    rw [show _ = ((_ : ℕ) : ℤ) from h, pyGet_nat]
    rfl

theorem photonInPy_eq {C : ℕ} {v : Vals} (hv : v.length = C) (chs : List ℤ) (h : ∀ k ∈ chs, -(C : ℤ) ≤ k) : photonInPy v chs = photonIn v (chs.map (channelNumber C)) := by
  induction chs with
  | nil => rfl
  | cons k chs ih =>
    unfold photonInPy
    rw [List.map_cons, photonIn, pyGet_neg v k (by rw [hv]; exact h k List.mem_cons_self), hv, ih (fun k hk => h k (List.mem_cons_of_mem _ hk))]

theorem photonInPy_nat (v : Vals) (chs : List ℕ) : photonInPy v (chs.map (fun n : ℕ => (n : ℤ))) = photonIn v chs := by
  induction chs with
  | nil => rfl
  | cons k chs ih => rw [List.map_cons, photonInPy, photonIn, pyGet_nat, ih]

/-! ### Calls with channels that are not negative -/

theorem full_list {g : Cfg} {fuel : ℕ} {a : ChArg} {chs : List ℕ} (ha : ListMeans a chs) {d : DelayArg} {d' : DelaySource} (hd : DelayMeans d d') (w : ℝ) (l : List AState) :
    timeDelayFullArg g fuel a d w l = timeDelayFull g fuel chs d' w l := by
  have hs : delayStateArg g a d w = delayState g chs d' w := by
    funext s
    unfold delayStateArg delayState
    rw [delay_read hd, ha]
    show (d'.read s.q).bind (fun t => (firstValues g s).bind (fun v => (photonInPy v _).map _)) = _
    simp only [photonInPy_nat]
  unfold timeDelayFullArg timeDelayFull
  rw [hs]

theorem quick_parts {g : Cfg} {fuel : ℕ} {a : ChArg} {chs : List ℕ} (ha : ∀ ch : ℕ, inChannels a ch = chs.contains ch) {d : DelayArg} {d' : DelaySource} (hd : ∀ q, d.read q = d'.read q) (w : ℝ) (l : List AState) :
    timeDelayQuickArg g fuel a d w l = timeDelayQuick g fuel chs d' w l := by
  have hs : ∀ p, separateColumnArg g a p = separateColumn g chs p := by
    intro p
    funext s
    unfold separateColumnArg separateColumn
    simp only [ha]
  have hq : quickGroupArg g fuel a d w = quickGroup g fuel chs d' w := by
    funext cols
    unfold quickGroupArg quickGroup
    simp only [hs, hd]
  unfold timeDelayQuickArg timeDelayQuick
  rw [hq]

theorem inChannels_list {a : ChArg} {chs : List ℕ} (ha : ListMeans a chs) (ch : ℕ) : inChannels a ch = chs.contains ch := by
  rw [ha]
  show (chs.map (fun n : ℕ => (n : ℤ))).contains (ch : ℤ) = chs.contains ch
  rw [Bool.eq_iff_iff]
  simp

theorem inChannels_one {a : ChArg} {chs : List ℕ} (ha : OneMeans a chs) (ch : ℕ) : inChannels a ch = chs.contains ch := by
  obtain ⟨n, rfl, rfl⟩ := ha
  show ((ch : ℤ) == (n : ℤ)) = [n].contains ch
  rw [Bool.eq_iff_iff]
  simp

theorem width_list {g : Cfg} {fuel : ℕ} {chs : List ℕ} (w : ℝ) (l : List AState) :
    setPulseWidthArg g fuel (.many (chs.map (fun n : ℕ => (n : ℤ)))) w l = setPulseWidth g fuel chs w l := by
  have hs : widthStateArg g (chs.map (fun n : ℕ => (n : ℤ))) w = widthState g chs w := by
    funext s
    unfold widthStateArg widthState
    simp only [photonInPy_nat]
  show (if chs.map (fun n : ℕ => (n : ℤ)) = [] then some l else _) = _
  unfold setPulseWidth
  simp only [List.map_eq_nil_iff]
  by_cases h0 : chs = []
  · rw [if_pos h0, if_pos h0]
  rw [if_neg h0, if_neg h0]
  have hiff : ((∀ n < g.C, (n : ℤ) ∈ chs.map (fun n : ℕ => (n : ℤ))) ∧ (∀ k ∈ chs.map (fun n : ℕ => (n : ℤ)), ∃ n < g.C, k = (n : ℤ))) ↔ (∀ n < g.C, n ∈ chs) ∧ (∀ n ∈ chs, n < g.C) := by
    constructor
    · rintro ⟨h1, h2⟩
      refine ⟨fun n hn => ?_, fun n hn => ?_⟩
      · obtain ⟨m, hm, e⟩ := List.mem_map.1 (h1 n hn)
        have : m = n := by exact_mod_cast e
        rwa [← this]
      · obtain ⟨m, hm, e⟩ := h2 n (List.mem_map_of_mem hn)
        have : n = m := by exact_mod_cast e
        rwa [this]
    · rintro ⟨h1, h2⟩
      refine ⟨fun n hn => List.mem_map_of_mem (h1 n hn), fun k hk => ?_⟩
      obtain ⟨m, hm, rfl⟩ := List.mem_map.1 hk
      exact ⟨m, h2 m hm, rfl⟩
  by_cases h1 : (∀ n < g.C, n ∈ chs) ∧ (∀ n ∈ chs, n < g.C)
  · rw [if_pos (hiff.2 h1), if_pos h1]
  · rw [if_neg (fun h => h1 (hiff.1 h)), if_neg h1, hs]

theorem quickWidth_iff (pw bw : Option ℝ) (w : ℝ) : quickWidth pw bw = some w ↔ WidthMeans pw bw w := by
  unfold WidthMeans quickWidth
  cases pw with
  | some x => simp
  | none =>
    cases bw with
    | none => simp [eq_comm]
    | some b =>
      by_cases hb : b = 0
      · simp [hb]
      · simp [hb, eq_comm]

/-- The stages of a list of calls that stand for nodes. -/
def StageMeans (c : Circ) (a : AStage) (s : Stage) : Prop := ∀ (fuel : ℕ) (coll : List AState), runAStage c fuel coll a = runStage c fuel coll s

theorem stages_calls {c : Circ} {calls : List SCall} {nodes : List SNode} (h : List.Forall₂ (CallMeans c.g) calls nodes) : ∃ st, stagesOfCalls calls = some st ∧
    List.Forall₂ (fun a s => StageMeans c a s ∧ ∀ n l, a = .optics n l ↔ s = .optics n l) st (stagesOf nodes) := by
  induction h with
  | nil => exact ⟨[], rfl, .nil⟩
  | @cons x n calls nodes h _ ih =>
    obtain ⟨st, e, hst⟩ := ih
    cases x with
    | optical M tl =>
      cases n <;> first | exact h.elim | skip
      obtain ⟨rfl, rfl⟩ := h
      unfold stagesOfCalls
      rw [e, Option.map_some, stagesOf]
      generalize stagesOf nodes = ss at hst
      cases hst with
      | nil => exact ⟨_, rfl, .cons ⟨fun _ _ => rfl, by simp⟩ .nil⟩
      | @cons a s st' ss h1 h2 =>
        refine ⟨_, rfl, ?_⟩
        cases a with
        | optics n l =>
          obtain rfl := (h1.2 n l).1 rfl
          exact .cons ⟨fun _ _ => rfl, by simp⟩ h2
        | _ =>
          cases s with
          | optics n l => exact absurd ((h1.2 n l).2 rfl) (by simp)
          | _ => exact .cons ⟨fun _ _ => rfl, by simp⟩ (.cons h1 h2)
    | delay a d w =>
      cases n <;> first | exact h.elim | skip
      obtain ⟨h1, h2, rfl⟩ := h
      unfold stagesOfCalls
      rw [e, Option.map_some, stagesOf]
      exact ⟨_, rfl, .cons ⟨fun fuel coll => full_list h1 h2 w coll, by simp⟩ hst⟩
    | quick a d pw bw =>
      cases n <;> first | exact h.elim | skip
      obtain ⟨h1, h2, h3⟩ := h
      unfold stagesOfCalls
      rw [(quickWidth_iff _ _ _).2 h3, Option.bind_some, e, Option.map_some, stagesOf]
      refine ⟨_, rfl, .cons ⟨fun fuel coll => quick_parts ?_ (delay_read h2) _ coll, by simp⟩ hst⟩
      rcases h1 with h1 | h1
      · exact inChannels_list h1
      · exact inChannels_one h1
    | width a w =>
      cases n <;> first | exact h.elim | skip
      obtain ⟨h1, rfl⟩ := h
      unfold stagesOfCalls
      rw [e, Option.map_some, stagesOf]
      refine ⟨_, rfl, .cons ⟨fun fuel coll => ?_, by simp⟩ hst⟩
      rcases h1 with h1 | ⟨rfl, _, rfl⟩
      · rw [h1]
        exact width_list w coll
      · exact width_list w coll
    | measure opt cls =>
      cases n <;> first | exact h.elim | skip
      obtain ⟨rfl, rfl⟩ := h
      unfold stagesOfCalls
      rw [e, Option.map_some, stagesOf]
      exact ⟨_, rfl, .cons ⟨fun _ _ => rfl, by simp⟩ hst⟩

/-- **C108** Circuits built by calls with lists of channels (a single channel for the quick delay; no channels for set_pulse_width: all channels; pulse width or bandwidth for the quick
delay) do what the nodes with these channels do. -/
theorem C108_calls_partial (c : Circ) (calls : List SCall) (nodes : List SNode) (h : List.Forall₂ (CallMeans c.g) calls nodes) (fuel : ℕ) (coll : List AState) :
    evalCalls c fuel calls coll = evalSpectral c fuel nodes coll := by
  obtain ⟨st, e, hst⟩ := stages_calls h
  unfold evalCalls evalSpectral runStages
  rw [e, Option.bind_some]
  clear e h
  generalize stagesOf nodes = ss at hst
  induction hst generalizing coll with
  | nil => rfl
  | cons h1 _ ih =>
    rw [List.foldlM_cons, List.foldlM_cons, h1.1]
    exact Option.bind_congr (fun x _ => ih x)

/-! ### Negative channel numbers -/

theorem firstValues_photon {g : Cfg} {s : PState} (h : PhotonState g s) : ∃ v, firstValues g s = some v ∧ v.length = g.C := by
  obtain ⟨v, a, hv, _, hc⟩ := h
  exact ⟨v, firstValues_nums ⟨hv, _, hc⟩, hv.1⟩

theorem mapM_option_congr {α β : Type*} {f f' : α → Option β} {l : List α} (h : ∀ x ∈ l, f x = f' x) : l.mapM f = l.mapM f' := by
  induction l with
  | nil => rfl
  | cons x l ih => rw [List.mapM_cons, List.mapM_cons, h x List.mem_cons_self, ih (fun y hy => h y (List.mem_cons_of_mem _ hy))]

/-- A node that works on single photons depends on its effect on single photons only. -/
theorem photon_congr {g : Cfg} {fuel : ℕ} {l : List AState} (hw : WellFormedAll g l) {f f' : PState → Option PState} (hf : ∀ s, PhotonState g s → f s = f' s) :
    (readGroups l).bind (fun G => (G.mapM (fun cols => (toPhotons g fuel cols).bind (mapStates f))).map writeGroups) =
    (readGroups l).bind (fun G => (G.mapM (fun cols => (toPhotons g fuel cols).bind (mapStates f'))).map writeGroups) := by
  refine Option.bind_congr (fun G hG => ?_)
  have hG : readGroups l = some G := hG
  have hpr := readGroups_proper hG
  have hwf := wfCols_of_read hw hG
  congr 1
  unfold Groups.mapM
  refine mapM_option_congr (fun e he => ?_)
  congr 1
  refine mapM_option_congr (fun x hx => ?_)
  congr 1
  refine Option.bind_congr (fun ph hph => ?_)
  have hout := (toPhotons_out (hwf e he x hx) ((hpr.groups e he).2.2 x hx) hph).2
  unfold mapStates
  refine mapM_option_congr (fun c hc => ?_)
  congr 1
  exact mapM_option_congr (fun s hs => hf s (hout c hc s hs))

theorem set_nonempty {α β : Type*} [DecidableEq α] (d : Dict α β) (k : α) (v : β) : d.set k v ≠ [] := by
  cases d with
  | nil => simp [Dict.set]
  | cons x d => unfold Dict.set; split <;> simp

theorem readGroups_nonempty {l : List AState} (hne : l ≠ []) {G : Groups} (h : readGroups l = some G) : G ≠ [] := by
  obtain ⟨l, s, rfl⟩ := (List.eq_nil_or_concat l).resolve_left hne
  unfold readGroups at h
  rw [List.concat_eq_append, List.foldlM_append] at h
  obtain ⟨G0, -, h⟩ := Option.bind_eq_some_iff.1 h
  have h : readState G0 s = some G := by simpa using h
  unfold readState at h
  split at h
  · obtain rfl := Option.some.inj h
    exact set_nonempty _ _ _
  · cases h
  · obtain rfl := Option.some.inj h
    exact set_nonempty _ _ _

/-- A node that raises for every single photon raises for every collection that is not empty. -/
theorem photon_raises {g : Cfg} {fuel : ℕ} {l : List AState} (hw : WellFormedAll g l) (hne : l ≠ []) {f : PState → Option PState} (hf : ∀ s, PhotonState g s → f s = none) :
    (readGroups l).bind (fun G => (G.mapM (fun cols => (toPhotons g fuel cols).bind (mapStates f))).map writeGroups) = none := by
  rw [photon_congr hw (f' := fun _ => none) hf, Option.eq_none_iff_forall_not_mem]
  intro l' h
  obtain ⟨G, P, G', h1, h2, hP, -, h3, -⟩ := photon_node hw (f := fun _ => none) (by intro s s' e; cases e) h
  rcases G with _ | ⟨e, G⟩
  · exact readGroups_nonempty hne h1 rfl
  · cases h2 with
    | @cons _ e' _ P' he _ =>
      cases h3 with
      | @cons _ e'' _ _ he' _ =>
        obtain ⟨p1, -, p3⟩ := hP.groups e' List.mem_cons_self
        obtain ⟨-, he'⟩ := he'
        cases hd : e'.2 with
        | nil => exact p1 hd
        | cons x d =>
          rw [hd] at he' p3
          generalize e''.2 = d'' at he'
          cases he' with
          | @cons _ x' _ _ hx _ =>
            have hp := p3 x List.mem_cons_self
            obtain ⟨-, hx⟩ := hx
            cases hc : x.2 with
            | nil => exact hp.nonempty hc
            | cons c cols =>
              rw [hc] at hx
              generalize x'.2 = cols'' at hx
              cases hx with
              | @cons _ c' _ _ hcc _ =>
                have := hcc.states
                cases hs : c.states with
                | nil => exact hp.columns c (by rw [hc]; exact List.mem_cons_self) hs
                | cons s sts =>
                  rw [hs] at this
                  generalize c'.states = sts'' at this
                  cases this with
                  | cons h0 _ => cases h0

/-- **C108** In the full delay negative numbers count from the last channel. -/
theorem C108_negative_full (g : Cfg) (fuel : ℕ) (chs : List ℤ) (h : ∀ k ∈ chs, -(g.C : ℤ) ≤ k) (d : DelayArg) (d' : DelaySource) (hd : DelayMeans d d') (w : ℝ) (l : List AState) (hw : WellFormedAll g l) :
    timeDelayFullArg g fuel (.many chs) d w l = timeDelayFull g fuel (chs.map (channelNumber g.C)) d' w l := by
  refine photon_congr hw (fun s hs => ?_)
  obtain ⟨v, h1, h2⟩ := firstValues_photon hs
  unfold delayStateArg delayState
  rw [delay_read hd, h1]
  show (d'.read s.q).bind (fun t => (some v).bind (fun v => (photonInPy v chs).map _)) = _
  simp only [Option.bind_some, photonInPy_eq h2 chs h]

/-- **C108** In the quick delay negative numbers are ignored, and None means no channel. -/
theorem C108_negative_quick (g : Cfg) (fuel : ℕ) (chs : List ℤ) (d : DelayArg) (d' : DelaySource) (hd : DelayMeans d d') (w : ℝ) (l : List AState) :
    timeDelayQuickArg g fuel (.many chs) d w l = timeDelayQuick g fuel ((chs.filter (fun k => 0 ≤ k)).map Int.toNat) d' w l ∧
      timeDelayQuickArg g fuel .missing d w l = timeDelayQuick g fuel [] d' w l := by
  refine ⟨quick_parts (fun ch => ?_) (delay_read hd) w l, quick_parts (fun ch => by simp [inChannels]) (delay_read hd) w l⟩
  show chs.contains (ch : ℤ) = _
  rw [Bool.eq_iff_iff]
  simp only [List.contains_iff_mem, List.mem_map, List.mem_filter, decide_eq_true_eq]
  constructor
  · exact fun h => ⟨ch, ⟨h, by omega⟩, by simp⟩
  · rintro ⟨k, ⟨h1, h2⟩, h3⟩
    rwa [show (ch : ℤ) = k by omega]

/-- **C108** fails for the full delay with a single channel or with None, although the code says "ensure channel_numbers is a list": every collection with a state raises. A channel that does
not exist raises as well, when the circuit is evaluated; the quick delay ignores it (`C108_negative_quick`). -/
theorem C108_full_fails (g : Cfg) (fuel : ℕ) (d : DelayArg) (w : ℝ) (l : List AState) (hw : WellFormedAll g l) (hne : l ≠ []) :
    (∀ k : ℤ, timeDelayFullArg g fuel (.one k) d w l = none) ∧ timeDelayFullArg g fuel .missing d w l = none ∧
      ∀ (k : ℤ) (chs : List ℤ), ((g.C : ℤ) ≤ k ∨ k < -(g.C : ℤ)) → timeDelayFullArg g fuel (.many (k :: chs)) d w l = none := by
  have hnone : ∀ a : ChArg, (∀ v : Vals, v.length = g.C → photonInArg v a = none) → timeDelayFullArg g fuel a d w l = none := by
    intro a ha
    refine photon_raises hw hne (fun s hs => ?_)
    obtain ⟨v, h1, h2⟩ := firstValues_photon hs
    unfold delayStateArg
    rw [h1]
    simp only [Option.bind_some, ha v h2, Option.map_none]
    cases d.read s.q <;> rfl
  refine ⟨fun k => hnone _ (fun _ _ => rfl), hnone _ (fun _ _ => rfl), fun k chs hk => hnone _ (fun v hv => ?_)⟩
  show photonInPy v (k :: chs) = none
  unfold photonInPy
  have : pyGet v k = none := by
    unfold pyGet pyIndex
    rw [hv]
    rcases hk with hk | hk
    · rw [if_pos (by omega), if_neg (by omega)]; rfl
    · rw [if_neg (by omega), if_neg (by omega)]; rfl
  rw [this]
  rfl

/-- **C108** set_pulse_width with a single channel raises, for every collection. -/
theorem C108_width_fails (g : Cfg) (fuel : ℕ) (k : ℤ) (w : ℝ) (l : List AState) : setPulseWidthArg g fuel (.one k) w l = none := rfl

/-- **C108** The quick delay with a bandwidth of zero cannot be added to a circuit, whatever else is in the circuit. -/
theorem C108_bandwidth (c : Circ) (fuel : ℕ) (pre post : List SCall) (a : ChArg) (d : DelayArg) (coll : List AState) :
    evalCalls c fuel (pre ++ .quick a d none (some 0) :: post) coll = none := by
  have : stagesOfCalls (pre ++ .quick a d none (some 0) :: post) = none := by
    induction pre with
    | nil =>
      show (quickWidth none (some 0)).bind _ = none
      unfold quickWidth
      simp
    | cons x pre ih =>
      rw [List.cons_append]
      cases x <;> unfold stagesOfCalls <;> rw [ih] <;> simp
  unfold evalCalls
  rw [this]
  rfl

/-! ### The two delays disagree on negative numbers -/

theorem evalCalls_delay (c : Circ) (fuel : ℕ) (a : ChArg) (d : DelayArg) (w : ℝ) (rest : List SCall) (coll : List AState) :
    evalCalls c fuel (.delay a d w :: rest) coll = (stagesOfCalls rest).bind (fun st => (timeDelayFullArg c.g fuel a d w coll).bind (fun l => st.foldlM (runAStage c fuel) l)) := by
  unfold evalCalls
  show ((stagesOfCalls rest).map _).bind _ = _
  rw [Option.bind_map]
  rfl

theorem evalCalls_quick (c : Circ) (fuel : ℕ) (a : ChArg) (d : DelayArg) (w : ℝ) (rest : List SCall) (coll : List AState) :
    evalCalls c fuel (.quick a d (some w) none :: rest) coll = (stagesOfCalls rest).bind (fun st => (timeDelayQuickArg c.g fuel a d w coll).bind (fun l => st.foldlM (runAStage c fuel) l)) := by
  unfold evalCalls
  show ((stagesOfCalls rest).map _).bind _ = _
  rw [Option.bind_map]
  rfl

/-- **C108** fails for negative channel numbers: photons in both channels, delay by one pulse width of channel -2 (of 2 channels), 50/50 beam splitter. With the full delay the photons leave by
different channels with probability 1/4 (they are delayed), with the quick delay never (there is no delay). -/
theorem C108_negative_fails : ∃ N, ∀ fuel ≥ N, ∃ l d l' d',
    evalCalls dipCirc fuel [.delay (.many [-2]) (.value 1) 1, .optical (genericMatrix (Real.pi / 8) Real.pi) [0, 1], .measure [0, 1] [0, 1]] [⟨stretchState, none⟩] = some l ∧ readGroups l = some [("in".toList, d)] ∧
    evalCalls dipCirc fuel [.quick (.many [-2]) (.value 1) (some 1) none, .optical (genericMatrix (Real.pi / 8) Real.pi) [0, 1], .measure [0, 1] [0, 1]] [⟨stretchState, none⟩] = some l' ∧
    readGroups l' = some [("in".toList, d')] ∧ OutcomeProbability (d.map Prod.snd) [0, 1] [1, 1] (1 / 4) ∧ OutcomeTotal (d'.map Prod.snd) [0, 1] [1, 1] 0 := by
  have hun : mixM ∈ Matrix.unitaryGroup (Fin 2) ℂ := (C17_wave_plate _ _ 0).1
  have hunl : ∀ e ∈ [(⟨mixM, 0, 1⟩ : Gate)], e.M ∈ Matrix.unitaryGroup (Fin 2) ℂ := by intro e he; obtain rfl := List.mem_singleton.1 he; exact hun
  have hnode : GateNode colCfg ⟨mixM, 0, 1⟩ (mixM, [0, 1]) := colGate _
  have hv : Valid colCfg [1, 1] := by decide
  have hvh : ∀ ch < colCfg.C, ([1, 1] : Vals).getD ch 0 = if ch = 0 ∨ ch = 1 then 1 else 0 := by decide
  have hq : stretchState.comps = [(colCfg.stdName [1, 1], ⟨1, 1⟩)] := rfl
  have hfresh : FreshState colCfg 2 ⟨stretchState, none⟩ := fresh_one (v := [1, 1]) (a := 1) (by decide) (by decide) (by decide) (by simp) rfl (by norm_num [stretchState]) rfl
  have hst : statePoly colCfg ⟨stretchState, none⟩ = ketPoly none [1, 1] := by rw [statePoly_single (g := colCfg) (v := [1, 1]) (k := ⟨1, 1⟩) ⟨stretchState, none⟩ (by decide) rfl]; simp
  have hwf : WellFormedAll colCfg [⟨stretchState, none⟩] := by
    intro s hs
    obtain rfl := List.mem_singleton.1 hs
    exact hfresh.wf
  obtain ⟨N, hN⟩ := C103_dip dipCirc (by decide) (by decide) (by decide) (by norm_num [dipCirc]) (by norm_num [dipCirc]) 0 1 mixM hun (fun i j hlt => by rw [mix_half] at hlt; norm_num [dipCirc] at hlt) (mixM, [0, 1]) hnode
    [0] (by decide) (by decide) (by decide) 1 1 one_ne_zero stretchState 1 norm_one [1, 1] hv hvh hq (by norm_num [stretchState]) rfl 0 1 (by decide) (by decide) (by decide)
  obtain ⟨N', hN'⟩ := C106_partial dipCirc (by decide) (by decide) (by norm_num [dipCirc]) [] (.value 1) (by intro ch e; cases e) 1 one_ne_zero [] [(mixM, [0, 1])] [] [⟨mixM, 0, 1⟩] .nil (.cons hnode .nil) (by simp)
    hunl (mix_kets_keep (g := colCfg) (thr := 1 / 1000) (by norm_num [colCfg, Nat.factorial]) (by norm_num) 0 1) (mix_noBare (g := colCfg) (by decide) (by decide) (by decide)) stretchState hfresh (fun h => absurd rfl h)
    (by
      intro w a hw he
      have he' : statePoly colCfg ⟨stretchState, none⟩ = C a * ketPoly none w := he
      rw [hst] at he'
      exact ket_phase hv hw he') [0, 1] [0, 1] (by decide) rfl (by decide) (by decide)
  refine ⟨max N N', fun fuel hf => ?_⟩
  obtain ⟨l, d, a1, a2, a3⟩ := hN fuel (le_trans (le_max_left _ _) hf)
  obtain ⟨l', d', b1, b2, b3⟩ := hN' fuel (le_trans (le_max_right _ _) hf)
  have hrest : ∀ x : SCall, ∀ n : SNode, CallMeans colCfg x n → List.Forall₂ (CallMeans dipCirc.g) [x, .optical mixM [0, 1], .measure [0, 1] [0, 1]] [n, .optical mixM [0, 1], .measure [0, 1] [0, 1]] :=
    fun x n h => .cons h (.cons ⟨rfl, rfl⟩ (.cons ⟨rfl, rfl⟩ .nil))
  refine ⟨l, d, l', d', ?_, a2, ?_, b2, ?_, ?_⟩
  · rw [← a1, ← C108_calls_partial dipCirc _ _ (hrest (.delay (.many [0]) (.value 1) 1) (.delay [0] (.value 1) 1) ⟨rfl, rfl, rfl⟩)]
    rw [evalCalls_delay, evalCalls_delay]
    congr 1
    funext st
    congr 1
    have e1 := C108_negative_full colCfg fuel [-2] (by decide) (.value 1) (.value 1) rfl 1 [⟨stretchState, none⟩] hwf
    have e2 := C108_negative_full colCfg fuel [0] (by decide) (.value 1) (.value 1) rfl 1 [⟨stretchState, none⟩] hwf
    exact e1.trans e2.symm
  · rw [← b1]
    refine Eq.trans ?_ (C108_calls_partial dipCirc _ _ (hrest (.quick (.many []) (.value 1) (some 1) none) (.quick [] (.value 1) 1) ⟨.inl rfl, rfl, .inl rfl⟩) fuel _)
    rw [evalCalls_quick, evalCalls_quick]
    refine Option.bind_congr (fun st _ => congrArg (fun x : Option (List AState) => x.bind _) ?_)
    exact ((C108_negative_quick colCfg fuel [-2] (.value 1) (.value 1) rfl 1 _).1).trans ((C108_negative_quick colCfg fuel [] (.value 1) (.value 1) rfl 1 _).1).symm
  · have e0 : Real.exp (-(Real.log 2) * (1 / 1) ^ 2) = 1 / 2 := by
      rw [show -(Real.log 2) * (1 / 1) ^ 2 = Real.log (1 / 2) by rw [one_div 2, Real.log_inv]; ring, Real.exp_log (by norm_num)]
    rw [mix_half, mix_half, e0, show stretchState.cum = 1 from rfl, show (1 : ℝ) * ((1 / 2) ^ 2 + (1 / 2) ^ 2 - 2 * (1 / 2) * (1 / 2) * (1 / 2)) = 1 / 4 by norm_num] at a3
    exact a3
  · have h2 := b3 [1, 1] rfl
    have hmode : ∀ s : ℝ, delayMode [] s 1 = delayMode [0] 0 1 := by
      intro s
      funext m
      unfold delayMode
      simp
    have hp : ∀ s : ℝ, bornOutcome dipCirc.g [0, 1] [1, 1] (circuitSubst stretchState.classical [.optics [], .delay [] (.value s) 1, .optics [⟨mixM, 0, 1⟩]] (statePoly dipCirc.g ⟨stretchState, none⟩)) = 0 := by
      intro s
      have := dip_probability (g := colCfg) (by decide) (h := 0) (k := 1) (by decide) (by decide) (by decide) hun (chs := [0]) (by decide) (by decide) 0 (w := 1) one_ne_zero norm_one hv hvh hq
      show bornOutcome colCfg [0, 1] [1, 1] (opticsSubst [⟨mixM, 0, 1⟩] (rename (delayMode [] s 1) (statePoly colCfg ⟨stretchState, none⟩))) = 0
      rw [hmode s, this, mix_half, mix_half]
      norm_num
    rw [hp, hp, mul_zero, mul_zero, add_zero, mul_zero] at h2
    exact h2

/-! ### The hypotheses are met -/

/-- C108: full delay of channel 0, quick delay of channel 1 given as a number with bandwidth 2, pulse width of all channels. -/
example : List.Forall₂ (CallMeans colCfg) [.delay (.many [0]) (.classical 1) 1, .optical (mixM : Opt) [0, 1], .quick (.one 1) (.value 3) none (some 2), .width .missing 4, .measure [0] [1]]
    [.delay [0] (.classical 1) 1, .optical mixM [0, 1], .quick [1] (.value 3) (1 / 2), .width [0, 1] 4, .measure [0] [1]] :=
  .cons ⟨rfl, rfl, rfl⟩ (.cons ⟨rfl, rfl⟩ (.cons ⟨.inr ⟨1, rfl, rfl⟩, rfl, .inr (.inl ⟨rfl, 2, rfl, two_ne_zero, by norm_num⟩)⟩ (.cons ⟨.inr ⟨rfl, by decide, rfl⟩, rfl⟩ (.cons ⟨rfl, rfl⟩ .nil))))

example : WellFormedAll colCfg [⟨stretchState, none⟩] ∧ [(⟨stretchState, none⟩ : AState)] ≠ [] := by
  refine ⟨?_, by simp⟩
  intro s hs
  obtain rfl := List.mem_singleton.1 hs
  exact (fresh_one (g := colCfg) (m := 2) (v := [1, 1]) (a := 1) (q := stretchState) (by decide) (by decide) (by decide) (by simp) rfl (by norm_num [stretchState]) rfl).wf

end Verif.Props
