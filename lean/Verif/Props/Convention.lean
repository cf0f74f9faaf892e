/-
Property theorems for C109: the naming convention `channel_0_left_in_state_name` only affects the strings.
-/
import Verif.Lemmas.Convention2
import Verif.Model.ShiftColl
import Verif.Props.Shift

namespace Verif.Props
open Verif Spec

/-- **C109** Take circuits, possibly connected by bridges in any way, and the same circuits with the other naming convention, and evaluate any
list of nodes on the same collection written in the two conventions (labels may be chosen freely). Then either both evaluations fail, or both
give the same collection: the same identifiers in the same order, and for each the same photon numbers, amplitudes, probabilities, classical
values and measurement results. -/
theorem C109_convention (R : List Char → List Char → Prop) (env env' : ℕ → Circ) (rnd : ℕ → ℕ → Bool → ℕ → ℕ → ℕ)
    (hc : ∀ k, SameCircuit R (env k) (env' k)) (hg : ∀ k, (env k).g.Ok) (fuel k : ℕ) (nodes : List ℕ) (coll coll' : Coll)
    (h : SameColl (env k).g R coll coll') :
    Both (fun out out' => SameColl out.own.g R out.states out'.states)
      (evalHeld env rnd fuel k nodes ⟨(env k).settings, (env k).settings, coll⟩)
      (evalHeld env' rnd fuel k nodes ⟨(env' k).settings, (env' k).settings, coll'⟩) := by
  refine Both.mono (fun o o' ho => ?_) (evalHeld_same (R := R) (rnd := rnd) hc hg fuel k nodes _ _ ⟨(hc k).settings, (hc k).settings, h, (hg k).1, Or.inl ⟨rfl, rfl, rfl, rfl⟩⟩)
  obtain ⟨j, hj⟩ := ho
  exact hj.states

/-- **C109** The same for compound circuits. -/
theorem C109_compound (R : List Char → List Char → Prop) (d d' : Circ) (cs cs' : List Circ) (rnd : ℕ → ℕ → Bool → ℕ → ℕ → ℕ)
    (hd : SameCircuit R d d') (hdg : d.g.Ok) (hc : List.Forall₂ (SameCircuit R) cs cs') (hg : ∀ c ∈ cs, c.g.Ok) (fuel : ℕ) (coll coll' : Coll)
    (h : SameColl (cs.getD 0 d).g R coll coll') :
    Both (fun out out' => SameColl out.own.g R out.states out'.states)
      (evalCompoundHeld d cs rnd fuel ⟨(cs.getD 0 d).settings, (cs.getD 0 d).settings, coll⟩)
      (evalCompoundHeld d' cs' rnd fuel ⟨(cs'.getD 0 d').settings, (cs'.getD 0 d').settings, coll'⟩) := by
  have hlen : cs'.length = cs.length := (List.Forall₂.length_eq hc).symm
  have hget : ∀ k, SameCircuit R (cs.getD k d) (cs'.getD k d') := by
    clear hg h hlen
    induction hc with
    | nil => intro k; exact hd
    | cons hp _ ih =>
      intro k
      cases k with
      | zero => exact hp
      | succ k => exact ih k
  have hsame : ∀ k, SameCircuit R (compoundEnv d cs k) (compoundEnv d' cs' k) := by
    intro k
    have hk := hget k
    refine ⟨hk.g, hk.m, hk.thr, hk.full, ?_⟩
    show List.Forall₂ _ (if k + 1 < cs.length then (cs.getD k d).nodes ++ [.bridge (k + 1)] else (cs.getD k d).nodes)
      (if k + 1 < cs'.length then (cs'.getD k d').nodes ++ [.bridge (k + 1)] else (cs'.getD k d').nodes)
    rw [hlen]
    split
    · exact List.rel_append hk.nodes (.cons rfl .nil)
    · exact hk.nodes
  have hok : ∀ k, (compoundEnv d cs k).g.Ok := by
    intro k
    show (cs.getD k d).g.Ok
    by_cases hk : k < cs.length
    · rw [List.getD_eq_getElem _ _ hk]; exact hg _ (List.getElem_mem hk)
    · rw [List.getD_eq_default _ _ (by omega)]; exact hdg
  unfold evalCompoundHeld
  rw [(hsame 0).length]
  exact C109_convention R (compoundEnv d cs) (compoundEnv d' cs') rnd hsame hok fuel 0 _ coll coll' h

/-- **C109** The default input: the collections made for the two conventions are the same (the label of each state is its name). -/
theorem C109_default (g : Cfg) (hg : g.Ok) (m : ℕ) (names names' : List Name) (h : List.Forall₂ (SameName g) names names') :
    Both (SameColl g (SameName g)) (defaultColl g m names) (defaultColl (otherWay g) m names') := by
  have hlen : names'.length = names.length := (List.Forall₂.length_eq h).symm
  unfold defaultColl
  rw [hlen]
  refine Both.foldlM (forall₂_zipIdx h 0) ?_ (show SameColl g (SameName g) [] [] from List.Forall₂.nil)
  rintro s s' a b hs ⟨hab, e⟩
  refine Both.bind (R := fun q q' : QState => q.cum = q'.cum ∧ q.classical = q'.classical ∧ q.results = q'.results) ?_ (fun q q' _ _ hq => ?_)
  · exact Both.map (both_nameAt hg.1 0) (fun _ _ _ => ⟨rfl, rfl, rfl⟩)
  · refine Both.bind (setFromDict_same (g := g) (c := [(a.1, ⟨1, 1⟩)]) (c' := [(b.1, ⟨1, 1⟩)]) (.cons ⟨hab, rfl⟩ .nil)) (fun k k' _ _ hk => ?_)
    rw [e]
    exact SameColl.set hs _ ⟨hab, hq.1, hk, hq.2.1, hq.2.2⟩

/-- **C109** Density matrices do not depend on the convention. -/
theorem C109_density (g : Cfg) (R : List Char → List Char → Prop) (coll coll' : Coll) (h : SameColl g R coll coll') (label label' : List Char)
    (hR : ∀ a b, R a b → (a = label ↔ b = label')) : densityMatrix (otherWay g) coll' label' = densityMatrix g coll label := by
  have : Both (fun x y : ℕ → ℕ → ℂ => x = y) (densityMatrix g coll label) (densityMatrix (otherWay g) coll' label') := by
    refine Both.foldlM h ?_ rfl
    rintro s s' p p' rfl ⟨-, hp⟩
    by_cases hl : p.2.initial = label
    · rw [if_pos hl, if_pos ((hR _ _ hp.label).1 hl), toVector_same hp.comps, hp.cum]
      exact Both.eq rfl
    · rw [if_neg hl, if_neg (fun e => hl ((hR _ _ hp.label).2 e))]
      rfl
  revert this
  cases densityMatrix g coll label <;> cases densityMatrix (otherWay g) coll' label' <;> intro h' <;> first | rfl | exact h'.elim | exact congrArg some h'.symm

theorem moveComps_same {g : Cfg} {move : Vals → Option Vals} (hm : ∀ v w, Valid g v → move v = some w → Valid g w) {c c' : Comps} (h : SameComps g c c') :
    Both (SameComps g) (moveComps g move c) (moveComps (otherWay g) move c') := by
  refine Both.bind (R := SameComps g) (Both.foldlM h ?_ (show SameComps g [] [] from List.Forall₂.nil)) (fun k k' _ _ hk => setFromDict_same hk)
  rintro d d' p p' hd ⟨h1, h2⟩
  refine Both.bind (both_parse h1) ?_
  rintro v _ _ _ ⟨rfl, hv⟩
  refine Both.bind (Both.eq rfl) ?_
  rintro w _ hw _ rfl
  exact Both.bind (both_render (hm v w hv hw)) (fun s s' _ _ hs => DRel.set (sameName_biUniq g) hd hs h2)

theorem moveColl_same {c c' : Circ} {R : List Char → List Char → Prop} (hg : c'.g = otherWay c.g) (hthr : c'.thr = c.thr) (hm : c'.m = c.m)
    {move : Vals → Option Vals} (hv : ∀ v w, Valid c.g v → move v = some w → Valid c.g w) (r : ℕ → ℕ → ℕ) :
    SameNode c.g R (.generic (moveColl c move r)) (.generic (moveColl c' move r)) := by
  refine ⟨fun coll coll' h => ?_, fun out ho => (Option.some.inj ho).symm⟩
  unfold moveColl
  rw [hg, hthr, hm]
  refine Both.bind (copyColl_same h) (fun _ _ _ _ _ => ?_)
  refine Both.foldlM h ?_ (show SameColl c.g R [] [] from List.Forall₂.nil)
  rintro s s' p p' hs ⟨h1, h2⟩
  refine Both.bind (copyState_same h2) (fun q q' _ _ hq => ?_)
  refine Both.bind (moveComps_same hv h2.comps) (fun k k' _ _ hk => ?_)
  rw [← List.Forall₂.length_eq hs]
  exact addState_same hs (SameState.withComps hq hk) none _

theorem foldlM_preserves {α β : Type*} {P : β → Prop} {f : β → α → Option β} (hf : ∀ b a b', P b → f b a = some b' → P b') :
    ∀ (l : List α) (b b' : β), P b → l.foldlM f b = some b' → P b' := by
  intro l
  induction l with
  | nil => intro b b' hb h; obtain rfl := Option.some.inj h; exact hb
  | cons a l ih =>
    intro b b' hb h
    rw [List.foldlM_cons] at h
    obtain ⟨x, hx, h⟩ := Option.bind_eq_some_iff.1 h
    exact ih x b' (hf b a x hb hx) h

theorem shiftValues_valid {g : Cfg} (hL : 1 ≤ g.L) {targets : List ℕ} {shifts : List ℤ} (v w : Vals) (hv : Valid g v)
    (h : shiftValues g.L targets shifts v = some w) : Valid g w := by
  refine foldlM_preserves (P := Valid g) ?_ _ _ _ hv h
  intro b a b' hb h
  obtain ⟨x, -, rfl⟩ := Option.map_eq_some_iff.1 h
  refine ⟨by rw [List.length_set]; exact hb.1, ?_⟩
  intro y hy
  rcases List.mem_or_eq_of_mem_set hy with h | rfl
  · exact hb.2 y h
  · unfold addMod
    have : (a.1 + (x : ℤ)) % (g.L : ℤ) < g.L := Int.emod_lt_of_pos _ (by omega)
    omega

theorem cShiftValues_valid {g : Cfg} (hL : 1 ≤ g.L) {controls targets : List ℕ} (v w : Vals) (hv : Valid g v)
    (h : cShiftValues g.L controls targets v = some w) : Valid g w := by
  refine foldlM_preserves (P := Valid g) ?_ _ _ _ hv h
  intro b a b' hb h
  obtain ⟨x, -, h⟩ := Option.bind_eq_some_iff.1 h
  obtain ⟨z, -, rfl⟩ := Option.map_eq_some_iff.1 h
  refine ⟨by rw [List.length_set]; exact hb.1, ?_⟩
  intro y hy
  rcases List.mem_or_eq_of_mem_set hy with h | rfl
  · exact hb.2 y h
  · exact Nat.mod_lt _ hL

/-- **C109** The nodes added by `shift_direct` and `c_shift_direct` do the same under both conventions. -/
theorem C109_shift_direct (c c' : Circ) (R : List Char → List Char → Prop) (hL : 1 ≤ c.g.L) (hg : c'.g = otherWay c.g) (hthr : c'.thr = c.thr)
    (hm : c'.m = c.m) (targets controls : List ℕ) (shifts : List ℤ) (r : ℕ → ℕ → ℕ) :
    SameNode c.g R (shiftDirectNode c targets shifts r) (shiftDirectNode c' targets shifts r) ∧
      SameNode c.g R (cShiftDirectNode c controls targets r) (cShiftDirectNode c' controls targets r) := by
  have e : c'.g.L = c.g.L := by rw [hg]; rfl
  unfold shiftDirectNode cShiftDirectNode
  rw [e]
  exact ⟨moveColl_same hg hthr hm (shiftValues_valid hL) r, moveColl_same hg hthr hm (cShiftValues_valid hL) r⟩

/-- The other convention for a circuit without functions on collections. -/
def otherCirc (c : Circ) : Circ := { c with g := otherWay c.g }

theorem sameCircuit_other (R : List Char → List Char → Prop) (c : Circ) (h : ∀ n ∈ c.nodes, ∀ f, n ≠ .generic f) : SameCircuit R c (otherCirc c) := by
  refine ⟨rfl, rfl, rfl, rfl, ?_⟩
  show List.Forall₂ _ c.nodes c.nodes
  generalize c.nodes = l at h
  induction l with
  | nil => exact .nil
  | cons n l ih =>
    refine .cons ?_ (ih (fun n' hn' => h n' (by simp [hn'])))
    cases n with
    | generic f => exact absurd rfl (h _ (by simp) f)
    | _ => rfl

/-- two circuits with different conventions, an optical node, a measurement and a shift, connected by a bridge -/
noncomputable def convEnv : ℕ → Circ
  | 0 => ⟨⟨3, 2, true⟩, 1, 1 / 10000, false, [.optical (genericMatrix 1 0) [0, 1], .bridge 1]⟩
  | _ => ⟨⟨2, 3, false⟩, 2, 1 / 10000, false, [.measurement [0] [1]]⟩

/-- The hypotheses of `C109_convention` are met: two photons in channel 0 and one in channel 1, superposed with the reverse; '21' and '12' become
'12' and '21' under the other convention. -/
example : (∀ k, SameCircuit (fun a b => a = b.reverse) (convEnv k) (otherCirc (convEnv k))) ∧ (∀ k, (convEnv k).g.Ok) ∧
    SameColl (convEnv 0).g (fun a b => a = b.reverse)
      [("a".toList, ⟨"21".toList, 1, [("21".toList, ⟨1 / 2, 1 / 4⟩), ("12".toList, ⟨1 / 2, 1 / 4⟩)], [0], []⟩)]
      [("a".toList, ⟨"12".toList, 1, [("12".toList, ⟨1 / 2, 1 / 4⟩), ("21".toList, ⟨1 / 2, 1 / 4⟩)], [0], []⟩)] := by
  refine ⟨?_, ?_, ?_⟩
  · intro k
    refine sameCircuit_other _ _ ?_
    rcases k with _ | k <;> simp [convEnv]
  · intro k
    rcases k with _ | k <;> simp [convEnv, Cfg.Ok]
  · have h1 : SameName ⟨3, 2, true⟩ "21".toList "12".toList := sameName_iff.2 ⟨[2, 1], by decide, by decide, by decide⟩
    have h2 : SameName ⟨3, 2, true⟩ "12".toList "21".toList := sameName_iff.2 ⟨[1, 2], by decide, by decide, by decide⟩
    exact .cons ⟨rfl, by decide, rfl, .cons ⟨h1, rfl⟩ (.cons ⟨h2, rfl⟩ .nil), rfl, rfl⟩ .nil

example : List.Forall₂ (SameName ⟨2, 2, true⟩) ["00".toList, "10".toList, "01".toList, "11".toList] ["00".toList, "01".toList, "10".toList, "11".toList] :=
  .cons (sameName_iff.2 ⟨[0, 0], by decide, by decide, by decide⟩) (.cons (sameName_iff.2 ⟨[1, 0], by decide, by decide, by decide⟩)
    (.cons (sameName_iff.2 ⟨[0, 1], by decide, by decide, by decide⟩) (.cons (sameName_iff.2 ⟨[1, 1], by decide, by decide, by decide⟩) .nil)))

end Verif.Props
