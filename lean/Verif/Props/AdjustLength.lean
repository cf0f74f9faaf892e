/-
Property C40: changing the length of the Fock state.
-/
import Verif.Lemmas.ReduceColl
import Verif.Props.Extend

namespace Verif

open Spec

theorem enc_inj {g : Cfg} : ∀ {l l' : VComps}, VOk g l → VOk g l' → enc g l = enc g l' → l = l'
  | [], [], _, _, _ => rfl
  | [], _ :: _, _, _, h => by simp [enc] at h
  | _ :: _, [], _, _, h => by simp [enc] at h
  | a :: l, b :: l', hl, hl', h => by
    simp only [enc, List.map_cons, List.cons.injEq, Prod.mk.injEq] at h
    obtain ⟨-, ha, hl⟩ := VOk.cons.1 hl
    obtain ⟨-, hb, hl'⟩ := VOk.cons.1 hl'
    rw [enc_inj hl hl' h.2, Prod.ext (g.stdName_inj ha.2 hb.2 h.1.1) h.1.2]

/-- configuration with another length -/
def lenCfg (g : Cfg) (n : ℕ) : Cfg := ⟨n, g.C, g.left⟩

theorem mod_valid {g : Cfg} {n : ℕ} (hn : 1 ≤ n) {v : Vals} (hv : Valid g v) : Valid (lenCfg g n) (v.map (· % n)) := by
  refine ⟨by simp [lenCfg, hv.1], ?_⟩
  intro x hx
  obtain ⟨y, _, rfl⟩ := List.mem_map.1 hx
  exact Nat.mod_lt _ hn

/-- the components of one state, wrapped around -/
def wrapComps (n : ℕ) (l : VComps) : VComps := l.foldl (fun (d : VComps) p => d.set (p.1.map (· % n)) p.2) []

theorem wrap_ok {g : Cfg} {n : ℕ} (hn : 1 ≤ n) {l : VComps} (hl : ∀ p ∈ l, Valid g p.1) : VOk (lenCfg g n) (wrapComps n l) := by
  have gen : ∀ (l d : VComps), (∀ p ∈ l, Valid g p.1) → VOk (lenCfg g n) d →
      VOk (lenCfg g n) (l.foldl (fun (d : VComps) p => d.set (p.1.map (· % n)) p.2) d) := by
    intro l
    induction l with
    | nil => intro d _ hd; exact hd
    | cons p l ih =>
      intro d hl hd
      exact ih _ (fun q hq => hl q (by simp [hq])) (hd.set (mod_valid hn (hl p (by simp))) _)
  exact gen l [] hl ⟨by simp, by simp⟩

theorem adjust_comps {g : Cfg} {n : ℕ} (hn : 1 ≤ n) {l : VComps} (hl : VOk g l) :
    (enc g l).foldlM (fun (d : Comps) c => do
      let v ← g.parse c.1
      let s ← (lenCfg g n).render (v.map (· % n))
      some (d.set s c.2)) ([] : Comps) = some (enc (lenCfg g n) (wrapComps n l)) := by
  rw [enc, List.foldlM_map]
  rw [foldlM_eq_some (h := fun (d : Comps) c => d.set ((lenCfg g n).stdName (c.1.map (· % n))) c.2)]
  · have := foldl_set_enc (g := lenCfg g n) (l.map (fun p => (p.1.map (· % n), p.2)))
      (by
        intro p hp
        obtain ⟨r, hr, rfl⟩ := List.mem_map.1 hp
        exact mod_valid hn (hl.valid r hr)) [] ⟨by simp, by simp⟩
    rw [List.foldl_map, List.foldl_map] at this
    rw [show (([] : Comps)) = enc (lenCfg g n) [] from rfl, this]
    rfl
  · intro d p hp
    rw [g.parse_stdName (hl.valid p hp).2]
    simp only [Option.bind_eq_bind, Option.bind_some]
    rw [(lenCfg g n).render_of_valid (mod_valid hn (hl.valid p hp))]
    rfl

/-- what one entry turns into -/
def AdjustedTo (g : Cfg) (thr : ℝ) (m n : ℕ) (p p' : List Char × QState) : Prop :=
  ∃ l, VOk g l ∧ p.2.comps = enc g l ∧ p'.1 = p.1 ∧ p'.2 = { p.2 with comps := enc (lenCfg g n) (wrapComps n l) } ∧ CheckValid thr m p'.2

theorem adjustLength_iff {cl out : Collection} {n : ℕ} (hn : 1 ≤ n) (hC : 2 ≤ cl.g.C) (hk : (cl.states.map Prod.fst).Nodup)
    (hw : ∀ p ∈ cl.states, WellFormed cl.g p.2.comps) :
    adjustLength cl n = some out ↔ ∃ new, List.Forall₂ (AdjustedTo cl.g cl.thr cl.m n) cl.states new ∧
      out = ⟨lenCfg cl.g n, cl.m, cl.thr, new⟩ := by
  classical
  have hn0 : n ≠ 0 := by omega
  have e0 : adjustLength cl n = (cl.states.foldlM (fun (out : Coll) (p : List Char × QState) => do
    let comps ← p.2.comps.foldlM (fun (d : Comps) (c : Name × Comp) => do
      let v ← cl.g.parse c.1
      let s ← (lenCfg cl.g n).render (v.map (· % n))
      some (d.set s c.2)) ([] : Comps)
    let q ← newState cl.thr cl.m { p.2 with comps := comps }
    some (out.set p.1 q)) ([] : Coll)).bind (fun out => some ⟨lenCfg cl.g n, cl.m, cl.thr, out⟩) := by
    unfold adjustLength
    simp only [if_neg hn0]
    rw [if_neg]
    · rfl
    · exact not_not.2 ⟨hn, hC⟩
  rw [e0]
  have gen : ∀ (st acc : Coll), ((acc ++ st).map Prod.fst).Nodup → (∀ p ∈ st, WellFormed cl.g p.2.comps) → ∀ res,
      st.foldlM (fun (out : Coll) (p : List Char × QState) => do
        let comps ← p.2.comps.foldlM (fun (d : Comps) (c : Name × Comp) => do
          let v ← cl.g.parse c.1
          let s ← (lenCfg cl.g n).render (v.map (· % n))
          some (d.set s c.2)) ([] : Comps)
        let q ← newState cl.thr cl.m { p.2 with comps := comps }
        some (out.set p.1 q)) acc = some res ↔ ∃ new, List.Forall₂ (AdjustedTo cl.g cl.thr cl.m n) st new ∧ res = acc ++ new := by
    intro st
    induction st with
    | nil =>
      intro acc _ _ res
      rw [List.foldlM_nil]
      constructor
      · intro h; obtain rfl := Option.some.inj h; exact ⟨[], List.Forall₂.nil, by simp⟩
      · rintro ⟨new, hf, rfl⟩; cases hf; simp
    | cons p st ih =>
      intro acc hnd hwf res
      obtain ⟨l, hl, hle⟩ := exists_enc (hwf p (by simp))
      rw [List.foldlM_cons, hle, adjust_comps hn hl]
      simp only [Option.bind_eq_bind, Option.bind_some, newState]
      set q' : QState := { p.2 with comps := enc (lenCfg cl.g n) (wrapComps n l) } with hq'
      by_cases hv : CheckValid cl.thr cl.m q'
      · rw [if_pos hv]
        simp only [Option.bind_some]
        have hnot : p.1 ∉ Dict.keys acc := by
          rw [List.map_append, List.nodup_append] at hnd
          intro hm
          exact hnd.2.2 _ hm p.1 (by simp) rfl
        rw [Dict.set_of_not_mem q' hnot]
        have ih := ih (acc ++ [(p.1, q')]) (by
          simpa [List.map_append] using hnd) (fun p hp => hwf p (by simp [hp])) res
        simp only [Option.bind_eq_bind, newState] at ih
        rw [ih]
        constructor
        · rintro ⟨new, hf, rfl⟩
          exact ⟨(p.1, q') :: new, List.Forall₂.cons ⟨l, hl, hle, rfl, rfl, hv⟩ hf, by simp⟩
        · rintro ⟨new, hf, rfl⟩
          cases hf with
          | @cons _ p' _ new h1 h2 =>
            obtain ⟨l', hl', hle', e1, e2, -⟩ := h1
            have hll : enc cl.g l = enc cl.g l' := by rw [← hle, ← hle']
            have : l = l' := enc_inj hl hl' hll
            subst this
            refine ⟨new, h2, ?_⟩
            have hpq : p' = (p.1, q') := Prod.ext e1 e2
            rw [hpq]
            simp
      · rw [if_neg hv]
        simp only [Option.bind_none]
        constructor
        · intro h; cases h
        · rintro ⟨new, hf, rfl⟩
          cases hf with
          | @cons _ p' _ new h1 h2 =>
            obtain ⟨l', hl', hle', e1, e2, hv'⟩ := h1
            exfalso
            have hll : enc cl.g l = enc cl.g l' := by rw [← hle, ← hle']
            apply hv
            have hc : enc (lenCfg cl.g n) (wrapComps n l) = enc (lenCfg cl.g n) (wrapComps n l') := by
              have h1 := adjust_comps (n := n) hn hl
              have h2 := adjust_comps (n := n) hn hl'
              rw [hll, h2] at h1
              exact (Option.some.inj h1).symm
            rw [hq', hc, ← e2]
            exact hv'
  constructor
  · intro h
    obtain ⟨o, ho, e⟩ := Option.bind_eq_some_iff.1 h
    obtain ⟨new, hf, ho'⟩ := (gen cl.states [] (by simpa using hk) hw o).1 ho
    rw [ho', List.nil_append] at e
    exact ⟨new, hf, (Option.some.inj e).symm⟩
  · rintro ⟨new, hf, rfl⟩
    rw [(gen cl.states [] (by simpa using hk) hw _).2 ⟨new, hf, rfl⟩]
    rfl

theorem get?_foldl_wrap (n : ℕ) (w : Vals) (l d : VComps) :
    Dict.get? (l.foldl (fun (d : VComps) p => d.set (p.1.map (· % n)) p.2) d) w
      = ((l.filter (fun p => p.1.map (· % n) = w)).getLast?.map Prod.snd).or (d.get? w) := by
  induction l generalizing d with
  | nil => simp
  | cons p l ih =>
    rw [List.foldl_cons, ih, Dict.get?_set, List.filter_cons]
    by_cases h : p.1.map (· % n) = w
    · rw [if_pos h, if_pos (by simpa using h)]
      cases h2 : (l.filter (fun p => decide (p.1.map (· % n) = w))).getLast? with
      | none => rw [List.getLast?_eq_none_iff] at h2; rw [h2]; simp
      | some x =>
        rw [List.getLast?_cons, h2]
        simp
    · rw [if_neg h, if_neg (by simpa using h)]

namespace Props

/-- **C40** A new length larger than all photon numbers in use keeps everything: the same identifiers in the same order and for each state
the same label, probability, classical values, history and components (under the names of the same photon numbers). -/
theorem C40_fits (cl : Collection) (n : ℕ) (hn : 1 ≤ n) (hC : 2 ≤ cl.g.C) (hk : (cl.states.map Prod.fst).Nodup)
    (hw : ∀ p ∈ cl.states, WellFormed cl.g p.2.comps ∧ CheckValid cl.thr cl.m p.2)
    (hfit : ∀ p ∈ cl.states, ∀ c ∈ p.2.comps, ∀ v, Valid cl.g v → IsName cl.g v c.1 → ∀ x ∈ v, x < n) :
    ∃ out, adjustLength cl n = some out ∧ out.g = ⟨n, cl.g.C, cl.g.left⟩ ∧ out.m = cl.m ∧ out.thr = cl.thr ∧
      List.Forall₂ (fun p p' => p'.1 = p.1 ∧ p'.2.initial = p.2.initial ∧ p'.2.cum = p.2.cum ∧ p'.2.classical = p.2.classical ∧
        p'.2.results = p.2.results ∧ WellFormed out.g p'.2.comps ∧
        List.Forall₂ (fun c c' => c'.2 = c.2 ∧ ∃ v, Valid cl.g v ∧ Valid out.g v ∧ IsName cl.g v c.1 ∧ IsName out.g v c'.1) p.2.comps p'.2.comps)
        cl.states out.states := by
  have hmod : ∀ v : Vals, (∀ x ∈ v, x < n) → v.map (· % n) = v := by
    intro v hv
    conv_rhs => rw [← List.map_id v]
    apply List.map_congr_left
    intro x hx
    exact Nat.mod_eq_of_lt (hv x hx)
  have hwrap : ∀ l : VComps, VOk cl.g l → (∀ p ∈ l, ∀ x ∈ p.1, x < n) → wrapComps n l = l := by
    intro l hl hx
    have h1 : wrapComps n l = l.foldl (fun (d : VComps) p => d.set p.1 p.2) [] := by
      unfold wrapComps
      apply List.foldl_ext
      intro d p hp
      rw [hmod p.1 (hx p hp)]
    rw [h1]
    exact Dict.ofList_of_nodup l hl.nodup
  have hex : ∀ st : Coll, (∀ p ∈ st, p ∈ cl.states) → ∃ new, List.Forall₂ (AdjustedTo cl.g cl.thr cl.m n) st new ∧
      List.Forall₂ (fun p p' => p'.1 = p.1 ∧ p'.2.initial = p.2.initial ∧ p'.2.cum = p.2.cum ∧ p'.2.classical = p.2.classical ∧
        p'.2.results = p.2.results ∧ WellFormed (lenCfg cl.g n) p'.2.comps ∧
        List.Forall₂ (fun c c' => c'.2 = c.2 ∧ ∃ v, Valid cl.g v ∧ Valid (lenCfg cl.g n) v ∧ IsName cl.g v c.1 ∧ IsName (lenCfg cl.g n) v c'.1) p.2.comps p'.2.comps)
        st new := by
    intro st
    induction st with
    | nil => intro _; exact ⟨[], List.Forall₂.nil, List.Forall₂.nil⟩
    | cons p st ih =>
      intro hst
      obtain ⟨new, h1, h2⟩ := ih (fun p hp => hst p (by simp [hp]))
      obtain ⟨hwf, hval⟩ := hw p (hst p (by simp))
      obtain ⟨l, hl, hle⟩ := exists_enc hwf
      have hx : ∀ r ∈ l, ∀ x ∈ r.1, x < n := by
        intro r hr
        exact hfit p (hst p (by simp)) (cl.g.stdName r.1, r.2) (by rw [hle]; exact List.mem_map.2 ⟨r, hr, rfl⟩) r.1 (hl.valid r hr)
          ((isName_iff (hl.valid r hr)).2 rfl)
      have hv2 : ∀ r ∈ l, Valid (lenCfg cl.g n) r.1 := fun r hr => ⟨(hl.valid r hr).1, hx r hr⟩
      refine ⟨(p.1, { p.2 with comps := enc (lenCfg cl.g n) l }) :: new, List.Forall₂.cons ⟨l, hl, hle, rfl, by rw [hwrap l hl hx], ?_⟩ h1,
        List.Forall₂.cons ⟨rfl, rfl, rfl, rfl, rfl, wf_enc ⟨hl.nodup, hv2⟩, ?_⟩ h2⟩
      · obtain ⟨v1, v2, v3, v4⟩ := hval
        refine ⟨v1, v2, ?_, v4⟩
        intro c hc
        obtain ⟨r, hr, rfl⟩ := List.mem_map.1 (show c ∈ enc _ _ from hc)
        exact v3 (cl.g.stdName r.1, r.2) (by rw [hle]; exact List.mem_map.2 ⟨r, hr, rfl⟩)
      · rw [hle]
        show List.Forall₂ _ (enc cl.g l) (enc (lenCfg cl.g n) l)
        rw [enc, enc, List.forall₂_map_right_iff, List.forall₂_map_left_iff]
        apply List.forall₂_same.2
        intro r hr
        have hv := hl.valid r hr
        exact ⟨rfl, r.1, hv, hv2 r hr, (isName_iff hv).2 rfl, (isName_iff (hv2 r hr)).2 rfl⟩
  obtain ⟨new, h1, h2⟩ := hex cl.states (fun p hp => hp)
  exact ⟨_, (adjustLength_iff hn hC hk (fun p hp => (hw p hp).1)).2 ⟨new, h1, rfl⟩, rfl, rfl, rfl, h2⟩

/-- **C40** In general photon numbers wrap around: after a successful change of length to `n`, the amplitude of photon numbers `w` is
the one of the last listed component whose photon numbers are `w` modulo `n`, and 0 if there is none. Identifiers, label, cumulative
probability, classical values and history are unchanged. -/
theorem C40_wraps (cl : Collection) (n : ℕ) (hn : 1 ≤ n) (hC : 2 ≤ cl.g.C) (hk : (cl.states.map Prod.fst).Nodup)
    (hw : ∀ p ∈ cl.states, WellFormed cl.g p.2.comps) (out : Collection) (h : adjustLength cl n = some out) :
    out.g = ⟨n, cl.g.C, cl.g.left⟩ ∧ out.m = cl.m ∧ out.thr = cl.thr ∧
    List.Forall₂ (fun p p' => p'.1 = p.1 ∧ p'.2.initial = p.2.initial ∧ p'.2.cum = p.2.cum ∧ p'.2.classical = p.2.classical ∧
        p'.2.results = p.2.results ∧ WellFormed out.g p'.2.comps ∧
        (∀ w s, Valid out.g w → IsName out.g w s →
          (∀ pre c post v, p.2.comps = pre ++ c :: post → Valid cl.g v → IsName cl.g v c.1 → v.map (· % n) = w →
            (∀ c' ∈ post, ∀ v', Valid cl.g v' → IsName cl.g v' c'.1 → v'.map (· % n) ≠ w) → ampOf p'.2.comps s = c.2.amp) ∧
          ((∀ c ∈ p.2.comps, ∀ v, Valid cl.g v → IsName cl.g v c.1 → v.map (· % n) ≠ w) → ampOf p'.2.comps s = 0)))
      cl.states out.states := by
  obtain ⟨new, hf, rfl⟩ := (adjustLength_iff hn hC hk hw).1 h
  refine ⟨rfl, rfl, rfl, ?_⟩
  refine forall₂_imp_mem hf ?_
  rintro p p' hp ⟨l, hl, hle, e1, e2, hv⟩
  have hwo := wrap_ok hn hl.valid
  rw [e2]
  refine ⟨e1, rfl, rfl, rfl, rfl, wf_enc hwo, ?_⟩
  intro w s hwv hs
  have hwv' : Valid (lenCfg cl.g n) w := hwv
  have hs' := (isName_iff (g := lenCfg cl.g n) hwv').1 hs
  subst hs'
  show (∀ pre (c : Name × Comp) post v, _ → _ → _ → _ → _ → ampOf (enc (lenCfg cl.g n) (wrapComps n l)) _ = c.2.amp) ∧ (_ → ampOf (enc (lenCfg cl.g n) (wrapComps n l)) _ = 0)
  rw [ampOf_enc hwo.valid hwv', ampV, wrapComps, get?_foldl_wrap]
  simp only [Dict.get?_nil, Option.or_none]
  constructor
  · intro pre c post v hsplit hvv hvn hvw hpost
    rw [hle, enc] at hsplit
    obtain ⟨l1, l2, hl12, hpre, hcp⟩ := List.map_eq_append_iff.1 hsplit
    obtain ⟨r, l3, hr3, hrc, hl3⟩ := List.map_eq_cons_iff.1 hcp
    subst hl12 hr3 hpre hrc hl3
    have hrv := hl.valid r (by simp)
    rw [isName_iff hvv] at hvn
    obtain rfl := cl.g.stdName_inj hrv.2 hvv.2 hvn
    have hnil : l3.filter (fun p => decide (p.1.map (· % n) = w)) = [] := by
      rw [List.filter_eq_nil_iff]
      intro y hy
      have hyv := hl.valid y (by simp [hy])
      simpa using hpost (cl.g.stdName y.1, y.2) (List.mem_map.2 ⟨y, hy, rfl⟩) y.1 hyv ((isName_iff hyv).2 rfl)
    rw [List.filter_append, List.filter_cons, if_pos (by simpa using hvw), hnil]
    simp
  · intro hnone
    have hnil : l.filter (fun p => decide (p.1.map (· % n) = w)) = [] := by
      rw [List.filter_eq_nil_iff]
      intro y hy
      have hyv := hl.valid y hy
      simpa using hnone (cl.g.stdName y.1, y.2) (by rw [hle]; exact List.mem_map.2 ⟨y, hy, rfl⟩) y.1 hyv ((isName_iff hyv).2 rfl)
    rw [hnil]
    rfl

/-- **C40** Length 0 means 'keep the length'. -/
theorem C40_zero (cl : Collection) (hL : 1 ≤ cl.g.L) : adjustLength cl 0 = adjustLength cl cl.g.L := by
  unfold adjustLength
  simp only [if_true]
  rw [if_neg (by omega : ¬ cl.g.L = 0)]

/-- two channels, up to two photons each; 0.6 |20> + 0.8 |00> -/
noncomputable def wide : QState := ⟨"x".toList, 1, [("20".toList, ⟨3/5, 9/25⟩), ("00".toList, ⟨4/5, 16/25⟩)], [], []⟩

theorem wide_wf : WellFormed ⟨3, 2, true⟩ wide.comps := by
  refine ⟨by decide, ?_⟩
  intro p hp
  simp only [wide, List.mem_cons, List.not_mem_nil, or_false] at hp
  rcases hp with rfl | rfl
  · exact ⟨[2, 0], ⟨rfl, by decide⟩, (isName_iff ⟨rfl, by decide⟩).2 rfl⟩
  · exact ⟨[0, 0], ⟨rfl, by decide⟩, (isName_iff ⟨rfl, by decide⟩).2 rfl⟩

theorem wide_valid : CheckValid 0 0 wide := by
  refine ⟨by norm_num [wide], by norm_num [wide], ?_, rfl⟩
  intro c hc
  simp only [wide, List.mem_cons, List.not_mem_nil, or_false] at hc
  rcases hc with rfl | rfl <;> norm_num

/-- **C40** Probability can get lost: a normalised state is no longer normalised after shortening the length from 3 to 2, because two
components end up under the same name. -/
theorem C40_loss : ∃ cl out : Collection, (∃ q, cl.states = [("a".toList, q)] ∧ WellFormed cl.g q.comps ∧ totalProb q.comps = 1 ∧ CheckValid cl.thr cl.m q) ∧
    adjustLength cl 2 = some out ∧ ∃ q', out.states = [("a".toList, q')] ∧ totalProb q'.comps < 1 := by
  refine ⟨⟨⟨3, 2, true⟩, 0, 0, [("a".toList, wide)]⟩, ⟨⟨2, 2, true⟩, 0, 0, [("a".toList, { wide with comps := [("00".toList, ⟨4/5, 16/25⟩)] })]⟩,
    ⟨wide, rfl, wide_wf, ?_, wide_valid⟩, ?_, _, rfl, ?_⟩
  · simp only [totalProb, wide, List.map_cons, List.map_nil, List.sum_cons, List.sum_nil]
    norm_num
  · refine (adjustLength_iff (by norm_num) (by norm_num) (by decide) ?_).2 ⟨[("a".toList, { wide with comps := [("00".toList, ⟨4/5, 16/25⟩)] })], List.Forall₂.cons ⟨[([2, 0], ⟨3/5, 9/25⟩), ([0, 0], ⟨4/5, 16/25⟩)],
      ⟨by decide, ?_⟩, rfl, rfl, rfl, ?_⟩ List.Forall₂.nil, rfl⟩
    · intro p hp
      simp only [List.mem_singleton] at hp
      subst hp
      exact wide_wf
    · intro p hp
      simp only [List.mem_cons, List.not_mem_nil, or_false] at hp
      rcases hp with rfl | rfl
      · exact ⟨rfl, by decide⟩
      · exact ⟨rfl, by decide⟩
    · obtain ⟨v1, v2, v3, v4⟩ := wide_valid
      refine ⟨v1, v2, ?_, v4⟩
      intro c hc
      simp only [List.mem_singleton] at hc
      subst hc
      norm_num
  · simp only [totalProb, List.map_cons, List.map_nil, List.sum_cons, List.sum_nil]
    norm_num

/-- the hypotheses of `C40_fits` hold for the same state and a larger length -/
example : ∃ out, adjustLength ⟨⟨3, 2, true⟩, 0, 0, [("a".toList, wide)]⟩ 11 = some out ∧ out.g.L = 11 ∧ out.states.length = 1 := by
  obtain ⟨out, h1, h2, -, -, h3⟩ := C40_fits ⟨⟨3, 2, true⟩, 0, 0, [("a".toList, wide)]⟩ 11 (by norm_num) (by norm_num) (by decide) (by
    intro p hp
    simp only [List.mem_singleton] at hp
    subst hp
    exact ⟨wide_wf, wide_valid⟩) (by
    intro p _ c _ v hv _ x hx
    have := hv.2 x hx
    simp only at this
    omega)
  exact ⟨out, h1, by rw [h2], h3.length_eq.symm⟩

end Props
end Verif
