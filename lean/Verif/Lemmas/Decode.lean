/- Well-formed component dictionaries as dictionaries indexed by photon numbers. -/
import Verif.Lemmas.State

namespace Verif
open Spec

/-- the component dictionary with photon-number lists instead of names -/
abbrev VComps := Dict Vals Comp

/-- encode the photon numbers as names -/
def enc (g : Cfg) (l : VComps) : Comps := l.map (fun p => (g.stdName p.1, p.2))

/-- valid photon numbers, no repetitions -/
structure VOk (g : Cfg) (l : VComps) : Prop where
  nodup : (l.map Prod.fst).Nodup
  valid : ∀ p ∈ l, Valid g p.1

theorem VOk.cons {g : Cfg} {p : Vals × Comp} {l : VComps} :
    VOk g (p :: l) ↔ p.1 ∉ l.map Prod.fst ∧ Valid g p.1 ∧ VOk g l := by
  constructor
  · intro h
    have hn := h.nodup
    rw [List.map_cons, List.nodup_cons] at hn
    exact ⟨hn.1, h.valid p (by simp), hn.2, fun q hq => h.valid q (by simp [hq])⟩
  · rintro ⟨h1, h2, h3⟩
    refine ⟨?_, ?_⟩
    · rw [List.map_cons, List.nodup_cons]; exact ⟨h1, h3.nodup⟩
    · intro q hq
      rcases List.mem_cons.1 hq with rfl | hq
      · exact h2
      · exact h3.valid q hq

theorem enc_keys (g : Cfg) (l : VComps) : Dict.keys (enc g l) = (l.map Prod.fst).map g.stdName := by
  simp [Dict.keys, enc, Function.comp_def]

theorem stdName_mem_enc {g : Cfg} {l : VComps} (hl : ∀ p ∈ l, Valid g p.1) {v : Vals} (hv : Valid g v) :
    g.stdName v ∈ Dict.keys (enc g l) ↔ v ∈ l.map Prod.fst := by
  rw [enc_keys, List.mem_map]
  constructor
  · rintro ⟨u, hu, e⟩
    obtain ⟨p, hp, rfl⟩ := List.mem_map.1 hu
    rw [← g.stdName_inj (hl p hp).2 hv.2 e]; exact hu
  · intro h; exact ⟨v, h, rfl⟩

theorem wf_enc {g : Cfg} {l : VComps} (h : VOk g l) : WellFormed g (enc g l) := by
  induction l with
  | nil => exact wf_nil g
  | cons p l ih =>
    obtain ⟨h1, h2, h3⟩ := VOk.cons.1 h
    refine wf_cons.2 ⟨?_, ⟨p.1, h2, rfl⟩, ih h3⟩
    show g.stdName p.1 ∉ Dict.keys (enc g l)
    rw [stdName_mem_enc h3.valid h2]; exact h1

theorem exists_enc {g : Cfg} {c : Comps} (h : WellFormed g c) : ∃ l, VOk g l ∧ c = enc g l := by
  induction c with
  | nil => exact ⟨[], ⟨by simp, by simp⟩, rfl⟩
  | cons p c ih =>
    obtain ⟨h1, ⟨v, hv, e⟩, h3⟩ := wf_cons.1 h
    obtain ⟨l, hl, rfl⟩ := ih h3
    refine ⟨(v, p.2) :: l, VOk.cons.2 ⟨?_, hv, hl⟩, ?_⟩
    · rw [e, stdName_mem_enc hl.valid hv] at h1; exact h1
    · show p :: enc g l = (g.stdName v, p.2) :: enc g l
      rw [← e]

theorem wf_iff_enc {g : Cfg} {c : Comps} : WellFormed g c ↔ ∃ l, VOk g l ∧ c = enc g l :=
  ⟨exists_enc, by rintro ⟨l, h, rfl⟩; exact wf_enc h⟩

/-- the amplitude of photon numbers -/
noncomputable def ampV (l : VComps) (v : Vals) : ℂ := (l.get? v).elim 0 Comp.amp

theorem ampV_nil (v : Vals) : ampV [] v = 0 := rfl

theorem ampV_cons (p : Vals × Comp) (l : VComps) (v : Vals) :
    ampV (p :: l) v = if p.1 = v then p.2.amp else ampV l v := by
  obtain ⟨a, b⟩ := p
  rw [ampV, Dict.get?_cons]
  by_cases h : a = v
  · rw [if_pos h, if_pos h]; rfl
  · rw [if_neg h, if_neg h]; rfl

theorem get?_enc {g : Cfg} {l : VComps} (hl : ∀ p ∈ l, Valid g p.1) {v : Vals} (hv : Valid g v) :
    Dict.get? (enc g l) (g.stdName v) = l.get? v := by
  induction l with
  | nil => rfl
  | cons p l ih =>
    obtain ⟨a, b⟩ := p
    show Dict.get? ((g.stdName a, b) :: enc g l) _ = _
    rw [Dict.get?_cons, Dict.get?_cons, ih (fun q hq => hl q (by simp [hq]))]
    by_cases h : a = v
    · subst h; rw [if_pos rfl, if_pos rfl]
    · rw [if_neg h, if_neg]
      exact fun e => h (g.stdName_inj (hl (a, b) (by simp)).2 hv.2 e)

theorem ampOf_enc {g : Cfg} {l : VComps} (hl : ∀ p ∈ l, Valid g p.1) {v : Vals} (hv : Valid g v) :
    ampOf (enc g l) (g.stdName v) = ampV l v := by
  rw [ampOf, get?_enc hl hv]; rfl

theorem ampV_of_mem {l : VComps} (hn : (l.map Prod.fst).Nodup) {p : Vals × Comp} (h : p ∈ l) : ampV l p.1 = p.2.amp := by
  rw [ampV, Dict.get?_of_mem hn (show (p.1, p.2) ∈ l from h)]; rfl

theorem ampV_of_not_mem {l : VComps} {v : Vals} (h : v ∉ l.map Prod.fst) : ampV l v = 0 := by
  rw [ampV, Dict.get?_eq_none.2 h]; rfl

theorem totalProb_enc (g : Cfg) (l : VComps) : totalProb (enc g l) = (l.map (fun p => ‖p.2.amp‖ ^ 2)).sum := by
  simp [totalProb, enc, Function.comp_def]

theorem set_enc {g : Cfg} {l : VComps} (hl : ∀ p ∈ l, Valid g p.1) {v : Vals} (hv : Valid g v) (k : Comp) :
    Dict.set (enc g l) (g.stdName v) k = enc g (l.set v k) := by
  induction l with
  | nil => rfl
  | cons p l ih =>
    obtain ⟨a, b⟩ := p
    show Dict.set ((g.stdName a, b) :: enc g l) _ _ = _
    rw [Dict.set, Dict.set]
    by_cases h : a = v
    · subst h; rw [if_pos rfl, if_pos rfl]; rfl
    · rw [if_neg h, if_neg (fun e => h (g.stdName_inj (hl (a, b) (by simp)).2 hv.2 e)),
        ih (fun q hq => hl q (by simp [hq]))]
      rfl

theorem VOk.set {g : Cfg} {l : VComps} (h : VOk g l) {v : Vals} (hv : Valid g v) (k : Comp) : VOk g (l.set v k) := by
  refine ⟨Dict.nodup_keys_set h.nodup v k, ?_⟩
  intro p hp
  rcases Dict.mem_set hp with h' | rfl
  · exact h.valid p h'
  · exact hv

theorem parse_enc {g : Cfg} {l : VComps} (hl : ∀ p ∈ l, Valid g p.1) :
    ∀ p ∈ l, g.parse (g.stdName p.1) = some p.1 := fun p hp => g.parse_stdName (hl p hp).2

theorem enc_append (g : Cfg) (l l' : VComps) : enc g (l ++ l') = enc g l ++ enc g l' := by simp [enc]

theorem enc_eq_nil {g : Cfg} {l : VComps} : enc g l = [] ↔ l = [] := by simp [enc]

/-- folding `set` over keys and values that are all valid -/
theorem foldl_set_enc {g : Cfg} (m : List (Vals × Comp)) (hm : ∀ p ∈ m, Valid g p.1) (l : VComps) (hl : VOk g l) :
    m.foldl (fun d p => Dict.set d (g.stdName p.1) p.2) (enc g l)
      = enc g (m.foldl (fun d p => Dict.set d p.1 p.2) l) := by
  induction m generalizing l with
  | nil => rfl
  | cons p m ih =>
    rw [List.foldl_cons, List.foldl_cons, set_enc hl.valid (hm p (by simp)),
      ih (fun q hq => hm q (by simp [hq])) _ (hl.set (hm p (by simp)) _)]

theorem foldl_set_enc_nodup {g : Cfg} (m : List (Vals × Comp)) (hm : VOk g m) :
    m.foldl (fun d p => Dict.set d (g.stdName p.1) p.2) ([] : Comps) = enc g m := by
  have h := foldl_set_enc m hm.valid [] ⟨by simp, by simp⟩
  rw [show (([] : Comps)) = enc g [] from rfl, h, Dict.foldl_set_of_nodup]
  · rfl
  · simpa [Dict.keys] using hm.nodup

/-- a fold in `Option` that never fails -/
theorem foldlM_eq_some {α β : Type*} (f : β → α → Option β) (h : β → α → β) (l : List α) (b : β)
    (hf : ∀ b, ∀ a ∈ l, f b a = some (h b a)) : l.foldlM f b = some (l.foldl h b) := by
  induction l generalizing b with
  | nil => rfl
  | cons a l ih =>
    rw [List.foldlM_cons, hf b a (by simp)]
    exact ih _ (fun b a' ha' => hf b a' (by simp [ha']))

/-- nested loops over a product -/
theorem foldl_nested {α β γ : Type*} (f : γ → α → β → γ) (l : List α) (m : List β) (c : γ) :
    l.foldl (fun c a => m.foldl (fun c b => f c a b) c) c
      = (l.flatMap (fun a => m.map (fun b => (a, b)))).foldl (fun c p => f c p.1 p.2) c := by
  rw [List.foldl_flatMap]
  congr 1
  funext c a
  rw [List.foldl_map]

end Verif
