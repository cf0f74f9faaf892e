/- Helper lemmas about Popescu-Rohrlich pairs: the measurement of a collection. -/
import Verif.Lemmas.PR5
import Verif.Lemmas.Measurement

namespace Verif
open Spec

theorem writeZip_spec {opt : List ℕ} {v : Vals} : ∀ {cls : List ℕ} {vals : List ℝ}, cls.Nodup → (∀ c ∈ cls, c < vals.length) → (∀ o ∈ opt, o < v.length) →
    ∃ r, writeZip cls opt v vals = some r ∧ r.length = vals.length ∧
      (∀ (i c o x : ℕ), cls[i]? = some c → opt[i]? = some o → v[o]? = some x → r[c]? = some (x : ℝ)) ∧
      (∀ c : ℕ, (∀ i o : ℕ, opt[i]? = some o → cls[i]? ≠ some c) → r[c]? = vals[c]?) := by
  induction opt with
  | nil =>
    intro cls vals _ _ _
    refine ⟨vals, by simp [writeZip], rfl, by simp, by simp⟩
  | cons o opt ih =>
    intro cls vals hn hc ho
    cases cls with
    | nil => exact ⟨vals, by simp [writeZip], rfl, by simp, by simp⟩
    | cons c cls =>
      have hcv : c < vals.length := hc c List.mem_cons_self
      have hov : o < v.length := ho o List.mem_cons_self
      rw [List.nodup_cons] at hn
      obtain ⟨r, e, hl, hw, hu⟩ := ih (cls := cls) (vals := vals.set c (v[o] : ℝ)) hn.2 (by
        intro c' hc'
        rw [List.length_set]
        exact hc c' (List.mem_cons_of_mem _ hc')) (fun o' ho' => ho o' (List.mem_cons_of_mem _ ho'))
      refine ⟨r, ?_, by simpa using hl, ?_, ?_⟩
      · unfold writeZip at *
        rw [List.zip_cons_cons, List.foldlM_cons, if_pos hcv, List.getElem?_eq_getElem hov]
        exact e
      · intro i c' o' x h1 h2 h3
        cases i with
        | zero =>
          simp at h1 h2
          subst h1 h2
          rw [hu c (fun i o' _ h => hn.1 (List.mem_of_getElem? h)), List.getElem?_set_self hcv]
          rw [List.getElem?_eq_getElem hov] at h3
          rw [Option.some.inj h3]
        | succ i => exact hw i c' o' x (by simpa using h1) (by simpa using h2) h3
      · intro c' h
        rw [hu c' (fun i o' h1 => by simpa using h (i + 1) o' (by simpa using h1))]
        have : c ≠ c' := by
          rintro rfl
          exact h 0 o rfl rfl
        rw [List.getElem?_set_ne this]

theorem setFromList_single {g : Cfg} {s : Name} (h : ∃ v, Valid g v ∧ IsName g v s) : setFromList g [(s, 1)] = some [(s, ⟨1, 1⟩)] := by
  rw [setFromList_nodup [(s, 1)] (by simpa using h) (by simp)]
  simp

theorem collapsePR_spec {g : Cfg} {thr : ℝ} {m : ℕ} {opt cls : List ℕ} {ref : QState} (hcv : CheckValid thr m ref) (hn : cls.Nodup) (hc : ∀ c ∈ cls, c < m)
    (ho : ∀ o ∈ opt, o < g.C) {op : Name × ℝ} (hp : 0 ≤ op.2 ∧ op.2 ≤ 1) (hs : ∃ v, Valid g v ∧ IsName g v op.1) :
    ∃ st, collapsePR g thr m opt cls ref op = some st ∧ PRCollapsed g opt cls ref ref.initial op st := by
  obtain ⟨v, hv, hnm⟩ := hs
  have hstd := (isName_iff hv).mp hnm
  obtain ⟨r, e, hl, hw, hu⟩ := writeZip_spec (opt := opt) (v := v) (cls := cls) (vals := ref.classical) hn (fun c h => by rw [hcv.2.2.2]; exact hc c h)
    (fun o h => by rw [hv.1]; exact ho o h)
  refine ⟨⟨⟨ref.initial, op.2, [(op.1, ⟨1, 1⟩)], r, ref.results ++ [⟨r, op.2⟩]⟩, none⟩, ?_, ⟨rfl, rfl, rfl, rfl, hl, ?_, hu, rfl⟩⟩
  · unfold collapsePR setCum
    rw [copyState_some hcv, if_pos hp, setFromList_single ⟨v, hv, hnm⟩, hstd, g.parse_stdName hv.2]
    simp only [Option.bind_eq_bind, Option.bind_some, e]
  · intro v' hv' hnm' i c o x h1 h2 h3
    obtain rfl : v' = v := g.stdName_inj hv'.2 hv.2 (((isName_iff hv').mp hnm').symm.trans hstd)
    exact hw i c o x h1 h2 h3

theorem exists_forall₂_of {α β : Type*} {f : α → Option β} {R : α → β → Prop} {l : List α} (h : ∀ a ∈ l, ∃ b, f a = some b ∧ R a b) :
    ∃ r, l.mapM f = some r ∧ List.Forall₂ R l r := by
  induction l with
  | nil => exact ⟨[], rfl, List.Forall₂.nil⟩
  | cons a l ih =>
    obtain ⟨b, h1, h2⟩ := h a List.mem_cons_self
    obtain ⟨r, h3, h4⟩ := ih (fun a ha => h a (List.mem_cons_of_mem _ ha))
    exact ⟨b :: r, by rw [List.mapM_cons, h1, h3]; rfl, List.Forall₂.cons h2 h4⟩

theorem measurePROne_spec {g : Cfg} {thr : ℝ} {m : ℕ} {opt cls : List ℕ} {first : PRState} {rest : List PRState} {i : PRInfo} (hi : first.pr = some i)
    (hcv : CheckValid thr m first.q) (hn : cls.Nodup) (hc : ∀ c ∈ cls, c < m) (ho : ∀ o ∈ opt, o < g.C) {histo : List (Name × ℝ)}
    (hh : measurePRGroup (first :: rest) = some histo) (hp : ∀ op ∈ histo, 0 ≤ op.2 ∧ op.2 ≤ 1 ∧ ∃ v, Valid g v ∧ IsName g v op.1) :
    ∃ out, measurePROne g thr m opt cls (first :: rest) = some out ∧ List.Forall₂ (PRCollapsed g opt cls first.q i.initialOut) histo out := by
  obtain ⟨out, h1, h2⟩ := exists_forall₂_of (l := histo) (f := collapsePR g thr m opt cls { first.q with initial := i.initialOut })
    (R := PRCollapsed g opt cls { first.q with initial := i.initialOut } i.initialOut)
    (fun op hop => collapsePR_spec (ref := { first.q with initial := i.initialOut }) ⟨hcv.1, hcv.2.1, hcv.2.2.1, hcv.2.2.2⟩ hn hc ho ⟨(hp op hop).1, (hp op hop).2.1⟩ (hp op hop).2.2)
  refine ⟨out, ?_, ?_⟩
  · unfold measurePROne
    rw [hh]
    simp only [List.head?_cons, hi, Option.bind_eq_bind, Option.bind_some]
    exact h1
  · exact h2.imp (fun a b h => ⟨h.single, h.cum, h.label, h.plain, h.length, h.written, h.unwritten, h.history⟩)

end Verif
