import Verif.Model.StationLabels
import Verif.Lemmas.Names
import Mathlib.Data.List.Nodup
import Mathlib.Data.List.Pairwise

namespace Verif

theorem setLabels_ok : ∀ (P : List (ℕ × ChanLabel)) (labels : List ChanLabel), (∀ p ∈ P, p.1 < labels.length) →
    ∃ r, P.foldlM setLabel labels = some r ∧ r.length = labels.length ∧ (∀ ch, ch ∉ P.map Prod.fst → r[ch]? = labels[ch]?) ∧
      ((P.map Prod.fst).Nodup → ∀ p ∈ P, r[p.1]? = some p.2) := by
  intro P
  induction P with
  | nil => intro labels _; exact ⟨labels, rfl, rfl, fun _ _ => rfl, fun _ p hp => by cases hp⟩
  | cons p P ih =>
    intro labels h
    have hp := h p (by simp)
    obtain ⟨r, e1, e2, e3, e4⟩ := ih (labels.set p.1 p.2) (fun q hq => by rw [List.length_set]; exact h q (by simp [hq]))
    refine ⟨r, ?_, by rw [e2, List.length_set], fun ch hch => ?_, fun hn q hq => ?_⟩
    · rw [List.foldlM_cons, show setLabel labels p = some (labels.set p.1 p.2) from if_pos hp]
      exact e1
    · simp only [List.map_cons, List.mem_cons, not_or] at hch
      rw [e3 ch hch.2, List.getElem?_set_ne (fun e => hch.1 e.symm)]
    · rw [List.map_cons, List.nodup_cons] at hn
      rcases List.mem_cons.1 hq with rfl | hq
      · rw [e3 _ hn.1, List.getElem?_set_self hp]
      · exact e4 hn.2 q hq

theorem assignments_fst (kind : List Char) (channels : Station → List ℕ) (all : List Station) :
    (stationAssignments kind channels all).map Prod.fst = all.flatMap channels := by
  unfold stationAssignments
  rw [List.map_flatMap]
  congr 1
  funext s
  rw [List.map_map]
  show (channels s).zipIdx.map Prod.fst = _
  exact List.zipIdx_map_fst 0 _

theorem mem_assignments {kind : List Char} {channels : Station → List ℕ} {all : List Station} {s : Station} (hs : s ∈ all) {i ch : ℕ}
    (h : (channels s)[i]? = some ch) : (ch, stationLabel kind s.name i) ∈ stationAssignments kind channels all := by
  unfold stationAssignments
  rw [List.mem_flatMap]
  refine ⟨s, hs, ?_⟩
  rw [List.mem_map]
  exact ⟨(ch, i), by rw [List.mem_zipIdx_iff_getElem?]; exact h, rfl⟩

theorem readLabels_ok {labels : List ChanLabel} : ∀ (l : List ℕ), (∀ ch ∈ l, ch < labels.length) →
    ∃ r, l.mapM (fun ch => labels[ch]?) = some r ∧ r.length = l.length ∧ ∀ (i ch : ℕ), l[i]? = some ch → r[i]? = labels[ch]? := by
  intro l
  induction l with
  | nil => intro _; exact ⟨[], rfl, rfl, fun i ch h => by simp at h⟩
  | cons c l ih =>
    intro h
    obtain ⟨r, e1, e2, e3⟩ := ih (fun ch hc => h ch (by simp [hc]))
    have hc := h c (by simp)
    refine ⟨labels[c] :: r, ?_, by simp [e2], fun i ch hi => ?_⟩
    · rw [List.mapM_cons, List.getElem?_eq_getElem hc, e1]; rfl
    · cases i with
      | zero =>
        obtain rfl : c = ch := by simpa using hi
        rw [List.getElem?_eq_getElem hc]; rfl
      | succ i => exact e3 i ch (by simpa using hi)

theorem mapM_allSome {α β : Type} {f : α → Option β} : ∀ (l : List α), (∀ x ∈ l, ∃ y, f x = some y) →
    ∃ r, l.mapM f = some r ∧ r.length = l.length ∧ ∀ (i : ℕ) (x : α), l[i]? = some x → ∃ y, r[i]? = some y ∧ f x = some y := by
  intro l
  induction l with
  | nil => intro _; exact ⟨[], rfl, rfl, fun i x h => by simp at h⟩
  | cons x l ih =>
    intro h
    obtain ⟨r, e1, e2, e3⟩ := ih (fun y hy => h y (by simp [hy]))
    obtain ⟨y, hy⟩ := h x (by simp)
    refine ⟨y :: r, by rw [List.mapM_cons, hy, e1]; rfl, by simp [e2], fun i z hi => ?_⟩
    cases i with
    | zero =>
      obtain rfl : x = z := by simpa using hi
      exact ⟨y, rfl, hy⟩
    | succ i => exact e3 i z (by simpa using hi)

theorem stationSettings_ok {a c : ℕ} {all : List Station} {userO userK : Option (List ChanLabel)} {o k : List ChanLabel}
    (hn : "total_circuit".toList ∉ all.map Station.name)
    (ho : channelLabels userO.isSome (startLabels "optical ".toList a userO) (stationAssignments ", Opt.".toList Station.optical all) = some o)
    (hk : channelLabels userO.isSome (startLabels "classical ".toList c userK) (stationAssignments ", Clas.".toList Station.classical all) = some k)
    (h : ∀ s ∈ all, (∀ ch ∈ s.optical, ch < o.length) ∧ ∀ ch ∈ s.classical, ch < k.length) :
    ∃ r, stationSettings a c all userO userK = some (r, o, k) ∧ r.length = all.length ∧ ∀ (i : ℕ) (s : Station), all[i]? = some s → ∃ lo lk : List ChanLabel, r[i]? = some (lo, lk) ∧
      lo.length = s.optical.length ∧ lk.length = s.classical.length ∧
      (∀ (j ch : ℕ), s.optical[j]? = some ch → lo[j]? = o[ch]?) ∧ (∀ (j ch : ℕ), s.classical[j]? = some ch → lk[j]? = k[ch]?) := by
  obtain ⟨r, e1, e2, e3⟩ := mapM_allSome (f := fun s : Station => do
      let lo ← s.optical.mapM (fun ch => o[ch]?)
      let lk ← s.classical.mapM (fun ch => k[ch]?)
      some (lo, lk)) all (fun s hs => by
    obtain ⟨lo, h1, -⟩ := readLabels_ok (labels := o) s.optical (h s hs).1
    obtain ⟨lk, h2, -⟩ := readLabels_ok (labels := k) s.classical (h s hs).2
    exact ⟨(lo, lk), by rw [h1, h2]; rfl⟩)
  refine ⟨r, ?_, e2, fun i s hs => ?_⟩
  · unfold stationSettings
    rw [if_neg hn]
    rw [ho, hk]
    simp only [Option.bind_eq_bind, Option.bind_some] at e1 ⊢
    rw [e1]
    rfl
  · obtain ⟨y, h1, h2⟩ := e3 i s hs
    have hm := List.mem_of_getElem? hs
    obtain ⟨lo, g1, g2, g3⟩ := readLabels_ok (labels := o) s.optical (h s hm).1
    obtain ⟨lk, g4, g5, g6⟩ := readLabels_ok (labels := k) s.classical (h s hm).2
    rw [g1, g4] at h2
    obtain rfl := Option.some.inj h2
    exact ⟨lo, lk, h1, g2, g5, g3, g6⟩

theorem append_mark_inj {a b x y : List Char} {c : Char} (hc : c.isDigit = false) (hx : ∀ z ∈ x, z.isDigit = true) (hy : ∀ z ∈ y, z.isDigit = true)
    (h : a ++ [c] ++ x = b ++ [c] ++ y) : a = b ∧ x = y := by
  have key : ∀ (a x : List Char), (∀ z ∈ x, z.isDigit = true) → (a ++ [c] ++ x).reverse.takeWhile Char.isDigit = x.reverse := by
    intro a x hx
    rw [List.reverse_append, List.reverse_append, List.takeWhile_append_of_pos (by simpa using hx)]
    simp [hc]
  have e := key a x hx
  rw [h, key b y hy] at e
  obtain rfl : y = x := List.reverse_injective e
  have := List.append_cancel_right (List.append_cancel_right h)
  exact ⟨this, rfl⟩

theorem stationLabel_inj {pre : List Char} {name name' : List Char} {i j : ℕ} (h : stationLabel (pre ++ ['.']) name i = stationLabel (pre ++ ['.']) name' j) :
    name = name' ∧ i = j := by
  unfold stationLabel at h
  rw [← List.append_assoc, ← List.append_assoc] at h
  obtain ⟨h1, h2⟩ := append_mark_inj (by decide) (pyStr_digit i) (pyStr_digit j) h
  refine ⟨List.append_cancel_right h1, ?_⟩
  rw [← digVal_pyStr i, ← digVal_pyStr j, h2]

end Verif
