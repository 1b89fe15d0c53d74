import Verif.Dtens.Order
import Mathlib.Data.List.Perm.Basic

/-!
# Lookup in a sorted map of derivatives
-/

namespace Heyoka.Dtens

variable {α : Type}

/-- A well-formed map: well-formed keys whose total degree fits in 32 bits, sorted. -/
structure SortedMap (m : List (SIdx × α)) : Prop where
  sane : ∀ p ∈ m, Sane p.1.2
  fits : ∀ p ∈ m, degree p.1.2 < 2 ^ 32
  sorted : m.Pairwise (fun p q => Less p.1 q.1)

theorem SortedMap.lt_iff {m : List (SIdx × α)} (hm : SortedMap m) {i j : Nat} (hi : i < m.length)
    (hj : j < m.length) : Less m[i].1 m[j].1 ↔ i < j := by
  constructor
  · intro h
    by_contra hc
    push Not at hc
    rcases Nat.lt_or_eq_of_le hc with h2 | h2
    · exact h.asymm (List.pairwise_iff_getElem.mp hm.sorted _ _ hj hi h2)
    · subst h2; exact Less.irrefl _ h
  · exact fun h => List.pairwise_iff_getElem.mp hm.sorted _ _ hi hj h

/-- The number of keys smaller than `v`. -/
theorem lbLoop_ok {m : List (SIdx × α)} (hm : SortedMap m) {v : SIdx} (hv : Sane v.2)
    (hd : degree v.2 < 2 ^ 32) : ∀ count first, first + count ≤ m.length →
    (∀ i (h : i < m.length), i < first → Less m[i].1 v) →
    (∀ i (h : i < m.length), first + count ≤ i → ¬ Less m[i].1 v) →
    ∃ r, lbLoop m v first count = .ok r ∧ r ≤ m.length ∧
      (∀ i (h : i < m.length), Less m[i].1 v ↔ i < r) := by
  intro count
  induction count using Nat.strong_induction_on with
  | _ count ih =>
    intro first h1 h2 h3
    unfold lbLoop
    split
    · rename_i h0
      refine ⟨first, rfl, by omega, fun i hi => ⟨fun h => ?_, h2 i hi⟩⟩
      by_contra hc
      exact h3 i hi (by omega) h
    · rename_i h0
      have hlt : first + count / 2 < m.length := by omega
      simp only [List.getElem?_eq_getElem hlt]
      obtain ⟨b, hb1, hb2⟩ := cmp_eq (hm.fits _ (List.getElem_mem hlt)) hd
        (hm.sane _ (List.getElem_mem hlt)) hv
      rw [hb1]
      simp only [Res.bind_ok]
      split
      · rename_i hb
        rw [hb2] at hb
        refine ih _ (by omega) _ (by omega) (fun i hi hlt2 => ?_) (fun i hi hge => h3 i hi (by omega))
        rcases Nat.lt_or_eq_of_le (show i ≤ first + count / 2 by omega) with h4 | h4
        · exact ((hm.lt_iff hi hlt).mpr h4).trans hb
        · subst h4; exact hb
      · rename_i hb
        rw [hb2] at hb
        refine ih _ (by omega) _ (by omega) h2 (fun i hi hge hl => hb ?_)
        rcases Nat.lt_or_eq_of_le hge with h4 | h4
        · exact ((hm.lt_iff hlt hi).mpr h4).trans hl
        · subst h4; exact hl

/-- **Lookup finds exactly the keys of the map.** -/
theorem mapFind_ok {m : List (SIdx × α)} (hm : SortedMap m) {v : SIdx} (hv : Sane v.2)
    (hd : degree v.2 < 2 ^ 32) :
    (∃ i, ∃ h : i < m.length, m[i].1 = v ∧ mapFind m v = .ok i) ∨
      ((∀ p ∈ m, p.1 ≠ v) ∧ mapFind m v = .ok m.length) := by
  obtain ⟨r, hr1, hr2, hr3⟩ := lbLoop_ok hm hv hd m.length 0 (by omega)
    (fun i _ h => absurd h (by omega)) (fun i hi h => absurd hi (by omega))
  unfold mapFind
  rw [hr1]
  simp only [Res.bind_ok]
  rcases Nat.lt_or_eq_of_le hr2 with h | h
  · simp only [List.getElem?_eq_getElem h]
    obtain ⟨b, hb1, hb2⟩ := cmp_eq hd (hm.fits _ (List.getElem_mem h)) hv
      (hm.sane _ (List.getElem_mem h))
    rw [hb1]
    simp only [Res.bind_ok]
    by_cases hb : b = true
    · rw [if_pos hb]
      rw [hb2] at hb
      refine .inr ⟨fun p hp heq => ?_, rfl⟩
      obtain ⟨i, hi, rfl⟩ := List.mem_iff_getElem.mp hp
      have h5 : ¬ i < r := fun h5 => by
        have := (hr3 i hi).mpr h5
        rw [heq] at this; exact Less.irrefl _ this
      have h6 : i < r := by
        rw [← heq] at hb
        by_contra hc
        exact absurd ((hm.lt_iff hi h).mp hb) hc
      exact h5 h6
    · rw [if_neg hb]
      rw [hb2] at hb
      have h4 : ¬ Less m[r].1 v := fun hc => absurd ((hr3 r h).mp hc) (lt_irrefl _)
      refine .inl ⟨r, h, ?_, rfl⟩
      by_contra hne
      rcases Less.tri (hm.sane _ (List.getElem_mem h)) hv hne with h5 | h5
      · exact h4 h5
      · exact hb h5
  · have hnone : m[r]? = none := by rw [h]; simp
    rw [hnone]
    refine .inr ⟨fun p hp heq => ?_, rfl⟩
    obtain ⟨i, hi, rfl⟩ := List.mem_iff_getElem.mp hp
    have := (hr3 i hi).mpr (by omega)
    rw [heq] at this; exact Less.irrefl _ this

theorem mapFind_mem {m : List (SIdx × α)} (hm : SortedMap m) {v : SIdx} (hv : ∃ p ∈ m, p.1 = v) :
    ∃ i, ∃ h : i < m.length, m[i].1 = v ∧ mapFind m v = .ok i := by
  obtain ⟨p, hp, rfl⟩ := hv
  rcases mapFind_ok hm (hm.sane p hp) (hm.fits p hp) with h | h
  · exact h
  · exact absurd rfl (h.1 p hp)

theorem mapFind_not_mem {m : List (SIdx × α)} (hm : SortedMap m) {v : SIdx} (hv : Sane v.2)
    (hd : degree v.2 < 2 ^ 32) (h : ∀ p ∈ m, p.1 ≠ v) : mapFind m v = .ok m.length := by
  rcases mapFind_ok hm hv hd with ⟨i, hi, h1, _⟩ | h
  · exact absurd h1 (h _ (List.getElem_mem hi))
  · exact h.2

/-- Sorted lists of keys with the same elements are equal. -/
theorem keys_ext : ∀ {l1 l2 : List SIdx}, l1.Pairwise Less → l2.Pairwise Less →
    (∀ v, v ∈ l1 ↔ v ∈ l2) → l1 = l2 := by
  intro l1 l2 h1 h2 h
  have n1 : l1.Nodup := h1.imp (fun hl he => by subst he; exact Less.irrefl _ hl)
  have n2 : l2.Nodup := h2.imp (fun hl he => by subst he; exact Less.irrefl _ hl)
  have hp : l1.Perm l2 := (List.perm_ext_iff_of_nodup n1 n2).mpr h
  exact List.Perm.eq_of_pairwise (le := Less) (fun a b _ _ hab hba => absurd hba hab.asymm) h1 h2 hp

/-- A segment of a sorted list. -/
theorem segment_eq {m : List (SIdx × α)} (hm : SortedMap m) {b e : Nat} (hb : b ≤ e)
    (he : e < m.length) (p : SIdx → Bool)
    (hp : ∀ i (h : i < m.length), p m[i].1 = true ↔ b ≤ i ∧ i ≤ e) :
    (m.drop b).take (e + 1 - b) = m.filter (fun q => p q.1) := by
  have hsplit : m = m.take b ++ ((m.drop b).take (e + 1 - b) ++ (m.drop b).drop (e + 1 - b)) := by
    rw [List.take_append_drop, List.take_append_drop]
  conv_rhs => rw [hsplit]
  rw [List.filter_append, List.filter_append]
  have h1 : (m.take b).filter (fun q => p q.1) = [] := by
    rw [List.filter_eq_nil_iff]
    intro q hq
    obtain ⟨i, hi, rfl⟩ := List.mem_iff_getElem.mp hq
    rw [List.length_take] at hi
    rw [List.getElem_take, hp i (by omega)]
    omega
  have h2 : ((m.drop b).drop (e + 1 - b)).filter (fun q => p q.1) = [] := by
    rw [List.filter_eq_nil_iff]
    intro q hq
    obtain ⟨i, hi, rfl⟩ := List.mem_iff_getElem.mp hq
    simp only [List.length_drop] at hi
    rw [List.getElem_drop, List.getElem_drop, hp _ (by omega)]
    omega
  have h3 : ((m.drop b).take (e + 1 - b)).filter (fun q => p q.1) = (m.drop b).take (e + 1 - b) := by
    rw [List.filter_eq_self]
    intro q hq
    obtain ⟨i, hi, rfl⟩ := List.mem_iff_getElem.mp hq
    simp only [List.length_take, List.length_drop] at hi
    rw [List.getElem_take, List.getElem_drop, hp _ (by omega)]
    omega
  rw [h1, h2, h3]; simp

end Heyoka.Dtens
