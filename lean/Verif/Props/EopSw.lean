import Verif.EopSw.Lemmas
import Mathlib.Algebra.Order.Archimedean.Real.Basic
import Mathlib.Data.Rat.Floor
import Mathlib.Tactic.NormNum

/-!
# Properties of the EOP/SW tables (C35, C36, C37)
-/

namespace Heyoka.EopSw

open Search

/-! ## Specification -/

/-- The `i`-th half-open interval of the table, `[dates[i], dates[i + 1])`, contains `t`
(`none`: NaN, contained in no interval). -/
def Encloses {K : Type*} [LinearOrder K] (dates : List K) (t : Option K) (i : Nat) : Prop :=
  ∃ v d0 d1, t = some v ∧ dates[i]? = some d0 ∧ dates[i + 1]? = some d1 ∧ d0 ≤ v ∧ v < d1

section Lookup
variable {K : Type*} [LinearOrder K]

/-- At most one interval of a sorted table contains a date. -/
theorem encloses_unique {dates : List K} (hs : dates.Pairwise (· ≤ ·)) {t : Option K} {i j : Nat}
    (hi : Encloses dates t i) (hj : Encloses dates t j) : i = j := by
  obtain ⟨v, d0, d1, rfl, a1, a2, a3, a4⟩ := hi
  obtain ⟨w, e0, e1, hw, b1, b2, b3, b4⟩ := hj
  cases hw
  rw [List.getElem?_eq_some_iff] at a1 a2 b1 b2
  obtain ⟨a1, rfl⟩ := a1; obtain ⟨a2, rfl⟩ := a2
  obtain ⟨b1, rfl⟩ := b1; obtain ⟨b2, rfl⟩ := b2
  rw [List.pairwise_iff_getElem] at hs
  by_contra hne
  rcases Nat.lt_or_gt_of_ne hne with h | h
  · have : dates[i + 1] ≤ dates[j] := by
      rcases Nat.lt_or_ge (i + 1) j with h' | h'
      · exact hs _ _ a2 b1 h'
      · have : i + 1 = j := by omega
        subst this; exact le_rfl
    exact absurd (a4.trans_le (this.trans b3)) (lt_irrefl _)
  · have : dates[j + 1] ≤ dates[i] := by
      rcases Nat.lt_or_ge (j + 1) i with h' | h'
      · exact hs _ _ b2 a1 h'
      · have : j + 1 = i := by omega
        subst this; exact le_rfl
    exact absurd (b4.trans_le (this.trans a3)) (lt_irrefl _)

/-- **C35.** For every sorted table and every query (NaN included) the lookup terminates without
reading outside of the table; it returns the index of the interval containing the query, or the
size of the table if there is no such interval. -/
theorem locate_date_correct {dates : List K} (hs : dates.Pairwise (· ≤ ·)) (t : Option K) :
    ∃ r, locateDate dates t = .ok r ∧
      (Encloses dates t r ∨ (r = dates.length ∧ ∀ i, ¬ Encloses dates t i)) := by
  obtain ⟨hle, hp⟩ := isPart_ule hs t
  refine ⟨_, locateDate_eq hs t, ?_⟩
  generalize dates.countP (ule t) = n at hle hp
  cases t with
  | none =>
    right
    refine ⟨?_, fun i h => by obtain ⟨v, _, _, h, _⟩ := h; cases h⟩
    have : n = dates.length := by
      by_contra hne
      have h := hp n (by omega)
      simp [ule] at h
    simp [adjust, this]
  | some v =>
    simp only [ule, decide_eq_true_eq] at hp
    by_cases h0 : n = 0
    · right
      refine ⟨by simp [adjust, h0], ?_⟩
      rintro i ⟨w, d0, d1, hw, a1, -, a3, -⟩
      cases hw
      rw [List.getElem?_eq_some_iff] at a1
      obtain ⟨a1, rfl⟩ := a1
      have := (hp i a1).1 a3
      omega
    · by_cases h1 : n = dates.length
      · right
        refine ⟨by simp [adjust, h1], ?_⟩
        rintro i ⟨w, d0, d1, hw, -, a2, -, a4⟩
        cases hw
        rw [List.getElem?_eq_some_iff] at a2
        obtain ⟨a2, rfl⟩ := a2
        exact absurd ((hp (i + 1) a2).2 (by omega)) (not_le.2 a4)
      · left
        have e : adjust dates.length n = n - 1 := by simp [adjust, h0, h1]
        rw [e]
        refine ⟨v, dates[n - 1]'(by omega), dates[n]'(by omega), rfl,
          List.getElem?_eq_getElem _, ?_, (hp _ (by omega)).2 (by omega), ?_⟩
        · rw [show n - 1 + 1 = n by omega]; exact List.getElem?_eq_getElem _
        · exact not_le.1 fun h => absurd ((hp n (by omega)).1 h) (lt_irrefl _)

/-- **C35.** The vector lookup, in which lanes finish at different times, gives in every lane the
result of the scalar lookup, for every number of lanes. -/
theorem locate_date_vec_eq_scalar {dates : List K} (hs : dates.Pairwise (· ≤ ·))
    (qs : List (Option K)) :
    locateDateVec dates qs = mapLanes (locateDate dates) qs ∧
      ∃ rs, locateDateVec dates qs = .ok rs := by
  refine ⟨?_, _, locateDateVec_eq hs qs⟩
  rw [locateDateVec_eq hs, mapLanes_ok (locateDate_eq hs)]

/-- **C35.** The dates of every table accepted by the constructors are finite, strictly
increasing and at least two: the hypothesis of the lookup theorems always holds (the conversion
from MJD to Julian centuries is assumed to be monotone). -/
theorem validated_dates_sorted {nn : K → Bool} {rs : List (Row K)} (h : validateTable nn rs = true) :
    ∃ ds : List K, rs.map Row.mjd = ds.map some ∧ ds.Pairwise (· < ·) ∧ 2 ≤ ds.length := by
  simp only [validateTable, Bool.and_eq_true, Bool.not_eq_eq_eq_not, Bool.not_true,
    decide_eq_false_iff_not, not_lt] at h
  obtain ⟨ds, e, hp⟩ := checkRows_spec h.2
  refine ⟨ds, e, hp, ?_⟩
  have := congrArg List.length e
  simp only [List.length_map] at this
  omega

end Lookup

example : ([1, 3, 3, 7] : List ℤ).Pairwise (· ≤ ·) := by decide
example : Encloses ([1, 3, 3, 7] : List ℤ) (some 5) 2 := ⟨5, 3, 7, rfl, rfl, rfl, by decide, by decide⟩
example : locateDate ([1, 3, 3, 7] : List ℤ) (some 5) = .ok 2 := by with_unfolding_all rfl
example : locateDate ([1, 3, 3, 7] : List ℤ) (some 7) = .ok 4 := by with_unfolding_all rfl
example : validateTable (fun _ => true) [(⟨some (1 : ℤ), []⟩ : Row ℤ), ⟨some 2, []⟩] = true := by decide
example : validateTable (fun _ => true) [(⟨some (2 : ℤ), []⟩ : Row ℤ), ⟨some 2, []⟩] = false := by
  decide

section Interp
variable {K : Type*} [Field K] [LinearOrder K] [IsStrictOrderedRing K]

theorem evalEopSw_of_encloses {dates vals : List K} (hs : dates.Pairwise (· ≤ ·))
    (hlen : vals.length = dates.length) {t : K} {i : Nat} (h : Encloses dates (some t) i) :
    ∃ t0 t1 e0 e1, dates[i]? = some t0 ∧ dates[i + 1]? = some t1 ∧ vals[i]? = some e0 ∧
      vals[i + 1]? = some e1 ∧ t0 ≤ t ∧ t < t1 ∧
      evalEopSw dates vals (some t) = .ok (lerp (some t) (some (t0, t1, e0, e1))) := by
  obtain ⟨r, hr, hcase⟩ := locate_date_correct hs (some t)
  rcases hcase with hc | ⟨_, hc⟩
  · have := encloses_unique hs h hc
    subst this
    obtain ⟨v, t0, t1, hv, a1, a2, a3, a4⟩ := h
    cases hv
    have hi : i + 1 < dates.length := (List.getElem?_eq_some_iff.1 a2).1
    refine ⟨t0, t1, vals[i], vals[i + 1], a1, a2, List.getElem?_eq_getElem _,
      List.getElem?_eq_getElem _, a3, a4, ?_⟩
    rw [evalEopSw, hr, Res.bind_ok, fetch, if_neg (by omega)]
    simp [load, a1, a2, List.getElem?_eq_getElem (show i < vals.length by omega),
      List.getElem?_eq_getElem (show i + 1 < vals.length by omega)]
  · exact absurd h (hc i)

/-- **C36.** Between two tabulated dates the function returns the value at `t` of the straight
line through the two tabulated points, and its slope. -/
theorem eop_linear {dates vals : List K} (hs : dates.Pairwise (· ≤ ·))
    (hlen : vals.length = dates.length) {i : Nat} {t t0 t1 e0 e1 : K}
    (h0 : dates[i]? = some t0) (h1 : dates[i + 1]? = some t1)
    (g0 : vals[i]? = some e0) (g1 : vals[i + 1]? = some e1) (ht0 : t0 ≤ t) (ht1 : t < t1) :
    evalEopSw dates vals (some t) =
      .ok (some (e0 + (e1 - e0) / (t1 - t0) * (t - t0)), some ((e1 - e0) / (t1 - t0))) := by
  obtain ⟨a0, a1, b0, b1, q1, q2, q3, q4, -, -, q⟩ :=
    evalEopSw_of_encloses hs hlen ⟨t, t0, t1, rfl, h0, h1, ht0, ht1⟩
  rw [h0] at q1; rw [h1] at q2; rw [g0] at q3; rw [g1] at q4
  cases q1; cases q2; cases q3; cases q4
  have hne : t1 - t0 ≠ 0 := sub_ne_zero.2 (ne_of_gt (ht0.trans_lt ht1))
  rw [q]
  simp only [lerp, fdiv, if_neg hne]
  congr 3
  field_simp
  ring

/-- **C36.** At every tabulated date but the last one, the tabulated value is returned. -/
theorem eop_exact_at_nodes {dates vals : List K} (hs : dates.Pairwise (· < ·))
    (hlen : vals.length = dates.length) {i : Nat} {t e : K} (ht : dates[i]? = some t)
    (he : vals[i]? = some e) (hi : i + 1 < dates.length) :
    ∃ d, evalEopSw dates vals (some t) = .ok (some e, d) := by
  have hs' := hs.imp (S := (· ≤ ·)) fun h => le_of_lt h
  have h1 : dates[i + 1]? = some dates[i + 1] := List.getElem?_eq_getElem _
  have g1 : vals[i + 1]? = some vals[i + 1] := List.getElem?_eq_getElem _
  have hlt : t < dates[i + 1] := by
    obtain ⟨hi', rfl⟩ := List.getElem?_eq_some_iff.1 ht
    exact (List.pairwise_iff_getElem.1 hs) _ _ _ _ (by omega)
  have := eop_linear hs' hlen ht h1 he g1 le_rfl hlt
  rw [sub_self, mul_zero, add_zero] at this
  exact ⟨_, this⟩

/-- **C36.** Continuity: on the whole closed interval between two consecutive dates (the last
date of the table excluded) the function is the linear interpolant of *that* interval; in
particular the linear pieces on the two sides of a tabulated date agree there. -/
theorem eop_continuous_pieces {dates vals : List K} (hs : dates.Pairwise (· < ·))
    (hlen : vals.length = dates.length) {i : Nat} {t t0 t1 e0 e1 : K}
    (h0 : dates[i]? = some t0) (h1 : dates[i + 1]? = some t1)
    (g0 : vals[i]? = some e0) (g1 : vals[i + 1]? = some e1) (ht0 : t0 ≤ t) (ht1 : t ≤ t1)
    (hlast : t < t1 ∨ i + 2 < dates.length) :
    ∃ d, evalEopSw dates vals (some t) = .ok (some (e0 + (e1 - e0) / (t1 - t0) * (t - t0)), d) := by
  have hs' := hs.imp (S := (· ≤ ·)) fun h => le_of_lt h
  rcases lt_or_eq_of_le ht1 with hlt | rfl
  · exact ⟨_, eop_linear hs' hlen h0 h1 g0 g1 ht0 hlt⟩
  · have hi : i + 1 + 1 < dates.length := by
      rcases hlast with h | h
      · exact absurd h (lt_irrefl _)
      · exact h
    obtain ⟨d, hd⟩ := eop_exact_at_nodes hs hlen h1 g1 hi
    refine ⟨d, hd.trans ?_⟩
    have : t0 < t := by
      obtain ⟨_, rfl⟩ := List.getElem?_eq_some_iff.1 h0
      obtain ⟨_, rfl⟩ := List.getElem?_eq_some_iff.1 h1
      exact (List.pairwise_iff_getElem.1 hs) _ _ _ _ (by omega)
    have hne : t - t0 ≠ 0 := sub_ne_zero.2 (ne_of_gt this)
    rw [div_mul_cancel₀ _ hne]
    congr 3
    ring

/-- **C36.** NaN is returned, without any load, when the date is in no interval: before the
first date, at or after the last one, NaN. -/
theorem eop_nan_outside {dates vals : List K} (hs : dates.Pairwise (· ≤ ·)) {t : Option K}
    (h : ∀ i, ¬ Encloses dates t i) : evalEopSw dates vals t = .ok (none, none) := by
  obtain ⟨r, hr, hcase⟩ := locate_date_correct hs t
  rcases hcase with hc | ⟨hc, _⟩
  · exact absurd hc (h r)
  · simp [evalEopSw, hr, hc, fetch, lerp]

/-- A date before the first or not before the last of a sorted table is in no interval. -/
theorem not_encloses_of_outside {dates : List K} (hs : dates.Pairwise (· ≤ ·)) {t : K}
    (h : (∀ d ∈ dates, t < d) ∨ (∀ d ∈ dates, d ≤ t)) : ∀ i, ¬ Encloses dates (some t) i := by
  rintro i ⟨v, d0, d1, hv, a1, a2, a3, a4⟩
  cases hv
  rcases h with h | h
  · exact absurd (h _ (List.mem_of_getElem? a1)) (not_lt.2 a3)
  · exact absurd (h _ (List.mem_of_getElem? a2)) (not_le.2 a4)

/-- **C36.** The vector version agrees with the scalar one in every lane and never reads outside
of the tables. -/
theorem eop_vec_eq_scalar {dates vals : List K} (hs : dates.Pairwise (· ≤ ·))
    (hlen : vals.length = dates.length) (qs : List (Option K)) :
    evalEopSwVec dates vals qs = mapLanes (evalEopSw dates vals) qs ∧
      ∃ rs, evalEopSwVec dates vals qs = .ok rs := by
  have key : ∀ q, ∃ r, evalEopSw dates vals q = .ok r := by
    intro q
    by_cases h : ∃ i, Encloses dates q i
    · obtain ⟨i, hi⟩ := h
      obtain ⟨v, _, _, rfl, _⟩ := id hi
      obtain ⟨_, _, _, _, _, _, _, _, _, _, e⟩ := evalEopSw_of_encloses hs hlen hi
      exact ⟨_, e⟩
    · push Not at h
      exact ⟨_, eop_nan_outside hs h⟩
  have e1 : evalEopSwVec dates vals qs = mapLanes (evalEopSw dates vals) qs := by
    rw [evalEopSwVec, locateDateVec_eq hs, Res.bind_ok]
    have : qs.zip (qs.map fun q => adjust dates.length (dates.countP (ule q)))
        = qs.map fun q => (q, adjust dates.length (dates.countP (ule q))) := by
      induction qs with
      | nil => rfl
      | cons q qs ih => simp [ih]
    rw [this, mapLanes_map]
    apply mapLanes_congr
    intro q _
    simp [evalEopSw, locateDate_eq hs]
  refine ⟨e1, ?_⟩
  rw [e1]
  choose g hg using key
  exact ⟨_, mapLanes_ok hg qs⟩

/-- **C36.** The angles (ERA, GMST) are returned in `[0, 2π)` and differ from the linear
interpolant by an integer number of turns. -/
theorem eop_angle_reduced [FloorRing K] {dates vals : List K} (hs : dates.Pairwise (· ≤ ·))
    (hlen : vals.length = dates.length) {twopi : K} (hpi : 0 < twopi) {i : Nat}
    {t t0 t1 e0 e1 : K}
    (h0 : dates[i]? = some t0) (h1 : dates[i + 1]? = some t1)
    (g0 : vals[i]? = some e0) (g1 : vals[i + 1]? = some e1) (ht0 : t0 ≤ t) (ht1 : t < t1) :
    ∃ a, evalEopAngle twopi dates vals (some t) = .ok (some a, some ((e1 - e0) / (t1 - t0))) ∧
      0 ≤ a ∧ a < twopi ∧ ∃ k : ℤ, a = e0 + (e1 - e0) / (t1 - t0) * (t - t0) - k * twopi := by
  refine ⟨modulus (e0 + (e1 - e0) / (t1 - t0) * (t - t0)) twopi, ?_, ?_, ?_, ?_⟩
  · simp [evalEopAngle, eop_linear hs hlen h0 h1 g0 g1 ht0 ht1]
  · have := Int.floor_le ((e0 + (e1 - e0) / (t1 - t0) * (t - t0)) / twopi)
    rw [le_div_iff₀ hpi] at this
    unfold modulus; linarith [mul_comm twopi
      ((⌊(e0 + (e1 - e0) / (t1 - t0) * (t - t0)) / twopi⌋ : ℤ) : K)]
  · have := Int.lt_floor_add_one ((e0 + (e1 - e0) / (t1 - t0) * (t - t0)) / twopi)
    rw [div_lt_iff₀ hpi] at this
    unfold modulus; linarith [mul_comm twopi
      ((⌊(e0 + (e1 - e0) / (t1 - t0) * (t - t0)) / twopi⌋ : ℤ) : K)]
  · exact ⟨_, by unfold modulus; rw [mul_comm twopi]⟩

end Interp

example : evalEopSw ([0, 2, 4] : List ℚ) [10, 20, 0] (some 1) = .ok (some 15, some 5) := by
  have := eop_linear (K := ℚ) (dates := [0, 2, 4]) (vals := [10, 20, 0]) (i := 0) (t := 1)
    (t0 := 0) (t1 := 2) (e0 := 10) (e1 := 20) (by simp; norm_num) rfl rfl rfl rfl rfl
    (by norm_num) (by norm_num)
  rw [this]; norm_num

/-! ## Names of generated globals -/

/-- The data families of the library ("eop" and "sw"). src/eop_data.cpp, src/sw_data.cpp. -/
def families : List (List Char) := [['e', 'o', 'p'], ['s', 'w']]

/-- **C37.** The name of a generated data array determines the family, the array, the dataset
(row count, timestamp, identifier) and the type, for all the datasets accepted by the
validation. -/
theorem data_name_injective {d d' a a' ty ty' : List Char} {m m' : Meta} {b b' : Bool}
    {r r' : List (List Char)} (hd : d ∈ families) (hd' : d' ∈ families) (ha : '.' ∉ a)
    (ha' : '.' ∉ a') (hm : checkTsId m b r = true) (hm' : checkTsId m' b' r' = true)
    (h : dataName d a m ty = dataName d' a' m' ty') : d = d' ∧ a = a' ∧ m = m' ∧ ty = ty' := by
  obtain ⟨h1, h2⟩ := checkTsId_spec hm
  obtain ⟨h1', h2'⟩ := checkTsId_spec hm'
  simp only [dataName, List.append_assoc] at h
  have h := List.append_cancel_left h
  rw [← List.append_assoc d, ← List.append_assoc d', ← List.append_assoc (d ++ _),
    ← List.append_assoc (d' ++ _)] at h
  simp only [families, List.mem_cons, List.not_mem_nil, or_false] at hd hd'
  have hdot : ∀ x, x = ['e', 'o', 'p'] ∨ x = ['s', 'w'] → '.' ∉ x := by
    rintro x (rfl | rfl) <;> decide
  have key := nameTail_inj (p := (d ++ ['_', 'd', 'a', 't', 'a', '_']) ++ a) (p' := (d' ++ ['_', 'd', 'a', 't', 'a', '_']) ++ a')
    (by
      simp only [List.mem_append, not_or]
      exact ⟨⟨hdot _ hd, by decide⟩, ha⟩)
    (by
      simp only [List.mem_append, not_or]
      exact ⟨⟨hdot _ hd', by decide⟩, ha'⟩) h1 h1' h2 h2' (by simpa using h)
  obtain ⟨e, e2, e3⟩ := key
  rcases hd with rfl | rfl <;> rcases hd' with rfl | rfl <;> simp at e <;>
    exact ⟨rfl, e, e2, e3⟩

/-- **C37.** The name of a generated interpolation function determines the family, the
quantity, the dataset and the type. -/
theorem func_name_injective {d d' a a' ty ty' : List Char} {m m' : Meta} {b b' : Bool}
    {r r' : List (List Char)} (hd : d ∈ families) (hd' : d' ∈ families) (ha : '.' ∉ a)
    (ha' : '.' ∉ a') (hm : checkTsId m b r = true) (hm' : checkTsId m' b' r' = true)
    (h : funcName d a m ty = funcName d' a' m' ty') : d = d' ∧ a = a' ∧ m = m' ∧ ty = ty' := by
  obtain ⟨h1, h2⟩ := checkTsId_spec hm
  obtain ⟨h1', h2'⟩ := checkTsId_spec hm'
  simp only [families, List.mem_cons, List.not_mem_nil, or_false] at hd hd'
  have hdot : ∀ x, x = ['e', 'o', 'p'] ∨ x = ['s', 'w'] → '.' ∉ x := by
    rintro x (rfl | rfl) <;> decide
  have key := nameTail_inj (ty := ty) (ty' := ty')
    (p := d ++ (['_', 'g', 'e', 't', '_'] ++ (a ++ '_' :: (a ++ ['p']))))
    (p' := d' ++ (['_', 'g', 'e', 't', '_'] ++ (a' ++ '_' :: (a' ++ ['p']))))
    (by
      simp only [List.mem_append, List.mem_cons, not_or]
      exact ⟨hdot _ hd, by decide, ha, by decide, ha, by decide⟩)
    (by
      simp only [List.mem_append, List.mem_cons, not_or]
      exact ⟨hdot _ hd', by decide, ha', by decide, ha', by decide⟩) h1 h1' h2 h2'
    (by
      simp only [funcName, List.append_assoc] at h
      have h := List.append_cancel_left h
      simpa using h)
  obtain ⟨e, e2, e3⟩ := key
  have fin : ∀ x : List Char, x = ['_', 'g', 'e', 't', '_'] →
      x ++ (a ++ '_' :: (a ++ ['p'])) = x ++ (a' ++ '_' :: (a' ++ ['p'])) → a = a' := by
    intro x _ hx
    have hx := List.append_cancel_left hx
    have hl := congrArg List.length hx
    simp only [List.length_append, List.length_cons, List.length_nil] at hl
    exact (List.append_inj hx (by omega)).1
  rcases hd with rfl | rfl <;> rcases hd' with rfl | rfl <;> simp only [
    List.cons_append, List.nil_append, List.cons.injEq, Char.reduceEq, true_and, false_and] at e
  · exact ⟨rfl, fin _ rfl (by simpa using e), e2, e3⟩
  · exact ⟨rfl, fin _ rfl (by simpa using e), e2, e3⟩

/-- **C37.** A data array and an interpolation function never have the same name (both kinds of
symbols live in the same module). -/
theorem data_name_ne_func_name {d d' a a' ty ty' : List Char} {m m' : Meta}
    (hd : d ∈ families) (hd' : d' ∈ families) : dataName d a m ty ≠ funcName d' a' m' ty' := by
  intro h
  simp only [families, List.mem_cons, List.not_mem_nil, or_false] at hd hd'
  simp only [dataName, funcName, List.append_assoc] at h
  have h := List.append_cancel_left h
  rcases hd with rfl | rfl <;> rcases hd' with rfl | rfl <;> simp at h

/-- A request for a data array. -/
structure Request (V : Type*) where
  /-- family -/
  fam : List Char
  /-- array name -/
  arr : List Char
  /-- dataset -/
  dset : Meta
  /-- type -/
  ty : List Char
  /-- contents computed from the dataset -/
  contents : V

/-- Serve a list of requests in a module, in order. -/
def serve {V : Type*} : Globals V → List (Request V) → Globals V × List V
  | g, [] => (g, [])
  | g, q :: qs =>
    let r := getOrCreate g (dataName q.fam q.arr q.dset q.ty) q.contents
    let rs := serve r.1 qs
    (rs.1, r.2 :: rs.2)

/-- **C37.** In every history of requests in a module every request is served with the contents
of its own dataset, provided that datasets with the same row count, timestamp and identifier
have the same contents. -/
theorem requests_served_own_data {V : Type*} (qs : List (Request V))
    (hfam : ∀ q ∈ qs, q.fam ∈ families) (harr : ∀ q ∈ qs, '.' ∉ q.arr)
    (hok : ∀ q ∈ qs, ∃ b r, checkTsId q.dset b r = true)
    (hsame : ∀ q ∈ qs, ∀ q' ∈ qs, q.fam = q'.fam → q.arr = q'.arr → q.dset = q'.dset →
      q.ty = q'.ty → q.contents = q'.contents) :
    (serve [] qs).2 = qs.map Request.contents := by
  have main : ∀ (l : List (Request V)) (g : Globals V), (∀ q ∈ l, q ∈ qs) →
      (∀ n v, g.lookup n = some v → ∃ q ∈ qs, n = dataName q.fam q.arr q.dset q.ty ∧
        v = q.contents) → (serve g l).2 = l.map Request.contents := by
    intro l
    induction l with
    | nil => intro g _ _; rfl
    | cons q l ih =>
      intro g hl hg
      have hq := hl q List.mem_cons_self
      have hl' : ∀ q ∈ l, q ∈ qs := fun x hx => hl x (List.mem_cons_of_mem _ hx)
      simp only [serve, List.map_cons]
      unfold getOrCreate
      cases hlk : g.lookup (dataName q.fam q.arr q.dset q.ty) with
      | some w =>
        simp only
        obtain ⟨q', hq', e, ew⟩ := hg _ _ hlk
        obtain ⟨b, r, hb⟩ := hok q hq
        obtain ⟨b', r', hb'⟩ := hok q' hq'
        obtain ⟨e1, e2, e3, e4⟩ := data_name_injective (hfam q hq) (hfam q' hq') (harr q hq)
          (harr q' hq') hb hb' e
        rw [ih g hl' hg, ew, hsame q hq q' hq' e1 e2 e3 e4]
      | none =>
        simp only
        rw [ih _ hl']
        intro n v hn
        rw [List.lookup_cons] at hn
        split at hn
        · next hbeq =>
          cases hn
          exact ⟨q, hq, by simpa using hbeq, rfl⟩
        · exact hg n v hn
  exact main qs [] (fun _ h => h) (fun n v h => by simp at h)

example : checkTsId ⟨2, ['2', '0', '2', '4', '_', '0', '1', '_', '0', '1'], ['m', 'y', '_', 'd', 'a', 't', 'a']⟩ false [['i', 'e', 'r', 's', '_', 'r', 'a', 'p', 'i', 'd', '_']] = true := by
  decide
example : ∃ qs : List (Request Nat), qs.length = 2 ∧ (∀ q ∈ qs, q.fam ∈ families) ∧
    (∀ q ∈ qs, '.' ∉ q.arr) ∧ (∀ q ∈ qs, ∃ b r, checkTsId q.dset b r = true) ∧
    (∀ q ∈ qs, ∀ q' ∈ qs, q.fam = q'.fam → q.arr = q'.arr → q.dset = q'.dset →
      q.ty = q'.ty → q.contents = q'.contents) := by
  refine ⟨[⟨['e', 'o', 'p'], ['p', 'm', '_', 'x'], ⟨2, ['a'], ['b']⟩, ['d', 'o', 'u', 'b', 'l', 'e'], 7⟩,
    ⟨['e', 'o', 'p'], ['p', 'm', '_', 'x'], ⟨2, ['a'], ['c']⟩, ['d', 'o', 'u', 'b', 'l', 'e'], 8⟩], rfl, ?_, ?_, ?_, ?_⟩
  · simp [families]
  · simp
  · intro q hq
    simp only [List.mem_cons, List.not_mem_nil, or_false] at hq
    rcases hq with rfl | rfl <;> exact ⟨true, [], by decide⟩
  · simp

end Heyoka.EopSw
