import Verif.Calendar.Utc
import Mathlib.Analysis.Calculus.Deriv.Basic
import Mathlib.Analysis.Calculus.Deriv.Add
import Mathlib.Analysis.Calculus.IteratedDeriv.Lemmas
import Mathlib.Topology.Order.OrderClosed

/-!
# C66: `dayfrac()` is the time since the beginning of the UTC year

The specification is Verif/Calendar/Spec.lean: the rules of the Gregorian calendar (`IsCalendar`) and
the list of leap seconds since 1972 (`taiMinusUtc`).
-/

namespace Heyoka.Cal

/-- There is a numbering of the days which follows the rules of the calendar. -/
theorem exists_calendar : ∃ N, IsCalendar N := by
  refine ⟨fun y m d => yearOff y + monthOff y m + (d - 1), ⟨by decide, fun y m d => by ring, ?_, ?_⟩⟩
  · intro y m h1 h2
    have hoff : monthOff y (m + 1) = monthOff y m + monthLen y m := by
      have h3 : m ≤ 11 := by omega
      by_cases hl : IsLeap y
      · interval_cases m <;> norm_num [monthOff, monthLen, hl]
      · interval_cases m <;> norm_num [monthOff, monthLen, hl]
    rw [hoff]; ring
  · intro y
    have h12 : monthOff y 12 = (if IsLeap y then 1 else 0) + 334 := rfl
    have h11 : monthOff (y + 1) 1 = 0 := rfl
    rw [yearOff_succ, h12, h11]
    split <;> ring

/-- **C66.** The conversion from calendar dates to day numbers accepts exactly the dates of the
Gregorian calendar from the year -4799 on, and numbers them by the rules of the calendar. -/
theorem cal2jd_spec {N : ℤ → ℤ → ℤ → ℤ} (hN : IsCalendar N) (y m d : ℤ) :
    cal2jd y m d = if -4799 ≤ y ∧ ValidDate y m d then some (N y m d) else none := by
  unfold cal2jd
  by_cases hy : y < -4799
  · rw [if_pos hy, if_neg (by intro h; omega)]
  rw [if_neg hy]
  by_cases hm : m < 1 ∨ 12 < m
  · rw [if_pos hm, if_neg (by intro h; have h1 := h.2.1; have h2 := h.2.2.1; omega)]
  rw [if_neg hm]
  have h1 : 1 ≤ m := by omega
  have h2 : m ≤ 12 := by omega
  rw [mtab_leapDay y m h1 h2]
  by_cases hd : d < 1 ∨ monthLen y m < d
  · rw [if_pos hd, if_neg (by intro h; have h1 := h.2.2.2.1; have h2 := h.2.2.2.2; omega)]
  · rw [if_neg hd, if_pos ⟨by omega, h1, h2, by omega, by omega⟩, calMjd_closed y m d (by omega) h1 h2,
      cal_closed hN y m d h1 h2]

section
variable {K : Type*} [Field K] [LinearOrder K] [IsStrictOrderedRing K] [FloorRing K]

/-- **C66.** The conversion from Julian dates to calendar dates: for every date in the range of the
routine, however it is split into two parts, the result is a date of the calendar with a fraction of
a day, and they add up to the argument. Outside of the range it is an error. -/
theorem jd2cal_spec {N : ℤ → ℤ → ℤ → ℤ} (hN : IsCalendar N) (dj1 dj2 : K) :
    (dj1 + dj2 < -68569.5 ∨ 1e9 < dj1 + dj2 → jd2cal dj1 dj2 = none) ∧
    (-68569.5 ≤ dj1 + dj2 → dj1 + dj2 ≤ 1e9 → ∃ y m d f, jd2cal dj1 dj2 = some ((y, m, d), f) ∧
      ValidDate y m d ∧ 0 ≤ f ∧ f < 1 ∧ (N y m d : K) + f = dj1 + dj2 - 2400000.5) := by
  have e1 : (-68569.5 : K) = -137139 / 2 := by norm_num
  have e2 : (1e9 : K) = 1000000000 := by norm_num
  rw [e1, e2]
  constructor
  · intro h
    unfold jd2cal
    rw [if_pos h]
  · intro h1 h2
    unfold jd2cal
    rw [if_neg (by rw [not_or, not_lt, not_lt]; exact ⟨h1, h2⟩), splitJd_eq]
    dsimp only
    obtain ⟨j, hj⟩ : ∃ j, j = ⌊dj1 + dj2 + 1 / 2⌋ := ⟨_, rfl⟩
    rw [← hj]
    have hlo : -68569 ≤ j := by
      rw [hj]; apply Int.le_floor.mpr; push_cast; linarith
    obtain ⟨hv, hn⟩ := civil_spec j hlo
    have f1 := Int.floor_le (dj1 + dj2 + 1 / 2)
    have f2 := Int.lt_floor_add_one (dj1 + dj2 + 1 / 2)
    rw [← hj] at f1 f2
    refine ⟨(civil j).1, (civil j).2.1, (civil j).2.2, _, rfl, hv, by linarith, by linarith, ?_⟩
    rw [cal_closed hN _ _ _ hv.1 hv.2.1, hn]
    push_cast
    norm_num
    ring

/-- **C66.** The two conversions are inverse: every date from the year -4799 on comes back, at 0h. -/
theorem cal_round_trip (y m d : ℤ) (hy : -4799 ≤ y) (hv : ValidDate y m d) (hmax : y ≤ 2000000) :
    ∃ z, cal2jd y m d = some z ∧ jd2cal (2400000.5 : K) (z : K) = some ((y, m, d), 0) := by
  obtain ⟨N, hN⟩ := exists_calendar
  refine ⟨N y m d, by rw [cal2jd_spec hN, if_pos ⟨hy, hv⟩], ?_⟩
  have hnum : N y m d = num y m d := cal_closed hN y m d hv.1 hv.2.1
  obtain ⟨r1, r2⟩ := num_range hv
  have l1 := yearOff_le hy
  have l2 := yearOff_le (show y + 1 ≤ 2000001 by omega)
  have v1 : yearOff (-4799) = -2431739 := by decide
  have v2 : yearOff 2000001 = 729806425 := by decide
  have b1 : (-2431739 : K) ≤ (N y m d : K) := by
    have : (-2431739 : ℤ) ≤ N y m d := by omega
    exact_mod_cast this
  have b2 : (N y m d : K) ≤ 729806425 := by
    have : N y m d ≤ 729806425 := by omega
    exact_mod_cast this
  have e : (2400000.5 : K) + (N y m d : K) + 1 / 2 = ((N y m d + 2400001 : ℤ) : K) := by
    push_cast; norm_num; ring
  unfold jd2cal
  rw [if_neg (by rw [not_or, not_lt, not_lt]; constructor <;> norm_num <;> linarith), splitJd_eq, e,
    Int.floor_intCast, sub_self]
  dsimp only
  rw [hnum, civil_of_num hv (by omega)]

/-- The instant at which the UTC year `y` begins, in days of TT since J2000: TT is ahead of TAI by
32.184 seconds and TAI is ahead of UTC by the number of seconds of the specification. -/
def yearStart (N : ℤ → ℤ → ℤ → ℤ) (y : ℤ) : K :=
  (N y 1 1 : K) - 51544.5 + ((taiMinusUtc y 1 : K) + 32.184) / 86400

theorem dayTai_year {N : ℤ → ℤ → ℤ → ℤ} (hN : IsCalendar N) (y : ℤ) (hy : 1973 ≤ y) :
    dayTai (N y 1 1) = taiMinusUtc y 1 := by
  have hv : ValidDate y 1 1 := ⟨le_refl _, by norm_num, le_refl _, by change (1 : ℤ) ≤ 31; norm_num⟩
  have hnum : N y 1 1 = num y 1 1 := cal_closed hN y 1 1 (le_refl _) (by norm_num)
  have h1 := (num_range hv).1
  have h2 := yearOff_le hy
  have h3 : yearOff 1973 = 41683 := by decide
  unfold dayTai
  rw [hnum, civil_of_num hv (by omega)]

theorem utcTai_year {N : ℤ → ℤ → ℤ → ℤ} (hN : IsCalendar N) (y : ℤ) (hy : 1973 ≤ y) :
    utcTai ((N y 1 1 : ℤ) : K) = (N y 1 1 : K) + (taiMinusUtc y 1 : K) / 86400 := by
  unfold utcTai
  rw [Int.floor_intCast, dayTai_year hN y hy]
  ring

/-- **C66.** `dayfrac()` is the time in days of TT since the beginning of the UTC calendar year, for
every instant from 1973 to the year 2000000 which is not within 1e-17 days of the beginning or of the
end of its year. -/
theorem dayfrac_value {N : ℤ → ℤ → ℤ → ℤ} (hN : IsCalendar N) (y : ℤ) (hy : 1973 ≤ y)
    (hmax : y ≤ 2000000) (tt : K) (h1 : yearStart N y + 1e-17 ≤ tt)
    (h2 : tt ≤ yearStart N (y + 1) - 1e-17) :
    dayfrac tt = tt - yearStart N y := by
  have e17 : (1e-17 : K) = 1 / 10 ^ 17 := by norm_num
  rw [e17] at h1 h2
  have yr : ∀ z, N z 1 1 = yearOff z := cal_year hN
  have l1 := yearOff_le hy
  have l2 := yearOff_le (show y + 1 ≤ 2000001 by omega)
  have l3 := yearOff_lt (show y < y + 1 by omega)
  have v1 : yearOff 1973 = 41683 := by decide
  have v2 : yearOff 2000001 = 729806425 := by decide
  have g1 := utcTai_year (K := K) hN y hy
  have g2 := utcTai_year (K := K) hN (y + 1) (by omega)
  obtain ⟨Z, hZ⟩ : ∃ Z, Z = N y 1 1 := ⟨_, rfl⟩
  obtain ⟨W, hW⟩ : ∃ W, W = N (y + 1) 1 1 := ⟨_, rfl⟩
  have z1 : (41683 : K) ≤ Z := by
    have : 41683 ≤ Z := by rw [hZ, yr]; omega
    exact_mod_cast this
  have z2 : (Z : K) ≤ 729806425 := by
    have : Z ≤ 729806425 := by rw [hZ, yr]; omega
    exact_mod_cast this
  have w1 : (41683 : K) ≤ W := by
    have : 41683 ≤ W := by rw [hW, yr]; omega
    exact_mod_cast this
  have w2 : (W : K) ≤ 729806425 := by
    have : W ≤ 729806425 := by rw [hW, yr]; omega
    exact_mod_cast this
  unfold yearStart at h1 h2 ⊢
  rw [← hZ] at g1 h1 ⊢
  rw [← hW] at g2 h2
  -- TAI, as modified Julian date.
  obtain ⟨a, ha⟩ : ∃ a : K, a = tt + 51544.5 - 32.184 / 86400 := ⟨_, rfl⟩
  have c1 : 1 / 10 ^ 17 ≤ a - utcTai (Z : K) := by
    rw [g1, ha]; linarith
  have c2 : 1 / 10 ^ 17 ≤ utcTai (W : K) - a := by
    rw [g2, ha]; linarith
  have bz := utcTai_bounds (Z : K) (by linarith)
  have bw := utcTai_bounds (W : K) (by linarith)
  have p17 : (0 : K) < 1 / 10 ^ 17 := by positivity
  have a1 : 41318 ≤ a := by linarith
  have a2 : a ≤ 997599990 := by linarith
  -- The UTC instant which the iterations reach.
  obtain ⟨u, hu⟩ : ∃ u, u = (fun x => a - (utcTai x - x))^[3] a := ⟨_, rfl⟩
  have u1 : (Z : K) < u := by
    rw [hu]
    exact (three_iter a Z a1 (by linarith) (le_trans c1 (le_abs_self _))).1 (by linarith)
  have u2 : u < (W : K) := by
    rw [hu]
    refine (three_iter a W a1 (by linarith) ?_).2 (by linarith)
    rw [abs_sub_comm]; exact le_trans c2 (le_abs_self _)
  have hd : (dtat : K) = 32.184 / 86400 := by unfold dtat; norm_num
  have htai : (tttai 2451545 tt).1 + (tttai 2451545 tt).2 = a + 4800001 / 2 := by
    rw [ha]
    unfold tttai
    split_ifs <;> dsimp only <;> rw [hd] <;> norm_num <;> ring
  have hutc : ∃ q, taiutc (tttai 2451545 tt).1 (tttai 2451545 tt).2 = some q ∧
      q.1 + q.2 = u + 4800001 / 2 := by
    revert htai
    generalize tttai 2451545 tt = q
    intro htai
    unfold taiutc
    split_ifs with h
    · obtain ⟨w, e1, e2⟩ := taiutcIter_eq q.1 q.2 a htai a1 a2 3 q.2 a htai (by linarith) a2
      rw [e1]
      exact ⟨_, rfl, by rw [hu]; exact e2⟩
    · obtain ⟨w, e1, e2⟩ := taiutcIter_eq q.2 q.1 a (by linarith) a1 a2 3 q.1 a (by linarith)
        (by linarith) a2
      rw [e1]
      exact ⟨_, rfl, by rw [hu, ← e2]; dsimp only; ring⟩
  obtain ⟨q, hq, hq'⟩ := hutc
  have fl1 : Z ≤ ⌊u⌋ := Int.le_floor.mpr u1.le
  have fl2 : ⌊u⌋ < W := Int.floor_lt.mpr u2
  have hyear : yearUtc q = (4800001 / 2, (Z : K)) := by
    unfold yearUtc
    rw [jd2cal_mjd q.1 q.2 u hq' (by linarith) (by linarith), Option.map_some, Option.getD_some]
    have hlo : -68569 ≤ ⌊u⌋ + 2400001 := by
      have : 41683 ≤ Z := by rw [hZ, yr]; omega
      omega
    have hv := (civil_spec (⌊u⌋ + 2400001) hlo).1
    have hn := civil_num (⌊u⌋ + 2400001) hlo
    have hy' : (civil (⌊u⌋ + 2400001)).1 = y :=
      year_unique hv (by rw [hn, ← yr y, ← hZ]; omega) (by rw [hn, ← yr (y + 1), ← hW]; omega)
    dsimp only
    rw [hy', cal2jd_spec hN, if_pos ⟨by omega, le_refl _, by norm_num, le_refl _,
      by change (1 : ℤ) ≤ 31; norm_num⟩, ← hZ]
  obtain ⟨p, hp, hp'⟩ := utctai_eq (4800001 / 2 : K) (Z : K) (Z : K) (by ring) (by linarith)
    (by linarith)
  have htt : (taitt p.1 p.2).1 + (taitt p.1 p.2).2 = p.1 + p.2 + dtat := by
    unfold taitt
    split_ifs <;> dsimp only <;> ring
  have hret : 2451545 + tt - ((taitt p.1 p.2).1 + (taitt p.1 p.2).2)
      = tt - ((Z : K) - 51544.5 + ((taiMinusUtc y 1 : K) + 32.184) / 86400) := by
    rw [htt, hp', hd, g1]
    norm_num
    ring
  unfold dayfrac
  dsimp only
  rw [hq, Option.getD_some, hyear]
  dsimp only
  rw [hp, Option.getD_some, hret, if_pos (by linarith)]

omit [IsStrictOrderedRing K] in
/-- **C66.** Its value is never negative, for every argument. -/
theorem dayfrac_nonneg (tt : K) : 0 ≤ dayfrac tt := by
  unfold dayfrac
  dsimp only
  split_ifs with h
  · exact h
  · exact le_refl _

end

/-- **C66.** Inside a year the derivative is one, which is the gradient that `dayfrac()` declares
(src/model/dayfrac.cpp 156-159) and the rule of its Taylor derivatives. -/
theorem dayfrac_deriv {N : ℤ → ℤ → ℤ → ℤ} (hN : IsCalendar N) (y : ℤ) (hy : 1973 ≤ y)
    (hmax : y ≤ 2000000) (tt : ℝ) (h1 : yearStart N y + 1e-17 < tt)
    (h2 : tt < yearStart N (y + 1) - 1e-17) : HasDerivAt (dayfrac : ℝ → ℝ) 1 tt := by
  have hd : HasDerivAt (fun t : ℝ => t - yearStart N y) 1 tt := (hasDerivAt_id tt).sub_const _
  apply hd.congr_of_eventuallyEq
  filter_upwards [Ioo_mem_nhds h1 h2] with t ht
  exact dayfrac_value hN y hy hmax t ht.1.le ht.2.le

/-- **C66.** The recurrence for the Taylor derivatives: if `b` are the normalised derivatives of a
function whose value is inside a year, then the results are the normalised derivatives of `dayfrac()`
of the function, to all orders. -/
theorem dayfrac_taylor {N : ℤ → ℤ → ℤ → ℤ} (hN : IsCalendar N) (y : ℤ) (hy : 1973 ≤ y)
    (hmax : y ≤ 2000000) (f : ℝ → ℝ) (t : ℝ) (hf : ContinuousAt f t)
    (h1 : yearStart N y + 1e-17 < f t) (h2 : f t < yearStart N (y + 1) - 1e-17) (b : ℕ → ℝ)
    (hb : ∀ n, b n = iteratedDeriv n f t / n.factorial) (n : ℕ) :
    dayfracDiffVar b n = iteratedDeriv n (fun s => dayfrac (f s)) t / n.factorial := by
  have hev : (fun s => dayfrac (f s)) =ᶠ[nhds t] fun s => f s - yearStart N y := by
    filter_upwards [hf.preimage_mem_nhds (Ioo_mem_nhds h1 h2)] with s hs
    exact dayfrac_value hN y hy hmax (f s) hs.1.le hs.2.le
  rw [hev.iteratedDeriv_eq]
  unfold dayfracDiffVar
  cases n with
  | zero =>
    have h0 := hb 0
    simp only [iteratedDeriv_zero, Nat.factorial_zero, Nat.cast_one, div_one] at h0
    simp only [if_true, iteratedDeriv_zero, Nat.factorial_zero, Nat.cast_one, div_one]
    rw [h0]
    exact dayfrac_value hN y hy hmax (f t) h1.le h2.le
  | succ n =>
    have hd : deriv (fun s => f s - yearStart N y) = deriv f := by
      funext s; exact deriv_sub_const _
    rw [if_neg (Nat.succ_ne_zero n), hb, iteratedDeriv_succ', iteratedDeriv_succ', hd]

/-- **C66.** The same for a constant argument. -/
theorem dayfrac_taylor_num (c t : ℝ) (n : ℕ) :
    dayfracDiffNum c n = iteratedDeriv n (fun _ => dayfrac c) t / n.factorial := by
  unfold dayfracDiffNum
  cases n with
  | zero => simp
  | succ n =>
    rw [if_neg (Nat.succ_ne_zero n), iteratedDeriv_succ']
    simp

/-- Beyond the range of the ERFA routines (here a billion days after J2000) the errors are only logged
and the result is not the time since the beginning of any year: it is longer than all years. -/
theorem dayfrac_out_of_range : 366 < dayfrac (1000000000 : ℚ) := by decide +kernel

/-- Noon of 1 January 2000 TT is 0.5 days minus 64.184 seconds after the beginning of the UTC year. -/
example (N : ℤ → ℤ → ℤ → ℤ) (hN : IsCalendar N) : dayfrac (0 : ℚ) = 0.5 - 64.184 / 86400 := by
  have h0 : N 2000 1 1 = 51544 := hN.epoch
  have h1 : N (2000 + 1) 1 1 = 51910 := by rw [cal_year hN]; decide
  have t0 : taiMinusUtc 2000 1 = 32 := by decide
  have t1 : taiMinusUtc (2000 + 1) 1 = 32 := by decide
  rw [dayfrac_value hN 2000 (by norm_num) (by norm_num) 0 (by unfold yearStart; rw [h0, t0]; norm_num)
    (by unfold yearStart; rw [h1, t1]; norm_num)]
  unfold yearStart
  rw [h0, t0]; norm_num

/-- The derivative at the same instant. -/
example (N : ℤ → ℤ → ℤ → ℤ) (hN : IsCalendar N) : HasDerivAt (dayfrac : ℝ → ℝ) 1 0 := by
  have h0 : N 2000 1 1 = 51544 := hN.epoch
  have h1 : N (2000 + 1) 1 1 = 51910 := by rw [cal_year hN]; decide
  have t0 : taiMinusUtc 2000 1 = 32 := by decide
  have t1 : taiMinusUtc (2000 + 1) 1 = 32 := by decide
  exact dayfrac_deriv hN 2000 (by norm_num) (by norm_num) 0
    (by unfold yearStart; rw [h0, t0]; norm_num) (by unfold yearStart; rw [h1, t1]; norm_num)

/-- The Taylor derivatives of `dayfrac()` of the time at the same instant: 1 at order one. -/
example (N : ℤ → ℤ → ℤ → ℤ) (hN : IsCalendar N) : iteratedDeriv 1 (fun s : ℝ => dayfrac s) 0 = 1 := by
  have h0 : N 2000 1 1 = 51544 := hN.epoch
  have h1 : N (2000 + 1) 1 1 = 51910 := by rw [cal_year hN]; decide
  have t0 : taiMinusUtc 2000 1 = 32 := by decide
  have t1 : taiMinusUtc (2000 + 1) 1 = 32 := by decide
  have key := dayfrac_taylor hN 2000 (by norm_num) (by norm_num) (fun s => s) 0 continuousAt_id
    (by unfold yearStart; rw [h0, t0]; norm_num) (by unfold yearStart; rw [h1, t1]; norm_num) _
    (fun n => rfl) 1
  simp only [dayfracDiffVar, one_ne_zero, if_false, Nat.factorial_one, Nat.cast_one, div_one] at key
  rw [← key, iteratedDeriv_one]
  exact deriv_id 0

/-- J2000 is noon of 1 January 2000, however the Julian date is split. -/
example : jd2cal (2451545 : ℚ) 0 = some ((2000, 1, 1), 1 / 2) ∧
    jd2cal (2451544.75 : ℚ) 0.25 = some ((2000, 1, 1), 1 / 2) := by decide +kernel

/-- A round trip. -/
example : ∃ z, cal2jd 2024 2 29 = some z ∧ jd2cal (2400000.5 : ℚ) (z : ℚ) = some ((2024, 2, 29), 0) :=
  cal_round_trip 2024 2 29 (by norm_num) (by decide) (by norm_num)

/-- 29 February 2000 is a date and 29 February 1900 is not. -/
example : cal2jd 2000 2 29 = some 51603 ∧ cal2jd 1900 2 29 = none := by decide

end Heyoka.Cal
