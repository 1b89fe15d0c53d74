import Verif.Calendar.Model
import Verif.Calendar.Spec
import Mathlib.Tactic.Linarith
import Mathlib.Tactic.Ring
import Mathlib.Tactic.IntervalCases
import Mathlib.Tactic.FieldSimp

/-!
# Lemmas on the calendar routines
-/

namespace Heyoka.Cal

/-- The days before a month in its year. -/
def monthOff (y m : ℤ) : ℤ :=
  if m ≤ 1 then 0 else if m ≤ 2 then 31 else
  (if IsLeap y then 1 else 0) + (if m ≤ 3 then 59 else if m ≤ 4 then 90 else if m ≤ 5 then 120
    else if m ≤ 6 then 151 else if m ≤ 7 then 181 else if m ≤ 8 then 212 else if m ≤ 9 then 243
    else if m ≤ 10 then 273 else if m ≤ 11 then 304 else 334)

/-- The closed form of the number of the first day of a year. -/
def yearOff (y : ℤ) : ℤ := 365 * (y - 1) + (y - 1) / 4 - (y - 1) / 100 + (y - 1) / 400 - 678575

theorem step4 (y : ℤ) : y / 4 = (y - 1) / 4 + (if 4 ∣ y then 1 else 0) := by split <;> omega
theorem step100 (y : ℤ) : y / 100 = (y - 1) / 100 + (if 100 ∣ y then 1 else 0) := by
  split <;> omega
theorem step400 (y : ℤ) : y / 400 = (y - 1) / 400 + (if 400 ∣ y then 1 else 0) := by
  split <;> omega

theorem leap_steps (y : ℤ) : (if IsLeap y then 1 else 0 : ℤ) =
    (if 4 ∣ y then 1 else 0) - (if 100 ∣ y then 1 else 0) + (if 400 ∣ y then 1 else 0) := by
  have h1 : (400 : ℤ) ∣ y → (100 : ℤ) ∣ y := fun h => Dvd.dvd.trans (by norm_num) h
  have h2 : (100 : ℤ) ∣ y → (4 : ℤ) ∣ y := fun h => Dvd.dvd.trans (by norm_num) h
  unfold IsLeap
  by_cases a : (4 : ℤ) ∣ y <;> by_cases b : (100 : ℤ) ∣ y <;> by_cases c : (400 : ℤ) ∣ y <;> simp_all

theorem yearOff_succ (y : ℤ) : yearOff (y + 1) = yearOff y + (if IsLeap y then 366 else 365) := by
  have h : (if IsLeap y then 366 else 365 : ℤ) = 365 + (if IsLeap y then 1 else 0) := by
    split <;> rfl
  rw [h, leap_steps]
  unfold yearOff
  rw [show y + 1 - 1 = y by ring, step4 y, step100 y, step400 y]
  ring

section
variable {N : ℤ → ℤ → ℤ → ℤ} (hN : IsCalendar N)
include hN

theorem cal_day (y m d : ℤ) : N y m d = N y m 1 + (d - 1) := by
  induction d using Int.induction_on with
  | zero => have := hN.day y m 0; simp at this; omega
  | succ i ih => have := hN.day y m i; omega
  | pred i ih => have := hN.day y m (-i - 1); rw [sub_add_cancel] at this; omega

theorem cal_month (y m : ℤ) (h1 : 1 ≤ m) (h2 : m ≤ 12) : N y m 1 = N y 1 1 + monthOff y m := by
  have st : ∀ k, 1 ≤ k → k < 12 → N y (k + 1) 1 = N y k 1 + monthLen y k := fun k a b => by
    rw [hN.month y k a b, cal_day hN y k (monthLen y k)]; ring
  have s1 := st 1 (by norm_num) (by norm_num)
  have s2 := st 2 (by norm_num) (by norm_num)
  have s3 := st 3 (by norm_num) (by norm_num)
  have s4 := st 4 (by norm_num) (by norm_num)
  have s5 := st 5 (by norm_num) (by norm_num)
  have s6 := st 6 (by norm_num) (by norm_num)
  have s7 := st 7 (by norm_num) (by norm_num)
  have s8 := st 8 (by norm_num) (by norm_num)
  have s9 := st 9 (by norm_num) (by norm_num)
  have s10 := st 10 (by norm_num) (by norm_num)
  have s11 := st 11 (by norm_num) (by norm_num)
  norm_num [monthLen] at s1 s2 s3 s4 s5 s6 s7 s8 s9 s10 s11
  by_cases hl : IsLeap y
  · simp only [hl, if_true] at s2
    interval_cases m <;> simp [monthOff, hl] <;> omega
  · simp only [hl, if_false] at s2
    interval_cases m <;> simp [monthOff, hl] <;> omega

theorem cal_year_succ (y : ℤ) : N (y + 1) 1 1 = N y 1 1 + (if IsLeap y then 366 else 365) := by
  rw [hN.year, cal_day hN, cal_month hN y 12 (by norm_num) (by norm_num)]
  have : monthOff y 12 = (if IsLeap y then 1 else 0) + 334 := rfl
  rw [this]
  split <;> ring

theorem cal_year (y : ℤ) : N y 1 1 = yearOff y := by
  have key : ∀ i : ℤ, N (2000 + i) 1 1 = yearOff (2000 + i) := by
    intro i
    induction i using Int.induction_on with
    | zero => rw [add_zero, hN.epoch]; decide
    | succ i ih => rw [← add_assoc, cal_year_succ hN, ih, yearOff_succ]
    | pred i ih =>
      have a := cal_year_succ hN (2000 + (-(i : ℤ) - 1))
      have b := yearOff_succ (2000 + (-(i : ℤ) - 1))
      rw [show 2000 + (-(i : ℤ) - 1) + 1 = 2000 + -(i : ℤ) by ring] at a b
      omega
  have := key (y - 2000)
  rwa [show 2000 + (y - 2000) = y by ring] at this

theorem cal_closed (y m d : ℤ) (h1 : 1 ≤ m) (h2 : m ≤ 12) :
    N y m d = yearOff y + monthOff y m + (d - 1) := by
  rw [cal_day hN, cal_month hN y m h1 h2, cal_year hN]

end

theorem tmod_dvd (y k : ℤ) : y.tmod k = 0 ↔ k ∣ y := (Int.dvd_iff_tmod_eq_zero).symm

theorem mtab_leapDay (y m : ℤ) (h1 : 1 ≤ m) (h2 : m ≤ 12) :
    mtab.getD (m - 1).toNat 0 + leapDay y m = monthLen y m := by
  unfold leapDay monthLen IsLeap
  simp only [tmod_dvd, ne_eq]
  by_cases hl : 4 ∣ y ∧ (¬ 100 ∣ y ∨ 400 ∣ y)
  · interval_cases m <;> simp [mtab, hl]
  · interval_cases m <;> simp [mtab, hl]

/-- The closed form of the century correction. -/
theorem century (c : ℤ) : 3 * (c + 49) / 4 = c - c / 4 + 36 := by omega

/-- The formula for the day number, with exact integer parts. -/
def calF (y' m' d : ℤ) : ℤ :=
  1461 * (y' + 4800) / 4 + 367 * m' / 12 - 3 * ((y' + 4900) / 100) / 4 + d - 2432076

theorem calF_eq (y m' d : ℤ) :
    calF y m' d = 365 * y + y / 4 - y / 100 + y / 400 + 367 * m' / 12 + d - 678912 := by
  unfold calF
  have h1 : 1461 * (y + 4800) / 4 = 365 * y + y / 4 + 1753200 := by omega
  have h2 : (y + 4900) / 100 = y / 100 + 49 := by omega
  have h3 : y / 400 = y / 100 / 4 := by omega
  rw [h1, h2, century, h3]
  ring

theorem calF_closed (y m d : ℤ) (h1 : 1 ≤ m) (h2 : m ≤ 12) :
    calF (y + (if m ≤ 2 then -1 else 0)) (m - 2 - 12 * (if m ≤ 2 then -1 else 0)) d
      = yearOff y + monthOff y m + (d - 1) := by
  rw [calF_eq]
  by_cases hm : m ≤ 2
  · rw [if_pos hm]
    unfold yearOff
    rw [← sub_eq_add_neg]
    have : m = 1 ∨ m = 2 := by omega
    rcases this with h | h
    · subst h
      have : monthOff y 1 = 0 := rfl
      rw [this]; norm_num; ring
    · subst h
      have : monthOff y 2 = 31 := rfl
      rw [this]; norm_num; ring
  · rw [if_neg hm]
    have hoff : monthOff y m = (if IsLeap y then 1 else 0) + (367 * (m - 2)) / 12 + 29 := by
      have hm' : 3 ≤ m := by omega
      unfold monthOff
      generalize (if IsLeap y then 1 else 0 : ℤ) = v
      interval_cases m <;> norm_num <;> omega
    rw [hoff, leap_steps, add_zero, mul_zero, sub_zero, step4 y, step100 y, step400 y]
    unfold yearOff
    ring

theorem tdiv_pos {a : ℤ} (ha : 0 ≤ a) (b : ℤ) : a.tdiv b = a / b := Int.tdiv_eq_ediv_of_nonneg ha

theorem calMjd_closed (y m d : ℤ) (hy : -4799 ≤ y) (h1 : 1 ≤ m) (h2 : m ≤ 12) :
    calMjd y m d = yearOff y + monthOff y m + (d - 1) := by
  rw [← calF_closed y m d h1 h2]
  unfold calMjd calF
  dsimp only
  have hmy : (m - 14).tdiv 12 = if m ≤ 2 then -1 else 0 := by interval_cases m <;> rfl
  rw [hmy]
  have hv : -1 ≤ (if m ≤ 2 then -1 else 0 : ℤ) := by split <;> norm_num
  have hw : 0 ≤ m - 2 - 12 * (if m ≤ 2 then -1 else 0 : ℤ) := by split <;> omega
  revert hv hw
  generalize (if m ≤ 2 then -1 else 0 : ℤ) = v
  intro hv hw
  rw [tdiv_pos (a := 1461 * (y + v + 4800)) (by omega), tdiv_pos (a := 367 * (m - 2 - 12 * v)) (by omega),
    tdiv_pos (a := y + v + 4900) (by omega),
    tdiv_pos (a := 3 * ((y + v + 4900) / 100)) (by
      have : 0 ≤ (y + v + 4900) / 100 := Int.ediv_nonneg (by omega) (by norm_num)
      omega)]

theorem civ1 (l n : ℤ) (h : 0 ≤ l) (hn : n = 4 * l / 146097) :
    0 ≤ n ∧ 0 ≤ l - (146097 * n + 3) / 4 ∧ l - (146097 * n + 3) / 4 ≤ 36524 ∧
      (l - (146097 * n + 3) / 4 = 36524 → n % 4 = 0) := by
  have h1 : 146097 * n ≤ 4 * l := by omega
  have h2 : 4 * l < 146097 * (n + 1) := by omega
  clear hn
  refine ⟨by omega, by omega, by omega, ?_⟩
  obtain ⟨q, r, hr, hq⟩ : ∃ q r : ℤ, (r = 0 ∨ r = 1 ∨ r = 2 ∨ r = 3) ∧ n = 4 * q + r :=
    ⟨n / 4, n % 4, by omega, by omega⟩
  subst hq
  rcases hr with rfl | rfl | rfl | rfl
  · intro _; omega
  all_goals
    intro h3
    exfalso
    omega

theorem civ2 (l i : ℤ) (h : 0 ≤ l) (h' : l ≤ 36524) (hi : i = 4000 * (l + 1) / 1461001) :
    0 ≤ i ∧ i ≤ 99 ∧ 0 ≤ l - 1461 * i / 4 ∧ l - 1461 * i / 4 ≤ 365 ∧
      (l - 1461 * i / 4 = 365 → i % 4 = 3 ∧ (i = 99 → l = 36524)) := by
  have h1 : 1461001 * i ≤ 4000 * (l + 1) := by omega
  have h2 : 4000 * (l + 1) < 1461001 * (i + 1) := by omega
  clear hi
  have i0 : 0 ≤ i := by omega
  have i1 : i ≤ 99 := by omega
  refine ⟨i0, i1, ?_, ?_, ?_⟩
  · omega
  · omega
  · intro h3
    refine ⟨?_, by intro h4; subst h4; omega⟩
    obtain ⟨q, r, hr, hq⟩ : ∃ q r : ℤ, (r = 0 ∨ r = 1 ∨ r = 2 ∨ r = 3) ∧ i = 4 * q + r :=
      ⟨i / 4, i % 4, by omega, by omega⟩
    subst hq
    rcases hr with rfl | rfl | rfl | rfl
    · omega
    · omega
    · omega
    · omega

theorem civ3 (a k : ℤ) (h : 0 ≤ a) (h' : a ≤ 365) (hk : k = 80 * (a + 31) / 2447) :
    1 ≤ k ∧ k ≤ 12 := by omega

theorem civ_century (n : ℤ) :
    36525 * n - 3 * n / 4 = (146097 * n + 3) / 4 := by omega

/-- The calendar date of a day number. -/
theorem civil_spec (jd : ℤ) (h : -68569 ≤ jd) :
    ValidDate (civil jd).1 (civil jd).2.1 (civil jd).2.2 ∧
      yearOff (civil jd).1 + monthOff (civil jd).1 (civil jd).2.1 + ((civil jd).2.2 - 1)
        = jd - 2400001 := by
  obtain ⟨l, hl⟩ : ∃ l, l = jd + 68569 := ⟨_, rfl⟩
  obtain ⟨n, hn⟩ : ∃ n, n = (4 * l) / 146097 := ⟨_, rfl⟩
  obtain ⟨l1, hl1⟩ : ∃ l1, l1 = l - (146097 * n + 3) / 4 := ⟨_, rfl⟩
  obtain ⟨i, hi⟩ : ∃ i, i = (4000 * (l1 + 1)) / 1461001 := ⟨_, rfl⟩
  obtain ⟨a, ha⟩ : ∃ a, a = l1 - 1461 * i / 4 := ⟨_, rfl⟩
  obtain ⟨k, hk⟩ : ∃ k, k = (80 * (a + 31)) / 2447 := ⟨_, rfl⟩
  obtain ⟨n0, l10, l11, l12⟩ := civ1 l n (by omega) hn
  rw [← hl1] at l10 l11 l12
  obtain ⟨i0, i1, a0, a1, a2⟩ := civ2 l1 i l10 l11 hi
  rw [← ha] at a0 a1 a2
  obtain ⟨k1, k2⟩ := civ3 a k a0 a1 hk
  have hc : civil jd = (100 * (n - 49) + i + k / 11, k + 2 - 12 * (k / 11), a + 31 - 2447 * k / 80) := by
    unfold civil
    dsimp only
    rw [← hl, tdiv_pos (a := 4 * l) (by clear hn; omega), ← hn,
      tdiv_pos (a := 146097 * n + 3) (by clear hn hl1; omega), ← hl1,
      tdiv_pos (a := 4000 * (l1 + 1)) (by clear hn hl1 hi; omega), ← hi,
      tdiv_pos (a := 1461 * i) (by clear hn hl1 hi; omega),
      show l1 - (1461 * i / 4 - 31) = a + 31 by rw [ha]; ring,
      tdiv_pos (a := 80 * (a + 31)) (by clear hn hl1 hi ha; omega), ← hk,
      tdiv_pos (a := 2447 * k) (by clear hn hl1 hi ha hk; omega),
      tdiv_pos (a := k) (by clear hn hl1 hi ha hk; omega)]
  have hjd : jd = (146097 * n + 3) / 4 + (a + 1461 * i / 4) - 68569 := by
    rw [ha, hl1, hl]; ring
  rw [hc]
  dsimp only
  have a3 : a = 365 → i % 4 = 3 ∧ (i = 99 → n % 4 = 0) := fun e =>
    ⟨(a2 e).1, fun e' => l12 ((a2 e).2 e')⟩
  have hk1 : 2447 * k ≤ 80 * (a + 31) := by clear hn hl1 hi ha; omega
  have hk2 : 80 * (a + 31) < 2447 * (k + 1) := by clear hn hl1 hi ha; omega
  clear hc hn hl1 hi ha hk l12 a2 hl l10 l11
  have hm : 1 ≤ k + 2 - 12 * (k / 11) ∧ k + 2 - 12 * (k / 11) ≤ 12 := by
    clear hjd a3; omega
  refine ⟨⟨hm.1, hm.2, ?_, ?_⟩, ?_⟩
  · clear hjd a3
    interval_cases k <;> omega
  · by_cases h12 : k = 12
    · subst h12
      norm_num [monthLen]
      split
      · clear hjd; omega
      · rename_i hnl
        by_contra hcon
        have : a = 365 := by clear hjd; omega
        obtain ⟨b1, b2⟩ := a3 this
        apply hnl
        unfold IsLeap
        clear hjd hk1 hk2 hcon hm a3
        by_cases h99 : i = 99
        · have := b2 h99
          subst h99
          refine ⟨by omega, Or.inr (by omega)⟩
        · exact ⟨by omega, Or.inl (by omega)⟩
    · clear hjd a3
      interval_cases k <;> norm_num [monthLen] <;> omega
  · rw [← calF_closed _ _ _ hm.1 hm.2]
    have hmy : (if k + 2 - 12 * (k / 11) ≤ 2 then -1 else 0 : ℤ) = -(k / 11) := by
      clear hjd a3 hk1 hk2 hm; interval_cases k <;> rfl
    rw [hmy, show 100 * (n - 49) + i + k / 11 + -(k / 11) = 100 * (n - 49) + i by ring,
      show k + 2 - 12 * (k / 11) - 2 - 12 * -(k / 11) = k by ring]
    unfold calF
    have e2 : (100 * (n - 49) + i + 4900) / 100 = n := by clear hjd a3 hk1 hk2 hm hmy; omega
    have e4 : 1461 * (100 * (n - 49) + i + 4800) / 4 = 36525 * n - 36525 + 1461 * i / 4 := by
      clear hjd a3 hk1 hk2 hm hmy e2; omega
    have e5 : 367 * k / 12 + 31 - 2447 * k / 80 = 31 := by
      clear hjd a3 hk1 hk2 hm hmy e2 e4; interval_cases k <;> rfl
    rw [e2, e4, hjd, ← civ_century]
    linarith

end Heyoka.Cal
