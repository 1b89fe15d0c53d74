import Verif.DFloat.Lemmas

/-!
# Round to nearest, ties to even
-/

namespace Heyoka.DFloat

theorem roundEven_near (y : ℚ) : |(roundEven y : ℚ) - y| ≤ 1 / 2 := by
  have h1 := Int.floor_le y
  have h2 := Int.lt_floor_add_one y
  unfold roundEven
  split_ifs
  all_goals (rw [abs_le]; constructor <;> push_cast <;> linarith)

/-- No integer is nearer. -/
theorem roundEven_min (y : ℚ) (j : ℤ) : |(roundEven y : ℚ) - y| ≤ |(j : ℚ) - y| := by
  by_cases h : j = roundEven y
  · rw [h]
  have h1 := roundEven_near y
  have h2 : (1 : ℚ) ≤ |(j : ℚ) - roundEven y| := by
    rw [← Int.cast_sub, ← Int.cast_abs]
    exact_mod_cast Int.one_le_abs (sub_ne_zero.mpr h)
  have h3 : |(j : ℚ) - roundEven y| ≤ |(j : ℚ) - y| + |(roundEven y : ℚ) - y| := by
    rw [show (j : ℚ) - roundEven y = (j - y) - (roundEven y - y) by ring]
    exact abs_sub _ _
  linarith

theorem roundEven_neg (y : ℚ) : roundEven (-y) = -roundEven y := by
  have h1 := Int.floor_le y
  have h2 := Int.lt_floor_add_one y
  by_cases hi : (⌊y⌋ : ℚ) = y
  · have h3 : ⌊-y⌋ = -⌊y⌋ := by
      rw [← hi, ← Int.cast_neg, Int.floor_intCast, Int.floor_intCast]
    unfold roundEven
    rw [h3]
    push_cast
    rw [if_pos (by linarith), if_pos (by linarith)]
  · have h4 : (⌊y⌋ : ℚ) < y := lt_of_le_of_ne h1 hi
    have h3 : ⌊-y⌋ = -⌊y⌋ - 1 := by
      rw [Int.floor_eq_iff]
      push_cast
      constructor <;> linarith
    unfold roundEven
    rw [h3]
    push_cast
    split_ifs <;> first | omega | (exfalso; linarith)

theorem roundEven_abs {y : ℚ} {n : ℕ} (h : |y| ≤ n) : |roundEven y| ≤ n := by
  have h1 := abs_le.mp (roundEven_near y)
  have h2 := abs_le.mp h
  rw [abs_le]
  constructor
  · have : ((-n - 1 : ℤ) : ℚ) < roundEven y := by push_cast; linarith
    have : (-n - 1 : ℤ) < roundEven y := by exact_mod_cast this
    omega
  · have : (roundEven y : ℚ) < ((n + 1 : ℤ) : ℚ) := by push_cast; linarith
    have : roundEven y < (n + 1 : ℤ) := by exact_mod_cast this
    omega

variable {φ : Fmt}

theorem expo_ge (x : ℚ) : φ.emin ≤ φ.expo x := by
  unfold Fmt.expo
  split
  · exact le_rfl
  · exact le_max_left _ _

theorem lt_expo (x : ℚ) : |x| < (2 : ℚ) ^ (φ.p + φ.expo x) := by
  unfold Fmt.expo
  split
  · rename_i h; rw [h, abs_zero]; exact two_zpow_pos _
  · have := Int.lt_zpow_succ_log_self (b := 2) (by norm_num) |x|
    refine lt_of_lt_of_le (by exact_mod_cast this) (two_zpow_le ?_)
    have := le_max_right φ.emin (Int.log 2 |x| - φ.p + 1)
    omega

theorem expo_le {x : ℚ} (h : φ.emin < φ.expo x) : (2 : ℚ) ^ (φ.p - 1 + φ.expo x) ≤ |x| := by
  unfold Fmt.expo at h ⊢
  split at h
  · exact absurd h (lt_irrefl _)
  · rename_i h0
    rw [if_neg h0]
    have h1 : max φ.emin (Int.log 2 |x| - φ.p + 1) = Int.log 2 |x| - φ.p + 1 := by
      rcases max_choice φ.emin (Int.log 2 |x| - φ.p + 1) with h2 | h2
      · rw [h2] at h; exact absurd h (lt_irrefl _)
      · exact h2
    rw [h1, show (φ.p : ℤ) - 1 + (Int.log 2 |x| - φ.p + 1) = Int.log 2 |x| by ring]
    exact_mod_cast Int.zpow_log_le_self (b := 2) (by norm_num) (abs_pos.mpr h0)

theorem expo_neg (x : ℚ) : φ.expo (-x) = φ.expo x := by
  unfold Fmt.expo
  simp [abs_neg]

/-- Among the multiples of the unit in the last place, none is nearer. -/
theorem rnd_min (x : ℚ) {f : ℚ} (hf : Mul2 (φ.expo x) f) : |φ.rnd x - x| ≤ |f - x| := by
  obtain ⟨j, rfl⟩ := hf
  have hpos := two_zpow_pos (φ.expo x)
  have h1 : ∀ k : ℤ, (k : ℚ) * 2 ^ φ.expo x - x = ((k : ℚ) - x / 2 ^ φ.expo x) * 2 ^ φ.expo x := by
    intro k; field_simp
  unfold Fmt.rnd
  rw [h1, h1, abs_mul, abs_mul]
  exact mul_le_mul_of_nonneg_right (roundEven_min _ _) (abs_nonneg _)

/-- **The IEEE rounding yields a nearest number of the format.** -/
theorem rnd_nearest (hp : 1 ≤ φ.p) : Nearest φ φ.rnd where
  rep x := by
    refine rep_of_mul2 hp (expo_ge x) ⟨_, rfl⟩ ?_
    have hpos := two_zpow_pos (φ.expo x)
    unfold Fmt.rnd
    rw [abs_mul, abs_of_pos hpos, two_zpow_add]
    refine mul_le_mul_of_nonneg_right ?_ hpos.le
    have h1 : |x / 2 ^ φ.expo x| ≤ ((2 ^ φ.p : ℕ) : ℚ) := by
      rw [abs_div, abs_of_pos hpos, div_le_iff₀ hpos]
      have := (lt_expo (φ := φ) x).le
      rw [two_zpow_add, zpow_natCast] at this
      push_cast; exact this
    have := roundEven_abs h1
    rw [zpow_natCast, ← Int.cast_abs]
    exact_mod_cast this
  near x f hf := by
    by_cases hm : Mul2 (φ.expo x) f
    · exact rnd_min x hm
    obtain ⟨m, k, hmp, hk, hfk⟩ := id hf
    have hke : k < φ.expo x := by
      by_contra hc
      push Not at hc
      exact hm (Mul2.mono ⟨m, hfk⟩ hc)
    have hx := expo_le (φ := φ) (x := x) (by omega)
    have hfl : |f| < (2 : ℚ) ^ (φ.p - 1 + φ.expo x) := by
      have : |f| < (2 : ℚ) ^ (φ.p + k) := by
        rw [hfk, abs_mul, abs_of_pos (two_zpow_pos k), two_zpow_add, zpow_natCast, ← Int.cast_abs]
        refine mul_lt_mul_of_pos_right ?_ (two_zpow_pos k)
        exact_mod_cast hmp
      exact lt_of_lt_of_le this (two_zpow_le (by omega))
    set c : ℚ := (2 : ℚ) ^ (φ.p - 1 + φ.expo x) with hc
    have hcm : Mul2 (φ.expo x) c := Mul2.mono (e := φ.p - 1 + φ.expo x) ⟨1, by rw [hc]; simp⟩ (by omega)
    have hcp : 0 < c := two_zpow_pos _
    rcases le_total 0 x with h0 | h0
    · rw [abs_of_nonneg h0] at hx
      refine (rnd_min x hcm).trans ?_
      have := (abs_lt.mp hfl).2
      rw [abs_of_nonpos (by linarith), abs_of_nonpos (by linarith)]
      linarith
    · rw [abs_of_nonpos h0] at hx
      refine (rnd_min x hcm.neg).trans ?_
      have := (abs_lt.mp hfl).1
      rw [abs_of_nonneg (by linarith), abs_of_nonneg (by linarith)]
      linarith
  neg x := by
    unfold Fmt.rnd
    rw [expo_neg, neg_div, roundEven_neg]
    push_cast; ring

end Heyoka.DFloat
