import Verif.DFloat.Lemmas

/-!
# Double-length addition
-/

namespace Heyoka.DFloat

/-- The number represented by a double-length number. -/
def DF.val (x : DF) : ℚ := x.hi + x.lo

/-- Normalised double-length numbers: both parts are numbers of the format and the high part is
the represented number rounded to nearest. -/
structure Norm (φ : Fmt) (rnd : ℚ → ℚ) (x : DF) : Prop where
  hi : φ.Rep x.hi
  lo : φ.Rep x.lo
  near : rnd x.val = x.hi

variable {φ : Fmt} {rnd : ℚ → ℚ} (N : Nearest φ rnd)

/-- Canonical exponents. -/
theorem canon (_hp : 1 ≤ φ.p) {x : ℚ} (hx : φ.Rep x) : ∃ e : ℤ, φ.emin ≤ e ∧ Mul2 e x ∧
    |x| < (2 : ℚ) ^ (φ.p + e) ∧ (e = φ.emin ∨ (2 : ℚ) ^ (φ.p - 1 + e) ≤ |x|) := by
  by_cases h0 : x = 0
  · subst h0
    exact ⟨φ.emin, le_rfl, Mul2.zero _, by rw [abs_zero]; exact two_zpow_pos _, .inl rfl⟩
  set l := Int.log 2 |x| with hl
  have h1 : (2 : ℚ) ^ l ≤ |x| := by
    exact_mod_cast Int.zpow_log_le_self (b := 2) (by norm_num) (abs_pos.mpr h0)
  have h2 : |x| < (2 : ℚ) ^ (l + 1) := by
    exact_mod_cast Int.lt_zpow_succ_log_self (b := 2) (by norm_num) |x|
  rcases le_total (l - φ.p + 1) φ.emin with h | h
  · exact ⟨φ.emin, le_rfl, hx.mul2, lt_of_lt_of_le h2 (two_zpow_le (by omega)), .inl rfl⟩
  · refine ⟨l - φ.p + 1, h, ?_, ?_, .inr ?_⟩
    · have := hx.big (e := l - φ.p) (by rw [show (φ.p : ℤ) + (l - φ.p) = l by ring]; exact h1)
      exact this
    · rw [show (φ.p : ℤ) + (l - φ.p + 1) = l + 1 by ring]; exact h2
    · rw [show (φ.p : ℤ) - 1 + (l - φ.p + 1) = l by ring]; exact h1

include N

/-- The rounding error is at most half a unit in the last place of the result. -/
theorem Nearest.err_half (hp : 1 ≤ φ.p) {s : ℚ} {e : ℤ} (he : φ.emin ≤ e) (hm : Mul2 e (rnd s))
    (hb : |rnd s| < (2 : ℚ) ^ (φ.p + e)) : |s - rnd s| ≤ (2 : ℚ) ^ e / 2 := by
  obtain ⟨k, hk⟩ := id hm
  have hk1 : |(k : ℚ)| + 1 ≤ 2 ^ (φ.p : ℤ) := by
    rw [hk, abs_mul, abs_of_pos (two_zpow_pos e), two_zpow_add] at hb
    have := lt_of_mul_lt_mul_right hb (two_zpow_pos e).le
    rw [zpow_natCast, ← Int.cast_abs] at this ⊢
    have : |k| < 2 ^ φ.p := by exact_mod_cast this
    exact_mod_cast Int.add_one_le_iff.mpr this
  have hcand : ∀ u : ℤ, |u| ≤ 1 → φ.Rep (rnd s + u * 2 ^ e) := by
    intro u hu
    refine rep_of_mul2 hp he ⟨k + u, by rw [hk]; push_cast; ring⟩ ?_
    rw [hk, ← add_mul, abs_mul, abs_of_pos (two_zpow_pos e), two_zpow_add]
    refine mul_le_mul_of_nonneg_right ?_ (two_zpow_pos e).le
    refine (abs_add_le _ _).trans ?_
    have : |(u : ℚ)| ≤ 1 := by rw [← Int.cast_abs]; exact_mod_cast hu
    linarith
  have h1 := N.near s _ (hcand 1 (by simp))
  have h2 := N.near s _ (hcand (-1) (by simp))
  push_cast at h1 h2
  rw [abs_sub_comm] at h1 h2
  have hpos := two_zpow_pos e
  by_contra hc
  push Not at hc
  rcases le_total (rnd s) s with h | h
  · rw [abs_of_nonneg (by linarith)] at hc h1 h2
    have : |rnd s + 1 * 2 ^ e - s| < s - rnd s := by
      rw [abs_lt]; constructor <;> linarith
    linarith
  · rw [abs_of_nonpos (by linarith)] at hc h1 h2
    have : |rnd s + -1 * 2 ^ e - s| < -(s - rnd s) := by
      rw [abs_lt]; constructor <;> linarith
    linarith

/-- **Both uses of Dekker's transformation in the double-length addition are exact.** -/
theorem Nearest.add_eq (hp : 5 ≤ φ.p) {a b : DF} (ha : Norm φ rnd a) (hb : Norm φ rnd b) :
    let X := rnd (a.hi + b.hi)
    let Y := a.hi + b.hi - X
    let T := rnd (a.lo + b.lo)
    let t := a.lo + b.lo - T
    let c := rnd (Y + T)
    let V := rnd (X + c)
    let v := X + c - V
    let w := rnd (v + t)
    add rnd a b = ⟨rnd (V + w), V + w - rnd (V + w)⟩ ∧ φ.Rep Y ∧ φ.Rep t ∧ φ.Rep v ∧
      φ.Rep (V + w - rnd (V + w)) := by
  intro X Y T t c V v w
  have hp1 : 1 ≤ φ.p := by omega
  -- The statement is symmetric.
  wlog hsym : (∃ eA eB : ℤ, eB ≤ eA ∧
      (φ.emin ≤ eA ∧ Mul2 eA a.hi ∧ |a.hi| < (2 : ℚ) ^ (φ.p + eA) ∧
        (eA = φ.emin ∨ (2 : ℚ) ^ (φ.p - 1 + eA) ≤ |a.hi|)) ∧
      (φ.emin ≤ eB ∧ Mul2 eB b.hi ∧ |b.hi| < (2 : ℚ) ^ (φ.p + eB) ∧
        (eB = φ.emin ∨ (2 : ℚ) ^ (φ.p - 1 + eB) ≤ |b.hi|))) generalizing a b
  · obtain ⟨eA, hA⟩ := canon hp1 ha.hi
    obtain ⟨eB, hB⟩ := canon hp1 hb.hi
    rcases le_total eB eA with h | h
    · exact absurd ⟨eA, eB, h, hA, hB⟩ hsym
    · have := this hb ha ⟨eB, eA, h, hB, hA⟩
      have hcomm : add rnd a b = add rnd b a := by
        unfold add
        rw [N.knuth_eq hp1 ha.hi hb.hi, N.knuth_eq hp1 ha.lo hb.lo, N.knuth_eq hp1 hb.hi ha.hi,
          N.knuth_eq hp1 hb.lo ha.lo, add_comm b.hi, add_comm b.lo]
      rw [hcomm]
      simp only [add_comm b.hi, add_comm b.lo] at this
      exact this
  obtain ⟨eA, eB, hAB, ⟨hA1, hA2, hA3, hA4⟩, hB1, hB2, hB3, hB4⟩ := hsym
  have hal : |a.lo| ≤ (2 : ℚ) ^ eA / 2 := by
    have := N.err_half hp1 (s := a.val) hA1 (by rw [ha.near]; exact hA2) (by rw [ha.near]; exact hA3)
    rwa [ha.near, DF.val, add_sub_cancel_left] at this
  have hbl : |b.lo| ≤ (2 : ℚ) ^ eB / 2 := by
    have := N.err_half hp1 (s := b.val) hB1 (by rw [hb.near]; exact hB2) (by rw [hb.near]; exact hB3)
    rwa [hb.near, DF.val, add_sub_cancel_left] at this
  have hTabs0 : |a.lo + b.lo| ≤ 2 ^ eA := by
    have := two_zpow_le hAB
    exact (abs_add_le _ _).trans (by linarith)
  have hT : |T| ≤ 2 ^ eA := N.abs_le (rep_pow hp1 hA1) hTabs0
  have hk1 := N.knuth_eq hp1 ha.hi hb.hi
  have hk2 := N.knuth_eq hp1 ha.lo hb.lo
  have hY : φ.Rep Y := by
    rcases le_total |b.hi| |a.hi| with h | h
    · exact (N.dekker_abs hp1 ha.hi hb.hi h).2
    · have := (N.dekker_abs hp1 hb.hi ha.hi h).2
      rwa [add_comm b.hi] at this
  have ht : φ.Rep t := by
    rcases le_total |b.lo| |a.lo| with h | h
    · exact (N.dekker_abs hp1 ha.lo hb.lo h).2
    · have := (N.dekker_abs hp1 hb.lo ha.lo h).2
      rwa [add_comm b.lo] at this
  have htl : |t| ≤ |b.lo| := by
    have := N.near (a.lo + b.lo) a.lo ha.lo
    rwa [show a.lo - (a.lo + b.lo) = -b.lo by ring, abs_neg, abs_sub_comm] at this
  have hXr : φ.Rep X := N.rep _
  have hcr : φ.Rep c := N.rep _
  have hVr : φ.Rep V := N.rep _
  have hwr : φ.Rep w := N.rep _
  -- It is enough to check the two conditions.
  suffices hcond : (φ.Rep (V - X) ∧ φ.Rep (X + c - V)) ∧
      (φ.Rep (rnd (V + w) - V) ∧ φ.Rep (V + w - rnd (V + w))) by
    refine ⟨?_, hY, ht, hcond.1.2, hcond.2.2⟩
    have hd1 := N.dekker_of X c hcond.1
    have hd2 := N.dekker_of V w hcond.2
    unfold add
    rw [hk1, hk2]
    show DF.mk (dekker rnd (dekker rnd X c).1 (rnd ((dekker rnd X c).2 + t))).1
      (dekker rnd (dekker rnd X c).1 (rnd ((dekker rnd X c).2 + t))).2 = _
    rw [hd1]
    show DF.mk (dekker rnd V w).1 (dekker rnd V w).2 = _
    rw [hd2]
  -- Is there a massive cancellation?
  by_cases hcan : (2 : ℚ) ^ (φ.p + (eA - 2)) ≤ |X|
  · -- No cancellation.
    obtain ⟨eX, hX1, hX2, hX3, hX4⟩ := canon hp1 hXr
    have heX : eA - 1 ≤ eX := by
      have := two_zpow_lt_iff.mp (lt_of_le_of_lt hcan hX3)
      omega
    have hYb : |Y| ≤ (2 : ℚ) ^ eX / 2 := N.err_half hp1 hX1 hX2 hX3
    have hEA : (2 : ℚ) ^ eA ≤ 2 * 2 ^ eX := by
      rw [← two_zpow_succ]; exact two_zpow_le (by omega)
    have hposX := two_zpow_pos eX
    have h4 : (2 : ℚ) ^ (eX + 2) = 4 * 2 ^ eX := by
      rw [two_zpow_add]; norm_num; ring
    have h8 : (2 : ℚ) ^ (eX + 3) = 8 * 2 ^ eX := by
      rw [two_zpow_add]; norm_num; ring
    have hcb : |c| ≤ 4 * 2 ^ eX := by
      rw [← h4]
      refine N.abs_le (rep_pow hp1 (by omega)) ?_
      rw [h4]
      exact (abs_add_le _ _).trans (by linarith)
    have hc1 := N.dekker_lattice hp1 hXr hcr hX1 hX2
      (lt_of_le_of_lt hcb (by rw [← h4]; exact two_zpow_lt (by omega)))
    refine ⟨hc1, ?_⟩
    have hvb : |v| ≤ 4 * 2 ^ eX := by
      have := N.near (X + c) X hXr
      rw [show X - (X + c) = -c by ring, abs_neg, abs_sub_comm] at this
      exact this.trans hcb
    have htb : |t| ≤ 2 * 2 ^ eX := by
      have := two_zpow_le hAB
      have := two_zpow_pos eA
      linarith
    have hwb : |w| ≤ 8 * 2 ^ eX := by
      rw [← h8]
      refine N.abs_le (rep_pow hp1 (by omega)) ?_
      rw [h8]
      exact (abs_add_le _ _).trans (by linarith)
    have hEmin : φ.emin ≤ eX := hX1
    rcases hX4 with h | h
    · refine N.dekker_lattice hp1 hVr hwr le_rfl hVr.mul2 (lt_of_le_of_lt hwb ?_)
      rw [← h8, ← h]; exact two_zpow_lt (by omega)
    · have hVbig : (2 : ℚ) ^ (φ.p + (eX - 2)) ≤ |V| := by
        refine N.le_abs (rep_pow hp1 (by omega)) ?_
        have h5 : (2 : ℚ) ^ ((φ.p : ℤ) - 1 + eX) = 2 * 2 ^ (φ.p + (eX - 2)) := by
          rw [← two_zpow_succ]; congr 1; ring
        have h6 : (8 : ℚ) * 2 ^ eX ≤ 2 ^ (φ.p + (eX - 2)) := by
          rw [← h8]; exact two_zpow_le (by omega)
        have h7 : |X| ≤ |X + c| + |c| := by
          have := abs_sub (X + c) c
          rwa [add_sub_cancel_right] at this
        linarith
      have hVm : Mul2 (eX - 1) V := by
        have := hVr.big hVbig
        rwa [show eX - 2 + 1 = eX - 1 by ring] at this
      rcases lt_or_ge (eX - 1) φ.emin with h9 | h9
      · refine N.dekker_lattice hp1 hVr hwr le_rfl hVr.mul2 (lt_of_le_of_lt hwb ?_)
        rw [← h8]; exact two_zpow_lt (by omega)
      · refine N.dekker_lattice hp1 hVr hwr h9 hVm (lt_of_le_of_lt hwb ?_)
        rw [← h8]; exact two_zpow_lt (by omega)
  · -- Cancellation: the sum of the high parts is exact.
    push Not at hcan
    have hs : |a.hi + b.hi| ≤ (2 : ℚ) ^ (φ.p + (eA - 2)) := by
      by_contra hc
      push Not at hc
      exact absurd (N.le_abs (rep_pow hp1 (by omega)) hc.le) (not_le.mpr hcan)
    have hEB : eA - 1 ≤ eB := by
      rcases hA4 with h | h
      · omega
      · have h5 : (2 : ℚ) ^ ((φ.p : ℤ) - 1 + eA) = 2 * 2 ^ (φ.p + (eA - 2)) := by
          rw [← two_zpow_succ]; congr 1; ring
        have h7 : |a.hi| ≤ |a.hi + b.hi| + |b.hi| := by
          have := abs_sub (a.hi + b.hi) b.hi
          rwa [add_sub_cancel_right] at this
        have h8 : (2 : ℚ) ^ (φ.p + (eA - 2)) ≤ |b.hi| := by linarith
        have := two_zpow_lt_iff.mp (lt_of_le_of_lt h8 hB3)
        omega
    have hsr : φ.Rep (a.hi + b.hi) := by
      refine rep_of_mul2 hp1 hB1 ((hA2.mono hAB).add hB2) (hs.trans (two_zpow_le (by omega)))
    have hX : X = a.hi + b.hi := N.exact hsr
    have hY0 : Y = 0 := by show a.hi + b.hi - X = 0; rw [hX, sub_self]
    have hc : c = T := by
      show rnd (Y + T) = T
      rw [hY0, zero_add]; exact N.exact (N.rep _)
    have hXm : Mul2 eB X := by rw [hX]; exact (hA2.mono hAB).add hB2
    have hcb : |c| < (2 : ℚ) ^ (φ.p + eB) := by
      rw [hc]; exact lt_of_le_of_lt hT (two_zpow_lt (by omega))
    have hc1 := N.dekker_lattice hp1 hXr hcr hB1 hXm hcb
    refine ⟨hc1, ?_⟩
    -- The low parts.
    obtain ⟨eT, hT1, hT2, hT3, hT4⟩ := canon hp1 (N.rep (a.lo + b.lo))
    have htb : |t| ≤ (2 : ℚ) ^ eT / 2 := N.err_half hp1 hT1 hT2 hT3
    have hTB : eT ≤ eB := by
      rcases hT4 with h | h
      · omega
      · have := (two_zpow_le (show (φ.p : ℤ) - 1 + eT ≤ φ.p - 1 + eT by omega)).trans (h.trans hT)
        have h2 : (φ.p : ℤ) - 1 + eT ≤ eA := by
          by_contra hcc
          push Not at hcc
          exact absurd (two_zpow_lt hcc) (not_lt.mpr this)
        omega
    have hVm : Mul2 eT V := N.mul2 hp1 hT1 ((hXm.mono hTB).add (by rw [hc]; exact hT2))
    obtain ⟨eV, hV1, hV2, hV3, _⟩ := canon hp1 hVr
    have hvb : |v| ≤ (2 : ℚ) ^ eV / 2 := N.err_half hp1 hV1 hV2 hV3
    rcases le_total eT eV with h | h
    · refine N.dekker_lattice hp1 hVr hwr hV1 hV2 ?_
      have h1 : |w| ≤ 2 ^ eV := by
        refine N.abs_le (rep_pow hp1 hV1) ?_
        have := two_zpow_le h
        exact (abs_add_le _ _).trans (by linarith)
      exact lt_of_le_of_lt h1 (two_zpow_lt (by omega))
    · refine N.dekker_lattice hp1 hVr hwr hT1 hVm ?_
      have h1 : |w| ≤ 2 ^ eT := by
        refine N.abs_le (rep_pow hp1 hT1) ?_
        have := two_zpow_le h
        exact (abs_add_le _ _).trans (by linarith)
      exact lt_of_le_of_lt h1 (two_zpow_lt (by omega))

end Heyoka.DFloat
