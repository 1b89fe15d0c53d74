import Verif.DFloat.Round
import Verif.DFloat.Add

/-!
# C44: double-length time

For every binary floating-point format of at least 5 bits with the IEEE rounding to nearest
(`float`, `double`, `long double`, `__float128`, and `mppp::real` of any such precision).

The represented number of a double-length number is `DF.val x = x.hi + x.lo`, and a number is
normalised (`Norm`) if the high part is the represented number rounded to nearest.
-/

namespace Heyoka.DFloat

variable {φ : Fmt}

/-- C44: **the error-free transformations lose nothing**: Knuth's one for all operands, Dekker's
one for a first operand at least as large as the second one. The first part of the result is the
rounded sum, and the two parts add up to the exact sum. -/
theorem knuth_exact (hp : 1 ≤ φ.p) {a b : ℚ} (ha : φ.Rep a) (hb : φ.Rep b) :
    (knuth φ.rnd a b).1 = φ.rnd (a + b) ∧
      (knuth φ.rnd a b).1 + (knuth φ.rnd a b).2 = a + b := by
  rw [(rnd_nearest hp).knuth_eq hp ha hb]
  exact ⟨rfl, by ring⟩

/-- C44: see `knuth_exact`. -/
theorem dekker_exact (hp : 1 ≤ φ.p) {a b : ℚ} (ha : φ.Rep a) (hb : φ.Rep b) (h : |b| ≤ |a|) :
    (dekker φ.rnd a b).1 = φ.rnd (a + b) ∧
      (dekker φ.rnd a b).1 + (dekker φ.rnd a b).2 = a + b := by
  have N := rnd_nearest hp
  rw [N.dekker_of a b (N.dekker_abs hp ha hb h)]
  exact ⟨rfl, by ring⟩

/-- C44: **`normalise()` normalises** and does not change the represented number, provided the
high part is at least as large as the low one (which debug builds assert). -/
theorem normalise_exact (hp : 1 ≤ φ.p) {x : DF} (hh : φ.Rep x.hi) (hl : φ.Rep x.lo)
    (h : |x.lo| ≤ |x.hi|) : Norm φ φ.rnd (normalise φ.rnd x) ∧ (normalise φ.rnd x).val = x.val := by
  have N := rnd_nearest hp
  have hd := N.dekker_abs hp hh hl h
  have he : normalise φ.rnd x = ⟨φ.rnd (x.hi + x.lo), x.hi + x.lo - φ.rnd (x.hi + x.lo)⟩ := by
    unfold normalise; rw [N.dekker_of _ _ hd]
  rw [he]
  refine ⟨⟨N.rep _, hd.2, ?_⟩, ?_⟩ <;> unfold DF.val <;> simp

/-- Single-length numbers are normalised. -/
theorem norm_ofF (hp : 1 ≤ φ.p) {x : ℚ} (hx : φ.Rep x) : Norm φ φ.rnd (.ofF x) :=
  ⟨hx, Fmt.Rep.zero, by rw [DF.val, DF.ofF]; simp only [add_zero]; exact (rnd_nearest hp).exact hx⟩

/-- The negation of a normalised number is normalised. -/
theorem norm_neg (hp : 1 ≤ φ.p) {x : DF} (hx : Norm φ φ.rnd x) :
    Norm φ φ.rnd ⟨-x.hi, -x.lo⟩ := by
  refine ⟨hx.hi.neg, hx.lo.neg, ?_⟩
  show φ.rnd (-x.hi + -x.lo) = -x.hi
  rw [← neg_add, (rnd_nearest hp).neg]
  exact congrArg _ hx.near

/-- C44: **the sum of two normalised numbers is normalised.** -/
theorem add_norm (hp : 5 ≤ φ.p) {a b : DF} (ha : Norm φ φ.rnd a) (hb : Norm φ φ.rnd b) :
    Norm φ φ.rnd (add φ.rnd a b) := by
  have N := rnd_nearest (φ := φ) (by omega)
  have h := N.add_eq hp ha hb
  simp only at h
  rw [h.1]
  refine ⟨N.rep _, h.2.2.2.2, ?_⟩
  unfold DF.val; simp

/-- The exact result of the first low-order sum of a double-length sum: the error of the sum of
the high parts plus the rounded sum of the low parts. -/
def low₁ (rnd : ℚ → ℚ) (a b : DF) : ℚ := (a.hi + b.hi - rnd (a.hi + b.hi)) + rnd (a.lo + b.lo)

/-- The exact result of the second low-order sum: the error of the first normalisation plus the
error of the sum of the low parts. -/
def low₂ (rnd : ℚ → ℚ) (a b : DF) : ℚ :=
  (rnd (a.hi + b.hi) + rnd (low₁ rnd a b) - rnd (rnd (a.hi + b.hi) + rnd (low₁ rnd a b))) +
    (a.lo + b.lo - rnd (a.lo + b.lo))

/-- C44: **the only information lost in a sum is in the rounding of two low-order sums**: the
represented number of the result is the exact sum of the represented numbers of the operands plus
the rounding errors of two sums of low-order parts. -/
theorem add_exact_up_to (hp : 5 ≤ φ.p) {a b : DF} (ha : Norm φ φ.rnd a) (hb : Norm φ φ.rnd b) :
    (add φ.rnd a b).val = a.val + b.val + (φ.rnd (low₁ φ.rnd a b) - low₁ φ.rnd a b) +
      (φ.rnd (low₂ φ.rnd a b) - low₂ φ.rnd a b) := by
  have N := rnd_nearest (φ := φ) (by omega)
  have h := N.add_eq hp ha hb
  simp only at h
  rw [h.1]
  unfold low₂ low₁ DF.val
  simp only
  ring

/-- C44: in particular **the sum is exact if these two elementary operations are exact**. -/
theorem add_exact (hp : 5 ≤ φ.p) {a b : DF} (ha : Norm φ φ.rnd a) (hb : Norm φ φ.rnd b)
    (h₁ : φ.Rep (low₁ φ.rnd a b)) (h₂ : φ.Rep (low₂ φ.rnd a b)) :
    (add φ.rnd a b).val = a.val + b.val := by
  have N := rnd_nearest (φ := φ) (by omega)
  rw [add_exact_up_to hp ha hb, N.exact h₁, N.exact h₂]
  ring

/-- The parts of a normalised number. -/
theorem norm_bounds (hp : 1 ≤ φ.p) {x : DF} (hx : Norm φ φ.rnd x) :
    |x.lo| ≤ (2 : ℚ) ^ (-(φ.p : ℤ)) * |x.val| ∧
      |x.hi| ≤ (1 + (2 : ℚ) ^ (-(φ.p : ℤ))) * |x.val| := by
  have N := rnd_nearest hp
  have h := N.rel hp (hx.hi.mul2.add hx.lo.mul2)
  have h1 : φ.rnd (x.hi + x.lo) = x.hi := hx.near
  rw [h1, show x.hi - (x.hi + x.lo) = -x.lo by ring, abs_neg] at h
  refine ⟨h, ?_⟩
  have : |x.hi| ≤ |x.val| + |x.lo| := by
    have := abs_sub x.val x.lo
    rwa [DF.val, add_sub_cancel_right] at this
  unfold DF.val at *
  linarith

/-- Propagation of the errors. -/
theorem error_bound {u M A B al bl X T c V w : ℚ} (hu0 : 0 < u) (hu1 : u ≤ 1 / 32) (hM0 : 0 ≤ M)
    (s1 : |A + B| ≤ (1 + u) * M) (s2 : |al + bl| ≤ u * M)
    (r1 : |X - (A + B)| ≤ u * |A + B|) (r2 : |T - (al + bl)| ≤ u * |al + bl|)
    (r3 : |c - (A + B - X + T)| ≤ u * |A + B - X + T|) (r4 : |V - (X + c)| ≤ u * |X + c|)
    (r5 : |w - (X + c - V + (al + bl - T))| ≤ u * |X + c - V + (al + bl - T)|) :
    |(c - (A + B - X + T)) + (w - (X + c - V + (al + bl - T)))| ≤ 4 * u ^ 2 * M := by
  have y1 : |A + B - X| ≤ u * ((1 + u) * M) := by
    rw [abs_sub_comm]; exact r1.trans (mul_le_mul_of_nonneg_left s1 hu0.le)
  have t1 : |al + bl - T| ≤ u * (u * M) := by
    rw [abs_sub_comm]; exact r2.trans (mul_le_mul_of_nonneg_left s2 hu0.le)
  have T1 : |T| ≤ (1 + u) * (u * M) := by
    have := abs_sub (al + bl) (al + bl - T)
    rw [show al + bl - (al + bl - T) = T by ring] at this
    linarith
  have X1 : |X| ≤ (1 + u) * ((1 + u) * M) := by
    have := abs_sub (A + B) (A + B - X)
    rw [show A + B - (A + B - X) = X by ring] at this
    linarith
  have q1 : |A + B - X + T| ≤ 2 * (u * ((1 + u) * M)) := (abs_add_le _ _).trans (by linarith)
  have e1 : |c - (A + B - X + T)| ≤ u * (2 * (u * ((1 + u) * M))) :=
    r3.trans (mul_le_mul_of_nonneg_left q1 hu0.le)
  have c1 : |c| ≤ (1 + u) * (2 * (u * ((1 + u) * M))) := by
    have := abs_add_le (c - (A + B - X + T)) (A + B - X + T)
    rw [sub_add_cancel] at this
    linarith
  have V1 : |X + c| ≤ (1 + u) * ((1 + u) * M) + (1 + u) * (2 * (u * ((1 + u) * M))) :=
    (abs_add_le _ _).trans (by linarith)
  have v1 : |X + c - V| ≤ u * ((1 + u) * ((1 + u) * M) + (1 + u) * (2 * (u * ((1 + u) * M)))) := by
    rw [abs_sub_comm]; exact r4.trans (mul_le_mul_of_nonneg_left V1 hu0.le)
  have w1 : |X + c - V + (al + bl - T)| ≤
      u * ((1 + u) * ((1 + u) * M) + (1 + u) * (2 * (u * ((1 + u) * M)))) + u * (u * M) :=
    (abs_add_le _ _).trans (by linarith)
  have e2 : |w - (X + c - V + (al + bl - T))| ≤
      u * (u * ((1 + u) * ((1 + u) * M) + (1 + u) * (2 * (u * ((1 + u) * M)))) + u * (u * M)) :=
    r5.trans (mul_le_mul_of_nonneg_left w1 hu0.le)
  refine (abs_add_le _ _).trans ((add_le_add e1 e2).trans ?_)
  have hfin : u * (2 * (u * ((1 + u) * M))) +
      u * (u * ((1 + u) * ((1 + u) * M) + (1 + u) * (2 * (u * ((1 + u) * M)))) + u * (u * M)) =
      u ^ 2 * M * (2 * (1 + u) + (1 + u) ^ 2 * (1 + 2 * u) + u) := by ring
  have hk : 2 * (1 + u) + (1 + u) ^ 2 * (1 + 2 * u) + u ≤ 4 := by
    have h2 : u ^ 2 ≤ u * (1 / 32) := by rw [pow_two]; exact mul_le_mul_of_nonneg_left hu1 hu0.le
    have h3 : u ^ 3 ≤ u * (1 / 32) := by
      rw [pow_succ]
      have : u ^ 2 ≤ 1 := by nlinarith
      nlinarith
    have : 2 * (1 + u) + (1 + u) ^ 2 * (1 + 2 * u) + u = 3 + 7 * u + 5 * u ^ 2 + 2 * u ^ 3 := by ring
    rw [this]; linarith
  have hnn : 0 ≤ u ^ 2 * M := mul_nonneg (by positivity) hM0
  rw [hfin]
  calc _ ≤ u ^ 2 * M * 4 := mul_le_mul_of_nonneg_left hk hnn
    _ = _ := by ring

/-- C44: **accuracy of a sum**: the error is at most `4 u² (|a| + |b|)`, where `u = 2^(-p)` is the
accuracy of the single-length arithmetic. -/
theorem add_error (hp : 5 ≤ φ.p) {a b : DF} (ha : Norm φ φ.rnd a) (hb : Norm φ φ.rnd b) :
    |(add φ.rnd a b).val - (a.val + b.val)| ≤
      4 * ((2 : ℚ) ^ (-(φ.p : ℤ))) ^ 2 * (|a.val| + |b.val|) := by
  have hp1 : 1 ≤ φ.p := by omega
  have N := rnd_nearest hp1
  have h := N.add_eq hp ha hb
  simp only at h
  obtain ⟨h1, hY, ht, hv, _⟩ := h
  have hu1 : (2 : ℚ) ^ (-(φ.p : ℤ)) ≤ 1 / 32 := by
    calc (2 : ℚ) ^ (-(φ.p : ℤ)) ≤ 2 ^ (-5 : ℤ) := two_zpow_le (by omega)
      _ = 1 / 32 := by norm_num
  obtain ⟨al, ah⟩ := norm_bounds hp1 ha
  obtain ⟨bl, bh⟩ := norm_bounds hp1 hb
  have s1 : |a.hi + b.hi| ≤ (1 + (2 : ℚ) ^ (-(φ.p : ℤ))) * (|a.val| + |b.val|) :=
    (abs_add_le _ _).trans (by linarith)
  have s2 : |a.lo + b.lo| ≤ (2 : ℚ) ^ (-(φ.p : ℤ)) * (|a.val| + |b.val|) :=
    (abs_add_le _ _).trans (by linarith)
  have key := error_bound (two_zpow_pos _) hu1 (by positivity) s1 s2
    (N.rel hp1 (ha.hi.mul2.add hb.hi.mul2)) (N.rel hp1 (ha.lo.mul2.add hb.lo.mul2))
    (N.rel hp1 (hY.mul2.add (N.rep (a.lo + b.lo)).mul2))
    (N.rel hp1 ((N.rep (a.hi + b.hi)).mul2.add (N.rep _).mul2))
    (N.rel hp1 (hv.mul2.add ht.mul2))
  have hval : (add φ.rnd a b).val - (a.val + b.val) =
      (φ.rnd (low₁ φ.rnd a b) - low₁ φ.rnd a b) + (φ.rnd (low₂ φ.rnd a b) - low₂ φ.rnd a b) := by
    rw [add_exact_up_to hp ha hb]; ring
  rw [hval]
  exact key

/-- C44: differences. -/
theorem sub_norm_error (hp : 5 ≤ φ.p) {a b : DF} (ha : Norm φ φ.rnd a) (hb : Norm φ φ.rnd b) :
    Norm φ φ.rnd (sub φ.rnd a b) ∧ |(sub φ.rnd a b).val - (a.val - b.val)| ≤
      4 * ((2 : ℚ) ^ (-(φ.p : ℤ))) ^ 2 * (|a.val| + |b.val|) := by
  have hn := norm_neg (by omega) hb
  have hv : (⟨-b.hi, -b.lo⟩ : DF).val = -b.val := by unfold DF.val; ring
  refine ⟨add_norm hp ha hn, ?_⟩
  have := add_error hp ha hn
  rwa [hv, abs_neg, ← sub_eq_add_neg] at this

/-- The total variation of an accumulation: the sum, over the steps, of the magnitudes of the time
at the beginning of the step and of the step. -/
def variation (rnd : ℚ → ℚ) : DF → List ℚ → ℚ
  | _, [] => 0
  | t, h :: hs => (|t.val| + |h|) + variation rnd (addF rnd t h) hs

/-- C44: **accumulating time**: after any number of steps the time is normalised, and differs from
the exact sum of the initial time and of the steps by at most `4 u²` times the sum of the magnitudes
of the times and of the steps: the error of a step is of the order of the square of the accuracy
of the single-length arithmetic. -/
theorem accumulate_error (hp : 5 ≤ φ.p) (hs : List ℚ) (hhs : ∀ h ∈ hs, φ.Rep h) (t : DF)
    (ht : Norm φ φ.rnd t) : Norm φ φ.rnd (accumulate φ.rnd t hs) ∧
      |(accumulate φ.rnd t hs).val - (t.val + hs.sum)| ≤
        4 * ((2 : ℚ) ^ (-(φ.p : ℤ))) ^ 2 * variation φ.rnd t hs := by
  induction hs generalizing t with
  | nil => exact ⟨ht, by simp [accumulate, variation]⟩
  | cons h hs ih =>
    have hh := norm_ofF (φ := φ) (by omega) (hhs h (by simp))
    have hn : Norm φ φ.rnd (addF φ.rnd t h) := add_norm hp ht hh
    obtain ⟨i1, i2⟩ := ih (fun x hx => hhs x (by simp [hx])) _ hn
    refine ⟨i1, ?_⟩
    have he := add_error hp ht hh
    have hv : (DF.ofF h).val = h := by simp [DF.ofF, DF.val]
    rw [hv] at he
    have hfold : accumulate φ.rnd t (h :: hs) = accumulate φ.rnd (addF φ.rnd t h) hs := rfl
    rw [hfold, List.sum_cons, variation]
    have : (accumulate φ.rnd (addF φ.rnd t h) hs).val - (t.val + (h + hs.sum)) =
        ((accumulate φ.rnd (addF φ.rnd t h) hs).val - ((addF φ.rnd t h).val + hs.sum)) +
          ((addF φ.rnd t h).val - (t.val + h)) := by ring
    rw [this]
    refine (abs_add_le _ _).trans ?_
    rw [mul_add, add_comm (4 * _ * (|t.val| + |h|))]
    exact add_le_add i2 he

/-- All the low-order sums of an accumulation are exact. -/
def ExactSteps (φ : Fmt) : DF → List ℚ → Prop
  | _, [] => True
  | t, h :: hs => φ.Rep (low₁ φ.rnd t (.ofF h)) ∧ φ.Rep (low₂ φ.rnd t (.ofF h)) ∧
      ExactSteps φ (addF φ.rnd t h) hs

/-- C44: **accumulation is exact whenever the elementary operations are exact.** -/
theorem accumulate_exact (hp : 5 ≤ φ.p) (hs : List ℚ) (hhs : ∀ h ∈ hs, φ.Rep h) (t : DF)
    (ht : Norm φ φ.rnd t) (hex : ExactSteps φ t hs) :
    (accumulate φ.rnd t hs).val = t.val + hs.sum := by
  induction hs generalizing t with
  | nil => simp [accumulate]
  | cons h hs ih =>
    have hh := norm_ofF (φ := φ) (by omega) (hhs h (by simp))
    have hfold : accumulate φ.rnd t (h :: hs) = accumulate φ.rnd (addF φ.rnd t h) hs := rfl
    have hn : Norm φ φ.rnd (addF φ.rnd t h) := add_norm hp ht hh
    rw [hfold, ih (fun x hx => hhs x (by simp [hx])) _ hn hex.2.2, List.sum_cons]
    have : (addF φ.rnd t h).val = t.val + h := by
      have := add_exact hp ht hh hex.1 hex.2.1
      rwa [show (DF.ofF h).val = h by simp [DF.ofF, DF.val]] at this
    rw [this]; ring

/-- C44: **comparisons** of normalised numbers agree with the comparisons of the represented
numbers. -/
theorem compare_val (hp : 1 ≤ φ.p) {x y : DF} (hx : Norm φ φ.rnd x) (hy : Norm φ φ.rnd y) :
    (x.lt y = true ↔ x.val < y.val) ∧ (x.gt y = true ↔ x.val > y.val) ∧
      (x.le y = true ↔ x.val ≤ y.val) ∧ (x.ge y = true ↔ x.val ≥ y.val) ∧
      (x.eq y = true ↔ x.val = y.val) := by
  have N := rnd_nearest hp
  have key : ∀ {x y : DF}, Norm φ φ.rnd x → Norm φ φ.rnd y → x.hi < y.hi → x.val < y.val := by
    intro x y hx hy h
    by_contra hc
    push Not at hc
    have := N.mono hc
    rw [hx.near, hy.near] at this
    exact absurd h (not_lt.mpr this)
  rcases lt_trichotomy x.hi y.hi with h | h | h
  · have hv := key hx hy h
    simp only [DF.lt, DF.gt, DF.le, DF.ge, DF.eq, Bool.or_eq_true, Bool.and_eq_true,
      decide_eq_true_eq, beq_iff_eq, h, h.ne, not_lt.mpr h.le, gt_iff_lt, ge_iff_le, hv, hv.ne,
      hv.le, not_lt.mpr hv.le, not_le.mpr hv, true_or, false_and, or_false, and_self, true_iff]
  · simp only [DF.lt, DF.gt, DF.le, DF.ge, DF.eq, Bool.or_eq_true, Bool.and_eq_true,
      decide_eq_true_eq, beq_iff_eq, h, lt_irrefl, gt_iff_lt, ge_iff_le, DF.val, false_or, true_and,
      add_lt_add_iff_left, add_le_add_iff_left, add_right_inj, and_self, iff_self]
  · have hv := key hy hx h
    simp only [DF.lt, DF.gt, DF.le, DF.ge, DF.eq, Bool.or_eq_true, Bool.and_eq_true,
      decide_eq_true_eq, beq_iff_eq, h, h.ne', not_lt.mpr h.le, gt_iff_lt, ge_iff_le, hv, hv.ne',
      hv.le, not_lt.mpr hv.le, not_le.mpr hv, true_or, false_and, or_false, and_self, true_iff]

/-! ### Non-vacuity -/

/-- A format with 5 bits. -/
def fmt5 : Fmt := ⟨5, -10⟩

/-- A sum in which the low parts matter: adding `1/32` to `16` ten times changes the high part
by nothing, but nothing is lost. -/
example : accumulate fmt5.rnd (.ofF 16) (List.replicate 10 (1 / 32)) = ⟨16, 5 / 16⟩ := by
  decide +kernel

/-- The low-order sums of the first two of these steps are exact. -/
example : ExactSteps fmt5 (.ofF 16) [1 / 32, 1 / 32] := by
  refine ⟨?_, ?_, ?_, ?_, trivial⟩
  · rw [show low₁ fmt5.rnd (.ofF 16) (.ofF (1 / 32)) = 1 / 32 by decide +kernel]
    exact ⟨1, -5, by decide, by decide, by norm_num⟩
  · rw [show low₂ fmt5.rnd (.ofF 16) (.ofF (1 / 32)) = 1 / 32 by decide +kernel]
    exact ⟨1, -5, by decide, by decide, by norm_num⟩
  · rw [show low₁ fmt5.rnd (addF fmt5.rnd (.ofF 16) (1 / 32)) (.ofF (1 / 32)) = 1 / 16 by
      decide +kernel]
    exact ⟨1, -4, by decide, by decide, by norm_num⟩
  · rw [show low₂ fmt5.rnd (addF fmt5.rnd (.ofF 16) (1 / 32)) (.ofF (1 / 32)) = 1 / 16 by
      decide +kernel]
    exact ⟨1, -4, by decide, by decide, by norm_num⟩

/-- The same accumulation in single length loses all the increments. -/
example : (List.replicate 10 (1 / 32 : ℚ)).foldl (fun t h => fmt5.rnd (t + h)) 16 = 16 := by
  decide +kernel

/-- A normalised number with a non-zero low part, a sum of two such numbers which is not exact,
and numbers of the format of the C++ type `double`. -/
example : Norm fmt5 fmt5.rnd ⟨16, 5 / 16⟩ ∧ fmt5.Rep (1 / 32) :=
  ⟨⟨⟨1, 4, by decide, by decide, by norm_num⟩, ⟨5, -4, by decide, by decide, by norm_num⟩,
    by decide +kernel⟩, ⟨1, -5, by decide, by decide, by norm_num⟩⟩

example : add fmt5.rnd ⟨16, 5 / 16⟩ ⟨1 / 32, 1 / 1024⟩ = ⟨16, 11 / 32⟩ := by decide +kernel

example : (⟨53, -1074⟩ : Fmt).Rep (-3 / 8) :=
  ⟨-3, -3, by norm_num, by norm_num, by norm_num⟩

/-- Comparison of numbers which are not normalised does not agree with the comparison of the
represented numbers. -/
example : DF.lt ⟨1, 5⟩ ⟨2, 0⟩ = true ∧ ¬ (⟨1, 5⟩ : DF).val < (⟨2, 0⟩ : DF).val := by
  refine ⟨by decide +kernel, ?_⟩
  unfold DF.val; norm_num

end Heyoka.DFloat
