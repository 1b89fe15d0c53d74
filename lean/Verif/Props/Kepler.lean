import Verif.Kepler.Solver
import Mathlib.Analysis.Real.Pi.Bounds

/-!
# Property C48: the Kepler equations and their solver
-/

namespace Heyoka.Kepler

/-- Kepler's equation has exactly one real solution for every eccentricity in `[0, 1)` and every
mean anomaly. -/
theorem kepE_exists_unique {e : ℝ} (h0 : 0 ≤ e) (h1 : e < 1) (M : ℝ) :
    ∃! E : ℝ, E - e * Real.sin E = M := by
  have h : (0 : ℝ) ^ 2 + (-e) ^ 2 < 1 := by nlinarith
  refine ⟨kepSol 0 (-e) M, ?_, ?_⟩
  · have := kepG_kepSol h M
    simp only [kepG] at this
    linarith
  · intro E hE
    symm
    rw [kepSol_eq_iff h]
    simp only [kepG]
    linarith

example : ∃! E : ℝ, E - (1 / 2 : ℝ) * Real.sin E = 3 :=
  kepE_exists_unique (by norm_num) (by norm_num) 3

/-- The eccentric longitude equation has exactly one real solution when `h² + k² < 1`. -/
theorem kepF_exists_unique {h k : ℝ} (hk : h ^ 2 + k ^ 2 < 1) (lam : ℝ) :
    ∃! F : ℝ, F + h * Real.cos F - k * Real.sin F = lam := by
  have hh : h ^ 2 + (-k) ^ 2 < 1 := by nlinarith
  refine ⟨kepSol h (-k) lam, ?_, ?_⟩
  · have := kepG_kepSol hh lam
    simp only [kepG] at this
    linarith
  · intro E hE
    symm
    rw [kepSol_eq_iff hh]
    simp only [kepG]
    linarith

example : ∃! F : ℝ, F + (1 / 2 : ℝ) * Real.cos F - (1 / 3 : ℝ) * Real.sin F = 3 :=
  kepF_exists_unique (by norm_num) 3

/-- Kepler's equation for the difference of eccentric anomalies has exactly one real solution when
`s0² + c0² < 1`. -/
theorem kepDE_exists_unique {s0 c0 : ℝ} (hk : s0 ^ 2 + c0 ^ 2 < 1) (DM : ℝ) :
    ∃! DE : ℝ, DE + s0 * (1 - Real.cos DE) - c0 * Real.sin DE = DM := by
  have hh : (-s0) ^ 2 + (-c0) ^ 2 < 1 := by nlinarith
  refine ⟨kepSol (-s0) (-c0) (DM - s0), ?_, ?_⟩
  · have := kepG_kepSol hh (DM - s0)
    simp only [kepG] at this
    linarith
  · intro E hE
    symm
    rw [kepSol_eq_iff hh]
    simp only [kepG]
    linarith

example : ∃! DE : ℝ, DE + (1 / 2 : ℝ) * (1 - Real.cos DE) - (1 / 3 : ℝ) * Real.sin DE = 3 :=
  kepDE_exists_unique (by norm_num) 3

/-- The reduced value of an angle is determined by its range and by being congruent. -/
theorem reduceArg_eq {top M M' : ℝ} {k : ℤ} (h0 : 0 ≤ M') (h1 : M' ≤ top) (h2 : top < 2 * Real.pi)
    (hk : M' = M + k * (2 * Real.pi)) : reduceArg top M = M' := by
  have : red M = M' := by
    rw [← red_add_period M k, ← hk, red_eq_self h0 (by linarith)]
  simp [reduceArg, clamp, this, h0, h1]

/-- **kepE.** For every lane of every batch with an eccentricity in `[0, 1)`: if a value is returned
(not NaN), it lies in `[0, 2π)` and either satisfies Kepler's equation for the mean anomaly
reduced modulo `2π` within the tolerance, or it is within the tolerance of the exact solution, which
itself lies in `[0, 2π)`. `top` is the number preceding `2π`. -/
theorem kepE_result {tol top : ℝ} {maxIter : Nat} {args : List (ℝ × ℝ)} {i : Nat} {e M M' x : ℝ}
    {k : ℤ} (ht0 : Real.pi ≤ top) (ht1 : top < 2 * Real.pi)
    (hi : args[i]? = some (e, M)) (he0 : 0 ≤ e) (he1 : e < 1)
    (hM0 : 0 ≤ M') (hM1 : M' ≤ top) (hM : M' = M + k * (2 * Real.pi))
    (hx : (kepEBatch tol top maxIter args)[i]? = some (some x)) :
    0 ≤ x ∧ x < 2 * Real.pi ∧
    ∃ E : ℝ, 0 ≤ E ∧ E < 2 * Real.pi ∧ E - e * Real.sin E = M' ∧
      (|x - e * Real.sin x - M'| ≤ tol ∨ |x - E| ≤ tol) := by
  obtain ⟨E, hE, huniq⟩ := kepE_exists_unique he0 he1 M'
  dsimp only at hE huniq
  have hmono : StrictMono fun E => E - M' - e * Real.sin E := by
    have h : (0 : ℝ) ^ 2 + (-e) ^ 2 < 1 := by nlinarith
    intro x y hxy
    have := kepG_strictMono h hxy
    simp only [kepG] at this
    linarith
  have hE0 : 0 ≤ E := by
    by_contra hc
    have := hmono (not_le.mp hc)
    simp only [Real.sin_zero] at this
    linarith
  have hE1 : E ≤ top := by
    rcases le_or_gt M' Real.pi with h | h
    · by_contra hc
      have := hmono (lt_of_le_of_lt ht0 (not_le.mp hc))
      simp only [Real.sin_pi] at this
      linarith
    · have h2 : E ≤ M' := by
        by_contra hc
        have h3 := hmono (not_le.mp hc)
        have h4 : Real.sin M' ≤ 0 := by
          have h5 := Real.sin_nonneg_of_nonneg_of_le_pi (x := M' - Real.pi) (by linarith)
            (by linarith)
          rw [Real.sin_sub_pi] at h5
          linarith
        simp only at h3
        nlinarith
      linarith
  have hp : (args.map fun q => kepEProblem top q.1 q.2)[i]? = some (kepEProblem top e M) := by
    rw [List.getElem?_map, hi]; rfl
  have hprob : ∃ ig, kepEProblem top e M
      = some ⟨fun E => E - M' - e * Real.sin E, fun E => 1 - e * Real.cos E, 0, top, ig⟩ := by
    unfold kepEProblem
    rw [if_neg (by push Not; exact ⟨he0, he1⟩), reduceArg_eq hM0 hM1 ht1 hM]
    exact ⟨_, rfl⟩
  obtain ⟨ig, hig⟩ := hprob
  rw [hig] at hp
  have := solve_spec hp (r := E) ⟨hmono, by simp only; linarith, hE0, hE1⟩ hx
  obtain ⟨a, b, c⟩ := this
  refine ⟨a, by simp only at b; linarith, E, hE0, by linarith, hE, ?_⟩
  rcases c with c | c
  · left
    simp only at c
    rwa [show x - e * Real.sin x - M' = x - M' - e * Real.sin x by ring]
  · exact Or.inr c

/-- An eccentricity outside `[0, 1)` gives NaN. -/
theorem kepE_invalid {tol top : ℝ} {maxIter : Nat} {args : List (ℝ × ℝ)} {i : Nat} {e M : ℝ}
    (hi : args[i]? = some (e, M)) (he : e < 0 ∨ 1 ≤ e) :
    (kepEBatch tol top maxIter args)[i]? = some none :=
  solve_none (by rw [List.getElem?_map, hi]; simp [kepEProblem, he])

example : (kepEBatch 1 4 20 [(1 / 2, 0), (2, 1)])[1]? = some none :=
  kepE_invalid (e := 2) (M := 1) rfl (Or.inr (by norm_num))

/-- The hypotheses of `kepE_result` are met by a run that returns a value. -/
example : (kepEBatch (1 / 10) 4 20 [(1 / 2, 0)])[0]? = some (some 0) := by
  have hr : reduceArg 4 0 = 0 := by
    refine reduceArg_eq (k := 0) le_rfl (by norm_num) ?_ (by simp)
    linarith [Real.pi_gt_three]
  have hp : kepEProblem 4 (1 / 2) 0 = some ⟨fun E => E - 0 - 1 / 2 * Real.sin E,
      fun E => 1 - 1 / 2 * Real.cos E, 0, 4, 0⟩ := by
    unfold kepEProblem
    rw [if_neg (by norm_num), hr]
    simp
  simp only [kepEBatch, List.map_cons, List.map_nil, hp]
  rw [solve_of_guess (by norm_num) (by simp [clamp])]
  simp [clamp]

theorem finalReduce_spec {x top1 : ℝ} (h0 : -1 ≤ x) (h1 : x ≤ top1)
    (ht : top1 < 4 * Real.pi) :
    0 ≤ finalReduce x ∧ finalReduce x < 2 * Real.pi ∧
      ∃ m : ℤ, finalReduce x = x + m * (2 * Real.pi) := by
  have hpi := Real.pi_gt_three
  rcases lt_or_ge x 0 with h2 | h2
  · have : finalReduce x = 2 * Real.pi + x := by
      simp only [finalReduce, if_pos h2]
      rw [if_neg (by linarith)]
    rw [this]
    exact ⟨by linarith, by linarith, 1, by push_cast; ring⟩
  rcases le_or_gt (2 * Real.pi) x with h3 | h3
  · have : finalReduce x = x - 2 * Real.pi := by
      simp only [finalReduce, if_neg (not_lt.mpr h2), if_pos h3]
    rw [this]
    exact ⟨by linarith, by linarith, -1, by push_cast; ring⟩
  · have : finalReduce x = x := by
      simp only [finalReduce, if_neg (not_lt.mpr h2), if_neg (not_le.mpr h3)]
    rw [this]
    exact ⟨by linarith, by linarith, 0, by simp⟩

/-- **kepF.** For every lane with `h² + k² < 1`: a returned value lies in `[0, 2π)` and is congruent
modulo `2π` to a value that satisfies the equation within the tolerance or is within the tolerance
of the exact solution. `top1` is the number preceding `2π + 1`. -/
theorem kepF_result {tol top top1 : ℝ} {maxIter : Nat} {args : List (ℝ × ℝ × ℝ)} {i : Nat}
    {h k lam lam' y : ℝ} {j : ℤ} (ht1 : top < 2 * Real.pi) (ht2 : top + 1 ≤ top1)
    (ht3 : top1 < 2 * Real.pi + 1)
    (hi : args[i]? = some (h, k, lam)) (hk : h ^ 2 + k ^ 2 < 1)
    (hM0 : 0 ≤ lam') (hM1 : lam' ≤ top) (hM : lam' = lam + j * (2 * Real.pi))
    (hx : (kepFBatch tol top top1 maxIter args)[i]? = some (some y)) :
    0 ≤ y ∧ y < 2 * Real.pi ∧
    ∃ (x F : ℝ) (m : ℤ), y = x + m * (2 * Real.pi) ∧
      F + h * Real.cos F - k * Real.sin F = lam' ∧
      (|x + h * Real.cos x - k * Real.sin x - lam'| ≤ tol ∨ |x - F| ≤ tol) := by
  obtain ⟨F, hF, -⟩ := kepF_exists_unique hk lam'
  have hmono : StrictMono fun F => F - lam' + h * Real.cos F - k * Real.sin F := by
    have hh : h ^ 2 + (-k) ^ 2 < 1 := by nlinarith
    intro x y hxy
    have := kepG_strictMono hh hxy
    simp only [kepG] at this
    linarith
  have hnear := abs_lt.mp (abs_lin_lt_one (p := h) (q := -k) (by nlinarith) F)
  have hp : (args.map fun q => kepFProblem top top1 q.1 q.2.1 q.2.2)[i]?
      = some (kepFProblem top top1 h k lam) := by
    rw [List.getElem?_map, hi]; rfl
  have hprob : ∃ ig, kepFProblem top top1 h k lam
      = some ⟨fun F => F - lam' + h * Real.cos F - k * Real.sin F,
          fun F => 1 - h * Real.sin F - k * Real.cos F, -1, top1, ig⟩ := by
    unfold kepFProblem
    rw [if_neg (by nlinarith), reduceArg_eq hM0 hM1 ht1 hM]
    exact ⟨_, rfl⟩
  obtain ⟨ig, hig⟩ := hprob
  rw [hig] at hp
  unfold kepFBatch at hx
  rw [List.getElem?_map, Option.map_eq_some_iff] at hx
  obtain ⟨o, ho, hy⟩ := hx
  rw [Option.map_eq_some_iff] at hy
  obtain ⟨x, rfl, rfl⟩ := hy
  have := solve_spec hp (r := F) ⟨hmono, by simp only; linarith, by simp only; linarith,
    by simp only; linarith⟩ ho
  obtain ⟨a, b, c⟩ := this
  simp only at a b c
  obtain ⟨p, q, m, hm⟩ := finalReduce_spec a b (by linarith [Real.pi_gt_three])
  refine ⟨p, q, x, F, m, hm, hF, ?_⟩
  rcases c with c | c
  · left
    rwa [show x + h * Real.cos x - k * Real.sin x - lam'
      = x - lam' + h * Real.cos x - k * Real.sin x by ring]
  · exact Or.inr c

/-- `h² + k² ≥ 1` gives NaN. -/
theorem kepF_invalid {tol top top1 : ℝ} {maxIter : Nat} {args : List (ℝ × ℝ × ℝ)} {i : Nat}
    {h k lam : ℝ} (hi : args[i]? = some (h, k, lam)) (he : 1 ≤ h ^ 2 + k ^ 2) :
    (kepFBatch tol top top1 maxIter args)[i]? = some none := by
  unfold kepFBatch
  rw [List.getElem?_map, solve_none (by
    rw [List.getElem?_map, hi]; simp [kepFProblem, show 1 ≤ h * h + k * k by nlinarith])]
  rfl

/-- **kepDE.** As `kepF_result`. -/
theorem kepDE_result {tol top top1 : ℝ} {maxIter : Nat} {args : List (ℝ × ℝ × ℝ)} {i : Nat}
    {s0 c0 DM DM' y : ℝ} {j : ℤ} (ht1 : top < 2 * Real.pi) (ht2 : 2 * Real.pi ≤ top1)
    (ht3 : top1 < 2 * Real.pi + 1)
    (hi : args[i]? = some (s0, c0, DM)) (hk : s0 ^ 2 + c0 ^ 2 < 1)
    (hM0 : 0 ≤ DM') (hM1 : DM' ≤ top) (hM : DM' = DM + j * (2 * Real.pi))
    (hx : (kepDEBatch tol top top1 maxIter args)[i]? = some (some y)) :
    0 ≤ y ∧ y < 2 * Real.pi ∧
    ∃ (x DE : ℝ) (m : ℤ), y = x + m * (2 * Real.pi) ∧
      DE + s0 * (1 - Real.cos DE) - c0 * Real.sin DE = DM' ∧
      (|x + s0 * (1 - Real.cos x) - c0 * Real.sin x - DM'| ≤ tol ∨ |x - DE| ≤ tol) := by
  obtain ⟨F, hF, -⟩ := kepDE_exists_unique hk DM'
  have hmono : StrictMono fun DE => DE - DM' + s0 * (1 - Real.cos DE) - c0 * Real.sin DE := by
    have hh : (-s0) ^ 2 + (-c0) ^ 2 < 1 := by nlinarith
    intro x y hxy
    have := kepG_strictMono hh hxy
    simp only [kepG] at this
    linarith
  have hF0 : 0 ≤ F := by
    by_contra hc
    have := hmono (not_le.mp hc)
    simp only [Real.sin_zero, Real.cos_zero] at this
    linarith
  have hF1 : F ≤ 2 * Real.pi := by
    by_contra hc
    have := hmono (not_le.mp hc)
    simp only [Real.sin_two_pi, Real.cos_two_pi] at this
    linarith
  have hp : (args.map fun q => kepDEProblem top top1 q.1 q.2.1 q.2.2)[i]?
      = some (kepDEProblem top top1 s0 c0 DM) := by
    rw [List.getElem?_map, hi]; rfl
  have hprob : ∃ ig, kepDEProblem top top1 s0 c0 DM
      = some ⟨fun DE => DE - DM' + s0 * (1 - Real.cos DE) - c0 * Real.sin DE,
          fun DE => 1 + s0 * Real.sin DE - c0 * Real.cos DE, -1, top1, ig⟩ := by
    unfold kepDEProblem
    rw [if_neg (by nlinarith), reduceArg_eq hM0 hM1 ht1 hM]
    exact ⟨_, rfl⟩
  obtain ⟨ig, hig⟩ := hprob
  rw [hig] at hp
  unfold kepDEBatch at hx
  rw [List.getElem?_map, Option.map_eq_some_iff] at hx
  obtain ⟨o, ho, hy⟩ := hx
  rw [Option.map_eq_some_iff] at hy
  obtain ⟨x, rfl, rfl⟩ := hy
  have := solve_spec hp (r := F) ⟨hmono, by simp only; linarith, by simp only; linarith,
    by simp only; linarith⟩ ho
  obtain ⟨a, b, c⟩ := this
  simp only at a b c
  obtain ⟨p, q, m, hm⟩ := finalReduce_spec a b (by linarith [Real.pi_gt_three])
  refine ⟨p, q, x, F, m, hm, hF, ?_⟩
  rcases c with c | c
  · left
    rwa [show x + s0 * (1 - Real.cos x) - c0 * Real.sin x - DM'
      = x - DM' + s0 * (1 - Real.cos x) - c0 * Real.sin x by ring]
  · exact Or.inr c

/-- `s0² + c0² ≥ 1` gives NaN. -/
theorem kepDE_invalid {tol top top1 : ℝ} {maxIter : Nat} {args : List (ℝ × ℝ × ℝ)} {i : Nat}
    {s0 c0 DM : ℝ} (hi : args[i]? = some (s0, c0, DM)) (he : 1 ≤ s0 ^ 2 + c0 ^ 2) :
    (kepDEBatch tol top top1 maxIter args)[i]? = some none := by
  unfold kepDEBatch
  rw [List.getElem?_map, solve_none (by
    rw [List.getElem?_map, hi]; simp [kepDEProblem, show 1 ≤ s0 * s0 + c0 * c0 by nlinarith])]
  rfl

/-- The hypotheses of `kepDE_result` are met by a run that returns a value. -/
example : (kepDEBatch (1 / 10) 4 7 20 [(1 / 2, 1 / 2, 0)])[0]? = some (some 0) := by
  have hr : reduceArg 4 0 = 0 := by
    refine reduceArg_eq (k := 0) le_rfl (by norm_num) ?_ (by simp)
    linarith [Real.pi_gt_three]
  have hp : kepDEProblem 4 7 (1 / 2) (1 / 2) 0 = some
      ⟨fun DE => DE - 0 + 1 / 2 * (1 - Real.cos DE) - 1 / 2 * Real.sin DE,
      fun DE => 1 + 1 / 2 * Real.sin DE - 1 / 2 * Real.cos DE, -1, 7, 0⟩ := by
    unfold kepDEProblem
    rw [if_neg (by norm_num), hr]
    simp
  simp only [kepDEBatch, List.map_cons, List.map_nil, hp]
  rw [solve_of_guess (by norm_num) (by simp [clamp])]
  simp [clamp, finalReduce, Real.pi_pos]

/-- The hypotheses of `kepF_result` are met by a run that returns a value. -/
example : (kepFBatch (1 / 10) 4 7 20 [(0, 1 / 2, 0)])[0]? = some (some 0) := by
  have hr : reduceArg 4 0 = 0 := by
    refine reduceArg_eq (k := 0) le_rfl (by norm_num) ?_ (by simp)
    linarith [Real.pi_gt_three]
  have hp : kepFProblem 4 7 0 (1 / 2) 0 = some
      ⟨fun F => F - 0 + 0 * Real.cos F - 1 / 2 * Real.sin F,
      fun F => 1 - 0 * Real.sin F - 1 / 2 * Real.cos F, -1, 7, 0⟩ := by
    unfold kepFProblem
    rw [if_neg (by norm_num), hr]
    simp
  simp only [kepFBatch, List.map_cons, List.map_nil, hp]
  rw [solve_of_guess (by norm_num) (by simp [clamp])]
  simp [clamp, finalReduce, Real.pi_pos]

/-- For a circular orbit the solver returns the mean anomaly reduced modulo `2π`, whatever the
tolerance and the maximum number of iterations. -/
theorem kepE_circular {tol top M M' : ℝ} {maxIter : Nat} {k : ℤ} (htol : 0 ≤ tol)
    (ht1 : top < 2 * Real.pi) (hM0 : 0 ≤ M') (hM1 : M' ≤ top) (hM : M' = M + k * (2 * Real.pi)) :
    kepEBatch tol top maxIter [(0, M)] = [some M'] := by
  have hp : kepEProblem top 0 M = some ⟨fun E => E - M' - 0 * Real.sin E,
      fun E => 1 - 0 * Real.cos E, 0, top, M'⟩ := by
    unfold kepEProblem
    rw [if_neg (by norm_num), reduceArg_eq hM0 hM1 ht1 hM]
    simp
  have hc : clamp M' 0 top = M' := by simp [clamp, hM0, hM1]
  simp only [kepEBatch, List.map_cons, List.map_nil, hp]
  rw [solve_of_guess htol (by simp [hc])]
  simp [hc]

example : kepEBatch 0 6 0 [(0, 1 + 2 * Real.pi)] = [some 1] :=
  kepE_circular (k := -1) le_rfl (by linarith [Real.pi_gt_d2]) (by norm_num) (by norm_num)
    (by push_cast; ring)

/-- The derivatives stated by the gradient of `kepE` are those of the solution of Kepler's equation
along any differentiable curve of eccentricities and mean anomalies. -/
theorem kepE_gradient {e M E : ℝ → ℝ} {e' M' t : ℝ} (he : HasDerivAt e e' t)
    (hM : HasDerivAt M M' t) (h0 : 0 < e t) (h1 : e t < 1)
    (hE : ∀ s, 0 ≤ e s → e s < 1 → E s - e s * Real.sin (E s) = M s) :
    HasDerivAt E (Real.sin (E t) / (1 - e t * Real.cos (E t)) * e'
      + 1 / (1 - e t * Real.cos (E t)) * M') t := by
  have hev : ∀ᶠ s in nhds t, 0 < e s ∧ e s < 1 :=
    (he.continuousAt.eventually (lt_mem_nhds h0)).and (he.continuousAt.eventually (gt_mem_nhds h1))
  have hsol : ∀ s, 0 ≤ e s → e s < 1 → E s = kepSol 0 (-e s) (M s) := by
    intro s hs0 hs1
    symm
    rw [kepSol_eq_iff (by nlinarith)]
    have := hE s hs0 hs1
    simp only [kepG]; linarith
  have h := kepSol_hasDerivAt (hasDerivAt_const t (0 : ℝ)) he.neg hM (by simp only [Pi.neg_apply]; nlinarith)
  refine (h.congr_of_eventuallyEq ?_).congr_deriv ?_
  · filter_upwards [hev] with s hs
    rw [hsol s hs.1.le hs.2]; rfl
  · simp only [Pi.neg_apply, ← hsol t h0.le h1]
    have hd : (1 : ℝ) - e t * Real.cos (E t) ≠ 0 := by
      have := kepG_deriv_pos (a := 0) (b := -e t) (by nlinarith) (E t)
      linarith
    have hd' : (1 : ℝ) - 0 * Real.sin (E t) + -e t * Real.cos (E t)
        = 1 - e t * Real.cos (E t) := by ring
    rw [hd']
    field_simp
    ring

end Heyoka.Kepler
