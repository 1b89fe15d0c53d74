import Verif.Models.Frames
import Mathlib.LinearAlgebra.Matrix.Notation
import Mathlib.LinearAlgebra.Matrix.NonsingularInverse
import Mathlib.Tactic.Positivity
import Mathlib.Analysis.Real.Pi.Bounds

/-!
# C61: transformations between the terrestrial and the celestial reference frames
-/

set_option linter.unusedSectionVars false

namespace Heyoka.Models

open Heyoka.Sym Matrix

/-! ### Specification: rotations about the axes -/

/-- Rotation of the frame about the first axis. -/
noncomputable def R1 (t : ℝ) : Matrix (Fin 3) (Fin 3) ℝ := !![1, 0, 0; 0, Real.cos t, Real.sin t; 0, -Real.sin t, Real.cos t]

/-- Rotation of the frame about the second axis. -/
noncomputable def R2 (t : ℝ) : Matrix (Fin 3) (Fin 3) ℝ := !![Real.cos t, 0, -Real.sin t; 0, 1, 0; Real.sin t, 0, Real.cos t]

/-- Rotation of the frame about the third axis. -/
noncomputable def R3 (t : ℝ) : Matrix (Fin 3) (Fin 3) ℝ := !![Real.cos t, Real.sin t, 0; -Real.sin t, Real.cos t, 0; 0, 0, 1]

/-- The matrix of precession and nutation of the IERS conventions (5.4.4), with the series of the factor `a`. -/
noncomputable def PN (X Y : ℝ) : Matrix (Fin 3) (Fin 3) ℝ :=
  let a := 1 / 2 + (X ^ 2 + Y ^ 2) / 8
  !![1 - a * X ^ 2, -(a * X * Y), X; -(a * X * Y), 1 - a * Y ^ 2, Y; -X, -Y, 1 - a * (X ^ 2 + Y ^ 2)]

/-- The square of the length of a vector. -/
def len2 (p : Fin 3 → ℝ) : ℝ := p 0 ^ 2 + p 1 ^ 2 + p 2 ^ 2

/-- The values of the quantities obtained from the EOP data and the precession/nutation theory. -/
structure EopVal [DFunc] (v : Env ℝ) (e : Eop ℝ) (xp yp era xpn ypn spn dx dy g : ℝ) : Prop where
  hxp : e.xp.eval v = some xp
  hyp : e.yp.eval v = some yp
  hera : e.era.eval v = some era
  hxpn : e.xpn.eval v = some xpn
  hypn : e.ypn.eval v = some ypn
  hspn : e.spn.eval v = some spn
  hdx : e.dx.eval v = some dx
  hdy : e.dy.eval v = some dy
  hg : e.g82.eval v = some g

/-! ### Lemmas -/

theorem R1_orth (t : ℝ) : (R1 t)ᵀ * R1 t = 1 := by
  have h := Real.sin_sq_add_cos_sq t
  ext i j
  fin_cases i <;> fin_cases j <;> simp [R1, Matrix.mul_apply, Fin.sum_univ_three] <;> first | linear_combination h | ring1

theorem R2_orth (t : ℝ) : (R2 t)ᵀ * R2 t = 1 := by
  have h := Real.sin_sq_add_cos_sq t
  ext i j
  fin_cases i <;> fin_cases j <;> simp [R2, Matrix.mul_apply, Fin.sum_univ_three] <;> first | linear_combination h | ring1

theorem R3_orth (t : ℝ) : (R3 t)ᵀ * R3 t = 1 := by
  have h := Real.sin_sq_add_cos_sq t
  ext i j
  fin_cases i <;> fin_cases j <;> simp [R3, Matrix.mul_apply, Fin.sum_univ_three] <;> first | linear_combination h | ring1

theorem orth_mul {A B : Matrix (Fin 3) (Fin 3) ℝ} (hA : Aᵀ * A = 1) (hB : Bᵀ * B = 1) : (A * B)ᵀ * (A * B) = 1 := by
  rw [Matrix.transpose_mul, Matrix.mul_assoc, ← Matrix.mul_assoc _ A, hA, Matrix.one_mul, hB]

theorem orth_comm {A : Matrix (Fin 3) (Fin 3) ℝ} (hA : Aᵀ * A = 1) : A * Aᵀ = 1 := mul_eq_one_comm.1 hA

theorem len2_eq (p : Fin 3 → ℝ) : len2 p = p ⬝ᵥ p := by
  simp [len2, dotProduct, Fin.sum_univ_three]; ring

theorem len2_orth {A : Matrix (Fin 3) (Fin 3) ℝ} (hA : Aᵀ * A = 1) (p : Fin 3 → ℝ) : len2 (A *ᵥ p) = len2 p := by
  rw [len2_eq, len2_eq, dotProduct_mulVec, ← mulVec_transpose, mulVec_mulVec, hA, one_mulVec]

section
variable [DFunc] {v : Env ℝ}

theorem ev_rotM {R : Fin 3 → Fin 3 → Expr ℝ} {A : Matrix (Fin 3) (Fin 3) ℝ} {e : Fin 3 → Expr ℝ} {p : Fin 3 → ℝ}
    (hR : ∀ i j, (R i j).eval v = some (A i j)) (he : VVal v e p) : VVal v (rot R e) (A *ᵥ p) := fun i => by
  have := ev_sum (evalL_cons_some (eval_mulE (hR i 0) (he 0)) (evalL_cons_some (eval_mulE (hR i 1) (he 1))
    (evalL_cons_some (eval_mulE (hR i 2) (he 2)) (l := []) (xs := []) (by simp))))
  rw [rot, this]
  simp [mulVec, dotProduct, Fin.sum_univ_three, add_assoc]

theorem ev_rotMT {R : Fin 3 → Fin 3 → Expr ℝ} {A : Matrix (Fin 3) (Fin 3) ℝ} {e : Fin 3 → Expr ℝ} {p : Fin 3 → ℝ}
    (hR : ∀ i j, (R i j).eval v = some (A i j)) (he : VVal v e p) : VVal v (rotT R e) (Aᵀ *ᵥ p) := fun i => by
  have := ev_sum (evalL_cons_some (eval_mulE (hR 0 i) (he 0)) (evalL_cons_some (eval_mulE (hR 1 i) (he 1))
    (evalL_cons_some (eval_mulE (hR 2 i) (he 2)) (l := []) (xs := []) (by simp))))
  rw [rotT, this]
  simp [mulVec, dotProduct, Fin.sum_univ_three, add_assoc]

theorem ev_pmMat {xp yp c s : Expr ℝ} {a b t : ℝ} (hx : xp.eval v = some a) (hy : yp.eval v = some b) (hc : c.eval v = some (Real.cos t))
    (hs : s.eval v = some (Real.sin t)) (i j : Fin 3) : (pmMat xp yp c s i j).eval v = some ((R3 (-t) * R2 a * R1 b) i j) := by
  have h1 := ev_cos hx
  have h2 := ev_sin hx
  have h3 := ev_cos hy
  have h4 := ev_sin hy
  fin_cases i <;> fin_cases j
  · refine (eval_mulE h1 hc).trans ?_
    simp [R1, R2, R3, Matrix.mul_apply, Fin.sum_univ_three]; ring
  · refine (ev_add (eval_mulE (ev_neg h3) hs) (eval_mulE (eval_mulE h4 h2) hc)).trans ?_
    simp [R1, R2, R3, Matrix.mul_apply, Fin.sum_univ_three]; ring
  · refine (ev_sub (eval_mulE (ev_neg h4) hs) (eval_mulE (eval_mulE h3 h2) hc)).trans ?_
    simp [R1, R2, R3, Matrix.mul_apply, Fin.sum_univ_three]; ring
  · refine (eval_mulE h1 hs).trans ?_
    simp [R1, R2, R3, Matrix.mul_apply, Fin.sum_univ_three]; ring
  · refine (ev_add (eval_mulE h3 hc) (eval_mulE (eval_mulE h4 h2) hs)).trans ?_
    simp [R1, R2, R3, Matrix.mul_apply, Fin.sum_univ_three]; ring
  · refine (ev_sub (eval_mulE h4 hc) (eval_mulE (eval_mulE h3 h2) hs)).trans ?_
    simp [R1, R2, R3, Matrix.mul_apply, Fin.sum_univ_three]; ring
  · refine h2.trans ?_
    simp [R1, R2, R3, Matrix.mul_apply, Fin.sum_univ_three]
  · refine (eval_mulE (ev_neg h4) h1).trans ?_
    simp [R1, R2, R3, Matrix.mul_apply, Fin.sum_univ_three]; ring
  · refine (eval_mulE h3 h1).trans ?_
    simp [R1, R2, R3, Matrix.mul_apply, Fin.sum_univ_three]; ring

theorem ev_rot3 {c s : Expr ℝ} {e : Fin 3 → Expr ℝ} {p : Fin 3 → ℝ} {t : ℝ} (hc : c.eval v = some (Real.cos t)) (hs : s.eval v = some (Real.sin t))
    (he : VVal v e p) : VVal v (rot3E c s e) (R3 t *ᵥ p) := fun i => by
  fin_cases i
  · refine (ev_add (eval_mulE hc (he 0)) (eval_mulE hs (he 1))).trans ?_
    simp [R3, mulVec, dotProduct, Fin.sum_univ_three]
  · refine (ev_sub (eval_mulE hc (he 1)) (eval_mulE hs (he 0))).trans ?_
    simp [R3, mulVec, dotProduct, Fin.sum_univ_three]; ring
  · refine (he 2).trans ?_
    simp [R3, mulVec, dotProduct, Fin.sum_univ_three]

theorem ev_rot3T {c s : Expr ℝ} {e : Fin 3 → Expr ℝ} {p : Fin 3 → ℝ} {t : ℝ} (hc : c.eval v = some (Real.cos t)) (hs : s.eval v = some (Real.sin t))
    (he : VVal v e p) : VVal v (rot3TE c s e) ((R3 t)ᵀ *ᵥ p) := fun i => by
  fin_cases i
  · refine (ev_sub (eval_mulE hc (he 0)) (eval_mulE hs (he 1))).trans ?_
    simp [R3, mulVec, dotProduct, Fin.sum_univ_three]; ring
  · refine (ev_add (eval_mulE hs (he 0)) (eval_mulE hc (he 1))).trans ?_
    simp [R3, mulVec, dotProduct, Fin.sum_univ_three]
  · refine (he 2).trans ?_
    simp [R3, mulVec, dotProduct, Fin.sum_univ_three]

theorem ev_pnMat {X Y : Expr ℝ} {x y : ℝ} (hX : X.eval v = some x) (hY : Y.eval v = some y) (i j : Fin 3) :
    (pnMat X Y i j).eval v = some (PN x y i j) := by
  have h1 := ev_sq hX
  have h2 := ev_sq hY
  have h3 := ev_add h1 h2
  have h4 := eval_mulE hX hY
  have h5 : (addE (.dbl (1 / 2)) (mulE (.dbl (1 / 8)) (addE (sq X) (sq Y)))).eval v = some (1 / 2 + 1 / 8 * (x ^ 2 + y ^ 2)) :=
    ev_add (Expr.eval_dbl _ _) (eval_mulE (Expr.eval_dbl _ _) h3)
  fin_cases i <;> fin_cases j
  · refine (ev_sub (Expr.eval_dbl _ _) (eval_mulE h5 h1)).trans ?_
    simp only [PN, Option.some.injEq]; simp [-mul_eq_mul_right_iff]; ring
  · refine (eval_mulE (ev_neg h5) h4).trans ?_
    simp only [PN, Option.some.injEq]; simp [-mul_eq_mul_right_iff]; ring
  · exact hX.trans (by simp [PN])
  · refine (eval_mulE (ev_neg h5) h4).trans ?_
    simp only [PN, Option.some.injEq]; simp [-mul_eq_mul_right_iff]; ring
  · refine (ev_sub (Expr.eval_dbl _ _) (eval_mulE h5 h2)).trans ?_
    simp only [PN, Option.some.injEq]; simp [-mul_eq_mul_right_iff]; ring
  · exact hY.trans (by simp [PN])
  · exact (ev_neg hX).trans (by simp [PN])
  · exact (ev_neg hY).trans (by simp [PN])
  · refine (ev_sub (Expr.eval_dbl _ _) (eval_mulE h5 h3)).trans ?_
    simp only [PN, Option.some.injEq]; simp [-mul_eq_mul_right_iff]; ring

/-! ### Celestial frame -/

/-- The transformation from the terrestrial to the celestial frame: polar motion (with the angle `sp`), rotation of the Earth, precession and
nutation, with the corrected coordinates of the pole `X`, `Y` and the corrected `s`. -/
noncomputable def terrToCel (xp yp sp era X Y s : ℝ) : Matrix (Fin 3) (Fin 3) ℝ := PN X Y * R3 s * R3 (-era) * (R3 (-sp) * R2 xp * R1 yp)

variable {e : Eop ℝ} {xyz : Fin 3 → Expr ℝ} {p : Fin 3 → ℝ} {xp yp era xpn ypn spn dx dy g : ℝ}

theorem ev_pnS (h : EopVal v e xp yp era xpn ypn spn dx dy g) :
    (pnS e.xpn e.ypn e.spn e.dx e.dy).eval v = some (spn - (xpn * dy + ypn * dx + dx * dy) / 2) := by
  refine (ev_sub h.hspn (eval_mulE (Expr.eval_dbl _ _) (ev_sum (evalL_cons_some (eval_mulE h.hxpn h.hdy)
    (evalL_cons_some (eval_mulE h.hypn h.hdx) (evalL_cons_some (eval_mulE h.hdx h.hdy) (l := []) (xs := []) (by simp))))))).trans ?_
  simp; ring

/-- The value of `rot_itrs_icrs()`. -/
theorem itrs_icrs_value (sp : ℝ) (h : EopVal v e xp yp era xpn ypn spn dx dy g) (hp : VVal v xyz p) :
    VVal v (itrsIcrs e (Real.cos sp) (Real.sin sp) xyz)
      (terrToCel xp yp sp era (xpn + dx) (ypn + dy) (spn - (xpn * dy + ypn * dx + dx * dy) / 2) *ᵥ p) := by
  have h1 := ev_rotM (ev_pmMat h.hxp h.hyp (Expr.eval_dbl v (Real.cos sp)) (Expr.eval_dbl v (Real.sin sp))) hp
  have h2 := ev_rot3 (ev_cos (ev_neg h.hera)) (ev_sin (ev_neg h.hera)) h1
  have hs := ev_pnS h
  have h3 := ev_rot3 (ev_cos hs) (ev_sin hs) h2
  have h4 := ev_rotM (ev_pnMat (ev_add h.hxpn h.hdx) (ev_add h.hypn h.hdy)) h3
  rw [terrToCel]
  simp only [← mulVec_mulVec] at h4 ⊢
  exact h4

/-- The value of `rot_icrs_itrs()`: the transposed matrix. -/
theorem icrs_itrs_value (sp : ℝ) (h : EopVal v e xp yp era xpn ypn spn dx dy g) (hp : VVal v xyz p) :
    VVal v (icrsItrs e (Real.cos sp) (Real.sin sp) xyz)
      ((terrToCel xp yp sp era (xpn + dx) (ypn + dy) (spn - (xpn * dy + ypn * dx + dx * dy) / 2))ᵀ *ᵥ p) := by
  have h4 := ev_rotMT (ev_pnMat (ev_add h.hxpn h.hdx) (ev_add h.hypn h.hdy)) hp
  have hs := ev_pnS h
  have h3 := ev_rot3T (ev_cos hs) (ev_sin hs) h4
  have h2 := ev_rot3T (ev_cos (ev_neg h.hera)) (ev_sin (ev_neg h.hera)) h3
  have h1 := ev_rotMT (ev_pmMat h.hxp h.hyp (Expr.eval_dbl v (Real.cos sp)) (Expr.eval_dbl v (Real.sin sp))) h2
  rw [terrToCel]
  simp only [transpose_mul, ← mulVec_mulVec] at h1 ⊢
  exact h1

/-- The deviation of the matrix of precession and nutation from a rotation. -/
noncomputable def pnDev (X Y : ℝ) : Matrix (Fin 3) (Fin 3) ℝ := !![X ^ 2, X * Y, 0; X * Y, Y ^ 2, 0; 0, 0, X ^ 2 + Y ^ 2]

theorem pn_gram (X Y : ℝ) : (PN X Y)ᵀ * PN X Y = 1 + ((X ^ 2 + Y ^ 2) ^ 2 / 8 + (X ^ 2 + Y ^ 2) ^ 3 / 64) • pnDev X Y := by
  ext i j
  fin_cases i <;> fin_cases j <;> simp [PN, pnDev, Matrix.mul_apply, Fin.sum_univ_three] <;> ring

theorem pn_gram' (X Y : ℝ) : PN X Y * (PN X Y)ᵀ = 1 + ((X ^ 2 + Y ^ 2) ^ 2 / 8 + (X ^ 2 + Y ^ 2) ^ 3 / 64) • pnDev X Y := by
  ext i j
  fin_cases i <;> fin_cases j <;> simp [PN, pnDev, Matrix.mul_apply, Fin.sum_univ_three] <;> ring

/-- The matrix is a rotation only if the pole is not displaced. -/
theorem pn_rotation_iff (X Y : ℝ) : (PN X Y)ᵀ * PN X Y = 1 ↔ X = 0 ∧ Y = 0 := by
  constructor
  · intro h
    rw [pn_gram] at h
    have h22 := congrFun (congrFun h 2) 2
    simp [pnDev] at h22
    have : X ^ 2 + Y ^ 2 = 0 := by
      rcases h22 with h1 | h1
      · by_contra hne
        have : 0 < X ^ 2 + Y ^ 2 := lt_of_le_of_ne (by positivity) (Ne.symm hne)
        have : 0 < (X ^ 2 + Y ^ 2) ^ 2 / 8 + (X ^ 2 + Y ^ 2) ^ 3 / 64 := by positivity
        linarith
      · exact h1
    constructor <;> nlinarith [sq_nonneg X, sq_nonneg Y]
  · rintro ⟨rfl, rfl⟩
    rw [pn_gram]; simp

theorem pnDev_len (X Y : ℝ) (u : Fin 3 → ℝ) : len2 (pnDev X Y *ᵥ u) ≤ (X ^ 2 + Y ^ 2) ^ 2 * len2 u := by
  simp only [len2, pnDev, mulVec, dotProduct, Fin.sum_univ_three]
  simp
  nlinarith [mul_nonneg (add_nonneg (sq_nonneg X) (sq_nonneg Y)) (sq_nonneg (X * u 1 - Y * u 0))]

/-- The relative deviation of the celestial transformations from exact rotations, for a pole at `(X, Y)`. -/
noncomputable def celTol (X Y : ℝ) : ℝ := (X ^ 2 + Y ^ 2) ^ 3 / 8 + (X ^ 2 + Y ^ 2) ^ 4 / 64

theorem dev_bound {B : Matrix (Fin 3) (Fin 3) ℝ} (hB : Bᵀ * B = 1) (X Y : ℝ) (u : Fin 3 → ℝ) :
    len2 (B *ᵥ (((X ^ 2 + Y ^ 2) ^ 2 / 8 + (X ^ 2 + Y ^ 2) ^ 3 / 64) • (pnDev X Y *ᵥ u))) ≤ celTol X Y ^ 2 * len2 u := by
  rw [len2_orth hB]
  have h := pnDev_len X Y u
  have e : len2 (((X ^ 2 + Y ^ 2) ^ 2 / 8 + (X ^ 2 + Y ^ 2) ^ 3 / 64) • (pnDev X Y *ᵥ u)) =
      ((X ^ 2 + Y ^ 2) ^ 2 / 8 + (X ^ 2 + Y ^ 2) ^ 3 / 64) ^ 2 * len2 (pnDev X Y *ᵥ u) := by
    simp only [len2, Pi.smul_apply, smul_eq_mul]; ring
  rw [e, celTol]
  calc _ ≤ ((X ^ 2 + Y ^ 2) ^ 2 / 8 + (X ^ 2 + Y ^ 2) ^ 3 / 64) ^ 2 * ((X ^ 2 + Y ^ 2) ^ 2 * len2 u) := by gcongr
    _ = _ := by ring

theorem terr_rot_orth (xp yp sp era s : ℝ) : (R3 s * R3 (-era) * (R3 (-sp) * R2 xp * R1 yp))ᵀ * (R3 s * R3 (-era) * (R3 (-sp) * R2 xp * R1 yp)) = 1 :=
  orth_mul (orth_mul (R3_orth _) (R3_orth _)) (orth_mul (orth_mul (R3_orth _) (R2_orth _)) (R1_orth _))

/-- From the terrestrial to the celestial frame and back: the result differs from the original vector, relative to its length, by at most
`celTol X Y`, where `X`, `Y` are the coordinates of the celestial pole (about `10^-13` for a century from J2000). -/
theorem itrs_icrs_round_trip (sp : ℝ) (h : EopVal v e xp yp era xpn ypn spn dx dy g) (hp : VVal v xyz p) :
    ∃ q, VVal v (icrsItrs e (Real.cos sp) (Real.sin sp) (itrsIcrs e (Real.cos sp) (Real.sin sp) xyz)) q ∧
      len2 (q - p) ≤ celTol (xpn + dx) (ypn + dy) ^ 2 * len2 p := by
  refine ⟨_, icrs_itrs_value sp h (itrs_icrs_value sp h hp), ?_⟩
  have ho := terr_rot_orth xp yp sp era (spn - (xpn * dy + ypn * dx + dx * dy) / 2)
  rw [mulVec_mulVec, terrToCel]
  simp only [Matrix.mul_assoc] at ho ⊢
  generalize R3 (spn - (xpn * dy + ypn * dx + dx * dy) / 2) * (R3 (-era) * (R3 (-sp) * (R2 xp * R1 yp))) = B at *
  have e1 : (PN (xpn + dx) (ypn + dy) * B)ᵀ * (PN (xpn + dx) (ypn + dy) * B) = Bᵀ * ((PN (xpn + dx) (ypn + dy))ᵀ * PN (xpn + dx) (ypn + dy)) * B := by
    rw [transpose_mul]; simp only [Matrix.mul_assoc]
  have e2 : ((PN (xpn + dx) (ypn + dy) * B)ᵀ * (PN (xpn + dx) (ypn + dy) * B)) *ᵥ p - p =
      Bᵀ *ᵥ ((((xpn + dx) ^ 2 + (ypn + dy) ^ 2) ^ 2 / 8 + ((xpn + dx) ^ 2 + (ypn + dy) ^ 2) ^ 3 / 64) • (pnDev (xpn + dx) (ypn + dy) *ᵥ (B *ᵥ p))) := by
    rw [e1, pn_gram, Matrix.mul_add, Matrix.add_mul, Matrix.mul_one, ho, add_mulVec, one_mulVec, add_sub_cancel_left]
    simp only [← mulVec_mulVec, smul_mulVec]
  rw [e2]
  have h2 := dev_bound (B := Bᵀ) (by rw [transpose_transpose]; exact orth_comm ho) (xpn + dx) (ypn + dy) (B *ᵥ p)
  rwa [len2_orth ho] at h2

/-- From the celestial to the terrestrial frame and back. -/
theorem icrs_itrs_round_trip (sp : ℝ) (h : EopVal v e xp yp era xpn ypn spn dx dy g) (hp : VVal v xyz p) :
    ∃ q, VVal v (itrsIcrs e (Real.cos sp) (Real.sin sp) (icrsItrs e (Real.cos sp) (Real.sin sp) xyz)) q ∧
      len2 (q - p) ≤ celTol (xpn + dx) (ypn + dy) ^ 2 * len2 p := by
  refine ⟨_, itrs_icrs_value sp h (icrs_itrs_value sp h hp), ?_⟩
  have ho := terr_rot_orth xp yp sp era (spn - (xpn * dy + ypn * dx + dx * dy) / 2)
  rw [mulVec_mulVec, terrToCel]
  have ea : ∀ A B C D E F : Matrix (Fin 3) (Fin 3) ℝ, A * B * C * (D * E * F) = A * (B * C * (D * E * F)) := fun A B C D E F => by
    simp only [Matrix.mul_assoc]
  rw [ea]
  generalize R3 (spn - (xpn * dy + ypn * dx + dx * dy) / 2) * R3 (-era) * (R3 (-sp) * R2 xp * R1 yp) = B at *
  have e1 : PN (xpn + dx) (ypn + dy) * B * (PN (xpn + dx) (ypn + dy) * B)ᵀ = PN (xpn + dx) (ypn + dy) * (PN (xpn + dx) (ypn + dy))ᵀ := by
    rw [transpose_mul, Matrix.mul_assoc, ← Matrix.mul_assoc B, orth_comm ho, Matrix.one_mul]
  have e2 : (PN (xpn + dx) (ypn + dy) * B * (PN (xpn + dx) (ypn + dy) * B)ᵀ) *ᵥ p - p =
      (1 : Matrix (Fin 3) (Fin 3) ℝ) *ᵥ ((((xpn + dx) ^ 2 + (ypn + dy) ^ 2) ^ 2 / 8 + ((xpn + dx) ^ 2 + (ypn + dy) ^ 2) ^ 3 / 64) •
        (pnDev (xpn + dx) (ypn + dy) *ᵥ p)) := by
    rw [e1, pn_gram', add_mulVec, one_mulVec, add_sub_cancel_left, one_mulVec, smul_mulVec]
  rw [e2]
  exact dev_bound (by simp) _ _ _

/-- The transformation to the celestial frame changes the square of the length by a factor between one and `1 + celTol X Y`. -/
theorem itrs_icrs_length (sp : ℝ) (h : EopVal v e xp yp era xpn ypn spn dx dy g) (hp : VVal v xyz p) :
    ∃ q, VVal v (itrsIcrs e (Real.cos sp) (Real.sin sp) xyz) q ∧ len2 p ≤ len2 q ∧ len2 q ≤ (1 + celTol (xpn + dx) (ypn + dy)) * len2 p := by
  refine ⟨_, itrs_icrs_value sp h hp, ?_⟩
  have ho := terr_rot_orth xp yp sp era (spn - (xpn * dy + ypn * dx + dx * dy) / 2)
  rw [terrToCel]
  simp only [Matrix.mul_assoc] at ho ⊢
  generalize R3 (spn - (xpn * dy + ypn * dx + dx * dy) / 2) * (R3 (-era) * (R3 (-sp) * (R2 xp * R1 yp))) = B at *
  rw [← mulVec_mulVec, ← len2_orth ho p]
  generalize B *ᵥ p = u
  generalize xpn + dx = X
  generalize ypn + dy = Y
  have e1 : len2 (PN X Y *ᵥ u) = len2 u + ((X ^ 2 + Y ^ 2) ^ 2 / 8 + (X ^ 2 + Y ^ 2) ^ 3 / 64) * ((X * u 0 + Y * u 1) ^ 2 + (X ^ 2 + Y ^ 2) * u 2 ^ 2) := by
    rw [len2_eq, dotProduct_mulVec, ← mulVec_transpose, mulVec_mulVec, pn_gram, add_mulVec, one_mulVec, add_dotProduct, ← len2_eq, smul_mulVec,
      smul_dotProduct]
    simp [pnDev, mulVec, dotProduct, Fin.sum_univ_three]; left; ring
  have h2 : (X * u 0 + Y * u 1) ^ 2 + (X ^ 2 + Y ^ 2) * u 2 ^ 2 ≤ (X ^ 2 + Y ^ 2) * len2 u := by
    rw [len2]; nlinarith [sq_nonneg (X * u 1 - Y * u 0)]
  have h3 : 0 ≤ (X ^ 2 + Y ^ 2) ^ 2 / 8 + (X ^ 2 + Y ^ 2) ^ 3 / 64 := by positivity
  rw [e1]
  constructor
  · have : 0 ≤ (X * u 0 + Y * u 1) ^ 2 + (X ^ 2 + Y ^ 2) * u 2 ^ 2 := by positivity
    nlinarith
  · rw [celTol]
    nlinarith [mul_le_mul_of_nonneg_left h2 h3]

/-- The two transformations are not inverse to each other: with the pole displaced by one degree (about 0.017), a vector does not come back. -/
theorem icrs_itrs_not_inverse : ∃ (e : Eop ℝ) (xyz : Fin 3 → Expr ℝ) (p : Fin 3 → ℝ), ∀ v : Env ℝ, VVal v xyz p ∧
    ¬ VVal v (icrsItrs e (Real.cos 0) (Real.sin 0) (itrsIcrs e (Real.cos 0) (Real.sin 0) xyz)) p := by
  refine ⟨⟨.dbl 0, .dbl 0, .dbl 0, .dbl (17 / 1000), .dbl 0, .dbl 0, .dbl 0, .dbl 0, .dbl 0⟩, fun i => .dbl (![0, 0, 1] i), ![0, 0, 1],
    fun v => ⟨fun i => by simp, fun hc => ?_⟩⟩
  have h : EopVal v ⟨.dbl 0, .dbl 0, .dbl 0, .dbl (17 / 1000), .dbl 0, .dbl 0, .dbl 0, .dbl 0, .dbl 0⟩ 0 0 0 (17 / 1000) 0 0 0 0 0 :=
    ⟨by simp, by simp, by simp, by simp, by simp, by simp, by simp, by simp, by simp⟩
  have h2 := icrs_itrs_value 0 h (itrs_icrs_value 0 h (xyz := fun i => .dbl (![0, 0, 1] i)) (p := ![0, 0, 1]) (fun i => by simp)) 2
  rw [hc 2] at h2
  have h3 := Option.some.inj h2
  simp [terrToCel, R1, R2, R3, PN, mulVec, dotProduct, Matrix.mul_apply, Fin.sum_univ_three, vecMul] at h3
  norm_num at h3

/-! ### True equator, mean equinox -/

/-- `rot_itrs_teme()` is the rotation with the polar motion and the mean sidereal time. -/
theorem itrs_teme_value (h : EopVal v e xp yp era xpn ypn spn dx dy g) (hp : VVal v xyz p) :
    VVal v (itrsTeme e xyz) ((R3 (-g) * R2 xp * R1 yp) *ᵥ p) := ev_rotM (ev_pmMat h.hxp h.hyp (ev_cos h.hg) (ev_sin h.hg)) hp

theorem teme_itrs_value (h : EopVal v e xp yp era xpn ypn spn dx dy g) (hp : VVal v xyz p) :
    VVal v (temeItrs e xyz) ((R3 (-g) * R2 xp * R1 yp)ᵀ *ᵥ p) := ev_rotMT (ev_pmMat h.hxp h.hyp (ev_cos h.hg) (ev_sin h.hg)) hp

/-- `rot_itrs_teme()` and `rot_teme_itrs()` preserve lengths and are inverse to each other. -/
theorem teme_inverse (h : EopVal v e xp yp era xpn ypn spn dx dy g) (hp : VVal v xyz p) :
    VVal v (temeItrs e (itrsTeme e xyz)) p ∧ VVal v (itrsTeme e (temeItrs e xyz)) p ∧
      (∃ q, VVal v (itrsTeme e xyz) q ∧ len2 q = len2 p) ∧ ∃ q, VVal v (temeItrs e xyz) q ∧ len2 q = len2 p := by
  have ho : (R3 (-g) * R2 xp * R1 yp)ᵀ * (R3 (-g) * R2 xp * R1 yp) = 1 := orth_mul (orth_mul (R3_orth _) (R2_orth _)) (R1_orth _)
  refine ⟨?_, ?_, ⟨_, itrs_teme_value h hp, len2_orth ho p⟩, _, teme_itrs_value h hp, len2_orth ?_ p⟩
  · have := teme_itrs_value h (itrs_teme_value h hp)
    rwa [mulVec_mulVec, ho, one_mulVec] at this
  · have := itrs_teme_value h (teme_itrs_value h hp)
    rwa [mulVec_mulVec, orth_comm ho, one_mulVec] at this
  · rw [transpose_transpose]; exact orth_comm ho

/-! ### FK5 -/

/-- `rot_fk5j2000_icrs()` and `rot_icrs_fk5j2000()` are inverse to each other up to the rounding of the constants of the matrix: every coordinate
comes back up to `2 * 10^-16` times the sum of the sizes of the coordinates. -/
theorem fk5_round_trip (hp : VVal v xyz p) :
    (∃ q, VVal v (icrsFk5 (fk5Icrs xyz)) q ∧ ∀ i, |q i - p i| ≤ 2e-16 * (|p 0| + |p 1| + |p 2|)) ∧
      ∃ q, VVal v (fk5Icrs (icrsFk5 xyz)) q ∧ ∀ i, |q i - p i| ≤ 2e-16 * (|p 0| + |p 1| + |p 2|) := by
  have key : ∀ (c0 c1 c2 : ℝ), |c0| ≤ 2e-16 → |c1| ≤ 2e-16 → |c2| ≤ 2e-16 → |c0 * p 0 + c1 * p 1 + c2 * p 2| ≤ 2e-16 * (|p 0| + |p 1| + |p 2|) := by
    intro c0 c1 c2 h0 h1 h2
    have e0 : |c0 * p 0| ≤ 2e-16 * |p 0| := by rw [abs_mul]; exact mul_le_mul_of_nonneg_right h0 (abs_nonneg _)
    have e1 : |c1 * p 1| ≤ 2e-16 * |p 1| := by rw [abs_mul]; exact mul_le_mul_of_nonneg_right h1 (abs_nonneg _)
    have e2 : |c2 * p 2| ≤ 2e-16 * |p 2| := by rw [abs_mul]; exact mul_le_mul_of_nonneg_right h2 (abs_nonneg _)
    have := abs_add_three (c0 * p 0) (c1 * p 1) (c2 * p 2)
    linarith
  have hA : ∀ {x : Fin 3 → Expr ℝ} {p}, VVal v x p → VVal v (fk5Icrs x) ((Matrix.of fun i j => (fk5Mat i j : ℝ)) *ᵥ p) := fun hx =>
    ev_rotM (fun i j => by simp) hx
  have hB : ∀ {x : Fin 3 → Expr ℝ} {p}, VVal v x p → VVal v (icrsFk5 x) ((Matrix.of fun i j => (fk5Mat j i : ℝ)) *ᵥ p) := fun hx =>
    ev_rotM (fun i j => by simp) hx
  refine ⟨⟨_, hB (hA hp), fun i => ?_⟩, ⟨_, hA (hB hp), fun i => ?_⟩⟩
  · have e : ((Matrix.of fun i j => (fk5Mat j i : ℝ)) *ᵥ (Matrix.of fun i j => (fk5Mat i j : ℝ)) *ᵥ p) i - p i =
        (fk5Mat 0 i * fk5Mat 0 0 + fk5Mat 1 i * fk5Mat 1 0 + fk5Mat 2 i * fk5Mat 2 0 - (![1, 0, 0] i : ℝ)) * p 0 +
        (fk5Mat 0 i * fk5Mat 0 1 + fk5Mat 1 i * fk5Mat 1 1 + fk5Mat 2 i * fk5Mat 2 1 - (![0, 1, 0] i : ℝ)) * p 1 +
        (fk5Mat 0 i * fk5Mat 0 2 + fk5Mat 1 i * fk5Mat 1 2 + fk5Mat 2 i * fk5Mat 2 2 - (![0, 0, 1] i : ℝ)) * p 2 := by
      simp only [mulVec, dotProduct, Fin.sum_univ_three, Matrix.of_apply]
      fin_cases i <;> simp <;> ring
    rw [e]
    apply key <;> fin_cases i <;> norm_num [fk5Mat, abs_le]
  · have e : ((Matrix.of fun i j => (fk5Mat i j : ℝ)) *ᵥ (Matrix.of fun i j => (fk5Mat j i : ℝ)) *ᵥ p) i - p i =
        (fk5Mat i 0 * fk5Mat 0 0 + fk5Mat i 1 * fk5Mat 0 1 + fk5Mat i 2 * fk5Mat 0 2 - (![1, 0, 0] i : ℝ)) * p 0 +
        (fk5Mat i 0 * fk5Mat 1 0 + fk5Mat i 1 * fk5Mat 1 1 + fk5Mat i 2 * fk5Mat 1 2 - (![0, 1, 0] i : ℝ)) * p 1 +
        (fk5Mat i 0 * fk5Mat 2 0 + fk5Mat i 1 * fk5Mat 2 1 + fk5Mat i 2 * fk5Mat 2 2 - (![0, 0, 1] i : ℝ)) * p 2 := by
      simp only [mulVec, dotProduct, Fin.sum_univ_three, Matrix.of_apply]
      fin_cases i <;> simp <;> ring
    rw [e]
    apply key <;> fin_cases i <;> norm_num [fk5Mat, abs_le]

/-- A milliarcsecond in radians. -/
noncomputable def mas : ℝ := Real.pi / 648000000

/-- To first order `rot_fk5j2000_icrs()` is the rotation with the orientation of the FK5 frame with respect to the Hipparcos frame, `-19.9`, `-9.1`
and `22.9` milliarcseconds. -/
theorem fk5_orientation (hp : VVal v xyz p) :
    ∃ q, VVal v (fk5Icrs xyz) q ∧ |q 0 - (p 0 + 22.9 * mas * p 1 + 9.1 * mas * p 2)| ≤ 2e-14 * (|p 0| + |p 1| + |p 2|) ∧
      |q 1 - (p 1 - 22.9 * mas * p 0 - 19.9 * mas * p 2)| ≤ 2e-14 * (|p 0| + |p 1| + |p 2|) ∧
      |q 2 - (p 2 - 9.1 * mas * p 0 + 19.9 * mas * p 1)| ≤ 2e-14 * (|p 0| + |p 1| + |p 2|) := by
  have key : ∀ (c0 c1 c2 : ℝ), |c0| ≤ 2e-14 → |c1| ≤ 2e-14 → |c2| ≤ 2e-14 → |c0 * p 0 + c1 * p 1 + c2 * p 2| ≤ 2e-14 * (|p 0| + |p 1| + |p 2|) := by
    intro c0 c1 c2 h0 h1 h2
    have e0 : |c0 * p 0| ≤ 2e-14 * |p 0| := by rw [abs_mul]; exact mul_le_mul_of_nonneg_right h0 (abs_nonneg _)
    have e1 : |c1 * p 1| ≤ 2e-14 * |p 1| := by rw [abs_mul]; exact mul_le_mul_of_nonneg_right h1 (abs_nonneg _)
    have e2 : |c2 * p 2| ≤ 2e-14 * |p 2| := by rw [abs_mul]; exact mul_le_mul_of_nonneg_right h2 (abs_nonneg _)
    have := abs_add_three (c0 * p 0) (c1 * p 1) (c2 * p 2)
    linarith
  have l := Real.pi_gt_d20
  have u := Real.pi_lt_d20
  refine ⟨_, ev_rotM (A := Matrix.of fun i j => (fk5Mat i j : ℝ)) (fun i j => by simp) hp, ?_, ?_, ?_⟩
  · have := key (fk5Mat 0 0 - 1) (fk5Mat 0 1 - 22.9 * mas) (fk5Mat 0 2 - 9.1 * mas) (by norm_num [fk5Mat, abs_le])
      (by rw [abs_le, fk5Mat, mas]; constructor <;> linarith) (by rw [abs_le, fk5Mat, mas]; constructor <;> linarith)
    convert this using 2
    simp only [mulVec, dotProduct, Fin.sum_univ_three, Matrix.of_apply]; ring
  · have := key (fk5Mat 1 0 + 22.9 * mas) (fk5Mat 1 1 - 1) (fk5Mat 1 2 + 19.9 * mas)
      (by rw [abs_le, fk5Mat, mas]; constructor <;> linarith) (by norm_num [fk5Mat, abs_le]) (by rw [abs_le, fk5Mat, mas]; constructor <;> linarith)
    convert this using 2
    simp only [mulVec, dotProduct, Fin.sum_univ_three, Matrix.of_apply]; ring
  · have := key (fk5Mat 2 0 + 9.1 * mas) (fk5Mat 2 1 - 19.9 * mas) (fk5Mat 2 2 - 1)
      (by rw [abs_le, fk5Mat, mas]; constructor <;> linarith) (by rw [abs_le, fk5Mat, mas]; constructor <;> linarith) (by norm_num [fk5Mat, abs_le])
    convert this using 2
    simp only [mulVec, dotProduct, Fin.sum_univ_three, Matrix.of_apply]; ring

/-- The corrections of the pole keep `s + X Y / 2`: that is how the corrected `s` is obtained from the one of the theory. -/
theorem corrected_locator (h : EopVal v e xp yp era xpn ypn spn dx dy g) :
    ∃ s, (pnS e.xpn e.ypn e.spn e.dx e.dy).eval v = some s ∧ s + (xpn + dx) * (ypn + dy) / 2 = spn + xpn * ypn / 2 :=
  ⟨_, ev_pnS h, by ring⟩

/-! ### The hypotheses can be met -/

example : EopVal ⟨fun _ => 1, fun _ => 0, 0⟩ ⟨.dbl 1e-6, .dbl 2e-6, .var "t", .dbl 1e-3, .dbl 2e-5, .dbl 1e-8, .dbl 1e-9, .dbl 2e-9, .var "t"⟩
    1e-6 2e-6 1 1e-3 2e-5 1e-8 1e-9 2e-9 1 :=
  ⟨by simp, by simp, by simp, by simp, by simp, by simp, by simp, by simp, by simp⟩

example : VVal ⟨fun _ => 7, fun _ => 0, 0⟩ (fun _ => .var "x") (fun _ => 7) := fun _ => by simp

/-- A century from J2000 (pole displaced by 0.01): the relative deviation is below `2 * 10^-13`. -/
example : celTol 0.01 0 ≤ 2e-13 := by norm_num [celTol]

end

end Heyoka.Models
