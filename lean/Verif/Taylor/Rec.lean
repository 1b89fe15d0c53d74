import Verif.Taylor.Model
import Verif.Taylor.Series
import Verif.Props.Pairwise
import Mathlib.Algebra.BigOperators.Intervals

/-!
# The recurrences compute the normalised derivatives: algebra

For every recurrence of the model: if the derivatives read are those of given functions, and these
functions satisfy the corresponding identity, then the computed value is the normalised derivative.
-/

open Filter Topology Finset

namespace Heyoka.Taylor

open Heyoka.Sym

noncomputable instance : TConst ℝ := ⟨Real.sqrt Real.pi / 2⟩

variable {F : ℕ → ℝ → ℝ} {t0 : ℝ} {rd : ℕ → ℕ → Res (V ℝ)}

/-- The reading of the order `o` of the `u` variable `u` gives the normalised derivative. -/
def Rd (F : ℕ → ℝ → ℝ) (t0 : ℝ) (rd : ℕ → ℕ → Res (V ℝ)) (u o : ℕ) : Prop :=
  rd u o = .ok (V.fin (tc (F u) t0 o))

theorem psum_ok {l : List (V ℝ)} (h : l ≠ []) : psum l = .ok l.sum := by
  cases l with
  | nil => exact absurd rfl h
  | cons a l => rw [psum, Util.pairwiseSum_eq_sum]

theorem collect_ok {body : ℕ → Res (V ℝ)} {G : ℕ → ℝ} {l : List ℕ}
    (h : ∀ j ∈ l, body j = .ok (V.fin (G j))) : collect body l = .ok ((l.map G).map V.fin) := by
  induction l with
  | nil => rfl
  | cons j l ih =>
    rw [collect, h j (by simp), ih fun i hi => h i (by simp [hi])]; rfl

theorem sumR_ok {body : ℕ → Res (V ℝ)} {G : ℕ → ℝ} {a b : ℕ} (hab : a < b)
    (h : ∀ j, a ≤ j → j < b → body j = .ok (V.fin (G j))) :
    sumR a b body = .ok (V.fin (∑ j ∈ Ico a b, G j)) := by
  have h1 : collect body (List.range' a (b - a)) = _ := collect_ok (G := G) fun j hj => by
    rw [List.mem_range'_1] at hj
    exact h j hj.1 (by omega)
  rw [sumR, h1]
  have hne : ((List.range' a (b - a)).map G).map V.fin ≠ [] := by
    have : b - a ≠ 0 := by omega
    simpa using this
  rw [Res.bind_eq, Res.bind_ok, psum_ok hne, V.sum_fin]
  rfl

theorem jsum_ok {n hi c b : ℕ} (h1 : 1 < hi) (hhi : hi ≤ n + 1) (hc : ∀ o < n, Rd F t0 rd c o)
    (hb : ∀ o < hi, Rd F t0 rd b o) :
    jsum rd c b n hi = .ok (V.fin (cv (F c) (F b) t0 n hi)) := by
  refine sumR_ok h1 fun j h2 h3 => ?_
  have e1 : rd c (n - j) = _ := hc (n - j) (by omega)
  have e2 : rd b j = _ := hb j h3
  rw [e1, e2]; rfl

theorem addSum_ok {body : ℕ → Res (V ℝ)} {G : ℕ → ℝ} {n : ℕ} {x : V ℝ} {X : ℝ} (hx : x = V.fin X)
    (h : ∀ j, 1 ≤ j → j < n → body j = .ok (V.fin (G j))) :
    addSum n x (sumR 1 n body) = .ok (V.fin (X + ∑ j ∈ Ico 1 n, G j)) := by
  subst hx
  unfold addSum
  split
  · next hn => rw [sumR_ok hn h]; rfl
  · next hn => rw [Ico_eq_empty (by omega), sum_empty, add_zero]; rfl

theorem nat_ne {n : ℕ} (hn : 1 ≤ n) : (n : ℝ) ≠ 0 := by
  have : 0 < n := hn
  positivity

section
variable {n a b c d : ℕ}

theorem expDiff_ok (h0 : app .exp [V.fin (F b t0)] = V.fin (F a t0))
    (hr : 1 ≤ n → n * tc (F a) t0 n = cv (F a) (F b) t0 n (n + 1))
    (ha : ∀ o < n, Rd F t0 rd a o) (hb : ∀ o < n + 1, Rd F t0 rd b o) :
    expDiff rd n a b = .ok (V.fin (tc (F a) t0 n)) := by
  unfold expDiff
  split
  · next h => subst h; rw [hb 0 (by omega)]; simp [tc_zero, h0]
  · next h =>
    have hn : 1 ≤ n := by omega
    rw [jsum_ok (by omega) le_rfl ha hb]
    simp only [Res.bind_eq, Res.bind_ok, Res.pure_eq, V.nat_def]
    rw [V.fin_div_of_ne (nat_ne hn), ← hr hn, mul_div_cancel_left₀ _ (nat_ne hn)]

theorem logDiff_ok (h0 : app .log [V.fin (F b t0)] = V.fin (F a t0)) (hz : F b t0 ≠ 0)
    (hr : 1 ≤ n → n * tc (F b) t0 n = cv (F b) (F a) t0 n (n + 1))
    (ha : ∀ o < n, Rd F t0 rd a o) (hb : ∀ o < n + 1, Rd F t0 rd b o) :
    logDiff rd n a b = .ok (V.fin (tc (F a) t0 n)) := by
  unfold logDiff
  split
  · next h => subst h; rw [hb 0 (by omega)]; simp [tc_zero, h0]
  · next h =>
    have hn : 1 ≤ n := by omega
    have hnz := nat_ne hn
    have e := hr hn
    rw [cv_last _ _ _ hn] at e
    rw [hb 0 (by omega), hb n (by omega)]
    simp only [Res.bind_eq, Res.bind_ok, Res.pure_eq, V.nat_def, V.fin_mul, tc_zero]
    split
    · next h1 =>
      rw [jsum_ok h1 (by omega) (fun o ho => hb o (by omega)) ha]
      simp only [Res.bind_ok, V.fin_sub]
      rw [V.fin_div_of_ne (mul_ne_zero hnz hz)]
      congr 2; field_simp; linarith
    · next h1 =>
      have : n = 1 := by omega
      subst this
      rw [V.fin_div_of_ne (mul_ne_zero hnz hz)]
      have : cv (F b) (F a) t0 1 1 = 0 := by simp [cv]
      rw [this] at e
      push_cast at e
      congr 2; field_simp; linarith

theorem sinDiff_ok {f : Fn ℝ} (h0 : app f [V.fin (F b t0)] = V.fin (F a t0))
    (hr : 1 ≤ n → n * tc (F a) t0 n = cv (F c) (F b) t0 n (n + 1))
    (hc : ∀ o < n, Rd F t0 rd c o) (hb : ∀ o < n + 1, Rd F t0 rd b o) :
    sinDiff f rd n c b = .ok (V.fin (tc (F a) t0 n)) := by
  unfold sinDiff
  split
  · next h => subst h; rw [hb 0 (by omega)]; simp [tc_zero, h0]
  · next h =>
    have hn : 1 ≤ n := by omega
    rw [jsum_ok (by omega) le_rfl hc hb]
    simp only [Res.bind_eq, Res.bind_ok, Res.pure_eq, V.nat_def]
    rw [V.fin_div_of_ne (nat_ne hn), ← hr hn, mul_div_cancel_left₀ _ (nat_ne hn)]

theorem cosDiff_ok {f : Fn ℝ} (h0 : app f [V.fin (F b t0)] = V.fin (F a t0))
    (hr : 1 ≤ n → n * tc (F a) t0 n = -cv (F c) (F b) t0 n (n + 1))
    (hc : ∀ o < n, Rd F t0 rd c o) (hb : ∀ o < n + 1, Rd F t0 rd b o) :
    cosDiff f rd n c b = .ok (V.fin (tc (F a) t0 n)) := by
  unfold cosDiff
  split
  · next h => subst h; rw [hb 0 (by omega)]; simp [tc_zero, h0]
  · next h =>
    have hn : 1 ≤ n := by omega
    have hnz := nat_ne hn
    rw [jsum_ok (by omega) le_rfl hc hb]
    simp only [Res.bind_eq, Res.bind_ok, Res.pure_eq, V.nat_def, V.fin_neg]
    rw [V.fin_div_of_ne (neg_ne_zero.mpr hnz)]
    have e := hr hn
    congr 2; field_simp; linarith

theorem tanDiff_ok (h0 : app .tan [V.fin (F b t0)] = V.fin (F a t0))
    (hr : 1 ≤ n → n * tc (F a) t0 n = n * tc (F b) t0 n + cv (F c) (F b) t0 n (n + 1))
    (hc : ∀ o < n, Rd F t0 rd c o) (hb : ∀ o < n + 1, Rd F t0 rd b o) :
    tanDiff rd n c b = .ok (V.fin (tc (F a) t0 n)) := by
  unfold tanDiff
  split
  · next h => subst h; rw [hb 0 (by omega)]; simp [tc_zero, h0]
  · next h =>
    have hn : 1 ≤ n := by omega
    have hnz := nat_ne hn
    rw [hb n (by omega), jsum_ok (by omega) le_rfl hc hb]
    simp only [Res.bind_eq, Res.bind_ok, Res.pure_eq, V.nat_def]
    rw [V.fin_div_of_ne hnz, V.fin_add]
    have e := hr hn
    congr 2; field_simp; linarith

theorem tanhDiff_ok (h0 : app .tanh [V.fin (F b t0)] = V.fin (F a t0))
    (hr : 1 ≤ n → n * tc (F a) t0 n = n * tc (F b) t0 n - cv (F c) (F b) t0 n (n + 1))
    (hc : ∀ o < n, Rd F t0 rd c o) (hb : ∀ o < n + 1, Rd F t0 rd b o) :
    tanhDiff rd n c b = .ok (V.fin (tc (F a) t0 n)) := by
  unfold tanhDiff
  split
  · next h => subst h; rw [hb 0 (by omega)]; simp [tc_zero, h0]
  · next h =>
    have hn : 1 ≤ n := by omega
    have hnz := nat_ne hn
    rw [hb n (by omega), jsum_ok (by omega) le_rfl hc hb]
    simp only [Res.bind_eq, Res.bind_ok, Res.pure_eq, V.nat_def]
    rw [V.fin_div_of_ne hnz, V.fin_sub]
    have e := hr hn
    congr 2; field_simp; linarith

theorem cv_one_one (f g : ℝ → ℝ) (t0 : ℝ) : cv f g t0 1 1 = 0 := by simp [cv]

theorem asinDiff_ok {f : Fn ℝ} (h0 : app f [V.fin (F b t0)] = V.fin (F a t0)) (hz : F c t0 ≠ 0)
    (hr : 1 ≤ n → n * tc (F b) t0 n = cv (F c) (F a) t0 n (n + 1))
    (ha : ∀ o < n, Rd F t0 rd a o)
    (hc : ∀ o < n, Rd F t0 rd c o) (hb : ∀ o < n + 1, Rd F t0 rd b o) :
    asinDiff f rd n a c b = .ok (V.fin (tc (F a) t0 n)) := by
  unfold asinDiff
  split
  · next h => subst h; rw [hb 0 (by omega)]; simp [tc_zero, h0]
  · next h =>
    have hn : 1 ≤ n := by omega
    have hnz := nat_ne hn
    have e := hr hn
    rw [cv_last _ _ _ hn] at e
    rw [hc 0 (by omega), hb n (by omega)]
    simp only [Res.bind_eq, Res.bind_ok, Res.pure_eq, V.nat_def, V.fin_mul, tc_zero]
    split
    · next h1 =>
      subst h1
      rw [V.fin_div_of_ne hz]
      rw [cv_one_one] at e
      push_cast at e
      congr 2; field_simp; linarith
    · next h1 =>
      rw [jsum_ok (by omega) (by omega) hc ha]
      simp only [Res.bind_ok, V.fin_sub]
      rw [V.fin_div_of_ne (mul_ne_zero hnz hz)]
      congr 2; field_simp; linarith

theorem acosDiff_ok (h0 : app .acos [V.fin (F b t0)] = V.fin (F a t0)) (hz : F c t0 ≠ 0)
    (hr : 1 ≤ n → n * tc (F b) t0 n = -cv (F c) (F a) t0 n (n + 1))
    (ha : ∀ o < n, Rd F t0 rd a o)
    (hc : ∀ o < n, Rd F t0 rd c o) (hb : ∀ o < n + 1, Rd F t0 rd b o) :
    acosDiff rd n a c b = .ok (V.fin (tc (F a) t0 n)) := by
  unfold acosDiff
  split
  · next h => subst h; rw [hb 0 (by omega)]; simp [tc_zero, h0]
  · next h =>
    have hn : 1 ≤ n := by omega
    have hnz := nat_ne hn
    have e := hr hn
    rw [cv_last _ _ _ hn] at e
    rw [hc 0 (by omega), hb n (by omega)]
    simp only [Res.bind_eq, Res.bind_ok, Res.pure_eq, V.nat_def, V.fin_mul, tc_zero]
    split
    · next h1 =>
      subst h1
      rw [V.fin_div_of_ne hz, V.fin_neg]
      rw [cv_one_one] at e
      push_cast at e
      congr 2; field_simp; linarith
    · next h1 =>
      rw [jsum_ok (by omega) (by omega) hc ha]
      simp only [Res.bind_ok, V.fin_add, V.fin_neg]
      rw [V.fin_div_of_ne (neg_ne_zero.mpr (mul_ne_zero hnz hz))]
      congr 2; field_simp; linarith

theorem atanDiff_ok (h0 : app .atan [V.fin (F b t0)] = V.fin (F a t0)) (hz : F c t0 + 1 ≠ 0)
    (hr : 1 ≤ n → n * tc (F b) t0 n = n * tc (F a) t0 n + cv (F c) (F a) t0 n (n + 1))
    (ha : ∀ o < n, Rd F t0 rd a o)
    (hc : ∀ o < n, Rd F t0 rd c o) (hb : ∀ o < n + 1, Rd F t0 rd b o) :
    atanDiff rd n a c b = .ok (V.fin (tc (F a) t0 n)) := by
  unfold atanDiff
  split
  · next h => subst h; rw [hb 0 (by omega)]; simp [tc_zero, h0]
  · next h =>
    have hn : 1 ≤ n := by omega
    have hnz := nat_ne hn
    have e := hr hn
    rw [cv_last _ _ _ hn] at e
    rw [hc 0 (by omega), hb n (by omega)]
    simp only [Res.bind_eq, Res.bind_ok, Res.pure_eq, V.nat_def, V.one_def, V.fin_mul, V.fin_add,
      tc_zero]
    split
    · next h1 =>
      subst h1
      rw [V.fin_div_of_ne hz]
      rw [cv_one_one] at e
      push_cast at e
      congr 2; field_simp; linarith
    · next h1 =>
      rw [jsum_ok (by omega) (by omega) hc ha]
      simp only [Res.bind_ok, V.fin_sub]
      rw [V.fin_div_of_ne (mul_ne_zero hnz hz)]
      congr 2; field_simp; linarith

theorem atanhDiff_ok (h0 : app .atanh [V.fin (F b t0)] = V.fin (F a t0)) (hz : 1 - F c t0 ≠ 0)
    (hr : 1 ≤ n → n * tc (F b) t0 n = n * tc (F a) t0 n - cv (F c) (F a) t0 n (n + 1))
    (ha : ∀ o < n, Rd F t0 rd a o)
    (hc : ∀ o < n, Rd F t0 rd c o) (hb : ∀ o < n + 1, Rd F t0 rd b o) :
    atanhDiff rd n a c b = .ok (V.fin (tc (F a) t0 n)) := by
  unfold atanhDiff
  split
  · next h => subst h; rw [hb 0 (by omega)]; simp [tc_zero, h0]
  · next h =>
    have hn : 1 ≤ n := by omega
    have hnz := nat_ne hn
    have e := hr hn
    rw [cv_last _ _ _ hn] at e
    rw [hc 0 (by omega), hb n (by omega)]
    simp only [Res.bind_eq, Res.bind_ok, Res.pure_eq, V.nat_def, V.one_def, V.fin_mul, V.fin_sub,
      tc_zero]
    split
    · next h1 =>
      subst h1
      rw [V.fin_div_of_ne hz]
      rw [cv_one_one] at e
      push_cast at e
      congr 2; field_simp; linarith
    · next h1 =>
      rw [jsum_ok (by omega) (by omega) hc ha]
      simp only [Res.bind_ok, V.fin_add]
      rw [V.fin_div_of_ne (mul_ne_zero hnz hz)]
      congr 2; field_simp; linarith

theorem sqrtPi2_ne : (TConst.sqrtPi2 : ℝ) ≠ 0 := by
  show Real.sqrt Real.pi / 2 ≠ 0
  have := Real.pi_pos
  positivity

theorem erfDiff_ok (h0 : app .erf [V.fin (F b t0)] = V.fin (F a t0))
    (hr : 1 ≤ n → n * tc (F a) t0 n = (Real.sqrt Real.pi / 2)⁻¹ * cv (F c) (F b) t0 n (n + 1))
    (hc : ∀ o < n, Rd F t0 rd c o) (hb : ∀ o < n + 1, Rd F t0 rd b o) :
    erfDiff rd n c b = .ok (V.fin (tc (F a) t0 n)) := by
  unfold erfDiff
  split
  · next h => subst h; rw [hb 0 (by omega)]; simp [tc_zero, h0]
  · next h =>
    have hn : 1 ≤ n := by omega
    have hnz := nat_ne hn
    rw [jsum_ok (by omega) le_rfl hc hb]
    simp only [Res.bind_eq, Res.bind_ok, Res.pure_eq, V.nat_def, V.fin_mul]
    rw [V.fin_div_of_ne (mul_ne_zero hnz sqrtPi2_ne)]
    have e := hr hn
    have e2 : (TConst.sqrtPi2 : ℝ) = Real.sqrt Real.pi / 2 := rfl
    have e3 := sqrtPi2_ne
    rw [e2] at e3
    rw [e2]
    congr 2
    rw [div_eq_iff (mul_ne_zero hnz e3), mul_comm (n : ℝ), ← mul_assoc, mul_comm _ (n : ℝ), ← mul_assoc,
      e, mul_comm _⁻¹, mul_assoc, inv_mul_cancel₀ e3, mul_one]

theorem sigmoidDiff_ok (h0 : app .sigmoid [V.fin (F b t0)] = V.fin (F a t0))
    (hr : 1 ≤ n → n * tc (F a) t0 n = cv (F a) (F b) t0 n (n + 1) - cv (F c) (F b) t0 n (n + 1))
    (ha : ∀ o < n, Rd F t0 rd a o)
    (hc : ∀ o < n, Rd F t0 rd c o) (hb : ∀ o < n + 1, Rd F t0 rd b o) :
    sigmoidDiff rd n a c b = .ok (V.fin (tc (F a) t0 n)) := by
  unfold sigmoidDiff
  split
  · next h => subst h; rw [hb 0 (by omega)]; simp [tc_zero, h0]
  · next h =>
    have hn : 1 ≤ n := by omega
    have hnz := nat_ne hn
    rw [sumR_ok (G := fun j => (tc (F a) t0 (n - j) - tc (F c) t0 (n - j)) * tc (F b) t0 j * j)
      (by omega) (fun j h1 h2 => by
        rw [ha (n - j) (by omega), hb j h2, hc (n - j) (by omega)]; rfl)]
    simp only [Res.bind_eq, Res.bind_ok, Res.pure_eq, V.nat_def]
    rw [V.fin_div_of_ne hnz]
    congr 2
    rw [div_eq_iff hnz, mul_comm, hr hn, cv, cv, ← sum_sub_distrib]
    exact sum_congr rfl fun j _ => by ring

end

end Heyoka.Taylor
