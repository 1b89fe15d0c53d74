import Verif.Taylor.Rec2

/-!
# The recurrences compute the normalised derivatives: arithmetic
-/

set_option linter.unusedSimpArgs false

open Filter Topology Finset

namespace Heyoka.Taylor

open Heyoka.Sym

variable {F : ℕ → ℝ → ℝ} {t0 : ℝ} {rd : ℕ → ℕ → Res (V ℝ)}

/-! ### Sums and products -/

theorem smoothAt_listSum {A : TArg ℝ → ℝ → ℝ} {as : List (TArg ℝ)} (h : ∀ a ∈ as, SmoothAt (A a) t0) :
    SmoothAt (fun t => (as.map fun a => A a t).sum) t0 := by
  induction as with
  | nil => exact smoothAt_const 0
  | cons a as ih =>
    simp only [List.map_cons, List.sum_cons]
    exact (h a (by simp)).add (ih fun b hb => h b (by simp [hb]))

theorem tc_listSum {A : TArg ℝ → ℝ → ℝ} {as : List (TArg ℝ)} (h : ∀ a ∈ as, SmoothAt (A a) t0) (n : ℕ) :
    tc (fun t => (as.map fun a => A a t).sum) t0 n = (as.map fun a => tc (A a) t0 n).sum := by
  induction as with
  | nil => simp [tc_const]
  | cons a as ih =>
    simp only [List.map_cons, List.sum_cons]
    rw [tc_add (h a (by simp)) (smoothAt_listSum fun b hb => h b (by simp [hb])),
      ih fun b hb => h b (by simp [hb])]

theorem sumDiff_ok {n : ℕ} {as : List (TArg ℝ)} (hne : as ≠ []) (hf : ∀ a ∈ as, a.Fin)
    (h : ∀ a ∈ as, AR F t0 rd n a) :
    sumDiff rd n as = .ok (V.fin (as.map fun a => tc (argFn F a) t0 n).sum) := by
  rw [sumDiff, argVals_ok hf h]
  have : (as.map fun a => tc (argFn F a) t0 n).map V.fin ≠ [] := by simpa using hne
  rw [Res.bind_eq, Res.bind_ok, psum_ok this, V.sum_fin]

theorem prodVV_ok {n a b : ℕ} (ha : ∀ o < n + 1, Rd F t0 rd a o) (hb : ∀ o < n + 1, Rd F t0 rd b o) :
    prodVV rd n a b = .ok (V.fin (∑ j ∈ range (n + 1), tc (F a) t0 (n - j) * tc (F b) t0 j)) := by
  rw [prodVV, sumR_ok (G := fun j => tc (F a) t0 (n - j) * tc (F b) t0 j) (by omega)
    (fun j h1 h2 => by rw [ha (n - j) (by omega), hb j h2]; rfl), range_eq_Ico]

theorem smooth_argFn {a : TArg ℝ} (h : ∀ u, a = .u u → SmoothAt (F u) t0) : SmoothAt (argFn F a) t0 := by
  cases a with
  | cst m c => exact smoothAt_const _
  | u i => exact h i rfl

theorem prodDiff_ok {n : ℕ} {a b : TArg ℝ} (hfa : a.Fin) (hfb : b.Fin)
    (hsa : SmoothAt (argFn F a) t0) (hsb : SmoothAt (argFn F b) t0)
    (ha : ∀ o < n + 1, AR F t0 rd o a) (hb : ∀ o < n + 1, AR F t0 rd o b) :
    prodDiff rd n a b = .ok (V.fin (tc (fun t => argFn F a t * argFn F b t) t0 n)) := by
  cases a with
  | cst ma ca =>
    induction ca using V.ind with
    | hn => exact absurd rfl hfa
    | hf x =>
      cases b with
      | cst mb cb =>
        induction cb using V.ind with
        | hn => exact absurd rfl hfb
        | hf y =>
          simp only [argFn, V.toOption_fin, Option.getD_some, tc_const]
          rw [prodDiff]
          split
          · next h =>
            obtain ⟨_, h2, h3⟩ := h
            have : x = -1 := V.fin_inj h2
            subst this
            rw [if_pos h3, V.fin_neg]; congr 2; ring
          · split <;> rfl
      | u ib =>
        simp only [argFn, V.toOption_fin, Option.getD_some]
        rw [tc_const_mul (f := F ib) hsb, prodDiff, hb n (by omega)]
        simp only [Res.bind_eq, Res.bind_ok, Res.pure_eq]
        split
        · next h =>
          have : x = -1 := V.fin_inj h.2
          subst this
          rw [V.fin_neg]; congr 2; simp [argFn]
        · rfl
  | u ia =>
    cases b with
    | cst mb cb =>
      induction cb using V.ind with
      | hn => exact absurd rfl hfb
      | hf y =>
        simp only [argFn, V.toOption_fin, Option.getD_some]
        rw [tc_mul_const (f := F ia) hsa, prodDiff, ha n (by omega)]
        simp only [Res.bind_eq, Res.bind_ok, Res.pure_eq, V.fin_mul]
        congr 2; simp [argFn, mul_comm]
    | u ib =>
      simp only [argFn]
      rw [tc_mul (f := F ia) (g := F ib) hsa hsb, prodDiff]
      exact prodVV_ok ha hb

theorem subDiff_ok {n : ℕ} {a b : TArg ℝ} (hfa : a.Fin) (hfb : b.Fin)
    (hsa : SmoothAt (argFn F a) t0) (hsb : SmoothAt (argFn F b) t0)
    (ha : ∀ o < n + 1, AR F t0 rd o a) (hb : ∀ o < n + 1, AR F t0 rd o b) :
    subDiff rd n a b = .ok (V.fin (tc (fun t => argFn F a t - argFn F b t) t0 n)) := by
  rw [tc_sub hsa hsb]
  cases a with
  | cst ma ca =>
    induction ca using V.ind with
    | hn => exact absurd rfl hfa
    | hf x =>
      cases b with
      | cst mb cb =>
        induction cb using V.ind with
        | hn => exact absurd rfl hfb
        | hf y =>
          simp only [argFn, V.toOption_fin, Option.getD_some, tc_const]
          rw [subDiff]
          split
          · rfl
          · simp [V.zero_def]
      | u ib =>
        simp only [argFn, V.toOption_fin, Option.getD_some, tc_const]
        rw [subDiff, hb n (by omega)]
        simp only [Res.bind_eq, Res.bind_ok, Res.pure_eq]
        split
        · rfl
        · simp
  | u ia =>
    cases b with
    | cst mb cb =>
      induction cb using V.ind with
      | hn => exact absurd rfl hfb
      | hf y =>
        simp only [argFn, V.toOption_fin, Option.getD_some, tc_const]
        rw [subDiff, ha n (by omega)]
        simp only [Res.bind_eq, Res.bind_ok, Res.pure_eq]
        split
        · rfl
        · simp
    | u ib =>
      simp only [argFn]
      rw [subDiff, ha n (by omega), hb n (by omega)]
      rfl

/-! ### Quotients -/

theorem divDiff_ok {n a : ℕ} {x y : TArg ℝ} (hfx : x.Fin) (hfy : y.Fin)
    (hsx : SmoothAt (argFn F x) t0) (hsy : SmoothAt (argFn F y) t0) (hz : argFn F y t0 ≠ 0)
    (hs : SmoothAt (F a) t0) (hF : F a =ᶠ[𝓝 t0] fun t => argFn F x t / argFn F y t)
    (ha : ∀ o < n, Rd F t0 rd a o)
    (hx : ∀ o < n + 1, AR F t0 rd o x) (hy : ∀ o < n + 1, AR F t0 rd o y) :
    divDiff rd n a x y = .ok (V.fin (tc (F a) t0 n)) := by
  have hne : ∀ᶠ t in 𝓝 t0, argFn F y t ≠ 0 := hsy.continuousAt.eventually_ne hz
  have hmul : (fun t => F a t * argFn F y t) =ᶠ[𝓝 t0] argFn F x := by
    filter_upwards [hF, hne] with t h1 h2
    rw [h1, div_mul_cancel₀ _ h2]
  -- the recurrence
  have hr : argFn F y t0 * tc (F a) t0 n + ∑ j ∈ Ico 1 (n + 1), tc (F a) t0 (n - j) * tc (argFn F y) t0 j =
      tc (argFn F x) t0 n := by
    rw [← tc_congr hmul, tc_mul hs hsy, range_eq_Ico,
      Finset.sum_eq_sum_Ico_succ_bot (Nat.succ_pos n) (fun j => tc (F a) t0 (n - j) * tc (argFn F y) t0 j),
      Nat.sub_zero, tc_zero, mul_comm]
  cases y with
  | cst my cy =>
    induction cy using V.ind with
    | hn => exact absurd rfl hfy
    | hf yv =>
      simp only [argFn, V.toOption_fin, Option.getD_some] at hz hr
      have hzero : ∑ j ∈ Ico 1 (n + 1), tc (F a) t0 (n - j) * tc (fun _ : ℝ => yv) t0 j = 0 := by
        refine sum_eq_zero fun j hj => ?_
        have := mem_Ico.mp hj
        rw [tc_const, if_neg (by omega), mul_zero]
      rw [hzero, add_zero] at hr
      cases x with
      | cst mx cx =>
        induction cx using V.ind with
        | hn => exact absurd rfl hfx
        | hf xv =>
          simp only [argFn, V.toOption_fin, Option.getD_some, tc_const] at hr
          rw [divDiff]
          split
          · next h =>
            rw [if_pos h] at hr
            rw [V.fin_div_of_ne hz]; congr 2; field_simp; linarith
          · next h =>
            rw [if_neg h] at hr
            have : tc (F a) t0 n = 0 := (mul_eq_zero.mp hr).resolve_left hz
            rw [this]; rfl
      | u ix =>
        rw [divDiff, hx n (by omega)]
        simp only [Res.bind_eq, Res.bind_ok, Res.pure_eq]
        rw [V.fin_div_of_ne hz]
        simp only [argFn] at hr
        congr 2; rw [div_eq_iff hz]; linarith
  | u iy =>
    simp only [argFn] at hz hr
    rw [divDiff]
    split
    · next h =>
      subst h
      rw [argVal_ok hfx (hx 0 (by omega)), hy 0 (by omega)]
      simp only [Res.bind_eq, Res.bind_ok, Res.pure_eq, tc_zero]
      rw [V.fin_div_of_ne hz]
      congr 2
      exact hF.self_of_nhds.symm
    · next h =>
      rw [sumR_ok (G := fun j => tc (F a) t0 (n - j) * tc (F iy) t0 j) (by omega) (fun j h1 h2 => by
        rw [ha (n - j) (by omega), hy j h2]; rfl), hy 0 (by omega)]
      simp only [Res.bind_eq, Res.bind_ok, Res.pure_eq, tc_zero]
      cases x with
      | cst mx cx =>
        simp only [argFn, tc_const, if_neg h] at hr
        simp only [V.fin_neg]
        rw [V.fin_div_of_ne hz]
        congr 2; rw [div_eq_iff hz]; linarith
      | u ix =>
        simp only [argFn] at hr
        have hxn : rd ix n = _ := hx n (by omega)
        simp only [hxn, Res.bind_ok, V.fin_sub]
        rw [V.fin_div_of_ne hz]
        congr 2; rw [div_eq_iff hz]; linarith

/-! ### Squares -/

/-- The sum of a square, folded: odd orders. -/
theorem sum_sq_odd (g : ℕ → ℝ) {n : ℕ} (hn : n % 2 = 1) :
    ∑ j ∈ range (n + 1), g (n - j) * g j =
      (∑ j ∈ Ico 0 ((n - 1) / 2 + 1), g (n - j) * g j) + ∑ j ∈ Ico 0 ((n - 1) / 2 + 1), g (n - j) * g j := by
  obtain ⟨m, rfl⟩ : ∃ m, n = 2 * m + 1 := ⟨n / 2, by omega⟩
  have e1 : (2 * m + 1 - 1) / 2 + 1 = m + 1 := by omega
  have e2 : 2 * m + 1 + 1 = (m + 1) + (m + 1) := by omega
  rw [e1, ← range_eq_Ico, e2, sum_range_add]
  congr 1
  rw [← sum_range_reflect]
  refine sum_congr rfl fun j hj => ?_
  have := mem_range.mp hj
  rw [show 2 * m + 1 - (m + 1 + (m + 1 - 1 - j)) = j by omega,
    show m + 1 + (m + 1 - 1 - j) = 2 * m + 1 - j by omega, mul_comm]

/-- The sum of a square, folded: positive even orders. -/
theorem sum_sq_even (g : ℕ → ℝ) {n : ℕ} (hn : n % 2 = 0) (h0 : 0 < n) :
    ∑ j ∈ range (n + 1), g (n - j) * g j =
      (∑ j ∈ Ico 0 ((n - 2) / 2 + 1), g (n - j) * g j) + (∑ j ∈ Ico 0 ((n - 2) / 2 + 1), g (n - j) * g j)
        + g (n / 2) * g (n / 2) := by
  obtain ⟨m, rfl⟩ : ∃ m, n = 2 * m := ⟨n / 2, by omega⟩
  have e1 : (2 * m - 2) / 2 + 1 = m := by omega
  have e2 : 2 * m + 1 = m + (1 + m) := by omega
  have e3 : 2 * m / 2 = m := by omega
  rw [e1, e3, ← range_eq_Ico, e2, sum_range_add, sum_range_add]
  simp only [sum_range_one]
  have : ∑ x ∈ range m, g (2 * m - (m + (1 + x))) * g (m + (1 + x)) =
      ∑ j ∈ range m, g (2 * m - j) * g j := by
    rw [← sum_range_reflect]
    refine sum_congr rfl fun j hj => ?_
    have := mem_range.mp hj
    rw [show 2 * m - (m + (1 + (m - 1 - j))) = j by omega, show m + (1 + (m - 1 - j)) = 2 * m - j by omega,
      mul_comm]
  rw [this, show 2 * m - (m + 0) = m by omega, add_zero]
  ring

theorem tc_sq (hf : SmoothAt f t0) (n : ℕ) :
    tc (fun t => f t ^ 2) t0 n = ∑ j ∈ range (n + 1), tc f t0 (n - j) * tc f t0 j := by
  rw [← tc_mul hf hf]; exact tc_congr (.of_forall fun t => by simp [sq]) n

theorem squareDiff_ok {n b : ℕ} (hn : 1 ≤ n) (hsb : SmoothAt (F b) t0) (hb : ∀ o < n + 1, Rd F t0 rd b o) :
    squareDiff rd n b = .ok (V.fin (tc (fun t => F b t ^ 2) t0 n)) := by
  rw [tc_sq hsb, squareDiff]
  split
  · next h =>
    rw [sum_sq_odd (fun o => tc (F b) t0 o) h,
      sumR_ok (G := fun j => tc (F b) t0 (n - j) * tc (F b) t0 j) (by omega) (fun j h1 h2 => by
        rw [hb (n - j) (by omega), hb j (by omega)]; rfl)]
    rfl
  · next h =>
    rw [sum_sq_even (fun o => tc (F b) t0 o) (by omega) (by omega), hb (n / 2) (by omega),
      sumR_ok (G := fun j => tc (F b) t0 (n - j) * tc (F b) t0 j) (by omega) (fun j h1 h2 => by
        rw [hb (n - j) (by omega), hb j (by omega)]; rfl)]
    rfl

theorem sqrtDiff_ok {n a b : ℕ} (hn : 1 ≤ n) (hs : SmoothAt (F a) t0)
    (hF : (fun t => F a t ^ 2) =ᶠ[𝓝 t0] F b) (hz : F a t0 ≠ 0)
    (ha : ∀ o < n, Rd F t0 rd a o) (hb : ∀ o < n + 1, Rd F t0 rd b o) :
    sqrtDiff rd n a b = .ok (V.fin (tc (F a) t0 n)) := by
  have hr := tc_sq hs n
  rw [tc_congr hF] at hr
  have hz2 : F a t0 + F a t0 ≠ 0 := by
    intro h; exact hz (by linarith)
  have hfirst : ∀ m, 0 < m → (∑ j ∈ Ico 0 m, tc (F a) t0 (n - j) * tc (F a) t0 j) =
      tc (F a) t0 n * F a t0 + ∑ j ∈ Ico 1 m, tc (F a) t0 (n - j) * tc (F a) t0 j := by
    intro m hm
    rw [Finset.sum_eq_sum_Ico_succ_bot hm, Nat.sub_zero, tc_zero]
  have hsum : ∀ m, m ≤ n → 1 < m → sumR 1 m (fun j => do
        let x ← rd a (n - j)
        let y ← rd a j
        pure (x * y)) = .ok (V.fin (∑ j ∈ Ico 1 m, tc (F a) t0 (n - j) * tc (F a) t0 j)) := by
    intro m h1 h2
    exact sumR_ok h2 fun j h3 h4 => by rw [ha (n - j) (by omega), ha j (by omega)]; rfl
  rw [sqrtDiff, ha 0 (by omega), hb n (by omega)]
  simp only [Res.bind_eq, Res.bind_ok, Res.pure_eq, tc_zero, V.fin_add] 
  by_cases h : n % 2 = 1
  · rw [sum_sq_odd (fun o => tc (F a) t0 o) h, hfirst _ (by omega)] at hr
    simp only [if_pos h, Res.bind_ok]
    by_cases h1 : 1 < (n - 1) / 2 + 1
    · have := hsum _ (by omega) h1
      simp only [Res.bind_eq, Res.pure_eq] at this
      rw [if_pos h1, this]
      simp only [Res.bind_ok, V.fin_add, V.fin_sub]
      rw [V.fin_div_of_ne hz2]
      congr 2; rw [div_eq_iff hz2]; linarith
    · rw [if_neg h1]
      rw [Ico_eq_empty (by omega), sum_empty] at hr
      rw [V.fin_div_of_ne hz2]
      congr 2; rw [div_eq_iff hz2]; linarith
  · rw [sum_sq_even (fun o => tc (F a) t0 o) (by omega) (by omega), hfirst _ (by omega)] at hr
    have hm : rd a (n / 2) = _ := ha (n / 2) (by omega)
    simp only [if_neg h, hm, Res.bind_ok, V.fin_mul, V.fin_sub]
    by_cases h1 : 1 < (n - 2) / 2 + 1
    · have := hsum _ (by omega) h1
      simp only [Res.bind_eq, Res.pure_eq] at this
      rw [if_pos h1, this]
      simp only [Res.bind_ok, V.fin_add, V.fin_sub]
      rw [V.fin_div_of_ne hz2]
      congr 2; rw [div_eq_iff hz2]; linarith
    · rw [if_neg h1]
      rw [Ico_eq_empty (by omega), sum_empty] at hr
      rw [V.fin_div_of_ne hz2]
      congr 2; rw [div_eq_iff hz2]; linarith

/-! ### General powers -/

theorem powGenDiff_ok {n a b : ℕ} {p : ℝ} (hn : 1 ≤ n) (hz : F b t0 ≠ 0)
    (hr : cv (F b) (F a) t0 n (n + 1) = p * cv (F a) (F b) t0 n (n + 1))
    (ha : ∀ o < n, Rd F t0 rd a o) (hb : ∀ o < n + 1, Rd F t0 rd b o) :
    powGenDiff rd n a b (V.fin p) = .ok (V.fin (tc (F a) t0 n)) := by
  have hnz := nat_ne hn
  rw [powGenDiff, sumR_ok (G := fun j => (n * p - j * (p + 1)) * (tc (F b) t0 (n - j) * tc (F a) t0 j))
    (by omega) (fun j h1 h2 => by rw [hb (n - j) (by omega), ha j h2]; rfl), hb 0 (by omega)]
  simp only [Res.bind_eq, Res.bind_ok, Res.pure_eq, tc_zero, V.nat_def, V.fin_mul]
  rw [V.fin_div_of_ne (mul_ne_zero hnz hz)]
  congr 2
  rw [div_eq_iff (mul_ne_zero hnz hz)]
  rw [cv_last _ _ _ hn] at hr
  have h1 : cv (F b) (F a) t0 n n = ∑ j ∈ Ico 0 n, j * (tc (F b) t0 (n - j) * tc (F a) t0 j) := by
    rw [Finset.sum_eq_sum_Ico_succ_bot (by omega)]; simp [cv]
  have h2 : cv (F a) (F b) t0 n (n + 1) =
      ∑ j ∈ Ico 0 n, (n - j : ℝ) * (tc (F b) t0 (n - j) * tc (F a) t0 j) := by
    rw [cv, ← range_eq_Ico, Finset.sum_Ico_eq_sum_range, ← sum_range_reflect, Nat.add_sub_cancel]
    refine sum_congr rfl fun j hj => ?_
    have := mem_range.mp hj
    have e : 1 + (n - 1 - j) = n - j := by omega
    rw [e, Nat.sub_sub_self this.le, Nat.cast_sub this.le]; ring
  have h3 : ∑ j ∈ Ico 0 n, (n * p - j * (p + 1)) * (tc (F b) t0 (n - j) * tc (F a) t0 j) =
      p * cv (F a) (F b) t0 n (n + 1) - cv (F b) (F a) t0 n n := by
    rw [h1, h2, mul_sum, ← sum_sub_distrib]
    exact sum_congr rfl fun j _ => by ring
  rw [h3]; linarith

/-! ### Sums of squares -/

theorem sqHalf_ok {n m : ℕ} {a : TArg ℝ} (hm : 0 < m) (hmn : 2 * m ≤ n + 1) (hn : 1 ≤ n)
    (ha : ∀ o < n + 1, AR F t0 rd o a) :
    sqHalf rd n m a =
      .ok (V.fin (∑ j ∈ Ico 0 m, tc (argFn F a) t0 (n - j) * tc (argFn F a) t0 j)) := by
  cases a with
  | cst k c =>
    have : ∑ j ∈ Ico 0 m, tc (argFn F (.cst k c)) t0 (n - j) * tc (argFn F (.cst k c)) t0 j = 0 := by
      refine sum_eq_zero fun j hj => ?_
      have := mem_Ico.mp hj
      simp only [argFn]
      rw [tc_const, if_neg (by omega), zero_mul]
    rw [this, sqHalf, if_pos hm]; rfl
  | u i =>
    simp only [argFn]
    exact sumR_ok hm fun j h1 h2 => by rw [ha (n - j) (by omega), ha j (by omega)]; rfl

theorem sumSqDiff_ok {n : ℕ} {as : List (TArg ℝ)} (hne : as ≠ []) (hf : ∀ a ∈ as, a.Fin)
    (hs : ∀ a ∈ as, SmoothAt (argFn F a) t0) (h : ∀ a ∈ as, ∀ o < n + 1, AR F t0 rd o a) :
    sumSqDiff rd n as = .ok (V.fin (as.map fun a => tc (fun t => argFn F a t ^ 2) t0 n).sum) := by
  have hmap : (as.map fun a => tc (fun t => argFn F a t ^ 2) t0 n) =
      as.map fun a => ∑ j ∈ range (n + 1), tc (argFn F a) t0 (n - j) * tc (argFn F a) t0 j :=
    List.map_congr_left fun a ha => tc_sq (hs a ha) n
  rw [sumSqDiff, hmap]
  split
  · next hodd =>
    rw [mapArgs_ok (G := fun a => ∑ j ∈ Ico 0 ((n - 1) / 2 + 1), tc (argFn F a) t0 (n - j) *
      tc (argFn F a) t0 j) fun a ha => sqHalf_ok (by omega) (by omega) (by omega) (h a ha)]
    have hne' : ∀ G : TArg ℝ → ℝ, (as.map G).map V.fin ≠ [] := fun G => by simpa using hne
    simp only [Res.bind_eq, Res.bind_ok, Res.pure_eq]
    rw [psum_ok (hne' _), V.sum_fin]
    simp only [Res.bind_ok, V.fin_add]
    congr 2
    rw [← List.sum_map_add]
    refine congrArg List.sum (List.map_congr_left fun a _ => ?_)
    exact (sum_sq_odd (fun o => tc (argFn F a) t0 o) hodd).symm
  · next hodd =>
    have hE : ∀ a ∈ as, sqEven rd n a = .ok (V.fin
        (∑ j ∈ range (n + 1), tc (argFn F a) t0 (n - j) * tc (argFn F a) t0 j)) := by
      intro a ha
      have ht : sqMid rd n a =
          .ok (V.fin (tc (argFn F a) t0 (n / 2) * tc (argFn F a) t0 (n / 2))) := by
        cases a with
        | cst k c =>
          have hfa := hf _ ha
          induction c using V.ind with
          | hn => exact absurd rfl hfa
          | hf x =>
            simp only [sqMid, argFn, V.toOption_fin, Option.getD_some, tc_const]
            by_cases hz : n = 0
            · subst hz; simp
            · rw [if_neg hz, if_neg (by omega)]; simp [V.zero_def]
        | u i =>
          have : rd i (n / 2) = _ := h _ ha (n / 2) (by omega)
          simp only [sqMid, this]; rfl
      rw [sqEven]
      simp only [ht, Res.bind_eq, Res.bind_ok, Res.pure_eq]
      split
      · next h0 =>
        rw [sqHalf_ok (by omega) (by omega) (by omega) (h a ha)]
        simp only [Res.bind_ok, V.fin_add]
        congr 2
        exact (sum_sq_even (fun o => tc (argFn F a) t0 o) (by omega) h0).symm
      · next h0 =>
        have : n = 0 := by omega
        subst this
        simp
    rw [mapArgs_ok hE]
    have hne' : ∀ G : TArg ℝ → ℝ, (as.map G).map V.fin ≠ [] := fun G => by simpa using hne
    simp only [Res.bind_eq, Res.bind_ok]
    rw [psum_ok (hne' _), V.sum_fin]

end Heyoka.Taylor
