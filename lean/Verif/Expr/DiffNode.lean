import Verif.Expr.DiffLemmas
import Verif.Props.Arith
import Mathlib.Analysis.SpecialFunctions.Complex.LogDeriv
import Mathlib.Analysis.SpecialFunctions.Pow.Deriv
import Mathlib.Analysis.SpecialFunctions.Trigonometric.Deriv
import Mathlib.Analysis.SpecialFunctions.Trigonometric.ArctanDeriv
import Mathlib.Analysis.SpecialFunctions.Trigonometric.InverseDeriv
import Mathlib.Analysis.SpecialFunctions.Trigonometric.DerivHyp
import Mathlib.MeasureTheory.Integral.IntervalIntegral.FundThmCalculus

/-!
# The chain rule for one function node

For every function: the partial derivatives returned by `gradient()` evaluate to the partial
derivatives of the function, and the function composed with its arguments has the derivative given
by the chain rule.
-/

set_option linter.unusedSectionVars false
set_option linter.unusedVariables false

open Filter Topology

namespace Heyoka.Sym

variable [DFunc]

/-- An argument `a` of a function, along a curve: its symbolic derivative `d`, the function `F` of the
parameter of the curve it computes and the derivative `D` of `F`, whether it depends on the
parameter, and whether it is the result of a relational or logical function. -/
structure ArgInfo where
  a : Expr ℝ
  d : Expr ℝ
  F : ℝ → ℝ
  D : ℝ
  dep : Bool
  isB : Prop

/-- The argument has the value `F t₀` at `v`, and `D` is the derivative of `F` at `t₀`. -/
structure CurveOk (v : Env ℝ) (t₀ : ℝ) (A : ArgInfo) : Prop where
  val : A.a.eval v = some (A.F t₀)
  deriv : HasDerivAt A.F A.D t₀
  indep : A.dep = false → ∀ t, A.F t = A.F t₀
  bool : A.isB → ∀ᶠ t in 𝓝 t₀, A.F t = A.F t₀

variable {t₀ : ℝ} {v : Env ℝ}

theorem CurveOk.cont {A : ArgInfo} (h : CurveOk v t₀ A) : ContinuousAt A.F t₀ :=
  h.deriv.continuousAt

theorem CurveOk.const {A : ArgInfo} (h : CurveOk v t₀ A) (hi : A.dep = false) :
    A.F = fun _ => A.F t₀ := funext (h.indep hi)

theorem CurveOk.D_zero {A : ArgInfo} (h : CurveOk v t₀ A) (hi : A.dep = false) : A.D = 0 := by
  have h1 := h.deriv
  rw [h.const hi] at h1
  exact h1.unique (hasDerivAt_const _ _)

/-- What is needed of an argument for `DiffPt`. -/
def ArgInfo.toVal (t₀ : ℝ) (c : Prop) (A : ArgInfo) : ArgVal :=
  ⟨A.dep = true ∨ c, A.isB, A.F t₀⟩

/-- Is the function relational or logical? -/
def Fn.isBool {K : Type} : Fn K → Prop
  | .rel _ => True
  | .land => True
  | .lor => True
  | _ => False

/-- An entry of a gradient: the argument, the symbolic and the numerical partial derivative. For an
argument not depending on the variable only the absence of non-finite numbers matters. -/
def EntryOk (v : Env ℝ) (p : ArgInfo × Expr ℝ × ℝ) : Prop :=
  p.2.1.eval v = some p.2.2 ∨ (p.1.dep = false ∧ Sane p.2.1)

/-- The chain rule for the function `f` applied to the arguments `As`. -/
def NodeOk (v : Env ℝ) (t₀ : ℝ) (f : Fn ℝ) (As : List ArgInfo) : Prop :=
  ∃ (T : List (ArgInfo × Expr ℝ × ℝ)) (G : ℝ → ℝ),
    T.map (·.1) = As ∧
    gradient f (As.map (·.a)) = .ok (T.map (·.2.1)) ∧
    (∀ p ∈ T, EntryOk v p) ∧
    (∀ᶠ t in 𝓝 t₀, realApp f (As.map fun A => A.F t) = some (G t)) ∧
    HasDerivAt G ((T.map fun p => p.2.2 * p.1.D).sum) t₀ ∧
    (f.isBool → ∀ᶠ t in 𝓝 t₀, G t = G t₀)

theorem eventually_list {α β : Type} {l : Filter α} {p : β → α → Prop} (bs : List β)
    (h : ∀ b ∈ bs, ∀ᶠ t in l, p b t) : ∀ᶠ t in l, ∀ b ∈ bs, p b t := by
  induction bs with
  | nil => simp
  | cons b bs ih =>
    filter_upwards [h b (by simp), ih fun c hc => h c (by simp [hc])] with t h1 h2
    intro c hc
    rcases List.mem_cons.mp hc with rfl | hc
    · exact h1
    · exact h2 c hc

/-! ### Sums and products -/

theorem node_sum (As : List ArgInfo) (h : ∀ A ∈ As, CurveOk v t₀ A) : NodeOk v t₀ .sum As := by
  refine ⟨As.map fun A => (A, .dbl 1, 1), fun t => (As.map fun A => A.F t).sum,
    by simp [Function.comp_def], ?_, ?_, ?_, ?_, by simp [Fn.isBool]⟩
  · simp [gradient]
  · simp [EntryOk]
  · exact .of_forall fun t => by simp [realApp]
  · simp only [List.map_map, Function.comp_def, one_mul]
    induction As with
    | nil => simpa using hasDerivAt_const _ (0 : ℝ)
    | cons A As ih =>
      simp only [List.map_cons, List.sum_cons]
      exact (h A (by simp)).deriv.add (ih fun B hB => h B (by simp [hB]))

theorem hasDerivAt_prod (As : List ArgInfo) (h : ∀ A ∈ As, CurveOk v t₀ A) :
    HasDerivAt (fun t => (As.map fun A => A.F t).prod)
      ((As.mapIdx fun i A => ((As.map fun A => A.F t₀).eraseIdx i).prod * A.D).sum)
      t₀ := by
  induction As with
  | nil => simpa using hasDerivAt_const _ (1 : ℝ)
  | cons A As ih =>
    have h1 := (h A (by simp)).deriv.mul (ih fun B hB => h B (by simp [hB]))
    simp only [List.map_cons, List.prod_cons]
    refine h1.congr_deriv ?_
    simp only [List.mapIdx_cons, List.eraseIdx_cons_zero, List.sum_cons, List.eraseIdx_cons_succ,
      List.prod_cons]
    congr 1
    · ring
    · generalize (As.map fun A => A.F t₀) = L
      have : ∀ (Bs : List ArgInfo) (g : ℕ → ℝ) (c : ℝ),
          c * (Bs.mapIdx fun i B => g i * B.D).sum = (Bs.mapIdx fun i B => c * g i * B.D).sum := by
        intro Bs
        induction Bs with
        | nil => simp
        | cons B Bs ih' =>
          intro g c
          simp only [List.mapIdx_cons, List.sum_cons, mul_add]
          rw [ih' (fun i => g (i + 1))]
          ring
      exact this As _ _

theorem evalL_vals {As : List ArgInfo} (h : ∀ A ∈ As, CurveOk v t₀ A) :
    Expr.evalL v (As.map (·.a)) = some (As.map fun A => A.F t₀) := by
  rw [Expr.evalL_eq_some, List.forall₂_map_left_iff, List.forall₂_map_right_iff,
    List.forall₂_same]
  exact fun A hA => (h A hA).val

theorem evalL_eraseIdx {es : List (Expr ℝ)} {xs : List ℝ} (h : Expr.evalL v es = some xs) (i : ℕ) :
    Expr.evalL v (es.eraseIdx i) = some (xs.eraseIdx i) := by
  induction es generalizing xs i with
  | nil => simp at h; subst h; simp
  | cons e es ih =>
    simp only [Expr.evalL_cons, Option.bind_eq_some_iff, Option.map_eq_some_iff] at h
    obtain ⟨y, hy, ys, hys, rfl⟩ := h
    cases i with
    | zero => simpa using hys
    | succ i => simp [hy, ih hys i]

theorem node_prod (neg : Bool) (As : List ArgInfo) (h : ∀ A ∈ As, CurveOk v t₀ A) :
    NodeOk v t₀ (.prod neg) As := by
  refine ⟨As.mapIdx fun i A => (A, prodE ((As.map (·.a)).eraseIdx i),
      ((As.map fun A => A.F t₀).eraseIdx i).prod),
    fun t => (As.map fun A => A.F t).prod, ?_, ?_, ?_, ?_, ?_, by simp [Fn.isBool]⟩
  · apply List.ext_getElem <;> simp
  · simp only [gradient, prodGradient]
    congr 1
    apply List.ext_getElem <;> simp
  · intro p hp
    rw [List.mem_mapIdx] at hp
    obtain ⟨i, hi, rfl⟩ := hp
    exact Or.inl (eval_prodE (evalL_eraseIdx (evalL_vals h) i))
  · exact .of_forall fun t => by simp [realApp]
  · refine (hasDerivAt_prod As h).congr_deriv ?_
    congr 1
    apply List.ext_getElem <;> simp

/-! ### Functions of one argument -/

theorem node_unary {f : Fn ℝ} {A : ArgInfo} (hA : CurveOk v t₀ A) (hf : ¬ f.isBool) (h : ℝ → ℝ) (h' : ℝ)
    (g : Expr ℝ) (hg : gradient f [A.a] = .ok [g])
    (hv : realApp f [A.F t₀] = some (h (A.F t₀)))
    (hev : A.dep = true → ∀ᶠ y in 𝓝 (A.F t₀), realApp f [y] = some (h y))
    (hd : A.dep = true → HasDerivAt h h' (A.F t₀))
    (he : g.eval v = some h' ∨ (A.dep = false ∧ Sane g)) :
    NodeOk v t₀ f [A] := by
  refine ⟨[(A, g, h')], fun t => h (A.F t), rfl, by simpa using hg, ?_, ?_, ?_,
    fun hb => absurd hb hf⟩
  · intro p hp
    simp only [List.mem_singleton] at hp
    subst hp
    exact he
  · simp only [List.map_cons, List.map_nil]
    cases ho : A.dep with
    | true => exact hA.cont.eventually (hev ho)
    | false =>
      rw [hA.const ho]
      exact .of_forall fun t => hv
  · simp only [List.map_cons, List.map_nil, List.sum_cons, List.sum_nil, add_zero]
    cases ho : A.dep with
    | true => exact (hd ho).comp _ hA.deriv
    | false =>
      rw [hA.D_zero ho, mul_zero, hA.const ho]
      exact hasDerivAt_const _ _

/-- Functions of one argument differentiable everywhere. -/
theorem node_unary' {f : Fn ℝ} {A : ArgInfo} (hA : CurveOk v t₀ A) (hf : ¬ f.isBool) (h : ℝ → ℝ)
    (h' : ℝ) (g : Expr ℝ) (hg : gradient f [A.a] = .ok [g])
    (hv : ∀ y, realApp f [y] = some (h y)) (hd : HasDerivAt h h' (A.F t₀))
    (he : g.eval v = some h') : NodeOk v t₀ f [A] :=
  node_unary hA hf h h' g hg (hv _) (fun _ => .of_forall hv) (fun _ => hd) (Or.inl he)

theorem eval_pow2 {a : Expr ℝ} {y : ℝ} (h : a.eval v = some y) :
    (powE a (.dbl 2)).eval v = some (y ^ 2) := by
  have : PowDom y 2 := by
    rcases lt_trichotomy y 0 with h | h | h
    · exact Or.inr (Or.inr ⟨h, 2, by norm_num⟩)
    · exact Or.inr (Or.inl ⟨h, by norm_num⟩)
    · exact Or.inl h
  rw [eval_powE h (Expr.eval_dbl _ _) this]
  simp

theorem eval_powm1 {a : Expr ℝ} {y : ℝ} (h : a.eval v = some y) (hy : y ≠ 0) :
    (powE a (.dbl (-1))).eval v = some y⁻¹ := by
  have : PowDom y (-1) := by
    rcases lt_trichotomy y 0 with h | h | h
    · exact Or.inr (Or.inr ⟨h, -1, by norm_num⟩)
    · exact absurd h hy
    · exact Or.inl h
  rw [eval_powE h (Expr.eval_dbl _ _) this]
  simp [Real.rpow_neg_one]

theorem eval_powmhalf {a : Expr ℝ} {y : ℝ} (h : a.eval v = some y) (hy : 0 < y) :
    (powE a (.dbl (-(1 / 2)))).eval v = some (Real.sqrt y)⁻¹ := by
  rw [eval_powE h (Expr.eval_dbl _ _) (Or.inl hy), Real.sqrt_eq_rpow, Real.rpow_neg hy.le]

theorem eval_sub {a b : Expr ℝ} {y z : ℝ} (ha : a.eval v = some y) (hb : b.eval v = some z) :
    (subE a b).eval v = some (y - z) := by simp [eval_subE, ha, hb]

theorem eval_add {a b : Expr ℝ} {y z : ℝ} (ha : a.eval v = some y) (hb : b.eval v = some z) :
    (addE a b).eval v = some (y + z) := by simp [eval_addE, ha, hb]

theorem eval_neg {a : Expr ℝ} {y : ℝ} (ha : a.eval v = some y) :
    (negE a).eval v = some (-y) := by simp [eval_negE, ha]

theorem eval_unary {f : Fn ℝ} (hf : f ≠ .time) {a : Expr ℝ} {y z : ℝ} (ha : a.eval v = some y)
    (hz : realApp f [y] = some z) (hd : ∀ id ix, f ≠ .dfun id ix := by simp) : (unaryE f a).eval v = some z := by
  simp [eval_unaryE hf a hd, ha, hz]

theorem hasDerivAt_tanh (y : ℝ) : HasDerivAt Real.tanh (1 - Real.tanh y ^ 2) y := by
  have h := (Real.hasDerivAt_sinh y).div (Real.hasDerivAt_cosh y) (Real.cosh_pos y).ne'
  have h2 : Real.tanh = fun z => Real.sinh z / Real.cosh z :=
    funext fun z => Real.tanh_eq_sinh_div_cosh z
  rw [h2]
  refine h.congr_deriv ?_
  have := (Real.cosh_pos y).ne'
  field_simp

theorem hasDerivAt_artanh {y : ℝ} (h1 : -1 < y) (h2 : y < 1) :
    HasDerivAt Real.artanh (1 - y ^ 2)⁻¹ y := by
  have h3 : HasDerivAt (fun z : ℝ => 1 / 2 * (Real.log (1 + z) - Real.log (1 - z)))
      (1 / 2 * (1 / (1 + y) - (-1) / (1 - y))) y := by
    refine (HasDerivAt.sub ?_ ?_).const_mul _
    · exact ((hasDerivAt_id y).const_add 1).log (by simp only [id]; linarith)
    · exact ((hasDerivAt_id y).const_sub 1).log (by simp only [id]; linarith)
  have h4 : Real.artanh =ᶠ[𝓝 y] fun z => 1 / 2 * (Real.log (1 + z) - Real.log (1 - z)) := by
    filter_upwards [Ioo_mem_nhds h1 h2] with z hz
    rw [Real.artanh_eq_half_log ⟨hz.1.le, hz.2.le⟩, Real.log_div (by linarith [hz.1])
      (by linarith [hz.2])]
  refine (h3.congr_of_eventuallyEq h4).congr_deriv ?_
  have a1 : 1 + y ≠ 0 := by linarith
  have a2 : 1 - y ≠ 0 := by linarith
  have a3 : 1 - y ^ 2 ≠ 0 := by
    have : 1 - y ^ 2 = (1 + y) * (1 - y) := by ring
    rw [this]; exact mul_ne_zero a1 a2
  field_simp
  ring

theorem hasDerivAt_erf (y : ℝ) :
    HasDerivAt realErf (2 / Real.sqrt Real.pi * Real.exp (-y ^ 2)) y := by
  have hc : Continuous fun t : ℝ => Real.exp (-t ^ 2) := by fun_prop
  exact (hc.integral_hasStrictDerivAt 0 y).hasDerivAt.const_mul _

theorem eval_piE : (piE : Expr ℝ).eval v = some Real.pi := by
  unfold piE
  rw [Expr.eval_fn _ _ _ (by simp)]
  simp [app_def, realApp]

theorem node_sin (c : Bool) {A : ArgInfo} (hA : CurveOk v t₀ A) : NodeOk v t₀ (.sin c) [A] :=
  node_unary' hA (by simp [Fn.isBool]) Real.sin _ _ rfl (fun _ => by simp [realApp])
    (Real.hasDerivAt_sin _) (eval_unary (by simp) hA.val (by simp [realApp]))

theorem node_cos (c : Bool) {A : ArgInfo} (hA : CurveOk v t₀ A) : NodeOk v t₀ (.cos c) [A] :=
  node_unary' hA (by simp [Fn.isBool]) Real.cos _ _ rfl (fun _ => by simp [realApp])
    (Real.hasDerivAt_cos _) (eval_neg (eval_unary (by simp) hA.val (by simp [realApp])))

theorem node_tan {A : ArgInfo} (hA : CurveOk v t₀ A) (h : Real.cos (A.F t₀) ≠ 0) :
    NodeOk v t₀ .tan [A] := by
  refine node_unary hA (by simp [Fn.isBool]) Real.tan (1 + Real.tan (A.F t₀) ^ 2) _ rfl
    (by simp [realApp, h]) (fun _ => ?_) (fun _ => ?_) (Or.inl ?_)
  · have : ∀ᶠ y in 𝓝 (A.F t₀), Real.cos y ≠ 0 :=
      Real.continuous_cos.continuousAt.eventually (isOpen_ne.mem_nhds h)
    filter_upwards [this] with y hy
    simp [realApp, hy]
  · refine (Real.hasDerivAt_tan h).congr_deriv ?_
    rw [Real.tan_eq_sin_div_cos]
    field_simp
    linarith [Real.sin_sq_add_cos_sq (A.F t₀)]
  · exact eval_add (Expr.eval_dbl _ _) (eval_pow2 (eval_unary (by simp) hA.val (by simp [realApp, h])))

theorem node_asin {A : ArgInfo} (hA : CurveOk v t₀ A) (hn : A.a.isNum = false ∨ (-1 < A.F t₀ ∧ A.F t₀ < 1))
    (h : -1 ≤ A.F t₀ ∧ A.F t₀ ≤ 1)
    (h' : A.dep = true → -1 < A.F t₀ ∧ A.F t₀ < 1) :
    NodeOk v t₀ .asin [A] := by
  refine node_unary hA (by simp [Fn.isBool]) Real.arcsin (Real.sqrt (1 - A.F t₀ ^ 2))⁻¹ _ rfl
    (by simp [realApp, h]) (fun ho => ?_) (fun ho => ?_) ?_
  · filter_upwards [Ioo_mem_nhds (h' ho).1 (h' ho).2] with y hy
    simp [realApp, hy.1.le, hy.2.le]
  · refine (Real.hasDerivAt_arcsin (h' ho).1.ne' (h' ho).2.ne).congr_deriv ?_
    rw [one_div]
  · cases ho : A.dep with
    | false =>
      rcases hn with hn | hn
      swap
      · exact Or.inl (eval_powmhalf (eval_sub (Expr.eval_dbl _ _) (eval_pow2 hA.val))
          (by nlinarith [hn.1, hn.2]))
      exact Or.inr ⟨rfl, Sane.of_isNum (nn_powE_base (nn_subE_right (nn_powE_base hn (by norm_num)))
        (by norm_num))⟩
    | true =>
      refine Or.inl (eval_powmhalf (eval_sub (Expr.eval_dbl _ _) (eval_pow2 hA.val)) ?_)
      have := h' ho
      nlinarith [this.1, this.2]

theorem node_acos {A : ArgInfo} (hA : CurveOk v t₀ A) (hn : A.a.isNum = false ∨ (-1 < A.F t₀ ∧ A.F t₀ < 1))
    (h : -1 ≤ A.F t₀ ∧ A.F t₀ ≤ 1)
    (h' : A.dep = true → -1 < A.F t₀ ∧ A.F t₀ < 1) :
    NodeOk v t₀ .acos [A] := by
  refine node_unary hA (by simp [Fn.isBool]) Real.arccos (-(Real.sqrt (1 - A.F t₀ ^ 2))⁻¹) _
    rfl (by simp [realApp, h]) (fun ho => ?_) (fun ho => ?_) ?_
  · filter_upwards [Ioo_mem_nhds (h' ho).1 (h' ho).2] with y hy
    simp [realApp, hy.1.le, hy.2.le]
  · refine (Real.hasDerivAt_arccos (h' ho).1.ne' (h' ho).2.ne).congr_deriv ?_
    rw [one_div]
  · cases ho : A.dep with
    | false =>
      rcases hn with hn | hn
      swap
      · exact Or.inl (eval_neg (eval_powmhalf (eval_sub (Expr.eval_dbl _ _) (eval_pow2 hA.val))
          (by nlinarith [hn.1, hn.2])))
      exact Or.inr ⟨rfl, Sane.of_isNum (nn_negE
        (nn_powE_base (nn_subE_right (nn_powE_base hn (by norm_num))) (by norm_num)))⟩
    | true =>
      refine Or.inl (eval_neg (eval_powmhalf
        (eval_sub (Expr.eval_dbl _ _) (eval_pow2 hA.val)) ?_))
      have := h' ho
      nlinarith [this.1, this.2]

theorem node_atan {A : ArgInfo} (hA : CurveOk v t₀ A) : NodeOk v t₀ .atan [A] := by
  refine node_unary' hA (by simp [Fn.isBool]) Real.arctan _ _ rfl (fun _ => by simp [realApp])
    ((Real.hasDerivAt_arctan _).congr_deriv (one_div _)) ?_
  exact eval_powm1 (eval_add (Expr.eval_dbl _ _) (eval_pow2 hA.val)) (by positivity)

theorem node_sinh {A : ArgInfo} (hA : CurveOk v t₀ A) : NodeOk v t₀ .sinh [A] :=
  node_unary' hA (by simp [Fn.isBool]) Real.sinh _ _ rfl (fun _ => by simp [realApp])
    (Real.hasDerivAt_sinh _) (eval_unary (by simp) hA.val (by simp [realApp]))

theorem node_cosh {A : ArgInfo} (hA : CurveOk v t₀ A) : NodeOk v t₀ .cosh [A] :=
  node_unary' hA (by simp [Fn.isBool]) Real.cosh _ _ rfl (fun _ => by simp [realApp])
    (Real.hasDerivAt_cosh _) (eval_unary (by simp) hA.val (by simp [realApp]))

theorem node_tanh {A : ArgInfo} (hA : CurveOk v t₀ A) : NodeOk v t₀ .tanh [A] :=
  node_unary' hA (by simp [Fn.isBool]) Real.tanh _ _ rfl (fun _ => by simp [realApp])
    (hasDerivAt_tanh _) (eval_sub (Expr.eval_dbl _ _)
      (eval_pow2 (eval_unary (by simp) hA.val (by simp [realApp]))))

theorem node_asinh {A : ArgInfo} (hA : CurveOk v t₀ A) : NodeOk v t₀ .asinh [A] := by
  refine node_unary' hA (by simp [Fn.isBool]) Real.arsinh _ _ rfl (fun _ => by simp [realApp])
    (Real.hasDerivAt_arsinh _) ?_
  rw [add_comm (1 : ℝ)]
  exact eval_powmhalf (eval_add (eval_pow2 hA.val) (Expr.eval_dbl _ _)) (by positivity)

theorem node_acosh {A : ArgInfo} (hA : CurveOk v t₀ A) (hn : A.a.isNum = false ∨ 1 < A.F t₀)
    (h : 1 ≤ A.F t₀) (h' : A.dep = true → 1 < A.F t₀) :
    NodeOk v t₀ .acosh [A] := by
  refine node_unary hA (by simp [Fn.isBool]) Real.arcosh (Real.sqrt (A.F t₀ ^ 2 - 1))⁻¹ _ rfl
    (by simp [realApp, h]) (fun ho => ?_) (fun ho => Real.hasDerivAt_arcosh (h' ho)) ?_
  · filter_upwards [Ioi_mem_nhds (h' ho)] with y hy
    simp [realApp, (Set.mem_Ioi.mp hy).le]
  · cases ho : A.dep with
    | false =>
      rcases hn with hn | hn
      swap
      · exact Or.inl (eval_powmhalf (eval_sub (eval_pow2 hA.val) (Expr.eval_dbl _ _))
          (by nlinarith))
      exact Or.inr ⟨rfl, Sane.of_isNum
        (nn_powE_base (nn_subE_left (nn_powE_base hn (by norm_num))) (by norm_num))⟩
    | true =>
      refine Or.inl (eval_powmhalf (eval_sub (eval_pow2 hA.val) (Expr.eval_dbl _ _)) ?_)
      have := h' ho
      nlinarith

theorem node_atanh {A : ArgInfo} (hA : CurveOk v t₀ A) (h : -1 < A.F t₀ ∧ A.F t₀ < 1) :
    NodeOk v t₀ .atanh [A] := by
  refine node_unary hA (by simp [Fn.isBool]) Real.artanh (1 - A.F t₀ ^ 2)⁻¹ _ rfl
    (by simp [realApp, h]) (fun _ => ?_) (fun _ => hasDerivAt_artanh h.1 h.2) (Or.inl ?_)
  · filter_upwards [Ioo_mem_nhds h.1 h.2] with y hy
    simp [realApp, hy.1, hy.2]
  · refine eval_powm1 (eval_sub (Expr.eval_dbl _ _) (eval_pow2 hA.val)) ?_
    have : 0 < 1 - A.F t₀ ^ 2 := by nlinarith [h.1, h.2]
    exact this.ne'

theorem node_erf {A : ArgInfo} (hA : CurveOk v t₀ A) : NodeOk v t₀ .erf [A] := by
  refine node_unary' hA (by simp [Fn.isBool]) realErf _ _ rfl (fun _ => by simp [realApp])
    (hasDerivAt_erf _) ?_
  refine eval_mulE (eval_divE (Expr.eval_dbl _ _) (eval_sqrtE eval_piE Real.pi_pos.le)
    (Real.sqrt_pos.mpr Real.pi_pos).ne') ?_
  exact eval_unary (by simp) (eval_neg (eval_pow2 hA.val)) (by simp [realApp])

theorem node_exp {A : ArgInfo} (hA : CurveOk v t₀ A) : NodeOk v t₀ .exp [A] :=
  node_unary' hA (by simp [Fn.isBool]) Real.exp _ _ rfl (fun _ => by simp [realApp])
    (Real.hasDerivAt_exp _) (eval_unary (by simp) hA.val (by simp [realApp]))

theorem node_log {A : ArgInfo} (hA : CurveOk v t₀ A) (h : 0 < A.F t₀) :
    NodeOk v t₀ .log [A] := by
  refine node_unary hA (by simp [Fn.isBool]) Real.log _ _ rfl
    (by simp [realApp, h]) (fun _ => ?_) (fun _ => Real.hasDerivAt_log h.ne')
    (Or.inl (eval_powm1 hA.val h.ne'))
  filter_upwards [Ioi_mem_nhds h] with y hy
  simp [realApp, Set.mem_Ioi.mp hy]

theorem node_sigmoid {A : ArgInfo} (hA : CurveOk v t₀ A) : NodeOk v t₀ .sigmoid [A] := by
  refine node_unary' hA (by simp [Fn.isBool]) Real.sigmoid _ _ rfl (fun _ => by simp [realApp])
    (Real.hasDerivAt_sigmoid _) ?_
  rw [mul_comm]
  have h := eval_unary (f := .sigmoid) (by simp) hA.val
    (z := Real.sigmoid (A.F t₀)) (by simp [realApp])
  exact eval_mulE (eval_sub (Expr.eval_dbl _ _) h) h

theorem sign_eventually {y : ℝ} (h : y ≠ 0) : ∀ᶠ z in 𝓝 y, (0 < z ↔ 0 < y) := by
  rcases lt_or_gt_of_ne h with h | h
  · filter_upwards [Iio_mem_nhds h] with z hz
    have := Set.mem_Iio.mp hz
    constructor <;> intro <;> linarith
  · filter_upwards [Ioi_mem_nhds h] with z hz
    exact ⟨fun _ => h, fun _ => hz⟩

theorem node_relu (s : ℝ) {A : ArgInfo} (hA : CurveOk v t₀ A)
    (h : A.dep = true → A.F t₀ ≠ 0) : NodeOk v t₀ (.relu s) [A] := by
  refine node_unary hA (by simp [Fn.isBool]) (fun y => if 0 < y then y else s * y)
    (if 0 < A.F t₀ then 1 else s) _ rfl
    (by simp [realApp]) (fun _ => .of_forall fun _ => by simp [realApp]) (fun ho => ?_)
    (Or.inl (relu_value s hA.val).2)
  have hs := sign_eventually (h ho)
  by_cases hp : 0 < A.F t₀
  · rw [if_pos hp]
    refine (hasDerivAt_id' (A.F t₀)).congr_of_eventuallyEq ?_
    filter_upwards [hs] with z hz
    rw [if_pos (hz.mpr hp)]
  · rw [if_neg hp]
    refine (((hasDerivAt_id' (A.F t₀)).const_mul s).congr_of_eventuallyEq ?_).congr_deriv
      (mul_one s)
    filter_upwards [hs] with z hz
    rw [if_neg (fun hc => hp (hz.mp hc))]

theorem node_relup (s : ℝ) {A : ArgInfo} (hA : CurveOk v t₀ A)
    (h : A.dep = true → A.F t₀ ≠ 0) : NodeOk v t₀ (.relup s) [A] := by
  refine node_unary hA (by simp [Fn.isBool]) (fun y => if 0 < y then 1 else s) 0 _ rfl
    (by simp [realApp]) (fun _ => .of_forall fun _ => by simp [realApp]) (fun ho => ?_)
    (Or.inl (Expr.eval_dbl _ _))
  refine (hasDerivAt_const (A.F t₀)
    (if 0 < A.F t₀ then 1 else s)).congr_of_eventuallyEq ?_
  filter_upwards [sign_eventually (h ho)] with z hz
  simp only [hz]

/-! ### Relational and logical functions, `select()` -/

/-- The truth value of an argument does not change in a neighbourhood. -/
theorem truth_eventually {c : Prop} {A : ArgInfo} (hA : CurveOk v t₀ A) (h : (A.toVal t₀ c).TruthStable) :
    ∀ᶠ t in 𝓝 t₀, (A.F t ≠ 0 ↔ A.F t₀ ≠ 0) := by
  cases ho : A.dep with
  | false =>
    rw [hA.const ho]
    exact .of_forall fun _ => Iff.rfl
  | true =>
    rcases h (Or.inl ho) with h | h
    · have h' : A.F t₀ ≠ 0 := h
      filter_upwards [hA.cont.eventually (isOpen_ne.mem_nhds h')] with t ht
      exact ⟨fun _ => h', fun _ => ht⟩
    · filter_upwards [hA.bool h] with t ht
      rw [ht]

theorem zero_sum (As : List ArgInfo) :
    ((As.map fun A => ((A, .dbl 0, 0) : ArgInfo × Expr ℝ × ℝ)).map
      fun p => p.2.2 * p.1.D).sum = 0 := by
  induction As with
  | nil => simp
  | cons A As ih => simpa using ih

/-- Locally constant functions. -/
theorem node_const {f : Fn ℝ} (As : List ArgInfo) (c : ℝ)
    (hg : gradient f (As.map (·.a)) = .ok (As.map fun _ => .dbl 0))
    (hev : ∀ᶠ t in 𝓝 t₀, realApp f (As.map fun A => A.F t) = some c) : NodeOk v t₀ f As := by
  refine ⟨As.map fun A => (A, .dbl 0, 0), fun _ => c, by simp [Function.comp_def],
    by simpa [Function.comp_def] using hg, by simp [EntryOk], hev, ?_, fun _ => by simp⟩
  rw [zero_sum]
  exact hasDerivAt_const _ _

theorem node_rel (op : RelOp) {A B : ArgInfo} (hA : CurveOk v t₀ A) (hB : CurveOk v t₀ B)
    (h : A.dep = true ∨ B.dep = true → A.F t₀ ≠ B.F t₀) :
    NodeOk v t₀ (.rel op) [A, B] := by
  classical
  refine node_const _ (if op.holds (A.F t₀) (B.F t₀) then 1 else 0)
    (by simp [gradient]) ?_
  by_cases ho : A.dep = true ∨ B.dep = true
  · have hne := h ho
    rcases lt_or_gt_of_ne hne with hlt | hlt
    · filter_upwards [hA.cont.eventually_lt hB.cont hlt] with t ht
      simp only [List.map_cons, List.map_nil, realApp, Option.some.injEq]
      congr 1
      cases op <;> simp only [RelOp.holds, eq_iff_iff] <;> constructor <;> intro <;>
        first | (exfalso; linarith) | linarith
    · filter_upwards [hB.cont.eventually_lt hA.cont hlt] with t ht
      simp only [List.map_cons, List.map_nil, realApp, Option.some.injEq]
      congr 1
      cases op <;> simp only [RelOp.holds, eq_iff_iff] <;> constructor <;> intro <;>
        first | (exfalso; linarith) | linarith
  · have ho' : A.dep = false ∧ B.dep = false := by simpa using ho
    refine .of_forall fun t => ?_
    simp only [List.map_cons, List.map_nil, realApp]
    rw [hA.indep ho'.1 t, hB.indep ho'.2 t]

theorem node_land {c : Prop} (As : List ArgInfo) (h : ∀ A ∈ As, CurveOk v t₀ A)
    (hs : ∀ A ∈ As, (A.toVal t₀ c).TruthStable) : NodeOk v t₀ .land As := by
  classical
  refine node_const _ (if ∀ y ∈ As.map (fun A => A.F t₀), y ≠ 0 then 1 else 0)
    (by simp [gradient, Function.comp_def]) ?_
  filter_upwards [eventually_list As fun A hA => truth_eventually (h A hA) (hs A hA)] with t ht
  simp only [realApp, Option.some.injEq]
  congr 1
  simp only [List.mem_map, forall_exists_index, and_imp, forall_apply_eq_imp_iff₂, eq_iff_iff]
  exact forall₂_congr ht

theorem node_lor {c : Prop} (As : List ArgInfo) (h : ∀ A ∈ As, CurveOk v t₀ A)
    (hs : ∀ A ∈ As, (A.toVal t₀ c).TruthStable) : NodeOk v t₀ .lor As := by
  classical
  refine node_const _ (if ∃ y ∈ As.map (fun A => A.F t₀), y ≠ 0 then 1 else 0)
    (by simp [gradient, Function.comp_def]) ?_
  filter_upwards [eventually_list As fun A hA => truth_eventually (h A hA) (hs A hA)] with t ht
  simp only [realApp, Option.some.injEq]
  congr 1
  simp only [List.mem_map, exists_exists_and_eq_and, eq_iff_iff]
  constructor
  · rintro ⟨A, hA, h⟩; exact ⟨A, hA, (ht A hA).mp h⟩
  · rintro ⟨A, hA, h⟩; exact ⟨A, hA, (ht A hA).mpr h⟩

theorem eval_select {c a b : Expr ℝ} {y z w : ℝ} (hc : c.eval v = some y) (ha : a.eval v = some z)
    (hb : b.eval v = some w) :
    (selectE c a b).eval v = some (open Classical in if y ≠ 0 then z else w) := by
  unfold selectE
  rw [Expr.eval_fn _ _ _ (by simp)]
  simp [hc, ha, hb, app_def, realApp]

theorem node_select {c : Prop} {C A B : ArgInfo} (hC : CurveOk v t₀ C) (hA : CurveOk v t₀ A) (hB : CurveOk v t₀ B)
    (hs : (C.toVal t₀ c).TruthStable) : NodeOk v t₀ .select [C, A, B] := by
  classical
  refine ⟨[(C, .dbl 0, 0),
      (A, selectE C.a (.dbl 1) (.dbl 0), if C.F t₀ ≠ 0 then 1 else 0),
      (B, selectE C.a (.dbl 0) (.dbl 1), if C.F t₀ ≠ 0 then 0 else 1)],
    fun t => if C.F t₀ ≠ 0 then A.F t else B.F t, rfl, rfl, ?_, ?_, ?_, by simp [Fn.isBool]⟩
  · intro p hp
    simp only [List.mem_cons, List.not_mem_nil, or_false] at hp
    rcases hp with rfl | rfl | rfl
    · exact Or.inl (by simp)
    · refine Or.inl ((eval_select hC.val (Expr.eval_dbl _ _) (Expr.eval_dbl _ _)).trans ?_)
      congr
    · refine Or.inl ((eval_select hC.val (Expr.eval_dbl _ _) (Expr.eval_dbl _ _)).trans ?_)
      congr
  · filter_upwards [truth_eventually hC hs] with t ht
    simp only [List.map_cons, List.map_nil, realApp, Option.some.injEq]
    congr 1
    simp only [ht]
  · by_cases h : C.F t₀ ≠ 0
    · simp only [if_pos h]
      simpa using hA.deriv
    · simp only [if_neg h]
      simpa using hB.deriv

end Heyoka.Sym
