import Verif.Expr.DiffNode2

/-!
# C02: symbolic differentiation is correct
-/

set_option linter.unusedSectionVars false

open Filter Topology

namespace Heyoka.Sym

variable [DFunc]

/-- The symbolic derivative of an argument is correct. -/
structure DiffArgOk (x : DVar) (v : Env ℝ) (A : ArgInfo) : Prop where
  diff : A.a.diff x = .ok A.d
  dval : A.d.eval v = some A.D
  ev : ∀ᶠ t in 𝓝 (v.get x), A.a.eval (v.set x t) = some (A.F t)
  deriv : HasDerivAt A.F A.D (v.get x)
  indep : A.a.occurs x = false → IsZeroNum A.d ∧ ∀ t, A.F t = A.F (v.get x)
  bool : A.a.isBool → ∀ᶠ t in 𝓝 (v.get x), A.F t = A.F (v.get x)
  hdep : A.dep = A.a.occurs x
  hisB : A.isB = A.a.isBool

variable {x : DVar} {v : Env ℝ} {t₀ : ℝ}

theorem DiffArgOk.curve {A : ArgInfo} (h : DiffArgOk x v A) : CurveOk v (v.get x) A where
  val := by simpa using h.ev.self_of_nhds
  deriv := h.deriv
  indep := fun hi => (h.indep (h.hdep ▸ hi)).2
  bool := fun hb => h.bool (h.hisB ▸ hb)

theorem DiffArgOk.D_zero {A : ArgInfo} (h : DiffArgOk x v A) (hi : A.a.occurs x = false) : A.D = 0 :=
  h.curve.D_zero (h.hdep ▸ hi)

/-- The chain rule for all the functions. -/
theorem node_ok {f : Fn ℝ} {As : List ArgInfo} (h : ∀ A ∈ As, CurveOk v t₀ A) (hf : f ≠ .time)
    (hd : DiffPt f (As.map (ArgInfo.toVal t₀ (∀ A ∈ As, A.a.isNum = true)))) :
    NodeOk v t₀ f As := by
  have one : ∀ {A : ArgInfo}, As = [A] → A.a.isNum = true → ∀ B ∈ As, B.a.isNum = true := by
    rintro A rfl hA B hB
    simp only [List.mem_singleton] at hB
    exact hB ▸ hA
  have two : ∀ {A B : ArgInfo}, As = [A, B] → A.a.isNum = true → B.a.isNum = true →
      ∀ C ∈ As, C.a.isNum = true := by
    rintro A B rfl hA hB C hC
    simp only [List.mem_cons, List.not_mem_nil, or_false] at hC
    rcases hC with rfl | rfl
    · exact hA
    · exact hB
  generalize (∀ A ∈ As, A.a.isNum = true) = c at hd one two
  match f, As, hd with
  | .sum, _, _ => exact node_sum _ h
  | .prod neg, _, _ => exact node_prod neg _ h
  | .pow algo, [b, e], hd =>
    have hb := h b (by simp)
    have he := h e (by simp)
    refine node_pow algo hb he ?_ hd.1 fun ho => ?_
    · cases h1 : b.a.isNum with
      | false => exact Or.inl rfl
      | true =>
        cases h2 : e.a.isNum with
        | false => exact Or.inr (Or.inl rfl)
        | true =>
          have hc := two rfl h1 h2
          rcases hd.2 (Or.inl (Or.inr hc)) with h3 | h3
          · exact Or.inr (Or.inr h3)
          · exact absurd (Or.inr hc) h3.1
    · rcases hd.2 (ho.imp Or.inl Or.inl) with h3 | h3
      · exact Or.inl h3
      · exact Or.inr ⟨fun h4 => h3.1 (Or.inl h4), h3.2⟩
  | .sin _, [A], _ => exact node_sin _ (h A (by simp))
  | .cos _, [A], _ => exact node_cos _ (h A (by simp))
  | .tan, [A], hd => exact node_tan (h A (by simp)) hd
  | .asin, [A], hd =>
    refine node_asin (h A (by simp)) ?_ hd.1 fun ho => hd.2 (Or.inl ho)
    cases h1 : A.a.isNum with
    | false => exact Or.inl rfl
    | true => exact Or.inr (hd.2 (Or.inr (one rfl h1)))
  | .acos, [A], hd =>
    refine node_acos (h A (by simp)) ?_ hd.1 fun ho => hd.2 (Or.inl ho)
    cases h1 : A.a.isNum with
    | false => exact Or.inl rfl
    | true => exact Or.inr (hd.2 (Or.inr (one rfl h1)))
  | .atan, [A], _ => exact node_atan (h A (by simp))
  | .atan2, [Y, X], hd =>
    exact node_atan2 (h Y (by simp)) (h X (by simp)) hd.1 fun ho => hd.2 (ho.imp Or.inl Or.inl)
  | .sinh, [A], _ => exact node_sinh (h A (by simp))
  | .cosh, [A], _ => exact node_cosh (h A (by simp))
  | .tanh, [A], _ => exact node_tanh (h A (by simp))
  | .asinh, [A], _ => exact node_asinh (h A (by simp))
  | .acosh, [A], hd =>
    refine node_acosh (h A (by simp)) ?_ hd.1 fun ho => hd.2 (Or.inl ho)
    cases h1 : A.a.isNum with
    | false => exact Or.inl rfl
    | true => exact Or.inr (hd.2 (Or.inr (one rfl h1)))
  | .atanh, [A], hd => exact node_atanh (h A (by simp)) hd
  | .erf, [A], _ => exact node_erf (h A (by simp))
  | .exp, [A], _ => exact node_exp (h A (by simp))
  | .log, [A], hd => exact node_log (h A (by simp)) hd
  | .sigmoid, [A], _ => exact node_sigmoid (h A (by simp))
  | .relu s, [A], hd => exact node_relu s (h A (by simp)) fun ho => hd (Or.inl ho)
  | .relup s, [A], hd => exact node_relup s (h A (by simp)) fun ho => hd (Or.inl ho)
  | .select, [C, A, B], hd =>
    exact node_select (h C (by simp)) (h A (by simp)) (h B (by simp)) hd
  | .rel op, [A, B], hd =>
    exact node_rel op (h A (by simp)) (h B (by simp)) fun ho => hd (ho.imp Or.inl Or.inl)
  | .land, As, hd => exact node_land As h fun A hA => hd _ (List.mem_map_of_mem hA)
  | .lor, As, hd => exact node_lor As h fun A hA => hd _ (List.mem_map_of_mem hA)
  | .time, [], _ => exact absurd rfl hf
  | .const name, [], hd =>
    have hd' : name = "pi" := hd
    exact node_const [] Real.pi rfl (.of_forall fun _ => by simp [realApp, hd'])
  | .kepE, [E, M], hd =>
    exact node_kepE (h E (by simp)) (h M (by simp)) hd.1 (fun ho => hd.2.1 (Or.inl ho))
      fun ho => hd.2.2 (ho.imp Or.inl Or.inl)
  | .kepF, [H, K, L], hd =>
    exact node_kepF (h H (by simp)) (h K (by simp)) (h L (by simp)) hd.1
      fun ho => hd.2 (ho.imp Or.inl (Or.imp Or.inl Or.inl))
  | .kepDE, [S, C, M], hd =>
    exact node_kepDE (h S (by simp)) (h C (by simp)) (h M (by simp)) hd.1
      fun ho => hd.2 (ho.imp Or.inl (Or.imp Or.inl Or.inl))
  | .dfun id didx, As, hd =>
    obtain ⟨h1, φ, h2, h3⟩ := hd
    refine node_dfun id h h1 h2 ?_
    rw [List.map_map] at h3
    exact h3

theorem diffL_ok {As : List ArgInfo} (h : ∀ A ∈ As, DiffArgOk x v A) :
    Expr.diffL x (As.map (·.a)) = .ok (As.map (·.d)) := by
  induction As with
  | nil => simp [Expr.diffL]
  | cons A As ih =>
    simp [Expr.diffL, (h A (by simp)).diff, ih fun B hB => h B (by simp [hB])]

/-- From the arguments of a function to the function. -/
theorem node_argOk {f : Fn ℝ} {As : List ArgInfo} (h : ∀ A ∈ As, DiffArgOk x v A) (hf : f ≠ .time)
    (hn : NodeOk v (v.get x) f As) :
    ∃ A : ArgInfo, A.a = .fn f (As.map (·.a)) ∧ DiffArgOk x v A := by
  obtain ⟨T, G, rfl, hg, he, hev, hder, hb⟩ := hn
  set As := T.map (·.1) with hAs
  have hval : Expr.evalL v (List.zipWith mulE (T.map (·.2.1)) (As.map (·.d))) =
      some (T.map fun p => p.2.2 * p.1.D) := by
    have hz : List.zipWith mulE (T.map (·.2.1)) (As.map (·.d)) =
        T.map fun p => mulE p.2.1 p.1.d := by
      rw [hAs, List.map_map]
      clear hg he hev hder hb h hAs As
      induction T with
      | nil => rfl
      | cons p T ih => simp
    rw [hz, Expr.evalL_eq_some, List.forall₂_map_left_iff, List.forall₂_map_right_iff,
      List.forall₂_same]
    intro p hp
    have hok : DiffArgOk x v p.1 := h p.1 (List.mem_map_of_mem hp)
    rcases he p hp with h1 | ⟨h1, h2⟩
    · exact eval_mulE h1 hok.dval
    · rw [hok.hdep] at h1
      obtain ⟨n, hn, hn0⟩ := mulE_zero h2 (hok.indep h1).1
      rw [hn, Expr.eval_num, hn0, hok.D_zero h1, mul_zero]
  -- The function is constant if no argument depends on the variable.
  have hGev : ∀ᶠ t in 𝓝 (v.get x),
      (Expr.fn f (As.map (·.a))).eval (v.set x t) = some (G t) := by
    have hall : ∀ᶠ t in 𝓝 (v.get x), ∀ A ∈ As, A.a.eval (v.set x t) = some (A.F t) :=
      eventually_list As fun A hA => (h A hA).ev
    filter_upwards [hall, hev] with t h1 h2
    have h3 : Expr.evalL (v.set x t) (As.map (·.a)) = some (As.map fun A => A.F t) := by
      rw [Expr.evalL_eq_some, List.forall₂_map_left_iff, List.forall₂_map_right_iff,
        List.forall₂_same]
      exact h1
    rw [Expr.eval_fn _ _ _ (Or.inl hf), h3]
    exact h2
  have hdiff : (Expr.fn f (As.map (·.a))).diff x =
      .ok (sumE (List.zipWith mulE (T.map (·.2.1)) (As.map (·.d)))) := by
    simp only [Expr.diff, diffL_ok h, Res.bind_ok, hg]
    rw [if_neg (by simp [hAs])]
  by_cases ho : (Expr.fn f (As.map (·.a))).occurs x = true
  · refine ⟨⟨.fn f (As.map (·.a)),
      sumE (List.zipWith mulE (T.map (·.2.1)) (As.map (·.d))), G,
      (T.map fun p => p.2.2 * p.1.D).sum, _,
      (Expr.fn f (As.map (·.a))).isBool⟩, rfl, hdiff, ?_, hGev, hder, ?_, ?_, rfl, rfl⟩
    · show (sumE _).eval v = _
      rw [eval_sumE, hval]; rfl
    · intro h0
      rw [show (Expr.fn f (As.map (·.a))).occurs x = false from h0] at ho
      exact absurd ho (by simp)
    · intro hbool
      refine hb ?_
      cases f <;> trivial
  · have ho' : (Expr.fn f (As.map (·.a))).occurs x = false := by simpa using ho
    have hind : ∀ A ∈ As, A.a.occurs x = false := by
      simp only [Expr.occurs, Expr.occursL_eq_any, List.any_eq_false, List.mem_map,
        forall_exists_index, and_imp, forall_apply_eq_imp_iff₂] at ho'
      intro A hA
      simpa using ho' A hA
    have hG0 := hGev.self_of_nhds
    have hGc : ∀ᶠ t in 𝓝 (v.get x), G t = G (v.get x) := by
      filter_upwards [hGev] with t ht
      rw [eval_set_of_not_occurs _ _ ho'] at ht hG0
      rw [hG0] at ht
      exact (Option.some.inj ht).symm
    have hz : IsZeroNum (sumE (List.zipWith mulE (T.map (·.2.1)) (As.map (·.d)))) := by
      apply sumE_zero
      intro e hme
      rw [List.mem_iff_getElem] at hme
      obtain ⟨i, hi, rfl⟩ := hme
      have hi' : i < T.length := by
        rw [List.length_zipWith, List.length_map] at hi
        omega
      simp only [hAs, List.getElem_zipWith, List.getElem_map]
      have hp : T[i] ∈ T := List.getElem_mem _
      have hA : T[i].1 ∈ As := List.mem_map_of_mem hp
      refine mulE_zero ?_ ((h _ hA).indep (hind _ hA)).1
      rcases he _ hp with h1 | h1
      · exact Sane.of_eval h1
      · exact h1.2
    refine ⟨⟨.fn f (As.map (·.a)),
      sumE (List.zipWith mulE (T.map (·.2.1)) (As.map (·.d))), fun _ => G (v.get x), 0, _,
      (Expr.fn f (As.map (·.a))).isBool⟩, rfl, hdiff, ?_, ?_,
      hasDerivAt_const _ _, fun _ => ⟨hz, fun _ => rfl⟩, fun _ => .of_forall fun _ => rfl, rfl, rfl⟩
    · obtain ⟨n, hn, hn0⟩ := hz
      show (sumE _).eval v = _
      rw [hn, Expr.eval_num, hn0]
    · filter_upwards [hGev, hGc] with t h1 h2
      rw [h1, h2]

/-- Every differentiable expression. -/
theorem smooth_argOk (e : Expr ℝ) (h : Smooth x v e) : ∃ A : ArgInfo, A.a = e ∧ DiffArgOk x v A := by
  induction e using Expr.ind with
  | num n =>
    simp only [Smooth, Option.isSome_iff_exists] at h
    obtain ⟨y, hy⟩ := h
    exact ⟨⟨.num n, .num ⟨n.ty, .fin 0⟩, fun _ => y, 0, _, _⟩, rfl, rfl, by simp [Num.toK?, FVal.toK?],
      .of_forall fun t => by simpa using hy, hasDerivAt_const _ _,
      fun _ => ⟨⟨_, rfl, rfl⟩, fun _ => rfl⟩, fun hb => hb.elim, rfl, rfl⟩
  | var s =>
    by_cases hx : x = .var s
    · subst hx
      exact ⟨⟨.var s, .dbl 1, fun t => t, 1, _, _⟩, rfl, by simp [Expr.diff], by simp,
        .of_forall fun t => by simp [Env.set], hasDerivAt_id' _, by simp [Expr.occurs],
        fun hb => hb.elim, rfl, rfl⟩
    · refine ⟨⟨.var s, .dbl 0, fun _ => v.var s, 0, _, _⟩, rfl, ?_, by simp,
        .of_forall fun t => by simp [Env.set_var hx], hasDerivAt_const _ _,
        fun _ => ⟨⟨_, rfl, rfl⟩, fun _ => rfl⟩, fun hb => hb.elim, rfl, rfl⟩
      cases x with
      | par i => simp [Expr.diff]
      | var r =>
        have : s ≠ r := by rintro rfl; exact hx rfl
        simp [Expr.diff, this]
  | par i =>
    by_cases hx : x = .par i
    · subst hx
      exact ⟨⟨.par i, .dbl 1, fun t => t, 1, _, _⟩, rfl, by simp [Expr.diff], by simp,
        .of_forall fun t => by simp [Env.set], hasDerivAt_id' _, by simp [Expr.occurs],
        fun hb => hb.elim, rfl, rfl⟩
    · refine ⟨⟨.par i, .dbl 0, fun _ => v.par i, 0, _, _⟩, rfl, ?_, by simp,
        .of_forall fun t => by simp [Env.set_par hx], hasDerivAt_const _ _,
        fun _ => ⟨⟨_, rfl, rfl⟩, fun _ => rfl⟩, fun hb => hb.elim, rfl, rfl⟩
      cases x with
      | var r => simp [Expr.diff]
      | par j =>
        have : i ≠ j := by rintro rfl; exact hx rfl
        simp [Expr.diff, this]
  | fn f args ih =>
    simp only [Smooth] at h
    obtain ⟨hs, vals, hvals, hd⟩ := h
    rw [SmoothL_iff] at hs
    have hAs : ∃ As : List ArgInfo, As.map (·.a) = args ∧ ∀ A ∈ As, DiffArgOk x v A := by
      clear hvals hd
      induction args with
      | nil => exact ⟨[], rfl, by simp⟩
      | cons a as ih' =>
        obtain ⟨A, hA1, hA2⟩ := ih a (by simp) (hs a (by simp))
        obtain ⟨As, h1, h2⟩ := ih' (fun b hb => ih b (by simp [hb])) fun b hb => hs b (by simp [hb])
        refine ⟨A :: As, by simp [hA1, h1], ?_⟩
        intro B hB
        rcases List.mem_cons.mp hB with rfl | hB
        · exact hA2
        · exact h2 B hB
    obtain ⟨As, rfl, hok⟩ := hAs
    by_cases hf : f = .time
    · subst hf
      cases As with
      | cons A As =>
        rw [evalL_vals fun A hA => (hok A hA).curve] at hvals
        obtain rfl := Option.some.inj hvals
        exact hd.elim
      | nil =>
        exact ⟨⟨.fn .time [], .dbl 0, fun _ => v.time, 0, _, _⟩, rfl, rfl, by simp,
          .of_forall fun t => by simp, hasDerivAt_const _ _,
          fun _ => ⟨⟨_, rfl, rfl⟩, fun _ => rfl⟩, fun hb => hb.elim, rfl, rfl⟩
    · refine node_argOk hok hf (node_ok (fun A hA => (hok A hA).curve) hf ?_)
      rw [evalL_vals fun A hA => (hok A hA).curve] at hvals
      obtain rfl := Option.some.inj hvals
      rw [List.zipWith_map, List.zipWith_self] at hd
      simp only [List.forall_mem_map] at hd
      rw [List.map_congr_left fun A hA => ?_]
      · exact hd
      · rw [ArgInfo.toVal, (hok A hA).hdep, (hok A hA).hisB]

/-- **C02.** At every point at which the functions occurring in `e` are differentiable, `diff(e, x)`
succeeds and its value is the derivative of the value of `e` with respect to `x`, which is defined in
a neighbourhood. -/
theorem diff_correct {e : Expr ℝ} (h : Smooth x v e) :
    ∃ (d : Expr ℝ) (D : ℝ) (F : ℝ → ℝ),
      e.diff x = .ok d ∧ d.eval v = some D ∧
      (∀ᶠ t in 𝓝 (v.get x), e.eval (v.set x t) = some (F t)) ∧ HasDerivAt F D (v.get x) := by
  obtain ⟨A, rfl, hA⟩ := smooth_argOk e h
  exact ⟨A.d, A.D, A.F, hA.diff, hA.dval, hA.ev, hA.deriv⟩

/-- The derivative with respect to a variable or parameter that does not occur is zero. -/
theorem diff_not_occurring {e : Expr ℝ} (h : Smooth x v e) (ho : e.occurs x = false) :
    ∃ n : Num ℝ, e.diff x = .ok (.num n) ∧ n.toK? = some 0 := by
  obtain ⟨A, rfl, hA⟩ := smooth_argOk e h
  obtain ⟨n, hn, h0⟩ := (hA.indep ho).1
  exact ⟨n, by rw [hA.diff, hn], h0⟩

/-- `diff(e, x)` with `x` neither a variable nor a parameter throws. -/
theorem diffEx_throws (e : Expr ℝ) (y : Expr ℝ) (h1 : ∀ s, y ≠ .var s) (h2 : ∀ i, y ≠ .par i) :
    diffEx e y = .throw := by
  cases y with
  | var s => exact absurd rfl (h1 s)
  | par i => exact absurd rfl (h2 i)
  | num n => rfl
  | fn f args => rfl

/-- An expression with square root of zero: `sqrt(x)` after the substitution of `0` for `x`. Its value
is zero, but its derivative with respect to an unrelated variable is not: it is a NaN (the infinity
produced by the folding of `0 ** (-1/2)` in the C++ code, represented by a NaN here, is multiplied by
zero). This is why `Smooth` asks for differentiability also of functions of numbers. -/
theorem diff_of_constant_may_be_nan :
    ∃ (e d : Expr ℝ), (∀ v, e.eval v = some 0) ∧ e.occurs (.var "y") = false ∧
      e.diff (.var "y") = .ok d ∧ ∀ v, d.eval v = none := by
  refine ⟨.fn (.pow (.posHalf 1)) [.dbl 0, .dbl (1 / 2)],
    sumE [mulE (mulE (.dbl (1 / 2)) (powE (.dbl 0) (subE (.dbl (1 / 2)) (.dbl 1))))
        (.num ⟨.dbl, .fin 0⟩),
      mulE (mulE (powE (.dbl 0) (.dbl (1 / 2))) (unaryE .log (.dbl 0))) (.num ⟨.dbl, .fin 0⟩)],
    fun v => ?_, rfl, rfl, fun v => ?_⟩
  · rw [Expr.eval_fn _ _ _ (by simp)]
    have : PowDom 0 ((1 / 2 : ℝ)) := Or.inr (Or.inl ⟨rfl, by norm_num⟩)
    simp only [Expr.evalL_cons, Expr.eval_dbl, Expr.evalL_nil, Option.map_some, Option.bind_some,
      app_def, realApp_pow this]
    norm_num
  · have hpd : ¬ PowDom 0 ((1 / 2 : ℝ) - 1) := by
      unfold PowDom
      norm_num
    have hs : subE (.dbl (1 / 2)) (.dbl 1) = (.dbl (1 / 2 - 1) : Expr ℝ) := by
      simp [subE, Expr.dbl, Num.dbl, Num.sub, FVal.neg, FVal.add, NumTy.promote, sub_eq_add_neg]
    have hp : powE (.dbl 0) (.dbl (1 / 2 - 1)) = (.num ⟨.dbl, .nan⟩ : Expr ℝ) := by
      simp only [powE, Expr.dbl, Num.dbl, foldFn, fold_app (f := .pow .general) (by simp), NumTy.promote]
      simp only [List.mapM_cons, List.mapM_nil, Num.toK?, FVal.toK?, Option.pure_def,
        Option.bind_eq_bind, Option.bind_some, app_def, realApp]
      rw [if_neg hpd]
      rfl
    rw [hs, hp, eval_sumE]
    have h1 : (mulE (mulE (.dbl (1 / 2)) (.num ⟨.dbl, .nan⟩)) (.num ⟨.dbl, .fin 0⟩) : Expr ℝ).eval v
        = none := by
      simp [mulE, Expr.dbl, Num.dbl, Num.mul, FVal.mul, Num.toK?, FVal.toK?]
    rw [Expr.evalL_cons, h1]
    rfl

/-! ### Derivatives of `dfun` -/

/-- The partial derivatives of a `dfun` are the `dfun`s with the same name and arguments whose
multi-index has the order of the respective argument incremented. -/
theorem dfun_gradient {id : String} {didx : List (Nat × Nat)} (args : List (Expr ℝ))
    (h : DIdxOk didx) :
    ∃ gs, gradient (.dfun id didx) args = .ok gs ∧ gs.length = args.length ∧
      ∀ i, i < args.length → ∃ didx', gs[i]? = some (.fn (.dfun id didx') args) ∧ DIdxOk didx' ∧
        ∀ j, dOrder didx' j = dOrder didx j + if j = i then 1 else 0 := by
  refine ⟨_, rfl, by simp, fun i hi => ⟨bumpIdx i false didx, ?_, (dfun_bump h).1,
    (dfun_bump h).2.1⟩⟩
  simp [hi]

/-! ### The theorems are not vacuous -/

/-- `x ** 2 * sin(y) + atan2(y, x)` at `x = -1`, `y = 2`, with respect to `x`. -/
example : Smooth (.var "x") ⟨fun s => if s = "x" then -1 else 2, fun _ => 0, 0⟩
    (.fn .sum [.fn (.prod false) [.fn (.pow (.posInt 2)) [.var "x", .dbl 2],
      .fn (.sin false) [.var "y"]], .fn .atan2 [.var "y", .var "x"]]) := by
  have hp : PowDom (-1) (2 : ℝ) := Or.inr (Or.inr ⟨by norm_num, 2, by norm_num⟩)
  simp [Smooth, SmoothL, DiffPt, Expr.evalL, Expr.eval, app_def, realApp, hp, Expr.dbl, Num.dbl,
    Num.toK?, FVal.toK?, Expr.occurs]
  exact Or.inr ⟨2, by norm_num⟩

/-- `select(p < 5, relu(p), kepE(1/2, y))` with respect to a parameter and at a point at which the
comparison is not an equality. -/
example : Smooth (.par 0) ⟨fun _ => 0, fun _ => 3, 0⟩
    (.fn .select [.fn (.rel .lt) [.par 0, .dbl 5],
      .fn (.relu 0) [.par 0], .fn .kepE [.dbl (1 / 2), .var "y"]]) := by
  simp [Smooth, SmoothL, DiffPt, Expr.evalL, Expr.eval, app_def, realApp, Expr.dbl, Num.dbl,
    Num.toK?, FVal.toK?, Expr.occurs, RelOp.holds, ArgVal.TruthStable]
  norm_num

/-- A multi-index. -/
example : DIdxOk [(0, 2), (3, 1)] ∧ bumpIdx 1 false [(0, 2), (3, 1)] = [(0, 2), (1, 1), (3, 1)] := by
  refine ⟨⟨by simp, by simp⟩, by decide⟩

end Heyoka.Sym
