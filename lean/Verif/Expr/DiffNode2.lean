import Verif.Expr.DiffNode
import Verif.Expr.DFunReal

/-!
# The chain rule for `pow()`, `atan2()` and the Kepler functions
-/

set_option linter.unusedSectionVars false

open Filter Topology

namespace Heyoka.Sym

variable [DFunc]

variable {t₀ : ℝ} {v : Env ℝ}

/-- No argument depends on the variable. -/
theorem node_indep {f : Fn ℝ} {As : List ArgInfo} (h : ∀ A ∈ As, CurveOk v t₀ A) (hf : ¬ f.isBool)
    (hi : ∀ A ∈ As, A.dep = false) (c : ℝ)
    (hv : realApp f (As.map fun A => A.F t₀) = some c) (gs : List (Expr ℝ))
    (hl : gs.length = As.length) (hg : gradient f (As.map (·.a)) = .ok gs) (hs : ∀ g ∈ gs, Sane g) :
    NodeOk v t₀ f As := by
  refine ⟨List.zipWith (fun A g => (A, g, 0)) As gs, fun _ => c, ?_, ?_, ?_, ?_, ?_,
    fun hb => absurd hb hf⟩
  · rw [List.map_zipWith]
    apply List.ext_getElem <;> simp [hl]
  · rw [hg, List.map_zipWith]
    congr 1
    apply List.ext_getElem <;> simp [hl]
  · intro p hp
    rw [List.mem_iff_getElem] at hp
    obtain ⟨i, hi', rfl⟩ := hp
    rw [List.getElem_zipWith]
    refine Or.inr ⟨hi _ (List.getElem_mem _), hs _ (List.getElem_mem _)⟩
  · refine .of_forall fun t => ?_
    rw [← hv]
    congr 1
    exact List.map_congr_left fun A hA => (h A hA).indep (hi A hA) t
  · refine (hasDerivAt_const _ c).congr_deriv ?_
    rw [List.map_zipWith]
    symm
    apply List.sum_eq_zero
    intro y hy
    rw [List.mem_iff_getElem] at hy
    obtain ⟨i, hi', rfl⟩ := hy
    simp

/-- Two arguments, all the partial derivatives have a value. -/
theorem node_mk2 {f : Fn ℝ} {A B : ArgInfo} (hf : ¬ f.isBool) {gA gB : Expr ℝ} {rA rB : ℝ}
    (eA : gA.eval v = some rA) (eB : gB.eval v = some rB) (G : ℝ → ℝ)
    (hg : gradient f [A.a, B.a] = .ok [gA, gB])
    (hev : ∀ᶠ t in 𝓝 t₀, realApp f [A.F t, B.F t] = some (G t))
    (hd : HasDerivAt G (rA * A.D + rB * B.D) t₀) : NodeOk v t₀ f [A, B] :=
  ⟨[(A, gA, rA), (B, gB, rB)], G, rfl, hg, by simp [EntryOk, eA, eB], hev, by simpa using hd,
    fun hb => absurd hb hf⟩

/-- Three arguments, all the partial derivatives have a value. -/
theorem node_mk3 {f : Fn ℝ} {A B C : ArgInfo} (hf : ¬ f.isBool) {gA gB gC : Expr ℝ} {rA rB rC : ℝ}
    (eA : gA.eval v = some rA) (eB : gB.eval v = some rB) (eC : gC.eval v = some rC) (G : ℝ → ℝ)
    (hg : gradient f [A.a, B.a, C.a] = .ok [gA, gB, gC])
    (hev : ∀ᶠ t in 𝓝 t₀, realApp f [A.F t, B.F t, C.F t] = some (G t))
    (hd : HasDerivAt G (rA * A.D + (rB * B.D + rC * C.D)) t₀) : NodeOk v t₀ f [A, B, C] :=
  ⟨[(A, gA, rA), (B, gB, rB), (C, gC, rC)], G, rfl, hg, by simp [EntryOk, eA, eB, eC], hev,
    by simpa using hd, fun hb => absurd hb hf⟩

theorem powDom_int {y : ℝ} {n : ℤ} (h : y ≠ 0 ∨ 0 ≤ n) : PowDom y n := by
  rcases lt_trichotomy y 0 with hy | hy | hy
  · exact Or.inr (Or.inr ⟨hy, n, rfl⟩)
  · rcases h with h | h
    · exact absurd hy h
    · exact Or.inr (Or.inl ⟨hy, by exact_mod_cast h⟩)
  · exact Or.inl hy

theorem node_pow (algo : PowAlgo) {B E : ArgInfo} (hB : CurveOk v t₀ B) (hE : CurveOk v t₀ E)
    (hn : B.a.isNum = false ∨ E.a.isNum = false ∨ 0 < B.F t₀)
    (hdom : PowDom (B.F t₀) (E.F t₀))
    (hd : B.dep = true ∨ E.dep = true →
      0 < B.F t₀ ∨ (¬ E.dep = true ∧ (∃ n : ℤ, E.F t₀ = n) ∧
        (B.F t₀ ≠ 0 ∨ 1 ≤ E.F t₀))) :
    NodeOk v t₀ (.pow algo) [B, E] := by
  have hs1 : Sane (mulE E.a (powE B.a (subE E.a (.dbl 1)))) := by
    rcases hn with hb | he | hpos
    · exact sane_mulE (Sane.of_eval hE.val) (sane_powE_base hb)
    · exact sane_mulE_left he
    · exact Sane.of_eval (eval_mulE hE.val
        (eval_powE hB.val (eval_sub hE.val (Expr.eval_dbl _ _)) (Or.inl hpos)))
  have hs2 : Sane (mulE (powE B.a E.a) (unaryE .log B.a)) := by
    rcases hn with hb | he | hpos
    · exact sane_mulE_right (nn_unaryE hb)
    · exact sane_mulE_left (nn_powE_exp he)
    · exact Sane.of_eval (eval_mulE (eval_powE hB.val hE.val (Or.inl hpos))
        (eval_unary (by simp) hB.val (z := Real.log (B.F t₀)) (by simp [realApp, hpos])))
  by_cases ho : B.dep = true ∨ E.dep = true
  · rcases hd ho with hpos | ⟨hi, ⟨n, hn'⟩, hr⟩
    · -- Positive base.
      refine ⟨[(B, mulE E.a (powE B.a (subE E.a (.dbl 1))),
          E.F t₀ * B.F t₀ ^ (E.F t₀ - 1)),
          (E, mulE (powE B.a E.a) (unaryE .log B.a),
            B.F t₀ ^ E.F t₀ * Real.log (B.F t₀))],
        fun t => B.F t ^ E.F t, rfl, rfl, ?_, ?_, ?_, by simp [Fn.isBool]⟩
      · intro p hp
        simp only [List.mem_cons, List.not_mem_nil, or_false] at hp
        rcases hp with rfl | rfl
        · exact Or.inl (eval_mulE hE.val
            (eval_powE hB.val (eval_sub hE.val (Expr.eval_dbl _ _)) (Or.inl hpos)))
        · exact Or.inl (eval_mulE (eval_powE hB.val hE.val (Or.inl hpos))
            (eval_unary (by simp) hB.val (by simp [realApp, hpos])))
      · filter_upwards [hB.cont.eventually (lt_mem_nhds hpos)] with t ht
        exact realApp_pow (Or.inl ht)
      · refine (hB.deriv.rpow hE.deriv hpos).congr_deriv ?_
        simp only [List.map_cons, List.map_nil, List.sum_cons, List.sum_nil]
        ring
    · -- Constant integral exponent.
      have hi' : E.dep = false := by simpa using hi
      refine ⟨[(B, mulE E.a (powE B.a (subE E.a (.dbl 1))),
          E.F t₀ * B.F t₀ ^ (E.F t₀ - 1)),
          (E, mulE (powE B.a E.a) (unaryE .log B.a), 0)],
        fun t => B.F t ^ E.F t₀, rfl, rfl, ?_, ?_, ?_, by simp [Fn.isBool]⟩
      · intro p hp
        simp only [List.mem_cons, List.not_mem_nil, or_false] at hp
        rcases hp with rfl | rfl
        · refine Or.inl (eval_mulE hE.val
            (eval_powE hB.val (eval_sub hE.val (Expr.eval_dbl _ _)) ?_))
          have : E.F t₀ - 1 = ((n - 1 : ℤ) : ℝ) := by rw [hn']; push_cast; ring
          rw [this]
          refine powDom_int (hr.imp id fun h => ?_)
          rw [hn'] at h
          have : (1 : ℤ) ≤ n := by exact_mod_cast h
          omega
        · exact Or.inr ⟨hi', hs2⟩
      · have hev : ∀ᶠ t in 𝓝 t₀, PowDom (B.F t) (E.F t₀) := by
          rcases hr with hr | hr
          · filter_upwards [hB.cont.eventually (isOpen_ne.mem_nhds hr)] with t ht
            rw [hn']
            exact powDom_int (Or.inl ht)
          · refine .of_forall fun t => ?_
            rw [hn'] at hr ⊢
            have : (1 : ℤ) ≤ n := by exact_mod_cast hr
            exact powDom_int (Or.inr (by omega))
        filter_upwards [hev] with t ht
        simp only [List.map_cons, List.map_nil]
        rw [hE.indep hi' t]
        exact realApp_pow ht
      · have h := (Real.hasDerivAt_rpow_const (p := E.F t₀) hr).comp _ hB.deriv
        refine h.congr_deriv ?_
        simp
  · have hoB : B.dep = false := by
      rw [Bool.eq_false_iff]; exact fun h => ho (Or.inl h)
    have hoE : E.dep = false := by
      rw [Bool.eq_false_iff]; exact fun h => ho (Or.inr h)
    refine node_indep (by simp [hB, hE]) (by simp [Fn.isBool]) (by simp [hoB, hoE]) _
      (by simpa using realApp_pow hdom) _ rfl rfl ?_
    simp [hs1, hs2]

/-- The derivative of the polar angle along a curve off the branch cut. -/
theorem hasDerivAt_arg {X Y : ℝ → ℝ} {X' Y' t : ℝ} (hX : HasDerivAt X X' t) (hY : HasDerivAt Y Y' t)
    (h : 0 < X t ∨ Y t ≠ 0) :
    HasDerivAt (fun s => Complex.arg ⟨X s, Y s⟩)
      ((X t * Y' - Y t * X') / (X t ^ 2 + Y t ^ 2)) t := by
  have hf : HasDerivAt (fun s => (X s : ℂ) + (Y s : ℂ) * Complex.I)
      ((X' : ℂ) + (Y' : ℂ) * Complex.I) t :=
    hX.ofReal_comp.add (hY.ofReal_comp.mul_const Complex.I)
  have hmk : ∀ s, (X s : ℂ) + (Y s : ℂ) * Complex.I = ⟨X s, Y s⟩ := fun s =>
    (Complex.mk_eq_add_mul_I _ _).symm
  have hsl : (X t : ℂ) + (Y t : ℂ) * Complex.I ∈ Complex.slitPlane := by
    rw [hmk]
    exact h
  have hl := hf.clog_real hsl
  have hi := (Complex.imCLM.hasFDerivAt (x := Complex.log ((X t : ℂ) + (Y t : ℂ) * Complex.I))
    ).comp_hasDerivAt t hl
  have hfun : (⇑Complex.imCLM ∘ fun s => Complex.log ((X s : ℂ) + (Y s : ℂ) * Complex.I)) =
      fun s => Complex.arg ⟨X s, Y s⟩ := by
    funext s
    simp only [Function.comp, Complex.imCLM_apply, Complex.log_im, hmk]
  rw [hfun] at hi
  refine hi.congr_deriv ?_
  rw [hmk, ← Complex.mk_eq_add_mul_I, Complex.imCLM_apply, Complex.div_im, Complex.normSq_mk]
  have : X t ^ 2 + Y t ^ 2 ≠ 0 := by
    rcases h with h | h
    · positivity
    · positivity
  rw [← pow_two, ← pow_two]
  field_simp

theorem node_atan2 {Y X : ArgInfo} (hY : CurveOk v t₀ Y) (hX : CurveOk v t₀ X)
    (hdom : ¬ (X.F t₀ = 0 ∧ Y.F t₀ = 0))
    (hd : Y.dep = true ∨ X.dep = true → 0 < X.F t₀ ∨ Y.F t₀ ≠ 0) :
    NodeOk v t₀ .atan2 [Y, X] := by
  have hne : X.F t₀ ^ 2 + Y.F t₀ ^ 2 ≠ 0 := by
    intro h
    have h1 := sq_nonneg (X.F t₀)
    have h2 := sq_nonneg (Y.F t₀)
    exact hdom ⟨pow_eq_zero_iff (two_ne_zero) |>.mp (by linarith),
      pow_eq_zero_iff (two_ne_zero) |>.mp (by linarith)⟩
  have hden := eval_powm1 (v := v) (eval_add (eval_pow2 hX.val) (eval_pow2 hY.val)) hne
  have e1 := eval_mulE hX.val hden
  have e2 := eval_mulE (eval_neg hY.val) hden
  by_cases ho : Y.dep = true ∨ X.dep = true
  · refine node_mk2 (by simp [Fn.isBool]) e1 e2 (fun t => Complex.arg ⟨X.F t, Y.F t⟩) rfl ?_ ?_
    · have hev : ∀ᶠ t in 𝓝 t₀, ¬ (X.F t = 0 ∧ Y.F t = 0) := by
        by_cases hx0 : X.F t₀ = 0
        · have hy0 : Y.F t₀ ≠ 0 := fun h => hdom ⟨hx0, h⟩
          filter_upwards [hY.cont.eventually (isOpen_ne.mem_nhds hy0)] with t ht
          exact fun h => ht h.2
        · filter_upwards [hX.cont.eventually (isOpen_ne.mem_nhds hx0)] with t ht
          exact fun h => ht h.1
      filter_upwards [hev] with t ht
      simp [realApp, ht]
    · refine (hasDerivAt_arg hX.deriv hY.deriv (hd ho)).congr_deriv ?_
      field_simp
      ring
  · have hoY : Y.dep = false := by
      rw [Bool.eq_false_iff]; exact fun h => ho (Or.inl h)
    have hoX : X.dep = false := by
      rw [Bool.eq_false_iff]; exact fun h => ho (Or.inr h)
    refine node_indep (by simp [hY, hX]) (by simp [Fn.isBool]) (by simp [hoY, hoX])
      (Complex.arg ⟨X.F t₀, Y.F t₀⟩) (by simp [realApp, hdom]) _ rfl rfl ?_
    intro g hg
    simp only [List.mem_cons, List.not_mem_nil, or_false] at hg
    rcases hg with rfl | rfl
    · exact Sane.of_eval e1
    · exact Sane.of_eval e2

/-! ### Kepler's equation -/

theorem eval_kep {f : Fn ℝ} (hf : f ≠ .time) {As : List ArgInfo} (h : ∀ A ∈ As, CurveOk v t₀ A) {r : ℝ}
    (hr : realApp f (As.map fun A => A.F t₀) = some r) :
    (Expr.fn f (As.map (·.a))).eval v = some r := by
  rw [Expr.eval_fn _ _ _ (Or.inl hf), evalL_vals h]
  exact hr

/-- The composition with the reduction to `[0, 2π)`. -/
theorem hasDerivAt_red {u : ℝ → ℝ} {u' t : ℝ} (h : HasDerivAt u u' t) (h0 : Kepler.red (u t) ≠ 0) :
    HasDerivAt (fun s => Kepler.red (u s)) u' t := by
  have h1 : (fun s => Kepler.red (u s)) =ᶠ[𝓝 t] fun s => u s - (u t - Kepler.red (u t)) :=
    h.continuousAt.eventually (Kepler.red_eventually h0)
  exact (h.sub_const _).congr_of_eventuallyEq h1

/-- The denominator of the derivatives of the solution of Kepler's equation. -/
theorem kep_den_pos {a b : ℝ} (h : a ^ 2 + b ^ 2 < 1) (y : ℝ) :
    0 < 1 - a * Real.sin y + b * Real.cos y := by
  have := Kepler.abs_lin_lt_one (p := b) (q := -a) (by nlinarith) y
  have := (abs_lt.mp this).1
  linarith

theorem node_kepE {E M : ArgInfo} (hE : CurveOk v t₀ E) (hM : CurveOk v t₀ M)
    (hdom : 0 ≤ E.F t₀ ∧ E.F t₀ < 1) (hpos : E.dep = true → 0 < E.F t₀)
    (hd : E.dep = true ∨ M.dep = true →
      Kepler.red (Kepler.kepSol 0 (-E.F t₀) (M.F t₀)) ≠ 0) :
    NodeOk v t₀ .kepE [E, M] := by
  have hApp : realApp .kepE [E.F t₀, M.F t₀] =
      some (Kepler.red (Kepler.kepSol 0 (-E.F t₀) (M.F t₀))) := by
    simp [realApp, hdom]
  have hK := eval_kep (f := .kepE) (by simp) (As := [E, M]) (t₀ := t₀) (v := v)
    (by simp [hE, hM]) (by simpa using hApp)
  have hlt : (0 : ℝ) ^ 2 + (-E.F t₀) ^ 2 < 1 := by nlinarith [hdom.1, hdom.2]
  set u := Kepler.kepSol 0 (-E.F t₀) (M.F t₀) with hu
  have hsin := eval_unary (f := .sin false) (by simp) hK (z := Real.sin u)
    (by simp [realApp, Kepler.sin_red])
  have hcos := eval_unary (f := .cos false) (by simp) hK (z := Real.cos u)
    (by simp [realApp, Kepler.cos_red])
  have hp := kep_den_pos hlt u
  have hp' : 0 < 1 - E.F t₀ * Real.cos u := by
    have : 1 - 0 * Real.sin u + -E.F t₀ * Real.cos u = 1 - E.F t₀ * Real.cos u := by
      ring
    rwa [this] at hp
  have hden := eval_powm1 (eval_sub (Expr.eval_dbl v 1) (eval_mulE hE.val hcos)) hp'.ne'
  have e1 := eval_mulE hsin hden
  by_cases ho : E.dep = true ∨ M.dep = true
  · refine node_mk2 (by simp [Fn.isBool]) e1 hden (fun t => Kepler.red (Kepler.kepSol 0 (-E.F t) (M.F t)))
      rfl ?_ ?_
    · have hev : ∀ᶠ t in 𝓝 t₀, 0 ≤ E.F t ∧ E.F t < 1 := by
        cases hoE : E.dep with
        | false =>
          rw [hE.const hoE]
          exact .of_forall fun _ => hdom
        | true =>
          filter_upwards [hE.cont.eventually (lt_mem_nhds (hpos hoE)),
            hE.cont.eventually (gt_mem_nhds hdom.2)] with t h1 h2
          exact ⟨h1.le, h2⟩
      filter_upwards [hev] with t ht
      simp [realApp, ht]
    · have h1 := Kepler.kepSol_hasDerivAt (A := fun _ => 0) (hasDerivAt_const t₀ (0 : ℝ))
        hE.deriv.neg hM.deriv hlt
      refine (hasDerivAt_red h1 (hd ho)).congr_deriv ?_
      simp only [Pi.neg_apply]
      rw [← hu]
      have : 1 - 0 * Real.sin u + -E.F t₀ * Real.cos u = 1 - E.F t₀ * Real.cos u := by
        ring
      rw [this]
      field_simp
      ring
  · have hoE : E.dep = false := by
      rw [Bool.eq_false_iff]; exact fun h => ho (Or.inl h)
    have hoM : M.dep = false := by
      rw [Bool.eq_false_iff]; exact fun h => ho (Or.inr h)
    refine node_indep (by simp [hE, hM]) (by simp [Fn.isBool]) (by simp [hoE, hoM])
      _ hApp _ rfl rfl ?_
    intro g hg
    simp only [List.mem_cons, List.not_mem_nil, or_false] at hg
    rcases hg with rfl | rfl
    · exact Sane.of_eval e1
    · exact Sane.of_eval hden

theorem node_kepF {H K L : ArgInfo} (hH : CurveOk v t₀ H) (hK : CurveOk v t₀ K) (hL : CurveOk v t₀ L)
    (hdom : H.F t₀ ^ 2 + K.F t₀ ^ 2 < 1)
    (hd : H.dep = true ∨ K.dep = true ∨ L.dep = true →
      Kepler.red (Kepler.kepSol (H.F t₀) (-K.F t₀) (L.F t₀)) ≠ 0) :
    NodeOk v t₀ .kepF [H, K, L] := by
  have hApp : realApp .kepF [H.F t₀, K.F t₀, L.F t₀] =
      some (Kepler.red (Kepler.kepSol (H.F t₀) (-K.F t₀) (L.F t₀))) := by
    simp [realApp, hdom]
  have hS := eval_kep (f := .kepF) (by simp) (As := [H, K, L]) (t₀ := t₀) (v := v)
    (by simp [hH, hK, hL]) (by simpa using hApp)
  have hlt : H.F t₀ ^ 2 + (-K.F t₀) ^ 2 < 1 := by nlinarith
  set u := Kepler.kepSol (H.F t₀) (-K.F t₀) (L.F t₀) with hu
  have hsin := eval_unary (f := .sin false) (by simp) hS (z := Real.sin u)
    (by simp [realApp, Kepler.sin_red])
  have hcos := eval_unary (f := .cos false) (by simp) hS (z := Real.cos u)
    (by simp [realApp, Kepler.cos_red])
  have hp := kep_den_pos hlt u
  have heq : 1 - H.F t₀ * Real.sin u + -K.F t₀ * Real.cos u =
      1 - H.F t₀ * Real.sin u - K.F t₀ * Real.cos u := by ring
  rw [heq] at hp
  have hden := eval_powm1 (eval_sub (eval_sub (Expr.eval_dbl v 1) (eval_mulE hH.val hsin))
    (eval_mulE hK.val hcos)) hp.ne'
  have e1 := eval_mulE (eval_neg hcos) hden
  have e2 := eval_mulE hsin hden
  by_cases ho : H.dep = true ∨ K.dep = true ∨ L.dep = true
  · refine node_mk3 (by simp [Fn.isBool]) e1 e2 hden
      (fun t => Kepler.red (Kepler.kepSol (H.F t) (-K.F t) (L.F t))) rfl ?_ ?_
    · have hev : ∀ᶠ t in 𝓝 t₀, H.F t ^ 2 + K.F t ^ 2 < 1 :=
        ((hH.cont.pow 2).add (hK.cont.pow 2)).eventually (gt_mem_nhds hdom)
      filter_upwards [hev] with t ht
      simp [realApp, ht]
    · have h1 := Kepler.kepSol_hasDerivAt hH.deriv hK.deriv.neg hL.deriv hlt
      refine (hasDerivAt_red h1 (hd ho)).congr_deriv ?_
      simp only [Pi.neg_apply]
      rw [← hu, heq]
      field_simp
      ring
  · have hoH : H.dep = false := by
      rw [Bool.eq_false_iff]; exact fun h => ho (Or.inl h)
    have hoK : K.dep = false := by
      rw [Bool.eq_false_iff]; exact fun h => ho (Or.inr (Or.inl h))
    have hoL : L.dep = false := by
      rw [Bool.eq_false_iff]; exact fun h => ho (Or.inr (Or.inr h))
    refine node_indep (by simp [hH, hK, hL]) (by simp [Fn.isBool]) (by simp [hoH, hoK, hoL])
      _ hApp _ rfl rfl ?_
    intro g hg
    simp only [List.mem_cons, List.not_mem_nil, or_false] at hg
    rcases hg with rfl | rfl | rfl
    · exact Sane.of_eval e1
    · exact Sane.of_eval e2
    · exact Sane.of_eval hden

theorem node_kepDE {S C M : ArgInfo} (hS : CurveOk v t₀ S) (hC : CurveOk v t₀ C) (hM : CurveOk v t₀ M)
    (hdom : S.F t₀ ^ 2 + C.F t₀ ^ 2 < 1)
    (hd : S.dep = true ∨ C.dep = true ∨ M.dep = true →
      Kepler.red (Kepler.kepSol (-S.F t₀) (-C.F t₀)
        (M.F t₀ - S.F t₀)) ≠ 0) :
    NodeOk v t₀ .kepDE [S, C, M] := by
  have hApp : realApp .kepDE [S.F t₀, C.F t₀, M.F t₀] =
      some (Kepler.red (Kepler.kepSol (-S.F t₀) (-C.F t₀)
        (M.F t₀ - S.F t₀))) := by
    simp [realApp, hdom]
  have hD := eval_kep (f := .kepDE) (by simp) (As := [S, C, M]) (t₀ := t₀) (v := v)
    (by simp [hS, hC, hM]) (by simpa using hApp)
  have hlt : (-S.F t₀) ^ 2 + (-C.F t₀) ^ 2 < 1 := by nlinarith
  set u := Kepler.kepSol (-S.F t₀) (-C.F t₀) (M.F t₀ - S.F t₀) with hu
  have hsin := eval_unary (f := .sin false) (by simp) hD (z := Real.sin u)
    (by simp [realApp, Kepler.sin_red])
  have hcos := eval_unary (f := .cos false) (by simp) hD (z := Real.cos u)
    (by simp [realApp, Kepler.cos_red])
  have hp := kep_den_pos hlt u
  have heq : 1 - -S.F t₀ * Real.sin u + -C.F t₀ * Real.cos u =
      1 + S.F t₀ * Real.sin u - C.F t₀ * Real.cos u := by ring
  rw [heq] at hp
  have hden := eval_powm1 (eval_sub (eval_add (Expr.eval_dbl v 1) (eval_mulE hS.val hsin))
    (eval_mulE hC.val hcos)) hp.ne'
  have e1 := eval_mulE (eval_sub hcos (Expr.eval_dbl v 1)) hden
  have e2 := eval_mulE hsin hden
  by_cases ho : S.dep = true ∨ C.dep = true ∨ M.dep = true
  · refine node_mk3 (by simp [Fn.isBool]) e1 e2 hden
      (fun t => Kepler.red (Kepler.kepSol (-S.F t) (-C.F t) (M.F t - S.F t))) rfl ?_ ?_
    · have hev : ∀ᶠ t in 𝓝 t₀, S.F t ^ 2 + C.F t ^ 2 < 1 :=
        ((hS.cont.pow 2).add (hC.cont.pow 2)).eventually (gt_mem_nhds hdom)
      filter_upwards [hev] with t ht
      simp [realApp, ht]
    · have h1 := Kepler.kepSol_hasDerivAt hS.deriv.neg hC.deriv.neg (hM.deriv.sub hS.deriv) hlt
      refine (hasDerivAt_red h1 (hd ho)).congr_deriv ?_
      simp only [Pi.neg_apply, Pi.sub_apply]
      rw [← hu, heq]
      field_simp
      ring
  · have hoS : S.dep = false := by
      rw [Bool.eq_false_iff]; exact fun h => ho (Or.inl h)
    have hoC : C.dep = false := by
      rw [Bool.eq_false_iff]; exact fun h => ho (Or.inr (Or.inl h))
    have hoM : M.dep = false := by
      rw [Bool.eq_false_iff]; exact fun h => ho (Or.inr (Or.inr h))
    refine node_indep (by simp [hS, hC, hM]) (by simp [Fn.isBool]) (by simp [hoS, hoC, hoM])
      _ hApp _ rfl rfl ?_
    intro g hg
    simp only [List.mem_cons, List.not_mem_nil, or_false] at hg
    rcases hg with rfl | rfl | rfl
    · exact Sane.of_eval e1
    · exact Sane.of_eval e2
    · exact Sane.of_eval hden

/-! ### Implicit functions -/

theorem node_dfun (id : String) {didx : List (Nat × Nat)} {As : List ArgInfo} (h : ∀ A ∈ As, CurveOk v t₀ A)
    (hd : DIdxOk didx) {φ : String → List ℝ → ℝ} (hφ : DFunc.fn = some φ) (hs : SmoothFn (φ id) (As.map fun A => A.F t₀)) :
    NodeOk v t₀ (.dfun id didx) As := by
  have hof : ∀ t, (As.map fun A => A.F t) = List.ofFn fun i : Fin As.length => As[i].F t := fun t => by
    apply List.ext_getElem <;> simp
  refine ⟨As.mapIdx fun i A => (A, .fn (.dfun id (bumpIdx i false didx)) (As.map (·.a)),
      dpart (bumpIdx i false didx) (φ id) (As.map fun A => A.F t₀)),
    fun t => dpart didx (φ id) (As.map fun A => A.F t), ?_, ?_, ?_, ?_, ?_, by simp [Fn.isBool]⟩
  · apply List.ext_getElem <;> simp
  · simp only [gradient]
    congr 1
    apply List.ext_getElem <;> simp
  · intro p hp
    rw [List.mem_mapIdx] at hp
    obtain ⟨i, hi, rfl⟩ := hp
    left
    rw [Expr.eval_fn _ _ _ (by simp), evalL_vals h, Option.bind_some, app_def]
    simp [realApp, hφ]
  · exact .of_forall fun t => by simp [realApp, hφ]
  · have h1 := dpart_curve (c := fun i : Fin As.length => As[i].F) (c' := fun i => As[i].D) (hs.smAt (hof t₀)) hd
      fun i => (h _ (List.getElem_mem _)).deriv
    have h2 : (fun t => dpart didx (φ id) (As.map fun A => A.F t)) =
        fun t => dpart didx (φ id) (List.ofFn fun i : Fin As.length => As[i].F t) := by
      funext t; rw [hof t]
    rw [h2]
    refine h1.congr_deriv ?_
    rw [← List.sum_ofFn]
    congr 1
    rw [hof t₀]
    apply List.ext_getElem
    · simp
    · intro k h3 h4
      simp

end Heyoka.Sym
