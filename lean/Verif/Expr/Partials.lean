import Verif.Expr.RegOpen
import Verif.Props.Reg
import Mathlib.Analysis.Calculus.FDeriv.Partial
import Mathlib.Analysis.Calculus.FDeriv.Symmetric

/-!
# Repeated partial derivatives

The partial derivatives of any order of the value of an expression, as functions of the point. At the regular
points they exist and do not depend on the order of the differentiations.
-/

set_option linter.unusedSectionVars false
set_option linter.unusedVariables false

open Filter Topology

namespace Heyoka.Sym

variable [DFunc]

/-- The partial derivative of a function of the point. -/
noncomputable def pderiv (x : DVar) (f : Env ℝ → ℝ) (v : Env ℝ) : ℝ := deriv (fun t => f (v.set x t)) (v.get x)

/-- The partial derivative with respect to the variables of the list, one after the other. -/
noncomputable def partials (f : Env ℝ → ℝ) : List DVar → Env ℝ → ℝ
  | [] => f
  | x :: xs => partials (pderiv x f) xs

/-- The value of an expression as a function of the point (zero where it has none). -/
noncomputable def Expr.val (e : Expr ℝ) (v : Env ℝ) : ℝ := (e.eval v).getD 0

variable {v : Env ℝ} {x y : DVar}

theorem Reg.eval_val {e : Expr ℝ} (h : Reg v e) : e.eval v = some (e.val v) := by
  obtain ⟨y, -, hy⟩ := h.value
  rw [Expr.val, hy, Option.getD_some]

/-- `d` is the partial derivative of `e` at the regular points of `e`, where it is regular. -/
def PDeriv (x : DVar) (e d : Expr ℝ) : Prop :=
  ∀ v, Reg v e → Reg v d ∧ HasDerivAt (fun t => e.val (v.set x t)) (d.val v) (v.get x)

theorem pderiv_of {e d : Expr ℝ} (hr : ∀ v, Reg v e → Reg v d)
    (h : ∀ v, Smooth x v e → ∃ (F : ℝ → ℝ) (D : ℝ), (∀ᶠ t in 𝓝 (v.get x), e.eval (v.set x t) = some (F t)) ∧
      HasDerivAt F D (v.get x) ∧ d.eval v = some D) : PDeriv x e d := by
  intro v hv
  obtain ⟨F, D, h1, h2, h3⟩ := h v (hv.smooth x)
  refine ⟨hr v hv, ?_⟩
  rw [Expr.val, h3, Option.getD_some]
  refine h2.congr_of_eventuallyEq ?_
  filter_upwards [h1] with t ht
  rw [Expr.val, ht, Option.getD_some]

/-- Every expression that is regular somewhere has partial derivatives. -/
theorem exists_pderiv {e : Expr ℝ} (h : Reg v e) (x : DVar) : ∃ d, e.diff x = .ok d ∧ PDeriv x e d := by
  obtain ⟨d, hd, -⟩ := diff_regular h x
  refine ⟨d, hd, pderiv_of (fun w hw => ?_) fun w hw => ?_⟩
  · obtain ⟨d', hd', hr⟩ := diff_regular hw x
    rw [hd] at hd'
    cases hd'
    exact hr
  · obtain ⟨d', D, F, h1, h2, h3, h4⟩ := diff_correct hw
    rw [hd] at h1
    cases h1
    exact ⟨F, D, h3, h4, h2⟩

theorem PDeriv.eq {e d : Expr ℝ} (h : PDeriv x e d) (hv : Reg v e) : pderiv x e.val v = d.val v :=
  (h v hv).2.deriv

/-- The partial derivatives at a point depend on the values near the point only. -/
theorem partials_congr {U : Env ℝ → Prop} (hU : ∀ v, U v → ∀ x : DVar, ∀ᶠ t in 𝓝 (v.get x), U (v.set x t)) (xs : List DVar) :
    ∀ {f g : Env ℝ → ℝ}, (∀ v, U v → f v = g v) → ∀ v, U v → partials f xs v = partials g xs v := by
  induction xs with
  | nil => intro f g h v hv; exact h v hv
  | cons x xs ih =>
    intro f g h v hv
    refine ih (fun w hw => ?_) v hv
    refine EventuallyEq.deriv_eq ?_
    filter_upwards [hU w hw x] with t ht
    exact h _ ht

theorem PDeriv.partials {e d : Expr ℝ} (h : PDeriv x e d) (xs : List DVar) (hv : Reg v e) :
    Sym.partials e.val (x :: xs) v = Sym.partials d.val xs v :=
  partials_congr (U := fun v => Reg v e) (fun w hw y => hw.near_set y) xs (fun w hw => h.eq hw) v hv

/-! ### The order of the differentiations -/

theorem set_get_of_ne (v : Env ℝ) (s : ℝ) (h : x ≠ y) : (v.set y s).get x = v.get x := by
  cases x <;> cases y <;> simp_all [Env.set, Env.get]

theorem get_set_same (v : Env ℝ) (s : ℝ) : (v.set x s).get x = s := by
  cases x <;> simp [Env.set, Env.get]

theorem set_set_same (v : Env ℝ) (s t : ℝ) : (v.set x s).set x t = v.set x t := by
  cases x with
  | var a =>
    simp only [Env.set, Env.mk.injEq, and_true]
    funext b; by_cases h : b = a <;> simp [h]
  | par a =>
    simp only [Env.set, Env.mk.injEq, and_true, true_and]
    funext b; by_cases h : b = a <;> simp [h]

theorem set_set_comm (v : Env ℝ) (s t : ℝ) (h : x ≠ y) : (v.set x s).set y t = (v.set y t).set x s := by
  cases x with
  | var a =>
    cases y with
    | var b =>
      simp only [Env.set, Env.mk.injEq, and_true]
      funext c
      by_cases h1 : c = a <;> by_cases h2 : c = b <;> simp_all
    | par b => rfl
  | par a =>
    cases y with
    | var b => rfl
    | par b =>
      simp only [Env.set, Env.mk.injEq, and_true, true_and]
      funext c
      by_cases h1 : c = a <;> by_cases h2 : c = b <;> simp_all

/-- Changing two coordinates. -/
def plane (v : Env ℝ) (x y : DVar) (z : ℝ × ℝ) : Env ℝ := (v.set x z.1).set y z.2

theorem plane_self : plane v x y (v.get x, v.get y) = v := by
  simp [plane]

theorem continuousAt_set {Z : Type} [TopologicalSpace Z] {z₀ : Z} {w : Z → Env ℝ} {c : Z → ℝ} (hw : EnvCont w z₀)
    (hc : ContinuousAt c z₀) (x : DVar) : EnvCont (fun z => (w z).set x (c z)) z₀ := by
  cases x with
  | var s =>
    refine ⟨fun s' => ?_, hw.par, hw.time⟩
    by_cases hs : s' = s
    · simpa [Env.set, hs] using hc
    · simpa [Env.set, hs] using hw.var s'
  | par i =>
    refine ⟨hw.var, fun j => ?_, hw.time⟩
    by_cases hs : j = i
    · simpa [Env.set, hs] using hc
    · simpa [Env.set, hs] using hw.par j

theorem plane_cont (z : ℝ × ℝ) : EnvCont (plane v x y) z :=
  continuousAt_set (continuousAt_set ⟨fun _ => continuousAt_const, fun _ => continuousAt_const, continuousAt_const⟩
    continuousAt_fst x) continuousAt_snd y

theorem Reg.val_cont {Z : Type} [TopologicalSpace Z] {z₀ : Z} {w : Z → Env ℝ} (hw : EnvCont w z₀) {e : Expr ℝ}
    (h : Reg (w z₀) e) : ContinuousAt (fun z => e.val (w z)) z₀ ∧ ∀ᶠ z in 𝓝 z₀, Reg (w z) e := by
  obtain ⟨F, h1, h2, -⟩ := h.near hw
  refine ⟨h1.congr_of_eventuallyEq ?_, h2.mono fun z hz => hz.1⟩
  filter_upwards [h2] with z hz
  rw [Expr.val, hz.2, Option.getD_some]

/-- The value is differentiable as a function of two coordinates. -/
theorem plane_fderiv (hxy : x ≠ y) {e dx dy : Expr ℝ} (h1 : PDeriv x e dx) (h2 : PDeriv y e dy) {z : ℝ × ℝ}
    (h : Reg (plane v x y z) e) :
    HasFDerivAt (fun z => e.val (plane v x y z))
      ((dx.val (plane v x y z)) • ContinuousLinearMap.fst ℝ ℝ ℝ + (dy.val (plane v x y z)) • ContinuousLinearMap.snd ℝ ℝ ℝ) z := by
  have hn := (h.val_cont (plane_cont z)).2
  have hcx := ((h1 _ h).1.val_cont (plane_cont z)).1
  have hcy := ((h2 _ h).1.val_cont (plane_cont z)).1
  have hsm : Continuous fun c : ℝ => ContinuousLinearMap.toSpanSingleton ℝ c :=
    (ContinuousLinearMap.toSpanSingletonCLE (𝕜 := ℝ) (E := ℝ)).continuous
  have := hasStrictFDerivAt_uncurry_coprod (𝕜 := ℝ) (u := z) (f := fun s t => e.val (plane v x y (s, t)))
    (f₁ := fun s t => ContinuousLinearMap.toSpanSingleton ℝ (dx.val (plane v x y (s, t))))
    (f₂ := fun s t => ContinuousLinearMap.toSpanSingleton ℝ (dy.val (plane v x y (s, t)))) (by
      filter_upwards [hn] with w hw
      have h3 := (h1 _ hw).2
      have e1 : ∀ t, (plane v x y w).set x t = plane v x y (t, w.2) := by
        intro t
        simp only [plane]
        rw [set_set_comm _ _ _ hxy.symm, set_set_same]
      have e2 : (plane v x y w).get x = w.1 := by
        simp only [plane]
        rw [set_get_of_ne _ _ hxy, get_set_same]
      rw [e2] at h3
      simp only [e1] at h3
      exact h3.hasFDerivAt) (by
      filter_upwards [hn] with w hw
      have h3 := (h2 _ hw).2
      have e1 : ∀ t, (plane v x y w).set y t = plane v x y (w.1, t) := by
        intro t
        simp only [plane]
        rw [set_set_same]
      have e2 : (plane v x y w).get y = w.2 := by
        simp only [plane]
        rw [get_set_same]
      rw [e2] at h3
      simp only [e1] at h3
      exact h3.hasFDerivAt)
    (hsm.continuousAt.comp hcx) (hsm.continuousAt.comp hcy)
  refine this.hasFDerivAt.congr_fderiv ?_
  ext <;> simp [Function.HasUncurry.uncurry]

/-- **Mixed derivatives** at a regular point do not depend on the order. -/
theorem mixed_symm {e dx dy dxy dyx : Expr ℝ} (h1 : PDeriv x e dx) (h2 : PDeriv y e dy)
    (h3 : PDeriv y dx dxy) (h4 : PDeriv x dy dyx) (hv : Reg v e) : dxy.val v = dyx.val v := by
  by_cases hxy : x = y
  · subst hxy
    have e1 : ∀ w, Reg w e → dx.val w = dy.val w := fun w hw => (h1 w hw).2.unique (h2 w hw).2
    have := (h3 v (h1 v hv).1).2
    refine this.unique ((h4 v (h2 v hv).1).2.congr_of_eventuallyEq ?_)
    filter_upwards [hv.near_set x] with t ht
    exact e1 _ ht
  have hz : Reg (plane v x y (v.get x, v.get y)) e := by rw [plane_self]; exact hv
  obtain ⟨dxx, -, h5⟩ := exists_pderiv (h1 v hv).1 x
  obtain ⟨dyy, -, h6⟩ := exists_pderiv (h2 v hv).1 y
  have hf : ∀ᶠ z in 𝓝 (v.get x, v.get y), HasFDerivAt (fun z => e.val (plane v x y z)) _ z :=
    (hz.val_cont (plane_cont _)).2.mono fun z hz => plane_fderiv hxy h1 h2 hz
  have hx := plane_fderiv hxy h5 h3 (h1 _ hz).1
  have hy := plane_fderiv hxy h4 h6 (h2 _ hz).1
  have hsec := (hx.smul_const (ContinuousLinearMap.fst ℝ ℝ ℝ)).add (hy.smul_const (ContinuousLinearMap.snd ℝ ℝ ℝ))
  have := second_derivative_symmetric_of_eventually hf hsec (1, 0) (0, 1)
  simp [plane_self] at this
  exact this.symm

theorem partials_swap {e : Expr ℝ} (hv : Reg v e) (xs : List DVar) :
    partials e.val (x :: y :: xs) v = partials e.val (y :: x :: xs) v := by
  obtain ⟨dx, -, h1⟩ := exists_pderiv hv x
  obtain ⟨dy, -, h2⟩ := exists_pderiv hv y
  obtain ⟨dxy, -, h3⟩ := exists_pderiv (h1 v hv).1 y
  obtain ⟨dyx, -, h4⟩ := exists_pderiv (h2 v hv).1 x
  rw [h1.partials _ hv, h2.partials _ hv, h3.partials _ (h1 v hv).1, h4.partials _ (h2 v hv).1]
  exact partials_congr (U := fun v => Reg v e) (fun w hw y => hw.near_set y) xs
    (fun w hw => mixed_symm h1 h2 h3 h4 hw) v hv

/-- The partial derivatives do not depend on the order of the variables. -/
theorem partials_perm {xs ys : List DVar} (hp : xs.Perm ys) : ∀ {e : Expr ℝ} {v : Env ℝ}, Reg v e →
    partials e.val xs v = partials e.val ys v := by
  induction hp with
  | nil => intros; rfl
  | cons x _ ih =>
    intro e v hv
    obtain ⟨d, -, h⟩ := exists_pderiv hv x
    rw [h.partials _ hv, h.partials _ hv, ih (h v hv).1]
  | swap x y l => intro e v hv; exact partials_swap hv l
  | trans _ _ ih1 ih2 => intro e v hv; exact (ih1 hv).trans (ih2 hv)

/-- `d` is obtained from `e` by differentiations with respect to the variables of the list. -/
inductive PChain : Expr ℝ → List DVar → Expr ℝ → Prop
  | nil (e) : PChain e [] e
  | cons {e d d' x xs} : PDeriv x e d → PChain d xs d' → PChain e (x :: xs) d'

theorem PChain.snoc {e d d' : Expr ℝ} {xs : List DVar} (h : PChain e xs d) (hd : PDeriv x d d') : PChain e (xs ++ [x]) d' := by
  induction h with
  | nil e => exact .cons hd (.nil _)
  | cons h1 _ ih => exact .cons h1 (ih hd)

theorem PChain.reg {e d : Expr ℝ} {xs : List DVar} (h : PChain e xs d) : ∀ {v}, Reg v e → Reg v d := by
  induction h with
  | nil e => exact fun h => h
  | cons h1 _ ih => exact fun hv => ih (h1 _ hv).1

theorem PChain.val {e d : Expr ℝ} {xs : List DVar} (h : PChain e xs d) : ∀ {v}, Reg v e →
    d.eval v = some (partials e.val xs v) := by
  induction h with
  | nil e => exact fun hv => hv.eval_val
  | cons h1 _ ih =>
    intro v hv
    rw [h1.partials _ hv]
    exact ih (h1 _ hv).1

/-- The repeated derivatives at a regular point exist. -/
theorem partials_deriv {e : Expr ℝ} (hv : Reg v e) (xs : List DVar) (x : DVar) :
    HasDerivAt (fun t => partials e.val xs (v.set x t)) (partials e.val (xs ++ [x]) v) (v.get x) := by
  induction xs generalizing e with
  | nil =>
    obtain ⟨d, -, h⟩ := exists_pderiv hv x
    have := h.partials [] hv
    simp only [partials, List.nil_append] at this ⊢
    rw [this]
    exact (h v hv).2
  | cons y ys ih =>
    obtain ⟨d, -, h⟩ := exists_pderiv hv y
    rw [List.cons_append, h.partials _ hv]
    refine (ih (h v hv).1).congr_of_eventuallyEq ?_
    filter_upwards [hv.near_set x] with t ht
    exact h.partials _ ht

end Heyoka.Sym
