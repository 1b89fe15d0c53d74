import Verif.Expr.Partials

/-!
# C02: derivatives of any order

`partials f xs` is the function obtained from `f` by taking partial derivatives with respect to the variables and
parameters of the list `xs`, one after the other; `Expr.val e` is the value of an expression as a function of the point.
`Reg v e` is a condition on the expression itself: every function occurring in it is differentiable with
respect to those of its arguments that are not numbers.
-/

set_option linter.unusedSectionVars false

open Filter Topology

namespace Heyoka.Sym

variable [DFunc]

variable {v : Env ℝ}

/-- **C02.** At the regular points of an expression, the expression returned by repeated differentiation is
defined and its value is the repeated partial derivative, whose existence is `partials_exist`. The order in
which the derivatives are taken does not matter. -/
theorem diffs_partials {e : Expr ℝ} (h : Reg v e) {xs ys : List DVar} (hp : xs.Perm ys) :
    ∃ d, diffs e xs = .ok d ∧ d.eval v = some (partials e.val ys v) := by
  rw [← partials_perm hp h]
  clear hp
  induction xs generalizing e with
  | nil => exact ⟨e, rfl, h.eval_val⟩
  | cons x xs ih =>
    obtain ⟨d, hd, hpd⟩ := exists_pderiv h x
    obtain ⟨d', h1, h2⟩ := ih (hpd v h).1
    exact ⟨d', by simp [diffs, hd, h1], by rw [h2, hpd.partials _ h]⟩

/-- **C02.** The repeated partial derivatives exist: at the regular points, and in a neighbourhood of them. -/
theorem partials_exist {e : Expr ℝ} (h : Reg v e) (xs : List DVar) (x : DVar) :
    HasDerivAt (fun t => partials e.val xs (v.set x t)) (partials e.val (xs ++ [x]) v) (v.get x) ∧
      ∀ᶠ t in 𝓝 (v.get x), Reg (v.set x t) e :=
  ⟨partials_deriv h xs x, h.near_set x⟩

/-- A third derivative: `∂³/∂x²∂y` of `log(x)·y`, that is `-1/x²`, at `x = 2`, `y = 5`. -/
example : ∃ d, diffs (.fn (.prod false) [.fn .log [.var "x"], .var "y"] : Expr ℝ) [.var "x", .var "y", .var "x"] = .ok d ∧
    d.eval ⟨fun s => if s = "x" then 2 else 5, fun _ => 0, 0⟩ =
      some (partials (Expr.val (.fn (.prod false) [.fn .log [.var "x"], .var "y"])) [.var "x", .var "x", .var "y"]
        ⟨fun s => if s = "x" then 2 else 5, fun _ => 0, 0⟩) := by
  refine diffs_partials ?_ (List.Perm.cons _ (List.Perm.swap _ _ _))
  refine reg_prod ?_
  simp only [List.mem_cons, List.not_mem_nil, or_false, forall_eq_or_imp, forall_eq]
  exact ⟨reg_fn1 (x := 2) ⟨trivial, by simp⟩ (by show (0 : ℝ) < 2; norm_num), trivial⟩

end Heyoka.Sym
