import Verif.Expr.RegGrad

/-!
# Derivatives of any order

`diff()` applied repeatedly to an expression returns its repeated partial derivatives, at every point at
which the functions occurring in the expression are differentiable: no condition on the derivatives is
needed.
-/

set_option linter.unusedSectionVars false
set_option linter.unusedVariables false

open Filter Topology

namespace Heyoka.Sym

variable [DFunc]

variable {x : DVar} {v : Env ℝ}

/-- The arguments of a function as constant curves. -/
theorem constArgs {args : List (Expr ℝ)} {vals : List ℝ} (h : Expr.evalL v args = some vals) :
    ∃ As : List ArgInfo, As.map (·.a) = args ∧ (∀ A ∈ As, CurveOk v 0 A ∧ A.dep = false ∧ A.isB = A.a.isBool) ∧
      As.map (fun A => A.F 0) = vals := by
  induction args generalizing vals with
  | nil =>
    simp only [Expr.evalL_nil, Option.some.injEq] at h
    subst h
    exact ⟨[], rfl, by simp, rfl⟩
  | cons a as ih =>
    simp only [Expr.evalL_cons, Option.bind_eq_some_iff, Option.map_eq_some_iff] at h
    obtain ⟨y, hy, ys, hys, rfl⟩ := h
    obtain ⟨As, h1, h2, h3⟩ := ih hys
    refine ⟨⟨a, .dbl 0, fun _ => y, 0, false, a.isBool⟩ :: As, by simp [h1], ?_, by simp [h3]⟩
    intro A hA
    rcases List.mem_cons.1 hA with rfl | hA
    · exact ⟨⟨hy, hasDerivAt_const _ _, fun _ _ => rfl, fun _ => .of_forall fun _ => rfl⟩, rfl, rfl⟩
    · exact h2 A hA

/-- At a regular point the gradient of a function exists and its entries are not undefined numbers. -/
theorem gradient_sane {f : Fn ℝ} {args : List (Expr ℝ)} (h : Reg v (.fn f args)) :
    ∃ gs, gradient f args = .ok gs ∧ gs.length = args.length ∧ ∀ g ∈ gs, Sane g := by
  rw [Reg, RegL_iff] at h
  obtain ⟨h1, vals, h2, h3⟩ := h
  by_cases hf : f = .time
  · subst hf
    cases args with
    | nil => exact ⟨[], rfl, rfl, by simp⟩
    | cons a as =>
      simp only [Expr.evalL_cons, Option.bind_eq_some_iff, Option.map_eq_some_iff] at h2
      obtain ⟨y, hy, ys, hys, rfl⟩ := h2
      exact h3.elim
  · obtain ⟨As, rfl, hA, rfl⟩ := constArgs h2
    have hn : NodeOk v 0 f As := by
      refine node_ok (fun A h => (hA A h).1) hf (h3.mono ?_)
      rw [List.zipWith_map, List.zipWith_self, List.forall₂_map_left_iff, List.forall₂_map_right_iff,
        List.forall₂_same]
      intro A hm
      refine ⟨rfl, (hA A hm).2.2.symm, ?_⟩
      rintro (hd | hd)
      · rw [(hA A hm).2.1] at hd; cases hd
      · refine .inr (.inl ?_)
        simpa using hd
    obtain ⟨T, G, hT, hg, he, -⟩ := hn
    refine ⟨_, hg, by rw [← hT]; simp, fun g hgm => ?_⟩
    obtain ⟨p, hp, rfl⟩ := List.mem_map.1 hgm
    rcases he p hp with h | h
    · exact .of_eval h
    · exact h.2

theorem reg_of_isZeroNum {e : Expr ℝ} (h : IsZeroNum e) : Reg v e := by
  obtain ⟨n, rfl, hn⟩ := h
  simp [Reg, hn]

/-- **C02.** At the regular points of an expression its derivative is regular. -/
theorem diff_regular {e : Expr ℝ} (h : Reg v e) (x : DVar) : ∃ d, e.diff x = .ok d ∧ Reg v d := by
  induction e using Expr.ind with
  | num n => exact ⟨_, rfl, by simp [Reg, Num.toK?, FVal.toK?]⟩
  | var s =>
    refine ⟨_, rfl, ?_⟩
    cases x <;> dsimp only <;> first | exact (RV.dbl _).1 | (split_ifs <;> exact (RV.dbl _).1)
  | par i =>
    refine ⟨_, rfl, ?_⟩
    cases x <;> dsimp only <;> first | exact (RV.dbl _).1 | (split_ifs <;> exact (RV.dbl _).1)
  | fn f args ih =>
    obtain ⟨gs, hg, hlen, hsane⟩ := gradient_sane h
    have hreg := gradient_reg hg h
    rw [Reg, RegL_iff] at h
    have hds : ∃ ds, Expr.diffL x args = .ok ds ∧
        List.Forall₂ (fun a d => Reg v d ∧ (a.isNum = true → IsZeroNum d)) args ds := by
      have h1 := h.1
      clear hreg h hlen hg
      induction args with
      | nil => exact ⟨[], rfl, .nil⟩
      | cons a as iha =>
        obtain ⟨ds, hd1, hd2⟩ := iha (fun e he => ih e (List.mem_cons_of_mem _ he))
          fun e he => h1 e (List.mem_cons_of_mem _ he)
        obtain ⟨d, hd3, hd4⟩ := ih a List.mem_cons_self (h1 a List.mem_cons_self)
        refine ⟨d :: ds, by simp [Expr.diffL, hd1, hd3], .cons ⟨hd4, fun hn => ?_⟩ hd2⟩
        cases a with
        | num n =>
          rw [Expr.diff] at hd3
          injection hd3 with hd3
          subst hd3
          exact ⟨_, rfl, rfl⟩
        | _ => simp [Expr.isNum] at hn
    obtain ⟨ds, hds, hf2⟩ := hds
    refine ⟨sumE (List.zipWith mulE gs ds), by simp [Expr.diff, hds, hg, hlen], reg_sumE ?_⟩
    intro e he
    rw [List.mem_iff_getElem] at he
    obtain ⟨i, hi, rfl⟩ := he
    rw [List.length_zipWith] at hi
    rw [List.getElem_zipWith]
    have hia : i < args.length := by rw [← hlen]; omega
    have hg' := (List.forall₂_iff_get.1 hreg).2 i hia (by omega)
    have hd' := (List.forall₂_iff_get.1 hf2).2 i hia (by omega)
    simp only [List.get_eq_getElem] at hg' hd'
    cases hn : args[i].isNum with
    | true => exact reg_of_isZeroNum (mulE_zero (hsane _ (List.getElem_mem _)) (hd'.2 hn))
    | false =>
      obtain ⟨y, hy⟩ := (hg' hn).value
      obtain ⟨z, hz⟩ := hd'.1.value
      exact (hy.mul hz).1

/-- `diff()` applied repeatedly: with respect to the variables of the list, in this order. -/
def diffs {K : Type} [Field K] [LinearOrder K] [FloorRing K] [Fold K] (e : Expr K) : List DVar → Res (Expr K)
  | [] => .ok e
  | x :: xs => (e.diff x).bind fun d => diffs d xs

/-- **C02.** At the regular points of an expression all its repeated derivatives can be computed, each
is the partial derivative of the one before, and they are all defined. -/
theorem diffs_correct {e : Expr ℝ} (h : Reg v e) (xs : List DVar) (x : DVar) :
    ∃ (d d' : Expr ℝ) (D : ℝ) (F : ℝ → ℝ), diffs e xs = .ok d ∧ diffs e (xs ++ [x]) = .ok d' ∧ Reg v d ∧
      d'.eval v = some D ∧ (∀ᶠ t in 𝓝 (v.get x), d.eval (v.set x t) = some (F t)) ∧
      HasDerivAt F D (v.get x) := by
  induction xs generalizing e with
  | nil =>
    obtain ⟨d, D, F, h1, h2, h3, h4⟩ := diff_correct (h.smooth x)
    exact ⟨e, d, D, F, rfl, by simp [diffs, h1], h, h2, h3, h4⟩
  | cons y ys ih =>
    obtain ⟨d, hd, hr⟩ := diff_regular h y
    obtain ⟨d1, d2, D, F, h1, h2, h3, h4⟩ := ih hr
    exact ⟨d1, d2, D, F, by simp [diffs, hd, h1], by simp [diffs, hd, h2], h3, h4⟩

/-- The hypothesis: `pow(sin(x) + 2, y) / x` at `x = -1`, `y = 1/3`. -/
example : Reg ⟨fun s => if s = "x" then -1 else 1 / 3, fun _ => 0, 0⟩
    (.fn (.prod false) [.fn (.pow .general) [.fn .sum [.fn (.sin false) [.var "x"], .dbl 2], .var "y"],
      .fn (.pow .general) [.var "x", .dbl (-1)]]) := by
  have hs : 0 < Real.sin (-1) + 2 := by linarith [Real.neg_one_le_sin (-1)]
  have hx : RV ⟨fun s => if s = "x" then -1 else 1 / 3, fun _ => 0, 0⟩ (.var "x") (-1) := ⟨trivial, by simp⟩
  have hy : RV ⟨fun s => if s = "x" then -1 else 1 / 3, fun _ => 0, 0⟩ (.var "y") (1 / 3) := ⟨trivial, by simp⟩
  refine reg_prod ?_
  simp only [List.mem_cons, List.not_mem_nil, or_false, forall_eq_or_imp, forall_eq]
  constructor
  · have h1 : Reg ⟨fun s => if s = "x" then -1 else 1 / 3, fun _ => 0, 0⟩
        (.fn .sum [.fn (.sin false) [.var "x"], .dbl 2]) := reg_sum (by
      simp only [List.mem_cons, List.not_mem_nil, or_false, forall_eq_or_imp, forall_eq]
      exact ⟨reg_fn1 hx trivial, (RV.dbl _).1⟩)
    rw [Reg, RegL_iff]
    refine ⟨reg_pair h1 hy.1, [Real.sin (-1) + 2, 1 / 3], ?_, .inl hs, fun _ => .inl hs⟩
    simp [eval_sum, Expr.eval_fn, app_def, realApp]
  · rw [Reg, RegL_iff]
    refine ⟨reg_pair hx.1 (RV.dbl _).1, [-1, -1], by simp, .inr (.inr ⟨by norm_num, -1, by simp⟩), fun _ =>
      .inr ⟨?_, ⟨-1, by simp⟩, .inl (by norm_num)⟩⟩
    rintro (h | h | h)
    · cases h
    · have := h (.var "x") (by simp); cases this
    · cases h

end Heyoka.Sym
