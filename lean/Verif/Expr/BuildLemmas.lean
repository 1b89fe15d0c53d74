import Verif.Expr.Real
import Mathlib.Algebra.BigOperators.Group.List.Basic

/-!
# Evaluation of the constructed expressions
-/

set_option linter.unusedSectionVars false

namespace Heyoka.Sym

variable {K : Type} [Field K] [LinearOrder K] [Interp K] {v : Env K}

/-! ### Numbers -/

theorem FVal.toK?_add_eq (a b : FVal K) :
    (a.add b).toK? = a.toK?.bind fun x => b.toK?.map (x + ·) := by
  cases a <;> cases b <;> simp [FVal.add]

theorem FVal.toK?_neg_eq (a : FVal K) : a.neg.toK? = a.toK?.map (- ·) := by
  cases a <;> simp [FVal.neg]
  split <;> simp_all

theorem Num.toK?_add (a b : Num K) :
    (a.add b).toK? = a.toK?.bind fun x => b.toK?.map (x + ·) := FVal.toK?_add_eq _ _

theorem Num.toK?_neg (a : Num K) : a.neg.toK? = a.toK?.map (- ·) := FVal.toK?_neg_eq _

theorem Num.toK?_sub (a b : Num K) :
    (a.sub b).toK? = a.toK?.bind fun x => b.toK?.map (x - ·) := by
  unfold Num.sub Num.toK?
  rw [FVal.toK?_add_eq, FVal.toK?_neg_eq]
  cases a.val.toK? <;> cases b.val.toK? <;> simp [sub_eq_add_neg]

theorem Num.toK?_mul {a b : Num K} {x y : K} (ha : a.toK? = some x) (hb : b.toK? = some y) :
    (a.mul b).toK? = some (x * y) := FVal.toK?_mul ha hb

theorem Num.toK?_div {a b : Num K} {x y : K} (ha : a.toK? = some x) (hb : b.toK? = some y)
    (hy : y ≠ 0) : (a.div b).toK? = some (x / y) := FVal.toK?_div ha hb hy

theorem Num.isZero_iff {a : Num K} : a.isZero = true ↔ a.toK? = some 0 := FVal.isZero_iff
theorem Num.isOne_iff {a : Num K} : a.isOne = true ↔ a.toK? = some 1 := FVal.isOne_iff
theorem Num.isNegOne_iff {a : Num K} : a.isNegOne = true ↔ a.toK? = some (-1) := FVal.isNegOne_iff

@[simp] theorem Num.toK?_dbl (x : K) : (Num.dbl x).toK? = some x := rfl

/-- The values of a list of numbers, if they are all finite. -/
def numVals : List (Num K) → Option (List K)
  | [] => some []
  | n :: ns => n.toK?.bind fun x => (numVals ns).map (x :: ·)

theorem foldl_add_toK? (n : Num K) (ns : List (Num K)) :
    (ns.foldl Num.add n).toK? = n.toK?.bind fun x => (numVals ns).map fun ys => x + ys.sum := by
  induction ns generalizing n with
  | nil => cases h : n.toK? <;> simp [numVals, h]
  | cons m ns ih =>
    rw [List.foldl_cons, ih, Num.toK?_add]
    simp only [numVals]
    cases n.toK? <;> cases m.toK? <;> cases numVals ns <;> simp [add_assoc]

theorem foldl_mul_toK? {n : Num K} {ns : List (Num K)} {x : K} {ys : List K}
    (hn : n.toK? = some x) (hns : numVals ns = some ys) :
    (ns.foldl Num.mul n).toK? = some (x * ys.prod) := by
  induction ns generalizing n x ys with
  | nil => simp only [numVals, Option.some.injEq] at hns; subst hns; simpa using hn
  | cons m ns ih =>
    simp only [numVals, Option.bind_eq_some_iff, Option.map_eq_some_iff] at hns
    obtain ⟨y, hy, zs, hzs, rfl⟩ := hns
    rw [List.foldl_cons, ih (Num.toK?_mul hn hy) hzs]
    simp [mul_assoc]

/-! ### Lists of values -/

theorem evalL_perm {es fs : List (Expr K)} (h : es.Perm fs) {xs : List K}
    (hx : Expr.evalL v es = some xs) : ∃ ys, Expr.evalL v fs = some ys ∧ xs.Perm ys := by
  induction h generalizing xs with
  | nil => exact ⟨xs, hx, .refl _⟩
  | cons e _ ih =>
    simp only [Expr.evalL_cons, Option.bind_eq_some_iff, Option.map_eq_some_iff] at hx
    obtain ⟨x, hx, zs, hzs, rfl⟩ := hx
    obtain ⟨ys, hys, hp⟩ := ih hzs
    exact ⟨x :: ys, by simp [hx, hys], hp.cons x⟩
  | swap e f l =>
    simp only [Expr.evalL_cons, Option.bind_eq_some_iff, Option.map_eq_some_iff] at hx
    obtain ⟨x, hx, _, ⟨y, hy, zs, hzs, rfl⟩, rfl⟩ := hx
    exact ⟨y :: x :: zs, by simp [hx, hy, hzs], .swap y x zs⟩
  | trans _ _ ih1 ih2 =>
    obtain ⟨ys, hys, h1⟩ := ih1 hx
    obtain ⟨zs, hzs, h2⟩ := ih2 hys
    exact ⟨zs, hzs, h1.trans h2⟩

theorem evalL_perm_map {β : Type} {es fs : List (Expr K)} (h : es.Perm fs) (g : List K → β)
    (hg : ∀ xs ys, xs.Perm ys → g xs = g ys) :
    (Expr.evalL v es).map g = (Expr.evalL v fs).map g := by
  cases h1 : Expr.evalL v es with
  | some xs =>
    obtain ⟨ys, hys, hp⟩ := evalL_perm h h1
    simp [hys, hg _ _ hp]
  | none =>
    cases h2 : Expr.evalL v fs with
    | none => rfl
    | some ys =>
      obtain ⟨zs, hzs, -⟩ := evalL_perm h.symm h2
      simp [h1] at hzs

theorem evalL_perm_sum {es fs : List (Expr K)} (h : es.Perm fs) :
    (Expr.evalL v es).map List.sum = (Expr.evalL v fs).map List.sum :=
  evalL_perm_map h _ fun _ _ h => h.sum_eq

theorem evalL_perm_prod {es fs : List (Expr K)} (h : es.Perm fs) :
    (Expr.evalL v es).map List.prod = (Expr.evalL v fs).map List.prod :=
  evalL_perm_map h _ fun _ _ h => h.prod_eq

/-- The numbers first. -/
theorem partition_perm (es : List (Expr K)) :
    (es.filter (·.isNum) ++ es.filter (!·.isNum)).Perm es :=
  List.filter_append_perm _ _

/-- The numbers last, unwrapped. -/
theorem numVals_filterMap (es : List (Expr K)) :
    Expr.evalL v (es.filter (·.isNum)) = numVals (es.filterMap (·.num?)) := by
  induction es with
  | nil => simp [numVals]
  | cons e es ih =>
    cases e with
    | num n =>
      have h1 : (Expr.num n :: es).filter (·.isNum) = .num n :: es.filter (·.isNum) := rfl
      have h2 : (Expr.num n :: es).filterMap (·.num?) = n :: es.filterMap (·.num?) := rfl
      rw [h1, h2, Expr.evalL_cons, ih]; simp [numVals]
    | var s => exact ih
    | par s => exact ih
    | fn f a => exact ih

theorem evalL_append_eq (es fs : List (Expr K)) :
    Expr.evalL v (es ++ fs) =
      (Expr.evalL v es).bind fun xs => (Expr.evalL v fs).map (xs ++ ·) := by
  induction es with
  | nil => cases h : Expr.evalL v fs <;> simp [h]
  | cons e es ih =>
    rw [List.cons_append, Expr.evalL_cons, Expr.evalL_cons, ih]
    cases Expr.eval v e <;> cases Expr.evalL v es <;> cases Expr.evalL v fs <;> simp

/-- The value of a list split into the non-numbers and the values of the numbers. -/
theorem evalL_split_sum (es : List (Expr K)) :
    (Expr.evalL v es).map List.sum =
      (Expr.evalL v (es.filter (!·.isNum))).bind fun xs =>
        (numVals (es.filterMap (·.num?))).map fun ys => xs.sum + ys.sum := by
  rw [← evalL_perm_sum (partition_perm es), evalL_append_eq, numVals_filterMap]
  cases numVals (es.filterMap (·.num?)) <;>
    cases Expr.evalL v (es.filter (!·.isNum)) <;> simp [add_comm]

theorem evalL_split_prod (es : List (Expr K)) :
    (Expr.evalL v es).map List.prod =
      (Expr.evalL v (es.filter (!·.isNum))).bind fun xs =>
        (numVals (es.filterMap (·.num?))).map fun ys => xs.prod * ys.prod := by
  rw [← evalL_perm_prod (partition_perm es), evalL_append_eq, numVals_filterMap]
  cases numVals (es.filterMap (·.num?)) <;>
    cases Expr.evalL v (es.filter (!·.isNum)) <;> simp [mul_comm]

/-! ### Constructors over the reals -/

section
variable [DFunc] {v : Env ℝ}

theorem eval_sum (args : List (Expr ℝ)) :
    (Expr.fn .sum args).eval v = (Expr.evalL v args).map List.sum := by
  rw [Expr.eval_fn _ _ _ (by simp)]
  cases Expr.evalL v args <;> simp [app_def, realApp]

theorem eval_prod (neg : Bool) (args : List (Expr ℝ)) :
    (Expr.fn (.prod neg) args).eval v = (Expr.evalL v args).map List.prod := by
  rw [Expr.eval_fn _ _ _ (by simp)]
  cases Expr.evalL v args <;> simp [app_def, realApp]

theorem eval_sumFinish (args : List (Expr ℝ)) :
    (sumFinish args).eval v = (Expr.evalL v args).map List.sum := by
  unfold sumFinish
  split
  · simp
  · rename_i a
    cases h : a.eval v <;> simp [h]
  · rw [eval_sum]
    exact evalL_perm_sum (partition_perm _)

theorem eval_prodFinish (args : List (Expr ℝ)) :
    (prodFinish args).eval v = (Expr.evalL v args).map List.prod := by
  unfold prodFinish
  split
  · simp
  · rename_i a
    cases h : a.eval v <;> simp [h]
  · rw [mkProd, eval_prod]
    exact evalL_perm_prod (partition_perm _)

/-- `sum()` evaluates to the sum, and is undefined exactly when one of the terms is. -/
theorem eval_sumE (args : List (Expr ℝ)) :
    (sumE args).eval v = (Expr.evalL v args).map List.sum := by
  rw [evalL_split_sum]
  unfold sumE
  cases h : args.filterMap (·.num?) with
  | nil =>
    simp only [eval_sumFinish, numVals]
    cases Expr.evalL v (args.filter (!·.isNum)) <;> simp
  | cons n ns =>
    have hc := foldl_add_toK? n ns
    dsimp only
    have hv : (ns.foldl Num.add n).toK? = (numVals (n :: ns)).map List.sum := by
      rw [hc]; simp only [numVals]
      cases n.toK? <;> cases numVals ns <;> simp
    split_ifs with h0 h1
    · rw [Num.isZero_iff, hv, Option.map_eq_some_iff] at h0
      obtain ⟨ys, hys, h0⟩ := h0
      rw [List.isEmpty_iff.mp h1, Expr.eval_num, hv, hys]
      simp [h0]
    · rw [Num.isZero_iff, hv, Option.map_eq_some_iff] at h0
      obtain ⟨ys, hys, h0⟩ := h0
      rw [eval_sumFinish, hys]
      cases Expr.evalL v (args.filter (!·.isNum)) <;> simp [h0]
    · rw [eval_sumFinish, evalL_append_eq]
      simp only [Expr.evalL_cons, Expr.evalL_nil, Expr.eval_num, hv]
      cases Expr.evalL v (args.filter (!·.isNum)) <;> cases numVals (n :: ns) <;> simp

/-- `prod()` evaluates to the product if all the factors have a value. -/
theorem eval_prodE {args : List (Expr ℝ)} {xs : List ℝ} (h : Expr.evalL v args = some xs) :
    (prodE args).eval v = some xs.prod := by
  have hs := evalL_split_prod (v := v) args
  rw [h, Option.map_some] at hs
  symm at hs
  rw [Option.bind_eq_some_iff] at hs
  obtain ⟨as, has, hs⟩ := hs
  rw [Option.map_eq_some_iff] at hs
  obtain ⟨bs, hbs, hs⟩ := hs
  unfold prodE
  cases hn : args.filterMap (·.num?) with
  | nil =>
    rw [hn] at hbs
    simp only [numVals, Option.some.injEq] at hbs
    subst hbs
    simp only [eval_prodFinish, has, Option.map_some, ← hs]
    simp
  | cons n ns =>
    rw [hn] at hbs
    dsimp only
    have hv : (ns.foldl Num.mul n).toK? = some bs.prod := by
      simp only [numVals, Option.bind_eq_some_iff, Option.map_eq_some_iff] at hbs
      obtain ⟨x, hx, ys, hys, rfl⟩ := hbs
      rw [foldl_mul_toK? hx hys]; simp
    split_ifs with h0 h1 h2
    · rw [Num.isOne_iff, hv, Option.some.injEq] at h0
      rw [List.isEmpty_iff.mp h1] at has
      simp only [Expr.evalL_nil, Option.some.injEq] at has
      subst has
      rw [Expr.eval_num, hv, ← hs]; simp
    · rw [Num.isOne_iff, hv, Option.some.injEq] at h0
      rw [eval_prodFinish, has, ← hs]; simp [h0]
    · rw [Num.isZero_iff, hv, Option.some.injEq] at h2
      rw [Expr.eval_num, hv, ← hs]; simp [h2]
    · rw [eval_prodFinish, evalL_append_eq, has]
      simp [hv, ← hs]

theorem eval_addE (a b : Expr ℝ) :
    (addE a b).eval v = (a.eval v).bind fun x => (b.eval v).map (x + ·) := by
  unfold addE
  split
  · rw [Expr.eval_num, Num.toK?_add]; simp
  · rw [eval_sumE]
    simp only [Expr.evalL_cons, Expr.evalL_nil]
    cases a.eval v <;> cases b.eval v <;> simp

theorem eval_negE (a : Expr ℝ) : (negE a).eval v = (a.eval v).map (- ·) := by
  unfold negE
  split
  · rw [Expr.eval_num, Num.toK?_neg]; simp
  · rename_i he
    have hn : a.isNum = false := Expr.isNum_false.mpr he
    have hn' : a.num? = none := by cases a <;> simp_all
    have h1 : ¬ ((Num.dbl (-1 : ℝ)).isOne = true) := by
      rw [Num.isOne_iff, Num.toK?_dbl]; norm_num
    have h2 : ¬ ((Num.dbl (-1 : ℝ)).isZero = true) := by
      rw [Num.isZero_iff, Num.toK?_dbl]; norm_num
    have : prodE [Expr.dbl (-1), a] = prodFinish ([a] ++ [.num (Num.dbl (-1))]) := by
      simp [prodE, Expr.dbl, hn, hn', h1, h2]
    rw [this, eval_prodFinish]
    cases h : a.eval v <;> simp [h]

theorem eval_subE (a b : Expr ℝ) :
    (subE a b).eval v = (a.eval v).bind fun x => (b.eval v).map (x - ·) := by
  unfold subE
  split
  · rw [Expr.eval_num, Num.toK?_sub]; simp
  · rw [eval_addE, eval_negE]
    cases a.eval v <;> cases b.eval v <;> simp [sub_eq_add_neg]

theorem eval_mulE {a b : Expr ℝ} {x y : ℝ} (ha : a.eval v = some x) (hb : b.eval v = some y) :
    (mulE a b).eval v = some (x * y) := by
  unfold mulE
  split
  · rw [Expr.eval_num] at ha hb ⊢
    exact Num.toK?_mul ha hb
  · rw [eval_prodE (xs := [x, y]) (by simp [ha, hb])]; simp

theorem fold_app {f : Fn ℝ} (hf : ∀ id ix, f ≠ .dfun id ix) : Fold.fold f = Interp.app f := by
  funext xs
  show @realApp noDFunc f xs = realApp f xs
  unfold realApp
  split <;> first | rfl | exact absurd rfl (hf _ _)

theorem foldFn_toK? {f : Fn ℝ} (hf : ∀ id ix, f ≠ .dfun id ix) (ty : NumTy) (ns : List (Num ℝ)) :
    (foldFn f ty ns).toK? = (ns.mapM Num.toK?).bind (Interp.app f) := by
  unfold foldFn Num.toK?
  dsimp only
  rw [fold_app hf]
  cases ns.mapM fun n : Num ℝ => n.val.toK? with
  | none => rfl
  | some xs => cases h : Interp.app f xs <;> simp [h]

theorem eval_mkPow (b e : Expr ℝ) :
    (mkPow b e).eval v = (b.eval v).bind fun x => (e.eval v).bind fun y =>
      realApp (.pow .general) [x, y] := by
  unfold mkPow
  rw [Expr.eval_fn _ _ _ (by simp)]
  simp only [Expr.evalL_cons, Expr.evalL_nil]
  cases b.eval v <;> cases e.eval v <;> simp [app_def, realApp]

theorem realApp_pow {algo : PowAlgo} {x y : ℝ} (h : PowDom x y) :
    realApp (.pow algo) [x, y] = some (x ^ y) := by
  simp [realApp, h]

theorem eval_powE {b e : Expr ℝ} {x y : ℝ} (hb : b.eval v = some x) (he : e.eval v = some y)
    (h : PowDom x y) : (powE b e).eval v = some (x ^ y) := by
  unfold powE
  split
  · rw [Expr.eval_num] at hb he ⊢
    rw [foldFn_toK? (by simp)]
    simp [hb, he, app_def, realApp_pow h]
  · rw [Expr.eval_num] at he
    split_ifs with h0 h1
    · rw [Num.isZero_iff, he, Option.some.injEq] at h0
      subst h0; simp
    · rw [Num.isOne_iff, he, Option.some.injEq] at h1
      subst h1; simpa using hb
    · rw [eval_mkPow, hb, Expr.eval_num, he]
      simp [realApp_pow h]
  · rw [eval_mkPow, hb, he]
    simp [realApp_pow h]

theorem eval_divE {a b : Expr ℝ} {x y : ℝ} (ha : a.eval v = some x) (hb : b.eval v = some y)
    (hy : y ≠ 0) : (divE a b).eval v = some (x / y) := by
  unfold divE
  split
  · rw [Expr.eval_num] at ha hb ⊢
    exact Num.toK?_div ha hb hy
  · have hp : (powE b (.dbl (-1))).eval v = some (y ^ (-1 : ℝ)) := by
      refine eval_powE hb (by simp) ?_
      rcases lt_or_gt_of_ne hy with h | h
      · exact Or.inr (Or.inr ⟨h, -1, by norm_num⟩)
      · exact Or.inl h
    rw [eval_prodE (xs := [x, y ^ (-1 : ℝ)]) (by simp [ha, hp])]
    simp [Real.rpow_neg_one, div_eq_mul_inv]

theorem eval_unaryE {f : Fn ℝ} (hf : f ≠ .time) (e : Expr ℝ) (hd : ∀ id ix, f ≠ .dfun id ix := by simp) :
    (unaryE f e).eval v = (e.eval v).bind fun x => realApp f [x] := by
  unfold unaryE
  split
  · rw [Expr.eval_num, foldFn_toK? hd]
    rename_i n
    cases h : n.toK? <;> simp [h, app_def]
  · rw [Expr.eval_fn _ _ _ (Or.inl hf)]
    simp only [Expr.evalL_cons, Expr.evalL_nil]
    cases e.eval v <;> simp [app_def]

theorem eval_sqrtE {e : Expr ℝ} {x : ℝ} (he : e.eval v = some x) (hx : 0 ≤ x) :
    (sqrtE e).eval v = some (Real.sqrt x) := by
  unfold sqrtE
  rw [eval_powE he (by simp) (y := 1 / 2), Real.sqrt_eq_rpow]
  rcases hx.lt_or_eq with h | h
  · exact Or.inl h
  · exact Or.inr (Or.inl ⟨h.symm, by norm_num⟩)

end
end Heyoka.Sym
