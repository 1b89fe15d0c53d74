import Verif.Expr.RewriteLemmas
import Verif.Props.Traverse

/-!
# C06, C49: the rewrites before compilation and the evaluation of powers preserve the value

The values are those of the expressions over the reals (`Expr.eval`, `realApp`); `none` means
undefined.
-/

set_option linter.unusedSectionVars false

namespace Heyoka.Sym

variable {v : Env ℝ}

/-- A node transformation applied by the traversal machine to a list of expressions of a heap. If the
transformation of a single function keeps its value, the pass keeps the values of all the
expressions. -/
theorem pass_value (T : Expr ℝ → Expr ℝ) (hT : ∀ v, KeepsValue v T) (h : Heap ℝ) (hv : h.Valid)
    (roots : List (Ref ℝ)) (hr : ∀ r ∈ roots, r.Below h.length) :
    ∃ N, ∃ out : List (Expr ℝ),
      (∀ fuel, N ≤ fuel →
        (transformNodes id T).runAll fuel [] [] (roots.map h.unfold) = some (.ok out)) ∧
      List.Forall₂ (fun r e' => ∀ v x, (h.unfold r).toExpr.eval v = some x → e'.eval v = some x)
        roots out := by
  obtain ⟨N, hN⟩ := transform_nodes_eq_recursion id T h hv roots hr
  refine ⟨N, _, hN, ?_⟩
  rw [List.forall₂_map_right_iff, List.forall₂_same]
  intro r _ v x hx
  exact (hT v).mapNodes _ x hx

/-- C06, the passes of `function_decompose()` and `taylor_decompose_sys()` on any shared graph: sums to
subtractions, splitting of sums, sums of squares, products to divisions, splitting of products. -/
theorem rewrite_passes_value (split : Nat) (hs : 2 ≤ split) (T : Expr ℝ → Expr ℝ)
    (hT : T = sumToSub ∨ T = sumSplit split hs ∨ T = sumToSumSq ∨ T = prodToDiv divFactorEval ∨
      T = prodToDiv divFactorTaylor ∨ T = prodSplit split hs)
    (h : Heap ℝ) (hv : h.Valid) (roots : List (Ref ℝ)) (hr : ∀ r ∈ roots, r.Below h.length) :
    ∃ N, ∃ out : List (Expr ℝ),
      (∀ fuel, N ≤ fuel →
        (transformNodes id T).runAll fuel [] [] (roots.map h.unfold) = some (.ok out)) ∧
      List.Forall₂ (fun r e' => ∀ v x, (h.unfold r).toExpr.eval v = some x → e'.eval v = some x)
        roots out := by
  refine pass_value T (fun v => ?_) h hv roots hr
  rcases hT with rfl | rfl | rfl | rfl | rfl | rfl
  · exact sumToSub_keeps
  · exact sumSplit_keeps split hs
  · exact sumToSumSq_keeps
  · exact prodToDiv_keeps divFactorEval_part
  · exact prodToDiv_keeps divFactorTaylor_part
  · exact prodSplit_keeps split hs

/-- C06: the sequence of rewrites before the compilation of a function keeps the value of the
expression wherever it is defined. -/
theorem rewrites_eval_value (e : Expr ℝ) (x : ℝ) (h : e.eval v = some x) :
    (rewritesEval e).eval v = some x :=
  (prodSplit_keeps 8 _).mapNodes _ x ((prodToDiv_keeps divFactorEval_part).mapNodes _ x
    (sumToSumSq_keeps.mapNodes _ x ((sumSplit_keeps 8 _).mapNodes _ x
      (sumToSub_keeps.mapNodes _ x h))))

/-- The exponentials introduced for the powers with a non-numerical exponent: if the rewritten
expression is defined, it has the value of the original one. -/
theorem pow_to_explog_sound (e : Expr ℝ) (x : ℝ)
    (h : (e.mapNodes id powToExplog).eval v = some x) : e.eval v = some x := by
  induction e using Expr.ind generalizing x with
  | num n => simpa [Expr.mapNodes] using h
  | var s => simpa [Expr.mapNodes] using h
  | par i => simpa [Expr.mapNodes] using h
  | fn f args ih =>
    rw [Expr.mapNodes, Expr.mapNodesL_eq_map] at h
    have hargs : ∀ (as : List (Expr ℝ)) (ys : List ℝ), (∀ a ∈ as, a ∈ args) →
        Expr.evalL v (as.map (Expr.mapNodes id powToExplog)) = some ys →
        Expr.evalL v as = some ys := by
      intro as
      induction as with
      | nil => intro ys _ h; simpa using h
      | cons a as iha =>
        intro ys hm h
        simp only [List.map_cons, Expr.evalL_cons, Option.bind_eq_some_iff,
          Option.map_eq_some_iff] at h
        obtain ⟨y, hy, zs, hzs, rfl⟩ := h
        rw [Expr.evalL_cons, ih a (hm a List.mem_cons_self) y hy,
          iha zs (fun b hb => hm b (List.mem_cons_of_mem _ hb)) hzs]
        rfl
    have hid : ∀ y, (Expr.fn f (args.map (Expr.mapNodes id powToExplog))).eval v = some y →
        (Expr.fn f args).eval v = some y := by
      intro y hy
      by_cases hf : f ≠ .time ∨ args ≠ []
      · have hf' : f ≠ .time ∨ args.map (Expr.mapNodes id powToExplog) ≠ [] := by
          rcases hf with hf | hf
          · exact .inl hf
          · exact .inr (by simpa using hf)
        rw [Expr.eval_fn _ _ _ hf', Option.bind_eq_some_iff] at hy
        obtain ⟨ys, hys, hy⟩ := hy
        rw [Expr.eval_fn _ _ _ hf, hargs args ys (fun _ h => h) hys]
        exact hy
      · push Not at hf
        obtain ⟨rfl, rfl⟩ := hf
        simpa using hy
    apply hid
    generalize args.map (Expr.mapNodes id powToExplog) = args' at h
    unfold powToExplog at h
    split at h
    · rename_i a b e heq
      cases heq
      split_ifs at h with hn
      · exact h
      · rw [eval_explog (by simpa using hn)] at h
        simp only [Option.bind_eq_some_iff] at h
        obtain ⟨z, hz, y, hy, h⟩ := h
        split_ifs at h with hpos
        rw [eval_pow_some]
        refine ⟨y, z, hy, hz, .inl hpos, ?_⟩
        rw [Real.rpow_def_of_pos hpos, mul_comm]
        exact (Option.some.inj h).symm
    · exact h

mutual
/-- At `v`, every power with a non-numerical exponent has a positive base. -/
def Expr.PosBases (v : Env ℝ) : Expr ℝ → Prop
  | .fn f args =>
    (∀ a b e, f = .pow a → args = [b, e] → e.isNum = false → ∀ y, b.eval v = some y → 0 < y) ∧
      Expr.PosBasesL v args
  | _ => True
/-- The same for a list of expressions. -/
def Expr.PosBasesL (v : Env ℝ) : List (Expr ℝ) → Prop
  | [] => True
  | e :: es => Expr.PosBases v e ∧ Expr.PosBasesL v es
end

theorem Expr.posBasesL_iff {es : List (Expr ℝ)} :
    Expr.PosBasesL v es ↔ ∀ e ∈ es, e.PosBases v := by
  induction es with
  | nil => simp [Expr.PosBasesL]
  | cons e es ih => simp [Expr.PosBasesL, ih]

theorem powToExplog_isNum (e : Expr ℝ) (h : e.isNum = false) :
    (e.mapNodes id powToExplog).isNum = false := by
  cases e with
  | num n => simp at h
  | var s => simp [Expr.mapNodes]
  | par s => simp [Expr.mapNodes]
  | fn f args =>
    rw [Expr.mapNodes]
    generalize Expr.mapNodesL id powToExplog args = args'
    unfold powToExplog
    split
    · rename_i a b e heq
      cases heq
      split_ifs with hn
      · rfl
      · cases e <;> simp [Expr.isNum] at hn <;> rfl
    · rfl

/-- Where the bases of the powers with a non-numerical exponent are positive, the exponentials keep the
value. -/
theorem pow_to_explog_value (e : Expr ℝ) (he : e.PosBases v) (x : ℝ) (h : e.eval v = some x) :
    (e.mapNodes id powToExplog).eval v = some x := by
  induction e using Expr.ind generalizing x with
  | num n => simpa [Expr.mapNodes] using h
  | var s => simpa [Expr.mapNodes] using h
  | par i => simpa [Expr.mapNodes] using h
  | fn f args ih =>
    simp only [Expr.PosBases] at he
    obtain ⟨hpos, hargs⟩ := he
    rw [Expr.posBasesL_iff] at hargs
    rw [Expr.mapNodes, Expr.mapNodesL_eq_map]
    have hid : (Expr.fn f (args.map (Expr.mapNodes id powToExplog))).eval v = some x := by
      by_cases hf : f ≠ .time ∨ args ≠ []
      · have hf' : f ≠ .time ∨ args.map (Expr.mapNodes id powToExplog) ≠ [] := by
          rcases hf with hf | hf
          · exact .inl hf
          · exact .inr (by simpa using hf)
        rw [Expr.eval_fn _ _ _ hf, Option.bind_eq_some_iff] at h
        obtain ⟨ys, hys, hy⟩ := h
        rw [Expr.eval_fn _ _ _ hf',
          evalL_map_keeps (fun e he x hx => ih e he (hargs e he) x hx) hys]
        exact hy
      · push Not at hf
        obtain ⟨rfl, rfl⟩ := hf
        simpa using h
    by_cases hp : ∃ a b e, f = .pow a ∧ args = [b, e]
    · obtain ⟨a, b, e, rfl, rfl⟩ := hp
      simp only [List.map_cons, List.map_nil] at hid ⊢
      rw [powToExplog]
      split_ifs with hn
      · exact hid
      · have hn' : e.isNum = false := by
          by_contra hc
          obtain ⟨n, rfl⟩ := Expr.isNum_iff.1 (by simpa using hc)
          exact hn (by simp [Expr.mapNodes])
        rw [eval_explog (by simpa using hn)]
        rw [eval_pow_some] at h hid
        obtain ⟨y, z, hy, hz, -, rfl⟩ := h
        have hy' := ih b (by simp) (hargs b (by simp)) y hy
        have hz' := ih e (by simp) (hargs e (by simp)) z hz
        have h0 : 0 < y := hpos a b e rfl rfl hn' y hy
        rw [hy', hz']
        simp [h0, Real.rpow_def_of_pos h0, mul_comm]
    · unfold powToExplog
      split
      · rename_i a b e heq
        exfalso
        injection heq with h1 h2
        match args, h2 with
        | [b', e'], _ => exact hp ⟨a, b', e', h1, rfl⟩
      · exact hid

/-- C06 for the Taylor pipeline: where the bases of the powers with a non-numerical exponent are
positive, all the rewrites together keep the value. -/
theorem rewrites_taylor_value (e : Expr ℝ) (he : e.PosBases v) (x : ℝ) (h : e.eval v = some x) :
    (rewritesTaylor e).eval v = some x :=
  (prodSplit_keeps 2 _).mapNodes _ x ((prodToDiv_keeps divFactorTaylor_part).mapNodes _ x
    (sumToSumSq_keeps.mapNodes _ x ((sumSplit_keeps 8 _).mapNodes _ x
      (sumToSub_keeps.mapNodes _ x (pow_to_explog_value e he x h)))))

/-- The restriction on the bases is needed: `(-2)**p` with `p = 2` has the value 4, but the rewritten
expression `exp(p * log(-2))` is undefined. -/
theorem pow_to_explog_undefined :
    ∃ (e : Expr ℝ) (v : Env ℝ), e.eval v = some 4 ∧ (e.mapNodes id powToExplog).eval v = none := by
  refine ⟨.fn (.pow .general) [.var "x", .par 0], ⟨fun _ => -2, fun _ => 2, 0⟩, ?_, ?_⟩
  · rw [eval_pow_some]
    refine ⟨-2, 2, by simp, by simp, .inr (.inr ⟨by norm_num, 2, by norm_num⟩), ?_⟩
    rw [show (2 : ℝ) = ((2 : ℕ) : ℝ) by norm_num, Real.rpow_natCast]
    norm_num
  · have : ((.fn (.pow .general) [.var "x", .par 0] : Expr ℝ).mapNodes id powToExplog) =
        unaryE .exp (mulE (.par 0) (.fn .log [.var "x"])) := by
      simp [Expr.mapNodes, Expr.mapNodesL, powToExplog]
    rw [this, eval_explog (by simp)]
    simp

/-! ### The result of splitting -/

/-- After the splitting of the sums, no sum has more than `split` terms. -/
theorem sum_split_bound (split : Nat) (hs : 2 ≤ split) (e : Expr ℝ) :
    (e.mapNodes id (sumSplit split hs)).AllFns fun f args => f = .sum → args.length ≤ split := by
  refine Expr.AllFns.mapNodes (fun f args ha => ?_) e
  unfold sumSplit
  split
  · rename_i as heq
    cases heq
    refine udfSplit_all hs (fun as hl hq => ?_) args ha
    simp only [Expr.AllFns]
    exact ⟨fun _ => hl, Expr.allFnsL_iff.2 hq⟩
  · rename_i hne
    simp only [Expr.AllFns]
    exact ⟨fun hf => absurd (by rw [hf]) (hne args), Expr.allFnsL_iff.2 ha⟩

/-- After the splitting of the products, no product has more than `split` factors. With `split = 2`
this is what the Taylor derivative of a product relies on. -/
theorem prod_split_bound (split : Nat) (hs : 2 ≤ split) (e : Expr ℝ) :
    (e.mapNodes id (prodSplit split hs)).AllFns
      fun f args => (∃ b, f = .prod b) → args.length ≤ split := by
  refine Expr.AllFns.mapNodes (fun f args ha => ?_) e
  unfold prodSplit
  split
  · rename_i neg as heq
    cases heq
    split_ifs with h
    · simp only [Expr.AllFns]
      exact ⟨fun _ => h, Expr.allFnsL_iff.2 ha⟩
    · refine udfSplit_all hs (fun as hl hq => ?_) args ha
      simp only [Expr.AllFns, mkProd]
      exact ⟨fun _ => hl, Expr.allFnsL_iff.2 hq⟩
  · rename_i hne
    simp only [Expr.AllFns]
    exact ⟨fun ⟨b, hf⟩ => absurd (by rw [hf]) (hne b args), Expr.allFnsL_iff.2 ha⟩

/-! ### Evaluation of powers -/

open Classical in
/-- The code generated for a power (`get_pow_eval_algo()`, `src/math/pow.cpp` 292-355): products,
square root and division for small (half-)integral exponents, the library function otherwise.
`none` stands for a NaN or an infinity: the square root of a negative number, a division by zero. -/
noncomputable def powEval : PowAlgo → ℝ → ℝ → Option ℝ
  | .posInt n, b, _ => some (powEbs b n)
  | .negInt n, b, _ => if powEbs b n = 0 then none else some (1 / powEbs b n)
  | .posHalf n, b, _ => if b < 0 then none else some (powEbs (Real.sqrt b) n)
  | .negHalf n, b, _ =>
    if b < 0 ∨ powEbs (Real.sqrt b) n = 0 then none else some (1 / powEbs (Real.sqrt b) n)
  | .general, b, e => if PowDom b e then some (b ^ e) else none

/-- Exponentiation by squaring. -/
theorem pow_ebs_eq {K : Type} [Field K] [LinearOrder K] (b : K) (n : Nat) : powEbs b n = b ^ n := by
  induction n using Nat.strong_induction_on generalizing b with
  | _ n ih =>
    rw [powEbs]
    split_ifs with h0 h1 h2
    · simp [h0]
    · simp [h1]
    · rw [ih _ (by omega), ← sq, ← pow_mul]
      congr 1; omega
    · rw [ih _ (by omega), ← sq, ← pow_mul, ← pow_succ']
      congr 1; omega

/-- C49: the evaluation strategy selected for a power with a numerical exponent computes the power,
and it is undefined exactly outside of the domain. -/
theorem pow_eval_correct (n : Num ℝ) (b e : ℝ) (he : n.toK? = some e) :
    powEval (powAlgo (.num n : Expr ℝ)) b e = realApp (.pow .general) [b, e] := by
  classical
  simp only [powAlgo, exIsIntegral, exIsOddIntegralHalf, he]
  by_cases h1 : e = (⌊e⌋ : ℝ)
  · rw [if_pos h1]
    simp only
    rw [if_pos h1]
    have hint : ∃ n : ℤ, e = n := ⟨_, h1⟩
    generalize ⌊e⌋ = k at h1
    subst h1
    by_cases h2 : 0 ≤ k ∧ k ≤ 16
    · simp only [h2, and_self, if_true]
      have hd : PowDom b (k : ℝ) := by
        rcases lt_trichotomy b 0 with h | h | h
        · exact .inr (.inr ⟨h, k, rfl⟩)
        · exact .inr (.inl ⟨h, by exact_mod_cast h2.1⟩)
        · exact .inl h
      obtain ⟨m, rfl⟩ := Int.eq_ofNat_of_zero_le h2.1
      simp only [powEval, realApp, if_pos hd, pow_ebs_eq]
      simp
    · simp only [h2, if_false]
      by_cases h3 : k < 0 ∧ -k ≤ 16
      · simp only [h3, and_self, if_true]
        obtain ⟨m, hm⟩ := Int.eq_ofNat_of_zero_le (show 0 ≤ -k by omega)
        obtain rfl : k = -(m : ℤ) := by omega
        have hm0 : m ≠ 0 := by omega
        by_cases hb : b = 0
        · have hd : ¬ PowDom b ((-(m : ℤ) : ℤ) : ℝ) := by
            subst hb
            rintro (h | ⟨-, h⟩ | ⟨h, -⟩)
            · exact lt_irrefl _ h
            · push_cast at h
              have : (0 : ℝ) < m := by exact_mod_cast Nat.pos_of_ne_zero hm0
              linarith
            · exact lt_irrefl _ h
          simp only [powEval, realApp, if_neg hd, pow_ebs_eq]
          simp [hb, hm0]
        · have hd : PowDom b ((-(m : ℤ) : ℤ) : ℝ) := by
            rcases lt_or_gt_of_ne hb with h | h
            · exact .inr (.inr ⟨h, _, rfl⟩)
            · exact .inl h
          simp only [powEval, realApp, if_pos hd, pow_ebs_eq]
          rw [Real.rpow_intCast]
          simp [hb, zpow_neg]
      · simp only [h3, if_false]
        rfl
  · rw [if_neg h1]
    simp only
    rw [if_neg h1]
    have hint : ¬ ∃ n : ℤ, e = n := by
      rintro ⟨n, rfl⟩
      exact h1 (by simp)
    by_cases h2 : 2 * e = (⌊2 * e⌋ : ℝ)
    · rw [if_pos h2]
      simp only
      generalize ⌊2 * e⌋ = k at h2
      have he2 : e = k / 2 := by linarith
      by_cases h3 : 0 ≤ k ∧ k ≤ 16
      · simp only [h3, and_self, if_true]
        obtain ⟨m, rfl⟩ := Int.eq_ofNat_of_zero_le h3.1
        simp only [powEval, realApp, pow_ebs_eq]
        by_cases hb : b < 0
        · have hd : ¬ PowDom b e := by
            rintro (h | ⟨h, -⟩ | ⟨-, h⟩)
            · linarith
            · linarith
            · exact hint h
          simp [hb, hd]
        · push Not at hb
          have hd : PowDom b e := by
            rcases hb.lt_or_eq with h | h
            · exact .inl h
            · refine .inr (.inl ⟨h.symm, ?_⟩)
              rw [he2]; positivity
          rw [if_neg (not_lt.2 hb), if_pos hd, Real.sqrt_eq_rpow, ← Real.rpow_natCast,
            ← Real.rpow_mul hb, he2]
          congr 2
          simp only [Int.toNat_natCast, Int.cast_natCast]
          ring
      · simp only [h3, if_false]
        by_cases h4 : k < 0 ∧ -k ≤ 16
        · simp only [h4, and_self, if_true]
          obtain ⟨m, hm⟩ := Int.eq_ofNat_of_zero_le (show 0 ≤ -k by omega)
          obtain rfl : k = -(m : ℤ) := by omega
          have hm0 : m ≠ 0 := by omega
          simp only [powEval, realApp, pow_ebs_eq]
          by_cases hb : 0 < b
          · have hs : 0 < Real.sqrt b := Real.sqrt_pos.2 hb
            rw [if_neg (by
              rintro (h | h)
              · linarith
              · exact (pow_pos hs _).ne' h), if_pos (.inl hb), he2]
            push_cast
            rw [neg_neg, Int.toNat_natCast, show -(m : ℝ) / 2 = -(1 / 2 * (m : ℝ)) by ring,
              Real.rpow_neg hb.le, Real.rpow_mul hb.le, ← Real.sqrt_eq_rpow, Real.rpow_natCast,
              one_div]
          · have hd : ¬ PowDom b e := by
              rintro (h | ⟨-, h⟩ | ⟨-, h⟩)
              · exact hb h
              · rw [he2] at h
                push_cast at h
                have : (0 : ℝ) < m := by exact_mod_cast Nat.pos_of_ne_zero hm0
                linarith
              · exact hint h
            rw [if_neg hd, if_pos]
            rcases lt_or_eq_of_le (not_lt.1 hb) with h | h
            · exact .inl h
            · right
              rw [h]
              simp [hm0]
        · simp only [h4, if_false]
          rfl
    · rw [if_neg h2]
      rfl

/-! ### Concrete cases -/

example : powEbs (3 : ℚ) 13 = 3 ^ 13 := by with_unfolding_all rfl

/-- `x + (-1)*y*z` becomes `x - y*z`. -/
example : sumToSub (.fn .sum [.var "x", .fn (.prod true) [.dbl (-1), .var "y", .var "z"]] : Expr ℝ) =
    .fn .sub [.var "x", .fn (.prod false) [.var "y", .var "z"]] := by
  have hn : (Num.dbl (-1 : ℝ)).isNegOne = true := by simp [Num.isNegOne_iff]
  simp [sumToSub, negatedProd, Expr.dbl, hn, List.filter, List.filterMap, sumE, prodE, sumFinish,
    prodFinish, mkProd, prodIsNegation, Expr.num?, Expr.isNum]

/-- Five factors split into products of two. -/
example : prodSplit 2 (by decide)
      (.fn (.prod false) [.var "a", .var "b", .var "c", .var "d", .var "e"] : Expr ℝ) =
    .fn (.prod false) [.fn (.prod false) [.fn (.prod false) [.var "a", .var "b"],
      .fn (.prod false) [.var "c", .var "d"]], .var "e"] := by
  simp [prodSplit, udfSplit, groupArgs, mkProd, prodIsNegation]

end Heyoka.Sym
