import Verif.Expr.Rewrite
import Verif.Expr.BuildLemmas
import Verif.Expr.SubsLemmas

/-! # Lemmas about the rewrites -/

set_option linter.unusedSectionVars false

namespace Heyoka.Sym

variable [DFunc] {v : Env ℝ}

/-- A transformation of expressions that does not change the value at `v` where there is one. -/
def KeepsValue (v : Env ℝ) (T : Expr ℝ → Expr ℝ) : Prop :=
  ∀ e x, e.eval v = some x → (T e).eval v = some x

theorem KeepsValue.comp {S T : Expr ℝ → Expr ℝ} (hS : KeepsValue v S) (hT : KeepsValue v T) :
    KeepsValue v (fun e => T (S e)) := fun e x h => hT _ _ (hS e x h)

theorem evalL_map_keeps {T : Expr ℝ → Expr ℝ} {es : List (Expr ℝ)} {xs : List ℝ}
    (hT : ∀ e ∈ es, ∀ x, e.eval v = some x → (T e).eval v = some x)
    (h : Expr.evalL v es = some xs) : Expr.evalL v (es.map T) = some xs := by
  induction es generalizing xs with
  | nil => simpa using h
  | cons e es ih =>
    simp only [Expr.evalL_cons, Option.bind_eq_some_iff, Option.map_eq_some_iff] at h
    obtain ⟨x, hx, ys, hys, rfl⟩ := h
    rw [List.map_cons, Expr.evalL_cons, hT e List.mem_cons_self x hx,
      ih (fun a ha => hT a (List.mem_cons_of_mem _ ha)) hys]
    rfl

/-- Transforming every function of an expression keeps the value if the transformation of a single
function does. -/
theorem KeepsValue.mapNodes {T : Expr ℝ → Expr ℝ} (hT : KeepsValue v T) : KeepsValue v (Expr.mapNodes id T) := by
  intro e
  induction e using Expr.ind with
  | num n => intro x h; simpa [Expr.mapNodes] using h
  | var s => intro x h; simpa [Expr.mapNodes] using h
  | par i => intro x h; simpa [Expr.mapNodes] using h
  | fn f args ih =>
    intro x h
    rw [Expr.mapNodes, Expr.mapNodesL_eq_map]
    apply hT
    by_cases hf : f ≠ .time ∨ args ≠ []
    · rw [Expr.eval_fn _ _ _ hf] at h
      have hf' : f ≠ .time ∨ args.map (Expr.mapNodes id T) ≠ [] := by
        rcases hf with hf | hf
        · exact .inl hf
        · exact .inr (by simpa using hf)
      rw [Expr.eval_fn _ _ _ hf']
      rw [Option.bind_eq_some_iff] at h ⊢
      obtain ⟨xs, hxs, hx⟩ := h
      exact ⟨xs, evalL_map_keeps ih hxs, hx⟩
    · push Not at hf
      obtain ⟨rfl, rfl⟩ := hf
      simpa using h

/-! ### Splitting -/

theorem groupArgs_eval {mk : List (Expr ℝ) → Expr ℝ} {g : List ℝ → ℝ}
    (hone : ∀ x, g [x] = x) (happ : ∀ xs ys, g (xs ++ ys) = g [g xs, g ys])
    (hcons : ∀ x y ys, x = y → g (x :: ys) = g [y, g ys])
    (hmk : ∀ as xs, Expr.evalL v as = some xs → (mk as).eval v = some (g xs)) (split : Nat)
    (tmp as : List (Expr ℝ)) (ts xs : List ℝ) (ht : Expr.evalL v tmp = some ts)
    (hx : Expr.evalL v as = some xs) :
    ∃ ys, Expr.evalL v (groupArgs mk split tmp as) = some ys ∧ g ys = g (ts ++ xs) := by
  induction as generalizing tmp ts xs with
  | nil =>
    simp only [Expr.evalL_nil, Option.some.injEq] at hx
    subst hx
    rw [List.append_nil]
    match tmp with
    | [] => exact ⟨ts, by simpa [groupArgs] using ht, rfl⟩
    | [a] => exact ⟨ts, by simpa [groupArgs] using ht, rfl⟩
    | a :: b :: tmp =>
      refine ⟨[g ts], ?_, hone _⟩
      simp [groupArgs, hmk _ _ ht]
  | cons a as ih =>
    simp only [Expr.evalL_cons, Option.bind_eq_some_iff, Option.map_eq_some_iff] at hx
    obtain ⟨x, hx, zs, hzs, rfl⟩ := hx
    have h1 : Expr.evalL v (tmp ++ [a]) = some (ts ++ [x]) :=
      Expr.evalL_append ht (by simp [hx])
    rw [groupArgs]
    split_ifs with hc
    · obtain ⟨ys, hys, he⟩ := ih [] [] zs (by simp) hzs
      refine ⟨g (ts ++ [x]) :: ys, by simp [hmk _ _ h1, hys], ?_⟩
      rw [hcons _ _ ys rfl, he, List.nil_append, ← happ]
      simp
    · obtain ⟨ys, hys, he⟩ := ih (tmp ++ [a]) (ts ++ [x]) zs h1 hzs
      exact ⟨ys, hys, by rw [he]; simp⟩

theorem udfSplit_eval {mk : List (Expr ℝ) → Expr ℝ} {g : List ℝ → ℝ}
    (hone : ∀ x, g [x] = x) (happ : ∀ xs ys, g (xs ++ ys) = g [g xs, g ys])
    (hcons : ∀ x y ys, x = y → g (x :: ys) = g [y, g ys])
    (hmk : ∀ as xs, Expr.evalL v as = some xs → (mk as).eval v = some (g xs)) (split : Nat)
    (hs : 2 ≤ split) (as : List (Expr ℝ)) (xs : List ℝ) (hx : Expr.evalL v as = some xs) :
    (udfSplit mk split hs as).eval v = some (g xs) := by
  induction hn : as.length using Nat.strong_induction_on generalizing as xs with
  | _ n ih =>
    subst hn
    rw [udfSplit]
    split_ifs with h
    · exact hmk _ _ hx
    · obtain ⟨ys, hys, he⟩ :=
        groupArgs_eval hone happ hcons hmk split [] as [] xs (by simp) hx
      rw [ih _ ?_ _ _ hys rfl, he, List.nil_append]
      have := groupArgs_length_lt mk split [] as (by simp; omega) (by simp; omega)
      simp at this
      omega

theorem sumSplit_keeps (split : Nat) (hs : 2 ≤ split) : KeepsValue v (sumSplit split hs) := by
  intro e x h
  unfold sumSplit
  split
  · rename_i args
    rw [eval_sum, Option.map_eq_some_iff] at h
    obtain ⟨xs, hxs, rfl⟩ := h
    refine udfSplit_eval (g := List.sum) (by simp) (by simp) (by simp) ?_ split hs args xs
      hxs
    intro as ys hys
    rw [eval_sum, hys]; rfl
  · exact h

theorem prodSplit_keeps (split : Nat) (hs : 2 ≤ split) : KeepsValue v (prodSplit split hs) := by
  intro e x h
  unfold prodSplit
  split
  · rename_i neg args
    split_ifs
    · exact h
    rw [eval_prod, Option.map_eq_some_iff] at h
    obtain ⟨xs, hxs, rfl⟩ := h
    refine udfSplit_eval (g := List.prod) (by simp) (by simp) (by rintro x _ ys rfl; simp) ?_ split hs
      args xs hxs
    intro as ys hys
    rw [mkProd, eval_prod, hys]; rfl
  · exact h

/-! ### Powers -/

/-- The value of a power with a numerical exponent. -/
theorem eval_pow_num {a : PowAlgo} {b : Expr ℝ} {n : Num ℝ} {x : ℝ}
    (h : (Expr.fn (.pow a) [b, .num n]).eval v = some x) :
    ∃ y e, b.eval v = some y ∧ n.toK? = some e ∧ PowDom y e ∧ x = y ^ e := by
  rw [Expr.eval_fn _ _ _ (by simp)] at h
  simp only [Expr.evalL_cons, Expr.evalL_nil, Expr.eval_num, Option.bind_eq_some_iff,
    Option.map_eq_some_iff] at h
  obtain ⟨xs, ⟨y, hy, _, ⟨e, he, _, hz, rfl⟩, rfl⟩, hx⟩ := h
  simp only [Option.some.injEq] at hz
  subst hz
  rw [app_def] at hx
  simp only [realApp] at hx
  split_ifs at hx with hd
  exact ⟨y, e, hy, he, hd, by simpa using hx.symm⟩

theorem isSquare_eval {e b : Expr ℝ} {x : ℝ} (h : isSquare e = some b) (hx : e.eval v = some x) :
    ∃ y, b.eval v = some y ∧ x = y ^ 2 := by
  unfold isSquare at h
  split at h
  · rename_i a b' n
    split_ifs at h with hn
    cases h
    obtain ⟨y, e, hy, he, -, rfl⟩ := eval_pow_num hx
    refine ⟨y, hy, ?_⟩
    have : e = 2 := by
      have h2 : n.toK? = some 2 := hn
      rw [he] at h2
      exact Option.some.inj h2
    rw [this]
    exact Real.rpow_ofNat y 2
  · cases h

theorem allSquares_eval {es bs : List (Expr ℝ)} {xs : List ℝ} (h : allSquares es = some bs)
    (hx : Expr.evalL v es = some xs) :
    ∃ ys, Expr.evalL v bs = some ys ∧ xs = ys.map (· ^ 2) := by
  induction es generalizing bs xs with
  | nil =>
    simp only [allSquares, Option.some.injEq] at h
    subst h
    simp only [Expr.evalL_nil, Option.some.injEq] at hx
    subst hx
    exact ⟨[], by simp, rfl⟩
  | cons e es ih =>
    simp only [allSquares, Option.bind_eq_some_iff, Option.map_eq_some_iff] at h
    obtain ⟨b, hb, cs, hcs, rfl⟩ := h
    simp only [Expr.evalL_cons, Option.bind_eq_some_iff, Option.map_eq_some_iff] at hx
    obtain ⟨x, hx, zs, hzs, rfl⟩ := hx
    obtain ⟨y, hy, rfl⟩ := isSquare_eval hb hx
    obtain ⟨ys, hys, rfl⟩ := ih hcs hzs
    exact ⟨y :: ys, by simp [hy, hys], rfl⟩

theorem sumToSumSq_keeps : KeepsValue v sumToSumSq := by
  intro e x h
  unfold sumToSumSq
  split
  · rename_i args
    split
    · rename_i bs hbs
      rw [eval_sum, Option.map_eq_some_iff] at h
      obtain ⟨xs, hxs, rfl⟩ := h
      obtain ⟨ys, hys, rfl⟩ := allSquares_eval hbs hxs
      rw [Expr.eval_fn _ _ _ (by simp), hys]
      rfl
    · exact h
  · exact h

/-! ### Partitions -/

theorem negatedProd_eval {e : Expr ℝ} {bs : List (Expr ℝ)} {x : ℝ} (h : negatedProd e = some bs)
    (hx : e.eval v = some x) : (prodE bs).eval v = some (-x) := by
  unfold negatedProd at h
  split at h
  · rename_i neg n a as
    split_ifs at h with hn
    cases h
    rw [Num.isNegOne_iff] at hn
    rw [eval_prod, Option.map_eq_some_iff] at hx
    obtain ⟨xs, hxs, rfl⟩ := hx
    rw [Expr.evalL_cons, Expr.eval_num, hn] at hxs
    simp only [Option.bind_some, Option.map_eq_some_iff] at hxs
    obtain ⟨ys, hys, rfl⟩ := hxs
    rw [eval_prodE hys]
    simp
  · cases h

theorem sumToSub_aux (es : List (Expr ℝ)) (xs : List ℝ) (h : Expr.evalL v es = some xs) :
    ∃ ks ps, Expr.evalL v (es.filter fun a => (negatedProd a).isNone) = some ks ∧
      Expr.evalL v ((es.filterMap negatedProd).map prodE) = some ps ∧
      xs.sum = ks.sum - ps.sum := by
  induction es generalizing xs with
  | nil =>
    simp only [Expr.evalL_nil, Option.some.injEq] at h
    subst h
    exact ⟨[], [], by simp, by simp, by simp⟩
  | cons e es ih =>
    simp only [Expr.evalL_cons, Option.bind_eq_some_iff, Option.map_eq_some_iff] at h
    obtain ⟨x, hx, zs, hzs, rfl⟩ := h
    obtain ⟨ks, ps, hks, hps, he⟩ := ih zs hzs
    cases hp : negatedProd e with
    | none =>
      refine ⟨x :: ks, ps, ?_, ?_, ?_⟩
      · rw [List.filter_cons_of_pos (by simp [hp]), Expr.evalL_cons, hx, hks]; rfl
      · rw [List.filterMap_cons_none hp]; exact hps
      · simp [he]; ring
    | some b =>
      refine ⟨ks, -x :: ps, ?_, ?_, ?_⟩
      · rw [List.filter_cons_of_neg (by simp [hp])]; exact hks
      · rw [List.filterMap_cons_some hp, List.map_cons, Expr.evalL_cons, negatedProd_eval hp hx,
          hps]; rfl
      · simp [he]; ring

theorem eval_sumE_of {es : List (Expr ℝ)} {xs : List ℝ} (h : Expr.evalL v es = some xs) :
    (sumE es).eval v = some xs.sum := by
  rw [eval_sumE, h]; rfl

theorem sumToSub_keeps : KeepsValue v sumToSub := by
  intro e x h
  unfold sumToSub
  split
  · rename_i args
    have h0 := h
    rw [eval_sum, Option.map_eq_some_iff] at h
    obtain ⟨xs, hxs, rfl⟩ := h
    obtain ⟨ks, ps, hks, hps, he⟩ := sumToSub_aux args xs hxs
    dsimp only
    split_ifs with h1 h2
    · exact h0
    · rw [List.isEmpty_iff] at h2
      rw [h2] at hks
      simp only [Expr.evalL_nil, Option.some.injEq] at hks
      subst hks
      rw [eval_prodE (xs := [-1, ps.sum]) (by simp [eval_sumE_of hps]), he]
      simp
    · rw [Expr.eval_fn _ _ _ (by simp)]
      simp [eval_sumE_of hks, eval_sumE_of hps, app_def, realApp, he]
  · exact h

/-! ### Products to divisions -/

/-- What is required of the factors moved to the divisor. -/
def DivPart (v : Env ℝ) (part : Expr ℝ → Option (Expr ℝ × Num ℝ)) : Prop :=
  ∀ e b n x, part e = some (b, n) → e.eval v = some x →
    ∃ z, z ≠ 0 ∧ (powE b (.num n.neg)).eval v = some z ∧ x = z⁻¹

theorem powDom_neg {y e : ℝ} (h : PowDom y e) (hy : y ≠ 0) : PowDom y (-e) := by
  rcases h with h | ⟨h, -⟩ | ⟨h, n, rfl⟩
  · exact .inl h
  · exact absurd h hy
  · exact .inr (.inr ⟨h, -n, by push_cast; rfl⟩)

theorem rpow_neg' {y e : ℝ} (h : PowDom y e) (hy : y ≠ 0) : y ^ e = (y ^ (-e))⁻¹ := by
  rcases h with h | ⟨h, -⟩ | ⟨h, n, rfl⟩
  · rw [Real.rpow_neg h.le, inv_inv]
  · exact absurd h hy
  · rw [Real.rpow_intCast, show -(n : ℝ) = ((-n : ℤ) : ℝ) by push_cast; rfl, Real.rpow_intCast,
      zpow_neg, inv_inv]

theorem divPart_of_neg {b : Expr ℝ} {a : PowAlgo} {n : Num ℝ} {x : ℝ}
    (hn : ∀ e, n.toK? = some e → e < 0) (hx : (Expr.fn (.pow a) [b, .num n]).eval v = some x) :
    ∃ z, z ≠ 0 ∧ (powE b (.num n.neg)).eval v = some z ∧ x = z⁻¹ := by
  obtain ⟨y, e, hy, he, hd, rfl⟩ := eval_pow_num hx
  have hneg := hn e he
  have hy0 : y ≠ 0 := by
    rintro rfl
    rcases hd with h | ⟨-, h⟩ | ⟨h, -⟩
    · exact lt_irrefl _ h
    · linarith
    · exact lt_irrefl _ h
  refine ⟨y ^ (-e), ?_, eval_powE hy ?_ (powDom_neg hd hy0), rpow_neg' hd hy0⟩
  · intro h0
    rcases hd with h | ⟨h, -⟩ | ⟨h, k, rfl⟩
    · exact (Real.rpow_pos_of_pos h (-e)).ne' h0
    · exact hy0 h
    · rw [show -(k : ℝ) = ((-k : ℤ) : ℝ) by push_cast; rfl, Real.rpow_intCast] at h0
      exact zpow_ne_zero _ hy0 h0
  · rw [Expr.eval_num, Num.toK?_neg, he]; rfl

theorem powAlgo_neg {n : Num ℝ} {k : Nat}
    (h : powAlgo (.num n : Expr ℝ) = .negInt k ∨ powAlgo (.num n : Expr ℝ) = .negHalf k) :
    ∀ e, n.toK? = some e → e < 0 := by
  intro e he
  simp only [powAlgo, exIsIntegral, exIsOddIntegralHalf, he] at h
  by_cases h1 : e = (⌊e⌋ : ℝ)
  · rw [if_pos h1] at h
    simp only at h
    rw [if_pos h1] at h
    by_cases h2 : 0 ≤ ⌊e⌋ ∧ ⌊e⌋ ≤ 16
    · simp [h2] at h
    · by_cases h3 : ⌊e⌋ < 0 ∧ -⌊e⌋ ≤ 16
      · rw [h1]; exact_mod_cast h3.1
      · simp [h2, h3] at h
  · rw [if_neg h1] at h
    simp only at h
    rw [if_neg h1] at h
    by_cases h2 : 2 * e = (⌊2 * e⌋ : ℝ)
    · rw [if_pos h2] at h
      simp only at h
      by_cases h3 : 0 ≤ ⌊2 * e⌋ ∧ ⌊2 * e⌋ ≤ 16
      · simp [h3] at h
      · by_cases h4 : ⌊2 * e⌋ < 0 ∧ -⌊2 * e⌋ ≤ 16
        · have : (⌊2 * e⌋ : ℝ) < 0 := by exact_mod_cast h4.1
          linarith
        · simp [h3, h4] at h
    · rw [if_neg h2] at h
      simp at h

theorem divFactorEval_part : DivPart v divFactorEval := by
  intro e b n x h hx
  unfold divFactorEval at h
  split at h
  · rename_i a b' n'
    split at h
    · rename_i k hk
      cases h
      exact divPart_of_neg (powAlgo_neg (.inl hk)) hx
    · rename_i k hk
      cases h
      exact divPart_of_neg (powAlgo_neg (.inr hk)) hx
    · cases h
  · cases h

theorem divFactorTaylor_part : DivPart v divFactorTaylor := by
  intro e b n x h hx
  unfold divFactorTaylor at h
  split at h
  · rename_i a b' n'
    split_ifs at h with hn
    cases h
    refine divPart_of_neg (fun e he => ?_) hx
    rw [Num.isNegOne_iff, he, Option.some.injEq] at hn
    rw [hn]; norm_num
  · cases h

theorem prodToDiv_aux {part : Expr ℝ → Option (Expr ℝ × Num ℝ)} (hpart : DivPart v part)
    (es : List (Expr ℝ)) (xs : List ℝ) (h : Expr.evalL v es = some xs) :
    ∃ ks ps, Expr.evalL v (es.filter fun a => (part a).isNone) = some ks ∧
      Expr.evalL v ((es.filterMap part).map fun p => powE p.1 (.num p.2.neg)) = some ps ∧
      ps.prod ≠ 0 ∧ xs.prod = ks.prod / ps.prod := by
  induction es generalizing xs with
  | nil =>
    simp only [Expr.evalL_nil, Option.some.injEq] at h
    subst h
    exact ⟨[], [], by simp, by simp, by simp, by simp⟩
  | cons e es ih =>
    simp only [Expr.evalL_cons, Option.bind_eq_some_iff, Option.map_eq_some_iff] at h
    obtain ⟨x, hx, zs, hzs, rfl⟩ := h
    obtain ⟨ks, ps, hks, hps, h0, he⟩ := ih zs hzs
    cases hp : part e with
    | none =>
      refine ⟨x :: ks, ps, ?_, ?_, h0, ?_⟩
      · rw [List.filter_cons_of_pos (by simp [hp]), Expr.evalL_cons, hx, hks]; rfl
      · rw [List.filterMap_cons_none hp]; exact hps
      · simp [he]; ring
    | some b =>
      obtain ⟨b, n⟩ := b
      obtain ⟨z, hz0, hz, rfl⟩ := hpart e b n x hp hx
      refine ⟨ks, z :: ps, ?_, ?_, ?_, ?_⟩
      · rw [List.filter_cons_of_neg (by simp [hp])]; exact hks
      · rw [List.filterMap_cons_some hp, List.map_cons, Expr.evalL_cons, hz, hps]; rfl
      · simp only [List.prod_cons]; exact mul_ne_zero hz0 h0
      · simp only [List.prod_cons, he]
        field_simp

theorem prodToDiv_keeps {part : Expr ℝ → Option (Expr ℝ × Num ℝ)} (hpart : DivPart v part) :
    KeepsValue v (prodToDiv part) := by
  intro e x h
  unfold prodToDiv
  split
  · rename_i neg args
    have h0 := h
    rw [eval_prod, Option.map_eq_some_iff] at h
    obtain ⟨xs, hxs, rfl⟩ := h
    obtain ⟨ks, ps, hks, hps, hne, he⟩ := prodToDiv_aux hpart args xs hxs
    dsimp only
    split_ifs with h1
    · exact h0
    · rw [Expr.eval_fn _ _ _ (by simp)]
      simp [eval_prodE hks, eval_prodE hps, app_def, realApp, he, hne]
  · exact h

/-! ### Powers to exponentials -/

theorem eval_pow_some {a : PowAlgo} {b e : Expr ℝ} {x : ℝ} :
    (Expr.fn (.pow a) [b, e]).eval v = some x ↔
      ∃ y z, b.eval v = some y ∧ e.eval v = some z ∧ PowDom y z ∧ x = y ^ z := by
  rw [Expr.eval_fn _ _ _ (by simp)]
  simp only [Expr.evalL_cons, Expr.evalL_nil, app_def]
  cases hb : b.eval v with
  | none => simp
  | some y =>
    cases he : e.eval v with
    | none => simp
    | some z =>
      by_cases hd : PowDom y z
      · simp [realApp, hd, eq_comm]
      · simp [realApp, hd]

theorem eval_explog {b e : Expr ℝ} (he : e.isNum = false) :
    (unaryE .exp (mulE e (.fn .log [b]))).eval v =
      (e.eval v).bind fun z => (b.eval v).bind fun y =>
        if 0 < y then some (Real.exp (z * Real.log y)) else none := by
  have hm : mulE e (.fn .log [b]) = .fn (.prod false) [e, .fn .log [b]] := by
    cases e <;> simp [Expr.isNum] at he <;>
      rfl
  rw [hm, eval_unaryE (by simp), eval_prod]
  simp only [Expr.evalL_cons, Expr.evalL_nil]
  rw [Expr.eval_fn _ _ _ (by simp)]
  simp only [Expr.evalL_cons, Expr.evalL_nil, app_def]
  cases e.eval v with
  | none => simp
  | some z =>
    cases b.eval v with
    | none => simp
    | some y => by_cases hy : 0 < y <;> simp [realApp, hy]

/-! ### Numbers of arguments -/

variable {K : Type}

mutual
/-- A condition on every function of an expression. -/
def Expr.AllFns (P : Fn K → List (Expr K) → Prop) : Expr K → Prop
  | .fn f args => P f args ∧ Expr.AllFnsL P args
  | _ => True
/-- A condition on every function of a list of expressions. -/
def Expr.AllFnsL (P : Fn K → List (Expr K) → Prop) : List (Expr K) → Prop
  | [] => True
  | e :: es => Expr.AllFns P e ∧ Expr.AllFnsL P es
end

theorem Expr.allFnsL_iff {P : Fn K → List (Expr K) → Prop} {es : List (Expr K)} :
    Expr.AllFnsL P es ↔ ∀ e ∈ es, e.AllFns P := by
  induction es with
  | nil => simp [Expr.AllFnsL]
  | cons e es ih => simp [Expr.AllFnsL, ih]

theorem groupArgs_all {α : Type} {mk : List α → α} {Q : α → Prop} {split : Nat}
    (hs : 2 ≤ split) (hmk : ∀ as : List α, as.length ≤ split → (∀ a ∈ as, Q a) → Q (mk as))
    (tmp as : List α) (hl : tmp.length < split) (ht : ∀ a ∈ tmp, Q a) (ha : ∀ a ∈ as, Q a) :
    ∀ a ∈ groupArgs mk split tmp as, Q a := by
  induction as generalizing tmp with
  | nil =>
    match tmp with
    | [] => simp [groupArgs]
    | [a] => simpa [groupArgs] using ht
    | a :: b :: tmp => simpa [groupArgs] using hmk _ hl.le ht
  | cons a as ih =>
    have ht' : ∀ x ∈ tmp ++ [a], Q x := by
      intro x hx
      rcases List.mem_append.1 hx with hx | hx
      · exact ht x hx
      · rw [List.mem_singleton.1 hx]; exact ha a List.mem_cons_self
    have ha' : ∀ x ∈ as, Q x := fun x hx => ha x (List.mem_cons_of_mem _ hx)
    rw [groupArgs]
    split_ifs with hc
    · intro x hx
      rcases List.mem_cons.1 hx with rfl | hx
      · exact hmk _ hc.le ht'
      · exact ih [] (by simp; omega) (by simp) ha' x hx
    · exact ih _ (by simp at hc ⊢; omega) ht' ha'

theorem udfSplit_all {α : Type} {mk : List α → α} {Q : α → Prop} {split : Nat}
    (hs : 2 ≤ split) (hmk : ∀ as : List α, as.length ≤ split → (∀ a ∈ as, Q a) → Q (mk as))
    (as : List α) (ha : ∀ a ∈ as, Q a) : Q (udfSplit mk split hs as) := by
  induction hn : as.length using Nat.strong_induction_on generalizing as with
  | _ n ih =>
    subst hn
    rw [udfSplit]
    split_ifs with h
    · exact hmk _ h ha
    · refine ih _ ?_ _ (groupArgs_all hs hmk [] as (by simp; omega) (by simp) ha) rfl
      have := groupArgs_length_lt mk split [] as (by simp; omega) (by simp; omega)
      simp at this
      omega

theorem Expr.AllFns.mapNodes {P : Fn K → List (Expr K) → Prop} {T : Expr K → Expr K}
    (hT : ∀ f args, (∀ a ∈ args, a.AllFns P) → (T (.fn f args)).AllFns P) (e : Expr K) :
    (e.mapNodes id T).AllFns P := by
  induction e using Expr.ind with
  | num n => simp [Expr.mapNodes, Expr.AllFns]
  | var n => simp [Expr.mapNodes, Expr.AllFns]
  | par n => simp [Expr.mapNodes, Expr.AllFns]
  | fn f args ih =>
    rw [Expr.mapNodes, Expr.mapNodesL_eq_map]
    apply hT
    intro a ha
    obtain ⟨b, hb, rfl⟩ := List.mem_map.1 ha
    exact ih b hb

end Heyoka.Sym
