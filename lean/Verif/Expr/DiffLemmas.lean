import Verif.Expr.DiffSpec
import Verif.Expr.BuildLemmas

/-!
# Lemmas on differentiation: numbers produced by the constructors, independence of a variable
-/

set_option linter.unusedSectionVars false

namespace Heyoka.Sym

variable [DFunc]

/-! ### Sane expressions -/

/-- If the expression is a number, it is finite. -/
def Sane (e : Expr ℝ) : Prop := ∀ n, e = .num n → ∃ y, n.toK? = some y

theorem Sane.of_eval {v : Env ℝ} {e : Expr ℝ} {y : ℝ} (h : e.eval v = some y) : Sane e := by
  rintro n rfl
  exact ⟨y, by simpa using h⟩

theorem Sane.of_isNum {e : Expr ℝ} (h : e.isNum = false) : Sane e := by
  rintro n rfl
  simp at h

theorem isNum_false_num? {K : Type} {e : Expr K} (h : e.isNum = false) : e.num? = none := by
  cases e <;> simp_all

theorem nn_sumFinish {args : List (Expr ℝ)} (h : ∀ a ∈ args, a.isNum = false) (hne : args ≠ []) :
    (sumFinish args).isNum = false := by
  unfold sumFinish
  split
  · exact absurd rfl hne
  · exact h _ (by simp)
  · simp

theorem nn_sumE {args : List (Expr ℝ)} (h : ∃ a ∈ args, a.isNum = false) :
    (sumE args).isNum = false := by
  obtain ⟨a, ha, hn⟩ := h
  have hmem : a ∈ args.filter (!·.isNum) := by simp [ha, hn]
  have hne : args.filter (!·.isNum) ≠ [] := List.ne_nil_of_mem hmem
  have hall : ∀ b ∈ args.filter (!·.isNum), b.isNum = false := by
    intro b hb; simpa using (List.mem_filter.mp hb).2
  unfold sumE
  split
  · exact nn_sumFinish hall hne
  · dsimp only
    split
    · rw [if_neg (by simpa using hne)]
      exact nn_sumFinish hall hne
    · cases hf : args.filter (!·.isNum) with
      | nil => exact absurd hf hne
      | cons b bs =>
        cases bs <;> simp [sumFinish]

theorem nn_addE_left {a b : Expr ℝ} (h : a.isNum = false) : (addE a b).isNum = false := by
  unfold addE
  split
  · simp at h
  · exact nn_sumE ⟨a, by simp, h⟩

theorem nn_addE_right {a b : Expr ℝ} (h : b.isNum = false) : (addE a b).isNum = false := by
  unfold addE
  split
  · simp at h
  · exact nn_sumE ⟨b, by simp, h⟩

theorem nn_negE {a : Expr ℝ} (h : a.isNum = false) : (negE a).isNum = false := by
  unfold negE
  split
  · simp at h
  · have h1 : ([.dbl (-1), a] : List (Expr ℝ)).filter (!·.isNum) = [a] := by
      simp [Expr.dbl, h]
    have h2 : ([.dbl (-1), a] : List (Expr ℝ)).filterMap (·.num?) = [Num.dbl (-1)] := by
      simp [Expr.dbl, isNum_false_num? h]
    unfold prodE
    rw [h1, h2]
    have h3 : (Num.dbl (-1 : ℝ)).isOne = false := by
      simp [Num.dbl, Num.isOne, FVal.isOne]; norm_num
    have h4 : (Num.dbl (-1 : ℝ)).isZero = false := by
      simp [Num.dbl, Num.isZero, FVal.isZero]
    simp [h3, h4, prodFinish, mkProd]

theorem nn_subE_left {a b : Expr ℝ} (h : a.isNum = false) : (subE a b).isNum = false := by
  unfold subE
  split
  · simp at h
  · exact nn_addE_left h

theorem nn_subE_right {a b : Expr ℝ} (h : b.isNum = false) : (subE a b).isNum = false := by
  unfold subE
  split
  · simp at h
  · exact nn_addE_right (nn_negE h)

theorem nn_powE_base {a : Expr ℝ} {y : ℝ} (h : a.isNum = false) (hy : y ≠ 0) :
    (powE a (.dbl y)).isNum = false := by
  unfold powE Expr.dbl
  split
  · simp at h
  · have : (Num.dbl y).isZero = false := by simp [Num.dbl, Num.isZero, FVal.isZero, hy]
    rename_i y' _ heq
    cases heq
    rw [this]
    simp only [Bool.false_eq_true, if_false]
    split
    · exact h
    · simp [mkPow]
  · simp [mkPow]

theorem nn_powE_exp {a b : Expr ℝ} (h : b.isNum = false) : (powE a b).isNum = false := by
  unfold powE
  split
  · simp at h
  · simp at h
  · simp [mkPow]

theorem sane_powE_base {a b : Expr ℝ} (h : a.isNum = false) : Sane (powE a b) := by
  unfold powE
  split
  · simp at h
  · split
    · exact Sane.of_eval (v := ⟨fun _ => 0, fun _ => 0, 0⟩) (Expr.eval_dbl _ _)
    · split
      · exact Sane.of_isNum h
      · exact Sane.of_isNum (by simp [mkPow])
  · exact Sane.of_isNum (by simp [mkPow])

theorem nn_unaryE {f : Fn ℝ} {a : Expr ℝ} (h : a.isNum = false) : (unaryE f a).isNum = false := by
  unfold unaryE
  split
  · simp at h
  · simp

theorem mulE_of_nn_left {a b : Expr ℝ} (h : a.isNum = false) : mulE a b = prodE [a, b] := by
  unfold mulE
  split
  · simp at h
  · rfl

theorem mulE_of_nn_right {a b : Expr ℝ} (h : b.isNum = false) : mulE a b = prodE [a, b] := by
  unfold mulE
  split
  · simp at h
  · rfl

theorem prodE_nn_num {a : Expr ℝ} (n : Num ℝ) (h : a.isNum = false) :
    prodE [a, .num n] = (if n.isOne then a else if n.isZero then .num n
      else mkProd [.num n, a]) ∧
    prodE [.num n, a] = (if n.isOne then a else if n.isZero then .num n
      else mkProd [.num n, a]) := by
  have h1 : ([a, .num n] : List (Expr ℝ)).filter (!·.isNum) = [a] := by simp [h]
  have h2 : ([a, .num n] : List (Expr ℝ)).filterMap (·.num?) = [n] := by
    simp [isNum_false_num? h]
  have h1' : ([.num n, a] : List (Expr ℝ)).filter (!·.isNum) = [a] := by simp [h]
  have h2' : ([.num n, a] : List (Expr ℝ)).filterMap (·.num?) = [n] := by
    simp [isNum_false_num? h]
  have h0 : ([a, .num n] : List (Expr ℝ)).filter (·.isNum) = [.num n] := by
    rw [List.filter_cons_of_neg (by simp [h])]; rfl
  have h3 : prodFinish [a, .num n] = mkProd [.num n, a] := by
    simp only [prodFinish]; rw [h0, h1]; rfl
  have h4 : prodFinish [a] = a := rfl
  unfold prodE
  rw [h1, h2, h1', h2']
  simp [h3, h4]

theorem prodE_nn_nn {a b : Expr ℝ} (h : a.isNum = false) (h' : b.isNum = false) :
    prodE [a, b] = mkProd [a, b] := by
  have h1 : ([a, b] : List (Expr ℝ)).filter (!·.isNum) = [a, b] := by simp [h, h']
  have h2 : ([a, b] : List (Expr ℝ)).filterMap (·.num?) = [] := by
    simp [isNum_false_num? h, isNum_false_num? h']
  unfold prodE
  rw [h1, h2]
  simp [prodFinish, h, h']

/-- A product with a factor that is not a number is never a non-finite number. -/
theorem sane_mulE_left {a b : Expr ℝ} (h : a.isNum = false) : Sane (mulE a b) := by
  rw [mulE_of_nn_left h]
  cases hb : b.isNum with
  | true =>
    obtain ⟨n, rfl⟩ := Expr.isNum_iff.mp hb
    rw [(prodE_nn_num n h).1]
    split
    · exact Sane.of_isNum h
    · split
      · rename_i hz
        rintro m ⟨⟩
        exact ⟨0, Num.isZero_iff.mp hz⟩
      · exact Sane.of_isNum (by simp [mkProd])
  | false =>
    rw [prodE_nn_nn h hb]
    exact Sane.of_isNum (by simp [mkProd])

theorem sane_mulE_right {a b : Expr ℝ} (h : b.isNum = false) : Sane (mulE a b) := by
  cases ha : a.isNum with
  | true =>
    obtain ⟨n, rfl⟩ := Expr.isNum_iff.mp ha
    rw [mulE_of_nn_right h, (prodE_nn_num n h).2]
    split
    · exact Sane.of_isNum h
    · split
      · rename_i hz
        rintro m ⟨⟩
        exact ⟨0, Num.isZero_iff.mp hz⟩
      · exact Sane.of_isNum (by simp [mkProd])
  | false => exact sane_mulE_left ha

theorem sane_mulE {a b : Expr ℝ} (ha : Sane a) (hb : Sane b) : Sane (mulE a b) := by
  cases h : a.isNum with
  | false => exact sane_mulE_left h
  | true =>
    cases h' : b.isNum with
    | false => exact sane_mulE_right h'
    | true =>
      obtain ⟨n, rfl⟩ := Expr.isNum_iff.mp h
      obtain ⟨m, rfl⟩ := Expr.isNum_iff.mp h'
      obtain ⟨y, hy⟩ := ha n rfl
      obtain ⟨z, hz⟩ := hb m rfl
      exact Sane.of_eval (v := ⟨fun _ => 0, fun _ => 0, 0⟩)
        (eval_mulE (x := y) (y := z) (by simpa using hy) (by simpa using hz))

/-- The expression is a zero. -/
def IsZeroNum (e : Expr ℝ) : Prop := ∃ n, e = .num n ∧ n.toK? = some 0

theorem mulE_zero {g d : Expr ℝ} (hg : Sane g) (hd : IsZeroNum d) : IsZeroNum (mulE g d) := by
  obtain ⟨n, rfl, hn⟩ := hd
  cases h : g.isNum with
  | true =>
    obtain ⟨m, rfl⟩ := Expr.isNum_iff.mp h
    obtain ⟨y, hy⟩ := hg m rfl
    exact ⟨m.mul n, rfl, by simpa using Num.toK?_mul hy hn⟩
  | false =>
    rw [mulE_of_nn_left h, (prodE_nn_num n h).1]
    have h0 : n.isZero = true := Num.isZero_iff.mpr hn
    have h1 : n.isOne = false := by
      rw [Bool.eq_false_iff]
      intro hc
      rw [Num.isOne_iff, hn] at hc
      simp at hc
    rw [h0, h1]
    exact ⟨n, by simp, hn⟩

theorem sumE_zero {es : List (Expr ℝ)} (h : ∀ e ∈ es, IsZeroNum e) : IsZeroNum (sumE es) := by
  have hnn : es.filter (!·.isNum) = [] := by
    rw [List.filter_eq_nil_iff]
    intro a ha
    obtain ⟨n, rfl, -⟩ := h a ha
    simp
  have hnum : ∀ n ∈ es.filterMap (·.num?), n.toK? = some 0 := by
    intro n hn
    rw [List.mem_filterMap] at hn
    obtain ⟨a, ha, han⟩ := hn
    obtain ⟨m, rfl, hm⟩ := h a ha
    simp at han
    exact han ▸ hm
  unfold sumE
  rw [hnn]
  split
  · exact ⟨Num.dbl 0, rfl, rfl⟩
  · rename_i n ns heq
    rw [heq] at hnum
    have hc : (ns.foldl Num.add n).toK? = some 0 := by
      have : ∀ (ms : List (Num ℝ)) (m : Num ℝ), m.toK? = some 0 → (∀ k ∈ ms, k.toK? = some 0) →
          (ms.foldl Num.add m).toK? = some 0 := by
        intro ms
        induction ms with
        | nil => intro m hm _; simpa using hm
        | cons k ms ih =>
          intro m hm hk
          rw [List.foldl_cons]
          refine ih _ ?_ fun j hj => hk j (by simp [hj])
          rw [Num.toK?_add, hm, hk k (by simp)]
          simp
      exact this ns n (hnum n (by simp)) fun k hk => hnum k (by simp [hk])
    simp only [Num.isZero_iff.mpr hc, List.isEmpty_nil, if_true]
    exact ⟨_, rfl, hc⟩

/-! ### Independence -/

theorem Env.set_var {v : Env ℝ} {x : DVar} {t : ℝ} {s : String} (h : x ≠ .var s) :
    (v.set x t).var s = v.var s := by
  cases x with
  | var r =>
    have : s ≠ r := by rintro rfl; exact h rfl
    simp [Env.set, this]
  | par i => rfl

theorem Env.set_par {v : Env ℝ} {x : DVar} {t : ℝ} {i : Nat} (h : x ≠ .par i) :
    (v.set x t).par i = v.par i := by
  cases x with
  | par j =>
    have : i ≠ j := by rintro rfl; exact h rfl
    simp [Env.set, this]
  | var s => rfl

@[simp] theorem Env.set_time (v : Env ℝ) (x : DVar) (t : ℝ) : (v.set x t).time = v.time := by
  cases x <;> rfl

/-- The value of an expression does not depend on a variable or parameter not occurring in it. -/
theorem eval_set_of_not_occurs {v : Env ℝ} {x : DVar} (t : ℝ) (e : Expr ℝ)
    (h : e.occurs x = false) : e.eval (v.set x t) = e.eval v := by
  induction e using Expr.ind with
  | num n => simp
  | var s =>
    simp only [Expr.occurs, decide_eq_false_iff_not] at h
    simp [Env.set_var h]
  | par i =>
    simp only [Expr.occurs, decide_eq_false_iff_not] at h
    simp [Env.set_par h]
  | fn f args ih =>
    simp only [Expr.occurs, Expr.occursL_eq_any, List.any_eq_false] at h
    have hL : Expr.evalL (v.set x t) args = Expr.evalL v args := by
      clear f
      induction args with
      | nil => simp
      | cons a as ih' =>
        rw [Expr.evalL_cons, Expr.evalL_cons, ih a (by simp) (by simpa using h a (by simp)),
          ih' (fun b hb => ih b (by simp [hb])) (fun b hb => h b (by simp [hb]))]
    by_cases hf : f = .time ∧ args = []
    · obtain ⟨rfl, rfl⟩ := hf
      simp
    · rw [Expr.eval_fn _ _ _ (by tauto), Expr.eval_fn _ _ _ (by tauto), hL]

end Heyoka.Sym
