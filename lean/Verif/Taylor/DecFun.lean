import Verif.Taylor.DecNode

/-!
# The decomposition of every function is right
-/

set_option linter.unusedSectionVars false

open Filter Topology

namespace Heyoka.Taylor

open Heyoka.Sym

variable {par : ℕ → ℝ} {F F' : ℕ → ℝ → ℝ} {t t0 : ℝ} {i n n' neq : ℕ} {P : Fn ℝ → Prop} {X : ℕ → ℝ → ℝ}
variable {dc : TDc ℝ} {as as' : List (Expr ℝ)} [FmtName ℝ]

theorem argOk_dbl {x : ℝ} : ArgOk i (.dbl x : Expr ℝ) := trivial

theorem mem_pair {a b x : Expr ℝ} (ha : ArgOk i a) (hb : ArgOk i b) : x ∈ [a, b] → ArgOk i x := by
  intro hm
  rcases List.mem_cons.1 hm with rfl | hm
  · exact ha
  · rw [List.mem_singleton.1 hm]; exact hb

theorem eval_sub1 (j : ℕ) : ∀ᶠ t in 𝓝 t0, (Expr.fn .sub [.dbl 1, uvar j] : Expr ℝ).eval (envF par F t) =
    some (1 - F j t) := .of_forall fun t => by
  rw [← appO_eval]; simp [appO, allSome, uvar, app_def, realApp, envF]

theorem eval_add1 (j : ℕ) (c : ℝ) : ∀ᶠ t in 𝓝 t0, (Expr.fn .sum [.dbl c, uvar j] : Expr ℝ).eval (envF par F t) =
    some (c + F j t) := .of_forall fun t => by
  rw [← appO_eval]; simp [appO, allSome, uvar, app_def, realApp, envF]

theorem eval_neg1 (j : ℕ) : ∀ᶠ t in 𝓝 t0, (negE (uvar j) : Expr ℝ).eval (envF par F t) = some (-F j t) :=
  .of_forall fun t => by rw [eval_negE]; simp [uvar, envF]

theorem eval_sqrt1 {j : ℕ} (h : ∀ᶠ t in 𝓝 t0, 0 ≤ F j t) :
    ∀ᶠ t in 𝓝 t0, (sqrtE (uvar j) : Expr ℝ).eval (envF par F t) = some (Real.sqrt (F j t)) := by
  filter_upwards [h] with t ht
  exact eval_sqrtE (by simp [uvar, envF]) ht

theorem telem_sqrt {j : ℕ} (hP : ∀ k, P (.pow k)) (hj : j < i)
    (hev : ∀ᶠ t in 𝓝 t0, (sqrtE (uvar j)).eval (envF par F t) = some (F i t)) (h0 : F j t0 ≠ 0) :
    TElemOk P F t0 par n i (sqrtE (uvar j), []) :=
  telem_pow hP (argOk_uvar hj) (by norm_num) (by norm_num) hev (.inl (by simpa [argFn] using h0))

theorem shape_sqrt (n : ℕ) : Shape (n + 1) (sqrtE (uvar n)) :=
  shape_pow (argOk_uvar (by omega)) (by norm_num)

section cases
variable {f : Fn ℝ} (hneq : 0 < neq) (hC : HidClosed P) (hI : TInv P par neq X t0 dc)
  (hst : List.Forall₂ (Stands (TDef par neq X t0) dc) as' as)

/-- The domain of a function of one argument. -/
theorem Facts.dom1 {idx : ℕ} {a : Expr ℝ} (h : Facts par t0 F idx f [a]) (ht : f ≠ .time) :
    ∀ᶠ t in 𝓝 t0, ∃ y, realApp f [argFn F (targU par a) t] = some y := by
  filter_upwards [h.val, h.arg a (by simp)] with t h1 h2
  rcases eval_args h1 with ⟨h3, -⟩ | ⟨xs, h3, h4⟩
  · exact absurd h3 ht
  · rcases xs with _ | ⟨x, _ | ⟨y, xs⟩⟩
    · simp at h3
    · simp only [List.map_cons, List.map_nil, h2, List.cons.injEq, Option.some.injEq, and_true] at h3
      rw [h3]; exact ⟨_, h4⟩
    · simp at h3

theorem one_arg {f : Fn ℝ} (h0 : realApp f [] = none) (h2 : ∀ x y l, realApp f (x :: y :: l) = none) :
    ∀ xs y, realApp f xs = some y → ∃ x, xs = [x] := by
  intro xs y h
  rcases xs with _ | ⟨x, _ | ⟨z, xs⟩⟩
  · rw [h0] at h; cases h
  · exact ⟨x, rfl⟩
  · rw [h2] at h; cases h

theorem isOne_of {m : Num ℝ} (h : m.toK? ≠ some 1) : m.isOne = false := by
  rw [Bool.eq_false_iff]
  intro hc
  exact h (FVal.isOne_iff.1 hc)

theorem one_val {f : Fn ℝ} {S : ℝ → ℝ} (h0 : realApp f [] = none) (h1 : ∀ x, realApp f [x] = some (S x))
    (h2 : ∀ x y l, realApp f (x :: y :: l) = none) : ∀ xs y, realApp f xs = some y → ∃ x, xs = [x] ∧ y = S x := by
  intro xs y h
  rcases xs with _ | ⟨x, _ | ⟨z, xs⟩⟩
  · rw [h0] at h; cases h
  · rw [h1] at h; exact ⟨x, rfl, (Option.some.inj h).symm⟩
  · rw [h2] at h; cases h

include hneq hC hI hst

/-- `asin` and `acos`. -/
theorem ok_asin (hg : NodeGood P par neq X t0 f as) (hf : f = .asin ∨ f = .acos) :
    ∃ i d, taylorFdc (.fn f as') dc = .ok (i, dc ++ d) ∧ TInv P par neq X t0 (dc ++ d) ∧
      TDef par neq X t0 (dc ++ d) i (.fn f as) := by
  refine ok_three (f := f) (e1 := fun n => .fn .sub [.dbl 1, uvar n]) (e2 := fun n => sqrtE (uvar n))
    (D := fun x => Real.sqrt (1 - x ^ 2)) hneq hC hI hst hg ?_ ?_ ?_ ?_ shape_sqrt ?_ ?_
  · rcases hf with rfl | rfl <;> intros <;> rfl
  · rcases hf with rfl | rfl <;> exact one_arg rfl fun _ _ _ => rfl
  · rcases hf with rfl | rfl <;> simp
  · intro n a; exact mem_pair argOk_dbl (argOk_uvar (by omega))
  · rcases hf with rfl | rfl <;> exact fun F idx b d h => ⟨d, rfl, h⟩
  · intro F n m a ha hF v0 h1 h2
    obtain ⟨v1, e1⟩ := fits_val h1 (eval_sub1 n)
    have hdom : ∀ᶠ t in 𝓝 t0, 0 ≤ F (n + 1) t := by
      filter_upwards [hF.dom1 (by rcases hf with rfl | rfl <;> simp), v0, v1] with t ⟨y, h3⟩ h4 h5
      rw [h5, h4]
      have : -1 ≤ argFn F (targU par a) t ∧ argFn F (targU par a) t ≤ 1 := by
        by_contra hc
        rcases hf with rfl | rfl <;> simp only [realApp, if_neg hc] at h3 <;> cases h3
      nlinarith [this.1, this.2]
    obtain ⟨v2, e2⟩ := fits_val h2 (eval_sqrt1 hdom)
    have hreg : -1 < argFn F (targU par a) t0 ∧ argFn F (targU par a) t0 < 1 := by
      rcases hF.reg with ⟨-, h3⟩ | h3
      · exact absurd (by rcases hf with rfl | rfl <;> trivial) h3
      · rcases hf with rfl | rfl <;> exact h3
    refine ⟨.of_fn hC.sub (fun a => mem_pair argOk_dbl (argOk_uvar (by omega))) e1 trivial rfl (.inr trivial) (by simp),
      telem_sqrt hC.pow (by omega) e2 ?_, ?_⟩
    · have e3 : F (n + 1) t0 = 1 - F n t0 := v1.self_of_nhds
      have e4 : F n t0 = argFn F (targU par a) t0 ^ 2 := v0.self_of_nhds
      rw [e3, e4]
      nlinarith [hreg.1, hreg.2]
    · filter_upwards [v0, v1, v2] with t h3 h4 h5
      rw [h5, h4, h3]

/-- `asinh`. -/
theorem ok_asinh (hg : NodeGood P par neq X t0 .asinh as) :
    ∃ i d, taylorFdc (.fn .asinh as') dc = .ok (i, dc ++ d) ∧ TInv P par neq X t0 (dc ++ d) ∧
      TDef par neq X t0 (dc ++ d) i (.fn .asinh as) := by
  refine ok_three (e1 := fun n => addE (.dbl 1) (uvar n)) (e2 := fun n => sqrtE (uvar n))
    (D := fun x => Real.sqrt (1 + x ^ 2)) hneq hC hI hst hg (fun _ _ => rfl) (one_arg rfl fun _ _ _ => rfl) (by simp)
    ?_ shape_sqrt (fun F idx b d h => ⟨d, rfl, h⟩) ?_
  · intro n
    simp only [addE_uvar]
    intro a; exact mem_pair argOk_dbl (argOk_uvar (by omega))
  · intro F n m a ha hF v0 h1 h2
    simp only [addE_uvar] at h1 ⊢
    obtain ⟨v1, e1⟩ := fits_val h1 (eval_add1 n 1)
    have hdom : ∀ᶠ t in 𝓝 t0, 0 ≤ F (n + 1) t := by
      filter_upwards [v0, v1] with t h4 h5
      rw [h5, h4]
      positivity
    obtain ⟨v2, e2⟩ := fits_val h2 (eval_sqrt1 hdom)
    refine ⟨.of_fn hC.sum (fun a => mem_pair argOk_dbl (argOk_uvar (by omega))) e1 (by simp [Supported]) rfl
      (.inr trivial) (by simp), telem_sqrt hC.pow (by omega) e2 ?_, ?_⟩
    · have e3 : F (n + 1) t0 = 1 + F n t0 := v1.self_of_nhds
      have e4 : F n t0 = argFn F (targU par a) t0 ^ 2 := v0.self_of_nhds
      rw [e3, e4]
      positivity
    · filter_upwards [v0, v1, v2] with t h3 h4 h5
      rw [h5, h4, h3]

/-- `acosh`. -/
theorem ok_acosh (hg : NodeGood P par neq X t0 .acosh as) :
    ∃ i d, taylorFdc (.fn .acosh as') dc = .ok (i, dc ++ d) ∧ TInv P par neq X t0 (dc ++ d) ∧
      TDef par neq X t0 (dc ++ d) i (.fn .acosh as) := by
  refine ok_three (e1 := fun n => subE (uvar n) (.dbl 1)) (e2 := fun n => sqrtE (uvar n))
    (D := fun x => Real.sqrt (x ^ 2 - 1)) hneq hC hI hst hg (fun _ _ => rfl) (one_arg rfl fun _ _ _ => rfl) (by simp)
    ?_ shape_sqrt (fun F idx b d h => ⟨d, rfl, h⟩) ?_
  · intro n
    simp only [subE_uvar]
    intro a; exact mem_pair argOk_dbl (argOk_uvar (by omega))
  · intro F n m a ha hF v0 h1 h2
    simp only [subE_uvar] at h1 ⊢
    obtain ⟨v1, e1⟩ := fits_val h1 (eval_add1 n (-1))
    have hdom : ∀ᶠ t in 𝓝 t0, 0 ≤ F (n + 1) t := by
      filter_upwards [hF.dom1 (by simp), v0, v1] with t ⟨y, h3⟩ h4 h5
      rw [h5, h4]
      have : 1 ≤ argFn F (targU par a) t := by
        by_contra hc
        simp only [realApp, if_neg hc] at h3
        cases h3
      nlinarith
    obtain ⟨v2, e2⟩ := fits_val h2 (eval_sqrt1 hdom)
    have hreg : 1 < argFn F (targU par a) t0 := by
      rcases hF.reg with ⟨-, h3⟩ | h3
      · exact absurd trivial h3
      · exact h3
    refine ⟨.of_fn hC.sum (fun a => mem_pair argOk_dbl (argOk_uvar (by omega))) e1 (by simp [Supported]) rfl
      (.inr trivial) (by simp), telem_sqrt hC.pow (by omega) e2 ?_, ?_⟩
    · have e3 : F (n + 1) t0 = -1 + F n t0 := v1.self_of_nhds
      have e4 : F n t0 = argFn F (targU par a) t0 ^ 2 := v0.self_of_nhds
      rw [e3, e4]
      nlinarith
    · filter_upwards [v0, v1, v2] with t h3 h4 h5
      rw [h5, h4, h3]
      congr 1
      ring

/-- `erf`. -/
theorem ok_erf (hg : NodeGood P par neq X t0 .erf as) :
    ∃ i d, taylorFdc (.fn .erf as') dc = .ok (i, dc ++ d) ∧ TInv P par neq X t0 (dc ++ d) ∧
      TDef par neq X t0 (dc ++ d) i (.fn .erf as) := by
  refine ok_three (e1 := fun n => negE (uvar n)) (e2 := fun n => unaryE .exp (uvar n))
    (D := fun x => Real.exp (-x ^ 2)) hneq hC hI hst hg (fun _ _ => rfl) (one_arg rfl fun _ _ _ => rfl) (by simp)
    ?_ (fun n => shape_unary (argOk_uvar (by omega))) (fun F idx b d h => ⟨d, rfl, h⟩) ?_
  · intro n
    simp only [negE_uvar]
    intro a; exact mem_pair argOk_dbl (argOk_uvar (by omega))
  · intro F n m a ha hF v0 h1 h2
    obtain ⟨v1, e1⟩ := fits_val h1 (eval_neg1 n)
    obtain ⟨v2, e2⟩ := fits_val h2 (eval_unary (G := Real.exp) (fun x => rfl) (by simp) (eval_uvar (n + 1)))
    simp only [negE_uvar] at e1 ⊢
    refine ⟨.of_fn (hC.prod _) (fun a => mem_pair argOk_dbl (argOk_uvar (by omega))) e1 rfl rfl
      (.inr trivial) (by simp), telem_unary hC.exp (argOk_uvar (by omega)) e2 trivial rfl trivial (by simp), ?_⟩
    filter_upwards [v0, v1, v2] with t h3 h4 h5
    rw [h5, h4, h3]

/-- `atan2`. -/
theorem ok_atan2 (hg : NodeGood P par neq X t0 .atan2 as) :
    ∃ i d, taylorFdc (.fn .atan2 as') dc = .ok (i, dc ++ d) ∧ TInv P par neq X t0 (dc ++ d) ∧
      TDef par neq X t0 (dc ++ d) i (.fn .atan2 as) := by
  obtain ⟨y0, hy0⟩ := hg.defined.self_of_nhds
  have hlen : as'.length = 2 := by
    rw [hst.length_eq]
    rcases eval_args hy0 with ⟨h1, -⟩ | ⟨xs, h1, h2⟩
    · cases h1
    · have := congrArg List.length h1
      rw [List.length_map, List.length_map] at this
      rw [this]
      rcases xs with _ | ⟨x, _ | ⟨y, _ | ⟨z, xs⟩⟩⟩ <;> first | rfl | cases h2
  rcases as' with _ | ⟨y, _ | ⟨x, _ | ⟨z, as'⟩⟩⟩ <;>
    simp only [List.length_nil, List.length_cons] at hlen <;> try omega
  have ha := tstands_argOk hI.len hst hg.leaves
  refine ok_of hneq hI hg hst rfl rfl ?_ ?_
  · intro j e he
    rcases j with _ | _ | j
    · cases he; exact ha
    · cases he; exact fun a hm => argOk_mono (ha a hm) (by omega)
    · cases he
  · intro F hF hf
    have h0 := hF.new hI.len (k := 0) rfl
    have hy := hf.arg y (by simp)
    have hx := hf.arg x (by simp)
    have hev : ∀ᶠ t in 𝓝 t0, (Expr.fn .sumSq [y, x]).eval (envF par F t) =
        some (argFn F (targU par y) t ^ 2 + argFn F (targU par x) t ^ 2) := by
      filter_upwards [hy, hx] with t h1 h2
      rw [← appO_eval]
      simp [appO, allSome, app_def, realApp, h1, h2]
    obtain ⟨v0, e0⟩ := fits_val h0 hev
    intro j e he
    rcases j with _ | _ | j
    · cases he
      exact .of_fn hC.sumSq ha e0 (by simp [Supported]) rfl (.inr trivial) (by simp)
    · cases he
      refine hf.main hg.fn (fun a hm => argOk_mono (ha a hm) (by omega)) ⟨_, rfl, ?_⟩ (by simp)
      filter_upwards [v0] with t h1
      show F (dc.length + 0) t = _
      rw [h1, add_comm]
    · cases he

/-- `kepE`. -/
theorem ok_kepE (hg : NodeGood P par neq X t0 .kepE as) :
    ∃ i d, taylorFdc (.fn .kepE as') dc = .ok (i, dc ++ d) ∧ TInv P par neq X t0 (dc ++ d) ∧
      TDef par neq X t0 (dc ++ d) i (.fn .kepE as) := by
  obtain ⟨y0, hy0⟩ := hg.defined.self_of_nhds
  have hval := eval_args hy0
  rcases hval with ⟨h1, -⟩ | ⟨xs, h1, h2⟩
  · cases h1
  rcases xs with _ | ⟨x1, _ | ⟨x2, _ | ⟨x3, xs⟩⟩⟩
  · cases h2
  · cases h2
  · rcases as with _ | ⟨b1, _ | ⟨b2, _ | ⟨b3, as⟩⟩⟩ <;>
      simp only [List.map_cons, List.map_nil, List.cons.injEq, reduceCtorEq, and_true, and_false] at h1
    rcases as' with _ | ⟨e, _ | ⟨M, _ | ⟨z, as'⟩⟩⟩ <;>
      (have hlen := hst.length_eq; simp only [List.length_nil, List.length_cons] at hlen) <;> try omega
    have ha := tstands_argOk hI.len hst hg.leaves
    have hae := ha e (by simp)
    have hx1 : x1 < 1 := by
      by_contra hc
      simp only [realApp] at h2
      rw [if_neg (fun h => hc h.2)] at h2
      cases h2
    have hone : ∀ m, e = .num m → m.isOne = false := by
      rintro m rfl
      refine isOne_of fun hc => ?_
      have h3 := (List.forall₂_cons.1 hst).1
      unfold Stands at h3
      split at h3
      · obtain ⟨i, h4, -⟩ := h3; cases h4
      · subst h3
        rw [Expr.eval_num, hc] at h1
        have := Option.some.inj h1.1
        linarith
    refine ok_of hneq hI hg hst rfl rfl ?_ ?_
    · intro j x he
      rcases j with _ | _ | _ | _ | j
      · cases he; exact ha
      · cases he; exact shape_unary (argOk_uvar (by omega))
      · cases he; exact shape_unary (argOk_uvar (by omega))
      · cases he; exact shape_mul (argOk_mono hae (by omega)) (by omega) hone
      · cases he
    · intro F hF hf
      have h1 := hF.new hI.len (k := 1) rfl
      have h2 := hF.new hI.len (k := 2) rfl
      have h3 := hF.new hI.len (k := 3) rfl
      obtain ⟨v1, e1⟩ := fits_val h1 (eval_unary (G := Real.sin) (fun x => rfl) (by simp) (eval_uvar dc.length))
      obtain ⟨v2, e2⟩ := fits_val h2 (eval_unary (G := Real.cos) (fun x => rfl) (by simp) (eval_uvar dc.length))
      have hev : ∀ᶠ t in 𝓝 t0, (mulE e (uvar (dc.length + 2))).eval (envF par F t) =
          some (argFn F (targU par e) t * F (dc.length + 2) t) := by
        filter_upwards [hf.arg e (by simp), eval_uvar (par := par) (F := F) (t0 := t0) (dc.length + 2)] with t h4 h5
        exact eval_mulE h4 h5
      obtain ⟨v3, e3⟩ := fits_val h3 hev
      intro j x he
      rcases j with _ | _ | _ | _ | j
      · cases he
        refine hf.main hg.fn ha ⟨_, _, rfl, ?_, v1⟩ (by simp)
        filter_upwards [v2, v3] with t h4 h5
        rw [h5, h4]; rfl
      · cases he
        exact telem_unary (hC.sin _) (argOk_uvar (by omega)) e1 trivial ⟨_, rfl, by simpa [argFn] using v2⟩ trivial
          (by simp)
      · cases he
        exact telem_unary (hC.cos _) (argOk_uvar (by omega)) e2 trivial ⟨_, rfl, by simpa [argFn] using v1⟩ trivial
          (by simp)
      · cases he
        exact telem_mul hC.prod (argOk_mono hae (by omega)) (by omega) hone e3
      · cases he
  · cases h2

/-- `kepF`. -/
theorem ok_kepF (hg : NodeGood P par neq X t0 .kepF as) :
    ∃ i d, taylorFdc (.fn .kepF as') dc = .ok (i, dc ++ d) ∧ TInv P par neq X t0 (dc ++ d) ∧
      TDef par neq X t0 (dc ++ d) i (.fn .kepF as) := by
  obtain ⟨y0, hy0⟩ := hg.defined.self_of_nhds
  have hval := eval_args hy0
  rcases hval with ⟨h1, -⟩ | ⟨xs, h1, h2⟩
  · cases h1
  rcases xs with _ | ⟨x1, _ | ⟨x2, _ | ⟨x3, _ | ⟨x4, xs⟩⟩⟩⟩
  · cases h2
  · cases h2
  · cases h2
  · rcases as with _ | ⟨b1, _ | ⟨b2, _ | ⟨b3, _ | ⟨b4, as⟩⟩⟩⟩ <;>
      simp only [List.map_cons, List.map_nil, List.cons.injEq, reduceCtorEq, and_true, and_false] at h1
    rcases as' with _ | ⟨h, _ | ⟨k, _ | ⟨l, _ | ⟨z, as'⟩⟩⟩⟩ <;>
      (have hlen := hst.length_eq; simp only [List.length_nil, List.length_cons] at hlen) <;> try omega
    have ha := tstands_argOk hI.len hst hg.leaves
    have hah := ha h (by simp)
    have hak := ha k (by simp)
    have hx1 : x1 ^ 2 + x2 ^ 2 < 1 := by
      by_contra hc
      simp only [realApp] at h2
      rw [if_neg hc] at h2
      cases h2
    have hnum : ∀ {m : Num ℝ} {b : Expr ℝ}, Stands (TDef par neq X t0) dc (.num m) b → b = .num m := by
      intro m b h3
      unfold Stands at h3
      split at h3
      · obtain ⟨i, h4, -⟩ := h3; cases h4
      · exact h3.symm
    obtain ⟨hs1, hs2⟩ := List.forall₂_cons.1 hst
    have hs2 := (List.forall₂_cons.1 hs2).1
    have honeh : ∀ m, h = .num m → m.isOne = false := by
      rintro m rfl
      refine isOne_of fun hc => ?_
      rw [hnum hs1, Expr.eval_num, hc] at h1
      have := Option.some.inj h1.1
      nlinarith [sq_nonneg x2]
    have honek : ∀ m, k = .num m → m.isOne = false := by
      rintro m rfl
      refine isOne_of fun hc => ?_
      rw [hnum hs2, Expr.eval_num, hc] at h1
      have := Option.some.inj h1.2.1
      nlinarith [sq_nonneg x1]
    refine ok_of hneq hI hg hst rfl rfl ?_ ?_
    · intro j x he
      rcases j with _ | _ | _ | _ | _ | j
      · cases he; exact ha
      · cases he; exact shape_unary (argOk_uvar (by omega))
      · cases he; exact shape_unary (argOk_uvar (by omega))
      · cases he; exact shape_mul (argOk_mono hah (by omega)) (by omega) honeh
      · cases he; exact shape_mul (argOk_mono hak (by omega)) (by omega) honek
      · cases he
    · intro F hF hf
      have h1 := hF.new hI.len (k := 1) rfl
      have h2 := hF.new hI.len (k := 2) rfl
      have h3 := hF.new hI.len (k := 3) rfl
      have h4 := hF.new hI.len (k := 4) rfl
      obtain ⟨v1, e1⟩ := fits_val h1 (eval_unary (G := Real.sin) (fun x => rfl) (by simp) (eval_uvar dc.length))
      obtain ⟨v2, e2⟩ := fits_val h2 (eval_unary (G := Real.cos) (fun x => rfl) (by simp) (eval_uvar dc.length))
      have hevh : ∀ᶠ t in 𝓝 t0, (mulE h (uvar (dc.length + 1))).eval (envF par F t) =
          some (argFn F (targU par h) t * F (dc.length + 1) t) := by
        filter_upwards [hf.arg h (by simp), eval_uvar (par := par) (F := F) (t0 := t0) (dc.length + 1)] with t h4 h5
        exact eval_mulE h4 h5
      have hevk : ∀ᶠ t in 𝓝 t0, (mulE k (uvar (dc.length + 2))).eval (envF par F t) =
          some (argFn F (targU par k) t * F (dc.length + 2) t) := by
        filter_upwards [hf.arg k (by simp), eval_uvar (par := par) (F := F) (t0 := t0) (dc.length + 2)] with t h4 h5
        exact eval_mulE h4 h5
      obtain ⟨v3, e3⟩ := fits_val h3 hevh
      obtain ⟨v4, e4⟩ := fits_val h4 hevk
      intro j x he
      rcases j with _ | _ | _ | _ | _ | j
      · cases he
        refine hf.main hg.fn ha ⟨_, _, _, _, rfl, ?_, ?_, v1, v2⟩ (by simp)
        · filter_upwards [v1, v3] with t h4 h5
          rw [h5, h4]; rfl
        · filter_upwards [v2, v4] with t h4 h5
          rw [h5, h4]; rfl
      · cases he
        exact telem_unary (hC.sin _) (argOk_uvar (by omega)) e1 trivial ⟨_, rfl, by simpa [argFn] using v2⟩ trivial
          (by simp)
      · cases he
        exact telem_unary (hC.cos _) (argOk_uvar (by omega)) e2 trivial ⟨_, rfl, by simpa [argFn] using v1⟩ trivial
          (by simp)
      · cases he
        exact telem_mul hC.prod (argOk_mono hah (by omega)) (by omega) honeh e3
      · cases he
        exact telem_mul hC.prod (argOk_mono hak (by omega)) (by omega) honek e4
      · cases he
  · cases h2

/-- Every function. -/
theorem ok_fn (hg : NodeGood P par neq X t0 f as) :
    ∃ i d, taylorFdc (.fn f as') dc = .ok (i, dc ++ d) ∧ TInv P par neq X t0 (dc ++ d) ∧
      TDef par neq X t0 (dc ++ d) i (.fn f as) := by
  cases f
  case sin b =>
    exact ok_companion (S := Real.sin) (C := Real.cos) (g := .cos b) hneq hC hI hst hg (fun _ _ => rfl) (hC.cos b)
      (one_val rfl (fun _ => rfl) fun _ _ _ => rfl) (fun _ => rfl) (by simp) (by simp) (fun _ => trivial)
      (fun _ _ _ => trivial) (fun F idx b d h => ⟨d, rfl, h⟩) (fun F idx b d h => ⟨d, rfl, h⟩)
  case cos b =>
    exact ok_companion (S := Real.cos) (C := Real.sin) (g := .sin b) hneq hC hI hst hg (fun _ _ => rfl) (hC.sin b)
      (one_val rfl (fun _ => rfl) fun _ _ _ => rfl) (fun _ => rfl) (by simp) (by simp) (fun _ => trivial)
      (fun _ _ _ => trivial) (fun F idx b d h => ⟨d, rfl, h⟩) (fun F idx b d h => ⟨d, rfl, h⟩)
  case sinh =>
    exact ok_companion (S := Real.sinh) (C := Real.cosh) (g := .cosh) hneq hC hI hst hg (fun _ _ => rfl) hC.cosh
      (one_val rfl (fun _ => rfl) fun _ _ _ => rfl) (fun _ => rfl) (by simp) (by simp) (fun _ => trivial)
      (fun _ _ _ => trivial) (fun F idx b d h => ⟨d, rfl, h⟩) (fun F idx b d h => ⟨d, rfl, h⟩)
  case cosh =>
    exact ok_companion (S := Real.cosh) (C := Real.sinh) (g := .sinh) hneq hC hI hst hg (fun _ _ => rfl) hC.sinh
      (one_val rfl (fun _ => rfl) fun _ _ _ => rfl) (fun _ => rfl) (by simp) (by simp) (fun _ => trivial)
      (fun _ _ _ => trivial) (fun F idx b d h => ⟨d, rfl, h⟩) (fun F idx b d h => ⟨d, rfl, h⟩)
  case tan =>
    exact ok_square hneq hC hI hst hg (fun _ _ => rfl) (one_arg rfl fun _ _ _ => rfl) (by simp)
      (fun F idx b d h => ⟨d, rfl, h⟩)
  case tanh =>
    exact ok_square hneq hC hI hst hg (fun _ _ => rfl) (one_arg rfl fun _ _ _ => rfl) (by simp)
      (fun F idx b d h => ⟨d, rfl, h⟩)
  case sigmoid =>
    exact ok_square hneq hC hI hst hg (fun _ _ => rfl) (one_arg rfl fun _ _ _ => rfl) (by simp)
      (fun F idx b d h => ⟨d, rfl, h⟩)
  case atan =>
    exact ok_argSquare hneq hC hI hst hg (fun _ _ => rfl) (one_arg rfl fun _ _ _ => rfl) (by simp)
      (fun F idx b d h => ⟨d, rfl, h⟩)
  case atanh =>
    exact ok_argSquare hneq hC hI hst hg (fun _ _ => rfl) (one_arg rfl fun _ _ _ => rfl) (by simp)
      (fun F idx b d h => ⟨d, rfl, h⟩)
  case asin => exact ok_asin hneq hC hI hst hg (.inl rfl)
  case acos => exact ok_asin hneq hC hI hst hg (.inr rfl)
  case asinh => exact ok_asinh hneq hC hI hst hg
  case acosh => exact ok_acosh hneq hC hI hst hg
  case erf => exact ok_erf hneq hC hI hst hg
  case atan2 => exact ok_atan2 hneq hC hI hst hg
  case kepE => exact ok_kepE hneq hC hI hst hg
  case kepF => exact ok_kepF hneq hC hI hst hg
  all_goals exact ok_default hneq hI hst hg rfl (fun _ _ => rfl)

end cases

/-- The construction of the decomposition of expressions all of whose functions are regular. -/
def taylorSpec (hneq : 0 < neq) (hC : HidClosed P) (par : ℕ → ℝ) (X : ℕ → ℝ → ℝ) (t0 : ℝ) :
    DecSpec (taylorFdc (K := ℝ)) where
  Inv := TInv P par neq X t0
  Def := TDef par neq X t0
  good := NodeGood P par neq X t0
  mono := fun h => ⟨h.1, by have := h.2.1; simp; omega, fun F hF => h.2.2 F hF.prefix⟩
  ok := fun hi hg hst => ok_fn hneq hC hi hst hg

end Heyoka.Taylor
