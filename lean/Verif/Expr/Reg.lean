import Verif.Props.Diff

/-!
# Points at which all the derivatives exist

A point is regular for an expression if every function occurring in it is differentiable there with
respect to all its arguments that are not numbers. The derivative of an expression is regular at the
regular points of the expression: hence the derivatives of all orders exist there.
-/

set_option linter.unusedSectionVars false
set_option linter.unusedVariables false

namespace Heyoka.Sym

variable [DFunc]

/-- The arguments of a function with respect to which it has to be differentiable: those that are not
numbers; all of them if they are all numbers. The condition of a `select()` must not be the number
zero: the partial derivatives of such a `select()` are again functions of numbers only. -/
def argDep (f : Fn ℝ) (args : List (Expr ℝ)) (a : Expr ℝ) : Prop :=
  a.isNum = false ∨ (∀ b ∈ args, b.isNum = true) ∨ f = .select

mutual
/-- Every function in the expression is differentiable at `v` with respect to those of its arguments
that are not numbers (see `argDep`), and the numbers are finite. -/
def Reg (v : Env ℝ) : Expr ℝ → Prop
  | .num n => n.toK?.isSome
  | .var _ => True
  | .par _ => True
  | .fn f args =>
    RegL v args ∧
      ∃ vals : List ℝ, Expr.evalL v args = some vals ∧
        DiffPt f (List.zipWith (fun a y =>
          ⟨argDep f args a, a.isBool, y⟩) args vals)
/-- All the expressions are regular. -/
def RegL (v : Env ℝ) : List (Expr ℝ) → Prop
  | [] => True
  | e :: es => Reg v e ∧ RegL v es
end

variable {v : Env ℝ}

theorem RegL_iff {es : List (Expr ℝ)} : RegL v es ↔ ∀ e ∈ es, Reg v e := by
  induction es with
  | nil => simp [RegL]
  | cons e es ih => simp [RegL, ih]

/-- What is required of the arguments of a function is less if fewer of them depend on the variable. -/
theorem DiffPt.mono {f : Fn ℝ} {as bs : List ArgVal}
    (h : List.Forall₂ (fun a b : ArgVal => a.val = b.val ∧ a.isBool = b.isBool ∧ (b.dep → a.dep)) as bs)
    (ha : DiffPt f as) : DiffPt f bs := by
  have hts : ∀ {a b : ArgVal}, (a.val = b.val ∧ a.isBool = b.isBool ∧ (b.dep → a.dep)) → a.TruthStable →
      b.TruthStable := by
    rintro ⟨d, i, y⟩ ⟨d', i', y'⟩ ⟨h1, h2, h3⟩ hs
    dsimp only at h1 h2 h3
    subst h1 h2
    exact fun hd => hs (h3 hd)
  have hl : ∀ {as bs : List ArgVal}, List.Forall₂ (fun a b : ArgVal => a.val = b.val ∧ a.isBool = b.isBool ∧
      (b.dep → a.dep)) as bs → (∀ a ∈ as, a.TruthStable) → ∀ b ∈ bs, b.TruthStable := by
    intro as bs h ha b hb
    induction h with
    | nil => cases hb
    | cons h1 _ ih =>
      rcases List.mem_cons.1 hb with rfl | hb
      · exact hts h1 (ha _ List.mem_cons_self)
      · exact ih (fun c hc => ha c (List.mem_cons_of_mem _ hc)) hb
  have hv : as.map (·.val) = bs.map (·.val) := by
    clear ha
    induction h with
    | nil => rfl
    | cons h1 _ ih => simp [h1.1, ih]
  cases f
  case dfun => exact ⟨ha.1, by rw [← hv]; exact ha.2⟩
  case land => exact hl h ha
  case lor => exact hl h ha
  all_goals first
    | trivial
    | (exfalso; revert ha; rcases as with _ | ⟨a, _ | ⟨b, _ | ⟨c, as⟩⟩⟩ <;> exact fun h => h)
    | skip
  all_goals
    rcases h with _ | ⟨h1, _ | ⟨h2, _ | ⟨h3, _ | ⟨h4, h⟩⟩⟩⟩
  all_goals first
    | exact ha.elim
    | exact ha
    | exact hts h1 ha
    | skip
  all_goals
    first
    | (obtain ⟨e1, -, d1⟩ := h1; obtain ⟨e2, -, d2⟩ := h2; obtain ⟨e3, -, d3⟩ := h3
       simp only [DiffPt] at ha ⊢; rw [← e1, ← e2, ← e3]; tauto)
    | (obtain ⟨e1, -, d1⟩ := h1; obtain ⟨e2, -, d2⟩ := h2
       simp only [DiffPt] at ha ⊢; rw [← e1, ← e2]; tauto)
    | (obtain ⟨e1, -, d1⟩ := h1
       simp only [DiffPt] at ha ⊢; rw [← e1]; tauto)

theorem occurs_isNum {x : DVar} {e : Expr ℝ} (h : e.occurs x = true) : e.isNum = false := by
  cases e with
  | num n => simp [Expr.occurs] at h
  | _ => rfl

/-- A regular point is a point of differentiability for every variable and parameter. -/
theorem Reg.smooth {e : Expr ℝ} (h : Reg v e) (x : DVar) : Smooth x v e := by
  induction e using Expr.ind with
  | num n => exact h
  | var s => trivial
  | par i => trivial
  | fn f args ih =>
    rw [Reg, RegL_iff] at h
    obtain ⟨h1, vals, h2, h3⟩ := h
    rw [Smooth, SmoothL_iff]
    refine ⟨fun a ha => ih a ha (h1 a ha), vals, h2, h3.mono ?_⟩
    have hdep : ∀ a : Expr ℝ, (a.occurs x = true ∨ ∀ b ∈ args, b.isNum = true) → argDep f args a := by
      rintro a (h | h)
      · exact .inl (occurs_isNum h)
      · exact .inr (.inl h)
    revert hdep
    generalize (∀ b ∈ args, b.isNum = true) = c
    generalize argDep f args = D
    clear h2 h3 h1 ih
    intro hdep
    induction args generalizing vals with
    | nil => exact .nil
    | cons a as ih =>
      cases vals with
      | nil => exact .nil
      | cons y ys => exact .cons ⟨rfl, rfl, hdep a⟩ (ih ys)

/-- Regular with a given value. -/
def RV (v : Env ℝ) (e : Expr ℝ) (y : ℝ) : Prop := Reg v e ∧ e.eval v = some y

theorem Reg.value {e : Expr ℝ} (h : Reg v e) : ∃ y, RV v e y := by
  obtain ⟨A, rfl, hA⟩ := smooth_argOk e (h.smooth (.par 0))
  exact ⟨_, h, hA.curve.val⟩

theorem Reg.values {es : List (Expr ℝ)} (h : ∀ e ∈ es, Reg v e) : ∃ ys, Expr.evalL v es = some ys := by
  induction es with
  | nil => exact ⟨[], by simp⟩
  | cons e es ih =>
    obtain ⟨y, -, hy⟩ := (h e List.mem_cons_self).value
    obtain ⟨ys, hys⟩ := ih fun a ha => h a (List.mem_cons_of_mem _ ha)
    exact ⟨y :: ys, by simp [hy, hys]⟩

theorem Reg.of_isNum {e : Expr ℝ} {y : ℝ} (h : e.isNum = true) (hy : e.eval v = some y) : Reg v e := by
  cases e with
  | num n => simp only [Expr.eval_num] at hy; simp [Reg, hy]
  | _ => simp [Expr.isNum] at h

theorem RV.dbl (x : ℝ) : RV v (.dbl x) x := ⟨by simp [Reg, Expr.dbl], by simp⟩

theorem reg_sum {es : List (Expr ℝ)} (h : ∀ e ∈ es, Reg v e) : Reg v (.fn .sum es) := by
  obtain ⟨ys, hys⟩ := Reg.values h
  rw [Reg, RegL_iff]
  exact ⟨h, ys, hys, trivial⟩

theorem reg_prod {b : Bool} {es : List (Expr ℝ)} (h : ∀ e ∈ es, Reg v e) : Reg v (.fn (.prod b) es) := by
  obtain ⟨ys, hys⟩ := Reg.values h
  rw [Reg, RegL_iff]
  exact ⟨h, ys, hys, trivial⟩

theorem reg_sumFinish {es : List (Expr ℝ)} (h : ∀ e ∈ es, Reg v e) : Reg v (sumFinish es) := by
  unfold sumFinish
  split
  · exact (RV.dbl _).1
  · exact h _ (by simp)
  · refine reg_sum fun a ha => h a ?_
    rcases List.mem_append.1 ha with ha | ha <;> exact (List.mem_filter.1 ha).1

theorem reg_prodFinish {es : List (Expr ℝ)} (h : ∀ e ∈ es, Reg v e) : Reg v (prodFinish es) := by
  unfold prodFinish
  split
  · exact (RV.dbl _).1
  · exact h _ (by simp)
  · refine reg_prod fun a ha => h a ?_
    rcases List.mem_append.1 ha with ha | ha <;> exact (List.mem_filter.1 ha).1

theorem numVals_of_reg {es : List (Expr ℝ)} (h : ∀ e ∈ es, Reg v e) :
    ∃ ys, numVals (es.filterMap (·.num?)) = some ys := by
  obtain ⟨ys, hys⟩ := Reg.values (v := v) (es := es.filter (·.isNum)) fun e he => h e (List.mem_filter.1 he).1
  exact ⟨ys, by rw [← numVals_filterMap (v := v), hys]⟩

theorem reg_sumE {es : List (Expr ℝ)} (h : ∀ e ∈ es, Reg v e) : Reg v (sumE es) := by
  have hnn : ∀ a ∈ es.filter (!·.isNum), Reg v a := fun a ha => h a (List.mem_filter.1 ha).1
  obtain ⟨ys, hys⟩ := numVals_of_reg h
  unfold sumE
  cases hn : es.filterMap (·.num?) with
  | nil => exact reg_sumFinish hnn
  | cons n ns =>
    rw [hn] at hys
    have hc : Reg v (.num (ns.foldl Num.add n)) := by
      simp only [numVals, Option.bind_eq_some_iff, Option.map_eq_some_iff] at hys
      obtain ⟨x, hx, zs, hzs, rfl⟩ := hys
      rw [Reg, foldl_add_toK?, hx, hzs]; rfl
    dsimp only
    split_ifs
    · exact hc
    · exact reg_sumFinish hnn
    · refine reg_sumFinish fun a ha => ?_
      rcases List.mem_append.1 ha with ha | ha
      · exact hnn a ha
      · rw [List.mem_singleton] at ha; subst ha; exact hc

theorem reg_prodE {es : List (Expr ℝ)} (h : ∀ e ∈ es, Reg v e) : Reg v (prodE es) := by
  have hnn : ∀ a ∈ es.filter (!·.isNum), Reg v a := fun a ha => h a (List.mem_filter.1 ha).1
  obtain ⟨ys, hys⟩ := numVals_of_reg h
  unfold prodE
  cases hn : es.filterMap (·.num?) with
  | nil => exact reg_prodFinish hnn
  | cons n ns =>
    rw [hn] at hys
    have hc : Reg v (.num (ns.foldl Num.mul n)) := by
      simp only [numVals, Option.bind_eq_some_iff, Option.map_eq_some_iff] at hys
      obtain ⟨x, hx, zs, hzs, rfl⟩ := hys
      rw [Reg, foldl_mul_toK? hx hzs]; rfl
    dsimp only
    split_ifs
    · exact hc
    · exact reg_prodFinish hnn
    · exact hc
    · refine reg_prodFinish fun a ha => ?_
      rcases List.mem_append.1 ha with ha | ha
      · exact hnn a ha
      · rw [List.mem_singleton] at ha; subst ha; exact hc

theorem reg_pair {a b : Expr ℝ} (ha : Reg v a) (hb : Reg v b) : ∀ x ∈ [a, b], Reg v x := by
  simp [ha, hb]

theorem RV.add {a b : Expr ℝ} {x y : ℝ} (ha : RV v a x) (hb : RV v b y) : RV v (addE a b) (x + y) := by
  have he := eval_add ha.2 hb.2
  refine ⟨?_, he⟩
  unfold addE at he ⊢
  split at he
  · exact .of_isNum rfl he
  · exact reg_sumE (reg_pair ha.1 hb.1)

theorem RV.mul {a b : Expr ℝ} {x y : ℝ} (ha : RV v a x) (hb : RV v b y) : RV v (mulE a b) (x * y) := by
  have he := eval_mulE ha.2 hb.2
  refine ⟨?_, he⟩
  unfold mulE at he ⊢
  split at he
  · exact .of_isNum rfl he
  · exact reg_prodE (reg_pair ha.1 hb.1)

theorem RV.neg {a : Expr ℝ} {x : ℝ} (ha : RV v a x) : RV v (negE a) (-x) := by
  have he := eval_neg ha.2
  refine ⟨?_, he⟩
  unfold negE at he ⊢
  split at he
  · exact .of_isNum rfl he
  · exact reg_prodE (reg_pair (RV.dbl _).1 ha.1)

theorem RV.sub {a b : Expr ℝ} {x y : ℝ} (ha : RV v a x) (hb : RV v b y) : RV v (subE a b) (x - y) := by
  have he := eval_sub ha.2 hb.2
  refine ⟨?_, he⟩
  unfold subE at he ⊢
  split at he
  · exact .of_isNum rfl he
  · exact (ha.add hb.neg).1

/-- Powers are regular at a positive basis, and for a numerical integral exponent wherever the power
is differentiable. -/
theorem RV.pow {b e : Expr ℝ} {x y : ℝ} (hb : RV v b x) (he : RV v e y)
    (h : 0 < x ∨ (e.isNum = true ∧ (∃ n : ℤ, y = n) ∧ (x ≠ 0 ∨ 0 ≤ y))) : RV v (powE b e) (x ^ y) := by
  have hd : PowDom x y := by
    rcases h with h | ⟨-, ⟨n, hn⟩, h⟩
    · exact .inl h
    · rcases lt_trichotomy x 0 with hx | hx | hx
      · exact .inr (.inr ⟨hx, n, hn⟩)
      · exact .inr (.inl ⟨hx, h.resolve_left fun hc => hc hx⟩)
      · exact .inl hx
  have hv := eval_powE hb.2 he.2 hd
  refine ⟨?_, hv⟩
  have hmk : ¬ (b.isNum = true ∧ e.isNum = true) → (x = 0 → y ≠ 0) → Reg v (mkPow b e) := by
    intro hnn h0
    rw [mkPow, Reg, RegL_iff]
    refine ⟨reg_pair hb.1 he.1, [x, y], by simp [hb.2, he.2], ?_⟩
    simp only [List.zipWith_cons_cons, List.zipWith_nil_left, DiffPt]
    refine ⟨hd, fun _ => ?_⟩
    rcases h with h | ⟨hn, ⟨n, hy⟩, h⟩
    · exact .inl h
    · refine .inr ⟨?_, ⟨n, hy⟩, ?_⟩
      · rintro (hc | hc | hc)
        · rw [hn] at hc; cases hc
        · exact hnn ⟨hc b (by simp), hn⟩
        · cases hc
      · by_cases hx : x = 0
        · have h0' := h0 hx
          have hy' := h.resolve_left fun hc => hc hx
          right
          rw [hy] at hy' h0' ⊢
          have h1 : (0 : ℤ) ≤ n := by exact_mod_cast hy'
          have h2 : n ≠ 0 := by exact_mod_cast h0'
          have : (1 : ℤ) ≤ n := by omega
          exact_mod_cast this
        · exact .inl hx
  unfold powE at hv ⊢
  split at hv
  · exact .of_isNum rfl hv
  · rename_i hnb
    have hbn : b.isNum = false := Expr.isNum_false.mpr hnb
    split_ifs with h0 h1
    · exact (RV.dbl _).1
    · exact hb.1
    · refine hmk (fun hc => by rw [hbn] at hc; cases hc.1) fun _ hy => h0 ?_
      rw [Num.isZero_iff, ← hy]; simpa using he.2
  · rename_i hne _
    have hen : e.isNum = false := Expr.isNum_false.mpr hne
    refine hmk (fun hc => by rw [hen] at hc; cases hc.2) fun hx _ => ?_
    rcases h with h | h
    · exact h.ne' hx
    · rw [hen] at h; cases h.1

theorem RV.pow2 {a : Expr ℝ} {x : ℝ} (h : RV v a x) : RV v (powE a (.dbl 2)) (x ^ 2) := by
  have := h.pow (RV.dbl 2) (.inr ⟨rfl, ⟨2, by norm_num⟩, .inr (by norm_num)⟩)
  exact ⟨this.1, eval_pow2 h.2⟩

theorem RV.powm1 {a : Expr ℝ} {x : ℝ} (h : RV v a x) (hx : x ≠ 0) : RV v (powE a (.dbl (-1))) x⁻¹ := by
  have := h.pow (RV.dbl (-1)) (.inr ⟨rfl, ⟨-1, by norm_num⟩, .inl hx⟩)
  exact ⟨this.1, eval_powm1 h.2 hx⟩

theorem RV.div {a b : Expr ℝ} {x y : ℝ} (ha : RV v a x) (hb : RV v b y) (hy : y ≠ 0) :
    Reg v (divE a b) := by
  have he := eval_divE ha.2 hb.2 hy
  unfold divE at he ⊢
  split at he
  · exact .of_isNum rfl he
  · exact reg_prodE (reg_pair ha.1 (hb.powm1 hy).1)

theorem reg_fn1 {f : Fn ℝ} {a : Expr ℝ} {x : ℝ} (ha : RV v a x) (h : DiffPt f [⟨True, a.isBool, x⟩]) :
    Reg v (.fn f [a]) := by
  rw [Reg, RegL_iff]
  refine ⟨by simp [ha.1], [x], by simp [ha.2], ?_⟩
  simp only [List.zipWith_cons_cons, List.zipWith_nil_left, List.mem_singleton, forall_eq]
  refine DiffPt.mono (as := [⟨True, a.isBool, x⟩]) ?_ h
  exact .cons ⟨rfl, rfl, fun _ => trivial⟩ .nil

theorem RV.unary {f : Fn ℝ} (hf : f ≠ .time) {a : Expr ℝ} {x y : ℝ} (ha : RV v a x)
    (h : DiffPt f [⟨True, a.isBool, x⟩]) (hy : realApp f [x] = some y)
    (hd : ∀ id ix, f ≠ .dfun id ix := by simp) : RV v (unaryE f a) y := by
  have he := eval_unary hf ha.2 hy hd
  refine ⟨?_, he⟩
  unfold unaryE at he ⊢
  split at he
  · exact .of_isNum rfl he
  · exact reg_fn1 ha h

end Heyoka.Sym
