import Verif.Compact.Inline

/-!
# Names which are up to date

The LLVM name of a function object is determined when the object is constructed. The functions in expressions
built with the public constructors have names which match their arguments, and the steps of the decomposition
preserve this.
-/

set_option linter.unusedSectionVars false

namespace Heyoka.Sym

variable {K : Type}

theorem allFns_fn {P : Fn K → List (Expr K) → Prop} {f : Fn K} {args : List (Expr K)} :
    (Expr.fn f args).AllFns P ↔ P f args ∧ ∀ a ∈ args, a.AllFns P := by
  rw [Expr.AllFns, Expr.allFnsL_iff]

theorem mem_left_of_forall₂ {α β : Type} {R : α → β → Prop} {l : List α} {l' : List β} (h : List.Forall₂ R l l')
    {a : α} (ha : a ∈ l) : ∃ b, b ∈ l' ∧ R a b := by
  induction h with
  | nil => cases ha
  | @cons x y xs ys h1 _ ih =>
    rcases List.mem_cons.1 ha with rfl | ha
    · exact ⟨y, List.mem_cons_self, h1⟩
    · obtain ⟨b, h2, h3⟩ := ih ha
      exact ⟨b, List.mem_cons_of_mem _ h2, h3⟩

theorem allFns_leaf {P : Fn K → List (Expr K) → Prop} {e : Expr K} (h : e.isFn = false) : e.AllFns P := by
  cases e with
  | fn f as => simp [Expr.isFn] at h
  | _ => trivial

/-- The same number, or both not numbers. -/
def NumSame (a' a : Expr K) : Prop := a'.num? = a.num?

theorem NumSame.isNum {a' a : Expr K} (h : NumSame a' a) : a'.isNum = a.isNum := by
  cases a' <;> cases a <;> simp_all [NumSame, Expr.num?, Expr.isNum]

theorem numSame_of_not {a' a : Expr K} (h' : a'.isNum = false) (h : a.isNum = false) : NumSame a' a := by
  cases a' <;> cases a <;> simp_all [NumSame, Expr.num?, Expr.isNum]

section
variable [Field K] [LinearOrder K] [FloorRing K] [Interp K] [CodeInterp K] [FmtName K]

theorem powAlgo_numSame {a' a : Expr K} (h : NumSame a' a) : powAlgo a' = powAlgo a := by
  cases a' with
  | num n =>
    cases a with
    | num m => simp only [NumSame, Expr.num?, Option.some.injEq] at h; rw [h]
    | _ => simp [NumSame, Expr.num?] at h
  | _ =>
    cases a with
    | num m => simp [NumSame, Expr.num?] at h
    | _ => rw [powAlgo_notNum (by simp), powAlgo_notNum (by simp)]

theorem codeOf_numSame {f : Fn K} {as' as : List (Expr K)} (h : List.Forall₂ NumSame as' as) :
    codeOf f as' = codeOf f as := by
  cases f with
  | pow a =>
    cases h with
    | nil => rfl
    | cons h1 h =>
      cases h with
      | nil => rfl
      | cons h2 h =>
        cases h with
        | nil =>
          show Fn.pow (powAlgo _) = Fn.pow (powAlgo _)
          rw [powAlgo_numSame h2]
        | cons h3 h => rfl
  | prod b =>
    show Fn.prod (prodIsNegation _) = Fn.prod (prodIsNegation _)
    congr 1
    cases h with
    | nil => rfl
    | @cons a' a l' l h1 h =>
      cases a' with
      | num n =>
        cases a with
        | num m =>
          simp only [NumSame, Expr.num?, Option.some.injEq] at h1
          subst h1
          cases h with
          | nil => rfl
          | cons _ _ => rfl
        | _ => simp [NumSame, Expr.num?] at h1
      | _ =>
        cases a with
        | num m => simp [NumSame, Expr.num?] at h1
        | _ => rw [prodIsNegation_notNum (by simp), prodIsNegation_notNum (by simp)]
  | _ => rfl

/-- The name of every function matches its arguments. -/
def Expr.Fresh (e : Expr K) : Prop := e.AllFns fun f args => codeOf f args = f

/-- A product has at most one argument which is a number. -/
def TidyNode : Fn K → List (Expr K) → Prop
  | .prod _, args => args.countP (·.isNum) ≤ 1
  | _, _ => True

/-- The name of every function matches its arguments, the numbers in products have been multiplied. -/
def Expr.Tidy (e : Expr K) : Prop := e.AllFns fun f args => codeOf f args = f ∧ TidyNode f args

theorem fresh_fn {f : Fn K} {args : List (Expr K)} :
    (Expr.fn f args).Fresh ↔ codeOf f args = f ∧ ∀ a ∈ args, a.Fresh := allFns_fn

theorem tidy_fn {f : Fn K} {args : List (Expr K)} :
    (Expr.fn f args).Tidy ↔ (codeOf f args = f ∧ TidyNode f args) ∧ ∀ a ∈ args, a.Tidy := allFns_fn

theorem Expr.Tidy.fresh {e : Expr K} (h : e.Tidy) : e.Fresh := by
  induction e using Expr.ind with
  | fn f args ih =>
    rw [tidy_fn] at h
    exact fresh_fn.2 ⟨h.1.1, fun a ha => ih a ha (h.2 a ha)⟩
  | _ => trivial

/-! ### The constructors -/

theorem countP_filter_split (args : List (Expr K)) :
    (args.filter (·.isNum) ++ args.filter (!·.isNum)).countP (·.isNum) = args.countP (·.isNum) := by
  rw [List.countP_append, List.countP_filter, List.countP_filter]
  simp

theorem sumFinish_tidy {args : List (Expr K)} (h : ∀ a ∈ args, a.Tidy) : (sumFinish args).Tidy := by
  unfold sumFinish
  split
  · trivial
  · exact h _ (by simp)
  · refine tidy_fn.2 ⟨⟨rfl, trivial⟩, fun a ha => h a ?_⟩
    rcases List.mem_append.1 ha with ha | ha <;> exact (List.mem_filter.1 ha).1

theorem sumE_tidy {args : List (Expr K)} (h : ∀ a ∈ args, a.Tidy) : (sumE args).Tidy := by
  have hnn : ∀ a ∈ args.filter (!·.isNum), a.Tidy := fun a ha => h a (List.mem_filter.1 ha).1
  unfold sumE
  simp only
  split
  · exact sumFinish_tidy hnn
  · split_ifs
    · trivial
    · exact sumFinish_tidy hnn
    · refine sumFinish_tidy fun a ha => ?_
      rcases List.mem_append.1 ha with ha | ha
      · exact hnn a ha
      · rw [List.mem_singleton] at ha; subst ha; trivial

theorem prodFinish_tidy {args : List (Expr K)} (h : ∀ a ∈ args, a.Tidy) (hc : args.countP (·.isNum) ≤ 1) :
    (prodFinish args).Tidy := by
  unfold prodFinish
  split
  · trivial
  · exact h _ (by simp)
  · refine tidy_fn.2 ⟨⟨rfl, ?_⟩, fun a ha => h a ?_⟩
    · show List.countP _ _ ≤ 1
      rw [countP_filter_split]
      exact hc
    · rcases List.mem_append.1 ha with ha | ha <;> exact (List.mem_filter.1 ha).1

theorem countP_nn (args : List (Expr K)) : (args.filter (!·.isNum)).countP (·.isNum) = 0 := by
  rw [List.countP_filter]
  simp

theorem prodE_tidy {args : List (Expr K)} (h : ∀ a ∈ args, a.Tidy) : (prodE args).Tidy := by
  have hnn : ∀ a ∈ args.filter (!·.isNum), a.Tidy := fun a ha => h a (List.mem_filter.1 ha).1
  have hc := countP_nn args
  unfold prodE
  simp only
  split
  · exact prodFinish_tidy hnn (by omega)
  · split_ifs
    · trivial
    · exact prodFinish_tidy hnn (by omega)
    · trivial
    · refine prodFinish_tidy (fun a ha => ?_) ?_
      · rcases List.mem_append.1 ha with ha | ha
        · exact hnn a ha
        · rw [List.mem_singleton] at ha; subst ha; trivial
      · rw [List.countP_append, hc]
        simp [Expr.isNum]

theorem mkPow_tidy {b e : Expr K} (hb : b.Tidy) (he : e.Tidy) : (mkPow b e).Tidy := by
  refine tidy_fn.2 ⟨⟨rfl, trivial⟩, fun a ha => ?_⟩
  simp only [List.mem_cons, List.not_mem_nil, or_false] at ha
  rcases ha with rfl | rfl
  · exact hb
  · exact he

theorem powE_tidy {b e : Expr K} (hb : b.Tidy) (he : e.Tidy) : (powE b e).Tidy := by
  unfold powE
  split
  · trivial
  · split_ifs
    · trivial
    · exact hb
    · exact mkPow_tidy hb he
  · exact mkPow_tidy hb he

/-! ### The same without the condition on products -/

theorem sumFinish_fresh {args : List (Expr K)} (h : ∀ a ∈ args, a.Fresh) : (sumFinish args).Fresh := by
  unfold sumFinish
  split
  · trivial
  · exact h _ (by simp)
  · refine fresh_fn.2 ⟨rfl, fun a ha => h a ?_⟩
    rcases List.mem_append.1 ha with ha | ha <;> exact (List.mem_filter.1 ha).1

theorem prodFinish_fresh {args : List (Expr K)} (h : ∀ a ∈ args, a.Fresh) : (prodFinish args).Fresh := by
  unfold prodFinish
  split
  · trivial
  · exact h _ (by simp)
  · refine fresh_fn.2 ⟨rfl, fun a ha => h a ?_⟩
    rcases List.mem_append.1 ha with ha | ha <;> exact (List.mem_filter.1 ha).1

theorem prodE_fresh {args : List (Expr K)} (h : ∀ a ∈ args, a.Fresh) : (prodE args).Fresh := by
  have hnn : ∀ a ∈ args.filter (!·.isNum), a.Fresh := fun a ha => h a (List.mem_filter.1 ha).1
  unfold prodE
  simp only
  split
  · exact prodFinish_fresh hnn
  · split_ifs
    · trivial
    · exact prodFinish_fresh hnn
    · trivial
    · refine prodFinish_fresh (fun a ha => ?_)
      rcases List.mem_append.1 ha with ha | ha
      · exact hnn a ha
      · rw [List.mem_singleton] at ha; subst ha; trivial

theorem powE_fresh {b e : Expr K} (hb : b.Fresh) (he : e.Fresh) : (powE b e).Fresh := by
  have hm : (mkPow b e).Fresh := by
    refine fresh_fn.2 ⟨rfl, fun a ha => ?_⟩
    simp only [List.mem_cons, List.not_mem_nil, or_false] at ha
    rcases ha with rfl | rfl
    · exact hb
    · exact he
  unfold powE
  split
  · trivial
  · split_ifs
    · trivial
    · exact hb
    · exact hm
  · exact hm

/-! ### The rewrites -/

/-- A condition on functions depending only on which arguments are numbers, and on their values. -/
def NumCond (P : Fn K → List (Expr K) → Prop) : Prop :=
  ∀ f as' as, List.Forall₂ NumSame as' as → P f as → P f as'

theorem numCond_fresh : NumCond (K := K) fun f args => codeOf f args = f := fun _ _ _ h hp => by
  show codeOf _ _ = _
  rw [codeOf_numSame h]; exact hp

theorem countP_numSame {as' as : List (Expr K)} (h : List.Forall₂ NumSame as' as) :
    as'.countP (·.isNum) = as.countP (·.isNum) := by
  induction h with
  | nil => rfl
  | cons h1 _ ih => rw [List.countP_cons, List.countP_cons, ih, h1.isNum]

theorem numCond_tidy : NumCond (K := K) fun f args => codeOf f args = f ∧ TidyNode f args := fun f as' as h hp => by
  refine ⟨by rw [codeOf_numSame h]; exact hp.1, ?_⟩
  cases f with
  | prod b =>
    show List.countP _ _ ≤ 1
    rw [countP_numSame h]
    exact hp.2
  | _ => trivial

theorem mapNodes_numCond {P : Fn K → List (Expr K) → Prop} (hP : NumCond P) {T : Expr K → Expr K}
    (hT : ∀ f args, P f args → (∀ a ∈ args, a.AllFns P) →
      (T (.fn f args)).AllFns P ∧ (T (.fn f args)).isNum = false) (e : Expr K) (h : e.AllFns P) :
    (e.mapNodes id T).AllFns P ∧ NumSame (e.mapNodes id T) e := by
  induction e using Expr.ind with
  | fn f args ih =>
    rw [allFns_fn] at h
    rw [Expr.mapNodes, Expr.mapNodesL_eq_map]
    have := hT f (args.map fun a => a.mapNodes id T) (hP f _ args (by
        rw [List.forall₂_map_left_iff, List.forall₂_same]
        exact fun a ha => (ih a ha (h.2 a ha)).2) h.1) fun a ha => by
          obtain ⟨x, hx, rfl⟩ := List.mem_map.1 ha
          exact (ih x hx (h.2 x hx)).1
    exact ⟨this.1, numSame_of_not this.2 rfl⟩
  | _ => exact ⟨trivial, rfl⟩

theorem filter_isNum_nil {l : List (Expr K)} (h : ∀ a ∈ l, a.isNum = false) : l.filterMap (·.num?) = [] := by
  rw [List.filterMap_eq_nil_iff]
  intro a ha
  have := h a ha
  cases a <;> simp_all [Expr.isNum, Expr.num?]

theorem filter_notNum {l : List (Expr K)} (h : ∀ a ∈ l, a.isNum = false) : l.filter (!·.isNum) = l := by
  rw [List.filter_eq_self]
  intro a ha
  simp [h a ha]

theorem prodE_notNum {args : List (Expr K)} (hne : args ≠ []) (h : ∀ a ∈ args, a.isNum = false) :
    (prodE args).isNum = false := by
  unfold prodE
  simp only [filter_isNum_nil h, filter_notNum h]
  unfold prodFinish
  split
  · exact absurd rfl hne
  · exact h _ (by simp)
  · rfl

theorem sumE_notNum {args : List (Expr K)} (hne : args ≠ []) (h : ∀ a ∈ args, a.isNum = false) :
    (sumE args).isNum = false := by
  unfold sumE
  simp only [filter_isNum_nil h, filter_notNum h]
  unfold sumFinish
  split
  · exact absurd rfl hne
  · exact h _ (by simp)
  · rfl

theorem negE_notNum {e : Expr K} (h : e.isNum = false) : (prodE [.dbl (-1), e]).isNum = false := by
  have h1 : [Expr.dbl (-1), e].filter (!·.isNum) = [e] := by
    cases e <;> simp_all [Expr.dbl, Expr.isNum]
  have h2 : [Expr.dbl (-1), e].filterMap (·.num?) = [⟨.dbl, .fin (-1)⟩] := by
    cases e <;> simp_all [Expr.dbl, Num.dbl, Expr.num?, Expr.isNum]
  unfold prodE
  simp only [h1, h2, List.foldl_nil]
  have h3 : Num.isZero (⟨.dbl, .fin (-1)⟩ : Num K) = false := by
    simp [Num.isZero, FVal.isZero]
  rw [h3]
  split_ifs
  · rename_i h; simp at h
  · exact h
  · rename_i h; simp at h
  · rfl

theorem negatedProd_some {e : Expr K} {l : List (Expr K)} (h : negatedProd e = some l) :
    ∃ f n a as, e = .fn (.prod f) (.num n :: a :: as) ∧ l = a :: as := by
  unfold negatedProd at h
  split at h
  · split_ifs at h
    simp only [Option.some.injEq] at h
    exact ⟨_, _, _, _, rfl, h.symm⟩
  · cases h

theorem sumToSub_tidy (f : Fn K) (args : List (Expr K)) (hf : codeOf f args = f ∧ TidyNode f args)
    (h : ∀ a ∈ args, a.Tidy) : (sumToSub (.fn f args)).Tidy ∧ (sumToSub (.fn f args)).isNum = false := by
  unfold sumToSub
  split
  · rename_i as heq
    cases heq
    simp only
    have hneg : ∀ l ∈ args.filterMap negatedProd, l ≠ [] ∧ ∀ a ∈ l, a.Tidy ∧ a.isNum = false := by
      intro l hl
      obtain ⟨x, hx, hnp⟩ := List.mem_filterMap.1 hl
      obtain ⟨b, n, a, as, rfl, rfl⟩ := negatedProd_some hnp
      have hx := h _ hx
      rw [tidy_fn] at hx
      refine ⟨by simp, fun c hc => ⟨hx.2 c (List.mem_cons_of_mem _ hc), ?_⟩⟩
      have h1 : List.countP (·.isNum) (Expr.num n :: a :: as) ≤ 1 := hx.1.2
      rw [List.countP_cons_of_pos rfl] at h1
      have h2 : List.countP (·.isNum) (a :: as) = 0 := by omega
      have := List.countP_eq_zero.1 h2 c hc
      simpa using this
    have hst : (sumE ((args.filterMap negatedProd).map prodE)).Tidy := sumE_tidy fun a ha => by
      obtain ⟨l, hl, rfl⟩ := List.mem_map.1 ha
      exact prodE_tidy fun b hb => ((hneg l hl).2 b hb).1
    split_ifs with h1 h2
    · exact ⟨tidy_fn.2 ⟨hf, h⟩, rfl⟩
    · refine ⟨prodE_tidy fun b hb => ?_, negE_notNum (sumE_notNum (by simpa using h1) fun a ha => ?_)⟩
      · simp only [List.mem_cons, List.not_mem_nil, or_false] at hb
        rcases hb with rfl | rfl
        · trivial
        · exact hst
      · obtain ⟨l, hl, rfl⟩ := List.mem_map.1 ha
        exact prodE_notNum (hneg l hl).1 fun b hb => ((hneg l hl).2 b hb).2
    · refine ⟨tidy_fn.2 ⟨⟨rfl, trivial⟩, fun b hb => ?_⟩, rfl⟩
      simp only [List.mem_cons, List.not_mem_nil, or_false] at hb
      rcases hb with rfl | rfl
      · exact sumE_tidy fun a ha => h a (List.mem_filter.1 ha).1
      · exact hst
  · exact ⟨tidy_fn.2 ⟨hf, h⟩, rfl⟩

theorem groupArgs_fresh {mk : List (Expr K) → Expr K}
    (hmk : ∀ as, (∀ a ∈ as, a.Fresh) → (mk as).Fresh) (split : Nat) (as : List (Expr K)) :
    ∀ tmp, (∀ a ∈ tmp, a.Fresh) → (∀ a ∈ as, a.Fresh) → ∀ a ∈ groupArgs mk split tmp as, a.Fresh := by
  induction as with
  | nil =>
    intro tmp ht _ a ha
    unfold groupArgs at ha
    split at ha
    · cases ha
    · exact ht a ha
    · rw [List.mem_singleton] at ha; subst ha; exact hmk _ ht
  | cons b as ih =>
    intro tmp ht has a ha
    have htb : ∀ a ∈ tmp ++ [b], a.Fresh := by
      intro a ha
      rcases List.mem_append.1 ha with h | h
      · exact ht a h
      · rw [List.mem_singleton] at h; subst h; exact has _ List.mem_cons_self
    rw [groupArgs] at ha
    split_ifs at ha
    · rcases List.mem_cons.1 ha with rfl | ha
      · exact hmk _ htb
      · exact ih [] (by simp) (fun a h => has a (List.mem_cons_of_mem _ h)) a ha
    · exact ih _ htb (fun a h => has a (List.mem_cons_of_mem _ h)) a ha

theorem udfSplit_fresh {mk : List (Expr K) → Expr K}
    (hmk : ∀ as, (∀ a ∈ as, a.Fresh) → (mk as).Fresh) (hnum : ∀ as, (mk as).isNum = false) (split : Nat)
    (hs : 2 ≤ split) (n : Nat) : ∀ args : List (Expr K), args.length ≤ n → (∀ a ∈ args, a.Fresh) →
      (udfSplit mk split hs args).Fresh ∧ (udfSplit mk split hs args).isNum = false := by
  induction n with
  | zero =>
    intro args hn h
    rw [udfSplit, dif_pos (by omega)]
    exact ⟨hmk _ h, hnum _⟩
  | succ n ih =>
    intro args hn h
    rw [udfSplit]
    split_ifs with hc
    · exact ⟨hmk _ h, hnum _⟩
    · have := groupArgs_length_lt mk split [] args (by simp; omega) (by simp; omega)
      simp at this
      exact ih _ (by omega) (groupArgs_fresh hmk split args [] (by simp) h)

theorem sumSplit_fresh (split : Nat) (hs : 2 ≤ split) (f : Fn K) (args : List (Expr K)) (hf : codeOf f args = f)
    (h : ∀ a ∈ args, a.Fresh) :
    (sumSplit split hs (.fn f args)).Fresh ∧ (sumSplit split hs (.fn f args)).isNum = false := by
  unfold sumSplit
  split
  · rename_i as heq
    cases heq
    exact udfSplit_fresh (fun as has => fresh_fn.2 ⟨rfl, has⟩) (fun _ => rfl) split hs _ _ (le_refl _) h
  · exact ⟨fresh_fn.2 ⟨hf, h⟩, rfl⟩

theorem prodSplit_fresh (split : Nat) (hs : 2 ≤ split) (f : Fn K) (args : List (Expr K)) (hf : codeOf f args = f)
    (h : ∀ a ∈ args, a.Fresh) :
    (prodSplit split hs (.fn f args)).Fresh ∧ (prodSplit split hs (.fn f args)).isNum = false := by
  unfold prodSplit
  split
  · rename_i as heq
    cases heq
    split_ifs
    · exact ⟨fresh_fn.2 ⟨hf, h⟩, rfl⟩
    · exact udfSplit_fresh (fun as has => fresh_fn.2 ⟨rfl, has⟩) (fun _ => rfl) split hs _ _ (le_refl _) h
  · exact ⟨fresh_fn.2 ⟨hf, h⟩, rfl⟩

theorem allSquares_fresh {es bs : List (Expr K)} (h : allSquares es = some bs)
    (hg : ∀ a ∈ es, a.Fresh) : ∀ a ∈ bs, a.Fresh := by
  induction es generalizing bs with
  | nil => simp only [allSquares, Option.some.injEq] at h; subst h; simp
  | cons e es ih =>
    simp only [allSquares, Option.bind_eq_some_iff, Option.map_eq_some_iff] at h
    obtain ⟨b, hb, bs', hbs, rfl⟩ := h
    intro a ha
    rcases List.mem_cons.1 ha with rfl | ha
    · unfold isSquare at hb
      split at hb
      · split_ifs at hb
        simp only [Option.some.injEq] at hb
        subst hb
        exact (fresh_fn.1 (hg _ List.mem_cons_self)).2 _ (by simp)
      · cases hb
    · exact ih hbs (fun a ha => hg a (List.mem_cons_of_mem _ ha)) a ha

theorem sumToSumSq_fresh (f : Fn K) (args : List (Expr K)) (hf : codeOf f args = f) (h : ∀ a ∈ args, a.Fresh) :
    (sumToSumSq (.fn f args)).Fresh ∧ (sumToSumSq (.fn f args)).isNum = false := by
  unfold sumToSumSq
  split
  · rename_i as heq
    cases heq
    split
    · rename_i bs hbs
      exact ⟨fresh_fn.2 ⟨rfl, allSquares_fresh hbs h⟩, rfl⟩
    · exact ⟨fresh_fn.2 ⟨hf, h⟩, rfl⟩
  · exact ⟨fresh_fn.2 ⟨hf, h⟩, rfl⟩

theorem divFactorEval_fresh (e : Expr K) (p : Expr K × Num K) (h : divFactorEval e = some p) (hg : e.Fresh) :
    p.1.Fresh := by
  unfold divFactorEval at h
  split at h
  · have := (fresh_fn.1 hg).2
    split at h
    · simp only [Option.some.injEq] at h; subst h; exact this _ (by simp)
    · simp only [Option.some.injEq] at h; subst h; exact this _ (by simp)
    · cases h
  · cases h

theorem prodToDiv_fresh {part : Expr K → Option (Expr K × Num K)}
    (hpart : ∀ e p, part e = some p → e.Fresh → p.1.Fresh) (f : Fn K) (args : List (Expr K))
    (hf : codeOf f args = f) (h : ∀ a ∈ args, a.Fresh) :
    (prodToDiv part (.fn f args)).Fresh ∧ (prodToDiv part (.fn f args)).isNum = false := by
  unfold prodToDiv
  split
  · rename_i b as heq
    cases heq
    simp only
    split_ifs
    · exact ⟨fresh_fn.2 ⟨hf, h⟩, rfl⟩
    · refine ⟨fresh_fn.2 ⟨rfl, fun b hb => ?_⟩, rfl⟩
      simp only [List.mem_cons, List.not_mem_nil, or_false] at hb
      rcases hb with rfl | rfl
      · exact prodE_fresh fun a ha => h a (List.mem_filter.1 ha).1
      · refine prodE_fresh fun a ha => ?_
        obtain ⟨p, hp, rfl⟩ := List.mem_map.1 ha
        obtain ⟨x, hx, hxp⟩ := List.mem_filterMap.1 hp
        exact powE_fresh (hpart x p hxp (h x hx)) trivial
  · exact ⟨fresh_fn.2 ⟨hf, h⟩, rfl⟩

theorem rewritesEval_fresh {e : Expr K} (h : e.Tidy) : (rewritesEval e).Fresh := by
  have h1 : (e.mapNodes id sumToSub).Fresh := Expr.Tidy.fresh (mapNodes_numCond numCond_tidy sumToSub_tidy e h).1
  have h2 := (mapNodes_numCond numCond_fresh (sumSplit_fresh 8 (by decide)) _ h1).1
  have h3 := (mapNodes_numCond numCond_fresh sumToSumSq_fresh _ h2).1
  have h4 := (mapNodes_numCond numCond_fresh (prodToDiv_fresh divFactorEval_fresh) _ h3).1
  exact (mapNodes_numCond numCond_fresh (prodSplit_fresh 8 (by decide)) _ h4).1

/-! ### The decomposition -/

theorem renameLeaf_keepsNum (σ : String → Option String) : KeepsNum (K := K) (renameLeaf σ) := by
  refine ⟨fun _ => rfl, fun a ha n => ?_⟩
  cases a with
  | num m => exact absurd rfl (ha m)
  | var s => simp only [renameLeaf]; split <;> simp
  | _ => simp [renameLeaf]

theorem fresh_rename {m : List (String × String)} {e : Expr K} (h : e.Fresh) : (renameIn m e).Fresh := by
  induction e using Expr.ind with
  | fn f as ih =>
    rw [fresh_fn] at h
    rw [renameIn, mapNodes_fn, fresh_fn, codeOf_map (renameLeaf_keepsNum _).mapNodes]
    refine ⟨h.1, fun a ha => ?_⟩
    obtain ⟨x, hx, rfl⟩ := List.mem_map.1 ha
    exact ih x hx (h.2 x hx)
  | num n => rw [renameIn, mapNodes_leaf rfl]; trivial
  | var n =>
    rw [renameIn, mapNodes_leaf rfl]
    simp only [renameLeaf]
    split <;> trivial
  | par n => rw [renameIn, mapNodes_leaf rfl]; trivial

theorem fresh_consistent {U : Node K → Prop} (hU : Consistent U) : Consistent fun n => U n ∧ n.toExpr.Fresh where
  closed := fun {id sid f args} h a ha => ⟨hU.closed h.1 a ha, by
    have := h.2
    rw [Node.toExpr, fresh_fn, Node.toExprL_eq_map] at this
    exact this.2 _ (List.mem_map_of_mem ha)⟩
  id_inj := fun h h' => hU.id_inj h.1 h'.1
  sid_inj := fun h h' => hU.sid_inj h.1 h'.1

theorem stands_fresh {Def : List (Expr K) → Nat → Expr K → Prop} {dc : List (Expr K)} {a' a : Expr K}
    (h : Stands Def dc a' a) : NumSame a' a ∧ a'.Fresh := by
  unfold Stands at h
  split at h
  · rename_i hf
    obtain ⟨i, rfl, -⟩ := h
    refine ⟨numSame_of_not rfl ?_, trivial⟩
    cases a <;> simp_all [Expr.isFn, Expr.isNum]
  · rename_i hf
    subst h
    exact ⟨rfl, allFns_leaf (by simpa using hf)⟩

/-- The invariant of the construction of the decomposition. -/
def freshSpec : DecSpec (K := K) fdcAppend where
  Inv := fun dc => ∀ e ∈ dc, e.Fresh
  Def := fun _ _ _ => True
  good := fun f as => codeOf f as = f
  mono := fun _ => trivial
  ok := by
    intro dc f as as' hi hg hst
    refine ⟨dc.length, [.fn f as'], rfl, fun e he => ?_, trivial⟩
    rcases List.mem_append.1 he with he | he
    · exact hi e he
    · rw [List.mem_singleton] at he
      subst he
      rw [fresh_fn, codeOf_numSame (hst.imp fun _ _ h => (stands_fresh h).1)]
      refine ⟨hg, fun a ha => ?_⟩
      obtain ⟨b, -, hb⟩ := mem_left_of_forall₂ hst ha
      exact (stands_fresh hb).2

theorem decAll_fresh {vars : List (Expr K)} {ns : List (Node K)} {es : List (Expr K)}
    (hr : Represents ns es) (hv : ∀ e ∈ vars, e.Fresh) (hg : ∀ e ∈ es, e.Fresh) :
    ∃ N d outs, (∀ fuel, N ≤ fuel → decAll fdcAppend fuel [] [] vars ns = some (.ok (vars ++ d, outs))) ∧
      ∀ e ∈ (vars ++ d) ++ outs, e.Fresh := by
  obtain ⟨h, roots, hval, hroots, rfl, hes⟩ := hr
  have hmem : ∀ n ∈ roots.map h.unfold, n.toExpr ∈ es := fun n hn => by
    rw [← hes]; exact List.mem_map_of_mem hn
  obtain ⟨N, d, outs, h1, h2, h3⟩ := (freshSpec (K := K)).decAll_eq
    (fresh_consistent (Heap.consistent hval))
    (fun id sid f args hu => by
      have := hu.2
      rw [Node.toExpr, fresh_fn] at this
      exact this.1)
    (roots.map h.unfold) (fun n hn => by
      refine ⟨?_, hg _ (hmem n hn)⟩
      obtain ⟨r, hr, rfl⟩ := List.mem_map.1 hn
      exact ⟨r, hroots r hr, rfl⟩)
    [] [] vars hv (by intro id r h; simp at h) (by intro k s h; simp at h)
  refine ⟨N, d, outs, h1, fun e he => ?_⟩
  rcases List.mem_append.1 he with he | he
  · exact h2 e he
  · obtain ⟨b, -, hb⟩ := mem_left_of_forall₂ h3 he
    exact (stands_fresh hb).2

theorem cseLoop_fresh (es : List (Expr K)) : ∀ i ret exMap ren,
    (∀ e ∈ ret, e.Fresh) → (∀ e ∈ es, e.Fresh) → ∀ e ∈ (cseLoop i ret exMap ren es).1, e.Fresh := by
  induction es with
  | nil => intro i ret exMap ren h _; exact h
  | cons e es ih =>
    intro i ret exMap ren h he
    rw [cseLoop]
    split
    · exact ih _ _ _ _ h fun x hx => he x (List.mem_cons_of_mem _ hx)
    · refine ih _ _ _ _ (fun x hx => ?_) fun x hx => he x (List.mem_cons_of_mem _ hx)
      rcases List.mem_append.1 hx with hx | hx
      · exact h x hx
      · rw [List.mem_singleton] at hx
        subst hx
        exact fresh_rename (he e List.mem_cons_self)

theorem cse_fresh {nvars nouts : Nat} {dc : List (Expr K)} (h : ∀ e ∈ dc, e.Fresh) :
    ∀ e ∈ cse nvars nouts dc, e.Fresh := by
  intro e he
  rw [cse] at he
  rcases List.mem_append.1 he with he | he
  · exact cseLoop_fresh _ _ _ _ _ (fun x hx => h x (List.mem_of_mem_take hx))
      (fun x hx => h x (List.mem_of_mem_drop (List.mem_of_mem_take hx))) e he
  · obtain ⟨x, hx, rfl⟩ := List.mem_map.1 he
    exact fresh_rename (h x (List.mem_of_mem_drop hx))

theorem sort_fresh {fuel nvars nouts : Nat} {dc dc' : List (Expr K)}
    (h : ∀ e ∈ dc, e.Fresh) (hs : sortDc fuel nvars nouts dc = some (.ok dc')) : ∀ e ∈ dc', e.Fresh := by
  unfold sortDc at hs
  simp only at hs
  cases hg : graphEdges nvars 0 (dc.take (dc.length - nouts)) with
  | throw => rw [hg] at hs; cases hs
  | ub => rw [hg] at hs; cases hs
  | ok es =>
    rw [hg] at hs
    simp only at hs
    cases hk : kahnLoop fuel es [0] [] with
    | none => rw [hk] at hs; cases hs
    | some p =>
      rw [hk] at hs
      simp only at hs
      split_ifs at hs
      any_goals (cases hs; done)
      injection hs with hs
      injection hs with hs
      subst hs
      intro e he
      obtain ⟨x, hx, rfl⟩ := List.mem_map.1 he
      refine fresh_rename (h x ?_)
      rcases List.mem_append.1 hx with hx | hx
      · obtain ⟨i, -, hi⟩ := List.mem_filterMap.1 hx
        exact List.mem_of_getElem? hi
      · exact List.mem_of_mem_drop hx

theorem sincos_fresh {dc : List (Expr K)} (h : ∀ e ∈ dc, e.Fresh) : ∀ e ∈ sincosCombine dc, e.Fresh := by
  intro e he
  obtain ⟨x, hx, rfl⟩ := List.mem_map.1 he
  have := h x hx
  unfold sincosElem
  split
  · split_ifs
    · rw [fresh_fn] at this ⊢; exact ⟨rfl, this.2⟩
    · exact this
  · split_ifs
    · rw [fresh_fn] at this ⊢; exact ⟨rfl, this.2⟩
    · exact this
  · exact this

/-- The names of the functions in the decomposition match their arguments. -/
theorem functionDecompose_fresh {share : List (Expr K) → List (Node K)}
    {es : List (Expr K)} {names : List String}
    (hsh : Represents (share (es.map fun e => renameIn (renMap names) (rewritesEval e)))
      (es.map fun e => renameIn (renMap names) (rewritesEval e)))
    (hg : ∀ e ∈ es, e.Tidy) {N : Nat} {dc : List (Expr K)}
    (hdc : ∀ fuel, N ≤ fuel → functionDecompose fuel share es (names.map .var) = some (.ok dc)) :
    ∀ e ∈ dc, e.Fresh := by
  obtain ⟨N1, d, outs, h1, h2⟩ := decAll_fresh (vars := names.map .var) hsh
    (fun e he => by obtain ⟨s, -, rfl⟩ := List.mem_map.1 he; trivial)
    (fun e he => by
      obtain ⟨x, hx, rfl⟩ := List.mem_map.1 he
      exact fresh_rename (rewritesEval_fresh (hg x hx)))
  have h3 := hdc (max N N1) (le_max_left _ _)
  unfold functionDecompose at h3
  cases hr : rawDecompose (max N N1) share es (names.map .var) with
  | none => rw [hr] at h3; cases h3
  | some r =>
    rw [hr] at h3
    cases r with
    | throw => cases h3
    | ub => cases h3
    | ok dc0 =>
      have hdc0 : ∀ e ∈ dc0, e.Fresh := by
        unfold rawDecompose at hr
        split_ifs at hr
        · cases hr
        cases hv : varNames (names.map (Expr.var (K := K))) with
        | none => rw [hv] at hr; cases hr
        | some names' =>
          have hn : names' = names := by
            have h5 := varNames_eq hv
            exact (List.map_injective_iff.2 (fun a b hab => by injection hab)) h5.symm
          subst hn
          rw [hv] at hr
          simp only at hr
          split_ifs at hr
          any_goals (cases hr; done)
          rw [h1 _ (le_max_right _ _)] at hr
          simp only [Option.map_some, Res.bind_ok] at hr
          injection hr with hr
          injection hr with hr
          subst hr
          exact h2
      simp only at h3
      cases hs : sortDc (max N N1) (names.map (Expr.var (K := K))).length es.length
          (cse (names.map (Expr.var (K := K))).length es.length dc0) with
      | none => rw [hs] at h3; cases h3
      | some r =>
        rw [hs] at h3
        cases r with
        | throw => cases h3
        | ub => cases h3
        | ok dc1 =>
          simp only [Option.map_some, Res.bind_ok] at h3
          injection h3 with h3
          injection h3 with h3
          subst h3
          exact sincos_fresh (sort_fresh (cse_fresh hdc0) hs)

end

end Heyoka.Sym
