import Verif.Decomp.Sort
import Verif.Expr.RewriteLemmas
import Verif.Expr.TraverseLemmas2

/-!
# The decomposition of a function

`function_decompose()`, and the lemmas on the shape of the rewritten expressions.
-/

set_option linter.unusedSectionVars false

namespace Heyoka.Sym

variable {K : Type}

/-! ### The model -/

section
variable [Field K] [LinearOrder K] [FloorRing K] [Fold K] [FmtName K]

/-- The names of the variables; `none` if one of the expressions is not a variable
(`src/expression_cfunc.cpp` 744-761). -/
def varNames : List (Expr K) → Option (List String)
  | [] => some []
  | .var s :: es => (varNames es).map (s :: ·)
  | _ :: _ => none

/-- The map for the renaming of the variables (`src/expression_cfunc.cpp` 783-788). -/
def renMap (names : List String) : List (String × String) :=
  names.zipIdx.map fun p => (p.1, uname p.2)

/-- The first part of `function_decompose()` (`src/expression_cfunc.cpp` 723-864): the checks of the
arguments, the rewrites, the renaming and the decomposition; the result contains the outputs.
`share` gives the graph of function objects of the rewritten expressions: which of them are shared
depends on the caller and on the rewrites. -/
def rawDecompose (fuel : Nat) (share : List (Expr K) → List (Node K)) (es vars : List (Expr K)) :
    Option (Res (List (Expr K))) :=
  if es.isEmpty then some .throw else
  match varNames vars with
  | none => some .throw
  | some names =>
    if ¬ names.Nodup then some .throw
    else if ¬ (es.flatMap Expr.variables).all (names.contains ·) then some .throw
    else
      (decAll fdcAppend fuel [] [] vars
        (share (es.map fun e => renameIn (renMap names) (rewritesEval e)))).map fun r =>
          r.bind fun (dc, outs) => .ok (dc ++ outs)

/-- `function_decompose()` without the inlining done in compact mode (`src/expression_cfunc.cpp`
723-904). -/
def functionDecompose (fuel : Nat) (share : List (Expr K) → List (Node K))
    (es vars : List (Expr K)) : Option (Res (List (Expr K))) :=
  match rawDecompose fuel share es vars with
  | none => none
  | some .throw => some .throw
  | some .ub => some .ub
  | some (.ok dc) =>
    (sortDc fuel vars.length es.length (cse vars.length es.length dc)).map fun r =>
      r.bind fun dc => .ok (sincosCombine dc)

end

/-! ### The symbols and the variables of an expression -/

mutual
/-- All the function symbols satisfy `P`, all the variables satisfy `Q`, all the indices of the
parameters satisfy `R`. -/
def Expr.Good (P : Fn K → Prop) (Q : String → Prop) (R : Nat → Prop) : Expr K → Prop
  | .var s => Q s
  | .par i => R i
  | .fn f args => P f ∧ Expr.GoodL P Q R args
  | _ => True
/-- The same for lists. -/
def Expr.GoodL (P : Fn K → Prop) (Q : String → Prop) (R : Nat → Prop) : List (Expr K) → Prop
  | [] => True
  | e :: es => Expr.Good P Q R e ∧ Expr.GoodL P Q R es
end

theorem Expr.goodL_iff {P : Fn K → Prop} {Q : String → Prop} {R : Nat → Prop} {es : List (Expr K)} :
    Expr.GoodL P Q R es ↔ ∀ e ∈ es, e.Good P Q R := by
  induction es with
  | nil => simp [Expr.GoodL]
  | cons e es ih => simp [Expr.GoodL, ih]

theorem Expr.good_fn {P : Fn K → Prop} {Q : String → Prop} {R : Nat → Prop} {f : Fn K} {args : List (Expr K)} :
    (Expr.fn f args).Good P Q R ↔ P f ∧ ∀ e ∈ args, e.Good P Q R := by
  rw [Expr.Good, Expr.goodL_iff]

theorem Expr.good_num {P : Fn K → Prop} {Q : String → Prop} {R : Nat → Prop} (n : Num K) : (Expr.num n).Good P Q R := trivial

theorem Expr.Good.mono {P P' : Fn K → Prop} {Q Q' : String → Prop} {R : Nat → Prop} {e : Expr K} (h : e.Good P Q R)
    (hP : ∀ f, P f → P' f) (hQ : ∀ s, s ∈ e.leaves.filterMap leafVar → Q s → Q' s) : e.Good P' Q' R := by
  induction e using Expr.ind with
  | num n => trivial
  | par n => exact h
  | var s => exact hQ s (by simp [Expr.leaves, leafVar]) h
  | fn f args ih =>
    rw [Expr.good_fn] at h ⊢
    refine ⟨hP f h.1, fun a ha => ih a ha (h.2 a ha) fun s hs => hQ s ?_⟩
    rw [List.mem_filterMap] at hs ⊢
    obtain ⟨x, hx, hs⟩ := hs
    exact ⟨x, by rw [Expr.leaves, mem_leavesL]; exact ⟨a, ha, hx⟩, hs⟩

theorem Expr.good_of_variables {P : Fn K → Prop} {Q : String → Prop} {R : Nat → Prop} {e : Expr K}
    (h : e.Good P (fun _ => True) R) (hQ : ∀ s ∈ e.variables, Q s) : e.Good P Q R :=
  h.mono (fun _ h => h) fun s hs _ => hQ s (mem_sortedSet.2 hs)

theorem Expr.Good.mapNodes {P : Fn K → Prop} {Q : String → Prop} {R : Nat → Prop} {T : Expr K → Expr K}
    (hT : ∀ f args, (Expr.fn f args).Good P Q R → (T (.fn f args)).Good P Q R) {e : Expr K}
    (h : e.Good P Q R) : (e.mapNodes id T).Good P Q R := by
  induction e using Expr.ind with
  | num n => simpa [Expr.mapNodes] using h
  | var s => simpa [Expr.mapNodes] using h
  | par i => simpa [Expr.mapNodes] using h
  | fn f args ih =>
    rw [Expr.mapNodes, Expr.mapNodesL_eq_map]
    rw [Expr.good_fn] at h
    refine hT _ _ (Expr.good_fn.2 ⟨h.1, fun a ha => ?_⟩)
    obtain ⟨b, hb, rfl⟩ := List.mem_map.1 ha
    exact ih b hb (h.2 b hb)

theorem Expr.Good.rename {P : Fn K → Prop} {Q Q' : String → Prop} {R : Nat → Prop} {m : List (String × String)}
    (hm : ∀ s, Q s → Q' (renName (fun s => m.lookup s) s)) {e : Expr K} (h : e.Good P Q R) :
    (renameIn m e).Good P Q' R := by
  rw [renameIn]
  induction e using Expr.ind with
  | num n => simp [Expr.mapNodes, renameLeaf, Expr.Good]
  | par i => simpa [Expr.mapNodes, renameLeaf, Expr.Good] using h
  | var s =>
    simp only [Expr.mapNodes]
    rw [renameLeaf_var]
    exact hm s h
  | fn f args ih =>
    rw [rename_fn]
    rw [Expr.good_fn] at h ⊢
    refine ⟨h.1, fun a ha => ?_⟩
    obtain ⟨b, hb, rfl⟩ := List.mem_map.1 ha
    exact ih b hb (h.2 b hb)

/-! ### The rewrites do not introduce variables -/

/-- The set of function symbols contains those introduced by the rewrites. -/
structure RewClosed (P : Fn K → Prop) : Prop where
  sum : P .sum
  prod : ∀ b, P (.prod b)
  pow : ∀ a, P (.pow a)
  sub : P .sub
  div : P .div
  sumSq : P .sumSq
  exp : P .exp
  log : P .log
  sin : P (.sin true)
  cos : P (.cos true)

section
variable [Field K] [LinearOrder K] [FloorRing K] [Fold K]
variable {P : Fn K → Prop} {Q : String → Prop} {R : Nat → Prop}

theorem sumFinish_good (hP : RewClosed P) {args : List (Expr K)} (h : ∀ a ∈ args, a.Good P Q R) :
    (sumFinish args).Good P Q R := by
  unfold sumFinish
  split
  · trivial
  · exact h _ (by simp)
  · refine Expr.good_fn.2 ⟨hP.sum, fun a ha => h a ?_⟩
    rcases List.mem_append.1 ha with ha | ha <;> exact (List.mem_filter.1 ha).1

theorem sumE_good (hP : RewClosed P) {args : List (Expr K)} (h : ∀ a ∈ args, a.Good P Q R) :
    (sumE args).Good P Q R := by
  have hnn : ∀ a ∈ args.filter (!·.isNum), a.Good P Q R := fun a ha => h a (List.mem_filter.1 ha).1
  unfold sumE
  simp only
  split
  · exact sumFinish_good hP hnn
  · split_ifs
    · trivial
    · exact sumFinish_good hP hnn
    · refine sumFinish_good hP fun a ha => ?_
      rcases List.mem_append.1 ha with ha | ha
      · exact hnn a ha
      · rw [List.mem_singleton] at ha; subst ha; trivial

theorem prodFinish_good (hP : RewClosed P) {args : List (Expr K)} (h : ∀ a ∈ args, a.Good P Q R) :
    (prodFinish args).Good P Q R := by
  unfold prodFinish
  split
  · trivial
  · exact h _ (by simp)
  · refine Expr.good_fn.2 ⟨hP.prod _, fun a ha => h a ?_⟩
    rcases List.mem_append.1 ha with ha | ha <;> exact (List.mem_filter.1 ha).1

theorem prodE_good (hP : RewClosed P) {args : List (Expr K)} (h : ∀ a ∈ args, a.Good P Q R) :
    (prodE args).Good P Q R := by
  have hnn : ∀ a ∈ args.filter (!·.isNum), a.Good P Q R := fun a ha => h a (List.mem_filter.1 ha).1
  unfold prodE
  simp only
  split
  · exact prodFinish_good hP hnn
  · split_ifs
    · trivial
    · exact prodFinish_good hP hnn
    · trivial
    · refine prodFinish_good hP fun a ha => ?_
      rcases List.mem_append.1 ha with ha | ha
      · exact hnn a ha
      · rw [List.mem_singleton] at ha; subst ha; trivial

theorem mkPow_good (hP : RewClosed P) {b e : Expr K} (hb : b.Good P Q R) (he : e.Good P Q R) :
    (mkPow b e).Good P Q R := by
  refine Expr.good_fn.2 ⟨hP.pow _, fun a ha => ?_⟩
  simp only [List.mem_cons, List.not_mem_nil, or_false] at ha
  rcases ha with rfl | rfl
  · exact hb
  · exact he

theorem powE_good (hP : RewClosed P) {b e : Expr K} (hb : b.Good P Q R) (he : e.Good P Q R) :
    (powE b e).Good P Q R := by
  unfold powE
  split
  · trivial
  · split_ifs
    · trivial
    · exact hb
    · exact mkPow_good hP hb he
  · exact mkPow_good hP hb he

theorem mulE_good (hP : RewClosed P) {a b : Expr K} (ha : a.Good P Q R) (hb : b.Good P Q R) :
    (mulE a b).Good P Q R := by
  unfold mulE
  split
  · trivial
  · refine prodE_good hP fun x hx => ?_
    simp only [List.mem_cons, List.not_mem_nil, or_false] at hx
    rcases hx with rfl | rfl
    · exact ha
    · exact hb

theorem groupArgs_good {mk : List (Expr K) → Expr K}
    (hmk : ∀ as, (∀ a ∈ as, a.Good P Q R) → (mk as).Good P Q R) (split : Nat) (as : List (Expr K)) :
    ∀ tmp, (∀ a ∈ tmp, a.Good P Q R) → (∀ a ∈ as, a.Good P Q R) →
      ∀ a ∈ groupArgs mk split tmp as, a.Good P Q R := by
  induction as with
  | nil =>
    intro tmp ht _ a ha
    unfold groupArgs at ha
    split at ha
    · cases ha
    · exact ht a ha
    · rw [List.mem_singleton] at ha; subst ha; exact hmk _ ht
  | cons b as ih =>
    intro tmp ht has a ha
    have htb : ∀ a ∈ tmp ++ [b], a.Good P Q R := by
      intro a ha
      rcases List.mem_append.1 ha with h | h
      · exact ht a h
      · rw [List.mem_singleton] at h; subst h; exact has _ List.mem_cons_self
    rw [groupArgs] at ha
    split_ifs at ha
    · rcases List.mem_cons.1 ha with rfl | ha
      · exact hmk _ htb
      · exact ih [] (by simp) (fun a h => has a (List.mem_cons_of_mem _ h)) a ha
    · exact ih _ htb (fun a h => has a (List.mem_cons_of_mem _ h)) a ha

theorem udfSplit_good {mk : List (Expr K) → Expr K}
    (hmk : ∀ as, (∀ a ∈ as, a.Good P Q R) → (mk as).Good P Q R) (split : Nat) (hs : 2 ≤ split)
    (n : Nat) : ∀ args : List (Expr K), args.length ≤ n → (∀ a ∈ args, a.Good P Q R) →
      (udfSplit mk split hs args).Good P Q R := by
  induction n with
  | zero =>
    intro args hn h
    rw [udfSplit, dif_pos (by omega)]
    exact hmk _ h
  | succ n ih =>
    intro args hn h
    rw [udfSplit]
    split_ifs with hc
    · exact hmk _ h
    · have := groupArgs_length_lt mk split [] args (by simp; omega) (by simp; omega)
      simp at this
      exact ih _ (by omega) (groupArgs_good hmk split args [] (by simp) h)

theorem sumToSub_good (hP : RewClosed P) (f : Fn K) (args : List (Expr K)) (h : (Expr.fn f args).Good P Q R) :
    (sumToSub (.fn f args)).Good P Q R := by
  unfold sumToSub
  split
  · rename_i as heq
    cases heq
    simp only
    have hargs := (Expr.good_fn.1 h).2
    have hneg : ∀ a ∈ (args.filterMap negatedProd).map prodE, a.Good P Q R := by
      intro a ha
      obtain ⟨bs, hbs, rfl⟩ := List.mem_map.1 ha
      obtain ⟨x, hx, hnp⟩ := List.mem_filterMap.1 hbs
      refine prodE_good hP fun b hb => ?_
      have hxg := hargs x hx
      unfold negatedProd at hnp
      split at hnp
      · split_ifs at hnp
        simp only [Option.some.injEq] at hnp
        subst hnp
        exact (Expr.good_fn.1 hxg).2 b (List.mem_cons_of_mem _ hb)
      · cases hnp
    have hst := sumE_good hP hneg
    split_ifs
    · exact h
    · refine prodE_good hP fun b hb => ?_
      simp only [List.mem_cons, List.not_mem_nil, or_false] at hb
      rcases hb with rfl | rfl
      · trivial
      · exact hst
    · refine Expr.good_fn.2 ⟨hP.sub, fun b hb => ?_⟩
      simp only [List.mem_cons, List.not_mem_nil, or_false] at hb
      rcases hb with rfl | rfl
      · exact sumE_good hP fun a ha => hargs a (List.mem_filter.1 ha).1
      · exact hst
  · exact h

theorem sumSplit_good (hP : RewClosed P) (split : Nat) (hs : 2 ≤ split) (f : Fn K) (args : List (Expr K))
    (h : (Expr.fn f args).Good P Q R) : (sumSplit split hs (.fn f args)).Good P Q R := by
  unfold sumSplit
  split
  · rename_i as heq
    cases heq
    exact udfSplit_good (fun as has => Expr.good_fn.2 ⟨hP.sum, has⟩) split hs _ _ (le_refl _)
      (Expr.good_fn.1 h).2
  · exact h

theorem prodSplit_good (hP : RewClosed P) (split : Nat) (hs : 2 ≤ split) (f : Fn K) (args : List (Expr K))
    (h : (Expr.fn f args).Good P Q R) : (prodSplit split hs (.fn f args)).Good P Q R := by
  unfold prodSplit
  split
  · rename_i as heq
    cases heq
    split_ifs
    · exact h
    · exact udfSplit_good (fun as has => Expr.good_fn.2 ⟨hP.prod _, has⟩) split hs _ _ (le_refl _)
        (Expr.good_fn.1 h).2
  · exact h

theorem allSquares_good {es bs : List (Expr K)} (h : allSquares es = some bs)
    (hg : ∀ a ∈ es, a.Good P Q R) : ∀ a ∈ bs, a.Good P Q R := by
  induction es generalizing bs with
  | nil => simp only [allSquares, Option.some.injEq] at h; subst h; simp
  | cons e es ih =>
    simp only [allSquares, Option.bind_eq_some_iff, Option.map_eq_some_iff] at h
    obtain ⟨b, hb, bs', hbs, rfl⟩ := h
    intro a ha
    rcases List.mem_cons.1 ha with rfl | ha
    · unfold isSquare at hb
      split at hb
      · split_ifs at hb
        simp only [Option.some.injEq] at hb
        subst hb
        exact (Expr.good_fn.1 (hg _ List.mem_cons_self)).2 _ (by simp)
      · cases hb
    · exact ih hbs (fun a ha => hg a (List.mem_cons_of_mem _ ha)) a ha

theorem sumToSumSq_good (hP : RewClosed P) (f : Fn K) (args : List (Expr K))
    (h : (Expr.fn f args).Good P Q R) : (sumToSumSq (.fn f args)).Good P Q R := by
  unfold sumToSumSq
  split
  · rename_i as heq
    cases heq
    split
    · rename_i bs hbs
      exact Expr.good_fn.2 ⟨hP.sumSq, allSquares_good hbs (Expr.good_fn.1 h).2⟩
    · exact h
  · exact h

theorem prodToDiv_good (hP : RewClosed P) {part : Expr K → Option (Expr K × Num K)}
    (hpart : ∀ e p, part e = some p → e.Good P Q R → p.1.Good P Q R) (f : Fn K) (args : List (Expr K))
    (h : (Expr.fn f args).Good P Q R) : (prodToDiv part (.fn f args)).Good P Q R := by
  unfold prodToDiv
  split
  · rename_i b as heq
    cases heq
    simp only
    have hargs := (Expr.good_fn.1 h).2
    split_ifs
    · exact h
    · refine Expr.good_fn.2 ⟨hP.div, fun b hb => ?_⟩
      simp only [List.mem_cons, List.not_mem_nil, or_false] at hb
      rcases hb with rfl | rfl
      · exact prodE_good hP fun a ha => hargs a (List.mem_filter.1 ha).1
      · refine prodE_good hP fun a ha => ?_
        obtain ⟨p, hp, rfl⟩ := List.mem_map.1 ha
        obtain ⟨x, hx, hxp⟩ := List.mem_filterMap.1 hp
        exact powE_good hP (hpart x p hxp (hargs x hx)) trivial
  · exact h

theorem divFactorEval_good (e : Expr K) (p : Expr K × Num K) (h : divFactorEval e = some p)
    (hg : e.Good P Q R) : p.1.Good P Q R := by
  unfold divFactorEval at h
  split at h
  · have := (Expr.good_fn.1 hg).2
    split at h
    · simp only [Option.some.injEq] at h; subst h; exact this _ (by simp)
    · simp only [Option.some.injEq] at h; subst h; exact this _ (by simp)
    · cases h
  · cases h

theorem divFactorTaylor_good (e : Expr K) (p : Expr K × Num K) (h : divFactorTaylor e = some p)
    (hg : e.Good P Q R) : p.1.Good P Q R := by
  unfold divFactorTaylor at h
  split at h
  · have := (Expr.good_fn.1 hg).2
    split_ifs at h
    simp only [Option.some.injEq] at h; subst h; exact this _ (by simp)
  · cases h

theorem powToExplog_good (hP : RewClosed P) (f : Fn K) (args : List (Expr K))
    (h : (Expr.fn f args).Good P Q R) : (powToExplog (.fn f args)).Good P Q R := by
  unfold powToExplog
  split
  · rename_i a b e heq
    cases heq
    split_ifs
    · exact h
    · have hargs := (Expr.good_fn.1 h).2
      have hm : (mulE e (.fn .log [b])).Good P Q R :=
        mulE_good hP (hargs e (by simp)) (Expr.good_fn.2 ⟨hP.log, fun x hx => by
          rw [List.mem_singleton] at hx; subst hx; exact hargs x (by simp)⟩)
      unfold unaryE
      split
      · trivial
      · exact Expr.good_fn.2 ⟨hP.exp, fun x hx => by
          rw [List.mem_singleton] at hx; subst hx; exact hm⟩
  · exact h

/-- The rewrites before compilation introduce no variables and only the symbols of arithmetic. -/
theorem rewritesEval_good (hP : RewClosed P) {e : Expr K} (h : e.Good P Q R) : (rewritesEval e).Good P Q R :=
  ((((h.mapNodes (sumToSub_good hP)).mapNodes (sumSplit_good hP 8 _)).mapNodes
    (sumToSumSq_good hP)).mapNodes (prodToDiv_good hP divFactorEval_good)).mapNodes (prodSplit_good hP 8 _)

/-- The same for the rewrites before the Taylor decomposition. -/
theorem rewritesTaylor_good (hP : RewClosed P) {e : Expr K} (h : e.Good P Q R) :
    (rewritesTaylor e).Good P Q R :=
  (((((h.mapNodes (powToExplog_good hP)).mapNodes (sumToSub_good hP)).mapNodes
    (sumSplit_good hP 8 _)).mapNodes
    (sumToSumSq_good hP)).mapNodes (prodToDiv_good hP divFactorTaylor_good)).mapNodes (prodSplit_good hP 2 _)

end

/-! ### Sines and cosines -/

section
variable [Field K] [LinearOrder K] [Interp K] [FmtName K]

/-- The interpretation does not distinguish the combined functions from the others. -/
def CombOk (K : Type) [Interp K] : Prop :=
  ∀ b, Interp.app (.sin b : Fn K) = Interp.app (.sin false) ∧
    Interp.app (.cos b : Fn K) = Interp.app (.cos false)

theorem sincosElem_fn {P : Fn K → Prop} (hP : RewClosed P) (hc : CombOk K) (sa ca : List (Expr K))
    {f : Fn K} (args : List (Expr K)) (hf : P f) :
    ∃ g, sincosElem sa ca (.fn f args) = .fn g args ∧ P g ∧ Interp.app g = Interp.app f ∧
      (g = .time ↔ f = .time) := by
  unfold sincosElem
  split
  · rename_i b a heq
    cases heq
    split_ifs
    · exact ⟨_, rfl, hP.sin, by rw [(hc true).1, (hc b).1], by simp⟩
    · exact ⟨_, rfl, hf, rfl, by simp⟩
  · rename_i b a heq
    cases heq
    split_ifs
    · exact ⟨_, rfl, hP.cos, by rw [(hc true).2, (hc b).2], by simp⟩
    · exact ⟨_, rfl, hf, rfl, by simp⟩
  · exact ⟨f, rfl, hf, rfl, Iff.rfl⟩

theorem sincosElem_notFn (sa ca : List (Expr K)) {e : Expr K} (h : e.isFn = false) :
    sincosElem sa ca e = e := by
  cases e with
  | fn f as => simp [Expr.isFn] at h
  | _ => rfl

theorem appO_congr (v : Env K) {f g : Fn K} (xs : List (Option K)) (h : Interp.app g = Interp.app f)
    (ht : g = .time ↔ f = .time) : appO v g xs = appO v f xs := by
  by_cases hc : f = .time ∧ xs = []
  · obtain ⟨rfl, rfl⟩ := hc
    rw [ht.2 rfl]
  · have h5 : f ≠ .time ∨ xs ≠ [] := by
      by_cases hft : f = .time
      · exact .inr fun hx => hc ⟨hft, hx⟩
      · exact .inl hft
    rw [appO_eq _ _ _ h5, appO_eq _ _ _ (h5.imp (fun h6 h7 => h6 (ht.1 h7)) id), h]

theorem argOk_notFn {i : Nat} {a : Expr K} (h : ArgOk i a) : a.isFn = false := by
  cases a with
  | fn f as => exact absurd h (by simp [ArgOk])
  | _ => rfl

theorem sincosCombine_ok {P : Fn K → Prop} (hP : RewClosed P) (hc : CombOk K) {nvars nouts : Nat}
    {dc : List (Expr K)} (h : DcOk P nvars nouts dc) :
    DcOk P nvars nouts (sincosCombine dc) ∧ (sincosCombine dc).length = dc.length ∧
    dcOuts nouts (sincosCombine dc) = dcOuts nouts dc ∧
    ∀ (v : Env K) (val : String → Option K),
      Sat v nvars (dc.take (dc.length - nouts)) val →
      Sat v nvars ((sincosCombine dc).take ((sincosCombine dc).length - nouts)) val := by
  have hlen := h.len
  have hl : (sincosCombine dc).length = dc.length := by simp [sincosCombine]
  have htake : (sincosCombine dc).take (dc.length - nouts) =
      (dc.take (dc.length - nouts)).map (sincosElem (sinArgs dc) (cosArgs dc)) := by
    rw [sincosCombine, List.map_take]
  have houts : dcOuts nouts (sincosCombine dc) = dcOuts nouts dc := by
    have : dcOuts nouts (sincosCombine dc) =
        (dcOuts nouts dc).map (sincosElem (sinArgs dc) (cosArgs dc)) := by
      rw [dcOuts, hl, sincosCombine, dcOuts, List.map_drop]
    rw [this]
    conv_rhs => rw [← List.map_id (dcOuts nouts dc)]
    exact List.map_congr_left fun a ha => sincosElem_notFn _ _ (argOk_notFn (h.outs a ha))
  refine ⟨⟨by omega, ⟨?_, ?_⟩, ?_⟩, hl, houts, ?_⟩
  · rw [List.length_take]; omega
  · intro i e he hi
    rw [hl, htake, List.getElem?_map, Option.map_eq_some_iff] at he
    obtain ⟨e0, he0, rfl⟩ := he
    obtain ⟨f, args, rfl, hf, ha⟩ := h.wf.elem i e0 he0 hi
    obtain ⟨g, h1, h2, -, -⟩ := sincosElem_fn hP hc (sinArgs dc) (cosArgs dc) args hf
    exact ⟨g, args, h1, h2, ha⟩
  · rw [houts, hl]; exact h.outs
  · intro v val hs
    refine ⟨hs.ins, fun i e he hi => ?_⟩
    rw [hl, htake, List.getElem?_map, Option.map_eq_some_iff] at he
    obtain ⟨e0, he0, rfl⟩ := he
    obtain ⟨f, args, rfl, hf, ha⟩ := h.wf.elem i e0 he0 hi
    obtain ⟨g, h1, h2, h3, h4⟩ := sincosElem_fn hP hc (sinArgs dc) (cosArgs dc) args hf
    rw [h1, hs.elem i _ he0 hi]
    exact (appO_congr v _ h3 h4).symm

end

end Heyoka.Sym
