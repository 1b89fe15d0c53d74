import Verif.AD.Model

/-!
# The symbols, the variables and the arities in expressions

The partial derivatives of a function contain only the variables of its arguments and function symbols
of the library with the right number of arguments.
-/

set_option linter.unusedSectionVars false

namespace Heyoka.AD

open Heyoka.Sym

variable {K : Type}

mutual
/-- All the function symbols satisfy `S` together with the number of their arguments, all the variables
satisfy `Q`, all the indices of the parameters satisfy `R`. -/
def GoodS (S : Fn K → Nat → Prop) (Q : String → Prop) (R : Nat → Prop) : Expr K → Prop
  | .num _ => True
  | .var s => Q s
  | .par i => R i
  | .fn f args => S f args.length ∧ GoodSL S Q R args
/-- The same for lists. -/
def GoodSL (S : Fn K → Nat → Prop) (Q : String → Prop) (R : Nat → Prop) : List (Expr K) → Prop
  | [] => True
  | e :: es => GoodS S Q R e ∧ GoodSL S Q R es
end

variable {S : Fn K → Nat → Prop} {Q : String → Prop} {R : Nat → Prop}

theorem goodSL_iff {es : List (Expr K)} : GoodSL S Q R es ↔ ∀ e ∈ es, GoodS S Q R e := by
  induction es with
  | nil => simp [GoodSL]
  | cons e es ih => simp [GoodSL, ih]

theorem goodS_fn {f : Fn K} {args : List (Expr K)} :
    GoodS S Q R (.fn f args) ↔ S f args.length ∧ ∀ e ∈ args, GoodS S Q R e := by
  rw [GoodS, goodSL_iff]

theorem goodS_num (n : Num K) : GoodS S Q R (.num n) := trivial

theorem GoodS.mono {S' : Fn K → Nat → Prop} {Q' : String → Prop} {R' : Nat → Prop} {e : Expr K} (h : GoodS S Q R e)
    (hS : ∀ f n, S f n → S' f n) (hQ : ∀ s, s ∈ e.leaves.filterMap leafVar → Q s → Q' s)
    (hR : ∀ i, i ∈ e.leaves.filterMap leafPar → R i → R' i) : GoodS S' Q' R' e := by
  induction e using Expr.ind with
  | num n => trivial
  | par n => exact hR n (by simp [Expr.leaves, leafPar]) h
  | var s => exact hQ s (by simp [Expr.leaves, leafVar]) h
  | fn f args ih =>
    rw [goodS_fn] at h ⊢
    refine ⟨hS f _ h.1, fun a ha => ih a ha (h.2 a ha) (fun s hs => hQ s ?_) fun s hs => hR s ?_⟩
    all_goals
      rw [List.mem_filterMap] at hs ⊢
      obtain ⟨x, hx, hs⟩ := hs
      exact ⟨x, by rw [Expr.leaves, mem_leavesL]; exact ⟨a, ha, hx⟩, hs⟩

/-- The set of function symbols contains those occurring in the partial derivatives. -/
structure GradClosed (S : Fn K → Nat → Prop) : Prop where
  sum : ∀ n, S .sum n
  prod : ∀ b n, S (.prod b) n
  pow : ∀ a, S (.pow a) 2
  log : S .log 1
  exp : S .exp 1
  sin : ∀ c, S (.sin c) 1
  cos : ∀ c, S (.cos c) 1
  sinh : S .sinh 1
  cosh : S .cosh 1
  pi : S (.const "pi") 0
  relup : ∀ s, S (.relu s) 1 → S (.relup s) 1
  dfun : ∀ id ix n i, S (.dfun id ix) n → S (.dfun id (bumpIdx i false ix)) n

section
variable [Field K] [LinearOrder K] [FloorRing K] [Interp K]

theorem sumFinish_goodS (hS : GradClosed S) {args : List (Expr K)} (h : ∀ a ∈ args, GoodS S Q R a) :
    GoodS S Q R (sumFinish args) := by
  unfold sumFinish
  split
  · trivial
  · exact h _ (by simp)
  · refine goodS_fn.2 ⟨hS.sum _, fun a ha => h a ?_⟩
    rcases List.mem_append.1 ha with ha | ha <;> exact (List.mem_filter.1 ha).1

theorem sumE_goodS (hS : GradClosed S) {args : List (Expr K)} (h : ∀ a ∈ args, GoodS S Q R a) :
    GoodS S Q R (sumE args) := by
  have hnn : ∀ a ∈ args.filter (!·.isNum), GoodS S Q R a := fun a ha => h a (List.mem_filter.1 ha).1
  unfold sumE
  simp only
  split
  · exact sumFinish_goodS hS hnn
  · split_ifs
    · trivial
    · exact sumFinish_goodS hS hnn
    · refine sumFinish_goodS hS fun a ha => ?_
      rcases List.mem_append.1 ha with ha | ha
      · exact hnn a ha
      · rw [List.mem_singleton] at ha; subst ha; trivial

theorem mkProd_goodS (hS : GradClosed S) {args : List (Expr K)} (h : ∀ a ∈ args, GoodS S Q R a) :
    GoodS S Q R (mkProd args) := goodS_fn.2 ⟨hS.prod _ _, h⟩

theorem prodFinish_goodS (hS : GradClosed S) {args : List (Expr K)} (h : ∀ a ∈ args, GoodS S Q R a) :
    GoodS S Q R (prodFinish args) := by
  unfold prodFinish
  split
  · trivial
  · exact h _ (by simp)
  · refine mkProd_goodS hS fun a ha => h a ?_
    rcases List.mem_append.1 ha with ha | ha <;> exact (List.mem_filter.1 ha).1

theorem prodE_goodS (hS : GradClosed S) {args : List (Expr K)} (h : ∀ a ∈ args, GoodS S Q R a) :
    GoodS S Q R (prodE args) := by
  have hnn : ∀ a ∈ args.filter (!·.isNum), GoodS S Q R a := fun a ha => h a (List.mem_filter.1 ha).1
  unfold prodE
  simp only
  split
  · exact prodFinish_goodS hS hnn
  · split_ifs
    · trivial
    · exact prodFinish_goodS hS hnn
    · trivial
    · refine prodFinish_goodS hS fun a ha => ?_
      rcases List.mem_append.1 ha with ha | ha
      · exact hnn a ha
      · rw [List.mem_singleton] at ha; subst ha; trivial

theorem pair_goodS {a b : Expr K} (ha : GoodS S Q R a) (hb : GoodS S Q R b) :
    ∀ x ∈ [a, b], GoodS S Q R x := by
  intro x hx
  simp only [List.mem_cons, List.not_mem_nil, or_false] at hx
  rcases hx with rfl | rfl
  · exact ha
  · exact hb

theorem mkPow_goodS (hS : GradClosed S) {b e : Expr K} (hb : GoodS S Q R b) (he : GoodS S Q R e) :
    GoodS S Q R (mkPow b e) := goodS_fn.2 ⟨hS.pow _, pair_goodS hb he⟩

theorem powE_goodS (hS : GradClosed S) {b e : Expr K} (hb : GoodS S Q R b) (he : GoodS S Q R e) :
    GoodS S Q R (powE b e) := by
  unfold powE
  split
  · trivial
  · split_ifs
    · trivial
    · exact hb
    · exact mkPow_goodS hS hb he
  · exact mkPow_goodS hS hb he

theorem mulE_goodS (hS : GradClosed S) {a b : Expr K} (ha : GoodS S Q R a) (hb : GoodS S Q R b) :
    GoodS S Q R (mulE a b) := by
  unfold mulE
  split
  · trivial
  · exact prodE_goodS hS (pair_goodS ha hb)

theorem negE_goodS (hS : GradClosed S) {a : Expr K} (ha : GoodS S Q R a) : GoodS S Q R (negE a) := by
  unfold negE
  split
  · trivial
  · exact prodE_goodS hS (pair_goodS trivial ha)

theorem addE_goodS (hS : GradClosed S) {a b : Expr K} (ha : GoodS S Q R a) (hb : GoodS S Q R b) :
    GoodS S Q R (addE a b) := by
  unfold addE
  split
  · trivial
  · exact sumE_goodS hS (pair_goodS ha hb)

theorem subE_goodS (hS : GradClosed S) {a b : Expr K} (ha : GoodS S Q R a) (hb : GoodS S Q R b) :
    GoodS S Q R (subE a b) := by
  unfold subE
  split
  · trivial
  · exact addE_goodS hS ha (negE_goodS hS hb)

theorem divE_goodS (hS : GradClosed S) {a b : Expr K} (ha : GoodS S Q R a) (hb : GoodS S Q R b) :
    GoodS S Q R (divE a b) := by
  unfold divE
  split
  · trivial
  · exact prodE_goodS hS (pair_goodS ha (powE_goodS hS hb trivial))

theorem unaryE_goodS {f : Fn K} (hf : S f 1) {a : Expr K} (ha : GoodS S Q R a) :
    GoodS S Q R (unaryE f a) := by
  unfold unaryE
  split
  · trivial
  · exact goodS_fn.2 ⟨hf, by simpa using ha⟩

theorem relupE_goodS {s : K} (hf : S (.relup s) 1) {a : Expr K} (ha : GoodS S Q R a) :
    GoodS S Q R (relupE s a) := by
  unfold relupE
  split
  · trivial
  · exact goodS_fn.2 ⟨hf, by simpa using ha⟩

/-- The partial derivatives contain nothing new. -/
theorem gradient_goodS (hS : GradClosed S) {f : Fn K} {args gs : List (Expr K)} (hg : gradient f args = .ok gs)
    (hf : S f args.length) (ha : ∀ a ∈ args, GoodS S Q R a) : ∀ g ∈ gs, GoodS S Q R g := by
  have d : ∀ x : K, GoodS S Q R (.dbl x) := fun _ => trivial
  unfold gradient at hg
  split at hg
  case h_1 =>
    injection hg with hg; subst hg
    intro g h; obtain ⟨a, -, rfl⟩ := List.mem_map.1 h; exact d _
  case h_2 =>
    injection hg with hg; subst hg
    intro g h
    obtain ⟨i, -, rfl⟩ := List.mem_map.1 h
    exact prodE_goodS hS fun a h => ha a (List.mem_of_mem_eraseIdx h)
  case h_25 =>
    injection hg with hg; subst hg
    intro g h; obtain ⟨a, -, rfl⟩ := List.mem_map.1 h; exact d _
  case h_26 =>
    injection hg with hg; subst hg
    intro g h; obtain ⟨a, -, rfl⟩ := List.mem_map.1 h; exact d _
  case h_32 =>
    injection hg with hg; subst hg
    intro g h
    obtain ⟨i, -, rfl⟩ := List.mem_map.1 h
    exact goodS_fn.2 ⟨hS.dfun _ _ _ _ hf, ha⟩
  all_goals first | (cases hg; done) | skip
  all_goals
    injection hg with hg; subst hg
    simp only [List.mem_cons, List.not_mem_nil, or_false, forall_eq_or_imp, forall_eq, List.length_cons,
      List.length_nil, Nat.reduceAdd, IsEmpty.forall_iff, implies_true] at ha hf ⊢
  case h_3 =>
    exact ⟨mulE_goodS hS ha.2 (powE_goodS hS ha.1 (subE_goodS hS ha.2 (d _))),
      mulE_goodS hS (powE_goodS hS ha.1 ha.2) (unaryE_goodS hS.log ha.1)⟩
  case h_4 => exact unaryE_goodS (hS.cos _) ha
  case h_5 => exact negE_goodS hS (unaryE_goodS (hS.sin _) ha)
  case h_6 => exact addE_goodS hS (d _) (powE_goodS hS (unaryE_goodS hf ha) (d _))
  case h_7 => exact powE_goodS hS (subE_goodS hS (d _) (powE_goodS hS ha (d _))) (d _)
  case h_8 => exact negE_goodS hS (powE_goodS hS (subE_goodS hS (d _) (powE_goodS hS ha (d _))) (d _))
  case h_9 => exact powE_goodS hS (addE_goodS hS (d _) (powE_goodS hS ha (d _))) (d _)
  case h_10 =>
    have hden := powE_goodS (e := .dbl (-1)) hS
      (addE_goodS hS (powE_goodS hS ha.2 (d 2)) (powE_goodS hS ha.1 (d 2))) (d _)
    exact ⟨mulE_goodS hS ha.2 hden, mulE_goodS hS (negE_goodS hS ha.1) hden⟩
  case h_11 => exact unaryE_goodS hS.cosh ha
  case h_12 => exact unaryE_goodS hS.sinh ha
  case h_13 => exact subE_goodS hS (d _) (powE_goodS hS (unaryE_goodS hf ha) (d _))
  case h_14 => exact powE_goodS hS (addE_goodS hS (powE_goodS hS ha (d _)) (d _)) (d _)
  case h_15 => exact powE_goodS hS (subE_goodS hS (powE_goodS hS ha (d _)) (d _)) (d _)
  case h_16 => exact powE_goodS hS (subE_goodS hS (d _) (powE_goodS hS ha (d _))) (d _)
  case h_17 =>
    exact mulE_goodS hS (divE_goodS hS (d _) (powE_goodS hS (goodS_fn.2 ⟨hS.pi, by simp⟩) (d _)))
      (unaryE_goodS hS.exp (negE_goodS hS (powE_goodS hS ha (d _))))
  case h_18 => exact unaryE_goodS hf ha
  case h_19 => exact powE_goodS hS ha (d _)
  case h_20 => exact mulE_goodS hS (subE_goodS hS (d _) (unaryE_goodS hf ha)) (unaryE_goodS hf ha)
  case h_21 => exact relupE_goodS (hS.relup _ hf) ha
  case h_22 => exact d _
  case h_23 =>
    refine ⟨d _, goodS_fn.2 ⟨hf, ?_⟩, goodS_fn.2 ⟨hf, ?_⟩⟩ <;> simp [ha.1, d]
  case h_24 => exact ⟨d _, d _⟩
  case h_29 =>
    have hE : GoodS S Q R _ := goodS_fn.2 ⟨hf, pair_goodS ha.1 ha.2⟩
    have hden := powE_goodS (e := .dbl (-1)) hS
      (subE_goodS hS (d 1) (mulE_goodS hS ha.1 (unaryE_goodS (hS.cos false) hE))) (d _)
    exact ⟨mulE_goodS hS (unaryE_goodS (hS.sin _) hE) hden, hden⟩
  case h_30 =>
    rename_i h k lam
    have hE : GoodS S Q R (.fn .kepF [h, k, lam]) := goodS_fn.2 ⟨hf, by simpa using ha⟩
    have hden := powE_goodS (e := .dbl (-1)) hS
      (subE_goodS hS (subE_goodS hS (d 1) (mulE_goodS hS ha.1 (unaryE_goodS (hS.sin false) hE)))
        (mulE_goodS hS ha.2.1 (unaryE_goodS (hS.cos false) hE))) (d _)
    exact ⟨mulE_goodS hS (negE_goodS hS (unaryE_goodS (hS.cos _) hE)) hden,
      mulE_goodS hS (unaryE_goodS (hS.sin _) hE) hden, hden⟩
  case h_31 =>
    rename_i h k lam
    have hE : GoodS S Q R (.fn .kepDE [h, k, lam]) := goodS_fn.2 ⟨hf, by simpa using ha⟩
    have hden := powE_goodS (e := .dbl (-1)) hS
      (subE_goodS hS (addE_goodS hS (d 1) (mulE_goodS hS ha.1 (unaryE_goodS (hS.sin false) hE)))
        (mulE_goodS hS ha.2.1 (unaryE_goodS (hS.cos false) hE))) (d _)
    exact ⟨mulE_goodS hS (subE_goodS hS (unaryE_goodS (hS.cos _) hE) (d _)) hden,
      mulE_goodS hS (unaryE_goodS (hS.sin _) hE) hden, hden⟩

/-- The functions with a gradient, with their numbers of arguments. -/
def hasGrad : Fn K → Nat → Prop
  | .sum, _ => True
  | .prod _, _ => True
  | .land, _ => True
  | .lor, _ => True
  | .dfun _ _, _ => True
  | .pow _, n => n = 2
  | .atan2, n => n = 2
  | .rel _, n => n = 2
  | .kepE, n => n = 2
  | .select, n => n = 3
  | .kepF, n => n = 3
  | .kepDE, n => n = 3
  | .time, n => n = 0
  | .const _, n => n = 0
  | .sub, _ => False
  | .div, _ => False
  | .sumSq, _ => False
  | .numId, _ => False
  | .other _, _ => False
  | _, n => n = 1

theorem gradient_total {f : Fn K} {args : List (Expr K)} (h : hasGrad f args.length) :
    ∃ gs, gradient f args = .ok gs ∧ gs.length = args.length := by
  cases f <;> simp only [hasGrad] at h
  all_goals first
    | exact ⟨_, rfl, by simp [prodGradient]⟩
    | (rcases args with _ | ⟨a, _ | ⟨b, _ | ⟨c, _ | ⟨e, args⟩⟩⟩⟩ <;> simp at h
       exact ⟨_, rfl, rfl⟩)

end

end Heyoka.AD
