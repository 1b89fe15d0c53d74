import Verif.AD.Cse
import Verif.Props.Diff

/-!
# The preparation of the components

Splitting the products and renaming the inputs: the renaming is undone by the substitution of the
inputs, the splitting does not change the value, the differentiability and the dependence on the
variables.
-/

set_option linter.unusedSectionVars false

namespace Heyoka.AD

open Heyoka.Sym

variable [DFunc]

/-! ### The inputs -/

section
variable {K : Type}

theorem mem_inputs_var {es : List (Expr K)} {e : Expr K} (he : e ∈ es) {s : String}
    (hs : s ∈ e.leaves.filterMap leafVar) : DVar.var s ∈ inputs es := by
  refine List.mem_append_left _ (List.mem_map.2 ⟨s, ?_, rfl⟩)
  rw [inVars, mem_sortedSet, List.mem_filterMap]
  obtain ⟨a, ha, h⟩ := List.mem_filterMap.1 hs
  exact ⟨a, List.mem_flatMap.2 ⟨e, he, ha⟩, h⟩

theorem mem_inputs_par {es : List (Expr K)} {e : Expr K} (he : e ∈ es) {i : Nat}
    (hs : i ∈ e.leaves.filterMap leafPar) : DVar.par i ∈ inputs es := by
  refine List.mem_append_right _ (List.mem_map.2 ⟨i, ?_, rfl⟩)
  rw [inPars, mem_sortedSet, List.mem_filterMap]
  obtain ⟨a, ha, h⟩ := List.mem_filterMap.1 hs
  exact ⟨a, List.mem_flatMap.2 ⟨e, he, ha⟩, h⟩

theorem inputs_nodup (es : List (Expr K)) : (inputs es).Nodup := by
  rw [inputs, List.nodup_append]
  refine ⟨?_, ?_, ?_⟩
  · exact List.Nodup.map (fun a b h => by injection h) ((sortedSet_pairwise _).imp fun h => ne_of_lt h)
  · exact List.Nodup.map (fun a b h => by injection h) ((sortedSet_pairwise _).imp fun h => ne_of_lt h)
  · intro a ha b hb
    obtain ⟨s, -, rfl⟩ := List.mem_map.1 ha
    obtain ⟨i, -, rfl⟩ := List.mem_map.1 hb
    simp

theorem goodS_inputs {S : Fn K → Nat → Prop} {es : List (Expr K)} {e : Expr K} (he : e ∈ es)
    (h : GoodS S (fun _ => True) (fun _ => True) e) :
    GoodS S (fun s => .var s ∈ inputs es) (fun i => .par i ∈ inputs es) e :=
  h.mono (fun _ _ h => h) (fun _ hs _ => mem_inputs_var he hs) fun _ hs _ => mem_inputs_par he hs

variable [Field K] [LinearOrder K] [FmtName K]

theorem mapFind_replMap {ins : List DVar} {x : DVar} (hx : x ∈ ins) :
    ∃ j : Nat, j < ins.length ∧ ins[j]? = some x ∧
      mapFind (replMap ins) (ofDVar x : Expr K) = some (.var (uname j)) := by
  cases h : mapFind (replMap ins) (ofDVar x : Expr K) with
  | none =>
    obtain ⟨j, hj⟩ := List.mem_iff_getElem?.1 hx
    have := mapFind_none h (ofDVar x, .var (uname j)) (by
      refine List.mem_map.2 ⟨(x, j), ?_, rfl⟩
      refine List.mem_iff_getElem?.2 ⟨j, ?_⟩
      rw [List.getElem?_zipIdx, hj]; simp)
    rw [Expr.beq_refl] at this
    cases this
  | some r =>
    obtain ⟨k, hk, hb⟩ := mapFind_some h
    obtain ⟨⟨y, j⟩, hp, he⟩ := List.mem_map.1 hk
    simp only [Prod.mk.injEq] at he
    obtain ⟨rfl, rfl⟩ := he
    have hxy : y = x := by
      cases x <;> cases y <;> simp [ofDVar, Expr.beq] at hb ⊢ <;> exact hb
    subst hxy
    obtain ⟨i, hi⟩ := List.mem_iff_getElem?.1 hp
    rw [List.getElem?_zipIdx, Option.map_eq_some_iff] at hi
    obtain ⟨a, ha, he⟩ := hi
    simp only [Prod.mk.injEq, Nat.zero_add] at he
    obtain ⟨rfl, rfl⟩ := he
    exact ⟨i, (List.getElem?_eq_some_iff.1 ha).1, ha, by simp⟩

theorem mapFind_other {ins : List DVar} {e : Expr K} (h : toDVar e = none) : mapFind (replMap ins) e = none := by
  cases hm : mapFind (replMap ins) e with
  | none => rfl
  | some r =>
    obtain ⟨k, hk, hb⟩ := mapFind_some hm
    obtain ⟨⟨y, j⟩, hp, he⟩ := List.mem_map.1 hk
    simp only [Prod.mk.injEq] at he
    obtain ⟨rfl, rfl⟩ := he
    cases e <;> simp [toDVar] at h <;> cases y <;> simp [ofDVar, Expr.beq] at hb

/-- The renaming of the inputs. -/
theorem replace_good {S : Fn K → Nat → Prop} {ins : List DVar} {e : Expr K}
    (h : GoodS S (fun s => .var s ∈ ins) (fun i => .par i ∈ ins) e) :
    GoodS S (fun s => ∃ j, j < (ins.map (ofDVar (K := K))).length ∧ s = uname j) (fun _ => False)
        (e.replace (mapFind (replMap ins))) ∧
      subsAll (ins.map ofDVar) (e.replace (mapFind (replMap ins))) = e := by
  have leaf : ∀ x : DVar, x ∈ ins → (ofDVar x : Expr K).replace (mapFind (replMap ins)) =
      (mapFind (replMap ins) (ofDVar x)).getD (ofDVar x) := by
    intro x _; cases x <;> simp [ofDVar, Expr.replace]
  have key : ∀ x : DVar, x ∈ ins →
      GoodS S (fun s => ∃ j, j < (ins.map (ofDVar (K := K))).length ∧ s = uname j) (fun _ => False)
        ((ofDVar x : Expr K).replace (mapFind (replMap ins))) ∧
      subsAll (ins.map ofDVar) ((ofDVar x : Expr K).replace (mapFind (replMap ins))) = ofDVar x := by
    intro x hx
    obtain ⟨j, hj, hjx, hf⟩ := mapFind_replMap (K := K) hx
    rw [leaf x hx, hf]
    exact ⟨⟨j, by simpa using hj, rfl⟩, subsAll_uname (by rw [List.getElem?_map, hjx]; rfl)⟩
  induction e using Expr.ind with
  | num n =>
    rw [Expr.replace, mapFind_other rfl]
    exact ⟨trivial, rfl⟩
  | var s => exact key (.var s) h
  | par i => exact key (.par i) h
  | fn f args ih =>
    rw [goodS_fn] at h
    rw [Expr.replace, mapFind_other rfl, Option.getD_none, Expr.replaceL_eq_map]
    refine ⟨goodS_fn.2 ⟨by simpa using h.1, fun a ha => ?_⟩, ?_⟩
    · obtain ⟨b, hb, rfl⟩ := List.mem_map.1 ha
      exact (ih b hb (h.2 b hb)).1
    · rw [subsAll_fn, List.map_map]
      congr 1
      conv_rhs => rw [← List.map_id args]
      exact List.map_congr_left fun a ha => (ih a ha (h.2 a ha)).2

end

/-! ### Splitting products -/

section
variable {K : Type} [Field K] [LinearOrder K] [FloorRing K] [Interp K]
variable {S : Fn K → Nat → Prop} {Q : String → Prop} {R : Nat → Prop}

/-- The products split into binary ones. -/
abbrev split2 : Expr K → Expr K := Expr.mapNodes id (prodSplit 2 (by decide))

theorem prodSplit_goodS (hS : GradClosed S) {f : Fn K} {args : List (Expr K)} (h : GoodS S Q R (.fn f args)) :
    GoodS S Q R (prodSplit 2 (by decide) (.fn f args)) := by
  unfold prodSplit
  split
  · rename_i neg as heq
    cases heq
    split_ifs
    · exact h
    · exact udfSplit_all (Q := GoodS S Q R) (by decide) (fun as _ ha => mkProd_goodS hS ha) _ (goodS_fn.1 h).2
  · exact h

theorem split2_goodS (hS : GradClosed S) {e : Expr K} (h : GoodS S Q R e) : GoodS S Q R (split2 e) := by
  induction e using Expr.ind with
  | num n => exact h
  | var n => exact h
  | par n => exact h
  | fn f args ih =>
    rw [split2, Expr.mapNodes, Expr.mapNodesL_eq_map]
    rw [goodS_fn] at h
    refine prodSplit_goodS hS (goodS_fn.2 ⟨by simpa using h.1, fun a ha => ?_⟩)
    obtain ⟨b, hb, rfl⟩ := List.mem_map.1 ha
    exact ih b hb (h.2 b hb)

end

theorem groupArgs_any {α : Type} {mk : List α → α} {p : α → Bool} (hmk : ∀ as, p (mk as) = as.any p) (split : Nat)
    (as : List α) : ∀ tmp, (groupArgs mk split tmp as).any p = (tmp ++ as).any p := by
  induction as with
  | nil =>
    intro tmp
    match tmp with
    | [] => rfl
    | [a] => rfl
    | a :: b :: tmp => simp only [groupArgs, List.any_cons, List.any_nil, hmk, List.append_nil, Bool.or_false]
  | cons a as ih =>
    intro tmp
    rw [groupArgs]
    split_ifs with hc
    · rw [List.any_cons, hmk, ih, List.any_append, List.any_append]
      simp [Bool.or_assoc]
    · rw [ih]; simp

theorem udfSplit_any {α : Type} {mk : List α → α} {p : α → Bool} (hmk : ∀ as, p (mk as) = as.any p) (split : Nat)
    (hs : 2 ≤ split) (as : List α) : p (udfSplit mk split hs as) = as.any p := by
  induction hn : as.length using Nat.strong_induction_on generalizing as with
  | _ n ih =>
    subst hn
    rw [udfSplit]
    split_ifs with h
    · exact hmk _
    · rw [ih _ ?_ _ rfl, groupArgs_any hmk]
      · rfl
      · have := groupArgs_length_lt mk split [] as (by simp; omega) (by simp; omega)
        simp at this
        omega

variable {x : DVar} {v : Env ℝ}

theorem smooth_eval {e : Expr ℝ} (h : Smooth x v e) : ∃ y, e.eval v = some y := by
  obtain ⟨A, rfl, hA⟩ := smooth_argOk e h
  exact ⟨_, hA.curve.val⟩

theorem smooth_evalL {es : List (Expr ℝ)} (h : ∀ e ∈ es, Smooth x v e) : ∃ ys, Expr.evalL v es = some ys := by
  induction es with
  | nil => exact ⟨[], by simp⟩
  | cons e es ih =>
    obtain ⟨y, hy⟩ := smooth_eval (h e List.mem_cons_self)
    obtain ⟨ys, hys⟩ := ih fun a ha => h a (List.mem_cons_of_mem _ ha)
    exact ⟨y :: ys, by simp [hy, hys]⟩

theorem smooth_prod {b : Bool} {es : List (Expr ℝ)} (h : ∀ e ∈ es, Smooth x v e) : Smooth x v (.fn (.prod b) es) := by
  rw [Smooth, SmoothL_iff]
  obtain ⟨ys, hys⟩ := smooth_evalL h
  exact ⟨h, ys, hys, trivial⟩

theorem isBool_prodSplit {f : Fn ℝ} {args : List (Expr ℝ)} :
    (prodSplit 2 (by decide) (.fn f args)).isBool = (Expr.fn f args).isBool ∧
    (prodSplit 2 (by decide) (.fn f args)).isNum = false ∧
    (prodSplit 2 (by decide) (.fn f args)).occurs x = (Expr.fn f args).occurs x := by
  unfold prodSplit
  split
  · rename_i neg as heq
    cases heq
    split_ifs
    · exact ⟨rfl, rfl, rfl⟩
    · have h1 : ∀ as : List (Expr ℝ), (udfSplit mkProd 2 (by decide) as).isBool = False := by
        intro as
        induction hn : as.length using Nat.strong_induction_on generalizing as with
        | _ n ih =>
          subst hn
          rw [udfSplit]
          split_ifs with h
          · rfl
          · refine ih _ ?_ _ rfl
            have := groupArgs_length_lt (mkProd (K := ℝ)) 2 [] as (by simp) (by simp; omega)
            simp at this
            omega
      have h2 : ∀ as : List (Expr ℝ), (udfSplit mkProd 2 (by decide) as).isNum = false := by
        intro as
        induction hn : as.length using Nat.strong_induction_on generalizing as with
        | _ n ih =>
          subst hn
          rw [udfSplit]
          split_ifs with h
          · rfl
          · refine ih _ ?_ _ rfl
            have := groupArgs_length_lt (mkProd (K := ℝ)) 2 [] as (by simp) (by simp; omega)
            simp at this
            omega
      refine ⟨h1 _, h2 _, ?_⟩
      rw [udfSplit_any (p := Expr.occurs x) (fun as => by rw [mkProd, Expr.occurs, Expr.occursL_eq_any]),
        Expr.occurs, Expr.occursL_eq_any]
  · exact ⟨rfl, rfl, rfl⟩

theorem split2_shape (e : Expr ℝ) :
    (split2 e).isBool = e.isBool ∧ (split2 e).isNum = e.isNum ∧ (split2 e).occurs x = e.occurs x := by
  induction e using Expr.ind with
  | num n => exact ⟨rfl, rfl, rfl⟩
  | var n => exact ⟨rfl, rfl, rfl⟩
  | par n => exact ⟨rfl, rfl, rfl⟩
  | fn f args ih =>
    rw [split2, Expr.mapNodes, Expr.mapNodesL_eq_map]
    obtain ⟨h1, h2, h3⟩ := isBool_prodSplit (x := x) (f := f) (args := args.map split2)
    refine ⟨h1.trans ?_, h2, h3.trans ?_⟩
    · cases f <;> rfl
    · rw [Expr.occurs, Expr.occurs, Expr.occursL_eq_any, Expr.occursL_eq_any, List.any_map]
      clear h1 h2 h3
      induction args with
      | nil => rfl
      | cons a as iha =>
        rw [List.any_cons, List.any_cons, Function.comp_apply, (ih a List.mem_cons_self).2.2,
          iha fun e he => ih e (List.mem_cons_of_mem _ he)]

theorem split2_keeps (w : Env ℝ) : KeepsValue w split2 := (prodSplit_keeps 2 (by decide)).mapNodes

theorem split2_smooth {e : Expr ℝ} (h : Smooth x v e) : Smooth x v (split2 e) := by
  induction e using Expr.ind with
  | num n => exact h
  | var n => exact h
  | par n => exact h
  | fn f args ih =>
    rw [split2, Expr.mapNodes, Expr.mapNodesL_eq_map]
    rw [Smooth, SmoothL_iff] at h
    obtain ⟨h1, vals, h2, h3⟩ := h
    have hsm : ∀ a ∈ args.map split2, Smooth x v a := by
      intro a ha
      obtain ⟨b, hb, rfl⟩ := List.mem_map.1 ha
      exact ih b hb (h1 b hb)
    have hnode : Smooth x v (.fn f (args.map split2)) := by
      rw [Smooth, SmoothL_iff]
      refine ⟨hsm, vals, evalL_map_keeps (fun e _ => split2_keeps v e) h2, ?_⟩
      have : (∀ b ∈ args.map split2, b.isNum = true) ↔ ∀ b ∈ args, b.isNum = true := by
        simp [(split2_shape (x := x) _).2.1]
      rw [List.zipWith_map_left]
      simp only [(split2_shape (x := x) _).2.2, (split2_shape (x := x) _).1, this]
      exact h3
    unfold prodSplit
    split
    · rename_i neg as heq
      cases heq
      split_ifs
      · exact hnode
      · exact udfSplit_all (Q := Smooth x v) (by decide) (fun as _ ha => smooth_prod ha) _ hsm
    · exact hnode

end Heyoka.AD
