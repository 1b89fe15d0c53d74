import Verif.Expr.SubsLemmas
import Verif.Props.Traverse
import Verif.Props.Order

/-!
# C03: substitution commutes with evaluation

The theorems are about the traversal machines run by `subs()` and `rename_variables()` on the
expressions of a heap with arbitrary sharing; `Expr.eval` is evaluation by plain recursion.
-/

set_option linter.unusedSectionVars false

namespace Heyoka.Sym

variable {K : Type} [Field K] [LinearOrder K] [Interp K]

/-- The value of a variable after the substitution: the value of the replacement, or its own value. -/
def substValue (σ : String → Option (Expr K)) (v : Env K) (s : String) : Option K :=
  match σ s with
  | some r => r.eval v
  | none => some (v.var s)

theorem eval_subsLeaf (σ : String → Option (Expr K)) (v : Env K) (s : String) :
    (subsLeaf σ (.var s)).eval v = substValue σ v s := by
  unfold subsLeaf substValue
  cases h : σ s <;> simp [h]

theorem eval_mapNodes_subs (σ : String → Option (Expr K)) (v w : Env K) (e : Expr K)
    (hvar : ∀ s, Expr.Sub (.var s) e → substValue σ v s = some (w.var s))
    (hpar : v.par = w.par) (htime : v.time = w.time) :
    (e.mapNodes (subsLeaf σ) id).eval v = e.eval w := by
  induction e using Expr.ind with
  | num n => simp [Expr.mapNodes, subsLeaf]
  | var s => simp only [Expr.mapNodes, eval_subsLeaf, hvar s .refl, Expr.eval_var]
  | par i => simp [Expr.mapNodes, subsLeaf, hpar]
  | fn f args ih =>
    rw [Expr.mapNodes, Expr.mapNodesL_eq_map]
    exact Expr.eval_fn_congr htime f fun e he => ih e he fun s hs => hvar s (.arg he hs)

theorem eval_mapNodes_subs_none (σ : String → Option (Expr K)) (v : Env K) (e : Expr K) (s : String)
    (hs : Expr.Sub (.var s) e) (hn : substValue σ v s = none) :
    (e.mapNodes (subsLeaf σ) id).eval v = none := by
  induction hs with
  | refl => simp only [Expr.mapNodes, eval_subsLeaf, hn]
  | @arg f args b hb h ih =>
    rw [Expr.mapNodes, Expr.mapNodesL_eq_map, id, Expr.eval_fn, Expr.evalL_none _ ih]
    · rfl
    · exact List.mem_map.2 ⟨b, hb, rfl⟩
    · exact .inr (by cases args <;> simp_all)

/-- C03: substituting and then evaluating at `v` gives the value of the expression at `w`, where `w`
gives to every variable of the expression the value at `v` of its replacement (of the variable
itself, if it is not replaced) and agrees with `v` on parameters and time. -/
theorem subs_eval (σ : String → Option (Expr K)) (h : Heap K) (hv : h.Valid) (roots : List (Ref K))
    (hr : ∀ r ∈ roots, r.Below h.length) :
    ∃ N, ∃ out : List (Expr K),
      (∀ fuel, N ≤ fuel →
        (subsTrav σ).runAll fuel [] [] (roots.map h.unfold) = some (.ok out)) ∧
      List.Forall₂ (fun r e' => ∀ v w : Env K, v.par = w.par → v.time = w.time →
        (∀ s, Expr.Sub (.var s) (h.unfold r).toExpr → substValue σ v s = some (w.var s)) →
        e'.eval v = (h.unfold r).toExpr.eval w) roots out := by
  obtain ⟨N, hN⟩ := transform_nodes_eq_recursion (subsLeaf σ) id h hv roots hr
  refine ⟨N, _, hN, ?_⟩
  rw [List.forall₂_map_right_iff, List.forall₂_same]
  intro r _ v w hp ht hvar
  exact eval_mapNodes_subs σ v w _ hvar hp ht

/-- If the replacement of a variable of the expression has no value at `v`, neither has the result of
the substitution. -/
theorem subs_eval_undefined (σ : String → Option (Expr K)) (h : Heap K) (hv : h.Valid)
    (roots : List (Ref K)) (hr : ∀ r ∈ roots, r.Below h.length) :
    ∃ N, ∃ out : List (Expr K),
      (∀ fuel, N ≤ fuel →
        (subsTrav σ).runAll fuel [] [] (roots.map h.unfold) = some (.ok out)) ∧
      List.Forall₂ (fun r e' => ∀ (v : Env K) (s : String),
        Expr.Sub (.var s) (h.unfold r).toExpr → substValue σ v s = none → e'.eval v = none)
        roots out := by
  obtain ⟨N, hN⟩ := transform_nodes_eq_recursion (subsLeaf σ) id h hv roots hr
  refine ⟨N, _, hN, ?_⟩
  rw [List.forall₂_map_right_iff, List.forall₂_same]
  intro r _ v s hs hn
  exact eval_mapNodes_subs_none σ v _ s hs hn

/-- Nothing but the variables in the map is affected: if no variable of an expression is in the map,
the expression is returned unchanged. -/
theorem subs_untouched (σ : String → Option (Expr K)) (h : Heap K) (hv : h.Valid)
    (roots : List (Ref K)) (hr : ∀ r ∈ roots, r.Below h.length) :
    ∃ N, ∃ out : List (Expr K),
      (∀ fuel, N ≤ fuel →
        (subsTrav σ).runAll fuel [] [] (roots.map h.unfold) = some (.ok out)) ∧
      List.Forall₂ (fun r e' => (∀ s, Expr.Sub (.var s) (h.unfold r).toExpr → σ s = none) →
        e' = (h.unfold r).toExpr) roots out := by
  obtain ⟨N, hN⟩ := transform_nodes_eq_recursion (subsLeaf σ) id h hv roots hr
  refine ⟨N, _, hN, ?_⟩
  rw [List.forall₂_map_right_iff, List.forall₂_same]
  intro r _
  generalize (h.unfold r).toExpr = e
  intro hs
  induction e using Expr.ind with
  | num n => simp [Expr.mapNodes, subsLeaf]
  | var s => simp [Expr.mapNodes, subsLeaf, hs s .refl]
  | par i => simp [Expr.mapNodes, subsLeaf]
  | fn f args ih =>
    rw [Expr.mapNodes, Expr.mapNodesL_eq_map]
    have : args.map (Expr.mapNodes (subsLeaf σ) id) = args.map id :=
      List.map_congr_left fun e he => ih e he fun s h => hs s (.arg he h)
    rw [this]
    simp

/-- C03 for `rename_variables()`: the renamed expression at `v` has the value of the original one at
the assignment giving to every variable the value of the variable it is renamed to. -/
theorem rename_variables_eval (σ : String → Option String) (h : Heap K) (hv : h.Valid)
    (roots : List (Ref K)) (hr : ∀ r ∈ roots, r.Below h.length) :
    ∃ N, ∃ out : List (Expr K),
      (∀ fuel, N ≤ fuel →
        (renameTrav σ).runAll fuel [] [] (roots.map h.unfold) = some (.ok out)) ∧
      List.Forall₂ (fun r e' => ∀ v : Env K,
        e'.eval v = (h.unfold r).toExpr.eval { v with var := fun s => v.var ((σ s).getD s) })
        roots out := by
  obtain ⟨N, hN⟩ := transform_nodes_eq_recursion (renameLeaf σ) id h hv roots hr
  refine ⟨N, _, hN, ?_⟩
  rw [List.forall₂_map_right_iff, List.forall₂_same]
  intro r _ v
  generalize (h.unfold r).toExpr = e
  induction e using Expr.ind with
  | num n => simp [Expr.mapNodes, renameLeaf]
  | var s => cases hs : σ s <;> simp [Expr.mapNodes, renameLeaf, hs]
  | par i => simp [Expr.mapNodes, renameLeaf]
  | fn f args ih =>
    rw [Expr.mapNodes, Expr.mapNodesL_eq_map]
    refine Expr.eval_fn_congr ?_ f ih
    rfl

/-! ### Maps from expressions -/

variable [FmtName K]

/-- `subs()` with a map from expressions is the top-down recursion replacing every largest
subexpression that equals a key. -/
theorem subs_map_eq_recursion (m : List (Expr K × Expr K)) (h : Heap K) (hv : h.Valid)
    (roots : List (Ref K)) (hr : ∀ r ∈ roots, r.Below h.length) :
    ∃ N, ∀ fuel, N ≤ fuel →
      (subsMapTrav (mapFind m)).runAll fuel [] [] (roots.map h.unfold) =
        some (.ok (roots.map fun r => (h.unfold r).toExpr.replace (mapFind m))) := by
  obtain ⟨N, hN⟩ := traversal_eq_recursion (subsMapTrav (mapFind m)) h hv roots hr
  refine ⟨N, fun fuel hf => (hN fuel hf).trans ?_⟩
  congr 1
  clear hN hr
  induction roots with
  | nil => rfl
  | cons r rs ih =>
    rw [List.map_cons, Res.all, subsMapTrav_naive, ih]
    rfl

/-- The lookup in the map: an expression is replaced exactly if it equals (`==`) a key, by the value of
that key. The keys of a map are pairwise different. -/
theorem subs_map_lookup (m : List (Expr K × Expr K))
    (hm : m.Pairwise fun p q => p.1.beq q.1 = false) (e r : Expr K) :
    mapFind m e = some r ↔ ∃ k, (k, r) ∈ m ∧ k.beq e = true := by
  refine ⟨mapFind_some, ?_⟩
  rintro ⟨k, hk, hb⟩
  cases hf : mapFind m e with
  | none => rw [mapFind_none hf _ hk] at hb; cases hb
  | some r' =>
    obtain ⟨k', hk', hb'⟩ := mapFind_some hf
    have heq : ∀ a b : Expr K, a.beq e = true → b.beq e = true → a.beq b = true := by
      intro a b ha hb
      rw [Expr.beq_iff] at *
      have h1 : e.cmp b = .eq := by rw [Expr.cmp_swap, hb]; rfl
      have := Expr.cmp_tc a e b
      rw [ha, h1] at this
      simpa [TC] using this
    by_cases hp : (k, r) = (k', r')
    · cases hp; rfl
    · have hsymm : ∀ p q : Expr K × Expr K, p.1.beq q.1 = false → q.1.beq p.1 = false := by
        intro p q h
        rw [Bool.eq_false_iff] at *
        intro h'
        apply h
        rw [Expr.beq_iff] at *
        rw [Expr.cmp_swap, h']
        rfl
      have : Std.Symm fun p q : Expr K × Expr K => p.1.beq q.1 = false := ⟨hsymm⟩
      have := hm.forall hk hk' hp
      rw [heq k k' hb hb'] at this
      cases this

/-- C03 for maps from expressions: if at `v` every replacement has the same value as its key, the
substitution does not change the value of the expression at `v`. -/
theorem subs_map_eval {P : Fn K → Prop} (hP : NameSound P) (m : List (Expr K × Expr K))
    (hm : ∀ p ∈ m, p.1.FnAll P) (h : Heap K) (hv : h.Valid) (roots : List (Ref K))
    (hr : ∀ r ∈ roots, r.Below h.length) (hP' : ∀ r ∈ roots, (h.unfold r).toExpr.FnAll P) :
    ∃ N, ∃ out : List (Expr K),
      (∀ fuel, N ≤ fuel →
        (subsMapTrav (mapFind m)).runAll fuel [] [] (roots.map h.unfold) = some (.ok out)) ∧
      List.Forall₂ (fun r e' => ∀ v : Env K, (∀ p ∈ m, p.2.eval v = p.1.eval v) →
        e'.eval v = (h.unfold r).toExpr.eval v) roots out := by
  obtain ⟨N, hN⟩ := subs_map_eq_recursion m h hv roots hr
  refine ⟨N, _, hN, ?_⟩
  rw [List.forall₂_map_right_iff, List.forall₂_same]
  intro r hr' v hmv
  have hPr := hP' r hr'
  revert hPr
  generalize (h.unfold r).toExpr = e
  intro hPr
  have key : ∀ (e : Expr K) (d : Expr K), e.FnAll P → d.eval v = e.eval v →
      ((mapFind m e).getD d).eval v = e.eval v := by
    intro e d he hd
    cases hf : mapFind m e with
    | none => simpa using hd
    | some r =>
      obtain ⟨k, hk, hb⟩ := mapFind_some hf
      rw [Option.getD_some, hmv _ hk]
      exact expression_value_of_eq hP v _ _ (hm _ hk) he hb
  induction e using Expr.ind with
  | num n => exact key _ _ (by simp [Expr.FnAll]) rfl
  | var s => exact key _ _ (by simp [Expr.FnAll]) rfl
  | par i => exact key _ _ (by simp [Expr.FnAll]) rfl
  | fn f args ih =>
    rw [Expr.replace, Expr.replaceL_eq_map]
    refine key _ _ hPr ?_
    refine Expr.eval_fn_congr rfl f fun e he => ih e he ?_
    simp only [Expr.FnAll] at hPr
    clear ih
    induction args with
    | nil => simp at he
    | cons a as iha =>
      simp only [Expr.FnAllL] at hPr
      rcases List.mem_cons.1 he with rfl | he
      · exact hPr.2.1
      · exact iha ⟨hPr.1, hPr.2.2⟩ he

/-! ### Concrete cases -/

/-- Replacements are simultaneous: swapping two variables. -/
example : (subsTrav fun s => if s = "x" then some (.var "y") else if s = "y" then some (.var "x")
      else none).runAll 10 [] []
    [(.fn 0 none .sub [.var "x", .var "y"] : Node ℚ)] =
      some (.ok [.fn .sub [.var "y", .var "x"]]) := by with_unfolding_all rfl

/-- The largest matching subexpression is replaced, and replacements are not visited again. -/
example : (subsMapTrav (mapFind [(.fn (.sin false) [.var "x"], .var "x"), (.var "x", .var "z")])).runAll
      20 [] []
    [(.fn 1 none .sum [.fn 0 none (.sin false) [.var "x"], .var "x"] : Node ℚ)] =
      some (.ok [.fn .sum [.var "x", .var "z"]]) := by decide +kernel

end Heyoka.Sym
