import Verif.AD.Node
import Verif.Props.Reg

/-!
# Substitution commutes with the construction of the partial derivatives

Replacing variables by expressions that are not numbers commutes with the constructors of sums,
products, powers and so on, hence with the gradients of the functions.
-/

set_option linter.unusedSectionVars false
set_option linter.unusedSimpArgs false

namespace Heyoka.AD

open Heyoka.Sym

variable [DFunc]

/-- All the variables satisfy `Q`. -/
def VarsIn (Q : String → Prop) (e : Expr ℝ) : Prop := GoodS (fun _ _ => True) Q (fun _ => True) e

theorem closedTrue : GradClosed (fun (_ : Fn ℝ) _ => True) :=
  ⟨fun _ => trivial, fun _ _ => trivial, fun _ => trivial, trivial, trivial, fun _ => trivial, fun _ => trivial, trivial,
    trivial, trivial, fun _ _ => trivial, fun _ _ _ _ _ => trivial⟩

variable {Y : List (Expr ℝ)} {Q : String → Prop}

theorem varsIn_num (n : Num ℝ) : VarsIn Q (.num n) := trivial

theorem varsIn_dbl (x : ℝ) : VarsIn Q (.dbl x) := trivial

/-- The variables are replaced by expressions that are not numbers. -/
def NoNum (Y : List (Expr ℝ)) (Q : String → Prop) : Prop := ∀ s, Q s → (subsAll Y (.var s)).isNum = false

theorem NoNum.num? (h : NoNum Y Q) {e : Expr ℝ} (he : VarsIn Q e) : (subsAll Y e).num? = e.num? := by
  cases e with
  | num n => rfl
  | par i => rfl
  | var s => rw [isNum_false_num? (h s he)]; rfl
  | fn f args => rw [subsAll_fn]; rfl

theorem NoNum.isNum (h : NoNum Y Q) {e : Expr ℝ} (he : VarsIn Q e) : (subsAll Y e).isNum = e.isNum := by
  cases e with
  | num n => rfl
  | par i => rfl
  | var s => rw [h s he]; rfl
  | fn f args => rw [subsAll_fn]; rfl

theorem NoNum.filterMap (h : NoNum Y Q) {es : List (Expr ℝ)} (he : ∀ e ∈ es, VarsIn Q e) :
    (es.map (subsAll Y)).filterMap (·.num?) = es.filterMap (·.num?) := by
  rw [List.filterMap_map]
  exact List.filterMap_congr fun e hm => h.num? (he e hm)

theorem NoNum.filter (h : NoNum Y Q) (p : Bool → Bool) {es : List (Expr ℝ)} (he : ∀ e ∈ es, VarsIn Q e) :
    (es.map (subsAll Y)).filter (fun e => p e.isNum) = (es.filter fun e => p e.isNum).map (subsAll Y) := by
  rw [List.filter_map]
  congr 1
  refine List.filter_congr fun e hm => ?_
  rw [Function.comp_apply, h.isNum (he e hm)]

theorem NoNum.sumFinish (h : NoNum Y Q) {es : List (Expr ℝ)} (he : ∀ e ∈ es, VarsIn Q e) :
    subsAll Y (sumFinish es) = sumFinish (es.map (subsAll Y)) := by
  unfold Sym.sumFinish
  rcases es with _ | ⟨a, _ | ⟨b, es⟩⟩
  · rfl
  · rfl
  · rw [subsAll_fn, List.map_append, ← h.filter (fun b => b) he, ← h.filter (fun b => !b) he]
    rfl

theorem NoNum.negation (h : NoNum Y Q) {es : List (Expr ℝ)} (he : ∀ e ∈ es, VarsIn Q e) :
    prodIsNegation (es.map (subsAll Y)) = prodIsNegation es := by
  rcases es with _ | ⟨a, _ | ⟨b, es⟩⟩
  · rfl
  · cases hs : subsAll Y a <;> cases a <;> simp [prodIsNegation]
  · have ha := h.num? (he a (by simp))
    cases a with
    | num n => rfl
    | _ =>
      rw [List.map_cons, List.map_cons]
      unfold prodIsNegation
      split
      · rename_i heq
        injection heq with h1 h2
        rw [h1] at ha
        cases ha
      · rfl

theorem NoNum.prodFinish (h : NoNum Y Q) {es : List (Expr ℝ)} (he : ∀ e ∈ es, VarsIn Q e) :
    subsAll Y (prodFinish es) = prodFinish (es.map (subsAll Y)) := by
  have h2 : ∀ e ∈ es.filter (·.isNum) ++ es.filter (!·.isNum), VarsIn Q e := by
    intro e hm
    rcases List.mem_append.1 hm with hm | hm <;> exact he e (List.mem_filter.1 hm).1
  unfold Sym.prodFinish
  rcases es with _ | ⟨a, _ | ⟨b, es⟩⟩
  · rfl
  · rfl
  · rw [mkProd, subsAll_fn, ← h.negation h2, List.map_append, ← h.filter (fun b => b) he, ← h.filter (fun b => !b) he]
    rfl

theorem NoNum.sumE (h : NoNum Y Q) {es : List (Expr ℝ)} (he : ∀ e ∈ es, VarsIn Q e) :
    subsAll Y (sumE es) = sumE (es.map (subsAll Y)) := by
  have hnn : ∀ a ∈ es.filter (!·.isNum), VarsIn Q a := fun a ha => he a (List.mem_filter.1 ha).1
  have hf := h.filter (fun b => !b) he
  unfold Sym.sumE
  rw [h.filterMap he, hf]
  cases es.filterMap (·.num?) with
  | nil => exact h.sumFinish hnn
  | cons n ns =>
    dsimp only
    rw [List.isEmpty_map]
    split_ifs
    · rfl
    · exact h.sumFinish hnn
    · rw [h.sumFinish fun a ha => ?_, List.map_append]
      · rfl
      · rcases List.mem_append.1 ha with ha | ha
        · exact hnn a ha
        · rw [List.mem_singleton] at ha; subst ha; trivial

theorem NoNum.prodE (h : NoNum Y Q) {es : List (Expr ℝ)} (he : ∀ e ∈ es, VarsIn Q e) :
    subsAll Y (prodE es) = prodE (es.map (subsAll Y)) := by
  have hnn : ∀ a ∈ es.filter (!·.isNum), VarsIn Q a := fun a ha => he a (List.mem_filter.1 ha).1
  have hf := h.filter (fun b => !b) he
  unfold Sym.prodE
  rw [h.filterMap he, hf]
  cases es.filterMap (·.num?) with
  | nil => exact h.prodFinish hnn
  | cons n ns =>
    dsimp only
    rw [List.isEmpty_map]
    split_ifs
    · rfl
    · exact h.prodFinish hnn
    · rfl
    · rw [h.prodFinish fun a ha => ?_, List.map_append]
      · rfl
      · rcases List.mem_append.1 ha with ha | ha
        · exact hnn a ha
        · rw [List.mem_singleton] at ha; subst ha; trivial

theorem NoNum.num_or (h : NoNum Y Q) {e : Expr ℝ} (he : VarsIn Q e) :
    (∃ n, e = .num n) ∨ ((∀ n, e ≠ .num n) ∧ ∀ n, subsAll Y e ≠ .num n) := by
  by_cases hn : ∃ n, e = .num n
  · exact .inl hn
  · refine .inr ⟨fun n hc => hn ⟨n, hc⟩, fun n hc => ?_⟩
    have := h.num? he
    rw [hc] at this
    cases e with
    | num m => exact hn ⟨m, rfl⟩
    | _ => cases this

theorem NoNum.addE (h : NoNum Y Q) {a b : Expr ℝ} (ha : VarsIn Q a) (hb : VarsIn Q b) :
    subsAll Y (addE a b) = addE (subsAll Y a) (subsAll Y b) := by
  rcases h.num_or ha with ⟨n, rfl⟩ | ⟨h1, h2⟩
  · rcases h.num_or hb with ⟨m, rfl⟩ | ⟨h3, h4⟩
    · rfl
    · rw [Sym.addE, Sym.addE, h.sumE (pair_goodS ha hb)]
      · rfl
      · exact fun _ m _ => h4 m
      · exact fun _ m _ => h3 m
  · rw [Sym.addE, Sym.addE, h.sumE (pair_goodS ha hb)]
    · rfl
    · exact fun n _ hc _ => h2 n hc
    · exact fun n _ hc _ => h1 n hc

theorem NoNum.mulE (h : NoNum Y Q) {a b : Expr ℝ} (ha : VarsIn Q a) (hb : VarsIn Q b) :
    subsAll Y (mulE a b) = mulE (subsAll Y a) (subsAll Y b) := by
  rcases h.num_or ha with ⟨n, rfl⟩ | ⟨h1, h2⟩
  · rcases h.num_or hb with ⟨m, rfl⟩ | ⟨h3, h4⟩
    · rfl
    · rw [Sym.mulE, Sym.mulE, h.prodE (pair_goodS ha hb)]
      · rfl
      · exact fun _ m _ => h4 m
      · exact fun _ m _ => h3 m
  · rw [Sym.mulE, Sym.mulE, h.prodE (pair_goodS ha hb)]
    · rfl
    · exact fun n _ hc _ => h2 n hc
    · exact fun n _ hc _ => h1 n hc

theorem NoNum.negE (h : NoNum Y Q) {a : Expr ℝ} (ha : VarsIn Q a) :
    subsAll Y (negE a) = negE (subsAll Y a) := by
  rcases h.num_or ha with ⟨n, rfl⟩ | ⟨h1, h2⟩
  · rfl
  · rw [Sym.negE, Sym.negE, h.prodE (pair_goodS (varsIn_dbl _) ha)]
    · rfl
    · exact h2
    · exact h1

theorem NoNum.subE (h : NoNum Y Q) {a b : Expr ℝ} (ha : VarsIn Q a) (hb : VarsIn Q b) :
    subsAll Y (subE a b) = subE (subsAll Y a) (subsAll Y b) := by
  rcases h.num_or ha with ⟨n, rfl⟩ | ⟨h1, h2⟩
  · rcases h.num_or hb with ⟨m, rfl⟩ | ⟨h3, h4⟩
    · rfl
    · rw [Sym.subE, Sym.subE, h.addE ha (negE_goodS closedTrue hb), h.negE hb]
      · exact fun _ m _ => h4 m
      · exact fun _ m _ => h3 m
  · rw [Sym.subE, Sym.subE, h.addE ha (negE_goodS closedTrue hb), h.negE hb]
    · exact fun n _ hc _ => h2 n hc
    · exact fun n _ hc _ => h1 n hc

theorem exIsIntegral_nn {e : Expr ℝ} (h : ∀ n, e ≠ .num n) : exIsIntegral e = none ∧ exIsOddIntegralHalf e = none := by
  cases e with
  | num n => exact absurd rfl (h n)
  | _ => exact ⟨rfl, rfl⟩

theorem NoNum.mkPow (h : NoNum Y Q) {b e : Expr ℝ} (he : VarsIn Q e) :
    subsAll Y (mkPow b e) = mkPow (subsAll Y b) (subsAll Y e) := by
  rw [Sym.mkPow, subsAll_fn, Sym.mkPow]
  rcases h.num_or he with ⟨m, rfl⟩ | ⟨h3, h4⟩
  · rfl
  · obtain ⟨a1, a2⟩ := exIsIntegral_nn h3
    obtain ⟨b1, b2⟩ := exIsIntegral_nn h4
    have : powAlgo (subsAll Y e) = powAlgo e := by
      unfold powAlgo
      simp only [a1, a2, b1, b2]
    rw [this]
    rfl

theorem powE_nn {b e : Expr ℝ} (h : ∀ n, e ≠ .num n) : powE b e = mkPow b e := by
  unfold powE
  split
  · exact absurd rfl (h _)
  · exact absurd rfl (h _)
  · rfl

theorem NoNum.powE (h : NoNum Y Q) {b e : Expr ℝ} (hb : VarsIn Q b) (he : VarsIn Q e) :
    subsAll Y (powE b e) = powE (subsAll Y b) (subsAll Y e) := by
  rcases h.num_or he with ⟨m, rfl⟩ | ⟨h3, h4⟩
  · have key : ∀ c : Expr ℝ, (∀ n, c ≠ .num n) →
        Sym.powE c (.num m) = if m.isZero then .dbl 1 else if m.isOne then c else Sym.mkPow c (.num m) := by
      intro c hc
      cases c with
      | num n => exact absurd rfl (hc n)
      | _ => rfl
    rcases h.num_or hb with ⟨n, rfl⟩ | ⟨h1, h2⟩
    · rfl
    · rw [key b h1, subsAll_num, key _ h2]
      split_ifs
      · rfl
      · rfl
      · exact h.mkPow he
  · rw [powE_nn h3, powE_nn h4]
    exact h.mkPow he

theorem NoNum.divE (h : NoNum Y Q) {a b : Expr ℝ} (ha : VarsIn Q a) (hb : VarsIn Q b) :
    subsAll Y (divE a b) = divE (subsAll Y a) (subsAll Y b) := by
  rcases h.num_or ha with ⟨n, rfl⟩ | ⟨h1, h2⟩
  · rcases h.num_or hb with ⟨m, rfl⟩ | ⟨h3, h4⟩
    · rfl
    · rw [Sym.divE, Sym.divE, h.prodE (pair_goodS ha (powE_goodS closedTrue hb (varsIn_dbl _))), List.map_cons, List.map_cons,
        h.powE hb (varsIn_dbl _)]
      · rfl
      · exact fun _ m _ => h4 m
      · exact fun _ m _ => h3 m
  · rw [Sym.divE, Sym.divE, h.prodE (pair_goodS ha (powE_goodS closedTrue hb (varsIn_dbl _))), List.map_cons, List.map_cons,
        h.powE hb (varsIn_dbl _)]
    · rfl
    · exact fun n _ hc _ => h2 n hc
    · exact fun n _ hc _ => h1 n hc

theorem NoNum.unaryE (h : NoNum Y Q) (f : Fn ℝ) {a : Expr ℝ} (ha : VarsIn Q a) :
    subsAll Y (unaryE f a) = unaryE f (subsAll Y a) := by
  rcases h.num_or ha with ⟨n, rfl⟩ | ⟨h1, h2⟩
  · rfl
  · rw [Sym.unaryE, Sym.unaryE, subsAll_fn]
    · rfl
    · exact h2
    · exact h1

theorem NoNum.relupE (h : NoNum Y Q) (s : ℝ) {a : Expr ℝ} (ha : VarsIn Q a) :
    subsAll Y (relupE s a) = relupE s (subsAll Y a) := by
  rcases h.num_or ha with ⟨n, rfl⟩ | ⟨h1, h2⟩
  · rfl
  · rw [Sym.relupE, Sym.relupE, subsAll_fn]
    · rfl
    · exact h2
    · exact h1

theorem subsAll_dbl (x : ℝ) : subsAll Y (.dbl x) = .dbl x := rfl

/-- The gradient of a function of the substituted arguments. -/
theorem NoNum.gradient (h : NoNum Y Q) {f : Fn ℝ} {args gs : List (Expr ℝ)} (hg : gradient f args = .ok gs)
    (ha : ∀ a ∈ args, VarsIn Q a) : gradient f (args.map (subsAll Y)) = .ok (gs.map (subsAll Y)) := by
  have d : ∀ x : ℝ, VarsIn Q (.dbl x) := fun _ => trivial
  have c1 : ∀ {a b : Expr ℝ}, VarsIn Q a → VarsIn Q b → VarsIn Q (Sym.powE a b) := powE_goodS closedTrue
  have c2 : ∀ {a b : Expr ℝ}, VarsIn Q a → VarsIn Q b → VarsIn Q (Sym.mulE a b) := mulE_goodS closedTrue
  have c3 : ∀ {a b : Expr ℝ}, VarsIn Q a → VarsIn Q b → VarsIn Q (Sym.addE a b) := addE_goodS closedTrue
  have c4 : ∀ {a b : Expr ℝ}, VarsIn Q a → VarsIn Q b → VarsIn Q (Sym.subE a b) := subE_goodS closedTrue
  have c5 : ∀ {a b : Expr ℝ}, VarsIn Q a → VarsIn Q b → VarsIn Q (Sym.divE a b) := divE_goodS closedTrue
  have c6 : ∀ {a : Expr ℝ}, VarsIn Q a → VarsIn Q (Sym.negE a) := negE_goodS closedTrue
  have c7 : ∀ {f : Fn ℝ} {a : Expr ℝ}, VarsIn Q a → VarsIn Q (Sym.unaryE f a) := unaryE_goodS trivial
  have c8 : VarsIn Q piE := goodS_fn.2 ⟨trivial, by simp⟩
  have hpi : subsAll Y piE = piE := by rw [piE, subsAll_fn]; rfl
  unfold Sym.gradient at hg
  split at hg
  case h_1 =>
    injection hg with hg; subst hg
    simp [Sym.gradient, Function.comp_def, subsAll_dbl]
  case h_2 =>
    injection hg with hg; subst hg
    rw [Sym.gradient, prodGradient, prodGradient, List.length_map, List.map_map]
    congr 1
    refine List.map_congr_left fun i _ => ?_
    rw [Function.comp_apply, h.prodE fun a hm => ha a (List.mem_of_mem_eraseIdx hm), List.eraseIdx_map]
  case h_25 =>
    injection hg with hg; subst hg
    simp [Sym.gradient, Function.comp_def, subsAll_dbl]
  case h_26 =>
    injection hg with hg; subst hg
    simp [Sym.gradient, Function.comp_def, subsAll_dbl]
  case h_32 =>
    injection hg with hg; subst hg
    simp [Sym.gradient, Function.comp_def, subsAll_fn]
  all_goals first | (cases hg; done) | skip
  all_goals
    injection hg with hg; subst hg
    simp only [List.mem_cons, List.not_mem_nil, or_false, forall_eq_or_imp, forall_eq, IsEmpty.forall_iff,
      implies_true] at ha
    simp only [List.map_cons, List.map_nil, Sym.gradient, sqrtE]
  case h_29 =>
    rename_i e M
    have hE : VarsIn Q (.fn .kepE [e, M]) := goodS_fn.2 ⟨trivial, by simpa [VarsIn] using ha⟩
    simp (maxDischargeDepth := 12) only [h.mulE, h.powE, h.subE, h.unaryE, subsAll_dbl, subsAll_fn, c1, c2, c4, c7, d, ha, hE, List.map_cons, List.map_nil]
  case h_30 =>
    rename_i p q M
    have hE : VarsIn Q (.fn .kepF [p, q, M]) := goodS_fn.2 ⟨trivial, by simpa [VarsIn] using ha⟩
    simp (maxDischargeDepth := 12) only [h.mulE, h.powE, h.subE, h.negE, h.unaryE, subsAll_dbl, subsAll_fn, c1, c2, c4, c6, c7, d, ha, hE, List.map_cons, List.map_nil]
  case h_31 =>
    rename_i p q M
    have hE : VarsIn Q (.fn .kepDE [p, q, M]) := goodS_fn.2 ⟨trivial, by simpa [VarsIn] using ha⟩
    simp (maxDischargeDepth := 12) only [h.mulE, h.powE, h.subE, h.addE, h.unaryE, subsAll_dbl, subsAll_fn, c1, c2, c3, c4, c7, d, ha, hE, List.map_cons, List.map_nil]
  case h_17 =>
    simp (maxDischargeDepth := 12) only [h.mulE, h.powE, h.divE, h.negE, h.unaryE, subsAll_dbl, c1, c2, c5, c6, c7, d, ha, hpi, c8]
  all_goals
    first
      | rfl
      | simp (maxDischargeDepth := 12) only [h.mulE, h.powE, h.subE, h.addE, h.negE, h.unaryE, h.relupE, subsAll_dbl, c1, c2, c3, c4, c6, c7, d, ha]
      | simp only [selectE, subsAll_dbl, subsAll_fn, List.map_cons, List.map_nil]

/-! ### Regular points and the preparation of the expressions -/

variable {v : Env ℝ}

theorem argDep_map {f g : Fn ℝ} (hf : g = .select ↔ f = .select) {t : Expr ℝ → Expr ℝ}
    (ht : ∀ e, (t e).isNum = e.isNum) (args : List (Expr ℝ)) (a : Expr ℝ) :
    argDep g (args.map t) (t a) = argDep f args a := by
  unfold argDep
  rw [ht, hf]
  simp [ht]

theorem nrm_reg (e : Expr ℝ) : Reg v (nrm e) ↔ Reg v e := by
  induction e using Expr.ind with
  | num n =>
    obtain ⟨m, h1, h2⟩ := nrmNum_num n
    rw [nrm, h1, Reg, Reg, h2]
  | var s => exact Iff.rfl
  | par i => exact Iff.rfl
  | fn f args ih =>
    rw [nrm_fn, Reg, Reg, RegL_iff, RegL_iff, nrm_evalL]
    refine and_congr (by simpa using forall₂_congr ih) (exists_congr fun vals => and_congr_right fun _ => ?_)
    rw [DiffPt_norm, List.zipWith_map_left]
    have hs : f.norm = .select ↔ f = .select := by cases f <;> simp [Fn.norm]
    simp only [argDep_map hs nrm_isNum, nrm_isBool]

theorem split2_reg {e : Expr ℝ} (h : Reg v e) : Reg v (split2 e) := by
  induction e using Expr.ind with
  | num n => exact h
  | var n => exact h
  | par n => exact h
  | fn f args ih =>
    rw [split2, Expr.mapNodes, Expr.mapNodesL_eq_map]
    rw [Reg, RegL_iff] at h
    obtain ⟨h1, vals, h2, h3⟩ := h
    have hsm : ∀ a ∈ args.map split2, Reg v a := by
      intro a ha
      obtain ⟨b, hb, rfl⟩ := List.mem_map.1 ha
      exact ih b hb (h1 b hb)
    have hnode : Reg v (.fn f (args.map split2)) := by
      rw [Reg, RegL_iff]
      refine ⟨hsm, vals, evalL_map_keeps (fun e _ => split2_keeps v e) h2, ?_⟩
      rw [List.zipWith_map_left]
      simp only [argDep_map Iff.rfl fun e => (split2_shape (x := .par 0) e).2.1, (split2_shape (x := .par 0) _).1]
      exact h3
    unfold prodSplit
    split
    · rename_i neg as heq
      cases heq
      split_ifs
      · exact hnode
      · exact udfSplit_all (Q := Reg v) (by decide) (fun as _ ha => reg_prod ha) _ hsm
    · exact hnode

end Heyoka.AD
