import Verif.VarSys.Value
import Verif.VarSys.Ctor
import Verif.Props.Subs
import Verif.Props.OdeSys

/-!
# The substitutions made by the constructor of `var_ode_sys`
-/

set_option linter.unusedSectionVars false

open Filter Topology

namespace Heyoka.Sym

open Heyoka.AD Heyoka.Dtens

/-! ### Expressions without `dfun` -/

/-- The functions of the library (with a gradient, with the right number of arguments) other than `dfun`; the slopes of the
rectifiers are in `H`. -/
def PlainFn (H : ℝ → Prop) (f : Fn ℝ) (k : Nat) : Prop := f.lib H ∧ hasGrad f k

/-- An expression consisting of the functions of the library, without `dfun`. -/
abbrev PlainExpr (H : ℝ → Prop) (e : Expr ℝ) : Prop := GoodS (PlainFn H) (fun _ => True) (fun _ => True) e

theorem lib_ne_dfun {H : ℝ → Prop} {f : Fn ℝ} (h : f.lib H) : ∀ id ix, f ≠ .dfun id ix := by
  rintro id ix rfl
  rcases h with h | h | ⟨t, ht, h | h⟩
  · exact h.elim
  · cases h
  · cases h
  · cases h

theorem realApp_indep (D D' : DFunc) {f : Fn ℝ} (hf : ∀ id ix, f ≠ .dfun id ix) (xs : List ℝ) :
    @realApp D f xs = @realApp D' f xs := by
  unfold realApp
  split <;> first | rfl | exact absurd rfl (hf _ _)

theorem diffPt_indep (D D' : DFunc) {f : Fn ℝ} (hf : ∀ id ix, f ≠ .dfun id ix) (as : List ArgVal) :
    @DiffPt D f as ↔ @DiffPt D' f as := by
  unfold DiffPt
  split <;> first | exact Iff.rfl | exact absurd rfl (hf _ _)

section
variable (D D' : DFunc) {H : ℝ → Prop} {Q : String → Prop} {R : Nat → Prop}

theorem evalL_indep {v w : Env ℝ} {es : List (Expr ℝ)}
    (h : ∀ e ∈ es, @Expr.eval ℝ _ (@realInterp D) v e = @Expr.eval ℝ _ (@realInterp D') w e) :
    @Expr.evalL ℝ _ (@realInterp D) v es = @Expr.evalL ℝ _ (@realInterp D') w es := by
  induction es with
  | nil => simp
  | cons e es ih =>
    rw [@Expr.evalL_cons ℝ _ _ (@realInterp D), @Expr.evalL_cons ℝ _ _ (@realInterp D'), h e List.mem_cons_self, ih fun a ha => h a (List.mem_cons_of_mem _ ha)]

/-- The value of an expression without `dfun` does not depend on the meaning of the implicit functions, nor on the values of
other variables. -/
theorem eval_indep {v w : Env ℝ} (hv : ∀ s, Q s → v.var s = w.var s) (hp : ∀ i, R i → v.par i = w.par i) (ht : v.time = w.time)
    {e : Expr ℝ} (h : GoodS (fun f _ => ∀ id ix, f ≠ .dfun id ix) Q R e) :
    @Expr.eval ℝ _ (@realInterp D) v e = @Expr.eval ℝ _ (@realInterp D') w e := by
  induction e using Expr.ind with
  | num n => simp
  | var s => simpa using hv s h
  | par i => simpa using hp i h
  | fn f args ih =>
    rw [goodS_fn] at h
    have hL := evalL_indep D D' fun a ha => ih a ha (h.2 a ha)
    by_cases hf : f = .time ∧ args = []
    · obtain ⟨rfl, rfl⟩ := hf
      simp [Expr.eval, ht]
    · have hf' : f ≠ .time ∨ args ≠ [] := by
        by_cases h1 : f = .time
        · exact .inr fun h2 => hf ⟨h1, h2⟩
        · exact .inl h1
      rw [@Expr.eval_fn ℝ _ _ (@realInterp D) _ _ _ hf', @Expr.eval_fn ℝ _ _ (@realInterp D') _ _ _ hf', hL]
      congr 1
      funext xs
      exact realApp_indep D D' h.1 xs

theorem PlainExpr.nodfun {e : Expr ℝ} (h : PlainExpr H e) : GoodS (fun f _ => ∀ id ix, f ≠ .dfun id ix) (fun _ => True) (fun _ => True) e :=
  h.mono (fun _ _ h => lib_ne_dfun h.1) (fun _ _ _ => trivial) fun _ _ _ => trivial

theorem reg_fn [DFunc] {v : Env ℝ} {f : Fn ℝ} {args : List (Expr ℝ)} :
    Reg v (.fn f args) ↔ (∀ a ∈ args, Reg v a) ∧ ∃ vals : List ℝ, Expr.evalL v args = some vals ∧
      DiffPt f (List.zipWith (fun a y => ⟨argDep f args a, a.isBool, y⟩) args vals) := by
  rw [Reg, RegL_iff]

theorem reg_indep {v : Env ℝ} {e : Expr ℝ} (h : PlainExpr H e) : @Reg D v e ↔ @Reg D' v e := by
  induction e using Expr.ind with
  | num n => rfl
  | var s => rfl
  | par i => rfl
  | fn f args ih =>
    have h := goodS_fn.1 h
    refine (@reg_fn D v f args).trans (Iff.trans ?_ (@reg_fn D' v f args).symm)
    refine and_congr (forall₂_congr fun a ha => ih a ha (h.2 a ha)) (exists_congr fun vals => ?_)
    rw [evalL_indep D D' (v := v) (w := v) fun a ha => eval_indep D D' (fun _ _ => rfl) (fun _ _ => rfl) rfl (PlainExpr.nodfun (h.2 a ha))]
    exact and_congr_right fun _ => diffPt_indep D D' (lib_ne_dfun h.1.1) _

end

theorem PlainExpr.lib {H : ℝ → Prop} {e : Expr ℝ} (h : PlainExpr H e) : LibExpr H e :=
  h.mono (fun _ _ h => ⟨.inl h.1, h.2⟩) (fun _ _ _ => trivial) fun _ _ _ => trivial

/-! ### The substitution of the state variables -/

theorem goodS_sub_var {K : Type} {S : Fn K → Nat → Prop} {Q : String → Prop} {R : Nat → Prop} {s : String} {e : Expr K}
    (h : Expr.Sub (.var s) e) (he : GoodS S Q R e) : Q s := by
  induction h with
  | refl => exact he
  | arg hb _ ih => exact ih ((goodS_fn.1 he).2 _ hb)

section
variable [DFunc] {v w : Env ℝ} {σ : String → Option (Expr ℝ)} {e : Expr ℝ} {S : Fn ℝ → Nat → Prop} {Q : String → Prop} {R : Nat → Prop}

/-- What is substituted for the variables: functions other than conditions, with the values of the variables. -/
structure SubsReg (σ : String → Option (Expr ℝ)) (Q : String → Prop) (v w : Env ℝ) : Prop where
  some : ∀ s r, σ s = some r → Reg v r ∧ r.eval v = some (w.var s) ∧ r.isNum = false ∧ ¬ r.isBool
  none : ∀ s, Q s → σ s = none → v.var s = w.var s
  par : v.par = w.par
  time : v.time = w.time

theorem SubsReg.eval (h : SubsReg σ Q v w) (he : GoodS S Q R e) : (e.mapNodes (subsLeaf σ) id).eval v = e.eval w := by
  refine eval_mapNodes_subs σ v w e (fun s ho => ?_) h.par h.time
  unfold substValue
  cases hs : σ s with
  | some r => simpa using (h.some s r hs).2.1
  | none => simpa using h.none s (goodS_sub_var ho he) hs

theorem SubsReg.shape (h : SubsReg σ Q v w) (e : Expr ℝ) :
    (e.mapNodes (subsLeaf σ) id).isNum = e.isNum ∧ ((e.mapNodes (subsLeaf σ) id).isBool ↔ e.isBool) := by
  cases e with
  | num n => exact ⟨rfl, Iff.rfl⟩
  | par i => exact ⟨rfl, Iff.rfl⟩
  | fn f args => rw [Expr.mapNodes]; exact ⟨rfl, by cases f <;> exact Iff.rfl⟩
  | var s =>
    rw [Expr.mapNodes, subsLeaf]
    cases hs : σ s with
    | none => exact ⟨rfl, Iff.rfl⟩
    | some r => exact ⟨(h.some s r hs).2.2.1, iff_of_false (h.some s r hs).2.2.2 id⟩

theorem SubsReg.reg (h : SubsReg σ Q v w) (hg : GoodS S Q R e) (he : Reg w e) : Reg v (e.mapNodes (subsLeaf σ) id) := by
  induction e using Expr.ind with
  | num n => exact he
  | par i => trivial
  | var s =>
    rw [Expr.mapNodes, subsLeaf]
    cases hs : σ s with
    | none => trivial
    | some r => exact (h.some s r hs).1
  | fn f args ih =>
    rw [Reg, RegL_iff] at he
    rw [goodS_fn] at hg
    obtain ⟨h1, vals, h2, h3⟩ := he
    rw [Expr.mapNodes, Expr.mapNodesL_eq_map, id, Reg, RegL_iff]
    refine ⟨?_, vals, ?_, ?_⟩
    · intro a ha
      obtain ⟨b, hb, rfl⟩ := List.mem_map.1 ha
      exact ih b hb (hg.2 b hb) (h1 b hb)
    · rw [← h2]
      replace hg := hg.2
      clear h1 h2 h3 ih
      induction args with
      | nil => simp
      | cons a as iha => rw [List.map_cons, Expr.evalL_cons, Expr.evalL_cons, h.eval (hg a List.mem_cons_self),
        iha fun b hb => hg b (List.mem_cons_of_mem _ hb)]
    · rw [List.zipWith_map_left]
      simp only [argDep_map Iff.rfl fun e => (h.shape e).1, (h.shape _).2]
      exact h3

end

/-! ### The arguments -/

section
variable {K : Type} [Field K] [LinearOrder K] [FmtName K]

theorem beq_ofDVar {a : Expr K} {x : DVar} (h : a.beq (ofDVar x) = true) : a = ofDVar x := by
  cases x <;> cases a <;> simp [ofDVar, Expr.beq] at h ⊢
  · exact h
  · exact h

theorem ofDVar_beq {a : Expr K} {x : DVar} (h : (ofDVar x : Expr K).beq a = true) : a = ofDVar x := by
  cases x <;> cases a <;> simp [ofDVar, Expr.beq] at h ⊢
  · exact h.symm
  · exact h.symm

theorem beqL_ofDVar : ∀ {as : List (Expr K)} {xs : List DVar}, Expr.beqL as (xs.map ofDVar) = true → as = xs.map ofDVar
  | [], [], _ => rfl
  | [], _ :: _, h => by simp [Expr.beqL] at h
  | _ :: _, [], h => by simp [Expr.beqL] at h
  | a :: as, x :: xs, h => by
    simp only [List.map_cons, Expr.beqL, Bool.and_eq_true] at h
    rw [beq_ofDVar h.1, beqL_ofDVar h.2]
    rfl

theorem ofDVar_beqL : ∀ {as : List (Expr K)} {xs : List DVar}, Expr.beqL (xs.map ofDVar) as = true → as = xs.map ofDVar
  | [], [], _ => rfl
  | [], _ :: _, h => by simp [Expr.beqL] at h
  | _ :: _, [], h => by simp [Expr.beqL] at h
  | a :: as, x :: xs, h => by
    simp only [List.map_cons, Expr.beqL, Bool.and_eq_true] at h
    rw [ofDVar_beq h.1, ofDVar_beqL h.2]
    rfl

/-- Making the arguments shared does not change an expression. -/
theorem transformSargs_id (args : List DVar) (e : Expr K) : transformSargs (args.map ofDVar) e = e := by
  unfold transformSargs
  induction e using Expr.ind with
  | num n => rfl
  | var n => rfl
  | par n => rfl
  | fn f as ih =>
    rw [Expr.mapNodes, Expr.mapNodesL_eq_map]
    have : as.map (Expr.mapNodes id (sargsFn (args.map ofDVar))) = as := by
      conv_rhs => rw [← List.map_id as]
      exact List.map_congr_left ih
    rw [this]
    unfold sargsFn
    split
    · rename_i id didx bs heq
      cases heq
      split_ifs with h
      · rw [beqL_ofDVar h]
      · rfl
    · rfl

end

/-! ### The names of the state variables -/

section
variable {K : Type}

theorem sysNames_ok {sys : List (Expr K × Expr K)} : ∀ {names : List String}, sysNames sys = .ok names ↔
    sys.map Prod.fst = names.map .var := by
  induction sys with
  | nil => intro names; cases names <;> simp [sysNames]
  | cons p l ih =>
    intro names
    obtain ⟨a, b⟩ := p
    cases a with
    | var s =>
      rw [sysNames]
      cases hl : sysNames l with
      | ok r =>
        have := ih.1 hl
        rw [Res.bind_ok]
        cases names with
        | nil => simp
        | cons t ns =>
          rw [Res.ok.injEq, List.cons.injEq, List.map_cons, List.map_cons, List.cons.injEq, Expr.var.injEq, ← ih, hl, Res.ok.injEq]
      | throw =>
        rw [Res.bind_throw]
        constructor
        · intro h; cases h
        · intro h
          cases names with
          | nil => simp at h
          | cons t ns =>
            rw [List.map_cons, List.map_cons, List.cons.injEq, ← ih, hl] at h
            cases h.2
      | ub =>
        rw [Res.bind_ub]
        constructor
        · intro h; cases h
        · intro h
          cases names with
          | nil => simp at h
          | cons t ns =>
            rw [List.map_cons, List.map_cons, List.cons.injEq, ← ih, hl] at h
            cases h.2
    | _ =>
      constructor
      · intro h; cases h
      · intro h
        cases names with
        | nil => simp at h
        | cons t ns => simp at h

end

end Heyoka.Sym
