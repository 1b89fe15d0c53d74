import Verif.AD.Model
import Verif.Expr.DiffSpec
import Verif.Expr.RewriteLemmas
import Verif.Props.Order

/-!
# Expressions up to equality

Two expressions that compare equal may differ in the type of a number or in the parts of a function
symbol that do not enter its name. The differentiability, the value and the dependence on a variable
do not see these differences.
-/

set_option linter.unusedSectionVars false

namespace Heyoka.AD

open Heyoka.Sym

variable [DFunc]

/-- The canonical form of a number: only its value matters. -/
noncomputable def nrmNum (n : Num ℝ) : Expr ℝ :=
  match n.toK? with
  | some x => .dbl x
  | none => .num ⟨.dbl, .nan⟩

mutual
/-- The canonical form of an expression. -/
noncomputable def nrm : Expr ℝ → Expr ℝ
  | .num n => nrmNum n
  | .var s => .var s
  | .par i => .par i
  | .fn f args => .fn f.norm (nrmL args)
/-- The canonical forms of a list of expressions. -/
noncomputable def nrmL : List (Expr ℝ) → List (Expr ℝ)
  | [] => []
  | e :: es => nrm e :: nrmL es
end

theorem nrmL_eq (es : List (Expr ℝ)) : nrmL es = es.map nrm := by
  induction es with
  | nil => rfl
  | cons e es ih => rw [nrmL, ih]; rfl

theorem nrm_fn (f : Fn ℝ) (args : List (Expr ℝ)) : nrm (.fn f args) = .fn f.norm (args.map nrm) := by
  rw [nrm, nrmL_eq]

theorem nrmNum_num (n : Num ℝ) : ∃ m : Num ℝ, nrmNum n = .num m ∧ m.toK? = n.toK? := by
  unfold nrmNum
  cases h : n.toK? with
  | none => exact ⟨_, rfl, rfl⟩
  | some x => exact ⟨_, rfl, rfl⟩

theorem app_norm (f : Fn ℝ) : Interp.app f.norm = Interp.app f := by
  funext xs
  rw [app_def, app_def]
  cases f <;> first | rfl | (unfold Fn.norm realApp; split <;> simp_all)

theorem norm_time {f : Fn ℝ} : f.norm = .time ↔ f = .time := by
  cases f <;> simp [Fn.norm]

theorem nrm_eval (v : Env ℝ) (e : Expr ℝ) : (nrm e).eval v = e.eval v := by
  induction e using Expr.ind with
  | num n =>
    obtain ⟨m, h1, h2⟩ := nrmNum_num n
    rw [nrm, h1, Expr.eval_num, Expr.eval_num, h2]
  | var s => rfl
  | par i => rfl
  | fn f args ih =>
    rw [nrm_fn, ← Expr.eval_fn_congr (v := v) (w := v) rfl f (g := nrm) ih]
    by_cases h : f = .time
    · subst h; rfl
    · rw [Expr.eval_fn _ _ _ (.inl h), Expr.eval_fn _ _ _ (.inl fun hc => h (norm_time.1 hc)), app_norm]

theorem nrm_isNum (e : Expr ℝ) : (nrm e).isNum = e.isNum := by
  cases e with
  | num n => obtain ⟨m, h1, -⟩ := nrmNum_num n; rw [nrm, h1]; rfl
  | _ => rfl

theorem nrm_isBool (e : Expr ℝ) : (nrm e).isBool = e.isBool := by
  cases e with
  | num n => obtain ⟨m, h1, -⟩ := nrmNum_num n; rw [nrm, h1]; rfl
  | var s => rfl
  | par i => rfl
  | fn f args => rw [nrm_fn]; cases f <;> rfl

theorem nrm_occurs (x : DVar) (e : Expr ℝ) : (nrm e).occurs x = e.occurs x := by
  induction e using Expr.ind with
  | num n => obtain ⟨m, h1, -⟩ := nrmNum_num n; rw [nrm, h1]; rfl
  | var s => rfl
  | par i => rfl
  | fn f args ih =>
    rw [nrm_fn, Expr.occurs, Expr.occurs, Expr.occursL_eq_any, Expr.occursL_eq_any, List.any_map]
    induction args with
    | nil => rfl
    | cons a as iha =>
      rw [List.any_cons, List.any_cons, Function.comp_apply, ih a List.mem_cons_self,
        iha fun e he => ih e (List.mem_cons_of_mem _ he)]

theorem DiffPt_norm (f : Fn ℝ) (as : List ArgVal) : DiffPt f.norm as ↔ DiffPt f as := by
  cases f <;> first | exact Iff.rfl | skip
  rcases as with _ | ⟨a, _ | ⟨b, _ | ⟨c, as⟩⟩⟩ <;> exact Iff.rfl

theorem nrm_evalL (v : Env ℝ) (es : List (Expr ℝ)) : Expr.evalL v (es.map nrm) = Expr.evalL v es :=
  Expr.evalL_congr_map fun e _ => nrm_eval v e

theorem nrm_smooth (x : DVar) (v : Env ℝ) (e : Expr ℝ) : Smooth x v (nrm e) ↔ Smooth x v e := by
  induction e using Expr.ind with
  | num n =>
    obtain ⟨m, h1, h2⟩ := nrmNum_num n
    rw [nrm, h1, Smooth, Smooth, h2]
  | var s => exact Iff.rfl
  | par i => exact Iff.rfl
  | fn f args ih =>
    rw [nrm_fn, Smooth, Smooth, SmoothL_iff, SmoothL_iff, nrm_evalL]
    refine and_congr (by simpa using forall₂_congr ih) (exists_congr fun vals => and_congr_right fun _ => ?_)
    rw [DiffPt_norm]
    have : (∀ b ∈ args.map nrm, b.isNum = true) ↔ ∀ b ∈ args, b.isNum = true := by
      simp [nrm_isNum]
    rw [List.zipWith_map_left]
    simp only [nrm_occurs, nrm_isBool, this]

/-- Equality of names determines a function symbol up to the parts not entering the name. -/
def NormSound [FmtName ℝ] (P : Fn ℝ → Prop) : Prop :=
  ∀ f g : Fn ℝ, P f → P g → f.name = g.name → f.norm = g.norm

theorem NormSound.name [FmtName ℝ] {P : Fn ℝ → Prop} (h : NormSound P) : NameSound P := by
  intro f g hf hg hn
  have := h f g hf hg hn
  refine ⟨by rw [← app_norm f, ← app_norm g, this], ?_⟩
  rw [← norm_time, ← norm_time (f := g), this]

theorem nrm_num_of_beq [FmtName ℝ] {n m : Num ℝ} (h : n.beq m = true) : n.toK? = m.toK? := by
  have := Expr.eval_of_beq_aux (K := ℝ) (P := fun _ => False) (fun f _ hf => hf.elim) ⟨fun _ => 0, fun _ => 0, 0⟩
    _ (.num n) (.num m) (le_refl _) trivial trivial (by simpa [Expr.beq] using h)
  simpa using this

theorem nrm_leaf_of_beq [FmtName ℝ] {a b : Expr ℝ} (ha : a.isFn = false) (h : a.beq b = true) : nrm a = nrm b := by
  cases a <;> cases b <;> try (simp [Expr.beq] at h; done)
  · rename_i n m
    have := nrm_num_of_beq (by simpa [Expr.beq] using h : n.beq m = true)
    simp only [nrm, nrmNum, this]
  · simp only [Expr.beq, beq_iff_eq] at h; rw [h]
  · simp only [Expr.beq, beq_iff_eq] at h; rw [h]
  · simp [Expr.isFn] at ha

theorem nrm_leaves_of_beq [FmtName ℝ] : ∀ {as bs : List (Expr ℝ)}, (∀ a ∈ as, a.isFn = false) →
    Expr.beqL as bs = true → as.map nrm = bs.map nrm
  | [], [], _, _ => rfl
  | [], _ :: _, _, h => by simp [Expr.beqL] at h
  | _ :: _, [], _, h => by simp [Expr.beqL] at h
  | a :: as, b :: bs, ha, h => by
    simp only [Expr.beqL, Bool.and_eq_true] at h
    rw [List.map_cons, List.map_cons, nrm_leaf_of_beq (ha a List.mem_cons_self) h.1,
      nrm_leaves_of_beq (fun c hc => ha c (List.mem_cons_of_mem _ hc)) h.2]

/-- Substitution and canonical forms. -/
theorem nrm_subst (σ τ : String → Option (Expr ℝ)) (e : Expr ℝ)
    (h : ∀ s, (subsLeaf σ (.var s) |> nrm) = nrm (subsLeaf τ (.var s))) {e' : Expr ℝ} (he : nrm e = nrm e') :
    nrm (e.mapNodes (subsLeaf σ) id) = nrm (e'.mapNodes (subsLeaf τ) id) := by
  induction e using Expr.ind generalizing e' with
  | num n =>
    obtain ⟨m, h1, -⟩ := nrmNum_num n
    cases e' with
    | num n' => simpa [Expr.mapNodes, subsLeaf] using he
    | var s => rw [nrm, h1, nrm] at he; cases he
    | par s => rw [nrm, h1, nrm] at he; cases he
    | fn f as => rw [nrm, h1, nrm] at he; cases he
  | var s =>
    cases e' with
    | num n' => obtain ⟨m, h1, -⟩ := nrmNum_num n'; rw [nrm, nrm, h1] at he; cases he
    | var s' => simp only [nrm, Expr.var.injEq] at he; subst he; exact h s
    | par s => simp [nrm] at he
    | fn f as => simp [nrm] at he
  | par i =>
    cases e' with
    | num n' => obtain ⟨m, h1, -⟩ := nrmNum_num n'; rw [nrm, nrm, h1] at he; cases he
    | var s' => simp [nrm] at he
    | par s => simpa [Expr.mapNodes, subsLeaf] using he
    | fn f as => simp [nrm] at he
  | fn f args ih =>
    cases e' with
    | num n' => obtain ⟨m, h1, -⟩ := nrmNum_num n'; rw [nrm, nrm, h1] at he; cases he
    | var s' => simp [nrm] at he
    | par s => simp [nrm] at he
    | fn g as =>
      rw [nrm_fn, nrm_fn] at he
      injection he with h1 h2
      rw [Expr.mapNodes, Expr.mapNodes, Expr.mapNodesL_eq_map, Expr.mapNodesL_eq_map]
      simp only [id]
      rw [nrm_fn, nrm_fn, h1]
      congr 1
      rw [List.map_map, List.map_map]
      clear h1
      induction args generalizing as with
      | nil => cases as <;> simp at h2 ⊢
      | cons a l ihl =>
        cases as with
        | nil => simp at h2
        | cons b as =>
          simp only [List.map_cons, List.cons.injEq] at h2 ⊢
          exact ⟨ih a List.mem_cons_self h2.1,
            ihl (fun c hc => ih c (List.mem_cons_of_mem _ hc)) as h2.2⟩

end Heyoka.AD
