import Verif.Expr.Reg
import Verif.Expr.DFunReal

/-!
# The partial derivatives of a function are regular where the function is
-/

set_option linter.unusedSectionVars false
set_option linter.unusedVariables false

namespace Heyoka.Sym

variable [DFunc]

variable {v : Env ℝ}

theorem reg_arg1 {f : Fn ℝ} {a : Expr ℝ} (h : Reg v (.fn f [a])) :
    ∃ x, RV v a x ∧ DiffPt f [⟨True, a.isBool, x⟩] := by
  rw [Reg, RegL_iff] at h
  obtain ⟨h1, vals, h2, h3⟩ := h
  obtain ⟨x, hx⟩ := (h1 a (by simp)).value
  simp only [Expr.evalL_cons, Expr.evalL_nil, hx.2, Option.map_some, Option.bind_some, Option.some.injEq] at h2
  subst h2
  refine ⟨x, hx, ?_⟩
  have hd : argDep f [a] a = True := by
    cases h : a.isNum <;> simp [argDep, h]
  simpa only [List.zipWith_cons_cons, List.zipWith_nil_left, hd] using h3

theorem reg_arg2 {f : Fn ℝ} {a b : Expr ℝ} (h : Reg v (.fn f [a, b])) :
    ∃ x y, RV v a x ∧ RV v b y ∧ DiffPt f [⟨argDep f [a, b] a, a.isBool, x⟩, ⟨argDep f [a, b] b, b.isBool, y⟩] := by
  rw [Reg, RegL_iff] at h
  obtain ⟨h1, vals, h2, h3⟩ := h
  obtain ⟨x, hx⟩ := (h1 a (by simp)).value
  obtain ⟨y, hy⟩ := (h1 b (by simp)).value
  simp only [Expr.evalL_cons, Expr.evalL_nil, hx.2, hy.2, Option.map_some, Option.bind_some,
    Option.some.injEq] at h2
  subst h2
  exact ⟨x, y, hx, hy, h3⟩

theorem reg_arg3 {f : Fn ℝ} {a b c : Expr ℝ} (h : Reg v (.fn f [a, b, c])) :
    ∃ x y z, RV v a x ∧ RV v b y ∧ RV v c z ∧ DiffPt f [⟨argDep f [a, b, c] a, a.isBool, x⟩,
      ⟨argDep f [a, b, c] b, b.isBool, y⟩, ⟨argDep f [a, b, c] c, c.isBool, z⟩] := by
  rw [Reg, RegL_iff] at h
  obtain ⟨h1, vals, h2, h3⟩ := h
  obtain ⟨x, hx⟩ := (h1 a (by simp)).value
  obtain ⟨y, hy⟩ := (h1 b (by simp)).value
  obtain ⟨z, hz⟩ := (h1 c (by simp)).value
  simp only [Expr.evalL_cons, Expr.evalL_nil, hx.2, hy.2, hz.2, Option.map_some, Option.bind_some,
    Option.some.injEq] at h2
  subst h2
  exact ⟨x, y, z, hx, hy, hz, h3⟩

theorem forall₂_const {α β : Type} {P : α → β → Prop} {l : List α} {b : β} (h : ∀ a ∈ l, P a b) :
    List.Forall₂ P l (l.map fun _ => b) := by
  induction l with
  | nil => exact .nil
  | cons a l ih =>
    exact .cons (h a List.mem_cons_self) (ih fun c hc => h c (List.mem_cons_of_mem _ hc))

theorem forall₂_range {α β : Type} {P : α → β → Prop} {l : List α} {g : Nat → β}
    (h : ∀ i (hi : i < l.length), P l[i] (g i)) : List.Forall₂ P l ((List.range l.length).map g) := by
  rw [List.forall₂_iff_get]
  refine ⟨by simp, fun i hi hj => ?_⟩
  simpa using h i hi

/-- Every partial derivative with respect to an argument that is not a number is regular at the regular
points of the function. -/
theorem gradient_reg {f : Fn ℝ} {args gs : List (Expr ℝ)} (hg : gradient f args = .ok gs)
    (h : Reg v (.fn f args)) : List.Forall₂ (fun a g => a.isNum = false → Reg v g) args gs := by
  have d : ∀ x : ℝ, RV v (.dbl x) x := RV.dbl
  unfold gradient at hg
  split at hg
  case h_1 =>
    injection hg with hg; subst hg
    exact forall₂_const fun _ _ _ => (d _).1
  case h_2 =>
    injection hg with hg; subst hg
    rw [Reg, RegL_iff] at h
    exact forall₂_range fun i hi _ => reg_prodE fun a ha => h.1 a (List.mem_of_mem_eraseIdx ha)
  case h_25 =>
    injection hg with hg; subst hg
    exact forall₂_const fun _ _ _ => (d _).1
  case h_26 =>
    injection hg with hg; subst hg
    exact forall₂_const fun _ _ _ => (d _).1
  case h_32 =>
    injection hg with hg; subst hg
    rw [Reg, RegL_iff] at h
    obtain ⟨h1, vals, h2, h3, h4⟩ := h
    refine forall₂_range fun i hi _ => ?_
    rw [Reg, RegL_iff]
    refine ⟨h1, vals, h2, (dfun_bump h3).1, ?_⟩
    simpa [argDep] using h4
  all_goals first | (cases hg; done) | skip
  all_goals
    injection hg with hg; subst hg
  case h_27 => exact .nil
  case h_28 => exact .nil
  case h_3 =>
    rename_i al b e
    obtain ⟨x, y, hx, hy, hd⟩ := reg_arg2 h
    refine .cons (fun hn => ?_) (.cons (fun hn => ?_) .nil)
    · refine (hy.mul (hx.pow (hy.sub (d 1)) ?_)).1
      rcases hd.2 (.inl (.inl hn)) with h1 | ⟨h1, ⟨n, h2⟩, h3⟩
      · exact .inl h1
      · have hen : e.isNum = true := by
          cases he : e.isNum with
          | true => rfl
          | false => exact absurd (.inl he) h1
        dsimp only at h2 h3
        refine .inr ⟨?_, ⟨n - 1, by rw [h2]; push_cast; ring⟩, h3.imp id fun h => by linarith⟩
        obtain ⟨m, rfl⟩ : ∃ m, e = .num m := by cases e <;> simp_all [Expr.isNum]
        rfl
    · have hpos : 0 < x := by
        rcases hd.2 (.inr (.inl hn)) with h1 | ⟨h1, -⟩
        · exact h1
        · exact absurd (.inl hn) h1
      exact ((hx.pow hy (.inl hpos)).mul (hx.unary (f := .log) (by simp) hpos (by simp [realApp, hpos]; rfl))).1
  case h_4 =>
    obtain ⟨x, hx, hd⟩ := reg_arg1 h
    exact .cons (fun _ => (hx.unary (f := .cos _) (by simp) trivial rfl).1) .nil
  case h_5 =>
    obtain ⟨x, hx, hd⟩ := reg_arg1 h
    exact .cons (fun _ => (hx.unary (f := .sin _) (by simp) trivial rfl).neg.1) .nil
  case h_6 =>
    obtain ⟨x, hx, hd⟩ := reg_arg1 h
    exact .cons (fun _ => ((d 1).add (hx.unary (f := .tan) (by simp) hd (if_neg hd)).pow2).1) .nil
  case h_7 =>
    obtain ⟨x, hx, hd⟩ := reg_arg1 h
    obtain ⟨h1, h2⟩ := hd.2 trivial
    dsimp only at h1 h2
    exact .cons (fun _ => (((d 1).sub hx.pow2).pow (d _) (.inl (by nlinarith))).1) .nil
  case h_8 =>
    obtain ⟨x, hx, hd⟩ := reg_arg1 h
    obtain ⟨h1, h2⟩ := hd.2 trivial
    dsimp only at h1 h2
    exact .cons (fun _ => (((d 1).sub hx.pow2).pow (d _) (.inl (by nlinarith))).neg.1) .nil
  case h_9 =>
    obtain ⟨x, hx, hd⟩ := reg_arg1 h
    exact .cons (fun _ => (((d 1).add hx.pow2).powm1 (by positivity)).1) .nil
  case h_10 =>
    obtain ⟨y, x, hy, hx, hd⟩ := reg_arg2 h
    have hne : x ^ 2 + y ^ 2 ≠ 0 := by
      intro h0
      refine hd.1 ⟨?_, ?_⟩ <;> dsimp only <;> nlinarith [sq_nonneg x, sq_nonneg y]
    have hden := (hx.pow2.add hy.pow2).powm1 hne
    exact .cons (fun _ => (hx.mul hden).1) (.cons (fun _ => (hy.neg.mul hden).1) .nil)
  case h_11 =>
    obtain ⟨x, hx, hd⟩ := reg_arg1 h
    exact .cons (fun _ => (hx.unary (f := .cosh) (by simp) trivial rfl).1) .nil
  case h_12 =>
    obtain ⟨x, hx, hd⟩ := reg_arg1 h
    exact .cons (fun _ => (hx.unary (f := .sinh) (by simp) trivial rfl).1) .nil
  case h_13 =>
    obtain ⟨x, hx, hd⟩ := reg_arg1 h
    exact .cons (fun _ => ((d 1).sub (hx.unary (f := .tanh) (by simp) trivial rfl).pow2).1) .nil
  case h_14 =>
    obtain ⟨x, hx, hd⟩ := reg_arg1 h
    exact .cons (fun _ => ((hx.pow2.add (d 1)).pow (d _) (.inl (by positivity))).1) .nil
  case h_15 =>
    obtain ⟨x, hx, hd⟩ := reg_arg1 h
    have h1 := hd.2 trivial
    dsimp only at h1
    exact .cons (fun _ => ((hx.pow2.sub (d 1)).pow (d _) (.inl (by nlinarith))).1) .nil
  case h_16 =>
    obtain ⟨x, hx, hd⟩ := reg_arg1 h
    obtain ⟨h1, h2⟩ := hd
    dsimp only at h1 h2
    exact .cons (fun _ => (((d 1).sub hx.pow2).powm1 (by nlinarith)).1) .nil
  case h_17 =>
    obtain ⟨x, hx, hd⟩ := reg_arg1 h
    have hpi : RV v piE Real.pi := ⟨by rw [piE, Reg, RegL_iff]; exact ⟨by simp, [], by simp, rfl⟩, eval_piE⟩
    have hs := hpi.pow (d (1 / 2)) (.inl Real.pi_pos)
    obtain ⟨z, hz⟩ := ((d 2).div hs (by positivity)).value
    exact .cons (fun _ => (hz.mul (hx.pow2.neg.unary (f := .exp) (by simp) trivial rfl)).1) .nil
  case h_18 =>
    obtain ⟨x, hx, hd⟩ := reg_arg1 h
    exact .cons (fun _ => (hx.unary (f := .exp) (by simp) trivial rfl).1) .nil
  case h_19 =>
    obtain ⟨x, hx, hd⟩ := reg_arg1 h
    exact .cons (fun _ => (hx.powm1 (ne_of_gt hd)).1) .nil
  case h_20 =>
    obtain ⟨x, hx, hd⟩ := reg_arg1 h
    have hs := hx.unary (f := .sigmoid) (by simp) trivial rfl
    exact .cons (fun _ => (((d 1).sub hs).mul hs).1) .nil
  case h_21 =>
    rename_i s a
    obtain ⟨x, hx, hd⟩ := reg_arg1 h
    refine .cons (fun hn => ?_) .nil
    unfold relupE
    split
    · cases hn
    · exact reg_fn1 hx hd
  case h_22 => exact .cons (fun _ => (d _).1) .nil
  case h_23 =>
    rename_i c t e
    obtain ⟨x, y, z, hx, hy, hz, hd⟩ := reg_arg3 h
    have hsel : ∀ p q : ℝ, Reg v (selectE c (.dbl p) (.dbl q)) := by
      intro p q
      rw [selectE, Reg, RegL_iff]
      exact ⟨by simp [hx.1, (d p).1, (d q).1], [x, p, q], by simp [hx.2], fun _ => hd (.inr (.inr rfl))⟩
    exact .cons (fun _ => (d _).1) (.cons (fun hn => hsel _ _) (.cons (fun hn => hsel _ _) .nil))
  case h_24 => exact .cons (fun _ => (d _).1) (.cons (fun _ => (d _).1) .nil)
  case h_29 =>
    rename_i e M
    obtain ⟨x, y, hx, hy, hd⟩ := reg_arg2 h
    have hE : RV v (.fn .kepE [e, M]) (Kepler.red (Kepler.kepSol 0 (-x) y)) := by
      refine ⟨h, ?_⟩
      rw [Expr.eval_fn _ _ _ (by simp)]
      simp only [Expr.evalL_cons, Expr.evalL_nil, hx.2, hy.2, Option.map_some, Option.bind_some, app_def]
      exact if_pos hd.1
    have hs := hE.unary (f := .sin false) (by simp) trivial rfl
    have hc := hE.unary (f := .cos false) (by simp) trivial rfl
    have hden := ((d 1).sub (hx.mul hc)).powm1 (by
      have := kep_den_pos (a := 0) (b := -x) (by have h1 := hd.1; dsimp only at h1; nlinarith [h1.1, h1.2])
        (Kepler.red (Kepler.kepSol 0 (-x) y))
      refine ne_of_gt (this.trans_le (le_of_eq ?_)); ring)
    exact .cons (fun _ => (hs.mul hden).1) (.cons (fun _ => hden.1) .nil)
  case h_30 =>
    rename_i p q M
    obtain ⟨x, y, z, hx, hy, hz, hd⟩ := reg_arg3 h
    have hE : RV v (.fn .kepF [p, q, M]) (Kepler.red (Kepler.kepSol x (-y) z)) := by
      refine ⟨h, ?_⟩
      rw [Expr.eval_fn _ _ _ (by simp)]
      simp only [Expr.evalL_cons, Expr.evalL_nil, hx.2, hy.2, hz.2, Option.map_some, Option.bind_some, app_def]
      exact if_pos hd.1
    have hs := hE.unary (f := .sin false) (by simp) trivial rfl
    have hc := hE.unary (f := .cos false) (by simp) trivial rfl
    have hden := (((d 1).sub (hx.mul hs)).sub (hy.mul hc)).powm1 (by
      have := kep_den_pos (a := x) (b := -y) (by have h1 := hd.1; dsimp only at h1; nlinarith)
        (Kepler.red (Kepler.kepSol x (-y) z))
      refine ne_of_gt (this.trans_le (le_of_eq ?_)); ring)
    exact .cons (fun _ => (hc.neg.mul hden).1) (.cons (fun _ => (hs.mul hden).1) (.cons (fun _ => hden.1) .nil))
  case h_31 =>
    rename_i p q M
    obtain ⟨x, y, z, hx, hy, hz, hd⟩ := reg_arg3 h
    have hE : RV v (.fn .kepDE [p, q, M]) (Kepler.red (Kepler.kepSol (-x) (-y) (z - x))) := by
      refine ⟨h, ?_⟩
      rw [Expr.eval_fn _ _ _ (by simp)]
      simp only [Expr.evalL_cons, Expr.evalL_nil, hx.2, hy.2, hz.2, Option.map_some, Option.bind_some, app_def]
      exact if_pos hd.1
    have hs := hE.unary (f := .sin false) (by simp) trivial rfl
    have hc := hE.unary (f := .cos false) (by simp) trivial rfl
    have hden := (((d 1).add (hx.mul hs)).sub (hy.mul hc)).powm1 (by
      have := kep_den_pos (a := -x) (b := -y) (by have h1 := hd.1; dsimp only at h1; nlinarith)
        (Kepler.red (Kepler.kepSol (-x) (-y) (z - x)))
      refine ne_of_gt (this.trans_le (le_of_eq ?_)); ring)
    exact .cons (fun _ => ((hc.sub (d 1)).mul hden).1) (.cons (fun _ => (hs.mul hden).1) (.cons (fun _ => hden.1) .nil))

end Heyoka.Sym
