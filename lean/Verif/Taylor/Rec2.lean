import Verif.Taylor.Rec
import Verif.Taylor.NodeSpec

/-!
# The recurrences compute the normalised derivatives: functions of several arguments
-/

open Filter Topology Finset

namespace Heyoka.Taylor

open Heyoka.Sym

variable {F : ℕ → ℝ → ℝ} {t0 : ℝ} {rd : ℕ → ℕ → Res (V ℝ)}

/-- A constant argument is finite. -/
def TArg.Fin {K : Type} : TArg K → Prop
  | .cst _ c => c ≠ V.nan
  | .u _ => True

/-- The readings of an argument at the order `o`. -/
def AR (F : ℕ → ℝ → ℝ) (t0 : ℝ) (rd : ℕ → ℕ → Res (V ℝ)) (o : ℕ) : TArg ℝ → Prop
  | .cst _ _ => True
  | .u i => Rd F t0 rd i o

theorem argVal_ok {a : TArg ℝ} (hf : a.Fin) {o : ℕ} (h : AR F t0 rd o a) :
    argVal rd o a = .ok (V.fin (tc (argFn F a) t0 o)) := by
  cases a with
  | u i => exact h
  | cst m c =>
    induction c using V.ind with
    | hn => exact absurd rfl hf
    | hf x =>
      simp only [argVal, argFn, tc_const, V.toOption_fin, Option.getD_some]
      split <;> rfl

theorem argVals_ok {n : ℕ} : ∀ {as : List (TArg ℝ)} (_ : ∀ a ∈ as, a.Fin)
    (_ : ∀ a ∈ as, AR F t0 rd n a),
    argVals rd n as = .ok ((as.map fun a => tc (argFn F a) t0 n).map V.fin)
  | [], _, _ => rfl
  | a :: as, hf, h => by
    rw [argVals, argVal_ok (hf a (by simp)) (h a (by simp)),
      argVals_ok (fun b hb => hf b (by simp [hb])) (fun b hb => h b (by simp [hb]))]
    rfl

theorem mapArgs_ok {g : TArg ℝ → Res (V ℝ)} {G : TArg ℝ → ℝ} : ∀ {as : List (TArg ℝ)}
    (_ : ∀ a ∈ as, g a = .ok (V.fin (G a))), mapArgs g as = .ok ((as.map G).map V.fin)
  | [], _ => rfl
  | a :: as, h => by
    rw [mapArgs, h a (by simp), mapArgs_ok (fun b hb => h b (by simp [hb]))]
    rfl

theorem allSome_map_some {α : Type} (l : List α) : allSome (l.map some) = some l := by
  induction l with
  | nil => rfl
  | cons a l ih => simp [allSome, ih]

/-- The value of a function at finite values. -/
theorem app_fin (f : Fn ℝ) (xs : List ℝ) : app f (xs.map V.fin) = V.ofOption (realApp f xs) := by
  have : (xs.map V.fin).map V.toOption = xs.map some := by simp [Function.comp_def]
  rw [app, this, allSome_map_some]; rfl

theorem app_fin1 (f : Fn ℝ) (x : ℝ) : app f [V.fin x] = V.ofOption (realApp f [x]) := app_fin f [x]
theorem app_fin2 (f : Fn ℝ) (x y : ℝ) : app f [V.fin x, V.fin y] = V.ofOption (realApp f [x, y]) :=
  app_fin f [x, y]
theorem app_fin3 (f : Fn ℝ) (x y z : ℝ) :
    app f [V.fin x, V.fin y, V.fin z] = V.ofOption (realApp f [x, y, z]) := app_fin f [x, y, z]

/-- A function which is constant in a neighbourhood. -/
theorem cstDiff_ok {f : Fn ℝ} {n a : ℕ} {cs : List (V ℝ)} (h0 : app f cs = V.fin (F a t0))
    (hk : 1 ≤ n → tc (F a) t0 n = 0) : cstDiff f n cs = .ok (V.fin (tc (F a) t0 n)) := by
  unfold cstDiff
  split
  · next h => subst h; rw [h0, tc_zero]
  · next h => rw [hk (by omega)]; rfl

section
variable {n a c d : ℕ} {x y : TArg ℝ}

theorem atan2Diff_ok (hfx : x.Fin) (hfy : y.Fin)
    (h0 : realApp .atan2 [argFn F y t0, argFn F x t0] = some (F a t0))
    (hk : x.isCst → y.isCst → 1 ≤ n → tc (F a) t0 n = 0) (hz : F d t0 ≠ 0)
    (hr : 1 ≤ n → cv (F d) (F a) t0 n (n + 1) =
      cv (argFn F x) (argFn F y) t0 n (n + 1) - cv (argFn F y) (argFn F x) t0 n (n + 1))
    (ha : ∀ o < n, Rd F t0 rd a o) (hd : ∀ o < n, Rd F t0 rd d o)
    (hx : ∀ o < n + 1, AR F t0 rd o x) (hy : ∀ o < n + 1, AR F t0 rd o y) :
    atan2Diff rd n a d y x = .ok (V.fin (tc (F a) t0 n)) := by
  cases y with
  | cst my cy =>
    induction cy using V.ind with
    | hn => exact absurd rfl hfy
    | hf yv =>
      cases x with
      | cst mx cx =>
        induction cx using V.ind with
        | hn => exact absurd rfl hfx
        | hf xv =>
          exact cstDiff_ok (by rw [app_fin2]; exact congrArg V.ofOption h0) (hk trivial trivial)
      | u ix =>
        simp only [argFn, V.toOption_fin, Option.getD_some] at h0 hr
        rw [atan2Diff]
        split
        · next h =>
          subst h
          rw [hx 0 (by omega)]
          simp only [Res.bind_eq, Res.bind_ok, Res.pure_eq, tc_zero, app_fin2, h0]; rfl
        · next h =>
          have hn : 1 ≤ n := by omega
          have hnz := nat_ne hn
          have e := hr hn
          rw [hd 0 (by omega), hx n (by omega)]
          simp only [Res.bind_eq, Res.bind_ok, Res.pure_eq, V.nat_def, V.fin_mul, V.fin_neg, tc_zero]
          rw [addSum_ok (G := fun j => -j * (tc (F d) t0 (n - j) * tc (F a) t0 j)) rfl (fun j h1 h2 => by
            rw [hd (n - j) (by omega), ha j h2]; rfl)]
          simp only [Res.bind_ok]
          rw [V.fin_div_of_ne (mul_ne_zero hnz hz)]
          have hs : ∑ j ∈ Ico 1 n, -(j : ℝ) * (tc (F d) t0 (n - j) * tc (F a) t0 j) =
              -cv (F d) (F a) t0 n n := by
            rw [cv, ← sum_neg_distrib]; exact sum_congr rfl fun j _ => by ring
          rw [hs]
          rw [cv_last _ _ _ hn, cv_const_right, cv_const_left _ _ _ hn] at e
          congr 2
          rw [div_eq_iff (mul_ne_zero hnz hz)]; linarith
  | u iy =>
    cases x with
    | cst mx cx =>
      induction cx using V.ind with
      | hn => exact absurd rfl hfx
      | hf xv =>
        simp only [argFn, V.toOption_fin, Option.getD_some] at h0 hr
        rw [atan2Diff]
        split
        · next h =>
          subst h
          rw [hy 0 (by omega)]
          simp only [Res.bind_eq, Res.bind_ok, Res.pure_eq, tc_zero, app_fin2, h0]; rfl
        · next h =>
          have hn : 1 ≤ n := by omega
          have hnz := nat_ne hn
          have e := hr hn
          rw [hd 0 (by omega), hy n (by omega)]
          simp only [Res.bind_eq, Res.bind_ok, Res.pure_eq, V.nat_def, V.fin_mul, V.fin_neg, tc_zero]
          rw [addSum_ok (G := fun j => -j * (tc (F d) t0 (n - j) * tc (F a) t0 j)) rfl (fun j h1 h2 => by
            rw [hd (n - j) (by omega), ha j h2]; rfl)]
          simp only [Res.bind_ok]
          rw [V.fin_div_of_ne (mul_ne_zero hnz hz)]
          have hs : ∑ j ∈ Ico 1 n, -(j : ℝ) * (tc (F d) t0 (n - j) * tc (F a) t0 j) =
              -cv (F d) (F a) t0 n n := by
            rw [cv, ← sum_neg_distrib]; exact sum_congr rfl fun j _ => by ring
          rw [hs]
          rw [cv_last _ _ _ hn, cv_const_right, cv_const_left _ _ _ hn] at e
          congr 2
          rw [div_eq_iff (mul_ne_zero hnz hz)]; linarith
    | u ix =>
      simp only [argFn] at h0 hr
      rw [atan2Diff]
      rw [hx 0 (by omega), hy 0 (by omega)]
      simp only [Res.bind_eq, Res.bind_ok, Res.pure_eq, tc_zero]
      split
      · next h =>
        subst h
        simp only [app_fin2, h0, tc_zero]; rfl
      · next h =>
        have hn : 1 ≤ n := by omega
        have hnz := nat_ne hn
        have e := hr hn
        rw [hd 0 (by omega), hx n (by omega), hy n (by omega)]
        simp only [Res.bind_ok, V.nat_def, V.fin_mul, V.fin_sub, tc_zero]
        rw [addSum_ok (G := fun j => j * (tc (F ix) t0 (n - j) * tc (F iy) t0 j
            - tc (F iy) t0 (n - j) * tc (F ix) t0 j - tc (F d) t0 (n - j) * tc (F a) t0 j)) rfl
          (fun j h1 h2 => by
            rw [hd (n - j) (by omega), ha j h2, hx (n - j) (by omega), hx j (by omega),
              hy (n - j) (by omega), hy j (by omega)]; rfl)]
        simp only [Res.bind_ok]
        rw [V.fin_div_of_ne (mul_ne_zero hnz hz)]
        have hs : ∑ j ∈ Ico 1 n, (j : ℝ) * (tc (F ix) t0 (n - j) * tc (F iy) t0 j
            - tc (F iy) t0 (n - j) * tc (F ix) t0 j - tc (F d) t0 (n - j) * tc (F a) t0 j) =
            cv (F ix) (F iy) t0 n n - cv (F iy) (F ix) t0 n n - cv (F d) (F a) t0 n n := by
          rw [cv, cv, cv, ← sum_sub_distrib, ← sum_sub_distrib]
          exact sum_congr rfl fun j _ => by ring
        rw [hs]
        rw [cv_last _ _ _ hn, cv_last _ _ _ hn, cv_last _ _ _ hn] at e
        congr 2
        rw [div_eq_iff (mul_ne_zero hnz hz)]; linarith

end

section
variable {n a c d : ℕ} {e M : TArg ℝ}

theorem kepEDiff_ok (hfe : e.Fin) (hfM : M.Fin)
    (h0 : realApp .kepE [argFn F e t0, argFn F M t0] = some (F a t0))
    (hk : e.isCst → M.isCst → 1 ≤ n → tc (F a) t0 n = 0) (hz : 1 - F c t0 ≠ 0)
    (hr : 1 ≤ n → n * tc (F a) t0 n - cv (F c) (F a) t0 n (n + 1) =
      n * tc (argFn F M) t0 n + cv (F d) (argFn F e) t0 n (n + 1))
    (ha : ∀ o < n, Rd F t0 rd a o) (hc : ∀ o < n, Rd F t0 rd c o) (hd : ∀ o < n, Rd F t0 rd d o)
    (he : ∀ o < n + 1, AR F t0 rd o e) (hM : ∀ o < n + 1, AR F t0 rd o M) :
    kepEDiff rd n a c d e M = .ok (V.fin (tc (F a) t0 n)) := by
  cases e with
  | cst me ce =>
    induction ce using V.ind with
    | hn => exact absurd rfl hfe
    | hf ev =>
      cases M with
      | cst mM cM =>
        induction cM using V.ind with
        | hn => exact absurd rfl hfM
        | hf Mv =>
          exact cstDiff_ok (by rw [app_fin2]; exact congrArg V.ofOption h0) (hk trivial trivial)
      | u iM =>
        simp only [argFn, V.toOption_fin, Option.getD_some] at h0 hr
        rw [kepEDiff]
        split
        · next h =>
          subst h
          rw [hM 0 (by omega)]
          simp only [Res.bind_eq, Res.bind_ok, Res.pure_eq, tc_zero, app_fin2, h0]; rfl
        · next h =>
          have hn : 1 ≤ n := by omega
          have hnz := nat_ne hn
          have e := hr hn
          rw [hc 0 (by omega), hM n (by omega)]
          simp only [Res.bind_eq, Res.bind_ok, Res.pure_eq, V.nat_def, V.one_def, V.fin_mul, V.fin_sub,
            tc_zero]
          rw [addSum_ok (G := fun j => j * (tc (F c) t0 (n - j) * tc (F a) t0 j)) rfl (fun j h1 h2 => by
            rw [hc (n - j) (by omega), ha j h2]; rfl)]
          simp only [Res.bind_ok]
          rw [V.fin_div_of_ne (mul_ne_zero hnz hz)]
          have hs : ∑ j ∈ Ico 1 n, (j : ℝ) * (tc (F c) t0 (n - j) * tc (F a) t0 j) =
              cv (F c) (F a) t0 n n := rfl
          rw [hs]
          rw [cv_last _ _ _ hn, cv_const_right] at e
          congr 2
          rw [div_eq_iff (mul_ne_zero hnz hz)]; linarith
  | u ie =>
    cases M with
    | cst mM cM =>
      induction cM using V.ind with
      | hn => exact absurd rfl hfM
      | hf Mv =>
        simp only [argFn, V.toOption_fin, Option.getD_some] at h0 hr
        rw [kepEDiff]
        split
        · next h =>
          subst h
          rw [he 0 (by omega)]
          simp only [Res.bind_eq, Res.bind_ok, Res.pure_eq, tc_zero, app_fin2, h0]; rfl
        · next h =>
          have hn : 1 ≤ n := by omega
          have hnz := nat_ne hn
          have e := hr hn
          rw [hc 0 (by omega), he n (by omega), hd 0 (by omega)]
          simp only [Res.bind_eq, Res.bind_ok, Res.pure_eq, V.nat_def, V.one_def, V.fin_mul, V.fin_sub,
            tc_zero]
          rw [addSum_ok (G := fun j => j * (tc (F c) t0 (n - j) * tc (F a) t0 j
              + tc (F d) t0 (n - j) * tc (F ie) t0 j)) rfl (fun j h1 h2 => by
            rw [hc (n - j) (by omega), ha j h2, hd (n - j) (by omega), he j (by omega)]; rfl)]
          simp only [Res.bind_ok]
          rw [V.fin_div_of_ne (mul_ne_zero hnz hz)]
          have hs : ∑ j ∈ Ico 1 n, (j : ℝ) * (tc (F c) t0 (n - j) * tc (F a) t0 j
              + tc (F d) t0 (n - j) * tc (F ie) t0 j) =
              cv (F c) (F a) t0 n n + cv (F d) (F ie) t0 n n := by
            rw [cv, cv, ← sum_add_distrib]; exact sum_congr rfl fun j _ => by ring
          rw [hs]
          rw [cv_last _ _ _ hn, cv_last _ _ _ hn, tc_const, if_neg (by omega)] at e
          congr 2
          rw [div_eq_iff (mul_ne_zero hnz hz)]; linarith
    | u iM =>
      simp only [argFn] at h0 hr
      rw [kepEDiff]
      split
      · next h =>
        subst h
        rw [he 0 (by omega), hM 0 (by omega)]
        simp only [Res.bind_eq, Res.bind_ok, Res.pure_eq, tc_zero, app_fin2, h0]; rfl
      · next h =>
        have hn : 1 ≤ n := by omega
        have hnz := nat_ne hn
        have e := hr hn
        rw [hc 0 (by omega), he n (by omega), hd 0 (by omega), hM n (by omega)]
        simp only [Res.bind_eq, Res.bind_ok, Res.pure_eq, V.nat_def, V.one_def, V.fin_mul, V.fin_sub,
          V.fin_add, tc_zero]
        rw [addSum_ok (G := fun j => j * (tc (F c) t0 (n - j) * tc (F a) t0 j
            + tc (F d) t0 (n - j) * tc (F ie) t0 j)) rfl (fun j h1 h2 => by
          rw [hc (n - j) (by omega), ha j h2, hd (n - j) (by omega), he j (by omega)]; rfl)]
        simp only [Res.bind_ok]
        rw [V.fin_div_of_ne (mul_ne_zero hnz hz)]
        have hs : ∑ j ∈ Ico 1 n, (j : ℝ) * (tc (F c) t0 (n - j) * tc (F a) t0 j
            + tc (F d) t0 (n - j) * tc (F ie) t0 j) =
            cv (F c) (F a) t0 n n + cv (F d) (F ie) t0 n n := by
          rw [cv, cv, ← sum_add_distrib]; exact sum_congr rfl fun j _ => by ring
        rw [hs]
        rw [cv_last _ _ _ hn, cv_last _ _ _ hn] at e
        congr 2
        rw [div_eq_iff (mul_ne_zero hnz hz)]; linarith

end

end Heyoka.Taylor
