import Verif.Taylor.Rec2

/-!
# The recurrence of `kepF` computes the normalised derivatives
-/

set_option linter.unusedSimpArgs false

open Filter Topology Finset

namespace Heyoka.Taylor

open Heyoka.Sym

variable {F : ℕ → ℝ → ℝ} {t0 : ℝ} {rd : ℕ → ℕ → Res (V ℝ)}

section
variable {n a c d e f : ℕ} {h k l : TArg ℝ}

theorem kepFDiff_ok (hfh : h.Fin) (hfk : k.Fin) (hfl : l.Fin)
    (h0 : realApp .kepF [argFn F h t0, argFn F k t0, argFn F l t0] = some (F a t0))
    (hk : h.isCst → k.isCst → l.isCst → 1 ≤ n → tc (F a) t0 n = 0) (hz : 1 - F c t0 - F d t0 ≠ 0)
    (hr : 1 ≤ n → n * tc (F a) t0 n - cv (F c) (F a) t0 n (n + 1) - cv (F d) (F a) t0 n (n + 1) =
      n * tc (argFn F l) t0 n + cv (F e) (argFn F k) t0 n (n + 1)
        - cv (F f) (argFn F h) t0 n (n + 1))
    (ha : ∀ o < n, Rd F t0 rd a o) (hc : ∀ o < n, Rd F t0 rd c o) (hd : ∀ o < n, Rd F t0 rd d o)
    (he : ∀ o < n, Rd F t0 rd e o) (hf : ∀ o < n, Rd F t0 rd f o)
    (hh : ∀ o < n + 1, AR F t0 rd o h) (hkk : ∀ o < n + 1, AR F t0 rd o k)
    (hl : ∀ o < n + 1, AR F t0 rd o l) :
    kepFDiff rd n a c d e f h k l = .ok (V.fin (tc (F a) t0 n)) := by
  cases h with
  | cst mh ch =>
    induction ch using V.ind with
    | hn => exact absurd rfl hfh
    | hf hv =>
      cases k with
      | cst mk ck =>
        induction ck using V.ind with
        | hn => exact absurd rfl hfk
        | hf kv =>
          cases l with
          | cst ml cl =>
            induction cl using V.ind with
            | hn => exact absurd rfl hfl
            | hf lv =>
              exact cstDiff_ok (by rw [app_fin3]; exact congrArg V.ofOption h0) (hk trivial trivial trivial)
          | u il =>
            simp only [argFn, V.toOption_fin, Option.getD_some] at h0 hr
            rw [kepFDiff]
            split
            · next h =>
              subst h
              rw [hl 0 (by omega)]
              simp only [Res.bind_eq, Res.bind_ok, Res.pure_eq, tc_zero, app_fin3, h0]; rfl
            · next h =>
              have hn : 1 ≤ n := by omega
              have hnz := nat_ne hn
              have er := hr hn
              rw [hc 0 (by omega), hd 0 (by omega), hl n (by omega)]
              simp only [Res.bind_eq, Res.bind_ok, Res.pure_eq, V.nat_def, V.one_def, V.fin_mul, V.fin_sub,
                V.fin_add, V.fin_neg, tc_zero]
              rw [addSum_ok (G := fun j => (tc (F c) t0 (n - j) + tc (F d) t0 (n - j)) * (j * tc (F a) t0 j)) rfl (fun j h1 h2 => by
                rw [hc (n - j) (by omega), hd (n - j) (by omega), ha j h2]; rfl)]
              simp only [Res.bind_ok]
              rw [V.fin_div_of_ne (mul_ne_zero hnz hz)]
              have hs : ∑ j ∈ Ico 1 n, (tc (F c) t0 (n - j) + tc (F d) t0 (n - j)) * ((j : ℝ) * tc (F a) t0 j) =
                  cv (F c) (F a) t0 n n + cv (F d) (F a) t0 n n := by
                rw [cv, cv, ← sum_add_distrib]; exact sum_congr rfl fun j _ => by ring
              rw [hs]
              rw [cv_last (F c) _ _ hn, cv_last (F d) _ _ hn, cv_const_right _ (F e), cv_const_right _ (F f)] at er
              congr 2
              rw [div_eq_iff (mul_ne_zero hnz hz)]; linarith
      | u ik =>
        cases l with
        | cst ml cl =>
          induction cl using V.ind with
          | hn => exact absurd rfl hfl
          | hf lv =>
            simp only [argFn, V.toOption_fin, Option.getD_some] at h0 hr
            rw [kepFDiff]
            split
            · next h =>
              subst h
              rw [hkk 0 (by omega)]
              simp only [Res.bind_eq, Res.bind_ok, Res.pure_eq, tc_zero, app_fin3, h0]; rfl
            · next h =>
              have hn : 1 ≤ n := by omega
              have hnz := nat_ne hn
              have er := hr hn
              rw [hc 0 (by omega), hd 0 (by omega), hkk n (by omega), he 0 (by omega)]
              simp only [Res.bind_eq, Res.bind_ok, Res.pure_eq, V.nat_def, V.one_def, V.fin_mul, V.fin_sub,
                V.fin_add, V.fin_neg, tc_zero]
              rw [addSum_ok (G := fun j => j * (tc (F a) t0 j * (tc (F c) t0 (n - j) + tc (F d) t0 (n - j)) + tc (F ik) t0 j * tc (F e) t0 (n - j))) rfl (fun j h1 h2 => by
                rw [hc (n - j) (by omega), hd (n - j) (by omega), ha j h2, he (n - j) (by omega), hkk j (by omega)]; rfl)]
              simp only [Res.bind_ok]
              rw [V.fin_div_of_ne (mul_ne_zero hnz hz)]
              have hs : ∑ j ∈ Ico 1 n, (j : ℝ) * (tc (F a) t0 j * (tc (F c) t0 (n - j) + tc (F d) t0 (n - j)) + tc (F ik) t0 j * tc (F e) t0 (n - j)) =
                  cv (F c) (F a) t0 n n + cv (F d) (F a) t0 n n + cv (F e) (F ik) t0 n n := by
                rw [cv, cv, cv, ← sum_add_distrib, ← sum_add_distrib]; exact sum_congr rfl fun j _ => by ring
              rw [hs]
              rw [cv_last (F c) _ _ hn, cv_last (F d) _ _ hn, cv_last (F e) _ _ hn, cv_const_right _ (F f), tc_const, if_neg (by omega)] at er
              congr 2
              rw [div_eq_iff (mul_ne_zero hnz hz)]; linarith
        | u il =>
          simp only [argFn, V.toOption_fin, Option.getD_some] at h0 hr
          rw [kepFDiff]
          split
          · next h =>
            subst h
            rw [hkk 0 (by omega), hl 0 (by omega)]
            simp only [Res.bind_eq, Res.bind_ok, Res.pure_eq, tc_zero, app_fin3, h0]; rfl
          · next h =>
            have hn : 1 ≤ n := by omega
            have hnz := nat_ne hn
            have er := hr hn
            rw [hc 0 (by omega), hd 0 (by omega), hkk n (by omega), he 0 (by omega), hl n (by omega)]
            simp only [Res.bind_eq, Res.bind_ok, Res.pure_eq, V.nat_def, V.one_def, V.fin_mul, V.fin_sub,
              V.fin_add, V.fin_neg, tc_zero]
            rw [addSum_ok (G := fun j => j * (tc (F a) t0 j * (tc (F c) t0 (n - j) + tc (F d) t0 (n - j)) + tc (F ik) t0 j * tc (F e) t0 (n - j))) rfl (fun j h1 h2 => by
              rw [hc (n - j) (by omega), hd (n - j) (by omega), ha j h2, he (n - j) (by omega), hkk j (by omega)]; rfl)]
            simp only [Res.bind_ok]
            rw [V.fin_div_of_ne (mul_ne_zero hnz hz)]
            have hs : ∑ j ∈ Ico 1 n, (j : ℝ) * (tc (F a) t0 j * (tc (F c) t0 (n - j) + tc (F d) t0 (n - j)) + tc (F ik) t0 j * tc (F e) t0 (n - j)) =
                cv (F c) (F a) t0 n n + cv (F d) (F a) t0 n n + cv (F e) (F ik) t0 n n := by
              rw [cv, cv, cv, ← sum_add_distrib, ← sum_add_distrib]; exact sum_congr rfl fun j _ => by ring
            rw [hs]
            rw [cv_last (F c) _ _ hn, cv_last (F d) _ _ hn, cv_last (F e) _ _ hn, cv_const_right _ (F f)] at er
            congr 2
            rw [div_eq_iff (mul_ne_zero hnz hz)]; linarith
  | u ih =>
    cases k with
    | cst mk ck =>
      induction ck using V.ind with
      | hn => exact absurd rfl hfk
      | hf kv =>
        cases l with
        | cst ml cl =>
          induction cl using V.ind with
          | hn => exact absurd rfl hfl
          | hf lv =>
            simp only [argFn, V.toOption_fin, Option.getD_some] at h0 hr
            rw [kepFDiff]
            split
            · next h =>
              subst h
              rw [hh 0 (by omega)]
              simp only [Res.bind_eq, Res.bind_ok, Res.pure_eq, tc_zero, app_fin3, h0]; rfl
            · next h =>
              have hn : 1 ≤ n := by omega
              have hnz := nat_ne hn
              have er := hr hn
              rw [hc 0 (by omega), hd 0 (by omega), hh n (by omega), hf 0 (by omega)]
              simp only [Res.bind_eq, Res.bind_ok, Res.pure_eq, V.nat_def, V.one_def, V.fin_mul, V.fin_sub,
                V.fin_add, V.fin_neg, tc_zero]
              rw [addSum_ok (G := fun j => j * (tc (F a) t0 j * (tc (F c) t0 (n - j) + tc (F d) t0 (n - j)) - tc (F ih) t0 j * tc (F f) t0 (n - j))) rfl (fun j h1 h2 => by
                rw [hc (n - j) (by omega), hd (n - j) (by omega), ha j h2, hf (n - j) (by omega), hh j (by omega)]; rfl)]
              simp only [Res.bind_ok]
              rw [V.fin_div_of_ne (mul_ne_zero hnz hz)]
              have hs : ∑ j ∈ Ico 1 n, (j : ℝ) * (tc (F a) t0 j * (tc (F c) t0 (n - j) + tc (F d) t0 (n - j)) - tc (F ih) t0 j * tc (F f) t0 (n - j)) =
                  cv (F c) (F a) t0 n n + cv (F d) (F a) t0 n n - cv (F f) (F ih) t0 n n := by
                rw [cv, cv, cv, ← sum_add_distrib, ← sum_sub_distrib]; exact sum_congr rfl fun j _ => by ring
              rw [hs]
              rw [cv_last (F c) _ _ hn, cv_last (F d) _ _ hn, cv_const_right _ (F e), cv_last (F f) _ _ hn, tc_const, if_neg (by omega)] at er
              congr 2
              rw [div_eq_iff (mul_ne_zero hnz hz)]; linarith
        | u il =>
          simp only [argFn, V.toOption_fin, Option.getD_some] at h0 hr
          rw [kepFDiff]
          split
          · next h =>
            subst h
            rw [hh 0 (by omega), hl 0 (by omega)]
            simp only [Res.bind_eq, Res.bind_ok, Res.pure_eq, tc_zero, app_fin3, h0]; rfl
          · next h =>
            have hn : 1 ≤ n := by omega
            have hnz := nat_ne hn
            have er := hr hn
            rw [hc 0 (by omega), hd 0 (by omega), hh n (by omega), hf 0 (by omega), hl n (by omega)]
            simp only [Res.bind_eq, Res.bind_ok, Res.pure_eq, V.nat_def, V.one_def, V.fin_mul, V.fin_sub,
              V.fin_add, V.fin_neg, tc_zero]
            rw [addSum_ok (G := fun j => j * (tc (F a) t0 j * (tc (F c) t0 (n - j) + tc (F d) t0 (n - j)) - tc (F ih) t0 j * tc (F f) t0 (n - j))) rfl (fun j h1 h2 => by
              rw [hc (n - j) (by omega), hd (n - j) (by omega), ha j h2, hf (n - j) (by omega), hh j (by omega)]; rfl)]
            simp only [Res.bind_ok]
            rw [V.fin_div_of_ne (mul_ne_zero hnz hz)]
            have hs : ∑ j ∈ Ico 1 n, (j : ℝ) * (tc (F a) t0 j * (tc (F c) t0 (n - j) + tc (F d) t0 (n - j)) - tc (F ih) t0 j * tc (F f) t0 (n - j)) =
                cv (F c) (F a) t0 n n + cv (F d) (F a) t0 n n - cv (F f) (F ih) t0 n n := by
              rw [cv, cv, cv, ← sum_add_distrib, ← sum_sub_distrib]; exact sum_congr rfl fun j _ => by ring
            rw [hs]
            rw [cv_last (F c) _ _ hn, cv_last (F d) _ _ hn, cv_const_right _ (F e), cv_last (F f) _ _ hn] at er
            congr 2
            rw [div_eq_iff (mul_ne_zero hnz hz)]; linarith
    | u ik =>
      cases l with
      | cst ml cl =>
        induction cl using V.ind with
        | hn => exact absurd rfl hfl
        | hf lv =>
          simp only [argFn, V.toOption_fin, Option.getD_some] at h0 hr
          rw [kepFDiff]
          split
          · next h =>
            subst h
            rw [hh 0 (by omega), hkk 0 (by omega)]
            simp only [Res.bind_eq, Res.bind_ok, Res.pure_eq, tc_zero, app_fin3, h0]; rfl
          · next h =>
            have hn : 1 ≤ n := by omega
            have hnz := nat_ne hn
            have er := hr hn
            rw [hc 0 (by omega), hd 0 (by omega), hkk n (by omega), he 0 (by omega), hh n (by omega), hf 0 (by omega)]
            simp only [Res.bind_eq, Res.bind_ok, Res.pure_eq, V.nat_def, V.one_def, V.fin_mul, V.fin_sub,
              V.fin_add, V.fin_neg, tc_zero]
            rw [addSum_ok (G := fun j => j * (tc (F a) t0 j * (tc (F c) t0 (n - j) + tc (F d) t0 (n - j)) + (tc (F ik) t0 j * tc (F e) t0 (n - j) - tc (F ih) t0 j * tc (F f) t0 (n - j)))) rfl (fun j h1 h2 => by
              rw [hc (n - j) (by omega), hd (n - j) (by omega), ha j h2, he (n - j) (by omega), hkk j (by omega), hf (n - j) (by omega), hh j (by omega)]; rfl)]
            simp only [Res.bind_ok]
            rw [V.fin_div_of_ne (mul_ne_zero hnz hz)]
            have hs : ∑ j ∈ Ico 1 n, (j : ℝ) * (tc (F a) t0 j * (tc (F c) t0 (n - j) + tc (F d) t0 (n - j)) + (tc (F ik) t0 j * tc (F e) t0 (n - j) - tc (F ih) t0 j * tc (F f) t0 (n - j))) =
                cv (F c) (F a) t0 n n + cv (F d) (F a) t0 n n + cv (F e) (F ik) t0 n n - cv (F f) (F ih) t0 n n := by
              rw [cv, cv, cv, cv, ← sum_add_distrib, ← sum_add_distrib, ← sum_sub_distrib]; exact sum_congr rfl fun j _ => by ring
            rw [hs]
            rw [cv_last (F c) _ _ hn, cv_last (F d) _ _ hn, cv_last (F e) _ _ hn, cv_last (F f) _ _ hn, tc_const, if_neg (by omega)] at er
            congr 2
            rw [div_eq_iff (mul_ne_zero hnz hz)]; linarith
      | u il =>
        simp only [argFn] at h0 hr
        rw [kepFDiff]
        split
        · next h =>
          subst h
          rw [hh 0 (by omega), hkk 0 (by omega), hl 0 (by omega)]
          simp only [Res.bind_eq, Res.bind_ok, Res.pure_eq, tc_zero, app_fin3, h0]; rfl
        · next h =>
          have hn : 1 ≤ n := by omega
          have hnz := nat_ne hn
          have er := hr hn
          rw [hc 0 (by omega), hd 0 (by omega), hkk n (by omega), he 0 (by omega), hh n (by omega), hf 0 (by omega), hl n (by omega)]
          simp only [Res.bind_eq, Res.bind_ok, Res.pure_eq, V.nat_def, V.one_def, V.fin_mul, V.fin_sub,
            V.fin_add, V.fin_neg, tc_zero]
          rw [addSum_ok (G := fun j => j * (tc (F a) t0 j * (tc (F c) t0 (n - j) + tc (F d) t0 (n - j)) + (tc (F ik) t0 j * tc (F e) t0 (n - j) - tc (F ih) t0 j * tc (F f) t0 (n - j)))) rfl (fun j h1 h2 => by
            rw [hc (n - j) (by omega), hd (n - j) (by omega), ha j h2, he (n - j) (by omega), hkk j (by omega), hf (n - j) (by omega), hh j (by omega)]; rfl)]
          simp only [Res.bind_ok]
          rw [V.fin_div_of_ne (mul_ne_zero hnz hz)]
          have hs : ∑ j ∈ Ico 1 n, (j : ℝ) * (tc (F a) t0 j * (tc (F c) t0 (n - j) + tc (F d) t0 (n - j)) + (tc (F ik) t0 j * tc (F e) t0 (n - j) - tc (F ih) t0 j * tc (F f) t0 (n - j))) =
              cv (F c) (F a) t0 n n + cv (F d) (F a) t0 n n + cv (F e) (F ik) t0 n n - cv (F f) (F ih) t0 n n := by
            rw [cv, cv, cv, cv, ← sum_add_distrib, ← sum_add_distrib, ← sum_sub_distrib]; exact sum_congr rfl fun j _ => by ring
          rw [hs]
          rw [cv_last (F c) _ _ hn, cv_last (F d) _ _ hn, cv_last (F e) _ _ hn, cv_last (F f) _ _ hn] at er
          congr 2
          rw [div_eq_iff (mul_ne_zero hnz hz)]; linarith

end

end Heyoka.Taylor
