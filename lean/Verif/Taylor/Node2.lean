import Verif.Taylor.Node

/-!
# The recurrence of every function computes the normalised derivatives: several arguments
-/

set_option linter.unusedSimpArgs false

open Filter Topology Finset

namespace Heyoka.Taylor

open Heyoka.Sym

variable {F : ℕ → ℝ → ℝ} {t0 : ℝ} {rd : ℕ → ℕ → Res (V ℝ)} {n idx : ℕ} {deps : List ℕ} {f : Fn ℝ}
  {as : List (TArg ℝ)}

theorem list2 {α β : Type} {l : List α} {g : α → β} {x y : β} (h : l.map g = [x, y]) :
    ∃ a b, l = [a, b] := by
  have := congrArg List.length h
  simp at this
  exact List.length_eq_two.mp this

theorem list3 {α β : Type} {l : List α} {g : α → β} {x y z : β} (h : l.map g = [x, y, z]) :
    ∃ a b c, l = [a, b, c] := by
  have := congrArg List.length h
  simp at this
  exact List.length_eq_three.mp this

theorem list1 {α β : Type} {l : List α} {g : α → β} {x : β} (h : l.map g = [x]) : ∃ a, l = [a] := by
  have := congrArg List.length h
  simp at this
  exact List.length_eq_one_iff.mp this

/-! ### `atan2`, `kepE`, `kepF` -/

theorem node_atan2 (h : Node F t0 idx deps .atan2 as) : Goal F t0 idx deps .atan2 as := by
  have hv := h.app (by simp)
  have harg : ∀ xs y, realApp .atan2 xs = some y → ∃ a b, xs = [a, b] ∧ y = Complex.arg ⟨b, a⟩ := by
    intro xs y hy
    rcases xs with _ | ⟨x, _ | ⟨z, _ | ⟨w, l⟩⟩⟩ <;> simp [realApp] at hy
    exact ⟨x, z, rfl, hy.2.symm⟩
  obtain ⟨x0, y0, hl, -⟩ := harg _ _ hv.self_of_nhds
  obtain ⟨y, x, rfl⟩ := list2 hl
  obtain ⟨d, rfl, hd⟩ := h.deps
  have hx := h.arg x (by simp)
  have hy := h.arg y (by simp)
  have hF : F idx =ᶠ[𝓝 t0] fun t => Complex.arg ⟨argFn F x t, argFn F y t⟩ := by
    filter_upwards [hv] with t ht
    obtain ⟨a, b, h1, h2⟩ := harg _ _ ht
    simp at h1
    rw [h2, ← h1.1, ← h1.2]
  have hv0 : realApp .atan2 [argFn F y t0, argFn F x t0] = some (F idx t0) := hv.self_of_nhds
  have hne : F d t0 ≠ 0 := by
    rw [hd.self_of_nhds]
    simp [realApp] at hv0
    intro h0
    have hz : ¬(argFn F x t0 = 0 ∧ argFn F y t0 = 0) := fun hc => hv0.1 hc.1 hc.2
    have h1 := sq_nonneg (argFn F x t0)
    have h2 := sq_nonneg (argFn F y t0)
    simp only at h0
    exact hz ⟨by nlinarith, by nlinarith⟩
  by_cases hc : ∀ a ∈ [y, x], a.isCst
  · have hk := h.const (by simp) hc
    refine ⟨hk.1, fun rd n R => ?_⟩
    simp only [taylorDiff]
    have hxc := hc x (by simp)
    have hyc := hc y (by simp)
    have hfx := h.fin (by simp) x (by simp)
    have hfy := h.fin (by simp) y (by simp)
    cases x with
    | u i => exact hxc.elim
    | cst m cx =>
      cases y with
      | u i => exact hyc.elim
      | cst m' cy =>
        induction cx using V.ind with
        | hn => exact absurd rfl hfx
        | hf xv =>
          induction cy using V.ind with
          | hn => exact absurd rfl hfy
          | hf yv =>
            rw [atan2Diff]
            exact cstDiff_ok (by rw [app_fin2]; exact congrArg V.ofOption hv0) (hk.2 n)
  · have hreg : 0 < argFn F x t0 ∨ argFn F y t0 ≠ 0 := h.reg.resolve_left hc
    obtain ⟨hs, hr⟩ := rec_atan2 hx hy hreg hF hd
    refine ⟨hs, fun rd n R => ?_⟩
    simp only [taylorDiff]
    refine atan2Diff_ok (h.fin (by simp) x (by simp)) (h.fin (by simp) y (by simp)) hv0 ?_ hne (hr n) R.self
      (R.dep (by simp)) (R.arg (by simp)) (R.arg (by simp))
    intro h1 h2
    exact absurd (by simp [h1, h2]) hc

theorem cst_all {g : List (V ℝ) → Res (V ℝ)} (h : Node F t0 idx deps f as) (hf : f ≠ .time)
    (hc : ∀ a ∈ as, a.isCst) (n : ℕ) :
    cstDiff f n (as.map fun a => V.fin (argFn F a t0)) = .ok (V.fin (tc (F idx) t0 n)) := by
  have hk := h.const hf hc
  refine cstDiff_ok ?_ (hk.2 n)
  have : (as.map fun a => V.fin (argFn F a t0)) = (as.map fun a => argFn F a t0).map V.fin := by simp
  rw [this, app_fin, (h.app hf).self_of_nhds]; rfl

/-- A finite constant argument. -/
theorem TArg.cst_form {a : TArg ℝ} (h : a.isCst) (hf : a.Fin) : ∃ m c, a = .cst m (V.fin c) := by
  cases a with
  | u i => exact h.elim
  | cst m c =>
    induction c using V.ind with
    | hn => exact absurd rfl hf
    | hf x => exact ⟨m, x, rfl⟩

theorem node_kepE (h : Node F t0 idx deps .kepE as) : Goal F t0 idx deps .kepE as := by
  have hv := h.app (by simp)
  have harg : ∀ xs y, realApp .kepE xs = some y → ∃ e M, xs = [e, M] ∧ (0 ≤ e ∧ e < 1) ∧
      y = Kepler.red (Kepler.kepSol 0 (-e) M) := by
    intro xs y hy
    rcases xs with _ | ⟨x, _ | ⟨z, _ | ⟨w, l⟩⟩⟩ <;> simp [realApp] at hy
    exact ⟨x, z, rfl, hy.1, hy.2.symm⟩
  obtain ⟨x0, y0, hl, -⟩ := harg _ _ hv.self_of_nhds
  obtain ⟨e, M, rfl⟩ := list2 hl
  obtain ⟨c, d, rfl, hc, hd⟩ := h.deps
  have he := h.arg e (by simp)
  have hM := h.arg M (by simp)
  have hfe := h.fin (by simp) e (by simp)
  have hfM := h.fin (by simp) M (by simp)
  have hF : F idx =ᶠ[𝓝 t0] fun t => Kepler.red (Kepler.kepSol 0 (-argFn F e t) (argFn F M t)) := by
    filter_upwards [hv] with t ht
    obtain ⟨a, b, h1, -, h2⟩ := harg _ _ ht
    simp at h1
    rw [h2, ← h1.1, ← h1.2]
  have hv0 : realApp .kepE [argFn F e t0, argFn F M t0] = some (F idx t0) := hv.self_of_nhds
  have hdom : 0 ≤ argFn F e t0 ∧ argFn F e t0 < 1 := by
    obtain ⟨a, b, h1, h2, -⟩ := harg _ _ hv0
    simp at h1
    rw [h1.1]; exact h2
  by_cases hcst : ∀ a ∈ [e, M], a.isCst
  · refine ⟨(h.const (by simp) hcst).1, fun rd n R => ?_⟩
    have := cst_all (g := fun _ => .ub) h (by simp) hcst n
    obtain ⟨me, ce, rfl⟩ := TArg.cst_form (hcst e (by simp)) hfe
    obtain ⟨mM, cM, rfl⟩ := TArg.cst_form (hcst M (by simp)) hfM
    simp only [taylorDiff]
    rw [kepEDiff]
    exact this
  · have hreg : F idx t0 ≠ 0 := h.reg.resolve_left hcst
    obtain ⟨hs, hr⟩ := rec_kep (h := fun _ => 0) (k := argFn F e) (l := argFn F M) (smoothAt_const 0) he hM
      (by nlinarith [hdom.1, hdom.2]) hreg hF
    refine ⟨hs, fun rd n R => ?_⟩
    simp only [taylorDiff]
    refine kepEDiff_ok hfe hfM hv0 ?_ ?_ (fun hn => ?_) R.self (R.dep (by simp)) (R.dep (by simp))
      (R.arg (by simp)) (R.arg (by simp))
    · intro h1 h2
      exact absurd (by simp [h1, h2]) hcst
    · rw [hc.self_of_nhds]
      have h1 : (0 : ℝ) ^ 2 + (-argFn F e t0) ^ 2 < 1 := by nlinarith [hdom.1, hdom.2]
      have := kep_den_pos h1 (F idx t0)
      simp only
      intro h0
      linarith
    · have hzero : cv (fun t => (fun _ => (0 : ℝ)) t * Real.sin (F idx t)) (F idx) t0 n (n + 1) = 0 := by
        have : (fun t => (fun _ => (0 : ℝ)) t * Real.sin (F idx t)) = fun _ => 0 := by
          funext t; simp
        rw [this, cv_const_left _ _ _ hn]; ring
      have hr' := hr n hn
      rw [hzero, cv_const_right, sub_zero, sub_zero] at hr'
      rw [cv_congr_left hc, cv_congr_left hd]
      exact hr'

theorem node_kepF (h : Node F t0 idx deps .kepF as) : Goal F t0 idx deps .kepF as := by
  have hv := h.app (by simp)
  have harg : ∀ xs y, realApp .kepF xs = some y → ∃ p q r, xs = [p, q, r] ∧ p ^ 2 + q ^ 2 < 1 ∧
      y = Kepler.red (Kepler.kepSol p (-q) r) := by
    intro xs y hy
    rcases xs with _ | ⟨x, _ | ⟨z, _ | ⟨w, _ | ⟨v, l⟩⟩⟩⟩ <;> simp [realApp] at hy
    exact ⟨x, z, w, rfl, hy.1, hy.2.symm⟩
  obtain ⟨x0, y0, z0, hl, -⟩ := harg _ _ hv.self_of_nhds
  obtain ⟨p, q, r, rfl⟩ := list3 hl
  obtain ⟨c, d, e, f, rfl, hc, hd, he, hf⟩ := h.deps
  have hp := h.arg p (by simp)
  have hq := h.arg q (by simp)
  have hr := h.arg r (by simp)
  have hfp := h.fin (by simp) p (by simp)
  have hfq := h.fin (by simp) q (by simp)
  have hfr := h.fin (by simp) r (by simp)
  have hF : F idx =ᶠ[𝓝 t0] fun t =>
      Kepler.red (Kepler.kepSol (argFn F p t) (-argFn F q t) (argFn F r t)) := by
    filter_upwards [hv] with t ht
    obtain ⟨a, b, c, h1, -, h2⟩ := harg _ _ ht
    simp at h1
    rw [h2, ← h1.1, ← h1.2.1, ← h1.2.2]
  have hv0 : realApp .kepF [argFn F p t0, argFn F q t0, argFn F r t0] = some (F idx t0) := hv.self_of_nhds
  have hdom : argFn F p t0 ^ 2 + argFn F q t0 ^ 2 < 1 := by
    obtain ⟨a, b, c, h1, h2, -⟩ := harg _ _ hv0
    simp at h1
    rw [h1.1, h1.2.1]; exact h2
  by_cases hcst : ∀ a ∈ [p, q, r], a.isCst
  · refine ⟨(h.const (by simp) hcst).1, fun rd n R => ?_⟩
    have := cst_all (g := fun _ => .ub) h (by simp) hcst n
    obtain ⟨m1, c1, rfl⟩ := TArg.cst_form (hcst p (by simp)) hfp
    obtain ⟨m2, c2, rfl⟩ := TArg.cst_form (hcst q (by simp)) hfq
    obtain ⟨m3, c3, rfl⟩ := TArg.cst_form (hcst r (by simp)) hfr
    simp only [taylorDiff]
    rw [kepFDiff]
    exact this
  · have hreg : F idx t0 ≠ 0 := h.reg.resolve_left hcst
    obtain ⟨hs, hrec⟩ := rec_kep hp hq hr hdom hreg hF
    refine ⟨hs, fun rd n R => ?_⟩
    simp only [taylorDiff]
    refine kepFDiff_ok hfp hfq hfr hv0 ?_ ?_ (fun hn => ?_) R.self (R.dep (by simp)) (R.dep (by simp))
      (R.dep (by simp)) (R.dep (by simp)) (R.arg (by simp)) (R.arg (by simp)) (R.arg (by simp))
    · intro h1 h2 h3
      exact absurd (by simp [h1, h2, h3]) hcst
    · rw [hc.self_of_nhds, hd.self_of_nhds]
      have h1 : argFn F p t0 ^ 2 + (-argFn F q t0) ^ 2 < 1 := by rw [neg_sq]; exact hdom
      have := kep_den_pos h1 (F idx t0)
      simp only
      intro h0
      linarith
    · rw [cv_congr_left hc, cv_congr_left hd, cv_congr_left he, cv_congr_left hf]
      exact hrec n hn

/-! ### Arithmetic -/

theorem node_sum (h : Node F t0 idx deps .sum as) : Goal F t0 idx deps .sum as := by
  have hv := h.app (by simp)
  have hd : deps = [] := h.deps
  subst hd
  have hF : F idx =ᶠ[𝓝 t0] fun t => (as.map fun a => argFn F a t).sum := by
    filter_upwards [hv] with t ht
    simp [realApp] at ht
    exact ht.symm
  refine ⟨(smoothAt_listSum h.arg).congr hF, fun rd n R => ?_⟩
  have hne : as ≠ [] := h.sup
  simp only [taylorDiff, if_neg hne, ne_eq, not_true_eq_false, if_false]
  rw [sumDiff_ok hne (h.fin (by simp)) (fun a ha => R.arg ha n (by omega)), tc_congr hF, tc_listSum h.arg]

theorem node_sumSq (h : Node F t0 idx deps .sumSq as) : Goal F t0 idx deps .sumSq as := by
  have hv := h.app (by simp)
  have hd : deps = [] := h.deps
  subst hd
  have hF : F idx =ᶠ[𝓝 t0] fun t => (as.map fun a => argFn F a t ^ 2).sum := by
    filter_upwards [hv] with t ht
    simp [realApp, Function.comp_def] at ht
    exact ht.symm
  have hsq : ∀ a ∈ as, SmoothAt (fun t => argFn F a t ^ 2) t0 := fun a ha => (h.arg a ha).pow 2
  refine ⟨(smoothAt_listSum (A := fun a t => argFn F a t ^ 2) hsq).congr hF, fun rd n R => ?_⟩
  have hne : as ≠ [] := h.sup
  simp only [taylorDiff, if_neg hne, ne_eq, not_true_eq_false, if_false]
  rw [sumSqDiff_ok hne (h.fin (by simp)) h.arg (fun a ha => R.arg ha), tc_congr hF,
    tc_listSum (A := fun a t => argFn F a t ^ 2) hsq]

theorem node_prod {k : Bool} (h : Node F t0 idx deps (.prod k) as) : Goal F t0 idx deps (.prod k) as := by
  have hv := h.app (by simp)
  have hd : deps = [] := h.deps
  subst hd
  obtain ⟨a, b, rfl⟩ := List.length_eq_two.mp (show as.length = 2 from h.sup)
  have hF : F idx =ᶠ[𝓝 t0] fun t => argFn F a t * argFn F b t := by
    filter_upwards [hv] with t ht
    simp [realApp] at ht
    exact ht.symm
  have ha := h.arg a (by simp)
  have hb := h.arg b (by simp)
  refine ⟨(ha.mul hb).congr hF, fun rd n R => ?_⟩
  simp only [taylorDiff, ne_eq, not_true_eq_false, if_false]
  rw [prodDiff_ok (h.fin (by simp) a (by simp)) (h.fin (by simp) b (by simp)) ha hb (R.arg (by simp))
    (R.arg (by simp)), tc_congr hF]

theorem node_sub (h : Node F t0 idx deps .sub as) : Goal F t0 idx deps .sub as := by
  have hv := h.app (by simp)
  have hd : deps = [] := h.deps
  subst hd
  have harg : ∀ xs y, realApp .sub xs = some y → ∃ a b, xs = [a, b] ∧ y = a - b := by
    intro xs y hy
    rcases xs with _ | ⟨x, _ | ⟨z, _ | ⟨w, l⟩⟩⟩ <;> simp [realApp] at hy
    exact ⟨x, z, rfl, hy.symm⟩
  obtain ⟨x0, y0, hl, -⟩ := harg _ _ hv.self_of_nhds
  obtain ⟨a, b, rfl⟩ := list2 hl
  have hF : F idx =ᶠ[𝓝 t0] fun t => argFn F a t - argFn F b t := by
    filter_upwards [hv] with t ht
    simp [realApp] at ht
    exact ht.symm
  have ha := h.arg a (by simp)
  have hb := h.arg b (by simp)
  refine ⟨(ha.sub hb).congr hF, fun rd n R => ?_⟩
  simp only [taylorDiff, ne_eq, not_true_eq_false, if_false]
  rw [subDiff_ok (h.fin (by simp) a (by simp)) (h.fin (by simp) b (by simp)) ha hb (R.arg (by simp))
    (R.arg (by simp)), tc_congr hF]

theorem node_div (h : Node F t0 idx deps .div as) : Goal F t0 idx deps .div as := by
  have hv := h.app (by simp)
  have hd : deps = [] := h.deps
  subst hd
  have harg : ∀ xs y, realApp .div xs = some y → ∃ a b, xs = [a, b] ∧ b ≠ 0 ∧ y = a / b := by
    intro xs y hy
    rcases xs with _ | ⟨x, _ | ⟨z, _ | ⟨w, l⟩⟩⟩ <;> simp [realApp] at hy
    exact ⟨x, z, rfl, hy.1, hy.2.symm⟩
  obtain ⟨x0, y0, hl, -⟩ := harg _ _ hv.self_of_nhds
  obtain ⟨a, b, rfl⟩ := list2 hl
  have hF : F idx =ᶠ[𝓝 t0] fun t => argFn F a t / argFn F b t := by
    filter_upwards [hv] with t ht
    simp [realApp] at ht
    exact ht.2.symm
  have hz : argFn F b t0 ≠ 0 := by
    have := hv.self_of_nhds
    simp [realApp] at this
    exact this.1
  have ha := h.arg a (by simp)
  have hb := h.arg b (by simp)
  have hs := (ha.div hb hz).congr hF
  refine ⟨hs, fun rd n R => ?_⟩
  simp only [taylorDiff, ne_eq, not_true_eq_false, if_false]
  exact divDiff_ok (h.fin (by simp) a (by simp)) (h.fin (by simp) b (by simp)) ha hb hz hs hF R.self
    (R.arg (by simp)) (R.arg (by simp))

theorem node_pow {k : PowAlgo} (h : Node F t0 idx deps (.pow k) as) : Goal F t0 idx deps (.pow k) as := by
  have hv := h.app (by simp)
  have hd : deps = [] := h.deps
  subst hd
  obtain ⟨x, m, e, rfl⟩ := h.sup
  have hfx := h.fin (by simp) x (by simp)
  have hfe := h.fin (by simp) (.cst m e) (by simp)
  obtain ⟨m', p, hme⟩ := TArg.cst_form (a := .cst m e) trivial hfe
  cases hme
  have hF : ∀ᶠ t in 𝓝 t0, PowDom (argFn F x t) p ∧ F idx t = argFn F x t ^ p := by
    filter_upwards [hv] with t ht
    simp [realApp, argFn] at ht
    exact ⟨ht.1, ht.2.symm⟩
  by_cases hcst : x.isCst
  · have hall : ∀ a ∈ [x, .cst m (V.fin p)], a.isCst := by
      intro a ha
      simp at ha
      rcases ha with rfl | rfl
      · exact hcst
      · trivial
    refine ⟨(h.const (by simp) hall).1, fun rd n R => ?_⟩
    have := cst_all (g := fun _ => .ub) h (by simp) hall n
    obtain ⟨m1, c1, rfl⟩ := TArg.cst_form hcst hfx
    simp only [taylorDiff, ne_eq, not_true_eq_false, if_false]
    rw [powDiff]
    exact this
  · cases x with
    | cst m c => exact absurd trivial hcst
    | u b =>
      have hb : SmoothAt (F b) t0 := h.smooth b (by simp)
      have hreg : F b t0 ≠ 0 ∨ (m = true ∧ V.fin p = V.fin 2) :=
        h.reg.resolve_left (fun hc => hcst (hc _ (by simp)))
      have hFe : F idx =ᶠ[𝓝 t0] fun t => F b t ^ p := by
        filter_upwards [hF] with t ht using ht.2
      have hsq : p = 2 → F idx =ᶠ[𝓝 t0] fun t => F b t ^ 2 := by
        intro hp
        filter_upwards [hFe] with t ht
        rw [ht, hp]; exact_mod_cast Real.rpow_natCast (F b t) 2
      have hs : SmoothAt (F idx) t0 := by
        rcases hreg with h1 | h1
        · exact ((smooth_rpow h1).comp hb).congr hFe
        · exact (hb.pow 2).congr (hsq (V.fin_inj h1.2))
      refine ⟨hs, fun rd n R => ?_⟩
      have hrb : ∀ o < n + 1, Rd F t0 rd b o := R.arg (a := .u b) (by simp)
      simp only [taylorDiff, ne_eq, not_true_eq_false, if_false]
      rw [powDiff]
      split
      · next h0 =>
        subst h0
        rw [hrb 0 (by omega)]
        simp only [Res.bind_eq, Res.bind_ok, Res.pure_eq, tc_zero]
        rw [app_fin2]
        exact congrArg (fun z => Res.ok (V.ofOption z)) hv.self_of_nhds
      · next h0 =>
        split
        · next h1 =>
          have hp : p = 1 / 2 := V.fin_inj h1.2
          have hnz : F b t0 ≠ 0 := by
            refine hreg.resolve_right fun h2 => ?_
            have := V.fin_inj h2.2
            rw [hp] at this; norm_num at this
          have hpos : ∀ᶠ t in 𝓝 t0, 0 < F b t := by
            filter_upwards [hF, hb.continuousAt.eventually_ne hnz] with t ht hn
            rcases ht.1 with h3 | h3 | ⟨_, z, hz⟩
            · exact h3
            · exact absurd h3.1 hn
            · exfalso
              rw [hp] at hz
              have h5 : (1 : ℝ) = 2 * z := by rw [← hz]; norm_num
              have h6 : (1 : ℤ) = 2 * z := by exact_mod_cast h5
              omega
          refine sqrtDiff_ok (by omega) hs ?_ ?_ R.self hrb
          · filter_upwards [hFe, hpos] with t h3 h4
            rw [h3, hp, ← Real.sqrt_eq_rpow, Real.sq_sqrt h4.le]
          · rw [hFe.self_of_nhds]
            exact (Real.rpow_pos_of_pos hpos.self_of_nhds _).ne'
        · split
          · next h1 =>
            have hp : p = 2 := V.fin_inj h1.2
            rw [squareDiff_ok (by omega) hb hrb, tc_congr (hsq hp)]
          · next h1 h2 =>
            have hnz : F b t0 ≠ 0 := hreg.resolve_right h2
            have hdom : 0 < F b t0 ∨ ∃ z : ℤ, p = z := by
              rcases hF.self_of_nhds.1 with h3 | h3 | h3
              · exact .inl h3
              · exact absurd h3.1 hnz
              · exact .inr h3.2
            obtain ⟨-, hr⟩ := rec_pow hb hnz hFe hdom
            exact powGenDiff_ok (by omega) hnz (hr n (by omega)) R.self hrb

/-! ### Piecewise functions -/

theorem node_relu {s : ℝ} (h : Node F t0 idx deps (.relu s) as) : Goal F t0 idx deps (.relu s) as := by
  refine un_goal (G := fun x => if 0 < x then x else s * x) (by simp) h ?_ ?_ ?_
  · intro xs y hy
    rcases xs with _ | ⟨x, _ | ⟨z, l⟩⟩ <;> simp only [realApp] at hy
    · simp at hy
    · exact ⟨x, rfl, (Option.some.inj hy).symm⟩
    · simp at hy
  · rintro c m rfl rd n
    have hd : deps = [] := h.deps
    simp [taylorDiff, reluDiff, hd]
  · rintro b rfl hb hF hv
    have hd : deps = [] := h.deps
    subst hd
    have hreg : ∀ᶠ t in 𝓝 t0, (0 < F b t ↔ 0 < F b t0) := h.reg.resolve_left (by simp [TArg.isCst])
    by_cases hp : 0 < F b t0
    · have hF' : F idx =ᶠ[𝓝 t0] F b := by
        filter_upwards [hF, hreg] with t h1 h2
        rw [h1, if_pos (h2.mpr hp)]
      refine ⟨hb.congr hF', fun rd n R => ?_⟩
      have hr := R.arg (a := .u b) (by simp)
      simp only [taylorDiff, ne_eq, not_true_eq_false, if_false]
      rw [reluDiff, hr 0 (by omega), hr n (by omega), tc_congr hF']
      simp only [Res.bind_eq, Res.bind_ok, Res.pure_eq, tc_zero, selPos, V.toOption_fin, if_pos hp, ite_self]
    · have hF' : F idx =ᶠ[𝓝 t0] fun t => s * F b t := by
        filter_upwards [hF, hreg] with t h1 h2
        rw [h1, if_neg (fun h3 => hp (h2.mp h3))]
      refine ⟨((smoothAt_const s).mul hb).congr hF', fun rd n R => ?_⟩
      have hr := R.arg (a := .u b) (by simp)
      simp only [taylorDiff, ne_eq, not_true_eq_false, if_false]
      rw [reluDiff, hr 0 (by omega), hr n (by omega), tc_congr hF', tc_const_mul hb]
      simp only [Res.bind_eq, Res.bind_ok, Res.pure_eq, tc_zero, selPos, V.toOption_fin, if_neg hp]
      split
      · next h0 => rw [h0]; simp [V.zero_def]
      · rfl

theorem node_relup {s : ℝ} (h : Node F t0 idx deps (.relup s) as) : Goal F t0 idx deps (.relup s) as := by
  refine un_goal (G := fun x => if 0 < x then 1 else s) (by simp) h ?_ ?_ ?_
  · intro xs y hy
    rcases xs with _ | ⟨x, _ | ⟨z, l⟩⟩ <;> simp only [realApp] at hy
    · simp at hy
    · exact ⟨x, rfl, (Option.some.inj hy).symm⟩
    · simp at hy
  · rintro c m rfl rd n
    have hd : deps = [] := h.deps
    simp [taylorDiff, relupDiff, hd]
  · rintro b rfl hb hF hv
    have hd : deps = [] := h.deps
    subst hd
    have hreg : ∀ᶠ t in 𝓝 t0, (0 < F b t ↔ 0 < F b t0) := h.reg.resolve_left (by simp [TArg.isCst])
    have hF' : F idx =ᶠ[𝓝 t0] fun _ => F idx t0 := by
      have h0 : F idx t0 = if 0 < F b t0 then 1 else s := hF.self_of_nhds
      filter_upwards [hF, hreg] with t h1 h2
      rw [h1, h0]
      by_cases hp : 0 < F b t0
      · rw [if_pos hp, if_pos (h2.mpr hp)]
      · rw [if_neg hp, if_neg (fun h3 => hp (h2.mp h3))]
    refine ⟨(smoothAt_const _).congr hF', fun rd n R => ?_⟩
    have hr := R.arg (a := .u b) (by simp)
    simp only [taylorDiff, ne_eq, not_true_eq_false, if_false]
    rw [relupDiff, hr 0 (by omega), tc_congr hF', tc_const]
    simp only [Res.bind_eq, Res.bind_ok, Res.pure_eq, tc_zero]
    split
    · rw [app0 hv.self_of_nhds]
    · rfl

theorem node_select (h : Node F t0 idx deps .select as) : Goal F t0 idx deps .select as := by
  have hv := h.app (by simp)
  have hd : deps = [] := h.deps
  subst hd
  have harg : ∀ xs y, realApp .select xs = some y → ∃ c a b, xs = [c, a, b] ∧ y = if c ≠ 0 then a else b := by
    intro xs y hy
    rcases xs with _ | ⟨x, _ | ⟨z, _ | ⟨w, _ | ⟨v, l⟩⟩⟩⟩ <;> simp only [realApp] at hy
    · simp at hy
    · simp at hy
    · simp at hy
    · exact ⟨x, z, w, rfl, (Option.some.inj hy).symm⟩
    · simp at hy
  obtain ⟨x0, y0, z0, hl, -⟩ := harg _ _ hv.self_of_nhds
  obtain ⟨c, a, b, rfl⟩ := list3 hl
  have ha := h.arg a (by simp)
  have hb := h.arg b (by simp)
  have hreg : ∀ᶠ t in 𝓝 t0, (argFn F c t ≠ 0 ↔ argFn F c t0 ≠ 0) := by
    rcases h.reg with h1 | h1
    · have hc := h1 c (by simp)
      cases c with
      | u i => exact hc.elim
      | cst m x => exact .of_forall fun _ => Iff.rfl
    · exact h1
  have hF : F idx =ᶠ[𝓝 t0] fun t => if argFn F c t0 ≠ 0 then argFn F a t else argFn F b t := by
    filter_upwards [hv, hreg] with t ht h1
    obtain ⟨x, y, z, h2, h3⟩ := harg _ _ ht
    simp at h2
    rw [h3, ← h2.1, ← h2.2.1, ← h2.2.2]
    by_cases hp : argFn F c t0 ≠ 0
    · rw [if_pos hp, if_pos (h1.mpr hp)]
    · rw [if_neg hp, if_neg (fun h3 => hp (h1.mp h3))]
  have hs : SmoothAt (F idx) t0 := by
    by_cases hp : argFn F c t0 ≠ 0
    · simp only [if_pos hp] at hF; exact ha.congr hF
    · simp only [if_neg hp] at hF; exact hb.congr hF
  refine ⟨hs, fun rd n R => ?_⟩
  simp only [taylorDiff, ne_eq, not_true_eq_false, if_false]
  rw [selectDiff, argVal_ok (h.fin (by simp) c (by simp)) (R.arg (by simp) 0 (by omega)),
    argVal_ok (h.fin (by simp) a (by simp)) (R.arg (by simp) n (by omega)),
    argVal_ok (h.fin (by simp) b (by simp)) (R.arg (by simp) n (by omega)), tc_congr hF]
  simp only [Res.bind_eq, Res.bind_ok, Res.pure_eq, tc_zero, selNz, V.toOption_fin]
  by_cases hp : argFn F c t0 ≠ 0
  · simp only [if_pos hp]
  · simp only [if_neg hp]

/-- A function which is eventually constant and whose order 0 is computed by the evaluation. -/
theorem bool_goal (h : Node F t0 idx deps f as) (hf : f ≠ .time)
    (hF : F idx =ᶠ[𝓝 t0] fun _ => F idx t0)
    (ht : ∀ rd n, taylorDiff t0 rd n idx deps f as = boolDiff f rd n as) : Goal F t0 idx deps f as := by
  refine ⟨(smoothAt_const _).congr hF, fun rd n R => ?_⟩
  rw [ht, boolDiff, tc_congr hF, tc_const]
  split
  · next h0 =>
    subst h0
    rw [argVals_ok (F := F) (t0 := t0) (h.fin hf) (fun a ha => R.arg ha 0 (by omega))]
    simp only [Res.bind_eq, Res.bind_ok, Res.pure_eq, tc_zero]
    rw [app_fin, (h.app hf).self_of_nhds]; rfl
  · rfl

theorem node_rel {op : RelOp} (h : Node F t0 idx deps (.rel op) as) : Goal F t0 idx deps (.rel op) as := by
  have hv := h.app (by simp)
  have hd : deps = [] := h.deps
  subst hd
  have harg : ∀ xs y, realApp (.rel op) xs = some y → ∃ a b, xs = [a, b] := by
    intro xs y hy
    rcases xs with _ | ⟨x, _ | ⟨z, _ | ⟨w, l⟩⟩⟩ <;> simp only [realApp] at hy
    · simp at hy
    · simp at hy
    · exact ⟨x, z, rfl⟩
    · simp at hy
  obtain ⟨x0, y0, hl⟩ := harg _ _ hv.self_of_nhds
  obtain ⟨a, b, rfl⟩ := list2 hl
  have hreg : ∀ᶠ t in 𝓝 t0,
      (op.holds (argFn F a t) (argFn F b t) ↔ op.holds (argFn F a t0) (argFn F b t0)) := by
    rcases h.reg with h1 | h1
    · have h2 := h1 a (by simp)
      have h3 := h1 b (by simp)
      cases a with
      | u i => exact h2.elim
      | cst m x =>
        cases b with
        | u i => exact h3.elim
        | cst m' y => exact .of_forall fun _ => Iff.rfl
    · exact h1
  refine bool_goal h (by simp) ?_ fun rd n => by simp [taylorDiff]
  have h0 := hv.self_of_nhds
  simp only [List.map_cons, List.map_nil, realApp] at h0
  filter_upwards [hv, hreg] with t ht h1
  simp only [List.map_cons, List.map_nil, realApp] at ht
  rw [← Option.some.inj ht, ← Option.some.inj h0]
  by_cases hp : op.holds (argFn F a t0) (argFn F b t0)
  · rw [if_pos hp, if_pos (h1.mpr hp)]
  · rw [if_neg hp, if_neg (fun h3 => hp (h1.mp h3))]

theorem argFn_cst {a : TArg ℝ} (h : a.isCst) (t t' : ℝ) : argFn F a t = argFn F a t' := by
  cases a with
  | u i => exact h.elim
  | cst m c => rfl

theorem node_land (h : Node F t0 idx deps .land as) : Goal F t0 idx deps .land as := by
  have hv := h.app (by simp)
  have hd : deps = [] := h.deps
  subst hd
  have hne : as ≠ [] := h.sup
  have hreg : ∀ᶠ t in 𝓝 t0, ((∀ a ∈ as, argFn F a t ≠ 0) ↔ ∀ a ∈ as, argFn F a t0 ≠ 0) := by
    rcases h.reg with h1 | h1
    · refine .of_forall fun t => forall₂_congr fun a ha => ?_
      rw [argFn_cst (h1 a ha) t t0]
    · exact h1
  refine bool_goal h (by simp) ?_ fun rd n => by simp [taylorDiff, hne]
  have h0 := hv.self_of_nhds
  simp only [realApp, List.forall_mem_map] at h0
  filter_upwards [hv, hreg] with t ht h1
  simp only [realApp, List.forall_mem_map] at ht
  rw [← Option.some.inj ht, ← Option.some.inj h0]
  simp only [h1]

theorem node_lor (h : Node F t0 idx deps .lor as) : Goal F t0 idx deps .lor as := by
  have hv := h.app (by simp)
  have hd : deps = [] := h.deps
  subst hd
  have hne : as ≠ [] := h.sup
  have hreg : ∀ᶠ t in 𝓝 t0, ((∃ a ∈ as, argFn F a t ≠ 0) ↔ ∃ a ∈ as, argFn F a t0 ≠ 0) := by
    rcases h.reg with h1 | h1
    · refine .of_forall fun t => exists_congr fun a => and_congr_right fun ha => ?_
      rw [argFn_cst (h1 a ha) t t0]
    · exact h1
  refine bool_goal h (by simp) ?_ fun rd n => by simp [taylorDiff, hne]
  have h0 := hv.self_of_nhds
  simp only [realApp, List.mem_map, exists_exists_and_eq_and] at h0
  filter_upwards [hv, hreg] with t ht h1
  simp only [realApp, List.mem_map, exists_exists_and_eq_and] at ht
  rw [← Option.some.inj ht, ← Option.some.inj h0]
  simp only [h1]

/-! ### Constants and time -/

theorem node_const {s : String} (h : Node F t0 idx deps (.const s) as) :
    Goal F t0 idx deps (.const s) as := by
  have hv := h.app (by simp)
  have has : as = [] := by
    have := hv.self_of_nhds
    cases as with
    | nil => rfl
    | cons a l => simp [realApp] at this
  subst has
  have hc := h.const (by simp) (by simp)
  refine ⟨hc.1, fun rd n _ => ?_⟩
  simp only [taylorDiff]
  split
  · next h0 =>
    subst h0
    have := app_fin (.const s) []
    rw [List.map_nil] at this
    have h1 : realApp (.const s) [] = some (F idx t0) := hv.self_of_nhds
    rw [this, h1, tc_zero]; rfl
  · rw [hc.2 n (by omega)]; rfl

theorem node_numId (h : Node F t0 idx deps .numId as) : Goal F t0 idx deps .numId as := by
  have hv := h.app (by simp)
  have hd : deps = [] := h.deps
  subst hd
  obtain ⟨c, rfl⟩ := h.sup
  have hc := h.const (by simp) (by simp [TArg.isCst])
  obtain ⟨m, x, hx⟩ := TArg.cst_form (a := .cst true c) trivial (h.fin (by simp) (.cst true c) (by simp))
  cases hx
  refine ⟨hc.1, fun rd n _ => ?_⟩
  simp only [taylorDiff, ne_eq, not_true_eq_false, if_false]
  split
  · next h0 =>
    subst h0
    have h1 := hv.self_of_nhds
    simp [realApp, argFn] at h1
    rw [tc_zero, h1]
  · rw [hc.2 n (by omega)]; rfl

theorem node_time (h : Node F t0 idx deps .time as) : Goal F t0 idx deps .time as := by
  have hF : F idx =ᶠ[𝓝 t0] fun t => t := by
    filter_upwards [h.val] with t ht
    cases as with
    | nil => simp [nodeVal] at ht; exact ht.symm
    | cons a l =>
      exfalso
      simp only [List.map_cons, nodeVal] at ht
      cases h2 : allSome (argAt F t a :: l.map (argAt F t)) with
      | none => rw [h2] at ht; simp at ht
      | some xs => rw [h2] at ht; simp [realApp] at ht
  refine ⟨smoothAt_id.congr hF, fun rd n _ => ?_⟩
  rw [tc_congr hF, tc_id]
  simp only [taylorDiff]
  split
  · rfl
  · split <;> rfl

/-- The recurrence of every function. -/
theorem node_goal (h : Node F t0 idx deps f as) : Goal F t0 idx deps f as := by
  cases f with
  | sum => exact node_sum h
  | prod k => exact node_prod h
  | pow k => exact node_pow h
  | sub => exact node_sub h
  | div => exact node_div h
  | sumSq => exact node_sumSq h
  | sin k => exact node_sin h
  | cos k => exact node_cos h
  | tan => exact node_tan h
  | asin => exact node_asin h
  | acos => exact node_acos h
  | atan => exact node_atan h
  | atan2 => exact node_atan2 h
  | sinh => exact node_sinh h
  | cosh => exact node_cosh h
  | tanh => exact node_tanh h
  | asinh => exact node_asinh h
  | acosh => exact node_acosh h
  | atanh => exact node_atanh h
  | erf => exact node_erf h
  | exp => exact node_exp h
  | log => exact node_log h
  | sigmoid => exact node_sigmoid h
  | relu s => exact node_relu h
  | relup s => exact node_relup h
  | select => exact node_select h
  | rel op => exact node_rel h
  | land => exact node_land h
  | lor => exact node_lor h
  | time => exact node_time h
  | const s => exact node_const h
  | kepE => exact node_kepE h
  | kepF => exact node_kepF h
  | kepDE => exact absurd h.sup (by simp [Supported])
  | numId => exact node_numId h
  | dfun a b => exact absurd (h.app (by simp)).self_of_nhds (by simp [realApp])
  | other s => exact absurd (h.app (by simp)).self_of_nhds (by simp [realApp])

end Heyoka.Taylor
