import Verif.Taylor.Rec3
import Verif.Taylor.Rec4

/-!
# The recurrence of every function computes the normalised derivatives
-/

set_option linter.unusedSimpArgs false

open Filter Topology Finset

namespace Heyoka.Taylor

open Heyoka.Sym

variable {F : ℕ → ℝ → ℝ} {t0 : ℝ} {rd : ℕ → ℕ → Res (V ℝ)} {n idx : ℕ} {deps : List ℕ} {f : Fn ℝ}
  {as : List (TArg ℝ)}

/-! ### Consequences of the hypotheses -/

theorem nodeVal_of_ne (hf : f ≠ .time) (t : ℝ) (xs : List (Option ℝ)) :
    nodeVal t f xs = (allSome xs).bind (realApp f) := by
  unfold nodeVal
  split
  · exact absurd rfl hf
  · rfl

theorem fin_of_allSome {F : ℕ → ℝ → ℝ} {t : ℝ} : ∀ {as : List (TArg ℝ)} {xs : List ℝ},
    allSome (as.map (argAt F t)) = some xs → (∀ a ∈ as, a.Fin) ∧ xs = as.map fun a => argFn F a t
  | [], xs, h => by simp [allSome] at h; subst h; simp
  | a :: as, xs, h => by
    simp only [List.map_cons, allSome] at h
    cases h1 : argAt F t a with
    | none => rw [h1] at h; simp at h
    | some y =>
      rw [h1] at h
      cases h2 : allSome (as.map (argAt F t)) with
      | none => rw [h2] at h; simp at h
      | some ys =>
        rw [h2] at h
        simp at h
        obtain ⟨h3, h4⟩ := fin_of_allSome h2
        subst h
        have : a.Fin ∧ argFn F a t = y := by
          cases a with
          | u i => simp [argAt] at h1; exact ⟨trivial, h1⟩
          | cst m c =>
            simp only [argAt] at h1
            refine ⟨?_, by simp [argFn, h1]⟩
            intro hc
            rw [hc] at h1; simp at h1
        refine ⟨?_, by simp [this.2, h4]⟩
        intro b hb
        rcases List.mem_cons.mp hb with rfl | hb
        · exact this.1
        · exact h3 b hb

theorem Node.fin (h : Node F t0 idx deps f as) (hf : f ≠ .time) : ∀ a ∈ as, a.Fin := by
  have h1 := h.val.self_of_nhds
  rw [nodeVal_of_ne hf] at h1
  cases h2 : allSome (as.map (argAt F t0)) with
  | none => rw [h2] at h1; simp at h1
  | some xs => exact (fin_of_allSome h2).1

theorem Node.app (h : Node F t0 idx deps f as) (hf : f ≠ .time) :
    ∀ᶠ t in 𝓝 t0, realApp f (as.map fun a => argFn F a t) = some (F idx t) := by
  filter_upwards [h.val] with t h1
  rw [nodeVal_of_ne hf] at h1
  cases h2 : allSome (as.map (argAt F t)) with
  | none => rw [h2] at h1; simp at h1
  | some xs => rw [h2] at h1; rw [← (fin_of_allSome h2).2]; exact h1

theorem Node.arg (h : Node F t0 idx deps f as) : ∀ a ∈ as, SmoothAt (argFn F a) t0 := by
  intro a ha
  exact smooth_argFn fun u hu => h.smooth u (hu ▸ ha)

theorem Reads.self (h : Reads F t0 rd n idx deps as) : ∀ o < n, Rd F t0 rd idx o :=
  fun o ho => h.lower idx (.inl rfl) o ho

theorem Reads.dep (h : Reads F t0 rd n idx deps as) {d : ℕ} (hd : d ∈ deps) : ∀ o < n, Rd F t0 rd d o :=
  fun o ho => h.lower d (.inr (.inl hd)) o ho

theorem Reads.arg (h : Reads F t0 rd n idx deps as) {a : TArg ℝ} (ha : a ∈ as) :
    ∀ o < n + 1, AR F t0 rd o a := by
  intro o ho
  cases a with
  | cst m c => trivial
  | u i =>
    rcases Nat.lt_succ_iff_lt_or_eq.mp ho with h1 | h1
    · exact h.lower i (.inr (.inr ha)) o h1
    · subst h1; exact h.last i ha

/-- The statement proved for every function. -/
def Goal (F : ℕ → ℝ → ℝ) (t0 : ℝ) (idx : ℕ) (deps : List ℕ) (f : Fn ℝ) (as : List (TArg ℝ)) : Prop :=
  SmoothAt (F idx) t0 ∧ ∀ (rd : ℕ → ℕ → Res (V ℝ)) (n : ℕ), Reads F t0 rd n idx deps as →
    taylorDiff t0 rd n idx deps f as = .ok (V.fin (tc (F idx) t0 n))

/-- A function of constants is constant. -/
theorem Node.const (h : Node F t0 idx deps f as) (hf : f ≠ .time) (hc : ∀ a ∈ as, a.isCst) :
    SmoothAt (F idx) t0 ∧ ∀ n, 1 ≤ n → tc (F idx) t0 n = 0 := by
  have h1 : F idx =ᶠ[𝓝 t0] fun _ => F idx t0 := by
    have h0 := (h.app hf).self_of_nhds
    filter_upwards [h.app hf] with t ht
    have : (as.map fun a => argFn F a t) = as.map fun a => argFn F a t0 := by
      refine List.map_congr_left fun a ha => ?_
      have := hc a ha
      cases a with
      | cst m c => rfl
      | u i => exact this.elim
    rw [this, h0] at ht
    exact (Option.some.inj ht).symm
  refine ⟨(smoothAt_const _).congr h1, fun n hn => ?_⟩
  rw [tc_congr h1, tc_const, if_neg (by omega)]

/-! ### Functions of one argument -/

theorem un_elim {G : ℝ → ℝ} (hf : f ≠ .time)
    (hG : ∀ xs y, realApp f xs = some y → ∃ x, xs = [x] ∧ y = G x)
    (h : Node F t0 idx deps f as) :
    ∃ a, as = [a] ∧ a.Fin ∧ SmoothAt (argFn F a) t0 ∧ (F idx =ᶠ[𝓝 t0] fun t => G (argFn F a t)) ∧
      (∀ᶠ t in 𝓝 t0, realApp f [argFn F a t] = some (F idx t)) := by
  obtain ⟨x, h1, -⟩ := hG _ _ (h.app hf).self_of_nhds
  have : ∃ a, as = [a] := by
    have := congrArg List.length h1
    simp at this
    exact List.length_eq_one_iff.mp this
  obtain ⟨a, rfl⟩ := this
  refine ⟨a, rfl, h.fin hf a (by simp), h.arg a (by simp), ?_, h.app hf⟩
  filter_upwards [h.app hf] with t ht
  obtain ⟨z, h2, h3⟩ := hG _ _ ht
  simp at h2
  rw [h3, ← h2]

/-- The order 0 of a function of one variable. -/
theorem app0 {b : ℕ} (h : realApp f [F b t0] = some (F idx t0)) :
    app f [V.fin (F b t0)] = V.fin (F idx t0) := by
  rw [app_fin1, h]; rfl

theorem cst_goal (h : Node F t0 idx deps f as) (hf : f ≠ .time) (hc : ∀ a ∈ as, a.isCst)
    (ht : ∀ rd n, taylorDiff t0 rd n idx deps f as = cstDiff f n (as.map fun a => V.fin (argFn F a t0))) :
    Goal F t0 idx deps f as := by
  refine ⟨(h.const hf hc).1, fun rd n _ => ?_⟩
  rw [ht]
  refine cstDiff_ok ?_ ((h.const hf hc).2 n)
  have : (as.map fun a => V.fin (argFn F a t0)) = (as.map fun a => argFn F a t0).map V.fin := by simp
  rw [this, app_fin, (h.app hf).self_of_nhds]; rfl

theorem un_goal {G : ℝ → ℝ} (hf : f ≠ .time) (h : Node F t0 idx deps f as)
    (hG : ∀ xs y, realApp f xs = some y → ∃ x, xs = [x] ∧ y = G x)
    (hcst : ∀ c m, as = [.cst m c] → ∀ rd n, taylorDiff t0 rd n idx deps f as = cstDiff f n [c])
    (hvar : ∀ b, as = [.u b] → SmoothAt (F b) t0 → (F idx =ᶠ[𝓝 t0] fun t => G (F b t)) →
      (∀ᶠ t in 𝓝 t0, realApp f [F b t] = some (F idx t)) → Goal F t0 idx deps f as) :
    Goal F t0 idx deps f as := by
  obtain ⟨a, rfl, h1, h2, h3, h4⟩ := un_elim hf hG h
  cases a with
  | u b => exact hvar b rfl h2 h3 h4
  | cst m c =>
    induction c using V.ind with
    | hn => exact absurd rfl h1
    | hf x =>
      refine cst_goal h hf (by simp [TArg.isCst]) fun rd n => ?_
      rw [hcst _ _ rfl rd n]; simp [argFn]

theorem node_exp (h : Node F t0 idx deps .exp as) : Goal F t0 idx deps .exp as := by
  refine un_goal (G := Real.exp) (by simp) h ?_ ?_ ?_
  · intro xs y hy
    rcases xs with _ | ⟨x, _ | ⟨z, l⟩⟩ <;> simp [realApp] at hy
    exact ⟨x, rfl, hy.symm⟩
  · rintro c m rfl rd n
    have hd : deps = [] := h.deps
    simp [taylorDiff, unDiff, hd]
  · rintro b rfl hb hF hv
    have hd : deps = [] := h.deps
    subst hd
    obtain ⟨hs, hr⟩ := rec_exp hb hF
    refine ⟨hs, fun rd n R => ?_⟩
    simp only [taylorDiff, unDiff, ne_eq, not_true_eq_false, if_false]
    exact expDiff_ok (app0 hv.self_of_nhds) (hr n) R.self (R.arg (a := .u b) (by simp))

theorem node_log (h : Node F t0 idx deps .log as) : Goal F t0 idx deps .log as := by
  refine un_goal (G := Real.log) (by simp) h ?_ ?_ ?_
  · intro xs y hy
    rcases xs with _ | ⟨x, _ | ⟨z, l⟩⟩ <;> simp [realApp] at hy
    exact ⟨x, rfl, hy.2.symm⟩
  · rintro c m rfl rd n
    have hd : deps = [] := h.deps
    simp [taylorDiff, unDiff, hd]
  · rintro b rfl hb hF hv
    have hd : deps = [] := h.deps
    subst hd
    have h0 : 0 < F b t0 := by
      have := hv.self_of_nhds
      simp [realApp] at this
      exact this.1
    obtain ⟨hs, hr⟩ := rec_log hb h0 hF
    refine ⟨hs, fun rd n R => ?_⟩
    simp only [taylorDiff, unDiff, ne_eq, not_true_eq_false, if_false]
    exact logDiff_ok (app0 hv.self_of_nhds) h0.ne' (hr n) R.self (R.arg (a := .u b) (by simp))

theorem node_sin {k : Bool} (h : Node F t0 idx deps (.sin k) as) : Goal F t0 idx deps (.sin k) as := by
  refine un_goal (G := Real.sin) (by simp) h ?_ ?_ ?_
  · intro xs y hy
    rcases xs with _ | ⟨x, _ | ⟨z, l⟩⟩ <;> simp [realApp] at hy
    exact ⟨x, rfl, hy.symm⟩
  · rintro c m rfl rd n
    obtain ⟨d, hd, -⟩ := h.deps
    simp [taylorDiff, unDiff1, hd]
  · rintro b rfl hb hF hv
    obtain ⟨d, rfl, hd⟩ := h.deps
    have hds : SmoothAt (F d) t0 := ((smooth_cos _).comp hb).congr hd
    obtain ⟨hs, hr⟩ := rec_mul hb (smooth_sin _) hds hF (.of_forall fun z => Real.hasDerivAt_sin z) hd
    refine ⟨hs, fun rd n R => ?_⟩
    simp only [taylorDiff, unDiff1]
    exact sinDiff_ok (app0 hv.self_of_nhds) (hr n) (R.dep (by simp)) (R.arg (a := .u b) (by simp))

theorem node_cos {k : Bool} (h : Node F t0 idx deps (.cos k) as) : Goal F t0 idx deps (.cos k) as := by
  refine un_goal (G := Real.cos) (by simp) h ?_ ?_ ?_
  · intro xs y hy
    rcases xs with _ | ⟨x, _ | ⟨z, l⟩⟩ <;> simp [realApp] at hy
    exact ⟨x, rfl, hy.symm⟩
  · rintro c m rfl rd n
    obtain ⟨d, hd, -⟩ := h.deps
    simp [taylorDiff, unDiff1, hd]
  · rintro b rfl hb hF hv
    obtain ⟨d, rfl, hd⟩ := h.deps
    have hds : SmoothAt (F d) t0 := ((smooth_sin _).comp hb).congr hd
    obtain ⟨hs, hr⟩ := rec_mul (c := fun t => -F d t) hb (smooth_cos _) hds.neg hF
      (.of_forall fun z => Real.hasDerivAt_cos z) (by filter_upwards [hd] with t ht; rw [ht]; rfl)
    refine ⟨hs, fun rd n R => ?_⟩
    simp only [taylorDiff, unDiff1]
    exact cosDiff_ok (app0 hv.self_of_nhds) (fun hn => by rw [hr n hn, cv_neg_left])
      (R.dep (by simp)) (R.arg (a := .u b) (by simp))

theorem node_sinh (h : Node F t0 idx deps .sinh as) : Goal F t0 idx deps .sinh as := by
  refine un_goal (G := Real.sinh) (by simp) h ?_ ?_ ?_
  · intro xs y hy
    rcases xs with _ | ⟨x, _ | ⟨z, l⟩⟩ <;> simp [realApp] at hy
    exact ⟨x, rfl, hy.symm⟩
  · rintro c m rfl rd n
    obtain ⟨d, hd, -⟩ := h.deps
    simp [taylorDiff, unDiff1, hd]
  · rintro b rfl hb hF hv
    obtain ⟨d, rfl, hd⟩ := h.deps
    have hds : SmoothAt (F d) t0 := ((smooth_cosh _).comp hb).congr hd
    obtain ⟨hs, hr⟩ := rec_mul hb (smooth_sinh _) hds hF (.of_forall fun z => Real.hasDerivAt_sinh z) hd
    refine ⟨hs, fun rd n R => ?_⟩
    simp only [taylorDiff, unDiff1]
    exact sinDiff_ok (app0 hv.self_of_nhds) (hr n) (R.dep (by simp)) (R.arg (a := .u b) (by simp))

theorem node_cosh (h : Node F t0 idx deps .cosh as) : Goal F t0 idx deps .cosh as := by
  refine un_goal (G := Real.cosh) (by simp) h ?_ ?_ ?_
  · intro xs y hy
    rcases xs with _ | ⟨x, _ | ⟨z, l⟩⟩ <;> simp [realApp] at hy
    exact ⟨x, rfl, hy.symm⟩
  · rintro c m rfl rd n
    obtain ⟨d, hd, -⟩ := h.deps
    simp [taylorDiff, unDiff1, hd]
  · rintro b rfl hb hF hv
    obtain ⟨d, rfl, hd⟩ := h.deps
    have hds : SmoothAt (F d) t0 := ((smooth_sinh _).comp hb).congr hd
    obtain ⟨hs, hr⟩ := rec_mul hb (smooth_cosh _) hds hF (.of_forall fun z => Real.hasDerivAt_cosh z) hd
    refine ⟨hs, fun rd n R => ?_⟩
    simp only [taylorDiff, unDiff1]
    exact sinDiff_ok (app0 hv.self_of_nhds) (hr n) (R.dep (by simp)) (R.arg (a := .u b) (by simp))

theorem node_tan (h : Node F t0 idx deps .tan as) : Goal F t0 idx deps .tan as := by
  refine un_goal (G := Real.tan) (by simp) h ?_ ?_ ?_
  · intro xs y hy
    rcases xs with _ | ⟨x, _ | ⟨z, l⟩⟩ <;> simp [realApp] at hy
    exact ⟨x, rfl, hy.2.symm⟩
  · rintro c m rfl rd n
    obtain ⟨d, hd, -⟩ := h.deps
    simp [taylorDiff, unDiff1, hd]
  · rintro b rfl hb hF hv
    obtain ⟨d, rfl, hd⟩ := h.deps
    have h0 : Real.cos (F b t0) ≠ 0 := by
      have := hv.self_of_nhds
      simp [realApp] at this
      exact this.1
    have hev : ∀ᶠ z in 𝓝 (F b t0), Real.cos z ≠ 0 := Real.continuous_cos.continuousAt.eventually_ne h0
    have hs0 : SmoothAt (F idx) t0 := ((smooth_tan h0).comp hb).congr hF
    have hds : SmoothAt (F d) t0 := (hs0.pow 2).congr hd
    obtain ⟨hs, hr⟩ := rec_mul (c := fun t => 1 + F d t) (G' := fun z => 1 + Real.tan z ^ 2) hb
      (smooth_tan h0) ((smoothAt_const 1).add hds) hF
      (by
        filter_upwards [hev] with z hz
        refine (Real.hasDerivAt_tan hz).congr_deriv ?_
        have := Real.sin_sq_add_cos_sq z
        rw [Real.tan_eq_sin_div_cos]; field_simp; linarith)
      (by filter_upwards [hd, hF] with t h1 h2; rw [h1, h2])
    refine ⟨hs, fun rd n R => ?_⟩
    simp only [taylorDiff, unDiff1]
    refine tanDiff_ok (app0 hv.self_of_nhds) (fun hn => ?_) (R.dep (by simp)) (R.arg (a := .u b) (by simp))
    rw [hr n hn, cv_add_left (smoothAt_const 1) hds, cv_const_left _ _ _ hn, one_mul]

theorem node_tanh (h : Node F t0 idx deps .tanh as) : Goal F t0 idx deps .tanh as := by
  refine un_goal (G := Real.tanh) (by simp) h ?_ ?_ ?_
  · intro xs y hy
    rcases xs with _ | ⟨x, _ | ⟨z, l⟩⟩ <;> simp [realApp] at hy
    exact ⟨x, rfl, hy.symm⟩
  · rintro c m rfl rd n
    obtain ⟨d, hd, -⟩ := h.deps
    simp [taylorDiff, unDiff1, hd]
  · rintro b rfl hb hF hv
    obtain ⟨d, rfl, hd⟩ := h.deps
    have hs0 : SmoothAt (F idx) t0 := ((smooth_tanh _).comp hb).congr hF
    have hds : SmoothAt (F d) t0 := (hs0.pow 2).congr hd
    obtain ⟨hs, hr⟩ := rec_mul (c := fun t => 1 - F d t) (G' := fun z => 1 - Real.tanh z ^ 2) hb
      (smooth_tanh _) ((smoothAt_const 1).sub hds) hF (.of_forall fun z => hasDerivAt_tanh z)
      (by filter_upwards [hd, hF] with t h1 h2; rw [h1, h2])
    refine ⟨hs, fun rd n R => ?_⟩
    simp only [taylorDiff, unDiff1]
    refine tanhDiff_ok (app0 hv.self_of_nhds) (fun hn => ?_) (R.dep (by simp)) (R.arg (a := .u b) (by simp))
    rw [hr n hn, cv_sub_left (smoothAt_const 1) hds, cv_const_left _ _ _ hn, one_mul]

theorem node_sigmoid (h : Node F t0 idx deps .sigmoid as) : Goal F t0 idx deps .sigmoid as := by
  refine un_goal (G := Real.sigmoid) (by simp) h ?_ ?_ ?_
  · intro xs y hy
    rcases xs with _ | ⟨x, _ | ⟨z, l⟩⟩ <;> simp [realApp] at hy
    exact ⟨x, rfl, hy.symm⟩
  · rintro c m rfl rd n
    obtain ⟨d, hd, -⟩ := h.deps
    simp [taylorDiff, unDiff1, hd]
  · rintro b rfl hb hF hv
    obtain ⟨d, rfl, hd⟩ := h.deps
    have hs0 : SmoothAt (F idx) t0 := ((smooth_sigmoid _).comp hb).congr hF
    have hds : SmoothAt (F d) t0 := (hs0.pow 2).congr hd
    obtain ⟨hs, hr⟩ := rec_mul (c := fun t => F idx t - F d t)
      (G' := fun z => Real.sigmoid z * (1 - Real.sigmoid z)) hb
      (smooth_sigmoid _) (hs0.sub hds) hF (.of_forall fun z => Real.hasDerivAt_sigmoid z)
      (by filter_upwards [hd, hF] with t h1 h2; rw [h1, h2]; ring)
    refine ⟨hs, fun rd n R => ?_⟩
    simp only [taylorDiff, unDiff1]
    refine sigmoidDiff_ok (app0 hv.self_of_nhds) (fun hn => ?_) R.self (R.dep (by simp))
      (R.arg (a := .u b) (by simp))
    rw [hr n hn, cv_sub_left hs0 hds]

theorem node_erf (h : Node F t0 idx deps .erf as) : Goal F t0 idx deps .erf as := by
  refine un_goal (G := realErf) (by simp) h ?_ ?_ ?_
  · intro xs y hy
    rcases xs with _ | ⟨x, _ | ⟨z, l⟩⟩ <;> simp [realApp] at hy
    exact ⟨x, rfl, hy.symm⟩
  · rintro c m rfl rd n
    obtain ⟨d, hd, -⟩ := h.deps
    simp [taylorDiff, unDiff1, hd]
  · rintro b rfl hb hF hv
    obtain ⟨d, rfl, hd⟩ := h.deps
    have hds : SmoothAt (F d) t0 := ((smooth_exp _).comp ((hb.pow 2).neg)).congr hd
    obtain ⟨hs, hr⟩ := rec_mul (c := fun t => 2 / Real.sqrt Real.pi * F d t) hb
      (smooth_erf _) ((smoothAt_const _).mul hds) hF (.of_forall fun z => hasDerivAt_erf z)
      (by filter_upwards [hd] with t h1; rw [h1]; rfl)
    refine ⟨hs, fun rd n R => ?_⟩
    simp only [taylorDiff, unDiff1]
    refine erfDiff_ok (app0 hv.self_of_nhds) (fun hn => ?_) (R.dep (by simp)) (R.arg (a := .u b) (by simp))
    rw [hr n hn, inv_div, cv, cv, mul_sum]
    refine sum_congr rfl fun j _ => ?_
    rw [tc_const_mul hds]; ring

theorem node_asin (h : Node F t0 idx deps .asin as) : Goal F t0 idx deps .asin as := by
  refine un_goal (G := Real.arcsin) (by simp) h ?_ ?_ ?_
  · intro xs y hy
    rcases xs with _ | ⟨x, _ | ⟨z, l⟩⟩ <;> simp [realApp] at hy
    exact ⟨x, rfl, hy.2.symm⟩
  · rintro c m rfl rd n
    obtain ⟨d, hd, -⟩ := h.deps
    simp [taylorDiff, unDiff1, hd]
  · rintro b rfl hb hF hv
    obtain ⟨d, rfl, hd⟩ := h.deps
    have hreg : -1 < F b t0 ∧ F b t0 < 1 := h.reg.resolve_left (by simp [TArg.isCst])
    have hq : 0 < 1 - F b t0 ^ 2 := by nlinarith [hreg.1, hreg.2]
    have hds : SmoothAt (F d) t0 :=
      (SmoothAt.comp (f := fun t => 1 - F b t ^ 2) (smooth_sqrt hq.ne') (((smoothAt_const 1).sub (hb.pow 2)))).congr hd
    have hI := Ioo_mem_nhds hreg.1 hreg.2
    obtain ⟨hs, hr⟩ := rec_inv (c := F d) (G' := fun z => 1 / Real.sqrt (1 - z ^ 2)) hb
      (smooth_arcsin hreg.1 hreg.2) hds hF
      (by filter_upwards [hI] with z hz; exact Real.hasDerivAt_arcsin hz.1.ne' hz.2.ne)
      (by
        filter_upwards [hd, hb.continuousAt.eventually hI] with t h1 h2
        have : 0 < 1 - F b t ^ 2 := by nlinarith [h2.1, h2.2]
        have := Real.sqrt_pos.mpr this
        rw [h1]; simp only [argFn]; field_simp)
    refine ⟨hs, fun rd n R => ?_⟩
    simp only [taylorDiff, unDiff1]
    refine asinDiff_ok (app0 hv.self_of_nhds) ?_ (hr n) R.self (R.dep (by simp)) (R.arg (a := .u b) (by simp))
    rw [hd.self_of_nhds]; exact (Real.sqrt_pos.mpr hq).ne'

theorem node_acos (h : Node F t0 idx deps .acos as) : Goal F t0 idx deps .acos as := by
  refine un_goal (G := Real.arccos) (by simp) h ?_ ?_ ?_
  · intro xs y hy
    rcases xs with _ | ⟨x, _ | ⟨z, l⟩⟩ <;> simp [realApp] at hy
    exact ⟨x, rfl, hy.2.symm⟩
  · rintro c m rfl rd n
    obtain ⟨d, hd, -⟩ := h.deps
    simp [taylorDiff, unDiff1, hd]
  · rintro b rfl hb hF hv
    obtain ⟨d, rfl, hd⟩ := h.deps
    have hreg : -1 < F b t0 ∧ F b t0 < 1 := h.reg.resolve_left (by simp [TArg.isCst])
    have hq : 0 < 1 - F b t0 ^ 2 := by nlinarith [hreg.1, hreg.2]
    have hds : SmoothAt (F d) t0 :=
      (SmoothAt.comp (f := fun t => 1 - F b t ^ 2) (smooth_sqrt hq.ne') (((smoothAt_const 1).sub (hb.pow 2)))).congr hd
    have hI := Ioo_mem_nhds hreg.1 hreg.2
    obtain ⟨hs, hr⟩ := rec_inv (c := fun t => -F d t) (G' := fun z => -(1 / Real.sqrt (1 - z ^ 2))) hb
      (smooth_arccos hreg.1 hreg.2) hds.neg hF
      (by filter_upwards [hI] with z hz; exact Real.hasDerivAt_arccos hz.1.ne' hz.2.ne)
      (by
        filter_upwards [hd, hb.continuousAt.eventually hI] with t h1 h2
        have : 0 < 1 - F b t ^ 2 := by nlinarith [h2.1, h2.2]
        have := Real.sqrt_pos.mpr this
        rw [h1]; simp only [argFn]; field_simp)
    refine ⟨hs, fun rd n R => ?_⟩
    simp only [taylorDiff, unDiff1]
    refine acosDiff_ok (app0 hv.self_of_nhds) ?_ (fun hn => by rw [hr n hn, cv_neg_left]) R.self
      (R.dep (by simp)) (R.arg (a := .u b) (by simp))
    rw [hd.self_of_nhds]; exact (Real.sqrt_pos.mpr hq).ne'

theorem node_asinh (h : Node F t0 idx deps .asinh as) : Goal F t0 idx deps .asinh as := by
  refine un_goal (G := Real.arsinh) (by simp) h ?_ ?_ ?_
  · intro xs y hy
    rcases xs with _ | ⟨x, _ | ⟨z, l⟩⟩ <;> simp [realApp] at hy
    exact ⟨x, rfl, hy.symm⟩
  · rintro c m rfl rd n
    obtain ⟨d, hd, -⟩ := h.deps
    simp [taylorDiff, unDiff1, hd]
  · rintro b rfl hb hF hv
    obtain ⟨d, rfl, hd⟩ := h.deps
    have hq : ∀ t, 0 < 1 + F b t ^ 2 := fun t => by positivity
    have hds : SmoothAt (F d) t0 :=
      (SmoothAt.comp (f := fun t => 1 + F b t ^ 2) (smooth_sqrt (hq t0).ne') (((smoothAt_const 1).add (hb.pow 2)))).congr hd
    obtain ⟨hs, hr⟩ := rec_inv (c := F d) (G' := fun z => (Real.sqrt (1 + z ^ 2))⁻¹) hb
      (smooth_arsinh _) hds hF (.of_forall fun z => Real.hasDerivAt_arsinh z)
      (by
        filter_upwards [hd] with t h1
        have := Real.sqrt_pos.mpr (hq t)
        rw [h1]; simp only [argFn]; exact mul_inv_cancel₀ this.ne')
    refine ⟨hs, fun rd n R => ?_⟩
    simp only [taylorDiff, unDiff1]
    refine asinDiff_ok (app0 hv.self_of_nhds) ?_ (hr n) R.self (R.dep (by simp)) (R.arg (a := .u b) (by simp))
    rw [hd.self_of_nhds]; exact (Real.sqrt_pos.mpr (hq t0)).ne'

theorem node_acosh (h : Node F t0 idx deps .acosh as) : Goal F t0 idx deps .acosh as := by
  refine un_goal (G := Real.arcosh) (by simp) h ?_ ?_ ?_
  · intro xs y hy
    rcases xs with _ | ⟨x, _ | ⟨z, l⟩⟩ <;> simp [realApp] at hy
    exact ⟨x, rfl, hy.2.symm⟩
  · rintro c m rfl rd n
    obtain ⟨d, hd, -⟩ := h.deps
    simp [taylorDiff, unDiff1, hd]
  · rintro b rfl hb hF hv
    obtain ⟨d, rfl, hd⟩ := h.deps
    have hreg : 1 < F b t0 := h.reg.resolve_left (by simp [TArg.isCst])
    have hq : 0 < F b t0 ^ 2 - 1 := by nlinarith
    have hds : SmoothAt (F d) t0 :=
      (SmoothAt.comp (f := fun t => F b t ^ 2 - 1) (smooth_sqrt hq.ne') ((hb.pow 2).sub (smoothAt_const 1))).congr hd
    have hI := Ioi_mem_nhds hreg
    obtain ⟨hs, hr⟩ := rec_inv (c := F d) (G' := fun z => (Real.sqrt (z ^ 2 - 1))⁻¹) hb
      (smooth_arcosh hreg) hds hF
      (by filter_upwards [hI] with z hz; exact Real.hasDerivAt_arcosh hz)
      (by
        filter_upwards [hd, hb.continuousAt.eventually hI] with t h1 h2
        have h2 : 1 < F b t := h2
        have : 0 < F b t ^ 2 - 1 := by nlinarith
        have := Real.sqrt_pos.mpr this
        rw [h1]; simp only [argFn]; exact mul_inv_cancel₀ this.ne')
    refine ⟨hs, fun rd n R => ?_⟩
    simp only [taylorDiff, unDiff1]
    refine asinDiff_ok (app0 hv.self_of_nhds) ?_ (hr n) R.self (R.dep (by simp)) (R.arg (a := .u b) (by simp))
    rw [hd.self_of_nhds]; exact (Real.sqrt_pos.mpr hq).ne'

theorem node_atan (h : Node F t0 idx deps .atan as) : Goal F t0 idx deps .atan as := by
  refine un_goal (G := Real.arctan) (by simp) h ?_ ?_ ?_
  · intro xs y hy
    rcases xs with _ | ⟨x, _ | ⟨z, l⟩⟩ <;> simp [realApp] at hy
    exact ⟨x, rfl, hy.symm⟩
  · rintro c m rfl rd n
    obtain ⟨d, hd, -⟩ := h.deps
    simp [taylorDiff, unDiff1, hd]
  · rintro b rfl hb hF hv
    obtain ⟨d, rfl, hd⟩ := h.deps
    have hds : SmoothAt (F d) t0 := (hb.pow 2).congr hd
    obtain ⟨hs, hr⟩ := rec_inv (c := fun t => 1 + F d t) (G' := fun z => 1 / (1 + z ^ 2)) hb
      (smooth_arctan _) ((smoothAt_const 1).add hds) hF (.of_forall fun z => Real.hasDerivAt_arctan z)
      (by
        filter_upwards [hd] with t h1
        have : 0 < 1 + F b t ^ 2 := by positivity
        rw [h1]; simp only [argFn]; field_simp)
    refine ⟨hs, fun rd n R => ?_⟩
    simp only [taylorDiff, unDiff1]
    refine atanDiff_ok (app0 hv.self_of_nhds) ?_ (fun hn => ?_) R.self (R.dep (by simp))
      (R.arg (a := .u b) (by simp))
    · rw [hd.self_of_nhds]; simp only [argFn]; positivity
    · rw [hr n hn, cv_add_left (smoothAt_const 1) hds, cv_const_left _ _ _ hn, one_mul]

theorem node_atanh (h : Node F t0 idx deps .atanh as) : Goal F t0 idx deps .atanh as := by
  refine un_goal (G := Real.artanh) (by simp) h ?_ ?_ ?_
  · intro xs y hy
    rcases xs with _ | ⟨x, _ | ⟨z, l⟩⟩ <;> simp [realApp] at hy
    exact ⟨x, rfl, hy.2.symm⟩
  · rintro c m rfl rd n
    obtain ⟨d, hd, -⟩ := h.deps
    simp [taylorDiff, unDiff1, hd]
  · rintro b rfl hb hF hv
    obtain ⟨d, rfl, hd⟩ := h.deps
    have hds : SmoothAt (F d) t0 := (hb.pow 2).congr hd
    have hreg : -1 < F b t0 ∧ F b t0 < 1 := by
      have := hv.self_of_nhds
      simp [realApp] at this
      exact this.1
    have hI := Ioo_mem_nhds hreg.1 hreg.2
    obtain ⟨hs, hr⟩ := rec_inv (c := fun t => 1 - F d t) (G' := fun z => (1 - z ^ 2)⁻¹) hb
      (smooth_artanh hreg.1 hreg.2) ((smoothAt_const 1).sub hds) hF
      (by filter_upwards [hI] with z hz; exact hasDerivAt_artanh hz.1 hz.2)
      (by
        filter_upwards [hd, hb.continuousAt.eventually hI] with t h1 h2
        have : 0 < 1 - F b t ^ 2 := by nlinarith [h2.1, h2.2]
        rw [h1]; simp only [argFn]; exact mul_inv_cancel₀ this.ne')
    refine ⟨hs, fun rd n R => ?_⟩
    simp only [taylorDiff, unDiff1]
    refine atanhDiff_ok (app0 hv.self_of_nhds) ?_ (fun hn => ?_) R.self (R.dep (by simp))
      (R.arg (a := .u b) (by simp))
    · rw [hd.self_of_nhds]; simp only [argFn]
      have : 0 < 1 - F b t0 ^ 2 := by nlinarith [hreg.1, hreg.2]
      exact this.ne'
    · rw [hr n hn, cv_sub_left (smoothAt_const 1) hds, cv_const_left _ _ _ hn, one_mul]

end Heyoka.Taylor
