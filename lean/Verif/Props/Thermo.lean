import Verif.Models.Thermo
import Verif.Props.Ffnn

/-!
# Thermospheric density (C68)

The specification is `tnDensity` with `tnNeuron` (`Verif/Models/Thermo.lean`).
-/

set_option linter.unusedSectionVars false

namespace Heyoka.Models

open Heyoka.Sym

section
variable [DFunc]

theorem evalL_get {v : Env ℝ} : ∀ {l : List (Expr ℝ)} {ys : List ℝ}, Expr.evalL v l = some ys → ∀ i < l.length,
    (l[i]?).bind (Expr.eval v) = some (ys.getD i 0) := by
  intro l
  induction l with
  | nil => intro ys _ i hi; simp at hi
  | cons e l ih =>
    intro ys hy i hi
    cases hx : e.eval v with
    | none => simp [Expr.evalL, hx] at hy
    | some y =>
      cases hxs : Expr.evalL v l with
      | none => simp [Expr.evalL, hx, hxs] at hy
      | some ys' =>
        have : ys = y :: ys' := by simp [Expr.evalL, hx, hxs] at hy; exact hy.symm
        subst this
        cases i with
        | zero => simpa using hx
        | succ i => simpa using ih hxs i (by simpa using hi)

theorem evalL_append_some {v : Env ℝ} : ∀ {es fs : List (Expr ℝ)} {xs ys : List ℝ}, Expr.evalL v es = some xs →
    Expr.evalL v fs = some ys → Expr.evalL v (es ++ fs) = some (xs ++ ys) := by
  intro es fs xs ys h1 h2
  rw [evalL_append_eq, h1, h2]
  rfl

/-- The network is built, and its outputs are the ones of the specification. -/
theorem tnNet_spec {wb : List ℝ} {inp : List (Expr ℝ)} (hi : 0 < inp.length) (hi' : inp.length < 1000)
    (hwb : wb.length = 32 * inp.length + 1484) :
    ∃ out, tnNet wb inp = .ok out ∧ out.length = 12 ∧ ∀ v xs, Expr.evalL v inp = some xs →
      ∀ i < 12, (out.getD i (.dbl 0)).eval v = some (tnNeuron wb xs i) := by
  have hpar : nParams inp.length [32, 32] 12 = 32 * inp.length + 1484 := by
    simp [nParams, nWeights, nBiases, Finset.sum_range_succ, layerSize]
    omega
  have hv : FfValid inp.length [32, 32] 12 [some (unaryE .tanh), some (unaryE .tanh), some (unaryE .tanh)]
      (some (wb.map (Expr.dbl (K := ℝ)))) := by
    refine ⟨rfl, by simp, hi, by simp, by simp, ?_, by rw [hpar]; omega⟩
    intro w hw
    cases hw
    rw [List.length_map, hwb, hpar]
  obtain ⟨out, h1, h2, h3⟩ := ffnn_value hv
  have hl : out.length = 12 := by exact_mod_cast h2
  refine ⟨out, h1, hl, ?_⟩
  intro v xs hxs i hi12
  have hlen : xs.length = inp.length := evalL_length hxs
  have := h3 v (fun k => wb.getD k 0) (fun _ => Real.tanh) (fun j => xs.getD j 0) (evalL_get hxs) ?_ (by simp) ?_ i (by omega)
  · have hn : (fun k => ([xs.length, 32, 32, 12] : List Nat).getD k 0) = layerSize inp.length [32, 32] 12 := by
      funext k
      rw [hlen]
      rfl
    have h3' : ([32, 32] : List Int).length + 1 = 3 := by simp
    rw [h3'] at this
    have this := eval_getD this
    unfold tnNeuron
    rw [hn]
    generalize layerSize inp.length [32, 32] 12 = n at this ⊢
    exact this
  · intro w hw k hk
    cases hw
    rw [List.length_map] at hk
    simp [List.getElem?_map, List.getD_eq_getElem?_getD, List.getElem?_eq_getElem hk]
  · intro k f hf e y he
    have : f = unaryE .tanh := by
      rcases k with _ | _ | _ | k <;> simp at hf <;> exact hf.symm
    subst this
    exact ev_unary (by simp) (by simp) he (by simp [realApp])

/-- The inputs of the network of `nrlmsise00_tn()`. -/
noncomputable def nrlInputs (c : TnConsts ℝ) (lat lon f107 f107a ap t : ℝ) : List ℝ :=
  tnBaseVal c lat lon t ++ [rescale 60 266 f107, rescale 60 170 f107a, rescale 0 110 ap]

/-- The density of `nrlmsise00_tn()`. -/
noncomputable def nrlDensity (c : TnConsts ℝ) (wb : List ℝ) (h lat lon f107 f107a ap t : ℝ) : ℝ :=
  tnDensity (fun i => ((nrlFit.getD i 0 : ℚ) : ℝ)) (tnNeuron wb (nrlInputs c lat lon f107 f107a ap t)) 5 h

/-- The inputs of the network of `jb08_tn()`: the averages come before the daily values. -/
noncomputable def jbInputs (c : TnConsts ℝ) (lat lon f107 f107a s107 s107a m107 m107a y107 y107a dDstdT t : ℝ) : List ℝ :=
  tnBaseVal c lat lon t ++ [rescale 60 266 f107a, rescale 60 170 f107, rescale 50 190 s107a, rescale 50 170 s107,
    rescale 50 190 m107a, rescale 50 160 m107, rescale 50 180 y107a, rescale 50 170 y107, rescale 0 390 dDstdT]

/-- The density of `jb08_tn()`. -/
noncomputable def jbDensity (c : TnConsts ℝ) (wb : List ℝ) (h lat lon f107 f107a s107 s107a m107 m107a y107 y107a dDstdT t : ℝ) : ℝ :=
  tnDensity (fun i => ((jbFit.getD i 0 : ℚ) : ℝ))
    (tnNeuron wb (jbInputs c lat lon f107 f107a s107 s107a m107 m107a y107 y107a dDstdT t)) 1 h

variable {c : TnConsts ℝ} {wb : List ℝ}

/-- `nrlmsise00_tn()` rejects the coordinates which are not three. -/
theorem nrl_rejects {g : List (Expr ℝ)} (a : NrlArgs ℝ) (hg : g.length ≠ 3) : nrlTn c wb g a = .throw := by
  unfold nrlTn nrlImpl
  split
  · simp at hg
  · rfl

/-- `jb08_tn()` rejects the coordinates which are not three. -/
theorem jb_rejects {g : List (Expr ℝ)} (a : JbArgs ℝ) (hg : g.length ≠ 3) : jbTn c wb g a = .throw := by
  unfold jbTn jbImpl
  split
  · simp at hg
  · rfl

/-- The density of `nrlmsise00_tn()`, whatever the expressions of the arguments are: there are ten inputs, hence `1804` weights and biases. -/
theorem nrl_value (hc : c.halfPi ≠ 0) (hwb : wb.length = 1804) (h lat lon : Expr ℝ) (a : NrlArgs ℝ) :
    ∃ e, nrlTn c wb [h, lat, lon] a = .ok e ∧ ∀ v y φ l f fa ap t, h.eval v = some y → lat.eval v = some φ → lon.eval v = some l →
      a.f107.eval v = some f → a.f107a.eval v = some fa → a.ap.eval v = some ap → a.timeExpr.eval v = some t →
      e.eval v = some (nrlDensity c wb y φ l f fa ap t) := by
  obtain ⟨out, h1, h2, h3⟩ := tnNet_spec (wb := wb) (inp := tnBase c lat lon a.timeExpr ++
    [normMM a.f107 60 266, normMM a.f107a 60 170, normMM a.ap 0 110]) (by simp) (by simp [tnBase]) (by simp [tnBase, hwb])
  refine ⟨_, by simp only [nrlTn, nrlImpl, h1, Res.bind_ok]; rfl, ?_⟩
  intro v y φ l f fa ap t hy hφ hl hf hfa hap ht
  have hin : Expr.evalL v (tnBase c lat lon a.timeExpr ++ [normMM a.f107 60 266, normMM a.f107a 60 170, normMM a.ap 0 110]) =
      some (nrlInputs c φ l f fa ap t) := by
    rw [nrlInputs]
    refine evalL_append_some (ev_tnBase hc hφ hl ht) ?_
    simp [ev_normMM hf (show (266 : ℝ) - 60 ≠ 0 by norm_num), ev_normMM hfa (show (170 : ℝ) - 60 ≠ 0 by norm_num),
      ev_normMM hap (show (110 : ℝ) - 0 ≠ 0 by norm_num)]
  have hs : (scaleGammas out).length = 12 := by simp [scaleGammas, h2]
  rw [ev_rhoApprox hy (ev_tnParams hs (ev_scaleGammas h2 (h3 v _ hin)))]
  simp [nrlDensity, tnDensity, expDensity, mul_comm (5 : ℝ), Fin.sum_univ_four]

/-- The density of `jb08_tn()`, whatever the expressions of the arguments are: there are sixteen inputs, hence `1996` weights and biases. -/
theorem jb_value (hc : c.halfPi ≠ 0) (hwb : wb.length = 1996) (h lat lon : Expr ℝ) (a : JbArgs ℝ) :
    ∃ e, jbTn c wb [h, lat, lon] a = .ok e ∧ ∀ v y φ l f fa s sa m ma u ua d t, h.eval v = some y → lat.eval v = some φ →
      lon.eval v = some l → a.f107.eval v = some f → a.f107a.eval v = some fa → a.s107.eval v = some s → a.s107a.eval v = some sa →
      a.m107.eval v = some m → a.m107a.eval v = some ma → a.y107.eval v = some u → a.y107a.eval v = some ua →
      a.dDstdT.eval v = some d → a.timeExpr.eval v = some t →
      e.eval v = some (jbDensity c wb y φ l f fa s sa m ma u ua d t) := by
  obtain ⟨out, h1, h2, h3⟩ := tnNet_spec (wb := wb) (inp := tnBase c lat lon a.timeExpr ++
    [normMM a.f107a 60 266, normMM a.f107 60 170, normMM a.s107a 50 190, normMM a.s107 50 170, normMM a.m107a 50 190,
      normMM a.m107 50 160, normMM a.y107a 50 180, normMM a.y107 50 170, normMM a.dDstdT 0 390])
    (by simp) (by simp [tnBase]) (by simp [tnBase, hwb])
  refine ⟨_, by simp only [jbTn, jbImpl, h1, Res.bind_ok]; rfl, ?_⟩
  intro v y φ l f fa s sa m ma u ua d t hy hφ hl hf hfa hs hsa hm hma hu hua hd ht
  have hin : Expr.evalL v (tnBase c lat lon a.timeExpr ++ [normMM a.f107a 60 266, normMM a.f107 60 170, normMM a.s107a 50 190,
      normMM a.s107 50 170, normMM a.m107a 50 190, normMM a.m107 50 160, normMM a.y107a 50 180, normMM a.y107 50 170,
      normMM a.dDstdT 0 390]) = some (jbInputs c φ l f fa s sa m ma u ua d t) := by
    rw [jbInputs]
    refine evalL_append_some (ev_tnBase hc hφ hl ht) ?_
    simp [ev_normMM hf (show (170 : ℝ) - 60 ≠ 0 by norm_num), ev_normMM hfa (show (266 : ℝ) - 60 ≠ 0 by norm_num),
      ev_normMM hs (show (170 : ℝ) - 50 ≠ 0 by norm_num), ev_normMM hsa (show (190 : ℝ) - 50 ≠ 0 by norm_num),
      ev_normMM hm (show (160 : ℝ) - 50 ≠ 0 by norm_num), ev_normMM hma (show (190 : ℝ) - 50 ≠ 0 by norm_num),
      ev_normMM hu (show (170 : ℝ) - 50 ≠ 0 by norm_num), ev_normMM hua (show (180 : ℝ) - 50 ≠ 0 by norm_num),
      ev_normMM hd (show (390 : ℝ) - 0 ≠ 0 by norm_num)]
  rw [ev_rhoApprox hy (ev_tnParams h2 (h3 v _ hin))]
  simp [jbDensity, tnDensity, expDensity, Fin.sum_univ_four]

/-- The density of `nrlmsise00_tn()` is positive and decreases with the altitude, for all the weights and the values of the inputs. -/
theorem nrl_physical (lat lon f107 f107a ap t : ℝ) :
    (∀ h, 0 < nrlDensity c wb h lat lon f107 f107a ap t) ∧
      StrictAnti fun h => nrlDensity c wb h lat lon f107 f107a ap t :=
  tnDensity_good (fit_pos nrlFit_pos) fun _ => tnNeuron_gt _ _ _

/-- The density of `jb08_tn()` is positive and decreases with the altitude, for all the weights and the values of the inputs. -/
theorem jb_physical (lat lon f107 f107a s107 s107a m107 m107a y107 y107a dDstdT t : ℝ) :
    (∀ h, 0 < jbDensity c wb h lat lon f107 f107a s107 s107a m107 m107a y107 y107a dDstdT t) ∧
      StrictAnti fun h => jbDensity c wb h lat lon f107 f107a s107 s107a m107 m107a y107 y107a dDstdT t :=
  tnDensity_good (fit_pos jbFit_pos) fun _ => tnNeuron_gt _ _ _

/-- The densities do not change after one turn of longitude. -/
theorem tn_longitude (h lat lon f107 f107a s107 s107a m107 m107a y107 y107a ap dDstdT t : ℝ) :
    nrlDensity c wb h lat (lon + 2 * Real.pi) f107 f107a ap t = nrlDensity c wb h lat lon f107 f107a ap t ∧
      jbDensity c wb h lat (lon + 2 * Real.pi) f107 f107a s107 s107a m107 m107a y107 y107a dDstdT t =
        jbDensity c wb h lat lon f107 f107a s107 s107a m107 m107a y107 y107a dDstdT t := by
  simp [nrlDensity, jbDensity, nrlInputs, jbInputs, tnBaseVal, Real.sin_add_two_pi, Real.cos_add_two_pi]

end

section
local instance instDFuncThermo : DFunc := ⟨none⟩

/-- A network without corrections, at 300 km of altitude. -/
example : ∃ e, nrlTn (K := ℝ) ⟨6.28, 0.0172, 1.57⟩ (List.replicate 1804 0) [.dbl 300, .var "lat", .var "lon"]
    ⟨.dbl 150, .dbl 140, .dbl 15, .par 0⟩ = .ok e ∧ ∀ v, ∃ ρ, e.eval v = some ρ ∧ 0 < ρ := by
  obtain ⟨e, h1, h2⟩ := nrl_value (c := (⟨6.28, 0.0172, 1.57⟩ : TnConsts ℝ)) (wb := List.replicate 1804 0) (by norm_num)
    List.length_replicate (.dbl 300) (.var "lat") (.var "lon") ⟨.dbl 150, .dbl 140, .dbl 15, .par 0⟩
  refine ⟨e, h1, fun v => ⟨_, h2 v 300 (v.var "lat") (v.var "lon") 150 140 15 (v.par 0) (by simp) (by simp) (by simp) (by simp)
    (by simp) (by simp) (by simp), (nrl_physical _ _ _ _ _ _).1 _⟩⟩

/-- The values of the fit at the reference altitudes, if nothing is corrected: every exponential contributes its amplitude. -/
example : expDensity ![1, 2, 3, 4] ![1, 1, 1, 1] ![7, 7, 7, 7] 7 = 10 := by
  norm_num [expDensity, Fin.sum_univ_succ]

/-- Two coordinates are not enough. -/
example : jbTn (K := ℝ) ⟨6.28, 0.0172, 1.57⟩ (List.replicate 1996 0) [.dbl 300, .var "lat"]
    ⟨.dbl 1, .dbl 1, .dbl 1, .dbl 1, .dbl 1, .dbl 1, .dbl 1, .dbl 1, .dbl 1, .dbl 1⟩ = .throw := jb_rejects _ (by simp)

end

end Heyoka.Models
