import Verif.Expr.DiffSpec
import Mathlib.Analysis.Calculus.Deriv.Pi
import Mathlib.Analysis.Calculus.Deriv.Prod
import Mathlib.Analysis.Calculus.FDeriv.Pi
import Mathlib.Analysis.Calculus.FDeriv.Symmetric

/-!
# The partial derivatives of functions of lists
-/

set_option linter.unusedSectionVars false

open Filter Topology ContDiff

namespace Heyoka.Sym

/-- The elements of a list as a vector. -/
def vec (l : List ℝ) : Fin l.length → ℝ := fun i => l[i]

theorem ofFn_vec (l : List ℝ) : List.ofFn (vec l) = l := List.ofFn_getElem

theorem ofFn_set {n : Nat} (y : Fin n → ℝ) (i : Nat) (hi : i < n) (t : ℝ) :
    (List.ofFn y).set i t = List.ofFn (Function.update y ⟨i, hi⟩ t) := by
  apply List.ext_getElem (by simp)
  intro k h1 h2
  rw [List.getElem_set]
  by_cases h : i = k
  · subst h; simp
  · rw [if_neg h]
    simp only [List.getElem_ofFn]
    rw [Function.update_of_ne]
    intro hc
    exact h (congrArg Fin.val hc).symm

/-- The partial derivative in terms of the derivative. -/
theorem lpd_fderiv {n : Nat} {F : List ℝ → ℝ} {y : Fin n → ℝ} (h : DifferentiableAt ℝ (onVec n F) y) (i : Nat) (hi : i < n) :
    onVec n (lpd i F) y = fderiv ℝ (onVec n F) y (Pi.single ⟨i, hi⟩ 1) := by
  have hg : (List.ofFn y).getD i 0 = y ⟨i, hi⟩ := by simp [List.getD, hi]
  unfold onVec lpd
  rw [hg]
  have h1 : (fun t => F ((List.ofFn y).set i t)) = fun t => onVec n F (Function.update y ⟨i, hi⟩ t) := by
    funext t
    rw [ofFn_set y i hi]; rfl
  rw [h1]
  have h2 := hasDerivAt_update y ⟨i, hi⟩ (y ⟨i, hi⟩)
  have h3 : HasFDerivAt (onVec n F) (fderiv ℝ (onVec n F) y) (Function.update y ⟨i, hi⟩ (y ⟨i, hi⟩)) := by
    rw [Function.update_eq_self]; exact h.hasFDerivAt
  exact (h3.comp_hasDerivAt _ h2).deriv

theorem lpd_out {n : Nat} {F : List ℝ → ℝ} {y : Fin n → ℝ} (i : Nat) (hi : n ≤ i) : onVec n (lpd i F) y = 0 := by
  unfold onVec lpd
  have h1 : (fun t => F ((List.ofFn y).set i t)) = fun _ => F (List.ofFn y) := by
    funext t
    rw [List.set_eq_of_length_le (by simpa using hi)]
  rw [h1]
  exact deriv_const _ _

theorem two_le_infty : (1 + 1 : WithTop ℕ∞) ≤ ∞ := (WithTop.coe_le_coe (α := ℕ∞) (b := 1 + 1) (a := ⊤)).2 le_top

/-- Smoothness on an open set of vectors. -/
def SmAt {n : Nat} (F : List ℝ → ℝ) (y : Fin n → ℝ) : Prop := ∀ᶠ z in 𝓝 y, ContDiffAt ℝ ∞ (onVec n F) z

theorem SmAt.self {n : Nat} {F : List ℝ → ℝ} {y : Fin n → ℝ} (h : SmAt F y) : ContDiffAt ℝ ∞ (onVec n F) y := h.self_of_nhds

theorem SmAt.near {n : Nat} {F : List ℝ → ℝ} {y : Fin n → ℝ} (h : SmAt F y) : ∀ᶠ z in 𝓝 y, SmAt F z :=
  eventually_eventually_nhds.2 h

theorem SmAt.diff {n : Nat} {F : List ℝ → ℝ} {y : Fin n → ℝ} (h : SmAt F y) : DifferentiableAt ℝ (onVec n F) y :=
  h.self.differentiableAt (by simp)

theorem SmAt.congr {n : Nat} {F G : List ℝ → ℝ} {y : Fin n → ℝ} (h : SmAt F y) (he : onVec n F =ᶠ[𝓝 y] onVec n G) : SmAt G y := by
  filter_upwards [h, eventually_eventually_nhds.2 he] with z h1 h2
  exact h1.congr_of_eventuallyEq (h2.mono fun _ h => h.symm)

theorem SmAt.lpd {n : Nat} {F : List ℝ → ℝ} {y : Fin n → ℝ} (h : SmAt F y) (i : Nat) : SmAt (lpd i F) y := by
  by_cases hi : i < n
  · filter_upwards [h.near] with z hz
    have h1 : ContDiffAt ℝ ∞ (fun w => fderiv ℝ (onVec n F) w (Pi.single ⟨i, hi⟩ 1)) z :=
      (hz.self.fderiv_right (m := ∞) (by simp)).clm_apply contDiffAt_const
    refine h1.congr_of_eventuallyEq ?_
    filter_upwards [hz.near] with w hw
    exact lpd_fderiv hw.diff i hi
  · refine Eventually.of_forall fun z => ?_
    have : onVec n (Sym.lpd i F) = fun _ => 0 := funext fun w => lpd_out i (by omega)
    rw [this]
    exact contDiffAt_const

theorem lpd_congr {n : Nat} {F G : List ℝ → ℝ} {y : Fin n → ℝ} (he : onVec n F =ᶠ[𝓝 y] onVec n G) (i : Nat) :
    onVec n (lpd i F) =ᶠ[𝓝 y] onVec n (lpd i G) := by
  filter_upwards [eventually_eventually_nhds.2 he] with z hz
  by_cases hi : i < n
  · unfold onVec lpd
    have hg : (List.ofFn z).getD i 0 = z ⟨i, hi⟩ := by simp [List.getD, hi]
    rw [hg]
    refine EventuallyEq.deriv_eq ?_
    have hc : Tendsto (fun t => Function.update z ⟨i, hi⟩ t) (𝓝 (z ⟨i, hi⟩)) (𝓝 z) := by
      have := (hasDerivAt_update z ⟨i, hi⟩ (z ⟨i, hi⟩)).continuousAt
      unfold ContinuousAt at this
      rwa [Function.update_eq_self] at this
    filter_upwards [hc.eventually hz] with t ht
    rw [ofFn_set z i hi]
    exact ht
  · rw [lpd_out i (by omega), lpd_out i (by omega)]

/-- Partial derivatives commute. -/
theorem lpd_comm {n : Nat} {F : List ℝ → ℝ} {y : Fin n → ℝ} (h : SmAt F y) (i j : Nat) :
    onVec n (lpd i (lpd j F)) =ᶠ[𝓝 y] onVec n (lpd j (lpd i F)) := by
  filter_upwards [h.near] with z hz
  by_cases hi : i < n
  · by_cases hj : j < n
    · have key : ∀ (i j : Nat) (hi : i < n) (hj : j < n), onVec n (lpd i (lpd j F)) z =
          fderiv ℝ (fderiv ℝ (onVec n F)) z (Pi.single ⟨i, hi⟩ 1) (Pi.single ⟨j, hj⟩ 1) := by
        intro i j hi hj
        rw [lpd_fderiv (hz.lpd j).diff i hi]
        have h1 : onVec n (lpd j F) =ᶠ[𝓝 z] fun w => fderiv ℝ (onVec n F) w (Pi.single ⟨j, hj⟩ 1) := by
          filter_upwards [hz.near] with w hw
          exact lpd_fderiv hw.diff j hj
        rw [h1.fderiv_eq]
        have h2 : DifferentiableAt ℝ (fderiv ℝ (onVec n F)) z :=
          (hz.self.fderiv_right (m := 1) two_le_infty).differentiableAt (by norm_num)
        have h3 := h2.hasFDerivAt.clm_apply (hasFDerivAt_const (Pi.single ⟨j, hj⟩ (1 : ℝ)) z)
        rw [h3.fderiv]
        simp
      rw [key i j hi hj, key j i hj hi]
      exact hz.self.isSymmSndFDerivAt (by simpa [one_add_one_eq_two] using two_le_infty) _ _
    · have h1 : onVec n (lpd j F) = fun _ => 0 := funext fun w => lpd_out j (by omega)
      rw [lpd_out j (by omega), lpd_fderiv (by rw [h1]; fun_prop) i hi, h1]
      simp
  · rw [lpd_out i (by omega)]
    by_cases hj : j < n
    · have h1 : onVec n (lpd i F) = fun _ => 0 := funext fun w => lpd_out i (by omega)
      rw [lpd_fderiv (by rw [h1]; fun_prop) j hj, h1]
      simp
    · rw [lpd_out j (by omega)]

theorem SmAt.iter {n : Nat} {F : List ℝ → ℝ} {y : Fin n → ℝ} (h : SmAt F y) (i k : Nat) : SmAt ((Sym.lpd i)^[k] F) y := by
  induction k with
  | zero => exact h
  | succ k ih => rw [Function.iterate_succ_apply']; exact ih.lpd i

theorem iter_congr {n : Nat} {F G : List ℝ → ℝ} {y : Fin n → ℝ} (he : onVec n F =ᶠ[𝓝 y] onVec n G) (i k : Nat) :
    onVec n ((lpd i)^[k] F) =ᶠ[𝓝 y] onVec n ((lpd i)^[k] G) := by
  induction k with
  | zero => exact he
  | succ k ih => rw [Function.iterate_succ_apply', Function.iterate_succ_apply']; exact lpd_congr ih i

theorem lpd_iter {n : Nat} {F : List ℝ → ℝ} {y : Fin n → ℝ} (h : SmAt F y) (i j k : Nat) :
    onVec n (lpd i ((lpd j)^[k] F)) =ᶠ[𝓝 y] onVec n ((lpd j)^[k] (lpd i F)) := by
  induction k with
  | zero => exact .rfl
  | succ k ih =>
    rw [Function.iterate_succ_apply', Function.iterate_succ_apply']
    exact (lpd_comm (h.iter j k) i j).trans (lpd_congr ih j)

theorem SmAt.dpart {n : Nat} {F : List ℝ → ℝ} {y : Fin n → ℝ} (h : SmAt F y) (didx : List (Nat × Nat)) : SmAt (dpart didx F) y := by
  induction didx with
  | nil => exact h
  | cons p t ih => exact ih.iter p.1 p.2

theorem bumpIdx_true {i : Nat} {didx : List (Nat × Nat)} (h : ∀ p ∈ didx, i < p.1) :
    bumpIdx i true didx = didx := by
  induction didx with
  | nil => rfl
  | cons p r ih =>
    obtain ⟨j, o⟩ := p
    have hj := h (j, o) (by simp)
    simp only at hj
    rw [bumpIdx, if_neg (by omega), if_neg (by omega), ih fun q hq => h q (by simp [hq])]
    simp

theorem dOrder_cons (p : Nat × Nat) (r : List (Nat × Nat)) (k : Nat) :
    dOrder (p :: r) k = (if p.1 = k then p.2 else 0) + dOrder r k := by
  unfold dOrder
  by_cases h : p.1 = k <;> simp [h]

/-- The gradient of `dfun` increments the order of the derivative with respect to the argument by one
and leaves the other orders alone, and the result is again well-formed. -/
theorem dfun_bump {i : Nat} {didx : List (Nat × Nat)} (h : DIdxOk didx) :
    DIdxOk (bumpIdx i false didx) ∧
      (∀ j, dOrder (bumpIdx i false didx) j = dOrder didx j + if j = i then 1 else 0) ∧
      ∀ b, (∀ p ∈ didx, b < p.1) → b < i → ∀ p ∈ bumpIdx i false didx, b < p.1 := by
  induction didx with
  | nil =>
    simp only [bumpIdx, Bool.false_eq_true, if_false]
    refine ⟨⟨by simp, by simp⟩, fun j => ?_, by simp⟩
    by_cases hj : j = i <;> simp [dOrder, hj, eq_comm]
  | cons p r ih =>
    obtain ⟨j, o⟩ := p
    obtain ⟨h1, h2⟩ := h
    simp only [List.map_cons, List.pairwise_cons, List.mem_map, forall_exists_index, and_imp,
      forall_apply_eq_imp_iff₂] at h1
    have ho := h2 (j, o) (by simp)
    obtain ⟨i1, i2, i3⟩ := ih ⟨h1.2, fun q hq => h2 q (by simp [hq])⟩
    rw [bumpIdx]
    by_cases hlt : j < i
    · rw [if_pos hlt]
      refine ⟨⟨?_, ?_⟩, fun k => ?_, ?_⟩
      · simp only [List.map_cons, List.pairwise_cons, List.mem_map, forall_exists_index, and_imp,
          forall_apply_eq_imp_iff₂]
        exact ⟨i3 j h1.1 hlt, i1.1⟩
      · intro q hq
        rcases List.mem_cons.mp hq with rfl | hq
        · exact ho
        · exact i1.2 q hq
      · rw [dOrder_cons, dOrder_cons, i2]; omega
      · intro b hb hbi q hq
        rcases List.mem_cons.mp hq with rfl | hq
        · exact hb (j, o) (by simp)
        · exact i3 b (fun q hq => hb q (by simp [hq])) hbi q hq
    · rw [if_neg hlt]
      by_cases heq : j = i
      · subst heq
        rw [if_pos rfl, bumpIdx_true h1.1]
        refine ⟨⟨?_, ?_⟩, fun k => ?_, ?_⟩
        · simp only [List.map_cons, List.pairwise_cons, List.mem_map, forall_exists_index, and_imp,
            forall_apply_eq_imp_iff₂]
          exact h1
        · intro q hq
          rcases List.mem_cons.mp hq with rfl | hq
          · simp
          · exact h2 q (by simp [hq])
        · rw [dOrder_cons, dOrder_cons]
          simp only [eq_comm (a := k)]
          split <;> omega
        · intro b hb _ q hq
          rcases List.mem_cons.mp hq with rfl | hq
          · exact hb (j, o) (by simp)
          · exact hb q (by simp [hq])
      · have hgt : i < j := by omega
        have hr : ∀ q ∈ r, i < q.1 := fun q hq => lt_trans hgt (h1.1 q hq)
        rw [if_neg heq, bumpIdx_true hr]
        simp only [Bool.false_eq_true, if_false, List.cons_append, List.nil_append]
        refine ⟨⟨?_, ?_⟩, fun k => ?_, ?_⟩
        · simp only [List.map_cons, List.pairwise_cons, List.mem_cons, List.mem_map,
            forall_exists_index, and_imp, forall_apply_eq_imp_iff₂, forall_eq_or_imp]
          exact ⟨⟨hgt, hr⟩, h1⟩
        · intro q hq
          rcases List.mem_cons.mp hq with rfl | hq
          · simp
          · exact h2 q hq
        · rw [dOrder_cons]
          simp only [eq_comm (a := k)]
          split <;> omega
        · intro b hb hbi q hq
          rcases List.mem_cons.mp hq with rfl | hq
          · exact hbi
          · exact hb q hq

/-- Incrementing an order in the multi-index is differentiating once more. -/
theorem dpart_bump {n : Nat} {F : List ℝ → ℝ} {y : Fin n → ℝ} (h : SmAt F y) {didx : List (Nat × Nat)} (hd : DIdxOk didx) (i : Nat) :
    onVec n (dpart (bumpIdx i false didx) F) =ᶠ[𝓝 y] onVec n (lpd i (dpart didx F)) := by
  induction didx with
  | nil => simp [bumpIdx, dpart]
  | cons p r ih =>
    obtain ⟨j, o⟩ := p
    obtain ⟨h1, h2⟩ := hd
    simp only [List.map_cons, List.pairwise_cons, List.mem_map, forall_exists_index, and_imp,
      forall_apply_eq_imp_iff₂] at h1
    rw [bumpIdx]
    by_cases hlt : j < i
    · rw [if_pos hlt, dpart, dpart]
      exact (iter_congr (ih ⟨h1.2, fun q hq => h2 q (by simp [hq])⟩) j o).trans (lpd_iter (h.dpart r) i j o).symm
    · rw [if_neg hlt]
      by_cases heq : j = i
      · subst heq
        rw [if_pos rfl, bumpIdx_true h1.1, dpart, dpart, Function.iterate_succ_apply']
      · rw [if_neg heq, bumpIdx_true fun q hq => lt_trans (by omega) (h1.1 q hq)]
        simp only [Bool.false_eq_true, if_false, List.cons_append, List.nil_append]
        rw [dpart]
        rfl

theorem SmoothFn.smAt {F : List ℝ → ℝ} {l : List ℝ} (h : SmoothFn F l) {n : Nat} {y : Fin n → ℝ} (hy : l = List.ofFn y) :
    SmAt F y := by
  have hn : n = l.length := by rw [hy]; simp
  subst hn
  have : y = fun i : Fin l.length => l[i] := by
    funext i
    have h1 : l[i.1]? = (List.ofFn y)[i.1]? := by rw [← hy]
    rw [List.getElem?_eq_getElem i.2, List.getElem?_eq_getElem (by simp)] at h1
    simpa using h1.symm
  rw [this]
  exact h

theorem SmAt.smoothFn {F : List ℝ → ℝ} {n : Nat} {y : Fin n → ℝ} (h : SmAt F y) {l : List ℝ} (hy : l = List.ofFn y) :
    SmoothFn F l := by
  have hn : n = l.length := by rw [hy]; simp
  subst hn
  have : y = fun i : Fin l.length => l[i] := by
    funext i
    have h1 : l[i.1]? = (List.ofFn y)[i.1]? := by rw [← hy]
    rw [List.getElem?_eq_getElem i.2, List.getElem?_eq_getElem (by simp)] at h1
    simpa using h1.symm
  rw [this] at h
  exact h

/-- The chain rule. -/
theorem dpart_curve {F : List ℝ → ℝ} {n : Nat} {c : Fin n → ℝ → ℝ} {c' : Fin n → ℝ} {t₀ : ℝ} (h : SmAt F fun i => c i t₀)
    {didx : List (Nat × Nat)} (hd : DIdxOk didx) (hc : ∀ i, HasDerivAt (c i) (c' i) t₀) :
    HasDerivAt (fun t => dpart didx F (List.ofFn fun i => c i t))
      (∑ i : Fin n, dpart (bumpIdx i false didx) F (List.ofFn fun i => c i t₀) * c' i) t₀ := by
  have h1 := (h.dpart didx).diff.hasFDerivAt
  have h2 : HasDerivAt (fun t => fun i => c i t) c' t₀ := hasDerivAt_pi.2 hc
  have h3 := h1.comp_hasDerivAt t₀ h2
  have h4 : fderiv ℝ (onVec n (Sym.dpart didx F)) (fun i => c i t₀) c' =
      ∑ i : Fin n, Sym.dpart (bumpIdx i false didx) F (List.ofFn fun i => c i t₀) * c' i := by
    have : c' = ∑ i, c' i • (Pi.single i 1 : Fin n → ℝ) := by
      funext k
      simp [Finset.sum_apply, Pi.single_apply]
    conv_lhs => rw [this]
    rw [map_sum]
    refine Finset.sum_congr rfl fun i _ => ?_
    rw [map_smul, smul_eq_mul, mul_comm]
    congr 1
    rw [← lpd_fderiv (h.dpart didx).diff i.1 i.2]
    exact (dpart_bump h hd i).self_of_nhds.symm
  rw [h4] at h3
  exact h3

end Heyoka.Sym
