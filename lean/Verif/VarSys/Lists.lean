import Verif.Expr.DFunReal

/-!
# Families of functions depending on the time

The derivatives of a family of functions with respect to the time and with respect to the arguments commute.
-/

set_option linter.unusedSectionVars false

open Filter Topology ContDiff

namespace Heyoka.Sym

/-- A multi-index for the arguments after the first one. -/
def shiftIdx (α : List (Nat × Nat)) : List (Nat × Nat) := α.map fun p => (p.1 + 1, p.2)

/-- A family of functions, as a function whose first argument is the time. -/
def joint (X : ℝ → List ℝ → ℝ) (l : List ℝ) : ℝ := X (l.headD 0) l.tail

theorem lpd_shift (G : List ℝ → ℝ) (j : Nat) (τ : ℝ) (y : List ℝ) : lpd (j + 1) G (τ :: y) = lpd j (fun y => G (τ :: y)) y := by
  simp [lpd, List.getD]

theorem iter_shift (G : List ℝ → ℝ) (j n : Nat) (τ : ℝ) (y : List ℝ) :
    (lpd (j + 1))^[n] G (τ :: y) = (lpd j)^[n] (fun y => G (τ :: y)) y := by
  induction n generalizing y with
  | zero => rfl
  | succ n ih =>
    rw [Function.iterate_succ_apply', Function.iterate_succ_apply', lpd_shift]
    congr 1
    funext z
    exact ih z

theorem dpart_shift (G : List ℝ → ℝ) (α : List (Nat × Nat)) (τ : ℝ) (y : List ℝ) :
    dpart (shiftIdx α) G (τ :: y) = dpart α (fun y => G (τ :: y)) y := by
  induction α generalizing y with
  | nil => rfl
  | cons p α ih =>
    rw [shiftIdx, List.map_cons, dpart, dpart, iter_shift]
    exact congrFun (congrArg _ (funext ih)) y

theorem dpart_congr_near {n : Nat} {F G : List ℝ → ℝ} {y : Fin n → ℝ} (h : onVec n F =ᶠ[𝓝 y] onVec n G) (α : List (Nat × Nat)) :
    onVec n (dpart α F) =ᶠ[𝓝 y] onVec n (dpart α G) := by
  induction α with
  | nil => exact h
  | cons p α ih => exact iter_congr ih p.1 p.2

theorem lpd_dpart {n : Nat} {F : List ℝ → ℝ} {y : Fin n → ℝ} (h : SmAt F y) (i : Nat) (α : List (Nat × Nat)) :
    onVec n (lpd i (dpart α F)) =ᶠ[𝓝 y] onVec n (dpart α (lpd i F)) := by
  induction α with
  | nil => exact .rfl
  | cons p α ih => exact (lpd_iter (h.dpart α) i p.1 p.2).trans (iter_congr ih p.1 p.2)

/-- The derivatives with respect to the time and with respect to the arguments commute. -/
theorem dpart_time {X : ℝ → List ℝ → ℝ} {t : ℝ} {y : List ℝ} (h : SmoothFn (joint X) (t :: y)) (α : List (Nat × Nat)) :
    HasDerivAt (fun τ => dpart α (X τ) y) (dpart α (fun y => deriv (fun τ => X τ y) t) y) t := by
  have hs : SmAt (joint X) (vec (t :: y)) := h.smAt (ofFn_vec _).symm
  have h1 : ∀ τ, dpart α (X τ) y = dpart (shiftIdx α) (joint X) (τ :: y) := fun τ => (dpart_shift (joint X) α τ y).symm
  have hlen : 0 < (t :: y).length := by simp
  have hd := (hs.dpart (shiftIdx α)).diff
  have h2 : HasDerivAt (fun τ => dpart (shiftIdx α) (joint X) (τ :: y)) (lpd 0 (dpart (shiftIdx α) (joint X)) (t :: y)) t := by
    have h3 := hasDerivAt_update (vec (t :: y)) ⟨0, hlen⟩ t
    have h4 : HasFDerivAt (onVec (t :: y).length (dpart (shiftIdx α) (joint X)))
        (fderiv ℝ (onVec (t :: y).length (dpart (shiftIdx α) (joint X))) (vec (t :: y))) (Function.update (vec (t :: y)) ⟨0, hlen⟩ t) := by
      have : Function.update (vec (t :: y)) ⟨0, hlen⟩ t = vec (t :: y) := by
        conv_lhs => rw [show t = vec (t :: y) ⟨0, hlen⟩ from rfl]
        exact Function.update_eq_self _ _
      rw [this]; exact hd.hasFDerivAt
    have h5 := h4.comp_hasDerivAt _ h3
    have h6 : lpd 0 (dpart (shiftIdx α) (joint X)) (t :: y) =
        fderiv ℝ (onVec (t :: y).length (dpart (shiftIdx α) (joint X))) (vec (t :: y)) (Pi.single ⟨0, hlen⟩ 1) := by
      rw [← lpd_fderiv hd 0 hlen, onVec, ofFn_vec]
    rw [h6]
    refine h5.congr_of_eventuallyEq (Eventually.of_forall fun τ => ?_)
    simp only [Function.comp, onVec]
    rw [← ofFn_set, ofFn_vec]
    rfl
  have h7 : lpd 0 (dpart (shiftIdx α) (joint X)) (t :: y) = dpart α (fun y => deriv (fun τ => X τ y) t) y := by
    have h8 := (lpd_dpart hs 0 (shiftIdx α)).self_of_nhds
    simp only [onVec, ofFn_vec] at h8
    rw [h8, dpart_shift]
    rfl
  rw [← h7]
  exact h2.congr_of_eventuallyEq (Eventually.of_forall h1)

/-- The function at a fixed time is smooth. -/
theorem SmoothFn.slice {X : ℝ → List ℝ → ℝ} {t : ℝ} {y : List ℝ} (h : SmoothFn (joint X) (t :: y)) : SmoothFn (X t) y := by
  have hs : SmAt (joint X) (vec (t :: y)) := h.smAt (ofFn_vec _).symm
  have hc : ContDiff ℝ ∞ (fun z : Fin y.length → ℝ => (Fin.cons t z : Fin (y.length + 1) → ℝ)) := by
    rw [contDiff_pi]
    intro i
    refine Fin.cases ?_ (fun j => ?_) i
    · simpa using contDiff_const
    · simpa using contDiff_apply ℝ ℝ j
  have hv : (Fin.cons t (vec y) : Fin (y.length + 1) → ℝ) = vec (t :: y) := by
    funext i
    refine Fin.cases ?_ (fun j => ?_) i <;> rfl
  have h1 : ∀ᶠ z in 𝓝 (vec y), ContDiffAt ℝ ∞ (onVec (y.length + 1) (joint X)) (Fin.cons t z) := by
    have := hc.continuous.tendsto (vec y)
    rw [hv] at this
    exact this.eventually hs
  refine h1.mono fun z hz => ?_
  have := hz.comp z hc.contDiffAt
  refine this.congr_of_eventuallyEq (Eventually.of_forall fun w => ?_)
  simp only [onVec, Function.comp, List.ofFn_cons, joint, List.headD_cons, List.tail_cons]

end Heyoka.Sym
