import Verif.VarSys.Lists
import Verif.Dtens.Order

/-!
# The derivatives of a flow at the initial time
-/

set_option linter.unusedSectionVars false

open Filter Topology ContDiff

namespace Heyoka.Sym

open Heyoka.Dtens

variable {n : Nat} {F G : List ℝ → ℝ}

theorem lpd_len_congr (h : ∀ y : List ℝ, y.length = n → F y = G y) (i : Nat) : ∀ y : List ℝ, y.length = n → lpd i F y = lpd i G y := by
  intro y hy
  unfold lpd
  congr 1
  funext t
  exact h _ (by simpa using hy)

theorem iter_len_congr (h : ∀ y : List ℝ, y.length = n → F y = G y) (i k : Nat) : ∀ y : List ℝ, y.length = n →
    (lpd i)^[k] F y = (lpd i)^[k] G y := by
  induction k with
  | zero => exact h
  | succ k ih =>
    intro y hy
    rw [Function.iterate_succ_apply', Function.iterate_succ_apply']
    exact lpd_len_congr ih i y hy

theorem iter_const {c : ℝ} (h : ∀ y : List ℝ, y.length = n → F y = c) (i : Nat) {k : Nat} (hk : k ≠ 0) : ∀ y : List ℝ, y.length = n →
    (lpd i)^[k] F y = 0 := by
  have h1 : ∀ y : List ℝ, y.length = n → lpd i F y = 0 := by
    intro y hy
    rw [lpd_len_congr (G := fun _ => c) h i y hy, lpd]
    exact deriv_const _ _
  obtain ⟨k, rfl⟩ := Nat.exists_eq_succ_of_ne_zero hk
  induction k with
  | zero => exact h1
  | succ k ih =>
    intro y hy
    rw [Function.iterate_succ_apply', lpd_len_congr (G := fun _ => 0) (ih (by omega)) i y hy, lpd]
    exact deriv_const _ _

/-- The derivatives of a constant. -/
theorem dpart_const {c : ℝ} (h : ∀ y : List ℝ, y.length = n → F y = c) {α : List (Nat × Nat)} (hα : Dtens.Sane α) (hne : α ≠ []) :
    ∀ y : List ℝ, y.length = n → dpart α F y = 0 := by
  induction α with
  | nil => exact absurd rfl hne
  | cons p t ih =>
    obtain ⟨i, o⟩ := p
    have ho : o ≠ 0 := hα.2 (i, o) List.mem_cons_self
    rw [dpart]
    cases t with
    | nil => exact iter_const h i ho
    | cons q r =>
      refine iter_const (c := 0) (ih ⟨(List.pairwise_cons.1 hα.1).2, fun p hp => hα.2 p (List.mem_cons_of_mem _ hp)⟩ (by simp)) i ho

theorem lpd_proj {k : Nat} (h : ∀ y : List ℝ, y.length = n → F y = y.getD k 0) (i : Nat) (hi : i < n) : ∀ y : List ℝ, y.length = n →
    lpd i F y = if i = k then 1 else 0 := by
  intro y hy
  rw [lpd_len_congr h i y hy, lpd]
  by_cases hik : i = k
  · subst hik
    rw [if_pos rfl]
    have : (fun t => (y.set i t).getD i 0) = fun t => t := by
      funext t
      simp [List.getD, hy, hi]
    rw [this]
    exact deriv_id _
  · rw [if_neg hik]
    have : (fun t => (y.set i t).getD k 0) = fun _ => y.getD k 0 := by
      funext t
      simp [List.getD, List.getElem?_set, hik]
    rw [this]
    exact deriv_const _ _

/-- The derivatives of a projection. -/
theorem dpart_proj {k : Nat} (h : ∀ y : List ℝ, y.length = n → F y = y.getD k 0) {α : List (Nat × Nat)} (hα : Dtens.Sane α)
    (hb : ∀ p ∈ α, p.1 < n) (hd : 2 ≤ degree α) : ∀ y : List ℝ, y.length = n → dpart α F y = 0 := by
  induction α with
  | nil => simp [degree] at hd
  | cons p t ih =>
    obtain ⟨i, o⟩ := p
    have ho : o ≠ 0 := hα.2 (i, o) List.mem_cons_self
    have hi : i < n := hb (i, o) List.mem_cons_self
    have hst : Dtens.Sane t := ⟨(List.pairwise_cons.1 hα.1).2, fun p hp => hα.2 p (List.mem_cons_of_mem _ hp)⟩
    have hbt : ∀ p ∈ t, p.1 < n := fun p hp => hb p (List.mem_cons_of_mem _ hp)
    rw [dpart]
    cases t with
    | nil =>
      have ho2 : 2 ≤ o := by simpa [degree] using hd
      obtain ⟨o', rfl⟩ : ∃ o', o = o' + 1 := ⟨o - 1, by omega⟩
      intro y hy
      rw [dpart, Function.iterate_succ_apply]
      exact iter_const (lpd_proj h i hi) i (by omega) y hy
    | cons q r =>
      by_cases hd2 : 2 ≤ degree (q :: r)
      · exact iter_const (c := 0) (ih hst hbt hd2) i ho
      · obtain ⟨j, o2⟩ := q
        have ho2 : o2 ≠ 0 := hst.2 (j, o2) List.mem_cons_self
        have hr : r = [] := by
          cases r with
          | nil => rfl
          | cons q' r' =>
            have := hst.2 q' (by simp)
            simp only [degree, List.map_cons, List.sum_cons] at hd2
            omega
        subst hr
        have : o2 = 1 := by
          simp only [degree, List.map_cons, List.sum_cons, List.map_nil, List.sum_nil] at hd2
          omega
        subst this
        exact iter_const (lpd_proj h j (hbt _ List.mem_cons_self)) i ho

/-- The derivative with respect to the initial time, of a family which is constant along its initial points. -/
theorem lpd_initial_time {X : ℝ → List ℝ → ℝ} {t c D : ℝ} {y : List ℝ} {ta : Nat} (h : SmoothFn (joint X) (t :: y)) (hta : y[ta]? = some t)
    (hX : ∀ z, X z (y.set ta z) = c) (hD : HasDerivAt (fun τ => X τ y) D t) : lpd ta (X t) y = -D := by
  have hs : SmAt (joint X) (vec (t :: y)) := h.smAt (ofFn_vec _).symm
  obtain ⟨hl, hty⟩ := List.getElem?_eq_some_iff.1 hta
  have hl' : ta + 1 < (t :: y).length := by simpa using hl
  have h0 : 0 < (t :: y).length := by simp
  let p := vec (t :: y)
  let i0 : Fin (t :: y).length := ⟨0, h0⟩
  let i1 : Fin (t :: y).length := ⟨ta + 1, hl'⟩
  let dv : Fin (t :: y).length → ℝ := Pi.single i0 1 + Pi.single i1 1
  let γ : ℝ → Fin (t :: y).length → ℝ := fun z => Function.update (Function.update p ⟨0, h0⟩ z) ⟨ta + 1, hl'⟩ z
  have hp1 : p ⟨0, h0⟩ = t := rfl
  have hp2 : p ⟨ta + 1, hl'⟩ = t := hty
  have hγt : γ t = p := by
    show Function.update (Function.update p ⟨0, h0⟩ t) ⟨ta + 1, hl'⟩ t = p
    conv_lhs => rw [show Function.update p ⟨0, h0⟩ t = p by rw [← hp1, Function.update_eq_self]]
    rw [← hp2, Function.update_eq_self]
  have hγd : HasDerivAt γ dv t := by
    rw [hasDerivAt_pi]
    intro i
    by_cases h1 : i = ⟨ta + 1, hl'⟩
    · subst h1
      have : (fun z => γ z ⟨ta + 1, hl'⟩) = fun z => z := by
        funext z
        show Function.update _ _ _ _ = _
        rw [Function.update_self]
      rw [this]
      have h2 : dv i1 = 1 := by
        show (Pi.single i0 1 + Pi.single i1 1 : Fin (t :: y).length → ℝ) _ = _
        rw [Pi.add_apply, Pi.single_eq_same, Pi.single_eq_of_ne (by simp [i0, i1]), zero_add]
      rw [h2]
      exact hasDerivAt_id t
    · by_cases h2 : i = ⟨0, h0⟩
      · subst h2
        have : (fun z => γ z ⟨0, h0⟩) = fun z => z := by
          funext z
          show Function.update _ _ _ _ = _
          rw [Function.update_of_ne (by simp), Function.update_self]
        rw [this]
        have h2 : dv i0 = 1 := by
          show (Pi.single i0 1 + Pi.single i1 1 : Fin (t :: y).length → ℝ) _ = _
          rw [Pi.add_apply, Pi.single_eq_same, Pi.single_eq_of_ne (by simp [i0, i1]), add_zero]
        rw [h2]
        exact hasDerivAt_id t
      · have : (fun z => γ z i) = fun _ => p i := by
          funext z
          show Function.update _ _ _ _ = _
          rw [Function.update_of_ne h1, Function.update_of_ne h2]
        rw [this]
        have h3 : dv i = 0 := by
          show (Pi.single i0 1 + Pi.single i1 1 : Fin (t :: y).length → ℝ) _ = _
          rw [Pi.add_apply, Pi.single_eq_of_ne h2, Pi.single_eq_of_ne h1, add_zero]
        rw [h3]
        exact hasDerivAt_const t _
  have hof : ∀ z, List.ofFn (γ z) = z :: y.set ta z := by
    intro z
    have h1 : List.ofFn (Function.update p ⟨0, h0⟩ z) = z :: y := by
      rw [← ofFn_set p 0 h0 z]
      show (List.ofFn (vec (t :: y))).set 0 z = z :: y
      rw [ofFn_vec]
      rfl
    show List.ofFn (Function.update (Function.update p ⟨0, h0⟩ z) ⟨ta + 1, hl'⟩ z) = _
    rw [← ofFn_set _ (ta + 1) hl' z, h1, List.set_cons_succ]
  have hF := hs.diff.hasFDerivAt
  have hF' : HasFDerivAt (onVec (t :: y).length (joint X)) (fderiv ℝ (onVec (t :: y).length (joint X)) p) (γ t) := by
    rw [hγt]; exact hF
  have hcomp := hF'.comp_hasDerivAt t hγd
  have hconst : (onVec (t :: y).length (joint X) ∘ γ) = fun _ => c := by
    funext z
    show joint X (List.ofFn (γ z)) = c
    rw [hof z]
    exact hX z
  rw [hconst] at hcomp
  have hz := hcomp.unique (hasDerivAt_const t c)
  rw [map_add, ← lpd_fderiv hs.diff 0 h0, ← lpd_fderiv hs.diff (ta + 1) hl'] at hz
  simp only [onVec, ofFn_vec] at hz
  rw [lpd_shift] at hz
  have h1 : lpd 0 (joint X) (t :: y) = D := hD.deriv
  rw [h1] at hz
  have h2 : (fun y => joint X (t :: y)) = X t := rfl
  rw [h2] at hz
  linarith

end Heyoka.Sym
