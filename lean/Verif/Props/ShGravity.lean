import Verif.Sh.Lemmas

/-!
# C60: gravity models in spherical harmonics

`potential` is defined in `Verif/Sh/Spec.lean` with the associated Legendre functions (`legD`, from the formula of Rodrigues) and the factors of
the full normalisation; the theorem `sh_potential_spherical` gives it in spherical coordinates.
-/

set_option linter.unusedSectionVars false

namespace Heyoka.Sh

open Heyoka.Sym Heyoka.Models Complex

/-- The requests which are accepted, with the resulting degree and order: the list has one pair for every degree up to some `N` and every order up
to the degree; the degree is at most `N` (the default) and the order is at most the degree (the default). -/
def Accepted (size : ℕ) (deg ord : Option ℕ) (n m : ℕ) : Prop :=
  ∃ N, 2 * size = (N + 1) * (N + 2) ∧ 8 * size + 1 < 2 ^ 32 ∧ n = deg.getD N ∧ n ≤ N ∧ m = ord.getD n ∧ m ≤ n ∧ (deg = none → ord = none)

section
variable [DFunc] {xyz : Fin 3 → Expr ℝ} {mue ae : Expr ℝ} {cs : List (Expr ℝ × Expr ℝ)} {deg ord : Option ℕ} {n m : ℕ}

theorem tri_iff {s N : ℕ} : 2 * s = (N + 1) * (N + 2) ↔ s = (N + 1) * (N + 2) / 2 := by
  have h2 : (N + 1) * (N + 2) / 2 * 2 = (N + 1) * (N + 2) := Nat.div_mul_cancel (Nat.even_mul_succ_self (N + 1)).two_dvd
  omega

theorem resolve_ok {N : ℕ} : resolveNM deg ord N = .ok (n, m) ↔ n = deg.getD N ∧ n ≤ N ∧ m = ord.getD n ∧ (deg = none → ord = none) := by
  rcases deg with _ | d <;> rcases ord with _ | o
  · simp only [resolveNM, Option.isSome_none, Bool.false_eq_true, false_and, if_false, Res.ok.injEq, Prod.mk.injEq, Option.getD_none]
    constructor
    · rintro ⟨h1, h2⟩; subst h1; subst h2; simp
    · rintro ⟨h1, h2, h3, _⟩; exact ⟨h1.symm, by rw [h3, h1]⟩
  · simp [resolveNM]
  · by_cases h : N < d
    · simp [resolveNM, h]; omega
    · simp only [resolveNM, Option.isSome_none, Bool.false_eq_true, false_and, if_false, if_neg h, Res.ok.injEq, Prod.mk.injEq, Option.getD_none,
        Option.getD_some]
      constructor
      · rintro ⟨h1, h2⟩; subst h1; subst h2; simp; omega
      · rintro ⟨h1, h2, h3, _⟩; exact ⟨h1.symm, by rw [h3, h1]⟩
  · by_cases h : N < d
    · simp [resolveNM, h]; omega
    · simp [resolveNM, h]
      constructor
      · rintro ⟨h1, h2⟩; exact ⟨h1.symm, by omega, h2.symm⟩
      · rintro ⟨h1, h2, h3⟩; exact ⟨h1.symm, h3.symm⟩

theorem resolve_not_ub {N : ℕ} : resolveNM deg ord N ≠ .ub := by
  rcases deg with _ | d <;> rcases ord with _ | o <;> simp [resolveNM] <;> split <;> simp

theorem maxDegree_not_ub {s : ℕ} : maxDegree s ≠ .ub := by
  rw [maxDegree]
  split
  · simp
  · split
    · simp
    · rw [isqrt_spec, Res.bind_ok]; split <;> simp

theorem csGet_ok {N i j : ℕ} (hs : 2 * cs.length = (N + 1) * (N + 2)) (hi : i ≤ N) (hj : j ≤ i) :
    ∃ c, cs[i * (i + 1) / 2 + j]? = some c ∧ csGet cs N i j = .ok c := by
  have h := tri_index hi hj
  rw [← tri_iff.1 hs] at h
  refine ⟨cs[i * (i + 1) / 2 + j], List.getElem?_eq_getElem h, ?_⟩
  rw [csGet, if_neg (by simpa using hj), if_neg (by simpa using hi), List.getElem?_eq_getElem h]

theorem accepted_bound {s N : ℕ} (h1 : 2 * s = (N + 1) * (N + 2)) (h2 : 8 * s + 1 < 2 ^ 32) : N + 1 < u32max := by
  unfold u32max
  nlinarith

/-- Reduction of the request to the implementation function. -/
theorem request_ok {α : Type} (f : ℕ → ℕ → ℕ → Res α) (h : Accepted cs.length deg ord n m) : ∃ N, 2 * cs.length = (N + 1) * (N + 2) ∧ n ≤ N ∧ m ≤ n ∧
    N + 1 < u32max ∧ ((maxDegree cs.length).bind fun N => (resolveNM deg ord N).bind fun nm => f N nm.1 nm.2) = f N n m := by
  obtain ⟨N, h1, h2, h3, h4, h5, h6, h7⟩ := h
  refine ⟨N, h1, h4, h6, accepted_bound h1 h2, ?_⟩
  rw [tri_iff.1 h1, maxDegree_tri (by rw [← tri_iff.1 h1]; unfold u32max; omega), Res.bind_ok, resolve_ok.2 ⟨h3, h4, h5, h7⟩, Res.bind_ok]

theorem request_throw {α : Type} (f : ℕ → ℕ → ℕ → Res α) (hf : ∀ N n m, n < m → N + 1 < u32max → n ≤ N → f N n m = .throw)
    (h : ∀ n m, ¬ Accepted cs.length deg ord n m) :
    ((maxDegree cs.length).bind fun N => (resolveNM deg ord N).bind fun nm => f N nm.1 nm.2) = .throw := by
  rcases hd : maxDegree cs.length with N | _ | _
  · rw [Res.bind_ok]
    obtain ⟨h1, h2⟩ := maxDegree_ok hd
    rw [← tri_iff] at h1
    have h2' : 8 * cs.length + 1 < 2 ^ 32 := by unfold u32max at h2; omega
    rcases hr : resolveNM deg ord N with nm | _ | _
    · obtain ⟨n, m⟩ := nm
      obtain ⟨h3, h4, h5, h6⟩ := resolve_ok.1 hr
      rw [Res.bind_ok]
      refine hf N n m ?_ (accepted_bound h1 h2') h4
      by_contra hc
      exact h n m ⟨N, h1, h2', h3, h4, h5, by omega, h6⟩
    · rfl
    · exact absurd hr resolve_not_ub
  · rfl
  · exact absurd hd maxDegree_not_ub

/-- A potential is returned if and only if the request is acceptable; otherwise an exception is thrown. In particular no assertion fails and no
coefficient is read out of bounds. -/
theorem sh_pot_accepted (xyz : Fin 3 → Expr ℝ) (mue ae : Expr ℝ) (cs : List (Expr ℝ × Expr ℝ)) (deg ord : Option ℕ) :
    ((∃ n m, Accepted cs.length deg ord n m) → ∃ e, shPot Real.sqrt xyz mue ae cs deg ord = .ok e) ∧
      ((∀ n m, ¬ Accepted cs.length deg ord n m) → shPot Real.sqrt xyz mue ae cs deg ord = .throw) := by
  constructor
  · rintro ⟨n, m, h⟩
    obtain ⟨N, h1, h2, h3, h4, h5⟩ := request_ok (fun N n m => shPotImpl Real.sqrt xyz n m mue ae (csGet cs N)) h
    obtain ⟨e, he, -⟩ := shPotImpl_value (Ω := Empty) (v := Empty.elim) (a := Empty.elim) (x := Empty.elim) (y := Empty.elim) (z := Empty.elim)
      (mu := Empty.elim) (C := Empty.elim) (S := Empty.elim) (xyz := xyz) (ae := ae) (mue := mue) (cs := csGet cs N) (n := n) (m := m)
      (by omega) h3 (fun ω => ω.elim) (fun ω => ω.elim) (fun ω => ω.elim) (fun ω => ω.elim) (fun ω => ω.elim) (fun ω => ω.elim) (fun ω => ω.elim)
      (fun i j hi hj _ => by
        obtain ⟨c, _, hc⟩ := csGet_ok (cs := cs) h1 (show i ≤ N by omega) hj
        exact ⟨c, hc, fun ω => ω.elim⟩)
    exact ⟨e, by rw [shPot, h5, he]⟩
  · intro h
    refine request_throw (fun N n m => shPotImpl Real.sqrt xyz n m mue ae (csGet cs N)) (fun N n m hnm hN hn => ?_) h
    rw [shPotImpl, commonChecks, if_neg (by omega), if_pos hnm, Res.bind_throw]

/-- The same for the acceleration. -/
theorem sh_acc_accepted (xyz : Fin 3 → Expr ℝ) (mue ae : Expr ℝ) (cs : List (Expr ℝ × Expr ℝ)) (deg ord : Option ℕ) :
    ((∃ n m, Accepted cs.length deg ord n m) → ∃ g, shAcc Real.sqrt xyz mue ae cs deg ord = .ok g) ∧
      ((∀ n m, ¬ Accepted cs.length deg ord n m) → shAcc Real.sqrt xyz mue ae cs deg ord = .throw) := by
  constructor
  · rintro ⟨n, m, h⟩
    obtain ⟨N, h1, h2, h3, h4, h5⟩ := request_ok (fun N n m => shAccImpl Real.sqrt xyz n m mue ae (csGet cs N)) h
    obtain ⟨e, he, -⟩ := shAccImpl_value (Ω := Empty) (v := Empty.elim) (a := Empty.elim) (x := Empty.elim) (y := Empty.elim) (z := Empty.elim)
      (mu := Empty.elim) (C := Empty.elim) (S := Empty.elim) (xyz := xyz) (ae := ae) (mue := mue) (cs := csGet cs N) (n := n) (m := m)
      (by omega) h3 (fun ω => ω.elim) (fun ω => ω.elim) (fun ω => ω.elim) (fun ω => ω.elim) (fun ω => ω.elim) (fun ω => ω.elim) (fun ω => ω.elim)
      (fun i j hi hj _ => by
        obtain ⟨c, _, hc⟩ := csGet_ok (cs := cs) h1 (show i ≤ N by omega) hj
        exact ⟨c, hc, fun ω => ω.elim⟩)
    exact ⟨e, by rw [shAcc, h5, he]⟩
  · intro h
    refine request_throw (fun N n m => shAccImpl Real.sqrt xyz n m mue ae (csGet cs N)) (fun N n m hnm hN hn => ?_) h
    rw [shAccImpl, commonChecks, if_neg (by omega), if_pos hnm, Res.bind_throw]

/-- The values of the arguments in an environment. The coefficients of degree `i` and order `j` are at the position `i * (i + 1) / 2 + j` of the
list. -/
structure Values (xyz : Fin 3 → Expr ℝ) (mue ae : Expr ℝ) (cs : List (Expr ℝ × Expr ℝ)) (n m : ℕ) (v : Env ℝ) (x y z mu a : ℝ) (C S : ℕ → ℕ → ℝ) :
    Prop where
  hx : (xyz 0).eval v = some x
  hy : (xyz 1).eval v = some y
  hz : (xyz 2).eval v = some z
  h0 : 0 < x ^ 2 + y ^ 2 + z ^ 2
  hmu : mue.eval v = some mu
  ha : ae.eval v = some a
  ha0 : a ≠ 0
  hcs : ∀ i j, i ≤ n → j ≤ i → j ≤ m → ∀ c, cs[i * (i + 1) / 2 + j]? = some c → c.1.eval v = some (C i j) ∧ c.2.eval v = some (S i j)

/-- The expression returned by `sh_gravity_pot()` evaluates to the potential of the body. -/
theorem sh_pot_value {U : Expr ℝ} (hU : shPot Real.sqrt xyz mue ae cs deg ord = .ok U) (hacc : Accepted cs.length deg ord n m) {v : Env ℝ}
    {x y z mu a : ℝ} {C S : ℕ → ℕ → ℝ} (hv : Values xyz mue ae cs n m v x y z mu a C S) :
    U.eval v = some (potential mu a C S n m x y z) := by
  obtain ⟨N, h1, h2, h3, h4, h5⟩ := request_ok (fun N n m => shPotImpl Real.sqrt xyz n m mue ae (csGet cs N)) hacc
  obtain ⟨e, he, h⟩ := shPotImpl_value (Ω := Unit) (v := fun _ => v) (a := fun _ => a) (x := fun _ => x) (y := fun _ => y) (z := fun _ => z)
    (mu := fun _ => mu) (C := fun _ => C) (S := fun _ => S) (xyz := xyz) (ae := ae) (mue := mue) (cs := csGet cs N) (n := n) (m := m)
    (by omega) h3 (fun _ => hv.h0) (fun _ => hv.hx) (fun _ => hv.hy) (fun _ => hv.hz) (fun _ => hv.ha) (fun _ => hv.ha0) (fun _ => hv.hmu)
    (fun i j hi hj hjm => by
      obtain ⟨c, hc', hc⟩ := csGet_ok (cs := cs) h1 (show i ≤ N by omega) hj
      exact ⟨c, hc, fun _ => hv.hcs i j hi hj hjm c hc'⟩)
  rw [shPot, h5, he] at hU
  rw [← Res.ok.inj hU, h ()]

theorem sh_acc_value {g : Fin 3 → Expr ℝ} (hg : shAcc Real.sqrt xyz mue ae cs deg ord = .ok g) (hacc : Accepted cs.length deg ord n m) {v : Env ℝ}
    {x y z mu a : ℝ} {C S : ℕ → ℕ → ℝ} (hv : Values xyz mue ae cs n m v x y z mu a C S) (k : Fin 3) :
    (g k).eval v = some (accValue mu a C S n m x y z k) := by
  obtain ⟨N, h1, h2, h3, h4, h5⟩ := request_ok (fun N n m => shAccImpl Real.sqrt xyz n m mue ae (csGet cs N)) hacc
  obtain ⟨e, he, h⟩ := shAccImpl_value (Ω := Unit) (v := fun _ => v) (a := fun _ => a) (x := fun _ => x) (y := fun _ => y) (z := fun _ => z)
    (mu := fun _ => mu) (C := fun _ => C) (S := fun _ => S) (xyz := xyz) (ae := ae) (mue := mue) (cs := csGet cs N) (n := n) (m := m)
    (by omega) h3 (fun _ => hv.h0) (fun _ => hv.hx) (fun _ => hv.hy) (fun _ => hv.hz) (fun _ => hv.ha) (fun _ => hv.ha0) (fun _ => hv.hmu)
    (fun i j hi hj hjm => by
      obtain ⟨c, hc', hc⟩ := csGet_ok (cs := cs) h1 (show i ≤ N by omega) hj
      exact ⟨c, hc, fun _ => hv.hcs i j hi hj hjm c hc'⟩)
  rw [shAcc, h5, he] at hg
  rw [← Res.ok.inj hg, h () k]

/-- The expressions returned by `sh_gravity_acc()` are the gradient of the expression returned by `sh_gravity_pot()`: along every differentiable
curve which does not pass through the origin, the potential changes at the rate which is the scalar product of the acceleration and of the velocity. -/
theorem sh_acc_gradient {U : Expr ℝ} {g : Fin 3 → Expr ℝ} (hU : shPot Real.sqrt xyz mue ae cs deg ord = .ok U)
    (hg : shAcc Real.sqrt xyz mue ae cs deg ord = .ok g) (hacc : Accepted cs.length deg ord n m) {v : ℝ → Env ℝ} {X Y Z : ℝ → ℝ} {mu a : ℝ}
    {C S : ℕ → ℕ → ℝ} (hv : ∀ τ, Values xyz mue ae cs n m (v τ) (X τ) (Y τ) (Z τ) mu a C S) {t X' Y' Z' : ℝ} (hX : HasDerivAt X X' t)
    (hY : HasDerivAt Y Y' t) (hZ : HasDerivAt Z Z' t) :
    ∃ (u : ℝ → ℝ) (G : Fin 3 → ℝ), (∀ τ, U.eval (v τ) = some (u τ)) ∧ (∀ k, (g k).eval (v t) = some (G k)) ∧
      HasDerivAt u (X' * G 0 + Y' * G 1 + Z' * G 2) t :=
  ⟨fun τ => potential mu a C S n m (X τ) (Y τ) (Z τ), fun k => accValue mu a C S n m (X t) (Y t) (Z t) k, fun τ => sh_pot_value hU hacc (hv τ),
    fun k => sh_acc_value hg hacc (hv t) k, hasDerivAt_potential (hv t).ha0 C S n m hX hY hZ (hv t).h0⟩

/-- In particular the acceleration consists of the partial derivatives of the potential of the body. -/
theorem sh_acc_partials {g : Fin 3 → Expr ℝ} (hg : shAcc Real.sqrt xyz mue ae cs deg ord = .ok g) (hacc : Accepted cs.length deg ord n m) {v : Env ℝ}
    {x y z mu a : ℝ} {C S : ℕ → ℕ → ℝ} (hv : Values xyz mue ae cs n m v x y z mu a C S) :
    ∃ G : Fin 3 → ℝ, (∀ k, (g k).eval v = some (G k)) ∧ HasDerivAt (fun s => potential mu a C S n m s y z) (G 0) x ∧
      HasDerivAt (fun s => potential mu a C S n m x s z) (G 1) y ∧ HasDerivAt (fun s => potential mu a C S n m x y s) (G 2) z := by
  refine ⟨fun k => accValue mu a C S n m x y z k, fun k => sh_acc_value hg hacc hv k, ?_, ?_, ?_⟩
  · refine (hasDerivAt_potential hv.ha0 C S n m (hasDerivAt_id x) (hasDerivAt_const x y) (hasDerivAt_const x z) hv.h0).congr_deriv ?_
    simp
  · refine (hasDerivAt_potential hv.ha0 C S n m (hasDerivAt_const y x) (hasDerivAt_id y) (hasDerivAt_const y z) hv.h0).congr_deriv ?_
    simp
  · refine (hasDerivAt_potential hv.ha0 C S n m (hasDerivAt_const z x) (hasDerivAt_const z y) (hasDerivAt_id z) hv.h0).congr_deriv ?_
    simp

/-- Motion under this acceleration conserves the energy: if the velocity is the derivative of the position and the value of the acceleration
expressions is the derivative of the velocity, half of the squared speed minus the value of the potential expression is constant. -/
theorem sh_energy {U : Expr ℝ} {g : Fin 3 → Expr ℝ} (hU : shPot Real.sqrt xyz mue ae cs deg ord = .ok U)
    (hg : shAcc Real.sqrt xyz mue ae cs deg ord = .ok g) (hacc : Accepted cs.length deg ord n m) {v : ℝ → Env ℝ} {q p : Fin 3 → ℝ → ℝ} {mu a : ℝ}
    {C S : ℕ → ℕ → ℝ} {I : Set ℝ} (ho : IsOpen I) (hc : IsPreconnected I)
    (hv : ∀ τ ∈ I, Values xyz mue ae cs n m (v τ) (q 0 τ) (q 1 τ) (q 2 τ) mu a C S) (hq : ∀ τ ∈ I, ∀ k, HasDerivAt (q k) (p k τ) τ)
    (hp : ∀ τ ∈ I, ∀ k, ∃ d, (g k).eval (v τ) = some d ∧ HasDerivAt (p k) d τ) :
    ∃ E, ∀ τ ∈ I, ∃ u, U.eval (v τ) = some u ∧ (p 0 τ ^ 2 + p 1 τ ^ 2 + p 2 τ ^ 2) / 2 - u = E := by
  have hd : ∀ τ ∈ I, HasDerivAt (fun τ => (p 0 τ ^ 2 + p 1 τ ^ 2 + p 2 τ ^ 2) / 2 - potential mu a C S n m (q 0 τ) (q 1 τ) (q 2 τ)) 0 τ := by
    intro τ hτ
    have h := hasDerivAt_potential (mu := mu) (hv τ hτ).ha0 C S n m (hq τ hτ 0) (hq τ hτ 1) (hq τ hτ 2) (hv τ hτ).h0
    have hk : ∀ k, HasDerivAt (p k) (accValue mu a C S n m (q 0 τ) (q 1 τ) (q 2 τ) k) τ := by
      intro k
      obtain ⟨d, h1, h2⟩ := hp τ hτ k
      rw [sh_acc_value hg hacc (hv τ hτ) k] at h1
      rw [Option.some.inj h1]; exact h2
    refine ((((((hk 0).fun_pow 2).add ((hk 1).fun_pow 2)).add ((hk 2).fun_pow 2)).div_const 2).sub h).congr_deriv ?_
    push_cast
    ring
  obtain ⟨E, hE⟩ := ho.exists_is_const_of_deriv_eq_zero hc (fun t ht => (hd t ht).differentiableAt.differentiableWithinAt)
    (fun t ht => (hd t ht).deriv)
  exact ⟨E, fun τ hτ => ⟨_, sh_pot_value hU hacc (hv τ hτ), hE τ hτ⟩⟩

/-! ### EGM2008 -/

/-- The coefficients of degree `i` and order `j`, with the table beginning at degree two. -/
def egmC (tbl : List (ℝ × ℝ)) (i j : ℕ) : ℝ × ℝ :=
  if i = 0 then (1, 0) else if i = 1 then (0, 0) else tbl.getD (i * (i + 1) / 2 - 3 + j) (0, 0)

theorem egmGet_ok {tbl : List (ℝ × ℝ)} (ht : tbl.length = 11473) {i j : ℕ} (hi : i ≤ 150) (hj : j ≤ i) :
    egmGet tbl i j = .ok (.dbl (egmC tbl i j).1, .dbl (egmC tbl i j).2) := by
  rw [egmGet, if_neg (by simpa using hj), egmC]
  by_cases h0 : i = 0
  · rw [if_pos h0, if_pos h0]
  rw [if_neg h0, if_neg h0]
  by_cases h1 : i = 1
  · rw [if_pos h1, if_pos h1]
  rw [if_neg h1, if_neg h1]
  have hlt : i * (i + 1) / 2 - 3 + j < tbl.length := by
    have h2 : i * (i + 1) ≤ 150 * 151 := Nat.mul_le_mul hi (by omega)
    have h3 : 2 * 3 ≤ i * (i + 1) := Nat.mul_le_mul (by omega) (by omega)
    omega
  rw [List.getD_eq_getElem?_getD, List.getElem?_eq_getElem hlt]
  rfl

/-- The EGM2008 functions: a degree above 150 or an order above the degree is refused with an exception; otherwise (the table having its 11473
rows) expressions are returned, and their values are the potential with the coefficients of the table and its partial derivatives. -/
theorem egm2008_spec {tbl : List (ℝ × ℝ)} (ht : tbl.length = 11473) (xyz : Fin 3 → Expr ℝ) (n m : ℕ) (mue ae : Expr ℝ) :
    ((150 < n ∨ n < m) → egmPot Real.sqrt tbl xyz n m mue ae = .throw ∧ egmAcc Real.sqrt tbl xyz n m mue ae = .throw) ∧
    (n ≤ 150 → m ≤ n → ∃ U g, egmPot Real.sqrt tbl xyz n m mue ae = .ok U ∧ egmAcc Real.sqrt tbl xyz n m mue ae = .ok g ∧
      ∀ v x y z mu a, (xyz 0).eval v = some x → (xyz 1).eval v = some y → (xyz 2).eval v = some z → 0 < x ^ 2 + y ^ 2 + z ^ 2 →
        mue.eval v = some mu → ae.eval v = some a → a ≠ 0 →
        U.eval v = some (potential mu a (fun i j => (egmC tbl i j).1) (fun i j => (egmC tbl i j).2) n m x y z) ∧
        ∃ G : Fin 3 → ℝ, (∀ k, (g k).eval v = some (G k)) ∧
          HasDerivAt (fun s => potential mu a (fun i j => (egmC tbl i j).1) (fun i j => (egmC tbl i j).2) n m s y z) (G 0) x ∧
          HasDerivAt (fun s => potential mu a (fun i j => (egmC tbl i j).1) (fun i j => (egmC tbl i j).2) n m x s z) (G 1) y ∧
          HasDerivAt (fun s => potential mu a (fun i j => (egmC tbl i j).1) (fun i j => (egmC tbl i j).2) n m x y s) (G 2) z) := by
  constructor
  · rintro h
    have : egmChecks n m = .throw := by
      rw [egmChecks, egmMaxDegree]
      by_cases h1 : 150 < n
      · rw [if_pos h1]
      · rw [if_neg h1, if_pos (h.resolve_left h1)]
    rw [egmPot, egmAcc, this]
    exact ⟨rfl, rfl⟩
  · intro hn hm
    have hchk : egmChecks n m = .ok () := by rw [egmChecks, egmMaxDegree, if_neg (by omega), if_neg (by omega)]
    let Ω := {w : Env ℝ × ℝ × ℝ × ℝ × ℝ × ℝ // (xyz 0).eval w.1 = some w.2.1 ∧ (xyz 1).eval w.1 = some w.2.2.1 ∧ (xyz 2).eval w.1 = some w.2.2.2.1 ∧
      0 < w.2.1 ^ 2 + w.2.2.1 ^ 2 + w.2.2.2.1 ^ 2 ∧ mue.eval w.1 = some w.2.2.2.2.1 ∧ ae.eval w.1 = some w.2.2.2.2.2 ∧ w.2.2.2.2.2 ≠ 0}
    have hcs : ∀ i j, i ≤ n → j ≤ i → j ≤ m → ∃ c, egmGet tbl i j = .ok c ∧ ∀ ω : Ω, c.1.eval ω.1.1 = some (egmC tbl i j).1 ∧
        c.2.eval ω.1.1 = some (egmC tbl i j).2 := fun i j hi hj _ => ⟨_, egmGet_ok ht (by omega) hj, fun ω => ⟨by simp, by simp⟩⟩
    obtain ⟨U, h1, h2⟩ := shPotImpl_value (Ω := Ω) (v := fun ω => ω.1.1) (x := fun ω => ω.1.2.1) (y := fun ω => ω.1.2.2.1) (z := fun ω => ω.1.2.2.2.1)
      (mu := fun ω => ω.1.2.2.2.2.1) (a := fun ω => ω.1.2.2.2.2.2) (C := fun _ i j => (egmC tbl i j).1) (S := fun _ i j => (egmC tbl i j).2)
      (xyz := xyz) (ae := ae) (mue := mue) (cs := egmGet tbl) (n := n) (m := m) (by unfold u32max; omega) hm (fun ω => ω.2.2.2.2.1) (fun ω => ω.2.1)
      (fun ω => ω.2.2.1) (fun ω => ω.2.2.2.1) (fun ω => ω.2.2.2.2.2.2.1) (fun ω => ω.2.2.2.2.2.2.2) (fun ω => ω.2.2.2.2.2.1) hcs
    obtain ⟨g, h3, h4⟩ := shAccImpl_value (Ω := Ω) (v := fun ω => ω.1.1) (x := fun ω => ω.1.2.1) (y := fun ω => ω.1.2.2.1) (z := fun ω => ω.1.2.2.2.1)
      (mu := fun ω => ω.1.2.2.2.2.1) (a := fun ω => ω.1.2.2.2.2.2) (C := fun _ i j => (egmC tbl i j).1) (S := fun _ i j => (egmC tbl i j).2)
      (xyz := xyz) (ae := ae) (mue := mue) (cs := egmGet tbl) (n := n) (m := m) (by unfold u32max; omega) hm (fun ω => ω.2.2.2.2.1) (fun ω => ω.2.1)
      (fun ω => ω.2.2.1) (fun ω => ω.2.2.2.1) (fun ω => ω.2.2.2.2.2.2.1) (fun ω => ω.2.2.2.2.2.2.2) (fun ω => ω.2.2.2.2.2.1) hcs
    refine ⟨U, g, by rw [egmPot, hchk, Res.bind_ok, h1], by rw [egmAcc, hchk, Res.bind_ok, h3], ?_⟩
    intro v x y z mu a hx hy hz h0 hmu ha ha0
    let ω : Ω := ⟨(v, x, y, z, mu, a), hx, hy, hz, h0, hmu, ha, ha0⟩
    refine ⟨h2 ω, _, fun k => h4 ω k, ?_, ?_, ?_⟩
    · refine (hasDerivAt_potential ha0 _ _ n m (hasDerivAt_id x) (hasDerivAt_const x y) (hasDerivAt_const x z) h0).congr_deriv ?_
      simp [ω]
    · refine (hasDerivAt_potential ha0 _ _ n m (hasDerivAt_const y x) (hasDerivAt_id y) (hasDerivAt_const y z) h0).congr_deriv ?_
      simp [ω]
    · refine (hasDerivAt_potential ha0 _ _ n m (hasDerivAt_const z x) (hasDerivAt_const z y) (hasDerivAt_id z) h0).congr_deriv ?_
      simp [ω]

end

/-! ### The potential in spherical coordinates -/

/-- The usual form of the potential, with the distance `r > 0`, the latitude `φ` (with positive cosine or not) and the longitude `l`. -/
theorem sh_potential_spherical (mu a : ℝ) (C S : ℕ → ℕ → ℝ) (n m : ℕ) {r : ℝ} (hr : 0 < r) (φ l : ℝ) :
    potential mu a C S n m (r * Real.cos φ * Real.cos l) (r * Real.cos φ * Real.sin l) (r * Real.sin φ) =
      mu / a * ∑ i ∈ Finset.range (n + 1), ∑ j ∈ Finset.range (min m i + 1),
        (a / r) ^ (i + 1) * (nrm i j * Real.cos φ ^ j * legD i j (Real.sin φ)) * (C i j * Real.cos (j * l) + S i j * Real.sin (j * l)) := by
  unfold potential
  congr 1
  refine Finset.sum_congr rfl fun i _ => Finset.sum_congr rfl fun j _ => ?_
  have hrad : rad (r * Real.cos φ * Real.cos l) (r * Real.cos φ * Real.sin l) (r * Real.sin φ) = r := by
    rw [rad, show (r * Real.cos φ * Real.cos l) ^ 2 + (r * Real.cos φ * Real.sin l) ^ 2 + (r * Real.sin φ) ^ 2 = r ^ 2 by
      have h1 := Real.sin_sq_add_cos_sq φ
      have h2 := Real.sin_sq_add_cos_sq l
      linear_combination r ^ 2 * Real.cos φ ^ 2 * h2 + r ^ 2 * h1]
    exact Real.sqrt_sq hr.le
  have hz : r * Real.sin φ / r = Real.sin φ := by field_simp
  have hxy : ((r * Real.cos φ * Real.cos l : ℝ) : ℂ) + ((r * Real.cos φ * Real.sin l : ℝ) : ℂ) * I =
      ((r * Real.cos φ : ℝ) : ℂ) * (Complex.cos l + Complex.sin l * I) := by push_cast; ring
  have hs : solid i j (r * Real.cos φ * Real.cos l) (r * Real.cos φ * Real.sin l) (r * Real.sin φ) =
      ((legD i j (Real.sin φ) / r ^ (i + j + 1) * (r * Real.cos φ) ^ j : ℝ) : ℂ) * (((Real.cos (j * l) : ℝ) : ℂ) + ((Real.sin (j * l) : ℝ) : ℂ) * I) := by
    rw [solid, hrad, hz, hxy, mul_pow, Complex.cos_add_sin_mul_I_pow]
    push_cast
    ring
  rw [vw_re, vw_im, hs, re_ofReal_mul, im_ofReal_mul]
  simp only [add_re, add_im, mul_re, mul_im, ofReal_re, ofReal_im, I_re, I_im]
  rw [show i + j + 1 = i + 1 + j by omega, pow_add r (i + 1) j, mul_pow, div_pow]
  field_simp
  ring

/-- The first associated Legendre functions of the specification. -/
theorem legD_low (u : ℝ) : legD 0 0 u = 1 ∧ legD 1 0 u = u ∧ legD 1 1 u = 1 ∧ legD 2 0 u = (3 * u ^ 2 - 1) / 2 := by
  have h00 : legD 0 0 u = 1 := by rw [legD_zero]
  have h10 : legD 1 0 u = u := by have := legD_rec1 0 u; simp [h00] at this; exact this
  have h11 : legD 1 1 u = 1 := by have := legD_diag 0 u; simp [h00] at this; exact this
  refine ⟨h00, h10, h11, ?_⟩
  have := legD_rec 0 0 u
  simp [h00, h10] at this
  linarith

/-- Degree zero: the potential of a point mass. -/
theorem sh_point_mass {mu a : ℝ} (ha : a ≠ 0) (S : ℕ → ℕ → ℝ) {x y z : ℝ} :
    potential mu a (fun _ _ => 1) S 0 0 x y z = mu / Real.sqrt (x ^ 2 + y ^ 2 + z ^ 2) := by
  simp only [potential, Nat.zero_min, zero_add, Finset.range_one, Finset.sum_singleton, vw_zero, ofReal_re, ofReal_im]
  field_simp
  ring

/-! ### Examples -/

/-- A list with the six pairs up to degree two is accepted, with the defaults, with a degree, and with a degree and an order. -/
example : Accepted 6 none none 2 2 ∧ Accepted 6 (some 1) none 1 1 ∧ Accepted 6 (some 2) (some 0) 2 0 :=
  ⟨⟨2, by norm_num, by norm_num, rfl, by norm_num, rfl, by norm_num, by simp⟩, ⟨2, by norm_num, by norm_num, rfl, by norm_num, rfl, by norm_num, by simp⟩,
    ⟨2, by norm_num, by norm_num, rfl, by norm_num, rfl, by norm_num, by simp⟩⟩

/-- An order without a degree, a degree which is too large, an order above the degree, and a size which is not triangular are refused. -/
example : (∀ n m, ¬ Accepted 6 none (some 1) n m) ∧ (∀ n m, ¬ Accepted 6 (some 3) none n m) ∧ (∀ n m, ¬ Accepted 6 (some 1) (some 2) n m) ∧
    (∀ n m, ¬ Accepted 5 none none n m) ∧ ∀ n m, ¬ Accepted 0 none none n m := by
  refine ⟨?_, ?_, ?_, ?_, ?_⟩
  · rintro n m ⟨N, h1, h2, h3, h4, h5, h6, h7⟩
    simp at h7
  · rintro n m ⟨N, h1, h2, h3, h4, h5, h6, h7⟩
    simp at h3; subst h3; nlinarith
  · rintro n m ⟨N, h1, h2, h3, h4, h5, h6, h7⟩
    simp at h3 h5; omega
  · rintro n m ⟨N, h1, h2, h3, h4, h5, h6, h7⟩
    have : N < 3 := by nlinarith
    interval_cases N <;> omega
  · rintro n m ⟨N, h1, h2, h3, h4, h5, h6, h7⟩
    nlinarith

section
local instance dfuncSh : DFunc := ⟨none⟩

/-- An oblate body: the variables are the coordinates, the coefficients are numbers. -/
example : Values (fun i => Expr.var (["x", "y", "z"].getD i "")) (.dbl 2) (.dbl 1)
    [(.dbl 1, .dbl 0), (.dbl 0, .dbl 0), (.dbl 0, .dbl 0), (.dbl (-1), .dbl 0), (.dbl 0, .dbl 0), (.dbl 0, .dbl 0)] 2 0
    ⟨fun s => if s = "x" then 1 else if s = "y" then 2 else 2, fun _ => 0, 0⟩ 1 2 2 2 1
    (fun i j => if i = 0 then 1 else if i = 2 ∧ j = 0 then -1 else 0) (fun _ _ => 0) where
  hx := by simp
  hy := by simp
  hz := by simp
  h0 := by norm_num
  hmu := by simp
  ha := by simp
  ha0 := by norm_num
  hcs := by
    intro i j hi hj hjm c hc
    obtain rfl : j = 0 := by omega
    interval_cases i <;> simp at hc <;> subst hc <;> simp

end

end Heyoka.Sh
