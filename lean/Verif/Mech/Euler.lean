import Verif.Mech.Build
import Mathlib.Analysis.Calculus.FDeriv.Symmetric
import Mathlib.Analysis.Calculus.ContDiff.Basic
import Mathlib.Analysis.Calculus.Deriv.Prod

/-!
# The values of the derivatives in the phase space

The expressions in the tensors of `diff_tensors()` have the values of the derivatives of the functions on the
phase space.
-/

set_option linter.unusedSectionVars false

namespace Heyoka.Mech

open Heyoka.Sym Heyoka.Dtens Heyoka.AD Filter Topology

/-! ### The phase space -/

/-- Coordinates, velocities (or momenta), time. -/
abbrev Phase (n : Nat) := (Fin n → ℝ) × (Fin n → ℝ) × ℝ

/-- The direction of the coordinate `i`. -/
def dq (n i : Nat) : Phase n := (fun j => if j.val = i then 1 else 0, 0, 0)

/-- The direction of the velocity (momentum) `i`. -/
def dp (n i : Nat) : Phase n := (0, fun j => if j.val = i then 1 else 0, 0)

/-- The direction of the time. -/
def dt (n : Nat) : Phase n := (0, 0, 1)

/-- The assignment for a point of the phase space; the variables that are neither coordinates nor velocities have the
values given by `w`. -/
def env (w : String → ℝ → ℝ) (par : Nat → ℝ) (n : Nat) (q p : List String) (z : Phase n) : Env ℝ where
  var s := if h : q.idxOf s < n then z.1 ⟨q.idxOf s, h⟩ else if h : p.idxOf s < n then z.2.1 ⟨p.idxOf s, h⟩ else w s z.2.2
  par := par
  time := z.2.2

/-- The assignment for a point of the phase space. All other variables and the parameters are as in `v`. -/
def state (v : Env ℝ) (n : Nat) (q p : List String) : Phase n → Env ℝ := env (fun s _ => v.var s) v.par n q p

/-- The same, with the time in the variable `__tm` too. -/
noncomputable def point (v : Env ℝ) (n : Nat) (q p : List String) : Phase n → Env ℝ :=
  env (fun s t => if s = "__tm" then t else v.var s) v.par n q p

section
variable {n : Nat} {q p : List String} {w : String → ℝ → ℝ} {par : Nat → ℝ} {z : Phase n}

theorem idxOf_get {l : List String} (hl : l.Nodup) {i : Nat} (hi : i < l.length) : l.idxOf l[i] = i :=
  List.Nodup.idxOf_getElem hl i hi

theorem idxOf_not {l : List String} (hl : l.length = n) {s : String} (hs : s ∉ l) : ¬ l.idxOf s < n := by
  rw [← hl, List.idxOf_lt_length_iff]; exact hs

theorem env_q (hq : q.length = n) (hn : (q ++ p).Nodup) {i : Nat} (hi : i < n) :
    (env w par n q p z).var (q[i]'(hq ▸ hi)) = z.1 ⟨i, hi⟩ := by
  have h1 := idxOf_get (List.nodup_append.1 hn).1 (hq ▸ hi : i < q.length)
  simp only [env, h1, dif_pos hi]

theorem env_p (hq : q.length = n) (hp : p.length = n) (hn : (q ++ p).Nodup) {i : Nat} (hi : i < n) :
    (env w par n q p z).var (p[i]'(hp ▸ hi)) = z.2.1 ⟨i, hi⟩ := by
  have h1 := idxOf_get (List.nodup_append.1 hn).2.1 (hp ▸ hi : i < p.length)
  have h2 : ¬ q.idxOf (p[i]'(hp ▸ hi)) < n :=
    idxOf_not hq fun h => (List.nodup_append.1 hn).2.2 _ h _ (List.getElem_mem _) rfl
  simp only [env, h1, dif_pos hi, dif_neg h2]

theorem env_other (hq : q.length = n) (hp : p.length = n) {s : String} (hs : s ∉ q ++ p) :
    (env w par n q p z).var s = w s z.2.2 := by
  rw [List.mem_append, not_or] at hs
  have h1 : ¬ q.idxOf s < n := by rw [← hq, List.idxOf_lt_length_iff]; exact hs.1
  have h2 : ¬ p.idxOf s < n := by rw [← hp, List.idxOf_lt_length_iff]; exact hs.2
  simp only [env, dif_neg h1, dif_neg h2]

theorem env_ext {a b : Env ℝ} (hq : q.length = n) (hp : p.length = n)
    (h1 : ∀ i (hi : i < n), a.var (q[i]'(hq ▸ hi)) = b.var (q[i]'(hq ▸ hi)))
    (h2 : ∀ i (hi : i < n), a.var (p[i]'(hp ▸ hi)) = b.var (p[i]'(hp ▸ hi)))
    (h3 : ∀ s, s ∉ q ++ p → a.var s = b.var s) (h4 : a.par = b.par) (h5 : a.time = b.time) : a = b := by
  obtain ⟨av, ap, at'⟩ := a
  obtain ⟨bv, bp, bt⟩ := b
  simp only at h1 h2 h3 h4 h5
  subst h4 h5
  congr 1
  funext s
  by_cases hs : s ∈ q
  · obtain ⟨i, hi, rfl⟩ := List.getElem_of_mem hs
    exact h1 i (hq ▸ hi)
  by_cases hs' : s ∈ p
  · obtain ⟨i, hi, rfl⟩ := List.getElem_of_mem hs'
    exact h2 i (hp ▸ hi)
  exact h3 s (by simp [hs, hs'])

theorem set_q (hq : q.length = n) (hp : p.length = n) (hn : (q ++ p).Nodup) {i : Nat} (hi : i < n) (t : ℝ) :
    (env w par n q p z).set (.var (q[i]'(hq ▸ hi))) t =
      env w par n q p (z + (t - (env w par n q p z).var (q[i]'(hq ▸ hi))) • dq n i) := by
  have hn' := List.nodup_append.1 hn
  refine env_ext hq hp (fun j hj => ?_) (fun j hj => ?_) (fun s hs => ?_) rfl ?_
  · rw [env_q hq hn hi, env_q hq hn hj]
    simp only [Env.set, hn'.1.getElem_inj_iff, env_q hq hn hj, dq, Prod.smul_mk, Prod.fst_add, Pi.add_apply, Pi.smul_apply,
      smul_eq_mul, mul_ite, mul_one, mul_zero]
    by_cases hji : j = i
    · subst hji; simp
    · simp [hji]
  · rw [env_p hq hp hn hj]
    have : (p[j]'(hp ▸ hj)) ≠ (q[i]'(hq ▸ hi)) := fun h => hn'.2.2 _ (List.getElem_mem _) _ (List.getElem_mem _) h.symm
    simp [Env.set, this, env_p hq hp hn hj, dq]
  · rw [env_other hq hp hs]
    have : s ≠ (q[i]'(hq ▸ hi)) := by rintro rfl; simp at hs
    simp [Env.set, this, env_other hq hp hs, dq]
  · simp [Env.set, env, dq]

theorem set_p (hq : q.length = n) (hp : p.length = n) (hn : (q ++ p).Nodup) {i : Nat} (hi : i < n) (t : ℝ) :
    (env w par n q p z).set (.var (p[i]'(hp ▸ hi))) t =
      env w par n q p (z + (t - (env w par n q p z).var (p[i]'(hp ▸ hi))) • dp n i) := by
  have hn' := List.nodup_append.1 hn
  refine env_ext hq hp (fun j hj => ?_) (fun j hj => ?_) (fun s hs => ?_) rfl ?_
  · rw [env_q hq hn hj]
    have : (q[j]'(hq ▸ hj)) ≠ (p[i]'(hp ▸ hi)) := fun h => hn'.2.2 _ (List.getElem_mem _) _ (List.getElem_mem _) h
    simp [Env.set, this, env_q hq hn hj, dp]
  · rw [env_p hq hp hn hi, env_p hq hp hn hj]
    simp only [Env.set, hn'.2.1.getElem_inj_iff, env_p hq hp hn hj, dp, Prod.smul_mk, Prod.snd_add, Prod.fst_add, Pi.add_apply, Pi.smul_apply,
      smul_eq_mul, mul_ite, mul_one, mul_zero]
    by_cases hji : j = i
    · subst hji; simp
    · simp [hji]
  · rw [env_other hq hp hs]
    have : s ≠ (p[i]'(hp ▸ hi)) := by rintro rfl; simp at hs
    simp [Env.set, this, env_other hq hp hs, dp]
  · simp [Env.set, env, dp]

theorem point_eq (v : Env ℝ) (hq : q.length = n) (hp : p.length = n) (ht : "__tm" ∉ q ++ p) :
    point v n q p z = (state v n q p z).set (.var "__tm") z.2.2 := by
  unfold point state
  have hne : ∀ s ∈ q ++ p, s ≠ "__tm" := by rintro s hs rfl; exact ht hs
  refine env_ext hq hp (fun j hj => ?_) (fun j hj => ?_) (fun s hs => ?_) rfl rfl
  · have := hne (q[j]'(hq ▸ hj)) (by simp)
    simp only [Env.set, env, this, if_false]
  · have := hne (p[j]'(hp ▸ hj)) (by simp)
    simp only [Env.set, env, this, if_false]
  · rw [env_other hq hp hs]
    simp [Env.set, env_other hq hp hs]

theorem set_t (v : Env ℝ) (hq : q.length = n) (hp : p.length = n) (ht : "__tm" ∉ q ++ p) (t : ℝ) :
    { (point v n q p z).set (.var "__tm") t with time := t } =
      point v n q p (z + (t - (point v n q p z).var "__tm") • dt n) := by
  have h0 : (point v n q p z).var "__tm" = z.2.2 := by
    unfold point
    rw [env_other hq hp ht, if_pos rfl]
  rw [h0]
  have hne : ∀ s ∈ q ++ p, s ≠ "__tm" := by rintro s hs rfl; exact ht hs
  refine env_ext hq hp (fun j hj => ?_) (fun j hj => ?_) (fun s hs => ?_) rfl ?_
  · have := hne (q[j]'(hq ▸ hj)) (by simp)
    simp [Env.set, point, env, this, dt]
  · have := hne (p[j]'(hp ▸ hj)) (by simp)
    simp [Env.set, point, env, this, dt]
  · unfold point
    rw [env_other hq hp hs]
    by_cases h : s = "__tm" <;> simp [Env.set, h, env_other hq hp hs, dt]
  · simp [point, env, dt]

end

/-! ### Derivatives -/

section
variable {E : Type} [NormedAddCommGroup E] [NormedSpace ℝ E] {pt : E → Env ℝ} {z d : E} {x : DVar} {e e1 : Expr ℝ}

/-- The derivative with respect to `x` has the value of the derivative in the direction `d`. -/
theorem value_of_deriv {F : E → ℝ} {F' : E →L[ℝ] ℝ}
    (hset : ∀ t, e.eval ((pt z).set x t) = e.eval (pt (z + (t - (pt z).get x) • d)))
    (hd : IsDeriv x e e1) (hs : Smooth x (pt z) e) (hF : ∀ᶠ w in 𝓝 z, e.eval (pt w) = some (F w))
    (hf : HasFDerivAt F F' z) : e1.eval (pt z) = some (F' d) := by
  obtain ⟨G, D, hG, hD, he⟩ := hd.1 _ hs
  have hline : HasDerivAt (fun t : ℝ => z + (t - (pt z).get x) • d) d ((pt z).get x) := by
    have h1 : HasDerivAt (fun t : ℝ => t - (pt z).get x) 1 ((pt z).get x) := (hasDerivAt_id _).sub_const _
    have h2 := (h1.smul_const d).const_add z
    simpa using h2
  have h0 : z + ((pt z).get x - (pt z).get x) • d = z := by simp
  have hcomp : HasDerivAt (fun t : ℝ => F (z + (t - (pt z).get x) • d)) (F' d) ((pt z).get x) := by
    have : HasFDerivAt F F' (z + ((pt z).get x - (pt z).get x) • d) := by rw [h0]; exact hf
    exact this.comp_hasDerivAt _ hline
  have htend : Tendsto (fun t : ℝ => z + (t - (pt z).get x) • d) (𝓝 ((pt z).get x)) (𝓝 z) := by
    have := hline.continuousAt.tendsto
    rwa [h0] at this
  have heq : G =ᶠ[𝓝 ((pt z).get x)] fun t => F (z + (t - (pt z).get x) • d) := by
    filter_upwards [hG, htend.eventually hF] with t h1 h2
    rw [hset, h2] at h1
    exact (Option.some.inj h1).symm
  rw [he, (hD.congr_of_eventuallyEq heq.symm).unique hcomp]

end

/-! ### The entries of the tensors -/

section
variable [FmtName ℝ] {S : Fn ℝ → Nat → Prop} {args : List DVar} {L : Expr ℝ} {d : Dt (Expr ℝ)} {order : Nat}

theorem tensor_at (ht : Tensor S [L] args order d.map) (hd : d.nargs = args.length) {k : SIdx} (hk : Sane k.2)
    (ho : degree k.2 ≤ order) (h0 : k.1 = 0) (ha : ∀ r ∈ k.2, r.1 < args.length) :
    ∃ e, d.at k = .ok e ∧ (k, e) ∈ d.map := by
  have hc : Complete d 1 order := by
    have := ht.complete
    rw [← hd] at this
    simpa using this
  obtain ⟨i, e, -, -, h1, h2⟩ := (lookup_spec hc k).1 hk ho (by omega) (by rw [hd]; exact ha)
  refine ⟨e, h2, ?_⟩
  obtain ⟨p, hp, hpk⟩ := (hc.keys k).2 ⟨by omega, hk, by rw [hd]; exact ha, ho⟩
  have := hc.lookup hp
  rw [hpk, h1] at this
  have he := Option.some.inj this
  rw [he, ← hpk]
  exact hp

/-- An entry is the derivative of another one. -/
theorem tensor_deriv (ht : Tensor S [L] args order d.map) (hd : d.nargs = args.length) {j : Nat} {r : List (Nat × Nat)}
    {x : DVar} (hx : args[j]? = some x) (hr : Sane r) (hmin : ∀ q ∈ r, j ≤ q.1) (ha : ∀ q ∈ r, q.1 < args.length)
    {e e' : Expr ℝ} (he : ((0, r), e) ∈ d.map) (he' : ((0, addIdx j r), e') ∈ d.map) : IsDeriv x e e' := by
  have hc : Complete d 1 order := by
    have := ht.complete
    rw [← hd] at this
    simpa using this
  obtain ⟨p, hp, j', x', hx', hk, hmin', hder⟩ := ht.src _ he' (addIdx_ne_nil _ _)
  rw [Prod.mk.injEq] at hk
  obtain ⟨rfl, heq⟩ := addIdx_inj hr ((hc.keys p.1).1 ⟨p, hp, rfl⟩).2.1 hmin hmin' hk.2
  rw [hx] at hx'
  cases hx'
  have h1 := hc.lookup hp
  have h2 := hc.lookup he
  rw [show p.1 = (0, r) from Prod.ext hk.1.symm heq.symm, h2] at h1
  rw [show e = p.2 from Option.some.inj h1]
  exact hder

theorem tensor_base (ht : Tensor S [L] args order d.map) : ((0, []), L) ∈ d.map := ht.base 0 L rfl

end

end Heyoka.Mech
