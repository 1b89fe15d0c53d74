import Verif.Mech.Motion

/-!
# C47: equations of motion from a Lagrangian or a Hamiltonian

The equations returned by `lagrangian()` are the Euler–Lagrange equations, those returned by `hamiltonian()` are the canonical
equations. A point of the phase space `Phase n` consists of the coordinates, the velocities (momenta) and the time;
`state v n q p z` is the assignment of these values to the variables; `dq n i`, `dp n i`, `dt n` are the directions of the
coordinate `i`, of the velocity (momentum) `i` and of the time.
-/

set_option linter.unusedSectionVars false

namespace Heyoka.Mech

open Heyoka.Sym Heyoka.Dtens Heyoka.AD Filter Topology

/-! ### Specification -/

/-- The Euler–Lagrange equations with dissipation at the time `t`, for the curve `γ` with the velocity `γ'`:
`d/dt ∂L/∂q'_i = ∂L/∂q_i - ∂D/∂q'_i`. -/
def EulerLagrange {n : Nat} (Lf Df : Phase n → ℝ) (γ γ' : ℝ → Fin n → ℝ) (t : ℝ) : Prop :=
  ∀ i, i < n → HasDerivAt (fun s => fderiv ℝ Lf (γ s, γ' s, s) (dp n i))
    (fderiv ℝ Lf (γ t, γ' t, t) (dq n i) - fderiv ℝ Df (γ t, γ' t, t) (dp n i)) t

/-- The kinetic energy is positive definite: the second derivatives with respect to the velocities. -/
def PosMass {n : Nat} (Lf : Phase n → ℝ) (z : Phase n) : Prop :=
  ∀ x : Fin n → ℝ, x ≠ 0 → 0 < fderiv ℝ (fderiv ℝ Lf) z (0, x, 0) (0, x, 0)

/-! ### Curves -/

section
variable {n : Nat} {Lf Df : Phase n → ℝ} {z0 : Phase n}

theorem curve_deriv {γ γ' : ℝ → Fin n → ℝ} {α : Fin n → ℝ} {t0 : ℝ} (h1 : HasDerivAt γ (γ' t0) t0) (h2 : HasDerivAt γ' α t0) :
    HasDerivAt (fun s => ((γ s, γ' s, s) : Phase n)) (γ' t0, α, 1) t0 :=
  h1.prodMk (h2.prodMk (hasDerivAt_id t0))

/-- The derivative of a momentum along a curve. -/
theorem momentum_deriv (hs : ContDiffAt ℝ 2 Lf z0) {γ γ' : ℝ → Fin n → ℝ} {α : Fin n → ℝ} {t0 : ℝ}
    (hz : ((γ t0, γ' t0, t0) : Phase n) = z0) (h1 : HasDerivAt γ (γ' t0) t0) (h2 : HasDerivAt γ' α t0) (d : Phase n) :
    HasDerivAt (fun s => fderiv ℝ Lf (γ s, γ' s, s) d) (fderiv ℝ (fderiv ℝ Lf) z0 (γ' t0, α, 1) d) t0 := by
  have h3 : DifferentiableAt ℝ (fderiv ℝ Lf) z0 :=
    (hs.fderiv_right (m := 1) (by norm_num)).differentiableAt (by norm_num)
  have h4 : HasFDerivAt (fun z => fderiv ℝ Lf z d)
      ((ContinuousLinearMap.apply ℝ ℝ d).comp (fderiv ℝ (fderiv ℝ Lf) z0)) (γ t0, γ' t0, t0) := by
    rw [hz]
    exact (ContinuousLinearMap.apply ℝ ℝ d).hasFDerivAt.comp z0 h3.hasFDerivAt
  exact h4.comp_hasDerivAt t0 (curve_deriv h1 h2)

/-- The Euler–Lagrange equations are the linear system. -/
theorem euler_iff (hs : ContDiffAt ℝ 2 Lf z0) {γ γ' : ℝ → Fin n → ℝ} {α : Fin n → ℝ} {t0 : ℝ}
    (hz : ((γ t0, γ' t0, t0) : Phase n) = z0) (h1 : HasDerivAt γ (γ' t0) t0) (h2 : HasDerivAt γ' α t0) :
    EulerLagrange Lf Df γ γ' t0 ↔ Sol n (sysAt Lf Df z0) (fun j => if h : j < n then α ⟨j, h⟩ else 0) := by
  have hsymm : ∀ a b, fderiv ℝ (fderiv ℝ Lf) z0 a b = fderiv ℝ (fderiv ℝ Lf) z0 b a :=
    fun a b => hs.isSymmSndFDerivAt (by simp) a b
  refine forall_congr' fun i => forall_congr' fun hi => ?_
  have hm := momentum_deriv hs hz h1 h2 (dp n i)
  have hval : fderiv ℝ (fderiv ℝ Lf) z0 (γ' t0, α, 1) (dp n i) =
      ∑ j : Fin n, z0.2.1 j * fderiv ℝ (fderiv ℝ Lf) z0 (dq n j) (dp n i) + ∑ j : Fin n, α j * mass Lf z0 i j +
        fderiv ℝ (fderiv ℝ Lf) z0 (dp n i) (dt n) := by
    conv_lhs => rw [phase_sum ((γ' t0, α, 1) : Phase n)]
    simp only [map_add, map_sum, map_smul, add_apply, sum_apply, smul_apply, smul_eq_mul, one_mul]
    rw [hsymm (dt n)]
    have hmass : ∀ j, mass Lf z0 i j = fderiv ℝ (fderiv ℝ Lf) z0 (dp n j) (dp n i) := fun j => hsymm _ _
    simp only [hmass]
    simp only [← hz]
  have hsum : ∑ j ∈ Finset.range n, sysAt Lf Df z0 i j * (if h : j < n then α ⟨j, h⟩ else 0) =
      ∑ j : Fin n, α j * mass Lf z0 i j := by
    rw [Finset.sum_range]
    refine Finset.sum_congr rfl fun j _ => ?_
    rw [dif_pos j.2, sysAt, if_pos j.2, mul_comm]
  rw [hsum, sysAt, if_neg (lt_irrefl n), force]
  rw [hz]
  constructor
  · intro h
    have := h.unique hm
    rw [hval] at this
    have hcomm : ∑ j : Fin n, fderiv ℝ (fderiv ℝ Lf) z0 (dq n j) (dp n i) * z0.2.1 j =
        ∑ j : Fin n, z0.2.1 j * fderiv ℝ (fderiv ℝ Lf) z0 (dq n j) (dp n i) :=
      Finset.sum_congr rfl fun j _ => mul_comm _ _
    rw [hcomm]
    linarith
  · intro h
    have hcomm : ∑ j : Fin n, fderiv ℝ (fderiv ℝ Lf) z0 (dq n j) (dp n i) * z0.2.1 j =
        ∑ j : Fin n, z0.2.1 j * fderiv ℝ (fderiv ℝ Lf) z0 (dq n j) (dp n i) :=
      Finset.sum_congr rfl fun j _ => mul_comm _ _
    rw [hcomm] at h
    have : fderiv ℝ Lf z0 (dq n i) - fderiv ℝ Df z0 (dp n i) = fderiv ℝ (fderiv ℝ Lf) z0 (γ' t0, α, 1) (dp n i) := by
      rw [hval]; linarith
    rw [this]
    exact hm

theorem PosMass.regular (h : PosMass Lf z0) : Regular n (mass Lf z0) := by
  refine PosDef.regular fun x hx => ?_
  obtain ⟨i, hi, hne⟩ := hx
  have := h (fun j => x j) (fun h0 => hne (congrFun h0 ⟨i, hi⟩))
  have hv : ((0, fun j : Fin n => x j, 0) : Phase n) = ∑ j : Fin n, x j • dp n j := by
    conv_lhs => rw [phase_sum ((0, fun j : Fin n => x j, 0) : Phase n)]
    simp
  rw [hv] at this
  simp only [map_sum, map_smul, sum_apply, smul_apply, smul_eq_mul] at this
  rw [Finset.sum_range]
  simp only [Finset.sum_range, mass]
  simp only [Finset.mul_sum] at this ⊢
  rw [Finset.sum_comm] at this
  exact lt_of_lt_of_eq this (Finset.sum_congr rfl fun i _ => Finset.sum_congr rfl fun j _ => by ring)

end

/-! ### The Lagrangian -/

section
variable [FmtName ℝ] {H : ℝ → Prop} {L D : Expr ℝ} {qs ps : List (Expr ℝ)} {eqs : List (Expr ℝ × Expr ℝ)} {fuel : Nat}
variable {share : List (Expr ℝ) → List (Node ℝ)}

theorem evalL_of_map {v : Env ℝ} : ∀ {es : List (Expr ℝ)} {l : List ℝ}, es.map (Expr.eval v) = l.map some →
    Expr.evalL v es = some l
  | [], [], _ => rfl
  | [], _ :: _, h => by simp at h
  | _ :: _, [], h => by simp at h
  | e :: es, y :: ys, h => by
    simp only [List.map_cons, List.cons.injEq] at h
    rw [Expr.evalL_cons, h.1, evalL_of_map h.2]
    rfl

theorem ofDVar_inj : Function.Injective (ofDVar (K := ℝ)) := by
  intro x y h
  cases x <;> cases y <;> simp [ofDVar] at h <;> simp [h]

theorem list_args {es : List (Expr ℝ)} {args xs : List DVar} (h : ArgsFor es (.list (xs.map ofDVar)) args) : args = xs := by
  have := h.1
  rw [DArgs.exprs] at this
  simp only [Res.ok.injEq] at this
  exact (List.map_injective_iff.2 ofDVar_inj this).symm

theorem lagArgs_exprs (q p : List String) :
    q.map (Expr.var (K := ℝ)) ++ p.map .var ++ [.var "__tm"] = (lagArgs q p).map ofDVar := by
  simp [lagArgs, ofDVar, Function.comp_def]

theorem varToTime_vars {p : List String} (h : "__tm" ∉ p) : (p.map (Expr.var (K := ℝ))).map varToTime = p.map .var := by
  rw [List.map_map]
  refine List.map_congr_left fun s hs => ?_
  have hne : s ≠ "__tm" := by rintro rfl; exact h hs
  have : (Expr.var "__tm" : Expr ℝ).beq (.var s) = false := by simp [Expr.beq, Ne.symm hne]
  simp [varToTime, Expr.replace, mapFind_one, this]

/-- The calls of `diff_tensors()` made by a successful call of `lagrangian()`. -/
theorem lagrangian_ok (h : lagrangian fuel share L qs ps D = some (.ok eqs)) : ∃ q p Ldt Ddt largs dargs,
    lagCheck L qs ps D = .ok (q, p) ∧
    diffTensors fuel share [timeToVar L] (.list (qs ++ ps ++ [.var "__tm"])) 2 = some (.ok (Ldt, largs)) ∧
    diffTensors fuel share [D] (.list ps) 1 = some (.ok (Ddt, dargs)) ∧ motion Ldt Ddt qs ps = .ok eqs := by
  unfold lagrangian at h
  cases hc : lagCheck L qs ps D with
  | throw => rw [hc] at h; cases h
  | ub => rw [hc] at h; cases h
  | ok r =>
    rw [hc] at h
    simp only at h
    cases h1 : diffTensors fuel share [timeToVar L] (.list (qs ++ ps ++ [.var "__tm"])) 2 with
    | none => rw [h1] at h; cases h
    | some r1 =>
      rw [h1] at h
      cases r1 with
      | throw => cases h
      | ub => cases h
      | ok r1 =>
        simp only at h
        cases h2 : diffTensors fuel share [D] (.list ps) 1 with
        | none => rw [h2] at h; cases h
        | some r2 =>
          rw [h2] at h
          cases r2 with
          | throw => cases h
          | ub => cases h
          | ok r2 =>
            simp only [Option.some.injEq] at h
            exact ⟨r.1, r.2, r1.1, r2.1, r1.2, r2.2, rfl, rfl, rfl, h⟩

/-- The accelerations found by the code, at a point where the pivots do not vanish. -/
theorem lagrangian_values (hH : HexOk H) (hshare : ∀ es, Represents (share es) es) (hL : LibExpr H L) (hD : LibExpr H D)
    (h : lagrangian fuel share L qs ps D = some (.ok eqs)) :
    ∃ (q p : List String) (A : LMat ℝ) (acc : List (Expr ℝ)), qs = q.map .var ∧ ps = p.map .var ∧ Coords q p ∧
      eqs = (qs ++ ps).zip (ps ++ acc) ∧ acc.length = q.length ∧
      ∀ (v : Env ℝ) (z0 : Phase q.length) (Lf Df : Phase q.length → ℝ), LagReg v q.length q p L Lf z0 →
        DisReg v q.length q p D Df z0 → Vals (point v q.length q p z0) q.length A (sysAt Lf Df z0) ∧
        ∀ i e, acc[i]? = some e → e.eval (state v q.length q p z0) = (solve q.length A i q.length).eval (point v q.length q p z0) := by
  obtain ⟨q, p, Ldt, Ddt, largs, dargs, hc, h1, h2, h3⟩ := lagrangian_ok h
  obtain ⟨rfl, rfl, hco, hvL, hvD⟩ := lagCheck_ok.1 hc
  rw [lagArgs_exprs] at h1
  have hpv : p.map (Expr.var (K := ℝ)) = (p.map DVar.var).map ofDVar := by simp [ofDVar, Function.comp_def]
  have hla : largs = lagArgs q p := list_args (diffTensors_ok h1).2.1
  have hda : dargs = p.map .var := by
    rw [hpv] at h2
    exact list_args (diffTensors_ok h2).2.1
  have hLt := diffTensors_tensor hH hshare (by simpa using timeToVar_lib hL) (by norm_num) h1
  have hDt := diffTensors_tensor hH hshare (by simpa using hD) (by norm_num) h2
  have hLn := (diffTensors_ok h1).2.2.1
  have hDn := (diffTensors_ok h2).2.2.1
  rw [hla] at hLt hLn
  rw [hda] at hDt hDn
  obtain ⟨A, hA, hAv⟩ := buildLinmat_values (n := q.length) hH hL hco rfl hco.len.symm hvL hvD hLt hLn hDt hDn
  refine ⟨q, p, A, (List.range q.length).map fun i => varToTime (solve q.length A i q.length), rfl, rfl, hco, ?_, by simp, ?_⟩
  · unfold motion at h3
    rw [List.length_map, hA, Res.bind_ok, List.map_append,
      varToTime_vars fun hm => hco.time_free (List.mem_append_right _ hm), List.map_map] at h3
    cases h3
    rfl
  · intro v z0 Lf Df hr hrD
    refine ⟨hAv v z0 Lf Df hr hrD, fun i e he => ?_⟩
    rw [List.getElem?_map] at he
    obtain ⟨j, hj, rfl⟩ := Option.map_eq_some_iff.1 he
    rw [List.getElem?_range (by
      by_contra hlt
      rw [List.getElem?_eq_none (by simpa using hlt)] at hj
      cases hj)] at hj
    cases hj
    rw [eval_varToTime, point_eq v rfl hco.len.symm hco.time_free]
    rfl

/-- C47: **the equations of motion of a Lagrangian** are first-order equations for the coordinates and the velocities: the derivative of
a coordinate is the velocity, and that of the velocity is an expression for the acceleration. At every point of the phase space
where the Lagrangian is regular and the leading blocks of the mass matrix are regular, these expressions have values, and
a curve satisfies the Euler–Lagrange equations at that point exactly if its acceleration has these values. -/
theorem lagrangian_motion (hH : HexOk H) (hshare : ∀ es, Represents (share es) es) (hL : LibExpr H L) (hD : LibExpr H D)
    (h : lagrangian fuel share L qs ps D = some (.ok eqs)) :
    ∃ (q p : List String) (acc : List (Expr ℝ)), qs = q.map .var ∧ ps = p.map .var ∧ Coords q p ∧
      eqs = (qs ++ ps).zip (ps ++ acc) ∧ acc.length = q.length ∧
      ∀ (v : Env ℝ) (z0 : Phase q.length) (Lf Df : Phase q.length → ℝ), LagReg v q.length q p L Lf z0 →
        DisReg v q.length q p D Df z0 → Regular q.length (mass Lf z0) →
        ∃ a : Fin q.length → ℝ, Expr.evalL (state v q.length q p z0) acc = some (List.ofFn a) ∧
          ∀ γ γ' α, ((γ z0.2.2, γ' z0.2.2, z0.2.2) : Phase q.length) = z0 → HasDerivAt γ (γ' z0.2.2) z0.2.2 →
            HasDerivAt γ' α z0.2.2 → (α = a ↔ EulerLagrange Lf Df γ γ' z0.2.2) := by
  obtain ⟨q, p, A, acc, hq, hp, hco, heq, hlen, hval⟩ := lagrangian_values hH hshare hL hD h
  refine ⟨q, p, acc, hq, hp, hco, heq, hlen, fun v z0 Lf Df hr hrD hm => ?_⟩
  obtain ⟨hv, hacc⟩ := hval v z0 Lf Df hr hrD
  have hreg : Regular q.length (sysAt Lf Df z0) := by
    intro r hrn x hx
    refine hm r hrn x fun i hi => ?_
    rw [← hx i hi]
    refine Finset.sum_congr rfl fun j hj => ?_
    rw [Finset.mem_range] at hj
    rw [sysAt, if_pos (by omega)]
  obtain ⟨x, hx, hsol, huniq⟩ := solve_spec hv (hreg.pivots hv)
  refine ⟨fun i => x i, ?_, fun γ γ' α hz h1 h2 => ?_⟩
  · have hm : acc.map (Expr.eval (state v q.length q p z0)) = (List.ofFn fun i : Fin q.length => x i).map some := by
      refine List.ext_getElem (by simp [hlen]) fun i h1 h2 => ?_
      have hi : i < q.length := by simpa using h2
      simp only [List.getElem_map, List.getElem_ofFn]
      rw [hacc i acc[i] (List.getElem?_eq_getElem (by omega)), hx i hi]
    exact evalL_of_map hm
  · rw [euler_iff hr.smooth hz h1 h2]
    constructor
    · rintro rfl
      intro i hi
      rw [← hsol i hi]
      refine Finset.sum_congr rfl fun j hj => ?_
      dsimp only
      rw [dif_pos (Finset.mem_range.1 hj)]
    · intro hs
      funext i
      have := huniq _ hs i i.2
      rw [dif_pos i.2] at this
      exact this

/-- C47: the same for a positive definite kinetic energy. -/
theorem lagrangian_motion_posdef (hH : HexOk H) (hshare : ∀ es, Represents (share es) es) (hL : LibExpr H L) (hD : LibExpr H D)
    (h : lagrangian fuel share L qs ps D = some (.ok eqs)) :
    ∃ (q p : List String) (acc : List (Expr ℝ)), qs = q.map .var ∧ ps = p.map .var ∧ Coords q p ∧
      eqs = (qs ++ ps).zip (ps ++ acc) ∧ acc.length = q.length ∧
      ∀ (v : Env ℝ) (z0 : Phase q.length) (Lf Df : Phase q.length → ℝ), LagReg v q.length q p L Lf z0 →
        DisReg v q.length q p D Df z0 → PosMass Lf z0 →
        ∃ a : Fin q.length → ℝ, Expr.evalL (state v q.length q p z0) acc = some (List.ofFn a) ∧
          ∀ γ γ' α, ((γ z0.2.2, γ' z0.2.2, z0.2.2) : Phase q.length) = z0 → HasDerivAt γ (γ' z0.2.2) z0.2.2 →
            HasDerivAt γ' α z0.2.2 → (α = a ↔ EulerLagrange Lf Df γ γ' z0.2.2) := by
  obtain ⟨q, p, acc, hq, hp, hco, heq, hlen, hval⟩ := lagrangian_motion hH hshare hL hD h
  exact ⟨q, p, acc, hq, hp, hco, heq, hlen, fun v z0 Lf Df hr hrD hm => hval v z0 Lf Df hr hrD hm.regular⟩

/-- C47: **success**: different variables with names that are not reserved, as many velocities as coordinates, only coordinates and
velocities in the Lagrangian, only velocities in the dissipation function; the sizes of the decompositions must be in the range
of 32-bit integers. -/
theorem lagrangian_total (hH : HexOk H) (hshare : ∀ es, Represents (share es) es) (hL : LibExpr H L) (hD : LibExpr H D)
    {q p : List String} (hc : Coords q p) (hvL : ∀ s, Vars L s → s ∈ q ++ p) (hvD : ∀ s, Vars D s → s ∈ p)
    (hlen : 2 * q.length + 1 < 2 ^ 32)
    (hfitL : ∀ k, k < 2 → ∀ fuel d', diffTensors fuel share [timeToVar L] (.list ((lagArgs q p).map ofDVar)) k =
      some (.ok (d', lagArgs q p)) → Fits share k d'.map)
    (hfitD : (inputs [D]).length + Expr.fnCountL ([D].map (prep (inputs [D]))) + 1 ≤ 2 ^ 32) :
    ∃ N eqs, ∀ fuel, N ≤ fuel → lagrangian fuel share L (q.map .var) (p.map .var) D = some (.ok eqs) := by
  have hpv : p.map (Expr.var (K := ℝ)) = (p.map DVar.var).map ofDVar := by simp [ofDVar, Function.comp_def]
  have hpne : p ≠ [] := by
    intro h0
    have := hc.len
    rw [h0] at this
    exact hc.ne (List.length_eq_zero_iff.1 this)
  have hnd : (lagArgs q p).Nodup := by
    unfold lagArgs
    refine List.Nodup.map (fun a b h => by simpa using h) ?_
    rw [List.nodup_append]
    refine ⟨hc.nodup, by simp, fun a ha b hb => ?_⟩
    rw [List.mem_singleton] at hb
    subst hb
    rintro rfl
    exact hc.time_free ha
  have hla : ArgsFor [timeToVar L] (.list ((lagArgs q p).map ofDVar)) (lagArgs q p) :=
    ⟨rfl, hnd, by simp [lagArgs]⟩
  have hda : ArgsFor [D] (.list (p.map .var)) (p.map .var) :=
    ⟨by rw [hpv]; rfl, List.Nodup.map (fun a b h => by simpa using h) (List.nodup_append.1 hc.nodup).2.1, by simpa using hpne⟩
  obtain ⟨N1, Ldt, h1⟩ := diff_tensors_total hH hshare (es := [timeToVar L]) (by simpa using timeToVar_lib hL)
    (order := 2) (by norm_num) (by simp) hla (by rw [lagArgs_length rfl hc.len.symm]; exact hlen) (by simp) hfitL
  obtain ⟨N2, Ddt, h2⟩ := diff_tensors_first_order_total hH hshare (es := [D]) (by simpa using hD) (by simp) hda
    (by rw [List.length_map, ← hc.len]; omega) (by simpa using hfitD)
  have hLt := diffTensors_tensor hH hshare (by simpa using timeToVar_lib hL) (by norm_num) (h1 N1 le_rfl)
  have hDt := diffTensors_tensor hH hshare (by simpa using hD) (by norm_num) (h2 N2 le_rfl)
  have hLn := (diffTensors_ok (h1 N1 le_rfl)).2.2.1
  have hDn := (diffTensors_ok (h2 N2 le_rfl)).2.2.1
  obtain ⟨A, hA, -⟩ := buildLinmat_values (n := q.length) hH hL hc rfl hc.len.symm hvL hvD hLt hLn hDt hDn
  refine ⟨max N1 N2, (q.map Expr.var ++ p.map Expr.var).zip
    ((p.map Expr.var ++ (List.range q.length).map fun i => solve q.length A i q.length).map varToTime), fun fuel hf => ?_⟩
  unfold lagrangian
  rw [lagCheck_ok.2 ⟨rfl, rfl, hc, hvL, hvD⟩]
  simp only
  rw [lagArgs_exprs, h1 fuel (by omega)]
  simp only
  rw [h2 fuel (by omega)]
  simp only [motion, List.length_map, hA, Res.bind_ok]

/-- C47: **rejected calls**: everything else is an exception; nothing is undefined. -/
theorem lagrangian_rejects (h : ¬ ∃ q p : List String, qs = q.map .var ∧ ps = p.map .var ∧ Coords q p ∧
      (∀ s, Vars L s → s ∈ q ++ p) ∧ ∀ s, Vars D s → s ∈ p) :
    lagrangian fuel share L qs ps D = some .throw := by
  unfold lagrangian
  cases hc : lagCheck L qs ps D with
  | throw => rfl
  | ub => exact absurd hc (lagCheck_no_ub _ _ _ _)
  | ok r => exact absurd ⟨r.1, r.2, lagCheck_ok.1 hc⟩ h

/-! ### The Hamiltonian -/

variable {Hm : Expr ℝ}

/-- The regularity of the Hamiltonian at a point of the phase space. -/
structure HamReg (v : Env ℝ) (n : Nat) (q p : List String) (Hm : Expr ℝ) (Hf : Phase n → ℝ) (z0 : Phase n) : Prop where
  value : ∀ᶠ z in 𝓝 z0, Hm.eval (state v n q p z) = some (Hf z)
  smooth : DifferentiableAt ℝ Hf z0
  point : ∀ s ∈ q ++ p, Smooth (.var s) (state v n q p z0) Hm

/-- The call of `diff_tensors()` made by a successful call of `hamiltonian()`. -/
theorem hamiltonian_ok (h : hamiltonian fuel share Hm qs ps = some (.ok eqs)) : ∃ q p d args grad rhs,
    hamCheck Hm qs ps = .ok (q, p) ∧ diffTensors fuel share [Hm] (.list (qs ++ ps)) 1 = some (.ok (d, args)) ∧
    d.getGradient = .ok grad ∧ canonical qs.length grad = .ok rhs ∧ eqs = (qs ++ ps).zip rhs := by
  unfold hamiltonian at h
  cases hc : hamCheck Hm qs ps with
  | throw => rw [hc] at h; cases h
  | ub => rw [hc] at h; cases h
  | ok r =>
    rw [hc] at h
    simp only at h
    cases h1 : diffTensors fuel share [Hm] (.list (qs ++ ps)) 1 with
    | none => rw [h1] at h; cases h
    | some r1 =>
      rw [h1] at h
      cases r1 with
      | throw => cases h
      | ub => cases h
      | ok r1 =>
        simp only [Option.map_some, Res.bind_ok, Option.some.injEq] at h
        cases h2 : r1.1.getGradient with
        | throw => rw [h2] at h; cases h
        | ub => rw [h2] at h; cases h
        | ok grad =>
          rw [h2, Res.bind_ok] at h
          cases h3 : canonical qs.length grad with
          | throw => rw [h3] at h; cases h
          | ub => rw [h3] at h; cases h
          | ok rhs =>
            rw [h3, Res.bind_ok] at h
            cases h
            exact ⟨r.1, r.2, r1.1, r1.2, grad, rhs, rfl, rfl, h2, h3, rfl⟩

theorem hamArgs_exprs (q p : List String) :
    q.map (Expr.var (K := ℝ)) ++ p.map .var = ((q ++ p).map DVar.var).map ofDVar := by
  simp [ofDVar, Function.comp_def]

/-- The gradient of the Hamiltonian. -/
theorem gradient_entries {d : Dt (Expr ℝ)} {args : List DVar} (ht : Tensor (LibFn H) [Hm] args 1 d.map) (hn : d.nargs = args.length) :
    ∃ g, d.getGradient = .ok g ∧ g.length = args.length ∧
      ∀ (i : Nat) (e : Expr ℝ) (x : DVar), g[i]? = some e → args[i]? = some x → IsDeriv x Hm e := by
  have hc : Complete d 1 1 := by
    have := ht.complete
    rw [← hn] at this
    simpa using this
  obtain ⟨g, hg, hmap⟩ := (gradient_spec hc).1 rfl le_rfl
  have hl : g.length = args.length := by
    have := congrArg List.length hmap
    simpa [hn] using this
  refine ⟨g, hg, hl, fun i e x he hx => ?_⟩
  have hi : i < args.length := by
    by_contra hlt
    rw [List.getElem?_eq_none (by omega)] at hx
    cases hx
  have h1 : d.map.lookup (0, [(i, 1)]) = some e := by
    have := congrArg (·[i]?) hmap
    simp only [List.getElem?_map, he, List.getElem?_range (show i < d.nargs by omega)] at this
    simpa using this.symm
  obtain ⟨e', h2, hm⟩ := tensor_at ht hn (k := (0, [(i, 1)])) (by simp [Dtens.Sane]) (by simp [degree]) rfl (by simpa using hi)
  have h3 := hc.lookup hm
  rw [h1] at h3
  cases h3
  exact tensor_deriv ht hn hx (r := []) (by simp [Dtens.Sane]) (by simp) (by simp) (tensor_base ht) (by simpa [addIdx] using hm)

/-- C47: **the equations of motion of a Hamiltonian** are the canonical equations: at every point of the phase space where the
Hamiltonian is differentiable, the right-hand side for a coordinate is the derivative with respect to the
momentum, and that for a momentum is minus the derivative with respect to the coordinate. -/
theorem hamiltonian_motion (hH : HexOk H) (hshare : ∀ es, Represents (share es) es) (hL : LibExpr H Hm)
    (h : hamiltonian fuel share Hm qs ps = some (.ok eqs)) :
    ∃ (q p : List String) (rq rp : List (Expr ℝ)), qs = q.map .var ∧ ps = p.map .var ∧ Coords q p ∧
      eqs = (qs ++ ps).zip (rq ++ rp) ∧ rq.length = q.length ∧ rp.length = q.length ∧
      ∀ (v : Env ℝ) (z0 : Phase q.length) (Hf : Phase q.length → ℝ), HamReg v q.length q p Hm Hf z0 →
        Expr.evalL (state v q.length q p z0) rq = some (List.ofFn fun i : Fin q.length => fderiv ℝ Hf z0 (dp q.length i)) ∧
        Expr.evalL (state v q.length q p z0) rp = some (List.ofFn fun i : Fin q.length => -fderiv ℝ Hf z0 (dq q.length i)) := by
  obtain ⟨q, p, d, args, grad, rhs, hc, h1, h2, h3, h4⟩ := hamiltonian_ok h
  obtain ⟨rfl, rfl, hco, hvH⟩ := hamCheck_ok.1 hc
  rw [hamArgs_exprs] at h1
  have hargs : args = (q ++ p).map .var := list_args (diffTensors_ok h1).2.1
  have ht := diffTensors_tensor hH hshare (by simpa using hL) (by norm_num) h1
  obtain ⟨g, hg, hgl, hgd⟩ := gradient_entries ht (diffTensors_ok h1).2.2.1
  rw [h2] at hg
  cases hg
  have hlen : grad.length = 2 * q.length := by
    rw [hgl, hargs]
    have := hco.len
    simp; omega
  rw [canonical, List.length_map, if_neg (by omega)] at h3
  cases h3
  have hval : ∀ (v : Env ℝ) (z0 : Phase q.length) (Hf : Phase q.length → ℝ), HamReg v q.length q p Hm Hf z0 →
      ∀ i (hi : i < q.length), ((grad[i]'(by omega)).eval (state v q.length q p z0) = some (fderiv ℝ Hf z0 (dq q.length i))) ∧
        ((grad[q.length + i]'(by omega)).eval (state v q.length q p z0) = some (fderiv ℝ Hf z0 (dp q.length i))) := by
    intro v z0 Hf hr i hi
    have hpl : p.length = q.length := hco.len.symm
    constructor
    · have hx : args[i]? = some (.var q[i]) := by
        rw [hargs, List.getElem?_map, List.getElem?_append_left hi, List.getElem?_eq_getElem hi]; rfl
      refine value_of_deriv (pt := state v q.length q p) (x := .var q[i]) (fun t => ?_)
        (hgd i _ _ (List.getElem?_eq_getElem (by omega)) hx) (hr.point _ (by simp)) hr.value hr.smooth.hasFDerivAt
      exact congrArg (fun u => Hm.eval u)
        (set_q (w := fun s _ => v.var s) (par := v.par) (z := z0) rfl hpl hco.nodup hi t)
    · have hx : args[q.length + i]? = some (.var (p[i]'(by omega))) := by
        rw [hargs, List.getElem?_map, List.getElem?_append_right (by omega), Nat.add_sub_cancel_left,
          List.getElem?_eq_getElem (by omega)]; rfl
      refine value_of_deriv (pt := state v q.length q p) (x := .var (p[i]'(by omega))) (fun t => ?_)
        (hgd (q.length + i) _ _ (List.getElem?_eq_getElem (by omega)) hx) (hr.point _ (by simp)) hr.value hr.smooth.hasFDerivAt
      exact congrArg (fun u => Hm.eval u)
        (set_p (w := fun s _ => v.var s) (par := v.par) (z := z0) rfl hpl hco.nodup hi t)
  refine ⟨q, p, (grad.drop q.length).take q.length, (grad.take q.length).map negE, rfl, rfl, hco, h4, by simp; omega, by simp; omega,
    fun v z0 Hf hr => ⟨evalL_of_map ?_, evalL_of_map ?_⟩⟩
  · refine List.ext_getElem (by simp; omega) fun i h5 h6 => ?_
    have hi : i < q.length := by simpa using h6
    simp only [List.getElem_map, List.getElem_ofFn, List.getElem_take, List.getElem_drop]
    exact (hval v z0 Hf hr i hi).2
  · refine List.ext_getElem (by simp; omega) fun i h5 h6 => ?_
    have hi : i < q.length := by simpa using h6
    simp only [List.getElem_map, List.getElem_ofFn, List.getElem_take]
    rw [eval_negE, (hval v z0 Hf hr i hi).1]
    rfl

/-- C47: **conservation**: along a curve that satisfies the equations returned by `hamiltonian()` at some time, the derivative
of the Hamiltonian is its partial derivative with respect to the time. -/
theorem hamiltonian_energy (hH : HexOk H) (hshare : ∀ es, Represents (share es) es) (hL : LibExpr H Hm)
    (h : hamiltonian fuel share Hm qs ps = some (.ok eqs)) :
    ∃ (q p : List String) (rq rp : List (Expr ℝ)), qs = q.map .var ∧ ps = p.map .var ∧ eqs = (qs ++ ps).zip (rq ++ rp) ∧
      ∀ (v : Env ℝ) (Hf : Phase q.length → ℝ) (γ π : ℝ → Fin q.length → ℝ) (a b : Fin q.length → ℝ) (t : ℝ),
        HamReg v q.length q p Hm Hf (γ t, π t, t) → HasDerivAt γ a t → HasDerivAt π b t →
        Expr.evalL (state v q.length q p (γ t, π t, t)) rq = some (List.ofFn a) →
        Expr.evalL (state v q.length q p (γ t, π t, t)) rp = some (List.ofFn b) →
        HasDerivAt (fun s => Hf (γ s, π s, s)) (fderiv ℝ Hf (γ t, π t, t) (dt q.length)) t := by
  obtain ⟨q, p, rq, rp, hq, hp, hco, heq, -, -, hval⟩ := hamiltonian_motion hH hshare hL h
  refine ⟨q, p, rq, rp, hq, hp, heq, fun v Hf γ π a b t hr h1 h2 h3 h4 => ?_⟩
  obtain ⟨h5, h6⟩ := hval v _ Hf hr
  rw [h3] at h5
  rw [h4] at h6
  have ha := List.ofFn_injective (Option.some.inj h5)
  have hb := List.ofFn_injective (Option.some.inj h6)
  have hcurve : HasDerivAt (fun s => ((γ s, π s, s) : Phase q.length)) (a, b, 1) t := h1.prodMk (h2.prodMk (hasDerivAt_id t))
  have hd := hr.smooth.hasFDerivAt.comp_hasDerivAt t hcurve
  have he : fderiv ℝ Hf (γ t, π t, t) (a, b, 1) = fderiv ℝ Hf (γ t, π t, t) (dt q.length) := by
    conv_lhs => rw [phase_sum ((a, b, 1) : Phase q.length)]
    simp only [map_add, map_sum, map_smul, smul_eq_mul, one_mul, ha, hb]
    rw [← Finset.sum_add_distrib, Finset.sum_eq_zero (fun i _ => by ring), zero_add]
  rw [he] at hd
  exact hd

/-- C47: **success** for a Hamiltonian. -/
theorem hamiltonian_total (hH : HexOk H) (hshare : ∀ es, Represents (share es) es) (hL : LibExpr H Hm)
    {q p : List String} (hc : Coords q p) (hv : ∀ s, Vars Hm s → s ∈ q ++ p) (hlen : 2 * q.length < 2 ^ 32)
    (hfit : (inputs [Hm]).length + Expr.fnCountL ([Hm].map (prep (inputs [Hm]))) + 1 ≤ 2 ^ 32) :
    ∃ N eqs, ∀ fuel, N ≤ fuel → hamiltonian fuel share Hm (q.map .var) (p.map .var) = some (.ok eqs) := by
  have hlen' := hc.len
  have ha : ArgsFor [Hm] (.list (q.map .var ++ p.map .var)) ((q ++ p).map .var) :=
    ⟨by rw [hamArgs_exprs]; rfl, List.Nodup.map (fun a b h => by simpa using h) hc.nodup, by simp [hc.ne]⟩
  obtain ⟨N, d, h1⟩ := diff_tensors_first_order_total hH hshare (es := [Hm]) (by simpa using hL) (by simp) ha
    (by simp; omega) (by simpa using hfit)
  have ht := diffTensors_tensor hH hshare (by simpa using hL) (by norm_num) (h1 N le_rfl)
  obtain ⟨g, hg, hgl, -⟩ := gradient_entries ht (diffTensors_ok (h1 N le_rfl)).2.2.1
  refine ⟨N, (q.map Expr.var ++ p.map Expr.var).zip ((g.drop q.length).take q.length ++ (g.take q.length).map negE), fun fuel hf => ?_⟩
  unfold hamiltonian
  rw [hamCheck_ok.2 ⟨rfl, rfl, hc, hv⟩]
  simp only
  rw [h1 fuel hf, Option.map_some, Res.bind_ok, hg, Res.bind_ok, canonical, List.length_map,
    if_neg (by rw [hgl]; simp; omega), Res.bind_ok]

/-- C47: **rejected calls** for a Hamiltonian. -/
theorem hamiltonian_rejects (h : ¬ ∃ q p : List String, qs = q.map .var ∧ ps = p.map .var ∧ Coords q p ∧
      ∀ s, Vars Hm s → s ∈ q ++ p) : hamiltonian fuel share Hm qs ps = some .throw := by
  unfold hamiltonian
  cases hc : hamCheck Hm qs ps with
  | throw => rfl
  | ub => exact absurd hc (hamCheck_no_ub _ _ _)
  | ok r => exact absurd ⟨r.1, r.2, hamCheck_ok.1 hc⟩ h

end

/-! ### Pivots that vanish -/

/-- The system `x·a + b = r`, `a = s`. -/
noncomputable def pivotSys : LMat ℝ := matOf [[.var "x", .dbl 1, .var "r"], [.dbl 1, .dbl 0, .var "s"]]

theorem divE_none {v : Env ℝ} {a : Expr ℝ} {s : String} (ha : a.isNum = false) (hs : v.var s = 0) :
    (divE a (.var s)).eval v = none := by
  have h1 : divE a (.var s) = prodE [a, powE (.var s) (.dbl (-1))] := by cases a <;> first | rfl | cases ha
  have h2 : powE (.var s) (.dbl (-1)) = mkPow (.var s : Expr ℝ) (.dbl (-1)) := by
    simp [powE, Expr.dbl, Num.isZero, Num.isOne, Num.dbl, FVal.isZero, FVal.isOne]
    norm_num
  have hn : (mkPow (.var s : Expr ℝ) (.dbl (-1))).num? = none := rfl
  have hn' : (mkPow (.var s : Expr ℝ) (.dbl (-1))).isNum = false := rfl
  have ha' : a.num? = none := by cases a <;> first | rfl | cases ha
  rw [h1, h2, prodE]
  simp only [List.filterMap_cons, ha', hn, List.filterMap_nil, List.filter_cons, ha, hn', Bool.not_false, if_true, List.filter_nil]
  rw [eval_prodFinish]
  have : (mkPow (.var s : Expr ℝ) (.dbl (-1))).eval v = none := by
    simp [mkPow, Expr.eval, Expr.evalL, hs, app_def, realApp, Expr.dbl, Num.dbl, Num.toK?, FVal.toK?, PowDom]
  simp [Expr.evalL_cons, this]

/-- Finding: the hypothesis on the leading blocks of the mass matrix is necessary. The code takes as pivot the first entry that is
not the number zero. Where a pivot that is an expression vanishes, the solution returned by the code is undefined, although the
matrix is regular (here `x = 0` in `[[x, 1], [1, 0]]`, with the solution `a = s`, `b = r`). -/
theorem vanishing_pivot (v : Env ℝ) (hx : v.var "x" = 0) :
    (solve 2 pivotSys 0 2).eval v = none ∧
      ∃ a, Vals v 2 pivotSys a ∧ (∃ x, Sol 2 a x) ∧ ∀ x y, Sol 2 a x → Sol 2 a y → ∀ i, i < 2 → x i = y i := by
  constructor
  · have hrow : elim 2 pivotSys 0 = pivotSys 0 := by
      have hp : findPivot 2 pivotSys 0 0 = 0 := findPivot_self rfl
      rw [elim, elimLoop, if_pos (by omega), hp, if_neg (by omega), elimLoop_row _ (by omega)]
      funext j
      simp [elimRows, swapRows]
    rw [solve, backSub, backSub, backSub]
    simp only [setEntry, and_self, if_true, hrow]
    refine divE_none (nn_sumE ⟨_, List.mem_cons_self, ?_⟩) hx
    rfl
  · refine ⟨fun i j => if i = 0 then (if j = 0 then 0 else if j = 1 then 1 else v.var "r") else
      (if j = 0 then 1 else if j = 1 then 0 else v.var "s"), ?_, ?_, ?_⟩
    · intro i hi j hj
      interval_cases i <;> interval_cases j <;> simp [pivotSys, matOf, hx, Expr.dbl, Num.dbl, Num.toK?, FVal.toK?]
    · refine ⟨fun i => if i = 0 then v.var "s" else v.var "r", fun i hi => ?_⟩
      interval_cases i <;> simp [Finset.sum_range_succ]
    · intro x y h1 h2 i hi
      have a1 := h1 0 (by omega)
      have a2 := h1 1 (by omega)
      have b1 := h2 0 (by omega)
      have b2 := h2 1 (by omega)
      simp [Finset.sum_range_succ] at a1 a2 b1 b2
      interval_cases i
      · rw [a2, b2]
      · rw [a1, b1]

/-! ### Examples -/

/-- The Hamiltonian `x·p` meets the hypotheses of the theorems above at every point. -/
example (v : Env ℝ) (z : Phase 1) : HamReg v 1 ["x"] ["p"] (.fn (.prod false) [.var "x", .var "p"]) (fun z => z.1 0 * z.2.1 0) z := by
  refine ⟨Filter.Eventually.of_forall fun z => ?_, by fun_prop, ?_⟩
  · simp [Expr.eval, Expr.evalL, state, env, app_def, realApp, List.idxOf, List.findIdx, List.findIdx.go]
  · simp [Smooth, SmoothL, DiffPt, Expr.eval, Expr.evalL]

/-- The Lagrangian `x·x'²` meets the hypotheses at every point. -/
example (v : Env ℝ) (z : Phase 1) :
    LagReg v 1 ["x"] ["vx"] (.fn (.prod false) [.var "x", .var "vx", .var "vx"]) (fun z => z.1 0 * (z.2.1 0 * z.2.1 0)) z := by
  refine ⟨Filter.Eventually.of_forall fun z => ?_, by fun_prop, ?_⟩
  · simp [Expr.eval, Expr.evalL, state, env, app_def, realApp, List.idxOf, List.findIdx, List.findIdx.go]
  · refine reg_prod ?_
    simp [Reg]

/-- Arithmetic with rational numbers. -/
def mechApp : Fn ℚ → List ℚ → Option ℚ
  | .sum, l => some l.sum
  | .prod _, l => some l.prod
  | .pow _, [x, y] => if y = -1 then (if x = 0 then none else some x⁻¹) else none
  | _, _ => none

local instance mechInterp : Interp ℚ := { fold := mechApp, app := mechApp }

/-- The Lagrangian `x·x'²/2 + x'·y'`. -/
def lagExample : Expr ℚ :=
  .fn .sum [.fn (.prod false) [.dbl (1 / 2), .var "x", .fn (.prod false) [.var "vx", .var "vx"]],
    .fn (.prod false) [.var "vx", .var "vy"]]

/-- The values of the right-hand sides returned by `lagrangian()`. -/
def lagValues (x vx vy : ℚ) : Option (List (Option ℚ)) :=
  match lagrangian 100 (fun es => (freshL 0 es).1) lagExample [.var "x", .var "y"] [.var "vx", .var "vy"] (.dbl 0) with
  | some (.ok l) => some (l.map fun e => e.2.eval ⟨fun s => if s = "x" then x else if s = "vx" then vx else vy, fun _ => 0, 0⟩)
  | _ => none

/-- Here `x'' = 0` and `y'' = -x'²/2`. -/
example : lagValues 1 2 3 = some [some 2, some 3, some 0, some (-2)] := by decide +kernel

/-- The mass matrix is `[[x, 1], [1, 0]]`: the accelerations are not defined for `x = 0`. -/
example : lagValues 0 2 3 = some [some 2, some 3, none, none] := by decide +kernel

/-- The coordinates of the example. -/
example : Coords ["x", "y"] ["vx", "vy"] := ⟨by decide, by decide, by decide, by decide +kernel⟩

end Heyoka.Mech
