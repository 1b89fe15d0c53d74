import Verif.Mech.Euler

/-!
# The linear system for the accelerations
-/

set_option linter.unusedSectionVars false

namespace Heyoka.Mech

open Heyoka.Sym Heyoka.Dtens Heyoka.AD Filter Topology

/-- The arguments of the Lagrangian: coordinates, velocities, time. -/
def lagArgs (q p : List String) : List DVar := (q ++ p ++ ["__tm"]).map .var

/-- The direction of an argument of the Lagrangian. -/
def dir (n k : Nat) : Phase n := if k < n then dq n k else if k < 2 * n then dp n (k - n) else dt n

theorem Coords.time_free {q p : List String} (hc : Coords q p) : "__tm" ∉ q ++ p := by
  intro h
  have := hc.free _ h
  revert this
  decide +kernel

section
variable [FmtName ℝ] {H : ℝ → Prop} {q p : List String} {n : Nat} {L D : Expr ℝ} {v : Env ℝ} {z z0 : Phase n}
variable {Lf Df : Phase n → ℝ}

theorem eval_point (hq : q.length = n) (hp : p.length = n) (hc : Coords q p) {e : Expr ℝ} (he : ∀ s, Vars e s → s ∈ q ++ p) :
    e.eval (point v n q p z) = e.eval (state v n q p z) := by
  rw [point_eq v hq hp hc.time_free]
  refine eval_congr e _ _ (fun s hs => ?_) (fun _ _ => rfl) (fun _ => rfl)
  have : s ≠ "__tm" := by rintro rfl; exact hc.time_free (he _ hs)
  simp [Env.set, this]

theorem point_tm (hq : q.length = n) (hp : p.length = n) (hc : Coords q p) : (point v n q p z).var "__tm" = z.2.2 := by
  unfold point
  rw [env_other hq hp hc.time_free, if_pos rfl]

theorem eval_timeToVar_point (hH : HexOk H) (hL : LibExpr H L) (hq : q.length = n) (hp : p.length = n) (hc : Coords q p) :
    (timeToVar L).eval (point v n q p z) = L.eval (point v n q p z) := by
  rw [eval_timeToVar hH hL, point_tm hq hp hc]
  rfl

theorem lagArgs_lt (hq : q.length = n) (hp : p.length = n) (hc : Coords q p) {k : Nat} (hk : k < 2 * n) {x : DVar}
    (hx : (lagArgs q p)[k]? = some x) (t : ℝ) :
    (point v n q p z).set x t = point v n q p (z + (t - (point v n q p z).get x) • dir n k) := by
  unfold lagArgs at hx
  unfold dir
  by_cases h1 : k < n
  · rw [List.getElem?_map, List.append_assoc, List.getElem?_append_left (by omega), List.getElem?_eq_getElem (by omega)] at hx
    cases hx
    rw [if_pos h1]
    exact set_q hq hp hc.nodup h1 t
  · rw [List.getElem?_map, List.getElem?_append_left (by simp; omega), List.getElem?_append_right (by omega),
      List.getElem?_eq_getElem (by omega)] at hx
    cases hx
    rw [if_neg h1, if_pos hk]
    have h3 : k - n < n := by omega
    have := set_p (w := fun s t => if s = "__tm" then t else v.var s) (par := v.par) (z := z) hq hp hc.nodup h3 t
    simp only [hq]
    exact this

theorem lagArgs_last (hq : q.length = n) (hp : p.length = n) : (lagArgs q p)[2 * n]? = some (.var "__tm") := by
  unfold lagArgs
  rw [List.getElem?_map, List.getElem?_append_right (by simp; omega)]
  simp [hq, hp, two_mul]

theorem lagArgs_length (hq : q.length = n) (hp : p.length = n) : (lagArgs q p).length = 2 * n + 1 := by
  simp [lagArgs, hq, hp]
  omega

theorem eval_set_point (hH : HexOk H) (hL : LibExpr H L) (hq : q.length = n) (hp : p.length = n) (hc : Coords q p) {k : Nat}
    (hk : k < 2 * n + 1) {x : DVar} (hx : (lagArgs q p)[k]? = some x) (t : ℝ) :
    (timeToVar L).eval ((point v n q p z).set x t) =
      (timeToVar L).eval (point v n q p (z + (t - (point v n q p z).get x) • dir n k)) := by
  by_cases h1 : k < 2 * n
  · rw [lagArgs_lt hq hp hc h1 hx]
  · obtain rfl : k = 2 * n := by omega
    rw [lagArgs_last hq hp] at hx
    cases hx
    have hd : dir n (2 * n) = dt n := by rw [dir, if_neg (by omega), if_neg (by omega)]
    rw [hd]
    have := set_t (z := z) v hq hp hc.time_free t
    rw [show (point v n q p z).get (.var "__tm") = (point v n q p z).var "__tm" from rfl, ← this, eval_timeToVar hH hL,
      eval_timeToVar hH hL]

/-- A function of expressions with the same values is regular at the same points. -/
theorem reg_map {u w : Env ℝ} {f : Fn ℝ} {args : List (Expr ℝ)} {g : Expr ℝ → Expr ℝ} (h : Reg w (.fn f args))
    (hg : ∀ a ∈ args, Reg u (g a) ∧ (g a).eval u = a.eval w ∧ ((g a).isBool ↔ a.isBool) ∧ (g a).isNum = a.isNum) :
    Reg u (.fn f (args.map g)) := by
  rw [Reg, RegL_iff] at h ⊢
  obtain ⟨h1, vals, h2, h3⟩ := h
  refine ⟨fun a ha => ?_, vals, ?_, ?_⟩
  · obtain ⟨b, hb, rfl⟩ := List.mem_map.1 ha
    exact (hg b hb).1
  · rw [Expr.evalL_congr_map fun a ha => (hg a ha).2.1, h2]
  · have hall : (∀ b ∈ args.map g, b.isNum = true) ↔ ∀ b ∈ args, b.isNum = true := by
      simp only [List.mem_map, forall_exists_index, and_imp, forall_apply_eq_imp_iff₂]
      exact forall₂_congr fun a ha => by rw [(hg a ha).2.2.2]
    rw [List.zipWith_map_left]
    refine cast (congrArg (DiffPt f) ?_) h3
    have key : ∀ (as : List (Expr ℝ)) (ys : List ℝ), (∀ a ∈ as, a ∈ args) →
        List.zipWith (fun a y => (⟨argDep f args a, a.isBool, y⟩ : ArgVal)) as ys =
          List.zipWith (fun a y => (⟨argDep f (args.map g) (g a), (g a).isBool, y⟩ : ArgVal)) as ys := by
      intro as
      induction as with
      | nil => intros; rfl
      | cons a as ih =>
        intro ys hys
        cases ys with
        | nil => rfl
        | cons y ys =>
          have ha := hg a (hys a (by simp))
          simp only [List.zipWith_cons_cons]
          rw [ih ys fun b hb => hys b (by simp [hb])]
          congr 2
          · unfold argDep; rw [ha.2.2.2, hall]
          · exact propext ha.2.2.1.symm
    exact key args vals fun a ha => ha

theorem reg_congr {u w : Env ℝ} {e : Expr ℝ} (hvar : ∀ s, Expr.Sub (.var s) e → u.var s = w.var s)
    (hpar : ∀ i, Expr.Sub (.par i) e → u.par i = w.par i) (htime : u.time = w.time) (h : Reg w e) : Reg u e := by
  induction e using Expr.ind with
  | num n => exact h
  | var s => trivial
  | par i => trivial
  | fn f args ih =>
    have := reg_map (u := u) (g := id) h fun a ha => by
      have h1 := h
      rw [Reg, RegL_iff] at h1
      exact ⟨ih a ha (fun s hs => hvar s (.arg ha hs)) (fun i hi => hpar i (.arg ha hi)) (h1.1 a ha),
        eval_congr a _ _ (fun s hs => hvar s (.arg ha hs)) (fun i hi => hpar i (.arg ha hi)) fun _ => htime, Iff.rfl, rfl⟩
    simpa using this

theorem reg_timeToVar (hH : HexOk H) {e : Expr ℝ} (he : LibExpr H e) {w : Env ℝ} (h : Reg { w with time := w.var "__tm" } e) :
    Reg w (timeToVar e) := by
  have hev := fun (e : Expr ℝ) (he : LibExpr H e) => eval_timeToVar hH he w
  unfold timeToVar at hev ⊢
  induction e using Expr.ind with
  | num n => simpa [Expr.replace, mapFind_one, timeE, Expr.beq, Reg] using h
  | var s => simp [Expr.replace, mapFind_one, timeE, Expr.beq, Reg]
  | par i => simp [Expr.replace, mapFind_one, timeE, Expr.beq, Reg]
  | fn f args ih =>
    obtain ⟨hf, ha⟩ := goodS_fn.1 he
    rw [Expr.replace, Expr.replaceL_eq_map, mapFind_one]
    by_cases hb : (timeE : Expr ℝ).beq (.fn f args) = true
    · rw [if_pos hb, Option.getD_some]
      trivial
    · rw [if_neg hb, Option.getD_none]
      refine reg_map h fun a hm => ?_
      have h1 := h
      rw [Reg, RegL_iff] at h1
      refine ⟨ih a hm (ha a hm) (h1.1 a hm), hev a (ha a hm), ?_, ?_⟩
      · cases a with
        | num n => simp [Expr.replace, mapFind_one, timeE, Expr.beq]
        | var s => simp [Expr.replace, mapFind_one, timeE, Expr.beq]
        | par i => simp [Expr.replace, mapFind_one, timeE, Expr.beq]
        | fn f' as =>
          rw [Expr.replace, mapFind_one]
          by_cases hb' : (timeE : Expr ℝ).beq (.fn f' as) = true
          · rw [if_pos hb', Option.getD_some]
            obtain ⟨rfl, rfl⟩ := (time_beq hH (goodS_fn.1 (ha _ hm)).1.1).1 hb'
            exact Iff.rfl
          · rw [if_neg hb', Option.getD_none]
            cases f' <;> exact Iff.rfl
      · cases a with
        | num n => simp [Expr.replace, mapFind_one, timeE, Expr.beq]
        | var s => simp [Expr.replace, mapFind_one, timeE, Expr.beq]
        | par i => simp [Expr.replace, mapFind_one, timeE, Expr.beq]
        | fn f' as =>
          rw [Expr.replace, mapFind_one]
          split_ifs <;> rfl

/-- The regularity of the Lagrangian at a point of the phase space: every function occurring in it is differentiable there with
respect to those of its arguments that are not numbers, and its value is twice continuously differentiable as a function on the
phase space. -/
structure LagReg (v : Env ℝ) (n : Nat) (q p : List String) (L : Expr ℝ) (Lf : Phase n → ℝ) (z0 : Phase n) : Prop where
  value : ∀ᶠ z in 𝓝 z0, L.eval (state v n q p z) = some (Lf z)
  smooth : ContDiffAt ℝ 2 Lf z0
  reg : Reg (state v n q p z0) L

/-- The regularity of the dissipation function. -/
structure DisReg (v : Env ℝ) (n : Nat) (q p : List String) (D : Expr ℝ) (Df : Phase n → ℝ) (z0 : Phase n) : Prop where
  value : ∀ᶠ z in 𝓝 z0, D.eval (state v n q p z) = some (Df z)
  smooth : DifferentiableAt ℝ Df z0
  point : ∀ s ∈ p, Smooth (.var s) (point v n q p z0) D

theorem state_cont : EnvCont (state v n q p) z0 := by
  refine ⟨fun s => ?_, fun i => continuousAt_const, ?_⟩
  · unfold state env
    dsimp only
    split_ifs
    · exact ((continuous_apply _).comp continuous_fst).continuousAt
    · exact ((continuous_apply _).comp (continuous_fst.comp continuous_snd)).continuousAt
    · exact continuousAt_const
  · exact (continuous_snd.comp continuous_snd).continuousAt

/-- The Lagrangian is regular near the point, with the time as a variable. -/
theorem LagReg.near (hH : HexOk H) (hL : LibExpr H L) (hq : q.length = n) (hp : p.length = n) (hc : Coords q p)
    (hv : ∀ s, Vars L s → s ∈ q ++ p) (h : LagReg v n q p L Lf z0) :
    ∀ᶠ z in 𝓝 z0, Reg (point v n q p z) (timeToVar L) := by
  obtain ⟨_, _, h1, _⟩ := h.reg.near state_cont
  filter_upwards [h1] with z hz
  refine reg_timeToVar hH hL (reg_congr (fun s hs => ?_) (fun _ _ => ?_) ?_ hz.1)
  · have : s ≠ "__tm" := by rintro rfl; exact hc.time_free (hv _ hs)
    simp only
    rw [point_eq v hq hp hc.time_free]
    simp [Env.set, this]
  · rw [point_eq v hq hp hc.time_free]; rfl
  · exact point_tm hq hp hc

theorem value_timeToVar (hH : HexOk H) (hL : LibExpr H L) (hq : q.length = n) (hp : p.length = n) (hc : Coords q p)
    (hv : ∀ s, Vars L s → s ∈ q ++ p) (h : ∀ᶠ z in 𝓝 z0, L.eval (state v n q p z) = some (Lf z)) :
    ∀ᶠ z in 𝓝 z0, (timeToVar L).eval (point v n q p z) = some (Lf z) := by
  filter_upwards [h] with z hz
  rw [eval_timeToVar_point hH hL hq hp hc, eval_point hq hp hc hv, hz]

theorem first_value (hH : HexOk H) (hL : LibExpr H L) (hq : q.length = n) (hp : p.length = n) (hc : Coords q p)
    (hv : ∀ s, Vars L s → s ∈ q ++ p) (hr : LagReg v n q p L Lf z0) {k : Nat} (hk : k < 2 * n + 1) {x : DVar}
    (hx : (lagArgs q p)[k]? = some x) {e1 : Expr ℝ} (hd : IsDeriv x (timeToVar L) e1) :
    ∀ᶠ z in 𝓝 z0, e1.eval (point v n q p z) = some (fderiv ℝ Lf z (dir n k)) := by
  have h1 := (value_timeToVar hH hL hq hp hc hv hr.value).eventually_nhds
  have h2 : ∀ᶠ z in 𝓝 z0, ContDiffAt ℝ 2 Lf z := hr.smooth.eventually (by simp)
  filter_upwards [h1, h2, hr.near hH hL hq hp hc hv] with z h3 h4 h5
  exact value_of_deriv (eval_set_point hH hL hq hp hc hk hx) hd (h5.smooth x) h3
    (h4.differentiableAt (by norm_num)).hasFDerivAt

theorem second_value (hq : q.length = n) (hp : p.length = n) (hc : Coords q p) (hs : ContDiffAt ℝ 2 Lf z0) {j k : Nat} (hj : j < 2 * n) {x : DVar}
    (hx : (lagArgs q p)[j]? = some x) {e1 e2 : Expr ℝ} (he1 : ∀ᶠ z in 𝓝 z0, e1.eval (point v n q p z) = some (fderiv ℝ Lf z (dir n k)))
    (hs1 : Smooth x (point v n q p z0) e1) (hd : IsDeriv x e1 e2) :
    e2.eval (point v n q p z0) = some (fderiv ℝ (fderiv ℝ Lf) z0 (dir n j) (dir n k)) := by
  have h1 : DifferentiableAt ℝ (fderiv ℝ Lf) z0 :=
    (hs.fderiv_right (m := 1) (by norm_num)).differentiableAt (by norm_num)
  have h2 : HasFDerivAt (fun z => fderiv ℝ Lf z (dir n k))
      ((ContinuousLinearMap.apply ℝ ℝ (dir n k)).comp (fderiv ℝ (fderiv ℝ Lf) z0)) z0 :=
    (ContinuousLinearMap.apply ℝ ℝ (dir n k)).hasFDerivAt.comp z0 h1.hasFDerivAt
  have := value_of_deriv (fun t => by rw [lagArgs_lt hq hp hc hj hx]) hd hs1 he1 h2
  simpa using this

end

/-! ### Sums over the directions -/

theorem phase_sum {n : Nat} (z : Phase n) :
    z = ∑ j : Fin n, z.1 j • dq n j + ∑ j : Fin n, z.2.1 j • dp n j + z.2.2 • dt n := by
  refine Prod.ext ?_ (Prod.ext ?_ ?_)
  · funext i
    simp [dq, dp, dt, Prod.fst_sum, Prod.snd_sum, Finset.sum_apply, Fin.val_inj]
  · funext i
    simp [dq, dp, dt, Prod.fst_sum, Prod.snd_sum, Finset.sum_apply, Fin.val_inj]
  · simp [dq, dp, dt, Prod.fst_sum, Prod.snd_sum]

/-! ### The system -/

section
variable [FmtName ℝ] {H : ℝ → Prop} {q p : List String} {n : Nat} {L D : Expr ℝ} {v : Env ℝ} {z z0 : Phase n}
variable {Lf Df : Phase n → ℝ} {share : List (Expr ℝ) → List (Node ℝ)} {Ldt Ddt : Dt (Expr ℝ)}

/-- The mass matrix: the second derivatives with respect to the velocities. -/
noncomputable def mass (Lf : Phase n → ℝ) (z0 : Phase n) (i j : Nat) : ℝ := fderiv ℝ (fderiv ℝ Lf) z0 (dp n i) (dp n j)

/-- The right-hand side of the equation `i` for the accelerations. -/
noncomputable def force (Lf Df : Phase n → ℝ) (z0 : Phase n) (i : Nat) : ℝ :=
  fderiv ℝ Lf z0 (dq n i) - fderiv ℝ (fderiv ℝ Lf) z0 (dp n i) (dt n) - fderiv ℝ Df z0 (dp n i) -
    ∑ j : Fin n, fderiv ℝ (fderiv ℝ Lf) z0 (dq n j) (dp n i) * z0.2.1 j

/-- The augmented matrix. -/
noncomputable def sysAt (Lf Df : Phase n → ℝ) (z0 : Phase n) (i j : Nat) : ℝ :=
  if j < n then mass Lf z0 i j else force Lf Df z0 i

theorem tensor_choose {S : Fn ℝ → Nat → Prop} {args : List DVar} {e : Expr ℝ} {d : Dt (Expr ℝ)} {order : Nat}
    (ht : Tensor S [e] args order d.map) (hd : d.nargs = args.length) :
    ∃ G : SIdx → Expr ℝ, ∀ k : SIdx, Sane k.2 → degree k.2 ≤ order → k.1 = 0 → (∀ r ∈ k.2, r.1 < args.length) →
      d.at k = .ok (G k) ∧ (k, G k) ∈ d.map := by
  have : ∀ k : SIdx, ∃ g, Sane k.2 → degree k.2 ≤ order → k.1 = 0 → (∀ r ∈ k.2, r.1 < args.length) →
      d.at k = .ok g ∧ (k, g) ∈ d.map := by
    intro k
    by_cases h : Sane k.2 ∧ degree k.2 ≤ order ∧ k.1 = 0 ∧ ∀ r ∈ k.2, r.1 < args.length
    · obtain ⟨h1, h2, h3, h4⟩ := h
      obtain ⟨g, hg⟩ := tensor_at ht hd h1 h2 h3 h4
      exact ⟨g, fun _ _ _ _ => hg⟩
    · exact ⟨.dbl 0, fun h1 h2 h3 h4 => absurd ⟨h1, h2, h3, h4⟩ h⟩
  choose G hG using this
  exact ⟨G, hG⟩

theorem massKey_eq (n i j : Nat) : massKey n i j = (0, addIdx (n + min i j) [(n + max i j, 1)]) := by
  unfold massKey addIdx
  rcases Nat.lt_trichotomy i j with h | rfl | h
  · rw [if_neg (by omega), if_pos h, if_neg (by omega), if_neg (by omega), Nat.min_eq_left h.le, Nat.max_eq_right h.le]
  · rw [if_pos rfl, if_neg (by simp), if_pos (by simp), Nat.max_self]
  · rw [if_neg (by omega), if_neg (by omega), if_neg (by omega), if_neg (by omega), Nat.min_eq_right h.le,
      Nat.max_eq_left h.le]

theorem add_pair {j k : Nat} (h : j < k) : addIdx j [(k, 1)] = [(j, 1), (k, 1)] := by
  rw [addIdx, if_neg (by omega), if_neg (by omega)]

theorem sane_add {j k : Nat} (h : j ≤ k) : Sane (addIdx j [(k, 1)]) ∧ degree (addIdx j [(k, 1)]) = 2 ∧
    ∀ r ∈ addIdx j [(k, 1)], r.1 ≤ k := by
  rcases Nat.lt_or_eq_of_le h with h | rfl
  · rw [add_pair h]
    refine ⟨⟨by simp [h], by simp⟩, rfl, by simp [h.le]⟩
  · rw [addIdx, if_neg (by omega), if_pos rfl]
    exact ⟨⟨by simp, by simp⟩, rfl, by simp⟩

theorem sane_one (k : Nat) : Sane [(k, 1)] := ⟨by simp, by simp⟩

theorem force_sum (l : List String) (g : Nat → ℝ) (b : Nat → Expr ℝ) {w : Env ℝ} : ∀ {j0 : Nat}
    (_ : ∀ (j : Nat) (hj : j < l.length), (b (j0 + j)).eval w = some (g (j0 + j))),
    Expr.evalL w (((l.map (Expr.var (K := ℝ))).zipIdx j0).map fun r => mulE (negE (b r.2)) r.1) =
      some (((l.zipIdx j0).map fun r => - g r.2 * w.var r.1)) := by
  induction l with
  | nil => intros; rfl
  | cons s l ih =>
    intro j0 h
    have h0 := h 0 (by simp)
    have h1 := ih (j0 := j0 + 1) (by
      intro j hj
      have := h (j + 1) (by simpa using hj)
      rwa [show j0 + (j + 1) = j0 + 1 + j by omega] at this)
    rw [Nat.add_zero] at h0
    have h2 : (mulE (negE (b j0)) (Expr.var s)).eval w = some (- g j0 * w.var s) :=
      eval_mulE (by rw [eval_negE, h0]; rfl) (Expr.eval_var w s)
    simp only [List.map_cons, List.zipIdx_cons, Expr.evalL_cons, h1, h2]
    rfl

theorem zipIdx_sum (l : List String) (f : Nat → String → ℝ) (j0 : Nat) :
    ((l.zipIdx j0).map fun r => f r.2 r.1).sum = ∑ j : Fin l.length, f (j0 + j) l[j] := by
  induction l generalizing j0 with
  | nil => simp
  | cons s l ih =>
    simp only [List.zipIdx_cons, List.map_cons, List.sum_cons]
    rw [ih]
    have := Fin.sum_univ_succ (n := l.length) (fun j : Fin (l.length + 1) => f (j0 + j) ((s :: l)[j.val]'j.2))
    refine Eq.trans ?_ this.symm
    simp [Nat.add_assoc, Nat.add_comm 1]

/-- The matrix built by the code has the values of the system. -/
theorem buildLinmat_values (hH : HexOk H) (hL : LibExpr H L) (hc : Coords q p) (hq : q.length = n) (hp : p.length = n)
    (hv : ∀ s, Vars L s → s ∈ q ++ p) (hvD : ∀ s, Vars D s → s ∈ p)
    (hLt : Tensor (LibFn H) [timeToVar L] (lagArgs q p) 2 Ldt.map) (hLn : Ldt.nargs = (lagArgs q p).length)
    (hDt : Tensor (LibFn H) [D] (p.map .var) 1 Ddt.map) (hDn : Ddt.nargs = (p.map DVar.var).length) :
    ∃ A, buildLinmat n Ldt Ddt (p.map .var) = .ok A ∧ ∀ v z0 Lf Df, LagReg v n q p L Lf z0 → DisReg v n q p D Df z0 →
      Vals (point v n q p z0) n A (sysAt Lf Df z0) := by
  obtain ⟨G, hG⟩ := tensor_choose hLt hLn
  obtain ⟨GD, hGD⟩ := tensor_choose hDt hDn
  have hlen := lagArgs_length hq hp
  rw [hlen] at hG
  -- first and second order
  have hG1 : ∀ k, k < 2 * n + 1 → Ldt.at (0, [(k, 1)]) = .ok (G (0, [(k, 1)])) ∧ ((0, [(k, 1)]), G (0, [(k, 1)])) ∈ Ldt.map :=
    fun k hk => hG _ (sane_one k) (by simp [degree]) rfl (by simpa using hk)
  have hG2 : ∀ j k, j ≤ k → k < 2 * n + 1 → Ldt.at (0, addIdx j [(k, 1)]) = .ok (G (0, addIdx j [(k, 1)])) ∧
      ((0, addIdx j [(k, 1)]), G (0, addIdx j [(k, 1)])) ∈ Ldt.map := by
    intro j k hjk hk
    obtain ⟨h1, h2, h3⟩ := sane_add hjk
    exact hG _ h1 (by simp only; omega) rfl (fun r hr => by have := h3 r hr; omega)
  have hx : ∀ k, k < 2 * n + 1 → ∃ x, (lagArgs q p)[k]? = some x :=
    fun k hk => ⟨_, List.getElem?_eq_getElem (by omega)⟩
  have hmass : ∀ i j, i < n → j < n → Ldt.at (massKey n i j) = .ok (G (massKey n i j)) := by
    intro i j hi hj
    rw [massKey_eq]
    exact (hG2 _ _ (by omega) (by omega)).1
  have htime : ∀ i, i < n → Ldt.at (0, [(n + i, 1), (n * 2, 1)]) = .ok (G (0, addIdx (n + i) [(2 * n, 1)])) := by
    intro i hi
    have := (hG2 (n + i) (2 * n) (by omega) (by omega)).1
    rwa [add_pair (by omega), Nat.mul_comm 2 n] at this ⊢
  have hmix : ∀ i j, i < n → j < n → Ldt.at (0, [(j, 1), (n + i, 1)]) = .ok (G (0, addIdx j [(n + i, 1)])) := by
    intro i j hi hj
    have := (hG2 j (n + i) (by omega) (by omega)).1
    rwa [add_pair (by omega)] at this ⊢
  have hdis : ∀ i, i < n → Ddt.at (0, [(i, 1)]) = .ok (GD (0, [(i, 1)])) ∧ ((0, [(i, 1)]), GD (0, [(i, 1)])) ∈ Ddt.map :=
    fun i hi => hGD _ (sane_one i) (by simp [degree]) rfl (by simp; omega)
  obtain ⟨A, hA, hAv⟩ := buildLinmat_eq (Ldt := Ldt) (Ddt := Ddt) (n := n) (qds := p.map .var) (by simpa using hp)
    (α := fun i j => G (massKey n i j)) (β := fun i j => G (0, addIdx j [(n + i, 1)]))
    (a := fun i => G (0, [(i, 1)])) (b := fun i => G (0, addIdx (n + i) [(2 * n, 1)])) (c := fun i => GD (0, [(i, 1)]))
    (fun i hi => ⟨(hG1 i (by omega)).1, htime i hi, (hdis i hi).1, fun j hj => ⟨hmass i j hi hj, hmix i j hi hj⟩⟩)
  refine ⟨A, hA, fun v z0 Lf Df hr hrD => ?_⟩
  -- the values
  have hfirst : ∀ k, k < 2 * n + 1 →
      ∀ᶠ z in 𝓝 z0, (G (0, [(k, 1)])).eval (point v n q p z) = some (fderiv ℝ Lf z (dir n k)) := by
    intro k hk
    obtain ⟨x, hxk⟩ := hx k hk
    exact first_value hH hL hq hp hc hv hr hk hxk
      (tensor_deriv hLt hLn hxk ⟨.nil, by simp⟩ (by simp) (by simp) (tensor_base hLt) (hG1 k hk).2)
  have hreg : ∀ k, k < 2 * n + 1 → Reg (point v n q p z0) (G (0, [(k, 1)])) := by
    intro k hk
    obtain ⟨x, hxk⟩ := hx k hk
    exact (tensor_deriv hLt hLn hxk ⟨.nil, by simp⟩ (by simp) (by simp) (tensor_base hLt) (hG1 k hk).2).2 _
      (hr.near hH hL hq hp hc hv).self_of_nhds
  have hsecond : ∀ j k, j < 2 * n → j ≤ k → k < 2 * n + 1 → (G (0, addIdx j [(k, 1)])).eval (point v n q p z0) =
      some (fderiv ℝ (fderiv ℝ Lf) z0 (dir n j) (dir n k)) := by
    intro j k hj hjk hk
    obtain ⟨x, hxj⟩ := hx j (by omega)
    refine second_value hq hp hc hr.smooth hj hxj (hfirst k hk)
      ((hreg k hk).smooth x) ?_
    exact tensor_deriv hLt hLn hxj (sane_one k) (by simpa using hjk) (by rw [hlen]; simpa using hk) (hG1 k hk).2 (hG2 j k hjk hk).2
  have hsymm : ∀ a b, fderiv ℝ (fderiv ℝ Lf) z0 a b = fderiv ℝ (fderiv ℝ Lf) z0 b a :=
    fun a b => hr.smooth.isSymmSndFDerivAt (by simp) a b
  have hdq : ∀ i, i < n → dir n i = dq n i := fun i hi => by rw [dir, if_pos hi]
  have hdp : ∀ i, i < n → dir n (n + i) = dp n i := fun i hi => by
    rw [dir, if_neg (by omega), if_pos (by omega), Nat.add_sub_cancel_left]
  have hdt : dir n (2 * n) = dt n := by rw [dir, if_neg (by omega), if_neg (by omega)]
  have hdisv : ∀ i, i < n → (GD (0, [(i, 1)])).eval (point v n q p z0) = some (fderiv ℝ Df z0 (dp n i)) := by
    intro i hi
    have hxi : (p.map DVar.var)[i]? = some (.var (p[i]'(hp ▸ hi))) := by
      rw [List.getElem?_map, List.getElem?_eq_getElem (by omega)]; rfl
    refine value_of_deriv (e := D) (F := Df) (x := .var (p[i]'(hp ▸ hi))) (fun t => ?_)
      (tensor_deriv hDt hDn hxi ⟨.nil, by simp⟩ (by simp) (by simp) (tensor_base hDt) (hdis i hi).2)
      (hrD.point _ (List.getElem_mem _)) ?_ hrD.smooth.hasFDerivAt
    · rw [point, set_p hq hp hc.nodup hi]
      rfl
    · filter_upwards [hrD.value] with z hz
      rw [eval_point hq hp hc fun s hs => List.mem_append_right _ (hvD s hs), hz]
  intro i hi j hj
  obtain ⟨h1, h2⟩ := hAv i hi
  unfold sysAt
  by_cases hjn : j < n
  · rw [if_pos hjn, h1 j hjn, massKey_eq, hsecond _ _ (by omega) (by omega) (by omega), hdp _ (by omega), hdp _ (by omega), mass]
    rcases Nat.le_total i j with h | h
    · rw [Nat.min_eq_left h, Nat.max_eq_right h]
    · rw [Nat.min_eq_right h, Nat.max_eq_left h, hsymm]
  · obtain rfl : j = n := by omega
    rw [if_neg hjn, h2, rhsE, eval_sumE]
    have e1 := (hfirst i (by omega)).self_of_nhds
    have e2 := hsecond (j + i) (2 * j) (by omega) (by omega) (by omega)
    have e3 := hdisv i hi
    have e4 := force_sum p (fun k => fderiv ℝ (fderiv ℝ Lf) z0 (dq j k) (dp j i)) (fun k => G (0, addIdx k [(j + i, 1)]))
      (w := point v j q p z0) (j0 := 0) (by
        intro k hk
        rw [hp] at hk
        rw [Nat.zero_add, hsecond k (j + i) (by omega) (by omega) (by omega), hdq k hk, hdp i hi])
    rw [hdq i hi] at e1
    rw [hdp i hi, hdt] at e2
    rw [Expr.evalL_cons, Expr.evalL_cons, Expr.evalL_cons, e1, eval_negE, e2, eval_negE, e3, e4]
    simp only [Option.map_some, Option.bind_some, List.sum_cons]
    rw [zipIdx_sum p (fun k s => -(fderiv ℝ (fderiv ℝ Lf) z0 (dq j k) (dp j i)) * (point v j q p z0).var s), force]
    have e5 : ∑ k : Fin p.length, -(fderiv ℝ (fderiv ℝ Lf) z0 (dq j (0 + k)) (dp j i)) * (point v j q p z0).var p[k] =
        - ∑ k : Fin j, fderiv ℝ (fderiv ℝ Lf) z0 (dq j k) (dp j i) * z0.2.1 k := by
      rw [← Finset.sum_neg_distrib]
      refine Fintype.sum_equiv (finCongr hp) _ _ fun k => ?_
      have : (point v j q p z0).var p[k] = z0.2.1 ⟨k, hp ▸ k.2⟩ := env_p hq hp hc.nodup (hp ▸ k.2)
      rw [this, Nat.zero_add, neg_mul]
      rfl
    rw [e5]
    congr 1
    ring

end

end Heyoka.Mech
