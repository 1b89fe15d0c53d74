import Verif.Kepler.Math

/-!
# The iterative solver of the Kepler equations

Model of the code generated by `llvm_add_inv_kep_E/F/DE()`
(`src/detail/llvm_helpers_celmec.cpp`). The arithmetic is exact and real valued; the tolerance, the
upper ends of the initial ranges (the floating-point numbers preceding `2π` and `2π + 1`) and
the number of iterations are parameters. A NaN result is `none`.
-/

namespace Heyoka.Kepler

/-- The equation solved by one lane of a batch: the function whose zero is searched, its derivative,
the initial range and the initial guess. -/
structure Problem where
  f : ℝ → ℝ
  df : ℝ → ℝ
  lb : ℝ
  ub : ℝ
  guess : ℝ

/-- The state of the iteration for one lane: the bounds, the current value and the outcome of the
last tolerance check ("more iterations needed"). -/
structure Lane where
  lb : ℝ
  ub : ℝ
  x : ℝ
  more : Bool

/-- `llvm_clamp()` (`llvm_helpers_celmec.cpp` 129-137). -/
noncomputable def clamp (x lb ub : ℝ) : ℝ := min (max x lb) ub

/-- The state before the loop (`llvm_helpers_celmec.cpp` 273-296, 651-670, 957-976). -/
noncomputable def Problem.init (p : Problem) : Lane :=
  ⟨p.lb, p.ub, clamp p.guess p.lb p.ub, false⟩

/-- `loop_cond` for one lane (`llvm_helpers_celmec.cpp` 335-407, 705-777, 1013-1085): the bounds are
updated with the sign of the function, then the tolerances are checked. -/
noncomputable def Problem.cond (p : Problem) (tol : ℝ) (l : Lane) : Lane :=
  let ub := if 0 ≤ p.f l.x then l.x else l.ub
  let lb := if p.f l.x ≤ 0 then l.x else l.lb
  ⟨lb, ub, l.x, decide (tol < |p.f l.x|) && decide (tol < ub - lb)⟩

/-- The body of the loop for one lane (`llvm_helpers_celmec.cpp` 410-443, 780-814, 1088-1122): a
Newton-Raphson step, replaced by a bisection step if the new value is out of the bounds. -/
noncomputable def Problem.body (p : Problem) (l : Lane) : Lane :=
  let x1 := l.x - p.f l.x / p.df l.x
  let x2 := if l.ub < x1 then 1 / 2 * (l.x + l.ub) else x1
  let x3 := if x2 < l.lb then 1 / 2 * (l.x + l.lb) else x2
  { l with x := x3 }

/-- The loop over all the lanes of a batch (`llvm_while_loop`, same lines): it continues as long as
any lane needs more iterations and the counter is below the limit. A lane whose arguments are
invalid computes with NaNs, never asks for more iterations and is represented by `none`. -/
noncomputable def runLoop (tol : ℝ) : Nat → List (Option (Problem × Lane)) →
    List (Option (Problem × Lane))
  | fuel, lanes =>
    let lanes := lanes.map (Option.map fun q => (q.1, q.1.cond tol q.2))
    match fuel with
    | 0 => lanes
    | fuel + 1 =>
      if lanes.any (fun o => match o with | some q => q.2.more | none => false) then
        runLoop tol fuel (lanes.map (Option.map fun q => (q.1, q.1.body q.2)))
      else lanes

/-- The result of a lane (`llvm_helpers_celmec.cpp` 445-461, 816-832, 1124-1140): NaN if the lane
still needs more iterations (this can only be when the limit has been reached). -/
noncomputable def Lane.result (l : Lane) : Option ℝ := if l.more then none else some l.x

/-- The solver, for a batch of problems, with the maximum number of iterations. -/
noncomputable def solve (tol : ℝ) (maxIter : Nat) (ps : List (Option Problem)) :
    List (Option ℝ) :=
  (runLoop tol maxIter (ps.map (Option.map fun p => (p, p.init)))).map
    fun o => o.bind fun q => q.2.result

/-- `llvm_trig_arg_reduce()` (`llvm_helpers_celmec.cpp` 139-175): reduction to `[0, 2π)`, then
clamping to `[0, top]` where `top` is the number preceding `2π`. The double-length arithmetic is
idealised as an exact reduction. -/
noncomputable def reduceArg (top x : ℝ) : ℝ := clamp (red x) 0 top

/-- The problem set up by `llvm_add_inv_kep_E()` (`llvm_helpers_celmec.cpp` 226-289, 311-318,
413-415); `none` for an eccentricity out of range. `top` is the number preceding `2π`. -/
noncomputable def kepEProblem (top e M0 : ℝ) : Option Problem :=
  if e < 0 ∨ 1 ≤ e then none
  else
    let M := reduceArg top M0
    let ig := M + e * Real.sin M + e * Real.sin M * (e * Real.cos M)
      + e * e * (e * Real.sin M) * (3 / 2 * (Real.cos M * Real.cos M) - 1 / 2)
    some ⟨fun E => E - M - e * Real.sin E, fun E => 1 - e * Real.cos E, 0, top, ig⟩

/-- The problem set up by `llvm_add_inv_kep_F()` (`llvm_helpers_celmec.cpp` 585-664, 685-695,
783-786). `top1` is the number preceding `2π + 1`. -/
noncomputable def kepFProblem (top top1 h k lam0 : ℝ) : Option Problem :=
  if 1 ≤ h * h + k * k then none
  else
    let lam := reduceArg top lam0
    let s := Real.sin lam
    let c := Real.cos lam
    let m := k * s - h * c
    let p := k * c + h * s
    let ig := (lam + m + (k * k - h * h) * (c * s))
      + (h * k * (s * s - c * c) + 1 / 2 * m * (p * p + p * p - m * m))
    some ⟨fun F => F - lam + h * Real.cos F - k * Real.sin F,
      fun F => 1 - h * Real.sin F - k * Real.cos F, -1, top1, ig⟩

/-- The problem set up by `llvm_add_inv_kep_DE()` (`llvm_helpers_celmec.cpp` 902-970, 991-1003,
1091-1094). -/
noncomputable def kepDEProblem (top top1 s0 c0 DM0 : ℝ) : Option Problem :=
  if 1 ≤ s0 * s0 + c0 * c0 then none
  else
    let DM := reduceArg top DM0
    let s := Real.sin DM
    let c := Real.cos DM
    let a := c0 * c - s0 * s
    let b := c0 * s + s0 * c
    let d := b - s0
    let ig := (DM + d + a * d) + 1 / 2 * d * (a * a + a * a - d * b)
    some ⟨fun DE => DE - DM + s0 * (1 - Real.cos DE) - c0 * Real.sin DE,
      fun DE => 1 + s0 * Real.sin DE - c0 * Real.cos DE, -1, top1, ig⟩

/-- The final reduction of the result for `F` and `DE` (`llvm_helpers_celmec.cpp` 834-846,
1142-1154). -/
noncomputable def finalReduce (x : ℝ) : ℝ :=
  let x := if x < 0 then 2 * Real.pi + x else x
  if 2 * Real.pi ≤ x then x - 2 * Real.pi else x

/-- `kepE` for a batch of eccentricities and mean anomalies. -/
noncomputable def kepEBatch (tol top : ℝ) (maxIter : Nat) (args : List (ℝ × ℝ)) :
    List (Option ℝ) :=
  solve tol maxIter (args.map fun q => kepEProblem top q.1 q.2)

/-- `kepF` for a batch. -/
noncomputable def kepFBatch (tol top top1 : ℝ) (maxIter : Nat) (args : List (ℝ × ℝ × ℝ)) :
    List (Option ℝ) :=
  (solve tol maxIter (args.map fun q => kepFProblem top top1 q.1 q.2.1 q.2.2)).map
    (Option.map finalReduce)

/-- `kepDE` for a batch. -/
noncomputable def kepDEBatch (tol top top1 : ℝ) (maxIter : Nat) (args : List (ℝ × ℝ × ℝ)) :
    List (Option ℝ) :=
  (solve tol maxIter (args.map fun q => kepDEProblem top top1 q.1 q.2.1 q.2.2)).map
    (Option.map finalReduce)

/-! ### Invariants -/

/-- A problem is well posed if the function is increasing and has a zero in the initial range. -/
structure Problem.Ok (p : Problem) (r : ℝ) : Prop where
  mono : StrictMono p.f
  root : p.f r = 0
  lb : p.lb ≤ r
  ub : r ≤ p.ub

/-- The bounds contain the zero and the current value, and stay in the initial range. -/
structure Lane.Inv (p : Problem) (r : ℝ) (l : Lane) : Prop where
  lb_le : l.lb ≤ r
  le_ub : r ≤ l.ub
  lb_x : l.lb ≤ l.x
  x_ub : l.x ≤ l.ub
  lb0 : p.lb ≤ l.lb
  ub0 : l.ub ≤ p.ub

theorem init_inv {p : Problem} {r : ℝ} (h : p.Ok r) : (p.init).Inv p r where
  lb_le := h.lb
  le_ub := h.ub
  lb_x := le_min (le_max_right _ _) (h.lb.trans h.ub)
  x_ub := min_le_right _ _
  lb0 := le_refl _
  ub0 := le_refl _

theorem cond_inv {p : Problem} {r tol : ℝ} {l : Lane} (h : p.Ok r) (hi : l.Inv p r) :
    (p.cond tol l).Inv p r := by
  have h1 : 0 ≤ p.f l.x → r ≤ l.x := fun h0 => by
    rw [← h.root] at h0; exact h.mono.le_iff_le.mp h0
  have h2 : p.f l.x ≤ 0 → l.x ≤ r := fun h0 => by
    rw [← h.root] at h0; exact h.mono.le_iff_le.mp h0
  obtain ⟨a, b, c, d, e, f⟩ := hi
  constructor <;> simp only [Problem.cond] <;> split_ifs <;> first
    | assumption | exact le_refl _ | (exact h1 ‹_›) | (exact h2 ‹_›) | linarith

/-- After the check, one of the bounds is the current value. -/
theorem body_inv {p : Problem} {r : ℝ} {l : Lane} (hi : l.Inv p r) : (p.body l).Inv p r := by
  obtain ⟨a, b, c, d, e, f⟩ := hi
  refine ⟨a, b, ?_, ?_, e, f⟩
  · simp only [Problem.body]
    split_ifs <;> linarith
  · simp only [Problem.body]
    split_ifs <;> linarith

/-- What is known about a lane when the loop is over. -/
structure Lane.Final (tol : ℝ) (p : Problem) (r : ℝ) (l : Lane) : Prop where
  inv : l.Inv p r
  more : l.more = (decide (tol < |p.f l.x|) && decide (tol < l.ub - l.lb))

theorem runLoop_final {tol : ℝ} (fuel : Nat) (lanes : List (Option (Problem × Lane)))
    (R : Problem → ℝ → Prop)
    (hR : ∀ p r, R p r → p.Ok r)
    (h : ∀ q, some q ∈ lanes → ∀ r, R q.1 r → q.2.Inv q.1 r) :
    ∀ q, some q ∈ runLoop tol fuel lanes → ∀ r, R q.1 r → q.2.Final tol q.1 r := by
  induction fuel generalizing lanes with
  | zero =>
    intro q hq r hr
    simp only [runLoop, List.mem_map, Option.map_eq_some_iff] at hq
    obtain ⟨o, ho, q', rfl, rfl⟩ := hq
    exact ⟨cond_inv (hR _ _ hr) (h q' ho r hr), rfl⟩
  | succ fuel ih =>
    intro q hq r hr
    rw [runLoop] at hq
    split at hq
    · refine ih _ ?_ q hq r hr
      intro q1 hq1 r1 hr1
      simp only [List.mem_map, Option.map_eq_some_iff] at hq1
      obtain ⟨o, ⟨o', ho', h2⟩, q', rfl, rfl⟩ := hq1
      rw [Option.map_eq_some_iff] at h2
      obtain ⟨q2, rfl, rfl⟩ := h2
      exact body_inv (cond_inv (hR _ _ hr1) (h q2 ho' r1 hr1))
    · simp only [List.mem_map, Option.map_eq_some_iff] at hq
      obtain ⟨o, ho, q', rfl, rfl⟩ := hq
      exact ⟨cond_inv (hR _ _ hr) (h q' ho r hr), rfl⟩

theorem runLoop_length (tol : ℝ) (fuel : Nat) (lanes : List (Option (Problem × Lane))) :
    (runLoop tol fuel lanes).length = lanes.length := by
  induction fuel generalizing lanes with
  | zero => simp [runLoop]
  | succ fuel ih =>
    rw [runLoop]
    split
    · rw [ih]; simp
    · simp

/-- The problems are not touched by the loop. -/
theorem runLoop_problem (tol : ℝ) (fuel : Nat) (lanes : List (Option (Problem × Lane))) :
    (runLoop tol fuel lanes).map (Option.map Prod.fst) = lanes.map (Option.map Prod.fst) := by
  induction fuel generalizing lanes with
  | zero =>
    simp only [runLoop, List.map_map]
    refine List.map_congr_left fun o _ => ?_
    cases o <;> rfl
  | succ fuel ih =>
    rw [runLoop]
    split
    · rw [ih, List.map_map, List.map_map]
      refine List.map_congr_left fun o _ => ?_
      cases o <;> rfl
    · rw [List.map_map]
      refine List.map_congr_left fun o _ => ?_
      cases o <;> rfl

/-- The result of a lane with a well posed problem: in the initial range, and either the function
is within the tolerance of zero or the zero itself is within the tolerance. -/
theorem solve_spec {tol : ℝ} {maxIter : Nat} {ps : List (Option Problem)} {i : Nat} {p : Problem}
    {r x : ℝ} (hp : ps[i]? = some (some p)) (hok : p.Ok r)
    (hx : (solve tol maxIter ps)[i]? = some (some x)) :
    p.lb ≤ x ∧ x ≤ p.ub ∧ (|p.f x| ≤ tol ∨ |x - r| ≤ tol) := by
  unfold solve at hx
  obtain ⟨lanes, hl⟩ : ∃ lanes, ps.map (Option.map fun p => (p, p.init)) = lanes := ⟨_, rfl⟩
  rw [hl] at hx
  rw [List.getElem?_map, Option.map_eq_some_iff] at hx
  obtain ⟨o, ho, hx⟩ := hx
  rw [Option.bind_eq_some_iff] at hx
  obtain ⟨⟨p', l⟩, rfl, hx⟩ := hx
  have hp' : p' = p := by
    have h1 := congrArg (·[i]?) (runLoop_problem tol maxIter lanes)
    have h2 : lanes[i]? = some (some (p, p.init)) := by
      rw [← hl, List.getElem?_map, hp]; rfl
    simp only [List.getElem?_map, ho, h2, Option.map_some, Option.some.injEq] at h1
    exact h1
  subst hp'
  have hinv : ∀ q, some q ∈ lanes → ∀ r, q.1.Ok r → q.2.Inv q.1 r := by
    intro q hq r hr
    rw [← hl] at hq
    simp only [List.mem_map, Option.map_eq_some_iff] at hq
    obtain ⟨o, -, q', rfl, rfl⟩ := hq
    exact init_inv hr
  have hf := runLoop_final (tol := tol) maxIter lanes (fun p r => p.Ok r) (fun _ _ h => h) hinv
    (p', l) (List.mem_of_getElem? ho) r hok
  obtain ⟨⟨a, b, c, d, e, f⟩, hmore⟩ := hf
  simp only at a b c d e f hmore hx
  unfold Lane.result at hx
  split at hx
  · cases hx
  · rename_i hm
    simp only [Option.some.injEq] at hx
    subst hx
    refine ⟨by linarith, by linarith, ?_⟩
    rw [hmore, Bool.and_eq_true, decide_eq_true_eq, decide_eq_true_eq, not_and_or, not_lt,
      not_lt] at hm
    rcases hm with h1 | h1
    · exact Or.inl h1
    · right
      rw [abs_le]
      constructor <;> linarith

theorem solve_none {tol : ℝ} {maxIter : Nat} {ps : List (Option Problem)} {i : Nat}
    (hp : ps[i]? = some none) : (solve tol maxIter ps)[i]? = some none := by
  unfold solve
  obtain ⟨lanes, hl⟩ : ∃ lanes, ps.map (Option.map fun p => (p, p.init)) = lanes := ⟨_, rfl⟩
  rw [hl]
  have h1 := congrArg (·[i]?) (runLoop_problem tol maxIter lanes)
  simp only [List.getElem?_map, ← hl, hp, Option.map_some, Option.map_none] at h1
  rw [hl] at h1
  rw [Option.map_eq_some_iff] at h1
  obtain ⟨o, ho, h2⟩ := h1
  rw [List.getElem?_map, ho]
  cases o
  · rfl
  · simp at h2

/-- A run in which the initial guess is already the zero. -/
theorem solve_of_guess {tol : ℝ} {maxIter : Nat} {p : Problem} (ht : 0 ≤ tol)
    (h : p.f (clamp p.guess p.lb p.ub) = 0) :
    solve tol maxIter [some p] = [some (clamp p.guess p.lb p.ub)] := by
  have hm : (p.cond tol p.init).more = false := by
    simp [Problem.cond, Problem.init, h, ht]
  have hr : runLoop tol maxIter [some (p, p.init)] = [some (p, p.cond tol p.init)] := by
    cases maxIter <;> simp [runLoop, hm]
  simp only [solve, List.map_cons, List.map_nil, Option.map_some, hr, Option.bind_some,
    Lane.result, hm]
  rfl

end Heyoka.Kepler
