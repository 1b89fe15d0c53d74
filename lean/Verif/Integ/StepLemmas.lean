import Verif.Integ.Step
import Verif.Search.Lemmas
import Mathlib.Data.List.Sort
import Mathlib.Tactic.Linarith

/-!
# Facts about a single step
-/

namespace Heyoka.Integ

variable {K W J : Type*} [Field K] [LinearOrder K] [IsStrictOrderedRing K]

/-- The timestep `h` selected under the limit `m`: same direction, not larger. -/
def HOk (m h : XF K) : Prop :=
  ∀ x : K, h = .fin x →
    (m.lt (.fin 0) = false → 0 ≤ x) ∧ (m.lt (.fin 0) = true → x ≤ 0) ∧ XF.le (.fin |x|) m.abs = true

/-- What a step relies on: the compiled steppers select timesteps within the limit (proved for
`taylor_determine_h()` in `Verif.Props.Timestep`), the event detection returns events strictly inside
the timestep (proved in `Verif.Props.Events`), the sort algorithms return sorted permutations. -/
structure EnvOk (env : Env K W J) (nTe nNte : Nat) : Prop where
  stepper : ∀ w tm m wtc, m.isNan = false → HOk m (env.stepper w tm m wtc).1
  evStepper : ∀ w tm m, m.isNan = false → HOk m (env.evStepper w tm m).2.1
  detT : ∀ jet h g cds, h ≠ 0 → ∀ e ∈ (env.detect jet h g cds).1,
    0 ≤ e.t * h ∧ |e.t| < |h| ∧ e.idx < nTe
  detN : ∀ jet h g cds, h ≠ 0 → ∀ e ∈ (env.detect jet h g cds).2,
    0 ≤ e.t * h ∧ |e.t| < |h| ∧ e.idx < nNte
  permT : ∀ l, (env.sortT l).Perm l
  permN : ∀ l, (env.sortN l).Perm l
  sortedT : ∀ l, (env.sortT l).Pairwise fun a b => |a.t| ≤ |b.t|
  sortedN : ∀ l, (env.sortN l).Pairwise fun a b => |a.t| ≤ |b.t|

theorem xf_add_isFin {a b : XF K} (h : (a.add b).isFin = true) :
    ∃ x y, a = .fin x ∧ b = .fin y := by
  cases a <;> cases b <;> simp_all [XF.add, XF.isFin]

theorem cmpNanEq_fin {a : XF K} {x : K} (h : cmpNanEq a (.fin x) = true) : a = .fin x := by
  cases a <;> simp_all [cmpNanEq, XF.isNan, XF.feq]

/-- The events to run are the sorted detected events before the first terminal event. -/
theorem ntesToRun_eq {hf : K} {dtes : List (DTe K)} {l : List (DNte K)}
    (hs : l.Pairwise fun a b => |a.t| ≤ |b.t|) :
    ntesToRun hf dtes l = .ok (if dtes = [] then l else l.filter fun e => decide (|e.t| < |hf|)) := by
  cases dtes with
  | nil => rfl
  | cons d ds =>
    have hp : ∀ {l : List (DNte K)}, l.Pairwise (fun a b => |a.t| ≤ |b.t|) →
        Search.IsPart l (fun e => decide (|e.t| < |hf|))
          (l.filter fun e => decide (|e.t| < |hf|)).length ∧
        l.take (l.filter fun e => decide (|e.t| < |hf|)).length
          = l.filter fun e => decide (|e.t| < |hf|) := by
      intro l
      induction l with
      | nil => intro _; simp [Search.IsPart]
      | cons a l ih =>
        intro h
        rw [List.pairwise_cons] at h
        have ih := ih h.2
        by_cases ha : |a.t| < |hf|
        · have : (a :: l).filter (fun e => decide (|e.t| < |hf|))
              = a :: l.filter fun e => decide (|e.t| < |hf|) := by simp [ha]
          rw [this, List.length_cons, List.take_succ_cons, ih.2]
          refine ⟨⟨by simpa using ih.1.1, ?_⟩, rfl⟩
          intro i hi
          cases i with
          | zero => simp [ha]
          | succ i =>
            have := ih.1.2 i (by simpa using hi)
            simpa using this
        · have hl : l.filter (fun e => decide (|e.t| < |hf|)) = [] := by
            rw [List.filter_eq_nil_iff]
            intro b hb
            have := h.1 b hb
            simp only [decide_eq_true_eq]
            intro hlt
            exact ha (lt_of_le_of_lt this hlt)
          have : (a :: l).filter (fun e => decide (|e.t| < |hf|)) = [] := by simp [ha, hl]
          rw [this]
          refine ⟨⟨by simp, ?_⟩, rfl⟩
          intro i hi
          have hmem := List.getElem_mem hi
          have hle : |a.t| ≤ |((a :: l)[i]).t| := by
            rcases List.mem_cons.mp hmem with h1 | h1
            · rw [h1]
            · exact h.1 _ h1
          have : ¬ |((a :: l)[i]).t| < |hf| := fun hlt => ha (lt_of_le_of_lt hle hlt)
          simp [this]
    have := hp hs
    simp only [ntesToRun, Search.upperBound_part this.1, Res.bind_ok, this.2, reduceCtorEq, if_false]

/-- Case analysis on a successful tail. -/
theorem stepEvTail_ok {env : Env K W J} {tes : List (TEvent K W)} {ntes : List (NTEvent K W)}
    {maxDt : XF K} {ge : Option K} {dtes : List (DTe K)} {dntes : List (DNte K)} {h : XF K} {hf t1 : K}
    {ta1 : Integ K W} {oc : Outcome} {h' : XF K} {ta' : Integ K W}
    (hs : dntes.Pairwise fun a b => |a.t| ≤ |b.t|) (ht : ta1.time = .fin t1)
    (H : stepEvTail env tes ntes maxDt ge dtes dntes h hf ta1 = .ok (oc, h', ta')) :
    h' = h ∧ ta'.time = .fin t1 ∧ ∃ ta3,
      runNtes ntes (.fin t1) (fun t => t.lastH)
        (if dtes = [] then dntes else dntes.filter fun e => decide (|e.t| < |hf|))
        ⟨ta1.time, ta1.lastH, ta1.cds.map (updateCd hf), ta1.world⟩ = .ok ta3 ∧
      ((dtes = [] ∧ oc = (if h.feq maxDt then Outcome.timeLimit else Outcome.success) ∧ ta' = ta3) ∨
       (∃ d ds b, dtes = d :: ds ∧ runTe env tes ge d ta3 = .ok (b, ta') ∧
          oc = if b then (d.idx : Int) else -(d.idx : Int) - 1)) := by
  unfold stepEvTail at H
  rw [ntesToRun_eq hs] at H
  simp only [Res.bind_ok] at H
  rw [ht] at H
  cases hr : runNtes ntes (.fin t1) (fun t => t.lastH)
      (if dtes = [] then dntes else dntes.filter fun e => decide (|e.t| < |hf|))
      ⟨.fin t1, ta1.lastH, ta1.cds.map (updateCd hf), ta1.world⟩ with
  | throw => rw [hr] at H; simp at H
  | ub => rw [hr] at H; simp at H
  | ok ta3 =>
    rw [hr] at H
    simp only [Res.bind_ok] at H
    cases dtes with
    | nil =>
      simp only at H
      by_cases hc : cmpNanEq ta3.time (.fin t1) = true
      · simp only [hc, Bool.not_true, Bool.false_eq_true, if_false, Res.ok.injEq, Prod.mk.injEq] at H
        obtain ⟨h1, h2, h3⟩ := H
        subst h3
        exact ⟨h2.symm, cmpNanEq_fin hc, ta3, by rw [ht]; exact hr, .inl ⟨rfl, h1.symm, rfl⟩⟩
      · simp only [hc, Bool.not_false, if_true] at H
        simp at H
    | cons d ds =>
      simp only at H
      cases hte : runTe env tes ge d ta3 with
      | throw => rw [hte] at H; simp at H
      | ub => rw [hte] at H; simp at H
      | ok r =>
        rw [hte] at H
        obtain ⟨b, ta4⟩ := r
        simp only [Res.bind_ok] at H
        by_cases hc : cmpNanEq ta4.time (.fin t1) = true
        · simp only [hc, Bool.not_true, Bool.false_eq_true, if_false, Res.ok.injEq, Prod.mk.injEq] at H
          obtain ⟨h1, h2, h3⟩ := H
          subst h3
          exact ⟨h2.symm, cmpNanEq_fin hc, ta3, by rw [ht]; exact hr,
            .inr ⟨d, ds, b, rfl, hte, h1.symm⟩⟩
        · simp only [hc, Bool.not_false, if_true] at H
          simp at H

/-- Case analysis on a successful step with events. -/
theorem stepEv_ok {env : Env K W J} {tes : List (TEvent K W)} {ntes : List (NTEvent K W)}
    {maxDt : XF K} {ta : Integ K W} {oc : Outcome} {h : XF K} {ta' : Integ K W} {jet : J} {h0 mas : XF K}
    {dT : List (DTe K)} {dN : List (DNte K)}
    (hev : env.evStepper ta.world ta.time maxDt = (jet, h0, mas))
    (hd : detectEvents env jet h0 (gEps env mas) ta.cds = (dT, dN))
    (hs : (env.sortN dN).Pairwise fun a b => |a.t| ≤ |b.t|)
    (H : stepEv env tes ntes ta maxDt = .ok (oc, h, ta')) :
    h = clampH h0 (env.sortT dT) ∧
    ((oc = Outcome.errNfState ∧
        ta' = ⟨ta.time.add h, h, ta.cds, env.dOut (env.copyTc ta.world jet) jet h⟩ ∧
        ((ta.time.add h).isFin = false ∨ env.finite ta'.world = false)) ∨
     (∃ t0 x, ta.time = .fin t0 ∧ h = .fin x ∧
        env.finite (env.dOut (env.copyTc ta.world jet) jet h) = true ∧ ta'.time = .fin (t0 + x) ∧
        ∃ ta3, runNtes ntes (.fin (t0 + x)) (fun t => t.lastH)
          (if env.sortT dT = [] then env.sortN dN
            else (env.sortN dN).filter fun e => decide (|e.t| < |x|))
          ⟨.fin (t0 + x), .fin x, ta.cds.map (updateCd x),
            env.dOut (env.copyTc ta.world jet) jet h⟩ = .ok ta3 ∧
        ((env.sortT dT = [] ∧ oc = (if h.feq maxDt then Outcome.timeLimit else Outcome.success) ∧
            ta' = ta3) ∨
         (∃ d ds b, env.sortT dT = d :: ds ∧ runTe env tes (gEps env mas) d ta3 = .ok (b, ta') ∧
            oc = if b then (d.idx : Int) else -(d.idx : Int) - 1)))) := by
  unfold stepEv at H
  simp only [hev, hd] at H
  split at H
  · rename_i hnf
    simp only [Res.ok.injEq, Prod.mk.injEq] at H
    obtain ⟨h1, h2, h3⟩ := H
    subst h2
    refine ⟨rfl, .inl ⟨h1.symm, h3.symm, ?_⟩⟩
    rw [Bool.or_eq_true, Bool.not_eq_true', Bool.not_eq_true'] at hnf
    rw [← h3]
    exact hnf
  · rename_i hf
    have hf' : (ta.time.add (clampH h0 (env.sortT dT))).isFin = true ∧
        env.finite (env.dOut (env.copyTc ta.world jet) jet (clampH h0 (env.sortT dT))) = true := by
      simpa using hf
    obtain ⟨t0, x, ht0, hx⟩ := xf_add_isFin hf'.1
    rw [hx] at H
    simp only at H
    obtain ⟨h1, h2, ta3, h3, h4⟩ := stepEvTail_ok (t1 := t0 + x) hs (by simp [ht0]) H
    subst h1
    refine ⟨hx.symm, .inr ⟨t0, x, ht0, rfl, by rw [← hx]; exact hf'.2, h2, ta3, ?_, h4⟩⟩
    simpa [ht0] using h3

end Heyoka.Integ
