import Verif.Integ.Propagate
import Verif.Integ.StepLemmas
import Mathlib.Tactic.Ring

/-!
# Facts about the propagation loops
-/

namespace Heyoka.Integ

variable {K W C S J : Type*} [Field K] [LinearOrder K] [IsStrictOrderedRing K]

/-- What the propagation loops rely on: a step which does not end in a non-finite state advances the time
by the returned timestep, respects the limit, and reports `time_limit` exactly when the whole limit was used
and no terminal event occurred. -/
def StepOk (stepF : StepF K W) : Prop :=
  ∀ ta m wtc oc h ta', m.isNan = false → stepF ta m wtc = .ok (oc, h, ta') → oc ≠ Outcome.errNfState →
    ∃ t0 x, ta.time = .fin t0 ∧ h = .fin x ∧ ta'.time = .fin (t0 + x) ∧ HOk m h ∧
      ((oc = Outcome.timeLimit ∧ h = m) ∨ (oc = Outcome.success ∧ h ≠ m) ∨
        (∃ i : Nat, i < 2 ^ 32 ∧ (oc = (i : Int) ∨ oc = -(i : Int) - 1) ∧ (XF.fin |x|).lt m.abs = true))

/-- `max_delta_t` after the checks: positive, possibly infinite. -/
def MaxDtOk (m : XF K) : Prop := m = .pinf ∨ ∃ M, m = .fin M ∧ 0 < M

/-- The limit passed to a step: finite, between zero and the remaining time, not larger than
`max_delta_t`. -/
theorem dtLimit_spec {maxDt : XF K} (hm : MaxDtOk maxDt) (rem : K) :
    ∃ μ : K, dtLimit (decide (0 ≤ rem)) maxDt (.fin rem) = .fin μ ∧
      (0 ≤ rem → 0 ≤ μ ∧ μ ≤ rem) ∧ (rem < 0 → rem ≤ μ ∧ μ < 0) ∧
      XF.le (.fin |μ|) maxDt = true := by
  unfold dtLimit
  rcases hm with rfl | ⟨M, rfl, hM⟩
  · by_cases hr : 0 ≤ rem
    · refine ⟨rem, ?_, fun _ => ⟨hr, le_rfl⟩, fun h => absurd hr (not_le.mpr h), ?_⟩
      · simp [hr, XF.min, XF.lt]
      · simp [XF.le, XF.lt]
    · refine ⟨rem, ?_, fun h => absurd h hr, fun h => ⟨le_rfl, h⟩, ?_⟩
      · simp [hr, XF.max, XF.lt, XF.neg]
      · simp [XF.le, XF.lt]
  · by_cases hr : 0 ≤ rem
    · refine ⟨min M rem, ?_, fun _ => ⟨le_min hM.le hr, min_le_right _ _⟩,
        fun h => absurd hr (not_le.mpr h), ?_⟩
      · simp [hr]
      · rw [abs_of_nonneg (le_min hM.le hr)]; simp
    · push Not at hr
      refine ⟨max (-M) rem, ?_, fun h => absurd h (not_le.mpr hr),
        fun h => ⟨le_max_right _ _, max_lt (by linarith) hr⟩, ?_⟩
      · simp [hr, not_le.mpr hr]
      · rw [abs_of_nonpos (max_le (by linarith) hr.le)]
        simp only [XF.le_fin, decide_eq_true_eq]
        have := le_max_left (-M) rem
        linarith

/-- The timestep selected under the limit of the loops. -/
theorem h_spec {maxDt : XF K} (hm : MaxDtOk maxDt) {rem x : K}
    (hx : HOk (dtLimit (decide (0 ≤ rem)) maxDt (.fin rem)) (.fin x)) :
    (0 ≤ rem → 0 ≤ x ∧ x ≤ rem) ∧ (rem < 0 → rem ≤ x ∧ x ≤ 0) ∧ XF.le (.fin |x|) maxDt = true ∧
      (x = rem → dtLimit (decide (0 ≤ rem)) maxDt (.fin rem) = .fin x) := by
  obtain ⟨μ, h1, h2, h3, h4⟩ := dtLimit_spec hm rem
  rw [h1] at hx ⊢
  obtain ⟨g1, g2, g3⟩ := hx x rfl
  simp only [XF.lt_fin, decide_eq_false_iff_not, not_lt, decide_eq_true_eq, XF.abs_fin, XF.le_fin] at g1 g2 g3
  have hfin : XF.le (.fin |x|) maxDt = true := by
    rcases hm with rfl | ⟨M, rfl, hM⟩
    · simp [XF.le, XF.lt]
    · simp only [XF.le_fin, decide_eq_true_eq] at h4 ⊢
      exact g3.trans h4
  by_cases hr : 0 ≤ rem
  · obtain ⟨a, b⟩ := h2 hr
    have hx0 := g1 a
    rw [abs_of_nonneg hx0, abs_of_nonneg a] at g3
    refine ⟨fun _ => ⟨hx0, g3.trans b⟩, fun h => absurd hr (not_le.mpr h), hfin, fun h => ?_⟩
    subst h
    rw [le_antisymm b g3]
  · push Not at hr
    obtain ⟨a, b⟩ := h3 hr
    have hx0 := g2 b
    rw [abs_of_nonpos hx0, abs_of_neg b] at g3
    refine ⟨fun h => absurd h (not_le.mpr hr), fun _ => ⟨by linarith, hx0⟩, hfin, fun h => ?_⟩
    subst h
    rw [le_antisymm (by linarith) a]

/-- One iteration of a propagation loop which did not end in a non-finite state: integrator before the
step, timestep, outcome, integrator after the step, return value of the callback (`true` if there is none)
and integrator after the callback. -/
structure Iter (K W : Type*) where
  /-- integrator before the step -/
  before : Integ K W
  /-- timestep -/
  h : K
  /-- outcome of the step -/
  oc : Outcome
  /-- integrator after the step, before the callback -/
  mid : Integ K W
  /-- return value of the callback -/
  cbRet : Bool
  /-- integrator after the callback -/
  after : Integ K W

/-- The callback `cb` (if any) was invoked once on `mid`, returned `b` and left `after` behind, without
changing the time. -/
def CbCall (cb : Option (Cb K W)) (mid : Integ K W) (b : Bool) (after : Integ K W) : Prop :=
  match cb with
  | none => b = true ∧ after = mid
  | some cb => cb.call mid = .ok (b, after) ∧ after.time = mid.time

/-- The iteration is a step of `stepF` under some limit not larger than `maxDt` followed by the callback. -/
def Iter.Valid (stepF : StepF K W) (cb : Option (Cb K W)) (maxDt : XF K) (wtc : Bool) (it : Iter K W) :
    Prop :=
  (∃ μ : K, XF.le (.fin |μ|) maxDt = true ∧
    stepF it.before (.fin μ) wtc = .ok (it.oc, .fin it.h, it.mid)) ∧
  it.oc ≠ Outcome.errNfState ∧ CbCall cb it.mid it.cbRet it.after

/-- The iterations follow each other, from integrator `a` to integrator `e`. -/
def Chain : Integ K W → List (Iter K W) → Integ K W → Prop
  | a, [], e => a = e
  | a, it :: its, e => it.before = a ∧ Chain it.after its e

theorem runCb_ok {cb : Option (Cb K W)} {ta : Integ K W} {b : Bool} {ta' : Integ K W} {t : K}
    (ht : ta.time = .fin t) (h : runCb cb ta = .ok (b, ta')) :
    CbCall cb ta b ta' ∧ ta'.time = .fin t := by
  cases cb with
  | none =>
    simp only [runCb, Res.ok.injEq, Prod.mk.injEq] at h
    exact ⟨⟨h.1.symm, h.2.symm⟩, by rw [← h.2, ht]⟩
  | some cb =>
    simp only [runCb] at h
    cases hc : cb.call ta with
    | throw => rw [hc] at h; simp at h
    | ub => rw [hc] at h; simp at h
    | ok r =>
      rw [hc] at h
      simp only [Res.bind_ok] at h
      split at h
      · simp at h
      · rename_i hne
        simp only [Res.ok.injEq] at h
        subst h
        have : XF.feq ta'.time ta.time = true := by simpa using hne
        have h2 := (XF.feq_iff.mp this).1
        exact ⟨⟨hc, h2⟩, by rw [h2, ht]⟩

theorem runPreHook_ok {cb : Option (Cb K W)} {ta ta' : Integ K W} {t : K} (ht : ta.time = .fin t)
    (h : runPreHook cb ta = .ok ta') : ta'.time = .fin t ∧
      (match cb with | none => ta' = ta | some cb => cb.preHook ta = .ok ta') := by
  cases cb with
  | none => simp only [runPreHook, Res.ok.injEq] at h; subst h; exact ⟨ht, rfl⟩
  | some cb =>
    simp only [runPreHook] at h
    cases hc : cb.preHook ta with
    | throw => rw [hc] at h; simp at h
    | ub => rw [hc] at h; simp at h
    | ok r =>
      rw [hc] at h
      simp only [Res.bind_ok] at h
      split at h
      · simp at h
      · rename_i hne
        simp only [Res.ok.injEq] at h
        subst h
        have : XF.feq r.time ta.time = true := by simpa using hne
        exact ⟨by rw [(XF.feq_iff.mp this).1, ht], hc⟩

/-- The statistics accumulated over some iterations. -/
def accStats (st : Stats K) (its : List (Iter K W)) : Stats K :=
  its.foldl (fun s it => s.update it.oc (.fin it.h)) st

theorem accStats_iters (its : List (Iter K W)) : ∀ st : Stats K,
    (accStats st its).iters = st.iters + its.length := by
  induction its with
  | nil => intro st; rfl
  | cons it its ih =>
    intro st
    have := ih (st.update it.oc (.fin it.h))
    simp only [accStats, List.foldl_cons, List.length_cons] at this ⊢
    rw [this]
    simp only [Stats.update]
    omega

/-- The outcomes of stopping terminal events: `-idx - 1` where `idx` is the index of the event (a 32-bit
number). -/
def Stopping (oc : Outcome) : Prop := ∃ idx : Nat, idx < 2 ^ 32 ∧ oc = -(idx : Int) - 1

theorem isStopping_iff {oc : Outcome} : isStopping oc = true ↔ Stopping oc := by
  unfold isStopping Stopping Outcome.success
  change Int at oc
  simp only [Bool.and_eq_true, decide_eq_true_eq]
  constructor
  · rintro ⟨h1, h2⟩
    have h1 : (-4294967296 - 1 : Int) < oc := h1
    have h2 : oc < (0 : Int) := h2
    refine ⟨(-oc - 1 : Int).toNat, by omega, ?_⟩
    change oc = (-((-oc - 1 : Int).toNat : Int) - 1 : Int)
    omega
  · rintro ⟨idx, h1, h2⟩
    change oc = (-(idx : Int) - 1 : Int) at h2
    constructor
    · change (-4294967296 - 1 : Int) < oc; omega
    · change oc < (0 : Int); omega

/-- An iteration which does not end the loop of `propagate_until()`. -/
def Iter.Goes (tf : K) (maxSteps : Nat) (n : Nat) (it : Iter K W) : Prop :=
  it.cbRet = true ∧ ¬ Stopping it.oc ∧ it.after.time ≠ .fin tf ∧ n ≠ maxSteps

/-- All the iterations, numbered from `n`, do not end the loop. -/
def AllGo (tf : K) (maxSteps : Nat) : Nat → List (Iter K W) → Prop
  | _, [] => True
  | n, it :: its => it.Goes tf maxSteps n ∧ AllGo tf maxSteps (n + 1) its

/-- Between `tb` (included) and `tf`, moving by `h` from `tb` does not pass `tf` nor goes back. -/
def Toward (tf tb h : K) : Prop :=
  (0 ≤ tf - tb → 0 ≤ h ∧ h ≤ tf - tb) ∧ (tf - tb < 0 → tf - tb ≤ h ∧ h ≤ 0)

/-- Every iteration moves towards `tf`. -/
def AllToward (tf : K) (its : List (Iter K W)) : Prop :=
  ∀ it ∈ its, ∃ tb, it.before.time = .fin tb ∧ it.mid.time = .fin (tb + it.h) ∧
    it.after.time = .fin (tb + it.h) ∧ Toward tf tb it.h

/-- How the loop of `propagate_until()` ends. -/
def Ending (stepF : StepF K W) (cb : Option (Cb K W)) (maxDt : XF K) (wtc : Bool) (tf : K) (maxSteps n : Nat)
    (e : Integ K W) (oc : Outcome) (fin : Integ K W) (last : Option (Iter K W)) : Prop :=
  -- Non-finite state.
  (last = none ∧ oc = Outcome.errNfState ∧
    ∃ μ h, XF.le (.fin |μ|) maxDt = true ∧ stepF e (.fin μ) wtc = .ok (oc, h, fin)) ∨
  (∃ it, last = some it ∧ it.before = e ∧ it.Valid stepF cb maxDt wtc ∧ fin = it.after ∧
    -- Interrupted by the callback.
    ((oc = Outcome.cbStop ∧ it.cbRet = false) ∨
     -- Final time reached.
     (oc = Outcome.timeLimit ∧ it.cbRet = true ∧ it.after.time = .fin tf) ∨
     -- Stopping terminal event.
     (it.cbRet = true ∧ oc = it.oc ∧ Stopping oc ∧ it.after.time ≠ .fin tf) ∨
     -- Limit on the number of iterations.
     (oc = Outcome.stepLimit ∧ it.cbRet = true ∧ ¬ Stopping it.oc ∧ it.after.time ≠ .fin tf ∧
       n = maxSteps)))

/-- The data of the continuous output after some iterations. -/
def accCOut (tcOf : W → C) (withC : Bool) (c : COutData K C) (its : List (Iter K W)) : COutData K C :=
  if withC then ⟨c.times ++ its.map fun it => it.mid.time, c.tcs ++ its.map fun it => tcOf it.mid.world⟩
  else c

theorem updateCOut_ok {tcOf : W → C} {withC tDir : Bool} {ta : Integ K W} {c c' : COutData K C}
    (h : updateCOut tcOf withC tDir ta c = .ok c') :
    c' = if withC then ⟨c.times ++ [ta.time], c.tcs ++ [tcOf ta.world]⟩ else c := by
  unfold updateCOut at h
  split at h
  · rename_i hw
    rw [if_pos hw]
    split at h
    · simp at h
    · split at h
      · simp at h
      · generalize (if tDir = true then _ else _ : Bool) = q at h
        cases q
        · simpa using h.symm
        · simp at h
  · rename_i hw
    rw [if_neg hw]
    simpa using h.symm

theorem untilLoop_ok {stepF : StepF K W} (hstep : StepOk stepF) {tcOf : W → C} {cb : Option (Cb K W)}
    {tf : K} {maxSteps : Nat} {maxDt : XF K} (hm : MaxDtOk maxDt) {wtc withC tDir : Bool} :
    ∀ (fuel : Nat) (tb : K) (st : Stats K) (c : COutData K C) (ta : Integ K W) (r : UntilRes K W C),
      ta.time = .fin tb → tDir = decide (0 ≤ tf - tb) →
      untilLoop stepF tcOf cb (.fin tf) maxSteps maxDt wtc withC tDir fuel (.fin (tf - tb)) st c ta
        = .ok (some r) →
      ∃ its last e, Chain ta its e ∧ (∀ it ∈ its, it.Valid stepF cb maxDt wtc) ∧
        AllGo tf maxSteps (st.iters + 1) its ∧
        Ending stepF cb maxDt wtc tf maxSteps (st.iters + its.length + 1) e r.oc r.ta last ∧
        AllToward tf (its ++ last.toList) ∧
        r.steps = (accStats st (its ++ last.toList)).steps ∧
        r.minH = (accStats st (its ++ last.toList)).minH ∧
        r.maxH = (accStats st (its ++ last.toList)).maxH ∧
        r.cOut = makeCOut withC (accCOut tcOf withC c (its ++ last.toList)) := by
  intro fuel
  induction fuel with
  | zero => intro tb st c ta r _ _ h; simp [untilLoop] at h
  | succ fuel ih =>
    intro tb st c ta r htime hdir H
    rw [untilLoop] at H
    have hle : (XF.le (.fin 0) (.fin (tf - tb)) != tDir) = false := by
      rw [hdir]; simp
    rw [hle] at H
    simp only [Bool.false_eq_true, if_false] at H
    obtain ⟨μ, hμ, -, -, hμm⟩ := dtLimit_spec hm (tf - tb)
    have hlim : dtLimit tDir maxDt (.fin (tf - tb)) = .fin μ := by rw [hdir]; exact hμ
    rw [hlim] at H
    cases hs : stepF ta (.fin μ) wtc with
    | throw => rw [hs] at H; simp at H
    | ub => rw [hs] at H; simp at H
    | ok q =>
      obtain ⟨oc, h, ta1⟩ := q
      rw [hs] at H
      simp only [Res.bind_ok] at H
      by_cases hnf : oc = Outcome.errNfState
      · rw [if_pos hnf] at H
        simp only [Res.ok.injEq, Option.some.injEq] at H
        subst H
        refine ⟨[], none, ta, rfl, by simp, trivial, .inl ⟨rfl, hnf, μ, h, hμm, hs⟩, ?_, rfl, rfl, rfl, ?_⟩
        · intro it hit; simp at hit
        · simp [accCOut]
      · rw [if_neg hnf] at H
        obtain ⟨t0, x, ht0, hx, ht1, hok, hcases⟩ := hstep _ _ _ _ _ _ rfl hs hnf
        rw [htime] at ht0
        simp only [XF.fin.injEq] at ht0
        subst ht0
        subst hx
        have hspec := h_spec hm (rem := tf - tb) (x := x) (by rw [hμ]; exact hok)
        rw [hμ] at hspec
        cases hu : updateCOut tcOf withC tDir ta1 c with
        | throw => rw [hu] at H; simp at H
        | ub => rw [hu] at H; simp at H
        | ok c1 =>
          rw [hu] at H
          simp only [Res.bind_ok] at H
          have hc1 := updateCOut_ok hu
          cases hcb : runCb cb ta1 with
          | throw => rw [hcb] at H; simp at H
          | ub => rw [hcb] at H; simp at H
          | ok rc =>
            obtain ⟨b, ta2⟩ := rc
            rw [hcb] at H
            simp only [Res.bind_ok] at H
            obtain ⟨hcall, ht2⟩ := runCb_ok ht1 hcb
            -- The iteration.
            have hvalid : Iter.Valid stepF cb maxDt wtc ⟨ta, x, oc, ta1, b, ta2⟩ :=
              ⟨⟨μ, hμm, hs⟩, hnf, hcall⟩
            have htow : Toward tf tb x := ⟨hspec.1, hspec.2.1⟩
            have hco : ∀ its : List (Iter K W), accCOut tcOf withC c1 its
                = accCOut tcOf withC c (⟨ta, x, oc, ta1, b, ta2⟩ :: its) := by
              intro its
              unfold accCOut
              rw [hc1]
              cases withC <;> simp
            have hco0 : c1 = accCOut tcOf withC c [⟨ta, x, oc, ta1, b, ta2⟩] := by
              rw [hc1]
              unfold accCOut
              cases withC <;> simp
            have hat0 : AllToward tf [(⟨ta, x, oc, ta1, b, ta2⟩ : Iter K W)] := by
              intro it hit
              simp only [List.mem_singleton] at hit
              subst hit
              exact ⟨tb, htime, ht1, ht2, htow⟩
            cases b with
            | false =>
              simp only [Bool.not_false, if_true, Res.ok.injEq, Option.some.injEq] at H
              subst H
              refine ⟨[], some ⟨ta, x, oc, ta1, false, ta2⟩, ta, rfl, by simp, trivial,
                .inr ⟨_, rfl, rfl, hvalid, rfl, .inl ⟨rfl, rfl⟩⟩, hat0, rfl, rfl, rfl, ?_⟩
              rw [hco0]; rfl
            | true =>
              simp only [Bool.not_true, Bool.false_eq_true, if_false] at H
              have hcases' : (XF.fin x : XF K) = .fin (tf - tb) → oc = Outcome.timeLimit := by
                intro hxx
                simp only [XF.fin.injEq] at hxx
                have hmu := hspec.2.2.2 hxx
                rcases hcases with ⟨h1, -⟩ | ⟨-, h2⟩ | ⟨i, -, -, h3⟩
                · exact h1
                · exact absurd hmu.symm h2
                · rw [hmu] at h3; simp at h3
              by_cases hxr : x = tf - tb
              · have hoc := hcases' (by rw [hxr])
                rw [hxr] at H
                simp only [XF.feq_fin, decide_true, Bool.true_or, if_true, Bool.true_and] at H
                have hb : (oc != Outcome.timeLimit) = false := by simp [hoc]
                rw [hb] at H
                simp only [Bool.false_eq_true, if_false, Res.ok.injEq, Option.some.injEq] at H
                subst H
                refine ⟨[], some ⟨ta, x, oc, ta1, true, ta2⟩, ta, rfl, by simp, trivial,
                  .inr ⟨_, rfl, rfl, hvalid, rfl, .inr (.inl ⟨hoc, rfl, ?_⟩)⟩, hat0, ?_, ?_, ?_, ?_⟩
                · rw [ht2, hxr]; congr 1; ring
                · rw [← hxr]; rfl
                · rw [← hxr]; rfl
                · rw [← hxr]; rfl
                · rw [hco0]; rfl
              · have hxr' : XF.feq (.fin x) (.fin (tf - tb)) = false := by simp [hxr]
                rw [hxr'] at H
                simp only [Bool.false_or, Bool.false_and, Bool.false_eq_true, if_false] at H
                have htne : ta2.time ≠ .fin tf := by
                  rw [ht2]
                  intro h5
                  simp only [XF.fin.injEq] at h5
                  exact hxr (by linarith)
                by_cases hst : isStopping oc = true
                · rw [if_pos hst] at H
                  simp only [Res.ok.injEq, Option.some.injEq] at H
                  subst H
                  refine ⟨[], some ⟨ta, x, oc, ta1, true, ta2⟩, ta, rfl, by simp, trivial,
                    .inr ⟨_, rfl, rfl, hvalid, rfl, .inr (.inr (.inl ⟨rfl, rfl, isStopping_iff.mp hst, htne⟩))⟩, hat0, rfl, rfl,
                    rfl, ?_⟩
                  rw [hco0]; rfl
                · rw [if_neg hst] at H
                  have hst' : ¬ Stopping oc := fun h => hst (isStopping_iff.mpr h)
                  by_cases hms : (st.update oc (.fin x)).iters = maxSteps
                  · rw [if_pos hms] at H
                    simp only [Res.ok.injEq, Option.some.injEq] at H
                    subst H
                    refine ⟨[], some ⟨ta, x, oc, ta1, true, ta2⟩, ta, rfl, by simp, trivial,
                      .inr ⟨_, rfl, rfl, hvalid, rfl, .inr (.inr (.inr ⟨rfl, rfl, hst', htne, ?_⟩))⟩, hat0, rfl,
                      rfl, rfl, ?_⟩
                    · simpa [Stats.update] using hms
                    · rw [hco0]; rfl
                  · rw [if_neg hms] at H
                    split at H
                    · simp at H
                    · rw [ht2] at H
                      simp only [XF.sub_fin] at H
                      have hdir2 : tDir = decide (0 ≤ tf - (tb + x)) := by
                        rw [hdir]
                        congr 1
                        rw [eq_iff_iff]
                        constructor
                        · intro h6
                          have := (hspec.1 h6).2
                          linarith
                        · intro h6
                          by_contra h7
                          push Not at h7
                          have := (hspec.2.1 h7).1
                          have h8 : x ≠ tf - tb := hxr
                          have h9 : tf - tb < x := lt_of_le_of_ne this (Ne.symm h8)
                          linarith
                      obtain ⟨its, last, e, g1, g2, g3, g4, g5, g6, g7, g8, g9⟩ :=
                        ih (tb + x) _ c1 ta2 r ht2 hdir2 H
                      refine ⟨⟨ta, x, oc, ta1, true, ta2⟩ :: its, last, e, ⟨rfl, g1⟩, ?_, ⟨⟨rfl, hst', htne, ?_⟩,
                        ?_⟩, ?_, ?_, g6, g7, g8, ?_⟩
                      · intro it hit
                        rcases List.mem_cons.mp hit with h10 | h10
                        · rw [h10]; exact hvalid
                        · exact g2 it h10
                      · simpa [Stats.update] using hms
                      · exact g3
                      · have : st.iters + (⟨ta, x, oc, ta1, true, ta2⟩ :: its).length + 1
                            = (st.update oc (.fin x)).iters + its.length + 1 := by
                          simp only [Stats.update, List.length_cons]; omega
                        rw [this]; exact g4
                      · intro it hit
                        rw [List.cons_append] at hit
                        rcases List.mem_cons.mp hit with h10 | h10
                        · rw [h10]; exact ⟨tb, htime, ht1, ht2, htow⟩
                        · exact g5 it h10
                      · rw [g9, List.cons_append, hco]

end Heyoka.Integ
