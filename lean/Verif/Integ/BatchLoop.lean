import Verif.Integ.BatchLemmas

/-!
# The loop of `propagate_until()` in batch mode, lane by lane
-/

namespace Heyoka.Integ

set_option linter.unusedSectionVars false

variable {K W G J C V : Type*} {n : Nat} [Field K] [LinearOrder K] [IsStrictOrderedRing K]

/-- Counters after a step. -/
def LaneStats.upd (st : LaneStats K) (oc : Outcome) (h : XF K) : LaneStats K :=
  ⟨st.steps + (if h.feq (.fin 0) then 0 else 1),
    if oc = Outcome.success then st.minH.min h.abs else st.minH,
    if oc = Outcome.success then st.maxH.max h.abs else st.maxH⟩

/-- Continuous output after a step. -/
def addCOut (tcOf : W → C) (withC : Bool) (c : COutData K C) (ta : Integ K W) : COutData K C :=
  if withC then ⟨c.times ++ [ta.time], c.tcs ++ [tcOf ta.world]⟩ else c

/-- One iteration of a lane: what the batch loop computes, and the iteration of the scalar loop without callback. -/
theorem lane_iter {stepF : StepF K W} (hstep : StepOk stepF) {maxDt : XF K} (hm : MaxDtOk maxDt) {tf tb : K} {ta : Integ K W}
    (ht : ta.time = .fin tb) {dir : Bool} (hdir : dir = decide (0 ≤ tf - tb)) {withC wtc : Bool} {c : COutData K C}
    (hc : withC = true → c.times.getLast? = some (.fin tb)) {oc : Outcome} {h : XF K} {ta1 : Integ K W}
    (hs : stepF ta (dtLimit dir maxDt (.fin (tf - tb))) wtc = .ok (oc, h, ta1)) (hnf : oc ≠ Outcome.errNfState) (tcOf : W → C)
    (st : LaneStats K) :
    ∃ x, h = .fin x ∧ ta1.time = .fin (tb + x) ∧
      laneUpdate (.fin tf) ta1.time (.fin (tf - tb)) st oc h =
        .ok (if x = tf - tb then .fin 0 else .fin (tf - (tb + x)), st.upd oc h, decide (x = tf - tb)) ∧
      (x = tf - tb → oc = Outcome.timeLimit) ∧ (x ≠ tf - tb → dir = decide (0 ≤ tf - (tb + x))) ∧
      (oc = Outcome.success ∨ oc = Outcome.timeLimit ∨ Stopping oc ∨ ∃ k : ℕ, oc = k) ∧
      ∀ N fuel k, untilLoop stepF tcOf none (.fin tf) N maxDt wtc withC dir (fuel + 1) (.fin (tf - tb))
          ⟨k, st.steps, st.minH, st.maxH⟩ c ta =
        if x = tf - tb then .ok (some ⟨Outcome.timeLimit, (st.upd oc h).minH, (st.upd oc h).maxH, (st.upd oc h).steps,
          makeCOut withC (addCOut tcOf withC c ta1), ta1⟩)
        else if isStopping oc then .ok (some ⟨oc, (st.upd oc h).minH, (st.upd oc h).maxH, (st.upd oc h).steps,
          makeCOut withC (addCOut tcOf withC c ta1), ta1⟩)
        else if k + 1 = N then .ok (some ⟨Outcome.stepLimit, (st.upd oc h).minH, (st.upd oc h).maxH, (st.upd oc h).steps,
          makeCOut withC (addCOut tcOf withC c ta1), ta1⟩)
        else untilLoop stepF tcOf none (.fin tf) N maxDt wtc withC dir fuel (.fin (tf - (tb + x)))
          ⟨k + 1, (st.upd oc h).steps, (st.upd oc h).minH, (st.upd oc h).maxH⟩ (addCOut tcOf withC c ta1) ta1 := by
  obtain ⟨μ, hμ, -, -, hμm⟩ := dtLimit_spec hm (tf - tb)
  have hlim : dtLimit dir maxDt (.fin (tf - tb)) = .fin μ := by rw [hdir]; exact hμ
  have hs' := hs
  rw [hlim] at hs'
  obtain ⟨t0, x, ht0, hx, ht1, hok, hcases⟩ := hstep _ _ _ _ _ _ rfl hs' hnf
  rw [ht] at ht0
  simp only [XF.fin.injEq] at ht0
  subst ht0
  subst hx
  have hspec := h_spec hm (rem := tf - tb) (x := x) (by rw [hμ]; exact hok)
  rw [hμ] at hspec
  have hdone : x = tf - tb → oc = Outcome.timeLimit := by
    intro hxr
    have hmu := hspec.2.2.2 hxr
    rcases hcases with ⟨h1, -⟩ | ⟨-, h2⟩ | ⟨i, -, -, h3⟩
    · exact h1
    · exact absurd hmu.symm h2
    · rw [hmu] at h3; simp at h3
  have hlt : x ≠ tf - tb → (XF.abs (.fin x)).lt (XF.abs (.fin (tf - tb))) = true := by
    intro hxr
    simp only [XF.abs_fin, XF.lt_fin, decide_eq_true_eq]
    by_cases hr : 0 ≤ tf - tb
    · obtain ⟨h5, h6⟩ := hspec.1 hr
      rw [abs_of_nonneg h5, abs_of_nonneg hr]
      exact lt_of_le_of_ne h6 hxr
    · push Not at hr
      obtain ⟨h5, h6⟩ := hspec.2.1 hr
      rw [abs_of_nonpos h6, abs_of_neg hr]
      have := lt_of_le_of_ne h5 (Ne.symm hxr)
      linarith
  have hdir' : x ≠ tf - tb → dir = decide (0 ≤ tf - (tb + x)) := by
    intro hxr
    rw [hdir]
    congr 1
    rw [eq_iff_iff]
    constructor
    · intro h6
      have := (hspec.1 h6).2
      linarith
    · intro h6
      by_contra h7
      push Not at h7
      have := (hspec.2.1 h7).1
      have h9 : tf - tb < x := lt_of_le_of_ne this (Ne.symm hxr)
      linarith
  have hsign : (if dir then ta1.time.lt (.fin tb) else (XF.fin tb).lt ta1.time) = false := by
    rw [hdir, ht1]
    by_cases hr : 0 ≤ tf - tb
    · have := (hspec.1 hr).1
      simp [hr, this]
    · have := (hspec.2.1 (not_le.mp hr)).2
      simp only [hr, decide_false, Bool.false_eq_true, if_false, XF.lt_fin, decide_eq_false_iff_not, not_lt]
      linarith
  have hu : updateCOut tcOf withC dir ta1 c = .ok (addCOut tcOf withC c ta1) := by
    unfold updateCOut addCOut
    cases withC with
    | false => rfl
    | true =>
      rw [hc rfl]
      rw [ht1] at hsign ⊢
      simp only [if_true, XF.isFin_fin, Bool.not_true, Bool.false_eq_true, if_false]
      rw [hsign]
      rfl
  have hsl : (XF.le (.fin 0) (.fin (tf - tb)) != dir) = false := by rw [hdir]; simp
  refine ⟨x, rfl, ht1, ?_, hdone, hdir', ?_, ?_⟩
  · unfold laneUpdate
    rw [if_neg hnf]
    simp only
    by_cases hxr : x = tf - tb
    · rw [if_pos (show XF.feq (.fin x) (.fin (tf - tb)) = true by simp [hxr]), hdone hxr]
      simp [hxr, LaneStats.upd]
    · rw [if_neg (show ¬ XF.feq (.fin x) (.fin (tf - tb)) = true by simp [hxr]), hlt hxr, ht1]
      simp [hxr, LaneStats.upd]
  · rcases hcases with ⟨h1, -⟩ | ⟨h1, -⟩ | ⟨i, hi, h1 | h1, -⟩
    · exact .inr (.inl h1)
    · exact .inl h1
    · exact .inr (.inr (.inr ⟨i, h1⟩))
    · exact .inr (.inr (.inl ⟨i, hi, h1⟩))
  · intro N fuel k
    rw [untilLoop, hsl, hs]
    simp only [Bool.false_eq_true, if_false, Res.bind_ok, if_neg hnf, hu, runCb, Bool.not_true]
    by_cases hxr : x = tf - tb
    · simp [hxr, hdone hxr, LaneStats.upd, Stats.update]
    · have hxr' : XF.feq (.fin x) (.fin (tf - tb)) = false := by simp [hxr]
      rw [hxr', if_neg hxr]
      simp only [Bool.false_or, Bool.false_and, Bool.false_eq_true, if_false]
      by_cases hst : isStopping oc = true
      · simp only [if_pos hst]
        simp [LaneStats.upd, Stats.update]
      · simp only [if_neg hst]
        rw [hlt hxr, ht1]
        simp [LaneStats.upd, Stats.update]

/-- An iteration of the scalar loop which ends in a non-finite state. -/
theorem lane_iter_nf {stepF : StepF K W} {maxDt : XF K} {tf tb : K} {ta : Integ K W} {dir : Bool}
    (hdir : dir = decide (0 ≤ tf - tb)) {withC wtc : Bool} {c : COutData K C} {h : XF K} {ta1 : Integ K W}
    (hs : stepF ta (dtLimit dir maxDt (.fin (tf - tb))) wtc = .ok (Outcome.errNfState, h, ta1)) (tcOf : W → C)
    (st : LaneStats K) (N fuel k : Nat) :
    untilLoop stepF tcOf none (.fin tf) N maxDt wtc withC dir (fuel + 1) (.fin (tf - tb)) ⟨k, st.steps, st.minH, st.maxH⟩ c ta =
      .ok (some ⟨Outcome.errNfState, st.minH, st.maxH, st.steps, makeCOut withC c, ta1⟩) := by
  have hsl : (XF.le (.fin 0) (.fin (tf - tb)) != dir) = false := by rw [hdir]; simp
  rw [untilLoop, hsl, hs]
  simp

theorem laneUpdates_ok {f : Fin n → Res (XF K × LaneStats K × Bool)} :
    ∀ {is : List (Fin n)} {acc u : Fin n → XF K × LaneStats K × Bool}, is.Nodup → laneUpdates f is acc = .ok u →
      (∀ i ∈ is, f i = .ok (u i)) ∧ ∀ i, i ∉ is → u i = acc i := by
  intro is
  induction is with
  | nil => intro acc u _ h; simp only [laneUpdates, Res.ok.injEq] at h; subst h; simp
  | cons a is ih =>
    intro acc u hnd h
    simp only [laneUpdates] at h
    obtain ⟨hna, hnd'⟩ := List.nodup_cons.1 hnd
    cases hf : f a with
    | throw => rw [hf] at h; simp at h
    | ub => rw [hf] at h; simp at h
    | ok r =>
      rw [hf, Res.bind_ok] at h
      obtain ⟨h1, h2⟩ := ih hnd' h
      refine ⟨fun i hi => ?_, fun i hi => ?_⟩
      · rcases List.mem_cons.1 hi with rfl | hi'
        · rw [h2 i hna]; simp [hf]
        · exact h1 i hi'
      · rw [h2 i fun e => hi (List.mem_cons_of_mem _ e)]
        have hne : i ≠ a := fun e => hi (e ▸ List.mem_cons_self)
        simp [hne]

/-- A step callback which does not change the integrator. -/
def Observer (cb : BCb n K W G) : Prop :=
  (∀ B b B', cb.call B = .ok (b, B') → B'.lanes = B.lanes) ∧ ∀ B B', cb.preHook B = .ok B' → B'.lanes = B.lanes

theorem bRunCb_lanes {cb : Option (BCb n K W G)} (hcb : ∀ c, cb = some c → Observer c) {B : BInteg n K W G} {r : Bool × BInteg n K W G}
    (h : bRunCb cb B = .ok r) : r.2.lanes = B.lanes := by
  cases cb with
  | none => simp only [bRunCb, Res.ok.injEq] at h; subst h; rfl
  | some c =>
    simp only [bRunCb] at h
    cases hc : c.call B with
    | throw => rw [hc] at h; simp at h
    | ub => rw [hc] at h; simp at h
    | ok q =>
      rw [hc, Res.bind_ok] at h
      split at h
      · simp at h
      · simp only [Res.ok.injEq] at h
        subst h
        exact (hcb c rfl).1 _ _ _ hc

/-- A step of length zero, taken where an earlier step has ended, does not change what `view` shows of the state and does not fail. -/
def ZeroOk (view : W → V) (stepF : StepF K W) : Prop :=
  ∀ ta0 m wtc0 oc0 h0 ta wtc oc h ta', stepF ta0 m wtc0 = .ok (oc0, h0, ta) → oc0 ≠ Outcome.errNfState →
    stepF ta (.fin 0) wtc = .ok (oc, h, ta') → oc ≠ Outcome.errNfState ∧ view ta'.world = view ta.world

theorem dtLimit_zero {maxDt : XF K} (hm : MaxDtOk maxDt) (dir : Bool) : dtLimit dir maxDt (.fin 0) = .fin 0 := by
  rcases hm with rfl | ⟨M, rfl, hM⟩
  · cases dir <;> simp [dtLimit, XF.min, XF.max, XF.lt, XF.neg]
  · cases dir
    · simp [dtLimit, XF.max, hM]
    · simp [dtLimit, XF.min, hM]

/-- A lane which has reached its final time. -/
theorem lane_idle {stepF : StepF K W} (hstep : StepOk stepF) {view : W → V} (hz : ZeroOk view stepF) {maxDt : XF K} (hm : MaxDtOk maxDt)
    {tf : K} {ta : Integ K W} (ht : ta.time = .fin tf) (hr : ∃ ta0 m w oc0 h0, stepF ta0 m w = .ok (oc0, h0, ta) ∧ oc0 ≠ Outcome.errNfState)
    {dir wtc : Bool} {oc : Outcome} {h : XF K} {ta1 : Integ K W}
    (hs : stepF ta (dtLimit dir maxDt (.fin 0)) wtc = .ok (oc, h, ta1)) (st : LaneStats K) (t : XF K) :
    oc = Outcome.timeLimit ∧ ta1.time = .fin tf ∧ view ta1.world = view ta.world ∧
      laneUpdate t ta1.time (.fin 0) st oc h = .ok (.fin 0, st, true) := by
  rw [dtLimit_zero hm] at hs
  obtain ⟨ta0, m, w, oc0, h0, hr1, hr2⟩ := hr
  obtain ⟨hnf, hv⟩ := hz _ _ _ _ _ _ _ _ _ _ hr1 hr2 hs
  obtain ⟨t0, x, ht0, hx, ht1, hok, hcases⟩ := hstep _ _ _ _ _ _ rfl hs hnf
  obtain ⟨-, -, h3⟩ := hok x hx
  simp only [XF.abs_fin, abs_zero, XF.le_fin, decide_eq_true_eq] at h3
  have hx0 : x = 0 := abs_nonpos_iff.1 h3
  subst hx0
  rw [ht] at ht0
  simp only [XF.fin.injEq] at ht0
  subst ht0
  have hoc : oc = Outcome.timeLimit := by
    rcases hcases with ⟨h1, -⟩ | ⟨-, h2⟩ | ⟨i, -, -, h4⟩
    · exact h1
    · exact absurd hx h2
    · simp at h4
  refine ⟨hoc, by rw [ht1, add_zero], hv, ?_⟩
  subst hx
  unfold laneUpdate
  rw [if_neg hnf, hoc]
  have : ¬ Outcome.timeLimit = Outcome.success := by decide
  simp [this]

/-! ### The correspondence with scalar integrators -/

/-- The results of the lane `i` correspond to the result `rs` of a scalar integrator. -/
structure LaneMatch (view : W → V) (withC : Bool) (tf : K) (i : Fin n) (rs : UntilRes K W C) (r : BUntilRes n K W G C) : Prop where
  steps : (r.res i).steps = rs.steps
  minH : (r.res i).minH = rs.minH
  maxH : (r.res i).maxH = rs.maxH
  time : (r.B.lanes i).time = rs.ta.time
  /-- the state is the same -/
  state : view (r.B.lanes i).world = view rs.ta.world
  /-- a lane which has not reached the final time is in the same condition in all respects -/
  lane : rs.oc ≠ Outcome.timeLimit → r.B.lanes i = rs.ta
  /-- the continuous output is the same, followed by zero-length steps at the final time -/
  cOut : (∀ j, (r.res j).oc ≠ Outcome.errNfState) → withC = true → ∃ c sc, r.cOut = some c ∧ rs.cOut = some sc ∧ ∃ e1 e2,
    c.1.map (fun f => f i) = sc.times ++ e1 ∧ c.2.map (fun f => f i) = sc.tcs ++ e2 ∧ ∀ t ∈ e1, t = .fin tf

/-- The way the propagation in batch mode ended, compared with the propagations `rs` of scalar integrators limited to the
same number `N` of steps. -/
def BEnding (maxSteps N : Nat) (r : BUntilRes n K W G C) (rs : Fin n → UntilRes K W C) : Prop :=
  -- stopped by the callback
  ((∀ i, (r.res i).oc = Outcome.cbStop) ∧ ∀ i, (rs i).oc ≠ Outcome.errNfState) ∨
  -- stopped by the limit on the number of steps
  ((∀ i, (r.res i).oc = Outcome.stepLimit ∧ ((rs i).oc = Outcome.timeLimit ∨ (rs i).oc = Outcome.stepLimit)) ∧
    (∃ i, (rs i).oc = Outcome.stepLimit) ∧ N = maxSteps) ∨
  -- all the lanes have reached their final times
  (∀ i, (r.res i).oc = Outcome.timeLimit ∧ (rs i).oc = Outcome.timeLimit) ∨
  -- stopped by a non-finite state or by a terminal event of at least one lane
  ((∃ i, (rs i).oc = Outcome.errNfState ∨ Stopping (rs i).oc) ∧
    ∀ i, ((rs i).oc ≠ Outcome.stepLimit → (r.res i).oc = (rs i).oc) ∧
      ((rs i).oc = Outcome.stepLimit → (r.res i).oc = Outcome.success ∨ (r.res i).oc = Outcome.timeLimit ∨ ∃ k : ℕ, (r.res i).oc = k))

/-! ### One iteration of the loop -/

/-- A lane which is still on its way. -/
structure LaneActive (withC : Bool) (tf : K) (dir : Bool) (ta : Integ K W) (rem : XF K) (cs : COutData K C) (tb : K) : Prop where
  time : ta.time = .fin tb
  rem : rem = .fin (tf - tb)
  dir : dir = decide (0 ≤ tf - tb)
  cOut : withC = true → cs.times.getLast? = some (.fin tb)

/-- A lane which has reached its final time; `rs` is the result of the scalar integrator. -/
structure LaneDone (view : W → V) (stepF : StepF K W) (withC : Bool) (tf : K) (ta : Integ K W) (rem : XF K) (st : LaneStats K)
    (cs : COutData K C) (rs : UntilRes K W C) : Prop where
  rem : rem = .fin 0
  time : ta.time = .fin tf
  reached : ∃ ta0 m w oc0 h0, stepF ta0 m w = .ok (oc0, h0, ta) ∧ oc0 ≠ Outcome.errNfState
  oc : rs.oc = Outcome.timeLimit
  steps : st.steps = rs.steps
  minH : st.minH = rs.minH
  maxH : st.maxH = rs.maxH
  rtime : rs.ta.time = .fin tf
  state : view ta.world = view rs.ta.world
  cOut : withC = true → cs.times ≠ [] ∧ ∃ sc, rs.cOut = some sc ∧ ∃ e1 e2, cs.times = sc.times ++ e1 ∧ cs.tcs = sc.tcs ++ e2 ∧
    ∀ t ∈ e1, t = .fin tf

/-- Either of the two. -/
def LaneSt (view : W → V) (stepF : StepF K W) (withC : Bool) (tf : K) (dir act : Bool) (ta : Integ K W) (rem : XF K)
    (st : LaneStats K) (cs : COutData K C) (tb : K) (rs : UntilRes K W C) : Prop :=
  (act = true → LaneActive withC tf dir ta rem cs tb) ∧ (act = false → LaneDone view stepF withC tf ta rem st cs rs)

theorem addCOut_ne {tcOf : W → C} {withC : Bool} {c : COutData K C} {ta : Integ K W} (h : withC = true) :
    (addCOut tcOf withC c ta).times ≠ [] := by
  simp [addCOut, h]

theorem makeCOut_add {tcOf : W → C} {withC : Bool} {c : COutData K C} {ta : Integ K W} (h : withC = true) (hc : c.times ≠ []) :
    makeCOut withC (addCOut tcOf withC c ta) = some (addCOut tcOf withC c ta) := by
  have := List.length_pos_iff.2 hc
  simp only [makeCOut, addCOut, h, if_true, List.length_append, List.length_singleton]
  rw [if_neg (by omega)]

theorem lane_step {view : W → V} {stepF : StepF K W} (hstep : StepOk stepF) (hz : ZeroOk view stepF) {maxDt : XF K}
    (hm : MaxDtOk maxDt) {withC wtc : Bool} {tf : K} {dir act : Bool} {ta : Integ K W} {rem : XF K} {st : LaneStats K}
    {cs : COutData K C} {tb : K} {rs : UntilRes K W C} (hl : LaneSt view stepF withC tf dir act ta rem st cs tb rs) {oc : Outcome}
    {h : XF K} {ta1 : Integ K W} (hs : stepF ta (dtLimit dir maxDt rem) wtc = .ok (oc, h, ta1))
    (hnf : oc ≠ Outcome.errNfState) (tcOf : W → C) :
    ∃ act1 tb1 rs1 rem1 st1, laneUpdate (.fin tf) ta1.time rem st oc h = .ok (rem1, st1, !act1) ∧
      LaneSt view stepF withC tf dir act1 ta1 rem1 st1 (addCOut tcOf withC cs ta1) tb1 rs1 ∧
      (act = false → act1 = false ∧ rs1 = rs) ∧ (act1 = false → oc = Outcome.timeLimit) ∧
      (oc = Outcome.success ∨ oc = Outcome.timeLimit ∨ Stopping oc ∨ ∃ k : ℕ, oc = k) ∧
      (withC = true → cs.times ≠ []) ∧ (∃ y, ta1.time = .fin y) ∧
      (withC = true → ∀ prev, cs.times.getLast? = some prev → ta.time = prev →
        (if dir then ta1.time.lt prev else prev.lt ta1.time) = false) ∧
      (act = true → ∀ N fuel k, untilLoop stepF tcOf none (.fin tf) N maxDt wtc withC dir (fuel + 1) rem
          ⟨k, st.steps, st.minH, st.maxH⟩ cs ta =
        if act1 = false then .ok (some rs1)
        else if isStopping oc then .ok (some ⟨oc, st1.minH, st1.maxH, st1.steps, makeCOut withC (addCOut tcOf withC cs ta1), ta1⟩)
        else if k + 1 = N then
          .ok (some ⟨Outcome.stepLimit, st1.minH, st1.maxH, st1.steps, makeCOut withC (addCOut tcOf withC cs ta1), ta1⟩)
        else untilLoop stepF tcOf none (.fin tf) N maxDt wtc withC dir fuel rem1
          ⟨k + 1, st1.steps, st1.minH, st1.maxH⟩ (addCOut tcOf withC cs ta1) ta1) := by
  cases act with
  | false =>
    have hd := hl.2 rfl
    have hs' := hs
    rw [hd.rem] at hs'
    obtain ⟨h1, h2, h3, h4⟩ := lane_idle hstep hz hm hd.time hd.reached hs' st (.fin tf)
    refine ⟨false, tb, rs, .fin 0, st, by rw [hd.rem]; exact h4, ⟨by simp, fun _ => ?_⟩, fun _ => ⟨rfl, rfl⟩, fun _ => h1, .inr (.inl h1),
      fun hw => (hd.cOut hw).1, ⟨_, h2⟩, ?_, by simp⟩
    · refine ⟨rfl, h2, ⟨_, _, _, _, _, hs, hnf⟩, hd.oc, hd.steps, hd.minH, hd.maxH, hd.rtime, h3.trans hd.state, fun hw => ?_⟩
      obtain ⟨-, sc, g1, e1, e2, g2, g3, g4⟩ := hd.cOut hw
      refine ⟨addCOut_ne hw, sc, g1, e1 ++ [ta1.time], e2 ++ [tcOf ta1.world], ?_, ?_, ?_⟩
      · simp [addCOut, hw, g2]
      · simp [addCOut, hw, g3]
      · intro t ht
        rcases List.mem_append.1 ht with ht | ht
        · exact g4 t ht
        · simp only [List.mem_singleton] at ht; rw [ht, h2]
    · intro hw prev _ hp
      rw [← hp, hd.time, h2]
      simp
  | true =>
    obtain ⟨ht, hr, hdir, hc⟩ := hl.1 rfl
    subst hr
    obtain ⟨x, hx, ht1, hu, hdone, hdir1, hoc, hloop⟩ := lane_iter hstep hm ht hdir hc hs hnf tcOf st
    have hne : withC = true → cs.times ≠ [] := by
      intro hw e
      have := hc hw
      rw [e] at this
      simp at this
    have hsgn : withC = true → ∀ prev, cs.times.getLast? = some prev → ta.time = prev →
        (if dir then ta1.time.lt prev else prev.lt ta1.time) = false := by
      intro hw prev _ hp
      rw [← hp, ht]
      obtain ⟨μ, hμ, -, -, hμm⟩ := dtLimit_spec hm (tf - tb)
      have hs' := hs
      rw [hdir, hμ] at hs'
      obtain ⟨t0, x', ht0, hx', ht1', hok, -⟩ := hstep _ _ _ _ _ _ rfl hs' hnf
      rw [hx] at hx'
      simp only [XF.fin.injEq] at hx'
      subst hx'
      subst hx
      have hspec := h_spec hm (rem := tf - tb) (x := x) (by rw [hμ]; exact hok)
      rw [hdir, ht1]
      by_cases hr : 0 ≤ tf - tb
      · have := (hspec.1 hr).1
        simp [hr, this]
      · have := (hspec.2.1 (not_le.mp hr)).2
        simp only [hr, decide_false, Bool.false_eq_true, if_false, XF.lt_fin, decide_eq_false_iff_not, not_lt]
        linarith
    by_cases hxr : x = tf - tb
    · refine ⟨false, tb, ⟨Outcome.timeLimit, (st.upd oc h).minH, (st.upd oc h).maxH, (st.upd oc h).steps,
          makeCOut withC (addCOut tcOf withC cs ta1), ta1⟩, .fin 0, st.upd oc h, ?_, ⟨by simp, fun _ => ?_⟩, by simp,
          fun _ => hdone hxr, hoc, hne, ⟨_, ht1⟩, hsgn, fun _ N fuel k => ?_⟩
      · rw [hu]; simp [hxr]
      · have htf : ta1.time = .fin tf := by rw [ht1, hxr]; simp
        refine ⟨rfl, htf, ⟨_, _, _, _, _, hs, hnf⟩, rfl, rfl, rfl, rfl, htf, rfl, fun hw => ⟨addCOut_ne hw, _, makeCOut_add hw (hne hw),
          [], [], by simp, by simp, by simp⟩⟩
      · rw [hloop, if_pos hxr, if_pos rfl]
    · refine ⟨true, tb + x, rs, .fin (tf - (tb + x)), st.upd oc h, ?_, ⟨fun _ => ⟨ht1, rfl, hdir1 hxr, fun hw => ?_⟩, by simp⟩, by simp,
          by simp, hoc, hne, ⟨_, ht1⟩, hsgn, fun _ N fuel k => ?_⟩
      · rw [hu]; simp [hxr]
      · simp [addCOut, hw, ht1]
      · rw [hloop, if_neg hxr]
        simp

/-- The continuous output of a lane. -/
def laneC (c : List (Fin n → XF K) × List (Fin n → C)) (i : Fin n) : COutData K C :=
  ⟨c.1.map fun f => f i, c.2.map fun f => f i⟩

theorem bUpdateCOut_ok {tcOf : W → C} {withC : Bool} {dir : Fin n → Bool} {B : BInteg n K W G}
    {c c1 : List (Fin n → XF K) × List (Fin n → C)} (h : bUpdateCOut tcOf withC dir B c = .ok c1) :
    (∀ i, laneC c1 i = addCOut tcOf withC (laneC c i) (B.lanes i)) ∧
      (withC = true → c1.1.getLast? = some (fun i => (B.lanes i).time) ∧ 2 ≤ c1.1.length) := by
  unfold bUpdateCOut at h
  cases withC with
  | false =>
    simp only [Bool.false_eq_true, if_false, Res.ok.injEq] at h
    subst h
    exact ⟨fun i => by simp [addCOut], by simp⟩
  | true =>
    simp only [if_true] at h
    cases hl : c.1.getLast? with
    | none => simp [hl] at h
    | some prev =>
      simp only [hl] at h
      split at h
      · simp at h
      · simp only [Res.ok.injEq] at h
        subst h
        refine ⟨fun i => by simp [laneC, addCOut], fun _ => ⟨by simp, ?_⟩⟩
        have : c.1 ≠ [] := by intro e; simp [e] at hl
        have := List.length_pos_iff.2 this
        simp
        omega

/-- The loop of the batch integrator is the loop of the scalar integrator on each lane. -/
theorem bUntil_lanes {bstep : BStepF n K W G} {stepF : Fin n → StepF K W} (hlw : LaneWise bstep stepF)
    (hstep : ∀ i, StepOk (stepF i)) {view : W → V} (hz : ∀ i, ZeroOk view (stepF i)) {tcOf : W → C} {cb : Option (BCb n K W G)}
    (hcb : ∀ c, cb = some c → Observer c) {tf : Fin n → K} {maxSteps : Nat} {maxDts : Fin n → XF K} (hm : ∀ i, MaxDtOk (maxDts i))
    {wtc withC : Bool} {dir : Fin n → Bool} {r : BUntilRes n K W G C} :
    ∀ (fuel iters : Nat) (rem : Fin n → XF K) (st : Fin n → LaneStats K) (c : List (Fin n → XF K) × List (Fin n → C))
      (B : BInteg n K W G) (act : Fin n → Bool) (tb : Fin n → K) (rs0 : Fin n → UntilRes K W C),
      (∀ i, LaneSt view (stepF i) withC (tf i) (dir i) (act i) (B.lanes i) (rem i) (st i) (laneC c i) (tb i) (rs0 i)) →
      (maxSteps = 0 ∨ iters < maxSteps) →
      bUntilLoop bstep tcOf cb (fun i => .fin (tf i)) maxSteps maxDts wtc withC dir fuel iters rem st c B = .ok (some r) →
      ∃ N rs, iters < N ∧ (0 < maxSteps → N ≤ maxSteps) ∧ (∀ i, act i = false → rs i = rs0 i) ∧
        (∀ i, act i = true → untilLoop (stepF i) tcOf none (.fin (tf i)) N (maxDts i) wtc withC (dir i) fuel (rem i)
          ⟨iters, (st i).steps, (st i).minH, (st i).maxH⟩ (laneC c i) (B.lanes i) = .ok (some (rs i))) ∧
        (∀ i, LaneMatch view withC (tf i) i (rs i) r) ∧ BEnding maxSteps N r rs := by
  intro fuel
  induction fuel with
  | zero => intro iters rem st c B act tb rs0 _ _ h; simp [bUntilLoop] at h
  | succ fuel ih =>
    intro iters rem st c B act tb rs0 hl hms H
    rw [bUntilLoop] at H
    split at H
    · simp at H
    cases hb : bstep B (fun i => dtLimit (dir i) (maxDts i) (rem i)) wtc with
    | throw => rw [hb] at H; simp at H
    | ub => rw [hb] at H; simp at H
    | ok q =>
    obtain ⟨res, B1⟩ := q
    rw [hb, Res.bind_ok] at H
    have hnan : ∀ i, (dtLimit (dir i) (maxDts i) (rem i)).isNan = false := by
      intro i
      cases ha : act i with
      | true =>
        obtain ⟨-, hr, hd, -⟩ := (hl i).1 ha
        obtain ⟨μ, hμ, -⟩ := dtLimit_spec (hm i) (tf i - tb i)
        rw [hr, hd, hμ]
        rfl
      | false => rw [((hl i).2 ha).rem, dtLimit_zero (hm i)]; rfl
    have hs := hlw _ _ _ _ _ hnan hb
    dsimp only at H hs
    cases hu : laneUpdates (fun i => laneUpdate (.fin (tf i)) (B1.lanes i).time (rem i) (st i) (res i).1 (res i).2) (List.finRange n)
        (fun i => (rem i, st i, false)) with
    | throw => rw [hu] at H; simp at H
    | ub => rw [hu] at H; simp at H
    | ok u =>
    rw [hu, Res.bind_ok] at H
    have hu1 : ∀ i, laneUpdate (.fin (tf i)) (B1.lanes i).time (rem i) (st i) (res i).1 (res i).2 = .ok (u i) :=
      fun i => (laneUpdates_ok (List.nodup_finRange n) hu).1 i (List.mem_finRange i)
    -- the lanes after the step
    have hP : ∀ i, ∃ act1 tb1 rs1, (res i).1 ≠ Outcome.errNfState → (u i).2.2 = !act1 ∧
        LaneSt view (stepF i) withC (tf i) (dir i) act1 (B1.lanes i) (u i).1 (u i).2.1 (addCOut tcOf withC (laneC c i) (B1.lanes i)) tb1 rs1 ∧
        (act i = false → act1 = false ∧ rs1 = rs0 i) ∧ (act1 = false → (res i).1 = Outcome.timeLimit) ∧
        ((res i).1 = Outcome.success ∨ (res i).1 = Outcome.timeLimit ∨ Stopping (res i).1 ∨ ∃ k : ℕ, (res i).1 = k) ∧
        (withC = true → (laneC c i).times ≠ []) ∧
        (act i = true → ∀ N fuel k, untilLoop (stepF i) tcOf none (.fin (tf i)) N (maxDts i) wtc withC (dir i) (fuel + 1) (rem i)
            ⟨k, (st i).steps, (st i).minH, (st i).maxH⟩ (laneC c i) (B.lanes i) =
          if act1 = false then .ok (some rs1)
          else if isStopping (res i).1 then .ok (some ⟨(res i).1, (u i).2.1.minH, (u i).2.1.maxH, (u i).2.1.steps,
            makeCOut withC (addCOut tcOf withC (laneC c i) (B1.lanes i)), B1.lanes i⟩)
          else if k + 1 = N then
            .ok (some ⟨Outcome.stepLimit, (u i).2.1.minH, (u i).2.1.maxH, (u i).2.1.steps,
              makeCOut withC (addCOut tcOf withC (laneC c i) (B1.lanes i)), B1.lanes i⟩)
          else untilLoop (stepF i) tcOf none (.fin (tf i)) N (maxDts i) wtc withC (dir i) fuel (u i).1
            ⟨k + 1, (u i).2.1.steps, (u i).2.1.minH, (u i).2.1.maxH⟩ (addCOut tcOf withC (laneC c i) (B1.lanes i)) (B1.lanes i)) := by
      intro i
      by_cases hnf : (res i).1 = Outcome.errNfState
      · exact ⟨true, tb i, rs0 i, fun h => absurd hnf h⟩
      · obtain ⟨act1, tb1, rs1, rem1, st1, g1, g2, g3, g4, g5, g6, -, -, g9⟩ := lane_step (hstep i) (hz i) (hm i) (hl i) (hs i) hnf tcOf
        rw [hu1 i] at g1
        have e := Res.ok.inj g1
        refine ⟨act1, tb1, rs1, fun _ => ⟨by rw [e], by rw [e]; exact g2, g3, g4, g5, g6, ?_⟩⟩
        rw [e]
        exact g9
    choose act1 tb1 rs1 hP using hP
    -- the lanes which have failed
    have hF : ∀ i, (res i).1 = Outcome.errNfState → act i = true ∧ (u i).2.1 = st i ∧ ∀ N fuel k,
        untilLoop (stepF i) tcOf none (.fin (tf i)) N (maxDts i) wtc withC (dir i) (fuel + 1) (rem i)
          ⟨k, (st i).steps, (st i).minH, (st i).maxH⟩ (laneC c i) (B.lanes i) =
        .ok (some ⟨Outcome.errNfState, (st i).minH, (st i).maxH, (st i).steps, makeCOut withC (laneC c i), B1.lanes i⟩) := by
      intro i hnf
      have hact : act i = true := by
        by_contra hact
        have hd := (hl i).2 (by simpa using hact)
        have hsi := hs i
        rw [hd.rem] at hsi
        have := (lane_idle (hstep i) (hz i) (hm i) hd.time hd.reached hsi (st i) (.fin (tf i))).1
        rw [hnf] at this
        exact absurd this (by decide)
      obtain ⟨-, hr, hd, -⟩ := (hl i).1 hact
      refine ⟨hact, ?_, fun N fuel k => ?_⟩
      · have := hu1 i
        rw [laneUpdate, if_pos hnf] at this
        rw [← Res.ok.inj this]
      · have hsi := hs i
        rw [hnf, hr] at hsi
        rw [hr]
        exact lane_iter_nf hd hsi tcOf (st i) N fuel k
    -- the results of the scalar integrators if the loop ends here
    let rsE : Fin n → UntilRes K W C := fun i =>
      if (res i).1 = Outcome.errNfState then
        ⟨Outcome.errNfState, (st i).minH, (st i).maxH, (st i).steps, makeCOut withC (laneC c i), B1.lanes i⟩
      else if act1 i = false then rs1 i
      else ⟨if isStopping (res i).1 then (res i).1 else Outcome.stepLimit, (u i).2.1.minH, (u i).2.1.maxH, (u i).2.1.steps,
        makeCOut withC (addCOut tcOf withC (laneC c i) (B1.lanes i)), B1.lanes i⟩
    have hE0 : ∀ i, act i = false → rsE i = rs0 i := by
      intro i ha
      have hnf : (res i).1 ≠ Outcome.errNfState := fun e => by rw [(hF i e).1] at ha; simp at ha
      obtain ⟨-, -, g3, -⟩ := hP i hnf
      simp only [rsE, if_neg hnf, (g3 ha).1, if_true, (g3 ha).2]
    have hE1 : ∀ i, act i = true → untilLoop (stepF i) tcOf none (.fin (tf i)) (iters + 1) (maxDts i) wtc withC (dir i) (fuel + 1) (rem i)
          ⟨iters, (st i).steps, (st i).minH, (st i).maxH⟩ (laneC c i) (B.lanes i) = .ok (some (rsE i)) := by
      intro i ha
      by_cases hnf : (res i).1 = Outcome.errNfState
      · rw [(hF i hnf).2.2]
        simp only [rsE, if_pos hnf]
      · rw [(hP i hnf).2.2.2.2.2.2 ha]
        simp only [rsE, if_neg hnf, if_true]
        by_cases h1 : act1 i = false
        · rw [if_pos h1, if_pos h1]
        · rw [if_neg h1, if_neg h1]
          by_cases h2 : isStopping (res i).1 = true
          · rw [if_pos h2, if_pos h2]
          · rw [if_neg h2, if_neg h2]
    have hEoc : ∀ i, (rsE i).oc = if (res i).1 = Outcome.errNfState then Outcome.errNfState else if act1 i = false then Outcome.timeLimit
        else if isStopping (res i).1 then (res i).1 else Outcome.stepLimit := by
      intro i
      by_cases hnf : (res i).1 = Outcome.errNfState
      · simp only [rsE, if_pos hnf]
      · simp only [rsE, if_neg hnf]
        by_cases h1 : act1 i = false
        · rw [if_pos h1, if_pos h1]
          exact ((hP i hnf).2.1.2 h1).oc
        · rw [if_neg h1, if_neg h1]
    have hEm : ∀ r' : BUntilRes n K W G C, (∀ i, (r'.res i).steps = (u i).2.1.steps ∧ (r'.res i).minH = (u i).2.1.minH ∧
        (r'.res i).maxH = (u i).2.1.maxH) → r'.B.lanes = B1.lanes →
        ((∀ j, (r'.res j).oc ≠ Outcome.errNfState) → withC = true → ∃ c1, r'.cOut = some c1 ∧
          ∀ i, laneC c1 i = addCOut tcOf withC (laneC c i) (B1.lanes i)) →
        ((∃ j, (res j).1 = Outcome.errNfState) → ∃ j, (r'.res j).oc = Outcome.errNfState) →
        ∀ i, LaneMatch view withC (tf i) i (rsE i) r' := by
      intro r' h1 h2 h3 h4 i
      obtain ⟨k1, k2, k3⟩ := h1 i
      by_cases hnf : (res i).1 = Outcome.errNfState
      · have hst := (hF i hnf).2.1
        simp only [rsE, if_pos hnf]
        refine ⟨by rw [k1, hst], by rw [k2, hst], by rw [k3, hst], by rw [h2], by rw [h2], fun _ => by rw [h2], fun hj => ?_⟩
        obtain ⟨j, hj'⟩ := h4 ⟨i, hnf⟩
        exact absurd hj' (hj j)
      · simp only [rsE, if_neg hnf]
        by_cases h5 : act1 i = false
        · rw [if_pos h5]
          have hd := (hP i hnf).2.1.2 h5
          refine ⟨k1.trans hd.steps, k2.trans hd.minH, k3.trans hd.maxH, by rw [h2, hd.time, hd.rtime], by rw [h2]; exact hd.state,
            fun h => absurd hd.oc h, fun hj hw => ?_⟩
          obtain ⟨c1, m1, m2⟩ := h3 hj hw
          obtain ⟨-, sc, g1, e1, e2, g2, g3, g4⟩ := hd.cOut hw
          rw [← m2 i] at g2 g3
          exact ⟨c1, sc, m1, g1, e1, e2, g2, g3, g4⟩
        · rw [if_neg h5]
          refine ⟨k1, k2, k3, by rw [h2], by rw [h2], fun _ => by rw [h2], fun hj hw => ?_⟩
          obtain ⟨c1, m1, m2⟩ := h3 hj hw
          refine ⟨c1, _, m1, makeCOut_add hw ((hP i hnf).2.2.2.2.2.1 hw), [], [], ?_, ?_, by simp⟩
          · rw [List.append_nil, ← m2 i]; rfl
          · rw [List.append_nil, ← m2 i]; rfl
    have hN : 0 < maxSteps → iters + 1 ≤ maxSteps := by omega
    by_cases hany : ∃ i, (res i).1 = Outcome.errNfState
    · -- a lane has failed
      rw [if_pos (by simpa using hany)] at H
      have e := Option.some.inj (Res.ok.inj H)
      refine ⟨iters + 1, rsE, by omega, hN, hE0, hE1, hEm r ?_ ?_ ?_ ?_, .inr (.inr (.inr ⟨?_, fun i => ⟨fun h => ?_, fun h => ?_⟩⟩))⟩
      · intro i; rw [← e]; exact ⟨rfl, rfl, rfl⟩
      · rw [← e]
      · intro hj
        obtain ⟨j, hj'⟩ := hany
        have := hj j
        rw [← e] at this
        exact absurd hj' this
      · rintro ⟨j, hj⟩; exact ⟨j, by rw [← e]; exact hj⟩
      · obtain ⟨j, hj⟩ := hany
        exact ⟨j, .inl (by rw [hEoc, if_pos hj])⟩
      · rw [← e]
        simp only
        rw [hEoc] at h ⊢
        by_cases hnf : (res i).1 = Outcome.errNfState
        · rw [if_pos hnf, hnf]
        · rw [if_neg hnf] at h ⊢
          by_cases h5 : act1 i = false
          · rw [if_pos h5]; exact (hP i hnf).2.2.2.1 h5
          · rw [if_neg h5] at h ⊢
            by_cases h6 : isStopping (res i).1 = true
            · rw [if_pos h6]
            · rw [if_neg h6] at h; exact absurd rfl h
      · rw [← e]
        simp only
        rw [hEoc] at h
        by_cases hnf : (res i).1 = Outcome.errNfState
        · rw [if_pos hnf] at h; exact absurd h (by decide)
        · rw [if_neg hnf] at h
          by_cases h5 : act1 i = false
          · rw [if_pos h5] at h; exact absurd h (by decide)
          · rw [if_neg h5] at h
            by_cases h6 : isStopping (res i).1 = true
            · rw [if_pos h6] at h
              obtain ⟨k, hk, hk'⟩ := isStopping_iff.1 h6
              rw [hk'] at h
              have h' : -(k : Int) - 1 = -4294967296 - 2 := h
              omega
            · rcases (hP i hnf).2.2.2.2.1 with g | g | g | g
              · exact .inl g
              · exact .inr (.inl g)
              · exact absurd (isStopping_iff.2 g) h6
              · exact .inr (.inr g)
    · rw [if_neg (by simpa using hany)] at H
      push Not at hany
      cases hc1 : bUpdateCOut tcOf withC dir B1 c with
      | throw => rw [hc1] at H; simp at H
      | ub => rw [hc1] at H; simp at H
      | ok c1 =>
      rw [hc1, Res.bind_ok] at H
      obtain ⟨hcl, hcl2⟩ := bUpdateCOut_ok hc1
      have hmk : withC = true → bMakeCOut withC c1 = some c1 := by
        intro hw
        have := (hcl2 hw).2
        simp only [bMakeCOut, hw, if_true]
        rw [if_neg (by omega)]
      cases hrc : bRunCb cb B1 with
      | throw => rw [hrc] at H; simp at H
      | ub => rw [hrc] at H; simp at H
      | ok rc =>
      rw [hrc, Res.bind_ok] at H
      have hB2 := bRunCb_lanes hcb hrc
      obtain ⟨b, B2⟩ := rc
      dsimp only at H hB2
      have hnone : ¬ ∃ j, (res j).1 = Outcome.errNfState := by rintro ⟨j, hj⟩; exact hany j hj
      cases b with
      | false =>
        rw [if_pos (by rfl)] at H
        have e := Option.some.inj (Res.ok.inj H)
        refine ⟨iters + 1, rsE, by omega, hN, hE0, hE1, hEm r ?_ ?_ ?_ (fun h => absurd h hnone), .inl ⟨?_, ?_⟩⟩
        · intro i; rw [← e]; exact ⟨rfl, rfl, rfl⟩
        · rw [← e]; exact hB2
        · intro _ hw; exact ⟨c1, by rw [← e]; exact hmk hw, hcl⟩
        · intro i; rw [← e]
        · intro i
          rw [hEoc, if_neg (hany i)]
          split
          · decide
          · split
            · exact hany i
            · decide
      | true =>
        rw [if_neg (by simp)] at H
        have hdn : ∀ i, (u i).2.2 = !act1 i := fun i => (hP i (hany i)).1
        by_cases hfin : (((List.finRange n).all fun i => (u i).2.2) || ((List.finRange n).any fun i => isStopping (res i).1)) = true
        · rw [if_pos hfin] at H
          have e := Option.some.inj (Res.ok.inj H)
          refine ⟨iters + 1, rsE, by omega, hN, hE0, hE1, hEm r ?_ ?_ ?_ (fun h => absurd h hnone), ?_⟩
          · intro i; rw [← e]; exact ⟨rfl, rfl, rfl⟩
          · rw [← e]; exact hB2
          · intro _ hw; exact ⟨c1, by rw [← e]; exact hmk hw, hcl⟩
          · rcases Bool.or_eq_true_iff.1 hfin with hall | hst
            · refine .inr (.inr (.inl fun i => ?_))
              have ha : act1 i = false := by
                have := List.all_eq_true.1 hall i (List.mem_finRange i)
                rw [hdn i] at this
                simpa using this
              refine ⟨?_, by rw [hEoc, if_neg (hany i), if_pos ha]⟩
              rw [← e]
              exact (hP i (hany i)).2.2.2.1 ha
            · refine .inr (.inr (.inr ⟨?_, fun i => ⟨fun h => ?_, fun h => ?_⟩⟩))
              · obtain ⟨j, -, hj⟩ := List.any_eq_true.1 hst
                refine ⟨j, .inr ?_⟩
                have ha : act1 j ≠ false := by
                  intro ha
                  rw [(hP j (hany j)).2.2.2.1 ha] at hj
                  exact absurd hj (by decide)
                rw [hEoc, if_neg (hany j), if_neg ha, if_pos hj]
                exact isStopping_iff.1 hj
              · rw [← e]
                simp only
                rw [hEoc, if_neg (hany i)] at h ⊢
                by_cases h5 : act1 i = false
                · rw [if_pos h5]; exact (hP i (hany i)).2.2.2.1 h5
                · rw [if_neg h5] at h ⊢
                  by_cases h6 : isStopping (res i).1 = true
                  · rw [if_pos h6]
                  · rw [if_neg h6] at h; exact absurd rfl h
              · rw [← e]
                simp only
                rw [hEoc, if_neg (hany i)] at h
                by_cases h5 : act1 i = false
                · rw [if_pos h5] at h; exact absurd h (by decide)
                · rw [if_neg h5] at h
                  by_cases h6 : isStopping (res i).1 = true
                  · rw [if_pos h6] at h
                    obtain ⟨k, hk, hk'⟩ := isStopping_iff.1 h6
                    rw [hk'] at h
                    have h' : -(k : Int) - 1 = -4294967296 - 2 := h
                    omega
                  · rcases (hP i (hany i)).2.2.2.2.1 with g | g | g | g
                    · exact .inl g
                    · exact .inr (.inl g)
                    · exact absurd (isStopping_iff.2 g) h6
                    · exact .inr (.inr g)
        · rw [if_neg hfin] at H
          have hfin' := hfin
          simp only [Bool.or_eq_true, not_or] at hfin'
          obtain ⟨hf1, hf2⟩ := hfin'
          have hnst : ∀ i, ¬ isStopping (res i).1 = true := fun i hi =>
            hf2 (List.any_eq_true.2 ⟨i, List.mem_finRange i, hi⟩)
          have hex : ∃ i, act1 i ≠ false := by
            by_contra hno
            push Not at hno
            exact hf1 (List.all_eq_true.2 fun i _ => by rw [hdn i, hno i]; rfl)
          by_cases hmx : iters + 1 = maxSteps
          · rw [if_pos hmx] at H
            have e := Option.some.inj (Res.ok.inj H)
            refine ⟨iters + 1, rsE, by omega, hN, hE0, hE1, hEm r ?_ ?_ ?_ (fun h => absurd h hnone), .inr (.inl ⟨fun i => ⟨?_, ?_⟩, ?_, hmx⟩)⟩
            · intro i; rw [← e]; exact ⟨rfl, rfl, rfl⟩
            · rw [← e]; exact hB2
            · intro _ hw; exact ⟨c1, by rw [← e]; exact hmk hw, hcl⟩
            · rw [← e]
            · rw [hEoc, if_neg (hany i)]
              by_cases h5 : act1 i = false
              · rw [if_pos h5]; exact .inl rfl
              · rw [if_neg h5, if_neg (hnst i)]; exact .inr rfl
            · obtain ⟨i, hi⟩ := hex
              exact ⟨i, by rw [hEoc, if_neg (hany i), if_neg hi, if_neg (hnst i)]⟩
          · rw [if_neg hmx] at H
            obtain ⟨N, rs, k1, k2, k3, k4, k5, k6⟩ := ih (iters + 1) _ _ c1 B2 act1 tb1 rs1
              (fun i => by rw [hcl i, hB2]; exact (hP i (hany i)).2.1) (by omega) H
            refine ⟨N, rs, by omega, k2, ?_, ?_, k5, k6⟩
            · intro i ha
              obtain ⟨g1, g2⟩ := (hP i (hany i)).2.2.1 ha
              rw [k3 i g1, g2]
            · intro i ha
              rw [(hP i (hany i)).2.2.2.2.2.2 ha]
              by_cases h5 : act1 i = false
              · rw [if_pos h5, k3 i h5]
              · rw [if_neg h5, if_neg (hnst i), if_neg (by omega)]
                have := k4 i (by simpa using h5)
                rw [hcl i, hB2] at this
                exact this

end Heyoka.Integ
