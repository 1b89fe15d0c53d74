import Verif.Integ.BatchGrid
import Verif.Integ.BatchLoop
import Verif.Integ.GridLemmas

/-!
# The loop of `propagate_grid()` in batch mode, lane by lane
-/

namespace Heyoka.Integ

set_option linter.unusedSectionVars false

variable {K W G J C V S : Type*} {n : Nat} [Field K] [LinearOrder K] [IsStrictOrderedRing K]

/-! ### The inner loop -/

theorem gridInner_length (dense : Integ K W → XF K → S) (ta : Integ K W) (t0 t1 rem : XF K) :
    ∀ gs, (gridInner dense ta t0 t1 rem gs).2.length ≤ gs.length := by
  intro gs
  induction gs with
  | nil => simp [gridInner]
  | cons g gs ih =>
    rw [gridInner]
    split
    · simp only [List.length_cons]; omega
    · simp

theorem gridInner_last (dense : Integ K W → XF K → S) (ta : Integ K W) (t0 t1 rem : XF K) :
    ∀ gs, (gridInner dense ta t0 t1 rem gs).2 ≠ [] → (gridInner dense ta t0 t1 rem gs).2.getLast? = gs.getLast? := by
  intro gs
  induction gs with
  | nil => simp [gridInner]
  | cons g gs ih =>
    rw [gridInner]
    split
    · intro h
      have h' : (gridInner dense ta t0 t1 rem gs).2 ≠ [] := h
      have hgs : gs ≠ [] := by rintro rfl; simp [gridInner] at h'
      rw [ih h', List.getLast?_cons_of_ne_nil hgs]
    · simp

theorem gridInner_zero (dense : Integ K W → XF K → S) (ta : Integ K W) (t0 t1 : XF K) :
    ∀ gs, (gridInner dense ta t0 t1 (.fin 0) gs).2 = [] := by
  intro gs
  induction gs with
  | nil => simp [gridInner]
  | cons g gs ih => rw [gridInner, if_pos (by simp)]; exact ih

/-- Whatever is left includes the last point, if that is out of range. -/
theorem gridInner_left (dense : Integ K W → XF K → S) (ta : Integ K W) {t0 t1 rem gl : XF K} (hr : rem.feq (.fin 0) = false)
    (hl : (t0.le gl && gl.le t1) = false) : ∀ gs, gs.getLast? = some gl → (gridInner dense ta t0 t1 rem gs).2 ≠ [] := by
  intro gs
  induction gs with
  | nil => simp
  | cons g gs ih =>
    intro h
    rw [gridInner]
    split
    · rename_i hc
      rw [hr, Bool.or_false] at hc
      cases gs with
      | nil =>
        simp only [List.getLast?_singleton, Option.some.injEq] at h
        rw [h, hl] at hc
        simp at hc
      | cons g' gs => exact ih (by simpa using h)
    · simp

/-- The inner loop of the batch integrator is the inner loop of the scalar one on each lane. -/
theorem bGridInner_lanes (dense : Integ K W → XF K → S) (B : BInteg n K W G) (t0 t1 rem : Fin n → XF K) :
    ∀ (fuel : Nat) (flags : Fin n → Bool) (out : Fin n → List S) (gs : Fin n → List (XF K)), 0 < fuel →
      (∀ i, flags i = true → (gs i).length < fuel) →
      bGridInner dense B t0 t1 rem fuel flags out gs =
        some (fun i => if flags i then out i ++ (gridInner dense (B.lanes i) (t0 i) (t1 i) (rem i) (gs i)).1 else out i,
          fun i => if flags i then (gridInner dense (B.lanes i) (t0 i) (t1 i) (rem i) (gs i)).2 else gs i) := by
  intro fuel
  induction fuel with
  | zero => intro _ _ _ h; omega
  | succ fuel ih =>
    intro flags out gs _ hlen
    rw [bGridInner]
    simp only
    -- a lane which is not flagged
    have hno : ∀ i, flags i = true → gridFlag t0 t1 rem flags gs i = false →
        gridInner dense (B.lanes i) (t0 i) (t1 i) (rem i) (gs i) = ([], gs i) := by
      intro i hf hfl
      unfold gridFlag at hfl
      rw [hf, Bool.true_and] at hfl
      cases hg : gs i with
      | nil => rfl
      | cons g l =>
        rw [hg] at hfl
        simp only at hfl
        rw [gridInner, if_neg (by rw [hfl]; simp)]
    have hyes : ∀ i, gridFlag t0 t1 rem flags gs i = true → flags i = true ∧ ∃ g l, gs i = g :: l ∧
        gridInner dense (B.lanes i) (t0 i) (t1 i) (rem i) (gs i) =
          (dense (B.lanes i) g :: (gridInner dense (B.lanes i) (t0 i) (t1 i) (rem i) l).1,
            (gridInner dense (B.lanes i) (t0 i) (t1 i) (rem i) l).2) := by
      intro i hfl
      unfold gridFlag at hfl
      rw [Bool.and_eq_true] at hfl
      refine ⟨hfl.1, ?_⟩
      cases hg : gs i with
      | nil => rw [hg] at hfl; simp at hfl
      | cons g l =>
        rw [hg] at hfl
        refine ⟨g, l, rfl, ?_⟩
        rw [gridInner, if_pos hfl.2]
    by_cases hall : ((List.finRange n).all fun i => !gridFlag t0 t1 rem flags gs i) = true
    · rw [if_pos hall]
      have hall' : ∀ i, gridFlag t0 t1 rem flags gs i = false := by
        intro i
        have := List.all_eq_true.1 hall i (List.mem_finRange i)
        simpa using this
      refine congrArg some (Prod.ext ?_ ?_)
      · funext i
        by_cases hf : flags i = true
        · simp [hf, hno i hf (hall' i)]
        · simp [hf]
      · funext i
        by_cases hf : flags i = true
        · simp [hf, hno i hf (hall' i)]
        · simp [hf]
    · rw [if_neg hall]
      by_cases hemp : ((List.finRange n).all fun i => (if gridFlag t0 t1 rem flags gs i then (gs i).tail else gs i).isEmpty) = true
      · rw [if_pos hemp]
        have hemp' : ∀ i, (if gridFlag t0 t1 rem flags gs i then (gs i).tail else gs i) = [] := by
          intro i
          have := List.all_eq_true.1 hemp i (List.mem_finRange i)
          simpa using this
        refine congrArg some (Prod.ext ?_ ?_)
        · funext i
          have he := hemp' i
          by_cases hfl : gridFlag t0 t1 rem flags gs i = true
          · obtain ⟨hf, g, l, hg, hgi⟩ := hyes i hfl
            rw [if_pos hfl, hg] at he
            have he : l = [] := he
            subst he
            simp only [hfl, hf, if_true, hgi]
            simp [hg, pushSample, gridInner]
          · simp only [Bool.not_eq_true] at hfl
            by_cases hf : flags i = true
            · simp [hfl, hf, hno i hf hfl]
            · simp [hfl, hf]
        · funext i
          have he := hemp' i
          simp only
          rw [he]
          by_cases hfl : gridFlag t0 t1 rem flags gs i = true
          · obtain ⟨hf, g, l, hg, hgi⟩ := hyes i hfl
            rw [if_pos hfl, hg] at he
            have he : l = [] := he
            subst he
            rw [if_pos hf, hgi]
            simp [gridInner]
          · simp only [Bool.not_eq_true] at hfl
            rw [if_neg (by simp [hfl])] at he
            by_cases hf : flags i = true
            · rw [if_pos hf, he]; simp [gridInner]
            · rw [if_neg hf, he]
      · rw [if_neg hemp]
        have hpos : 0 < fuel := by
          by_contra h0
          apply hall
          rw [List.all_eq_true]
          intro i _
          by_contra hfl
          have hfl : gridFlag t0 t1 rem flags gs i = true := by simpa using hfl
          obtain ⟨hf, g, l, hg, -⟩ := hyes i hfl
          have := hlen i hf
          rw [hg] at this
          simp at this
          omega
        rw [ih _ _ _ hpos (by
          intro i hfl
          obtain ⟨hf, g, l, hg, -⟩ := hyes i hfl
          have := hlen i hf
          rw [hg] at this
          simp only [List.length_cons] at this
          simp only [hfl, if_true, hg, List.tail_cons]
          omega)]
        refine congrArg some (Prod.ext ?_ ?_)
        · funext i
          by_cases hfl : gridFlag t0 t1 rem flags gs i = true
          · obtain ⟨hf, g, l, hg, hgi⟩ := hyes i hfl
            simp only [hfl, hf, if_true, hgi]
            simp [hg, pushSample]
          · simp only [Bool.not_eq_true] at hfl
            by_cases hf : flags i = true
            · simp [hfl, hf, hno i hf hfl]
            · simp [hfl, hf]
        · funext i
          by_cases hfl : gridFlag t0 t1 rem flags gs i = true
          · obtain ⟨hf, g, l, hg, hgi⟩ := hyes i hfl
            simp only [hfl, hf, if_true, hgi]
            simp [hg]
          · simp only [Bool.not_eq_true] at hfl
            by_cases hf : flags i = true
            · simp [hfl, hf, hno i hf hfl]
            · simp [hfl, hf]

/-! ### One iteration of the scalar loop -/

/-- The window of the last step and the points which can be processed. -/
def laneInner (dense : Integ K W → XF K → S) (ta : Integ K W) (rem : XF K) (gs : List (XF K)) : List S × List (XF K) :=
  gridInner dense ta (ta.time.min (ta.time.sub ta.lastH)) (ta.time.max (ta.time.sub ta.lastH)) rem gs

theorem grid_top_done {stepF : StepF K W} {dense : Integ K W → XF K → S} {tl maxDt rem : XF K} {N : Nat} {dir : Bool}
    {st : Stats K} {out : List S} {gs : List (XF K)} {ta : Integ K W} (h : (laneInner dense ta rem gs).2 = []) (hg : gs ≠ []) (fuel : Nat) :
    gridLoop stepF dense none tl N maxDt dir (fuel + 1) rem st Outcome.success out gs ta =
      .ok (some ⟨Outcome.timeLimit, st.minH, st.maxH, st.steps, out ++ (laneInner dense ta rem gs).1, ta⟩) := by
  rw [gridLoop]
  have hg' : gs.isEmpty = false := by simpa using hg
  unfold laneInner at h ⊢
  simp only [hg', Bool.false_eq_true, if_false, h, List.isEmpty_nil, Bool.true_or, if_true]

theorem grid_top_int {stepF : StepF K W} {dense : Integ K W → XF K → S} {tl maxDt rem : XF K} {N : Nat} {dir : Bool}
    {st : Stats K} {out : List S} {gs : List (XF K)} {ta : Integ K W} {int : Outcome} (h : int ≠ Outcome.success) (fuel : Nat) :
    gridLoop stepF dense none tl N maxDt dir (fuel + 1) rem st int out gs ta =
      .ok (some ⟨int, st.minH, st.maxH, st.steps, out ++ (laneInner dense ta rem gs).1, ta⟩) := by
  rw [gridLoop]
  have hb : (int != Outcome.success) = true := by simpa using h
  cases gs with
  | nil => simp [laneInner, gridInner, h]
  | cons g gs => simp only [List.isEmpty_cons, Bool.false_eq_true, if_false, hb, Bool.or_true, if_true, if_neg h, laneInner]

theorem grid_iter_nf {stepF : StepF K W} {dense : Integ K W → XF K → S} {tl maxDt : XF K} {N : Nat} {dir : Bool} {tf tb : K}
    {st : Stats K} {out : List S} {gs : List (XF K)} {ta : Integ K W} (hdir : dir = decide (0 ≤ tf - tb)) (hg : gs ≠ [])
    (hl : (laneInner dense ta (.fin (tf - tb)) gs).2 ≠ []) {h : XF K} {ta1 : Integ K W}
    (hs : stepF ta (dtLimit dir maxDt (.fin (tf - tb))) true = .ok (Outcome.errNfState, h, ta1)) (fuel : Nat) :
    gridLoop stepF dense none tl N maxDt dir (fuel + 1) (.fin (tf - tb)) st Outcome.success out gs ta =
      .ok (some ⟨Outcome.errNfState, st.minH, st.maxH, st.steps, out ++ (laneInner dense ta (.fin (tf - tb)) gs).1, ta1⟩) := by
  have hsl : (XF.le (.fin 0) (.fin (tf - tb)) != dir) = false := by rw [hdir]; simp
  have hg' : gs.isEmpty = false := by simpa using hg
  unfold laneInner at hl ⊢
  rw [gridLoop]
  have hl' := List.isEmpty_eq_false_iff.2 hl
  simp only [hg', hl', Bool.false_eq_true, if_false, hsl, hs, Res.bind_ok, if_true, bne_self_eq_false, Bool.or_self]

/-- What interrupts the scalar loop, without callback. -/
def intOf (N k : Nat) (oc : Outcome) : Outcome := if isStopping oc then oc else if k + 1 = N then Outcome.stepLimit else Outcome.success

theorem lane_sign {stepF : StepF K W} (hstep : StepOk stepF) {maxDt : XF K} (hm : MaxDtOk maxDt) {tf tb x : K} {ta ta1 : Integ K W}
    {wtc : Bool} {oc : Outcome} (hs : stepF ta (dtLimit (decide (0 ≤ tf - tb)) maxDt (.fin (tf - tb))) wtc = .ok (oc, .fin x, ta1))
    (hnf : oc ≠ Outcome.errNfState) : (0 ≤ tf - tb → 0 ≤ x ∧ x ≤ tf - tb) ∧ (tf - tb < 0 → tf - tb ≤ x ∧ x ≤ 0) := by
  obtain ⟨μ, hμ, -, -, hμm⟩ := dtLimit_spec hm (tf - tb)
  rw [hμ] at hs
  obtain ⟨t0, x', ht0, hx', ht1', hok, -⟩ := hstep _ _ _ _ _ _ rfl hs hnf
  have hspec := h_spec hm (rem := tf - tb) (x := x) (by rw [hμ]; exact hok)
  exact ⟨hspec.1, hspec.2.1⟩

/-- One iteration of a lane. -/
theorem glane_iter {stepF : StepF K W} (hstep : StepOk stepF) {maxDt : XF K} (hm : MaxDtOk maxDt) {tf tb : K} {ta : Integ K W}
    (ht : ta.time = .fin tb) {dir : Bool} (hdir : dir = decide (0 ≤ tf - tb)) {oc : Outcome} {h : XF K} {ta1 : Integ K W}
    (hs : stepF ta (dtLimit dir maxDt (.fin (tf - tb))) true = .ok (oc, h, ta1)) (hnf : oc ≠ Outcome.errNfState) (st : LaneStats K)
    {dense : Integ K W → XF K → S} {out : List S} {gs : List (XF K)} (hg : gs ≠ [])
    (hl : (laneInner dense ta (.fin (tf - tb)) gs).2 ≠ []) :
    ∃ x, h = .fin x ∧ ta1.time = .fin (tb + x) ∧
      (∃ b, laneUpdate (.fin tf) ta1.time (.fin (tf - tb)) st oc h = .ok (.fin (tf - (tb + x)), st.upd oc h, b)) ∧
      (tf = tb + x → oc = Outcome.timeLimit) ∧
      (tf ≠ tb + x → dir = decide (0 ≤ tf - (tb + x)) ∧ if dir then 0 ≤ x else x ≤ 0) ∧
      (oc = Outcome.success ∨ oc = Outcome.timeLimit ∨ Stopping oc ∨ ∃ k : ℕ, oc = k) ∧
      ∀ N fuel k, gridLoop stepF dense none (.fin tf) N maxDt dir (fuel + 1) (.fin (tf - tb)) ⟨k, st.steps, st.minH, st.maxH⟩
          Outcome.success out gs ta =
        gridLoop stepF dense none (.fin tf) N maxDt dir fuel (.fin (tf - (tb + x)))
          ⟨k + 1, (st.upd oc h).steps, (st.upd oc h).minH, (st.upd oc h).maxH⟩ (intOf N k oc)
          (out ++ (laneInner dense ta (.fin (tf - tb)) gs).1) (laneInner dense ta (.fin (tf - tb)) gs).2 ta1 := by
  obtain ⟨x, hx, ht1, hu, hdone, hdir1, hoc, -⟩ := lane_iter (C := Unit) (withC := false) (c := ⟨[], []⟩) hstep hm ht hdir
    (by simp) hs hnf (fun _ => ()) st
  have hsg := by
    have hs' := hs
    rw [hx, hdir] at hs'
    exact lane_sign hstep hm hs' hnf
  have hxe : (x = tf - tb) ↔ (tf = tb + x) := ⟨fun h => by rw [h]; ring, fun h => by rw [h]; ring⟩
  refine ⟨x, hx, ht1, ⟨decide (x = tf - tb), ?_⟩, fun h => hdone (hxe.2 h), fun h => ⟨hdir1 fun h' => h (hxe.1 h'), ?_⟩, hoc, ?_⟩
  · rw [hu]
    by_cases hxr : x = tf - tb
    · rw [if_pos hxr]
      have : tf - (tb + x) = 0 := by rw [hxr]; ring
      rw [this]
    · rw [if_neg hxr]
  · rw [hdir]
    by_cases hr : 0 ≤ tf - tb
    · simpa [hr] using (hsg.1 hr).1
    · simpa [hr] using (hsg.2 (not_le.1 hr)).2
  · intro N fuel k
    have hsl : (XF.le (.fin 0) (.fin (tf - tb)) != dir) = false := by rw [hdir]; simp
    have hg' : gs.isEmpty = false := by simpa using hg
    unfold laneInner at hl ⊢
    rw [gridLoop]
    have hl' := List.isEmpty_eq_false_iff.2 hl
    simp only [hg', hl', Bool.false_eq_true, if_false, hsl, hs, Res.bind_ok, bne_self_eq_false, Bool.or_self, if_neg hnf, runCb,
      Bool.not_true]
    have hst : (Stats.update ⟨k, st.steps, st.minH, st.maxH⟩ oc h : Stats K) =
        ⟨k + 1, (st.upd oc h).steps, (st.upd oc h).minH, (st.upd oc h).maxH⟩ := rfl
    have hi : (if isStopping oc = true then oc else if (Stats.update ⟨k, st.steps, st.minH, st.maxH⟩ oc h : Stats K).iters = N then
        Outcome.stepLimit else Outcome.success) = intOf N k oc := rfl
    rw [hi, hst]
    by_cases hxr : x = tf - tb
    · have hf : h.feq (.fin (tf - tb)) = true := by rw [hx]; simp [hxr]
      have hb : (oc != Outcome.timeLimit) = false := by simp [hdone hxr]
      have : tf - (tb + x) = 0 := by rw [hxr]; ring
      simp only [hf, if_true, hb, Bool.false_eq_true, if_false, this]
    · have hf : h.feq (.fin (tf - tb)) = false := by rw [hx]; simp [hxr]
      have hlt : (h.abs.lt (XF.abs (.fin (tf - tb)))) = true := by
        rw [hx]
        simp only [XF.abs_fin, XF.lt_fin, decide_eq_true_eq]
        by_cases hr : 0 ≤ tf - tb
        · obtain ⟨h5, h6⟩ := hsg.1 hr
          rw [abs_of_nonneg h5, abs_of_nonneg hr]
          exact lt_of_le_of_ne h6 hxr
        · push Not at hr
          obtain ⟨h5, h6⟩ := hsg.2 hr
          rw [abs_of_nonpos h6, abs_of_neg hr]
          have := lt_of_le_of_ne h5 (Ne.symm hxr)
          linarith
      simp only [hf, hlt, Bool.not_true, Bool.false_eq_true, if_false, ht1, XF.sub_fin]

/-! ### The correspondence with scalar integrators -/

/-- The results of the lane `i` correspond to the result `rs` of a scalar integrator. -/
structure GridMatch (view : W → V) (i : Fin n) (rs : GridRes K W S) (r : BGridRes n K W G S) : Prop where
  steps : (r.res i).steps = rs.steps
  minH : (r.res i).minH = rs.minH
  maxH : (r.res i).maxH = rs.maxH
  time : (r.B.lanes i).time = rs.ta.time
  /-- the state is the same -/
  state : view (r.B.lanes i).world = view rs.ta.world
  /-- a lane which has not finished is in the same condition in all respects -/
  lane : rs.oc ≠ Outcome.timeLimit → r.B.lanes i = rs.ta
  /-- the samples are samples of the scalar integrator -/
  pre : r.out i <+: rs.out
  /-- all of them, if no lane has failed -/
  out : (∀ j, (r.res j).oc ≠ Outcome.errNfState) → r.out i = rs.out

/-- The way the propagation in batch mode ended, compared with the propagations `rs` of scalar integrators limited to the
same number `N` of steps. -/
def BGridEnding (maxSteps N : Nat) (r : BGridRes n K W G S) (rs : Fin n → GridRes K W S) : Prop :=
  -- the whole grid has been processed
  (∀ i, (r.res i).oc = Outcome.timeLimit ∧ (rs i).oc = Outcome.timeLimit) ∨
  -- stopped by the callback
  ((∀ i, (r.res i).oc = Outcome.cbStop) ∧ ∀ i, (rs i).oc ≠ Outcome.errNfState) ∨
  -- stopped by the limit on the number of steps
  ((∀ i, (r.res i).oc = Outcome.stepLimit) ∧ (∀ i, (rs i).oc ≠ Outcome.errNfState) ∧ N = maxSteps) ∨
  -- stopped by a non-finite state or by a terminal event of at least one lane
  ((∃ i, (rs i).oc = Outcome.errNfState ∨ Stopping (rs i).oc) ∧
    ∀ i, ((rs i).oc ≠ Outcome.stepLimit → (r.res i).oc = (rs i).oc) ∧
      ((rs i).oc = Outcome.stepLimit → (r.res i).oc = Outcome.success ∨ (r.res i).oc = Outcome.timeLimit ∨ ∃ k : ℕ, (r.res i).oc = k))

/-- A lane which has still grid points to process. -/
structure GLive (stepF : StepF K W) (tf : K) (dir : Bool) (ta : Integ K W) (rem : XF K) (gs : List (XF K)) (tb lh : K) : Prop where
  time : ta.time = .fin tb
  rem : rem = .fin (tf - tb)
  lastH : ta.lastH = .fin lh
  sign : tf ≠ tb → dir = decide (0 ≤ tf - tb) ∧ if dir then 0 ≤ lh else lh ≤ 0
  last : gs.getLast? = some (.fin tf)
  reached : ∃ ta0 m w oc0 h0, stepF ta0 m w = .ok (oc0, h0, ta) ∧ oc0 ≠ Outcome.errNfState

theorem GLive.ne {stepF : StepF K W} {tf : K} {dir : Bool} {ta : Integ K W} {rem : XF K} {gs : List (XF K)} {tb lh : K}
    (h : GLive stepF tf dir ta rem gs tb lh) : gs ≠ [] := by
  rintro rfl
  have := h.last
  simp at this

/-- A lane whose grid points have all been processed; `rs` is the result of the scalar integrator. -/
structure GDone (view : W → V) (stepF : StepF K W) (tf : K) (ta : Integ K W) (rem : XF K) (st : LaneStats K) (out : List S)
    (gs : List (XF K)) (rs : GridRes K W S) : Prop where
  gs : gs = []
  rem : rem = .fin 0
  time : ta.time = .fin tf
  reached : ∃ ta0 m w oc0 h0, stepF ta0 m w = .ok (oc0, h0, ta) ∧ oc0 ≠ Outcome.errNfState
  oc : rs.oc = Outcome.timeLimit
  steps : st.steps = rs.steps
  minH : st.minH = rs.minH
  maxH : st.maxH = rs.maxH
  rtime : rs.ta.time = .fin tf
  state : view ta.world = view rs.ta.world
  out : rs.out = out

/-- Either of the two. -/
def GSt (view : W → V) (stepF : StepF K W) (tf : K) (dir act : Bool) (ta : Integ K W) (rem : XF K) (st : LaneStats K) (out : List S)
    (gs : List (XF K)) (tb lh : K) (rs : GridRes K W S) : Prop :=
  (act = true → GLive stepF tf dir ta rem gs tb lh) ∧ (act = false → GDone view stepF tf ta rem st out gs rs)

/-- The inner loop on a lane. -/
theorem glane_inner {view : W → V} {stepF : StepF K W} {dense : Integ K W → XF K → S} {tf : K} {dir act : Bool} {ta : Integ K W}
    {rem : XF K} {st : LaneStats K} {out : List S} {gs : List (XF K)} {tb lh : K} {rs : GridRes K W S}
    (hl : GSt view stepF tf dir act ta rem st out gs tb lh rs) (maxDt : XF K) :
    ∃ act' rs', GSt view stepF tf dir act' ta rem st (out ++ (laneInner dense ta rem gs).1) (laneInner dense ta rem gs).2 tb lh rs' ∧
      (act = false → act' = false ∧ rs' = rs) ∧ (act' = true → tf ≠ tb ∧ gs ≠ []) ∧
      (act = true → act' = false → ∀ N fuel k, gridLoop stepF dense none (.fin tf) N maxDt dir (fuel + 1) rem
        ⟨k, st.steps, st.minH, st.maxH⟩ Outcome.success out gs ta = .ok (some rs')) := by
  cases act with
  | false =>
    have hd := hl.2 rfl
    have hg := hd.gs
    subst hg
    refine ⟨false, rs, ⟨by simp, fun _ => ?_⟩, fun _ => ⟨rfl, rfl⟩, by simp, by simp⟩
    simpa [laneInner, gridInner] using hd
  | true =>
    have hv := hl.1 rfl
    have hlen : ∀ h : tf ≠ tb, (laneInner dense ta rem gs).2 ≠ [] := by
      intro h
      obtain ⟨h1, h2⟩ := hv.sign h
      refine gridInner_left dense ta (gl := .fin tf) ?_ ?_ gs hv.last
      · rw [hv.rem]
        simpa [sub_eq_zero] using h
      · rw [hv.time, hv.lastH]
        simp only [XF.sub_fin, XF.min_fin, XF.max_fin, XF.le_fin, Bool.and_eq_false_iff, decide_eq_false_iff_not, not_le]
        rw [h1] at h2
        by_cases hr : 0 ≤ tf - tb
        · simp only [hr, decide_true, if_true] at h2
          have : tb < tf := lt_of_le_of_ne (by linarith) (Ne.symm h)
          right
          rw [max_lt_iff]
          constructor <;> linarith
        · simp only [hr, decide_false, Bool.false_eq_true, if_false] at h2
          left
          rw [lt_min_iff]
          constructor <;> linarith
    by_cases ht : tf = tb
    · have hr0 : rem = .fin 0 := by rw [hv.rem, ht, sub_self]
      have he : (laneInner dense ta rem gs).2 = [] := by rw [hr0]; exact gridInner_zero _ _ _ _ _
      refine ⟨false, ⟨Outcome.timeLimit, st.minH, st.maxH, st.steps, out ++ (laneInner dense ta rem gs).1, ta⟩, ⟨by simp, fun _ => ?_⟩,
        by simp, by simp, fun _ _ N fuel k => grid_top_done he hv.ne fuel⟩
      have htt : ta.time = .fin tf := by rw [hv.time, ht]
      exact ⟨he, hr0, htt, hv.reached, rfl, rfl, rfl, rfl, htt, rfl, rfl⟩
    · refine ⟨true, rs, ⟨fun _ => ⟨hv.time, hv.rem, hv.lastH, hv.sign, ?_, hv.reached⟩, by simp⟩, by simp, fun _ => ⟨ht, hv.ne⟩, by simp⟩
      exact (gridInner_last _ _ _ _ _ _ (hlen ht)).trans hv.last

end Heyoka.Integ
