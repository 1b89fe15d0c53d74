import Verif.Integ.BatchGridLemmas

/-!
# The loop of `propagate_grid()` in batch mode: the induction
-/

namespace Heyoka.Integ

set_option linter.unusedSectionVars false

variable {K W G J C V S : Type*} {n : Nat} [Field K] [LinearOrder K] [IsStrictOrderedRing K]

theorem intOf_limit (k : Nat) (oc : Outcome) :
    intOf (k + 1) k oc ≠ Outcome.success ∧ (oc ≠ Outcome.errNfState → intOf (k + 1) k oc ≠ Outcome.errNfState) ∧
      (intOf (k + 1) k oc = Outcome.stepLimit ↔ isStopping oc = false) ∧ (isStopping oc = true → intOf (k + 1) k oc = oc) ∧
      intOf (k + 1) k oc ≠ Outcome.timeLimit := by
  unfold intOf
  by_cases h : isStopping oc = true
  · have hs := isStopping_ne (isStopping_iff.1 h)
    rw [if_pos h]
    refine ⟨hs.1, fun _ => hs.2.2, ?_, fun _ => rfl, hs.2.1⟩
    rw [h]
    constructor
    · intro h'
      obtain ⟨i, hi, h''⟩ := isStopping_iff.1 h
      rw [h''] at h'
      have h' : -(i : Int) - 1 = -4294967296 - 2 := h'
      omega
    · simp
  · rw [if_neg h, if_pos rfl]
    refine ⟨by decide, fun _ => by decide, ?_, fun h' => absurd h' h, by decide⟩
    simpa using h

/-- An interruption pending: the grid points in range are processed and the loop ends. -/
theorem bGrid_interrupted {nd : Bool} {bstep : BStepF n K W G} {dense : Integ K W → XF K → S} {cb : Option (BCb n K W G)}
    {last : Fin n → XF K} {maxSteps : Nat} {maxDts : Fin n → XF K} {dir : Fin n → Bool} {np : Nat} {r : BGridRes n K W G S}
    {fuel iters : Nat} {rem : Fin n → XF K} {st : Fin n → LaneStats K} {res : Fin n → LaneRes K} {out : Fin n → List S}
    {gs : Fin n → List (XF K)} {B : BInteg n K W G} (hlen : ∀ i, (gs i).length ≤ np) (hne : ∃ i, gs i ≠ [])
    (hint : ∃ i, interrupted (res i).oc = true)
    (H : bGridLoop nd bstep dense cb last maxSteps maxDts dir np fuel iters rem st res out gs B = .ok (some r)) :
    r = ⟨res, fun i => out i ++ (laneInner dense (B.lanes i) (rem i) (gs i)).1, B⟩ ∧ 0 < fuel := by
  cases fuel with
  | zero => simp [bGridLoop] at H
  | succ fuel =>
    rw [bGridLoop] at H
    have hn : ¬ ((List.finRange n).all fun i => (gs i).isEmpty) = true := by
      rw [List.all_eq_true]
      intro h
      obtain ⟨i, hi⟩ := hne
      exact hi (by simpa using h i (List.mem_finRange i))
    rw [if_neg hn, bGridInner_lanes dense B _ _ rem (np + 1) (fun _ => true) out gs (by omega) (fun i _ => by have := hlen i; omega)] at H
    simp only [if_true] at H
    refine ⟨?_, by omega⟩
    have hi : ((List.finRange n).any fun i => interrupted (res i).oc) = true := by
      obtain ⟨i, hi⟩ := hint
      exact List.any_eq_true.2 ⟨i, List.mem_finRange i, hi⟩
    rw [if_pos hi] at H
    split at H
    · split at H
      · simp at H
      · exact (Option.some.inj (Res.ok.inj H)).symm
    · exact (Option.some.inj (Res.ok.inj H)).symm

/-- The loop of the batch integrator is the loop of the scalar integrator on each lane. -/
theorem bGrid_lanes {nd : Bool} {bstep : BStepF n K W G} {stepF : Fin n → StepF K W} (hlw : LaneWise bstep stepF)
    (hstep : ∀ i, StepOk (stepF i)) (hsl : ∀ i, StepLastH (stepF i)) {view : W → V} (hz : ∀ i, ZeroOk view (stepF i))
    {dense : Integ K W → XF K → S} {cb : Option (BCb n K W G)}
    (hcb : ∀ c, cb = some c → Observer c) {tf : Fin n → K} {maxSteps : Nat} {maxDts : Fin n → XF K} (hm : ∀ i, MaxDtOk (maxDts i))
    {dir : Fin n → Bool} {np : Nat} {r : BGridRes n K W G S} :
    ∀ (fuel iters : Nat) (rem : Fin n → XF K) (st : Fin n → LaneStats K) (res : Fin n → LaneRes K) (out : Fin n → List S)
      (gs : Fin n → List (XF K)) (B : BInteg n K W G) (act : Fin n → Bool) (tb lh : Fin n → K) (rs0 : Fin n → GridRes K W S),
      (∀ i, GSt view (stepF i) (tf i) (dir i) (act i) (B.lanes i) (rem i) (st i) (out i) (gs i) (tb i) (lh i) (rs0 i)) →
      (∀ i, (gs i).length ≤ np) → (∀ i, interrupted (res i).oc = false) →
      (∀ i, (res i).steps = (st i).steps ∧ (res i).minH = (st i).minH ∧ (res i).maxH = (st i).maxH) →
      (∀ i, rem i = .fin 0 → (res i).oc = Outcome.timeLimit) →
      (maxSteps = 0 ∨ iters < maxSteps) →
      bGridLoop nd bstep dense cb (fun i => .fin (tf i)) maxSteps maxDts dir np fuel iters rem st res out gs B = .ok (some r) →
      ∃ N rs, iters < N ∧ (0 < maxSteps → N ≤ maxSteps) ∧ (∀ i, act i = false → rs i = rs0 i) ∧
        (∀ i, act i = true → gridLoop (stepF i) dense none (.fin (tf i)) N (maxDts i) (dir i) (fuel + 1) (rem i)
          ⟨iters, (st i).steps, (st i).minH, (st i).maxH⟩ Outcome.success (out i) (gs i) (B.lanes i) = .ok (some (rs i))) ∧
        (∀ i, GridMatch view i (rs i) r) ∧ BGridEnding maxSteps N r rs := by
  intro fuel
  induction fuel with
  | zero => intro iters rem st res out gs B act tb lh rs0 _ _ _ _ _ _ h; simp [bGridLoop] at h
  | succ fuel ih =>
    intro iters rem st res out gs B act tb lh rs0 hl hlen hint hst htl hms H
    have hN : 0 < maxSteps → iters + 1 ≤ maxSteps := by omega
    rw [bGridLoop] at H
    by_cases hall : ((List.finRange n).all fun i => (gs i).isEmpty) = true
    · -- nothing to do
      rw [if_pos hall] at H
      have e := Option.some.inj (Res.ok.inj H)
      have hact : ∀ i, act i = false := by
        intro i
        by_contra ha
        have := ((hl i).1 (by simpa using ha)).ne
        have h2 := List.all_eq_true.1 hall i (List.mem_finRange i)
        exact this (by simpa using h2)
      refine ⟨iters + 1, rs0, by omega, hN, fun _ _ => rfl, fun i hi => absurd hi (by simp [hact i]), fun i => ?_, .inl fun i => ?_⟩
      · have hd := (hl i).2 (hact i)
        rw [← e]
        refine ⟨(hst i).1.trans hd.steps, (hst i).2.1.trans hd.minH, (hst i).2.2.trans hd.maxH, hd.time.trans hd.rtime.symm, hd.state,
          fun h => absurd hd.oc h, ?_, fun _ => hd.out.symm⟩
        rw [hd.out]
        exact List.prefix_refl _
      · have hd := (hl i).2 (hact i)
        rw [← e]
        exact ⟨htl i hd.rem, hd.oc⟩
    rw [if_neg hall, bGridInner_lanes dense B _ _ rem (np + 1) (fun _ => true) out gs (by omega) (fun i _ => by have := hlen i; omega)] at H
    simp only [if_true] at H
    -- the lanes after the inner loop
    have hM := fun i => glane_inner (dense := dense) (hl i) (maxDts i)
    choose act' rs' hM1 hM2 hM3 hM4 using hM
    have hfold : ∀ i, gridInner dense (B.lanes i) ((B.lanes i).time.min ((B.lanes i).time.sub (B.lanes i).lastH))
        ((B.lanes i).time.max ((B.lanes i).time.sub (B.lanes i).lastH)) (rem i) (gs i) = laneInner dense (B.lanes i) (rem i) (gs i) :=
      fun i => rfl
    simp only [hfold] at H
    have hlen' : ∀ i, (laneInner dense (B.lanes i) (rem i) (gs i)).2.length ≤ np :=
      fun i => (gridInner_length _ _ _ _ _ _).trans (hlen i)
    by_cases hall' : ((List.finRange n).all fun i => (laneInner dense (B.lanes i) (rem i) (gs i)).2.isEmpty) = true
    · -- the whole grid has been processed
      rw [if_pos hall'] at H
      have hact : ∀ i, act' i = false := by
        intro i
        by_contra ha
        have := ((hM1 i).1 (by simpa using ha)).ne
        have h2 := List.all_eq_true.1 hall' i (List.mem_finRange i)
        exact this (by simpa using h2)
      have e : (⟨res, fun i => out i ++ (laneInner dense (B.lanes i) (rem i) (gs i)).1, B⟩ : BGridRes n K W G S) = r := by
        split at H
        · simp at H
        · exact Option.some.inj (Res.ok.inj H)
      refine ⟨iters + 1, rs', by omega, hN, fun i hi => (hM2 i hi).2, fun i hi => hM4 i hi (hact i) _ _ _, fun i => ?_, .inl fun i => ?_⟩
      · have hd := (hM1 i).2 (hact i)
        rw [← e]
        refine ⟨(hst i).1.trans hd.steps, (hst i).2.1.trans hd.minH, (hst i).2.2.trans hd.maxH, hd.time.trans hd.rtime.symm, hd.state,
          fun h => absurd hd.oc h, ?_, fun _ => hd.out.symm⟩
        rw [hd.out]
        exact List.prefix_refl _
      · have hd := (hM1 i).2 (hact i)
        rw [← e]
        exact ⟨htl i hd.rem, hd.oc⟩
    rw [if_neg hall'] at H
    have hne : ∃ i, (laneInner dense (B.lanes i) (rem i) (gs i)).2 ≠ [] := by
      by_contra hn
      push Not at hn
      exact hall' (List.all_eq_true.2 fun i _ => by simp [hn i])
    rw [if_neg (by
      rw [List.any_eq_true]
      rintro ⟨i, -, hi⟩
      rw [hint i] at hi
      simp at hi)] at H
    split at H
    · simp at H
    cases hb : bstep B (fun i => dtLimit (dir i) (maxDts i) (rem i)) true with
    | throw => rw [hb] at H; simp at H
    | ub => rw [hb] at H; simp at H
    | ok q =>
    obtain ⟨sr, B1⟩ := q
    rw [hb, Res.bind_ok] at H
    have hdirM : ∀ i, act' i = true → dir i = decide (0 ≤ tf i - tb i) := fun i ha => (((hM1 i).1 ha).sign (hM3 i ha).1).1
    have hnan : ∀ i, (dtLimit (dir i) (maxDts i) (rem i)).isNan = false := by
      intro i
      cases ha : act' i with
      | true =>
        obtain ⟨μ, hμ, -⟩ := dtLimit_spec (hm i) (tf i - tb i)
        rw [((hM1 i).1 ha).rem, hdirM i ha, hμ]
        rfl
      | false => rw [((hM1 i).2 ha).rem, dtLimit_zero (hm i)]; rfl
    have hs := hlw _ _ _ _ _ hnan hb
    dsimp only at H hs
    cases hu : laneUpdates (fun i => laneUpdate (.fin (tf i)) (B1.lanes i).time (rem i) (st i) (sr i).1 (sr i).2) (List.finRange n)
        (fun i => (rem i, st i, false)) with
    | throw => rw [hu] at H; simp at H
    | ub => rw [hu] at H; simp at H
    | ok u =>
    rw [hu, Res.bind_ok] at H
    have hu1 : ∀ i, laneUpdate (.fin (tf i)) (B1.lanes i).time (rem i) (st i) (sr i).1 (sr i).2 = .ok (u i) :=
      fun i => (laneUpdates_ok (List.nodup_finRange n) hu).1 i (List.mem_finRange i)
    -- the lanes after the step
    have hP : ∀ i, ∃ tb1 lh1, (sr i).1 ≠ Outcome.errNfState →
        GSt view (stepF i) (tf i) (dir i) (act' i) (B1.lanes i) (u i).1 (u i).2.1
          (out i ++ (laneInner dense (B.lanes i) (rem i) (gs i)).1) (laneInner dense (B.lanes i) (rem i) (gs i)).2 tb1 lh1 (rs' i) ∧
        ((u i).1 = .fin 0 → (sr i).1 = Outcome.timeLimit) ∧
        ((sr i).1 = Outcome.success ∨ (sr i).1 = Outcome.timeLimit ∨ Stopping (sr i).1 ∨ ∃ k : ℕ, (sr i).1 = k) ∧
        (act' i = true → ∀ N fuel k, gridLoop (stepF i) dense none (.fin (tf i)) N (maxDts i) (dir i) (fuel + 1) (rem i)
            ⟨k, (st i).steps, (st i).minH, (st i).maxH⟩ Outcome.success (out i) (gs i) (B.lanes i) =
          gridLoop (stepF i) dense none (.fin (tf i)) N (maxDts i) (dir i) fuel (u i).1
            ⟨k + 1, (u i).2.1.steps, (u i).2.1.minH, (u i).2.1.maxH⟩ (intOf N k (sr i).1)
            (out i ++ (laneInner dense (B.lanes i) (rem i) (gs i)).1) (laneInner dense (B.lanes i) (rem i) (gs i)).2 (B1.lanes i)) := by
      intro i
      by_cases hnf : (sr i).1 = Outcome.errNfState
      · exact ⟨tb i, lh i, fun h => absurd hnf h⟩
      cases ha : act' i with
      | false =>
        have hd := (hM1 i).2 ha
        have hs' := hs i
        rw [hd.rem] at hs'
        obtain ⟨h1, h2, h3, h4⟩ := lane_idle (hstep i) (hz i) (hm i) hd.time hd.reached hs' (st i) (.fin (tf i))
        have e := hu1 i
        rw [hd.rem, h4] at e
        have e := Res.ok.inj e
        refine ⟨tb i, lh i, fun _ => ⟨⟨by simp, fun _ => ?_⟩, fun _ => h1, .inr (.inl h1), by simp⟩⟩
        rw [← e]
        exact ⟨hd.gs, rfl, h2, ⟨_, _, _, _, _, hs i, hnf⟩, hd.oc, hd.steps, hd.minH, hd.maxH, hd.rtime, h3.trans hd.state, hd.out⟩
      | true =>
        have hv := (hM1 i).1 ha
        have hs' := hs i
        rw [hv.rem] at hs'
        have hr := hv.rem
        obtain ⟨x, hx, ht1, ⟨b, hb1⟩, h1, h2, h3, h4⟩ := glane_iter (hstep i) (hm i) hv.time (hdirM i ha) hs' hnf (st i) (dense := dense)
          (out := out i) (hM3 i ha).2 (by rw [← hr]; exact hv.ne)
        have e := hu1 i
        rw [hr, hb1] at e
        have e := Res.ok.inj e
        have hlast : (B1.lanes i).lastH = .fin x := by
          rw [← hx]
          exact hsl i _ _ _ _ _ _ (by simpa [hr] using hnan i) hs' hnf
        refine ⟨tb i + x, x, fun _ => ⟨⟨fun _ => ?_, by simp⟩, fun h => ?_, h3, fun _ N fuel k => ?_⟩⟩
        · rw [← e]
          exact ⟨ht1, rfl, hlast, h2, hv.last, ⟨_, _, _, _, _, hs i, hnf⟩⟩
        · rw [← e] at h
          simp only [XF.fin.injEq] at h
          exact h1 (sub_eq_zero.1 h)
        · rw [hr, h4, ← e]
    choose tb1 lh1 hP using hP
    -- the lanes which have failed
    have hF : ∀ i, (sr i).1 = Outcome.errNfState → act' i = true ∧ (u i).2.1 = st i ∧ ∀ N fuel k,
        gridLoop (stepF i) dense none (.fin (tf i)) N (maxDts i) (dir i) (fuel + 1) (rem i)
            ⟨k, (st i).steps, (st i).minH, (st i).maxH⟩ Outcome.success (out i) (gs i) (B.lanes i) =
        .ok (some ⟨Outcome.errNfState, (st i).minH, (st i).maxH, (st i).steps,
          out i ++ (laneInner dense (B.lanes i) (rem i) (gs i)).1, B1.lanes i⟩) := by
      intro i hnf
      have hact : act' i = true := by
        by_contra hact
        have hd := (hM1 i).2 (by simpa using hact)
        have hsi := hs i
        rw [hd.rem] at hsi
        have := (lane_idle (hstep i) (hz i) (hm i) hd.time hd.reached hsi (st i) (.fin (tf i))).1
        rw [hnf] at this
        exact absurd this (by decide)
      have hv := (hM1 i).1 hact
      have hr := hv.rem
      refine ⟨hact, ?_, fun N fuel k => ?_⟩
      · have := hu1 i
        rw [laneUpdate, if_pos hnf] at this
        rw [← Res.ok.inj this]
      · have hsi := hs i
        rw [hnf, hr] at hsi
        have := grid_iter_nf (N := N) (tl := .fin (tf i)) (st := ⟨k, (st i).steps, (st i).minH, (st i).maxH⟩) (out := out i) (dense := dense)
          (hdirM i hact) (hM3 i hact).2 (by rw [← hr]; exact hv.ne) hsi fuel
        rw [hr]
        exact this
    have hactM : ∀ i, act' i = true → act i = true := by
      intro i ha
      by_contra h
      have := (hM2 i (by simpa using h)).1
      rw [ha] at this
      simp at this
    -- the results of the scalar integrators if the loop ends here
    let rsE : Fin n → GridRes K W S := fun i =>
      if (sr i).1 = Outcome.errNfState then
        ⟨Outcome.errNfState, (st i).minH, (st i).maxH, (st i).steps, out i ++ (laneInner dense (B.lanes i) (rem i) (gs i)).1, B1.lanes i⟩
      else if act' i = false then rs' i
      else ⟨intOf (iters + 1) iters (sr i).1, (u i).2.1.minH, (u i).2.1.maxH, (u i).2.1.steps,
        (out i ++ (laneInner dense (B.lanes i) (rem i) (gs i)).1) ++
          (laneInner dense (B1.lanes i) (u i).1 (laneInner dense (B.lanes i) (rem i) (gs i)).2).1, B1.lanes i⟩
    have hE0 : ∀ i, act i = false → rsE i = rs0 i := by
      intro i ha
      have ha' := hM2 i ha
      have hnf : (sr i).1 ≠ Outcome.errNfState := fun e => by rw [(hF i e).1] at ha'; simp at ha'
      simp only [rsE, if_neg hnf, ha'.1, if_true, ha'.2]
    have hE1 : ∀ i, act i = true → gridLoop (stepF i) dense none (.fin (tf i)) (iters + 1) (maxDts i) (dir i) (fuel + 1 + 1) (rem i)
          ⟨iters, (st i).steps, (st i).minH, (st i).maxH⟩ Outcome.success (out i) (gs i) (B.lanes i) = .ok (some (rsE i)) := by
      intro i ha
      by_cases hnf : (sr i).1 = Outcome.errNfState
      · rw [(hF i hnf).2.2]
        simp only [rsE, if_pos hnf]
      · by_cases h1 : act' i = false
        · rw [hM4 i ha h1]
          simp only [rsE, if_neg hnf, if_pos h1]
        · rw [(hP i hnf).2.2.2 (by simpa using h1), grid_top_int (intOf_limit _ _).1]
          simp only [rsE, if_neg hnf, if_neg h1]
    have hEoc : ∀ i, (rsE i).oc = if (sr i).1 = Outcome.errNfState then Outcome.errNfState else if act' i = false then Outcome.timeLimit
        else intOf (iters + 1) iters (sr i).1 := by
      intro i
      by_cases hnf : (sr i).1 = Outcome.errNfState
      · simp only [rsE, if_pos hnf]
      · simp only [rsE, if_neg hnf]
        by_cases h1 : act' i = false
        · rw [if_pos h1, if_pos h1]
          exact ((hM1 i).2 h1).oc
        · rw [if_neg h1, if_neg h1]
    have hEm : ∀ r' : BGridRes n K W G S, (∀ i, (r'.res i).steps = (u i).2.1.steps ∧ (r'.res i).minH = (u i).2.1.minH ∧
        (r'.res i).maxH = (u i).2.1.maxH) → r'.B.lanes = B1.lanes →
        (((∃ j, (r'.res j).oc = Outcome.errNfState) ∧ ∀ i, r'.out i = out i ++ (laneInner dense (B.lanes i) (rem i) (gs i)).1) ∨
          ((∀ j, (sr j).1 ≠ Outcome.errNfState) ∧ ∀ i, r'.out i = (out i ++ (laneInner dense (B.lanes i) (rem i) (gs i)).1) ++
            (laneInner dense (B1.lanes i) (u i).1 (laneInner dense (B.lanes i) (rem i) (gs i)).2).1)) →
        ∀ i, GridMatch view i (rsE i) r' := by
      intro r' h1 h2 h3 i
      obtain ⟨k1, k2, k3⟩ := h1 i
      -- the samples
      have hout : r'.out i <+: (rsE i).out ∧ ((∀ j, (r'.res j).oc ≠ Outcome.errNfState) → r'.out i = (rsE i).out) := by
        have hnil : act' i = false → (laneInner dense (B.lanes i) (rem i) (gs i)).2 = [] := fun h => ((hM1 i).2 h).gs
        rcases h3 with ⟨⟨j, hj⟩, h3⟩ | ⟨hj, h3⟩
        · refine ⟨?_, fun h => absurd hj (h j)⟩
          rw [h3]
          simp only [rsE]
          split
          · exact List.prefix_refl _
          · split
            · rename_i h5
              rw [((hM1 i).2 h5).out]
              exact List.prefix_refl _
            · exact List.prefix_append _ _
        · have : r'.out i = (rsE i).out := by
            rw [h3]
            simp only [rsE, if_neg (hj i)]
            split
            · rename_i h5
              rw [((hM1 i).2 h5).out, hnil h5]
              simp [laneInner, gridInner]
            · rfl
          exact ⟨by rw [this]; exact List.prefix_refl _, fun _ => this⟩
      refine ⟨?_, ?_, ?_, ?_, ?_, ?_, hout.1, hout.2⟩ <;> simp only [rsE] <;> by_cases hnf : (sr i).1 = Outcome.errNfState <;>
        by_cases h5 : act' i = false <;> simp only [hnf, h5, if_true, if_false]
      · rw [k1, (hF i hnf).2.1]
      · rw [k1, (hF i hnf).2.1]
      · rw [k1]; exact ((hP i hnf).1.2 h5).steps
      · exact k1
      · rw [k2, (hF i hnf).2.1]
      · rw [k2, (hF i hnf).2.1]
      · rw [k2]; exact ((hP i hnf).1.2 h5).minH
      · exact k2
      · rw [k3, (hF i hnf).2.1]
      · rw [k3, (hF i hnf).2.1]
      · rw [k3]; exact ((hP i hnf).1.2 h5).maxH
      · exact k3
      · rw [h2]
      · rw [h2]
      · rw [h2, ((hP i hnf).1.2 h5).time, ((hP i hnf).1.2 h5).rtime]
      · rw [h2]; simp [h5]
      · rw [h2]
      · rw [h2]
      · rw [h2]; exact ((hP i hnf).1.2 h5).state
      · rw [h2]; simp [h5]
      · intro _; rw [h2]
      · intro _; rw [h2]
      · intro h; exact absurd ((hM1 i).2 h5).oc h
      · intro _; rw [h2]; simp [h5]
    -- outcomes if the loop ends because of a failure or of a terminal event
    have hEnd : ∀ i, (∀ oc, oc = (sr i).1 → ((rsE i).oc ≠ Outcome.stepLimit → oc = (rsE i).oc) ∧
        ((rsE i).oc = Outcome.stepLimit → oc = Outcome.success ∨ oc = Outcome.timeLimit ∨ ∃ k : ℕ, oc = k)) := by
      rintro i oc rfl
      rw [hEoc]
      by_cases hnf : (sr i).1 = Outcome.errNfState
      · rw [if_pos hnf]
        exact ⟨fun _ => hnf, fun h => absurd h (by decide)⟩
      · rw [if_neg hnf]
        by_cases h5 : act' i = false
        · rw [if_pos h5]
          exact ⟨fun _ => (hP i hnf).2.1 ((hP i hnf).1.2 h5).rem, fun h => absurd h (by decide)⟩
        · rw [if_neg h5]
          obtain ⟨-, -, g3, g4, -⟩ := intOf_limit iters (sr i).1
          refine ⟨fun h => ?_, fun h => ?_⟩
          · have : isStopping (sr i).1 = true := by
              by_contra h6
              exact h (g3.2 (by simpa using h6))
            exact (g4 this).symm
          · have h6 := g3.1 h
            rcases (hP i hnf).2.2.1 with g | g | g | g
            · exact .inl g
            · exact .inr (.inl g)
            · rw [isStopping_iff.2 g] at h6; simp at h6
            · exact .inr (.inr g)
    by_cases hany : ∃ i, (sr i).1 = Outcome.errNfState
    · -- a lane has failed
      rw [if_pos (by simpa using hany)] at H
      have e := Option.some.inj (Res.ok.inj H)
      refine ⟨iters + 1, rsE, by omega, hN, hE0, hE1, hEm r ?_ ?_ (.inl ⟨?_, ?_⟩), .inr (.inr (.inr ⟨?_, fun i => ?_⟩))⟩
      · intro i; rw [← e]; exact ⟨rfl, rfl, rfl⟩
      · rw [← e]
      · obtain ⟨j, hj⟩ := hany
        exact ⟨j, by rw [← e]; exact hj⟩
      · intro i; rw [← e]
      · obtain ⟨j, hj⟩ := hany
        exact ⟨j, .inl (by rw [hEoc, if_pos hj])⟩
      · exact hEnd i _ (by rw [← e])
    rw [if_neg (by simpa using hany)] at H
    push Not at hany
    cases hc : bRunCb cb B1 with
    | throw => rw [hc] at H; simp at H
    | ub => rw [hc] at H; simp at H
    | ok rc =>
    rw [hc, Res.bind_ok] at H
    have hB2 := bRunCb_lanes hcb hc
    by_cases hint2 : ∃ i, interrupted (if (!rc.1) = true then Outcome.cbStop else if iters + 1 = maxSteps then Outcome.stepLimit
        else (sr i).1) = true
    · -- an interruption
      obtain ⟨e, -⟩ := bGrid_interrupted hlen' hne hint2 H
      rw [hB2] at e
      refine ⟨iters + 1, rsE, by omega, hN, hE0, hE1, hEm r ?_ ?_ (.inr ⟨hany, ?_⟩), ?_⟩
      · intro i; rw [e]; exact ⟨rfl, rfl, rfl⟩
      · rw [e]; exact hB2
      · intro i; rw [e]
      · have hnoe : ∀ i, (rsE i).oc ≠ Outcome.errNfState := by
          intro i
          rw [hEoc, if_neg (hany i)]
          split
          · decide
          · exact (intOf_limit _ _).2.1 (hany i)
        by_cases hr1 : rc.1 = true
        · by_cases hmx : iters + 1 = maxSteps
          · refine .inr (.inr (.inl ⟨fun i => ?_, hnoe, hmx⟩))
            rw [e]
            simp [hr1, hmx]
          · refine .inr (.inr (.inr ⟨?_, fun i => hEnd i _ ?_⟩))
            · obtain ⟨i, hi⟩ := hint2
              simp only [hr1, Bool.not_true, Bool.false_eq_true, if_false, hmx] at hi
              have hst' : isStopping (sr i).1 = true := by
                simp only [interrupted, Bool.or_eq_true, decide_eq_true_eq] at hi
                rcases hi with (hi | hi) | hi
                · rcases (hP i (hany i)).2.2.1 with g | g | g | ⟨k, g⟩
                  · rw [g] at hi; exact absurd hi (by decide)
                  · rw [g] at hi; exact absurd hi (by decide)
                  · exact isStopping_iff.2 g
                  · rw [g] at hi
                    have h' : (k : Int) = -4294967296 - 5 := hi
                    omega
                · exact hi
                · rcases (hP i (hany i)).2.2.1 with g | g | g | ⟨k, g⟩
                  · rw [g] at hi; exact absurd hi (by decide)
                  · rw [g] at hi; exact absurd hi (by decide)
                  · exact isStopping_iff.2 g
                  · rw [g] at hi
                    have h' : (k : Int) = -4294967296 - 2 := hi
                    omega
              refine ⟨i, .inr ?_⟩
              have hact : act' i = true := by
                by_contra h
                have := (hP i (hany i)).2.1 ((hP i (hany i)).1.2 (by simpa using h)).rem
                rw [this] at hst'
                exact absurd hst' (by decide)
              rw [hEoc, if_neg (hany i), if_neg (by simp [hact]), (intOf_limit _ _).2.2.2.1 hst']
              exact isStopping_iff.1 hst'
            · rw [e]
              simp [hr1, hmx]
        · refine .inr (.inl ⟨fun i => ?_, hnoe⟩)
          rw [e]
          simp [hr1]
    · -- the loop goes on
      push Not at hint2
      have hn : ∃ i : Fin n, True := by obtain ⟨i, -⟩ := hne; exact ⟨i, trivial⟩
      have hr1 : rc.1 = true := by
        obtain ⟨i, -⟩ := hn
        by_contra h
        have := hint2 i
        simp [h, interrupted] at this
      have hmx : iters + 1 ≠ maxSteps := by
        obtain ⟨i, -⟩ := hn
        intro h
        have := hint2 i
        rw [if_neg (by simp [hr1]), if_pos h] at this
        exact this (by decide)
      have hocs : ∀ i, (if (!rc.1) = true then Outcome.cbStop else if iters + 1 = maxSteps then Outcome.stepLimit else (sr i).1) = (sr i).1 := by
        intro i
        rw [if_neg (by simp [hr1]), if_neg hmx]
      simp only [hocs] at H hint2
      obtain ⟨N, rs, k1, k2, k3, k4, k5, k6⟩ := ih (iters + 1) _ _ _ _ _ rc.2 act' tb1 lh1 rs'
        (fun i => by rw [hB2]; exact (hP i (hany i)).1) hlen' (fun i => by simpa using hint2 i) (fun i => ⟨rfl, rfl, rfl⟩)
        (fun i h => (hP i (hany i)).2.1 h) (by omega) H
      refine ⟨N, rs, by omega, k2, fun i hi => ?_, fun i hi => ?_, k5, k6⟩
      · obtain ⟨g1, g2⟩ := hM2 i hi
        rw [k3 i g1, g2]
      · by_cases h5 : act' i = false
        · rw [hM4 i hi h5, k3 i h5]
        · have h5 : act' i = true := by simpa using h5
          rw [(hP i (hany i)).2.2.2 h5]
          have := k4 i h5
          rw [hB2] at this
          have hio : intOf N iters (sr i).1 = Outcome.success := by
            unfold intOf
            have hns : isStopping (sr i).1 = false := by
              by_contra h
              have := hint2 i
              simp [interrupted, h] at this
            rw [hns]
            simp only [Bool.false_eq_true, if_false]
            rw [if_neg (by omega)]
          rw [hio]
          exact this

end Heyoka.Integ
