import Verif.Integ.BatchGridLoop
import Verif.Props.BatchDef
import Verif.Props.Grid

/-!
# C58: `propagate_grid()` in batch mode
-/

namespace Heyoka.Integ

set_option linter.unusedSectionVars false

variable {K W G J C V S : Type*} {n : Nat} [Field K] [LinearOrder K] [IsStrictOrderedRing K]

/-! ## The step of length zero at the beginning -/

theorem batch_zero {bstep : BStepF n K W G} {stepF : Fin n → StepF K W} (hlw : LaneWise bstep stepF) (hstep : ∀ i, StepOk (stepF i))
    {maxSteps : Nat} {maxDts : Fin n → XF K} (hm : ∀ i, MaxDtOk (maxDts i)) {fuel : Nat} {B : BInteg n K W G} {tb : Fin n → K}
    (ht : ∀ i, (B.lanes i).time = .fin (tb i)) {ru : BUntilRes n K W G Unit}
    (H : bUntilLoop bstep (fun _ => ()) none (fun i => .fin (tb i)) maxSteps maxDts true false (fun i => decide (0 ≤ tb i - tb i)) fuel 0
      (fun i => .fin (tb i - tb i)) (fun _ => ⟨0, .pinf, .fin 0⟩) ([], []) B = .ok (some ru)) (i : Fin n) :
    ∃ m oc h, m.isNan = false ∧ stepF i (B.lanes i) m true = .ok (oc, h, ru.B.lanes i) ∧ (ru.res i).oc = oc ∧
      (oc ≠ Outcome.errNfState → oc = Outcome.timeLimit ∧ h = .fin 0 ∧ ru.res i = ⟨Outcome.timeLimit, .pinf, .fin 0, 0⟩ ∧
        (ru.B.lanes i).time = .fin (tb i)) ∧
      ∀ N fuel', untilLoop (stepF i) (fun _ => ()) none (.fin (tb i)) N (maxDts i) true false (decide (0 ≤ tb i - tb i)) (fuel' + 1)
        (.fin (tb i - tb i)) Stats.init ⟨[], []⟩ (B.lanes i) = .ok (some ⟨oc, .pinf, .fin 0, 0, none, ru.B.lanes i⟩) := by
  cases fuel with
  | zero => simp [bUntilLoop] at H
  | succ fuel =>
  rw [bUntilLoop] at H
  split at H
  · simp at H
  cases hb : bstep B (fun i => dtLimit (decide (0 ≤ tb i - tb i)) (maxDts i) (.fin (tb i - tb i))) true with
  | throw => rw [hb] at H; simp at H
  | ub => rw [hb] at H; simp at H
  | ok q =>
  obtain ⟨sr, B1⟩ := q
  rw [hb, Res.bind_ok] at H
  have hnan : ∀ i, (dtLimit (decide (0 ≤ tb i - tb i)) (maxDts i) (.fin (tb i - tb i))).isNan = false := by
    intro i
    obtain ⟨μ, hμ, -⟩ := dtLimit_spec (hm i) (tb i - tb i)
    rw [hμ]
    rfl
  have hs := hlw _ _ _ _ _ hnan hb
  dsimp only at H hs
  cases hu : laneUpdates (fun i => laneUpdate (.fin (tb i)) (B1.lanes i).time (.fin (tb i - tb i)) ⟨0, .pinf, .fin 0⟩ (sr i).1 (sr i).2)
      (List.finRange n) (fun i => (.fin (tb i - tb i), ⟨0, .pinf, .fin 0⟩, false)) with
  | throw => rw [hu] at H; simp at H
  | ub => rw [hu] at H; simp at H
  | ok u =>
  rw [hu, Res.bind_ok] at H
  have hu1 : ∀ i, laneUpdate (.fin (tb i)) (B1.lanes i).time (.fin (tb i - tb i)) ⟨0, .pinf, .fin 0⟩ (sr i).1 (sr i).2 = .ok (u i) :=
    fun i => (laneUpdates_ok (List.nodup_finRange n) hu).1 i (List.mem_finRange i)
  have hL : ∀ i, (sr i).1 ≠ Outcome.errNfState → (sr i).1 = Outcome.timeLimit ∧ (sr i).2 = .fin 0 ∧
      u i = (.fin 0, ⟨0, .pinf, .fin 0⟩, true) ∧ (B1.lanes i).time = .fin (tb i) ∧
      ∀ N fuel', untilLoop (stepF i) (fun _ => ()) none (.fin (tb i)) N (maxDts i) true false (decide (0 ≤ tb i - tb i)) (fuel' + 1)
        (.fin (tb i - tb i)) Stats.init ⟨[], []⟩ (B.lanes i) = .ok (some ⟨Outcome.timeLimit, .pinf, .fin 0, 0, none, B1.lanes i⟩) := by
    intro i hnf
    obtain ⟨x, hx, ht1, hup, hdone, -, -, hloop⟩ := lane_iter (C := Unit) (withC := false) (c := ⟨[], []⟩) (hstep i) (hm i) (ht i) rfl
      (by simp) (hs i) hnf (fun _ => ()) ⟨0, .pinf, .fin 0⟩
    have hsi := hs i
    rw [hx] at hsi
    have hsg := lane_sign (hstep i) (hm i) hsi hnf
    have hx0 : x = 0 := by
      have := hsg.1 (by rw [sub_self])
      rw [sub_self] at this
      exact le_antisymm this.2 this.1
    subst hx0
    have hoc := hdone (by rw [sub_self])
    have hup' : (LaneStats.upd ⟨0, .pinf, .fin 0⟩ (sr i).1 (sr i).2 : LaneStats K) = ⟨0, .pinf, .fin 0⟩ := by
      rw [hx, hoc]
      have : ¬ Outcome.timeLimit = Outcome.success := by decide
      simp [LaneStats.upd, this]
    refine ⟨hoc, hx, ?_, by rw [ht1, add_zero], fun N fuel' => ?_⟩
    · have := hu1 i
      rw [hup, if_pos (sub_self _).symm, hup'] at this
      have := Res.ok.inj this
      rw [← this]
      simp
    · have := hloop N fuel' 0
      rw [hup', if_pos (sub_self _).symm] at this
      exact this
  have hF : ∀ i, (sr i).1 = Outcome.errNfState → u i = (.fin (tb i - tb i), ⟨0, .pinf, .fin 0⟩, false) ∧ ∀ N fuel',
      untilLoop (stepF i) (fun _ => ()) none (.fin (tb i)) N (maxDts i) true false (decide (0 ≤ tb i - tb i)) (fuel' + 1)
        (.fin (tb i - tb i)) Stats.init ⟨[], []⟩ (B.lanes i) = .ok (some ⟨Outcome.errNfState, .pinf, .fin 0, 0, none, B1.lanes i⟩) := by
    intro i hnf
    constructor
    · have := hu1 i
      rw [laneUpdate, if_pos hnf] at this
      exact (Res.ok.inj this).symm
    · intro N fuel'
      have hsi := hs i
      rw [hnf] at hsi
      exact lane_iter_nf rfl hsi (fun _ => ()) ⟨0, .pinf, .fin 0⟩ N fuel' 0
  have hr : ru.res = (fun i => ⟨(sr i).1, (u i).2.1.minH, (u i).2.1.maxH, (u i).2.1.steps⟩) ∧ ru.B = B1 := by
    by_cases hany : ∃ i, (sr i).1 = Outcome.errNfState
    · rw [if_pos (by simpa using hany)] at H
      rw [← Option.some.inj (Res.ok.inj H)]
      exact ⟨rfl, rfl⟩
    · rw [if_neg (by simpa using hany)] at H
      push Not at hany
      have hall : ((List.finRange n).all fun i => (u i).2.2) = true :=
        List.all_eq_true.2 fun i _ => by rw [(hL i (hany i)).2.2.1]
      simp only [bUpdateCOut, Bool.false_eq_true, if_false, Res.bind_ok, bRunCb, Bool.not_true, hall, Bool.true_or, if_true] at H
      rw [← Option.some.inj (Res.ok.inj H)]
      exact ⟨rfl, rfl⟩
  rw [hr.1, hr.2]
  refine ⟨_, (sr i).1, (sr i).2, hnan i, hs i, rfl, fun hnf => ?_, fun N fuel' => ?_⟩
  · obtain ⟨h1, h2, h3, h4, -⟩ := hL i hnf
    refine ⟨h1, h2, ?_, h4⟩
    simp only [h3, h1]
  · by_cases hnf : (sr i).1 = Outcome.errNfState
    · rw [(hF i hnf).2, hnf]
    · rw [(hL i hnf).2.2.2.2, (hL i hnf).1]

/-! ## Columns of the grid -/

theorem gridCol_cons {grid : List (XF K)} {i : Fin n} (h : 0 < grid.length / n) :
    ∃ l, gridCol grid i = gridPt grid 0 i :: l ∧ (gridCol grid i).getLast? = some (gridPt grid (grid.length / n - 1) i) ∧
      l.length + 1 = grid.length / n := by
  obtain ⟨m, hm⟩ : ∃ m, grid.length / n = m + 1 := ⟨grid.length / n - 1, by omega⟩
  unfold gridCol
  rw [hm]
  refine ⟨(List.range m).map fun k => gridPt grid (k + 1) i, ?_, ?_, by simp⟩
  · rw [List.range_succ_eq_map]
    simp [Function.comp_def]
  · rw [List.range_succ]
    simp

/-! ## Batch mode is scalar integration -/

/-- **C58.** `propagate_grid()` in batch mode is `propagate_grid()` in scalar mode, lane by lane. Whenever it returns, either the state
of at least one lane was not finite to begin with (no sample is returned then), or there is a number `N` of steps such that for every lane
the call of `propagate_grid()` of a scalar integrator which starts from the lane, with the grid points and the maximal timestep of the
lane, no callback and at most `N` steps, returns the same samples; the lane has the same number of steps, the same smallest and largest
timestep, the same final time and the same state as the scalar integrator. The batch run ends for one of the reasons listed in
`BGridEnding`. (If a lane fails, the samples of the other ones are those computed before the step which has failed.) -/
theorem batch_grid_scalar {nd : Bool} {bstep : BStepF n K W G} {stepF : Fin n → StepF K W} (hlw : LaneWise bstep stepF)
    (hstep : ∀ i, StepOk (stepF i)) (hsl : ∀ i, StepLastH (stepF i)) {view : W → V} (hz : ∀ i, ZeroOk view (stepF i))
    {dense : Integ K W → XF K → S} {state : Integ K W → S} {hi : XF K → XF K} {cb : Option (BCb n K W G)}
    (hcb : ∀ c, cb = some c → Observer c) {fuel maxSteps : Nat} {B : BInteg n K W G} {grid : List (XF K)} {maxDts : List (XF K)}
    {r : BGridRes n K W G S} (hhi : ∀ i, hi (B.lanes i).time = (B.lanes i).time) (hcol : ∀ i : Fin n, gridOk (gridCol grid i) = true)
    (H : bPropagateGrid nd bstep dense state hi fuel B grid maxSteps maxDts cb = .ok (some r)) :
    ((∃ i, (r.res i).oc = Outcome.errNfState) ∧ ∀ i, r.out i = [] ∧
      ∃ oc, r.res i = ⟨oc, .pinf, .fin 0, 0⟩ ∧ (oc = Outcome.timeLimit ∨ (oc = Outcome.errNfState ∧ ∀ N,
        propagateGrid (stepF i) dense state hi (fuel + 1) (B.lanes i) (gridCol grid i) N (laneMaxDts n maxDts i) none =
          .ok (some ⟨oc, .pinf, .fin 0, 0, [], r.B.lanes i⟩)))) ∨
    ∃ (N : Nat) (rs : Fin n → GridRes K W S), 0 < N ∧ (0 < maxSteps → N ≤ maxSteps) ∧
      (∀ i, propagateGrid (stepF i) dense state hi (fuel + 1) (B.lanes i) (gridCol grid i) N (laneMaxDts n maxDts i) none =
        .ok (some (rs i))) ∧
      (∀ i, GridMatch view i (rs i) r) ∧ BGridEnding maxSteps N r rs := by
  unfold bPropagateGrid at H
  by_cases h1 : grid.isEmpty = true
  · rw [if_pos h1] at H; simp at H
  rw [if_neg h1] at H
  by_cases h2 : grid.length % n ≠ 0
  · rw [if_pos h2] at H; simp at H
  rw [if_neg h2] at H
  push Not at h2
  have hlen : 0 < grid.length := List.length_pos_iff.2 (by simpa using h1)
  have hn : 0 < n := by
    rcases Nat.eq_zero_or_pos n with h | h
    · rw [h, Nat.mod_zero] at h2; omega
    · exact h
  have hnp : 0 < grid.length / n := Nat.div_pos (Nat.le_of_dvd hlen (Nat.dvd_of_mod_eq_zero h2)) hn
  by_cases h3 : ((List.finRange n).any fun i => !(B.lanes i).time.isFin) = true
  · rw [if_pos h3] at H; simp at H
  rw [if_neg h3] at H
  simp only at H
  by_cases h4 : (if maxDts.isEmpty then List.replicate n XF.pinf else maxDts).length ≠ n
  · rw [if_pos h4] at H; simp at H
  rw [if_neg h4] at H
  by_cases h5 : ((if maxDts.isEmpty then List.replicate n XF.pinf else maxDts).any fun dt => dt.isNan || dt.le (.fin 0)) = true
  · rw [if_pos h5] at H; simp at H
  rw [if_neg h5] at H
  by_cases h6 : (!bGridOk n grid) = true
  · rw [if_pos h6] at H; simp at H
  rw [if_neg h6] at H
  by_cases h7 : ((List.finRange n).any fun i => !(hi (B.lanes i).time).feq (gridPt grid 0 i)) = true
  · rw [if_pos h7] at H; simp at H
  rw [if_neg h7] at H
  have h7' : ∀ i, (B.lanes i).time.feq (gridPt grid 0 i) = true := by
    intro i
    rw [← hhi i]
    by_contra h
    exact h7 (List.any_eq_true.2 ⟨i, List.mem_finRange i, by simpa using h⟩)
  obtain ⟨L, hL⟩ : ∃ L, L = (if maxDts.isEmpty then List.replicate n XF.pinf else maxDts) := ⟨_, rfl⟩
  have hL1 : L.isEmpty = false := by
    push Not at h4
    rw [← hL] at h4
    have : L ≠ [] := by rintro rfl; simp at h4; omega
    simpa using this
  have hL2 : ∀ i : Fin n, laneMaxDts n L i = laneMaxDts n maxDts i := by
    intro i
    rw [← laneMaxDts_eq L i, ← laneMaxDts_eq maxDts i, ← hL, hL1]
    simp
  rw [← hL] at H
  obtain ⟨ru, hru, H⟩ := bind_eq_ok H
  cases ru with
  | none => simp at H
  | some ru =>
  simp only at H
  rcases bPropagateUntil_cases bstep (fun _ => ()) fuel B (.vec ((List.finRange n).map fun i => gridPt grid 0 i)) maxSteps L none true false
    with h | ⟨ts, tb, tf0, hts, ⟨htb, hts', hm⟩, heq⟩
  · rw [h] at hru; simp at hru
  have hm' : ∀ i, MaxDtOk (laneMaxDts n maxDts i) := fun i => by rw [← hL2 i]; exact hm i
  -- the first grid points are the current times
  have hg0 : ∀ i, gridPt grid 0 i = .fin (tb i) := by
    intro i
    have := h7' i
    rw [htb i] at this
    have := (XF.feq_iff.mp this).1
    exact this.symm
  have htf0 : tf0 = tb := by
    funext i
    simp only [UntilArg.times, List.length_map, List.length_finRange, ne_eq, not_true, if_false, Res.ok.injEq] at hts
    have h8 := congrFun hts i
    rw [hts'] at h8
    have h9 : ((List.finRange n).map fun i => gridPt grid 0 i).getD i .nan = gridPt grid 0 i := by
      rw [List.getD_eq_getElem?_getD]
      simp
    rw [h9, hg0 i] at h8
    exact (XF.fin.inj h8).symm
  rw [heq] at hru
  simp only [bRunPreHook, Res.bind_ok, Bool.or_false, Bool.false_eq_true, if_false, htf0] at hru
  have hZ := batch_zero hlw hstep hm htb hru
  have hmd : (fun i : Fin n => L.getD i .nan) = laneMaxDts n maxDts := by
    funext i
    rw [← hL2 i, ← laneMaxDts_eq L i, hL1]
    simp
  -- the beginning of the scalar function
  have hS : ∀ (i : Fin n) (N : Nat), ∃ (tf : K) (gs : List K), gridCol grid i = .fin (tb i) :: gs.map .fin ∧
      gridPt grid (grid.length / n - 1) i = .fin tf ∧ (XF.fin (tb i) :: gs.map XF.fin).getLast? = some (.fin tf) ∧
      gs.length + 1 = grid.length / n ∧
      propagateGrid (stepF i) dense state hi (fuel + 1) (B.lanes i) (gridCol grid i) N (laneMaxDts n maxDts i) none =
        (if (ru.res i).oc ≠ Outcome.timeLimit then .ok (some ⟨(ru.res i).oc, .pinf, .fin 0, 0, [], ru.B.lanes i⟩)
        else gridLoop (stepF i) dense none (.fin tf) N (laneMaxDts n maxDts i) (decide (0 ≤ tf - tb i)) (fuel + 1) (.fin (tf - tb i))
          Stats.init Outcome.success [state (ru.B.lanes i)] (gs.map .fin) (ru.B.lanes i)) := by
    intro i N
    obtain ⟨m, oc, h, -, hst, hoc, hok, hun⟩ := hZ i
    obtain ⟨l, hl1, hl2, hl3⟩ := gridCol_cons (i := i) hnp
    obtain ⟨g0, gs, hg, -⟩ := grid_accepted_iff.mp (hcol i)
    have hgc := hg
    rw [hl1, List.map_cons, hg0 i] at hg
    simp only [List.cons.injEq, XF.fin.injEq] at hg
    obtain ⟨hgg, hgl⟩ := hg
    rw [← hgg] at hgc
    have hcolc : gridCol grid i = .fin (tb i) :: gs.map .fin := by rw [hgc]; rfl
    obtain ⟨tf, htf⟩ : ∃ tf, (XF.fin (tb i) :: gs.map XF.fin).getLast? = some (.fin tf) := by
      rw [show XF.fin (tb i) :: gs.map XF.fin = (tb i :: gs).map XF.fin from rfl, List.getLast?_map]
      rw [List.getLast?_eq_some_getLast (List.cons_ne_nil _ _)]
      exact ⟨_, rfl⟩
    have hlast : gridPt grid (grid.length / n - 1) i = .fin tf := by
      rw [hcolc, htf] at hl2
      exact (Option.some.inj hl2).symm
    refine ⟨tf, gs, hcolc, hlast, htf, by rw [hgl] at hl3; simpa using hl3, ?_⟩
    unfold propagateGrid
    have g1 : (laneMaxDts n maxDts i).isNan = false := by
      rcases hm' i with e | ⟨M, e, -⟩ <;> rw [e] <;> rfl
    have g2 : (laneMaxDts n maxDts i).le (.fin 0) = false := by
      rcases hm' i with e | ⟨M, e, hM⟩ <;> rw [e]
      · simp [XF.le, XF.lt, XF.feq]
      · simpa using hM
    have g3 := hcol i
    rw [hcolc] at g3 ⊢
    have g4 : (hi (XF.fin (tb i))).feq (.fin (tb i)) = true := by
      have := hhi i
      rw [htb i] at this
      rw [this]
      simp
    have g5 : propagateUntil (stepF i) (fun _ => ()) (fuel + 1) (B.lanes i) (.fin (tb i)) N (laneMaxDts n maxDts i) none true false =
        .ok (some ⟨oc, .pinf, .fin 0, 0, none, ru.B.lanes i⟩) := by
      unfold propagateUntil
      have hw := hun N fuel
      rw [hL2] at hw
      simp only [htb i, XF.isFin_fin, XF.sub_fin, Bool.not_true, Bool.false_eq_true, if_false, g1, g2, runPreHook, Res.bind_ok, XF.le_fin,
        Bool.or_false]
      exact hw
    have g6 : (XF.fin (tb i) :: gs.map XF.fin).getLast (List.cons_ne_nil _ _) = .fin tf := by
      have := htf
      rw [List.getLast?_eq_some_getLast (List.cons_ne_nil _ _)] at this
      exact Option.some.inj this
    simp only [htb i, XF.isFin_fin, Bool.not_true, Bool.false_eq_true, if_false, g1, g2, g3, g4, g5, Res.bind_ok, g6, hoc]
    by_cases hoc' : oc = Outcome.timeLimit
    · have ht := (hok (by rw [hoc']; decide)).2.2.2
      simp only [hoc', ne_eq, not_true, if_false, ht, XF.sub_fin, XF.isFin_fin, Bool.not_true, Bool.false_eq_true, runPreHook, Res.bind_ok,
        XF.le_fin]
    · simp only [ne_eq, hoc', not_false_eq_true, if_true]
  by_cases hany : ∃ i, (ru.res i).oc ≠ Outcome.timeLimit
  · -- failure of the first step
    left
    rw [if_pos (by simpa using hany)] at H
    have e := Option.some.inj (Res.ok.inj H)
    have hcase : ∀ i, (ru.res i).oc = Outcome.timeLimit ∨ (ru.res i).oc = Outcome.errNfState := by
      intro i
      obtain ⟨m, oc, h, -, -, hoc, hok, -⟩ := hZ i
      by_cases h8 : oc = Outcome.errNfState
      · exact .inr (hoc.trans h8)
      · exact .inl (hoc.trans (hok h8).1)
    refine ⟨?_, fun i => ⟨by rw [← e], (ru.res i).oc, by rw [← e], ?_⟩⟩
    · obtain ⟨i, hi'⟩ := hany
      exact ⟨i, by rw [← e]; exact (hcase i).resolve_left hi'⟩
    · rcases hcase i with h8 | h8
      · exact .inl h8
      · refine .inr ⟨h8, fun N => ?_⟩
        obtain ⟨tf, gs, -, -, -, -, h9⟩ := hS i N
        rw [h9, if_pos (by rw [h8]; decide), ← e]
  · right
    rw [if_neg (by simpa using hany)] at H
    push Not at hany
    choose tf gs hT1 hT2 hT3 hT4 hT5 using fun i => hS i 0
    have hZ' : ∀ i, ru.res i = ⟨Outcome.timeLimit, .pinf, .fin 0, 0⟩ ∧ (ru.B.lanes i).time = .fin (tb i) ∧ (ru.B.lanes i).lastH = .fin 0 ∧
        ∃ ta0 m w oc0 h0, stepF i ta0 m w = .ok (oc0, h0, ru.B.lanes i) ∧ oc0 ≠ Outcome.errNfState := by
      intro i
      obtain ⟨m, oc, h, hmn, hst, hoc, hok, -⟩ := hZ i
      have hnf : oc ≠ Outcome.errNfState := by
        rw [← hoc, hany i]; decide
      obtain ⟨k1, k2, k3, k4⟩ := hok hnf
      exact ⟨k3, k4, by rw [← k2]; exact hsl i _ _ _ _ _ _ hmn hst hnf, _, _, _, _, _, hst, hnf⟩
    have e1 : (fun i : Fin n => (gridPt grid (grid.length / n - 1) i).sub (ru.B.lanes i).time) = fun i => .fin (tf i - tb i) := by
      funext i
      rw [hT2 i, (hZ' i).2.1]
      simp
    have e2 : (fun i : Fin n => XF.le (.fin 0) ((gridPt grid (grid.length / n - 1) i).sub (ru.B.lanes i).time)) =
        fun i => decide (0 ≤ tf i - tb i) := by
      funext i
      rw [hT2 i, (hZ' i).2.1]
      simp
    have e3 : (fun i : Fin n => gridPt grid (grid.length / n - 1) i) = fun i => .fin (tf i) := funext hT2
    have e4 : (fun i : Fin n => (gridCol grid i).tail) = fun i => (gs i).map .fin := funext fun i => by rw [hT1 i]; rfl
    rw [if_neg (by
      rw [List.any_eq_true]
      rintro ⟨i, -, h⟩
      rw [hT2 i, (hZ' i).2.1] at h
      simp at h)] at H
    rw [e1, e2, e3, e4, hmd] at H
    obtain ⟨B0, hB0, H⟩ := bind_eq_ok H
    have hlanes := bRunPreHook_lanes hcb hB0
    have hact : ∀ i, ((decide (grid.length / n ≠ 1)) = true ↔ (gs i) ≠ []) := by
      intro i
      have := hT4 i
      rw [decide_eq_true_iff]
      constructor
      · intro h h'; rw [h'] at this; simp at this; omega
      · intro h
        have := List.length_pos_iff.2 h
        omega
    obtain ⟨N, rs, k1, k2, k3, k4, k5, k6⟩ := bGrid_lanes (view := view) hlw hstep hsl hz hcb hm' fuel 0 _ _ _ _ _ B0
      (fun _ => decide (grid.length / n ≠ 1)) tb (fun _ => 0)
      (fun i => ⟨Outcome.timeLimit, .pinf, .fin 0, 0, [state (ru.B.lanes i)], ru.B.lanes i⟩)
      (fun i => ⟨fun ha => by
        have hne := (hact i).1 ha
        rw [hlanes]
        refine ⟨(hZ' i).2.1, rfl, (hZ' i).2.2.1, fun _ => ⟨rfl, by simp⟩, ?_, (hZ' i).2.2.2⟩
        have := hT3 i
        rw [List.getLast?_cons_of_ne_nil (by simpa using hne)] at this
        exact this, fun ha => by
        have hne : gs i = [] := by
          by_contra h
          have := (hact i).2 h
          rw [ha] at this
          simp at this
        have ht := hT3 i
        rw [hne] at ht
        simp only [List.map_nil, List.getLast?_singleton, Option.some.injEq, XF.fin.injEq] at ht
        rw [hlanes]
        exact ⟨by rw [hne]; rfl, by rw [ht, sub_self], by rw [(hZ' i).2.1, ht], (hZ' i).2.2.2, rfl, rfl, rfl, rfl, by
          rw [(hZ' i).2.1, ht], rfl, rfl⟩⟩)
      (fun i => by have := hT4 i; simp; omega) (fun i => by rw [hany i]; decide)
      (fun i => by rw [(hZ' i).1]; exact ⟨rfl, rfl, rfl⟩) (fun i _ => hany i) (by omega) H
    refine ⟨N, rs, k1, k2, fun i => ?_, k5, k6⟩
    obtain ⟨tf', gs', j1, j2, j3, j4, j5⟩ := hS i N
    have hgs : gs' = gs i := by
      have := j1.symm.trans (hT1 i)
      simp only [List.cons.injEq, true_and] at this
      exact List.map_injective_iff.2 (fun a b h => XF.fin.inj h) this
    have htf : tf' = tf i := XF.fin.inj (j2.symm.trans (hT2 i))
    subst hgs
    subst htf
    rw [j5, if_neg (by simp [hany i])]
    by_cases ha : decide (grid.length / n ≠ 1) = true
    · have := k4 i ha
      rw [hlanes] at this
      exact this
    · have ha : decide (grid.length / n ≠ 1) = false := by simpa using ha
      rw [k3 i ha]
      have hne : gs i = [] := by
        by_contra h
        have := (hact i).2 h
        rw [ha] at this
        simp at this
      rw [hne, gridLoop]
      rfl

/-! ## The checks on the grid -/

theorem bGridOk_iff {m np : Nat} {grid : List (XF K)} (hnp : grid.length / (m + 1) = np) :
    bGridOk (m + 1) grid = true ↔ (∀ i : Fin (m + 1), (gridPt grid 0 i).isFin = true) ∧ (np ≤ 1 ∨
      ((∀ i : Fin (m + 1), (gridPt grid 1 i).isFin = true) ∧ (gridPt grid 1 (0 : Fin (m + 1))).feq (gridPt grid 0 (0 : Fin (m + 1))) = false ∧
        (∀ i : Fin m, (gridPt grid 0 i.succ).lt (gridPt grid 1 i.succ) = (gridPt grid 0 (0 : Fin (m + 1))).lt (gridPt grid 1 (0 : Fin (m + 1)))) ∧
        ∀ k, k + 2 < np → ∀ i : Fin (m + 1), (gridPt grid (k + 2) i).isFin = true ∧
          (gridPt grid (k + 1) i).lt (gridPt grid (k + 2) i) = (gridPt grid 0 (0 : Fin (m + 1))).lt (gridPt grid 1 (0 : Fin (m + 1))))) := by
  unfold bGridOk
  rw [hnp, List.finRange_succ]
  simp only [Bool.and_eq_true, Bool.or_eq_true, decide_eq_true_eq, List.all_eq_true, List.mem_cons, forall_eq_or_imp, List.mem_map,
    List.mem_finRange, true_and, forall_exists_index, forall_apply_eq_imp_iff, Bool.not_eq_true', beq_iff_eq, List.mem_range]
  have h1 : ∀ P : Fin (m + 1) → Prop, (P 0 ∧ ∀ i : Fin m, P i.succ) ↔ ∀ i, P i := fun P => (Fin.forall_fin_succ (P := P)).symm
  rw [h1 fun i => (gridPt grid 0 i).isFin = true, h1 fun i => (gridPt grid 1 i).isFin = true]
  refine and_congr_right fun _ => or_congr_right (and_congr_right fun _ => ?_)
  rw [and_assoc]
  refine and_congr_right fun _ => and_congr_right fun _ => ?_
  constructor
  · intro h k hk i
    obtain ⟨⟨h2, h3⟩, h4, h5⟩ := h k (by omega)
    exact ⟨(h1 fun i => (gridPt grid (k + 2) i).isFin = true).1 ⟨h2, h3⟩ i,
      (h1 fun i => (gridPt grid (k + 1) i).lt (gridPt grid (k + 2) i) = (gridPt grid 0 (0 : Fin (m + 1))).lt (gridPt grid 1 (0 : Fin (m + 1)))).1 ⟨h4, h5⟩ i⟩
  · intro h k hk
    have h' := h k (by omega)
    exact ⟨⟨(h' 0).1, fun i => (h' i.succ).1⟩, (h' 0).2, fun i => (h' i.succ).2⟩

/-- **C58.** The accepted grids: all the points are finite and either all the lanes are strictly increasing, or no lane is
increasing anywhere and the first lane decreases at its second point. -/
theorem batch_grid_accepted_iff {m np : Nat} {grid : List (XF K)} (hnp : grid.length / (m + 1) = np) (h0 : 0 < np) :
    bGridOk (m + 1) grid = true ↔ ∃ g : ℕ → Fin (m + 1) → K, (∀ k < np, ∀ i, gridPt grid k i = .fin (g k i)) ∧
      ((∀ k, k + 1 < np → ∀ i, g k i < g (k + 1) i) ∨
        ((∀ k, k + 1 < np → ∀ i, g (k + 1) i ≤ g k i) ∧ (1 < np → g 1 0 < g 0 0))) := by
  rw [bGridOk_iff hnp]
  constructor
  · rintro ⟨h1, h2⟩
    have hfin : ∀ k, ∃ f : Fin (m + 1) → K, k < np → ∀ i, gridPt grid k i = .fin (f i) := by
      intro k
      by_cases hk : k < np
      · have : ∀ i : Fin (m + 1), ∃ x, gridPt grid k i = .fin x := by
          intro i
          refine (XF.isFin_iff _).mp ?_
          match k, hk with
          | 0, _ => exact h1 i
          | 1, hk => exact (h2.resolve_left (by omega)).1 i
          | k + 2, hk => exact ((h2.resolve_left (by omega)).2.2.2 k hk i).1
        choose f hf using this
        exact ⟨f, fun _ => hf⟩
      · exact ⟨fun _ => 0, fun h => absurd h hk⟩
    choose g hg using hfin
    refine ⟨g, hg, ?_⟩
    by_cases hn1 : np ≤ 1
    · exact .inl fun k hk => absurd hk (by omega)
    obtain ⟨-, h3, h4, h5⟩ := h2.resolve_left hn1
    have e0 := hg 0 (by omega)
    have e1 := hg 1 (by omega)
    rw [e0, e1] at h3
    simp only [XF.feq_fin, decide_eq_false_iff_not] at h3
    have key : ∀ k, k + 1 < np → ∀ i, decide (g k i < g (k + 1) i) = decide (g 0 0 < g 1 0) := by
      intro k hk i
      match k, hk with
      | 0, _ =>
        refine Fin.cases ?_ (fun i => ?_) i
        · rfl
        · have := h4 i
          rw [e0, e1, e0, e1] at this
          simpa using this
      | k + 1, hk =>
        have := (h5 k (by omega) i).2
        rw [hg (k + 1) (by omega), hg (k + 2) (by omega), e0, e1] at this
        simpa using this
    rcases lt_or_gt_of_ne h3 with h6 | h6
    · right
      refine ⟨fun k hk i => ?_, fun _ => h6⟩
      have := key k hk i
      rw [decide_eq_false (not_lt.2 h6.le), decide_eq_false_iff_not] at this
      exact not_lt.1 this
    · left
      intro k hk i
      have := key k hk i
      rwa [decide_eq_true h6, decide_eq_true_eq] at this
  · rintro ⟨g, hg, h⟩
    refine ⟨fun i => by rw [hg 0 h0]; rfl, ?_⟩
    by_cases hn1 : np ≤ 1
    · exact .inl hn1
    right
    have e0 := hg 0 (by omega)
    have e1 := hg 1 (by omega)
    refine ⟨fun i => by rw [e1]; rfl, ?_⟩
    rw [e0, e1]
    have key : ∀ k, k + 1 < np → ∀ i, decide (g k i < g (k + 1) i) = decide (g 0 0 < g 1 0) := by
      intro k hk i
      rcases h with h | ⟨h, h'⟩
      · rw [decide_eq_true (h k hk i), decide_eq_true (h 0 (by omega) 0)]
      · rw [decide_eq_false (not_lt.2 (h k hk i)), decide_eq_false (not_lt.2 (h' (by omega)).le)]
    refine ⟨?_, fun i => ?_, fun k hk i => ⟨by rw [hg (k + 2) hk]; rfl, ?_⟩⟩
    · simp only [XF.feq_fin, decide_eq_false_iff_not]
      rcases h with h | ⟨-, h⟩
      · exact (h 0 (by omega) 0).ne'
      · exact (h (by omega)).ne
    · rw [e0, e1]
      simpa using key 0 (by omega) i.succ
    · rw [hg (k + 1) (by omega), hg (k + 2) (by omega)]
      simpa using key (k + 1) (by omega) i

/-- **C58.** The columns of an accepted grid are accepted in scalar mode, if the second point differs from the first one in each lane. -/
theorem batch_grid_columns {m : Nat} {grid : List (XF K)} (h0 : 0 < grid.length / (m + 1)) (h : bGridOk (m + 1) grid = true)
    (hne : 1 < grid.length / (m + 1) → ∀ i : Fin (m + 1), gridPt grid 1 i ≠ gridPt grid 0 i) (i : Fin (m + 1)) :
    gridOk (gridCol grid i) = true := by
  obtain ⟨g, hg, h⟩ := (batch_grid_accepted_iff rfl h0).1 h
  generalize hnp : grid.length / (m + 1) = np at *
  rw [grid_accepted_iff]
  obtain ⟨q, rfl⟩ : ∃ q, np = q + 1 := ⟨np - 1, by omega⟩
  refine ⟨g 0 i, (List.range q).map fun k => g (k + 1) i, ?_, ?_⟩
  · unfold gridCol
    rw [hnp, List.range_succ_eq_map]
    simp only [List.map_cons, List.map_map, List.cons.injEq]
    refine ⟨hg 0 h0 i, List.map_congr_left fun k hk => ?_⟩
    exact hg (k + 1) (by have := List.mem_range.1 hk; omega) i
  have hcons : (g 0 i :: (List.range q).map fun k => g (k + 1) i) = (List.range (q + 1)).map fun k => g k i := by
    rw [List.range_succ_eq_map]
    simp [Function.comp_def]
  rw [hcons]
  rcases h with h | ⟨h, -⟩
  · left
    rw [List.pairwise_map]
    refine List.pairwise_lt_range.imp_of_mem fun {a b} ha hb hab => ?_
    have hb := List.mem_range.1 hb
    have : ∀ d, a + d + 1 < q + 1 → g a i < g (a + d + 1) i := by
      intro d
      induction d with
      | zero => intro hd; exact h a hd i
      | succ d ih => intro hd; exact (ih (by omega)).trans (h (a + d + 1) (by omega) i)
    have := this (b - a - 1) (by omega)
    rwa [show a + (b - a - 1) + 1 = b by omega] at this
  · right
    have mono : ∀ a d, a + d < q + 1 → g (a + d) i ≤ g a i := by
      intro a d
      induction d with
      | zero => intro _; exact le_refl _
      | succ d ih => intro hd; exact (h (a + d) (by omega) i).trans (ih (by omega))
    constructor
    · rw [List.pairwise_map]
      refine List.pairwise_lt_range.imp_of_mem fun {a b} ha hb hab => ?_
      have hb := List.mem_range.1 hb
      have := mono a (b - a) (by omega)
      rwa [show a + (b - a) = b by omega] at this
    · intro x hx
      obtain ⟨k, hk, rfl⟩ := List.mem_map.1 hx
      have hk := List.mem_range.1 hk
      have h1 : g 1 i < g 0 i := by
        refine lt_of_le_of_ne (h 0 (by omega) i) fun e => ?_
        refine hne (by omega) i ?_
        rw [hg 1 (by omega), hg 0 (by omega), e]
      have := mono 1 k (by omega)
      rw [show 1 + k = k + 1 by omega] at this
      exact lt_of_le_of_lt this h1

/-- **C58.** Invalid arguments are rejected before the integrator is changed: an empty grid, a grid whose size is not a multiple
of the batch size, a non-finite current time, maximal timesteps of the wrong number or not positive, a grid which is not accepted, a
first grid point which differs from the current time. -/
theorem batch_grid_invalid {nd : Bool} {bstep : BStepF n K W G} {dense : Integ K W → XF K → S} {state : Integ K W → S} {hi : XF K → XF K}
    {cb : Option (BCb n K W G)} {fuel maxSteps : Nat} {B : BInteg n K W G} {grid : List (XF K)} {maxDts : List (XF K)}
    (h : grid = [] ∨ ¬ n ∣ grid.length ∨ (∃ i, (B.lanes i).time.isFin = false) ∨ (maxDts ≠ [] ∧ maxDts.length ≠ n) ∨
      (∃ x ∈ maxDts, x.isNan = true ∨ x.le (.fin 0) = true) ∨ bGridOk n grid = false ∨
      ∃ i, (hi (B.lanes i).time).feq (gridPt grid 0 i) = false) :
    bPropagateGrid nd bstep dense state hi fuel B grid maxSteps maxDts cb = .throw := by
  unfold bPropagateGrid
  by_cases h1 : grid.isEmpty = true
  · rw [if_pos h1]
  rw [if_neg h1]
  by_cases h2 : grid.length % n ≠ 0
  · rw [if_pos h2]
  rw [if_neg h2]
  push Not at h2
  by_cases h3 : ((List.finRange n).any fun i => !(B.lanes i).time.isFin) = true
  · rw [if_pos h3]
  rw [if_neg h3]
  simp only
  by_cases h4 : (if maxDts.isEmpty then List.replicate n XF.pinf else maxDts).length ≠ n
  · rw [if_pos h4]
  rw [if_neg h4]
  by_cases h5 : ((if maxDts.isEmpty then List.replicate n XF.pinf else maxDts).any fun dt => dt.isNan || dt.le (.fin 0)) = true
  · rw [if_pos h5]
  rw [if_neg h5]
  by_cases h6 : (!bGridOk n grid) = true
  · rw [if_pos h6]
  rw [if_neg h6]
  by_cases h7 : ((List.finRange n).any fun i => !(hi (B.lanes i).time).feq (gridPt grid 0 i)) = true
  · rw [if_pos h7]
  exfalso
  rcases h with h | h | ⟨i, h⟩ | ⟨h, h'⟩ | ⟨x, hx, h⟩ | h | ⟨i, h⟩
  · exact h1 (by simp [h])
  · exact h (Nat.dvd_of_mod_eq_zero h2)
  · exact h3 (List.any_eq_true.2 ⟨i, List.mem_finRange i, by simp [h]⟩)
  · rw [if_neg (by simpa using h)] at h4
    exact h4 h'
  · have hne : maxDts ≠ [] := by rintro rfl; simp at hx
    rw [if_neg (by simpa using hne)] at h5
    exact h5 (List.any_eq_true.2 ⟨x, hx, by rcases h with h | h <;> simp [h]⟩)
  · exact h6 (by simp [h])
  · exact h7 (List.any_eq_true.2 ⟨i, List.mem_finRange i, by simp [h]⟩)

/-! ## No undefined behaviour -/

theorem bGridLoop_not_ub {bstep : BStepF n K W G} {stepF : Fin n → StepF K W} (hlw : LaneWise bstep stepF)
    (hstep : ∀ i, StepOk (stepF i)) {I : BInteg n K W G → Prop} (hub : BStepDefined I bstep) {dense : Integ K W → XF K → S}
    {cb : Option (BCb n K W G)} (hcb : ∀ c, cb = some c → BCbDefined I c) {tf : Fin n → K} {maxSteps : Nat} {maxDts : Fin n → XF K}
    (hm : ∀ i, MaxDtOk (maxDts i)) {dir : Fin n → Bool} {np : Nat} :
    ∀ (fuel iters : Nat) (tb : Fin n → K) (rem : Fin n → XF K) (st : Fin n → LaneStats K) (res : Fin n → LaneRes K) (out : Fin n → List S)
      (gs : Fin n → List (XF K)) (B : BInteg n K W G), I B → (∀ i, (B.lanes i).time = .fin (tb i)) →
      (∀ i, rem i = .fin (tf i - tb i)) → (∀ i, tf i - tb i ≠ 0 → dir i = decide (0 ≤ tf i - tb i)) →
      bGridLoop true bstep dense cb (fun i => .fin (tf i)) maxSteps maxDts dir np fuel iters rem st res out gs B ≠ .ub := by
  intro fuel
  induction fuel with
  | zero => intro iters tb rem st res out gs B _ _ _ _; simp [bGridLoop]
  | succ fuel ih =>
    intro iters tb rem st res out gs B hI ht hrem hdir
    rw [bGridLoop]
    split
    · simp
    split
    · simp
    simp only [Bool.not_true, Bool.false_and, Bool.false_eq_true, if_false]
    split
    · simp
    split
    · simp
    rw [if_neg]
    swap
    · rw [List.any_eq_true]
      rintro ⟨i, -, h⟩
      rw [hrem i] at h
      simp only [Bool.and_eq_true, bne_iff_ne, ne_eq, Bool.not_eq_true', XF.le_fin, XF.feq_fin, decide_eq_false_iff_not] at h
      exact h.1 (hdir i h.2).symm
    have hnan : ∀ i, (dtLimit (dir i) (maxDts i) (rem i)).isNan = false := by
      intro i
      rw [hrem i]
      by_cases h0 : tf i - tb i = 0
      · rw [h0, dtLimit_zero (hm i)]; rfl
      · obtain ⟨μ, hμ, -⟩ := dtLimit_spec (hm i) (tf i - tb i)
        rw [hdir i h0, hμ]
        rfl
    cases hb : bstep B (fun i => dtLimit (dir i) (maxDts i) (rem i)) true with
    | throw => simp
    | ub => exact absurd hb (hub B _ true hI hnan).1
    | ok q =>
      obtain ⟨sr, B1⟩ := q
      have hI1 : I B1 := (hub B _ true hI hnan).2 _ hb
      have hs := hlw _ _ _ _ _ hnan hb
      rw [Res.bind_ok]
      dsimp only at hs ⊢
      have hl := fun i => lane_defined (hstep i) (hm i) (ht i) (hdir i) (by rw [← hrem i]; exact hs i) (st i)
      choose a ha1 ha2 using hl
      obtain ⟨u, hu⟩ := laneUpdates_defined (f := fun i => laneUpdate (.fin (tf i)) (B1.lanes i).time (rem i) (st i) (sr i).1 (sr i).2)
        (is := List.finRange n) (acc := fun i => (rem i, st i, false)) fun i _ => ⟨a i, by rw [hrem i]; exact ha1 i⟩
      have hua : ∀ i, u i = a i := by
        intro i
        have := (laneUpdates_ok (List.nodup_finRange n) hu).1 i (List.mem_finRange i)
        rw [hrem i, ha1 i] at this
        exact (Res.ok.inj this).symm
      rw [hu, Res.bind_ok]
      by_cases hany : ∃ i, (sr i).1 = Outcome.errNfState
      · rw [if_pos (by simpa using hany)]
        simp
      · rw [if_neg (by simpa using hany)]
        push Not at hany
        have hl2 := fun i => ha2 i (hany i)
        choose x hx1 hx2 hx3 hx4 using hl2
        have hsafe := bRunCb_defined hcb hI1 hx1
        cases hrc : bRunCb cb B1 with
        | throw => simp
        | ub => exact absurd hrc hsafe.1
        | ok rc =>
          rw [Res.bind_ok]
          obtain ⟨k1, k2⟩ := hsafe.2 rc hrc
          exact ih (iters + 1) (fun i => tb i + x i) _ _ _ _ _ rc.2 k1 k2 (fun i => by rw [hua i]; exact hx2 i) hx3

/-- **C58.** In a release build `propagate_grid()` in batch mode has no undefined behaviour, and none of its assertions other than the one on the
outcomes (see `batch_grid_assert_fails`) is violated. -/
theorem batch_grid_not_ub {bstep : BStepF n K W G} {stepF : Fin n → StepF K W} (hlw : LaneWise bstep stepF)
    (hstep : ∀ i, StepOk (stepF i)) {I : BInteg n K W G → Prop} (hub : BStepDefined I bstep) {dense : Integ K W → XF K → S}
    {state : Integ K W → S} {hi : XF K → XF K} {cb : Option (BCb n K W G)} (hcb : ∀ c, cb = some c → BCbDefined I c) {fuel maxSteps : Nat}
    {B : BInteg n K W G} (hI : I B) {grid : List (XF K)} {maxDts : List (XF K)} :
    bPropagateGrid true bstep dense state hi fuel B grid maxSteps maxDts cb ≠ .ub := by
  unfold bPropagateGrid
  by_cases h1 : grid.isEmpty = true
  · rw [if_pos h1]; simp
  rw [if_neg h1]
  by_cases h2 : grid.length % n ≠ 0
  · rw [if_pos h2]; simp
  rw [if_neg h2]
  by_cases h3 : ((List.finRange n).any fun i => !(B.lanes i).time.isFin) = true
  · rw [if_pos h3]; simp
  rw [if_neg h3]
  simp only
  by_cases h4 : (if maxDts.isEmpty then List.replicate n XF.pinf else maxDts).length ≠ n
  · rw [if_pos h4]; simp
  rw [if_neg h4]
  by_cases h5 : ((if maxDts.isEmpty then List.replicate n XF.pinf else maxDts).any fun dt => dt.isNan || dt.le (.fin 0)) = true
  · rw [if_pos h5]; simp
  rw [if_neg h5]
  by_cases h6 : (!bGridOk n grid) = true
  · rw [if_pos h6]; simp
  rw [if_neg h6]
  by_cases h7 : ((List.finRange n).any fun i => !(hi (B.lanes i).time).feq (gridPt grid 0 i)) = true
  · rw [if_pos h7]; simp
  rw [if_neg h7]
  have hm : ∀ i : Fin n, MaxDtOk ((if maxDts.isEmpty then List.replicate n XF.pinf else maxDts).getD i .nan) := by
    intro i
    push Not at h4
    generalize (if maxDts.isEmpty then List.replicate n XF.pinf else maxDts) = L at *
    have hlt : (i : ℕ) < L.length := by rw [h4]; exact i.2
    have hmem : L.getD i .nan ∈ L := by
      rw [List.getD_eq_getElem?_getD, List.getElem?_eq_getElem hlt]
      exact List.getElem_mem hlt
    exact maxDtOk_of_checks (fun h => h5 (List.any_eq_true.2 ⟨_, hmem, by rw [h]; rfl⟩)) fun h =>
      h5 (List.any_eq_true.2 ⟨_, hmem, by rw [h, Bool.or_true]⟩)
  have hsafe := batch_until_safe hlw hstep hub (tcOf := fun _ => ()) (cb := none) (by simp) (fuel := fuel) (maxSteps := maxSteps) hI
    (arg := .vec ((List.finRange n).map fun i => gridPt grid 0 i)) (maxDts := if maxDts.isEmpty then List.replicate n XF.pinf else maxDts)
    (wtc := true) (withC := false)
  generalize bPropagateUntil bstep (fun _ => ()) fuel B (.vec ((List.finRange n).map fun i => gridPt grid 0 i)) maxSteps
    (if maxDts.isEmpty then List.replicate n XF.pinf else maxDts) none true false = x at *
  cases x with
  | throw => simp
  | ub => exact absurd rfl hsafe.1
  | ok ru =>
    rw [Res.bind_ok]
    cases ru with
    | none => simp
    | some ru =>
      have hI1 := hsafe.2 _ rfl ru rfl
      simp only
      split
      · simp
      by_cases h8 : ((List.finRange n).any fun i => !((gridPt grid (grid.length / n - 1) i).sub (ru.B.lanes i).time).isFin) = true
      · rw [if_pos h8]; simp
      rw [if_neg h8]
      have h8' : ∀ i, ∃ tf tb, gridPt grid (grid.length / n - 1) i = .fin tf ∧ (ru.B.lanes i).time = .fin tb := by
        intro i
        have : ((gridPt grid (grid.length / n - 1) i).sub (ru.B.lanes i).time).isFin = true := by
          by_contra h
          exact h8 (List.any_eq_true.2 ⟨i, List.mem_finRange i, by simpa using h⟩)
        cases ha : gridPt grid (grid.length / n - 1) i <;> cases hb : (ru.B.lanes i).time <;> rw [ha, hb] at this <;>
          simp [XF.sub, XF.add, XF.neg, XF.isFin] at this ⊢
      choose tf tb htf htb using h8'
      have hsafe2 := bRunPreHook_defined hcb hI1 htb
      cases hp : bRunPreHook cb ru.B with
      | throw => simp
      | ub => exact absurd hp hsafe2.1
      | ok B0 =>
        rw [Res.bind_ok]
        obtain ⟨k1, k2⟩ := hsafe2.2 B0 hp
        have e3 : (fun i : Fin n => gridPt grid (grid.length / n - 1) i) = fun i => .fin (tf i) := funext htf
        rw [e3]
        exact bGridLoop_not_ub hlw hstep hub hcb hm fuel 0 tb _ _ _ _ _ B0 k1 k2 (fun i => by rw [htf i, htb i]; simp)
          (fun i _ => by rw [htf i, htb i]; simp)

/-! ## Termination -/

/-- **C58.** With a nonzero `max_steps` the loops never need more than `max_steps + 1` iterations. -/
theorem batch_grid_max_steps {nd : Bool} {bstep : BStepF n K W G} {dense : Integ K W → XF K → S} {state : Integ K W → S}
    {hi : XF K → XF K} {cb : Option (BCb n K W G)} {fuel maxSteps : Nat} {B : BInteg n K W G} {grid : List (XF K)} {maxDts : List (XF K)}
    (h0 : 0 < maxSteps) (hf : maxSteps < fuel) : bPropagateGrid nd bstep dense state hi fuel B grid maxSteps maxDts cb ≠ .ok none := by
  have key : ∀ (last : Fin n → XF K) (mx : Fin n → XF K) (dir : Fin n → Bool) (np fuel : Nat) (iters : Nat) (rem : Fin n → XF K)
      (st : Fin n → LaneStats K) (res : Fin n → LaneRes K) (out : Fin n → List S) (gs : Fin n → List (XF K)) (B : BInteg n K W G),
      (iters < maxSteps ∨ ∀ i, interrupted (res i).oc = true) → iters ≤ maxSteps → maxSteps < iters + fuel → (∀ i, (gs i).length ≤ np) →
      bGridLoop nd bstep dense cb last maxSteps mx dir np fuel iters rem st res out gs B ≠ .ok none := by
    intro last mx dir np fuel
    induction fuel with
    | zero => intro iters rem st res out gs B h1 h2 h3 h4 H; omega
    | succ fuel ih =>
      intro iters rem st res out gs B h1 h2 h3 h4 H
      rw [bGridLoop] at H
      split at H
      · simp at H
      rename_i hne
      rw [bGridInner_lanes dense B _ _ rem (np + 1) (fun _ => true) out gs (by omega) (fun i _ => by have := h4 i; omega)] at H
      simp only [if_true] at H
      split at H
      · split at H <;> simp at H
      split at H
      · simp at H
      rename_i hint
      have h1' : iters < maxSteps := by
        rcases h1 with h1 | h1
        · exact h1
        · exfalso
          have : ∃ i : Fin n, True := by
            by_contra hno
            push Not at hno
            exact hne (List.all_eq_true.2 fun i _ => (hno i).elim)
          obtain ⟨i, -⟩ := this
          exact hint (List.any_eq_true.2 ⟨i, List.mem_finRange i, h1 i⟩)
      split at H
      · simp at H
      obtain ⟨r, -, H⟩ := bind_eq_ok H
      obtain ⟨u, -, H⟩ := bind_eq_ok H
      split at H
      · simp at H
      obtain ⟨rc, -, H⟩ := bind_eq_ok H
      refine ih _ _ _ _ _ _ _ ?_ (by omega) (by omega) (fun i => (gridInner_length _ _ _ _ _ _).trans (h4 i)) H
      by_cases hm : iters + 1 = maxSteps
      · right
        intro i
        simp only [hm, if_true]
        split <;> decide
      · left; omega
  unfold bPropagateGrid
  intro H
  by_cases h1 : grid.isEmpty = true
  · rw [if_pos h1] at H; simp at H
  rw [if_neg h1] at H
  by_cases h2 : grid.length % n ≠ 0
  · rw [if_pos h2] at H; simp at H
  rw [if_neg h2] at H
  by_cases h3 : ((List.finRange n).any fun i => !(B.lanes i).time.isFin) = true
  · rw [if_pos h3] at H; simp at H
  rw [if_neg h3] at H
  simp only at H
  by_cases h4 : (if maxDts.isEmpty then List.replicate n XF.pinf else maxDts).length ≠ n
  · rw [if_pos h4] at H; simp at H
  rw [if_neg h4] at H
  by_cases h5 : ((if maxDts.isEmpty then List.replicate n XF.pinf else maxDts).any fun dt => dt.isNan || dt.le (.fin 0)) = true
  · rw [if_pos h5] at H; simp at H
  rw [if_neg h5] at H
  by_cases h6 : (!bGridOk n grid) = true
  · rw [if_pos h6] at H; simp at H
  rw [if_neg h6] at H
  by_cases h7 : ((List.finRange n).any fun i => !(hi (B.lanes i).time).feq (gridPt grid 0 i)) = true
  · rw [if_pos h7] at H; simp at H
  rw [if_neg h7] at H
  obtain ⟨ru, hru, H⟩ := bind_eq_ok H
  cases ru with
  | none => exact batch_until_max_steps h0 (by omega) hru
  | some ru =>
    simp only at H
    split at H
    · simp at H
    split at H
    · simp at H
    obtain ⟨B0, -, H⟩ := bind_eq_ok H
    refine key _ _ _ _ _ _ _ _ _ _ _ _ (.inl h0) (by omega) (by omega) (fun i => ?_) H
    unfold gridCol
    simp

/-! ## Demonstrations and findings -/

/-- What is observable in the results: outcome, steps, time and samples of each lane. -/
def gViewRes {n : Nat} {K W G S : Type*} : Res (Option (BGridRes n K W G S)) → Option (List ((Int × Nat) × XF K × List S) × G)
  | .ok (some r) => some ((List.finRange n).map fun i => (((r.res i).oc, (r.res i).steps), (r.B.lanes i).time, r.out i), r.B.glob)
  | _ => none

/-- Whether the behaviour is undefined or an assertion is violated. -/
def isUb {α : Type*} : Res α → Bool
  | .ub => true
  | _ => false

/-- Samples: the time at the end of the step from which the sample is computed, and the grid point. -/
def demoDense (L : Integ ℚ DemoW) (t : XF ℚ) : XF ℚ × XF ℚ := (L.time, t)

/-- The grid of the two lanes: `10, 17/2, 7` and `0, -1/2, -4`. -/
def demoGrid : List (XF ℚ) := [.fin 10, .fin 0, .fin (17 / 2), .fin (-1 / 2), .fin 7, .fin (-4)]

example : bGridOk 2 demoGrid = true ∧ (∀ i : Fin 2, gridOk (gridCol demoGrid i) = true) := by decide +kernel

/-- The second point of the second lane is the first one: accepted by the batch integrator only. -/
example : bGridOk 2 ([.fin 1, .fin 1, .fin 0, .fin 1] : List (XF ℚ)) = true ∧
    gridOk (gridCol ([.fin 1, .fin 1, .fin 0, .fin 1] : List (XF ℚ)) (1 : Fin 2)) = false ∧
    bGridOk 2 ([.fin 1, .fin 1, .fin 1, .fin 0] : List (XF ℚ)) = false ∧
    bGridOk 2 ([.fin 1, .fin 1, .fin 2, .fin 0] : List (XF ℚ)) = false := by decide +kernel

set_option synthInstance.maxSize 4096 in
/-- Four steps are taken in total, the first lane stops counting at the third one. -/
example : gViewRes (bPropagateGrid false (bStepImpl demoEnv none fun _ => (0, .nan)) demoDense (fun L => (L.time, L.time)) id 10 demoB demoGrid 0 []
    (some demoBCb)) =
    some ([((Outcome.timeLimit, 3), .fin 7, [(.fin 10, .fin 10), (.fin 8, .fin (17 / 2)), (.fin 7, .fin 7)]),
      ((Outcome.timeLimit, 4), .fin (-4), [(.fin 0, .fin 0), (.fin (-1), .fin (-1 / 2)), (.fin (-4), .fin (-4))])], 104) := by
  decide +kernel

example (nd : Bool) (fuel maxSteps : ℕ) (res0 : StepRes 2 ℚ) (r : BGridRes 2 ℚ DemoW ℕ (XF ℚ × XF ℚ))
    (H : bPropagateGrid nd (bStepImpl demoEnv none res0) demoDense (fun L => (L.time, L.time)) id fuel demoB demoGrid maxSteps [] (some demoBCb) =
      .ok (some r)) :
    ((∃ i, (r.res i).oc = Outcome.errNfState) ∧ ∀ i, r.out i = [] ∧
      ∃ oc, r.res i = ⟨oc, .pinf, .fin 0, 0⟩ ∧ (oc = Outcome.timeLimit ∨ (oc = Outcome.errNfState ∧ ∀ N,
        propagateGrid (stepImpl demoEnv none) demoDense (fun L => (L.time, L.time)) id (fuel + 1) (demoB.lanes i) (gridCol demoGrid i) N
          (laneMaxDts 2 [] i) none = .ok (some ⟨oc, .pinf, .fin 0, 0, [], r.B.lanes i⟩)))) ∨
    ∃ (N : Nat) (rs : Fin 2 → GridRes ℚ DemoW (XF ℚ × XF ℚ)), 0 < N ∧ (0 < maxSteps → N ≤ maxSteps) ∧
      (∀ i, propagateGrid (stepImpl demoEnv none) demoDense (fun L => (L.time, L.time)) id (fuel + 1) (demoB.lanes i) (gridCol demoGrid i) N
        (laneMaxDts 2 [] i) none = .ok (some (rs i))) ∧ (∀ i, GridMatch id i (rs i) r) ∧ BGridEnding maxSteps N r rs :=
  batch_grid_scalar (batch_step_lanes (evs := none) (sevs := fun _ => none) (fun _ => rfl) res0)
    (fun _ => step_contract (n := 1) (m := 2) (by simp) demoEnv_ok (by norm_num)) (fun _ => step_lastH (by simp) demoEnv_ok.sortedN)
    (fun _ => zero_step demoEnv_ok demoEnv_zero (demo_keepsFinite _))
    (fun c hc => by
      obtain rfl := Option.some.inj hc
      exact ⟨fun _ _ _ h => by
        have e := Res.ok.inj h
        simp only [Prod.mk.injEq] at e
        rw [← e.2], fun _ _ h => by rw [← Res.ok.inj h]⟩)
    (fun _ => rfl) (by decide +kernel) H

set_option synthInstance.maxSize 4096 in
/-- **C58, finding Q.** The assertion that all the outcomes are `time_limit` when the grid has been covered does not hold: with `max_steps`
equal to the number of steps which are needed the outcomes are `step_limit`. A debug build aborts, a release build returns all the samples. -/
theorem batch_grid_assert_fails :
    isUb (bPropagateGrid false (bStepImpl demoEnv none fun _ => (0, .nan)) demoDense (fun L => (L.time, L.time)) id 10 demoB demoGrid 4 []
      none) = true ∧
    gViewRes (bPropagateGrid true (bStepImpl demoEnv none fun _ => (0, .nan)) demoDense (fun L => (L.time, L.time)) id 10 demoB demoGrid 4 []
      none) =
      some ([((Outcome.stepLimit, 3), .fin 7, [(.fin 10, .fin 10), (.fin 8, .fin (17 / 2)), (.fin 7, .fin 7)]),
        ((Outcome.stepLimit, 4), .fin (-4), [(.fin 0, .fin 0), (.fin (-1), .fin (-1 / 2)), (.fin (-4), .fin (-4))])], 0) := by
  decide +kernel

/-- The outcomes of the lanes. -/
def gOcs : Res (Option (BGridRes 2 ℚ DemoW Unit (XF ℚ × XF ℚ))) → Option (List Int)
  | .ok (some r) => some [(r.res 0).oc, (r.res 1).oc]
  | _ => none

/-- The outcome of a scalar run. -/
def gOcS : Res (Option (GridRes ℚ DemoW (XF ℚ × XF ℚ))) → Option Int
  | .ok (some r) => some r.oc
  | _ => none

set_option synthInstance.maxSize 4096 in
/-- **C58, finding R.** The outcome of a stopping terminal event is lost if the event triggers in the last step allowed by `max_steps`: the
outcome of all the lanes is `step_limit`. In the same situation `propagate_grid()` of a scalar integrator and `propagate_until()` of a batch
integrator report the event. -/
theorem batch_grid_event_lost :
    gOcs (bPropagateGrid true (bStepImpl demoEnv (some ([⟨3 / 2, none⟩], demoBNtes)) fun _ => (0, .nan)) demoDense (fun L => (L.time, L.time)) id
      10 cdB [.fin 0, .fin 0, .fin 10, .fin 10] 1 [] none) = some [Outcome.stepLimit, Outcome.stepLimit] ∧
    gOcs (bPropagateGrid true (bStepImpl demoEnv (some ([⟨3 / 2, none⟩], demoBNtes)) fun _ => (0, .nan)) demoDense (fun L => (L.time, L.time)) id
      10 cdB [.fin 0, .fin 0, .fin 10, .fin 10] 2 [] none) = some [Outcome.success, -1] ∧
    gOcS (propagateGrid (stepImpl demoEnv (some ([⟨3 / 2, none⟩], demoNtes))) demoDense (fun L => (L.time, L.time)) id 10 (cdB.lanes 1)
      [.fin 0, .fin 10] 1 .pinf none) = some (-1) ∧
    (cdView (bPropagateUntil (bStepImpl demoEnv (some ([⟨3 / 2, none⟩], demoBNtes)) fun _ => (0, .nan)) (fun _ => ()) 10 cdB (.scalar (.fin 10)) 1
      [] none false false)).map Prod.fst = some [Outcome.success, -1] := by
  decide +kernel

end Heyoka.Integ
