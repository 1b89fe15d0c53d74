import Verif.Integ.BatchLoop
import Verif.Props.Propagate

/-!
# C57: batch mode is scalar integration, lane by lane
-/

namespace Heyoka.Integ

set_option linter.unusedSectionVars false

variable {K W G J C V : Type*} {n : Nat} [Field K] [LinearOrder K] [IsStrictOrderedRing K]

/-! ## Single steps -/

theorem bind_eq_ok {α β : Type*} {x : Res α} {f : α → Res β} {b : β} (h : x.bind f = .ok b) : ∃ a, x = .ok a ∧ f a = .ok b := by
  cases x with
  | throw => simp at h
  | ub => simp at h
  | ok a => exact ⟨a, rfl, by simpa using h⟩

/-- **C57.** A step of a batch integrator does to each lane exactly what a step of a scalar integrator does: same
outcome, timestep, time, state and cooldowns, if the callbacks of the events only act on the lane they are called for. -/
theorem batch_step_lanes {env : Env K W J} {evs : Option (List (BTEvent n K W G) × List (BNTEvent n K W G))}
    {sevs : Fin n → Option (List (TEvent K W) × List (NTEvent K W))} (hevs : LocalEvs evs sevs) (res0 : StepRes n K) :
    LaneWise (bStepImpl env evs res0) fun i => stepImpl env (sevs i) := by
  intro B mx wtc res B' hmx H i
  unfold bStepImpl at H
  rw [if_neg (by simp [hmx])] at H
  change stepImpl env (sevs i) (B.lanes i) (mx i) wtc = _
  unfold stepImpl
  rw [hmx i]
  simp only [Bool.false_eq_true, if_false]
  cases evs with
  | none =>
    have hsi : sevs i = none := hevs i
    rw [hsi]
    simp only [bStepNoEv, Res.ok.injEq, Prod.mk.injEq] at H
    obtain ⟨h1, h2⟩ := H
    rw [← h1, ← h2]
    simp only [stepNoEv]
    split <;> rfl
  | some e =>
    obtain ⟨l, hsi, hT, hN⟩ := hevs i
    rw [hsi]
    simp only [bStepEv] at H
    obtain ⟨q, hloop, H⟩ := bind_eq_ok H
    split at H
    · rename_i hcmp
      have e1 := Res.ok.inj H
      have hq1 : q.1 = res := by rw [e1]
      have hq2 : q.2 = B' := by rw [e1]
      have hfin : ∀ j, ∃ l', sevs j = some l' ∧ List.Forall₂ (LocalT j) e.1 l'.1 ∧ List.Forall₂ (LocalN j) e.2 l'.2 := hevs
      obtain ⟨B1, r, k1, k2, k3, k4⟩ := (bEvLoop_lane (fun j Bx r hr => by
        obtain ⟨l', -, hT', hN'⟩ := hfin j
        exact (bEvLane_lane hT' hN' hr).1) (List.nodup_finRange n) hloop).1 i (List.mem_finRange i)
      have hci := List.all_eq_true.1 hcmp i (List.mem_finRange i)
      rw [k4] at hci
      have hres := (bEvLane_lane hT hN k2).2 hci
      rw [k1] at hres
      simp only [stepEv]
      rw [← hq1, ← hq2, k3, k4]
      exact hres
    · simp at H

/-- **C57.** `step()` with a wrong number of time limits, or with a NaN among them, throws; otherwise it is the step above. -/
theorem batch_step_checks {env : Env K W J} {evs : Option (List (BTEvent n K W G) × List (BNTEvent n K W G))} {res0 : StepRes n K}
    {B : BInteg n K W G} {mx : List (XF K)} {wtc : Bool} :
    (mx.length ≠ n → bStep env evs res0 B mx wtc = .throw) ∧ ((∃ m ∈ mx, m.isNan = true) → bStep env evs res0 B mx wtc = .throw) ∧
      (mx.length = n → (∀ m ∈ mx, m.isNan = false) → bStep env evs res0 B mx wtc = bStepImpl env evs res0 B (fun i => mx.getD i .nan) wtc) := by
  unfold bStep
  refine ⟨fun h => by rw [if_pos h], fun ⟨m, hm, hm'⟩ => ?_, fun h1 h2 => ?_⟩
  · split
    · rfl
    · rw [if_pos (List.any_eq_true.2 ⟨m, hm, hm'⟩)]
  · rw [if_neg (by simpa using h1), if_neg]
    rw [List.any_eq_true]
    rintro ⟨m, hm, hm'⟩
    rw [h2 m hm] at hm'
    simp at hm'

/-! ## Steps of length zero -/

/-- A step of length zero from a finite state leaves what `view` shows of it as it is, and finite: the derivatives are finite there. -/
structure ZeroEnv (view : W → V) (env : Env K W J) : Prop where
  stepper : ∀ w t wtc, env.finite w = true → (env.stepper w t (.fin 0) wtc).1 = .fin 0 ∧
    env.finite (env.stepper w t (.fin 0) wtc).2 = true ∧ view (env.stepper w t (.fin 0) wtc).2 = view w
  evStepper : ∀ w t, env.finite w = true → ∀ jet h mas, env.evStepper w t (.fin 0) = (jet, h, mas) → h = .fin 0 ∧
    env.finite (env.dOut (env.copyTc w jet) jet (.fin 0)) = true ∧ view (env.dOut (env.copyTc w jet) jet (.fin 0)) = view w

/-- The callbacks of the events do not make the state non-finite. -/
def KeepsFinite (env : Env K W J) (evs : Option (List (TEvent K W) × List (NTEvent K W))) : Prop :=
  ∀ e, evs = some e → (∀ ev ∈ e.2, ∀ ta x s ta', ev.cb ta x s = .ok ta' → env.finite ta.world = true → env.finite ta'.world = true) ∧
    ∀ te ∈ e.1, ∀ cb, te.cb = some cb → ∀ ta s b ta', cb ta s = .ok (b, ta') → env.finite ta.world = true → env.finite ta'.world = true

theorem runNtes_finite {env : Env K W J} {ntes : List (NTEvent K W)} {nt : XF K} {f : Integ K W → XF K}
    (hk : ∀ ev ∈ ntes, ∀ ta x s ta', ev.cb ta x s = .ok ta' → env.finite ta.world = true → env.finite ta'.world = true) :
    ∀ {l : List (DNte K)} {ta ta' : Integ K W}, runNtes ntes nt f l ta = .ok ta' → env.finite ta.world = true →
      env.finite ta'.world = true := by
  intro l
  induction l with
  | nil => intro ta ta' h; simp only [runNtes, Res.ok.injEq] at h; rw [h]; exact id
  | cons e l ih =>
    intro ta ta' h hf
    simp only [runNtes] at h
    cases hev : ntes[e.idx]? with
    | none => simp [hev] at h
    | some ev =>
      simp only [hev] at h
      cases hc : ev.cb ta ((nt.sub (f ta)).add (.fin e.t)) e.sgn with
      | throw => rw [hc] at h; simp at h
      | ub => rw [hc] at h; simp at h
      | ok tb =>
        rw [hc] at h
        simp only [Res.bind_ok] at h
        exact ih h (hk ev (List.mem_of_getElem? hev) _ _ _ _ hc hf)

theorem runTe_finite {env : Env K W J} {tes : List (TEvent K W)} {ge : Option K} {d : DTe K} {ta ta' : Integ K W} {b : Bool}
    (hk : ∀ te ∈ tes, ∀ cb, te.cb = some cb → ∀ ta s b ta', cb ta s = .ok (b, ta') → env.finite ta.world = true → env.finite ta'.world = true)
    (h : runTe env tes ge d ta = .ok (b, ta')) (hf : env.finite ta.world = true) : env.finite ta'.world = true := by
  unfold runTe at h
  cases hte : tes[d.idx]? with
  | none => simp [hte] at h
  | some te =>
    simp only [hte] at h
    split at h
    · cases hcd : newCd env ge te d with
      | throw => rw [hcd] at h; simp at h
      | ub => rw [hcd] at h; simp at h
      | ok cd =>
        rw [hcd, Res.bind_ok] at h
        cases hcb : te.cb with
        | none =>
          simp only [hcb, Res.ok.injEq, Prod.mk.injEq] at h
          rw [← h.2]
          exact hf
        | some cb =>
          simp only [hcb] at h
          exact hk te (List.mem_of_getElem? hte) cb hcb _ _ _ _ h hf
    · simp at h

/-- The state is finite after a successful step. -/
theorem step_finite {env : Env K W J} {evs : Option (List (TEvent K W) × List (NTEvent K W))} {nT nN : Nat} (henv : EnvOk env nT nN)
    (hk : KeepsFinite env evs) {ta ta' : Integ K W} {m h : XF K} {wtc : Bool} {oc : Outcome}
    (H : stepImpl env evs ta m wtc = .ok (oc, h, ta')) (hnf : oc ≠ Outcome.errNfState) :
    ta'.time.isFin = true ∧ env.finite ta'.world = true := by
  unfold stepImpl at H
  split at H
  · simp at H
  cases evs with
  | none =>
    simp only [stepNoEv] at H
    split at H
    · simp only [Res.ok.injEq, Prod.mk.injEq] at H
      exact absurd H.1.symm hnf
    · rename_i hf
      simp only [Res.ok.injEq, Prod.mk.injEq] at H
      rw [← H.2.2]
      simpa using hf
  | some e =>
    simp only at H
    obtain ⟨⟨jet, h0, mas⟩, hev⟩ : ∃ p, env.evStepper ta.world ta.time m = p := ⟨_, rfl⟩
    obtain ⟨⟨dT, dN⟩, hd⟩ : ∃ p, detectEvents env jet h0 (gEps env mas) ta.cds = p := ⟨_, rfl⟩
    obtain ⟨-, h2⟩ := stepEv_ok hev hd (henv.sortedN dN) H
    rcases h2 with ⟨h2, -⟩ | ⟨t0, x, ht0, hx, hfin, htime, ta3, hrun, h3⟩
    · exact absurd h2 hnf
    refine ⟨by rw [htime]; rfl, ?_⟩
    have hf3 := runNtes_finite (hk e rfl).1 hrun hfin
    rcases h3 with ⟨-, -, rfl⟩ | ⟨d, ds, b, -, hte, -⟩
    · exact hf3
    · exact runTe_finite (hk e rfl).2 hte hf3

/-- **C57.** A step of length zero, taken after a successful step, succeeds and does not change the state, if the derivatives are finite. -/
theorem zero_step {view : W → V} {env : Env K W J} {evs : Option (List (TEvent K W) × List (NTEvent K W))} {nT nN : Nat}
    (henv : EnvOk env nT nN) (hz : ZeroEnv view env) (hk : KeepsFinite env evs) : ZeroOk view (stepImpl env evs) := by
  intro ta0 m wtc0 oc0 h0 ta wtc oc h ta' H0 hnf H
  obtain ⟨ht, hf⟩ := step_finite henv hk H0 hnf
  obtain ⟨t, ht⟩ := (XF.isFin_iff ta.time).mp ht
  unfold stepImpl at H
  rw [if_neg (by simp [XF.isNan])] at H
  cases evs with
  | none =>
    obtain ⟨h1, h2, h3⟩ := hz.stepper ta.world ta.time wtc hf
    rw [ht] at h1 h2 h3
    simp only [stepNoEv, ht, h1, h2, XF.add_fin, XF.isFin_fin, Bool.not_true, Bool.or_self, Bool.false_eq_true, if_false,
      Res.ok.injEq, Prod.mk.injEq] at H
    obtain ⟨g1, -, g3⟩ := H
    rw [← g1, ← g3]
    exact ⟨by simp; decide, h3⟩
  | some e =>
    simp only at H
    obtain ⟨⟨jet, hh, mas⟩, hev⟩ : ∃ p, env.evStepper ta.world ta.time (.fin 0) = p := ⟨_, rfl⟩
    obtain ⟨h1, h2, h3⟩ := hz.evStepper ta.world ta.time hf jet hh mas hev
    subst h1
    have hd : detectEvents env jet (.fin 0) (gEps env mas) ta.cds = ([], []) := by
      unfold detectEvents
      cases gEps env mas <;> simp
    obtain ⟨h4, h5⟩ := stepEv_ok hev hd (henv.sortedN []) H
    have hsT : env.sortT [] = [] := (henv.permT []).eq_nil
    have hsN : env.sortN [] = [] := (henv.permN []).eq_nil
    rw [hsT] at h4
    have h4' : h = .fin 0 := h4
    subst h4'
    rcases h5 with ⟨-, h6, h7⟩ | ⟨t0, x, ht0, hx, -, htime, ta3, hrun, h8⟩
    · exfalso
      rw [ht] at h7
      rcases h7 with h7 | h7
      · simp at h7
      · rw [h6] at h7
        simp only at h7
        rw [h2] at h7
        simp at h7
    · rw [hsT, hsN, if_pos rfl] at hrun
      simp only [runNtes, Res.ok.injEq] at hrun
      rcases h8 with ⟨-, h9, h10⟩ | ⟨d, ds, b, h9, -⟩
      · rw [h10, ← hrun, h9]
        exact ⟨by simp; decide, h3⟩
      · rw [hsT] at h9; simp at h9

/-! ## `propagate_until()` -/

theorem bRunPreHook_lanes {cb : Option (BCb n K W G)} (hcb : ∀ c, cb = some c → Observer c) {B B' : BInteg n K W G}
    (h : bRunPreHook cb B = .ok B') : B'.lanes = B.lanes := by
  cases cb with
  | none => simp only [bRunPreHook, Res.ok.injEq] at h; subst h; rfl
  | some c =>
    simp only [bRunPreHook] at h
    cases hc : c.preHook B with
    | throw => rw [hc] at h; simp at h
    | ub => rw [hc] at h; simp at h
    | ok q =>
      rw [hc, Res.bind_ok] at h
      split at h
      · simp at h
      · simp only [Res.ok.injEq] at h
        subst h
        exact (hcb c rfl).2 _ _ hc

/-- The maximal timesteps of the lanes: infinite if not given. -/
def laneMaxDts (n : Nat) (l : List (XF K)) (i : Fin n) : XF K := if l = [] then .pinf else l.getD i .nan

theorem laneMaxDts_eq (l : List (XF K)) (i : Fin n) :
    (if l.isEmpty then List.replicate n XF.pinf else l).getD i .nan = laneMaxDts n l i := by
  unfold laneMaxDts
  cases l with
  | nil => simp
  | cons a l => simp

/-- The checks on the arguments have passed. -/
structure BArgs (B : BInteg n K W G) (ts : Fin n → XF K) (maxDts : List (XF K)) (tb tf : Fin n → K) : Prop where
  time : ∀ i, (B.lanes i).time = .fin (tb i)
  ts : ts = fun i => .fin (tf i)
  maxDt : ∀ i, MaxDtOk (laneMaxDts n maxDts i)

/-- What happens after the checks. -/
theorem bPropagateUntil_cases (stepF : BStepF n K W G) (tcOf : W → C) (fuel : Nat) (B : BInteg n K W G) (arg : UntilArg n K)
    (maxSteps : Nat) (maxDts : List (XF K)) (cb : Option (BCb n K W G)) (wtc withC : Bool) :
    bPropagateUntil stepF tcOf fuel B arg maxSteps maxDts cb wtc withC = .throw ∨
      ∃ ts tb tf, arg.times = .ok ts ∧ BArgs B ts maxDts tb tf ∧
        bPropagateUntil stepF tcOf fuel B arg maxSteps maxDts cb wtc withC = (bRunPreHook cb B).bind fun B0 =>
          bUntilLoop stepF tcOf cb (fun i => .fin (tf i)) maxSteps (laneMaxDts n maxDts) (wtc || withC) withC
            (fun i => decide (0 ≤ tf i - tb i)) fuel 0 (fun i => .fin (tf i - tb i)) (fun _ => ⟨0, .pinf, .fin 0⟩)
            (if withC then [fun i => (B.lanes i).time] else [], []) B0 := by
  unfold bPropagateUntil
  cases hts : arg.times with
  | throw => exact .inl rfl
  | ub =>
    cases arg with
    | scalar t => simp [UntilArg.times] at hts
    | vec l => simp only [UntilArg.times] at hts; split at hts <;> simp at hts
    | prepared l => simp [UntilArg.times] at hts
  | ok ts =>
    simp only [Res.bind_ok]
    by_cases h1 : ((List.finRange n).any fun i => !(B.lanes i).time.isFin) = true
    · exact .inl (by rw [if_pos h1])
    rw [if_neg h1]
    by_cases h2 : ((List.finRange n).any fun i => !(ts i).isFin) = true
    · exact .inl (by rw [if_pos h2])
    rw [if_neg h2]
    by_cases h3 : (if maxDts.isEmpty then List.replicate n XF.pinf else maxDts).length ≠ n
    · exact .inl (by rw [if_pos h3])
    rw [if_neg h3]
    by_cases h4 : ((if maxDts.isEmpty then List.replicate n XF.pinf else maxDts).any fun dt => dt.isNan || dt.le (.fin 0)) = true
    · exact .inl (by rw [if_pos h4])
    rw [if_neg h4]
    have h1' : ∀ i, ∃ t, (B.lanes i).time = .fin t := by
      intro i
      refine (XF.isFin_iff _).mp ?_
      by_contra h
      exact h1 (List.any_eq_true.2 ⟨i, List.mem_finRange i, by simpa using h⟩)
    have h2' : ∀ i, ∃ t, ts i = .fin t := by
      intro i
      refine (XF.isFin_iff _).mp ?_
      by_contra h
      exact h2 (List.any_eq_true.2 ⟨i, List.mem_finRange i, by simpa using h⟩)
    choose tb htb using h1'
    choose tf htf using h2'
    have htf' : ts = fun i => .fin (tf i) := funext htf
    right
    refine ⟨ts, tb, tf, rfl, ⟨htb, htf', fun i => ?_⟩, ?_⟩
    · rw [← laneMaxDts_eq]
      push Not at h3
      have hlt : (i : ℕ) < (if maxDts.isEmpty then List.replicate n XF.pinf else maxDts).length := by rw [h3]; exact i.2
      have hmem : (if maxDts.isEmpty then List.replicate n XF.pinf else maxDts).getD i .nan ∈
          (if maxDts.isEmpty then List.replicate n XF.pinf else maxDts) := by
        rw [List.getD_eq_getElem?_getD, List.getElem?_eq_getElem hlt]
        exact List.getElem_mem hlt
      generalize (if maxDts.isEmpty then List.replicate n XF.pinf else maxDts) = L at *
      refine maxDtOk_of_checks (fun h => h4 (List.any_eq_true.2 ⟨_, hmem, by rw [h]; rfl⟩)) fun h =>
        h4 (List.any_eq_true.2 ⟨_, hmem, by rw [h, Bool.or_true]⟩)
    · subst htf'
      have hrem : ∀ i, (XF.fin (tf i)).sub (B.lanes i).time = .fin (tf i - tb i) := fun i => by rw [htb i]; simp
      rw [if_neg (by
        rw [List.any_eq_true]
        rintro ⟨i, -, h⟩
        rw [hrem i] at h
        simp at h)]
      refine congrArg _ (funext fun B0 => ?_)
      have e1 : (fun i => (XF.fin (tf i)).sub (B.lanes i).time) = fun i => XF.fin (tf i - tb i) := funext hrem
      have e2 : (fun i => (XF.fin 0).le ((XF.fin (tf i)).sub (B.lanes i).time)) = fun i => decide (0 ≤ tf i - tb i) :=
        funext fun i => by rw [hrem i]; simp
      have e3 : (fun i : Fin n => (if maxDts.isEmpty then List.replicate n XF.pinf else maxDts).getD i .nan) = laneMaxDts n maxDts :=
        funext fun i => laneMaxDts_eq maxDts i
      rw [e1, e2, e3]

/-- **C57.** Batch mode is scalar integration, lane by lane. Whenever `propagate_until()` of a batch integrator returns,
there is a number `N` of steps such that for every lane `i` the call of `propagate_until()` of a scalar integrator
which starts from the lane, with the same final time and maximal timestep, no callback and at most `N` steps, returns; the
lane has the same number of steps, the same smallest and largest timestep, the same final time and the same state as that scalar
integrator, and its continuous output is that of the scalar integrator, followed by zero-length steps at the final time. The
batch run ends for one of the four reasons listed in `BEnding`. -/
theorem batch_until_scalar {bstep : BStepF n K W G} {stepF : Fin n → StepF K W} (hlw : LaneWise bstep stepF)
    (hstep : ∀ i, StepOk (stepF i)) {view : W → V} (hz : ∀ i, ZeroOk view (stepF i)) {tcOf : W → C} {cb : Option (BCb n K W G)}
    (hcb : ∀ c, cb = some c → Observer c) {fuel maxSteps : Nat} {B : BInteg n K W G} {arg : UntilArg n K} {maxDts : List (XF K)}
    {wtc withC : Bool} {r : BUntilRes n K W G C}
    (H : bPropagateUntil bstep tcOf fuel B arg maxSteps maxDts cb wtc withC = .ok (some r)) :
    ∃ (tf : Fin n → K) (N : Nat) (rs : Fin n → UntilRes K W C), arg.times = .ok (fun i => .fin (tf i)) ∧ 0 < N ∧
      (0 < maxSteps → N ≤ maxSteps) ∧
      (∀ i, propagateUntil (stepF i) tcOf fuel (B.lanes i) (.fin (tf i)) N (laneMaxDts n maxDts i) none wtc withC = .ok (some (rs i))) ∧
      (∀ i, LaneMatch view withC (tf i) i (rs i) r) ∧ BEnding maxSteps N r rs := by
  rcases bPropagateUntil_cases bstep tcOf fuel B arg maxSteps maxDts cb wtc withC with h | ⟨ts, tb, tf, hts, ⟨htb, rfl, hm⟩, heq⟩
  · rw [h] at H; simp at H
  rw [heq] at H
  cases hp : bRunPreHook cb B with
  | throw => rw [hp] at H; simp at H
  | ub => rw [hp] at H; simp at H
  | ok B0 =>
    rw [hp, Res.bind_ok] at H
    have hB0 := bRunPreHook_lanes hcb hp
    have hrs0 : Nonempty (Fin n → UntilRes K W C) := ⟨fun i => ⟨0, .nan, .nan, 0, none, B.lanes i⟩⟩
    obtain ⟨rs0⟩ := hrs0
    obtain ⟨N, rs, k1, k2, -, k4, k5, k6⟩ := bUntil_lanes hlw hstep hz hcb hm fuel 0 _ _ _ B0 (fun _ => true) tb rs0
      (fun i => ⟨fun _ => ⟨by rw [hB0]; exact htb i, rfl, rfl, fun hw => by simp [laneC, hw, htb]⟩, by simp⟩) (by omega) H
    refine ⟨tf, N, rs, hts, k1, k2, fun i => ?_, k5, k6⟩
    have h4 := k4 i rfl
    rw [hB0] at h4
    have hmi := hm i
    unfold propagateUntil
    have g1 : (laneMaxDts n maxDts i).isNan = false := by
      rcases hmi with e | ⟨M, e, -⟩ <;> rw [e] <;> rfl
    have g2 : (laneMaxDts n maxDts i).le (.fin 0) = false := by
      rcases hmi with e | ⟨M, e, hM⟩ <;> rw [e]
      · simp [XF.le, XF.lt, XF.feq]
      · simpa using hM
    simp only [htb i, XF.isFin_fin, XF.sub_fin, Bool.not_true, Bool.false_eq_true, if_false, g1, g2, runPreHook, Res.bind_ok, XF.le_fin]
    have hst : (Stats.init : Stats K) = ⟨0, 0, .pinf, .fin 0⟩ := rfl
    rw [hst]
    have hc0 : (⟨if withC then [XF.fin (tb i)] else [], []⟩ : COutData K C) =
        laneC (if withC then [fun i => (B.lanes i).time] else [], []) i := by
      cases withC <;> simp [laneC, htb]
    rw [hc0]
    exact h4

/-- **C57.** If all the outcomes are `time_limit` and no lane was stopped by an event, all the lanes are at their final times. -/
theorem batch_until_time_limit {bstep : BStepF n K W G} {stepF : Fin n → StepF K W} (hlw : LaneWise bstep stepF)
    (hstep : ∀ i, StepOk (stepF i)) {view : W → V} (hz : ∀ i, ZeroOk view (stepF i)) {tcOf : W → C} {cb : Option (BCb n K W G)}
    (hcb : ∀ c, cb = some c → Observer c) {fuel maxSteps : Nat} {B : BInteg n K W G} {arg : UntilArg n K} {maxDts : List (XF K)}
    {wtc withC : Bool} {r : BUntilRes n K W G C}
    (H : bPropagateUntil bstep tcOf fuel B arg maxSteps maxDts cb wtc withC = .ok (some r))
    (hoc : ∀ i, (r.res i).oc = Outcome.timeLimit) :
    ∃ tf : Fin n → K, arg.times = .ok (fun i => .fin (tf i)) ∧ ∀ i, (r.B.lanes i).time = .fin (tf i) := by
  obtain ⟨tf, N, rs, h1, h2, -, h4, h5, h6⟩ := batch_until_scalar hlw hstep hz hcb H
  refine ⟨tf, h1, fun i => ?_⟩
  have hall : ∀ i, (rs i).oc = Outcome.timeLimit := by
    intro i
    rcases h6 with ⟨h6, -⟩ | ⟨h6, -⟩ | h6 | ⟨⟨j, hj⟩, h6⟩
    · have := h6 i
      rw [hoc i] at this
      exact absurd this (by decide)
    · have := (h6 i).1
      rw [hoc i] at this
      exact absurd this (by decide)
    · exact (h6 i).2
    · exfalso
      have hne : (rs j).oc ≠ Outcome.stepLimit := by
        rcases hj with hj | ⟨k, hk, hj⟩
        · rw [hj]; decide
        · rw [hj]
          intro h'
          have h' : -(k : Int) - 1 = -4294967296 - 2 := h'
          omega
      have := (h6 j).1 hne
      rw [hoc j] at this
      rcases hj with hj | ⟨k, hk, hj⟩
      · rw [hj] at this; exact absurd this (by decide)
      · rw [hj] at this
        have h' : -4294967296 - 3 = -(k : Int) - 1 := this
        omega
  rw [(h5 i).time]
  exact (propagate_until_time_limit (hstep i) (h4 i)).1 (hall i)

/-- **C57.** Invalid arguments are rejected before the integrator is changed: a vector of final times of the wrong size, a
non-finite final or current time, a list of maximal timesteps of the wrong size or with an element which is NaN or not positive. -/
theorem batch_until_invalid {bstep : BStepF n K W G} {tcOf : W → C} {cb : Option (BCb n K W G)} {fuel maxSteps : Nat}
    {B : BInteg n K W G} {arg : UntilArg n K} {maxDts : List (XF K)} {wtc withC : Bool}
    (h : (∃ l, arg = .vec l ∧ l.length ≠ n) ∨ (∃ ts i, arg.times = .ok ts ∧ (ts i).isFin = false) ∨
      (∃ i, (B.lanes i).time.isFin = false) ∨ (maxDts ≠ [] ∧ maxDts.length ≠ n) ∨ ∃ m ∈ maxDts, m.isNan = true ∨ m.le (.fin 0) = true) :
    bPropagateUntil bstep tcOf fuel B arg maxSteps maxDts cb wtc withC = .throw := by
  rcases h with ⟨l, rfl, hl⟩ | h
  · unfold bPropagateUntil
    simp [UntilArg.times, hl]
  rcases bPropagateUntil_cases bstep tcOf fuel B arg maxSteps maxDts cb wtc withC with h' | ⟨ts, tb, tf, hts, ⟨htb, rfl, hm⟩, heq⟩
  · exact h'
  rcases h with ⟨ts, i, h1, h2⟩ | ⟨i, h1⟩ | ⟨h1, h2⟩ | ⟨m, h1, h2⟩
  · rw [hts] at h1
    rw [← Res.ok.inj h1] at h2
    simp at h2
  · rw [htb i] at h1
    simp at h1
  · unfold bPropagateUntil
    rw [hts]
    simp only [Res.bind_ok]
    split
    · rfl
    split
    · rfl
    simp only [show maxDts.isEmpty = false by simpa using h1, Bool.false_eq_true, if_false]
    rw [if_pos h2]
  · unfold bPropagateUntil
    rw [hts]
    simp only [Res.bind_ok]
    split
    · rfl
    split
    · rfl
    have hne : maxDts ≠ [] := by intro e; rw [e] at h1; simp at h1
    simp only [show maxDts.isEmpty = false by simpa using hne, Bool.false_eq_true, if_false]
    by_cases hl : maxDts.length ≠ n
    · rw [if_pos hl]
    · rw [if_neg hl, if_pos]
      rw [List.any_eq_true]
      exact ⟨m, h1, by rcases h2 with h2 | h2 <;> simp [h2]⟩

/-- **C57.** `propagate_for()` is `propagate_until()` with the current times plus the durations; a vector of durations of the wrong
size, or a non-finite duration, is rejected. -/
theorem batch_for {bstep : BStepF n K W G} {tcOf : W → C} {cb : Option (BCb n K W G)} {fuel maxSteps : Nat}
    {B : BInteg n K W G} {maxDts : List (XF K)} {wtc withC : Bool} :
    (∀ dt, bPropagateFor bstep tcOf fuel B (.inl dt) maxSteps maxDts cb wtc withC =
      bPropagateUntil bstep tcOf fuel B (.vec ((List.finRange n).map fun i => (B.lanes i).time.add dt)) maxSteps maxDts cb wtc withC) ∧
    (∀ l, l.length = n → bPropagateFor bstep tcOf fuel B (.inr l) maxSteps maxDts cb wtc withC =
      bPropagateUntil bstep tcOf fuel B (.vec ((List.finRange n).map fun i => (B.lanes i).time.add (l.getD i .nan))) maxSteps maxDts cb wtc withC) ∧
    (∀ l, l.length ≠ n → bPropagateFor bstep tcOf fuel B (.inr l) maxSteps maxDts cb wtc withC = .throw) ∧
    (∀ (l : List (XF K)) (i : Fin n), (l.getD i .nan).isFin = false → bPropagateFor bstep tcOf fuel B (.inr l) maxSteps maxDts cb wtc withC = .throw) := by
  have key : ∀ f : Fin n → XF K, (UntilArg.vec ((List.finRange n).map f) : UntilArg n K).times = .ok f := by
    intro f
    simp only [UntilArg.times, List.length_map, List.length_finRange, ne_eq, not_true_eq_false, if_false, Res.ok.injEq]
    funext i
    simp
  refine ⟨fun dt => ?_, fun l hl => ?_, fun l hl => ?_, fun l i hi => ?_⟩
  · simp only [bPropagateFor, bPropagateUntil, key]
    simp only [UntilArg.times]
  · simp only [bPropagateFor, bPropagateUntil, key]
    simp only [UntilArg.times, hl, ne_eq, not_true_eq_false, if_false]
  · simp only [bPropagateFor]
    rw [if_pos hl]
  · simp only [bPropagateFor]
    split
    · rfl
    · refine batch_until_invalid (.inr (.inl ⟨_, i, rfl, ?_⟩))
      cases hta : (B.lanes i).time <;> cases hdt : l.getD i .nan <;> simp_all [XF.add, XF.isFin]

end Heyoka.Integ
