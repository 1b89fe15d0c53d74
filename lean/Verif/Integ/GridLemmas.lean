import Verif.Integ.PropagateLemmas

/-!
# Facts about the loop of propagate_grid()
-/

namespace Heyoka.Integ

variable {K W C S J : Type*} [Field K] [LinearOrder K] [IsStrictOrderedRing K]

/-- `a` comes strictly before `b` in the given direction. -/
def Before (up : Bool) (a b : K) : Prop := if up then a < b else b < a

/-- `a` does not come after `b` in the given direction. -/
def NotAfter (up : Bool) (a b : K) : Prop := if up then a ≤ b else b ≤ a

/-- The time `g` is in the range of the last step of the integrator. -/
def InLastStep (ta : Integ K W) (g : K) : Prop :=
  ∃ t h, ta.time = .fin t ∧ ta.lastH = .fin h ∧ min t (t - h) ≤ g ∧ g ≤ max t (t - h)

/-- The step function stores the timestep in `m_last_h`. -/
def StepLastH (stepF : StepF K W) : Prop :=
  ∀ ta m wtc oc h ta', m.isNan = false → stepF ta m wtc = .ok (oc, h, ta') → oc ≠ Outcome.errNfState →
    ta'.lastH = h

/-- The callback does not change `m_last_h`. -/
def CbKeepsLastH (cb : Option (Cb K W)) : Prop :=
  ∀ c, cb = some c → (∀ ta b ta', c.call ta = .ok (b, ta') → ta'.lastH = ta.lastH) ∧
    ∀ ta ta', c.preHook ta = .ok ta' → ta'.lastH = ta.lastH

theorem runCb_lastH {cb : Option (Cb K W)} (hcb : CbKeepsLastH cb) {ta ta' : Integ K W} {b : Bool}
    (h : runCb cb ta = .ok (b, ta')) : ta'.lastH = ta.lastH := by
  cases cb with
  | none =>
    simp only [runCb, Res.ok.injEq, Prod.mk.injEq] at h
    rw [h.2]
  | some cb =>
    simp only [runCb] at h
    cases hc : cb.call ta with
    | throw => rw [hc] at h; simp at h
    | ub => rw [hc] at h; simp at h
    | ok r =>
      rw [hc] at h
      simp only [Res.bind_ok] at h
      split at h
      · simp at h
      · simp only [Res.ok.injEq] at h
        subst h
        exact (hcb cb rfl).1 _ _ _ hc

theorem runPreHook_lastH {cb : Option (Cb K W)} (hcb : CbKeepsLastH cb) {ta ta' : Integ K W}
    (h : runPreHook cb ta = .ok ta') : ta'.lastH = ta.lastH := by
  cases cb with
  | none =>
    simp only [runPreHook, Res.ok.injEq] at h
    rw [h]
  | some cb =>
    simp only [runPreHook] at h
    cases hc : cb.preHook ta with
    | throw => rw [hc] at h; simp at h
    | ub => rw [hc] at h; simp at h
    | ok r =>
      rw [hc] at h
      simp only [Res.bind_ok] at h
      split at h
      · simp at h
      · simp only [Res.ok.injEq] at h
        subst h
        exact (hcb cb rfl).2 _ _ hc

/-- The inner loop splits the grid points. -/
theorem gridInner_split (dense : Integ K W → XF K → S) (ta : Integ K W) (a b rem : K) (gs : List K) :
    ∃ ps qs, gs = ps ++ qs ∧
      gridInner dense ta (.fin a) (.fin b) (.fin rem) (gs.map .fin)
        = (ps.map fun g => dense ta (.fin g), qs.map .fin) ∧
      (∀ g ∈ ps, (a ≤ g ∧ g ≤ b) ∨ rem = 0) ∧
      (∀ g, qs.head? = some g → ¬ (a ≤ g ∧ g ≤ b) ∧ rem ≠ 0) := by
  induction gs with
  | nil => exact ⟨[], [], rfl, rfl, by simp, by simp⟩
  | cons g gs ih =>
    obtain ⟨ps, qs, h1, h2, h3, h4⟩ := ih
    simp only [List.map_cons, gridInner]
    by_cases hc : (a ≤ g ∧ g ≤ b) ∨ rem = 0
    · refine ⟨g :: ps, qs, by rw [h1]; rfl, ?_, ?_, h4⟩
      · rw [if_pos (by simpa using hc), h2]
        rfl
      · intro g' hg'
        rcases List.mem_cons.mp hg' with rfl | hg'
        · exact hc
        · exact h3 g' hg'
    · refine ⟨[], g :: gs, rfl, ?_, by simp, ?_⟩
      · rw [if_neg (by simpa using hc)]
        rfl
      · intro g' hg'
        simp only [List.head?_cons, Option.some.injEq] at hg'
        subst hg'
        push Not at hc
        exact ⟨fun h => absurd h.2 (not_le.mpr (hc.1 h.1)), hc.2⟩

/-- What is known about the remaining grid points at the beginning of an iteration: they come after the
beginning of the last step, taken in the direction of the grid, or they come after the current time. -/
def Ahead (up : Bool) (tb lh : K) (gs : List K) : Prop :=
  (NotAfter up (tb - lh) tb ∧ ∀ g ∈ gs, Before up (tb - lh) g) ∨ ∀ g ∈ gs, Before up tb g

/-- The processed grid points are in the last step, the others come after the current time. -/
theorem gridInner_inStep {up : Bool} {ta : Integ K W} {tb lh tl : K} (ht : ta.time = .fin tb)
    (hl : ta.lastH = .fin lh) {ps qs : List K} (hah : Ahead up tb lh (ps ++ qs))
    (hlast : ∀ g ∈ ps ++ qs, NotAfter up g tl)
    (hsort : (ps ++ qs).Pairwise (NotAfter up))
    (h3 : ∀ g ∈ ps, (min tb (tb - lh) ≤ g ∧ g ≤ max tb (tb - lh)) ∨ tl - tb = 0)
    (h4 : ∀ g, qs.head? = some g → ¬ (min tb (tb - lh) ≤ g ∧ g ≤ max tb (tb - lh)) ∧ tl - tb ≠ 0) :
    (∀ g ∈ ps, InLastStep ta g) ∧ ∀ g ∈ qs, Before up tb g := by
  constructor
  · intro g hg
    refine ⟨tb, lh, ht, hl, ?_⟩
    rcases h3 g hg with h | h
    · exact h
    have hg' : g ∈ ps ++ qs := List.mem_append_left _ hg
    have h5 := hlast g hg'
    rcases hah with ⟨h6, h7⟩ | h7
    · have h7 := h7 g hg'
      cases up
      · simp only [NotAfter, Before, Bool.false_eq_true, if_false] at h5 h6 h7
        rw [min_eq_left h6, max_eq_right h6]
        constructor <;> linarith
      · simp only [NotAfter, Before, if_true] at h5 h6 h7
        rw [min_eq_right h6, max_eq_left h6]
        constructor <;> linarith
    · have h7 := h7 g hg'
      cases up
      · simp only [NotAfter, Before, Bool.false_eq_true, if_false] at h5 h7
        linarith
      · simp only [NotAfter, Before, if_true] at h5 h7
        linarith
  · cases qs with
    | nil => intro g hg; simp at hg
    | cons q qs =>
      have hq : Before up tb q := by
        obtain ⟨h5, -⟩ := h4 q rfl
        have hmem : q ∈ ps ++ q :: qs := by simp
        rcases hah with ⟨h6, h7⟩ | h7
        · have h7 := h7 q hmem
          cases up
          · simp only [NotAfter, Before, Bool.false_eq_true, if_false] at h6 h7 ⊢
            rw [min_eq_left h6, max_eq_right h6] at h5
            by_contra h8
            exact h5 ⟨not_lt.mp h8, h7.le⟩
          · simp only [NotAfter, Before, if_true] at h6 h7 ⊢
            rw [min_eq_right h6, max_eq_left h6] at h5
            by_contra h8
            exact h5 ⟨h7.le, not_lt.mp h8⟩
        · exact h7 q hmem
      intro g hg
      rcases List.mem_cons.mp hg with rfl | hg
      · exact hq
      · have h5 := (List.pairwise_cons.mp (List.pairwise_append.mp hsort).2.1).1 g hg
        cases up
        · simp only [NotAfter, Before, Bool.false_eq_true, if_false] at h5 hq ⊢
          linarith
        · simp only [NotAfter, Before, if_true] at h5 hq ⊢
          linarith

/-- All the iterations, numbered from `n`, meet no condition for early interruption. -/
def NoInterrupt (maxSteps : Nat) : Nat → List (Iter K W) → Prop
  | _, [] => True
  | n, it :: its => (it.cbRet = true ∧ ¬ Stopping it.oc ∧ n ≠ maxSteps) ∧
      NoInterrupt maxSteps (n + 1) its

/-- How `propagate_grid()` ends; `n` is the number of iterations already performed. -/
def GridEnding (stepF : StepF K W) (maxDt : XF K) (maxSteps : Nat) (n : Nat) (up : Bool) (tl : K)
    (ta : Integ K W) (gs : List K) (its : List (Iter K W)) (nSamples : Nat) (oc : Outcome)
    (fin : Integ K W) : Prop :=
  -- Non-finite state.
  (oc = Outcome.errNfState ∧ NoInterrupt maxSteps (n + 1) its ∧
    ∃ e μ h, Chain ta its e ∧ XF.le (.fin |μ|) maxDt = true ∧ stepF e (.fin μ) true = .ok (oc, h, fin)) ∨
  -- Whole grid processed, without interruptions.
  (oc = Outcome.timeLimit ∧ NoInterrupt maxSteps (n + 1) its ∧ Chain ta its fin ∧ nSamples = gs.length ∧
    (fin.time = .fin tl ∨ its = [])) ∨
  -- Interruption at the last iteration.
  (∃ pre it, its = pre ++ [it] ∧ NoInterrupt maxSteps (n + 1) pre ∧ Chain ta its fin ∧
    ((oc = Outcome.cbStop ∧ it.cbRet = false) ∨
     (oc = it.oc ∧ it.cbRet = true ∧ Stopping it.oc) ∨
     (oc = Outcome.stepLimit ∧ it.cbRet = true ∧ ¬ Stopping it.oc ∧ n + its.length = maxSteps)) ∧
    ∃ te, fin.time = .fin te ∧ ∀ g ∈ gs.drop nSamples, Before up te g)

theorem isStopping_ne {oc : Outcome} (h : Stopping oc) :
    oc ≠ Outcome.success ∧ oc ≠ Outcome.timeLimit ∧ oc ≠ Outcome.errNfState := by
  rw [← isStopping_iff] at h
  simp only [isStopping, Bool.and_eq_true, decide_eq_true_eq] at h
  obtain ⟨h1, h2⟩ := h
  simp only [Outcome.success, Outcome.timeLimit, Outcome.errNfState] at *
  refine ⟨?_, ?_, ?_⟩ <;> intro h3 <;> rw [h3] at h1 h2 <;> revert h1 h2 <;> decide

/-- An interrupted iteration processes the grid points in range and returns. -/
theorem gridLoop_interrupted {stepF : StepF K W} {dense : Integ K W → XF K → S} {cb : Option (Cb K W)}
    {tl : K} {maxSteps : Nat} {maxDt : XF K} {up : Bool} {fuel : Nat} {tb lh : K} {st : Stats K}
    {interrupt : Outcome} {out : List S} {gs : List K} {ta : Integ K W} {r : GridRes K W S}
    (ht : ta.time = .fin tb) (hl : ta.lastH = .fin lh) (hah : Ahead up tb lh gs)
    (hlast : ∀ g ∈ gs, NotAfter up g tl) (hsort : gs.Pairwise (NotAfter up))
    (hint : interrupt ≠ Outcome.success)
    (H : gridLoop stepF dense cb (.fin tl) maxSteps maxDt up fuel (.fin (tl - tb)) st interrupt out
      (gs.map .fin) ta = .ok (some r)) :
    ∃ ps qs, gs = ps ++ qs ∧ r = ⟨interrupt, st.minH, st.maxH, st.steps,
        out ++ ps.map (fun g => dense ta (.fin g)), ta⟩ ∧
      (∀ g ∈ ps, InLastStep ta g) ∧ ∀ g ∈ qs, Before up tb g := by
  cases fuel with
  | zero => simp [gridLoop] at H
  | succ fuel =>
    rw [gridLoop] at H
    simp only [if_neg hint] at H
    cases gs with
    | nil =>
      simp only [List.map_nil, List.isEmpty_nil, if_true, Res.ok.injEq, Option.some.injEq] at H
      exact ⟨[], [], rfl, by simp [← H], by simp, by simp⟩
    | cons g gs =>
      have : ((g :: gs).map XF.fin).isEmpty = false := rfl
      rw [this] at H
      simp only [Bool.false_eq_true, if_false] at H
      have ht0 : ta.time.min (ta.time.sub ta.lastH) = .fin (min tb (tb - lh)) := by rw [ht, hl]; simp
      have ht1 : ta.time.max (ta.time.sub ta.lastH) = .fin (max tb (tb - lh)) := by rw [ht, hl]; simp
      obtain ⟨ps, qs, h1, h2, h3, h4⟩ := gridInner_split dense ta (min tb (tb - lh)) (max tb (tb - lh))
        (tl - tb) (g :: gs)
      rw [h1] at hah hlast hsort
      obtain ⟨h5, h6⟩ := gridInner_inStep ht hl hah hlast hsort h3 h4
      rw [ht0, ht1, h2] at H
      have hb : (interrupt != Outcome.success) = true := by simpa using hint
      rw [hb] at H
      simp only [Bool.or_true, if_true, Res.ok.injEq, Option.some.injEq] at H
      exact ⟨ps, qs, h1, H.symm, h5, h6⟩

theorem gridLoop_ok {stepF : StepF K W} (hstep : StepOk stepF) (hsl : StepLastH stepF)
    {dense : Integ K W → XF K → S} {cb : Option (Cb K W)} (hcbl : CbKeepsLastH cb)
    {tl : K} {maxSteps : Nat} {maxDt : XF K} (hm : MaxDtOk maxDt) {up : Bool} :
    ∀ (fuel : Nat) (tb lh : K) (st : Stats K) (out : List S) (gs : List K) (ta : Integ K W)
      (r : GridRes K W S),
      ta.time = .fin tb → ta.lastH = .fin lh → NotAfter up tb tl → Ahead up tb lh gs →
      (∀ g ∈ gs, NotAfter up g tl) → (∀ g, gs.getLast? = some g → g = tl) → gs.Pairwise (NotAfter up) →
      gridLoop stepF dense cb (.fin tl) maxSteps maxDt up fuel (.fin (tl - tb)) st Outcome.success out
        (gs.map .fin) ta = .ok (some r) →
      ∃ (its : List (Iter K W)) (ps : List (Integ K W × K)),
        (∀ it ∈ its, it.Valid stepF cb maxDt true) ∧ AllToward tl its ∧
        r.out = out ++ ps.map (fun p => dense p.1 (.fin p.2)) ∧
        (ps.map Prod.snd <+: gs) ∧
        (∀ p ∈ ps, InLastStep p.1 p.2 ∧ (p.1 = ta ∨ ∃ it ∈ its, p.1 = it.after)) ∧
        (GridEnding stepF maxDt maxSteps st.iters up tl ta gs its ps.length r.oc r.ta ∧
          (r.oc = Outcome.timeLimit → r.ta.time = .fin tl ∨
            (its = [] ∧ ∀ g ∈ gs, Before up tb g))) ∧
        r.steps = (accStats st its).steps ∧ r.minH = (accStats st its).minH ∧
        r.maxH = (accStats st its).maxH := by
  intro fuel
  induction fuel with
  | zero => intro tb lh st out gs ta r _ _ _ _ _ _ _ h; simp [gridLoop] at h
  | succ fuel ih =>
    intro tb lh st out gs ta r ht hl hdir hah hlast hback hsort H
    rw [gridLoop] at H
    simp only [if_true] at H
    cases hgs : gs with
    | nil =>
      subst hgs
      simp only [List.map_nil, List.isEmpty_nil, if_true, Res.ok.injEq, Option.some.injEq] at H
      subst H
      refine ⟨[], [], by simp, by intro it hit; simp at hit, by simp, by simp, by simp, ⟨?_, ?_⟩,
        rfl, rfl, rfl⟩
      · exact .inr (.inl ⟨rfl, trivial, rfl, rfl, .inr rfl⟩)
      · intro _
        exact .inr ⟨rfl, by simp⟩
    | cons g0 gs0 =>
      have hne : (gs.map XF.fin).isEmpty = false := by rw [hgs]; rfl
      rw [hne] at H
      simp only [Bool.false_eq_true, if_false] at H
      have ht0 : ta.time.min (ta.time.sub ta.lastH) = .fin (min tb (tb - lh)) := by rw [ht, hl]; simp
      have ht1 : ta.time.max (ta.time.sub ta.lastH) = .fin (max tb (tb - lh)) := by rw [ht, hl]; simp
      obtain ⟨ps, qs, h1, h2, h3, h4⟩ := gridInner_split dense ta (min tb (tb - lh)) (max tb (tb - lh))
        (tl - tb) gs
      rw [← hgs]
      rw [h1] at hah hlast hsort
      obtain ⟨h5, h6⟩ := gridInner_inStep ht hl hah hlast hsort h3 h4
      rw [ht0, ht1, h2] at H
      have hb : (Outcome.success != Outcome.success) = false := by simp
      rw [hb, Bool.or_false] at H
      have hsamples : ∀ its : List (Iter K W), ∀ p ∈ ps.map (fun g => (ta, g)),
          InLastStep p.1 p.2 ∧ (p.1 = ta ∨ ∃ it ∈ its, p.1 = it.after) := by
        intro its p hp
        obtain ⟨g, hg, rfl⟩ := List.mem_map.mp hp
        exact ⟨h5 g hg, .inl rfl⟩
      have hmm : (ps.map fun g => (ta, g)).map (fun p => dense p.1 (.fin p.2))
          = ps.map fun g => dense ta (.fin g) := by
        rw [List.map_map]; rfl
      have hms : (ps.map fun g => (ta, g)).map Prod.snd = ps := by
        rw [List.map_map]
        have : (Prod.snd ∘ fun g => (ta, g)) = (id : K → K) := rfl
        rw [this, List.map_id]
      cases hqs : qs with
      | nil =>
        subst hqs
        simp only [List.map_nil, List.isEmpty_nil, if_true, Res.ok.injEq, Option.some.injEq] at H
        subst H
        rw [List.append_nil] at h1
        refine ⟨[], ps.map fun g => (ta, g), by simp, by intro it hit; simp at hit, ?_, ?_, hsamples [],
          ⟨?_, ?_⟩, rfl, rfl, rfl⟩
        · rw [hmm]
        · rw [hms, h1]; exact List.prefix_refl _
        · exact .inr (.inl ⟨rfl, trivial, rfl, by rw [h1]; simp, .inr rfl⟩)
        · intro _
          rcases hah with ⟨h7, h8⟩ | h8
          · left
            show ta.time = _
            rw [ht]
            have hg : gs.getLast? = some (gs.getLast (by rw [hgs]; simp)) := List.getLast?_eq_getLast_of_ne_nil _
            have hl1 := hback _ hg
            have hmem : tl ∈ ps := by
              rw [← h1, ← hl1]
              exact List.getLast_mem _
            obtain ⟨t', h', ha, hb', hc⟩ := h5 tl hmem
            rw [ht] at ha
            rw [hl] at hb'
            simp only [XF.fin.injEq] at ha hb'
            subst ha
            subst hb'
            congr 1
            cases up
            · simp only [NotAfter, Bool.false_eq_true, if_false] at h7 hdir
              rw [min_eq_left h7, max_eq_right h7] at hc
              linarith [hc.1]
            · simp only [NotAfter, if_true] at h7 hdir
              rw [min_eq_right h7, max_eq_left h7] at hc
              linarith [hc.2]
          · exact .inr ⟨rfl, by rw [h1]; simpa using h8⟩
      | cons q0 qs0 =>
        have hne2 : (qs.map XF.fin).isEmpty = false := by rw [hqs]; rfl
        rw [hne2] at H
        simp only [Bool.false_eq_true, if_false] at H
        -- The final time has not been reached yet.
        have hstrict : Before up tb tl := by
          have hmem : q0 ∈ qs := by rw [hqs]; simp
          have h7 := h6 q0 hmem
          have h8 := hlast q0 (List.mem_append_right _ hmem)
          cases up
          · simp only [NotAfter, Before, Bool.false_eq_true, if_false] at h7 h8 ⊢
            linarith
          · simp only [NotAfter, Before, if_true] at h7 h8 ⊢
            linarith
        have hup : up = decide (0 ≤ tl - tb) := by
          cases up
          · simp only [Before, Bool.false_eq_true, if_false] at hstrict
            rw [eq_comm, decide_eq_false_iff_not]
            linarith
          · simp only [Before, if_true] at hstrict
            rw [eq_comm, decide_eq_true_iff]
            linarith
        have hle : (XF.le (.fin 0) (.fin (tl - tb)) != up) = false := by
          rw [hup]; simp
        rw [hle] at H
        simp only [Bool.false_eq_true, if_false] at H
        obtain ⟨μ, hμ, -, -, hμm⟩ := dtLimit_spec hm (tl - tb)
        have hlim : dtLimit up maxDt (.fin (tl - tb)) = .fin μ := by rw [hup]; exact hμ
        rw [hlim] at H
        cases hs : stepF ta (.fin μ) true with
        | throw => rw [hs] at H; simp at H
        | ub => rw [hs] at H; simp at H
        | ok q =>
          obtain ⟨oc, h, ta1⟩ := q
          rw [hs] at H
          simp only [Res.bind_ok] at H
          by_cases hnf : oc = Outcome.errNfState
          · rw [if_pos hnf] at H
            simp only [Res.ok.injEq, Option.some.injEq] at H
            subst H
            refine ⟨[], ps.map fun g => (ta, g), by simp, by intro it hit; simp at hit, ?_, ?_, hsamples [],
              ⟨?_, ?_⟩, rfl, rfl, rfl⟩
            · rw [hmm]
            · rw [hms, h1]; exact List.prefix_append _ _
            · exact .inl ⟨hnf, trivial, ta, μ, h, rfl, hμm, hs⟩
            · intro h9
              simp only [hnf] at h9
              exact absurd h9 (by decide)
          · rw [if_neg hnf] at H
            obtain ⟨t0, x, ht0', hx, htt1, hok, hcases⟩ := hstep _ _ _ _ _ _ rfl hs hnf
            rw [ht] at ht0'
            simp only [XF.fin.injEq] at ht0'
            subst ht0'
            subst hx
            have hlh1 := hsl _ _ _ _ _ _ rfl hs hnf
            have hspec := h_spec hm (rem := tl - tb) (x := x) (by rw [hμ]; exact hok)
            cases hcb : runCb cb ta1 with
            | throw => rw [hcb] at H; simp at H
            | ub => rw [hcb] at H; simp at H
            | ok rc =>
              obtain ⟨b, ta2⟩ := rc
              rw [hcb] at H
              simp only [Res.bind_ok] at H
              obtain ⟨hcall, ht2⟩ := runCb_ok htt1 hcb
              have hlh2 : ta2.lastH = .fin x := by rw [runCb_lastH hcbl hcb, hlh1]
              have hvalid : Iter.Valid stepF cb maxDt true ⟨ta, x, oc, ta1, b, ta2⟩ :=
                ⟨⟨μ, hμm, hs⟩, hnf, hcall⟩
              have htow : Toward tl tb x := ⟨hspec.1, hspec.2.1⟩
              -- The integrator and the grid points after the step.
              have hdir2 : NotAfter up (tb + x) tl := by
                cases up
                · simp only [Before, NotAfter, Bool.false_eq_true, if_false] at hstrict ⊢
                  have := (hspec.2.1 (by linarith)).1
                  linarith
                · simp only [Before, NotAfter, if_true] at hstrict ⊢
                  have := (hspec.1 (by linarith)).2
                  linarith
              have hxdir : NotAfter up (tb + x - x) (tb + x) := by
                cases up
                · simp only [Before, NotAfter, Bool.false_eq_true, if_false] at hstrict ⊢
                  have := (hspec.2.1 (by linarith)).2
                  linarith
                · simp only [Before, NotAfter, if_true] at hstrict ⊢
                  have := (hspec.1 (by linarith)).1
                  linarith
              have hah2 : Ahead up (tb + x) x qs := by
                left
                refine ⟨hxdir, fun g hg => ?_⟩
                rw [add_sub_cancel_right]
                exact h6 g hg
              have hlast2 : ∀ g ∈ qs, NotAfter up g tl := fun g hg => hlast g (List.mem_append_right _ hg)
              have hsort2 : qs.Pairwise (NotAfter up) := (List.pairwise_append.mp hsort).2.1
              have hback2 : ∀ g, qs.getLast? = some g → g = tl := by
                intro g hg
                refine hback g ?_
                rw [h1, List.getLast?_append, hg]
                rfl
              -- The recursive call.
              obtain ⟨interrupt, hint⟩ : ∃ i, i = (if (!b) = true then Outcome.cbStop
                else if isStopping oc = true then oc
                else if (st.update oc (.fin x)).iters = maxSteps then Outcome.stepLimit
                else Outcome.success) := ⟨_, rfl⟩
              rw [← hint] at H
              have H' : gridLoop stepF dense cb (.fin tl) maxSteps maxDt up fuel (.fin (tl - (tb + x)))
                  (st.update oc (.fin x)) interrupt (out ++ ps.map fun g => dense ta (.fin g))
                  (qs.map .fin) ta2 = .ok (some r) := by
                split at H
                · rename_i hxr
                  have hxr : x = tl - tb := by simpa using hxr
                  split at H
                  · simp at H
                  · rw [show tl - (tb + x) = 0 by rw [hxr]; ring]
                    exact H
                · split at H
                  · simp at H
                  · rw [ht2] at H
                    simpa only [XF.sub_fin] using H
              have hpre : ∀ l : List K, (l <+: qs) → (ps ++ l <+: gs) := by
                intro l hl'
                rw [h1]
                exact List.prefix_append_right_inj ps |>.mpr hl'
              by_cases hi0 : interrupt = Outcome.success
              · -- No interruption.
                have hgo : b = true ∧ ¬ Stopping oc ∧ st.iters + 1 ≠ maxSteps := by
                  rw [hi0] at hint
                  cases b with
                  | false => simp only [Bool.not_false, if_true] at hint; exact absurd hint (by decide)
                  | true =>
                    simp only [Bool.not_true, Bool.false_eq_true, if_false] at hint
                    by_cases hst : isStopping oc = true
                    · rw [if_pos hst] at hint
                      exact absurd hint.symm (isStopping_ne (isStopping_iff.mp hst)).1
                    · rw [if_neg hst] at hint
                      refine ⟨rfl, fun h => hst (isStopping_iff.mpr h), ?_⟩
                      by_cases hmx : (st.update oc (.fin x)).iters = maxSteps
                      · rw [if_pos hmx] at hint
                        exact absurd hint (by decide)
                      · simpa [Stats.update] using hmx
                rw [hi0] at H'
                obtain ⟨its, ps2, g1, g2, g3, g4, g5, ⟨g6, g6'⟩, g7, g8, g9⟩ :=
                  ih (tb + x) x _ _ qs ta2 r ht2 hlh2 hdir2 hah2 hlast2 hback2 hsort2 H'
                have hnocase : (its = [] ∧ ∀ g ∈ qs, Before up (tb + x) g) → r.ta.time = .fin tl ∨ r.oc ≠
                    Outcome.timeLimit := by
                  rintro ⟨hi, hq⟩
                  by_contra hcon
                  push Not at hcon
                  -- The last grid point is among the samples, all in the last step.
                  rcases g6 with ⟨k1, -⟩ | ⟨k1, -, k3, k4, -⟩ | ⟨pre, it, k1, -⟩
                  · rw [k1] at hcon; exact absurd hcon.2 (by decide)
                  · have hps2 : ps2.map Prod.snd = qs := g4.eq_of_length (by simpa using k4)
                    have : q0 ∈ ps2.map Prod.snd := by rw [hps2, hqs]; simp
                    obtain ⟨p, hp, hpe⟩ := List.mem_map.mp this
                    obtain ⟨k5, k6⟩ := g5 p hp
                    rw [hi] at k6
                    simp only [List.not_mem_nil, false_and, exists_false, or_false] at k6
                    rw [k6, hpe] at k5
                    obtain ⟨t', h', ha, hb', hc⟩ := k5
                    rw [ht2] at ha
                    rw [hlh2] at hb'
                    simp only [XF.fin.injEq] at ha hb'
                    subst ha
                    subst hb'
                    have k7 := hq q0 (by rw [hqs]; simp)
                    cases up
                    · simp only [NotAfter, Before, Bool.false_eq_true, if_false] at hxdir k7
                      rw [min_eq_left hxdir, max_eq_right hxdir] at hc
                      linarith [hc.1]
                    · simp only [NotAfter, Before, if_true] at hxdir k7
                      rw [min_eq_right hxdir, max_eq_left hxdir] at hc
                      linarith [hc.2]
                  · rw [hi] at k1
                    simp at k1
                have hfinal : r.oc = Outcome.timeLimit → r.ta.time = .fin tl := by
                  intro h9
                  rcases g6' h9 with k | k
                  · exact k
                  · rcases hnocase k with k2 | k2
                    · exact k2
                    · exact absurd h9 k2
                refine ⟨⟨ta, x, oc, ta1, b, ta2⟩ :: its, (ps.map fun g => (ta, g)) ++ ps2, ?_, ?_, ?_, ?_, ?_,
                  ⟨?_, fun h9 => .inl (hfinal h9)⟩, g7, g8, g9⟩
                · intro it hit
                  rcases List.mem_cons.mp hit with h10 | h10
                  · rw [h10]; exact hvalid
                  · exact g1 it h10
                · intro it hit
                  rcases List.mem_cons.mp hit with h10 | h10
                  · rw [h10]; exact ⟨tb, ht, htt1, ht2, htow⟩
                  · exact g2 it h10
                · rw [g3, List.map_append, hmm, List.append_assoc]
                · rw [List.map_append, hms]; exact hpre _ g4
                · intro p hp
                  rcases List.mem_append.mp hp with h10 | h10
                  · exact hsamples _ p h10
                  · obtain ⟨k1, k2⟩ := g5 p h10
                    refine ⟨k1, ?_⟩
                    rcases k2 with k2 | ⟨it, k2, k3⟩
                    · exact .inr ⟨_, List.mem_cons_self, k2⟩
                    · exact .inr ⟨it, List.mem_cons_of_mem _ k2, k3⟩
                · have hgo' : ∀ l : List (Iter K W), NoInterrupt maxSteps ((st.update oc (.fin x)).iters + 1) l →
                      NoInterrupt maxSteps (st.iters + 1) ((⟨ta, x, oc, ta1, b, ta2⟩ : Iter K W) :: l) := by
                    intro l hl'
                    exact ⟨hgo, hl'⟩
                  have hdrop : gs.drop ((ps.map fun g => (ta, g)) ++ ps2).length = qs.drop ps2.length := by
                    rw [h1, List.length_append, List.length_map, ← List.drop_drop, List.drop_left]
                  rcases g6 with ⟨k1, k2, e, μ', h', k3, k4, k5⟩ | ⟨k1, k2, k3, k4, k5⟩ |
                    ⟨pre, it, k1, k2, k3, k4, te, k5, k6⟩
                  · exact .inl ⟨k1, hgo' _ k2, e, μ', h', ⟨rfl, k3⟩, k4, k5⟩
                  · refine .inr (.inl ⟨k1, hgo' _ k2, ⟨rfl, k3⟩, ?_, .inl (hfinal k1)⟩)
                    rw [List.length_append, List.length_map, k4, h1, List.length_append]
                  · refine .inr (.inr ⟨⟨ta, x, oc, ta1, b, ta2⟩ :: pre, it, by rw [k1]; rfl, hgo' _ k2,
                      ⟨rfl, k3⟩, ?_, te, k5, ?_⟩)
                    · rcases k4 with k | k | ⟨ka, kb, kc, kd⟩
                      · exact .inl k
                      · exact .inr (.inl k)
                      · refine .inr (.inr ⟨ka, kb, kc, ?_⟩)
                        simp only [Stats.update] at kd
                        simp only [List.length_cons]
                        omega
                    · intro g hg
                      rw [hdrop] at hg
                      exact k6 g hg
              · -- Interruption.
                obtain ⟨ps2, qs2, g1, g2, g3, g4⟩ := gridLoop_interrupted ht2 hlh2 hah2 hlast2 hsort2 hi0 H'
                subst g2
                have hocs : (interrupt = Outcome.cbStop ∧ b = false) ∨
                    (interrupt = oc ∧ b = true ∧ Stopping oc) ∨
                    (interrupt = Outcome.stepLimit ∧ b = true ∧ ¬ Stopping oc ∧
                      st.iters + 1 = maxSteps) := by
                  cases b with
                  | false => simp only [Bool.not_false, if_true] at hint; exact .inl ⟨hint, rfl⟩
                  | true =>
                    simp only [Bool.not_true, Bool.false_eq_true, if_false] at hint
                    by_cases hst : isStopping oc = true
                    · rw [if_pos hst] at hint
                      exact .inr (.inl ⟨hint, rfl, isStopping_iff.mp hst⟩)
                    · rw [if_neg hst] at hint
                      by_cases hmx : (st.update oc (.fin x)).iters = maxSteps
                      · rw [if_pos hmx] at hint
                        exact .inr (.inr ⟨hint, rfl, fun h => hst (isStopping_iff.mpr h), by simpa [Stats.update] using hmx⟩)
                      · rw [if_neg hmx] at hint
                        exact absurd hint hi0
                refine ⟨[⟨ta, x, oc, ta1, b, ta2⟩], (ps.map fun g => (ta, g)) ++ ps2.map fun g => (ta2, g),
                  ?_, ?_, ?_, ?_, ?_, ⟨.inr (.inr ⟨[], ⟨ta, x, oc, ta1, b, ta2⟩, rfl, trivial, ⟨rfl, rfl⟩, ?_, tb + x, ht2, ?_⟩), ?_⟩, rfl,
                  rfl, rfl⟩
                · intro it hit
                  simp only [List.mem_singleton] at hit
                  rw [hit]; exact hvalid
                · intro it hit
                  simp only [List.mem_singleton] at hit
                  rw [hit]; exact ⟨tb, ht, htt1, ht2, htow⟩
                · rw [List.map_append, hmm, List.append_assoc, List.map_map]
                  rfl
                · rw [List.map_append, hms]
                  refine hpre _ ?_
                  rw [List.map_map, g1]
                  have : (Prod.snd ∘ fun g => (ta2, g)) = (id : K → K) := rfl
                  rw [this, List.map_id]
                  exact List.prefix_append _ _
                · intro p hp
                  rcases List.mem_append.mp hp with h10 | h10
                  · exact hsamples _ p h10
                  · obtain ⟨g, hg, rfl⟩ := List.mem_map.mp h10
                    exact ⟨g3 g hg, .inr ⟨_, List.mem_singleton.mpr rfl, rfl⟩⟩
                · rcases hocs with k | k | k
                  · exact .inl k
                  · exact .inr (.inl k)
                  · exact .inr (.inr ⟨k.1, k.2.1, k.2.2.1, by simpa using k.2.2.2⟩)
                · intro g hg
                  have hdrop : gs.drop ((ps.map fun g => (ta, g)) ++ ps2.map fun g => (ta2, g)).length
                      = qs2 := by
                    rw [h1, g1, List.length_append, List.length_map, List.length_map, ← List.drop_drop,
                      List.drop_left, List.drop_left]
                  rw [hdrop] at hg
                  exact g4 g hg
                · intro h9
                  exfalso
                  simp only at h9
                  rcases hocs with k | k | k
                  · rw [k.1] at h9; exact absurd h9 (by decide)
                  · rw [k.1] at h9; exact (isStopping_ne k.2.2).2.1 h9
                  · rw [k.1] at h9; exact absurd h9 (by decide)

end Heyoka.Integ
