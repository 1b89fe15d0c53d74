import Verif.Integ.PropagateLemmas
import Verif.Props.Step
import Mathlib.Order.Bounds.Basic

/-!
# C22, C23: propagate_until() and propagate_for()
-/

namespace Heyoka.Integ

variable {K W C S J : Type*} [Field K] [LinearOrder K] [IsStrictOrderedRing K]

/-- The step of the integrator (with or without events) meets the requirements of the propagation loops. -/
theorem step_contract {env : Env K W J} {evs : Option (List (TEvent K W) × List (NTEvent K W))} {n m : Nat}
    (hn : ∀ e, evs = some e → e.1.length = n ∧ e.2.length = m) (henv : EnvOk env n m) (hlen : n ≤ 2 ^ 32) :
    StepOk (stepImpl env evs) := by
  intro ta mx wtc oc h ta' hmx H hnf
  unfold stepImpl at H
  rw [hmx] at H
  simp only [Bool.false_eq_true, if_false] at H
  cases evs with
  | none =>
    simp only at H
    unfold stepNoEv at H
    simp only at H
    split at H
    · simp only [Res.ok.injEq, Prod.mk.injEq] at H
      exact absurd H.1.symm hnf
    · rename_i hf
      simp only [Bool.or_eq_true, Bool.not_eq_true', not_or, Bool.not_eq_false] at hf
      obtain ⟨t0, x, h1, h2⟩ := xf_add_isFin hf.1
      simp only [Res.ok.injEq, Prod.mk.injEq] at H
      obtain ⟨g1, g2, g3⟩ := H
      have hok := henv.stepper ta.world ta.time mx wtc hmx
      rw [g2] at hok h2 g1 g3
      refine ⟨t0, x, h1, h2, by rw [← g3, h1, h2]; rfl, hok, ?_⟩
      by_cases he : h.feq mx = true
      · rw [if_pos he] at g1
        exact .inl ⟨g1.symm, (XF.feq_iff.mp he).1⟩
      · rw [if_neg he] at g1
        refine .inr (.inl ⟨g1.symm, fun h5 => he ?_⟩)
        rw [← h5, h2]
        simp
  | some e =>
    simp only at H
    obtain ⟨hn1, hn2⟩ := hn e rfl
    obtain ⟨⟨jet, h0, mas⟩, hev⟩ : ∃ p, env.evStepper ta.world ta.time mx = p := ⟨_, rfl⟩
    obtain ⟨⟨dT, dN⟩, hd⟩ : ∃ p, detectEvents env jet h0 (gEps env mas) ta.cds = p := ⟨_, rfl⟩
    obtain ⟨h1, h2⟩ := stepEv_ok hev hd (henv.sortedN dN) H
    rcases h2 with ⟨h2, -⟩ | ⟨t0, x, ht0, hx, -, htime, ta3, hrun, h3⟩
    · exact absurd h2 hnf
    have hok0 : HOk mx h0 := by
      have := henv.evStepper ta.world ta.time mx hmx
      rw [hev] at this
      exact this
    rcases h3 with ⟨hT, hoc, hta⟩ | ⟨d, ds, b, hT, hte, hoc⟩
    · have hh : h = h0 := by rw [h1, hT]; rfl
      refine ⟨t0, x, ht0, hx, htime, by rw [hh]; exact hok0, ?_⟩
      by_cases he : h.feq mx = true
      · rw [if_pos he] at hoc
        exact .inl ⟨hoc, (XF.feq_iff.mp he).1⟩
      · rw [if_neg he] at hoc
        refine .inr (.inl ⟨hoc, fun h5 => he ?_⟩)
        rw [← h5, hx]
        simp
    · have hmem : d ∈ dT := (henv.permT dT).subset (by rw [hT]; exact List.mem_cons_self)
      unfold detectEvents at hd
      cases h0 with
      | pinf => simp at hd; simp [hd.1] at hmem
      | ninf => simp at hd; simp [hd.1] at hmem
      | nan => simp at hd; simp [hd.1] at hmem
      | fin h0 =>
        cases hg : gEps env mas with
        | none => simp [hg] at hd; simp [hd.1] at hmem
        | some g =>
          simp only [hg] at hd
          split at hd
          · simp at hd; simp [hd.1] at hmem
          · rename_i hne
            have hmem' : d ∈ (env.detect jet h0 g ta.cds).1 := by rw [hd]; exact hmem
            obtain ⟨b1, b2, b3⟩ := henv.detT _ _ g _ hne d hmem'
            have hxe : x = d.t := by
              have : h = .fin d.t := by rw [h1, hT]; rfl
              rw [hx] at this
              simpa using this
            obtain ⟨c1, c2, c3⟩ := hok0 h0 rfl
            have hlt : (XF.fin |x|).lt mx.abs = true := by
              rw [hxe]
              cases mx with
              | nan => simp [XF.isNan] at hmx
              | pinf => simp [XF.abs, XF.lt]
              | ninf => simp [XF.abs, XF.lt]
              | fin y =>
                simp only [XF.abs_fin, XF.le_fin, decide_eq_true_eq, XF.lt_fin] at c3 ⊢
                exact lt_of_lt_of_le b2 c3
            refine ⟨t0, x, ht0, hx, htime, ?_, .inr (.inr ⟨d.idx, lt_of_lt_of_le b3 hlen, ?_, hlt⟩)⟩
            · rw [hx]
              intro y hy
              simp only [XF.fin.injEq] at hy
              subst hy
              refine ⟨fun h5 => ?_, fun h5 => ?_, ?_⟩
              · have hpos : 0 < h0 := lt_of_le_of_ne (c1 h5) (Ne.symm hne)
                rw [hxe]
                exact nonneg_of_mul_nonneg_left b1 hpos
              · have hneg : h0 < 0 := lt_of_le_of_ne (c2 h5) hne
                rw [hxe]
                by_contra h6
                push Not at h6
                have := mul_neg_of_pos_of_neg h6 hneg
                linarith
              · simp [XF.le, hlt]
            · rw [hoc]
              cases b <;> simp

/-! ## Specification of `propagate_until()` -/

/-- The iterations performed by `propagate_until()` and the way it ended. `ta0` is the integrator after
`pre_hook()`, `its` the iterations (a step followed by the step callback), `r` the returned values. -/
structure UntilSpec (stepF : StepF K W) (tcOf : W → C) (cb : Option (Cb K W)) (tf : K) (maxSteps : Nat)
    (maxDt : XF K) (wtc withC : Bool) (t0 : XF K) (ta0 : Integ K W) (its : List (Iter K W))
    (r : UntilRes K W C) : Prop where
  /-- every iteration is a step under a limit not larger than `max_delta_t`, followed by exactly one
  invocation of the callback on the result, which did not change the time -/
  valid : ∀ it ∈ its, it.Valid stepF cb maxDt (wtc || withC)
  /-- no step is larger than `max_delta_t` -/
  bounded : ∀ it ∈ its, XF.le (.fin |it.h|) maxDt = true
  /-- every step moves towards the final time and does not pass it -/
  toward : AllToward tf its
  /-- the way the function ended -/
  ending :
    -- a further step ended in a non-finite state: no callback, not counted
    (r.oc = Outcome.errNfState ∧ AllGo tf maxSteps 1 its ∧
      ∃ e μ h, Chain ta0 its e ∧ XF.le (.fin |μ|) maxDt = true ∧
        stepF e (.fin μ) (wtc || withC) = .ok (r.oc, h, r.ta)) ∨
    -- otherwise there is a last iteration, the only one meeting a termination condition
    (∃ pre it, its = pre ++ [it] ∧ Chain ta0 its r.ta ∧ AllGo tf maxSteps 1 pre ∧ r.ta = it.after ∧
      ((r.oc = Outcome.cbStop ∧ it.cbRet = false) ∨
       (r.oc = Outcome.timeLimit ∧ it.cbRet = true ∧ r.ta.time = .fin tf) ∨
       (r.oc = it.oc ∧ it.cbRet = true ∧ Stopping it.oc ∧ r.ta.time ≠ .fin tf) ∨
       (r.oc = Outcome.stepLimit ∧ it.cbRet = true ∧ ¬ Stopping it.oc ∧ r.ta.time ≠ .fin tf ∧
        its.length = maxSteps)))
  /-- number of steps with a nonzero timestep -/
  steps : r.steps = its.countP fun it => decide (it.h ≠ 0)
  /-- smallest and largest timestep, among the steps which were not clamped -/
  extrema : ((∀ it ∈ its, it.oc ≠ Outcome.success) → r.minH = .pinf ∧ r.maxH = .fin 0) ∧
    ((∃ it ∈ its, it.oc = Outcome.success) → ∃ a b, r.minH = .fin a ∧ r.maxH = .fin b ∧
      IsLeast {y | ∃ it ∈ its, it.oc = Outcome.success ∧ |it.h| = y} a ∧
      IsGreatest {y | ∃ it ∈ its, it.oc = Outcome.success ∧ |it.h| = y} b)
  /-- `max_steps` bounds the number of iterations -/
  limit : 0 < maxSteps → its.length ≤ maxSteps
  /-- the continuous output, if requested, contains all the step boundaries and coefficients -/
  cOut : r.cOut = if withC && !its.isEmpty then
      some ⟨t0 :: its.map (fun it => it.mid.time), its.map fun it => tcOf it.mid.world⟩ else none

theorem chain_append {its : List (Iter K W)} : ∀ {a e : Integ K W} {it : Iter K W},
    Chain a its e → it.before = e → Chain a (its ++ [it]) it.after := by
  induction its with
  | nil => intro a e it h1 h2; simp only [Chain] at h1; subst h1; exact ⟨h2, rfl⟩
  | cons i its ih => intro a e it h1 h2; exact ⟨h1.1, ih h1.2 h2⟩

theorem accStats_steps (its : List (Iter K W)) : ∀ st : Stats K,
    (accStats st its).steps = st.steps + its.countP fun it => decide (it.h ≠ 0) := by
  induction its with
  | nil => intro st; rfl
  | cons it its ih =>
    intro st
    have := ih (st.update it.oc (.fin it.h))
    simp only [accStats, List.foldl_cons] at this ⊢
    rw [this, List.countP_cons]
    simp only [Stats.update, XF.feq_fin]
    by_cases h0 : it.h = 0
    · simp [h0]
    · simp [h0]; omega

/-- Extrema accumulated from known values. -/
theorem accStats_extrema (its : List (Iter K W)) : ∀ (st : Stats K) (A : Set K),
    ((A = ∅ ∧ st.minH = .pinf ∧ st.maxH = .fin 0) ∨
      (∃ a b, st.minH = .fin a ∧ st.maxH = .fin b ∧ IsLeast A a ∧ IsGreatest A b ∧ 0 ≤ b)) →
    ((A ∪ {y | ∃ it ∈ its, it.oc = Outcome.success ∧ |it.h| = y} = ∅ ∧
        (accStats st its).minH = .pinf ∧ (accStats st its).maxH = .fin 0) ∨
      (∃ a b, (accStats st its).minH = .fin a ∧ (accStats st its).maxH = .fin b ∧
        IsLeast (A ∪ {y | ∃ it ∈ its, it.oc = Outcome.success ∧ |it.h| = y}) a ∧
        IsGreatest (A ∪ {y | ∃ it ∈ its, it.oc = Outcome.success ∧ |it.h| = y}) b ∧ 0 ≤ b)) := by
  induction its with
  | nil => intro st A h; simpa [accStats] using h
  | cons it its ih =>
    intro st A h
    have hset : A ∪ {y | ∃ i ∈ it :: its, i.oc = Outcome.success ∧ |i.h| = y}
        = (A ∪ (if it.oc = Outcome.success then {|it.h|} else ∅)) ∪
          {y | ∃ i ∈ its, i.oc = Outcome.success ∧ |i.h| = y} := by
      ext y
      simp only [Set.mem_union, Set.mem_setOf_eq, List.mem_cons, exists_eq_or_imp]
      by_cases hs : it.oc = Outcome.success
      · simp only [hs, true_and, if_true, Set.mem_singleton_iff]
        rw [or_assoc, eq_comm (a := y)]
      · simp [hs]
    rw [hset]
    have := ih (st.update it.oc (.fin it.h)) (A ∪ (if it.oc = Outcome.success then {|it.h|} else ∅)) ?_
    · exact this
    · by_cases hs : it.oc = Outcome.success
      · right
        simp only [hs, if_true, Stats.update]
        rcases h with ⟨h1, h2, h3⟩ | ⟨a, b, h1, h2, h3, h4, h5⟩
        · refine ⟨|it.h|, |it.h|, ?_, ?_, ?_, ?_, abs_nonneg _⟩
          · rw [h2]; simp [XF.min, XF.lt]
          · rw [h3]
            simp
          · rw [h1]; simp [IsLeast, lowerBounds]
          · rw [h1]; simp [IsGreatest, upperBounds]
        · refine ⟨min a |it.h|, max b |it.h|, ?_, ?_, ?_, ?_, le_max_of_le_left h5⟩
          · rw [h1]; simp
          · rw [h2]; simp
          · refine ⟨?_, ?_⟩
            · rcases le_total a |it.h| with hl | hl
              · rw [min_eq_left hl]; exact .inl h3.1
              · rw [min_eq_right hl]; exact .inr rfl
            · rintro y (hy | hy)
              · exact (min_le_left _ _).trans (h3.2 hy)
              · rw [Set.mem_singleton_iff] at hy
                rw [hy]; exact min_le_right _ _
          · refine ⟨?_, ?_⟩
            · rcases le_total b |it.h| with hl | hl
              · rw [max_eq_right hl]; exact .inr rfl
              · rw [max_eq_left hl]; exact .inl h4.1
            · rintro y (hy | hy)
              · exact (h4.2 hy).trans (le_max_left _ _)
              · rw [Set.mem_singleton_iff] at hy
                rw [hy]; exact le_max_right _ _
      · simp only [hs, if_false, Set.union_empty, Stats.update]
        exact h

theorem allGo_len {tf : K} {maxSteps : Nat} : ∀ {its : List (Iter K W)} {n : Nat},
    AllGo tf maxSteps n its → n ≤ maxSteps → n + its.length ≤ maxSteps := by
  intro its
  induction its with
  | nil => intro n _ h; simpa using h
  | cons it its ih =>
    intro n h hn
    have := h.1.2.2.2
    have := ih h.2 (by omega)
    simp only [List.length_cons]
    omega

theorem maxDtOk_of_checks {maxDt : XF K} (h1 : ¬ maxDt.isNan = true) (h2 : ¬ maxDt.le (.fin 0) = true) :
    MaxDtOk maxDt := by
  cases maxDt with
  | nan => simp [XF.isNan] at h1
  | pinf => exact .inl rfl
  | ninf => simp [XF.le, XF.lt] at h2
  | fin x => exact .inr ⟨x, rfl, by simpa using h2⟩

/-- **C22.** Whenever `propagate_until(t)` returns, after any number of iterations, for any step function
and any callback, it did what `UntilSpec` says. -/
theorem propagate_until_correct {stepF : StepF K W} (hstep : StepOk stepF) {tcOf : W → C}
    {cb : Option (Cb K W)} {t maxDt : XF K} {maxSteps fuel : Nat} {wtc withC : Bool} {ta : Integ K W}
    {r : UntilRes K W C}
    (H : propagateUntil stepF tcOf fuel ta t maxSteps maxDt cb wtc withC = .ok (some r)) :
    ∃ tf tb ta0 its, t = .fin tf ∧ ta.time = .fin tb ∧ ta0.time = .fin tb ∧
      (match cb with | none => ta0 = ta | some cb => cb.preHook ta = .ok ta0) ∧
      UntilSpec stepF tcOf cb tf maxSteps maxDt wtc withC ta.time ta0 its r := by
  unfold propagateUntil at H
  split at H
  · simp at H
  rename_i h1
  split at H
  · simp at H
  rename_i h2
  split at H
  · simp at H
  rename_i h3
  split at H
  · simp at H
  rename_i h4
  have hm := maxDtOk_of_checks h3 h4
  obtain ⟨tb, htb⟩ := (XF.isFin_iff ta.time).mp (by simpa using h1)
  obtain ⟨tf, htf⟩ := (XF.isFin_iff t).mp (by simpa using h2)
  subst htf
  simp only [htb, XF.sub_fin, XF.isFin_fin, Bool.not_true, Bool.false_eq_true, if_false] at H
  cases hp : runPreHook cb ta with
  | throw => rw [hp] at H; simp at H
  | ub => rw [hp] at H; simp at H
  | ok ta0 =>
    rw [hp] at H
    simp only [Res.bind_ok] at H
    obtain ⟨ht0, hpre⟩ := runPreHook_ok htb hp
    obtain ⟨its, last, e, g1, g2, g3, g4, g5, g6, g7, g8, g9⟩ :=
      untilLoop_ok hstep hm fuel tb _ _ ta0 r ht0 (by simp) H
    refine ⟨tf, tb, ta0, its ++ last.toList, rfl, htb, ht0, by cases cb <;> exact hpre, ?_⟩
    have hvalid : ∀ it ∈ its ++ last.toList, it.Valid stepF cb maxDt (wtc || withC) := by
      intro it hit
      rcases List.mem_append.mp hit with h | h
      · exact g2 it h
      · rcases g4 with ⟨hl, -⟩ | ⟨it', hl, -, hv, -⟩
        · rw [hl] at h; simp at h
        · rw [hl] at h
          simp only [Option.toList_some, List.mem_singleton] at h
          rw [h]; exact hv
    have hbd : ∀ it ∈ its ++ last.toList, XF.le (.fin |it.h|) maxDt = true := by
      intro it hit
      obtain ⟨⟨μ, hμ, hs⟩, hnf, -⟩ := hvalid it hit
      obtain ⟨t0, x, -, hx, -, hok, -⟩ := hstep _ _ _ _ _ _ rfl hs hnf
      obtain ⟨-, -, h5⟩ := hok _ hx
      simp only [XF.fin.injEq] at hx
      rw [hx]
      rcases hm with rfl | ⟨M, rfl, hM⟩
      · simp [XF.le, XF.lt]
      · simp only [XF.abs_fin, XF.le_fin, decide_eq_true_eq] at h5 hμ ⊢
        exact h5.trans hμ
    refine ⟨hvalid, hbd, g5, ?_, ?_, ?_, ?_, ?_⟩
    · rcases g4 with ⟨hl, hoc, μ, h, hμ, hs⟩ | ⟨it, hl, hb, hv, hfin, hend⟩
      · left
        subst hl
        simp only [Option.toList_none, List.append_nil]
        exact ⟨hoc, g3, e, μ, h, g1, hμ, hs⟩
      · right
        subst hl
        simp only [Option.toList_some]
        refine ⟨its, it, rfl, ?_, g3, hfin, ?_⟩
        · rw [hfin]; exact chain_append g1 hb
        · rcases hend with h5 | h5 | h5 | h5
          · exact .inl h5
          · exact .inr (.inl ⟨h5.1, h5.2.1, by rw [hfin]; exact h5.2.2⟩)
          · exact .inr (.inr (.inl ⟨h5.2.1, h5.1, h5.2.1 ▸ h5.2.2.1, by rw [hfin]; exact h5.2.2.2⟩))
          · refine .inr (.inr (.inr ⟨h5.1, h5.2.1, h5.2.2.1, by rw [hfin]; exact h5.2.2.2.1, ?_⟩))
            have := h5.2.2.2.2
            simp only [Stats.init] at this
            simp only [List.length_append, List.length_singleton]
            omega
    · rw [g6, accStats_steps]
      simp [Stats.init]
    · have := accStats_extrema (its ++ last.toList) (Stats.init : Stats K) ∅
        (.inl ⟨rfl, rfl, rfl⟩)
      simp only [Set.empty_union] at this
      rw [g7, g8]
      refine ⟨fun h5 => ?_, fun h5 => ?_⟩
      · rcases this with ⟨-, h6, h7⟩ | ⟨a, b, h6, h7, h8, h9, -⟩
        · exact ⟨h6, h7⟩
        · obtain ⟨it, hit, hs, -⟩ := h8.1
          exact absurd hs (h5 it hit)
      · rcases this with ⟨h6, -⟩ | ⟨a, b, h6, h7, h8, h9, -⟩
        · obtain ⟨it, hit, hs⟩ := h5
          have : |it.h| ∈ ({y | ∃ it ∈ its ++ last.toList, it.oc = Outcome.success ∧ |it.h| = y} : Set K) :=
            ⟨it, hit, hs, rfl⟩
          rw [h6] at this
          exact absurd this (Set.notMem_empty _)
        · exact ⟨a, b, h6, h7, h8, h9⟩
    · intro hms
      have h5 := allGo_len g3 (by simp only [Stats.init]; omega)
      simp only [Stats.init] at h5
      cases last <;> simp <;> omega
    · rw [g9]
      unfold accCOut makeCOut
      cases withC with
      | false => simp
      | true =>
        cases hi : its ++ last.toList with
        | nil => simp
        | cons a l => simp [htb]

/-- **C22.** `time_limit` is returned only with the time exactly at `t`; conversely, when the time is `t`
at the end the outcome is `time_limit`, unless the callback asked to stop or the state is not finite. -/
theorem propagate_until_time_limit {stepF : StepF K W} (hstep : StepOk stepF) {tcOf : W → C}
    {cb : Option (Cb K W)} {t maxDt : XF K} {maxSteps fuel : Nat} {wtc withC : Bool} {ta : Integ K W}
    {r : UntilRes K W C}
    (H : propagateUntil stepF tcOf fuel ta t maxSteps maxDt cb wtc withC = .ok (some r)) :
    (r.oc = Outcome.timeLimit → r.ta.time = t) ∧
    (r.ta.time = t → r.oc = Outcome.timeLimit ∨ r.oc = Outcome.cbStop ∨ r.oc = Outcome.errNfState) := by
  obtain ⟨tf, tb, ta0, its, ht, -, -, -, hs⟩ := propagate_until_correct hstep H
  subst ht
  rcases hs.ending with ⟨h1, -⟩ | ⟨pre, it, hits, -, -, hta, h5⟩
  · exact ⟨fun h => by rw [h1] at h; exact absurd h (by decide), fun _ => .inr (.inr h1)⟩
  · rcases h5 with h5 | h5 | h5 | h5
    · exact ⟨fun h => by rw [h5.1] at h; exact absurd h (by decide), fun _ => .inr (.inl h5.1)⟩
    · exact ⟨fun _ => h5.2.2, fun _ => .inl h5.1⟩
    · refine ⟨fun h => ?_, fun h => absurd h h5.2.2.2⟩
      have := h5.2.2.1
      rw [← h5.1, h, ← isStopping_iff] at this
      exact absurd this (by decide)
    · exact ⟨fun h => by rw [h5.1] at h; exact absurd h (by decide), fun h => absurd h h5.2.2.2.1⟩

/-- **C22.** Invalid arguments are rejected, before anything happens: `propagate_until()` does not throw of its
own for a finite current time, a finite final time and a positive limit (without a callback and for a step
function which does not throw); in all other cases it throws. -/
theorem propagate_until_invalid {stepF : StepF K W} {tcOf : W → C} {cb : Option (Cb K W)} {t maxDt : XF K}
    {maxSteps fuel : Nat} {wtc withC : Bool} {ta : Integ K W}
    (h : ta.time.isFin = false ∨ t.isFin = false ∨ maxDt = .nan ∨ maxDt.le (.fin 0) = true) :
    propagateUntil stepF tcOf fuel ta t maxSteps maxDt cb wtc withC = .throw := by
  unfold propagateUntil
  split
  · rfl
  rename_i h1
  split
  · rfl
  rename_i h2
  split
  · rfl
  rename_i h3
  split
  · rfl
  rename_i h4
  rcases h with h | h | h | h
  · simp [h] at h1
  · simp [h] at h2
  · simp [h, XF.isNan] at h3
  · exact absurd h h4

/-! ### The function is never undefined, and terminates -/

/-- The step function has no undefined behaviour on the integrators satisfying `I`, and preserves `I`. -/
def StepDefined (I : Integ K W → Prop) (stepF : StepF K W) : Prop :=
  ∀ ta m wtc, I ta → m.isNan = false →
    stepF ta m wtc ≠ .ub ∧ ∀ oc h ta', stepF ta m wtc = .ok (oc, h, ta') → I ta'

/-- The callback has no undefined behaviour on the integrators satisfying `I`, and preserves `I`. -/
def CbDefined (I : Integ K W → Prop) (c : Cb K W) : Prop :=
  ∀ ta, I ta → (c.call ta ≠ .ub ∧ ∀ b ta', c.call ta = .ok (b, ta') → I ta') ∧
    (c.preHook ta ≠ .ub ∧ ∀ ta', c.preHook ta = .ok ta' → I ta')

/-- `StepDefined` holds for the steps of the integrator, on integrators with one cooldown slot per terminal
event. -/
theorem step_defined {env : Env K W J} {tes : List (TEvent K W)} {ntes : List (NTEvent K W)}
    (henv : EnvOk env tes.length ntes.length) (hcb : CbsDefined tes ntes) :
    StepDefined (fun ta : Integ K W => ta.cds.length = tes.length) (stepImpl env (some (tes, ntes))) ∧
    StepDefined (fun _ : Integ K W => True) (stepImpl env none) := by
  refine ⟨fun ta m wtc hI hm => ?_, fun ta m wtc _ hm => ⟨?_, fun _ _ _ _ => trivial⟩⟩
  · unfold stepImpl
    rw [hm]
    exact step_events_defined henv hcb hI
  · unfold stepImpl
    rw [hm]
    simp only [Bool.false_eq_true, if_false]
    unfold stepNoEv
    simp only
    split <;> simp

theorem runCb_defined {I : Integ K W → Prop} {cb : Option (Cb K W)} (hcb : ∀ c, cb = some c → CbDefined I c)
    {ta : Integ K W} (hI : I ta) :
    runCb cb ta ≠ .ub ∧ ∀ b ta', runCb cb ta = .ok (b, ta') → I ta' := by
  cases cb with
  | none =>
    refine ⟨by simp [runCb], fun b ta' h => ?_⟩
    simp only [runCb, Res.ok.injEq, Prod.mk.injEq] at h
    rw [← h.2]; exact hI
  | some c =>
    obtain ⟨⟨h1, h2⟩, -⟩ := hcb c rfl ta hI
    simp only [runCb]
    cases hc : c.call ta with
    | throw => simp
    | ub => exact absurd hc h1
    | ok q =>
      simp only [Res.bind_ok]
      split
      · simp
      · refine ⟨by simp, fun b ta' h => ?_⟩
        simp only [Res.ok.injEq] at h
        rw [h] at hc
        exact h2 _ _ hc

theorem runPreHook_defined {I : Integ K W → Prop} {cb : Option (Cb K W)}
    (hcb : ∀ c, cb = some c → CbDefined I c) {ta : Integ K W} (hI : I ta) :
    runPreHook cb ta ≠ .ub ∧ ∀ ta', runPreHook cb ta = .ok ta' → I ta' := by
  cases cb with
  | none =>
    refine ⟨by simp [runPreHook], fun ta' h => ?_⟩
    simp only [runPreHook, Res.ok.injEq] at h
    rw [← h]; exact hI
  | some c =>
    obtain ⟨-, h1, h2⟩ := hcb c rfl ta hI
    simp only [runPreHook]
    cases hc : c.preHook ta with
    | throw => simp
    | ub => exact absurd hc h1
    | ok q =>
      simp only [Res.bind_ok]
      split
      · simp
      · refine ⟨by simp, fun ta' h => ?_⟩
        simp only [Res.ok.injEq] at h
        rw [h] at hc
        exact h2 _ hc

/-- The loop never violates an assertion. -/
theorem untilLoop_not_ub {stepF : StepF K W} (hstep : StepOk stepF) {I : Integ K W → Prop}
    (hub : StepDefined I stepF) {tcOf : W → C} {cb : Option (Cb K W)}
    (hcbub : ∀ c, cb = some c → CbDefined I c)
    {tf : K} {maxSteps : Nat} {maxDt : XF K} (hm : MaxDtOk maxDt) {wtc withC tDir : Bool} :
    ∀ (fuel : Nat) (tb : K) (st : Stats K) (c : COutData K C) (ta : Integ K W), I ta →
      ta.time = .fin tb → tDir = decide (0 ≤ tf - tb) → (withC = true → c.times.getLast? = some (.fin tb)) →
      untilLoop stepF tcOf cb (.fin tf) maxSteps maxDt wtc withC tDir fuel (.fin (tf - tb)) st c ta ≠ .ub := by
  intro fuel
  induction fuel with
  | zero => intro tb st c ta _ _ _ _ h; simp [untilLoop] at h
  | succ fuel ih =>
    intro tb st c ta hI htime hdir hc
    rw [untilLoop]
    have hle : (XF.le (.fin 0) (.fin (tf - tb)) != tDir) = false := by rw [hdir]; simp
    rw [hle]
    simp only [Bool.false_eq_true, if_false]
    obtain ⟨μ, hμ, -, -, hμm⟩ := dtLimit_spec hm (tf - tb)
    have hlim : dtLimit tDir maxDt (.fin (tf - tb)) = .fin μ := by rw [hdir]; exact hμ
    rw [hlim]
    cases hs : stepF ta (.fin μ) wtc with
    | throw => simp
    | ub => exact absurd hs (hub _ _ _ hI rfl).1
    | ok q =>
      obtain ⟨oc, h, ta1⟩ := q
      simp only [Res.bind_ok]
      by_cases hnf : oc = Outcome.errNfState
      · rw [if_pos hnf]; simp
      · rw [if_neg hnf]
        obtain ⟨t0, x, ht0, hx, ht1, hok, hcases⟩ := hstep _ _ _ _ _ _ rfl hs hnf
        rw [htime] at ht0
        simp only [XF.fin.injEq] at ht0
        subst ht0
        subst hx
        have hspec := h_spec hm (rem := tf - tb) (x := x) (by rw [hμ]; exact hok)
        rw [hμ] at hspec
        have hsign : (if tDir then ta1.time.lt (.fin tb) else (XF.fin tb).lt ta1.time) = false := by
          rw [hdir, ht1]
          by_cases hr : 0 ≤ tf - tb
          · have := (hspec.1 hr).1
            simp [hr, this]
          · have := (hspec.2.1 (not_le.mp hr)).2
            simp only [hr, decide_false, Bool.false_eq_true, if_false, XF.lt_fin, decide_eq_false_iff_not,
              not_lt]
            linarith
        have hu : ∃ c1, updateCOut tcOf withC tDir ta1 c = .ok c1 ∧
            (withC = true → c1.times.getLast? = some (.fin (tb + x))) := by
          unfold updateCOut
          cases withC with
          | false => exact ⟨c, rfl, by simp⟩
          | true =>
            rw [hc rfl]
            rw [ht1] at hsign ⊢
            simp only [if_true, XF.isFin_fin, Bool.not_true, Bool.false_eq_true, if_false]
            rw [hsign]
            exact ⟨_, rfl, fun _ => by simp⟩
        obtain ⟨c1, hu1, hu2⟩ := hu
        rw [hu1]
        simp only [Res.bind_ok]
        cases hcb : runCb cb ta1 with
        | throw => simp
        | ub =>
          exact absurd hcb (runCb_defined hcbub ((hub _ _ _ hI rfl).2 _ _ _ hs)).1
        | ok rc =>
          obtain ⟨b, ta2⟩ := rc
          simp only [Res.bind_ok]
          obtain ⟨-, ht2⟩ := runCb_ok ht1 hcb
          cases b with
          | false => simp
          | true =>
            simp only [Bool.not_true, Bool.false_eq_true, if_false]
            by_cases hxr : x = tf - tb
            · have hoc : oc = Outcome.timeLimit := by
                have hmu := hspec.2.2.2 hxr
                rcases hcases with ⟨h1, -⟩ | ⟨-, h2⟩ | ⟨i, -, -, h3⟩
                · exact h1
                · exact absurd hmu.symm h2
                · rw [hmu] at h3; simp at h3
              rw [hxr]
              simp [hoc]
            · have hxr' : XF.feq (.fin x) (.fin (tf - tb)) = false := by simp [hxr]
              rw [hxr']
              simp only [Bool.false_or, Bool.false_and, Bool.false_eq_true, if_false]
              by_cases hst : isStopping oc = true
              · rw [if_pos hst]; simp
              · rw [if_neg hst]
                by_cases hms : (st.update oc (.fin x)).iters = maxSteps
                · rw [if_pos hms]; simp
                · rw [if_neg hms]
                  have hlt : (XF.abs (.fin x)).lt (XF.abs (.fin (tf - tb))) = true := by
                    simp only [XF.abs_fin, XF.lt_fin, decide_eq_true_eq]
                    by_cases hr : 0 ≤ tf - tb
                    · obtain ⟨h5, h6⟩ := hspec.1 hr
                      rw [abs_of_nonneg h5, abs_of_nonneg hr]
                      exact lt_of_le_of_ne h6 hxr
                    · push Not at hr
                      obtain ⟨h5, h6⟩ := hspec.2.1 hr
                      rw [abs_of_nonpos h6, abs_of_neg hr]
                      have := lt_of_le_of_ne h5 (Ne.symm hxr)
                      linarith
                  rw [hlt]
                  simp only [Bool.not_true, Bool.false_eq_true, if_false]
                  rw [ht2]
                  simp only [XF.sub_fin]
                  refine ih (tb + x) _ c1 ta2 ((runCb_defined hcbub ((hub _ _ _ hI rfl).2 _ _ _ hs)).2 _ _ hcb) ht2 ?_ hu2
                  rw [hdir]
                  congr 1
                  rw [eq_iff_iff]
                  constructor
                  · intro h6
                    have := (hspec.1 h6).2
                    linarith
                  · intro h6
                    by_contra h7
                    push Not at h7
                    have := (hspec.2.1 h7).1
                    have h9 : tf - tb < x := lt_of_le_of_ne this (Ne.symm hxr)
                    linarith

/-- **C22.** `propagate_until()` never violates one of its assertions (in particular, the direction of the
integration never flips). -/
theorem propagate_until_not_ub {stepF : StepF K W} (hstep : StepOk stepF) {I : Integ K W → Prop}
    (hub : StepDefined I stepF) {tcOf : W → C} {cb : Option (Cb K W)}
    (hcbub : ∀ c, cb = some c → CbDefined I c)
    {t maxDt : XF K} {maxSteps fuel : Nat} {wtc withC : Bool} {ta : Integ K W} (hI : I ta) :
    propagateUntil stepF tcOf fuel ta t maxSteps maxDt cb wtc withC ≠ .ub := by
  unfold propagateUntil
  split
  · simp
  rename_i h1
  split
  · simp
  rename_i h2
  split
  · simp
  rename_i h3
  split
  · simp
  rename_i h4
  have hm := maxDtOk_of_checks h3 h4
  obtain ⟨tb, htb⟩ := (XF.isFin_iff ta.time).mp (by simpa using h1)
  obtain ⟨tf, htf⟩ := (XF.isFin_iff t).mp (by simpa using h2)
  subst htf
  simp only [htb, XF.sub_fin, XF.isFin_fin, Bool.not_true, Bool.false_eq_true, if_false]
  cases hp : runPreHook cb ta with
  | throw => simp
  | ub =>
    exact absurd hp (runPreHook_defined hcbub hI).1
  | ok ta0 =>
    simp only [Res.bind_ok]
    obtain ⟨ht0, -⟩ := runPreHook_ok htb hp
    refine untilLoop_not_ub hstep hub hcbub hm fuel tb _ _ ta0 ((runPreHook_defined hcbub hI).2 _ hp) ht0
      (by simp) ?_
    intro hw
    simp [hw]

/-- **C22.** `max_steps` is a hard bound on the number of iterations: with a nonzero `max_steps` the loop
never needs more than `max_steps` iterations to return (or throw). -/
theorem propagate_until_terminates {stepF : StepF K W} {tcOf : W → C} {cb : Option (Cb K W)} {t maxDt : XF K}
    {maxSteps fuel : Nat} {wtc withC : Bool} {ta : Integ K W} (h0 : 0 < maxSteps) (hf : maxSteps ≤ fuel) :
    propagateUntil stepF tcOf fuel ta t maxSteps maxDt cb wtc withC ≠ .ok none := by
  have key : ∀ (fuel : Nat) (tDir wtc : Bool) (rem : XF K) (st : Stats K) (c : COutData K C)
      (ta : Integ K W), st.iters < maxSteps → maxSteps ≤ st.iters + fuel →
      untilLoop stepF tcOf cb t maxSteps maxDt wtc withC tDir fuel rem st c ta ≠ .ok none := by
    intro fuel
    induction fuel with
    | zero => intro tDir wtc rem st c ta h1 h2; omega
    | succ fuel ih =>
      intro tDir wtc rem st c ta h1 h2
      rw [untilLoop]
      split
      · simp
      cases stepF ta (dtLimit tDir maxDt rem) wtc with
      | throw => simp
      | ub => simp
      | ok q =>
        obtain ⟨oc, h, ta1⟩ := q
        simp only [Res.bind_ok]
        split
        · simp
        cases updateCOut tcOf withC tDir ta1 c with
        | throw => simp
        | ub => simp
        | ok c1 =>
          simp only [Res.bind_ok]
          cases runCb cb ta1 with
          | throw => simp
          | ub => simp
          | ok rc =>
            simp only [Res.bind_ok]
            split
            · simp
            split
            · split <;> simp
            split
            · simp
            · rename_i hms
              split
              · simp
              · exact ih tDir wtc _ _ _ _ (by simp only [Stats.update] at hms ⊢; omega)
                  (by simp only [Stats.update]; omega)
  unfold propagateUntil
  split
  · simp
  split
  · simp
  split
  · simp
  split
  · simp
  simp only
  split
  · simp
  cases runPreHook cb ta with
  | throw => simp
  | ub => simp
  | ok ta0 =>
    simp only [Res.bind_ok]
    exact key fuel _ _ _ _ _ _ (by simp [Stats.init, h0]) (by simp [Stats.init]; exact hf)

/-! ## `propagate_for()` -/

/-- **C23.** `propagate_for(dt)` is `propagate_until(time + dt)`: same result, same effects; when it returns
`time_limit` the time has advanced by exactly `dt`. -/
theorem propagate_for_correct {stepF : StepF K W} (hstep : StepOk stepF) {tcOf : W → C}
    {cb : Option (Cb K W)} {dt maxDt : XF K} {maxSteps fuel : Nat} {wtc withC : Bool} {ta : Integ K W} :
    propagateFor stepF tcOf fuel ta dt maxSteps maxDt cb wtc withC
      = propagateUntil stepF tcOf fuel ta (ta.time.add dt) maxSteps maxDt cb wtc withC ∧
    (∀ r, propagateFor stepF tcOf fuel ta dt maxSteps maxDt cb wtc withC = .ok (some r) →
      r.oc = Outcome.timeLimit →
      ∃ t0 x, ta.time = .fin t0 ∧ dt = .fin x ∧ r.ta.time = .fin (t0 + x)) ∧
    (dt.isFin = false → propagateFor stepF tcOf fuel ta dt maxSteps maxDt cb wtc withC = .throw) := by
  refine ⟨rfl, ?_, ?_⟩
  · intro r H hoc
    have h1 := (propagate_until_time_limit hstep H).1 hoc
    obtain ⟨tf, tb, ta0, its, ht, htb, -⟩ := propagate_until_correct hstep H
    rw [ht] at h1
    have : (ta.time.add dt).isFin = true := by rw [ht]; rfl
    obtain ⟨t0, x, h2, h3⟩ := xf_add_isFin this
    refine ⟨t0, x, h2, h3, ?_⟩
    rw [h1, ← ht, h2, h3]
    rfl
  · intro h
    refine propagate_until_invalid (.inr (.inl ?_))
    cases hta : ta.time <;> cases hdt : dt <;> simp_all [XF.add, XF.isFin]

/-! ## Concrete cases -/

example : StepOk (stepImpl demoEnv none) := step_contract (n := 1) (m := 2) (by simp) demoEnv_ok (by norm_num)

example : StepOk (stepImpl demoEnv (some (demoTes, demoNtes))) :=
  step_contract (n := 1) (m := 2) (by rintro e he; cases he; exact ⟨rfl, rfl⟩) demoEnv_ok (by norm_num)

/-- A callback logging its invocations. -/
def demoCb : Cb ℚ (List (ℕ × XF ℚ)) where
  call ta := .ok (true, ⟨ta.time, ta.lastH, ta.cds, ta.world ++ [(200, ta.time)]⟩)
  preHook ta := .ok ⟨ta.time, ta.lastH, ta.cds, ta.world ++ [(300, ta.time)]⟩

/-- What is observable in the result. -/
def UntilRes.view {K W C : Type*} (r : UntilRes K W C) :
    (Int × Nat) × List (XF K) × W :=
  ((r.oc, r.steps), r.minH :: r.maxH :: r.ta.time :: ((r.cOut.map fun c => c.times).getD []), r.ta.world)

/-- The view of the result of `propagateUntil` -/
def viewRes {K W C : Type*} : Res (Option (UntilRes K W C)) →
    Option ((Int × Nat) × List (XF K) × W)
  | .ok (some r) => some r.view
  | _ => none

set_option synthInstance.maxSize 4096 in
/-- Backward integration from 10 to 15/2 in steps of at most one time unit. -/
example : viewRes (propagateUntil (stepImpl demoEnv none) (fun w => w) 10 ⟨.fin 10, .fin 0, [], []⟩
    (.fin (15 / 2)) 0 .pinf (some demoCb) false true)
    = some ((Outcome.timeLimit, 3),
        [.fin 1, .fin 1, .fin (15 / 2), .fin 10, .fin 9, .fin 8, .fin (15 / 2)],
        [(300, .fin 10), (200, .fin 9), (200, .fin 8), (200, .fin (15 / 2))]) := by
  decide +kernel

set_option synthInstance.maxSize 4096 in
/-- The step limit. -/
example : viewRes (propagateFor (stepImpl demoEnv none) (fun w => w) 2 ⟨.fin 10, .fin 0, [], []⟩
    (.fin 7) 2 (.fin (1 / 2)) (some demoCb) false false)
    = some ((Outcome.stepLimit, 2), [.pinf, .fin 0, .fin 11],
        [(300, .fin 10), (200, .fin (21 / 2)), (200, .fin 11)]) := by
  decide +kernel

end Heyoka.Integ
