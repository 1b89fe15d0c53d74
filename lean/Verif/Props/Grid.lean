import Verif.Integ.GridLemmas
import Verif.Props.Propagate

/-!
# C24: propagate_grid()
-/

namespace Heyoka.Integ

variable {K W C S J : Type*} [Field K] [LinearOrder K] [IsStrictOrderedRing K]

/-! ## The checks on the grid -/

theorem gridRest_iff {up : Bool} : ∀ {gs : List (XF K)} {p : K},
    gridRest up (.fin p) gs = true ↔
      ∃ gk : List K, gs = gk.map .fin ∧ (p :: gk).IsChain fun a b => if up then a < b else b ≤ a := by
  intro gs
  induction gs with
  | nil => intro p; simp [gridRest]
  | cons g gs ih =>
    intro p
    simp only [gridRest, Bool.and_eq_true]
    constructor
    · rintro ⟨⟨h1, h2⟩, h3⟩
      obtain ⟨x, rfl⟩ := (XF.isFin_iff g).mp h1
      obtain ⟨gk, rfl, h4⟩ := ih.mp h3
      refine ⟨x :: gk, rfl, ?_⟩
      rw [List.isChain_cons_cons]
      refine ⟨?_, h4⟩
      cases up
      · simpa using h2
      · simpa using h2
    · rintro ⟨gk, h1, h2⟩
      cases gk with
      | nil => simp at h1
      | cons x gk =>
        simp only [List.map_cons, List.cons.injEq] at h1
        obtain ⟨rfl, rfl⟩ := h1
        rw [List.isChain_cons_cons] at h2
        refine ⟨⟨rfl, ?_⟩, ih.mpr ⟨gk, rfl, h2.2⟩⟩
        cases up
        · simpa using h2.1
        · simpa using h2.1

/-- The accepted grids: not empty, all points finite, and either strictly increasing, or non-increasing with
the second point strictly before the first one. -/
theorem grid_accepted_iff {grid : List (XF K)} :
    gridOk grid = true ↔ ∃ (g0 : K) (gs : List K), grid = (g0 :: gs).map .fin ∧
      ((g0 :: gs).Pairwise (· < ·) ∨ ((g0 :: gs).Pairwise (· ≥ ·) ∧ ∀ g ∈ gs, g < g0)) := by
  match grid with
  | [] => simp [gridOk]
  | [g] =>
    simp only [gridOk]
    constructor
    · intro h
      obtain ⟨x, rfl⟩ := (XF.isFin_iff g).mp h
      exact ⟨x, [], rfl, .inl (by simp)⟩
    · rintro ⟨g0, gs, h, -⟩
      simp only [List.map_cons, List.cons.injEq] at h
      rw [h.1]; rfl
  | g0 :: g1 :: gs =>
    simp only [gridOk, Bool.and_eq_true, Bool.not_eq_true']
    constructor
    · rintro ⟨⟨⟨h1, h2⟩, h3⟩, h4⟩
      obtain ⟨x, rfl⟩ := (XF.isFin_iff g0).mp h1
      obtain ⟨y, rfl⟩ := (XF.isFin_iff g1).mp h2
      simp only [XF.feq_fin, decide_eq_false_iff_not] at h3
      obtain ⟨gk, rfl, h5⟩ := gridRest_iff.mp h4
      refine ⟨x, y :: gk, rfl, ?_⟩
      simp only [XF.lt_fin, decide_eq_true_eq] at h5
      rcases lt_or_gt_of_ne h3 with h6 | h6
      · right
        have h7 : (y :: gk).IsChain (· ≥ ·) := h5.imp fun {a b} hab => by
          rw [if_neg (not_lt.mpr h6.le)] at hab; exact hab
        have h8 := List.isChain_iff_pairwise.mp h7
        have h9 : ∀ g ∈ y :: gk, g < x := by
          intro g hg
          rcases List.mem_cons.mp hg with rfl | hg
          · exact h6
          · exact lt_of_le_of_lt ((List.pairwise_cons.mp h8).1 g hg) h6
        exact ⟨List.pairwise_cons.mpr ⟨fun g hg => (h9 g hg).le, h8⟩, h9⟩
      · left
        have h7 : (y :: gk).IsChain (· < ·) := h5.imp fun {a b} hab => by
          rw [if_pos h6] at hab; exact hab
        exact List.isChain_iff_pairwise.mp (List.isChain_cons_cons.mpr ⟨h6, h7⟩)
    · rintro ⟨x, gk, h1, h2⟩
      cases gk with
      | nil => simp at h1
      | cons y gk =>
        simp only [List.map_cons, List.cons.injEq] at h1
        obtain ⟨rfl, rfl, rfl⟩ := h1
        rcases h2 with h2 | ⟨h2, h3⟩
        · have h4 := (List.pairwise_cons.mp h2).1 y (by simp)
          refine ⟨⟨⟨rfl, rfl⟩, by simpa using h4.ne'⟩, gridRest_iff.mpr ⟨gk, rfl, ?_⟩⟩
          refine (List.isChain_iff_pairwise.mpr (List.pairwise_cons.mp h2).2).imp fun {a b} hab => ?_
          simpa [h4] using hab
        · have h4 := h3 y (by simp)
          refine ⟨⟨⟨rfl, rfl⟩, by simpa using h4.ne⟩, gridRest_iff.mpr ⟨gk, rfl, ?_⟩⟩
          have h5 : (y :: gk).IsChain (· ≥ ·) := (List.pairwise_cons.mp h2).2.isChain
          refine h5.imp fun {a b} hab => ?_
          simpa [not_lt.mpr h4.le] using hab

/-- **C24** (observation). The check on the grid is not symmetric: a repeated point (from the third on) is
rejected in a forward grid and accepted in a backward one. -/
theorem grid_check_asymmetric :
    gridOk [XF.fin (1 : ℚ), .fin 2, .fin 2] = false ∧ gridOk [XF.fin (3 : ℚ), .fin 2, .fin 2] = true := by
  decide +kernel

/-! ## The last step -/

/-- The timestep is stored by `step_impl()`, if the callbacks of the events do not take steps. -/
theorem step_lastH {env : Env K W J} {evs : Option (List (TEvent K W) × List (NTEvent K W))}
    (hk : ∀ e, evs = some e → KeepsLastH e.2 ∧
      ∀ te ∈ e.1, ∀ cb, te.cb = some cb → ∀ ta s b ta', cb ta s = .ok (b, ta') → ta'.lastH = ta.lastH)
    (hs : ∀ l, (env.sortN l).Pairwise fun a b => |a.t| ≤ |b.t|) :
    StepLastH (stepImpl env evs) := by
  intro ta mx wtc oc h ta' hmx H hnf
  unfold stepImpl at H
  rw [hmx] at H
  simp only [Bool.false_eq_true, if_false] at H
  cases evs with
  | none =>
    simp only at H
    unfold stepNoEv at H
    simp only at H
    split at H
    · simp only [Res.ok.injEq, Prod.mk.injEq] at H
      exact absurd H.1.symm hnf
    · simp only [Res.ok.injEq, Prod.mk.injEq] at H
      rw [← H.2.2]
      exact H.2.1
  | some e =>
    simp only at H
    obtain ⟨hk1, hk2⟩ := hk e rfl
    obtain ⟨⟨jet, h0, mas⟩, hev⟩ : ∃ p, env.evStepper ta.world ta.time mx = p := ⟨_, rfl⟩
    obtain ⟨⟨dT, dN⟩, hd⟩ : ∃ p, detectEvents env jet h0 (gEps env mas) ta.cds = p := ⟨_, rfl⟩
    obtain ⟨h1, h2⟩ := stepEv_ok hev hd (hs dN) H
    rcases h2 with ⟨h2, -⟩ | ⟨t0, x, ht0, hx, -, htime, ta3, hrun, h3⟩
    · exact absurd h2 hnf
    have h3l : ∀ {l : List (DNte K)} {ta ta' : Integ K W},
        runNtes e.2 (.fin (t0 + x)) (fun t => t.lastH) l ta = .ok ta' → ta'.lastH = ta.lastH := by
      intro l
      induction l with
      | nil => intro ta ta' h; simp only [runNtes, Res.ok.injEq] at h; rw [h]
      | cons d l ih =>
        intro ta ta' h
        simp only [runNtes] at h
        cases hev : e.2[d.idx]? with
        | none => simp [hev] at h
        | some ev =>
          simp only [hev] at h
          cases hc : ev.cb ta (((XF.fin (t0 + x)).sub ta.lastH).add (.fin d.t)) d.sgn with
          | throw => rw [hc] at h; simp at h
          | ub => rw [hc] at h; simp at h
          | ok tb =>
            rw [hc] at h
            simp only [Res.bind_ok] at h
            rw [ih h, hk1 ev (List.mem_of_getElem? hev) _ _ _ _ hc]
    have hl3 : ta3.lastH = .fin x := h3l hrun
    rcases h3 with ⟨-, -, hta⟩ | ⟨d, ds, b, -, hte, -⟩
    · rw [hta, hl3, hx]
    · unfold runTe at hte
      cases htes : e.1[d.idx]? with
      | none => rw [htes] at hte; simp at hte
      | some te =>
        rw [htes] at hte
        simp only at hte
        split at hte
        · cases hcd : newCd env (gEps env mas) te d with
          | throw => rw [hcd] at hte; simp at hte
          | ub => rw [hcd] at hte; simp at hte
          | ok p =>
            rw [hcd] at hte
            simp only [Res.bind_ok] at hte
            cases hcb : te.cb with
            | none =>
              rw [hcb] at hte
              simp only [Res.ok.injEq, Prod.mk.injEq] at hte
              rw [← hte.2, hx]
              exact hl3
            | some cb =>
              rw [hcb] at hte
              rw [hk2 te (List.mem_of_getElem? htes) cb hcb _ _ _ _ hte, hx]
              exact hl3
        · simp at hte

/-! ## Specification -/

/-- The iterations performed by `propagate_grid()` after it has reached the first grid point, the samples it
returned and the way it ended. `ta0` is the integrator at the first grid point, `ta1` the integrator after
`pre_hook()`, `gs` the other grid points, `tl` the last one, `up` the direction. -/
structure GridSpec (stepF : StepF K W) (dense : Integ K W → XF K → S) (state : Integ K W → S)
    (cb : Option (Cb K W)) (maxSteps : Nat) (maxDt : XF K) (up : Bool) (tl : K) (gs : List K)
    (ta0 ta1 : Integ K W) (its : List (Iter K W)) (ps : List (Integ K W × K)) (r : GridRes K W S) : Prop where
  /-- every iteration is a step under a limit not larger than `max_delta_t`, followed by exactly one
  invocation of the callback on the result, which did not change the time -/
  valid : ∀ it ∈ its, it.Valid stepF cb maxDt true
  /-- every step moves towards the last grid point and does not pass it -/
  toward : AllToward tl its
  /-- the first sample is the state at the first grid point, the others are dense outputs -/
  out : r.out = state ta0 :: ps.map fun p => dense p.1 (.fin p.2)
  /-- the times of the samples are the grid points, in order, up to some point -/
  times : ps.map Prod.snd <+: gs
  /-- every dense output is taken at a time within the last step of one of the integrators visited -/
  inStep : ∀ p ∈ ps, InLastStep p.1 p.2 ∧ (p.1 = ta1 ∨ ∃ it ∈ its, p.1 = it.after)
  /-- the way the function ended -/
  ending : GridEnding stepF maxDt maxSteps 0 up tl ta1 gs its ps.length r.oc r.ta
  /-- number of steps with a nonzero timestep -/
  steps : r.steps = its.countP fun it => decide (it.h ≠ 0)
  /-- smallest and largest timestep, among the steps which were not clamped -/
  extrema : ((∀ it ∈ its, it.oc ≠ Outcome.success) → r.minH = .pinf ∧ r.maxH = .fin 0) ∧
    ((∃ it ∈ its, it.oc = Outcome.success) → ∃ a b, r.minH = .fin a ∧ r.maxH = .fin b ∧
      IsLeast {y | ∃ it ∈ its, it.oc = Outcome.success ∧ |it.h| = y} a ∧
      IsGreatest {y | ∃ it ∈ its, it.oc = Outcome.success ∧ |it.h| = y} b)
  /-- `max_steps` bounds the number of iterations -/
  limit : 0 < maxSteps → its.length ≤ maxSteps

theorem noInterrupt_len {maxSteps : Nat} : ∀ {its : List (Iter K W)} {n : Nat},
    NoInterrupt maxSteps n its → n ≤ maxSteps → n + its.length ≤ maxSteps := by
  intro its
  induction its with
  | nil => intro n _ h; simpa using h
  | cons it its ih =>
    intro n h hn
    have := h.1.2.2
    have := ih h.2 (by omega)
    simp only [List.length_cons]
    omega

/-- **C24.** Whenever `propagate_grid()` returns, the grid was valid and started at the current time (its high
part); the integrator was first propagated to the first grid point; if that failed, no sample is returned,
otherwise `GridSpec` holds. -/
theorem propagate_grid_correct {stepF : StepF K W} (hstep : StepOk stepF) (hsl : StepLastH stepF)
    {dense : Integ K W → XF K → S} {state : Integ K W → S} {hi : XF K → XF K} {fuel : Nat} {ta : Integ K W}
    {grid : List (XF K)} {maxSteps : Nat} {maxDt : XF K} {cb : Option (Cb K W)} (hcbl : CbKeepsLastH cb)
    {r : GridRes K W S}
    (H : propagateGrid stepF dense state hi fuel ta grid maxSteps maxDt cb = .ok (some r)) :
    ∃ (g0 : K) (gs : List K) (ru : UntilRes K W Unit), grid = (g0 :: gs).map .fin ∧ hi ta.time = .fin g0 ∧
      ((g0 :: gs).Pairwise (· < ·) ∨ ((g0 :: gs).Pairwise (· ≥ ·) ∧ ∀ g ∈ gs, g < g0)) ∧
      propagateUntil stepF (fun _ => ()) fuel ta (.fin g0) maxSteps maxDt none true false = .ok (some ru) ∧
      ((ru.oc ≠ Outcome.timeLimit ∧ r = ⟨ru.oc, .pinf, .fin 0, 0, [], ru.ta⟩) ∨
       (ru.oc = Outcome.timeLimit ∧ ru.ta.time = .fin g0 ∧ ∃ ta1 its ps,
          runPreHook cb ru.ta = .ok ta1 ∧
          GridSpec stepF dense state cb maxSteps maxDt
            (decide (g0 ≤ (g0 :: gs).getLast (List.cons_ne_nil _ _)))
            ((g0 :: gs).getLast (List.cons_ne_nil _ _)) gs ru.ta ta1 its ps r)) := by
  unfold propagateGrid at H
  split at H
  · simp at H
  rename_i h1
  split at H
  · simp at H
  rename_i h2
  split at H
  · simp at H
  rename_i h3
  split at H
  · simp at H
  rename_i h4
  have hm := maxDtOk_of_checks h2 h3
  have hg : gridOk grid = true := by simpa using h4
  obtain ⟨g0, gs, hgrid, hmono⟩ := grid_accepted_iff.mp hg
  subst hgrid
  simp only [List.map_cons] at H
  split at H
  · simp at H
  rename_i h5
  have h5 : (hi ta.time).feq (.fin g0) = true := by simpa using h5
  have h5 := (XF.feq_iff.mp h5).1
  cases hu : propagateUntil stepF (fun _ => ()) fuel ta (.fin g0) maxSteps maxDt none true false with
  | throw => rw [hu] at H; simp at H
  | ub => rw [hu] at H; simp at H
  | ok ru =>
    rw [hu] at H
    simp only [Res.bind_ok] at H
    cases ru with
    | none => simp at H
    | some ru =>
      refine ⟨g0, gs, ru, rfl, h5, hmono, hu, ?_⟩
      simp only at H
      by_cases hoc : ru.oc = Outcome.timeLimit
      · right
        rw [if_neg (by simpa using hoc)] at H
        have ht0 := (propagate_until_time_limit hstep hu).1 hoc
        -- The last step of the first part.
        have hlh : ∃ lh, ru.ta.lastH = .fin lh := by
          obtain ⟨tf, tb, ta0, its, -, -, -, -, hs⟩ := propagate_until_correct hstep hu
          rcases hs.ending with ⟨k1, -⟩ | ⟨pre, it, k1, -, -, k2, -⟩
          · rw [hoc] at k1; exact absurd k1 (by decide)
          · obtain ⟨⟨μ, -, k3⟩, k4, k5, k6⟩ := hs.valid it (by rw [k1]; simp)
            rw [k2, k6]
            exact ⟨it.h, hsl _ _ _ _ _ _ rfl k3 k4⟩
        obtain ⟨lh, hlh⟩ := hlh
        refine ⟨hoc, ht0, ?_⟩
        obtain ⟨tl, htl⟩ : ∃ tl, tl = (g0 :: gs).getLast (List.cons_ne_nil _ _) := ⟨_, rfl⟩
        have hlastg : (XF.fin g0 :: gs.map XF.fin).getLast (List.cons_ne_nil _ _) = .fin tl := by
          have : (g0 :: gs).map XF.fin = XF.fin g0 :: gs.map XF.fin := rfl
          rw [htl]
          rw [show (XF.fin g0 :: gs.map XF.fin).getLast (List.cons_ne_nil _ _)
            = ((g0 :: gs).map XF.fin).getLast (by simp) from rfl, List.getLast_map]
        rw [hlastg, ht0] at H
        simp only [XF.sub_fin, XF.isFin_fin, Bool.not_true, Bool.false_eq_true, if_false] at H
        rw [← htl]
        cases hp : runPreHook cb ru.ta with
        | throw => rw [hp] at H; simp at H
        | ub => rw [hp] at H; simp at H
        | ok ta1 =>
          rw [hp] at H
          simp only [Res.bind_ok] at H
          obtain ⟨ht1, -⟩ := runPreHook_ok ht0 hp
          have hl1 : ta1.lastH = .fin lh := by rw [runPreHook_lastH hcbl hp, hlh]
          obtain ⟨up, hup⟩ : ∃ up, up = decide (g0 ≤ tl) := ⟨_, rfl⟩
          have hup' : XF.le (.fin 0) (.fin (tl - g0)) = up := by
            rw [hup]; simp
          rw [hup'] at H
          have hmem_tl : tl ∈ g0 :: gs := by rw [htl]; exact List.getLast_mem _
          have hupiff : (up = true → (g0 :: gs).Pairwise (· < ·)) ∧
              (up = false → (g0 :: gs).Pairwise (· ≥ ·) ∧ ∀ g ∈ gs, g < g0) := by
            constructor
            · intro h6
              rw [hup, decide_eq_true_eq] at h6
              rcases hmono with h7 | ⟨-, h7⟩
              · exact h7
              · cases gs with
                | nil => simp
                | cons a l =>
                  exfalso
                  have : tl ∈ a :: l := by
                    rw [htl, List.getLast_cons (List.cons_ne_nil _ _)]
                    exact List.getLast_mem _
                  exact absurd (h7 tl this) (not_lt.mpr h6)
            · intro h6
              rw [hup, decide_eq_false_iff_not] at h6
              rcases hmono with h7 | h7
              · exfalso
                rcases List.mem_cons.mp hmem_tl with h8 | h8
                · exact h6 h8.ge
                · exact h6 ((List.pairwise_cons.mp h7).1 tl h8).le
              · exact h7
          have hnotafter : (g0 :: gs).Pairwise (NotAfter up) := by
            cases up
            · exact (hupiff.2 rfl).1.imp fun {a b} hab => by simpa [NotAfter] using hab
            · exact (hupiff.1 rfl).imp fun {a b} hab => by simpa [NotAfter] using hab.le
          have hback : ∀ g, gs.getLast? = some g → g = tl := by
            intro g hg
            cases gs with
            | nil => simp at hg
            | cons a l =>
              rw [List.getLast?_eq_getLast_of_ne_nil (List.cons_ne_nil _ _)] at hg
              simp only [Option.some.injEq] at hg
              rw [htl, ← hg, List.getLast_cons (List.cons_ne_nil _ _)]
          have hlast : ∀ g ∈ g0 :: gs, NotAfter up g tl := by
            intro g hg
            have hsplit : (g0 :: gs) = (g0 :: gs).dropLast ++ [tl] := by
              rw [htl]; exact (List.dropLast_append_getLast _).symm
            rw [hsplit] at hg hnotafter
            rcases List.mem_append.mp hg with h6 | h6
            · exact (List.pairwise_append.mp hnotafter).2.2 g h6 tl (by simp)
            · simp only [List.mem_singleton] at h6
              rw [h6]
              cases up <;> simp [NotAfter]
          have hahead : Ahead up g0 lh gs := by
            right
            intro g hg
            cases up
            · simpa [Before] using (hupiff.2 rfl).2 g hg
            · simpa [Before] using (List.pairwise_cons.mp (hupiff.1 rfl)).1 g hg
          obtain ⟨its, ps, g1, g2, g3, g4, g5, ⟨g6, -⟩, g7, g8, g9⟩ :=
            gridLoop_ok hstep hsl hcbl hm fuel g0 lh Stats.init [state ru.ta] gs ta1 r ht1 hl1
              (hlast g0 (by simp)) hahead (fun g hg => hlast g (List.mem_cons_of_mem _ hg)) hback
              (List.pairwise_cons.mp hnotafter).2 H
          refine ⟨ta1, its, ps, rfl, g1, g2, by rw [g3]; rfl, g4, g5, by rw [← hup]; exact g6, ?_, ?_, ?_⟩
          · rw [g7, accStats_steps]
            simp [Stats.init]
          · have := accStats_extrema its (Stats.init : Stats K) ∅ (.inl ⟨rfl, rfl, rfl⟩)
            simp only [Set.empty_union] at this
            rw [g8, g9]
            refine ⟨fun h6 => ?_, fun h6 => ?_⟩
            · rcases this with ⟨-, h7, h8⟩ | ⟨a, b, h7, h8, h9, h10, -⟩
              · exact ⟨h7, h8⟩
              · obtain ⟨it, hit, hs, -⟩ := h9.1
                exact absurd hs (h6 it hit)
            · rcases this with ⟨h7, -⟩ | ⟨a, b, h7, h8, h9, h10, -⟩
              · obtain ⟨it, hit, hs⟩ := h6
                have : |it.h| ∈ ({y | ∃ it ∈ its, it.oc = Outcome.success ∧ |it.h| = y} : Set K) :=
                  ⟨it, hit, hs, rfl⟩
                rw [h7] at this
                exact absurd this (Set.notMem_empty _)
              · exact ⟨a, b, h7, h8, h9, h10⟩
          · intro h6
            rcases g6 with ⟨-, k, -⟩ | ⟨-, k, -⟩ | ⟨pre, it, k1, k, -⟩
            · have := noInterrupt_len k (by simp only [Stats.init]; omega)
              simp only [Stats.init] at this; omega
            · have := noInterrupt_len k (by simp only [Stats.init]; omega)
              simp only [Stats.init] at this; omega
            · have := noInterrupt_len k (by simp only [Stats.init]; omega)
              simp only [Stats.init] at this
              rw [k1, List.length_append, List.length_singleton]; omega
      · left
        rw [if_pos (by simpa using hoc)] at H
        simp only [Res.ok.injEq, Option.some.injEq] at H
        exact ⟨hoc, H.symm⟩

/-- **C24.** On `time_limit`, exactly one state per grid point is returned; in general, never more. -/
theorem propagate_grid_samples {stepF : StepF K W} (hstep : StepOk stepF) (hsl : StepLastH stepF)
    {dense : Integ K W → XF K → S} {state : Integ K W → S} {hi : XF K → XF K} {fuel : Nat} {ta : Integ K W}
    {grid : List (XF K)} {maxSteps : Nat} {maxDt : XF K} {cb : Option (Cb K W)} (hcbl : CbKeepsLastH cb)
    {r : GridRes K W S}
    (H : propagateGrid stepF dense state hi fuel ta grid maxSteps maxDt cb = .ok (some r)) :
    (r.oc = Outcome.timeLimit → r.out.length = grid.length) ∧ r.out.length ≤ grid.length := by
  obtain ⟨g0, gs, ru, h1, -, -, -, h2⟩ := propagate_grid_correct hstep hsl hcbl H
  rcases h2 with ⟨h3, h4⟩ | ⟨-, -, ta1, its, ps, -, hs⟩
  · subst h4
    exact ⟨fun h => absurd h h3, by simp⟩
  · have hlen : r.out.length = ps.length + 1 := by rw [hs.out]; simp
    have hle : ps.length ≤ gs.length := by simpa using hs.times.length_le
    have hgl : grid.length = gs.length + 1 := by rw [h1]; simp
    refine ⟨fun h => ?_, by omega⟩
    rcases hs.ending with ⟨k1, -⟩ | ⟨-, -, -, k, -⟩ | ⟨pre, it, -, -, -, k, -⟩
    · rw [h] at k1; exact absurd k1 (by decide)
    · omega
    · exfalso
      rcases k with k | k | k
      · rw [h] at k; exact absurd k.1 (by decide)
      · rw [h] at k
        exact (isStopping_ne k.2.2).2.1 k.1.symm
      · rw [h] at k; exact absurd k.1 (by decide)

/-- **C24.** Invalid arguments are rejected before anything happens. -/
theorem propagate_grid_invalid {stepF : StepF K W} {dense : Integ K W → XF K → S} {state : Integ K W → S}
    {hi : XF K → XF K} {fuel : Nat} {ta : Integ K W} {grid : List (XF K)} {maxSteps : Nat} {maxDt : XF K}
    {cb : Option (Cb K W)}
    (h : ta.time.isFin = false ∨ maxDt = .nan ∨ maxDt.le (.fin 0) = true ∨ gridOk grid = false ∨
      ∀ g, grid.head? = some g → hi ta.time ≠ g) :
    propagateGrid stepF dense state hi fuel ta grid maxSteps maxDt cb = .throw := by
  unfold propagateGrid
  split
  · rfl
  rename_i h1
  split
  · rfl
  rename_i h2
  split
  · rfl
  rename_i h3
  split
  · rfl
  rename_i h4
  rcases h with h | h | h | h | h
  · simp [h] at h1
  · simp [h, XF.isNan] at h2
  · exact absurd h h3
  · simp [h] at h4
  · cases grid with
    | nil => rfl
    | cons g gs =>
      simp only
      rw [if_pos]
      have := h g rfl
      by_contra h5
      simp only [Bool.not_eq_true', Bool.not_eq_false] at h5
      exact this (XF.feq_iff.mp h5).1

/-! ## The function is never undefined, and terminates -/

theorem gridLoop_not_ub {stepF : StepF K W} (hstep : StepOk stepF) (hsl : StepLastH stepF)
    {I : Integ K W → Prop} (hub : StepDefined I stepF)
    {dense : Integ K W → XF K → S} {cb : Option (Cb K W)} (hcbl : CbKeepsLastH cb)
    (hcbub : ∀ c, cb = some c → CbDefined I c)
    {tl : K} {maxSteps : Nat} {maxDt : XF K} (hm : MaxDtOk maxDt) {up : Bool} :
    ∀ (fuel : Nat) (tb lh : K) (st : Stats K) (out : List S) (gs : List K) (ta : Integ K W)
      (interrupt : Outcome), I ta → ta.time = .fin tb → ta.lastH = .fin lh → Ahead up tb lh gs →
      (∀ g ∈ gs, NotAfter up g tl) → gs.Pairwise (NotAfter up) →
      gridLoop stepF dense cb (.fin tl) maxSteps maxDt up fuel (.fin (tl - tb)) st interrupt out
        (gs.map .fin) ta ≠ .ub := by
  intro fuel
  induction fuel with
  | zero => intro tb lh st out gs ta i _ _ _ _ _ _ h; simp [gridLoop] at h
  | succ fuel ih =>
    intro tb lh st out gs ta interrupt hI ht hl hah hlast hsort
    rw [gridLoop]
    split
    · simp
    have ht0 : ta.time.min (ta.time.sub ta.lastH) = .fin (min tb (tb - lh)) := by rw [ht, hl]; simp
    have ht1 : ta.time.max (ta.time.sub ta.lastH) = .fin (max tb (tb - lh)) := by rw [ht, hl]; simp
    obtain ⟨ps, qs, h1, h2, h3, h4⟩ := gridInner_split dense ta (min tb (tb - lh)) (max tb (tb - lh))
      (tl - tb) gs
    rw [h1] at hah hlast hsort
    obtain ⟨h5, h6⟩ := gridInner_inStep ht hl hah hlast hsort h3 h4
    simp only [ht0, ht1, h2]
    split
    · simp
    rename_i hne
    have hne : qs ≠ [] ∧ interrupt = Outcome.success := by simpa using hne
    obtain ⟨q0, qs0, hqs⟩ := List.exists_cons_of_ne_nil hne.1
    have hstrict : Before up tb tl := by
      have hmem : q0 ∈ qs := by rw [hqs]; simp
      have h7 := h6 q0 hmem
      have h8 := hlast q0 (List.mem_append_right _ hmem)
      cases up
      · simp only [NotAfter, Before, Bool.false_eq_true, if_false] at h7 h8 ⊢
        linarith
      · simp only [NotAfter, Before, if_true] at h7 h8 ⊢
        linarith
    have hup : up = decide (0 ≤ tl - tb) := by
      cases up
      · simp only [Before, Bool.false_eq_true, if_false] at hstrict
        rw [eq_comm, decide_eq_false_iff_not]
        linarith
      · simp only [Before, if_true] at hstrict
        rw [eq_comm, decide_eq_true_iff]
        linarith
    have hle : (XF.le (.fin 0) (.fin (tl - tb)) != up) = false := by
      rw [hup]; simp
    rw [hle]
    simp only [Bool.false_eq_true, if_false]
    obtain ⟨μ, hμ, -, -, hμm⟩ := dtLimit_spec hm (tl - tb)
    have hlim : dtLimit up maxDt (.fin (tl - tb)) = .fin μ := by rw [hup]; exact hμ
    rw [hlim]
    cases hs : stepF ta (.fin μ) true with
    | throw => simp
    | ub => exact absurd hs (hub _ _ _ hI rfl).1
    | ok q =>
      obtain ⟨oc, h, ta1⟩ := q
      simp only [Res.bind_ok]
      by_cases hnf : oc = Outcome.errNfState
      · rw [if_pos hnf]; simp
      · rw [if_neg hnf]
        obtain ⟨t0, x, ht0', hx, htt1, hok, hcases⟩ := hstep _ _ _ _ _ _ rfl hs hnf
        rw [ht] at ht0'
        simp only [XF.fin.injEq] at ht0'
        subst ht0'
        subst hx
        have hlh1 := hsl _ _ _ _ _ _ rfl hs hnf
        have hspec := h_spec hm (rem := tl - tb) (x := x) (by rw [hμ]; exact hok)
        rw [hμ] at hspec
        have hI1 := (hub _ _ _ hI rfl).2 _ _ _ hs
        cases hcb : runCb cb ta1 with
        | throw => simp
        | ub => exact absurd hcb (runCb_defined hcbub hI1).1
        | ok rc =>
          obtain ⟨b, ta2⟩ := rc
          simp only [Res.bind_ok]
          obtain ⟨-, ht2⟩ := runCb_ok htt1 hcb
          have hlh2 : ta2.lastH = .fin x := by rw [runCb_lastH hcbl hcb, hlh1]
          have hI2 := (runCb_defined hcbub hI1).2 _ _ hcb
          have hxdir : NotAfter up (tb + x - x) (tb + x) := by
            cases up
            · simp only [Before, NotAfter, Bool.false_eq_true, if_false] at hstrict ⊢
              have := (hspec.2.1 (by linarith)).2
              linarith
            · simp only [Before, NotAfter, if_true] at hstrict ⊢
              have := (hspec.1 (by linarith)).1
              linarith
          have hah2 : Ahead up (tb + x) x qs := by
            left
            refine ⟨hxdir, fun g hg => ?_⟩
            rw [add_sub_cancel_right]
            exact h6 g hg
          have hrec : ∀ st out i, gridLoop stepF dense cb (.fin tl) maxSteps maxDt up fuel
              (.fin (tl - (tb + x))) st i out (qs.map .fin) ta2 ≠ .ub := fun st out i =>
            ih (tb + x) x st out qs ta2 i hI2 ht2 hlh2 hah2
              (fun g hg => hlast g (List.mem_append_right _ hg)) (List.pairwise_append.mp hsort).2.1
          by_cases hxr : x = tl - tb
          · have hoc : oc = Outcome.timeLimit := by
              have hmu := hspec.2.2.2 hxr
              rcases hcases with ⟨h1, -⟩ | ⟨-, h2⟩ | ⟨i, -, -, h3⟩
              · exact h1
              · exact absurd hmu.symm h2
              · rw [hmu] at h3; simp at h3
            rw [if_pos (by simp [hxr]), if_neg (by simp [hoc])]
            have h0 : tl - (tb + x) = 0 := by rw [hxr]; ring
            rw [h0] at hrec
            exact hrec _ _ _
          · rw [if_neg (by simp [hxr])]
            have hlt : (XF.abs (.fin x)).lt (XF.abs (.fin (tl - tb))) = true := by
              simp only [XF.abs_fin, XF.lt_fin, decide_eq_true_eq]
              by_cases hr : 0 ≤ tl - tb
              · obtain ⟨h5, h6⟩ := hspec.1 hr
                rw [abs_of_nonneg h5, abs_of_nonneg hr]
                exact lt_of_le_of_ne h6 hxr
              · push Not at hr
                obtain ⟨h5, h6⟩ := hspec.2.1 hr
                rw [abs_of_nonpos h6, abs_of_neg hr]
                have := lt_of_le_of_ne h5 (Ne.symm hxr)
                linarith
            rw [hlt]
            simp only [Bool.not_true, Bool.false_eq_true, if_false]
            rw [ht2, XF.sub_fin]
            exact hrec _ _ _

/-- **C24.** `propagate_grid()` never violates one of its assertions. -/
theorem propagate_grid_not_ub {stepF : StepF K W} (hstep : StepOk stepF) (hsl : StepLastH stepF)
    {I : Integ K W → Prop} (hub : StepDefined I stepF)
    {dense : Integ K W → XF K → S} {state : Integ K W → S} {hi : XF K → XF K} {fuel : Nat} {ta : Integ K W}
    {grid : List (XF K)} {maxSteps : Nat} {maxDt : XF K} {cb : Option (Cb K W)} (hcbl : CbKeepsLastH cb)
    (hcbub : ∀ c, cb = some c → CbDefined I c) (hI : I ta) :
    propagateGrid stepF dense state hi fuel ta grid maxSteps maxDt cb ≠ .ub := by
  unfold propagateGrid
  split
  · simp
  rename_i h1
  split
  · simp
  rename_i h2
  split
  · simp
  rename_i h3
  split
  · simp
  rename_i h4
  have hm := maxDtOk_of_checks h2 h3
  have hg : gridOk grid = true := by simpa using h4
  obtain ⟨g0, gs, hgrid, hmono⟩ := grid_accepted_iff.mp hg
  subst hgrid
  simp only [List.map_cons]
  split
  · simp
  cases hu : propagateUntil stepF (fun _ => ()) fuel ta (.fin g0) maxSteps maxDt none true false with
  | throw => simp
  | ub => exact absurd hu (propagate_until_not_ub hstep hub (by simp) hI)
  | ok ru =>
    simp only [Res.bind_ok]
    cases ru with
    | none => simp
    | some ru =>
      simp only
      by_cases hoc : ru.oc = Outcome.timeLimit
      · rw [if_neg (by simpa using hoc)]
        have ht0 := (propagate_until_time_limit hstep hu).1 hoc
        have hru : (∃ lh, ru.ta.lastH = .fin lh) ∧ I ru.ta := by
          obtain ⟨tf, tb, ta0, its, -, -, -, hpre, hs⟩ := propagate_until_correct hstep hu
          have hchainI : ∀ (its : List (Iter K W)) (a e : Integ K W), I a → Chain a its e →
              (∀ it ∈ its, it.Valid stepF none maxDt (true || false)) → I e := by
            intro its
            induction its with
            | nil => intro a e ha hc _; simp only [Chain] at hc; rw [← hc]; exact ha
            | cons it its ih =>
              intro a e ha hc hv
              obtain ⟨⟨μ, -, k3⟩, -, -, k6⟩ := hv it List.mem_cons_self
              refine ih it.after e ?_ hc.2 fun it' hit' => hv it' (List.mem_cons_of_mem _ hit')
              rw [k6]
              rw [hc.1] at k3
              exact (hub _ _ _ ha rfl).2 _ _ _ k3
          rcases hs.ending with ⟨k1, -⟩ | ⟨pre, it, k1, kc, -, k2, -⟩
          · rw [hoc] at k1; exact absurd k1 (by decide)
          · obtain ⟨⟨μ, -, k3⟩, k4, k5, k6⟩ := hs.valid it (by rw [k1]; simp)
            refine ⟨?_, hchainI its ta0 ru.ta ?_ kc hs.valid⟩
            · rw [k2, k6]
              exact ⟨it.h, hsl _ _ _ _ _ _ rfl k3 k4⟩
            · have : ta0 = ta := hpre
              rw [this]; exact hI
        obtain ⟨⟨lh, hlh⟩, hIru⟩ := hru
        obtain ⟨tl, htl⟩ : ∃ tl, tl = (g0 :: gs).getLast (List.cons_ne_nil _ _) := ⟨_, rfl⟩
        have hlastg : (XF.fin g0 :: gs.map XF.fin).getLast (List.cons_ne_nil _ _) = .fin tl := by
          rw [htl]
          rw [show (XF.fin g0 :: gs.map XF.fin).getLast (List.cons_ne_nil _ _)
            = ((g0 :: gs).map XF.fin).getLast (by simp) from rfl, List.getLast_map]
        rw [hlastg, ht0]
        simp only [XF.sub_fin, XF.isFin_fin, Bool.not_true, Bool.false_eq_true, if_false]
        cases hp : runPreHook cb ru.ta with
        | throw => simp
        | ub => exact absurd hp (runPreHook_defined hcbub hIru).1
        | ok ta1 =>
          simp only [Res.bind_ok]
          obtain ⟨ht1, -⟩ := runPreHook_ok ht0 hp
          have hl1 : ta1.lastH = .fin lh := by rw [runPreHook_lastH hcbl hp, hlh]
          have hI1 := (runPreHook_defined hcbub hIru).2 _ hp
          obtain ⟨up, hup⟩ : ∃ up, up = decide (g0 ≤ tl) := ⟨_, rfl⟩
          have hup' : XF.le (.fin 0) (.fin (tl - g0)) = up := by
            rw [hup]; simp
          rw [hup']
          have hmem_tl : tl ∈ g0 :: gs := by rw [htl]; exact List.getLast_mem _
          have hupiff : (up = true → (g0 :: gs).Pairwise (· < ·)) ∧
              (up = false → (g0 :: gs).Pairwise (· ≥ ·) ∧ ∀ g ∈ gs, g < g0) := by
            constructor
            · intro h6
              rw [hup, decide_eq_true_eq] at h6
              rcases hmono with h7 | ⟨-, h7⟩
              · exact h7
              · cases gs with
                | nil => simp
                | cons a l =>
                  exfalso
                  have : tl ∈ a :: l := by
                    rw [htl, List.getLast_cons (List.cons_ne_nil _ _)]
                    exact List.getLast_mem _
                  exact absurd (h7 tl this) (not_lt.mpr h6)
            · intro h6
              rw [hup, decide_eq_false_iff_not] at h6
              rcases hmono with h7 | h7
              · exfalso
                rcases List.mem_cons.mp hmem_tl with h8 | h8
                · exact h6 h8.ge
                · exact h6 ((List.pairwise_cons.mp h7).1 tl h8).le
              · exact h7
          have hnotafter : (g0 :: gs).Pairwise (NotAfter up) := by
            cases up
            · exact (hupiff.2 rfl).1.imp fun {a b} hab => by simpa [NotAfter] using hab
            · exact (hupiff.1 rfl).imp fun {a b} hab => by simpa [NotAfter] using hab.le
          have hlast : ∀ g ∈ g0 :: gs, NotAfter up g tl := by
            intro g hg
            have hsplit : (g0 :: gs) = (g0 :: gs).dropLast ++ [tl] := by
              rw [htl]; exact (List.dropLast_append_getLast _).symm
            rw [hsplit] at hg hnotafter
            rcases List.mem_append.mp hg with h6 | h6
            · exact (List.pairwise_append.mp hnotafter).2.2 g h6 tl (by simp)
            · simp only [List.mem_singleton] at h6
              rw [h6]
              cases up <;> simp [NotAfter]
          have hahead : Ahead up g0 lh gs := by
            right
            intro g hg
            cases up
            · simpa [Before] using (hupiff.2 rfl).2 g hg
            · simpa [Before] using (List.pairwise_cons.mp (hupiff.1 rfl)).1 g hg
          exact gridLoop_not_ub hstep hsl hub hcbl hcbub hm fuel g0 lh Stats.init [state ru.ta] gs ta1
            Outcome.success hI1 ht1 hl1 hahead (fun g hg => hlast g (List.mem_cons_of_mem _ hg))
            (List.pairwise_cons.mp hnotafter).2
      · rw [if_pos (by simpa using hoc)]
        simp

/-! ## Concrete cases -/

example : StepLastH (stepImpl demoEnv none) := step_lastH (by simp) demoEnv_ok.sortedN

example : CbKeepsLastH (some demoCb) := by
  intro c hc
  cases hc
  refine ⟨fun ta b ta' h => ?_, fun ta ta' h => ?_⟩
  · simp only [demoCb, Res.ok.injEq, Prod.mk.injEq] at h
    rw [← h.2]
  · simp only [demoCb, Res.ok.injEq] at h
    rw [← h]

/-- The view of the result of `propagateGrid`: samples are (time and last step of the integrator used, time
of the sample). -/
def viewGrid {K W S : Type*} : Res (Option (GridRes K W S)) → Option ((Int × Nat) × XF K × List S)
  | .ok (some r) => some ((r.oc, r.steps), r.ta.time, r.out)
  | _ => none

set_option synthInstance.maxSize 4096 in
/-- Forward grid with several points in a step and a step without points; limit of 3/2 on the step. -/
example : viewGrid (propagateGrid (stepImpl demoEnv none) (fun ta g => [ta.time, ta.lastH, g])
    (fun ta => [ta.time]) (fun t => t) 10 ⟨.fin 10, .fin 0, [], []⟩
    [.fin 10, .fin (41 / 4), .fin (21 / 2), .fin (25 / 2)] 0 (.fin (3 / 2)) (some demoCb))
    = some ((Outcome.timeLimit, 3), .fin (25 / 2), [[.fin 10], [.fin 11, .fin 1, .fin (41 / 4)],
        [.fin 11, .fin 1, .fin (21 / 2)], [.fin (25 / 2), .fin (1 / 2), .fin (25 / 2)]]) := by
  decide +kernel

end Heyoka.Integ
