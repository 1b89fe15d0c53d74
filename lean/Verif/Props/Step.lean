import Verif.Integ.StepLemmas
import Mathlib.Algebra.Order.Ring.Rat
import Mathlib.Tactic.NormNum
import Mathlib.Tactic.Positivity

/-!
# C25, C26: a step stops at the first terminal event; cooldown of terminal events
-/

namespace Heyoka.Integ

variable {K W J : Type*} [Field K] [LinearOrder K] [IsStrictOrderedRing K]

/-! ## Specification -/

/-- The operations of a list succeed when run one after the other, once each, in the given order. -/
inductive Runs {α : Type*} : List (α → Res α) → α → α → Prop
  | nil (a : α) : Runs [] a a
  | cons {f : α → Res α} {fs : List (α → Res α)} {a b c : α} :
      f a = .ok b → Runs fs b c → Runs (f :: fs) a c

/-- Invocation of the callback of a detected non-terminal event: the callback receives the integrator, the
absolute time of the event (`t0` is the time at the beginning of the step) and the sign of the
derivative. -/
def nteCall (ntes : List (NTEvent K W)) (t0 : K) (e : DNte K) (ta : Integ K W) : Res (Integ K W) :=
  match ntes[e.idx]? with
  | some ev => ev.cb ta (.fin (t0 + e.t)) e.sgn
  | none => .ub

/-- The callbacks cannot change `m_last_h` (there is no member function to do so, other than taking steps). -/
def KeepsLastH (ntes : List (NTEvent K W)) : Prop :=
  ∀ ev ∈ ntes, ∀ ta x s ta', ev.cb ta x s = .ok ta' → ta'.lastH = ta.lastH

theorem runNtes_runs {ntes : List (NTEvent K W)} {t0 x : K} (hk : KeepsLastH ntes) :
    ∀ {l : List (DNte K)} {ta ta' : Integ K W}, ta.lastH = .fin x →
      runNtes ntes (.fin (t0 + x)) (fun t => t.lastH) l ta = .ok ta' →
      Runs (l.map (nteCall ntes t0)) ta ta' := by
  intro l
  induction l with
  | nil => intro ta ta' _ h; simp only [runNtes, Res.ok.injEq] at h; subst h; exact .nil _
  | cons e l ih =>
    intro ta ta' hl h
    simp only [runNtes] at h
    cases hev : ntes[e.idx]? with
    | none => simp [hev] at h
    | some ev =>
      simp only [hev, hl] at h
      have heq : ((XF.fin (t0 + x)).sub (.fin x)).add (.fin e.t) = .fin (t0 + e.t) := by simp
      rw [heq] at h
      cases hc : ev.cb ta (.fin (t0 + e.t)) e.sgn with
      | throw => rw [hc] at h; simp at h
      | ub => rw [hc] at h; simp at h
      | ok tb =>
        rw [hc] at h
        simp only [Res.bind_ok] at h
        have hm : ev ∈ ntes := List.mem_of_getElem? hev
        refine .cons (b := tb) ?_ (ih ?_ h)
        · simp [nteCall, hev, hc]
        · rw [hk ev hm _ _ _ _ hc, hl]

/-- **C25.** A step with events which does not end in a non-finite state. `dT` and `dN` are the terminal and
non-terminal events detected in the step (in any order), `h0` the timestep before event handling.

* Without terminal events, the timestep is `h0`, the callbacks of all detected non-terminal events are run
  once each in chronological order, and the outcome is `time_limit` or `success`.
* With terminal events, the timestep is the time of the earliest terminal event `e`; the callbacks of exactly
  the non-terminal events strictly before it are run once each in chronological order; then the cooldown of
  `e` is set and its callback is run; the outcome is the index of `e` if the callback returned true, and minus
  the index minus one if there is no callback or it returned false.

In all cases the callbacks see the state given by the dense output of the Taylor series at the end of the
timestep, and the final time is the initial time plus the timestep: a callback changing the time makes the step
throw. -/
theorem step_events {env : Env K W J} {tes : List (TEvent K W)} {ntes : List (NTEvent K W)} {maxDt : XF K}
    {ta ta' : Integ K W} {oc : Outcome} {h h0 mas : XF K} {jet : J} {dT : List (DTe K)} {dN : List (DNte K)}
    (henv : EnvOk env tes.length ntes.length) (hk : KeepsLastH ntes)
    (hev : env.evStepper ta.world ta.time maxDt = (jet, h0, mas))
    (hd : detectEvents env jet h0 (gEps env mas) ta.cds = (dT, dN))
    (H : stepEv env tes ntes ta maxDt = .ok (oc, h, ta')) (hnf : oc ≠ Outcome.errNfState) :
    ∃ t0 x : K, ta.time = .fin t0 ∧ h = .fin x ∧ ta'.time = .fin (t0 + x) ∧
      ∃ (ran : List (DNte K)) (ta3 : Integ K W),
        ran.Pairwise (fun a b => |a.t| ≤ |b.t|) ∧
        Runs (ran.map (nteCall ntes t0)) ⟨.fin (t0 + x), .fin x, ta.cds.map (updateCd x),
          env.dOut (env.copyTc ta.world jet) jet (.fin x)⟩ ta3 ∧
        ((dT = [] ∧ h = h0 ∧ ran.Perm dN ∧ ta' = ta3 ∧
            oc = if h = maxDt then Outcome.timeLimit else Outcome.success) ∨
         (∃ e ∈ dT, (∀ e' ∈ dT, |e.t| ≤ |e'.t|) ∧ h = .fin e.t ∧
            ran.Perm (dN.filter fun n => decide (|n.t| < |e.t|)) ∧
            ∃ te cd, tes[e.idx]? = some te ∧
              (cd = if 0 ≤ te.cooldown then te.cooldown
                else env.deduceCd ((gEps env mas).getD 0) e.absDer) ∧
              ((∃ cb b, te.cb = some cb ∧
                  cb ⟨ta3.time, ta3.lastH, ta3.cds.set e.idx (some (0, cd)), ta3.world⟩ e.sgn
                    = .ok (b, ta') ∧
                  oc = if b then (e.idx : Int) else -(e.idx : Int) - 1) ∨
               (te.cb = none ∧
                  ta' = ⟨ta3.time, ta3.lastH, ta3.cds.set e.idx (some (0, cd)), ta3.world⟩ ∧
                  oc = -(e.idx : Int) - 1)))) := by
  obtain ⟨h1, h2⟩ := stepEv_ok hev hd (henv.sortedN dN) H
  rcases h2 with ⟨h2, -⟩ | ⟨t0, x, ht0, hx, -, htime, ta3, hrun, h3⟩
  · exact absurd h2 hnf
  rw [show env.dOut (env.copyTc ta.world jet) jet h = env.dOut (env.copyTc ta.world jet) jet (.fin x) by
    rw [hx]] at hrun
  refine ⟨t0, x, ht0, hx, htime, _, ta3, ?_, runNtes_runs hk rfl hrun, ?_⟩
  · split
    · exact henv.sortedN dN
    · exact (henv.sortedN dN).sublist List.filter_sublist
  rcases h3 with ⟨hT, hoc, hta⟩ | ⟨e, ds, b, hT, hte, hoc⟩
  · have hT' : dT = [] := by
      have := henv.permT dT
      rw [hT] at this
      exact this.symm.eq_nil
    refine .inl ⟨hT', ?_, ?_, hta, ?_⟩
    · rw [h1, hT]; rfl
    · rw [if_pos hT]; exact henv.permN dN
    · rw [hoc, hx]
      cases maxDt <;> simp [XF.feq]
  · have hxe : x = e.t := by
      have : h = .fin e.t := by rw [h1, hT]; rfl
      rw [hx] at this
      simpa using this
    subst hxe
    have hperm := henv.permT dT
    have hsort := henv.sortedT dT
    rw [hT] at hperm hsort
    refine .inr ⟨e, hperm.subset List.mem_cons_self, ?_, hx, ?_, ?_⟩
    · intro e' he'
      have : e' ∈ e :: ds := hperm.symm.subset he'
      rcases List.mem_cons.mp this with h5 | h5
      · rw [h5]
      · exact (List.pairwise_cons.mp hsort).1 _ h5
    · rw [if_neg (by rw [hT]; simp)]
      exact (henv.permN dN).filter _
    · unfold runTe at hte
      cases htes : tes[e.idx]? with
      | none => rw [htes] at hte; simp at hte
      | some te =>
        rw [htes] at hte
        simp only at hte
        split at hte
        · cases hcd : newCd env (gEps env mas) te e with
          | throw => rw [hcd] at hte; simp at hte
          | ub => rw [hcd] at hte; simp at hte
          | ok p =>
            rw [hcd] at hte
            obtain ⟨p1, p2⟩ := p
            have hp : p1 = 0 ∧ p2 = if 0 ≤ te.cooldown then te.cooldown
                else env.deduceCd ((gEps env mas).getD 0) e.absDer := by
              unfold newCd at hcd
              split at hcd
              · rename_i h6
                simp only [Res.ok.injEq, Prod.mk.injEq] at hcd
                rw [if_pos h6]
                exact ⟨hcd.1.symm, hcd.2.symm⟩
              · rename_i h6
                rw [if_neg h6]
                cases hg : gEps env mas with
                | none => rw [hg] at hcd; simp at hcd
                | some g =>
                  rw [hg] at hcd
                  simp only [Res.ok.injEq, Prod.mk.injEq] at hcd
                  exact ⟨hcd.1.symm, by simp [hcd.2.symm]⟩
            obtain ⟨hp1, hp2⟩ := hp
            subst hp1
            refine ⟨te, p2, rfl, hp2, ?_⟩
            simp only [Res.bind_ok] at hte
            cases hcb : te.cb with
            | none =>
              rw [hcb] at hte
              simp only [Res.ok.injEq, Prod.mk.injEq] at hte
              obtain ⟨hb, hta⟩ := hte
              refine .inr ⟨rfl, hta.symm, ?_⟩
              rw [hoc, ← hb]
              simp
            | some cb =>
              rw [hcb] at hte
              exact .inl ⟨cb, b, rfl, hte, hoc⟩
        · simp at hte

/-- Outcomes of distinct kinds cannot be confused: for at most `2^32` terminal events, an event outcome is
none of the other outcomes, and it determines the event and whether the integration has to stop. -/
theorem outcome_codes {i j : Nat} (hi : i < 2 ^ 32) (hj : j < 2 ^ 32) :
    ((i : Int) ≠ Outcome.success ∧ (i : Int) ≠ Outcome.timeLimit ∧
      (i : Int) ≠ Outcome.errNfState ∧ (i : Int) ≠ Outcome.stepLimit ∧
      (i : Int) ≠ Outcome.cbStop) ∧
    (-(i : Int) - 1 ≠ Outcome.success ∧ -(i : Int) - 1 ≠ Outcome.timeLimit ∧
      -(i : Int) - 1 ≠ Outcome.errNfState ∧ -(i : Int) - 1 ≠ Outcome.stepLimit ∧
      -(i : Int) - 1 ≠ Outcome.cbStop) ∧
    (i : Int) ≠ -(j : Int) - 1 ∧ ((i : Int) = j → i = j) ∧
    (-(i : Int) - 1 = -(j : Int) - 1 → i = j) := by
  simp only [Outcome.success, Outcome.timeLimit, Outcome.errNfState, Outcome.stepLimit, Outcome.cbStop]
  refine ⟨⟨?_, ?_, ?_, ?_, ?_⟩, ⟨?_, ?_, ?_, ?_, ?_⟩, ?_, fun h => ?_, fun h => ?_⟩ <;> omega

/-! ## Cooldown -/

/-- Event callbacks do not touch the cooldowns (i.e. they do not invoke `reset_cooldowns()`). -/
def KeepsCds (tes : List (TEvent K W)) (ntes : List (NTEvent K W)) : Prop :=
  (∀ ev ∈ ntes, ∀ ta x s ta', ev.cb ta x s = .ok ta' → ta'.cds = ta.cds) ∧
  (∀ te ∈ tes, ∀ cb, te.cb = some cb → ∀ ta s b ta', cb ta s = .ok (b, ta') → ta'.cds = ta.cds)

/-- Event detection ignores a terminal event on cooldown until the end of the cooldown: `first` is the
(signed) displacement from the trigger at the beginning of the step, `second` the length of the cooldown. -/
def DetectRespectsCd (env : Env K W J) : Prop :=
  ∀ jet h g cds, h ≠ 0 → ∀ e ∈ (env.detect jet h g cds).1, ∀ first second,
    cds[e.idx]? = some (some (first, second)) → second ≤ |first + e.t|

/-- A completed step: integrator before, limit, timestep, outcome, integrator after. -/
structure StepRec (K W : Type*) where
  /-- integrator before the step -/
  before : Integ K W
  /-- limit passed to the step -/
  maxDt : XF K
  /-- timestep -/
  h : K
  /-- outcome -/
  oc : Outcome
  /-- integrator after the step -/
  after : Integ K W

/-- The record is a step of the integrator with events, with a finite final state. -/
def StepRec.Valid (env : Env K W J) (tes : List (TEvent K W)) (ntes : List (NTEvent K W))
    (r : StepRec K W) : Prop :=
  stepEv env tes ntes r.before r.maxDt = .ok (r.oc, .fin r.h, r.after) ∧ r.oc ≠ Outcome.errNfState

/-- Terminal event `i` triggered in the step. -/
def StepRec.Triggers (r : StepRec K W) (i : Nat) : Prop :=
  r.oc = (i : Int) ∨ r.oc = -(i : Int) - 1

/-- A history of steps. Between two steps the user can change everything but the cooldowns. -/
def History (env : Env K W J) (tes : List (TEvent K W)) (ntes : List (NTEvent K W)) :
    List (Option (K × K)) → List (StepRec K W) → Prop
  | _, [] => True
  | cds, r :: rs => r.before.cds = cds ∧ r.Valid env tes ntes ∧ History env tes ntes r.after.cds rs

theorem runNtes_cds {ntes : List (NTEvent K W)} {nt : XF K} {f : Integ K W → XF K}
    (hk : ∀ ev ∈ ntes, ∀ ta x s ta', ev.cb ta x s = .ok ta' → ta'.cds = ta.cds) :
    ∀ {l : List (DNte K)} {ta ta' : Integ K W}, runNtes ntes nt f l ta = .ok ta' → ta'.cds = ta.cds := by
  intro l
  induction l with
  | nil => intro ta ta' h; simp only [runNtes, Res.ok.injEq] at h; rw [h]
  | cons e l ih =>
    intro ta ta' h
    simp only [runNtes] at h
    cases hev : ntes[e.idx]? with
    | none => simp [hev] at h
    | some ev =>
      simp only [hev] at h
      cases hc : ev.cb ta ((nt.sub (f ta)).add (.fin e.t)) e.sgn with
      | throw => rw [hc] at h; simp at h
      | ub => rw [hc] at h; simp at h
      | ok tb =>
        rw [hc] at h
        simp only [Res.bind_ok] at h
        rw [ih h, hk ev (List.mem_of_getElem? hev) _ _ _ _ hc]

/-- The cooldowns after a valid step. -/
theorem step_cds {env : Env K W J} {tes : List (TEvent K W)} {ntes : List (NTEvent K W)}
    (henv : EnvOk env tes.length ntes.length) (hlen : tes.length ≤ 2 ^ 32) (hk : KeepsCds tes ntes)
    (hdet : DetectRespectsCd env) {r : StepRec K W} (hv : r.Valid env tes ntes) :
    ((∀ i, i < 2 ^ 32 → ¬ r.Triggers i) ∧ r.after.cds = r.before.cds.map (updateCd r.h)) ∨
    (∃ i te c, i < 2 ^ 32 ∧ i < r.before.cds.length ∧ tes[i]? = some te ∧ (0 ≤ te.cooldown → c = te.cooldown) ∧
      r.Triggers i ∧ (∀ j, j < 2 ^ 32 → r.Triggers j → j = i) ∧
      r.after.cds = (r.before.cds.map (updateCd r.h)).set i (some (0, c)) ∧
      (∀ first second, r.before.cds[i]? = some (some (first, second)) → second ≤ |first + r.h|)) := by
  obtain ⟨H, hnf⟩ := hv
  obtain ⟨⟨jet, h0, mas⟩, hev⟩ : ∃ p, env.evStepper r.before.world r.before.time r.maxDt = p := ⟨_, rfl⟩
  obtain ⟨⟨dT, dN⟩, hd⟩ : ∃ p, detectEvents env jet h0 (gEps env mas) r.before.cds = p := ⟨_, rfl⟩
  obtain ⟨h1, h2⟩ := stepEv_ok hev hd (henv.sortedN dN) H
  rcases h2 with ⟨h2, -⟩ | ⟨t0, x, ht0, hx, -, htime, ta3, hrun, h3⟩
  · exact absurd h2 hnf
  have hx' : r.h = x := by simpa using hx
  subst hx'
  have hc3 : ta3.cds = r.before.cds.map (updateCd r.h) := by
    have := runNtes_cds hk.1 hrun
    exact this
  rcases h3 with ⟨hT, hoc, hta⟩ | ⟨e, ds, b, hT, hte, hoc⟩
  · refine .inl ⟨?_, by rw [hta, hc3]⟩
    intro i hi htr
    unfold StepRec.Triggers at htr
    rw [hoc] at htr
    have := (outcome_codes hi hi)
    split at htr
    · rcases htr with h5 | h5
      · exact this.1.2.1 h5.symm
      · exact this.2.1.2.1 h5.symm
    · rcases htr with h5 | h5
      · exact this.1.1 h5.symm
      · exact this.2.1.1 h5.symm
  · have hmem : e ∈ dT := (henv.permT dT).subset (by rw [hT]; exact List.mem_cons_self)
    unfold detectEvents at hd
    cases h0 with
    | pinf => simp at hd; simp [hd.1] at hmem
    | ninf => simp at hd; simp [hd.1] at hmem
    | nan => simp at hd; simp [hd.1] at hmem
    | fin h0 =>
      cases hg : gEps env mas with
      | none => simp [hg] at hd; simp [hd.1] at hmem
      | some g =>
        simp only [hg] at hd
        split at hd
        · simp at hd; simp [hd.1] at hmem
        · rename_i hne
          have hmem' : e ∈ (env.detect jet h0 g r.before.cds).1 := by rw [hd]; exact hmem
          have hb := henv.detT _ _ g _ hne e hmem'
          have hxe : r.h = e.t := by
            have : (XF.fin r.h) = .fin e.t := by rw [h1, hT]; rfl
            simpa using this
          have hi : e.idx < 2 ^ 32 := lt_of_lt_of_le hb.2.2 hlen
          unfold runTe at hte
          cases htes : tes[e.idx]? with
          | none => rw [htes] at hte; simp at hte
          | some te =>
            rw [htes] at hte
            simp only at hte
            split at hte
            · rename_i hlt
              cases hcd : newCd env (gEps env mas) te e with
              | throw => rw [hcd] at hte; simp at hte
              | ub => rw [hcd] at hte; simp at hte
              | ok p =>
                rw [hcd] at hte
                obtain ⟨p1, p2⟩ := p
                have hp : p1 = 0 ∧ (0 ≤ te.cooldown → p2 = te.cooldown) := by
                  unfold newCd at hcd
                  split at hcd
                  · rename_i h6
                    simp only [Res.ok.injEq, Prod.mk.injEq] at hcd
                    exact ⟨hcd.1.symm, fun _ => hcd.2.symm⟩
                  · rename_i h6
                    rw [hg] at hcd
                    simp only [Res.ok.injEq, Prod.mk.injEq] at hcd
                    exact ⟨hcd.1.symm, fun h7 => absurd h7 h6⟩
                obtain ⟨hp1, hp2⟩ := hp
                subst hp1
                have hafter : r.after.cds = ta3.cds.set e.idx (some (0, p2)) := by
                  simp only [Res.bind_ok] at hte
                  cases hcb : te.cb with
                  | none =>
                    rw [hcb] at hte
                    simp only [Res.ok.injEq, Prod.mk.injEq] at hte
                    rw [← hte.2]
                  | some cb =>
                    rw [hcb] at hte
                    exact hk.2 te (List.mem_of_getElem? htes) cb hcb _ _ _ _ hte
                have htrig : r.Triggers e.idx := by
                  unfold StepRec.Triggers
                  rw [hoc]
                  cases b <;> simp
                refine .inr ⟨e.idx, te, p2, hi, ?_, htes, hp2, htrig, ?_, by rw [hafter, hc3], ?_⟩
                · rw [hc3, List.length_map] at hlt
                  exact hlt
                · intro j hj htj
                  have c1 := outcome_codes hi hj
                  have c2 := outcome_codes hj hi
                  unfold StepRec.Triggers at htrig htj
                  rcases htrig with h7 | h7 <;> rcases htj with h8 | h8 <;> rw [h7] at h8
                  · exact (c1.2.2.2.1 h8).symm
                  · exact absurd h8 c1.2.2.1
                  · exact absurd h8.symm c2.2.2.1
                  · exact (c1.2.2.2.2 h8).symm
                · intro first second hfs
                  rw [hxe]
                  exact hdet _ _ g _ hne e hmem' _ _ hfs
            · simp at hte

/-- **C26.** Cooldown of terminal events. Suppose terminal event `i`, whose cooldown is `c`, is on cooldown
since a displacement `d0` (`d0 = 0` right after it has triggered), and consider any further history of steps
in which it triggers again at the last step. Then the integration has moved by at least `c` away from the
first trigger, at the end of one of these steps at the latest. -/
theorem cooldown_respected {env : Env K W J} {tes : List (TEvent K W)} {ntes : List (NTEvent K W)}
    (henv : EnvOk env tes.length ntes.length) (hlen : tes.length ≤ 2 ^ 32) (hk : KeepsCds tes ntes)
    (hdet : DetectRespectsCd env) {i : Nat} (hi : i < 2 ^ 32) {c : K} :
    ∀ (rs : List (StepRec K W)) (last : StepRec K W) (cds : List (Option (K × K))) (d0 : K),
      cds[i]? = some (some (d0, c)) → History env tes ntes cds (rs ++ [last]) → last.Triggers i →
      ∃ n, 0 < n ∧ n ≤ rs.length + 1 ∧ c ≤ |d0 + (((rs ++ [last]).take n).map fun r => r.h).sum| := by
  intro rs
  induction rs with
  | nil =>
    intro last cds d0 hcd hh htr
    obtain ⟨hb, hv, -⟩ := hh
    rcases step_cds henv hlen hk hdet hv with ⟨h1, -⟩ | ⟨j, te, c', hj, -, -, -, -, huniq, -, hmoved⟩
    · exact absurd htr (h1 i hi)
    · have := huniq i hi htr
      subst this
      refine ⟨1, by omega, by simp, ?_⟩
      simpa using hmoved d0 c (by rw [hb]; exact hcd)
  | cons r rs ih =>
    intro last cds d0 hcd hh htr
    obtain ⟨hb, hv, hrest⟩ := hh
    by_cases hmoved : c ≤ |d0 + r.h|
    · exact ⟨1, by omega, by simp, by simpa using hmoved⟩
    have hup : (r.before.cds.map (updateCd r.h))[i]? = some (some (d0 + r.h, c)) := by
      rw [List.getElem?_map, hb, hcd]
      simp [updateCd, hmoved]
    have hcds : r.after.cds[i]? = some (some (d0 + r.h, c)) := by
      rcases step_cds henv hlen hk hdet hv with ⟨-, h2⟩ | ⟨j, te, c', hj, hjl, -, -, htrj, huniq, h2, hm⟩
      · rw [h2]; exact hup
      · by_cases hji : j = i
        · subst hji
          exact absurd (hm d0 c (by rw [hb]; exact hcd)) hmoved
        · rw [h2, List.getElem?_set_ne hji]
          exact hup
    obtain ⟨n, hn0, hn1, hn2⟩ := ih last r.after.cds (d0 + r.h) hcds hrest htr
    refine ⟨n + 1, by omega, by simpa using hn1, ?_⟩
    simpa [List.take_succ_cons, add_assoc] using hn2

/-- **C26.** A trigger puts the event on cooldown, with the cooldown requested by the user when it is
explicit. -/
theorem cooldown_set {env : Env K W J} {tes : List (TEvent K W)} {ntes : List (NTEvent K W)}
    (henv : EnvOk env tes.length ntes.length) (hlen : tes.length ≤ 2 ^ 32) (hk : KeepsCds tes ntes)
    (hdet : DetectRespectsCd env) {r : StepRec K W} (hv : r.Valid env tes ntes) {i : Nat} (hi : i < 2 ^ 32)
    (ht : r.Triggers i) :
    ∃ te c, tes[i]? = some te ∧ (0 ≤ te.cooldown → c = te.cooldown) ∧
      r.after.cds[i]? = some (some (0, c)) := by
  rcases step_cds henv hlen hk hdet hv with ⟨h1, -⟩ | ⟨j, te, c, hj, hl, hte, hc, -, huniq, h2, -⟩
  · exact absurd ht (h1 i hi)
  · have := huniq i hi ht
    subst this
    refine ⟨te, c, hte, hc, ?_⟩
    rw [h2, List.getElem?_set_self (by simpa using hl)]

/-- **C26.** Once the integration has moved by at least the cooldown in a step, the event is detectable
again (its cooldown is cleared), unless it triggered in that very step. -/
theorem cooldown_cleared {env : Env K W J} {tes : List (TEvent K W)} {ntes : List (NTEvent K W)}
    (henv : EnvOk env tes.length ntes.length) (hlen : tes.length ≤ 2 ^ 32) (hk : KeepsCds tes ntes)
    (hdet : DetectRespectsCd env) {r : StepRec K W} (hv : r.Valid env tes ntes) {i : Nat} (hi : i < 2 ^ 32)
    {d c : K} (hcd : r.before.cds[i]? = some (some (d, c))) (ht : ¬ r.Triggers i) :
    r.after.cds[i]? = some (if c ≤ |d + r.h| then none else some (d + r.h, c)) := by
  have hup : (r.before.cds.map (updateCd r.h))[i]? =
      some (if c ≤ |d + r.h| then none else some (d + r.h, c)) := by
    rw [List.getElem?_map, hcd]
    rfl
  rcases step_cds henv hlen hk hdet hv with ⟨-, h2⟩ | ⟨j, te, c', hj, hl, hte, hc, htj, huniq, h2, -⟩
  · rw [h2, hup]
  · have hji : j ≠ i := fun h => ht (h ▸ htj)
    rw [h2, List.getElem?_set_ne hji, hup]

/-! ## A step is never undefined -/

/-- The event callbacks have no undefined behaviour on integrators with the right number of cooldowns, and do
not change this number. -/
def CbsDefined (tes : List (TEvent K W)) (ntes : List (NTEvent K W)) : Prop :=
  (∀ ev ∈ ntes, ∀ ta x s, ta.cds.length = tes.length →
    ev.cb ta x s ≠ .ub ∧ ∀ ta', ev.cb ta x s = .ok ta' → ta'.cds.length = tes.length) ∧
  (∀ te ∈ tes, ∀ cb, te.cb = some cb → ∀ ta s, ta.cds.length = tes.length →
    cb ta s ≠ .ub ∧ ∀ b ta', cb ta s = .ok (b, ta') → ta'.cds.length = tes.length)

theorem runNtes_defined {tes : List (TEvent K W)} {ntes : List (NTEvent K W)} {nt : XF K}
    {f : Integ K W → XF K} (hcb : CbsDefined tes ntes) :
    ∀ {l : List (DNte K)} {ta : Integ K W}, ta.cds.length = tes.length → (∀ e ∈ l, e.idx < ntes.length) →
      runNtes ntes nt f l ta ≠ .ub ∧ ∀ ta', runNtes ntes nt f l ta = .ok ta' → ta'.cds.length = tes.length := by
  intro l
  induction l with
  | nil =>
    intro ta h _
    refine ⟨by simp [runNtes], fun ta' h' => ?_⟩
    simp only [runNtes, Res.ok.injEq] at h'
    rw [← h', h]
  | cons e l ih =>
    intro ta h hl
    have he : e.idx < ntes.length := hl e List.mem_cons_self
    simp only [runNtes, List.getElem?_eq_getElem he]
    obtain ⟨h1, h2⟩ := hcb.1 ntes[e.idx] (List.getElem_mem he) ta ((nt.sub (f ta)).add (.fin e.t)) e.sgn h
    cases hc : ntes[e.idx].cb ta ((nt.sub (f ta)).add (.fin e.t)) e.sgn with
    | throw => simp
    | ub => exact absurd hc h1
    | ok tb =>
      simp only [Res.bind_ok]
      exact ih (h2 _ hc) fun e' he' => hl e' (List.mem_cons_of_mem _ he')

/-- **C25.** A step with events never goes out of bounds: the indices of the detected events are valid, the
search among the sorted non-terminal events is well defined, an automatic cooldown is never deduced from a
non-finite error estimate. -/
theorem step_events_defined {env : Env K W J} {tes : List (TEvent K W)} {ntes : List (NTEvent K W)}
    {maxDt : XF K} {ta : Integ K W} (henv : EnvOk env tes.length ntes.length) (hcb : CbsDefined tes ntes)
    (hcd : ta.cds.length = tes.length) :
    stepEv env tes ntes ta maxDt ≠ .ub ∧
      ∀ oc h ta', stepEv env tes ntes ta maxDt = .ok (oc, h, ta') → ta'.cds.length = tes.length := by
  obtain ⟨⟨jet, h0, mas⟩, hev⟩ : ∃ p, env.evStepper ta.world ta.time maxDt = p := ⟨_, rfl⟩
  obtain ⟨⟨dT, dN⟩, hd⟩ : ∃ p, detectEvents env jet h0 (gEps env mas) ta.cds = p := ⟨_, rfl⟩
  have hdet : (∀ e ∈ dT, e.idx < tes.length ∧ ∃ g, gEps env mas = some g) ∧
      ∀ e ∈ dN, e.idx < ntes.length := by
    unfold detectEvents at hd
    cases h0 with
    | pinf => simp at hd; simp [hd]
    | ninf => simp at hd; simp [hd]
    | nan => simp at hd; simp [hd]
    | fin h0 =>
      cases hg : gEps env mas with
      | none => simp [hg] at hd; simp [hd]
      | some g =>
        simp only [hg] at hd
        split at hd
        · simp at hd; simp [hd]
        · rename_i hne
          have h1 := henv.detT jet _ g ta.cds hne
          have h2 := henv.detN jet _ g ta.cds hne
          rw [hd] at h1 h2
          exact ⟨fun e he => ⟨(h1 e he).2.2, g, rfl⟩, fun e he => (h2 e he).2.2⟩
  unfold stepEv
  simp only [hev, hd]
  split
  · refine ⟨by simp, fun oc h ta' H => ?_⟩
    simp only [Res.ok.injEq, Prod.mk.injEq] at H
    rw [← H.2.2]
    exact hcd
  · rename_i hf
    have hf' : (ta.time.add (clampH h0 (env.sortT dT))).isFin = true := by
      simp only [Bool.or_eq_true, Bool.not_eq_true', not_or, Bool.not_eq_false] at hf
      exact hf.1
    obtain ⟨t0, x, ht0, hx⟩ := xf_add_isFin hf'
    rw [hx]
    simp only
    unfold stepEvTail
    rw [ntesToRun_eq (henv.sortedN dN)]
    simp only [Res.bind_ok]
    have hlen : (ta.cds.map (updateCd x)).length = tes.length := by simpa using hcd
    have hidx : ∀ e ∈ (if env.sortT dT = [] then env.sortN dN
        else (env.sortN dN).filter fun e => decide (|e.t| < |x|)), e.idx < ntes.length := by
      intro e he
      have : e ∈ env.sortN dN := by
        split at he
        · exact he
        · exact List.mem_of_mem_filter he
      exact hdet.2 e ((henv.permN dN).subset this)
    obtain ⟨h1, h2⟩ := runNtes_defined (nt := ta.time.add (.fin x)) (f := fun t => t.lastH) hcb
      (ta := ⟨ta.time.add (.fin x), .fin x, ta.cds.map (updateCd x),
        env.dOut (env.copyTc ta.world jet) jet (.fin x)⟩) hlen hidx
    cases hr : runNtes ntes (ta.time.add (.fin x)) (fun t => t.lastH)
      (if env.sortT dT = [] then env.sortN dN
        else (env.sortN dN).filter fun e => decide (|e.t| < |x|))
      ⟨ta.time.add (.fin x), .fin x, ta.cds.map (updateCd x),
        env.dOut (env.copyTc ta.world jet) jet (.fin x)⟩ with
    | throw => simp
    | ub => exact absurd hr h1
    | ok ta3 =>
      have hl3 := h2 _ hr
      simp only [Res.bind_ok]
      cases hT : env.sortT dT with
      | nil =>
        simp only
        split
        · simp
        · refine ⟨by simp, fun oc h ta' H => ?_⟩
          simp only [Res.ok.injEq, Prod.mk.injEq] at H
          rw [← H.2.2]
          exact hl3
      | cons d ds =>
        have hmem : d ∈ dT := (henv.permT dT).subset (by rw [hT]; exact List.mem_cons_self)
        obtain ⟨hdi, g, hg⟩ := hdet.1 d hmem
        have hte : runTe env tes (gEps env mas) d ta3 ≠ .ub ∧
            ∀ b ta', runTe env tes (gEps env mas) d ta3 = .ok (b, ta') → ta'.cds.length = tes.length := by
          unfold runTe
          rw [List.getElem?_eq_getElem hdi, hg]
          simp only
          rw [if_pos (by omega)]
          have hn : ∃ cd, newCd env (some g) tes[d.idx] d = .ok cd := by
            unfold newCd
            split
            · exact ⟨_, rfl⟩
            · exact ⟨_, rfl⟩
          obtain ⟨cd, hn⟩ := hn
          rw [hn]
          simp only [Res.bind_ok]
          cases hc : tes[d.idx].cb with
          | none =>
            refine ⟨by simp, fun b ta' H => ?_⟩
            simp only [Res.ok.injEq, Prod.mk.injEq] at H
            rw [← H.2]
            simpa using hl3
          | some cb =>
            exact hcb.2 _ (List.getElem_mem hdi) cb hc _ _ (by simpa using hl3)
        simp only
        cases hrt : runTe env tes (gEps env mas) d ta3 with
        | throw => simp
        | ub => exact absurd hrt hte.1
        | ok q =>
          obtain ⟨b, ta4⟩ := q
          simp only [Res.bind_ok]
          split
          · simp
          · refine ⟨by simp, fun oc h ta' H => ?_⟩
            simp only [Res.ok.injEq, Prod.mk.injEq] at H
            rw [← H.2.2]
            exact hte.2 _ _ hrt

/-! ## A concrete integrator meeting the hypotheses -/

/-- Sort by absolute time. -/
def demoSortT : List (DTe ℚ) → List (DTe ℚ) := List.insertionSort fun a b => |a.t| ≤ |b.t|

/-- Sort by absolute time. -/
def demoSortN : List (DNte ℚ) → List (DNte ℚ) := List.insertionSort fun a b => |a.t| ≤ |b.t|

/-- Timestep of the demonstration integrator: the limit, at most 1 in absolute value. -/
def demoH : XF ℚ → XF ℚ
  | .fin x => .fin (max (-1) (min 1 x))
  | .pinf => .fin 1
  | .ninf => .fin (-1)
  | .nan => .nan

/-- Two non-terminal events per step (given in the wrong order) and one terminal event in the middle of
the step, unless it is on cooldown. -/
def demoDetect (h : ℚ) (cds : List (Option (ℚ × ℚ))) : List (DTe ℚ) × List (DNte ℚ) :=
  (match cds with
    | none :: _ => [⟨0, h / 2, 1, 1⟩]
    | some (f, s) :: _ => if s ≤ |f + h / 2| then [⟨0, h / 2, 1, 1⟩] else []
    | [] => [],
   [⟨1, 3 * h / 4, 1⟩, ⟨0, h / 4, -1⟩])

/-- Demonstration integrator: the world is the log of the callbacks. -/
def demoEnv : Env ℚ (List (ℕ × XF ℚ)) Unit where
  stepper w _ m _ := (demoH m, w)
  evStepper _ _ m := ((), demoH m, .fin 1)
  dOut w _ _ := w
  copyTc w _ := w
  finite _ := true
  detect _ h _ cds := demoDetect h cds
  deduceCd _ _ := 1 / 100
  sortT := demoSortT
  sortN := demoSortN
  tol := 1 / 1000
  eps := 1 / 1000000

theorem demoH_ok (m : XF ℚ) : HOk m (demoH m) := by
  intro x hx
  cases m with
  | nan => simp [demoH] at hx
  | pinf =>
    simp only [demoH, XF.fin.injEq] at hx
    subst hx
    simp [XF.lt, XF.le, XF.abs]
  | ninf =>
    simp only [demoH, XF.fin.injEq] at hx
    subst hx
    simp [XF.lt, XF.le, XF.abs]
  | fin y =>
    simp only [demoH, XF.fin.injEq] at hx
    subst hx
    simp only [XF.lt_fin, decide_eq_false_iff_not, not_lt, decide_eq_true_eq, XF.abs_fin, XF.le_fin]
    refine ⟨fun h => ?_, fun h => ?_, ?_⟩
    · exact le_max_of_le_right (le_min (by norm_num) h)
    · exact max_le (by norm_num) (min_le_of_right_le h.le)
    · rcases le_total 0 y with h | h
      · rw [abs_of_nonneg (le_max_of_le_right (le_min (by norm_num) h)), abs_of_nonneg h]
        exact max_le (by linarith) (min_le_right _ _)
      · rw [abs_of_nonpos (max_le (by norm_num) (min_le_of_right_le h)), abs_of_nonpos h]
        have : y ≤ max (-1) (min 1 y) := le_max_of_le_right (le_min (by linarith) le_rfl)
        linarith

theorem demoEnv_ok : EnvOk demoEnv 1 2 where
  stepper _ _ m _ _ := demoH_ok m
  evStepper _ _ m _ := demoH_ok m
  detT := by
    intro jet h g cds hh e he
    have h2 : (0 : ℚ) < |h| := abs_pos.mpr hh
    have key : e = ⟨0, h / 2, 1, 1⟩ := by
      simp only [demoEnv, demoDetect] at he
      split at he
      · simpa using he
      · split at he
        · simpa using he
        · simp at he
      · simp at he
    subst key
    refine ⟨by nlinarith [sq_nonneg h], ?_, by norm_num⟩
    simp only [abs_div, abs_two]
    linarith
  detN := by
    intro jet h g cds hh e he
    have h2 : (0 : ℚ) < |h| := abs_pos.mpr hh
    simp only [demoEnv, demoDetect, List.mem_cons, List.not_mem_nil, or_false] at he
    rcases he with he | he
    · subst he
      refine ⟨by nlinarith [sq_nonneg h], ?_, by norm_num⟩
      simp only [abs_div, abs_mul]
      norm_num
      linarith
    · subst he
      refine ⟨by nlinarith [sq_nonneg h], ?_, by norm_num⟩
      simp only [abs_div]
      norm_num
      linarith
  permT l := List.perm_insertionSort _ l
  permN l := List.perm_insertionSort _ l
  sortedT l := by
    haveI : Std.Total (fun a b : DTe ℚ => |a.t| ≤ |b.t|) := ⟨fun a b => le_total _ _⟩
    haveI : IsTrans (DTe ℚ) (fun a b : DTe ℚ => |a.t| ≤ |b.t|) := ⟨fun a b c => le_trans⟩
    exact List.pairwise_insertionSort _ l
  sortedN l := by
    haveI : Std.Total (fun a b : DNte ℚ => |a.t| ≤ |b.t|) := ⟨fun a b => le_total _ _⟩
    haveI : IsTrans (DNte ℚ) (fun a b : DNte ℚ => |a.t| ≤ |b.t|) := ⟨fun a b c => le_trans⟩
    exact List.pairwise_insertionSort _ l

theorem demoEnv_cd : DetectRespectsCd demoEnv := by
  intro jet h g cds hh e he first second hc
  simp only [demoEnv, demoDetect] at he
  split at he
  · simp only [List.mem_singleton] at he
    subst he
    simp at hc
  · split at he
    · simp only [List.mem_singleton] at he
      subst he
      simp at hc
      rename_i hle
      rw [← hc.1, ← hc.2]
      exact hle
    · simp at he
  · simp at he

/-- Callbacks logging the event index and time; the terminal one asks to continue. -/
def demoTes : List (TEvent ℚ (List (ℕ × XF ℚ))) :=
  [⟨3 / 2, some fun ta _ => .ok (true, ⟨ta.time, ta.lastH, ta.cds, ta.world ++ [(100, ta.time)]⟩)⟩]

/-- Callbacks logging the event index and time. -/
def demoNtes : List (NTEvent ℚ (List (ℕ × XF ℚ))) :=
  [⟨fun ta t _ => .ok ⟨ta.time, ta.lastH, ta.cds, ta.world ++ [(0, t)]⟩⟩,
   ⟨fun ta t _ => .ok ⟨ta.time, ta.lastH, ta.cds, ta.world ++ [(1, t)]⟩⟩]

example : EnvOk demoEnv demoTes.length demoNtes.length := demoEnv_ok

example : KeepsLastH demoNtes := by
  intro ev hev ta x s ta' h
  simp only [demoNtes, List.mem_cons, List.not_mem_nil, or_false] at hev
  rcases hev with rfl | rfl <;> (simp only [Res.ok.injEq] at h; subst h; rfl)

example : CbsDefined demoTes demoNtes := by
  refine ⟨?_, ?_⟩
  · intro ev hev ta x s hl
    simp only [demoNtes, List.mem_cons, List.not_mem_nil, or_false] at hev
    rcases hev with rfl | rfl <;>
      exact ⟨by simp, fun ta' h => by simp only [Res.ok.injEq] at h; subst h; exact hl⟩
  · intro te hte cb hcb ta s hl
    simp only [demoTes, List.mem_cons, List.not_mem_nil, or_false] at hte
    subst hte
    simp only [Option.some.injEq] at hcb
    subst hcb
    refine ⟨by simp, fun b ta' h => ?_⟩
    simp only [Res.ok.injEq, Prod.mk.injEq] at h
    rw [← h.2]
    exact hl

example : KeepsCds demoTes demoNtes := by
  refine ⟨?_, ?_⟩
  · intro ev hev ta x s ta' h
    simp only [demoNtes, List.mem_cons, List.not_mem_nil, or_false] at hev
    rcases hev with rfl | rfl <;> (simp only [Res.ok.injEq] at h; subst h; rfl)
  · intro te hte cb hcb ta s b ta' h
    simp only [demoTes, List.mem_cons, List.not_mem_nil, or_false] at hte
    subst hte
    simp only [Option.some.injEq] at hcb
    subst hcb
    simp only [Res.ok.injEq, Prod.mk.injEq] at h
    rw [← h.2]

set_option synthInstance.maxSize 1024 in
/-- First step: the terminal event at 1/2 stops the step, only the event at 1/4 is run before it. -/
example : stepEv demoEnv demoTes demoNtes ⟨.fin 10, .fin 0, [none], []⟩ .pinf
    = .ok (0, .fin (1 / 2), ⟨.fin (21 / 2), .fin (1 / 2), [some (0, 3 / 2)],
        [(0, .fin (41 / 4)), (100, .fin (21 / 2))]⟩) := by
  decide +kernel

set_option synthInstance.maxSize 1024 in
/-- Next step: the terminal event is on cooldown; both non-terminal events are run in order. -/
example : stepEv demoEnv demoTes demoNtes ⟨.fin 10, .fin 0, [some (0, 3 / 2)], []⟩ .pinf
    = .ok (Outcome.success, .fin 1, ⟨.fin 11, .fin 1, [some (1, 3 / 2)],
        [(0, .fin (41 / 4)), (1, .fin (43 / 4))]⟩) := by
  decide +kernel

end Heyoka.Integ
