import Verif.Props.Batch

/-!
# C57: batch mode is defined, and ends
-/

namespace Heyoka.Integ

set_option linter.unusedSectionVars false

variable {K W G J C V : Type*} {n : Nat} [Field K] [LinearOrder K] [IsStrictOrderedRing K]

/-- No undefined behaviour, and a property of the result. -/
def Safe {α : Type*} (P : α → Prop) (x : Res α) : Prop := x ≠ .ub ∧ ∀ a, x = .ok a → P a

theorem Safe.bind {α β : Type*} {P : α → Prop} {Q : β → Prop} {x : Res α} {f : α → Res β} (h : Safe P x)
    (hf : ∀ a, P a → Safe Q (f a)) : Safe Q (x.bind f) := by
  cases x with
  | throw => exact ⟨by simp, by simp⟩
  | ub => exact absurd rfl h.1
  | ok a =>
    rw [Res.bind_ok]
    exact hf a (h.2 a rfl)

theorem Safe.ok {α : Type*} {P : α → Prop} {a : α} (h : P a) : Safe P (.ok a) :=
  ⟨by simp, fun b hb => by rw [← Res.ok.inj hb]; exact h⟩

theorem Safe.throw {α : Type*} {P : α → Prop} : Safe P (.throw : Res α) := ⟨by simp, by simp⟩

/-! ## Single steps -/

/-- The number of cooldowns of each lane. -/
def CdsLen (m : Nat) (B : BInteg n K W G) : Prop := ∀ i, (B.lanes i).cds.length = m

/-- The event callbacks have no undefined behaviour on integrators with the right number of cooldowns, and do
not change this number. -/
def BCbsDefined (tes : List (BTEvent n K W G)) (ntes : List (BNTEvent n K W G)) : Prop :=
  (∀ ev ∈ ntes, ∀ B x s i, CdsLen tes.length B → Safe (CdsLen tes.length) (ev.cb B x s i)) ∧
  (∀ te ∈ tes, ∀ cb, te.cb = some cb → ∀ B s i, CdsLen tes.length B → Safe (fun r => CdsLen tes.length r.2) (cb B s i))

theorem cdsLen_setLane {m : Nat} {B : BInteg n K W G} (h : CdsLen m B) {i : Fin n} {L : Integ K W} (hL : L.cds.length = m) :
    CdsLen m (B.setLane i L) := by
  intro j
  by_cases e : j = i
  · subst e; rw [setLane_same]; exact hL
  · rw [setLane_ne _ _ e]; exact h j

theorem bRunNtes_defined {tes : List (BTEvent n K W G)} {ntes : List (BNTEvent n K W G)} (hcb : BCbsDefined tes ntes) {i : Fin n} {nt : XF K} :
    ∀ {l : List (DNte K)} {B : BInteg n K W G}, CdsLen tes.length B → (∀ e ∈ l, e.idx < ntes.length) →
      Safe (CdsLen tes.length) (bRunNtes ntes i nt l B) := by
  intro l
  induction l with
  | nil => intro B h _; exact Safe.ok h
  | cons e l ih =>
    intro B h hl
    have he : e.idx < ntes.length := hl e List.mem_cons_self
    simp only [bRunNtes, List.getElem?_eq_getElem he]
    exact (hcb.1 _ (List.getElem_mem he) B _ _ i h).bind fun B' hB' => ih hB' fun e' he' => hl e' (List.mem_cons_of_mem _ he')

theorem bRunTe_defined {env : Env K W J} {tes : List (BTEvent n K W G)} {ntes : List (BNTEvent n K W G)} (hcb : BCbsDefined tes ntes)
    {i : Fin n} {g : K} {d : DTe K} (hd : d.idx < tes.length) {B : BInteg n K W G} (h : CdsLen tes.length B) :
    Safe (fun r => CdsLen tes.length r.2) (bRunTe env tes (some g) i d B) := by
  unfold bRunTe
  rw [List.getElem?_eq_getElem hd]
  simp only
  rw [if_pos (by rw [h i]; exact hd)]
  have hq : Safe (fun _ => True) (if 0 ≤ tes[d.idx].cooldown then Res.ok (0, tes[d.idx].cooldown) else Res.ok ((0 : K), env.deduceCd g d.absDer)) := by
    split <;> exact Safe.ok trivial
  refine hq.bind fun cd _ => ?_
  have hB' : CdsLen tes.length (B.setLane i ⟨(B.lanes i).time, (B.lanes i).lastH, (B.lanes i).cds.set d.idx (some cd), (B.lanes i).world⟩) :=
    cdsLen_setLane h (by rw [List.length_set]; exact h i)
  cases hc : tes[d.idx].cb with
  | none => exact Safe.ok hB'
  | some cb => exact hcb.2 _ (List.getElem_mem hd) cb hc _ _ i hB'

theorem bEvLane_defined {env : Env K W J} {tes : List (BTEvent n K W G)} {ntes : List (BNTEvent n K W G)} (hcb : BCbsDefined tes ntes)
    {i : Fin n} {maxDt : XF K} {ge : Option K} {dtes : List (DTe K)} {dntes : List (DNte K)} {h t : XF K} {nf : Bool}
    {B : BInteg n K W G} (hB : CdsLen tes.length B) (hT : ∀ e ∈ dtes, e.idx < tes.length ∧ ∃ g, ge = some g)
    (hN : ∀ e ∈ dntes, e.idx < ntes.length) (hs : dntes.Pairwise fun a b => |a.t| ≤ |b.t|) :
    Safe (fun r => CdsLen tes.length r.2) (bEvLane env tes ntes i maxDt ge dtes dntes h (t.add h) nf B) := by
  unfold bEvLane
  simp only
  split
  · exact Safe.ok (cdsLen_setLane hB (hB i))
  · rename_i hf
    have hf' : (t.add h).isFin = true := by
      simp only [Bool.or_eq_true, Bool.not_eq_true', not_or, Bool.not_eq_false] at hf
      exact hf.1
    obtain ⟨t0, x, rfl, rfl⟩ := xf_add_isFin hf'
    simp only
    rw [ntesToRun_eq hs, Res.bind_ok]
    have hB2 : CdsLen tes.length (B.setLane i ⟨(XF.fin t0).add (.fin x), .fin x, (B.lanes i).cds.map (updateCd x), (B.lanes i).world⟩) :=
      cdsLen_setLane hB (by rw [List.length_map]; exact hB i)
    refine (bRunNtes_defined hcb hB2 fun e he => hN e ?_).bind fun B3 hB3 => ?_
    · split at he
      · exact he
      · exact List.mem_of_mem_filter he
    · cases dtes with
      | nil => exact Safe.ok hB3
      | cons d ds =>
        obtain ⟨hd, g, rfl⟩ := hT d List.mem_cons_self
        exact (bRunTe_defined hcb hd hB3).bind fun r hr => Safe.ok hr

theorem bEvLoop_defined {f : Fin n → BInteg n K W G → Res ((Outcome × XF K) × BInteg n K W G)} {I : BInteg n K W G → Prop}
    (hf : ∀ i B, I B → Safe (fun r => I r.2) (f i B)) :
    ∀ {is : List (Fin n)} {res : StepRes n K} {B : BInteg n K W G}, I B → Safe (fun q => I q.2) (bEvLoop f is res B) := by
  intro is
  induction is with
  | nil => intro res B h; exact Safe.ok h
  | cons a is ih => intro res B h; exact (hf a B h).bind fun r hr => ih hr

/-- The step function has no undefined behaviour on the integrators satisfying `I`, and preserves `I`. -/
def BStepDefined (I : BInteg n K W G → Prop) (bstep : BStepF n K W G) : Prop :=
  ∀ B mx wtc, I B → (∀ i, (mx i).isNan = false) → Safe (fun r => I r.2) (bstep B mx wtc)

/-- **C57.** A step in batch mode is never undefined: the indices of events, lanes and cooldowns are in bounds, an automatic cooldown is
never deduced from a non-finite error estimate. -/
theorem batch_step_defined {env : Env K W J} {tes : List (BTEvent n K W G)} {ntes : List (BNTEvent n K W G)} {res0 : StepRes n K}
    (henv : EnvOk env tes.length ntes.length) (hcb : BCbsDefined tes ntes) :
    BStepDefined (CdsLen tes.length) (bStepImpl env (some (tes, ntes)) res0) ∧
      BStepDefined (fun _ => True) (bStepImpl (n := n) (G := G) env none res0) := by
  refine ⟨fun B mx wtc hI hm => ?_, fun B mx wtc _ hm => ?_⟩
  · unfold bStepImpl
    rw [if_neg (by simp [hm])]
    unfold bStepEv
    have hdet : ∀ (jet : J) (h0 mas : XF K) cds, (∀ e ∈ (detectEvents env jet h0 (gEps env mas) cds).1,
          e.idx < tes.length ∧ ∃ g, gEps env mas = some g) ∧
        ∀ e ∈ (detectEvents env jet h0 (gEps env mas) cds).2, e.idx < ntes.length := by
      intro jet h0 mas cds
      unfold detectEvents
      cases h0 with
      | pinf => simp
      | ninf => simp
      | nan => simp
      | fin h0 =>
        cases hg : gEps env mas with
        | none => simp
        | some g =>
          simp only
          split
          · simp
          · rename_i hne
            have h1 := henv.detT jet _ g cds hne
            have h2 := henv.detN jet _ g cds hne
            exact ⟨fun e he => ⟨(h1 e he).2.2, g, rfl⟩, fun e he => (h2 e he).2.2⟩
    refine (bEvLoop_defined (I := CdsLen tes.length) (fun i Bx hBx => ?_) ?_).bind fun q hq => ?_
    · exact bEvLane_defined hcb hBx (fun e he => (hdet _ _ _ _).1 e ((henv.permT _).subset he))
        (fun e he => (hdet _ _ _ _).2 e ((henv.permN _).subset he)) (henv.sortedN _)
    · intro i; exact hI i
    · split
      · exact Safe.ok hq
      · exact Safe.throw
  · unfold bStepImpl
    rw [if_neg (by simp [hm])]
    exact Safe.ok trivial

/-! ## The loop -/

/-- The callback has no undefined behaviour on the integrators satisfying `I`, and preserves `I`. -/
def BCbDefined (I : BInteg n K W G → Prop) (c : BCb n K W G) : Prop :=
  ∀ B, I B → Safe (fun r => I r.2) (c.call B) ∧ Safe I (c.preHook B)

theorem sameTimes_iff {B B' : BInteg n K W G} {tb : Fin n → K} (hB : ∀ i, (B.lanes i).time = .fin (tb i)) (h : sameTimes B B' = true) :
    ∀ i, (B'.lanes i).time = .fin (tb i) := by
  intro i
  have := List.all_eq_true.1 h i (List.mem_finRange i)
  rw [hB i] at this
  exact (XF.feq_iff.mp this).1

theorem bRunCb_defined {I : BInteg n K W G → Prop} {cb : Option (BCb n K W G)} (hcb : ∀ c, cb = some c → BCbDefined I c)
    {B : BInteg n K W G} {tb : Fin n → K} (hI : I B) (hB : ∀ i, (B.lanes i).time = .fin (tb i)) :
    Safe (fun r => I r.2 ∧ ∀ i, (r.2.lanes i).time = .fin (tb i)) (bRunCb cb B) := by
  cases cb with
  | none => exact Safe.ok ⟨hI, hB⟩
  | some c =>
    refine ((hcb c rfl B hI).1).bind fun r hr => ?_
    split
    · exact Safe.throw
    · rename_i hs
      exact Safe.ok ⟨hr, sameTimes_iff hB (by simpa using hs)⟩

theorem bRunPreHook_defined {I : BInteg n K W G → Prop} {cb : Option (BCb n K W G)} (hcb : ∀ c, cb = some c → BCbDefined I c)
    {B : BInteg n K W G} {tb : Fin n → K} (hI : I B) (hB : ∀ i, (B.lanes i).time = .fin (tb i)) :
    Safe (fun r => I r ∧ ∀ i, (r.lanes i).time = .fin (tb i)) (bRunPreHook cb B) := by
  cases cb with
  | none => exact Safe.ok ⟨hI, hB⟩
  | some c =>
    refine ((hcb c rfl B hI).2).bind fun r hr => ?_
    split
    · exact Safe.throw
    · rename_i hs
      exact Safe.ok ⟨hr, sameTimes_iff hB (by simpa using hs)⟩

theorem laneUpdates_defined {f : Fin n → Res (XF K × LaneStats K × Bool)} :
    ∀ {is : List (Fin n)} {acc : Fin n → XF K × LaneStats K × Bool}, (∀ i ∈ is, ∃ a, f i = .ok a) → ∃ u, laneUpdates f is acc = .ok u := by
  intro is
  induction is with
  | nil => intro acc _; exact ⟨_, rfl⟩
  | cons a is ih =>
    intro acc h
    obtain ⟨x, hx⟩ := h a List.mem_cons_self
    simp only [laneUpdates, hx, Res.bind_ok]
    exact ih fun i hi => h i (List.mem_cons_of_mem _ hi)

/-- A step of a lane which is on its way or at its final time. -/
theorem lane_defined {stepF : StepF K W} (hstep : StepOk stepF) {maxDt : XF K} (hm : MaxDtOk maxDt) {tf tb : K} {ta : Integ K W}
    (ht : ta.time = .fin tb) {dir : Bool} (hdir : tf - tb ≠ 0 → dir = decide (0 ≤ tf - tb)) {wtc : Bool} {oc : Outcome} {h : XF K}
    {ta1 : Integ K W} (hs : stepF ta (dtLimit dir maxDt (.fin (tf - tb))) wtc = .ok (oc, h, ta1)) (st : LaneStats K) :
    ∃ a, laneUpdate (.fin tf) ta1.time (.fin (tf - tb)) st oc h = .ok a ∧ (oc ≠ Outcome.errNfState → ∃ x, ta1.time = .fin (tb + x) ∧
      a.1 = .fin (tf - (tb + x)) ∧ (tf - (tb + x) ≠ 0 → dir = decide (0 ≤ tf - (tb + x))) ∧
      (if dir then ta1.time.lt (.fin tb) else (XF.fin tb).lt ta1.time) = false) := by
  by_cases hnf : oc = Outcome.errNfState
  · exact ⟨(.fin (tf - tb), st, false), by rw [laneUpdate, if_pos hnf], fun h => absurd hnf h⟩
  by_cases h0 : tf - tb = 0
  · rw [h0, dtLimit_zero hm] at hs
    obtain ⟨t0, x, ht0, hx, ht1, hok, hcases⟩ := hstep _ _ _ _ _ _ rfl hs hnf
    obtain ⟨-, -, h3⟩ := hok x hx
    simp only [XF.abs_fin, abs_zero, XF.le_fin, decide_eq_true_eq] at h3
    have hx0 : x = 0 := abs_nonpos_iff.1 h3
    subst hx0
    rw [ht] at ht0
    simp only [XF.fin.injEq] at ht0
    subst ht0
    have hoc : oc = Outcome.timeLimit := by
      rcases hcases with ⟨h1, -⟩ | ⟨-, h2⟩ | ⟨i, -, -, h4⟩
      · exact h1
      · exact absurd hx h2
      · simp at h4
    have : laneUpdate (.fin tf) ta1.time (.fin (tf - tb)) st oc h = .ok (.fin 0, st.upd oc h, true) := by
      unfold laneUpdate
      rw [if_neg hnf, hoc, hx, h0]
      simp [LaneStats.upd]
    refine ⟨_, this, fun _ => ⟨0, ht1, by simp [h0], fun h => absurd (by rw [add_zero]; exact h0) h, ?_⟩⟩
    rw [ht1]
    simp
  · have hd := hdir h0
    obtain ⟨x, hx, ht1, hu, -, hdir1, -⟩ := lane_iter (C := Unit) (withC := false) (c := ⟨[], []⟩) hstep hm ht hd (by simp) hs hnf (fun _ => ()) st
    refine ⟨_, hu, fun _ => ⟨x, ht1, ?_, fun hne => ?_, ?_⟩⟩
    · simp only
      split
      · rename_i e; rw [e]; simp
      · rfl
    · by_cases hxr : x = tf - tb
      · exact absurd (by rw [hxr]; ring) hne
      · exact hdir1 hxr
    · obtain ⟨μ, hμ, -, -, -⟩ := dtLimit_spec hm (tf - tb)
      have hs' := hs
      rw [hd, hμ] at hs'
      obtain ⟨t0, x', ht0, hx', ht1', hok, -⟩ := hstep _ _ _ _ _ _ rfl hs' hnf
      rw [hx] at hx'
      simp only [XF.fin.injEq] at hx'
      subst hx'
      subst hx
      have hspec := h_spec hm (rem := tf - tb) (x := x) (by rw [hμ]; exact hok)
      rw [hd, ht1]
      by_cases hr : 0 ≤ tf - tb
      · have := (hspec.1 hr).1
        simp [hr, this]
      · have := (hspec.2.1 (not_le.mp hr)).2
        simp only [hr, decide_false, Bool.false_eq_true, if_false, XF.lt_fin, decide_eq_false_iff_not, not_lt]
        linarith

/-- The loop never violates an assertion. -/
theorem bUntilLoop_not_ub {bstep : BStepF n K W G} {stepF : Fin n → StepF K W} (hlw : LaneWise bstep stepF)
    (hstep : ∀ i, StepOk (stepF i)) {I : BInteg n K W G → Prop} (hub : BStepDefined I bstep) {tcOf : W → C} {cb : Option (BCb n K W G)}
    (hcb : ∀ c, cb = some c → BCbDefined I c) {tf : Fin n → K} {maxSteps : Nat} {maxDts : Fin n → XF K} (hm : ∀ i, MaxDtOk (maxDts i))
    {wtc withC : Bool} {dir : Fin n → Bool} :
    ∀ (fuel iters : Nat) (tb : Fin n → K) (rem : Fin n → XF K) (st : Fin n → LaneStats K)
      (c : List (Fin n → XF K) × List (Fin n → C)) (B : BInteg n K W G), I B → (∀ i, (B.lanes i).time = .fin (tb i)) →
      (∀ i, rem i = .fin (tf i - tb i)) → (∀ i, tf i - tb i ≠ 0 → dir i = decide (0 ≤ tf i - tb i)) →
      (withC = true → c.1.getLast? = some fun i => .fin (tb i)) →
      Safe (fun r => ∀ q, r = some q → I q.B) (bUntilLoop bstep tcOf cb (fun i => .fin (tf i)) maxSteps maxDts wtc withC dir fuel iters rem st c B) := by
  intro fuel
  induction fuel with
  | zero => intro iters tb rem st c B _ _ _ _ _; exact Safe.ok (by simp)
  | succ fuel ih =>
    intro iters tb rem st c B hI ht hrem hdir hc
    rw [bUntilLoop]
    rw [if_neg]
    swap
    · rw [List.any_eq_true]
      rintro ⟨i, -, h⟩
      rw [hrem i] at h
      simp only [Bool.and_eq_true, bne_iff_ne, ne_eq, Bool.not_eq_true', XF.le_fin, XF.feq_fin, decide_eq_false_iff_not] at h
      exact h.1 (hdir i h.2).symm
    have hnan : ∀ i, (dtLimit (dir i) (maxDts i) (rem i)).isNan = false := by
      intro i
      rw [hrem i]
      by_cases h0 : tf i - tb i = 0
      · rw [h0, dtLimit_zero (hm i)]; rfl
      · obtain ⟨μ, hμ, -⟩ := dtLimit_spec (hm i) (tf i - tb i)
        rw [hdir i h0, hμ]
        rfl
    cases hb : bstep B (fun i => dtLimit (dir i) (maxDts i) (rem i)) wtc with
    | throw => exact Safe.throw
    | ub => exact absurd hb (hub B _ wtc hI hnan).1
    | ok q =>
      obtain ⟨res, B1⟩ := q
      have hI1 : I B1 := (hub B _ wtc hI hnan).2 _ hb
      have hs := hlw _ _ _ _ _ hnan hb
      rw [Res.bind_ok]
      dsimp only at hs ⊢
      have hl := fun i => lane_defined (hstep i) (hm i) (ht i) (hdir i) (by rw [← hrem i]; exact hs i) (st i)
      choose a ha1 ha2 using hl
      obtain ⟨u, hu⟩ := laneUpdates_defined (f := fun i => laneUpdate (.fin (tf i)) (B1.lanes i).time (rem i) (st i) (res i).1 (res i).2)
        (is := List.finRange n) (acc := fun i => (rem i, st i, false)) fun i _ => ⟨a i, by rw [hrem i]; exact ha1 i⟩
      have hua : ∀ i, u i = a i := by
        intro i
        have := (laneUpdates_ok (List.nodup_finRange n) hu).1 i (List.mem_finRange i)
        rw [hrem i, ha1 i] at this
        exact (Res.ok.inj this).symm
      rw [hu, Res.bind_ok]
      by_cases hany : ∃ i, (res i).1 = Outcome.errNfState
      · rw [if_pos (by simpa using hany)]
        exact Safe.ok fun q hq => by rw [← Option.some.inj hq]; exact hI1
      · rw [if_neg (by simpa using hany)]
        push Not at hany
        have hl2 := fun i => ha2 i (hany i)
        choose x hx1 hx2 hx3 hx4 using hl2
        have hc1 : ∃ c1, bUpdateCOut tcOf withC dir B1 c = .ok c1 ∧ (withC = true → c1.1.getLast? = some fun i => .fin (tb i + x i)) := by
          unfold bUpdateCOut
          cases withC with
          | false => exact ⟨c, rfl, by simp⟩
          | true =>
            rw [hc rfl]
            simp only [if_true]
            rw [if_neg]
            · refine ⟨_, rfl, fun _ => ?_⟩
              simp [hx1]
            · rw [List.any_eq_true]
              rintro ⟨i, -, h⟩
              rw [hx4 i, hx1 i] at h
              simp at h
        obtain ⟨c1, hc1, hc2⟩ := hc1
        rw [hc1, Res.bind_ok]
        refine (bRunCb_defined hcb hI1 hx1).bind fun rc hrc => ?_
        split
        · exact Safe.ok fun q hq => by rw [← Option.some.inj hq]; exact hrc.1
        · split
          · exact Safe.ok fun q hq => by rw [← Option.some.inj hq]; exact hrc.1
          · split
            · exact Safe.ok fun q hq => by rw [← Option.some.inj hq]; exact hrc.1
            · exact ih (iters + 1) (fun i => tb i + x i) _ _ c1 rc.2 hrc.1 hrc.2 (fun i => by rw [hua i]; exact hx2 i) hx3 hc2

theorem batch_until_safe {bstep : BStepF n K W G} {stepF : Fin n → StepF K W} (hlw : LaneWise bstep stepF)
    (hstep : ∀ i, StepOk (stepF i)) {I : BInteg n K W G → Prop} (hub : BStepDefined I bstep) {tcOf : W → C} {cb : Option (BCb n K W G)}
    (hcb : ∀ c, cb = some c → BCbDefined I c) {fuel maxSteps : Nat} {B : BInteg n K W G} (hI : I B) {arg : UntilArg n K} {maxDts : List (XF K)}
    {wtc withC : Bool} : Safe (fun r => ∀ q, r = some q → I q.B) (bPropagateUntil bstep tcOf fuel B arg maxSteps maxDts cb wtc withC) := by
  rcases bPropagateUntil_cases bstep tcOf fuel B arg maxSteps maxDts cb wtc withC with h | ⟨ts, tb, tf, hts, ⟨htb, rfl, hm⟩, heq⟩
  · rw [h]; exact Safe.throw
  · rw [heq]
    refine (bRunPreHook_defined hcb hI htb).bind fun B0 hB0 => bUntilLoop_not_ub hlw hstep hub hcb hm fuel 0 tb _ _ _ B0 hB0.1 hB0.2
      (fun i => rfl) (fun i _ => rfl) fun hw => ?_
    simp [hw, htb]

/-- **C57.** `propagate_until()` in batch mode never violates one of its assertions. -/
theorem batch_until_not_ub {bstep : BStepF n K W G} {stepF : Fin n → StepF K W} (hlw : LaneWise bstep stepF)
    (hstep : ∀ i, StepOk (stepF i)) {I : BInteg n K W G → Prop} (hub : BStepDefined I bstep) {tcOf : W → C} {cb : Option (BCb n K W G)}
    (hcb : ∀ c, cb = some c → BCbDefined I c) {fuel maxSteps : Nat} {B : BInteg n K W G} (hI : I B) {arg : UntilArg n K} {maxDts : List (XF K)}
    {wtc withC : Bool} : bPropagateUntil bstep tcOf fuel B arg maxSteps maxDts cb wtc withC ≠ .ub :=
  (batch_until_safe hlw hstep hub hcb hI).1

/-- **C57.** With a nonzero `max_steps` the loop never needs more than `max_steps` iterations. -/
theorem batch_until_max_steps {bstep : BStepF n K W G} {tcOf : W → C} {cb : Option (BCb n K W G)} {fuel maxSteps : Nat}
    {B : BInteg n K W G} {arg : UntilArg n K} {maxDts : List (XF K)} {wtc withC : Bool} (h0 : 0 < maxSteps) (hf : maxSteps ≤ fuel) :
    bPropagateUntil bstep tcOf fuel B arg maxSteps maxDts cb wtc withC ≠ .ok none := by
  have key : ∀ (ts : Fin n → XF K) (mx : Fin n → XF K) (fuel : Nat) (dir : Fin n → Bool) (wtc : Bool) (iters : Nat) (rem : Fin n → XF K)
      (st : Fin n → LaneStats K) (c : List (Fin n → XF K) × List (Fin n → C)) (B : BInteg n K W G), iters < maxSteps →
      maxSteps ≤ iters + fuel → bUntilLoop bstep tcOf cb ts maxSteps mx wtc withC dir fuel iters rem st c B ≠ .ok none := by
    intro ts mx fuel
    induction fuel with
    | zero => intro dir wtc iters rem st c B h1 h2; omega
    | succ fuel ih =>
      intro dir wtc iters rem st c B h1 h2 H
      rw [bUntilLoop] at H
      split at H
      · simp at H
      obtain ⟨r, -, H⟩ := bind_eq_ok H
      dsimp only at H
      obtain ⟨u, -, H⟩ := bind_eq_ok H
      split at H
      · simp at H
      obtain ⟨c1, -, H⟩ := bind_eq_ok H
      obtain ⟨rc, -, H⟩ := bind_eq_ok H
      split at H
      · simp at H
      split at H
      · simp at H
      split at H
      · simp at H
      · rename_i hms
        exact ih _ _ _ _ _ _ _ (by omega) (by omega) H
  rcases bPropagateUntil_cases bstep tcOf fuel B arg maxSteps maxDts cb wtc withC with h | ⟨ts, tb, tf, hts, ⟨htb, rfl, hm⟩, heq⟩
  · rw [h]; simp
  · rw [heq]
    intro H
    obtain ⟨B0, -, H⟩ := bind_eq_ok H
    exact key _ _ _ _ _ _ _ _ _ _ h0 (by omega) H

/-- The loop goes on only as long as the loop of some scalar integrator does. -/
theorem bUntil_none {bstep : BStepF n K W G} {stepF : Fin n → StepF K W} (hlw : LaneWise bstep stepF)
    (hstep : ∀ i, StepOk (stepF i)) {view : W → V} (hz : ∀ i, ZeroOk view (stepF i)) {tcOf : W → C} {cb : Option (BCb n K W G)}
    (hcb : ∀ c, cb = some c → Observer c) {tf : Fin n → K} {maxSteps : Nat} {maxDts : Fin n → XF K} (hm : ∀ i, MaxDtOk (maxDts i))
    {wtc withC : Bool} {dir : Fin n → Bool} :
    ∀ (fuel iters : Nat) (rem : Fin n → XF K) (st : Fin n → LaneStats K) (c : List (Fin n → XF K) × List (Fin n → C))
      (B : BInteg n K W G) (act : Fin n → Bool) (tb : Fin n → K) (rs0 : Fin n → UntilRes K W C),
      (∀ i, LaneSt view (stepF i) withC (tf i) (dir i) (act i) (B.lanes i) (rem i) (st i) (laneC c i) (tb i) (rs0 i)) →
      (∃ i, act i = true) →
      bUntilLoop bstep tcOf cb (fun i => .fin (tf i)) maxSteps maxDts wtc withC dir fuel iters rem st c B = .ok none →
      ∃ i, act i = true ∧ untilLoop (stepF i) tcOf none (.fin (tf i)) 0 (maxDts i) wtc withC (dir i) fuel (rem i)
          ⟨iters, (st i).steps, (st i).minH, (st i).maxH⟩ (laneC c i) (B.lanes i) = .ok none := by
  intro fuel
  induction fuel with
  | zero => intro iters rem st c B act tb rs0 _ ⟨i, hi⟩ _; exact ⟨i, hi, rfl⟩
  | succ fuel ih =>
    intro iters rem st c B act tb rs0 hl _ H
    rw [bUntilLoop] at H
    split at H
    · simp at H
    obtain ⟨⟨res, B1⟩, hb, H⟩ := bind_eq_ok H
    have hnan : ∀ i, (dtLimit (dir i) (maxDts i) (rem i)).isNan = false := by
      intro i
      cases ha : act i with
      | true =>
        obtain ⟨-, hr, hd, -⟩ := (hl i).1 ha
        obtain ⟨μ, hμ, -⟩ := dtLimit_spec (hm i) (tf i - tb i)
        rw [hr, hd, hμ]
        rfl
      | false => rw [((hl i).2 ha).rem, dtLimit_zero (hm i)]; rfl
    have hs := hlw _ _ _ _ _ hnan hb
    dsimp only at H hs
    obtain ⟨u, hu, H⟩ := bind_eq_ok H
    have hu1 : ∀ i, laneUpdate (.fin (tf i)) (B1.lanes i).time (rem i) (st i) (res i).1 (res i).2 = .ok (u i) :=
      fun i => (laneUpdates_ok (List.nodup_finRange n) hu).1 i (List.mem_finRange i)
    split at H
    · simp at H
    rename_i hany
    have hany' : ∀ i, (res i).1 ≠ Outcome.errNfState := by simpa using hany
    obtain ⟨c1, hc1, H⟩ := bind_eq_ok H
    obtain ⟨hcl, -⟩ := bUpdateCOut_ok hc1
    obtain ⟨⟨b, B2⟩, hrc, H⟩ := bind_eq_ok H
    have hB2 := bRunCb_lanes hcb hrc
    dsimp only at H hB2
    split at H
    · simp at H
    split at H
    · simp at H
    rename_i hfin
    split at H
    · simp at H
    have hP := fun i => lane_step (hstep i) (hz i) (hm i) (hl i) (hs i) (hany' i) tcOf
    choose act1 tb1 rs1 rem1 st1 g1 g2 g3 g4 g5 g6 g7 g8 g9 using hP
    have hue : ∀ i, u i = (rem1 i, st1 i, !act1 i) := fun i => by
      have := hu1 i
      rw [g1 i] at this
      exact (Res.ok.inj this).symm
    simp only [Bool.or_eq_true, not_or] at hfin
    obtain ⟨hf1, hf2⟩ := hfin
    have hnst : ∀ i, ¬ isStopping (res i).1 = true := fun i hi => hf2 (List.any_eq_true.2 ⟨i, List.mem_finRange i, hi⟩)
    have hex : ∃ i, act1 i = true := by
      by_contra hno
      push Not at hno
      refine hf1 (List.all_eq_true.2 fun i _ => ?_)
      rw [hue i]
      simpa using hno i
    obtain ⟨i, k1, k2⟩ := ih (iters + 1) _ _ c1 B2 act1 tb1 rs1 (fun i => by rw [hcl i, hB2, hue i]; exact g2 i) hex H
    have hact : act i = true := by
      by_contra h
      have := (g3 i (by simpa using h)).1
      rw [k1] at this
      simp at this
    refine ⟨i, hact, ?_⟩
    rw [g9 i hact, if_neg (by simp [k1]), if_neg (hnst i), if_neg (by omega)]
    rw [hcl i, hB2, hue i] at k2
    exact k2

/-- **C57.** The loop ends as soon as the propagations of all the scalar integrators have ended: if `fuel` iterations do not suffice for
the batch integrator, they do not suffice for the scalar integrator of some lane. -/
theorem batch_until_terminates {bstep : BStepF n K W G} {stepF : Fin n → StepF K W} (hlw : LaneWise bstep stepF)
    (hstep : ∀ i, StepOk (stepF i)) {view : W → V} (hz : ∀ i, ZeroOk view (stepF i)) {tcOf : W → C} {cb : Option (BCb n K W G)}
    (hcb : ∀ c, cb = some c → Observer c) (hn : 0 < n) {fuel maxSteps : Nat} {B : BInteg n K W G} {arg : UntilArg n K}
    {maxDts : List (XF K)} {wtc withC : Bool}
    (H : bPropagateUntil bstep tcOf fuel B arg maxSteps maxDts cb wtc withC = .ok none) :
    ∃ (tf : Fin n → K) (i : Fin n), arg.times = .ok (fun i => .fin (tf i)) ∧
      propagateUntil (stepF i) tcOf fuel (B.lanes i) (.fin (tf i)) 0 (laneMaxDts n maxDts i) none wtc withC = .ok none := by
  rcases bPropagateUntil_cases bstep tcOf fuel B arg maxSteps maxDts cb wtc withC with h | ⟨ts, tb, tf, hts, ⟨htb, rfl, hm⟩, heq⟩
  · rw [h] at H; simp at H
  rw [heq] at H
  obtain ⟨B0, hp, H⟩ := bind_eq_ok H
  have hB0 := bRunPreHook_lanes hcb hp
  obtain ⟨i, -, h4⟩ := bUntil_none hlw hstep hz hcb hm fuel 0 _ _ _ B0 (fun _ => true) tb (fun i => ⟨0, .nan, .nan, 0, none, B.lanes i⟩)
    (fun i => ⟨fun _ => ⟨by rw [hB0]; exact htb i, rfl, rfl, fun hw => by simp [laneC, hw, htb]⟩, by simp⟩) ⟨⟨0, hn⟩, rfl⟩ H
  refine ⟨tf, i, hts, ?_⟩
  rw [hB0] at h4
  have hmi := hm i
  unfold propagateUntil
  have g1 : (laneMaxDts n maxDts i).isNan = false := by
    rcases hmi with e | ⟨M, e, -⟩ <;> rw [e] <;> rfl
  have g2 : (laneMaxDts n maxDts i).le (.fin 0) = false := by
    rcases hmi with e | ⟨M, e, hM⟩ <;> rw [e]
    · simp [XF.le, XF.lt, XF.feq]
    · simpa using hM
  simp only [htb i, XF.isFin_fin, XF.sub_fin, Bool.not_true, Bool.false_eq_true, if_false, g1, g2, runPreHook, Res.bind_ok, XF.le_fin]
  have hst : (Stats.init : Stats K) = ⟨0, 0, .pinf, .fin 0⟩ := rfl
  rw [hst]
  have hc0 : (⟨if withC then [XF.fin (tb i)] else [], []⟩ : COutData K C) =
      laneC (if withC then [fun i => (B.lanes i).time] else [], []) i := by
    cases withC <;> simp [laneC, htb]
  rw [hc0]
  exact h4

/-! ## Concrete cases -/

/-- The world of the demonstration integrators. -/
abbrev DemoW := List (ℕ × XF ℚ)

theorem demoEnv_zero : ZeroEnv id demoEnv where
  stepper w t wtc _ := by simp [demoEnv, demoH]
  evStepper w t _ jet h mas hh := by
    simp only [demoEnv, Prod.mk.injEq] at hh
    refine ⟨?_, rfl, rfl⟩
    rw [← hh.2.1]
    simp [demoH]

/-- The events of `demoTes` and `demoNtes`, for batch integrators. -/
def demoBTes : List (BTEvent 2 ℚ DemoW Unit) :=
  [⟨3 / 2, some fun B _ i => .ok (true, B.setLane i ⟨(B.lanes i).time, (B.lanes i).lastH, (B.lanes i).cds,
    (B.lanes i).world ++ [(100, (B.lanes i).time)]⟩)⟩]

/-- Non-terminal events. -/
def demoBNtes : List (BNTEvent 2 ℚ DemoW Unit) :=
  [⟨fun B t _ i => .ok (B.setLane i ⟨(B.lanes i).time, (B.lanes i).lastH, (B.lanes i).cds, (B.lanes i).world ++ [(0, t)]⟩)⟩,
   ⟨fun B t _ i => .ok (B.setLane i ⟨(B.lanes i).time, (B.lanes i).lastH, (B.lanes i).cds, (B.lanes i).world ++ [(1, t)]⟩)⟩]

theorem demo_local : LocalEvs (some (demoBTes, demoBNtes)) fun _ => some (demoTes, demoNtes) := by
  intro i
  refine ⟨_, rfl, ?_, ?_⟩
  · refine List.Forall₂.cons ⟨rfl, .inr ⟨_, _, rfl, rfl, fun B sg b B' h => ?_⟩⟩ List.Forall₂.nil
    have e := Res.ok.inj h
    simp only [Prod.mk.injEq] at e
    obtain ⟨rfl, rfl⟩ := e
    exact ⟨by rw [setLane_same], fun j hj => setLane_ne _ _ hj⟩
  · refine List.Forall₂.cons (fun B x sg B' h => ?_) (List.Forall₂.cons (fun B x sg B' h => ?_) List.Forall₂.nil) <;>
    · obtain rfl := Res.ok.inj h
      exact ⟨by rw [setLane_same], fun j hj => setLane_ne _ _ hj⟩

theorem demo_keepsFinite (evs : Option (List (TEvent ℚ DemoW) × List (NTEvent ℚ DemoW))) : KeepsFinite demoEnv evs :=
  fun _ _ => ⟨fun _ _ _ _ _ _ _ _ => rfl, fun _ _ _ _ _ _ _ _ _ _ => rfl⟩

example (res0 : StepRes 2 ℚ) : LaneWise (bStepImpl demoEnv (some (demoBTes, demoBNtes)) res0)
    fun _ => stepImpl demoEnv (some (demoTes, demoNtes)) := batch_step_lanes demo_local res0

example (res0 : StepRes 2 ℚ) : LaneWise (bStepImpl (G := Unit) demoEnv none res0) fun _ => stepImpl demoEnv none :=
  batch_step_lanes (evs := none) (sevs := fun _ => none) (fun _ => rfl) res0

example : ZeroOk id (stepImpl demoEnv (some (demoTes, demoNtes))) := zero_step demoEnv_ok demoEnv_zero (demo_keepsFinite _)

example : EnvOk demoEnv demoBTes.length demoBNtes.length := demoEnv_ok

example : BCbsDefined demoBTes demoBNtes := by
  refine ⟨?_, ?_⟩
  · intro ev hev B x s i hB
    simp only [demoBNtes, List.mem_cons, List.not_mem_nil, or_false] at hev
    rcases hev with rfl | rfl <;> exact Safe.ok (cdsLen_setLane hB (hB i))
  · intro te hte cb hcb B s i hB
    simp only [demoBTes, List.mem_cons, List.not_mem_nil, or_false] at hte
    subst hte
    obtain rfl := Option.some.inj hcb
    exact Safe.ok (cdsLen_setLane hB (hB i))

/-- A step callback which counts its invocations. -/
def demoBCb : BCb 2 ℚ DemoW ℕ where
  call B := .ok (true, ⟨B.lanes, B.glob + 1⟩)
  preHook B := .ok ⟨B.lanes, B.glob + 100⟩

example : Observer demoBCb :=
  ⟨fun _ _ _ h => by
    have e := Res.ok.inj h
    simp only [Prod.mk.injEq] at e
    rw [← e.2], fun _ _ h => by rw [← Res.ok.inj h]⟩

/-- What is observable in the results: outcome, steps, smallest and largest timestep, time, times of the continuous output of a lane. -/
def BUntilRes.view {n : Nat} {K W G C : Type*} (r : BUntilRes n K W G C) (i : Fin n) : (Int × Nat) × List (XF K) :=
  (((r.res i).oc, (r.res i).steps), (r.res i).minH :: (r.res i).maxH :: (r.B.lanes i).time ::
    ((r.cOut.map fun c => c.1.map fun f => f i).getD []))

/-- The view of all the lanes. -/
def bViewRes {n : Nat} {K W G C : Type*} : Res (Option (BUntilRes n K W G C)) → Option (List ((Int × Nat) × List (XF K)) × G)
  | .ok (some r) => some ((List.finRange n).map r.view, r.B.glob)
  | _ => none

/-- Two lanes: one is integrated backward in time from 10 to 15/2, the other forward from 0 to 1/2. -/
def demoB : BInteg 2 ℚ DemoW ℕ := ⟨fun i => if i = 0 then ⟨.fin 10, .fin 0, [], []⟩ else ⟨.fin 0, .fin 0, [], []⟩, 0⟩

set_option synthInstance.maxSize 4096 in
/-- The second lane takes two more steps of length zero. -/
example : bViewRes (bPropagateUntil (bStepImpl demoEnv none fun _ => (0, .nan)) (fun w => w) 10 demoB (.vec [.fin (15 / 2), .fin (1 / 2)])
    0 [] (some demoBCb) false true)
    = some ([((Outcome.timeLimit, 3), [.fin 1, .fin 1, .fin (15 / 2), .fin 10, .fin 9, .fin 8, .fin (15 / 2)]),
      ((Outcome.timeLimit, 1), [.pinf, .fin 0, .fin (1 / 2), .fin 0, .fin (1 / 2), .fin (1 / 2), .fin (1 / 2)])], 103) := by
  decide +kernel

/-! ## Two findings -/

/-- An integrator of `x' = f(t)` whose right-hand side is not finite at the time 1 (e.g., a removable singularity). The world tells
whether the state is finite. -/
def holeEnv : Env ℚ Bool Unit where
  stepper w t m _ := (demoH m, w && !t.feq (.fin 1))
  evStepper _ _ m := ((), demoH m, .fin 1)
  dOut w _ _ := w
  copyTc w _ := w
  finite w := w
  detect _ _ _ _ := ([], [])
  deduceCd _ _ := 0
  sortT := demoSortT
  sortN := demoSortN
  tol := 1
  eps := 1

theorem holeEnv_ok : EnvOk holeEnv 0 0 where
  stepper _ _ m _ _ := demoH_ok m
  evStepper _ _ m _ := demoH_ok m
  detT := by intro jet h g cds _ e he; simp [holeEnv] at he
  detN := by intro jet h g cds _ e he; simp [holeEnv] at he
  permT l := demoEnv_ok.permT l
  permN l := demoEnv_ok.permN l
  sortedT l := demoEnv_ok.sortedT l
  sortedN l := demoEnv_ok.sortedN l

/-- Two lanes at the time 0. -/
def holeB : BInteg 2 ℚ Bool Unit := ⟨fun _ => ⟨.fin 0, .fin 0, [], true⟩, ()⟩

/-- The outcome and the finiteness of the state of the first lane. -/
def holeView : Res (Option (BUntilRes 2 ℚ Bool Unit Unit)) → Option (Int × Bool × XF ℚ)
  | .ok (some r) => some ((r.res 0).oc, (r.B.lanes 0).world, (r.B.lanes 1).time)
  | _ => none

/-- The outcome and the finiteness of the state of a scalar integrator. -/
def holeViewS : Res (Option (UntilRes ℚ Bool Unit)) → Option (Int × Bool)
  | .ok (some r) => some (r.oc, r.ta.world)
  | _ => none

set_option synthInstance.maxSize 4096 in
/-- **C57, finding O.** `ZeroOk` is necessary: a lane which has reached its final time keeps taking steps of length zero while the
other lanes are integrated. If the right-hand side is not finite at the final time (as for a removable singularity), the lane
ends in a non-finite state and stops the whole batch, whereas a scalar integrator reaches the final time with a finite state. -/
theorem batch_zero_step_fails :
    holeViewS (propagateUntil (stepImpl holeEnv none) (fun _ => ()) 10 (holeB.lanes 0) (.fin 1) 0 .pinf none false false) =
      some (Outcome.timeLimit, true) ∧
    holeView (bPropagateUntil (bStepImpl holeEnv none fun _ => (0, .nan)) (fun _ => ()) 10 holeB (.vec [.fin 1, .fin 5]) 0 [] none false false) =
      some (Outcome.errNfState, false, .fin 2) := by
  decide +kernel

/-- Two lanes at the time 0; the terminal event of the first is in cooldown. -/
def cdB : BInteg 2 ℚ DemoW Unit := ⟨fun i => if i = 0 then ⟨.fin 0, .fin 0, [some (0, 100)], []⟩ else ⟨.fin 0, .fin 0, [none], []⟩, ()⟩

/-- The outcomes and times of the lanes. -/
def cdView : Res (Option (BUntilRes 2 ℚ DemoW Unit Unit)) → Option (List Int × List (XF ℚ))
  | .ok (some r) => some ([(r.res 0).oc, (r.res 1).oc], [(r.B.lanes 0).time, (r.B.lanes 1).time])
  | _ => none

set_option synthInstance.maxSize 4096 in
/-- **C57, finding P.** The outcome `time_limit` of a single lane does not mean that the lane has reached its final time: when
`propagate_until()` is interrupted by an event of another lane, a lane whose last timestep was clamped by `max_delta_t` reports `time_limit`
(here at the time 1/2 instead of 10). -/
theorem batch_time_limit_early :
    cdView (bPropagateUntil (bStepImpl demoEnv (some ([⟨3 / 2, none⟩], demoBNtes)) fun _ => (0, .nan)) (fun _ => ()) 10 cdB (.scalar (.fin 10)) 0
      [.fin (1 / 2), .fin (1 / 2)] none false false) = some ([Outcome.timeLimit, -1], [.fin (1 / 2), .fin (1 / 4)]) := by
  decide +kernel

end Heyoka.Integ
