import Verif.Integ.Batch
import Verif.Integ.PropagateLemmas

/-!
# Facts about batch mode
-/

namespace Heyoka.Integ

variable {K W G J C : Type*} {n : Nat}

/-- The callback of the terminal event `te` of a batch integrator, for the lane `i`, does what the callback of the terminal
event `s` of a scalar integrator does, and leaves the other lanes alone. -/
def LocalT (i : Fin n) (te : BTEvent n K W G) (s : TEvent K W) : Prop :=
  s.cooldown = te.cooldown ∧ ((te.cb = none ∧ s.cb = none) ∨ ∃ f g, te.cb = some f ∧ s.cb = some g ∧
    ∀ B sg b B', f B sg i = .ok (b, B') → g (B.lanes i) sg = .ok (b, B'.lanes i) ∧ ∀ j, j ≠ i → B'.lanes j = B.lanes j)

/-- The same for non-terminal events. -/
def LocalN (i : Fin n) (ne : BNTEvent n K W G) (s : NTEvent K W) : Prop :=
  ∀ B x sg B', ne.cb B x sg i = .ok B' → s.cb (B.lanes i) x sg = .ok (B'.lanes i) ∧ ∀ j, j ≠ i → B'.lanes j = B.lanes j

/-- The events of a batch integrator correspond to the events of one scalar integrator per lane. -/
def LocalEvs (evs : Option (List (BTEvent n K W G) × List (BNTEvent n K W G)))
    (sevs : Fin n → Option (List (TEvent K W) × List (NTEvent K W))) : Prop :=
  match evs with
  | none => ∀ i, sevs i = none
  | some e => ∀ i, ∃ l, sevs i = some l ∧ List.Forall₂ (LocalT i) e.1 l.1 ∧ List.Forall₂ (LocalN i) e.2 l.2

@[simp] theorem setLane_same (B : BInteg n K W G) (i : Fin n) (L : Integ K W) : (B.setLane i L).lanes i = L := by
  simp [BInteg.setLane]

theorem setLane_ne (B : BInteg n K W G) {i j : Fin n} (L : Integ K W) (h : j ≠ i) : (B.setLane i L).lanes j = B.lanes j := by
  simp [BInteg.setLane, h]

section
variable [Field K] [LinearOrder K] [IsStrictOrderedRing K]

theorem forall₂_getElem? {α β : Type*} {R : α → β → Prop} {l : List α} {l' : List β} (h : List.Forall₂ R l l') {k : Nat} {a : α}
    (ha : l[k]? = some a) : ∃ b, l'[k]? = some b ∧ R a b := by
  induction h generalizing k with
  | nil => simp at ha
  | cons hr _ ih =>
    cases k with
    | zero => simp at ha; subst ha; exact ⟨_, by simp, hr⟩
    | succ k => simp at ha; simpa using ih ha

theorem bRunNtes_lane {ntes : List (BNTEvent n K W G)} {i : Fin n} {s : List (NTEvent K W)}
    (hl : List.Forall₂ (LocalN i) ntes s) {nt : XF K} : ∀ {l : List (DNte K)} {B B' : BInteg n K W G},
      bRunNtes ntes i nt l B = .ok B' →
      runNtes s nt (fun t => t.lastH) l (B.lanes i) = .ok (B'.lanes i) ∧ ∀ j, j ≠ i → B'.lanes j = B.lanes j := by
  intro l
  induction l with
  | nil => intro B B' h; simp only [bRunNtes, Res.ok.injEq] at h; subst h; exact ⟨rfl, fun _ _ => rfl⟩
  | cons e l ih =>
    intro B B' h
    simp only [bRunNtes] at h
    cases hev : ntes[e.idx]? with
    | none => simp [hev] at h
    | some ev =>
      simp only [hev] at h
      obtain ⟨sv, h1, h2⟩ := forall₂_getElem? hl hev
      cases hc : ev.cb B ((nt.sub (B.lanes i).lastH).add (.fin e.t)) e.sgn i with
      | throw => rw [hc] at h; simp at h
      | ub => rw [hc] at h; simp at h
      | ok B1 =>
        rw [hc, Res.bind_ok] at h
        obtain ⟨g1, g2⟩ := h2 _ _ _ _ hc
        obtain ⟨g3, g4⟩ := ih h
        refine ⟨?_, fun j hj => (g4 j hj).trans (g2 j hj)⟩
        simp only [runNtes, h1]
        rw [g1, Res.bind_ok]
        exact g3

theorem bRunTe_lane {env : Env K W J} {tes : List (BTEvent n K W G)} {i : Fin n} {s : List (TEvent K W)}
    (hl : List.Forall₂ (LocalT i) tes s) {ge : Option K} {d : DTe K} {B : BInteg n K W G} {r : Bool × BInteg n K W G}
    (h : bRunTe env tes ge i d B = .ok r) :
    runTe env s ge d (B.lanes i) = .ok (r.1, r.2.lanes i) ∧ ∀ j, j ≠ i → r.2.lanes j = B.lanes j := by
  unfold bRunTe at h
  cases hte : tes[d.idx]? with
  | none => simp [hte] at h
  | some te =>
    simp only [hte] at h
    obtain ⟨sv, h1, h2, h3⟩ := forall₂_getElem? hl hte
    by_cases hi : d.idx < (B.lanes i).cds.length
    · rw [if_pos hi] at h
      unfold runTe
      simp only [h1, if_pos hi]
      have hcd : newCd env ge sv d = (if 0 ≤ te.cooldown then Res.ok (0, te.cooldown)
        else match ge with
          | some g => Res.ok ((0 : K), env.deduceCd g d.absDer)
          | none => .ub) := by
        unfold newCd
        rw [h2]
        rfl
      rw [hcd]
      generalize (if 0 ≤ te.cooldown then Res.ok (0, te.cooldown)
        else match ge with
          | some g => Res.ok ((0 : K), env.deduceCd g d.absDer)
          | none => .ub) = q at h
      cases q with
      | throw => simp at h
      | ub => simp at h
      | ok cd =>
        simp only [Res.bind_ok] at h ⊢
        rcases h3 with ⟨h3, h4⟩ | ⟨f, g, h3, h4, h5⟩
        · simp only [h3, h4, Res.ok.injEq] at h ⊢
          subst h
          exact ⟨by simp, fun j hj => setLane_ne _ _ hj⟩
        · simp only [h3, h4] at h ⊢
          obtain ⟨g1, g2⟩ := h5 _ _ _ _ h
          rw [setLane_same] at g1
          exact ⟨g1, fun j hj => (g2 j hj).trans (setLane_ne _ _ hj)⟩
    · rw [if_neg hi] at h
      simp at h

theorem bEvLane_lane {env : Env K W J} {tes : List (BTEvent n K W G)} {ntes : List (BNTEvent n K W G)} {i : Fin n}
    {st : List (TEvent K W)} {sn : List (NTEvent K W)} (ht : List.Forall₂ (LocalT i) tes st) (hn : List.Forall₂ (LocalN i) ntes sn)
    {maxDt : XF K} {ge : Option K} {dtes : List (DTe K)} {dntes : List (DNte K)} {h newTime : XF K} {nf : Bool}
    {B : BInteg n K W G} {r : (Outcome × XF K) × BInteg n K W G}
    (H : bEvLane env tes ntes i maxDt ge dtes dntes h newTime nf B = .ok r) :
    (∀ j, j ≠ i → r.2.lanes j = B.lanes j) ∧
      (cmpNanEq (r.2.lanes i).time newTime = true →
        (if !newTime.isFin || nf then
            .ok (Outcome.errNfState, h, (⟨newTime, h, (B.lanes i).cds, (B.lanes i).world⟩ : Integ K W))
          else match h with
            | .fin hf => stepEvTail env st sn maxDt ge dtes dntes h hf ⟨newTime, h, (B.lanes i).cds, (B.lanes i).world⟩
            | _ => .ub) = .ok (r.1.1, r.1.2, r.2.lanes i)) := by
  unfold bEvLane at H
  simp only at H
  split at H
  · rename_i hc
    simp only [Res.ok.injEq] at H
    subst H
    refine ⟨fun j hj => setLane_ne _ _ hj, fun _ => ?_⟩
    rw [if_pos hc]
    simp
  · rename_i hc
    rw [if_neg hc]
    cases h with
    | nan => simp at H
    | pinf => simp at H
    | ninf => simp at H
    | fin hf =>
      simp only at H ⊢
      unfold stepEvTail
      simp only
      cases htr : ntesToRun hf dtes dntes with
      | throw => rw [htr] at H; simp at H
      | ub => rw [htr] at H; simp at H
      | ok tr =>
        rw [htr, Res.bind_ok] at H
        rw [Res.bind_ok]
        cases hr : bRunNtes ntes i newTime tr
            (B.setLane i ⟨newTime, .fin hf, (B.lanes i).cds.map (updateCd hf), (B.lanes i).world⟩) with
        | throw => rw [hr] at H; simp at H
        | ub => rw [hr] at H; simp at H
        | ok B3 =>
          rw [hr, Res.bind_ok] at H
          obtain ⟨g1, g2⟩ := bRunNtes_lane hn hr
          rw [setLane_same] at g1
          rw [g1, Res.bind_ok]
          have g3 : ∀ j, j ≠ i → B3.lanes j = B.lanes j := fun j hj => (g2 j hj).trans (setLane_ne _ _ hj)
          cases dtes with
          | nil =>
            simp only [Res.ok.injEq] at H
            subst H
            refine ⟨g3, fun hq => ?_⟩
            simp only at hq ⊢
            rw [hq]
            simp
          | cons d ds =>
            simp only at H ⊢
            cases hte : bRunTe env tes ge i d B3 with
            | throw => rw [hte] at H; simp at H
            | ub => rw [hte] at H; simp at H
            | ok q =>
              rw [hte, Res.bind_ok] at H
              obtain ⟨k1, k2⟩ := bRunTe_lane ht hte
              simp only [Res.ok.injEq] at H
              subst H
              refine ⟨fun j hj => (k2 j hj).trans (g3 j hj), fun hq => ?_⟩
              simp only at hq ⊢
              rw [k1, Res.bind_ok]
              simp only [hq, Bool.not_true, Bool.false_eq_true, if_false]

theorem bEvLoop_lane {f : Fin n → BInteg n K W G → Res ((Outcome × XF K) × BInteg n K W G)}
    (hf : ∀ i B r, f i B = .ok r → ∀ j, j ≠ i → r.2.lanes j = B.lanes j) :
    ∀ {is : List (Fin n)} {res : StepRes n K} {B : BInteg n K W G} {q : StepRes n K × BInteg n K W G}, is.Nodup →
      bEvLoop f is res B = .ok q →
      (∀ i ∈ is, ∃ B1 r, B1.lanes i = B.lanes i ∧ f i B1 = .ok r ∧ q.1 i = r.1 ∧ q.2.lanes i = r.2.lanes i) ∧
      (∀ i, i ∉ is → q.1 i = res i ∧ q.2.lanes i = B.lanes i) := by
  intro is
  induction is with
  | nil =>
    intro res B q _ h
    simp only [bEvLoop, Res.ok.injEq] at h
    subst h
    exact ⟨by simp, fun _ _ => ⟨rfl, rfl⟩⟩
  | cons a is ih =>
    intro res B q hnd h
    simp only [bEvLoop] at h
    cases hfa : f a B with
    | throw => rw [hfa] at h; simp at h
    | ub => rw [hfa] at h; simp at h
    | ok r =>
      rw [hfa, Res.bind_ok] at h
      obtain ⟨hna, hnd'⟩ := List.nodup_cons.1 hnd
      obtain ⟨h1, h2⟩ := ih hnd' h
      refine ⟨fun i hi => ?_, fun i hi => ?_⟩
      · rcases List.mem_cons.1 hi with rfl | hi'
        · obtain ⟨k1, k2⟩ := h2 i hna
          exact ⟨B, r, rfl, hfa, by rw [k1]; simp, k2⟩
        · obtain ⟨B1, r1, k1, k2, k3, k4⟩ := h1 i hi'
          have hne : i ≠ a := fun e => hna (e ▸ hi')
          exact ⟨B1, r1, k1.trans (hf _ _ _ hfa i hne), k2, k3, k4⟩
      · have hne : i ≠ a := fun e => hi (e ▸ List.mem_cons_self)
        obtain ⟨k1, k2⟩ := h2 i fun e => hi (List.mem_cons_of_mem _ e)
        exact ⟨by rw [k1]; simp [hne], k2.trans (hf _ _ _ hfa i hne)⟩

/-- The step function of a batch integrator acts on each lane as a step function of a scalar integrator. -/
def LaneWise (bstep : BStepF n K W G) (stepF : Fin n → StepF K W) : Prop :=
  ∀ B mx wtc res B', (∀ i, (mx i).isNan = false) → bstep B mx wtc = .ok (res, B') →
    ∀ i, stepF i (B.lanes i) (mx i) wtc = .ok ((res i).1, (res i).2, B'.lanes i)

end

end Heyoka.Integ
