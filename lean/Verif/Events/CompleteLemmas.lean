import Verif.Events.IsolLemmas

/-!
# Completeness of the isolation of the zeros, over the reals
-/

namespace Heyoka.Events

/-- The value of the polynomial at a point of the unit interval. -/
noncomputable def uval (c : Ctx ℝ) (u : ℝ) : ℝ := pev c.poly (c.h * u)

theorem continuous_uval (c : Ctx ℝ) : Continuous (uval c) :=
  (continuous_pev c.poly).comp (continuous_const.mul continuous_id)

theorem pev_rescale_uval (c : Ctx ℝ) (u : ℝ) : pev (polyRescale c.h c.poly) u = uval c u := pev_polyRescale _ _ _

/-- A dyadic point of the unit interval. -/
def Dyadic (x : ℝ) : Prop := ∃ m k : Nat, m ≤ 2 ^ k ∧ x = (m : ℝ) / 2 ^ k

theorem dyadic_zero : Dyadic 0 := ⟨0, 0, by simp, by simp⟩
theorem dyadic_one : Dyadic 1 := ⟨1, 0, by simp, by simp⟩

theorem dyadic_mid {a b : ℝ} (ha : Dyadic a) (hb : Dyadic b) : Dyadic (a / 2 + b / 2) := by
  obtain ⟨m, k, h1, rfl⟩ := ha
  obtain ⟨n, l, h2, rfl⟩ := hb
  refine ⟨m * 2 ^ l + n * 2 ^ k, k + l + 1, ?_, ?_⟩
  · have h3 : m * 2 ^ l ≤ 2 ^ k * 2 ^ l := Nat.mul_le_mul_right _ h1
    have h4 : n * 2 ^ k ≤ 2 ^ l * 2 ^ k := Nat.mul_le_mul_right _ h2
    have h5 : 2 ^ (k + l + 1) = 2 ^ k * 2 ^ l + 2 ^ l * 2 ^ k := by ring
    omega
  · push_cast
    field_simp
    ring

/-- No zero at a dyadic point. -/
def NoDyadicZero (c : Ctx ℝ) : Prop := ∀ x, Dyadic x → uval c x ≠ 0

/-- A single zero with a change of sign in the open interval. -/
def SignChange (f : ℝ → ℝ) (lb ub r : ℝ) : Prop :=
  lb < r ∧ r < ub ∧ f r = 0 ∧ ∃ s : ℝ, (s = 1 ∨ s = -1) ∧ (∀ x, lb < x → x < r → 0 < s * f x) ∧
    (∀ x, r < x → x < ub → s * f x < 0)

theorem SignChange.unique {f : ℝ → ℝ} {lb ub r x : ℝ} (h : SignChange f lb ub r) (h1 : lb < x) (h2 : x < ub)
    (h0 : f x = 0) : x = r := by
  obtain ⟨-, -, -, s, -, g1, g2⟩ := h
  rcases lt_trichotomy x r with g | g | g
  · have := g1 x h1 g; rw [h0] at this; simp at this
  · exact g
  · have := g2 x g h2; rw [h0] at this; simp at this

/-- The change of variable between `(0, ∞)` and an interval. -/
theorem mobius {lb ub u : ℝ} (h1 : lb < u) (h2 : u < ub) :
    ∃ x, 0 < x ∧ u = lb + (x + 1)⁻¹ * (ub - lb) := by
  have hd : 0 < u - lb := by linarith
  refine ⟨(ub - u) / (u - lb), div_pos (by linarith) hd, ?_⟩
  have e : (ub - u) / (u - lb) + 1 = (ub - lb) / (u - lb) := by field_simp; ring
  have hu : ub - lb ≠ 0 := by have : 0 < ub - lb := by linarith
                              exact this.ne'
  rw [e, inv_div, div_mul_cancel₀ _ hu]
  ring

theorem mobius_mem {lb ub x : ℝ} (hl : lb < ub) (hx : 0 < x) :
    lb < lb + (x + 1)⁻¹ * (ub - lb) ∧ lb + (x + 1)⁻¹ * (ub - lb) < ub := by
  have h1 : 0 < (x + 1)⁻¹ := by positivity
  have h2 : (x + 1)⁻¹ < 1 := inv_lt_one_of_one_lt₀ (by linarith)
  constructor <;> nlinarith

theorem mobius_lt {lb ub x y : ℝ} (hl : lb < ub) (hx : 0 < x)
    (h : lb + (x + 1)⁻¹ * (ub - lb) < lb + (y + 1)⁻¹ * (ub - lb)) : y < x := by
  by_contra hc
  push Not at hc
  have : (y + 1)⁻¹ ≤ (x + 1)⁻¹ := inv_anti₀ (by linarith) (by linarith)
  nlinarith

/-- No sign changes: no zeros in the open interval. -/
theorem no_zero_of_rtscc_zero {c : Ctx ℝ} {w : WItem ℝ} (hw : WOk c w) (hnz : ∃ u, uval c u ≠ 0)
    (h : rtscc c.order w.q = .ok 0) {u : ℝ} (h1 : w.lb < u) (h2 : u < w.ub) : uval c u ≠ 0 := by
  obtain ⟨t, ht1, ht2, ht3⟩ := rtscc_ok hw.len
  obtain ⟨k, hk, hv⟩ := hw.val
  obtain ⟨x, hx, rfl⟩ := mobius h1 h2
  rw [ht2] at h
  by_cases hall : ∀ a ∈ t, a = 0
  · -- The transformed polynomial vanishes: so does the original one, at infinitely many points.
    exfalso
    have ht0 : ∀ x, pev t x = 0 := by
      clear ht1 ht2 ht3 h
      intro x
      induction t with
      | nil => rfl
      | cons a t ih =>
        rw [pev_cons, hall a List.mem_cons_self, ih fun b hb => hall b (List.mem_cons_of_mem _ hb)]; simp
    -- All coefficients of `q` are zero.
    have hq0 : ∀ y, 0 < y → y < 1 → pev w.q y = 0 := by
      intro y hy0 hy1
      have e := ht3 (y⁻¹ - 1) (by have := one_lt_inv₀ hy0 |>.mpr hy1; linarith)
      rw [ht0] at e
      have e1 : y⁻¹ - 1 + 1 = y⁻¹ := by ring
      rw [e1, inv_inv] at e
      have : (y⁻¹) ^ c.order ≠ 0 := pow_ne_zero _ (inv_ne_zero hy0.ne')
      rcases mul_eq_zero.mp e.symm with e | e
      · exact absurd e this
      · exact e
    have hz : ∀ l : List ℝ, (∀ y, 0 < y → y < 1 → pev l y = 0) → ∀ y, pev l y = 0 := by
      intro l
      induction l with
      | nil => intro _ y; rfl
      | cons a l ih =>
        intro hl y
        have ha : a = 0 := by
          -- By continuity at 0.
          by_contra ha
          have hcont := (continuous_pev (a :: l)).tendsto 0
          have h00 : pev (a :: l) 0 ≠ 0 := by simpa using ha
          have hev := hcont.eventually (isOpen_ne.mem_nhds h00)
          obtain ⟨ε, hε, hb⟩ := Metric.eventually_nhds_iff.mp hev
          have hm : 0 < min (ε / 2) (1 / 2) := by positivity
          refine hb (y := min (ε / 2) (1 / 2)) ?_ (hl _ hm ?_)
          · rw [Real.dist_eq, sub_zero, abs_of_pos hm]
            have := min_le_left (ε / 2) (1 / 2); linarith
          · have := min_le_right (ε / 2) (1 / 2); linarith
        rw [pev_cons, ha, zero_add]
        rw [ih (fun y hy0 hy1 => ?_) y, mul_zero]
        have := hl y hy0 hy1
        rw [pev_cons, ha, zero_add] at this
        rcases mul_eq_zero.mp this with e | e
        · exact absurd e hy0.ne'
        · exact e
    have hqz := hz w.q hq0
    obtain ⟨u, hu⟩ := hnz
    apply hu
    have hwl : w.ub - w.lb ≠ 0 := by have := hw.lt; intro h; linarith
    have e := hv ((u - w.lb) / (w.ub - w.lb))
    rw [hqz, div_mul_cancel₀ _ hwl] at e
    have e2 : w.lb + (u - w.lb) = u := by ring
    rw [e2] at e
    rcases mul_eq_zero.mp e.symm with e | e
    · exact absurd e hk.ne'
    · exact e
  · push Not at hall
    have := no_roots_of_csc_zero ht1 hall h hx
    rw [ht3 x hx, hv] at this
    intro h0
    apply this
    unfold uval at h0
    rw [h0]; simp

/-- One sign change: exactly one zero in the open interval, with a change of sign. -/
theorem signChange_of_rtscc_one {c : Ctx ℝ} {w : WItem ℝ} (hw : WOk c w) (h : rtscc c.order w.q = .ok 1) :
    ∃ r, SignChange (uval c) w.lb w.ub r := by
  obtain ⟨t, ht1, ht2, ht3⟩ := rtscc_ok hw.len
  obtain ⟨k, hk, hv⟩ := hw.val
  rw [ht2] at h
  obtain ⟨r, hr0, hr1, s, hs, hs1, hs2⟩ := one_root_of_csc_one ht1 h
  have hval : ∀ x, 0 < x → ∃ m : ℝ, 0 < m ∧ pev t x = m * uval c (w.lb + (x + 1)⁻¹ * (w.ub - w.lb)) := by
    intro x hx
    refine ⟨(x + 1) ^ c.order * k, by positivity, ?_⟩
    rw [ht3 x hx, hv]
    unfold uval
    ring
  have hss : s * -s = -1 := by rcases hs with h | h <;> rw [h] <;> norm_num
  obtain ⟨g1, g2⟩ := mobius_mem hw.lt hr0
  refine ⟨w.lb + (r + 1)⁻¹ * (w.ub - w.lb), g1, g2, ?_, -s, by rcases hs with h | h <;> simp [h], ?_, ?_⟩
  · obtain ⟨m, hm, e⟩ := hval r hr0
    rw [hr1] at e
    rcases mul_eq_zero.mp e.symm with e | e
    · exact absurd e hm.ne'
    · exact e
  · intro u hu1 hu2
    obtain ⟨x, hx, rfl⟩ := mobius hu1 (hu2.trans g2)
    have hlt := mobius_lt hw.lt hx hu2
    obtain ⟨m, hm, e⟩ := hval x hx
    have := hs2 x hlt
    rw [e] at this
    by_contra hc
    push Not at hc
    nlinarith
  · intro u hu1 hu2
    obtain ⟨x, hx, rfl⟩ := mobius (g1.trans hu1) hu2
    have hlt := mobius_lt hw.lt hr0 hu1
    obtain ⟨m, hm, e⟩ := hval x hx
    have := hs1 x hx hlt
    rw [e] at this
    by_contra hc
    push Not at hc
    nlinarith

/-- Disjoint open intervals. -/
def Disj (a b : ℝ × ℝ) : Prop := a.2 ≤ b.1 ∨ b.2 ≤ a.1

/-- The interval of an item. -/
def WItem.iv (w : WItem ℝ) : ℝ × ℝ := (w.lb, w.ub)

/-- Invariant of the isolation loop. -/
structure IsolInv (c : Ctx ℝ) (wl : List (WItem ℝ)) (isol : List (ℝ × ℝ)) : Prop where
  wok : ∀ w ∈ wl, WOk c w
  iok : ∀ i ∈ isol, IOk c i ∧ ∃ r, SignChange (uval c) i.1 i.2 r
  wdy : ∀ w ∈ wl, Dyadic w.lb ∧ Dyadic w.ub
  idy : ∀ i ∈ isol, Dyadic i.1 ∧ Dyadic i.2
  disj : (wl.map WItem.iv ++ isol).Pairwise Disj
  cover : ∀ u, 0 < u → u < 1 → c.off < u → uval c u = 0 →
    ∃ i ∈ wl.map WItem.iv ++ isol, i.1 < u ∧ u < i.2

theorem disj_symm {a b : ℝ × ℝ} (h : Disj a b) : Disj b a := Or.symm h

theorem isolLoop_complete {c : Ctx ℝ} (hnd : NoDyadicZero c) : ∀ (fuel : Nat)
    (wl : List (WItem ℝ)) (isol : List (ℝ × ℝ)) (r : IsolRes ℝ), IsolInv c wl isol →
    isolLoop c fuel wl isol [] = .ok (some r) → r.failed = false → r.out = [] ∧ IsolInv c [] r.isol := by
  intro fuel
  induction fuel with
  | zero => intro wl isol r _ h _; simp [isolLoop] at h
  | succ fuel ih =>
    intro wl isol r hinv h hf
    cases wl with
    | nil => simp [isolLoop] at h
    | cons w wl =>
      have hw0 := hinv.wok w List.mem_cons_self
      have hd0 := hinv.wdy w List.mem_cons_self
      obtain ⟨q0, hq0, hiff⟩ := hw0.q0
      have hlb : lbEvent c w [] = .ok [] := by
        unfold lbEvent
        rw [hq0, Res.bind_ok, if_neg]
        intro h0
        exact hnd w.lb hd0.1 (hiff.mp h0)
      obtain ⟨nsc, hn⟩ := rtscc_total hw0.len
      have hdj := hinv.disj
      rw [List.map_cons, List.cons_append, List.pairwise_cons] at hdj
      obtain ⟨hdj1, hdj2⟩ := hdj
      simp only [isolLoop, hlb, hn, Res.bind_ok] at h
      -- The new lists.
      obtain ⟨wl', isol', hb, hi', hinv'⟩ : ∃ wl' isol',
          (if 1 < nsc then bisect c w wl else .ok wl) = .ok wl' ∧
          (if nsc = 1 then isol ++ [(w.lb, w.ub)] else isol) = isol' ∧ IsolInv c wl' isol' := by
        rcases Nat.lt_trichotomy nsc 1 with h1 | h1 | h1
        · -- No zeros.
          have h0 : nsc = 0 := by omega
          subst h0
          refine ⟨wl, isol, by simp, by simp, ?_⟩
          refine ⟨fun v hv => hinv.wok v (List.mem_cons_of_mem _ hv), hinv.iok,
            fun v hv => hinv.wdy v (List.mem_cons_of_mem _ hv), hinv.idy, hdj2, ?_⟩
          intro u hu0 hu1 huo huz
          obtain ⟨i, hi, hi1, hi2⟩ := hinv.cover u hu0 hu1 huo huz
          rw [List.map_cons, List.cons_append] at hi
          rcases List.mem_cons.mp hi with rfl | hi
          · exact absurd huz (no_zero_of_rtscc_zero hw0 ⟨0, hnd 0 dyadic_zero⟩ hn hi1 hi2)
          · exact ⟨i, hi, hi1, hi2⟩
        · -- One zero.
          subst h1
          refine ⟨wl, isol ++ [(w.lb, w.ub)], by simp, by simp, ?_⟩
          refine ⟨fun v hv => hinv.wok v (List.mem_cons_of_mem _ hv), ?_,
            fun v hv => hinv.wdy v (List.mem_cons_of_mem _ hv), ?_, ?_, ?_⟩
          · intro i hi
            rcases List.mem_append.mp hi with hi | hi
            · exact hinv.iok i hi
            · rw [List.mem_singleton.mp hi]
              exact ⟨⟨hw0.lb0, hw0.lt, hw0.ub1, hw0.off⟩, signChange_of_rtscc_one hw0 hn⟩
          · intro i hi
            rcases List.mem_append.mp hi with hi | hi
            · exact hinv.idy i hi
            · rw [List.mem_singleton.mp hi]; exact hd0
          · rw [← List.append_assoc, List.pairwise_append]
            refine ⟨hdj2, by simp, ?_⟩
            intro a ha b hb
            rw [List.mem_singleton.mp hb]
            exact disj_symm (hdj1 a ha)
          · intro u hu0 hu1 huo huz
            obtain ⟨i, hi, hi1, hi2⟩ := hinv.cover u hu0 hu1 huo huz
            rw [List.map_cons, List.cons_append] at hi
            rcases List.mem_cons.mp hi with rfl | hi
            · exact ⟨_, by simp [WItem.iv], hi1, hi2⟩
            · refine ⟨i, ?_, hi1, hi2⟩
              rw [← List.append_assoc]
              exact List.mem_append_left _ hi
        · -- Bisection.
          obtain ⟨q1, q2, hb, g1, g2⟩ := bisect_ok hw0 wl
          obtain ⟨hm1, hm2⟩ := half_lt hw0.lt
          have hmd := dyadic_mid hd0.1 hd0.2
          obtain ⟨mid, hmid⟩ : ∃ mid, w.lb / 2 + w.ub / 2 = mid := ⟨_, rfl⟩
          rw [hmid] at hb g1 g2 hm1 hm2 hmd
          refine ⟨_, isol, by rw [if_pos h1]; exact hb, by rw [if_neg (by omega)], ?_⟩
          have hsubU : ∀ a, Disj w.iv a → Disj (mid, w.ub) a := by
            intro a ha
            rcases ha with ha | ha
            · exact .inl ha
            · exact .inr (le_trans ha hm1.le)
          have hsubL : ∀ a, Disj w.iv a → Disj (w.lb, mid) a := by
            intro a ha
            rcases ha with ha | ha
            · exact .inl (le_trans hm2.le ha)
            · exact .inr ha
          by_cases hoff : c.off < mid
          · rw [if_pos hoff]
            refine ⟨?_, hinv.iok, ?_, hinv.idy, ?_, ?_⟩
            · intro v hv
              simp only [List.mem_cons] at hv
              rcases hv with rfl | rfl | hv
              · exact g2
              · exact g1 hoff
              · exact hinv.wok v (List.mem_cons_of_mem _ hv)
            · intro v hv
              simp only [List.mem_cons] at hv
              rcases hv with rfl | rfl | hv
              · exact ⟨hmd, hd0.2⟩
              · exact ⟨hd0.1, hmd⟩
              · exact hinv.wdy v (List.mem_cons_of_mem _ hv)
            · simp only [List.map_cons, List.cons_append, List.pairwise_cons]
              refine ⟨?_, ?_, hdj2⟩
              · intro a ha
                rcases List.mem_cons.mp ha with rfl | ha
                · exact .inr le_rfl
                · exact hsubU a (hdj1 a ha)
              · intro a ha
                exact hsubL a (hdj1 a ha)
            · intro u hu0 hu1 huo huz
              obtain ⟨i, hi, hi1, hi2⟩ := hinv.cover u hu0 hu1 huo huz
              rw [List.map_cons, List.cons_append] at hi
              rcases List.mem_cons.mp hi with rfl | hi
              · rcases lt_trichotomy u mid with hu | hu | hu
                · exact ⟨(w.lb, mid), by simp [WItem.iv], hi1, hu⟩
                · exact absurd huz (by rw [hu]; exact hnd mid hmd)
                · exact ⟨(mid, w.ub), by simp [WItem.iv], hu, hi2⟩
              · refine ⟨i, ?_, hi1, hi2⟩
                simp only [List.map_cons, List.cons_append]
                exact List.mem_cons_of_mem _ (List.mem_cons_of_mem _ hi)
          · rw [if_neg hoff]
            refine ⟨?_, hinv.iok, ?_, hinv.idy, ?_, ?_⟩
            · intro v hv
              simp only [List.mem_cons] at hv
              rcases hv with rfl | hv
              · exact g2
              · exact hinv.wok v (List.mem_cons_of_mem _ hv)
            · intro v hv
              simp only [List.mem_cons] at hv
              rcases hv with rfl | hv
              · exact ⟨hmd, hd0.2⟩
              · exact hinv.wdy v (List.mem_cons_of_mem _ hv)
            · simp only [List.map_cons, List.cons_append, List.pairwise_cons]
              exact ⟨fun a ha => hsubU a (hdj1 a ha), hdj2⟩
            · intro u hu0 hu1 huo huz
              obtain ⟨i, hi, hi1, hi2⟩ := hinv.cover u hu0 hu1 huo huz
              rw [List.map_cons, List.cons_append] at hi
              rcases List.mem_cons.mp hi with rfl | hi
              · have : mid < u := by push Not at hoff; linarith
                exact ⟨(mid, w.ub), by simp [WItem.iv], this, hi2⟩
              · exact ⟨i, by simp only [List.map_cons, List.cons_append]; exact List.mem_cons_of_mem _ hi, hi1, hi2⟩
      simp only [hb, Res.bind_ok, hi'] at h
      split at h
      · simp only [Res.ok.injEq, Option.some.injEq] at h
        rw [← h] at hf; simp at hf
      · split at h
        · rename_i hemp
          simp only [Res.ok.injEq, Option.some.injEq] at h
          rw [← h]
          have : wl' = [] := by simpa using hemp
          rw [this] at hinv'
          exact ⟨rfl, hinv'⟩
        · exact ih _ _ _ hinv' h hf

/-! ## Root finding -/

/-- The root finder finds the zero in `[lb, ub)` if it is the only one, the function not vanishing at `lb`
and changing sign there. -/
def RfComplete (rf : List ℝ → ℝ → ℝ → Option ℝ) : Prop :=
  ∀ p lb ub r, SignChange (pev p) lb ub r → pev p lb ≠ 0 → rf p lb ub = some r

/-- The event at a zero. -/
noncomputable def detAt (c : Ctx ℝ) (u : ℝ) : Det ℝ :=
  ⟨u * c.h, sgn (pdv c.poly (u * c.h)), |pdv c.poly (u * c.h)|⟩

/-- A zero that must be reported. -/
def Relevant (c : Ctx ℝ) (u : ℝ) : Prop :=
  0 < u ∧ u < 1 ∧ c.off < u ∧ uval c u = 0 ∧ c.dir.accepts (sgn (pdv c.poly (u * c.h))) = true

theorem sign_at_ub {f : ℝ → ℝ} (hf : Continuous f) {ub r s : ℝ} (hlt : r < ub)
    (h : ∀ x, r < x → x < ub → s * f x < 0) : s * f ub ≤ 0 := by
  have hcl : ub ∈ closure (Set.Ioo r ub) := by rw [closure_Ioo hlt.ne]; exact ⟨hlt.le, le_rfl⟩
  have hcont : Continuous fun x => s * f x := continuous_const.mul hf
  have := closure_minimal (s := Set.Ioo r ub) (t := {x | s * f x ≤ 0})
    (fun x hx => (h x hx.1 hx.2).le) (isClosed_le hcont continuous_const)
  exact this hcl

theorem rootLoop_complete {c : Ctx ℝ} (hc : CtxOk c) (hnt : c.terminal = false → c.off = 0)
    (hnd : NoDyadicZero c) (hrf : RfComplete c.rf) :
    ∀ (is : List (ℝ × ℝ)) (out : List (Det ℝ)), (∀ i ∈ is, IOk c i ∧ ∃ r, SignChange (uval c) i.1 i.2 r) →
    (∀ i ∈ is, Dyadic i.1 ∧ Dyadic i.2) → is.Pairwise Disj →
    ∃ us : List ℝ, rootLoop c (polyRescale c.h c.poly) is out = .ok (out ++ us.map (detAt c)) ∧ us.Nodup ∧
      ∀ u, u ∈ us ↔ Relevant c u ∧ ∃ i ∈ is, i.1 < u ∧ u < i.2 := by
  intro is
  induction is with
  | nil => intro out _ _ _; exact ⟨[], by simp [rootLoop], by simp, by simp⟩
  | cons i is ih =>
    obtain ⟨lb, ub⟩ := i
    intro out hi hdy hdj
    obtain ⟨hi0, r, hr⟩ := hi _ List.mem_cons_self
    obtain ⟨hd1, hd2⟩ := hdy _ List.mem_cons_self
    rw [List.pairwise_cons] at hdj
    obtain ⟨hdj1, hdj2⟩ := hdj
    have ih' := fun out => ih out (fun i h => hi i (List.mem_cons_of_mem _ h))
      (fun i h => hdy i (List.mem_cons_of_mem _ h)) hdj2
    have hne : polyRescale c.h c.poly ≠ [] := by
      rw [← List.length_pos_iff, length_polyRescale, hc.len]; omega
    have hrange : 0 < r ∧ r < 1 := ⟨lt_of_le_of_lt hi0.lb0 hr.1, lt_of_lt_of_le hr.2.1 hi0.ub1⟩
    -- Zeros of the head interval.
    have hhead : ∀ u, lb < u → u < ub → uval c u = 0 → u = r := fun u h1 h2 h0 => hr.unique h1 h2 h0
    -- The head root does not occur later.
    have hnot : ∀ u, (∃ i ∈ is, i.1 < u ∧ u < i.2) → u ≠ r := by
      rintro u ⟨i, him, h1, h2⟩ rfl
      rcases hdj1 i him with h | h
      · have : ub ≤ i.1 := h
        have := hr.2.1
        linarith
      · have : i.2 ≤ lb := h
        have := hr.1
        linarith
    -- Not found.
    have hskip : ¬ c.off < r → ∃ us : List ℝ, rootLoop c (polyRescale c.h c.poly) is out
          = .ok (out ++ us.map (detAt c)) ∧ us.Nodup ∧
        ∀ u, u ∈ us ↔ Relevant c u ∧ ∃ i ∈ (lb, ub) :: is, i.1 < u ∧ u < i.2 := by
      intro hno
      obtain ⟨us, h1, h2, h3⟩ := ih' out
      refine ⟨us, h1, h2, ?_⟩
      intro u
      rw [h3]
      constructor
      · rintro ⟨hrel, i, him, hi⟩
        exact ⟨hrel, i, List.mem_cons_of_mem _ him, hi⟩
      · rintro ⟨hrel, i, him, hi1, hi2⟩
        rcases List.mem_cons.mp him with rfl | him
        · have := hhead u hi1 hi2 hrel.2.2.2.1
          rw [this] at hrel
          exact absurd hrel.2.2.1 hno
        · exact ⟨hrel, i, him, hi1, hi2⟩
    -- Found.
    have hfind : c.off < r → ∃ us : List ℝ,
        ((addEvent c (r * c.h) out).bind fun out => rootLoop c (polyRescale c.h c.poly) is out)
          = .ok (out ++ us.map (detAt c)) ∧ us.Nodup ∧
        ∀ u, u ∈ us ↔ Relevant c u ∧ ∃ i ∈ (lb, ub) :: is, i.1 < u ∧ u < i.2 := by
      intro hoff
      rw [addEvent_ok hc hrange.1.le hrange.2]
      simp only [Res.bind_ok]
      by_cases hacc : c.dir.accepts (sgn (pdv c.poly (r * c.h))) = true
      · rw [if_pos hacc]
        obtain ⟨us, h1, h2, h3⟩ := ih' (out ++ [detAt c r])
        refine ⟨r :: us, ?_, ?_, ?_⟩
        · have : (⟨r * c.h, sgn (pdv c.poly (r * c.h)), |pdv c.poly (r * c.h)|⟩ : Det ℝ) = detAt c r := rfl
          rw [this, h1]
          simp
        · rw [List.nodup_cons]
          refine ⟨?_, h2⟩
          intro hmem
          exact hnot r ((h3 r).mp hmem).2 rfl
        · intro u
          rw [List.mem_cons, h3]
          constructor
          · rintro (rfl | ⟨hrel, i, him, hi⟩)
            · exact ⟨⟨hrange.1, hrange.2, hoff, hr.2.2.1, hacc⟩, (lb, ub), List.mem_cons_self, hr.1, hr.2.1⟩
            · exact ⟨hrel, i, List.mem_cons_of_mem _ him, hi⟩
          · rintro ⟨hrel, i, him, hi1, hi2⟩
            rcases List.mem_cons.mp him with rfl | him
            · exact .inl (hhead u hi1 hi2 hrel.2.2.2.1)
            · exact .inr ⟨hrel, i, him, hi1, hi2⟩
      · rw [if_neg hacc]
        obtain ⟨us, h1, h2, h3⟩ := ih' out
        refine ⟨us, h1, h2, ?_⟩
        intro u
        rw [h3]
        constructor
        · rintro ⟨hrel, i, him, hi⟩
          exact ⟨hrel, i, List.mem_cons_of_mem _ him, hi⟩
        · rintro ⟨hrel, i, him, hi1, hi2⟩
          rcases List.mem_cons.mp him with rfl | him
          · have := hhead u hi1 hi2 hrel.2.2.2.1
            rw [this] at hrel
            exact absurd hrel.2.2.2.2 hacc
          · exact ⟨hrel, i, him, hi1, hi2⟩
    obtain ⟨hr1, hr2, hr3, s, hs, hs1, hs2⟩ := hr
    simp only [rootLoop]
    by_cases ht : c.terminal && decide (lb < c.off)
    · rw [if_pos ht]
      have hlt : lb < c.off := by simp only [Bool.and_eq_true, decide_eq_true_eq] at ht; exact ht.2
      have hoff : c.off < ub := hi0.off
      rw [if_neg (by simpa using hoff), polyEval_ok hne, polyEval_ok hne]
      simp only [Res.bind_ok, pev_rescale_uval]
      have hub : s * uval c ub < 0 := by
        have h1 := sign_at_ub (continuous_uval c) hr2 hs2
        refine lt_of_le_of_ne h1 ?_
        have := hnd ub hd2
        rcases hs with h | h <;> rw [h] <;> simpa using this
      have hsq : s * s = 1 := by rcases hs with h | h <;> rw [h] <;> norm_num
      by_cases hor : c.off < r
      · have h1 := hs1 c.off hlt hor
        have hprod : uval c c.off * uval c ub < 0 := by
          have : uval c c.off * uval c ub = (s * uval c c.off) * (s * uval c ub) := by
            calc uval c c.off * uval c ub = (s * s) * (uval c c.off * uval c ub) := by rw [hsq, one_mul]
              _ = _ := by ring
          rw [this]
          exact mul_neg_of_pos_of_neg h1 hub
        rw [if_neg (by simpa using hprod)]
        have hsc : SignChange (pev (polyRescale c.h c.poly)) c.off ub r := by
          refine ⟨hor, hr2, by rw [pev_rescale_uval]; exact hr3, s, hs, ?_, ?_⟩
          · intro x h1 h2; rw [pev_rescale_uval]; exact hs1 x (hlt.trans h1) h2
          · intro x h1 h2; rw [pev_rescale_uval]; exact hs2 x h1 h2
        rw [hrf _ _ _ _ hsc (by
          rw [pev_rescale_uval]
          intro h0; rw [h0] at h1; simp at h1)]
        exact hfind hor
      · have hprod : ¬ uval c c.off * uval c ub < 0 := by
          rcases lt_or_eq_of_le (not_lt.mp hor) with h | h
          · have h1 := hs2 c.off h hoff
            have : uval c c.off * uval c ub = (s * uval c c.off) * (s * uval c ub) := by
              calc uval c c.off * uval c ub = (s * s) * (uval c c.off * uval c ub) := by rw [hsq, one_mul]
                _ = _ := by ring
            rw [this, not_lt]
            exact (mul_pos_of_neg_of_neg h1 hub).le
          · rw [← h, hr3]; simp
        rw [if_pos (by simpa using hprod)]
        exact hskip hor
    · rw [if_neg ht]
      have hoffr : c.off < r := by
        by_cases htt : c.terminal = true
        · have : c.off ≤ lb := by simpa [htt] using ht
          linarith
        · rw [hnt (by simpa using htt)]; exact hrange.1
      have hsc : SignChange (pev (polyRescale c.h c.poly)) lb ub r := by
        refine ⟨hr1, hr2, by rw [pev_rescale_uval]; exact hr3, s, hs, ?_, ?_⟩
        · intro x h1 h2; rw [pev_rescale_uval]; exact hs1 x h1 h2
        · intro x h1 h2; rw [pev_rescale_uval]; exact hs2 x h1 h2
      rw [hrf _ _ _ _ hsc (by rw [pev_rescale_uval]; exact hnd lb hd1)]
      exact hfind hoffr

/-- If detection succeeds, the relevant zeros are reported, each exactly once. -/
theorem detectRoots_complete {c : Ctx ℝ} (hc : CtxOk c) (hnt : c.terminal = false → c.off = 0)
    (hnd : NoDyadicZero c) (hrf : RfComplete c.rf) {fuel : Nat} {out : List (Det ℝ)}
    (h : detectRoots c fuel = .ok (some (out, false))) :
    ∃ us : List ℝ, out = us.map (detAt c) ∧ us.Nodup ∧ ∀ u, u ∈ us ↔ Relevant c u := by
  have hinit : IsolInv c [⟨0, 1, polyRescale c.h c.poly⟩] [] := by
    refine ⟨?_, by simp, ?_, by simp, by simp, ?_⟩
    · intro w hw; rw [List.mem_singleton.mp hw]; exact init_WOk hc
    · intro w hw; rw [List.mem_singleton.mp hw]; exact ⟨dyadic_zero, dyadic_one⟩
    · intro u h0 h1 _ _
      exact ⟨(0, 1), by simp [WItem.iv], h0, h1⟩
  obtain ⟨r, h1, -⟩ := isolLoop_sound hc fuel [⟨0, 1, polyRescale c.h c.poly⟩] [] [] (by simp)
    (by intro w hw; rw [List.mem_singleton.mp hw]; exact init_WOk hc) (by simp) (by simp)
  simp only [detectRoots, h1, Res.bind_ok] at h
  cases r with
  | none => simp at h
  | some s =>
    simp only at h
    by_cases hf : s.failed = true
    · simp [hf] at h
    · have hf : s.failed = false := by simpa using hf
      obtain ⟨g1, g2⟩ := isolLoop_complete hnd fuel _ _ s hinit h1 hf
      obtain ⟨us, k1, k2, k3⟩ := rootLoop_complete hc hnt hnd hrf s.isol [] g2.iok g2.idy (by simpa using g2.disj)
      have hout : out = us.map (detAt c) := by
        by_cases he : s.isol.isEmpty
        · have he' : s.isol = [] := by simpa using he
          simp only [he, Bool.true_or, if_true, Res.ok.injEq, Option.some.injEq, Prod.mk.injEq] at h
          rw [he'] at k1
          simp only [rootLoop, List.nil_append, Res.ok.injEq] at k1
          rw [← h.1, g1, k1]
        · simp only [he, hf, Bool.or_self, Bool.false_eq_true, if_false, g1, k1, Res.bind_ok, Res.ok.injEq,
            Option.some.injEq, Prod.mk.injEq, List.nil_append, and_true] at h
          exact h.symm
      refine ⟨us, hout, k2, ?_⟩
      intro u
      rw [k3]
      constructor
      · exact fun h => h.1
      · intro hrel
        refine ⟨hrel, ?_⟩
        obtain ⟨i, hi, hi'⟩ := g2.cover u hrel.1 hrel.2.1 hrel.2.2.1 hrel.2.2.2.1
        exact ⟨i, by simpa using hi, hi'⟩

end Heyoka.Events
