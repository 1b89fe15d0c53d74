import Verif.Events.Descartes

/-!
# Lemmas on the isolation of the zeros
-/

namespace Heyoka.Events

variable {K : Type*} [Field K] [LinearOrder K] [IsStrictOrderedRing K]

theorem length_rescaleGo (s : K) : ∀ (l : List K) (f : K), (rescaleGo s f l).length = l.length := by
  intro l
  induction l with
  | nil => intro f; rfl
  | cons a l ih => intro f; simp [rescaleGo, ih]

@[simp] theorem length_polyRescale (s : K) (l : List K) : (polyRescale s l).length = l.length :=
  length_rescaleGo s l 1

@[simp] theorem length_polyRescaleP2 (l : List K) : (polyRescaleP2 l).length = l.length := by
  simp [polyRescaleP2, length_rescaleGo]

/-- What an item of the working list stands for: the polynomial on `(lb, ub)`, mapped to `(0, 1)`. -/
structure WOk (c : Ctx K) (w : WItem K) : Prop where
  lb0 : 0 ≤ w.lb
  lt : w.lb < w.ub
  ub1 : w.ub ≤ 1
  off : c.off < w.ub
  len : w.q.length = c.order + 1
  val : ∃ k : K, 0 < k ∧ ∀ x, pev w.q x = k * pev c.poly (c.h * (w.lb + x * (w.ub - w.lb)))

/-- An isolating interval. -/
structure IOk (c : Ctx K) (i : K × K) : Prop where
  lb0 : 0 ≤ i.1
  lt : i.1 < i.2
  ub1 : i.2 ≤ 1
  off : c.off < i.2

/-- A correct event, at the time `u * h` with `u` in `[0, 1)`. -/
def DetOk (c : Ctx K) (e : Det K) : Prop :=
  ∃ u : K, 0 ≤ u ∧ u < 1 ∧ e.t = u * c.h ∧ pev c.poly e.t = 0 ∧ e.sgn = sgn (pdv c.poly e.t) ∧
    e.absDer = |pdv c.poly e.t| ∧ c.dir.accepts e.sgn = true ∧ (c.terminal = true → c.off ≤ u)

/-- Well-formed data. -/
structure CtxOk (c : Ctx K) : Prop where
  h0 : c.h ≠ 0
  ord : 2 ≤ c.order
  len : c.poly.length = c.order + 1
  off1 : c.off < 1

theorem addEvent_ok {c : Ctx K} (hc : CtxOk c) {u : K} (hu0 : 0 ≤ u) (hu1 : u < 1)
    (out : List (Det K)) :
    addEvent c (u * c.h) out = .ok (if c.dir.accepts (sgn (pdv c.poly (u * c.h))) then
      out ++ [⟨u * c.h, sgn (pdv c.poly (u * c.h)), |pdv c.poly (u * c.h)|⟩] else out) := by
  have habs : ¬ |c.h| ≤ |u * c.h| := by
    rw [abs_mul, abs_of_nonneg hu0, not_le]
    have := abs_pos.mpr hc.h0
    nlinarith
  unfold addEvent
  simp only [habs, if_false]
  rw [polyEval1_ok (by have := hc.len; have := hc.ord; omega)]
  simp only [Res.bind_ok]
  split <;> rfl

theorem addEvent_sound {c : Ctx K} (hc : CtxOk c) {u : K} (hu0 : 0 ≤ u) (hu1 : u < 1)
    (hz : pev c.poly (c.h * u) = 0) (hoff : c.terminal = true → c.off ≤ u) {out : List (Det K)}
    (hout : ∀ e ∈ out, DetOk c e) :
    ∃ out', addEvent c (u * c.h) out = .ok out' ∧ ∀ e ∈ out', DetOk c e := by
  refine ⟨_, addEvent_ok hc hu0 hu1 out, ?_⟩
  intro e he
  split at he
  · rename_i hacc
    rcases List.mem_append.mp he with he | he
    · exact hout e he
    · rw [List.mem_singleton.mp he]
      exact ⟨u, hu0, hu1, rfl, by rw [mul_comm]; exact hz, rfl, rfl, hacc, hoff⟩
  · exact hout e he

omit [LinearOrder K] [IsStrictOrderedRing K] in
theorem pev_at_zero {l : List K} (h : 0 < l.length) : pev l 0 = l[0] := by
  cases l with
  | nil => simp at h
  | cons a l => simp

theorem WOk.q0 {c : Ctx K} {w : WItem K} (hw : WOk c w) :
    ∃ q0, rd w.q 0 = .ok q0 ∧ (q0 = 0 ↔ pev c.poly (c.h * w.lb) = 0) := by
  have h0 : 0 < w.q.length := by rw [hw.len]; omega
  refine ⟨w.q[0], rd_ok h0, ?_⟩
  obtain ⟨k, hk, hv⟩ := hw.val
  have := hv 0
  have e : pev w.q 0 = w.q[0] := pev_at_zero h0
  rw [e, zero_mul, add_zero] at this
  rw [this, mul_eq_zero]
  simp [hk.ne']

theorem lbEvent_sound {c : Ctx K} (hc : CtxOk c) {w : WItem K} (hw : WOk c w) {out : List (Det K)}
    (hout : ∀ e ∈ out, DetOk c e) : ∃ out', lbEvent c w out = .ok out' ∧ ∀ e ∈ out', DetOk c e := by
  obtain ⟨q0, hq0, hiff⟩ := hw.q0
  unfold lbEvent
  rw [hq0, Res.bind_ok]
  split
  · rename_i h0
    split
    · exact ⟨out, rfl, hout⟩
    · rename_i hcd
      refine addEvent_sound hc hw.lb0 (lt_of_lt_of_le hw.lt hw.ub1) (hiff.mp h0) ?_ hout
      intro ht
      simpa [ht] using hcd
  · exact ⟨out, rfl, hout⟩

omit [IsStrictOrderedRing K] in
theorem csc_total {n : Nat} {l : List K} (h : l.length = n + 1) : ∃ k, csc n l = .ok k := by
  cases l with
  | nil => simp at h
  | cons a l => exact ⟨_, csc_eq h⟩

/-- The transformed polynomial whose sign changes are counted. -/
theorem rtscc_ok {n : Nat} {q : List K} (h : q.length = n + 1) :
    ∃ t : List K, t.length = n + 1 ∧ rtscc n q = csc n t ∧
      ∀ x, 0 < x → pev t x = (x + 1) ^ n * pev q (x + 1)⁻¹ := by
  obtain ⟨t, h1, h2, h3⟩ := polyTranslate1_ok (n := n) (cf := q.reverse) (by simpa using h)
  refine ⟨t, h2, by simp [rtscc, h1], ?_⟩
  intro x hx
  have hx1 : x + 1 ≠ 0 := by positivity
  have := pev_reverse q hx1
  rw [h, pow_succ] at this
  rw [h3]
  have : (pev q.reverse (x + 1)) * (x + 1) = ((x + 1) ^ n * pev q (x + 1)⁻¹) * (x + 1) := by rw [this]; ring
  exact mul_right_cancel₀ hx1 this

theorem rtscc_total {n : Nat} {q : List K} (h : q.length = n + 1) : ∃ k, rtscc n q = .ok k := by
  obtain ⟨t, h1, h2, -⟩ := rtscc_ok h
  rw [h2]
  exact csc_total h1

theorem half_lt {a b : K} (h : a < b) : a < a / 2 + b / 2 ∧ a / 2 + b / 2 < b := by
  constructor <;> linarith

/-- The two halves of an interval. -/
theorem bisect_ok {c : Ctx K} {w : WItem K} (hw : WOk c w) (wl : List (WItem K)) :
    ∃ q1 q2 : List K, bisect c w wl = .ok
        (⟨w.lb / 2 + w.ub / 2, w.ub, q2⟩ ::
          (if c.off < w.lb / 2 + w.ub / 2 then ⟨w.lb, w.lb / 2 + w.ub / 2, q1⟩ :: wl else wl)) ∧
      (c.off < w.lb / 2 + w.ub / 2 → WOk c ⟨w.lb, w.lb / 2 + w.ub / 2, q1⟩) ∧
      WOk c ⟨w.lb / 2 + w.ub / 2, w.ub, q2⟩ := by
  have hlen := hw.len
  obtain ⟨hm1, hm2⟩ := half_lt hw.lt
  obtain ⟨q2, h1, h2, h3⟩ := polyTranslate1_ok (n := c.order) (cf := polyRescaleP2 w.q) (by simpa using hlen)
  obtain ⟨k, hk, hv⟩ := hw.val
  have hp2 : ∀ x, pev (polyRescaleP2 w.q) x = 2 ^ c.order * pev w.q (x / 2) := by
    intro x
    have := pev_polyRescaleP2 w.q x
    rw [hlen, pow_succ] at this
    linarith
  have hkp : 0 < 2 ^ c.order * k := by positivity
  refine ⟨polyRescaleP2 w.q, q2, ?_, ?_, ?_⟩
  · simp [bisect, h1]
  · intro hoff
    refine ⟨hw.lb0, hm1, hm2.le.trans hw.ub1, hoff, by simpa using hlen, 2 ^ c.order * k, hkp, ?_⟩
    intro x
    simp only [hp2, hv]
    have e : w.lb + x / 2 * (w.ub - w.lb) = w.lb + x * (w.lb / 2 + w.ub / 2 - w.lb) := by ring
    rw [e]; ring
  · refine ⟨hw.lb0.trans hm1.le, hm2, hw.ub1, hw.off, h2, 2 ^ c.order * k, hkp, ?_⟩
    intro x
    simp only [h3, hp2, hv]
    have e : w.lb + (x + 1) / 2 * (w.ub - w.lb) = w.lb / 2 + w.ub / 2 + x * (w.ub - (w.lb / 2 + w.ub / 2)) := by
      ring
    rw [e]; ring

/-- The isolation loop reports only correct events and builds proper intervals. -/
theorem isolLoop_sound {c : Ctx K} (hc : CtxOk c) : ∀ (fuel : Nat) (wl : List (WItem K)) (isol : List (K × K))
    (out : List (Det K)), wl ≠ [] → (∀ w ∈ wl, WOk c w) → (∀ i ∈ isol, IOk c i) → (∀ e ∈ out, DetOk c e) →
    ∃ r, isolLoop c fuel wl isol out = .ok r ∧
      ∀ s, r = some s → (∀ i ∈ s.isol, IOk c i) ∧ (∀ e ∈ s.out, DetOk c e) := by
  intro fuel
  induction fuel with
  | zero => intro wl isol out _ _ _ _; exact ⟨none, rfl, by simp⟩
  | succ fuel ih =>
    intro wl isol out hne hw hi ho
    cases wl with
    | nil => exact absurd rfl hne
    | cons w wl =>
      have hw0 := hw w List.mem_cons_self
      have hwl : ∀ v ∈ wl, WOk c v := fun v hv => hw v (List.mem_cons_of_mem _ hv)
      obtain ⟨out', ho1, ho2⟩ := lbEvent_sound hc hw0 ho
      obtain ⟨nsc, hn⟩ := rtscc_total hw0.len
      obtain ⟨wl', hb, hwl'⟩ : ∃ wl', (if 1 < nsc then bisect c w wl else .ok wl) = .ok wl' ∧ ∀ v ∈ wl', WOk c v := by
        split
        · obtain ⟨q1, q2, hb, g1, g2⟩ := bisect_ok hw0 wl
          refine ⟨_, hb, ?_⟩
          intro v hv
          rcases List.mem_cons.mp hv with rfl | hv
          · exact g2
          · split at hv
            · rename_i hoff
              rcases List.mem_cons.mp hv with rfl | hv
              · exact g1 hoff
              · exact hwl v hv
            · exact hwl v hv
        · exact ⟨wl, rfl, hwl⟩
      obtain ⟨isol', hisol'⟩ : ∃ isol', (if nsc = 1 then isol ++ [(w.lb, w.ub)] else isol) = isol' := ⟨_, rfl⟩
      have hi' : ∀ i ∈ isol', IOk c i := by
        intro i hmem
        rw [← hisol'] at hmem
        split at hmem
        · rcases List.mem_append.mp hmem with hmem | hmem
          · exact hi i hmem
          · rw [List.mem_singleton.mp hmem]; exact ⟨hw0.lb0, hw0.lt, hw0.ub1, hw0.off⟩
        · exact hi i hmem
      simp only [isolLoop, ho1, hn, hb, Res.bind_ok, hisol']
      split
      · refine ⟨_, rfl, ?_⟩
        rintro s ⟨⟩
        exact ⟨hi', ho2⟩
      · split
        · refine ⟨_, rfl, ?_⟩
          rintro s ⟨⟩
          exact ⟨hi', ho2⟩
        · rename_i hne'
          exact ih _ _ _ (by simpa using hne') hwl' hi' ho2

/-- The root finder returns only zeros inside `[lb, ub)`. -/
def RfSound (rf : List K → K → K → Option K) : Prop :=
  ∀ p lb ub r, lb < ub → rf p lb ub = some r → lb ≤ r ∧ r < ub ∧ pev p r = 0

theorem rootLoop_sound {c : Ctx K} (hc : CtxOk c) (hrf : RfSound c.rf) : ∀ (is : List (K × K)) (out : List (Det K)),
    (∀ i ∈ is, IOk c i) → (∀ e ∈ out, DetOk c e) →
    ∃ out', rootLoop c (polyRescale c.h c.poly) is out = .ok out' ∧ ∀ e ∈ out', DetOk c e := by
  intro is
  induction is with
  | nil => intro out _ ho; exact ⟨out, rfl, ho⟩
  | cons i is ih =>
    obtain ⟨lb, ub⟩ := i
    intro out hi ho
    have hi0 := hi _ List.mem_cons_self
    have his : ∀ i ∈ is, IOk c i := fun i h => hi i (List.mem_cons_of_mem _ h)
    have hne : polyRescale c.h c.poly ≠ [] := by
      rw [← List.length_pos_iff, length_polyRescale, hc.len]; omega
    have hfind : ∀ lb', 0 ≤ lb' → lb' < ub → (c.terminal = true → c.off ≤ lb') → ∃ out',
        (match c.rf (polyRescale c.h c.poly) lb' ub with
          | some root => (addEvent c (root * c.h) out).bind fun out => rootLoop c (polyRescale c.h c.poly) is out
          | none => rootLoop c (polyRescale c.h c.poly) is out) = .ok out' ∧ ∀ e ∈ out', DetOk c e := by
      intro lb' h0 hlt hoff
      cases hr : c.rf (polyRescale c.h c.poly) lb' ub with
      | none => exact ih out his ho
      | some r =>
        obtain ⟨r1, r2, r3⟩ := hrf _ _ _ _ hlt hr
        rw [pev_polyRescale] at r3
        obtain ⟨out', a1, a2⟩ := addEvent_sound hc (h0.trans r1) (lt_of_lt_of_le r2 hi0.ub1) r3
          (fun ht => (hoff ht).trans r1) ho
        simp only [a1, Res.bind_ok]
        exact ih out' his a2
    simp only [rootLoop]
    by_cases ht : c.terminal && decide (lb < c.off)
    · rw [if_pos ht]
      have hlt : lb < c.off := by simp only [Bool.and_eq_true, decide_eq_true_eq] at ht; exact ht.2
      have hoff : c.off < ub := hi0.off
      rw [if_neg (by simpa using hoff), polyEval_ok hne, polyEval_ok hne]
      simp only [Res.bind_ok]
      split
      · exact ih out his ho
      · exact hfind c.off (hi0.lb0.trans hlt.le) hoff (fun _ => le_rfl)
    · rw [if_neg ht]
      refine hfind lb hi0.lb0 hi0.lt ?_
      intro htt
      simpa [htt] using ht

theorem init_WOk {c : Ctx K} (hc : CtxOk c) : WOk c ⟨0, 1, polyRescale c.h c.poly⟩ :=
  ⟨le_rfl, one_pos, le_rfl, hc.off1, by simpa using hc.len, 1, one_pos, by intro x; simp [pev_polyRescale]⟩

/-- Detection reports only correct events and violates no precondition. -/
theorem detectRoots_sound {c : Ctx K} (hc : CtxOk c) (hrf : RfSound c.rf) (fuel : Nat) :
    ∃ r, detectRoots c fuel = .ok r ∧ ∀ s, r = some s → ∀ e ∈ s.1, DetOk c e := by
  obtain ⟨r, h1, h2⟩ := isolLoop_sound hc fuel [⟨0, 1, polyRescale c.h c.poly⟩] [] [] (by simp)
    (by intro w hw; rw [List.mem_singleton.mp hw]; exact init_WOk hc) (by simp) (by simp)
  simp only [detectRoots, h1, Res.bind_ok]
  cases r with
  | none => exact ⟨none, rfl, by simp⟩
  | some s =>
    obtain ⟨h3, h4⟩ := h2 s rfl
    simp only
    split
    · refine ⟨_, rfl, ?_⟩
      rintro t ⟨⟩
      exact h4
    · obtain ⟨out, g1, g2⟩ := rootLoop_sound hc hrf s.isol s.out h3 h4
      rw [g1]
      refine ⟨_, rfl, ?_⟩
      rintro t ⟨⟩
      exact g2

end Heyoka.Events
