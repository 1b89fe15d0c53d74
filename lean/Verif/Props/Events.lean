import Verif.Events.DetectLemmas
import Verif.Props.Step
import Mathlib.Data.Nat.Prime.Basic

/-!
# C27, C28, C29: event detection
-/

namespace Heyoka.Events

open Heyoka.Integ (DTe DNte Env EnvOk DetectRespectsCd)

variable {K : Type*} [Field K] [LinearOrder K] [IsStrictOrderedRing K]

/-! ## Specification -/

/-- The value at `t` of the polynomial with the given coefficients. -/
def Val (cs : List K) (t : K) : K := ∑ i : Fin cs.length, cs[i] * t ^ (i : Nat)

/-- The derivative at `t` of the polynomial with the given coefficients. -/
def Der (cs : List K) (t : K) : K := ∑ i : Fin cs.length, (i : Nat) * cs[i] * t ^ ((i : Nat) - 1)

/-- `t` is in `[0, h)` (`(h, 0]` if `h` is negative). -/
def InStep (h t : K) : Prop := 0 ≤ t * h ∧ |t| < |h|

/-- A crossing with derivative `d` has the requested direction. -/
def Crossing : Dir → K → Prop
  | .any, _ => True
  | .pos, d => 0 < d
  | .neg, d => d < 0

/-- `s` is the sign of `d`. -/
def IsSign (s : Int) (d : K) : Prop := (s = 1 ∧ 0 < d) ∨ (s = 0 ∧ d = 0) ∨ (s = -1 ∧ d < 0)

/-- The Taylor polynomial of an event, `order + 1` coefficients from the jet: the jet contains first the
state variables, then the terminal and the non-terminal events. -/
def Coeffs (p : Params K) (jet cs : List K) (slot : Nat) : Prop :=
  cs.length = p.order + 1 ∧ ∀ k ≤ p.order, cs[k]? = jet[slot * (p.order + 1) + k]?

/-- A bracketing root finder returns only zeros of the polynomial in `[lb, ub)`. -/
def RootFinderSound (rf : List K → K → K → Option K) : Prop :=
  ∀ cs lb ub r, lb < ub → rf cs lb ub = some r → lb ≤ r ∧ r < ub ∧ Val cs r = 0

theorem val_eq (cs : List K) (t : K) : Val cs t = pev cs t := (pev_eq_sum cs t).symm
theorem der_eq (cs : List K) (t : K) : Der cs t = pdv cs t := (pdv_eq_sum cs t).symm

theorem rfSound_iff (rf : List K → K → K → Option K) : RootFinderSound rf ↔ RfSound rf := by
  simp only [RootFinderSound, RfSound, val_eq]

theorem crossing_iff (d : Dir) (x : K) : Crossing d x ↔ d.accepts (sgn x) = true := by
  rw [accepts_iff]; cases d <;> rfl

theorem isSign_sgn (x : K) : IsSign (sgn x) x := by
  rcases sgn_cases x with ⟨h, e⟩ | ⟨h, e⟩ | ⟨h, e⟩
  · exact .inl ⟨e, h⟩
  · exact .inr (.inl ⟨e, h⟩)
  · exact .inr (.inr ⟨e, h⟩)

/-! ## C27 -/

/-- An event at time `t` with derivative sign `s`, absolute value `a` of the derivative, is correct. -/
def Correct (cs : List K) (d : Dir) (h t : K) (s : Int) : Prop :=
  InStep h t ∧ Val cs t = 0 ∧ Crossing d (Der cs t) ∧ IsSign s (Der cs t)

theorem detOk_correct {c : Ctx K} (h0 : c.h ≠ 0) {e : Det K} (h : DetOk c e) : Correct c.poly c.dir c.h e.t e.sgn := by
  obtain ⟨u, hu0, hu1, ht, hz, hs, -, hacc, -⟩ := h
  have habs := abs_pos.mpr h0
  refine ⟨⟨?_, ?_⟩, by rw [val_eq]; exact hz, ?_, ?_⟩
  · rw [ht, mul_assoc]
    exact mul_nonneg hu0 (mul_self_nonneg _)
  · rw [ht, abs_mul, abs_of_nonneg hu0]
    nlinarith
  · rw [crossing_iff, der_eq, ← hs]; exact hacc
  · rw [der_eq, hs]; exact isSign_sgn _

theorem coeffs_slice {p : Params K} {jet : List K} {slot : Nat}
    (h : ((jet.drop (slot * (p.order + 1))).take (p.order + 1)).length = p.order + 1) :
    Coeffs p jet ((jet.drop (slot * (p.order + 1))).take (p.order + 1)) slot := by
  refine ⟨h, ?_⟩
  intro k hk
  rw [List.getElem?_take_of_lt (by omega), List.getElem?_drop]

/-- C27. Every reported event is a zero of the Taylor polynomial of its event function in `[0, h)`, crossed in
the requested direction, with the reported sign of the derivative (and, for terminal events, the reported
absolute value); a terminal event on cooldown is not reported before the cooldown has ended. -/
theorem events_sound {p : Params K} (hord : 2 ≤ p.order) (hrf : RootFinderSound p.rf) {fuel : Nat} {jet : List K}
    {h : K} (h0 : h ≠ 0) {cds : List (Option (K × K))} {ts : List (DTe K)} {ns : List (DNte K)}
    (hd : detect p fuel jet h cds = .ok (some (ts, ns))) :
    (∀ e ∈ ts, ∃ d cs, p.tes[e.idx]? = some d ∧ Coeffs p jet cs (p.dim + e.idx) ∧ Correct cs d h e.t e.sgn ∧
      e.absDer = |Der cs e.t| ∧
      ∀ first second, cds[e.idx]? = some (some (first, second)) → second ≤ |first + e.t|) ∧
    (∀ e ∈ ns, ∃ d cs, p.ntes[e.idx]? = some d ∧ Coeffs p jet cs (p.dim + p.tes.length + e.idx) ∧
      Correct cs d h e.t e.sgn) := by
  obtain ⟨⟨t1, t2⟩, ⟨n1, n2⟩⟩ := detect_ok hd
  have hrf := (rfSound_iff _).mp hrf
  constructor
  · intro e he
    obtain ⟨-, hlt⟩ := t1 e he
    rw [Nat.zero_add] at hlt
    obtain ⟨cd, r, g1, g2, g3, g4⟩ := t2 e.idx hlt
    simp only [Nat.zero_add] at g1 g2 g3 g4
    obtain ⟨r', k1, k2⟩ := detectOne_sound (c := tCtx p jet h cd p.tes[e.idx] e.idx) h0 hord g2 hrf p.useCs fuel
    rw [g3] at k1
    have k2 := k2 r (by simpa using k1.symm)
    have hmem : e ∈ ts.filter (fun x => x.idx == e.idx) := List.mem_filter.mpr ⟨he, by simp⟩
    rw [g4] at hmem
    obtain ⟨x, hx, hxe⟩ := List.mem_map.mp hmem
    have hdet := k2 x hx
    have hcor := detOk_correct (c := tCtx p jet h cd p.tes[e.idx] e.idx) h0 hdet
    have et : x.t = e.t := by rw [← hxe]
    have es : x.sgn = e.sgn := by rw [← hxe]
    have ea : x.absDer = e.absDer := by rw [← hxe]
    rw [et, es] at hcor
    refine ⟨p.tes[e.idx], (tCtx p jet h cd p.tes[e.idx] e.idx).poly, List.getElem?_eq_getElem hlt, ?_, hcor, ?_, ?_⟩
    · rw [Nat.add_comm]; exact coeffs_slice g2
    · obtain ⟨u, -, -, -, -, -, ha, -, -⟩ := hdet
      rw [← ea, ha, der_eq, et]
    · intro first second hfs
      rw [g1] at hfs
      obtain ⟨u, -, -, ht, -, -, -, -, ho⟩ := hdet
      have := ho rfl
      rw [Option.some.inj hfs] at this
      rw [← et, ht]
      exact lbOffset_le h0 this
  · intro e he
    obtain ⟨-, hlt⟩ := n1 e he
    rw [Nat.zero_add] at hlt
    obtain ⟨r, g2, g3, g4⟩ := n2 e.idx hlt
    simp only [Nat.zero_add] at g2 g3 g4
    obtain ⟨r', k1, k2⟩ := detectOne_sound (c := nCtx p jet h p.ntes[e.idx] e.idx) h0 hord g2 hrf p.useCs fuel
    rw [g3] at k1
    have k2 := k2 r (by simpa using k1.symm)
    have hmem : e ∈ ns.filter (fun x => x.idx == e.idx) := List.mem_filter.mpr ⟨he, by simp⟩
    rw [g4] at hmem
    obtain ⟨x, hx, hxe⟩ := List.mem_map.mp hmem
    have hcor := detOk_correct (c := nCtx p jet h p.ntes[e.idx] e.idx) h0 (k2 x hx)
    have et : x.t = e.t := by rw [← hxe]
    have es : x.sgn = e.sgn := by rw [← hxe]
    rw [et, es] at hcor
    refine ⟨p.ntes[e.idx], (nCtx p jet h p.ntes[e.idx] e.idx).poly, List.getElem?_eq_getElem hlt, ?_, hcor⟩
    have := coeffs_slice (p := p) (jet := jet) (slot := e.idx + p.dim + p.tes.length) g2
    have e1 : p.dim + p.tes.length + e.idx = e.idx + p.dim + p.tes.length := by omega
    rw [e1]; exact this

/-- C27. Event detection violates none of the preconditions of the code (array bounds, the degree required
by the derivative, non-empty isolating intervals, non-empty working list) when the jet contains the
polynomials of all the events and there is a cooldown slot for every terminal event. -/
theorem events_no_ub {p : Params K} (hord : 2 ≤ p.order) (hrf : RootFinderSound p.rf) (fuel : Nat) {jet : List K}
    {h : K} (h0 : h ≠ 0) {cds : List (Option (K × K))} (hcds : cds.length = p.tes.length)
    (hjet : (p.dim + p.tes.length + p.ntes.length) * (p.order + 1) ≤ jet.length) :
    ∃ r, detect p fuel jet h cds = .ok r := by
  have hrf := (rfSound_iff _).mp hrf
  obtain ⟨rt, ht⟩ := runT_total (p := p) (fuel := fuel) (jet := jet) (cds := cds) h0 hord hrf p.tes 0 [] (by omega)
    (le_trans (Nat.mul_le_mul_right _ (by omega)) hjet)
  obtain ⟨rn, hn⟩ := runN_total (p := p) (fuel := fuel) (jet := jet) h0 hord hrf p.ntes 0 []
    (le_trans (Nat.mul_le_mul_right _ (by omega)) hjet)
  unfold detect
  rw [ht, Res.bind_ok]
  cases rt with
  | none => exact ⟨_, rfl⟩
  | some ts =>
    simp only [hn, Res.bind_ok]
    cases rn with
    | none => exact ⟨_, rfl⟩
    | some ns => exact ⟨_, rfl⟩

/-- Event detection as used by the integrator; nothing is returned if the detection does not complete. -/
def detectFn (p : Params K) (fuel : Nat) (jet : List K) (h _g : K) (cds : List (Option (K × K))) :
    List (DTe K) × List (DNte K) :=
  match detect p fuel jet h cds with
  | .ok (some r) => r
  | _ => ([], [])

/-- C27. The event detection fulfils what the theorems on the integrator's steps (C22-C26) assume about it. -/
theorem detectFn_meets_step_assumptions {p : Params K} (hord : 2 ≤ p.order) (hrf : RootFinderSound p.rf)
    (fuel : Nat) {W : Type*} (env : Env K W (List K)) (henv : env.detect = detectFn p fuel) :
    (∀ jet h g cds, h ≠ 0 → ∀ e ∈ (env.detect jet h g cds).1,
      0 ≤ e.t * h ∧ |e.t| < |h| ∧ e.idx < p.tes.length) ∧
    (∀ jet h g cds, h ≠ 0 → ∀ e ∈ (env.detect jet h g cds).2,
      0 ≤ e.t * h ∧ |e.t| < |h| ∧ e.idx < p.ntes.length) ∧
    DetectRespectsCd env := by
  rw [DetectRespectsCd, henv]
  refine ⟨?_, ?_, ?_⟩
  all_goals
    intro jet h g cds h0 e he
    simp only [detectFn] at he
    split at he
    · rename_i r hd
      obtain ⟨s1, s2⟩ := events_sound (ts := r.1) (ns := r.2) hord hrf h0 hd
      first
        | (obtain ⟨d, cs, g1, -, ⟨⟨g2, g3⟩, -⟩, -⟩ := s1 e he
           exact ⟨g2, g3, (List.getElem?_eq_some_iff.mp g1).1⟩)
        | (obtain ⟨d, cs, g1, -, ⟨⟨g2, g3⟩, -⟩⟩ := s2 e he
           exact ⟨g2, g3, (List.getElem?_eq_some_iff.mp g1).1⟩)
        | (obtain ⟨d, cs, -, -, -, -, g⟩ := s1 e he
           exact g)
    · simp at he

/-! ## C29 -/

/-- C29. If the fast exclusion check (with either enclosure) says that an event cannot trigger, the polynomial
has no zero in the closed step. -/
theorem exclusion_sound {n : Nat} {cs : List K} (hlen : cs.length = n + 1) (useCs : Bool) (h : K)
    (hex : fexCheck useCs n cs h (decide (h < 0)) = .ok true) {t : K} (ht : 0 ≤ t * h) (hth : |t| ≤ |h|) :
    Val cs t ≠ 0 := by
  obtain ⟨b, hb, hz⟩ := fexCheck_ok hlen useCs h
  rw [hex] at hb
  have hz := hz (by simpa using hb.symm)
  rw [val_eq]
  by_cases h0 : h = 0
  · have : t = 0 := by rw [h0, abs_zero] at hth; exact abs_nonpos_iff.mp hth
    have := hz 0 le_rfl zero_le_one
    rw [‹t = 0›]
    simpa using this
  · have e : h * (t / h) = t := mul_div_cancel₀ t h0
    have h1 : 0 ≤ t / h := by
      have : t / h = t * h / (h * h) := by field_simp
      rw [this]
      exact div_nonneg ht (mul_self_nonneg h)
    have h2 : t / h ≤ 1 := by
      have : |t / h| ≤ 1 := by
        rw [abs_div, div_le_one (abs_pos.mpr h0)]; exact hth
      exact (le_abs_self _).trans this
    have := hz (t / h) h1 h2
    rw [e] at this
    exact this

/-- C29. The exclusion check always completes. -/
theorem exclusion_total {n : Nat} {cs : List K} (hlen : cs.length = n + 1) (useCs : Bool) (h : K) :
    ∃ b, fexCheck useCs n cs h (decide (h < 0)) = .ok b := by
  obtain ⟨b, hb, -⟩ := fexCheck_ok hlen useCs h
  exact ⟨b, hb⟩

/-! ## C28 -/

/-- The root finder finds a zero in `[lb, ub)` where the polynomial changes sign, if it is the only zero and
the polynomial does not vanish at `lb`. -/
def RootFinderComplete (rf : List ℝ → ℝ → ℝ → Option ℝ) : Prop :=
  ∀ cs lb ub r, lb < r → r < ub → Val cs r = 0 → Val cs lb ≠ 0 →
    ((∀ x, lb < x → x < r → 0 < Val cs x) ∧ (∀ x, r < x → x < ub → Val cs x < 0) ∨
     (∀ x, lb < x → x < r → Val cs x < 0) ∧ (∀ x, r < x → x < ub → 0 < Val cs x)) →
    rf cs lb ub = some r

theorem rfComplete_of {rf : List ℝ → ℝ → ℝ → Option ℝ} (h : RootFinderComplete rf) : RfComplete rf := by
  rintro cs lb ub r ⟨h1, h2, h3, s, hs, g1, g2⟩ h4
  refine h cs lb ub r h1 h2 (by rw [val_eq]; exact h3) (by rw [val_eq]; exact h4) ?_
  simp only [val_eq]
  rcases hs with rfl | rfl
  · exact .inl ⟨fun x a b => by simpa using g1 x a b, fun x a b => by simpa using g2 x a b⟩
  · exact .inr ⟨fun x a b => by simpa using g1 x a b, fun x a b => by simpa using g2 x a b⟩

/-- The detection of one event with the given cooldown (`none` for a non-terminal event or one that is not on
cooldown). -/
noncomputable def evCtx (h : ℝ) (order : Nat) (cs : List ℝ) (terminal : Bool) (d : Dir) (cd : Option (ℝ × ℝ))
    (rf : List ℝ → ℝ → ℝ → Option ℝ) (na : ℝ) : Ctx ℝ :=
  ⟨h, order, cs, terminal, d, lbOffset h cd, rf, na⟩

/-- C28, partial. If the detection of an event completes without a logged failure and the polynomial has no
zero at the points `h * m / 2^k` (among which the interval endpoints are), then the reported times are exactly
the zeros inside the step, crossed in the requested direction and after the end of the cooldown, each
reported once.

Missing for the full property: zeros at the points `h * m / 2^k`, where the property fails (see
`zero_at_start_reported_twice`, `zero_at_start_reported_three_times`,
`zero_lost_after_cooldown`), zeros exactly at the end of the cooldown, and the cases in which the isolation
fails or does not terminate (multiple zeros). -/
theorem events_complete_partial {h : ℝ} (h0 : h ≠ 0) {order : Nat} (hord : 2 ≤ order) {cs : List ℝ}
    (hlen : cs.length = order + 1) {terminal : Bool} {d : Dir} {cd : Option (ℝ × ℝ)}
    (hnt : terminal = false → cd = none) (hcd : ∀ first second, cd = some (first, second) → |first| ≤ second)
    {rf : List ℝ → ℝ → ℝ → Option ℝ} (hrf : RootFinderComplete rf) (na : ℝ)
    (hgen : ∀ m k : Nat, m ≤ 2 ^ k → Val cs (h * (m / 2 ^ k)) ≠ 0) {useCs : Bool} {fuel : Nat}
    {out : List (Det ℝ)}
    (hdet : detectOne (evCtx h order cs terminal d cd rf na) useCs fuel = .ok (some (out, false))) :
    (out.map Det.t).Nodup ∧
    ∀ t, t ∈ out.map Det.t ↔ InStep h t ∧ Val cs t = 0 ∧ Crossing d (Der cs t) ∧
      ∀ first second, cd = some (first, second) → second < |first + t| := by
  obtain ⟨c, hc⟩ : ∃ c, evCtx h order cs terminal d cd rf na = c := ⟨_, rfl⟩
  have ch : c.h = h := by rw [← hc]; rfl
  have cp : c.poly = cs := by rw [← hc]; rfl
  have cd' : c.dir = d := by rw [← hc]; rfl
  have co : c.off = lbOffset h cd := by rw [← hc]; rfl
  have ct : c.terminal = terminal := by rw [← hc]; rfl
  have cr : c.rf = rf := by rw [← hc]; rfl
  have cord : c.order = order := by rw [← hc]; rfl
  rw [hc] at hdet
  have habs := abs_pos.mpr h0
  -- The times to report.
  have hrel : ∀ t, (InStep h t ∧ Val cs t = 0 ∧ Crossing d (Der cs t) ∧
      ∀ first second, cd = some (first, second) → second < |first + t|) ↔ ∃ u, Relevant c u ∧ t = u * h := by
    intro t
    constructor
    · rintro ⟨⟨i1, i2⟩, hz, hcr, hout⟩
      have e : t / h * h = t := div_mul_cancel₀ t h0
      have hne : t ≠ 0 := by
        rintro rfl
        have := hgen 0 0 (by simp)
        simp only [Nat.cast_zero, zero_div, mul_zero] at this
        exact this hz
      have h1 : 0 < t / h := by
        have e2 : t / h = t * h / (h * h) := by field_simp
        rw [e2]
        refine div_pos (lt_of_le_of_ne i1 ?_) (mul_self_pos.mpr h0)
        exact (mul_ne_zero hne h0).symm
      have h2 : t / h < 1 := by
        have : |t / h| < 1 := by rw [abs_div, div_lt_one habs]; exact i2
        exact (le_abs_self _).trans_lt this
      refine ⟨t / h, ⟨h1, h2, ?_, ?_, ?_⟩, e.symm⟩
      · rw [co]
        cases hcdd : cd with
        | none => simpa [lbOffset] using h1
        | some fs =>
          obtain ⟨first, second⟩ := fs
          rw [lbOffset_lt h0 (hcd first second hcdd) h1, e]
          exact hout first second hcdd
      · rw [uval, ch, cp, ← val_eq, mul_comm, e]; exact hz
      · rw [cd', ch, cp, e, ← crossing_iff, ← der_eq]; exact hcr
    · rintro ⟨u, ⟨r1, r2, r3, r4, r5⟩, rfl⟩
      rw [uval, ch, cp, mul_comm, ← val_eq] at r4
      rw [cd', ch, cp, ← crossing_iff, ← der_eq] at r5
      refine ⟨⟨?_, ?_⟩, r4, r5, ?_⟩
      · rw [mul_assoc]; exact mul_nonneg r1.le (mul_self_nonneg h)
      · rw [abs_mul, abs_of_pos r1]; nlinarith
      · intro first second hcdd
        rw [co, hcdd] at r3
        exact (lbOffset_lt h0 (hcd first second hcdd) r1).mp r3
  -- The reported ones.
  suffices hmain : ∃ us : List ℝ, out = us.map (detAt c) ∧ us.Nodup ∧ ∀ u, u ∈ us ↔ Relevant c u by
    obtain ⟨us, e1, e2, e3⟩ := hmain
    have et : out.map Det.t = us.map (· * h) := by
      rw [e1, List.map_map]
      apply List.map_congr_left
      intro u _
      simp [detAt, ch]
    rw [et]
    refine ⟨e2.map (fun a b hab => mul_right_cancel₀ h0 hab), ?_⟩
    intro t
    rw [hrel, List.mem_map]
    constructor
    · rintro ⟨u, hu, rfl⟩; exact ⟨u, (e3 u).mp hu, rfl⟩
    · rintro ⟨u, hu, rfl⟩; exact ⟨u, (e3 u).mpr hu, rfl⟩
  have hlen' : c.poly.length = c.order + 1 := by rw [cp, cord]; exact hlen
  obtain ⟨b, hb, hb2⟩ := fexCheck_ok hlen' useCs c.h
  unfold detectOne at hdet
  rw [hb, Res.bind_ok] at hdet
  split at hdet
  · rename_i hbt
    simp only [Res.ok.injEq, Option.some.injEq, Prod.mk.injEq, and_true] at hdet
    refine ⟨[], by simp [← hdet], by simp, ?_⟩
    intro u
    constructor
    · simp
    · rintro ⟨r1, r2, -, r4, -⟩
      exact absurd r4 (hb2 hbt u r1.le r2.le)
  · split at hdet
    · rename_i hoff
      simp only [Res.ok.injEq, Option.some.injEq, Prod.mk.injEq, and_true] at hdet
      refine ⟨[], by simp [← hdet], by simp, ?_⟩
      intro u
      constructor
      · simp
      · rintro ⟨r1, r2, r3, -, -⟩
        linarith
    · rename_i hoff
      refine detectRoots_complete ⟨by rw [ch]; exact h0, by rw [cord]; exact hord, hlen', not_le.mp hoff⟩ ?_ ?_
        (by rw [cr]; exact rfComplete_of hrf) hdet
      · intro hf
        rw [co, hnt (by rw [← ct]; exact hf)]
        rfl
      · rintro x ⟨m, k, hmk, rfl⟩
        rw [uval, ch, cp, ← val_eq]
        exact hgen m k hmk

/-- C28. The events reported for each event function in a step are those of the detection for that event
alone: events do not interfere with each other. -/
theorem events_independent {p : Params K} {fuel : Nat} {jet : List K} {h : K} {cds : List (Option (K × K))}
    {ts : List (DTe K)} {ns : List (DNte K)} (hd : detect p fuel jet h cds = .ok (some (ts, ns))) :
    (∀ i (hi : i < p.tes.length), ∃ cd cs out failed, cds[i]? = some cd ∧ Coeffs p jet cs (p.dim + i) ∧
      detectOne ⟨h, p.order, cs, true, p.tes[i], lbOffset h cd, p.rf, p.na h⟩ p.useCs fuel = .ok (some (out, failed)) ∧
      ts.filter (fun e => e.idx == i) = out.map fun e => ⟨i, e.t, e.sgn, e.absDer⟩) ∧
    (∀ i (hi : i < p.ntes.length), ∃ cs out failed, Coeffs p jet cs (p.dim + p.tes.length + i) ∧
      detectOne ⟨h, p.order, cs, false, p.ntes[i], 0, p.rf, p.na h⟩ p.useCs fuel = .ok (some (out, failed)) ∧
      ns.filter (fun e => e.idx == i) = out.map fun e => ⟨i, e.t, e.sgn⟩) := by
  obtain ⟨⟨-, t2⟩, ⟨-, n2⟩⟩ := detect_ok hd
  constructor
  · intro i hi
    obtain ⟨cd, ⟨out, failed⟩, g1, g2, g3, g4⟩ := t2 i hi
    simp only [Nat.zero_add] at g1 g2 g3 g4
    refine ⟨cd, _, out, failed, g1, ?_, g3, g4⟩
    have := coeffs_slice g2
    have e1 : p.dim + i = i + p.dim := Nat.add_comm _ _
    rw [e1]; exact this
  · intro i hi
    obtain ⟨⟨out, failed⟩, g2, g3, g4⟩ := n2 i hi
    simp only [Nat.zero_add] at g2 g3 g4
    refine ⟨_, out, failed, ?_, g3, g4⟩
    have := coeffs_slice g2
    have e1 : p.dim + p.tes.length + i = i + p.dim + p.tes.length := by omega
    rw [e1]; exact this

/-! ### Where the property fails -/

/-- The root finding routines of Boost return the left end of the interval when the function vanishes there. -/
def RootFinderLeftEnd (rf : List K → K → K → Option K) : Prop :=
  ∀ cs lb ub, lb < ub → Val cs lb = 0 → rf cs lb ub = some lb

omit [IsStrictOrderedRing K] in
/-- The isolation does not use the root finder. -/
theorem isolLoop_rf (c : Ctx K) (rf : List K → K → K → Option K) : ∀ (fuel : Nat) (wl : List (WItem K))
    (isol : List (K × K)) (out : List (Det K)),
    isolLoop { c with rf := rf } fuel wl isol out = isolLoop c fuel wl isol out := by
  intro fuel
  induction fuel with
  | zero => intros; rfl
  | succ fuel ih =>
    intro wl isol out
    cases wl with
    | nil => rfl
    | cons w wl =>
      simp only [isolLoop]
      simp only [lbEvent, addEvent, bisect, ih]

omit [IsStrictOrderedRing K] in
theorem rootLoop_some {c : Ctx K} (ht : c.terminal = false) {p : List K} {lb ub r : K} {is : List (K × K)}
    (out : List (Det K)) (hr : c.rf p lb ub = some r) :
    rootLoop c p ((lb, ub) :: is) out = (addEvent c (r * c.h) out).bind fun out => rootLoop c p is out := by
  simp [rootLoop, ht, hr]

omit [IsStrictOrderedRing K] in
theorem rootLoop_none {c : Ctx K} (ht : c.terminal = false) {p : List K} {lb ub : K} {is : List (K × K)}
    (out : List (Det K)) (hr : c.rf p lb ub = none) :
    rootLoop c p ((lb, ub) :: is) out = rootLoop c p is out := by
  simp [rootLoop, ht, hr]

/-- The polynomial `t^2 - t/2`, step 1. -/
def ctxB : Ctx ℚ := ⟨1, 2, [0, -1/2, 1], false, .any, 0, fun _ _ _ => none, 1/2⟩

/-- C28 fails: with a zero at the beginning of the step and one more in the step, the first is reported twice
and the second is lost. (Non-terminal event, `t^2 - t/2`, step 1, default exclusion check.) -/
theorem zero_at_start_reported_twice (rf : List ℚ → ℚ → ℚ → Option ℚ) (hrf : RootFinderLeftEnd rf) :
    (∃ out, detectOne ⟨1, 2, [0, -1/2, 1], false, .any, 0, rf, 1/2⟩ false 10 = .ok (some (out, false)) ∧
      out.map Det.t = [0, 0]) ∧
    Val [0, -1/2, 1] (1/2 : ℚ) = 0 ∧ InStep 1 (1/2 : ℚ) := by
  refine ⟨?_, by decide +kernel, by decide +kernel, by decide +kernel⟩
  refine ⟨[⟨0, -1, 1/2⟩, ⟨0, -1, 1/2⟩], ?_, by decide +kernel⟩
  have hi : isolLoop { ctxB with rf := rf } 10 [⟨0, 1, polyRescale 1 [0, -1/2, 1]⟩] [] []
      = .ok (some ⟨[(0, 1)], [⟨0, -1, 1/2⟩], false⟩) := by
    rw [isolLoop_rf]; decide +kernel
  have hf : fexCheck false 2 ([0, -1/2, 1] : List ℚ) 1 (decide ((1 : ℚ) < 0)) = .ok false := by decide +kernel
  have hp : polyRescale (1 : ℚ) [0, -1/2, 1] = [0, -1/2, 1] := by decide +kernel
  have ha : addEvent { ctxB with rf := rf } (0 * 1) [⟨0, -1, 1/2⟩] = .ok [⟨0, -1, 1/2⟩, ⟨0, -1, 1/2⟩] := by
    change addEvent ctxB (0 * 1) [⟨0, -1, 1/2⟩] = _
    decide +kernel
  have hr : rf [0, -1/2, 1] 0 1 = some 0 := hrf _ _ _ (by decide +kernel) (by decide +kernel)
  change detectOne { ctxB with rf := rf } false 10 = _
  unfold detectOne
  change (fexCheck false 2 ([0, -1/2, 1] : List ℚ) 1 (decide ((1 : ℚ) < 0))).bind _ = _
  rw [hf, Res.bind_ok]
  simp only [Bool.false_eq_true, if_false]
  rw [if_neg (by decide +kernel)]
  unfold detectRoots
  change (isolLoop { ctxB with rf := rf } 10 [⟨0, 1, polyRescale 1 [0, -1/2, 1]⟩] [] []).bind _ = _
  rw [hi, Res.bind_ok]
  change (rootLoop { ctxB with rf := rf } (polyRescale (1 : ℚ) [0, -1/2, 1]) [(0, 1)] [⟨0, -1, 1/2⟩]).bind _ = _
  rw [hp]
  have hrl : rootLoop { ctxB with rf := rf } ([0, -1/2, 1] : List ℚ) [(0, 1)] [⟨0, -1, 1/2⟩]
      = .ok [⟨0, -1, 1/2⟩, ⟨0, -1, 1/2⟩] := by
    rw [rootLoop_some (c := { ctxB with rf := rf }) rfl _ hr]
    change (addEvent { ctxB with rf := rf } (0 * 1) _).bind _ = _
    rw [ha]
    rfl
  rw [hrl]
  rfl

/-- The polynomial `t (t - 1/3) (t - 2/3)`, step 1. -/
def ctxC : Ctx ℚ := ⟨1, 3, [0, 2/9, -1, 1], false, .any, 0, fun _ _ _ => none, 1/2⟩

/-- C28 fails: with a zero at the beginning of the step and two more in the step, the first is reported three
times (once per interval beginning there, and once by the root finder) and the second is lost. -/
theorem zero_at_start_reported_three_times (rf : List ℚ → ℚ → ℚ → Option ℚ) (hrf : RootFinderLeftEnd rf)
    (hs : RootFinderSound rf) :
    (∃ out, detectOne ⟨1, 3, [0, 2/9, -1, 1], false, .any, 0, rf, 1/2⟩ false 10 = .ok (some (out, false)) ∧
      (out.map Det.t).count 0 = 3 ∧ 1/3 ∉ out.map Det.t) ∧
    Val [0, 2/9, -1, 1] (1/3 : ℚ) = 0 ∧ InStep 1 (1/3 : ℚ) := by
  refine ⟨?_, by decide +kernel, by decide +kernel, by decide +kernel⟩
  obtain ⟨o2, ho2⟩ : ∃ o2 : List (Det ℚ), o2 = [⟨0, 1, 2/9⟩, ⟨0, 1, 2/9⟩] := ⟨_, rfl⟩
  have hi : isolLoop { ctxC with rf := rf } 10 [⟨0, 1, polyRescale 1 [0, 2/9, -1, 1]⟩] [] []
      = .ok (some ⟨[(1/2, 1), (0, 1/2)], o2, false⟩) := by
    rw [isolLoop_rf, ho2]; decide +kernel
  have hf : fexCheck false 3 ([0, 2/9, -1, 1] : List ℚ) 1 (decide ((1 : ℚ) < 0)) = .ok false := by decide +kernel
  have hp : polyRescale (1 : ℚ) [0, 2/9, -1, 1] = [0, 2/9, -1, 1] := by decide +kernel
  have hr : rf [0, 2/9, -1, 1] 0 (1/2) = some 0 := hrf _ _ _ (by decide +kernel) (by decide +kernel)
  have hc : CtxOk { ctxC with rf := rf } := ⟨(by decide +kernel : (1 : ℚ) ≠ 0), (by decide : 2 ≤ 3), rfl,
    (by decide +kernel : (0 : ℚ) < 1)⟩
  have hadd : ∀ u : ℚ, 0 ≤ u → u < 1 → ∀ out, ∃ s a, addEvent { ctxC with rf := rf } (u * 1) out
      = .ok (out ++ [⟨u, s, a⟩]) := by
    intro u h0 h1 out
    have h2 := addEvent_ok hc h0 h1 out
    change addEvent { ctxC with rf := rf } (u * 1) out = _ at h2
    refine ⟨sgn (pdv [0, 2/9, -1, 1] (u * 1)), |pdv [0, 2/9, -1, 1] (u * 1)|, h2.trans ?_⟩
    have hu : u * 1 = u := mul_one u
    change Res.ok (out ++ [⟨u * 1, sgn (pdv [0, 2/9, -1, 1] (u * 1)), |pdv [0, 2/9, -1, 1] (u * 1)|⟩]) = _
    rw [hu]
  -- The second interval.
  have hlast : ∀ out, ∃ s a, rootLoop { ctxC with rf := rf } ([0, 2/9, -1, 1] : List ℚ) [(0, 1/2)] out
      = .ok (out ++ [⟨0, s, a⟩]) := by
    intro out
    obtain ⟨s, a, h⟩ := hadd 0 le_rfl one_pos out
    refine ⟨s, a, ?_⟩
    rw [rootLoop_some (c := { ctxC with rf := rf }) rfl _ hr]
    change (addEvent { ctxC with rf := rf } (0 * 1) _).bind _ = _
    rw [h]
    rfl
  have hrl : ∃ out', rootLoop { ctxC with rf := rf } ([0, 2/9, -1, 1] : List ℚ) [(1/2, 1), (0, 1/2)] o2 = .ok out' ∧
      (out'.map Det.t).count 0 = 3 ∧ 1/3 ∉ out'.map Det.t := by
    cases h1 : rf [0, 2/9, -1, 1] (1/2) 1 with
    | none =>
      obtain ⟨s, a, h⟩ := hlast o2
      refine ⟨_, (rootLoop_none (c := { ctxC with rf := rf }) rfl _ h1).trans h, ?_, ?_⟩ <;> rw [ho2]
      · rfl
      · simp only [List.cons_append, List.nil_append, List.map_cons, List.map_nil]
        decide +kernel
    | some r =>
      obtain ⟨r1, r2, -⟩ := hs _ _ _ _ (by decide +kernel) h1
      obtain ⟨s, a, h⟩ := hadd r (le_trans (by decide +kernel) r1) r2 o2
      obtain ⟨s', a', h'⟩ := hlast (o2 ++ [⟨r, s, a⟩])
      refine ⟨o2 ++ [⟨r, s, a⟩] ++ [⟨0, s', a'⟩], ?_, ?_, ?_⟩
      · rw [rootLoop_some (c := { ctxC with rf := rf }) rfl _ h1]
        change (addEvent { ctxC with rf := rf } (r * 1) _).bind _ = _
        rw [h]
        exact h'
      · rw [ho2]
        have hr0 : r ≠ 0 := by rintro rfl; revert r1; decide +kernel
        simp [List.count_cons, hr0]
      · rw [ho2]
        have hr0 : (1/3 : ℚ) ≠ r := by rintro rfl; revert r1; decide +kernel
        have h30 : (1/3 : ℚ) ≠ 0 := by decide +kernel
        simp only [List.cons_append, List.nil_append, List.map_cons, List.map_nil, List.mem_cons, List.not_mem_nil,
          or_false, not_or]
        exact ⟨h30, h30, hr0, h30⟩
  obtain ⟨out', g1, g2, g3⟩ := hrl
  refine ⟨out', ?_, g2, g3⟩
  change detectOne { ctxC with rf := rf } false 10 = _
  unfold detectOne
  change (fexCheck false 3 ([0, 2/9, -1, 1] : List ℚ) 1 (decide ((1 : ℚ) < 0))).bind _ = _
  rw [hf, Res.bind_ok]
  simp only [Bool.false_eq_true, if_false]
  rw [if_neg (by decide +kernel)]
  unfold detectRoots
  change (isolLoop { ctxC with rf := rf } 10 [⟨0, 1, polyRescale 1 [0, 2/9, -1, 1]⟩] [] []).bind _ = _
  rw [hi, Res.bind_ok]
  change (rootLoop { ctxC with rf := rf } (polyRescale (1 : ℚ) [0, 2/9, -1, 1]) [(1/2, 1), (0, 1/2)] o2).bind _ = _
  rw [hp, g1]
  rfl

/-- C28 fails: a terminal event with a cooldown ending at 1/10 and zeros at 1/4 and 1/2 (`(t - 1/4)(t - 1/2)`,
step 1): the zero at 1/4 is lost, because the check that the interval beginning at the end of the cooldown
contains a zero fails when there is a zero at its other end. -/
theorem zero_lost_after_cooldown (rf : List ℚ → ℚ → ℚ → Option ℚ) :
    (∃ out, detectOne ⟨1, 2, [1/8, -3/4, 1], true, .any, lbOffset 1 (some (0, 1/10)), rf, 1/2⟩ false 10
        = .ok (some (out, false)) ∧ out.map Det.t = [1/2]) ∧
    Val [1/8, -3/4, 1] (1/4 : ℚ) = 0 ∧ InStep 1 (1/4 : ℚ) ∧ (1/10 : ℚ) < |0 + 1/4| := by
  refine ⟨?_, by decide +kernel, ⟨by decide +kernel, by decide +kernel⟩, by decide +kernel⟩
  obtain ⟨c, hcd⟩ : ∃ c : Ctx ℚ, c = ⟨1, 2, [1/8, -3/4, 1], true, .any, lbOffset 1 (some (0, 1/10)),
    fun _ _ _ => none, 1/2⟩ := ⟨_, rfl⟩
  refine ⟨[⟨1/2, 1, 1/4⟩], ?_, by decide +kernel⟩
  have hi : isolLoop { c with rf := rf } 10 [⟨0, 1, polyRescale 1 [1/8, -3/4, 1]⟩] [] []
      = .ok (some ⟨[(0, 1/2)], [⟨1/2, 1, 1/4⟩], false⟩) := by
    rw [isolLoop_rf, hcd]; decide +kernel
  rw [hcd] at hi
  have hf : fexCheck false 2 ([1/8, -3/4, 1] : List ℚ) 1 (decide ((1 : ℚ) < 0)) = .ok false := by decide +kernel
  unfold detectOne
  change (fexCheck false 2 ([1/8, -3/4, 1] : List ℚ) 1 (decide ((1 : ℚ) < 0))).bind _ = _
  rw [hf, Res.bind_ok]
  simp only [Bool.false_eq_true, if_false]
  rw [if_neg (by decide +kernel)]
  unfold detectRoots
  simp only
  rw [hi, Res.bind_ok]
  simp only [List.isEmpty_cons, Bool.or_self, Bool.false_eq_true, if_false, rootLoop]
  rw [if_pos (by decide +kernel : (true && decide ((0 : ℚ) < lbOffset 1 (some (0, 1 / 10)))) = true),
    if_neg (by decide +kernel : ¬(!decide (lbOffset (1 : ℚ) (some (0, 1 / 10)) < 1 / 2)) = true)]
  have e1 : polyEval (polyRescale (1 : ℚ) [1/8, -3/4, 1]) (lbOffset 1 (some (0, 1/10))) = .ok (3/50) := by
    decide +kernel
  have e2 : polyEval (polyRescale (1 : ℚ) [1/8, -3/4, 1]) (1/2) = .ok 0 := by decide +kernel
  rw [e1, e2]
  simp only [Res.bind_ok]
  rw [if_pos (by decide +kernel)]
  rfl

/-! ## The hypotheses are satisfiable -/

/-- A sound root finder that finds 1/3. -/
def demoRf : List ℚ → ℚ → ℚ → Option ℚ := fun cs lb ub =>
  if lb ≤ 1/3 ∧ 1/3 < ub ∧ Val cs (1/3) = 0 then some (1/3) else none

theorem demoRf_sound : RootFinderSound demoRf := by
  intro cs lb ub r _ h
  unfold demoRf at h
  split at h
  · simp only [Option.some.injEq] at h
    rw [← h]; assumption
  · simp at h

/-- Two events: a terminal one on cooldown and a non-terminal one, backward step; the time of the zero of the
first, -1/3, is past the end of the cooldown. -/
example : detect (⟨2, 1, [.any], [.neg], demoRf, fun h => h / 2, false⟩ : Params ℚ) 5
    [0, 0, 0, 1/3, 1, 0, -1/3, -1, 0] (-1) [some (0, 1/4)]
    = .ok (some ([⟨0, -1/3, 1, 1⟩], [⟨0, -1/3, -1⟩])) := by decide +kernel

/-- The same with a longer cooldown: the terminal event is not reported. -/
example : detect (⟨2, 1, [.any], [.neg], demoRf, fun h => h / 2, false⟩ : Params ℚ) 5
    [0, 0, 0, 1/3, 1, 0, -1/3, -1, 0] (-1) [some (0, 1/2)]
    = .ok (some ([], [⟨0, -1/3, -1⟩])) := by decide +kernel

/-- Exclusion with both enclosures: `1 + t + t^2` forward, `1 - t + t^2` backward. -/
example : fexCheck false 2 ([1, 1, 1] : List ℚ) 2 (decide ((2 : ℚ) < 0)) = .ok true ∧
    fexCheck true 2 ([1, -1, 1] : List ℚ) (-2) (decide ((-2 : ℚ) < 0)) = .ok true := by decide +kernel

open Classical in
/-- A root finder over the reals. -/
noncomputable def realRf : List ℝ → ℝ → ℝ → Option ℝ := fun cs lb ub =>
  if h : ∃ r, lb ≤ r ∧ r < ub ∧ Val cs r = 0 then
    if Val cs lb = 0 then some lb else some h.choose
  else none

/-- What is assumed about the root finder is consistent. -/
theorem realRf_ok : RootFinderSound realRf ∧ RootFinderComplete realRf ∧ RootFinderLeftEnd realRf := by
  refine ⟨?_, ?_, ?_⟩
  · intro cs lb ub r hlt h
    unfold realRf at h
    split at h
    · rename_i hex
      split at h
      · rename_i h0
        rw [Option.some.injEq] at h
        rw [← h]; exact ⟨le_rfl, hlt, h0⟩
      · rw [Option.some.injEq] at h
        rw [← h]; exact hex.choose_spec
    · simp at h
  · intro cs lb ub r h1 h2 h3 h4 h5
    have hex : ∃ r, lb ≤ r ∧ r < ub ∧ Val cs r = 0 := ⟨r, h1.le, h2, h3⟩
    unfold realRf
    rw [dif_pos hex, if_neg h4, Option.some.injEq]
    obtain ⟨g1, g2, g3⟩ := hex.choose_spec
    obtain ⟨x, hx⟩ : ∃ x, hex.choose = x := ⟨_, rfl⟩
    rw [hx] at g1 g2 g3 ⊢
    have g1 : lb < x := lt_of_le_of_ne g1 (by rintro rfl; exact h4 g3)
    rcases lt_trichotomy x r with h | h | h
    · rcases h5 with ⟨a, b⟩ | ⟨a, b⟩ <;> have := a x g1 h <;> linarith
    · exact h
    · rcases h5 with ⟨a, b⟩ | ⟨a, b⟩ <;> have := b x h g2 <;> linarith
  · intro cs lb ub hlt h0
    unfold realRf
    rw [dif_pos ⟨lb, le_rfl, hlt, h0⟩, if_pos h0]

/-- The hypotheses of `events_complete_partial` hold for `t - 1/3`, step 1: no zero at `m / 2^k`. -/
theorem demo_no_dyadic (m k : Nat) : Val ([-1/3, 1, 0] : List ℝ) (1 * (m / 2 ^ k)) ≠ 0 := by
  rw [val_eq]
  intro h
  simp only [pev_cons, pev_nil, mul_zero, add_zero, one_mul, mul_one] at h
  have h2 : (2 : ℝ) ^ k ≠ 0 := by positivity
  have h3 : (3 : ℝ) * m = 2 ^ k := by
    field_simp at h
    linarith
  have h4 : 3 * m = 2 ^ k := by exact_mod_cast h3
  have h5 : 3 ∣ 2 ^ k := ⟨m, h4.symm⟩
  have := Nat.Prime.dvd_of_dvd_pow Nat.prime_three h5
  omega

/-- Its detection completes with one event. -/
example : ∃ out, detectOne (evCtx 1 2 [-1/3, 1, 0] false .any none realRf (1/2)) false 5 = .ok (some (out, false)) ∧
    out.map Det.t = [1/3] := by
  have hrf : realRf [-(1/3), 1, 0] 0 1 = some (1/3) := by
    refine realRf_ok.2.1 _ _ _ _ (by norm_num) (by norm_num) (by rw [val_eq]; norm_num) (by rw [val_eq]; norm_num) ?_
    right
    simp only [val_eq, pev_cons, pev_nil]
    exact ⟨fun x _ h => by linarith, fun x h _ => by linarith⟩
  refine ⟨[⟨1/3, 1, 1⟩], ?_, rfl⟩
  norm_num [detectOne, evCtx, fexCheck, pencInterval, ivalSum, ivalProd, sgn, lbOffset, detectRoots, isolLoop,
    polyRescale, rescaleGo, lbEvent, rd, rtscc, polyTranslate1, translateOuter, translateInner, bcArray,
    List.range_succ, csc, cscLoop, rootLoop, hrf, addEvent, polyEval1, evalOneGo, Dir.accepts, Nat.choose]

end Heyoka.Events
