import Verif.Props.ParseSw
import Mathlib.Algebra.Order.Floor.Ring
import Mathlib.Data.Rat.Floor

/-!
# C59: re-anchoring of the space weather data
-/

set_option linter.unusedSectionVars false

namespace Heyoka.EopSw

variable {K : Type*} [Field K] [LinearOrder K] [IsStrictOrderedRing K] [FloorRing K]

/-! ## Specification -/

/-- One row for each day: consecutive integral dates, of magnitude less than `2^32`. -/
def Daily (tbl : List (SwRow K)) : Prop :=
  ∃ m : Int, ∀ (i : Nat) (r : SwRow K), tbl[i]? = some r → r.mjd = .fin ((m + i : Int) : K) ∧ |m + i| < 2 ^ 32

/-- `q` is the value at `t` on the segment from `(t0, q0)` to `(t1, q1)`. -/
def OnSegment (t0 q0 t1 q1 t q : K) : Prop := ∃ w : K, 0 ≤ w ∧ w ≤ 1 ∧ t = (1 - w) * t0 + w * t1 ∧ q = (1 - w) * q0 + w * q1

/-- The time of the day at which F10.7 is measured: 17h UT until 1991-05-31 (MJD 48407), 20h UT afterwards. -/
def f107Time (mjd : K) : K := mjd + (if mjd ≤ 48407 then 17 else 20) / 24

/-- The row as seen by the constructor of `sw_data`. -/
def SwRow.toRow (r : SwRow K) : Row K :=
  { mjd := match r.mjd with
      | .fin x => some x
      | _ => none
    vals := [r.ap, r.f107, r.f107a].map fun
      | .fin x => some x
      | _ => none }

/-! ## Checks -/

theorem reanchorChecks_some : ∀ (rs : List (SwRow K)) (m : Int), reanchorChecks (some (.fin (m : K))) rs = true ↔
    ∀ (i : Nat) (r : SwRow K), rs[i]? = some r → r.mjd = .fin ((m + 1 + i : Int) : K) ∧ |m + 1 + i| < 2 ^ 32
  | [], m => by simp [reanchorChecks]
  | r :: rs, m => by
    rw [reanchorChecks]
    have hb : ∀ z : Int, |(z : K)| ≤ 4294967295 ↔ |z| < 2 ^ 32 := by
      intro z
      have : (4294967295 : K) = ((4294967295 : Int) : K) := by norm_num
      rw [this, ← Int.cast_abs, Int.cast_le]
      omega
    constructor
    · intro h
      simp only [Bool.and_eq_true] at h
      obtain ⟨⟨h1, h2⟩, h3⟩ := h
      cases hr : r.mjd with
      | fin x =>
        rw [hr] at h1 h2 h3
        simp only [Bool.and_eq_true, decide_eq_true_eq] at h1
        simp only [XF.lt_fin, XF.sub_fin, XF.feq_fin, Bool.and_eq_true, decide_eq_true_eq] at h2
        have hx : x = ((m + 1 : Int) : K) := by
          push_cast
          linarith [h2.2]
        rw [hx] at h3
        have ih := (reanchorChecks_some rs (m + 1)).1 h3
        intro i q hq
        cases i with
        | zero =>
          simp only [List.getElem?_cons_zero, Option.some.injEq] at hq
          subst hq
          rw [hr, hx]
          refine ⟨by simp, ?_⟩
          have := h1.2
          rw [hx, hb] at this
          simpa using this
        | succ i =>
          simp only [List.getElem?_cons_succ] at hq
          have := ih i q hq
          have e : m + 1 + ((i + 1 : Nat) : Int) = m + 1 + 1 + (i : Int) := by push_cast; ring
          rw [e]
          exact this
      | pinf => rw [hr] at h1; simp at h1
      | ninf => rw [hr] at h1; simp at h1
      | nan => rw [hr] at h1; simp at h1
    · intro h
      obtain ⟨h1, h2⟩ := h 0 r rfl
      simp only [Nat.cast_zero, add_zero] at h1 h2
      rw [h1]
      simp only [Bool.and_eq_true, decide_eq_true_eq, XF.lt_fin, XF.sub_fin, XF.feq_fin, hb, Int.floor_intCast, true_and]
      refine ⟨⟨h2, ?_, ?_⟩, ?_⟩
      · exact Int.cast_lt.2 (by omega)
      · push_cast
        ring
      · refine (reanchorChecks_some rs (m + 1)).2 fun i q hq => ?_
        have := h (i + 1) q (by simpa using hq)
        have e : m + 1 + ((i + 1 : Nat) : Int) = m + 1 + 1 + (i : Int) := by push_cast; ring
        rw [e] at this
        exact this

theorem reanchorChecks_none (rs : List (SwRow K)) : reanchorChecks none rs = true ↔ Daily rs := by
  have hb : ∀ z : Int, |(z : K)| ≤ 4294967295 ↔ |z| < 2 ^ 32 := by
    intro z
    have : (4294967295 : K) = ((4294967295 : Int) : K) := by norm_num
    rw [this, ← Int.cast_abs, Int.cast_le]
    omega
  cases rs with
  | nil => simp [reanchorChecks, Daily]
  | cons r rs =>
    rw [reanchorChecks]
    constructor
    · intro h
      simp only [Bool.and_eq_true] at h
      obtain ⟨⟨h1, -⟩, h3⟩ := h
      cases hr : r.mjd with
      | fin x =>
        rw [hr] at h1 h3
        simp only [Bool.and_eq_true, decide_eq_true_eq] at h1
        rw [← h1.1] at h3
        have ih := (reanchorChecks_some rs _).1 h3
        refine ⟨⌊x⌋, fun i q hq => ?_⟩
        cases i with
        | zero =>
          simp only [List.getElem?_cons_zero, Option.some.injEq] at hq
          subst hq
          simp only [Nat.cast_zero, add_zero]
          refine ⟨by rw [hr, h1.1], ?_⟩
          rw [← hb, h1.1]
          exact h1.2
        | succ i =>
          simp only [List.getElem?_cons_succ] at hq
          have := ih i q hq
          have e : ⌊x⌋ + ((i + 1 : Nat) : Int) = ⌊x⌋ + 1 + (i : Int) := by push_cast; ring
          rw [e]
          exact this
      | pinf => rw [hr] at h1; simp at h1
      | ninf => rw [hr] at h1; simp at h1
      | nan => rw [hr] at h1; simp at h1
    · rintro ⟨m, h⟩
      obtain ⟨h1, h2⟩ := h 0 r rfl
      simp only [Nat.cast_zero, add_zero] at h1 h2
      rw [h1]
      simp only [Bool.and_eq_true, decide_eq_true_eq, hb, Int.floor_intCast, true_and, and_true]
      refine ⟨h2, (reanchorChecks_some rs m).2 fun i q hq => ?_⟩
      have := h (i + 1) q (by simpa using hq)
      have e : m + ((i + 1 : Nat) : Int) = m + 1 + (i : Int) := by push_cast; ring
      rw [e] at this
      exact this

/-! ## The loop -/

theorem reanchorLoop_spec : ∀ (n i : Nat) (tbl : List (SwRow K)), 1 ≤ i → i + n = tbl.length →
    (∀ j r, i - 1 ≤ j → tbl[j]? = some r → r.mjd.isFin = true) →
    ∃ t, reanchorLoop tbl n i = .ok t ∧ t.length = tbl.length ∧ (∀ j, j < i - 1 → t[j]? = tbl[j]?) ∧
      ∀ j p c, i - 1 ≤ j → tbl[j]? = some p → tbl[j + 1]? = some c → ∃ r, reanchorRow p c = .ok r ∧ t[j]? = some r
  | 0, i, tbl, h1, h2, _ => by
    refine ⟨tbl, rfl, rfl, fun _ _ => rfl, fun j p c hj hp hc => ?_⟩
    have := (List.getElem?_eq_some_iff.1 hc).1
    omega
  | n + 1, i, tbl, h1, h2, h3 => by
    have e1 : tbl[i - 1]? = some tbl[i - 1] := List.getElem?_eq_getElem (by omega)
    have e2 : tbl[i]? = some tbl[i] := List.getElem?_eq_getElem (by omega)
    obtain ⟨a, ha⟩ := (XF.isFin_iff _).1 (h3 (i - 1) _ le_rfl e1)
    obtain ⟨b, hb⟩ := (XF.isFin_iff _).1 (h3 i _ (by omega) e2)
    have hr : ∃ r, reanchorRow tbl[i - 1] tbl[i] = .ok r := by
      unfold reanchorRow
      rw [ha, hb]
      exact ⟨_, rfl⟩
    obtain ⟨r, hr⟩ := hr
    obtain ⟨t, ht, hl, hlt, hge⟩ := reanchorLoop_spec n (i + 1) (tbl.set (i - 1) r) (by omega) (by simp; omega) (by
      intro j q hj hq
      rw [List.getElem?_set_ne (by omega)] at hq
      exact h3 j q (by omega) hq)
    refine ⟨t, ?_, by simpa using hl, fun j hj => ?_, fun j p c hj hp hc => ?_⟩
    · rw [reanchorLoop, e1, e2]
      simp only [hr, Res.bind_ok, ht]
    · rw [hlt j (by omega), List.getElem?_set_ne (by omega)]
    · by_cases hji : j = i - 1
      · subst hji
        have e : i - 1 + 1 = i := by omega
        rw [e, e2] at hc
        rw [e1] at hp
        obtain rfl := Option.some.inj hp
        obtain rfl := Option.some.inj hc
        refine ⟨r, hr, ?_⟩
        rw [hlt _ (by omega), List.getElem?_set_self (by omega)]
      · exact hge j p c (by omega) (by rw [List.getElem?_set_ne (by omega)]; exact hp) (by rw [List.getElem?_set_ne (by omega)]; exact hc)

theorem linterp_seg {t0 t1 t q0 q1 : K} (h0 : t0 ≤ t) (h1 : t ≤ t1) (h : t0 < t1) :
    ∃ q, linterp t0 (.fin q0) t1 (.fin q1) t = .fin q ∧ OnSegment t0 q0 t1 q1 t q := by
  have hp : 0 < t1 - t0 := sub_pos.2 h
  refine ⟨_, by simp [linterp, scalePos]; rfl, (t - t0) / (t1 - t0), div_nonneg (by linarith) hp.le, (div_le_one hp).2 (by linarith), ?_, ?_⟩
  · field_simp
    ring
  · field_simp
    ring

theorem f107Off_bounds (x : K) : 17 / 24 ≤ f107Off x ∧ f107Off x ≤ 20 / 24 := by
  unfold f107Off
  split <;> constructor <;> norm_num

theorem f107Off_time (m : Int) : (m : K) + f107Off (m : K) = f107Time (m : K) := by
  unfold f107Off f107Time
  by_cases h : m < 48408
  · rw [if_pos (by exact_mod_cast h), if_pos (by exact_mod_cast (show m ≤ 48407 by omega))]
  · rw [if_neg (by exact_mod_cast h), if_neg (by exact_mod_cast (show ¬ m ≤ 48407 by omega))]

/-! ## Properties -/

theorem reanchor_ok_iff' (tbl : List (SwRow K)) : (3 ≤ tbl.length ∧ Daily tbl → ∃ t, reanchor tbl = .ok t ∧ t.length + 1 = tbl.length ∧
      ∀ (j : Nat) (p c : SwRow K), tbl[j]? = some p → tbl[j + 1]? = some c → ∃ r, reanchorRow p c = .ok r ∧ t[j]? = some r) ∧
    (¬ (3 ≤ tbl.length ∧ Daily tbl) → reanchor tbl = .throw) := by
  unfold reanchor
  constructor
  · rintro ⟨h1, h2⟩
    rw [if_neg (by omega), if_neg (by simp [(reanchorChecks_none tbl).2 h2])]
    obtain ⟨m, hm⟩ := h2
    obtain ⟨t, ht, hl, -, hg⟩ := reanchorLoop_spec (tbl.length - 1) 1 tbl le_rfl (by omega) (by
      intro j r _ hr
      rw [(hm j r hr).1]
      rfl)
    rw [ht, Res.bind_ok]
    refine ⟨_, rfl, by simp; omega, fun j p c hp hc => ?_⟩
    obtain ⟨r, hr, hj⟩ := hg j p c (by omega) hp hc
    refine ⟨r, hr, ?_⟩
    have := (List.getElem?_eq_some_iff.1 hc).1
    rw [List.getElem?_dropLast, if_pos (by omega), hj]
  · intro h
    by_cases h1 : tbl.length < 3
    · rw [if_pos h1]
    · rw [if_neg h1, if_pos]
      have : ¬ reanchorChecks none tbl = true := fun e => h ⟨by omega, (reanchorChecks_none tbl).1 e⟩
      simpa using this

/-- **C59**: re-anchoring succeeds exactly for tables of at least three rows with one row for each day, and throws otherwise; it has no
undefined behaviour. -/
theorem reanchor_accepted (tbl : List (SwRow K)) : (3 ≤ tbl.length ∧ Daily tbl ↔ ∃ t, reanchor tbl = .ok t) ∧ reanchor tbl ≠ .ub := by
  obtain ⟨h1, h2⟩ := reanchor_ok_iff' tbl
  by_cases h : 3 ≤ tbl.length ∧ Daily tbl
  · obtain ⟨t, ht, -⟩ := h1 h
    exact ⟨⟨fun _ => ⟨t, ht⟩, fun _ => h⟩, by rw [ht]; simp⟩
  · have ht := h2 h
    exact ⟨⟨fun h' => absurd h' h, fun ⟨t, h'⟩ => by rw [ht] at h'; simp at h'⟩, by rw [ht]; simp⟩

/-- **C59**: the table after re-anchoring has the rows for all days but the first, with the values at midnight (0h UTC) obtained by linear
interpolation between the values of the day before and of the day itself, those of Ap and of the 81-day average being at noon, that
of F10.7 at 17h UT until 1991-05-31 and 20h UT afterwards. -/
theorem reanchor_rows {tbl t : List (SwRow K)} (h : reanchor tbl = .ok t) :
    t.length + 1 = tbl.length ∧ ∀ (j : Nat) (p c : SwRow K), tbl[j]? = some p → tbl[j + 1]? = some c →
      ∃ r, t[j]? = some r ∧ r.mjd = c.mjd ∧ ∀ a b, p.mjd = .fin a → c.mjd = .fin b →
        (∀ x y, p.ap = .fin x → c.ap = .fin y → ∃ q, r.ap = .fin q ∧ OnSegment (a + 1 / 2) x (b + 1 / 2) y b q) ∧
        (∀ x y, p.f107 = .fin x → c.f107 = .fin y → ∃ q, r.f107 = .fin q ∧ OnSegment (f107Time a) x (f107Time b) y b q) ∧
        (∀ x y, p.f107a = .fin x → c.f107a = .fin y → ∃ q, r.f107a = .fin q ∧ OnSegment (a + 1 / 2) x (b + 1 / 2) y b q) := by
  obtain ⟨h1, h2⟩ := reanchor_ok_iff' tbl
  by_cases hd : 3 ≤ tbl.length ∧ Daily tbl
  swap
  · rw [h2 hd] at h
    simp at h
  obtain ⟨t', ht, hl, hr⟩ := h1 hd
  rw [ht] at h
  obtain rfl := Res.ok.inj h
  refine ⟨hl, fun j p c hp hc => ?_⟩
  obtain ⟨r, hrow, hj⟩ := hr j p c hp hc
  refine ⟨r, hj, ?_⟩
  obtain ⟨m, hm⟩ := hd.2
  have ea := (hm j p hp).1
  have eb := (hm (j + 1) c hc).1
  unfold reanchorRow at hrow
  rw [ea, eb] at hrow
  simp only [Res.ok.injEq] at hrow
  subst hrow
  refine ⟨eb.symm, ?_⟩
  rintro a b ha hb
  rw [ea] at ha
  rw [eb] at hb
  obtain rfl := XF.fin.inj ha
  obtain rfl := XF.fin.inj hb
  have hab : ((m + ((j + 1 : Nat) : Int) : Int) : K) = ((m + (j : Int) : Int) : K) + 1 := by
    push_cast
    ring
  have b1 := f107Off_bounds ((m + (j : Int) : Int) : K)
  have b2 := f107Off_bounds ((m + ((j + 1 : Nat) : Int) : Int) : K)
  refine ⟨fun x y hx hy => ?_, fun x y hx hy => ?_, fun x y hx hy => ?_⟩
  · simp only [hx, hy]
    exact linterp_seg (by rw [hab]; linarith) (by rw [hab]; linarith) (by rw [hab]; linarith)
  · simp only [hx, hy]
    rw [← f107Off_time, ← f107Off_time]
    refine linterp_seg ?_ ?_ ?_
    · rw [hab]; linarith [b1.2]
    · linarith [b2.1]
    · rw [hab] at b2 ⊢; linarith [b1.2, b2.1]
  · simp only [hx, hy]
    exact linterp_seg (by rw [hab]; linarith) (by rw [hab]; linarith) (by rw [hab]; linarith)

/-- A finite non-negative value. -/
def NonNeg (x : XF K) : Prop := ∃ v, x = .fin v ∧ 0 ≤ v

theorem segment_nonneg {t0 q0 t1 q1 t q : K} (h : OnSegment t0 q0 t1 q1 t q) (h0 : 0 ≤ q0) (h1 : 0 ≤ q1) : 0 ≤ q := by
  obtain ⟨w, hw0, hw1, -, rfl⟩ := h
  have := mul_nonneg (sub_nonneg.2 hw1) h0
  have := mul_nonneg hw0 h1
  linarith

theorem checkRows_daily : ∀ (t : List (SwRow K)) (m : Int), (∀ (i : Nat) r, t[i]? = some r → r.mjd = .fin ((m + i : Int) : K)) →
    (∀ r ∈ t, NonNeg r.ap ∧ NonNeg r.f107 ∧ NonNeg r.f107a) → checkRows (fun x => decide (0 ≤ x)) (t.map SwRow.toRow) = true
  | [], m, _, _ => rfl
  | r :: rs, m, h1, h2 => by
    rw [List.map_cons, checkRows]
    have e := h1 0 r rfl
    simp only [Nat.cast_zero, add_zero] at e
    obtain ⟨⟨x, hx, px⟩, ⟨y, hy, py⟩, ⟨z, hz, pz⟩⟩ := h2 r (by simp)
    have hm : r.toRow.mjd = some ((m : Int) : K) := by simp [SwRow.toRow, e]
    have ih := checkRows_daily rs (m + 1) (by
      intro i q hq
      have := h1 (i + 1) q (by simpa using hq)
      have e : m + ((i + 1 : Nat) : Int) = m + 1 + (i : Int) := by push_cast; ring
      rw [e] at this
      exact this) (fun r hr => h2 r (by simp [hr]))
    rw [hm, ih]
    simp only [Option.isSome_some, Bool.true_and, Bool.and_true, Bool.and_eq_true]
    refine ⟨?_, ?_⟩
    · cases rs with
      | nil => simp [nextOk]
      | cons q rs =>
        have e1 := h1 1 q rfl
        have hq : q.toRow.mjd = some (((m + 1 : Int)) : K) := by simp [SwRow.toRow, e1]
        simp only [List.map_cons, List.head?_cons, Option.bind_some, hq, nextOk]
        simp
    · simp [SwRow.toRow, hx, hy, hz, px, py, pz]

/-- **C59**: if all the values are finite and not negative, the re-anchored table passes the checks of the constructor of `sw_data`. -/
theorem reanchor_valid {tbl t : List (SwRow K)} (h : reanchor tbl = .ok t) (hv : ∀ r ∈ tbl, NonNeg r.ap ∧ NonNeg r.f107 ∧ NonNeg r.f107a) :
    validateTable (fun x => decide (0 ≤ x)) (t.map SwRow.toRow) = true := by
  have hd := (reanchor_accepted tbl).1.2 ⟨t, h⟩
  obtain ⟨hl, hr⟩ := reanchor_rows h
  obtain ⟨m, hm⟩ := hd.2
  have rows : ∀ (j : Nat) r, t[j]? = some r → ∃ p c, tbl[j]? = some p ∧ tbl[j + 1]? = some c := by
    intro j r hj
    have := (List.getElem?_eq_some_iff.1 hj).1
    exact ⟨_, _, List.getElem?_eq_getElem (by omega), List.getElem?_eq_getElem (by omega)⟩
  unfold validateTable
  rw [Bool.and_eq_true]
  refine ⟨?_, checkRows_daily t (m + 1) ?_ ?_⟩
  · simp only [List.length_map, Bool.not_eq_true', decide_eq_false_iff_not]
    omega
  · intro j r hj
    obtain ⟨p, c, hp, hc⟩ := rows j r hj
    obtain ⟨r', hj', hmjd, -⟩ := hr j p c hp hc
    rw [hj] at hj'
    obtain rfl := Option.some.inj hj'
    rw [hmjd, (hm (j + 1) c hc).1]
    have e : m + ((j + 1 : Nat) : Int) = m + 1 + (j : Int) := by push_cast; ring
    rw [e]
  · intro r hmem
    obtain ⟨j, hj⟩ := List.getElem?_of_mem hmem
    obtain ⟨p, c, hp, hc⟩ := rows j r hj
    obtain ⟨r', hj', hmjd, hseg⟩ := hr j p c hp hc
    rw [hj] at hj'
    obtain rfl := Option.some.inj hj'
    obtain ⟨⟨x1, ex1, px1⟩, ⟨x2, ex2, px2⟩, ⟨x3, ex3, px3⟩⟩ := hv p (List.mem_of_getElem? hp)
    obtain ⟨⟨y1, ey1, py1⟩, ⟨y2, ey2, py2⟩, ⟨y3, ey3, py3⟩⟩ := hv c (List.mem_of_getElem? hc)
    obtain ⟨s1, s2, s3⟩ := hseg _ _ (hm j p hp).1 (hm (j + 1) c hc).1
    obtain ⟨q1, e1, g1⟩ := s1 _ _ ex1 ey1
    obtain ⟨q2, e2, g2⟩ := s2 _ _ ex2 ey2
    obtain ⟨q3, e3, g3⟩ := s3 _ _ ex3 ey3
    exact ⟨⟨q1, e1, segment_nonneg g1 px1 py1⟩, ⟨q2, e2, segment_nonneg g2 px2 py2⟩, ⟨q3, e3, segment_nonneg g3 px3 py3⟩⟩

/-! ## Examples -/

/-- A table around the change of the time of the measurements. -/
def demoSw : List (SwRow Rat) :=
  [⟨.fin 48407, .fin 10, .fin 100, .fin 200⟩, ⟨.fin 48408, .fin 20, .fin 127, .fin 202⟩, ⟨.fin 48409, .fin 40, .fin 151, .fin 204⟩]

example : reanchor demoSw = .ok [⟨.fin 48408, .fin 15, .fin 107, .fin 201⟩, ⟨.fin 48409, .fin 30, .fin 131, .fin 203⟩] := by decide +kernel

example : ∀ r ∈ demoSw, NonNeg r.ap ∧ NonNeg r.f107 ∧ NonNeg r.f107a := by
  intro r hr
  simp only [demoSw, List.mem_cons, List.not_mem_nil, or_false] at hr
  rcases hr with rfl | rfl | rfl <;> refine ⟨⟨_, rfl, ?_⟩, ⟨_, rfl, ?_⟩, ⟨_, rfl, ?_⟩⟩ <;> norm_num

/-- A missing day. -/
example : reanchor [⟨.fin 1, .fin 10, .fin 100, .fin 200⟩, ⟨.fin 2, .fin 20, .fin 127, .fin 202⟩, (⟨.fin 4, .fin 40, .fin 151, .fin 204⟩ : SwRow Rat)] = .throw := by
  decide +kernel

end Heyoka.EopSw
