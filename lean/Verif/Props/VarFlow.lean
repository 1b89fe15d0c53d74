import Verif.VarSys.Flow
import Verif.Props.VarIcs

/-!
# C50: the initial conditions of a variational integrator are the derivatives of the flow at the initial time
-/

set_option linter.unusedSectionVars false

open Filter Topology ContDiff

namespace Heyoka.Sym

open Heyoka.Dtens

/-- `X s t y` is the value at the time `t` of the state variable `s`, on the solution selected by the values `y` of the
variational arguments; `t0 y` is its initial time. At the initial time, the state variables which are arguments have
the values given by `y`, the others have fixed values; the initial time is the one given by `y` if it is an argument,
and fixed otherwise. -/
structure Flow (names : List String) (vargs : List (Expr ℝ)) (X : String → ℝ → List ℝ → ℝ) (t0 : List ℝ → ℝ) : Prop where
  var : ∀ (k : Nat) (s : String), vargs[k]? = some (.var s) → ∀ y : List ℝ, y.length = vargs.length →
    y[k]? = some (X s (t0 y) y)
  other : ∀ s ∈ names, (.var s : Expr ℝ) ∉ vargs → ∃ c, ∀ y : List ℝ, y.length = vargs.length → X s (t0 y) y = c
  time : ∀ k : Nat, vargs[k]? = some (.fn .time []) → ∀ y : List ℝ, y.length = vargs.length → y[k]? = some (t0 y)
  fixed : (.fn .time [] : Expr ℝ) ∉ vargs → ∃ c, ∀ y : List ℝ, y.length = vargs.length → t0 y = c

section
variable {names : List String} {vargs : List (Expr ℝ)} {X : String → ℝ → List ℝ → ℝ} {t0 : List ℝ → ℝ}

/-- The initial value of a state variable, as a function of the arguments: a projection, or a constant. -/
theorem Flow.start (h : Flow names vargs X t0) {s : String} (hs : s ∈ names) :
    (∃ k : Nat, vargs[k]? = some (.var s) ∧ ∀ y : List ℝ, y.length = vargs.length → X s (t0 y) y = y.getD k 0) ∨
      (.var s : Expr ℝ) ∉ vargs ∧ ∃ c, ∀ y : List ℝ, y.length = vargs.length → X s (t0 y) y = c := by
  by_cases hv : (.var s : Expr ℝ) ∈ vargs
  · obtain ⟨k, hk, he⟩ := List.getElem_of_mem hv
    have hk' : vargs[k]? = some (.var s) := by rw [List.getElem?_eq_getElem hk, he]
    refine .inl ⟨k, hk', fun y hy => ?_⟩
    rw [List.getD_eq_getElem?_getD, h.var k s hk' y hy, Option.getD_some]
  · exact .inr ⟨hv, h.other s hs hv⟩

end

variable [FmtName ℝ]

/-- First derivatives with respect to anything but the initial time. -/
theorem Flow.first {vs : VSys ℝ} {names : List String} {order : Nat} {X : String → ℝ → List ℝ → ℝ} {t0 : List ℝ → ℝ}
    (hvs : VSysOk vs names order) (h : Flow names vs.vargs X t0) {s : String} (hs : s ∈ names) {a : Nat}
    (ha : a < vs.vargs.length) (hta : vs.vargs[a]? ≠ some (.fn .time [])) {y : List ℝ} (hy : y.length = vs.vargs.length) :
    lpd a (X s (t0 y)) y = if vs.vargs[a]? = some (.var s) then 1 else 0 := by
  have h0 : ∀ z, t0 (y.set a z) = t0 y := by
    intro z
    have hl : (y.set a z).length = vs.vargs.length := by simpa using hy
    by_cases hm : (.fn .time [] : Expr ℝ) ∈ vs.vargs
    · obtain ⟨k, hk, he⟩ := List.getElem_of_mem hm
      have hk' : vs.vargs[k]? = some (.fn .time []) := by rw [List.getElem?_eq_getElem hk, he]
      have h1 := h.time k hk' _ hl
      have h2 := h.time k hk' y hy
      have hka : a ≠ k := by
        rintro rfl
        exact hta hk'
      rw [List.getElem?_set_ne hka, h2] at h1
      exact (Option.some.inj h1).symm
    · obtain ⟨c, hc⟩ := h.fixed hm
      rw [hc _ hl, hc _ hy]
  have h1 : lpd a (X s (t0 y)) y = lpd a (fun y => X s (t0 y) y) y := by
    unfold lpd
    congr 1
    funext z
    show X s (t0 y) (y.set a z) = X s (t0 (y.set a z)) (y.set a z)
    rw [h0 z]
  rw [h1]
  rcases h.start hs with ⟨k, hk, hp⟩ | ⟨hn, c, hc⟩
  · rw [lpd_proj hp a ha y hy]
    have hkl := (List.getElem?_eq_some_iff.1 hk).1
    by_cases hak : a = k
    · subst hak
      rw [if_pos rfl, if_pos hk]
    · rw [if_neg hak, if_neg]
      intro hc
      have := (List.nodup_iff_getElem?_ne_getElem?.1 hvs.vargs_nodup)
      rcases Nat.lt_or_gt_of_ne hak with hlt | hlt
      · exact this a k hlt hkl (by rw [hc, hk])
      · exact this k a hlt ha (by rw [hc, hk])
  · have := iter_const hc a (k := 1) (by norm_num) y hy
    rw [Function.iterate_one] at this
    rw [this, if_neg]
    intro hcc
    exact hn (List.mem_of_getElem? hcc)

/-- C43 and C50: **the automatic initial conditions are the derivatives, at the initial time, of the solution with
respect to the arguments**, at any order, if the initial time is not among the arguments. -/
theorem variational_ics_flow {vs : VSys ℝ} {names : List String} {order b : Nat} (h : VSysOk vs names order) (hb : 0 < b)
    (hnt : (.fn .time [] : Expr ℝ) ∉ vs.vargs) (fuel : Nat) (share : List (Expr ℝ) → List (Node ℝ))
    {state pars time : List ℝ} (hst : state.length = b * names.length) (htime : time.length = b) :
    ∃ st, initState fuel share vs b state pars time = some (.ok st) ∧ st.length = b * vs.dt.map.length ∧
      ∀ (j : Nat) (X : String → ℝ → List ℝ → ℝ) (t0 : List ℝ → ℝ) (y : List ℝ), j < b → Flow names vs.vargs X t0 →
        y.length = vs.vargs.length →
        (∀ (i : Nat) (s : String), names[i]? = some s → state[b * i + j]? = some (X s (t0 y) y)) →
        ∀ (r : Nat) (key : SIdx) (e : Expr ℝ) (s : String), vs.dt.map[r]? = some (key, e) → names[key.1]? = some s →
          st[b * r + j]? = some (some (dpart key.2 (X s (t0 y)) y)) := by
  obtain ⟨st, h1, h2, h3⟩ := variational_ics h hb hnt fuel share (pars := pars) hst htime
  refine ⟨st, h1, h2, fun j X t0 y hj hX hy hstate r key e s hr hs => ?_⟩
  obtain ⟨x, hx, hic⟩ := h3 r j key e hr hj
  rw [hx]
  have hsm : s ∈ names := List.mem_of_getElem? hs
  obtain ⟨k1, k2, k3, k4⟩ := (h.dt.keys _).1 ⟨_, List.mem_of_getElem? hr, rfl⟩
  obtain ⟨c, l⟩ := key
  simp only at k1 k2 k3 k4 hs
  by_cases hd : 2 ≤ degree l
  · rw [hic.high hd]
    obtain ⟨t, ht⟩ := hX.fixed hnt
    congr 2
    symm
    have hb' : ∀ p ∈ l, p.1 < vs.vargs.length := by rw [h.nargs]; exact k3
    rcases hX.start hsm with ⟨k, hk, hp⟩ | ⟨hn, d, hd'⟩
    · exact dpart_proj (n := vs.vargs.length) (k := k) (fun y' hy' => by rw [← hp y' hy', ht y' hy', ht y hy]) k2 hb' hd y hy
    · refine dpart_const (n := vs.vargs.length) (c := d) (fun y' hy' => by rw [← hd' y' hy', ht y' hy', ht y hy]) k2 ?_ y hy
      rintro rfl
      simp [degree] at hd
  · rcases l with _ | ⟨⟨a, o⟩, t⟩
    · obtain ⟨z, hz1, hz2⟩ := hic.zero rfl
      rw [hstate c s hs] at hz1
      rw [hz2, dpart, ← Option.some.inj hz1]
    · have ho : o ≠ 0 := k2.2 (a, o) List.mem_cons_self
      have hdt : degree ((a, o) :: t) = o + degree t := rfl
      have ht : t = [] := by
        by_contra hne
        have := degree_pos k2.tail hne
        omega
      subst ht
      have ho1 : o = 1 := by
        have : degree ([] : List (Nat × Nat)) = 0 := rfl
        omega
      subst ho1
      have ha : a < vs.vargs.length := by rw [h.nargs]; exact k3 (a, 1) List.mem_cons_self
      have hva := List.getElem?_eq_getElem ha
      have hta : vs.vargs[a]? ≠ some (.fn .time []) := by
        intro hc
        exact hnt (List.mem_of_getElem? hc)
      show some x = some (some (lpd a (X s (t0 y)) y))
      rw [hX.first h hsm ha hta hy]
      rcases h.vargs _ (List.getElem_mem ha) with ⟨q, -, he⟩ | ⟨i, he⟩ | he
      · rw [hic.var a q s rfl (by rw [hva, he]) hs, hva, he]
        by_cases hq : s = q
        · subst hq
          rw [if_pos rfl, if_pos rfl]
        · rw [if_neg hq, if_neg]
          simpa using fun hc => hq hc.symm
      · rw [hic.par a i rfl (by rw [hva, he]), hva, he, if_neg (by simp)]
      · exact absurd (by rw [hva, he]) hta

/-- C43 and C50: **the same if the initial time is among the arguments**, which is supported at the first order: the
negated right-hand sides are the derivatives with respect to the initial time of the solutions `X` of the equations.
The remaining hypotheses are those of `variational_ics_time`. -/
theorem variational_ics_flow_time {P : Fn ℝ → Prop} (hP : NameSound P) (hR : RewClosed P) {vs : VSys ℝ}
    {names : List String} {b ta : Nat} (h : VSysOk vs names 1)
    (ht : vs.vargs[ta]? = some (.fn .time [])) (hb : 0 < b)
    (share : List (Expr ℝ) → List (Node ℝ)) {state pars time : List ℝ}
    (hst : state.length = b * names.length) (htime : time.length = b)
    {es : List (Expr ℝ)} (hes : es = (vs.sys.take names.length).map (fun p : Expr ℝ × Expr ℝ => negE p.2))
    (hcov : ∀ e ∈ es, ∀ s, s ∈ e.variables → s ∈ names) (hlib : ∀ e ∈ es, e.FnAll P)
    (hsh : Represents (share (decomposed names es)) (decomposed names es))
    (hlen : ∀ fuel dc, rawDecompose fuel share es (names.map .var) = some (.ok dc) → dc.length ≤ 2 ^ 32)
    (hpar : ∀ i, (∃ e ∈ es, Expr.Sub (.par i) e) → b * i < pars.length ∧ i < 2 ^ 32)
    {v : Nat → Env ℝ} (hv : ∀ j, j < b → LaneEnv names b state pars time j (v j)) :
    ∃ N st, (∀ fuel, N ≤ fuel → initState fuel share vs b state pars time = some (.ok st)) ∧
      st.length = b * vs.dt.map.length ∧
      ∀ (j : Nat) (X : String → ℝ → List ℝ → ℝ) (t0 : List ℝ → ℝ) (y : List ℝ), j < b → Flow names vs.vargs X t0 →
        y.length = vs.vargs.length →
        (∀ (i : Nat) (s : String), names[i]? = some s → state[b * i + j]? = some (X s (t0 y) y)) →
        (∀ (i : Nat) (s : String) (lhs rhs : Expr ℝ), names[i]? = some s → vs.sys[i]? = some (lhs, rhs) →
          SmoothFn (joint (X s)) (t0 y :: y) ∧
            ∃ d, rhs.eval (v j) = some d ∧ HasDerivAt (fun t => X s t y) d (t0 y)) →
        ∀ (r : Nat) (key : SIdx) (e : Expr ℝ) (s : String), vs.dt.map[r]? = some (key, e) → names[key.1]? = some s →
          st[b * r + j]? = some (some (dpart key.2 (X s (t0 y)) y)) := by
  obtain ⟨N, st, h1, h2, h3⟩ := (variational_ics_time hP hR h ht hb share hst htime).2 rfl es hes hcov hlib hsh hlen hpar v hv
  refine ⟨N, st, h1, h2, fun j X t0 y hj hX hy hstate hsol r key e s hr hs => ?_⟩
  obtain ⟨x, hx, hic, htm⟩ := h3 r j key e hr hj
  rw [hx]
  have hsm : s ∈ names := List.mem_of_getElem? hs
  obtain ⟨k1, k2, k3, k4⟩ := (h.dt.keys _).1 ⟨_, List.mem_of_getElem? hr, rfl⟩
  obtain ⟨c, l⟩ := key
  simp only at k1 k2 k3 k4 hs hic htm
  have hnd := List.nodup_iff_getElem?_ne_getElem?.1 h.vargs_nodup
  have htl := (List.getElem?_eq_some_iff.1 ht).1
  rcases l with _ | ⟨⟨a, o⟩, t⟩
  · obtain ⟨z, hz1, hz2⟩ := (hic (by simp)).zero rfl
    rw [hstate c s hs] at hz1
    rw [hz2, dpart, ← Option.some.inj hz1]
  · have ho : o ≠ 0 := k2.2 (a, o) List.mem_cons_self
    have hdt : degree ((a, o) :: t) = o + degree t := rfl
    have htn : t = [] := by
      by_contra hne
      have := degree_pos k2.tail hne
      omega
    subst htn
    have ho1 : o = 1 := by
      have : degree ([] : List (Nat × Nat)) = 0 := rfl
      omega
    subst ho1
    have ha : a < vs.vargs.length := by rw [h.nargs]; exact k3 (a, 1) List.mem_cons_self
    have hva := List.getElem?_eq_getElem ha
    show some x = some (some (lpd a (X s (t0 y)) y))
    by_cases hat : a = ta
    · subst hat
      obtain ⟨rhs, hrhs⟩ := h.lhs c s hs
      obtain ⟨hsmooth, d, hd1, hd2⟩ := hsol c s _ rhs hs hrhs
      rw [htm rfl _ rhs d hrhs hd1]
      have hyt := hX.time a ht y hy
      have hset : ∀ z, t0 (y.set a z) = z := by
        intro z
        have h4 := hX.time a ht (y.set a z) (by simpa using hy)
        rw [List.getElem?_set_self (by rw [hy]; exact ha)] at h4
        exact (Option.some.inj h4).symm
      have hconst : ∃ q, ∀ z, X s z (y.set a z) = q := by
        rcases hX.start hsm with ⟨k, hk, hp⟩ | ⟨hn, q, hq⟩
        · have hka : a ≠ k := by
            rintro rfl
            rw [ht] at hk
            cases hk
          refine ⟨y.getD k 0, fun z => ?_⟩
          have h5 := hp (y.set a z) (by simpa using hy)
          rw [hset z] at h5
          rw [h5, List.getD_eq_getElem?_getD, List.getElem?_set_ne hka, ← List.getD_eq_getElem?_getD]
        · refine ⟨q, fun z => ?_⟩
          have h5 := hq (y.set a z) (by simpa using hy)
          rw [hset z] at h5
          exact h5
      obtain ⟨q, hq⟩ := hconst
      rw [lpd_initial_time hsmooth hyt hq hd2]
    · have hta : vs.vargs[a]? ≠ some (.fn .time []) := by
        intro hc
        rcases Nat.lt_or_gt_of_ne hat with hlt | hlt
        · exact hnd a ta hlt htl (by rw [hc, ht])
        · exact hnd ta a hlt ha (by rw [hc, ht])
      have hic := hic (by simpa using hat)
      rw [hX.first h hsm ha hta hy]
      rcases h.vargs _ (List.getElem_mem ha) with ⟨q, -, he⟩ | ⟨i, he⟩ | he
      · rw [hic.var a q s rfl (by rw [hva, he]) hs, hva, he]
        by_cases hq : s = q
        · subst hq
          rw [if_pos rfl, if_pos rfl]
        · rw [if_neg hq, if_neg]
          simpa using fun hc => hq hc.symm
      · rw [hic.par a i rfl (by rw [hva, he]), hva, he, if_neg (by simp)]
      · exact absurd (by rw [hva, he]) hta

/-! ### Non-vacuity -/

/-- The solutions of `x' = p * x` with `p = 2`, as a function of the initial value and the initial time. -/
noncomputable def exFlow : String → ℝ → List ℝ → ℝ := fun _ t y => y.getD 0 0 * Real.exp (2 * (t - y.getD 1 0))

example : Flow ["x"] exVSys.vargs exFlow (fun y => y.getD 1 0) where
  var := by
    intro k s hk y hy
    rcases k with _ | _ | k
    · simp only [exVSys, List.length_cons, List.length_nil] at hy
      obtain ⟨a, b, rfl⟩ := List.length_eq_two.1 hy
      simp [exFlow]
    · simp [exVSys] at hk
    · simp [exVSys] at hk
  other := by
    intro s hs hn
    rw [List.mem_singleton] at hs
    subst hs
    exact absurd (by simp [exVSys]) hn
  time := by
    intro k hk y hy
    rcases k with _ | _ | k
    · simp [exVSys] at hk
    · simp only [exVSys, List.length_cons, List.length_nil] at hy
      obtain ⟨a, b, rfl⟩ := List.length_eq_two.1 hy
      simp
    · simp [exVSys] at hk
  fixed := by
    intro hn
    exact absurd (by simp [exVSys]) hn

/-- It solves the equation, and its derivative with respect to the initial time is the opposite of the right-hand
side. -/
example (x t : ℝ) : HasDerivAt (fun τ => exFlow "x" τ [x, t]) (2 * x) t ∧ lpd 1 (exFlow "x" t) [x, t] = -(2 * x) := by
  constructor
  · have h := ((((hasDerivAt_id t).sub_const t).const_mul 2).exp).const_mul x
    simp only [id_eq, sub_self, mul_zero, Real.exp_zero, mul_one, one_mul] at h
    simpa [exFlow, mul_comm] using h
  · have h := ((((hasDerivAt_id t).const_sub t).const_mul 2).exp).const_mul x
    simp only [id_eq, sub_self, mul_zero, Real.exp_zero, one_mul] at h
    have := h.deriv
    simp only [lpd, exFlow, List.set_cons_succ, List.set_cons_zero, List.getD_cons_zero, List.getD_cons_succ]
    rw [this]
    ring

end Heyoka.Sym
