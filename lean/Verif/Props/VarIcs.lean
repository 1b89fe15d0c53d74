import Verif.VarSys.Lemmas
import Verif.Props.CFunc

/-!
# C43: the automatic setup of the initial conditions of variational integrators
-/

set_option linter.unusedSectionVars false

namespace Heyoka.Sym

open Heyoka.Dtens

section
variable {K : Type}

/-- A variational system, as built by the constructor of `var_ode_sys`: there are equations for all the derivatives up
to the order `order` of the state variables `names`, and the first equations are those of the original system. The
arguments are different state variables (i.e., their initial values), parameters, the (initial) time. -/
structure VSysOk (vs : VSys K) (names : List String) (order : Nat) : Prop where
  dt : Complete vs.dt names.length order
  order_pos : 0 < order
  size : vs.sys.length = vs.dt.map.length
  lhs : ∀ (i : Nat) (s : String), names[i]? = some s → ∃ e, vs.sys[i]? = some (.var s, e)
  nodup : names.Nodup
  nargs : vs.vargs.length = vs.dt.nargs
  vargs_nodup : vs.vargs.Nodup
  vargs : ∀ a ∈ vs.vargs, (∃ s ∈ names, a = .var s) ∨ (∃ i, a = .par i) ∨ a = .fn .time []

/-- The values of the original state variables, the parameters and the time in lane `j` of a batch of size `b`. -/
structure LaneEnv (names : List String) (b : Nat) (state pars time : List K) (j : Nat) (v : Env K) : Prop where
  var : ∀ (i : Nat) (s : String), names[i]? = some s → state[b * i + j]? = some (v.var s)
  par : ∀ i, b * i < pars.length → pars[b * i + j]? = some (v.par i)
  time : time[j]? = some v.time

/-- The specification of the initial value `x` in lane `j` for the derivative with key `key`. -/
structure IcOk [Zero K] [One K] (vs : VSys K) (names : List String) (b : Nat) (state : List K) (j : Nat) (key : SIdx)
    (x : Option K) : Prop where
  /-- The original state is not changed. -/
  zero : key.2 = [] → ∃ y, state[b * key.1 + j]? = some y ∧ x = some y
  /-- Derivative with respect to the initial value of a state variable: one or zero. -/
  var : ∀ (a : Nat) (s t : String), key.2 = [(a, 1)] → vs.vargs[a]? = some (.var s) → names[key.1]? = some t →
    x = some (if t = s then 1 else 0)
  /-- Derivative with respect to a parameter: zero. -/
  par : ∀ a i : Nat, key.2 = [(a, 1)] → vs.vargs[a]? = some (.par i) → x = some 0
  /-- Order two or higher: zero. -/
  high : 2 ≤ degree key.2 → x = some 0

end

section
variable [FmtName ℝ]

theorem beq_var_iff {K : Type} [Field K] [LinearOrder K] [FmtName K] {s : String} {a : Expr K} :
    (Expr.var s).beq a = true ↔ a = .var s := by
  cases a <;> simp [Expr.beq]
  exact eq_comm

theorem VSysOk.stepIn {vs : VSys ℝ} {names : List String} {order : Nat} (h : VSysOk vs names order) {r : Nat}
    (hr : r < vs.sys.length) : StepIn vs r := by
  have hr' : r < vs.dt.map.length := by rw [← h.size]; exact hr
  refine ⟨vs.dt.map[r], List.getElem?_eq_getElem hr', ?_, ?_⟩
  · obtain ⟨k1, -, -, -⟩ := (h.dt.keys _).1 ⟨_, List.getElem_mem hr', rfl⟩
    obtain ⟨e, he⟩ := h.lhs _ _ (List.getElem?_eq_getElem k1)
    exact (List.getElem?_eq_some_iff.1 he).1
  · obtain ⟨-, -, k3, -⟩ := (h.dt.keys _).1 ⟨_, List.getElem_mem hr', rfl⟩
    rw [h.nargs]
    exact k3

theorem VSysOk.names_le {vs : VSys ℝ} {names : List String} {order : Nat} (h : VSysOk vs names order) :
    names.length ≤ vs.sys.length := by
  by_contra hc
  push Not at hc
  obtain ⟨e, he⟩ := h.lhs (names.length - 1) _ (List.getElem?_eq_getElem (by omega))
  have := (List.getElem?_eq_some_iff.1 he).1
  omega

/-- The meaning of `active`. -/
theorem VSysOk.active_iff {vs : VSys ℝ} {names : List String} {order : Nat} (h : VSysOk vs names order) {r : Nat}
    {key : SIdx} {e : Expr ℝ} (hr : vs.dt.map[r]? = some (key, e)) :
    active vs r = true ↔ ∃ a s, key.2 = [(a, 1)] ∧ vs.vargs[a]? = some (.var s) ∧ names[key.1]? = some s := by
  obtain ⟨c, l⟩ := key
  obtain ⟨k1, k2, k3, k4⟩ := (h.dt.keys _).1 ⟨_, List.mem_of_getElem? hr, rfl⟩
  simp only at k1 k2 k3 k4
  obtain ⟨e', he'⟩ := h.lhs c _ (List.getElem?_eq_getElem k1)
  unfold active
  rw [hr]
  simp only
  rcases l with _ | ⟨⟨a, o⟩, _ | ⟨q, t⟩⟩
  · simp
  · have ha : a < vs.vargs.length := by rw [h.nargs]; exact k3 (a, o) (by simp)
    have ho : o ≠ 0 := k2.2 (a, o) (by simp)
    have hv := List.getElem?_eq_getElem ha
    have hs := List.getElem?_eq_getElem k1
    simp only [he', hv, Bool.not_or, Bool.not_not, Bool.and_eq_true, Bool.not_eq_true', decide_eq_false_iff_not,
      not_lt, beq_var_iff, List.cons.injEq, and_true, Prod.mk.injEq, hs, Option.some.injEq]
    constructor
    · rintro ⟨h1, h2⟩
      exact ⟨a, names[c], ⟨rfl, by omega⟩, by rw [hv, h2], rfl⟩
    · rintro ⟨a', s, ⟨rfl, rfl⟩, h2, rfl⟩
      rw [hv] at h2
      exact ⟨le_refl _, by simpa using h2⟩
  · simp

/-- The first part of the setup. -/
theorem varpar_ok {vs : VSys ℝ} {names : List String} {order b : Nat} (h : VSysOk vs names order) (hb : 0 < b)
    {state : List ℝ} (hst : state.length = b * names.length) :
    ∃ st, icsVarpar vs b state = .ok st ∧ st.length = b * vs.sys.length ∧
      (∀ m : Nat, m < b * names.length → st[m]? = state[m]?) ∧
      ∀ (r j : Nat) (key : SIdx) (e : Expr ℝ), vs.dt.map[r]? = some (key, e) → j < b →
        ∃ x, st[b * r + j]? = some x ∧ IcOk vs names b state j key (some x) := by
  have hle : b * names.length ≤ b * vs.sys.length := Nat.mul_le_mul_left b h.names_le
  obtain ⟨z1, z2⟩ := resize_get state (b * vs.sys.length) (0 : ℝ) (by omega)
  have hn := h.names_le
  obtain ⟨st, h1, h2, h3⟩ := icsLoop_ok (vs := vs) hb (vs.sys.length - names.length) names.length
    (resize state (b * vs.sys.length) 0) (fun r hr1 hr2 => h.stepIn (by omega))
    (by rw [z1, Nat.mul_comm b]; exact Nat.mul_le_mul_right b (by omega))
  refine ⟨st, ?_, by omega, fun m hm => ?_, fun r j key e hr hj => ?_⟩
  · rw [icsVarpar, h.dt.getNouts, Res.bind_ok, h1]
  · rw [h3, if_neg ?_, z2 m (by omega), if_pos (by omega)]
    rintro ⟨⟨h4, -⟩, -⟩
    have := (Nat.div_lt_iff_lt_mul hb).2 (show m < names.length * b by rw [Nat.mul_comm]; exact hm)
    omega
  · have hrl : r < vs.sys.length := by rw [h.size]; exact (List.getElem?_eq_some_iff.1 hr).1
    have hdiv : (b * r + j) / b = r := by
      rw [Nat.mul_add_div hb, Nat.div_eq_of_lt hj, Nat.add_zero]
    have hlt : b * r + j < b * vs.sys.length := by
      have := Nat.mul_le_mul_left b hrl
      rw [Nat.succ_eq_add_one, Nat.mul_add] at this
      omega
    obtain ⟨k1, k2, k3, k4⟩ := (h.dt.keys _).1 ⟨_, List.mem_of_getElem? hr, rfl⟩
    have hk : r < names.length ↔ key.2 = [] := by
      constructor
      · intro hc
        obtain ⟨p, hp1, hp2⟩ := h.dt.pos_zero hc
        rw [hr] at hp1
        injection hp1 with hp1
        subst hp1
        exact (Prod.ext_iff.1 hp2).2
      · intro hc
        obtain ⟨p, hp1, hp2⟩ := h.dt.pos_zero k1
        have hrr := (List.getElem?_eq_some_iff.1 hr)
        obtain ⟨hc1, hc2⟩ := List.getElem?_eq_some_iff.1 hp1
        obtain ⟨hr1, hr2⟩ := hrr
        by_contra hne
        have hl := (h.dt.map.lt_iff hc1 hr1).2 (by have k1' : key.1 < names.length := k1; omega)
        rw [hc2, hr2, hp2] at hl
        simp only at hl
        have : key = (key.1, []) := Prod.ext rfl hc
        rw [this] at hl
        exact Less.irrefl _ hl
    have h4 := h3 (b * r + j)
    rw [hdiv, z2 _ hlt] at h4
    by_cases hz : key.2 = []
    · -- Original state variable.
      have hrn := hk.2 hz
      have hrc : key = (r, []) := by
        obtain ⟨p, hp1, hp2⟩ := h.dt.pos_zero hrn
        rw [hr] at hp1
        injection hp1 with hp1
        subst hp1
        exact hp2
      have hbr : b * r + j < state.length := by
        rw [hst]
        have := Nat.mul_le_mul_left b hrn
        rw [Nat.succ_eq_add_one, Nat.mul_add] at this
        omega
      rw [if_neg (by omega), if_pos hbr, List.getElem?_eq_getElem hbr] at h4
      refine ⟨_, h4, fun _ => ⟨_, by rw [hrc]; exact List.getElem?_eq_getElem hbr, rfl⟩, ?_, ?_, ?_⟩
      · intro a s t hc; rw [hz] at hc; cases hc
      · intro a i hc; rw [hz] at hc; cases hc
      · intro hc; rw [hz] at hc; simp [degree] at hc
    · have hrn : ¬ r < names.length := fun hc => hz (hk.1 hc)
      have hbr : ¬ b * r + j < state.length := by
        rw [hst]
        have := Nat.mul_le_mul_left b (Nat.le_of_not_lt hrn)
        omega
      rw [if_neg hbr] at h4
      by_cases ha : active vs r = true
      · rw [if_pos ⟨by omega, ha⟩] at h4
        obtain ⟨a, s, a1, a2, a3⟩ := (h.active_iff hr).1 ha
        refine ⟨_, h4, fun hc => absurd hc hz, ?_, ?_, ?_⟩
        · intro a' s' t hc hv ht
          rw [a1] at hc
          simp only [List.cons.injEq, Prod.mk.injEq, and_true] at hc
          subst hc
          rw [a2] at hv
          rw [a3] at ht
          injection hv with hv
          injection hv with hv
          injection ht with ht
          rw [if_pos (by rw [← ht, hv])]
        · intro a' i hc hv
          rw [a1] at hc
          simp only [List.cons.injEq, Prod.mk.injEq, and_true] at hc
          subst hc
          rw [a2] at hv
          cases hv
        · intro hc
          rw [a1] at hc
          simp [degree] at hc
      · rw [if_neg (fun h => ha h.2)] at h4
        refine ⟨_, h4, fun hc => absurd hc hz, ?_, fun _ _ _ _ => rfl, fun _ => rfl⟩
        intro a s t hc hv ht
        rw [if_neg]
        intro he
        subst he
        exact ha ((h.active_iff hr).2 ⟨a, t, hc, hv, ht⟩)

theorem find_time_none {vs : VSys ℝ} {names : List String} {order : Nat} (h : VSysOk vs names order)
    (hnt : (.fn .time [] : Expr ℝ) ∉ vs.vargs) :
    vs.vargs.findIdx? (fun a => a.beq (.fn .time [])) = none := by
  rw [List.findIdx?_eq_none_iff]
  intro a ha
  rcases h.vargs a ha with ⟨s, -, rfl⟩ | ⟨i, rfl⟩ | rfl
  · rfl
  · rfl
  · exact absurd ha hnt

theorem find_time_some {vs : VSys ℝ} {names : List String} {order ta : Nat} (h : VSysOk vs names order)
    (ht : vs.vargs[ta]? = some (.fn .time [])) :
    vs.vargs.findIdx? (fun a => a.beq (.fn .time [])) = some ta := by
  obtain ⟨hta, hte⟩ := List.getElem?_eq_some_iff.1 ht
  rw [List.findIdx?_eq_some_iff_getElem]
  refine ⟨hta, by rw [hte]; simp [Expr.beq, Expr.beqL], fun j hj => ?_⟩
  have hne : vs.vargs[j] ≠ .fn .time [] := by
    intro he
    have := (List.nodup_iff_getElem?_ne_getElem?.1 h.vargs_nodup) j ta hj hta
    rw [List.getElem?_eq_getElem (by omega), ht, he] at this
    exact this rfl
  rcases h.vargs _ (List.getElem_mem (show j < vs.vargs.length by omega)) with ⟨s, -, he⟩ | ⟨i, he⟩ | he
  · rw [he]; simp [Expr.beq]
  · rw [he]; simp [Expr.beq]
  · exact absurd he hne

/-- The setup is done if the original state is passed to the constructor. -/
theorem initState_eq {vs : VSys ℝ} {names : List String} {order b : Nat} (h : VSysOk vs names order) (hb : 0 < b)
    (fuel : Nat) (share : List (Expr ℝ) → List (Node ℝ)) {state pars time st : List ℝ}
    (hst : state.length = b * names.length) (htime : time.length = b) (hv : icsVarpar vs b state = .ok st) :
    initState fuel share vs b state pars time = icsT0 fuel share vs b st pars time := by
  have hn : 0 < names.length := h.dt.nouts_pos
  have hpos : 0 < b * names.length := Nat.mul_pos hb hn
  have hne : state.isEmpty = false := by
    cases state with
    | nil => rw [List.length_nil] at hst; omega
    | cons _ _ => rfl
  have hlt : names.length < vs.sys.length := by
    obtain ⟨p, hp, -⟩ := h.dt.pos_one h.order_pos hn h.dt.nargs_pos
    have := (List.getElem?_eq_some_iff.1 hp).1
    rw [h.size]
    omega
  unfold initState
  rw [if_neg (by omega), if_neg (by rw [hst, Nat.mul_mod_right]; simp), h.dt.getNouts]
  simp only [hne, Bool.false_eq_true, if_false]
  rw [hst, Nat.mul_div_cancel_left _ hb, if_pos (by omega), if_pos rfl, if_neg (by omega), hv]

/-- C43: **the initial conditions if the initial time is not among the arguments**, at any order. -/
theorem variational_ics {vs : VSys ℝ} {names : List String} {order b : Nat} (h : VSysOk vs names order) (hb : 0 < b)
    (hnt : (.fn .time [] : Expr ℝ) ∉ vs.vargs) (fuel : Nat) (share : List (Expr ℝ) → List (Node ℝ))
    {state pars time : List ℝ} (hst : state.length = b * names.length) (htime : time.length = b) :
    ∃ st, initState fuel share vs b state pars time = some (.ok st) ∧ st.length = b * vs.dt.map.length ∧
      ∀ (r j : Nat) (key : SIdx) (e : Expr ℝ), vs.dt.map[r]? = some (key, e) → j < b →
        ∃ x, st[b * r + j]? = some x ∧ IcOk vs names b state j key x := by
  obtain ⟨st, h1, h2, -, h3⟩ := varpar_ok h hb hst
  refine ⟨st.map some, ?_, by rw [List.length_map, h2, h.size], fun r j key e hr hj => ?_⟩
  · rw [initState_eq h hb fuel share hst htime h1, icsT0, find_time_none h hnt]
  · obtain ⟨x, h4, h5⟩ := h3 r j key e hr hj
    exact ⟨some x, by rw [List.getElem?_map, h4]; rfl, h5⟩

/-- C43: **the initial conditions if the initial time is among the arguments**: this is supported at the first order
only; the derivatives with respect to the initial time are the negated right-hand sides. `N` is enough fuel for the
traversals in the decomposition of the right-hand sides. -/
theorem variational_ics_time {P : Fn ℝ → Prop} (hP : NameSound P) (hR : RewClosed P) {vs : VSys ℝ}
    {names : List String} {order b ta : Nat} (h : VSysOk vs names order)
    (ht : vs.vargs[ta]? = some (.fn .time [])) (hb : 0 < b)
    (share : List (Expr ℝ) → List (Node ℝ)) {state pars time : List ℝ}
    (hst : state.length = b * names.length) (htime : time.length = b) :
    (1 < order → ∀ fuel, initState fuel share vs b state pars time = some .throw) ∧
    (order = 1 →
      ∀ es, es = (vs.sys.take names.length).map (fun p : Expr ℝ × Expr ℝ => negE p.2) →
      (∀ e ∈ es, ∀ s, s ∈ e.variables → s ∈ names) → (∀ e ∈ es, e.FnAll P) →
      Represents (share (decomposed names es)) (decomposed names es) →
      (∀ fuel dc, rawDecompose fuel share es (names.map .var) = some (.ok dc) → dc.length ≤ 2 ^ 32) →
      (∀ i, (∃ e ∈ es, Expr.Sub (.par i) e) → b * i < pars.length ∧ i < 2 ^ 32) →
      ∀ v : Nat → Env ℝ, (∀ j, j < b → LaneEnv names b state pars time j (v j)) →
      ∃ N st, (∀ fuel, N ≤ fuel → initState fuel share vs b state pars time = some (.ok st)) ∧
        st.length = b * vs.dt.map.length ∧
        ∀ (r j : Nat) (key : SIdx) (e : Expr ℝ), vs.dt.map[r]? = some (key, e) → j < b →
          ∃ x, st[b * r + j]? = some x ∧
            (key.2 ≠ [(ta, 1)] → IcOk vs names b state j key x) ∧
            (key.2 = [(ta, 1)] → ∀ lhs rhs y, vs.sys[key.1]? = some (lhs, rhs) →
              rhs.eval (v j) = some y → x = some (-y))) := by
  obtain ⟨st, h1, h2, h2', h3⟩ := varpar_ok h hb hst
  have hta : ta < vs.vargs.length := (List.getElem?_eq_some_iff.1 ht).1
  refine ⟨fun ho fuel => ?_, ?_⟩
  · rw [initState_eq h hb fuel share hst htime h1, icsT0, find_time_some h ht]
    simp only
    rw [h.dt.getOrder, if_pos ho]
  intro ho es hes hcov hg hsh hlen hpar v hv
  have hle := h.names_le
  have hesl : es.length = names.length := by rw [hes, List.length_map, List.length_take]; omega
  have hne : es ≠ [] := by
    intro hc
    have := h.dt.nouts_pos
    rw [hc] at hesl
    simp at hesl
    omega
  have hvars : (vs.sys.take names.length).map Prod.fst = names.map Expr.var := by
    refine List.ext_getElem? fun i => ?_
    rw [List.getElem?_map, List.getElem?_map]
    rcases Nat.lt_or_ge i names.length with hi | hi
    · obtain ⟨e, he⟩ := h.lhs i _ (List.getElem?_eq_getElem hi)
      rw [List.getElem?_take_of_lt hi, he, List.getElem?_eq_getElem hi]
      rfl
    · rw [List.getElem?_eq_none hi, List.getElem?_eq_none (by rw [List.length_take]; omega)]
      rfl
  obtain ⟨N0, dc0, r1, r2⟩ := function_decompose_value hP hR share es names hne h.nodup hcov hg hsh
  obtain ⟨N1, dc, d1, d2, d3, -, d4⟩ := r2 (hlen N0 dc0 (r1 N0 (le_refl _)))
  choose out o1 o2 using d4
  have hdcp : ∀ e ∈ dc, ParsIn (fun i => b * i < pars.length) e :=
    functionDecompose_pars hsh (fun e he => parsIn_of_sub fun i hi => (hpar i ⟨e, he, hi⟩).1) d1
  have hker := kernel_ok (b := b) (stride := b) (vs := v) (R := fun i => b * i < pars.length) (T := True) (o := 0)
    (inp := some (st, 0)) (parp := some (pars, 0)) (timep := some (time, 0))
    (x := fun j l => (v l).var (names.getD j "")) (Y := fun l => out (v l)) hb d2.len
    (fun i hi l hl => by
      have := (hv l hl).var i _ (List.getElem?_eq_getElem hi)
      rw [← h2' (b * i + l) (by
        have := Nat.mul_le_mul_left b hi
        rw [Nat.succ_eq_add_one, Nat.mul_add] at this
        omega)] at this
      simp only [Ptr.load, Nat.zero_add]
      rw [this, List.getD_eq_getElem?_getD, List.getElem?_eq_getElem hi, Option.getD_some])
    (fun i hi l hl => by
      simp only [Ptr.load, Nat.zero_add]
      rw [(hv l hl).par i hi])
    (fun _ l hl => by
      simp only [Ptr.load, Nat.zero_add]
      rw [(hv l hl).time])
    hdcp (fun e _ => by unfold TimeIn; split <;> trivial)
    (fun l hl => by
      rw [names_map]
      exact o1 (v l))
  rw [outWrites_colWrites (val := fun i c => ((out (v c))[i]?).join) (fun l _ i _ => by rw [Nat.zero_add])] at hker
  have hrange : (List.range b).map (0 + ·) = List.range b := by
    rw [show ((0 : Nat) + ·) = id from funext fun x => Nat.zero_add x, List.map_id]
  rw [hrange, hesl] at hker
  have hstl : (st.take (b * names.length)).length = b * names.length := by
    rw [List.length_take, h2]
    exact Nat.min_eq_left (Nat.mul_le_mul_left b hle)
  obtain ⟨o, q1, q2, q3, -⟩ := applyW_ok
    (colWrites names.length b (fun i c => ((out (v c))[i]?).join) (List.range b))
    ((st.take (b * names.length)).map some)
    (by rw [colWrites_addr]; exact List.nodup_range)
    (fun w hw => by
      have : w.1 ∈ List.range (names.length * b) := by
        rw [← colWrites_addr (val := fun i c => ((out (v c))[i]?).join)]
        exact List.mem_map_of_mem hw
      rw [List.length_map, hstl, Nat.mul_comm]
      exact List.mem_range.1 this)
  have hol : o.length = b * names.length := by rw [q2, List.length_map, hstl]
  have hoval : ∀ c j, c < names.length → j < b → o[b * c + j]? = some ((out (v j))[c]?).join := by
    intro c j hc hj
    have := q3 (j + b * c, ((out (v j))[c]?).join) (by
      rw [colWrites]
      exact List.mem_flatMap.2 ⟨c, List.mem_range.2 hc, List.mem_map.2 ⟨j, List.mem_range.2 hj, rfl⟩⟩)
    rw [Nat.add_comm]
    exact this
  have hrhs : ∀ c lhs rhs y j, c < names.length → vs.sys[c]? = some (lhs, rhs) → rhs.eval (v j) = some y →
      ((out (v j))[c]?).join = some (-y) := by
    intro c lhs rhs y j hc hs hy
    have he : es[c]? = some (negE rhs) := by
      rw [hes, List.getElem?_map, List.getElem?_take_of_lt hc, hs]
      rfl
    rw [(o2 (v j)).2 c _ (-y) he (by rw [eval_negE, hy]; rfl)]
    rfl
  have hbig : b * (names.length + names.length * vs.vargs.length) ≤ (st.map some).length := by
    rw [List.length_map, h2]
    refine Nat.mul_le_mul_left b ?_
    have hn : 0 < names.length := h.dt.nouts_pos
    obtain ⟨p, hp, -⟩ := h.dt.pos_one (c := names.length - 1) (a := vs.dt.nargs - 1) (by omega) (by omega)
      (by have := h.dt.nargs_pos; omega)
    have := (List.getElem?_eq_some_iff.1 hp).1
    rw [h.size, h.nargs]
    have h4 : (names.length - 1) * vs.dt.nargs + vs.dt.nargs = names.length * vs.dt.nargs := by
      rw [← Nat.succ_mul]
      congr 1
      omega
    have := h.dt.nargs_pos
    omega
  obtain ⟨st', t1, t2, t3, t4⟩ := icsT0Loop_ok (nargs := vs.vargs.length) (ta := ta) hta hb hol names.length 0 (st.map some)
    (by omega) hbig
  refine ⟨N1, st', fun fuel hf => ?_, by rw [t2, List.length_map, h2, h.size], fun r j key e hr hj => ?_⟩
  · rw [initState_eq h hb fuel share hst htime h1, icsT0, find_time_some h ht]
    simp only
    rw [h.dt.getOrder, if_neg (by omega), h.dt.getNouts]
    simp only
    unfold evalNegRhs
    rw [hvars, ← hes, d1 fuel hf]
    simp only [Option.map_some, Res.bind_ok]
    rw [hker, Res.bind_ok, q1, Res.bind_ok, t1]
  · obtain ⟨k1, k2, k3, k4⟩ := (h.dt.keys _).1 ⟨_, List.mem_of_getElem? hr, rfl⟩
    simp only at k1 k2 k3 k4
    obtain ⟨hrl, hre⟩ := List.getElem?_eq_some_iff.1 hr
    have hdiv : (b * r + j) / b = r := by
      rw [Nat.mul_add_div hb, Nat.div_eq_of_lt hj, Nat.add_zero]
    have hpos : key.2 = [(ta, 1)] ↔ ∃ c, c < names.length ∧ r = names.length + c * vs.vargs.length + ta := by
      constructor
      · intro hk
        refine ⟨key.1, k1, ?_⟩
        obtain ⟨p, hp, hp2⟩ := h.dt.pos_one (c := key.1) (a := ta) (by omega) k1 (by rw [← h.nargs]; exact hta)
        obtain ⟨hl, he⟩ := List.getElem?_eq_some_iff.1 hp
        rw [h.nargs]
        have hkey : vs.dt.map[r].1 = vs.dt.map[names.length + key.1 * vs.dt.nargs + ta].1 := by
          rw [hre, he, hp2]
          exact Prod.ext rfl hk
        rcases Nat.lt_trichotomy r (names.length + key.1 * vs.dt.nargs + ta) with hlt | hlt | hlt
        · have := (h.dt.map.lt_iff hrl hl).2 hlt
          rw [hkey] at this
          exact absurd this (Less.irrefl _)
        · exact hlt
        · have := (h.dt.map.lt_iff hl hrl).2 hlt
          rw [hkey] at this
          exact absurd this (Less.irrefl _)
      · rintro ⟨c, hc, rfl⟩
        obtain ⟨p, hp, hp2⟩ := h.dt.pos_one (c := c) (a := ta) (by omega) hc (by rw [← h.nargs]; exact hta)
        rw [← h.nargs, hr] at hp
        injection hp with hp
        subst hp
        exact (Prod.ext_iff.1 hp2).2
    by_cases hk : key.2 = [(ta, 1)]
    · obtain ⟨c, hc, hrc⟩ := hpos.1 hk
      have hcc : key.1 = c := by
        obtain ⟨p, hp, hp2⟩ := h.dt.pos_one (c := c) (a := ta) (by omega) hc (by rw [← h.nargs]; exact hta)
        rw [← h.nargs, ← hrc, hr] at hp
        injection hp with hp
        subst hp
        exact (Prod.ext_iff.1 hp2).1
      refine ⟨_, by rw [hrc, t3 c j (Nat.zero_le _) hc hj, hoval c j hc hj], fun hc => absurd hk hc, ?_⟩
      intro _ lhs rhs y hs hy
      rw [hcc] at hs
      exact hrhs c lhs rhs y j hc hs hy
    · obtain ⟨x, x1, x2⟩ := h3 r j key e hr hj
      refine ⟨some x, ?_, fun _ => x2, fun hc => absurd hc hk⟩
      rw [t4 _ fun c _ hc he => hk (hpos.2 ⟨c, hc, by rw [hdiv] at he; exact he⟩), List.getElem?_map, x1]
      rfl

/-- C43: an empty state stands for zeros, a complete state is not changed, and all other sizes are rejected. -/
theorem init_sizes {vs : VSys ℝ} {names : List String} {order b : Nat} (h : VSysOk vs names order) (hb : 0 < b)
    (fuel : Nat) (share : List (Expr ℝ) → List (Node ℝ)) (state pars time : List ℝ) :
    initState fuel share vs b [] pars time =
      initState fuel share vs b (List.replicate (b * names.length) 0) pars time ∧
    (state.length = b * vs.sys.length → time.length = b →
      initState fuel share vs b state pars time = some (.ok (state.map some))) ∧
    (state ≠ [] → state.length ≠ b * names.length → state.length ≠ b * vs.sys.length →
      initState fuel share vs b state pars time = some .throw) ∧
    (time.length ≠ b → initState fuel share vs b state pars time = some .throw) := by
  have hn : 0 < names.length := h.dt.nouts_pos
  have hpos : 0 < b * names.length := Nat.mul_pos hb hn
  have hlt := h.names_le
  have hpos' : 0 < b * vs.sys.length := Nat.mul_pos hb (by omega)
  have hne : ∀ l : List ℝ, 0 < l.length → l.isEmpty = false := by
    intro l hl
    cases l with
    | nil => simp at hl
    | cons _ _ => rfl
  refine ⟨?_, fun hl ht => ?_, fun h1 h2 h3 => ?_, fun ht => ?_⟩
  · have he := hne (List.replicate (b * names.length) 0) (by simpa using hpos)
    unfold initState
    rw [if_neg (by omega), if_neg (by simp), if_neg (by omega), if_neg (by simp [Nat.mul_mod_right]), h.dt.getNouts]
    simp only [he, List.isEmpty_nil, if_true, Bool.false_eq_true, if_false]
    rw [Nat.mul_comm names.length]
  · have he := hne state (by omega)
    unfold initState
    rw [if_neg (by omega), if_neg (by rw [hl, Nat.mul_mod_right]; simp), h.dt.getNouts]
    simp only [he, Bool.false_eq_true, if_false]
    rw [hl, Nat.mul_div_cancel_left _ hb, if_neg (fun hc => hc rfl), if_neg (fun hc => hc ht)]
  · have he := hne state (List.length_pos_iff.2 h1)
    unfold initState
    rw [if_neg (by omega)]
    split
    · rfl
    · rename_i hmod
      have hmod : state.length % b = 0 := by simpa using hmod
      have hdm := Nat.div_add_mod state.length b
      rw [h.dt.getNouts]
      simp only [he, Bool.false_eq_true, if_false]
      rw [if_pos, if_neg]
      · intro hc
        rw [hc, hmod] at hdm
        omega
      · intro hc
        rw [hc, hmod] at hdm
        omega
  · unfold initState
    rw [if_neg (by omega)]
    split
    · rfl
    · rw [h.dt.getNouts]
      simp only
      simp only [if_pos ht, ite_self]

end

/-! ### Non-vacuity -/

/-- The system `x' = p0 * x`, `(dx/dx0)' = p0 * dx/dx0`, `(dx/dt0)' = p0 * dx/dt0`. -/
def exVSys : VSys ℝ where
  sys := [(.var "x", .fn (.prod false) [.par 0, .var "x"]),
    (.var "∂x_x", .fn (.prod false) [.par 0, .var "∂x_x"]), (.var "∂x_t", .fn (.prod false) [.par 0, .var "∂x_t"])]
  dt := ⟨[((0, []), .var ""), ((0, [(0, 1)]), .var ""), ((0, [(1, 1)]), .var "")], 2⟩
  vargs := [.var "x", .fn .time []]

/-- The hypothesis of the theorems above is met. -/
theorem exVSys_ok : VSysOk exVSys ["x"] 1 where
  dt := {
    sorted := by
      have h : [((0, []) : SIdx), (0, [(0, 1)]), (0, [(1, 1)])].Pairwise (fun p q => Sane p.2 ∧ Sane q.2 ∧
          degree p.2 < 2 ^ 32 ∧ degree q.2 < 2 ^ 32 ∧ cmp p q = .ok true) := by decide +kernel
      have h2 : (exVSys.dt.map.map (·.1)).Pairwise Less := by
        refine List.Pairwise.imp ?_ h
        rintro p q ⟨ha, hb, h1, h2, h⟩
        obtain ⟨c, hc, hl⟩ := cmp_eq h1 h2 ha hb
        rw [hc] at h
        injection h with h
        exact hl.mp h
      exact List.pairwise_map.1 h2
    keys := by
      intro v
      obtain ⟨c, l⟩ := v
      simp only [exVSys, List.length_cons, List.length_nil, List.mem_cons, List.not_mem_nil, or_false,
        exists_eq_or_imp, exists_eq_left, Prod.mk.injEq]
      constructor
      · rintro (⟨rfl, rfl⟩ | ⟨rfl, rfl⟩ | ⟨rfl, rfl⟩) <;> simp [Sane, degree]
      · rintro ⟨hc, hs, ha, hd⟩
        have hc : 0 = c := by omega
        rcases l with _ | ⟨⟨a, m⟩, t⟩
        · exact .inl ⟨hc, rfl⟩
        · have hm : m ≠ 0 := hs.2 (a, m) (by simp)
          have hd : m + degree t ≤ 1 := hd
          have ht : t = [] := by
            by_contra hne
            have := degree_pos hs.tail hne
            omega
          have hm1 : m = 1 := by omega
          have ha2 : a < 2 := ha (a, m) (by simp)
          rw [ht, hm1]
          rcases (show a = 0 ∨ a = 1 by omega) with rfl | rfl
          · exact .inr (.inl ⟨hc, rfl⟩)
          · exact .inr (.inr ⟨hc, rfl⟩)
    nouts_pos := by simp
    nargs_pos := by simp [exVSys]
    nargs_fits := by simp [exVSys]
    order_fits := by norm_num }
  order_pos := by norm_num
  size := rfl
  lhs := by
    intro i s h
    rcases i with _ | i
    · simp only [List.length_cons, List.getElem?_cons_zero, Option.some.injEq] at h
      subst h
      exact ⟨_, rfl⟩
    · simp at h
  nodup := by simp
  nargs := rfl
  vargs_nodup := by simp [exVSys]
  vargs := by simp [exVSys]

end Heyoka.Sym
