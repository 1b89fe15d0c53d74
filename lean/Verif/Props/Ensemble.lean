import Verif.Ensemble.Model

/-!
# C41: ensemble propagation does not depend on the schedule
-/

set_option linter.unusedSectionVars false

namespace Heyoka.Ensemble

variable {TA CB R : Type}

section
variable (gen : TA → Nat → Res TA) (prop : TA → CB → Res (TA × R)) (ta : TA) (cb : CB)

/-- Specification: the propagation for the index `i` alone. -/
def single (i : Nat) : Res (TA × R) := (gen ta i).bind fun t => prop t cb

/-- What is known about the iteration `i`. -/
def IterOk (i : Nat) (ret : Option (TA × R)) : Iter TA CB R → Prop
  | .idle => ret = none
  | .generated t => ret = none ∧ gen ta i = .ok t
  | .ready t c => ret = none ∧ gen ta i = .ok t ∧ c = cb
  | .propagated t r => ret = none ∧ single gen prop ta cb i = .ok (t, r)
  | .done => ∃ x, ret = some x ∧ single gen prop ta cb i = .ok x
  | .failed => ret = none ∧ ∀ x, single gen prop ta cb i ≠ .ok x

/-- The invariant. -/
structure Inv (n : Nat) (st : State TA CB R) : Prop where
  len : st.iters.length = n
  rlen : st.ret.length = n
  ok : ∀ (i : Nat) (it : Iter TA CB R) (r : Option (TA × R)), st.iters[i]? = some it → st.ret[i]? = some r →
    IterOk gen prop ta cb i r it

variable {gen prop ta cb}

theorem Inv.set {n : Nat} {st : State TA CB R} (h : Inv gen prop ta cb n st) {i : Nat}
    {it : Iter TA CB R} (hnew : ∀ r, st.ret[i]? = some r → IterOk gen prop ta cb i r it) :
    Inv gen prop ta cb n { st with iters := st.iters.set i it } := by
  refine ⟨by simp [h.len], h.rlen, fun j jt r hj hr => ?_⟩
  by_cases hij : i = j
  · subst hij
    have hi : i < st.iters.length := by
      by_contra hc
      rw [List.getElem?_eq_none (by simp; omega)] at hj
      cases hj
    rw [List.getElem?_set_self hi] at hj
    cases hj
    exact hnew r hr
  · rw [List.getElem?_set_ne hij] at hj
    exact h.ok j jt r hj hr

theorem Inv.step {n : Nat} {st : State TA CB R} (h : Inv gen prop ta cb n st) (i : Nat) :
    Inv gen prop ta cb n (step gen prop ta cb st i) := by
  unfold Ensemble.step
  cases hi : st.iters[i]? with
  | none => exact h
  | some it =>
    have hr : ∃ r, st.ret[i]? = some r := by
      have h1 := (List.getElem?_eq_some_iff.1 hi).1
      have : i < st.ret.length := by rw [h.rlen, ← h.len]; exact h1
      exact ⟨_, List.getElem?_eq_getElem this⟩
    obtain ⟨r0, hr0⟩ := hr
    have hok := h.ok i it r0 hi hr0
    cases it with
    | idle =>
      simp only
      cases hg : gen ta i with
      | ok t =>
        refine h.set fun r hr => ?_
        rw [hr0] at hr
        cases hr
        exact ⟨hok, hg⟩
      | throw =>
        refine h.set fun r hr => ?_
        rw [hr0] at hr
        cases hr
        exact ⟨hok, by simp [single, hg]⟩
      | ub =>
        refine h.set fun r hr => ?_
        rw [hr0] at hr
        cases hr
        exact ⟨hok, by simp [single, hg]⟩
    | generated t =>
      refine h.set fun r hr => ?_
      rw [hr0] at hr
      cases hr
      exact ⟨hok.1, hok.2, rfl⟩
    | ready t c =>
      obtain ⟨h1, h2, rfl⟩ := hok
      simp only
      cases hp : prop t c with
      | ok p =>
        refine h.set fun r hr => ?_
        rw [hr0] at hr
        cases hr
        exact ⟨h1, by simp [single, h2, hp]⟩
      | throw =>
        refine h.set fun r hr => ?_
        rw [hr0] at hr
        cases hr
        exact ⟨h1, by simp [single, h2, hp]⟩
      | ub =>
        refine h.set fun r hr => ?_
        rw [hr0] at hr
        cases hr
        exact ⟨h1, by simp [single, h2, hp]⟩
    | propagated t r =>
      refine ⟨by simp [h.len], by simp [h.rlen], fun j jt r' hj hr' => ?_⟩
      by_cases hij : i = j
      · subst hij
        have h1 := (List.getElem?_eq_some_iff.1 hi).1
        have h2 : i < st.ret.length := by rw [h.rlen, ← h.len]; exact h1
        simp only at hj hr'
        rw [List.getElem?_set_self h1] at hj
        rw [List.getElem?_set_self h2] at hr'
        cases hj
        cases hr'
        exact ⟨_, rfl, hok.2⟩
      · simp only at hj hr'
        rw [List.getElem?_set_ne hij] at hj hr'
        exact h.ok j jt r' hj hr'
    | done => exact h
    | failed => exact h

theorem inv_init (n : Nat) : Inv gen prop ta cb n (initS n) := by
  refine ⟨by simp [initS], by simp [initS], fun i it r hi hr => ?_⟩
  simp only [initS, List.getElem?_replicate, Option.ite_none_right_eq_some, Option.some.injEq] at hi hr
  rw [← hi.2, ← hr.2]
  rfl

theorem inv_run (n : Nat) (sched : List Nat) : Inv gen prop ta cb n (run gen prop ta cb n sched) := by
  rw [run]
  have : ∀ (l : List Nat) (st : State TA CB R), Inv gen prop ta cb n st →
      Inv gen prop ta cb n (l.foldl (step gen prop ta cb) st) := by
    intro l
    induction l with
    | nil => exact fun st h => h
    | cons i l ih => exact fun st h => ih _ (h.step i)
  exact this _ _ (inv_init n)

/-- C41: for every schedule, if the parallel loop ends normally there is one result per iteration, and
the one at index `i` is that of propagating the integrator generated for `i` alone, with its own copy of
the callback; it ends with an exception only if one of these propagations fails. -/
theorem ensemble_schedule_independent (n : Nat) (sched : List Nat) :
    (∀ ret, outcome (run gen prop ta cb n sched) = some (.ok ret) → ret.length = n ∧
      ∀ i : Nat, i < n → ∃ x, ret[i]? = some (some x) ∧ single gen prop ta cb i = .ok x) ∧
    (outcome (run gen prop ta cb n sched) = some .throw →
      ∃ i, i < n ∧ ∀ x, single gen prop ta cb i ≠ .ok x) ∧
    outcome (run gen prop ta cb n sched) ≠ some .ub := by
  have hI := inv_run (gen := gen) (prop := prop) (ta := ta) (cb := cb) n sched
  generalize run gen prop ta cb n sched = st at hI
  unfold outcome
  refine ⟨fun ret h => ?_, fun h => ?_, ?_⟩
  · split_ifs at h with h1 h2
    · injection h with h
      cases h
    · injection h with h
      injection h with h
      subst h
      refine ⟨hI.rlen, fun i hi => ?_⟩
      have h3 : i < st.iters.length := by rw [hI.len]; exact hi
      have h4 : i < st.ret.length := by rw [hI.rlen]; exact hi
      have h5 := hI.ok i _ _ (List.getElem?_eq_getElem h3) (List.getElem?_eq_getElem h4)
      have h6 := List.all_eq_true.1 h2 _ (List.getElem_mem h3)
      rw [List.getElem?_eq_getElem h4]
      cases hc : st.iters[i] <;> rw [hc] at h5 h6 <;> simp [Iter.isDone] at h6
      obtain ⟨x, h7, h8⟩ := h5
      exact ⟨x, by rw [h7], h8⟩
  · split_ifs at h with h1 h1'
    swap
    · injection h with h
      cases h
    obtain ⟨it, h2, h3⟩ := List.any_eq_true.1 h1
    obtain ⟨i, h4, rfl⟩ := List.mem_iff_getElem.1 h2
    have h5 : i < st.ret.length := by rw [hI.rlen, ← hI.len]; exact h4
    have h6 := hI.ok i _ _ (List.getElem?_eq_getElem h4) (List.getElem?_eq_getElem h5)
    refine ⟨i, by rw [← hI.len]; exact h4, ?_⟩
    cases hc : st.iters[i] <;> rw [hc] at h3 h6 <;> simp [Iter.isFailed] at h3
    exact h6.2
  · split_ifs <;> simp

/-- The number of steps done by an iteration. -/
def prog : Iter TA CB R → Nat
  | .idle => 0
  | .generated _ => 1
  | .ready _ _ => 2
  | .propagated _ _ => 3
  | .done => 4
  | .failed => 5

/-- C41: if no propagation fails, the loop ends under every schedule which gives each iteration its
four steps, in any order: two such schedules give the same results. -/
theorem ensemble_complete (n : Nat) (hok : ∀ i, i < n → ∃ x, single gen prop ta cb i = .ok x)
    (sched : List Nat) (hs : ∀ i, i < n → 4 ≤ sched.count i) :
    ∃ ret, outcome (run gen prop ta cb n sched) = some (.ok ret) := by
  have hI := inv_run (gen := gen) (prop := prop) (ta := ta) (cb := cb) n sched
  have hprog : ∀ (l : List Nat) (st : State TA CB R) (i : Nat) (it : Iter TA CB R),
      st.iters[i]? = some it →
      ∃ it', (l.foldl (step gen prop ta cb) st).iters[i]? = some it' ∧ min 4 (prog it + l.count i) ≤ prog it' := by
    intro l
    induction l with
    | nil => exact fun st i it h => ⟨it, h, by rw [List.count_nil]; omega⟩
    | cons j l ih =>
      intro st i it h
      have h1 : ∃ it', (step gen prop ta cb st j).iters[i]? = some it' ∧
          min 4 (prog it + (if j = i then 1 else 0)) ≤ prog it' := by
        have hi := (List.getElem?_eq_some_iff.1 h).1
        by_cases hj : j = i
        · subst hj
          rw [if_pos rfl]
          unfold step
          rw [h]
          cases it with
          | idle =>
            simp only
            cases gen ta j <;> simp only [List.getElem?_set_self hi] <;> exact ⟨_, rfl, by simp [prog]⟩
          | generated t => simp only [List.getElem?_set_self hi]; exact ⟨_, rfl, by simp [prog]⟩
          | ready t c =>
            simp only
            cases prop t c <;> simp only [List.getElem?_set_self hi] <;> exact ⟨_, rfl, by simp [prog]⟩
          | propagated t r => simp only [List.getElem?_set_self hi]; exact ⟨_, rfl, by simp [prog]⟩
          | done => exact ⟨_, h, by simp [prog]⟩
          | failed => exact ⟨_, h, by simp [prog]⟩
        · refine ⟨it, ?_, by rw [if_neg hj]; omega⟩
          unfold step
          cases hst : st.iters[j]? with
          | none => exact h
          | some jt =>
            cases jt with
            | idle =>
              simp only
              cases gen ta j <;> simp only [List.getElem?_set_ne hj] <;> exact h
            | ready t c =>
              simp only
              cases prop t c <;> simp only [List.getElem?_set_ne hj] <;> exact h
            | generated t => simp only [List.getElem?_set_ne hj]; exact h
            | propagated t r => simp only [List.getElem?_set_ne hj]; exact h
            | done => exact h
            | failed => exact h
      obtain ⟨it', h2, h3⟩ := h1
      obtain ⟨it2, h4, h5⟩ := ih _ i it' h2
      refine ⟨it2, h4, ?_⟩
      rw [List.count_cons]
      by_cases hj : j = i
      · simp only [hj, beq_self_eq_true, if_true] at h3 ⊢; omega
      · have : (j == i) = false := by simpa using hj
        rw [this]
        simp only [hj, if_false] at h3
        simp only [Bool.false_eq_true, if_false]
        omega
  have hdone : ∀ it ∈ (run gen prop ta cb n sched).iters, it.isDone = true := by
    intro it hit
    obtain ⟨i, hi, rfl⟩ := List.mem_iff_getElem.1 hit
    have hin : i < n := by rw [← hI.len]; exact hi
    obtain ⟨it', h1, h2⟩ := hprog sched (initS n) i .idle (by simp [initS, hin])
    have h3 : (run gen prop ta cb n sched).iters[i]? = some it' := h1
    rw [List.getElem?_eq_getElem hi] at h3
    have hc := hs i hin
    have h5 : i < (run gen prop ta cb n sched).ret.length := by rw [hI.rlen]; exact hin
    have h6 := hI.ok i _ _ (List.getElem?_eq_getElem hi) (List.getElem?_eq_getElem h5)
    rw [Option.some.inj h3] at h6 ⊢
    have h7 : 4 ≤ prog it' := by
      have : prog (Iter.idle : Iter TA CB R) = 0 := rfl
      omega
    cases it' with
    | done => rfl
    | failed =>
      obtain ⟨x, hx⟩ := hok i hin
      exact absurd hx (h6.2 x)
    | idle => simp [prog] at h7
    | generated t => simp [prog] at h7
    | ready t c => simp [prog] at h7
    | propagated t r => simp [prog] at h7
  refine ⟨(run gen prop ta cb n sched).ret, ?_⟩
  unfold outcome
  rw [if_neg, if_pos]
  · exact List.all_eq_true.2 hdone
  · intro h
    obtain ⟨it, h1, h2⟩ := List.any_eq_true.1 h
    have h3 := hdone it h1
    cases it <;> simp_all [Iter.isDone, Iter.isFailed]

end

/-- C41, the batch grid: the grid of the lane `l` of the splatted grid is the original grid. -/
theorem ensemble_splat {K : Type} (batch : Nat) (grid : List K) :
    (splat batch grid).length = grid.length * batch ∧
    ∀ i l : Nat, l < batch → (splat batch grid)[i * batch + l]? = grid[i]? := by
  induction grid with
  | nil => simp [splat]
  | cons g grid ih =>
    obtain ⟨h1, h2⟩ := ih
    have hs : splat batch (g :: grid) = List.replicate batch g ++ splat batch grid := by simp [splat]
    refine ⟨by rw [hs, List.length_append, h1, List.length_replicate, List.length_cons, Nat.add_mul]; omega, fun i l hl => ?_⟩
    rw [hs]
    cases i with
    | zero =>
      rw [List.getElem?_append_left (by simpa using hl)]
      simp [List.getElem?_replicate, hl]
    | succ i =>
      rw [List.getElem?_append_right (by rw [List.length_replicate, Nat.add_mul]; omega), List.length_replicate,
        show (i + 1) * batch + l - batch = i * batch + l from by rw [Nat.add_mul]; omega, h2 i l hl,
        List.getElem?_cons_succ]

/-- An interleaved schedule of two iterations. -/
example : outcome (run (fun (t : Nat) i => .ok (t + i)) (fun t (c : Nat) => .ok (t * c, t)) 5 10 2
    [1, 0, 0, 1, 1, 1, 0, 0]) = some (.ok [some (50, 5), some (60, 6)]) := rfl

/-- If the generation fails for an index, the exception is reported. -/
example : outcome (run (fun (t : Nat) i => if i = 1 then .throw else .ok t) (fun t (c : Nat) => .ok (t * c, t)) 5 10 2
    [0, 1]) = some .throw := rfl

end Heyoka.Ensemble
