import Verif.Util.Res
import Mathlib.Data.List.Basic

/-!
# Tasks on a shared tape

Every task loads some entries of the tape into its registers and stores one result. The loads and the
stores of different tasks may be interleaved in any way.
-/

namespace Heyoka

/-- The interleavings of several sequences. -/
inductive Interleave {α : Type} : List (List α) → List α → Prop
  | done {ts : List (List α)} (h : ∀ t ∈ ts, t = []) : Interleave ts []
  | step {ts : List (List α)} {i : Nat} {w : α} {ws σ : List α} (hi : ts[i]? = some (w :: ws))
      (h : Interleave (ts.set i ws) σ) : Interleave ts (w :: σ)

variable {α : Type}

/-- A task: the address of the result, the addresses of the operands, the function to be computed. -/
structure Task (α : Type) where
  addr : Nat
  reads : List Nat
  f : List α → α

/-- A memory access of the `k`-th task. -/
inductive TapeOp (α : Type) where
  | load (k r : Nat)
  | store (k addr : Nat) (f : List α → α)

/-- The memory accesses of a task, in order. -/
def Task.ops (k : Nat) (t : Task α) : List (TapeOp α) :=
  t.reads.map (TapeOp.load k) ++ [TapeOp.store k t.addr t.f]

/-- The memory accesses of several tasks, the first of which has index `k`. -/
def taskOps : Nat → List (Task α) → List (List (TapeOp α))
  | _, [] => []
  | k, t :: ts => t.ops k :: taskOps (k + 1) ts

/-- The tape, the registers of the tasks. -/
structure TapeState (α : Type) where
  tape : List (Option α)
  regs : Nat → List α

/-- One memory access: reading an entry which was not written, or an access out of the bounds, is
undefined. -/
def TapeOp.run (s : TapeState α) : TapeOp α → Res (TapeState α)
  | .load k r =>
    match s.tape[r]? with
    | some (some x) => .ok ⟨s.tape, fun j => if j = k then s.regs k ++ [x] else s.regs j⟩
    | _ => .ub
  | .store k addr f =>
    if addr < s.tape.length then .ok ⟨s.tape.set addr (some (f (s.regs k))), s.regs⟩ else .ub

/-- A sequence of memory accesses. -/
def runOps : TapeState α → List (TapeOp α) → Res (TapeState α)
  | s, [] => .ok s
  | s, o :: os => (o.run s).bind fun s' => runOps s' os

/-- The values at some addresses. -/
def readVals (tape : List (Option α)) : List Nat → Option (List α)
  | [] => some []
  | r :: rs => match tape[r]?, readVals tape rs with
    | some (some x), some xs => some (x :: xs)
    | _, _ => none

theorem taskOps_getElem? : ∀ (ts : List (Task α)) (k i : Nat),
    (taskOps k ts)[i]? = (ts[i]?).map (Task.ops (k + i))
  | [], _, _ => by simp [taskOps]
  | t :: ts, k, 0 => by simp [taskOps]
  | t :: ts, k, i + 1 => by
    rw [taskOps, List.getElem?_cons_succ, List.getElem?_cons_succ, taskOps_getElem? ts (k + 1) i,
      show k + 1 + i = k + (i + 1) by omega]

theorem readVals_append {tape : List (Option α)} : ∀ {rs ss : List Nat} {xs : List α},
    readVals tape (rs ++ ss) = some xs →
    ∃ ys zs, readVals tape rs = some ys ∧ readVals tape ss = some zs ∧ xs = ys ++ zs
  | [], ss, xs, h => ⟨[], xs, rfl, h, rfl⟩
  | r :: rs, ss, xs, h => by
    rw [List.cons_append, readVals] at h
    split at h
    · rename_i x ys hx hys
      injection h with h
      subst h
      obtain ⟨a, b, h1, h2, h3⟩ := readVals_append hys
      refine ⟨x :: a, b, ?_, h2, by rw [h3]; rfl⟩
      rw [readVals, hx, h1]
    · cases h

/-- The state of a task in the middle of the execution: it has loaded the operands before `rest`, or it is
finished. -/
def TaskAt (t0 : List (Option α)) (s : TapeState α) (k : Nat) (t : Task α) (vals : List α)
    (os : List (TapeOp α)) : Prop :=
  (∃ done rest ys zs, t.reads = done ++ rest ∧ os = rest.map (TapeOp.load k) ++ [TapeOp.store k t.addr t.f] ∧
    readVals t0 rest = some zs ∧ vals = ys ++ zs ∧ s.regs k = ys) ∨
  (os = [] ∧ s.tape[t.addr]? = some (some (t.f vals)))

/-- For every interleaving: the results are stored, everything else is unchanged. -/
theorem interleave_inv {t0 : List (Option α)} {ts : List (Task α)} {vals : List (List α)}
    (hnd : (ts.map Task.addr).Nodup) (hin : ∀ t ∈ ts, t.addr < t0.length)
    (hr : ∀ t ∈ ts, ∀ r ∈ t.reads, r ∉ ts.map Task.addr) {oss : List (List (TapeOp α))} {σ : List (TapeOp α)}
    (hσ : Interleave oss σ) : ∀ {s : TapeState α}, s.tape.length = t0.length → oss.length = ts.length →
    (∀ (k : Nat) t, ts[k]? = some t → ∃ os vs, oss[k]? = some os ∧ vals[k]? = some vs ∧ TaskAt t0 s k t vs os) →
    (∀ a, a ∉ ts.map Task.addr → s.tape[a]? = t0[a]?) →
    ∃ s', runOps s σ = .ok s' ∧ s'.tape.length = t0.length ∧
      (∀ (k : Nat) t, ts[k]? = some t → ∃ vs, vals[k]? = some vs ∧ s'.tape[t.addr]? = some (some (t.f vs))) ∧
      ∀ a, a ∉ ts.map Task.addr → s'.tape[a]? = t0[a]? := by
  induction hσ with
  | @done oss h =>
    intro s hl hol ht ho
    refine ⟨s, rfl, hl, fun k t hk => ?_, ho⟩
    obtain ⟨os, vs, h1, h2, h3⟩ := ht k t hk
    rcases h3 with ⟨d, r, ys, zs, -, h4, -⟩ | ⟨-, h4⟩
    · rw [h os (List.mem_of_getElem? h1)] at h4
      simp at h4
    · exact ⟨vs, h2, h4⟩
  | @step oss i w ws σ hi h ih =>
    intro s hl hol ht ho
    have hil : i < ts.length := by
      rw [← hol]
      exact (List.getElem?_eq_some_iff.1 hi).1
    obtain ⟨t, hti⟩ : ∃ t, ts[i]? = some t := ⟨_, List.getElem?_eq_getElem hil⟩
    have htm := List.mem_of_getElem? hti
    obtain ⟨os, vs, h1, h2, h3⟩ := ht i t hti
    rw [hi] at h1
    injection h1 with h1
    subst h1
    have hother : ∀ (k : Nat), k ≠ i → (oss.set i ws)[k]? = oss[k]? := fun k hk =>
      List.getElem?_set_ne (Ne.symm hk)
    have hself : (oss.set i ws)[i]? = some ws := by
      rw [List.getElem?_set_self]
      rw [hol]; exact hil
    rcases h3 with ⟨d, r, ys, zs, h4, h5, h6, h7, h8⟩ | ⟨h4, -⟩
    · cases r with
      | nil =>
        -- the store
        simp only [List.map_nil, List.nil_append, List.cons.injEq] at h5
        obtain ⟨rfl, rfl⟩ := h5
        rw [readVals] at h6
        injection h6 with h6
        subst h6
        rw [List.append_nil] at h7
        have ha : t.addr < s.tape.length := by rw [hl]; exact hin t htm
        rw [runOps, TapeOp.run, if_pos ha, Res.bind_ok]
        refine ih (by simpa using hl) (by rw [List.length_set]; exact hol) (fun k t' hk => ?_) fun a hna => ?_
        · by_cases hki : k = i
          · subst hki
            rw [hti] at hk
            injection hk with hk
            subst hk
            refine ⟨[], vs, hself, h2, .inr ⟨rfl, ?_⟩⟩
            simp only
            rw [List.getElem?_set_self ha, h8, h7]
          · obtain ⟨os, vs', g1, g2, g3⟩ := ht k t' hk
            refine ⟨os, vs', by rw [hother k hki]; exact g1, g2, ?_⟩
            rcases g3 with g3 | ⟨g3, g4⟩
            · exact .inl g3
            · refine .inr ⟨g3, ?_⟩
              have hne : t.addr ≠ t'.addr := by
                intro he
                have e1 : (ts.map Task.addr)[i]? = some t.addr := by rw [List.getElem?_map, hti]; rfl
                have e2 : (ts.map Task.addr)[k]? = some t.addr := by rw [List.getElem?_map, hk, he]; rfl
                exact hki (((List.getElem?_inj (by simpa using hil) hnd).1 (e1.trans e2.symm)).symm)
              simp only
              rw [List.getElem?_set_ne hne, g4]
        · simp only
          have hne : t.addr ≠ a := fun he => hna (by rw [← he]; exact List.mem_map_of_mem htm)
          rw [List.getElem?_set_ne hne, ho a hna]
      | cons r rs =>
        -- a load
        simp only [List.map_cons, List.cons_append, List.cons.injEq] at h5
        obtain ⟨rfl, rfl⟩ := h5
        rw [readVals] at h6
        split at h6
        · rename_i x xs hx hxs
          injection h6 with h6
          subst h6
          have hrm : r ∈ t.reads := by rw [h4]; simp
          have hrt : s.tape[r]? = some (some x) := by rw [ho r (hr t htm r hrm), hx]
          rw [runOps, TapeOp.run, hrt]
          simp only [Res.bind_ok]
          refine ih hl (by rw [List.length_set]; exact hol) (fun k t' hk => ?_) fun a hna => ho a hna
          by_cases hki : k = i
          · subst hki
            rw [hti] at hk
            injection hk with hk
            subst hk
            refine ⟨_, vs, hself, h2, .inl ⟨d ++ [r], rs, ys ++ [x], xs, by simp [h4], rfl, hxs, by simp [h7], ?_⟩⟩
            simp [h8]
          · obtain ⟨os, vs', g1, g2, g3⟩ := ht k t' hk
            refine ⟨os, vs', by rw [hother k hki]; exact g1, g2, ?_⟩
            rcases g3 with ⟨d', r', ys', zs', g4, g5, g6, g7, g8⟩ | g3
            · exact .inl ⟨d', r', ys', zs', g4, g5, g6, g7, by simp [hki, g8]⟩
            · exact .inr g3
        · cases h6
    · cases h4

/-- The tasks of a segment may be executed in any interleaving of their memory accesses. -/
theorem tasks_any_order {t0 : List (Option α)} {ts : List (Task α)}
    (hnd : (ts.map Task.addr).Nodup) (hin : ∀ t ∈ ts, t.addr < t0.length)
    (hr : ∀ t ∈ ts, ∀ r ∈ t.reads, r ∉ ts.map Task.addr)
    (hv : ∀ t ∈ ts, (readVals t0 t.reads).isSome) {σ : List (TapeOp α)} (hσ : Interleave (taskOps 0 ts) σ) :
    ∃ s', runOps ⟨t0, fun _ => []⟩ σ = .ok s' ∧ s'.tape.length = t0.length ∧
      (∀ t ∈ ts, s'.tape[t.addr]? = some ((readVals t0 t.reads).map t.f)) ∧
      ∀ a, a ∉ ts.map Task.addr → s'.tape[a]? = t0[a]? := by
  let vals := ts.map fun t => (readVals t0 t.reads).getD []
  have hlen : (taskOps 0 ts).length = ts.length := by
    have : ∀ (l : List (Task α)) k, (taskOps k l).length = l.length := by
      intro l
      induction l with
      | nil => intro k; rfl
      | cons t l ih => intro k; rw [taskOps, List.length_cons, List.length_cons, ih]
    exact this ts 0
  obtain ⟨s', h1, h2, h3, h4⟩ := interleave_inv (vals := vals) hnd hin hr hσ (s := ⟨t0, fun _ => []⟩) rfl hlen
    (fun k t hk => by
      obtain ⟨xs, hxs⟩ := Option.isSome_iff_exists.1 (hv t (List.mem_of_getElem? hk))
      refine ⟨t.ops k, xs, by rw [taskOps_getElem?, hk, Nat.zero_add]; rfl, ?_, ?_⟩
      · simp [vals, hk, hxs]
      · exact .inl ⟨[], t.reads, [], xs, rfl, rfl, hxs, rfl, rfl⟩)
    (fun _ _ => rfl)
  refine ⟨s', h1, h2, fun t ht => ?_, h4⟩
  obtain ⟨k, hk⟩ := List.mem_iff_getElem?.1 ht
  obtain ⟨vs, g1, g2⟩ := h3 k t hk
  obtain ⟨xs, hxs⟩ := Option.isSome_iff_exists.1 (hv t ht)
  simp only [vals, List.getElem?_map, hk, Option.map_some, hxs, Option.getD_some, Option.some.injEq] at g1
  rw [g2, hxs, g1]
  rfl

/-! ### Sequential execution -/

/-- The tasks one after the other. -/
def runSeq : List (Option α) → List (Task α) → Res (List (Option α))
  | tape, [] => .ok tape
  | tape, t :: ts =>
    match readVals tape t.reads with
    | none => .ub
    | some xs => if t.addr < tape.length then runSeq (tape.set t.addr (some (t.f xs))) ts else .ub

theorem readVals_congr {t t' : List (Option α)} : ∀ {rs : List Nat}, (∀ r ∈ rs, t[r]? = t'[r]?) →
    readVals t rs = readVals t' rs
  | [], _ => rfl
  | r :: rs, h => by
    rw [readVals, readVals, h r List.mem_cons_self, readVals_congr fun x hx => h x (List.mem_cons_of_mem _ hx)]

theorem readVals_isSome {t : List (Option α)} : ∀ {rs : List Nat}, (∀ r ∈ rs, ∃ x, t[r]? = some (some x)) →
    (readVals t rs).isSome
  | [], _ => rfl
  | r :: rs, h => by
    obtain ⟨x, hx⟩ := h r List.mem_cons_self
    obtain ⟨xs, hxs⟩ := Option.isSome_iff_exists.1 (readVals_isSome fun y hy => h y (List.mem_cons_of_mem _ hy))
    rw [readVals, hx, hxs]
    rfl

theorem runSeq_append : ∀ (tape : List (Option α)) (ts us : List (Task α)),
    runSeq tape (ts ++ us) = (runSeq tape ts).bind fun t => runSeq t us
  | tape, [], us => rfl
  | tape, t :: ts, us => by
    rw [List.cons_append, runSeq, runSeq]
    cases readVals tape t.reads with
    | none => rfl
    | some xs =>
      simp only
      split_ifs
      · exact runSeq_append _ _ _
      · rfl

/-- The result of the sequential execution of independent tasks. -/
theorem runSeq_ok : ∀ {ts : List (Task α)} {t0 : List (Option α)},
    (ts.map Task.addr).Nodup → (∀ t ∈ ts, t.addr < t0.length) →
    (∀ t ∈ ts, ∀ r ∈ t.reads, r ∉ ts.map Task.addr) → (∀ t ∈ ts, (readVals t0 t.reads).isSome) →
    ∃ t1, runSeq t0 ts = .ok t1 ∧ t1.length = t0.length ∧
      (∀ t ∈ ts, t1[t.addr]? = some ((readVals t0 t.reads).map t.f)) ∧
      ∀ a, a ∉ ts.map Task.addr → t1[a]? = t0[a]?
  | [], t0, _, _, _, _ => ⟨t0, rfl, rfl, by simp, fun _ _ => rfl⟩
  | t :: ts, t0, hnd, hin, hr, hv => by
    rw [List.map_cons, List.nodup_cons] at hnd
    obtain ⟨xs, hxs⟩ := Option.isSome_iff_exists.1 (hv t List.mem_cons_self)
    have ha := hin t List.mem_cons_self
    have hread : ∀ u ∈ ts, readVals (t0.set t.addr (some (t.f xs))) u.reads = readVals t0 u.reads := fun u hu =>
      readVals_congr fun r hrm => by
        rw [List.getElem?_set_ne]
        rintro rfl
        exact hr u (List.mem_cons_of_mem _ hu) _ hrm (by simp)
    obtain ⟨t1, h1, h2, h3, h4⟩ := runSeq_ok (ts := ts) (t0 := t0.set t.addr (some (t.f xs))) hnd.2
      (fun u hu => by rw [List.length_set]; exact hin u (List.mem_cons_of_mem _ hu))
      (fun u hu r hrm hm => hr u (List.mem_cons_of_mem _ hu) r hrm (List.mem_cons_of_mem _ hm))
      (fun u hu => by rw [hread u hu]; exact hv u (List.mem_cons_of_mem _ hu))
    refine ⟨t1, ?_, by rw [h2, List.length_set], fun u hu => ?_, fun a hna => ?_⟩
    · rw [runSeq, hxs]
      simp only
      rw [if_pos ha, h1]
    · rcases List.mem_cons.1 hu with rfl | hu
      · rw [h4 _ hnd.1, List.getElem?_set_self ha, hxs]
        rfl
      · rw [h3 u hu, hread u hu]
    · rw [List.map_cons, List.mem_cons, not_or] at hna
      rw [h4 a hna.2, List.getElem?_set_ne (Ne.symm hna.1)]

/-- Independent tasks: every interleaving gives the same tape as the sequential execution. -/
theorem interleave_eq_seq {t0 : List (Option α)} {ts : List (Task α)}
    (hnd : (ts.map Task.addr).Nodup) (hin : ∀ t ∈ ts, t.addr < t0.length)
    (hr : ∀ t ∈ ts, ∀ r ∈ t.reads, r ∉ ts.map Task.addr) (hv : ∀ t ∈ ts, (readVals t0 t.reads).isSome) :
    ∃ t1, runSeq t0 ts = .ok t1 ∧ t1.length = t0.length ∧ (∀ t ∈ ts, ∃ x, t1[t.addr]? = some (some x)) ∧
      (∀ a, a ∉ ts.map Task.addr → t1[a]? = t0[a]?) ∧
      ∀ σ, Interleave (taskOps 0 ts) σ → ∃ s', runOps ⟨t0, fun _ => []⟩ σ = .ok s' ∧ s'.tape = t1 := by
  obtain ⟨t1, h1, h2, h3, h4⟩ := runSeq_ok hnd hin hr hv
  refine ⟨t1, h1, h2, fun t ht => ?_, h4, fun σ hσ => ?_⟩
  · obtain ⟨xs, hxs⟩ := Option.isSome_iff_exists.1 (hv t ht)
    exact ⟨_, by rw [h3 t ht, hxs]; rfl⟩
  obtain ⟨s', g1, g2, g3, g4⟩ := tasks_any_order hnd hin hr hv hσ
  refine ⟨s', g1, List.ext_getElem? fun a => ?_⟩
  by_cases ha : a ∈ ts.map Task.addr
  · obtain ⟨t, ht, rfl⟩ := List.mem_map.1 ha
    rw [g3 t ht, h3 t ht]
  · rw [g4 a ha, h4 a ha]

end Heyoka
