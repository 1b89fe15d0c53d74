import Verif.Taylor.CComp

/-!
# The execution of the code generated in compact mode for a Taylor decomposition
-/

set_option linter.unusedSectionVars false
set_option linter.unusedSimpArgs false
set_option linter.unusedVariables false

namespace Heyoka.Taylor

open Heyoka.Sym

variable {K : Type} [Field K] [LinearOrder K] [FloorRing K] [FmtName K] [Interp K] [CodeInterp K] [TConst K]
variable {nu : Nat} {g : Nat → Nat → V K}

/-! ### The tape -/

/-- The tape contains the derivative of order `o` of the variable `u`. -/
def THas (nu : Nat) (g : Nat → Nat → V K) (tape : TTape K) (u o : Nat) : Prop :=
  u < nu ∧ o * nu + u < 2 ^ 31 ∧ tape[o * nu + u]? = some (some (g u o))

theorem cell_eq {u o : Nat} (h : o * nu + u < 2 ^ 31) : cell nu u o = o * nu + u := by
  rw [cell, Nat.mod_eq_of_lt (by omega)]

theorem THas.get {tape : TTape K} {u o : Nat} (h : THas nu g tape u o) : tget tape nu u o = .ok (g u o) := by
  rw [tget, cell_eq h.2.1, if_pos h.2.1, h.2.2]

theorem cell_inj {u o u' o' : Nat} (hu : u < nu) (hu' : u' < nu) (h : o * nu + u = o' * nu + u') : u = u' ∧ o = o' := by
  rcases Nat.lt_trichotomy o o' with ho | ho | ho
  · have := idx_lt (u' := u') hu ho
    omega
  · subst ho
    exact ⟨by omega, rfl⟩
  · have := idx_lt (u' := u) hu' ho
    omega

theorem tset_ok {tape : TTape K} {u o : Nat} (hu : u < nu) (h1 : o * nu + u < 2 ^ 31) (h2 : o * nu + u < tape.length) :
    ∃ tape', tset tape nu u o (g u o) = .ok tape' ∧ tape'.length = tape.length ∧ THas nu g tape' u o ∧
      ∀ u' o', THas nu g tape u' o' → THas nu g tape' u' o' := by
  refine ⟨tape.set (o * nu + u) (some (g u o)), ?_, by simp, ⟨hu, h1, List.getElem?_set_self h2⟩, fun u' o' h => ?_⟩
  · rw [tset, cell_eq h1, if_pos ⟨h1, h2⟩]
  · refine ⟨h.1, h.2.1, ?_⟩
    by_cases he : o * nu + u = o' * nu + u'
    · obtain ⟨rfl, rfl⟩ := cell_inj hu h.1 he
      exact List.getElem?_set_self h2
    · rw [List.getElem?_set_ne he]
      exact h.2.2

/-- The derivatives of order less than `n`, and those of order `n` of the variables before `s`, are in the tape. -/
structure Filled (nu : Nat) (g : Nat → Nat → V K) (N n s : Nat) (tape : TTape K) : Prop where
  len : tape.length = N
  lower : ∀ u < nu, ∀ o < n, THas nu g tape u o
  cur : ∀ u < s, THas nu g tape u n

theorem Filled.step {N n : Nat} {tape : TTape K} (h : Filled nu g N n nu tape) : Filled nu g N (n + 1) 0 tape := by
  refine ⟨h.len, fun u hu o ho => ?_, fun u hu => by omega⟩
  rcases Nat.lt_succ_iff_lt_or_eq.1 ho with ho | rfl
  · exact h.lower u hu o ho
  · exact h.cur u hu

/-! ### The execution of a segment -/

variable {par : Nat → K} {time : K} {neq : Nat} {dc : TDc K} {state : List K} {L : Fn K → Prop} {svf : List Nat}

/-- The elements of a segment. -/
def SegElem (dc : TDc K) (s len u : Nat) (e : TElem K) : Prop :=
  dc[u]? = some e ∧ s ≤ u ∧ u < s + len ∧ ∀ j, usesVar e j → j < s

variable [IsStrictOrderedRing K]

section
variable (hP : PowSound K) (hdc : SSysOk L neq dc svf) (hfn : FnMid neq dc) (hsz : dc.length ≤ 2 ^ 32)
include hP hdc hfn hsz

theorem runTCall_ok {N n s len : Nat} (hs : neq ≤ s) (hl : s + len ≤ dc.length - neq) {c : Call K} {u : Nat} {e : TElem K}
    {row : List (CArg K)} (he : SegElem dc s len u e) (h1 : evalGens c.2 c.1.gens = .ok row) (h2 : rowTarget row = .ok u)
    (h3 : ∀ (par : Nat → K) time rd n, tcall par time rd n c.1.body row = elemDiffC par time rd n u e)
    {rd : Nat → Nat → Res (V K)} {tape : TTape K} (hN : tape.length = N) (hb : n * (dc.length - neq) + (s + len) ≤ N)
    (hb' : n * (dc.length - neq) + (s + len) ≤ 2 ^ 31)
    (hlo : ∀ v < dc.length - neq, ∀ o < n, rd v o = .ok (refG par time neq dc state v o))
    (hcur : ∀ v < s, rd v n = .ok (refG par time neq dc state v n)) :
    ∃ tape', runTCall par time (dc.length - neq) n rd tape c = .ok tape' ∧ tape'.length = N ∧
      THas (dc.length - neq) (refG par time neq dc state) tape' u n ∧
      ∀ u' o', THas (dc.length - neq) (refG par time neq dc state) tape u' o' →
        THas (dc.length - neq) (refG par time neq dc state) tape' u' o' := by
  obtain ⟨h4, h5, h6, h7⟩ := he
  have hok := hdc.elem u e h4 (by omega) (by omega)
  have h8 := (elem_ref (par := par) (time := time) (state := state) (n := n) (rd := rd) hP hdc hfn hsz h4 (by omega) (by omega)
    (fun o ho => hlo u (by omega) o ho) (fun d hd o ho => hlo d (hok.deps d hd) o ho) (fun j hj o ho => by
      have := h7 j hj
      rcases Nat.lt_succ_iff_lt_or_eq.1 ho with ho | rfl
      · exact hlo j (by omega) o ho
      · exact hcur j this)).2
  obtain ⟨tape', h9, h10, h11, h12⟩ := tset_ok (g := refG par time neq dc state) (tape := tape) (nu := dc.length - neq) (u := u)
    (o := n) (by omega) (by omega) (by omega)
  refine ⟨tape', ?_, by omega, h11, h12⟩
  rw [runTCall, h1, Res.bind_ok, h3, h8, Res.bind_ok, callTarget_eq h1, h2, Res.bind_ok, h9]

theorem runSeq_ok {N n s len : Nat} (hs : neq ≤ s) (hl : s + len ≤ dc.length - neq)
    (hb : n * (dc.length - neq) + (s + len) ≤ N) (hb' : n * (dc.length - neq) + (s + len) ≤ 2 ^ 31) (cs : List (Call K)) :
    (∀ c ∈ cs, ∃ u e row, SegElem dc s len u e ∧ evalGens c.2 c.1.gens = .ok row ∧ rowTarget row = .ok u ∧
      ∀ (par : Nat → K) time rd n, tcall par time rd n c.1.body row = elemDiffC par time rd n u e) →
    ∀ tape, Filled (dc.length - neq) (refG par time neq dc state) N n s tape →
    ∃ tape', runSeq par time (dc.length - neq) n cs tape = .ok tape' ∧ tape'.length = N ∧
      (∀ u o, THas (dc.length - neq) (refG par time neq dc state) tape u o →
        THas (dc.length - neq) (refG par time neq dc state) tape' u o) ∧
      ∀ u, .ok u ∈ cs.map callTarget → THas (dc.length - neq) (refG par time neq dc state) tape' u n := by
  induction cs with
  | nil => intro _ tape h; exact ⟨tape, rfl, h.len, fun _ _ h => h, by simp⟩
  | cons c cs ih =>
    intro hc tape h
    obtain ⟨u, e, row, h1, h2, h3, h4⟩ := hc c List.mem_cons_self
    obtain ⟨tape1, h5, h6, h7, h8⟩ := runTCall_ok (par := par) (time := time) (state := state) hP hdc hfn hsz hs hl h1 h2 h3 h4
      (rd := tget tape (dc.length - neq)) h.len hb hb' (fun v hv o ho => (h.lower v hv o ho).get)
      (fun v hv => (h.cur v hv).get)
    obtain ⟨tape2, h9, h10, h11, h12⟩ := ih (fun x hx => hc x (List.mem_cons_of_mem _ hx)) tape1
      ⟨h6, fun v hv o ho => h8 _ _ (h.lower v hv o ho), fun v hv => h8 _ _ (h.cur v hv)⟩
    refine ⟨tape2, by rw [runSeq, h5, Res.bind_ok, h9], h10, fun v o hv => h11 _ _ (h8 _ _ hv), fun v hv => ?_⟩
    rw [List.map_cons] at hv
    rcases List.mem_cons.1 hv with hv | hv
    · rw [callTarget_eq h2, h3] at hv
      injection hv with hv
      subst hv
      exact h11 _ _ h7
    · exact h12 v hv

theorem runParCalls_ok {N n s len : Nat} (hs : neq ≤ s) (hl : s + len ≤ dc.length - neq)
    (hb : n * (dc.length - neq) + (s + len) ≤ N) (hb' : n * (dc.length - neq) + (s + len) ≤ 2 ^ 31) {ws : List Nat}
    (hws : ∀ w ∈ ws, ∃ u, s ≤ u ∧ u < s + len ∧ w = n * (dc.length - neq) + u) (cs : List (Call K)) :
    (∀ c ∈ cs, ∃ u e row, SegElem dc s len u e ∧ evalGens c.2 c.1.gens = .ok row ∧ rowTarget row = .ok u ∧
      ∀ (par : Nat → K) time rd n, tcall par time rd n c.1.body row = elemDiffC par time rd n u e) →
    ∀ tape, Filled (dc.length - neq) (refG par time neq dc state) N n s tape →
    ∃ tape', runParCalls par time (dc.length - neq) n ws cs tape = .ok tape' ∧ tape'.length = N ∧
      (∀ u o, THas (dc.length - neq) (refG par time neq dc state) tape u o →
        THas (dc.length - neq) (refG par time neq dc state) tape' u o) ∧
      ∀ u, .ok u ∈ cs.map callTarget → THas (dc.length - neq) (refG par time neq dc state) tape' u n := by
  induction cs with
  | nil => intro _ tape h; exact ⟨tape, rfl, h.len, fun _ _ h => h, by simp⟩
  | cons c cs ih =>
    intro hc tape h
    obtain ⟨u, e, row, h1, h2, h3, h4⟩ := hc c List.mem_cons_self
    have hget : ∀ v o, THas (dc.length - neq) (refG par time neq dc state) tape v o → o < n ∨ v < s →
        tgetPar ws tape (dc.length - neq) v o = .ok (refG par time neq dc state v o) := by
      intro v o hv hvo
      rw [tgetPar, if_neg, hv.get]
      intro hw
      obtain ⟨u', h5, h6, h7⟩ := hws _ hw
      rw [cell_eq hv.2.1] at h7
      obtain ⟨h8, h9⟩ := cell_inj hv.1 (by omega) h7
      omega
    obtain ⟨tape1, h5, h6, h7, h8⟩ := runTCall_ok (par := par) (time := time) (state := state) hP hdc hfn hsz hs hl h1 h2 h3 h4
      (rd := tgetPar ws tape (dc.length - neq)) h.len hb hb' (fun v hv o ho => hget v o (h.lower v hv o ho) (.inl ho))
      (fun v hv => hget v n (h.cur v hv) (.inr hv))
    obtain ⟨tape2, h9, h10, h11, h12⟩ := ih (fun x hx => hc x (List.mem_cons_of_mem _ hx)) tape1
      ⟨h6, fun v hv o ho => h8 _ _ (h.lower v hv o ho), fun v hv => h8 _ _ (h.cur v hv)⟩
    refine ⟨tape2, by rw [runParCalls, h5, Res.bind_ok, h9], h10, fun v o hv => h11 _ _ (h8 _ _ hv), fun v hv => ?_⟩
    rw [List.map_cons] at hv
    rcases List.mem_cons.1 hv with hv | hv
    · rw [callTarget_eq h2, h3] at hv
      injection hv with hv
      subst hv
      exact h11 _ _ h7
    · exact h12 v hv

omit hP hdc hfn hsz [IsStrictOrderedRing K] [FloorRing K] [FmtName K] [Interp K] [CodeInterp K] [TConst K] in
theorem targets_ok : ∀ (cs : List (Call K)) {us : List Nat}, cs.map callTarget = us.map .ok → targets cs = .ok us
  | [], [], _ => rfl
  | [], _ :: _, h => by cases h
  | _ :: _, [], h => by cases h
  | c :: cs, u :: us, h => by
    rw [List.map_cons, List.map_cons] at h
    injection h with h1 h2
    rw [targets, h1, Res.bind_ok, targets_ok cs h2]
    rfl

omit hP hdc hfn hsz [IsStrictOrderedRing K] [FloorRing K] [FmtName K] [Interp K] [CodeInterp K] [TConst K] [Field K]
  [LinearOrder K] in
theorem eq_map_ok {l : List (Res Nat)} (h : ∀ x ∈ l, ∃ u, x = .ok u) : ∃ us : List Nat, l = us.map .ok := by
  induction l with
  | nil => exact ⟨[], rfl⟩
  | cons x l ih =>
    obtain ⟨us, h1⟩ := ih fun y hy => h y (List.mem_cons_of_mem _ hy)
    obtain ⟨u, rfl⟩ := h x List.mem_cons_self
    exact ⟨u :: us, by rw [h1]; rfl⟩

theorem runTSeg_ok {mode : Mode K} (hm : mode.Fair) {N n s len : Nat} (hs : neq ≤ s) (hl : s + len ≤ dc.length - neq)
    (hb : n * (dc.length - neq) + (s + len) ≤ N) (hb' : n * (dc.length - neq) + (s + len) ≤ 2 ^ 31) {bs : List (Block K)}
    (hbs : SegOk (SegElem dc s len) s len bs) {tape : TTape K}
    (h : Filled (dc.length - neq) (refG par time neq dc state) N n s tape) :
    ∃ tape', runTSeg mode par time (dc.length - neq) n bs tape = .ok tape' ∧
      Filled (dc.length - neq) (refG par time neq dc state) N n (s + len) tape' := by
  -- the calls in any order
  have key : ∀ (cs : List (Call K)), cs.Perm (segCalls bs) →
      ∀ u, s ≤ u → u < s + len → .ok u ∈ cs.map callTarget := by
    intro cs hp u h1 h2
    refine ((hp.map callTarget).trans hbs.targets).mem_iff.2 ?_
    exact List.mem_map.2 ⟨u, List.mem_range'_1.2 ⟨h1, h2⟩, rfl⟩
  have fin : ∀ (tape' : TTape K), tape'.length = N →
      (∀ u o, THas (dc.length - neq) (refG par time neq dc state) tape u o →
        THas (dc.length - neq) (refG par time neq dc state) tape' u o) →
      (∀ u, s ≤ u → u < s + len → THas (dc.length - neq) (refG par time neq dc state) tape' u n) →
      Filled (dc.length - neq) (refG par time neq dc state) N n (s + len) tape' := by
    intro tape' h1 h2 h3
    refine ⟨h1, fun v hv o ho => h2 _ _ (h.lower v hv o ho), fun v hv => ?_⟩
    rcases Nat.lt_or_ge v s with hv' | hv'
    · exact h2 _ _ (h.cur v hv')
    · exact h3 v hv' hv
  cases mode with
  | sequential =>
    obtain ⟨tape', h1, h2, h3, h4⟩ := runSeq_ok (par := par) (time := time) (state := state) hP hdc hfn hsz hs hl hb hb'
      (segCalls bs) hbs.calls tape h
    exact ⟨tape', h1, fin tape' h2 h3 fun u hu hu' => h4 u (key _ (.refl _) u hu hu')⟩
  | parallel sched =>
    have hp := hm n (segCalls bs)
    obtain ⟨us, hus⟩ := eq_map_ok (l := (sched n (segCalls bs)).map callTarget) fun x hx => by
      have := ((hp.map callTarget).trans hbs.targets).mem_iff.1 hx
      obtain ⟨u, -, rfl⟩ := List.mem_map.1 this
      exact ⟨u, rfl⟩
    have hperm : us.Perm (List.range' s len) := by
      have := (hp.map callTarget).trans hbs.targets
      rw [hus] at this
      exact (List.map_perm_map_iff (f := (Res.ok : Nat → Res Nat)) (fun a b h => by injection h)).1 this
    have hmem : ∀ u ∈ us, s ≤ u ∧ u < s + len := fun u hu => List.mem_range'_1.1 (hperm.mem_iff.1 hu)
    have hcell : ∀ u ∈ us, cell (dc.length - neq) u n = n * (dc.length - neq) + u := fun u hu =>
      cell_eq (by have := hmem u hu; omega)
    have hnd : (us.map fun u => cell (dc.length - neq) u n).Nodup := by
      rw [List.nodup_map_iff_inj_on (hperm.nodup_iff.2 (List.nodup_range' (step := 1)))]
      intro a ha b hb he
      rw [hcell a ha, hcell b hb] at he
      omega
    obtain ⟨tape', h1, h2, h3, h4⟩ := runParCalls_ok (par := par) (time := time) (state := state) hP hdc hfn hsz hs hl hb hb'
      (ws := us.map fun u => cell (dc.length - neq) u n) (fun w hw => by
        obtain ⟨u, hu, rfl⟩ := List.mem_map.1 hw
        exact ⟨u, (hmem u hu).1, (hmem u hu).2, hcell u hu⟩) (sched n (segCalls bs))
      (fun c hc => hbs.calls c (hp.mem_iff.1 hc)) tape h
    refine ⟨tape', ?_, fin tape' h2 h3 fun u hu hu' => h4 u (key _ hp u hu hu')⟩
    simp only [runTSeg, runPar]
    rw [targets_ok _ hus, Res.bind_ok, if_pos hnd, h1]

/-! ### Drivers -/

omit hP hdc hfn hsz [IsStrictOrderedRing K] in
/-- The code of consecutive segments, from the variable `s` to the variable `t`. -/
def Chain (neq : Nat) (dc : TDc K) : Nat → List (List (Block K)) → Nat → Prop
  | s, [], t => s = t
  | s, bs :: bss, t => ∃ len, s + len ≤ dc.length - neq ∧ SegOk (SegElem dc s len) s len bs ∧
    Chain neq dc (s + len) bss t

omit hP hdc hfn hsz [IsStrictOrderedRing K] in
theorem Chain.append : ∀ {l l' : List (List (Block K))} {s t w : Nat}, Chain neq dc s l t → Chain neq dc t l' w →
    Chain neq dc s (l ++ l') w
  | [], _, s, t, w, h, h' => by
    have h1 : s = t := h
    rw [h1]
    exact h'
  | b :: l, _, s, t, w, h, h' => by
    obtain ⟨len, h1, h2, h3⟩ := h
    exact ⟨len, h1, h2, h3.append h'⟩

omit hP hdc hfn hsz [IsStrictOrderedRing K] in
theorem Chain.le : ∀ {l : List (List (Block K))} {s t : Nat}, Chain neq dc s l t → s ≤ dc.length - neq →
    s ≤ t ∧ t ≤ dc.length - neq
  | [], s, t, h, hs => by
    have h1 : s = t := h
    omega
  | b :: l, s, t, h, hs => by
    obtain ⟨len, h1, h2, h3⟩ := h
    have := h3.le h1
    omega

theorem runTSegs_ok {mode : Mode K} (hm : mode.Fair) {N n t : Nat} (hb : n * (dc.length - neq) + t ≤ N)
    (hb' : n * (dc.length - neq) + t ≤ 2 ^ 31) (bss : List (List (Block K))) :
    ∀ (s : Nat) (tape : TTape K), neq ≤ s → s ≤ dc.length - neq → Chain neq dc s bss t →
    Filled (dc.length - neq) (refG par time neq dc state) N n s tape →
    ∃ tape', runTSegs mode par time (dc.length - neq) n bss tape = .ok tape' ∧
      Filled (dc.length - neq) (refG par time neq dc state) N n t tape' := by
  induction bss with
  | nil =>
    intro s tape _ _ hc h
    have h1 : s = t := hc
    subst h1
    exact ⟨tape, rfl, h⟩
  | cons bs bss ih =>
    intro s tape hs hs' hc h
    obtain ⟨len, h1, h2, h3⟩ := hc
    have hle := h3.le h1
    obtain ⟨tape1, h4, h5⟩ := runTSeg_ok (par := par) (time := time) (state := state) hP hdc hfn hsz hm hs h1 (by omega)
      (by omega) h2 h
    obtain ⟨tape2, h6, h7⟩ := ih (s + len) tape1 (by omega) h1 h3 h5
    exact ⟨tape2, by rw [runTSegs, h4, Res.bind_ok, h6], h7⟩

omit hP hdc hfn hsz [IsStrictOrderedRing K] in
theorem runTSegs_append {mode : Mode K} {n : Nat} : ∀ (l l' : List (List (Block K))) (tape : TTape K),
    runTSegs mode par time nu n (l ++ l') tape =
      (runTSegs mode par time nu n l tape).bind fun t => runTSegs mode par time nu n l' t
  | [], _, _ => rfl
  | b :: l, l', tape => by
    rw [List.cons_append, runTSegs, runTSegs]
    cases runTSeg mode par time nu n b tape with
    | ok t => rw [Res.bind_ok, Res.bind_ok, runTSegs_append l l']
    | throw => rfl
    | ub => rfl

omit hP hdc hfn hsz [IsStrictOrderedRing K] in
theorem runDrivers_eq {mode : Mode K} {n : Nat} : ∀ (ds : List (List (List (Block K)))) (tape : TTape K),
    runDrivers mode par time nu n ds tape = runTSegs mode par time nu n ds.flatten tape
  | [], _ => rfl
  | d :: ds, tape => by
    rw [runDrivers, List.flatten_cons, runTSegs_append]
    congr 1
    funext t
    exact runDrivers_eq ds t

end

/-! ### The generation of the drivers -/

/-- What holds when the variables before `s` have been compiled. -/
structure DInv (L : Fn K → Prop) (neq : Nat) (dc : TDc K) (maxSvf s : Nat) (st : DState K) : Prop where
  chain : Chain neq dc neq st.drivers.flatten s
  tbl : TTbl L (dc.length - neq) st.tbl
  none : st.svf = none → neq ≤ maxSvf → s ≤ maxSvf
  some : ∀ i, st.svf = some i → maxSvf < s ∧ i < st.done.length ∧
    ∃ t, maxSvf < t ∧ Chain neq dc neq (st.done.take (i + 1)).flatten t

/-- The same, right after the start of the driver of a segment. -/
theorem DState.next_drivers (st : DState K) : st.next.drivers.flatten = st.drivers.flatten := by
  simp [DState.next, DState.drivers]

theorem DInv.next {maxSvf s : Nat} {st : DState K} (h : DInv L neq dc maxSvf s st) : DInv L neq dc maxSvf s st.next := by
  refine ⟨by rw [st.next_drivers]; exact h.chain, by simp [DState.next, TTbl], h.none, fun i hi => ?_⟩
  obtain ⟨h1, h2, h3⟩ := h.some i hi
  refine ⟨h1, by simp [DState.next]; omega, ?_⟩
  obtain ⟨t, h4, h5⟩ := h3
  refine ⟨t, h4, ?_⟩
  simp only [DState.next]
  rw [List.take_append_of_le_length (by omega)]
  exact h5

theorem tcompile_ok (hN : CNameSound L) (hneq : neq ≠ 0) (hdc : SSysOk L neq dc svf) (hfn : FnMid neq dc) (hsz : dc.length ≤ 2 ^ 32)
    {maxSvf : Nat} (segs : List (List (TElem K))) :
    ∀ (s : Nat) (st : DState K), neq ≤ s → s + segs.flatten.length = dc.length - neq →
    SegsOk (fun p => flatIdxs p.1) s segs →
    (∀ (k : Nat) (e : TElem K), segs.flatten[k]? = .some e → dc[s + k]? = .some e) → DInv L neq dc maxSvf s st →
    ∃ st', tcompile (dc.length - neq) neq maxSvf st s segs = .ok st' ∧ DInv L neq dc maxSvf (dc.length - neq) st' := by
  induction segs with
  | nil =>
    intro s st _ hs _ _ h
    simp only [List.flatten_nil, List.length_nil, Nat.add_zero] at hs
    subst hs
    exact ⟨st, rfl, h⟩
  | cons seg segs ih =>
    intro s st hs hlen hseg hel h
    rw [List.flatten_cons, List.length_append] at hlen
    obtain ⟨hne, hidx, hrest⟩ := hseg
    have hpos : 0 < seg.length := List.length_pos_iff.2 hne
    have hget : ∀ (k : Nat) (e : TElem K), seg[k]? = .some e → dc[s + k]? = .some e := fun k e hk => by
      refine hel k e ?_
      rw [List.flatten_cons, List.getElem?_append_left (List.getElem?_eq_some_iff.1 hk).1]
      exact hk
    -- the elements of the segment
    have hE : ∀ u e, SegElem dc s seg.length u e → CElem L u e := by
      intro u e ⟨h1, h2, h3, h4⟩
      have hok := hdc.elem u e h1 (by omega) (by omega)
      obtain ⟨f, es, hfe⟩ := hfn u e h1 (by omega) (by omega)
      refine ⟨by omega, fun d hd => by have := hok.deps d hd; omega, f, es, hfe, ?_⟩
      rcases hok.ok with ⟨f', es', h5, h6, h7, h8⟩ | ⟨m, hm⟩
      · rw [hfe] at h5
        injection h5 with h5 h5'
        subst h5 h5'
        exact ⟨h7, h8, fun a ha => (h6 a ha).ok.mono (by omega), fun k hk => h6 _ hk⟩
      · rw [hfe] at hm
        cases hm
    have hsegE : ∀ (k : Nat) (e : TElem K), seg[k]? = .some e → SegElem dc s seg.length (s + k) e := by
      intro k e hk
      have hkl := (List.getElem?_eq_some_iff.1 hk).1
      refine ⟨hget k e hk, by omega, by omega, fun j hj => ?_⟩
      obtain ⟨f, es, hfe, hmem⟩ := hj
      obtain ⟨is, h1, h2⟩ := hidx e (List.mem_of_getElem? hk)
      have hok := hdc.elem (s + k) e (hget k e hk) (by omega) (by omega)
      rcases hok.ok with ⟨f', es', h5, h6, -⟩ | ⟨m, hm⟩
      · rw [hfe] at h5
        injection h5 with h5 h5'
        subst h5 h5'
        obtain ⟨is', h7, h8⟩ := argIdxs_ok (i := s + k) (by omega) es fun a ha => (h6 a ha).ok
        simp only [hfe, flatIdxs] at h1
        rw [h7] at h1
        injection h1 with h1
        subst h1
        exact h2 j ((h8 j).2 hmem)
      · rw [hfe] at hm
        cases hm
    -- the driver
    obtain ⟨st1, h1, h2⟩ : ∃ st1, st.enter (isSvfSeg neq maxSvf s seg.length) = .ok st1 ∧
        Chain neq dc neq st1.drivers.flatten s ∧ TTbl L (dc.length - neq) st1.tbl ∧
        (if isSvfSeg neq maxSvf s seg.length then st1.svf = .some st1.done.length
         else DInv L neq dc maxSvf s st1) := by
      cases hi : isSvfSeg neq maxSvf s seg.length with
      | false =>
        simp only [DState.enter, Bool.false_eq_true, if_false]
        refine ⟨_, rfl, ?_⟩
        split
        · exact ⟨h.next.chain, h.next.tbl, h.next⟩
        · exact ⟨h.chain, h.tbl, h⟩
      | true =>
        simp only [isSvfSeg, Bool.and_eq_true, decide_eq_true_eq] at hi
        have hnone : st.svf = .none := by
          cases hsv : st.svf with
          | none => rfl
          | some i => have := (h.some i hsv).1; omega
        simp only [DState.enter, if_true, hnone, Option.isSome_none, Bool.false_eq_true, if_false]
        refine ⟨_, rfl, ?_, ?_, ?_⟩
        · have := h.next.chain
          simpa [DState.drivers] using this
        · simp [DState.next, TTbl]
        · simp [DState.next]
    obtain ⟨h2, h3, h4⟩ := h2
    obtain ⟨tbl', gs, bs, h5, h6, h7, h8⟩ := segment_code (nu := dc.length - neq) hN hE h3 (by omega) hsegE
    have hrest' : ∀ (k : Nat) (e : TElem K), segs.flatten[k]? = .some e → dc[s + seg.length + k]? = .some e := fun k e hk => by
      have := hel (seg.length + k) e (by
        rw [List.flatten_cons, List.getElem?_append_right (by omega), Nat.add_sub_cancel_left]
        exact hk)
      rwa [← Nat.add_assoc] at this
    have hone : Chain neq dc s [bs] (s + seg.length) := ⟨seg.length, by omega, h8, rfl⟩
    have hchain : Chain neq dc neq (st1.drivers.flatten ++ [bs]) (s + seg.length) := h2.append hone
    obtain ⟨st', h9, h10⟩ := ih (s + seg.length)
      (if isSvfSeg neq maxSvf s seg.length then
        DState.next { st1 with tbl := tbl', cur := st1.cur ++ [bs], nEvalf := st1.nEvalf + (bs.map Block.ncalls).sum }
       else { st1 with tbl := tbl', cur := st1.cur ++ [bs], nEvalf := st1.nEvalf + (bs.map Block.ncalls).sum })
      (by omega) (by omega) hrest hrest' (by
        cases hi : isSvfSeg neq maxSvf s seg.length with
        | false =>
          rw [hi] at h4
          simp only [Bool.false_eq_true, if_false] at h4 ⊢
          refine ⟨by simpa [DState.drivers] using hchain, h7, fun hn hx => ?_, fun i hx => ?_⟩
          · have h11 := h4.none hn hx
            have : ¬ (neq ≤ maxSvf ∧ s ≤ maxSvf ∧ maxSvf < s + seg.length) := by
              intro ⟨ha, hb, hc⟩
              simp [isSvfSeg, ha, hb, hc] at hi
            omega
          · obtain ⟨h11, h12, h13⟩ := h4.some i hx
            exact ⟨by omega, h12, h13⟩
        | true =>
          rw [hi] at h4
          simp only [if_true] at h4 ⊢
          simp only [isSvfSeg, Bool.and_eq_true, decide_eq_true_eq] at hi
          refine ⟨?_, by simp [DState.next, TTbl], fun hn => ?_, fun i hx => ?_⟩
          · rw [DState.next_drivers]
            simpa [DState.drivers] using hchain
          · simp only [DState.next] at hn
            rw [h4] at hn
            cases hn
          · simp only [DState.next] at hx ⊢
            rw [h4] at hx
            injection hx with hx
            subst hx
            refine ⟨by omega, by simp, s + seg.length, by omega, ?_⟩
            rw [List.take_of_length_le (by simp)]
            simpa [DState.drivers] using hchain)
    refine ⟨st', ?_, h10⟩
    rw [tcompile, h1, Res.bind_eq, Res.bind_ok, h5, Res.bind_eq, Res.bind_ok, h6, Res.bind_eq, Res.bind_ok]
    exact h9

end Heyoka.Taylor
