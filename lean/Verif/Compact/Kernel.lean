import Verif.Compact.Run

/-!
# The generated function in compact mode
-/

set_option linter.unusedSectionVars false

namespace Heyoka.Sym

variable {K : Type}

/-! ### Segments -/

theorem argIdxs_ok {i : Nat} (hi : i ≤ 2 ^ 32) (l : List (Expr K)) (h : ∀ a ∈ l, ArgOk i a) :
    ∃ is, argIdxs l = .ok is ∧ ∀ j, j ∈ is ↔ .var (uname j) ∈ l := by
  induction l with
  | nil => exact ⟨[], rfl, by simp⟩
  | cons a l ih =>
    obtain ⟨is, h1, h2⟩ := ih fun x hx => h x (List.mem_cons_of_mem _ hx)
    have h0 := h a List.mem_cons_self
    cases a with
    | var s =>
      obtain ⟨k, hk, rfl⟩ := h0.var_of
      refine ⟨k :: is, ?_, fun j => ?_⟩
      · rw [argIdxs, unameToIndex_uname, if_pos (by omega), Res.bind_ok, h1]
        rfl
      · rw [List.mem_cons, List.mem_cons, h2, Expr.var.injEq, uname_eq_iff]
    | num n => exact ⟨is, by rw [argIdxs, h1], fun j => by rw [h2]; simp⟩
    | par n => exact ⟨is, by rw [argIdxs, h1], fun j => by rw [h2]; simp⟩
    | fn f as => exact h0.elim

theorem udefIdxs_ok {i : Nat} (hi : i ≤ 2 ^ 32) {e : Expr K} (hf : e.isFn = true) (h : ∀ a ∈ e.leaves, ArgOk i a) :
    ∃ is, udefIdxs e = .ok is ∧ ∀ j, j ∈ is ↔ .var (uname j) ∈ e.leaves := by
  cases e with
  | fn f as => exact argIdxs_ok hi _ h
  | _ => simp [Expr.isFn] at hf

theorem segElems_of {Q : Nat → Nat → Expr K → Prop} {F : Nat → Expr K → Prop}
    (hQ : ∀ s u e is, udefIdxs e = .ok is → (∀ j ∈ is, j < s) → F u e → Q s u e) :
    ∀ (segs : List (List (Expr K))) (start : Nat), SegsOk udefIdxs start segs →
    (∀ (p : Nat) (e : Expr K), segs.flatten[p]? = some e → F (start + p) e) → SegElems Q start segs
  | [], _, _, _ => trivial
  | seg :: segs, start, ⟨_, h2, h3⟩, hF => by
    refine ⟨fun k e hk => ?_, segElems_of hQ segs _ h3 fun p e hp => ?_⟩
    · obtain ⟨is, h4, h5⟩ := h2 e (List.mem_of_getElem? hk)
      refine hQ _ _ e is h4 h5 (hF k e ?_)
      rw [List.flatten_cons, List.getElem?_append_left (List.getElem?_eq_some_iff.1 hk).1]
      exact hk
    · rw [Nat.add_assoc]
      refine hF (seg.length + p) e ?_
      rw [List.flatten_cons, List.getElem?_append_right (by omega), Nat.add_sub_cancel_left]
      exact hp

section
variable [Field K] [LinearOrder K] [FloorRing K] [Interp K] [CodeInterp K] [FmtName K]
variable {P : Fn K → Prop} {T : Prop} {R : Nat → Prop}

theorem treeDc_segments {nvars : Nat} {mid outs : List (Expr K)} (h : TreeDc P T R nvars mid outs)
    (hn : nvars + mid.length ≤ 2 ^ 32) :
    ∃ segs, segmentDc nvars mid = .ok segs ∧ segs.flatten = mid ∧ SegsOk udefIdxs nvars segs := by
  refine segmentDc_ok fun k e hk => ?_
  have hkl := (List.getElem?_eq_some_iff.1 hk).1
  obtain ⟨is, h1, h2⟩ := udefIdxs_ok (i := nvars + k) (by omega) (h.fn e (List.mem_of_getElem? hk)) (h.leaf k e hk)
  refine ⟨is, h1, fun j hj => ?_⟩
  obtain ⟨k', h3, h4⟩ := (h.leaf k e hk _ ((h2 j).1 hj)).var_of
  rw [uname_inj h4]
  exact h3

/-! ### Inputs -/

theorem copyIns_ok {b stride n nvars : Nat} {inp : Ptr K} {val : Nat → String → Option K} {x : Nat → Nat → K}
    (hn : nvars ≤ n) (hx : ∀ j, j < nvars → ∀ l, l < b → inp.load (stride * j + l) = .ok (x j l))
    (hv : ∀ j, j < nvars → ∀ l, l < b → val l (uname j) = some (x j l)) (k : Nat) : ∀ (i : Nat) (tape : Tape K),
    i + k = nvars → tape.length = n → (∀ j, j < i → Has b val tape j) →
    ∃ tape', copyIns b stride inp i k tape = .ok tape' ∧ tape'.length = n ∧ ∀ j, j < nvars → Has b val tape' j := by
  induction k with
  | zero =>
    intro i tape hi hl hh
    exact ⟨tape, rfl, hl, fun j hj => hh j (by omega)⟩
  | succ k ih =>
    intro i tape hi hl hh
    obtain ⟨vec, h1, h2⟩ := loadVec_ok b (stride * i) (fun l => x i l) (p := inp) (hx i (by omega))
    have hvec : vec = uvec b val i := by
      rw [h2.eq_map, uvec]
      exact List.map_congr_left fun l hl => (hv i (by omega) l (List.mem_range.1 hl)).symm
    have hil : i < tape.length := by omega
    obtain ⟨tape', h3, h4, h5⟩ := ih (i + 1) (tape.set i (some (uvec b val i))) (by omega) (by simpa using hl)
      fun j hj => Has.set hil (by
        rcases Nat.lt_or_ge j i with h | h
        · exact .inl (hh j h)
        · exact .inr (by omega))
    exact ⟨tape', by rw [copyIns, h1, Res.bind_ok, tapeSet, if_pos hil, Res.bind_ok, hvec, h3], h4, h5⟩

/-! ### Outputs -/

/-- The stores of a vector. -/
def vecW (b a : Nat) (x : Nat → Option K) : List (Write K) := (List.range b).map fun l => (a + l, x l)

/-- The tables of the outputs, given the values. -/
structure TablesOk (i : Nat) (outs : List (Expr K)) (t : OutTables K) : Prop where
  len : t.vars.length ≤ outs.length
  vars : ∀ p ∈ t.vars, .var (uname p.2) ∈ outs
  pars : ∀ p ∈ t.pars, .par p.2 ∈ outs
  all : t.vars.length = outs.length → ∀ (k : Nat) p, t.vars[k]? = some p → p.1 = i + k
  writes : ∀ (b stride o : Nat) (v : Nat → Env K) (val : Nat → String → Option K),
    (t.vars.flatMap (fun p => vecW b (o + stride * p.1) fun l => val l (uname p.2)) ++
      (t.nums.flatMap (fun p => vecW b (o + stride * p.1) fun _ => p.2.toK?) ++
        t.pars.flatMap fun p => vecW b (o + stride * p.1) fun l => some ((v l).par p.2))).Perm
      (outWrites b stride o i (outs.map fun a l => argV (v l) (val l) a))

theorem outTables_ok {n : Nat} (hn : n ≤ 2 ^ 32) (outs : List (Expr K)) : ∀ i, (∀ a ∈ outs, ArgOk n a) →
    ∃ t, outTables i outs = .ok t ∧ TablesOk i outs t := by
  induction outs with
  | nil => intro i _; exact ⟨_, rfl, by simp, by simp, by simp, by simp, fun _ _ _ _ _ => .refl _⟩
  | cons a outs ih =>
    intro i ha
    obtain ⟨t, h1, h2⟩ := ih (i + 1) fun x hx => ha x (List.mem_cons_of_mem _ hx)
    have h0 := ha a List.mem_cons_self
    cases a with
    | var s =>
      obtain ⟨u, hu, rfl⟩ := h0.var_of
      refine ⟨⟨(i, u) :: t.vars, t.nums, t.pars⟩, ?_, ?_, ?_, ?_, ?_, ?_⟩
      · rw [outTables, unameToIndex_uname, if_pos (by omega), Res.bind_ok, h1]
        rfl
      · have := h2.len
        simp only [List.length_cons]
        omega
      · intro p hp
        rcases List.mem_cons.1 hp with rfl | hp
        · exact List.mem_cons_self
        · exact List.mem_cons_of_mem _ (h2.vars p hp)
      · exact fun p hp => List.mem_cons_of_mem _ (h2.pars p hp)
      · intro hl k p hk
        cases k with
        | zero =>
          simp only [List.getElem?_cons_zero, Option.some.injEq] at hk
          rw [← hk, Nat.add_zero]
        | succ k =>
          have := h2.all (by simpa using hl) k p (by simpa using hk)
          omega
      · intro b stride o v val
        simp only [List.flatMap_cons, List.map_cons, outWrites, List.append_assoc]
        exact List.Perm.append_left _ (h2.writes b stride o v val)
    | num m =>
      refine ⟨⟨t.vars, (i, m) :: t.nums, t.pars⟩, ?_, ?_, ?_, ?_, ?_, ?_⟩
      · rw [outTables, h1]
        rfl
      · have := h2.len
        simp only [List.length_cons]
        omega
      · exact fun p hp => List.mem_cons_of_mem _ (h2.vars p hp)
      · exact fun p hp => List.mem_cons_of_mem _ (h2.pars p hp)
      · intro hl
        have := h2.len
        simp only [List.length_cons] at hl
        omega
      · intro b stride o v val
        simp only [List.flatMap_cons, List.map_cons, outWrites, List.append_assoc]
        refine List.Perm.trans ?_ (List.Perm.append_left _ (h2.writes b stride o v val))
        simp only [← List.append_assoc]
        refine List.Perm.append_right _ (List.Perm.append_right _ ?_)
        exact List.perm_append_comm
    | par m =>
      refine ⟨⟨t.vars, t.nums, (i, m) :: t.pars⟩, ?_, ?_, ?_, ?_, ?_, ?_⟩
      · rw [outTables, h1]
        rfl
      · have := h2.len
        simp only [List.length_cons]
        omega
      · exact fun p hp => List.mem_cons_of_mem _ (h2.vars p hp)
      · intro p hp
        rcases List.mem_cons.1 hp with rfl | hp
        · exact List.mem_cons_self
        · exact List.mem_cons_of_mem _ (h2.pars p hp)
      · intro hl
        have := h2.len
        simp only [List.length_cons] at hl
        omega
      · intro b stride o v val
        simp only [List.flatMap_cons, List.map_cons, outWrites, List.append_assoc]
        refine List.Perm.trans ?_ (List.Perm.append_left _ (h2.writes b stride o v val))
        simp only [← List.append_assoc]
        refine List.Perm.append_right _ (List.perm_append_comm.trans ?_)
        rw [List.append_assoc]
        exact .refl _
    | fn f as => exact h0.elim

theorem writeVars_ok {b stride o : Nat} {val : Nat → String → Option K} {tape : Tape K} {all : Bool} :
    ∀ (l : List (Nat × Nat)) (k : Nat), (∀ p ∈ l, Has b val tape p.2) →
    (all = true → ∀ (q : Nat) p, l[q]? = some p → p.1 = k + q) →
    writeVars stride o all tape k l = .ok (l.flatMap fun p => vecW b (o + stride * p.1) fun l => val l (uname p.2))
  | [], _, _, _ => rfl
  | (i, u) :: l, k, hh, ha => by
    have h1 := writeVars_ok l (k + 1) (fun p hp => hh p (List.mem_cons_of_mem _ hp)) (fun h q p hq => by
      have := ha h (q + 1) p (by simpa using hq)
      omega) (stride := stride) (o := o)
    have h2 : tapeGet tape u = .ok (uvec b val u) := by
      have := hh (i, u) List.mem_cons_self
      unfold Has at this
      rw [tapeGet, this]
    have h3 : (if all = true then k else i) = i := by
      split_ifs with h
      · exact (ha h 0 (i, u) rfl).symm
      · rfl
    rw [writeVars, h2, Res.bind_ok, h1, Res.bind_ok, h3, storeVec_eq _ (uvec_isVec u)]
    rfl

theorem writeNums_ok {b stride o : Nat} (l : List (Nat × Num K)) :
    writeNums b stride o l = l.flatMap fun p => vecW b (o + stride * p.1) fun _ => p.2.toK? := by
  induction l with
  | nil => rfl
  | cons p l ih =>
    obtain ⟨i, n⟩ := p
    rw [writeNums, ih, storeVec_eq _ (isVec_replicate _)]
    rfl

theorem writePars_ok {b stride o : Nat} {parp : Ptr K} {vs : Nat → Env K} (hp : ParsOk b stride parp vs R) :
    ∀ (l : List (Nat × Nat)), (∀ p ∈ l, R p.2) →
    writePars b stride o parp l = .ok (l.flatMap fun p => vecW b (o + stride * p.1) fun l => some ((vs l).par p.2))
  | [], _ => rfl
  | (i, k) :: l, h => by
    obtain ⟨vec, h1, h2⟩ := loadVec_ok b (stride * k) (fun l => (vs l).par k) (p := parp)
      (hp k (h (i, k) List.mem_cons_self))
    rw [writePars, h1, Res.bind_ok, writePars_ok hp l fun p hq => h p (List.mem_cons_of_mem _ hq), Res.bind_ok,
      storeVec_eq _ h2]
    rfl

/-! ### The function -/

theorem dcMid_append {nvars nouts : Nat} {ins mid outs : List (Expr K)} (hi : ins.length = nvars) (ho : outs.length = nouts) :
    dcMid nvars nouts (ins ++ (mid ++ outs)) = mid ∧ dcOuts nouts (ins ++ (mid ++ outs)) = outs := by
  constructor
  · rw [dcMid, List.drop_append_of_le_length (by omega), List.drop_eq_nil_of_le (by omega), List.nil_append,
      List.take_append_of_le_length (by simp; omega)]
    exact List.take_of_length_le (by simp; omega)
  · rw [dcOuts, ← List.append_assoc, List.drop_append_of_le_length (by simp; omega)]
    rw [List.drop_eq_nil_of_le (by simp; omega), List.nil_append]

/-- The generation of the code succeeds, and the generated function stores the values of the outputs. -/
theorem compile_ok (hP : LlvmSound P) (hcode : CodeSound P) (hR : ∀ k, R k → k < 2 ^ 32) {nvars nouts : Nat}
    {ins mid outs : List (Expr K)} (hi : ins.length = nvars) (ho : outs.length = nouts)
    (hn : nvars + mid.length < 2 ^ 32) (h : TreeDc P T R nvars mid outs) :
    ∃ pr, compile nvars nouts (ins ++ (mid ++ outs)) = .ok pr ∧
      ∀ (b stride o : Nat) (inp parp timep : Ptr K) (vs : Nat → Env K) (val : Nat → String → Option K) (x : Nat → Nat → K),
        (∀ j, j < nvars → ∀ l, l < b → inp.load (stride * j + l) = .ok (x j l)) →
        (∀ j, j < nvars → ∀ l, l < b → (vs l).var (uname j) = x j l) →
        ParsOk b stride parp vs R → TimeOk b timep vs T → (∀ l, l < b → TreeSat (vs l) nvars mid (val l)) →
        ∃ ws, ckernel b stride pr o inp parp timep = .ok ws ∧
          ws.Perm (outWrites b stride o 0 (outs.map fun a l => argV (vs l) (val l) a)) := by
  obtain ⟨hm1, hm2⟩ := dcMid_append (mid := mid) hi ho
  obtain ⟨segs, s1, s2, s3⟩ := treeDc_segments h (by omega)
  obtain ⟨t, t1, t2⟩ := outTables_ok (n := nvars + mid.length) (by omega) outs 0 h.outArgs
  have hse : SegElems (fun s _ e => e.isFn = true ∧ e.TreeOk P T ∧ (∀ a ∈ e.leaves, ArgOk s a) ∧
      ∀ k, .par k ∈ e.leaves → R k) nvars segs := by
    refine segElems_of (F := fun u e => u ≤ 2 ^ 32 ∧ e.isFn = true ∧ e.TreeOk P T ∧ (∀ a ∈ e.leaves, ArgOk u a) ∧
      ∀ k, .par k ∈ e.leaves → R k) ?_ segs nvars s3 ?_
    · rintro s u e is h1 h2 ⟨h0, h3, h4, h5, h6⟩
      refine ⟨h3, h4, fun a ha => ?_, h6⟩
      obtain ⟨is', h7, h8⟩ := udefIdxs_ok h0 h3 h5
      rw [h1] at h7
      injection h7 with h7
      subst h7
      have h9 := h5 a ha
      cases a with
      | var s' =>
        obtain ⟨j, hj, rfl⟩ := h9.var_of
        exact ⟨j, h2 j ((h8 j).2 ha), rfl⟩
      | fn f as => exact h9.elim
      | num n => trivial
      | par n => trivial
    · intro p e hp
      rw [s2] at hp
      have hm := List.mem_of_getElem? hp
      have hpl := (List.getElem?_eq_some_iff.1 hp).1
      exact ⟨by omega, h.fn e hm, h.tree e hm, h.leaf p e hp, h.pars e hm⟩
  obtain ⟨bs, c1, c2⟩ := compileSegs_ok hP hR (n := nvars + mid.length) hn segs [] 0 nvars (fun p hp => by cases hp)
    (by rw [s2]) hse
  refine ⟨⟨nvars, (ins ++ (mid ++ outs)).length - nouts, bs, t, decide (t.vars.length = nouts)⟩, ?_, ?_⟩
  · rw [compile, if_neg (by simp; omega), hm1, hm2, s1, Res.bind_ok, t1, Res.bind_ok, c1]
    rfl
  · intro b stride o inp parp timep vs val x hx hxv hp ht hsat
    have hnu : (ins ++ (mid ++ outs)).length - nouts = nvars + mid.length := by simp; omega
    obtain ⟨tape, p1, p2, p3⟩ := copyIns_ok (val := val) (n := nvars + mid.length) (nvars := nvars) (by omega) hx (fun j hj l hl => by
      rw [(hsat l hl).ins j hj, hxv j hj l hl]) nvars 0 (List.replicate (nvars + mid.length) none) (by omega) (by simp) (by simp)
    obtain ⟨tape', q1, q2, q3⟩ := c2 b stride parp timep vs val hcode hp ht (by
      refine segElems_of (F := fun u e => ∀ l, l < b → treeVal (vs l) (argV (vs l) (val l)) e = val l (uname u))
        (fun _ _ _ _ _ _ h => h) segs nvars s3 fun p e hp l hl => ?_
      rw [s2] at hp
      exact (hsat l hl).elem p e hp) tape p2 p3
    rw [s2] at q3
    refine ⟨_, ?_, t2.writes b stride o vs val⟩
    rw [ckernel]
    simp only [hnu]
    rw [p1, Res.bind_ok, q1, Res.bind_ok,
      writeVars_ok (val := val) (b := b) t.vars 0 (fun p hq => ?_) (fun ha => ?_), Res.bind_ok, writePars_ok hp t.pars
      (fun p hq => h.outPars _ (t2.pars p hq)), Res.bind_ok, writeNums_ok]
    · obtain ⟨j, hj, hju⟩ := (h.outArgs _ (t2.vars p hq)).var_of
      rw [uname_inj hju]
      exact q3 j hj
    · rw [decide_eq_true_eq] at ha
      exact t2.all (by omega)

end

end Heyoka.Sym
