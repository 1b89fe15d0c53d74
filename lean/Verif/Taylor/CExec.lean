import Verif.Taylor.CRun

/-!
# The jet of the compact mode is that of the default mode
-/

set_option linter.unusedSectionVars false
set_option linter.unusedSimpArgs false
set_option linter.unusedVariables false

namespace Heyoka.Taylor

open Heyoka.Sym

variable {K : Type} [Field K] [LinearOrder K] [FloorRing K] [FmtName K] [Interp K] [CodeInterp K] [TConst K]
variable [IsStrictOrderedRing K]
variable {par : Nat → K} {time : K} {neq : Nat} {dc : TDc K} {state : List K} {L : Fn K → Prop} {svf : List Nat}

/-! ### The tables of the derivatives of the state variables -/

/-- The tables list the outputs from `i` on, each once. -/
structure TablesIn (i : Nat) (outs : List (Expr K)) (t : OutTables K) : Prop where
  vars : ∀ p ∈ t.vars, i ≤ p.1 ∧ outs[p.1 - i]? = some (.var (uname p.2))
  nums : ∀ p ∈ t.nums, i ≤ p.1 ∧ outs[p.1 - i]? = some (.num p.2)
  pars : ∀ p ∈ t.pars, i ≤ p.1 ∧ outs[p.1 - i]? = some (.par p.2)
  cover : ∀ k < outs.length, (∃ u, (i + k, u) ∈ t.vars) ∨ (∃ n, (i + k, n) ∈ t.nums) ∨ ∃ j, (i + k, j) ∈ t.pars

omit [Field K] [LinearOrder K] [FloorRing K] [FmtName K] [Interp K] [CodeInterp K] [TConst K] [IsStrictOrderedRing K] in
theorem cons_shift {i k : Nat} {a x : Expr K} {outs : List (Expr K)} (h : i + 1 ≤ k ∧ outs[k - (i + 1)]? = some x) :
    i ≤ k ∧ (a :: outs)[k - i]? = some x := by
  refine ⟨by omega, ?_⟩
  rw [show k - i = (k - (i + 1)) + 1 by omega, List.getElem?_cons_succ]
  exact h.2

theorem tablesIn_ok {n : Nat} (hn : n ≤ 2 ^ 32) (outs : List (Expr K)) : ∀ i t, (∀ a ∈ outs, ArgOk n a) →
    outTables i outs = .ok t → TablesIn i outs t := by
  induction outs with
  | nil =>
    intro i t _ h
    injection h with h
    subst h
    exact ⟨by simp, by simp, by simp, by simp⟩
  | cons a outs ih =>
    intro i t ha h
    have h0 := ha a List.mem_cons_self
    obtain ⟨t', h1, -⟩ := outTables_ok hn outs (i + 1) fun x hx => ha x (List.mem_cons_of_mem _ hx)
    have h2 := ih (i + 1) t' (fun x hx => ha x (List.mem_cons_of_mem _ hx)) h1
    have hcov : ∀ k < (a :: outs).length, k ≠ 0 → (∃ u, (i + k, u) ∈ t'.vars) ∨ (∃ n, (i + k, n) ∈ t'.nums) ∨
        ∃ j, (i + k, j) ∈ t'.pars := by
      intro k hk hk0
      have := h2.cover (k - 1) (by simp at hk; omega)
      rwa [show i + 1 + (k - 1) = i + k by omega] at this
    cases a with
    | var s =>
      obtain ⟨u, hu, rfl⟩ := h0.var_of
      rw [outTables, unameToIndex_uname, if_pos (by omega), Res.bind_ok, h1, Res.bind_ok] at h
      injection h with h
      subst h
      refine ⟨fun p hp => ?_, fun p hp => cons_shift (h2.nums p hp), fun p hp => cons_shift (h2.pars p hp), fun k hk => ?_⟩
      · rcases List.mem_cons.1 hp with rfl | hp
        · exact ⟨le_refl _, by simp⟩
        · exact cons_shift (h2.vars p hp)
      · by_cases hk0 : k = 0
        · subst hk0
          exact .inl ⟨u, List.mem_cons_self⟩
        · rcases hcov k hk hk0 with ⟨v, hv⟩ | h | h
          · exact .inl ⟨v, List.mem_cons_of_mem _ hv⟩
          · exact .inr (.inl h)
          · exact .inr (.inr h)
    | num m =>
      rw [outTables, h1, Res.bind_ok] at h
      injection h with h
      subst h
      refine ⟨fun p hp => cons_shift (h2.vars p hp), fun p hp => ?_, fun p hp => cons_shift (h2.pars p hp), fun k hk => ?_⟩
      · rcases List.mem_cons.1 hp with rfl | hp
        · exact ⟨le_refl _, by simp⟩
        · exact cons_shift (h2.nums p hp)
      · by_cases hk0 : k = 0
        · subst hk0
          exact .inr (.inl ⟨m, List.mem_cons_self⟩)
        · rcases hcov k hk hk0 with h | ⟨v, hv⟩ | h
          · exact .inl h
          · exact .inr (.inl ⟨v, List.mem_cons_of_mem _ hv⟩)
          · exact .inr (.inr h)
    | par m =>
      rw [outTables, h1, Res.bind_ok] at h
      injection h with h
      subst h
      refine ⟨fun p hp => cons_shift (h2.vars p hp), fun p hp => cons_shift (h2.nums p hp), fun p hp => ?_, fun k hk => ?_⟩
      · rcases List.mem_cons.1 hp with rfl | hp
        · exact ⟨le_refl _, by simp⟩
        · exact cons_shift (h2.pars p hp)
      · by_cases hk0 : k = 0
        · subst hk0
          exact .inr (.inr ⟨m, List.mem_cons_self⟩)
        · rcases hcov k hk hk0 with h | h | ⟨v, hv⟩
          · exact .inl h
          · exact .inr (.inl h)
          · exact .inr (.inr ⟨v, List.mem_cons_of_mem _ hv⟩)
    | fn f es => cases h

/-! ### The derivatives of the state variables -/

section
variable {nu : Nat} {g : Nat → Nat → V K}

/-- What a loop writing derivatives does to the tape. -/
def Grown (nu : Nat) (g : Nat → Nat → V K) (n : Nat) (is : List Nat) (tape tape' : TTape K) : Prop :=
  tape'.length = tape.length ∧ (∀ u o, THas nu g tape u o → THas nu g tape' u o) ∧ ∀ i ∈ is, THas nu g tape' i n

theorem svCsts_ok {n : Nat} (l : List (Nat × V K)) : ∀ tape : TTape K,
    (∀ p ∈ l, p.1 < nu ∧ n * nu + p.1 < 2 ^ 31 ∧ n * nu + p.1 < tape.length ∧ (if n = 1 then p.2 else 0) = g p.1 n) →
    ∃ tape', svCsts nu n l tape = .ok tape' ∧ Grown nu g n (l.map Prod.fst) tape tape' := by
  induction l with
  | nil => intro tape _; exact ⟨tape, rfl, rfl, fun _ _ h => h, by simp⟩
  | cons p l ih =>
    intro tape h
    obtain ⟨i, x⟩ := p
    obtain ⟨h1, h2, h3, h4⟩ := h (i, x) List.mem_cons_self
    obtain ⟨t1, h5, h6, h7, h8⟩ := tset_ok (g := g) (tape := tape) h1 h2 h3
    obtain ⟨t2, h9, h10, h11, h12⟩ := ih t1 fun q hq => by
      rw [h6]
      exact h q (List.mem_cons_of_mem _ hq)
    refine ⟨t2, ?_, by omega, fun u o hu => h11 _ _ (h8 _ _ hu), fun j hj => ?_⟩
    · simp only at h4
      rw [svCsts, h4, h5, Res.bind_ok, h9]
    · rw [List.map_cons] at hj
      rcases List.mem_cons.1 hj with rfl | hj
      · exact h11 _ _ h7
      · exact h12 j hj

theorem svVars_ok {n : Nat} {allVars : Bool} (l : List (Nat × Nat)) : ∀ (k : Nat) (tape : TTape K),
    (∀ (m : Nat) p, l[m]? = some p → (allVars = true → p.1 = k + m)) →
    (∀ p ∈ l, p.1 < nu ∧ n * nu + p.1 < 2 ^ 31 ∧ n * nu + p.1 < tape.length ∧ THas nu g tape p.2 (n - 1) ∧
      g p.2 (n - 1) / V.nat n = g p.1 n) →
    ∃ tape', svVars nu n allVars k l tape = .ok tape' ∧ Grown nu g n (l.map Prod.fst) tape tape' := by
  induction l with
  | nil => intro k tape _ _; exact ⟨tape, rfl, rfl, fun _ _ h => h, by simp⟩
  | cons p l ih =>
    intro k tape ha h
    obtain ⟨i, v⟩ := p
    obtain ⟨h1, h2, h3, h4, h4'⟩ := h (i, v) List.mem_cons_self
    obtain ⟨t1, h5, h6, h7, h8⟩ := tset_ok (g := g) (tape := tape) h1 h2 h3
    obtain ⟨t2, h9, h10, h11, h12⟩ := ih (k + 1) t1 (fun m q hq hv => by
        have := ha (m + 1) q (by simpa using hq) hv
        omega) fun q hq => by
      obtain ⟨g1, g2, g3, g4, g5⟩ := h q (List.mem_cons_of_mem _ hq)
      rw [h6]
      exact ⟨g1, g2, g3, h8 _ _ g4, g5⟩
    refine ⟨t2, ?_, by omega, fun u o hu => h11 _ _ (h8 _ _ hu), fun j hj => ?_⟩
    · simp only at h4'
      have hi : (if allVars then k else i) = i := by
        cases hv : allVars with
        | false => rfl
        | true => have := ha 0 (i, v) rfl hv; simpa using this.symm
      rw [svVars, h4.get, Res.bind_ok, hi, h4', h5, Res.bind_ok, h9]
    · rw [List.map_cons] at hj
      rcases List.mem_cons.1 hj with rfl | hj
      · exact h11 _ _ h7
      · exact h12 j hj

theorem copyState_ok (xs : List K) : ∀ (i : Nat) (tape : TTape K),
    (∀ (k : Nat) x, xs[k]? = some x → g (i + k) 0 = V.fin x) → i + xs.length ≤ nu → i + xs.length ≤ 2 ^ 31 →
    i + xs.length ≤ tape.length →
    ∃ tape', copyState nu i xs tape = .ok tape' ∧ Grown nu g 0 (List.range' i xs.length) tape tape' := by
  induction xs with
  | nil => intro i tape _ _ _ _; exact ⟨tape, rfl, rfl, fun _ _ h => h, by simp⟩
  | cons x xs ih =>
    intro i tape hg h1 h2 h3
    simp only [List.length_cons] at h1 h2 h3
    obtain ⟨t1, h5, h6, h7, h8⟩ := tset_ok (g := g) (tape := tape) (u := i) (o := 0) (nu := nu) (by omega) (by omega) (by omega)
    obtain ⟨t2, h9, h10, h11, h12⟩ := ih (i + 1) t1 (fun k y hy => by
      have := hg (k + 1) y (by simpa using hy)
      rwa [show i + (k + 1) = i + 1 + k by omega] at this) (by omega) (by omega) (by omega)
    refine ⟨t2, ?_, by omega, fun u o hu => h11 _ _ (h8 _ _ hu), fun j hj => ?_⟩
    · have := hg 0 x rfl
      rw [Nat.add_zero] at this
      rw [copyState, ← this, h5, Res.bind_ok, h9]
    · rw [List.length_cons, List.range'_succ] at hj
      rcases List.mem_cons.1 hj with rfl | hj
      · exact h11 _ _ h7
      · exact h12 j hj

end

section
variable (hP : PowSound K) (hdc : SSysOk L neq dc svf) (hfn : FnMid neq dc) (hsz : dc.length ≤ 2 ^ 32)
include hP hdc hfn hsz

theorem svDiffsC_ok {t : OutTables K} (ht : outTables 0 ((tOuts neq dc).map Prod.fst) = .ok t) {N n : Nat} (hn : n ≠ 0)
    (hb : n * (dc.length - neq) + neq ≤ N) (hb' : n * (dc.length - neq) + neq ≤ 2 ^ 31) {tape : TTape K}
    (h : Filled (dc.length - neq) (refG par time neq dc state) N n 0 tape) :
    ∃ tape', svDiffsC par (dc.length - neq) neq n t tape = .ok tape' ∧
      Filled (dc.length - neq) (refG par time neq dc state) N n neq tape' := by
  have hl := hdc.len
  have hlen : ((tOuts neq dc).map Prod.fst).length = neq := by rw [List.length_map, tOuts_length hl]
  -- the outputs
  have hout : ∀ (k : Nat) (a : Expr K), ((tOuts neq dc).map Prod.fst)[k]? = some a → k < neq ∧
      ∃ e : TElem K, dc[dc.length - neq + k]? = some e ∧ e.1 = a := by
    intro k a hk
    have hk' := (List.getElem?_eq_some_iff.1 hk).1
    rw [List.getElem?_map, Option.map_eq_some_iff] at hk
    obtain ⟨e, h1, h2⟩ := hk
    exact ⟨by omega, e, tOuts_get h1, h2⟩
  have harg : ∀ a ∈ (tOuts neq dc).map Prod.fst, ArgOk (dc.length - neq) a := by
    intro a ha
    obtain ⟨k, hk⟩ := List.mem_iff_getElem?.1 ha
    obtain ⟨h1, e, h2, h3⟩ := hout k a hk
    rw [← h3]
    exact (hdc.outs k e h1 h2).2
  obtain ⟨t', ht', hok⟩ := outTables_ok (n := dc.length - neq) (by omega) _ 0 harg
  rw [ht] at ht'
  injection ht' with ht'
  subst ht'
  have hin := tablesIn_ok (n := dc.length - neq) (by omega) _ 0 t harg ht
  have hprev : ∀ u < dc.length - neq, tget tape (dc.length - neq) u (n - 1) = .ok (refG par time neq dc state u (n - 1)) :=
    fun u hu => (h.lower u hu (n - 1) (by omega)).get
  have hlt : ∀ {e : Expr K} {j : Nat}, ArgOk (dc.length - neq) e → e = .var (uname j) → j < dc.length - neq := by
    intro e j ha he
    subst he
    obtain ⟨j', h1, h2⟩ := ha
    rw [uname_inj h2]
    exact h1
  have hsv : ∀ (k : Nat) (e : TElem K), k < neq → dc[dc.length - neq + k]? = some e →
      svDiff par (tget tape (dc.length - neq)) n e.1 = .ok (refG par time neq dc state k n) := by
    intro k e hk he
    refine sv_ref hdc hsz hn hk he fun j hj => hprev j (hlt (hdc.outs k e hk he).2 hj)
  obtain ⟨t1, g1, g2, g3, g4⟩ := svVars_ok (g := refG par time neq dc state) (nu := dc.length - neq) (n := n)
    (allVars := decide (t.vars.length = neq)) t.vars 0 tape (fun m p hp hv => by
      have := hok.all (by simp at hv; omega) m p hp
      omega) (fun p hp => by
      obtain ⟨-, h1⟩ := hin.vars p hp
      obtain ⟨h2, e, h3, h4⟩ := hout _ _ h1
      have h5 := hsv _ e h2 h3
      have h6 := hlt (hdc.outs _ e h2 h3).2 h4
      have hlen' := h.len
      refine ⟨by omega, by omega, by omega, h.lower _ h6 _ (by omega), ?_⟩
      simp only [h4, svDiff, unameToIndex_uname, if_pos (show p.2 < 2 ^ 32 by omega), Res.bind_eq, Res.bind_ok, hprev _ h6,
        Res.pure_eq] at h5
      injection h5)
  obtain ⟨t2, g5, g6, g7, g8⟩ := svCsts_ok (g := refG par time neq dc state) (nu := dc.length - neq) (n := n)
    (t.nums.map fun p => (p.1, V.ofOption p.2.toK?)) t1 (fun q hq => by
      obtain ⟨p, hp, rfl⟩ := List.mem_map.1 hq
      obtain ⟨-, h1⟩ := hin.nums p hp
      obtain ⟨h2, e, h3, h4⟩ := hout _ _ h1
      have h5 := hsv _ e h2 h3
      have hlen' := h.len
      rw [h4] at h5
      simp only [svDiff] at h5
      injection h5 with h5
      exact ⟨by simp; omega, by simp; omega, by simp; omega, h5⟩)
  obtain ⟨t3, g9, g10, g11, g12⟩ := svCsts_ok (g := refG par time neq dc state) (nu := dc.length - neq) (n := n)
    (t.pars.map fun p => (p.1, V.fin (par p.2))) t2 (fun q hq => by
      obtain ⟨p, hp, rfl⟩ := List.mem_map.1 hq
      obtain ⟨-, h1⟩ := hin.pars p hp
      obtain ⟨h2, e, h3, h4⟩ := hout _ _ h1
      have h5 := hsv _ e h2 h3
      have hlen' := h.len
      rw [h4] at h5
      simp only [svDiff] at h5
      injection h5 with h5
      exact ⟨by simp; omega, by simp; omega, by simp; omega, h5⟩)
  refine ⟨t3, by rw [svDiffsC, g1, Res.bind_ok, g5, Res.bind_ok, g9], by have := h.len; omega,
    fun u hu o ho => g11 _ _ (g7 _ _ (g3 _ _ (h.lower u hu o ho))), fun u hu => ?_⟩
  rcases hin.cover u (by omega) with ⟨v, hv⟩ | ⟨m, hm⟩ | ⟨j, hj⟩
  · rw [Nat.zero_add] at hv
    exact g11 _ _ (g7 _ _ (g4 u (List.mem_map.2 ⟨_, hv, rfl⟩)))
  · rw [Nat.zero_add] at hm
    refine g11 _ _ (g8 u ?_)
    simp only [List.map_map, List.mem_map]
    exact ⟨_, hm, rfl⟩
  · rw [Nat.zero_add] at hj
    refine g12 u ?_
    simp only [List.map_map, List.mem_map]
    exact ⟨_, hj, rfl⟩

/-! ### The orders -/

variable {mode : Mode K} (hm : mode.Fair) {ds : List (List (List (Block K)))}
  (hds : Chain neq dc neq ds.flatten (dc.length - neq))
include hm hds

theorem drivers_ok {N n : Nat} (hb : (n + 1) * (dc.length - neq) ≤ N) (hb' : (n + 1) * (dc.length - neq) ≤ 2 ^ 31)
    {tape : TTape K} (h : Filled (dc.length - neq) (refG par time neq dc state) N n neq tape) :
    ∃ tape', runDrivers mode par time (dc.length - neq) n ds tape = .ok tape' ∧
      Filled (dc.length - neq) (refG par time neq dc state) N (n + 1) 0 tape' := by
  have hl := hdc.len
  rw [Nat.succ_mul] at hb hb'
  obtain ⟨t, h1, h2⟩ := runTSegs_ok (par := par) (time := time) (state := state) hP hdc hfn hsz hm hb hb' ds.flatten neq
    tape (le_refl _) (by omega) hds h
  exact ⟨t, by rw [runDrivers_eq, h1], h2.step⟩

theorem cOrders_ok {t : OutTables K} (ht : outTables 0 ((tOuts neq dc).map Prod.fst) = .ok t) {N : Nat} (cnt : Nat) :
    ∀ (n : Nat) (tape : TTape K), n ≠ 0 → (n + cnt) * (dc.length - neq) ≤ N → (n + cnt) * (dc.length - neq) ≤ 2 ^ 31 →
    Filled (dc.length - neq) (refG par time neq dc state) N n 0 tape →
    ∃ tape', cOrders mode par time (dc.length - neq) neq t ds cnt n tape = .ok tape' ∧
      Filled (dc.length - neq) (refG par time neq dc state) N (n + cnt) 0 tape' := by
  induction cnt with
  | zero => intro n tape _ _ _ h; exact ⟨tape, rfl, h⟩
  | succ cnt ih =>
    intro n tape hn hb hb' h
    have hl := hdc.len
    have h1 : (n + 1) * (dc.length - neq) ≤ (n + (cnt + 1)) * (dc.length - neq) := Nat.mul_le_mul_right _ (by omega)
    have h1' : n * (dc.length - neq) + (dc.length - neq) = (n + 1) * (dc.length - neq) := by rw [Nat.succ_mul]
    obtain ⟨t1, h2, h3⟩ := svDiffsC_ok (par := par) (time := time) (state := state) hP hdc hfn hsz ht hn (by omega) (by omega) h
    obtain ⟨t2, h4, h5⟩ := drivers_ok (par := par) (time := time) (state := state) hP hdc hfn hsz hm hds (h1.trans hb)
      (h1.trans hb') h3
    obtain ⟨t3, h6, h7⟩ := ih (n + 1) t2 (by omega) (by rwa [show n + 1 + cnt = n + (cnt + 1) by omega])
      (by rwa [show n + 1 + cnt = n + (cnt + 1) by omega]) h5
    refine ⟨t3, by rw [cOrders, h2, Res.bind_ok, h4, Res.bind_ok, h6], ?_⟩
    rwa [show n + 1 + cnt = n + (cnt + 1) by omega] at h7

end

/-- The jet computed in compact mode. -/
theorem cjet_ref (hP : PowSound K) (hN : CNameSound L) (hdc : SSysOk L neq dc svf) (hfn : FnMid neq dc)
    {mode : Mode K} (hm : mode.Fair) {order : Nat} (hneq : neq ≠ 0) (ho : order ≠ 0)
    (hb : (dc.length - neq) * (order + 1) ≤ 2 ^ 31) (hs : state.length = neq) :
    cjet mode par time neq dc svf order state = .ok ((List.range (order + 1)).map fun o =>
      (List.range neq ++ svf).map fun u => refG par time neq dc state u o) := by
  have hl := hdc.len
  have hnb : dc.length - neq ≤ 2 ^ 31 := (Nat.le_mul_of_pos_right _ (by omega)).trans hb
  have hsz : dc.length ≤ 2 ^ 32 := by omega
  have hmul : (dc.length - neq) * (order + 1) = order * (dc.length - neq) + (dc.length - neq) := by
    rw [Nat.mul_comm, Nat.succ_mul]
  have hmax : svf.foldr max 0 < dc.length - neq := by
    have : ∀ l : List Nat, (∀ u ∈ l, u < dc.length - neq) → l.foldr max 0 < dc.length - neq := by
      intro l
      induction l with
      | nil => intro _; simp only [List.foldr_nil]; omega
      | cons a l ih =>
        intro h
        have h1 := h a List.mem_cons_self
        have h2 := ih fun x hx => h x (List.mem_cons_of_mem _ hx)
        simp only [List.foldr_cons]
        omega
    exact this svf hdc.svf
  -- the segments
  obtain ⟨segs, hsegs, hflat, hsok⟩ : ∃ segs, taylorSegmentDc neq (tMid neq dc) = .ok segs ∧ segs.flatten = tMid neq dc ∧
      SegsOk (fun p : TElem K => flatIdxs p.1) neq segs := by
    cases hmid : tMid neq dc with
    | nil => exact ⟨[], rfl, rfl, trivial⟩
    | cons e es =>
      rw [← hmid]
      obtain ⟨segs, h1, h2⟩ := segmentLoop_ok (idxs := fun p : TElem K => flatIdxs p.1) (tMid neq dc) neq neq [] (by simp)
        (by simp) (.inr (by simp [hmid])) fun k e hk => by
          obtain ⟨h1, h2⟩ := tMid_getK hl hk
          have hok := hdc.elem (neq + k) e h2 (by omega) (by omega)
          obtain ⟨f, es, hfe⟩ := hfn (neq + k) e h2 (by omega) (by omega)
          rcases hok.ok with ⟨f', es', h5, h6, -⟩ | ⟨m, hm⟩
          · obtain ⟨is, h7, h8⟩ := argIdxs_ok (i := neq + k) (by omega) es' fun a ha => (h6 a ha).ok
            refine ⟨is, by simp only [h5, flatIdxs, h7], fun j hj => ?_⟩
            obtain ⟨j', h9, h10⟩ := (h6 _ ((h8 j).1 hj)).ok
            rw [uname_inj h10]
            exact h9
          · rw [hfe] at hm
            cases hm
      refine ⟨segs, ?_, by simpa using h2⟩
      rw [hmid] at h1 ⊢
      exact h1
  -- the code
  obtain ⟨st, hst, hD⟩ := tcompile_ok (maxSvf := svf.foldr max 0) hN hneq hdc hfn hsz segs neq ⟨[], [], [], 0, none⟩
    (le_refl _) (by rw [hflat, tMid_length hl]; omega) hsok (fun k e hk => (tMid_getK hl (by rwa [← hflat])).2)
    ⟨by simp [DState.drivers, Chain], by simp [TTbl], fun _ h => h, fun i hi => by cases hi⟩
  obtain ⟨t, ht, -⟩ := outTables_ok (n := dc.length - neq) (by omega) ((tOuts neq dc).map Prod.fst) 0 (by
    intro a ha
    obtain ⟨e, he, rfl⟩ := List.mem_map.1 ha
    obtain ⟨k, hk⟩ := List.mem_iff_getElem?.1 he
    have hk' := (List.getElem?_eq_some_iff.1 hk).1
    rw [tOuts_length hl] at hk'
    exact (hdc.outs k e hk' (tOuts_get hk)).2)
  -- the size of the tape
  have hN1 : order * (dc.length - neq) + neq ≤ tapeSize neq (dc.length - neq) order (svf.foldr max 0) := by
    rw [tapeSize]
    split
    · rw [Nat.mul_comm]
    · omega
  have hcopy := copyState_ok (g := refG par time neq dc state) (nu := dc.length - neq) state 0
    (List.replicate (tapeSize neq (dc.length - neq) order (svf.foldr max 0)) none) (fun k x hx => by
      have hk := (List.getElem?_eq_some_iff.1 hx).1
      rw [Nat.zero_add]
      exact refG_state (by omega) (by omega) hx) (by omega) (by omega) (by rw [List.length_replicate]; omega)
  obtain ⟨t0, h1, h2, h3, h4⟩ := hcopy
  rw [List.length_replicate] at h2
  have hF0 : Filled (dc.length - neq) (refG par time neq dc state)
      (tapeSize neq (dc.length - neq) order (svf.foldr max 0)) 0 neq t0 :=
    ⟨h2, fun _ _ o ho => by omega, fun u hu => h4 u (List.mem_range'_1.2 ⟨by omega, by omega⟩)⟩
  have hge : 1 * (dc.length - neq) ≤ order * (dc.length - neq) := Nat.mul_le_mul_right _ (by omega)
  obtain ⟨t1, h5, h6⟩ := drivers_ok (par := par) (time := time) (state := state) hP hdc hfn hsz hm hD.chain (n := 0)
    (by omega) (by omega) hF0
  obtain ⟨t2, h7, h8⟩ := cOrders_ok (par := par) (time := time) (state := state) hP hdc hfn hsz hm hD.chain ht (order - 1) 1 t1
    (by omega) (by rw [show 1 + (order - 1) = order by omega]; omega) (by rw [show 1 + (order - 1) = order by omega]; omega) h6
  rw [show 1 + (order - 1) = order by omega] at h8
  obtain ⟨t3, h9, h10⟩ := svDiffsC_ok (par := par) (time := time) (state := state) hP hdc hfn hsz ht ho hN1 (by omega) h8
  obtain ⟨t4, w, h11, hw, h12⟩ : ∃ t4 w, lastDrivers mode par time neq (dc.length - neq) order (svf.foldr max 0) st t3 = .ok t4 ∧
      (neq ≤ w ∧ (neq ≤ svf.foldr max 0 → svf.foldr max 0 < w)) ∧
      Filled (dc.length - neq) (refG par time neq dc state)
        (tapeSize neq (dc.length - neq) order (svf.foldr max 0)) order w t4 := by
    by_cases hsv : neq ≤ svf.foldr max 0
    · cases hst' : st.svf with
      | none => have := hD.none hst' hsv; omega
      | some i =>
        obtain ⟨-, hi, w, hw1, hw2⟩ := hD.some i hst'
        have hwle := hw2.le (by omega)
        have hsize : tapeSize neq (dc.length - neq) order (svf.foldr max 0) = (dc.length - neq) * (order + 1) := by
          rw [tapeSize, if_neg (by omega)]
        obtain ⟨t4, h11, h12⟩ := runTSegs_ok (par := par) (time := time) (state := state) hP hdc hfn hsz hm (N :=
          tapeSize neq (dc.length - neq) order (svf.foldr max 0)) (by omega) (by omega) _ neq t3 (le_refl _) (by omega) hw2 h10
        refine ⟨t4, w, ?_, ⟨by omega, fun _ => hw1⟩, h12⟩
        rw [lastDrivers, if_pos hsv, hst']
        simp only
        rw [runDrivers_eq, DState.drivers, List.take_append_of_le_length (by omega), h11]
    · refine ⟨t3, neq, by rw [lastDrivers, if_neg hsv], ⟨le_refl _, fun h => absurd h hsv⟩, h10⟩
  rw [cjet, if_neg (by omega), cjetTape, if_neg (by omega), hsegs, Res.bind_ok, ht, Res.bind_ok, hst, Res.bind_ok, crun, h1,
    Res.bind_ok, h5, Res.bind_ok, h7, Res.bind_ok, h9, Res.bind_ok, h11, Res.bind_ok]
  refine extract_ref fun o ho' u hu => ?_
  rw [List.mem_range] at ho'
  have hun : u < dc.length - neq := by
    rcases List.mem_append.1 hu with hu | hu
    · have := List.mem_range.1 hu
      omega
    · exact hdc.svf u hu
  rcases Nat.lt_succ_iff_lt_or_eq.1 ho' with ho' | rfl
  · exact (h12.lower u hun o ho').get
  · refine (h12.cur u ?_).get
    rcases List.mem_append.1 hu with hu | hu
    · have := List.mem_range.1 hu
      omega
    · have := le_foldr_maxK hu
      by_cases hsv : neq ≤ svf.foldr max 0
      · have := hw.2 hsv
        omega
      · omega

end Heyoka.Taylor
