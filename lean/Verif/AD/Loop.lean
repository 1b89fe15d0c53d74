import Verif.AD.Orders

/-!
# The tensor of derivatives
-/

set_option linter.unusedSectionVars false

namespace Heyoka.AD

open Heyoka.Sym Heyoka.Dtens

variable [DFunc]

/-! ### More iterations do not change a result -/

section
variable {K : Type} [Field K] [LinearOrder K] [FloorRing K] [Interp K] [FmtName K]

theorem bfs_mono {next : Nat → List Nat} {fuel : Nat} : ∀ {fuel' : Nat} {q seen r : List Nat}, fuel ≤ fuel' →
    bfs next fuel q seen = some r → bfs next fuel' q seen = some r := by
  induction fuel with
  | zero =>
    intro fuel' q seen r _ h
    cases q with
    | nil => rw [bfs] at h ⊢; exact h
    | cons c q => rw [bfs] at h; cases h
  | succ fuel ih =>
    intro fuel' q seen r hf h
    obtain ⟨fuel', rfl⟩ : ∃ k, fuel' = k + 1 := ⟨fuel' - 1, by omega⟩
    cases q with
    | nil => rw [bfs] at h ⊢; exact h
    | cons c q => rw [bfs] at h ⊢; exact ih (by omega) h

theorem fwdArg_mono {fuel fuel' : Nat} (hf : fuel ≤ fuel') {rows : List (Row K)} {nouts input : Nat} {diffs : List (Expr K)}
    {r : Res (List (Expr K))} (h : fwdArg fuel rows nouts input diffs = some r) : fwdArg fuel' rows nouts input diffs = some r := by
  unfold fwdArg at h ⊢
  cases hb : bfs (revdep rows) fuel (revdep rows input) (revdep rows input) with
  | none => rw [hb] at h; cases h
  | some s => rw [hb] at h; rw [bfs_mono hf hb]; exact h

theorem revOut_mono {fuel fuel' : Nat} (hf : fuel ≤ fuel') {rows : List (Row K)} {nvars out : Nat} {diffs : List (Expr K)}
    {r : Res (List (Expr K))} (h : revOut fuel rows nvars out diffs = some r) : revOut fuel' rows nvars out diffs = some r := by
  unfold revOut at h ⊢
  by_cases h32 : 2 ^ 32 ≤ out
  · rw [if_pos h32] at h ⊢; exact h
  · rw [if_neg h32] at h ⊢
    cases hb : bfs (dep rows) fuel (dep rows out) (dep rows out) with
    | none => rw [hb] at h; cases h
    | some s => rw [hb] at h; rw [bfs_mono hf hb]; exact h

theorem fwdLoop_mono {fuel fuel' : Nat} (hf : fuel ≤ fuel') {dc : List (Expr K)} {rows : List (Row K)} {nvars : Nat}
    {keys : List SIdx} {first : Bool} (xs : List DVar) : ∀ {j : Nat} {diffs : List (Expr K)} {acc : List (SIdx × Expr K)}
    {r : Res (List (SIdx × Expr K))}, fwdLoop fuel dc rows nvars keys first j xs diffs acc = some r →
      fwdLoop fuel' dc rows nvars keys first j xs diffs acc = some r := by
  induction xs with
  | nil => intro j diffs acc r h; exact h
  | cons x xs ih =>
    intro j diffs acc r h
    rw [fwdLoop] at h ⊢
    cases hi : findInput nvars dc x with
    | none => simp only [hi] at h ⊢; exact ih h
    | some input =>
      simp only [hi] at h ⊢
      cases ha : fwdArg fuel rows keys.length input diffs with
      | none => rw [ha] at h; cases h
      | some y =>
        rw [ha] at h
        rw [fwdArg_mono hf ha]
        cases y with
        | ok d => exact ih h
        | throw => exact h
        | ub => exact h

theorem revLoop_mono {fuel fuel' : Nat} (hf : fuel ≤ fuel') {dc : List (Expr K)} {rows : List (Row K)} {nvars nouts : Nat}
    {args : List DVar} {first : Bool} (ks : List SIdx) : ∀ {i : Nat} {diffs : List (Expr K)} {acc : List (SIdx × Expr K)}
    {r : Res (List (SIdx × Expr K))}, revLoop fuel dc rows nvars nouts args first i ks diffs acc = some r →
      revLoop fuel' dc rows nvars nouts args first i ks diffs acc = some r := by
  induction ks with
  | nil => intro j diffs acc r h; exact h
  | cons x xs ih =>
    intro j diffs acc r h
    rw [revLoop] at h ⊢
    cases ha : revOut fuel rows nvars (dc.length - nouts + j) diffs with
    | none => rw [ha] at h; cases h
    | some y =>
      rw [ha] at h
      rw [revOut_mono hf ha]
      cases y with
      | ok d => exact ih h
      | throw => exact h
      | ub => exact h

theorem derivs_mono {fuel fuel' : Nat} (hf : fuel ≤ fuel') {args : List DVar} {first : Bool} {nvars : Nat}
    {prev : List (SIdx × Expr K)} {dc : List (Expr K)} {r : Res (List (SIdx × Expr K))}
    (h : derivs fuel args first nvars prev dc = some r) : derivs fuel' args first nvars prev dc = some r := by
  unfold derivs at h ⊢
  cases ha : adjRows nvars prev.length dc with
  | throw => rw [ha] at h; exact h
  | ub => rw [ha] at h; exact h
  | ok rows =>
    cases hs : subsMap nvars prev.length dc with
    | throw => rw [ha, hs] at h; exact h
    | ub => rw [ha, hs] at h; exact h
    | ok sm =>
      simp only [ha, hs] at h ⊢
      by_cases hm : args.length ≤ prev.length
      · simp only [if_pos hm] at h ⊢
        cases hl : fwdLoop fuel dc rows nvars (prev.map (·.1)) first 0 args (List.replicate dc.length (.dbl 0)) [] with
        | none => rw [hl] at h; cases h
        | some y => rw [hl] at h; rw [fwdLoop_mono hf _ hl]; exact h
      · simp only [if_neg hm] at h ⊢
        cases hl : revLoop fuel dc rows nvars prev.length args first 0 (prev.map (·.1)) (List.replicate dc.length (.dbl 0)) [] with
        | none => rw [hl] at h; cases h
        | some y => rw [hl] at h; rw [revLoop_mono hf _ hl]; exact h

theorem diffDecompose_mono {fuel fuel' : Nat} (hf : fuel ≤ fuel') {share : List (Expr K) → List (Node K)}
    {es : List (Expr K)} {r : Res (List (Expr K))} (h : diffDecompose fuel share es = some r) :
    diffDecompose fuel' share es = some r := by
  rw [diffDecompose, rawDc] at h ⊢
  cases hd : decAll fdcAppend fuel [] [] ((inputs es).map ofDVar) (share (es.map (prep (inputs es)))) with
  | none => rw [hd] at h; cases h
  | some x => rw [hd] at h; rw [decAll_mono hf _ hd]; exact h

theorem orderStep_mono {fuel fuel' : Nat} (hf : fuel ≤ fuel') {share : List (Expr K) → List (Node K)} {args : List DVar}
    {cur : Nat} {m : List (SIdx × Expr K)} {r : Res (List (SIdx × Expr K))}
    (h : orderStep fuel share args cur m = some r) : orderStep fuel' share args cur m = some r := by
  unfold orderStep at h ⊢
  cases hs : searchMap m (0, if cur = 0 then [] else [(0, cur)]) with
  | throw => simp only [hs] at h ⊢; exact h
  | ub => simp only [hs] at h ⊢; exact h
  | ok b =>
    simp only [hs] at h ⊢
    by_cases hb : b = m.length
    · simp only [if_pos hb] at h ⊢; exact h
    · simp only [if_neg hb] at h ⊢
      cases hd : diffDecompose fuel share ((m.drop b).map (·.2)) with
      | none => rw [hd] at h; cases h
      | some y =>
        rw [hd] at h
        rw [diffDecompose_mono hf hd]
        cases y with
        | throw => exact h
        | ub => exact h
        | ok dc =>
          simp only at h ⊢
          cases hv : derivs fuel args (cur == 0) (inputs ((m.drop b).map (·.2))).length (m.drop b) dc with
          | none => rw [hv] at h; cases h
          | some z => rw [hv] at h; rw [derivs_mono hf hv]; exact h

theorem orderLoop_mono {fuel fuel' : Nat} (hf : fuel ≤ fuel') {share : List (Expr K) → List (Node K)} {args : List DVar}
    (n : Nat) : ∀ {cur : Nat} {m : List (SIdx × Expr K)} {r : Res (List (SIdx × Expr K))},
    orderLoop fuel share args n cur m = some r → orderLoop fuel' share args n cur m = some r := by
  induction n with
  | zero => intro cur m r h; exact h
  | succ n ih =>
    intro cur m r h
    rw [orderLoop] at h ⊢
    cases hs : orderStep fuel share args cur m with
    | none => rw [hs] at h; cases h
    | some y =>
      rw [hs] at h
      rw [orderStep_mono hf hs]
      cases y with
      | throw => exact h
      | ub => exact h
      | ok m' => exact ih h

end

/-! ### The invariant -/

variable [FmtName ℝ] {S : Fn ℝ → Nat → Prop} {args : List DVar} {es : List (Expr ℝ)} {cur : Nat}
variable {m : List (SIdx × Expr ℝ)}

/-- The map of the derivatives of `es` up to the order `cur`. -/
structure Tensor (S : Fn ℝ → Nat → Prop) (es : List (Expr ℝ)) (args : List DVar) (cur : Nat)
    (m : List (SIdx × Expr ℝ)) : Prop where
  complete : Complete ⟨m, args.length⟩ es.length cur
  good : ∀ q ∈ m, GoodS S (fun _ => True) (fun _ => True) q.2
  base : ∀ (i : Nat) (e : Expr ℝ), es[i]? = some e → ((i, []), e) ∈ m
  src : ∀ q ∈ m, q.1.2 ≠ [] → ∃ p ∈ m, ∃ (j : Nat) (x : DVar), args[j]? = some x ∧ q.1 = (p.1.1, addIdx j p.1.2) ∧
    (∀ r ∈ p.1.2, j ≤ r.1) ∧ IsDeriv x p.2 q.2
  syn : ∀ (S0 : Fn ℝ → Nat → Prop) (R : Nat → Prop) (A : List DVar) (D : Nat → Fn ℝ → Prop), SynOk S0 A D →
    (∀ e ∈ es, Cl S0 R (A.map ofDVar) (D 0) e) → ∀ q ∈ m, Cl S0 R (A.map ofDVar) (D (degree q.1.2)) q.2

theorem complete_append {nouts : Nat} {news : List (SIdx × Expr ℝ)} (hc : Complete ⟨m, args.length⟩ nouts cur)
    (hl : Level nouts args.length (cur + 1) news) (hcur : cur + 1 < 2 ^ 32) :
    Complete ⟨m ++ news, args.length⟩ nouts (cur + 1) := by
  refine ⟨?_, fun v => ?_, hc.nouts_pos, hc.nargs_pos, hc.nargs_fits, hcur⟩
  · show (m ++ news).Pairwise _
    rw [List.pairwise_append]
    refine ⟨hc.sorted, hl.sorted, fun p hp q hq => .inl ?_⟩
    have h1 := ((hc.keys p.1).1 ⟨p, hp, rfl⟩).2.2.2
    have h2 := (hl.ok hq).2.2.2
    omega
  · constructor
    · rintro ⟨p, hp, rfl⟩
      rcases List.mem_append.1 hp with hp | hp
      · have := (hc.keys p.1).1 ⟨p, hp, rfl⟩
        exact ⟨this.1, this.2.1, this.2.2.1, by omega⟩
      · have := hl.ok hp
        exact ⟨this.1, this.2.1, this.2.2.1, by omega⟩
    · rintro ⟨h1, h2, h3, h4⟩
      rcases Nat.lt_or_ge cur (degree v.2) with h5 | h5
      · obtain ⟨p, hp, he⟩ := (hl.keys v).2 ⟨h1, h2, h3, by omega⟩
        exact ⟨p, List.mem_append_right _ hp, he⟩
      · obtain ⟨p, hp, he⟩ := (hc.keys v).2 ⟨h1, h2, h3, h5⟩
        exact ⟨p, List.mem_append_left _ hp, he⟩

/-- The number of elements of the decomposition for the derivatives of the order `cur`, if it exists, fits
in 32 bits. -/
def Fits (share : List (Expr ℝ) → List (Node ℝ)) (cur : Nat) (m : List (SIdx × Expr ℝ)) : Prop :=
  ∀ fuel dc, diffDecompose fuel share ((m.filter fun p => degree p.1.2 == cur).map (·.2)) = some (.ok dc) →
    dc.length ≤ 2 ^ 32

variable {P : Fn ℝ → Prop} {share : List (Expr ℝ) → List (Node ℝ)}

theorem orderStep_spec (hP : NormSound P) (hSP : ∀ f k, S f k → P f) (hS : GradClosed S)
    (hshare : ∀ es, Represents (share es) es) (hcur : cur + 1 < 2 ^ 32) (ht : Tensor S es args cur m) :
    (∀ fuel m', orderStep fuel share args cur m = some (.ok m') → Tensor S es args (cur + 1) m') ∧
    ((∀ f k, S f k → hasGrad f k) → Fits share cur m → ∃ N m', ∀ fuel, N ≤ fuel →
      orderStep fuel share args cur m = some (.ok m')) := by
  obtain ⟨b, hb, hlt, hdrop⟩ := searchMap_spec ht.complete
  have hl := level_of_complete ht.complete
  have hg : ∀ p ∈ m.filter (fun p => degree p.1.2 == cur), GoodS S (fun _ => True) (fun _ => True) p.2 :=
    fun p hp => ht.good p (List.mem_filter.1 hp).1
  obtain ⟨N, c, outs, hN, hall, hlen, hw, ho, hctx⟩ := diffDecompose_spec hP hSP hS hshare hg
  have hstep : ∀ fuel, diffDecompose fuel share ((m.filter fun p => degree p.1.2 == cur).map (·.2)) = some (.ok (c ++ outs)) →
      orderStep fuel share args cur m =
        (derivs fuel args (cur == 0) (inputs ((m.filter fun p => degree p.1.2 == cur).map (·.2))).length
          (m.filter fun p => degree p.1.2 == cur) (c ++ outs)).map fun r => r.bind fun news => .ok (m ++ news) := by
    intro fuel hd
    unfold orderStep
    simp only [hb, if_neg (show b ≠ m.length by omega), hdrop, hd]
  constructor
  · intro fuel m' hm'
    cases hd : diffDecompose fuel share ((m.filter fun p => degree p.1.2 == cur).map (·.2)) with
    | none =>
      unfold orderStep at hm'
      simp only [hb, if_neg (show b ≠ m.length by omega), hdrop, hd] at hm'
      cases hm'
    | some r =>
      obtain rfl := hall fuel r hd
      rw [hstep fuel hd] at hm'
      have hspec := (derivs_spec (fuel := fuel) hw ho hlen hctx ht.complete.nouts_pos hl hcur).1
      cases hv : derivs fuel args (cur == 0) (inputs ((m.filter fun p => degree p.1.2 == cur).map (·.2))).length
          (m.filter fun p => degree p.1.2 == cur) (c ++ outs) with
      | none => rw [hv] at hm'; cases hm'
      | some z =>
        rw [hv, Option.map_some] at hm'
        cases z with
        | throw => cases hm'
        | ub => cases hm'
        | ok news =>
          rw [Res.bind_ok] at hm'
          cases hm'
          have hn := hspec news hv
          refine ⟨complete_append ht.complete hn.level hcur, fun q hq => ?_, fun i e he => List.mem_append_left _ (ht.base i e he),
            fun q hq hne => ?_, fun S0 R A D hs he q hq => ?_⟩
          · rcases List.mem_append.1 hq with hq | hq
            · exact ht.good q hq
            · exact hn.good q hq
          · rcases List.mem_append.1 hq with hq | hq
            · obtain ⟨p, hp, h⟩ := ht.src q hq hne
              exact ⟨p, List.mem_append_left _ hp, h⟩
            · obtain ⟨p, hp, h⟩ := hn.src q hq
              exact ⟨p, List.mem_append_left _ (List.mem_filter.1 hp).1, h⟩
          · rcases List.mem_append.1 hq with hq | hq
            · exact ht.syn S0 R A D hs he q hq
            · rw [(hn.level.ok hq).2.2.2]
              refine hn.syn S0 R A D hs (fun p hp => ?_) q hq
              obtain ⟨hp1, hp2⟩ := List.mem_filter.1 hp
              have := ht.syn S0 R A D hs he p hp1
              rwa [beq_iff_eq.1 hp2] at this
  · intro hgrad hfits
    have h32 : c.length + outs.length ≤ 2 ^ 32 := by
      have := hfits N _ (hN N le_rfl)
      rwa [List.length_append] at this
    have hspec := (derivs_spec (fuel := max N (c.length + outs.length)) hw ho hlen hctx ht.complete.nouts_pos hl hcur).2 hgrad
      (le_max_right _ _) h32
    obtain ⟨news, hnews⟩ := hspec
    refine ⟨max N (c.length + outs.length), m ++ news, fun fuel hf => orderStep_mono hf ?_⟩
    rw [hstep _ (hN _ (le_max_left _ _)), hnews]
    rfl

theorem orderLoop_spec (hP : NormSound P) (hSP : ∀ f k, S f k → P f) (hS : GradClosed S)
    (hshare : ∀ es, Represents (share es) es) {fuel : Nat} (n : Nat) : ∀ {cur : Nat} {m m' : List (SIdx × Expr ℝ)},
    cur + n < 2 ^ 32 → Tensor S es args cur m → orderLoop fuel share args n cur m = some (.ok m') →
      Tensor S es args (cur + n) m' := by
  induction n with
  | zero => intro cur m m' _ ht h; rw [orderLoop] at h; cases h; exact ht
  | succ n ih =>
    intro cur m m' hc ht h
    rw [orderLoop] at h
    cases hs : orderStep fuel share args cur m with
    | none => rw [hs] at h; cases h
    | some r =>
      rw [hs] at h
      cases r with
      | throw => cases h
      | ub => cases h
      | ok m1 =>
        have := ih (by omega) ((orderStep_spec hP hSP hS hshare (by omega) ht).1 fuel m1 hs) h
        rwa [show cur + 1 + n = cur + (n + 1) by omega] at this

theorem orderLoop_total (hP : NormSound P) (hSP : ∀ f k, S f k → P f) (hS : GradClosed S)
    (hshare : ∀ es, Represents (share es) es) (hgrad : ∀ f k, S f k → hasGrad f k) (n : Nat) :
    ∀ {cur : Nat} {m : List (SIdx × Expr ℝ)}, cur + n < 2 ^ 32 → Tensor S es args cur m →
    (∀ k, k < n → ∀ fuel m', orderLoop fuel share args k cur m = some (.ok m') → Fits share (cur + k) m') →
    ∃ N m', ∀ fuel, N ≤ fuel → orderLoop fuel share args n cur m = some (.ok m') := by
  induction n with
  | zero => intro cur m _ _ _; exact ⟨0, m, fun _ _ => rfl⟩
  | succ n ih =>
    intro cur m hc ht hfit
    obtain ⟨N1, m1, h1⟩ := (orderStep_spec hP hSP hS hshare (by omega) ht).2 hgrad (hfit 0 (by omega) 0 m rfl)
    have ht1 := (orderStep_spec hP hSP hS hshare (by omega) ht).1 N1 m1 (h1 N1 le_rfl)
    obtain ⟨N2, m2, h2⟩ := ih (cur := cur + 1) (by omega) ht1 (by
      intro k hk fuel m' hm'
      rw [show cur + 1 + k = cur + (k + 1) by omega]
      refine hfit (k + 1) (by omega) (max N1 fuel) m' ?_
      rw [orderLoop, h1 _ (le_max_left _ _)]
      exact orderLoop_mono (le_max_right _ _) _ hm')
    refine ⟨max N1 N2, m2, fun fuel hf => ?_⟩
    rw [orderLoop, h1 _ (by omega)]
    exact h2 fuel (by omega)

/-- The derivatives of order zero. -/
theorem tensor_init (hes : es ≠ []) (hargs : args ≠ []) (ha : args.length < 2 ^ 32)
    (hg : ∀ e ∈ es, GoodS S (fun _ => True) (fun _ => True) e) :
    Tensor S es args 0 (es.zipIdx.map fun p => ((p.2, []), p.1)) := by
  have hmem : ∀ q : SIdx × Expr ℝ, q ∈ es.zipIdx.map (fun p => (((p.2, []) : SIdx), p.1)) ↔
      q.1.2 = [] ∧ es[q.1.1]? = some q.2 := by
    rintro ⟨⟨i, l⟩, e⟩
    rw [List.mem_map]
    constructor
    · rintro ⟨p, hp, he⟩
      simp only [Prod.mk.injEq] at he
      obtain ⟨⟨rfl, rfl⟩, rfl⟩ := he
      rw [List.mem_zipIdx_iff_getElem?] at hp
      exact ⟨rfl, hp⟩
    · rintro ⟨h1, h2⟩
      simp only at h1 h2
      subst h1
      exact ⟨(e, i), by rw [List.mem_zipIdx_iff_getElem?]; exact h2, rfl⟩
  have hne : 0 < es.length := List.length_pos_of_ne_nil hes
  refine ⟨⟨?_, fun v => ?_, hne, List.length_pos_of_ne_nil hargs, ha, by norm_num⟩, fun q hq => ?_, fun i e he => ?_,
    fun q hq hne => absurd ((hmem q).1 hq).1 hne, fun S0 R A D _ he q hq => ?_⟩
  · show (es.zipIdx.map _).Pairwise _
    rw [List.pairwise_map]
    have : (es.zipIdx.map (·.2)).Pairwise (· < ·) := by
      rw [List.zipIdx_map_snd]
      exact List.pairwise_lt_range'
    rw [List.pairwise_map] at this
    exact this.imp fun h => .inr ⟨rfl, .inl h⟩
  · constructor
    · rintro ⟨p, hp, rfl⟩
      obtain ⟨h1, h2⟩ := (hmem p).1 hp
      rw [h1]
      exact ⟨(List.getElem?_eq_some_iff.1 h2).1, ⟨by simp, by simp⟩, by simp, by simp [degree]⟩
    · rintro ⟨h1, h2, -, h4⟩
      have h5 := sane_zero h2 (by omega)
      refine ⟨(v, es[v.1]), (hmem _).2 ⟨h5, List.getElem?_eq_getElem h1⟩, rfl⟩
  · exact hg _ (List.mem_of_getElem? ((hmem q).1 hq).2)
  · exact (hmem _).2 ⟨rfl, he⟩
  · obtain ⟨h1, h2⟩ := (hmem q).1 hq
    rw [h1]
    exact he _ (List.mem_of_getElem? h2)

end Heyoka.AD
