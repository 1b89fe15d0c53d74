import Verif.Events.PolyLemmas
import Verif.Props.Pairwise
import Mathlib.Algebra.BigOperators.Intervals
import Mathlib.Algebra.Order.BigOperators.Group.Finset
import Mathlib.Data.Nat.Choose.Sum

/-!
# Lemmas on the fast exclusion check
-/

namespace Heyoka.Events

variable {K : Type*} [Field K] [LinearOrder K] [IsStrictOrderedRing K]

/-! ## Interval arithmetic -/

theorem mul_between {a b x y : K} (h1 : a ≤ x) (h2 : x ≤ b) : min (a * y) (b * y) ≤ x * y ∧ x * y ≤ max (a * y) (b * y) := by
  rcases le_total 0 y with hy | hy
  · exact ⟨(min_le_left _ _).trans (mul_le_mul_of_nonneg_right h1 hy),
      (mul_le_mul_of_nonneg_right h2 hy).trans (le_max_right _ _)⟩
  · exact ⟨(min_le_right _ _).trans (mul_le_mul_of_nonpos_right h2 hy),
      (mul_le_mul_of_nonpos_right h1 hy).trans (le_max_left _ _)⟩

theorem ivalProd_mem {a b : K × K} {x y : K} (hx : a.1 ≤ x ∧ x ≤ a.2) (hy : b.1 ≤ y ∧ y ≤ b.2) :
    (ivalProd a b).1 ≤ x * y ∧ x * y ≤ (ivalProd a b).2 := by
  obtain ⟨h1, h2⟩ := mul_between (y := y) hx.1 hx.2
  have e1 := mul_between (y := a.1) hy.1 hy.2
  have e2 := mul_between (y := a.2) hy.1 hy.2
  simp only [mul_comm _ a.1, mul_comm _ a.2] at e1 e2
  simp only [ivalProd]
  constructor
  · refine le_trans (le_min ?_ ?_) h1
    · exact (min_le_left _ _).trans e1.1
    · exact (min_le_right _ _).trans e2.1
  · refine le_trans h2 (max_le ?_ ?_)
    · exact e1.2.trans (le_max_left _ _)
    · exact e2.2.trans (le_max_right _ _)

theorem penc_fold {h : K × K} {t : K} (ht : h.1 ≤ t ∧ t ≤ h.2) : ∀ (cs : List K) (acc : K × K) (r : K),
    acc.1 ≤ r ∧ r ≤ acc.2 →
    (cs.foldl (fun acc c => ivalSum (c, c) (ivalProd acc h)) acc).1 ≤ cs.foldl (fun r c => c + r * t) r ∧
    cs.foldl (fun r c => c + r * t) r ≤ (cs.foldl (fun acc c => ivalSum (c, c) (ivalProd acc h)) acc).2 := by
  intro cs
  induction cs with
  | nil => intro acc r h; exact h
  | cons c cs ih =>
    intro acc r hr
    simp only [List.foldl_cons]
    apply ih
    have := ivalProd_mem hr ht
    simp only [ivalSum]
    exact ⟨by linarith [this.1], by linarith [this.2]⟩

/-- The interval version of Horner's scheme encloses the polynomial. -/
theorem pencInterval_ok {poly : List K} (hne : poly ≠ []) (h : K × K) :
    ∃ enc, pencInterval poly h = .ok enc ∧ ∀ t, h.1 ≤ t → t ≤ h.2 → enc.1 ≤ pev poly t ∧ pev poly t ≤ enc.2 := by
  unfold pencInterval
  cases hr : poly.reverse with
  | nil => simp [hne] at hr
  | cons c cs =>
    refine ⟨_, rfl, ?_⟩
    intro t h1 h2
    have e : pev poly t = cs.foldl (fun r c => c + r * t) c := by
      rw [foldl_horner, ← List.reverse_cons, ← hr, List.reverse_reverse]
    rw [e]
    exact penc_fold ⟨h1, h2⟩ cs (c, c) c ⟨le_rfl, le_rfl⟩

/-! ## Cargo-Shisha -/

/-- A Bernstein coefficient of the polynomial with coefficients `A`. -/
def bern (A : Nat → K) (n j : Nat) : K :=
  ∑ i ∈ Finset.range (j + 1), A i * (Nat.choose j i : K) / (Nat.choose n i : K)

omit [LinearOrder K] [IsStrictOrderedRing K] in
theorem csUpdate_map [LinearOrder K] (j : Nat) (f : Nat → K) : ∀ (m i : Nat),
    csUpdate j i ((List.range m).map fun k => f (i + k)) = (List.range m).map fun k =>
      if i + k < j then f (i + k) * ((j : K) / ((j - (i + k) : Nat) : K)) else f (i + k) := by
  intro m
  induction m with
  | zero => intro i; simp [csUpdate]
  | succ m ih =>
    intro i
    rw [List.range_succ_eq_map]
    simp only [List.map_cons, List.map_map, csUpdate, Nat.add_zero, List.cons.injEq, true_and]
    have := ih (i + 1)
    have e : (fun k => f (i + 1 + k)) = ((fun k => f (i + k)) ∘ Nat.succ) := by
      funext k; simp only [Function.comp]; congr 1; omega
    rw [e] at this
    rw [this]
    apply List.map_congr_left
    intro k _
    simp only [Function.comp]
    have e2 : i + 1 + k = i + k.succ := by omega
    rw [e2]

theorem choose_step {j i : Nat} (h : i < j) :
    (Nat.choose (j - 1) i : K) * ((j : K) / ((j - i : Nat) : K)) = (Nat.choose j i : K) := by
  obtain ⟨m, rfl⟩ : ∃ m, j = m + 1 := ⟨j - 1, by omega⟩
  have h1 : (m + 1).choose i * (m + 1 - i) = (m + 1) * m.choose i := by
    have := Nat.choose_mul_succ_eq m i
    rw [← this]; ring
  have h2 : ((m + 1 - i : Nat) : K) ≠ 0 := by
    have : 0 < m + 1 - i := by omega
    exact_mod_cast this.ne'
  have h3 : ((m + 1).choose i : K) * ((m + 1 - i : Nat) : K) = ((m + 1 : Nat) : K) * (m.choose i : K) := by
    exact_mod_cast h1
  rw [Nat.add_sub_cancel, mul_div_assoc', div_eq_iff h2, h3]
  ring

omit [LinearOrder K] [IsStrictOrderedRing K] in
theorem sum_map_range (f : Nat → K) (m : Nat) : ((List.range m).map f).sum = ∑ i ∈ Finset.range m, f i := by
  rw [← List.sum_toFinset _ List.nodup_range, List.toFinset_range]

theorem csLoop_ok (A : Nat → K) (n : Nat) (h : K) (a : Nat → K) (hA : ∀ i, A i = a i * h ^ i) :
    ∀ (m j : Nat), 1 ≤ j → j + m = n + 1 → ∀ (mm : K × K),
    ∃ enc, csLoop n h j ((List.range m).map fun k => a (j + k)) (h ^ j)
        ((List.range j).map fun i => A i * (Nat.choose (j - 1) i : K) / (Nat.choose n i : K)) mm = .ok enc ∧
      (enc.1 ≤ mm.1 ∧ mm.2 ≤ enc.2) ∧ ∀ k, j ≤ k → k ≤ n → enc.1 ≤ bern A n k ∧ bern A n k ≤ enc.2 := by
  intro m
  induction m with
  | zero =>
    intro j hj hjm mm
    exact ⟨mm, by simp [csLoop], ⟨le_rfl, le_rfl⟩, by intro k h1 h2; omega⟩
  | succ m ih =>
    intro j hj hjm mm
    rw [List.range_succ_eq_map]
    simp only [List.map_cons, List.map_map, Nat.add_zero, csLoop]
    -- The updated series.
    have hser : csUpdate j 0 (((List.range j).map fun i => A i * (Nat.choose (j - 1) i : K) / (Nat.choose n i : K))
        ++ [a j * h ^ j / (Nat.choose n j : K)])
        = (List.range (j + 1)).map fun i => A i * (Nat.choose j i : K) / (Nat.choose n i : K) := by
      have e1 : ((List.range j).map fun i => A i * (Nat.choose (j - 1) i : K) / (Nat.choose n i : K))
          ++ [a j * h ^ j / (Nat.choose n j : K)]
          = (List.range (j + 1)).map fun k => (fun i => if i < j then A i * (Nat.choose (j - 1) i : K) / (Nat.choose n i : K)
              else A i / (Nat.choose n i : K)) (0 + k) := by
        rw [List.range_succ, List.map_append]
        congr 1
        · apply List.map_congr_left
          intro i hi
          have : i < j := List.mem_range.mp hi
          simp [this]
        · simp [hA]
      rw [e1]
      refine (csUpdate_map j (fun i => if i < j then A i * (Nat.choose (j - 1) i : K) / (Nat.choose n i : K)
              else A i / (Nat.choose n i : K)) (j + 1) 0).trans ?_
      apply List.map_congr_left
      intro i hi
      have hi : i < j + 1 := List.mem_range.mp hi
      simp only [Nat.zero_add]
      by_cases hij : i < j
      · simp only [hij, if_true]
        rw [← choose_step (K := K) hij]
        ring
      · have : i = j := by omega
        subst this
        simp
    rw [hser]
    have hsum : Util.pairwiseReduce (· + ·) ((List.range (j + 1)).map fun i =>
        A i * (Nat.choose j i : K) / (Nat.choose n i : K)) = some (bern A n j) := by
      have e : (List.range (j + 1)).map (fun i => A i * (Nat.choose j i : K) / (Nat.choose n i : K))
          = (A 0 * (Nat.choose j 0 : K) / (Nat.choose n 0 : K)) :: ((List.range j).map Nat.succ).map
            (fun i => A i * (Nat.choose j i : K) / (Nat.choose n i : K)) := by
        rw [List.range_succ_eq_map]; rfl
      have := Util.pairwiseSum_eq_sum (A 0 * (Nat.choose j 0 : K) / (Nat.choose n 0 : K))
        (((List.range j).map Nat.succ).map (fun i => A i * (Nat.choose j i : K) / (Nat.choose n i : K)))
      rw [← e, sum_map_range] at this
      exact this
    rw [hsum]
    simp only
    obtain ⟨enc, g1, g2, g3⟩ := ih (j + 1) (by omega) (by omega) (min mm.1 (bern A n j), max mm.2 (bern A n j))
    have hcomp : ((fun k => a (j + k)) ∘ Nat.succ) = fun k => a (j + 1 + k) := by
      funext k; simp only [Function.comp]; congr 1; omega
    rw [hcomp]
    have hfin : csLoop n h (j + 1) ((List.range m).map fun k => a (j + 1 + k)) (if j ≠ n then h ^ j * h else h ^ j)
        ((List.range (j + 1)).map fun i => A i * (Nat.choose j i : K) / (Nat.choose n i : K))
        (min mm.1 (bern A n j), max mm.2 (bern A n j)) = .ok enc := by
      by_cases hjn : j = n
      · have : m = 0 := by omega
        subst this
        simpa [csLoop] using g1
      · rw [if_pos hjn, ← pow_succ]
        simpa using g1
    refine ⟨enc, hfin, ⟨g2.1.trans (min_le_left _ _), (le_max_left _ _).trans g2.2⟩, ?_⟩
    intro k hk1 hk2
    rcases Nat.lt_or_ge j k with hlt | hge
    · exact g3 k hlt hk2
    · have : k = j := by omega
      subst this
      exact ⟨g2.1.trans (min_le_right _ _), (le_max_right _ _).trans g2.2⟩

/-- The polynomial in Bernstein form. -/
theorem bern_sum (A : Nat → K) (n : Nat) (u : K) :
    ∑ j ∈ Finset.range (n + 1), bern A n j * ((Nat.choose n j : K) * u ^ j * (1 - u) ^ (n - j))
      = ∑ i ∈ Finset.range (n + 1), A i * u ^ i := by
  have hb : ∀ j ∈ Finset.range (n + 1), bern A n j * ((Nat.choose n j : K) * u ^ j * (1 - u) ^ (n - j))
      = ∑ i ∈ Finset.range (n + 1), A i * (Nat.choose j i : K) / (Nat.choose n i : K)
          * ((Nat.choose n j : K) * u ^ j * (1 - u) ^ (n - j)) := by
    intro j hj
    have hj : j < n + 1 := Finset.mem_range.mp hj
    rw [← Finset.sum_mul]
    congr 1
    unfold bern
    refine Finset.sum_subset (Finset.range_subset_range.mpr (by omega)) ?_
    intro i _ hi2
    have : j < i := by simpa using hi2
    rw [Nat.choose_eq_zero_of_lt this]; simp
  rw [Finset.sum_congr rfl hb, Finset.sum_comm]
  apply Finset.sum_congr rfl
  intro i hi
  have hi : i ≤ n := by have := Finset.mem_range.mp hi; omega
  have hci : (Nat.choose n i : K) ≠ 0 := by exact_mod_cast (Nat.choose_pos hi).ne'
  -- Only the indices from `i` count.
  have hsplit : ∑ j ∈ Finset.range (n + 1), A i * (Nat.choose j i : K) / (Nat.choose n i : K)
          * ((Nat.choose n j : K) * u ^ j * (1 - u) ^ (n - j))
      = ∑ k ∈ Finset.range (n - i + 1), A i * u ^ i * (u ^ k * (1 - u) ^ (n - i - k) * (Nat.choose (n - i) k : K)) := by
    have hn : n + 1 = i + (n - i + 1) := by omega
    rw [hn, Finset.sum_range_add]
    rw [Finset.sum_eq_zero, zero_add]
    · apply Finset.sum_congr rfl
      intro k hk
      have hk : k ≤ n - i := by have := Finset.mem_range.mp hk; omega
      have hch : n.choose (i + k) * (i + k).choose i = n.choose i * (n - i).choose k := by
        have := Nat.choose_mul (n := n) (k := i + k) (s := i) (by omega)
        rw [Nat.add_sub_cancel_left] at this
        exact this
      have hch' : (n.choose (i + k) : K) * ((i + k).choose i : K) = (n.choose i : K) * ((n - i).choose k : K) := by
        exact_mod_cast hch
      have e1 : n - (i + k) = n - i - k := by omega
      rw [e1, pow_add]
      rw [div_mul_eq_mul_div, div_eq_iff hci]
      linear_combination (A i * u ^ i * u ^ k * (1 - u) ^ (n - i - k)) * hch'
    · intro j hj
      have : j < i := Finset.mem_range.mp hj
      rw [Nat.choose_eq_zero_of_lt this]; simp
  rw [hsplit, ← Finset.mul_sum, ← add_pow]
  simp

omit [LinearOrder K] [IsStrictOrderedRing K] in
theorem pev_eq_range_sum (l : List K) (x : K) : pev l x = ∑ i ∈ Finset.range l.length, l.getD i 0 * x ^ i := by
  rw [pev_eq_sum, ← Fin.sum_univ_eq_sum_range (fun i => l.getD i 0 * x ^ i)]
  refine Finset.sum_congr rfl fun i _ => ?_
  simp [List.getD]

/-- The Cargo-Shisha algorithm encloses the polynomial. -/
theorem pencCargoShisha_ok {n : Nat} {poly : List K} (hlen : poly.length = n + 1) (h : K) :
    ∃ enc, pencCargoShisha n poly h = .ok enc ∧
      ∀ u, 0 ≤ u → u ≤ 1 → enc.1 ≤ pev poly (h * u) ∧ pev poly (h * u) ≤ enc.2 := by
  cases poly with
  | nil => simp at hlen
  | cons b0 cfs =>
    obtain ⟨a, ha⟩ : ∃ a : Nat → K, a = fun i => (b0 :: cfs).getD i 0 := ⟨_, rfl⟩
    obtain ⟨A, hAd⟩ : ∃ A : Nat → K, A = fun i => a i * h ^ i := ⟨_, rfl⟩
    have hA : ∀ i, A i = a i * h ^ i := by rw [hAd]; simp
    have hcl : cfs.length = n := by simpa using hlen
    have hcfs : cfs = (List.range n).map fun k => a (1 + k) := by
      apply List.ext_getElem
      · simp [hcl]
      · intro i h1 h2
        simp only [List.getElem_map, List.getElem_range, ha]
        rw [Nat.add_comm 1 i]
        simp [h1]
    obtain ⟨enc, g1, g2, g3⟩ := csLoop_ok A n h a hA n 1 le_rfl (by omega) (b0, b0)
    have hs1 : ((List.range 1).map fun i => A i * (Nat.choose (1 - 1) i : K) / (Nat.choose n i : K)) = [b0] := by
      simp [hA, ha]
    rw [hs1, ← hcfs, pow_one] at g1
    refine ⟨enc, g1, ?_⟩
    intro u hu0 hu1
    have hval : pev (b0 :: cfs) (h * u)
        = ∑ j ∈ Finset.range (n + 1), bern A n j * ((Nat.choose n j : K) * u ^ j * (1 - u) ^ (n - j)) := by
      rw [bern_sum, pev_eq_range_sum, hlen]
      apply Finset.sum_congr rfl
      intro i _
      rw [hA, ha, mul_pow]; ring
    have hone : ∑ j ∈ Finset.range (n + 1), (Nat.choose n j : K) * u ^ j * (1 - u) ^ (n - j) = 1 := by
      have := add_pow u (1 - u) n
      rw [add_sub_cancel, one_pow] at this
      refine Eq.trans ?_ this.symm
      apply Finset.sum_congr rfl
      intro j _; ring
    have hw : ∀ j ∈ Finset.range (n + 1), 0 ≤ (Nat.choose n j : K) * u ^ j * (1 - u) ^ (n - j) := by
      intro j _
      have : 0 ≤ 1 - u := by linarith
      positivity
    have hbj : ∀ j ∈ Finset.range (n + 1), enc.1 ≤ bern A n j ∧ bern A n j ≤ enc.2 := by
      intro j hj
      have hj : j < n + 1 := Finset.mem_range.mp hj
      rcases Nat.eq_zero_or_pos j with rfl | hp
      · have : bern A n 0 = b0 := by simp [bern, hA, ha]
        rw [this]; exact g2
      · exact g3 j hp (by omega)
    rw [hval]
    constructor
    · calc enc.1 = ∑ j ∈ Finset.range (n + 1), enc.1 * ((Nat.choose n j : K) * u ^ j * (1 - u) ^ (n - j)) := by
            rw [← Finset.mul_sum, hone, mul_one]
        _ ≤ _ := Finset.sum_le_sum fun j hj => mul_le_mul_of_nonneg_right (hbj j hj).1 (hw j hj)
    · calc _ ≤ ∑ j ∈ Finset.range (n + 1), enc.2 * ((Nat.choose n j : K) * u ^ j * (1 - u) ^ (n - j)) :=
            Finset.sum_le_sum fun j hj => mul_le_mul_of_nonneg_right (hbj j hj).2 (hw j hj)
        _ = enc.2 := by rw [← Finset.mul_sum, hone, mul_one]

/-- The exclusion check is total and does not exclude zeros. -/
theorem fexCheck_ok {n : Nat} {poly : List K} (hlen : poly.length = n + 1) (useCs : Bool) (h : K) :
    ∃ b, fexCheck useCs n poly h (decide (h < 0)) = .ok b ∧
      (b = true → ∀ u, 0 ≤ u → u ≤ 1 → pev poly (h * u) ≠ 0) := by
  have hne : poly ≠ [] := by rw [← List.length_pos_iff, hlen]; omega
  obtain ⟨enc, he1, he2⟩ : ∃ enc, (if useCs then pencCargoShisha n poly h
      else pencInterval poly (if decide (h < 0) = true then h else 0, if decide (h < 0) = true then 0 else h)) = .ok enc ∧
      ∀ u, 0 ≤ u → u ≤ 1 → enc.1 ≤ pev poly (h * u) ∧ pev poly (h * u) ≤ enc.2 := by
    cases useCs with
    | true => simpa using pencCargoShisha_ok hlen h
    | false =>
      obtain ⟨enc, g1, g2⟩ := pencInterval_ok hne
        (if decide (h < 0) = true then h else 0, if decide (h < 0) = true then 0 else h)
      refine ⟨enc, by simpa using g1, ?_⟩
      intro u hu0 hu1
      refine g2 (h * u) ?_ ?_
      · by_cases hh : h < 0
        · simp only [hh, decide_true, if_true]; nlinarith
        · simp only [hh, decide_false, Bool.false_eq_true, if_false]
          push Not at hh; positivity
      · by_cases hh : h < 0
        · simp only [hh, decide_true, if_true]; nlinarith
        · simp only [hh, decide_false, Bool.false_eq_true, if_false]
          push Not at hh; nlinarith
  refine ⟨decide (sgn enc.1 = sgn enc.2) && decide (sgn enc.1 ≠ 0), ?_, ?_⟩
  · unfold fexCheck
    rw [he1]
    rfl
  · intro hb u hu0 hu1 h0
    obtain ⟨g1, g2⟩ := he2 u hu0 hu1
    rw [h0] at g1 g2
    simp only [Bool.and_eq_true, decide_eq_true_eq] at hb
    obtain ⟨hb1, hb2⟩ := hb
    unfold sgn at hb1 hb2
    rcases lt_or_eq_of_le g1 with h1 | h1
    · rcases lt_or_eq_of_le g2 with h2 | h2
      · simp [h1, h2, h1.le, h2.le, not_lt.mpr h1.le, not_lt.mpr h2.le] at hb1
      · simp [← h2, h1, not_lt.mpr h1.le] at hb1
    · simp [h1] at hb2

end Heyoka.Events
