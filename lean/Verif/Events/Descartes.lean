import Verif.Events.PolyLemmas
import Mathlib.Topology.Order.IntermediateValue
import Mathlib.Topology.Instances.Real.Lemmas
import Mathlib.Topology.Algebra.Monoid
import Mathlib.Tactic.Positivity

/-!
# Sign changes and positive roots

Descartes' rule of signs in the two cases used by the event detection: no sign changes (no positive roots) and
exactly one sign change (exactly one positive root, where the polynomial changes sign).
-/

namespace Heyoka.Events

variable {K : Type*}

section
variable [Field K] [LinearOrder K]

theorem sgn_pos {x : K} (h : 0 < x) : sgn x = 1 := by simp [sgn, h, h.le]
theorem sgn_neg {x : K} (h : x < 0) : sgn x = -1 := by simp [sgn, h, h.le]
@[simp] theorem sgn_zero : sgn (0 : K) = 0 := by simp [sgn]

theorem sgn_cases (x : K) : (0 < x ∧ sgn x = 1) ∨ (x = 0 ∧ sgn x = 0) ∨ (x < 0 ∧ sgn x = -1) := by
  rcases lt_trichotomy x 0 with h | h | h
  · exact .inr (.inr ⟨h, sgn_neg h⟩)
  · exact .inr (.inl ⟨h, by rw [h]; simp⟩)
  · exact .inl ⟨h, sgn_pos h⟩

/-- Sign changes in a list following a coefficient of sign `s` (0: no nonzero coefficient yet). -/
def scGo : Int → List K → Nat
  | _, [] => 0
  | s, a :: l => (if s = 0 then 0 else if sgn a + s = 0 then 1 else 0) + scGo (if sgn a = 0 then s else sgn a) l

theorem cscLoop_eq {cf : List K} : ∀ (m : Nat), m ≤ cf.length → ∀ (lastNz ret : Nat) (hl : lastNz < cf.length),
    cscLoop cf ((List.range cf.length).drop (cf.length - m)) lastNz ret
      = .ok (ret + scGo (sgn cf[lastNz]) (cf.drop (cf.length - m))) := by
  intro m
  induction m with
  | zero =>
    intro _ lastNz ret hl
    have : (List.range cf.length).drop cf.length = [] := by simp
    simp [this, cscLoop, scGo]
  | succ m ih =>
    intro hm lastNz ret hl
    obtain ⟨i, hi⟩ : ∃ i, cf.length - (m + 1) = i := ⟨_, rfl⟩
    have hi2 : cf.length - m = i + 1 := by omega
    have hin : i < cf.length := by omega
    rw [hi2] at ih
    rw [hi]
    have hd : (List.range cf.length).drop i = i :: (List.range cf.length).drop (i + 1) := by
      rw [List.drop_eq_getElem_cons (by simpa using hin)]; simp
    rw [hd, List.drop_eq_getElem_cons hin]
    simp only [cscLoop, rd_ok hin, rd_ok hl, Res.bind_ok, scGo]
    have hif : ∀ (h : (if sgn cf[i] = 0 then lastNz else i) < cf.length),
        sgn (cf[if sgn cf[i] = 0 then lastNz else i]'h) = if sgn cf[i] = 0 then sgn cf[lastNz] else sgn cf[i] := by
      intro h
      by_cases h0 : sgn cf[i] = 0
      · simp only [h0, if_true]
      · simp only [h0, if_false]
    have hlt : (if sgn cf[i] = 0 then lastNz else i) < cf.length := by split <;> omega
    rw [ih (by omega) _ _ hlt, hif hlt]
    congr 1
    have : (if (if sgn cf[lastNz] = 0 then false else decide (sgn cf[i] + sgn cf[lastNz] = 0)) = true then 1 else 0)
        = (if sgn cf[lastNz] = 0 then 0 else if sgn cf[i] + sgn cf[lastNz] = 0 then 1 else 0) := by
      by_cases h1 : sgn cf[lastNz] = 0
      · simp [h1]
      · by_cases h2 : sgn cf[i] + sgn cf[lastNz] = 0 <;> simp [h1, h2]
    rw [this]
    omega

/-- The counting function counts the sign changes. -/
theorem csc_eq {n : Nat} {a : K} {l : List K} (h : (a :: l).length = n + 1) :
    csc n (a :: l) = .ok (scGo (sgn a) l) := by
  have := cscLoop_eq (cf := a :: l) l.length (by simp) 0 0 (by simp)
  simp only [List.length_cons, Nat.add_sub_cancel_left, List.drop_succ_cons, List.drop_zero,
    List.getElem_cons_zero, Nat.zero_add] at this
  have hn : n = l.length := by simpa using h.symm
  unfold csc
  rw [hn]
  exact this

theorem scGo_zero_all [IsStrictOrderedRing K] : ∀ (l : List K) (s : Int), s = 1 ∨ s = -1 → scGo s l = 0 →
    ∀ c ∈ l, 0 ≤ (s : K) * c := by
  intro l
  induction l with
  | nil => intro s _ _ c hc; simp at hc
  | cons a l ih =>
    intro s hs h c hc
    simp only [scGo] at h
    have hs0 : s ≠ 0 := by rcases hs with rfl | rfl <;> decide
    simp only [hs0, if_false, Nat.add_eq_zero_iff] at h
    obtain ⟨h1, h2⟩ := h
    have h1 : sgn a + s ≠ 0 := by
      intro h0; simp [h0] at h1
    have ha : (sgn a = 0 ∧ a = 0) ∨ (sgn a = s ∧ 0 ≤ (s : K) * a) := by
      rcases sgn_cases a with ⟨g1, g2⟩ | ⟨g1, g2⟩ | ⟨g1, g2⟩
      · right
        rcases hs with rfl | rfl
        · exact ⟨g2, by simpa using g1.le⟩
        · rw [g2] at h1; exact absurd rfl h1
      · exact .inl ⟨g2, g1⟩
      · right
        rcases hs with rfl | rfl
        · rw [g2] at h1; exact absurd rfl h1
        · exact ⟨g2, by simpa using g1.le⟩
    have hst : (if sgn a = 0 then s else sgn a) = s := by
      rcases ha with ⟨g1, -⟩ | ⟨g1, -⟩
      · simp [g1]
      · rw [g1]; simp
    rw [hst] at h2
    rcases List.mem_cons.mp hc with rfl | hc
    · rcases ha with ⟨-, g⟩ | ⟨-, g⟩
      · rw [g]; simp
      · exact g
    · exact ih s hs h2 c hc

/-- One sign change: the list splits into two parts of constant opposite signs. -/
theorem scGo_one_split [IsStrictOrderedRing K] : ∀ (l : List K) (s : Int), s = 1 ∨ s = -1 → scGo s l = 1 →
    ∃ a b, l = a ++ b ∧ (∀ c ∈ a, 0 ≤ (s : K) * c) ∧ (∀ c ∈ b, (s : K) * c ≤ 0) ∧ ∃ c ∈ b, (s : K) * c < 0 := by
  intro l
  induction l with
  | nil => intro s _ h; simp [scGo] at h
  | cons x l ih =>
    intro s hs h
    simp only [scGo] at h
    have hs0 : s ≠ 0 := by rcases hs with rfl | rfl <;> decide
    simp only [hs0, if_false] at h
    by_cases h1 : sgn x + s = 0
    · have hx : sgn x = -s := by omega
      have hxs : (s : K) * x < 0 := by
        rcases sgn_cases x with ⟨g1, g2⟩ | ⟨g1, g2⟩ | ⟨g1, g2⟩
        · have : s = -1 := by omega
          rw [this]; simpa using g1
        · omega
        · have : s = 1 := by omega
          rw [this]; simpa using g1
      have hz : scGo (-s) l = 0 := by
        have h2 : (if sgn x = 0 then s else sgn x) = -s := by rw [hx]; simp [hs0]
        rw [h2, if_pos h1] at h
        omega
      have := scGo_zero_all l (-s) (by omega) hz
      refine ⟨[], x :: l, rfl, by simp, ?_, x, List.mem_cons_self, hxs⟩
      intro c hc
      rcases List.mem_cons.mp hc with rfl | hc
      · exact hxs.le
      · have := this c hc
        push_cast at this
        linarith
    · rw [if_neg h1, Nat.zero_add] at h
      have hx : (if sgn x = 0 then s else sgn x) = s ∧ 0 ≤ (s : K) * x := by
        rcases sgn_cases x with ⟨g1, g2⟩ | ⟨g1, g2⟩ | ⟨g1, g2⟩
        · rcases hs with rfl | rfl
          · exact ⟨by simp [g2], by simpa using g1.le⟩
          · omega
        · exact ⟨by simp [g2], by rw [g1]; simp⟩
        · rcases hs with rfl | rfl
          · omega
          · exact ⟨by simp [g2], by simpa using g1.le⟩
      rw [hx.1] at h
      obtain ⟨a, b, e1, e2, e3, e4⟩ := ih s hs h
      refine ⟨x :: a, b, by rw [e1]; rfl, ?_, e3, e4⟩
      intro c hc
      rcases List.mem_cons.mp hc with rfl | hc
      · exact hx.2
      · exact e2 c hc

/-- No nonzero coefficient yet. -/
theorem scGo_of_zero : ∀ (l : List K), (∀ c ∈ l, c = 0) ∨
    ∃ z x m, l = z ++ x :: m ∧ (∀ c ∈ z, c = 0) ∧ x ≠ 0 ∧ scGo 0 l = scGo (sgn x) m := by
  intro l
  induction l with
  | nil => left; simp
  | cons a l ih =>
    by_cases ha : a = 0
    · rcases ih with h | ⟨z, x, m, h1, h2, h3, h4⟩
      · left
        intro c hc
        rcases List.mem_cons.mp hc with rfl | hc
        · exact ha
        · exact h c hc
      · right
        refine ⟨a :: z, x, m, by rw [h1]; rfl, ?_, h3, ?_⟩
        · intro c hc
          rcases List.mem_cons.mp hc with rfl | hc
          · exact ha
          · exact h2 c hc
        · rw [← h4]; simp [scGo, ha]
    · right
      refine ⟨[], a, l, rfl, by simp, ha, ?_⟩
      have : sgn a ≠ 0 := by
        rcases sgn_cases a with ⟨g1, g2⟩ | ⟨g1, g2⟩ | ⟨g1, g2⟩
        · rw [g2]; decide
        · exact absurd g1 ha
        · rw [g2]; decide
      simp [scGo, this]

theorem csc_normal {n : Nat} {l : List K} (h : l.length = n + 1) :
    (∀ c ∈ l, c = 0) ∨ ∃ z x m, l = z ++ x :: m ∧ (∀ c ∈ z, c = 0) ∧ x ≠ 0 ∧ csc n l = .ok (scGo (sgn x) m) := by
  cases l with
  | nil => simp at h
  | cons a l =>
    have e := csc_eq h
    by_cases ha : a = 0
    · rcases scGo_of_zero l with h1 | ⟨z, x, m, h1, h2, h3, h4⟩
      · left
        intro c hc
        rcases List.mem_cons.mp hc with rfl | hc
        · exact ha
        · exact h1 c hc
      · right
        refine ⟨a :: z, x, m, by rw [h1]; rfl, ?_, h3, ?_⟩
        · intro c hc
          rcases List.mem_cons.mp hc with rfl | hc
          · exact ha
          · exact h2 c hc
        · rw [e, ha, sgn_zero, h4]
    · exact .inr ⟨[], a, l, rfl, by simp, ha, e⟩

theorem pev_nonneg [IsStrictOrderedRing K] {l : List K} (h : ∀ c ∈ l, 0 ≤ c) {x : K} (hx : 0 ≤ x) : 0 ≤ pev l x := by
  induction l with
  | nil => simp
  | cons a l ih =>
    rw [pev_cons]
    have := ih fun c hc => h c (List.mem_cons_of_mem _ hc)
    have := h a List.mem_cons_self
    positivity

theorem pev_pos [IsStrictOrderedRing K] {l : List K} (h : ∀ c ∈ l, 0 ≤ c) (hp : ∃ c ∈ l, 0 < c) {x : K} (hx : 0 < x) :
    0 < pev l x := by
  induction l with
  | nil => simp at hp
  | cons a l ih =>
    rw [pev_cons]
    have h0 := h a List.mem_cons_self
    have hl := fun c hc => h c (List.mem_cons_of_mem a hc)
    obtain ⟨c, hc, hcp⟩ := hp
    rcases List.mem_cons.mp hc with rfl | hc
    · have := pev_nonneg hl hx.le
      positivity
    · have := ih hl ⟨c, hc, hcp⟩
      positivity

theorem pev_map_mul (s : K) (l : List K) (x : K) : pev (l.map (s * ·)) x = s * pev l x := by
  induction l with
  | nil => simp
  | cons a l ih => simp only [List.map_cons, pev_cons, ih]; ring

/-- Without sign changes there are no positive roots. -/
theorem no_roots_of_csc_zero [IsStrictOrderedRing K] {n : Nat} {l : List K} (hlen : l.length = n + 1)
    (hnz : ∃ c ∈ l, c ≠ 0) (h : csc n l = .ok 0) {x : K} (hx : 0 < x) : pev l x ≠ 0 := by
  rcases csc_normal hlen with h1 | ⟨z, y, m, h1, h2, h3, h4⟩
  · obtain ⟨c, hc, hc0⟩ := hnz
    exact absurd (h1 c hc) hc0
  · rw [h4] at h
    have h : scGo (sgn y) m = 0 := by simpa using h
    have hs : sgn y = 1 ∨ sgn y = -1 := by
      rcases sgn_cases y with ⟨-, g⟩ | ⟨g, -⟩ | ⟨-, g⟩
      · exact .inl g
      · exact absurd g h3
      · exact .inr g
    have hall := scGo_zero_all m _ hs h
    have hys : 0 < (sgn y : K) * y := by
      rcases sgn_cases y with ⟨g, e⟩ | ⟨g, -⟩ | ⟨g, e⟩
      · rw [e]; simpa using g
      · exact absurd g h3
      · rw [e]; simpa using g
    have : 0 < pev (l.map ((sgn y : K) * ·)) x := by
      refine pev_pos ?_ ⟨(sgn y : K) * y, List.mem_map.mpr ⟨y, by rw [h1]; simp, rfl⟩, hys⟩ hx
      intro c hc
      obtain ⟨d, hd, rfl⟩ := List.mem_map.mp hc
      rw [h1] at hd
      rcases List.mem_append.mp hd with hd | hd
      · rw [h2 d hd]; simp
      · rcases List.mem_cons.mp hd with rfl | hd
        · exact hys.le
        · exact hall d hd
    rw [pev_map_mul] at this
    intro h0
    rw [h0] at this
    simp at this

/-- Growth of a polynomial with non-negative coefficients. -/
theorem pev_growth [IsStrictOrderedRing K] {x y : K} (hx : 0 < x) (hxy : x < y) : ∀ (l : List K),
    (∀ c ∈ l, 0 ≤ c) → pev l y * x ^ l.length ≤ pev l x * y ^ l.length ∧
      ((∃ c ∈ l, 0 < c) → pev l y * x ^ l.length < pev l x * y ^ l.length) := by
  intro l
  induction l with
  | nil => intro _; simp
  | cons a l ih =>
    intro h
    have h0 := h a List.mem_cons_self
    obtain ⟨i1, i2⟩ := ih fun c hc => h c (List.mem_cons_of_mem _ hc)
    have hy : 0 < y := hx.trans hxy
    have hpow : x ^ (l.length + 1) < y ^ (l.length + 1) := pow_lt_pow_left₀ hxy hx.le (by omega)
    have e1 : pev (a :: l) y * x ^ (a :: l).length
        = a * x ^ (l.length + 1) + (x * y) * (pev l y * x ^ l.length) := by
      simp only [pev_cons, List.length_cons, pow_succ]; ring
    have e2 : pev (a :: l) x * y ^ (a :: l).length
        = a * y ^ (l.length + 1) + (x * y) * (pev l x * y ^ l.length) := by
      simp only [pev_cons, List.length_cons, pow_succ]; ring
    rw [e1, e2]
    have hxyp : 0 < x * y := mul_pos hx hy
    have j1 : a * x ^ (l.length + 1) ≤ a * y ^ (l.length + 1) := mul_le_mul_of_nonneg_left hpow.le h0
    have j2 := mul_le_mul_of_nonneg_left i1 hxyp.le
    refine ⟨add_le_add j1 j2, ?_⟩
    rintro ⟨c, hc, hcp⟩
    rcases List.mem_cons.mp hc with rfl | hc
    · exact add_lt_add_of_lt_of_le (mul_lt_mul_of_pos_left hpow hcp) j2
    · exact add_lt_add_of_le_of_lt j1 (mul_lt_mul_of_pos_left (i2 ⟨c, hc, hcp⟩) hxyp)

/-- Two parts of opposite signs: once the polynomial is not positive it stays negative. -/
theorem pev_decreasing [IsStrictOrderedRing K] {a b : List K} (ha : ∀ c ∈ a, 0 ≤ c) (hap : ∃ c ∈ a, 0 < c)
    (hb : ∀ c ∈ b, c ≤ 0) {x y : K} (hx : 0 < x) (hxy : x < y) (h : pev (a ++ b) x ≤ 0) :
    pev (a ++ b) y < 0 := by
  rw [pev_append] at h ⊢
  have g := (pev_growth hx hxy a ha).2 hap
  -- `-b` is non-negative and increasing.
  have hmono : pev b y ≤ pev b x := by
    clear h
    induction b with
    | nil => simp
    | cons c b ih =>
      have hy : 0 < y := hx.trans hxy
      have i1 := ih fun d hd => hb d (List.mem_cons_of_mem _ hd)
      have i2 : pev b y ≤ 0 := by
        have := pev_nonneg (l := b.map ((-1 : K) * ·)) (by
          intro d hd
          obtain ⟨e, he, rfl⟩ := List.mem_map.mp hd
          have := hb e (List.mem_cons_of_mem _ he)
          linarith) hy.le
        rw [pev_map_mul] at this
        linarith
      simp only [pev_cons]
      nlinarith
  have hy : 0 < y := hx.trans hxy
  have hxk : 0 < x ^ a.length := pow_pos hx _
  have hyk : 0 < y ^ a.length := pow_pos hy _
  by_contra hc
  push Not at hc
  have h1 : 0 ≤ (pev a y + y ^ a.length * pev b y) * x ^ a.length := mul_nonneg hc hxk.le
  have h2 : (pev a x + x ^ a.length * pev b x) * y ^ a.length ≤ 0 := mul_nonpos_of_nonpos_of_nonneg h hyk.le
  have h3 : y ^ a.length * x ^ a.length * pev b y ≤ y ^ a.length * x ^ a.length * pev b x :=
    mul_le_mul_of_nonneg_left hmono (mul_pos hyk hxk).le
  nlinarith

end

/-! ## Existence of the root -/

theorem continuous_pev (l : List ℝ) : Continuous (pev l) := by
  induction l with
  | nil => exact continuous_const
  | cons a l ih => exact continuous_const.add (continuous_id.mul ih)

/-- Sign near 0. -/
theorem pev_near_zero {z m : List ℝ} {y : ℝ} (hz : ∀ c ∈ z, c = 0) (hy : 0 < y) :
    ∃ ε > 0, ∀ x, 0 < x → x ≤ ε → 0 < pev (z ++ y :: m) x := by
  have hcont := continuous_pev (y :: m)
  have h0 : pev (y :: m) 0 = y := by simp
  have hev : ∀ᶠ x in nhds (0 : ℝ), 0 < pev (y :: m) x := by
    have := hcont.tendsto 0
    rw [h0] at this
    exact this.eventually (lt_mem_nhds hy)
  obtain ⟨ε, hε, hball⟩ := Metric.eventually_nhds_iff.mp hev
  refine ⟨ε / 2, by linarith, ?_⟩
  intro x hx hxe
  have hz0 : pev z x = 0 := by
    clear hxe hball
    induction z with
    | nil => rfl
    | cons a z ih =>
      rw [pev_cons, hz a List.mem_cons_self, ih fun c hc => hz c (List.mem_cons_of_mem _ hc)]
      simp
  rw [pev_append, hz0, zero_add]
  refine mul_pos (pow_pos hx _) (hball ?_)
  rw [Real.dist_eq, sub_zero, abs_of_pos hx]
  linarith

theorem exists_last_nonzero {l : List ℝ} (h : ∃ c ∈ l, c < 0) (hall : ∀ c ∈ l, c ≤ 0) :
    ∃ z y m, l.reverse = z ++ y :: m ∧ (∀ c ∈ z, c = 0) ∧ y < 0 := by
  have hall' : ∀ c ∈ l.reverse, c ≤ 0 := fun c hc => hall c (List.mem_reverse.mp hc)
  have h' : ∃ c ∈ l.reverse, c < 0 := by
    obtain ⟨c, hc, hcn⟩ := h; exact ⟨c, List.mem_reverse.mpr hc, hcn⟩
  generalize l.reverse = r at *
  clear h hall
  induction r with
  | nil => simp at h'
  | cons a r ih =>
    rcases lt_or_eq_of_le (hall' a List.mem_cons_self) with ha | ha
    · exact ⟨[], a, r, rfl, by simp, ha⟩
    · obtain ⟨c, hc, hcn⟩ := h'
      rcases List.mem_cons.mp hc with rfl | hc
      · linarith
      · obtain ⟨z, y, m, h1, h2, h3⟩ := ih (fun c hc => hall' c (List.mem_cons_of_mem _ hc)) ⟨c, hc, hcn⟩
        refine ⟨a :: z, y, m, by rw [h1]; rfl, ?_, h3⟩
        intro d hd
        rcases List.mem_cons.mp hd with rfl | hd
        · exact ha
        · exact h2 d hd

/-- A polynomial with one sign change from positive to negative coefficients has exactly one positive root,
where it changes sign. -/
theorem unique_root {z m b : List ℝ} {y : ℝ} (hz : ∀ c ∈ z, c = 0) (hy : 0 < y) (hm : ∀ c ∈ m, 0 ≤ c)
    (hb : ∀ c ∈ b, c ≤ 0) (hbn : ∃ c ∈ b, c < 0) :
    ∃ r, 0 < r ∧ pev (z ++ y :: (m ++ b)) r = 0 ∧ (∀ x, 0 < x → x < r → 0 < pev (z ++ y :: (m ++ b)) x) ∧
      (∀ x, r < x → pev (z ++ y :: (m ++ b)) x < 0) := by
  have e : z ++ y :: (m ++ b) = (z ++ y :: m) ++ b := by simp
  have hdec : ∀ {x w : ℝ}, 0 < x → x < w → pev (z ++ y :: m ++ b) x ≤ 0 → pev (z ++ y :: m ++ b) w < 0 :=
    fun h1 h2 h3 => pev_decreasing (a := z ++ y :: m) (b := b) (by
    intro c hc
    rcases List.mem_append.mp hc with hc | hc
    · rw [hz c hc]
    · rcases List.mem_cons.mp hc with rfl | hc
      · exact hy.le
      · exact hm c hc) ⟨y, by simp, hy⟩ hb h1 h2 h3
  -- Positive near zero.
  obtain ⟨ε, hε, hpos⟩ := pev_near_zero (m := m ++ b) hz hy
  -- Negative somewhere.
  obtain ⟨z', y', m', h1, h2, h3⟩ := exists_last_nonzero hbn hb
  obtain ⟨X, hX, hneg⟩ : ∃ X, ε < X ∧ pev (z ++ y :: (m ++ b)) X < 0 := by
    obtain ⟨l, hl⟩ : ∃ l, l = z ++ y :: (m ++ b) := ⟨_, rfl⟩
    have hrev : (l.map ((-1 : ℝ) * ·)).reverse
        = (z'.map ((-1 : ℝ) * ·)) ++ (-1 * y') :: ((m' ++ (z ++ y :: m).reverse).map ((-1 : ℝ) * ·)) := by
      rw [← List.map_reverse, hl, e, List.reverse_append, h1]
      simp
    obtain ⟨δ, hδ, hp⟩ := pev_near_zero (z := z'.map ((-1 : ℝ) * ·))
      (m := (m' ++ (z ++ y :: m).reverse).map ((-1 : ℝ) * ·)) (y := -1 * y') (by
        intro c hc
        obtain ⟨d, hd, rfl⟩ := List.mem_map.mp hc
        rw [h2 d hd]; simp) (by linarith)
    obtain ⟨t, ht0, ht1, ht2⟩ : ∃ t : ℝ, 0 < t ∧ t ≤ δ ∧ ε < t⁻¹ := by
      refine ⟨min δ (1 / (ε + 1)), by positivity, min_le_left _ _, ?_⟩
      have h6 : min δ (1 / (ε + 1)) ≤ 1 / (ε + 1) := min_le_right _ _
      have h7 : 0 < min δ (1 / (ε + 1)) := by positivity
      rw [lt_inv_comm₀ hε h7]
      refine lt_of_le_of_lt h6 ?_
      rw [one_div]
      exact inv_strictAnti₀ hε (by linarith)
    have hpt := hp t ht0 ht1
    rw [← hrev] at hpt
    refine ⟨t⁻¹, ht2, ?_⟩
    have h5 := pev_reverse (l.map ((-1 : ℝ) * ·)) ht0.ne'
    rw [pev_map_mul] at h5
    have h6 : 0 < t ^ (l.map ((-1 : ℝ) * ·)).length * (-1 * pev l t⁻¹) := by
      rw [← h5]; exact mul_pos hpt ht0
    have h7 : 0 < -1 * pev l t⁻¹ := (pos_iff_pos_of_mul_pos h6).mp (pow_pos ht0 _)
    rw [← hl]
    linarith
  have hex : ∃ r ∈ Set.Icc ε X, pev (z ++ y :: (m ++ b)) r = 0 := by
    have := intermediate_value_Icc' hX.le ((continuous_pev (z ++ y :: (m ++ b))).continuousOn (s := Set.Icc ε X))
    have h0 : (0 : ℝ) ∈ Set.Icc (pev (z ++ y :: (m ++ b)) X) (pev (z ++ y :: (m ++ b)) ε) :=
      ⟨hneg.le, (hpos ε hε le_rfl).le⟩
    obtain ⟨r, hr, hr0⟩ := this h0
    exact ⟨r, hr, hr0⟩
  obtain ⟨r, ⟨hr1, hr2⟩, hr0⟩ := hex
  have hr : 0 < r := lt_of_lt_of_le hε hr1
  refine ⟨r, hr, hr0, ?_, ?_⟩
  · intro x hx hxr
    by_contra hc
    push Not at hc
    rw [e] at hc hr0
    have := hdec hx hxr hc
    linarith
  · intro x hx
    rw [e] at hr0 ⊢
    exact hdec hr hx hr0.le

/-- The sign of a polynomial changes exactly once on `(0, ∞)`, at `r`. -/
def OneRoot (f : ℝ → ℝ) (r : ℝ) : Prop :=
  0 < r ∧ f r = 0 ∧ ∃ s : ℝ, (s = 1 ∨ s = -1) ∧ (∀ x, 0 < x → x < r → 0 < s * f x) ∧ (∀ x, r < x → s * f x < 0)

theorem one_root_of_csc_one {n : Nat} {l : List ℝ} (hlen : l.length = n + 1) (h : csc n l = .ok 1) :
    ∃ r, OneRoot (pev l) r := by
  rcases csc_normal hlen with h1 | ⟨z, y, m, h1, h2, h3, h4⟩
  · -- All zero: no sign changes.
    exfalso
    have hall : ∀ (l : List ℝ), (∀ c ∈ l, c = 0) → scGo 0 l = 0 := by
      intro l
      induction l with
      | nil => intro _; rfl
      | cons a l ih =>
        intro hc
        simp only [scGo, hc a List.mem_cons_self, sgn_zero, if_true, Nat.zero_add]
        exact ih fun c hcc => hc c (List.mem_cons_of_mem _ hcc)
    cases l with
    | nil => simp at hlen
    | cons a l =>
      rw [csc_eq hlen, h1 a List.mem_cons_self, sgn_zero,
        hall l fun c hc => h1 c (List.mem_cons_of_mem _ hc)] at h
      simp at h
  · rw [h4] at h
    have h : scGo (sgn y) m = 1 := by simpa using h
    have hs : sgn y = 1 ∨ sgn y = -1 := by
      rcases sgn_cases y with ⟨-, g⟩ | ⟨g, -⟩ | ⟨-, g⟩
      · exact .inl g
      · exact absurd g h3
      · exact .inr g
    obtain ⟨a, b, e1, e2, e3, e4⟩ := scGo_one_split m _ hs h
    obtain ⟨s, hsd⟩ : ∃ s : ℝ, s = (sgn y : ℝ) := ⟨_, rfl⟩
    have hs1 : s = 1 ∨ s = -1 := by
      rw [hsd]; rcases hs with h | h <;> rw [h] <;> simp
    have hys : 0 < s * y := by
      rw [hsd]
      rcases sgn_cases y with ⟨g, e⟩ | ⟨g, -⟩ | ⟨g, e⟩
      · rw [e]; simpa using g
      · exact absurd g h3
      · rw [e]; simpa using g
    rw [← hsd] at e2 e3 e4
    obtain ⟨r, r1, r2, r3, r4⟩ := unique_root (z := z.map (s * ·)) (m := a.map (s * ·)) (b := b.map (s * ·))
      (y := s * y)
      (by intro c hc; obtain ⟨d, hd, rfl⟩ := List.mem_map.mp hc; rw [h2 d hd]; simp)
      hys
      (by intro c hc; obtain ⟨d, hd, rfl⟩ := List.mem_map.mp hc; exact e2 d hd)
      (by intro c hc; obtain ⟨d, hd, rfl⟩ := List.mem_map.mp hc; exact e3 d hd)
      (by obtain ⟨c, hc, hcn⟩ := e4; exact ⟨s * c, List.mem_map.mpr ⟨c, hc, rfl⟩, hcn⟩)
    have el : z.map (s * ·) ++ s * y :: (a.map (s * ·) ++ b.map (s * ·)) = l.map (s * ·) := by
      rw [h1, e1]; simp
    rw [el] at r2 r3 r4
    simp only [pev_map_mul] at r2 r3 r4
    refine ⟨r, r1, ?_, s, hs1, r3, r4⟩
    rcases hs1 with h | h <;> rw [h] at r2 <;> linarith

end Heyoka.Events
