import Verif.InvTab
import Mathlib.NumberTheory.Niven

set_option autoImplicit false
set_option linter.unusedSectionVars false
set_option linter.unusedSimpArgs false
set_option linter.unusedVariables false

/-!
# Helper lemmas: the table of the tangent, and the angles of the values
-/

namespace Tsym

open Expr NumPowerSimpl NumTrigo

variable {D : Type} [Flt D] [LawfulFlt D] {cfg : Cfg D}

/-- The tangent of `q` times π for the angles of the first quadrant that are in the table, times `ε`. -/
def tanTab (ε : ℚ) : List (ℚ × Expr D) :=
  [(0, zero), (1 / 12, .sum [num (.rat (ε * 2)), surd (-ε) 3]), (1 / 8, .sum [num (.rat (-ε)), surd ε 2]), (1 / 6, surd ε (1 / 3)),
   (1 / 4, num (.rat ε)), (1 / 3, surd ε 3), (3 / 8, .sum [num (.rat ε), surd ε 2]),
   (5 / 12, .sum [num (.rat (ε * 2)), surd ε 3]), (1 / 2, .undef)]

theorem perm_num_root (c : ℚ) (q b : ℚ) (hb : b ≠ 1) : doPermute (num (.rat c)) (surd q b : Expr D) = false ∧ doPermute (surd q b) (num (.rat c) : Expr D) = true := by
  obtain ⟨B, X, hB, _⟩ := rootE_cases (D := D) b
  unfold surd
  rw [if_neg hb, hB]
  split_ifs <;> constructor <;> (rw [doPermute_eq]; simp [permStep, permSame, permDiff])

theorem tot_sum_nr {c q b : ℚ} (hc : c ≠ 0) (h : St cfg q b) :
    Tot cfg (fun E => sumCreate E [num (.rat c), surd q b]) (.sum [num (.rat c), surd q b] : Expr D) ∧
    Tot cfg (fun E => sumCreate E [surd q b, num (.rat c)]) (.sum [num (.rat c), surd q b] : Expr D) := by
  obtain ⟨p1, p2⟩ := perm_num_root (D := D) c q b h.ne_one
  constructor
  · have := tot_sum_num_root (D := D) hc h
    rwa [ordered, p1, if_neg (by simp)] at this
  · obtain ⟨_, _, _, n, _, b2, _⟩ := surd_facts (D := D) (cfg := cfg) h.ne_one h.ne
    have := tot_sum_cs (x := surd q b) (y := num (.rat c)) h.cs (cs_num hc) b2 (n2 := one) (by simp only [nonNumericTerm]; exact tot_pure _)
      (isEqual_ne (rootE_exact b) (by rw [one_eq]; exact exact_ratE _) (by
        obtain ⟨B, X, hB, _⟩ := rootE_cases (D := D) b
        rw [hB, one_eq]; simp)) (.inl n)
    rwa [ordered, p2, if_pos (by simp)] at this

section
variable (hc : cfg.Ok) (h6 : 6 ≤ cfg.maxPrime)
include hc h6

theorem st_13' : St cfg (-1) (1 / 3) := by stt h6, 1

theorem tot_sgn_1 {δ ε a : ℚ} (ha : a = 2 ∨ a = 3 ∨ a = 1 / 3) (hd : Unit1 δ) (he : Unit1 ε) :
    St cfg ε a ∧ Tot cfg (fun E => prodCreate E [num (.rat δ), surd ε a]) (surd (δ * ε) a : Expr D) := by
  have st : ∀ ε, Unit1 ε → St cfg ε a := by
    rintro ε (rfl | rfl) <;> rcases ha with rfl | rfl | rfl
    · exact st_2 h6
    · exact st_3 h6
    · exact st_13 h6
    · exact st_m2 h6
    · exact st_m3 h6
    · exact st_13' hc h6
  have a1 : a ≠ 1 := (st ε he).ne_one
  refine ⟨st ε he, ?_⟩
  rcases hd with rfl | rfl
  · rw [one_mul]
    rcases he with rfl | rfl
    · rw [surd_one a1]
      obtain ⟨u, z, _, _⟩ := surd_facts (D := D) (cfg := cfg) (st 1 (.inl rfl)).ne_one (st 1 (.inl rfl)).ne
      rw [surd_one a1] at u z
      obtain ⟨B, X, hB, _⟩ := rootE_cases (D := D) a
      exact tot_one_gen u z (by rw [hB]; rfl)
    · have s := st (-1) (.inr rfl)
      exact tot_num_surd hc s (by norm_num) (.inr (by norm_num)) (by norm_num) (by rw [one_mul]; exact s.same) (by norm_num) a1 s
  · rcases he with rfl | rfl
    · have s := st (-1) (.inr rfl)
      exact tot_num_surd hc (st 1 (.inl rfl)) (by norm_num) (.inl (by norm_num)) (by norm_num) (by simpa using s.same) (by norm_num) a1 (by simpa using s)
    · rw [neg_mul_neg, one_mul, surd_one a1]
      exact tot_num_surd_one hc a1 (by norm_num) (by norm_num) (by norm_num)

theorem tot_sgn_nr {δ c q b : ℚ} (hb : b = 2 ∨ b = 3) (hd : Unit1 δ) (hc0 : c ≠ 0) (he : Unit1 q) :
    Tot cfg (fun E => prodCreate E [num (.rat δ), .sum [num (.rat c), surd q b]]) (.sum [num (.rat (δ * c)), surd (δ * q) b] : Expr D) := by
  have hb' : b = 2 ∨ b = 3 ∨ b = 1 / 3 := by tauto
  obtain ⟨s1, p1⟩ := tot_sgn_1 (D := D) hc h6 hb' hd he
  obtain ⟨s2, _⟩ := tot_sgn_1 (D := D) hc h6 hb' hd (hd.mul he)
  have d0 : δ ≠ 0 := by rcases hd with rfl | rfl <;> norm_num
  by_cases h : δ = 1
  · subst h; simp only [one_mul]; exact tot_one_gen rfl rfl rfl
  · exact tot_num_sum2 d0 h (cs_num hc0) s1.cs (by simp [isConst]) (surd_isConst s1.ne_one) (tot_sum_nr hc0 s1).1 (tot_num_num d0 hc0) p1
      (cs_num (mul_ne_zero d0 hc0)).exp s2.cs.exp (tot_sum_nr (mul_ne_zero d0 hc0) s2).1

/-- The sign of an entry. -/
theorem tot_tan_sgn {δ ε : ℚ} (hd : Unit1 δ) (he : Unit1 ε) {q : ℚ} :
    (look (tanTab ε) q = (none : Option (Expr D)) ∧ look (tanTab (δ * ε)) q = (none : Option (Expr D))) ∨
    ∃ v v' : Expr D, look (tanTab ε) q = some v ∧ look (tanTab (δ * ε)) q = some v' ∧ Tot cfg (fun E => prodCreate E [num (.rat δ), v]) v' := by
  have d0 : δ ≠ 0 := by rcases hd with rfl | rfl <;> norm_num
  have e0 : ε ≠ 0 := by rcases he with rfl | rfl <;> norm_num
  unfold tanTab
  simp only [look_cons, look_nil]
  by_cases h : 0 = q
  · refine .inr ⟨zero, zero, by simp [h], by simp [h], ?_⟩
    simp only [prodCreate, zero_eq, List.any_cons, List.any_nil, show ∀ q : ℚ, (num (.rat q) : Expr D).isUndefined = false from fun _ => rfl,
      show (num (.rat 0) : Expr D).isZero = true by rw [isZero_ratE]; simp, Bool.or_self, Bool.false_eq_true, if_false, Bool.true_or, Bool.or_true, if_true]
    exact tot_pure _
  simp only [h, if_false]; clear h
  by_cases h : 1 / 12 = q
  · refine .inr ⟨_, _, by rw [if_pos h], by rw [if_pos h], ?_⟩
    have := tot_sgn_nr (D := D) hc h6 (δ := δ) (c := ε * 2) (q := -ε) (b := 3) (.inr rfl) hd (by simpa using e0) he.neg
    rwa [← mul_assoc, mul_neg] at this
  simp only [h, if_false]; clear h
  by_cases h : 1 / 8 = q
  · refine .inr ⟨_, _, by rw [if_pos h], by rw [if_pos h], ?_⟩
    have := tot_sgn_nr (D := D) hc h6 (δ := δ) (c := -ε) (q := ε) (b := 2) (.inl rfl) hd (by simpa using e0) he
    rwa [mul_neg] at this
  simp only [h, if_false]; clear h
  by_cases h : 1 / 6 = q
  · exact .inr ⟨_, _, by rw [if_pos h], by rw [if_pos h], (tot_sgn_1 (D := D) hc h6 (by simp) hd he).2⟩
  simp only [h, if_false]; clear h
  by_cases h : 1 / 4 = q
  · exact .inr ⟨_, _, by rw [if_pos h], by rw [if_pos h], tot_num_num d0 e0⟩
  simp only [h, if_false]; clear h
  by_cases h : 1 / 3 = q
  · exact .inr ⟨_, _, by rw [if_pos h], by rw [if_pos h], (tot_sgn_1 (D := D) hc h6 (by simp) hd he).2⟩
  simp only [h, if_false]; clear h
  by_cases h : 3 / 8 = q
  · exact .inr ⟨_, _, by rw [if_pos h], by rw [if_pos h], tot_sgn_nr (D := D) hc h6 (.inl rfl) hd e0 he⟩
  simp only [h, if_false]; clear h
  by_cases h : 5 / 12 = q
  · refine .inr ⟨_, _, by rw [if_pos h], by rw [if_pos h], ?_⟩
    have := tot_sgn_nr (D := D) hc h6 (δ := δ) (c := ε * 2) (q := ε) (b := 3) (.inr rfl) hd (by simpa using e0) he
    rwa [← mul_assoc] at this
  simp only [h, if_false]; clear h
  by_cases h : 1 / 2 = q
  · refine .inr ⟨_, _, by rw [if_pos h], by rw [if_pos h], ?_⟩
    simp only [prodCreate, List.any_cons, List.any_nil, show (Expr.undef : Expr D).isUndefined = true from rfl, Bool.true_or, Bool.or_true, if_true]
    exact tot_pure _
  simp only [h, if_false]
  exact .inl (by simp)

theorem tot_tanTable : Tot cfg (fun E => tanTable E) ((tanTab 1 : List (ℚ × Expr D)).map ent) := by
  unfold tanTable tanTab
  simp only [M.mapL, show (two : Expr D) = num (.rat 2) by krfl, List.map_cons, List.map_nil, ent]
  rw [show (three : Expr D) = num (.rat 3) by krfl, piM_zero]
  have s3 := tot_sqrt_st (D := D) (st_3 h6)
  have s2 := tot_sqrt_st (D := D) (st_2 h6)
  have m3 : Tot cfg (fun E => E.minus (surd 1 3)) (surd (-1) 3 : Expr D) := by
    unfold Eng.minus
    rw [mOne_rat]
    have := tot_prod (tot_sgn_1 (D := D) hc h6 (δ := -1) (ε := 1) (a := 3) (by simp) (.inr rfl) (.inl rfl)).2
    rwa [mul_one] at this
  have m1 : Tot cfg (fun E => E.minus (one : Expr D)) (num (.rat (-1)) : Expr D) := by
    unfold Eng.minus
    rw [mOne_rat, one_eq]
    have := tot_prod (tot_num_num (D := D) (cfg := cfg) (p := -1) (q := 1) (by norm_num) (by norm_num))
    rwa [mul_one] at this
  have n1 := (tot_sum_nr (D := D) (c := 2) (by norm_num) (st_m3 h6)).1
  have n2 := (tot_sum_nr (D := D) (c := -1) (by norm_num) (st_2 h6)).2
  have n3 := (tot_sum_nr (D := D) (c := 1) (by norm_num) (st_2 h6)).2
  have n4 := (tot_sum_nr (D := D) (c := 2) (by norm_num) (st_3 h6)).1
  rw [one_mul]
  refine tot_bind (tot_entry (tot_pure _) (tot_pure _)) (tot_bind ?_ (tot_pure _))
  refine tot_bind (tot_entry (tot_timesPi _) (tot_bind s3 (tot_bind m3 (tot_sum n1)))) (tot_bind ?_ (tot_pure _))
  refine tot_bind (tot_entry (tot_timesPi _) (tot_bind s2 (tot_bind m1 (tot_sum n2)))) (tot_bind ?_ (tot_pure _))
  refine tot_bind (tot_entry (tot_timesPi _) (tot_bind s3 ?_)) (tot_bind ?_ (tot_pure _))
  rotate_left
  · refine tot_bind (tot_entry (tot_timesPi _) (by rw [one_eq]; exact tot_pure _)) (tot_bind ?_ (tot_pure _))
    refine tot_bind (tot_entry (tot_timesPi _) s3) (tot_bind ?_ (tot_pure _))
    refine tot_bind (tot_entry (tot_timesPi _) (tot_bind s2 ?_)) (tot_bind ?_ (tot_pure _))
    rotate_left
    · refine tot_bind (tot_entry (tot_timesPi _) (tot_bind s3 (tot_sum n4))) (tot_bind ?_ (tot_pure _))
      exact tot_bind (tot_entry (tot_timesPi _) (tot_pure _)) (tot_bind (tot_pure _) (tot_pure _))
    · rw [one_eq]; exact tot_sum n3
  · have := tot_oneOver_root (D := D) (cfg := cfg) (a := 3) (by norm_num) (by decide +kernel) (by decide +kernel) (by
      have := (st_13 h6).simple
      rwa [one_div] at this)
    rw [surd_one (by norm_num), surd_one (by norm_num)]
    rwa [← one_div] at this

end

theorem fourFree_one : FourFree 1 := by
  intro p hp h
  have := Nat.eq_one_of_dvd_one h
  exact hp.one_lt.ne' (by simpa using this)

/-! ## The tangent -/

section
variable (hc : cfg.Ok) (h6 : 6 ≤ cfg.maxPrime)
include hc h6

theorem tan_le {r : ℚ} {v : Expr D} (h : look (tanTab 1) r = some v) : r < 1 / 2 ∨ (r = 1 / 2 ∧ v = .undef) := by
  unfold tanTab at h
  simp only [look_cons, look_nil] at h
  split_ifs at h with c1 c2 c3 c4 c5 c6 c7 c8 c9
  · left; rw [← c1]; norm_num
  · left; rw [← c2]; norm_num
  · left; rw [← c3]; norm_num
  · left; rw [← c4]; norm_num
  · left; rw [← c5]; norm_num
  · left; rw [← c6]; norm_num
  · left; rw [← c7]; norm_num
  · left; rw [← c8]; norm_num
  · right; exact ⟨c9.symm, by simpa using h.symm⟩

/-- The tangent in the first quadrant. -/
theorem tot_simplTan_first {q : ℚ} {v : Expr D} (h : look (tanTab 1) (rem2 q) = some v) :
    Tot cfg (fun E => simplTan E (piM q)) (some v) := by
  unfold simplTan
  refine tot_bind (tot_prepare hc q) ?_
  unfold NumTrigo.tan
  refine tot_bind (tot_getQuadrant hc (rem2_nonneg q) (rem2_lt q)) (tot_bind (tot_tanTable hc h6) (tot_bind (tot_getValue _ _) ?_))
  rw [h]
  have key : ∀ {δ : ℚ}, Unit1 δ → (δ = 1 ∨ v = .undef) → Tot cfg (fun E => prodCreate E [num (.rat δ), v]) v := by
    intro δ hd hv
    rcases hv with rfl | rfl
    · rcases tot_tan_sgn (D := D) hc h6 (q := rem2 q) (δ := 1) (ε := 1) (.inl rfl) (.inl rfl) with ⟨h1, _⟩ | ⟨x, y, h1, h2, h3⟩
      · rw [h] at h1; cases h1
      · rw [mul_one] at h2
        rw [h] at h1 h2; cases h1; cases h2; exact h3
    · simp only [prodCreate, List.any_cons, List.any_nil, show (Expr.undef : Expr D).isUndefined = true from rfl, Bool.true_or, Bool.or_true, if_true]
      exact tot_pure _
  dsimp only
  unfold timesSign
  rcases tan_le hc h6 h with c | ⟨c, rfl⟩
  · have e : quad (rem2 q) = 1 := by unfold quad; rw [if_pos c]
    rw [e]
    have := key (δ := 1) (.inl rfl) (.inl rfl)
    exact tot_bind (tot_prod (l := [num (.rat 1), v]) this) (tot_pure _)
  · have e : quad (rem2 q) = 2 := by unfold quad; rw [c]; norm_num
    rw [e]
    have := key (δ := -1) (.inr rfl) (.inr rfl)
    exact tot_bind (tot_prod (l := [num (.rat (-1)), .undef]) this) (tot_pure _)

theorem tot_simplTan_via {q : ℚ} (h : look (tanTab 1) (rem2 q) = (none : Option (Expr D))) {r : Option (Expr D)}
    (hr : Tot cfg (fun E => tanViaSinCos E (piM q)) r) : Tot cfg (fun E => simplTan E (piM q)) r := by
  unfold simplTan
  refine tot_bind (tot_prepare hc q) ?_
  unfold NumTrigo.tan
  refine tot_bind (tot_getQuadrant hc (rem2_nonneg q) (rem2_lt q)) (tot_bind (tot_tanTable hc h6) (tot_bind (tot_getValue _ _) ?_))
  rw [h]
  exact hr

theorem tot_tanVia_none {q : ℚ} (h : (sinOf (q + 1 / 2) : Option (Expr D)) = none) : Tot cfg (fun E => tanViaSinCos E (piM q : Expr D)) none := by
  unfold tanViaSinCos
  refine tot_bind (tot_simplSin hc h6 q) (tot_bind (tot_simplCos hc h6 q) ?_)
  rw [h]; exact tot_pure _

theorem tot_tanVia_undef {q : ℚ} (h : (sinOf (q + 1 / 2) : Option (Expr D)) = some zero) : Tot cfg (fun E => tanViaSinCos E (piM q : Expr D)) (some .undef) := by
  unfold tanViaSinCos
  refine tot_bind (tot_simplSin hc h6 q) (tot_bind (tot_simplCos hc h6 q) ?_)
  rw [h]
  have : (zero : Expr D).isZero = true := by rw [zero_eq, isZero_ratE]; simp
  simp only [this, if_true]; exact tot_pure _

theorem tot_tanVia_zero {q : ℚ} (h : (sinOf (q + 1 / 2) : Option (Expr D)) = some (num (.rat (-1)))) (hs : (sinOf q : Option (Expr D)) = some zero) :
    Tot cfg (fun E => tanViaSinCos E (piM q : Expr D)) (some zero) := by
  unfold tanViaSinCos
  refine tot_bind (tot_simplSin hc h6 q) (tot_bind (tot_simplCos hc h6 q) ?_)
  rw [h, hs]
  have z : (num (.rat (-1)) : Expr D).isZero = false := by rw [isZero_ratE]; simp
  simp only [z, Bool.false_eq_true, if_false]
  have h1 : Tot cfg (fun E => E.oneOver (num (.rat (-1)) : Expr D)) (num (.rat (-1)) : Expr D) := by
    have := tot_powNum (D := D) hc (q := -1) (n := -1) (.inl (by norm_num)) (by decide +kernel) (fun _ => .inr ⟨fourFree_one, fourFree_one⟩)
    rw [zpow_neg_one, show ((-1 : ℚ))⁻¹ = -1 by norm_num] at this
    exact tot_pow this
  have zr : ∀ a : Expr D, a.isUndefined = false → Tot cfg (fun E => prodCreate E [zero, a]) (zero : Expr D) ∧ Tot cfg (fun E => prodCreate E [a, zero]) (zero : Expr D) := by
    intro a ha
    have z0 : (zero : Expr D).isZero = true := by rw [zero_eq, isZero_ratE]; simp
    simp only [prodCreate, List.any_cons, List.any_nil, ha, show (zero : Expr D).isUndefined = false from rfl, z0, Bool.or_self, Bool.false_eq_true, if_false, Bool.true_or, Bool.or_true, if_true]
    exact ⟨tot_pure _, tot_pure _⟩
  refine tot_bind h1 (tot_bind (tot_prod (zr _ rfl).1) (tot_bind (a := zero) ?_ (tot_pure _)))
  unfold timesSign
  exact tot_prod (zr _ rfl).2

/-- The tangent, with its symmetry. -/
theorem tot_tan_pos {q : ℚ} (hq : 0 ≤ q) {r : Option (Expr D)} (h : Tot cfg (fun E => simplTan E (piM q)) r) :
    Tot cfg (fun E => trigCreate E .tan (piM q)) (r.getD (.fn .tan (piM q))) :=
  tot_trig_piM hq h

theorem tot_tan_neg {q : ℚ} (hq : 0 < q) {r : Option (Expr D)} {r' : Expr D} (h : Tot cfg (fun E => simplTan E (piM q)) r)
    (hr : Tot cfg (fun E => E.minus (r.getD (.fn .tan (piM q)))) r') : Tot cfg (fun E => trigCreate E .tan (piM (-q))) r' := by
  refine tot_trig_symm (piM_isUndefined _) (piM_isFunction _) (by have := tot_symm_piM (D := D) (cfg := cfg) (-q); simpa [hq] using this) ?_
  unfold createBySymmetry
  have hm := tot_minus_piM (D := D) hc (-q)
  rw [neg_neg] at hm
  exact tot_bind hm (tot_bind (Tsym.tot_trig (tot_tan_pos hc h6 hq.le h)) hr)

end

/-! ## The entries of the tangent table as arguments -/

theorem sqrt3_lt : Real.sqrt 3 < 2 := by
  rw [Real.sqrt_lt' (by norm_num)]; norm_num
theorem one_lt_sqrt2 : 1 < Real.sqrt 2 := by
  rw [Real.lt_sqrt (by norm_num)]; norm_num

theorem ev_num (q : ℚ) : Ev (num (.rat q) : Expr D) q := ⟨.rat q, numEval_rat q, by simp⟩

theorem tan_entries (hc : cfg.Ok) (h6 : 6 ≤ cfg.maxPrime) : ∀ p ∈ (tanTab 1 : List (ℚ × Expr D)), p.1 ≠ 1 / 2 → ∃ x, CV cfg p.2 x := by
  have a1 := st_m3 (D := D) h6
  have a2 := st_2 (D := D) h6
  have a3 := st_3 (D := D) h6
  intro p hp
  simp only [tanTab, List.mem_cons, List.not_mem_nil, or_false, one_mul] at hp
  rcases hp with rfl | rfl | rfl | rfl | rfl | rfl | rfl | rfl | rfl
  · rw [zero_eq]; exact fun _ => ⟨_, cv_num le_rfl⟩
  · exact fun _ => ⟨_, cv_sum2 (cs_num (by norm_num)) a1.cs (by simpa using tot_isPos_num (D := D) (cfg := cfg) 2) a1.signs.1 (exact_ratE _) (surd_exact _ _) (ev_num 2)
      (surd_eval (by norm_num)) (by push_cast; linarith [sqrt3_lt])⟩
  · intro _
    -- the first summand is negative, the second positive
    obtain ⟨n, h3, h4⟩ := sum2_eval (ev_num (D := D) (-1)) (surd_eval (D := D) (p := 1) (a := 2) (by norm_num))
    have pos : 0 < ((-1 : ℚ) : ℝ) + ((1 : ℚ) : ℝ) * Real.sqrt ((2 : ℚ) : ℝ) := by push_cast; linarith [one_lt_sqrt2]
    refine ⟨_, pos.le, rfl, rfl, exact_sum2 (exact_ratE _) (surd_exact _ _), rfl, ⟨n, h3, h4⟩, ?_, tot_isNeg ?_⟩
    · have := sum2_symm (cs_num (D := D) (cfg := cfg) (q := -1) (by norm_num)) a2.cs (tot_isPos_num (-1)) a2.signs.1
      simpa using this
    · simp only [isNeg]
      refine tot_bind (tot_lift h3) ?_
      have : n.lt 0 = false := by rw [Bool.eq_false_iff, Ne, Number.lt_iff, h4, Number.zero_def]; simpa using pos.le
      simp only [this]; exact tot_pure _
  · exact fun _ => ⟨_, cv_surd (st_13 h6) (by norm_num)⟩
  · exact fun _ => ⟨_, cv_num (by norm_num)⟩
  · exact fun _ => ⟨_, cv_surd a3 (by norm_num)⟩
  · exact fun _ => ⟨_, cv_sum2 (cs_num (by norm_num)) a2.cs (by simpa using tot_isPos_num (D := D) (cfg := cfg) 1) a2.signs.1 (exact_ratE _) (surd_exact _ _) (ev_num 1)
      (surd_eval (by norm_num)) (by positivity)⟩
  · exact fun _ => ⟨_, cv_sum2 (cs_num (by norm_num)) a3.cs (by simpa using tot_isPos_num (D := D) (cfg := cfg) 2) a3.signs.1 (exact_ratE _) (surd_exact _ _) (ev_num 2)
      (surd_eval (by norm_num)) (by positivity)⟩
  · intro c; exact absurd rfl c

theorem tan_neg_entries (hc : cfg.Ok) (h6 : 6 ≤ cfg.maxPrime) : ∀ p ∈ (tanTab (-1) : List (ℚ × Expr D)), p.1 ≠ 0 → p.1 ≠ 1 / 2 → Neg1 cfg p.2 := by
  have a1 := st_m3 (D := D) h6
  have a2 := st_m2 (D := D) h6
  have a3 := st_3 (D := D) h6
  intro p hp
  simp only [tanTab, List.mem_cons, List.not_mem_nil, or_false, neg_neg, neg_one_mul] at hp
  rcases hp with rfl | rfl | rfl | rfl | rfl | rfl | rfl | rfl | rfl
  · intro c; exact absurd rfl c
  · exact fun _ _ => neg1_sum2 (cs_num (by norm_num)) a3.cs (tot_isPos_num _) a3.signs.1 (ev_num _) (surd_eval (by norm_num))
  · exact fun _ _ => neg1_sum2 (cs_num (by norm_num)) a2.cs (tot_isPos_num _) a2.signs.1 (ev_num _) (surd_eval (by norm_num))
  · exact fun _ _ => neg1_surd (st_13' hc h6) (by norm_num)
  · exact fun _ _ => neg1_num (by norm_num)
  · exact fun _ _ => neg1_surd a1 (by norm_num)
  · exact fun _ _ => neg1_sum2 (cs_num (by norm_num)) a2.cs (tot_isPos_num _) a2.signs.1 (ev_num _) (surd_eval (by norm_num))
  · exact fun _ _ => neg1_sum2 (cs_num (by norm_num)) a1.cs (tot_isPos_num _) a1.signs.1 (ev_num _) (surd_eval (by norm_num))
  · intro _ c; exact absurd rfl c

end Tsym
