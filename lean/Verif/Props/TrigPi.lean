import Verif.TrigVal
import Verif.Props.TrigPoly
import Verif.Props.Values

/-!
# C71: sine and cosine of rational multiples of π
-/

set_option autoImplicit false
set_option linter.unusedSectionVars false

namespace Tsym

open Expr

/-! ## Specification -/

namespace Angles

variable {D : Type}

/-- A rational number. -/
def q (x : ℚ) : Expr D := .num (.rat x)

/-- The square root of an expression, and of its reciprocal. -/
def root (x : Expr D) : Expr D := .pow x (q (1 / 2))
def recRoot (x : Expr D) : Expr D := .pow x (q (-(1 / 2)))

/-- The sine of `a` times π. -/
def plus : List (ℚ × Expr D) :=
  [(0, q 0),
   (1 / 12, .sum [.prod [q (1 / 2), root (q (3 / 2))], .prod [q (-1 / 2), recRoot (q 2)]]),
   (1 / 8, .prod [q (1 / 2), root (.sum [q 2, .prod [q (-1), root (q 2)]])]),
   (1 / 6, q (1 / 2)),
   (1 / 4, recRoot (q 2)),
   (1 / 3, .prod [q (1 / 2), root (q 3)]),
   (3 / 8, .prod [q (1 / 2), root (.sum [q 2, root (q 2)])]),
   (5 / 12, .sum [.prod [q (1 / 2), root (q (3 / 2))], .prod [q (1 / 2), recRoot (q 2)]]),
   (1 / 2, q 1)]

/-- The negative values. -/
def minus : List (ℚ × Expr D) :=
  [(0, q 0),
   (1 / 12, .sum [.prod [q (-1 / 2), root (q (3 / 2))], .prod [q (1 / 2), recRoot (q 2)]]),
   (1 / 8, .prod [q (-1 / 2), root (.sum [q 2, .prod [q (-1), root (q 2)]])]),
   (1 / 6, q (-1 / 2)),
   (1 / 4, .prod [q (-1), recRoot (q 2)]),
   (1 / 3, .prod [q (-1 / 2), root (q 3)]),
   (3 / 8, .prod [q (-1 / 2), root (.sum [q 2, root (q 2)])]),
   (5 / 12, .sum [.prod [q (-1 / 2), root (q (3 / 2))], .prod [q (-1 / 2), recRoot (q 2)]]),
   (1 / 2, q (-1))]

/-- The expression for the sine of `x` times π: the angle is brought to the first quadrant. -/
inductive Sine (x : ℚ) (v : Expr D) : Prop
  | first (a : ℚ) (k : ℤ) (h : (a, v) ∈ plus) (hx : x = a + 2 * k)
  | second (a : ℚ) (k : ℤ) (h : (a, v) ∈ plus) (hx : x = 1 - a + 2 * k)
  | third (a : ℚ) (k : ℤ) (h : (a, v) ∈ minus) (hx : x = 1 + a + 2 * k)
  | fourth (a : ℚ) (k : ℤ) (h : (a, v) ∈ minus) (hx : x = -a + 2 * k)

/-- The angle is a multiple of 15 degrees or of 22.5 degrees. -/
def Special (x : ℚ) : Prop := (∃ n : ℤ, 12 * x = n) ∨ ∃ n : ℤ, 8 * x = n

/-- No functions and no symbols. -/
def plain : Expr D → Bool
  | .num _ => true
  | .sum l => plainL l
  | .prod l => plainL l
  | .pow b e => plain b && plain e
  | _ => false
where
  /-- For all elements of a list. -/
  plainL : List (Expr D) → Bool
    | [] => true
    | a :: l => plain a && plainL l

/-- `x` times π, if `x` is positive. -/
def xPi (x : ℚ) : Expr D := if x = 1 then .cst .pi else .prod [q x, .cst .pi]

end Angles

/-- A function of `x` times π. -/
def trigOfPi {D : Type} [Flt D] (E : Eng D) (f : Fn) (x : ℚ) : M D (Expr D) := do
  let a ← Api.mul E (.num (.rat x)) (.cst .pi)
  Api.trig E f a

/-! ## Proofs -/

section

variable {D : Type} [Flt D] [LawfulFlt D] {cfg : Cfg D}

open NumTrigo

theorem trigOfPi_mono (f : Fn) (x : ℚ) : Lean.Order.monotone fun E : Eng D => trigOfPi E f x := by
  unfold trigOfPi Api.trig Api.mul; repeat' mono_step

namespace Angles

theorem mem_plus {a : ℚ} {v : Expr D} (h : (a, v) ∈ plus) : 0 ≤ a ∧ a ≤ 1 / 2 ∧ look (sinTab 1) a = some v := by
  unfold plus at h
  simp only [List.mem_cons, List.not_mem_nil, or_false, Prod.mk.injEq] at h
  unfold sinTab
  simp only [look_cons, look_nil, surd_prod (D := D) (p := 1 / 2) (a := 3 / 2) (by norm_num) (by norm_num),
    surd_prod (D := D) (p := -1 / 2) (a := 1 / 2) (by norm_num) (by norm_num), surd_prod (D := D) (p := 1 / 2) (a := 1 / 2) (by norm_num) (by norm_num),
    surd_prod (D := D) (p := 1 / 2) (a := 3) (by norm_num) (by norm_num), surd_one (D := D) (a := 1 / 2) (by norm_num),
    msr, l2m, l2p, surd_prod (D := D) (p := -1) (a := 2) (by norm_num) (by norm_num), surd_one (D := D) (a := 2) (by norm_num), root12, root2, root3, root32, zero_eq]
  rcases h with ⟨rfl, rfl⟩ | ⟨rfl, rfl⟩ | ⟨rfl, rfl⟩ | ⟨rfl, rfl⟩ | ⟨rfl, rfl⟩ | ⟨rfl, rfl⟩ | ⟨rfl, rfl⟩ | ⟨rfl, rfl⟩ | ⟨rfl, rfl⟩ <;>
    norm_num [root, recRoot, q]

theorem mem_minus {a : ℚ} {v : Expr D} (h : (a, v) ∈ minus) : 0 ≤ a ∧ a ≤ 1 / 2 ∧ look (sinTab (-1)) a = some v := by
  unfold minus at h
  simp only [List.mem_cons, List.not_mem_nil, or_false, Prod.mk.injEq] at h
  unfold sinTab
  simp only [look_cons, look_nil, surd_prod (D := D) (p := -1 / 2) (a := 3 / 2) (by norm_num) (by norm_num), neg_neg,
    surd_prod (D := D) (p := -1 / 2) (a := 1 / 2) (by norm_num) (by norm_num), surd_prod (D := D) (p := 1 / 2) (a := 1 / 2) (by norm_num) (by norm_num),
    surd_prod (D := D) (p := -1 / 2) (a := 3) (by norm_num) (by norm_num), surd_prod (D := D) (p := -1) (a := 1 / 2) (by norm_num) (by norm_num),
    msr, l2m, l2p, surd_prod (D := D) (p := -1) (a := 2) (by norm_num) (by norm_num), surd_one (D := D) (a := 2) (by norm_num), root12, root2, root3, root32, zero_eq]
  rcases h with ⟨rfl, rfl⟩ | ⟨rfl, rfl⟩ | ⟨rfl, rfl⟩ | ⟨rfl, rfl⟩ | ⟨rfl, rfl⟩ | ⟨rfl, rfl⟩ | ⟨rfl, rfl⟩ | ⟨rfl, rfl⟩ | ⟨rfl, rfl⟩ <;>
    norm_num [root, recRoot, q]

theorem first_self {a : ℚ} (h2 : a ≤ 1 / 2) : NumTrigo.first a = a := by
  unfold NumTrigo.first; split_ifs <;> linarith

theorem sinOf_plus {a : ℚ} {v : Expr D} (h : (a, v) ∈ plus) (k : ℤ) : sinOf (a + 2 * k) = some v := by
  obtain ⟨h0, h1, h2⟩ := mem_plus h
  unfold sinOf
  rw [rem2_add, rem2_self h0 (by linarith), first_self h1, sg, if_pos (by linarith)]
  exact h2

theorem sinOf_minus {a : ℚ} {v : Expr D} (h : (a, v) ∈ minus) (k : ℤ) : sinOf (-a + 2 * k) = some v := by
  obtain ⟨h0, h1, h2⟩ := mem_minus h
  rw [← sinOf_neg, show -(-a + 2 * (k : ℚ)) = a + 2 * ((-k : ℤ) : ℚ) by push_cast; ring, rem2_add, rem2_self h0 (by linarith), first_self h1, sg,
    if_pos (by linarith), mul_one]
  exact h2

theorem Sine.sinOf {x : ℚ} {v : Expr D} (h : Sine x v) : NumTrigo.sinOf x = some v := by
  rcases h with ⟨a, k, h, rfl⟩ | ⟨a, k, h, rfl⟩ | ⟨a, k, h, rfl⟩ | ⟨a, k, h, rfl⟩
  · exact sinOf_plus h k
  · rw [← sinOf_supp, show 1 - (1 - a + 2 * (k : ℚ)) = a + 2 * ((-k : ℤ) : ℚ) by push_cast; ring]; exact sinOf_plus h _
  · rw [← sinOf_supp, show 1 - (1 + a + 2 * (k : ℚ)) = -a + 2 * ((-k : ℤ) : ℚ) by push_cast; ring]; exact sinOf_minus h _
  · exact sinOf_minus h k

/-- The angles of the table. -/
theorem key_of {a : ℚ} (h0 : 0 ≤ a) (h1 : a ≤ 1 / 2) (h : Special a) : (∃ v : Expr D, (a, v) ∈ plus) ∧ ∃ v : Expr D, (a, v) ∈ minus := by
  have key : a ∈ ([0, 1 / 12, 1 / 8, 1 / 6, 1 / 4, 1 / 3, 3 / 8, 5 / 12, 1 / 2] : List ℚ) := by
    rcases h with ⟨n, hn⟩ | ⟨n, hn⟩
    · have e : a = n / 12 := by linarith
      have a0 : 0 ≤ n := by exact_mod_cast (by rw [← hn]; linarith : (0 : ℚ) ≤ n)
      have a1 : n ≤ 6 := by exact_mod_cast (by rw [← hn]; linarith : (n : ℚ) ≤ 6)
      interval_cases n <;> rw [e] <;> norm_num
    · have e : a = n / 8 := by linarith
      have a0 : 0 ≤ n := by exact_mod_cast (by rw [← hn]; linarith : (0 : ℚ) ≤ n)
      have a1 : n ≤ 4 := by exact_mod_cast (by rw [← hn]; linarith : (n : ℚ) ≤ 4)
      interval_cases n <;> rw [e] <;> norm_num
  have p1 : (plus : List (ℚ × Expr D)).map Prod.fst = [0, 1 / 12, 1 / 8, 1 / 6, 1 / 4, 1 / 3, 3 / 8, 5 / 12, 1 / 2] := rfl
  have p2 : (minus : List (ℚ × Expr D)).map Prod.fst = [0, 1 / 12, 1 / 8, 1 / 6, 1 / 4, 1 / 3, 3 / 8, 5 / 12, 1 / 2] := rfl
  constructor
  · rw [← p1, List.mem_map] at key
    obtain ⟨⟨_, v⟩, hv, rfl⟩ := key
    exact ⟨v, hv⟩
  · rw [← p2, List.mem_map] at key
    obtain ⟨⟨_, v⟩, hv, rfl⟩ := key
    exact ⟨v, hv⟩

theorem Special.shift {x y : ℚ} (m : ℤ) (h : Special x) (hy : y = x + m ∨ y = -x + m) : Special y := by
  rcases h with ⟨n, hn⟩ | ⟨n, hn⟩ <;> rcases hy with rfl | rfl
  · exact .inl ⟨n + 12 * m, by push_cast; linarith⟩
  · exact .inl ⟨-n + 12 * m, by push_cast; linarith⟩
  · exact .inr ⟨n + 8 * m, by push_cast; linarith⟩
  · exact .inr ⟨-n + 8 * m, by push_cast; linarith⟩

theorem special_first {x : ℚ} (h : Special (NumTrigo.first (rem2 x))) : Special x := by
  have e : x = rem2 x + ((2 * ⌊x / 2⌋ : ℤ) : ℚ) := by unfold rem2; push_cast; ring
  refine Special.shift (2 * ⌊x / 2⌋) ?_ (.inl e)
  unfold NumTrigo.first at h
  split_ifs at h
  · exact h
  · exact Special.shift 1 h (.inr (by push_cast; ring))
  · exact Special.shift 1 h (.inl (by push_cast; ring))
  · exact Special.shift 2 h (.inr (by push_cast; ring))

theorem sinOf_none {x : ℚ} (h : ¬ Special x) : (sinOf x : Option (Expr D)) = none := by
  have h' : ¬ Special (NumTrigo.first (rem2 x)) := fun c => h (special_first c)
  have ne : ∀ a : ℚ, Special a → a ≠ NumTrigo.first (rem2 x) := fun a ha e => h' (e ▸ ha)
  unfold NumTrigo.sinOf sinTab
  simp only [look_cons, look_nil]
  rw [if_neg (ne 0 (.inl ⟨0, by norm_num⟩)), if_neg (ne (1 / 12) (.inl ⟨1, by norm_num⟩)), if_neg (ne (1 / 8) (.inr ⟨1, by norm_num⟩)),
    if_neg (ne (1 / 6) (.inl ⟨2, by norm_num⟩)), if_neg (ne (1 / 4) (.inl ⟨3, by norm_num⟩)), if_neg (ne (1 / 3) (.inl ⟨4, by norm_num⟩)),
    if_neg (ne (3 / 8) (.inr ⟨3, by norm_num⟩)), if_neg (ne (5 / 12) (.inl ⟨5, by norm_num⟩)), if_neg (ne (1 / 2) (.inl ⟨6, by norm_num⟩))]

theorem Special.half {x : ℚ} (h : Special (x + 1 / 2)) : Special x := by
  rcases h with ⟨n, hn⟩ | ⟨n, hn⟩
  · exact .inl ⟨n - 6, by push_cast; linarith⟩
  · exact .inr ⟨n - 4, by push_cast; linarith⟩

theorem tot_trigOfPi {f : Fn} {x : ℚ} {r : Expr D} (h : Tot cfg (fun E => trigCreate E f (piM x)) r) : Tot cfg (fun E => trigOfPi E f x) r :=
  tot_bind (tot_prod (tot_prod_pi x)) (tot_trig h)

theorem xPi_eq {x : ℚ} (h : x ≠ 0) : (piM x : Expr D) = xPi x := if_neg h

theorem plain_plus {a : ℚ} {v : Expr D} (h : (a, v) ∈ plus) : plain v = true := by
  have : ∀ p ∈ (plus : List (ℚ × Expr D)), plain p.2 = true := by
    intro p hp
    simp only [plus, List.mem_cons, List.not_mem_nil, or_false] at hp
    rcases hp with rfl | rfl | rfl | rfl | rfl | rfl | rfl | rfl | rfl <;> rfl
  exact this _ h

theorem plain_minus {a : ℚ} {v : Expr D} (h : (a, v) ∈ minus) : plain v = true := by
  have : ∀ p ∈ (minus : List (ℚ × Expr D)), plain p.2 = true := by
    intro p hp
    simp only [minus, List.mem_cons, List.not_mem_nil, or_false] at hp
    rcases hp with rfl | rfl | rfl | rfl | rfl | rfl | rfl | rfl | rfl <;> rfl
  exact this _ h

end Angles

end

/-! ## Theorems -/

section

variable {D : Type} [Flt D] [LawfulFlt D] (cfg : Cfg D) (hcfg : cfg.Ok) (h6 : 6 ≤ cfg.maxPrime)

open Angles

/-- C71. Every multiple of 15 or of 22.5 degrees, in any quadrant and after any number of turns, has an entry: an
expression without functions. -/
theorem C71_exists (x : ℚ) (h : Special x) : ∃ v : Expr D, Sine x v ∧ plain v = true := by
  have h0 := NumTrigo.rem2_nonneg x
  have h2 := NumTrigo.rem2_lt x
  have e : NumTrigo.rem2 x = x - 2 * ⌊x / 2⌋ := rfl
  generalize hr : NumTrigo.rem2 x = r at h0 h2 e
  have hs : Special r := h.shift (-(2 * ⌊x / 2⌋)) (.inl (by push_cast; linarith))
  by_cases c1 : r ≤ 1 / 2
  · obtain ⟨v, hv⟩ := (key_of (D := D) h0 c1 hs).1
    exact ⟨v, .first r ⌊x / 2⌋ hv (by linarith), plain_plus hv⟩
  · by_cases c2 : r ≤ 1
    · obtain ⟨v, hv⟩ := (key_of (D := D) (a := 1 - r) (by linarith) (by linarith) (hs.shift 1 (.inr (by push_cast; ring)))).1
      exact ⟨v, .second _ ⌊x / 2⌋ hv (by linarith), plain_plus hv⟩
    · by_cases c3 : r ≤ 3 / 2
      · obtain ⟨v, hv⟩ := (key_of (D := D) (a := r - 1) (by linarith) (by linarith) (hs.shift (-1) (.inl (by push_cast; ring)))).2
        exact ⟨v, .third _ ⌊x / 2⌋ hv (by linarith), plain_minus hv⟩
      · obtain ⟨v, hv⟩ := (key_of (D := D) (a := 2 - r) (by linarith) (by linarith) (hs.shift 2 (.inr (by push_cast; ring)))).2
        exact ⟨v, .fourth _ (⌊x / 2⌋ + 1) hv (by push_cast; linarith), plain_minus hv⟩

/-- C71. The value of the entry is the sine. -/
theorem C71_value (σ : Asg) (hσ : σ.Respects) (x : ℚ) (v : Expr D) (h : Sine x v) : den σ v = some (Real.sin (x * Real.pi)) := by
  have := tot_sin_pi (Cfg.std_ok (D := D) 1000) (by norm_num [Cfg.std]) x
  rw [sinRes, h.sinOf, Option.getD_some] at this
  obtain ⟨N, hN⟩ := tot_trig this
  have hx : den σ (piM x : Expr D) = some (x * Real.pi) := by
    unfold piM
    split_ifs with a b
    · subst a; simp [zero_eq]
    · subst b; simp [den, Spec.cst]
    · simp [den, denProd, Spec.cst]
  exact C06_trig_partial _ (Cfg.std_ok 1000) N σ hσ .sin (by simp) _ _ _ hx rfl _ _ (hN N le_rfl) (by simp)

include hcfg h6

/-- C71. The sine of `x` times π is the entry of the table. -/
theorem C71_sin (x : ℚ) (v : Expr D) (h : Sine x v) : Yields cfg (fun E => trigOfPi E .sin x) v := by
  have := tot_sin_pi hcfg h6 (cfg := cfg) x
  rw [sinRes, h.sinOf, Option.getD_some] at this
  exact (tot_trigOfPi this).yields (trigOfPi_mono _ _)

/-- C71. The cosine is the sine of the angle increased by a right angle. -/
theorem C71_cos (x : ℚ) (v : Expr D) (h : Sine (x + 1 / 2) v) : Yields cfg (fun E => trigOfPi E .cos x) v := by
  have := tot_cos_pi hcfg h6 (cfg := cfg) x
  rw [cosRes, h.sinOf, Option.getD_some] at this
  exact (tot_trigOfPi this).yields (trigOfPi_mono _ _)

/-- C71. For other angles the function stays, with a positive argument: the sine is odd. -/
theorem C71_sin_other (x : ℚ) (h : ¬ Special x) :
    Yields cfg (fun E => trigOfPi E .sin x) (if 0 < x then .fn .sin (xPi x) else .prod [.num (.rat (-1)), .fn .sin (xPi (-x))]) := by
  have x0 : x ≠ 0 := by rintro rfl; exact h (.inl ⟨0, by norm_num⟩)
  have := tot_sin_pi hcfg h6 (cfg := cfg) x
  rw [sinRes, sinOf_none h, Option.getD_none, mOne_rat, xPi_eq x0, xPi_eq (neg_ne_zero.2 x0)] at this
  rw [show (if 0 < x then (.fn .sin (xPi x) : Expr D) else .prod [.num (.rat (-1)), .fn .sin (xPi (-x))])
    = if x < 0 then .prod [.num (.rat (-1)), .fn .sin (xPi (-x))] else .fn .sin (xPi x) by
      rcases lt_or_gt_of_ne x0 with c | c
      · rw [if_pos c, if_neg c.le.not_gt]
      · rw [if_pos c, if_neg c.le.not_gt]]
  rw [← xPi_eq x0] at this ⊢
  exact (tot_trigOfPi this).yields (trigOfPi_mono _ _)

/-- C71. For other angles the function stays, with a positive argument: the cosine is even. -/
theorem C71_cos_other (x : ℚ) (h : ¬ Special x) : Yields cfg (fun E => trigOfPi E .cos x) (.fn .cos (xPi |x|)) := by
  have x0 : x ≠ 0 := by rintro rfl; exact h (.inl ⟨0, by norm_num⟩)
  have := tot_cos_pi hcfg h6 (cfg := cfg) x
  rw [cosRes, sinOf_none (fun c => h c.half), Option.getD_none, xPi_eq (abs_ne_zero.2 x0)] at this
  exact (tot_trigOfPi this).yields (trigOfPi_mono _ _)

end

/-! ## The hypotheses are met -/

namespace TrigPiEx

open Angles ExprEx

/-- The settings of the library. -/
theorem std6 : 6 ≤ (Cfg.std 1000 : Cfg Hyb).maxPrime := by norm_num [Cfg.std]

/-- 945 degrees are two turns and 225 degrees. -/
example : Sine (21 / 4) (.prod [.num (.rat (-1)), .pow (.num (.rat 2)) (.num (.rat (-(1 / 2))))] : Expr Hyb) :=
  .third (1 / 4) 2 (by simp [minus, q, recRoot]) (by norm_num)

/-- −22.5 degrees. -/
example : Yields (Cfg.std 1000 : Cfg Hyb) (fun E => trigOfPi E .sin (-(1 / 8)))
    (.prod [q (-1 / 2), root (.sum [q 2, .prod [q (-1), root (q 2)]])]) :=
  C71_sin _ (Cfg.std_ok 1000) std6 _ _ (.fourth (1 / 8) 0 (by simp [minus]) (by norm_num))

/-- The cosine of 225 degrees. -/
example : Yields (Cfg.std 1000 : Cfg Hyb) (fun E => trigOfPi E .cos (5 / 4)) (.prod [q (-1), recRoot (q 2)]) :=
  C71_cos _ (Cfg.std_ok 1000) std6 _ _ (.fourth (1 / 4) 1 (by simp [minus]) (by norm_num))

theorem not_special : ¬ Special (-(2 / 7)) := by
  rintro (⟨n, hn⟩ | ⟨n, hn⟩)
  · have : (-24 : ℤ) = 7 * n := by exact_mod_cast (by linarith : (-24 : ℚ) = 7 * n)
    omega
  · have : (-16 : ℤ) = 7 * n := by exact_mod_cast (by linarith : (-16 : ℚ) = 7 * n)
    omega

/-- sin(−2/7·π) = −sin(2/7·π). -/
example : Yields (Cfg.std 1000 : Cfg Hyb) (fun E => trigOfPi E .sin (-(2 / 7)))
    (.prod [.num (.rat (-1)), .fn .sin (.prod [.num (.rat (2 / 7)), .cst .pi])]) := by
  have := C71_sin_other (D := Hyb) _ (Cfg.std_ok 1000) std6 _ not_special
  rwa [if_neg (by norm_num), neg_neg, xPi, if_neg (by norm_num)] at this

end TrigPiEx

end Tsym
