import Verif.SurdSquare

set_option autoImplicit false
set_option linter.unusedSectionVars false
set_option linter.unusedSimpArgs false

/-!
# C92: computing with square roots decides equality

Trees of integers and square roots of natural numbers with sums, differences and products, where each product is expanded. If all numbers below
the roots divide a number whose square is within the limit for primes, the calls always return, the result has the value of the tree, and two
trees give the same expression exactly if they have the same value.
-/

namespace Tsym

/-! ## Specification -/

/-- Integers, square roots, sums, differences and products. -/
inductive Surds.Tree where
  | int (k : ℤ)
  | root (n : ℕ)
  | add (t u : Tree)
  | sub (t u : Tree)
  | mul (t u : Tree)

namespace Surds.Tree

/-- The real number. -/
noncomputable def val : Tree → ℝ
  | int k => k
  | root n => √(n : ℝ)
  | add t u => t.val + u.val
  | sub t u => t.val - u.val
  | mul t u => t.val * u.val

/-- All numbers below the roots divide `P`. -/
def Below (P : ℕ) : Tree → Prop
  | int _ => True
  | root n => n ∣ P
  | add t u => t.Below P ∧ u.Below P
  | sub t u => t.Below P ∧ u.Below P
  | mul t u => t.Below P ∧ u.Below P

/-- The calls of the library; products are expanded. -/
def run {D : Type} [Flt D] (E : Eng D) : Tree → M D (Expr D)
  | int k => pure (.num (.rat k))
  | root n => Api.sqrt E (.num (.rat n))
  | add t u => do
    let a ← t.run E
    let b ← u.run E
    Api.add E a b
  | sub t u => do
    let a ← t.run E
    let b ← u.run E
    Api.sub E a b
  | mul t u => do
    let a ← t.run E
    let b ← u.run E
    let c ← Api.mul E a b
    Api.expand E c

end Surds.Tree

/-! ## Proofs -/

namespace Surds

open Expr

variable {D : Type} [Flt D] [LawfulFlt D] {cfg : Cfg D}

open Lean.Order in
theorem Tree.run_mono (t : Tree) : monotone fun E : Eng D => t.run E := by
  induction t with
  | int k => simp only [Tree.run]; monotonicity
  | root n => simp only [Tree.run, Api.sqrt]; repeat' monotonicity
  | add t u h1 h2 =>
    simp only [Tree.run, Api.add]
    refine monotone_bind (m := M D) _ _ h1 (monotone_of_monotone_apply _ fun a => ?_)
    refine monotone_bind (m := M D) _ _ h2 (monotone_of_monotone_apply _ fun b => ?_)
    repeat' monotonicity
  | sub t u h1 h2 =>
    simp only [Tree.run, Api.sub]
    refine monotone_bind (m := M D) _ _ h1 (monotone_of_monotone_apply _ fun a => ?_)
    refine monotone_bind (m := M D) _ _ h2 (monotone_of_monotone_apply _ fun b => ?_)
    repeat' monotonicity
  | mul t u h1 h2 =>
    simp only [Tree.run, Api.mul, Api.expand]
    refine monotone_bind (m := M D) _ _ h1 (monotone_of_monotone_apply _ fun a => ?_)
    refine monotone_bind (m := M D) _ _ h2 (monotone_of_monotone_apply _ fun b => ?_)
    repeat' monotonicity

/-- Sums and differences keep integers and divisors. -/
theorem int_of_coeff {R : List (ℚ × ℕ)} (hR : Ok R) {f : ℕ → ℚ} (h : ∀ n, Surds.coeff R n = f n) (hi : ∀ n, (f n).den = 1) : Int R :=
  ⟨hR, fun m hm => by
    have := ((hR.sl.mem_iff m).1 hm).1
    rw [← this, ← coeff_eq, h]; exact hi _⟩

theorem dvd_of_coeff {P : ℕ} {R : List (ℚ × ℕ)} (hR : Ok R) {f : ℕ → ℚ} (h : ∀ n, Surds.coeff R n = f n) (hi : ∀ n, ¬ n ∣ P → f n = 0) : ∀ m ∈ R, m.2 ∣ P := by
  intro m hm
  by_contra hn
  have := (hR.sl.mem_iff m).1 hm
  exact this.2 (by rw [← this.1, ← coeff_eq, h]; exact hi _ hn)

theorem Int.coeff_int {L : List (ℚ × ℕ)} (h : Int L) (n : ℕ) : (Surds.coeff L n).den = 1 := by
  by_cases h0 : Sd.co L n = 0
  · rw [coeff_eq, h0]; rfl
  · have := (h.ok.sl.mem_iff (Sd.co L n, n)).2 ⟨rfl, h0⟩
    rw [coeff_eq]; exact h.int _ this

theorem coeff_dvd {P : ℕ} {L : List (ℚ × ℕ)} (h : Ok L) (hd : ∀ m ∈ L, m.2 ∣ P) (n : ℕ) (hn : ¬ n ∣ P) : Surds.coeff L n = 0 := by
  by_contra h0
  rw [coeff_eq] at h0
  exact hn (hd _ ((h.sl.mem_iff (Sd.co L n, n)).2 ⟨rfl, h0⟩))

theorem den_one_add {a b : ℚ} (ha : a.den = 1) (hb : b.den = 1) : (a + b).den = 1 := by
  rw [← Rat.coe_int_num_of_den_eq_one ha, ← Rat.coe_int_num_of_den_eq_one hb, ← Int.cast_add]; exact Rat.den_intCast _

/-- The results: integer multiples of roots of divisors of `P`. -/
structure Res (P : ℕ) (R : List (ℚ × ℕ)) : Prop where
  int : Int R
  dvd : ∀ m ∈ R, m.2 ∣ P

theorem tot_add {P : ℕ} {L M : List (ℚ × ℕ)} (hL : Res P L) (hM : Res P M) :
    ∃ R, Res P R ∧ value R = value L + value M ∧ Tot cfg (fun E => Api.add E (expr L : Expr D) (expr M)) (expr R) := by
  obtain ⟨R, hR, hco, hv, g⟩ := C89_add (D := D) (cfg := cfg) L M hL.int.ok hM.int.ok
  refine ⟨R, ⟨int_of_coeff hR hco fun n => den_one_add (hL.int.coeff_int n) (hM.int.coeff_int n), dvd_of_coeff hR hco fun n hn => ?_⟩, hv, g.1⟩
  rw [coeff_dvd hL.int.ok hL.dvd n hn, coeff_dvd hM.int.ok hM.dvd n hn, add_zero]

theorem tot_sub (hc : cfg.Ok) {P : ℕ} {L M : List (ℚ × ℕ)} (hL : Res P L) (hM : Res P M) :
    ∃ R, Res P R ∧ value R = value L - value M ∧ Tot cfg (fun E => Api.sub E (expr L : Expr D) (expr M)) (expr R) := by
  obtain ⟨R, hR, hv, g, _⟩ := C89_sub (D := D) hc L M hL.int.ok hM.int.ok
  -- the same list by adding the negative
  have hN : Res P (M.map fun m => (-1 * m.1, m.2)) := by
    refine ⟨⟨(C89_scale (D := D) hc (-1) M hM.int.ok (by norm_num) (by norm_num) (fun m _ => by simp)).1, fun m hm => ?_⟩, fun m hm => ?_⟩
    · obtain ⟨n, hn, rfl⟩ := List.mem_map.1 hm
      simpa using hM.int.int n hn
    · obtain ⟨n, hn, rfl⟩ := List.mem_map.1 hm
      exact hM.dvd n hn
  have hNv := (C89_scale (D := D) hc (-1) M hM.int.ok (by norm_num) (by norm_num) (fun m _ => by simp)).2.1
  obtain ⟨S, hS, w, _⟩ := tot_add (D := D) (cfg := cfg) hL hN
  have e := ((C89_equal (D := D) R S hR hS.int.ok).1).2 (by rw [hv, w, hNv]; push_cast; ring)
  exact ⟨S, hS, by rw [w, hNv]; push_cast; ring, e ▸ g.1⟩

theorem tot_mul (hc : cfg.Ok) (hub : cfg.strictUb = false) {P : ℕ} (hP0 : 0 < P) (hmax : ((P * P : ℕ) : ℤ) ≤ cfg.maxPrime) {L M : List (ℚ × ℕ)}
    (hL : Res P L) (hM : Res P M) :
    ∃ R, Res P R ∧ value R = value L * value M ∧
      Tot cfg (fun E => do let c ← Api.mul E (expr L : Expr D) (expr M); Api.expand E c) (expr R) := by
  have h1 : 1 ≤ cfg.maxPrime := by
    have : 1 ≤ P * P := Nat.mul_pos hP0 hP0
    exact le_trans (by exact_mod_cast this) hmax
  have le : ∀ {a b : ℕ}, a ∣ P → b ∣ P → ((a * b : ℕ) : ℤ) ≤ cfg.maxPrime := fun {a b} ha hb => by
    refine le_trans ?_ hmax
    exact_mod_cast Nat.mul_le_mul (Nat.le_of_dvd hP0 ha) (Nat.le_of_dvd hP0 hb)
  by_cases he : L = M ∧ 2 ≤ L.length
  · obtain ⟨rfl, h2⟩ := he
    have ls := hL.int.ok.sl
    have hm := Sd.tot_mul_self (D := D) (cfg := cfg) ls h2
    obtain ⟨R, hR, hp⟩ := Sd.tot_expand_power (D := D) hc hub h1 ls h2 hL.int.zm hL.dvd hP0 (fun m h => le (dvd_refl P) (hL.dvd m h)) 1
    have hR2 := hp.two ls h2
    refine ⟨R, ⟨⟨ok_of (hp.sl ls), fun m hm => (hp.zm hL.int.zm m hm).int⟩, hp.dvd hL.dvd⟩, by rw [hp.value ls]; ring, ?_⟩
    rw [expr_eq, expr_eq, Sd.sumOf_two h2, Sd.sumOf_two hR2]
    refine tot_bind (tot_prod hm) ?_
    have e2 : (((1 + 1 : ℕ) : ℕ) : ℚ) = 2 := by norm_num
    rw [e2] at hR
    exact hR
  · obtain ⟨R, hR, g⟩ := mul_tot (D := D) hc hub h1 L M hL.int hM.int (fun m hm n hn => le (hL.dvd m hm) (hM.dvd n hn))
      (fun e => by by_contra h; exact he ⟨e, by omega⟩)
    refine ⟨R, ⟨⟨ok_of hR.sl, fun m hm => (Sd.zm_of hR hL.int.zm hM.int.zm m hm).int⟩, hR.dvd hL.dvd hM.dvd⟩, value_mul hL.int.ok hM.int.ok hR,
      tot_bind (tot_prod g) ?_⟩
    rw [expr_eq]
    exact Sd.expand_sumOf hR.sl

theorem root_split {n : ℕ} (hn : 0 < n) : ∃ s r : ℕ, 0 < s ∧ Squarefree r ∧ r * s ^ 2 = n := by
  obtain ⟨a, b, h, hs⟩ := Nat.sq_mul_squarefree n
  refine ⟨b, a, ?_, hs, by rw [← h, mul_comm]⟩
  rcases Nat.eq_zero_or_pos b with rfl | hb
  · simp at h; omega
  · exact hb

theorem tot_root {P : ℕ} (hP0 : 0 < P) (hmax : ((P * P : ℕ) : ℤ) ≤ cfg.maxPrime) {n : ℕ} (hn : n ∣ P) :
    ∃ R, Res P R ∧ value R = √(n : ℝ) ∧ Tot cfg (fun E => Api.sqrt E (num (.rat n) : Expr D)) (expr R) := by
  have hn0 : 0 < n := Nat.pos_of_dvd_of_pos hn hP0
  obtain ⟨s, r, hs, hr, h⟩ := root_split hn0
  have hr0 : 0 < r := Nat.pos_of_ne_zero hr.ne_zero
  have hnp : n ≤ P * P := le_trans (Nat.le_of_dvd hP0 hn) (Nat.le_mul_of_pos_left P hP0)
  have hnm : (n : ℤ) ≤ cfg.maxPrime := le_trans (by exact_mod_cast hnp) hmax
  have h1 : (1 : ℤ) ≤ cfg.maxPrime := le_trans (by exact_mod_cast hn0) hnm
  have hR : RootOf cfg.maxPrime (n : ℚ) 1 (s : ℚ) (r : ℚ) := by
    refine .small s ⟨by simpa using hnm, by simpa using h1⟩ ⟨by simpa using h1, by simpa using h1⟩ ?_ (by norm_num)
    rw [one_pow, mul_one]
    refine ⟨by exact_mod_cast hs, by exact_mod_cast hr0, ?_, by simp, by simpa using hr, by simp⟩
    simp only [Rat.num_natCast]
    rw [← h]; push_cast; ring
  have hT := (tot_sqrt (D := D) (cfg := cfg) (b := (n : ℚ)) (by exact_mod_cast hn0) hR).1
  have hsm : Sd.SL [((s : ℚ), r)] := Sd.SL.single ⟨show (s : ℚ) ≠ 0 by exact_mod_cast hs.ne', hr, by simp⟩
  refine ⟨[((s : ℚ), r)], ⟨⟨ok_of hsm, by simp⟩, ?_⟩, ?_, ?_⟩
  · simp only [List.mem_cons, List.not_mem_nil, or_false, forall_eq]
    exact Dvd.dvd.trans ⟨s ^ 2, h.symm⟩ hn
  · simp only [value, List.map_cons, List.map_nil, List.sum_cons, List.sum_nil, add_zero]
    rw [← h]; push_cast
    rw [Real.sqrt_mul (by positivity), Real.sqrt_sq (by positivity), mul_comm]
  · rw [expr_eq]
    exact tot_pow hT

theorem tot_int {P : ℕ} (k : ℤ) : ∃ R, Res P R ∧ value R = k ∧ Tot cfg (fun _ => pure (num (.rat k) : Expr D)) (expr R) := by
  by_cases hk : k = 0
  · subst hk
    exact ⟨[], ⟨⟨ok_of Sd.SL.nil, by simp⟩, by simp⟩, by simp [value], tot_pure _⟩
  · have hsm : Sd.SL [((k : ℚ), 1)] := Sd.SL.single ⟨show (k : ℚ) ≠ 0 by exact_mod_cast hk, squarefree_one, by simp⟩
    exact ⟨[((k : ℚ), 1)], ⟨⟨ok_of hsm, by simp⟩, by simp⟩, by simp [value], tot_pure _⟩

theorem Tree.tot (hc : cfg.Ok) (hub : cfg.strictUb = false) {P : ℕ} (hP0 : 0 < P) (hmax : ((P * P : ℕ) : ℤ) ≤ cfg.maxPrime) (t : Tree) (h : t.Below P) :
    ∃ R, Res P R ∧ value R = t.val ∧ Tot cfg (fun E => t.run E) (expr R : Expr D) := by
  induction t with
  | int k => exact tot_int k
  | root n => exact tot_root hP0 hmax h
  | add t u ht hu =>
    obtain ⟨L, hL, v, g⟩ := ht h.1
    obtain ⟨M, hM, w, g'⟩ := hu h.2
    obtain ⟨R, hR, x, g''⟩ := tot_add (D := D) (cfg := cfg) hL hM
    exact ⟨R, hR, by rw [x, v, w]; rfl, tot_bind g (tot_bind g' g'')⟩
  | sub t u ht hu =>
    obtain ⟨L, hL, v, g⟩ := ht h.1
    obtain ⟨M, hM, w, g'⟩ := hu h.2
    obtain ⟨R, hR, x, g''⟩ := tot_sub (D := D) hc hL hM
    exact ⟨R, hR, by rw [x, v, w]; rfl, tot_bind g (tot_bind g' g'')⟩
  | mul t u ht hu =>
    obtain ⟨L, hL, v, g⟩ := ht h.1
    obtain ⟨M, hM, w, g'⟩ := hu h.2
    obtain ⟨R, hR, x, g''⟩ := tot_mul (D := D) hc hub hP0 hmax hL hM
    exact ⟨R, hR, by rw [x, v, w]; rfl, tot_bind g (tot_bind g' g'')⟩

end Surds

section

open Expr Surds

variable {D : Type} [Flt D] [LawfulFlt D] {cfg : Cfg D}

/-! ## C92 -/

/-- C92. The calls always return. The result is a sum of integer multiples of square roots of different squarefree divisors of `P`, and has the
value of the tree. The increment of the end iterator in contractConst is taken to have no effect. -/
theorem C92_run (hc : cfg.Ok) (hub : cfg.strictUb = false) (P : ℕ) (hP0 : 0 < P) (hmax : ((P * P : ℕ) : ℤ) ≤ cfg.maxPrime) (t : Surds.Tree) (h : t.Below P) :
    ∃ R, Surds.Int R ∧ (∀ m ∈ R, m.2 ∣ P) ∧ value R = t.val ∧ (∀ σ, den σ (expr R : Expr D) = some t.val) ∧ Gives cfg (fun E => t.run E) (expr R : Expr D) := by
  obtain ⟨R, hR, v, g⟩ := t.tot (D := D) hc hub hP0 hmax h
  exact ⟨R, hR.int, hR.dvd, v, fun σ => by rw [C89_value σ R hR.int.ok, v], g.gives t.run_mono⟩

/-- C92. Two trees give the same expression exactly if they have the same value. -/
theorem C92_equal (hc : cfg.Ok) (hub : cfg.strictUb = false) (P : ℕ) (hP0 : 0 < P) (hmax : ((P * P : ℕ) : ℤ) ≤ cfg.maxPrime) (t u : Surds.Tree)
    (ht : t.Below P) (hu : u.Below P) :
    ∃ r s : Expr D, Gives cfg (fun E => t.run E) r ∧ Gives cfg (fun E => u.run E) s ∧ (r = s ↔ t.val = u.val) := by
  obtain ⟨R, hR, _, v, _, g⟩ := C92_run (D := D) hc hub P hP0 hmax t ht
  obtain ⟨S, hS, _, w, _, g'⟩ := C92_run (D := D) hc hub P hP0 hmax u hu
  exact ⟨_, _, g, g', by rw [(C89_equal (D := D) R S hR.ok hS.ok).1, v, w]⟩

/-- C92. A tree gives an integer exactly if its value is that integer; in particular it gives zero exactly if its value is zero. -/
theorem C92_integer (hc : cfg.Ok) (hub : cfg.strictUb = false) (P : ℕ) (hP0 : 0 < P) (hmax : ((P * P : ℕ) : ℤ) ≤ cfg.maxPrime) (t : Surds.Tree)
    (h : t.Below P) (k : ℤ) : Gives cfg (fun E => t.run E) (num (.rat k) : Expr D) ↔ t.val = k := by
  obtain ⟨r, s, g, g', e⟩ := C92_equal (D := D) hc hub P hP0 hmax t (.int k) h trivial
  have hs : s = num (.rat k) := g'.unique (Tot.gives (tot_pure _) (Surds.Tree.run_mono (.int k)))
  rw [hs] at e
  constructor
  · intro hk; exact e.1 (g.unique hk)
  · intro hv; rw [← e.2 hv]; exact g

/-- C92. A tree has a rational value only if the result is an integer, so irrational values are recognised. -/
theorem C92_rational (hc : cfg.Ok) (hub : cfg.strictUb = false) (P : ℕ) (hP0 : 0 < P) (hmax : ((P * P : ℕ) : ℤ) ≤ cfg.maxPrime) (t : Surds.Tree)
    (h : t.Below P) : ∃ r : Expr D, Gives cfg (fun E => t.run E) r ∧ ((∃ k : ℤ, r = num (.rat k)) ↔ ¬ Irrational t.val) := by
  obtain ⟨R, hR, _, v, _, g⟩ := C92_run (D := D) hc hub P hP0 hmax t h
  refine ⟨_, g, ?_, ?_⟩
  · rintro ⟨k, hk⟩
    rw [(C92_integer hc hub P hP0 hmax t h k).1 (hk ▸ g)]
    exact fun hi => hi ⟨k, by simp⟩
  · intro hi
    obtain ⟨q, hq⟩ := not_not.1 hi
    have hok : q ≠ 0 → Ok [(q, 1)] := fun h0 => ok_of (Sd.SL.single ⟨h0, squarefree_one, by simp⟩)
    have hval : value [(q, 1)] = q := by simp [value]
    by_cases h0 : q = 0
    · refine ⟨0, ?_⟩
      have : R = [] := (C89_zero R hR.ok).1 (by rw [v, ← hq, h0]; simp)
      rw [this]; norm_num [expr]
    · have e := (C89_equal (D := D) R [(q, 1)] hR.ok (hok h0))
      have hRq := e.1.2 (by rw [v, hval, hq])
      have hco := (e.2.1 hRq) 1
      have hd := hR.coeff_int 1
      rw [hco] at hd
      have hq1 : q.den = 1 := by simpa [Surds.coeff] using hd
      refine ⟨q.num, ?_⟩
      rw [hRq, Rat.coe_int_num_of_den_eq_one hq1]; rfl

end

/-! ## Examples -/

/-- (√12 + √2) * (√12 + √2) - 14 - 4 * √6, a tree below 12 with value 0; the square is that of a sum. -/
def Surds.Tree.sample : Surds.Tree :=
  .sub (.sub (.mul (.add (.root 12) (.root 2)) (.add (.root 12) (.root 2))) (.int 14)) (.mul (.int 4) (.root 6))

example : Surds.Tree.sample.Below 12 ∧ (((12 * 12 : ℕ) : ℕ) : ℤ) ≤ (Cfg.std (D := Hyb) 1000).maxPrime ∧ (Cfg.std (D := Hyb) 1000).strictUb = false := by
  refine ⟨?_, by simp [Cfg.std], rfl⟩
  simp only [Surds.Tree.sample, Surds.Tree.Below, and_true, true_and]
  decide

example : Surds.Tree.sample.run (eng (Cfg.std 1000) 60 : Eng Hyb) = .ok (.num (.rat 0), []) := by krfl

/-- `C92_run`, `C92_rational`: (1 + √2) * (1 + √2) expands, and is not rational. -/
example : (Surds.Tree.mul (.add (.int 1) (.root 2)) (.add (.int 1) (.root 2))).run (eng (Cfg.std 1000) 60 : Eng Hyb) =
    .ok (Surds.expr [(3, 1), (2, 2)], []) := by krfl

/-- C92. Above the limit for primes equality is not decided: √3988 and 2 * √997 are the same number, but different expressions. -/
theorem C92_false_limit :
    (Surds.Tree.root 3988).run (eng (Cfg.std 1000) 60 : Eng Hyb) = .ok (.pow (.num (.rat 3988)) (.num (.rat (1 / 2))), []) ∧
    (Surds.Tree.mul (.int 2) (.root 997)).run (eng (Cfg.std 1000) 60 : Eng Hyb) =
      .ok (.prod [.num (.rat 2), .pow (.num (.rat 997)) (.num (.rat (1 / 2)))], []) ∧
    (Surds.Tree.root 3988).val = (Surds.Tree.mul (.int 2) (.root 997)).val := by
  refine ⟨by krfl, by krfl, ?_⟩
  simp only [Surds.Tree.val]
  rw [show ((3988 : ℕ) : ℝ) = 2 ^ 2 * 997 by norm_num, Real.sqrt_mul (by norm_num), Real.sqrt_sq (by norm_num)]
  norm_num

end Tsym
