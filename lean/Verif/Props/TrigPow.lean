import Verif.TrigAll
import Verif.Props.QuotNormal
import Verif.Props.SolveNum
import Verif.Props.Values

set_option autoImplicit false
set_option linter.unusedSectionVars false
set_option linter.unusedSimpArgs false
set_option linter.unusedVariables false

/-!
# C76: products of powers of sine, cosine and tangent
-/

namespace Tsym

open Expr

/-! ## Specification -/

namespace TrigSpec

/-- A power of a function with an integer or fractional exponent that is not zero. -/
def power {D : Type} (f : Fn) (s : Sym) (p : ℚ) : Expr D := if p = 1 then .fn f (.sym s) else .pow (.fn f (.sym s)) (.num (.rat p))

/-- The exponent of the sine in a power of one of the functions. -/
def sinExp : Fn → ℤ → ℤ
  | .sin, p => p
  | .tan, p => p
  | _, _ => 0

/-- The exponent of the cosine in a power of one of the functions. -/
def cosExp : Fn → ℤ → ℤ
  | .cos, p => p
  | .tan, p => -p
  | _, _ => 0

/-- sin^u*cos^v with as few factors as possible. -/
def normalForm {D : Type} (s : Sym) (u v : ℤ) : Expr D :=
  if u = 0 ∧ v = 0 then .num (.rat 1)
  else if v = 0 then power .sin s u
  else if u = 0 then power .cos s v
  else if u = -v then power .tan s u
  else .prod [power .cos s v, power .sin s u]

/-- The program f(s)^p*g(s)^q. -/
def mul {D : Type} (E : Eng D) (f g : Fn) (s : Sym) (p q : ℚ) : M D (Expr D) := do
  let a ← E.trigCreate f (.sym s)
  let a ← E.powCreate a (.num (.rat p))
  let b ← E.trigCreate g (.sym s)
  let b ← E.powCreate b (.num (.rat q))
  E.prodCreate [a, b]

/-- The value of f(s)^p*g(s)^q. -/
noncomputable def val (f g : Fn) (p q : ℚ) (y : ℝ) : Option ℝ :=
  (Spec.fn f y).bind fun a => (Spec.pow a p).bind fun a => (Spec.fn g y).bind fun b => (Spec.pow b q).bind fun b => some (a * b)

/-- Sine, cosine and tangent. -/
def Trig (f : Fn) : Prop := f = .sin ∨ f = .cos ∨ f = .tan

end TrigSpec

open TrigSpec

section

variable {D : Type} [Flt D] [LawfulFlt D] {cfg : Cfg D} {σ : Asg}

open Lean.Order in
theorem TrigSpec.mul_mono (f g : Fn) (s : Sym) (p q : ℚ) : monotone fun E : Eng D => TrigSpec.mul E f g s p q := by
  unfold TrigSpec.mul
  repeat' monotonicity

namespace TrigProd

theorem tp_power (f : Fn) (s : Sym) {p : ℚ} (h : p ≠ 0) : tp f (.sym s) p = (power f s p : Expr D) := by
  simp only [tp, power, h, if_false]

theorem rs_mul {f g : Fn} {s : Sym} (hs : s.id.Ok) {p q : ℚ} (hf : Tr f) (hg : Tr g) {S : Asg → Prop} {r : Expr D}
    (h : Rs cfg S (fun E => prodCreate E [tp f (.sym s) p, tp g (.sym s) q]) r) : Rs cfg S (fun E => TrigSpec.mul E f g s p q) r := by
  have hx : TA cfg (.sym s : Expr D) := TA.sym hs
  unfold TrigSpec.mul
  exact rs_bind (Tot.rs (tot_trig (hx.trig f))) (rs_bind (Tot.rs (Tsym.tot_pow (hx.tot_pow hf p))) (rs_bind (Tot.rs (tot_trig (hx.trig g)))
    (rs_bind (Tot.rs (Tsym.tot_pow (hx.tot_pow hg q))) (rs_succ (fun _ => rfl) h))))

theorem Rs.out {α : Type} {S : Asg → Prop} {f : Eng D → M D α} {a : α} (h : Rs cfg S f a) : LinE.Out cfg f (.ok a) := by
  obtain ⟨N, cs, _, hN⟩ := h
  exact ⟨N, fun n hn => by rw [hN n hn]; rfl⟩

theorem hS (s : Sym) : ∀ σ : Asg, Real.cos (σ s) ≠ 0 → Cond.holds σ (.nz (.fn .cos (.sym s) : Expr D)) := by
  intro σ h
  simpa [Cond.holds, den, Spec.fn] using h

theorem mk_out (s : Sym) (u v : ℤ) : mk (out (.sym s : Expr D) u v) = normalForm s u v := by
  unfold out pair normalForm
  by_cases h1 : v = 0
  · by_cases h2 : u = 0
    · simp [h1, h2, mk, tp]
    · have : (u : ℚ) ≠ 0 := by exact_mod_cast h2
      simp only [h1, h2, Int.cast_zero, if_true, false_and, if_false, mk, tp_power _ _ this]
  · have e1 : (v : ℚ) ≠ 0 := by exact_mod_cast h1
    by_cases h2 : u = 0
    · simp only [h1, h2, e1, Int.cast_zero, if_true, and_false, if_false, mk, tp_power _ _ e1]
    · have e2 : (u : ℚ) ≠ 0 := by exact_mod_cast h2
      have e3 : ((u : ℚ) = -(v : ℚ)) ↔ u = -v := by exact_mod_cast Iff.rfl
      simp only [h1, h2, e1, e2, if_false, and_false, e3]
      split_ifs <;> simp only [mk, tp_power _ _ e1, tp_power _ _ e2]

theorem exps {f : Fn} (hf : Tr f) (p : ℤ) : ((sinExp f p : ℤ) : ℚ) = es f p ∧ ((cosExp f p : ℤ) : ℚ) = ec f p := by
  rcases hf with rfl | rfl | rfl <;> simp [sinExp, cosExp, es, ec]

end TrigProd

open TrigProd

/-! ## C76 -/

/-- C76. For integer exponents, the product of two powers of sine, cosine and tangent of a symbol has the fewest factors,
where the cosine is not zero. The only exceptions are powers of the tangent with opposite exponents. -/
theorem C76_integers (hc : cfg.Ok) (s : Sym) (hs : s.id.Ok) (f g : Fn) (hf : Trig f) (hg : Trig g) (p q : ℤ) (hp : p ≠ 0) (hq : q ≠ 0)
    (h : ¬ (f = .tan ∧ g = .tan ∧ p = -q)) :
    ReturnsWhere cfg (fun σ => Real.cos (σ s) ≠ 0) (fun E => TrigSpec.mul E f g s p q)
      (normalForm s (sinExp f p + sinExp g q) (cosExp f p + cosExp g q) : Expr D) := by
  refine Rs.returnsWhere (TrigSpec.mul_mono f g s p q) (rs_mul hs hf hg ?_)
  rw [← mk_out]
  refine rs_mul_int hc (TA.sym hs) hf hg (by exact_mod_cast hp) rfl (by exact_mod_cast hq) rfl ?_ ?_ ?_ (hS s)
  · push_cast; rw [(exps hf p).1, (exps hg q).1]
  · push_cast; rw [(exps hf p).2, (exps hg q).2]
  · rintro rfl rfl h0
    exact h ⟨rfl, rfl, by have : p + q = 0 := by exact_mod_cast h0
                          omega⟩

/-- C76. The product of powers of the tangent with opposite integer exponents takes the first element of an empty list:
undefined behaviour. -/
theorem C76_tan_ub (hc : cfg.Ok) (s : Sym) (hs : s.id.Ok) (p : ℤ) (hp : p ≠ 0) :
    Ends cfg (fun E : Eng D => TrigSpec.mul E .tan .tan s p (-p : ℤ)) (.error .ub) := by
  refine LinE.Out.ends (TrigSpec.mul_mono .tan .tan s p (-p : ℤ)) ?_
  have hx : TA cfg (.sym s : Expr D) := TA.sym hs
  have h0 : (p : ℚ) ≠ 0 := by exact_mod_cast hp
  obtain ⟨N, hN⟩ := out_mul_ub hc hx h0 rfl
  unfold TrigSpec.mul
  refine LinE.out_bind_ok (.of_tot (tot_trig (hx.trig _))) (LinE.out_bind_ok (.of_tot (Tsym.tot_pow (hx.tot_pow tTan _)))
    (LinE.out_bind_ok (.of_tot (tot_trig (hx.trig _))) (LinE.out_bind_ok (.of_tot (Tsym.tot_pow (hx.tot_pow tTan _))) ?_)))
  refine ⟨N + 1, fun n hn => ?_⟩
  obtain ⟨m, rfl⟩ : ∃ m, n = m + 1 := ⟨n - 1, by omega⟩
  have := hN m (by omega)
  push_cast
  exact this

theorem TrigSpec.fn_val {f : Fn} (hf : Trig f) {y : ℝ} (h1 : Real.sin y ≠ 0) (h2 : Real.cos y ≠ 0) :
    ∃ a : ℝ, a ≠ 0 ∧ Spec.fn f y = some a ∧ ∀ n : ℤ, a ^ n = Real.sin y ^ sinExp f n * Real.cos y ^ cosExp f n := by
  rcases hf with rfl | rfl | rfl
  · exact ⟨_, h1, rfl, fun n => by simp [sinExp, cosExp]⟩
  · exact ⟨_, h2, rfl, fun n => by simp [sinExp, cosExp]⟩
  · refine ⟨Real.tan y, ?_, by simp [Spec.fn, Spec.tan, h2], fun n => ?_⟩
    · rw [Real.tan_eq_sin_div_cos]; exact div_ne_zero h1 h2
    · rw [Real.tan_eq_sin_div_cos, div_zpow, sinExp, cosExp, zpow_neg, div_eq_mul_inv]

theorem TrigSpec.den_power {f : Fn} {s : Sym} {a : ℝ} (h : Spec.fn f (σ s) = some a) (h0 : a ≠ 0) (n : ℤ) :
    den σ (power f s n : Expr D) = some (a ^ n) := by
  unfold power
  split_ifs with h1
  · have : n = 1 := by exact_mod_cast h1
    subst this
    simp [den, h]
  · simp only [den, Option.bind_some, h, Number.val, Rat.cast_intCast]
    exact Spec.pow_int n h0

/-- C76. The value of the normal form. -/
theorem TrigSpec.den_normal (s : Sym) (u v : ℤ) (h1 : Real.sin (σ s) ≠ 0) (h2 : Real.cos (σ s) ≠ 0) :
    den σ (normalForm s u v : Expr D) = some (Real.sin (σ s) ^ u * Real.cos (σ s) ^ v) := by
  have ds := fun n => TrigSpec.den_power (D := D) (σ := σ) (f := .sin) (s := s) rfl h1 n
  have dc := fun n => TrigSpec.den_power (D := D) (σ := σ) (f := .cos) (s := s) rfl h2 n
  unfold normalForm
  split_ifs with a b c d
  · obtain ⟨rfl, rfl⟩ := a; simp [den, Number.val]
  · subst b; rw [ds]; simp
  · subst c; rw [dc]; simp
  · obtain ⟨t, t0, t1, t2⟩ := fn_val (.inr (.inr rfl)) h1 h2
    rw [TrigSpec.den_power t1 t0, t2]
    simp only [sinExp, cosExp]
    rw [d, neg_neg]
  · simp only [den, denProd, dc, ds, Option.bind_some, mul_one, mul_comm]

/-- C76. For integer exponents, the result has the value of the product, where sine and cosine are not zero. -/
theorem C76_value (hc : cfg.Ok) (s : Sym) (hs : s.id.Ok) (f g : Fn) (hf : Trig f) (hg : Trig g) (p q : ℤ) (hp : p ≠ 0) (hq : q ≠ 0) (r : Expr D)
    {S : Asg → Prop} (hr : ReturnsWhere cfg S (fun E => TrigSpec.mul E f g s p q) r) (h1 : Real.sin (σ s) ≠ 0) (h2 : Real.cos (σ s) ≠ 0) :
    (TrigSpec.val f g p q (σ s)).isSome = true ∧ den σ r = TrigSpec.val f g p q (σ s) := by
  obtain ⟨N, cs, -, hN, -⟩ := hr
  by_cases h : f = .tan ∧ g = .tan ∧ p = -q
  · obtain ⟨rfl, rfl, rfl⟩ := h
    obtain ⟨⟨M, hM⟩, -⟩ := C76_tan_ub (D := D) hc s hs (-q) hp
    have e1 := hN _ (Nat.le_max_left N M)
    have e2 := hM _ (Nat.le_max_right N M)
    dsimp only at e1 e2
    rw [neg_neg] at e2
    rw [e1] at e2
    cases e2
  · obtain ⟨M, cs', -, hM, -⟩ := C76_integers (D := D) hc s hs f g hf hg p q hp hq h
    have e1 := hN _ (Nat.le_max_left N M)
    have e2 := hM _ (Nat.le_max_right N M)
    have e : r = normalForm s (sinExp f p + sinExp g q) (cosExp f p + cosExp g q) := by
      rw [e1] at e2; injection e2 with e2; exact (Prod.mk.inj e2).1
    obtain ⟨a, a0, a1, a2⟩ := fn_val hf h1 h2
    obtain ⟨b, b0, b1, b2⟩ := fn_val hg h1 h2
    have hv : TrigSpec.val f g p q (σ s) = some (a ^ p * b ^ q) := by
      simp only [TrigSpec.val, a1, b1, Option.bind_some, Rat.cast_intCast, Spec.pow_int _ a0, Spec.pow_int _ b0]
    rw [hv, e, TrigSpec.den_normal s _ _ h1 h2, a2, b2, zpow_add₀ h1, zpow_add₀ h2]
    refine ⟨rfl, ?_⟩
    congr 1; ring

theorem TrigSpec.independent {a b : ℤ} (h : ∀ y : ℝ, 0 < Real.sin y → 0 < Real.cos y → Real.sin y ^ a * Real.cos y ^ b = 1) : a = 0 ∧ b = 0 := by
  have hl : ∀ y : ℝ, 0 < Real.sin y → 0 < Real.cos y → (a : ℝ) * Real.log (Real.sin y) + b * Real.log (Real.cos y) = 0 := by
    intro y h1 h2
    have := congrArg Real.log (h y h1 h2)
    rwa [Real.log_mul (zpow_ne_zero _ h1.ne') (zpow_ne_zero _ h2.ne'), Real.log_zpow, Real.log_zpow, Real.log_one] at this
  have s3 : (1 : ℝ) < Real.sqrt 3 := by rw [Real.lt_sqrt (by norm_num)]; norm_num
  have s3' : Real.sqrt 3 < 2 := by rw [Real.sqrt_lt' (by norm_num)]; norm_num
  have e1 := hl (Real.pi / 6) (by rw [Real.sin_pi_div_six]; norm_num) (by rw [Real.cos_pi_div_six]; positivity)
  have e2 := hl (Real.pi / 3) (by rw [Real.sin_pi_div_three]; positivity) (by rw [Real.cos_pi_div_three]; norm_num)
  rw [Real.sin_pi_div_six, Real.cos_pi_div_six] at e1
  rw [Real.sin_pi_div_three, Real.cos_pi_div_three] at e2
  have l1 : Real.log (1 / 2) < Real.log (Real.sqrt 3 / 2) := Real.log_lt_log (by norm_num) (by linarith)
  have l2 : Real.log (Real.sqrt 3 / 2) < 0 := Real.log_neg (by positivity) (by linarith)
  set x := Real.log (1 / 2)
  set y := Real.log (Real.sqrt 3 / 2)
  have hd : x * x - y * y ≠ 0 := by nlinarith
  have ha : (a : ℝ) * (x * x - y * y) = 0 := by linear_combination x * e1 - y * e2
  have hb : (b : ℝ) * (x * x - y * y) = 0 := by linear_combination x * e2 - y * e1
  exact ⟨by exact_mod_cast (mul_eq_zero.1 ha).resolve_right hd, by exact_mod_cast (mul_eq_zero.1 hb).resolve_right hd⟩

/-- C76. Completeness: products with the same values have the same result. -/
theorem C76_complete (hc : cfg.Ok) (s : Sym) (hs : s.id.Ok) (f g f' g' : Fn) (hf : Trig f) (hg : Trig g) (hf' : Trig f') (hg' : Trig g')
    (p q p' q' : ℤ) (hp : p ≠ 0) (hq : q ≠ 0) (hp' : p' ≠ 0) (hq' : q' ≠ 0) (r t : Expr D) {S S' : Asg → Prop}
    (hr : ReturnsWhere cfg S (fun E => TrigSpec.mul E f g s p q) r) (ht : ReturnsWhere cfg S' (fun E => TrigSpec.mul E f' g' s p' q') t)
    (hv : ∀ y, TrigSpec.val f g p q y = TrigSpec.val f' g' p' q' y) : r = t := by
  have key : ∀ {f g : Fn} {p q : ℤ} {r : Expr D} {S : Asg → Prop}, Trig f → Trig g → p ≠ 0 → q ≠ 0 →
      ReturnsWhere cfg S (fun E => TrigSpec.mul E f g s p q) r → r = normalForm s (sinExp f p + sinExp g q) (cosExp f p + cosExp g q) := by
    intro f g p q r S hf hg hp hq hr
    obtain ⟨N, cs, -, hN, -⟩ := hr
    by_cases h : f = .tan ∧ g = .tan ∧ p = -q
    · obtain ⟨rfl, rfl, rfl⟩ := h
      obtain ⟨⟨M, hM⟩, -⟩ := C76_tan_ub (D := D) hc s hs (-q) hp
      have e1 := hN _ (Nat.le_max_left N M)
      have e2 := hM _ (Nat.le_max_right N M)
      dsimp only at e1 e2
      rw [neg_neg] at e2
      rw [e1] at e2
      cases e2
    · obtain ⟨M, cs', -, hM, -⟩ := C76_integers (D := D) hc s hs f g hf hg p q hp hq h
      have e1 := hN _ (Nat.le_max_left N M)
      have e2 := hM _ (Nat.le_max_right N M)
      rw [e1] at e2; injection e2 with e2; exact (Prod.mk.inj e2).1
  have hval : ∀ {f g : Fn} {p q : ℤ} {y : ℝ}, Trig f → Trig g → Real.sin y ≠ 0 → Real.cos y ≠ 0 →
      TrigSpec.val f g p q y = some (Real.sin y ^ (sinExp f p + sinExp g q) * Real.cos y ^ (cosExp f p + cosExp g q)) := by
    intro f g p q y hf hg h1 h2
    obtain ⟨a, a0, a1, a2⟩ := fn_val hf h1 h2
    obtain ⟨b, b0, b1, b2⟩ := fn_val hg h1 h2
    simp only [TrigSpec.val, a1, b1, Option.bind_some, Rat.cast_intCast, Spec.pow_int _ a0, Spec.pow_int _ b0, a2, b2, zpow_add₀ h1, zpow_add₀ h2]
    congr 1; ring
  rw [key hf hg hp hq hr, key hf' hg' hp' hq' ht]
  have hi := TrigSpec.independent (a := sinExp f p + sinExp g q - (sinExp f' p' + sinExp g' q')) (b := cosExp f p + cosExp g q - (cosExp f' p' + cosExp g' q')) (by
    intro y h1 h2
    have := hv y
    rw [hval hf hg h1.ne' h2.ne', hval hf' hg' h1.ne' h2.ne', Option.some.injEq] at this
    rw [zpow_sub₀ h1.ne', zpow_sub₀ h2.ne', div_mul_div_comm, this, div_self]
    exact mul_ne_zero (zpow_ne_zero _ h1.ne') (zpow_ne_zero _ h2.ne'))
  rw [show sinExp f p + sinExp g q = sinExp f' p' + sinExp g' q' by omega, show cosExp f p + cosExp g q = cosExp f' p' + cosExp g' q' by omega]

/-- C76. Sine and cosine with any rational exponents, in both orders. -/
theorem C76_sin_cos (hc : cfg.Ok) (s : Sym) (hs : s.id.Ok) (p q : ℚ) (hp : p ≠ 0) (hq : q ≠ 0) :
    ReturnsWhere cfg (fun σ => Real.cos (σ s) ≠ 0) (fun E => TrigSpec.mul E .sin .cos s p q)
      (if p = -q then power .tan s p else .prod [power .cos s q, power .sin s p] : Expr D) ∧
    ReturnsWhere cfg (fun σ => Real.cos (σ s) ≠ 0) (fun E => TrigSpec.mul E .cos .sin s q p)
      (if p = -q then power .tan s p else .prod [power .cos s q, power .sin s p] : Expr D) := by
  have e : mk (pair (.sym s : Expr D) p q) = (if p = -q then power .tan s p else .prod [power .cos s q, power .sin s p]) := by
    unfold pair
    split_ifs <;> simp only [mk, tp_power _ _ hp, tp_power _ _ hq]
  obtain ⟨h1, h2⟩ := rs_mul_sin_cos hc (TA.sym hs) hp hq (hS (D := D) s)
  rw [e] at h1 h2
  exact ⟨Rs.returnsWhere (TrigSpec.mul_mono .sin .cos s p q) (rs_mul hs tSin tCos h1), Rs.returnsWhere (TrigSpec.mul_mono .cos .sin s q p) (rs_mul hs tCos tSin h2)⟩

/-- C76. Two powers of the sine, or two powers of the cosine, with rational exponents that are not opposite. The exponents are added, unless
both are fractions with a sum that is an integer. -/
theorem C76_same (hc : cfg.Ok) (s : Sym) (hs : s.id.Ok) (f : Fn) (hf : f = .sin ∨ f = .cos) (p q : ℚ) (hp : p ≠ 0) (hq : q ≠ 0) (hpq : p ≠ -q) :
    ReturnsWhere cfg (fun _ => True) (fun E => TrigSpec.mul E f f s p q)
      (if p.isInt = false ∧ q.isInt = false ∧ (p + q).isInt = true then
        (if q < p then .prod [power f s q, power f s p] else .prod [power f s p, power f s q])
      else power f s (p + q) : Expr D) := by
  have h0 : p + q ≠ 0 := fun h => hpq (by linarith)
  have ht : Tr f := by rcases hf with rfl | rfl; exacts [tSin, tCos]
  obtain ⟨e, he⟩ : ∃ e : ℚ, f = .sin ∧ e = 1 ∨ f = .cos ∧ e = -1 := by
    rcases hf with rfl | rfl
    · exact ⟨1, .inl ⟨rfl, rfl⟩⟩
    · exact ⟨-1, .inr ⟨rfl, rfl⟩⟩
  have h := rs_mul_same (S := fun _ => True) (p := p) (q := q) hc (TA.sym hs) hp hq he (.inr fun h => hpq h.2)
  refine Rs.returnsWhere (TrigSpec.mul_mono f f s p q) (rs_mul hs ht ht ?_)
  convert h using 1
  unfold same
  simp only [hpq, if_false]
  have ho : ordered (tp f (.sym s) p) (tp f (.sym s) q) = if q < p then [(tp f (.sym s) q : Expr D), tp f (.sym s) p] else [tp f (.sym s) p, tp f (.sym s) q] := by
    unfold ordered
    rw [(TA.sym (cfg := cfg) hs).order_same f hp hq]
    simp
  rw [ho]
  split_ifs <;> simp only [mk, tp_power _ _ hp, tp_power _ _ hq, tp_power _ _ h0]

/-- C76. The wrong rule: for every fraction p, sin(s)^p*sin(s)^(-p) gives tan(s)^p, and cos(s)^p*cos(s)^(-p) gives tan(s)^(-p). -/
theorem C76_wrong (hc : cfg.Ok) (s : Sym) (hs : s.id.Ok) (p : ℚ) (hp : p.isInt = false) :
    Ends cfg (fun E => TrigSpec.mul E .sin .sin s p (-p)) (.ok (power .tan s p : Expr D)) ∧
    Ends cfg (fun E => TrigSpec.mul E .cos .cos s p (-p)) (.ok (power .tan s (-p) : Expr D)) := by
  have h0 : p ≠ 0 := by rintro rfl; cases hp
  have h1 : -p ≠ 0 := by simpa using h0
  have hk : p.isInt = false ∧ (-p).isInt = false ∧ (p + -p).isInt = true := ⟨hp, by simpa [Rat.isInt] using hp, by simp [Rat.isInt]⟩
  have a := rs_mul_same (S := fun _ => False) (cfg := cfg) (D := D) hc (TA.sym hs) h0 h1 (.inl ⟨rfl, rfl⟩) (.inl fun _ h => h)
  have b := rs_mul_same (S := fun _ => False) (cfg := cfg) (D := D) hc (TA.sym hs) h0 h1 (.inr ⟨rfl, rfl⟩) (.inl fun _ h => h)
  simp only [same, hk, and_self, if_true, neg_neg, mk, one_mul, neg_one_mul] at a b
  rw [tp_power .tan _ h0] at a
  rw [tp_power .tan _ h1] at b
  exact ⟨LinE.Out.ends (TrigSpec.mul_mono .sin .sin s p (-p)) (Rs.out (rs_mul hs tSin tSin a)),
    LinE.Out.ends (TrigSpec.mul_mono .cos .cos s p (-p)) (Rs.out (rs_mul hs tCos tCos b))⟩

/-- C76. The product in the wrong rule is one, while its result has another value, for all angles in (0, pi/2) but pi/4. -/
theorem C76_wrong_value (s : Sym) (p : ℚ) (hp : p ≠ 0) (h1 : 0 < Real.sin (σ s)) (h2 : 0 < Real.cos (σ s)) (h3 : Real.tan (σ s) ≠ 1) :
    TrigSpec.val .sin .sin p (-p) (σ s) = some 1 ∧ TrigSpec.val .cos .cos p (-p) (σ s) = some 1 ∧
    (∃ x, den σ (power .tan s p : Expr D) = some x ∧ x ≠ 1) ∧ ∃ x, den σ (power .tan s (-p) : Expr D) = some x ∧ x ≠ 1 := by
  have t0 : 0 < Real.tan (σ s) := by rw [Real.tan_eq_sin_div_cos]; exact div_pos h1 h2
  have ht : Spec.fn .tan (σ s) = some (Real.tan (σ s)) := by simp [Spec.fn, Spec.tan, h2.ne']
  have pw : ∀ p : ℚ, p ≠ 0 → ∃ x, den σ (power .tan s p : Expr D) = some x ∧ x ≠ 1 := by
    intro p hp
    have hd : den σ (power .tan s p : Expr D) = some (Real.tan (σ s) ^ (p : ℝ)) := by
      unfold power
      split_ifs with h
      · subst h; simp [den, ht]
      · simp only [den, Option.bind_some, ht, Number.val]; exact Spec.pow_pos' t0
    refine ⟨_, hd, fun h => h3 ?_⟩
    have hp' : (p : ℝ) ≠ 0 := by exact_mod_cast hp
    exact (Real.rpow_left_inj t0.le zero_le_one hp').1 (by rw [h, Real.one_rpow])
  have one : ∀ {a : ℝ}, 0 < a → (Spec.pow a p).bind (fun x => (Spec.pow a ((-p : ℚ) : ℝ)).bind fun y => some (x * y)) = some 1 := by
    intro a ha
    rw [Spec.pow_pos' ha, Spec.pow_pos' ha]
    simp only [Option.bind_some, ← Real.rpow_add ha, Rat.cast_neg, add_neg_cancel, Real.rpow_zero]
  exact ⟨by simpa [TrigSpec.val, Spec.fn] using one h1, by simpa [TrigSpec.val, Spec.fn] using one h2, pw p hp, pw (-p) (by simpa using hp)⟩

theorem TrigSpec.den_power_pos {f : Fn} {s : Sym} {a : ℝ} (h : Spec.fn f (σ s) = some a) (h0 : 0 < a) (p : ℚ) :
    den σ (power f s p : Expr D) = some (a ^ (p : ℝ)) := by
  unfold power
  split_ifs with h1
  · subst h1; simp [den, h]
  · simp only [den, Option.bind_some, h, Number.val]; exact Spec.pow_pos' h0

/-- C76. For rational exponents, the result for a sine and a cosine has the value of the product, where sine and cosine are positive. -/
theorem C76_sin_cos_value (s : Sym) (p q : ℚ) (h1 : 0 < Real.sin (σ s)) (h2 : 0 < Real.cos (σ s)) :
    den σ (if p = -q then power .tan s p else .prod [power .cos s q, power .sin s p] : Expr D) = TrigSpec.val .sin .cos p q (σ s) ∧
    (TrigSpec.val .sin .cos p q (σ s)).isSome = true := by
  have t0 : 0 < Real.tan (σ s) := by rw [Real.tan_eq_sin_div_cos]; exact div_pos h1 h2
  have ht : Spec.fn .tan (σ s) = some (Real.tan (σ s)) := by simp [Spec.fn, Spec.tan, h2.ne']
  have hv : TrigSpec.val .sin .cos p q (σ s) = some (Real.sin (σ s) ^ (p : ℝ) * Real.cos (σ s) ^ (q : ℝ)) := by
    simp only [TrigSpec.val, Spec.fn, Option.bind_some, Spec.pow_pos' h1, Spec.pow_pos' h2]
  rw [hv]
  refine ⟨?_, rfl⟩
  split_ifs with h
  · rw [TrigSpec.den_power_pos ht t0, Real.tan_eq_sin_div_cos, Real.div_rpow h1.le h2.le, div_eq_mul_inv, ← Real.rpow_neg h2.le]
    have : (q : ℝ) = -(p : ℝ) := by rw [h]; push_cast; ring
    rw [this]
  · simp only [den, denProd, TrigSpec.den_power_pos (f := .sin) rfl h1, TrigSpec.den_power_pos (f := .cos) rfl h2, Option.bind_some, mul_one, mul_comm]

/-- C76. Where sine and cosine are negative, the product of their roots has no value, but the result for sin(s)^p*cos(s)^(-p) has one. -/
theorem C76_hides (s : Sym) (p : ℚ) (hp : p.isInt = false) (h1 : Real.sin (σ s) < 0) (h2 : Real.cos (σ s) < 0) :
    TrigSpec.val .sin .cos p (-p) (σ s) = none ∧ (den σ (power .tan s p : Expr D)).isSome = true := by
  have t0 : 0 < Real.tan (σ s) := by rw [Real.tan_eq_sin_div_cos]; exact div_pos_of_neg_of_neg h1 h2
  have ht : Spec.fn .tan (σ s) = some (Real.tan (σ s)) := by simp [Spec.fn, Spec.tan, h2.ne]
  refine ⟨?_, by rw [TrigSpec.den_power_pos ht t0]; rfl⟩
  have : Spec.pow (Real.sin (σ s)) p = none := by
    unfold Spec.pow
    rw [if_neg]
    rintro (h' | ⟨h', _⟩ | ⟨_, n, hn⟩)
    · linarith
    · linarith
    · have : p = n := by exact_mod_cast hn
      subst this
      simp [Rat.isInt] at hp
  simp [TrigSpec.val, Spec.fn, this]

end

/-! ## Examples and wrong results for roots of the tangent -/

namespace TrigPowEx

open ExprEx SymEx ValueEx

/-- A symbol. -/
def sa : Sym := ⟨.named ⟨['a'], [], []⟩, false⟩

theorem sa_ok : sa.id.Ok := by simp only [sa, SymId.Ok, Name.value]; decide

/-- C76. sin(a)^3*tan(a)^(-2) is cos(a)^2*sin(a). -/
example : ReturnsWhere (Cfg.std (D := Hyb) 323) (fun σ => Real.cos (σ sa) ≠ 0) (fun E => TrigSpec.mul E .sin .tan sa (3 : ℤ) (-2 : ℤ))
    (.prod [.pow (.fn .cos (.sym sa)) (.num (.rat 2)), .fn .sin (.sym sa)]) := by
  have := C76_integers (D := Hyb) (Cfg.std_ok 323) sa sa_ok .sin .tan (.inl rfl) (.inr (.inr rfl)) 3 (-2) (by decide) (by decide) (by simp)
  simpa [normalForm, sinExp, cosExp, power] using this

/-- C76. The hypotheses of the theorems on values are met. -/
example : ∃ σ : Asg, Real.sin (σ sa) ≠ 0 ∧ Real.cos (σ sa) ≠ 0 ∧ 0 < Real.sin (σ sa) ∧ 0 < Real.cos (σ sa) ∧ Real.tan (σ sa) ≠ 1 := by
  have s3 : (1 : ℝ) < Real.sqrt 3 := by rw [Real.lt_sqrt (by norm_num)]; norm_num
  refine ⟨fun _ => Real.pi / 3, ?_, ?_, ?_, ?_, ?_⟩
  · simp only [Real.sin_pi_div_three]; positivity
  · simp only [Real.cos_pi_div_three]; norm_num
  · simp only [Real.sin_pi_div_three]; positivity
  · simp only [Real.cos_pi_div_three]; norm_num
  · simp only [Real.tan_pi_div_three]; exact s3.ne'

/-- C76. tan(a)/tan(a) is undefined behaviour. -/
example : Ends (Cfg.std (D := Hyb) 323) (fun E => TrigSpec.mul E .tan .tan sa (1 : ℤ) ((-1 : ℤ) : ℚ)) (.error .ub) :=
  C76_tan_ub (Cfg.std_ok 323) sa sa_ok 1 (by decide)

/-- C76. Two products with the same values: tan(a)*cos(a)^2 and sin(a)*cos(a). -/
example : ∃ r : Expr Hyb, ReturnsWhere (Cfg.std 323) (fun σ => Real.cos (σ sa) ≠ 0) (fun E => TrigSpec.mul E .tan .cos sa (1 : ℤ) (2 : ℤ)) r ∧
    ReturnsWhere (Cfg.std 323) (fun σ => Real.cos (σ sa) ≠ 0) (fun E => TrigSpec.mul E .sin .cos sa (1 : ℤ) (1 : ℤ)) r :=
  ⟨_, C76_integers (Cfg.std_ok 323) sa sa_ok .tan .cos (.inr (.inr rfl)) (.inr (.inl rfl)) 1 2 (by decide) (by decide) (by simp),
    C76_integers (Cfg.std_ok 323) sa sa_ok .sin .cos (.inl rfl) (.inr (.inl rfl)) 1 1 (by decide) (by decide) (by simp)⟩

/-- C76. sin(a)^(1/2)*sin(a)^(-1/2) is tan(a)^(1/2). -/
example : Ends (Cfg.std (D := Hyb) 323) (fun E => TrigSpec.mul E .sin .sin sa (1 / 2) (-(1 / 2))) (.ok (.pow (.fn .tan (.sym sa)) (.num (.rat (1 / 2))))) := by
  have := (C76_wrong (D := Hyb) (Cfg.std_ok 323) sa sa_ok (1 / 2) (by decide +kernel)).1
  have e : (power .tan sa (1 / 2) : Expr Hyb) = .pow (.fn .tan (.sym sa)) (.num (.rat (1 / 2))) := by
    unfold power; rw [if_neg (by norm_num)]
  rwa [e] at this

/-- C76. sin(a)^(3/2)*sin(a)^(1/2) stays, with the smaller exponent first. -/
example : ReturnsWhere (Cfg.std (D := Hyb) 323) (fun _ => True) (fun E => TrigSpec.mul E .sin .sin sa (3 / 2) (1 / 2))
    (.prod [power .sin sa (1 / 2), power .sin sa (3 / 2)]) := by
  have := C76_same (D := Hyb) (Cfg.std_ok 323) sa sa_ok .sin (.inl rfl) (3 / 2) (1 / 2) (by norm_num) (by norm_num) (by norm_num)
  rwa [if_pos (by decide +kernel), if_pos (by norm_num)] at this

/-- A power of the tangent of `a`. -/
def tanP (q : ℚ) : Expr Hyb := if q = 1 then fn .tan a else pow (fn .tan a) (ratE q)

/-- C76. Wrong results for roots of the tangent: a factor is lost in tan(a)^(1/2)*tan(a), which gives tan(a), and the products with the
opposite powers of sine, cosine and tangent are powers of the tangent. -/
theorem C76_tan_roots :
    (∃ cs, Api.mul lib (tanP (1 / 2)) (tanP 1) = .ok (tanP 1, cs)) ∧
    (∃ cs, Api.mul lib (tanP (1 / 2)) (tanP (-1 / 2)) = .ok (tanP (1 / 2), cs)) ∧
    (∃ cs, Api.mul lib (tanP (1 / 2)) (pow (fn .sin a) (ratE (-1 / 2))) = .ok (tanP (-1 / 2), cs)) ∧
    (∃ cs, Api.mul lib (tanP (1 / 2)) (pow (fn .cos a) (ratE (-1 / 2))) = .ok (tanP (1 / 2), cs)) :=
  ⟨M.val_some (by krfl), M.val_some (by krfl), M.val_some (by krfl), M.val_some (by krfl)⟩

/-- C76. At an angle where the tangent is 4, the lost factor changes the value from 8 to 4. -/
theorem C76_tan_lost : ∃ σ : Asg, (den σ (tanP (1 / 2))).bind (fun x => (den σ (tanP 1)).bind fun y => some (x * y)) = some 8 ∧
    den σ (tanP 1) = some 4 := by
  have hc : Real.cos (Real.arctan 4) ≠ 0 := (Real.cos_arctan_pos 4).ne'
  have ha : ∀ σ : Asg, σ = (fun _ => Real.arctan 4) → den σ (fn .tan a : Expr Hyb) = some 4 := by
    rintro σ rfl
    simp [a, den, Spec.fn, Spec.tan, hc, Real.tan_arctan]
  refine ⟨fun _ => Real.arctan 4, ?_, ?_⟩
  · have h1 : (tanP (1 / 2)) = pow (fn .tan a) (ratE (1 / 2)) := by unfold tanP; rw [if_neg (by norm_num)]
    have h2 : tanP 1 = fn .tan a := by simp [tanP]
    have h3 : ((4 : ℝ) ^ (((1 / 2 : ℚ)) : ℝ)) = 2 := by
      rw [show (4 : ℝ) = 2 ^ (2 : ℝ) by norm_num, ← Real.rpow_mul (by norm_num)]; norm_num
    have h4 : den (fun _ => Real.arctan 4) (pow (fn .tan a) (ratE (1 / 2)) : Expr Hyb) = some 2 := by
      rw [den, ha _ rfl]
      simp only [Option.bind_some, ratE, den, Number.val, Spec.pow_pos' (show (0 : ℝ) < 4 by norm_num), h3]
    rw [h1, h2, h4, ha _ rfl]
    norm_num
  · have h2 : tanP 1 = fn .tan a := by simp [tanP]
    rw [h2]; exact ha _ rfl

end TrigPowEx

end Tsym
