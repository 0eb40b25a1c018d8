import Verif.NormalPoly
import Verif.Props.PolyDivide
import Verif.Api

set_option autoImplicit false
set_option linter.unusedSectionVars false
set_option linter.unusedSimpArgs false
set_option linter.unusedVariables false

/-!
# C57: normal form, numerator and denominator of expanded polynomials

The functions always end, expanded polynomials are their own normal forms, and numerator and denominator
are in lowest terms.
-/

namespace Tsym

open Expr

/-! ## Specification -/

/-- The number and the polynomial with integer coefficients have no common divisor but 1 and -1. -/
def LowestTerms (P : MvPolynomial Sym ℤ) (d : ℤ) : Prop := ∀ k : ℤ, k ∣ d → MvPolynomial.C k ∣ P → IsUnit k

/-- The denominators of the coefficients can be inverted: the limit for primes is small, or no prime occurs four times. -/
def ExactDens (max : ℤ) (p : MvPolynomial Sym ℚ) : Prop :=
  max < 324 ∨ ∀ f, ∀ k : ℕ, k.Prime → ¬ k ^ 4 ∣ (p.coeff f).den

/-! ## Helpers -/

section

variable {D : Type} [Flt D] [LawfulFlt D] {cfg : Cfg D}

theorem ExactDens.numOk {max : ℤ} {p : MvPolynomial Sym ℚ} (h : ExactDens max p) (f : Sym →₀ ℕ) : NumOk max ((p.coeff f).den : ℚ) := by
  rcases h with h | h
  · exact .inl h
  · right
    rw [Rat.num_natCast, Rat.den_natCast]
    refine ⟨fun k hk => by simpa using h f k hk, fun k hk hd => ?_⟩
    have := Nat.dvd_one.1 hd
    have h2 := hk.one_lt
    rw [Nat.pow_eq_one] at this
    omega

theorem Dv.lift {p : MvPolynomial Sym ℚ} (h : Dv 1 p) : ∃ P : MvPolynomial Sym ℤ, MvPolynomial.map (Int.castRingHom ℚ) P = p := by
  have : p ∈ Set.range (MvPolynomial.map (Int.castRingHom ℚ)) := by
    rw [MvPolynomial.mem_range_map_iff_coeffs_subset]
    intro c hc
    obtain ⟨f, hf, rfl⟩ := MvPolynomial.mem_coeffs_iff.1 hc
    obtain ⟨z, hz⟩ := h f
    exact ⟨z, by rw [hz]; simp⟩
  exact this

theorem Dv.of_dvd {k : ℤ} {P : MvPolynomial Sym ℤ} (h : MvPolynomial.C k ∣ P) : Dv k (MvPolynomial.map (Int.castRingHom ℚ) P) := by
  obtain ⟨Q, rfl⟩ := h
  intro f
  exact ⟨Q.coeff f, by rw [MvPolynomial.coeff_map, MvPolynomial.coeff_C_mul]; simp⟩

theorem returns_of {α : Type} {f : Eng D → M D α} {a : α} (hm : Lean.Order.monotone f) (h : ∃ N cs, (∀ c ∈ cs, ∀ σ : Asg, Cond.holds σ c) ∧
    ∀ n, N ≤ n → f (eng cfg n) = .ok (a, cs)) : Returns cfg f a := by
  obtain ⟨N, cs, hcs, hN⟩ := h
  refine ⟨N, cs, hcs, hN, fun n => ?_⟩
  rcases hm _ _ (eng_le cfg (Nat.le_max_left n N)) with h1 | h1
  · exact .inl h1
  · right; rw [h1]; exact hN _ (Nat.le_max_right n N)

/-- The conditions hold always. -/
def Rh (cfg : Cfg D) {α : Type} (f : Eng D → M D α) (a : α) : Prop :=
  ∃ N cs, (∀ c ∈ cs, ∀ σ : Asg, Cond.holds σ c) ∧ ∀ n, N ≤ n → f (eng cfg n) = .ok (a, cs)

theorem Tot.rh {α : Type} {f : Eng D → M D α} {a : α} (h : Tot cfg f a) : Rh cfg f a := by
  obtain ⟨N, h⟩ := h; exact ⟨N, [], by simp, h⟩

theorem rh_bind {α β : Type} {f : Eng D → M D α} {g : Eng D → α → M D β} {a : α} {b : β}
    (hf : Rh cfg f a) (hg : Rh cfg (fun E => g E a) b) : Rh cfg (fun E => f E >>= g E) b := by
  obtain ⟨N, cs, h1, hN⟩ := hf
  obtain ⟨K, ds, h2, hK⟩ := hg
  refine ⟨max N K, cs ++ ds, fun c hc => (List.mem_append.1 hc).elim (h1 c) (h2 c), fun n hn => ?_⟩
  exact M.bind_ok.2 ⟨a, cs, ds, hN n (le_trans (le_max_left _ _) hn), hK n (le_trans (le_max_right _ _) hn), rfl⟩

theorem rh_succ {α : Type} {f g : Eng D → M D α} {a : α} (h : ∀ n, g (eng cfg (n + 1)) = f (eng cfg n)) (hf : Rh cfg f a) : Rh cfg g a := by
  obtain ⟨N, cs, h1, hN⟩ := hf
  refine ⟨N + 1, cs, h1, fun n hn => ?_⟩
  obtain ⟨m, rfl⟩ : ∃ m, n = m + 1 := ⟨n - 1, by omega⟩
  rw [h]; exact hN m (by omega)

theorem rts_capture {α : Type} {f : Eng D → M D α} {a : α} (h : Rts cfg f a) : ∃ cs, Triv cs ∧ Tot cfg (fun E => M.capture (f E)) (a, cs) := by
  obtain ⟨N, cs, h1, hN⟩ := h
  exact ⟨cs, h1, N, fun n hn => capture_ok (hN n hn)⟩

theorem rh_emit {cs : List (Cond D)} (h : Triv cs) : Rh cfg (fun _ => (M.emit ((cs ++ [] ++ []).map (Cond.within [])) : M D Unit)) () := by
  refine ⟨0, (cs ++ [] ++ []).map (Cond.within []), fun c hc σ => ?_, fun n _ => rfl⟩
  obtain ⟨c', h1, rfl⟩ := List.mem_map.1 hc
  simp only [List.append_nil] at h1
  obtain ⟨q, hq, rfl⟩ := h c' h1
  exact ⟨q, by simp, by exact_mod_cast hq⟩

theorem rh_normalToFraction (hc : cfg.Ok) {e n : Expr D} (hn : EP n) {d : ℤ} (hf : ∀ S, Rts cfg (fun E => E.normalFrac e S) (⟨n, .int d⟩, S)) :
    Rh cfg (fun E => Api.normalToFraction E e) ⟨n, .int d⟩ := by
  unfold Api.normalToFraction
  obtain ⟨cs, h1, h2⟩ := rts_capture (hf ⟨[], e.tmpIds⟩)
  refine rh_bind h2.rh (rh_bind (tot_capture (tot_replaceBack hc (EP.int d))).rh (rh_bind (tot_capture (tot_replaceBack hc hn)).rh (rh_bind (rh_emit h1) ?_)))
  exact (tot_pure _).rh

theorem rh_normal (hc : cfg.Ok) {e n : Expr D} (he : EP e) {d : ℤ} (hn : Lowest (poly e) n d) (hok : NumOk cfg.maxPrime (d : ℚ))
    (hf : ∀ S, Rts cfg (fun E => E.normalFrac e S) (⟨n, .int d⟩, S)) : Rh cfg (fun E => E.normal e) e := by
  refine rh_succ (fun _ => rfl) (f := fun E => normal E e) ?_
  unfold normal
  obtain ⟨cs, h1, h2⟩ := rts_capture (hf ⟨[], e.tmpIds⟩)
  refine rh_bind h2.rh (rh_bind (tot_capture (tot_replaceBack hc hn.ep)).rh (rh_bind (tot_capture (tot_replaceBack hc (EP.int d))).rh (rh_bind (rh_emit h1) ?_)))
  exact (tot_evalFrac hc hn.ep hn.pos.ne' hok he hn.eq).rh

end

/-! ## C57 -/

section

variable {D : Type} [Flt D] [LawfulFlt D] {cfg : Cfg D}

theorem QTree.nfrac (hc : cfg.Ok) {t : QTree} (ht : t.Ok cfg.maxPrime) {e : Expr D} (he : Gives cfg (fun E => t.expanded E) e)
    (hdeg : ∀ x, t.poly.degreeOf x < 2 ^ 31 - 1) (hden : ExactDens cfg.maxPrime t.poly) : EP e ∧ Tsym.poly e = t.poly ∧ NFrac cfg e := by
  obtain ⟨h1, h2⟩ := QTree.ep hc ht he
  refine ⟨h1, h2, nf_ep hc h1 (fun x => ?_) fun f => by rw [h2]; exact hden.numOk f⟩
  rw [h2]
  have := hdeg x
  unfold intMax; omega

/-- C57. Numerator and denominator of an expanded polynomial: the functions always end. The denominator is a positive integer, the numerator
an expanded polynomial with integer coefficients, the quotient is the polynomial, and it is in lowest terms. -/
theorem C57_fraction (hc : cfg.Ok) (t : QTree) (ht : t.Ok cfg.maxPrime) (e : Expr D) (he : Gives cfg (fun E => t.expanded E) e)
    (hdeg : ∀ x, t.poly.degreeOf x < 2 ^ 31 - 1) (hden : ExactDens cfg.maxPrime t.poly) :
    ∃ (n : Expr D) (d : ℤ) (P : MvPolynomial Sym ℤ), Returns cfg (fun E => Api.numerator E e) n ∧
      Returns cfg (fun E => Api.denominator E e) (.int d) ∧ Expanded n ∧ 0 < d ∧ (∀ σ : Asg, den σ n = some (t.val σ * d)) ∧
      (∀ σ : Asg, den σ n = some (MvPolynomial.aeval σ P)) ∧ LowestTerms P d := by
  obtain ⟨h1, h2, n, d, h3, h4, h5⟩ := QTree.nfrac hc ht he hdeg hden
  obtain ⟨P, hP⟩ := h4.int.lift
  have hr := rh_normalToFraction hc h4.ep h3
  refine ⟨n, d, P, returns_of (Api.numerator_mono _ id Lean.Order.monotone_id) ?_, returns_of (Api.denominator_mono _ id Lean.Order.monotone_id) ?_, h4.ep.expanded, h4.pos,
    fun σ => ?_, fun σ => ?_, fun k hk hP' => ?_⟩
  · unfold Api.numerator; exact rh_bind (g := fun _ (x : Frac D) => pure x.num) hr (tot_pure _).rh
  · unfold Api.denominator; exact rh_bind (g := fun _ (x : Frac D) => pure x.denom) hr (tot_pure _).rh
  · rw [den_poly n h4.ep.polyE, ← h4.eq, t.val_eq, h2]
    simp [pval]
  · rw [den_poly n h4.ep.polyE, ← hP, pval]
    congr 1
    rw [MvPolynomial.aeval_def, MvPolynomial.eval₂_map, MvPolynomial.aeval_def]
    congr 1
  · have := h4.low k hk (by rw [← hP]; exact Dv.of_dvd hP')
    exact isUnit_of_dvd_one this

/-- C57. An expanded polynomial is its own normal form. -/
theorem C57_normal (hc : cfg.Ok) (t : QTree) (ht : t.Ok cfg.maxPrime) (e : Expr D) (he : Gives cfg (fun E => t.expanded E) e)
    (hdeg : ∀ x, t.poly.degreeOf x < 2 ^ 31 - 1) (hden : ExactDens cfg.maxPrime t.poly) : Returns cfg (fun E => E.normal e) e := by
  obtain ⟨h1, h2, n, d, h3, h4, h5⟩ := QTree.nfrac hc ht he hdeg hden
  exact returns_of (Eng.normal_mono _ id Lean.Order.monotone_id) (rh_normal hc h1 h4 h5 h3)

/-- C57. Simplification leaves an expanded polynomial as it is. -/
theorem C57_simplify (hc : cfg.Ok) (t : QTree) (ht : t.Ok cfg.maxPrime) (e : Expr D) (he : Gives cfg (fun E => t.expanded E) e)
    (hdeg : ∀ x, t.poly.degreeOf x < 2 ^ 31 - 1) (hden : ExactDens cfg.maxPrime t.poly) : Returns cfg (fun E => Api.simplify E e) e := by
  obtain ⟨h1, h2, n, d, h3, h4, h5⟩ := QTree.nfrac hc ht he hdeg hden
  have hx : Tot cfg (fun E => E.expand e) e := tot_expand (tot_expand_ep hc h1)
  refine returns_of (Api.simplify_mono _ id Lean.Order.monotone_id) (a := e) ?_
  unfold Api.simplify
  change Rh cfg (fun E => E.expand e >>= fun expanded => E.normal e >>= fun next => if isUndefined next then pure next
    else (Api.normalLoop E e next >>= fun n => E.expand n >>= fun en => pure (Api.simplest expanded en n))) e
  refine rh_bind hx.rh ?_
  refine rh_bind (rh_normal hc h1 h4 h5 h3) ?_
  simp only [h1.isUndefined, Bool.false_eq_true, if_false]
  have hl : Tot cfg (fun E => Api.normalLoop E e e) e := by
    unfold Api.normalLoop
    refine tot_loop (.done _ ?_)
    simp only [(isEqual_ep h1 h1).2 rfl, if_true]
    exact tot_pure _
  refine rh_bind hl.rh ?_
  refine rh_bind hx.rh ?_
  simp only [Api.simplest, lt_irrefl, if_false]
  exact (tot_pure _).rh

end

/-! ## Examples -/

namespace NormalPolyEx

open ExprEx PolyEx2

open PolyEx5 (deg degreeOf_le_deg)

/-- a/2 + b/3 + 1 -/
def t1 : QTree := .add (.add (.div (.var sa) 2) (.div (.var sb) 3)) (.rat 1)

theorem small_den {q : ℚ} (h : q.den < 16) (k : ℕ) (hk : k.Prime) : ¬ k ^ 4 ∣ q.den := fun hd => by
  have h16 : 2 ^ 4 ≤ k ^ 4 := Nat.pow_le_pow_left hk.two_le 4
  have := Nat.le_of_dvd q.den_pos hd
  omega

theorem t1_ok : t1.Ok 1000 := by
  have h4 : ∀ m : ℕ, 0 < m → m < 16 → ∀ k : ℕ, k.Prime → ¬ k ^ 4 ∣ m := fun m h0 hm k hk hd => by
    have h16 : 2 ^ 4 ≤ k ^ 4 := Nat.pow_le_pow_left hk.two_le 4
    have := Nat.le_of_dvd h0 hd
    omega
  refine ⟨⟨⟨?_, by norm_num, .inr fun k hk => ⟨h4 _ (by decide) (by decide) k hk, h4 _ (by decide) (by decide) k hk⟩⟩,
    ?_, by norm_num, .inr fun k hk => ⟨h4 _ (by decide) (by decide) k hk, h4 _ (by decide) (by decide) k hk⟩⟩, trivial⟩ <;>
  · simp only [QTree.Ok, sa, sb, SymId.Ok, Name.value]
    decide

theorem t1_dens : ExactDens 1000 t1.poly := by
  right
  intro f
  refine small_den ?_
  have e : t1.poly.coeff f = (if Finsupp.single sa 1 = f then 1 else 0) * 2⁻¹ + (if Finsupp.single sb 1 = f then 1 else 0) * 3⁻¹ + (if 0 = f then 1 else 0) := by
    simp only [t1, QTree.poly, MvPolynomial.coeff_add, mul_comm _ (MvPolynomial.C _), MvPolynomial.coeff_C_mul, mul_comm _ (_⁻¹), MvPolynomial.coeff_X, MvPolynomial.coeff_C]
  rw [e]
  split_ifs <;> norm_num

/-- The hypotheses of the theorems are met for a/2 + b/3 + 1 and the default limit for primes. -/
example : ∀ x, t1.poly.degreeOf x < 2 ^ 31 - 1 := fun x => lt_of_le_of_lt (degreeOf_le_deg x t1) (by decide)

theorem t1_expanded : t1.expanded (eng (Cfg.std 1000) 40) = .ok ((sum [int 1, prod [.num (.rat (1 / 2)), a], prod [.num (.rat (1 / 3)), b]] : Expr Hyb), []) := by krfl

/-- Numerator and denominator: 6 + 3*a + 2*b and 6. -/
example : ∃ cs, Api.numerator (eng (Cfg.std 1000) 60) (sum [int 1, prod [.num (.rat (1 / 2)), a], prod [.num (.rat (1 / 3)), b]] : Expr Hyb) =
    .ok (sum [int 6, prod [int 3, a], prod [int 2, b]], cs) := M.val_some (by krfl)

example : ∃ cs, Api.denominator (eng (Cfg.std 1000) 60) (sum [int 1, prod [.num (.rat (1 / 2)), a], prod [.num (.rat (1 / 3)), b]] : Expr Hyb) =
    .ok (int 6, cs) := M.val_some (by krfl)

/-- The condition about the denominators is needed: with the default limit the normal form of a/324 is a/36. -/
theorem C57_false : (∃ cs, (eng (Cfg.std 1000) 60).normal (prod [.num (.rat (1 / 324)), a] : Expr Hyb) = .ok (prod [.num (.rat (1 / 36)), a], cs)) ∧
    (QTree.mul (.rat (1 / 324)) (.var sa)).expanded (eng (Cfg.std 1000) 60) = .ok ((prod [.num (.rat (1 / 324)), a] : Expr Hyb), []) ∧
    (QTree.mul (.rat (1 / 324)) (.var sa)).Ok 1000 := by
  refine ⟨M.val_some (by krfl), by krfl, ?_⟩
  simp only [QTree.Ok, sa, SymId.Ok, Name.value]
  decide

end NormalPolyEx

end Tsym
