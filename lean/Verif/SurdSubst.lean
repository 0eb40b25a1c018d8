import Verif.Props.SurdRing
import Verif.DiffFn

set_option autoImplicit false
set_option linter.unusedSectionVars false
set_option linter.unusedSimpArgs false
set_option linter.unusedVariables false

/-!
# Helper lemmas: substitution in and derivatives of sums of multiples of square roots
-/

namespace Tsym.Sd

open Expr Surds

variable {D : Type} [Flt D] [LawfulFlt D] {cfg : Cfg D}

/-! ## Substitution -/

theorem subst_num (s : Sym) (r : Expr D) (x : Number D) : Tot cfg (fun E => E.subst (.sym s) r (num x)) (num x) :=
  tot_subst (by simp only [subst, show isEqual (num x) (.sym s : Expr D) = false from rfl, Bool.false_eq_true, if_false]; exact tot_pure _)

theorem subst_root (s : Sym) (r : Expr D) {n : ℕ} (hn : Squarefree n) (h1 : n ≠ 1) :
    Tot cfg (fun E => E.subst (.sym s) r (rootE (n : ℚ))) (rootE (n : ℚ)) := by
  have h := (tot_rootE (D := D) (cfg := cfg) (SM.simple _ hn h1)).1
  rw [rootE_nat h1] at h ⊢
  refine tot_subst ?_
  simp only [subst, show isEqual (.pow (num (.rat (n : ℚ))) (num (.rat (1 / 2)))) (.sym s : Expr D) = false from rfl, Bool.false_eq_true, if_false]
  exact tot_bind (subst_num s r _) (tot_bind (subst_num s r _) (tot_pow h))

theorem subst_em (hc : cfg.Ok) (s : Sym) (r : Expr D) {m : Mo} (hm : SM m.1 m.2) : Tot cfg (fun E => E.subst (.sym s) r (em m)) (em m) := by
  obtain ⟨q, n⟩ := m
  by_cases h1 : n = 1
  · subst h1; rw [em_one]; exact subst_num s r _
  · have he := em_root (D := D) (show (q, n).2 ≠ 1 from h1)
    have hr := subst_root (D := D) (cfg := cfg) s r hm.sf h1
    by_cases hq1 : q = 1
    · subst hq1
      simp only [if_true] at he
      rw [he]; exact hr
    · simp only [hq1, if_false] at he
      have hsn : SM ((1 : ℚ), n).1 ((1 : ℚ), n).2 := ⟨one_ne_zero, hm.sf, by simp⟩
      have e1 : (em (1, n) : Expr D) = rootE (n : ℚ) := by rw [em_root (show ((1 : ℚ), n).2 ≠ 1 from h1)]; simp
      have hp := tot_scale_one (D := D) hc (p := q) hsn hm.ne hq1 hm.cop
      rw [e1, show (q * ((1 : ℚ), n).1, ((1 : ℚ), n).2) = (q, n) by simp, he] at hp
      rw [he]
      refine tot_subst ?_
      simp only [subst, show isEqual (.prod [num (.rat q), rootE (n : ℚ)]) (.sym s : Expr D) = false from rfl, Bool.false_eq_true, if_false, substList, M.mapL]
      exact tot_bind (tot_bind (subst_num s r _) (tot_bind (tot_bind hr (tot_bind (tot_pure _) (tot_pure _))) (tot_pure _))) (tot_prod hp)

theorem subst_sum (hc : cfg.Ok) (s : Sym) (r : Expr D) {L : List (ℚ × ℕ)} (hL : Ok L) :
    Tot cfg (fun E => Api.subst E (expr L) (.sym s) r) (expr L) := by
  have ls := hL.sl
  rw [expr_eq]
  match L, ls with
  | [], _ => exact subst_num s r _
  | [m], h => exact subst_em hc s r (h.sm m (by simp))
  | m :: n :: K, h =>
    have h2 : 2 ≤ (m :: n :: K).length := by simp
    rw [sumOf_two h2]
    refine tot_subst ?_
    simp only [subst, show ∀ l, isEqual (.sum l) (.sym s : Expr D) = false from fun _ => rfl, Bool.false_eq_true, if_false, substList]
    refine tot_bind (a := (m :: n :: K).map em) ?_ (tot_sum (sum_self h h2))
    have := tot_mapL (cfg := cfg) (f := fun E => E.subst (.sym s) r) (g := id) (l := (m :: n :: K).map (em (D := D))) (fun e he => by
      obtain ⟨k, hk, rfl⟩ := List.mem_map.1 he
      exact subst_em hc s r (h.sm k hk))
    rwa [List.map_id] at this

/-! ## Derivatives -/

theorem diff_num (s : Sym) (x : Number D) : Tot cfg (fun E => E.diff (.sym s) (num x)) (zero : Expr D) :=
  tot_diff (by simp only [diff]; exact tot_pure _)

theorem log_nat {n : ℕ} (hn : 2 ≤ n) : Tot cfg (fun E => E.logCreate (num (.rat (n : ℚ)))) (.fn .log (num (.rat (n : ℚ))) : Expr D) := by
  have z : (num (.rat (n : ℚ)) : Expr D).isZero = false := by rw [isZero_ratE]; simp; omega
  have o : (num (.rat (n : ℚ)) : Expr D).isOne = false := by rw [isOne_ratE]; simp; omega
  refine tot_log ?_
  unfold logCreate
  refine tot_bind (a := false) ?_ ?_
  · simp only [isInvalidArg, z, show (num (.rat (n : ℚ)) : Expr D).isUndefined = false from rfl, show (num (.rat (n : ℚ)) : Expr D).isPower = false from rfl,
      Bool.or_self, Bool.false_and, Bool.false_eq_true, if_false]
    refine tot_whenTrue (tot_bind (a := false) (tot_isNeg ?_) ?_)
    · have : (Number.rat (n : ℚ) : Number D).lt 0 = false := by
        rw [Bool.eq_false_iff, Ne, Number.lt_iff]; simp
      simp only [isNeg, this]; exact tot_pure _
    · simp only [Bool.false_eq_true, if_false, evalsTo]
      refine tot_bind (tot_lift (numEval_rat _)) ?_
      have : (Number.rat (n : ℚ) : Number D).eqv 0 = false := by
        rw [Bool.eq_false_iff, Ne, Number.eqv_iff]; simp; omega
      simp only [this]; exact tot_pure _
  · simp only [o, Bool.false_eq_true, if_false, Number.isRational, if_true]; exact tot_pure _

theorem two_zeros (hc : cfg.Ok) : Tot cfg (fun E => E.sumCreate [zero, zero]) (zero : Expr D) := by
  have := Dfn.tot_sum_nums hc (cfg := cfg) (D := D) 0 0
  rwa [add_zero, ← zero_eq] at this

theorem diff_root (hc : cfg.Ok) (s : Sym) {n : ℕ} (hn : Squarefree n) (h1 : n ≠ 1) :
    Tot cfg (fun E => E.diff (.sym s) (rootE (n : ℚ))) (zero : Expr D) := by
  have h0 := hn.ne_zero
  have hf : NumOk cfg.maxPrime (((n : ℤ) : ℤ) : ℚ) := by
    refine .inr ⟨?_, ?_⟩
    · intro p hp hd
      have hd' : p ^ 4 ∣ n := by simpa using hd
      have : p * p ∣ n := Dvd.dvd.trans ⟨p * p, by ring⟩ hd'
      exact hp.one_lt.ne' (Nat.isUnit_iff.1 (hn p this))
    · intro p hp hd
      simp only [Int.cast_natCast, Rat.den_natCast, Nat.dvd_one] at hd
      have := Nat.pow_le_pow_left hp.two_le 4
      omega
  have hi := tot_oneOver_num (D := D) hc (d := (n : ℤ)) (by exact_mod_cast h0) hf
  have ei : (Expr.int (n : ℤ) : Expr D) = num (.rat (n : ℚ)) := by simp [Expr.int]
  rw [ei] at hi
  rw [rootE_nat h1]
  refine tot_diff ?_
  simp only [diff]
  exact tot_bind (log_nat (by omega)) (tot_bind (diff_num s _) (tot_bind (Dfn.tot_times_zero rfl) (tot_bind hi (tot_bind (diff_num s _)
    (tot_bind (Dfn.tot_three_zero rfl rfl) (tot_bind (two_zeros hc) (Dfn.tot_times_zero rfl)))))))

theorem diff_em (hc : cfg.Ok) (s : Sym) {m : Mo} (hm : SM m.1 m.2) : Tot cfg (fun E => E.diff (.sym s) (em m)) (zero : Expr D) := by
  obtain ⟨q, n⟩ := m
  by_cases h1 : n = 1
  · subst h1; rw [em_one]; exact diff_num s _
  · have he := em_root (D := D) (show (q, n).2 ≠ 1 from h1)
    have hr := diff_root (D := D) hc s hm.sf h1
    rw [he]
    split
    · exact hr
    · refine tot_diff ?_
      have hu : (rootE (n : ℚ) : Expr D).isUndefined = false := by rw [rootE_nat h1]; rfl
      simp only [diff, diffProd]
      refine tot_bind (a := [zero, zero]) (tot_bind (diff_num s _) (tot_bind (a := zero) ?_ (tot_bind (a := [zero])
        (tot_bind hr (tot_bind (a := zero) ?_ (tot_bind (a := []) (tot_pure _) (tot_pure _)))) (tot_pure _)))) (two_zeros hc)
      · exact tot_prod_zero (by simp [hu]; rfl) (by simp)
      · exact tot_prod_zero (by simp; exact ⟨rfl, rfl⟩) (by simp)

theorem sum_zeros {L : List Mo} (hne : L ≠ []) : Tot cfg (fun E => sumCreate E (L.map fun _ => (zero : Expr D))) zero := by
  obtain ⟨R, hR, A⟩ := tot_sumCreate (D := D) (cfg := cfg) (Ls := L.map fun _ => []) (by simpa using hne) (by
    intro l hl
    obtain ⟨_, _, rfl⟩ := List.mem_map.1 hl
    exact SL.nil)
  have hco : co R = co [] := by
    rw [A.co, List.map_map]
    have : (L.map (co ∘ fun _ => ([] : List Mo))).sum = 0 := by
      refine List.sum_eq_zero fun x hx => ?_
      obtain ⟨_, _, rfl⟩ := List.mem_map.1 hx
      rfl
    rw [this]; rfl
  rw [List.map_map, SL.ext A.sl SL.nil hco] at hR
  exact hR

theorem diff_sum (hc : cfg.Ok) (s : Sym) {L : List (ℚ × ℕ)} (hL : Ok L) :
    Tot cfg (fun E => Api.diff E (expr L) (.sym s)) (zero : Expr D) := by
  have ls := hL.sl
  rw [expr_eq]
  simp only [Api.diff, isSymbol, if_true]
  match L, ls with
  | [], _ => exact diff_num s _
  | [m], h => exact diff_em hc s (h.sm m (by simp))
  | m :: n :: K, h =>
    have h2 : 2 ≤ (m :: n :: K).length := by simp
    rw [sumOf_two h2]
    refine tot_diff ?_
    simp only [diff]
    refine tot_bind (a := (m :: n :: K).map fun _ => zero) ?_ (tot_sum (sum_zeros (by simp)))
    have := tot_mapL (cfg := cfg) (f := fun E => E.diff (.sym s)) (g := fun _ => zero) (l := (m :: n :: K).map (em (D := D))) (fun e he => by
      obtain ⟨k, hk, rfl⟩ := List.mem_map.1 he
      exact diff_em hc s (h.sm k hk))
    rwa [List.map_map] at this

end Tsym.Sd
