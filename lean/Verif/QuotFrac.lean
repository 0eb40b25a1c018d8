import Verif.QuotNormal

set_option autoImplicit false
set_option linter.unusedSectionVars false
set_option linter.unusedSimpArgs false
set_option linter.unusedVariables false

/-!
# Helper lemmas: numerator and denominator of a quotient of expanded polynomials
-/

namespace Tsym

open Expr
open scoped Classical

variable {D : Type} [Flt D] [LawfulFlt D] {cfg : Cfg D}

/-! ## Powers -/

theorem EP.eq_one {e : Expr D} (he : EP e) (h1 : e.isOne = true) : e = one :=
  he.unique (by rw [one_eq]; exact EP.num 1) (by rw [he.isOne_poly h1, one_eq, poly_ratE]; simp)

theorem tot_pow_one {e : Expr D} (he : EP e) (h0 : poly e ≠ 0) : Tot cfg (fun E => E.powCreate e (.int 1)) e := by
  refine tot_pow ?_
  unfold powCreate
  have hu := he.isUndefined
  have e0 : (int 1 : Expr D).isUndefined = false := rfl
  have e2 : (int 1 : Expr D).isZero = false := by rw [isZero_int]; simp
  have e3 : (int 1 : Expr D).isOne = true := by rw [isOne_int]; simp
  by_cases h1 : e.isOne = true
  · rw [he.eq_one h1] at hu ⊢
    simp only [e0, hu, isOne_one, Bool.or_true, Bool.or_self, Bool.false_eq_true, if_false, if_true]
    exact tot_pure _
  · rw [Bool.not_eq_true] at h1
    have hz : e.isZero = false := by rw [Bool.eq_false_iff]; exact fun h => h0 (he.isZero.1 h)
    simp only [e0, hu, e2, e3, h1, hz, Bool.or_false, Bool.or_self, Bool.false_eq_true, if_false, if_true]
    exact tot_pure _

theorem tot_pow_unit {k : ℤ} (hk : k ≠ 0) : Tot cfg (fun E => E.powCreate one (.int k)) (one : Expr D) := by
  refine tot_pow ?_
  unfold powCreate
  have : ((.int k : Expr D).isUndefined || (one : Expr D).isUndefined) = false := rfl
  simp only [this, isOne_one, Bool.or_true, Bool.false_eq_true, if_false, if_true]
  exact tot_pure _

theorem rts_normalPow (hc : cfg.Ok) {b n d n' d' : Expr D} {k : ℤ} (hb : ∀ S, Rts cfg (fun E => E.normalFrac b S) (⟨n, d⟩, S)) (hn : EP n) (hd : EP d)
    (h0 : poly d ≠ 0) (hk : k ≠ 0) (h1 : Tot cfg (fun E => E.powCreate n (.int k.natAbs)) n') (h2 : Tot cfg (fun E => E.powCreate d (.int k.natAbs)) d') (S : SMap D) :
    Rts cfg (fun E => E.normalFrac (.pow b (.int k)) S) (if 0 < k then ⟨n', d'⟩ else ⟨d', n'⟩, S) := by
  refine rts_succ (fun _ => rfl) (f := fun E => normalFrac E (.pow b (.int k)) S) ?_
  simp only [normalFrac]
  unfold normalPow
  refine rts_bind (hb S) (rts_bind (tot_normal_int hc k).rts ?_)
  have hu : Tot cfg (fun E => isBaseOrExpUndefined E (⟨n, d⟩ : Frac D) (.int k)) false := by
    unfold isBaseOrExpUndefined
    have hz : d.isZero = false := by rw [Bool.eq_false_iff]; exact fun h => h0 (hd.isZero.1 h)
    simp only [hn.isUndefined, hd.isUndefined, hz, Bool.or_self, Bool.false_eq_true, if_false]
    refine tot_bind (rts_expandsToZero hc hd.pol h0) ?_
    exact tot_pure _
  refine rts_bind hu.rts ?_
  simp only [Bool.false_eq_true, if_false]
  refine rts_bind (tot_lift (numEval_int _)).rts ?_
  simp only [Number.rat_isInt, if_true]
  have hab : (Number.rat (k : ℚ) : Number D).abs = .rat ((k.natAbs : ℤ) : ℚ) := by
    unfold Number.abs
    rw [Number.zero_def, lt_rat]
    by_cases h : k < 0
    · have h' : (k : ℚ) < 0 := by exact_mod_cast h
      have e : (k.natAbs : ℤ) = -k := by omega
      simp only [h', decide_true, if_true, Number.neg, e]
      push_cast; rfl
    · have h' : ¬ (k : ℚ) < 0 := by exact_mod_cast h
      have e : (k.natAbs : ℤ) = k := by omega
      simp only [h', decide_false, Bool.false_eq_true, if_false, e]
  have hi : Tot cfg (fun E => normalIntegerExp E (⟨n, d⟩ : Frac D) (.rat (k : ℚ))) (if 0 < k then ⟨n', d'⟩ else ⟨d', n'⟩) := by
    unfold normalIntegerExp
    rw [hab]
    refine tot_bind h1 (tot_bind h2 ?_)
    rw [Number.zero_def, lt_rat, lt_rat]
    have e1 : ((0 : ℚ) < k) ↔ 0 < k := by exact_mod_cast Iff.rfl
    have e2 : ((k : ℚ) < 0) ↔ k < 0 := by exact_mod_cast Iff.rfl
    by_cases h : 0 < k
    · simp only [e1, h, decide_true, if_true]; exact tot_pure _
    · have h' : k < 0 := by omega
      simp only [e1, e2, h, h', decide_true, decide_false, Bool.false_eq_true, if_false, if_true]; exact tot_pure _
  exact rts_bind hi.rts (tot_pure _).rts

/-! ## Factors -/

/-- What is found for a factor. -/
structure FFrac (cfg : Cfg D) (f : Expr D × ℤ) (F : Frac D) (κ : ℚ) : Prop where
  ne : κ ≠ 0
  rts : ∀ S, Rts cfg (fun E => E.normalFrac (Zf.fac f) S) (F, S)
  epn : EP F.num
  epd : EP F.denom
  num : poly F.num = MvPolynomial.C κ * poly f.1 ^ f.2.toNat
  denom : poly F.denom = MvPolynomial.C κ * poly f.1 ^ (-f.2).toNat
  sym : (∃ s, f.1 = .sym s) → EM F.num ∧ EM F.denom
  neg : f.2 < 0 → ∃ q : ℚ, F.num = .num (.rat q)
  pos : 0 < f.2 → ∃ q : ℚ, F.denom = .num (.rat q)

theorem poly_symPow (s : Sym) (n : ℕ) : poly (symPow s n : Expr D) = poly (.sym s : Expr D) ^ n := by
  unfold symPow
  split
  · rename_i h; rw [h, pow_zero, one_eq, poly_ratE, map_one]
  · unfold symFac fac
    split
    · rename_i h; simp only at h; rw [h, pow_one]
    · simp [poly, Expr.int]

theorem ffrac_sym (hc : cfg.Ok) {s : Sym} (hs : s.id.Ok) {k : ℤ} (hk : k ≠ 0) : ∃ F, FFrac cfg ((.sym s : Expr D), k) F 1 := by
  have hsy : ∀ S : SMap D, Rts cfg (fun E => E.normalFrac (.sym s) S) (⟨.sym s, one⟩, S) := fun S =>
    (tot_succ (fun _ => rfl) (f := fun E => normalFrac E (.sym s) S) (tot_pure _)).rts
  have h1 : EM (one : Expr D) := by rw [one_eq]; exact EM.num 1
  have p1 : poly (one : Expr D) = 1 := by rw [one_eq, poly_ratE, map_one]
  have hsp : EM (symPow s k.natAbs : Expr D) := by
    unfold symPow; rw [if_neg (by omega)]; exact EM.symFac ⟨hs, by simp only; omega⟩
  have key : ∀ S : SMap D, Rts cfg (fun E => E.normalFrac (Zf.fac ((.sym s : Expr D), k)) S) (if 0 < k then ⟨symPow s k.natAbs, one⟩ else ⟨one, symPow s k.natAbs⟩, S) := by
    intro S
    by_cases h : k = 1
    · subst h
      have : (symPow s (1 : ℤ).natAbs : Expr D) = .sym s := by simp [symPow, symFac, fac]
      rw [this]
      simpa [Zf.fac] using hsy S
    · have := rts_normalPow hc hsy (EP.sym hs) h1.1 (by rw [p1]; exact one_ne_zero) hk (tot_pow (tot_powSym s k.natAbs)) (tot_pow_unit (by omega)) S
      simpa [Zf.fac, h] using this
  by_cases hp : 0 < k
  · simp only [hp, if_true] at key
    refine ⟨_, one_ne_zero, key, hsp.1, h1.1, ?_, ?_, fun _ => ⟨hsp, h1⟩, fun h => ?_, fun _ => ⟨1, one_eq⟩⟩
    · have e : k.natAbs = k.toNat := by omega
      simp only [poly_symPow, e]; simp
    · have e : (-k).toNat = 0 := by omega
      simp only [p1, e]; simp
    · simp only at h; omega
  · simp only [hp, if_false] at key
    refine ⟨_, one_ne_zero, key, h1.1, hsp.1, ?_, ?_, fun _ => ⟨h1, hsp⟩, fun _ => ⟨1, one_eq⟩, fun h => ?_⟩
    · have e : k.toNat = 0 := by omega
      simp only [p1, e]; simp
    · have e : k.natAbs = (-k).toNat := by omega
      simp only [poly_symPow, e]; simp
    · exact absurd h hp

theorem ffrac_sum (hc : cfg.Ok) (hp : cfg.maxPrime < 324) {u : Expr D} (hu : EP u) (hs : u.isSum = true) (h0 : poly u ≠ 0) (hb : ∀ t, ((poly u).degreeOf t : ℤ) < intMax)
    {k : ℤ} (hk : k = 1 ∨ k = -1) : ∃ F κ, FFrac cfg (u, k) F κ := by
  obtain ⟨n, d, h1, h2, h3⟩ := nf_ep hc hu hb fun _ => .inl hp
  have hd0 : (d : ℚ) ≠ 0 := by exact_mod_cast h2.pos.ne'
  have hns : ¬ ∃ s, u = .sym s := by rintro ⟨s, rfl⟩; cases hs
  have pn : poly n = MvPolynomial.C (d : ℚ) * poly u := by rw [← h2.eq, mul_comm]
  rcases hk with rfl | rfl
  · refine ⟨⟨n, .int d⟩, d, hd0, fun S => by simpa [Zf.fac] using h1 S, h2.ep, EP.int d, by simpa using pn, by simp [poly_int], fun h => absurd h hns, fun h => ?_, fun _ => ⟨_, rfl⟩⟩
    simp only at h; omega
  · have := rts_normalPow hc h1 h2.ep (EP.int d) (by rw [poly_int]; simpa using hd0) (k := -1) (by decide) (tot_pow_one h2.ep (by rw [pn]; exact mul_ne_zero (by simpa using hd0) h0))
      (tot_pow_one (EP.int d) (by rw [poly_int]; simpa using hd0))
    refine ⟨⟨.int d, n⟩, d, hd0, fun S => by simpa [Zf.fac] using this S, EP.int d, h2.ep, by simp [poly_int], by simpa using pn, fun h => absurd h hns, fun _ => ⟨_, rfl⟩, fun h => ?_⟩
    simp only at h; omega

/-! ## Products -/

theorem rts_normalOperands_list {l : List (Expr D)} {Fs : List (Frac D)} (h : List.Forall₂ (fun e F => ∀ S, Rts cfg (fun E => E.normalFrac e S) (F, S)) l Fs) (S : SMap D) :
    Rts cfg (fun E => normalOperands E l S) (Fs, S) := by
  induction h with
  | nil => exact (tot_pure _).rts
  | cons h1 h2 ih => exact rts_bind (h1 S) (rts_bind ih (tot_pure _).rts)

/-- Numbers and at most one sum. -/
theorem mix_of {R : List (Expr D × ℤ)} (hR : Zf.Can cfg R) {N : Expr D × ℤ → Expr D} {T : Expr D × ℤ → Prop} {u : Expr D} {pre : List (Expr D)}
    (hpre : ∀ e ∈ pre, ∃ q : ℚ, e = .num (.rat q)) (hnum : ∀ f ∈ R, ¬ T f → ∃ q : ℚ, N f = .num (.rat q)) (hsym : ∀ f ∈ R, (∃ s, f.1 = .sym s) → EM (N f))
    (h : (∀ f ∈ R, T f → ∃ s, f.1 = .sym s) ∨ ∀ f ∈ R, T f → f.1 = u) :
    (∀ e ∈ pre ++ R.map N, EM e) ∨ ∃ A₁ s A₂, pre ++ R.map N = A₁ ++ s :: A₂ ∧ ∀ e ∈ A₁ ++ A₂, ∃ q : ℚ, e = .num (.rat q) := by
  have hE : (∀ f ∈ R, T f → ∃ s, f.1 = .sym s) → ∀ e ∈ pre ++ R.map N, EM e := by
    intro h e he
    rcases List.mem_append.1 he with he | he
    · obtain ⟨q, rfl⟩ := hpre e he; exact EM.num q
    · obtain ⟨f, hf, rfl⟩ := List.mem_map.1 he
      by_cases ht : T f
      · exact hsym f hf (h f hf ht)
      · obtain ⟨q, hq⟩ := hnum f hf ht; rw [hq]; exact EM.num q
  rcases h with h | h
  · exact .inl (hE h)
  by_cases hx : ∃ f ∈ R, T f
  · obtain ⟨f, hf, ht⟩ := hx
    obtain ⟨R₁, R₂, rfl⟩ := List.append_of_mem hf
    refine .inr ⟨pre ++ R₁.map N, N f, R₂.map N, by simp, fun e he => ?_⟩
    have hne : ∀ g ∈ R₁ ++ R₂, g.1 ≠ f.1 := by
      intro g hg e
      have hg' : g ∈ R₁ ++ f :: R₂ := by
        rw [List.mem_append] at hg; rw [List.mem_append, List.mem_cons]; tauto
      have hgf : g = f := Prod.ext e (by
        rw [← ((hR.mem_iff g).1 hg').1, ← ((hR.mem_iff f).1 hf).1, e])
      have := hR.nodup
      rw [hgf] at hg
      rw [List.nodup_middle] at this
      exact (List.nodup_cons.1 this).1 hg
    have hn : ∀ g ∈ R₁ ++ R₂, ∃ q : ℚ, N g = .num (.rat q) := fun g hg => by
      have hg' : g ∈ R₁ ++ f :: R₂ := by
        rw [List.mem_append] at hg; rw [List.mem_append, List.mem_cons]; tauto
      exact hnum g hg' fun ht' => hne g hg ((h g hg' ht').trans (h f hf ht).symm)
    simp only [List.mem_append, List.mem_map] at he
    rcases he with (he | ⟨g, hg, rfl⟩) | ⟨g, hg, rfl⟩
    · exact hpre e he
    · exact hn g (by simp [hg])
    · exact hn g (by simp [hg])
  · exact .inl (hE fun f hf ht => absurd ⟨f, hf, ht⟩ hx)

/-- What is found for a quotient. -/
structure QFrac (cfg : Cfg D) (p w : MvPolynomial Sym ℚ) (x n d : Expr D) : Prop where
  rs : ∀ S, Rs cfg (fun σ => pval σ w ≠ 0) (fun E => E.normalFrac x S) (⟨n, d⟩, S)
  epn : EP n
  epd : EP d
  ne : poly d ≠ 0
  eq : poly n * w = p * poly d
  low : ∀ y, y ∣ poly n → y ∣ poly d → IsUnit y

theorem C_mul_dvd {a b : ℚ} (hb : b ≠ 0) {p q : MvPolynomial Sym ℚ} (h : p ∣ q) (ha : a ≠ 0) : MvPolynomial.C a * p ∣ MvPolynomial.C b * q := by
  have h1 : MvPolynomial.C (σ := Sym) a ∣ MvPolynomial.C b := (isUnit_C ha).dvd
  exact mul_dvd_mul h1 h

/-- The factors of the quotient of two polynomials. -/
structure QTerm (cfg : Cfg D) (u v : Expr D) (q : ℚ) (R : List (Expr D × ℤ)) : Prop where
  ne : q ≠ 0
  can : Zf.Can cfg R
  ep : ∀ f ∈ R, EP f.1 ∧ poly f.1 ≠ 0
  shape : ∀ f ∈ R, (∃ s, f.1 = .sym s) ∨ (f.1.isSum = true ∧ (f.2 = 1 ∨ f.2 = -1))
  pos : (∀ f ∈ R, 0 < f.2 → ∃ s, f.1 = .sym s) ∨ ∀ f ∈ R, 0 < f.2 → f.1 = u
  neg : (∀ f ∈ R, f.2 < 0 → ∃ s, f.1 = .sym s) ∨ ∀ f ∈ R, f.2 < 0 → f.1 = v
  eq : MvPolynomial.C q * pp (Zf.cnt R) * poly v = poly u * pp (-Zf.cnt R)
  num : ∃ a : ℚ, a ≠ 0 ∧ MvPolynomial.C a * pp (Zf.cnt R) ∣ poly u
  denom : ∃ a : ℚ, a ≠ 0 ∧ MvPolynomial.C a * pp (-Zf.cnt R) ∣ poly v

theorem QTerm.ffrac (hc : cfg.Ok) (hp : cfg.maxPrime < 324) {u v : Expr D} {q : ℚ} {R : List (Expr D × ℤ)} (h : QTerm cfg u v q R)
    (hb : ∀ f ∈ R, ∀ t, ((poly f.1).degreeOf t : ℤ) < intMax) : ∀ f ∈ R, ∃ F κ, FFrac cfg f F κ := by
  rintro ⟨b, k⟩ hf
  rcases h.shape _ hf with ⟨s, hs⟩ | ⟨h1, h2⟩
  · simp only at hs
    subst hs
    obtain ⟨F, hF⟩ := ffrac_sym hc (cfg := cfg) ((h.can.facs _ hf).base.sym_ok) (h.can.facs _ hf).ne
    exact ⟨F, 1, hF⟩
  · exact ffrac_sum hc hp (h.ep _ hf).1 h1 (h.ep _ hf).2 (hb _ hf) h2

theorem QTerm.dvd {u v : Expr D} {q : ℚ} {R : List (Expr D × ℤ)} (h : QTerm cfg u v q R) : ∀ f ∈ R, poly f.1 ∣ poly u ∨ poly f.1 ∣ poly v := by
  intro f hf
  obtain ⟨a, ha, hau⟩ := h.num
  obtain ⟨b, hb, hbv⟩ := h.denom
  have hne := (h.can.facs f hf).ne
  rcases lt_or_gt_of_ne hne with hl | hl
  · right
    refine dvd_trans ?_ hbv
    refine dvd_mul_of_dvd_right ?_ _
    rw [pp_neg_can h.can]
    exact dvd_trans (dvd_pow_self _ (by omega)) (List.dvd_prod (List.mem_map_of_mem hf))
  · left
    refine dvd_trans ?_ hau
    refine dvd_mul_of_dvd_right ?_ _
    rw [pp_can h.can]
    exact dvd_trans (dvd_pow_self _ (by omega)) (List.dvd_prod (List.mem_map_of_mem (f := fun f : Expr D × ℤ => poly f.1 ^ f.2.toNat) hf))

theorem C_prod (l : List ℚ) : MvPolynomial.C (σ := Sym) l.prod = (l.map MvPolynomial.C).prod := map_list_prod _ _

theorem qfrac_prod (hc : cfg.Ok) (hp : cfg.maxPrime < 324) {k d : ℕ} (hg : GcdAt cfg k d) (hd : (d : ℤ) < intMax) {Rs' : List Sym} (hR' : Rs'.length ≤ k)
    {u v : Expr D} (hu0 : poly u ≠ 0) (hv0 : poly v ≠ 0) {q : ℚ} {R : List (Expr D × ℤ)} (h : QTerm cfg u v q R) (lu : Lim cfg (poly u) Rs' d) (lv : Lim cfg (poly v) Rs' d)
    (hz : Tot cfg (fun E => expandsToZero E (.prod (Zf.rl q R))) false) (hne : Zf.rl q R ≠ []) : ∃ a b, QFrac cfg (poly u) (poly v) (.prod (Zf.rl q R)) a b := by
  have ff := h.ffrac hc hp fun f hf t => by
    rcases h.dvd f hf with h1 | h1
    · have := (lu.of_dvd hu0 h1).deg t; omega
    · have := (lv.of_dvd hv0 h1).deg t; omega
  have : Nonempty (Frac D) := ⟨⟨one, one⟩⟩
  choose! F κ hF using ff
  set pre : List (Expr D) := if q = 1 then [] else [.num (.rat q)] with hpre
  set fpre : List (Frac D) := if q = 1 then [] else [⟨.int q.num, .int q.den⟩] with hfpre
  have hops : ∀ S, Rts cfg (fun E => normalOperands E (Zf.rl q R) S) (fpre ++ R.map F, S) := by
    refine rts_normalOperands_list ?_
    unfold Zf.rl
    refine List.rel_append ?_ ?_
    · rw [hfpre]
      split
      · exact .nil
      · exact .cons (fun S => (tot_normalFrac_num q S).rts) .nil
    · rw [List.forall₂_map_left_iff, List.forall₂_map_right_iff, List.forall₂_same]
      exact fun f hf => (hF f hf).rts
  have hK : (R.map κ).prod ≠ 0 := by
    refine List.prod_ne_zero fun h0 => ?_
    obtain ⟨f, hf, h1⟩ := List.mem_map.1 h0
    exact (hF f hf).ne h1
  have hnn : (q.num : ℚ) ≠ 0 := by exact_mod_cast Rat.num_ne_zero.2 h.ne
  have hdn : (q.den : ℚ) ≠ 0 := by exact_mod_cast q.den_nz
  have hlen : fpre ++ R.map F ≠ [] := by
    intro h0
    rw [List.append_eq_nil_iff, List.map_eq_nil_iff] at h0
    refine hne ?_
    unfold Zf.rl
    rw [h0.2]
    have h1 := h0.1
    rw [hfpre] at h1
    split at h1
    · rename_i h2; simp [h2]
    · simp at h1
  -- numerator
  have pn : ((fpre ++ R.map F).map fun F => poly F.num).prod = MvPolynomial.C (q.num * (R.map κ).prod) * pp (Zf.cnt R) := by
    rw [List.map_append, List.prod_append, List.map_map, pp_can h.can, map_mul, C_prod, List.map_map, mul_assoc, ← List.prod_map_mul]
    congr 1
    · rw [hfpre]
      split
      · rename_i h1; rw [h1]; simp
      · simp [poly_int]
    · congr 1
      exact List.map_congr_left fun f hf => (hF f hf).num
  have pd : ((fpre ++ R.map F).map fun F => poly F.denom).prod = MvPolynomial.C (q.den * (R.map κ).prod) * pp (-Zf.cnt R) := by
    rw [List.map_append, List.prod_append, List.map_map, pp_neg_can h.can, map_mul, C_prod, List.map_map, mul_assoc, ← List.prod_map_mul]
    congr 1
    · rw [hfpre]
      split
      · rename_i h1; rw [h1]; simp
      · simp [poly_int]
    · congr 1
      exact List.map_congr_left fun f hf => (hF f hf).denom
  obtain ⟨a, ha, hau⟩ := h.num
  obtain ⟨b, hb, hbv⟩ := h.denom
  have hppn : pp (Zf.cnt R) ≠ 0 := by
    intro h0; rw [h0, mul_zero, zero_dvd_iff] at hau; exact hu0 hau
  have hppd : pp (-Zf.cnt R) ≠ 0 := by
    intro h0; rw [h0, mul_zero, zero_dvd_iff] at hbv; exact hv0 hbv
  have hC : ∀ {c : ℚ}, c ≠ 0 → MvPolynomial.C (σ := Sym) c ≠ 0 := fun hc => by simpa using hc
  have hall : ∀ G ∈ fpre ++ R.map F, (EP G.num ∧ poly G.num ≠ 0) ∧ EP G.denom ∧ poly G.denom ≠ 0 := by
    intro G hG
    rcases List.mem_append.1 hG with hG | hG
    · rw [hfpre] at hG
      split at hG
      · simp at hG
      · rw [List.mem_singleton.1 hG]
        exact ⟨⟨EP.int _, by rw [poly_int]; exact hC hnn⟩, EP.int _, by rw [poly_int]; exact hC (by exact_mod_cast hdn)⟩
    · obtain ⟨f, hf, rfl⟩ := List.mem_map.1 hG
      have := hF f hf
      exact ⟨⟨this.epn, by rw [this.num]; exact mul_ne_zero (hC this.ne) (pow_ne_zero _ (h.ep f hf).2)⟩, this.epd,
        by rw [this.denom]; exact mul_ne_zero (hC this.ne) (pow_ne_zero _ (h.ep f hf).2)⟩
  have hprenum : ∀ G ∈ fpre, (∃ q : ℚ, G.num = .num (.rat q)) ∧ ∃ q : ℚ, G.denom = .num (.rat q) := by
    intro G hG
    rw [hfpre] at hG
    split at hG
    · simp at hG
    · rw [List.mem_singleton.1 hG]; exact ⟨⟨_, rfl⟩, _, rfl⟩
  obtain ⟨N, n1, n2, n3⟩ := tot_prod_mix hc (cfg := cfg) (A := (fpre ++ R.map F).map Frac.num) (by simpa using hlen) (by
    intro e he
    obtain ⟨G, hG, rfl⟩ := List.mem_map.1 he
    exact (hall G hG).1) (by
    rw [List.map_append, List.map_map]
    refine mix_of (T := fun f => 0 < f.2) (N := Frac.num ∘ F) h.can (fun e he => ?_) (fun f hf ht => ?_) (fun f hf hs => ((hF f hf).sym hs).1) h.pos
    · obtain ⟨G, hG, rfl⟩ := List.mem_map.1 he; exact (hprenum G hG).1
    · exact (hF f hf).neg (lt_of_le_of_ne (not_lt.1 ht) (h.can.facs f hf).ne))
  obtain ⟨W, w1, w2, w3⟩ := tot_prod_mix hc (cfg := cfg) (A := (fpre ++ R.map F).map Frac.denom) (by simpa using hlen) (by
    intro e he
    obtain ⟨G, hG, rfl⟩ := List.mem_map.1 he
    exact (hall G hG).2) (by
    rw [List.map_append, List.map_map]
    refine mix_of (T := fun f => f.2 < 0) (N := Frac.denom ∘ F) h.can (fun e he => ?_) (fun f hf ht => ?_) (fun f hf hs => ((hF f hf).sym hs).2) h.neg
    · obtain ⟨G, hG, rfl⟩ := List.mem_map.1 he; exact (hprenum G hG).2
    · exact (hF f hf).pos (lt_of_le_of_ne (not_lt.1 ht) (h.can.facs f hf).ne.symm))
  rw [List.map_map] at n3 w3
  have n4 : poly N = MvPolynomial.C (q.num * (R.map κ).prod) * pp (Zf.cnt R) := n3.trans pn
  have w4 : poly W = MvPolynomial.C (q.den * (R.map κ).prod) * pp (-Zf.cnt R) := w3.trans pd
  have hN0 : poly N ≠ 0 := by rw [n4]; exact mul_ne_zero (hC (mul_ne_zero hnn hK)) hppn
  have hW0 : poly W ≠ 0 := by rw [w4]; exact mul_ne_zero (hC (mul_ne_zero hdn hK)) hppd
  have dN : poly N ∣ poly u := by
    refine dvd_trans ?_ hau
    rw [n4]; exact C_mul_dvd ha dvd_rfl (mul_ne_zero hnn hK)
  have dW : poly W ∣ poly v := by
    refine dvd_trans ?_ hbv
    rw [w4]; exact C_mul_dvd hb dvd_rfl (mul_ne_zero hdn hK)
  obtain ⟨a', b', G, c1, c2, c3, c4, c5, c6⟩ := rs_cancel hc hp hg hd hR' n2 w2 hN0 hW0 (lu.of_dvd hu0 dN) (lv.of_dvd hv0 dW)
  have hG0 : G ≠ 0 := by rintro rfl; rw [mul_zero] at c5; exact hW0 c5
  refine ⟨a', b', fun S => ?_, c2, c3, ?_, ?_, c6⟩
  · refine rs_succ (fun _ => rfl) (f := fun E => normalFrac E (.prod (Zf.rl q R)) S) ?_
    simp only [normalFrac]
    refine rs_bind hz.rs ?_
    simp only [Bool.false_eq_true, if_false]
    refine rs_bind (hops S).rs (rs_bind n1.rs (rs_bind w1.rs (rs_bind (c1.mono fun σ hσ h0 => hσ ?_) (tot_pure _).rs)))
    obtain ⟨y, hy⟩ := dW
    rw [hy]; unfold pval at h0 ⊢; rw [map_mul, h0, zero_mul]
  · intro h0; rw [h0, zero_mul] at c5; exact hW0 c5
  · refine mul_right_cancel₀ hG0 ?_
    have e1 : poly a' * poly v * G = poly N * poly v := by rw [c4]; ring
    have e2 : poly u * poly b' * G = poly u * poly W := by rw [c5]; ring
    rw [e1, e2, n4, w4]
    have hq : MvPolynomial.C (σ := Sym) (q.num * (R.map κ).prod) = MvPolynomial.C (q.den * (R.map κ).prod) * MvPolynomial.C q := by
      rw [← map_mul]
      congr 1
      have := Rat.mul_den_eq_num q
      rw [← this]; ring
    rw [hq]
    linear_combination MvPolynomial.C (q.den * (R.map κ).prod) * h.eq

/-! ## The quotient -/

theorem cnt_neg (P : List (Expr D × ℤ)) : Zf.cnt (Zf.sc (-1) P) = -Zf.cnt P := by
  induction P with
  | nil => simp [Zf.sc]
  | cons f P ih =>
    have : Zf.sc (-1) (f :: P) = (f.1, f.2 * -1) :: Zf.sc (-1) P := rfl
    rw [this, Zf.cnt_cons, Zf.cnt_cons, ih, neg_add, mul_neg_one, Finsupp.single_neg]

theorem Pt.cnt_nonneg {u : Expr D} {q : ℚ} {P : List (Expr D × ℤ)} (h : Pt cfg u q P) (b : Expr D) : 0 ≤ Zf.cnt P b := by
  by_contra hn
  have : (b, Zf.cnt P b) ∈ P := (h.can.mem_iff _).2 ⟨rfl, by simp only; omega⟩
  have := h.pos _ this
  simp only at this; omega

theorem Pt.mem_of {u : Expr D} {q : ℚ} {P : List (Expr D × ℤ)} (h : Pt cfg u q P) {b : Expr D} (hb : 0 < Zf.cnt P b) : (b, Zf.cnt P b) ∈ P :=
  (h.can.mem_iff _).2 ⟨rfl, by simp only; omega⟩

theorem Pt.base {u : Expr D} {q : ℚ} {P : List (Expr D × ℤ)} (h : Pt cfg u q P) :
    (∀ f ∈ P, ∃ s, f.1 = .sym s) ∨ (∀ f ∈ P, f = (u, 1)) := by
  rcases h.shape with h1 | ⟨-, h1, -⟩
  · exact .inl h1
  · exact .inr fun f hf => by rw [h1] at hf; exact List.mem_singleton.1 hf

theorem qterm (hc : cfg.Ok) {u v : Expr D} {qu qv : ℚ} {Pu Pv R : List (Expr D × ℤ)} (hu : Pt cfg u qu Pu) (hv : Pt cfg v qv Pv) (hu0 : poly u ≠ 0) (hv0 : poly v ≠ 0)
    (hR : Zf.Can cfg R) (hcnt : Zf.cnt R = Zf.cnt Pu - Zf.cnt Pv) : QTerm cfg u v (qu * qv⁻¹) R := by
  have hmem : ∀ f ∈ R, f.2 = Zf.cnt Pu f.1 - Zf.cnt Pv f.1 := fun f hf => by
    rw [← ((hR.mem_iff f).1 hf).1, hcnt]; rfl
  have hp : ∀ f ∈ R, 0 < f.2 → (f.1, Zf.cnt Pu f.1) ∈ Pu := fun f hf h => hu.mem_of (by
    have := hmem f hf; have := hv.cnt_nonneg f.1; omega)
  have hn : ∀ f ∈ R, f.2 < 0 → (f.1, Zf.cnt Pv f.1) ∈ Pv := fun f hf h => hv.mem_of (by
    have := hmem f hf; have := hu.cnt_nonneg f.1; omega)
  have hor : ∀ f ∈ R, (0 < f.2 ∧ (f.1, Zf.cnt Pu f.1) ∈ Pu) ∨ (f.2 < 0 ∧ (f.1, Zf.cnt Pv f.1) ∈ Pv) := fun f hf => by
    rcases lt_or_gt_of_ne (hR.facs f hf).ne with h | h
    · exact .inr ⟨h, hn f hf h⟩
    · exact .inl ⟨h, hp f hf h⟩
  refine ⟨mul_ne_zero hu.ne (inv_ne_zero hv.ne), hR, fun f hf => ?_, fun f hf => ?_, ?_, ?_, ?_, ?_, ?_⟩
  · rcases hor f hf with ⟨-, h⟩ | ⟨-, h⟩
    · exact ⟨hu.ep (f.1, Zf.cnt Pu f.1) h, hu.poly_ne hu0 (f.1, Zf.cnt Pu f.1) h⟩
    · exact ⟨hv.ep (f.1, Zf.cnt Pv f.1) h, hv.poly_ne hv0 (f.1, Zf.cnt Pv f.1) h⟩
  · have key : ∀ {u : Expr D} {q : ℚ} {P : List (Expr D × ℤ)}, Pt cfg u q P → (f.1, Zf.cnt P f.1) ∈ P → (∃ s, f.1 = .sym s) ∨ (f.1.isSum = true ∧ Zf.cnt P f.1 = 1) := by
      intro u q P hu h
      rcases hu.shape with h1 | ⟨-, h1, h2⟩
      · exact .inl (h1 (f.1, Zf.cnt P f.1) h)
      · have h3 := h
        rw [h1, List.mem_singleton] at h3
        simp only [Prod.mk.injEq] at h3
        refine .inr ⟨by rw [h3.1]; exact h2, ?_⟩
        rw [h1]; exact h3.2
    have h0 := hmem f hf
    have hu' := hu.cnt_nonneg f.1
    have hv' := hv.cnt_nonneg f.1
    rcases hor f hf with ⟨h1, h⟩ | ⟨h1, h⟩
    · rcases key hu h with h2 | ⟨h2, h3⟩
      · exact .inl h2
      · exact .inr ⟨h2, .inl (by omega)⟩
    · rcases key hv h with h2 | ⟨h2, h3⟩
      · exact .inl h2
      · exact .inr ⟨h2, .inr (by omega)⟩
  · rcases hu.base with h | h
    · exact .inl fun f hf h1 => h (f.1, Zf.cnt Pu f.1) (hp f hf h1)
    · exact .inr fun f hf h1 => (Prod.mk.inj (h _ (hp f hf h1))).1
  · rcases hv.base with h | h
    · exact .inl fun f hf h1 => h (f.1, Zf.cnt Pv f.1) (hn f hf h1)
    · exact .inr fun f hf h1 => (Prod.mk.inj (h _ (hn f hf h1))).1
  · rw [hu.poly, hv.poly, hcnt]
    have h1 := pp_sub (Zf.cnt Pu) (Zf.cnt Pv) hu.cnt_nonneg hv.cnt_nonneg
    have h2 : MvPolynomial.C (σ := Sym) (qu * qv⁻¹) * MvPolynomial.C qv = MvPolynomial.C qu := by
      rw [← map_mul, mul_assoc, inv_mul_cancel₀ hv.ne, mul_one]
    linear_combination MvPolynomial.C qu * h1 + pp (Zf.cnt Pu - Zf.cnt Pv) * pp (Zf.cnt Pv) * h2
  · refine ⟨qu, hu.ne, ?_⟩
    rw [hu.poly, hcnt]
    exact mul_dvd_mul_left _ (pp_dvd _ _ hv.cnt_nonneg)
  · refine ⟨qv, hv.ne, ?_⟩
    rw [hv.poly, hcnt, neg_sub]
    exact mul_dvd_mul_left _ (pp_dvd _ _ hu.cnt_nonneg)

theorem Pt.not_nx {u : Expr D} {q : ℚ} {P : List (Expr D × ℤ)} (h : Pt cfg u q P) : ¬ Zf.Nx q P := by
  rintro ⟨h1, l, h2⟩
  rcases h.shape with h3 | ⟨h3, -⟩
  · obtain ⟨s, hs⟩ := h3 (.sum l, 1) (by rw [h2]; simp)
    cases hs
  · exact h1 h3

theorem Pt.xb (hc : cfg.Ok) {u : Expr D} {q : ℚ} {P : List (Expr D × ℤ)} (h : Pt cfg u q P) : ∀ f ∈ P, Zf.XB cfg f.1 := by
  intro f hf
  rcases h.shape with h1 | ⟨-, h1, h2⟩
  · obtain ⟨s, hs⟩ := h1 f hf
    have := (h.can.facs f hf).base
    rw [hs] at this ⊢
    exact .sym s this.sym_ok
  · have h3 := h.ep f hf
    rw [h1, List.mem_singleton] at hf
    rw [hf] at h3 ⊢
    simp only at h3 ⊢
    rcases (h3.zep hc (cfg := cfg)).cases with h4 | ⟨m, m1, m2, m3, m4⟩ | ⟨L, hL, h4, e⟩
    · rw [h4] at h2; cases h2
    · have := (Zf.EM.mono Zf.kl_sb m1 m2 m3).2
      rw [← m4, h2] at this; cases this
    · rw [e]; exact .of_el hL h4

theorem unit_of_dvd_num {y : MvPolynomial Sym ℚ} {q : ℚ} (h : y ∣ poly (.num (.rat q) : Expr D)) (h0 : q ≠ 0) : IsUnit y := by
  rw [poly_ratE] at h
  exact isUnit_of_dvd_unit h (isUnit_C h0)

theorem exists_asg {p : MvPolynomial Sym ℚ} (h : p ≠ 0) : ∃ σ : Asg, σ.Respects ∧ pval σ p ≠ 0 := by
  by_contra hn
  push Not at hn
  exact h (pval_inj fun σ hσ => by rw [hn σ hσ]; simp [pval])

/-- Numerator and denominator of a quotient. -/
theorem tot_quot (hc : cfg.Ok) (hp : cfg.maxPrime < 324) {k d : ℕ} (hg : GcdAt cfg k d) (hd : (d : ℤ) < intMax) {Rs' : List Sym} (hR' : Rs'.length ≤ k)
    {u v : Expr D} (eu : EP u) (ev : EP v) (hu0 : poly u ≠ 0) (hv0 : poly v ≠ 0) (lu : Lim cfg (poly u) Rs' d) (lv : Lim cfg (poly v) Rs' d) :
    ∃ x, Tot cfg (fun E => evalFrac E ⟨u, v⟩) x ∧ ∃ a b, QFrac cfg (poly u) (poly v) x a b := by
  obtain ⟨qu, Pu, hu⟩ := eu.pt hc (cfg := cfg) hu0
  obtain ⟨qv, Pv, hv⟩ := ev.pt hc (cfg := cfg) hv0
  have hsc : ∀ f ∈ Zf.sc (-1) Pv, f.2 < 0 := by
    intro f hf
    obtain ⟨g, hg, rfl⟩ := List.mem_map.1 hf
    have := hv.pos g hg
    simp only; omega
  have t0 := (Zf.tot_pow_term hc hp hv.ne hv.can hv.not_nx (k := -1) (by decide) (by decide)).1 (by
    rintro ⟨h1, l, h2⟩
    have := hsc (.sum l, 1) (by rw [h2]; simp)
    simp at this)
  rw [← hv.eq, zpow_neg_one] at t0
  have t1 : Tot cfg (fun E => E.oneOver v) (Zf.mexpr qv⁻¹ (Zf.sc (-1) Pv)) := by
    simp only [Zf.oneOver_eq]; exact tot_pow t0
  obtain ⟨R, hR, r1, r2⟩ := Zf.tot_prodCreate hc (Ms := [(qu, Pu), (qv⁻¹, Zf.sc (-1) Pv)]) (by
    intro m hm
    simp only [List.mem_cons, List.not_mem_nil, or_false] at hm
    rcases hm with rfl | rfl
    · exact ⟨hu.ne, hu.can.facs⟩
    · exact ⟨inv_ne_zero hv.ne, (hv.can.sc (by decide)).facs⟩) (by simp)
  simp only [List.map_cons, List.map_nil, List.prod_cons, List.prod_nil, mul_one, List.flatMap_cons, List.flatMap_nil, List.append_nil, ← hu.eq] at hR r1 r2
  have hcnt : Zf.cnt R = Zf.cnt Pu - Zf.cnt Pv := by rw [hR.cnt, Zf.cnt_append, cnt_neg, sub_eq_add_neg]
  have hq := qterm hc hu hv hu0 hv0 hR.can hcnt
  set q := qu * qv⁻¹ with hqd
  by_cases hx : Zf.Nx q R
  · -- a number and one sum
    obtain ⟨hq1, l, hl⟩ := hx
    have hf : ((.sum l : Expr D), (1 : ℤ)) ∈ R := by rw [hl]; simp
    have hrl : Zf.rl q R = [.num (.rat q), .sum l] := by rw [hl, Zf.rl_ne hq1]; simp [Zf.fac]
    have esl : EP (.sum l : Expr D) := (hq.ep _ hf).1
    obtain ⟨r, hr, er, pr⟩ := tot_expand_one hc (l := [.num (.rat q), .sum l]) (by
      intro x hx
      simp only [List.mem_cons, List.not_mem_nil, or_false] at hx
      rcases hx with rfl | rfl
      exacts [EP.num q, esl]) (by simp [Expr.isSum, List.filter_cons])
    have t2 := r2 ⟨hq1, l, hl⟩ r (by rw [hrl]; exact hr)
    refine ⟨r, tot_bind t1 (tot_prod t2), ?_⟩
    have e1 : poly r = MvPolynomial.C q * pp (Zf.cnt R) := by
      rw [pr, pp_can hR.can, hl]; simp [poly_ratE]
    have e2 : pp (-Zf.cnt R) = 1 := by rw [pp_neg_can hR.can, hl]; simp
    have e3 : poly r * poly v = poly u := by rw [e1, hq.eq, e2, mul_one]
    obtain ⟨n, z, h1, h2, h3⟩ := nf_ep hc er (fun t => by
      have := (lu.of_dvd hu0 (Dvd.intro _ e3)).deg t; omega) fun _ => .inl hp
    have hz : (z : ℚ) ≠ 0 := by exact_mod_cast h2.pos.ne'
    refine ⟨n, .int z, fun S => (h1 S).rs, h2.ep, EP.int z, by rw [poly_int]; simpa using hz, ?_, fun y _ hy => unit_of_dvd_num hy hz⟩
    rw [← h2.eq, ← e3, poly_int]; ring
  · have t2 := r1 hx
    refine ⟨Zf.mexpr q R, tot_bind t1 (tot_prod t2), ?_⟩
    have hbf : ∀ f ∈ R, ∀ t, ((poly f.1).degreeOf t : ℤ) < intMax := fun f hf t => by
      rcases hq.dvd f hf with h1 | h1
      · have := (lu.of_dvd hu0 h1).deg t; omega
      · have := (lv.of_dvd hv0 h1).deg t; omega
    rcases Zf.mexpr_cases q R with ⟨rfl, e⟩ | ⟨f, rfl, hq1, e⟩ | ⟨h1, h2, e⟩
    · rw [e]
      have hdn : (((q.den : ℤ)) : ℚ) ≠ 0 := by exact_mod_cast q.den_nz
      refine ⟨.int q.num, .int q.den, fun S => (tot_normalFrac_num q S).rs, EP.int _, EP.int _, by rw [poly_int]; simp, ?_, fun y _ hy => unit_of_dvd_num hy hdn⟩
      have := hq.eq
      simp only [pp_can hR.can, pp_neg_can hR.can, List.map_nil, List.prod_nil, mul_one] at this
      rw [← this, poly_int, poly_int]
      have h3 := Rat.mul_den_eq_num q
      rw [← h3]; push_cast; rw [map_mul]; ring
    · rw [e]
      obtain ⟨F, κ, hF⟩ := hq.ffrac hc hp hbf f (by simp)
      have hCk : MvPolynomial.C (σ := Sym) κ ≠ 0 := by simpa using hF.ne
      have hne : f.2 ≠ 0 := (hR.can.facs f (by simp)).ne
      have hpf := (hq.ep f (by simp)).2
      refine ⟨F.num, F.denom, fun S => (hF.rts S).rs, hF.epn, hF.epd, ?_, ?_, fun y hy1 hy2 => ?_⟩
      · rw [hF.denom]; exact mul_ne_zero hCk (pow_ne_zero _ hpf)
      · have := hq.eq
        simp only [pp_can hR.can, pp_neg_can hR.can, List.map_cons, List.map_nil, List.prod_cons, List.prod_nil, mul_one, hq1, map_one, one_mul] at this
        rw [hF.num, hF.denom]
        linear_combination MvPolynomial.C κ * this
      · rcases lt_or_gt_of_ne hne with h | h
        · obtain ⟨c, hc'⟩ := hF.neg h
          have h0 : poly F.num ≠ 0 := by rw [hF.num]; exact mul_ne_zero hCk (pow_ne_zero _ hpf)
          rw [hc'] at hy1 h0
          exact unit_of_dvd_num hy1 (by rintro rfl; exact h0 (by rw [poly_ratE, map_zero]))
        · obtain ⟨c, hc'⟩ := hF.pos h
          have h0 : poly F.denom ≠ 0 := by rw [hF.denom]; exact mul_ne_zero hCk (pow_ne_zero _ hpf)
          rw [hc'] at hy2 h0
          exact unit_of_dvd_num hy2 (by rintro rfl; exact h0 (by rw [poly_ratE, map_zero]))
    · -- the product is not zero
      obtain ⟨σ, hσ, hσ0⟩ := exists_asg (mul_ne_zero hu0 hv0)
      have hpu : pval σ (poly u) ≠ 0 := by intro h; apply hσ0; unfold pval at h ⊢; rw [map_mul, h, zero_mul]
      have hpv : pval σ (poly v) ≠ 0 := by intro h; apply hσ0; unfold pval at h ⊢; rw [map_mul, h, mul_zero]
      have du := den_poly (σ := σ) u eu.polyE
      have dv := den_poly (σ := σ) v ev.polyE
      have dx : den σ (Zf.mexpr q R) = some (pval σ (poly u) / pval σ (poly v)) :=
        Zf.tv (f := fun E => evalFrac E ⟨u, v⟩) (tot_bind t1 (tot_prod t2)) fun n => evalFrac_vl (sound_eng hc n) hσ (f := ⟨u, v⟩) du dv hpv
      have hxb : ∀ f ∈ R, Zf.QF cfg f := by
        intro f hf
        obtain ⟨g, hg, e⟩ := hR.sub f hf
        unfold Zf.QF
        rw [← e]
        rcases List.mem_append.1 hg with hg | hg
        · exact hu.xb hc g hg
        · obtain ⟨g', hg', rfl⟩ := List.mem_map.1 hg
          exact hv.xb hc g' hg'
      obtain ⟨r, x1, x2⟩ := Zf.tot_expand_term hc hp hσ hR.can.facs hxb ⟨_, dx⟩
      have dr := Zf.tv_expand hc hσ x1 dx
      have hz : r.isZero = false := by
        rw [Bool.eq_false_iff]
        intro h
        have h0 : r = zero := by
          rcases x2.cases with h' | ⟨m, m1, m2, m3, m4⟩ | ⟨L, _, _, h'⟩
          · exact h'
          · exfalso
            have h1 : (Zf.em m).isZero = false := Zf.mexpr_isZero m1 m2.facs
            rw [m4, h1] at h; cases h
          · rw [h'] at h; cases h
        rw [h0, zero_eq] at dr
        simp only [den, Option.some.injEq] at dr
        exact div_ne_zero hpu hpv (dr.symm.trans (by simp))
      have x3 := tot_whenTrue (tot_bind (g := fun _ x => pure x.isZero) (tot_expand x1) (tot_pure _))
      rw [hz, e] at x3
      rw [e]
      exact qfrac_prod hc hp hg hd hR' hu0 hv0 hq lu lv x3 (by intro h; rw [h] at h2; simp at h2)

theorem tot_quot_zero (hc : cfg.Ok) (hp : cfg.maxPrime < 324) {v : Expr D} (ev : EP v) (hv0 : poly v ≠ 0) :
    Tot cfg (fun E => evalFrac E ⟨zero, v⟩) (zero : Expr D) := by
  obtain ⟨r, h1, h2⟩ := Zf.tot_inv hc hp (ev.zep hc (cfg := cfg)) (by rintro rfl; exact hv0 poly_zero)
  refine tot_bind h1 (tot_prod ?_)
  unfold prodCreate
  have hu : r.isUndefined = false := h2.1.isUndefined
  have hz : (zero : Expr D).isUndefined = false := rfl
  simp only [List.any_cons, List.any_nil, hu, hz, zero_isZero, Bool.or_false, Bool.true_or, Bool.false_eq_true, if_false, if_true]
  exact tot_pure _

/-- Numerator and denominator of a quotient, whether the dividend is zero or not; and the quotient of the two. -/
theorem tot_quot' (hc : cfg.Ok) (hp : cfg.maxPrime < 324) {k d : ℕ} (hg : GcdAt cfg k d) (hd : (d : ℤ) < intMax) {Rs' : List Sym} (hR' : Rs'.length ≤ k)
    {u v : Expr D} (eu : EP u) (ev : EP v) (hv0 : poly v ≠ 0) (lu : Lim cfg (poly u) Rs' d) (lv : Lim cfg (poly v) Rs' d) :
    ∃ x, Tot cfg (fun E => evalFrac E ⟨u, v⟩) x ∧ ∃ a b, QFrac cfg (poly u) (poly v) x a b := by
  by_cases hu0 : poly u = 0
  · have : u = zero := eu.unique EP.zero (by rw [hu0, poly_zero])
    subst this
    refine ⟨_, tot_quot_zero hc hp ev hv0, .int 0, .int 1, fun S => ?_, EP.int 0, EP.int 1, by simp [poly_int], by simp [poly_int, poly_zero], fun y _ hy => ?_⟩
    · rw [zero_eq]
      exact (tot_normalFrac_num 0 S).rs
    · exact unit_of_dvd_num hy (by simp)
  · exact tot_quot hc hp hg hd hR' eu ev hu0 hv0 lu lv

theorem QFrac.dvd {p w : MvPolynomial Sym ℚ} {x n d : Expr D} (h : QFrac cfg p w x n d) : poly d ∣ w ∧ poly n ∣ p := by
  have hr : IsRelPrime (poly n) (poly d) := fun y h1 h2 => h.low y h1 h2
  constructor
  · exact hr.symm.dvd_of_dvd_mul_left (Dvd.intro_left _ h.eq.symm)
  · exact hr.dvd_of_dvd_mul_right (Dvd.intro _ h.eq)

theorem Lim.of_dvd' {p q : MvPolynomial Sym ℚ} {R : List Sym} {d : ℕ} (h : Lim cfg q R d) (hd : p ∣ q) (h0 : q = 0 → p = 0) : Lim cfg p R d := by
  by_cases hq : q = 0
  · rw [h0 hq]; exact ⟨fun t => by simp, fun t _ => by simp⟩
  · exact h.of_dvd hq hd

theorem rs_fraction (hc : cfg.Ok) {p w : MvPolynomial Sym ℚ} {x n d : Expr D} (h : QFrac cfg p w x n d) :
    Rs cfg (fun σ => pval σ w ≠ 0) (fun E => Api.normalToFraction E x) ⟨n, d⟩ := by
  unfold Api.normalToFraction
  obtain ⟨cs, h1, h2⟩ := rs_capture (h.rs ⟨[], x.tmpIds⟩)
  refine rs_bind h2.rs (rs_bind (tot_capture (tot_replaceBack hc h.epd)).rs (rs_bind (tot_capture (tot_replaceBack hc h.epn)).rs (rs_bind (rs_emit h1) ?_)))
  exact (tot_pure _).rs

theorem rs_normal (hc : cfg.Ok) {p w : MvPolynomial Sym ℚ} {x n d y : Expr D} (h : QFrac cfg p w x n d) (hy : Tot cfg (fun E => evalFrac E ⟨n, d⟩) y) :
    Rs cfg (fun σ => pval σ w ≠ 0) (fun E => E.normal x) y := by
  refine rs_succ (fun _ => rfl) (f := fun E => normal E x) ?_
  unfold normal
  obtain ⟨cs, h1, h2⟩ := rs_capture (h.rs ⟨[], x.tmpIds⟩)
  refine rs_bind h2.rs (rs_bind (tot_capture (tot_replaceBack hc h.epn)).rs (rs_bind (tot_capture (tot_replaceBack hc h.epd)).rs (rs_bind (rs_emit h1) ?_)))
  exact hy.rs

/-- A polynomial over a number. -/
theorem tot_over_num (hc : cfg.Ok) (hp : cfg.maxPrime < 324) {n : Expr D} (hn : EP n) {c : ℚ} (h0 : c ≠ 0) :
    ∃ e, Tot cfg (fun E => evalFrac E ⟨n, .num (.rat c)⟩) e ∧ EP e ∧ poly e * MvPolynomial.C c = poly n := by
  have h := tot_powNum hc (D := D) (cfg := cfg) (q := c) (n := -1) (.inl h0) (by decide) (fun _ => .inl hp)
  rw [zpow_neg_one] at h
  obtain ⟨r, r1, r2, r3⟩ := tot_ep_num hc (cfg := cfg) c⁻¹ hn
  refine ⟨r, tot_bind (a := .num (.rat c⁻¹)) ?_ r1, r2, ?_⟩
  · simp only [Zf.oneOver_eq]; exact tot_pow h
  · rw [r3, mul_right_comm, ← map_mul, inv_mul_cancel₀ h0]; simp

end Tsym
